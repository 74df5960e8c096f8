import Verif.Exec.LayerMat

/-!
# Visibly linear expressions: matrix and value both exist and agree (C24, C88)

`MatBuild.lean` and `LayerMat.lean` compare a matrix that was built with a value that was computed.  Here: for expressions
that are visibly linear in the unknown both exist, for every input.
-/

set_option linter.unusedSectionVars false

namespace Verif.MatBuild

open Finset

variable {α : Type} [Field α] [DecidableEq α]

/-! ## Specification -/

/-- expressions that are visibly linear in the unknown (of `n` DOFs) and have arrays on `m` nodes as values: the unknowns,
non-empty sums, products with coefficients, quotients by literal numbers, interpolation (reproducing constants), layer
potentials -/
inductive LinA (n : Nat) (ctx : String → Option (BV α)) : Nat → ME α → Prop
  | dep : LinA n ctx n .dep
  | other (m) : LinA n ctx m (.otherDep m)
  | sum {m cs} : cs ≠ [] → (∀ c ∈ cs, LinA n ctx m c) → LinA n ctx m (.sum cs)
  | prod {m pre l post} : (∀ c ∈ pre, Coef ctx m c) → LinA n ctx m l → (∀ c ∈ post, Coef ctx m c) →
      LinA n ctx m (.prod (pre ++ l :: post))
  | quot {m a} (b) : LinA n ctx m a → LinA n ctx m (.quot a (.num b))
  | interp {a} (R) : Resamples R → LinA n ctx R.cols a → LinA n ctx R.rows (.interp R a)
  | intG {m} (ps : List (Arr α × ME α)) : ps ≠ [] → (∀ p ∈ ps, p.1.rows = m) →
      (∀ p ∈ ps, LinA n ctx p.1.cols p.2) →
      LinA n ctx m (.intG (ps.map (·.1)) (ps.map (·.2)))

/-! ## Values of coefficients -/

/-- number or array of length `m` -/
def evCoef (m : Nat) : EV α → Prop
  | .sc _ => True
  | .ve k _ => k = m

/-- array of length `m` -/
def evArr (m : Nat) : EV α → Prop
  | .sc _ => False
  | .ve k _ => k = m

theorem evArr_iff {m : Nat} {v : EV α} : evArr m v ↔ ∃ f, v = .ve m f := by
  cases v with
  | sc a => simp [evArr]
  | ve k f =>
    simp only [evArr, EV.ve.injEq]
    constructor
    · rintro rfl; exact ⟨f, rfl, rfl⟩
    · rintro ⟨_, h, _⟩; exact h

theorem evCoef_of_arr {m : Nat} {v : EV α} (h : evArr m v) : evCoef m v := by
  cases v with
  | sc a => trivial
  | ve k f => exact h

theorem ok_of {r : Except Err (EV α)} {v : EV α} {Q : EV α → Prop} (h : r = .ok v) (hq : Q v) : ∃ v, r = .ok v ∧ Q v :=
  ⟨v, h, hq⟩

theorem opEV_coef (op : α → α → α) {m : Nat} {a b : EV α} (ha : evCoef m a) (hb : evCoef m b) :
    ∃ c, opEV op a b = .ok c ∧ evCoef m c := by
  cases a <;> cases b <;> simp only [evCoef] at ha hb
  · exact ⟨_, rfl, trivial⟩
  · exact ⟨_, rfl, hb⟩
  · exact ⟨_, rfl, ha⟩
  · subst ha; subst hb
    exact ok_of (by simp only [opEV, if_true]; rfl) (by simp only [evCoef])

theorem opEV_arr (op : α → α → α) {m : Nat} {a b : EV α} (ha : evCoef m a) (hb : evCoef m b)
    (h : evArr m a ∨ evArr m b) : ∃ c, opEV op a b = .ok c ∧ evArr m c := by
  cases a <;> cases b <;> simp only [evCoef, evArr, or_false, false_or, or_self] at ha hb h
  · exact ⟨_, rfl, hb⟩
  · exact ⟨_, rfl, ha⟩
  · subst ha; subst hb
    exact ok_of (by simp only [opEV, if_true]; rfl) (by simp only [evArr])

section
variable {n : Nat} {x : Nat → α} {ctx : String → Option (BV α)}

theorem evFold_ok (Q P : EV α → Prop) (op : α → α → α)
    (hop : ∀ a b, P a → Q b → ∃ c, opEV op a b = .ok c ∧ P c) : ∀ (cs : List (ME α)) (acc : EV α),
    (∀ c ∈ cs, ∃ v, ev n x ctx c = .ok v ∧ Q v) → P acc → ∃ v, evFold n x ctx op acc cs = .ok v ∧ P v
  | [], acc, _, ha => ⟨acc, by simp only [evFold], ha⟩
  | c :: cs, acc, h, ha => by
    obtain ⟨u, hu, hq⟩ := h c List.mem_cons_self
    obtain ⟨w, hw, hp⟩ := hop acc u ha hq
    simp only [evFold, hu, hw]
    exact evFold_ok Q P op hop cs w (fun c hc => h c (List.mem_cons_of_mem _ hc)) hp

theorem evFold_append (op : α → α → α) : ∀ (as bs : List (ME α)) (acc w : EV α),
    evFold n x ctx op acc as = .ok w → evFold n x ctx op acc (as ++ bs) = evFold n x ctx op w bs
  | [], bs, acc, w, h => by
    simp only [evFold, Except.ok.injEq] at h
    rw [h, List.nil_append]
  | a :: as, bs, acc, w, h => by
    simp only [evFold, List.cons_append] at h ⊢
    cases ha : ev n x ctx a with
    | error e => rw [ha] at h; cases h
    | ok u =>
      rw [ha] at h
      simp only at h ⊢
      cases hu : opEV op acc u with
      | error e => rw [hu] at h; cases h
      | ok y =>
        rw [hu] at h
        exact evFold_append op as bs y w h

theorem mapEV_coef (f : α → α) {m : Nat} {v : EV α} (h : evCoef m v) : evCoef m (mapEV f v) := by
  cases v with
  | sc a => trivial
  | ve k g => exact h

/-- numbers -/
theorem sc_ev {e : ME α} (h : Sc ctx e) : ∃ a, ev n x ctx e = .ok (.sc a) := by
  have key : ∃ v, ev n x ctx e = .ok v ∧ (∃ a, v = .sc a) := by
    induction h with
    | num a => exact ⟨_, by simp only [ev], a, rfl⟩
    | @var s a h => exact ⟨.sc a, by simp only [ev, h, ofBV], a, rfl⟩
    | sum _ ih =>
      simp only [ev]
      exact evFold_ok (fun v => ∃ a, v = .sc a) (fun v => ∃ a, v = .sc a) _
        (by rintro _ _ ⟨a, rfl⟩ ⟨b, rfl⟩; exact ⟨_, rfl, _, rfl⟩) _ _ ih ⟨_, rfl⟩
    | prod _ ih =>
      simp only [ev]
      exact evFold_ok (fun v => ∃ a, v = .sc a) (fun v => ∃ a, v = .sc a) _
        (by rintro _ _ ⟨a, rfl⟩ ⟨b, rfl⟩; exact ⟨_, rfl, _, rfl⟩) _ _ ih ⟨_, rfl⟩
    | quot _ _ ih1 ih2 =>
      obtain ⟨_, h1, a, rfl⟩ := ih1
      obtain ⟨_, h2, b, rfl⟩ := ih2
      exact ⟨_, by simp only [ev, h1, h2, opEV]; rfl, _, rfl⟩
    | pow k _ ih =>
      obtain ⟨_, h1, a, rfl⟩ := ih
      exact ⟨_, by simp only [ev, h1, mapEV]; rfl, _, rfl⟩
    | call f _ ih =>
      obtain ⟨_, h1, a, rfl⟩ := ih
      exact ⟨_, by simp only [ev, h1, mapEV]; rfl, _, rfl⟩
  obtain ⟨_, h, a, rfl⟩ := key
  exact ⟨a, h⟩

mutual
theorem vec_ev {m : Nat} {e : ME α} (h : Vec ctx m e) : ∃ v, ev n x ctx e = .ok v ∧ evCoef m v := by
  match h with
  | .var (f := f) h => exact ⟨.ve m f, by simp only [ev, h, ofBV], rfl⟩
  | .coord (f := f) => exact ⟨.ve m f, by simp only [ev], rfl⟩
  | .refC R f hm =>
    exact ⟨.ve R.rows (fun i => ∑ k ∈ Finset.range R.cols, R.get i k * f k),
      by simp only [ev, refDEV, applyEV, if_true], hm⟩
  | .refD (f := f) R h hm =>
    exact ⟨.ve R.rows (fun i => ∑ k ∈ Finset.range R.cols, R.get i k * f k),
      by simp only [ev, h, ofBV, refDEV, applyEV, if_true], hm⟩
  | .sum (cs := cs) hs =>
    have ih : ∀ c ∈ cs, ∃ v, ev n x ctx c = .ok v ∧ evCoef m v := fun c hc => vec_ev (hs c hc)
    simp only [ev]
    exact evFold_ok (evCoef m) (evCoef m) _ (fun a b ha hb => opEV_coef _ ha hb) cs _ ih trivial
  | .prod (pre := pre) (v := v) (post := post) h1 h2 h3 =>
    have i1 : ∀ c ∈ pre, ∃ v, ev n x ctx c = .ok v ∧ evCoef m v := fun c hc => coef_ev (h1 c hc)
    have i2 := vec_ev h2
    have i3 : ∀ c ∈ post, ∃ v, ev n x ctx c = .ok v ∧ evCoef m v := fun c hc => coef_ev (h3 c hc)
    simp only [ev]
    refine evFold_ok (evCoef m) (evCoef m) _ (fun a b ha hb => opEV_coef _ ha hb) _ _ ?_ trivial
    intro c hc
    simp only [List.mem_append, List.mem_cons] at hc
    rcases hc with hc | rfl | hc
    · exact i1 c hc
    · exact i2
    · exact i3 c hc
  | .quot h1 h2 =>
    obtain ⟨u, hu, hp⟩ := vec_ev h1
    obtain ⟨v, hv, hq⟩ := coef_ev h2
    simp only [ev, hu, hv]
    exact opEV_coef _ hp hq
theorem coef_ev {m : Nat} {e : ME α} (h : Coef ctx m e) : ∃ v, ev n x ctx e = .ok v ∧ evCoef m v := by
  match h with
  | .sc h => obtain ⟨a, ha⟩ := sc_ev (n := n) (x := x) h; exact ⟨_, ha, trivial⟩
  | .vec h => exact vec_ev h
  | .prod (cs := cs) hs =>
    have ih : ∀ c ∈ cs, ∃ v, ev n x ctx c = .ok v ∧ evCoef m v := fun c hc => coef_ev (hs c hc)
    simp only [ev]
    exact evFold_ok (evCoef m) (evCoef m) _ (fun a b ha hb => opEV_coef _ ha hb) cs _ ih trivial
  | .quot h1 h2 =>
    obtain ⟨u, hu, hp⟩ := coef_ev h1
    obtain ⟨v, hv, hq⟩ := coef_ev h2
    simp only [ev, hu, hv]
    exact opEV_coef _ hp hq
  | .pow k h =>
    obtain ⟨u, hu, hp⟩ := coef_ev h
    exact ⟨_, by simp only [ev, hu]; rfl, mapEV_coef _ hp⟩
  | .call f h =>
    obtain ⟨u, hu, hp⟩ := coef_ev h
    exact ⟨_, by simp only [ev, hu]; rfl, mapEV_coef _ hp⟩
end

/-! ## Coefficients are in the fragment -/

theorem noDepL_iff {cs : List (ME α)} : noDepL cs ↔ ∀ c ∈ cs, noDep c := by
  induction cs with
  | nil => simp [noDepL]
  | cons c cs ih => simp [noDepL, ih]

theorem fragL_iff {cs : List (ME α)} : FragL cs ↔ ∀ c ∈ cs, Frag c := by
  induction cs with
  | nil => simp [FragL]
  | cons c cs ih => simp [FragL, ih]

theorem sc_frag {e : ME α} (h : Sc ctx e) : Frag e ∧ noDep e := by
  induction h with
  | num a => simp [Frag, noDep]
  | var h => simp [Frag, noDep]
  | sum _ ih => exact ⟨fragL_iff.2 fun c hc => (ih c hc).1, noDepL_iff.2 fun c hc => (ih c hc).2⟩
  | prod _ ih => exact ⟨fragL_iff.2 fun c hc => (ih c hc).1, noDepL_iff.2 fun c hc => (ih c hc).2⟩
  | quot _ _ h1 h2 => exact ⟨⟨h1.1, h2.1, Or.inl ⟨h1.2, h2.2⟩⟩, h1.2, h2.2⟩
  | pow k _ h => exact ⟨⟨h.1, h.2⟩, h.2⟩
  | call f _ h => exact ⟨h.1, h.2⟩

mutual
theorem vec_frag {m : Nat} {e : ME α} (h : Vec ctx m e) : Frag e ∧ noDep e := by
  match h with
  | .var h => simp [Frag, noDep]
  | .coord => simp [Frag, noDep]
  | .refC R f hm => simp [Frag, noDep]
  | .refD R h hm => simp [Frag, noDep]
  | .sum (cs := cs) hs =>
    have ih : ∀ c ∈ cs, Frag c ∧ noDep c := fun c hc => vec_frag (hs c hc)
    exact ⟨fragL_iff.2 fun c hc => (ih c hc).1, noDepL_iff.2 fun c hc => (ih c hc).2⟩
  | .prod (pre := pre) (v := v) (post := post) h1 h2 h3 =>
    have i1 : ∀ c ∈ pre, Frag c ∧ noDep c := fun c hc => coef_frag (h1 c hc)
    have i2 := vec_frag h2
    have i3 : ∀ c ∈ post, Frag c ∧ noDep c := fun c hc => coef_frag (h3 c hc)
    have ih : ∀ c ∈ pre ++ v :: post, Frag c ∧ noDep c := by
      intro c hc
      simp only [List.mem_append, List.mem_cons] at hc
      rcases hc with hc | rfl | hc
      · exact i1 c hc
      · exact i2
      · exact i3 c hc
    exact ⟨fragL_iff.2 fun c hc => (ih c hc).1, noDepL_iff.2 fun c hc => (ih c hc).2⟩
  | .quot h1 h2 =>
    have i1 := vec_frag h1
    have i2 := coef_frag h2
    exact ⟨⟨i1.1, i2.1, Or.inl ⟨i1.2, i2.2⟩⟩, i1.2, i2.2⟩
theorem coef_frag {m : Nat} {e : ME α} (h : Coef ctx m e) : Frag e ∧ noDep e := by
  match h with
  | .sc h => exact sc_frag h
  | .vec h => exact vec_frag h
  | .prod (cs := cs) hs =>
    have ih : ∀ c ∈ cs, Frag c ∧ noDep c := fun c hc => coef_frag (hs c hc)
    exact ⟨fragL_iff.2 fun c hc => (ih c hc).1, noDepL_iff.2 fun c hc => (ih c hc).2⟩
  | .quot h1 h2 =>
    have i1 := coef_frag h1
    have i2 := coef_frag h2
    exact ⟨⟨i1.1, i2.1, Or.inl ⟨i1.2, i2.2⟩⟩, i1.2, i2.2⟩
  | .pow k h => have i := coef_frag h; exact ⟨⟨i.1, i.2⟩, i.2⟩
  | .call f h => have i := coef_frag h; exact ⟨i.1, i.2⟩
end

/-! ## Linear expressions -/

theorem linA_lin {m : Nat} {e : ME α} (h : LinA n ctx m e) : Lin n ctx m e := by
  induction h with
  | dep => exact .dep
  | other m => exact .other m
  | sum _ _ ih => exact .sum ih
  | prod h1 _ h3 ih => exact .prod h1 ih h3
  | quot b _ ih => exact .quot ih (.num b)
  | interp R _ _ ih => exact .interp R ih
  | intG ps _ hr _ ih => exact .intG ps hr ih

theorem linA_frag {m : Nat} {e : ME α} (h : LinA n ctx m e) : Frag e := by
  induction h with
  | dep => trivial
  | other m => trivial
  | sum _ _ ih => exact fragL_iff.2 ih
  | prod h1 _ h3 ih =>
    refine fragL_iff.2 ?_
    intro c hc
    simp only [List.mem_append, List.mem_cons] at hc
    rcases hc with hc | rfl | hc
    · exact (coef_frag (h1 c hc)).1
    · exact ih
    · exact (coef_frag (h3 c hc)).1
  | quot b _ ih => exact ⟨ih, trivial, Or.inr trivial⟩
  | interp R hR _ ih => exact ⟨hR, ih⟩
  | intG ps _ hr _ ih =>
    refine fragL_iff.2 ?_
    intro c hc
    obtain ⟨p, hp, rfl⟩ := List.mem_map.1 hc
    exact ih p hp

theorem evIntG_arr (m : Nat) : ∀ (ps : List (Arr α × ME α)) (acc : EV α), evCoef m acc →
    (evArr m acc ∨ ps ≠ []) → (∀ p ∈ ps, p.1.rows = m) →
    (∀ p ∈ ps, ∃ v, ev n x ctx p.2 = .ok v ∧ evArr p.1.cols v) →
    ∃ v, evIntG n x ctx acc (ps.map (·.1)) (ps.map (·.2)) = .ok v ∧ evArr m v
  | [], acc, ha, h, _, _ => by
    rcases h with h | h
    · exact ⟨acc, by simp only [List.map_nil, evIntG], h⟩
    · exact absurd rfl h
  | p :: ps, acc, ha, _, hr, h => by
    obtain ⟨u, hu, hp⟩ := h p List.mem_cons_self
    obtain ⟨f, rfl⟩ := evArr_iff.1 hp
    obtain ⟨c, hc, hca⟩ := opEV_arr (· + ·) ha
      (b := .ve p.1.rows fun i => ∑ k ∈ range p.1.cols, p.1.get i k * f k) (hr p List.mem_cons_self)
      (Or.inr (hr p List.mem_cons_self))
    simp only [List.map_cons, evIntG, hu, applyEV, if_true, hc]
    exact evIntG_arr m ps c (evCoef_of_arr hca) (Or.inl hca) (fun q hq => hr q (List.mem_cons_of_mem _ hq))
      (fun q hq => h q (List.mem_cons_of_mem _ hq))

theorem sumFold_arr {m : Nat} {cs : List (ME α)} (hne : cs ≠ []) (h : ∀ c ∈ cs, ∃ v, ev n x ctx c = .ok v ∧ evArr m v) :
    ∃ v, evFold n x ctx (· + ·) (.sc 0) cs = .ok v ∧ evArr m v := by
  cases cs with
  | nil => exact absurd rfl hne
  | cons c cs =>
    obtain ⟨u, hu, hp⟩ := h c List.mem_cons_self
    obtain ⟨w, hw, hwa⟩ := opEV_arr (α := α) (· + ·) (m := m) (a := .sc 0) trivial (evCoef_of_arr hp) (Or.inr hp)
    simp only [evFold, hu, hw]
    exact evFold_ok (evArr m) (evArr m) _ (fun a b ha hb => opEV_arr _ (evCoef_of_arr ha) (evCoef_of_arr hb) (Or.inl ha))
      cs w (fun c hc => h c (List.mem_cons_of_mem _ hc)) hwa

theorem linA_ev {m : Nat} {e : ME α} (h : LinA n ctx m e) : ∃ v, ev n x ctx e = .ok v ∧ evArr m v := by
  induction h with
  | dep => exact ⟨.ve n x, by simp only [ev], rfl⟩
  | other m => exact ⟨.ve m fun _ => 0, by simp only [ev], rfl⟩
  | sum hne _ ih =>
    simp only [ev]
    exact sumFold_arr hne ih
  | @prod m pre l post h1 _ h3 ih =>
    obtain ⟨a, ha, hac⟩ := evFold_ok (n := n) (x := x) (ctx := ctx) (evCoef m) (evCoef m) (· * ·)
      (fun a b ha hb => opEV_coef _ ha hb) pre (.sc 1) (fun c hc => coef_ev (h1 c hc)) trivial
    obtain ⟨u, hu, hp⟩ := ih
    obtain ⟨w, hw, hwa⟩ := opEV_arr (· * ·) hac (evCoef_of_arr hp) (Or.inr hp)
    simp only [ev]
    rw [evFold_append _ pre _ _ _ ha]
    simp only [evFold, hu, hw]
    exact evFold_ok (evCoef m) (evArr m) _ (fun a b ha hb => opEV_arr _ (evCoef_of_arr ha) hb (Or.inl ha))
      post w (fun c hc => coef_ev (h3 c hc)) hwa
  | quot b _ ih =>
    obtain ⟨u, hu, hp⟩ := ih
    simp only [ev, hu]
    exact opEV_arr _ (evCoef_of_arr hp) trivial (Or.inl hp)
  | interp R _ _ ih =>
    obtain ⟨u, hu, hp⟩ := ih
    obtain ⟨f, rfl⟩ := evArr_iff.1 hp
    exact ok_of (by simp only [ev, hu, interpEV, applyEV, if_true]; rfl) (by simp only [evArr])
  | intG ps hne hr _ ih =>
    simp only [ev]
    exact evIntG_arr _ ps (.sc 0) trivial (Or.inr hne) hr ih

end

/-- **C24, in full for visibly linear expressions**: the matrix is built, the expression has a value at every input, and
the value is the matrix times the input (zero for the zero block). -/
theorem C24_total (n : Nat) (ctx : String → Option (BV α)) (hctx : PlainCtx ctx) (m : Nat) (e : ME α)
    (h : LinA n ctx m e) : ∃ b, buildBlock n ctx e = .ok b ∧ ∀ x : Nat → α, ∃ f, ev n x ctx e = .ok (.ve m f) ∧
      match b with
      | none => ∀ i < m, f i = 0
      | some M => M.rows = m ∧ M.cols = n ∧ ∀ i < m, f i = ∑ j ∈ range n, M.get i j * x j := by
  have hb : ∃ b, buildBlock n ctx e = .ok b ∧ ∀ M, b = some M → M.rows = m ∧ M.cols = n := by
    rcases C24_accepts n ctx m e (linA_lin h) with hb | ⟨f, hb⟩
    · exact ⟨_, hb, fun M hM => by cases hM⟩
    · exact ⟨_, hb, fun M hM => by cases hM; exact ⟨rfl, rfl⟩⟩
  obtain ⟨b, hb, hs⟩ := hb
  refine ⟨b, hb, fun x => ?_⟩
  obtain ⟨v, hv, ha⟩ := linA_ev (x := x) h
  obtain ⟨f, rfl⟩ := evArr_iff.1 ha
  have key := C24_matrix_partial n ctx hctx e (linA_frag h) b hb x _ hv
  refine ⟨f, hv, ?_⟩
  cases b with
  | none => exact key
  | some M =>
    obtain ⟨h1, h2⟩ := hs M rfl
    obtain ⟨_, g, hg, hfg⟩ := key
    cases hg
    exact ⟨h1, h2, hfg⟩

/-- non-vacuity: an array times a layer potential of an array times the unknown, plus half the unknown -/
example : LinA 2 (fun _ => some (.ve 2 (fun i => (i : ℚ)))) 2
    (.sum [.prod [.var "w", .intG [⟨2, 2, fun _ _ => 1⟩] [.prod [.sum [.var "w", .var "v"], .dep]]],
      .quot .dep (.num 2)]) := by
  refine .sum (by simp) ?_
  simp only [List.mem_cons, List.not_mem_nil, or_false]
  rintro c (rfl | rfl)
  · refine LinA.prod (pre := [.var "w"]) (post := []) ?_ ?_ (by simp)
    · simp only [List.mem_singleton]; rintro c rfl; exact .vec (.var rfl)
    · refine LinA.intG [(⟨2, 2, fun _ _ => 1⟩, .prod [.sum [.var "w", .var "v"], .dep])] (by simp) (by simp) ?_
      simp only [List.mem_singleton]; rintro p rfl
      refine LinA.prod (pre := [.sum [.var "w", .var "v"]]) (post := []) ?_ .dep (by simp)
      simp only [List.mem_singleton]; rintro c rfl
      refine .vec (.sum ?_)
      simp only [List.mem_cons, List.not_mem_nil, or_false]
      rintro c (rfl | rfl) <;> exact .var rfl
  · exact .quot 2 .dep

end Verif.MatBuild

namespace Verif.LayerMat

open Verif.DofDesc (DD Obj Stage Gran)
open Verif.QBXSetup
open Verif.MatBuild
open Finset

variable {α P A : Type} [Field α] [DecidableEq α]

/-! ## Specification -/

/-- Expressions that are visibly linear in the unknown (of `n` DOFs) with arrays on `m` nodes as values, as `LinA`, whose
layer potentials map from their source to itself, with one density on the source nodes for each source kernel, and are
evaluated in statements with the target kernels `tks`. -/
inductive LinE (S : Scene α P A) (tks : Pot A → List Kn) (n : Nat) (ctx : String → Option (BV α)) : Nat → LE α A → Prop
  | dep : LinE S tks n ctx n .dep
  | other (m) : LinE S tks n ctx m (.otherDep m)
  | sum {m cs} : cs ≠ [] → (∀ c ∈ cs, LinE S tks n ctx m c) → LinE S tks n ctx m (.sum cs)
  | prod {m pre l post} : (∀ c ∈ pre, Coef ctx m (toME S c)) → LinE S tks n ctx m l → (∀ c ∈ post, Coef ctx m (toME S c)) →
      LinE S tks n ctx m (.prod (pre ++ l :: post))
  | quot {m a} (b) : LinE S tks n ctx m a → LinE S tks n ctx m (.quot a (.num b))
  | interp {a} (R) : Resamples R → LinE S tks n ctx R.cols a → LinE S tks n ctx R.rows (.interp R a)
  | pot {g ds} : OnSource S g → GoodBatch (tks g) g → ds.length = g.sks.length →
      (∀ d ∈ ds, LinE S tks n ctx (S.ndofs g.src) d) → LinE S tks n ctx (S.ndofs g.tgt) (.pot g ds)

/-! ## Proofs -/

theorem toMEL_eq (S : Scene α P A) (cs : List (LE α A)) : toMEL S cs = cs.map (toME S) := by
  induction cs with
  | nil => rfl
  | cons c cs ih => simp only [toMEL, ih, List.map_cons]

theorem allPotsL_iff {Q : Pot A → Prop} {cs : List (LE α A)} : AllPotsL Q cs ↔ ∀ c ∈ cs, AllPots Q c := by
  induction cs with
  | nil => simp [AllPotsL]
  | cons c cs ih => simp [AllPotsL, ih]

section
variable {S : Scene α P A} {pot : Pot A → List (EV α) → Except Err (EV α)} {n : Nat} {x : Nat → α}
  {ctx : String → Option (BV α)}

theorem toME_pot (g : Pot A) (ds : List (LE α A)) : ∃ Ms ds', toME S (.pot g ds) = .intG Ms ds' := by
  simp only [toME]
  split
  · exact ⟨_, _, rfl⟩
  · exact ⟨_, _, rfl⟩

theorem evAll_ok (Q : EV α → Prop) : ∀ cs : List (LE α A), (∀ c ∈ cs, ∃ v, evWith pot n x ctx c = .ok v ∧ Q v) →
    ∃ us, evAll pot n x ctx cs = .ok us ∧ us.length = cs.length ∧ ∀ u ∈ us, Q u
  | [], _ => ⟨[], by simp only [evAll], rfl, by simp⟩
  | c :: cs, h => by
    obtain ⟨u, hu, hq⟩ := h c List.mem_cons_self
    obtain ⟨us, hus, hl, hqs⟩ := evAll_ok Q cs (fun c hc => h c (List.mem_cons_of_mem _ hc))
    refine ⟨u :: us, by simp only [evAll, hu, hus], by simp [hl], ?_⟩
    intro w hw
    rcases List.mem_cons.1 hw with rfl | hw
    · exact hq
    · exact hqs w hw

theorem foldlM_ok (Q R : EV α → Prop) (op : α → α → α)
    (hop : ∀ a b, R a → Q b → ∃ c, opEV op a b = .ok c ∧ R c) : ∀ (us : List (EV α)) (acc : EV α),
    (∀ u ∈ us, Q u) → R acc → ∃ v, us.foldlM (opEV op) acc = .ok v ∧ R v
  | [], acc, _, ha => ⟨acc, rfl, ha⟩
  | u :: us, acc, h, ha => by
    obtain ⟨w, hw, hp⟩ := hop acc u ha (h u List.mem_cons_self)
    simp only [List.foldlM_cons, bind, Except.bind, hw]
    exact foldlM_ok Q R op hop us w (fun u hu => h u (List.mem_cons_of_mem _ hu)) hp

/-- what a coefficient is worth: no layer potentials, and a value -/
def CoefOk (pot : Pot A → List (EV α) → Except Err (EV α)) (n : Nat) (x : Nat → α) (ctx : String → Option (BV α)) (m : Nat)
    (c : LE α A) : Prop :=
  (∀ Q : Pot A → Prop, AllPots Q c) ∧ ∃ v, evWith pot n x ctx c = .ok v ∧ evCoef m v

theorem coefOk_sum {m : Nat} {cs : List (LE α A)} (h : ∀ c ∈ cs, CoefOk pot n x ctx m c) : CoefOk pot n x ctx m (.sum cs) := by
  refine ⟨fun Q => allPotsL_iff.2 fun c hc => (h c hc).1 Q, ?_⟩
  obtain ⟨us, hus, _, hq⟩ := evAll_ok (evCoef m) cs (fun c hc => (h c hc).2)
  simp only [evWith, hus]
  exact foldlM_ok (evCoef m) (evCoef m) _ (fun a b ha hb => opEV_coef _ ha hb) us _ hq trivial

theorem coefOk_prod {m : Nat} {cs : List (LE α A)} (h : ∀ c ∈ cs, CoefOk pot n x ctx m c) : CoefOk pot n x ctx m (.prod cs) := by
  refine ⟨fun Q => allPotsL_iff.2 fun c hc => (h c hc).1 Q, ?_⟩
  obtain ⟨us, hus, _, hq⟩ := evAll_ok (evCoef m) cs (fun c hc => (h c hc).2)
  simp only [evWith, hus]
  exact foldlM_ok (evCoef m) (evCoef m) _ (fun a b ha hb => opEV_coef _ ha hb) us _ hq trivial

theorem coefOk_quot {m : Nat} {a b : LE α A} (ha : CoefOk pot n x ctx m a) (hb : CoefOk pot n x ctx m b) :
    CoefOk pot n x ctx m (.quot a b) := by
  refine ⟨fun Q => ⟨ha.1 Q, hb.1 Q⟩, ?_⟩
  obtain ⟨u, hu, hp⟩ := ha.2
  obtain ⟨v, hv, hq⟩ := hb.2
  simp only [evWith, hu, hv]
  exact opEV_coef _ hp hq

theorem coefOk_pow {m : Nat} {a : LE α A} (k : Nat) (ha : CoefOk pot n x ctx m a) : CoefOk pot n x ctx m (.pow a k) := by
  refine ⟨fun Q => ha.1 Q, ?_⟩
  obtain ⟨u, hu, hp⟩ := ha.2
  exact ⟨_, by simp only [evWith, hu]; rfl, mapEV_coef _ hp⟩

theorem coefOk_call {m : Nat} {a : LE α A} (f : α → α) (ha : CoefOk pot n x ctx m a) : CoefOk pot n x ctx m (.call f a) := by
  refine ⟨fun Q => ha.1 Q, ?_⟩
  obtain ⟨u, hu, hp⟩ := ha.2
  exact ⟨_, by simp only [evWith, hu]; rfl, mapEV_coef _ hp⟩

theorem inv_sum {c : LE α A} {cs : List (ME α)} (h : toME S c = .sum cs) : ∃ l, c = .sum l ∧ l.map (toME S) = cs := by
  cases c with
  | sum l => simp only [toME, ME.sum.injEq, toMEL_eq] at h; exact ⟨l, rfl, h⟩
  | pot g ds => obtain ⟨Ms, ds', h'⟩ := toME_pot (S := S) g ds; rw [h'] at h; cases h
  | _ => simp [toME] at h

theorem inv_prod {c : LE α A} {cs : List (ME α)} (h : toME S c = .prod cs) : ∃ l, c = .prod l ∧ l.map (toME S) = cs := by
  cases c with
  | prod l => simp only [toME, ME.prod.injEq, toMEL_eq] at h; exact ⟨l, rfl, h⟩
  | pot g ds => obtain ⟨Ms, ds', h'⟩ := toME_pot (S := S) g ds; rw [h'] at h; cases h
  | _ => simp [toME] at h

theorem inv_quot {c : LE α A} {a b : ME α} (h : toME S c = .quot a b) : ∃ a' b', c = .quot a' b' ∧ toME S a' = a ∧ toME S b' = b := by
  cases c with
  | quot a' b' => simp only [toME, ME.quot.injEq] at h; exact ⟨a', b', rfl, h.1, h.2⟩
  | pot g ds => obtain ⟨Ms, ds', h'⟩ := toME_pot (S := S) g ds; rw [h'] at h; cases h
  | _ => simp [toME] at h

theorem inv_pow {c : LE α A} {a : ME α} {k : Nat} (h : toME S c = .pow a k) : ∃ a', c = .pow a' k ∧ toME S a' = a := by
  cases c with
  | pow a' k' => simp only [toME, ME.pow.injEq] at h; obtain ⟨h, rfl⟩ := h; exact ⟨a', rfl, h⟩
  | pot g ds => obtain ⟨Ms, ds', h'⟩ := toME_pot (S := S) g ds; rw [h'] at h; cases h
  | _ => simp [toME] at h

theorem inv_call {c : LE α A} {a : ME α} {f : α → α} (h : toME S c = .call f a) : ∃ a', c = .call f a' ∧ toME S a' = a := by
  cases c with
  | call f' a' => simp only [toME, ME.call.injEq] at h; obtain ⟨rfl, h⟩ := h; exact ⟨a', rfl, h⟩
  | pot g ds => obtain ⟨Ms, ds', h'⟩ := toME_pot (S := S) g ds; rw [h'] at h; cases h
  | _ => simp [toME] at h

theorem inv_var {c : LE α A} {s : String} (h : toME S c = .var s) : c = .var s := by
  cases c with
  | var s' => simp only [toME, ME.var.injEq] at h; rw [h]
  | pot g ds => obtain ⟨Ms, ds', h'⟩ := toME_pot (S := S) g ds; rw [h'] at h; cases h
  | _ => simp [toME] at h

theorem inv_refD {c : LE α A} {a : ME α} {R : Arr α} (h : toME S c = .refD R a) : ∃ a', c = .refD R a' ∧ toME S a' = a := by
  cases c with
  | refD R' a' => simp only [toME, ME.refD.injEq] at h; obtain ⟨rfl, h⟩ := h; exact ⟨a', rfl, h⟩
  | pot g ds => obtain ⟨Ms, ds', h'⟩ := toME_pot (S := S) g ds; rw [h'] at h; cases h
  | _ => simp [toME] at h

theorem inv_coord {c : LE α A} {k : Nat} {f : Nat → α} (h : toME S c = .coord k f) : c = .coord k f := by
  cases c with
  | coord k' f' => simp only [toME, ME.coord.injEq] at h; rw [h.1, h.2]
  | pot g ds => obtain ⟨Ms, ds', h'⟩ := toME_pot (S := S) g ds; rw [h'] at h; cases h
  | _ => simp [toME] at h

theorem inv_num {c : LE α A} {a : α} (h : toME S c = .num a) : c = .num a := by
  cases c with
  | num s' => simp only [toME, ME.num.injEq] at h; rw [h]
  | pot g ds => obtain ⟨Ms, ds', h'⟩ := toME_pot (S := S) g ds; rw [h'] at h; cases h
  | _ => simp [toME] at h

theorem coefOk_var {m : Nat} {s : String} {v : BV α} {w : EV α} (hs : ctx s = some v) (hw : ofBV v = .ok w) (hc : evCoef m w) :
    CoefOk pot n x ctx m (.var s : LE α A) :=
  ⟨fun Q => trivial, w, by simp only [evWith, hs, hw], hc⟩

theorem sc_coefOk {m : Nat} {e : ME α} (h : Sc ctx e) : ∀ c : LE α A, toME S c = e → CoefOk pot n x ctx m c := by
  induction h with
  | num a =>
    intro c hc
    rw [inv_num hc]
    exact ⟨fun Q => trivial, .sc a, by simp only [evWith], trivial⟩
  | @var s a h =>
    intro c hc
    rw [inv_var hc]
    exact coefOk_var h rfl trivial
  | sum _ ih =>
    intro c hc
    obtain ⟨l, rfl, rfl⟩ := inv_sum hc
    exact coefOk_sum fun d hd => ih _ (List.mem_map_of_mem hd) d rfl
  | prod _ ih =>
    intro c hc
    obtain ⟨l, rfl, rfl⟩ := inv_prod hc
    exact coefOk_prod fun d hd => ih _ (List.mem_map_of_mem hd) d rfl
  | quot _ _ h1 h2 =>
    intro c hc
    obtain ⟨a, b, rfl, ha, hb⟩ := inv_quot hc
    exact coefOk_quot (h1 a ha) (h2 b hb)
  | pow k _ h =>
    intro c hc
    obtain ⟨a, rfl, ha⟩ := inv_pow hc
    exact coefOk_pow k (h a ha)
  | call f _ h =>
    intro c hc
    obtain ⟨a, rfl, ha⟩ := inv_call hc
    exact coefOk_call f (h a ha)

mutual
theorem vec_coefOk {m : Nat} {e : ME α} (h : Vec ctx m e) (c : LE α A) (hc : toME S c = e) : CoefOk pot n x ctx m c := by
  match h with
  | .var (f := f) h =>
    rw [inv_var hc]
    exact coefOk_var h (w := .ve m f) rfl rfl
  | .coord (f := f) =>
    rw [inv_coord hc]
    exact ⟨fun Q => trivial, .ve m f, by simp only [evWith], rfl⟩
  | .refC R f hm =>
    obtain ⟨a, rfl, ha⟩ := inv_refD hc
    rw [inv_coord ha]
    exact ⟨fun Q => trivial, .ve R.rows (fun i => ∑ k ∈ Finset.range R.cols, R.get i k * f k),
      by simp only [evWith, refDEV, applyEV, if_true], hm⟩
  | .refD (f := f) R h hm =>
    obtain ⟨a, rfl, ha⟩ := inv_refD hc
    rw [inv_var ha]
    exact ⟨fun Q => trivial, .ve R.rows (fun i => ∑ k ∈ Finset.range R.cols, R.get i k * f k),
      by simp only [evWith, h, ofBV, refDEV, applyEV, if_true], hm⟩
  | .sum (cs := cs) hs =>
    have ih : ∀ e ∈ cs, ∀ c : LE α A, toME S c = e → CoefOk pot n x ctx m c := fun e he c hc => vec_coefOk (hs e he) c hc
    obtain ⟨l, rfl, rfl⟩ := inv_sum hc
    exact coefOk_sum fun d hd => ih _ (List.mem_map_of_mem hd) d rfl
  | .prod (pre := pre) (v := v) (post := post) h1 h2 h3 =>
    have i1 : ∀ e ∈ pre, ∀ c : LE α A, toME S c = e → CoefOk pot n x ctx m c := fun e he c hc => coef_coefOk (h1 e he) c hc
    have i2 : ∀ c : LE α A, toME S c = v → CoefOk pot n x ctx m c := fun c hc => vec_coefOk h2 c hc
    have i3 : ∀ e ∈ post, ∀ c : LE α A, toME S c = e → CoefOk pot n x ctx m c := fun e he c hc => coef_coefOk (h3 e he) c hc
    obtain ⟨l, rfl, hl⟩ := inv_prod hc
    refine coefOk_prod fun d hd => ?_
    have hm : toME S d ∈ pre ++ v :: post := by rw [← hl]; exact List.mem_map_of_mem hd
    simp only [List.mem_append, List.mem_cons] at hm
    rcases hm with hm | hm | hm
    · exact i1 _ hm d rfl
    · exact i2 d hm
    · exact i3 _ hm d rfl
  | .quot h1 h2 =>
    obtain ⟨a, b, rfl, ha, hb⟩ := inv_quot hc
    exact coefOk_quot (vec_coefOk h1 a ha) (coef_coefOk h2 b hb)
theorem coef_coefOk {m : Nat} {e : ME α} (h : Coef ctx m e) (c : LE α A) (hc : toME S c = e) : CoefOk pot n x ctx m c := by
  match h with
  | .sc h => exact sc_coefOk h c hc
  | .vec h => exact vec_coefOk h c hc
  | .prod (cs := cs) hs =>
    have ih : ∀ e ∈ cs, ∀ c : LE α A, toME S c = e → CoefOk pot n x ctx m c := fun e he c hc => coef_coefOk (hs e he) c hc
    obtain ⟨l, rfl, rfl⟩ := inv_prod hc
    exact coefOk_prod fun d hd => ih _ (List.mem_map_of_mem hd) d rfl
  | .quot h1 h2 =>
    obtain ⟨a, b, rfl, ha, hb⟩ := inv_quot hc
    exact coefOk_quot (coef_coefOk h1 a ha) (coef_coefOk h2 b hb)
  | .pow k h =>
    obtain ⟨a, rfl, ha⟩ := inv_pow hc
    exact coefOk_pow k (coef_coefOk h a ha)
  | .call f h =>
    obtain ⟨a, rfl, ha⟩ := inv_call hc
    exact coefOk_call f (coef_coefOk h a ha)
end

end

section
variable {S : Scene α P A} {tks : Pot A → List Kn} {n : Nat} {ctx : String → Option (BV α)}

theorem linE_linA {m : Nat} {e : LE α A} (h : LinE S tks n ctx m e) : LinA n ctx m (toME S e) := by
  induction h with
  | dep => simp only [toME]; exact .dep
  | other m => simp only [toME]; exact .other m
  | sum hne _ ih =>
    simp only [toME, toMEL_eq]
    refine .sum (by simpa using hne) ?_
    intro c hc
    obtain ⟨d, hd, rfl⟩ := List.mem_map.1 hc
    exact ih d hd
  | prod h1 _ h3 ih =>
    simp only [toME, toMEL_eq, List.map_append, List.map_cons]
    refine .prod ?_ ih ?_
    · intro c hc
      obtain ⟨d, hd, rfl⟩ := List.mem_map.1 hc
      exact h1 d hd
    · intro c hc
      obtain ⟨d, hd, rfl⟩ := List.mem_map.1 hc
      exact h3 d hd
  | quot b _ ih => simp only [toME]; exact .quot b ih
  | interp R hR _ ih => simp only [toME]; exact .interp R hR ih
  | @pot g ds hon hb hlen _ ih =>
    obtain ⟨⟨a, ha⟩, ⟨b, hb', _, _⟩, l, hl, h0⟩ := hon
    have hm : matPot S true g = some (g.sks.map (lpMat S true g l)) := by
      simp only [matPot, ha, hb', hl, if_neg h0]
    simp only [toME, hm, toMEL_eq]
    obtain ⟨ps, hps⟩ : ∃ ps, ps = (g.sks.map (lpMat S true g l)).zip (ds.map (toME S)) := ⟨_, rfl⟩
    have h1 : ps.map (·.1) = g.sks.map (lpMat S true g l) := by
      rw [hps]; exact List.map_fst_zip (by simp [hlen])
    have h2 : ps.map (·.2) = ds.map (toME S) := by
      rw [hps]; exact List.map_snd_zip (by simp [hlen])
    rw [← h1, ← h2]
    have hmem : ∀ p ∈ ps, p.1 ∈ g.sks.map (lpMat S true g l) ∧ p.2 ∈ ds.map (toME S) := by
      intro p hp
      rw [hps] at hp
      exact List.of_mem_zip hp
    refine .intG ps ?_ ?_ ?_
    · intro h
      rw [h] at h1
      obtain ⟨⟨base, hne, _⟩, _⟩ := hb
      exact hne (by simpa using h1.symm)
    · intro p hp
      obtain ⟨k, _, hk⟩ := List.mem_map.1 (hmem p hp).1
      rw [← hk]
      rfl
    · intro p hp
      obtain ⟨k, _, hk⟩ := List.mem_map.1 (hmem p hp).1
      obtain ⟨d, hd, hd'⟩ := List.mem_map.1 (hmem p hp).2
      rw [← hk, ← hd']
      exact ih d hd

theorem linE_pots {m : Nat} {e : LE α A} (h : LinE S tks n ctx m e) :
    AllPots (fun g => OnSource S g ∧ GoodBatch (tks g) g) e := by
  induction h with
  | dep => trivial
  | other m => trivial
  | sum _ _ ih => exact allPotsL_iff.2 ih
  | @prod m pre l post h1 _ h3 ih =>
    refine allPotsL_iff.2 ?_
    intro c hc
    simp only [List.mem_append, List.mem_cons] at hc
    rcases hc with hc | rfl | hc
    · exact (coef_coefOk (pot := fun _ _ => .error .type) (n := n) (x := fun _ => 0) (h1 c hc) c rfl).1 _
    · exact ih
    · exact (coef_coefOk (pot := fun _ _ => .error .type) (n := n) (x := fun _ => 0) (h3 c hc) c rfl).1 _
  | quot b _ ih => exact ⟨ih, trivial⟩
  | interp R hR _ ih => exact ih
  | pot hon hb _ _ ih => exact ⟨⟨hon, hb⟩, allPotsL_iff.2 ih⟩

theorem densities_arr {k : Nat} : ∀ us : List (EV α), (∀ u ∈ us, evArr k u) → ∃ dens, densities k us = .ok dens
  | [], _ => ⟨[], rfl⟩
  | u :: us, h => by
    obtain ⟨f, rfl⟩ := evArr_iff.1 (h u List.mem_cons_self)
    obtain ⟨ds, hds⟩ := densities_arr us (fun u hu => h u (List.mem_cons_of_mem _ hu))
    exact ⟨f :: ds, by simp only [densities, if_true, hds]; rfl⟩

theorem linE_ev (σ : Direct.Sched) (x : Nat → α) {m : Nat} {e : LE α A} (h : LinE S tks n ctx m e) :
    ∃ v, evWith (fun g => directPot S σ (tks g) g) n x ctx e = .ok v ∧ evArr m v := by
  induction h with
  | dep => exact ⟨.ve n x, by simp only [evWith], rfl⟩
  | other m => exact ⟨.ve m fun _ => 0, by simp only [evWith], rfl⟩
  | @sum m cs hne _ ih =>
    obtain ⟨us, hus, hl, hq⟩ := evAll_ok (evArr m) cs ih
    simp only [evWith, hus]
    cases us with
    | nil => exact absurd (List.length_eq_zero_iff.1 hl.symm) hne
    | cons u us =>
      have hu := hq u List.mem_cons_self
      obtain ⟨w, hw, hwa⟩ := opEV_arr (α := α) (· + ·) (m := m) (a := .sc 0) trivial (evCoef_of_arr hu) (Or.inr hu)
      simp only [List.foldlM_cons, bind, Except.bind, hw]
      exact foldlM_ok (evArr m) (evArr m) _ (fun a b ha hb => opEV_arr _ (evCoef_of_arr ha) (evCoef_of_arr hb) (Or.inl ha))
        us w (fun v hv => hq v (List.mem_cons_of_mem _ hv)) hwa
  | @prod m pre l post h1 _ h3 ih =>
    obtain ⟨u, hu, hp⟩ := ih
    obtain ⟨as, has, hla, hqa⟩ := evAll_ok (pot := fun g => directPot S σ (tks g) g) (n := n) (x := x) (ctx := ctx) (evCoef m) pre
      (fun c hc => (coef_coefOk (h1 c hc) c rfl).2)
    obtain ⟨bs, hbs, _, hqb⟩ := evAll_ok (pot := fun g => directPot S σ (tks g) g) (n := n) (x := x) (ctx := ctx) (evCoef m) post
      (fun c hc => (coef_coefOk (h3 c hc) c rfl).2)
    have hall : evAll (fun g => directPot S σ (tks g) g) n x ctx (pre ++ l :: post) = .ok (as ++ u :: bs) := by
      clear hqa h1 hla
      induction pre generalizing as with
      | nil =>
        simp only [evAll, Except.ok.injEq] at has
        subst has
        simp only [List.nil_append, evAll, hu, hbs]
      | cons c pre ih2 =>
        simp only [evAll] at has
        cases hc : evWith (fun g => directPot S σ (tks g) g) n x ctx c with
        | error e => rw [hc] at has; cases has
        | ok w =>
          rw [hc] at has
          simp only at has
          cases hcs : evAll (fun g => directPot S σ (tks g) g) n x ctx pre with
          | error e => rw [hcs] at has; cases has
          | ok as' =>
            rw [hcs] at has
            simp only [Except.ok.injEq] at has
            subst has
            simp only [List.cons_append, evAll, hc]
            rw [ih2 as' hcs]
    obtain ⟨a, ha, hac⟩ := foldlM_ok (evCoef m) (evCoef m) (· * ·) (fun a b ha hb => opEV_coef _ ha hb) as (.sc 1) hqa trivial
    obtain ⟨w, hw, hwa⟩ := opEV_arr (· * ·) hac (evCoef_of_arr hp) (Or.inr hp)
    simp only [evWith, hall, List.foldlM_append, List.foldlM_cons, bind, Except.bind, ha, hw]
    exact foldlM_ok (evCoef m) (evArr m) _ (fun a b ha hb => opEV_arr _ (evCoef_of_arr ha) hb (Or.inl ha)) bs w hqb hwa
  | quot b _ ih =>
    obtain ⟨u, hu, hp⟩ := ih
    simp only [evWith, hu]
    exact opEV_arr _ (evCoef_of_arr hp) trivial (Or.inl hp)
  | interp R _ _ ih =>
    obtain ⟨u, hu, hp⟩ := ih
    obtain ⟨f, rfl⟩ := evArr_iff.1 hp
    exact ok_of (by simp only [evWith, hu, interpEV, applyEV, if_true]; rfl) (by simp only [evArr])
  | @pot g ds hon hb hlen _ ih =>
    obtain ⟨us, hus, hl, hq⟩ := evAll_ok (evArr (S.ndofs g.src)) ds ih
    obtain ⟨dens, hd⟩ := densities_arr us hq
    obtain ⟨l, hlim, _⟩ := hon.2.2
    obtain ⟨f, hf, _⟩ := directPot_self S σ (tks g) g l hon hlim hb us dens (by rw [hl, hlen]) hd
    exact ok_of (by simp only [evWith, hus]; exact hf) (by simp only [evArr])

end

/-- **C88, in full for visibly linear expressions of potentials on their source**: `build_matrix` succeeds, direct evaluation
succeeds at every input, and its value is the matrix times the input (zero for the zero block). -/
theorem C88_total (S : Scene α P A) (σ : Direct.Sched) (tks : Pot A → List Kn) (n : Nat) (ctx : String → Option (BV α))
    (hctx : PlainCtx ctx) (m : Nat) (e : LE α A) (h : LinE S tks n ctx m e) :
    ∃ b, buildMatrix S n ctx e = .ok b ∧ ∀ x : Nat → α,
      ∃ f, evWith (fun g => directPot S σ (tks g) g) n x ctx e = .ok (.ve m f) ∧
        match b with
        | none => ∀ i < m, f i = 0
        | some M => M.rows = m ∧ M.cols = n ∧ ∀ i < m, f i = ∑ j ∈ range n, M.get i j * x j := by
  have hA := linE_linA h
  obtain ⟨b, hb, hs⟩ := C24_total n ctx hctx m (toME S e) hA
  refine ⟨b, hb, fun x => ?_⟩
  obtain ⟨v, hv, ha⟩ := linE_ev σ x h
  obtain ⟨f, rfl⟩ := evArr_iff.1 ha
  have key := C88_matrix_partial S σ tks n ctx hctx e (linE_pots h) (linA_frag hA) b hb x _ hv
  refine ⟨f, hv, ?_⟩
  obtain ⟨_, _, hs⟩ := hs x
  cases b with
  | none => exact key
  | some M =>
    obtain ⟨_, g, hg, hfg⟩ := key
    cases hg
    exact ⟨hs.1, hs.2.1, hfg⟩

/-- non-vacuity: half the unknown plus a layer potential -/
example : LinE exScene (fun g => [g.tk]) 1 (fun _ => none) 1
    (.sum [.prod [.num (1/2), .dep], .pot (exPot "a" (some 1)) [.dep]]) := by
  refine .sum (by simp) ?_
  simp only [List.mem_cons, List.not_mem_nil, or_false]
  rintro c (rfl | rfl)
  · refine LinE.prod (pre := [.num (1/2)]) (post := []) ?_ .dep (by simp)
    simp only [List.mem_singleton]; rintro c rfl
    exact .sc (.num _)
  · refine LinE.pot (g := exPot "a" (some 1)) ⟨⟨_, rfl⟩, ⟨_, rfl, rfl, rfl⟩, 1, rfl, by decide⟩
      ⟨⟨.laplace 2, by simp [exPot], by simp [exPot, Kn.getBase]⟩, by simp, by simp [exPot]⟩ rfl ?_
    simp only [List.mem_singleton]; rintro c rfl
    exact .dep

end Verif.LayerMat
