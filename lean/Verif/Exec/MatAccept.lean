import Verif.Exec.MatBuild

/-!
# Which expressions the matrix builder accepts (C24)

`MatBuild.lean` proves that what is built is right; here: what has to be built *is* built.
-/

namespace Verif.MatBuild

variable {α : Type} [Field α] [DecidableEq α]

/-! ## Specification -/

/-- number-valued expressions without the unknown -/
inductive Sc (ctx : String → Option (BV α)) : ME α → Prop
  | num (a) : Sc ctx (.num a)
  | var {s a} : ctx s = some (.sc a) → Sc ctx (.var s)
  | sum {cs} : (∀ c ∈ cs, Sc ctx c) → Sc ctx (.sum cs)
  | prod {cs} : (∀ c ∈ cs, Sc ctx c) → Sc ctx (.prod cs)
  | quot {a b} : Sc ctx a → Sc ctx b → Sc ctx (.quot a b)
  | pow {a} (k) : Sc ctx a → Sc ctx (.pow a k)
  | call {a} (f) : Sc ctx a → Sc ctx (.call f a)

mutual
/-- array-valued expressions (on `m` nodes) without the unknown: nodal arrays and their reference derivatives, sums of
arrays with arrays, products and quotients with coefficients -/
inductive Vec (ctx : String → Option (BV α)) (m : Nat) : ME α → Prop
  | var {s f} : ctx s = some (.ve m f) → Vec ctx m (.var s)
  | coord {f} : Vec ctx m (.coord m f)
  | refC (R : Arr α) (f : Nat → α) : R.rows = m → Vec ctx m (.refD R (.coord R.cols f))
  | refD {s f} (R : Arr α) : ctx s = some (.ve R.cols f) → R.rows = m → Vec ctx m (.refD R (.var s))
  | sum {cs} : (∀ c ∈ cs, Vec ctx m c) → Vec ctx m (.sum cs)
  | prod {pre v post} : (∀ c ∈ pre, Coef ctx m c) → Vec ctx m v → (∀ c ∈ post, Coef ctx m c) →
      Vec ctx m (.prod (pre ++ v :: post))
  | quot {a b} : Vec ctx m a → Coef ctx m b → Vec ctx m (.quot a b)
/-- coefficients: numbers and arrays, their products, quotients, powers and function values -/
inductive Coef (ctx : String → Option (BV α)) (m : Nat) : ME α → Prop
  | sc {e} : Sc ctx e → Coef ctx m e
  | vec {e} : Vec ctx m e → Coef ctx m e
  | prod {cs} : (∀ c ∈ cs, Coef ctx m c) → Coef ctx m (.prod cs)
  | quot {a b} : Coef ctx m a → Coef ctx m b → Coef ctx m (.quot a b)
  | pow {a} (k) : Coef ctx m a → Coef ctx m (.pow a k)
  | call {a} (f) : Coef ctx m a → Coef ctx m (.call f a)
end

/-- expressions that are visibly linear in the unknown (of `n` DOFs), with values on `m` nodes:
the unknowns, sums, products with coefficients, quotients by numbers, interpolation, and
layer potentials of such expressions -/
inductive Lin (n : Nat) (ctx : String → Option (BV α)) : Nat → ME α → Prop
  | dep : Lin n ctx n .dep
  | other {m} (k) : Lin n ctx m (.otherDep k)
  | zero {m} : Lin n ctx m (.num 0)
  | sum {m cs} : (∀ c ∈ cs, Lin n ctx m c) → Lin n ctx m (.sum cs)
  | prod {m pre l post} : (∀ c ∈ pre, Coef ctx m c) → Lin n ctx m l → (∀ c ∈ post, Coef ctx m c) →
      Lin n ctx m (.prod (pre ++ l :: post))
  | quot {m a b} : Lin n ctx m a → Sc ctx b → Lin n ctx m (.quot a b)
  | interp {a} (R) : Lin n ctx R.cols a → Lin n ctx R.rows (.interp R a)
  | intG {m} (ps : List (Arr α × ME α)) : (∀ p ∈ ps, p.1.rows = m) →
      (∀ p ∈ ps, Lin n ctx p.1.cols p.2) →
      Lin n ctx m (.intG (ps.map (·.1)) (ps.map (·.2)))

/-! ## Proofs -/

section
variable (n : Nat) (ctx : String → Option (BV α))

/-- number -/
def isSc : BV α → Prop
  | .sc _ => True
  | _ => False
/-- array of length `m`, or zero -/
def isVec (m : Nat) : BV α → Prop
  | .sc a => a = 0
  | .ve k _ => k = m
  | _ => False
/-- number or array of length `m` -/
def isCoef (m : Nat) : BV α → Prop
  | .sc _ => True
  | .ve k _ => k = m
  | _ => False
/-- `m × n` matrix, or zero -/
def isLin (m : Nat) : BV α → Prop
  | .sc a => a = 0
  | .ma k l _ => k = m ∧ l = n
  | _ => False

variable {ctx} {n}

theorem ok_intro {r : Except Err (BV α)} {x : BV α} {P : BV α → Prop} (h : r = .ok x) (hp : P x) :
    ∃ x, r = .ok x ∧ P x := ⟨x, h, hp⟩

theorem isCoef_of_sc {m : Nat} {x : BV α} (h : isSc x) : isCoef m x := by
  cases x <;> simp_all [isSc, isCoef]
theorem isCoef_of_vec {m : Nat} {x : BV α} (h : isVec m x) : isCoef m x := by
  cases x <;> simp_all [isVec, isCoef]

theorem buildSum_ok (P : BV α → Prop) (k : Kind)
    (hadd : ∀ a b, P a ∨ a = .sc 0 → P b → b ≠ .sc 0 → ∃ c, addBV a b = .ok c ∧ P c)
    (hk : ∀ b, P b → b ≠ .sc 0 → kindOf b = k) :
    ∀ (cs : List (ME α)) (kind : Option Kind) (acc : BV α),
      (∀ c ∈ cs, ∃ x, build n ctx c = .ok x ∧ P x) → (kind = none ∨ kind = some k) →
      (P acc ∨ acc = .sc 0) →
      ∃ y, buildSum n ctx kind acc cs = .ok y ∧ (P y ∨ y = .sc 0)
  | [], _, acc, _, _, ha => ⟨acc, by simp [buildSum], ha⟩
  | c :: cs, kind, acc, h, hkd, ha => by
    obtain ⟨x, hx, hp⟩ := h c (by simp)
    simp only [buildSum, hx]
    by_cases hz : isZero x = true
    · rw [if_pos hz]
      exact buildSum_ok P k hadd hk cs kind acc (fun c hc => h c (by simp [hc])) hkd ha
    · rw [if_neg hz]
      have hx0 : x ≠ .sc 0 := fun h0 => hz ((isZero_iff x).2 h0)
      have hkx := hk x hp hx0
      rw [if_neg (by rcases hkd with rfl | rfl <;> simp [hkx])]
      obtain ⟨y, hy, hpy⟩ := hadd acc x ha hp hx0
      simp only [hy]
      exact buildSum_ok P k hadd hk cs _ y (fun c hc => h c (by simp [hc])) (Or.inr (by rw [hkx]))
        (Or.inl hpy)

theorem mulVS_coef {m : Nat} {a b : BV α} (ha : isCoef m a) (hb : isCoef m b) :
    ∃ c, mulVS a b = .ok c ∧ isCoef m c ∧ (isSc a → isSc b → isSc c) ∧
      (isVec m b → isVec m c) ∧ (isVec m a → isVec m c) := by
  cases a <;> cases b <;> simp only [isCoef] at ha hb
  · exact ⟨_, rfl, trivial, fun _ _ => trivial, by simp [isVec]; intro h; right; exact h,
      by simp [isVec]; intro h; left; exact h⟩
  · exact ⟨_, rfl, hb, by simp [isSc], by simp [isVec], by simp [isVec, hb]⟩
  · exact ⟨_, rfl, ha, by simp [isSc], by simp [isVec, ha], by simp [isVec]⟩
  · subst ha; subst hb
    (apply ok_intro; (simp [mulVS]; rfl); exact ⟨rfl, by simp [isSc], by simp [isVec], by simp [isVec]⟩)

/-- product of coefficients -/
theorem buildProd_coef (m : Nat) : ∀ (cs : List (ME α)) (acc : BV α), isCoef m acc →
    (∀ c ∈ cs, ∃ x, build n ctx c = .ok x ∧ isCoef m x) →
    ∃ y, buildProd n ctx none acc cs = .ok y ∧ isCoef m y ∧
      (isSc acc → (∀ c ∈ cs, ∀ x, build n ctx c = .ok x → isSc x) → isSc y) ∧
      (isVec m acc ∨ (∃ c ∈ cs, ∀ x, build n ctx c = .ok x → isVec m x) → isVec m y)
  | [], acc, ha, _ => ⟨acc, by simp [buildProd], ha, fun h _ => h, by
      rintro (h | ⟨c, hc, _⟩)
      · exact h
      · simp at hc⟩
  | c :: cs, acc, ha, h => by
    obtain ⟨x, hx, hp⟩ := h c (by simp)
    simp only [buildProd, hx]
    by_cases hz : isZero x = true
    · rw [if_pos hz]; exact ⟨_, rfl, trivial, fun _ _ => trivial, fun _ => rfl⟩
    · rw [if_neg hz]
      obtain ⟨y, hy, h1, h2, h3, h4⟩ := mulVS_coef ha hp
      obtain ⟨z, hz1, hz2, hz3, hz4⟩ := buildProd_coef m cs y h1 (fun c hc => h c (by simp [hc]))
      have hres : ∃ z, (match mulVS acc x with
          | .error e => .error e
          | .ok acc' => buildProd n ctx none acc' cs) = Except.ok z ∧ isCoef m z ∧
          (isSc acc → (∀ c' ∈ c :: cs, ∀ x, build n ctx c' = .ok x → isSc x) → isSc z) ∧
          (isVec m acc ∨ (∃ c' ∈ c :: cs, ∀ x, build n ctx c' = .ok x → isVec m x) → isVec m z) := by
        rw [hy]
        refine ⟨z, hz1, hz2, ?_, ?_⟩
        · intro hs hcs
          exact hz3 (h2 hs (hcs c (by simp) x hx)) (fun c' hc' => hcs c' (by simp [hc']))
        · rintro (hv | ⟨c', hc', hv⟩)
          · exact hz4 (Or.inl (h4 hv))
          · rcases List.mem_cons.1 hc' with rfl | hc'
            · exact hz4 (Or.inl (h3 (hv x hx)))
            · exact hz4 (Or.inr ⟨c', hc', hv⟩)
      cases x <;> simp only [isCoef] at hp <;> exact hres

/-- the rest of a product after the matrix -/
theorem buildProd_mat (m : Nat) (f : Nat → Nat → α) : ∀ (cs : List (ME α)) (acc : BV α), isCoef m acc →
    (∀ c ∈ cs, ∃ x, build n ctx c = .ok x ∧ isCoef m x) →
    ∃ y, buildProd n ctx (some ⟨m, n, f⟩) acc cs = .ok y ∧ isLin n m y
  | [], acc, ha, _ => by
    cases acc <;> simp only [isCoef] at ha
    · (apply ok_intro; (simp [buildProd, scaleMat]; rfl); exact ⟨rfl, rfl⟩)
    · (apply ok_intro; (simp [buildProd, scaleMat, ha]; rfl); exact ⟨rfl, rfl⟩)
  | c :: cs, acc, ha, h => by
    obtain ⟨x, hx, hp⟩ := h c (by simp)
    simp only [buildProd, hx]
    by_cases hz : isZero x = true
    · rw [if_pos hz]; exact ⟨_, rfl, rfl⟩
    · rw [if_neg hz]
      obtain ⟨y, hy, h1, _⟩ := mulVS_coef ha hp
      obtain ⟨z, hz1, hz2⟩ := buildProd_mat m f cs y h1 (fun c hc => h c (by simp [hc]))
      cases x <;> simp only [isCoef] at hp <;> simp only [hy] <;> exact ⟨z, hz1, hz2⟩

/-- product of coefficients and one matrix -/
theorem buildProd_lin (m : Nat) (l : ME α) (post : List (ME α))
    (hl : ∃ x, build n ctx l = .ok x ∧ isLin n m x)
    (hpost : ∀ c ∈ post, ∃ x, build n ctx c = .ok x ∧ isCoef m x) :
    ∀ (pre : List (ME α)) (acc : BV α), isCoef m acc →
    (∀ c ∈ pre, ∃ x, build n ctx c = .ok x ∧ isCoef m x) →
    ∃ y, buildProd n ctx none acc (pre ++ l :: post) = .ok y ∧ isLin n m y
  | [], acc, ha, _ => by
    obtain ⟨x, hx, hp⟩ := hl
    simp only [List.nil_append, buildProd, hx]
    by_cases hz : isZero x = true
    · rw [if_pos hz]; exact ⟨_, rfl, rfl⟩
    · rw [if_neg hz]
      cases x <;> simp only [isLin] at hp
      · simp [isZero, hp] at hz
      · obtain ⟨rfl, rfl⟩ := hp
        exact buildProd_mat _ _ post acc ha hpost
  | c :: pre, acc, ha, h => by
    obtain ⟨x, hx, hp⟩ := h c (by simp)
    simp only [List.cons_append, buildProd, hx]
    by_cases hz : isZero x = true
    · rw [if_pos hz]; exact ⟨_, rfl, rfl⟩
    · rw [if_neg hz]
      obtain ⟨y, hy, h1, _⟩ := mulVS_coef ha hp
      obtain ⟨z, hz1, hz2⟩ := buildProd_lin m l post hl hpost pre y h1 (fun c hc => h c (by simp [hc]))
      cases x <;> simp only [isCoef] at hp <;> simp only [hy] <;> exact ⟨z, hz1, hz2⟩

theorem divBV_coef {m : Nat} {a b : BV α} (ha : isCoef m a) (hb : isCoef m b) :
    ∃ c, divBV a b = .ok c ∧ isCoef m c ∧ (isSc a → isSc b → isSc c) ∧ (isVec m a → isVec m c) := by
  cases a <;> cases b <;> simp only [isCoef] at ha hb
  · exact ⟨_, rfl, trivial, fun _ _ => trivial, by simp [isVec]; intro h; left; exact h⟩
  · exact ⟨_, rfl, hb, by simp [isSc], by simp [isVec, hb]⟩
  · exact ⟨_, rfl, ha, by simp [isSc], by simp [isVec, ha]⟩
  · subst ha; subst hb
    (apply ok_intro; (simp [divBV]; rfl); exact ⟨rfl, by simp [isSc], by simp [isVec]⟩)

theorem sc_ok {e : ME α} (h : Sc ctx e) : ∃ x, build n ctx e = .ok x ∧ isSc x := by
  induction h with
  | num a => exact ⟨.sc a, by simp [build], trivial⟩
  | var h => (apply ok_intro; (simp [build, h]; rfl); exact trivial)
  | sum _ ih =>
    obtain ⟨y, hy, hp⟩ := buildSum_ok isSc .scalar
      (fun a b ha hb _ => by
        rcases ha with ha | rfl
        · cases a <;> cases b <;> simp only [isSc] at ha hb
          exact ⟨_, rfl, trivial⟩
        · cases b <;> simp only [isSc] at hb
          exact ⟨_, rfl, trivial⟩)
      (fun b hb _ => by cases b <;> simp only [isSc] at hb; rfl) _ none (.sc 0) ih (Or.inl rfl) (Or.inr rfl)
    refine ⟨y, by simp only [build]; exact hy, ?_⟩
    rcases hp with hp | rfl
    · exact hp
    · trivial
  | prod _ ih =>
    obtain ⟨y, hy, _, hp, _⟩ := buildProd_coef (n := n) (ctx := ctx) 0 _ (.sc 1) trivial
      (fun c hc => by obtain ⟨x, h1, h2⟩ := ih c hc; exact ⟨x, h1, isCoef_of_sc h2⟩)
    refine ⟨y, by simp only [build]; exact hy, hp trivial ?_⟩
    intro c hc x hx
    obtain ⟨x', h1, h2⟩ := ih c hc
    rw [h1] at hx; cases hx; exact h2
  | quot _ _ ih1 ih2 =>
    obtain ⟨x, hx, hp⟩ := ih1
    obtain ⟨y, hy, hq⟩ := ih2
    obtain ⟨c, hc, _, h, _⟩ := divBV_coef (m := 0) (isCoef_of_sc hp) (isCoef_of_sc hq)
    exact ⟨c, by simp only [build, hx, hy]; exact hc, h hp hq⟩
  | pow k _ ih =>
    obtain ⟨x, hx, hp⟩ := ih
    cases x <;> simp only [isSc] at hp
    (apply ok_intro; (simp only [build, hx, powBV]; rfl); exact trivial)
  | call f _ ih =>
    obtain ⟨x, hx, hp⟩ := ih
    cases x <;> simp only [isSc] at hp
    (apply ok_intro; (simp only [build, hx, callBV]; rfl); exact trivial)

mutual
theorem vec_ok {m : Nat} {e : ME α} (h : Vec ctx m e) : ∃ x, build n ctx e = .ok x ∧ isVec m x := by
  match h with
  | .var h => (apply ok_intro; (simp [build, h]; rfl); exact rfl)
  | .coord (f := f) => exact ⟨.ve m f, by simp only [build], rfl⟩
  | .refC R f hm =>
    exact ⟨.ve R.rows (fun i => ∑ k ∈ Finset.range R.cols, R.get i k * f k), by simp only [build, refDBV, if_true], hm⟩
  | .refD (f := f) R h hm =>
    exact ⟨.ve R.rows (fun i => ∑ k ∈ Finset.range R.cols, R.get i k * f k), by simp only [build, h, refDBV, if_true], hm⟩
  | .sum (cs := cs) hs =>
    have ih : ∀ c ∈ cs, ∃ x, build n ctx c = .ok x ∧ isVec m x := fun c hc => vec_ok (hs c hc)
    obtain ⟨y, hy, hp⟩ := buildSum_ok (isVec m) .vector
      (fun a b ha hb h0 => by
        cases b <;> simp only [isVec] at hb
        · subst hb; exact absurd rfl h0
        · subst hb
          rcases ha with ha | rfl
          · cases a <;> simp only [isVec] at ha
            · exact ⟨_, rfl, rfl⟩
            · subst ha; (apply ok_intro; (simp [addBV]; rfl); exact rfl)
          · exact ⟨_, rfl, rfl⟩)
      (fun b hb h0 => by
        cases b <;> simp only [isVec] at hb
        · subst hb; exact absurd rfl h0
        · rfl) cs none (.sc 0) ih (Or.inl rfl) (Or.inr rfl)
    refine ⟨y, by simp only [build]; exact hy, ?_⟩
    rcases hp with hp | rfl
    · exact hp
    · rfl
  | .prod (pre := pre) (v := v) (post := post) h1 h2 h3 =>
    have i1 : ∀ c ∈ pre, ∃ x, build n ctx c = .ok x ∧ isCoef m x := fun c hc => coef_ok (h1 c hc)
    have i2 : ∃ x, build n ctx v = .ok x ∧ isVec m x := vec_ok h2
    have i3 : ∀ c ∈ post, ∃ x, build n ctx c = .ok x ∧ isCoef m x := fun c hc => coef_ok (h3 c hc)
    obtain ⟨v', hv1, hv2⟩ := i2
    obtain ⟨y, hy, _, _, hp⟩ := buildProd_coef (n := n) (ctx := ctx) m (pre ++ v :: post) (.sc 1) trivial
      (by
        intro c hc
        simp only [List.mem_append, List.mem_cons] at hc
        rcases hc with hc | rfl | hc
        · exact i1 c hc
        · exact ⟨v', hv1, isCoef_of_vec hv2⟩
        · exact i3 c hc)
    refine ⟨y, by simp only [build]; exact hy, hp (Or.inr ⟨v, by simp, ?_⟩)⟩
    intro x hx
    rw [hv1] at hx; cases hx; exact hv2
  | .quot h1 h2 =>
    obtain ⟨x, hx, hp⟩ := vec_ok h1
    obtain ⟨y, hy, hq⟩ := coef_ok h2
    obtain ⟨c, hc, _, _, h⟩ := divBV_coef (isCoef_of_vec hp) hq
    exact ⟨c, by simp only [build, hx, hy]; exact hc, h hp⟩
theorem coef_ok {m : Nat} {e : ME α} (h : Coef ctx m e) : ∃ x, build n ctx e = .ok x ∧ isCoef m x := by
  match h with
  | .sc h => obtain ⟨x, h1, h2⟩ := sc_ok (n := n) h; exact ⟨x, h1, isCoef_of_sc h2⟩
  | .vec h => obtain ⟨x, h1, h2⟩ := vec_ok h; exact ⟨x, h1, isCoef_of_vec h2⟩
  | .prod (cs := cs) hs =>
    have ih : ∀ c ∈ cs, ∃ x, build n ctx c = .ok x ∧ isCoef m x := fun c hc => coef_ok (hs c hc)
    obtain ⟨y, hy, hp, _⟩ := buildProd_coef (n := n) (ctx := ctx) m cs (.sc 1) trivial ih
    exact ⟨y, by simp only [build]; exact hy, hp⟩
  | .quot h1 h2 =>
    obtain ⟨x, hx, hp⟩ := coef_ok h1
    obtain ⟨y, hy, hq⟩ := coef_ok h2
    obtain ⟨c, hc, h, _⟩ := divBV_coef hp hq
    exact ⟨c, by simp only [build, hx, hy]; exact hc, h⟩
  | .pow k h =>
    obtain ⟨x, hx, hp⟩ := coef_ok h
    cases x <;> simp only [isCoef] at hp
    · (apply ok_intro; (simp only [build, hx, powBV]; rfl); exact trivial)
    · (apply ok_intro; (simp only [build, hx, powBV]; rfl); exact hp)
  | .call f h =>
    obtain ⟨x, hx, hp⟩ := coef_ok h
    cases x <;> simp only [isCoef] at hp
    · (apply ok_intro; (simp only [build, hx, callBV]; rfl); exact trivial)
    · (apply ok_intro; (simp only [build, hx, callBV]; rfl); exact hp)
end

theorem addBV_lin {m : Nat} {a b : BV α} (ha : isLin n m a) (hb : isLin n m b) (h0 : b ≠ .sc 0) :
    ∃ c, addBV a b = .ok c ∧ isLin n m c := by
  cases b <;> simp only [isLin] at hb
  · subst hb; exact absurd rfl h0
  · obtain ⟨rfl, rfl⟩ := hb
    cases a <;> simp only [isLin] at ha
    · exact ⟨_, rfl, rfl, rfl⟩
    · obtain ⟨rfl, rfl⟩ := ha
      (apply ok_intro; (simp [addBV]; rfl); exact ⟨rfl, rfl⟩)

theorem matMul_lin {R : Arr α} {m : Nat} {f : Nat → Nat → α} (h : m = R.cols) :
    ∃ c, matMul R m n f = .ok c ∧ isLin n R.rows c := by
  subst h
  (apply ok_intro; (simp [matMul]; rfl); exact ⟨rfl, rfl⟩)

theorem buildIntG_lin (m : Nat) : ∀ (ps : List (Arr α × ME α)) (acc : BV α), isLin n m acc →
    (∀ p ∈ ps, p.1.rows = m) →
    (∀ p ∈ ps, ∃ x, build n ctx p.2 = .ok x ∧ isLin n p.1.cols x) →
    ∃ y, buildIntG n ctx acc (ps.map (·.1)) (ps.map (·.2)) = .ok y ∧ isLin n m y
  | [], acc, ha, _, _ => ⟨acc, by simp [buildIntG], ha⟩
  | p :: ps, acc, ha, hr, h => by
    obtain ⟨x, hx, hp⟩ := h p (by simp)
    have hrec := fun acc ha => buildIntG_lin m ps acc ha (fun p hp => hr p (by simp [hp]))
      (fun p hp => h p (by simp [hp]))
    simp only [List.map_cons, buildIntG, hx]
    by_cases hz : isZero x = true
    · rw [if_pos hz]; exact hrec acc ha
    · rw [if_neg hz]
      cases x <;> simp only [isLin] at hp
      · simp [isZero, hp] at hz
      · rename_i k l f
        obtain ⟨h1, rfl⟩ := hp
        obtain ⟨c, hc, hcl⟩ := matMul_lin (n := l) (f := f) h1
        rw [hr p (by simp)] at hcl
        have hc0 : c ≠ .sc 0 := by
          rintro rfl
          simp only [matMul, h1, if_true] at hc
          cases hc
        obtain ⟨y, hy, hyl⟩ := addBV_lin ha hcl hc0
        simp only [hc, hy]
        exact hrec y hyl

theorem lin_ok {m : Nat} {e : ME α} (h : Lin n ctx m e) : ∃ x, build n ctx e = .ok x ∧ isLin n m x := by
  induction h with
  | dep => (apply ok_intro; (simp [build]; rfl); exact ⟨rfl, rfl⟩)
  | other k => (apply ok_intro; (simp [build]; rfl); exact rfl)
  | zero => (apply ok_intro; (simp [build]; rfl); exact rfl)
  | sum _ ih =>
    obtain ⟨y, hy, hp⟩ := buildSum_ok (isLin n _) .matrix
      (fun a b ha hb h0 => addBV_lin (by rcases ha with ha | rfl; exact ha; rfl) hb h0)
      (fun b hb h0 => by
        cases b <;> simp only [isLin] at hb
        · subst hb; exact absurd rfl h0
        · rfl) _ none (.sc 0) ih (Or.inl rfl) (Or.inr rfl)
    refine ⟨y, by simp only [build]; exact hy, ?_⟩
    rcases hp with hp | rfl
    · exact hp
    · rfl
  | prod h1 _ h3 ih =>
    obtain ⟨y, hy, hp⟩ := buildProd_lin _ _ _ ih (fun c hc => coef_ok (h3 c hc)) _ (.sc 1) trivial
      (fun c hc => coef_ok (h1 c hc))
    exact ⟨y, by simp only [build]; exact hy, hp⟩
  | quot _ hb ih =>
    obtain ⟨x, hx, hp⟩ := ih
    obtain ⟨y, hy, hq⟩ := sc_ok (n := n) hb
    cases y <;> simp only [isSc] at hq
    cases x <;> simp only [isLin] at hp
    · subst hp; (apply ok_intro; (simp only [build, hx, hy, divBV]; rfl); exact by simp [isLin])
    · (apply ok_intro; (simp only [build, hx, hy, divBV]; rfl); exact hp)
  | interp R _ ih =>
    obtain ⟨x, hx, hp⟩ := ih
    cases x <;> simp only [isLin] at hp
    · subst hp; (apply ok_intro; (simp only [build, hx, interpBV]; rfl); exact rfl)
    · rename_i k l f
      obtain ⟨h1, rfl⟩ := hp
      obtain ⟨c, hc, hcl⟩ := matMul_lin (n := l) (f := f) h1
      exact ⟨c, by simp only [build, hx, interpBV]; exact hc, hcl⟩
  | intG ps hr _ ih =>
    obtain ⟨y, hy, hp⟩ := buildIntG_lin (n := n) (ctx := ctx) _ ps (.sc 0) rfl hr ih
    exact ⟨y, by simp only [build]; exact hy, hp⟩

end

/-- C24: every expression that is visibly linear in the unknown is accepted; the block is zero or
a matrix with a row per node of the result and a column per DOF of the unknown. -/
theorem C24_accepts (n : Nat) (ctx : String → Option (BV α)) (m : Nat) (e : ME α)
    (h : Lin n ctx m e) :
    buildBlock n ctx e = .ok none ∨ ∃ f, buildBlock n ctx e = .ok (some ⟨m, n, f⟩) := by
  obtain ⟨x, hx, hp⟩ := lin_ok h
  unfold buildBlock
  rw [hx]
  cases x <;> simp only [isLin] at hp
  · left; simp [hp]
  · obtain ⟨rfl, rfl⟩ := hp
    right; exact ⟨_, rfl⟩

/-- C24: reference derivatives (of curve parametrizations, say) only occur in coefficients.  Of what depends on the unknown
they are refused (`NotImplementedError`), of numbers too (by an assertion); with the derivative of an array as the
coefficient of the unknown, the block is the diagonal matrix of the derivative's nodal values. -/
theorem C24_reference_derivative (n : Nat) (ctx : String → Option (BV α)) (R : Arr α) :
    (∀ (A : ME α) (M : Arr α), buildBlock n ctx A = .ok (some M) →
      buildBlock n ctx (.refD R A) = .error .notImplemented) ∧
    (∀ A : ME α, buildBlock n ctx A = .ok none → buildBlock n ctx (.refD R A) = .error .assertion) ∧
    (∀ a : α, buildBlock n ctx (.refD R (.num a)) = .error .assertion) ∧
    (∀ (s : String) (f : Nat → α), ctx s = some (.ve R.cols f) → R.rows = n →
      ∃ M : Arr α, buildBlock n ctx (.prod [.refD R (.var s), .dep]) = .ok (some M) ∧ M.rows = n ∧ M.cols = n ∧
        ∀ i j, M.get i j = if i = j then ∑ k ∈ Finset.range R.cols, R.get i k * f k else 0) := by
  refine ⟨fun A M h => ?_, fun A h => ?_, fun a => rfl, fun s f hs hn => ?_⟩
  · simp [buildBlock, build, refDBV, build_of_block h]
  · unfold buildBlock at h
    cases hA : build n ctx A with
    | error e => rw [hA] at h; cases h
    | ok x =>
      rw [hA] at h
      cases x with
      | sc a => simp [buildBlock, build, refDBV, hA]
      | ve k g => cases h
      | ma k l g => cases h
      | oth k g => cases h
  · refine ⟨⟨n, n, fun i j => (if i = j then 1 else 0) * (∑ k ∈ Finset.range R.cols, R.get i k * f k)⟩, ?_, rfl, rfl, ?_⟩
    · simp [buildBlock, build, buildProd, refDBV, hs, isZero, mulVS, scaleMat, hn]
    · intro i j
      by_cases hij : i = j
      · simp [hij]
      · simp [hij]

/-- non-vacuity: the difference matrix on two nodes -/
example : ∃ M : Arr ℚ, buildBlock 2 (fun _ => some (.ve 2 (fun i => (i : ℚ) ^ 2 + 3)))
    (.prod [.refD ⟨2, 2, fun _ j => if j = 0 then -1 else 1⟩ (.var "w"), .dep]) = .ok (some M) ∧ M.get 1 1 = 1 := by
  obtain ⟨M, h, _, _, h'⟩ := (C24_reference_derivative 2 (fun _ => some (.ve 2 (fun i => (i : ℚ) ^ 2 + 3)))
    (⟨2, 2, fun _ j => if j = 0 then -1 else 1⟩ : Arr ℚ)).2.2.2 "w" _ rfl rfl
  exact ⟨M, h, by rw [h']; norm_num [Finset.sum_range_succ]⟩

/-- C24 is false for coefficients that add a number to an array: `(w + 1) * u` is linear in the
unknown, but refused. -/
theorem C24_refuted_mixed : ∃ (ctx : String → Option (BV ℚ)), PlainCtx ctx ∧
    Frag (.prod [.sum [.var "w", .num 1], .dep] : ME ℚ) ∧
    buildBlock 2 ctx (.prod [.sum [.var "w", .num 1], .dep]) = .error .runtime ∧
    ∀ x : Nat → ℚ, ∃ v, ev 2 x ctx (.prod [.sum [.var "w", .num 1], .dep]) = .ok (.ve 2 v) ∧
      ∀ i, v i = (i + 1) * x i := by
  refine ⟨fun _ => some (.ve 2 (fun i => i)), ?_, ?_, ?_, ?_⟩
  · intro s v hv; cases hv; exact Or.inr ⟨_, _, rfl⟩
  · simp [Frag, FragL]
  · simp [buildBlock, build, buildProd, buildSum, isZero, kindOf, addBV]
  · intro x
    refine ⟨fun i => 1 * (0 + (i : ℚ) + 1) * x i, by simp [ev, evFold, opEV, ofBV], fun i => by ring⟩

/-- non-vacuity: an array times a layer potential of an array times the unknown, plus half the
unknown -/
example : Lin 2 (fun _ => some (.ve 2 (fun i => (i : ℚ)))) 2
    (.sum [.prod [.var "w", .intG [⟨2, 2, fun _ _ => 1⟩] [.prod [.sum [.var "w", .var "v"], .dep]]],
      .quot .dep (.num 2)]) := by
  refine .sum ?_
  simp only [List.mem_cons, List.not_mem_nil, or_false]
  rintro c (rfl | rfl)
  · refine Lin.prod (pre := [.var "w"]) (post := []) ?_ ?_ (by simp)
    · simp only [List.mem_singleton]; rintro c rfl; exact .vec (.var rfl)
    · refine Lin.intG [(⟨2, 2, fun _ _ => 1⟩, .prod [.sum [.var "w", .var "v"], .dep])] (by simp) ?_
      simp only [List.mem_singleton]; rintro p rfl
      refine Lin.prod (pre := [.sum [.var "w", .var "v"]]) (post := []) ?_ .dep (by simp)
      simp only [List.mem_singleton]; rintro c rfl
      refine .vec (.sum ?_)
      simp only [List.mem_cons, List.not_mem_nil, or_false]
      rintro c (rfl | rfl) <;> exact .var rfl
  · exact .quot .dep (.num 2)

end Verif.MatBuild
