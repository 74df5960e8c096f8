import Verif.Source.Exec
import Mathlib.Data.List.Nodup

/-!
# Properties of potential execution for point and unregularized sources (C63)
-/

namespace Verif.SrcExec

open Verif Verif.Offsets

/-! ## Generic lemmas -/

theorem mapM_nil' {α β : Type} (f : α → Except Err β) : ([] : List α).mapM f = .ok [] := by
  rw [List.mapM_nil]; rfl

theorem mapM_cons_ok {α β : Type} (f : α → Except Err β) (a : α) (l : List α) (b : β) (bs : List β)
    (h1 : f a = .ok b) (h2 : l.mapM f = .ok bs) : (a :: l).mapM f = .ok (b :: bs) := by
  rw [List.mapM_cons, h1, h2]; rfl

theorem mapM_ok {α β : Type} (f : α → Except Err β) (l : List α) (g : α → β)
    (h : ∀ a ∈ l, f a = .ok (g a)) : l.mapM f = .ok (l.map g) := by
  induction l with
  | nil => exact mapM_nil' f
  | cons a l ih =>
    exact mapM_cons_ok f a l _ _ (h a List.mem_cons_self)
      (ih fun b hb => h b (List.mem_cons_of_mem _ hb))

theorem mapM_err {α β : Type} (f : α → Except Err β) (l : List α) (g : α → β) (a : α) (e : Err)
    (pre : ∀ b ∈ l, f b = .ok (g b) ∨ f b = .error e) (ha : a ∈ l) (hf : f a = .error e) :
    l.mapM f = .error e := by
  induction l with
  | nil => cases ha
  | cons b l ih =>
    rw [List.mapM_cons]
    rcases pre b List.mem_cons_self with h | h
    · rw [h]
      rcases List.mem_cons.1 ha with rfl | hm
      · rw [hf] at h; cases h
      · have := ih (fun c hc => pre c (List.mem_cons_of_mem _ hc)) hm
        show (do let bs ← l.mapM f; pure (g b :: bs)) = _
        rw [this]; rfl
    · rw [h]; rfl

theorem alookup_map {α β γ : Type} [DecidableEq α] (f : β → γ) (a : α) (l : List (α × β)) :
    alookup a (l.map fun p => (p.1, f p.2)) = (alookup a l).map f := by
  induction l with
  | nil => rfl
  | cons p l ih =>
    obtain ⟨b, c⟩ := p
    simp only [List.map_cons, alookup]
    by_cases h : b = a
    · rw [if_pos h, if_pos h]; rfl
    · rw [if_neg h, if_neg h]; exact ih

theorem zipIdx_map_eq {α β γ : Type} (N : List α) (p : α → β) (F : β × Nat → γ) (G : α → γ)
    (h : ∀ (j : Nat) (y : α), N[j]? = some y → F (p y, j) = G y) :
    (N.map p).zipIdx.map F = N.map G := by
  apply List.ext_getElem?
  intro j
  rw [List.getElem?_map, List.getElem?_map, List.getElem?_zipIdx, List.getElem?_map]
  cases hj : N[j]? with
  | none => rfl
  | some y => simp [h j y hj]

theorem splitSizes_map {P V : Type} (f : P → V) (gs : List (List P)) :
    splitSizes (gs.map List.length) (gs.flatten.map f) = gs.map fun g => g.map f := by
  induction gs with
  | nil => rfl
  | cons g gs ih =>
    simp only [List.map_cons, List.flatten_cons, List.map_append, splitSizes]
    rw [List.take_left' (by simp), List.drop_left' (by simp), ih]

theorem unflat_map {P V : Type} (f : P → V) (g : Geo P) :
    g.unflat (g.flatNodes.map f) = Spec.onTarget f g := by
  cases g with
  | discr gs => simp only [Geo.unflat, Geo.flatNodes, Spec.onTarget]; rw [splitSizes_map]
  | pts l => rfl

/-! ## Arguments and strengths -/

section

variable {N S TK SK P E V : Type} [DecidableEq N] [Semiring V]

/-- the kernel arguments of an instruction represent those of the nodes -/
def ArgsOk (nodes : List (List (Spec.Node P V))) (look : String → Option (Val V)) : Prop :=
  ∀ a, (∀ v, look a = some v → Spec.Represents nodes (fun y => y.arg a) v) ∧
    (look a = none → ∀ g ∈ nodes, ∀ y ∈ g, y.arg a = 0)

theorem represents_flatten {nodes : List (List (Spec.Node P V))} {f : Spec.Node P V → V} {v : Val V}
    (h : Spec.Represents nodes f v) :
    v.flatten.fits nodes.flatten.length = true ∧
    ∀ (j : Nat) (y : Spec.Node P V), nodes.flatten[j]? = some y → v.flatten.at j = f y := by
  cases h with
  | const v h =>
    refine ⟨rfl, ?_⟩
    intro j y hy
    obtain ⟨g, hg, hyg⟩ := List.mem_flatten.1 (List.mem_of_getElem? hy)
    exact (h g hg y hyg).symm
  | flat =>
    refine ⟨by simp only [Val.flatten, Val.fits, List.length_map, decide_true], ?_⟩
    intro j y hy
    show (nodes.flatten.map f).getD j 0 = f y
    simp only [List.getD, List.getElem?_map, hy]; rfl
  | dof =>
    have h : (Val.dof (nodes.map fun g => g.map f)).flatten = .flat (nodes.flatten.map f) := by
      rw [List.map_flatten]; rfl
    rw [h]
    refine ⟨by simp only [Val.fits, List.length_map, decide_true], ?_⟩
    intro j y hy
    show (nodes.flatten.map f).getD j 0 = f y
    simp only [List.getD, List.getElem?_map, hy]; rfl

omit [Semiring V] in
theorem callOk_of {args : List (String × Val V)} {nsk : Nat} {sources : List P}
    {strengths : List (List V)}
    (h1 : ∀ a ∈ args, a.2.fits sources.length = true)
    (h2 : ∀ s ∈ strengths, s.length = sources.length) (h3 : strengths.length = nsk) :
    callOk nsk sources strengths args = true := by
  simp only [callOk, Bool.and_eq_true, List.all_eq_true, decide_eq_true_eq]
  exact ⟨⟨h1, h2⟩, h3⟩

theorem inner_eq (sks : List SK) (strengths : List (List V)) (q : Nat → V) (j : Nat)
    (hl : strengths.length = sks.length)
    (hs : ∀ (s : Nat) (l : List V), strengths[s]? = some l → l.getD j 0 = q s) (k : SK → V) :
    ((sks.zip strengths).map fun s => k s.1 * s.2.getD j 0)
      = (sks.zipIdx.map fun s => k s.1 * q s.2) := by
  apply List.ext_getElem?
  intro i
  rw [List.getElem?_map, List.getElem?_map, List.getElem?_zipIdx]
  by_cases hi : i < sks.length
  · have hi' : i < strengths.length := by omega
    rw [List.getElem?_eq_getElem (by simpa using ⟨hi, hi'⟩), List.getElem?_eq_getElem hi]
    have := hs i _ (List.getElem?_eq_getElem hi')
    simp only [List.getElem_zip, Option.map_some, Nat.zero_add, this]
  · rw [List.getElem?_eq_none (by simp; omega), List.getElem?_eq_none (by omega)]
    rfl

theorem row_eq (pot : TK → SK → P → P → (String → V) → V) (tk : TK) (sks : List SK) (x : P)
    (nodes : List (Spec.Node P V)) (q : Spec.Node P V → Nat → V) (strengths : List (List V))
    (args : List (String × Val V)) (hl : strengths.length = sks.length)
    (hs : ∀ (s : Nat) (l : List V), strengths[s]? = some l → l = nodes.map fun y => q y s)
    (ha : ∀ (j : Nat) (y : Spec.Node P V), nodes[j]? = some y → argsAt args j = y.arg) :
    row pot tk sks x (nodes.map fun y => y.pt) strengths args
      = Spec.potential pot sks q nodes tk x := by
  rw [row, Spec.potential]
  congr 1
  apply zipIdx_map_eq
  intro j y hy
  simp only
  rw [ha j y hy]
  rw [inner_eq sks strengths (q y) j hl ?_ (fun s => pot tk s x y.pt y.arg)]
  intro s l hsl
  rw [hs s l hsl]
  simp [List.getD, hy]

theorem argsAt_eq (nodes : List (List (Spec.Node P V))) (args : List (String × Val V))
    (h : ∀ a, match alookup a args with
      | some v => ∀ (j : Nat) (y : Spec.Node P V), nodes.flatten[j]? = some y → v.at j = y.arg a
      | none => ∀ g ∈ nodes, ∀ y ∈ g, y.arg a = 0) (j : Nat) (y : Spec.Node P V)
    (hy : nodes.flatten[j]? = some y) : argsAt args j = y.arg := by
  funext a
  have := h a
  unfold argsAt
  cases ha : alookup a args with
  | none =>
    rw [ha] at this
    obtain ⟨g, hg, hyg⟩ := List.mem_flatten.1 (List.mem_of_getElem? hy)
    exact (this g hg y hyg).symm
  | some v => rw [ha] at this; exact this j y hy

/-! ## Resolving targets -/

theorem resolve_of_isTarget {stage1 : S} {places : List (N × Place P S)} {n : N} {st : Option S}
    {g : Geo P} (h : Spec.IsTarget stage1 (fun g => alookup g places) n st g) :
    ∃ p, alookup n places = some p ∧ p.resolve stage1 st = g := by
  cases h with
  | qbx h s => exact ⟨_, h, rfl⟩
  | qbxDefault h => exact ⟨_, h, rfl⟩
  | unregularized h s => exact ⟨_, h, rfl⟩
  | discr h s => exact ⟨_, h, rfl⟩
  | target h s => exact ⟨_, h, rfl⟩
  | points h s => exact ⟨_, h, rfl⟩

theorem getTarget_ok {stage1 : S} {places : List (N × Place P S)} {t : Dd N S} {p : Place P S}
    (h : alookup t.geometry places = some p) :
    getTarget stage1 places t = .ok (p.resolve stage1 t.stage) := by
  rw [getTarget, getGeometry, h]; rfl

/-- one output of the loops, when the arrays fit -/
theorem oneOutput_eq (stage1 : S) (places : List (N × Place P S))
    (pot : TK → SK → P → P → (String → V) → V) (tks : List TK) (sks : List SK) (sources : List P)
    (strengths : List (List V)) (args : List (String × Val V)) (o : Out N S) (p : Place P S) (tk : TK)
    (hp : alookup o.target.geometry places = some p) (htk : tks[o.kernel]? = some tk)
    (hc : callOk sks.length sources strengths args = true) (F : P → V)
    (hF : ∀ x, row pot tk sks x sources strengths args = F x) :
    oneOutput stage1 places pot tks sks sources strengths args o
      = .ok (o.name, Spec.onTarget F (p.resolve stage1 o.target.stage)) := by
  rw [oneOutput, getTarget_ok hp]
  show (do let all ← p2p pot tks sks _ sources strengths args
           let r ← pick all o.kernel
           pure (o.name, Geo.unflat r _) : Except Err _) = _
  rw [p2p, if_pos hc]
  show (do let r ← pick _ o.kernel
           pure (o.name, Geo.unflat r _) : Except Err _) = _
  rw [pick, List.getElem?_map, htk]
  show (Except.ok (o.name, Geo.unflat _ _) : Except Err _) = _
  simp only [hF]
  rw [unflat_map]

omit [Semiring V] in
/-- results computed output by output -/
theorem correct_of_each (stage1 : S) (places : List (N × Place P S)) (tks : List TK) (F : TK → P → V)
    (outs : List (Out N S)) (cf : Out N S → Except Err (String × Val V))
    (hplaces : ∀ o ∈ outs, ∃ p, alookup o.target.geometry places = some p)
    (hkernel : ∀ o ∈ outs, o.kernel < tks.length)
    (hone : ∀ o ∈ outs, ∀ p tk, alookup o.target.geometry places = some p → tks[o.kernel]? = some tk →
      cf o = .ok (o.name, Spec.onTarget (F tk) (p.resolve stage1 o.target.stage))) :
    ∃ rs, outs.mapM cf = .ok rs ∧ Spec.Correct stage1 (fun g => alookup g places) tks F outs rs := by
  induction outs with
  | nil => exact ⟨[], mapM_nil' _, rfl, by intro i o g tk h; simp at h⟩
  | cons o outs ih =>
    obtain ⟨rs, h1, h2, h3⟩ := ih (fun o' ho' => hplaces o' (List.mem_cons_of_mem _ ho'))
      (fun o' ho' => hkernel o' (List.mem_cons_of_mem _ ho'))
      (fun o' ho' => hone o' (List.mem_cons_of_mem _ ho'))
    obtain ⟨p, hp⟩ := hplaces o List.mem_cons_self
    have hk := List.getElem?_eq_getElem (hkernel o List.mem_cons_self)
    have hr := hone o List.mem_cons_self p _ hp hk
    refine ⟨_ :: rs, mapM_cons_ok _ o outs _ rs hr h1, by simp [h2], ?_⟩
    intro i o' g tk hi hg htk
    cases i with
    | zero =>
      have : o = o' := by simpa using hi
      subst this
      obtain ⟨p', hp', rfl⟩ := resolve_of_isTarget hg
      rw [hp] at hp'
      injection hp' with hp'
      rw [hk] at htk
      injection htk with htk
      subst hp'
      subst htk
      rfl
    | succ i => simpa using h3 i o' g tk (by simpa using hi) hg htk

/-- the loop over the outputs -/
theorem outputs_correct (stage1 : S) (places : List (N × Place P S))
    (pot : TK → SK → P → P → (String → V) → V) (tks : List TK) (sks : List SK) (sources : List P)
    (strengths : List (List V)) (args : List (String × Val V)) (outs : List (Out N S))
    (hp : ∀ o ∈ outs, ∃ p, alookup o.target.geometry places = some p)
    (hk : ∀ o ∈ outs, o.kernel < tks.length)
    (hc : callOk sks.length sources strengths args = true) (F : TK → P → V)
    (hF : ∀ tk x, row pot tk sks x sources strengths args = F tk x) :
    ∃ rs, outs.mapM (oneOutput stage1 places pot tks sks sources strengths args) = .ok rs ∧
      Spec.Correct stage1 (fun g => alookup g places) tks F outs rs := by
  refine correct_of_each stage1 places tks F outs _ hp hk ?_
  intro o ho p tk hp htk
  exact oneOutput_eq stage1 places pot tks sks sources strengths args o p tk hp htk hc _ (hF tk)

/-! ## C63: point sources -/

omit [Semiring V] in
theorem mapM_asFlat (evaluate : E → Val V) (densities : List E) (L : List (List V))
    (hl : densities.length = L.length)
    (h : ∀ (s : Nat) (d : E) (l : List V), densities[s]? = some d → L[s]? = some l →
      evaluate d = .flat l) :
    densities.mapM (fun d => (evaluate d).asFlat) = .ok L := by
  induction densities generalizing L with
  | nil =>
    cases L with
    | nil => exact mapM_nil' _
    | cons a L => cases hl
  | cons d ds ih =>
    cases L with
    | nil => cases hl
    | cons l L =>
      apply mapM_cons_ok
      · have := h 0 d l rfl rfl
        simp only [this]; rfl
      · refine ih L (by simpa using hl) ?_
        intro s d l h1 h2
        exact h (s + 1) d l (by simpa using h1) (by simpa using h2)

/-- C63: executing the potential of a point source: the results are in the order of the requested
outputs, carry their names, and each is, on the points of its own target (unflattened for a
discretization of the requested stage), the sum over all source points and source kernels of the output's
own target kernel times the densities. -/
theorem C63_point_source (stage1 : S) (places : List (N × Place P S))
    (pot : TK → SK → P → P → (String → V) → V) (evaluate : E → Val V) (nodes : List (Spec.Node P V))
    (tks : List TK) (sks : List SK) (densities : List E) (args : List (String × E))
    (outs : List (Out N S))
    (hdens : ∀ (s : Nat) (d : E), densities[s]? = some d →
      evaluate d = .flat (nodes.map fun y => y.density s))
    (hlen : densities.length = sks.length)
    (hargs : ArgsOk [nodes] fun a => (alookup a args).map evaluate)
    (hall : ∀ a ∈ args, (evaluate a.2).fits nodes.length = true)
    (hplaces : ∀ o ∈ outs, ∃ p, alookup o.target.geometry places = some p)
    (hkernel : ∀ o ∈ outs, o.kernel < tks.length) :
    ∃ rs, execPoint stage1 places pot evaluate (nodes.map fun y => y.pt) tks sks densities args outs
        = .ok rs ∧
      Spec.Correct stage1 (fun g => alookup g places) tks
        (Spec.potential pot sks (fun y s => y.density s) nodes) outs rs := by
  set L : List (List V) := (List.range sks.length).map fun s => nodes.map fun y => y.density s with hL
  have hLget : ∀ (s : Nat) (l : List V), L[s]? = some l → l = nodes.map fun y => y.density s := by
    intro s l h
    rw [hL, List.getElem?_map] at h
    by_cases hs : s < sks.length
    · rw [List.getElem?_range hs] at h; simpa using h.symm
    · rw [List.getElem?_eq_none (by simpa using hs)] at h; simp at h
  have hstr : densities.mapM (fun d => (evaluate d).asFlat) = .ok L := by
    apply mapM_asFlat
    · rw [hL]; simpa using hlen
    · intro s d l h1 h2
      rw [hdens s d h1, hLget s l h2]
  have hcall : callOk sks.length (nodes.map fun y => y.pt) L (kernelArgs evaluate false args) = true := by
    apply callOk_of
    · intro a ha
      rw [kernelArgs] at ha
      obtain ⟨b, hb, rfl⟩ := List.mem_map.1 ha
      simpa using hall b hb
    · intro s hs
      obtain ⟨i, hi⟩ := List.mem_iff_getElem?.1 hs
      rw [hLget i s hi]; simp
    · rw [hL]; simp
  have hexec : execPoint stage1 places pot evaluate (nodes.map fun y => y.pt) tks sks densities args outs
      = outs.mapM (oneOutput stage1 places pot tks sks (nodes.map fun y => y.pt) L
          (kernelArgs evaluate false args)) := by
    rw [execPoint, hstr]; rfl
  rw [hexec]
  apply outputs_correct stage1 places pot tks sks _ L _ outs hplaces hkernel hcall
  intro tk x
  apply row_eq pot tk sks x nodes (fun y s => y.density s) L _ (by rw [hL]; simp) hLget
  intro j y hy
  have := argsAt_eq [nodes] (kernelArgs evaluate false args) ?_ j y (by simpa using hy)
  · exact this
  intro a
  have h1 := hargs a
  have h2 : alookup a (kernelArgs evaluate false args) = (alookup a args).map evaluate := by
    rw [kernelArgs]; simp only [Bool.false_eq_true, if_false]; exact alookup_map evaluate a args
  rw [h2]
  cases hl : alookup a args with
  | none => exact h1.2 (by simp only [hl]; rfl)
  | some e =>
    have h1 := h1.1 (evaluate e) (by simp only [hl]; rfl)
    simp only [Option.map_some]
    have hf := hall _ (alookup_mem hl)
    intro j y hy
    have := (represents_flatten h1).2 j y hy
    cases hv : evaluate e with
    | scalar v => rw [hv] at this; exact this
    | flat l => rw [hv] at this; exact this
    | dof gs =>
      have hf' : (evaluate e).fits nodes.length = true := hf
      rw [hv] at hf'; cases hf'

/-! ## C63: unregularized sources, direct evaluation -/

theorem weigh_eq (nodes : List (List (Spec.Node P V))) (f : Spec.Node P V → V) (v : Val V)
    (h : Spec.Represents nodes f v) (hd : ∀ l, v ≠ .flat l) :
    weigh (nodes.map fun g => g.map fun y => y.weight) v
      = .ok (nodes.flatten.map fun y => y.weight * f y) := by
  cases h with
  | const v h =>
    rw [weigh]
    congr 1
    rw [← List.map_flatten (f := fun y : Spec.Node P V => y.weight), List.map_map]
    apply List.map_congr_left
    intro y hy
    obtain ⟨g, hg, hyg⟩ := List.mem_flatten.1 hy
    simp [h g hg y hyg]
  | flat => exact absurd rfl (hd _)
  | dof =>
    rw [weigh, if_pos (by rw [List.map_map, List.map_map]; simp [Function.comp_def])]
    congr 1
    induction nodes with
    | nil => rfl
    | cons g gs ih =>
      simp only [List.map_cons, List.zipWith_cons_cons, List.flatten_cons, List.map_append]
      have hd' : ∀ l, Val.dof (gs.map fun g => g.map f) ≠ .flat l := by intro l h; cases h
      rw [ih hd']
      congr 1
      clear ih hd hd'
      induction g with
      | nil => rfl
      | cons y g ih => simp [ih]

theorem mapM_weigh (evaluate : E → Val V) (nodes : List (List (Spec.Node P V))) (densities : List E)
    (q : Nat → Spec.Node P V → V)
    (h : ∀ (s : Nat) (d : E), densities[s]? = some d →
      Spec.Represents nodes (q s) (evaluate d) ∧ ∀ l, evaluate d ≠ .flat l) :
    densities.mapM (fun d => weigh (nodes.map fun g => g.map fun y => y.weight) (evaluate d))
      = .ok ((List.range densities.length).map fun s => nodes.flatten.map fun y => y.weight * q s y) := by
  induction densities generalizing q with
  | nil => exact mapM_nil' _
  | cons d ds ih =>
    have h0 := h 0 d rfl
    have ih' := ih (fun s => q (s + 1)) (fun s d hs => h (s + 1) d (by simpa using hs))
    rw [mapM_cons_ok _ d ds _ _ (weigh_eq nodes _ _ h0.1 h0.2) ih', List.length_cons,
      List.range_succ_eq_map]
    simp [Function.comp_def]

omit [Semiring V] in
theorem range_get (m : Nat) (f : Nat → List V) (s : Nat) (l : List V)
    (h : ((List.range m).map f)[s]? = some l) : l = f s := by
  rw [List.getElem?_map] at h
  by_cases hs : s < m
  · rw [List.getElem?_range hs] at h; simpa using h.symm
  · rw [List.getElem?_eq_none (by simpa using hs)] at h; simp at h

/-- C63: direct evaluation of a potential of an unregularized source: in the order of the outputs, with
their names, each on the points of its own target, the sum over all nodes and source kernels of the
output's own target kernel times quadrature weight (including the area element) times density. -/
theorem C63_unregularized_direct (stage1 : S) (places : List (N × Place P S))
    (pot : TK → SK → P → P → (String → V) → V) (evaluate : E → Val V)
    (nodes : List (List (Spec.Node P V)))
    (tks : List TK) (sks : List SK) (densities : List E) (args : List (String × E))
    (outs : List (Out N S))
    (hdens : ∀ (s : Nat) (d : E), densities[s]? = some d →
      Spec.Represents nodes (fun y => y.density s) (evaluate d) ∧ ∀ l, evaluate d ≠ .flat l)
    (hlen : densities.length = sks.length)
    (hargs : ArgsOk nodes fun a => (alookup a args).map evaluate)
    (hdistinct : ∀ a ∈ args, alookup a.1 args = some a.2)
    (hplaces : ∀ o ∈ outs, ∃ p, alookup o.target.geometry places = some p)
    (hkernel : ∀ o ∈ outs, o.kernel < tks.length) :
    ∃ rs, execDirect stage1 places pot evaluate (nodes.map fun g => g.map fun y => y.pt)
        (nodes.map fun g => g.map fun y => y.weight) tks sks densities args outs = .ok rs ∧
      Spec.Correct stage1 (fun g => alookup g places) tks
        (Spec.potential pot sks (fun y s => y.weight * y.density s) nodes.flatten) outs rs := by
  have hstr := mapM_weigh evaluate nodes densities (fun s y => y.density s) hdens
  have hflat : (nodes.map fun g => g.map fun y => y.pt).flatten = nodes.flatten.map fun y => y.pt := by
    rw [List.map_flatten]
  have hrep : ∀ a e, alookup a args = some e → Spec.Represents nodes (fun y => y.arg a) (evaluate e) :=
    fun a e h => (hargs a).1 _ (by simp only [h]; rfl)
  have hexec : execDirect stage1 places pot evaluate (nodes.map fun g => g.map fun y => y.pt)
        (nodes.map fun g => g.map fun y => y.weight) tks sks densities args outs
      = outs.mapM (oneOutput stage1 places pot tks sks (nodes.flatten.map fun y => y.pt)
          ((List.range densities.length).map fun s => nodes.flatten.map fun y => y.weight * y.density s)
          (kernelArgs evaluate true args)) := by
    rw [execDirect, hstr, hflat]; rfl
  rw [hexec]
  have hka : kernelArgs evaluate true args = args.map fun a => (a.1, (evaluate a.2).flatten) := rfl
  apply outputs_correct stage1 places pot tks sks _ _ _ outs hplaces hkernel
  · apply callOk_of
    · intro a ha
      rw [hka] at ha
      obtain ⟨b, hb, rfl⟩ := List.mem_map.1 ha
      rw [List.length_map]
      exact (represents_flatten (hrep b.1 b.2 (hdistinct b hb))).1
    · intro s hs
      obtain ⟨i, hi⟩ := List.mem_iff_getElem?.1 hs
      rw [range_get _ _ i s hi, List.length_map, List.length_map]
    · simpa using hlen
  · intro tk x
    apply row_eq pot tk sks x nodes.flatten (fun y s => y.weight * y.density s) _ _ (by simpa using hlen)
    · intro s l h; exact range_get _ _ s l h
    · intro j y hy
      refine argsAt_eq nodes _ ?_ j y hy
      intro a
      rw [hka, alookup_map (fun e => (evaluate e).flatten) a args]
      cases hl : alookup a args with
      | none => exact (hargs a).2 (by simp only [hl]; rfl)
      | some e => exact fun j y hy => (represents_flatten (hrep a e hl)).2 j y hy

/-- C63: an output on a geometry that is not in the collection raises `KeyError` (as soon as it is
reached; the other outputs being fine). -/
theorem C63_unknown_geometry (stage1 : S) (places : List (N × Place P S))
    (pot : TK → SK → P → P → (String → V) → V) (tks : List TK) (sks : List SK) (sources : List P)
    (strengths : List (List V)) (args : List (String × Val V)) (outs : List (Out N S)) (o : Out N S)
    (hk : ∀ o ∈ outs, o.kernel < tks.length)
    (hc : callOk sks.length sources strengths args = true)
    (ho : o ∈ outs) (h : alookup o.target.geometry places = none) :
    outs.mapM (oneOutput stage1 places pot tks sks sources strengths args) = .error .key := by
  have he : ∀ o : Out N S, alookup o.target.geometry places = none →
      oneOutput stage1 places pot tks sks sources strengths args o = .error .key := by
    intro o h
    rw [oneOutput, getTarget, getGeometry, h]; rfl
  classical
  refine mapM_err _ outs (fun o =>
    match oneOutput stage1 places pot tks sks sources strengths args o with
    | .ok r => r
    | .error _ => ("", .flat [])) o .key ?_ ho (he o h)
  intro b hb
  cases hp : alookup b.target.geometry places with
  | none => exact .inr (he b hp)
  | some p =>
    left
    have := oneOutput_eq stage1 places pot tks sks sources strengths args b p _ hp
      (List.getElem?_eq_getElem (hk b hb)) hc _ (fun x => rfl)
    rw [this]

end

/-! ## C63: unregularized sources, FMM -/

section

variable {N S TK SK P E V B : Type} [DecidableEq N] [DecidableEq S] [DecidableEq B] [Semiring V]

/-- dictionary and list of targets belong together -/
def GatherInv (places : List (N × Place P S)) (dict : List (Dd N S × Nat)) (ts : List (Place P S)) :
    Prop :=
  (∀ t i, alookup t dict = some i → ∃ p, ts[i]? = some p ∧ alookup t.geometry places = some p) ∧
  dict.map Prod.snd = List.range ts.length ∧ (dict.map Prod.fst).Nodup

theorem alookup_append {α β : Type} [DecidableEq α] (a : α) (l m : List (α × β)) :
    alookup a (l ++ m) = (alookup a l).or (alookup a m) := by
  induction l with
  | nil => simp [alookup]
  | cons p l ih =>
    obtain ⟨b, c⟩ := p
    simp only [List.cons_append, alookup]
    by_cases h : b = a
    · rw [if_pos h, if_pos h]; rfl
    · rw [if_neg h, if_neg h]; exact ih

theorem alookup_none_notMem {α β : Type} [DecidableEq α] (a : α) (l : List (α × β))
    (h : alookup a l = none) : a ∉ l.map Prod.fst := by
  intro hm
  obtain ⟨p, hp, rfl⟩ := List.mem_map.1 hm
  obtain ⟨w, hw⟩ := alookup_isSome_of_mem (k := p.1) (b := p.2) hp
  rw [h] at hw; cases hw

theorem gather_ok (places : List (N × Place P S)) (outs : List (Out N S)) (dict : List (Dd N S × Nat))
    (ts : List (Place P S)) (hinv : GatherInv places dict ts)
    (hlim : ∀ o ∈ outs, badLimit o.limit = false)
    (hplaces : ∀ o ∈ outs, ∃ p, alookup o.target.geometry places = some p) :
    ∃ dict' ts', gather places outs dict ts = .ok (dict', ts') ∧ GatherInv places dict' ts' ∧
      (∀ t, (alookup t dict).isSome → (alookup t dict').isSome) ∧
      (∀ o ∈ outs, (alookup o.target dict').isSome) ∧
      (∀ p ∈ ts', p ∈ ts ∨ ∃ o ∈ outs, alookup o.target.geometry places = some p) ∧
      (∀ t ∈ dict'.map Prod.fst, t ∈ dict.map Prod.fst ∨ ∃ o ∈ outs, o.target = t) := by
  induction outs generalizing dict ts with
  | nil => exact ⟨dict, ts, rfl, hinv, fun _ h => h, by simp, fun p hp => .inl hp, fun t ht => .inl ht⟩
  | cons o outs ih =>
    have hl := hlim o List.mem_cons_self
    rw [gather, if_neg (by simp [hl])]
    cases hd : alookup o.target dict with
    | some i =>
      obtain ⟨dict', ts', h1, h2, h3, h4, h5, h6⟩ := ih dict ts hinv
        (fun o ho => hlim o (List.mem_cons_of_mem _ ho))
        (fun o ho => hplaces o (List.mem_cons_of_mem _ ho))
      refine ⟨dict', ts', h1, h2, h3, ?_, ?_, ?_⟩
      · intro o' ho'
        rcases List.mem_cons.1 ho' with rfl | ho'
        · exact h3 _ (by rw [hd]; rfl)
        · exact h4 o' ho'
      · intro p hp
        rcases h5 p hp with h | ⟨o', ho', h⟩
        · exact .inl h
        · exact .inr ⟨o', List.mem_cons_of_mem _ ho', h⟩
      · intro t ht
        rcases h6 t ht with h | ⟨o', ho', h⟩
        · exact .inl h
        · exact .inr ⟨o', List.mem_cons_of_mem _ ho', h⟩
    | none =>
      obtain ⟨p, hp⟩ := hplaces o List.mem_cons_self
      have hg : getGeometry places o.target.geometry = .ok p := by rw [getGeometry, hp]
      simp only [hg]
      have hinv' : GatherInv places (dict ++ [(o.target, ts.length)]) (ts ++ [p]) := by
        refine ⟨?_, ?_, ?_⟩
        · intro t i ht
          rw [alookup_append] at ht
          cases hdt : alookup t dict with
          | some k =>
            rw [hdt] at ht
            injection ht with ht
            subst ht
            obtain ⟨p', h1, h2⟩ := hinv.1 t k hdt
            exact ⟨p', by rw [List.getElem?_append_left (List.getElem?_eq_some_iff.1 h1).1]; exact h1, h2⟩
          | none =>
            rw [hdt] at ht
            simp only [Option.none_or, alookup] at ht
            by_cases h : o.target = t
            · rw [if_pos h] at ht
              injection ht with ht
              subst ht
              subst h
              exact ⟨p, by simp, hp⟩
            · rw [if_neg h] at ht; cases ht
        · rw [List.map_append, hinv.2.1]
          simp [List.range_succ]
        · rw [List.map_append]
          rw [List.nodup_append]
          refine ⟨hinv.2.2, by simp, ?_⟩
          intro t h1 t' h2 htt
          have : t' = o.target := by simpa using h2
          rw [htt, this] at h1
          exact alookup_none_notMem _ _ hd h1
      obtain ⟨dict', ts', h1, h2, h3, h4, h5, h6⟩ := ih _ _ hinv'
        (fun o ho => hlim o (List.mem_cons_of_mem _ ho))
        (fun o ho => hplaces o (List.mem_cons_of_mem _ ho))
      refine ⟨dict', ts', h1, h2, ?_, ?_, ?_, ?_⟩
      · intro t ht
        apply h3
        rw [alookup_append]
        cases h : alookup t dict with
        | none => rw [h] at ht; cases ht
        | some k => rfl
      · intro o' ho'
        rcases List.mem_cons.1 ho' with rfl | ho'
        · apply h3
          rw [alookup_append, hd]
          simp [alookup]
        · exact h4 o' ho'
      · intro q hq
        rcases h5 q hq with h | ⟨o', ho', h⟩
        · rcases List.mem_append.1 h with h | h
          · exact .inl h
          · have : q = p := by simpa using h
            exact .inr ⟨o, List.mem_cons_self, by rw [this]; exact hp⟩
        · exact .inr ⟨o', List.mem_cons_of_mem _ ho', h⟩
      · intro t ht
        rcases h6 t ht with h | ⟨o', ho', h⟩
        · rw [List.map_append, List.mem_append] at h
          rcases h with h | h
          · exact .inl h
          · have : t = o.target := by simpa using h
            exact .inr ⟨o, List.mem_cons_self, this.symm⟩
        · exact .inr ⟨o', List.mem_cons_of_mem _ ho', h⟩

/-- a place that can serve as a target of the FMM: not a layer potential source -/
def Place.Plain : Place P S → Prop
  | .qbx _ _ => False
  | .unregularized _ => False
  | _ => True

/-- the points of a place that is its own discretization or point collection -/
def Place.own : Place P S → List P
  | .discr gs => gs.flatten
  | .target p => p
  | .points p => p
  | _ => []

omit [DecidableEq S] [Semiring V] in
theorem plain_facts (p : Place P S) (hp : p.Plain) (stage1 : S) (st : Option S) :
    p.flatNodes = .ok p.own ∧ p.ndofs = p.own.length ∧
    (p.resolve stage1 st).flatNodes = p.own ∧
    (∀ l : List V, p.unflat l = (p.resolve stage1 st).unflat l) := by
  cases p with
  | qbx d f => exact hp.elim
  | unregularized d => exact hp.elim
  | discr gs => exact ⟨rfl, rfl, rfl, fun _ => rfl⟩
  | target l => exact ⟨rfl, rfl, rfl, fun _ => rfl⟩
  | points l => exact ⟨rfl, rfl, rfl, fun _ => rfl⟩

theorem starts_dropLast (n : Nat) (ks : List Nat) :
    (starts n ks).dropLast = (match ks with | [] => [] | k :: ks => n :: (starts (n + k) ks).dropLast) := by
  cases ks with
  | nil => rfl
  | cons k ks =>
    rw [starts, List.dropLast_cons_of_ne_nil]
    cases ks <;> simp [starts]

theorem fill_eq (done : List P) (blocks : List (List P)) (rest : List P)
    (h : rest.length = (blocks.map List.length).sum) :
    fill (done ++ rest) ((starts done.length (blocks.map List.length)).dropLast.zip blocks)
      = done ++ blocks.flatten := by
  induction blocks generalizing done rest with
  | nil =>
    have : rest = [] := by simpa using h
    subst this
    simp [fill, starts]
  | cons b bs ih =>
    rw [List.map_cons, starts_dropLast, List.zip_cons_cons, fill, List.foldl_cons]
    have hb : blit (done ++ rest) done.length b = (done ++ b) ++ rest.drop b.length := by
      rw [blit, List.take_left' rfl, List.drop_append]
      congr 1
      rw [List.drop_eq_nil_of_le (by omega)]
      simp
    rw [hb]
    have := ih (done ++ b) (rest.drop b.length) (by simp only [List.length_drop, h, List.map_cons, List.sum_cons]; omega)
    rw [List.length_append] at this
    rw [List.flatten_cons, ← List.append_assoc, ← this]
    rfl

omit [DecidableEq S] in
theorem targetInfo_ok (zero : P) (ts : List (Place P S)) (h : ∀ p ∈ ts, p.Plain) :
    targetInfo zero ts = .ok (starts 0 (ts.map fun p => p.own.length), (ts.map Place.own).flatten) := by
  rw [targetInfo]
  have h1 : ts.mapM Place.flatNodes = .ok (ts.map Place.own) := by
    apply mapM_ok
    intro p hp
    cases p with
    | qbx d f => exact (h _ hp).elim
    | unregularized d => exact (h _ hp).elim
    | discr gs => rfl
    | target l => rfl
    | points l => rfl
  have h2 : ts.map Place.ndofs = ts.map fun p => p.own.length := by
    apply List.map_congr_left
    intro p hp
    cases p with
    | qbx d f => exact (h _ hp).elim
    | unregularized d => exact (h _ hp).elim
    | discr gs => rfl
    | target l => rfl
    | points l => rfl
  rw [h1, h2]
  have h3 := fill_eq (P := P) [] (ts.map Place.own)
    (List.replicate ((ts.map fun p => p.own.length).sum) zero) (by simp [Function.comp_def])
  simp only [List.nil_append, List.length_nil, List.map_map, Function.comp_def] at h3
  show (Except.ok (_, _) : Except Err _) = _
  rw [h3]

theorem starts_get (n : Nat) (l : List Nat) (k : Nat) (hk : k ≤ l.length) :
    (starts n l)[k]? = some (n + (l.take k).sum) := by
  induction l generalizing n k with
  | nil => have : k = 0 := by simpa using hk
           subst this; simp [starts]
  | cons a l ih =>
    cases k with
    | zero => simp [starts]
    | succ k =>
      simp only [starts, List.getElem?_cons_succ]
      rw [ih _ _ (by simpa using hk)]
      simp [Nat.add_assoc]

theorem slice_flatten {Q : Type} (ls : List (List Q)) (i : Nat) (l : List Q) (h : ls[i]? = some l) :
    slice ls.flatten ((ls.map List.length).take i).sum
      ((ls.map List.length).take (i + 1)).sum = l := by
  induction ls generalizing i with
  | nil => simp at h
  | cons a ls ih =>
    cases i with
    | zero =>
      have : a = l := by simpa using h
      subst this
      simp [slice]
    | succ i =>
      have := ih i (by simpa using h)
      simp only [List.map_cons, List.take_succ_cons, List.sum_cons, List.flatten_cons]
      simp only [slice] at this ⊢
      rw [List.take_append, List.drop_append]
      simp only [List.take_of_length_le (Nat.le_add_right a.length _), Nat.add_sub_cancel_left]
      rw [List.drop_eq_nil_of_le (Nat.le_add_right a.length _)]
      simpa using this

theorem extraKwargs_ok (evaluate : E → Val V) (ids : List Nat) (args : List (String × E))
    (names : List String) (val : String → Val V)
    (h : ∀ a ∈ names, ∃ e, alookup a args = some e ∧ val a = reorder ids (evaluate e)) :
    extraKwargs evaluate ids args names = .ok (names.map fun a => (a, val a)) := by
  rw [extraKwargs]
  apply mapM_ok
  intro a ha
  obtain ⟨e, h1, h2⟩ := h a ha
  simp only [h1, h2]

theorem alookup_names {β : Type} (names : List String) (val : String → β) (a : String) :
    alookup a (names.map fun a => (a, val a)) = if a ∈ names then some (val a) else none := by
  induction names with
  | nil => rfl
  | cons b names ih =>
    simp only [List.map_cons, alookup]
    by_cases h : b = a
    · rw [if_pos h, if_pos (by simp [h]), h]
    · rw [if_neg h, ih]
      by_cases h' : a ∈ names
      · rw [if_pos h', if_pos (List.mem_cons_of_mem _ h')]
      · rw [if_neg h', if_neg (by simp [h', Ne.symm h])]

theorem reorder_at (nodes : List (List (Spec.Node P V))) (f : Spec.Node P V → V) (v : Val V)
    (ids : List Nat) (h : Spec.Represents nodes f v) :
    (reorder ids v).fits ids.length = true ∧
    ∀ (i j : Nat) (y : Spec.Node P V), ids[i]? = some j → nodes.flatten[j]? = some y →
      (reorder ids v).at i = f y := by
  have hfl := represents_flatten h
  have key : ∀ l : List V, (∀ (j : Nat) (y : Spec.Node P V), nodes.flatten[j]? = some y → l.getD j 0 = f y) →
      ∀ (i j : Nat) (y : Spec.Node P V), ids[i]? = some j → nodes.flatten[j]? = some y →
      (ids.map fun j => l.getD j 0).getD i 0 = f y := by
    intro l hl i j y hi hj
    rw [List.getD, List.getElem?_map, hi]
    exact hl j y hj
  cases v with
  | scalar v => exact ⟨rfl, fun i j y _ hj => hfl.2 j y hj⟩
  | flat l => exact ⟨by simp [reorder, Val.fits], key l hfl.2⟩
  | dof gs => exact ⟨by simp [reorder, Val.fits], key gs.flatten hfl.2⟩

/-- the sum the FMM stands for, in tree order, is the potential -/
theorem fmm_sum (pot : TK → SK → P → P → (String → V) → V) (tk : TK) (sks : List SK) (x : P)
    (nodes : List (Spec.Node P V)) (q : Spec.Node P V → Nat → V) (strengths : List (List V))
    (args : List (String × Val V)) (ids : List Nat) (hids : ids.Perm (List.range nodes.length))
    (hl : strengths.length = sks.length)
    (hs : ∀ (s : Nat) (l : List V), strengths[s]? = some l → l = nodes.map fun y => q y s)
    (ha : ∀ (i j : Nat) (y : Spec.Node P V), ids[i]? = some j → nodes[j]? = some y →
      argsAt args i = y.arg) :
    (ids.zipIdx.map fun ji =>
        match (nodes.map fun y => y.pt)[ji.1]? with
        | none => 0
        | some y => ((sks.zip strengths).map fun s =>
            pot tk s.1 x y (argsAt args ji.2) * s.2.getD ji.1 0).sum).sum
      = Spec.potential pot sks q nodes tk x := by
  let T : Nat → V := fun j =>
    match nodes[j]? with
    | none => 0
    | some y => ((sks.zipIdx).map fun s => pot tk s.1 x y.pt y.arg * q y s.2).sum
  have h1 := zipIdx_map_eq ids id (fun ji : Nat × Nat =>
        match (nodes.map fun y => y.pt)[ji.1]? with
        | none => 0
        | some y => ((sks.zip strengths).map fun s =>
            pot tk s.1 x y (argsAt args ji.2) * s.2.getD ji.1 0).sum) T (by
    intro i j hij
    simp only [id, T, List.getElem?_map]
    cases hy : nodes[j]? with
    | none => rfl
    | some y =>
      simp only [Option.map_some]
      rw [ha i j y hij hy]
      rw [inner_eq sks strengths (q y) j hl ?_ (fun s => pot tk s x y.pt y.arg)]
      intro s l hsl
      rw [hs s l hsl]
      simp [List.getD, hy])
  rw [List.map_id] at h1
  rw [h1, (hids.map T).sum_eq, Spec.potential]
  congr 1
  apply List.ext_getElem?
  intro j
  rw [List.getElem?_map, List.getElem?_map]
  by_cases hj : j < nodes.length
  · rw [List.getElem?_range hj, List.getElem?_eq_getElem hj]
    simp [T, List.getElem?_eq_getElem hj]
  · rw [List.getElem?_eq_none (by simpa using hj), List.getElem?_eq_none (by omega)]
    rfl

theorem badLimit_false (l : Option Int) (h1 : l ≠ some 1) (h2 : l ≠ some (-1)) : badLimit l = false := by
  simp [badLimit, h1, h2]

/-- what `prepareFmm` hands to the FMM -/
theorem prepareFmm_ok (zero : P) (places : List (N × Place P S))
    (evaluate : E → Val V) (base : TK → B)
    (sourceIds : List P → List P → List Nat) (kernelNames sourceNames : List String)
    (nodes : List (List (Spec.Node P V))) (tks : List TK) (densities : List E)
    (args : List (String × E)) (outs : List (Out N S))
    (hdens : ∀ (s : Nat) (d : E), densities[s]? = some d →
      Spec.Represents nodes (fun y => y.density s) (evaluate d) ∧ ∀ l, evaluate d ≠ .flat l)
    (hnames : ∀ a ∈ kernelNames ++ sourceNames, ∃ e, alookup a args = some e)
    (hplaces : ∀ o ∈ outs, ∃ p, alookup o.target.geometry places = some p ∧ p.Plain)
    (hlim : ∀ o ∈ outs, o.limit ≠ some 1 ∧ o.limit ≠ some (-1))
    (hbase : fmmKernelOk base tks = true) :
    ∃ (dict : List (Dd N S × Nat)) (ts : List (Place P S)) (val : String → Val V), GatherInv places dict ts ∧ (∀ o ∈ outs, (alookup o.target dict).isSome) ∧
      (∀ p ∈ ts, p.Plain) ∧ (∀ t ∈ dict.map Prod.fst, ∃ o ∈ outs, o.target = t) ∧
      (∀ a ∈ kernelNames ++ sourceNames, ∃ e, alookup a args = some e ∧ val a =
        reorder (sourceIds (nodes.flatten.map fun y => y.pt) (ts.map Place.own).flatten) (evaluate e)) ∧
      prepareFmm zero places evaluate base sourceIds kernelNames sourceNames
        (nodes.map fun g => g.map fun y => y.pt) (nodes.map fun g => g.map fun y => y.weight) tks
        densities args outs
      = .ok ((dict, ts, starts 0 (ts.map fun p => p.own.length)),
          ⟨nodes.flatten.map fun y => y.pt, (ts.map Place.own).flatten,
            (List.range densities.length).map fun s =>
              nodes.flatten.map fun y => y.weight * y.density s,
            kernelNames.map fun a => (a, val a), sourceNames.map fun a => (a, val a)⟩) := by
  obtain ⟨dict, ts, hg, hinv, _, hcov, hts, hkeys⟩ := gather_ok places outs [] []
    ⟨by intro t i h; simp [alookup] at h, rfl, by simp⟩
    (fun o ho => badLimit_false _ (hlim o ho).1 (hlim o ho).2)
    (fun o ho => (hplaces o ho).imp fun p h => h.1)
  have hplain : ∀ p ∈ ts, p.Plain := by
    intro p hp
    rcases hts p hp with h | ⟨o, ho, h⟩
    · simp at h
    · obtain ⟨p', h1, h2⟩ := hplaces o ho
      rw [h] at h1
      injection h1 with h1
      rw [h1]; exact h2
  have hstr := mapM_weigh evaluate nodes densities (fun s y => y.density s) hdens
  have hflat : (nodes.map fun g => g.map fun y => y.pt).flatten = nodes.flatten.map fun y => y.pt := by
    rw [List.map_flatten]
  set ids := sourceIds (nodes.flatten.map fun y => y.pt) (ts.map Place.own).flatten with hids
  let val : String → Val V := fun a =>
    match alookup a args with
    | some e => reorder ids (evaluate e)
    | none => .scalar 0
  have hval : ∀ a ∈ kernelNames ++ sourceNames, ∃ e, alookup a args = some e ∧
      val a = reorder ids (evaluate e) := by
    intro a ha
    obtain ⟨e, he⟩ := hnames a ha
    exact ⟨e, he, by simp only [val, he]⟩
  have hka := extraKwargs_ok evaluate ids args kernelNames val
    fun a ha => hval a (List.mem_append_left _ ha)
  have hsa := extraKwargs_ok evaluate ids args sourceNames val
    fun a ha => hval a (List.mem_append_right _ ha)
  refine ⟨dict, ts, val, hinv, hcov, hplain, ?_, hval, ?_⟩
  · intro t ht
    rcases hkeys t ht with h | h
    · simp at h
    · exact h
  · rw [prepareFmm, hg]
    show (do
      let strengths ← densities.mapM fun d =>
        weigh (nodes.map fun g : List (Spec.Node P V) => g.map fun y : Spec.Node P V => y.weight) (evaluate d)
      if fmmKernelOk base tks = true then
        let info ← targetInfo zero ts
        let ka ← extraKwargs evaluate (sourceIds _ info.2) args kernelNames
        let sa ← extraKwargs evaluate (sourceIds _ info.2) args sourceNames
        pure ((dict, ts, info.1), (⟨_, info.2, strengths, ka, sa⟩ : FmmCall P V))
      else (.error .assertion : Except Err _)) = _
    rw [hstr, targetInfo_ok zero ts hplain, hflat]
    show (if fmmKernelOk base tks = true then
        (do let ka ← extraKwargs evaluate ids args kernelNames
            let sa ← extraKwargs evaluate ids args sourceNames
            pure ((dict, ts, _), (⟨_, _, _, ka, sa⟩ : FmmCall P V)))
      else (.error .assertion : Except Err _)) = _
    rw [if_pos hbase, hka, hsa]
    rfl

/-- C63, the part that holds for FMM evaluation: provided no target is itself a layer potential source
and no one-sided limit is requested, and given an FMM that computes the sums it stands for, an
unregularized source yields exactly what direct evaluation yields (`C63_unregularized_direct`): every
output has its own name, target and target kernel, although targets shared between outputs are passed
to the FMM only once and the per-source kernel arguments are reordered to tree order. Missing for the full
property: targets that are layer potential sources (`C63_fmm_surface_target_refuted`). -/
theorem C63_unregularized_fmm_partial (stage1 : S) (zero : P) (places : List (N × Place P S))
    (pot : TK → SK → P → P → (String → V) → V) (evaluate : E → Val V) (base : TK → B)
    (sourceIds : List P → List P → List Nat) (kernelNames sourceNames : List String)
    (fmm : FmmCall P V → List (List V))
    (nodes : List (List (Spec.Node P V))) (tks : List TK) (sks : List SK) (densities : List E)
    (args : List (String × E)) (outs : List (Out N S))
    (hfmm : Spec.FmmExact pot tks sks sourceIds fmm)
    (hids : ∀ src tgt, (sourceIds src tgt).Perm (List.range src.length))
    (hdens : ∀ (s : Nat) (d : E), densities[s]? = some d →
      Spec.Represents nodes (fun y => y.density s) (evaluate d) ∧ ∀ l, evaluate d ≠ .flat l)
    (hlen : densities.length = sks.length)
    (hnames : ∀ a ∈ kernelNames ++ sourceNames, ∃ e, alookup a args = some e)
    (hargs : ArgsOk nodes fun a =>
      if a ∈ kernelNames ++ sourceNames then (alookup a args).map evaluate else none)
    (hplaces : ∀ o ∈ outs, ∃ p, alookup o.target.geometry places = some p ∧ p.Plain)
    (hlim : ∀ o ∈ outs, o.limit ≠ some 1 ∧ o.limit ≠ some (-1))
    (hkernel : ∀ o ∈ outs, o.kernel < tks.length)
    (hbase : fmmKernelOk base tks = true) :
    ∃ rs, execFmm zero places evaluate base sourceIds kernelNames sourceNames fmm
        (nodes.map fun g => g.map fun y => y.pt) (nodes.map fun g => g.map fun y => y.weight) tks
        densities args outs = .ok rs ∧
      Spec.Correct stage1 (fun g => alookup g places) tks
        (Spec.potential pot sks (fun y s => y.weight * y.density s) nodes.flatten) outs rs := by
  obtain ⟨dict, ts, val, hinv, hcov, hplain, _, hval, hprep⟩ := prepareFmm_ok zero places evaluate
    base sourceIds kernelNames sourceNames nodes tks densities args outs hdens hnames hplaces hlim hbase
  set ids := sourceIds (nodes.flatten.map fun y => y.pt) (ts.map Place.own).flatten with hidsdef
  set F := Spec.potential pot sks (fun y s => y.weight * y.density s) nodes.flatten with hF
  have hperm : ids.Perm (List.range nodes.flatten.length) := by
    have := hids (nodes.flatten.map fun y => y.pt) (ts.map Place.own).flatten
    rw [List.length_map] at this
    exact this
  have hidl : ids.length = nodes.flatten.length := by rw [hperm.length_eq]; simp
  -- the FMM's output
  set c : FmmCall P V := ⟨nodes.flatten.map fun y => y.pt, (ts.map Place.own).flatten,
            (List.range densities.length).map fun s =>
              nodes.flatten.map fun y => y.weight * y.density s,
            kernelNames.map fun a => (a, val a), sourceNames.map fun a => (a, val a)⟩ with hc
  have hcargs : c.kernelArgs ++ c.sourceArgs = (kernelNames ++ sourceNames).map fun a => (a, val a) := by
    rw [hc, List.map_append]
  have hrep : ∀ a ∈ kernelNames ++ sourceNames, ∃ v, Spec.Represents nodes (fun y => y.arg a) v ∧
      val a = reorder ids v := by
    intro a ha
    obtain ⟨e, h1, h2⟩ := hval a ha
    exact ⟨evaluate e, (hargs a).1 _ (by simp only [if_pos ha, h1]; rfl), h2⟩
  have hall : fmm c = tks.map fun tk => (ts.map Place.own).flatten.map fun x => F tk x := by
    rw [hfmm c ?_]
    · apply List.map_congr_left
      intro tk _
      apply List.map_congr_left
      intro x _
      rw [hcargs]
      refine fmm_sum pot tk sks x nodes.flatten (fun y s => y.weight * y.density s) _ _ ids hperm
        (by show ((List.range densities.length).map _).length = _; simpa using hlen) ?_ ?_
      · intro s l h; exact range_get _ _ s l h
      · intro i j y hij hy
        funext a
        rw [argsAt, alookup_names]
        by_cases ha : a ∈ kernelNames ++ sourceNames
        · rw [if_pos ha]
          obtain ⟨v, h1, h2⟩ := hrep a ha
          simp only [h2]
          exact (reorder_at nodes _ v ids h1).2 i j y hij hy
        · rw [if_neg ha]
          obtain ⟨g, hg, hyg⟩ := List.mem_flatten.1 (List.mem_of_getElem? hy)
          exact ((hargs a).2 (by simp only [if_neg ha]) g hg y hyg).symm
    · apply callOk_of
      · intro a ha
        rw [hcargs] at ha
        obtain ⟨b, hb, rfl⟩ := List.mem_map.1 ha
        obtain ⟨v, h1, h2⟩ := hrep b hb
        have := (reorder_at nodes _ v ids h1).1
        simp only [h2]
        rw [List.length_map, ← hidl]
        exact this
      · intro s hs
        obtain ⟨i, hi⟩ := List.mem_iff_getElem?.1 hs
        rw [range_get _ _ i s hi, List.length_map, List.length_map]
      · show ((List.range densities.length).map _).length = _
        simpa using hlen
  have hone : ∀ o ∈ outs, ∀ p tk, alookup o.target.geometry places = some p → tks[o.kernel]? = some tk →
      cutOutput dict ts (starts 0 (ts.map fun p => p.own.length)) (fmm c) o
        = .ok (o.name, Spec.onTarget (F tk) (p.resolve stage1 o.target.stage)) := by
    intro o ho p tk hp htk
    obtain ⟨i, hi⟩ := Option.isSome_iff_exists.1 (hcov o ho)
    obtain ⟨p', hp', hpp⟩ := hinv.1 _ _ hi
    rw [hp] at hpp
    injection hpp with hpp
    subst hpp
    have hil : i < ts.length := (List.getElem?_eq_some_iff.1 hp').1
    have hpl := hplain p (List.mem_of_getElem? hp')
    have facts := plain_facts (V := V) p hpl stage1 o.target.stage
    rw [cutOutput, hi]
    simp only
    rw [starts_get _ _ _ (by rw [List.length_map]; omega),
      starts_get _ _ _ (by rw [List.length_map]; omega), hp']
    simp only [Nat.zero_add]
    rw [pick, hall, List.getElem?_map, htk]
    show (Except.ok (o.name, p.unflat _) : Except Err _) = _
    rw [facts.2.2.2]
    have hsl : slice ((ts.map Place.own).flatten.map fun x => F tk x)
        ((ts.map fun p => p.own.length).take i).sum ((ts.map fun p => p.own.length).take (i + 1)).sum
        = p.own.map (F tk) := by
      have := slice_flatten ((ts.map Place.own).map fun l => l.map (F tk)) i (p.own.map (F tk))
        (by rw [List.getElem?_map, List.getElem?_map, hp']; rfl)
      rw [← List.map_flatten] at this
      simp only [List.map_map, Function.comp_def, List.length_map] at this
      exact this
    rw [hsl, ← facts.2.2.1, unflat_map]
  have hexec : execFmm zero places evaluate base sourceIds kernelNames sourceNames fmm
        (nodes.map fun g => g.map fun y => y.pt) (nodes.map fun g => g.map fun y => y.weight) tks
        densities args outs
      = outs.mapM (cutOutput dict ts (starts 0 (ts.map fun p => p.own.length)) (fmm c)) := by
    rw [execFmm, hprep]; rfl
  rw [hexec]
  exact correct_of_each stage1 places tks F outs _
    (fun o ho => (hplaces o ho).imp fun p h => h.1) hkernel hone

/-- C63: the FMM is handed each distinct target exactly once, in order of first appearance, whatever
the number of outputs requested on it. -/
theorem C63_fmm_targets_once (stage1 : S) (zero : P) (places : List (N × Place P S))
    (evaluate : E → Val V) (base : TK → B)
    (sourceIds : List P → List P → List Nat) (kernelNames sourceNames : List String)
    (nodes : List (List (Spec.Node P V))) (tks : List TK) (densities : List E)
    (args : List (String × E)) (outs : List (Out N S))
    (hdens : ∀ (s : Nat) (d : E), densities[s]? = some d →
      Spec.Represents nodes (fun y => y.density s) (evaluate d) ∧ ∀ l, evaluate d ≠ .flat l)
    (hnames : ∀ a ∈ kernelNames ++ sourceNames, ∃ e, alookup a args = some e)
    (hplaces : ∀ o ∈ outs, ∃ p, alookup o.target.geometry places = some p ∧ p.Plain)
    (hlim : ∀ o ∈ outs, o.limit ≠ some 1 ∧ o.limit ≠ some (-1))
    (hbase : fmmKernelOk base tks = true) :
    ∃ r, ∃ names : List (Dd N S), prepareFmm zero places evaluate base sourceIds kernelNames sourceNames
        (nodes.map fun g => g.map fun y => y.pt) (nodes.map fun g => g.map fun y => y.weight) tks
        densities args outs = .ok r ∧
      names.Nodup ∧ (∀ t, t ∈ names ↔ ∃ o ∈ outs, o.target = t) ∧
      ∃ pts : List (List P), pts.length = names.length ∧ r.2.targets = pts.flatten ∧
        ∀ (i : Nat) (t : Dd N S) (g : Geo P), names[i]? = some t →
          Spec.IsTarget stage1 (fun g => alookup g places) t.geometry t.stage g →
          pts[i]? = some g.flatNodes := by
  obtain ⟨dict, ts, val, hinv, hcov, hplain, hkeys, hval, hprep⟩ := prepareFmm_ok zero places
    evaluate base sourceIds kernelNames sourceNames nodes tks densities args outs hdens hnames hplaces
    hlim hbase
  have hdl : dict.length = ts.length := by
    have := congrArg List.length hinv.2.1
    simpa using this
  refine ⟨_, dict.map Prod.fst, hprep, hinv.2.2, ?_, ts.map Place.own, by simp [hdl], rfl, ?_⟩
  · intro t
    constructor
    · exact hkeys t
    · rintro ⟨o, ho, rfl⟩
      obtain ⟨i, hi⟩ := Option.isSome_iff_exists.1 (hcov o ho)
      exact List.mem_map.2 ⟨_, alookup_mem hi, rfl⟩
  · intro i t g hi hg
    rw [List.getElem?_map] at hi
    obtain ⟨⟨t', k⟩, hk, rfl⟩ := Option.map_eq_some_iff.1 hi
    have hki : k = i := by
      have h1 : (dict.map Prod.snd)[i]? = some k := by rw [List.getElem?_map, hk]; rfl
      rw [hinv.2.1] at h1
      have hi' : i < ts.length := by
        have := (List.getElem?_eq_some_iff.1 hk).1
        omega
      rw [List.getElem?_range hi'] at h1
      injection h1 with h1
      exact h1.symm
    subst hki
    have hal : alookup t' dict = some k := by
      obtain ⟨k', hk'⟩ := alookup_isSome_of_mem (List.mem_of_getElem? hk)
      have hm := alookup_mem hk'
      obtain ⟨j, hj⟩ := List.mem_iff_getElem?.1 hm
      have hjk : j = k := by
        have hlt := (List.getElem?_eq_some_iff.1 hj).1
        have hk2 := (List.getElem?_eq_some_iff.1 hk).1
        have := (List.Nodup.getElem_inj_iff hinv.2.2 (i := j) (hi := by simpa using hlt) (j := k)
          (hj := by simpa using hk2)).1 (by
            simp only [List.getElem_map]
            rw [(List.getElem?_eq_some_iff.1 hj).2, (List.getElem?_eq_some_iff.1 hk).2])
        exact this
      subst hjk
      rw [hk] at hj
      injection hj with hj
      rw [hk']
      exact congrArg some (congrArg Prod.snd hj).symm
    obtain ⟨p, hp, hpp⟩ := hinv.1 _ _ hal
    obtain ⟨p', hp', rfl⟩ := resolve_of_isTarget hg
    rw [hpp] at hp'
    injection hp' with hp'
    subst hp'
    rw [List.getElem?_map, hp]
    show some p.own = _
    rw [(plain_facts (V := V) p (hplain p (List.mem_of_getElem? hp)) stage1 _).2.2.1]

/-- what direct evaluation accepts: the place is in the collection -/
theorem gather_bad_limit (places : List (N × Place P S)) (outs : List (Out N S))
    (dict : List (Dd N S × Nat)) (ts : List (Place P S)) (o : Out N S) (ho : o ∈ outs)
    (hbad : o.limit = some 1 ∨ o.limit = some (-1))
    (hplaces : ∀ o ∈ outs, ∃ p, alookup o.target.geometry places = some p) :
    gather places outs dict ts = .error .assertion := by
  induction outs generalizing dict ts with
  | nil => cases ho
  | cons o' outs ih =>
    rw [gather]
    by_cases hb : badLimit o'.limit = true
    · rw [if_pos hb]
    · rw [if_neg hb]
      have hm : o ∈ outs := by
        rcases List.mem_cons.1 ho with rfl | h
        · exact absurd (by rcases hbad with h | h <;> simp [badLimit, h]) hb
        · exact h
      cases hd : alookup o'.target dict with
      | some i => exact ih dict ts hm fun o ho => hplaces o (List.mem_cons_of_mem _ ho)
      | none =>
        obtain ⟨p, hp⟩ := hplaces o' List.mem_cons_self
        have hg : getGeometry places o'.target.geometry = .ok p := by rw [getGeometry, hp]
        simp only [hg]
        exact ih _ _ hm fun o ho => hplaces o (List.mem_cons_of_mem _ ho)

/-- C63: with an FMM, asking an unregularized source for a one-sided limit fails with an
`AssertionError` before anything is evaluated. -/
theorem C63_fmm_one_sided_limit (zero : P) (places : List (N × Place P S)) (evaluate : E → Val V)
    (base : TK → B) (sourceIds : List P → List P → List Nat) (kernelNames sourceNames : List String)
    (fmm : FmmCall P V → List (List V)) (density : List (List P)) (waa : List (List V)) (tks : List TK)
    (densities : List E) (args : List (String × E)) (outs : List (Out N S)) (o : Out N S) (ho : o ∈ outs)
    (hbad : o.limit = some 1 ∨ o.limit = some (-1))
    (hplaces : ∀ o ∈ outs, ∃ p, alookup o.target.geometry places = some p) :
    execFmm zero places evaluate base sourceIds kernelNames sourceNames fmm density waa tks densities
      args outs = .error .assertion := by
  rw [execFmm, prepareFmm, gather_bad_limit places outs [] [] o ho hbad hplaces]
  rfl

/-- C63, where the full property fails: with an FMM, a target that is a layer potential source (a QBX
or unregularized surface, for example the source itself) makes the evaluation fail with an
`AttributeError`, although direct evaluation handles it (`C63_unregularized_direct`). -/
theorem C63_fmm_surface_target_refuted (zero : P) (places : List (N × Place P S))
    (evaluate : E → Val V) (base : TK → B) (sourceIds : List P → List P → List Nat)
    (kernelNames sourceNames : List String) (fmm : FmmCall P V → List (List V))
    (nodes : List (List (Spec.Node P V))) (tks : List TK) (densities : List E)
    (args : List (String × E)) (outs : List (Out N S))
    (hdens : ∀ (s : Nat) (d : E), densities[s]? = some d →
      Spec.Represents nodes (fun y => y.density s) (evaluate d) ∧ ∀ l, evaluate d ≠ .flat l)
    (hplaces : ∀ o ∈ outs, ∃ p, alookup o.target.geometry places = some p)
    (hlim : ∀ o ∈ outs, o.limit ≠ some 1 ∧ o.limit ≠ some (-1))
    (hbase : fmmKernelOk base tks = true) (o : Out N S) (ho : o ∈ outs)
    (hsurf : (∃ d f, alookup o.target.geometry places = some (.qbx d f)) ∨
      ∃ d, alookup o.target.geometry places = some (.unregularized d)) :
    execFmm zero places evaluate base sourceIds kernelNames sourceNames fmm
        (nodes.map fun g => g.map fun y => y.pt) (nodes.map fun g => g.map fun y => y.weight) tks
        densities args outs = .error .attribute := by
  obtain ⟨dict, ts, hg, hinv, _, hcov, hts, hkeys⟩ := gather_ok places outs [] []
    ⟨by intro t i h; simp [alookup] at h, rfl, by simp⟩
    (fun o ho => badLimit_false _ (hlim o ho).1 (hlim o ho).2) hplaces
  have hstr := mapM_weigh evaluate nodes densities (fun s y => y.density s) hdens
  obtain ⟨i, hi⟩ := Option.isSome_iff_exists.1 (hcov o ho)
  obtain ⟨p, hp, hpp⟩ := hinv.1 _ _ hi
  have hpe : p.flatNodes = .error .attribute := by
    rcases hsurf with ⟨d, f, h⟩ | ⟨d, h⟩
    · rw [hpp] at h; injection h with h; rw [h]; rfl
    · rw [hpp] at h; injection h with h; rw [h]; rfl
  have hm : ts.mapM Place.flatNodes = .error .attribute := by
    refine mapM_err _ ts Place.own p .attribute ?_ (List.mem_of_getElem? hp) hpe
    intro b _
    cases b with
    | qbx d f => exact .inr rfl
    | unregularized d => exact .inr rfl
    | discr gs => exact .inl rfl
    | target l => exact .inl rfl
    | points l => exact .inl rfl
  have hti : targetInfo zero ts = .error .attribute := by rw [targetInfo, hm]; rfl
  have hprep : prepareFmm zero places evaluate base sourceIds kernelNames sourceNames
        (nodes.map fun g => g.map fun y => y.pt) (nodes.map fun g => g.map fun y => y.weight) tks
        densities args outs = .error .attribute := by
    rw [prepareFmm, hg]
    show (do
      let strengths ← densities.mapM fun d =>
        weigh (nodes.map fun g : List (Spec.Node P V) => g.map fun y : Spec.Node P V => y.weight) (evaluate d)
      if fmmKernelOk base tks = true then
        let info ← targetInfo zero ts
        let ka ← extraKwargs evaluate (sourceIds _ info.2) args kernelNames
        let sa ← extraKwargs evaluate (sourceIds _ info.2) args sourceNames
        pure ((dict, ts, info.1), (⟨_, info.2, strengths, ka, sa⟩ : FmmCall P V))
      else (.error .assertion : Except Err _)) = _
    rw [hstr, hti]
    show (if fmmKernelOk base tks = true then (.error .attribute : Except Err _) else .error .assertion) = _
    rw [if_pos hbase]
  rw [execFmm, hprep]
  rfl

end

/-! ## Non-vacuity: concrete runs -/

section Examples

/-- places: a QBX surface whose stages have 1 and 2 groups, an unregularized surface, a discretization,
point targets, point sources -/
def exPlaces : List (String × Place Int Bool) :=
  [("qbx", .qbx [[1]] fun s => if s then [[1], [2, 3]] else [[1]]), ("unreg", .unregularized [[4, 5], [6]]),
   ("discr", .discr [[7], [8, 9]]), ("tgt", .target [10, 11]), ("pts", .points [12])]

/-- a kernel using an argument; two source kernels `1`, `2`, target kernels scale by `tk` -/
def exPot (tk sk : Nat) (x y : Int) (arg : String → Int) : Int := tk * (x * y + sk * arg "k") + arg "nu"

/-- operands are given by their values -/
def exArgs : List (String × Val Int) := [("k", .scalar 3), ("nu", .dof [[1, 2], [5]])]

/-- outputs sharing targets and kernels -/
def exOuts : List (Out String Bool) :=
  [⟨"a", ⟨"discr", none, 0⟩, none, 0⟩, ⟨"b", ⟨"tgt", none, 0⟩, some 2, 1⟩, ⟨"c", ⟨"discr", none, 0⟩, none, 1⟩]

/-- outputs on surfaces, which only direct evaluation handles -/
def exSurf : List (Out String Bool) :=
  [⟨"s", ⟨"qbx", some true, 0⟩, none, 0⟩, ⟨"u", ⟨"unreg", none, 0⟩, none, 0⟩]

/-- an FMM that is exact, tree order being the reverse of user order -/
def exFmm {V : Type} [Semiring V] (pot : Nat → Nat → Int → Int → (String → V) → V) (tks sks : List Nat)
    (c : FmmCall Int V) : List (List V) :=
  tks.map fun tk => c.targets.map fun x =>
      ((List.range c.sources.length).reverse.zipIdx.map fun ji =>
        match c.sources[ji.1]? with
        | none => 0
        | some y => ((sks.zip c.strengths).map fun s =>
            pot tk s.1 x y (argsAt (c.kernelArgs ++ c.sourceArgs) ji.2) * s.2.getD ji.1 0).sum).sum

example : Spec.FmmExact exPot [1, 2] [1, 2] (fun s _ => (List.range s.length).reverse)
    (exFmm exPot [1, 2] [1, 2]) := by
  intro c _
  unfold exFmm
  congr 1
  funext tk
  congr 1
  funext x
  congr 2
  funext ji
  cases c.sources[ji.1]? <;> rfl

example : execDirect true exPlaces exPot id [[4, 5], [6]] [[1, 1], [2]] [1, 2] [1, 2]
      [.dof [[1, 2], [3]], .scalar 1] exArgs exOuts
    = execFmm 0 exPlaces id (fun _ => ()) (fun s _ => (List.range s.length).reverse) ["k"] ["nu"]
      (exFmm exPot [1, 2] [1, 2]) [[4, 5], [6]] [[1, 1], [2]] [1, 2]
      [.dof [[1, 2], [3]], .scalar 1] exArgs exOuts := by decide +kernel

example : execDirect true exPlaces exPot id [[4, 5], [6]] [[1, 1], [2]] [1, 2] [1, 2]
      [.dof [[1, 2], [3]], .scalar 1] exArgs exSurf
    = .ok [("s", .dof [[170], [241, 312]]), ("u", .dof [[383, 454], [525]])] := by decide +kernel

example : execFmm 0 exPlaces id (fun _ => ()) (fun s _ => (List.range s.length).reverse) ["k"] ["nu"]
      (exFmm exPot [1, 2] [1, 2]) [[4, 5], [6]] [[1, 1], [2]] [1, 2]
      [.dof [[1, 2], [3]], .scalar 1] exArgs exSurf = .error .attribute := by decide +kernel

example : execPoint true exPlaces exPot id [4, 5, 6] [1, 2] [1, 2]
      [.flat [1, 2, 3], .flat [0, 1, 0]] [("k", .scalar 3), ("nu", .flat [1, 2, 5])] exOuts
    = .ok [("a", .dof [[305], [342, 379]]), ("b", .flat [810, 884]), ("c", .dof [[588], [662, 736]])] := by
  decide +kernel

/-- the nodes of the unregularized surface above, with weights, two densities and arguments -/
def exNodes : List (List (Spec.Node Int Int)) :=
  let arg (nu : Int) : String → Int := fun a => if a = "k" then 3 else if a = "nu" then nu else 0
  [[⟨4, 1, fun s => if s = 0 then 1 else 1, arg 1⟩, ⟨5, 1, fun s => if s = 0 then 2 else 1, arg 2⟩],
   [⟨6, 2, fun s => if s = 0 then 3 else 1, arg 5⟩]]

theorem exNodes_args : ArgsOk exNodes fun a => (alookup a exArgs).map id := by
  intro a
  by_cases h1 : a = "k"
  · subst h1
    refine ⟨?_, fun h => by simp [alookup, exArgs] at h⟩
    intro v hv
    have : v = .scalar 3 := by simpa [alookup, exArgs, eq_comm] using hv
    subst this
    exact .const 3 (by decide)
  · by_cases h2 : a = "nu"
    · subst h2
      refine ⟨?_, fun h => by simp [alookup, exArgs] at h⟩
      intro v hv
      have : v = .dof (exNodes.map fun g => g.map fun y => y.arg "nu") := by
        have h : v = .dof [[1, 2], [5]] := by simpa [alookup, exArgs, eq_comm] using hv
        rw [h]; decide
      subst this
      exact .dof
    · have hn : (alookup a exArgs).map id = none := by
        simp [alookup, exArgs, Ne.symm h1, Ne.symm h2]
      refine ⟨fun v hv => ?_, fun _ => ?_⟩
      · simp only [hn] at hv; cases hv
      · intro g hg y hy
        simp only [exNodes, List.mem_cons, List.not_mem_nil, or_false] at hg
        rcases hg with rfl | rfl <;> simp only [List.mem_cons, List.not_mem_nil, or_false] at hy
        · rcases hy with rfl | rfl <;> simp [h1, h2]
        · subst hy; simp [h1, h2]

/-- the hypotheses of the theorems are met by these data -/
example : ∃ rs, execFmm 0 exPlaces id (fun _ : Nat => ()) (fun s _ => (List.range s.length).reverse)
      ["k"] ["nu"] (exFmm exPot [1, 2] [1, 2]) (exNodes.map fun g => g.map fun y => y.pt)
      (exNodes.map fun g => g.map fun y => y.weight) [1, 2]
      [.dof [[1, 2], [3]], .scalar 1] exArgs exOuts = .ok rs ∧
    Spec.Correct true (fun g => alookup g exPlaces) [1, 2]
      (Spec.potential exPot [1, 2] (fun y s => y.weight * y.density s) exNodes.flatten) exOuts rs := by
  refine C63_unregularized_fmm_partial true 0 exPlaces exPot id (fun _ => ()) _ _ _ _ exNodes [1, 2] [1, 2]
    _ exArgs exOuts ?_ ?_ ?_ rfl ?_ ?_ ?_ ?_ ?_ ?_
  · intro c _
    unfold exFmm
    congr 1
    funext tk
    congr 1
    funext x
    congr 2
    funext ji
    cases c.sources[ji.1]? <;> rfl
  · intro src tgt; exact List.reverse_perm _
  · intro s d hd
    match s, hd with
    | 0, hd =>
      have : d = .dof (exNodes.map fun g => g.map fun y => y.density 0) := by
        have h : d = .dof [[1, 2], [3]] := by simpa [eq_comm] using hd
        rw [h]; decide
      subst this
      exact ⟨.dof, by intro l h; cases h⟩
    | 1, hd =>
      have : d = .scalar 1 := by simpa [eq_comm] using hd
      subst this
      exact ⟨.const 1 (by decide), by intro l h; cases h⟩
    | s + 2, hd => simp at hd
  · intro a ha
    have : a = "k" ∨ a = "nu" := by simpa using ha
    rcases this with rfl | rfl
    · exact ⟨.scalar 3, rfl⟩
    · exact ⟨.dof [[1, 2], [5]], by decide⟩
  · intro a
    have := exNodes_args a
    by_cases ha : a ∈ ["k"] ++ ["nu"]
    · simp only [if_pos ha]; exact this
    · simp only [if_neg ha]
      have hn : (alookup a exArgs).map id = none := by
        have h1 : a ≠ "k" := by rintro rfl; simp at ha
        have h2 : a ≠ "nu" := by rintro rfl; simp at ha
        simp [alookup, exArgs, Ne.symm h1, Ne.symm h2]
      exact ⟨fun v hv => by simp at hv, fun _ => this.2 hn⟩
  · intro o ho
    simp only [exOuts, List.mem_cons, List.not_mem_nil, or_false] at ho
    rcases ho with rfl | rfl | rfl
    · exact ⟨.discr [[7], [8, 9]], rfl, trivial⟩
    · exact ⟨.target [10, 11], rfl, trivial⟩
    · exact ⟨.discr [[7], [8, 9]], rfl, trivial⟩
  · decide
  · decide
  · rfl

end Examples

/-- C63: the FMM accepts a list of target kernels (otherwise an assertion fails) exactly when any two
of them agree up to derivatives at the target. -/
theorem C63_fmm_kernel {TK B : Type} [DecidableEq B] (base : TK → B) (tks : List TK) :
    fmmKernelOk base tks = true ↔ ∀ k ∈ tks, ∀ k' ∈ tks, base k = base k' := by
  cases tks with
  | nil => simp [fmmKernelOk]
  | cons k ks =>
    simp only [fmmKernelOk, List.all_eq_true, decide_eq_true_eq]
    constructor
    · intro h a ha b hb
      have e : ∀ c ∈ k :: ks, base c = base k := by
        intro c hc
        rcases List.mem_cons.1 hc with rfl | hc
        · rfl
        · exact h c hc
      rw [e a ha, e b hb]
    · intro h k' hk'
      exact h k' (List.mem_cons_of_mem _ hk') k List.mem_cons_self

/-- C63: a source evaluates directly exactly when its FMM order is `False`. -/
theorem C63_dispatch {R : Type} (direct fmm : R) :
    execUnregularized true direct fmm = direct ∧ execUnregularized false direct fmm = fmm :=
  ⟨rfl, rfl⟩

end Verif.SrcExec
