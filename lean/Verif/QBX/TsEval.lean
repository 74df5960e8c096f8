import Verif.QBX.TsEvalRun
import Verif.QBX.TsHelmGrad

/-!
# C83: target-specific QBX evaluates the near field of every target, in every execution
-/

namespace Verif.Ts

open Fl

/-! ## Specification: what has to be stored for target `t` of center `c` -/

/-- Sum of the order-`p` local expansions about the center of the near-field sources, at the target:
charges and (through the derivative in the source) dipoles. -/
noncomputable def lapPot (A : TsArgs) (c t : ℕ) : ℂ :=
  ((A.sourcesOf c).map fun s =>
    (if A.ifcharge then
      A.chargeAt s * (localExp A.order (A.sources s) (A.centers c) (A.targets t) : ℝ) else 0)
    + (if A.ifdipole then A.dipstrAt s * ((∑ m, A.dipvecAt s m *
        deriv (fun y => localExp A.order (Function.update (A.sources s) m y) (A.centers c) (A.targets t))
          (A.sources s m) : ℝ) : ℂ) else 0)).sum

/-- Sum of the local expansions of the charges as a function of the target position. -/
noncomputable def lapField (A : TsArgs) (c : ℕ) (x : V3) : ℂ :=
  ((A.sourcesOf c).map fun s =>
    if A.ifcharge then A.chargeAt s * (localExp A.order (A.sources s) (A.centers c) x : ℝ) else 0).sum

/-- The Helmholtz field of the near-field sources at `x`. -/
noncomputable def helmField (A : TsArgs) (c : ℕ) (x : V3) : ℂ :=
  ((A.sourcesOf c).map fun s =>
    (if A.ifcharge then A.chargeAt s * helmKern A.k (A.sources s) x else 0)
    + (if A.ifdipole then A.dipstrAt s * (∑ m, (A.dipvecAt s m : ℂ) *
        deriv (fun y : ℝ => helmKern A.k (Function.update (A.sources s) m y) x) (A.sources s m)) else 0)).sum

/-- `ρ = |t-c|/|s-c|`. -/
noncomputable def ratioOf (A : TsArgs) (c t s : ℕ) : ℝ :=
  euclid (A.targets t) (A.centers c) / euclid (A.sources s) (A.centers c)

/-- Error bound for the Helmholtz potential of one source (C82). -/
noncomputable def helmPotBound (A : TsArgs) (c t s : ℕ) : ℝ :=
  (if A.ifcharge then ‖A.chargeAt s‖ * (helmConst A.k (A.sources s) (A.centers c) (A.targets t)
      / (euclid (A.sources s) (A.centers c) - euclid (A.targets t) (A.centers c))
      * (ratioOf A c t s ^ (A.order + 1) + 5 / 10 ^ 19)) else 0)
  + (if A.ifdipole then ‖A.dipstrAt s‖ * ((∑ m, |A.dipvecAt s m|) *
      (helmConst A.k (A.sources s) (A.centers c) (A.targets t) / euclid (A.sources s) (A.centers c) ^ 2
        * (4 * (sqTail (ratioOf A c t s) A.order + 5 / 10 ^ 19 * sqTotal (ratioOf A c t s))))) else 0)

/-- Error bound for the Helmholtz gradient of one source (C82). -/
noncomputable def helmGradBound (A : TsArgs) (c t s : ℕ) : ℝ :=
  if A.ifcharge then ‖A.chargeAt s‖ * (helmConst A.k (A.sources s) (A.centers c) (A.targets t)
      / (euclid (A.sources s) (A.centers c) * euclid (A.targets t) (A.centers c))
      * ((3 + (‖A.k‖ * euclid (A.targets t) (A.centers c)) ^ 2) * sqTail (ratioOf A c t s) A.order + 4 / 10 ^ 18 * sqTotal (ratioOf A c t s))) else 0

/-! ## The loop over the sources -/

/-- The parts of a row the loop over the sources does not change. -/
structure Held (C T : V3) (jv jd : Buf ℂ) (js : Fl ℝ) (x : Tls) : Prop where
  center : x.center = C
  target : x.target = T
  jvals : x.jvals = jv
  jderivs : x.jderivs = jd
  jscale : x.jscale = js

/-- One source adds `p` to the potential and `g` to the gradient. -/
def SourceOK (A : TsArgs) (C T : V3) (jv jd : Buf ℂ) (js : Fl ℝ) (s : ℕ) (p : ℂ) (g : Fin 3 → ℂ) : Prop :=
  ∀ x : Tls, Held C T jv jd js x → x.source = A.sources s → (A.ifdipole = true → x.dipole = A.dipvecAt s) →
    ∀ (r : ℂ) (gr : Fin 3 → ℂ), x.result = fin r → (A.ifgrad = true → x.resultGrad = fun m => fin (gr m)) →
    ∃ y, addSource A s x = .ok y ∧ Held C T jv jd js y ∧ (A.ifpot = true → y.result = fin (r + p)) ∧
      (A.ifpot = false → y.result = fin r) ∧
      (A.ifgrad = true → y.resultGrad = fun m => fin (gr m + g m))

theorem sources_sum {A : TsArgs} {C T : V3} {jv jd : Buf ℂ} {js : Fl ℝ} {p : ℕ → ℂ} {g : ℕ → Fin 3 → ℂ} (l : List ℕ)
    (h : ∀ s ∈ l, SourceOK A C T jv jd js s (p s) (g s)) : ∀ (x : Tls), Held C T jv jd js x →
    ∀ (r : ℂ) (gr : Fin 3 → ℂ), x.result = fin r → (A.ifgrad = true → x.resultGrad = fun m => fin (gr m)) →
    ∃ y, (l.flatMap fun s => [TsOp.load s, .add s]).foldlM (opLocal A) x = .ok y ∧ Held C T jv jd js y ∧
      (A.ifpot = true → y.result = fin (r + (l.map p).sum)) ∧
      (A.ifgrad = true → y.resultGrad = fun m => fin (gr m + (l.map fun s => g s m).sum)) := by
  induction l with
  | nil =>
    intro x hx r gr hr hg
    exact ⟨x, rfl, hx, fun _ => by simpa using hr, fun h => by simpa using hg h⟩
  | cons s l ih =>
    intro x hx r gr hr hg
    obtain ⟨x1, hx1⟩ : ∃ x1 : Tls, x1 = { x with
      source := A.sources s, dipole := if A.ifdipole then A.dipvecAt s else x.dipole } := ⟨_, rfl⟩
    have hl : opLocal A x (.load s) = .ok x1 := by rw [hx1]; rfl
    have h1 : Held C T jv jd js x1 := by
      subst hx1
      exact ⟨hx.center, hx.target, hx.jvals, hx.jderivs, hx.jscale⟩
    obtain ⟨y, hy, hh, hp, hnp, hgy⟩ := h s List.mem_cons_self x1 h1 (by rw [hx1])
      (fun hd => by rw [hx1]; simp [hd]) r gr (by rw [hx1]; exact hr) (fun hi => by rw [hx1]; exact hg hi)
    have ha : opLocal A x1 (.add s) = .ok y := hy
    cases hpot : A.ifpot with
    | true =>
      obtain ⟨z, hz, hzh, hzp, hzg⟩ := ih (fun u hu => h u (List.mem_cons_of_mem _ hu)) y hh (r + p s)
        (fun m => gr m + g s m) (hp hpot) hgy
      refine ⟨z, ?_, hzh, ?_, ?_⟩
      · rw [List.flatMap_cons]
        exact foldlM_cons_ok.mpr ⟨x1, hl, foldlM_cons_ok.mpr ⟨y, ha, hz⟩⟩
      · intro _
        rw [hzp hpot, List.map_cons, List.sum_cons, add_assoc]
      · intro hi
        rw [hzg hi]
        funext m
        rw [List.map_cons, List.sum_cons, add_assoc]
    | false =>
      obtain ⟨z, hz, hzh, hzp, hzg⟩ := ih (fun u hu => h u (List.mem_cons_of_mem _ hu)) y hh r
        (fun m => gr m + g s m) (hnp hpot) hgy
      refine ⟨z, ?_, hzh, ?_, ?_⟩
      · rw [List.flatMap_cons]
        exact foldlM_cons_ok.mpr ⟨x1, hl, foldlM_cons_ok.mpr ⟨y, ha, hz⟩⟩
      · intro h'; cases h'
      · intro hi
        rw [hzg hi]
        funext m
        rw [List.map_cons, List.sum_cons, add_assoc]

/-- The computation for one target, given the Bessel buffers it starts with. -/
theorem computes_of_sources {A : TsArgs} {c t : ℕ} {p : ℕ → ℂ} {g : ℕ → Fin 3 → ℂ}
    (hpre : ∀ x : Tls, x.center = A.centers c → ∃ (jv jd : Buf ℂ) (js : Fl ℝ) (y : Tls),
      beginTarget A t x = .ok y ∧ Held (A.centers c) (A.targets t) jv jd js y ∧ y.result = fin 0 ∧
      (A.ifgrad = true → y.resultGrad = fun _ => fin 0) ∧
      ∀ s ∈ A.sourcesOf c, SourceOK A (A.centers c) (A.targets t) jv jd js s (p s) (g s)) :
    ∀ (P : ℕ → ℕ → Tls → Prop), (∀ y : Tls, (A.ifpot = true → y.result = fin (((A.sourcesOf c).map p).sum)) →
      (A.ifgrad = true → y.resultGrad = fun m => fin (((A.sourcesOf c).map fun s => g s m).sum)) → P c t y) →
    Computes A P c t := by
  intro P hP x hx
  obtain ⟨jv, jd, js, y, hy, hh, hr, hg, hs⟩ := hpre x hx
  obtain ⟨z, hz, hzh, hzp, hzg⟩ := sources_sum (A.sourcesOf c) hs y hh 0 (fun _ => 0) hr hg
  refine ⟨z, foldlM_cons_ok.mpr ⟨y, hy, hz⟩, hzh.center, hP z ?_ ?_⟩
  · intro h; rw [hzp h, zero_add]
  · intro h
    rw [hzg h]
    funext m
    rw [zero_add]

/-- A potential stage: `if flag: result = result + v`. -/
theorem pot_stage {flag : Bool} {f : Tls → Except TsFail Tls} {x : Tls} {v r : ℂ} (hr : x.result = fin r)
    (hf : flag = true → f x = addPot x (some (fin v))) :
    onFlag flag f x = .ok { x with result := fin (r + if flag then v else 0) } := by
  cases flag with
  | false =>
    simp only [onFlag, Bool.false_eq_true, if_false, add_zero, ← hr]
  | true => simp only [onFlag, if_true, hf rfl, addPot, hr, fin_add]

/-- A gradient stage. -/
theorem grad_stage {flag : Bool} {f : Tls → Except TsFail Tls} {x : Tls} {gr g : Fin 3 → ℂ}
    (hf : flag = true → f x = setGrad x (some fun m => fin (gr m + g m))) :
    onFlag flag f x = .ok { x with resultGrad := if flag then fun m => fin (gr m + g m) else x.resultGrad } := by
  cases flag with
  | false => simp only [onFlag, Bool.false_eq_true, if_false]
  | true => simp only [onFlag, if_true, hf rfl, setGrad]

/-- The six kernels one after the other. -/
theorem source_stages {A : TsArgs} {s : ℕ} {x : Tls} {r : ℂ} {gr : Fin 3 → ℂ} (hr : x.result = fin r)
    {v1 v3 v4 v6 : ℂ} {g2 g5 : Fin 3 → ℂ}
    (h1 : A.lapS = true → tsLaplaceS x.source x.center x.target (fin (A.chargeAt s)) A.order = fin v1)
    (h2 : A.lapSp = true → tsLaplaceSp x.resultGrad x.source x.center x.target (fin (A.chargeAt s)) A.order
      = some fun m => fin (gr m + g2 m))
    (h3 : A.lapD = true → tsLaplaceD x.source x.center x.target x.dipole (fin (A.dipstrAt s)) A.order = some (fin v3))
    (h4 : A.helmS = true → tsHelmholtzS x.source x.center x.target (fin (A.chargeAt s)) A.order A.k x.jvals x.jscale
      = some (fin v4))
    (h5 : A.helmSp = true → tsHelmholtzSp x.resultGrad x.source x.center x.target (fin (A.chargeAt s)) A.order A.k
      x.jvals x.jderivs x.jscale = some fun m => fin (gr m + g5 m))
    (h6 : A.helmD = true → tsHelmholtzD x.source x.center x.target x.dipole (fin (A.dipstrAt s)) A.order A.k x.jvals x.jscale
      = some (fin v6)) (hx : A.lapSp = false ∨ A.helmSp = false) :
    ∃ y, addSource A s x = .ok y ∧ y.center = x.center ∧ y.target = x.target ∧ y.jvals = x.jvals ∧
      y.jderivs = x.jderivs ∧ y.jscale = x.jscale ∧
      y.result = fin (r + (if A.lapS then v1 else 0) + (if A.lapD then v3 else 0) + (if A.helmS then v4 else 0)
        + (if A.helmD then v6 else 0)) ∧
      y.resultGrad = (if A.helmSp then fun m => fin (gr m + g5 m) else
        if A.lapSp then fun m => fin (gr m + g2 m) else x.resultGrad) := by
  have e1 := pot_stage (flag := A.lapS) (f := doLapS A s) (x := x) hr (v := v1) (fun h => by rw [doLapS, h1 h])
  obtain ⟨x1, hx1⟩ : ∃ x1 : Tls, x1 = { x with result := fin (r + if A.lapS then v1 else 0) } := ⟨_, rfl⟩
  rw [← hx1] at e1
  have e2 := grad_stage (flag := A.lapSp) (f := doLapSp A s) (x := x1) (gr := gr) (g := g2)
    (fun h => by rw [doLapSp, hx1]; exact congrArg _ (h2 h))
  obtain ⟨x2, hx2⟩ : ∃ x2 : Tls, x2 = { x1 with
    resultGrad := if A.lapSp then fun m => fin (gr m + g2 m) else x1.resultGrad } := ⟨_, rfl⟩
  rw [← hx2] at e2
  have e3 := pot_stage (flag := A.lapD) (f := doLapD A s) (x := x2) (v := v3)
    (r := r + if A.lapS then v1 else 0) (by rw [hx2, hx1]) (fun h => by rw [doLapD, hx2, hx1]; exact congrArg _ (h3 h))
  obtain ⟨x3, hx3⟩ : ∃ x3 : Tls, x3 = { x2 with
    result := fin (r + (if A.lapS then v1 else 0) + if A.lapD then v3 else 0) } := ⟨_, rfl⟩
  rw [← hx3] at e3
  have e4 := pot_stage (flag := A.helmS) (f := doHelmS A s) (x := x3) (v := v4)
    (r := r + (if A.lapS then v1 else 0) + if A.lapD then v3 else 0) (by rw [hx3])
    (fun h => by rw [doHelmS, hx3, hx2, hx1]; exact congrArg _ (h4 h))
  obtain ⟨x4, hx4⟩ : ∃ x4 : Tls, x4 = { x3 with
    result := fin (r + (if A.lapS then v1 else 0) + (if A.lapD then v3 else 0) + if A.helmS then v4 else 0) } := ⟨_, rfl⟩
  rw [← hx4] at e4
  have e5 := grad_stage (flag := A.helmSp) (f := doHelmSp A s) (x := x4) (gr := gr) (g := g5)
    (fun h => by
      have hl : A.lapSp = false := by
        rcases hx with hx | hx
        · exact hx
        · rw [hx] at h; cases h
      rw [doHelmSp, hx4, hx3, hx2, hx1]
      simp only [hl, Bool.false_eq_true, if_false]
      exact congrArg _ (h5 h))
  obtain ⟨x5, hx5⟩ : ∃ x5 : Tls, x5 = { x4 with
    resultGrad := if A.helmSp then fun m => fin (gr m + g5 m) else x4.resultGrad } := ⟨_, rfl⟩
  rw [← hx5] at e5
  have e6 := pot_stage (flag := A.helmD) (f := doHelmD A s) (x := x5) (v := v6)
    (r := r + (if A.lapS then v1 else 0) + (if A.lapD then v3 else 0) + if A.helmS then v4 else 0) (by rw [hx5, hx4])
    (fun h => by rw [doHelmD, hx5, hx4, hx3, hx2, hx1]; exact congrArg _ (h6 h))
  refine ⟨{ x5 with result := fin (r + (if A.lapS then v1 else 0) + (if A.lapD then v3 else 0)
      + (if A.helmS then v4 else 0) + if A.helmD then v6 else 0) }, ?_, ?_⟩
  · unfold addSource
    rw [e1]; simp only [Except.bind]
    rw [e2]; simp only
    rw [e3]; simp only
    rw [e4]; simp only
    rw [e5]; simp only
    rw [e6]
  · subst hx5 hx4 hx3 hx2 hx1
    exact ⟨rfl, rfl, rfl, rfl, rfl, rfl, rfl⟩

/-! ## Laplace -/

theorem lap_begin {A : TsArgs} (hk : A.k = 0) {c : ℕ} (t : ℕ) (x : Tls) (hx : x.center = A.centers c) :
    ∃ y, beginTarget A t x = .ok y ∧ Held (A.centers c) (A.targets t) x.jvals x.jderivs x.jscale y ∧
      y.result = fin 0 ∧ (A.ifgrad = true → y.resultGrad = fun _ => fin 0) := by
  have hz : A.kZero = true := by simp [TsArgs.kZero, hk]
  have hn : A.needPre = false := by simp [TsArgs.needPre, TsArgs.helmS, TsArgs.helmSp, TsArgs.helmD, hz]
  refine ⟨{ x with
    result := fin 0
    target := A.targets t
    resultGrad := if A.ifgrad then fun _ => fin 0 else x.resultGrad }, ?_, ⟨hx, rfl, rfl, rfl, rfl⟩, rfl, ?_⟩
  · unfold beginTarget
    simp only [hn, Bool.false_eq_true, if_false]
  · intro h; simp [h]

theorem lap_source {A : TsArgs} (hk : A.k = 0) {C T : V3} (jv jd : Buf ℂ) (js : Fl ℝ) (s : ℕ) (ht : T ≠ C)
    (hs : A.sources s ≠ C) (ho : A.ifgrad = true ∨ A.ifdipole = true → A.order < 64) :
    SourceOK A C T jv jd js s
      ((if A.ifcharge then A.chargeAt s * (localExp A.order (A.sources s) C T : ℝ) else 0)
        + (if A.ifdipole then A.dipstrAt s * ((∑ m, A.dipvecAt s m *
            deriv (fun y => localExp A.order (Function.update (A.sources s) m y) C T) (A.sources s m) : ℝ) : ℂ) else 0))
      (fun m => if A.ifcharge then A.chargeAt s *
          ((deriv (fun y => localExp A.order (A.sources s) C (Function.update T m y)) (T m) : ℝ) : ℂ) else 0) := by
  intro x hx hsrc hdip r gr hr hgr
  have hz : A.kZero = true := by simp [TsArgs.kZero, hk]
  have f1 : A.helmS = false := by simp [TsArgs.helmS, hz]
  have f2 : A.helmSp = false := by simp [TsArgs.helmSp, hz]
  have f3 : A.helmD = false := by simp [TsArgs.helmD, hz]
  have hS : tsLaplaceS (A.sources s) C T (fin (A.chargeAt s)) A.order
      = fin (A.chargeAt s * (localExp A.order (A.sources s) C T : ℝ)) := C81_single_layer_partial ht hs _ _
  have hSp : A.ifgrad = true → ∀ gr : Fin 3 → ℂ,
      tsLaplaceSp (fun m => fin (gr m)) (A.sources s) C T (fin (A.chargeAt s)) A.order
      = some fun m => fin (gr m + A.chargeAt s *
          ((deriv (fun y => localExp A.order (A.sources s) C (Function.update T m y)) (T m) : ℝ) : ℂ)) := by
    intro hg gr
    obtain ⟨d, hd, he⟩ := C81_gradient_partial ht hs gr (A.chargeAt s) A.order (ho (Or.inl hg))
    rw [he]
    congr 1
    funext m
    rw [(hd m).deriv]
  have hD : A.ifdipole = true → tsLaplaceD (A.sources s) C T (A.dipvecAt s) (fin (A.dipstrAt s)) A.order
      = some (fin (A.dipstrAt s * ((∑ m, A.dipvecAt s m *
            deriv (fun y => localExp A.order (Function.update (A.sources s) m y) C T) (A.sources s m) : ℝ) : ℂ))) := by
    intro hg
    obtain ⟨d, hd, he⟩ := C81_double_layer_partial ht hs (A.dipvecAt s) (A.dipstrAt s) A.order (ho (Or.inr hg))
    rw [he]
    simp only [(hd _).deriv]
  obtain ⟨h1, h2, h3, h4, h5⟩ := hx
  have l1 : A.lapS = (A.ifpot && A.ifcharge) := by simp [TsArgs.lapS, hz]
  have l2 : A.lapSp = (A.ifgrad && A.ifcharge) := by simp [TsArgs.lapSp, hz]
  have l3 : A.lapD = (A.ifpot && A.ifdipole) := by simp [TsArgs.lapD, hz]
  obtain ⟨y, hy, y1, y2, y3, y4, y5, y6, y7⟩ := source_stages (A := A) (s := s) (x := x) hr (gr := gr)
    (v4 := 0) (v6 := 0) (g5 := fun _ => 0)
    (fun _ => by rw [hsrc, h1, h2]; exact hS)
    (fun h => by
      rw [l2, Bool.and_eq_true] at h
      rw [hsrc, h1, h2, hgr h.1]; exact hSp h.1 gr)
    (fun h => by
      rw [l3, Bool.and_eq_true] at h
      rw [hsrc, h1, h2, hdip h.2]; exact hD h.2)
    (fun h => by rw [f1] at h; cases h) (fun h => by rw [f2] at h; cases h) (fun h => by rw [f3] at h; cases h)
    (Or.inr f2)
  refine ⟨y, hy, ⟨y1.trans h1, y2.trans h2, y3.trans h3, y4.trans h4, y5.trans h5⟩, ?_, ?_, ?_⟩
  · intro hp
    rw [y6, l1, l3, f1, f3, hp]
    simp only [Bool.true_and, Bool.false_eq_true, if_false, add_zero, add_assoc]
  · intro hp
    rw [y6, l1, l3, f1, f3, hp]
    simp
  · intro hg
    rw [y7, l2, f2, hg]
    cases A.ifcharge with
    | true => simp
    | false => simp [hgr hg]

theorem hasDerivAt_listSum {α : Type} (l : List α) (f : α → ℝ → ℂ) (f' : α → ℂ) (x : ℝ)
    (h : ∀ a ∈ l, HasDerivAt (f a) (f' a) x) :
    HasDerivAt (fun y => (l.map fun a => f a y).sum) ((l.map f').sum) x := by
  induction l with
  | nil => simpa using hasDerivAt_const x (0 : ℂ)
  | cons a l ih =>
    simp only [List.map_cons, List.sum_cons]
    exact (h a List.mem_cons_self).fun_add (ih fun b hb => h b (List.mem_cons_of_mem _ hb))

/-- If nothing is requested the call returns at once. -/
theorem not_any {A : TsArgs} (hv : A.invalid = false) (hq : A.ifcharge = true ∨ A.ifdipole = true)
    (h : A.anyFlag = false) : A.ifpot = false ∧ A.ifgrad = false := by
  simp only [TsArgs.invalid, Bool.or_eq_false_iff] at hv
  have hv := hv.2
  simp only [TsArgs.anyFlag, TsArgs.lapS, TsArgs.lapSp, TsArgs.lapD, TsArgs.helmS, TsArgs.helmSp, TsArgs.helmD,
    Bool.or_eq_false_iff] at h
  revert hv h hq
  cases A.kZero <;> cases A.ifpot <;> cases A.ifgrad <;> cases A.ifcharge <;> cases A.ifdipole <;> simp

/-- C83 (Laplace): for every assignment of the centers to threads and every interleaving of their
operations, a call stores for each target of each center exactly the sum over the center's
near-field sources of the order-`p` local expansions about the center (for charges and dipoles), and its
gradient if requested, and changes nothing else.  Missing from the full claim: targets at their
center and orders from 64 on (`C81_center_refuted`, `C81_overflow_refuted`). -/
theorem C83_laplace_partial (A : TsArgs) (hk : A.k = 0) (hv : A.invalid = false)
    (hq : A.ifcharge = true ∨ A.ifdipole = true)
    (hnd : (A.qbxCenters.flatMap A.targetsOf).Nodup)
    (hsep : ∀ c ∈ A.qbxCenters, ∀ t ∈ A.targetsOf c, A.targets t ≠ A.centers c ∧
      ∀ s ∈ A.sourcesOf c, A.sources s ≠ A.centers c)
    (ho : A.ifgrad = true ∨ A.ifdipole = true → A.order < 64)
    (owner : ℕ → ℕ) (sched : List (ℕ × TsOp)) (hs : IsSchedule A owner sched) (o : TsOut) :
    ∃ o', evalTsLocals A sched o = .done o' ∧
      (∀ c ∈ A.qbxCenters, ∀ t ∈ A.targetsOf c,
        (A.ifpot = true → o'.pot t = fin (lapPot A c t)) ∧
        (A.ifgrad = true → ∃ D : Fin 3 → ℂ,
          (∀ m, HasDerivAt (fun y => lapField A c (Function.update (A.targets t) m y)) (D m) (A.targets t m)) ∧
          o'.grad t = fun m => fin (D m)) ∧
        (A.ifpot = false → o'.pot t = o.pot t) ∧ (A.ifgrad = false → o'.grad t = o.grad t)) ∧
      ∀ t, (∀ c ∈ A.qbxCenters, t ∉ A.targetsOf c) → o'.pot t = o.pot t ∧ o'.grad t = o.grad t := by
  cases hany : A.anyFlag with
  | false =>
    obtain ⟨h1, h2⟩ := not_any hv hq hany
    refine ⟨o, by simp [evalTsLocals, hv, hany], ?_, fun _ _ => ⟨rfl, rfl⟩⟩
    intro c _ t _
    rw [h1, h2]
    exact ⟨by simp, by simp, fun _ => rfl, fun _ => rfl⟩
  | true =>
    obtain ⟨o', he, h1, h2⟩ := eval_of_computes A
      (fun c t y => (A.ifpot = true → y.result = fin (lapPot A c t)) ∧
        (A.ifgrad = true → y.resultGrad = fun m => fin (((A.sourcesOf c).map fun s => if A.ifcharge then A.chargeAt s *
          ((deriv (fun y => localExp A.order (A.sources s) (A.centers c) (Function.update (A.targets t) m y))
            (A.targets t m) : ℝ) : ℂ) else 0).sum)))
      owner sched hs hv hany hnd (by
        intro c hc t ht
        obtain ⟨htc, hsc⟩ := hsep c hc t ht
        refine computes_of_sources (fun x hx => ?_) _ (fun y hp hg => ⟨hp, hg⟩)
        obtain ⟨y, hy, hh, hr, hg⟩ := lap_begin hk t x hx
        exact ⟨_, _, _, y, hy, hh, hr, hg, fun s hs => lap_source hk _ _ _ s htc (hsc s hs) ho⟩) o
    refine ⟨o', he, ?_, h2⟩
    intro c hc t ht
    obtain ⟨htc, hsc⟩ := hsep c hc t ht
    obtain ⟨y, ⟨hp, hg⟩, e1, e2⟩ := h1 c hc t ht
    refine ⟨fun h => ?_, fun h => ?_, fun h => ?_, fun h => ?_⟩
    · rw [e1, if_pos h, hp h]
    · refine ⟨_, fun m => ?_, by rw [e2, if_pos h, hg h]⟩
      refine hasDerivAt_listSum _ _ _ _ (fun s hs => ?_)
      cases A.ifcharge with
      | false => simpa using hasDerivAt_const _ (0 : ℂ)
      | true =>
        simp only [if_true]
        obtain ⟨d, hd, _⟩ := C81_gradient_partial htc (hsc s hs) (fun _ => 0) 0 A.order (ho (Or.inl h))
        have := (hd m)
        rw [this.deriv]
        exact this.ofReal_comp.const_mul _
    · rw [e1, h]; simp
    · rw [e2, h]; simp

/-! ## Helmholtz -/

theorem bind_mono {α β : Type} {x : Option α} {f g : α → Option β} {r : β} (h : x.bind f = some r)
    (hfg : ∀ a r, f a = some r → g a = some r) : x.bind g = some r := by
  cases x with
  | none => cases h
  | some a => exact hfg a r h

theorem map_mono {α β : Type} {x y : Option α} {f : α → β} {r : β} (h : x.map f = some r)
    (hxy : ∀ a, x = some a → y = some a) : y.map f = some r := by
  cases x with
  | none => cases h
  | some a => rw [hxy a rfl]; exact h

theorem foldlM_mono {α β : Type} {f g : β → α → Option β} (hfg : ∀ b a r, f b a = some r → g b a = some r) (l : List α) :
    ∀ {b r : β}, l.foldlM f b = some r → l.foldlM g b = some r := by
  induction l with
  | nil => intro b r h; exact h
  | cons a l ih =>
    intro b r h
    rw [List.foldlM_cons] at h ⊢
    cases hb : f b a with
    | none => rw [hb] at h; cases h
    | some d =>
      rw [hb] at h
      rw [hfg b a d hb]
      exact ih h

theorem bind_over {K β : Type} {new old : Buf K} {n : ℕ} {f g : Fl K → Option β} {r : β} (h : (new n).bind f = some r)
    (hfg : ∀ a r, f a = some r → g a = some r) : (new.over old n).bind g = some r := by
  unfold Buf.over
  cases hn : new n with
  | none => rw [hn] at h; cases h
  | some a => rw [hn] at h; exact hfg a r h

/-- Stale cells of the Bessel buffers are never read (potential). -/
theorem helmS_over {s c t : V3} {q : Fl ℂ} {p : ℕ} {k : ℂ} {jv old : Buf ℂ} {js : Fl ℝ} {v : Fl ℂ}
    (h : tsHelmholtzS s c t q p k jv js = some v) : tsHelmholtzS s c t q p k (jv.over old) js = some v := by
  unfold tsHelmholtzS at h ⊢
  refine bind_mono h (fun lb r h => ?_)
  refine bind_mono h (fun hb r h => ?_)
  refine map_mono h (fun a h => ?_)
  exact foldlM_mono (fun b n r h => bind_over h (fun _ _ h => h)) _ h

/-- Stale cells of the Bessel buffers are never read (gradient). -/
theorem helmSp_over {gr : Fin 3 → Fl ℂ} {s c t : V3} {q : Fl ℂ} {p : ℕ} {k : ℂ} {jv old jd old' : Buf ℂ} {js : Fl ℝ}
    {v : Fin 3 → Fl ℂ} (h : tsHelmholtzSp gr s c t q p k jv jd js = some v) :
    tsHelmholtzSp gr s c t q p k (jv.over old) (jd.over old') js = some v := by
  unfold tsHelmholtzSp at h ⊢
  refine bind_mono h (fun lb r h => ?_)
  refine bind_mono h (fun ld r h => ?_)
  refine bind_mono h (fun hb r h => ?_)
  refine map_mono h (fun a h => ?_)
  exact foldlM_mono (fun b n r h => bind_over h (fun _ _ h => bind_over h (fun _ _ h => h))) _ h

/-- Stale cells of the Bessel buffers are never read (double layer). -/
theorem helmD_over {s c t d : V3} {q : Fl ℂ} {p : ℕ} {k : ℂ} {jv old : Buf ℂ} {js : Fl ℝ} {v : Fl ℂ}
    (h : tsHelmholtzD s c t d q p k jv js = some v) : tsHelmholtzD s c t d q p k (jv.over old) js = some v := by
  unfold tsHelmholtzD at h ⊢
  refine bind_mono h (fun lb r h => ?_)
  refine bind_mono h (fun ld r h => ?_)
  refine bind_mono h (fun hb r h => ?_)
  refine bind_mono h (fun hd r h => ?_)
  refine map_mono h (fun a h => ?_)
  exact foldlM_mono (fun b n r h => bind_over h (fun _ _ h => h)) _ h

theorem helm_begin {A : TsArgs} (hk : A.k ≠ 0) (hany : A.anyFlag = true) {c t : ℕ} {jv : Buf ℂ} {jd : Option (Buf ℂ)} {js : Fl ℝ}
    (hpre : tsHelmholtzPrecompute (A.centers c) (A.targets t) A.order A.ifgrad A.k = some (.ok jv jd js))
    (x : Tls) (hx : x.center = A.centers c) :
    ∃ y, beginTarget A t x = .ok y ∧
      Held (A.centers c) (A.targets t) (jv.over x.jvals) ((jd.getD Buf.fresh).over x.jderivs) js y ∧
      y.result = fin 0 ∧ (A.ifgrad = true → y.resultGrad = fun _ => fin 0) := by
  have hz : A.kZero = false := by simp [TsArgs.kZero, hk]
  have hn : A.needPre = true := by
    rw [← hany]
    simp [TsArgs.needPre, TsArgs.anyFlag, TsArgs.lapS, TsArgs.lapSp, TsArgs.lapD, hz]
  refine ⟨{ x with
    result := fin 0
    target := A.targets t
    resultGrad := if A.ifgrad then fun _ => fin 0 else x.resultGrad
    jvals := jv.over x.jvals
    jderivs := (jd.getD Buf.fresh).over x.jderivs
    jscale := js }, ?_, ⟨hx, rfl, rfl, rfl, rfl⟩, rfl, ?_⟩
  · unfold beginTarget
    simp only [hn, if_true, hx, hpre, afterPre]
  · intro h; simp [h]

theorem helm_source {A : TsArgs} (hk : A.k ≠ 0) {C T : V3} (jv jd old old' : Buf ℂ) (js : Fl ℝ) (s : ℕ) {p1 p2 : ℂ}
    {g : Fin 3 → ℂ}
    (hS : A.ifcharge = true → tsHelmholtzS (A.sources s) C T (fin (A.chargeAt s)) A.order A.k jv js = some (fin p1))
    (hSp : A.ifgrad = true → A.ifcharge = true → ∀ gr : Fin 3 → ℂ,
      tsHelmholtzSp (fun m => fin (gr m)) (A.sources s) C T (fin (A.chargeAt s)) A.order A.k jv jd js
        = some fun m => fin (gr m + g m))
    (hD : A.ifdipole = true →
      tsHelmholtzD (A.sources s) C T (A.dipvecAt s) (fin (A.dipstrAt s)) A.order A.k jv js = some (fin p2)) :
    SourceOK A C T (jv.over old) (jd.over old') js s ((if A.ifcharge then p1 else 0) + (if A.ifdipole then p2 else 0))
      (fun m => if A.ifcharge then g m else 0) := by
  intro x hx hsrc hdip r gr hr hgr
  have hz : A.kZero = false := by simp [TsArgs.kZero, hk]
  have f1 : A.lapS = false := by simp [TsArgs.lapS, hz]
  have f2 : A.lapSp = false := by simp [TsArgs.lapSp, hz]
  have f3 : A.lapD = false := by simp [TsArgs.lapD, hz]
  have l1 : A.helmS = (A.ifpot && A.ifcharge) := by simp [TsArgs.helmS, hz]
  have l2 : A.helmSp = (A.ifgrad && A.ifcharge) := by simp [TsArgs.helmSp, hz]
  have l3 : A.helmD = (A.ifpot && A.ifdipole) := by simp [TsArgs.helmD, hz]
  obtain ⟨h1, h2, h3, h4, h5⟩ := hx
  obtain ⟨y, hy, y1, y2, y3, y4, y5, y6, y7⟩ := source_stages (A := A) (s := s) (x := x) hr (gr := gr)
    (v1 := 0) (v3 := 0) (g2 := fun _ => 0)
    (fun h => by rw [f1] at h; cases h) (fun h => by rw [f2] at h; cases h) (fun h => by rw [f3] at h; cases h)
    (fun h => by
      rw [l1, Bool.and_eq_true] at h
      rw [hsrc, h1, h2, h3, h5]; exact helmS_over (hS h.2))
    (fun h => by
      rw [l2, Bool.and_eq_true] at h
      rw [hsrc, h1, h2, h3, h4, h5, hgr h.1]; exact helmSp_over (hSp h.1 h.2 gr))
    (fun h => by
      rw [l3, Bool.and_eq_true] at h
      rw [hsrc, h1, h2, h3, h5, hdip h.2]; exact helmD_over (hD h.2))
    (Or.inl f2)
  refine ⟨y, hy, ⟨y1.trans h1, y2.trans h2, y3.trans h3, y4.trans h4, y5.trans h5⟩, ?_, ?_, ?_⟩
  · intro hp
    rw [y6, l1, l3, f1, f3, hp]
    simp only [Bool.true_and, Bool.false_eq_true, if_false, add_zero, add_assoc]
  · intro hp
    rw [y6, l1, l3, f1, f3, hp]
    simp
  · intro hg
    rw [y7, l2, f2, hg]
    cases A.ifcharge with
    | true => simp
    | false => simp [hgr hg]

theorem listSum_norm {α : Type} (l : List α) (f g : α → ℂ) (b : α → ℝ) (h : ∀ a ∈ l, ‖f a - g a‖ ≤ b a) :
    ‖(l.map f).sum - (l.map g).sum‖ ≤ (l.map b).sum := by
  induction l with
  | nil => simp
  | cons a l ih =>
    simp only [List.map_cons, List.sum_cons]
    have h1 := h a List.mem_cons_self
    have h2 := ih fun b hb => h b (List.mem_cons_of_mem _ hb)
    have e : f a + (l.map f).sum - (g a + (l.map g).sum) = (f a - g a) + ((l.map f).sum - (l.map g).sum) := by ring
    rw [e]
    exact (norm_add_le _ _).trans (add_le_add h1 h2)

/-- The Helmholtz field of the charges as a function of the target position. -/
noncomputable def helmChargeField (A : TsArgs) (c : ℕ) (x : V3) : ℂ :=
  ((A.sourcesOf c).map fun s => if A.ifcharge then A.chargeAt s * helmKern A.k (A.sources s) x else 0).sum

/-- The gradient kernel adds something that does not depend on what was there. -/
theorem helmSp_adds (s c t : V3) (q : Fl ℂ) (p : ℕ) (k : ℂ) (jv jd : Buf ℂ) (js : Fl ℝ) :
    ∃ Z : Option (Fin 3 → Fl ℂ), ∀ gr, tsHelmholtzSp gr s c t q p k jv jd js = Z.map fun w m => gr m + w m := by
  refine ⟨tsHelmholtzSp (fun _ => fin 0) s c t q p k jv jd js |>.map fun w => w, fun gr => ?_⟩
  have h0 : ∀ w : Fl ℂ, fin 0 + w = w := by
    intro w
    cases w with
    | fin v => simp
    | bad => simp
  unfold tsHelmholtzSp
  simp only [Option.map_bind, Option.map_map, h0, Function.comp_def]

/-- Values the six kernels return for one center and one target. -/
theorem helm_values {A : TsArgs} (ho : A.order ≤ 50) {c t s : ℕ}
    (hz : 1 / 10 ^ 200 ≤ ‖A.k * (euclid (A.targets t) (A.centers c) : ℂ)‖)
    (hz1 : ‖A.k * (euclid (A.targets t) (A.centers c) : ℂ)‖ ≤ 3)
    (hts : euclid (A.targets t) (A.centers c) < euclid (A.sources s) (A.centers c))
    (hb : 1 / 10 ^ 15 ≤ ‖A.k * (euclid (A.sources s) (A.centers c) : ℂ)‖)
    {jv : Buf ℂ} {jd : Option (Buf ℂ)} {js : Fl ℝ}
    (hpre : tsHelmholtzPrecompute (A.centers c) (A.targets t) A.order A.ifgrad A.k = some (.ok jv jd js)) :
    ∃ (p1 p2 : ℂ) (g : Fin 3 → ℂ),
      (A.ifcharge = true → tsHelmholtzS (A.sources s) (A.centers c) (A.targets t) (fin (A.chargeAt s)) A.order A.k jv js
        = some (fin p1)) ∧
      (A.ifgrad = true → A.ifcharge = true → ∀ gr : Fin 3 → ℂ,
        tsHelmholtzSp (fun m => fin (gr m)) (A.sources s) (A.centers c) (A.targets t) (fin (A.chargeAt s)) A.order A.k jv
          (jd.getD Buf.fresh) js = some fun m => fin (gr m + g m)) ∧
      (A.ifdipole = true → tsHelmholtzD (A.sources s) (A.centers c) (A.targets t) (A.dipvecAt s) (fin (A.dipstrAt s))
        A.order A.k jv js = some (fin p2)) ∧
      ‖((if A.ifcharge then p1 else 0) + (if A.ifdipole then p2 else 0))
        - ((if A.ifcharge then A.chargeAt s * helmKern A.k (A.sources s) (A.targets t) else 0)
          + (if A.ifdipole then A.dipstrAt s * (∑ m, (A.dipvecAt s m : ℂ) *
              deriv (fun y : ℝ => helmKern A.k (Function.update (A.sources s) m y) (A.targets t)) (A.sources s m)) else 0))‖
        ≤ helmPotBound A c t s ∧
      (A.ifgrad = true → ∀ m, ‖(if A.ifcharge then g m else 0) - (if A.ifcharge then A.chargeAt s *
          deriv (fun y : ℝ => helmKern A.k (A.sources s) (Function.update (A.targets t) m y)) (A.targets t m) else 0)‖
        ≤ helmGradBound A c t s) ∧
      (∀ m, DifferentiableAt ℝ (fun y : ℝ => helmKern A.k (A.sources s) (Function.update (A.targets t) m y))
        (A.targets t m)) := by
  obtain ⟨_, _, _, p1, hp1, hv1, hb1⟩ := C82_single_layer_error hz hz1 hts hb (A.chargeAt s) A.order ho A.ifgrad
  rw [hpre] at hp1
  cases hp1
  obtain ⟨_, _, _, p2, D2, hp2, hv2, hD2, hb2⟩ := C82_double_layer_error hz hz1 hts hb (A.dipvecAt s) (A.dipstrAt s) A.order ho
    A.ifgrad
  rw [hpre] at hp2
  cases hp2
  obtain ⟨jv3, jd3, js3, g, D3, hp3, hv3, hD3, hb3⟩ := C82_gradient_error hz hz1 hts hb (fun _ => 0) (A.chargeAt s) A.order ho
  have hgr : ∀ gr : Fin 3 → ℂ, tsHelmholtzSp (fun m => fin (gr m)) (A.sources s) (A.centers c) (A.targets t) (fin (A.chargeAt s))
      A.order A.k jv3 jd3 js3 = some fun m => fin (gr m + g m) := by
    intro gr
    obtain ⟨Z, hZ⟩ := helmSp_adds (A.sources s) (A.centers c) (A.targets t) (fin (A.chargeAt s)) A.order A.k jv3 jd3 js3
    rw [hZ] at hv3 ⊢
    cases hZ' : Z with
    | none => rw [hZ'] at hv3; cases hv3
    | some w =>
      rw [hZ'] at hv3
      simp only [Option.map_some, Option.some.injEq] at hv3 ⊢
      funext m
      have := congrFun hv3 m
      cases hw : w m with
      | bad => rw [hw] at this; simp at this
      | fin u =>
        rw [hw] at this
        simp only [fin_add, Fl.fin.injEq, zero_add] at this ⊢
        rw [this]
  refine ⟨p1, p2, g, fun _ => hv1, ?_, fun _ => hv2, ?_, ?_, fun m => (hD3 m).differentiableAt⟩
  · intro hg _ gr
    rw [hg] at hpre
    rw [hpre] at hp3
    cases hp3
    exact hgr gr
  · have e : ∀ m, deriv (fun y : ℝ => helmKern A.k (Function.update (A.sources s) m y) (A.targets t)) (A.sources s m) = D2 m :=
      fun m => (hD2 m).deriv
    simp only [e, helmPotBound, ratioOf]
    cases A.ifcharge <;> cases A.ifdipole <;>
      simp only [Bool.false_eq_true, if_false, if_true, zero_add, add_zero, sub_self, norm_zero, le_refl]
    · exact hb2
    · exact hb1
    · rw [add_sub_add_comm]
      exact (norm_add_le _ _).trans (add_le_add hb1 hb2)
  · intro _ m
    rw [(hD3 m).deriv, helmGradBound]
    cases A.ifcharge with
    | false => simp
    | true => exact hb3 m

/-- C83 (Helmholtz): for every assignment of the centers to threads and every interleaving of their
operations, the value stored for a target of a center differs from the Helmholtz field of the
center's near-field sources by at most the sum of the bounds of C82, the stored gradient from the
gradient of the field of the charges likewise, and nothing else changes; the values do not depend on the
execution.  Missing from the full claim: `|k||t-c|` outside `[10⁻²⁰⁰, 3]` and orders above 50
(`C82_abort_refuted`, `C82_order_refuted`), sources closer than `10⁻¹⁵/|k|` to the center
(`C82_null_refuted`). -/
theorem C83_helmholtz_partial (A : TsArgs) (hk : A.k ≠ 0) (hv : A.invalid = false)
    (hq : A.ifcharge = true ∨ A.ifdipole = true)
    (hnd : (A.qbxCenters.flatMap A.targetsOf).Nodup) (ho : A.order ≤ 50)
    (hsep : ∀ c ∈ A.qbxCenters, ∀ t ∈ A.targetsOf c,
      1 / 10 ^ 200 ≤ ‖A.k * (euclid (A.targets t) (A.centers c) : ℂ)‖ ∧
      ‖A.k * (euclid (A.targets t) (A.centers c) : ℂ)‖ ≤ 3 ∧
      ∀ s ∈ A.sourcesOf c, euclid (A.targets t) (A.centers c) < euclid (A.sources s) (A.centers c) ∧
        1 / 10 ^ 15 ≤ ‖A.k * (euclid (A.sources s) (A.centers c) : ℂ)‖) :
    ∃ (v : ℕ → ℕ → ℂ) (g : ℕ → ℕ → Fin 3 → ℂ),
      (∀ c ∈ A.qbxCenters, ∀ t ∈ A.targetsOf c,
        ‖v c t - helmField A c (A.targets t)‖ ≤ ((A.sourcesOf c).map (helmPotBound A c t)).sum ∧
        (A.ifgrad = true → ∃ D : Fin 3 → ℂ,
          (∀ m, HasDerivAt (fun y : ℝ => helmChargeField A c (Function.update (A.targets t) m y)) (D m) (A.targets t m)) ∧
          ∀ m, ‖g c t m - D m‖ ≤ ((A.sourcesOf c).map (helmGradBound A c t)).sum)) ∧
      ∀ (owner : ℕ → ℕ) (sched : List (ℕ × TsOp)), IsSchedule A owner sched → ∀ o : TsOut,
        ∃ o', evalTsLocals A sched o = .done o' ∧
          (∀ c ∈ A.qbxCenters, ∀ t ∈ A.targetsOf c,
            o'.pot t = (if A.ifpot then fin (v c t) else o.pot t) ∧
            o'.grad t = (if A.ifgrad then fun m => fin (g c t m) else o.grad t)) ∧
          ∀ t, (∀ c ∈ A.qbxCenters, t ∉ A.targetsOf c) → o'.pot t = o.pot t ∧ o'.grad t = o.grad t := by
  have H : ∀ c t, ∃ (p : ℕ → ℂ) (g : ℕ → Fin 3 → ℂ), c ∈ A.qbxCenters → t ∈ A.targetsOf c →
      (∃ (jv : Buf ℂ) (jd : Option (Buf ℂ)) (js : Fl ℝ),
        tsHelmholtzPrecompute (A.centers c) (A.targets t) A.order A.ifgrad A.k = some (.ok jv jd js) ∧
        ∀ s ∈ A.sourcesOf c, ∀ old old', SourceOK A (A.centers c) (A.targets t) (jv.over old)
          ((jd.getD Buf.fresh).over old') js s (p s) (g s)) ∧
      (∀ s ∈ A.sourcesOf c, ‖p s - ((if A.ifcharge then A.chargeAt s * helmKern A.k (A.sources s) (A.targets t) else 0)
          + (if A.ifdipole then A.dipstrAt s * (∑ m, (A.dipvecAt s m : ℂ) *
              deriv (fun y : ℝ => helmKern A.k (Function.update (A.sources s) m y) (A.targets t)) (A.sources s m)) else 0))‖
        ≤ helmPotBound A c t s) ∧
      (A.ifgrad = true → ∀ s ∈ A.sourcesOf c, ∀ m, ‖g s m - (if A.ifcharge then A.chargeAt s *
          deriv (fun y : ℝ => helmKern A.k (A.sources s) (Function.update (A.targets t) m y)) (A.targets t m) else 0)‖
        ≤ helmGradBound A c t s) ∧
      (∀ s ∈ A.sourcesOf c, ∀ m, DifferentiableAt ℝ
        (fun y : ℝ => helmKern A.k (A.sources s) (Function.update (A.targets t) m y)) (A.targets t m)) := by
    intro c t
    by_cases hc : c ∈ A.qbxCenters
    · by_cases ht : t ∈ A.targetsOf c
      · obtain ⟨hz, hz1, hss⟩ := hsep c hc t ht
        obtain ⟨jv, jd, js, _, _, hpre, _⟩ := C82_precompute_partial hz hz1 A.order ho A.ifgrad
        have hval : ∀ s, ∃ (p : ℂ) (g : Fin 3 → ℂ), s ∈ A.sourcesOf c →
            (∀ old old', SourceOK A (A.centers c) (A.targets t) (jv.over old)
              ((jd.getD Buf.fresh).over old') (fin js) s p g) ∧
            (‖p - ((if A.ifcharge then A.chargeAt s * helmKern A.k (A.sources s) (A.targets t) else 0)
              + (if A.ifdipole then A.dipstrAt s * (∑ m, (A.dipvecAt s m : ℂ) *
                  deriv (fun y : ℝ => helmKern A.k (Function.update (A.sources s) m y) (A.targets t)) (A.sources s m)) else 0))‖
              ≤ helmPotBound A c t s) ∧
            (A.ifgrad = true → ∀ m, ‖g m - (if A.ifcharge then A.chargeAt s *
              deriv (fun y : ℝ => helmKern A.k (A.sources s) (Function.update (A.targets t) m y)) (A.targets t m) else 0)‖
              ≤ helmGradBound A c t s) ∧
            ∀ m, DifferentiableAt ℝ
              (fun y : ℝ => helmKern A.k (A.sources s) (Function.update (A.targets t) m y)) (A.targets t m) := by
          intro s
          by_cases hs : s ∈ A.sourcesOf c
          · obtain ⟨p1, p2, g, h1, h2, h3, h4, h5, h6⟩ := helm_values ho hz hz1 (hss s hs).1 (hss s hs).2 hpre
            exact ⟨_, fun m => if A.ifcharge then g m else 0, fun _ => ⟨fun old old' => helm_source hk _ _ old old' _ s h1 h2 h3,
              h4, h5, h6⟩⟩
          · exact ⟨0, fun _ => 0, fun h => absurd h hs⟩
        choose p g hpg using hval
        exact ⟨p, g, fun _ _ => ⟨⟨jv, jd, _, hpre, fun s hs => (hpg s hs).1⟩, fun s hs => (hpg s hs).2.1,
          fun hg s hs => (hpg s hs).2.2.1 hg, fun s hs => (hpg s hs).2.2.2⟩⟩
      · exact ⟨fun _ => 0, fun _ _ => 0, fun _ h => absurd h ht⟩
    · exact ⟨fun _ => 0, fun _ _ => 0, fun h => absurd h hc⟩
  choose p g hpg using H
  refine ⟨fun c t => ((A.sourcesOf c).map (p c t)).sum, fun c t m => ((A.sourcesOf c).map fun s => g c t s m).sum, ?_, ?_⟩
  · intro c hc t ht
    obtain ⟨_, h1, h2, h3⟩ := hpg c t hc ht
    refine ⟨listSum_norm _ _ _ _ h1, fun hg => ⟨_, fun m => ?_, fun m => listSum_norm _ _ _ _ (fun s hs => h2 hg s hs m)⟩⟩
    refine hasDerivAt_listSum _ _ _ _ (fun s hs => ?_)
    cases A.ifcharge with
    | false => simpa using hasDerivAt_const _ (0 : ℂ)
    | true =>
      simp only [if_true]
      exact (h3 s hs m).hasDerivAt.const_mul _
  · intro owner sched hs o
    cases hany : A.anyFlag with
    | false =>
      obtain ⟨h1, h2⟩ := not_any hv hq hany
      refine ⟨o, by simp [evalTsLocals, hv, hany], ?_, fun _ _ => ⟨rfl, rfl⟩⟩
      intro c _ t _
      rw [h1, h2]
      simp
    | true =>
      obtain ⟨o', he, h1, h2⟩ := eval_of_computes A
        (fun c t y => (A.ifpot = true → y.result = fin (((A.sourcesOf c).map (p c t)).sum)) ∧
          (A.ifgrad = true → y.resultGrad = fun m => fin (((A.sourcesOf c).map fun s => g c t s m).sum)))
        owner sched hs hv hany hnd (by
          intro c hc t ht
          obtain ⟨⟨jv, jd, js, hpre, hsrc⟩, _⟩ := hpg c t hc ht
          refine computes_of_sources (fun x hx => ?_) _ (fun y hp hg => ⟨hp, hg⟩)
          obtain ⟨y, hy, hh, hr, hg⟩ := helm_begin hk hany hpre x hx
          exact ⟨_, _, _, y, hy, hh, hr, hg, fun s hs => hsrc s hs _ _⟩) o
      refine ⟨o', he, ?_, h2⟩
      intro c hc t ht
      obtain ⟨y, ⟨hp, hg⟩, e1, e2⟩ := h1 c hc t ht
      refine ⟨?_, ?_⟩
      · rw [e1]
        cases hpot : A.ifpot with
        | false => rfl
        | true => simp only [if_true]; exact hp hpot
      · rw [e2]
        cases hgr : A.ifgrad with
        | false => rfl
        | true => simp only [if_true]; exact hg hgr

/-! ## Laplace, accuracy -/

/-- The Laplace field (charges and dipoles) of the near-field sources at `x`. -/
noncomputable def lapTrue (A : TsArgs) (c : ℕ) (x : V3) : ℂ :=
  ((A.sourcesOf c).map fun s =>
    (if A.ifcharge then A.chargeAt s * (1 / euclid (A.sources s) x : ℝ) else 0)
    + (if A.ifdipole then A.dipstrAt s * ((∑ m, A.dipvecAt s m *
        deriv (fun y => 1 / euclid (Function.update (A.sources s) m y) x) (A.sources s m) : ℝ) : ℂ) else 0)).sum

/-- The Laplace field of the charges at `x`. -/
noncomputable def lapChargeTrue (A : TsArgs) (c : ℕ) (x : V3) : ℂ :=
  ((A.sourcesOf c).map fun s => if A.ifcharge then A.chargeAt s * (1 / euclid (A.sources s) x : ℝ) else 0).sum

/-- Error bound for the Laplace potential of one source (C81). -/
noncomputable def lapPotBound (A : TsArgs) (c t s : ℕ) : ℝ :=
  (if A.ifcharge then ‖A.chargeAt s‖ * (ratioOf A c t s ^ (A.order + 1)
      / (euclid (A.sources s) (A.centers c) - euclid (A.targets t) (A.centers c))) else 0)
  + (if A.ifdipole then ‖A.dipstrAt s‖ * ((∑ m, |A.dipvecAt s m|) *
      (((A.order : ℝ) + 2 - (A.order + 1) * ratioOf A c t s) * ratioOf A c t s ^ (A.order + 1)
        / (1 - ratioOf A c t s) ^ 2 / euclid (A.sources s) (A.centers c) ^ 2)) else 0)

/-- Error bound for the Laplace gradient of one source (C81). -/
noncomputable def lapGradBound (A : TsArgs) (c t s : ℕ) : ℝ :=
  if A.ifcharge then ‖A.chargeAt s‖ *
      (((A.order : ℝ) + 1 - A.order * ratioOf A c t s) * ratioOf A c t s ^ A.order
        / (1 - ratioOf A c t s) ^ 2 / euclid (A.sources s) (A.centers c) ^ 2) else 0

/-- C83 (Laplace, accuracy): if the targets are closer to their center than the sources, in every
execution the stored potential and gradient differ from those of the field of the near-field
sources by at most the sums of the truncation errors of C81. -/
theorem C83_laplace_error (A : TsArgs) (hk : A.k = 0) (hv : A.invalid = false)
    (hq : A.ifcharge = true ∨ A.ifdipole = true)
    (hnd : (A.qbxCenters.flatMap A.targetsOf).Nodup)
    (hsep : ∀ c ∈ A.qbxCenters, ∀ t ∈ A.targetsOf c, A.targets t ≠ A.centers c ∧
      ∀ s ∈ A.sourcesOf c, euclid (A.targets t) (A.centers c) < euclid (A.sources s) (A.centers c))
    (ho : A.ifgrad = true ∨ A.ifdipole = true → A.order < 64)
    (owner : ℕ → ℕ) (sched : List (ℕ × TsOp)) (hs : IsSchedule A owner sched) (o : TsOut) :
    ∃ o', evalTsLocals A sched o = .done o' ∧
      ∀ c ∈ A.qbxCenters, ∀ t ∈ A.targetsOf c,
        (A.ifpot = true → ∃ v, o'.pot t = fin v ∧
          ‖v - lapTrue A c (A.targets t)‖ ≤ ((A.sourcesOf c).map (lapPotBound A c t)).sum) ∧
        (A.ifgrad = true → ∃ g D : Fin 3 → ℂ, (o'.grad t = fun m => fin (g m)) ∧
          (∀ m, HasDerivAt (fun y => lapChargeTrue A c (Function.update (A.targets t) m y)) (D m) (A.targets t m)) ∧
          ∀ m, ‖g m - D m‖ ≤ ((A.sourcesOf c).map (lapGradBound A c t)).sum) := by
  have hsc : ∀ c ∈ A.qbxCenters, ∀ t ∈ A.targetsOf c, ∀ s ∈ A.sourcesOf c, A.sources s ≠ A.centers c := by
    intro c hc t ht s hs h
    have := (hsep c hc t ht).2 s hs
    rw [h, euclid_self] at this
    exact absurd this (not_lt.mpr (euclid_nonneg _ _))
  obtain ⟨o', he, h1, _⟩ := C83_laplace_partial A hk hv hq hnd
    (fun c hc t ht => ⟨(hsep c hc t ht).1, hsc c hc t ht⟩) ho owner sched hs o
  refine ⟨o', he, ?_⟩
  intro c hc t ht
  obtain ⟨hp, hg, _, _⟩ := h1 c hc t ht
  obtain ⟨htc, hts⟩ := hsep c hc t ht
  refine ⟨fun h => ⟨_, hp h, ?_⟩, fun h => ?_⟩
  · refine listSum_norm _ _ _ _ (fun s hs => ?_)
    have b1 : ‖A.chargeAt s * (localExp A.order (A.sources s) (A.centers c) (A.targets t) : ℝ)
        - A.chargeAt s * (1 / euclid (A.sources s) (A.targets t) : ℝ)‖ ≤ ‖A.chargeAt s‖ *
        (ratioOf A c t s ^ (A.order + 1) / (euclid (A.sources s) (A.centers c) - euclid (A.targets t) (A.centers c))) := by
      obtain ⟨v, hv, hb⟩ := C81_single_layer_error htc (hts s hs) (A.chargeAt s) A.order
      rw [C81_single_layer_partial htc (hsc c hc t ht s hs)] at hv
      cases hv
      exact hb
    rw [lapPotBound, add_sub_add_comm]
    refine (norm_add_le _ _).trans (add_le_add ?_ ?_)
    · cases A.ifcharge with
      | false => simp
      | true => exact b1
    · cases hd : A.ifdipole with
      | false => simp
      | true =>
        simp only [if_true]
        obtain ⟨v, k, hv, hk', hb⟩ := C81_double_layer_error htc (hts s hs) (A.dipvecAt s) (A.dipstrAt s) A.order (ho (Or.inr hd))
        obtain ⟨d, hd', hv'⟩ := C81_double_layer_partial htc (hsc c hc t ht s hs) (A.dipvecAt s) (A.dipstrAt s) A.order
          (ho (Or.inr hd))
        rw [hv'] at hv
        cases hv
        simp only [fun m => (hk' m).deriv, fun m => (hd' m).deriv]
        exact hb
  · obtain ⟨D, hD, he'⟩ := hg h
    have hex : ∀ s ∈ A.sourcesOf c, ∃ (d k : Fin 3 → ℝ),
        (∀ m, HasDerivAt (fun y => localExp A.order (A.sources s) (A.centers c) (Function.update (A.targets t) m y)) (d m)
          (A.targets t m)) ∧
        (∀ m, HasDerivAt (fun y => 1 / euclid (A.sources s) (Function.update (A.targets t) m y)) (k m) (A.targets t m)) ∧
        ∀ m, ‖A.chargeAt s * (d m : ℝ) - A.chargeAt s * (k m : ℝ)‖ ≤ ‖A.chargeAt s‖ *
          (((A.order : ℝ) + 1 - A.order * ratioOf A c t s) * ratioOf A c t s ^ A.order
            / (1 - ratioOf A c t s) ^ 2 / euclid (A.sources s) (A.centers c) ^ 2) := by
      intro s hs
      obtain ⟨v, k, hv, hk', hb⟩ := C81_gradient_error htc (hts s hs) (fun _ => 0) (A.chargeAt s) A.order (ho (Or.inl h))
      obtain ⟨d, hd', hv'⟩ := C81_gradient_partial htc (hsc c hc t ht s hs) (fun _ => 0) (A.chargeAt s) A.order (ho (Or.inl h))
      refine ⟨d, k, hd', hk', fun m => ?_⟩
      rw [hv'] at hv
      have := congrFun (Option.some.inj hv) m
      simp only [zero_add, Fl.fin.injEq] at this
      rw [this]
      exact hb m
    have hDs : ∀ m, D m = ((A.sourcesOf c).map fun s => if A.ifcharge then A.chargeAt s *
        ((deriv (fun y => localExp A.order (A.sources s) (A.centers c) (Function.update (A.targets t) m y))
          (A.targets t m) : ℝ) : ℂ) else 0).sum := by
      intro m
      refine (hD m).unique (hasDerivAt_listSum _ _ _ _ (fun s hs => ?_))
      obtain ⟨d, k, hd, _, _⟩ := hex s hs
      cases A.ifcharge with
      | false => simpa using hasDerivAt_const _ (0 : ℂ)
      | true =>
        simp only [if_true]
        rw [(hd m).deriv]
        exact (hd m).ofReal_comp.const_mul _
    refine ⟨D, fun m => ((A.sourcesOf c).map fun s => if A.ifcharge then A.chargeAt s *
        ((deriv (fun y => 1 / euclid (A.sources s) (Function.update (A.targets t) m y))
          (A.targets t m) : ℝ) : ℂ) else 0).sum, he', fun m => ?_, fun m => ?_⟩
    · refine hasDerivAt_listSum _ _ _ _ (fun s hs => ?_)
      obtain ⟨d, k, _, hk', _⟩ := hex s hs
      cases A.ifcharge with
      | false => simpa using hasDerivAt_const _ (0 : ℂ)
      | true =>
        simp only [if_true]
        rw [(hk' m).deriv]
        exact (hk' m).ofReal_comp.const_mul _
    · rw [hDs m]
      refine listSum_norm _ _ _ _ (fun s hs => ?_)
      obtain ⟨d, k, hd, hk', hb⟩ := hex s hs
      rw [(hd m).deriv, (hk' m).deriv, lapGradBound]
      cases A.ifcharge with
      | false => simp
      | true => exact hb m

/-! ## Errors -/

/-- C83 (errors): a call raises `ValueError` exactly if charges are requested and missing, dipoles are
requested and their strengths or directions missing, or the gradient of dipoles is requested -- before
anything is stored, in every execution; if neither charges nor dipoles or neither output is
requested, or there are no centers, the outputs are left alone. -/
theorem C83_errors (A : TsArgs) (sched : List (ℕ × TsOp)) (o : TsOut) :
    (evalTsLocals A sched o = .valueError ↔
      (A.ifcharge = true ∧ A.charge = none) ∨ (A.ifdipole = true ∧ (A.dipstr = none ∨ A.dipvec = none)) ∨
      (A.ifdipole = true ∧ A.ifgrad = true)) ∧
    (evalTsLocals A sched o ≠ .valueError →
      ((A.ifcharge = false ∧ A.ifdipole = false) ∨ (A.ifpot = false ∧ A.ifgrad = false) ∨ A.qbxCenters = []) →
      evalTsLocals A sched o = .done o) := by
  have hinv : A.invalid = true ↔ (A.ifcharge = true ∧ A.charge = none) ∨
      (A.ifdipole = true ∧ (A.dipstr = none ∨ A.dipvec = none)) ∨ (A.ifdipole = true ∧ A.ifgrad = true) := by
    simp only [TsArgs.invalid, Bool.or_eq_true, Bool.and_eq_true, Option.isNone_iff_eq_none, or_assoc]
  constructor
  · rw [← hinv]
    unfold evalTsLocals
    by_cases hi : A.invalid = true
    · simp [hi]
    · rw [if_neg hi]
      constructor
      · intro h
        exfalso
        revert h
        split_ifs
        · intro h; cases h
        · intro h; cases h
        · cases sched.foldlM (tsStep A) ⟨fun _ => Tls.init, o⟩ with
          | error f => intro h; cases h
          | ok m => intro h; cases h
      · intro h; exact absurd h hi
  · intro hne hcase
    unfold evalTsLocals at hne ⊢
    by_cases hi : A.invalid = true
    · rw [if_pos hi] at hne; exact absurd rfl hne
    · rw [if_neg hi]
      rcases hcase with ⟨h1, h2⟩ | ⟨h1, h2⟩ | h
      · have : A.anyFlag = false := by
          simp [TsArgs.anyFlag, TsArgs.lapS, TsArgs.lapSp, TsArgs.lapD, TsArgs.helmS, TsArgs.helmSp, TsArgs.helmD, h1, h2]
        simp [this]
      · have : A.anyFlag = false := by
          simp [TsArgs.anyFlag, TsArgs.lapS, TsArgs.lapSp, TsArgs.lapD, TsArgs.helmS, TsArgs.helmSp, TsArgs.helmD, h1, h2]
        simp [this]
      · simp [h]

theorem schedule_single (A : TsArgs) (c t : ℕ) (ts : List ℕ) (hc : A.qbxCenters = [c]) (ht : A.targetsOf c = t :: ts)
    (owner : ℕ → ℕ) (sched : List (ℕ × TsOp)) (hs : IsSchedule A owner sched) :
    ∃ rest, sched = (owner 0, .center c) :: (owner 0, .target t) :: rest := by
  have hops : threadOps A owner (owner 0) = .center c :: .target t :: ((sourceOps A c ++ [.store t]) ++
      ts.flatMap (targetOps A c)) := by
    simp [threadOps, threadCenters, hc, centerOps, ht, targetOps]
  have hnone : ∀ tid, tid ≠ owner 0 → threadOps A owner tid = [] := by
    intro tid hne
    have : (owner 0 == tid) = false := by simpa using fun h => hne h.symm
    simp [threadOps, threadCenters, hc, this]
  have hall : ∀ e ∈ sched, e.1 = owner 0 := by
    intro e he
    by_contra hne
    have h1 := hs e.1
    rw [hnone e.1 hne, List.map_eq_nil_iff, List.filter_eq_nil_iff] at h1
    exact h1 e he (by simp)
  have hf : (sched.filter fun e => e.1 == owner 0) = sched :=
    List.filter_eq_self.2 fun e he => by simp [hall e he]
  have h := hs (owner 0)
  rw [hf, hops] at h
  match sched, h, hall with
  | [], h, _ => simp at h
  | [_], h, _ => simp at h
  | e :: e' :: rest, h, hall =>
    simp only [List.map_cons, List.cons.injEq] at h
    have h1 : e.1 = owner 0 := hall e List.mem_cons_self
    have h2 : e'.1 = owner 0 := hall e' (List.mem_cons_of_mem _ List.mem_cons_self)
    have e1 : e = (owner 0, .center c) := Prod.ext h1 h.1
    have e2 : e' = (owner 0, .target t) := Prod.ext h2 h.2.1
    exact ⟨rest, by rw [e1, e2]⟩

/-- C83 (Helmholtz, failures): if the first target of the only center is so far from it that the precomputation calls
`abort()` (`C82_abort_refuted`: `|k||t-c| ≥ 129`) or overruns its work array, so does the call -- in every execution, before
anything is stored. -/
theorem C83_abort_refuted (A : TsArgs) (hv : A.invalid = false) (hflag : A.needPre = true) (c t : ℕ) (ts : List ℕ)
    (hc : A.qbxCenters = [c]) (ht : A.targetsOf c = t :: ts) (owner : ℕ → ℕ) (sched : List (ℕ × TsOp))
    (hs : IsSchedule A owner sched) (o : TsOut) :
    (129 ≤ ‖A.k * (euclid (A.targets t) (A.centers c) : ℂ)‖ → A.order < 129 → evalTsLocals A sched o = .fail .abort) ∧
    (tsHelmholtzPrecompute (A.centers c) (A.targets t) A.order A.ifgrad A.k = none →
      evalTsLocals A sched o = .fail .undefined) := by
  have hany : A.anyFlag = true := by
    simp only [TsArgs.needPre, Bool.or_eq_true] at hflag
    simp only [TsArgs.anyFlag, Bool.or_eq_true]
    tauto
  obtain ⟨rest, rfl⟩ := schedule_single A c t ts hc ht owner sched hs
  have key : ∀ f p, tsHelmholtzPrecompute (A.centers c) (A.targets t) A.order A.ifgrad A.k = p →
      (∀ x, afterPre x p = .error f) →
      evalTsLocals A ((owner 0, .center c) :: (owner 0, .target t) :: rest) o = .fail f := by
    intro f p hp hf
    unfold evalTsLocals
    rw [if_neg (by simp [hv]), if_neg (by simp [hany]), if_neg (by simp [hc])]
    simp only [List.foldlM_cons, tsStep, opLocal, beginTarget, hflag, if_true, Except.map, bind, Except.bind,
      Function.update_self]
    rw [hp, hf]
    rfl
  constructor
  · intro hz ho
    exact key .abort _ (C82_abort_refuted hz A.order ho A.ifgrad) fun x => rfl
  · intro h
    exact key .undefined _ h fun x => rfl

/-! ## A concrete case: two centers, two threads -/

/-- Two centers with one target each and one common source. -/
noncomputable def exArgs (k : ℂ) : TsArgs where
  ifpot := true
  ifgrad := true
  ifcharge := true
  ifdipole := false
  order := 3
  sources := fun _ => exS
  targets := fun _ => exT
  centers := fun _ => exC
  qbxCenters := [0, 1]
  centerToTargetBox := [0, 0]
  cttStarts := [0, 1, 2]
  cttLists := [4, 2]
  srcBoxStarts := [0, 1]
  srcBoxLists := [0]
  boxSrcStarts := [0]
  boxSrcCounts := [1]
  k := k
  charge := some fun _ => 2
  dipstr := none
  dipvec := none

/-- The threads alternate. -/
def exSched : List (ℕ × TsOp) :=
  [(1, .center 1), (0, .center 0), (0, .target 4), (1, .target 2), (1, .load 0), (0, .load 0), (1, .add 0), (0, .add 0),
    (0, .store 4), (1, .store 2)]

theorem exArgs_lists (k : ℂ) : (exArgs k).targetsOf 0 = [4] ∧ (exArgs k).targetsOf 1 = [2] ∧
    (exArgs k).sourcesOf 0 = [0] ∧ (exArgs k).sourcesOf 1 = [0] := ⟨rfl, rfl, rfl, rfl⟩

theorem exSched_ok (k : ℂ) : IsSchedule (exArgs k) id exSched := by
  intro tid
  match tid with
  | 0 => rfl
  | 1 => rfl
  | n + 2 => rfl

theorem exArgs_nodup (k : ℂ) : ((exArgs k).qbxCenters.flatMap (exArgs k).targetsOf).Nodup := by
  have : (exArgs k).qbxCenters.flatMap (exArgs k).targetsOf = [4, 2] := rfl
  rw [this]
  decide

/-- The hypotheses of `C83_laplace_partial` and `C83_laplace_error` are met. -/
example (o : TsOut) : ∃ o', evalTsLocals (exArgs 0) exSched o = .done o' :=
  have h := C83_laplace_error (exArgs 0) rfl rfl (Or.inl rfl) (exArgs_nodup 0)
    (fun _ _ _ _ => ⟨ex_ne.1, fun _ _ => by
      show euclid exT exC < euclid exS exC
      rw [ex_dist.1, ex_dist.2]; norm_num⟩)
    (fun _ => by show 3 < 64; norm_num) id exSched (exSched_ok 0) o
  h.imp fun _ h => h.1

/-- The hypotheses of `C83_helmholtz_partial` are met. -/
example (o : TsOut) : ∃ o', evalTsLocals (exArgs 1) exSched o = .done o' := by
  obtain ⟨v, g, _, h⟩ := C83_helmholtz_partial (exArgs 1) one_ne_zero rfl (Or.inl rfl) (exArgs_nodup 1)
    (by show 3 ≤ 50; norm_num) (fun _ _ _ _ => by
      show 1 / 10 ^ 200 ≤ ‖(1 : ℂ) * (euclid exT exC : ℂ)‖ ∧ ‖(1 : ℂ) * (euclid exT exC : ℂ)‖ ≤ 3 ∧
        ∀ s ∈ _, euclid exT exC < euclid exS exC ∧ 1 / 10 ^ 15 ≤ ‖(1 : ℂ) * (euclid exS exC : ℂ)‖
      rw [ex_dist.1, ex_dist.2]
      norm_num)
  obtain ⟨o', h, _⟩ := h id exSched (exSched_ok 1) o
  exact ⟨o', h⟩

/-- The hypotheses of `C83_abort_refuted` are met. -/
example (o : TsOut) : evalTsLocals { exArgs 200 with qbxCenters := [0] }
    [(0, .center 0), (0, .target 4), (0, .load 0), (0, .add 0), (0, .store 4)] o = .fail .abort := by
  refine (C83_abort_refuted { exArgs 200 with qbxCenters := [0] } rfl ?_ 0 4 [] rfl rfl (fun _ => 0) _ ?_ o).1 ?_ ?_
  · simp [TsArgs.needPre, TsArgs.helmS, TsArgs.kZero, exArgs]
  · intro tid
    match tid with
    | 0 => rfl
    | n + 1 => rfl
  · show 129 ≤ ‖(200 : ℂ) * (euclid exT exC : ℂ)‖
    rw [ex_dist.2]
    norm_num
  · show 3 < 129
    norm_num

end Verif.Ts
