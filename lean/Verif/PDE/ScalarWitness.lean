import Verif.PDE.ScalarProps

/-!
# C60: where the claim fails, and that the hypotheses can be met
-/

namespace Verif.PDE

/-- the value of the user argument `k` (1 when there is none) -/
def kOf (a : Args ℚ) : ℚ :=
  match a.get "k" with
  | some (.user x) => x
  | _ => 1

/-- A one-node interpretation satisfying the jump relations and the Calderón identity:
`S` multiplies by `k`, `D` and `S'` have zero average, `D'` multiplies by `-1/4`. -/
def toy (w : ℚ) : Interp ℚ ℚ Unit where
  vars _ _ := 1
  sqrtW _ _ := w
  mean _ f := f ()
  bdry p s f n :=
    if p.kernel.sderivs = [] then
      if p.dn.isNone then kOf p.args * f n else - (s.sgn * f n / 2)
    else
      if p.dn.isNone then s.sgn * f n / 2 else - f n / 4
  off _ f n := f n

theorem toy_jumps (w : ℚ) (b : KBase) (dim : Nat) (dd : DD) :
    Jumps (toy w) ⟨b, dim, []⟩ dd := by
  constructor
  · intro args f n
    simp [toy, slp]
  · intro args f n
    simp [toy, dlp, Side.sgn]
    ring
  · intro args f n
    simp [toy, slp, Side.sgn]
    ring
  · intro args f n
    simp [toy, dlp]

theorem toy_calderon (w : ℚ) (dim : Nat) (dd : DD) : Calderon (toy w) dim dd := by
  intro f n
  simp [toy, slp, dlp, laplaceKernel, Interp.pot, Side.sgn, kOf, Args.get]
  ring

/-- exterior Helmholtz Dirichlet operator with `k = 1`, combined field with `alpha = 1` -/
def exDir : ScalarOp ℚ ℚ :=
  mkScalarOp 1 .helmholtz 2 .plus (weighted := true) (kargs := [("k", .user 1)])

theorem exDir_args : ArgsOK exDir.base exDir.kargs := by
  constructor
  · intro n hn
    simp [exDir, mkScalarOp, KBase.argNames] at hn
    subst hn
    exact ⟨.user 1, by simp [exDir, mkScalarOp]⟩
  · intro p hp
    simp [exDir, mkScalarOp] at hp
    subst hp
    simp [exDir, mkScalarOp, KBase.argNames]

/-- the hypotheses of the Dirichlet theorems are met by a weighted exterior Helmholtz
problem with a nonzero density -/
example : ∃ e r, exDir.dirOp (.var "u") none [] = .ok e
    ∧ exDir.dirRepr (.var "u") .ok (.side .plus) none none [] = .ok r
    ∧ (toy 2).eval e () = 2 * ((toy 2).eval r () + 0) := by
  obtain ⟨e, r, he, hr, h⟩ := C60_dirichlet_partial (by norm_num) (toy 2) exDir none
    (.var "u") (toy_jumps 2 _ _ _) (by simp [wt, exDir, mkScalarOp, toy]) exDir_args
  refine ⟨e, r, he, hr, ?_⟩
  have := h ()
  simpa [wt, exDir, mkScalarOp, toy] using this

/-- … and of the Neumann theorems -/
example : ∃ e r, (mkScalarOp (A := ℚ) (1 : ℚ) .laplace 3 .minus (alpha := some 1)).neuOp
      (.var "u") none [] = .ok e
    ∧ (mkScalarOp (A := ℚ) (1 : ℚ) .laplace 3 .minus (alpha := some 1)).neuRepr (.var "u")
        (normalDerivative none) (.side .minus) none none [] = .ok r
    ∧ (toy 2).eval e () = (toy 2).eval r () + 1 := by
  obtain ⟨e, he⟩ := (C60_neumann_built
    (mkScalarOp (A := ℚ) (1 : ℚ) .laplace 3 .minus (alpha := some 1)) (.var "u") none []).2
    ⟨laplace_argsOK, fun _ => Or.inl rfl⟩
  obtain ⟨r, hr, h⟩ := C60_neumann_partial (by norm_num) (toy 2) _ none (.var "u") e
    (toy_jumps 2 _ _ _) (toy_calderon 2 _ _) (by simp [wt, mkScalarOp]) laplace_argsOK
    (Or.inr (Or.inl rfl)) he
  refine ⟨e, r, he, hr, ?_⟩
  have := h ()
  simpa [wt, mkScalarOp, toy, Interp.eval] using this

/-- **C60 fails for keyword arguments (Dirichlet).**  `DirichletOperator.operator` ignores
its keyword arguments: with `k` overridden in the call, operator and representation use
different wave numbers. -/
theorem C60_dirichlet_kwargs_refuted :
    ¬ ∀ (I : Interp ℚ ℚ Unit) (o : ScalarOp ℚ ℚ) (dd : DD) (u e r : Expr ℚ ℚ)
      (kw : Args ℚ), Jumps I ⟨o.base, o.dim, []⟩ dd → (∀ n, wt I o dd n ≠ 0) →
      ArgsOK o.base o.kargs → ArgsOK o.base (o.kargs.merge kw) →
      o.dirOp u dd kw = .ok e →
      o.dirRepr u .ok (.side o.locSign) dd dd kw = .ok r →
      ∀ n, I.eval e n = wt I o dd n * (I.eval r n
          + if o.base = .laplace ∧ o.locSign = .plus
            then I.mean dd (fun m => I.eval u m / wt I o dd m) else 0) := by
  intro h
  have h2 : ArgsOK exDir.base (exDir.kargs.merge [("k", .user 2)]) := by
    have hm : exDir.kargs.merge [("k", .user 2)] = [("k", .user (2 : ℚ))] := by
      decide +kernel
    rw [hm]
    constructor
    · intro n hn
      simp [exDir, mkScalarOp, KBase.argNames] at hn
      subst hn
      exact ⟨_, List.mem_singleton.2 rfl⟩
    · intro p hp
      simp at hp
      subst hp
      simp [exDir, mkScalarOp, KBase.argNames]
  have := h (toy 2) exDir none (.var "u") _ _ [("k", .user 2)] (toy_jumps 2 _ _ _)
    (by simp [wt, exDir, mkScalarOp, toy]) exDir_args h2 rfl rfl ()
  revert this
  decide +kernel

/-- … and with `k` supplied by keyword only, `representation` is built while `operator`
raises. -/
theorem C60_dirichlet_kwargs_missing_refuted :
    (∃ r, (mkScalarOp (1 : ℚ) .helmholtz 2 .plus).dirRepr (.var "u") .ok
        (.side .plus) none none [("k", .user (2 : ℚ))] = .ok r)
    ∧ ∀ e, (mkScalarOp (1 : ℚ) .helmholtz 2 .plus).dirOp (.var "u") none
        [("k", .user (2 : ℚ))] ≠ .ok e := by
  refine ⟨⟨_, rfl⟩, ?_⟩
  intro e he
  cases he

/-- **C60 fails for the improved Neumann operator with weighting**: the `-u/4` of the
Calderón identity is not divided by the square root of the weight. -/
theorem C60_neumann_weight_refuted :
    ¬ ∀ (I : Interp ℚ ℚ Unit) (o : ScalarOp ℚ ℚ) (dd : DD) (u e r : Expr ℚ ℚ),
      Jumps I ⟨o.base, o.dim, []⟩ dd → Calderon I o.dim dd → (∀ n, wt I o dd n ≠ 0) →
      ArgsOK o.base o.kargs →
      o.neuOp u dd [] = .ok e →
      o.neuRepr u (normalDerivative dd) (.side o.locSign) dd dd [] = .ok r →
      ∀ n, I.eval e n = wt I o dd n * (I.eval r n
          + if o.base = .laplace ∧ o.locSign = .minus
            then I.mean dd (fun m => I.eval u m / wt I o dd m) else 0) := by
  intro h
  have := h (toy 2)
    (mkScalarOp 1 .laplace 2 .plus (alpha := some 1) (weighted := true)) none (.var "u") _ _
    (toy_jumps 2 _ _ _) (toy_calderon 2 _ _) (by simp [wt, mkScalarOp, toy])
    laplace_argsOK rfl rfl ()
  revert this
  decide +kernel

/-- **C60 fails for the Neumann representation at an explicit target**: whenever `alpha`
is not zero and target and source are different geometries, the returned expression
contains a potential from the source to the target with limit `+1`, which is rejected
when the expression is bound — for every kernel, density and argument. -/
theorem C60_neumann_target_refuted {K A : Type} [Field K] [DecidableEq K]
    (o : ScalarOp K A) (u r : Expr K A)
    (src tgt : DD) (kw : Args A) (hne : src ≠ tgt) (ha : o.alpha ≠ 0)
    (hr : o.neuRepr u .ok .none src tgt kw = .ok r) : ¬ r.AllPots LimitOK := by
  unfold ScalarOp.neuRepr at hr
  simp only [laplaceKernel, ScalarOp.kernel] at hr
  rw [(symS_ok_iff _ _ _ _ _ _ _ _).2 ⟨laplace_argsOK, rfl⟩] at hr
  simp only [bind, Except.bind] at hr
  cases hs : symS ⟨o.base, o.dim, []⟩ (o.kargs.merge kw) .none src tgt (o.invSqrtW src u) with
  | error m =>
    rw [hs] at hr
    cases hr
  | ok x =>
    obtain ⟨hS, rfl⟩ := (symS_ok_iff _ _ _ _ _ _ _ _).1 hs
    rw [hs] at hr
    simp only at hr
    rw [symD_ok _ _ _ _ _ _ _ hS] at hr
    cases hr
    intro hall
    unfold Expr.scale at hall
    rw [if_neg ha] at hall
    obtain ⟨_, _, _, _, hbad, _⟩ := hall
    rcases hbad with h | h
    · exact hne h.1
    · exact absurd h.2 (by simp)

/-- the situation of `C60_neumann_target_refuted` is one a caller can be in -/
example : ∃ r, (mkScalarOp (1 : ℚ) .helmholtz 2 .plus
    (kargs := [("k", .user (2 : ℚ))])).neuRepr (.var "u") .ok .none (some "qbx")
      (some "targets") [] = .ok r := ⟨_, rfl⟩

/-- **C60 fails for the default Neumann operator of a Yukawa kernel**, which the class
documentation lists as supported: with the defaults (`alpha = 0`,
`use_improved_operator=True`) `operator` always raises, although the improved operator is
documented to be used only when `alpha` is not zero. -/
theorem C60_neumann_yukawa_refuted {K A : Type} [Field K] [DecidableEq K] (imag : K)
    (dim : Nat) (s : Side) (w : Bool) (kargs : Args A) (u : Expr K A) (dd : DD)
    (kw : Args A) :
    (mkScalarOp imag .yukawa dim s (weighted := w) (kargs := kargs)).alpha = 0
    ∧ ∀ e, (mkScalarOp imag .yukawa dim s (weighted := w) (kargs := kargs)).neuOp u dd kw
      ≠ .ok e := by
  refine ⟨rfl, ?_⟩
  intro e he
  have h := (C60_neumann_built _ u dd kw).1 ⟨e, he⟩
  rcases h.2 rfl with h | h <;> cases h

end Verif.PDE
