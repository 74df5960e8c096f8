import Verif.PDE.ScalarProps
import Verif.Linalg.GmresKrylov
import Mathlib.Analysis.InnerProductSpace.PiL2

/-!
# What a converged solve says about the boundary data (C93)

The way a boundary value problem is solved with pytential: `operator(u)` of a
`DirichletOperator` or `NeumannOperator` (`pytential/symbolic/pde/scalar.py`, model in
`Verif.PDE.Scalar`) is the left hand side, `prepare_rhs(b)` the right hand side, `gmres`
(`pytential/linalg/gmres.py`, model in `Verif.Linalg.Gmres`) the solver, and the solution is
evaluated with `representation(u)`.

Arithmetic is exact (with NaN after a division by zero), numbers are complex.
-/

namespace Verif.Solve

open Verif.PDE Verif.Gmres

variable {A N : Type} [Fintype N]

/-! ## Specification -/

/-- the quadrature `L²` norm: weights `w`, values `f` -/
noncomputable def l2 (w : N → ℝ) (f : N → ℂ) : ℝ := Real.sqrt (∑ n, w n * ‖f n‖ ^ 2)

/-- the same world with other values for one variable -/
def withVar (I : Interp ℂ A N) (v : String) (x : N → ℂ) : Interp ℂ A N :=
  { I with vars := fun s => if s = v then x else I.vars s }

/-- layer potentials and means are linear in the density -/
structure LinearWorld (I : Interp ℂ A N) : Prop where
  pot_add : ∀ p s (f g : N → ℂ) n, I.bdry p s (fun m => f m + g m) n = I.bdry p s f n + I.bdry p s g n
  pot_smul : ∀ p s (c : ℂ) (f : N → ℂ) n, I.bdry p s (fun m => c * f m) n = c * I.bdry p s f n
  mean_add : ∀ dd (f g : N → ℂ), I.mean dd (fun m => f m + g m) = I.mean dd f + I.mean dd g
  mean_smul : ∀ dd (c : ℂ) (f : N → ℂ), I.mean dd (fun m => c * f m) = c * I.mean dd f

/-- the weights in which the error is measured: the quadrature weights with `use_l2_weighting`,
ones without -/
def errWeight (o : ScalarOp ℂ A) (w : N → ℝ) : N → ℝ := fun n => if o.weighted then w n else 1

/-! ## Proofs -/

theorem withVar_jumps {I : Interp ℂ A N} {k : Kernel} {dd : DD} (J : Jumps I k dd) (v : String)
    (x : N → ℂ) : Jumps (withVar I v x) k dd := ⟨J.sl, J.dl, J.slp, J.dlp⟩

theorem withVar_wt (I : Interp ℂ A N) (o : ScalarOp ℂ A) (dd : DD) (v : String) (x : N → ℂ) :
    wt (withVar I v x) o dd = wt I o dd := rfl

/-- the mean added for problems unique only up to a constant -/
noncomputable def meanTerm (I : Interp ℂ A N) (o : ScalarOp ℂ A) (bad : Bool) (x : N → ℂ) : ℂ :=
  if bad then I.mean none (fun m => x m / wt I o none m) else 0

theorem div_add' (I : Interp ℂ A N) (o : ScalarOp ℂ A) (x y : N → ℂ) :
    (fun m => (x m + y m) / wt I o none m) = fun m => x m / wt I o none m + y m / wt I o none m := by
  funext m; exact add_div _ _ _

theorem div_smul' (I : Interp ℂ A N) (o : ScalarOp ℂ A) (c : ℂ) (x : N → ℂ) :
    (fun m => (c * x m) / wt I o none m) = fun m => c * (x m / wt I o none m) := by
  funext m; exact mul_div_assoc _ _ _

theorem meanTerm_add {I : Interp ℂ A N} (L : LinearWorld I) (o : ScalarOp ℂ A) (bad : Bool)
    (x y : N → ℂ) : meanTerm I o bad (fun m => x m + y m) = meanTerm I o bad x + meanTerm I o bad y := by
  unfold meanTerm
  cases bad
  · simp
  · simp only [if_true]
    rw [div_add', L.mean_add]

theorem meanTerm_smul {I : Interp ℂ A N} (L : LinearWorld I) (o : ScalarOp ℂ A) (bad : Bool)
    (c : ℂ) (x : N → ℂ) : meanTerm I o bad (fun m => c * x m) = c * meanTerm I o bad x := by
  unfold meanTerm
  cases bad
  · simp
  · simp only [if_true]
    rw [div_smul', L.mean_smul]

/-- value of the Dirichlet representation on the boundary -/
noncomputable def dirTrace (I : Interp ℂ A N) (o : ScalarOp ℂ A) (x : N → ℂ) (n : N) : ℂ :=
  o.alpha * I.bdry (slp o.kernel o.kargs none false) o.locSign (fun m => x m / wt I o none m) n
    - I.bdry (dlp o.kernel o.kargs none false) o.locSign (fun m => x m / wt I o none m) n

/-- value of the normal derivative of the Neumann representation on the boundary -/
noncomputable def neuTrace (I : Interp ℂ A N) (o : ScalarOp ℂ A) (x : N → ℂ) (n : N) : ℂ :=
  I.bdry (slp o.kernel o.kargs none true) o.locSign (fun m => x m / wt I o none m) n
    - o.alpha * I.bdry (dlp o.kernel o.kargs none true) o.locSign
        (I.bdry (slp (laplaceKernel o.dim) [] none false) .plus (fun m => x m / wt I o none m)) n

theorem dirTrace_add {I : Interp ℂ A N} (L : LinearWorld I) (o : ScalarOp ℂ A) (x y : N → ℂ) (n : N) :
    dirTrace I o (fun m => x m + y m) n = dirTrace I o x n + dirTrace I o y n := by
  unfold dirTrace
  rw [div_add', L.pot_add, L.pot_add]
  ring

theorem dirTrace_smul {I : Interp ℂ A N} (L : LinearWorld I) (o : ScalarOp ℂ A) (c : ℂ) (x : N → ℂ)
    (n : N) : dirTrace I o (fun m => c * x m) n = c * dirTrace I o x n := by
  unfold dirTrace
  rw [div_smul', L.pot_smul, L.pot_smul]
  ring

theorem neuTrace_add {I : Interp ℂ A N} (L : LinearWorld I) (o : ScalarOp ℂ A) (x y : N → ℂ) (n : N) :
    neuTrace I o (fun m => x m + y m) n = neuTrace I o x n + neuTrace I o y n := by
  unfold neuTrace
  rw [div_add', L.pot_add]
  have h : I.bdry (slp (laplaceKernel o.dim) [] none false) .plus
      (fun m => x m / wt I o none m + y m / wt I o none m) = fun m =>
        I.bdry (slp (laplaceKernel o.dim) [] none false) .plus (fun m => x m / wt I o none m) m
        + I.bdry (slp (laplaceKernel o.dim) [] none false) .plus (fun m => y m / wt I o none m) m := by
    funext m; exact L.pot_add _ _ _ _ _
  rw [h, L.pot_add]
  ring

theorem neuTrace_smul {I : Interp ℂ A N} (L : LinearWorld I) (o : ScalarOp ℂ A) (c : ℂ) (x : N → ℂ)
    (n : N) : neuTrace I o (fun m => c * x m) n = c * neuTrace I o x n := by
  unfold neuTrace
  rw [div_smul', L.pot_smul]
  have h : I.bdry (slp (laplaceKernel o.dim) [] none false) .plus
      (fun m => c * (x m / wt I o none m)) = fun m => c *
        I.bdry (slp (laplaceKernel o.dim) [] none false) .plus (fun m => x m / wt I o none m) m := by
    funext m; exact L.pot_smul _ _ _ _ _
  rw [h, L.pot_smul]
  ring

/-- a map that is additive and homogeneous, as a linear map of the Euclidean space -/
theorem exists_linear (F : (N → ℂ) → N → ℂ)
    (hadd : ∀ x y n, F (fun m => x m + y m) n = F x n + F y n)
    (hsmul : ∀ (c : ℂ) x n, F (fun m => c * x m) n = c * F x n) :
    ∃ T : EuclideanSpace ℂ N →ₗ[ℂ] EuclideanSpace ℂ N, ∀ x n, T x n = F (fun m => x m) n := by
  refine ⟨{ toFun := fun x => WithLp.toLp 2 (F (fun m => x m)), map_add' := ?_, map_smul' := ?_ }, ?_⟩
  · intro x y
    ext n
    exact hadd _ _ n
  · intro c x
    ext n
    exact hsmul c _ n
  · intro x n
    rfl

/-- value of the operator of a Dirichlet problem -/
theorem dir_value (I : Interp ℂ A N) (o : ScalarOp ℂ A) (J : Jumps I ⟨o.base, o.dim, []⟩ none)
    (hw : ∀ n, wt I o none n ≠ 0) (ha : ArgsOK o.base o.kargs) (e r : Expr ℂ A)
    (he : o.dirOp (.var "u") none [] = .ok e)
    (hr : o.dirRepr (.var "u") .ok (.side o.locSign) none none [] = .ok r) (x : N → ℂ) (n : N) :
    (withVar I "u" x).eval r n = dirTrace I o x n ∧
    (withVar I "u" x).eval e n = wt I o none n * (dirTrace I o x n
      + meanTerm I o (o.base = .laplace && o.locSign = .plus) x) := by
  have h1 : (withVar I "u" x).eval r n = dirTrace I o x n := by
    have h := dirRepr_eq o (.var "u") (.side o.locSign) none ha
    rw [hr] at h
    cases h
    simp only [Interp.eval, eval_sub, eval_scale, eval_inv]
    simp only [Interp.pot, dirTrace, withVar, if_true]
    rfl
  refine ⟨h1, ?_⟩
  obtain ⟨e', r', he', hr', hv⟩ := C60_dirichlet_partial (by norm_num) (withVar I "u" x) o none (.var "u")
    (withVar_jumps J _ _) hw ha
  rw [he] at he'
  rw [hr] at hr'
  cases he'
  cases hr'
  have := hv n
  rw [h1] at this
  rw [this]
  unfold meanTerm
  simp only [Interp.eval, withVar, if_true, Bool.and_eq_true, decide_eq_true_eq]
  rfl

/-- value of the operator of a Neumann problem -/
theorem neu_value (I : Interp ℂ A N) (o : ScalarOp ℂ A) (J : Jumps I ⟨o.base, o.dim, []⟩ none)
    (C : Calderon I o.dim none)
    (hw : ∀ n, wt I o none n ≠ 0) (ha : ArgsOK o.base o.kargs)
    (hi : o.improved = false ∨ o.weighted = false ∨ o.alpha = 0) (e r : Expr ℂ A)
    (he : o.neuOp (.var "u") none [] = .ok e)
    (hr : o.neuRepr (.var "u") (normalDerivative none) (.side o.locSign) none none [] = .ok r)
    (x : N → ℂ) (n : N) :
    (withVar I "u" x).eval r n = neuTrace I o x n ∧
    (withVar I "u" x).eval e n = wt I o none n * (neuTrace I o x n
      + meanTerm I o (o.base = .laplace && o.locSign = .minus) x) := by
  have h1 : (withVar I "u" x).eval r n = neuTrace I o x n := by
    have h := neuRepr_eq o (.var "u") (.side o.locSign) none ha
    rw [hr] at h
    cases h
    simp only [Interp.eval, eval_sub, eval_scale, eval_inv]
    simp only [Interp.pot, neuTrace, withVar, if_true]
    rfl
  refine ⟨h1, ?_⟩
  obtain ⟨r', hr', hv⟩ := C60_neumann_partial (by norm_num) (withVar I "u" x) o none (.var "u") e
    (withVar_jumps J _ _) C hw ha hi he
  rw [hr] at hr'
  cases hr'
  have := hv n
  rw [h1] at this
  rw [this]
  unfold meanTerm
  simp only [Interp.eval, withVar, if_true, Bool.and_eq_true, decide_eq_true_eq]
  rfl

/-- the square root of a positive weight -/
theorem wt_eq (I : Interp ℂ A N) (o : ScalarOp ℂ A) (w : N → ℝ) (hw : ∀ n, 0 < w n)
    (hs : ∀ n, I.sqrtW none n = (Real.sqrt (w n) : ℂ)) (n : N) :
    wt I o none n ≠ 0 ∧ ‖wt I o none n‖ ^ 2 = errWeight o w n := by
  unfold wt errWeight
  cases o.weighted
  · simp
  · simp only [if_true, hs]
    refine ⟨?_, ?_⟩
    · have := Real.sqrt_pos.2 (hw n)
      exact_mod_cast this.ne'
    · rw [Complex.norm_real, Real.norm_eq_abs, sq_abs, Real.sq_sqrt (hw n).le]

/-- a vector `√w f` has the weighted norm of `f` as its Euclidean norm -/
theorem norm_weighted (I : Interp ℂ A N) (o : ScalarOp ℂ A) (w : N → ℝ) (hw : ∀ n, 0 < w n)
    (hs : ∀ n, I.sqrtW none n = (Real.sqrt (w n) : ℂ)) (v : EuclideanSpace ℂ N) (f : N → ℂ)
    (hv : ∀ n, v n = wt I o none n * f n) : ‖v‖ = l2 (errWeight o w) f := by
  rw [EuclideanSpace.norm_eq, l2]
  congr 1
  refine Finset.sum_congr rfl fun n _ => ?_
  rw [hv, norm_mul, mul_pow, (wt_eq I o w hw hs n).2]

/-- the core: what success of GMRES means for a system `x ↦ √w F(x)`, `√w b` -/
theorem solve_core (I : Interp ℂ A N) (o : ScalarOp ℂ A) (w : N → ℝ) (hw : ∀ n, 0 < w n)
    (hs : ∀ n, I.sqrtW none n = (Real.sqrt (w n) : ℂ)) (F : (N → ℂ) → N → ℂ) (b : N → ℂ)
    (T : EuclideanSpace ℂ N →ₗ[ℂ] EuclideanSpace ℂ N)
    (hT : ∀ x n, T x n = wt I o none n * F (fun m => x m) n)
    (rhs : EuclideanSpace ℂ N) (hb : ∀ n, rhs n = wt I o none n * b n)
    (p : Params (Option ℝ)) (x0 : Option (EuclideanSpace ℂ N))
    (res : Result (Option (EuclideanSpace ℂ N)) (Option ℝ))
    (h : (gmres (ipOps T) p (some rhs) (x0.map some)).ending = .returned res)
    (hok : res.success = true) :
    ∃ x : EuclideanSpace ℂ N, res.solution = some x ∧
      ((∃ t, p.tol = some t ∧ l2 (errWeight o w) (fun n => F (fun m => x m) n - b n)
          < t * l2 (errWeight o w) b) ∨ ∀ n, F (fun m => x m) n = b n) := by
  obtain ⟨x, hx, hc⟩ := C27_breakdown T (fun x y => inner ℂ x y) (codeNorm ℂ)
    (fun n => ((1 / n : ℝ) : ℂ)) p rhs x0 res h hok
  refine ⟨x, hx, ?_⟩
  have hr : codeNorm ℂ (rhs - T x) = l2 (errWeight o w) (fun n => F (fun m => x m) n - b n) := by
    rw [codeNorm_eq, norm_sub_rev]
    refine norm_weighted I o w hw hs _ _ fun n => ?_
    rw [PiLp.sub_apply, hT, hb]
    ring
  have hbn : codeNorm ℂ rhs = l2 (errWeight o w) b := by
    rw [codeNorm_eq]
    exact norm_weighted I o w hw hs _ _ hb
  rcases hc with ⟨t, ht, hlt⟩ | h0
  · left
    refine ⟨t, ht, ?_⟩
    rw [← hr, ← hbn]
    exact hlt
  · right
    intro n
    rw [codeNorm_eq, norm_eq_zero, sub_eq_zero] at h0
    have := congrArg (fun v : EuclideanSpace ℂ N => v n) h0
    simp only [hT, hb] at this
    exact (mul_left_cancel₀ (wt_eq I o w hw hs n).1 this).symm

/-! ## The theorems -/

/-- **C93.**  The operators of both boundary value problems are linear in the density, so that
`gmres` is applied to a linear operator. -/
theorem C93_linear (I : Interp ℂ A N) (L : LinearWorld I) (o : ScalarOp ℂ A)
    (J : Jumps I ⟨o.base, o.dim, []⟩ none) (hw : ∀ n, wt I o none n ≠ 0)
    (ha : ArgsOK o.base o.kargs) (e : Expr ℂ A)
    (he : o.dirOp (.var "u") none [] = .ok e ∨
      (o.neuOp (.var "u") none [] = .ok e ∧ Calderon I o.dim none ∧
        (o.improved = false ∨ o.weighted = false ∨ o.alpha = 0))) :
    ∃ T : EuclideanSpace ℂ N →ₗ[ℂ] EuclideanSpace ℂ N,
      ∀ x n, T x n = (withVar I "u" (fun m => x m)).eval e n := by
  rcases he with he | ⟨he, C, hi⟩
  · have hr := dirRepr_eq o (.var "u") (.side o.locSign) none ha
    have hv := fun x n => (dir_value I o J hw ha e _ he hr x n).2
    refine exists_linear (fun x n => (withVar I "u" x).eval e n) ?_ ?_
    · intro x y n
      simp only [hv, dirTrace_add L, meanTerm_add L]
      ring
    · intro c x n
      simp only [hv, dirTrace_smul L, meanTerm_smul L]
      ring
  · have hr := neuRepr_eq o (.var "u") (.side o.locSign) none ha
    have hv := fun x n => (neu_value I o J C hw ha hi e _ he hr x n).2
    refine exists_linear (fun x n => (withVar I "u" x).eval e n) ?_ ?_
    · intro x y n
      simp only [hv, neuTrace_add L, meanTerm_add L]
      ring
    · intro c x n
      simp only [hv, neuTrace_smul L, meanTerm_smul L]
      ring

/-- **C93, Dirichlet.**  If GMRES reports success on `operator(u) = prepare_rhs(b)`, the boundary
value of the represented field (with the mean of the density added for the exterior Laplace
problem) differs from the data `b` by less than `tol` relative to `b`, in the quadrature `L²` norm
with `use_l2_weighting` and in the Euclidean norm of the nodal values without — or not at all. -/
theorem C93_dirichlet (I : Interp ℂ A N) (o : ScalarOp ℂ A) (w : N → ℝ) (hw : ∀ n, 0 < w n)
    (hs : ∀ n, I.sqrtW none n = (Real.sqrt (w n) : ℂ))
    (J : Jumps I ⟨o.base, o.dim, []⟩ none) (ha : ArgsOK o.base o.kargs) (e r : Expr ℂ A)
    (he : o.dirOp (.var "u") none [] = .ok e)
    (hr : o.dirRepr (.var "u") .ok (.side o.locSign) none none [] = .ok r)
    (T : EuclideanSpace ℂ N →ₗ[ℂ] EuclideanSpace ℂ N)
    (hT : ∀ x n, T x n = (withVar I "u" (fun m => x m)).eval e n)
    (rhs : EuclideanSpace ℂ N) (hb : ∀ n, rhs n = I.eval (o.prepareRhs (.var "b")) n)
    (p : Params (Option ℝ)) (x0 : Option (EuclideanSpace ℂ N))
    (res : Result (Option (EuclideanSpace ℂ N)) (Option ℝ))
    (h : (gmres (ipOps T) p (some rhs) (x0.map some)).ending = .returned res)
    (hok : res.success = true) :
    ∃ x : EuclideanSpace ℂ N, res.solution = some x ∧ ∀ f : N → ℂ,
      (∀ n, f n = (withVar I "u" (fun m => x m)).eval r n
        + if o.base = .laplace ∧ o.locSign = .plus
          then I.mean none (fun m => x m / wt I o none m) else 0) →
      (∃ t, p.tol = some t ∧ l2 (errWeight o w) (fun n => f n - I.vars "b" n)
          < t * l2 (errWeight o w) (I.vars "b")) ∨ ∀ n, f n = I.vars "b" n := by
  have hw0 := fun n => (wt_eq I o w hw hs n).1
  have hv := fun x n => dir_value I o J hw0 ha e r he hr x n
  obtain ⟨x, hx, hc⟩ := solve_core I o w hw hs
    (fun x n => dirTrace I o x n + meanTerm I o (o.base = .laplace && o.locSign = .plus) x)
    (I.vars "b") T (fun x n => by rw [hT, (hv _ n).2]) rhs
    (fun n => by rw [hb]; simp only [ScalarOp.prepareRhs, Interp.eval, eval_weight]) p x0 res h hok
  refine ⟨x, hx, fun f hf => ?_⟩
  have hff : f = fun n => dirTrace I o (fun m => x m) n
      + meanTerm I o (o.base = .laplace && o.locSign = .plus) (fun m => x m) := by
    funext n
    rw [hf, (hv _ n).1]
    unfold meanTerm
    simp only [Bool.and_eq_true, decide_eq_true_eq]
  rw [hff]
  exact hc

/-- **C93, Neumann.**  The same for the normal derivative, as far as the Neumann operator is the
boundary value of its representation (C60). -/
theorem C93_neumann_partial (I : Interp ℂ A N) (o : ScalarOp ℂ A) (w : N → ℝ) (hw : ∀ n, 0 < w n)
    (hs : ∀ n, I.sqrtW none n = (Real.sqrt (w n) : ℂ))
    (J : Jumps I ⟨o.base, o.dim, []⟩ none) (C : Calderon I o.dim none)
    (hi : o.improved = false ∨ o.weighted = false ∨ o.alpha = 0)
    (ha : ArgsOK o.base o.kargs) (e r : Expr ℂ A)
    (he : o.neuOp (.var "u") none [] = .ok e)
    (hr : o.neuRepr (.var "u") (normalDerivative none) (.side o.locSign) none none [] = .ok r)
    (T : EuclideanSpace ℂ N →ₗ[ℂ] EuclideanSpace ℂ N)
    (hT : ∀ x n, T x n = (withVar I "u" (fun m => x m)).eval e n)
    (rhs : EuclideanSpace ℂ N) (hb : ∀ n, rhs n = I.eval (o.prepareRhs (.var "b")) n)
    (p : Params (Option ℝ)) (x0 : Option (EuclideanSpace ℂ N))
    (res : Result (Option (EuclideanSpace ℂ N)) (Option ℝ))
    (h : (gmres (ipOps T) p (some rhs) (x0.map some)).ending = .returned res)
    (hok : res.success = true) :
    ∃ x : EuclideanSpace ℂ N, res.solution = some x ∧ ∀ f : N → ℂ,
      (∀ n, f n = (withVar I "u" (fun m => x m)).eval r n
        + if o.base = .laplace ∧ o.locSign = .minus
          then I.mean none (fun m => x m / wt I o none m) else 0) →
      (∃ t, p.tol = some t ∧ l2 (errWeight o w) (fun n => f n - I.vars "b" n)
          < t * l2 (errWeight o w) (I.vars "b")) ∨ ∀ n, f n = I.vars "b" n := by
  have hw0 := fun n => (wt_eq I o w hw hs n).1
  have hv := fun x n => neu_value I o J C hw0 ha hi e r he hr x n
  obtain ⟨x, hx, hc⟩ := solve_core I o w hw hs
    (fun x n => neuTrace I o x n + meanTerm I o (o.base = .laplace && o.locSign = .minus) x)
    (I.vars "b") T (fun x n => by rw [hT, (hv _ n).2]) rhs
    (fun n => by rw [hb]; simp only [ScalarOp.prepareRhs, Interp.eval, eval_weight]) p x0 res h hok
  refine ⟨x, hx, fun f hf => ?_⟩
  have hff : f = fun n => neuTrace I o (fun m => x m) n
      + meanTerm I o (o.base = .laplace && o.locSign = .minus) (fun m => x m) := by
    funext n
    rw [hf, (hv _ n).1]
    unfold meanTerm
    simp only [Bool.and_eq_true, decide_eq_true_eq]
  rw [hff]
  exact hc

/-! ## Examples -/

/-- potentials on two nodes that satisfy the jump relations and the Calderón identity: multiples of
the density -/
noncomputable def exPot (p : Pot Unit) (s : Side) : ℂ :=
  match p.kernel.sderivs, p.dn with
  | [], none => 1 / 2
  | [], some _ => - (1 / 2) * s.sgn
  | _ :: _, none => 1 / 2 * s.sgn
  | _ :: _, some _ => - (1 / 2)

/-- a world with two nodes, quadrature weights 1 and 10000 and data `b = (1, 0)` -/
noncomputable def exI : Interp ℂ Unit (Fin 2) where
  vars := fun s n => if s = "b" ∧ n = 0 then 1 else 0
  sqrtW := fun _ n => if n = 0 then 1 else 100
  mean := fun _ f => (f 0 + f 1) / 2
  bdry := fun p s f n => exPot p s * f n
  off := fun _ _ _ => 0

theorem exI_linear : LinearWorld exI where
  pot_add := by intro p s f g n; simp only [exI]; ring
  pot_smul := by intro p s c f n; simp only [exI]; ring
  mean_add := by intro dd f g; simp only [exI]; ring
  mean_smul := by intro dd c f; simp only [exI]; ring

theorem exI_jumps : Jumps exI ⟨.laplace, 2, []⟩ none where
  sl := by intro a f n; simp [exI, exPot, slp]
  dl := by intro a f n; simp [exI, exPot, dlp, Side.sgn]; ring
  slp := by intro a f n; simp [exI, exPot, slp, Side.sgn]; ring
  dlp := by intro a f n; simp [exI, exPot, dlp]

theorem exI_calderon : Calderon exI 2 none := by
  intro f n
  simp [exI, exPot, slp, dlp, Interp.pot, laplaceKernel, Side.sgn]
  ring

/-- example: two positive quadrature weights of very different size -/
noncomputable def exW : Fin 2 → ℝ := fun n => if n = 0 then 1 else 10000

theorem exW_pos (n : Fin 2) : 0 < exW n := by
  unfold exW
  split <;> norm_num

theorem exW_sqrt (n : Fin 2) : exI.sqrtW none n = (Real.sqrt (exW n) : ℂ) := by
  unfold exW exI
  simp only
  split
  · simp
  · have : Real.sqrt 10000 = 100 := by
      rw [show (10000 : ℝ) = 100 ^ 2 by norm_num, Real.sqrt_sq (by norm_num)]
    rw [this]
    norm_num

/-- interior Laplace problem -/
noncomputable def exO (weighted : Bool) : ScalarOp ℂ Unit :=
  mkScalarOp Complex.I .laplace 2 .minus (weighted := weighted)

/-- the value of its operator: half the density -/
theorem ex_value (wtd : Bool) (e : Expr ℂ Unit) (he : (exO wtd).dirOp (.var "u") none [] = .ok e)
    (x : Fin 2 → ℂ) (n : Fin 2) : (withVar exI "u" x).eval e n = 1 / 2 * x n := by
  have hw0 : ∀ n, wt exI (exO wtd) none n ≠ 0 := fun n => (wt_eq exI (exO wtd) exW exW_pos exW_sqrt n).1
  have h := (dir_value exI (exO wtd) exI_jumps hw0 laplace_argsOK e _ he
    (dirRepr_eq (exO wtd) (.var "u") (.side (exO wtd).locSign) none laplace_argsOK) x n).2
  rw [h]
  have h0 := hw0 n
  have ha : (exO wtd).alpha = 0 := by simp [exO, mkScalarOp, defaultAlpha]
  have hb : ∀ (f : Fin 2 → ℂ) n,
      exI.bdry (dlp (exO wtd).kernel (exO wtd).kargs none false) (exO wtd).locSign f n = -(1 / 2) * f n := by
    intro f n
    simp [exI, exPot, dlp, ScalarOp.kernel, exO, mkScalarOp, Side.sgn]
  have hm : meanTerm exI (exO wtd) (decide ((exO wtd).base = KBase.laplace)
      && decide ((exO wtd).locSign = Side.plus)) x = 0 := by
    simp [meanTerm, exO, mkScalarOp]
  rw [hm, dirTrace, ha, hb]
  field_simp
  ring

/-- **C93 is not vacuous**: on the example `gmres` succeeds, so that the theorem applies. -/
theorem ex_success (wtd : Bool) : ∃ e r : Expr ℂ Unit,
    (exO wtd).dirOp (.var "u") none [] = .ok e ∧
    (exO wtd).dirRepr (.var "u") .ok (.side (exO wtd).locSign) none none [] = .ok r ∧
    ∃ T : EuclideanSpace ℂ (Fin 2) →ₗ[ℂ] EuclideanSpace ℂ (Fin 2),
      (∀ x n, T x n = (withVar exI "u" (fun m => x m)).eval e n) ∧
      ∀ rhs, ∃ res, (gmres (ipOps T) (Vdot.fillDefaults 2 {}) (some rhs) none).ending = .returned res
        ∧ res.success = true := by
  refine ⟨_, _, dirOp_eq (exO wtd) (.var "u") none [] laplace_argsOK,
    dirRepr_eq (exO wtd) (.var "u") _ none laplace_argsOK, ?_⟩
  obtain ⟨T, hT⟩ := C93_linear exI exI_linear (exO wtd) exI_jumps
    (fun n => (wt_eq exI (exO wtd) exW exW_pos exW_sqrt n).1) laplace_argsOK _
    (Or.inl (dirOp_eq (exO wtd) (.var "u") none [] laplace_argsOK))
  refine ⟨T, hT, fun rhs => ?_⟩
  have hT' : ∀ v, T v = (1 / 2 : ℂ) • v := by
    intro v
    ext n
    rw [hT, ex_value wtd _ (dirOp_eq (exO wtd) (.var "u") none [] laplace_argsOK)]
    rfl
  have hd : Definite T := by
    intro v hv
    rw [hT', inner_smul_right]
    exact mul_ne_zero (by norm_num) (by simpa using hv)
  obtain ⟨res, h1, h2, _⟩ := C80_defaults_partial T hd 2 (by simp) (by norm_num) (by norm_num) rhs none
  exact ⟨res, h1, h2⟩

/-- a starting vector that passes the convergence test is returned -/
theorem gmres_start {V : Type} [NormedAddCommGroup V] [InnerProductSpace ℂ V] (T : V →ₗ[ℂ] V)
    (p : Params (Option ℝ)) (hm : 0 < p.maxiter) (t : ℝ) (ht : p.tol = some t) (b x : V)
    (h : ‖b - T x‖ < t * ‖b‖) :
    ∃ res, (gmres (ipOps T) p (some b) (some (some x))).ending = .returned res ∧ res.success = true ∧
      res.solution = some x := by
  obtain ⟨m, hm⟩ : ∃ m, p.maxiter = m + 1 := ⟨p.maxiter - 1, by omega⟩
  have hc : converged (ipOps T) p (some b) ((ipOps T).norm (some (b - T x))) = true := by
    simp only [converged, ipOps, nanOps, Option.map_some, Option.map₂_some_some, ht, codeNorm_eq]
    simp [h]
  unfold gmres
  rw [hm]
  unfold loop
  simp only
  have hr : (top (ipOps T) p (some b) (initial (ipOps T) p (some b) (some (some x)))).2.r
      = some (b - T x) := by
    simp [top, initial, ipOps, nanOps]
  rw [hr, hc]
  exact ⟨_, rfl, rfl, rfl⟩

/-- **C93 needs the weighting**: without `use_l2_weighting`, success with tolerance `1/5` does not
bound the relative error in the `L²` norm — here it is 10. -/
theorem C93_unweighted_refuted : ∃ (I : Interp ℂ Unit (Fin 2)) (o : ScalarOp ℂ Unit) (w : Fin 2 → ℝ)
    (e r : Expr ℂ Unit) (T : EuclideanSpace ℂ (Fin 2) →ₗ[ℂ] EuclideanSpace ℂ (Fin 2))
    (rhs x0 : EuclideanSpace ℂ (Fin 2)) (p : Params (Option ℝ))
    (res : Result (Option (EuclideanSpace ℂ (Fin 2))) (Option ℝ)),
    o.weighted = false ∧ (∀ n, 0 < w n) ∧ (∀ n, I.sqrtW none n = (Real.sqrt (w n) : ℂ)) ∧
    Jumps I ⟨o.base, o.dim, []⟩ none ∧
    o.dirOp (.var "u") none [] = .ok e ∧
    o.dirRepr (.var "u") .ok (.side o.locSign) none none [] = .ok r ∧
    (∀ x n, T x n = (withVar I "u" (fun m => x m)).eval e n) ∧
    (∀ n, rhs n = I.eval (o.prepareRhs (.var "b")) n) ∧
    (gmres (ipOps T) p (some rhs) (some (some x0))).ending = .returned res ∧
    res.success = true ∧ p.tol = some (1 / 5) ∧ res.solution = some x0 ∧
    l2 w (fun n => (withVar I "u" (fun m => x0 m)).eval r n - I.vars "b" n) = 10 ∧
    l2 w (I.vars "b") = 1 := by
  have hw0 := fun n => (wt_eq exI (exO false) exW exW_pos exW_sqrt n).1
  obtain ⟨e, he⟩ : ∃ e, (exO false).dirOp (.var "u") none [] = .ok e :=
    ⟨_, dirOp_eq (exO false) (.var "u") none [] laplace_argsOK⟩
  obtain ⟨r, hr⟩ : ∃ r, (exO false).dirRepr (.var "u") .ok (.side (exO false).locSign) none none [] = .ok r :=
    ⟨_, dirRepr_eq (exO false) (.var "u") (.side (exO false).locSign) none laplace_argsOK⟩
  obtain ⟨T, hT⟩ := C93_linear exI exI_linear (exO false) exI_jumps hw0 laplace_argsOK _ (Or.inl he)
  have hT' : ∀ v n, T v n = (1 / 2 : ℂ) * v n := by
    intro v n
    rw [hT, ex_value false _ he]
  have hv := fun x n => dir_value exI (exO false) exI_jumps hw0 laplace_argsOK _ _ he hr x n
  have htr : ∀ (x : Fin 2 → ℂ) n, (withVar exI "u" x).eval r n = (1 / 2 : ℂ) * x n := by
    intro x n
    have h2 := (hv x n).2
    rw [ex_value false _ he, ← (hv x n).1] at h2
    simp only [wt, exO, mkScalarOp, meanTerm] at h2
    simp at h2
    rw [← one_div] at h2
    exact h2.symm
  let x0 : EuclideanSpace ℂ (Fin 2) := WithLp.toLp 2 ![2, 1 / 5]
  let rhs : EuclideanSpace ℂ (Fin 2) := WithLp.toLp 2 ![1, 0]
  let p : Params (Option ℝ) := ⟨2, some (1 / 5), 5, false, true, some (5 / 4), 0⟩
  have hn : ‖rhs - T x0‖ < 1 / 5 * ‖rhs‖ := by
    rw [EuclideanSpace.norm_eq, EuclideanSpace.norm_eq]
    simp only [Fin.sum_univ_two, PiLp.sub_apply, hT']
    simp only [x0, rhs, Matrix.cons_val_zero, Matrix.cons_val_one]
    norm_num
    rw [show (100 : ℝ) = 10 ^ 2 by norm_num, Real.sqrt_sq (by norm_num)]
    norm_num
  obtain ⟨res, h1, h2, h3⟩ := gmres_start T p (by norm_num [p]) (1 / 5) rfl rhs x0 hn
  refine ⟨exI, exO false, exW, e, r, T, rhs, x0, p, res, rfl, exW_pos, exW_sqrt, exI_jumps, he, hr, hT,
    ?_, h1, h2, rfl, h3, ?_, ?_⟩
  · intro n
    simp only [ScalarOp.prepareRhs, Interp.eval, ScalarOp.sqrtWeight, exO, mkScalarOp, exI, rhs]
    fin_cases n <;> simp [Interp.eval]
  · have hf : (fun n => (withVar exI "u" (fun m => x0 m)).eval r n - exI.vars "b" n)
        = ![0, 1 / 10] := by
      funext n
      rw [htr]
      fin_cases n
      · simp [x0, exI]
      · simp [x0, exI]; norm_num
    rw [hf]
    simp only [l2, Fin.sum_univ_two, exW]
    norm_num
    rw [show (100 : ℝ) = 10 ^ 2 by norm_num, Real.sqrt_sq (by norm_num)]
  · simp only [l2, Fin.sum_univ_two, exW, exI]
    norm_num

end Verif.Solve
