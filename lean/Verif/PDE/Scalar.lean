import Verif.PDE.Expr

/-!
# The scalar boundary value problem operators

Model of `pytential/symbolic/pde/scalar.py:68-553`: `L2WeightedPDEOperator`,
`DirichletOperator` and `NeumannOperator`.
-/

namespace Verif.PDE

variable {K A N : Type} [Field K] [DecidableEq K]

/-- attributes of a Dirichlet or Neumann operator (`scalar.py:224-238`, `:374-393`);
`improved` (`use_improved_operator`) is used by the Neumann operator only -/
structure ScalarOp (K A : Type) where
  base : KBase
  dim : Nat
  locSign : Side
  alpha : K
  weighted : Bool
  improved : Bool
  kargs : Args A

/-- the default for `alpha` (`scalar.py:250-267`, `:411-417`): `1j` for Helmholtz, else 0 -/
def defaultAlpha (imag : K) (base : KBase) : K :=
  match base with
  | .helmholtz => imag
  | _ => 0

/-- `DirichletOperator(kernel, loc_sign, ...)` and `NeumannOperator(kernel, loc_sign, ...)`
(`scalar.py:240-273`, `:395-426`): `alpha=None` selects the default;
`use_l2_weighting=False`, `use_improved_operator=True` and no kernel arguments are the
defaults of the other keywords -/
def mkScalarOp (imag : K) (base : KBase) (dim : Nat) (locSign : Side)
    (alpha : Option K := none) (weighted : Bool := false) (improved : Bool := true)
    (kargs : Args A := []) : ScalarOp K A :=
  { base := base, dim := dim, locSign := locSign,
    alpha := alpha.getD (defaultAlpha imag base),
    weighted := weighted, improved := improved, kargs := kargs }

/-- the kernel as an (underived) scalar kernel -/
def ScalarOp.kernel (o : ScalarOp K A) : Kernel := ⟨o.base, o.dim, []⟩

/-- `get_sqrt_weight` (`scalar.py:134-143`) -/
def ScalarOp.sqrtWeight (o : ScalarOp K A) (dd : DD) : Expr K A :=
  if o.weighted then .sqrtW dd else .num 1

/-- `prepare_rhs` (`scalar.py:145-149`): the weight of the default discretization -/
def ScalarOp.prepareRhs (o : ScalarOp K A) (b : Expr K A) : Expr K A :=
  .mul (o.sqrtWeight none) b

/-- `u/sqrt_w` (`scalar.py:289-290`, `:327-328`, `:454-455`, `:487-488`) -/
def ScalarOp.invSqrtW (o : ScalarOp K A) (dd : DD) (u : Expr K A) : Expr K A :=
  .quot u (o.sqrtWeight dd)

/-- the term added for problems unique only up to a constant (`scalar.py:340-344`,
`:539-543`) -/
def onesContribution (unique : Bool) (dd : DD) (e : Expr K A) : Expr K A :=
  if unique then .mul (.ones dd) (.mean dd e) else .num 0

/-- `-0.5 * loc_sign` -/
def ScalarOp.half (o : ScalarOp K A) : K := - (1 / 2) * o.locSign.sgn

/-! ### Dirichlet -/

/-- `DirichletOperator.is_unique_only_up_to_constant` (`scalar.py:275-278`) -/
def ScalarOp.dirUnique (o : ScalarOp K A) : Bool :=
  o.base = .laplace && o.locSign = .plus

/-- `DirichletOperator.representation` (`scalar.py:280-313`) -/
def ScalarOp.dirRepr (o : ScalarOp K A) (u : Expr K A)
    (mp : Expr K A → Py (Expr K A)) (lim : Limit) (src tgt : DD) (kwargs : Args A) :
    Py (Expr K A) := do
  let v := o.invSqrtW src u
  let args := o.kargs.merge kwargs
  let s ← symS o.kernel args lim src tgt v
  let d ← symD o.kernel args lim src tgt v
  return ((← mp s).scale o.alpha).sub (← mp d)

/-- `DirichletOperator.operator` (`scalar.py:315-365`).  The merged dictionary of
`:320-322` is not used by the inner functions `S` and `D` (`:346-356`), which pass
`self.kernel_arguments`. -/
def ScalarOp.dirOp (o : ScalarOp K A) (u : Expr K A) (dd : DD) (_kwargs : Args A) :
    Py (Expr K A) := do
  let v := o.invSqrtW dd u
  let ones := onesContribution o.dirUnique dd v
  let s ← symS o.kernel o.kargs (.side .plus) dd dd v
  let d ← symD o.kernel o.kargs .avg dd dd v
  return .add (.mul (.num o.half) u)
    (.mul (o.sqrtWeight dd) (.add ((s.scale o.alpha).sub d) ones))

/-! ### Neumann -/

/-- `NeumannOperator.is_unique_only_up_to_constant` (`scalar.py:428-430`) -/
def ScalarOp.neuUnique (o : ScalarOp K A) : Bool :=
  o.base = .laplace && o.locSign = .minus

/-- `NeumannOperator.representation` (`scalar.py:432-471`).  The density of the double
layer is a single layer with `target=target` (`:456-460`). -/
def ScalarOp.neuRepr (o : ScalarOp K A) (u : Expr K A)
    (mp : Expr K A → Py (Expr K A)) (lim : Limit) (src tgt : DD) (kwargs : Args A) :
    Py (Expr K A) := do
  let args := o.kargs.merge kwargs
  let v := o.invSqrtW src u
  let s0 ← symS (laplaceKernel o.dim) [] (.side .plus) src tgt v
  let s ← symS o.kernel args lim src tgt v
  let d ← symD o.kernel args lim src tgt s0
  return (← mp s).sub ((← mp d).scale o.alpha)

/-- the value used for `D' S₀` in the improved operator (`scalar.py:501-526`):
`-0.25 * u + Sp(Sp(inv_sqrt_w_u))` corrected by the difference of the two `D'` for
Helmholtz; other kernels raise `ValueError` -/
def ScalarOp.improvedDpS0 (o : ScalarOp K A) (u : Expr K A) (dd : DD) (args : Args A)
    (v s0 : Expr K A) : Py (Expr K A) := do
  let sp1 ← symSp (laplaceKernel o.dim) [] .avg dd dd v
  let sp2 ← symSp (laplaceKernel o.dim) [] .avg dd dd sp1
  let dp0s0 := Expr.add (.mul (.num (-(1 / 4))) u) sp2
  match o.base with
  | .helmholtz =>
    let dp0 ← symDp o.kernel args (.side .plus) dd dd s0
    let dp1 ← symDp (laplaceKernel o.dim) [] (.side .plus) dd dd s0
    return .add (dp0.sub dp1) dp0s0
  | .laplace => return dp0s0
  | _ => .error "no improved operator known"

/-- `DpS0u` of `NeumannOperator.operator` (`scalar.py:501-531`) -/
def ScalarOp.dpS0 (o : ScalarOp K A) (u : Expr K A) (dd : DD) (args : Args A)
    (v s0 : Expr K A) : Py (Expr K A) :=
  if o.improved then o.improvedDpS0 u dd args v s0
  else symDp o.kernel args (.side .plus) dd dd s0

/-- `NeumannOperator.operator` (`scalar.py:473-553`) -/
def ScalarOp.neuOp (o : ScalarOp K A) (u : Expr K A) (dd : DD) (kwargs : Args A) :
    Py (Expr K A) := do
  let args := o.kargs.merge kwargs
  let v := o.invSqrtW dd u
  let s0 ← symS (laplaceKernel o.dim) [] (.side .plus) dd dd v
  let dps0 ← o.dpS0 u dd args v s0
  let ones := onesContribution o.neuUnique dd v
  let sp ← symSp o.kernel args .avg dd dd v
  return .add (.mul (.num o.half) u)
    (.mul (o.sqrtWeight dd) (.add (sp.sub (dps0.scale o.alpha)) ones))

end Verif.PDE
