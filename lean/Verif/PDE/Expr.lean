import Mathlib.Tactic.Common
import Mathlib.Tactic.Ring
import Mathlib.Tactic.LinearCombination
import Mathlib.Tactic.FieldSimp
import Mathlib.Tactic.NormNum
import Mathlib.Tactic.Linarith
import Mathlib.Algebra.Field.Basic
import Mathlib.Algebra.Field.Rat
import Mathlib.Algebra.Ring.Rat
import Mathlib.Algebra.Module.LinearMap.Defs

/-!
# Symbolic potentials as they are built by `pytential.sym`, and their meaning

The fragment of the symbolic language the operators of `pytential/symbolic/pde/` are
written in, the constructors `sym.S`, `sym.D`, `sym.Sp`, `sym.Dp`
(`pytential/symbolic/primitives.py:2119-2459`) with the argument check of
`IntG.__post_init__` (`primitives.py:2060-2082`), and the value of such an expression.

Simplifications: common subexpressions (`sym.cse`) are transparent (property C08);
scalar densities only; a direction vector handed to a kernel is either supplied by the
user, or the normal (or rotated normal) of some discretization; `±2` limits do not
occur in these modules.
-/

namespace Verif.PDE

/-- the base kernels of `sumpy.kernel` that the operators distinguish; any other kernel
is `other` with the names of the arguments it takes -/
inductive KBase where
  | laplace | helmholtz | yukawa | biharmonic
  | other (name : String) (args : List String)
deriving DecidableEq, Repr

/-- `Kernel.get_args()`: names of the arguments of the kernel (sumpy: `k` for Helmholtz,
`lam` for Yukawa) -/
def KBase.argNames : KBase → List String
  | .laplace => []
  | .helmholtz => ["k"]
  | .yukawa => ["lam"]
  | .biharmonic => []
  | .other _ a => a

/-- a scalar kernel: base, ambient dimension and the names of the direction vectors of
the `DirectionalSourceDerivative`s wrapped around it, outermost first -/
structure Kernel where
  base : KBase
  dim : Nat
  sderivs : List String
deriving DecidableEq, Repr

/-- a side of the surface (`pytential/symbolic/primitives.py`, `Side`) -/
inductive Side where | minus | plus
deriving DecidableEq, Repr

/-- the values of `qbx_forced_limit` used in `pytential/symbolic/pde/`: `±1`, `"avg"`,
`None` (`primitives.py:1926-1946`) -/
inductive Limit where | side (s : Side) | avg | none
deriving DecidableEq, Repr

/-- a DOF descriptor as passed by the user: `None` is the default descriptor
(`pytential/symbolic/dof_desc.py`, `as_dofdesc`), otherwise a named discretization -/
abbrev DD := Option String

/-- the value of a kernel argument: supplied by the user, or a direction vector built by
pytential from the normal of a discretization -/
inductive Arg (A : Type) where
  | user (a : A)
  | normal (dd : DD)
  | tangent (dd : DD)
deriving DecidableEq, Repr

/-- a `dict` of kernel arguments -/
abbrev Args (A : Type) := List (String × Arg A)

/-- dictionary lookup -/
def Args.get {A} (a : Args A) (k : String) : Option (Arg A) := a.lookup k

/-- `{**a, **b}` -/
def Args.merge {A} (a b : Args A) : Args A :=
  b ++ a.filter (fun p => (b.lookup p.1).isNone)

/-- one layer potential (`IntG` with a single source kernel, `primitives.py:1886-2082`),
up to its limit and its density.  `dn` is the discretization whose normal the target
derivative is taken along, if there is one. -/
structure Pot (A : Type) where
  kernel : Kernel
  args : Args A
  src : DD
  tgt : DD
  dn : Option DD
deriving DecidableEq, Repr

/-- expressions.  `sqrtW dd` is `sym.sqrt_jac_q_weight(dim, dofdesc=dd)`
(`primitives.py:902-915`); `mean dd e` is `sym.mean(dim, dim-1, e, dofdesc=dd)`
(`primitives.py:1767-1774`). -/
inductive Expr (K A : Type) where
  | var (name : String)
  | num (c : K)
  | sqrtW (dd : DD)
  | ones (dd : DD)
  | add (a b : Expr K A)
  | mul (a b : Expr K A)
  | quot (a b : Expr K A)
  | mean (dd : DD) (e : Expr K A)
  | pot (p : Pot A) (lim : Limit) (density : Expr K A)

/-- a Python computation that may raise `ValueError` -/
abbrev Py (α : Type) := Except String α

variable {K A N : Type}

/-- `-e` (pymbolic represents it as `-1 * e`) -/
def Expr.neg [Field K] (e : Expr K A) : Expr K A := .mul (.num (-1)) e

/-- `a - b` -/
def Expr.sub [Field K] (a b : Expr K A) : Expr K A := .add a b.neg

/-- `c * e` for a number `c`: pymbolic returns `0` when `c` is zero, so that `e`
disappears from the expression (`pymbolic.primitives.Expression.__rmul__`) -/
def Expr.scale [Field K] [DecidableEq K] (c : K) (e : Expr K A) : Expr K A :=
  if c = 0 then .num 0 else .mul (.num c) e

/-- names of the arguments a kernel must be given: its own and one per directional
source derivative (`primitives.py:2065-2069`) -/
def Kernel.argNames (k : Kernel) : List String := k.base.argNames ++ k.sderivs

/-- `IntG(...)` (`primitives.py:1961-2082`) as called by `int_g_vec` (`:2216-2268`):
raises unless exactly the arguments of the kernel are supplied -/
def mkIntG (p : Pot A) (lim : Limit) (density : Expr K A) : Py (Expr K A) :=
  if ¬ p.kernel.argNames.all (fun n => (p.args.get n).isSome) then
    .error "Kernel argument(s) not supplied"
  else if ¬ p.args.all (fun q => p.kernel.argNames.contains q.1) then
    .error "Kernel argument(s) not recognized"
  else .ok (.pot p lim density)

/-- `sym.S` (`primitives.py:2271-2288`) -/
def symS (k : Kernel) (args : Args A) (lim : Limit) (src tgt : DD) (density : Expr K A) :
    Py (Expr K A) :=
  mkIntG ⟨k, args, src, tgt, none⟩ lim density

/-- `_insert_source_derivative_into_kernel` (`primitives.py:2119-2128`): the new
derivative is the innermost one -/
def insertSourceDerivative (k : Kernel) : Kernel :=
  { k with sderivs := k.sderivs ++ ["dsource_vec"] }

/-- `sym.D` (`primitives.py:2394-2425`) through `int_g_dsource` (`:2167-2209`): the
direction vector is the normal of the *source* -/
def symD (k : Kernel) (args : Args A) (lim : Limit) (src tgt : DD) (density : Expr K A) :
    Py (Expr K A) :=
  mkIntG ⟨insertSourceDerivative k, args.merge [("dsource_vec", .normal src)], src, tgt, none⟩
    lim density

/-- `sym.normal_derivative(dim, e, dofdesc=dd)` (`primitives.py:2307-2316`) of a single
layer potential (`DerivativeTaker.map_int_g`, `mappers.py:600-640`).  Anything that is
not an underived potential is out of scope of this model. -/
def normalDerivative (dd : DD) : Expr K A → Py (Expr K A)
  | .pot ⟨k, a, s, t, none⟩ lim d => .ok (.pot ⟨k, a, s, t, some dd⟩ lim d)
  | _ => .error "not a potential"

/-- `sym.Sp` (`primitives.py:2334-2361`): derivative along the normal of the target -/
def symSp (k : Kernel) (args : Args A) (lim : Limit) (src tgt : DD) (density : Expr K A) :
    Py (Expr K A) := do
  normalDerivative tgt (← symS k args lim src tgt density)

/-- `sym.Dp` (`primitives.py:2428-2459`) -/
def symDp (k : Kernel) (args : Args A) (lim : Limit) (src tgt : DD) (density : Expr K A) :
    Py (Expr K A) := do
  normalDerivative tgt (← symD k args lim src tgt density)

/-! ## Meaning -/

/-- What the symbols stand for: values of variables at the nodes, square roots of the
quadrature weights of each discretization, the mean over each discretization, and, for
each potential, its boundary values from either side and its values away from the
surface. -/
structure Interp (K A N : Type) where
  vars : String → N → K
  sqrtW : DD → N → K
  mean : DD → (N → K) → K
  bdry : Pot A → Side → (N → K) → N → K
  off : Pot A → (N → K) → N → K

variable [Field K]

/-- value of a potential: the mean of both sides for `"avg"` (`QBXPreprocessor.map_int_g`,
`mappers.py:876-879`, property C13) -/
def Interp.pot (I : Interp K A N) (p : Pot A) : Limit → (N → K) → N → K
  | .side s, f => I.bdry p s f
  | .avg, f => fun n => (I.bdry p .plus f n + I.bdry p .minus f n) / 2
  | .none, f => I.off p f

/-- value of an expression at a node -/
def Interp.eval (I : Interp K A N) : Expr K A → N → K
  | .var v, n => I.vars v n
  | .num c, _ => c
  | .sqrtW dd, n => I.sqrtW dd n
  | .ones _, _ => 1
  | .add a b, n => I.eval a n + I.eval b n
  | .mul a b, n => I.eval a n * I.eval b n
  | .quot a b, n => I.eval a n / I.eval b n
  | .mean dd e, _ => I.mean dd (I.eval e)
  | .pot p lim d, n => I.pot p lim (I.eval d) n

/-- ± as a number -/
def Side.sgn [Field K] : Side → K
  | .plus => 1
  | .minus => -1

theorem eval_neg (I : Interp K A N) (e : Expr K A) (n : N) :
    I.eval e.neg n = - I.eval e n := by
  simp [Expr.neg, Interp.eval]

theorem eval_sub (I : Interp K A N) (a b : Expr K A) (n : N) :
    I.eval (a.sub b) n = I.eval a n - I.eval b n := by
  simp [Expr.sub, Interp.eval, eval_neg, sub_eq_add_neg]

theorem eval_scale [DecidableEq K] (I : Interp K A N) (c : K) (e : Expr K A) (n : N) :
    I.eval (e.scale c) n = c * I.eval e n := by
  unfold Expr.scale
  by_cases h : c = 0
  · simp [h, Interp.eval]
  · simp [h, Interp.eval]

/-! ## The potential theory the operators rely on -/

/-- the single layer potential of a kernel, on the surface `dd`, possibly with a target
derivative along the normal of that surface -/
def slp (k : Kernel) (args : Args A) (dd : DD) (dn : Bool) : Pot A :=
  ⟨k, args, dd, dd, if dn then some dd else none⟩

/-- the double layer potential of a kernel on the surface `dd`: source derivative along
the normal of that surface -/
def dlp (k : Kernel) (args : Args A) (dd : DD) (dn : Bool) : Pot A :=
  ⟨⟨k.base, k.dim, k.sderivs ++ ["dsource_vec"]⟩,
   ("dsource_vec", .normal dd) :: args.filter (fun p => p.1 != "dsource_vec"),
   dd, dd, if dn then some dd else none⟩

/-- The jump relations of potential theory for a kernel on the surface `dd` (with the
outward normal): the double layer potential jumps by the density, the normal derivative
of the single layer by minus the density, the other two are continuous. -/
structure Jumps (I : Interp K A N) (k : Kernel) (dd : DD) : Prop where
  sl : ∀ args f n, I.bdry (slp k args dd false) .plus f n
    = I.bdry (slp k args dd false) .minus f n
  dl : ∀ args f n, I.bdry (dlp k args dd false) .plus f n
    - I.bdry (dlp k args dd false) .minus f n = f n
  slp : ∀ args f n, I.bdry (slp k args dd true) .plus f n
    - I.bdry (slp k args dd true) .minus f n = - f n
  dlp : ∀ args f n, I.bdry (dlp k args dd true) .plus f n
    = I.bdry (dlp k args dd true) .minus f n

/-- the Laplace kernel -/
def laplaceKernel (dim : Nat) : Kernel := ⟨.laplace, dim, []⟩

/-- The Calderón identity for the Laplace kernel on the surface `dd`:
`D' S = -1/4 + S'²`, with `S'` the average of both sides. -/
def Calderon (I : Interp K A N) (dim : Nat) (dd : DD) : Prop :=
  ∀ f n,
    I.bdry (dlp (laplaceKernel dim) [] dd true) .plus
        (I.bdry (Verif.PDE.slp (laplaceKernel dim) [] dd false) .plus f) n
      = - f n / 4
        + I.pot (Verif.PDE.slp (laplaceKernel dim) [] dd true) .avg
            (I.pot (Verif.PDE.slp (laplaceKernel dim) [] dd true) .avg f) n

/-- every potential in an expression satisfies a predicate -/
def Expr.AllPots (P : Pot A → Limit → Prop) : Expr K A → Prop
  | .var _ | .num _ | .sqrtW _ | .ones _ => True
  | .add a b | .mul a b | .quot a b => a.AllPots P ∧ b.AllPots P
  | .mean _ e => e.AllPots P
  | .pot p lim d => P p lim ∧ d.AllPots P

/-- the rule of `QBXPreprocessor.map_int_g` (`mappers.py:848-879`, property C12) for a
potential with both ends on an explicit geometry: `±1` and `avg` exactly when the source
is the target -/
def LimitOK (p : Pot A) (lim : Limit) : Prop :=
  (p.src = p.tgt ∧ lim ≠ .none) ∨ (p.src ≠ p.tgt ∧ lim = .none)

end Verif.PDE
