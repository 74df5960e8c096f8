import Mathlib.Tactic.Common
import Mathlib.Tactic.Ring
import Mathlib.Tactic.LinearCombination
import Mathlib.Tactic.FieldSimp
import Mathlib.Tactic.NormNum
import Mathlib.Algebra.Field.Basic
import Mathlib.Algebra.Field.Rat
import Mathlib.Algebra.Ring.Rat
import Verif.PDE.Expr

/-!
# Beltrami operators (C62)

Model of `pytential/symbolic/pde/beltrami.py`.  The functions there build symbolic
expressions from layer potentials on the default geometry; here they compute the values of
those expressions at the nodes (that a bound expression evaluates to its value is property
C01).  `I.G k ds args m lim f` is the layer potential with kernel `k` (differentiated along
the source normal if `ds`), with `m` target derivatives along the normal and limit `lim`.
-/

namespace Verif.Beltrami

open Verif.PDE (Side Limit)

/-- the kernels: Laplace, or another scalar kernel with the names of its arguments
(sumpy: `HelmholtzKernel(dim, helmholtz_k_name)`, `YukawaKernel(dim, yukawa_lambda_name)`) -/
inductive Knl where
  | laplace (dim : Nat)
  | helmholtz (dim : Nat) (kName : String)
  | yukawa (dim : Nat) (kName : String)
  | other (name : String) (dim : Nat) (args : List String)
deriving DecidableEq, Repr

/-- `Kernel.dim` -/
def Knl.dim : Knl → Nat
  | .laplace d | .helmholtz d _ | .yukawa d _ | .other _ d _ => d

/-- names of `Kernel.get_args()` -/
def Knl.argNames : Knl → List String
  | .laplace _ => []
  | .helmholtz _ k | .yukawa _ k => [k]
  | .other _ _ a => a

/-- `isinstance(kernel, LaplaceKernel)` -/
def Knl.isLaplace : Knl → Bool
  | .laplace _ => true
  | _ => false

/-- values at the nodes -/
abbrev Val (K N : Type) := N → K

/-- a `dict` of kernel arguments -/
abbrev KArgs (K N : Type) := List (String × Val K N)

/-- `d1.copy()` followed by `.update(d2)` (`beltrami.py:172-173`) -/
def update {K N : Type} (a b : KArgs K N) : KArgs K N :=
  b ++ a.filter (fun p => (b.lookup p.1).isNone)

/-- what the symbols stand for -/
structure Interp (K N : Type) where
  G : Knl → Bool → KArgs K N → Nat → Limit → Val K N → Val K N
  var : String → Val K N
  meanCurv : Nat → Nat → Val K N
  integral : Nat → Nat → Val K N → K

/-- `ValueError`, `TypeError` -/
inductive Exc where | value | type
deriving DecidableEq, Repr

/-- a Python computation that may raise -/
abbrev Py (α : Type) := Except Exc α

variable {K N : Type} [Field K]

/-- `IntG(...)` with the check of its arguments (`primitives.py:2060-2076`).  For a source
derivative, `int_g_dsource` (`:2192-2206`) first puts the normal into the argument
`dsource_vec`, replacing an argument of that name. -/
def intG (I : Interp K N) (k : Knl) (ds : Bool) (args : KArgs K N) (m : Nat) (lim : Limit)
    (f : Val K N) : Py (Val K N) :=
  let args' := if ds then args.filter (fun p => p.1 != "dsource_vec") else args
  if ¬ k.argNames.all (fun a => (args'.lookup a).isSome) then .error .value
  else if ¬ args'.all (fun p => k.argNames.contains p.1) then .error .value
  else .ok (I.G k ds args' m lim f)

/-- `sym.S` (`primitives.py:2271-2288`) -/
def S (I : Interp K N) (k : Knl) (lim : Limit) (args : KArgs K N) := intG I k false args 0 lim
/-- `sym.Sp` (`primitives.py:2334-2361`) -/
def Sp (I : Interp K N) (k : Knl) (lim : Limit) (args : KArgs K N) := intG I k false args 1 lim
/-- `sym.Spp` (`primitives.py:2364-2391`) -/
def Spp (I : Interp K N) (k : Knl) (lim : Limit) (args : KArgs K N) := intG I k false args 2 lim
/-- `sym.D` (`primitives.py:2394-2425`) -/
def D (I : Interp K N) (k : Knl) (lim : Limit) (args : KArgs K N) := intG I k true args 0 lim
/-- `sym.Dp` (`primitives.py:2428-2459`) -/
def Dp (I : Interp K N) (k : Knl) (lim : Limit) (args : KArgs K N) := intG I k true args 1 lim

/-- attributes of an operator object (`beltrami.py:102-105`) -/
structure Op (K N : Type) where
  kernel : Knl
  dim : Nat
  precond : String
  kernelArguments : KArgs K N

/-- `BeltramiOperator.__init__` (`beltrami.py:88-105`) -/
def mkOp (kernel : Knl) (dim : Option Nat) (precond : String)
    (kernelArguments : Option (KArgs K N)) : Py (Op K N) :=
  if ¬ (precond = "left" ∨ precond = "right") then .error .value
  else .ok ⟨kernel, dim.getD (kernel.dim - 1), precond, kernelArguments.getD []⟩

/-- `LaplaceBeltramiOperator.__init__` (`beltrami.py:232-239`) -/
def mkLaplace (ambientDim : Nat) (dim : Option Nat) (precond : String) : Py (Op K N) :=
  mkOp (.laplace ambientDim) dim precond none

/-- `YukawaBeltramiOperator.__init__` (`beltrami.py:314-324`) -/
def mkYukawa (I : Interp K N) (ambientDim : Nat) (dim : Option Nat) (precond kName : String) :
    Py (Op K N) :=
  mkOp (.yukawa ambientDim kName) dim precond (some [(kName, I.var kName)])

/-- `HelmholtzBeltramiOperator.__init__` (`beltrami.py:343-353`) -/
def mkHelmholtz (I : Interp K N) (ambientDim : Nat) (dim : Option Nat) (precond kName : String) :
    Py (Op K N) :=
  mkOp (.helmholtz ambientDim kName) dim precond (some [(kName, I.var kName)])

/-- `prepare_solution` (`beltrami.py:123-136`) -/
def prepareSolution (I : Interp K N) (o : Op K N) (σ : Val K N) : Py (Val K N) :=
  if o.precond = "left" then S I o.kernel (.side .plus) o.kernelArguments σ
  else do
    let a ← S I o.kernel (.side .plus) o.kernelArguments σ
    S I o.kernel (.side .plus) o.kernelArguments a

/-- `prepare_rhs` (`beltrami.py:138-150`) -/
def prepareRhs (I : Interp K N) (o : Op K N) (b : Val K N) : Py (Val K N) :=
  if o.precond = "left" then S I o.kernel (.side .plus) o.kernelArguments b
  else .ok b

/-- `kappa` (`beltrami.py:168-171`, `:251-254`) -/
def kappa (I : Interp K N) (o : Op K N) (mc : Option (Val K N)) : Val K N :=
  fun n => (o.dim : K) * (mc.getD (I.meanCurv o.kernel.dim o.dim)) n

/-- the left-preconditioned operator (`beltrami.py:193-202`) -/
def opLeft (I : Interp K N) (o : Op K N) (κ : Val K N) (context kw : KArgs K N) (σ : Val K N) :
    Py (Val K N) := do
  let lk := Knl.laplace o.kernel.dim
  let d ← D I lk .avg kw σ
  let dd ← D I lk .avg kw d
  let sp ← Sp I o.kernel .avg context σ
  let t3 ← S I o.kernel (.side .plus) context (fun n => κ n * sp n)
  let spp ← Spp I o.kernel .avg context σ
  let dp ← Dp I lk .avg kw σ
  let t4 ← S I o.kernel (.side .plus) context (fun n => spp n + dp n)
  let t5 ← S I o.kernel (.side .plus) context dp
  let t6 ← S I lk (.side .plus) kw dp
  .ok (fun n => σ n / 4 - dd n + t3 n + t4 n - t5 n + t6 n)

/-- the right-preconditioned operator (`beltrami.py:203-211`) -/
def opRight (I : Interp K N) (o : Op K N) (κ : Val K N) (context kw : KArgs K N) (σ : Val K N) :
    Py (Val K N) := do
  let lk := Knl.laplace o.kernel.dim
  let sp0 ← Sp I lk .avg kw σ
  let sp00 ← Sp I lk .avg kw sp0
  let s ← S I o.kernel (.side .plus) context σ
  let spp ← Spp I o.kernel .avg context s
  let dp ← Dp I lk .avg kw s
  let s0 ← S I lk (.side .plus) kw σ
  let t4 ← Dp I lk .avg kw (fun n => s n - s0 n)
  let sp ← Sp I o.kernel .avg context s
  .ok (fun n => σ n / 4 - sp00 n + (spp n + dp n) - t4 n + κ n * sp n)

/-- `BeltramiOperator.operator` (`beltrami.py:152-213`) -/
def operator (I : Interp K N) (o : Op K N) (σ : Val K N) (mc : Option (Val K N)) (kw : KArgs K N) :
    Py (Val K N) :=
  if o.kernel.isLaplace then .error .type
  else if o.precond = "left" then
    opLeft I o (kappa I o mc) (update o.kernelArguments kw) kw σ
  else opRight I o (kappa I o mc) (update o.kernelArguments kw) kw σ

/-- `Wl`, `Wr` (`beltrami.py:268-272`): `Ones() * integral(...)` -/
def W (I : Interp K N) (o : Op K N) (f : Val K N) : Val K N :=
  fun _ => 1 * I.integral o.kernel.dim o.dim f

/-- the left-preconditioned Laplace-Beltrami operator (`beltrami.py:276-284`) -/
def lapLeft (I : Interp K N) (o : Op K N) (κ : Val K N) (context : KArgs K N) (σ : Val K N) :
    Py (Val K N) := do
  let d ← D I o.kernel .avg context σ
  let dd ← D I o.kernel .avg context d
  let spp ← Spp I o.kernel .avg context σ
  let dp ← Dp I o.kernel .avg context σ
  let t3 ← S I o.kernel (.side .plus) context (fun n => spp n + dp n)
  let sp ← Sp I o.kernel .avg context σ
  let t4 ← S I o.kernel (.side .plus) context (fun n => κ n * sp n)
  let s ← S I o.kernel (.side .plus) context σ
  let t5 ← S I o.kernel (.side .plus) context (W I o s)
  .ok (fun n => σ n / 4 - dd n + t3 n + t4 n - t5 n)

/-- the right-preconditioned Laplace-Beltrami operator (`beltrami.py:285-293`) -/
def lapRight (I : Interp K N) (o : Op K N) (κ : Val K N) (context : KArgs K N) (σ : Val K N) :
    Py (Val K N) := do
  let sp0 ← Sp I o.kernel .avg context σ
  let sp00 ← Sp I o.kernel .avg context sp0
  let s ← S I o.kernel (.side .plus) context σ
  let spp ← Spp I o.kernel .avg context s
  let dp ← Dp I o.kernel .avg context s
  let sp ← Sp I o.kernel .avg context s
  let ss ← S I o.kernel (.side .plus) context s
  .ok (fun n => σ n / 4 - sp00 n + (spp n + dp n) + κ n * sp n + W I o ss n)

/-- `LaplaceBeltramiOperator.operator` (`beltrami.py:241-295`) -/
def laplaceOperator (I : Interp K N) (o : Op K N) (σ : Val K N) (mc : Option (Val K N))
    (kw : KArgs K N) : Py (Val K N) :=
  if o.precond = "left" then lapLeft I o (kappa I o mc) (update o.kernelArguments kw) σ
  else lapRight I o (kappa I o mc) (update o.kernelArguments kw) σ

end Verif.Beltrami
