import Mathlib.Tactic.Common
import Mathlib.Tactic.Ring
import Mathlib.Tactic.LinearCombination
import Mathlib.Tactic.FieldSimp
import Mathlib.Tactic.NormNum
import Mathlib.Algebra.Field.Basic
import Mathlib.Algebra.Field.Rat
import Mathlib.Algebra.Ring.Rat
import Verif.PDE.Expr

/-!
# Stokes flow operators

Model of `pytential/symbolic/stokes.py`.  The functions there build symbolic expressions
from layer potentials; here they compute the values of those expressions at the nodes
(that a bound expression evaluates to its value is property C01), so that
`sym.int_g_vec(kernel, density, qbx_forced_limit=lim, mu=mu)` is
`I.G kernel [] lim (some mu) density`, with the target derivatives taken
(`DerivativeTaker(i).map_int_g`) collected in the list argument, outermost first.
Dictionary and array indexing can fail, as in Python.
-/

namespace Verif.Stokes

open Verif.PDE (Side)

/-- the kernels used: components of Stokeslet and Stresslet, and Laplace
(`stokes.py:27-31`) -/
inductive SK where
  | stokeslet (dim i j : Nat)
  | stresslet (dim i j k : Nat)
  | laplace (dim : Nat)
deriving DecidableEq, Repr

/-- `qbx_forced_limit`: `±1`, `±2`, `"avg"`, `None` -/
inductive Lim where | on (s : Side) | near (s : Side) | avg | none
deriving DecidableEq, Repr

/-- values at the nodes -/
abbrev Val (K N : Type) := N → K

/-- what the layer potentials, surface integrals and the number π are -/
structure Interp (K N : Type) where
  G : SK → List Nat → Lim → Option (Val K N) → Val K N → Val K N
  integral : Val K N → K
  pi : K

/-- a Python computation that may raise -/
abbrev Py (α : Type) := Except String α

variable {K N : Type} [Field K]

/-- indexing of an array -/
def idx {α : Type} (l : List α) (i : Nat) : Py α :=
  match l[i]? with
  | some x => .ok x
  | none => .error "IndexError"

/-- indexing of `kernel_dict` -/
def key (d : List (List Nat × SK)) (k : List Nat) : Py SK :=
  match d.lookup k with
  | some x => .ok x
  | none => .error "KeyError"

/-- `var_ctr[i] += 1` on a copy -/
def bump (c : List Nat) (i : Nat) : List Nat := c.modify i (· + 1)

/-- `base_count`: zeros, plus one at `comp` (`stokes.py:122-123`, `:187-188`, ...) -/
def baseCount (dim comp : Nat) : List Nat := bump (List.replicate dim 0) comp

/-- pointwise sum of values -/
def vadd (a b : Val K N) : Val K N := fun n => a n + b n
/-- pointwise product of values -/
def vmul (a b : Val K N) : Val K N := fun n => a n * b n

/-- the accumulation pattern `if first: acc = x else: acc = acc + x`
(`stokes.py:129-136` and in every other loop of the file) -/
def accum (first : Bool) (acc : Option (Val K N)) (x : Val K N) : Py (Option (Val K N)) :=
  if first then .ok (some x)
  else match acc with
    | some a => .ok (some (vadd a x))
    | none => .error "None + expression"

/-- `itertools.product(range(dim), range(dim))` -/
def pairs (dim : Nat) : List (Nat × Nat) :=
  (List.range dim).flatMap (fun i => (List.range dim).map (fun j => (i, j)))

/-- run an accumulation loop over some indices -/
def accLoop {ι : Type} (l : List ι) (isFirst : ι → Bool) (term : ι → Py (Val K N)) :
    Py (Val K N) := do
  let r ← l.foldlM (fun acc i => do accum (isFirst i) acc (← term i)) none
  match r with
  | some v => .ok v
  | none => .error "unbound"

/-! ### StokesletWrapper -/

/-- `StokesletWrapper.__init__` (`stokes.py:86-105`) -/
def stokesletDict (dim : Nat) : Py (List (List Nat × SK)) :=
  if dim = 2 then .ok
    [([2, 0], .stokeslet 2 0 0), ([1, 1], .stokeslet 2 0 1), ([0, 2], .stokeslet 2 1 1)]
  else if dim = 3 then .ok
    [([2, 0, 0], .stokeslet 3 0 0), ([1, 1, 0], .stokeslet 3 0 1),
     ([1, 0, 1], .stokeslet 3 0 2), ([0, 2, 0], .stokeslet 3 1 1),
     ([0, 1, 1], .stokeslet 3 1 2), ([0, 0, 2], .stokeslet 3 2 2)]
  else .error "unsupported dimension given to StokesletWrapper"

/-- `StressletWrapper.__init__` (`stokes.py:313-337`) -/
def stressletDict (dim : Nat) : Py (List (List Nat × SK)) :=
  if dim = 2 then .ok
    [([3, 0], .stresslet 2 0 0 0), ([2, 1], .stresslet 2 0 0 1),
     ([1, 2], .stresslet 2 0 1 1), ([0, 3], .stresslet 2 1 1 1)]
  else if dim = 3 then .ok
    [([3, 0, 0], .stresslet 3 0 0 0), ([2, 1, 0], .stresslet 3 0 0 1),
     ([2, 0, 1], .stresslet 3 0 0 2), ([1, 2, 0], .stresslet 3 0 1 1),
     ([1, 1, 1], .stresslet 3 0 1 2), ([1, 0, 2], .stresslet 3 0 2 2),
     ([0, 3, 0], .stresslet 3 1 1 1), ([0, 2, 1], .stresslet 3 1 1 2),
     ([0, 1, 2], .stresslet 3 1 2 2), ([0, 0, 3], .stresslet 3 2 2 2)]
  else .error "unsupported dimension given to StressletWrapper"

/-- one component of `StokesletWrapper.apply` (`stokes.py:107-144`) and
`StokesletWrapper.apply_derivative` (`:165-211`): target derivatives `ds` -/
def slComp (I : Interp K N) (d : List (List Nat × SK)) (dim : Nat) (ds : List Nat)
    (σ : List (Val K N)) (mu : Val K N) (lim : Lim) (comp : Nat) : Py (Val K N) :=
  accLoop (List.range dim) (fun i => decide (i < 1)) (fun i => do
    let k ← key d (bump (baseCount dim comp) i)
    return I.G k ds lim (some mu) (← idx σ i))

/-- `StokesletWrapper(dim).apply` and `.apply_derivative` -/
def stokesletApply (I : Interp K N) (dim : Nat) (ds : List Nat)
    (σ : List (Val K N)) (mu : Val K N) (lim : Lim) : Py (List (Val K N)) := do
  let d ← stokesletDict dim
  (List.range dim).mapM (slComp I d dim ds σ mu lim)

/-- `StokesletWrapper(dim).apply_pressure` (`stokes.py:146-163`) -/
def stokesletPressure (I : Interp K N) (dim : Nat) (σ : List (Val K N)) (lim : Lim) :
    Py (Val K N) := do
  let _ ← stokesletDict dim
  accLoop (List.range dim) (fun i => decide (i < 1)) (fun i => do
    return I.G (.laplace dim) [i] lim none (← idx σ i))

/-- one component of `StokesletWrapper.apply_stress` (`stokes.py:213-268`): the direction
multiplies the potential, at the targets -/
def slStressComp (I : Interp K N) (d : List (List Nat × SK)) (dim : Nat)
    (σ dir : List (Val K N)) (mu : Val K N) (lim : Lim) (comp : Nat) : Py (Val K N) :=
  accLoop (pairs dim) (fun p => decide (p.1 + p.2 < 1)) (fun p => do
    let k ← key d (bump (bump (baseCount dim comp) p.1) p.2)
    return vmul (← idx dir p.1) (I.G k [] lim (some mu) (← idx σ p.2)))

/-- `StokesletWrapper(dim).apply_stress` -/
def stokesletStress (I : Interp K N) (dim : Nat) (σ dir : List (Val K N)) (mu : Val K N)
    (lim : Lim) : Py (List (Val K N)) := do
  let _ ← stokesletDict dim
  let d ← stressletDict dim
  (List.range dim).mapM (slStressComp I d dim σ dir mu lim)

/-! ### StressletWrapper -/

/-- one component of `StressletWrapper.apply` (`stokes.py:339-383`) and
`.apply_derivative` (`:413-464`): the direction multiplies the density, at the sources -/
def dlComp (I : Interp K N) (d : List (List Nat × SK)) (dim : Nat) (ds : List Nat)
    (σ dir : List (Val K N)) (mu : Val K N) (lim : Lim) (comp : Nat) : Py (Val K N) :=
  accLoop (pairs dim) (fun p => decide (p.1 + p.2 < 1)) (fun p => do
    let k ← key d (bump (bump (baseCount dim comp) p.1) p.2)
    return I.G k ds lim (some mu) (vmul (← idx dir p.1) (← idx σ p.2)))

/-- `StressletWrapper(dim).apply` and `.apply_derivative` -/
def stressletApply (I : Interp K N) (dim : Nat) (ds : List Nat)
    (σ dir : List (Val K N)) (mu : Val K N) (lim : Lim) : Py (List (Val K N)) := do
  let d ← stressletDict dim
  (List.range dim).mapM (dlComp I d dim ds σ dir mu lim)

/-- `StressletWrapper(dim).apply_pressure` (`stokes.py:385-411`) -/
def stressletPressure (I : Interp K N) (dim : Nat) (σ dir : List (Val K N))
    (mu : Val K N) (lim : Lim) : Py (Val K N) := do
  let _ ← stressletDict dim
  accLoop (pairs dim) (fun p => decide (p.1 + p.2 < 1)) (fun p => do
    return vmul (fun n => 2 * mu n) (I.G (.laplace dim) [p.1, p.2] lim none
      (vmul (← idx σ p.1) (← idx dir p.2))))

/-- one step of the inner loop of `StressletWrapper.apply_stress`
(`stokes.py:504-509`); `g[i]` is column `i` of the gradient matrix -/
def stressStep (g : List (List (Val K N))) (dir : List (Val K N)) (mu : Val K N)
    (comp : Nat) (acc : Val K N) (j : Nat) : Py (Val K N) := do
  let dj ← idx dir j
  let gcj ← idx (← idx g j) comp
  let gjc ← idx (← idx g comp) j
  return vadd acc (vmul (vmul dj mu) (vadd gcj gjc))

/-- one component of `StressletWrapper.apply_stress` (`stokes.py:497-509`) -/
def stressComp (dim : Nat) (p : Val K N) (g : List (List (Val K N)))
    (dir : List (Val K N)) (mu : Val K N) (comp : Nat) : Py (Val K N) := do
  let dc ← idx dir comp
  (List.range dim).foldlM (stressStep g dir mu comp) (fun n => - dc n * p n)

/-- `StressletWrapper(dim).apply_stress` (`stokes.py:466-511`) -/
def stressletStress (I : Interp K N) (dim : Nat) (σ normal dir : List (Val K N))
    (mu : Val K N) (lim : Lim) : Py (List (Val K N)) := do
  let g ← (List.range dim).mapM (fun i => stressletApply I dim [i] σ normal mu lim)
  (List.range dim).mapM (fun comp => do
    let p ← stressletPressure I dim σ normal mu lim
    stressComp dim p g dir mu comp)

/-! ### Exterior operators -/

/-- componentwise operation on two vectors of the same length -/
def vzip (f : K → K → K) (a b : List (Val K N)) : List (Val K N) :=
  List.zipWith (fun x y n => f (x n) (y n)) a b

/-- `-0.5 * side * sigma - op` with `side = +1` (`stokes.py:662`, `:718`) -/
def halfMinus (σ op : List (Val K N)) : List (Val K N) :=
  vzip (fun s o => - (1 / 2) * s - o) σ op

/-- the limit used for the single layer: `"avg"` becomes `+1` (`stokes.py:635-637`,
`:705-707`; both operators have `side == +1`) -/
def slpLim : Lim → Lim
  | .avg => .on .plus
  | l => l

/-- parameters of `HsiaoKressExteriorStokesOperator` (`stokes.py:601-625`) -/
structure HK (K N : Type) where
  omega : List (Val K N)
  alpha : K
  eta : K

/-- `alpha` and `eta` default to 1 -/
def mkHK (omega : List (Val K N)) (alpha eta : Option K := none) : HK K N :=
  ⟨omega, alpha.getD 1, eta.getD 1⟩

/-- `_farfield` (`stokes.py:627-632`) -/
def HK.farfield (h : HK K N) (I : Interp K N) (mu : Val K N) (lim : Lim) :
    Py (List (Val K N)) :=
  stokesletApply I 2 [] (h.omega.map (fun w n => - w n / I.integral (fun _ => 1))) mu lim

/-- `sigma - sym.mean(..., sigma)` (`stokes.py:645`) -/
def meanless (I : Interp K N) (σ : List (Val K N)) : List (Val K N) :=
  σ.map (fun s n => s n - I.integral s / I.integral (fun _ => 1))

/-- `_operator` (`stokes.py:634-655`) -/
def HK.op (h : HK K N) (I : Interp K N) (σ normal : List (Val K N)) (mu : Val K N)
    (lim : Lim) : Py (List (Val K N)) := do
  let opk ← stressletApply I 2 [] σ normal mu lim
  let st ← stokesletApply I 2 [] (meanless I σ) mu (slpLim lim)
  let ops := vzip (fun a b => a - b)
    (σ.map (fun s _ => h.alpha / (2 * I.pi) * I.integral s)) st
  return vzip (fun a b => a + h.eta * b) opk ops

/-- `prepare_rhs` (`stokes.py:657-658`) -/
def HK.prepareRhs (h : HK K N) (I : Interp K N) (b : List (Val K N)) (mu : Val K N) :
    Py (List (Val K N)) := do
  return vzip (fun x y => x + y) b (← h.farfield I mu (.on .plus))

/-- `operator` (`stokes.py:660-662`) -/
def HK.operator (h : HK K N) (I : Interp K N) (σ normal : List (Val K N)) (mu : Val K N) :
    Py (List (Val K N)) := do
  return halfMinus σ (← h.op I σ normal mu .avg)

/-- `velocity` (`stokes.py:664-669`) -/
def HK.velocity (h : HK K N) (I : Interp K N) (σ normal : List (Val K N)) (mu : Val K N)
    (lim : Lim) : Py (List (Val K N)) := do
  let f ← h.farfield I mu lim
  let o ← h.op I σ normal mu lim
  return vzip (fun a b => - a - b) f o

/-- `HebekerExteriorStokesOperator._operator` (`stokes.py:704-714`) -/
def hebOp (eta : K) (I : Interp K N) (σ normal : List (Val K N)) (mu : Val K N)
    (lim : Lim) : Py (List (Val K N)) := do
  let w ← stressletApply I 3 [] σ normal mu lim
  let v ← stokesletApply I 3 [] σ mu (slpLim lim)
  return vzip (fun a b => a + eta * b) w v

/-- `HebekerExteriorStokesOperator.operator` (`stokes.py:716-718`) -/
def hebOperator (eta : K) (I : Interp K N) (σ normal : List (Val K N)) (mu : Val K N) :
    Py (List (Val K N)) := do
  return halfMinus σ (← hebOp eta I σ normal mu .avg)

/-- `HebekerExteriorStokesOperator.velocity` (`stokes.py:720-722`) -/
def hebVelocity (eta : K) (I : Interp K N) (σ normal : List (Val K N)) (mu : Val K N)
    (lim : Lim) : Py (List (Val K N)) := do
  return (← hebOp eta I σ normal mu lim).map (fun v n => - v n)

/-- `StokesOperator.prepare_rhs`, inherited by Hebeker (`stokes.py:557-562`) -/
def hebPrepareRhs (b : List (Val K N)) : List (Val K N) := b

end Verif.Stokes
