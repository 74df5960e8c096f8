import Mathlib.Analysis.InnerProductSpace.PiL2
import Mathlib.Algebra.BigOperators.Field
import Mathlib.Tactic.FieldSimp

/-!
# Integrals, means and norms of fields on a discretization

Model of `pytential/__init__.py:73-140` (`integral`, `norm`), of `integral`, `area` and `mean`
in `pytential/symbolic/primitives.py:1657-1670` and `:1758-1773`, and of the choice of an
array context in `pytential/symbolic/execution.py:703-743`.

Numbers are exact complex numbers.  All fields on a discretization have the shape of that
discretization (a shape mismatch is refused by the array library).
-/

namespace Verif.Norms

/-- a Python exception -/
inductive Err | typeError | valueError | assertionError
deriving DecidableEq, Repr

/-- a Python computation that may raise -/
abbrev Py (α : Type) := Except Err α

/-- an array context: its identity and whether it is a `PyOpenCLArrayContext` -/
structure Ctx where
  id : Nat
  cl : Bool
deriving DecidableEq, Repr

/-- a field on a discretization: value at node `i` of element group `g`
(`meshmode.dof_array.DOFArray`) -/
abbrev Dof := Nat → Nat → ℂ

/-- what the symbolic expressions read from a discretization: number of groups, nodes per
group, area elements (`primitives.py:1021-1031`) and quadrature weights (`:888-890`) -/
structure Discr where
  groups : Nat
  nodes : Nat → Nat
  area : Nat → Nat → ℝ
  wt : Nat → Nat → ℝ

/-- a number, or a field with the array context it carries (none when frozen) -/
inductive Val
  | num (z : ℂ)
  | dof (c : Option Ctx) (x : Dof)

/-- value at a node; numbers are broadcast -/
def Val.at : Val → Nat → Nat → ℂ
  | .num z, _, _ => z
  | .dof _ x, g, i => x g i

/-- the argument of `norm`: a field or number, an object array of those, or a `MultiVector`
(dimension and coefficients of the basis blades, as bit sets) -/
inductive Arg
  | scal (v : Val)
  | vec (vs : List Val)
  | mv (dim : Nat) (data : List (Nat × Val))

/-! ### Array contexts -/

/-- an argument as the search for array contexts sees it: a `DOFArray`, an object array,
or anything else -/
inductive CArg
  | dof (c : Option Ctx)
  | obj (l : List CArg)
  | other

mutual
/-- `look_for_array_contexts` (`execution.py:718-724`) -/
def CArg.ctxs : CArg → List Ctx
  | .dof c => c.toList
  | .obj l => ctxsList l
  | .other => []
/-- the loop over the entries of an object array (`execution.py:722-724`) -/
def ctxsList : List CArg → List Ctx
  | [] => []
  | a :: l => a.ctxs ++ ctxsList l
end

/-- `array_contexts` before the values of the variables are searched
(`execution.py:709-716`) -/
def suppliedCtxs : Option Ctx → Py (List Ctx)
  | none => .ok []
  | some c => if c.cl then .ok [c] else .error .typeError

/-- the agreement test and the final type test (`execution.py:729-743`) -/
def pickCtx : List Ctx → Py Ctx
  | [] => .error .typeError
  | c :: l =>
    if l.all (fun d => decide (d = c)) then
      if c.cl then .ok c else .error .typeError
    else .error .valueError

/-- `_find_array_context_from_args_in_context` (`execution.py:703-743`) -/
def findCtx (supplied : Option Ctx) (context : List CArg) : Py Ctx := do
  let s ← suppliedCtxs supplied
  pickCtx (s ++ ctxsList context)

/-- the search does not look into numbers -/
def Val.carg : Val → CArg
  | .num _ => .other
  | .dof c _ => .dof c

/-! ### Integrals -/

/-- `NodeSum` (`execution.py:157-161`): sum over all nodes of all groups -/
noncomputable def nodeSum {α : Type} [AddCommMonoid α] (d : Discr) (f : Nat → Nat → α) : α :=
  ∑ g ∈ Finset.range d.groups, ∑ i ∈ Finset.range (d.nodes g), f g i

/-- `sym.integral` (`primitives.py:1657-1670`): `node_sum(area_element * QWeight * operand)` -/
noncomputable def integralOf (d : Discr) (f : Nat → Nat → ℂ) : ℂ :=
  nodeSum d (fun g i => d.area g i * d.wt g i * f g i)

/-- `sym.integral` of a real-valued expression -/
noncomputable def integralReal (d : Discr) (f : Nat → Nat → ℝ) : ℝ :=
  nodeSum d (fun g i => d.area g i * d.wt g i * f g i)

/-- `pytential.integral` (`__init__.py:73-82`): no array context is supplied, so the
argument has to bring one -/
noncomputable def integral (d : Discr) (v : Val) : Py ℂ := do
  let _ ← findCtx none [v.carg]
  return integralOf d v.at

/-- `sym.area` (`primitives.py:1758-1764`) -/
noncomputable def areaOf (d : Discr) : ℂ := integralOf d (fun _ _ => 1)

/-- `sym.mean` (`primitives.py:1767-1773`) -/
noncomputable def meanOf (d : Discr) (f : Nat → Nat → ℂ) : ℂ := integralOf d f / areaOf d

/-! ### Norms -/

/-- the integrand of `_norm_2_op` (`__init__.py:86-94`): `abs(x)**2`, or
`real(dot(conj(v), v))` -/
noncomputable def norm2Integrand : Option (List Val) → Val → Nat → Nat → ℝ
  | none, v, g, i => ‖v.at g i‖ ^ 2
  | some vs, _, g, i =>
    ((vs.map (fun v => starRingEnd ℂ (v.at g i) * v.at g i)).sum).re

/-- all nodes, group by group -/
def nodeList (d : Discr) : List (Nat × Nat) :=
  (List.range d.groups).flatMap (fun g => (List.range (d.nodes g)).map (fun i => (g, i)))

/-- `NodeMax` of `abs(x)` (`execution.py:163-167`): a number is refused by the assertion,
an empty array has no maximum -/
noncomputable def nodeMaxAbs (d : Discr) : Val → Py ℝ
  | .num _ => .error .assertionError
  | .dof _ x =>
    match (nodeList d).map (fun n => ‖x n.1 n.2‖) with
    | [] => .error .valueError
    | a :: l => .ok (l.foldl max a)

/-- Python's `max`: an entry replaces the best one so far if it is greater -/
def pyMax {α : Type} (gt : α → α → Bool) : List α → Py α
  | [] => .error .valueError
  | a :: l => .ok (l.foldl (fun b x => if gt x b then x else b) a)

/-- `norm_op(arg=x)` and the maximum over components (`__init__.py:97-108`, `:131-136`) -/
noncomputable def normInf (d : Discr) : Option (List Val) → Val → Py ℝ
  | none, v => nodeMaxAbs d v
  | some vs, _ => do
    let ms ← vs.mapM (nodeMaxAbs d)
    pyMax (fun x y => decide (x > y)) ms

/-- `MultiVector.as_vector(object)` (pymbolic): a coefficient per axis, zero where there is
none; a blade that is not an axis is refused -/
def asVector (dim : Nat) (data : List (Nat × Val)) : Py (List Val) :=
  if data.all (fun p => (List.range dim).any (fun k => p.1 == 2 ^ k)) then
    .ok ((List.range dim).map (fun k =>
      match data.find? (fun p => p.1 == 2 ^ k) with
      | some p => p.2
      | none => .num 0))
  else .error .valueError

/-- the order of a norm: `2`, `inf` (as a float or a string), or anything else -/
inductive Order | two | inf | other
deriving DecidableEq

/-- the value of the variable and the number of components (`__init__.py:115-121`) -/
def prepare : Arg → Py (Option (List Val) × Val)
  | .scal v => .ok (none, v)
  | .vec vs => .ok (some vs, .num 0)
  | .mv dim data => do return (some (← asVector dim data), .num 0)

/-- the argument as the search for an array context sees it -/
def prepCArg : Option (List Val) × Val → CArg
  | (none, v) => v.carg
  | (some vs, _) => .obj (vs.map Val.carg)

/-- `pytential.norm` (`__init__.py:111-140`) -/
noncomputable def norm (d : Discr) (x : Arg) (p : Order) : Py ℝ := do
  let y ← prepare x
  match p with
  | .two =>
    let _ ← findCtx none [prepCArg y]
    return Real.sqrt (integralReal d (norm2Integrand y.1 y.2))
  | .inf =>
    let _ ← findCtx none [prepCArg y]
    normInf d y.1 y.2
  | .other => .error .valueError

end Verif.Norms
