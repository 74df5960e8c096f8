import Verif.Symbolic.DofDesc

/-!
# Symbolic expressions with locations

Expression trees as processed by `pytential/symbolic/mappers.py` before compilation.
An expression is a node `head` with a list of children.  Heads carry every field that
is not an expression.

Simplifications:
* `Interpolation`/`NumReferenceDerivative` of object arrays are taken componentwise
  before (they are in the code, `primitives.py:1477-1488`), and kernel arguments are a
  flat list of scalar expressions (the code treats vector arguments componentwise).
* `IterativeInverse.expression` is opaque: no mapper recurses into it
  (`mappers.py:172-182`, `488-506`).
* Expressions whose mapper method is `IdentityMapper`'s recurse-and-rebuild and that
  carry no location (quotients, powers, calls, node reductions, conditionals,
  object arrays, ...) are `op f`.
-/

namespace Verif.Sym

open Verif.DofDesc

/-- `IntG.qbx_forced_limit` (`primitives.py:1923`, validated at `primitives.py:2010`). -/
inductive Lim | none | m2 | m1 | p1 | p2 | avg
  deriving DecidableEq, Repr

/-- Kernels: opaque, or `AxisTargetDerivative(axis, kernel)` (`mappers.py:683`). -/
inductive Kern where
  | base (s : String)
  | axisDeriv (axis : Nat) (k : Kern)
  deriving DecidableEq, Repr

/-- Fields of `IntG` (`primitives.py:1886-1960`) other than expressions.  The children
of the node are the densities (the first `nd`) followed by the kernel arguments, whose
names are `kn`. -/
structure IG where
  tk : Kern
  sks : List String
  nd : Nat
  lim : Lim
  src : DD
  tgt : DD
  kn : List String
  deriving DecidableEq, Repr

/-- Location-dependent leaves: `Ones` (`primitives.py:678`), `QWeight` (`673`),
`NodeCoordinateComponent(axis)` (`702`), `IsShapeClass(shape)` (`656`). -/
inductive PropKind | ones | qweight | nodeCoord (axis : Nat) | isShape (s : String)
  deriving DecidableEq, Repr

/-- Heads of expression nodes: constants, `SpatialConstant`, `ErrorExpression`,
variables, other operations, sums, products, location-dependent leaves (`Ones`,
`QWeight`, `NodeCoordinateComponent`, `IsShapeClass`; `primitives.py:656-730`),
`NumReferenceDerivative` (`732`), elementwise reductions (`1714-1757`),
`Interpolation` (`1455`), `Interleave` (`1532`), `IterativeInverse` (`1554`;
children: right hand side, then extra variables), CSEs, `IntG`. -/
inductive Head where
  | num (q : Rat)
  | spatialConst (x : String)
  | err (x : String)
  | var (x : String)
  | op (f : String)
  | sum
  | prod
  | prop (k : PropKind) (dd : DD)
  | nrd (axes : String) (dd : DD)
  | elwise (k : String) (dd : DD)
  | interp (f t : DD)
  | interleave (f : DD)
  | inverse (body var : String) (extra : List String) (dd : DD)
  | cse (pfx : Option String) (scope : String)
  | intg (g : IG)
  deriving DecidableEq, Repr

/-- Expression trees. -/
inductive SE where
  | node (h : Head) (cs : List SE)
  deriving Repr

/-- the head -/
def SE.head : SE → Head
  | .node h _ => h

/-- the children -/
def SE.children : SE → List SE
  | .node _ cs => cs

mutual
/-- structural equality is decidable -/
def SE.decEq : (a b : SE) → Decidable (a = b)
  | .node h cs, .node h' cs' =>
    match decEqL cs cs' with
    | isTrue e => if e' : h = h' then isTrue (by rw [e, e']) else isFalse (by simp [e'])
    | isFalse e => isFalse (by simp [e])
/-- structural equality of lists is decidable -/
def decEqL : (a b : List SE) → Decidable (a = b)
  | [], [] => isTrue rfl
  | [], _ :: _ => isFalse (by simp)
  | _ :: _, [] => isFalse (by simp)
  | a :: l, b :: m =>
    match SE.decEq a b, decEqL l m with
    | isTrue h1, isTrue h2 => isTrue (by rw [h1, h2])
    | isFalse h, _ => isFalse (by simp [h])
    | _, isFalse h => isFalse (by simp [h])
end

instance : DecidableEq SE := SE.decEq

/-- Induction on expressions: a property that holds of a node whenever it holds of all
its children holds of every expression. -/
theorem SE.ind {P : SE → Prop} (h : ∀ hd cs, (∀ c ∈ cs, P c) → P (.node hd cs)) :
    ∀ e, P e := by
  intro e
  refine SE.rec (motive_1 := P) (motive_2 := fun l => ∀ c ∈ l, P c) ?_ ?_ ?_ e
  · intro hd cs ih; exact h hd cs ih
  · simp
  · intro a l ha hl c hc
    rcases List.mem_cons.1 hc with rfl | hc
    · exact ha
    · exact hl c hc

/-- outcomes of the preprocessing steps: `ValueError`, `KeyError`, `RuntimeError`, `IndexError`, the unsupported-product
error of `DerivativeTaker` (`mappers.py:634`), a mapper method that does not exist, and
the self-referential expression described at `mkInterp`. -/
inductive Err | value | key | product | noMethod | cyclic | runtime | index
  deriving DecidableEq, Repr

/-- `e₂` occurs in `e₁` (reflexively) -/
inductive Sub : SE → SE → Prop
  | refl (e) : Sub e e
  | child {h cs c e} : c ∈ cs → Sub c e → Sub (.node h cs) e

/-- structural traversal of a list in `Except` (left to right, first error wins) -/
def mapE {α : Type} {β : Type} {ε : Type} (f : α → Except ε β) : List α → Except ε (List β)
  | [] => .ok []
  | a :: l => match f a with
    | .error x => .error x
    | .ok b => match mapE f l with
      | .error x => .error x
      | .ok m => .ok (b :: m)

end Verif.Sym
