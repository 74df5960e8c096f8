import Verif.Compiler.Props
import Verif.Symbolic.Tagger
import Verif.Symbolic.QBXPre
import Verif.Symbolic.InterpPre

/-!
# From `bind` to the value (C76): model and specification

`bind(places, expr)(**context)` (`pytential/symbolic/execution.py:933-967`, `:626-656`,
`:856-896`): the preparation of the expression composed from the models of its passes
(`Verif.Symbolic`), followed by compilation and execution (`Verif.Compiler`).

Simplifications: `flatten` (pymbolic) and `DerivativeBinder` are left out here and added in `Bind/Flatten.lean` and `Bind/Prepare.lean`, so the expressions here
have no unresolved derivatives (see C16 for derivatives); `MultiVector`s are not modelled.
-/

namespace Verif.Bind

open Verif.Sym Verif.DofDesc

/-! ## Model -/

/-- the loop over the layer potential sources of the collection
(`execution.py:650-652`): `QBXLayerPotentialSource.preprocess_optemplate`
(`qbx/__init__.py:518-524`) or `UnregularizedLayerPotentialSource.preprocess_optemplate`
(`unregularized.py:147-153`) -/
def prepLoop : List (Obj × PlaceKind) → SE → Except Sym.Err SE
  | [], e => .ok e
  | (n, k) :: pl, e =>
    match (match k with
      | .qbx => qbxPre n e
      | .unregularized => unregPre e
      | _ => .ok e) with
    | .error x => .error x
    | .ok e' => prepLoop pl e'

/-- `_prepare_expr` (`execution.py:626-656`) with default source `S` and target `T` -/
def prepare (pl : List (Obj × PlaceKind)) (S T : DD) (e : SE) : Except Sym.Err SE :=
  match toTag S T e with
  | .error x => .error x
  | .ok e1 => match prepLoop pl e1 with
    | .error x => .error x
    | .ok e2 => interpPre pl false e2

/-- How the strings standing for operations, kernels and places in the model of the compiler
name the objects of the model of expressions: any functions will do. -/
structure Enc where
  head : Head → String
  kern : Kern → String
  place : DD → String

/-- the scopes of `cse_scope` (`primitives.py:489-492`) -/
def trScope (s : String) : Compiler.Scope :=
  if s = "pymbolic_eval" then .evaluation
  else if s = "pymbolic_expr" then .expression
  else .discretization

/-- limits in the two models -/
def trLim : Lim → Compiler.Lim
  | .none => .none
  | .m2 => .m2
  | .m1 => .m1
  | .p1 => .p1
  | .p2 => .p2
  | .avg => .avg

/-- fields of `IntG` in the two models -/
def trG (E : Enc) (g : IG) : Compiler.IG :=
  ⟨E.kern g.tk, g.sks, E.place g.src, E.place g.tgt, trLim g.lim, g.kn⟩

/-- the child of a CSE -/
def trCse (E : Enc) (p : Option String) (s : String) : List Compiler.Expr → Compiler.Expr
  | [c] => .cse p (trScope s) c
  | l => .op (E.head (.cse p s)) l

mutual
/-- A prepared expression as the compiler sees it (`execution.py:767-770`): locations are now
part of the operations. -/
def tr (E : Enc) : SE → Compiler.Expr
  | .node h cs => match h with
    | .var x => .var x
    | .sum => .sum (trL E cs)
    | .cse p s => trCse E p s (trL E cs)
    | .intg g => .intg (trG E g) ((trL E cs).take g.nd) ((trL E cs).drop g.nd)
    | h => .op (E.head h) (trL E cs)
/-- same for lists -/
def trL (E : Enc) : List SE → List Compiler.Expr
  | [] => []
  | c :: l => tr E c :: trL E l
end

/-- how `bind(places, expr)(**context)` ends -/
inductive BindErr
  | prepare (x : Sym.Err)
  | eval (x : Compiler.BErr)

/-- `bind(places, expr)(**context)` for a scalar expression (`execution.py:933-967`,
`:856-896`); `cc` are the caches of the collection -/
def bindEval {V : Type} (E : Enc) (c : Compiler.Cfg) (I : Compiler.Interp V)
    (pl : List (Obj × PlaceKind)) (S T : DD) (e : SE) (ctx : Compiler.Ctx V)
    (cc : Compiler.Cache V) : Except BindErr V :=
  match prepare pl S T e with
  | .error x => .error (.prepare x)
  | .ok e' => match Compiler.evalBound c I (tr E e') ctx cc with
    | .error x => .error (.eval x)
    | .ok r => .ok r.1

/-! ## Specification -/

/-- all values, if there are all of them -/
def allSome {V : Type} : List (Option V) → Option (List V)
  | [] => some []
  | v :: l => match v, allSome l with
    | some a, some m => some (a :: m)
    | _, _ => none

/-- The meaning of an operation, with the interpretation `I` of elementary operations and layer
potentials and the inputs `env`: variables are looked up, sums are sums, a CSE is its child, and a
layer potential gets its densities paired with the source kernels and its arguments paired with
their names. -/
def mean {V : Type} (E : Enc) (I : Compiler.Interp V) (env : Compiler.Ctx V) :
    Head → List (Option V) → Option V
  | .var x, _ => env x
  | .sum, vs => (allSome vs).map (fun l => l.foldl I.add I.zero)
  | .cse _ _, [v] => v
  | .intg g, vs => match allSome (vs.take g.nd), allSome (vs.drop g.nd) with
    | some d, some k =>
      I.pot (E.place g.src) (g.sks.zip d) (g.kn.zip k) (E.kern g.tk) (E.place g.tgt) (trLim g.lim)
    | _, _ => none
  | h, vs => (allSome vs).bind (I.op (E.head h))

mutual
/-- The expression with every location filled in: inside of layer potentials with the default
source, outside with the default target or source (see C11 for the rules). -/
def placed (S T : DD) (inside : Bool) : SE → SE
  | .node h cs => .node (retag S (if inside then S else T) h) (placedL S T (inside || isIntG h) cs)
/-- same for lists -/
def placedL (S T : DD) (inside : Bool) : List SE → List SE
  | [] => []
  | c :: l => placed S T inside c :: placedL S T inside l
end

/-- a layer potential with given operands; `'avg'` is the mean of the two one-sided limits -/
def potMean {V : Type} (J : Head → List V → V) (g : IG) (vs : List V) : V :=
  if g.lim = .avg then
    J .prod [J (.num (1/2)) [], J .sum [J (.intg { g with lim := .p1 }) vs,
      J (.intg { g with lim := .m1 }) vs]]
  else J (.intg g) vs

/-- is the source of the potential a QBX source without a chosen stage? -/
def upsamples (pl : List (Obj × PlaceKind)) (g : IG) : Bool :=
  decide (g.src.stage = none) && decide (getGeo pl g.src.geometry = .ok .qbx)

mutual
/-- The meaning of an expression whose locations are filled in.  With `tg` node coordinates and
reference derivatives are taken on stage 2.

* A layer potential on a QBX source without a chosen stage is computed from the quadrature stage:
  its densities are interpolated there from stage 1, its arguments are evaluated on stage 2 and
  interpolated from there.  Targets without a stage are on stage 1.  `'avg'` is the mean of the
  one-sided limits.
* A reference derivative on the quadrature stage of a QBX source is taken on stage 2 and
  interpolated.
* Below other layer potentials and derivatives nothing is moved or interpolated. -/
def meaning {V : Type} (J : Head → List V → V) (pl : List (Obj × PlaceKind)) (tg : Bool) : SE → V
  | .node h cs => match h with
    | .nrd a dd =>
      if tg then value J (stageTag .stage2 (.node (.nrd a dd) cs))
      else if dd.stage = some .quadStage2 ∧ getGeo pl dd.geometry = .ok .qbx then
        J (.interp (DDs dd .stage2) dd) [value J (stageTag .stage2 (.node (.nrd a dd) cs))]
      else value J (.node (.nrd a dd) cs)
    | .prop k dd => value J (if tg then stageTag .stage2 (.node (.prop k dd) cs)
        else .node (.prop k dd) cs)
    | .intg g =>
      if upsamples pl g then
        potMean J { tgtStage g with src := DDs g.src .quadStage2 }
          (meaningArgs J pl tg (DDs g.src .stage1) (DDs g.src .stage2) (DDs g.src .quadStage2) g.nd cs)
      else potMean J (tgtStage g) (valueL J (if tg then stageTagL .stage2 cs else cs))
    | h => J h (meaningL J pl tg cs)
/-- operands of other operations -/
def meaningL {V : Type} (J : Head → List V → V) (pl : List (Obj × PlaceKind)) (tg : Bool) :
    List SE → List V
  | [] => []
  | c :: l => meaning J pl tg c :: meaningL J pl tg l
/-- the first `n` operands of a layer potential are densities -/
def meaningArgs {V : Type} (J : Head → List V → V) (pl : List (Obj × PlaceKind)) (tg : Bool)
    (f1 f2 t : DD) : Nat → List SE → List V
  | _, [] => []
  | n, c :: l => J (.interp (if n = 0 then f2 else f1) t) [meaning J pl (tg || n == 0) c] ::
      meaningArgs J pl tg f1 f2 t (n - 1) l
end

/-- what an occurrence contributes: a variable, a CSE prefix, a layer potential -/
inductive Key
  | var (x : String)
  | pfx (p : String)
  | intg
deriving DecidableEq, Repr

/-- the key of a node -/
def key : Head → Option Key
  | .var x => some (.var x)
  | .cse (some p) _ => some (.pfx p)
  | .intg _ => some .intg
  | _ => none

/-- `k` occurs in `e` -/
def Has (k : Key) (e : SE) : Prop := ∃ h cs, Sub e (.node h cs) ∧ key h = some k

/-- Nodes users can write: sums are not empty, a CSE has one child, which contains no layer
potential unless its scope is `EVALUATION`; a layer potential has at least one source kernel, a
density for each of them and a value for each named argument. -/
def NodeOk : Head → List SE → Prop
  | .sum, cs => cs ≠ []
  | .cse _ s, cs => cs.length = 1 ∧ (s ≠ "pymbolic_eval" → ∀ c ∈ cs, ¬ Has .intg c)
  | .intg g, cs => g.sks ≠ [] ∧ g.sks.length = g.nd ∧ cs.length = g.nd + g.kn.length
  | _, _ => True

/-- every node is one users can write -/
def Good (e : SE) : Prop := ∀ h cs, Sub e (.node h cs) → NodeOk h cs

/-- no variable has a name the compiler may generate: `_expr<i>`, or a CSE prefix, possibly
followed by `_<i>` (see C02) -/
def NoClash (e : SE) : Prop := ∀ x, Has (.var x) e →
  ¬ ((∃ i : Nat, x = "_expr" ++ toString i) ∨
    ∃ p, Has (.pfx p) e ∧ (x = p ∨ ∃ i : Nat, x = p ++ "_" ++ toString i))

/-- the QBX sources of a collection -/
def qbxNames (pl : List (Obj × PlaceKind)) : List Obj :=
  (pl.filter (fun p => decide (p.2 = .qbx))).map Prod.fst

end Verif.Bind
