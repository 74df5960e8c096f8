import Verif.QBX.Cost
import Mathlib.Tactic.Ring
import Mathlib.Tactic.NormNum

/-!
# Modeled cost per box and per stage (C68)

Models `QBXTranslationCostModel`, the two translation cost model factories,
`qbx_cost_factors_for_kernels_from_model`, `gather_metadata`, `qbx_cost_per_box`,
`qbx_cost_per_stage` and `get_unit_calibration_params` (`pytential/qbx/cost.py`).

External, and parameters here: the FMM part of the cost, from the parent class of `boxtree`
(`cost_per_box`, `cost_per_stage`), the translation cost `e2e_cost` of `boxtree`, and the square
root.  Costs live in a commutative semiring (rounding is not modelled).
-/

namespace Verif.Cost

open Verif.Util Verif.Offsets Verif.Geometry Verif.FMM

/-- exceptions: `UnknownVariableError` of the expression evaluator; anything raised by the user's
`fmm_level_to_order` -/
inductive CErr where
  | unknown (name : String)
  | user
  deriving DecidableEq, Repr

/-- a `dict` with string keys, in insertion order -/
abbrev Dict (A : Type) := List (String × A)

/-- `d.get(name)` -/
def Dict.find {A : Type} (d : Dict A) (name : String) : Option A := (d.find? fun q => q.1 == name).map (·.2)

/-- `d[name] = v`: replaces in place or appends -/
def Dict.put {A : Type} (d : Dict A) (name : String) (v : A) : Dict A :=
  if d.any (fun q => q.1 == name) then d.map (fun q => if q.1 == name then (name, v) else q)
  else d ++ [(name, v)]

/-- reading a variable while evaluating a symbolic cost -/
def Dict.read {A : Type} (d : Dict A) (name : String) : Except CErr A :=
  match d.find name with
  | some v => .ok v
  | none => .error (.unknown name)

section

variable {F : Type} [CommSemiring F]

/-! ## Costs of single operations -/

/-- `QBXTranslationCostModel` (`cost.py:119-126`): the coefficient counts as functions of the
orders, `uses_point_and_shoot` -/
structure Xlat where
  ncoeffsQbx : Nat
  ncoeffsFmm : Nat
  pointAndShoot : Bool

/-- number of coefficients for exponent `e` at order `p`: `(p + 1) ** e` (`cost.py:163-164,184-185`) -/
def ncoeffs (e : Nat) (p : F) : F := (p + 1) ^ e

/-- `make_pde_aware_translation_cost_model` (`cost.py:154-172`) -/
def pdeAware (dim : Nat) : Xlat := ⟨dim - 1, dim - 1, dim = 3⟩

/-- `make_taylor_translation_cost_model` (`cost.py:175-190`) -/
def taylor (dim : Nat) : Xlat := ⟨dim, dim, false⟩

/-- name of the order variable of a level (`cost.py:159,180`) -/
def levName (l : Nat) : String := "p_fmm_lev" ++ toString l

/-- the evaluated cost factors of the QBX operations (`cost.py:302-314`) -/
structure Factors (F : Type) where
  p2qbxl : F
  m2qbxl : List F
  l2qbxl : List F
  qbxl2p : F
  tsqbx : F

/-- `evaluate(xlat_cost.p2qbxl())`, `qbxl2p()` (`cost.py:128-129,136-137`) -/
def evalLinear (c : String) (x : Xlat) (ctx : Dict F) : Except CErr F := do
  let a ← ctx.read c
  let p ← ctx.read "p_qbx"
  pure (a * ncoeffs x.ncoeffsQbx p)

/-- `evaluate(xlat_cost.p2p_tsqbx())` (`cost.py:131-134`) -/
def evalTs (sqrt : F → F) (x : Xlat) (ctx : Dict F) : Except CErr F := do
  let a ← ctx.read "c_p2p_tsqbx"
  let p ← ctx.read "p_qbx"
  pure (a * sqrt (ncoeffs x.ncoeffsQbx p))

/-- `evaluate(xlat_cost.m2qbxl(level))`, `l2qbxl(level)` (`cost.py:139-147`) -/
def evalXlat (e2e : Bool → F → F → F) (c : String) (x : Xlat) (ctx : Dict F) (l : Nat) : Except CErr F := do
  let a ← ctx.read c
  let pf ← ctx.read (levName l)
  let pq ← ctx.read "p_qbx"
  pure (a * e2e x.pointAndShoot (ncoeffs x.ncoeffsFmm pf) (ncoeffs x.ncoeffsQbx pq))

/-- `qbx_cost_factors_for_kernels_from_model` (`cost.py:278-319`), the QBX part -/
def costFactors (e2e : Bool → F → F → F) (sqrt : F → F) (nlevels : Nat) (x : Xlat) (ctx : Dict F) :
    Except CErr (Factors F) := do
  let p2qbxl ← evalLinear "c_p2qbxl" x ctx
  let m2qbxl ← (List.range nlevels).mapM (evalXlat e2e "c_m2qbxl" x ctx)
  let l2qbxl ← (List.range nlevels).mapM (evalXlat e2e "c_l2qbxl" x ctx)
  let qbxl2p ← evalLinear "c_qbxl2p" x ctx
  let ts ← evalTs sqrt x ctx
  pure ⟨p2qbxl, m2qbxl, l2qbxl, qbxl2p, ts⟩

/-- `get_unit_calibration_params` (`cost.py:500-511`); `base` is the dictionary of `boxtree` -/
def unitParams (base : Dict F) : Dict F :=
  ((((base.put "c_p2qbxl" 1).put "c_p2p_tsqbx" 1).put "c_qbxl2p" 1).put "c_m2qbxl" 1).put "c_l2qbxl" 1

/-! ## Costs per box and per stage -/

/-- the `process_*` methods of a cost model: arrays over the target boxes (`cost.py:210-276`) -/
structure Process (F : Type) where
  form : F → List F
  ts : F → List F
  m2qbxl : List F → List F
  l2qbxl : List F → List F
  eval : F → List F

/-- what the two functions read from `geo_data`, the layer potential source and the parent class -/
structure Setup (F : Type) where
  useTs : Bool
  dim : Nat
  nlevels : Nat
  targetBoxes : List Nat
  qbxOrder : F
  /-- `fmm_level_to_order(kernel.get_base_kernel(), kernel_arguments, tree, level)` -/
  levelToOrder : Nat → Except CErr F
  nsources : F
  ntargets : F
  ncenters : F
  /-- `translation_cost_model_factory(dim, nlevels)` -/
  factory : Nat → Xlat
  /-- `cost_per_box` of the parent class: orders per level, calibration parameters -/
  parentBox : List F → Dict F → List F
  /-- `cost_per_stage` of the parent class -/
  parentStage : List F → Dict F → Dict F

/-- the parameters for the evaluation (`cost.py:362-366,439-443`) -/
def qbxParams (s : Setup F) (orders : List F) (calib : Dict F) : Dict F :=
  (orders.zipIdx).foldl (fun d q => d.put (levName q.2) q.1) (calib.put "p_qbx" s.qbxOrder)

/-- `ary[index] += v` for arrays: gathers, adds, then stores in order (`cost.py:390-408`) -/
def addAt (ary : List F) (index : List Nat) (v : List F) : List F :=
  ((index.zip v).map fun q => (q.1, ary.getD q.1 0 + q.2)).foldl (fun a q => a.set q.1 q.2) ary

/-- `gather_metadata` (`cost.py:320-336`) -/
def metadata (s : Setup F) (orders : List F) : Dict F :=
  (orders.zipIdx).foldl (fun d q => d.put (levName q.2) q.1)
    [("p_qbx", s.qbxOrder), ("nlevels", (s.nlevels : F)), ("nsources", s.nsources), ("ntargets", s.ntargets),
      ("ncenters", s.ncenters)]

/-- orders and factors, computed alike by both functions (`cost.py:354-378,431-455`) -/
def prepare (e2e : Bool → F → F → F) (sqrt : F → F) (s : Setup F) (calib : Dict F) :
    Except CErr (List F × Factors F) := do
  let orders ← (List.range s.nlevels).mapM s.levelToOrder
  let f ← costFactors e2e sqrt s.nlevels (s.factory s.dim) (qbxParams s orders calib)
  pure (orders, f)

/-- `qbx_cost_per_box` (`cost.py:338-413`) -/
def costPerBox (e2e : Bool → F → F → F) (sqrt : F → F) (p : Process F) (s : Setup F) (calib : Dict F) :
    Except CErr (List F × Dict F) := do
  let (orders, f) ← prepare e2e sqrt s calib
  let r := s.parentBox orders calib
  let r := addAt r s.targetBoxes (if s.useTs then p.ts f.tsqbx else p.form f.p2qbxl)
  let r := addAt r s.targetBoxes (p.m2qbxl f.m2qbxl)
  let r := addAt r s.targetBoxes (p.l2qbxl f.l2qbxl)
  let r := addAt r s.targetBoxes (p.eval f.qbxl2p)
  pure (r, metadata s orders)

/-- `qbx_cost_per_stage` (`cost.py:415-497`); `aggregate_over_boxes` is the sum -/
def costPerStage (e2e : Bool → F → F → F) (sqrt : F → F) (p : Process F) (s : Setup F) (calib : Dict F) :
    Except CErr (Dict F × Dict F) := do
  let (orders, f) ← prepare e2e sqrt s calib
  let r := s.parentStage orders calib
  let r := if s.useTs then r.put "eval_target_specific_qbx_locals" (p.ts f.tsqbx).sum
    else r.put "form_global_qbx_locals" (p.form f.p2qbxl).sum
  let r := r.put "translate_box_multipoles_to_qbx_local" (p.m2qbxl f.m2qbxl).sum
  let r := r.put "translate_box_local_to_qbx_local" (p.l2qbxl f.l2qbxl).sum
  let r := r.put "eval_qbx_expansions" (p.eval f.qbxl2p).sum
  pure (r, metadata s orders)

/-! ## The two cost models -/

/-- an array over the target boxes -/
def overBoxes (targetBoxes : List Nat) (f : Nat → F) : List F := (List.range targetBoxes.length).map f

/-- `QBXCostModel` (`cost.py:720-828`), given counts, weighted counts and direct sources per box -/
def boxProcess (targetBoxes : List Nat) (level : Nat → Nat) (list3 : List Ssn) (count wcount ndirect : Nat → F) :
    Process F where
  form c := overBoxes targetBoxes (boxForm count ndirect c)
  ts c := overBoxes targetBoxes (boxTs wcount ndirect c)
  m2qbxl c := overBoxes targetBoxes (boxM2qbxl list3 count fun l => c.getD l 0)
  l2qbxl c := overBoxes targetBoxes (boxL2qbxl targetBoxes level count fun l => c.getD l 0)
  eval c := overBoxes targetBoxes (boxEval wcount c)

/-- `_PythonQBXCostModel` (`cost.py:850-943`) -/
def refProcess (targetBoxes : List Nat) (level : Nat → Nat) (list3 : List Ssn) (global ctb cttStarts : List Nat)
    (ndirect : Nat → F) : Process F where
  form c := overBoxes targetBoxes (refForm global ctb ndirect c)
  ts c := overBoxes targetBoxes (refTs global ctb cttStarts ndirect c)
  m2qbxl c := overBoxes targetBoxes (refM2qbxl list3 global ctb fun l => c.getD l 0)
  l2qbxl c := overBoxes targetBoxes (refL2qbxl targetBoxes level global ctb fun l => c.getD l 0)
  eval c := overBoxes targetBoxes (refEval global ctb cttStarts c)

end

end Verif.Cost
