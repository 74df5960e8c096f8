import Verif.Util.Lists
import Verif.Util.Offsets
import Mathlib.Tactic.Common
import Mathlib.Tactic.Ring
import Mathlib.Algebra.BigOperators.Group.List.Basic
import Mathlib.Algebra.Ring.Int.Defs

/-!
# Executing potentials of point sources and unregularized sources (C63)

Models `evaluate_kernel_arguments`, `PointPotentialSource.exec_compute_potential_insn` and the FMM
setup helpers of `LayerPotentialSourceBase` in `pytential/source.py`,
`UnregularizedLayerPotentialSource.exec_compute_potential_insn{,_direct,_fmm}` and
`_FMMGeometryData.target_info` in `pytential/unregularized.py`, and the two ways in which a
`GeometryCollection` (`pytential/collection.py`) resolves a target.

Not modelled: the floating point type of the result, kernel code generation (`sumpy.p2p.P2P` is
modelled by the sums it is documented to compute), tree and traversal construction and the FMM itself
(`boxtree.fmm.drive_fmm`, a parameter).
-/

namespace Verif.SrcExec

open Verif Verif.Offsets

/-- the exceptions met along the way: `KeyError`, `AssertionError`, `AttributeError`, `IndexError`, and
anything arraycontext raises on arrays of the wrong kind or size -/
inductive Err
  | key | assertion | attribute | index | shape
deriving DecidableEq, Repr

/-- what evaluating an operand yields: a scalar, a plain array, a `DOFArray` (one array per element
group) -/
inductive Val (V : Type)
  | scalar (v : V)
  | flat (l : List V)
  | dof (gs : List (List V))
deriving DecidableEq, Repr

/-- the places a collection holds (`collection.py`, `GeometryLike`): QBX sources (with the original
density discretization and the one of each stage), unregularized sources, discretizations, point
targets, point sources -/
inductive Place (P S : Type)
  | qbx (density : List (List P)) (stage : S → List (List P))
  | unregularized (density : List (List P))
  | discr (gs : List (List P))
  | target (pts : List P)
  | points (pts : List P)

/-- a resolved target: a `Discretization` (groups of nodes) or a flat collection of points -/
inductive Geo (P : Type)
  | discr (gs : List (List P))
  | pts (l : List P)
deriving DecidableEq, Repr

/-- `_get_discretization_or_geometry` (`collection.py:346-367`): stage 1 is the default -/
def Place.resolve {P S : Type} (stage1 : S) (st : Option S) : Place P S → Geo P
  | .qbx _ f => .discr (f (st.getD stage1))
  | .unregularized d => .discr d
  | .discr gs => .discr gs
  | .target p => .pts p
  | .points p => .pts p

/-- `flatten(target_or_discr.nodes(), actx, leaf_class=DOFArray)` -/
def Geo.flatNodes {P : Type} : Geo P → List P
  | .discr gs => gs.flatten
  | .pts l => l

/-- `unflatten`: cut a flat array into arrays of the given sizes (arraycontext) -/
def splitSizes {V : Type} : List Nat → List V → List (List V)
  | [], _ => []
  | n :: ns, l => l.take n :: splitSizes ns (l.drop n)

/-- results on a `Discretization` are unflattened with `nodes()[0]` as a template, others are left
flat (`source.py:282-285`, `unregularized.py:186-189`) -/
def Geo.unflat {P V : Type} (l : List V) : Geo P → Val V
  | .discr gs => .dof (splitSizes (gs.map List.length) l)
  | .pts _ => .flat l

/-- a `DOFDescriptor` naming a target -/
structure Dd (N S : Type) where
  geometry : N
  stage : Option S
  granularity : Nat
deriving DecidableEq

/-- `PotentialOutputField` (`symbolic/compiler.py`) -/
structure Out (N S : Type) where
  name : String
  target : Dd N S
  limit : Option Int
  kernel : Nat
deriving DecidableEq

/-- `get_geometry` (`collection.py:409-417`) -/
def getGeometry {N P S : Type} [DecidableEq N] (places : List (N × Place P S)) (g : N) :
    Except Err (Place P S) :=
  match alookup g places with
  | some p => .ok p
  | none => .error .key

/-- `get_target_or_discretization` (`collection.py:381-394`); the `TypeError` at its end cannot occur
for the places listed above -/
def getTarget {N P S : Type} [DecidableEq N] (stage1 : S) (places : List (N × Place P S))
    (t : Dd N S) : Except Err (Geo P) :=
  (getGeometry places t.geometry).map (Place.resolve stage1 t.stage)

/-- `flatten(value, actx, leaf_class=DOFArray)`; a scalar is left alone -/
def Val.flatten {V : Type} : Val V → Val V
  | .dof gs => .flat gs.flatten
  | v => v

/-- `evaluate_kernel_arguments` (`source.py:138-157`) -/
def kernelArgs {E V : Type} (evaluate : E → Val V) (doFlat : Bool) (args : List (String × E)) :
    List (String × Val V) :=
  args.map fun a => (a.1, if doFlat then (evaluate a.2).flatten else evaluate a.2)

/-- an array with `n` entries or a scalar can be passed to a kernel running over `n` sources -/
def Val.fits {V : Type} (n : Nat) : Val V → Bool
  | .scalar _ => true
  | .flat l => l.length = n
  | .dof _ => false

/-- the value of a kernel argument at source number `j` -/
def Val.at {V : Type} [Zero V] (j : Nat) : Val V → V
  | .scalar v => v
  | .flat l => l.getD j 0
  | .dof _ => 0

/-- all kernel arguments at source number `j` -/
def argsAt {V : Type} [Zero V] (args : List (String × Val V)) (j : Nat) (a : String) : V :=
  match alookup a args with
  | some v => v.at j
  | none => 0

/-- one row of `sumpy.p2p.P2P` (trusted, documented behaviour): the sum over the sources and the source
kernels of kernel times strength -/
def row {TK SK P V : Type} [Semiring V] (pot : TK → SK → P → P → (String → V) → V) (tk : TK)
    (sks : List SK) (x : P) (sources : List P) (strengths : List (List V))
    (args : List (String × Val V)) : V :=
  (sources.zipIdx.map fun y =>
    ((sks.zip strengths).map fun s => pot tk s.1 x y.1 (argsAt args y.2) * s.2.getD y.2 0).sum).sum

/-- the arrays passed to a kernel fit the sources -/
def callOk {P V : Type} (nsk : Nat) (sources : List P) (strengths : List (List V))
    (args : List (String × Val V)) : Bool :=
  args.all (fun a => a.2.fits sources.length) && strengths.all (fun s => s.length = sources.length)
    && strengths.length = nsk

/-- a call of `sumpy.p2p.P2P` -/
def p2p {TK SK P V : Type} [Semiring V] (pot : TK → SK → P → P → (String → V) → V) (tks : List TK)
    (sks : List SK) (targets sources : List P) (strengths : List (List V))
    (args : List (String × Val V)) : Except Err (List (List V)) :=
  if callOk sks.length sources strengths args then
    .ok (tks.map fun tk => targets.map fun x => row pot tk sks x sources strengths args)
  else .error .shape

/-- `output_for_each_kernel[o.target_kernel_index]` -/
def pick {V : Type} (l : List (List V)) (i : Nat) : Except Err (List V) :=
  match l[i]? with
  | some r => .ok r
  | none => .error .index

/-- the body of the loop over the outputs (`source.py:266-287`, `unregularized.py:169-191`) -/
def oneOutput {N S TK SK P V : Type} [DecidableEq N] [Semiring V] (stage1 : S)
    (places : List (N × Place P S)) (pot : TK → SK → P → P → (String → V) → V) (tks : List TK)
    (sks : List SK) (sources : List P) (strengths : List (List V)) (args : List (String × Val V))
    (o : Out N S) : Except Err (String × Val V) := do
  let g ← getTarget stage1 places o.target
  let all ← p2p pot tks sks g.flatNodes sources strengths args
  let r ← pick all o.kernel
  pure (o.name, g.unflat r)

/-- a density of a point source is a plain array -/
def Val.asFlat {V : Type} : Val V → Except Err (List V)
  | .flat l => .ok l
  | _ => .error .shape

/-- `PointPotentialSource.exec_compute_potential_insn` (`source.py:250-289`) -/
def execPoint {N S TK SK P E V : Type} [DecidableEq N] [Semiring V] (stage1 : S)
    (places : List (N × Place P S)) (pot : TK → SK → P → P → (String → V) → V) (evaluate : E → Val V)
    (nodes : List P) (tks : List TK) (sks : List SK) (densities : List E) (args : List (String × E))
    (outs : List (Out N S)) : Except Err (List (String × Val V)) := do
  let strengths ← densities.mapM fun d => (evaluate d).asFlat
  outs.mapM (oneOutput stage1 places pot tks sks nodes strengths (kernelArgs evaluate false args))

/-- `waa * evaluate(density)`, flattened (`unregularized.py:161-164`) -/
def weigh {V : Type} [Mul V] (waa : List (List V)) : Val V → Except Err (List V)
  | .scalar v => .ok (waa.flatten.map fun w => w * v)
  | .dof gs =>
    if gs.map List.length = waa.map List.length then
      .ok (List.zipWith (List.zipWith fun w d => w * d) waa gs).flatten
    else .error .shape
  | .flat _ => .error .shape

/-- `UnregularizedLayerPotentialSource.exec_compute_potential_insn_direct`
(`unregularized.py:145-193`) -/
def execDirect {N S TK SK P E V : Type} [DecidableEq N] [Semiring V] (stage1 : S)
    (places : List (N × Place P S)) (pot : TK → SK → P → P → (String → V) → V) (evaluate : E → Val V)
    (density : List (List P)) (waa : List (List V)) (tks : List TK) (sks : List SK)
    (densities : List E) (args : List (String × E)) (outs : List (Out N S)) :
    Except Err (List (String × Val V)) := do
  let strengths ← densities.mapM fun d => weigh waa (evaluate d)
  outs.mapM (oneOutput stage1 places pot tks sks density.flatten strengths
    (kernelArgs evaluate true args))

/-! ## FMM execution -/

/-- `target.ndofs` -/
def Place.ndofs {P S : Type} : Place P S → Nat
  | .qbx d _ => d.flatten.length
  | .unregularized d => d.flatten.length
  | .discr gs => gs.flatten.length
  | .target p => p.length
  | .points p => p.length

/-- `flatten(target.nodes(), …)`: layer potential sources have no method `nodes` -/
def Place.flatNodes {P S : Type} : Place P S → Except Err (List P)
  | .qbx _ _ => .error .attribute
  | .unregularized _ => .error .attribute
  | .discr gs => .ok gs.flatten
  | .target p => .ok p
  | .points p => .ok p

/-- `isinstance(target_discr, Discretization)` and `unflatten` (`unregularized.py:302-305`) -/
def Place.unflat {P S V : Type} (l : List V) : Place P S → Val V
  | .discr gs => .dof (splitSizes (gs.map List.length) l)
  | _ => .flat l

/-- `assert o.qbx_forced_limit not in (-1, 1)` (`unregularized.py:239`) -/
def badLimit (l : Option Int) : Bool := l = some (-1) || l = some 1

/-- gathering the unique targets (`unregularized.py:235-247`) -/
def gather {N S P : Type} [DecidableEq N] [DecidableEq S] (places : List (N × Place P S)) :
    List (Out N S) → List (Dd N S × Nat) → List (Place P S) →
      Except Err (List (Dd N S × Nat) × List (Place P S))
  | [], dict, ts => .ok (dict, ts)
  | o :: os, dict, ts =>
    if badLimit o.limit then .error .assertion
    else
      match alookup o.target dict with
      | some _ => gather places os dict ts
      | none =>
        match getGeometry places o.target.geometry with
        | .error e => .error e
        | .ok p => gather places os (dict ++ [(o.target, ts.length)]) (ts ++ [p])

/-- `target_discr_starts` (`unregularized.py:452-460`) -/
def starts : Nat → List Nat → List Nat
  | n, [] => [n]
  | n, k :: ks => n :: starts (n + k) ks

/-- `copy_targets_kernel` into `targets[:, start:start+n]` (`unregularized.py:468-474`) -/
def blit {P : Type} (buf : List P) (start : Nat) (pts : List P) : List P :=
  buf.take start ++ pts ++ buf.drop (start + pts.length)

/-- the loop filling the target array (`unregularized.py:466-474`) -/
def fill {P : Type} (buf : List P) (blocks : List (Nat × List P)) : List P :=
  blocks.foldl (fun b q => blit b q.1 q.2) buf

/-- `target_info` (`unregularized.py:446-479`): the start offsets and the target array, initially zero -/
def targetInfo {S P : Type} (zero : P) (ts : List (Place P S)) : Except Err (List Nat × List P) := do
  let st := starts 0 (ts.map Place.ndofs)
  let nodes ← ts.mapM Place.flatNodes
  pure (st, fill (List.replicate (ts.map Place.ndofs).sum zero) (st.dropLast.zip nodes))

/-- `flatten_and_reorder_sources` (`source.py:403-416`): into tree source order -/
def reorder {V : Type} [Zero V] (ids : List Nat) : Val V → Val V
  | .scalar v => .scalar v
  | .flat l => .flat (ids.map fun j => l.getD j 0)
  | .dof gs => .flat (ids.map fun j => gs.flatten.getD j 0)

/-- one of the two dictionaries of `get_fmm_expansion_wrangler_extra_kwargs` (`source.py:418-432`):
the arguments with the given names -/
def extraKwargs {E V : Type} [Zero V] (evaluate : E → Val V) (ids : List Nat) (args : List (String × E))
    (names : List String) : Except Err (List (String × Val V)) :=
  names.mapM fun a =>
    match alookup a args with
    | some e => .ok (a, reorder ids (evaluate e))
    | none => .error .key

/-- `get_fmm_kernel` (`source.py:366-379`): all target kernels must have the same kernel under their
target transformations -/
def fmmKernelOk {TK B : Type} [DecidableEq B] (base : TK → B) : List TK → Bool
  | [] => true
  | k :: ks => ks.all fun k' => base k' = base k

/-- cutting out the result of one output (`unregularized.py:292-307`) -/
def cutOutput {N S P V : Type} [DecidableEq N] [DecidableEq S] (dict : List (Dd N S × Nat))
    (ts : List (Place P S)) (st : List Nat) (all : List (List V)) (o : Out N S) :
    Except Err (String × Val V) :=
  match alookup o.target dict with
  | none => .error .key
  | some i =>
    match st[i]?, st[i + 1]?, ts[i]? with
    | some a, some b, some p => do
      let r ← pick all o.kernel
      pure (o.name, p.unflat (slice r a b))
    | _, _, _ => .error .index

/-- what the FMM is given: source points, target points (both in user order), strengths (user order)
and kernel/source arguments (tree order) -/
structure FmmCall (P V : Type) where
  sources : List P
  targets : List P
  strengths : List (List V)
  kernelArgs : List (String × Val V)
  sourceArgs : List (String × Val V)

/-- the part of `exec_compute_potential_insn_fmm` preceding the FMM (`unregularized.py:231-286`): the
target dictionary, targets and offsets, and the call of the FMM. `sourceIds` is the tree's
`user_source_ids`, given source and target points -/
def prepareFmm {N S TK B P E V : Type} [DecidableEq N] [DecidableEq S] [DecidableEq B] [Semiring V]
    (zero : P) (places : List (N × Place P S)) (evaluate : E → Val V) (base : TK → B)
    (sourceIds : List P → List P → List Nat) (kernelNames sourceNames : List String)
    (density : List (List P)) (waa : List (List V)) (tks : List TK) (densities : List E)
    (args : List (String × E)) (outs : List (Out N S)) :
    Except Err ((List (Dd N S × Nat) × List (Place P S) × List Nat) × FmmCall P V) := do
  let r ← gather places outs [] []
  let strengths ← densities.mapM fun d => weigh waa (evaluate d)
  if fmmKernelOk base tks then
    let info ← targetInfo zero r.2
    let ids := sourceIds density.flatten info.2
    let ka ← extraKwargs evaluate ids args kernelNames
    let sa ← extraKwargs evaluate ids args sourceNames
    pure ((r.1, r.2, info.1), ⟨density.flatten, info.2, strengths, ka, sa⟩)
  else .error .assertion

/-- `exec_compute_potential_insn_fmm` (`unregularized.py:231-310`) with the FMM a parameter -/
def execFmm {N S TK B P E V : Type} [DecidableEq N] [DecidableEq S] [DecidableEq B] [Semiring V]
    (zero : P) (places : List (N × Place P S)) (evaluate : E → Val V) (base : TK → B)
    (sourceIds : List P → List P → List Nat) (kernelNames sourceNames : List String)
    (fmm : FmmCall P V → List (List V))
    (density : List (List P)) (waa : List (List V)) (tks : List TK) (densities : List E)
    (args : List (String × E)) (outs : List (Out N S)) : Except Err (List (String × Val V)) := do
  let c ← prepareFmm zero places evaluate base sourceIds kernelNames sourceNames density waa tks
    densities args outs
  outs.mapM (cutOutput c.1.1 c.1.2.1 c.1.2.2 (fmm c.2))

/-- `exec_compute_potential_insn` (`unregularized.py:122-135`): `fmm_level_to_order is False` means
direct evaluation -/
def execUnregularized {R : Type} (fmmOrderFalse : Bool) (direct fmm : R) : R :=
  if fmmOrderFalse then direct else fmm

/-! ## Specification -/

namespace Spec

/-- a source node: its position, quadrature weight, the density values and kernel arguments there -/
structure Node (P V : Type) where
  pt : P
  weight : V
  density : Nat → V
  arg : String → V

/-- the potential at `x`: the sum over all source nodes and source kernels of kernel times source
strength -/
def potential {TK SK P V : Type} [Semiring V] (pot : TK → SK → P → P → (String → V) → V)
    (sks : List SK) (strength : Node P V → Nat → V) (nodes : List (Node P V)) (tk : TK) (x : P) : V :=
  (nodes.map fun y =>
    ((sks.zipIdx).map fun s => pot tk s.1 x y.pt y.arg * strength y s.2).sum).sum

/-- the points of a target: what a `(geometry, stage)` pair in an output stands for -/
inductive IsTarget {N P S : Type} (stage1 : S) (places : N → Option (Place P S)) :
    N → Option S → Geo P → Prop
  | qbx {g d f} (h : places g = some (.qbx d f)) (s : S) : IsTarget stage1 places g (some s) (.discr (f s))
  | qbxDefault {g d f} (h : places g = some (.qbx d f)) : IsTarget stage1 places g none (.discr (f stage1))
  | unregularized {g d} (h : places g = some (.unregularized d)) (s) :
      IsTarget stage1 places g s (.discr d)
  | discr {g gs} (h : places g = some (.discr gs)) (s) : IsTarget stage1 places g s (.discr gs)
  | target {g p} (h : places g = some (.target p)) (s) : IsTarget stage1 places g s (.pts p)
  | points {g p} (h : places g = some (.points p)) (s) : IsTarget stage1 places g s (.pts p)

/-- a function of the points of a target, in the form in which results are returned: group by group
for a discretization, flat otherwise -/
def onTarget {P V : Type} (f : P → V) : Geo P → Val V
  | .discr gs => .dof (gs.map fun g => g.map f)
  | .pts l => .flat (l.map f)

/-- the value of an operand represents the function `f` of the nodes: a constant, the values node by
node, or group by group -/
inductive Represents {P V : Type} (nodes : List (List (Node P V))) (f : Node P V → V) : Val V → Prop
  | const (v : V) (h : ∀ g ∈ nodes, ∀ y ∈ g, f y = v) : Represents nodes f (.scalar v)
  | flat : Represents nodes f (.flat ((nodes.flatten).map f))
  | dof : Represents nodes f (.dof (nodes.map fun g => g.map f))

/-- all results are as they should be: same order and names as the outputs, each the potential of its
target kernel on its own target -/
def Correct {N S TK P V : Type} (stage1 : S) (places : N → Option (Place P S)) (tks : List TK)
    (pot : TK → P → V) (outs : List (Out N S)) (rs : List (String × Val V)) : Prop :=
  rs.length = outs.length ∧
  ∀ (i : Nat) (o : Out N S) (g : Geo P) (tk : TK), outs[i]? = some o →
    IsTarget stage1 places o.target.geometry o.target.stage g → tks[o.kernel]? = some tk →
    rs[i]? = some (o.name, onTarget (pot tk) g)

/-- the FMM computes the sums it stands for: source `j` of the call is number `i` in the tree if
`ids[i] = j`, and its kernel arguments are found at position `i` -/
def FmmExact {TK SK P V : Type} [Semiring V] (pot : TK → SK → P → P → (String → V) → V)
    (tks : List TK) (sks : List SK) (sourceIds : List P → List P → List Nat)
    (fmm : FmmCall P V → List (List V)) : Prop :=
  ∀ c : FmmCall P V,
    callOk sks.length c.sources c.strengths (c.kernelArgs ++ c.sourceArgs) = true →
    fmm c = tks.map fun tk => c.targets.map fun x =>
      ((sourceIds c.sources c.targets).zipIdx.map fun ji =>
        match c.sources[ji.1]? with
        | none => 0
        | some y => ((sks.zip c.strengths).map fun s =>
            pot tk s.1 x y (argsAt (c.kernelArgs ++ c.sourceArgs) ji.2) * s.2.getD ji.1 0).sum).sum

end Spec

end Verif.SrcExec
