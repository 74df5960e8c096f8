import Verif.Collection.Construct
import Verif.Symbolic.DofDesc

/-!
# Geometry collections, their caches, and connections (C19, C20, C21): model

Model of the cache handling of `GeometryCollection` (`pytential/collection.py:246-520`),
of `_refine_for_global_qbx` and `refine_geometry_collection`
(`pytential/qbx/refinement.py:898-1080`) and of `connection_from_dds`
(`pytential/symbolic/dof_connection.py:183-280`).

Collections live on a heap (a list; the address is the position), because the claims are
about independence of Python objects.  Discretizations are object identities (numbers).
The numerical work of one refinement step is an arbitrary oracle: it is told the running
number of the call, the source, the stage and the discretization to start from, and
either raises or yields a discretization and a connection object between the two.
-/

namespace Verif.Coll

open Verif.DofDesc (Stage Gran)

/-- a discretization connection: object identity, `from_discr`, `to_discr` -/
structure Conn where
  uid : Nat
  src : Nat
  dst : Nat
  deriving DecidableEq, Repr

/-- exceptions -/
inductive GErr
  /-- `KeyError`: name not in the collection -/
  | key
  /-- `KeyError` of `_get_conn_from_cache` escaping to the caller -/
  | cacheKey
  /-- `TypeError`/`NotADiscretizationError` -/
  | type
  | value
  /-- `RuntimeError: trying to overwrite the ... cache` -/
  | overwrite
  /-- raised inside a refinement step -/
  | refine
  /-- raised by the constructor of the collection -/
  | ctor (x : CErr)
  deriving DecidableEq, Repr

/-- The world outside the collection: `dens g` is the discretization stored in the
geometry `g` (`density_discr` of a layer potential source, the object itself if it is a
discretization); `refine n g s d` is the outcome of refinement call number `n`. -/
structure Env where
  valid : String → Bool
  dens : Geo → Nat
  refine : Nat → Geo → Stage → Nat → Option (Nat × Nat)

/-- Keys of `_caches` besides the two the collection uses itself: the evaluation mapper's
(`execution.py:318-320`) and all others. -/
inductive CacheKey | evaluation | unknown (n : Nat)
  deriving DecidableEq, Repr

/-- A `GeometryCollection` object: the result of construction plus `_caches`
(`collection.py:232-236`, `248-312`).  Python dictionaries that are only ever looked up by
key are partial functions. -/
structure Coll where
  places : List (GeoId × Geo)
  autoSource : GeoId
  autoTarget : GeoId
  discr : GeoId → Stage → Option Nat
  conn : GeoId → Option Stage → Stage → Option Conn
  extra : CacheKey → Nat → Option Nat

/-- a freshly constructed collection has empty caches (`collection.py:236`) -/
def Coll.fresh (b : Built) : Coll :=
  ⟨b.places, b.autoSource, b.autoTarget, fun _ _ => none, fun _ _ _ => none, fun _ _ => none⟩

/-- `_add_discr_to_cache` (`collection.py:267-279`) -/
def Coll.addDiscr (c : Coll) (d : Nat) (g : GeoId) (s : Stage) : Except GErr Coll :=
  if (c.discr g s).isSome then .error .overwrite
  else .ok { c with discr := fun g' s' => if g' = g ∧ s' = s then some d else c.discr g' s' }

/-- `_add_conn_to_cache` (`collection.py:297-312`) -/
def Coll.addConn (c : Coll) (k : Conn) (g : GeoId) (f : Option Stage) (s : Stage) :
    Except GErr Coll :=
  if (c.conn g f s).isSome then .error .overwrite
  else .ok { c with conn := fun g' f' s' =>
    if g' = g ∧ f' = f ∧ s' = s then some k else c.conn g' f' s' }

/-- `add_to_cache` (`refinement.py:957-959`): if the second write fails the first has
happened. -/
def Coll.addBoth (c : Coll) (d : Nat) (k : Conn) (g : GeoId) (f : Option Stage) (s : Stage) :
    Option GErr × Coll :=
  match c.addDiscr d g s with
  | .error x => (some x, c)
  | .ok c1 => match c1.addConn k g f s with
    | .error x => (some x, c1)
    | .ok c2 => (none, c2)

/-- `get_from_cache` (`refinement.py:961-964`); `none` is `KeyError` -/
def Coll.getBoth (c : Coll) (g : GeoId) (f : Option Stage) (s : Stage) : Option (Nat × Conn) :=
  match c.discr g s, c.conn g f s with
  | some d, some k => some (d, k)
  | _, _ => none

/-- one `try: get_from_cache ... except KeyError: refine, add_to_cache` block
(`refinement.py:973-988`, `990-1002`, `1004-1010`) -/
def stageBlock (e : Env) (geo : GeoId) (g : Geo) (f : Option Stage) (s : Stage)
    (c : Coll) (n : Nat) (discr : Nat) : Except GErr Nat × Coll × Nat :=
  match c.getBoth geo f s with
  | some (d, _) => (.ok d, c, n)
  | none => match e.refine n g s discr with
    | none => (.error .refine, c, n + 1)
    | some (d, u) => match c.addBoth d ⟨u, discr, d⟩ geo f s with
      | (some x, c') => (.error x, c', n + 1)
      | (none, c') => (.ok d, c', n + 1)

/-- `stage_index_map` (`refinement.py:943-947`) -/
def stageIndex : Stage → Nat
  | .stage1 => 1
  | .stage2 => 2
  | .quadStage2 => 3

/-- `_refine_for_global_qbx(..., _copy_collection=False)` (`refinement.py:900-1014`).
The parameters of refinement are part of the oracle. -/
def refineForGlobalQbx (e : Env) (c : Coll) (n : Nat) (geo : GeoId) (s : Stage) :
    Except GErr Unit × Coll × Nat :=
  match lookupD c.places geo with
  | none => (.error .key, c, n)
  | some g =>
    if g.kind ≠ .qbx then (.error .type, c, n)
    else match stageBlock e geo g none .stage1 c n (e.dens g) with
      | (.error x, c1, n1) => (.error x, c1, n1)
      | (.ok d1, c1, n1) =>
        if stageIndex s ≥ 2 then
          match stageBlock e geo g (some .stage1) .stage2 c1 n1 d1 with
          | (.error x, c2, n2) => (.error x, c2, n2)
          | (.ok d2, c2, n2) =>
            if stageIndex s ≥ 3 then
              match stageBlock e geo g (some .stage2) .quadStage2 c2 n2 d2 with
              | (.error x, c3, n3) => (.error x, c3, n3)
              | (.ok _, c3, n3) => (.ok (), c3, n3)
            else (.ok (), c2, n2)
        else (.ok (), c1, n1)

/-- `_get_qbx_discretization` (`collection.py:314-334`) -/
def getQbx (e : Env) (c : Coll) (n : Nat) (geo : GeoId) (s : Stage) :
    Except GErr Nat × Coll × Nat :=
  match c.discr geo s with
  | some d => (.ok d, c, n)
  | none => match refineForGlobalQbx e c n geo s with
    | (.error x, c', n') => (.error x, c', n')
    | (.ok _, c', n') => match c'.discr geo s with
      | some d => (.ok d, c', n')
      | none => (.error .cacheKey, c', n')

/-- `get_discretization` with `_get_discretization_or_geometry` and
`get_target_or_discretization` (`collection.py:352-417`): the stage defaults to stage 1;
QBX sources are refined on demand, other layer potential sources have their density
discretization, a discretization stands for itself, everything else raises
`NotADiscretizationError`. -/
def getDiscr (e : Env) (c : Coll) (n : Nat) (geo : GeoId) (s : Option Stage) :
    Except GErr Nat × Coll × Nat :=
  match lookupD c.places geo with
  | none => (.error .key, c, n)
  | some g => match g.kind with
    | .qbx => getQbx e c n geo (s.getD .stage1)
    | .unregularized => (.ok (e.dens g), c, n)
    | .discr => (.ok (e.dens g), c, n)
    | _ => (.error .type, c, n)

/-- a descriptor with a geometry identifier of a collection -/
structure DDesc where
  geo : GeoId
  stage : Option Stage
  gran : Gran
  deriving DecidableEq, Repr

/-- `stage_name_to_index_map` (`dof_connection.py:239-244`) -/
def stageNameIndex : Option Stage → Nat
  | none => 0
  | some s => stageIndex s

/-- the inverse map (`dof_connection.py:237-238`); three is the last stage -/
def stageOfIndex : Nat → Option Stage
  | 0 => none
  | 1 => some .stage1
  | 2 => some .stage2
  | _ => some .quadStage2

/-- the loop over `range(from_stage, to_stage)` (`dof_connection.py:243-248`), `k` rounds
starting with `i` -/
def connLoop (c : Coll) (geo : GeoId) (i : Nat) : Nat → Except GErr (List Conn)
  | 0 => .ok []
  | k + 1 => match stageOfIndex (i + 1) with
    | none => .error .cacheKey
    | some s => match c.conn geo (stageOfIndex i) s with
      | none => .error .cacheKey
      | some x => match connLoop c geo (i + 1) k with
        | .error y => .error y
        | .ok xs => .ok (x :: xs)

/-- The part of `connection_from_dds` after both discretizations have been looked up
(`dof_connection.py:216-278`), for the source `lpot` of the collection state `c`.  The
result is a chained connection: its `from_discr` and its list of connections; the
`DOFConnection` branch at the end can not be reached, see `connTail_ok`. -/
def connTail (c : Coll) (lpot : Geo) (fromDiscr : Nat) (f t : DDesc) :
    Except GErr (Nat × List Conn) :=
  if f.geo ≠ t.geo then .error .value
  else if f.gran ≠ .node then .error .value
  else
    match
      if f.stage = t.stage then (.ok [] : Except GErr (List Conn))
      else if lpot.kind ≠ .qbx then .error .value
      else if t.stage ≠ some .quadStage2 then .error .value
      else connLoop c f.geo (stageNameIndex f.stage)
        (stageNameIndex t.stage - stageNameIndex f.stage) with
    | .error x => .error x
    | .ok xs =>
      if f.gran ≠ t.gran then
        match t.gran with
        | .node => .ok (fromDiscr, xs)
        | .center => .error .value
        | .element => .error .value
      else .ok (fromDiscr, xs)

/-- `connection_from_dds(places, from_dd, to_dd)` (`dof_connection.py:183-280`) -/
def connection (e : Env) (c : Coll) (n : Nat) (f t : DDesc) :
    Except GErr (Nat × List Conn) × Coll × Nat :=
  match lookupD c.places f.geo with
  | none => (.error .key, c, n)
  | some lpot => match getDiscr e c n f.geo f.stage with
    | (.error x, c1, n1) => (.error x, c1, n1)
    | (.ok fd, c1, n1) => match getDiscr e c1 n1 t.geo t.stage with
      | (.error x, c2, n2) => (.error x, c2, n2)
      | (.ok _, c2, n2) => (connTail c2 lpot fd f t, c2, n2)

/-- `GeometryCollection(...)` with fresh caches -/
def newColl (e : Env) (a : PlacesArg) (w : AutoArg) : Except GErr Coll :=
  match construct e.valid a w with
  | .error x => .error (.ctor x)
  | .ok b => .ok (Coll.fresh b)

/-- `copy()` with optional replacement places (`collection.py:419-427`) -/
def copyColl (e : Env) (c : Coll) (places : List (GeoId × Geo)) : Except GErr Coll :=
  newColl e (.mapping places) (.two c.autoSource c.autoTarget)

/-- `merge` (`collection.py:429-447`): `dict(self.places)` then `update` -/
def mergeColl (e : Env) (c : Coll) (m : List (GeoId × Geo)) : Except GErr Coll :=
  copyColl e c (m.foldl (fun acc p => insertD acc p.1 p.2) c.places)

/-- the checks of `add_geometry_to_collection` (`collection.py:482-491`), in order -/
def addChecks (c : Coll) : List (GeoId × Geo) → Except GErr Unit
  | [] => .ok ()
  | (k, g) :: m =>
    if (lookupD c.places k).isSome then .error .value
    else if g.kind ≠ .target ∧ g.kind ≠ .pointSource then .error .type
    else addChecks c m

/-- the cache loop of `add_geometry_to_collection` (`collection.py:493-508`): the new
collection's caches are empty, the three known ones are copied entry by entry, others are
dropped with a warning. -/
def copyCaches (c c' : Coll) : Coll :=
  { c' with
    discr := fun g s => (c.discr g s).or (c'.discr g s)
    conn := fun g f s => (c.conn g f s).or (c'.conn g f s)
    extra := fun k i => if k = .evaluation then (c.extra k i).or (c'.extra k i) else c'.extra k i }

/-- `add_geometry_to_collection` (`collection.py:463-510`) -/
def addGeometry (e : Env) (c : Coll) (m : List (GeoId × Geo)) : Except GErr Coll :=
  match addChecks c m with
  | .error x => .error x
  | .ok _ => match mergeColl e c m with
    | .error x => .error x
    | .ok c' => .ok (copyCaches c c')

/-- loop of `refine_geometry_collection` over the geometries (`refinement.py:1060-1078`) -/
def refineLoop (e : Env) (s : Stage) : List (GeoId × Geo) → Coll → Nat →
    Except GErr Unit × Coll × Nat
  | [], c, n => (.ok (), c, n)
  | (k, g) :: m, c, n =>
    if g.kind ≠ .qbx then refineLoop e s m c n
    else match refineForGlobalQbx e c n k s with
      | (.error x, c', n') => (.error x, c', n')
      | (.ok _, c', n') => refineLoop e s m c' n'

/-- heap of collections and number of refinement calls so far -/
structure World where
  heap : List Coll
  calls : Nat

/-- the empty start -/
def World.init : World := ⟨[], 0⟩

/-- What a program can do with collections.  `evalCache` stands for the evaluation
mapper (or anything else) storing an entry in one of the other caches
(`execution.py:272-276`, `316-330`, `matrix.py:421`). -/
inductive Op
  | new (a : PlacesArg) (w : AutoArg)
  | get (c : Nat) (geo : GeoId) (s : Option Stage)
  | conn (c : Nat) (f t : DDesc)
  | copy (c : Nat)
  | merge (c d : Nat)
  | mergeMap (c : Nat) (m : List (GeoId × Geo))
  | add (c : Nat) (m : List (GeoId × Geo))
  | refine (c : Nat) (s : Stage)
  | evalCache (c : Nat) (k : CacheKey) (i v : Nat)

/-- results -/
inductive Res
  | none
  | discr (d : Nat)
  | conn (start : Nat) (chain : List Conn)
  | coll (addr : Nat)
  deriving DecidableEq, Repr

/-- put a new collection on the heap -/
def World.push (w : World) : Except GErr Coll → Except GErr Res × World
  | .error x => (.error x, w)
  | .ok c => (.ok (.coll w.heap.length), { w with heap := w.heap ++ [c] })

/-- `cache[i] = v` in one of the other caches (`execution.py:316-330`) -/
def Coll.store (c : Coll) (k : CacheKey) (i v : Nat) : Coll :=
  { c with extra := fun k' i' => if k' = k ∧ i' = i then some v else c.extra k' i' }

/-- one operation; addresses that do not exist cannot occur in a program (`key`) -/
def step (e : Env) (w : World) : Op → Except GErr Res × World
  | .new a au => w.push (newColl e a au)
  | .get i geo s => match w.heap[i]? with
    | none => (.error .key, w)
    | some c => match getDiscr e c w.calls geo s with
      | (.error x, c', n') => (.error x, ⟨w.heap.set i c', n'⟩)
      | (.ok d, c', n') => (.ok (.discr d), ⟨w.heap.set i c', n'⟩)
  | .conn i f t => match w.heap[i]? with
    | none => (.error .key, w)
    | some c => match connection e c w.calls f t with
      | (.error x, c', n') => (.error x, ⟨w.heap.set i c', n'⟩)
      | (.ok (d, xs), c', n') => (.ok (.conn d xs), ⟨w.heap.set i c', n'⟩)
  | .copy i => match w.heap[i]? with
    | none => (.error .key, w)
    | some c => w.push (copyColl e c c.places)
  | .merge i j => match w.heap[i]?, w.heap[j]? with
    | some c, some d => w.push (mergeColl e c d.places)
    | _, _ => (.error .key, w)
  | .mergeMap i m => match w.heap[i]? with
    | none => (.error .key, w)
    | some c => w.push (mergeColl e c m)
  | .add i m => match w.heap[i]? with
    | none => (.error .key, w)
    | some c => w.push (addGeometry e c m)
  | .refine i s => match w.heap[i]? with
    | none => (.error .key, w)
    | some c => match copyColl e c c.places with
      | .error x => (.error x, w)
      | .ok c0 => match refineLoop e s c0.places c0 w.calls with
        | (.error x, _, n') => (.error x, { w with calls := n' })
        | (.ok _, c', n') => (.ok (.coll w.heap.length), ⟨w.heap ++ [c'], n'⟩)
  | .evalCache i k j v => match w.heap[i]? with
    | none => (.error .key, w)
    | some c => (.ok .none, { w with heap := w.heap.set i (c.store k j v) })

/-- run a program (exceptions are caught by the program and it goes on) -/
def run (e : Env) : World → List Op → World
  | w, [] => w
  | w, o :: os => run e (step e w o).2 os

end Verif.Coll
