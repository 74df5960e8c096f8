import Verif.Symbolic.DofDesc
import Verif.Util.Lists

/-!
# Programs and arrays that are kept for reuse (C99)

Helpers all over the library generate a program (for the array context), bind an expression (for a discretization) or flatten arrays
(for a collection of geometries) and keep the result with `memoize_in`, `memoize_on_first_arg`, under an identifier that the author
of the helper picks.  The decorated inner functions also read variables of the enclosing functions, which are *not* part of the key
unless they were put in the identifier.
-/

namespace Verif.Memo
open Verif.DofDesc (DD)

/-! ## `memoize_in` -/

section
variable {K V E C : Type} [DecidableEq K]

/-- a call of a decorated function (`pytools.memoize_in`, not in the repository): look the identifier and the arguments up, else run
the inner function and store the result; an exception passes through and is not stored -/
def call (key : C → K) (compute : C → Except E V) (s : List (K × V)) (c : C) : Except E V × List (K × V) :=
  match alookup (key c) s with
  | some v => (.ok v, s)
  | none =>
    match compute c with
    | .ok v => (.ok v, (key c, v) :: s)
    | .error e => (.error e, s)

/-- what the container has stored after the calls `cs`, the latest first -/
def history (key : C → K) (compute : C → Except E V) : List C → List (K × V)
  | [] => []
  | c :: cs => (call key compute (history key compute cs) c).2

/-- the oldest of the calls (latest first) with key `k` that succeeds -/
def firstOk (key : C → K) (compute : C → Except E V) (k : K) : List C → Option V
  | [] => none
  | c :: cs =>
    match firstOk key compute k cs with
    | some v => some v
    | none => if key c = k then (compute c).toOption else none

theorem lookup_history (key : C → K) (compute : C → Except E V) (k : K) (cs : List C) :
    alookup k (history key compute cs) = firstOk key compute k cs := by
  induction cs with
  | nil => rfl
  | cons c cs ih =>
    unfold history call firstOk
    by_cases hk : key c = k
    · subst hk
      rw [ih]
      cases h : firstOk key compute (key c) cs with
      | some v => simp [ih, h]
      | none =>
        cases hc : compute c with
        | ok v => simp [alookup, Except.toOption]
        | error e => simp [ih, h, Except.toOption]
    · rw [← ih]
      cases h : alookup (key c) (history key compute cs) with
      | some v => cases h' : alookup k (history key compute cs) <;> simp [hk, h']
      | none =>
        cases hc : compute c with
        | ok v => cases h' : alookup k (history key compute cs) <;> simp [alookup, hk, h']
        | error e => cases h' : alookup k (history key compute cs) <;> simp [hk, h']

theorem firstOk_mem {key : C → K} {compute : C → Except E V} {k : K} {v : V} :
    ∀ {cs : List C}, firstOk key compute k cs = some v → ∃ c ∈ cs, key c = k ∧ compute c = .ok v := by
  intro cs
  induction cs with
  | nil => intro h; cases h
  | cons c cs ih =>
    intro h
    unfold firstOk at h
    cases h' : firstOk key compute k cs with
    | some w =>
      rw [h'] at h
      obtain ⟨c', m, a, b⟩ := ih (by rw [h']; exact h)
      exact ⟨c', List.mem_cons_of_mem _ m, a, b⟩
    | none =>
      rw [h'] at h
      by_cases hk : key c = k
      · simp only [hk, if_true] at h
        cases hc : compute c with
        | ok w => rw [hc] at h; simp only [Except.toOption, Option.some.injEq] at h; exact ⟨c, by simp, hk, by rw [hc, h]⟩
        | error e => rw [hc] at h; cases h
      · simp [hk] at h

/-- if the key determines the result among the calls made, every call returns what its own inner function computes -/
theorem transparent {key : C → K} {compute : C → Except E V} (cs : List C) (c : C)
    (h : ∀ c' ∈ cs, key c' = key c → compute c' = compute c) :
    (call key compute (history key compute cs) c).1 = compute c := by
  unfold call
  cases hl : alookup (key c) (history key compute cs) with
  | none => cases compute c <;> rfl
  | some v =>
    rw [lookup_history] at hl
    obtain ⟨c', m, a, b⟩ := firstOk_mem hl
    rw [← h c' m a, b]

end

/-! ## the programs -/

/-- the scalar types that occur in generated programs -/
inductive Dt | int32 | int64 | float32 | float64
deriving DecidableEq

/-- `dtype_to_ctype` -/
def Dt.ctype : Dt → String
  | .int32 => "int"
  | .int64 => "long"
  | .float32 => "float"
  | .float64 => "double"

/-- parts of identifiers and arguments: functions and classes (compared by identity: the name stands for the object), containers
other than the array context, strings, integers, flags, data types, and `None` -/
inductive Part
  | fn (name : String)
  | obj (n : Nat)
  | str (s : String)
  | int (n : Nat)
  | flag (b : Bool)
  | dt (d : Dt)
  | none
deriving DecidableEq

/-- one use of a helper that keeps its program, with the variables its inner function reads.  Discretizations are numbered.

`elementwise…`: `execution.py:184-217`; `interleave`: `dof_connection.py:84-107`; `clusterCenters`, `clusterRadii`,
`clusterQbxRadii`, `picker`: `proxy.py:325-377, 547-584, 597-646, 731-757`; `clusterMean`: `skeletonization.py:136-152`;
`indexProduct`: `utils.py:280-320`; `fillIndex`, `countCenters`, `processM2QBXL`: `cost.py:591-617, 624-665, 729-765`;
`qbxContainer`: `geometry.py:284-303`; `refiner`, `targetAssoc`, `treeCode`, `translations`: `refinement.py:352-357`,
`target_assoc.py:522-528`, `qbx/utils.py:110-116`, `fmm.py:399-407`; `integralOp`, `norm2Op`, `normInfOp`:
`pytential/__init__.py:73-113` -/
inductive Site
  | elementwiseNode (reduction : String)
  | elementwiseElement (reduction : String)
  | interleave
  | clusterCenters (ndim : Nat) (normType : String)
  | clusterRadii (ndim : Nat)
  | clusterQbxRadii (ndim : Nat)
  | picker (ambientDim : Nat)
  | clusterMean
  | indexProduct
  | fillIndex (idx ary : Dt)
  | countCenters (box particle : Dt)
  | processM2QBXL (box particle : Dt)
  | qbxContainer (ambientDim : Nat) (debug : Bool) (nAway : Nat) (crit : String)
  | refiner
  | targetAssoc
  | treeCode
  | translations
  | integralOp (discr : Nat)
  | norm2Op (discr : Nat) (components : Option Nat)
  | normInfOp (discr : Nat) (components : Option Nat)
deriving DecidableEq

/-- `None` or an integer, as an argument -/
def optPart : Option Nat → Part
  | .none => .none
  | some n => .int n

/-- container, identifier and arguments of the inner function, at the lines given at `Site`.  `memoize_on_first_arg` keeps its
results at the first argument, under the function -/
def key : Site → List Part × List Part
  | .elementwiseNode r => ([.fn "EvaluationMapperBase._map_elementwise_reduction", .str ("elementwise_node_" ++ r)], [])
  | .elementwiseElement r => ([.fn "EvaluationMapperBase._map_elementwise_reduction", .str ("elementwise_element_" ++ r)], [])
  | .interleave => ([.fn "interleave_dof_arrays", .str "interleave"], [])
  | .clusterCenters n t => ([.fn "make_compute_cluster_centers_kernel_ex", .int n, .str t], [])
  | .clusterRadii n => ([.fn "make_compute_cluster_radii_kernel_ex", .int n], [])
  | .clusterQbxRadii n => ([.fn "make_compute_cluster_qbx_radii_kernel_ex", .int n], [])
  | .picker n => ([.fn "gather_cluster_neighbor_points", .int n, .str "picker_knl"], [])
  | .clusterMean => ([.fn "_approximate_geometry_waa_magnitude", .str "mean_over_cluster"], [])
  | .indexProduct => ([.fn "make_index_cluster_cartesian_product", .str "index_product_knl"], [])
  | .fillIndex i a => ([.fn "QBXCostModel._fill_array_with_index_knl", .dt i, .dt a], [])
  | .countCenters b p => ([.fn "QBXCostModel.count_global_qbx_centers_knl", .dt b, .dt p], [])
  | .processM2QBXL b p => ([.fn "QBXCostModel.process_m2qbxl_knl", .dt b, .dt p], [])
  | .qbxContainer n d w c =>
    ([.fn "QBXFMMGeometryDataCodeContainer", .fn "qbx_fmm_geometry_data_code_container"], [.int n, .flag d, .int w, .str c])
  | .refiner => ([.fn "RefinerCodeContainer", .fn "refiner_code_container"], [])
  | .targetAssoc => ([.fn "TargetAssociationCodeContainer", .fn "target_association_code_container"], [])
  | .treeCode => ([.fn "TreeCodeContainer", .fn "tree_code_container"], [])
  | .translations => ([.fn "QBXExpansionWrangler", .fn "translation_classes_builder"], [])
  | .integralOp d => ([.obj d, .fn "_integral_op"], [])
  | .norm2Op d n => ([.obj d, .fn "_norm_2_op"], [optPart n])
  | .normInfOp d n => ([.obj d, .fn "_norm_inf_op"], [optPart n])

/-- what is kept: a loopy program (instructions, fixed parameters, name), an elementwise kernel (arguments, operation, name), an
object (class and constructor arguments), or an expression bound to a discretization (the integrand or maximand) -/
inductive Program
  | loopy (insns : String) (fixed : List (String × Nat)) (name : String)
  | elementwise (args op name : String)
  | object (cls : String) (args : List Part)
  | bound (discr : Nat) (op : String) (components : Option Nat)
deriving DecidableEq

/-- `ValueError` for an unknown norm (`proxy.py:346`) -/
inductive Err | value
deriving DecidableEq

/-- the instructions that compute the centers (`proxy.py:329-346`) -/
def centerInsns (normType : String) : Except Err String :=
  if normType = "l2" then
    .ok "proxy_center[idim, icluster] = 1.0 / npoints * simul_reduce(sum, i, sources[idim, srcindices[i + ioffset]])"
  else if normType = "linf" then
    .ok ("<> bbox_max = simul_reduce(max, i, sources[idim, srcindices[i + ioffset]]); " ++
      "<> bbox_min = simul_reduce(min, i, sources[idim, srcindices[i + ioffset]]); " ++
      "proxy_center[idim, icluster] = (bbox_max + bbox_min) / 2.0")
  else .error .value

/-- the inner function, at the lines given at `Site`: the program for the variables of *this* call.  Instructions are abridged
where they do not depend on variables -/
def compute : Site → Except Err Program
  | .elementwiseNode r => .ok (.loopy ("<> el_result = " ++ r ++ "(jdof, operand[iel, jdof]); result[iel, idof] = el_result") []
      ("elementwise_node_" ++ r))
  | .elementwiseElement r => .ok (.loopy ("result[iel, 0] = " ++ r ++ "(jdof, operand[iel, jdof])") [] ("elementwise_element_" ++ r))
  | .interleave => .ok (.loopy "result[iel, 2*idof] = ary1[iel, idof]; result[iel, 2*idof + 1] = ary2[iel, idof]" [] "interleave")
  | .clusterCenters n t =>
    match centerInsns t with
    | .error e => .error e
    | .ok insns => .ok (.loopy insns [("ndim", n)] "compute_cluster_centers_knl")
  | .clusterRadii n => .ok (.loopy "<> cluster_radius = reduce(max, i, sqrt(...)); proxy_radius[icluster] = cluster_radius"
      [("ndim", n)] "compute_cluster_radii_knl")
  | .clusterQbxRadii n => .ok (.loopy "<> rqbx = rqbx_int if rqbx_ext < rqbx_int else rqbx_ext; proxy_radius[icluster] = rqbx"
      [("ndim", n)] "compute_cluster_qbx_radii_knl")
  | .picker n => .ok (.loopy "result[idim, i] = ary[idim, srcindices[i]]" [("ndim", n)] "picker_knl")
  | .clusterMean => .ok (.loopy "result[icluster] = reduce(sum, i, waa[indices[i + ioffset]]) / npoints" [] "loopy_kernel")
  | .indexProduct => .ok (.loopy ("tgtproduct[offset + nsources * i + j] = tgtindices[tgtstart + i]; " ++
      "srcproduct[offset + nsources * i + j] = srcindices[srcstart + j]") [] "index_product_knl")
  | .fillIndex i a => .ok (.elementwise (i.ctype ++ " *index, " ++ a.ctype ++ " *array, " ++ a.ctype ++ " val")
      "array[index[i]] = val;" "fill_array_with_index")
  | .countCenters b p => .ok (.elementwise (p.ctype ++ " *nqbx_centers_itgt_box, " ++ p.ctype ++ " *global_qbx_center_weight, " ++
        b.ctype ++ " *target_boxes, " ++ p.ctype ++ " *box_target_starts, " ++ p.ctype ++ " *box_target_counts_nonchild")
      (b.ctype ++ " global_box_id = target_boxes[i]; " ++ p.ctype ++ " start = box_target_starts[global_box_id]; ...")
      "count_global_qbx_centers")
  | .processM2QBXL b p => .ok (.elementwise (b.ctype ++ " *idx_to_itgt_box, " ++ p.ctype ++ " *nqbx_centers_itgt_box, " ++
        b.ctype ++ " *ssn_starts, double *nm2qbxl, double m2qbxl_cost")
      (b.ctype ++ " itgt_box = idx_to_itgt_box[i]; " ++ p.ctype ++ " nqbx_centers = nqbx_centers_itgt_box[itgt_box]; ...")
      "process_m2qbxl")
  | .qbxContainer n d w c => .ok (.object "QBXFMMGeometryDataCodeContainer" [.int n, .flag d, .int w, .str c])
  | .refiner => .ok (.object "RefinerCodeContainer" [])
  | .targetAssoc => .ok (.object "TargetAssociationCodeContainer" [])
  | .treeCode => .ok (.object "TreeCodeContainer" [])
  | .translations => .ok (.object "TranslationClassesBuilder" [])
  | .integralOp d => .ok (.bound d "integral(integrand)" .none)
  | .norm2Op d n => .ok (.bound d (if n = .none then "integral(abs(integrand)**2)" else "integral(real(dot(conj(v), v)))") n)
  | .normInfOp d n => .ok (.bound d (if n = .none then "node_max(abs(arg))" else "node_max(abs(v))") n)

theorem optPart_inj {a b : Option Nat} (h : optPart a = optPart b) : a = b := by
  cases a <;> cases b <;> simp [optPart] at h ⊢
  exact h

theorem str_append_left {p a b : String} (h : p ++ a = p ++ b) : a = b := by
  have := congrArg String.toList h
  simpa [String.ext_iff] using this

theorem node_ne_element (a b : String) : "elementwise_node_" ++ a ≠ "elementwise_element_" ++ b := by
  intro h
  have h2 := congrArg (fun s => s.toList[12]?) h
  simp [String.toList_append] at h2

theorem key_inj {s t : Site} (h : key s = key t) : s = t := by
  cases s <;> cases t <;> simp [key] at h ⊢ <;>
    first
    | exact h
    | exact str_append_left h
    | exact absurd h (node_ne_element _ _)
    | exact absurd h.symm (node_ne_element _ _)
    | exact ⟨h.1, optPart_inj h.2⟩
    | exact ⟨h.1, h.2⟩

/-- C99 (programs): in one array context, whatever helpers have been used before and with which parameters, failing ones included,
a helper returns exactly the program for the parameters of its own call, or raises as it would at first. -/
theorem C99_programs (cs : List Site) (c : Site) : (call key compute (history key compute cs) c).1 = compute c :=
  transparent cs c fun c' _ h => by rw [key_inj h]

/-- an unknown norm fails and is not kept, the centers for another norm and dimension are their own -/
example : let cs : List Site := [.clusterCenters 2 "linf", .clusterCenters 3 "l1", .clusterCenters 2 "l2", .elementwiseNode "sum"]
    (call key compute (history key compute cs) (.clusterCenters 3 "l1")).1 = .error .value ∧
    (call key compute (history key compute cs) (.clusterCenters 3 "l2")).1 =
      .ok (.loopy "proxy_center[idim, icluster] = 1.0 / npoints * simul_reduce(sum, i, sources[idim, srcindices[i + ioffset]])"
        [("ndim", 3)] "compute_cluster_centers_knl") := by
  intro cs
  exact ⟨by rw [C99_programs]; rfl, by rw [C99_programs]; rfl⟩

/-! ## the arrays of a collection -/

/-- flattened arrays that direct evaluation keeps with the collection (`qbx/__init__.py:877-901`) -/
inductive What
  | nodes (dd : DD)
  | radii (dd : DD)
  | centers (dd : DD) (side : Int)
deriving DecidableEq

/-- a use: the array context, `self.ambient_dim` of the source, and what is asked for; the first two are read by the inner functions
but are not part of the key -/
structure Use where
  ctx : Nat
  ambientDim : Nat
  what : What
deriving DecidableEq

/-- what the collection holds: nodes by descriptor (`get_target_or_discretization`), radii and centers by dimension and descriptor
(`bind(places, expansion_radii(...))`) -/
structure World (Data X : Type) where
  nodes : DD → Except X Data
  radii : Nat → DD → Except X Data
  centers : Nat → DD → Int → Except X Data

variable {Data X : Type}

/-- identifier and arguments (`qbx/__init__.py:877-894`) -/
def useKey (u : Use) : String × DD × Option Int :=
  match u.what with
  | .nodes dd => ("flat_nodes", dd, none)
  | .radii dd => ("flat_expansion_radii", dd, none)
  | .centers dd side => ("flat_centers", dd, some side)

/-- the numbers asked for -/
def World.numbers (w : World Data X) (dim : Nat) : What → Except X Data
  | .nodes dd => w.nodes dd
  | .radii dd => w.radii dim dd
  | .centers dd side => w.centers dim dd side

/-- the inner functions (`qbx/__init__.py:879-901`): the frozen array belongs to the array context of the call -/
def useCompute (w : World Data X) (u : Use) : Except X (Nat × Data) :=
  match w.numbers u.ambientDim u.what with
  | .error x => .error x
  | .ok d => .ok (u.ctx, d)

theorem useKey_what {u v : Use} (h : useKey u = useKey v) : u.what = v.what := by
  obtain ⟨_, _, a⟩ := u
  obtain ⟨_, _, b⟩ := v
  cases a <;> cases b <;> simp [useKey] at h ⊢ <;> first | exact h | exact ⟨h.1, h.2⟩

/-- C99 (arrays): in a collection all of whose sources have its ambient dimension `dim`, after any history of direct evaluations with
any array contexts, the nodes, radii and centers used are those the descriptor and side of the call ask for, and asking fails exactly if
it would have failed at first. -/
theorem C99_arrays (w : World Data X) (dim : Nat) (us : List Use) (u : Use) (hd : ∀ v ∈ u :: us, v.ambientDim = dim) :
    (call useKey (useCompute w) (history useKey (useCompute w) us) u).1.map Prod.snd = w.numbers dim u.what := by
  have hu : u.ambientDim = dim := hd u (by simp)
  unfold call
  cases hl : alookup (useKey u) (history useKey (useCompute w) us) with
  | none =>
    simp only [useCompute, hu]
    cases w.numbers dim u.what <;> rfl
  | some v =>
    rw [lookup_history] at hl
    obtain ⟨c', m, a, b⟩ := firstOk_mem hl
    have hw := useKey_what a
    unfold useCompute at b
    rw [hd c' (List.mem_cons_of_mem _ m), hw] at b
    cases hn : w.numbers dim u.what with
    | error x => rw [hn] at b; cases b
    | ok d => rw [hn] at b; cases b; rfl

/-- C99 (array contexts): the arrays live in the array context of the *earliest* evaluation that asked for them successfully, which need not
be the one of the call. -/
theorem C99_context (w : World Data X) (us : List Use) (u : Use) (d : Nat × Data)
    (h : (call useKey (useCompute w) (history useKey (useCompute w) us) u).1 = .ok d) :
    (∃ v ∈ us, v.what = u.what ∧ d.1 = v.ctx) ∨
      (d.1 = u.ctx ∧ ∀ v ∈ us, v.what = u.what → ∀ d', useCompute w v ≠ .ok d') := by
  unfold call at h
  cases hl : alookup (useKey u) (history useKey (useCompute w) us) with
  | some v =>
    rw [hl] at h
    rw [lookup_history] at hl
    obtain ⟨c', m, a, b⟩ := firstOk_mem hl
    cases h
    refine Or.inl ⟨c', m, useKey_what a, ?_⟩
    unfold useCompute at b
    cases hn : w.numbers c'.ambientDim c'.what with
    | error x => rw [hn] at b; cases b
    | ok d => rw [hn] at b; cases b; rfl
  | none =>
    rw [hl] at h
    refine Or.inr ⟨?_, ?_⟩
    · cases hc : useCompute w u with
      | error x => rw [hc] at h; cases h
      | ok d' =>
        rw [hc] at h
        cases h
        unfold useCompute at hc
        cases hn : w.numbers u.ambientDim u.what with
        | error x => rw [hn] at hc; cases hc
        | ok e => rw [hn] at hc; cases hc; rfl
    · rw [lookup_history] at hl
      have key' : ∀ v : Use, v.what = u.what → useKey v = useKey u := by
        intro v hv; unfold useKey; rw [hv]
      intro v hv hw d' hd'
      have := key' v hw
      clear h
      revert hl
      induction us with
      | nil => cases hv
      | cons c cs ih =>
        intro hl
        unfold firstOk at hl
        cases hf : firstOk useKey (useCompute w) (useKey u) cs with
        | some x => rw [hf] at hl; cases hl
        | none =>
          rw [hf] at hl
          rcases List.mem_cons.1 hv with rfl | hv'
          · simp only [this, if_true, hd', Except.toOption] at hl
            cases hl
          · exact ih hv' hf

/-- example: a collection in two dimensions with nodes and centers everywhere -/
def exWorld : World Nat Unit := ⟨fun _ => .ok 10, fun n _ => .ok n, fun n _ s => if s = 0 then .error () else .ok (n + 20)⟩

/-- example: a descriptor -/
def exDD : DD := ⟨.ident "s", none, .node⟩

/-- two evaluations in different array contexts: the second one gets the array of the first; a failed request is not kept -/
example : let us : List Use := [⟨7, 2, .centers exDD 0⟩, ⟨7, 2, .nodes exDD⟩]
    (call useKey (useCompute exWorld) (history useKey (useCompute exWorld) us) ⟨8, 2, .nodes exDD⟩).1 = .ok (7, 10) ∧
    (call useKey (useCompute exWorld) (history useKey (useCompute exWorld) us) ⟨8, 2, .centers exDD 1⟩).1 = .ok (8, 22) ∧
    (call useKey (useCompute exWorld) (history useKey (useCompute exWorld) us) ⟨8, 2, .centers exDD 0⟩).1 = .error () :=
  ⟨rfl, rfl, rfl⟩

/-- C99 without a common dimension: were sources of different ambient dimension allowed in one collection (they are not: the
constructor of the collection rejects them), the radii computed for one would be used for the other. -/
theorem C99_dimension_needed : ∃ (w : World Nat Unit) (u v : Use), u.what = v.what ∧
    (call useKey (useCompute w) (history useKey (useCompute w) [u]) v).1.map Prod.snd ≠ w.numbers v.ambientDim v.what :=
  ⟨exWorld, ⟨7, 2, .radii exDD⟩, ⟨7, 3, .radii exDD⟩, rfl,
    fun h => absurd (Except.ok.inj (show Except.ok (ε := Unit) 2 = .ok 3 from h)) (by decide)⟩

/-! ## the index pairs of a cluster list -/

/-- `_product` (`linalg/utils.py:323-334`) of one `mindex`: the key is empty, the inner function reads the cluster list, which never
changes, and the array context -/
theorem C99_pairs {Pairs : Type} (pairs : Pairs) (ctxs : List Nat) (ctx : Nat) :
    ∃ c, (c = ctx ∨ c ∈ ctxs) ∧ (call (E := Unit) (fun _ : Nat => ()) (fun c => .ok (c, pairs))
      (history (E := Unit) (fun _ : Nat => ()) (fun c => .ok (c, pairs)) ctxs) ctx).1 = .ok (c, pairs) := by
  unfold call
  cases hl : alookup () (history (E := Unit) (fun _ : Nat => ()) (fun c => .ok (c, pairs)) ctxs) with
  | none => exact ⟨ctx, Or.inl rfl, rfl⟩
  | some v =>
    rw [lookup_history] at hl
    obtain ⟨c', m, -, b⟩ := firstOk_mem hl
    cases b
    exact ⟨c', Or.inr m, rfl⟩

end Verif.Memo
