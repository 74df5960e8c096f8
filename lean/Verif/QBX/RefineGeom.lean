import Verif.QBX.Refine
import Mathlib.Analysis.Real.Sqrt
import Mathlib.Algebra.Order.BigOperators.Ring.Finset
import Mathlib.Tactic.Positivity
import Mathlib.Tactic.FieldSimp

/-!
# What refinement delivers (C85)

Puts the refinement loops (`Refine.lean`), the checks they run (`Checks.lean`) and target association
(`AreaQuery.lean`) together: `_refine_qbx_stage1`, `_refine_qbx_stage2`
(`pytential/qbx/refinement.py:667-884`) with the real checks on trees built from node positions, and
`associate_targets_to_qbx_centers` (`pytential/qbx/target_assoc.py:853-952`) for targets that are nodes of
the refined geometry.  Arithmetic is that of the real numbers.
-/

namespace Verif.RefineGeom

open Verif.AreaQuery Verif.QTree Verif.Checks Verif.Refine Verif.TargetAssoc

/-- Euclidean distance in `d` dimensions (`refinement.py:197-199`, `target_assoc.py:219-221`) -/
noncomputable def edist (d : Nat) (x y : Nat → ℝ) : ℝ :=
  Real.sqrt (∑ i ∈ Finset.range d, (x i - y i) ^ 2)

/-- what `boxtree`'s tree builder returns: the two permutations, the leaf boxes and the leaf of each
particle -/
structure BoxTree where
  userIds : Nat → Nat
  sortedIds : Nat → Nat
  leaves : List (Leaf ℝ)
  leafOf : Nat → Leaf ℝ

/-- guarantees of the tree builder for `n` particles at `pos` -/
structure BoxTree.OK (t : BoxTree) (dim n : Nat) (pos : Nat → Nat → ℝ) : Prop where
  inv : ∀ i < n, t.userIds (t.sortedIds i) = i
  leaf_mem : ∀ i < n, t.leafOf i ∈ t.leaves
  part_mem : ∀ i < n, i ∈ (t.leafOf i).parts
  inside : ∀ i < n, dinf dim (pos i) (t.leafOf i).ctr ≤ (t.leafOf i).hw

/-- Meshes `M` and discretizations `D` of them: number of elements and refinement of a mesh; element
groups, nodes, unit normals, element size (`_quad_resolution`) and scaled curvature at the nodes of a
discretization; the discretizations made by the group factory and, from a stage-2 discretization, by
`_make_quad_stage2_discr` (`refinement.py:634-640`); the tree builder -/
structure World (M D : Type) where
  dim : Nat
  nel : M → Nat
  refineMesh : M → (Nat → Bool) → M
  mkDiscr : M → D
  meshOf : D → M
  quadDiscr : D → D
  groups : D → List Grp
  node : D → Nat → Nat → ℝ
  normal : D → Nat → Nat → ℝ
  size : D → Nat → ℝ
  curvAt : D → Nat → ℝ
  tree : Nat → (Nat → Nat → ℝ) → BoxTree

/-- nodes of element `e` (`refinement.py:713`, `:734`, `:464`: `ElementwiseMax` runs over these): `base` is the
number of the first node -/
def elNodes : List Grp → Nat → Nat → List Nat
  | [], _, _ => []
  | g :: gs, base, e =>
    if e < g.nel then (List.range g.nunit).map (fun j => base + e * g.nunit + j)
    else elNodes gs (base + g.nel * g.nunit) (e - g.nel)

/-- maximum of a nonempty list -/
noncomputable def listMax : List ℝ → ℝ
  | [] => 0
  | [x] => x
  | x :: y :: l => max x (listMax (y :: l))

/-- `ElementwiseMax` with element granularity, flattened (`refinement.py:711-715`) -/
noncomputable def elMax (gs : List Grp) (f : Nat → ℝ) (e : Nat) : ℝ := listMax ((elNodes gs 0 e).map f)

namespace World

variable {M D : Type} (W : World M D)

/-- number of nodes -/
def nnodes (d : D) : Nat := ndofs (W.groups d)

/-- `expansion_radii` at node `n` (`primitives.py:1301-1308`, `:1369-1379`) for a surface of codimension one -/
noncomputable def radius (d : D) (n : Nat) : ℝ := (if W.dim = 3 then 1 / 4 else 1 / 2) * W.size d n

/-- interleaved expansion centers (`primitives.py:1382-1407`): center `2 n` is on the negative side of node `n`,
center `2 n + 1` on the positive -/
noncomputable def center (d : D) (c : Nat) : Nat → ℝ := fun i =>
  W.node d (c / 2) i + (if c % 2 = 0 then -1 else 1) * W.radius d (c / 2) * W.normal d (c / 2) i

/-- particles of the tree (`utils.py:335-345`): sources of `d`, then centers of `d1`, then targets -/
noncomputable def particle (d d1 : D) (targets : Nat → Nat → ℝ) (i : Nat) : Nat → ℝ :=
  if i < W.nnodes d then W.node d i
  else if i < W.nnodes d + 2 * W.nnodes d1 then W.center d1 (i - W.nnodes d)
  else targets (i - (W.nnodes d + 2 * W.nnodes d1))

/-- the tree with sources from `d` and centers from `d1` (`utils.py:280-450`), no targets -/
noncomputable def geo (d d1 : D) : Geo ℝ :=
  let n := W.nnodes d + 2 * W.nnodes d1
  let pos := W.particle d d1 (fun _ _ => 0)
  { dim := W.dim, ns := W.nnodes d, nc := 2 * W.nnodes d1, pos := pos,
    userIds := (W.tree n pos).userIds, sortedIds := (W.tree n pos).sortedIds,
    leaves := (W.tree n pos).leaves, leafOf := (W.tree n pos).leafOf,
    groups := W.groups d, dist := edist W.dim }

/-- the checks of one stage-1 iteration (`refinement.py:701-767`): two threshold checks on elementwise maxima,
then, if they found nothing, the expansion disk check on a tree of the discretization's nodes and centers -/
noncomputable def checks1 (ord : List Nat → List Nat) (p : Params ℝ) (tol : ℝ) (d : D) :
    Except QTree.Err ((Nat → Bool) × List Crit) :=
  let n := W.nel (W.meshOf d)
  let a := optThreshold ord (elMax (W.groups d) (W.size d)) n .lengthScale p.lengthScale
    (fun _ => false, [])
  let b := optThreshold ord (elMax (W.groups d) (W.curvAt d)) n .curvature p.curvThreshold a
  if b.2 = [] then
    match checkDisks ord (W.geo d d) (fun c => W.radius d (c / 2)) tol b.1 with
    | .error e => .error e
    | .ok (flags, found) => .ok (flags, if found then b.2 ++ [.disks] else b.2)
  else .ok b

/-- the check of one stage-2 iteration (`refinement.py:832-846`): sources are the nodes of the quad-stage-2
discretization made from `d`, centers those of the stage-1 discretization `d1`, danger zones
(`primitives.py:1344-1358`) elementwise maxima over the nodes of `d` -/
noncomputable def checks2 (ord : List Nat → List Nat) (d1 d : D) :
    Except QTree.Err ((Nat → Bool) × List Crit) :=
  match checkQuad ord (W.geo (W.quadDiscr d) d1)
      (elMax (W.groups d) (fun n => 3 / 4 * W.radius d n)) (fun _ => false) with
  | .error e => .error e
  | .ok (flags, found) => .ok (flags, if found then [.quad] else [])

variable [DecidableEq M]

/-- `wrangler.refine` (`refinement.py:534-546`), as in `Refine.lean` -/
def wrang (cur : M) (d : D) (flags : Nat → Bool) : Option (M × Link D) :=
  if W.meshOf d = cur then
    some (W.refineMesh cur flags, ⟨d, flags, W.mkDiscr (W.refineMesh cur flags)⟩)
  else .none

/-- the `while` loop of either stage (`refinement.py:692-788`, `:820-869`); checks may raise -/
def loop (check : D → Except QTree.Err ((Nat → Bool) × List Crit)) (mode : Mode) (maxiter niter : Nat)
    (cur : M) (d : D) (links : List (Link D)) (crits : List (List Crit)) :
    Except QTree.Err (Outcome D × M) :=
  if niter + 1 > maxiter then .ok (.done d links (some crits), cur)
  else
    match check d with
    | .error e => .error e
    | .ok r =>
      if r.2 = [] then .ok (.done d links .none, cur)
      else if mode = .error then .ok (.needed r.2, cur)
      else
        match W.wrang cur d r.1 with
        | .none => .ok (.mismatch, cur)
        | some (cur', l) =>
          loop check mode maxiter (niter + 1) cur' l.dst (links ++ [l]) (crits ++ [r.2])
termination_by maxiter - niter

/-- `_refine_qbx_stage1` (`refinement.py:667-794`) -/
noncomputable def stage1 (ord : List Nat → List Nat) (p : Params ℝ) (tol : ℝ) (d : D) :
    Except QTree.Err (Outcome D) :=
  if p.mode = .none then .ok (.done d [] .none)
  else
    match W.loop (W.checks1 ord p tol) p.mode p.maxiter 0 (W.meshOf d) d [] [] with
    | .error e => .error e
    | .ok r => .ok r.1

/-- the forced uniform rounds (`refinement.py:871-878`) -/
def uniform : Nat → M → D → List (Link D) → Option (D × List (Link D))
  | 0, _, d, links => some (d, links)
  | n + 1, cur, d, links =>
    match W.wrang cur d (fun i => decide (i < W.nel (W.meshOf d))) with
    | .none => .none
    | some (cur', l) => uniform n cur' l.dst (links ++ [l])

/-- `_refine_qbx_stage2` (`refinement.py:797-884`) -/
noncomputable def stage2 (ord : List Nat → List Nat) (p : Params ℝ) (d1 : D) :
    Except QTree.Err (Outcome D) :=
  if p.mode = .none then .ok (.done d1 [] .none)
  else
    match W.loop (W.checks2 ord d1) p.mode p.maxiter 0 (W.meshOf d1) d1 [] [] with
    | .error e => .error e
    | .ok (.done d links w, cur) =>
      match W.uniform p.rounds cur d links with
      | some (d', links') => .ok (.done d' links' w)
      | .none => .ok .mismatch
    | .ok (o, _) => .ok o

/-- the scene of `associate_targets_to_qbx_centers` (`target_assoc.py:885-912`) for the stage-1 discretization `d`
and `nt` targets with positions `x` and side requests `flag`; `ttol` is the target association tolerance -/
noncomputable def scene (d : D) (ttol : ℝ) (nt : Nat) (x : Nat → Nat → ℝ) (flag : Nat → Int)
    (elem : Nat → Nat) : Scene ℝ :=
  let n := W.nnodes d + 2 * W.nnodes d + nt
  let pos := W.particle d d x
  { dim := W.dim, ns := W.nnodes d, nc := 2 * W.nnodes d, nt := nt, pos := pos,
    userIds := (W.tree n pos).userIds, sortedIds := (W.tree n pos).sortedIds,
    leaves := (W.tree n pos).leaves, leafOf := (W.tree n pos).leafOf,
    tunnel := fun s => 1 / 2 * W.radius d s,
    radTol := fun c => W.radius d (c / 2) * (1 + ttol),
    elem := elem, flag := flag, dist := edist W.dim }

/-- what is assumed of meshes, discretizations and trees: the group factory discretizes the mesh it is given and
quad-stage-2 discretizations keep the mesh; the groups of a discretization cover the elements of its mesh, with at
least one node per element; normals are unit vectors; element sizes are positive; trees are correct -/
structure OK : Prop where
  factory : ∀ m, W.meshOf (W.mkDiscr m) = m
  quad : ∀ d, W.meshOf (W.quadDiscr d) = W.meshOf d
  nel : ∀ d, nelements (W.groups d) = W.nel (W.meshOf d)
  unit_pos : ∀ d, ∀ g ∈ W.groups d, 0 < g.nunit
  normal : ∀ d, ∀ n < W.nnodes d, ∑ i ∈ Finset.range W.dim, W.normal d n i ^ 2 = 1
  size : ∀ d, ∀ n < W.nnodes d, 0 < W.size d n
  tree : ∀ n pos, (W.tree n pos).OK W.dim n pos

/-- the environment of `Refine.lean` this amounts to: its two check outcomes are the offending elements -/
noncomputable def env (tol : ℝ) : Env M D ℝ := by
  classical
  exact {
    meshOf := W.meshOf, nel := W.nel, refineMesh := W.refineMesh, mkDiscr := W.mkDiscr
    quadRes := fun d => elMax (W.groups d) (W.size d)
    curv := fun d => elMax (W.groups d) (W.curvAt d)
    diskBad := fun d e => decide (∃ n b, NodeOf (W.groups d) n e ∧ b < 2 ∧ ∃ s < W.nnodes d,
      Disturbs (W.geo d d) (fun c => W.radius d (c / 2)) tol (2 * n + b) s)
    quadBad := fun d1 d e => decide (∃ n, NodeOf (W.groups (W.quadDiscr d)) n e ∧ ∃ c < 2 * W.nnodes d1,
      InZone (W.geo (W.quadDiscr d) d1) (elMax (W.groups d) (fun n => 3 / 4 * W.radius d n) e) n c) }

end World

/-! ## elementwise maxima -/

theorem mem_elNodes (gs : List Grp) (base e n : Nat) :
    n ∈ elNodes gs base e ↔ ∃ (k : Nat) (g : Grp) (iel j : Nat), gs[k]? = some g ∧ iel < g.nel ∧ j < g.nunit ∧
      n = base + nodeBase gs k + iel * g.nunit + j ∧ e = elBase gs k + iel := by
  induction gs generalizing base e with
  | nil => simp [elNodes]
  | cons g gs ih =>
    by_cases he : e < g.nel
    · rw [elNodes, if_pos he]
      constructor
      · intro h
        obtain ⟨j, hj, rfl⟩ := List.mem_map.1 h
        exact ⟨0, g, e, j, rfl, he, List.mem_range.1 hj, by simp [nodeBase, ndofs], by simp [elBase, nelements]⟩
      · rintro ⟨k, g', iel, j, h1, h2, h3, h4, h5⟩
        cases k with
        | zero =>
          simp only [List.getElem?_cons_zero, Option.some.injEq] at h1
          subst h1
          simp only [nodeBase, ndofs, elBase, nelements, List.take_zero, List.map_nil, List.sum_nil, Nat.zero_add,
            Nat.add_zero] at h4 h5
          subst h5
          exact List.mem_map.2 ⟨j, List.mem_range.2 h3, h4.symm⟩
        | succ k =>
          simp only [elBase, nelements, List.take_succ_cons, List.map_cons, List.sum_cons] at h5
          omega
    · rw [elNodes, if_neg he, ih]
      constructor
      · rintro ⟨k, g', iel, j, h1, h2, h3, h4, h5⟩
        refine ⟨k + 1, g', iel, j, by simpa using h1, h2, h3, ?_, ?_⟩
        · rw [h4]; simp only [nodeBase, ndofs, List.take_succ_cons, List.map_cons, List.sum_cons]; omega
        · simp only [elBase, nelements, List.take_succ_cons, List.map_cons, List.sum_cons] at h5 ⊢; omega
      · rintro ⟨k, g', iel, j, h1, h2, h3, h4, h5⟩
        cases k with
        | zero =>
          simp only [List.getElem?_cons_zero, Option.some.injEq] at h1
          subst h1
          simp only [elBase, nelements, List.take_zero, List.map_nil, List.sum_nil, Nat.zero_add] at h5
          omega
        | succ k =>
          refine ⟨k, g', iel, j, by simpa using h1, h2, h3, ?_, ?_⟩
          · rw [h4]; simp only [nodeBase, ndofs, List.take_succ_cons, List.map_cons, List.sum_cons]; omega
          · simp only [elBase, nelements, List.take_succ_cons, List.map_cons, List.sum_cons] at h5 ⊢; omega

theorem mem_elNodes_iff (gs : List Grp) (e n : Nat) : n ∈ elNodes gs 0 e ↔ NodeOf gs n e := by
  rw [mem_elNodes]; simp [NodeOf]

theorem le_listMax (l : List ℝ) (x : ℝ) (h : x ∈ l) : x ≤ listMax l := by
  induction l with
  | nil => cases h
  | cons y l ih =>
    cases l with
    | nil => rw [List.mem_singleton.1 h]; exact le_refl _
    | cons z l =>
      rw [listMax]
      rcases List.mem_cons.1 h with h | h
      · rw [h]; exact le_max_left _ _
      · exact le_trans (ih h) (le_max_right _ _)

theorem listMax_mem (l : List ℝ) (h : l ≠ []) : listMax l ∈ l := by
  induction l with
  | nil => exact absurd rfl h
  | cons y l ih =>
    cases l with
    | nil => exact List.mem_singleton.2 rfl
    | cons z l =>
      rw [listMax]
      rcases max_choice y (listMax (z :: l)) with h' | h' <;> rw [h']
      · exact List.mem_cons_self
      · exact List.mem_cons_of_mem _ (ih (by simp))

theorem elMax_le (gs : List Grp) (f : Nat → ℝ) (e n : Nat) (h : NodeOf gs n e) : f n ≤ elMax gs f e :=
  le_listMax _ _ (List.mem_map.2 ⟨n, (mem_elNodes_iff gs e n).2 h, rfl⟩)

theorem elMax_attained (gs : List Grp) (f : Nat → ℝ) (e n : Nat) (h : NodeOf gs n e) :
    ∃ m, NodeOf gs m e ∧ elMax gs f e = f m := by
  have hne : (elNodes gs 0 e).map f ≠ [] := by
    intro h'
    have := (mem_elNodes_iff gs e n).2 h
    rw [List.map_eq_nil_iff.1 h'] at this
    cases this
  obtain ⟨m, hm, hm'⟩ := List.mem_map.1 (listMax_mem _ hne)
  exact ⟨m, (mem_elNodes_iff gs e m).1 hm, hm'.symm⟩

theorem nodeOf_lt (gs : List Grp) (n e : Nat) (h : NodeOf gs n e) : n < ndofs gs ∧ e < nelements gs := by
  obtain ⟨k, g, iel, j, h1, h2, h3, h4, h5⟩ := h
  have hlt : k < gs.length := by
    by_contra hc
    rw [List.getElem?_eq_none (by omega)] at h1; cases h1
  have e1 : gs = gs.take k ++ g :: gs.drop (k + 1) := by
    rw [List.getElem?_eq_getElem hlt, Option.some.injEq] at h1
    rw [← h1, List.cons_getElem_drop_succ, List.take_append_drop]
  have e2 : ndofs gs = nodeBase gs k + (g.nel * g.nunit + ndofs (gs.drop (k + 1))) := by
    conv_lhs => rw [e1]
    simp [ndofs, nodeBase]
  have e3 : nelements gs = elBase gs k + (g.nel + nelements (gs.drop (k + 1))) := by
    conv_lhs => rw [e1]
    simp [nelements, elBase]
  constructor
  · have : (iel + 1) * g.nunit ≤ g.nel * g.nunit := Nat.mul_le_mul_right _ h2
    rw [Nat.add_mul] at this
    omega
  · omega

/-! ## distances -/

theorem dinf_le_edist (d : Nat) (x y : Nat → ℝ) : dinf d x y ≤ edist d x y := by
  have h0 : 0 ≤ edist d x y := Real.sqrt_nonneg _
  rw [dinf, maxAxes_le_iff _ _ _ h0]
  intro i hi
  rw [edist]
  apply Real.le_sqrt_of_sq_le
  rw [sq_abs]
  exact Finset.single_le_sum (f := fun i => (x i - y i) ^ 2) (fun j _ => sq_nonneg _) (Finset.mem_range.2 hi)

theorem edist_self (d : Nat) (x : Nat → ℝ) : edist d x x = 0 := by
  simp [edist]

section

variable {M D : Type} (W : World M D)

theorem radius_pos (h : W.OK) (d : D) (n : Nat) (hn : n < W.nnodes d) : 0 < W.radius d n := by
  have := h.size d n hn
  unfold World.radius
  split <;> positivity

/-- a center is at distance one expansion radius from its node -/
theorem center_dist (h : W.OK) (d : D) (n b : Nat) (hn : n < W.nnodes d) (hb : b < 2) :
    edist W.dim (W.center d (2 * n + b)) (W.node d n) = W.radius d n := by
  have hr := radius_pos W h d n hn
  have e1 : (2 * n + b) / 2 = n := by omega
  have e2 : ∀ i, (W.center d (2 * n + b) i - W.node d n i) ^ 2 = W.radius d n ^ 2 * W.normal d n i ^ 2 := by
    intro i
    unfold World.center
    rw [e1]
    split <;> ring
  rw [edist, Finset.sum_congr rfl (fun i _ => e2 i), ← Finset.mul_sum, h.normal d n hn, mul_one,
    Real.sqrt_sq hr.le]

theorem geo_wf (h : W.OK) (d d1 : D) : (W.geo d d1).WF where
  inv := (h.tree _ _).inv
  leaf_mem := (h.tree _ _).leaf_mem
  part_mem := (h.tree _ _).part_mem
  inside := (h.tree _ _).inside
  dist_ge := dinf_le_edist W.dim
  ns_eq := rfl
  unit_pos := h.unit_pos d

theorem geo_source (d d1 : D) (s : Nat) (hs : s < W.nnodes d) : (W.geo d d1).pos s = W.node d s := by
  simp only [World.geo, World.particle, if_pos hs]

theorem geo_center (d d1 : D) (c : Nat) (hc : c < 2 * W.nnodes d1) :
    (W.geo d d1).pos (W.nnodes d + c) = W.center d1 c := by
  simp only [World.geo, World.particle]
  rw [if_neg (by omega), if_pos (by omega), Nat.add_sub_cancel_left]

variable [DecidableEq M]

/-! ## the checks are those of the loop model -/

theorem checks1_eq (ord : List Nat → List Nat) (hord : ∀ l, (ord l).Perm l) (h : W.OK) (p : Params ℝ) (tol : ℝ)
    (d : D) : W.checks1 ord p tol d = .ok (Refine.checks1 ord (W.env tol) p d) := by
  classical
  unfold World.checks1 Refine.checks1
  simp only
  obtain ⟨a, ha⟩ : ∃ a, a = optThreshold ord (elMax (W.groups d) (W.curvAt d)) (W.nel (W.meshOf d)) .curvature
    p.curvThreshold (optThreshold ord (elMax (W.groups d) (W.size d)) (W.nel (W.meshOf d)) .lengthScale p.lengthScale
    (fun _ => false, [])) := ⟨_, rfl⟩
  have ha' : optThreshold ord ((W.env tol).curv d) ((W.env tol).nel ((W.env tol).meshOf d)) .curvature
    p.curvThreshold (optThreshold ord ((W.env tol).quadRes d) ((W.env tol).nel ((W.env tol).meshOf d)) .lengthScale
      p.lengthScale (fun _ => false, [])) = a := ha.symm
  rw [ha', ← ha]
  by_cases hb : a.2 = []
  · rw [if_pos hb, if_pos hb]
    obtain ⟨flags', found, h1, h2, h3⟩ := C34_disks ord hord (W.geo d d) (geo_wf W h d d) rfl
      (fun c => W.radius d (c / 2)) tol a.1
    rw [h1]
    simp only [Refine.setCheck]
    obtain ⟨s1, s2⟩ := runUpdates_spec (ord ((List.range ((W.env tol).nel ((W.env tol).meshOf d))).filter
      ((W.env tol).diskBad d))) a.1 false
    have hmem : ∀ e, e ∈ ord ((List.range ((W.env tol).nel ((W.env tol).meshOf d))).filter
        ((W.env tol).diskBad d)) ↔ ∃ n b, NodeOf (W.groups d) n e ∧ b < 2 ∧ ∃ s < W.nnodes d,
      Disturbs (W.geo d d) (fun c => W.radius d (c / 2)) tol (2 * n + b) s := by
      intro e
      rw [(hord _).mem_iff, List.mem_filter, List.mem_range]
      simp only [World.env, decide_eq_true_eq]
      constructor
      · exact fun h => h.2
      · rintro ⟨n, b, hn, h'⟩
        exact ⟨by rw [← h.nel]; exact (nodeOf_lt _ _ _ hn).2, n, b, hn, h'⟩
    have hf : flags' = (runUpdates (ord ((List.range ((W.env tol).nel ((W.env tol).meshOf d))).filter
        ((W.env tol).diskBad d))) (a.1, false)).1 := by
      funext e
      rw [Bool.eq_iff_iff, h2 e, s1 e, hmem]
      rfl
    have hg : found = (runUpdates (ord ((List.range ((W.env tol).nel ((W.env tol).meshOf d))).filter
        ((W.env tol).diskBad d))) (a.1, false)).2 := by
      rw [Bool.eq_iff_iff, h3, s2]
      constructor
      · rintro ⟨c, hc, hs⟩
        right
        obtain ⟨e, he⟩ := nodeOf_exists (W.groups d) (c / 2)
          (by have : c < 2 * ndofs (W.groups d) := hc; omega)
        refine ⟨e, (hmem e).2 ⟨c / 2, c % 2, he, by omega, ?_⟩⟩
        rw [show 2 * (c / 2) + c % 2 = c by omega]; exact hs
      · rintro (h' | ⟨e, he⟩)
        · cases h'
        · obtain ⟨n, b, hn, hb, hs⟩ := (hmem e).1 he
          have := (nodeOf_lt _ _ _ hn).1
          exact ⟨2 * n + b, by show 2 * n + b < 2 * ndofs (W.groups d); omega, hs⟩
    rw [hf, hg]
  · rw [if_neg hb, if_neg hb]

theorem checks2_eq (ord : List Nat → List Nat) (hord : ∀ l, (ord l).Perm l) (h : W.OK) (tol : ℝ)
    (d1 d : D) : W.checks2 ord d1 d = .ok (Refine.checks2 ord (W.env tol) d1 d) := by
  classical
  unfold World.checks2 Refine.checks2 Refine.setCheck
  obtain ⟨flags', found, h1, h2, h3⟩ := C34_quad ord hord (W.geo (W.quadDiscr d) d1) (geo_wf W h _ d1)
    (elMax (W.groups d) (fun n => 3 / 4 * W.radius d n)) (fun _ => false)
  rw [h1]
  simp only
  obtain ⟨s1, s2⟩ := runUpdates_spec (ord ((List.range ((W.env tol).nel ((W.env tol).meshOf d))).filter
    ((W.env tol).quadBad d1 d))) (fun _ => false) false
  have hmem : ∀ e, e ∈ ord ((List.range ((W.env tol).nel ((W.env tol).meshOf d))).filter
      ((W.env tol).quadBad d1 d)) ↔ ∃ n, NodeOf (W.groups (W.quadDiscr d)) n e ∧ ∃ c < 2 * W.nnodes d1,
      InZone (W.geo (W.quadDiscr d) d1) (elMax (W.groups d) (fun n => 3 / 4 * W.radius d n) e) n c := by
    intro e
    rw [(hord _).mem_iff, List.mem_filter, List.mem_range]
    simp only [World.env, decide_eq_true_eq]
    constructor
    · exact fun h => h.2
    · rintro ⟨n, hn, h'⟩
      refine ⟨?_, n, hn, h'⟩
      rw [← h.quad, ← h.nel]; exact (nodeOf_lt _ _ _ hn).2
  have hf : flags' = (runUpdates (ord ((List.range ((W.env tol).nel ((W.env tol).meshOf d))).filter
      ((W.env tol).quadBad d1 d))) (fun _ => false, false)).1 := by
    funext e
    rw [Bool.eq_iff_iff, h2 e, s1 e, hmem]
    rfl
  have hg : found = (runUpdates (ord ((List.range ((W.env tol).nel ((W.env tol).meshOf d))).filter
      ((W.env tol).quadBad d1 d))) (fun _ => false, false)).2 := by
    rw [Bool.eq_iff_iff, h3, s2]
    constructor
    · rintro ⟨e, n, h'⟩
      exact Or.inr ⟨e, (hmem e).2 ⟨n, h'⟩⟩
    · rintro (h' | ⟨e, he⟩)
      · cases h'
      · obtain ⟨n, h'⟩ := (hmem e).1 he
        exact ⟨e, n, h'⟩
  rw [hf, hg]
  simp

theorem loop_eq (tol : ℝ) (checkE : D → Except QTree.Err ((Nat → Bool) × List Crit))
    (check : D → (Nat → Bool) × List Crit) (hc : ∀ d, checkE d = .ok (check d)) (mode : Mode)
    (maxiter niter : Nat) (cur : M) (d : D) (links : List (Link D)) (crits : List (List Crit)) :
    W.loop checkE mode maxiter niter cur d links crits
      = .ok (Refine.loop check (W.env tol) mode maxiter niter cur d links crits) := by
  obtain ⟨k, hk⟩ : ∃ k, k = maxiter - niter := ⟨_, rfl⟩
  induction k generalizing niter cur d links crits with
  | zero =>
    rw [World.loop, Refine.loop, if_pos (by omega), if_pos (by omega)]
  | succ k ih =>
    rw [World.loop, Refine.loop, if_neg (by omega), if_neg (by omega), hc]
    simp only
    by_cases h1 : (check d).2 = []
    · rw [if_pos h1, if_pos h1]
    · rw [if_neg h1, if_neg h1]
      by_cases h2 : mode = .error
      · rw [if_pos h2, if_pos h2]
      · rw [if_neg h2, if_neg h2]
        have hw : W.wrang cur d (check d).1 = Refine.wrangRefine (W.env tol) cur d (check d).1 := rfl
        rw [hw]
        cases Refine.wrangRefine (W.env tol) cur d (check d).1 with
        | none => rfl
        | some r =>
          obtain ⟨cur', l⟩ := r
          exact ih (niter + 1) cur' l.dst (links ++ [l]) (crits ++ [(check d).2]) (by omega)

theorem stage1_eq (ord : List Nat → List Nat) (hord : ∀ l, (ord l).Perm l) (h : W.OK) (p : Params ℝ) (tol : ℝ)
    (d : D) : W.stage1 ord p tol d = .ok (Refine.stage1 ord (W.env tol) p d) := by
  unfold World.stage1 Refine.stage1
  by_cases hp : p.mode = .none
  · rw [if_pos hp, if_pos hp]
  · rw [if_neg hp, if_neg hp, loop_eq W tol _ _ (checks1_eq W ord hord h p tol)]
    rfl

theorem uniform_eq (tol : ℝ) (n : Nat) (cur : M) (d : D) (links : List (Link D)) :
    W.uniform n cur d links = Refine.uniform (W.env tol) n cur d links := by
  induction n generalizing cur d links with
  | zero => rfl
  | succ n ih =>
    rw [World.uniform, Refine.uniform]
    have hw : W.wrang cur d (fun i => decide (i < W.nel (W.meshOf d)))
      = Refine.wrangRefine (W.env tol) cur d
        (fun i => decide (i < (W.env tol).nel ((W.env tol).meshOf d))) := rfl
    rw [hw]
    cases Refine.wrangRefine (W.env tol) cur d
        (fun i => decide (i < (W.env tol).nel ((W.env tol).meshOf d))) with
    | none => rfl
    | some r => exact ih _ _ _

theorem stage2_eq (ord : List Nat → List Nat) (hord : ∀ l, (ord l).Perm l) (h : W.OK) (p : Params ℝ) (tol : ℝ)
    (d1 : D) : W.stage2 ord p d1 = .ok (Refine.stage2 ord (W.env tol) p d1) := by
  unfold World.stage2 Refine.stage2
  by_cases hp : p.mode = .none
  · rw [if_pos hp, if_pos hp]
  · rw [if_neg hp, if_neg hp, loop_eq W tol _ _ (checks2_eq W ord hord h tol d1)]
    have hm : (W.env tol).meshOf d1 = W.meshOf d1 := rfl
    rw [hm]
    obtain ⟨r, hr⟩ : ∃ r, r = Refine.loop (Refine.checks2 ord (W.env tol) d1) (W.env tol) p.mode p.maxiter 0
      (W.meshOf d1) d1 [] [] := ⟨_, rfl⟩
    rw [← hr]
    obtain ⟨o, cur⟩ := r
    cases o with
    | needed cs => rfl
    | mismatch => rfl
    | done d ls w =>
      simp only
      rw [uniform_eq W tol]
      cases Refine.uniform (W.env tol) p.rounds cur d ls <;> rfl

/-! ## what refinement delivers -/

/-- C85: the centers the other theorems number `2 * m` and `2 * m + 1` are one expansion radius away from node `m`,
against and along its normal; the expansion radius is half the element size for curves and a quarter for surfaces in
three dimensions. -/
theorem C85_centers (d : D) (m i : Nat) :
    W.center d (2 * m) i = W.node d m i - W.radius d m * W.normal d m i ∧
    W.center d (2 * m + 1) i = W.node d m i + W.radius d m * W.normal d m i ∧
    (W.dim = 2 → W.radius d m = W.size d m / 2) ∧ (W.dim = 3 → W.radius d m = W.size d m / 4) := by
  refine ⟨?_, ?_, ?_, ?_⟩
  · unfold World.center
    rw [if_pos (by omega), show 2 * m / 2 = m by omega]; ring
  · unfold World.center
    rw [if_neg (by omega), show (2 * m + 1) / 2 = m by omega]; ring
  · intro h
    unfold World.radius
    rw [if_neg (by omega)]; ring
  · intro h
    unfold World.radius
    rw [if_pos h]; ring

/-- C85, stage 1: refinement never dies on an internal assertion; if it returns without warning (in a refining
mode), then at every node of the returned discretization the element size is at most the kernel length scale and the
scaled curvature at most its threshold (where given), and every node is farther than `(1 - tol)` times the expansion
radius away from every expansion center. -/
theorem C85_stage1 (ord : List Nat → List Nat) (hord : ∀ l, (ord l).Perm l) (h : W.OK) (p : Params ℝ) (tol : ℝ)
    (hmode : p.mode ≠ .none) (d : D) :
    (∃ o, W.stage1 ord p tol d = .ok o) ∧
    ∀ d1 links, W.stage1 ord p tol d = .ok (.done d1 links none) →
      (∀ t, p.lengthScale = some t → ∀ n < W.nnodes d1, W.size d1 n ≤ t) ∧
      (∀ t, p.curvThreshold = some t → ∀ n < W.nnodes d1, W.curvAt d1 n ≤ t) ∧
      ∀ m < W.nnodes d1, ∀ b < 2, ∀ n < W.nnodes d1,
        (1 - tol) * W.radius d1 m < edist W.dim (W.center d1 (2 * m + b)) (W.node d1 n) := by
  classical
  rw [stage1_eq W ord hord h p tol d]
  refine ⟨⟨_, rfl⟩, ?_⟩
  intro d1 links hd
  obtain ⟨-, -, hs, -⟩ := C32_stage1 ord hord (W.env tol) h.factory p hmode d d1 links none (Except.ok.inj hd)
  have hs := hs rfl
  have hn : ∀ n < W.nnodes d1, ∃ e, NodeOf (W.groups d1) n e ∧ e < W.nel (W.meshOf d1) := by
    intro n hn
    obtain ⟨e, he⟩ := nodeOf_exists (W.groups d1) n hn
    exact ⟨e, he, by rw [← h.nel]; exact (nodeOf_lt _ _ _ he).2⟩
  refine ⟨?_, ?_, ?_⟩
  · intro t ht n hn'
    obtain ⟨e, he, hlt⟩ := hn n hn'
    by_contra hc
    exact hs e hlt .lengthScale (.lengthScale t ht (lt_of_lt_of_le (not_le.1 hc) (elMax_le _ (W.size d1) _ _ he)))
  · intro t ht n hn'
    obtain ⟨e, he, hlt⟩ := hn n hn'
    by_contra hc
    exact hs e hlt .curvature (.curvature t ht (lt_of_lt_of_le (not_le.1 hc) (elMax_le _ (W.curvAt d1) _ _ he)))
  · intro m hm b hb n hn'
    obtain ⟨e, he, hlt⟩ := hn m hm
    by_contra hc
    refine hs e hlt .disks (.disks ?_)
    simp only [World.env, decide_eq_true_eq]
    refine ⟨m, b, he, hb, n, hn', ?_⟩
    rw [Disturbs, geo_source W d1 d1 n hn']
    have : (W.geo d1 d1).pos ((W.geo d1 d1).ns + (2 * m + b)) = W.center d1 (2 * m + b) :=
      geo_center W d1 d1 _ (by omega)
    rw [this, show (2 * m + b) / 2 = m by omega]
    exact not_lt.1 hc

/-- C85, stage 2: if refinement returns without warning, then for the discretization `d` it had before the requested
uniform rounds, every node of its quad-stage-2 discretization is farther than three quarters of the largest expansion
radius of its element away from every stage-1 expansion center.  Without uniform rounds `d` is what is returned. -/
theorem C85_stage2 (ord : List Nat → List Nat) (hord : ∀ l, (ord l).Perm l) (h : W.OK) (p : Params ℝ)
    (hmode : p.mode ≠ .none) (d1 : D) :
    (∃ o, W.stage2 ord p d1 = .ok o) ∧
    ∀ d2 links, W.stage2 ord p d1 = .ok (.done d2 links none) →
      ∃ d, (p.rounds = 0 → d = d2) ∧
        ∀ e n m, NodeOf (W.groups (W.quadDiscr d)) n e → NodeOf (W.groups d) m e → ∀ c < 2 * W.nnodes d1,
          3 / 4 * W.radius d m < edist W.dim (W.node (W.quadDiscr d) n) (W.center d1 c) := by
  classical
  rw [stage2_eq W ord hord h p 0 d1]
  refine ⟨⟨_, rfl⟩, ?_⟩
  intro d2 links hd
  obtain ⟨d, l1, l2, -, -, hu, -, hs, -⟩ := C32_stage2 ord hord (W.env 0) h.factory p hmode d1 d2 links none
    (Except.ok.inj hd)
  refine ⟨d, ?_, ?_⟩
  · intro h0
    rw [h0] at hu
    cases hu
    rfl
  · intro e n m hn hm c hc
    have hlt := (nodeOf_lt _ _ _ hm)
    have hb := hs rfl e (by show e < W.nel (W.meshOf d); rw [← h.nel]; exact hlt.2)
    simp only [World.env, decide_eq_false_iff_not] at hb
    by_contra hcon
    apply hb
    refine ⟨n, hn, c, hc, ?_⟩
    rw [InZone, geo_source W _ d1 n (nodeOf_lt _ _ _ hn).1]
    have : (W.geo (W.quadDiscr d) d1).pos ((W.geo (W.quadDiscr d) d1).ns + c) = W.center d1 c :=
      geo_center W _ d1 c hc
    rw [this]
    exact le_trans (not_lt.1 hcon) (elMax_le _ (fun n => 3 / 4 * W.radius d n) _ _ hm)

end

section

variable {M D : Type} (W : World M D)

theorem scene_wf (h : W.OK) (d : D) (ttol : ℝ) (ht : 0 ≤ ttol) (nt : Nat) (x : Nat → Nat → ℝ) (flag : Nat → Int)
    (elem : Nat → Nat) : (W.scene d ttol nt x flag elem).WF where
  inv := (h.tree _ _).inv
  leaf_mem := (h.tree _ _).leaf_mem
  part_mem := (h.tree _ _).part_mem
  inside := (h.tree _ _).inside
  dist_ge := dinf_le_edist W.dim
  pos_rad := by
    intro c hc
    have hc : c < 2 * W.nnodes d := hc
    have := radius_pos W h d (c / 2) (by omega)
    show 0 < W.radius d (c / 2) * (1 + ttol)
    positivity

theorem scene_source (d : D) (ttol : ℝ) (nt : Nat) (x : Nat → Nat → ℝ) (flag : Nat → Int)
    (elem : Nat → Nat) (s : Nat) (hs : s < W.nnodes d) :
    (W.scene d ttol nt x flag elem).pos s = W.node d s := by
  simp only [World.scene, World.particle, if_pos hs]

theorem scene_center (d : D) (ttol : ℝ) (nt : Nat) (x : Nat → Nat → ℝ) (flag : Nat → Int)
    (elem : Nat → Nat) (c : Nat) (hc : c < 2 * W.nnodes d) :
    (W.scene d ttol nt x flag elem).pos (W.nnodes d + c) = W.center d c := by
  simp only [World.scene, World.particle]
  rw [if_neg (by omega), if_pos (by omega), Nat.add_sub_cancel_left]

theorem scene_target (d : D) (ttol : ℝ) (nt : Nat) (x : Nat → Nat → ℝ) (flag : Nat → Int)
    (elem : Nat → Nat) (t : Nat) :
    (W.scene d ttol nt x flag elem).pos (W.nnodes d + 2 * W.nnodes d + t) = x t := by
  simp only [World.scene, World.particle]
  rw [if_neg (by omega), if_neg (by omega), Nat.add_sub_cancel_left]

/-- the center of node `n` on side `b` may serve a target at that node, if the side suits -/
theorem own_center (h : W.OK) (d : D) (ttol : ℝ) (ht : 0 ≤ ttol) (nt : Nat) (x : Nat → Nat → ℝ)
    (flag : Nat → Int) (elem : Nat → Nat) (t n b : Nat) (hn : n < W.nnodes d)
    (hx : x t = W.node d n) (hb : b < 2) (hside : 0 ≤ side (2 * n + b) * flag t) :
    (W.scene d ttol nt x flag elem).MayServe t (2 * n + b) ∧
      (W.scene d ttol nt x flag elem).relDist t (2 * n + b) = 1 / (1 + ttol) := by
  have hr := radius_pos W h d n hn
  have e1 : (2 * n + b) / 2 = n := by omega
  have hd : edist W.dim ((W.scene d ttol nt x flag elem).pos (W.nnodes d + (2 * n + b)))
      ((W.scene d ttol nt x flag elem).pos (W.nnodes d + 2 * W.nnodes d + t)) = W.radius d n := by
    rw [scene_center W d ttol nt x flag elem _ (by omega), scene_target, hx]
    exact center_dist W h d n b hn hb
  refine ⟨⟨hside, ?_⟩, ?_⟩
  · show edist W.dim ((W.scene d ttol nt x flag elem).pos (W.nnodes d + (2 * n + b)))
      ((W.scene d ttol nt x flag elem).pos (W.nnodes d + 2 * W.nnodes d + t))
        ≤ W.radius d ((2 * n + b) / 2) * (1 + ttol)
    rw [hd, e1]; nlinarith
  · show edist W.dim ((W.scene d ttol nt x flag elem).pos (W.nnodes d + (2 * n + b)))
      ((W.scene d ttol nt x flag elem).pos (W.nnodes d + 2 * W.nnodes d + t))
        / (W.radius d ((2 * n + b) / 2) * (1 + ttol)) = _
    rw [hd, e1]
    have : (1 + ttol) ≠ 0 := by positivity
    field_simp

theorem side_b (n b : Nat) (hb : b < 2) : side (2 * n + b) = if b = 0 then -1 else 1 := by
  unfold side
  split <;> omega

theorem side_pick (n : Nat) (f : Int) : ∃ b < 2, 0 ≤ side (2 * n + b) * f := by
  by_cases hf : 0 ≤ f
  · refine ⟨1, by omega, ?_⟩
    rw [side_b n 1 (by omega)]; simpa using hf
  · refine ⟨0, by omega, ?_⟩
    rw [side_b n 0 (by omega)]; simp; omega

/-- C85, targets on the surface: association of nodes of the discretization with its own centers always succeeds,
whatever the side requests.  In any association that succeeds, also with other targets present, a target that is a
node gets a center on the requested side, and it lies within one expansion radius of it (without the tolerance). -/
theorem C85_surface_targets (h : W.OK) (d : D) (ttol : ℝ) (ht : 0 ≤ ttol) (nt : Nat) (x : Nat → Nat → ℝ)
    (flag : Nat → Int) (elem : Nat → Nat) :
    ((∀ t < nt, ∃ n < W.nnodes d, x t = W.node d n) →
      ∃ ttc, (W.scene d ttol nt x flag elem).run = .ok ttc) ∧
    ∀ ttc, (W.scene d ttol nt x flag elem).run = .ok ttc →
      ∀ t < nt, (∃ n < W.nnodes d, x t = W.node d n) →
        ∃ m < W.nnodes d, ∃ b < 2, ttc[t]? = some (((2 * m + b : Nat)) : Int) ∧
          (0 < flag t → b = 1) ∧ (flag t < 0 → b = 0) ∧
          edist W.dim (W.center d (2 * m + b)) (x t) ≤ W.radius d m := by
  have wf := scene_wf W h d ttol ht nt x flag elem
  obtain ⟨g1, g2⟩ := C31_geometry (W.scene d ttol nt x flag elem) wf
  constructor
  · intro hall
    rw [g2]
    intro t htlt _
    obtain ⟨n, hn, hx⟩ := hall t htlt
    obtain ⟨b, hb, hs⟩ := side_pick n (flag t)
    exact ⟨2 * n + b, by show 2 * n + b < 2 * W.nnodes d; omega,
      (own_center W h d ttol ht nt x flag elem t n b hn hx hb hs).1⟩
  · intro ttc hrun t htlt ⟨n, hn, hx⟩
    obtain ⟨hlen, hv⟩ := g1 ttc hrun
    have hlt : t < ttc.length := by rw [hlen]; exact htlt
    have hget : ttc[t]? = some ttc[t] := List.getElem?_eq_getElem hlt
    have hne : ttc[t] ≠ -1 := by
      intro hc
      refine (hv t htlt _ hget).1 hc n hn ?_
      have e1 := scene_source W d ttol nt x flag elem n hn
      have e2 := scene_target W d ttol nt x flag elem t
      show edist W.dim ((W.scene d ttol nt x flag elem).pos n)
        ((W.scene d ttol nt x flag elem).pos (W.nnodes d + 2 * W.nnodes d + t)) ≤ 1 / 2 * W.radius d n
      rw [e1, e2, hx, edist_self]
      have := radius_pos W h d n hn
      positivity
    obtain ⟨c, hc, hvc, hserve, hbest, -⟩ := C30_geometry (W.scene d ttol nt x flag elem) wf ttc hrun t htlt _ hget hne
    have hc : c < 2 * W.nnodes d := hc
    have hsc : (2 * (c / 2) + c % 2) = c := by omega
    have hside : side c = if c % 2 = 0 then -1 else 1 := by
      have := side_b (c / 2) (c % 2) (by omega)
      rwa [hsc] at this
    have hs0 : 0 ≤ side c * flag t := hserve.1
    refine ⟨c / 2, by omega, c % 2, by omega, ?_, ?_, ?_, ?_⟩
    · rw [hget, hvc, hsc]
    · intro hf
      by_contra hb
      rw [hside, if_pos (by omega)] at hs0
      omega
    · intro hf
      by_contra hb
      rw [hside, if_neg (by omega)] at hs0
      omega
    · have hown : 0 ≤ side (2 * n + c % 2) * flag t := by
        rw [side_b n (c % 2) (by omega), ← hside]; exact hs0
      obtain ⟨o1, o2⟩ := own_center W h d ttol ht nt x flag elem t n (c % 2) hn hx (by omega) hown
      have hle := hbest (2 * n + c % 2) (by show _ < 2 * W.nnodes d; omega) o1
        (by rw [side_b n (c % 2) (by omega), hside])
      rw [o2] at hle
      have e3 : (W.scene d ttol nt x flag elem).relDist t c
          = edist W.dim (W.center d c) (x t) / (W.radius d (c / 2) * (1 + ttol)) := by
        have e1 := scene_center W d ttol nt x flag elem c hc
        have e2 := scene_target W d ttol nt x flag elem t
        show edist W.dim ((W.scene d ttol nt x flag elem).pos (W.nnodes d + c))
          ((W.scene d ttol nt x flag elem).pos (W.nnodes d + 2 * W.nnodes d + t)) / _ = _
        rw [e1, e2]
        rfl
      rw [e3] at hle
      have hr := radius_pos W h d (c / 2) (by omega)
      have hp : 0 < 1 + ttol := by positivity
      rw [hsc]
      rw [div_le_div_iff₀ (by positivity) hp, one_mul] at hle
      exact le_of_mul_le_mul_right hle hp

/-- C85: after stage-1 refinement without warning, every node of the refined geometry, taken as a target with any side
request, is served by a center of the refined geometry on the requested side at a relative distance between `1 - tol`
and 1, and no source of the geometry is closer to that center than `1 - tol` expansion radii. -/
theorem C85_refined [DecidableEq M] (ord : List Nat → List Nat) (hord : ∀ l, (ord l).Perm l) (h : W.OK) (p : Params ℝ)
    (tol ttol : ℝ) (ht : 0 ≤ ttol) (hmode : p.mode ≠ .none) (d d1 : D) (links : List (Link D))
    (hd : W.stage1 ord p tol d = .ok (.done d1 links none)) (flag : Nat → Int) (elem : Nat → Nat) :
    ∃ ttc, (W.scene d1 ttol (W.nnodes d1) (W.node d1) flag elem).run = .ok ttc ∧
      ∀ t < W.nnodes d1, ∃ m < W.nnodes d1, ∃ b < 2, ttc[t]? = some (((2 * m + b : Nat)) : Int) ∧
        (0 < flag t → b = 1) ∧ (flag t < 0 → b = 0) ∧
        edist W.dim (W.center d1 (2 * m + b)) (W.node d1 t) ≤ W.radius d1 m ∧
        ∀ s < W.nnodes d1,
          (1 - tol) * W.radius d1 m < edist W.dim (W.center d1 (2 * m + b)) (W.node d1 s) := by
  obtain ⟨k1, k2⟩ := C85_surface_targets W h d1 ttol ht (W.nnodes d1) (W.node d1) flag elem
  obtain ⟨ttc, hr⟩ := k1 (fun t ht => ⟨t, ht, rfl⟩)
  refine ⟨ttc, hr, ?_⟩
  intro t htlt
  obtain ⟨m, hm, b, hb, g1, g2, g3, g4⟩ := k2 ttc hr t htlt ⟨t, htlt, rfl⟩
  exact ⟨m, hm, b, hb, g1, g2, g3, g4,
    fun s hs => ((C85_stage1 W ord hord h p tol hmode d).2 d1 links hd).2.2 m hm b hb s hs⟩

end

/-! ## example: a straight line of elements with one node each, refined by halving all of them -/

/-- a tree with one leaf box holding everything -/
noncomputable def exTree (n : Nat) (pos : Nat → Nat → ℝ) : BoxTree where
  userIds := fun i => i
  sortedIds := fun i => i
  leaves := [⟨fun _ => 0, ∑ i ∈ Finset.range n, dinf 2 (pos i) (fun _ => 0), List.range n⟩]
  leafOf := fun _ => ⟨fun _ => 0, ∑ i ∈ Finset.range n, dinf 2 (pos i) (fun _ => 0), List.range n⟩

theorem exTree_ok (n : Nat) (pos : Nat → Nat → ℝ) : (exTree n pos).OK 2 n pos where
  inv := fun _ _ => rfl
  leaf_mem := fun _ _ => List.mem_singleton.2 rfl
  part_mem := fun _ hi => List.mem_range.2 hi
  inside := fun i hi => Finset.single_le_sum (f := fun i => dinf 2 (pos i) (fun _ => 0))
    (fun _ _ => dinf_nonneg _ _ _) (Finset.mem_range.2 hi)

/-- `m` elements of length `1 / m` on the unit interval, one node in the middle of each -/
noncomputable def exWorld : World Nat Nat where
  dim := 2
  nel := fun m => m
  refineMesh := fun m _ => 2 * m
  mkDiscr := fun m => m
  meshOf := fun m => m
  quadDiscr := fun m => m
  groups := fun m => [⟨m, 1⟩]
  node := fun m n i => if i = 0 then ((n : ℝ) + 1 / 2) / m else 0
  normal := fun _ _ i => if i = 0 then 0 else 1
  size := fun m _ => 1 / m
  curvAt := fun _ _ => 0
  tree := exTree

theorem exWorld_ok : exWorld.OK where
  factory := fun _ => rfl
  quad := fun _ => rfl
  nel := fun d => by simp [exWorld, nelements]
  unit_pos := fun d g hg => by
    have : g = ⟨d, 1⟩ := List.mem_singleton.1 hg
    rw [this]; exact Nat.one_pos
  normal := fun d n _ => by
    show ∑ i ∈ Finset.range 2, (if i = 0 then (0 : ℝ) else 1) ^ 2 = 1
    simp [Finset.sum_range_succ]
  size := fun d n hn => by
    have hd : n < d := by simpa [World.nnodes, ndofs, exWorld] using hn
    have : (0 : ℝ) < d := by exact_mod_cast (by omega : 0 < d)
    show (0 : ℝ) < 1 / d
    positivity
  tree := exTree_ok

theorem exWorld_dist (d m b n : Nat) (hd : 0 < d) :
    1 / 2 * (1 / (d : ℝ)) ≤ edist 2 (exWorld.center d (2 * m + b)) (exWorld.node d n) := by
  have hpos : (0 : ℝ) < d := by exact_mod_cast hd
  rw [edist]
  apply Real.le_sqrt_of_sq_le
  rw [Finset.sum_range_succ]
  have e1 : (exWorld.center d (2 * m + b) 1 - exWorld.node d n 1) ^ 2 = (1 / 2 * (1 / (d : ℝ))) ^ 2 := by
    simp only [World.center, World.radius, exWorld]
    norm_num
  rw [e1]
  have : 0 ≤ ∑ i ∈ Finset.range 1, (exWorld.center d (2 * m + b) i - exWorld.node d n i) ^ 2 :=
    Finset.sum_nonneg (fun _ _ => sq_nonneg _)
  linarith

/-- parameters of the example: element sizes up to 1/4 -/
noncomputable def exParams : Params ℝ := ⟨.refine, some (1 / 4), none, 10, 0⟩

/-- two elements are refined once, with a tolerance of 1/40, and the result is without warning -/
theorem ex_stage1 (ord : List Nat → List Nat) (hord : ∀ l, (ord l).Perm l) :
    ∃ links, exWorld.stage1 ord exParams (1 / 40) 2 = .ok (.done 4 links none) := by
  classical
  have hmax : ∀ d e n : Nat, NodeOf (exWorld.groups d) n e → elMax (exWorld.groups d) (exWorld.size d) e = 1 / (d : ℝ) := by
    intro d e n hn
    obtain ⟨m, -, hm⟩ := elMax_attained _ (exWorld.size d) e n hn
    rw [hm]; rfl
  have hnode : ∀ d e : Nat, e < d → NodeOf (exWorld.groups d) e e := by
    intro d e he
    exact ⟨0, ⟨d, 1⟩, e, 0, rfl, he, Nat.one_pos, by simp [nodeBase, ndofs], by simp [elBase, nelements]⟩
  have h2 : (Refine.checks1 ord (exWorld.env (1 / 40)) exParams 2).2 ≠ [] := by
    rw [Ne, (checks1_spec ord hord _ _ _).1]
    intro hs
    refine hs 0 (by show 0 < 2; omega) .lengthScale (.lengthScale (1 / 4) rfl ?_)
    show (1 / 4 : ℝ) < elMax (exWorld.groups 2) (exWorld.size 2) 0
    rw [hmax 2 0 0 (hnode 2 0 (by omega))]
    norm_num
  have h4 : (Refine.checks1 ord (exWorld.env (1 / 40)) exParams 4).2 = [] := by
    rw [(checks1_spec ord hord _ _ _).1]
    intro i hi c hc
    have hi : i < 4 := hi
    cases hc with
    | lengthScale t h1 h2 =>
      have : t = 1 / 4 := by simpa [exParams] using h1.symm
      rw [this] at h2
      have h2 : (1 / 4 : ℝ) < elMax (exWorld.groups 4) (exWorld.size 4) i := h2
      rw [hmax 4 i i (hnode 4 i hi)] at h2
      norm_num at h2
    | curvature t h1 h2 => cases h1
    | disks h1 =>
      simp only [World.env, decide_eq_true_eq] at h1
      obtain ⟨n, b, hn, hb, s, hs, hd⟩ := h1
      have hn' := (nodeOf_lt _ _ _ hn).1
      have hn4 : n < exWorld.nnodes 4 := hn'
      rw [Disturbs, geo_source exWorld 4 4 s hs] at hd
      have e1 : (exWorld.geo 4 4).pos ((exWorld.geo 4 4).ns + (2 * n + b)) = exWorld.center 4 (2 * n + b) :=
        geo_center exWorld 4 4 _ (by omega)
      rw [e1] at hd
      have hd' : edist 2 (exWorld.center 4 (2 * n + b)) (exWorld.node 4 s)
          ≤ (1 - 1 / 40) * exWorld.radius 4 ((2 * n + b) / 2) := hd
      have hle := exWorld_dist 4 n b s (by omega)
      have e2 : exWorld.radius 4 ((2 * n + b) / 2) = 1 / 8 := by
        simp only [World.radius, exWorld]; norm_num
      rw [e2] at hd'
      norm_num at hd' hle
      linarith
  rw [stage1_eq exWorld ord hord exWorld_ok]
  unfold Refine.stage1
  rw [if_neg (by simp [exParams]), Refine.loop, if_neg (by simp [exParams]), if_neg h2, if_neg (by simp [exParams])]
  have hw : ∀ f, Refine.wrangRefine (exWorld.env (1 / 40)) ((exWorld.env (1 / 40)).meshOf 2) 2 f = some (4, ⟨2, f, 4⟩) := by
    intro f; simp [Refine.wrangRefine, World.env, exWorld]
  rw [hw]
  simp only
  rw [Refine.loop, if_neg (by simp [exParams]), if_pos h4]
  exact ⟨_, rfl⟩

/-- the example meets the hypotheses of `C85_refined`: the four nodes of the refined line are served -/
example (flag : Nat → Int) : ∃ ttc, (exWorld.scene 4 (1 / 1000) 4 (exWorld.node 4) flag (fun _ => 0)).run = .ok ttc ∧
    ∀ t < 4, ∃ m < 4, ∃ b < 2, ttc[t]? = some (((2 * m + b : Nat)) : Int) := by
  obtain ⟨links, hl⟩ := ex_stage1 id (fun _ => List.Perm.refl _)
  obtain ⟨ttc, h1, h2⟩ := C85_refined exWorld id (fun _ => List.Perm.refl _) exWorld_ok exParams (1 / 40) (1 / 1000)
    (by norm_num) (by simp [exParams]) 2 4 links hl flag (fun _ => 0)
  have h4 : exWorld.nnodes 4 = 4 := by simp [World.nnodes, ndofs, exWorld]
  rw [h4] at h1 h2
  refine ⟨ttc, h1, fun t ht => ?_⟩
  obtain ⟨m, hm, b, hb, g, -⟩ := h2 t ht
  exact ⟨m, hm, b, hb, g⟩

/-- the refined line needs no stage-2 refinement -/
theorem ex_stage2 (ord : List Nat → List Nat) (hord : ∀ l, (ord l).Perm l) :
    exWorld.stage2 ord exParams 4 = .ok (.done 4 [] none) := by
  classical
  have h4 : (Refine.checks2 ord (exWorld.env 0) 4 4).2 = [] := by
    rw [(checks2_spec ord hord _ _ _).1]
    intro i hi
    simp only [World.env, decide_eq_false_iff_not]
    rintro ⟨n, hn, c, hc, hz⟩
    have hn4 : n < exWorld.nnodes 4 := (nodeOf_lt _ _ _ hn).1
    rw [InZone, show (exWorld.geo (exWorld.quadDiscr 4) 4).pos n = exWorld.node 4 n from geo_source exWorld 4 4 n hn4,
      show (exWorld.geo (exWorld.quadDiscr 4) 4).pos ((exWorld.geo (exWorld.quadDiscr 4) 4).ns + c)
        = exWorld.center 4 c from geo_center exWorld 4 4 c hc] at hz
    obtain ⟨m, -, hm⟩ := elMax_attained (exWorld.groups 4) (fun n => 3 / 4 * exWorld.radius 4 n) i n hn
    rw [hm] at hz
    have hz : edist 2 (exWorld.node 4 n) (exWorld.center 4 c) ≤ 3 / 4 * exWorld.radius 4 m := hz
    have e2 : exWorld.radius 4 m = 1 / 8 := by
      simp only [World.radius, exWorld]; norm_num
    have hsym : edist 2 (exWorld.node 4 n) (exWorld.center 4 c) = edist 2 (exWorld.center 4 c) (exWorld.node 4 n) := by
      unfold edist
      congr 1
      exact Finset.sum_congr rfl (fun i _ => by ring)
    have hle := exWorld_dist 4 (c / 2) (c % 2) n (by omega)
    rw [show 2 * (c / 2) + c % 2 = c by omega] at hle
    rw [e2, hsym] at hz
    norm_num at hz hle
    linarith
  rw [stage2_eq exWorld ord hord exWorld_ok exParams 0]
  unfold Refine.stage2
  rw [if_neg (by simp [exParams]), Refine.loop, if_neg (by simp [exParams]), if_pos h4]
  rfl

end Verif.RefineGeom
