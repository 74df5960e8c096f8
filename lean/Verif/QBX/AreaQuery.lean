import Verif.QBX.TargetAssoc
import Mathlib.Algebra.Order.Group.Unbundled.Abs
import Mathlib.Tactic.Linarith

/-!
# Area queries of target association: geometry (C30, C31)

`TargetAssoc.lean` takes the leaf boxes an area query enumerates as given.  Here they are
computed from particle positions and leaf boxes, as `boxtree.area_query` documents it and as
`pytential/qbx/target_assoc.py` uses it: a space invader query tags every leaf box with the
largest `L∞` distance of its center to the centers of the balls overlapping it, and each target
then enumerates the leaves overlapping the ball around the center of its own leaf with that
radius.  The result is that the queries of the marker and of the center finder never miss a
particle, whereas that of the refiner does, because it looks up source coordinates with the
wrong permutation.
-/

namespace Verif.AreaQuery

open Verif.TargetAssoc

set_option linter.unusedSectionVars false

variable {F : Type} [Field F] [LinearOrder F] [IsStrictOrderedRing F]

/-- largest of the first `d` values, at least 0: the `fmax` loop over axes of the area query kernels
(`boxtree/area_query.py`, used from `target_assoc.py:207-213`) -/
def maxAxes (f : Nat → F) : Nat → F
  | 0 => 0
  | d + 1 => max (maxAxes f d) (f d)

/-- `L∞` distance in `d` dimensions -/
def dinf (d : Nat) (x y : Nat → F) : F := maxAxes (fun i => |x i - y i|) d

/-- a leaf box of the tree: center, half its width, and the user numbers of the particles in it -/
structure Leaf (F : Type) where
  ctr : Nat → F
  hw : F
  parts : List Nat

/-- The data of one association: `dim`, number of sources, centers, targets; particle positions in
user order (sources, then centers, then targets, `qbx/utils.py:342-363`); the tree's permutation
`userIds` (tree to user order) and its inverse `sortedIds`; leaf boxes; radii, elements, side
requests; Euclidean distance `dist`. -/
structure Scene (F : Type) where
  dim : Nat
  ns : Nat
  nc : Nat
  nt : Nat
  pos : Nat → Nat → F
  userIds : Nat → Nat
  sortedIds : Nat → Nat
  leaves : List (Leaf F)
  leafOf : Nat → Leaf F
  tunnel : Nat → F
  radTol : Nat → F
  elem : Nat → Nat
  flag : Nat → Int
  dist : (Nat → F) → (Nat → F) → F

namespace Scene

variable (sc : Scene F)

/-- `tree.sources`: positions in tree order -/
def treePos (i : Nat) : Nat → F := sc.pos (sc.userIds i)

/-- overlap test of the `L∞` ball with a box (`boxtree` `check_l_infty_ball_overlap`) -/
def overlaps (x : Nat → F) (r : F) (b : Leaf F) : Bool := decide (dinf sc.dim x b.ctr ≤ b.hw + r)

/-- space invader query for balls `(p j, r j)`, `j < n`, at leaf `b` -/
def searchDist (p : Nat → Nat → F) (r : Nat → F) (b : Leaf F) : Nat → F
  | 0 => 0
  | n + 1 => if sc.overlaps (p n) (r n) b then max (searchDist p r b n) (dinf sc.dim (p n) b.ctr)
      else searchDist p r b n

/-- leaves enumerated for target `t`: those overlapping the ball around the center of its own leaf
with the leaf's search distance (`target_assoc.py:207-213`, `:262-270`, `:394-400`) -/
def query (p : Nat → Nat → F) (r : Nat → F) (n t : Nat) : List (Leaf F) :=
  sc.leaves.filter (fun b => sc.overlaps (sc.leafOf (sc.ns + sc.nc + t)).ctr
    (sc.searchDist p r (sc.leafOf (sc.ns + sc.nc + t)) n) b)

/-- `box_to_qbx_source_lists` (`qbx/utils.py:381-399`) -/
def sourcesIn (b : Leaf F) : List Nat := b.parts.filter (fun i => decide (i < sc.ns))

/-- `box_to_qbx_center_lists` (`qbx/utils.py:381-399`) -/
def centersIn (b : Leaf F) : List Nat :=
  (b.parts.filter (fun i => decide (sc.ns ≤ i) && decide (i < sc.ns + sc.nc))).map (· - sc.ns)

/-- ball centers passed to the marker's space invader query (`target_assoc.py:562-563`):
`tree.sources[sorted_target_ids[source slice]]` -/
def markBalls (j : Nat) : Nat → F := sc.treePos (sc.sortedIds j)

/-- ball centers passed for center finding (`target_assoc.py:668-669`) -/
def ctrBalls (j : Nat) : Nat → F := sc.treePos (sc.sortedIds (sc.ns + j))

/-- ball centers passed by the refiner (`target_assoc.py:774-775`):
`tree.sources[user_source_ids[source slice]]` -/
def refBalls (j : Nat) : Nat → F := sc.treePos (sc.userIds j)

/-- positions the kernels load through `INDEX_FOR_..._PARTICLE` (`qbx/utils.py:59-61`) -/
def loaded (i : Nat) : Nat → F := sc.treePos (sc.sortedIds i)

/-- the layer potential source seen by the kernels -/
def source : Source F := ⟨sc.tunnel, sc.radTol, sc.elem⟩

/-- target `t` as the kernels see it -/
def target (t : Nat) : Target F where
  flag := sc.flag t
  srcDist := fun s => sc.dist (sc.loaded s) (sc.loaded (sc.ns + sc.nc + t))
  ctrDist := fun c => sc.dist (sc.loaded (sc.ns + c)) (sc.loaded (sc.ns + sc.nc + t))
  markLeaves := (sc.query sc.markBalls sc.tunnel sc.ns t).map sc.sourcesIn
  ctrLeaves := (sc.query sc.ctrBalls sc.radTol sc.nc t).map sc.centersIn
  refLeaves := (sc.query sc.refBalls sc.tunnel sc.ns t).map sc.sourcesIn

/-- `associate_targets_to_qbx_centers` on a scene (`target_assoc.py:853-952`) -/
def run : Result := associate sc.source ((List.range sc.nt).map sc.target)

/-- What `boxtree` guarantees and what makes a scene meaningful: the two permutations are inverse
to each other, every particle is in its leaf, `dist` dominates coordinate differences, and radii
are positive. -/
structure WF : Prop where
  inv : ∀ i < sc.ns + sc.nc + sc.nt, sc.userIds (sc.sortedIds i) = i
  leaf_mem : ∀ i < sc.ns + sc.nc + sc.nt, sc.leafOf i ∈ sc.leaves
  part_mem : ∀ i < sc.ns + sc.nc + sc.nt, i ∈ (sc.leafOf i).parts
  inside : ∀ i < sc.ns + sc.nc + sc.nt, dinf sc.dim (sc.pos i) (sc.leafOf i).ctr ≤ (sc.leafOf i).hw
  dist_ge : ∀ x y, dinf sc.dim x y ≤ sc.dist x y
  pos_rad : ∀ c < sc.nc, 0 < sc.radTol c

/-! ## specification: everything in terms of user positions -/

/-- the target is in the tunnel of source `s` -/
def CloseTo (t s : Nat) : Prop := sc.dist (sc.pos s) (sc.pos (sc.ns + sc.nc + t)) ≤ sc.tunnel s

/-- center `c` may serve target `t` -/
def MayServe (t c : Nat) : Prop :=
  0 ≤ side c * sc.flag t ∧ sc.dist (sc.pos (sc.ns + c)) (sc.pos (sc.ns + sc.nc + t)) ≤ sc.radTol c

/-- distance of the target relative to the enlarged expansion radius -/
def relDist (t c : Nat) : F :=
  sc.dist (sc.pos (sc.ns + c)) (sc.pos (sc.ns + sc.nc + t)) / sc.radTol c

end Scene

/-! ## L∞ distance -/

theorem maxAxes_nonneg (f : Nat → F) (d : Nat) : 0 ≤ maxAxes f d := by
  induction d with
  | zero => exact le_refl _
  | succ d ih => exact le_trans ih (le_max_left _ _)

theorem maxAxes_le_iff (f : Nat → F) (d : Nat) (b : F) (hb : 0 ≤ b) :
    maxAxes f d ≤ b ↔ ∀ i < d, f i ≤ b := by
  induction d with
  | zero => simp [maxAxes, hb]
  | succ d ih =>
    rw [maxAxes, max_le_iff, ih]
    constructor
    · rintro ⟨h1, h2⟩ i hi
      rcases Nat.lt_succ_iff_lt_or_eq.1 hi with h | rfl
      · exact h1 i h
      · exact h2
    · intro h
      exact ⟨fun i hi => h i (by omega), h d (by omega)⟩

theorem le_maxAxes (f : Nat → F) (d i : Nat) (hi : i < d) : f i ≤ maxAxes f d :=
  (maxAxes_le_iff f d _ (maxAxes_nonneg f d)).1 (le_refl _) i hi

theorem dinf_nonneg (d : Nat) (x y : Nat → F) : 0 ≤ dinf d x y := maxAxes_nonneg _ _

theorem dinf_comm (d : Nat) (x y : Nat → F) : dinf d x y = dinf d y x := by
  simp only [dinf]
  congr 1
  funext i
  rw [abs_sub_comm]

theorem dinf_triangle (d : Nat) (x y z : Nat → F) : dinf d x z ≤ dinf d x y + dinf d y z := by
  rw [dinf, maxAxes_le_iff _ _ _ (add_nonneg (dinf_nonneg _ _ _) (dinf_nonneg _ _ _))]
  intro i hi
  have h1 := le_maxAxes (fun i => |x i - y i|) d i hi
  have h2 := le_maxAxes (fun i => |y i - z i|) d i hi
  calc |x i - z i| ≤ |x i - y i| + |y i - z i| := abs_sub_le _ _ _
    _ ≤ _ := add_le_add h1 h2

/-! ## coverage -/

theorem le_searchDist (sc : Scene F) (p : Nat → Nat → F) (r : Nat → F) (b : Leaf F) (n j : Nat)
    (hj : j < n) (ho : sc.overlaps (p j) (r j) b = true) :
    dinf sc.dim (p j) b.ctr ≤ sc.searchDist p r b n := by
  induction n with
  | zero => omega
  | succ n ih =>
    rw [Scene.searchDist]
    rcases Nat.lt_succ_iff_lt_or_eq.1 hj with h | rfl
    · split
      · exact le_trans (ih h) (le_max_left _ _)
      · exact ih h
    · rw [if_pos ho]; exact le_max_right _ _

/-- A ball whose `L∞` ball contains the target: the query enumerates every box containing the ball
center. -/
theorem mem_query (sc : Scene F) (p : Nat → Nat → F) (r : Nat → F) (n t j : Nat) (hj : j < n)
    (y : Nat → F) (hy : dinf sc.dim y (sc.leafOf (sc.ns + sc.nc + t)).ctr
      ≤ (sc.leafOf (sc.ns + sc.nc + t)).hw)
    (hc : dinf sc.dim (p j) y ≤ r j) (b : Leaf F) (hb : b ∈ sc.leaves)
    (hin : dinf sc.dim (p j) b.ctr ≤ b.hw) : b ∈ sc.query p r n t := by
  have h1 : sc.overlaps (p j) (r j) (sc.leafOf (sc.ns + sc.nc + t)) = true := by
    rw [Scene.overlaps, decide_eq_true_eq]
    have := dinf_triangle sc.dim (p j) y (sc.leafOf (sc.ns + sc.nc + t)).ctr
    linarith
  have h2 := le_searchDist sc p r (sc.leafOf (sc.ns + sc.nc + t)) n j hj h1
  refine List.mem_filter.2 ⟨hb, ?_⟩
  rw [Scene.overlaps, decide_eq_true_eq]
  have h3 := dinf_triangle sc.dim (sc.leafOf (sc.ns + sc.nc + t)).ctr (p j) b.ctr
  rw [dinf_comm sc.dim (sc.leafOf (sc.ns + sc.nc + t)).ctr (p j)] at h3
  linarith

theorem loaded_eq (sc : Scene F) (h : sc.WF) (i : Nat) (hi : i < sc.ns + sc.nc + sc.nt) :
    sc.loaded i = sc.pos i := by
  rw [Scene.loaded, Scene.treePos, h.inv i hi]

theorem source_mem (sc : Scene F) (h : sc.WF) (p : Nat → Nat → F) (t s : Nat) (ht : t < sc.nt)
    (hs : s < sc.ns) (hp : p s = sc.pos s) (hc : sc.CloseTo t s) :
    ∃ l ∈ (sc.query p sc.tunnel sc.ns t).map sc.sourcesIn, s ∈ l := by
  refine ⟨sc.sourcesIn (sc.leafOf s), List.mem_map.2 ⟨_, ?_, rfl⟩, ?_⟩
  · refine mem_query sc p sc.tunnel sc.ns t s hs (sc.pos (sc.ns + sc.nc + t))
      (h.inside _ (by omega)) ?_ _ (h.leaf_mem s (by omega)) ?_
    · rw [hp]; exact le_trans (h.dist_ge _ _) hc
    · rw [hp]; exact h.inside s (by omega)
  · exact List.mem_filter.2 ⟨h.part_mem s (by omega), by simpa using hs⟩

theorem source_lt (sc : Scene F) (p : Nat → Nat → F) (t : Nat) :
    ∀ l ∈ (sc.query p sc.tunnel sc.ns t).map sc.sourcesIn, ∀ s ∈ l, s < sc.ns := by
  intro l hl s hs
  obtain ⟨b, -, rfl⟩ := List.mem_map.1 hl
  simpa using (List.mem_filter.1 hs).2

theorem close_iff (sc : Scene F) (h : sc.WF) (t s : Nat) (ht : t < sc.nt) (hs : s < sc.ns) :
    Close sc.source (sc.target t) s ↔ sc.CloseTo t s := by
  simp only [Close, Scene.source, Scene.target, Scene.CloseTo]
  rw [loaded_eq sc h s (by omega), loaded_eq sc h _ (by omega)]

theorem eligible_iff (sc : Scene F) (h : sc.WF) (t c : Nat) (ht : t < sc.nt) (hc : c < sc.nc) :
    Eligible sc.source (sc.target t) c ↔ sc.MayServe t c := by
  have h1 : (sc.target t).ctrDist c
      = sc.dist (sc.pos (sc.ns + c)) (sc.pos (sc.ns + sc.nc + t)) := by
    simp only [Scene.target]
    rw [loaded_eq sc h _ (by omega), loaded_eq sc h _ (by omega)]
  constructor
  · rintro ⟨h2, h3⟩
    rw [h1] at h3
    exact ⟨h2, h3⟩
  · rintro ⟨h2, h3⟩
    refine ⟨h2, ?_⟩
    rw [h1]; exact h3

theorem rel_eq (sc : Scene F) (h : sc.WF) (t c : Nat) (ht : t < sc.nt) (hc : c < sc.nc) :
    rel sc.source (sc.target t) c = sc.relDist t c := by
  simp only [rel, Scene.target, Scene.relDist, Scene.source]
  rw [loaded_eq sc h _ (by omega), loaded_eq sc h _ (by omega)]

/-- the queries of the marker and the center finder find everything -/
theorem covered (sc : Scene F) (h : sc.WF) (t : Nat) (ht : t < sc.nt) :
    Covered sc.source sc.ns sc.nc (sc.target t) where
  mark := by
    intro s hs hc
    exact source_mem sc h sc.markBalls t s ht hs (loaded_eq sc h s (by omega))
      ((close_iff sc h t s ht hs).1 hc)
  mark_lt := source_lt sc _ t
  ctr := by
    intro c hc hd
    have hd' : sc.dist (sc.pos (sc.ns + c)) (sc.pos (sc.ns + sc.nc + t)) ≤ sc.radTol c := by
      have h1 : (sc.target t).ctrDist c
          = sc.dist (sc.pos (sc.ns + c)) (sc.pos (sc.ns + sc.nc + t)) := by
        simp only [Scene.target]
        rw [loaded_eq sc h _ (by omega), loaded_eq sc h _ (by omega)]
      rw [h1] at hd; exact hd
    have hp : sc.ctrBalls c = sc.pos (sc.ns + c) := loaded_eq sc h (sc.ns + c) (by omega)
    refine ⟨sc.centersIn (sc.leafOf (sc.ns + c)), List.mem_map.2 ⟨_, ?_, rfl⟩, ?_⟩
    · refine mem_query sc sc.ctrBalls sc.radTol sc.nc t c hc (sc.pos (sc.ns + sc.nc + t))
        (h.inside _ (by omega)) ?_ _ (h.leaf_mem _ (by omega)) ?_
      · rw [hp]; exact le_trans (h.dist_ge _ _) hd'
      · rw [hp]; exact h.inside _ (by omega)
    · refine List.mem_map.2 ⟨sc.ns + c, List.mem_filter.2 ⟨h.part_mem _ (by omega), ?_⟩, by omega⟩
      simp only [Bool.and_eq_true, decide_eq_true_eq]; omega
  ctr_lt := by
    intro l hl c hc
    obtain ⟨b, -, rfl⟩ := List.mem_map.1 hl
    obtain ⟨i, hi, rfl⟩ := List.mem_map.1 hc
    have := (List.mem_filter.1 hi).2
    simp only [Bool.and_eq_true, decide_eq_true_eq] at this
    omega
  pos := h.pos_rad

theorem covered_all (sc : Scene F) (h : sc.WF) :
    ∀ t ∈ (List.range sc.nt).map sc.target, Covered sc.source sc.ns sc.nc t := by
  intro t ht
  obtain ⟨i, hi, rfl⟩ := List.mem_map.1 ht
  exact covered sc h i (List.mem_range.1 hi)

theorem target_get (sc : Scene F) (t : Nat) (ht : t < sc.nt) :
    ((List.range sc.nt).map sc.target)[t]? = some (sc.target t) := by
  rw [List.getElem?_map, List.getElem?_range ht]; rfl

/-- C30, for positions, trees and searches: an assigned center lies on the requested side, has the
target within its enlarged radius, has the least relative distance among the usable centers of its
side, and if the other side has usable centers then one of least relative distance there is at
least as far away. -/
theorem C30_geometry (sc : Scene F) (h : sc.WF) (ttc : List Int) (hr : sc.run = .ok ttc)
    (t : Nat) (ht : t < sc.nt) (v : Int) (hv : ttc[t]? = some v) (hne : v ≠ -1) :
    ∃ c < sc.nc, v = (c : Int) ∧ sc.MayServe t c ∧
      (∀ c' < sc.nc, sc.MayServe t c' → side c' = side c → sc.relDist t c ≤ sc.relDist t c') ∧
      ((∀ c' < sc.nc, sc.MayServe t c' → side c' = side c) ∨
        ∃ c' < sc.nc, sc.MayServe t c' ∧ side c' ≠ side c ∧
          sc.dist (sc.pos (sc.ns + c)) (sc.pos (sc.ns + sc.nc + t))
            ≤ sc.dist (sc.pos (sc.ns + c')) (sc.pos (sc.ns + sc.nc + t)) ∧
          ∀ c'' < sc.nc, sc.MayServe t c'' → side c'' = side c' →
            sc.relDist t c' ≤ sc.relDist t c'') := by
  obtain ⟨c, hc, h1, h2, h3, h4⟩ := C30_assigned sc.source sc.ns sc.nc _ (covered_all sc h) ttc hr t
    (sc.target t) (target_get sc t ht) v hv hne
  have hd : ∀ c < sc.nc, (sc.target t).ctrDist c
      = sc.dist (sc.pos (sc.ns + c)) (sc.pos (sc.ns + sc.nc + t)) := by
    intro c hc
    simp only [Scene.target]
    rw [loaded_eq sc h _ (by omega), loaded_eq sc h _ (by omega)]
  refine ⟨c, hc, h1, (eligible_iff sc h t c ht hc).1 h2, ?_, ?_⟩
  · intro c' hc' he hs
    rw [← rel_eq sc h t c ht hc, ← rel_eq sc h t c' ht hc']
    exact h3 c' hc' ((eligible_iff sc h t c' ht hc').2 he) hs
  · rcases h4 with h4 | ⟨c', hc', h5, h6, h7, h8⟩
    · exact Or.inl fun c' hc' he => h4 c' hc' ((eligible_iff sc h t c' ht hc').2 he)
    · refine Or.inr ⟨c', hc', (eligible_iff sc h t c' ht hc').1 h5, h6, ?_, ?_⟩
      · rw [← hd c hc, ← hd c' hc']; exact h7
      · intro c'' hc'' he hs
        rw [← rel_eq sc h t c' ht hc', ← rel_eq sc h t c'' ht hc'']
        exact h8 c'' hc'' ((eligible_iff sc h t c'' ht hc'').2 he) hs

/-- C31, for positions, trees and searches: on success a target has no center exactly if no source
has it in its tunnel; association succeeds exactly if all targets in tunnels have a usable
center. -/
theorem C31_geometry (sc : Scene F) (h : sc.WF) :
    (∀ ttc, sc.run = .ok ttc → ttc.length = sc.nt ∧
      ∀ t < sc.nt, ∀ v, ttc[t]? = some v → (v = -1 ↔ ∀ s < sc.ns, ¬ sc.CloseTo t s)) ∧
    ((∃ ttc, sc.run = .ok ttc) ↔
      ∀ t < sc.nt, (∃ s < sc.ns, sc.CloseTo t s) → ∃ c < sc.nc, sc.MayServe t c) := by
  constructor
  · intro ttc hr
    obtain ⟨h1, h2⟩ := C31_unassigned sc.source sc.ns sc.nc _ (covered_all sc h) ttc hr
    refine ⟨by simpa using h1, fun t ht v hv => ?_⟩
    rw [h2 t (sc.target t) v (target_get sc t ht) hv]
    constructor
    · intro h3 s hs hc; exact h3 s hs ((close_iff sc h t s ht hs).2 hc)
    · intro h3 s hs hc; exact h3 s hs ((close_iff sc h t s ht hs).1 hc)
  · rw [Scene.run, C31_succeeds sc.source sc.ns sc.nc _ (covered_all sc h)]
    constructor
    · rintro h1 t ht ⟨s, hs, hc⟩
      obtain ⟨c, hc', he⟩ := h1 (sc.target t) (List.mem_map.2 ⟨t, List.mem_range.2 ht, rfl⟩)
        ⟨s, hs, (close_iff sc h t s ht hs).2 hc⟩
      exact ⟨c, hc', (eligible_iff sc h t c ht hc').1 he⟩
    · rintro h1 t' ht' ⟨s, hs, hc⟩
      obtain ⟨t, ht, rfl⟩ := List.mem_map.1 ht'
      have ht := List.mem_range.1 ht
      obtain ⟨c, hc', he⟩ := h1 t ht ⟨s, hs, (close_iff sc h t s ht hs).1 hc⟩
      exact ⟨c, hc', (eligible_iff sc h t c ht hc').2 he⟩

/-- C31, for every tree: if a target in the tunnel of a source has no usable center, then the call raises
`QBXTargetAssociationFailedError` or dies on its assertion.  When it raises, the flags for targets are exact, at least one element is
flagged for refinement, and every flagged element owns a source that has such a target in its tunnel — what can be missing
are flags for further elements. -/
theorem C31_geometry_failed_any (sc : Scene F) (h : sc.WF)
    (hfail : ∃ t < sc.nt, (∃ s < sc.ns, sc.CloseTo t s) ∧ ∀ c < sc.nc, ¬ sc.MayServe t c) :
    sc.run = .assertion ∨
    ∃ refine failed onSurface, sc.run = .failed refine failed onSurface ∧ failed.length = sc.nt ∧
      (∀ t < sc.nt, ∀ b, failed[t]? = some b →
        (b = true ↔ (∃ s < sc.ns, sc.CloseTo t s) ∧ ∀ c < sc.nc, ¬ sc.MayServe t c)) ∧
      (∀ e, refine e = true → ∃ t < sc.nt, (∀ c < sc.nc, ¬ sc.MayServe t c) ∧
        ∃ s < sc.ns, sc.CloseTo t s ∧ sc.elem s = e) ∧
      ∃ e, refine e = true := by
  have hno : ∀ t < sc.nt, (∀ c < sc.nc, ¬ Eligible sc.source (sc.target t) c) ↔
      ∀ c < sc.nc, ¬ sc.MayServe t c := by
    intro t ht
    constructor
    · intro h1 c hc he; exact h1 c hc ((eligible_iff sc h t c ht hc).2 he)
    · intro h1 c hc he; exact h1 c hc ((eligible_iff sc h t c ht hc).1 he)
  have hcl : ∀ t < sc.nt, (∃ s < sc.ns, Close sc.source (sc.target t) s) ↔ ∃ s < sc.ns, sc.CloseTo t s := by
    intro t ht
    constructor
    · rintro ⟨s, hs, hc⟩; exact ⟨s, hs, (close_iff sc h t s ht hs).1 hc⟩
    · rintro ⟨s, hs, hc⟩; exact ⟨s, hs, (close_iff sc h t s ht hs).2 hc⟩
  obtain ⟨t, ht, h1, h2⟩ := hfail
  rcases C31_failed_any sc.source sc.ns sc.nc _ (covered_all sc h)
      ⟨sc.target t, List.mem_map.2 ⟨t, List.mem_range.2 ht, rfl⟩, (hcl t ht).2 h1, (hno t ht).2 h2⟩ with
    ⟨ha, -⟩ | ⟨refine, failed, onS, h3, h4, h5, h6, h7, -⟩
  · exact .inl ha
  · refine .inr ⟨refine, failed, onS, h3, by simpa using h4, ?_, ?_, h7⟩
    · intro t ht b hb
      rw [h5 t (sc.target t) b (target_get sc t ht) hb, hcl t ht, hno t ht]
    · intro e he
      obtain ⟨t', ht', ⟨-, h8⟩, l, hl, s, hs, h9, h10⟩ := (h6 e).1 he
      obtain ⟨t, ht, rfl⟩ := List.mem_map.1 ht'
      have ht := List.mem_range.1 ht
      have hlt : s < sc.ns := source_lt sc _ t l hl s hs
      exact ⟨t, ht, (hno t ht).1 h8, s, hlt, (close_iff sc h t s ht hlt).1 h9, h10⟩

/-- C31: if the tree's permutation is an involution on the sources (for instance if the particles
are already in tree order), failure is reported with exactly the right flags.  The general case is
false, see `C31_refuted`. -/
theorem C31_geometry_failed_partial (sc : Scene F) (h : sc.WF)
    (hinv : ∀ s < sc.ns, sc.userIds (sc.userIds s) = s)
    (hfail : ∃ t < sc.nt, (∃ s < sc.ns, sc.CloseTo t s) ∧ ∀ c < sc.nc, ¬ sc.MayServe t c) :
    ∃ refine failed onSurface, sc.run = .failed refine failed onSurface ∧
      failed.length = sc.nt ∧
      (∀ t < sc.nt, ∀ b, failed[t]? = some b →
        (b = true ↔ (∃ s < sc.ns, sc.CloseTo t s) ∧ ∀ c < sc.nc, ¬ sc.MayServe t c)) ∧
      (∀ e, refine e = true ↔ ∃ t < sc.nt, (∀ c < sc.nc, ¬ sc.MayServe t c) ∧
        ∃ s < sc.ns, sc.CloseTo t s ∧ sc.elem s = e) ∧
      (∃ e, refine e = true) := by
  have href : ∀ t ∈ (List.range sc.nt).map sc.target, RefCovered sc.source sc.ns t := by
    intro t' ht'
    obtain ⟨t, ht, rfl⟩ := List.mem_map.1 ht'
    have ht := List.mem_range.1 ht
    refine ⟨?_, source_lt sc _ t⟩
    intro s hs hc
    refine source_mem sc h sc.refBalls t s ht hs ?_ ((close_iff sc h t s ht hs).1 hc)
    rw [Scene.refBalls, Scene.treePos, hinv s hs]
  have hno : ∀ t < sc.nt, (∀ c < sc.nc, ¬ Eligible sc.source (sc.target t) c) ↔
      ∀ c < sc.nc, ¬ sc.MayServe t c := by
    intro t ht
    constructor
    · intro h1 c hc he; exact h1 c hc ((eligible_iff sc h t c ht hc).2 he)
    · intro h1 c hc he; exact h1 c hc ((eligible_iff sc h t c ht hc).1 he)
  have hcl : ∀ t < sc.nt, (∃ s < sc.ns, Close sc.source (sc.target t) s) ↔
      ∃ s < sc.ns, sc.CloseTo t s := by
    intro t ht
    constructor
    · rintro ⟨s, hs, hc⟩; exact ⟨s, hs, (close_iff sc h t s ht hs).1 hc⟩
    · rintro ⟨s, hs, hc⟩; exact ⟨s, hs, (close_iff sc h t s ht hs).2 hc⟩
  obtain ⟨t, ht, h1, h2⟩ := hfail
  obtain ⟨refine, failed, onS, h3, h4, h5, h6, h7, -⟩ :=
    C31_failed_partial sc.source sc.ns sc.nc _ (covered_all sc h) href
      ⟨sc.target t, List.mem_map.2 ⟨t, List.mem_range.2 ht, rfl⟩, (hcl t ht).2 h1, (hno t ht).2 h2⟩
  refine ⟨refine, failed, onS, h3, by simpa using h4, ?_, ?_, h7⟩
  · intro t ht b hb
    rw [h5 t (sc.target t) b (target_get sc t ht) hb, hcl t ht, hno t ht]
  · intro e
    rw [h6 e]
    constructor
    · rintro ⟨t', ht', h8, s, hs, h9, h10⟩
      obtain ⟨t, ht, rfl⟩ := List.mem_map.1 ht'
      have ht := List.mem_range.1 ht
      exact ⟨t, ht, (hno t ht).1 h8, s, hs, (close_iff sc h t s ht hs).1 h9, h10⟩
    · rintro ⟨t, ht, h8, s, hs, h9, h10⟩
      exact ⟨sc.target t, List.mem_map.2 ⟨t, List.mem_range.2 ht, rfl⟩, (hno t ht).2 h8, s, hs,
        (close_iff sc h t s ht hs).2 h9, h10⟩

/-! ## a counterexample -/

/-- a point of the plane -/
def pt (x y : ℚ) : Nat → ℚ := fun i => if i = 0 then x else y

/-- leaf box of the example -/
def boxA : Leaf ℚ := ⟨pt 1 1, 1, [4, 6]⟩
/-- leaf box of the example -/
def boxB : Leaf ℚ := ⟨pt 3 1, 1, [1, 5]⟩
/-- leaf box of the example -/
def boxC : Leaf ℚ := ⟨pt 6 2, 2, [0, 2, 3]⟩

/-- particle positions of the example -/
def exPos (i : Nat) : Nat → ℚ :=
  [pt 7 1, pt (21/10) 1, pt (33/5) 1, pt (37/5) 1, pt (17/10) 1, pt (5/2) 1,
    pt (39/20) 1].getD i (pt 0 0)

/-- Two sources: number 0 at (7, 1), number 1 at (21/10, 1), with expansion radii 2/5 and tunnel
radii 1/5; their four centers; and a target at (39/20, 1) with an exterior side request although
it is on the interior side.  All points have the same second coordinate, so `L∞` and Euclidean
distance agree. -/
def ex (userIds sortedIds : Nat → Nat) (bs : Nat → Leaf ℚ) : Scene ℚ where
  dim := 2
  ns := 2
  nc := 4
  nt := 1
  pos := exPos
  userIds := userIds
  sortedIds := sortedIds
  leaves := [boxA, boxB, boxC]
  leafOf := bs
  tunnel := fun _ => 1/5
  radTol := fun _ => 41/100
  elem := fun s => s
  flag := fun _ => 1
  dist := dinf 2

/-- leaves of the particles -/
def exLeaf (i : Nat) : Leaf ℚ := if i ∈ boxA.parts then boxA else if i ∈ boxB.parts then boxB else boxC

/-- the example with particles numbered box by box, as boxtree does -/
def exBad : Scene ℚ :=
  ex (fun i => [4, 6, 1, 5, 0, 2, 3].getD i 0) (fun i => [4, 2, 5, 6, 0, 3, 1].getD i 0) exLeaf

/-- the same scene with a tree order that is an involution on the sources -/
def exGood : Scene ℚ :=
  ex (fun i => [1, 0, 2, 3, 4, 5, 6].getD i 0) (fun i => [1, 0, 2, 3, 4, 5, 6].getD i 0) exLeaf

theorem ex_wf (u s : Nat → Nat) (hus : ∀ i < 7, u (s i) = i) : (ex u s exLeaf).WF where
  inv := hus
  leaf_mem := by
    intro i _
    show exLeaf i ∈ [boxA, boxB, boxC]
    unfold exLeaf
    split
    · simp
    · split <;> simp
  part_mem := by
    intro i hi
    have hi : i < 7 := hi
    show i ∈ (exLeaf i).parts
    have : i = 0 ∨ i = 1 ∨ i = 2 ∨ i = 3 ∨ i = 4 ∨ i = 5 ∨ i = 6 := by omega
    rcases this with rfl | rfl | rfl | rfl | rfl | rfl | rfl <;> decide +kernel
  inside := by
    intro i hi
    have hi : i < 7 := hi
    show dinf 2 (exPos i) (exLeaf i).ctr ≤ (exLeaf i).hw
    have h : ∀ i < 7, dinf 2 (exPos i) (exLeaf i).ctr ≤ (exLeaf i).hw := by decide +kernel
    exact h i hi
  dist_ge := by intro x y; exact le_refl _
  pos_rad := by intro c _; show (0 : ℚ) < 41/100; norm_num

theorem exBad_wf : exBad.WF := ex_wf _ _ (by decide)

theorem exGood_wf : exGood.WF := ex_wf _ _ (by decide)

theorem ex_close (u s : Nat → Nat) : (ex u s exLeaf).CloseTo 0 1 := by
  show dinf 2 (pt (21/10) 1) (pt (39/20) 1) ≤ 1/5
  decide +kernel

theorem ex_noServe (u s : Nat → Nat) : ∀ c < 4, ¬ (ex u s exLeaf).MayServe 0 c := by
  intro c hc
  have : c = 0 ∨ c = 1 ∨ c = 2 ∨ c = 3 := by omega
  rintro ⟨h1, h2⟩
  change 0 ≤ side c * 1 at h1
  rcases this with rfl | rfl | rfl | rfl
  · revert h1; decide
  · change dinf 2 (pt (37/5) 1) (pt (39/20) 1) ≤ 41/100 at h2
    revert h2; decide +kernel
  · revert h1; decide
  · change dinf 2 (pt (5/2) 1) (pt (39/20) 1) ≤ 41/100 at h2
    revert h2; decide +kernel

/-- C31 is false for the refinement flags: here a target in the tunnel of a source has no usable
center, but the call ends in the failed assertion `have_element_to_refine`
(`target_assoc.py:946`) instead of `QBXTargetAssociationFailedError`. -/
theorem C31_refuted :
    exBad.WF ∧ (∃ t < exBad.nt, (∃ s < exBad.ns, exBad.CloseTo t s) ∧
      ∀ c < exBad.nc, ¬ exBad.MayServe t c) ∧ exBad.run = .assertion := by
  refine ⟨exBad_wf, ⟨0, by decide, ⟨1, by decide, ex_close _ _⟩, ex_noServe _ _⟩, ?_⟩
  have h : (match exBad.run with
    | .assertion => true
    | _ => false) = true := by decide +kernel
  revert h
  cases exBad.run with
  | assertion => intro _; rfl
  | ok l => intro h; cases h
  | failed a b c => intro h; cases h

/-- the hypotheses of `C31_geometry_failed_partial` hold for the same particles in a tree order that
is an involution on the sources -/
example : (∃ refine failed onSurface, exGood.run = .failed refine failed onSurface ∧
    failed = [true] ∧ refine 1 = true ∧ refine 0 = false ∧ onSurface = true) := by
  have h : (match exGood.run with
    | .failed r f o => f == [true] && r 1 && !r 0 && o
    | _ => false) = true := by decide +kernel
  revert h
  cases exGood.run with
  | assertion => intro h; cases h
  | ok l => intro h; cases h
  | failed a b c =>
    intro h
    simp only [Bool.and_eq_true, beq_iff_eq, Bool.not_eq_true'] at h
    exact ⟨a, b, c, rfl, h.1.1.1, h.1.1.2, h.1.2, h.2⟩

example : ∀ s < exGood.ns, exGood.userIds (exGood.userIds s) = s := by decide

/-- the hypotheses of `C31_geometry_failed_any` hold for both trees; its two outcomes are those of `exBad` and `exGood` -/
example : ∃ t < exBad.nt, (∃ s < exBad.ns, exBad.CloseTo t s) ∧ ∀ c < exBad.nc, ¬ exBad.MayServe t c :=
  ⟨0, by decide, ⟨1, by decide, ex_close _ _⟩, ex_noServe _ _⟩

end Verif.AreaQuery
