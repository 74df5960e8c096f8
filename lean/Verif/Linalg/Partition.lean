import Mathlib.Data.Rat.Floor
import Mathlib.Algebra.Order.Floor.Semifield
import Mathlib.Tactic.Ring
import Mathlib.Tactic.Linarith
import Mathlib.Tactic.NormNum
import Mathlib.Tactic.FieldSimp
import Mathlib.Data.List.Nodup
import Verif.Linalg.IndexList

/-!
# Partitioning nodes (C48)

Model of `partition_by_nodes` (`pytential/linalg/proxy.py:87-157`).  The tree comes from `boxtree` (not part of the
repository); `TreeArrays` holds the arrays read here and `Represents` says what `boxtree` documents about them.
-/

namespace Verif.Partition
open Verif.Offsets Verif.IndexList

/-- exceptions raised by `partition_by_nodes` and the code it calls (`proxy.py:87-157`) -/
inductive PErr | value | index | zeroDivision | assertion
  deriving DecidableEq, Repr

/-- the arrays of the tree read by `partition_by_nodes`: number of boxes, whether
`HAS_SOURCE_OR_TARGET_CHILD_BOXES` is set in `box_flags`, `box_source_starts`, `box_source_counts_cumul`, and
`user_source_ids` -/
structure TreeArrays where
  nboxes : Nat
  hasChildren : Nat → Bool
  boxStart : Nat → Nat
  boxCount : Nat → Nat
  userIds : List Nat

/-- `leaf_boxes` (`proxy.py:135-137`) -/
def leafBoxes (T : TreeArrays) : List Nat := (List.range T.nboxes).filter fun b => !T.hasChildren b

/-- the clusters (`proxy.py:139-145`): `user_source_ids[box_start:box_end]` for every leaf box -/
def treeClusters (T : TreeArrays) : List (List Nat) :=
  (leafBoxes T).map fun b => slice T.userIds (T.boxStart b) (T.boxStart b + T.boxCount b)

/-- `np.linspace(0, n, m + 1, dtype=np.int64)` (`proxy.py:152`): NumPy computes the step, multiplies, sets the last
entry, and rounds down; `rnd` is floating point rounding -/
def linspace (rnd : ℚ → ℚ) (n m : Nat) : List Nat :=
  (List.range m).map (fun (i : Nat) => ⌊rnd (i * rnd (n / m))⌋₊) ++ [n]

/-- error translation -/
def liftI : Except IndexList.Err IList → Except PErr IList
  | .ok l => .ok l
  | .error .index => .error .index
  | .error .value => .error .value
  | .error .assertion => .error .assertion

/-- `partition_by_nodes` (`proxy.py:87-157`) of a discretization with `ndofs` DOFs; `tree` is the tree built for
`tree_kind` other than `None`.  Looking up the discretization is left out -/
def partitionByNodes (rnd : ℚ → ℚ) (ambientDim dim ndofs : Nat) (tree : Option (Nat → TreeArrays))
    (maxParticles? : Option Nat) : Except PErr IList :=
  let maxParticles := maxParticles?.getD 32
  match tree with
  | some build => liftI (makeIndexList (.clusters (treeClusters (build maxParticles))))
  | none =>
    if ambientDim ≠ 2 ∧ dim = 1 then .error .value
    else if maxParticles = 0 then .error .zeroDivision
    else
      let nclusters := max (ndofs / maxParticles) 2
      let starts := linspace rnd ndofs nclusters
      if starts.getLast? ≠ some ndofs then .error .assertion
      else liftI (makeIndexList (.flat (List.range ndofs) starts))

/-! ## specification of the tree -/

/-- a tree of boxes, each with its range of points in tree order -/
inductive Box
  | node (start count : Nat) (children : List Box)

/-- first point of a box -/
def Box.start : Box → Nat
  | .node s _ _ => s

/-- number of points of a box, including those of its children -/
def Box.count : Box → Nat
  | .node _ c _ => c

/-- consecutive boxes that cover the range of `c` points from `s` -/
def Tiles : Nat → Nat → List Box → Prop
  | _, c, [] => c = 0
  | s, c, b :: bs => b.start = s ∧ b.count ≤ c ∧ Tiles (s + b.count) (c - b.count) bs

mutual
/-- the children of every box that has any tile it (points are never kept in boxes with children) -/
def Box.OK : Box → Prop
  | .node s c ch => (ch ≠ [] → Tiles s c ch) ∧ allOK ch

/-- all of a list -/
def allOK : List Box → Prop
  | [] => True
  | b :: bs => b.OK ∧ allOK bs
end

mutual
/-- all boxes with: has children?, start, count -/
def Box.rows : Box → List (Bool × Nat × Nat)
  | .node s c ch => (!ch.isEmpty, s, c) :: allRows ch

/-- of a list -/
def allRows : List Box → List (Bool × Nat × Nat)
  | [] => []
  | b :: bs => b.rows ++ allRows bs
end

/-- the arrays are those of a tree of `n` points: the root has all points, children tile their parents, the arrays
list the boxes in some order, and the tree order is a permutation of the points -/
structure Represents (T : TreeArrays) (root : Box) (n : Nat) : Prop where
  whole : root.start = 0 ∧ root.count = n
  ok : root.OK
  boxes : ((List.range T.nboxes).map fun b => (T.hasChildren b, T.boxStart b, T.boxCount b)).Perm root.rows
  perm : T.userIds.Perm (List.range n)

/-- rounding with relative error at most `u`, preserving order -/
structure Rounding (rnd : ℚ → ℚ) (u : ℚ) : Prop where
  mono : ∀ x y, x ≤ y → rnd x ≤ rnd y
  close : ∀ x, |rnd x - x| ≤ u * |x|

/-! ## lemmas -/

/-- the leaves of a list of rows -/
def leafRows (rows : List (Bool × Nat × Nat)) : List (Bool × Nat × Nat) := rows.filter fun r => !r.1

/-- the points of the rows -/
def pointsOf (rows : List (Bool × Nat × Nat)) : List Nat := rows.flatMap fun r => List.range' r.2.1 r.2.2

theorem range'_split (s a c : Nat) (h : a ≤ c) :
    List.range' s a ++ List.range' (s + a) (c - a) = List.range' s c := by
  rw [List.range'_append_1, Nat.add_sub_cancel' h]

theorem pointsOf_append (a b : List (Bool × Nat × Nat)) : pointsOf (a ++ b) = pointsOf a ++ pointsOf b := by
  simp [pointsOf]

theorem leafRows_append (a b : List (Bool × Nat × Nat)) : leafRows (a ++ b) = leafRows a ++ leafRows b := by
  simp [leafRows]

mutual
theorem points_box (b : Box) (h : b.OK) : pointsOf (leafRows b.rows) = List.range' b.start b.count := by
  match b, h with
  | .node s c ch, h =>
    rw [Box.OK] at h
    rw [Box.rows]
    cases ch with
    | nil => simp [leafRows, pointsOf, allRows, Box.start, Box.count]
    | cons b bs =>
      have := points_all (b :: bs) h.2 s c (h.1 (by simp))
      simpa [leafRows, Box.start, Box.count] using this

theorem points_all (bs : List Box) (h : allOK bs) (s c : Nat) (ht : Tiles s c bs) :
    pointsOf (leafRows (allRows bs)) = List.range' s c := by
  match bs, h with
  | [], _ =>
    rw [Tiles] at ht
    subst ht
    rfl
  | b :: bs, h =>
    rw [allOK] at h
    rw [Tiles] at ht
    rw [allRows, leafRows_append, pointsOf_append, points_box b h.1, points_all bs h.2 _ _ ht.2.2, ht.1,
      range'_split _ _ _ ht.2.1]
end

theorem slice_eq_map (x : List Nat) (a c : Nat) (h : a + c ≤ x.length) :
    slice x a (a + c) = (List.range' a c).map fun i => x.getD i 0 := by
  apply List.ext_getElem?
  intro i
  rw [slice_get?, List.getElem?_map]
  by_cases hi : i < c
  · rw [if_pos (by omega), List.getElem?_range' hi, Option.map_some, Nat.one_mul, List.getD_eq_getElem?_getD,
      List.getElem?_eq_getElem (by omega), Option.getD_some]
  · rw [if_neg (by omega), List.getElem?_eq_none (by simpa using hi)]; rfl

theorem map_getD_range (x : List Nat) : (List.range x.length).map (fun i => x.getD i 0) = x := by
  apply List.ext_getElem?
  intro i
  rw [List.getElem?_map]
  by_cases hi : i < x.length
  · rw [List.getElem?_range hi, Option.map_some, List.getD_eq_getElem?_getD, List.getElem?_eq_getElem hi,
      Option.getD_some]
  · rw [List.getElem?_eq_none (by simpa using hi), List.getElem?_eq_none (by omega)]; rfl

/-- the concatenated clusters of a represented tree are a permutation of the DOFs -/
theorem treeClusters_perm (T : TreeArrays) (root : Box) (n : Nat) (h : Represents T root n) :
    (treeClusters T).flatten.Perm (List.range n) := by
  have hlen : T.userIds.length = n := by rw [h.perm.length_eq, List.length_range]
  have hrows : ((leafBoxes T).map fun b => (T.hasChildren b, T.boxStart b, T.boxCount b)).Perm (leafRows root.rows) := by
    have := h.boxes.filter fun r => !r.1
    rw [List.filter_map] at this
    exact this
  have hpts : ((leafBoxes T).flatMap fun b => List.range' (T.boxStart b) (T.boxCount b)).Perm (List.range n) := by
    have h1 := hrows.flatMap_right (fun r => List.range' r.2.1 r.2.2)
    rw [List.flatMap_map] at h1
    have h2 : (leafRows root.rows).flatMap (fun r => List.range' r.2.1 r.2.2) = List.range n := by
      have := points_box root h.ok
      rw [pointsOf] at this
      rw [this, h.whole.1, h.whole.2, List.range_eq_range']
    rwa [h2] at h1
  have hb : ∀ b ∈ leafBoxes T, T.boxStart b + T.boxCount b ≤ T.userIds.length ∨ T.boxCount b = 0 := by
    intro b hb
    rcases Nat.eq_zero_or_pos (T.boxCount b) with h0 | h0
    · exact Or.inr h0
    · left
      have : T.boxStart b + T.boxCount b - 1 ∈ List.range n := by
        rw [← hpts.mem_iff, List.mem_flatMap]
        exact ⟨b, hb, by rw [List.mem_range'_1]; omega⟩
      rw [List.mem_range] at this
      omega
  have heq : (treeClusters T).flatten
      = ((leafBoxes T).flatMap fun b => List.range' (T.boxStart b) (T.boxCount b)).map fun i => T.userIds.getD i 0 := by
    rw [treeClusters, List.map_flatMap, List.flatMap_def]
    congr 1
    apply List.map_congr_left
    intro b hbm
    rcases hb b hbm with h1 | h1
    · exact slice_eq_map _ _ _ h1
    · rw [h1]; simp [slice]
  rw [heq]
  refine (hpts.map _).trans ?_
  have := map_getD_range T.userIds
  rw [hlen] at this
  rw [this]
  exact h.perm

theorem linspace_get (rnd : ℚ → ℚ) (n m i : Nat) (hi : i < m) :
    (linspace rnd n m)[i]? = some ⌊rnd (i * rnd (n / m))⌋₊ := by
  rw [linspace, List.getElem?_append_left (by simpa using hi), List.getElem?_map, List.getElem?_range hi]; rfl

theorem linspace_last (rnd : ℚ → ℚ) (n m : Nat) : (linspace rnd n m)[m]? = some n := by
  rw [linspace, List.getElem?_append_right (by simp)]; simp

theorem linspace_length (rnd : ℚ → ℚ) (n m : Nat) : (linspace rnd n m).length = m + 1 := by simp [linspace]

theorem linspace_wf (rnd : ℚ → ℚ) (u : ℚ) (hr : Rounding rnd u) (hu0 : 0 ≤ u) (n m : Nat) (hm : 0 < m)
    (hum : 3 * u * m ≤ 1) : WF ⟨List.range n, linspace rnd n m⟩ := by
  have hmq : (0 : ℚ) < m := by exact_mod_cast hm
  have hu1 : u ≤ 1 := by
    have : (1 : ℚ) ≤ m := by exact_mod_cast hm
    nlinarith
  have h0 : rnd 0 = 0 := by
    have := hr.close 0
    simp at this
    exact this
  have hup : ∀ x, 0 ≤ x → 0 ≤ rnd x ∧ rnd x ≤ (1 + u) * x := by
    intro x hx
    have := hr.close x
    rw [abs_of_nonneg hx] at this
    refine ⟨h0 ▸ hr.mono 0 x hx, ?_⟩
    linarith [(abs_le.1 this).2]
  have hq : (0 : ℚ) ≤ n / m := by positivity
  obtain ⟨hs0, hs1⟩ := hup _ hq
  have hle : ∀ i : Nat, i < m → rnd (i * rnd (n / m)) ≤ n := by
    intro i hi
    have hi0 : (0 : ℚ) ≤ i := by positivity
    have hi1 : (i : ℚ) ≤ m - 1 := by
      have : (i : ℚ) + 1 ≤ m := by exact_mod_cast hi
      linarith
    have h1 := (hup _ (mul_nonneg hi0 hs0)).2
    have h2 : (i : ℚ) * rnd (n / m) ≤ (m - 1) * ((1 + u) * (n / m)) :=
      mul_le_mul hi1 hs1 hs0 (by linarith)
    have h3 : (1 + u) * ((i : ℚ) * rnd (n / m)) ≤ (1 + u) * ((m - 1) * ((1 + u) * (n / m))) :=
      mul_le_mul_of_nonneg_left h2 (by linarith)
    have h4 : (1 + u) * (((m : ℚ) - 1) * ((1 + u) * (n / m))) = (1 + u) ^ 2 * (m - 1) * (n / m) := by ring
    have h5 : (1 + u) ^ 2 * ((m : ℚ) - 1) ≤ m := by
      have hm1 : (0 : ℚ) ≤ m - 1 := le_trans hi0 hi1
      have : (1 + u) ^ 2 ≤ 1 + 3 * u := by nlinarith
      have := mul_le_mul_of_nonneg_right this hm1
      nlinarith
    have h6 : (1 + u) ^ 2 * ((m : ℚ) - 1) * (n / m) ≤ m * (n / m) := mul_le_mul_of_nonneg_right h5 hq
    have h7 : (m : ℚ) * (n / m) = n := by field_simp
    linarith
  have hstart : ∀ i : Nat, i < m → (⟨List.range n, linspace rnd n m⟩ : IList).start i = ⌊rnd (i * rnd (n / m))⌋₊ := by
    intro i hi
    rw [IList.start]
    simp only [linspace_get rnd n m i hi, Option.getD_some]
  have hlast : (⟨List.range n, linspace rnd n m⟩ : IList).start m = n := by
    rw [IList.start]
    simp only [linspace_last, Option.getD_some]
  constructor
  · simp only [linspace_get rnd n m 0 hm]
    simp [h0]
  · intro i j hij hj
    simp only [linspace_length] at hj
    by_cases hjm : j < m
    · rw [hstart i (by omega), hstart j hjm]
      apply Nat.floor_le_floor
      apply hr.mono
      apply mul_le_mul_of_nonneg_right _ hs0
      exact_mod_cast hij
    · obtain rfl : j = m := by omega
      rw [hlast]
      by_cases him : i < j
      · rw [hstart i him]
        exact Nat.floor_le_of_le (hle i him)
      · obtain rfl : i = j := by omega
        rw [hlast]
  · rw [List.getLast?_eq_getElem?, linspace_length, Nat.add_sub_cancel, linspace_last, List.length_range]

/-- in a well-formed list without repeated indices every index is in exactly one cluster -/
theorem cluster_unique (l : IList) (h : WF l) (hnd : l.indices.Nodup) (k : Nat) (hk : k ∈ l.indices) :
    ∃! c : Nat, ∃ own, l.clusterIndices c = .ok own ∧ k ∈ own := by
  obtain ⟨cs, h1, h2, h3, -⟩ := C25_partition l h
  rw [← h3] at hk
  obtain ⟨own, ho, hko⟩ := List.mem_flatten.1 hk
  obtain ⟨c, hc⟩ := List.getElem?_of_mem ho
  refine ⟨c, ⟨own, (h2 c own hc).1, hko⟩, ?_⟩
  have key : ∀ c own, l.clusterIndices (c : Nat) = .ok own → k ∈ own →
      c + 1 < l.starts.length ∧ ∃ p, p < l.indices.length ∧ l.indices[p]? = some k ∧ l.start c ≤ p ∧ p < l.start (c + 1) := by
    intro c own hc hk
    have hb : l.inBounds (c : Int) = true := by
      by_contra hb
      simp [IList.clusterIndices, hb] at hc
    have hlt : c + 1 < l.starts.length := by simpa [inBounds_nat] using hb
    refine ⟨hlt, ?_⟩
    simp only [IList.clusterIndices, hb, if_true, Int.toNat_natCast, Except.ok.injEq] at hc
    rw [← hc] at hk
    obtain ⟨i, hi⟩ := List.getElem?_of_mem hk
    rw [slice_get?] at hi
    split_ifs at hi with hlt'
    have := h.start_le hlt
    exact ⟨l.start c + i, by omega, hi, by omega, hlt'⟩
  rintro c' ⟨own', ho', hk'⟩
  obtain ⟨hl, p, hp, e, a, b⟩ := key c own (h2 c own hc).1 hko
  obtain ⟨hl', p', hp', e', a', b'⟩ := key c' own' ho' hk'
  have hpp : p = p' := by
    rw [List.getElem?_eq_getElem hp] at e
    rw [List.getElem?_eq_getElem hp'] at e'
    exact (hnd.getElem_inj_iff).1 ((Option.some.inj e).trans (Option.some.inj e').symm)
  subst hpp
  by_contra hne
  rcases Nat.lt_or_gt_of_ne hne with h5 | h5
  · have := h.mono (c' + 1) c h5 (by omega); omega
  · have := h.mono (c + 1) c' h5 (by omega); omega

theorem div_step (n m i : Nat) (hm : 0 < m) :
    (i + 1) * n / m - i * n / m = n / m ∨ (i + 1) * n / m - i * n / m = n / m + 1 := by
  have h1 := Nat.div_add_mod (i * n) m
  have h2 := Nat.div_add_mod n m
  have h3 := Nat.div_add_mod ((i + 1) * n) m
  have l1 := Nat.mod_lt (i * n) hm
  have l2 := Nat.mod_lt n hm
  have l3 := Nat.mod_lt ((i + 1) * n) hm
  rw [Nat.succ_mul] at h3 l3 ⊢
  generalize (i * n + n) / m = q3 at *
  generalize (i * n) / m = q1 at *
  generalize n / m = q2 at *
  have hlo : q1 + q2 ≤ q3 := by
    by_contra hlt
    have : m * (q3 + 1) ≤ m * (q1 + q2) := Nat.mul_le_mul_left _ (by omega)
    rw [Nat.mul_add, Nat.mul_add, Nat.mul_one] at this
    omega
  have hhi : q3 ≤ q1 + q2 + 1 := by
    by_contra hlt
    have : m * (q1 + q2 + 2) ≤ m * q3 := Nat.mul_le_mul_left _ (by omega)
    rw [Nat.mul_add, Nat.mul_add] at this
    omega
  omega

/-! # C48 -/

/-- C48: the clusters made from a tree contain every DOF exactly once -/
theorem C48_tree (rnd : ℚ → ℚ) (ambientDim dim ndofs : Nat) (hn : 0 < ndofs) (build : Nat → TreeArrays)
    (mp : Option Nat) (root : Box) (hrep : Represents (build (mp.getD 32)) root ndofs) :
    ∃ l, partitionByNodes rnd ambientDim dim ndofs (some build) mp = .ok l ∧ WF l ∧
      l.indices.Perm (List.range ndofs) ∧
      ∀ k < ndofs, ∃! c : Nat, ∃ own, l.clusterIndices c = .ok own ∧ k ∈ own := by
  have hp := treeClusters_perm _ root ndofs hrep
  have hne : treeClusters (build (mp.getD 32)) ≠ [] := by
    intro h
    rw [h] at hp
    have := hp.length_eq
    simp at this
    omega
  have hmk : makeIndexList (.clusters (treeClusters (build (mp.getD 32)))) = .ok
      ⟨(treeClusters (build (mp.getD 32))).flatten, cumsumFrom 0 ((treeClusters (build (mp.getD 32))).map List.length)⟩ := by
    rw [makeIndexList, if_neg hne]
  refine ⟨_, ?_, wf_make _, hp, ?_⟩
  · rw [partitionByNodes]
    simp only [hmk]
    rfl
  · intro k hk
    refine cluster_unique _ (wf_make _) (hp.nodup_iff.2 List.nodup_range) k ?_
    exact hp.mem_iff.2 (List.mem_range.2 hk)

/-- C48, `tree_kind=None`: there are `max(ndofs // max_particles_in_box, 2)` clusters, which contain every DOF exactly
once (and in order), whatever monotone rounding of relative accuracy `u` the arithmetic has -/
theorem C48_ranges (rnd : ℚ → ℚ) (u : ℚ) (hr : Rounding rnd u) (hu : 0 ≤ u) (ambientDim dim ndofs : Nat)
    (mp : Option Nat) (hmp : 0 < mp.getD 32) (hdim : ambientDim = 2 ∨ dim ≠ 1)
    (hsmall : 3 * u * (max (ndofs / mp.getD 32) 2 : Nat) ≤ 1) :
    ∃ l, partitionByNodes rnd ambientDim dim ndofs none mp = .ok l ∧ WF l ∧ l.indices = List.range ndofs ∧
      l.nclusters = (max (ndofs / mp.getD 32) 2 : Nat) ∧
      ∀ k < ndofs, ∃! c : Nat, ∃ own, l.clusterIndices c = .ok own ∧ k ∈ own := by
  have hm : 0 < max (ndofs / mp.getD 32) 2 := by omega
  have hwf := linspace_wf rnd u hr hu ndofs (max (ndofs / mp.getD 32) 2) hm hsmall
  have hl : (linspace rnd ndofs (max (ndofs / mp.getD 32) 2)).getLast? = some ndofs := by
    have := hwf.last
    simpa using this
  refine ⟨⟨List.range ndofs, linspace rnd ndofs (max (ndofs / mp.getD 32) 2)⟩, ?_, hwf, rfl, ?_, ?_⟩
  · rw [partitionByNodes]
    simp only
    rw [if_neg (by omega), if_neg (by omega), if_neg (by rw [hl]; simp)]
    simp [makeIndexList, hl, liftI]
  · simp [IList.nclusters, linspace_length]
  · intro k hk
    exact cluster_unique _ hwf List.nodup_range k (List.mem_range.2 hk)

/-- C48: in exact arithmetic the clusters are balanced, their sizes differing by at most one -/
theorem C48_balanced (ambientDim dim ndofs : Nat) (mp : Option Nat) (l : IList)
    (h : partitionByNodes id ambientDim dim ndofs none mp = .ok l) (c : Nat) (sz : Nat)
    (hc : l.clusterSize c = .ok sz) :
    sz = ndofs / max (ndofs / mp.getD 32) 2 ∨ sz = ndofs / max (ndofs / mp.getD 32) 2 + 1 := by
  rw [partitionByNodes] at h
  simp only at h
  split_ifs at h with h1 h2 h3
  generalize hM : max (ndofs / mp.getD 32) 2 = m at *
  have hm : 0 < m := by omega
  have hl : (linspace id ndofs m).getLast? = some ndofs := by
    rw [List.getLast?_eq_getElem?, linspace_length, Nat.add_sub_cancel, linspace_last]
  simp only [makeIndexList, hl, List.length_range, ne_eq, not_true, if_false, liftI, Except.ok.injEq] at h
  subst h
  have hb : (⟨List.range ndofs, linspace id ndofs m⟩ : IList).inBounds (c : Int) = true := by
    by_contra hb
    simp [IList.clusterSize, hb] at hc
  have hlt : c + 1 < m + 1 := by simpa [inBounds_nat, linspace_length] using hb
  have hst : ∀ i, i ≤ m → (⟨List.range ndofs, linspace id ndofs m⟩ : IList).start i = i * ndofs / m := by
    intro i hi
    rw [IList.start]
    by_cases him : i < m
    · simp only [linspace_get id ndofs m i him, Option.getD_some, id]
      rw [← mul_div_assoc, ← Nat.cast_mul, Nat.floor_div_eq_div]
    · obtain rfl : i = m := by omega
      simp only [linspace_last, Option.getD_some]
      rw [Nat.mul_div_cancel_left _ hm]
  simp only [IList.clusterSize, hb, if_true, Int.toNat_natCast, Except.ok.injEq] at hc
  rw [hst c (by omega), hst (c + 1) (by omega)] at hc
  rw [← hc]
  exact div_step ndofs m c hm

/-- C48, the part of the rejection that holds: curves outside of the plane raise `ValueError`.  Missing: the error
message ("only curves are supported for 'tree_kind=None'") promises it for everything that is not a curve, see
`C48_curve_check_refuted` -/
theorem C48_rejects_partial (rnd : ℚ → ℚ) (ambientDim ndofs : Nat) (mp : Option Nat) (h : ambientDim ≠ 2) :
    partitionByNodes rnd ambientDim 1 ndofs none mp = .error .value := by
  rw [partitionByNodes]
  simp only
  rw [if_pos ⟨h, trivial⟩]

/-- surfaces in three dimensions are not rejected -/
theorem C48_curve_check_refuted :
    ∃ ndofs l, partitionByNodes id 3 2 ndofs none none = .ok l := by
  obtain ⟨l, h, -⟩ := C48_ranges id 0 ⟨fun _ _ h => h, by simp⟩ le_rfl 3 2 64 none (by simp) (by simp) (by simp)
  exact ⟨64, l, h⟩

/-- `max_particles_in_box` does not bound the size of a cluster for `tree_kind=None`: 95 DOFs and at most 32 particles
give a cluster of at least 47 -/
theorem C48_size_bound_refuted :
    ∃ l sz, partitionByNodes id 2 1 95 none (some 32) = .ok l ∧ l.clusterSize 0 = .ok sz ∧ 32 < sz := by
  obtain ⟨l, h, hw, -, hn, -⟩ := C48_ranges id 0 ⟨fun _ _ h => h, by simp⟩ le_rfl 2 1 95 (some 32) (by simp) (by simp) (by simp)
  have hb : l.inBounds 0 = true := by
    rw [IList.inBounds, hn]; decide
  have hs : l.clusterSize ((0 : Nat) : Int) = .ok (l.start 1 - l.start 0) := by
    simp [IList.clusterSize, hb]
  refine ⟨l, _, h, hs, ?_⟩
  rcases C48_balanced 2 1 95 (some 32) l h 0 _ hs with h | h <;> rw [h] <;> decide

/-- a concrete tree: a root with two leaves, the second listed first -/
example : Represents ⟨3, fun b => b == 0, fun b => [0, 2, 0].getD b 0, fun b => [5, 3, 2].getD b 0, [4, 0, 1, 3, 2]⟩
    (.node 0 5 [.node 0 2 [], .node 2 3 []]) 5 := by
  refine ⟨⟨rfl, rfl⟩, ?_, ?_, ?_⟩
  · simp [Box.OK, allOK, Tiles, Box.start, Box.count]
  · decide
  · decide

end Verif.Partition
