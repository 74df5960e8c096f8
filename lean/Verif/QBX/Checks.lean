import Verif.QBX.AreaQuery
import Verif.QBX.Tree

/-!
# Refinement checks (C34)

Models the three checks of `pytential/qbx/refinement.py`: the expansion disk checker (`:158-221`,
`:368-436`), the quadrature resolution checker (`:225-281`, `:439-501`) and the element property
threshold check (`:324-346`, `:503-530`).  Each kernel instance produces a list of atomic
updates; the updates of all instances are executed in an arbitrary order.
-/

namespace Verif.Checks

open Verif.AreaQuery Verif.QTree Verif.Offsets

set_option linter.unusedSectionVars false

variable {F : Type} [Field F] [LinearOrder F] [IsStrictOrderedRing F]

/-- a tree with sources and centers: user positions of the sources followed by the centers, tree
permutation, leaf boxes, element groups of the discretization the sources are from, Euclidean
distance -/
structure Geo (F : Type) where
  dim : Nat
  ns : Nat
  nc : Nat
  pos : Nat → Nat → F
  userIds : Nat → Nat
  sortedIds : Nat → Nat
  leaves : List (Leaf F)
  leafOf : Nat → Leaf F
  groups : List Grp
  dist : (Nat → F) → (Nat → F) → F

namespace Geo

variable (G : Geo F)

/-- position loaded through `INDEX_FOR_..._PARTICLE` (`qbx/utils.py:59-61`) from `tree.sources` -/
def loaded (i : Nat) : Nat → F := G.pos (G.userIds (G.sortedIds i))

/-- leaves overlapping the `L∞` ball (`boxtree` area query) -/
def query (x : Nat → F) (r : F) : List (Leaf F) :=
  G.leaves.filter (fun b => decide (dinf G.dim x b.ctr ≤ b.hw + r))

/-- `box_to_qbx_source_lists` -/
def sourcesIn (b : Leaf F) : List Nat := b.parts.filter (fun i => decide (i < G.ns))

/-- `box_to_qbx_center_lists` -/
def centersIn (b : Leaf F) : List Nat :=
  (b.parts.filter (fun i => decide (G.ns ≤ i) && decide (i < G.ns + G.nc))).map (· - G.ns)

/-- what the tree guarantees -/
structure WF : Prop where
  inv : ∀ i < G.ns + G.nc, G.userIds (G.sortedIds i) = i
  leaf_mem : ∀ i < G.ns + G.nc, G.leafOf i ∈ G.leaves
  part_mem : ∀ i < G.ns + G.nc, i ∈ (G.leafOf i).parts
  inside : ∀ i < G.ns + G.nc, dinf G.dim (G.pos i) (G.leafOf i).ctr ≤ (G.leafOf i).hw
  dist_ge : ∀ x y, dinf G.dim x y ≤ G.dist x y
  ns_eq : G.ns = ndofs G.groups
  unit_pos : ∀ g ∈ G.groups, 0 < g.nunit

end Geo

/-- the loop over the sources (centers) of a leaf: the update of `e` is issued for the first close
one, then the loop is left (`refinement.py:192-218`, `:258-278`) -/
def leafLoop (close : Nat → Bool) (e : Nat) : List Nat → List Nat
  | [] => []
  | p :: ps => if close p then [e] else leafLoop close e ps

/-- updates issued by the kernel instance of center `c` (`refinement.py:181-219`) -/
def diskEvents (G : Geo F) (cstarts : List Nat) (rad : Nat → F) (tol : F) (c : Nat) : List Nat :=
  let x := G.loaded (G.ns + c)
  (G.query x ((1 - tol) * rad c)).flatMap (fun b =>
    leafLoop (fun s => decide (G.dist x (G.loaded s) ≤ (1 - tol) * rad c))
      ((bsearch cstarts c).getD 0) (G.sourcesIn b))

/-- updates issued by the kernel instance of source `i` (`refinement.py:246-279`) -/
def quadEvents (G : Geo F) (sstarts : List Nat) (zone : Nat → F) (i : Nat) : List Nat :=
  let e := (bsearch sstarts i).getD 0
  let x := G.loaded i
  (G.query x (zone e)).flatMap (fun b =>
    leafLoop (fun c => decide (G.dist x (G.loaded (G.ns + c)) ≤ zone e)) e (G.centersIn b))

/-- updates issued by the threshold kernel for element `e` (`refinement.py:327-334`) -/
def thresholdEvents (prop : Nat → F) (threshold : F) (e : Nat) : List Nat :=
  if threshold < prop e then [e] else []

/-- execute updates `refine_flags[e] |= 1; found |= 1` in the given order -/
def runUpdates : List Nat → (Nat → Bool) × Bool → (Nat → Bool) × Bool
  | [], st => st
  | e :: es, (flags, _) => runUpdates es (fun x => if x = e then true else flags x, true)

/-- `check_expansion_disks_undisturbed_by_sources` (`refinement.py:368-436`): flags after the check and
the returned Boolean, when the updates are executed in the order `ord` -/
def checkDisks (ord : List Nat → List Nat) (G : Geo F) (rad : Nat → F) (tol : F)
    (flags : Nat → Bool) : Except Err ((Nat → Bool) × Bool) :=
  match sourceStarts G.groups G.ns with
  | .error e => .error e
  | .ok s =>
    match centerStarts false s with
    | none => .error .assertion
    | some cs => .ok (runUpdates (ord ((List.range G.nc).flatMap (diskEvents G cs rad tol)))
        (flags, false))

/-- `check_sufficient_source_quadrature_resolution` (`refinement.py:439-501`) -/
def checkQuad (ord : List Nat → List Nat) (G : Geo F) (zone : Nat → F) (flags : Nat → Bool) :
    Except Err ((Nat → Bool) × Bool) :=
  match sourceStarts G.groups G.ns with
  | .error e => .error e
  | .ok s => .ok (runUpdates (ord ((List.range G.ns).flatMap (quadEvents G s zone))) (flags, false))

/-- `check_element_prop_threshold` (`refinement.py:503-530`) for `n` elements -/
def checkThreshold (ord : List Nat → List Nat) (prop : Nat → F) (n : Nat) (threshold : F)
    (flags : Nat → Bool) : (Nat → Bool) × Bool :=
  runUpdates (ord ((List.range n).flatMap (thresholdEvents prop threshold))) (flags, false)

/-! ## specification -/

/-- node number `n` belongs to element `e`: it is one of the nodes of an element of some group, groups
and elements being numbered consecutively -/
def NodeOf (gs : List Grp) (n e : Nat) : Prop :=
  ∃ (k : Nat) (g : Grp) (iel j : Nat), gs[k]? = some g ∧ iel < g.nel ∧ j < g.nunit ∧
    n = nodeBase gs k + iel * g.nunit + j ∧ e = elBase gs k + iel

/-- source `s` lies in the (shrunk) expansion disk of center `c` -/
def Disturbs (G : Geo F) (rad : Nat → F) (tol : F) (c s : Nat) : Prop :=
  G.dist (G.pos (G.ns + c)) (G.pos s) ≤ (1 - tol) * rad c

/-- center `c` lies in the danger zone, of radius `r`, of source `s` -/
def InZone (G : Geo F) (r : F) (s c : Nat) : Prop := G.dist (G.pos s) (G.pos (G.ns + c)) ≤ r

/-! ## proofs -/

theorem nodeOf_exists (gs : List Grp) (n : Nat) (hn : n < ndofs gs) : ∃ e, NodeOf gs n e := by
  induction gs generalizing n with
  | nil => simp [ndofs] at hn
  | cons g gs ih =>
    have hnd : ndofs (g :: gs) = g.nel * g.nunit + ndofs gs := by simp [ndofs]
    by_cases h : n < g.nel * g.nunit
    · have hu : 0 < g.nunit := by
        rcases Nat.eq_zero_or_pos g.nunit with h0 | h0
        · rw [h0] at h; simp at h
        · exact h0
      refine ⟨n / g.nunit, 0, g, n / g.nunit, n % g.nunit, rfl, ?_, Nat.mod_lt _ hu, ?_, ?_⟩
      · exact Nat.div_lt_of_lt_mul (by rwa [Nat.mul_comm])
      · simp [nodeBase, ndofs, Nat.div_add_mod']
      · simp [elBase, nelements]
    · obtain ⟨e, k, g', iel, j, h1, h2, h3, h4, h5⟩ := ih (n - g.nel * g.nunit) (by omega)
      refine ⟨g.nel + e, k + 1, g', iel, j, by simpa using h1, h2, h3, ?_, ?_⟩
      · have : nodeBase (g :: gs) (k + 1) = g.nel * g.nunit + nodeBase gs k := by
          simp [nodeBase, ndofs]
        omega
      · have : elBase (g :: gs) (k + 1) = g.nel + elBase gs k := by simp [elBase, nelements]
        omega

theorem runUpdates_spec (es : List Nat) (flags : Nat → Bool) (found : Bool) :
    (∀ e, (runUpdates es (flags, found)).1 e = true ↔ flags e = true ∨ e ∈ es) ∧
    ((runUpdates es (flags, found)).2 = true ↔ found = true ∨ ∃ e, e ∈ es) := by
  induction es generalizing flags found with
  | nil => simp [runUpdates]
  | cons a es ih =>
    obtain ⟨h1, h2⟩ := ih (fun x => if x = a then true else flags x) true
    rw [runUpdates]
    constructor
    · intro e
      rw [h1 e]
      by_cases he : e = a
      · subst he; simp
      · simp [he]
    · rw [h2]
      constructor
      · intro _; exact Or.inr ⟨a, List.mem_cons_self⟩
      · intro _; exact Or.inl rfl

theorem mem_leafLoop (close : Nat → Bool) (e x : Nat) (l : List Nat) :
    x ∈ leafLoop close e l ↔ x = e ∧ ∃ p ∈ l, close p = true := by
  induction l with
  | nil => simp [leafLoop]
  | cons p ps ih =>
    rw [leafLoop]
    split
    · rename_i h
      rw [List.mem_singleton]
      exact ⟨fun h' => ⟨h', p, List.mem_cons_self, h⟩, fun h' => h'.1⟩
    · rename_i h
      rw [ih]
      constructor
      · rintro ⟨h1, q, hq, h2⟩; exact ⟨h1, q, List.mem_cons_of_mem _ hq, h2⟩
      · rintro ⟨h1, q, hq, h2⟩
        rcases List.mem_cons.1 hq with rfl | hq
        · exact absurd h2 h
        · exact ⟨h1, q, hq, h2⟩

theorem loaded_eq (G : Geo F) (h : G.WF) (i : Nat) (hi : i < G.ns + G.nc) : G.loaded i = G.pos i := by
  rw [Geo.loaded, h.inv i hi]

theorem query_mem (G : Geo F) (h : G.WF) (x : Nat → F) (r : F) (i : Nat) (hi : i < G.ns + G.nc)
    (hd : G.dist x (G.pos i) ≤ r) : G.leafOf i ∈ G.query x r := by
  refine List.mem_filter.2 ⟨h.leaf_mem i hi, ?_⟩
  rw [decide_eq_true_eq]
  have h1 := dinf_triangle G.dim x (G.pos i) (G.leafOf i).ctr
  have h2 := h.inside i hi
  have h3 := h.dist_ge x (G.pos i)
  linarith

theorem diskEvents_spec (G : Geo F) (h : G.WF) (cs : List Nat) (rad : Nat → F) (tol : F) (c e : Nat)
    (hc : c < G.nc) : e ∈ diskEvents G cs rad tol c ↔
      e = (bsearch cs c).getD 0 ∧ ∃ s < G.ns, Disturbs G rad tol c s := by
  simp only [diskEvents, List.mem_flatMap, mem_leafLoop, decide_eq_true_eq, Disturbs]
  rw [loaded_eq G h (G.ns + c) (by omega)]
  constructor
  · rintro ⟨b, -, h1, s, hs, hd⟩
    have hlt : s < G.ns := by simpa using (List.mem_filter.1 hs).2
    rw [loaded_eq G h s (by omega)] at hd
    exact ⟨h1, s, hlt, hd⟩
  · rintro ⟨h1, s, hs, hd⟩
    refine ⟨G.leafOf s, query_mem G h _ _ s (by omega) hd, h1, s, ?_, ?_⟩
    · exact List.mem_filter.2 ⟨h.part_mem s (by omega), by simpa using hs⟩
    · rw [loaded_eq G h s (by omega)]; exact hd

theorem quadEvents_spec (G : Geo F) (h : G.WF) (ss : List Nat) (zone : Nat → F) (i e : Nat)
    (hi : i < G.ns) : e ∈ quadEvents G ss zone i ↔
      e = (bsearch ss i).getD 0 ∧ ∃ c < G.nc, InZone G (zone ((bsearch ss i).getD 0)) i c := by
  simp only [quadEvents, List.mem_flatMap, mem_leafLoop, decide_eq_true_eq, InZone]
  rw [loaded_eq G h i (by omega)]
  constructor
  · rintro ⟨b, -, h1, c, hc, hd⟩
    obtain ⟨q, hq, rfl⟩ := List.mem_map.1 hc
    have hq := (List.mem_filter.1 hq).2
    simp only [Bool.and_eq_true, decide_eq_true_eq] at hq
    rw [loaded_eq G h _ (by omega)] at hd
    exact ⟨h1, q - G.ns, by omega, hd⟩
  · rintro ⟨h1, c, hc, hd⟩
    refine ⟨G.leafOf (G.ns + c), query_mem G h _ _ _ (by omega) hd, h1, c, ?_, ?_⟩
    · refine List.mem_map.2 ⟨G.ns + c, List.mem_filter.2 ⟨h.part_mem _ (by omega), ?_⟩, by omega⟩
      simp only [Bool.and_eq_true, decide_eq_true_eq]; omega
    · rw [loaded_eq G h _ (by omega)]; exact hd

/-- C34: after the expansion disk check, an element is flagged iff it was before or it owns a center
(interior or exterior, of one of its nodes) with a source within `(1 - tol)` times its radius; the
returned Boolean tells whether such a center exists.  This holds for every tree and every order of
the kernel's updates. -/
theorem C34_disks (ord : List Nat → List Nat) (hord : ∀ l, (ord l).Perm l) (G : Geo F) (h : G.WF)
    (hnc : G.nc = 2 * G.ns) (rad : Nat → F) (tol : F) (flags : Nat → Bool) :
    ∃ flags' found, checkDisks ord G rad tol flags = .ok (flags', found) ∧
      (∀ e, flags' e = true ↔ flags e = true ∨
        ∃ n b, NodeOf G.groups n e ∧ b < 2 ∧ ∃ s < G.ns, Disturbs G rad tol (2 * n + b) s) ∧
      (found = true ↔ ∃ c < G.nc, ∃ s < G.ns, Disturbs G rad tol c s) := by
  obtain ⟨-, s, cs, h1, h2, -, h4⟩ := C35_center_lookup G.groups h.unit_pos
  rw [← h.ns_eq] at h1
  simp only [checkDisks, h1, h2]
  refine ⟨_, _, rfl, ?_, ?_⟩
  · intro e
    rw [(runUpdates_spec _ flags false).1 e]
    apply or_congr Iff.rfl
    rw [(hord _).mem_iff, List.mem_flatMap]
    constructor
    · rintro ⟨c, hc, he⟩
      have hc := List.mem_range.1 hc
      obtain ⟨he, s, hs, hd⟩ := (diskEvents_spec G h cs rad tol c e hc).1 he
      obtain ⟨e', hne⟩ := nodeOf_exists G.groups (c / 2) (by have := h.ns_eq; omega)
      have hne' := hne
      obtain ⟨k, g, iel, j, g1, g2, g3, g4, g5⟩ := hne'
      have := h4 k g g1 iel g2 j g3 (c % 2) (by omega)
      rw [← g4, show 2 * (c / 2) + c % 2 = c by omega] at this
      rw [this, Option.getD_some, ← g5] at he
      subst he
      refine ⟨c / 2, c % 2, hne, by omega, s, hs, ?_⟩
      rw [show 2 * (c / 2) + c % 2 = c by omega]; exact hd
    · rintro ⟨n, b, hne, hb, s, hs, hd⟩
      obtain ⟨k, g, iel, j, g1, g2, g3, g4, g5⟩ := hne
      have hlook := h4 k g g1 iel g2 j g3 b hb
      rw [← g4, ← g5] at hlook
      have hn : n < G.ns := by
        obtain ⟨a1, -⟩ := sizes_take_group G.groups k g g1 (iel + 1) (by omega)
        have a2 := take_sum_mono (sizes G.groups) (show elBase G.groups k + (iel + 1)
          ≤ max (elBase G.groups k + (iel + 1)) (sizes G.groups).length from le_max_left _ _)
        rw [List.take_of_length_le (l := sizes G.groups) (le_max_right _ _), sizes_sum, a1,
          Nat.add_mul] at a2
        rw [h.ns_eq]; omega
      refine ⟨2 * n + b, List.mem_range.2 (by omega), ?_⟩
      rw [diskEvents_spec G h cs rad tol _ _ (by omega), hlook]
      exact ⟨rfl, s, hs, hd⟩
  · rw [(runUpdates_spec _ flags false).2]
    constructor
    · rintro (h' | ⟨e, he⟩)
      · cases h'
      · rw [(hord _).mem_iff, List.mem_flatMap] at he
        obtain ⟨c, hc, he⟩ := he
        have hc := List.mem_range.1 hc
        exact ⟨c, hc, ((diskEvents_spec G h cs rad tol c e hc).1 he).2⟩
    · rintro ⟨c, hc, hs⟩
      right
      refine ⟨(bsearch cs c).getD 0, (hord _).mem_iff.2
        (List.mem_flatMap.2 ⟨c, List.mem_range.2 hc, ?_⟩)⟩
      exact (diskEvents_spec G h cs rad tol c _ hc).2 ⟨rfl, hs⟩

/-- C34: after the quadrature resolution check, an element is flagged iff it was before or it has a
node with some center within the element's danger zone radius. -/
theorem C34_quad (ord : List Nat → List Nat) (hord : ∀ l, (ord l).Perm l) (G : Geo F) (h : G.WF)
    (zone : Nat → F) (flags : Nat → Bool) :
    ∃ flags' found, checkQuad ord G zone flags = .ok (flags', found) ∧
      (∀ e, flags' e = true ↔ flags e = true ∨
        ∃ n, NodeOf G.groups n e ∧ ∃ c < G.nc, InZone G (zone e) n c) ∧
      (found = true ↔ ∃ e n, NodeOf G.groups n e ∧ ∃ c < G.nc, InZone G (zone e) n c) := by
  obtain ⟨s, h1, -, h4⟩ := C35_source_lookup G.groups h.unit_pos
  rw [← h.ns_eq] at h1
  have hev : ∀ e, (∃ i ∈ List.range G.ns, e ∈ quadEvents G s zone i) ↔
      ∃ n, NodeOf G.groups n e ∧ ∃ c < G.nc, InZone G (zone e) n c := by
    intro e
    constructor
    · rintro ⟨i, hi, he⟩
      have hi := List.mem_range.1 hi
      obtain ⟨he, c, hc, hd⟩ := (quadEvents_spec G h s zone i e hi).1 he
      obtain ⟨e', hne⟩ := nodeOf_exists G.groups i (by have := h.ns_eq; omega)
      have hne' := hne
      obtain ⟨k, g, iel, j, g1, g2, g3, g4, g5⟩ := hne'
      have := h4 k g g1 iel g2 j g3
      rw [← g4] at this
      rw [this, Option.getD_some, ← g5] at he hd
      subst he
      exact ⟨i, hne, c, hc, hd⟩
    · rintro ⟨n, hne, c, hc, hd⟩
      obtain ⟨k, g, iel, j, g1, g2, g3, g4, g5⟩ := hne
      have hlook := h4 k g g1 iel g2 j g3
      rw [← g4, ← g5] at hlook
      have hn : n < G.ns := by
        obtain ⟨a1, -⟩ := sizes_take_group G.groups k g g1 (iel + 1) (by omega)
        have a2 := take_sum_mono (sizes G.groups) (show elBase G.groups k + (iel + 1)
          ≤ max (elBase G.groups k + (iel + 1)) (sizes G.groups).length from le_max_left _ _)
        rw [List.take_of_length_le (l := sizes G.groups) (le_max_right _ _), sizes_sum, a1,
          Nat.add_mul] at a2
        rw [h.ns_eq]; omega
      refine ⟨n, List.mem_range.2 hn, ?_⟩
      rw [quadEvents_spec G h s zone n e hn, hlook]
      exact ⟨rfl, c, hc, hd⟩
  simp only [checkQuad, h1]
  refine ⟨_, _, rfl, ?_, ?_⟩
  · intro e
    rw [(runUpdates_spec _ flags false).1 e]
    apply or_congr Iff.rfl
    rw [(hord _).mem_iff, List.mem_flatMap, hev]
  · rw [(runUpdates_spec _ flags false).2]
    constructor
    · rintro (h' | ⟨e, he⟩)
      · cases h'
      · rw [(hord _).mem_iff, List.mem_flatMap, hev] at he
        exact ⟨e, he⟩
    · rintro ⟨e, he⟩
      exact Or.inr ⟨e, (hord _).mem_iff.2 (List.mem_flatMap.2 ((hev e).2 he))⟩

/-- C34: after the threshold check, an element is flagged iff it was before or its property exceeds
the threshold. -/
theorem C34_threshold (ord : List Nat → List Nat) (hord : ∀ l, (ord l).Perm l) (prop : Nat → F)
    (n : Nat) (threshold : F) (flags : Nat → Bool) :
    (∀ e, (checkThreshold ord prop n threshold flags).1 e = true ↔
      flags e = true ∨ e < n ∧ threshold < prop e) ∧
    ((checkThreshold ord prop n threshold flags).2 = true ↔ ∃ e < n, threshold < prop e) := by
  have hev : ∀ e, (∃ i ∈ List.range n, e ∈ thresholdEvents prop threshold i) ↔
      e < n ∧ threshold < prop e := by
    intro e
    constructor
    · rintro ⟨i, hi, he⟩
      simp only [thresholdEvents] at he
      split at he
      · rename_i ht
        rw [List.mem_singleton] at he; subst he
        exact ⟨List.mem_range.1 hi, ht⟩
      · cases he
    · rintro ⟨h1, h2⟩
      exact ⟨e, List.mem_range.2 h1, by simp [thresholdEvents, h2]⟩
  constructor
  · intro e
    rw [checkThreshold, (runUpdates_spec _ flags false).1 e]
    apply or_congr Iff.rfl
    rw [(hord _).mem_iff, List.mem_flatMap, hev]
  · rw [checkThreshold, (runUpdates_spec _ flags false).2]
    constructor
    · rintro (h' | ⟨e, he⟩)
      · cases h'
      · rw [(hord _).mem_iff, List.mem_flatMap, hev] at he
        exact ⟨e, he⟩
    · rintro ⟨e, he⟩
      exact Or.inr ⟨e, (hord _).mem_iff.2 (List.mem_flatMap.2 ((hev e).2 he))⟩

/-! ## example: two elements with one node each, the second too close to the first -/

/-- one leaf box with everything in it -/
def exBox : Leaf ℚ := ⟨pt 1 1, 10, [0, 1, 2, 3, 4, 5]⟩

/-- sources at 0 and 1, centers at distance 2 from the first and 1/10 from the second -/
def exGeo : Geo ℚ where
  dim := 2
  ns := 2
  nc := 4
  pos := fun i => [pt 0 1, pt 1 1, pt (-2) 1, pt 2 1, pt (9/10) 1, pt (11/10) 1].getD i (pt 0 0)
  userIds := fun i => i
  sortedIds := fun i => i
  leaves := [exBox]
  leafOf := fun _ => exBox
  groups := [⟨2, 1⟩]
  dist := dinf 2

theorem exGeo_wf : exGeo.WF where
  inv := fun _ _ => rfl
  leaf_mem := fun _ _ => List.mem_singleton.2 rfl
  part_mem := by decide
  inside := by
    intro i hi
    have : ∀ i < 6, dinf exGeo.dim (exGeo.pos i) (exGeo.leafOf i).ctr ≤ (exGeo.leafOf i).hw := by
      decide +kernel
    exact this i hi
  dist_ge := fun _ _ => le_refl _
  ns_eq := rfl
  unit_pos := by decide

/-- the first element is flagged (its exterior center at 2 has the source at 1 in its disk of radius
2), the second is not if its radii are small enough -/
example : (match checkDisks List.reverse exGeo (fun c => if c < 2 then 2 else 1/20) (1/40) (fun _ => false) with
    | .ok (f, b) => f 0 && !f 1 && b
    | .error _ => false) = true := by
  decide +kernel

end Verif.Checks
