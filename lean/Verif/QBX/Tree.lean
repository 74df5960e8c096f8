import Verif.QBX.Dofs
import Verif.Util.Offsets
import Mathlib.Tactic.Common
import Mathlib.Tactic.Ring
import Mathlib.Data.List.Nodup

/-!
# Particle and element numbering of QBX trees (C35)

Models `build_tree_with_qbx_metadata` (`pytential/qbx/utils.py:280-450`) apart from the tree
construction itself (`boxtree`): the particle list, the class slices, the per-box class lists and
the element start tables, together with the index macros of the kernels.
-/

namespace Verif.QTree

open Verif.Offsets Verif.Util Verif.Dofs

/-- an element group: number of elements, unit DOFs per element -/
structure Grp where
  nel : Nat
  nunit : Nat

/-- `density_discr.mesh.nelements` -/
def nelements (gs : List Grp) : Nat := (gs.map Grp.nel).sum

/-- `density_discr.ndofs` -/
def ndofs (gs : List Grp) : Nat := (gs.map (fun g => g.nel * g.nunit)).sum

/-- exceptions raised while the tree of sources, targets and centers is built -/
inductive Err
  | value
  | runtime
  | assertion
  | zeroDivision
deriving DecidableEq

/-- `np.arange(a, b, step)`; numpy raises `ZeroDivisionError` for step 0 -/
def arange (a b step : Nat) : Except Err (List Nat) :=
  if step = 0 then .error .zeroDivision
  else .ok ((List.range ((b - a + (step - 1)) / step)).map (fun i => a + i * step))

/-- `x[a:b] = v` for 1D arrays: the sizes must agree -/
def setSlice (x : List Nat) (a b : Nat) (v : List Nat) : Except Err (List Nat) :=
  if (slice x a b).length = v.length then .ok (x.take a ++ v ++ x.drop b) else .error .value

/-- loop over the groups (`utils.py:407-417`) -/
def fillStarts : Nat → Nat → List Grp → List Nat → Except Err (List Nat)
  | _, _, [], x => .ok x
  | el, base, g :: gs, x =>
    match arange base (base + g.nel * g.nunit) g.nunit with
    | .error e => .error e
    | .ok v =>
      match setSlice x el (el + g.nel) v with
      | .error e => .error e
      | .ok x' => fillStarts (el + g.nel) (base + g.nel * g.nunit) gs x'

/-- `qbx_element_to_source_starts` (`utils.py:405-418`); `nsources` is the length of the flattened
nodes -/
def sourceStarts (gs : List Grp) (nsources : Nat) : Except Err (List Nat) :=
  match fillStarts 0 0 gs (List.replicate (nelements gs + 1) 0) with
  | .error e => .error e
  | .ok x => .ok (x.take (x.length - 1) ++ [nsources])

/-- `qbx_element_to_center_starts` (`utils.py:421-424`) -/
def centerStarts (useStage2 : Bool) (s : List Nat) : Option (List Nat) :=
  if useStage2 then none else some (s.map (2 * ·))

/-- the documented result of `boxtree`'s inline `bsearch(arr, len, val)`: the largest `i` with
`arr[i] ≤ val` -/
def bsearch (arr : List Nat) (v : Nat) : Option Nat :=
  ((List.range arr.length).filter (fun i => decide (arr.getD i 0 ≤ v))).getLast?

/-- the three slices of user particle numbers (`utils.py:356-363`): start and stop -/
structure Slices where
  source : Nat × Nat
  center : Nat × Nat
  target : Nat × Nat
deriving DecidableEq

/-- `utils.py:356-363` -/
def mkSlices (nsources ncenters ntargets : Nat) : Slices :=
  ⟨(0, nsources), (nsources, nsources + ncenters),
    (nsources + ncenters, nsources + ncenters + ntargets)⟩

/-- particle list and slices (`utils.py:335-363`): positions of sources, interleaved centers, and
targets -/
def particles {P : Type} (sources centers : List P) (targets : List (List P)) (useStage2 : Bool) :
    Except Err (List P × Slices) :=
  if 2 * sources.length = centers.length ∨ useStage2 = true then
    .ok (sources ++ centers ++ targets.flatten,
      mkSlices sources.length centers.length (targets.map List.length).sum)
  else .error .assertion

/-- class lists of one box (`utils.py:381-399`): the box's particles (user numbers) flagged for
membership in the slice, renumbered from the start of the slice -/
def classList (sl : Nat × Nat) (parts : List Nat) : List Int :=
  (parts.filter (fun i => decide (sl.1 ≤ i) && decide (i < sl.2))).map (fun i : Nat => (i : Int) + -(sl.1 : Int))

/-- `SOURCE_FOR_CENTER_PARTICLE` (`utils.py:63`) -/
def sourceForCenter (c : Nat) : Nat := c / 2

/-- `SIDE_FOR_CENTER_PARTICLE` (`utils.py:64`) -/
def sideForCenter (c : Nat) : Int := 2 * ((c % 2 : Nat) : Int) - 1

/-! ## specification -/

/-- number of the first node of group `k` -/
def nodeBase (gs : List Grp) (k : Nat) : Nat := ndofs (gs.take k)

/-- number of the first element of group `k` -/
def elBase (gs : List Grp) (k : Nat) : Nat := nelements (gs.take k)

/-! ## element starts -/

/-- nodes per element -/
def sizes (gs : List Grp) : List Nat := gs.flatMap (fun g => List.replicate g.nel g.nunit)

theorem sizes_length (gs : List Grp) : (sizes gs).length = nelements gs := by
  induction gs with
  | nil => rfl
  | cons g gs ih => simp [sizes, nelements] at ih ⊢; try exact ih

theorem sizes_sum (gs : List Grp) : (sizes gs).sum = ndofs gs := by
  induction gs with
  | nil => rfl
  | cons g gs ih => simp [sizes, ndofs] at ih ⊢; try exact ih

theorem sizes_append (a b : List Grp) : sizes (a ++ b) = sizes a ++ sizes b := by
  simp [sizes]

theorem arange_group (base nel nunit : Nat) (h : 0 < nunit) :
    arange base (base + nel * nunit) nunit
      = .ok ((List.range nel).map (fun i => base + i * nunit)) := by
  rw [arange, if_neg (by omega)]
  have : (base + nel * nunit - base + (nunit - 1)) / nunit = nel := by
    rw [Nat.add_sub_cancel_left]
    apply Nat.div_eq_of_lt_le
    · omega
    · rw [Nat.succ_mul]; omega
  rw [this]

/-- element starts of the groups, starting at `base` -/
def startsOf : Nat → List Grp → List Nat
  | _, [] => []
  | base, g :: gs => (List.range g.nel).map (fun i => base + i * g.nunit)
      ++ startsOf (base + g.nel * g.nunit) gs

theorem startsOf_length (base : Nat) (gs : List Grp) : (startsOf base gs).length = nelements gs := by
  induction gs generalizing base with
  | nil => rfl
  | cons g gs ih => simp [startsOf, ih, nelements]

theorem fillStarts_ok (gs : List Grp) (hpos : ∀ g ∈ gs, 0 < g.nunit) (el base : Nat) (x : List Nat)
    (hx : el + nelements gs ≤ x.length) :
    fillStarts el base gs x
      = .ok (x.take el ++ startsOf base gs ++ x.drop (el + nelements gs)) := by
  induction gs generalizing el base x with
  | nil => simp [fillStarts, startsOf, nelements]
  | cons g gs ih =>
    have hg := hpos g List.mem_cons_self
    have hn : nelements (g :: gs) = g.nel + nelements gs := by simp [nelements]
    rw [hn] at hx
    have hsl : (slice x el (el + g.nel)).length = g.nel := by
      rw [slice_length _ _ _ (by omega)]; omega
    rw [fillStarts, arange_group _ _ _ hg]
    simp only [setSlice, hsl, List.length_map, List.length_range, if_true]
    rw [ih (fun g hg => hpos g (List.mem_cons_of_mem _ hg)) _ _ _ (by simp; omega)]
    have hlen : (x.take el ++ (List.range g.nel).map (fun i => base + i * g.nunit)).length
        = el + g.nel := by simp; omega
    congr 1
    rw [List.take_append_of_le_length (by rw [hlen]), List.take_of_length_le (by rw [hlen]),
      List.drop_append, List.drop_eq_nil_of_le (by rw [hlen]; omega), hlen, List.drop_drop, hn,
      startsOf]
    rw [show el + g.nel + (el + g.nel + nelements gs - (el + g.nel)) = el + (g.nel + nelements gs)
      by omega]
    simp

theorem cumsumFrom_replicate (base n u : Nat) (rest : List Nat) :
    cumsumFrom base (List.replicate n u ++ rest)
      = (List.range n).map (fun i => base + i * u) ++ cumsumFrom (base + n * u) rest := by
  induction n generalizing base with
  | zero => simp
  | succ n ih =>
    rw [List.replicate_succ, List.cons_append, cumsumFrom, ih, List.range_succ_eq_map, List.map_cons,
      List.map_map, List.cons_append]
    congr 1
    · omega
    · congr 1
      · apply List.map_congr_left
        intro i _
        simp only [Function.comp, Nat.succ_eq_add_one]
        ring
      · congr 1; ring

theorem startsOf_cumsum (base : Nat) (gs : List Grp) :
    startsOf base gs ++ [base + ndofs gs] = cumsumFrom base (sizes gs) := by
  induction gs generalizing base with
  | nil => simp [startsOf, sizes, cumsumFrom, ndofs]
  | cons g gs ih =>
    have : sizes (g :: gs) = List.replicate g.nel g.nunit ++ sizes gs := by simp [sizes]
    rw [this, cumsumFrom_replicate, ← ih, startsOf, List.append_assoc]
    simp [ndofs]
    omega

theorem sourceStarts_eq (gs : List Grp) (hpos : ∀ g ∈ gs, 0 < g.nunit) :
    sourceStarts gs (ndofs gs) = .ok (cumsumFrom 0 (sizes gs)) := by
  rw [sourceStarts, fillStarts_ok gs hpos 0 0 _ (by simp)]
  have hl := startsOf_length 0 gs
  have : (List.replicate (nelements gs + 1) 0).drop (0 + nelements gs) = [0] := by simp
  simp only [List.take_zero, List.nil_append, this]
  rw [← startsOf_cumsum]
  simp

/-- index of a node of the element: prefix sums of the sizes -/
theorem sizes_take_group (gs : List Grp) (k : Nat) (g : Grp) (hk : gs[k]? = some g) (i : Nat)
    (hi : i ≤ g.nel) : ((sizes gs).take (elBase gs k + i)).sum = nodeBase gs k + i * g.nunit ∧
      elBase gs k + g.nel ≤ nelements gs := by
  have hlt : k < gs.length := (List.getElem?_eq_some_iff.1 hk).1
  have hsplit : gs = gs.take k ++ g :: gs.drop (k + 1) := by
    have := List.take_append_drop k gs
    rw [List.drop_eq_getElem_cons hlt, (List.getElem?_eq_some_iff.1 hk).2] at this
    exact this.symm
  have hl : (sizes (gs.take k)).length = elBase gs k := sizes_length _
  constructor
  · have e : sizes gs = sizes (gs.take k) ++ sizes (g :: gs.drop (k + 1)) := by
      conv_lhs => rw [hsplit]
      rw [sizes_append]
    rw [e, List.take_append, List.take_of_length_le (by omega), hl,
      Nat.add_sub_cancel_left, List.sum_append, sizes_sum]
    have : sizes (g :: gs.drop (k + 1)) = List.replicate g.nel g.nunit ++ sizes (gs.drop (k + 1)) := by
      simp [sizes]
    rw [this, List.take_append_of_le_length (by simpa using hi)]
    simp [nodeBase, Nat.min_eq_left hi]
  · have h2 : nelements gs = elBase gs k + (g.nel + nelements (gs.drop (k + 1))) := by
      conv_lhs => rw [hsplit]
      simp [nelements, elBase]
    omega

theorem bsearch_eq (arr : List Nat) (v e : Nat) (he : e < arr.length) (hle : arr.getD e 0 ≤ v)
    (hgt : ∀ i, e < i → i < arr.length → v < arr.getD i 0) : bsearch arr v = some e := by
  rw [bsearch]
  have hsplit : List.range arr.length
      = List.range (e + 1) ++ List.range' (e + 1) (arr.length - (e + 1)) := by
    rw [List.range_eq_range', List.range_eq_range']
    have := List.range'_append_1 (s := 0) (m := e + 1) (n := arr.length - (e + 1))
    rw [Nat.zero_add] at this
    rw [this]; congr 1; omega
  rw [hsplit, List.filter_append]
  have h2 : (List.range' (e + 1) (arr.length - (e + 1))).filter
      (fun i => decide (arr.getD i 0 ≤ v)) = [] := by
    rw [List.filter_eq_nil_iff]
    intro i hi
    obtain ⟨h3, h4⟩ := List.mem_range'_1.1 hi
    have := hgt i (by omega) (by omega)
    rw [decide_eq_true_eq]; omega
  rw [h2, List.append_nil, List.range_succ, List.filter_append]
  simp only [List.filter_cons, List.filter_nil, decide_eq_true hle, if_true]
  rw [List.getLast?_append]; rfl

theorem starts_getD (gs : List Grp) (e : Nat) (he : e ≤ nelements gs) :
    (cumsumFrom 0 (sizes gs)).getD e 0 = ((sizes gs).take e).sum := by
  rw [List.getD_eq_getElem?_getD, cumsumFrom_get 0 _ e (by rw [sizes_length]; exact he)]
  simp

theorem take_sum_mono (l : List Nat) {i j : Nat} (h : i ≤ j) : (l.take i).sum ≤ (l.take j).sum := by
  have : l.take j = l.take i ++ (l.drop i).take (j - i) := by
    rw [← List.take_append_drop i (l.take j), List.take_take, Nat.min_eq_left h, List.drop_take]
  rw [this, List.sum_append]; omega

/-- C35: the element start table has one entry per element and a final one with the number of
sources; looking up node `j` of element `iel` of group `k` finds precisely this element. -/
theorem C35_source_lookup (gs : List Grp) (hpos : ∀ g ∈ gs, 0 < g.nunit) :
    ∃ s, sourceStarts gs (ndofs gs) = .ok s ∧ s.length = nelements gs + 1 ∧
      ∀ (k : Nat) g, gs[k]? = some g → ∀ iel < g.nel, ∀ j < g.nunit,
        bsearch s (nodeBase gs k + iel * g.nunit + j) = some (elBase gs k + iel) := by
  refine ⟨_, sourceStarts_eq gs hpos, by rw [cumsumFrom_length, sizes_length], ?_⟩
  intro k g hk iel hiel j hj
  obtain ⟨h1, h2⟩ := sizes_take_group gs k g hk iel (by omega)
  obtain ⟨h3, -⟩ := sizes_take_group gs k g hk (iel + 1) (by omega)
  have hlen : (cumsumFrom 0 (sizes gs)).length = nelements gs + 1 := by
    rw [cumsumFrom_length, sizes_length]
  apply bsearch_eq
  · rw [hlen]; omega
  · rw [starts_getD _ _ (by omega), h1]; omega
  · intro i hi hil
    rw [hlen] at hil
    rw [starts_getD _ _ (by omega)]
    have := take_sum_mono (sizes gs) (show elBase gs k + (iel + 1) ≤ i by omega)
    rw [h3, Nat.add_mul] at this
    omega

/-- C35: the center start table exists exactly for stage 1; looking up either center of a node finds
the node's element. -/
theorem C35_center_lookup (gs : List Grp) (hpos : ∀ g ∈ gs, 0 < g.nunit) :
    (∀ s, centerStarts true s = none) ∧
    ∃ s c, sourceStarts gs (ndofs gs) = .ok s ∧ centerStarts false s = some c ∧
      c.length = nelements gs + 1 ∧
      ∀ (k : Nat) g, gs[k]? = some g → ∀ iel < g.nel, ∀ j < g.nunit, ∀ b < 2,
        bsearch c (2 * (nodeBase gs k + iel * g.nunit + j) + b) = some (elBase gs k + iel) := by
  refine ⟨fun _ => rfl, _, _, sourceStarts_eq gs hpos, rfl,
    by rw [List.length_map, cumsumFrom_length, sizes_length], ?_⟩
  intro k g hk iel hiel j hj b hb
  obtain ⟨h1, h2⟩ := sizes_take_group gs k g hk iel (by omega)
  obtain ⟨h3, -⟩ := sizes_take_group gs k g hk (iel + 1) (by omega)
  have hlen : (cumsumFrom 0 (sizes gs)).length = nelements gs + 1 := by
    rw [cumsumFrom_length, sizes_length]
  have hget : ∀ e ≤ nelements gs, ((cumsumFrom 0 (sizes gs)).map (2 * ·)).getD e 0
      = 2 * ((sizes gs).take e).sum := by
    intro e he
    rw [List.getD_eq_getElem?_getD, List.getElem?_map,
      cumsumFrom_get 0 _ e (by rw [sizes_length]; exact he)]
    simp
  apply bsearch_eq
  · rw [List.length_map, hlen]; omega
  · rw [hget _ (by omega), h1]; omega
  · intro i hi hil
    rw [List.length_map, hlen] at hil
    rw [hget _ (by omega)]
    have := take_sum_mono (sizes gs) (show elBase gs k + (iel + 1) ≤ i by omega)
    rw [h3, Nat.add_mul] at this
    omega

/-- C35: sources, centers and targets occupy consecutive ranges that together are all particles, in
this order. -/
theorem C35_slices {P : Type} (sources centers : List P) (targets : List (List P)) (st2 : Bool)
    (ps : List P) (sl : Slices) (h : particles sources centers targets st2 = .ok (ps, sl)) :
    slice ps sl.source.1 sl.source.2 = sources ∧ slice ps sl.center.1 sl.center.2 = centers ∧
    slice ps sl.target.1 sl.target.2 = targets.flatten ∧
    sl.source.1 = 0 ∧ sl.center.1 = sl.source.2 ∧ sl.target.1 = sl.center.2 ∧
    sl.target.2 = ps.length := by
  simp only [particles] at h
  split at h
  · cases h
    have hf : targets.flatten.length = (targets.map List.length).sum := by
      rw [List.length_flatten]
    refine ⟨?_, ?_, ?_, rfl, rfl, rfl, ?_⟩
    · simp [slice, mkSlices]
    · simp [slice, mkSlices, List.append_assoc, List.take_append]
    · simp only [slice, mkSlices]
      rw [List.take_of_length_le (by simp [hf]; omega), List.drop_append]
      simp
    · simp only [mkSlices]
      simp [hf]
      omega
  · cases h

/-- C35: a stage-1 tree is built only if there are exactly two centers per source. -/
theorem C35_two_centers {P : Type} (sources centers : List P) (targets : List (List P)) :
    (∃ r, particles sources centers targets false = .ok r) ↔ 2 * sources.length = centers.length := by
  simp only [particles]
  constructor
  · rintro ⟨r, h⟩
    split at h
    · rename_i hc; simpa using hc
    · cases h
  · intro h
    exact ⟨_, if_pos (Or.inl h)⟩

/-- C35: with centers interleaved from the interior (`-1`) and exterior (`+1`) centers of the nodes,
center `c` of the tree is the center of source `c / 2` on side `2 (c mod 2) - 1`. -/
theorem C35_sides {P : Type} (ord : Nat → List ((Nat × Nat) × P) → List ((Nat × Nat) × P))
    (hord : ∀ n l, (ord n l).Perm l) (nel : List Nat) (ctx1 ctx2 : Option Nat)
    (cneg cpos : List (Nat × GArr P)) (r : List (GArr (Option P)))
    (h : interleave ord nel (.dof ctx1 cneg) (.dof ctx2 cpos) = .ok r) (c : Nat)
    (hc : c < 2 * (flatten (cneg.map Prod.snd)).length) :
    (sideForCenter c = -1 ∧ ∃ x, (flatten (cneg.map Prod.snd))[sourceForCenter c]? = some x ∧
      (flatten r)[c]? = some (some x)) ∨
    (sideForCenter c = 1 ∧ ∃ x, (flatten (cpos.map Prod.snd))[sourceForCenter c]? = some x ∧
      (flatten r)[c]? = some (some x)) := by
  obtain ⟨-, h1, h2, h3⟩ := C41_values ord hord nel ctx1 ctx2 cneg cpos r h
  have hlt : c / 2 < (flatten (cneg.map Prod.snd)).length := by omega
  have e1 := List.getElem?_eq_getElem hlt
  have e2 := List.getElem?_eq_getElem (l := flatten (cpos.map Prod.snd)) (i := c / 2) (by omega)
  obtain ⟨h4, h5⟩ := h3 (c / 2) _ _ e1 e2
  rcases Nat.mod_two_eq_zero_or_one c with hm | hm
  · left
    refine ⟨by simp [sideForCenter, hm], _, e1, ?_⟩
    rw [show 2 * (c / 2) = c by omega] at h4
    exact h4
  · right
    refine ⟨by simp [sideForCenter, hm], _, e2, ?_⟩
    rw [show 2 * (c / 2) + 1 = c by omega] at h5
    exact h5

/-- C35: the class list of a box holds exactly the class numbers of the particles of that class in
the box, without repetition. -/
theorem C35_box_lists (lo hi : Nat) (parts : List Nat) (hnd : parts.Nodup) :
    (classList (lo, hi) parts).Nodup ∧
    ∀ z : Int, z ∈ classList (lo, hi) parts ↔ ∃ n : Nat, z = (n : Int) ∧ lo + n < hi ∧ lo + n ∈ parts := by
  constructor
  · apply List.Nodup.map
    · intro a b h
      simpa using h
    · exact hnd.filter _
  · intro z
    simp only [classList, List.mem_map, List.mem_filter, Bool.and_eq_true, decide_eq_true_eq]
    constructor
    · rintro ⟨i, ⟨h1, h2, h3⟩, rfl⟩
      refine ⟨i - lo, by omega, by omega, ?_⟩
      rwa [show lo + (i - lo) = i by omega]
    · rintro ⟨n, rfl, h1, h2⟩
      exact ⟨lo + n, ⟨h2, by omega, h1⟩, by omega⟩

/-- two groups with 2 elements of 3 nodes and 1 element of 2 nodes, and an empty group between -/
example : sourceStarts [⟨2, 3⟩, ⟨0, 5⟩, ⟨1, 2⟩] (ndofs [⟨2, 3⟩, ⟨0, 5⟩, ⟨1, 2⟩]) = .ok [0, 3, 6, 8] :=
  rfl

example : bsearch [0, 3, 6, 8] 5 = some 1 ∧ bsearch [0, 6, 12, 16] 12 = some 2 := by decide

example : ∃ r, particles [10, 11] [20, 21, 22, 23] [[30], [], [31, 32]] false = .ok r := ⟨_, rfl⟩

end Verif.QTree
