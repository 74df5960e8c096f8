import Mathlib.Algebra.BigOperators.Group.List.Basic
import Mathlib.Data.List.Nodup
import Mathlib.Data.List.NodupEquivFin

/-!
# `sort_arrays_together` and operator grouping (C50)

Models `pytential/utils.py:47-57` and its use in `op_group_features` of the three kinds of sources
(`qbx/__init__.py:527-532`, `unregularized.py:139-145`, `source.py:225-237`).
Python's `sorted` is a stable sort by key; it is modelled by the library's stable merge sort.
-/

namespace Verif.SortTogether

/-- `ValueError` of `zip(..., strict=True)` on arrays of unequal length -/
inductive Err where
  | valueError
deriving DecidableEq, Repr

section

variable {α κ : Type}

/-- row `i` of a tuple of arrays -/
def row (arys : List (List α)) (i : Nat) : List α := arys.filterMap fun a => a[i]?

/-- `list(zip(*arys, strict=True))` (`utils.py:57`) -/
def zipStrict (arys : List (List α)) : Except Err (List (List α)) :=
  match arys with
  | [] => .ok []
  | a :: rest => if rest.all fun b => b.length == a.length then .ok ((List.range a.length).map (row (a :: rest)))
                 else .error .valueError

/-- `sorted(rows, key=key)`: stable (`utils.py:57`) -/
def sortRows (le : κ → κ → Bool) (key : List α → κ) (rows : List (List α)) : List (List α) :=
  rows.mergeSort fun x y => le (key x) (key y)

/-- `sort_arrays_together(*arys, key=key)` (`utils.py:47-57`) -/
def sortArraysTogether (le : κ → κ → Bool) (key : List α → κ) (arys : List (List α)) :
    Except Err (List (List α)) := do
  let rows ← zipStrict arys
  zipStrict (sortRows le key rows)

/-- `op_group_features` of a QBX source: source name followed by the sorted kernels and densities
(`qbx/__init__.py:527-532`; the other sources append the base kernel of the target kernel) -/
def opGroupFeatures (le : κ → κ → Bool) (key : List α → κ) (source : α) (kernels densities : List α)
    (extra : List α) : Except Err (List (List α)) := do
  let s ← sortArraysTogether le key [kernels, densities]
  pure ([source] :: s ++ extra.map fun e => [e])

/-! ## specification -/

/-- `out` consists of `arys`, all permuted by `π` -/
def PermutedBy (π : List Nat) (arys out : List (List α)) : Prop :=
  out.length = arys.length ∧ ∀ (j : Nat) (a b : List α), arys[j]? = some a → out[j]? = some b →
    b.length = π.length ∧ ∀ (k i : Nat), π[k]? = some i → b[k]? = a[i]?

/-- `π` lists the positions `0..n-1` in stable key order -/
def StableOrder (le : κ → κ → Bool) (key : List α → κ) (arys : List (List α)) (n : Nat) (π : List Nat) : Prop :=
  π.Perm (List.range n) ∧ π.Pairwise fun p q =>
    le (key (row arys p)) (key (row arys q)) = true ∧
      (le (key (row arys q)) (key (row arys p)) = true → p < q)

/-! ## lemmas -/

theorem row_length (arys : List (List α)) (n i : Nat) (h : ∀ a ∈ arys, a.length = n) (hi : i < n) :
    (row arys i).length = arys.length := by
  induction arys with
  | nil => rfl
  | cons a arys ih =>
    have hl := h a List.mem_cons_self
    rw [row, List.filterMap_cons, List.getElem?_eq_getElem (by omega)]
    simp only [List.length_cons]
    rw [← ih (fun b hb => h b (List.mem_cons_of_mem _ hb))]
    rfl

theorem row_get (arys : List (List α)) (n i : Nat) (h : ∀ a ∈ arys, a.length = n) (hi : i < n) (j : Nat)
    (a : List α) (ha : arys[j]? = some a) : (row arys i)[j]? = a[i]? := by
  induction arys generalizing j with
  | nil => simp at ha
  | cons b arys ih =>
    have hl := h b List.mem_cons_self
    have e : row (b :: arys) i = (b[i]'(by omega)) :: row arys i := by
      rw [row, List.filterMap_cons, List.getElem?_eq_getElem (by omega)]; rfl
    rw [e]
    cases j with
    | zero =>
      simp only [List.getElem?_cons_zero, Option.some.injEq] at ha
      subst ha
      rw [List.getElem?_cons_zero, List.getElem?_eq_getElem (by omega)]
    | succ j =>
      rw [List.getElem?_cons_succ]
      exact ih (fun b hb => h b (List.mem_cons_of_mem _ hb)) j (by simpa using ha)

theorem zipStrict_ok (arys : List (List α)) (n : Nat) (hne : arys ≠ []) (h : ∀ a ∈ arys, a.length = n) :
    zipStrict arys = .ok ((List.range n).map (row arys)) := by
  cases arys with
  | nil => exact absurd rfl hne
  | cons a rest =>
    have ha := h a List.mem_cons_self
    rw [zipStrict, if_pos, ha]
    rw [List.all_eq_true]
    intro b hb
    rw [h b (List.mem_cons_of_mem _ hb), ha]
    simp

theorem zipStrict_error (arys : List (List α)) (a b : List α) (ha : a ∈ arys) (hb : b ∈ arys)
    (hab : a.length ≠ b.length) : zipStrict arys = .error .valueError := by
  cases arys with
  | nil => cases ha
  | cons c rest =>
    rw [zipStrict, if_neg]
    intro hall
    rw [List.all_eq_true] at hall
    have hx : ∀ x ∈ c :: rest, x.length = c.length := by
      intro x hx
      rcases List.mem_cons.1 hx with rfl | hx
      · rfl
      · simpa using hall x hx
    exact hab ((hx a ha).trans (hx b hb).symm)

theorem pair_range (n a b : Nat) (hab : a < b) (hb : b < n) : [a, b].Sublist (List.range n) := by
  have e : List.range n = List.range (a + 1) ++ List.range' (a + 1) (n - (a + 1)) := by
    rw [List.range_eq_range', List.range_eq_range']
    conv_lhs => rw [show n = (a + 1) + (n - (a + 1)) by omega]
    rw [← List.range'_append_1, Nat.zero_add]
  rw [e]
  change ([a] ++ [b]).Sublist _
  refine List.Sublist.append ?_ ?_
  · rw [List.singleton_sublist]; simp
  · rw [List.singleton_sublist, List.mem_range'_1]; omega

/-- a stable sort of `f` over positions is a stable order of the positions -/
theorem mergeSort_positions {X : Type} (le : X → X → Bool) (trans : ∀ a b c, le a b → le b c → le a c)
    (total : ∀ a b, le a b || le b a) (n : Nat) (f : Nat → X) :
    ∃ π : List Nat, π.Perm (List.range n) ∧
      ((List.range n).map f).mergeSort le = π.map f ∧
      π.Pairwise fun p q => le (f p) (f q) = true ∧ (le (f q) (f p) = true → p < q) := by
  -- sort positions by (key, position)
  let le' : Nat → Nat → Bool := fun p q => le (f p) (f q)
  have htr : ∀ a b c, le' a b → le' b c → le' a c := fun a b c => trans _ _ _
  have hto : ∀ a b, le' a b || le' b a := fun a b => total _ _
  refine ⟨(List.range n).mergeSort le', List.mergeSort_perm _ _, ?_, ?_⟩
  · exact (List.map_mergeSort (f := f) (fun a _ b _ => rfl)).symm
  · have hsort := List.pairwise_mergeSort htr hto (List.range n)
    have hperm := List.mergeSort_perm (List.range n) le'
    have hnd : ((List.range n).mergeSort le').Nodup := hperm.nodup_iff.2 List.nodup_range
    -- stability: equal keys keep their order
    rw [List.pairwise_iff_getElem] at hsort ⊢
    intro i j hi hj hij
    refine ⟨hsort i j hi hj hij, ?_⟩
    intro hback
    by_contra hlt
    have hne : ((List.range n).mergeSort le')[i] ≠ ((List.range n).mergeSort le')[j] := by
      intro h
      have := (List.getElem_inj hnd).1 h
      omega
    have hlt' : ((List.range n).mergeSort le')[j] < ((List.range n).mergeSort le')[i] := by omega
    have hjm : ((List.range n).mergeSort le')[j] ∈ List.range n := hperm.mem_iff.1 (List.getElem_mem hj)
    have him : ((List.range n).mergeSort le')[i] ∈ List.range n := hperm.mem_iff.1 (List.getElem_mem hi)
    rw [List.mem_range] at hjm him
    -- `[small, big]` is a sublist of the range, hence of the sorted list
    have hsub := pair_range n _ _ hlt' him
    have hsub2 := List.pair_sublist_mergeSort htr hto hback hsub
    -- but in the sorted list they come in the other order
    rw [List.sublist_iff_exists_orderEmbedding_getElem?_eq] at hsub2
    obtain ⟨φ, hφ⟩ := hsub2
    have h0 := hφ 0
    have h1 := hφ 1
    simp only [List.getElem?_cons_zero, List.getElem?_cons_succ] at h0 h1
    have l01 : φ 0 < φ 1 := φ.lt_iff_lt.2 (by decide)
    obtain ⟨p0, q0⟩ := List.getElem?_eq_some_iff.1 h0.symm
    obtain ⟨p1, q1⟩ := List.getElem?_eq_some_iff.1 h1.symm
    have e0 := (List.getElem_inj hnd).1 q0
    have e1 := (List.getElem_inj hnd).1 q1
    omega

/-! # C50 -/

/-- C50: for at least one row, `sort_arrays_together` returns its arrays, all permuted by one
permutation: the stable one that sorts the keys -/
theorem C50_one_stable_permutation (le : κ → κ → Bool) (trans : ∀ a b c, le a b → le b c → le a c)
    (total : ∀ a b, le a b || le b a) (key : List α → κ) (arys : List (List α)) (n : Nat)
    (hn : 0 < n) (hne : arys ≠ []) (h : ∀ a ∈ arys, a.length = n) :
    ∃ out π, sortArraysTogether le key arys = .ok out ∧ StableOrder le key arys n π ∧
      PermutedBy π arys out := by
  obtain ⟨π, hp, hs, hst⟩ := mergeSort_positions (fun x y => le (key x) (key y))
    (fun a b c => trans _ _ _) (fun a b => total _ _) n (row arys)
  have hlen : π.length = n := by rw [hp.length_eq, List.length_range]
  have hlt : ∀ i ∈ π, i < n := fun i hi => by simpa using hp.mem_iff.1 hi
  have hrows : ∀ r ∈ π.map (row arys), r.length = arys.length := by
    intro r hr
    obtain ⟨i, hi, rfl⟩ := List.mem_map.1 hr
    exact row_length arys n i h (hlt i hi)
  have hne2 : π.map (row arys) ≠ [] := by
    intro h0
    have := congrArg List.length h0
    simp at this
    rw [this] at hlen
    simp at hlen
    omega
  refine ⟨(List.range arys.length).map (row (π.map (row arys))), π, ?_, ⟨hp, hst⟩, ?_⟩
  · rw [sortArraysTogether, zipStrict_ok arys n hne h]
    change zipStrict (sortRows le key _) = _
    rw [sortRows, hs, zipStrict_ok _ arys.length hne2 hrows]
  · refine ⟨by simp, ?_⟩
    intro j a b ha hb
    have hj : j < arys.length := (List.getElem?_eq_some_iff.1 ha).1
    rw [List.getElem?_map, List.getElem?_range hj] at hb
    simp only [Option.map_some, Option.some.injEq] at hb
    subst hb
    constructor
    · rw [row_length _ arys.length j hrows hj, List.length_map]
    · intro k i hki
      have hi := hlt i (List.mem_of_getElem? hki)
      rw [row_get (π.map (row arys)) arys.length j hrows hj k (row arys i) (by simp [hki])]
      exact row_get arys n i h hi j a ha

/-- C50: arrays of different lengths raise `ValueError` -/
theorem C50_strict (le : κ → κ → Bool) (key : List α → κ) (arys : List (List α)) (a b : List α)
    (ha : a ∈ arys) (hb : b ∈ arys) (hab : a.length ≠ b.length) :
    sortArraysTogether le key arys = .error .valueError := by
  rw [sortArraysTogether, zipStrict_error arys a b ha hb hab]
  rfl

/-- C50 (edge case the documentation does not mention): with empty arrays, the result is no arrays at
all instead of as many empty ones, so unpacking it fails -/
theorem C50_empty (le : κ → κ → Bool) (key : List α → κ) (arys : List (List α))
    (h : ∀ a ∈ arys, a.length = 0) : sortArraysTogether le key arys = .ok [] := by
  rw [sortArraysTogether]
  by_cases hne : arys = []
  · subst hne
    change zipStrict (sortRows le key []) = _
    rw [sortRows, List.mergeSort_nil]; rfl
  · rw [zipStrict_ok arys 0 hne h]
    change zipStrict (sortRows le key []) = _
    rw [sortRows, List.mergeSort_nil]; rfl

theorem row_pair (ks ds : List α) (n : Nat) (h1 : ks.length = n) (h2 : ds.length = n) :
    (List.range n).map (row [ks, ds]) = (ks.zip ds).map fun p => [p.1, p.2] := by
  apply List.ext_getElem
  · simp [h1, h2]
  · intro i hi1 hi2
    have hi : i < n := by simpa using hi1
    simp [row, List.getElem?_eq_getElem (show i < ks.length by omega),
      List.getElem?_eq_getElem (show i < ds.length by omega)]

/-- sorting a pair of arrays is sorting the zipped rows -/
theorem sort_pair (le : κ → κ → Bool) (key : List α → κ) (ks ds : List α) (n : Nat) (hn : 0 < n)
    (h1 : ks.length = n) (h2 : ds.length = n) :
    ∃ ps : List (α × α), ps.Perm (ks.zip ds) ∧
      (ks.zip ds).mergeSort (fun x y => le (key [x.1, x.2]) (key [y.1, y.2])) = ps ∧
      sortArraysTogether le key [ks, ds] = .ok [ps.map Prod.fst, ps.map Prod.snd] := by
  refine ⟨(ks.zip ds).mergeSort (fun x y => le (key [x.1, x.2]) (key [y.1, y.2])),
    List.mergeSort_perm _ _, rfl, ?_⟩
  set ps := (ks.zip ds).mergeSort (fun x y => le (key [x.1, x.2]) (key [y.1, y.2])) with hps
  have hall : ∀ a ∈ [ks, ds], a.length = n := by simp [h1, h2]
  have hs : sortRows le key ((ks.zip ds).map fun p => [p.1, p.2]) = ps.map fun p => [p.1, p.2] := by
    rw [sortRows, hps]
    exact (List.map_mergeSort (f := fun p : α × α => [p.1, p.2]) (fun a _ b _ => rfl)).symm
  rw [sortArraysTogether, zipStrict_ok _ n (by simp) hall, row_pair ks ds n h1 h2]
  change zipStrict (sortRows le key _) = _
  rw [hs]
  have hlen : ps.length = n := by rw [hps, List.length_mergeSort]; simp [h1, h2]
  have hne : ps.map (fun p => [p.1, p.2]) ≠ [] := by
    intro h0
    have := congrArg List.length h0
    simp at this
    rw [this] at hlen
    simp at hlen
    omega
  have h2' : ∀ r ∈ ps.map (fun p => [p.1, p.2]), r.length = 2 := by
    intro r hr
    obtain ⟨p, -, rfl⟩ := List.mem_map.1 hr
    rfl
  rw [zipStrict_ok _ 2 hne h2']
  have e0 : ∀ l : List (α × α), row (l.map fun p => [p.1, p.2]) 0 = l.map Prod.fst := by
    intro l
    rw [row, List.filterMap_map, ← List.filterMap_eq_map]
    rfl
  have e1 : ∀ l : List (α × α), row (l.map fun p => [p.1, p.2]) 1 = l.map Prod.snd := by
    intro l
    rw [row, List.filterMap_map, ← List.filterMap_eq_map]
    rfl
  change Except.ok [row _ 0, row _ 1] = _
  rw [e0, e1]

/-- C50: kernels and densities that belonged together stay together, so any sum over them is
unchanged -/
theorem C50_pairs_stay_together (le : κ → κ → Bool) (key : List α → κ) (ks ds ks' ds' : List α)
    (hn : ks ≠ []) (hl : ks.length = ds.length)
    (hr : sortArraysTogether le key [ks, ds] = .ok [ks', ds']) :
    ks'.length = ks.length ∧ ds'.length = ks.length ∧ (ks'.zip ds').Perm (ks.zip ds) ∧
    ∀ {M : Type} [AddCommMonoid M] (f : α → α → M),
      ((ks'.zip ds').map fun p => f p.1 p.2).sum = ((ks.zip ds).map fun p => f p.1 p.2).sum := by
  obtain ⟨ps, hp, -, hs⟩ := sort_pair le key ks ds ks.length (List.length_pos_iff.2 hn) rfl hl.symm
  rw [hs] at hr
  have hr' : [ps.map Prod.fst, ps.map Prod.snd] = [ks', ds'] := by injection hr
  simp only [List.cons.injEq, and_true] at hr'
  obtain ⟨rfl, rfl⟩ := hr'
  have hz : (ps.map Prod.fst).zip (ps.map Prod.snd) = ps := by
    rw [← List.unzip_fst, ← List.unzip_snd, List.zip_unzip]
  have hlen : ps.length = ks.length := by rw [hp.length_eq]; simp [hl]
  rw [hz]
  refine ⟨by simpa using hlen, by simpa using hlen, hp, ?_⟩
  intro M _ f
  exact (hp.map _).sum_eq

/-- C50: if the key tells the rows apart, the grouping features do not depend on the order in which
kernels and densities are listed -/
theorem C50_grouping_independent_of_listing (le : κ → κ → Bool)
    (trans : ∀ a b c, le a b → le b c → le a c) (total : ∀ a b, le a b || le b a)
    (key : List α → κ) (source : α) (extra : List α) (ks ds ks2 ds2 : List α)
    (hl : ks.length = ds.length) (hl2 : ks2.length = ds2.length)
    (hperm : (ks2.zip ds2).Perm (ks.zip ds))
    (hkey : ∀ x ∈ ks.zip ds, ∀ y ∈ ks.zip ds, le (key [x.1, x.2]) (key [y.1, y.2]) = true →
      le (key [y.1, y.2]) (key [x.1, x.2]) = true → x = y) :
    opGroupFeatures le key source ks2 ds2 extra = opGroupFeatures le key source ks ds extra := by
  have hlen : ks2.length = ks.length := by
    have := hperm.length_eq
    simpa [hl, hl2] using this
  suffices hss : sortArraysTogether le key [ks2, ds2] = sortArraysTogether le key [ks, ds] by
    rw [opGroupFeatures, opGroupFeatures, hss]
  by_cases hn : ks.length = 0
  · rw [C50_empty le key [ks2, ds2] (by simp [← List.length_eq_zero_iff]; omega),
      C50_empty le key [ks, ds] (by simp [← List.length_eq_zero_iff]; omega)]
  obtain ⟨ps, hp, hps, hs⟩ := sort_pair le key ks ds ks.length (by omega) rfl hl.symm
  obtain ⟨ps2, hp2, hps2, hs2⟩ := sort_pair le key ks2 ds2 ks.length (by omega) hlen (by omega)
  rw [hs, hs2]
  have htr : ∀ a b c : α × α, le (key [a.1, a.2]) (key [b.1, b.2]) → le (key [b.1, b.2]) (key [c.1, c.2]) →
      le (key [a.1, a.2]) (key [c.1, c.2]) := fun a b c => trans _ _ _
  have hto : ∀ a b : α × α, le (key [a.1, a.2]) (key [b.1, b.2]) || le (key [b.1, b.2]) (key [a.1, a.2]) :=
    fun a b => total _ _
  have s1 := List.pairwise_mergeSort (le := fun x y : α × α => le (key [x.1, x.2]) (key [y.1, y.2]))
    htr hto (ks.zip ds)
  have s2 := List.pairwise_mergeSort (le := fun x y : α × α => le (key [x.1, x.2]) (key [y.1, y.2]))
    htr hto (ks2.zip ds2)
  rw [hps] at s1
  rw [hps2] at s2
  have hpp : ps2.Perm ps := hp2.trans (hperm.trans hp.symm)
  have heq : ps2 = ps := by
    refine List.Perm.eq_of_pairwise ?_ s2 s1 hpp
    intro a b ha hb h3 h4
    exact hkey a (hp.mem_iff.1 (hpp.mem_iff.1 ha)) b (hp.mem_iff.1 hb) h3 h4
  rw [heq]

end

/-! ## instances -/

/-- three kernels with their densities, sorted by the kernel's and density's number -/
def exKey (r : List Nat) : Nat := r.foldl (fun a x => 10 * a + x) 0

example : sortArraysTogether (fun a b => decide (a ≤ b)) exKey [[3, 1, 2], [7, 8, 9]]
    = .ok [[1, 2, 3], [8, 9, 7]] := by
  simp [sortArraysTogether, zipStrict, sortRows, List.mergeSort, List.range_succ, row, exKey, List.merge, bind,
    Except.bind]

/-- both listings of the same sum give the same features -/
example : opGroupFeatures (fun a b => decide (a ≤ b)) exKey 0 [3, 1, 2] [7, 8, 9] [5]
    = opGroupFeatures (fun a b => decide (a ≤ b)) exKey 0 [1, 2, 3] [8, 9, 7] [5] := by
  apply C50_grouping_independent_of_listing
  · intro a b c; simp; omega
  · intro a b; simp; omega
  · rfl
  · rfl
  · decide
  · decide

/-- C50 without the hypothesis: rows with the same key keep their listing order, so the features differ -/
theorem C50_refuted_for_colliding_keys :
    ∃ (key : List Nat → Nat) (ks ds ks2 ds2 : List Nat), (ks2.zip ds2).Perm (ks.zip ds) ∧
      opGroupFeatures (fun a b => decide (a ≤ b)) key 0 ks2 ds2 []
        ≠ opGroupFeatures (fun a b => decide (a ≤ b)) key 0 ks ds [] :=
  ⟨fun _ => 0, [1, 2], [3, 4], [2, 1], [4, 3], by decide, by
    simp [opGroupFeatures, sortArraysTogether, zipStrict, sortRows, List.mergeSort, List.range_succ, row,
      bind, Except.bind, pure, Except.pure]⟩

end Verif.SortTogether
