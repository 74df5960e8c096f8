import Verif.Util.Offsets

/-!
# Cluster index lists (C25, C26)

Model of `IndexList`, `TargetAndSourceClusterList`, `make_index_list`,
`make_index_cluster_cartesian_product` and `make_flat_cluster_diag`
(`pytential/linalg/utils.py:62-362`).

Indices and starts are natural numbers (the code documents `starts` as non-decreasing
positions; negative entries are not modelled).  Cluster numbers passed by the user are
integers.
-/

namespace Verif.IndexList
open Verif.Offsets

/-- exceptions raised by `IndexList` and its users (`utils.py:64-360`) -/
inductive Err | index | value | assertion
  deriving DecidableEq, Repr

/-- `IndexList` (`utils.py:62-91`) -/
structure IList where
  indices : List Nat
  starts : List Nat
  deriving Repr

/-- `nclusters` (`utils.py:93-96`); `starts.size - 1` may be -1 -/
def IList.nclusters (l : IList) : Int := (l.starts.length : Int) - 1

/-- `nindices` (`utils.py:98-101`) -/
def IList.nindices (l : IList) : Nat := l.indices.length

/-- the bounds check shared by the three accessors (`utils.py:104-106`, `115-117`, `128-130`) -/
def IList.inBounds (l : IList) (i : Int) : Bool := decide (0 ≤ i) && decide (i < l.nclusters)

/-- `starts[i]`, used only behind the bounds check -/
def IList.start (l : IList) (i : Nat) : Nat := l.starts[i]?.getD 0

/-- `cluster_size` (`utils.py:98-104`); the difference of the two starts -/
def IList.clusterSize (l : IList) (i : Int) : Except Err Nat :=
  if l.inBounds i then .ok (l.start (i.toNat + 1) - l.start i.toNat) else .error .index

/-- `cluster_indices` (`utils.py:105-115`) -/
def IList.clusterIndices (l : IList) (i : Int) : Except Err (List Nat) :=
  if l.inBounds i then .ok (slice l.indices (l.start i.toNat) (l.start (i.toNat + 1)))
  else .error .index

/-- NumPy fancy indexing `x[idx]`: an index outside `x` raises `IndexError` -/
def takeAt {α : Type} (x : List α) : List Nat → Except Err (List α)
  | [] => .ok []
  | j :: js =>
    match x[j]?, takeAt x js with
    | some v, .ok vs => .ok (v :: vs)
    | none, _ => .error .index
    | _, .error e => .error e

/-- `cluster_take` (`utils.py:116-129`) -/
def IList.clusterTake {α : Type} (l : IList) (x : List α) (i : Int) : Except Err (List α) :=
  if l.inBounds i then
    match l.clusterIndices i with
    | .ok idx => takeAt x idx
    | .error e => .error e
  else .error .index

/-- argument of `make_index_list`: an object array of clusters, or indices with starts -/
inductive MakeArg
  | clusters (cs : List (List Nat))
  | flat (indices starts : List Nat)

/-- `make_index_list` (`utils.py:228-252`); `np.hstack` of an empty list raises
`ValueError`, `starts[-1]` of an empty array `IndexError` -/
def makeIndexList : MakeArg → Except Err IList
  | .clusters cs =>
    if cs = [] then .error .value
    else .ok ⟨cs.flatten, cumsumFrom 0 (cs.map List.length)⟩
  | .flat indices starts =>
    match starts.getLast? with
    | none => .error .index
    | some e => if e ≠ indices.length then .error .value else .ok ⟨indices, starts⟩

/-! ## pairs of index lists -/

/-- `TargetAndSourceClusterList` (`utils.py:135-165`) -/
structure TSList where
  targets : IList
  sources : IList

/-- the constructor with `__post_init__` (`utils.py:153-158`) -/
def mkTS (t s : IList) : Except Err TSList :=
  if t.nclusters ≠ s.nclusters then .error .value else .ok ⟨t, s⟩

/-- number of clusters as a natural number, for loops `range(self.nclusters)` -/
def TSList.n (m : TSList) : Nat := m.targets.nclusters.toNat

/-- size of diagonal block `c` -/
def TSList.blockSize (m : TSList) (c : Nat) : Nat :=
  (m.targets.start (c + 1) - m.targets.start c) * (m.sources.start (c + 1) - m.sources.start c)

/-- `_flat_cluster_starts` (`utils.py:173-178`) -/
def TSList.flatStarts (m : TSList) : List Nat :=
  cumsumFrom 0 ((List.range m.n).map m.blockSize)

/-- `_flat_total_size` (`utils.py:180-182`) -/
def TSList.totalSize (m : TSList) : Nat := m.flatStarts.getLast?.getD 0

/-- `cluster_shape` (`utils.py:184-191`) -/
def TSList.clusterShape (m : TSList) (i j : Int) : Except Err (Nat × Nat) :=
  match m.targets.clusterSize i, m.sources.clusterSize j with
  | .ok a, .ok b => .ok (a, b)
  | .error e, _ => .error e
  | _, .error e => .error e

/-- `cluster_indices` (`utils.py:193-199`) -/
def TSList.clusterIndices (m : TSList) (i j : Int) : Except Err (List Nat × List Nat) :=
  match m.targets.clusterIndices i, m.sources.clusterIndices j with
  | .ok a, .ok b => .ok (a, b)
  | .error e, _ => .error e
  | _, .error e => .error e

/-- `cluster_take` (`utils.py:201-213`): `x[np.ix_(itargets, isources)]` as list of rows.
The matrix is a function of row and column (its own bounds are not modelled). -/
def TSList.clusterTake {α : Type} (m : TSList) (x : Nat → Nat → α) (i j : Int) :
    Except Err (List (List α)) :=
  match m.clusterIndices i j with
  | .ok (ts, ss) => .ok (ts.map (fun a => ss.map (fun b => x a b)))
  | .error e => .error e

/-- `flat_cluster_take` (`utils.py:215-228`); unpacking a slice of length other than two
raises `ValueError`.  Only `0 ≤ i` is modelled. -/
def TSList.flatClusterTake {α : Type} (m : TSList) (x : List α) (i : Nat) : Except Err (List α) :=
  match slice m.flatStarts i (i + 2) with
  | [a, b] => .ok (slice x a b)
  | _ => .error .value

/-- one store of the kernel: position, value in `tgtproduct`, value in `srcproduct`.
A read outside an array gives `none`. -/
abbrev Write := Nat × Option Nat × Option Nat

/-- instances of the two stores for one `icluster` (`utils.py:295-311`) -/
def clusterWrites (offsets : List Nat) (m : TSList) (c : Nat) : List Write :=
  (List.range (m.targets.start (c + 1) - m.targets.start c)).flatMap (fun i =>
    (List.range (m.sources.start (c + 1) - m.sources.start c)).map (fun j =>
      (offsets[c]?.getD 0 + (m.sources.start (c + 1) - m.sources.start c) * i + j,
       m.targets.indices[m.targets.start c + i]?,
       m.sources.indices[m.sources.start c + j]?)))

/-- all instances of the two stores of `index_product_knl` (`utils.py:287-325`).  The kernel
runs over clusters in parallel and silences loopy's write-race warning. -/
def kernelWrites (m : TSList) : List Write :=
  (List.range m.n).flatMap (clusterWrites m.flatStarts m)

/-- memory after executing stores in the given order; both product arrays at once,
`none` is uninitialised -/
def runWrites : List Write → (Nat → Option (Option Nat × Option Nat)) → Nat →
    Option (Option Nat × Option Nat)
  | [], buf => buf
  | (p, v) :: ws, buf => runWrites ws (fun q => if q = p then some v else buf q)

/-- the product arrays returned (`utils.py:327-341`) when the stores are executed in the
order `ws`: `nresults` entries -/
def cartesianProduct (m : TSList) (ws : List Write) : List (Option (Option Nat × Option Nat)) :=
  (List.range m.totalSize).map (runWrites ws (fun _ => none))

/-- `reshape(r, c)` in C order, as rows -/
def reshapeRows {α : Type} : Nat → Nat → List α → List (List α)
  | 0, _, _ => []
  | r + 1, c, xs => xs.take c :: reshapeRows r c (xs.drop c)

/-- `np.reshape`: raises `ValueError` on size mismatch -/
def reshape {α : Type} (r c : Nat) (xs : List α) : Except Err (List (List α)) :=
  if xs.length = r * c then .ok (reshapeRows r c xs) else .error .value

/-- one round of `make_flat_cluster_diag` (`utils.py:339-357`) -/
def diagBlock {α : Type} (mat : List α) (m : TSList) (i : Nat) : Except Err (List (List α)) :=
  match m.clusterShape i i, m.flatClusterTake mat i with
  | .ok (r, c), .ok xs => reshape r c xs
  | .error e, _ => .error e
  | _, .error e => .error e

/-! ## specification -/

/-- what the class documents: a first start of 0, non-decreasing starts, the last of them
the number of indices (`utils.py:80-91`) -/
structure WF (l : IList) : Prop where
  first : l.starts[0]? = some 0
  mono : ∀ i j : Nat, i ≤ j → j < l.starts.length → l.start i ≤ l.start j
  last : l.starts.getLast? = some l.indices.length

theorem WF.length_pos {l : IList} (h : WF l) : 0 < l.starts.length := by
  rcases Nat.eq_zero_or_pos l.starts.length with h0 | h0
  · have := h.first
    rw [List.getElem?_eq_none (by omega)] at this
    cases this
  · exact h0

theorem WF.start_last {l : IList} (h : WF l) : l.start (l.starts.length - 1) = l.indices.length := by
  have := h.last
  rw [List.getLast?_eq_getElem?] at this
  simp [IList.start, this]

theorem WF.start_zero {l : IList} (h : WF l) : l.start 0 = 0 := by
  simp [IList.start, h.first]

theorem WF.start_le {l : IList} (h : WF l) {i : Nat} (hi : i < l.starts.length) :
    l.start i ≤ l.indices.length := by
  rw [← h.start_last]
  exact h.mono _ _ (by omega) (by have := h.length_pos; omega)

theorem inBounds_nat (l : IList) (i : Nat) : l.inBounds (i : Int) = decide (i + 1 < l.starts.length) := by
  rw [IList.inBounds, Bool.eq_iff_iff, Bool.and_eq_true, decide_eq_true_eq, decide_eq_true_eq,
    decide_eq_true_eq, IList.nclusters]
  omega

theorem concat_to (l : IList) (h : WF l) (n : Nat) (hn : n < l.starts.length) :
    ((List.range n).map (fun i => slice l.indices (l.start i) (l.start (i + 1)))).flatten
      = slice l.indices 0 (l.start n) := by
  induction n with
  | zero => simp [slice, h.start_zero]
  | succ n ih =>
    rw [List.range_succ, List.map_append, List.flatten_append, ih (by omega)]
    simp only [List.map_cons, List.map_nil, List.flatten_cons, List.flatten_nil, List.append_nil]
    exact slice_append _ _ _ _ (Nat.zero_le _) (h.mono _ _ (by omega) hn)

theorem size_sum (l : IList) (h : WF l) (n : Nat) (hn : n < l.starts.length) :
    ((List.range n).map (fun i => l.start (i + 1) - l.start i)).sum = l.start n := by
  induction n with
  | zero => simp [h.start_zero]
  | succ n ih =>
    rw [List.range_succ, List.map_append, List.sum_append, ih (by omega)]
    have := h.mono n (n + 1) (by omega) hn
    simp
    omega

/-- C25: the clusters `0 .. nclusters-1` exist, have the reported sizes, and concatenated in
order they are the whole index array; the sizes add up to the number of indices. -/
theorem C25_partition (l : IList) (h : WF l) :
    ∃ cs : List (List Nat), (cs.length : Int) = l.nclusters ∧
      (∀ (i : Nat) c, cs[i]? = some c →
        l.clusterIndices i = .ok c ∧ l.clusterSize i = .ok c.length) ∧
      cs.flatten = l.indices ∧ (cs.map List.length).sum = l.nindices := by
  have hp := h.length_pos
  refine ⟨(List.range (l.starts.length - 1)).map
    (fun i => slice l.indices (l.start i) (l.start (i + 1))), ?_, ?_, ?_, ?_⟩
  · simp [IList.nclusters]; omega
  · intro i c hc
    rw [List.getElem?_map] at hc
    by_cases hi : i < l.starts.length - 1
    · rw [List.getElem?_range hi] at hc
      simp only [Option.map_some, Option.some.injEq] at hc
      subst hc
      have hb : l.inBounds (i : Int) = true := by rw [inBounds_nat]; simp; omega
      simp only [IList.clusterIndices, IList.clusterSize, hb, if_true, Int.toNat_natCast]
      rw [slice_length _ _ _ (h.start_le (by omega))]
      simp
    · rw [List.getElem?_eq_none (by simpa using hi)] at hc
      cases hc
  · rw [concat_to l h _ (by omega), h.start_last]
    simp [slice]
  · rw [List.map_map]
    have : (List.range (l.starts.length - 1)).map
        (List.length ∘ fun i => slice l.indices (l.start i) (l.start (i + 1)))
        = (List.range (l.starts.length - 1)).map (fun i => l.start (i + 1) - l.start i) := by
      apply List.map_congr_left
      intro i hi
      have hi := List.mem_range.1 hi
      simp only [Function.comp]
      exact slice_length _ _ _ (h.start_le (by omega))
    rw [this, size_sum l h _ (by omega), h.start_last]
    rfl

/-- C25: cluster numbers outside `0 .. nclusters-1` raise `IndexError` in all accessors,
whatever the list. -/
theorem C25_bounds {α : Type} (l : IList) (x : List α) (i : Int) (h : i < 0 ∨ l.nclusters ≤ i) :
    l.clusterIndices i = .error .index ∧ l.clusterSize i = .error .index ∧
    l.clusterTake x i = .error .index := by
  have hb : l.inBounds i = false := by
    simp only [IList.inBounds]
    rcases h with h | h
    · simp; omega
    · simp; omega
  simp [IList.clusterIndices, IList.clusterSize, IList.clusterTake, hb]

theorem takeAt_ok {α : Type} (x : List α) (idx : List Nat) (h : ∀ j ∈ idx, j < x.length) :
    ∃ vs, takeAt x idx = .ok vs ∧ vs.map some = idx.map (fun j => x[j]?) := by
  induction idx with
  | nil => exact ⟨[], rfl, rfl⟩
  | cons j js ih =>
    obtain ⟨vs, h1, h2⟩ := ih (fun k hk => h k (List.mem_cons_of_mem _ hk))
    have hj : j < x.length := h j List.mem_cons_self
    refine ⟨x[j] :: vs, ?_, ?_⟩
    · simp [takeAt, List.getElem?_eq_getElem hj, h1]
    · simp [h2, List.getElem?_eq_getElem hj]

/-- C25: `cluster_take(x, i)` is the list of the entries of `x` at the indices of cluster
`i`, in that order, when these lie in `x`. -/
theorem C25_take {α : Type} (l : IList) (x : List α) (i : Int) (c : List Nat)
    (hc : l.clusterIndices i = .ok c) (hx : ∀ j ∈ c, j < x.length) :
    ∃ vs, l.clusterTake x i = .ok vs ∧ vs.length = c.length ∧
      ∀ k : Nat, k < c.length → vs[k]? = x[c[k]?.getD 0]? := by
  obtain ⟨vs, h1, h2⟩ := takeAt_ok x c hx
  have hb : l.inBounds i = true := by
    by_contra hb
    simp [IList.clusterIndices, hb] at hc
  refine ⟨vs, by simp [IList.clusterTake, hb, hc, h1], by simpa using congrArg List.length h2, ?_⟩
  intro k hk
  have := congrArg (fun l => l[k]?) h2
  simp only [List.getElem?_map, List.getElem?_eq_getElem hk, Option.map_some] at this
  rw [List.getElem?_eq_getElem hk]
  simp only [Option.getD_some]
  cases hv : vs[k]? with
  | none => rw [hv] at this; cases this
  | some v => rw [hv] at this; simpa using this

theorem flatten_slice (cs : List (List Nat)) (i : Nat) (c : List Nat) (h : cs[i]? = some c) :
    slice cs.flatten ((cs.map List.length).take i).sum ((cs.map List.length).take (i + 1)).sum = c := by
  induction cs generalizing i with
  | nil => simp at h
  | cons d ds ih =>
    cases i with
    | zero =>
      simp only [List.getElem?_cons_zero, Option.some.injEq] at h
      subst h
      simp [slice]
    | succ i =>
      rw [List.getElem?_cons_succ] at h
      have := ih i h
      simp only [slice, List.flatten_cons, List.map_cons, List.take_succ_cons, List.sum_cons] at this ⊢
      rw [List.take_append, List.take_of_length_le (Nat.le_add_right _ _), Nat.add_sub_cancel_left,
        List.drop_append, List.drop_of_length_le (Nat.le_add_right _ _), Nat.add_sub_cancel_left]
      simpa using this

theorem wf_make (cs : List (List Nat)) :
    WF ⟨cs.flatten, cumsumFrom 0 (cs.map List.length)⟩ := by
  constructor
  · simp [cumsumFrom_get]
  · intro i j hij hj
    simp only [cumsumFrom_length] at hj
    simp only [IList.start]
    rw [cumsumFrom_get _ _ _ (by omega), cumsumFrom_get _ _ _ (by omega)]
    simp only [Option.getD_some, Nat.zero_add]
    have : (cs.map List.length).take i = ((cs.map List.length).take j).take i := by
      rw [List.take_take, Nat.min_eq_left hij]
    rw [this]
    generalize (cs.map List.length).take j = m
    conv => rhs; rw [← List.take_append_drop i m, List.sum_append]
    omega
  · rw [List.getLast?_eq_getElem?, cumsumFrom_length, cumsumFrom_get _ _ _ (by simp)]
    rw [List.take_of_length_le (by simp)]
    simp [List.length_flatten]

/-- C25: `make_index_list` of a non-empty list of clusters gives a well-formed list with
exactly these clusters; an empty list raises `ValueError`. -/
theorem C25_roundtrip (cs : List (List Nat)) :
    (cs = [] → makeIndexList (.clusters cs) = .error .value) ∧
    (cs ≠ [] → ∃ l, makeIndexList (.clusters cs) = .ok l ∧ WF l ∧
      l.nclusters = cs.length ∧
      ∀ (i : Nat) c, cs[i]? = some c → l.clusterIndices i = .ok c) := by
  constructor
  · rintro rfl; rfl
  · intro hne
    refine ⟨⟨cs.flatten, cumsumFrom 0 (cs.map List.length)⟩, by simp [makeIndexList, hne],
      wf_make cs, by simp [IList.nclusters, cumsumFrom_length], ?_⟩
    intro i c hc
    have hi : i < cs.length := by
      by_contra hi
      rw [List.getElem?_eq_none (by omega)] at hc
      cases hc
    have hb : (⟨cs.flatten, cumsumFrom 0 (cs.map List.length)⟩ : IList).inBounds (i : Int) = true := by
      rw [inBounds_nat]; simp [cumsumFrom_length]; omega
    simp only [IList.clusterIndices, hb, if_true, Int.toNat_natCast, IList.start]
    rw [cumsumFrom_get _ _ _ (by simp; omega), cumsumFrom_get _ _ _ (by simp; omega)]
    simp only [Option.getD_some, Nat.zero_add]
    rw [flatten_slice cs i c hc]

/-- C25: with explicit starts, a list is made exactly when the last start is the number of
indices; otherwise `ValueError` (or `IndexError` without any start). -/
theorem C25_explicit (indices starts : List Nat) :
    (starts.getLast? = some indices.length →
      makeIndexList (.flat indices starts) = .ok ⟨indices, starts⟩) ∧
    (∀ e, starts.getLast? = some e → e ≠ indices.length →
      makeIndexList (.flat indices starts) = .error .value) ∧
    (starts = [] → makeIndexList (.flat indices starts) = .error .index) := by
  refine ⟨?_, ?_, ?_⟩
  · intro h; simp [makeIndexList, h]
  · intro e h he; simp [makeIndexList, h, he]
  · rintro rfl; rfl

example : makeIndexList (.clusters [[4, 1], [], [7, 7, 0]]) = .ok ⟨[4, 1, 7, 7, 0], [0, 2, 2, 5]⟩ :=
  rfl

/-! ## C26 -/

theorem flatStarts_get (m : TSList) (c : Nat) (hc : c ≤ m.n) :
    m.flatStarts[c]? = some (off m.blockSize c) := by
  simp only [TSList.flatStarts]
  rw [cumsumFrom_get _ _ _ (by simpa using hc), Nat.zero_add]
  congr 1
  rw [← List.map_take, List.take_range, Nat.min_eq_left hc]
  clear hc
  induction c with
  | zero => rfl
  | succ c ih => rw [List.range_succ, List.map_append, List.sum_append, ih]; simp [off]

theorem totalSize_eq (m : TSList) : m.totalSize = off m.blockSize m.n := by
  simp only [TSList.totalSize, List.getLast?_eq_getElem?]
  rw [show m.flatStarts.length - 1 = m.n by simp [TSList.flatStarts, cumsumFrom_length],
    flatStarts_get m _ (Nat.le_refl _)]
  rfl

theorem map_flatMap' {α β γ : Type} (f : β → γ) (g : α → List β) (l : List α) :
    (l.flatMap g).map f = l.flatMap (fun a => (g a).map f) := by
  induction l with
  | nil => rfl
  | cons a l ih => simp [List.flatMap_cons, ih]

theorem flatMap_congr' {α β : Type} {f g : α → List β} {l : List α} (h : ∀ a ∈ l, f a = g a) :
    l.flatMap f = l.flatMap g := by
  induction l with
  | nil => rfl
  | cons a l ih =>
    rw [List.flatMap_cons, List.flatMap_cons, h a List.mem_cons_self,
      ih (fun b hb => h b (List.mem_cons_of_mem _ hb))]

theorem clusterWrites_pos (m : TSList) (c : Nat) (hc : c ≤ m.n) :
    (clusterWrites m.flatStarts m c).map Prod.fst
      = List.range' (off m.blockSize c) (m.blockSize c) := by
  simp only [clusterWrites, map_flatMap', List.map_map, flatStarts_get m c hc, Option.getD_some]
  exact flatMap_rows _ _ _

theorem kernelWrites_pos (m : TSList) :
    (kernelWrites m).map Prod.fst = List.range m.totalSize := by
  rw [totalSize_eq, ← flatMap_blocks, kernelWrites, map_flatMap']
  apply flatMap_congr'
  intro c hc
  exact clusterWrites_pos m c (Nat.le_of_lt (List.mem_range.1 hc))

theorem clusterWrites_val (m : TSList) (c : Nat) (t s : List Nat)
    (ht : t = slice m.targets.indices (m.targets.start c) (m.targets.start (c + 1)))
    (hs : s = slice m.sources.indices (m.sources.start c) (m.sources.start (c + 1)))
    (ht' : m.targets.start (c + 1) ≤ m.targets.indices.length)
    (hs' : m.sources.start (c + 1) ≤ m.sources.indices.length) :
    (clusterWrites m.flatStarts m c).map Prod.snd
      = t.flatMap (fun a => s.map (fun b => (some a, some b))) := by
  simp only [clusterWrites, map_flatMap', List.map_map]
  have h1 := slice_map_some m.targets.indices (m.targets.start c) _ ht'
  have h2 := slice_map_some m.sources.indices (m.sources.start c) _ hs'
  rw [← ht] at h1
  rw [← hs] at h2
  have e1 : t.flatMap (fun a => s.map (fun b => (some a, some b)))
      = (t.map some).flatMap (fun a => (s.map some).map (fun b => (a, b))) := by
    rw [List.flatMap_map]
    simp [List.map_map, Function.comp_def]
  rw [e1, ← h1, ← h2, List.flatMap_map]
  simp [List.map_map, Function.comp_def]

theorem runWrites_skip (ws : List Write) (buf : Nat → Option (Option Nat × Option Nat)) (p : Nat)
    (h : p ∉ ws.map Prod.fst) : runWrites ws buf p = buf p := by
  induction ws generalizing buf with
  | nil => rfl
  | cons w ws ih =>
    obtain ⟨q, v⟩ := w
    simp only [List.map_cons, List.mem_cons, not_or] at h
    rw [runWrites, ih _ h.2, if_neg h.1]

theorem runWrites_mem (ws : List Write) (buf : Nat → Option (Option Nat × Option Nat)) (p : Nat)
    (v : Option Nat × Option Nat) (hnd : (ws.map Prod.fst).Nodup) (h : (p, v) ∈ ws) :
    runWrites ws buf p = some v := by
  induction ws generalizing buf with
  | nil => cases h
  | cons w ws ih =>
    obtain ⟨q, u⟩ := w
    simp only [List.map_cons, List.nodup_cons] at hnd
    rw [runWrites]
    rcases List.mem_cons.1 h with h | h
    · cases h
      rw [runWrites_skip _ _ _ hnd.1, if_pos rfl]
    · exact ih _ hnd.2 h

theorem product_eq (m : TSList) (ws : List Write) (hp : ws.Perm (kernelWrites m)) :
    cartesianProduct m ws = (kernelWrites m).map (fun w => some w.2) := by
  have hk := kernelWrites_pos m
  have hnd : (ws.map Prod.fst).Nodup := by
    rw [(hp.map Prod.fst).nodup_iff, hk]; exact List.nodup_range
  rw [cartesianProduct, ← hk, List.map_map]
  apply List.map_congr_left
  intro w hw
  exact runWrites_mem ws _ w.1 w.2 hnd (hp.mem_iff.2 hw)

theorem slice_flatMap {β : Type} (F : Nat → List β) (h : Nat → Nat) (n : Nat)
    (hF : ∀ c < n, (F c).length = h c) (c : Nat) (hc : c < n) :
    slice ((List.range n).flatMap F) (off h c) (off h (c + 1)) = F c := by
  have hlen : ∀ k ≤ n, ((List.range k).flatMap F).length = off h k := by
    intro k hk
    induction k with
    | zero => rfl
    | succ k ih =>
      rw [List.range_succ, List.flatMap_append, List.length_append, ih (by omega)]
      simp [off, hF k (by omega)]
  have hsplit : ∃ rest, (List.range n).flatMap F = (List.range c).flatMap F ++ F c ++ rest := by
    refine ⟨(List.range' (c + 1) (n - (c + 1))).flatMap F, ?_⟩
    have : List.range n = List.range c ++ [c] ++ List.range' (c + 1) (n - (c + 1)) := by
      rw [← List.range_succ, List.range_eq_range', List.range_eq_range']
      have := List.range'_append_1 (s := 0) (m := c + 1) (n := n - (c + 1))
      rw [Nat.zero_add] at this
      rw [this]; congr 1; omega
    rw [this, List.flatMap_append, List.flatMap_append]
    simp
  obtain ⟨rest, hr⟩ := hsplit
  rw [hr, slice]
  have h1 := hlen c (by omega)
  have h2 : ((List.range c).flatMap F ++ F c).length = off h (c + 1) := by
    rw [List.length_append, h1, hF c hc]; rfl
  rw [← h2, List.take_left, ← h1, List.drop_left]

/-- every cluster number below `n` has its target and source indices -/
theorem clusters_of (m : TSList) (hm : m.targets.nclusters = m.sources.nclusters)
    (_ : WF m.targets) (_ : WF m.sources) (c : Nat) (hc : c < m.n) :
    c + 1 < m.targets.starts.length ∧ c + 1 < m.sources.starts.length := by
  simp only [TSList.n, IList.nclusters] at hc hm
  omega

/-- C26: whatever order the stores of the kernel are executed in, no two of them hit the
same position, every position of the result is written, and nothing is written beyond it. -/
theorem C26_disjoint (m : TSList) (ws : List Write) (hp : ws.Perm (kernelWrites m)) :
    (ws.map Prod.fst).Nodup ∧ ∀ p, p ∈ ws.map Prod.fst ↔ p < m.totalSize := by
  have hk := kernelWrites_pos m
  constructor
  · rw [(hp.map Prod.fst).nodup_iff, hk]; exact List.nodup_range
  · intro p
    rw [(hp.map Prod.fst).mem_iff, hk, List.mem_range]

/-- C26: whatever order the stores are executed in, the slice of the product arrays that
belongs to cluster `c` holds the pairs (row index, column index) of diagonal block `c` in
row-major order. -/
theorem C26_rowmajor (m : TSList) (hm : m.targets.nclusters = m.sources.nclusters)
    (ht : WF m.targets) (hs : WF m.sources) (ws : List Write) (hp : ws.Perm (kernelWrites m))
    (c : Nat) (t s : List Nat)
    (htc : m.targets.clusterIndices c = .ok t) (hsc : m.sources.clusterIndices c = .ok s) :
    m.flatClusterTake (cartesianProduct m ws) c
      = .ok (t.flatMap (fun a => s.map (fun b => some (some a, some b)))) := by
  have hb : m.targets.inBounds (c : Int) = true := by
    by_contra hb; simp [IList.clusterIndices, hb] at htc
  have hb' : m.sources.inBounds (c : Int) = true := by
    by_contra hb; simp [IList.clusterIndices, hb] at hsc
  simp only [IList.clusterIndices, hb, hb', if_true, Int.toNat_natCast, Except.ok.injEq] at htc hsc
  have hcn : c < m.n := by
    rw [inBounds_nat] at hb
    simp only [decide_eq_true_eq] at hb
    simp only [TSList.n, IList.nclusters]; omega
  have hlt := clusters_of m hm ht hs
  have hst : slice m.flatStarts c (c + 2) = [off m.blockSize c, off m.blockSize (c + 1)] := by
    apply List.ext_getElem?
    intro i
    rw [slice_get?]
    match i with
    | 0 => rw [if_pos (by omega), Nat.add_zero, flatStarts_get m c (by omega)]; rfl
    | 1 => rw [if_pos (by omega), flatStarts_get m (c + 1) (by omega)]; rfl
    | i + 2 => rw [if_neg (by omega)]; rfl
  rw [TSList.flatClusterTake, hst]
  simp only
  rw [product_eq m ws hp, kernelWrites, map_flatMap']
  have hsz : ∀ d < m.n, ((clusterWrites m.flatStarts m d).map (fun w => some w.2)).length
      = m.blockSize d := by
    intro d hd
    have := congrArg List.length (clusterWrites_pos m d (Nat.le_of_lt hd))
    simpa using this
  rw [slice_flatMap (fun d => (clusterWrites m.flatStarts m d).map (fun w => some w.2))
    m.blockSize m.n hsz c hcn]
  have hv := clusterWrites_val m c t s htc.symm hsc.symm (ht.start_le (hlt c hcn).1)
    (hs.start_le (hlt c hcn).2)
  have : (clusterWrites m.flatStarts m c).map (fun w => some w.2)
      = ((clusterWrites m.flatStarts m c).map Prod.snd).map some := by
    rw [List.map_map]; rfl
  rw [this, hv, map_flatMap']
  simp [List.map_map, Function.comp_def]

theorem reshapeRows_flatMap {α β : Type} (t : List β) (c : Nat) (f : β → List α)
    (hf : ∀ a ∈ t, (f a).length = c) : reshapeRows t.length c (t.flatMap f) = t.map f := by
  induction t with
  | nil => rfl
  | cons a t ih =>
    have ha := hf a List.mem_cons_self
    simp only [List.length_cons, reshapeRows, List.flatMap_cons, List.map_cons]
    rw [← ha, List.take_left, List.drop_left, ha, ih (fun b hb => hf b (List.mem_cons_of_mem _ hb))]

/-- C26: gathering a matrix at the product arrays and cutting it into diagonal blocks gives
the same blocks as taking them from the matrix directly, for every cluster. -/
theorem C26_blocks {α : Type} (m : TSList) (hm : m.targets.nclusters = m.sources.nclusters)
    (ht : WF m.targets) (hs : WF m.sources) (ws : List Write) (hp : ws.Perm (kernelWrites m))
    (x : Nat → Nat → α) (mat : List α)
    (hmat : mat.map some = (cartesianProduct m ws).map (fun e =>
      match e with | some (some a, some b) => some (x a b) | _ => none))
    (c : Nat) (hc : c < m.n) :
    ∃ rows, m.clusterTake x c c = .ok rows ∧ diagBlock mat m c = .ok rows := by
  have hlt := clusters_of m hm ht hs c hc
  have hb : m.targets.inBounds (c : Int) = true := by rw [inBounds_nat]; simp [hlt.1]
  have hb' : m.sources.inBounds (c : Int) = true := by rw [inBounds_nat]; simp [hlt.2]
  obtain ⟨t, hte⟩ : ∃ t, m.targets.clusterIndices (c : Int) = .ok t := by
    simp [IList.clusterIndices, hb]
  obtain ⟨s, hse⟩ : ∃ s, m.sources.clusterIndices (c : Int) = .ok s := by
    simp [IList.clusterIndices, hb']
  have hr := C26_rowmajor m hm ht hs ws hp c t s hte hse
  have hsizes : m.clusterShape c c = .ok (t.length, s.length) := by
    simp only [IList.clusterIndices, hb, hb', if_true, Int.toNat_natCast, Except.ok.injEq] at hte hse
    subst hte; subst hse
    simp only [TSList.clusterShape, IList.clusterSize, hb, hb', if_true, Int.toNat_natCast]
    rw [slice_length _ _ _ (ht.start_le hlt.1), slice_length _ _ _ (hs.start_le hlt.2)]
  refine ⟨t.map (fun a => s.map (fun b => x a b)), ?_, ?_⟩
  · simp [TSList.clusterTake, TSList.clusterIndices, hte, hse]
  · rw [diagBlock, hsizes]
    have hflat : m.flatClusterTake mat c = .ok (t.flatMap (fun a => s.map (fun b => x a b))) := by
      simp only [TSList.flatClusterTake] at hr ⊢
      split at hr
      · rename_i a b hab
        simp only [Except.ok.injEq] at hr
        simp only [Except.ok.injEq]
        have h1 : (slice mat a b).map some
            = (slice (cartesianProduct m ws) a b).map (fun e =>
              match e with | some (some a, some b) => some (x a b) | _ => none) := by
          simp only [slice, List.map_drop, List.map_take, hmat]
        rw [hr, map_flatMap'] at h1
        have h2 : (t.flatMap (fun a => s.map (fun b => x a b))).map some
            = t.flatMap (fun a => (s.map (fun b => some (some a, some b))).map (fun e =>
              match e with | some (some a, some b) => some (x a b) | _ => none)) := by
          rw [map_flatMap']
          simp [List.map_map, Function.comp_def]
        rw [← h2] at h1
        exact List.map_inj_right (fun _ _ h => Option.some.inj h) |>.1 h1
      · cases hr
    rw [hflat]
    simp only
    have hlen : (t.flatMap (fun a => s.map (fun b => x a b))).length = t.length * s.length := by
      clear hflat hsizes hr hte
      induction t with
      | nil => simp
      | cons a t ih => simp [List.flatMap_cons, ih, Nat.succ_mul, Nat.add_comm]
    rw [reshape, if_pos hlen, reshapeRows_flatMap _ _ _ (by simp)]

/-- C26: target and source lists with different cluster counts are refused with
`ValueError`, all others accepted. -/
theorem C26_mismatch (t s : IList) :
    (t.nclusters ≠ s.nclusters → ∃ e, mkTS t s = .error e ∧ e = .value) ∧
    (t.nclusters = s.nclusters → mkTS t s = .ok ⟨t, s⟩) := by
  constructor
  · intro h; exact ⟨.value, by simp [mkTS, h], rfl⟩
  · intro h; simp [mkTS, h]

/-- a concrete pair of lists meeting the hypotheses, with an empty cluster -/
example : ∃ m : TSList, m.targets.nclusters = m.sources.nclusters ∧ WF m.targets ∧ WF m.sources ∧
    m.n = 3 ∧ m.totalSize = 8 :=
  ⟨⟨⟨[4, 1, 9, 3], _⟩, ⟨[0, 1, 2, 5, 6], _⟩⟩, by decide, wf_make [[4, 1], [9], [3]],
    wf_make [[0, 1, 2], [], [5, 6]], by decide, by decide⟩

end Verif.IndexList
