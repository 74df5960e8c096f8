import Verif.Util.Stores

/-!
# Filtering scans and bucket sorts

The OpenCL scans used to compact an array: the running count of flagged entries (an inclusive sum
`item`, with `prev_item` the exclusive one) gives the place `item-1` where the index of a flagged
entry is stored; all stores happen in no particular order.
-/

namespace Verif.Util

/-- stores of a filtering scan over the entries from index `i` on, when `c` entries before were
flagged: a flagged entry has `item = c + 1 ≠ prev_item = c` and stores its index at `item - 1` -/
def scanFrom {α : Type} (flag : α → Bool) (i c : Nat) : List α → List (Nat × Nat)
  | [] => []
  | x :: xs => if flag x then (c, i) :: scanFrom flag (i + 1) (c + 1) xs
               else scanFrom flag (i + 1) c xs

/-- final value of the running count -/
def scanCount {α : Type} (flag : α → Bool) (l : List α) : Nat := l.countP flag

/-- the first `count` entries of the zero-initialised array after the stores `ws` -/
def scanOut (ws : List (Nat × Nat)) (count : Nat) : List Nat :=
  (List.range count).map fun j => (runStores ws (fun _ => some 0) j).getD 0

/-- indices of flagged entries, in order -/
def flagged {α : Type} (flag : α → Bool) (i : Nat) : List α → List Nat
  | [] => []
  | x :: xs => if flag x then i :: flagged flag (i + 1) xs else flagged flag (i + 1) xs

theorem flagged_length {α : Type} (flag : α → Bool) (i : Nat) (l : List α) :
    (flagged flag i l).length = l.countP flag := by
  induction l generalizing i with
  | nil => rfl
  | cons x xs ih =>
    rw [flagged, List.countP_cons]
    split
    · rename_i h; simp [ih]
    · rename_i h; simp [ih]

theorem mem_flagged {α : Type} (flag : α → Bool) (i : Nat) (l : List α) (k : Nat) :
    k ∈ flagged flag i l ↔ i ≤ k ∧ ∃ x, l[k - i]? = some x ∧ flag x = true := by
  induction l generalizing i with
  | nil => simp [flagged]
  | cons x xs ih =>
    have key : k ∈ flagged flag (i + 1) xs ↔ i < k ∧ ∃ y, (x :: xs)[k - i]? = some y ∧ flag y = true := by
      rw [ih]
      constructor
      · rintro ⟨h, y, h1, h2⟩
        refine ⟨h, y, ?_, h2⟩
        have : k - i = (k - (i + 1)) + 1 := by omega
        rw [this]; simpa using h1
      · rintro ⟨h, y, h1, h2⟩
        refine ⟨h, y, ?_, h2⟩
        have : k - i = (k - (i + 1)) + 1 := by omega
        rw [this] at h1; simpa using h1
    rw [flagged]
    split
    · rename_i hx
      rw [List.mem_cons, key]
      constructor
      · rintro (rfl | ⟨h, h'⟩)
        · exact ⟨Nat.le_refl _, x, by simp, hx⟩
        · exact ⟨by omega, h'⟩
      · rintro ⟨h, h'⟩
        by_cases hk : k = i
        · exact Or.inl hk
        · exact Or.inr ⟨by omega, h'⟩
    · rename_i hx
      rw [key]
      constructor
      · rintro ⟨h, h'⟩; exact ⟨by omega, h'⟩
      · rintro ⟨h, y, h1, h2⟩
        by_cases hk : k = i
        · subst hk
          simp at h1; subst h1; exact absurd h2 hx
        · exact ⟨by omega, y, h1, h2⟩

theorem flagged_sorted {α : Type} (flag : α → Bool) (i : Nat) (l : List α) :
    (flagged flag i l).Pairwise (· < ·) := by
  induction l generalizing i with
  | nil => exact List.Pairwise.nil
  | cons x xs ih =>
    rw [flagged]
    split
    · refine List.Pairwise.cons ?_ (ih _)
      intro k hk
      have := ((mem_flagged flag (i + 1) xs k).1 hk).1
      omega
    · exact ih _

theorem scanFrom_eq {α : Type} (flag : α → Bool) (i c : Nat) (l : List α) :
    scanFrom flag i c l = ((flagged flag i l).zipIdx c).map (fun p => (p.2, p.1)) := by
  induction l generalizing i c with
  | nil => rfl
  | cons x xs ih =>
    rw [scanFrom, flagged]
    split
    · simp [ih]
    · exact ih _ _

/-- the scan compacts: whatever the order of its stores, the array holds the flagged indices in
increasing order -/
theorem scan_spec {α : Type} (flag : α → Bool) (l : List α) (ws : List (Nat × Nat))
    (hws : ws.Perm (scanFrom flag 0 0 l)) :
    scanOut ws (scanCount flag l) = flagged flag 0 l := by
  have hnd : ((scanFrom flag 0 0 l).map Prod.fst).Nodup := by
    rw [scanFrom_eq, List.map_map]
    have : (Prod.fst ∘ fun p : Nat × Nat => (p.2, p.1)) = Prod.snd := rfl
    rw [this, List.zipIdx_map_snd]
    exact List.nodup_range'
  apply List.ext_getElem
  · simp [scanOut, scanCount, flagged_length]
  · intro j h1 h2
    simp only [scanOut, List.getElem_map, List.getElem_range]
    rw [runStores_perm ws _ _ hnd hws, runStores_mem _ _ j ((flagged flag 0 l)[j]) hnd]
    · rfl
    · rw [scanFrom_eq, List.mem_map]
      refine ⟨((flagged flag 0 l)[j], j), ?_, rfl⟩
      rw [List.mem_zipIdx_iff_getElem?]
      simp [List.getElem?_eq_getElem h2]

/-- values with key `k`, in input order -/
def bucket (pairs : List (Nat × Nat)) (k : Nat) : List Nat :=
  (pairs.filter fun p => p.1 = k).map Prod.snd

/-- `starts` and `lists` as a key-value sort with `nkeys` keys returns them (the order inside a bucket
is left open) -/
structure KVSorted (pairs : List (Nat × Nat)) (nkeys : Nat) (starts : List Nat) (lists : List Nat) :
    Prop where
  len : starts.length = nkeys + 1
  start : ∀ k ≤ nkeys, starts[k]? = some (pairs.countP fun p => p.1 < k)
  total : lists.length = pairs.length
  slice : ∀ k < nkeys, ∃ a b, starts[k]? = some a ∧ starts[k + 1]? = some b ∧
    ((lists.take b).drop a).Perm (bucket pairs k)

example : KVSorted [(2, 10), (0, 11), (2, 12)] 3 [0, 1, 1, 3] [11, 12, 10] where
  len := rfl
  start := by decide
  total := rfl
  slice := by
    intro k hk
    have : k = 0 ∨ k = 1 ∨ k = 2 := by omega
    rcases this with rfl | rfl | rfl
    · exact ⟨0, 1, rfl, rfl, by decide⟩
    · exact ⟨1, 1, rfl, rfl, by decide⟩
    · exact ⟨1, 3, rfl, rfl, by decide⟩

end Verif.Util
