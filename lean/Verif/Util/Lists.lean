/-!
Generic list helpers used by several models: a structurally recursive stable
sort (model of Python's `sorted`) and association-list lookup (model of `dict`).
-/

namespace Verif

/-- Insert `x` in front of the first element it is `≤` to. -/
def insOrd {α : Type _} (le : α → α → Bool) (x : α) : List α → List α
  | [] => [x]
  | y :: ys => if le x y then x :: y :: ys else y :: insOrd le x ys

/-- Stable sort, models Python's `sorted`. -/
def sortBy {α : Type _} (le : α → α → Bool) : List α → List α
  | [] => []
  | x :: xs => insOrd le x (sortBy le xs)

/-- `sorted(xs, key=key)` with string keys. -/
def sortKey {α : Type _} (key : α → String) (xs : List α) : List α :=
  sortBy (fun a b => decide (key a ≤ key b)) xs

theorem insOrd_perm {α : Type _} (le : α → α → Bool) (x : α) (l : List α) :
    (insOrd le x l).Perm (x :: l) := by
  induction l with
  | nil => exact List.Perm.refl _
  | cons y ys ih =>
    unfold insOrd
    split
    · exact List.Perm.refl _
    · exact (List.Perm.cons y ih).trans (List.Perm.swap x y ys)

theorem sortBy_perm {α : Type _} (le : α → α → Bool) (l : List α) :
    (sortBy le l).Perm l := by
  induction l with
  | nil => exact List.Perm.refl _
  | cons x xs ih => exact (insOrd_perm le x _).trans (List.Perm.cons x ih)

theorem sortKey_perm {α : Type _} (key : α → String) (l : List α) :
    (sortKey key l).Perm l := sortBy_perm _ l

/-- `dict` lookup in an association list; the most recent binding is first. -/
def alookup {α β : Type _} [DecidableEq α] (k : α) : List (α × β) → Option β
  | [] => none
  | (a, b) :: l => if a = k then some b else alookup k l

theorem alookup_mem {α β : Type _} [DecidableEq α] {k : α} {b : β} :
    ∀ {l : List (α × β)}, alookup k l = some b → (k, b) ∈ l
  | (a, c) :: l, h => by
    unfold alookup at h
    split at h
    · rename_i hak; cases h; simp [hak]
    · exact List.mem_cons_of_mem _ (alookup_mem h)

theorem alookup_isSome_of_mem {α β : Type _} [DecidableEq α] {k : α} {b : β} :
    ∀ {l : List (α × β)}, (k, b) ∈ l → ∃ c, alookup k l = some c
  | (a, c) :: l, h => by
    unfold alookup
    by_cases hak : a = k
    · simp [hak]
    · rcases List.mem_cons.1 h with h | h
      · cases h; exact absurd rfl hak
      · simpa [hak] using alookup_isSome_of_mem h

/-- Remove repetitions (iteration over a Python `set`). -/
def nub {α : Type _} [DecidableEq α] : List α → List α
  | [] => []
  | e :: l => if e ∈ l then nub l else e :: nub l

theorem mem_nub {α : Type _} [DecidableEq α] {x : α} : ∀ {l : List α}, x ∈ nub l ↔ x ∈ l
  | [] => by simp [nub]
  | e :: l => by
    unfold nub
    split
    · rename_i h
      rw [mem_nub (l := l), List.mem_cons]
      constructor
      · exact Or.inr
      · rintro (h' | h')
        · rw [h']; exact h
        · exact h'
    · rw [List.mem_cons, List.mem_cons, mem_nub (l := l)]

theorem nodup_nub {α : Type _} [DecidableEq α] : ∀ (l : List α), (nub l).Nodup
  | [] => by simp [nub]
  | e :: l => by
    unfold nub
    split
    · exact nodup_nub l
    · rename_i h
      rw [List.nodup_cons]
      exact ⟨fun h' => h (mem_nub.1 h'), nodup_nub l⟩

end Verif
