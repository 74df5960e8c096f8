import Mathlib.Tactic.Common

/-!
# Prefix sums and slices

Shared helpers: the offset table of a sequence of block sizes (`np.cumsum([0] + sizes)`),
slices of lists, and the enumeration of consecutive blocks.
-/

namespace Verif.Offsets

/-- `h 0 + ... + h (i-1)` -/
def off (h : Nat → Nat) : Nat → Nat
  | 0 => 0
  | n + 1 => off h n + h n

/-- `np.cumsum([acc] + sizes)` -/
def cumsumFrom : Nat → List Nat → List Nat
  | acc, [] => [acc]
  | acc, s :: ss => acc :: cumsumFrom (acc + s) ss

/-- `x[a:b]` for `0 ≤ a`, `0 ≤ b` -/
def slice {α : Type _} (x : List α) (a b : Nat) : List α := (x.take b).drop a

theorem off_mono (h : Nat → Nat) {i j : Nat} (hij : i ≤ j) : off h i ≤ off h j := by
  induction hij with
  | refl => exact Nat.le_refl _
  | step _ ih => exact Nat.le_trans ih (Nat.le_add_right _ _)

theorem off_unique (h : Nat → Nat) {i j p : Nat} (h1 : off h i ≤ p) (h2 : p < off h (i + 1))
    (h3 : off h j ≤ p) (h4 : p < off h (j + 1)) : i = j := by
  rcases Nat.lt_trichotomy i j with hl | hl | hl
  · have := off_mono h (show i + 1 ≤ j from hl); omega
  · exact hl
  · have := off_mono h (show j + 1 ≤ i from hl); omega

theorem off_exists (h : Nat → Nat) {n p : Nat} (hp : p < off h n) :
    ∃ i, i < n ∧ off h i ≤ p ∧ p < off h (i + 1) := by
  induction n with
  | zero => simp [off] at hp
  | succ n ih =>
    by_cases hq : p < off h n
    · obtain ⟨i, hi, h1, h2⟩ := ih hq
      exact ⟨i, by omega, h1, h2⟩
    · exact ⟨n, by omega, by omega, hp⟩

theorem off_congr {h g : Nat → Nat} {n : Nat} (hh : ∀ i < n, h i = g i) : off h n = off g n := by
  induction n with
  | zero => rfl
  | succ n ih => simp only [off]; rw [ih (fun i hi => hh i (by omega)), hh n (by omega)]

theorem cumsumFrom_length (acc : Nat) (l : List Nat) : (cumsumFrom acc l).length = l.length + 1 := by
  induction l generalizing acc with
  | nil => rfl
  | cons s ss ih => simp [cumsumFrom, ih]

theorem cumsumFrom_get (acc : Nat) (l : List Nat) (i : Nat) (hi : i ≤ l.length) :
    (cumsumFrom acc l)[i]? = some (acc + (l.take i).sum) := by
  induction l generalizing acc i with
  | nil =>
    have : i = 0 := by simpa using hi
    subst this; rfl
  | cons s ss ih =>
    cases i with
    | zero => simp [cumsumFrom]
    | succ i =>
      simp only [cumsumFrom, List.getElem?_cons_succ, List.take_succ_cons, List.sum_cons]
      rw [ih (acc + s) i (by simpa using hi), Nat.add_assoc]

theorem off_eq_sum (l : List Nat) (i : Nat) (hi : i ≤ l.length) :
    off (fun k => l[k]?.getD 0) i = (l.take i).sum := by
  induction i with
  | zero => rfl
  | succ i ih =>
    have hlt : i < l.length := hi
    simp only [off]
    rw [ih (by omega), List.take_add_one, List.sum_append]
    simp [List.getElem?_eq_getElem hlt]

theorem slice_length {α : Type _} (x : List α) (a b : Nat) (hb : b ≤ x.length) :
    (slice x a b).length = b - a := by
  simp [slice, Nat.min_eq_left hb]

theorem slice_get? {α : Type _} (x : List α) (a b i : Nat) :
    (slice x a b)[i]? = if a + i < b then x[a + i]? else none := by
  simp only [slice, List.getElem?_drop, List.getElem?_take]

theorem slice_map_some {α : Type _} (x : List α) (a b : Nat) (hb : b ≤ x.length) :
    (List.range (b - a)).map (fun i => x[a + i]?) = (slice x a b).map some := by
  apply List.ext_getElem?
  intro i
  simp only [List.getElem?_map, List.getElem?_range', slice_get?]
  by_cases hi : i < b - a
  · rw [List.getElem?_range hi, if_pos (by omega)]
    have hlt : a + i < x.length := by omega
    simp [List.getElem?_eq_getElem hlt]
  · rw [if_neg (by omega)]
    simp [List.getElem?_eq_none, Nat.le_of_not_lt hi]

theorem slice_append {α : Type _} (x : List α) (a b c : Nat) (hab : a ≤ b) (hbc : b ≤ c) :
    slice x a b ++ slice x b c = slice x a c := by
  apply List.ext_getElem?
  intro i
  by_cases hlen : b ≤ x.length
  · rw [List.getElem?_append, slice_length x a b hlen]
    simp only [slice_get?]
    split
    · rw [if_pos (by omega), if_pos (by omega)]
    · have : b + (i - (b - a)) = a + i := by omega
      rw [this]
  · have h1 : slice x a b = slice x a c := by
      simp only [slice]
      rw [List.take_of_length_le (by omega), List.take_of_length_le (by omega)]
    have h2 : slice x b c = [] := by
      simp only [slice]
      rw [List.take_of_length_le (by omega)]
      exact List.drop_of_length_le (by omega)
    rw [h2, List.append_nil, h1]

/-- rows of consecutive numbers fill up a range -/
theorem flatMap_rows (o k n : Nat) :
    (List.range n).flatMap (fun i => (List.range k).map (fun j => o + k * i + j))
      = List.range' o (n * k) := by
  induction n with
  | zero => simp
  | succ n ih =>
    rw [List.range_succ, List.flatMap_append, ih]
    simp only [List.flatMap_cons, List.flatMap_nil, List.append_nil]
    have : (List.range k).map (fun j => o + k * n + j) = List.range' (o + n * k) k := by
      rw [List.range_eq_range', List.range'_eq_map_range, List.map_map]
      · rw [List.range'_eq_map_range]
        apply List.map_congr_left
        intro j _
        simp only [Function.comp]
        rw [Nat.mul_comm k n]; omega
    rw [this, Nat.succ_mul, List.range'_append_1]

/-- consecutive blocks fill up a range -/
theorem flatMap_blocks (h : Nat → Nat) (n : Nat) :
    (List.range n).flatMap (fun c => List.range' (off h c) (h c)) = List.range (off h n) := by
  induction n with
  | zero => simp [off]
  | succ n ih =>
    rw [List.range_succ, List.flatMap_append, ih]
    simp only [List.flatMap_cons, List.flatMap_nil, List.append_nil, off]
    rw [List.range_eq_range', List.range_eq_range']
    have := List.range'_append_1 (s := 0) (m := off h n) (n := h n)
    simpa using this

end Verif.Offsets
