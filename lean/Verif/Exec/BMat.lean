import Mathlib.Tactic.Common
import Mathlib.Algebra.BigOperators.Intervals
import Mathlib.Tactic.Ring

/-!
# Block matrix assembly (C23)

Model of `_bmat` (`pytential/symbolic/execution.py:971-998`).  A block is either the
scalar zero or an array of shape (rows, columns) with entries in an arbitrary type;
positions outside the shape are never read.
-/

namespace Verif.BMat

open Finset

/-- an array block -/
structure Arr (α : Type) where
  rows : Nat
  cols : Nat
  get : Nat → Nat → α

/-- a block: `none` is the scalar `0` (`is_zero`, `pytential/symbolic/matrix.py:80-81`) -/
abbrev Block (α : Type) := Option (Arr α)

/-- `ValueError` of `single_valued` -/
inductive Err | value
  deriving DecidableEq, Repr

/-- `pytools.single_valued`: raises for an empty or non-constant sequence -/
def singleValued : List Nat → Except Err Nat
  | [] => .error .value
  | x :: xs => if xs.all (· == x) then .ok x else .error .value

/-- the blocks of block row `i` that are not zero, in order (`execution.py:981-984`) -/
def rowBlocks {α : Type} (blocks : Nat → Nat → Block α) (nc i : Nat) : List (Arr α) :=
  (List.range nc).filterMap (fun j => blocks i j)

/-- the blocks of block column `j` that are not zero (`execution.py:987-990`) -/
def colBlocks {α : Type} (blocks : Nat → Nat → Block α) (nr j : Nat) : List (Arr α) :=
  (List.range nr).filterMap (fun i => blocks i j)

/-- list comprehension with possible exceptions -/
def mapE {β γ : Type} (f : β → Except Err γ) : List β → Except Err (List γ)
  | [] => .ok []
  | x :: xs => match f x with
    | .error e => .error e
    | .ok y => match mapE f xs with
      | .error e => .error e
      | .ok ys => .ok (y :: ys)

/-- entry `i` of `np.cumsum([0] + sizes)` -/
def cum (sizes : List Nat) (i : Nat) : Nat := (sizes.take i).sum

/-- the result array: shape and entries -/
structure Result (α : Type) where
  rows : Nat
  cols : Nat
  get : Nat → Nat → α

/-- `result[r0:r1, c0:c1] = block`, where the scalar zero is broadcast
(`execution.py:995-996`) -/
def assign {α : Type} (zero : α) (r0 r1 c0 c1 : Nat) (b : Block α) (a : Nat → Nat → α) :
    Nat → Nat → α := fun p q =>
  if r0 ≤ p ∧ p < r1 ∧ c0 ≤ q ∧ q < c1 then
    match b with
    | none => zero
    | some m => m.get (p - r0) (q - c0)
  else a p q

/-- the two loops (`execution.py:993-996`), columns outside -/
def fill {α : Type} (zero : α) (blocks : Nat → Nat → Block α) (rs cs : List Nat) (nr nc : Nat)
    (a : Nat → Nat → α) : Nat → Nat → α :=
  (List.range nc).foldl (fun a j => (List.range nr).foldl
    (fun a i => assign zero (cum rs i) (cum rs (i + 1)) (cum cs j) (cum cs (j + 1)) (blocks i j) a)
    a) a

/-- `_bmat(blocks, dtypes)` (`execution.py:971-998`); data types are not modelled -/
def bmat {α : Type} (zero : α) (blocks : Nat → Nat → Block α) (nr nc : Nat) :
    Except Err (Result α) :=
  match mapE (fun i => singleValued ((rowBlocks blocks nc i).map Arr.rows)) (List.range nr) with
  | .error e => .error e
  | .ok rs =>
    match mapE (fun j => singleValued ((colBlocks blocks nr j).map Arr.cols)) (List.range nc) with
    | .error e => .error e
    | .ok cs => .ok ⟨cum rs nr, cum cs nc, fill zero blocks rs cs nr nc (fun _ _ => zero)⟩

/-! ## Specification -/

/-- Block (i, j) has `h i` rows and `w j` columns, unless it is zero, for some row heights
`h` and column widths `w`. -/
def Compatible {α : Type} (blocks : Nat → Nat → Block α) (nr nc : Nat) (h w : Nat → Nat) : Prop :=
  ∀ i < nr, ∀ j < nc, ∀ m, blocks i j = some m → m.rows = h i ∧ m.cols = w j

/-- every block row and column has a block that is not zero -/
def Covered {α : Type} (blocks : Nat → Nat → Block α) (nr nc : Nat) : Prop :=
  (∀ i < nr, ∃ j < nc, blocks i j ≠ none) ∧ (∀ j < nc, ∃ i < nr, blocks i j ≠ none)

/-- first row of block row `i` -/
def offset (h : Nat → Nat) (i : Nat) : Nat := ∑ k ∈ range i, h k

/-- entry of a block -/
def entry {α : Type} (zero : α) : Block α → Nat → Nat → α
  | none, _, _ => zero
  | some m, p, q => m.get p q

/-! ## Proofs -/

theorem mapE_ok {β γ : Type} (f : β → Except Err γ) (g : β → γ) (l : List β)
    (h : ∀ x ∈ l, f x = .ok (g x)) : mapE f l = .ok (l.map g) := by
  induction l with
  | nil => rfl
  | cons x xs ih =>
    simp only [mapE, h x (by simp), ih (fun y hy => h y (by simp [hy])), List.map_cons]

theorem mapE_err {β γ : Type} (f : β → Except Err γ) (l : List β) (x : β) (hx : x ∈ l)
    (h : f x = .error .value) : mapE f l = .error .value := by
  induction l with
  | nil => cases hx
  | cons y ys ih =>
    simp only [mapE]
    cases hy : f y with
    | error e => cases e; rfl
    | ok z =>
      rcases List.mem_cons.1 hx with rfl | hx
      · rw [h] at hy; cases hy
      · rw [ih hx]

theorem mapE_error_mem {β γ : Type} (f : β → Except Err γ) (l : List β) (e : Err)
    (h : mapE f l = .error e) : ∃ x ∈ l, f x = .error e := by
  induction l with
  | nil => cases h
  | cons y ys ih =>
    simp only [mapE] at h
    cases hy : f y with
    | error e' => rw [hy] at h; cases h; exact ⟨y, by simp, hy⟩
    | ok z =>
      rw [hy] at h
      cases hs : mapE f ys with
      | error e' =>
        rw [hs] at h; cases h
        obtain ⟨x, hx, hf⟩ := ih hs
        exact ⟨x, by simp [hx], hf⟩
      | ok zs => rw [hs] at h; cases h

theorem mapE_ok_inv {β γ : Type} (f : β → Except Err γ) (l : List β) (ys : List γ)
    (h : mapE f l = .ok ys) : ys.length = l.length ∧
      ∀ (i : Nat) (x : β), l[i]? = some x → ∃ y, f x = .ok y ∧ ys[i]? = some y := by
  induction l generalizing ys with
  | nil => cases h; simp
  | cons z zs ih =>
    simp only [mapE] at h
    cases hz : f z with
    | error e' => rw [hz] at h; cases h
    | ok y =>
      rw [hz] at h
      cases hs : mapE f zs with
      | error e' => rw [hs] at h; cases h
      | ok ws =>
        rw [hs] at h
        cases h
        obtain ⟨h1, h2⟩ := ih ws hs
        refine ⟨by simp [h1], ?_⟩
        intro i x hx
        cases i with
        | zero =>
          simp only [List.getElem?_cons_zero, Option.some.injEq] at hx
          subst hx
          exact ⟨y, hz, by simp⟩
        | succ i => simpa using h2 i x (by simpa using hx)

theorem singleValued_ok (l : List Nat) (x : Nat) (hne : l ≠ []) (h : ∀ y ∈ l, y = x) :
    singleValued l = .ok x := by
  cases l with
  | nil => exact absurd rfl hne
  | cons y ys =>
    have : y = x := h y (by simp)
    subst this
    simp only [singleValued]
    rw [if_pos]
    rw [List.all_eq_true]
    intro z hz
    simpa using h z (by simp [hz])

theorem singleValued_inv (l : List Nat) (x : Nat) (h : singleValued l = .ok x) :
    l ≠ [] ∧ ∀ y ∈ l, y = x := by
  cases l with
  | nil => cases h
  | cons y ys =>
    simp only [singleValued] at h
    by_cases ha : ys.all (· == y) = true
    · rw [if_pos ha] at h
      cases h
      refine ⟨by simp, ?_⟩
      rw [List.all_eq_true] at ha
      intro z hz
      rcases List.mem_cons.1 hz with rfl | hz
      · rfl
      · simpa using ha z hz
    · rw [if_neg ha] at h; cases h

theorem mem_rowBlocks {α : Type} (blocks : Nat → Nat → Block α) (nc i : Nat) (m : Arr α) :
    m ∈ rowBlocks blocks nc i ↔ ∃ j < nc, blocks i j = some m := by
  simp [rowBlocks, List.mem_filterMap]

theorem mem_colBlocks {α : Type} (blocks : Nat → Nat → Block α) (nr j : Nat) (m : Arr α) :
    m ∈ colBlocks blocks nr j ↔ ∃ i < nr, blocks i j = some m := by
  simp [colBlocks, List.mem_filterMap]

theorem cum_map_range (h : Nat → Nat) (n i : Nat) (hi : i ≤ n) :
    cum ((List.range n).map h) i = offset h i := by
  unfold cum offset
  rw [← List.map_take, List.take_range, Nat.min_eq_left hi]
  induction i with
  | zero => simp
  | succ i ih =>
    rw [List.range_succ, List.map_append, List.sum_append, ih (by omega), Finset.sum_range_succ]
    simp

theorem offset_succ (h : Nat → Nat) (i : Nat) : offset h (i + 1) = offset h i + h i := by
  simp [offset, Finset.sum_range_succ]

theorem offset_mono (h : Nat → Nat) {i j : Nat} (hij : i ≤ j) : offset h i ≤ offset h j := by
  induction j with
  | zero => rw [Nat.le_zero.1 hij]
  | succ j ih =>
    rcases Nat.lt_or_ge i (j + 1) with hl | hl
    · rw [offset_succ]; exact Nat.le_add_right_of_le (ih (by omega))
    · rw [Nat.le_antisymm hij hl]

/-- positions belong to at most one block -/
theorem offset_unique (h : Nat → Nat) {i j p : Nat} (h1 : offset h i ≤ p) (h2 : p < offset h (i + 1))
    (h3 : offset h j ≤ p) (h4 : p < offset h (j + 1)) : i = j := by
  rcases Nat.lt_trichotomy i j with hl | rfl | hl
  · have := offset_mono h (show i + 1 ≤ j from hl); omega
  · rfl
  · have := offset_mono h (show j + 1 ≤ i from hl); omega

/-- effect of the loops at a position inside block (i, j) -/
theorem fill_get {α : Type} (zero : α) (blocks : Nat → Nat → Block α) (h w : Nat → Nat)
    (rs cs : List Nat) (nr nc : Nat)
    (hr : ∀ i ≤ nr, cum rs i = offset h i) (hc : ∀ j ≤ nc, cum cs j = offset w j)
    (i j p q : Nat) (hi : i < nr) (hj : j < nc) (hp : p < h i) (hq : q < w j)
    (a : Nat → Nat → α) :
    fill zero blocks rs cs nr nc a (offset h i + p) (offset w j + q) = entry zero (blocks i j) p q := by
  have hP : offset h i ≤ offset h i + p ∧ offset h i + p < offset h (i + 1) := by
    rw [offset_succ]; omega
  have hQ : offset w j ≤ offset w j + q ∧ offset w j + q < offset w (j + 1) := by
    rw [offset_succ]; omega
  -- inner loop
  have inner : ∀ j' < nc, ∀ n ≤ nr, ∀ a : Nat → Nat → α,
      ((List.range n).foldl (fun a i => assign zero (cum rs i) (cum rs (i + 1)) (cum cs j')
        (cum cs (j' + 1)) (blocks i j') a) a) (offset h i + p) (offset w j + q) =
      if j' = j ∧ i < n then entry zero (blocks i j) p q else a (offset h i + p) (offset w j + q) := by
    intro j' hj' n
    induction n with
    | zero => intro _ a; simp
    | succ n ih =>
      intro hn a
      rw [List.range_succ, List.foldl_append, List.foldl_cons, List.foldl_nil]
      simp only [assign]
      rw [hr n (by omega), hr (n + 1) hn, hc j' (by omega), hc (j' + 1) (by omega)]
      by_cases hin : offset h n ≤ offset h i + p ∧ offset h i + p < offset h (n + 1) ∧
          offset w j' ≤ offset w j + q ∧ offset w j + q < offset w (j' + 1)
      · rw [if_pos hin]
        have e1 : n = i := offset_unique h hin.1 hin.2.1 hP.1 hP.2
        have e2 : j' = j := offset_unique w hin.2.2.1 hin.2.2.2 hQ.1 hQ.2
        subst e1; subst e2
        rw [if_pos ⟨rfl, by omega⟩]
        simp only [Nat.add_sub_cancel_left, entry]
        cases blocks n j' <;> rfl
      · rw [if_neg hin]
        have ih' := ih (by omega) a
        rw [hc j' (by omega), hc (j' + 1) (by omega)] at ih'
        rw [ih']
        by_cases hcase : j' = j ∧ i < n
        · rw [if_pos hcase, if_pos ⟨hcase.1, by omega⟩]
        · rw [if_neg hcase, if_neg]
          rintro ⟨rfl, hlt⟩
          apply hcase
          refine ⟨rfl, ?_⟩
          by_contra hge
          have : i = n := by omega
          subst this
          exact hin ⟨hP.1, hP.2, hQ.1, hQ.2⟩
  have outer : ∀ n ≤ nc, ∀ a : Nat → Nat → α,
      ((List.range n).foldl (fun a j => (List.range nr).foldl
        (fun a i => assign zero (cum rs i) (cum rs (i + 1)) (cum cs j) (cum cs (j + 1))
          (blocks i j) a) a) a) (offset h i + p) (offset w j + q) =
      if j < n then entry zero (blocks i j) p q else a (offset h i + p) (offset w j + q) := by
    intro n
    induction n with
    | zero => intro _ a; simp
    | succ n ih =>
      intro hn a
      rw [List.range_succ, List.foldl_append, List.foldl_cons, List.foldl_nil,
        inner n (by omega) nr (le_refl _), ih (by omega)]
      by_cases hnj : n = j
      · subst hnj
        rw [if_pos ⟨rfl, hi⟩, if_pos (by omega)]
      · rw [if_neg (fun hh => hnj hh.1)]
        by_cases hlt : j < n
        · rw [if_pos hlt, if_pos (by omega)]
        · rw [if_neg hlt, if_neg (by omega)]
  unfold fill
  rw [outer nc (le_refl _), if_pos hj]

theorem bmat_eq {α : Type} (zero : α) (blocks : Nat → Nat → Block α) (nr nc : Nat) (h w : Nat → Nat)
    (hcomp : Compatible blocks nr nc h w) (hcov : Covered blocks nr nc) :
    bmat zero blocks nr nc = .ok ⟨offset h nr, offset w nc,
      fill zero blocks ((List.range nr).map h) ((List.range nc).map w) nr nc (fun _ _ => zero)⟩ := by
  have h1 : mapE (fun i => singleValued ((rowBlocks blocks nc i).map Arr.rows)) (List.range nr) =
      .ok ((List.range nr).map h) := by
    apply mapE_ok
    intro i hi
    have hi := List.mem_range.1 hi
    obtain ⟨j, hj, hb⟩ := hcov.1 i hi
    obtain ⟨m, hm⟩ := Option.ne_none_iff_exists'.1 hb
    apply singleValued_ok
    · intro hnil
      have : m ∈ rowBlocks blocks nc i := (mem_rowBlocks blocks nc i m).2 ⟨j, hj, hm⟩
      rw [List.map_eq_nil_iff.1 hnil] at this
      cases this
    · intro y hy
      obtain ⟨m', hm', rfl⟩ := List.mem_map.1 hy
      obtain ⟨j', hj', hb'⟩ := (mem_rowBlocks blocks nc i m').1 hm'
      exact (hcomp i hi j' hj' m' hb').1
  have h2 : mapE (fun j => singleValued ((colBlocks blocks nr j).map Arr.cols)) (List.range nc) =
      .ok ((List.range nc).map w) := by
    apply mapE_ok
    intro j hj
    have hj := List.mem_range.1 hj
    obtain ⟨i, hi, hb⟩ := hcov.2 j hj
    obtain ⟨m, hm⟩ := Option.ne_none_iff_exists'.1 hb
    apply singleValued_ok
    · intro hnil
      have : m ∈ colBlocks blocks nr j := (mem_colBlocks blocks nr j m).2 ⟨i, hi, hm⟩
      rw [List.map_eq_nil_iff.1 hnil] at this
      cases this
    · intro y hy
      obtain ⟨m', hm', rfl⟩ := List.mem_map.1 hy
      obtain ⟨i', hi', hb'⟩ := (mem_colBlocks blocks nr j m').1 hm'
      exact (hcomp i' hi' j hj m' hb').2
  unfold bmat
  rw [h1]
  dsimp only
  rw [h2]
  dsimp only
  rw [cum_map_range h nr nr (le_refl _), cum_map_range w nc nc (le_refl _)]

/-- C23: if the sizes of the blocks fit together and every block row and column has a
block that is not the scalar zero, the result has the total size, and block (i, j) sits in
exactly the rows of block row i and the columns of block column j; zero blocks are filled
with zeros.  Partial: block rows or columns of scalar zeros only, see `C23_refuted`. -/
theorem C23_layout_partial {α : Type} (zero : α) (blocks : Nat → Nat → Block α) (nr nc : Nat)
    (h w : Nat → Nat) (hcomp : Compatible blocks nr nc h w) (hcov : Covered blocks nr nc) :
    ∃ r, bmat zero blocks nr nc = .ok r ∧ r.rows = offset h nr ∧ r.cols = offset w nc ∧
      ∀ i < nr, ∀ j < nc, ∀ p < h i, ∀ q < w j,
        r.get (offset h i + p) (offset w j + q) = entry zero (blocks i j) p q := by
  refine ⟨_, bmat_eq zero blocks nr nc h w hcomp hcov, rfl, rfl, ?_⟩
  intro i hi j hj p hp q hq
  exact fill_get zero blocks h w _ _ nr nc (fun i hi => cum_map_range h nr i hi)
    (fun j hj => cum_map_range w nc j hj) i j p q hi hj hp hq _

/-- C23: every row of the result belongs to exactly one block row (the ranges partition
the rows; the same holds for columns with `w`). -/
theorem C23_partition (h : Nat → Nat) (nr P : Nat) (hP : P < offset h nr) :
    ∃ i p, i < nr ∧ p < h i ∧ P = offset h i + p ∧
      ∀ i' p', i' < nr → p' < h i' → P = offset h i' + p' → i' = i ∧ p' = p := by
  induction nr with
  | zero => simp [offset] at hP
  | succ n ih =>
    have huniq : ∀ i p, p < h i → P = offset h i + p →
        ∀ i' p', i' < n + 1 → p' < h i' → P = offset h i' + p' → i' = i ∧ p' = p := by
      intro i p hp hPp i' p' _ hp' hP'
      have e : i' = i := by
        refine offset_unique h (p := P) ?_ ?_ ?_ ?_
        · omega
        · rw [offset_succ]; omega
        · omega
        · rw [offset_succ]; omega
      subst e
      exact ⟨rfl, by omega⟩
    by_cases hlt : P < offset h n
    · obtain ⟨i, p, h1, h2, h3, _⟩ := ih hlt
      exact ⟨i, p, by omega, h2, h3, huniq i p h2 h3⟩
    · rw [offset_succ] at hP
      exact ⟨n, P - offset h n, by omega, by omega, by omega, huniq n _ (by omega) (by omega)⟩

/-- C23: blocks that do not fit together, and block rows or columns of zeros only, raise. -/
theorem C23_rejects {α : Type} (zero : α) (blocks : Nat → Nat → Block α) (nr nc : Nat) :
    (∃ r, bmat zero blocks nr nc = .ok r) ↔
      Covered blocks nr nc ∧ ∃ h w, Compatible blocks nr nc h w := by
  constructor
  · rintro ⟨r, hr⟩
    unfold bmat at hr
    cases h1 : mapE (fun i => singleValued ((rowBlocks blocks nc i).map Arr.rows)) (List.range nr) with
    | error e => rw [h1] at hr; cases hr
    | ok rs =>
      rw [h1] at hr
      dsimp only at hr
      cases h2 : mapE (fun j => singleValued ((colBlocks blocks nr j).map Arr.cols)) (List.range nc) with
      | error e => rw [h2] at hr; cases hr
      | ok cs =>
        obtain ⟨_, a2⟩ := mapE_ok_inv _ _ _ h1
        obtain ⟨_, b2⟩ := mapE_ok_inv _ _ _ h2
        refine ⟨⟨?_, ?_⟩, fun i => rs.getD i 0, fun j => cs.getD j 0, ?_⟩
        · intro i hi
          obtain ⟨y, hy, _⟩ := a2 i i (by simp [hi])
          obtain ⟨hne, _⟩ := singleValued_inv _ _ hy
          obtain ⟨m, hm⟩ := List.exists_mem_of_ne_nil _ (fun hh => hne (by rw [hh]; rfl) :
            rowBlocks blocks nc i ≠ [])
          obtain ⟨j, hj, hb⟩ := (mem_rowBlocks blocks nc i m).1 hm
          exact ⟨j, hj, by rw [hb]; simp⟩
        · intro j hj
          obtain ⟨y, hy, _⟩ := b2 j j (by simp [hj])
          obtain ⟨hne, _⟩ := singleValued_inv _ _ hy
          obtain ⟨m, hm⟩ := List.exists_mem_of_ne_nil _ (fun hh => hne (by rw [hh]; rfl) :
            colBlocks blocks nr j ≠ [])
          obtain ⟨i, hi, hb⟩ := (mem_colBlocks blocks nr j m).1 hm
          exact ⟨i, hi, by rw [hb]; simp⟩
        · intro i hi j hj m hm
          obtain ⟨y, hy, hy'⟩ := a2 i i (by simp [hi])
          obtain ⟨z, hz, hz'⟩ := b2 j j (by simp [hj])
          have e1 := (singleValued_inv _ _ hy).2 m.rows
            (List.mem_map.2 ⟨m, (mem_rowBlocks blocks nc i m).2 ⟨j, hj, hm⟩, rfl⟩)
          have e2 := (singleValued_inv _ _ hz).2 m.cols
            (List.mem_map.2 ⟨m, (mem_colBlocks blocks nr j m).2 ⟨i, hi, hm⟩, rfl⟩)
          simp [List.getD, hy', hz', e1, e2]
  · rintro ⟨hcov, h, w, hcomp⟩
    exact ⟨_, bmat_eq zero blocks nr nc h w hcomp hcov⟩

theorem sum_offset {α : Type} [AddCommMonoid α] (w : Nat → Nat) (n : Nat) (g : Nat → α) :
    ∑ Q ∈ range (offset w n), g Q = ∑ j ∈ range n, ∑ q ∈ range (w j), g (offset w j + q) := by
  induction n with
  | zero => simp [offset]
  | succ n ih =>
    rw [Finset.sum_range_succ, ← ih, offset_succ, Finset.sum_range_add]

/-- C23: multiplying the assembled matrix with a stacked vector gives, in the rows of
block row i, the sum over j of block (i, j) times component j. -/
theorem C23_product {α : Type} [Semiring α] (blocks : Nat → Nat → Block α) (nr nc : Nat)
    (h w : Nat → Nat) (hcomp : Compatible blocks nr nc h w) (hcov : Covered blocks nr nc)
    (x : Nat → Nat → α) (X : Nat → α)
    (hX : ∀ j < nc, ∀ q < w j, X (offset w j + q) = x j q) :
    ∃ r, bmat 0 blocks nr nc = .ok r ∧ ∀ i < nr, ∀ p < h i,
      ∑ Q ∈ range r.cols, r.get (offset h i + p) Q * X Q =
        ∑ j ∈ range nc, ∑ q ∈ range (w j), entry 0 (blocks i j) p q * x j q := by
  obtain ⟨r, hr, _, hc, hget⟩ := C23_layout_partial 0 blocks nr nc h w hcomp hcov
  refine ⟨r, hr, ?_⟩
  intro i hi p hp
  rw [hc, sum_offset]
  apply Finset.sum_congr rfl
  intro j hj
  apply Finset.sum_congr rfl
  intro q hq
  have hj := Finset.mem_range.1 hj
  have hq := Finset.mem_range.1 hq
  rw [hget i hi j hj p hp q hq, hX j hj q hq]

/-- C23 is false for "any pattern of zero blocks": an operator that does not depend on
one of its inputs (a block column of zeros) cannot be assembled at all. -/
theorem C23_refuted : ∃ (blocks : Nat → Nat → Block Nat) (h w : Nat → Nat),
    Compatible blocks 1 2 h w ∧ bmat 0 blocks 1 2 = .error .value := by
  refine ⟨fun i j => if j = 0 then some ⟨1, 1, fun _ _ => 5⟩ else none, fun _ => 1, fun _ => 1, ?_, rfl⟩
  intro i hi j hj m hm
  dsimp only at hm
  split at hm
  · cases hm; exact ⟨rfl, rfl⟩
  · cases hm

/-- non-vacuity: a 2×2 block matrix with one zero block -/
example : ∃ (blocks : Nat → Nat → Block Nat) (h w : Nat → Nat),
    Compatible blocks 2 2 h w ∧ Covered blocks 2 2 := by
  refine ⟨fun i j => if i = 0 ∧ j = 1 then none else some ⟨i + 1, j + 2, fun p q => 10 * p + q⟩,
    fun i => i + 1, fun j => j + 2, ?_, ?_, ?_⟩
  · intro i hi j hj m hm
    dsimp only at hm
    split at hm
    · cases hm
    · cases hm; exact ⟨rfl, rfl⟩
  · intro i hi; exact ⟨0, by omega, by simp⟩
  · intro j hj; exact ⟨1, by omega, by simp⟩

end Verif.BMat
