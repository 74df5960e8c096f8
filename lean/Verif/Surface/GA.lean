import Mathlib.Algebra.BigOperators.Fin
import Mathlib.Algebra.BigOperators.Field
import Mathlib.Algebra.BigOperators.Ring.Finset
import Mathlib.LinearAlgebra.Determinant
import Mathlib.LinearAlgebra.Matrix.NonsingularInverse
import Mathlib.LinearAlgebra.FiniteDimensional.Lemmas
import Mathlib.Tactic.Ring
import Mathlib.Tactic.Linarith
import Mathlib.Tactic.FieldSimp
import Mathlib.Tactic.LinearCombination
import Verif.Surface.Frames

/-!
# Normals through geometric algebra (C97)

`pytential` computes pseudoscalars, area elements and normals with `pymbolic`'s multivectors
(`pytential/symbolic/primitives.py:520-531`, `858-936`).  This file models the multivectors themselves
(blade products with reordering signs, grade projection, reversion, scalar product, left contraction,
inverse of a blade), in every dimension, as they evaluate at one point in real arithmetic, and derives the
geometric meaning of the results.  The multivector operations are those of `pymbolic.geometric_algebra`
(not in `/repo`), in an orthonormal basis; blades whose coefficient is the literal zero are not dropped.
-/

namespace Verif.GA

open Verif.Frames

variable {n : Nat}

/-- multivectors: a coefficient for each basis blade, a set of basis vectors
(`MultiVector.data`, keyed by bitmaps; library) -/
abbrev MV (n : Nat) := Finset (Fin n) → ℝ

/-- number of transpositions sorting the blade `A` followed by the blade `B`
(`canonical_reordering_sign`; library) -/
def inversions (A B : Finset (Fin n)) : Nat := ∑ a ∈ A, (B.filter (· < a)).card

/-- `canonical_reordering_sign` (library) -/
def sgn (A B : Finset (Fin n)) : ℝ := (-1) ^ inversions A B

/-- geometric product `x * y` (library): equal basis vectors cancel to one, so that the blades `A` and `B` give
the blade `A ∆ B`; the summand of the result's blade `S` is indexed by `A`, with `B = A ∆ S` -/
def mul (x y : MV n) : MV n := fun S => ∑ A, sgn A (symmDiff A S) * x A * y (symmDiff A S)

/-- left contraction `x << y` (library): products of blades `A ⊆ B` only -/
def lcont (x y : MV n) : MV n := fun S =>
  ∑ A, if A ∩ symmDiff A S = A then sgn A (symmDiff A S) * x A * y (symmDiff A S) else 0

/-- `MultiVector(vec)` (library) -/
def ofVec (v : Vec n) : MV n := fun S => ∑ i, if S = {i} then v i else 0

/-- `as_vector` (library): coefficients of the blades of grade one -/
def asVector (x : MV n) : Vec n := fun i => x {i}

/-- the number one -/
def one : MV n := fun S => if S = ∅ then 1 else 0

/-- `project_max_grade` (library) of a product of `k` vectors -/
def grade (k : Nat) (x : MV n) : MV n := fun S => if S.card = k then x S else 0

/-- `rev` (library) -/
def rev (x : MV n) : MV n := fun S => (-1) ^ (S.card * (S.card - 1) / 2) * x S

/-- `norm_squared`: `self.rev().scalar_product(self)` (library) -/
def normSq (x : MV n) : ℝ := mul (rev x) x ∅

/-- `I` (library): the unit pseudoscalar of the space -/
def unitPs : MV n := fun S => if S = Finset.univ then 1 else 0

/-- `inv` (library) of a blade: `self.rev() / self.norm_squared()` -/
noncomputable def inv (x : MV n) : MV n := fun S => rev x S / normSq x

/-- `parametrization_derivative` (`primitives.py:858-871`): `pytools.product` of the columns of the derivative
matrix -/
def paramDerivative (cols : List (Vec n)) : MV n := cols.foldl (fun x v => mul x (ofVec v)) one

/-- `pseudoscalar` (`primitives.py:874-888`) -/
def pseudoscalar (cols : List (Vec n)) : MV n := grade cols.length (paramDerivative cols)

/-- `area_element` (`primitives.py:891-899`) -/
noncomputable def areaElement (cols : List (Vec n)) : ℝ := √(normSq (pseudoscalar cols))

/-- `normal` (`primitives.py:918-936`): `pder << pder.I.inv()` with
`pder = pseudoscalar / area_element` -/
noncomputable def normal (cols : List (Vec n)) : MV n :=
  lcont (fun S => pseudoscalar cols S / areaElement cols) (inv unitPs)

/-- `make_sym_surface_mv` (`primitives.py:520-531`), the variables having the values `a` -/
def surfaceMv (cols : List (Vec n)) (a : List ℝ) : MV n :=
  (List.zipWith (fun c v => fun S => c * ofVec v S) a cols).sum

/-! ## lemmas -/

theorem symmDiff_inj (S : Finset (Fin n)) (f : Finset (Fin n) → ℝ) :
    ∑ A, f (symmDiff A S) = ∑ A, f A := by
  apply Finset.sum_bij (fun A _ => symmDiff A S)
  · intro A _; exact Finset.mem_univ _
  · intro A _ B _ h; exact symmDiff_left_injective S h
  · intro A _; exact ⟨symmDiff A S, Finset.mem_univ _, by rw [symmDiff_assoc, symmDiff_self]; simp⟩
  · intro A _; rfl

/-- a product with a vector -/
theorem mul_ofVec (x : MV n) (v : Vec n) (S : Finset (Fin n)) :
    mul x (ofVec v) S = ∑ j, sgn (symmDiff S {j}) {j} * x (symmDiff S {j}) * v j := by
  rw [mul, ← symmDiff_inj S]
  have h : ∀ B : Finset (Fin n), symmDiff (symmDiff B S) S = B := fun B => by
    rw [symmDiff_assoc, symmDiff_self]; simp
  simp only [h]
  simp only [ofVec, Finset.mul_sum]
  rw [Finset.sum_comm]
  apply Finset.sum_congr rfl
  intro j _
  rw [Finset.sum_eq_single {j}]
  · rw [if_pos rfl, symmDiff_comm]
  · intro B _ hB; rw [if_neg hB, mul_zero]
  · intro h; exact absurd (Finset.mem_univ _) h

/-- number of elements beyond `j` -/
def above (A : Finset (Fin n)) (j : Fin n) : Nat := (A.filter (j < ·)).card

theorem inversions_single (A : Finset (Fin n)) (j : Fin n) : inversions A {j} = above A j := by
  rw [inversions, above, Finset.card_filter]
  apply Finset.sum_congr rfl
  intro a _
  rw [Finset.filter_singleton]
  split <;> simp

/-- outer product with a vector -/
def wedge (x : MV n) (v : Vec n) : MV n := fun S => ∑ j ∈ S, (-1) ^ above (S.erase j) j * x (S.erase j) * v j

/-- outer product of vectors -/
def outer (cols : List (Vec n)) (x : MV n) : MV n := cols.foldl wedge x

theorem symmDiff_single_mem {S : Finset (Fin n)} {j : Fin n} (h : j ∈ S) : symmDiff S {j} = S.erase j := by
  ext a
  by_cases ha : a = j
  · subst ha; simp [Finset.mem_symmDiff, h]
  · simp [Finset.mem_symmDiff, ha]

theorem symmDiff_single_not {S : Finset (Fin n)} {j : Fin n} (h : j ∉ S) : symmDiff S {j} = insert j S := by
  ext a
  by_cases ha : a = j
  · subst ha; simp [Finset.mem_symmDiff, h]
  · simp [Finset.mem_symmDiff, ha]

/-- the product of vectors has no blades beyond the number of factors; those with as many are the outer
product's -/
theorem product_spec (cols : List (Vec n)) (k : Nat) (x y : MV n) (hx : ∀ S, k < S.card → x S = 0)
    (hxy : ∀ S, S.card = k → x S = y S) :
    (∀ S, k + cols.length < S.card → cols.foldl (fun x v => mul x (ofVec v)) x S = 0) ∧
    ∀ S, S.card = k + cols.length → cols.foldl (fun x v => mul x (ofVec v)) x S = outer cols y S := by
  induction cols generalizing k x y with
  | nil => exact ⟨fun S h => hx S (by simpa using h), fun S h => hxy S (by simpa using h)⟩
  | cons v cols ih =>
    have h1 : ∀ S : Finset (Fin n), k + 1 < S.card → mul x (ofVec v) S = 0 := by
      intro S hS
      rw [mul_ofVec]
      apply Finset.sum_eq_zero
      intro j _
      rw [hx, mul_zero, zero_mul]
      by_cases hj : j ∈ S
      · rw [symmDiff_single_mem hj, Finset.card_erase_of_mem hj]; omega
      · rw [symmDiff_single_not hj, Finset.card_insert_of_notMem hj]; omega
    have h2 : ∀ S : Finset (Fin n), S.card = k + 1 → mul x (ofVec v) S = wedge y v S := by
      intro S hS
      rw [mul_ofVec, wedge, ← Finset.sum_subset (Finset.subset_univ S)]
      · apply Finset.sum_congr rfl
        intro j hj
        rw [symmDiff_single_mem hj, sgn, inversions_single, hxy]
        rw [Finset.card_erase_of_mem hj]; omega
      · intro j _ hj
        rw [hx, mul_zero, zero_mul]
        rw [symmDiff_single_not hj, Finset.card_insert_of_notMem hj]; omega
    have := ih (k + 1) _ _ h1 h2
    rw [List.length_cons, show k + (cols.length + 1) = k + 1 + cols.length by omega]
    exact this

theorem pseudoscalar_eq (cols : List (Vec n)) (S : Finset (Fin n)) :
    pseudoscalar cols S = if S.card = cols.length then outer cols one S else 0 := by
  rw [pseudoscalar, grade]
  split
  · rename_i h
    exact (product_spec cols 0 one one (fun S hS => by rw [one, if_neg]; rintro rfl; simp at hS)
      (fun _ _ => rfl)).2 S (by omega)
  · rfl

theorem wedge_add_left (x y : MV n) (v : Vec n) : wedge (x + y) v = wedge x v + wedge y v := by
  funext S
  simp only [wedge, Pi.add_apply, ← Finset.sum_add_distrib]
  exact Finset.sum_congr rfl fun j _ => by ring

theorem wedge_smul_left (c : ℝ) (x : MV n) (v : Vec n) : wedge (c • x) v = c • wedge x v := by
  funext S
  simp only [wedge, Pi.smul_apply, smul_eq_mul, Finset.mul_sum]
  exact Finset.sum_congr rfl fun j _ => by ring

theorem wedge_add_right (x : MV n) (v w : Vec n) : wedge x (v + w) = wedge x v + wedge x w := by
  funext S
  simp only [wedge, Pi.add_apply, ← Finset.sum_add_distrib]
  exact Finset.sum_congr rfl fun j _ => by ring

theorem wedge_smul_right (c : ℝ) (x : MV n) (v : Vec n) : wedge x (c • v) = c • wedge x v := by
  funext S
  simp only [wedge, Pi.smul_apply, smul_eq_mul, Finset.mul_sum]
  exact Finset.sum_congr rfl fun j _ => by ring

theorem wedge_zero (v : Vec n) : wedge 0 v = 0 := by
  funext S; simp [wedge]

theorem above_erase (A : Finset (Fin n)) (i j : Fin n) (hj : j ∈ A) :
    above A i = above (A.erase j) i + if i < j then 1 else 0 := by
  rw [above, above]
  conv_lhs => rw [← Finset.insert_erase hj, Finset.filter_insert]
  split
  · rw [Finset.card_insert_of_notMem (by simp)]
  · rfl

/-- vectors anticommute under the outer product -/
theorem wedge_anti (x : MV n) (u v : Vec n) : wedge (wedge x u) v = -wedge (wedge x v) u := by
  funext S
  simp only [wedge, Pi.neg_apply, Finset.mul_sum, Finset.sum_mul]
  rw [Finset.sum_comm' (t' := S) (s' := fun j => S.erase j) (by
    intro a b; simp only [Finset.mem_erase]; tauto)]
  rw [← Finset.sum_neg_distrib]
  apply Finset.sum_congr rfl
  intro j hj
  rw [← Finset.sum_neg_distrib]
  apply Finset.sum_congr rfl
  intro i hi
  have hij : i ≠ j := (Finset.mem_erase.1 hi).1
  have hiS := (Finset.mem_erase.1 hi).2
  rw [above_erase (S.erase i) i j (Finset.mem_erase.2 ⟨hij.symm, hj⟩),
    above_erase (S.erase j) j i hi, Finset.erase_right_comm]
  rcases lt_or_gt_of_ne hij with h | h
  · rw [if_pos h, if_neg (not_lt.2 h.le)]
    simp only [pow_add, pow_one, pow_zero]
    ring
  · rw [if_neg (not_lt.2 h.le), if_pos h]
    simp only [pow_add, pow_one, pow_zero]
    ring

theorem outer_zero (cols : List (Vec n)) : outer cols 0 = 0 := by
  induction cols with
  | nil => rfl
  | cons v cols ih => rw [outer, List.foldl_cons, wedge_zero]; exact ih

theorem outer_add (cols : List (Vec n)) (x y : MV n) : outer cols (x + y) = outer cols x + outer cols y := by
  induction cols generalizing x y with
  | nil => rfl
  | cons v cols ih => rw [outer, List.foldl_cons, wedge_add_left]; exact ih _ _

theorem outer_smul (cols : List (Vec n)) (c : ℝ) (x : MV n) : outer cols (c • x) = c • outer cols x := by
  induction cols generalizing x with
  | nil => rfl
  | cons v cols ih => rw [outer, List.foldl_cons, wedge_smul_left]; exact ih _

theorem outer_append (a b : List (Vec n)) (x : MV n) : outer (a ++ b) x = outer b (outer a x) := by
  rw [outer, List.foldl_append]; rfl

/-- a vector moves through an outer product -/
theorem outer_move (cols : List (Vec n)) (x : MV n) (v : Vec n) :
    outer cols (wedge x v) = (-1 : ℝ) ^ cols.length • wedge (outer cols x) v := by
  induction cols generalizing x with
  | nil => simp [outer]
  | cons u cols ih =>
    have h1 : outer (u :: cols) (wedge x v) = outer cols (wedge (wedge x v) u) := rfl
    rw [h1, wedge_anti, show -wedge (wedge x u) v = (-1 : ℝ) • wedge (wedge x u) v by simp, outer_smul, ih,
      List.length_cons, pow_succ', smul_smul]
    rfl

/-- a repeated vector kills the outer product -/
theorem outer_repeat (cols : List (Vec n)) (x : MV n) (v : Vec n) (h : v ∈ cols) : wedge (outer cols x) v = 0 := by
  obtain ⟨pre, post, rfl⟩ := List.append_of_mem h
  rw [outer_append]
  have h1 : outer (v :: post) (outer pre x) = outer post (wedge (outer pre x) v) := rfl
  rw [h1]
  have h2 : wedge (wedge (outer pre x) v) v = 0 := by
    have := wedge_anti (outer pre x) v v
    funext S
    have h3 := congrFun this S
    simp only [Pi.neg_apply] at h3
    rw [Pi.zero_apply]; linarith
  have h3 := outer_move post (wedge (outer pre x) v) v
  rw [h2, outer_zero] at h3
  have h4 : ((-1 : ℝ) ^ post.length) ≠ 0 := pow_ne_zero _ (by norm_num)
  exact (smul_eq_zero.1 h3.symm).resolve_left h4

/-! ### the determinant -/

theorem outer_set_add (cols : List (Vec n)) (k : Nat) (v w : Vec n) (x : MV n) (hk : k < cols.length) :
    outer (cols.set k (v + w)) x = outer (cols.set k v) x + outer (cols.set k w) x := by
  induction cols generalizing k x with
  | nil => simp at hk
  | cons u cols ih =>
    cases k with
    | zero =>
      simp only [List.set_cons_zero, outer, List.foldl_cons]
      rw [wedge_add_right]
      exact outer_add cols _ _
    | succ k =>
      simp only [List.set_cons_succ, outer, List.foldl_cons]
      exact ih k _ (by simpa using hk)

theorem outer_set_smul (cols : List (Vec n)) (k : Nat) (c : ℝ) (v : Vec n) (x : MV n) (hk : k < cols.length) :
    outer (cols.set k (c • v)) x = c • outer (cols.set k v) x := by
  induction cols generalizing k x with
  | nil => simp at hk
  | cons u cols ih =>
    cases k with
    | zero =>
      simp only [List.set_cons_zero, outer, List.foldl_cons]
      rw [wedge_smul_right]
      exact outer_smul cols _ _
    | succ k =>
      simp only [List.set_cons_succ, outer, List.foldl_cons]
      exact ih k _ (by simpa using hk)

theorem ofFn_update {α : Type} {m : Nat} [DecidableEq (Fin m)] (f : Fin m → α) (i : Fin m) (v : α) :
    List.ofFn (Function.update f i v) = (List.ofFn f).set i v := by
  apply List.ext_getElem
  · simp
  · intro k h1 h2
    rw [List.getElem_ofFn, List.getElem_set]
    by_cases h : i.val = k
    · rw [if_pos h]
      have : (⟨k, by simpa using h1⟩ : Fin m) = i := Fin.ext h.symm
      rw [this, Function.update_self]
    · rw [if_neg h, List.getElem_ofFn, Function.update_of_ne]
      intro hc; exact h (by rw [← hc])

/-- two equal vectors in a list -/
theorem outer_two (cols : List (Vec n)) (x : MV n) (i j : Nat) (hij : i < j) (hj : j < cols.length)
    (h : cols[i] = cols[j]) : outer cols x = 0 := by
  have hs : cols = cols.take j ++ cols[j] :: cols.drop (j + 1) := by simp
  rw [hs, outer_append]
  have h1 : ∀ y, outer (cols[j] :: cols.drop (j + 1)) y = outer (cols.drop (j + 1)) (wedge y cols[j]) := fun _ => rfl
  rw [h1, outer_repeat, outer_zero]
  rw [← h, List.mem_take_iff_getElem]
  exact ⟨i, by omega, rfl⟩

/-- the outer product's top coefficient, as an alternating map -/
def topMap (n : Nat) : AlternatingMap ℝ (Vec n) ℝ (Fin n) where
  toFun v := outer (List.ofFn v) one Finset.univ
  map_update_add' := by
    intro d m i x y
    rw [ofFn_update, ofFn_update, ofFn_update, outer_set_add _ _ _ _ _ (by simp)]; rfl
  map_update_smul' := by
    intro d m i c x
    rw [ofFn_update, ofFn_update, outer_set_smul _ _ _ _ _ (by simp)]; rfl
  map_eq_zero_of_eq' := by
    intro v i j h hij
    rcases lt_or_gt_of_ne hij with hl | hl
    · rw [outer_two _ _ i j hl (by simp) (by simpa using h)]; rfl
    · rw [outer_two _ _ j i hl (by simp) (by simpa using h.symm)]; rfl

theorem outer_single (l : List (Fin n)) (hl : l.Pairwise (· < ·)) :
    outer (l.map fun i => Pi.single i 1) one = fun S => if S = l.toFinset then 1 else 0 := by
  induction l using List.reverseRecOn with
  | nil => rfl
  | append_singleton l j ih =>
    obtain ⟨h1, -, h2⟩ := List.pairwise_append.1 hl
    rw [List.map_append, outer_append, ih h1]
    funext S
    have hj : j ∉ l.toFinset := by
      intro hm; exact lt_irrefl _ (h2 j (List.mem_toFinset.1 hm) j (by simp))
    have hT : (l ++ [j]).toFinset = insert j l.toFinset := by
      ext a; simp [or_comm]
    change ∑ i ∈ S, _ = _
    rw [hT]
    by_cases hS : j ∈ S
    · rw [Finset.sum_eq_single j]
      · simp only [Pi.single_eq_same, mul_one]
        by_cases he : S.erase j = l.toFinset
        · have h0 : above l.toFinset j = 0 := by
            rw [above, Finset.card_eq_zero, Finset.filter_eq_empty_iff]
            intro a ha
            exact not_lt.2 (h2 a (List.mem_toFinset.1 ha) j (by simp)).le
          rw [if_pos he, he, h0, if_pos]
          · simp
          · rw [← he, Finset.insert_erase hS]
        · rw [if_neg he, if_neg, mul_zero]
          rintro rfl
          exact he (Finset.erase_insert hj)
      · intro i _ hi; simp only; rw [Pi.single_eq_of_ne hi, mul_zero]
      · intro h; exact absurd hS h
    · rw [if_neg, Finset.sum_eq_zero]
      · intro i hi
        simp only
        rw [Pi.single_eq_of_ne, mul_zero]
        rintro rfl; exact hS hi
      · rintro rfl; exact hS (Finset.mem_insert_self _ _)

/-- the top coefficient of the outer product is the determinant -/
theorem outer_det (v : Fin n → Vec n) : outer (List.ofFn v) one Finset.univ = (Matrix.of v).det := by
  have h := AlternatingMap.eq_smul_basis_det (Pi.basisFun ℝ (Fin n)) (topMap n)
  have h2 := congrArg (fun f => f v) h
  have h3 : topMap n (Pi.basisFun ℝ (Fin n)) = 1 := by
    change outer (List.ofFn fun i => Pi.basisFun ℝ (Fin n) i) one Finset.univ = 1
    have : (List.ofFn fun i => Pi.basisFun ℝ (Fin n) i) = (List.finRange n).map fun i => Pi.single i 1 := by
      rw [List.ofFn_eq_map]
      apply List.map_congr_left
      intro i _
      exact Pi.basisFun_apply ..
    rw [this, outer_single _ (List.pairwise_lt_finRange n)]
    apply if_pos
    ext a; simp
  rw [h3, one_smul, Pi.basisFun_det] at h2
  exact h2

/-! ### norms and contraction -/

theorem inversions_self (A : Finset (Fin n)) : inversions A A = A.card * (A.card - 1) / 2 := by
  induction A using Finset.induction_on_max with
  | empty => simp [inversions]
  | insert a A ha ih =>
    have hn : a ∉ A := fun h => lt_irrefl _ (ha a h)
    rw [inversions, Finset.sum_insert hn, Finset.card_insert_of_notMem hn]
    have h1 : (insert a A).filter (· < a) = A := by
      rw [Finset.filter_insert, if_neg (lt_irrefl _), Finset.filter_true_of_mem]
      exact ha
    have h2 : ∑ b ∈ A, ((insert a A).filter (· < b)).card = inversions A A := by
      apply Finset.sum_congr rfl
      intro b hb
      rw [Finset.filter_insert, if_neg (not_lt.2 (ha b hb).le)]
    rw [h1, h2, ih, Nat.triangle_succ]; omega

/-- the squared norm is the sum of the squared coefficients -/
theorem normSq_eq (x : MV n) : normSq x = ∑ A, x A ^ 2 := by
  rw [normSq, mul]
  apply Finset.sum_congr rfl
  intro A _
  have : symmDiff A ∅ = A := by simp
  rw [this, sgn, inversions_self, rev]
  have h : ((-1 : ℝ) ^ (A.card * (A.card - 1) / 2)) * (-1) ^ (A.card * (A.card - 1) / 2) = 1 := by
    rw [← mul_pow]; simp
  linear_combination x A ^ 2 * h

theorem normSq_unit : normSq (unitPs : MV n) = 1 := by
  rw [normSq_eq, Finset.sum_eq_single Finset.univ]
  · simp [unitPs]
  · intro A _ hA; simp [unitPs, hA]
  · intro h; exact absurd (Finset.mem_univ _) h

theorem lcont_unit (x : MV n) (S : Finset (Fin n)) :
    lcont x (inv unitPs) S = sgn Sᶜ Finset.univ * x Sᶜ * (-1) ^ (n * (n - 1) / 2) := by
  have hc : symmDiff Sᶜ S = Finset.univ := by
    ext a; by_cases h : a ∈ S <;> simp [Finset.mem_symmDiff, h]
  rw [lcont, Finset.sum_eq_single Sᶜ]
  · rw [hc, if_pos (by simp), inv, normSq_unit, rev, unitPs, if_pos rfl, Finset.card_univ, Fintype.card_fin]
    ring
  · intro A _ hA
    split
    · rw [inv, rev, unitPs, if_neg]
      · simp
      · intro h
        apply hA
        have h2 : symmDiff (symmDiff A S) S = A := by rw [symmDiff_assoc, symmDiff_self]; simp
        rw [← h2, h]
        ext a; by_cases h : a ∈ S <;> simp [Finset.mem_symmDiff, h]
    · rfl
  · intro h; exact absurd (Finset.mem_univ _) h

theorem inversions_compl (i : Fin n) : inversions {i}ᶜ Finset.univ + i = n * (n - 1) / 2 := by
  have h : ∀ a : Fin n, ((Finset.univ : Finset (Fin n)).filter (· < a)).card = a := by
    intro a
    rw [show (Finset.univ.filter (· < a)) = Finset.Iio a by ext; simp, Fin.card_Iio]
  have h2 := Finset.add_sum_erase (Finset.univ : Finset (Fin n)) (fun a => a.val) (Finset.mem_univ i)
  rw [Fin.sum_univ_eq_sum_range (fun a => a) n, Finset.sum_range_id] at h2
  rw [← h2, inversions, Finset.sum_congr rfl (fun a _ => h a), Finset.compl_singleton, Nat.add_comm]

theorem above_erase_univ {m : Nat} (i : Fin (m + 1)) : above (Finset.univ.erase i) i = m - i := by
  rw [above, show ((Finset.univ.erase i).filter (i < ·)) = Finset.Ioi i by
    ext a; simp only [Finset.mem_filter, Finset.mem_erase, Finset.mem_univ, Finset.mem_Ioi]
    exact ⟨fun h => h.2, fun h => ⟨⟨(ne_of_gt h), trivial⟩, h⟩⟩, Fin.card_Ioi]
  omega

theorem neg_one_sq_pow (k : Nat) : ((-1 : ℝ) ^ k) * (-1) ^ k = 1 := by rw [← mul_pow]; simp

/-- coefficients of the normal -/
theorem normal_single {m : Nat} (cols : List (Vec (m + 1))) (hm : cols.length = m) (i : Fin (m + 1)) :
    asVector (normal cols) i = (-1) ^ (i : Nat) * outer cols one (Finset.univ.erase i) / areaElement cols := by
  rw [asVector, normal, lcont_unit, sgn]
  have h1 := inversions_compl i
  have h2 : ((-1 : ℝ) ^ inversions {i}ᶜ Finset.univ) * (-1) ^ ((m + 1) * (m + 1 - 1) / 2) = (-1) ^ (i : Nat) := by
    rw [← h1, pow_add, ← mul_assoc, neg_one_sq_pow, one_mul]
  rw [pseudoscalar_eq, Finset.compl_singleton, if_pos
    (by rw [Finset.card_erase_of_mem (Finset.mem_univ _), Finset.card_univ, Fintype.card_fin]; omega)]
  rw [Finset.compl_singleton] at h2
  rw [← h2]; ring

theorem normal_other {m : Nat} (cols : List (Vec (m + 1))) (hm : cols.length = m) (S : Finset (Fin (m + 1)))
    (hS : S.card ≠ 1) : normal cols S = 0 := by
  rw [normal, lcont_unit, pseudoscalar_eq, if_neg]
  · simp
  · rw [Finset.card_compl, Fintype.card_fin]
    have : S.card ≤ m + 1 := by simpa using Finset.card_le_univ S
    omega

theorem area_sq {m : Nat} (cols : List (Vec (m + 1))) (hm : cols.length = m) :
    areaElement cols ^ 2 = ∑ i, outer cols one (Finset.univ.erase i) ^ 2 := by
  rw [areaElement, Real.sq_sqrt (by rw [normSq_eq]; exact Finset.sum_nonneg fun _ _ => sq_nonneg _), normSq_eq]
  have h : ∀ i : Fin (m + 1), outer cols one (Finset.univ.erase i) = pseudoscalar cols (Finset.univ.erase i) := by
    intro i
    rw [pseudoscalar_eq, if_pos]
    rw [Finset.card_erase_of_mem (Finset.mem_univ _), Finset.card_univ, Fintype.card_fin]; omega
  simp only [h]
  have hinj : Function.Injective fun i : Fin (m + 1) => (Finset.univ : Finset (Fin (m + 1))).erase i := by
    intro a b hab
    by_contra hne
    have : a ∈ Finset.univ.erase b := Finset.mem_erase.2 ⟨hne, Finset.mem_univ _⟩
    simp only at hab
    rw [← hab] at this
    exact absurd this (by simp)
  rw [← Finset.sum_image (s := Finset.univ) (g := fun i => (Finset.univ : Finset (Fin (m + 1))).erase i)
    (f := fun S => pseudoscalar cols S ^ 2) (fun a _ b _ h => hinj h)]
  symm
  apply Finset.sum_subset (Finset.subset_univ _)
  intro S _ hS
  rw [pseudoscalar_eq, if_neg]
  · simp
  · intro hc
    apply hS
    have h1 : Sᶜ.card = 1 := by rw [Finset.card_compl, Fintype.card_fin]; omega
    obtain ⟨i, hi⟩ := Finset.card_eq_one.1 h1
    rw [Finset.mem_image]
    exact ⟨i, Finset.mem_univ _, by rw [← Finset.compl_singleton, ← hi, compl_compl]⟩

/-! # C97 -/

variable {m : Nat}

/-- the matrix with the rows `x`, `T 0`, `T 1`, … -/
def frame (x : Vec (m + 1)) (T : Fin m → Vec (m + 1)) : Matrix (Fin (m + 1)) (Fin (m + 1)) ℝ :=
  Matrix.of (Fin.cons x T : Fin (m + 1) → Vec (m + 1))

/-- first fundamental form (`primitives.py:970-990`) -/
def gram {k : Nat} (T : Fin k → Vec n) : Matrix (Fin k) (Fin k) ℝ := Matrix.of fun i j => dot (T i) (T j)

/-- C97: the normal in any dimension, times the area element, is the generalised cross product of the tangents:
its product with any vector is the determinant of that vector and the tangents -/
theorem C97_cross_product (T : Fin m → Vec (m + 1)) (x : Vec (m + 1)) :
    dot (asVector (normal (List.ofFn T))) x * areaElement (List.ofFn T) = (frame x T).det := by
  have hm : (List.ofFn T).length = m := by simp
  have h1 : (frame x T).det = (-1 : ℝ) ^ m * wedge (outer (List.ofFn T) one) x Finset.univ := by
    rw [frame, ← outer_det, List.ofFn_succ, Fin.cons_zero]
    simp only [Fin.cons_succ]
    have := outer_move (List.ofFn T) one x
    rw [hm] at this
    exact congrFun this Finset.univ
  have h2 : ∀ i : Fin (m + 1), (-1 : ℝ) ^ m * (-1) ^ (m - (i : Nat)) = (-1) ^ (i : Nat) := by
    intro i
    have h3 : (-1 : ℝ) ^ m = (-1) ^ (m - (i : Nat)) * (-1) ^ (i : Nat) := by
      rw [← pow_add]; congr 1; omega
    rw [h3, mul_right_comm, neg_one_sq_pow, one_mul]
  rw [h1, wedge, dot, Finset.mul_sum, Finset.sum_mul]
  by_cases ha : areaElement (List.ofFn T) = 0
  · have h0 := area_sq (List.ofFn T) hm
    rw [ha, zero_pow (by norm_num)] at h0
    have h3 := (Finset.sum_eq_zero_iff_of_nonneg fun _ _ => sq_nonneg _).1 h0.symm
    apply Finset.sum_congr rfl
    intro i hi
    have := pow_eq_zero_iff (two_ne_zero) |>.1 (h3 i hi)
    rw [this, ha]; ring
  · apply Finset.sum_congr rfl
    intro i _
    rw [normal_single _ hm, above_erase_univ, ← h2 i]
    field_simp

/-- C97: for linearly independent tangents the area element is positive and the normal is a vector (so that
`as_vector` succeeds), of unit length, orthogonal to every tangent, and the normal followed by the tangents is
positively oriented, spanning a volume equal to the area element -/
theorem C97_normal (T : Fin m → Vec (m + 1)) (hT : LinearIndependent ℝ T) :
    0 < areaElement (List.ofFn T) ∧ (∀ S, S.card ≠ 1 → normal (List.ofFn T) S = 0) ∧
    dot (asVector (normal (List.ofFn T))) (asVector (normal (List.ofFn T))) = 1 ∧
    (∀ i, dot (asVector (normal (List.ofFn T))) (T i) = 0) ∧
    (frame (asVector (normal (List.ofFn T))) T).det = areaElement (List.ofFn T) := by
  have hm : (List.ofFn T).length = m := by simp
  have hne : areaElement (List.ofFn T) ≠ 0 := by
    intro ha
    have hlt : Submodule.span ℝ (Set.range T) ≠ ⊤ := by
      intro h
      have h1 := finrank_span_eq_card hT
      rw [h, finrank_top, Module.finrank_fin_fun, Fintype.card_fin] at h1
      omega
    obtain ⟨x, hx⟩ : ∃ x, x ∉ Submodule.span ℝ (Set.range T) := by
      by_contra hc
      push Not at hc
      exact hlt (Submodule.eq_top_iff'.2 hc)
    have h1 : LinearIndependent ℝ (Fin.cons x T : Fin (m + 1) → Vec (m + 1)) := linearIndependent_finCons.2 ⟨hT, hx⟩
    have h2 : IsUnit (frame x T) := Matrix.linearIndependent_rows_iff_isUnit.1 h1
    rw [Matrix.isUnit_iff_isUnit_det, isUnit_iff_ne_zero, ← C97_cross_product, ha, mul_zero] at h2
    exact h2 rfl
  have hpos : 0 < areaElement (List.ofFn T) := lt_of_le_of_ne (Real.sqrt_nonneg _) (Ne.symm hne)
  have hunit : dot (asVector (normal (List.ofFn T))) (asVector (normal (List.ofFn T))) = 1 := by
    have h := area_sq (List.ofFn T) hm
    have h2 : dot (asVector (normal (List.ofFn T))) (asVector (normal (List.ofFn T)))
        = (∑ i, outer (List.ofFn T) one (Finset.univ.erase i) ^ 2) / areaElement (List.ofFn T) ^ 2 := by
      rw [dot, Finset.sum_div]
      apply Finset.sum_congr rfl
      intro i _
      rw [normal_single _ hm]
      have := neg_one_sq_pow (i : Nat)
      field_simp
      linear_combination (outer (List.ofFn T) one (Finset.univ.erase i)) ^ 2 * this
    rw [h2, ← h, div_self (pow_ne_zero 2 hne)]
  refine ⟨hpos, normal_other _ hm, hunit, ?_, ?_⟩
  · intro i
    have h := C97_cross_product T (T i)
    have h0 : (frame (T i) T).det = 0 := by
      apply Matrix.det_zero_of_row_eq (i := 0) (j := i.succ) (Fin.succ_ne_zero i).symm
      funext k; simp [frame]
    rw [h0] at h
    exact (mul_eq_zero.1 h).resolve_right hne
  · rw [← C97_cross_product, hunit, one_mul]

/-- C97: the area element of a hypersurface in any dimension is the square root of the determinant of the first
fundamental form, whether or not the tangents are independent -/
theorem C97_area_element (T : Fin m → Vec (m + 1)) : areaElement (List.ofFn T) = √(gram T).det := by
  have hnn : 0 ≤ areaElement (List.ofFn T) := Real.sqrt_nonneg _
  suffices h : areaElement (List.ofFn T) ^ 2 = (gram T).det by rw [← h, Real.sqrt_sq hnn]
  by_cases hT : LinearIndependent ℝ T
  · obtain ⟨-, -, h1, h2, h3⟩ := C97_normal T hT
    set nrm := asVector (normal (List.ofFn T)) with hn
    have h4 : (frame nrm T * (frame nrm T).transpose).det = areaElement (List.ofFn T) ^ 2 := by
      rw [Matrix.det_mul, Matrix.det_transpose, h3, sq]
    rw [← h4, Matrix.det_succ_row_zero, Fin.sum_univ_succ, Finset.sum_eq_zero]
    · have e0 : (frame nrm T * (frame nrm T).transpose) 0 0 = 1 := by
        rw [← h1]; simp [Matrix.mul_apply, frame, dot]
      rw [e0]
      simp only [Fin.val_zero, pow_zero, one_mul, add_zero]
      rfl
    · intro i _
      have : (frame nrm T * (frame nrm T).transpose) 0 i.succ = 0 := by
        rw [← h2 i]; simp [Matrix.mul_apply, frame, dot]
      rw [this]; ring
  · have h0 : areaElement (List.ofFn T) = 0 := by
      by_contra hne
      apply hT
      have hd : (frame (asVector (normal (List.ofFn T))) T).det ≠ 0 := by
        rw [← C97_cross_product]
        apply mul_ne_zero _ hne
        have h := area_sq (List.ofFn T) (by simp)
        intro hz
        have h3 := (Finset.sum_eq_zero_iff_of_nonneg fun i _ => mul_self_nonneg _).1 hz
        rw [Finset.sum_eq_zero] at h
        · exact hne (pow_eq_zero_iff (two_ne_zero) |>.1 h)
        · intro i hi
          have h4 := mul_self_eq_zero.1 (h3 i hi)
          rw [normal_single _ (by simp), div_eq_zero_iff] at h4
          have h5 := (mul_eq_zero.1 (h4.resolve_right hne)).resolve_left (pow_ne_zero _ (by norm_num))
          rw [h5]; norm_num
      have hu : IsUnit (frame (asVector (normal (List.ofFn T))) T) := by
        rw [Matrix.isUnit_iff_isUnit_det, isUnit_iff_ne_zero]; exact hd
      have := Matrix.linearIndependent_rows_iff_isUnit.2 hu
      exact (linearIndependent_finCons.1 this).1
    rw [h0]
    symm
    rw [zero_pow (by norm_num)]
    rw [Fintype.linearIndependent_iff] at hT
    push Not at hT
    obtain ⟨c, hc, i, hi⟩ := hT
    rw [← Matrix.exists_vecMul_eq_zero_iff]
    refine ⟨c, fun h => hi (by rw [h]; rfl), ?_⟩
    funext j
    have h1 : dot (∑ i, c i • T i) (T j) = 0 := by rw [hc]; simp [dot]
    rw [Pi.zero_apply, ← h1]
    simp only [Matrix.vecMul, dotProduct, gram, Matrix.of_apply, dot, Finset.sum_apply, Pi.smul_apply, smul_eq_mul,
      Finset.sum_mul, Finset.mul_sum]
    rw [Finset.sum_comm]
    apply Finset.sum_congr rfl
    intro a _
    apply Finset.sum_congr rfl
    intro b _
    ring

/-- C97: with as many tangents as dimensions the area element is the absolute value of their determinant -/
theorem C97_volume (T : Fin n → Vec n) : areaElement (List.ofFn T) = |(Matrix.of T).det| := by
  rw [areaElement, normSq_eq, Finset.sum_eq_single Finset.univ, pseudoscalar_eq, if_pos (by simp), outer_det,
    Real.sqrt_sq_eq_abs]
  · intro S _ hS
    rw [pseudoscalar_eq, if_neg]
    · norm_num
    · intro h
      apply hS
      rw [← Finset.card_eq_iff_eq_univ, h]
      simp
  · intro h; exact absurd (Finset.mem_univ _) h

/-- C97: a curve's area element in any dimension is the length of its tangent -/
theorem C97_curve (t : Vec n) : areaElement [t] = √(dot t t) := by
  have h : ∀ i : Fin n, pseudoscalar [t] {i} = t i := by
    intro i
    rw [pseudoscalar_eq, if_pos (by simp)]
    simp [outer, wedge, one, above]
  rw [areaElement, normSq_eq]
  congr 1
  rw [dot, ← Finset.sum_subset (Finset.subset_univ (Finset.univ.image fun i : Fin n => ({i} : Finset (Fin n))))]
  · rw [Finset.sum_image (fun a _ b _ h => by simpa using h)]
    apply Finset.sum_congr rfl
    intro i _
    rw [h]; ring
  · intro S _ hS
    rw [pseudoscalar_eq, if_neg]
    · norm_num
    · intro hc
      apply hS
      obtain ⟨i, hi⟩ := Finset.card_eq_one.1 hc
      rw [Finset.mem_image]
      exact ⟨i, Finset.mem_univ _, hi.symm⟩

/-- C97: in the plane and in space these are the normals and area elements of C55 -/
theorem C97_agrees (t : Vec 2) (u v : Vec 3) :
    asVector (normal [t]) = normal2 t ∧ areaElement [t] = Frames.areaElement t ∧
    asVector (normal [u, v]) = normal3 u v ∧ areaElement [u, v] = Frames.areaElement (wedge3 u v) := by
  have h2 : areaElement [t] = Frames.areaElement t := by
    rw [C97_curve, Frames.areaElement]
    congr 1
    exact Finset.sum_congr rfl fun i _ => by ring
  have e3 : ([u, v] : List (Vec 3)) = List.ofFn ![u, v] := by simp [List.ofFn_succ]
  have e2 : ([t] : List (Vec 2)) = List.ofFn ![t] := by simp [List.ofFn_succ]
  have h3 : areaElement [u, v] = Frames.areaElement (wedge3 u v) := by
    rw [e3, C97_area_element, Frames.areaElement]
    congr 1
    rw [Matrix.det_fin_two]
    simp only [gram, Matrix.of_apply, dot, wedge3, Fin.sum_univ_three, Matrix.cons_val_zero, Matrix.cons_val_one,
      Matrix.cons_val]
    have hs : ∀ f : Fin 3 → ℝ, ∑ i, f i = f 0 + f 1 + f 2 := fun f => Fin.sum_univ_three f
    rw [hs, hs, hs, hs]
    ring
  refine ⟨?_, h2, ?_, h3⟩
  · funext i
    by_cases ha : areaElement [t] = 0
    · rw [normal_single _ rfl, normal2, ← h2, ha, div_zero, div_zero]
    · have h := C97_cross_product ![t] (Pi.single i 1)
      rw [← e2] at h
      have hd : dot (asVector (normal [t])) (Pi.single i 1) = asVector (normal [t]) i := by
        simp [dot, Pi.single_apply]
      rw [hd] at h
      rw [normal2, ← h2, eq_div_iff ha, h, frame, Matrix.det_fin_two]
      fin_cases i <;> simp [dual2]
  · funext i
    by_cases ha : areaElement [u, v] = 0
    · rw [normal_single _ rfl, normal3, ← h3, ha, div_zero, div_zero]
    · have h := C97_cross_product ![u, v] (Pi.single i 1)
      rw [← e3] at h
      have hd : dot (asVector (normal [u, v])) (Pi.single i 1) = asVector (normal [u, v]) i := by
        simp [dot, Pi.single_apply]
      rw [hd] at h
      rw [normal3, ← h3, eq_div_iff ha, h, frame, Matrix.det_fin_three]
      fin_cases i <;> simp [wedge3, Fin.cons] <;> ring

theorem ofVec_add (v w : Vec n) : ofVec (v + w) = ofVec v + ofVec w := by
  funext S
  simp only [ofVec, Pi.add_apply, ← Finset.sum_add_distrib]
  apply Finset.sum_congr rfl
  intro i _; split <;> simp

theorem ofVec_smul (c : ℝ) (v : Vec n) : ofVec (c • v) = c • ofVec v := by
  funext S
  simp only [ofVec, Pi.smul_apply, smul_eq_mul, Finset.mul_sum]
  apply Finset.sum_congr rfl
  intro i _; split <;> simp

theorem asVector_ofVec (v : Vec n) : asVector (ofVec v) = v := by
  funext i
  simp [asVector, ofVec]

theorem surface_eq {k : Nat} (T : Fin k → Vec n) (a : Fin k → ℝ) :
    surfaceMv (List.ofFn T) (List.ofFn a) = ofVec (∑ i, a i • T i) := by
  induction k with
  | zero => funext S; simp [surfaceMv, ofVec]
  | succ k ih =>
    rw [List.ofFn_succ, List.ofFn_succ, surfaceMv, List.zipWith_cons_cons, List.sum_cons, Fin.sum_univ_succ,
      ofVec_add, ofVec_smul]
    have := ih (fun i => T i.succ) (fun i => a i.succ)
    rw [surfaceMv] at this
    rw [this]; rfl

/-- C97: `make_sym_surface_mv` is a vector (nothing but grade one), the combination of the tangents with the
coefficients: a tangential field, without normal component, and every tangential vector is one for exactly one
choice of coefficients -/
theorem C97_surface_vector (T : Fin m → Vec (m + 1)) (hT : LinearIndependent ℝ T) :
    (∀ a : Fin m → ℝ, asVector (surfaceMv (List.ofFn T) (List.ofFn a)) = ∑ i, a i • T i ∧
      (∀ S, S.card ≠ 1 → surfaceMv (List.ofFn T) (List.ofFn a) S = 0) ∧
      dot (asVector (normal (List.ofFn T))) (asVector (surfaceMv (List.ofFn T) (List.ofFn a))) = 0) ∧
    ∀ w : Vec (m + 1), dot (asVector (normal (List.ofFn T))) w = 0 →
      ∃! a : Fin m → ℝ, asVector (surfaceMv (List.ofFn T) (List.ofFn a)) = w := by
  obtain ⟨hpos, -, -, horth, -⟩ := C97_normal T hT
  refine ⟨fun a => ⟨?_, ?_, ?_⟩, ?_⟩
  · rw [surface_eq, asVector_ofVec]
  · intro S hS
    rw [surface_eq, ofVec]
    apply Finset.sum_eq_zero
    intro i _
    rw [if_neg]
    rintro rfl
    simp at hS
  · rw [surface_eq, asVector_ofVec]
    have : ∀ f : Fin m → Vec (m + 1), dot (asVector (normal (List.ofFn T))) (∑ i, f i)
        = ∑ i, dot (asVector (normal (List.ofFn T))) (f i) := by
      intro f
      simp only [dot, Finset.sum_apply, Finset.mul_sum]
      rw [Finset.sum_comm]
    rw [this]
    apply Finset.sum_eq_zero
    intro i _
    rw [dot_smul, horth, mul_zero]
  · intro w hw
    have h1 := C97_cross_product T w
    rw [hw, zero_mul] at h1
    have hmem : w ∈ Submodule.span ℝ (Set.range T) := by
      by_contra hn
      have h2 : LinearIndependent ℝ (Fin.cons w T : Fin (m + 1) → Vec (m + 1)) :=
        linearIndependent_finCons.2 ⟨hT, hn⟩
      have h3 : IsUnit (frame w T) := Matrix.linearIndependent_rows_iff_isUnit.1 h2
      rw [Matrix.isUnit_iff_isUnit_det, isUnit_iff_ne_zero, ← h1] at h3
      exact h3 rfl
    obtain ⟨a, ha⟩ := (Submodule.mem_span_range_iff_exists_fun ℝ).1 hmem
    refine ⟨a, ?_, ?_⟩
    · change asVector (surfaceMv (List.ofFn T) (List.ofFn a)) = w
      rw [surface_eq, asVector_ofVec, ha]
    · intro b hb
      change asVector (surfaceMv (List.ofFn T) (List.ofFn b)) = w at hb
      rw [surface_eq, asVector_ofVec, ← ha] at hb
      rw [Fintype.linearIndependent_iff] at hT
      have h4 := hT (fun i => b i - a i) (by
        simp only [sub_smul, Finset.sum_sub_distrib]; rw [hb]; simp)
      funext i
      have := h4 i
      linarith

/-- C97: `inv` is the inverse: the product of a multiple of a basis blade with its `inv` is one (in `normal` it is
applied to the unit pseudoscalar) -/
theorem C97_inverse (A : Finset (Fin n)) (c : ℝ) (hc : c ≠ 0) :
    mul (fun S => if S = A then c else 0) (inv fun S => if S = A then c else 0) = one := by
  have hn : normSq (fun S : Finset (Fin n) => if S = A then c else 0) = c ^ 2 := by
    rw [normSq_eq, Finset.sum_eq_single A]
    · rw [if_pos rfl]
    · intro B _ hB; rw [if_neg hB]; norm_num
    · intro h; exact absurd (Finset.mem_univ _) h
  funext S
  rw [mul, Finset.sum_eq_single A]
  · rw [if_pos rfl, inv, hn, rev]
    by_cases hS : S = ∅
    · subst hS
      have h1 : symmDiff A ∅ = A := by simp
      rw [h1, if_pos rfl, sgn, inversions_self, one, if_pos rfl]
      have := neg_one_sq_pow (A.card * (A.card - 1) / 2)
      field_simp
      linear_combination this
    · rw [one, if_neg hS, if_neg]
      · simp
      · intro h
        apply hS
        have h2 : symmDiff A (symmDiff A S) = S := by rw [← symmDiff_assoc, symmDiff_self]; simp
        rw [← h2, h, symmDiff_self]; rfl
  · intro B _ hB; rw [if_neg hB]; ring
  · intro h; exact absurd (Finset.mem_univ _) h

example : mul (fun S : Finset (Fin 2) => if S = {0, 1} then (2 : ℝ) else 0)
    (inv fun S => if S = {0, 1} then (2 : ℝ) else 0) = one := C97_inverse _ 2 (by norm_num)

/-- two tangents of a skewed surface in space -/
def exT : Fin 2 → Vec 3 := ![![1, 0, 0], ![1, 2, 0]]

theorem exT_indep : LinearIndependent ℝ exT := by
  rw [exT, LinearIndependent.pair_iff]
  intro s t h
  have h0 := congrFun h 0
  have h1 := congrFun h 1
  simp at h0 h1
  exact ⟨by linarith, h1⟩

/-- the hypotheses are met: the normal of the skewed surface points up, and the element has area 2 -/
example : areaElement (List.ofFn exT) = 2 ∧ asVector (normal (List.ofFn exT)) = ![0, 0, 1] := by
  have ha : areaElement (List.ofFn exT) = 2 := by
    rw [C97_area_element, Matrix.det_fin_two]
    have : (gram exT 0 0 * gram exT 1 1 - gram exT 0 1 * gram exT 1 0) = 2 ^ 2 := by
      simp [gram, exT, dot, Fin.sum_univ_three]; norm_num
    rw [this, Real.sqrt_sq (by norm_num)]
  refine ⟨ha, ?_⟩
  funext i
  have h := C97_cross_product exT (Pi.single i 1)
  have hd : dot (asVector (normal (List.ofFn exT))) (Pi.single i 1) = asVector (normal (List.ofFn exT)) i := by
    simp [dot, Pi.single_apply]
  rw [hd, ha, frame, Matrix.det_fin_three] at h
  fin_cases i <;> simp [exT, Fin.cons] at h ⊢ <;> linarith

end Verif.GA
