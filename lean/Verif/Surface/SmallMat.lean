import Mathlib.Tactic.IntervalCases
import Mathlib.Analysis.Real.Sqrt
import Mathlib.Tactic.Ring
import Mathlib.Tactic.Linarith
import Mathlib.Tactic.FieldSimp
import Mathlib.Tactic.LinearCombination
import Mathlib.Algebra.BigOperators.Ring.Finset
import Mathlib.Tactic.NormNum
import Mathlib.Algebra.BigOperators.Fin
import Mathlib.Algebra.Order.BigOperators.Ring.Finset

/-!
# Small matrix formulas, stretch factors and curvature (C43, C44, C56)

Models `_small_mat_inverse`, `_small_mat_eigenvalues`, `_small_sym_mat_eigenvalues`,
`shape_operator`, `_simplex_mapping_max_stretch_factor`, `_hypercube_mapping_max_stretch_factor` and
`_max_curvature` (`pytential/symbolic/primitives.py:1027-1298`) as the real numbers their expressions
evaluate to.  Floating point rounding and common subexpression wrappers are not modelled.
-/

namespace Verif.Surface

/-- errors of the matrix helpers -/
inductive Err where
  | valueError
  | notImplemented
deriving DecidableEq, Repr

/-- a matrix of expressions, given by the values of its entries -/
structure Mat where
  m : Nat
  n : Nat
  e : Nat → Nat → ℝ

/-- entries of a 2x2 array literal -/
def ent2 (a b c d : ℝ) (i j : Nat) : ℝ :=
  if i = 0 then (if j = 0 then a else b) else (if j = 0 then c else d)

/-- `_small_mat_inverse` (`primitives.py:1073-1093`) -/
noncomputable def smallMatInverse (mat : Mat) : Except Err Mat :=
  if mat.m ≠ mat.n then .error .valueError
  else if mat.m = 1 then .ok ⟨1, 1, fun _ _ => 1 / mat.e 0 0⟩
  else if mat.m = 2 then
    .ok ⟨2, 2, fun i j => 1 / (mat.e 0 0 * mat.e 1 1 - mat.e 0 1 * mat.e 1 0)
      * ent2 (mat.e 1 1) (-mat.e 0 1) (-mat.e 1 0) (mat.e 0 0) i j⟩
  else .error .notImplemented

/-- `_small_mat_eigenvalues` (`primitives.py:1096-1120`) -/
noncomputable def smallMatEigenvalues (mat : Mat) : Except Err (List ℝ) :=
  if mat.m ≠ mat.n then .error .valueError
  else if mat.m = 1 then .ok [mat.e 0 0]
  else if mat.m = 2 then
    let tr := mat.e 0 0 + mat.e 1 1
    let sd := √(4 * mat.e 0 1 * mat.e 1 0 + (mat.e 0 0 - mat.e 1 1) ^ 2)
    .ok [(tr - sd) / 2, (tr + sd) / 2]
  else .error .notImplemented

/-- `_small_sym_mat_eigenvalues` (`primitives.py:1123-1149`): the lower left entry is not looked at -/
noncomputable def smallSymMatEigenvalues (mat : Mat) : Except Err (List ℝ) :=
  if mat.m ≠ mat.n then .error .valueError
  else if mat.m = 1 then .ok [mat.e 0 0]
  else if mat.m = 2 then
    let tr := mat.e 0 0 + mat.e 1 1
    let sd := √(4 * mat.e 0 1 ^ 2 + (mat.e 0 0 - mat.e 1 1) ^ 2)
    .ok [(tr - sd) / 2, (tr + sd) / 2]
  else .error .notImplemented

/-! ## specification: matrix product, eigenpairs -/

/-- entry of the matrix product -/
def mulEntry (A B : Mat) (i j : Nat) : ℝ := ∑ k ∈ Finset.range A.n, A.e i k * B.e k j

/-- determinant of a 1x1 or 2x2 matrix -/
def det (A : Mat) : ℝ := if A.m = 1 then A.e 0 0 else A.e 0 0 * A.e 1 1 - A.e 0 1 * A.e 1 0

/-- `l` is an eigenvalue: some nonzero vector (supported on the matrix' indices) is mapped to `l` times
itself -/
def IsEigenvalue (A : Mat) (l : ℝ) : Prop :=
  ∃ v : Nat → ℝ, (∃ i < A.n, v i ≠ 0) ∧
    ∀ i < A.m, ∑ k ∈ Finset.range A.n, A.e i k * v k = l * v i

theorem sum_range_two (f : Nat → ℝ) : ∑ k ∈ Finset.range 2, f k = f 0 + f 1 := by
  rw [Finset.sum_range_succ, Finset.sum_range_one]

/-! # C43 -/

/-- C43: the inverse is a two-sided inverse for nonzero determinant; shapes other than 1x1 and 2x2 are
refused -/
theorem C43_inverse (A : Mat) :
    (A.m = A.n → A.m = 1 ∨ A.m = 2 → det A ≠ 0 → ∃ B, smallMatInverse A = .ok B ∧ B.m = A.m ∧ B.n = A.n ∧
      ∀ i < A.m, ∀ j < A.m, mulEntry A B i j = (if i = j then 1 else 0) ∧
        mulEntry B A i j = (if i = j then 1 else 0)) ∧
    (A.m ≠ A.n → smallMatInverse A = .error .valueError) ∧
    (A.m = A.n → A.m ≠ 1 → A.m ≠ 2 → smallMatInverse A = .error .notImplemented) := by
  obtain ⟨m, n, e⟩ := A
  refine ⟨?_, ?_, ?_⟩
  · rintro h (h1 | h1) hd
    · simp only at h h1
      subst h1; subst h
      refine ⟨⟨1, 1, fun _ _ => 1 / e 0 0⟩, by simp [smallMatInverse], rfl, rfl, ?_⟩
      intro i hi j hj
      have hi0 : i = 0 := by simp only at hi; omega
      have hj0 : j = 0 := by simp only at hj; omega
      subst hi0; subst hj0
      have hd' : e 0 0 ≠ 0 := by simpa [det] using hd
      simp [mulEntry, hd']
    · simp only at h h1
      subst h1; subst h
      have hd' : e 0 0 * e 1 1 - e 0 1 * e 1 0 ≠ 0 := by simpa [det] using hd
      have hinv : 1 / (e 0 0 * e 1 1 - e 0 1 * e 1 0) * (e 0 0 * e 1 1 - e 0 1 * e 1 0) = 1 :=
        one_div_mul_cancel hd'
      refine ⟨⟨2, 2, fun i j => 1 / (e 0 0 * e 1 1 - e 0 1 * e 1 0)
        * ent2 (e 1 1) (-e 0 1) (-e 1 0) (e 0 0) i j⟩,
        by rw [smallMatInverse, if_neg (by simp), if_neg (by simp), if_pos rfl], rfl, rfl, ?_⟩
      intro i hi j hj
      simp only [mulEntry, sum_range_two]
      have hi2 : i = 0 ∨ i = 1 := by simp only at hi; omega
      have hj2 : j = 0 ∨ j = 1 := by simp only at hj; omega
      rcases hi2 with rfl | rfl <;> rcases hj2 with rfl | rfl <;>
        simp only [ent2, if_true, one_ne_zero, zero_ne_one, if_false] <;> constructor <;>
        first | linear_combination hinv | ring
  · intro h
    rw [smallMatInverse, if_pos h]
  · intro h h1 h2
    rw [smallMatInverse, if_neg (not_not.2 h), if_neg h1, if_neg h2]

/-- the characteristic polynomial -/
theorem eigenvalue_iff_two (e : Nat → Nat → ℝ) (l : ℝ) :
    IsEigenvalue ⟨2, 2, e⟩ l ↔ l ^ 2 - (e 0 0 + e 1 1) * l + (e 0 0 * e 1 1 - e 0 1 * e 1 0) = 0 := by
  constructor
  · rintro ⟨v, ⟨i, hi, hv⟩, h⟩
    have h0 := h 0 (by simp)
    have h1 := h 1 (by simp)
    simp only [sum_range_two] at h0 h1
    have hp : (l ^ 2 - (e 0 0 + e 1 1) * l + (e 0 0 * e 1 1 - e 0 1 * e 1 0)) * v i = 0 := by
      have hi2 : i = 0 ∨ i = 1 := by simp only at hi; omega
      rcases hi2 with rfl | rfl
      · linear_combination (e 1 1 - l) * h0 - e 0 1 * h1
      · linear_combination (e 0 0 - l) * h1 - e 1 0 * h0
    rcases mul_eq_zero.1 hp with h | h
    · exact h
    · exact absurd h hv
  · intro hp
    by_cases hb : e 0 1 = 0 ∧ l = e 0 0
    · by_cases hc : e 1 0 = 0 ∧ l = e 1 1
      · refine ⟨fun i => if i = 0 then 1 else 0, ⟨0, by simp, by simp⟩, ?_⟩
        intro i hi
        have hi2 : i = 0 ∨ i = 1 := by simp only at hi; omega
        simp only [sum_range_two]
        rcases hi2 with rfl | rfl
        · simp [hb.2]
        · simp [hc.1]
      · refine ⟨fun i => if i = 0 then l - e 1 1 else e 1 0, ?_, ?_⟩
        · by_cases h10 : e 1 0 = 0
          · refine ⟨0, by simp, ?_⟩
            change l - e 1 1 ≠ 0
            intro h
            exact hc ⟨h10, by linarith⟩
          · exact ⟨1, by simp, by simpa using h10⟩
        · intro i hi
          have hi2 : i = 0 ∨ i = 1 := by simp only at hi; omega
          simp only [sum_range_two]
          rcases hi2 with rfl | rfl
          · simp
            linear_combination -hp
          · simp
            ring
    · refine ⟨fun i => if i = 0 then e 0 1 else l - e 0 0, ?_, ?_⟩
      · by_cases h01 : e 0 1 = 0
        · refine ⟨1, by simp, ?_⟩
          simp only [one_ne_zero, if_false]
          intro h
          exact hb ⟨h01, by linarith⟩
        · exact ⟨0, by simp, by simpa using h01⟩
      · intro i hi
        have hi2 : i = 0 ∨ i = 1 := by simp only at hi; omega
        simp only [sum_range_two]
        rcases hi2 with rfl | rfl
        · simp
          ring
        · simp
          linear_combination -hp

theorem eigenvalue_iff_one (e : Nat → Nat → ℝ) (l : ℝ) : IsEigenvalue ⟨1, 1, e⟩ l ↔ l = e 0 0 := by
  constructor
  · rintro ⟨v, ⟨i, hi, hv⟩, h⟩
    have hi0 : i = 0 := by simp only at hi; omega
    subst hi0
    have h0 := h 0 (by simp)
    simp only [Finset.sum_range_one] at h0
    exact (mul_right_cancel₀ hv h0).symm
  · rintro rfl
    refine ⟨fun _ => 1, ⟨0, by simp, by simp⟩, ?_⟩
    intro i hi
    have hi0 : i = 0 := by simp only at hi; omega
    subst hi0
    simp

/-- the two roots -/
theorem roots (t D l : ℝ) (hD : 0 ≤ D) (p : ℝ) (hp : t ^ 2 - 4 * p = D) :
    l ^ 2 - t * l + p = 0 ↔ l = (t - √D) / 2 ∨ l = (t + √D) / 2 := by
  have hs : √D ^ 2 = D := Real.sq_sqrt hD
  have hfac : l ^ 2 - t * l + p = (l - (t - √D) / 2) * (l - (t + √D) / 2) := by
    have : p = (t ^ 2 - √D ^ 2) / 4 := by rw [hs]; linarith
    rw [this]; ring
  rw [hfac, mul_eq_zero, sub_eq_zero, sub_eq_zero]

/-- C43: the eigenvalue formula for general matrices with real spectrum (nonnegative discriminant)
returns, in increasing order, exactly the eigenvalues -/
theorem C43_eigenvalues (A : Mat) (hsq : A.m = A.n) (hm : A.m = 1 ∨ A.m = 2)
    (hd : A.m = 2 → 0 ≤ 4 * A.e 0 1 * A.e 1 0 + (A.e 0 0 - A.e 1 1) ^ 2) :
    ∃ ls, smallMatEigenvalues A = .ok ls ∧ ls.length = A.m ∧ ls.Pairwise (· ≤ ·) ∧
      ∀ l, IsEigenvalue A l ↔ l ∈ ls := by
  obtain ⟨m, n, e⟩ := A
  simp only at hsq hm hd
  rcases hm with rfl | rfl
  · subst hsq
    refine ⟨[e 0 0], by simp [smallMatEigenvalues], rfl, by simp, ?_⟩
    intro l
    rw [eigenvalue_iff_one]; simp
  · subst hsq
    refine ⟨_, by rw [smallMatEigenvalues, if_neg (by simp), if_neg (by simp), if_pos rfl], rfl, ?_, ?_⟩
    · simp only [List.pairwise_cons, List.mem_singleton, forall_eq, List.not_mem_nil, false_implies,
        implies_true, List.Pairwise.nil, and_true]
      have := Real.sqrt_nonneg (4 * e 0 1 * e 1 0 + (e 0 0 - e 1 1) ^ 2)
      linarith
    · intro l
      rw [eigenvalue_iff_two, roots _ _ l (hd rfl) _ (by ring)]
      simp

/-- C43: the hypothesis of `C43_eigenvalues` is no restriction on real eigenvalues: a 2x2 matrix has a real
eigenvalue exactly if the number under the square root is not negative (otherwise the code takes the square
root of a negative number) -/
theorem C43_real (e : Nat → Nat → ℝ) :
    (∃ l, IsEigenvalue ⟨2, 2, e⟩ l) ↔ 0 ≤ 4 * e 0 1 * e 1 0 + (e 0 0 - e 1 1) ^ 2 := by
  constructor
  · rintro ⟨l, hl⟩
    rw [eigenvalue_iff_two] at hl
    nlinarith [sq_nonneg (2 * l - (e 0 0 + e 1 1))]
  · intro hd
    obtain ⟨ls, -, hlen, -, hl⟩ := C43_eigenvalues ⟨2, 2, e⟩ rfl (Or.inr rfl) (fun _ => hd)
    cases ls with
    | nil => simp at hlen
    | cons l _ => exact ⟨l, (hl l).2 (List.mem_cons_self ..)⟩

/-- C43: the eigenvalue formula for symmetric matrices returns, in increasing order, exactly the
eigenvalues, which are always real -/
theorem C43_sym_eigenvalues (A : Mat) (hsq : A.m = A.n) (hm : A.m = 1 ∨ A.m = 2)
    (hsym : A.m = 2 → A.e 1 0 = A.e 0 1) :
    ∃ ls, smallSymMatEigenvalues A = .ok ls ∧ ls.length = A.m ∧ ls.Pairwise (· ≤ ·) ∧
      ∀ l, IsEigenvalue A l ↔ l ∈ ls := by
  obtain ⟨m, n, e⟩ := A
  simp only at hsq hm hsym
  rcases hm with rfl | rfl
  · subst hsq
    refine ⟨[e 0 0], by simp [smallSymMatEigenvalues], rfl, by simp, ?_⟩
    intro l
    rw [eigenvalue_iff_one]; simp
  · subst hsq
    refine ⟨_, by rw [smallSymMatEigenvalues, if_neg (by simp), if_neg (by simp), if_pos rfl], rfl, ?_, ?_⟩
    · simp only [List.pairwise_cons, List.mem_singleton, forall_eq, List.not_mem_nil, false_implies,
        implies_true, List.Pairwise.nil, and_true]
      have := Real.sqrt_nonneg (4 * e 0 1 ^ 2 + (e 0 0 - e 1 1) ^ 2)
      linarith
    · intro l
      rw [eigenvalue_iff_two, roots _ (4 * e 0 1 ^ 2 + (e 0 0 - e 1 1) ^ 2) l (by positivity) _
        (by rw [hsym rfl]; ring)]
      simp

/-- C43: shapes -/
theorem C43_eigenvalue_shapes (A : Mat) :
    (A.m ≠ A.n → smallMatEigenvalues A = .error .valueError ∧
      smallSymMatEigenvalues A = .error .valueError) ∧
    (A.m = A.n → A.m ≠ 1 → A.m ≠ 2 → smallMatEigenvalues A = .error .notImplemented ∧
      smallSymMatEigenvalues A = .error .notImplemented) := by
  constructor
  · intro h
    rw [smallMatEigenvalues, smallSymMatEigenvalues, if_pos h, if_pos h]; exact ⟨rfl, rfl⟩
  · intro h h1 h2
    rw [smallMatEigenvalues, smallSymMatEigenvalues, if_neg (by simp [h]), if_neg h1, if_neg h2,
      if_neg (by simp [h]), if_neg h1, if_neg h2]
    exact ⟨rfl, rfl⟩

/-- hypotheses of C43 on a concrete matrix -/
example : det ⟨2, 2, ent2 2 1 3 4⟩ ≠ 0 ∧
    (0 : ℝ) ≤ 4 * ent2 2 1 3 4 0 1 * ent2 2 1 3 4 1 0 + (ent2 2 1 3 4 0 0 - ent2 2 1 3 4 1 1) ^ 2 := by
  constructor <;> simp [det, ent2] <;> norm_num

/-! # C44: shape operator and maximum curvature -/

/-- `shape_operator` from first (`E F G`) and second (`e f g`) fundamental forms
(`primitives.py:1038-1050`) -/
noncomputable def shapeOperator (E F G e f g : ℝ) : Mat :=
  ⟨2, 2, fun i j => 1 / (E * G - F * F) * ent2 (e * G - f * F) (f * G - g * F) (f * E - e * F) (g * E - f * F) i j⟩

/-- `Max` of a list of values -/
noncomputable def maxList : List ℝ → ℝ
  | [] => 0
  | [x] => x
  | x :: y :: r => max x (maxList (y :: r))

/-- `_max_curvature` in 3D (`primitives.py:1273-1278`): uses the symmetric eigenvalue formula -/
noncomputable def maxCurvature (E F G e f g : ℝ) : Except Err ℝ := do
  let ls ← smallSymMatEigenvalues (shapeOperator E F G e f g)
  pure (maxList (ls.map fun x => |x|))

/-- the same with the general formula `_small_mat_eigenvalues` -/
noncomputable def maxCurvatureGeneral (E F G e f g : ℝ) : Except Err ℝ := do
  let ls ← smallMatEigenvalues (shapeOperator E F G e f g)
  pure (maxList (ls.map fun x => |x|))

/-- largest absolute principal curvature -/
def IsMaxCurvature (S : Mat) (k : ℝ) : Prop :=
  (∃ l, IsEigenvalue S l ∧ |l| = k) ∧ ∀ l, IsEigenvalue S l → |l| ≤ k

/-- C44: the shape operator is the second fundamental form premultiplied by the inverse of the first
(computed by `_small_mat_inverse`), and its eigenvalues are the principal curvatures: the `k` for which
`II v = k I v` has a nonzero solution -/
theorem C44_shape_operator (E F G e f g : ℝ) (hreg : 0 < E * G - F * F) :
    (∃ B, smallMatInverse ⟨2, 2, ent2 E F F G⟩ = .ok B ∧
      ∀ i < 2, ∀ j < 2, (shapeOperator E F G e f g).e i j = mulEntry B ⟨2, 2, ent2 e f f g⟩ i j) ∧
    ∀ k, IsEigenvalue (shapeOperator E F G e f g) k ↔
      ∃ x y : ℝ, (x ≠ 0 ∨ y ≠ 0) ∧ e * x + f * y = k * (E * x + F * y) ∧ f * x + g * y = k * (F * x + G * y) := by
  have hne : E * G - F * F ≠ 0 := ne_of_gt hreg
  have hne2 : E * G - F ^ 2 ≠ 0 := by rwa [sq]
  constructor
  · refine ⟨_, by rw [smallMatInverse, if_neg (by simp), if_neg (by simp), if_pos rfl], ?_⟩
    intro i hi j hj
    simp only [mulEntry, sum_range_two, shapeOperator]
    have hi2 : i = 0 ∨ i = 1 := by omega
    have hj2 : j = 0 ∨ j = 1 := by omega
    rcases hi2 with rfl | rfl <;> rcases hj2 with rfl | rfl <;> simp [ent2] <;> ring
  · intro k
    constructor
    · rintro ⟨v, ⟨i, hi, hv⟩, h⟩
      have h0 := h 0 (by simp [shapeOperator])
      have h1 := h 1 (by simp [shapeOperator])
      simp only [shapeOperator, sum_range_two, ent2, if_true, one_ne_zero, if_false] at h0 h1
      refine ⟨v 0, v 1, ?_, ?_, ?_⟩
      · have hi2 : i = 0 ∨ i = 1 := by simp only [shapeOperator] at hi; omega
        rcases hi2 with rfl | rfl
        · exact Or.inl hv
        · exact Or.inr hv
      · field_simp at h0 h1
        have : (E * G - F * F) * (e * v 0 + f * v 1 - k * (E * v 0 + F * v 1)) = 0 := by
          linear_combination E * h0 + F * h1
        rcases mul_eq_zero.1 this with h | h
        · exact absurd h hne
        · linarith
      · field_simp at h0 h1
        have : (E * G - F * F) * (f * v 0 + g * v 1 - k * (F * v 0 + G * v 1)) = 0 := by
          linear_combination F * h0 + G * h1
        rcases mul_eq_zero.1 this with h | h
        · exact absurd h hne
        · linarith
    · rintro ⟨x, y, hxy, h1, h2⟩
      refine ⟨fun i => if i = 0 then x else y, ?_, ?_⟩
      · rcases hxy with h | h
        · exact ⟨0, by simp [shapeOperator], by simpa using h⟩
        · exact ⟨1, by simp [shapeOperator], by simpa using h⟩
      · intro i hi
        have hi2 : i = 0 ∨ i = 1 := by simp only [shapeOperator] at hi; omega
        simp only [shapeOperator, sum_range_two, ent2]
        rcases hi2 with rfl | rfl
        · simp only [if_true, one_ne_zero, if_false]
          field_simp
          linear_combination G * h1 - F * h2
        · simp only [if_true, one_ne_zero, if_false]
          field_simp
          linear_combination E * h2 - F * h1

/-- the discriminant of the shape operator is nonnegative -/
theorem shape_discriminant (E F G e f g : ℝ) (hE : 0 < E) (hreg : 0 < E * G - F * F) :
    0 ≤ 4 * (shapeOperator E F G e f g).e 0 1 * (shapeOperator E F G e f g).e 1 0
      + ((shapeOperator E F G e f g).e 0 0 - (shapeOperator E F G e f g).e 1 1) ^ 2 := by
  simp only [shapeOperator, ent2, if_true, one_ne_zero, if_false]
  have key : 4 * (f * G - g * F) * (f * E - e * F) + ((e * G - f * F) - (g * E - f * F)) ^ 2
      = ((e * G - g * E) - 2 * F / E * (e * F - f * E)) ^ 2
        + 4 * (E * G - F * F) / E ^ 2 * (e * F - f * E) ^ 2 := by
    field_simp
    ring
  have h2 : 4 * (1 / (E * G - F * F) * (f * G - g * F)) * (1 / (E * G - F * F) * (f * E - e * F))
      + (1 / (E * G - F * F) * (e * G - f * F) - 1 / (E * G - F * F) * (g * E - f * F)) ^ 2
      = (1 / (E * G - F * F)) ^ 2
        * (4 * (f * G - g * F) * (f * E - e * F) + ((e * G - f * F) - (g * E - f * F)) ^ 2) := by ring
  rw [h2, key]
  positivity

theorem maxList_two (a b : ℝ) : maxList [a, b] = max a b := rfl

/-- C44 as it would hold for the general eigenvalue formula: it yields the largest absolute eigenvalue
of the shape operator for every regular parametrization -/
theorem C44_general_formula (E F G e f g : ℝ) (hE : 0 < E) (hreg : 0 < E * G - F * F) :
    ∃ k, maxCurvatureGeneral E F G e f g = .ok k ∧ IsMaxCurvature (shapeOperator E F G e f g) k := by
  obtain ⟨ls, h1, h2, h3, h4⟩ := C43_eigenvalues (shapeOperator E F G e f g) rfl (Or.inr rfl)
    (fun _ => shape_discriminant E F G e f g hE hreg)
  obtain ⟨a, b, rfl⟩ := List.length_eq_two.1 h2
  refine ⟨max |a| |b|, ?_, ?_, ?_⟩
  · rw [maxCurvatureGeneral, h1]; rfl
  · rcases max_choice |a| |b| with h | h
    · exact ⟨a, (h4 a).2 (by simp), h.symm⟩
    · exact ⟨b, (h4 b).2 (by simp), h.symm⟩
  · intro l hl
    have := (h4 l).1 hl
    simp only [List.mem_cons, List.not_mem_nil, or_false] at this
    rcases this with rfl | rfl
    · exact le_max_left _ _
    · exact le_max_right _ _

/-- C44, the part that holds for the formula in the code: when the shape operator's matrix happens to be
symmetric (for instance for conformal parametrizations, `E = G`, `F = 0`).  Missing: every other
parametrization, see `C44_refuted` -/
theorem C44_max_curvature_partial (E F G e f g : ℝ) (_hreg : 0 < E * G - F * F)
    (hsym : f * G - g * F = f * E - e * F) :
    ∃ k, maxCurvature E F G e f g = .ok k ∧ IsMaxCurvature (shapeOperator E F G e f g) k := by
  have hs : (shapeOperator E F G e f g).e 1 0 = (shapeOperator E F G e f g).e 0 1 := by
    simp only [shapeOperator, ent2, if_true, one_ne_zero, if_false, hsym]
  obtain ⟨ls, h1, h2, h3, h4⟩ := C43_sym_eigenvalues (shapeOperator E F G e f g) rfl (Or.inr rfl)
    (fun _ => hs)
  obtain ⟨a, b, rfl⟩ := List.length_eq_two.1 h2
  refine ⟨max |a| |b|, ?_, ?_, ?_⟩
  · rw [maxCurvature, h1]; rfl
  · rcases max_choice |a| |b| with h | h
    · exact ⟨a, (h4 a).2 (by simp), h.symm⟩
    · exact ⟨b, (h4 b).2 (by simp), h.symm⟩
  · intro l hl
    have := (h4 l).1 hl
    simp only [List.mem_cons, List.not_mem_nil, or_false] at this
    rcases this with rfl | rfl
    · exact le_max_left _ _
    · exact le_max_right _ _

/-- conformal parametrizations are covered -/
example (E e f g : ℝ) (hE : 0 < E) :
    ∃ k, maxCurvature E 0 E e f g = .ok k ∧ IsMaxCurvature (shapeOperator E 0 E e f g) k :=
  C44_max_curvature_partial E 0 E e f g (by nlinarith) (by ring)

/-- C44 is false: for the regular parametrization with `I = diag(1, 4)` and second fundamental form
`[[0, 2], [2, 0]]` (the saddle `z = 2uv`-like forms with one direction stretched), the shape operator has
eigenvalues ±1 but the code's formula returns 2 -/
theorem C44_refuted :
    ∃ E F G e f g k : ℝ, 0 < E ∧ 0 < E * G - F * F ∧ maxCurvature E F G e f g = .ok k ∧
      ¬ IsMaxCurvature (shapeOperator E F G e f g) k := by
  refine ⟨1, 0, 4, 0, 2, 0, 2, by norm_num, by norm_num, ?_, ?_⟩
  · rw [maxCurvature, smallSymMatEigenvalues, if_neg (by simp [shapeOperator]),
      if_neg (by simp [shapeOperator]), if_pos (by simp [shapeOperator])]
    have hsq : √(4 * (shapeOperator 1 0 4 0 2 0).e 0 1 ^ 2
        + ((shapeOperator 1 0 4 0 2 0).e 0 0 - (shapeOperator 1 0 4 0 2 0).e 1 1) ^ 2) = 4 := by
      rw [Real.sqrt_eq_iff_mul_self_eq (by positivity) (by norm_num)]
      simp [shapeOperator, ent2]
      norm_num
    change Except.ok (max |(_ - √_) / 2| |(_ + √_) / 2|) = _
    rw [hsq]
    simp [shapeOperator, ent2]
    norm_num
  · rintro ⟨⟨l, hl, hlk⟩, -⟩
    have h := (eigenvalue_iff_two _ l).1 hl
    simp [ent2] at h
    have h4 : l ^ 2 = 4 := by rw [← sq_abs, hlk]; norm_num
    rw [h4] at h
    norm_num at h

theorem max_abs_pair (t s : ℝ) (hs : 0 ≤ s) : max |(t - s) / 2| |(t + s) / 2| = (|t| + s) / 2 := by
  rcases le_total 0 t with ht | ht
  · rw [abs_of_nonneg ht, abs_of_nonneg (by linarith : 0 ≤ (t + s) / 2)]
    apply max_eq_right
    rw [abs_le]
    constructor <;> linarith
  · rw [abs_of_nonpos ht, abs_of_nonpos (by linarith : (t - s) / 2 ≤ 0)]
    rw [max_eq_left]
    · linarith
    · rw [abs_le]
      constructor <;> linarith

theorem maxCurvature_value (E F G e f g : ℝ) : maxCurvature E F G e f g =
    .ok ((|(shapeOperator E F G e f g).e 0 0 + (shapeOperator E F G e f g).e 1 1| +
      √(4 * (shapeOperator E F G e f g).e 0 1 ^ 2 +
        ((shapeOperator E F G e f g).e 0 0 - (shapeOperator E F G e f g).e 1 1) ^ 2)) / 2) := by
  rw [maxCurvature, smallSymMatEigenvalues, if_neg (by simp [shapeOperator]),
      if_neg (by simp [shapeOperator]), if_pos (by simp [shapeOperator])]
  change Except.ok (max |(_ - √_) / 2| |(_ + √_) / 2|) = _
  rw [max_abs_pair _ _ (Real.sqrt_nonneg _)]

theorem maxCurvatureGeneral_value (E F G e f g : ℝ) : maxCurvatureGeneral E F G e f g =
    .ok ((|(shapeOperator E F G e f g).e 0 0 + (shapeOperator E F G e f g).e 1 1| +
      √(4 * (shapeOperator E F G e f g).e 0 1 * (shapeOperator E F G e f g).e 1 0 +
        ((shapeOperator E F G e f g).e 0 0 - (shapeOperator E F G e f g).e 1 1) ^ 2)) / 2) := by
  rw [maxCurvatureGeneral, smallMatEigenvalues, if_neg (by simp [shapeOperator]),
      if_neg (by simp [shapeOperator]), if_pos (by simp [shapeOperator])]
  change Except.ok (max |(_ - √_) / 2| |(_ + √_) / 2|) = _
  rw [max_abs_pair _ _ (Real.sqrt_nonneg _)]

theorem isMaxCurvature_unique {S : Mat} {k k' : ℝ} (h : IsMaxCurvature S k) (h' : IsMaxCurvature S k') : k = k' := by
  obtain ⟨⟨l, hl, rfl⟩, hm⟩ := h
  obtain ⟨⟨l', hl', rfl⟩, hm'⟩ := h'
  exact le_antisymm (hm' l hl) (hm l' hl')

/-- C44, exactly when it holds: for a regular parametrization the code always returns a number; it is the largest
absolute principal curvature if and only if the off-diagonal entry `(0, 1)` of the matrix of the shape operator
vanishes or equals the entry `(1, 0)`, and it is at least as large (so that refinement errs on the safe side) if and
only if the square of the entry `(0, 1)` is at least the product of the two. -/
theorem C44_exact (E F G e f g : ℝ) (hE : 0 < E) (hreg : 0 < E * G - F * F) :
    ∃ k K, maxCurvature E F G e f g = .ok k ∧ IsMaxCurvature (shapeOperator E F G e f g) K ∧
      (k = K ↔ f * G = g * F ∨ f * G - g * F = f * E - e * F) ∧
      (K ≤ k ↔ (f * G - g * F) * (f * E - e * F) ≤ (f * G - g * F) ^ 2) := by
  obtain ⟨K, hK, hmax⟩ := C44_general_formula E F G e f g hE hreg
  have hd := shape_discriminant E F G e f g hE hreg
  refine ⟨_, K, maxCurvature_value E F G e f g, hmax, ?_⟩
  rw [maxCurvatureGeneral_value] at hK
  have hK' := Except.ok.inj hK
  subst hK'
  have hb : (shapeOperator E F G e f g).e 0 1 = 1 / (E * G - F * F) * (f * G - g * F) := by
    simp [shapeOperator, ent2]
  have hc : (shapeOperator E F G e f g).e 1 0 = 1 / (E * G - F * F) * (f * E - e * F) := by
    simp [shapeOperator, ent2]
  obtain ⟨b, hb'⟩ : ∃ b, b = (shapeOperator E F G e f g).e 0 1 := ⟨_, rfl⟩
  obtain ⟨c, hc'⟩ : ∃ c, c = (shapeOperator E F G e f g).e 1 0 := ⟨_, rfl⟩
  obtain ⟨u, hu⟩ : ∃ u, u = (shapeOperator E F G e f g).e 0 0 - (shapeOperator E F G e f g).e 1 1 := ⟨_, rfl⟩
  rw [← hb', ← hc', ← hu] at hd ⊢
  rw [← hb'] at hb
  rw [← hc'] at hc
  have hD : 0 < 1 / (E * G - F * F) := by positivity
  constructor
  · have h1 : ((|(shapeOperator E F G e f g).e 0 0 + (shapeOperator E F G e f g).e 1 1| + √(4 * b ^ 2 + u ^ 2)) / 2 =
        (|(shapeOperator E F G e f g).e 0 0 + (shapeOperator E F G e f g).e 1 1| + √(4 * b * c + u ^ 2)) / 2) ↔
        √(4 * b ^ 2 + u ^ 2) = √(4 * b * c + u ^ 2) := by
      constructor <;> intro h <;> linarith
    rw [h1, Real.sqrt_inj (by positivity) hd]
    have h2 : 4 * b ^ 2 + u ^ 2 = 4 * b * c + u ^ 2 ↔ b = 0 ∨ b = c := by
      constructor
      · intro h
        have : b * (b - c) = 0 := by nlinarith
        rcases mul_eq_zero.1 this with h | h
        · exact .inl h
        · exact .inr (by linarith)
      · rintro (h | h)
        · rw [h]; ring
        · rw [h]; ring
    rw [h2, hb, hc, mul_eq_zero, mul_right_inj' (ne_of_gt hD)]
    constructor
    · rintro ((h | h) | h)
      · exact absurd h (ne_of_gt hD)
      · exact .inl (by linarith)
      · exact .inr h
    · rintro (h | h)
      · exact .inl (.inr (by linarith))
      · exact .inr h
  · have h1 : ((|(shapeOperator E F G e f g).e 0 0 + (shapeOperator E F G e f g).e 1 1| + √(4 * b * c + u ^ 2)) / 2 ≤
        (|(shapeOperator E F G e f g).e 0 0 + (shapeOperator E F G e f g).e 1 1| + √(4 * b ^ 2 + u ^ 2)) / 2) ↔
        √(4 * b * c + u ^ 2) ≤ √(4 * b ^ 2 + u ^ 2) := by
      constructor <;> intro h <;> linarith
    rw [h1, Real.sqrt_le_sqrt_iff (by positivity)]
    have h2 : 4 * b * c + u ^ 2 ≤ 4 * b ^ 2 + u ^ 2 ↔ b * c ≤ b ^ 2 := by
      constructor <;> intro h <;> nlinarith
    rw [h2, hb, hc]
    have h3 : 1 / (E * G - F * F) * (f * G - g * F) * (1 / (E * G - F * F) * (f * E - e * F))
        = (1 / (E * G - F * F)) ^ 2 * ((f * G - g * F) * (f * E - e * F)) := by ring
    rw [h3, mul_pow, mul_le_mul_iff_right₀ (by positivity)]

/-- C44 errs on the unsafe side, too: stretching the other direction (`I = diag(4, 1)`) the code returns half of the
largest curvature, so that elements that are too curved for the criterion are not refined. -/
theorem C44_underestimate_refuted :
    ∃ E F G e f g k : ℝ, 0 < E ∧ 0 < E * G - F * F ∧ maxCurvature E F G e f g = .ok k ∧
      IsMaxCurvature (shapeOperator E F G e f g) (2 * k) ∧ 0 < k := by
  obtain ⟨K, hK, hmax⟩ := C44_general_formula 4 0 1 0 2 0 (by norm_num) (by norm_num)
  have h1 : (√(4 * (2 / 4 : ℝ) ^ 2) : ℝ) = 1 := by
    rw [Real.sqrt_eq_iff_mul_self_eq (by positivity) (by norm_num)]; norm_num
  have h2 : (√(4 * (2 / 4 : ℝ) * 2) : ℝ) = 2 := by
    rw [Real.sqrt_eq_iff_mul_self_eq (by positivity) (by norm_num)]; norm_num
  refine ⟨4, 0, 1, 0, 2, 0, 1 / 2, by norm_num, by norm_num, ?_, ?_, by norm_num⟩
  · rw [maxCurvature_value]
    have e1 : (shapeOperator 4 0 1 0 2 0).e 0 1 = 2 / 4 := by simp [shapeOperator, ent2]; norm_num
    have e2 : (shapeOperator 4 0 1 0 2 0).e 0 0 = 0 := by simp [shapeOperator, ent2]
    have e3 : (shapeOperator 4 0 1 0 2 0).e 1 1 = 0 := by simp [shapeOperator, ent2]
    rw [e1, e2, e3]
    norm_num at h1 ⊢
    try rw [h1]
  · rw [maxCurvatureGeneral_value] at hK
    have e1 : (shapeOperator 4 0 1 0 2 0).e 0 1 = 2 / 4 := by simp [shapeOperator, ent2]; norm_num
    have e2 : (shapeOperator 4 0 1 0 2 0).e 0 0 = 0 := by simp [shapeOperator, ent2]
    have e3 : (shapeOperator 4 0 1 0 2 0).e 1 1 = 0 := by simp [shapeOperator, ent2]
    have e4 : (shapeOperator 4 0 1 0 2 0).e 1 0 = 2 := by simp [shapeOperator, ent2]; norm_num
    rw [e1, e2, e3, e4] at hK
    have hK' := Except.ok.inj hK
    have : K = 1 := by
      rw [← hK']
      simp only [add_zero, sub_zero, abs_zero, zero_add, ne_eq, OfNat.ofNat_ne_zero, not_false_eq_true, zero_pow]
      rw [h2]; norm_num
    rw [this] at hmax
    norm_num
    exact hmax

/-! # C56: stretch factors -/

/-- derivative matrix of a map from `dim` reference directions into `ambient` dimensions; `J r c` -/
abbrev Jac := Nat → Nat → ℝ

/-- `J.T @ J`, scaled by 4 (`primitives.py:1199-1208`, `1224-1229`) -/
def fourJtJ (ambient dim : Nat) (J : Jac) : Mat :=
  ⟨dim, dim, fun i j => 4 * ∑ r ∈ Finset.range ambient, J r i * J r j⟩

/-- `pder_mat @ equi_to_unit` (`primitives.py:1167-1170`) -/
def equiJac (dim : Nat) (J : Jac) (equiToUnit : Nat → Nat → ℝ) : Jac :=
  fun r c => ∑ k ∈ Finset.range dim, J r k * equiToUnit k c

/-- `_hypercube_mapping_max_stretch_factor` (`primitives.py:1214-1233`) -/
noncomputable def hypercubeStretch (ambient dim : Nat) (J : Jac) : Except Err ℝ := do
  let ls ← smallSymMatEigenvalues (fourJtJ ambient dim J)
  pure (maxList (ls.map fun s => √s))

/-- `_simplex_mapping_max_stretch_factor` (`primitives.py:1173-1211`) -/
noncomputable def simplexStretch (ambient dim : Nat) (J : Jac) (equiToUnit : Nat → Nat → ℝ) : Except Err ℝ := do
  let ls ← smallSymMatEigenvalues (fourJtJ ambient dim (equiJac dim J equiToUnit))
  pure (maxList (ls.map fun s => √s))

/-- squared length of the image of the reference direction `v` -/
def imageSq (ambient dim : Nat) (J : Jac) (v : Nat → ℝ) : ℝ :=
  ∑ r ∈ Finset.range ambient, (∑ c ∈ Finset.range dim, J r c * v c) ^ 2

/-- squared length of a reference direction -/
def lenSq (dim : Nat) (v : Nat → ℝ) : ℝ := ∑ c ∈ Finset.range dim, v c ^ 2

/-- the stretch of direction `v` by the map, over the reference element's side length 2 -/
def IsMaxStretch (ambient dim : Nat) (J : Jac) (s : ℝ) : Prop :=
  0 ≤ s ∧ (∀ v, 2 * √(imageSq ambient dim J v) ≤ s * √(lenSq dim v)) ∧
    ∃ v, 0 < lenSq dim v ∧ 2 * √(imageSq ambient dim J v) = s * √(lenSq dim v)

theorem sqrt_form (s q l : ℝ) (hs : 0 ≤ s) (hq : 0 ≤ q) (hl : 0 ≤ l) :
    (2 * √q ≤ √s * √l ↔ 4 * q ≤ s * l) ∧ (2 * √q = √s * √l ↔ 4 * q = s * l) := by
  have e1 : 2 * √q = √(4 * q) := by
    rw [Real.sqrt_mul (by norm_num) q, show (4 : ℝ) = 2 ^ 2 by norm_num, Real.sqrt_sq (by norm_num)]
  have e2 : √s * √l = √(s * l) := (Real.sqrt_mul hs l).symm
  rw [e1, e2]
  constructor
  · exact Real.sqrt_le_sqrt_iff (by positivity)
  · exact Real.sqrt_inj (by positivity) (by positivity)

theorem imageSq_nonneg (ambient dim : Nat) (J : Jac) (v : Nat → ℝ) : 0 ≤ imageSq ambient dim J v :=
  Finset.sum_nonneg fun _ _ => sq_nonneg _

theorem lenSq_nonneg (dim : Nat) (v : Nat → ℝ) : 0 ≤ lenSq dim v := Finset.sum_nonneg fun _ _ => sq_nonneg _

/-- C56: for curves and surfaces in any ambient dimension, the stretch factor is twice the largest
factor by which the derivative stretches a direction -/
theorem stretch_spec (ambient dim : Nat) (hdim : dim = 1 ∨ dim = 2) (J : Jac) :
    ∃ s, hypercubeStretch ambient dim J = .ok s ∧ IsMaxStretch ambient dim J s := by
  rcases hdim with rfl | rfl
  · refine ⟨√(4 * ∑ r ∈ Finset.range ambient, J r 0 * J r 0), ?_, Real.sqrt_nonneg _, ?_, ?_⟩
    · rw [hypercubeStretch, smallSymMatEigenvalues, if_neg (by simp [fourJtJ]), if_pos (by simp [fourJtJ])]
      rfl
    all_goals
      have hA : 0 ≤ ∑ r ∈ Finset.range ambient, J r 0 * J r 0 :=
        Finset.sum_nonneg fun _ _ => mul_self_nonneg _
      have hv : ∀ v, imageSq ambient 1 J v = (∑ r ∈ Finset.range ambient, J r 0 * J r 0) * v 0 ^ 2 := by
        intro v
        rw [imageSq, Finset.sum_mul]
        apply Finset.sum_congr rfl
        intro r _
        rw [Finset.sum_range_one]; ring
      have hl : ∀ v, lenSq 1 v = v 0 ^ 2 := by intro v; rw [lenSq, Finset.sum_range_one]
    · intro v
      rw [(sqrt_form _ _ _ (by positivity) (imageSq_nonneg _ _ _ _) (lenSq_nonneg _ _)).1, hv, hl]
      linarith
    · refine ⟨fun _ => 1, by rw [hl]; norm_num, ?_⟩
      rw [(sqrt_form _ _ _ (by positivity) (imageSq_nonneg _ _ _ _) (lenSq_nonneg _ _)).2, hv, hl]
      ring
  · set a := ∑ r ∈ Finset.range ambient, J r 0 * J r 0 with ha
    set b := ∑ r ∈ Finset.range ambient, J r 0 * J r 1 with hb
    set d := ∑ r ∈ Finset.range ambient, J r 1 * J r 1 with hd
    have ha0 : 0 ≤ a := Finset.sum_nonneg fun _ _ => mul_self_nonneg _
    have hd0 : 0 ≤ d := Finset.sum_nonneg fun _ _ => mul_self_nonneg _
    set sd := √(4 * (4 * b) ^ 2 + (4 * a - 4 * d) ^ 2) with hsd
    have hsd2 : sd ^ 2 = 4 * (4 * b) ^ 2 + (4 * a - 4 * d) ^ 2 := Real.sq_sqrt (by positivity)
    have hsd0 : 0 ≤ sd := Real.sqrt_nonneg _
    set l := (4 * a + 4 * d + sd) / 2 with hl
    have hl0 : 0 ≤ l := by rw [hl]; positivity
    have habs : |4 * a - 4 * d| ≤ sd := by
      apply abs_le_of_sq_le_sq _ hsd0
      rw [hsd2]; nlinarith [sq_nonneg b]
    have hla : 0 ≤ l - 4 * a := by
      have := (abs_le.1 habs).2
      rw [hl]; linarith
    have hld : 0 ≤ l - 4 * d := by
      have := (abs_le.1 habs).1
      rw [hl]; linarith
    have hprod : (l - 4 * a) * (l - 4 * d) = (4 * b) ^ 2 := by
      rw [hl]; nlinarith [hsd2]
    refine ⟨√l, ?_, Real.sqrt_nonneg _, ?_, ?_⟩
    · rw [hypercubeStretch, smallSymMatEigenvalues, if_neg (by simp [fourJtJ]), if_neg (by simp [fourJtJ]),
        if_pos (by simp [fourJtJ])]
      change Except.ok (max √((4 * a + 4 * d - sd) / 2) √((4 * a + 4 * d + sd) / 2)) = _
      rw [max_eq_right]
      apply Real.sqrt_le_sqrt
      linarith
    all_goals
      have hv : ∀ v, imageSq ambient 2 J v = a * v 0 ^ 2 + 2 * b * (v 0 * v 1) + d * v 1 ^ 2 := by
        intro v
        rw [imageSq, ha, hb, hd, Finset.sum_mul, Finset.mul_sum, Finset.sum_mul, Finset.sum_mul,
          ← Finset.sum_add_distrib, ← Finset.sum_add_distrib]
        apply Finset.sum_congr rfl
        intro r _
        rw [sum_range_two]; ring
      have hlen : ∀ v, lenSq 2 v = v 0 ^ 2 + v 1 ^ 2 := by intro v; rw [lenSq, sum_range_two]
    · intro v
      rw [(sqrt_form _ _ _ hl0 (imageSq_nonneg _ _ _ _) (lenSq_nonneg _ _)).1, hv, hlen]
      -- (l-4a) x² - 8 b x y + (l-4d) y² ≥ 0
      have hq : 0 ≤ (l - 4 * a) * v 0 ^ 2 - 2 * (4 * b) * (v 0 * v 1) + (l - 4 * d) * v 1 ^ 2 := by
        by_cases hz : l - 4 * a = 0
        · have hb0 : (4 * b) ^ 2 = 0 := by rw [← hprod, hz, zero_mul]
          have hb1 : 4 * b = 0 := by simpa using hb0
          rw [hz, hb1]
          have := mul_nonneg hld (sq_nonneg (v 1))
          linarith
        · have hpos : 0 < l - 4 * a := lt_of_le_of_ne hla (Ne.symm hz)
          have : 0 ≤ (l - 4 * a) * ((l - 4 * a) * v 0 ^ 2 - 2 * (4 * b) * (v 0 * v 1) + (l - 4 * d) * v 1 ^ 2) := by
            have e : (l - 4 * a) * ((l - 4 * a) * v 0 ^ 2 - 2 * (4 * b) * (v 0 * v 1) + (l - 4 * d) * v 1 ^ 2)
                = ((l - 4 * a) * v 0 - 4 * b * v 1) ^ 2 := by
              linear_combination v 1 ^ 2 * hprod
            rw [e]; positivity
          exact (mul_nonneg_iff_of_pos_left hpos).1 this
      linarith
    · by_cases hz : 4 * b = 0 ∧ l - 4 * a = 0
      · refine ⟨fun i => if i = 0 then 1 else 0, by rw [hlen]; simp, ?_⟩
        rw [(sqrt_form _ _ _ hl0 (imageSq_nonneg _ _ _ _) (lenSq_nonneg _ _)).2, hv, hlen]
        simp
        linarith [hz.2]
      · refine ⟨fun i => if i = 0 then 4 * b else l - 4 * a, ?_, ?_⟩
        · rw [hlen]
          simp only [if_true, one_ne_zero, if_false]
          rcases not_and_or.1 hz with h | h
          · have := sq_nonneg (l - 4 * a)
            have h' : 0 < (4 * b) ^ 2 := by positivity
            linarith
          · have := sq_nonneg (4 * b)
            have h' : 0 < (l - 4 * a) ^ 2 := by positivity
            linarith
        · rw [(sqrt_form _ _ _ hl0 (imageSq_nonneg _ _ _ _) (lenSq_nonneg _ _)).2, hv, hlen]
          simp only [if_true, one_ne_zero, if_false]
          linear_combination (-(l - 4 * a)) * hprod

/-- C56: the stretch factor of hypercube elements -/
theorem C56_hypercube_stretch (ambient dim : Nat) (hdim : dim = 1 ∨ dim = 2) (J : Jac) :
    ∃ s, hypercubeStretch ambient dim J = .ok s ∧ IsMaxStretch ambient dim J s :=
  stretch_spec ambient dim hdim J

/-- C56: the stretch factor of simplex elements is that of the map from the equilateral reference
element -/
theorem C56_simplex_stretch (ambient dim : Nat) (hdim : dim = 1 ∨ dim = 2) (J : Jac)
    (equiToUnit : Nat → Nat → ℝ) :
    ∃ s, simplexStretch ambient dim J equiToUnit = .ok s ∧
      IsMaxStretch ambient dim (equiJac dim J equiToUnit) s :=
  stretch_spec ambient dim hdim (equiJac dim J equiToUnit)

/-- the largest stretch is unique, so the factor is invariant under rotations of the ambient space (maps
that preserve the lengths of images) -/
theorem C56_rotation_invariant (ambient ambient' dim : Nat) (hdim : dim = 1 ∨ dim = 2) (J J' : Jac)
    (h : ∀ v, imageSq ambient dim J v = imageSq ambient' dim J' v) :
    hypercubeStretch ambient dim J = hypercubeStretch ambient' dim J' := by
  obtain ⟨s, hs, h1⟩ := stretch_spec ambient dim hdim J
  obtain ⟨s', hs', h2⟩ := stretch_spec ambient' dim hdim J'
  rw [hs, hs']
  congr 1
  have hle : ∀ {t t' : ℝ} {A A' : Nat} {K K' : Jac}, (∀ v, imageSq A dim K v = imageSq A' dim K' v) →
      IsMaxStretch A dim K t → IsMaxStretch A' dim K' t' → t ≤ t' := by
    intro t t' A A' K K' hK hA hA'
    obtain ⟨v, hv, he⟩ := hA.2.2
    have := hA'.2.1 v
    rw [← hK v, he] at this
    exact le_of_mul_le_mul_right this (Real.sqrt_pos.2 hv)
  exact le_antisymm (hle h h1 h2) (hle (fun v => (h v).symm) h2 h1)

theorem imageSq_equiJac (ambient dim : Nat) (J : Jac) (E : Nat → Nat → ℝ) (v : Nat → ℝ) :
    imageSq ambient dim (equiJac dim J E) v
      = imageSq ambient dim J (fun k => ∑ c ∈ Finset.range dim, E k c * v c) := by
  simp only [imageSq, equiJac]
  refine Finset.sum_congr rfl fun r _ => ?_
  congr 1
  simp only [Finset.sum_mul, Finset.mul_sum]
  rw [Finset.sum_comm]
  exact Finset.sum_congr rfl fun k _ => Finset.sum_congr rfl fun c _ => by ring

/-- C56: the same for simplex elements -/
theorem C56_rotation_invariant_simplex (ambient ambient' dim : Nat) (hdim : dim = 1 ∨ dim = 2) (J J' : Jac)
    (equiToUnit : Nat → Nat → ℝ)
    (h : ∀ v, imageSq ambient dim J v = imageSq ambient' dim J' v) :
    simplexStretch ambient dim J equiToUnit = simplexStretch ambient' dim J' equiToUnit :=
  C56_rotation_invariant ambient ambient' dim hdim (equiJac dim J equiToUnit) (equiJac dim J' equiToUnit)
    (fun v => by rw [imageSq_equiJac, imageSq_equiJac, h])

/-- `Q` has orthonormal columns: a rotation or reflection if `ambient' = ambient`, otherwise an embedding of the
ambient space into a larger one -/
def IsIsometry (ambient ambient' : Nat) (Q : Nat → Nat → ℝ) : Prop :=
  ∀ a < ambient, ∀ b < ambient, ∑ r ∈ Finset.range ambient', Q r a * Q r b = if a = b then 1 else 0

/-- derivative of the element mapping followed by the linear map `Q` -/
def movedBy (ambient : Nat) (Q : Nat → Nat → ℝ) (J : Jac) : Jac :=
  fun r c => ∑ a ∈ Finset.range ambient, Q r a * J a c

theorem imageSq_movedBy (ambient ambient' dim : Nat) (Q : Nat → Nat → ℝ) (hQ : IsIsometry ambient ambient' Q)
    (J : Jac) (v : Nat → ℝ) : imageSq ambient' dim (movedBy ambient Q J) v = imageSq ambient dim J v := by
  have e : ∀ r, ∑ c ∈ Finset.range dim, movedBy ambient Q J r c * v c
      = ∑ a ∈ Finset.range ambient, Q r a * ∑ c ∈ Finset.range dim, J a c * v c := by
    intro r
    simp only [movedBy, Finset.sum_mul, Finset.mul_sum]
    rw [Finset.sum_comm]
    exact Finset.sum_congr rfl fun k _ => Finset.sum_congr rfl fun c _ => by ring
  simp only [imageSq, e]
  obtain ⟨w, hw⟩ : ∃ w : Nat → ℝ, ∀ a, ∑ c ∈ Finset.range dim, J a c * v c = w a := ⟨_, fun _ => rfl⟩
  simp only [hw]
  have : ∀ r, (∑ a ∈ Finset.range ambient, Q r a * w a) ^ 2
      = ∑ a ∈ Finset.range ambient, ∑ b ∈ Finset.range ambient, (Q r a * Q r b) * (w a * w b) := by
    intro r
    rw [sq, Finset.sum_mul_sum]
    exact Finset.sum_congr rfl fun a _ => Finset.sum_congr rfl fun b _ => by ring
  simp only [this]
  rw [Finset.sum_comm]
  refine Finset.sum_congr rfl fun a ha => ?_
  rw [Finset.sum_comm, Finset.sum_eq_single a]
  · rw [← Finset.sum_mul, hQ a (Finset.mem_range.1 ha) a (Finset.mem_range.1 ha), if_pos rfl]; ring
  · intro b hb hba
    rw [← Finset.sum_mul, hQ a (Finset.mem_range.1 ha) b (Finset.mem_range.1 hb), if_neg (Ne.symm hba), zero_mul]
  · intro h; exact absurd ha h

/-- C56: rotating, reflecting or embedding an element into a space of another dimension changes neither stretch
factor -/
theorem C56_moved (ambient ambient' dim : Nat) (hdim : dim = 1 ∨ dim = 2) (J : Jac) (Q : Nat → Nat → ℝ)
    (hQ : IsIsometry ambient ambient' Q) (equiToUnit : Nat → Nat → ℝ) :
    hypercubeStretch ambient' dim (movedBy ambient Q J) = hypercubeStretch ambient dim J ∧
    simplexStretch ambient' dim (movedBy ambient Q J) equiToUnit = simplexStretch ambient dim J equiToUnit :=
  ⟨C56_rotation_invariant _ _ _ hdim _ _ (imageSq_movedBy _ _ _ Q hQ J),
   C56_rotation_invariant_simplex _ _ _ hdim _ _ _ (imageSq_movedBy _ _ _ Q hQ J)⟩

/-- the hypothesis of `C56_moved` is met by a genuine rotation of the plane and by an embedding into space -/
example : IsIsometry 2 2 (fun r c => if r = 0 then (if c = 0 then 3/5 else -4/5) else (if c = 0 then 4/5 else 3/5)) := by
  intro a ha b hb
  interval_cases a <;> interval_cases b <;> norm_num [Finset.sum_range_succ]

example : IsIsometry 2 3 (fun r c => if r = c then 1 else 0) := by
  intro a ha b hb
  interval_cases a <;> interval_cases b <;> norm_num [Finset.sum_range_succ]

end Verif.Surface
