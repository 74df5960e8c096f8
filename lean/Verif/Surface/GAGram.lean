import Verif.Surface.GA

/-!
# Area elements of any dimension and codimension (C97)

The squared norm of the pseudoscalar that `pytential/symbolic/primitives.py:858-899` computes is the determinant of the
first fundamental form for any number of tangents in a space of any dimension (the Cauchy-Binet formula, derived
here from the outer product's adjoint).
-/

namespace Verif.GA

open Verif.Frames

variable {n : Nat}

/-- scalar product of coefficients -/
def inner (x y : MV n) : ℝ := ∑ S, x S * y S

/-- contraction with a vector, adjoint to the outer product -/
def iota (v : Vec n) (y : MV n) : MV n := fun S => ∑ j ∈ Sᶜ, (-1) ^ above S j * y (insert j S) * v j

theorem inner_wedge (x y : MV n) (v : Vec n) : inner (wedge x v) y = inner x (iota v y) := by
  have h1 : inner (wedge x v) y =
      ∑ j, ∑ S : Finset (Fin n), if j ∈ S then (-1) ^ above (S.erase j) j * x (S.erase j) * v j * y S else 0 := by
    rw [inner, Finset.sum_comm]
    apply Finset.sum_congr rfl
    intro S _
    rw [wedge, Finset.sum_mul, ← Finset.sum_filter]
    apply Finset.sum_congr
    · ext j; simp
    · intro j _; rfl
  have h2 : inner x (iota v y) =
      ∑ j, ∑ S : Finset (Fin n), if j ∉ S then (-1) ^ above S j * x S * v j * y (insert j S) else 0 := by
    rw [inner, Finset.sum_comm]
    apply Finset.sum_congr rfl
    intro S _
    rw [iota, Finset.mul_sum, ← Finset.sum_filter]
    apply Finset.sum_congr
    · ext j; simp
    · intro j _; ring
  rw [h1, h2]
  apply Finset.sum_congr rfl
  intro j _
  rw [← symmDiff_inj {j}]
  apply Finset.sum_congr rfl
  intro S _
  by_cases hj : j ∈ S
  · rw [symmDiff_single_mem hj, if_neg (by simp), if_neg (by simpa using hj)]
  · rw [symmDiff_single_not hj, if_pos (by simp), if_pos hj, Finset.erase_insert hj]

theorem above_insert (A : Finset (Fin n)) (i j : Fin n) (hj : j ∉ A) :
    above (insert j A) i = above A i + if i < j then 1 else 0 := by
  have := above_erase (insert j A) i j (Finset.mem_insert_self _ _)
  rwa [Finset.erase_insert hj] at this

/-- contraction is an antiderivation -/
theorem iota_wedge (v u : Vec n) (y : MV n) : iota v (wedge y u) = dot v u • y - wedge (iota v y) u := by
  funext S
  have hL : iota v (wedge y u) S = (∑ j ∈ Sᶜ, y S * u j * v j)
      + ∑ j ∈ Sᶜ, ∑ i ∈ S, (-1) ^ above S j * ((-1) ^ above ((insert j S).erase i) i * y ((insert j S).erase i) * u i) * v j := by
    rw [iota, ← Finset.sum_add_distrib]
    apply Finset.sum_congr rfl
    intro j hj
    have hj' : j ∉ S := by simpa using hj
    rw [wedge, Finset.sum_insert hj', Finset.erase_insert hj', mul_add, add_mul, Finset.mul_sum, Finset.sum_mul]
    congr 1
    have := neg_one_sq_pow (above S j)
    linear_combination (y S * u j * v j) * this
  have hR : wedge (iota v y) u S = (∑ i ∈ S, y S * u i * v i)
      + ∑ i ∈ S, ∑ j ∈ Sᶜ, (-1) ^ above (S.erase i) i * ((-1) ^ above (S.erase i) j * y (insert j (S.erase i)) * v j) * u i := by
    rw [wedge, ← Finset.sum_add_distrib]
    apply Finset.sum_congr rfl
    intro i hi
    have hc : (S.erase i)ᶜ = insert i Sᶜ := Finset.compl_erase
    rw [iota, hc, Finset.sum_insert (by simpa using hi), Finset.insert_erase hi, mul_add, add_mul, Finset.mul_sum,
      Finset.sum_mul]
    congr 1
    have := neg_one_sq_pow (above (S.erase i) i)
    linear_combination (y S * u i * v i) * this
  have hd : dot v u * y S = (∑ j ∈ Sᶜ, y S * u j * v j) + ∑ i ∈ S, y S * u i * v i := by
    rw [add_comm, Finset.sum_add_sum_compl, dot, Finset.sum_mul]
    exact Finset.sum_congr rfl fun i _ => by ring
  have hx : (∑ j ∈ Sᶜ, ∑ i ∈ S, (-1) ^ above S j * ((-1) ^ above ((insert j S).erase i) i * y ((insert j S).erase i) * u i) * v j)
      = -∑ i ∈ S, ∑ j ∈ Sᶜ, (-1) ^ above (S.erase i) i * ((-1) ^ above (S.erase i) j * y (insert j (S.erase i)) * v j) * u i := by
    rw [Finset.sum_comm, ← Finset.sum_neg_distrib]
    apply Finset.sum_congr rfl
    intro i hi
    rw [← Finset.sum_neg_distrib]
    apply Finset.sum_congr rfl
    intro j hj
    have hj' : j ∉ S := by simpa using hj
    have hij : i ≠ j := by rintro rfl; exact hj' hi
    have he : (insert j S).erase i = insert j (S.erase i) := Finset.erase_insert_of_ne hij.symm
    rw [he, above_erase S j i hi, above_insert (S.erase i) i j (by simp [hj'])]
    rcases lt_or_gt_of_ne hij with h | h
    · rw [if_pos h, if_neg (not_lt.2 h.le)]
      simp only [pow_add, pow_one, pow_zero]
      ring
    · rw [if_neg (not_lt.2 h.le), if_pos h]
      simp only [pow_add, pow_one, pow_zero]
      ring
  simp only [Pi.sub_apply, Pi.smul_apply, smul_eq_mul]
  rw [hL, hR, hd, hx]
  ring

theorem iota_one (v : Vec n) : iota v one = 0 := by
  funext S
  rw [iota, Pi.zero_apply]
  apply Finset.sum_eq_zero
  intro j _
  rw [one, if_neg (Finset.insert_ne_empty _ _)]; ring

theorem wedge_sum {α : Type} (s : Finset α) (f : α → MV n) (v : Vec n) :
    wedge (∑ a ∈ s, f a) v = ∑ a ∈ s, wedge (f a) v := by
  classical
  induction s using Finset.induction_on with
  | empty => rw [Finset.sum_empty, Finset.sum_empty, wedge_zero]
  | insert a s ha ih => rw [Finset.sum_insert ha, Finset.sum_insert ha, wedge_add_left, ih]

theorem outer_snoc {k : Nat} (w : Fin (k + 1) → Vec n) :
    outer (List.ofFn w) one = wedge (outer (List.ofFn fun i => w i.castSucc) one) (w (Fin.last k)) := by
  rw [List.ofFn_succ', List.concat_eq_append, outer_append]; rfl

/-- contraction of an outer product -/
theorem iota_outer (k : Nat) (w : Fin (k + 1) → Vec n) (v : Vec n) :
    iota v (outer (List.ofFn w) one) =
      ∑ j : Fin (k + 1), ((-1 : ℝ) ^ (k + (j : Nat)) * dot v (w j)) • outer (List.ofFn fun i => w (j.succAbove i)) one := by
  induction k with
  | zero =>
    rw [outer_snoc, iota_wedge]
    have : outer (List.ofFn fun i : Fin 0 => w i.castSucc) one = (one : MV n) := by simp [outer]
    rw [this, iota_one, wedge_zero, sub_zero, Fin.sum_univ_one]
    simp [outer]
  | succ k ih =>
    rw [outer_snoc, iota_wedge, ih, wedge_sum, Fin.sum_univ_castSucc (n := k + 1)]
    have h1 : ((-1 : ℝ) ^ (k + 1 + ((Fin.last (k + 1) : Fin (k + 2)) : Nat))) = 1 := by
      rw [Fin.val_last, ← two_mul, pow_mul]; norm_num
    rw [h1, one_mul]
    have h2 : (fun i : Fin (k + 1) => w ((Fin.last (k + 1)).succAbove i)) = fun i => w i.castSucc := by
      funext i; rw [Fin.succAbove_last]
    rw [h2, sub_eq_add_neg, add_comm, ← Finset.sum_neg_distrib]
    congr 1
    apply Finset.sum_congr rfl
    intro j _
    rw [wedge_smul_left, ← neg_smul, outer_snoc]
    have h3 : (fun i : Fin k => w ((Fin.castSucc j).succAbove i.castSucc)) = fun i => w (j.succAbove i).castSucc := by
      funext i; rw [Fin.castSucc_succAbove_castSucc]
    have h4 : (Fin.castSucc j).succAbove (Fin.last k) = Fin.last (k + 1) := by
      rw [Fin.succAbove_of_le_castSucc]
      · rfl
      · rw [Fin.le_def]; simp; omega
    rw [h3, h4]
    congr 1
    rw [Fin.val_castSucc, show k + 1 + (j : Nat) = (k + j) + 1 by omega, pow_succ]
    ring

theorem inner_sum {α : Type} (s : Finset α) (x : MV n) (c : α → ℝ) (f : α → MV n) :
    inner x (∑ a ∈ s, c a • f a) = ∑ a ∈ s, c a * inner x (f a) := by
  simp only [inner, Finset.sum_apply, Pi.smul_apply, smul_eq_mul, Finset.mul_sum]
  rw [Finset.sum_comm]
  apply Finset.sum_congr rfl
  intro a _
  apply Finset.sum_congr rfl
  intro S _
  ring

/-- scalar products of outer products -/
theorem inner_outer (k : Nat) (v w : Fin k → Vec n) :
    inner (outer (List.ofFn v) one) (outer (List.ofFn w) one) = (Matrix.of fun i j => dot (v i) (w j)).det := by
  induction k with
  | zero =>
    rw [Matrix.det_fin_zero]
    simp only [List.ofFn_zero, outer, List.foldl_nil, inner]
    rw [Finset.sum_eq_single ∅]
    · simp [one]
    · intro S _ hS; simp [one, hS]
    · intro h; exact absurd (Finset.mem_univ _) h
  | succ k ih =>
    rw [outer_snoc v, inner_wedge, iota_outer, inner_sum, Matrix.det_succ_row _ (Fin.last k)]
    apply Finset.sum_congr rfl
    intro j _
    rw [ih]
    simp only [Matrix.of_apply, Fin.val_last]
    congr 2
    ext a b
    simp [Fin.succAbove_last]

/-- C97: for any number of tangents in a space of any dimension the area element is the square root of the determinant
of the first fundamental form -/
theorem C97_area_gram {k : Nat} (T : Fin k → Vec n) : areaElement (List.ofFn T) = √(gram T).det := by
  rw [areaElement, gram, ← inner_outer, normSq_eq]
  congr 1
  rw [inner]
  apply Finset.sum_congr rfl
  intro S _
  rw [pseudoscalar_eq]
  by_cases h : S.card = (List.ofFn T).length
  · rw [if_pos h, sq]
  · rw [if_neg h]
    have h0 : ∀ (cols : List (Vec n)) (d : Nat) (x : MV n), (∀ S, S.card ≠ d → x S = 0) →
        ∀ S, S.card ≠ d + cols.length → outer cols x S = 0 := by
      intro cols
      induction cols with
      | nil => intro d x hx S hS; exact hx S (by simpa using hS)
      | cons v cols ih =>
        intro d x hx S hS
        rw [outer, List.foldl_cons]
        refine ih (d + 1) (wedge x v) ?_ S (by rw [List.length_cons] at hS; omega)
        intro U hU
        rw [wedge]
        apply Finset.sum_eq_zero
        intro j hj
        rw [hx, mul_zero, zero_mul]
        rw [Finset.card_erase_of_mem hj]
        have := Finset.card_pos.2 ⟨j, hj⟩
        omega
    rw [h0 (List.ofFn T) 0 one (fun S hS => by rw [one, if_neg]; rintro rfl; simp at hS) S (by omega)]
    ring

theorem vecMul_gram {k : Nat} (T : Fin k → Vec n) (c : Fin k → ℝ) (j : Fin k) :
    Matrix.vecMul c (gram T) j = dot (∑ i, c i • T i) (T j) := by
  simp only [Matrix.vecMul, dotProduct, gram, Matrix.of_apply, dot, Finset.sum_apply, Pi.smul_apply, smul_eq_mul,
    Finset.sum_mul, Finset.mul_sum]
  rw [Finset.sum_comm]
  apply Finset.sum_congr rfl
  intro a _
  apply Finset.sum_congr rfl
  intro b _
  ring

/-- C97: the area element vanishes exactly where the tangents are linearly dependent -/
theorem C97_degenerate {k : Nat} (T : Fin k → Vec n) : areaElement (List.ofFn T) = 0 ↔ ¬ LinearIndependent ℝ T := by
  have hsq : areaElement (List.ofFn T) ^ 2 = (gram T).det := by
    rw [C97_area_gram, Real.sq_sqrt]
    have := normSq_eq (pseudoscalar (List.ofFn T))
    rw [gram, ← inner_outer, inner]
    exact Finset.sum_nonneg fun S _ => mul_self_nonneg _
  have h0 : areaElement (List.ofFn T) = 0 ↔ (gram T).det = 0 := by
    rw [← hsq]; exact (pow_eq_zero_iff two_ne_zero).symm
  rw [h0, ← Matrix.exists_vecMul_eq_zero_iff, Fintype.linearIndependent_iff]
  constructor
  · rintro ⟨c, hc, hG⟩ hall
    have hz : dot (∑ i, c i • T i) (∑ i, c i • T i) = 0 := by
      have h1 : ∀ (x : Vec n), (∀ j, dot x (T j) = 0) → dot x (∑ i, c i • T i) = 0 := by
        intro x hx
        have : dot x (∑ i, c i • T i) = ∑ i, c i * dot x (T i) := by
          simp only [dot, Finset.sum_apply, Pi.smul_apply, smul_eq_mul, Finset.mul_sum]
          rw [Finset.sum_comm]
          apply Finset.sum_congr rfl
          intro a _
          apply Finset.sum_congr rfl
          intro b _
          ring
        rw [this]
        exact Finset.sum_eq_zero fun i _ => by rw [hx i, mul_zero]
      apply h1
      intro j
      rw [← vecMul_gram, hG]; rfl
    rw [dot_self_eq_zero] at hz
    exact hc (funext fun i => hall c hz i)
  · intro h
    push Not at h
    obtain ⟨c, hc, i, hi⟩ := h
    refine ⟨c, fun h => hi (by rw [h]; rfl), ?_⟩
    funext j
    rw [vecMul_gram, hc]; simp [dot]

/-- two tangents in four dimensions -/
example : areaElement [![1, 0, 2, 0], (![0, 3, 0, 0] : Vec 4)] = √45 := by
  have h := C97_area_gram (n := 4) ![![1, 0, 2, 0], ![0, 3, 0, 0]]
  simp only [List.ofFn_succ, List.ofFn_zero] at h
  simp only [Matrix.cons_val_zero, Matrix.cons_val_succ, Matrix.det_fin_two, gram, Matrix.of_apply, dot,
    Fin.sum_univ_four, Matrix.cons_val_one, Matrix.cons_val] at h
  rw [h]
  norm_num

end Verif.GA
