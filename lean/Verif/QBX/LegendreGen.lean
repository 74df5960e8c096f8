import Verif.QBX.Legendre
import Mathlib.Analysis.Calculus.MeanValue
import Mathlib.Analysis.SpecialFunctions.Sqrt
import Mathlib.Analysis.SpecificLimits.Normed
import Mathlib.Analysis.Calculus.IteratedDeriv.Defs
import Mathlib.Analysis.Analytic.OfScalars
import Mathlib.Algebra.Order.Field.GeomSum

/-!
# The generating function of the Legendre polynomials

Supporting mathematics (no code is modelled here): `Σ P_n(x) r^n = (1 - 2xr + r²)^{-1/2}` for
`|x| ≤ 1`, `|r| < 1`, with explicit error bounds, and the same for the two partial derivatives.
-/

namespace Verif.Ts

open Finset Filter Topology

/-- `1 - 2xr + r²`. -/
def quad (x r : ℝ) : ℝ := 1 - 2 * x * r + r ^ 2

/-- Partial sums `Σ_{n≤p} P_n(x) r^n`. -/
noncomputable def gsum (x r : ℝ) (p : ℕ) : ℝ := ∑ n ∈ range (p + 1), leg x n * r ^ n

/-- Partial sums of the `r`-derivative. -/
noncomputable def gsumr (x r : ℝ) (p : ℕ) : ℝ := ∑ n ∈ range (p + 1), leg x n * (n * r ^ (n - 1))

theorem quad_ge {x r : ℝ} (h1 : -1 ≤ x) (h2 : x ≤ 1) : (1 - |r|) ^ 2 ≤ quad x r := by
  have hx : |x| ≤ 1 := abs_le.mpr ⟨h1, h2⟩
  have h := abs_mul x r
  have h3 : x * r ≤ |r| := by
    calc x * r ≤ |x * r| := le_abs_self _
      _ = |x| * |r| := h
      _ ≤ 1 * |r| := mul_le_mul_of_nonneg_right hx (abs_nonneg r)
      _ = |r| := one_mul _
  have h4 : |r| ^ 2 = r ^ 2 := sq_abs r
  unfold quad
  nlinarith

theorem quad_pos {x r : ℝ} (h1 : -1 ≤ x) (h2 : x ≤ 1) (hr : |r| < 1) : 0 < quad x r := by
  refine lt_of_lt_of_le ?_ (quad_ge h1 h2)
  have : 0 < 1 - |r| := by linarith
  positivity

theorem sqrt_quad_ge {x r : ℝ} (h1 : -1 ≤ x) (h2 : x ≤ 1) (hr : |r| < 1) :
    1 - |r| ≤ Real.sqrt (quad x r) := by
  apply Real.le_sqrt_of_sq_le
  exact quad_ge h1 h2

theorem gsum_succ (x r : ℝ) (p : ℕ) : gsum x r (p + 1) = gsum x r p + leg x (p + 1) * r ^ (p + 1) := by
  unfold gsum; rw [Finset.sum_range_succ]

theorem gsumr_succ (x r : ℝ) (p : ℕ) :
    gsumr x r (p + 1) = gsumr x r p + leg x (p + 1) * (((p : ℝ) + 1) * r ^ p) := by
  unfold gsumr; rw [Finset.sum_range_succ]; push_cast; simp

theorem gsum_hasDeriv (x r : ℝ) (p : ℕ) : HasDerivAt (fun y => gsum x y p) (gsumr x r p) r := by
  unfold gsum gsumr
  refine HasDerivAt.fun_sum fun n _ => ?_
  exact (hasDerivAt_pow n r).const_mul _

/-- The truncated series satisfies the generating function's ODE up to two boundary terms. -/
theorem gsum_ode (x r : ℝ) (p : ℕ) :
    quad x r * gsumr x r p - (x - r) * gsum x r p
      = ((p : ℝ) + 1) * (leg x p * r ^ (p + 1) - leg x (p + 1) * r ^ p) := by
  induction p with
  | zero => simp [gsum, gsumr, leg, quad]
  | succ p ih =>
    rw [gsum_succ, gsumr_succ]
    have h := leg_rec x p
    push_cast
    unfold quad at ih ⊢
    linear_combination ih + r ^ (p + 1) * h

theorem gsum_sqrt_bound {x : ℝ} (h1 : -1 ≤ x) (h2 : x ≤ 1) {r : ℝ} (hr : |r| < 1) (p : ℕ) :
    |gsum x r p * Real.sqrt (quad x r) - 1| ≤ 2 * ((p : ℝ) + 1) * |r| ^ p / (1 - |r|) * |r| := by
  have hder : ∀ y ∈ Set.Icc (-|r|) |r|, HasDerivWithinAt (fun y => gsum x y p * Real.sqrt (quad x y))
      ((((p : ℝ) + 1) * (leg x p * y ^ (p + 1) - leg x (p + 1) * y ^ p)) / Real.sqrt (quad x y))
      (Set.Icc (-|r|) |r|) y := by
    intro y hy
    have hy' : |y| < 1 := lt_of_le_of_lt (abs_le.mpr ⟨hy.1, hy.2⟩) hr
    have hq := quad_pos h1 h2 hy'
    have hs : 0 < Real.sqrt (quad x y) := Real.sqrt_pos.mpr hq
    have hqd : HasDerivAt (fun y => quad x y) (2 * y - 2 * x) y := by
      have := (((hasDerivAt_id' y).const_mul (2 * x)).const_sub 1).add (hasDerivAt_pow 2 y)
      refine this.congr_deriv ?_
      norm_num; ring
    have hd := (gsum_hasDeriv x y p).mul (hqd.sqrt hq.ne')
    refine (hd.congr_deriv ?_).hasDerivWithinAt
    rw [← gsum_ode]
    have hsq : Real.sqrt (quad x y) * Real.sqrt (quad x y) = quad x y := Real.mul_self_sqrt hq.le
    field_simp
    rw [Real.sq_sqrt hq.le]; ring
  have hb : ∀ y ∈ Set.Icc (-|r|) |r|,
      ‖(((p : ℝ) + 1) * (leg x p * y ^ (p + 1) - leg x (p + 1) * y ^ p)) / Real.sqrt (quad x y)‖
        ≤ 2 * ((p : ℝ) + 1) * |r| ^ p / (1 - |r|) := by
    intro y hy
    have hyr : |y| ≤ |r| := abs_le.mpr ⟨hy.1, hy.2⟩
    have hy' : |y| < 1 := lt_of_le_of_lt hyr hr
    have hpos : 0 < 1 - |r| := by linarith
    have hsge : 1 - |r| ≤ Real.sqrt (quad x y) := (by linarith : 1 - |r| ≤ 1 - |y|).trans (sqrt_quad_ge h1 h2 hy')
    rw [Real.norm_eq_abs, abs_div, abs_of_nonneg (Real.sqrt_nonneg _)]
    refine div_le_div₀ (by positivity) ?_ hpos hsge
    rw [abs_mul, abs_of_nonneg (by positivity : (0 : ℝ) ≤ (p : ℝ) + 1)]
    have hp : |y| ^ p ≤ |r| ^ p := pow_le_pow_left₀ (abs_nonneg y) hyr p
    have hp1 : |y| ^ (p + 1) ≤ |r| ^ p := by
      rw [pow_succ]
      calc |y| ^ p * |y| ≤ |y| ^ p * 1 := mul_le_mul_of_nonneg_left hy'.le (by positivity)
        _ ≤ |r| ^ p := by rw [mul_one]; exact hp
    have ha : |leg x p * y ^ (p + 1)| ≤ |r| ^ p := by
      rw [abs_mul, abs_pow]
      calc |leg x p| * |y| ^ (p + 1) ≤ 1 * |y| ^ (p + 1) :=
            mul_le_mul_of_nonneg_right (leg_abs_le h1 h2 p) (by positivity)
        _ ≤ |r| ^ p := by rw [one_mul]; exact hp1
    have hb : |leg x (p + 1) * y ^ p| ≤ |r| ^ p := by
      rw [abs_mul, abs_pow]
      calc |leg x (p + 1)| * |y| ^ p ≤ 1 * |y| ^ p :=
            mul_le_mul_of_nonneg_right (leg_abs_le h1 h2 (p + 1)) (by positivity)
        _ ≤ |r| ^ p := by rw [one_mul]; exact hp
    have hc := abs_sub (leg x p * y ^ (p + 1)) (leg x (p + 1) * y ^ p)
    have : |leg x p * y ^ (p + 1) - leg x (p + 1) * y ^ p| ≤ 2 * |r| ^ p := by linarith
    calc _ ≤ ((p : ℝ) + 1) * (2 * |r| ^ p) := mul_le_mul_of_nonneg_left this (by positivity)
      _ = 2 * ((p : ℝ) + 1) * |r| ^ p := by ring
  have h0 : (0 : ℝ) ∈ Set.Icc (-|r|) |r| := ⟨by simp, abs_nonneg r⟩
  have hrr : r ∈ Set.Icc (-|r|) |r| := ⟨neg_abs_le r, le_abs_self r⟩
  have hmv := Convex.norm_image_sub_le_of_norm_hasDerivWithin_le hder hb (convex_Icc _ _) h0 hrr
  have hz : gsum x 0 p * Real.sqrt (quad x 0) = 1 := by
    unfold gsum quad
    rw [Finset.sum_range_succ']
    simp [leg]
  rw [hz, sub_zero, Real.norm_eq_abs, Real.norm_eq_abs] at hmv
  exact hmv

theorem tendsto_bdry {ρ : ℝ} (h : |ρ| < 1) (k : ℕ) :
    Tendsto (fun p : ℕ => ((p : ℝ) + 1) ^ k * ρ ^ p) atTop (𝓝 0) := by
  have h1 := tendsto_pow_const_mul_const_pow_of_abs_lt_one k h
  by_cases h0 : ρ = 0
  · subst h0
    refine tendsto_const_nhds.congr' ?_
    filter_upwards [eventually_ge_atTop 1] with p hp
    rw [zero_pow (by omega), mul_zero]
  have h2 := (h1.comp (tendsto_add_atTop_nat 1)).mul_const ρ⁻¹
  rw [zero_mul] at h2
  refine h2.congr fun p => ?_
  simp only [Function.comp]
  push_cast
  rw [pow_succ]
  field_simp

theorem gsum_tendsto {x : ℝ} (h1 : -1 ≤ x) (h2 : x ≤ 1) {r : ℝ} (hr : |r| < 1) :
    Tendsto (fun p => gsum x r p) atTop (𝓝 (1 / Real.sqrt (quad x r))) := by
  have hq := quad_pos h1 h2 hr
  have hs : 0 < Real.sqrt (quad x r) := Real.sqrt_pos.mpr hq
  have hb : Tendsto (fun p : ℕ => 2 * ((p : ℝ) + 1) * |r| ^ p / (1 - |r|) * |r|) atTop (𝓝 0) := by
    have h := (tendsto_bdry (ρ := |r|) (by rwa [abs_abs]) 1).const_mul (2 / (1 - |r|) * |r|)
    rw [mul_zero] at h
    refine h.congr fun p => ?_
    rw [pow_one]; ring
  have h3 : Tendsto (fun p => gsum x r p * Real.sqrt (quad x r) - 1) atTop (𝓝 0) :=
    squeeze_zero_norm (fun p => by rw [Real.norm_eq_abs]; exact gsum_sqrt_bound h1 h2 hr p) hb
  have h4 := (h3.add_const 1).div_const (Real.sqrt (quad x r))
  rw [zero_add] at h4
  refine h4.congr fun p => ?_
  field_simp; ring

theorem abs_tail {x : ℝ} (h1 : -1 ≤ x) (h2 : x ≤ 1) {r : ℝ} (hr : |r| < 1) (p k : ℕ) :
    |gsum x r (p + k) - gsum x r p| ≤ |r| ^ (p + 1) * (1 - |r| ^ k) / (1 - |r|) := by
  have hpos : 0 < 1 - |r| := by linarith
  induction k with
  | zero => simp
  | succ k ih =>
    rw [← add_assoc, gsum_succ]
    have hl : |leg x (p + k + 1) * r ^ (p + k + 1)| ≤ |r| ^ (p + k + 1) := by
      rw [abs_mul, abs_pow]
      exact mul_le_of_le_one_left (by positivity) (leg_abs_le h1 h2 _)
    have e : gsum x r (p + k) + leg x (p + k + 1) * r ^ (p + k + 1) - gsum x r p
        = (gsum x r (p + k) - gsum x r p) + leg x (p + k + 1) * r ^ (p + k + 1) := by ring
    rw [e]
    refine (abs_add_le _ _).trans ((add_le_add ih hl).trans (le_of_eq ?_))
    field_simp
    ring

/-- Truncation error of the generating function. -/
theorem gsum_error {x : ℝ} (h1 : -1 ≤ x) (h2 : x ≤ 1) {r : ℝ} (hr : |r| < 1) (p : ℕ) :
    |gsum x r p - 1 / Real.sqrt (quad x r)| ≤ |r| ^ (p + 1) / (1 - |r|) := by
  have hpos : 0 < 1 - |r| := by linarith
  have ht : Tendsto (fun k => |gsum x r (p + k) - gsum x r p|) atTop
      (𝓝 |1 / Real.sqrt (quad x r) - gsum x r p|) := by
    have h3 := (gsum_tendsto h1 h2 hr).comp (tendsto_add_atTop_nat p)
    have h4 := (h3.sub_const (gsum x r p)).abs
    refine h4.congr fun k => ?_
    simp only [Function.comp]; rw [Nat.add_comm]
  rw [abs_sub_comm]
  refine le_of_tendsto ht ?_
  filter_upwards with k
  refine (abs_tail h1 h2 hr p k).trans ?_
  refine div_le_div_of_nonneg_right ?_ hpos.le
  apply mul_le_of_le_one_right (by positivity)
  have : 0 ≤ |r| ^ k := by positivity
  linarith

theorem gsum_hasSum {x : ℝ} (h1 : -1 ≤ x) (h2 : x ≤ 1) {r : ℝ} (hr : |r| < 1) :
    HasSum (fun n => leg x n * r ^ n) (1 / Real.sqrt (quad x r)) := by
  have hsm : Summable (fun n => leg x n * r ^ n) := by
    refine Summable.of_norm_bounded (g := fun n => |r| ^ n) (summable_geometric_of_lt_one (abs_nonneg r) hr) ?_
    intro n
    rw [Real.norm_eq_abs, abs_mul, abs_pow]
    exact mul_le_of_le_one_left (by positivity) (leg_abs_le h1 h2 _)
  have h3 := (hsm.hasSum.tendsto_sum_nat).comp (tendsto_add_atTop_nat 1)
  have h4 := tendsto_nhds_unique h3 (gsum_tendsto h1 h2 hr)
  rw [← h4]; exact hsm.hasSum

/-- The Taylor coefficients at `0` of `λ ↦ A / √(1 - 2x ρλ + (ρλ)²)` are `A P_n(x) ρ^n`. -/
theorem taylor_coeff {x : ℝ} (h1 : -1 ≤ x) (h2 : x ≤ 1) (A ρ : ℝ) (f : ℝ → ℝ)
    (hf : ∀ l, f l = A / Real.sqrt (quad x (ρ * l))) (n : ℕ) :
    iteratedDeriv n f 0 / (n.factorial : ℝ) = A * (leg x n * ρ ^ n) := by
  obtain ⟨R, hR⟩ : ∃ R : NNReal, (R : ℝ) = 1 / (|ρ| + 1) :=
    ⟨⟨1 / (|ρ| + 1), by positivity⟩, rfl⟩
  have hρ1 : 0 < |ρ| + 1 := by positivity
  have hRpos : 0 < (R : ℝ) := by rw [hR]; positivity
  have hser : HasFPowerSeriesOnBall f
      (FormalMultilinearSeries.ofScalars ℝ (fun n => A * (leg x n * ρ ^ n))) 0 R := by
    refine ⟨?_, by exact_mod_cast hRpos, ?_⟩
    · refine FormalMultilinearSeries.le_radius_of_bound _ |A| fun n => ?_
      rw [FormalMultilinearSeries.ofScalars_norm, Real.norm_eq_abs, abs_mul, abs_mul, abs_pow, mul_assoc, mul_assoc]
      apply mul_le_of_le_one_right (abs_nonneg A)
      rw [← mul_pow, hR]
      have hle : |ρ| * (1 / (|ρ| + 1)) ≤ 1 := by
        rw [mul_one_div, div_le_one hρ1]; linarith
      have h5 : (|ρ| * (1 / (|ρ| + 1))) ^ n ≤ 1 := pow_le_one₀ (by positivity) hle
      exact mul_le_one₀ (leg_abs_le h1 h2 n) (by positivity) h5
    · intro y hy
      have hy' : |y| < 1 / (|ρ| + 1) := by
        rw [← hR]
        simpa [Real.norm_eq_abs, edist_zero_right, enorm, ← NNReal.coe_lt_coe] using hy
      have hry : |ρ * y| < 1 := by
        rw [abs_mul]
        calc |ρ| * |y| ≤ (|ρ| + 1) * |y| := by nlinarith [abs_nonneg y]
          _ < (|ρ| + 1) * (1 / (|ρ| + 1)) := mul_lt_mul_of_pos_left hy' hρ1
          _ = 1 := by field_simp
      have hs := (gsum_hasSum h1 h2 hry).mul_left A
      rw [zero_add, hf, div_eq_mul_one_div]
      have hfun : (fun n => (FormalMultilinearSeries.ofScalars ℝ (fun n => A * (leg x n * ρ ^ n))) n
          (fun _ => y)) = fun n => A * (leg x n * (ρ * y) ^ n) := by
        funext n
        rw [FormalMultilinearSeries.ofScalars_apply_eq, smul_eq_mul, mul_pow]
        ring
      exact hfun ▸ hs
  have := hser.factorial_smul 1 n
  rw [← iteratedDeriv_eq_iteratedFDeriv, FormalMultilinearSeries.ofScalars_apply_eq] at this
  rw [← this]
  have hn : (n.factorial : ℝ) ≠ 0 := by exact_mod_cast n.factorial_ne_zero
  simp only [nsmul_eq_mul, smul_eq_mul, one_pow, mul_one]
  field_simp

/-! ## The `x`-derivative -/

/-- Partial sums `Σ_{n≤p} P_n'(x) r^n`. -/
noncomputable def gsumx (x r : ℝ) (p : ℕ) : ℝ := ∑ n ∈ range (p + 1), dleg x n * r ^ n

theorem gsumx_succ (x r : ℝ) (p : ℕ) : gsumx x r (p + 1) = gsumx x r p + dleg x (p + 1) * r ^ (p + 1) := by
  unfold gsumx; rw [Finset.sum_range_succ]

theorem gsumx_quad (x r : ℝ) (p : ℕ) :
    quad x r * gsumx x r p
      = r * gsum x r p - dleg x (p + 1) * r ^ (p + 1) + dleg x p * r ^ (p + 2) := by
  induction p with
  | zero => simp [gsum, gsumx, leg, dleg]
  | succ p ih =>
    rw [gsum_succ, gsumx_succ]
    have h := dleg_three x p
    unfold quad at ih ⊢
    linear_combination ih + r ^ (p + 2) * h

theorem dleg_abs_le {x : ℝ} (h1 : -1 ≤ x) (h2 : x ≤ 1) (n : ℕ) : |dleg x n| ≤ ((n : ℝ) + 1) ^ 2 := by
  have hx : |x| ≤ 1 := abs_le.mpr ⟨h1, h2⟩
  suffices h : |dleg x n| ≤ (n : ℝ) ^ 2 by nlinarith [(Nat.cast_nonneg n : (0 : ℝ) ≤ n)]
  induction n with
  | zero => simp [dleg]
  | succ n ih =>
    have h := (dleg_pair x n).2
    have e : dleg x (n + 1) = x * dleg x n + ((n : ℝ) + 1) * leg x n := by linear_combination h
    rw [e]
    have ha : |x * dleg x n| ≤ (n : ℝ) ^ 2 := by
      rw [abs_mul]; exact (mul_le_of_le_one_left (abs_nonneg _) hx).trans ih
    have hb : |((n : ℝ) + 1) * leg x n| ≤ (n : ℝ) + 1 := by
      rw [abs_mul, abs_of_nonneg (by positivity : (0 : ℝ) ≤ (n : ℝ) + 1)]
      exact mul_le_of_le_one_right (by positivity) (leg_abs_le h1 h2 n)
    have := abs_add_le (x * dleg x n) (((n : ℝ) + 1) * leg x n)
    push_cast
    nlinarith [(Nat.cast_nonneg n : (0 : ℝ) ≤ n)]

theorem leg_bdry {x : ℝ} (h1 : -1 ≤ x) (h2 : x ≤ 1) {r : ℝ} (hr : |r| < 1) (i j : ℕ) :
    Tendsto (fun p : ℕ => ((p : ℝ) + 1) * (leg x (p + i) * r ^ (p + j))) atTop (𝓝 0) := by
  have h := (tendsto_bdry (ρ := |r|) (by rwa [abs_abs]) 1)
  refine squeeze_zero_norm (fun p => ?_) h
  rw [Real.norm_eq_abs, abs_mul, abs_of_nonneg (by positivity : (0 : ℝ) ≤ (p : ℝ) + 1), pow_one]
  refine mul_le_mul_of_nonneg_left ?_ (by positivity)
  rw [abs_mul, abs_pow, pow_add]
  calc |leg x (p + i)| * (|r| ^ p * |r| ^ j) ≤ 1 * (|r| ^ p * |r| ^ j) :=
        mul_le_mul_of_nonneg_right (leg_abs_le h1 h2 _) (by positivity)
    _ ≤ |r| ^ p := by
        rw [one_mul]
        exact mul_le_of_le_one_right (by positivity) (pow_le_one₀ (abs_nonneg r) hr.le)

theorem dleg_bdry {x : ℝ} (h1 : -1 ≤ x) (h2 : x ≤ 1) {r : ℝ} (hr : |r| < 1) (i j : ℕ) :
    Tendsto (fun p => dleg x (p + i) * r ^ (p + j)) atTop (𝓝 0) := by
  have h : Tendsto (fun p : ℕ => (((i : ℝ) + 1) ^ 2) * (((p : ℝ) + 1) ^ 2 * |r| ^ p)) atTop (𝓝 0) := by
    simpa using (tendsto_bdry (ρ := |r|) (by rwa [abs_abs]) 2).const_mul (((i : ℝ) + 1) ^ 2)
  refine squeeze_zero_norm (fun p => ?_) h
  rw [Real.norm_eq_abs, abs_mul, abs_pow, pow_add]
  have hd := dleg_abs_le h1 h2 (p + i)
  have hd2 : |dleg x (p + i)| ≤ ((i : ℝ) + 1) ^ 2 * ((p : ℝ) + 1) ^ 2 := by
    refine hd.trans ?_
    rw [← mul_pow]
    apply pow_le_pow_left₀ (by positivity)
    push_cast
    nlinarith [(Nat.cast_nonneg i : (0 : ℝ) ≤ i), (Nat.cast_nonneg p : (0 : ℝ) ≤ p),
      mul_nonneg (Nat.cast_nonneg i : (0 : ℝ) ≤ i) (Nat.cast_nonneg p : (0 : ℝ) ≤ p)]
  calc |dleg x (p + i)| * (|r| ^ p * |r| ^ j)
      ≤ (((i : ℝ) + 1) ^ 2 * ((p : ℝ) + 1) ^ 2) * (|r| ^ p * 1) := by
        refine mul_le_mul hd2 ?_ (by positivity) (by positivity)
        exact mul_le_mul_of_nonneg_left (pow_le_one₀ (abs_nonneg r) hr.le) (by positivity)
    _ = _ := by ring

theorem gsumr_tendsto {x : ℝ} (h1 : -1 ≤ x) (h2 : x ≤ 1) {r : ℝ} (hr : |r| < 1) :
    Tendsto (fun p => gsumr x r p) atTop
      (𝓝 ((x - r) * (1 / Real.sqrt (quad x r)) / quad x r)) := by
  have hq := quad_pos h1 h2 hr
  have ha := leg_bdry h1 h2 hr 0 1
  have hb := leg_bdry h1 h2 hr 1 0
  have h := ((((gsum_tendsto h1 h2 hr).const_mul (x - r)).add (ha.sub hb)).div_const (quad x r))
  rw [sub_zero, add_zero] at h
  refine h.congr fun p => ?_
  have e := gsum_ode x r p
  have e2 : (x - r) * gsum x r p + (((p : ℝ) + 1) * (leg x (p + 0) * r ^ (p + 1))
      - ((p : ℝ) + 1) * (leg x (p + 1) * r ^ (p + 0))) = quad x r * gsumr x r p := by
    rw [add_zero]; linear_combination -e
  rw [e2]; field_simp

theorem gsumx_tendsto {x : ℝ} (h1 : -1 ≤ x) (h2 : x ≤ 1) {r : ℝ} (hr : |r| < 1) :
    Tendsto (fun p => gsumx x r p) atTop (𝓝 (r * (1 / Real.sqrt (quad x r)) / quad x r)) := by
  have hq := quad_pos h1 h2 hr
  have ha := dleg_bdry h1 h2 hr 1 1
  have hb := dleg_bdry h1 h2 hr 0 2
  have h := ((((gsum_tendsto h1 h2 hr).const_mul r).sub ha).add hb).div_const (quad x r)
  rw [sub_zero, add_zero] at h
  refine h.congr fun p => ?_
  rw [add_zero, ← gsumx_quad x r p]
  field_simp

/-! ## Tails of gradient series -/

/-- `Σ_{n>p} n r^{n-1}`. -/
noncomputable def gradTail (r : ℝ) (p : ℕ) : ℝ := ((p : ℝ) + 1 - p * r) * r ^ p / (1 - r) ^ 2

theorem gradTail_nonneg {r : ℝ} (h0 : 0 ≤ r) (h1 : r < 1) (p : ℕ) : 0 ≤ gradTail r p := by
  unfold gradTail
  have hp : (0 : ℝ) ≤ p := Nat.cast_nonneg p
  have : 0 ≤ (p : ℝ) + 1 - p * r := by nlinarith
  positivity

theorem gradTail_step {r : ℝ} (h1 : r < 1) (p : ℕ) :
    gradTail r p = gradTail r (p + 1) + ((p : ℝ) + 1) * r ^ p := by
  unfold gradTail
  have : (1 - r) ≠ 0 := by intro h; linarith
  push_cast
  field_simp
  ring

/-- A series whose `n`-th term is at most `n r^{n-1}` in size is within `gradTail` of its limit. -/
theorem grad_error {r : ℝ} (h0 : 0 ≤ r) (h1 : r < 1) (w : ℕ → ℝ) (hw : ∀ n, |w (n + 1)| ≤ ((n : ℝ) + 1) * r ^ n)
    (u : ℕ → ℝ) (hu : ∀ p, u (p + 1) = u p + w (p + 1)) (L : ℝ) (hL : Tendsto u atTop (𝓝 L)) (p : ℕ) :
    |u p - L| ≤ gradTail r p := by
  have hk : ∀ k, |u (p + k) - u p| ≤ gradTail r p - gradTail r (p + k) := by
    intro k
    induction k with
    | zero => simp
    | succ k ih =>
      have e : u (p + (k + 1)) - u p = (u (p + k) - u p) + w (p + k + 1) := by
        rw [← add_assoc, hu]; ring
      rw [e]
      have h3 := hw (p + k)
      have h4 := gradTail_step h1 (p + k)
      have h5 := abs_add_le (u (p + k) - u p) (w (p + k + 1))
      rw [← add_assoc]
      linarith
  have ht : Tendsto (fun k => |u (p + k) - u p|) atTop (𝓝 |L - u p|) := by
    have h4 := ((hL.comp (tendsto_add_atTop_nat p)).sub_const (u p)).abs
    refine h4.congr fun k => ?_
    simp only [Function.comp]; rw [Nat.add_comm]
  rw [abs_sub_comm]
  refine le_of_tendsto ht ?_
  filter_upwards with k
  have := gradTail_nonneg h0 h1 (p + k)
  linarith [hk k]

end Verif.Ts
