import Mathlib.Tactic.Ring
import Mathlib.Tactic.Linarith
import Mathlib.Tactic.FieldSimp
import Mathlib.Tactic.LinearCombination
import Mathlib.Tactic.Positivity
import Mathlib.Analysis.Calculus.Deriv.Mul
import Mathlib.Analysis.Calculus.Deriv.Add
import Mathlib.Analysis.Calculus.Deriv.Pow
import Mathlib.Analysis.Complex.Basic
import Mathlib.Analysis.SpecialFunctions.Trigonometric.Deriv
import Mathlib.Analysis.SpecialFunctions.Trigonometric.Basic
import Mathlib.Analysis.SpecialFunctions.Trigonometric.Inverse
import Mathlib.RingTheory.PowerSeries.Derivative
import Mathlib.Algebra.BigOperators.NatAntidiagonal

/-!
# Legendre polynomials by their three-term recurrence

Supporting mathematics (no code is modelled here): the sequence the loops of
`pytential/qbx/target_specific/impl.pyx` run through, its derivative, the bound
`|P_n| ≤ 1` on `[-1, 1]` and the Bernstein-type bound `(n P_n)² + (1-x²) P_n'² ≤ n²`.
Mathlib has no three-term recurrence for Legendre polynomials; everything is derived here.
-/

namespace Verif.Ts

open Finset

/-- The Legendre values by the recurrence `j P_j = (2j-1) x P_{j-1} - (j-1) P_{j-2}`. -/
noncomputable def leg (x : ℝ) : ℕ → ℝ
  | 0 => 1
  | 1 => x
  | (n + 2) => ((2 * (n : ℝ) + 3) * x * leg x (n + 1) - ((n : ℝ) + 1) * leg x n) / ((n : ℝ) + 2)

/-- The recurrence differentiated with respect to `x`. -/
noncomputable def dleg (x : ℝ) : ℕ → ℝ
  | 0 => 0
  | 1 => 1
  | (n + 2) => ((2 * (n : ℝ) + 3) * (leg x (n + 1) + x * dleg x (n + 1))
      - ((n : ℝ) + 1) * dleg x n) / ((n : ℝ) + 2)

theorem leg_rec (x : ℝ) (n : ℕ) :
    ((n : ℝ) + 2) * leg x (n + 2) = (2 * (n : ℝ) + 3) * x * leg x (n + 1) - ((n : ℝ) + 1) * leg x n := by
  have : ((n : ℝ) + 2) ≠ 0 := by positivity
  rw [leg]; field_simp

theorem dleg_rec (x : ℝ) (n : ℕ) :
    ((n : ℝ) + 2) * dleg x (n + 2) = (2 * (n : ℝ) + 3) * (leg x (n + 1) + x * dleg x (n + 1))
      - ((n : ℝ) + 1) * dleg x n := by
  have : ((n : ℝ) + 2) ≠ 0 := by positivity
  rw [dleg]; field_simp

theorem leg_hasDeriv (n : ℕ) : ∀ x : ℝ, HasDerivAt (fun y => leg y n) (dleg x n) x := by
  induction n using Nat.strong_induction_on with
  | _ n ih =>
    intro x
    match n, ih with
    | 0, _ => simpa [leg, dleg] using hasDerivAt_const x (1 : ℝ)
    | 1, _ => exact hasDerivAt_id' x
    | (n + 2), ih =>
      have h1 := ih (n + 1) (by omega) x
      have h0 := ih n (by omega) x
      have h := ((((hasDerivAt_id x).const_mul (2 * (n : ℝ) + 3)).mul h1).sub
        (h0.const_mul ((n : ℝ) + 1))).div_const ((n : ℝ) + 2)
      refine HasDerivAt.congr_deriv (HasDerivAt.congr_of_eventuallyEq h ?_) ?_
      · filter_upwards with y
        simp [leg]
      · simp [dleg]; ring

/-- `x P'_{n+1} - P'_n = (n+1) P_{n+1}` and `P'_{n+1} - x P'_n = (n+1) P_n`. -/
theorem dleg_pair (x : ℝ) (n : ℕ) :
    x * dleg x (n + 1) - dleg x n = ((n : ℝ) + 1) * leg x (n + 1) ∧
    dleg x (n + 1) - x * dleg x n = ((n : ℝ) + 1) * leg x n := by
  induction n with
  | zero => simp [leg, dleg]
  | succ n ih =>
    obtain ⟨hB, hC⟩ := ih
    have hne : ((n : ℝ) + 2) ≠ 0 := by positivity
    have hr := leg_rec x n
    have hd := dleg_rec x n
    have hC' : dleg x (n + 2) - x * dleg x (n + 1) = ((n : ℝ) + 2) * leg x (n + 1) := by
      apply mul_left_cancel₀ hne
      linear_combination hd + ((n : ℝ) + 1) * hB
    have hq : (x ^ 2 - 1) * dleg x (n + 1) = ((n : ℝ) + 1) * (x * leg x (n + 1) - leg x n) := by
      linear_combination x * hB - hC
    constructor
    · push_cast
      linear_combination x * hC' + hq - hr
    · push_cast
      linear_combination hC'

theorem dleg_three (x : ℝ) (n : ℕ) :
    dleg x (n + 2) - 2 * x * dleg x (n + 1) + dleg x n = leg x (n + 1) := by
  have h1 := (dleg_pair x (n + 1)).2
  have h0 := (dleg_pair x n).1
  push_cast at h1
  linear_combination h1 - h0

/-! ## The Fourier form: `P_n(cos θ) = Σ a_k a_{n-k} e^{i(2k-n)θ}` -/

/-- Coefficients of `(1-z)^{-1/2}`. -/
noncomputable def hb : ℕ → ℝ
  | 0 => 1
  | (k + 1) => hb k * (2 * (k : ℝ) + 1) / (2 * (k : ℝ) + 2)

theorem hb_nonneg (k : ℕ) : 0 ≤ hb k := by
  induction k with
  | zero => simp [hb]
  | succ k ih => rw [hb]; positivity

theorem hb_rec (k : ℕ) : ((k : ℝ) + 1) * hb (k + 1) = ((k : ℝ) + 1 / 2) * hb k := by
  have : (2 * (k : ℝ) + 2) ≠ 0 := by positivity
  rw [hb]; field_simp

open PowerSeries in
/-- `Σ a_k (uX)^k`. -/
noncomputable def hbSeries (u : ℂ) : PowerSeries ℂ := PowerSeries.mk fun k => (hb k : ℂ) * u ^ k

open PowerSeries in
theorem hbSeries_ode (u : ℂ) :
    (1 - C u * X) * d⁄dX ℂ (hbSeries u) = C (u / 2) * hbSeries u := by
  ext n
  rw [sub_mul, one_mul, map_sub, mul_assoc, PowerSeries.coeff_C_mul, PowerSeries.coeff_C_mul]
  rw [PowerSeries.coeff_derivative]
  cases n with
  | zero =>
    have h := hb_rec 0
    simp [hbSeries, PowerSeries.coeff_mk]
    norm_num at h
    rw [h]; simp [hb]; ring
  | succ n =>
    rw [PowerSeries.coeff_succ_X_mul, PowerSeries.coeff_derivative]
    simp only [hbSeries, PowerSeries.coeff_mk]
    have h := congrArg (fun t : ℝ => (t : ℂ)) (hb_rec (n + 1))
    push_cast at h ⊢
    linear_combination (u ^ (n + 2)) * h

/-- `a_k a_{n-k}`-weighted sum of the monomials `u^k v^{n-k}`. -/
noncomputable def conv (u v : ℂ) (n : ℕ) : ℂ :=
  ∑ p ∈ antidiagonal n, ((hb p.1 : ℂ) * u ^ p.1) * ((hb p.2 : ℂ) * v ^ p.2)

open PowerSeries in
theorem conv_rec (u v : ℂ) (huv : u * v = 1) (n : ℕ) :
    ((n : ℂ) + 2) * conv u v (n + 2) =
      (2 * (n : ℂ) + 3) * ((u + v) / 2) * conv u v (n + 1) - ((n : ℂ) + 1) * conv u v n := by
  obtain ⟨F, hF⟩ : ∃ F, F = hbSeries u * hbSeries v := ⟨_, rfl⟩
  have hc : ∀ m, coeff m F = conv u v m := by
    intro m
    rw [hF, PowerSeries.coeff_mul]
    simp only [hbSeries, PowerSeries.coeff_mk, conv]
  have hCuv : (C u * C v : PowerSeries ℂ) = 1 := by rw [← map_mul, huv, map_one]
  have h2 : (C u + C v : PowerSeries ℂ) = 2 * C ((u + v) / 2) := by
    have : (2 : PowerSeries ℂ) = C (2 : ℂ) := (map_ofNat C 2).symm
    rw [← map_add, this, ← map_mul]; congr 1; ring
  have hode : (1 - 2 * (C ((u + v) / 2) * X) + X * X) * d⁄dX ℂ F
      = (C ((u + v) / 2) - X) * F := by
    have e1 := hbSeries_ode u
    have e2 := hbSeries_ode v
    have hq : (1 - C u * X) * (1 - C v * X) = (1 - 2 * (C ((u + v) / 2) * X) + X * X : PowerSeries ℂ) := by
      linear_combination (X * X) * hCuv - X * h2
    have hs : (C (u / 2) * (1 - C v * X) + C (v / 2) * (1 - C u * X) : PowerSeries ℂ)
        = C ((u + v) / 2) - X := by
      have a1 : (C (u / 2) * C v : PowerSeries ℂ) = C (1 / 2) := by
        rw [← map_mul]; congr 1; rw [div_mul_eq_mul_div, huv]
      have a2 : (C (v / 2) * C u : PowerSeries ℂ) = C (1 / 2) := by
        rw [← map_mul]; congr 1; rw [div_mul_eq_mul_div, mul_comm, huv]
      have a3 : (C (u / 2) + C (v / 2) : PowerSeries ℂ) = C ((u + v) / 2) := by
        rw [← map_add]; congr 1; ring
      have a4 : (C (1 / 2) + C (1 / 2) : PowerSeries ℂ) = 1 := by
        rw [← map_add]; norm_num
      linear_combination a3 - X * a1 - X * a2 - X * a4
    have hd : d⁄dX ℂ F
        = hbSeries u * d⁄dX ℂ (hbSeries v) + hbSeries v * d⁄dX ℂ (hbSeries u) := by
      rw [hF, Derivation.leibniz]; simp [smul_eq_mul]
    rw [hd, ← hq, ← hs, hF]
    linear_combination ((1 - C v * X) * hbSeries v) * e1 + ((1 - C u * X) * hbSeries u) * e2
  have hk := congrArg (coeff (n + 1)) hode
  have hl : (1 - 2 * (C ((u + v) / 2) * X) + X * X) * d⁄dX ℂ F
      = d⁄dX ℂ F - C (u + v) * (X * d⁄dX ℂ F)
        + X * (X * d⁄dX ℂ F) := by
    rw [map_add, h2]; ring
  have hr : (C ((u + v) / 2) - X) * F = C ((u + v) / 2) * F - X * F := by ring
  rw [hl, hr] at hk
  rw [map_add, map_sub, map_sub, PowerSeries.coeff_C_mul, PowerSeries.coeff_C_mul,
    PowerSeries.coeff_succ_X_mul, PowerSeries.coeff_succ_X_mul, PowerSeries.coeff_succ_X_mul,
    PowerSeries.coeff_derivative, PowerSeries.coeff_derivative] at hk
  cases n with
  | zero =>
    simp only [PowerSeries.coeff_zero_X_mul, hc] at hk
    push_cast at hk ⊢
    linear_combination hk
  | succ n =>
    rw [PowerSeries.coeff_succ_X_mul, PowerSeries.coeff_derivative] at hk
    simp only [hc] at hk
    push_cast at hk ⊢
    linear_combination hk

theorem leg_eq_conv (u v : ℂ) (huv : u * v = 1) (x : ℝ) (hx : (u + v) / 2 = x) (n : ℕ) :
    (leg x n : ℂ) = conv u v n := by
  induction n using Nat.strong_induction_on with
  | _ n ih =>
    match n, ih with
    | 0, _ => simp [leg, conv, hb]
    | 1, _ =>
      simp [leg, conv, hb, Finset.antidiagonal, Finset.Nat.antidiagonal_succ, ← hx]
      norm_num; ring
    | (n + 2), ih =>
      have h1 := ih (n + 1) (by omega)
      have h0 := ih n (by omega)
      have hne : ((n : ℂ) + 2) ≠ 0 := by exact_mod_cast (by omega : n + 2 ≠ 0)
      apply mul_left_cancel₀ hne
      rw [conv_rec u v huv n, ← h1, ← h0, hx]
      have := congrArg (fun t : ℝ => (t : ℂ)) (leg_rec x n)
      push_cast at this
      exact this

theorem leg_one (n : ℕ) : leg 1 n = 1 := by
  induction n using Nat.strong_induction_on with
  | _ n ih =>
    match n, ih with
    | 0, _ => rfl
    | 1, _ => rfl
    | (n + 2), ih =>
      have hne : ((n : ℝ) + 2) ≠ 0 := by positivity
      apply mul_left_cancel₀ hne
      rw [leg_rec, ih (n + 1) (by omega), ih n (by omega)]; ring

theorem hb_conv (n : ℕ) : ∑ p ∈ antidiagonal n, hb p.1 * hb p.2 = 1 := by
  have h := leg_eq_conv 1 1 (by norm_num) 1 (by norm_num) n
  rw [leg_one] at h
  simp only [conv, one_pow, mul_one] at h
  exact_mod_cast h.symm

/-- `P_n(cos θ) = Σ a_k a_l cos((k-l)θ)`. -/
theorem leg_cos (θ : ℝ) (n : ℕ) :
    leg (Real.cos θ) n = ∑ p ∈ antidiagonal n, hb p.1 * hb p.2 * Real.cos (((p.1 : ℝ) - p.2) * θ) := by
  have h := leg_eq_conv (Complex.exp (θ * Complex.I)) (Complex.exp (-(θ * Complex.I)))
    (by rw [← Complex.exp_add]; simp) (Real.cos θ)
    (by rw [Complex.ofReal_cos, Complex.cos, neg_mul]) n
  have h2 := congrArg Complex.re h
  rw [Complex.ofReal_re] at h2
  rw [h2, conv, Complex.re_sum]
  refine Finset.sum_congr rfl fun p _ => ?_
  have : ((hb p.1 : ℂ) * Complex.exp (θ * Complex.I) ^ p.1) * ((hb p.2 : ℂ) * Complex.exp (-(θ * Complex.I)) ^ p.2)
      = ((hb p.1 * hb p.2 : ℝ) : ℂ) * Complex.exp ((((((p.1 : ℝ) - p.2) * θ) : ℝ) : ℂ) * Complex.I) := by
    rw [← Complex.exp_nat_mul, ← Complex.exp_nat_mul]
    have : Complex.exp ((((((p.1 : ℝ) - p.2) * θ) : ℝ) : ℂ) * Complex.I)
        = Complex.exp ((p.1 : ℂ) * (θ * Complex.I)) * Complex.exp ((p.2 : ℂ) * -(θ * Complex.I)) := by
      rw [← Complex.exp_add]; congr 1; push_cast; ring
    rw [this]; push_cast; ring
  rw [this, Complex.re_ofReal_mul, Complex.exp_ofReal_mul_I_re]

theorem leg_cos_deriv (θ : ℝ) (n : ℕ) :
    Real.sin θ * dleg (Real.cos θ) n
      = ∑ p ∈ antidiagonal n, hb p.1 * hb p.2 * (((p.1 : ℝ) - p.2) * Real.sin (((p.1 : ℝ) - p.2) * θ)) := by
  have h1 : HasDerivAt (fun t => leg (Real.cos t) n) (dleg (Real.cos θ) n * -Real.sin θ) θ :=
    (leg_hasDeriv n (Real.cos θ)).comp θ (Real.hasDerivAt_cos θ)
  have h2 : HasDerivAt (fun t => ∑ p ∈ antidiagonal n, hb p.1 * hb p.2 * Real.cos (((p.1 : ℝ) - p.2) * t))
      (∑ p ∈ antidiagonal n, hb p.1 * hb p.2 * (-Real.sin (((p.1 : ℝ) - p.2) * θ) * ((p.1 : ℝ) - p.2))) θ := by
    refine HasDerivAt.fun_sum fun p _ => ?_
    refine HasDerivAt.const_mul _ ?_
    have hl : HasDerivAt (fun t : ℝ => ((p.1 : ℝ) - p.2) * t) ((p.1 : ℝ) - p.2) θ := by
      simpa using (hasDerivAt_id θ).const_mul ((p.1 : ℝ) - p.2)
    exact (Real.hasDerivAt_cos _).comp θ hl
  have h3 : (fun t => leg (Real.cos t) n)
      = fun t => ∑ p ∈ antidiagonal n, hb p.1 * hb p.2 * Real.cos (((p.1 : ℝ) - p.2) * t) := by
    funext t; exact leg_cos t n
  rw [h3] at h1
  have h4 := h1.unique h2
  have : Real.sin θ * dleg (Real.cos θ) n = -(dleg (Real.cos θ) n * -Real.sin θ) := by ring
  rw [this, h4, ← Finset.sum_neg_distrib]
  exact Finset.sum_congr rfl fun p _ => by ring

/-- Bernstein-type bound in linear form: every combination of `n P_n(cos θ)` and
`sin θ P_n'(cos θ)` with coefficients on the unit disk is at most `n`. -/
theorem leg_bernstein (θ a b : ℝ) (hab : a ^ 2 + b ^ 2 ≤ 1) (n : ℕ) :
    |a * (n * leg (Real.cos θ) n) + b * (Real.sin θ * dleg (Real.cos θ) n)| ≤ n := by
  rw [leg_cos, leg_cos_deriv, Finset.mul_sum, Finset.mul_sum, Finset.mul_sum, ← Finset.sum_add_distrib]
  refine (Finset.abs_sum_le_sum_abs _ _).trans ?_
  calc _ ≤ ∑ p ∈ antidiagonal n, hb p.1 * hb p.2 * n := ?_
    _ = n := by rw [← Finset.sum_mul, hb_conv, one_mul]
  refine Finset.sum_le_sum fun p hp => ?_
  have hpn : p.1 + p.2 = n := by simpa using hp
  have hpn' : (p.1 : ℝ) + p.2 = n := by exact_mod_cast hpn
  obtain ⟨φ, hφ⟩ : ∃ φ, φ = ((p.1 : ℝ) - p.2) * θ := ⟨_, rfl⟩
  rw [← hφ]
  have e : a * (n * (hb p.1 * hb p.2 * Real.cos φ)) + b * (hb p.1 * hb p.2 * (((p.1 : ℝ) - p.2) * Real.sin φ))
      = hb p.1 * hb p.2 * (a * n * Real.cos φ + b * ((p.1 : ℝ) - p.2) * Real.sin φ) := by ring
  rw [e, abs_mul, abs_of_nonneg (mul_nonneg (hb_nonneg _) (hb_nonneg _))]
  refine mul_le_mul_of_nonneg_left ?_ (mul_nonneg (hb_nonneg _) (hb_nonneg _))
  have hn : (0 : ℝ) ≤ n := Nat.cast_nonneg n
  apply abs_le_of_sq_le_sq _ hn
  have hm : ((p.1 : ℝ) - p.2) ^ 2 ≤ (n : ℝ) ^ 2 := by
    rw [← hpn']
    have h1 : (0 : ℝ) ≤ p.1 := Nat.cast_nonneg _
    have h2 : (0 : ℝ) ≤ p.2 := Nat.cast_nonneg _
    nlinarith
  obtain ⟨m, hmm⟩ : ∃ m, m = ((p.1 : ℝ) - p.2) := ⟨_, rfl⟩
  rw [← hmm] at hm ⊢
  have hsc := Real.sin_sq_add_cos_sq φ
  obtain ⟨s, hs⟩ : ∃ s, s = Real.sin φ := ⟨_, rfl⟩
  obtain ⟨c, hc⟩ : ∃ c, c = Real.cos φ := ⟨_, rfl⟩
  rw [← hs, ← hc] at hsc ⊢
  have h5 : (a * n * c + b * m * s) ^ 2 ≤ (a ^ 2 + b ^ 2) * ((n * c) ^ 2 + (m * s) ^ 2) := by
    nlinarith [sq_nonneg (a * (m * s) - b * (n * c))]
  have h6 : ((n : ℝ) * c) ^ 2 + (m * s) ^ 2 ≤ (n : ℝ) ^ 2 := by
    have : (m * s) ^ 2 ≤ (n * s) ^ 2 := by
      rw [mul_pow, mul_pow]; exact mul_le_mul_of_nonneg_right hm (sq_nonneg _)
    nlinarith
  have h7 : 0 ≤ ((n : ℝ) * c) ^ 2 + (m * s) ^ 2 := by positivity
  nlinarith [sq_nonneg a, sq_nonneg b]

theorem leg_abs_le {x : ℝ} (h1 : -1 ≤ x) (h2 : x ≤ 1) (n : ℕ) : |leg x n| ≤ 1 := by
  have hx : Real.cos (Real.arccos x) = x := Real.cos_arccos h1 h2
  rw [← hx, leg_cos]
  refine (Finset.abs_sum_le_sum_abs _ _).trans ?_
  rw [← hb_conv n]
  refine Finset.sum_le_sum fun p _ => ?_
  rw [abs_mul, abs_of_nonneg (mul_nonneg (hb_nonneg _) (hb_nonneg _))]
  exact mul_le_of_le_one_right (mul_nonneg (hb_nonneg _) (hb_nonneg _)) (Real.abs_cos_le_one _)

/-- The bound used for gradients: `a` a component of a unit vector `τ`, `w` the same component of
the part of a unit vector `σ` orthogonal to `τ`, with `x = σ·τ`. -/
theorem leg_grad_bound {x : ℝ} (h1 : -1 ≤ x) (h2 : x ≤ 1) (n : ℕ) (a w : ℝ) (ha : a ^ 2 ≤ 1)
    (haw : (1 - x ^ 2) * a ^ 2 + w ^ 2 ≤ 1 - x ^ 2) :
    |n * a * leg x n + w * dleg x n| ≤ n := by
  have hx : Real.cos (Real.arccos x) = x := Real.cos_arccos h1 h2
  obtain ⟨θ, hθ⟩ : ∃ θ, θ = Real.arccos x := ⟨_, rfl⟩
  rw [← hθ] at hx
  have hs : Real.sin θ ^ 2 = 1 - x ^ 2 := by
    have := Real.sin_sq_add_cos_sq θ
    rw [hx] at this; linarith
  by_cases h0 : Real.sin θ = 0
  · have hw : w = 0 := by
      rw [← hs, h0] at haw
      have : w ^ 2 ≤ 0 := by nlinarith
      exact pow_eq_zero_iff (two_ne_zero) |>.mp (le_antisymm this (sq_nonneg w))
    have h := leg_bernstein θ a 0 (by nlinarith) n
    rw [hx] at h
    rw [hw]
    have e : (n : ℝ) * a * leg x n + 0 * dleg x n = a * (n * leg x n) + 0 * (Real.sin θ * dleg x n) := by ring
    rw [e]; exact h
  · have hp : 0 < Real.sin θ ^ 2 := by positivity
    have h := leg_bernstein θ a (w / Real.sin θ) (by
      rw [div_pow, ← sub_nonneg]
      have : 1 - (a ^ 2 + w ^ 2 / Real.sin θ ^ 2)
          = (Real.sin θ ^ 2 - (Real.sin θ ^ 2 * a ^ 2 + w ^ 2)) / Real.sin θ ^ 2 := by
        field_simp
      rw [this]
      apply div_nonneg _ hp.le
      rw [hs]; linarith) n
    rw [hx] at h
    have e : (n : ℝ) * a * leg x n + w * dleg x n
        = a * (n * leg x n) + w / Real.sin θ * (Real.sin θ * dleg x n) := by
      field_simp
    rw [e]; exact h

end Verif.Ts
