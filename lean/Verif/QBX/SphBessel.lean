import Mathlib.Tactic.Ring
import Mathlib.Tactic.Linarith
import Mathlib.Tactic.FieldSimp
import Mathlib.Tactic.LinearCombination
import Mathlib.Tactic.Positivity
import Mathlib.Analysis.Calculus.Deriv.Mul
import Mathlib.Analysis.Calculus.Deriv.Inv
import Mathlib.Analysis.Calculus.Deriv.Pow
import Mathlib.Analysis.Calculus.MeanValue
import Mathlib.Analysis.Calculus.Deriv.MeanValue
import Mathlib.Analysis.SpecialFunctions.Trigonometric.Deriv
import Mathlib.Analysis.SpecialFunctions.ExpDeriv

/-!
# Spherical Bessel and Hankel functions by Rayleigh's formula

Specification and supporting mathematics (no code is modelled here).  `sphJ n` and `sphH n` are
defined by `f_{n+1}(z) = (n/z) f_n(z) - f_n'(z)` from `f_0 = sin z / z` and `f_0 = e^{iz}/(iz)`;
that is Rayleigh's formula `f_n(z) = (-z)^n ((1/z) d/dz)^n f_0(z)` (DLMF 10.49.14, 10.49.16).
-/

namespace Verif.Ts

open Filter Topology

/-- Rayleigh's formula, one order at a time. -/
noncomputable def ray (f : ℂ → ℂ) : ℕ → ℂ → ℂ
  | 0 => f
  | (n + 1) => fun z => n / z * ray f n z - deriv (ray f n) z

/-- The spherical Bessel function `j_n`. -/
noncomputable def sphJ (n : ℕ) (z : ℂ) : ℂ := ray (fun w => Complex.sin w / w) n z

/-- The spherical Hankel function of the first kind `h_n`. -/
noncomputable def sphH (n : ℕ) (z : ℂ) : ℂ := ray (fun w => Complex.exp (Complex.I * w) / (Complex.I * w)) n z

/-- `f` solves the spherical Bessel equation of order zero off the origin. -/
def SolvesZero (f : ℂ → ℂ) : Prop :=
  ∃ f1 : ℂ → ℂ, ∀ z, z ≠ 0 → HasDerivAt f (f1 z) z ∧ HasDerivAt f1 (-(2 / z) * f1 z - f z) z

theorem ne_eventually {z : ℂ} (h : z ≠ 0) : ∀ᶠ w in 𝓝 z, w ≠ 0 := isOpen_ne.mem_nhds h

theorem ray_derivs {f : ℂ → ℂ} (hf : SolvesZero f) (n : ℕ) :
    (∀ z, z ≠ 0 → HasDerivAt (ray f n) (n / z * ray f n z - ray f (n + 1) z) z) ∧
    (∀ z, z ≠ 0 → HasDerivAt (ray f (n + 1)) (ray f n z - ((n : ℂ) + 2) / z * ray f (n + 1) z) z) := by
  induction n with
  | zero =>
    obtain ⟨f1, h1⟩ := hf
    have hr1 : ∀ z, z ≠ 0 → ray f 1 z = -f1 z := by
      intro z hz
      have := (h1 z hz).1.deriv
      simp only [ray, Nat.cast_zero, zero_div, zero_mul, zero_sub, this]
    refine ⟨fun z hz => ?_, fun z hz => ?_⟩
    · rw [hr1 z hz]
      simpa [ray] using (h1 z hz).1
    · have h2 := (h1 z hz).2.fun_neg
      have h3 : HasDerivAt (ray f 1) (-(-(2 / z) * f1 z - f z)) z := by
        refine h2.congr_of_eventuallyEq ?_
        filter_upwards [ne_eventually hz] with w hw
        exact hr1 w hw
      refine h3.congr_deriv ?_
      rw [hr1 z hz]
      simp only [ray, Nat.cast_zero, zero_add]
      ring
  | succ n ih =>
    obtain ⟨hA, hB⟩ := ih
    have hr : ∀ z, z ≠ 0 → ray f (n + 2) z = (2 * (n : ℂ) + 3) / z * ray f (n + 1) z - ray f n z := by
      intro z hz
      show ((n + 1 : ℕ) : ℂ) / z * ray f (n + 1) z - deriv (ray f (n + 1)) z = _
      rw [(hB z hz).deriv]
      push_cast
      field_simp
      ring
    have hA' : ∀ z, z ≠ 0 → HasDerivAt (ray f (n + 1))
        (((n + 1 : ℕ) : ℂ) / z * ray f (n + 1) z - ray f (n + 2) z) z := by
      intro z hz
      refine (hB z hz).congr_deriv ?_
      rw [hr z hz]
      push_cast
      field_simp
      ring
    refine ⟨hA', fun z hz => ?_⟩
    have h1 : HasDerivAt (fun w => (2 * (n : ℂ) + 3) / w * ray f (n + 1) w - ray f n w)
        ((-(2 * (n : ℂ) + 3) / z ^ 2) * ray f (n + 1) z
          + (2 * (n : ℂ) + 3) / z * (ray f n z - ((n : ℂ) + 2) / z * ray f (n + 1) z)
          - (n / z * ray f n z - ray f (n + 1) z)) z := by
      have hd : HasDerivAt (fun w => (2 * (n : ℂ) + 3) / w) (-(2 * (n : ℂ) + 3) / z ^ 2) z := by
        have := (hasDerivAt_inv hz).const_mul (2 * (n : ℂ) + 3)
        simp only [div_eq_mul_inv]
        refine this.congr_deriv ?_
        ring
      exact (hd.fun_mul (hB z hz)).fun_sub (hA z hz)
    have h2 : HasDerivAt (ray f (n + 2))
        ((-(2 * (n : ℂ) + 3) / z ^ 2) * ray f (n + 1) z
          + (2 * (n : ℂ) + 3) / z * (ray f n z - ((n : ℂ) + 2) / z * ray f (n + 1) z)
          - (n / z * ray f n z - ray f (n + 1) z)) z := by
      refine h1.congr_of_eventuallyEq ?_
      filter_upwards [ne_eventually hz] with w hw
      exact hr w hw
    refine h2.congr_deriv ?_
    have hn : ((n + 1 : ℕ) : ℂ) = (n : ℂ) + 1 := by push_cast; ring
    rw [show n + 1 + 1 = n + 2 by rfl, hr z hz, hn]
    field_simp
    ring

theorem ray_rec {f : ℂ → ℂ} (hf : SolvesZero f) (n : ℕ) {z : ℂ} (hz : z ≠ 0) :
    ray f (n + 2) z = (2 * (n : ℂ) + 3) / z * ray f (n + 1) z - ray f n z := by
  have h1 := ((ray_derivs hf n).2 z hz)
  have h2 := ((ray_derivs hf (n + 1)).1 z hz)
  have h := h1.unique h2
  push_cast at h
  have e : ray f (n + 2) z = ((n : ℂ) + 1) / z * ray f (n + 1) z
      - (ray f n z - ((n : ℂ) + 2) / z * ray f (n + 1) z) := by
    linear_combination h
  rw [e]
  field_simp
  ring

theorem sin_solves : SolvesZero fun w => Complex.sin w / w := by
  refine ⟨fun w => (Complex.cos w * w - Complex.sin w * 1) / w ^ 2, fun z hz => ⟨?_, ?_⟩⟩
  · exact (Complex.hasDerivAt_sin z).fun_div (hasDerivAt_id' z) hz
  · have h := (((Complex.hasDerivAt_cos z).fun_mul (hasDerivAt_id' z)).fun_sub
      ((Complex.hasDerivAt_sin z).mul_const 1)).fun_div (hasDerivAt_pow 2 z) (pow_ne_zero 2 hz)
    refine h.congr_deriv ?_
    norm_num
    field_simp
    ring

theorem exp_solves : SolvesZero fun w => Complex.exp (Complex.I * w) / (Complex.I * w) := by
  have hE : ∀ z, HasDerivAt (fun w => Complex.exp (Complex.I * w)) (Complex.exp (Complex.I * z) * Complex.I) z := by
    intro z
    have h1 : HasDerivAt (fun w : ℂ => Complex.I * w) Complex.I z := by
      simpa using (hasDerivAt_id' z).const_mul Complex.I
    exact h1.cexp
  have hD : ∀ z, HasDerivAt (fun w : ℂ => Complex.I * w) Complex.I z := fun z => by
    simpa using (hasDerivAt_id' z).const_mul Complex.I
  have hI := Complex.I_ne_zero
  have hI2 : Complex.I ^ 2 = -1 := Complex.I_sq
  refine ⟨fun w => (Complex.exp (Complex.I * w) * Complex.I * (Complex.I * w)
      - Complex.exp (Complex.I * w) * Complex.I) / (Complex.I * w) ^ 2, fun z hz => ⟨?_, ?_⟩⟩
  · exact (hE z).fun_div (hD z) (mul_ne_zero hI hz)
  · have hm : Complex.I * z ≠ 0 := mul_ne_zero hI hz
    have h := ((((hE z).mul_const Complex.I).fun_mul (hD z)).fun_sub ((hE z).mul_const Complex.I)).fun_div
      ((hD z).fun_pow 2) (pow_ne_zero 2 hm)
    refine h.congr_deriv ?_
    obtain ⟨E, hEe⟩ : ∃ E, E = Complex.exp (Complex.I * z) := ⟨_, rfl⟩
    simp only [← hEe]
    norm_num
    field_simp
    have hI3 : Complex.I ^ 3 = -Complex.I := by rw [pow_succ, hI2]; ring
    have hI4 : Complex.I ^ 4 = 1 := by rw [show (4 : ℕ) = 2 * 2 by rfl, pow_mul, hI2]; norm_num
    ring_nf
    simp only [hI2, hI3, hI4]
    ring

/-! ## The functions `j_n`, `h_n` -/

theorem sphJ_hasDeriv (n : ℕ) {z : ℂ} (hz : z ≠ 0) :
    HasDerivAt (sphJ n) (n / z * sphJ n z - sphJ (n + 1) z) z := (ray_derivs sin_solves n).1 z hz

theorem sphJ_hasDeriv' (n : ℕ) {z : ℂ} (hz : z ≠ 0) :
    HasDerivAt (sphJ (n + 1)) (sphJ n z - ((n : ℂ) + 2) / z * sphJ (n + 1) z) z :=
  (ray_derivs sin_solves n).2 z hz

theorem sphJ_rec (n : ℕ) {z : ℂ} (hz : z ≠ 0) :
    sphJ (n + 2) z = (2 * (n : ℂ) + 3) / z * sphJ (n + 1) z - sphJ n z := ray_rec sin_solves n hz

theorem sphH_hasDeriv (n : ℕ) {z : ℂ} (hz : z ≠ 0) :
    HasDerivAt (sphH n) (n / z * sphH n z - sphH (n + 1) z) z := (ray_derivs exp_solves n).1 z hz

theorem sphH_hasDeriv' (n : ℕ) {z : ℂ} (hz : z ≠ 0) :
    HasDerivAt (sphH (n + 1)) (sphH n z - ((n : ℂ) + 2) / z * sphH (n + 1) z) z :=
  (ray_derivs exp_solves n).2 z hz

theorem sphH_rec (n : ℕ) {z : ℂ} (hz : z ≠ 0) :
    sphH (n + 2) z = (2 * (n : ℂ) + 3) / z * sphH (n + 1) z - sphH n z := ray_rec exp_solves n hz

theorem sphJ_zero (z : ℂ) : sphJ 0 z = Complex.sin z / z := rfl

theorem sphJ_one {z : ℂ} (hz : z ≠ 0) : sphJ 1 z = Complex.sin z / z / z - Complex.cos z / z := by
  have h1 := sphJ_hasDeriv 0 hz
  have h2 : HasDerivAt (sphJ 0) ((Complex.cos z * z - Complex.sin z * 1) / z ^ 2) z :=
    (Complex.hasDerivAt_sin z).fun_div (hasDerivAt_id' z) hz
  have h := h1.unique h2
  rw [Nat.cast_zero, zero_div, zero_mul, zero_sub] at h
  have e : sphJ 1 z = -((Complex.cos z * z - Complex.sin z * 1) / z ^ 2) := by rw [← h, neg_neg]
  rw [e]; field_simp; ring

theorem sphH_zero (z : ℂ) : sphH 0 z = Complex.exp (Complex.I * z) / (Complex.I * z) := rfl

theorem sphH_one {z : ℂ} (hz : z ≠ 0) : sphH 1 z = sphH 0 z * (1 / z - Complex.I) := by
  have h1 := sphH_hasDeriv 0 hz
  have hD : HasDerivAt (fun w : ℂ => Complex.I * w) Complex.I z := by
    simpa using (hasDerivAt_id' z).const_mul Complex.I
  have hI := Complex.I_ne_zero
  have h2 : HasDerivAt (sphH 0) ((Complex.exp (Complex.I * z) * Complex.I * (Complex.I * z)
      - Complex.exp (Complex.I * z) * Complex.I) / (Complex.I * z) ^ 2) z :=
    hD.cexp.fun_div hD (mul_ne_zero hI hz)
  have h := h1.unique h2
  rw [Nat.cast_zero, zero_div, zero_mul, zero_sub] at h
  have e : sphH 1 z = -((Complex.exp (Complex.I * z) * Complex.I * (Complex.I * z)
      - Complex.exp (Complex.I * z) * Complex.I) / (Complex.I * z) ^ 2) := by rw [← h, neg_neg]
  rw [e, sphH_zero]
  obtain ⟨E, hE⟩ : ∃ E, E = Complex.exp (Complex.I * z) := ⟨_, rfl⟩
  simp only [← hE]
  field_simp
  ring

/-! ## Bounds -/

/-- `(2n+1)!!`. -/
noncomputable def odd! : ℕ → ℝ
  | 0 => 1
  | (n + 1) => (2 * (n : ℝ) + 3) * odd! n

theorem odd!_pos (n : ℕ) : 0 < odd! n := by
  induction n with
  | zero => norm_num [odd!]
  | succ n ih => rw [odd!]; positivity

theorem norm_cos_le (z : ℂ) : ‖Complex.cos z‖ ≤ Real.exp ‖z‖ := by
  rw [Complex.cos, norm_div]
  have h1 : ‖Complex.exp (z * Complex.I)‖ ≤ Real.exp ‖z‖ := by
    refine (Complex.norm_exp_le_exp_norm _).trans (le_of_eq ?_)
    rw [norm_mul, Complex.norm_I, mul_one]
  have h2 : ‖Complex.exp (-z * Complex.I)‖ ≤ Real.exp ‖z‖ := by
    refine (Complex.norm_exp_le_exp_norm _).trans (le_of_eq ?_)
    rw [norm_mul, Complex.norm_I, mul_one, norm_neg]
  have h3 := norm_add_le (Complex.exp (z * Complex.I)) (Complex.exp (-z * Complex.I))
  rw [Complex.norm_ofNat, div_le_iff₀ (by norm_num)]
  linarith

theorem norm_sin_le (z : ℂ) : ‖Complex.sin z‖ ≤ Real.exp ‖z‖ * ‖z‖ := by
  have h := Convex.norm_image_sub_le_of_norm_hasDerivWithin_le (𝕜 := ℂ) (f := Complex.sin) (f' := Complex.cos)
    (C := Real.exp ‖z‖) (s := Metric.closedBall 0 ‖z‖) (x := 0) (y := z)
    (fun w _ => (Complex.hasDerivAt_sin w).hasDerivWithinAt)
    (fun w hw => (norm_cos_le w).trans (Real.exp_le_exp.mpr (by simpa using hw)))
    (convex_closedBall _ _) (by simp) (by simp)
  simpa using h

theorem sphJ_crude (n : ℕ) (R : ℝ) : ∃ C, ∀ w : ℂ, w ≠ 0 → ‖w‖ ≤ R → ‖w ^ n * sphJ n w‖ ≤ C := by
  have h0 : ∀ w : ℂ, w ≠ 0 → ‖w‖ ≤ R → ‖sphJ 0 w‖ ≤ Real.exp R := by
    intro w hw hR
    rw [sphJ_zero, norm_div, div_le_iff₀ (norm_pos_iff.mpr hw)]
    exact (norm_sin_le w).trans (mul_le_mul_of_nonneg_right (Real.exp_le_exp.mpr hR) (norm_nonneg _))
  have key : ∀ n, (∃ C, ∀ w : ℂ, w ≠ 0 → ‖w‖ ≤ R → ‖w ^ n * sphJ n w‖ ≤ C) ∧
      (∃ C, ∀ w : ℂ, w ≠ 0 → ‖w‖ ≤ R → ‖w ^ (n + 1) * sphJ (n + 1) w‖ ≤ C) := by
    intro n
    induction n with
    | zero =>
      refine ⟨⟨Real.exp R, fun w hw hR => by rw [pow_zero, one_mul]; exact h0 w hw hR⟩,
        ⟨Real.exp R + Real.exp R, fun w hw hR => ?_⟩⟩
      have e : w ^ (0 + 1) * sphJ (0 + 1) w = sphJ 0 w - Complex.cos w := by
        rw [Nat.zero_add, sphJ_one hw, sphJ_zero, pow_one]; field_simp
      rw [e]
      exact (norm_sub_le _ _).trans (add_le_add (h0 w hw hR)
        ((norm_cos_le w).trans (Real.exp_le_exp.mpr hR)))
    | succ n ih =>
      refine ⟨ih.2, ?_⟩
      obtain ⟨C0, hC0⟩ := ih.1
      obtain ⟨C1, hC1⟩ := ih.2
      refine ⟨(2 * (n : ℝ) + 3) * C1 + R ^ 2 * C0, fun w hw hR => ?_⟩
      have e : w ^ (n + 1 + 1) * sphJ (n + 1 + 1) w
          = (2 * (n : ℂ) + 3) * (w ^ (n + 1) * sphJ (n + 1) w) - w ^ 2 * (w ^ n * sphJ n w) := by
        rw [show n + 1 + 1 = n + 2 by rfl, sphJ_rec n hw]
        field_simp
        ring
      have hn : ‖(2 * (n : ℂ) + 3)‖ = 2 * (n : ℝ) + 3 := by
        rw [show (2 * (n : ℂ) + 3) = ((2 * (n : ℝ) + 3 : ℝ) : ℂ) by push_cast; ring, Complex.norm_real,
          Real.norm_eq_abs, abs_of_nonneg (by positivity)]
      rw [e]
      refine (norm_sub_le _ _).trans (add_le_add ?_ ?_)
      · rw [norm_mul, hn]
        exact mul_le_mul_of_nonneg_left (hC1 w hw hR) (by positivity)
      · rw [norm_mul, norm_pow]
        exact mul_le_mul (pow_le_pow_left₀ (norm_nonneg _) hR 2) (hC0 w hw hR) (norm_nonneg _) (sq_nonneg _)
  exact (key n).1

/-- `|j_n(z)| ≤ e^{|z|} |z|^n / (2n+1)!!`. -/
theorem sphJ_bound (n : ℕ) {z : ℂ} (hz : z ≠ 0) :
    ‖sphJ n z‖ ≤ Real.exp ‖z‖ * (‖z‖ ^ n / odd! n) := by
  suffices h : ∀ M, 0 ≤ M → ∀ w : ℂ, w ≠ 0 → ‖w‖ ≤ M → ‖sphJ n w‖ ≤ Real.exp M * (‖w‖ ^ n / odd! n) from
    h ‖z‖ (norm_nonneg z) z hz le_rfl
  intro M hM
  induction n with
  | zero =>
    intro w hw hR
    rw [sphJ_zero, norm_div, pow_zero, odd!, div_one, mul_one, div_le_iff₀ (norm_pos_iff.mpr hw)]
    exact (norm_sin_le w).trans (mul_le_mul_of_nonneg_right (Real.exp_le_exp.mpr hR) (norm_nonneg _))
  | succ n ih =>
    intro z hz hR
    have hzp : 0 < ‖z‖ := norm_pos_iff.mpr hz
    obtain ⟨C, hC⟩ := sphJ_crude (n + 1) ‖z‖
    -- the function along the ray
    have hder : ∀ t : ℝ, 0 < t → HasDerivAt (fun t : ℝ => ((t : ℂ) * z) ^ (n + 2) * sphJ (n + 1) ((t : ℂ) * z))
        ((((t : ℂ) * z) ^ (n + 2) * sphJ n ((t : ℂ) * z)) * z) t := by
      intro t ht
      have hne : (t : ℂ) * z ≠ 0 := mul_ne_zero (by exact_mod_cast ht.ne') hz
      have hl : HasDerivAt (fun t : ℝ => (t : ℂ) * z) z t := by
        simpa using (Complex.ofRealCLM.hasDerivAt (x := t)).mul_const z
      have h1 := (hasDerivAt_pow (n + 2) ((t : ℂ) * z)).fun_mul (sphJ_hasDeriv' n hne)
      have h2 := HasDerivAt.comp_of_eq t (h₂ := fun w : ℂ => w ^ (n + 2) * sphJ (n + 1) w) h1 hl rfl
      refine h2.congr_deriv ?_
      rw [show n + 2 - 1 = n + 1 by omega]
      obtain ⟨w, hw⟩ : ∃ w : ℂ, w = (t : ℂ) * z := ⟨_, rfl⟩
      rw [← hw] at hne ⊢
      push_cast
      rw [show w ^ (n + 2) = w ^ (n + 1) * w by ring]
      field_simp
      ring
    have hmain : ∀ ε : ℝ, 0 < ε → ε ≤ 1 → ‖z ^ (n + 2) * sphJ (n + 1) z‖
        ≤ C * (ε * ‖z‖) + Real.exp M * ‖z‖ ^ (2 * n + 3) / odd! (n + 1) := by
      intro ε hε hε1
      obtain ⟨K, hK⟩ : ∃ K, K = Real.exp M * ‖z‖ ^ (2 * n + 3) / odd! n := ⟨_, rfl⟩
      have hod := odd!_pos n
      have hKp : 0 ≤ K := by rw [hK]; positivity
      have hb := image_norm_le_of_norm_deriv_right_le_deriv_boundary'
        (f := fun t : ℝ => ((t : ℂ) * z) ^ (n + 2) * sphJ (n + 1) ((t : ℂ) * z))
        (f' := fun t : ℝ => (((t : ℂ) * z) ^ (n + 2) * sphJ n ((t : ℂ) * z)) * z) (a := ε) (b := 1)
        (B := fun t => C * (ε * ‖z‖) + K * (t ^ (2 * n + 3) / (2 * (n : ℝ) + 3)))
        (B' := fun t => K * t ^ (2 * n + 2))
        (fun t ht => (hder t (hε.trans_le ht.1)).continuousAt.continuousWithinAt)
        (fun t ht => (hder t (hε.trans_le ht.1)).hasDerivWithinAt)
        (by
          have hne : (ε : ℂ) * z ≠ 0 := mul_ne_zero (by exact_mod_cast hε.ne') hz
          have hle : ‖(ε : ℂ) * z‖ ≤ ‖z‖ := by
            rw [norm_mul, Complex.norm_real, Real.norm_eq_abs, abs_of_pos hε]
            exact mul_le_of_le_one_left (norm_nonneg z) hε1
          have h1 := hC _ hne hle
          have e : ((ε : ℂ) * z) ^ (n + 2) * sphJ (n + 1) ((ε : ℂ) * z)
              = (((ε : ℂ) * z) ^ (n + 1) * sphJ (n + 1) ((ε : ℂ) * z)) * ((ε : ℂ) * z) := by ring
          rw [e, norm_mul, norm_mul (ε : ℂ) z, Complex.norm_real, Real.norm_eq_abs, abs_of_pos hε]
          have h2 : ‖((ε : ℂ) * z) ^ (n + 1) * sphJ (n + 1) ((ε : ℂ) * z)‖ * (ε * ‖z‖) ≤ C * (ε * ‖z‖) :=
            mul_le_mul_of_nonneg_right h1 (by positivity)
          have h3 : 0 ≤ K * (ε ^ (2 * n + 3) / (2 * (n : ℝ) + 3)) := by positivity
          linarith)
        (fun t _ => by fun_prop)
        (fun t _ => by
          have h1 := (((hasDerivAt_pow (2 * n + 3) t).div_const (2 * (n : ℝ) + 3)).const_mul K).const_add (C * (ε * ‖z‖))
          refine (h1.congr_deriv ?_).hasDerivWithinAt
          rw [show 2 * n + 3 - 1 = 2 * n + 2 by omega]
          have : (2 * (n : ℝ) + 3) ≠ 0 := by positivity
          push_cast
          field_simp)
        (fun t ht => by
          have htp : 0 < t := hε.trans_le ht.1
          have hne : (t : ℂ) * z ≠ 0 := mul_ne_zero (by exact_mod_cast htp.ne') hz
          have hnt : ‖(t : ℂ) * z‖ = t * ‖z‖ := by
            rw [norm_mul, Complex.norm_real, Real.norm_eq_abs, abs_of_pos htp]
          have hle : ‖(t : ℂ) * z‖ ≤ M := by
            rw [hnt]
            exact (mul_le_of_le_one_left (norm_nonneg z) ht.2.le).trans hR
          have h1 := ih _ hne hle
          rw [hnt] at h1
          rw [norm_mul, norm_mul, norm_pow, hnt]
          calc (t * ‖z‖) ^ (n + 2) * ‖sphJ n (↑t * z)‖ * ‖z‖
              ≤ (t * ‖z‖) ^ (n + 2) * (Real.exp M * ((t * ‖z‖) ^ n / odd! n)) * ‖z‖ := by
                refine mul_le_mul_of_nonneg_right (mul_le_mul_of_nonneg_left h1 (by positivity)) (norm_nonneg z)
            _ = K * t ^ (2 * n + 2) := by
                rw [hK]; field_simp; ring)
        (x := 1) ⟨hε1, le_rfl⟩
      simp only [Complex.ofReal_one, one_mul, one_pow] at hb
      refine hb.trans (le_of_eq ?_)
      rw [hK, odd!]
      field_simp
    have hlim : ‖z ^ (n + 2) * sphJ (n + 1) z‖ ≤ Real.exp M * ‖z‖ ^ (2 * n + 3) / odd! (n + 1) := by
      have ht : Tendsto (fun ε : ℝ => C * (ε * ‖z‖) + Real.exp M * ‖z‖ ^ (2 * n + 3) / odd! (n + 1))
          (𝓝[>] 0) (𝓝 (C * (0 * ‖z‖) + Real.exp M * ‖z‖ ^ (2 * n + 3) / odd! (n + 1))) := by
        refine Tendsto.mono_left ?_ nhdsWithin_le_nhds
        exact (Continuous.tendsto (by fun_prop) 0)
      rw [zero_mul, mul_zero, zero_add] at ht
      refine ge_of_tendsto ht ?_
      filter_upwards [Ioc_mem_nhdsGT (zero_lt_one' ℝ)] with ε hε
      exact hmain ε hε.1 hε.2
    have hod := odd!_pos (n + 1)
    rw [norm_mul, norm_pow] at hlim
    have hpp : 0 < ‖z‖ ^ (n + 2) := by positivity
    have : ‖z‖ ^ (n + 2) * ‖sphJ (n + 1) z‖ ≤ ‖z‖ ^ (n + 2) * (Real.exp M * (‖z‖ ^ (n + 1) / odd! (n + 1))) := by
      refine hlim.trans (le_of_eq ?_)
      rw [show 2 * n + 3 = (n + 2) + (n + 1) by omega, pow_add]; ring
    exact le_of_mul_le_mul_left this hpp

/-- Reverse Bessel polynomials. -/
noncomputable def revB (x : ℝ) : ℕ → ℝ
  | 0 => 1
  | 1 => 1 + x
  | (n + 2) => (2 * (n : ℝ) + 3) * revB x (n + 1) + x ^ 2 * revB x n

theorem revB_nonneg {x : ℝ} (hx : 0 ≤ x) (n : ℕ) : 0 ≤ revB x n := by
  induction n using Nat.strong_induction_on with
  | _ n ih =>
    match n, ih with
    | 0, _ => norm_num [revB]
    | 1, _ => rw [revB]; positivity
    | (n + 2), ih =>
      have h1 := ih (n + 1) (by omega)
      have h0 := ih n (by omega)
      rw [revB]; positivity

theorem revB_hasDeriv (n : ℕ) : ∀ x : ℝ,
    HasDerivAt (fun y => revB y (n + 1)) (revB x (n + 1) - x * revB x n) x := by
  induction n using Nat.strong_induction_on with
  | _ n ih =>
    intro x
    match n, ih with
    | 0, _ =>
      have : HasDerivAt (fun y : ℝ => 1 + y) 1 x := (hasDerivAt_id' x).const_add 1
      simpa [revB] using this
    | 1, _ =>
      have h : HasDerivAt (fun y : ℝ => (2 * ((0 : ℕ) : ℝ) + 3) * (1 + y) + y ^ 2 * 1)
          ((2 * ((0 : ℕ) : ℝ) + 3) * 1 + ((2 : ℕ) : ℝ) * x ^ (2 - 1) * 1) x :=
        (((hasDerivAt_id' x).const_add 1).const_mul _).fun_add ((hasDerivAt_pow 2 x).mul_const 1)
      have e : (fun y => revB y (1 + 1)) = fun y : ℝ => (2 * ((0 : ℕ) : ℝ) + 3) * (1 + y) + y ^ 2 * 1 := by
        funext y; simp [revB]
      rw [e]
      refine h.congr_deriv ?_
      simp [revB]; ring
    | (n + 2), ih =>
      have h1 := ih (n + 1) (by omega) x
      have h0 := ih n (by omega) x
      have h := (h1.const_mul (2 * ((n + 1 : ℕ) : ℝ) + 3)).fun_add ((hasDerivAt_pow 2 x).fun_mul h0)
      have e : (fun y => revB y (n + 2 + 1)) = fun y : ℝ =>
          (2 * ((n + 1 : ℕ) : ℝ) + 3) * revB y (n + 1 + 1) + y ^ 2 * revB y (n + 1) := by
        funext y; rw [revB]
      rw [e]
      refine h.congr_deriv ?_
      have e3 : revB x (n + 2 + 1) = (2 * ((n + 1 : ℕ) : ℝ) + 3) * revB x (n + 2) + x ^ 2 * revB x (n + 1) := by rw [revB]
      have e2 : revB x (n + 2) = (2 * (n : ℝ) + 3) * revB x (n + 1) + x ^ 2 * revB x n := by rw [revB]
      rw [e3, show n + 1 + 1 = n + 2 by rfl, e2]
      push_cast
      ring

/-- `θ_{n+1}(x) ≤ (2n+1)!! e^x`. -/
theorem revB_le {x : ℝ} (hx : 0 ≤ x) (n : ℕ) : revB x (n + 1) ≤ odd! n * Real.exp x := by
  have hanti : AntitoneOn (fun y => revB y (n + 1) * Real.exp (-y)) (Set.Ici 0) := by
    have hd : ∀ y : ℝ, HasDerivAt (fun y => revB y (n + 1) * Real.exp (-y)) (-(y * revB y n) * Real.exp (-y)) y := by
      intro y
      have h := (revB_hasDeriv n y).fun_mul ((hasDerivAt_neg y).exp)
      refine h.congr_deriv ?_
      ring
    refine antitoneOn_of_deriv_nonpos (convex_Ici 0) (fun y _ => (hd y).continuousAt.continuousWithinAt)
      (fun y _ => (hd y).differentiableAt.differentiableWithinAt) (fun y hy => ?_)
    rw [interior_Ici] at hy
    rw [(hd y).deriv]
    have : 0 ≤ y * revB y n := mul_nonneg (le_of_lt hy) (revB_nonneg (le_of_lt hy) n)
    have := Real.exp_pos (-y)
    nlinarith
  have h0 : revB 0 (n + 1) = odd! n := by
    induction n with
    | zero => simp [revB, odd!]
    | succ n ih =>
      rw [revB, odd!, ← ih (by
        refine antitoneOn_of_deriv_nonpos (convex_Ici 0) (fun y _ => ?_) (fun y _ => ?_) (fun y hy => ?_)
        · exact ((revB_hasDeriv n y).fun_mul ((hasDerivAt_neg y).exp)).continuousAt.continuousWithinAt
        · exact ((revB_hasDeriv n y).fun_mul ((hasDerivAt_neg y).exp)).differentiableAt.differentiableWithinAt
        · rw [interior_Ici] at hy
          rw [((revB_hasDeriv n y).fun_mul ((hasDerivAt_neg y).exp)).deriv]
          have h5 : 0 ≤ y * revB y n := mul_nonneg (le_of_lt hy) (revB_nonneg (le_of_lt hy) n)
          have := Real.exp_pos (-y)
          nlinarith)]
      ring
  have h := hanti (show (0 : ℝ) ∈ Set.Ici 0 from Set.self_mem_Ici) (show x ∈ Set.Ici 0 from hx) hx
  simp only [neg_zero, Real.exp_zero, mul_one, h0] at h
  rw [Real.exp_neg] at h
  have hp := Real.exp_pos x
  calc revB x (n + 1) = revB x (n + 1) * (Real.exp x)⁻¹ * Real.exp x := by field_simp
    _ ≤ odd! n * Real.exp x := mul_le_mul_of_nonneg_right h hp.le

theorem sphH_revB (n : ℕ) {z : ℂ} (hz : z ≠ 0) :
    ‖sphH n z‖ * ‖z‖ ^ (n + 1) ≤ ‖Complex.exp (Complex.I * z)‖ * revB ‖z‖ n := by
  have hzp : 0 < ‖z‖ := norm_pos_iff.mpr hz
  have h00 : ‖sphH 0 z‖ = ‖Complex.exp (Complex.I * z)‖ / ‖z‖ := by
    rw [sphH_zero, norm_div, norm_mul, Complex.norm_I, one_mul]
  induction n using Nat.strong_induction_on with
  | _ n ih =>
    match n, ih with
    | 0, _ =>
      rw [h00, revB, zero_add, pow_one]
      field_simp
      exact le_refl _
    | 1, _ =>
      rw [sphH_one hz, norm_mul, h00, revB]
      have h1 : ‖1 / z - Complex.I‖ ≤ 1 / ‖z‖ + 1 := by
        refine (norm_sub_le _ _).trans (le_of_eq ?_)
        rw [norm_div, norm_one, Complex.norm_I]
      calc ‖Complex.exp (Complex.I * z)‖ / ‖z‖ * ‖1 / z - Complex.I‖ * ‖z‖ ^ (1 + 1)
          ≤ ‖Complex.exp (Complex.I * z)‖ / ‖z‖ * (1 / ‖z‖ + 1) * ‖z‖ ^ (1 + 1) := by
            refine mul_le_mul_of_nonneg_right (mul_le_mul_of_nonneg_left h1 (by positivity)) (by positivity)
        _ = _ := by field_simp
    | (n + 2), ih =>
      have h1 := ih (n + 1) (by omega)
      have h0 := ih n (by omega)
      have hn : ‖(2 * (n : ℂ) + 3)‖ = 2 * (n : ℝ) + 3 := by
        rw [show (2 * (n : ℂ) + 3) = ((2 * (n : ℝ) + 3 : ℝ) : ℂ) by push_cast; ring, Complex.norm_real,
          Real.norm_eq_abs, abs_of_nonneg (by positivity)]
      rw [sphH_rec n hz, revB]
      have hs : ‖(2 * (n : ℂ) + 3) / z * sphH (n + 1) z - sphH n z‖
          ≤ (2 * (n : ℝ) + 3) / ‖z‖ * ‖sphH (n + 1) z‖ + ‖sphH n z‖ := by
        refine (norm_sub_le _ _).trans (le_of_eq ?_)
        rw [norm_mul, norm_div, hn]
      calc ‖(2 * (n : ℂ) + 3) / z * sphH (n + 1) z - sphH n z‖ * ‖z‖ ^ (n + 2 + 1)
          ≤ ((2 * (n : ℝ) + 3) / ‖z‖ * ‖sphH (n + 1) z‖ + ‖sphH n z‖) * ‖z‖ ^ (n + 2 + 1) :=
            mul_le_mul_of_nonneg_right hs (by positivity)
        _ = (2 * (n : ℝ) + 3) * (‖sphH (n + 1) z‖ * ‖z‖ ^ (n + 1 + 1))
            + ‖z‖ ^ 2 * (‖sphH n z‖ * ‖z‖ ^ (n + 1)) := by
            rw [show n + 2 + 1 = (n + 1 + 1) + 1 by omega, pow_succ ‖z‖ (n + 1 + 1),
              show n + 1 + 1 = (n + 1) + 1 by omega, pow_succ ‖z‖ (n + 1)]
            field_simp
        _ ≤ (2 * (n : ℝ) + 3) * (‖Complex.exp (Complex.I * z)‖ * revB ‖z‖ (n + 1))
            + ‖z‖ ^ 2 * (‖Complex.exp (Complex.I * z)‖ * revB ‖z‖ n) :=
            add_le_add (mul_le_mul_of_nonneg_left h1 (by positivity)) (mul_le_mul_of_nonneg_left h0 (by positivity))
        _ = _ := by ring

/-- `|h_n(z)| ≤ |e^{iz}| e^{|z|} (2n-1)!! / |z|^{n+1}`, written with `(2n+1)!! / (2n+1)`. -/
theorem sphH_bound (n : ℕ) {z : ℂ} (hz : z ≠ 0) :
    ‖sphH n z‖ ≤ ‖Complex.exp (Complex.I * z)‖ * Real.exp ‖z‖ * (odd! n / (2 * (n : ℝ) + 1) / ‖z‖ ^ (n + 1)) := by
  have hzp : 0 < ‖z‖ := norm_pos_iff.mpr hz
  have h := sphH_revB n hz
  have hr : revB ‖z‖ n ≤ odd! n / (2 * (n : ℝ) + 1) * Real.exp ‖z‖ := by
    cases n with
    | zero =>
      simp only [revB, odd!, Nat.cast_zero, mul_zero, zero_add, div_one, one_mul]
      exact Real.one_le_exp (norm_nonneg z)
    | succ n =>
      refine (revB_le (norm_nonneg z) n).trans (le_of_eq ?_)
      rw [odd!]
      have : (2 * (((n + 1 : ℕ)) : ℝ) + 1) = 2 * (n : ℝ) + 3 := by push_cast; ring
      rw [this]
      field_simp
  have h2 : ‖sphH n z‖ * ‖z‖ ^ (n + 1) ≤ ‖Complex.exp (Complex.I * z)‖ * (odd! n / (2 * (n : ℝ) + 1) * Real.exp ‖z‖) :=
    h.trans (mul_le_mul_of_nonneg_left hr (norm_nonneg _))
  rw [← le_div_iff₀ (by positivity)] at h2
  refine h2.trans (le_of_eq ?_)
  field_simp

end Verif.Ts
