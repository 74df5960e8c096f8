import Verif.QBX.SphBessel
import Verif.QBX.LegendreGen
import Mathlib.Analysis.SpecialFunctions.Sqrt

/-!
# The addition theorem for the outgoing Helmholtz kernel

Supporting mathematics for C82 (no code is modelled here):
`h_0(k|S-T|) = Σ_n (2n+1) j_n(k|T|) h_n(k|S|) P_n(cos ∠(S,T))` for `|T| < |S|`.

The partial sum, moved rigidly (`T` and `S` shifted by the same vector along `T`), has a derivative
that telescopes to two boundary terms which decay geometrically; at `T → 0` it is `h_0(k|S-T|)`.
-/

namespace Verif.Ts

open Finset Filter Topology

/-- One term of the expansion at arguments `a = k|T|`, `b = k|S|`, `x = cos`. -/
noncomputable def hterm (a b : ℂ) (x : ℝ) (n : ℕ) : ℂ := (2 * (n : ℂ) + 1) * sphJ n a * sphH n b * (leg x n : ℝ)

/-- The partial sum through order `p`. -/
noncomputable def hsum (a b : ℂ) (x : ℝ) (p : ℕ) : ℂ := ∑ n ∈ range (p + 1), hterm a b x n

/-- The derivative of one term under a joint shift, divided by `k`. -/
noncomputable def hshift (a b : ℂ) (x : ℝ) (n : ℕ) : ℂ :=
  (2 * (n : ℂ) + 1) * ((n / a * sphJ n a - sphJ (n + 1) a) * sphH n b * (leg x n : ℝ)
    + sphJ n a * ((n / b * sphH n b - sphH (n + 1) b) * x * (leg x n : ℝ)
      + sphH n b * (dleg x n : ℝ) * (1 - (x : ℂ) ^ 2) / b))

/-- The telescoped sum. -/
theorem hshift_sum {a b : ℂ} (ha : a ≠ 0) (hb : b ≠ 0) (x : ℝ) (p : ℕ) :
    ∑ n ∈ range (p + 1), hshift a b x n
      = -(((p : ℂ) + 1) * (sphJ p a * sphH (p + 1) b * (leg x (p + 1) : ℝ)
          + sphJ (p + 1) a * sphH p b * (leg x p : ℝ))) := by
  induction p with
  | zero =>
    rw [sum_range_one, hshift]
    simp [leg, dleg]
    ring
  | succ p ih =>
    rw [sum_range_succ, ih, hshift]
    have hJ := sphJ_rec p ha
    have hH := sphH_rec p hb
    have hL : ((p : ℂ) + 2) * (leg x (p + 2) : ℝ)
        = (2 * (p : ℂ) + 3) * x * (leg x (p + 1) : ℝ) - ((p : ℂ) + 1) * (leg x p : ℝ) := by
      have h := leg_rec x p
      have h2 := congrArg (fun r : ℝ => (r : ℂ)) h
      push_cast at h2
      linear_combination h2
    have hD : (1 - (x : ℂ) ^ 2) * (dleg x (p + 1) : ℝ)
        = ((p : ℂ) + 1) * ((leg x p : ℝ) - x * (leg x (p + 1) : ℝ)) := by
      obtain ⟨h1, h2⟩ := dleg_pair x p
      have e : (1 - x ^ 2) * dleg x (p + 1) = ((p : ℝ) + 1) * (leg x p - x * leg x (p + 1)) := by
        linear_combination h2 - x * h1
      have h3 := congrArg (fun r : ℝ => (r : ℂ)) e
      push_cast at h3
      linear_combination h3
    rw [show p + 1 + 1 = p + 2 by rfl]
    push_cast
    rw [show sphH (p + 1) b * (dleg x (p + 1) : ℂ) * (1 - (x : ℂ) ^ 2) / b
        = sphH (p + 1) b * ((1 - (x : ℂ) ^ 2) * (dleg x (p + 1) : ℂ)) / b by ring, hD, hJ, hH]
    have e2 : ((p : ℂ) + 1 + 1) * ((leg x (p + 2) : ℝ) : ℂ)
        = (2 * (p : ℂ) + 3) * x * (leg x (p + 1) : ℝ) - ((p : ℂ) + 1) * (leg x p : ℝ) := by
      linear_combination hL
    have e3 : ∀ u v : ℂ, ((p : ℂ) + 1 + 1) * (u * ((leg x (p + 2) : ℝ) : ℂ) + v)
        = u * ((2 * (p : ℂ) + 3) * x * (leg x (p + 1) : ℝ) - ((p : ℂ) + 1) * (leg x p : ℝ))
          + ((p : ℂ) + 1 + 1) * v := fun u v => by linear_combination u * e2
    rw [e3]
    field_simp
    ring

/-! ## The bounds on terms and boundary terms -/

/-- The constant in all bounds. -/
noncomputable def hcst (a b : ℂ) : ℝ := Real.exp ‖a‖ * (‖Complex.exp (Complex.I * b)‖ * Real.exp ‖b‖)

theorem hcst_pos (a b : ℂ) : 0 < hcst a b := by
  have : 0 < ‖Complex.exp (Complex.I * b)‖ := norm_pos_iff.mpr (Complex.exp_ne_zero _)
  unfold hcst
  positivity

theorem jh_bound {a b : ℂ} (ha : a ≠ 0) (hb : b ≠ 0) (m n : ℕ) :
    ‖sphJ m a‖ * ‖sphH n b‖ ≤ hcst a b * (‖a‖ ^ m / odd! m * (odd! n / (2 * (n : ℝ) + 1) / ‖b‖ ^ (n + 1))) := by
  have h := mul_le_mul (sphJ_bound m ha) (sphH_bound n hb) (norm_nonneg _)
    (by have := odd!_pos m; positivity)
  refine h.trans (le_of_eq ?_)
  unfold hcst
  ring

theorem norm_odd (n : ℕ) : ‖(2 * (n : ℂ) + 1)‖ = 2 * (n : ℝ) + 1 := by
  rw [show (2 * (n : ℂ) + 1) = ((2 * (n : ℝ) + 1 : ℝ) : ℂ) by push_cast; ring, Complex.norm_real,
    Real.norm_eq_abs, abs_of_nonneg (by positivity)]

theorem hterm_bound {a b : ℂ} (ha : a ≠ 0) (hb : b ≠ 0) {x : ℝ} (h1 : -1 ≤ x) (h2 : x ≤ 1) (n : ℕ) :
    ‖hterm a b x n‖ ≤ hcst a b / ‖b‖ * (‖a‖ / ‖b‖) ^ n := by
  have hbp : 0 < ‖b‖ := norm_pos_iff.mpr hb
  have h := jh_bound ha hb n n
  have hod := odd!_pos n
  rw [hterm, norm_mul, norm_mul, norm_mul, norm_odd, Complex.norm_real, Real.norm_eq_abs]
  calc (2 * (n : ℝ) + 1) * ‖sphJ n a‖ * ‖sphH n b‖ * |leg x n|
      ≤ (2 * (n : ℝ) + 1) * ‖sphJ n a‖ * ‖sphH n b‖ * 1 :=
        mul_le_mul_of_nonneg_left (leg_abs_le h1 h2 n) (by positivity)
    _ = (2 * (n : ℝ) + 1) * (‖sphJ n a‖ * ‖sphH n b‖) := by ring
    _ ≤ (2 * (n : ℝ) + 1) * (hcst a b * (‖a‖ ^ n / odd! n * (odd! n / (2 * (n : ℝ) + 1) / ‖b‖ ^ (n + 1)))) :=
        mul_le_mul_of_nonneg_left h (by positivity)
    _ = _ := by
        rw [div_pow, pow_succ]
        field_simp

theorem hshift_bound {a b : ℂ} (ha : a ≠ 0) (hb : b ≠ 0) {x : ℝ} (h1 : -1 ≤ x) (h2 : x ≤ 1)
    (hab : ‖a‖ ≤ ‖b‖) (p : ℕ) :
    ‖∑ n ∈ range (p + 1), hshift a b x n‖
      ≤ hcst a b * (1 / ‖b‖ ^ 2 + 1) * (((p : ℝ) + 1) * (‖a‖ / ‖b‖) ^ p) := by
  have hbp : 0 < ‖b‖ := norm_pos_iff.mpr hb
  have hap : 0 < ‖a‖ := norm_pos_iff.mpr ha
  have hC := hcst_pos a b
  have hod := odd!_pos p
  have hp1 : ‖((p : ℂ) + 1)‖ = (p : ℝ) + 1 := by
    rw [show ((p : ℂ) + 1) = (((p : ℝ) + 1 : ℝ) : ℂ) by push_cast; ring, Complex.norm_real,
      Real.norm_eq_abs, abs_of_nonneg (by positivity)]
  rw [hshift_sum ha hb, norm_neg, norm_mul, hp1]
  have hA : ‖sphJ p a * sphH (p + 1) b * (leg x (p + 1) : ℝ)‖ ≤ hcst a b * (1 / ‖b‖ ^ 2 * (‖a‖ / ‖b‖) ^ p) := by
    rw [norm_mul, norm_mul, Complex.norm_real, Real.norm_eq_abs]
    calc _ ≤ ‖sphJ p a‖ * ‖sphH (p + 1) b‖ * 1 :=
          mul_le_mul_of_nonneg_left (leg_abs_le h1 h2 _) (by positivity)
      _ ≤ hcst a b * (‖a‖ ^ p / odd! p * (odd! (p + 1) / (2 * ((p + 1 : ℕ) : ℝ) + 1) / ‖b‖ ^ (p + 1 + 1))) := by
          rw [mul_one]; exact jh_bound ha hb p (p + 1)
      _ = _ := by
          rw [odd!]
          have : (2 * (((p + 1 : ℕ)) : ℝ) + 1) = 2 * (p : ℝ) + 3 := by push_cast; ring
          rw [this, div_pow, pow_succ, pow_succ]
          field_simp
  have hB : ‖sphJ (p + 1) a * sphH p b * (leg x p : ℝ)‖ ≤ hcst a b * (‖a‖ / ‖b‖) ^ p := by
    rw [norm_mul, norm_mul, Complex.norm_real, Real.norm_eq_abs]
    calc _ ≤ ‖sphJ (p + 1) a‖ * ‖sphH p b‖ * 1 :=
          mul_le_mul_of_nonneg_left (leg_abs_le h1 h2 _) (by positivity)
      _ ≤ hcst a b * (‖a‖ ^ (p + 1) / odd! (p + 1) * (odd! p / (2 * (p : ℝ) + 1) / ‖b‖ ^ (p + 1))) := by
          rw [mul_one]; exact jh_bound ha hb (p + 1) p
      _ = hcst a b * (‖a‖ / ‖b‖) ^ p * (‖a‖ / ‖b‖ / ((2 * (p : ℝ) + 3) * (2 * (p : ℝ) + 1))) := by
          rw [odd!, div_pow, pow_succ, pow_succ]
          field_simp
      _ ≤ hcst a b * (‖a‖ / ‖b‖) ^ p * 1 := by
          refine mul_le_mul_of_nonneg_left ?_ (by positivity)
          rw [div_le_one (by positivity)]
          have e1 : ‖a‖ / ‖b‖ ≤ 1 := (div_le_one hbp).mpr hab
          have e2 : (1 : ℝ) ≤ (2 * (p : ℝ) + 3) * (2 * (p : ℝ) + 1) := by nlinarith [(Nat.cast_nonneg p : (0:ℝ) ≤ p)]
          linarith
      _ = _ := mul_one _
  calc _ ≤ ((p : ℝ) + 1) * (hcst a b * (1 / ‖b‖ ^ 2 * (‖a‖ / ‖b‖) ^ p) + hcst a b * (‖a‖ / ‖b‖) ^ p) :=
        mul_le_mul_of_nonneg_left ((norm_add_le _ _).trans (add_le_add hA hB)) (by positivity)
    _ = _ := by ring

/-! ## The path -/

/-- `|S_r|² = d² + 2 r μ + r²` along the path. -/
noncomputable def pb (d μ r : ℝ) : ℝ := Real.sqrt (d ^ 2 + 2 * r * μ + r ^ 2)

theorem pb_pos {d μ r : ℝ} (hd : 0 < d ^ 2 + 2 * r * μ) : 0 < pb d μ r :=
  Real.sqrt_pos.mpr (by nlinarith [sq_nonneg r])

theorem pb_hasDeriv {d μ r : ℝ} (hd : 0 < d ^ 2 + 2 * r * μ) :
    HasDerivAt (pb d μ) ((μ + r) / pb d μ r) r := by
  have hne : d ^ 2 + 2 * r * μ + r ^ 2 ≠ 0 := by nlinarith [sq_nonneg r]
  have h0 : HasDerivAt (fun r => d ^ 2 + 2 * r * μ + r ^ 2) (2 * (μ + r)) r := by
    have h := (((hasDerivAt_id' r).const_mul 2).mul_const μ).const_add (d ^ 2)
    refine (h.fun_add (hasDerivAt_pow 2 r)).congr_deriv ?_
    simp; ring
  have h1 := h0.sqrt hne
  refine h1.congr_deriv ?_
  unfold pb
  rw [mul_div_mul_left _ _ two_ne_zero]

theorem px_hasDeriv {d μ r : ℝ} (hd : 0 < d ^ 2 + 2 * r * μ) :
    HasDerivAt (fun r => (μ + r) / pb d μ r) ((1 - ((μ + r) / pb d μ r) ^ 2) / pb d μ r) r := by
  have hb := pb_pos hd
  have h := ((hasDerivAt_id' r).const_add μ).fun_div (pb_hasDeriv hd) hb.ne'
  refine h.congr_deriv ?_
  field_simp

theorem px_range {d μ r : ℝ} (hd : 0 < d ^ 2 + 2 * r * μ) (hμ : |μ| ≤ d) :
    -1 ≤ (μ + r) / pb d μ r ∧ (μ + r) / pb d μ r ≤ 1 := by
  have hb := pb_pos hd
  have hsq : pb d μ r ^ 2 = d ^ 2 + 2 * r * μ + r ^ 2 := Real.sq_sqrt (by nlinarith [sq_nonneg r])
  have hd0 : μ ^ 2 ≤ d ^ 2 := sq_le_sq' (by linarith [neg_abs_le μ]) (by linarith [le_abs_self μ])
  have hle : |μ + r| ≤ pb d μ r := by
    apply abs_le_of_sq_le_sq _ hb.le
    rw [hsq]; nlinarith
  have := abs_le.mp hle
  constructor
  · rw [le_div_iff₀ hb]; linarith
  · rw [div_le_iff₀ hb]; linarith

theorem path_hasDeriv {k : ℂ} (hk : k ≠ 0) {d μ r : ℝ} (hr : 0 < r) (hd : 0 < d ^ 2 + 2 * r * μ) (p : ℕ) :
    HasDerivAt (fun r : ℝ => hsum (k * r) (k * pb d μ r) ((μ + r) / pb d μ r) p)
      (k * ∑ n ∈ range (p + 1), hshift (k * r) (k * pb d μ r) ((μ + r) / pb d μ r) n) r := by
  have hb := pb_pos hd
  have hak : k * (r : ℂ) ≠ 0 := mul_ne_zero hk (by exact_mod_cast hr.ne')
  have hbk : k * (pb d μ r : ℂ) ≠ 0 := mul_ne_zero hk (by exact_mod_cast hb.ne')
  have hA : HasDerivAt (fun r : ℝ => k * (r : ℂ)) k r := by
    simpa using (Complex.ofRealCLM.hasDerivAt (x := r)).const_mul k
  have hB : HasDerivAt (fun r : ℝ => k * (pb d μ r : ℂ)) (k * ((μ + r) / pb d μ r : ℝ)) r :=
    ((pb_hasDeriv hd).ofReal_comp).const_mul k
  simp only [hsum]
  rw [mul_sum]
  refine HasDerivAt.fun_sum fun n _ => ?_
  have hJ := HasDerivAt.comp_of_eq r (h₂ := sphJ n) (sphJ_hasDeriv n hak) hA rfl
  have hH := HasDerivAt.comp_of_eq r (h₂ := sphH n) (sphH_hasDeriv n hbk) hB rfl
  have hL := (((leg_hasDeriv n ((μ + r) / pb d μ r)).comp r (px_hasDeriv hd))).ofReal_comp
  have h := ((hJ.const_mul (2 * (n : ℂ) + 1)).fun_mul hH).fun_mul hL
  refine h.congr_deriv ?_
  obtain ⟨x, hx⟩ : ∃ x : ℝ, x = (μ + r) / pb d μ r := ⟨_, rfl⟩
  simp only [Function.comp, ← hx, hshift]
  have hb' : (pb d μ r : ℂ) ≠ 0 := by exact_mod_cast hb.ne'
  push_cast
  field_simp
  ring

/-- `hsum` near the start of the path. -/
theorem path_start {k : ℂ} (hk : k ≠ 0) {d μ : ℝ} (hd : 0 < d) (hμ : |μ| ≤ d) (p : ℕ) :
    Tendsto (fun r : ℝ => hsum (k * r) (k * pb d μ r) ((μ + r) / pb d μ r) p) (𝓝[>] 0) (𝓝 (sphH 0 (k * d))) := by
  have hp0 : pb d μ 0 = d := by
    unfold pb
    rw [mul_zero, zero_mul, add_zero, zero_pow two_ne_zero, add_zero, Real.sqrt_sq hd.le]
  have hd0 : 0 < d ^ 2 + 2 * (0 : ℝ) * μ := by rw [mul_zero, zero_mul, add_zero]; positivity
  have hcb : ContinuousAt (pb d μ) 0 := (pb_hasDeriv hd0).continuousAt
  have hbt : Tendsto (fun r : ℝ => k * (pb d μ r : ℂ)) (𝓝[>] 0) (𝓝 (k * d)) := by
    have h : Tendsto (pb d μ) (𝓝[>] 0) (𝓝 d) := by
      have := hcb.tendsto; rw [hp0] at this; exact this.mono_left nhdsWithin_le_nhds
    exact ((Complex.continuous_ofReal.tendsto d).comp h).const_mul k
  have hat : Tendsto (fun r : ℝ => k * (r : ℂ)) (𝓝[>] 0) (𝓝 0) := by
    have h : Tendsto (fun r : ℝ => r) (𝓝[>] 0) (𝓝 0) := tendsto_id.mono_left nhdsWithin_le_nhds
    have := ((Complex.continuous_ofReal.tendsto 0).comp h).const_mul k
    simpa using this
  have hkd : k * (d : ℂ) ≠ 0 := mul_ne_zero hk (by exact_mod_cast hd.ne')
  have hpos : ∀ᶠ r in 𝓝[>] (0 : ℝ), 0 < r := eventually_mem_nhdsWithin
  have hmu : ∀ᶠ r in 𝓝[>] (0 : ℝ), 0 < d ^ 2 + 2 * r * μ := by
    have h : Tendsto (fun r : ℝ => d ^ 2 + 2 * r * μ) (𝓝 0) (𝓝 (d ^ 2 + 2 * 0 * μ)) := by
      apply Continuous.tendsto; fun_prop
    exact ((h.eventually (lt_mem_nhds hd0)).filter_mono nhdsWithin_le_nhds)
  have hH : ∀ n, Tendsto (fun r : ℝ => sphH n (k * pb d μ r)) (𝓝[>] 0) (𝓝 (sphH n (k * d))) := fun n =>
    ((sphH_hasDeriv n hkd).continuousAt.tendsto).comp hbt
  have hsplit : ∀ᶠ r : ℝ in 𝓝[>] (0 : ℝ), hterm (k * r) (k * pb d μ r) ((μ + r) / pb d μ r) 0
      = sphJ 0 (k * r) * sphH 0 (k * pb d μ r) := by
    filter_upwards with r
    simp [hterm, leg]
  have hJ0 : Tendsto (fun r : ℝ => sphJ 0 (k * r)) (𝓝[>] 0) (𝓝 1) := by
    have hs : Tendsto (fun w : ℂ => Complex.sin w / w) (𝓝[≠] 0) (𝓝 1) := by
      have h := (Complex.hasDerivAt_sin 0)
      rw [hasDerivAt_iff_tendsto_slope, Complex.cos_zero] at h
      refine h.congr fun w => ?_
      rw [slope_def_field, Complex.sin_zero, sub_zero, sub_zero]
    have hat' : Tendsto (fun r : ℝ => k * (r : ℂ)) (𝓝[>] 0) (𝓝[≠] 0) := by
      rw [tendsto_nhdsWithin_iff]
      refine ⟨hat, ?_⟩
      filter_upwards [hpos] with r hr
      exact mul_ne_zero hk (by exact_mod_cast hr.ne')
    exact hs.comp hat'
  have h0 : Tendsto (fun r : ℝ => hterm (k * r) (k * pb d μ r) ((μ + r) / pb d μ r) 0) (𝓝[>] 0)
      (𝓝 (sphH 0 (k * d))) := by
    have h := hJ0.mul (hH 0)
    rw [one_mul] at h
    exact h.congr' (hsplit.mono fun r hr => hr.symm)
  have hn : ∀ n, Tendsto (fun r : ℝ => hterm (k * r) (k * pb d μ r) ((μ + r) / pb d μ r) (n + 1)) (𝓝[>] 0) (𝓝 0) := by
    intro n
    have hJ : Tendsto (fun r : ℝ => Real.exp ‖k * (r : ℂ)‖ * (‖k * (r : ℂ)‖ ^ (n + 1) / odd! (n + 1))) (𝓝[>] 0) (𝓝 0) := by
      have h1 : Tendsto (fun r : ℝ => ‖k * (r : ℂ)‖) (𝓝[>] 0) (𝓝 0) := by simpa using hat.norm
      have h2 : Continuous fun u : ℝ => Real.exp u * (u ^ (n + 1) / odd! (n + 1)) := by fun_prop
      have h3 := (h2.tendsto 0).comp h1
      have h4 : Real.exp 0 * ((0 : ℝ) ^ (n + 1) / odd! (n + 1)) = 0 := by simp
      rw [h4] at h3
      exact h3
    have hb := (hJ.mul (hH (n + 1)).norm).const_mul (2 * ((n + 1 : ℕ) : ℝ) + 1)
    rw [zero_mul, mul_zero] at hb
    refine squeeze_zero_norm' ?_ hb
    filter_upwards [hpos, hmu] with r hr hm
    have hak : k * (r : ℂ) ≠ 0 := mul_ne_zero hk (by exact_mod_cast hr.ne')
    obtain ⟨hx1, hx2⟩ := px_range hm hμ
    rw [hterm, norm_mul, norm_mul, norm_mul, norm_odd, Complex.norm_real, Real.norm_eq_abs]
    calc _ ≤ (2 * ((n + 1 : ℕ) : ℝ) + 1) * ‖sphJ (n + 1) (k * r)‖ * ‖sphH (n + 1) (k * pb d μ r)‖ * 1 :=
          mul_le_mul_of_nonneg_left (leg_abs_le hx1 hx2 _) (by positivity)
      _ = (2 * ((n + 1 : ℕ) : ℝ) + 1) * (‖sphJ (n + 1) (k * r)‖ * ‖sphH (n + 1) (k * pb d μ r)‖) := by ring
      _ ≤ _ := mul_le_mul_of_nonneg_left
          (mul_le_mul_of_nonneg_right (sphJ_bound (n + 1) hak) (norm_nonneg _)) (by positivity)
  have hsum' : Tendsto (fun r : ℝ => ∑ n ∈ range p, hterm (k * r) (k * pb d μ r) ((μ + r) / pb d μ r) (n + 1))
      (𝓝[>] 0) (𝓝 0) := by
    have h := tendsto_finsetSum (range p) fun n _ => hn n
    simpa using h
  have h := hsum'.add h0
  rw [zero_add] at h
  refine h.congr fun r => ?_
  rw [hsum, sum_range_succ']

/-- The addition theorem, along the path. -/
theorem hsum_tendsto {k : ℂ} (hk : k ≠ 0) {d μ t : ℝ} (hd : 0 < d) (hμ : |μ| ≤ d) (ht : 0 < t)
    (hst : 0 < d ^ 2 + 2 * t * μ) :
    Tendsto (fun p => hsum (k * t) (k * pb d μ t) ((μ + t) / pb d μ t) p) atTop (𝓝 (sphH 0 (k * d))) := by
  -- a uniform gap `|S_r|² - r² ≥ δ`
  obtain ⟨δ, hδ0, hδ⟩ : ∃ δ : ℝ, 0 < δ ∧ ∀ r, 0 ≤ r → r ≤ t → δ ≤ d ^ 2 + 2 * r * μ := by
    refine ⟨min (d ^ 2) (d ^ 2 + 2 * t * μ), lt_min (by positivity) hst, fun r h0 h1 => ?_⟩
    rcases le_total 0 μ with h | h
    · exact (min_le_left _ _).trans (by nlinarith)
    · exact (min_le_right _ _).trans (by nlinarith)
  have hkp : 0 < ‖k‖ := norm_pos_iff.mpr hk
  have hgap : ∀ r, 0 ≤ r → r ≤ t → 0 < d ^ 2 + 2 * r * μ := fun r h0 h1 => hδ0.trans_le (hδ r h0 h1)
  have hsq : ∀ r, 0 ≤ r → r ≤ t → pb d μ r ^ 2 = d ^ 2 + 2 * r * μ + r ^ 2 := fun r h0 h1 =>
    Real.sq_sqrt (by nlinarith [sq_nonneg r, hgap r h0 h1])
  -- uniform bounds on b
  have hblo : ∀ r, 0 ≤ r → r ≤ t → δ ≤ pb d μ r ^ 2 := fun r h0 h1 => by
    rw [hsq r h0 h1]; nlinarith [hδ r h0 h1, sq_nonneg r]
  have hbhi : ∀ r, 0 ≤ r → r ≤ t → pb d μ r ≤ d + t := fun r h0 h1 => by
    apply abs_le_of_sq_le_sq' _ (by linarith) |>.2
    rw [hsq r h0 h1]
    have h3 : μ ≤ d := (le_abs_self μ).trans hμ
    nlinarith
  obtain ⟨ρ, hρ⟩ : ∃ ρ, ρ = Real.sqrt (t ^ 2 / (t ^ 2 + δ)) := ⟨_, rfl⟩
  have hρ0 : 0 ≤ ρ := by rw [hρ]; exact Real.sqrt_nonneg _
  have hρ1 : ρ < 1 := by
    rw [hρ, Real.sqrt_lt' one_pos, one_pow, div_lt_one (by positivity)]
    linarith
  have hratio : ∀ r, 0 < r → r ≤ t → r / pb d μ r ≤ ρ := fun r h0 h1 => by
    have hbp := pb_pos (hgap r h0.le h1)
    rw [hρ]
    apply Real.le_sqrt_of_sq_le
    rw [div_pow, div_le_div_iff₀ (by positivity) (by positivity), hsq r h0.le h1]
    have h2 := hδ r h0.le h1
    have h3 : r ^ 2 ≤ t ^ 2 := by nlinarith
    nlinarith [mul_le_mul h3 h2 hδ0.le (sq_nonneg t)]
  obtain ⟨C, hC⟩ : ∃ C, C = Real.exp (‖k‖ * t) * (Real.exp (‖k‖ * (d + t)) * Real.exp (‖k‖ * (d + t)))
      * (1 / (‖k‖ ^ 2 * δ) + 1) := ⟨_, rfl⟩
  have hCp : 0 ≤ C := by rw [hC]; positivity
  have hbound : ∀ p, ‖hsum (k * t) (k * pb d μ t) ((μ + t) / pb d μ t) p - sphH 0 (k * d)‖
      ≤ (‖k‖ * (C * (((p : ℝ) + 1) * ρ ^ p))) * t := by
    intro p
    have hder : ∀ r ∈ Set.Ioc (0 : ℝ) t, ‖k * ∑ n ∈ range (p + 1), hshift (k * r) (k * pb d μ r) ((μ + r) / pb d μ r) n‖
        ≤ ‖k‖ * (C * (((p : ℝ) + 1) * ρ ^ p)) := by
      intro r hr
      have hg := hgap r hr.1.le hr.2
      have hbp := pb_pos hg
      have hak : k * (r : ℂ) ≠ 0 := mul_ne_zero hk (by exact_mod_cast hr.1.ne')
      have hbk : k * (pb d μ r : ℂ) ≠ 0 := mul_ne_zero hk (by exact_mod_cast hbp.ne')
      have na : ‖k * (r : ℂ)‖ = ‖k‖ * r := by
        rw [norm_mul, Complex.norm_real, Real.norm_eq_abs, abs_of_pos hr.1]
      have nb : ‖k * (pb d μ r : ℂ)‖ = ‖k‖ * pb d μ r := by
        rw [norm_mul, Complex.norm_real, Real.norm_eq_abs, abs_of_pos hbp]
      have nab : ‖k * (r : ℂ)‖ / ‖k * (pb d μ r : ℂ)‖ = r / pb d μ r := by
        rw [na, nb, mul_div_mul_left _ _ hkp.ne']
      have hrb := hratio r hr.1 hr.2
      have hle : ‖k * (r : ℂ)‖ ≤ ‖k * (pb d μ r : ℂ)‖ := by
        have h1 : r / pb d μ r ≤ 1 := hrb.trans hρ1.le
        rw [div_le_one hbp] at h1
        rw [na, nb]
        exact mul_le_mul_of_nonneg_left h1 hkp.le
      obtain ⟨hx1, hx2⟩ := px_range hg hμ
      have h := hshift_bound hak hbk hx1 hx2 hle p
      rw [norm_mul]
      refine mul_le_mul_of_nonneg_left (h.trans ?_) hkp.le
      have hcl : hcst (k * (r : ℂ)) (k * (pb d μ r : ℂ))
          ≤ Real.exp (‖k‖ * t) * (Real.exp (‖k‖ * (d + t)) * Real.exp (‖k‖ * (d + t))) := by
        have e1 : Real.exp ‖k * (r : ℂ)‖ ≤ Real.exp (‖k‖ * t) :=
          Real.exp_le_exp.mpr (by rw [na]; exact mul_le_mul_of_nonneg_left hr.2 hkp.le)
        have e2 : Real.exp ‖k * (pb d μ r : ℂ)‖ ≤ Real.exp (‖k‖ * (d + t)) :=
          Real.exp_le_exp.mpr (by rw [nb]; exact mul_le_mul_of_nonneg_left (hbhi r hr.1.le hr.2) hkp.le)
        have e3 : ‖Complex.exp (Complex.I * (k * (pb d μ r : ℂ)))‖ ≤ Real.exp (‖k‖ * (d + t)) := by
          refine (Complex.norm_exp_le_exp_norm _).trans ?_
          rw [norm_mul, Complex.norm_I, one_mul]
          exact e2
        unfold hcst
        exact mul_le_mul e1 (mul_le_mul e3 e2 (Real.exp_pos _).le (Real.exp_pos _).le) (by positivity) (by positivity)
      have hbl : 1 / ‖k * (pb d μ r : ℂ)‖ ^ 2 + 1 ≤ 1 / (‖k‖ ^ 2 * δ) + 1 := by
        rw [nb, mul_pow]
        gcongr
        exact hblo r hr.1.le hr.2
      rw [nab, hC]
      have hpw : ((p : ℝ) + 1) * (r / pb d μ r) ^ p ≤ ((p : ℝ) + 1) * ρ ^ p :=
        mul_le_mul_of_nonneg_left (pow_le_pow_left₀ (div_nonneg hr.1.le hbp.le) hrb p) (by positivity)
      exact mul_le_mul (mul_le_mul hcl hbl (by positivity) (by positivity)) hpw
        (mul_nonneg (by positivity) (pow_nonneg (div_nonneg hr.1.le hbp.le) p)) (by positivity)
    -- mean value inequality between ε and t
    have hmv : ∀ ε : ℝ, 0 < ε → ε ≤ t →
        ‖hsum (k * t) (k * pb d μ t) ((μ + t) / pb d μ t) p - hsum (k * ε) (k * pb d μ ε) ((μ + ε) / pb d μ ε) p‖
          ≤ (‖k‖ * (C * (((p : ℝ) + 1) * ρ ^ p))) * t := by
      intro ε h0 h1
      have h := Convex.norm_image_sub_le_of_norm_hasDerivWithin_le (𝕜 := ℝ)
        (f := fun r : ℝ => hsum (k * r) (k * pb d μ r) ((μ + r) / pb d μ r) p)
        (f' := fun r : ℝ => k * ∑ n ∈ range (p + 1), hshift (k * r) (k * pb d μ r) ((μ + r) / pb d μ r) n)
        (C := ‖k‖ * (C * (((p : ℝ) + 1) * ρ ^ p))) (s := Set.Icc ε t) (x := ε) (y := t)
        (fun r hr => (path_hasDeriv hk (h0.trans_le hr.1) (hgap r (h0.le.trans hr.1) hr.2) p).hasDerivWithinAt)
        (fun r hr => hder r ⟨h0.trans_le hr.1, hr.2⟩)
        (convex_Icc _ _) ⟨le_rfl, h1⟩ ⟨h1, le_rfl⟩
      refine h.trans (mul_le_mul_of_nonneg_left ?_ (by positivity))
      rw [Real.norm_eq_abs, abs_of_nonneg (by linarith)]
      linarith
    have hlim := ((tendsto_const_nhds (x := hsum (k * t) (k * pb d μ t) ((μ + t) / pb d μ t) p)).sub
      (path_start hk hd hμ p)).norm
    refine le_of_tendsto hlim ?_
    filter_upwards [eventually_mem_nhdsWithin, (Ioc_mem_nhdsGT ht)] with ε _ hε
    exact hmv ε hε.1 hε.2
  have hz : Tendsto (fun p : ℕ => (‖k‖ * (C * (((p : ℝ) + 1) * ρ ^ p))) * t) atTop (𝓝 0) := by
    have h := ((((tendsto_bdry (ρ := ρ) (by rwa [abs_of_nonneg hρ0]) 1).const_mul C).const_mul ‖k‖).mul_const t)
    simpa using h
  have h := squeeze_zero_norm hbound hz
  have h2 := h.add_const (sphH 0 (k * d))
  rw [zero_add] at h2
  exact h2.congr fun p => by ring

/-- The tail of the series. -/
theorem hsum_tail {a b : ℂ} (ha : a ≠ 0) (hb : b ≠ 0) {x : ℝ} (h1 : -1 ≤ x) (h2 : x ≤ 1) (hab : ‖a‖ < ‖b‖)
    (p m : ℕ) :
    ‖hsum a b x (p + m) - hsum a b x p‖ ≤ hcst a b * (‖a‖ / ‖b‖) ^ (p + 1) / (‖b‖ - ‖a‖) := by
  have hbp : 0 < ‖b‖ := norm_pos_iff.mpr hb
  have hC := hcst_pos a b
  obtain ⟨ρ, hρ⟩ : ∃ ρ, ρ = ‖a‖ / ‖b‖ := ⟨_, rfl⟩
  have hρ0 : 0 ≤ ρ := by rw [hρ]; positivity
  have hρ1 : ρ < 1 := by rw [hρ, div_lt_one hbp]; exact hab
  have key : ∀ m, ‖hsum a b x (p + m) - hsum a b x p‖
      ≤ hcst a b / ‖b‖ * ((ρ ^ (p + 1) - ρ ^ (p + 1 + m)) / (1 - ρ)) := by
    intro m
    induction m with
    | zero => simp
    | succ m ih =>
      have e : hsum a b x (p + (m + 1)) - hsum a b x p
          = (hsum a b x (p + m) - hsum a b x p) + hterm a b x (p + m + 1) := by
        rw [show p + (m + 1) = p + m + 1 by omega, hsum, sum_range_succ, ← hsum]
        ring
      have ht := hterm_bound ha hb h1 h2 (p + m + 1)
      rw [← hρ] at ht
      rw [e]
      refine (norm_add_le _ _).trans ((add_le_add ih ht).trans (le_of_eq ?_))
      have h1ρ : (1 - ρ) ≠ 0 := by linarith
      rw [show p + m + 1 = p + 1 + m by omega, show p + 1 + (m + 1) = p + 1 + m + 1 by omega, pow_succ ρ (p + 1 + m)]
      field_simp
      ring
  refine (key m).trans ?_
  rw [← hρ]
  have e2 : hcst a b * ρ ^ (p + 1) / (‖b‖ - ‖a‖) = hcst a b / ‖b‖ * (ρ ^ (p + 1) / (1 - ρ)) := by
    rw [hρ]
    have : ‖b‖ - ‖a‖ ≠ 0 := by linarith
    have h3 : 1 - ‖a‖ / ‖b‖ = (‖b‖ - ‖a‖) / ‖b‖ := by field_simp
    rw [h3]
    field_simp
  rw [e2]
  refine mul_le_mul_of_nonneg_left ?_ (by positivity)
  have h1ρ : 0 < 1 - ρ := by linarith
  rw [div_le_div_iff_of_pos_right h1ρ]
  have := pow_nonneg hρ0 (p + 1 + m)
  linarith

/-- The truncation error of the addition theorem. -/
theorem hsum_error {k : ℂ} (hk : k ≠ 0) {d μ t : ℝ} (hd : 0 < d) (hμ : |μ| ≤ d) (ht : 0 < t)
    (hst : 0 < d ^ 2 + 2 * t * μ) (p : ℕ) :
    ‖sphH 0 (k * d) - hsum (k * t) (k * pb d μ t) ((μ + t) / pb d μ t) p‖
      ≤ hcst (k * t) (k * pb d μ t) * (t / pb d μ t) ^ (p + 1) / (‖k‖ * (pb d μ t - t)) := by
  have hkp : 0 < ‖k‖ := norm_pos_iff.mpr hk
  have hbp := pb_pos hst
  have hak : k * (t : ℂ) ≠ 0 := mul_ne_zero hk (by exact_mod_cast ht.ne')
  have hbk : k * (pb d μ t : ℂ) ≠ 0 := mul_ne_zero hk (by exact_mod_cast hbp.ne')
  have na : ‖k * (t : ℂ)‖ = ‖k‖ * t := by rw [norm_mul, Complex.norm_real, Real.norm_eq_abs, abs_of_pos ht]
  have nb : ‖k * (pb d μ t : ℂ)‖ = ‖k‖ * pb d μ t := by
    rw [norm_mul, Complex.norm_real, Real.norm_eq_abs, abs_of_pos hbp]
  have htb : t < pb d μ t := by
    apply Real.lt_sqrt_of_sq_lt
    linarith
  obtain ⟨hx1, hx2⟩ := px_range hst hμ
  have hlim := (((hsum_tendsto hk hd hμ ht hst).comp (tendsto_add_atTop_nat p)).sub
    (tendsto_const_nhds (x := hsum (k * t) (k * pb d μ t) ((μ + t) / pb d μ t) p))).norm
  refine le_of_tendsto hlim (Eventually.of_forall fun m => ?_)
  have h := hsum_tail hak hbk hx1 hx2 (by rw [na, nb]; exact mul_lt_mul_of_pos_left htb hkp) p m
  rw [na, nb, mul_div_mul_left _ _ hkp.ne', ← mul_sub] at h
  simp only [Function.comp]
  rw [add_comm m p]
  exact h

end Verif.Ts
