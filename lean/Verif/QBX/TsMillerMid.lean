import Verif.QBX.TsMillerAcc

/-!
# Accuracy of the Bessel routine for `|z| ≤ 3`

`TsMillerAcc` treats `|z| ≤ 1`, where every solution of the recurrence is monotone.  Up to
`|z| = 3` (just below the first zero of `j_0`) the ratios of consecutive values are still bounded
below, by the constants `cc`.
-/

namespace Verif.Ts

open Fl Finset Filter Topology

theorem norm_coef3 {z : ℂ} (hz : z ≠ 0) (h3 : ‖z‖ ≤ 3) (i : ℕ) : (2 * (i : ℝ) + 1) / 3 ≤ ‖(2 * (i : ℂ) + 1) / z‖ := by
  rw [norm_div, norm_odd]
  exact div_le_div_of_nonneg_left (by positivity) (norm_pos_iff.mpr hz) h3

/-- Lower bounds for `|f (i-1)| / |f i|` of the decaying solutions. -/
noncomputable def cc (i : ℕ) : ℝ :=
  if i = 1 then 22 / 163 else if i = 2 then 163 / 141 else if i = 3 then 47 / 24 else 2 * (i : ℝ) / 3

theorem cc1 : cc 1 = 22 / 163 := by norm_num [cc]
theorem cc2 : cc 2 = 163 / 141 := by norm_num [cc]
theorem cc3 : cc 3 = 47 / 24 := by norm_num [cc]
theorem cc_big {i : ℕ} (h : 4 ≤ i) : cc i = 2 * (i : ℝ) / 3 := by
  unfold cc
  rw [if_neg (by omega), if_neg (by omega), if_neg (by omega)]

theorem cc_ge_one {i : ℕ} (h : 2 ≤ i) : 1 ≤ cc i := by
  by_cases h4 : 4 ≤ i
  · rw [cc_big h4]
    have : (4 : ℝ) ≤ i := by exact_mod_cast h4
    linarith
  · obtain rfl | rfl : i = 2 ∨ i = 3 := by omega
    · rw [cc2]; norm_num
    · rw [cc3]; norm_num

theorem cc_pos {i : ℕ} (h : 1 ≤ i) : 0 < cc i := by
  by_cases h2 : 2 ≤ i
  · exact lt_of_lt_of_le one_pos (cc_ge_one h2)
  · rw [show i = 1 by omega, cc1]; norm_num

/-- The bounds fit together: `c_i ≤ (2i+1)/3 - 1/c_{i+1}`. -/
theorem cc_step {i : ℕ} (h : 1 ≤ i) : cc i + 1 / cc (i + 1) ≤ (2 * (i : ℝ) + 1) / 3 := by
  by_cases h4 : 4 ≤ i
  · rw [cc_big h4, cc_big (by omega)]
    have h4' : (4 : ℝ) ≤ i := by exact_mod_cast h4
    push_cast
    have : 1 / (2 * ((i : ℝ) + 1) / 3) ≤ 1 / 3 := by
      apply one_div_le_one_div_of_le (by norm_num)
      linarith
    linarith
  · obtain rfl | rfl | rfl : i = 1 ∨ i = 2 ∨ i = 3 := by omega
    · rw [cc1, show 1 + 1 = 2 by rfl, cc2]; norm_num
    · rw [cc2, show 2 + 1 = 3 by rfl, cc3]; norm_num
    · rw [cc3, show 3 + 1 = 4 by rfl, cc_big (le_refl 4)]; norm_num

theorem cc_prod {i : ℕ} (h : 2 ≤ i) : 2 ≤ cc i * cc (i + 1) := by
  by_cases h3 : 3 ≤ i
  · have h1 := cc_ge_one (show 2 ≤ i by omega)
    have h2 : 2 ≤ cc (i + 1) := by
      rw [cc_big (by omega)]
      have : (3 : ℝ) ≤ i := by exact_mod_cast h3
      push_cast; linarith
    nlinarith
  · rw [show i = 2 by omega, cc2, show 2 + 1 = 3 by rfl, cc3]; norm_num

/-- Ratios propagate downwards. -/
theorem desc {z : ℂ} (hz : z ≠ 0) (h3 : ‖z‖ ≤ 3) {N : ℕ} {f : ℕ → ℂ} (hf : Rec z 1 N f)
    (h0 : cc N * ‖f N‖ ≤ ‖f (N - 1)‖) : ∀ m i, i + m = N → 1 ≤ i → cc i * ‖f i‖ ≤ ‖f (i - 1)‖ := by
  intro m
  induction m with
  | zero => intro i h _; rw [show i = N by omega]; exact h0
  | succ m ih =>
    intro i h h1
    have hp := ih (i + 1) (by omega) (by omega)
    rw [Nat.add_sub_cancel] at hp
    have hr := hf i h1 (by omega)
    have e : f (i - 1) = (2 * (i : ℂ) + 1) / z * f i - f (i + 1) := by rw [hr]; ring
    have hc := cc_pos (show 1 ≤ i + 1 by omega)
    have h4 : ‖f (i + 1)‖ ≤ 1 / cc (i + 1) * ‖f i‖ := by
      rw [one_div, inv_mul_eq_div, le_div_iff₀ hc]; linarith
    have h5 : ‖(2 * (i : ℂ) + 1) / z * f i‖ - ‖f (i + 1)‖ ≤ ‖f (i - 1)‖ := by rw [e]; exact norm_sub_norm_le _ _
    rw [norm_mul] at h5
    have h6 := mul_le_mul_of_nonneg_right (norm_coef3 hz h3 i) (norm_nonneg (f i))
    have h7 := mul_le_mul_of_nonneg_right (cc_step h1) (norm_nonneg (f i))
    linarith

theorem mil_ratio {z : ℂ} (hz : z ≠ 0) (h3 : ‖z‖ ≤ 3) {N i : ℕ} (h1 : 1 ≤ i) (h2 : i ≤ N) :
    cc i * ‖mil z N i‖ ≤ ‖mil z N (i - 1)‖ := by
  refine desc hz h3 (mil_Rec z N) ?_ (N - i) i (by omega) h1
  rw [(mil_top z N (by omega)).1, norm_zero, mul_zero]
  exact norm_nonneg _

/-- Solutions that do not decrease at an index from 3 on keep growing. -/
theorem grow3 {z : ℂ} (hz : z ≠ 0) (h3 : ‖z‖ ≤ 3) {lo hi : ℕ} (hl : 3 ≤ lo) {f : ℕ → ℂ} (hf : Rec z lo hi f)
    (h0 : ‖f (lo - 1)‖ ≤ ‖f lo‖) : ∀ i, lo ≤ i → i < hi →
      (2 * (i : ℝ) - 2) / 3 * ‖f i‖ ≤ ‖f (i + 1)‖ ∧ ‖f i‖ ≤ ‖f (i + 1)‖ := by
  have step : ∀ i, lo ≤ i → i < hi → ‖f (i - 1)‖ ≤ ‖f i‖ →
      (2 * (i : ℝ) - 2) / 3 * ‖f i‖ ≤ ‖f (i + 1)‖ ∧ ‖f i‖ ≤ ‖f (i + 1)‖ := by
    intro i h1 h2 hle
    have h4 : ‖(2 * (i : ℂ) + 1) / z * f i‖ - ‖f (i - 1)‖ ≤ ‖f (i + 1)‖ := by
      rw [hf i h1 h2]; exact norm_sub_norm_le _ _
    rw [norm_mul] at h4
    have h5 := mul_le_mul_of_nonneg_right (norm_coef3 hz h3 i) (norm_nonneg (f i))
    have hg : (2 * (i : ℝ) - 2) / 3 * ‖f i‖ ≤ ‖f (i + 1)‖ := by linarith
    refine ⟨hg, le_trans ?_ hg⟩
    have : (3 : ℝ) ≤ i := by exact_mod_cast hl.trans h1
    nlinarith [norm_nonneg (f i)]
  intro i h1 h2
  induction i, h1 using Nat.le_induction with
  | base => exact step lo le_rfl h2 h0
  | succ i h1 ih => exact step (i + 1) (by omega) h2 (ih (by omega)).2

theorem odd!_ge_pow (n : ℕ) : (3 : ℝ) ^ n * ((n : ℝ) + 1) ≤ 9 * odd! n := by
  induction n with
  | zero => simp [odd!]
  | succ n ih =>
    by_cases hn : n ≤ 1
    · obtain rfl | rfl : n = 0 ∨ n = 1 := by omega
      · norm_num [odd!]
      · norm_num [odd!]
    · have h2 : (2 : ℝ) ≤ n := by exact_mod_cast (by omega : 2 ≤ n)
      rw [odd!]; push_cast
      have h0 : (0 : ℝ) < 3 ^ n := by positivity
      have ho := odd!_pos n
      calc (3 : ℝ) ^ (n + 1) * ((n : ℝ) + 1 + 1) ≤ (2 * (n + 1) + 1) * (3 ^ n * ((n : ℝ) + 1)) := by
            rw [pow_succ]
            have : 3 * ((n : ℝ) + 2) ≤ (2 * (n + 1) + 1) * (n + 1) := by nlinarith
            nlinarith
        _ ≤ (2 * (n + 1) + 1) * (9 * odd! n) := mul_le_mul_of_nonneg_left ih (by positivity)
        _ = _ := by ring

/-- `|j_n|` is non-increasing from `n = 2` on for `|z| ≤ 3`. -/
theorem sphJ_decr3 {z : ℂ} (hz : z ≠ 0) (h3 : ‖z‖ ≤ 3) (n : ℕ) (hn : 2 ≤ n) : ‖sphJ (n + 1) z‖ ≤ ‖sphJ n z‖ := by
  by_contra hlt
  rw [not_le] at hlt
  have hgrow : ∀ m, ‖sphJ (n + 1) z‖ ≤ ‖sphJ (n + 1 + m) z‖ := by
    intro m
    induction m with
    | zero => exact le_rfl
    | succ m ih =>
      have hR : Rec z (n + 1) (n + 1 + m + 1) (fun i => sphJ i z) := fun i a b => sphJ_Rec hz _ i (by omega) b
      exact ih.trans (grow3 hz h3 (by omega) hR hlt.le (n + 1 + m) (by omega) (by omega)).2
  have hpos : 0 < ‖sphJ (n + 1) z‖ := lt_of_le_of_lt (norm_nonneg _) hlt
  obtain ⟨M, hM⟩ := exists_nat_gt (9 * Real.exp 3 / ‖sphJ (n + 1) z‖)
  have h := (hgrow M).trans (sphJ_bound (n + 1 + M) hz)
  have h2 : Real.exp ‖z‖ * (‖z‖ ^ (n + 1 + M) / odd! (n + 1 + M)) ≤ Real.exp 3 * (9 / ((M : ℝ) + 1)) := by
    refine mul_le_mul (Real.exp_le_exp.mpr h3) ?_
      (div_nonneg (pow_nonneg (norm_nonneg z) _) (odd!_pos _).le) (Real.exp_pos _).le
    have hp := pow_le_pow_left₀ (norm_nonneg z) h3 (n + 1 + M)
    have ho := odd!_ge_pow (n + 1 + M)
    rw [div_le_div_iff₀ (odd!_pos _) (by positivity)]
    push_cast at ho
    have h0 : (0 : ℝ) ≤ n := Nat.cast_nonneg n
    have hM0 : (0 : ℝ) ≤ M := Nat.cast_nonneg M
    have hp0 : (0 : ℝ) ≤ ‖z‖ ^ (n + 1 + M) := by positivity
    calc ‖z‖ ^ (n + 1 + M) * ((M : ℝ) + 1) ≤ 3 ^ (n + 1 + M) * ((n : ℝ) + 1 + M + 1) :=
          mul_le_mul hp (by linarith) (by positivity) (by positivity)
      _ ≤ _ := ho
  have h4 := h.trans h2
  rw [mul_div_assoc', le_div_iff₀ (by positivity)] at h4
  rw [div_lt_iff₀ hpos] at hM
  nlinarith

theorem sphJ_ratio_big {z : ℂ} (hz : z ≠ 0) (h3 : ‖z‖ ≤ 3) {N : ℕ} (hN : 5 ≤ N) :
    cc N * ‖sphJ N z‖ ≤ ‖sphJ (N - 1) z‖ := by
  have one : ∀ i, 5 ≤ i → ∀ c : ℝ, 0 < c → c * ‖sphJ (i + 1) z‖ ≤ ‖sphJ i z‖ →
      ((2 * (i : ℝ) + 1) / 3 - 1 / c) * ‖sphJ i z‖ ≤ ‖sphJ (i - 1) z‖ := by
    intro i hi c hc h
    have hr := sphJ_Rec hz (i + 1) i (by omega) (by omega)
    simp only at hr
    have e : sphJ (i - 1) z = (2 * (i : ℂ) + 1) / z * sphJ i z - sphJ (i + 1) z := by rw [hr]; ring
    have h5 : ‖(2 * (i : ℂ) + 1) / z * sphJ i z‖ - ‖sphJ (i + 1) z‖ ≤ ‖sphJ (i - 1) z‖ := by
      rw [e]; exact norm_sub_norm_le _ _
    rw [norm_mul] at h5
    have h6 := mul_le_mul_of_nonneg_right (norm_coef3 hz h3 i) (norm_nonneg (sphJ i z))
    have h4 : ‖sphJ (i + 1) z‖ ≤ 1 / c * ‖sphJ i z‖ := by
      rw [one_div, inv_mul_eq_div, le_div_iff₀ hc]; linarith
    linarith
  have hN' : (5 : ℝ) ≤ N := by exact_mod_cast hN
  have a := one (N + 1) (by omega) 1 one_pos (by rw [one_mul]; exact sphJ_decr3 hz h3 (N + 1) (by omega))
  rw [Nat.add_sub_cancel] at a
  push_cast at a
  have b := one N hN (2 * (N : ℝ) / 3) (by positivity) (le_trans (le_of_eq (by ring)) a)
  refine le_trans ?_ b
  rw [cc_big (by omega)]
  refine mul_le_mul_of_nonneg_right ?_ (norm_nonneg _)
  have : 1 / (2 * (N : ℝ) / 3) ≤ 1 / 3 := one_div_le_one_div_of_le (by norm_num) (by linarith)
  linarith

theorem sphJ_ratio {z : ℂ} (hz : z ≠ 0) (h3 : ‖z‖ ≤ 3) {i : ℕ} (h1 : 1 ≤ i) :
    cc i * ‖sphJ i z‖ ≤ ‖sphJ (i - 1) z‖ :=
  desc hz h3 (f := fun n => sphJ n z) (sphJ_Rec hz (i + 5)) (sphJ_ratio_big hz h3 (by omega)) 5 i rfl h1

theorem sphJ_anti3 {z : ℂ} (hz : z ≠ 0) (h3 : ‖z‖ ≤ 3) {m n : ℕ} (hm : 1 ≤ m) (h : m ≤ n) :
    ‖sphJ n z‖ ≤ ‖sphJ m z‖ := by
  induction n, h using Nat.le_induction with
  | base => exact le_rfl
  | succ n hmn ih =>
    refine le_trans ?_ ih
    have h := sphJ_ratio hz h3 (show 1 ≤ n + 1 by omega)
    rw [Nat.add_sub_cancel] at h
    have hc := cc_ge_one (show 2 ≤ n + 1 by omega)
    nlinarith [norm_nonneg (sphJ (n + 1) z)]

theorem sphJ_one_le {z : ℂ} (hz : z ≠ 0) (h3 : ‖z‖ ≤ 3) : ‖sphJ 1 z‖ ≤ 163 / 22 * ‖sphJ 0 z‖ := by
  have h := sphJ_ratio hz h3 (le_refl 1)
  rw [cc1, Nat.sub_self] at h
  linarith

theorem mil_decr3 {z : ℂ} (hz : z ≠ 0) (h3 : ‖z‖ ≤ 3) {N i j : ℕ} (hi : 1 ≤ i) (hij : i ≤ j) (h : j ≤ N) :
    ‖mil z N j‖ ≤ ‖mil z N i‖ := by
  induction j, hij using Nat.le_induction with
  | base => exact le_rfl
  | succ j hij ih =>
    refine le_trans ?_ (ih (by omega))
    have h := mil_ratio hz h3 (show 1 ≤ j + 1 by omega) h
    rw [Nat.add_sub_cancel] at h
    have hc := cc_ge_one (show 2 ≤ j + 1 by omega)
    nlinarith [norm_nonneg (mil z N (j + 1))]

theorem mil_ne3 {z : ℂ} (hz : z ≠ 0) (h3 : ‖z‖ ≤ 3) {N : ℕ} : ∀ m i, i + m + 1 = N → mil z N i ≠ 0 := by
  intro m
  induction m with
  | zero => intro i h; rw [show i = N - 1 by omega, (mil_top z N (by omega)).2]; exact one_ne_zero
  | succ m ih =>
    intro i h h0
    have hr := mil_ratio hz h3 (show 1 ≤ i + 1 by omega) (show i + 1 ≤ N by omega)
    rw [Nat.add_sub_cancel, h0, norm_zero] at hr
    have hp := norm_pos_iff.mpr (ih (i + 1) (by omega))
    have := mul_pos (cc_pos (show 1 ≤ i + 1 by omega)) hp
    linarith

theorem mil_norm3 {z : ℂ} (hz : z ≠ 0) (h3 : ‖z‖ ≤ 3) {N : ℕ} (hN : 2 ≤ N) : mil z N (normIx z) ≠ 0 := by
  have := normIx_le z
  exact mil_ne3 hz h3 (N - normIx z - 1) _ (by omega)

theorem normIx_one {z : ℂ} (hz : z ≠ 0) (h : normIx z = 1) : 1 < ‖z‖ := by
  by_contra hle
  rw [normIx_zero hz (not_lt.mp hle)] at h
  exact absurd h (by norm_num)

/-! ## The error -/

theorem merr_first {z : ℂ} (hz : z ≠ 0) (h3 : ‖z‖ ≤ 3) {N : ℕ} (hN : 2 ≤ N) :
    ‖merr z N 1‖ * ‖mil z N 0‖ ≤ ‖sphJ N z‖ := by
  have h0 := merr_norm (mil_norm3 hz h3 hN)
  have hc := merr_casorati hz (i := 1) le_rfl (by omega : 1 ≤ N)
  rw [Nat.sub_self] at hc
  by_cases hm : normIx z = 1
  · rw [hm] at h0
    rw [h0, norm_zero, zero_mul]
    exact norm_nonneg _
  · have hle := normIx_le z
    rw [show normIx z = 0 by omega] at h0
    rw [h0, zero_mul, sub_zero] at hc
    rw [← norm_mul, hc, norm_neg]

theorem merr_bound3 {z : ℂ} (hz : z ≠ 0) (h3 : ‖z‖ ≤ 3) {N : ℕ} (hN : 2 ≤ N) : ∀ n, n + 1 ≤ N →
    ‖merr z N (n + 1)‖ * ‖mil z N n‖ ≤ 15 / 2 * ‖sphJ N z‖ := by
  have step : ∀ n, n + 2 ≤ N → ∀ B : ℝ, ‖merr z N (n + 1)‖ * ‖mil z N n‖ ≤ B * ‖sphJ N z‖ →
      ‖merr z N (n + 2)‖ * ‖mil z N (n + 1)‖ ≤ (1 + B / (cc (n + 1) * cc (n + 2))) * ‖sphJ N z‖ := by
    intro n h B hB
    have hc := merr_casorati hz (i := n + 2) (by omega) h
    rw [show n + 2 - 1 = n + 1 by omega] at hc
    have g1 := mil_ratio hz h3 (show 1 ≤ n + 1 by omega) (show n + 1 ≤ N by omega)
    have g2 := mil_ratio hz h3 (show 1 ≤ n + 2 by omega) (show n + 2 ≤ N by omega)
    rw [Nat.add_sub_cancel] at g1
    rw [show n + 2 - 1 = n + 1 by omega] at g2
    have p1 := cc_pos (show 1 ≤ n + 1 by omega)
    have p2 := cc_pos (show 1 ≤ n + 2 by omega)
    have e : merr z N (n + 2) * mil z N (n + 1) = merr z N (n + 1) * mil z N (n + 2) - sphJ N z := by
      linear_combination hc
    rw [← norm_mul, e]
    refine (norm_sub_le _ _).trans ?_
    rw [norm_mul]
    have h8 : cc (n + 1) * cc (n + 2) * ‖mil z N (n + 2)‖ ≤ ‖mil z N n‖ := by
      calc _ = cc (n + 1) * (cc (n + 2) * ‖mil z N (n + 2)‖) := by ring
        _ ≤ cc (n + 1) * ‖mil z N (n + 1)‖ := mul_le_mul_of_nonneg_left g2 p1.le
        _ ≤ _ := g1
    have h9 : ‖merr z N (n + 1)‖ * ‖mil z N (n + 2)‖ ≤ B * ‖sphJ N z‖ / (cc (n + 1) * cc (n + 2)) := by
      rw [le_div_iff₀ (by positivity)]
      calc _ = ‖merr z N (n + 1)‖ * (cc (n + 1) * cc (n + 2) * ‖mil z N (n + 2)‖) := by ring
        _ ≤ ‖merr z N (n + 1)‖ * ‖mil z N n‖ := mul_le_mul_of_nonneg_left h8 (norm_nonneg _)
        _ ≤ _ := hB
    have e2 : (1 + B / (cc (n + 1) * cc (n + 2))) * ‖sphJ N z‖
        = ‖sphJ N z‖ + B * ‖sphJ N z‖ / (cc (n + 1) * cc (n + 2)) := by ring
    rw [e2]; linarith
  have hj := norm_nonneg (sphJ N z)
  have h0 := merr_first hz h3 hN
  intro n
  induction n with
  | zero => intro _; rw [Nat.zero_add]; linarith
  | succ n ih =>
    intro h
    rcases Nat.eq_zero_or_pos n with hn | hn
    · subst hn
      have := step 0 h 1 (by rw [Nat.zero_add, one_mul]; exact h0)
      rw [Nat.zero_add, Nat.zero_add, cc1, cc2] at this
      refine this.trans (mul_le_mul_of_nonneg_right (by norm_num) hj)
    · refine (step n h (15 / 2) (ih (by omega))).trans (mul_le_mul_of_nonneg_right ?_ hj)
      have hp := cc_prod (show 2 ≤ n + 1 by omega)
      have : (15 / 2 : ℝ) / (cc (n + 1) * cc (n + 2)) ≤ 15 / 2 / 2 :=
        div_le_div_of_nonneg_left (by norm_num) (by norm_num) hp
      linarith

/-- Size of the downward recursion at the requested indices. -/
theorem mil_large {z : ℂ} (hz : z ≠ 0) (h3 : ‖z‖ ≤ 3) {nt N : ℕ} (h1 : 1 ≤ nt) (hT : IsTop z nt N) {n : ℕ}
    (hn1 : 1 ≤ n) (hn : n + 1 ≤ nt) : 10 ^ 20 ≤ ‖mil z N n‖ := by
  have hNt := hT.1
  have := mil_decr3 hz h3 hn1 (show n ≤ nt - 1 by omega) (show nt - 1 ≤ N by omega)
  rw [mil_pat z h1 hNt] at this
  exact hT.2.1.le.trans this

theorem mil_large_zero {z : ℂ} (hz : z ≠ 0) (h3 : ‖z‖ ≤ 3) {nt N : ℕ} (h1 : 1 ≤ nt) (hT : IsTop z nt N) :
    22 / 163 * 10 ^ 20 ≤ ‖mil z N 0‖ := by
  have hNt := hT.1
  by_cases h2 : 2 ≤ nt
  · have hl := mil_large hz h3 h1 hT le_rfl h2
    have hr := mil_ratio hz h3 (le_refl 1) (show 1 ≤ N by omega)
    rw [cc1, Nat.sub_self] at hr
    linarith
  · have hp := mil_pat z h1 hNt
    rw [show nt - 1 = 0 by omega] at hp
    have := hT.2.1
    rw [← hp] at this
    linarith

/-- Relative errors from index 1 on. -/
theorem merr_rel {z : ℂ} (hz : z ≠ 0) (h3 : ‖z‖ ≤ 3) {nt N : ℕ} (h1 : 1 ≤ nt) (hT : IsTop z nt N) (n : ℕ)
    (hn1 : 1 ≤ n) (hn : n ≤ nt) : ‖merr z N n‖ ≤ 15 / 2 / 10 ^ 20 * ‖sphJ n z‖ := by
  have hNt := hT.1
  have hd := sphJ_anti3 hz h3 hn1 (show n ≤ N by omega)
  by_cases h2 : 2 ≤ n
  · obtain ⟨m, rfl⟩ : ∃ m, n = m + 1 := ⟨n - 1, by omega⟩
    have hb := merr_bound3 hz h3 (by omega) m (by omega : m + 1 ≤ N)
    have hbig := mil_large hz h3 h1 hT (show 1 ≤ m by omega) hn
    have h4 : ‖merr z N (m + 1)‖ * 10 ^ 20 ≤ 15 / 2 * ‖sphJ (m + 1) z‖ := by
      refine (mul_le_mul_of_nonneg_left hbig (norm_nonneg _)).trans (hb.trans ?_)
      linarith
    rw [← le_div_iff₀ (by positivity)] at h4
    exact h4.trans (le_of_eq (by ring))
  · obtain rfl : n = 1 := by omega
    have hb := merr_first hz h3 (by omega : 2 ≤ N)
    have hbig := mil_large_zero hz h3 h1 hT
    have h4 : ‖merr z N 1‖ * (22 / 163 * 10 ^ 20) ≤ ‖sphJ 1 z‖ :=
      (mul_le_mul_of_nonneg_left hbig (norm_nonneg _)).trans (hb.trans hd)
    rw [← le_div_iff₀ (by positivity)] at h4
    refine h4.trans ?_
    rw [div_eq_mul_inv, mul_comm]
    exact mul_le_mul_of_nonneg_right (by norm_num) (norm_nonneg _)

theorem merr_zero {z : ℂ} (hz : z ≠ 0) (h3 : ‖z‖ ≤ 3) {nt N : ℕ} (h1 : 1 ≤ nt) (hT : IsTop z nt N) :
    ‖merr z N 0‖ ≤ 30 / 10 ^ 20 * ‖sphJ 0 z‖ := by
  have hNt := hT.1
  have h0 := merr_norm (mil_norm3 hz h3 (show 2 ≤ N by omega))
  by_cases hm : normIx z = 1
  · have hz1 := normIx_one hz hm
    rw [hm] at h0
    have hc := merr_casorati hz (i := 1) le_rfl (by omega : 1 ≤ N)
    rw [Nat.sub_self, h0, zero_mul, zero_sub, neg_inj] at hc
    have hd := (sphJ_anti3 hz h3 (le_refl 1) (show 1 ≤ N by omega)).trans (sphJ_one_le hz h3)
    have hbig : 1 / 4 * 10 ^ 20 ≤ ‖mil z N 1‖ := by
      by_cases h2 : 2 ≤ nt
      · have := mil_large hz h3 h1 hT le_rfl h2
        linarith
      · have hp := mil_pat z h1 hNt
        rw [show nt - 1 = 0 by omega] at hp
        have ht := hT.2.1
        rw [← hp] at ht
        have hd := mil_down z N 1 le_rfl (by omega)
        rw [Nat.sub_self] at hd
        have hdec := mil_decr3 hz h3 (le_refl 1) (Nat.le_succ 1) (show 2 ≤ N by omega)
        have hq : ‖(2 * ((1 : ℕ) : ℂ) + 1) / z‖ ≤ 3 := by
          rw [norm_div, norm_odd, div_le_iff₀ (by linarith)]
          push_cast; linarith
        have : ‖mil z N 0‖ ≤ 3 * ‖mil z N 1‖ + ‖mil z N 2‖ := by
          rw [hd]
          refine (norm_sub_le _ _).trans ?_
          rw [norm_mul]
          exact add_le_add (mul_le_mul_of_nonneg_right hq (norm_nonneg _)) le_rfl
        have hdec' : ‖mil z N 2‖ ≤ ‖mil z N 1‖ := hdec
        linarith
    have h4 : ‖merr z N 0‖ * (1 / 4 * 10 ^ 20) ≤ 163 / 22 * ‖sphJ 0 z‖ := by
      refine (mul_le_mul_of_nonneg_left hbig (norm_nonneg _)).trans ?_
      rw [← norm_mul, hc]; exact hd
    rw [← le_div_iff₀ (by positivity)] at h4
    refine h4.trans ?_
    rw [mul_div_right_comm]
    exact mul_le_mul_of_nonneg_right (by norm_num) (norm_nonneg _)
  · have hle := normIx_le z
    rw [show normIx z = 0 by omega] at h0
    rw [h0, norm_zero]; positivity

/-- Relative accuracy of the values for `|z| ≤ 3`. -/
theorem mval_accuracy3 {z : ℂ} (hz : z ≠ 0) (h3 : ‖z‖ ≤ 3) {nt N : ℕ} (h1 : 1 ≤ nt) (hT : IsTop z nt N) (n : ℕ)
    (hn : n ≤ nt) : ‖mval z N n - sphJ n z‖ ≤ 5 / 10 ^ 19 * ‖sphJ n z‖ := by
  show ‖merr z N n‖ ≤ _
  rcases Nat.eq_zero_or_pos n with h0 | h0
  · subst h0
    exact (merr_zero hz h3 h1 hT).trans (mul_le_mul_of_nonneg_right (by norm_num) (norm_nonneg _))
  · exact (merr_rel hz h3 h1 hT n h0 hn).trans (mul_le_mul_of_nonneg_right (by norm_num) (norm_nonneg _))

/-- Ratio over two indices. -/
theorem sphJ_two {z : ℂ} (hz : z ≠ 0) (h3 : ‖z‖ ≤ 3) (i : ℕ) : ‖sphJ (i + 2) z‖ ≤ 141 / 22 * ‖sphJ i z‖ := by
  rcases Nat.eq_zero_or_pos i with h0 | h0
  · subst h0
    have a := sphJ_ratio hz h3 (le_refl 1)
    have b := sphJ_ratio hz h3 (show 1 ≤ 2 by norm_num)
    rw [cc1, Nat.sub_self] at a
    rw [cc2, show 2 - 1 = 1 by rfl] at b
    rw [Nat.zero_add]
    linarith
  · have := sphJ_anti3 hz h3 h0 (show i ≤ i + 2 by omega)
    linarith [norm_nonneg (sphJ i z)]

/-- The value just above the requested ones. -/
theorem merr_above {z : ℂ} (hz : z ≠ 0) (h3 : ‖z‖ ≤ 3) {nt N : ℕ} (h1 : 1 ≤ nt) (hT : IsTop z nt N) :
    ‖merr z N (nt + 1)‖ ≤ 119 / 10 ^ 20 * ‖sphJ (nt - 1) z‖ := by
  have hNt := hT.1
  have hb := merr_bound3 hz h3 (by omega) nt (by omega : nt + 1 ≤ N)
  have hd := mil_down z N nt h1 hNt
  have hdec := mil_decr3 hz h3 h1 (Nat.le_succ nt) (show nt + 1 ≤ N by omega)
  obtain ⟨q, hq⟩ : ∃ q, q = ‖(2 * (nt : ℂ) + 1) / z‖ := ⟨_, rfl⟩
  have hq0 : 0 ≤ q := by rw [hq]; exact norm_nonneg _
  have hup : 10 ^ 20 ≤ (q + 1) * ‖mil z N nt‖ := by
    have : ‖mil z N (nt - 1)‖ ≤ q * ‖mil z N nt‖ + ‖mil z N (nt + 1)‖ := by
      rw [hd, hq, ← norm_mul]; exact norm_sub_le _ _
    rw [mil_pat z h1 hNt] at this
    linarith [hT.2.1]
  have hj : ‖sphJ N z‖ * (q + 1) ≤ (1 + 163 / 11) * ‖sphJ (nt - 1) z‖ := by
    have hr := sphJ_Rec hz (nt + 1) nt h1 (by omega)
    simp only at hr
    have e : (2 * (nt : ℂ) + 1) / z * sphJ nt z = sphJ (nt + 1) z + sphJ (nt - 1) z := by
      linear_combination -hr
    have h4 : q * ‖sphJ nt z‖ ≤ ‖sphJ (nt + 1) z‖ + ‖sphJ (nt - 1) z‖ := by
      rw [hq, ← norm_mul, e]; exact norm_add_le _ _
    have a1 := sphJ_anti3 hz h3 h1 (show nt ≤ N by omega)
    have a2 := sphJ_anti3 hz h3 h1 (show nt ≤ nt + 1 by omega)
    have a3 : ‖sphJ nt z‖ ≤ 163 / 22 * ‖sphJ (nt - 1) z‖ := by
      by_cases h2 : 2 ≤ nt
      · have := sphJ_anti3 hz h3 (show 1 ≤ nt - 1 by omega) (show nt - 1 ≤ nt by omega)
        linarith [norm_nonneg (sphJ (nt - 1) z)]
      · rw [show nt = 1 by omega, Nat.sub_self]
        exact sphJ_one_le hz h3
    nlinarith [mul_le_mul_of_nonneg_left a1 hq0]
  have h4 : ‖merr z N (nt + 1)‖ * 10 ^ 20 ≤ 119 * ‖sphJ (nt - 1) z‖ := by
    calc ‖merr z N (nt + 1)‖ * 10 ^ 20 ≤ ‖merr z N (nt + 1)‖ * ((q + 1) * ‖mil z N nt‖) :=
          mul_le_mul_of_nonneg_left hup (norm_nonneg _)
      _ = (‖merr z N (nt + 1)‖ * ‖mil z N nt‖) * (q + 1) := by ring
      _ ≤ (15 / 2 * ‖sphJ N z‖) * (q + 1) := mul_le_mul_of_nonneg_right hb (by positivity)
      _ = 15 / 2 * (‖sphJ N z‖ * (q + 1)) := by ring
      _ ≤ 15 / 2 * ((1 + 163 / 11) * ‖sphJ (nt - 1) z‖) := mul_le_mul_of_nonneg_left hj (by norm_num)
      _ ≤ _ := by linarith [norm_nonneg (sphJ (nt - 1) z)]
  rw [← le_div_iff₀ (by positivity)] at h4
  exact h4.trans (le_of_eq (by ring))

/-- Accuracy of the derivatives for `|z| ≤ 3`. -/
theorem dval_accuracy3 {z : ℂ} (hz : z ≠ 0) (h3 : ‖z‖ ≤ 3) {nt N : ℕ} (h1 : 1 ≤ nt) (hT : IsTop z nt N) (n : ℕ)
    (hn : n ≤ nt) : ‖dval (mval z N) n - dval (fun m => sphJ m z) n‖ ≤ 1 / 10 ^ 18 * ‖sphJ (n - 1) z‖ := by
  have hup : ∀ i, i + 1 ≤ nt → ‖merr z N (i + 2)‖ ≤ 119 / 10 ^ 20 * ‖sphJ i z‖ := by
    intro i hi
    by_cases hi' : i + 2 ≤ nt
    · refine (merr_rel hz h3 h1 hT (i + 2) (by omega) hi').trans ?_
      have := mul_le_mul_of_nonneg_left (sphJ_two hz h3 i) (show (0 : ℝ) ≤ 15 / 2 / 10 ^ 20 by positivity)
      refine this.trans ?_
      rw [← mul_assoc]
      exact mul_le_mul_of_nonneg_right (by norm_num) (norm_nonneg _)
    · have := merr_above hz h3 h1 hT
      rw [show nt + 1 = i + 2 by omega, show nt - 1 = i by omega] at this
      exact this
  have hlow : ∀ i, i ≤ nt → ‖merr z N i‖ ≤ 30 / 10 ^ 20 * ‖sphJ i z‖ := by
    intro i hi
    rcases Nat.eq_zero_or_pos i with h0 | h0
    · subst h0; exact merr_zero hz h3 h1 hT
    · exact (merr_rel hz h3 h1 hT i h0 hi).trans (mul_le_mul_of_nonneg_right (by norm_num) (norm_nonneg _))
  unfold dval
  cases n with
  | zero =>
    rw [if_pos rfl, if_pos rfl]
    have e : -mval z N 1 - -sphJ 1 z = -merr z N 1 := by unfold merr; ring
    rw [e, norm_neg]
    refine (merr_rel hz h3 h1 hT 1 le_rfl h1).trans ?_
    have := mul_le_mul_of_nonneg_left (sphJ_one_le hz h3) (show (0 : ℝ) ≤ 15 / 2 / 10 ^ 20 by positivity)
    refine this.trans ?_
    rw [← mul_assoc]
    exact mul_le_mul_of_nonneg_right (by norm_num) (norm_nonneg _)
  | succ n =>
    rw [if_neg (by omega), if_neg (by omega), Nat.add_sub_cancel]
    have hnc : (2 * ((n + 1 : ℕ) : ℂ) + 1) ≠ 0 := by
      rw [← norm_pos_iff, norm_odd]; positivity
    have e : (((n + 1 : ℕ) : ℂ) * mval z N n - (((n + 1 : ℕ) : ℂ) + 1) * mval z N (n + 1 + 1)) / (2 * ((n + 1 : ℕ) : ℂ) + 1)
        - (((n + 1 : ℕ) : ℂ) * sphJ n z - (((n + 1 : ℕ) : ℂ) + 1) * sphJ (n + 1 + 1) z) / (2 * ((n + 1 : ℕ) : ℂ) + 1)
        = (((n + 1 : ℕ) : ℂ) * merr z N n - ((n + 2 : ℕ) : ℂ) * merr z N (n + 2)) / (2 * ((n + 1 : ℕ) : ℂ) + 1) := by
      rw [← sub_div]; congr 1
      unfold merr; push_cast; ring
    rw [e, norm_div, norm_odd, div_le_iff₀ (by positivity)]
    refine (norm_sub_le _ _).trans ?_
    rw [norm_mul, norm_mul, Complex.norm_natCast, Complex.norm_natCast]
    have c1 := mul_le_mul_of_nonneg_left (hlow n (by omega)) (show (0 : ℝ) ≤ ((n + 1 : ℕ) : ℝ) by positivity)
    have c2 := mul_le_mul_of_nonneg_left (hup n (by omega)) (show (0 : ℝ) ≤ ((n + 2 : ℕ) : ℝ) by positivity)
    refine (add_le_add c1 c2).trans ?_
    have hn0 : (0 : ℝ) ≤ n := Nat.cast_nonneg n
    push_cast
    nlinarith [norm_nonneg (sphJ n z), mul_nonneg hn0 (norm_nonneg (sphJ n z))]

/-- For `|z| ≤ 3` and at most 50 terms the top index stays inside the work array. -/
theorem top_exists3 {z : ℂ} (hz : z ≠ 0) (h3 : ‖z‖ ≤ 3) {nt : ℕ} (h1 : 1 ≤ nt) (h2 : nt ≤ 50) :
    ∃ N, IsTop z nt N ∧ N < bufSize := by
  have hbig : 10 ^ 20 < ‖pat z nt 63‖ := by
    rw [← mil_pat z h1 (by omega : nt < 63)]
    have s (i : ℕ) (hi : 4 ≤ i) (hi' : i ≤ 63) : 2 * (i : ℝ) / 3 * ‖mil z 63 i‖ ≤ ‖mil z 63 (i - 1)‖ := by
      rw [← cc_big hi]; exact mil_ratio hz h3 (by omega) hi'
    have h62 : ‖mil z 63 62‖ = 1 := by rw [(mil_top z 63 (by norm_num)).2, norm_one]
    have a0 := s 62 (by omega) (by omega)
    have a1 := s 61 (by omega) (by omega)
    have a2 := s 60 (by omega) (by omega)
    have a3 := s 59 (by omega) (by omega)
    have a4 := s 58 (by omega) (by omega)
    have a5 := s 57 (by omega) (by omega)
    have a6 := s 56 (by omega) (by omega)
    have a7 := s 55 (by omega) (by omega)
    have a8 := s 54 (by omega) (by omega)
    have a9 := s 53 (by omega) (by omega)
    have a10 := s 52 (by omega) (by omega)
    have a11 := s 51 (by omega) (by omega)
    have a12 := s 50 (by omega) (by omega)
    have a13 := s 49 (by omega) (by omega)
    norm_num at a0 a1 a2 a3 a4 a5 a6 a7 a8 a9 a10 a11 a12 a13
    have h49 : 10 ^ 20 < ‖mil z 63 49‖ := by norm_num; linarith
    have h48 : 10 * 10 ^ 20 < ‖mil z 63 48‖ := by norm_num at h49 ⊢; linarith
    by_cases hn : 2 ≤ nt
    · exact h49.trans_le (mil_decr3 hz h3 (by omega) (by omega) (by norm_num))
    · have hr := mil_ratio hz h3 (le_refl 1) (show 1 ≤ 63 by norm_num)
      rw [cc1, Nat.sub_self] at hr
      have := mil_decr3 hz h3 (le_refl 1) (show 1 ≤ 48 by norm_num) (show 48 ≤ 63 by norm_num)
      rw [show nt - 1 = 0 by omega]
      linarith
  by_cases hex : ∃ N, nt < N ∧ N ≤ 63 ∧ 10 ^ 20 < ‖pat z nt N‖
  · classical
    refine ⟨Nat.find hex, ⟨(Nat.find_spec hex).1, (Nat.find_spec hex).2.2, fun l hl hl' => ?_⟩, ?_⟩
    · have := Nat.find_min hex hl'
      have hle := (Nat.find_spec hex).2.1
      by_contra hb
      exact this ⟨hl, by omega, not_le.mp hb⟩
    · have := (Nat.find_spec hex).2.1
      show _ < 64
      omega
  · exact absurd ⟨63, by omega, le_rfl, hbig⟩ hex

end Verif.Ts
