import Verif.QBX.TsHelmProps
import Mathlib.Analysis.Calculus.SmoothSeries

/-!
# C82: the gradients computed by the Helmholtz kernels approximate the gradients of the kernel

The local expansion can be differentiated term by term, so the derivatives the code computes
converge to the derivatives of `exp(ik|s-t|)/|s-t|`; with the precomputed Bessel values the total
error is bounded explicitly.
-/

namespace Verif.Ts

open Finset Filter Topology Fl

/-! ## Specification -/

/-- `∑_{n > p} (n+1)² ρⁿ`. -/
noncomputable def sqTail (ρ : ℝ) (p : ℕ) : ℝ := ∑' n : ℕ, ((n + (p + 1) : ℕ) + 1 : ℝ) ^ 2 * ρ ^ (n + (p + 1))

/-- `∑_n (n+1)² ρⁿ`. -/
noncomputable def sqTotal (ρ : ℝ) : ℝ := ∑' n : ℕ, ((n : ℝ) + 1) ^ 2 * ρ ^ n

/-! ## Bounds on the terms -/

theorem sq_summable {ρ : ℝ} (h0 : 0 ≤ ρ) (h1 : ρ < 1) : Summable fun n : ℕ => ((n : ℝ) + 1) ^ 2 * ρ ^ n := by
  have e : (fun n : ℕ => ((n : ℝ) + 1) ^ 2 * ρ ^ n)
      = fun n : ℕ => (n : ℝ) ^ 2 * ρ ^ n + (2 * ((n : ℝ) ^ 1 * ρ ^ n) + ρ ^ n) := by funext n; ring
  rw [e]
  have hn : ‖ρ‖ < 1 := by rwa [Real.norm_of_nonneg h0]
  exact (summable_pow_mul_geometric_of_norm_lt_one 2 hn).add
    (((summable_pow_mul_geometric_of_norm_lt_one 1 hn).mul_left 2).add (summable_geometric_of_norm_lt_one hn))

/-- The common size of the terms of order `n`. -/
noncomputable def hM (k : ℂ) (s c t : V3) : ℝ := helmConst k s c t / (‖k‖ * euclid s c)

theorem hM_pos {s c t : V3} (hs : s ≠ c) {k : ℂ} (hk : k ≠ 0) : 0 < hM k s c t := by
  have h1 := euclid_pos hs
  have h2 : 0 < ‖k‖ := norm_pos_iff.mpr hk
  have h3 : 0 < ‖Complex.exp (Complex.I * (k * euclid s c))‖ := norm_pos_iff.mpr (Complex.exp_ne_zero _)
  unfold hM helmConst
  positivity

theorem norm_k_mul (k : ℂ) {r : ℝ} (hr : 0 < r) : ‖k * (r : ℂ)‖ = ‖k‖ * r := by
  rw [norm_mul, Complex.norm_real, Real.norm_of_nonneg hr.le]

/-- `(2n+1) |j_m| |h_n|` for `m = n`, `n+1` and `n-1`, and `(2n+1) |j_n| |h_{n+1}|`. -/
theorem jh_sizes {s c t : V3} (ht : t ≠ c) (hs : s ≠ c) {k : ℂ} (hk : k ≠ 0) (n : ℕ) :
    (2 * (n : ℝ) + 1) * (‖sphJ n (k * euclid t c)‖ * ‖sphH n (k * euclid s c)‖)
      ≤ hM k s c t * (euclid t c / euclid s c) ^ n ∧
    (2 * (n : ℝ) + 1) * (‖sphJ (n + 1) (k * euclid t c)‖ * ‖sphH n (k * euclid s c)‖)
      ≤ hM k s c t * (euclid t c / euclid s c) ^ n * (‖k‖ * euclid t c) ∧
    (2 * ((n + 1 : ℕ) : ℝ) + 1) * (‖sphJ n (k * euclid t c)‖ * ‖sphH (n + 1) (k * euclid s c)‖)
      ≤ hM k s c t * (euclid t c / euclid s c) ^ (n + 1) * ((2 * ((n + 1 : ℕ) : ℝ) + 1) / (‖k‖ * euclid t c)) ∧
    (2 * (n : ℝ) + 1) * (‖sphJ n (k * euclid t c)‖ * ‖sphH (n + 1) (k * euclid s c)‖)
      ≤ hM k s c t * (euclid t c / euclid s c) ^ n * ((2 * (n : ℝ) + 1) / (‖k‖ * euclid s c)) := by
  have ha := euclid_pos ht
  have hb := euclid_pos hs
  have hkp : 0 < ‖k‖ := norm_pos_iff.mpr hk
  have hak : k * (euclid t c : ℂ) ≠ 0 := mul_ne_zero hk (by exact_mod_cast ha.ne')
  have hbk : k * (euclid s c : ℂ) ≠ 0 := mul_ne_zero hk (by exact_mod_cast hb.ne')
  have hod := odd!_pos n
  have hC : 0 < hcst (k * euclid t c) (k * euclid s c) := hcst_pos _ _
  have hM' : hM k s c t = hcst (k * euclid t c) (k * euclid s c) / (‖k‖ * euclid s c) := rfl
  obtain ⟨C, hCe⟩ : ∃ C, C = hcst (k * euclid t c) (k * euclid s c) := ⟨_, rfl⟩
  obtain ⟨q, hq⟩ : ∃ q, q = 2 * (n : ℝ) + 1 := ⟨_, rfl⟩
  obtain ⟨q3, hq3⟩ : ∃ q, q = 2 * (n : ℝ) + 3 := ⟨_, rfl⟩
  have hqp : 0 < q := by rw [hq]; positivity
  have hq3p : 0 < q3 := by rw [hq3]; positivity
  have hq31 : 1 ≤ q3 := by rw [hq3]; linarith [(Nat.cast_nonneg n : (0 : ℝ) ≤ n)]
  have hq1 : 2 * ((n + 1 : ℕ) : ℝ) + 1 = q3 := by rw [hq3]; push_cast; ring
  have ho1 : odd! (n + 1) = q3 * odd! n := by rw [odd!, hq3]
  rw [hM', ← hCe, hq1, ← hq]
  rw [← hCe] at hC
  refine ⟨?_, ?_, ?_, ?_⟩
  · have h := jh_bound hak hbk n n
    rw [norm_k_mul k ha, norm_k_mul k hb, ← hCe, ← hq] at h
    refine (mul_le_mul_of_nonneg_left h hqp.le).trans (le_of_eq ?_)
    rw [mul_pow, pow_succ, mul_pow, div_pow]
    field_simp
  · have h := jh_bound hak hbk (n + 1) n
    rw [norm_k_mul k ha, norm_k_mul k hb, ← hCe, ← hq, ho1] at h
    refine (mul_le_mul_of_nonneg_left h hqp.le).trans ?_
    have e : q * (C * ((‖k‖ * euclid t c) ^ (n + 1) / (q3 * odd! n) * (odd! n / q / (‖k‖ * euclid s c) ^ (n + 1))))
        = C / (‖k‖ * euclid s c) * (euclid t c / euclid s c) ^ n * (‖k‖ * euclid t c) / q3 := by
      rw [mul_pow, mul_pow, div_pow, pow_succ (euclid s c) n, pow_succ (‖k‖) n, pow_succ (euclid t c) n]
      field_simp
    rw [e]
    exact div_le_self (by positivity) hq31
  · have h := jh_bound hak hbk n (n + 1)
    rw [norm_k_mul k ha, norm_k_mul k hb, ← hCe, hq1, ho1] at h
    refine (mul_le_mul_of_nonneg_left h hq3p.le).trans (le_of_eq ?_)
    rw [mul_pow, mul_pow, div_pow, pow_succ (euclid s c) (n + 1), pow_succ (‖k‖) (n + 1), pow_succ (euclid t c) n,
      pow_succ (‖k‖) n]
    field_simp
  · have h := jh_bound hak hbk n (n + 1)
    rw [norm_k_mul k ha, norm_k_mul k hb, ← hCe, hq1, ho1] at h
    refine (mul_le_mul_of_nonneg_left h hqp.le).trans (le_of_eq ?_)
    rw [mul_pow, mul_pow, div_pow, pow_succ (euclid s c) (n + 1), pow_succ (‖k‖) (n + 1), pow_succ (euclid s c) n,
      pow_succ (‖k‖) n]
    field_simp

/-- A component is at most the length. -/
theorem comp_le (t c : V3) (m : Fin 3) : |t m - c m| ≤ euclid t c := by
  unfold euclid
  refine Real.abs_le_sqrt ?_
  exact single_le_sum (f := fun i => (t i - c i) ^ 2) (fun i _ => sq_nonneg _) (mem_univ m)

theorem w_le {s c t : V3} (ht : t ≠ c) (hs : s ≠ c) (m : Fin 3) :
    |(s m - c m) / euclid s c - cosv s c t * (t m - c m) / euclid t c| ≤ 2 := by
  have ha := euclid_pos ht
  have hb := euclid_pos hs
  have h1 : |(s m - c m) / euclid s c| ≤ 1 := by
    rw [abs_div, abs_of_pos hb, div_le_one hb]; exact comp_le s c m
  have h2 : |cosv s c t * (t m - c m) / euclid t c| ≤ 1 := by
    rw [abs_div, abs_of_pos ha, div_le_one ha, abs_mul]
    have hx := cosv_range s c t
    calc |cosv s c t| * |t m - c m| ≤ 1 * euclid t c :=
          mul_le_mul (abs_le.mpr hx) (comp_le t c m) (abs_nonneg _) zero_le_one
      _ = _ := one_mul _
  exact (abs_sub _ _).trans (by linarith)

/-- Size of the target derivative of one term. -/
theorem gT_bound {s c t : V3} (ht : t ≠ c) (hs : s ≠ c) {k : ℂ} (hk : k ≠ 0) (m : Fin 3) (n : ℕ) :
    ‖gT k s c m t n‖ ≤ hM k s c t / euclid t c * (3 + (‖k‖ * euclid t c) ^ 2)
      * (((n : ℝ) + 1) ^ 2 * (euclid t c / euclid s c) ^ n) := by
  have ha := euclid_pos ht
  have hb := euclid_pos hs
  have hkp : 0 < ‖k‖ := norm_pos_iff.mpr hk
  have hak : k * (euclid t c : ℂ) ≠ 0 := mul_ne_zero hk (by exact_mod_cast ha.ne')
  obtain ⟨h1, h2, _, _⟩ := jh_sizes ht hs hk n
  have hx := cosv_range s c t
  have hl := leg_abs_le hx.1 hx.2 n
  have hd := dleg_abs_le hx.1 hx.2 n
  have hw := w_le ht hs m
  have hcm := comp_le t c m
  have hMp := hM_pos (t := t) hs hk
  obtain ⟨J, hJ⟩ : ∃ J, J = ‖sphJ n (k * euclid t c)‖ := ⟨_, rfl⟩
  obtain ⟨J1, hJ1⟩ : ∃ J, J = ‖sphJ (n + 1) (k * euclid t c)‖ := ⟨_, rfl⟩
  obtain ⟨H, hH⟩ : ∃ H, H = ‖sphH n (k * euclid s c)‖ := ⟨_, rfl⟩
  obtain ⟨R, hR⟩ : ∃ R, R = hM k s c t * (euclid t c / euclid s c) ^ n := ⟨_, rfl⟩
  rw [← hJ, ← hH, ← hR] at h1
  rw [← hJ1, ← hH, ← hR] at h2
  have hJ0 : 0 ≤ J := hJ ▸ norm_nonneg _
  have hJ10 : 0 ≤ J1 := hJ1 ▸ norm_nonneg _
  have hH0 : 0 ≤ H := hH ▸ norm_nonneg _
  have hR0 : 0 ≤ R := by rw [hR]; positivity
  have hdv : ‖dval (fun i => sphJ i (k * euclid t c)) n‖ ≤ n / (‖k‖ * euclid t c) * J + J1 := by
    rw [(sphJ_dval n hak).unique (sphJ_hasDeriv n hak)]
    refine (norm_sub_le _ _).trans ?_
    rw [norm_mul, norm_div, norm_k_mul k ha, Complex.norm_natCast, ← hJ, ← hJ1]
  have hA : ‖k * dval (fun i => sphJ i (k * euclid t c)) n * (leg (cosv s c t) n : ℝ) * ((t m - c m : ℝ) : ℂ)‖
      ≤ n * J + ‖k‖ * euclid t c * J1 := by
    rw [norm_mul, norm_mul, norm_mul, Complex.norm_real, Complex.norm_real, Real.norm_eq_abs, Real.norm_eq_abs]
    calc _ ≤ ‖k‖ * (n / (‖k‖ * euclid t c) * J + J1) * 1 * euclid t c := by
          refine mul_le_mul (mul_le_mul (mul_le_mul_of_nonneg_left hdv hkp.le) hl (abs_nonneg _) (by positivity)) hcm
            (abs_nonneg _) (by positivity)
      _ = _ := by field_simp
  have hB : ‖(((s m - c m) / euclid s c - cosv s c t * (t m - c m) / euclid t c : ℝ) : ℂ) * sphJ n (k * euclid t c)
        * (dleg (cosv s c t) n : ℝ)‖ ≤ 2 * J * ((n : ℝ) + 1) ^ 2 := by
    rw [norm_mul, norm_mul, Complex.norm_real, Complex.norm_real, Real.norm_eq_abs, Real.norm_eq_abs, ← hJ]
    exact mul_le_mul (mul_le_mul_of_nonneg_right hw hJ0) hd (abs_nonneg _) (by positivity)
  have hS := (norm_add_le _ _).trans (add_le_add hA hB)
  unfold gT
  rw [norm_mul, norm_div, norm_mul, norm_odd, ← hH, Complex.norm_real, Real.norm_of_nonneg ha.le]
  refine (mul_le_mul_of_nonneg_left hS (by positivity)).trans ?_
  have e : (2 * (n : ℝ) + 1) * H / euclid t c * (n * J + ‖k‖ * euclid t c * J1 + 2 * J * ((n : ℝ) + 1) ^ 2)
      = ((n + 2 * ((n : ℝ) + 1) ^ 2) * ((2 * (n : ℝ) + 1) * (J * H))
        + ‖k‖ * euclid t c * ((2 * (n : ℝ) + 1) * (J1 * H))) / euclid t c := by ring
  rw [e]
  have e2 : hM k s c t / euclid t c * (3 + (‖k‖ * euclid t c) ^ 2)
      * (((n : ℝ) + 1) ^ 2 * (euclid t c / euclid s c) ^ n)
      = ((3 + (‖k‖ * euclid t c) ^ 2) * ((n : ℝ) + 1) ^ 2 * R) / euclid t c := by rw [hR]; ring
  rw [e2]
  refine div_le_div_of_nonneg_right ?_ ha.le
  have hn0 : (0 : ℝ) ≤ n := Nat.cast_nonneg n
  calc _ ≤ (n + 2 * ((n : ℝ) + 1) ^ 2) * R + ‖k‖ * euclid t c * (R * (‖k‖ * euclid t c)) :=
        add_le_add (mul_le_mul_of_nonneg_left h1 (by positivity)) (mul_le_mul_of_nonneg_left h2 (by positivity))
    _ = (n + 2 * ((n : ℝ) + 1) ^ 2 + (‖k‖ * euclid t c) ^ 2) * R := by ring
    _ ≤ _ := by
      refine mul_le_mul_of_nonneg_right ?_ hR0
      have h3 : (‖k‖ * euclid t c) ^ 2 * 1 ≤ (‖k‖ * euclid t c) ^ 2 * ((n : ℝ) + 1) ^ 2 :=
        mul_le_mul_of_nonneg_left (one_le_pow₀ (by linarith)) (by positivity)
      nlinarith [sq_nonneg ((n : ℝ))]

/-- Size of the source derivative of one term, with a multiple `x` of the Bessel value. -/
theorem gS_bound_gen {s c t : V3} (ht : t ≠ c) (hs : s ≠ c) {k : ℂ} (hk : k ≠ 0) (m : Fin 3) (n : ℕ) {x : ℂ} {q : ℝ}
    (hq : 0 ≤ q) (hxq : ‖x‖ ≤ q * ‖sphJ n (k * euclid t c)‖) :
    ‖(2 * (n : ℂ) + 1) * x / euclid s c
      * (k * (s m - c m : ℝ) * sphH' n (k * euclid s c) * (leg (cosv s c t) n : ℝ)
        + ((t m - c m) / euclid t c - cosv s c t * (s m - c m) / euclid s c : ℝ) * sphH n (k * euclid s c)
          * (dleg (cosv s c t) n : ℝ))‖
      ≤ q * (hM k s c t / euclid s c * 4 * (((n : ℝ) + 1) ^ 2 * (euclid t c / euclid s c) ^ n)) := by
  have ha := euclid_pos ht
  have hb := euclid_pos hs
  have hkp : 0 < ‖k‖ := norm_pos_iff.mpr hk
  obtain ⟨h1, _, _, h2⟩ := jh_sizes ht hs hk n
  have hx := cosv_range s c t
  have hl := leg_abs_le hx.1 hx.2 n
  have hd := dleg_abs_le hx.1 hx.2 n
  have hw : |(t m - c m) / euclid t c - cosv s c t * (s m - c m) / euclid s c| ≤ 2 := by
    have h := w_le hs ht m
    rwa [show cosv t c s = cosv s c t by unfold cosv inn; rw [mul_comm (euclid s c)]; congr 1
                                         exact sum_congr rfl fun i _ => mul_comm _ _] at h
  have hcm := comp_le s c m
  have hMp := hM_pos (t := t) hs hk
  obtain ⟨J, hJ⟩ : ∃ J, J = ‖sphJ n (k * euclid t c)‖ := ⟨_, rfl⟩
  obtain ⟨H1, hH1⟩ : ∃ J, J = ‖sphH (n + 1) (k * euclid s c)‖ := ⟨_, rfl⟩
  obtain ⟨H, hH⟩ : ∃ H, H = ‖sphH n (k * euclid s c)‖ := ⟨_, rfl⟩
  obtain ⟨R, hR⟩ : ∃ R, R = hM k s c t * (euclid t c / euclid s c) ^ n := ⟨_, rfl⟩
  rw [← hJ, ← hH, ← hR] at h1
  rw [← hJ, ← hH1, ← hR] at h2
  have hJ0 : 0 ≤ J := hJ ▸ norm_nonneg _
  have hH10 : 0 ≤ H1 := hH1 ▸ norm_nonneg _
  have hH0 : 0 ≤ H := hH ▸ norm_nonneg _
  have hR0 : 0 ≤ R := by rw [hR]; positivity
  have hdv : ‖sphH' n (k * euclid s c)‖ ≤ n / (‖k‖ * euclid s c) * H + H1 := by
    unfold sphH'
    refine (norm_sub_le _ _).trans ?_
    rw [norm_mul, norm_div, norm_k_mul k hb, Complex.norm_natCast, ← hH, ← hH1]
  have hA : ‖k * ((s m - c m : ℝ) : ℂ) * sphH' n (k * euclid s c) * (leg (cosv s c t) n : ℝ)‖
      ≤ n * H + ‖k‖ * euclid s c * H1 := by
    rw [norm_mul, norm_mul, norm_mul, Complex.norm_real, Complex.norm_real, Real.norm_eq_abs, Real.norm_eq_abs]
    calc _ ≤ ‖k‖ * euclid s c * (n / (‖k‖ * euclid s c) * H + H1) * 1 := by
          refine mul_le_mul (mul_le_mul (mul_le_mul_of_nonneg_left hcm hkp.le) hdv (norm_nonneg _) (by positivity)) hl
            (abs_nonneg _) (by positivity)
      _ = _ := by field_simp
  have hB : ‖(((t m - c m) / euclid t c - cosv s c t * (s m - c m) / euclid s c : ℝ) : ℂ) * sphH n (k * euclid s c)
        * (dleg (cosv s c t) n : ℝ)‖ ≤ 2 * H * ((n : ℝ) + 1) ^ 2 := by
    rw [norm_mul, norm_mul, Complex.norm_real, Complex.norm_real, Real.norm_eq_abs, Real.norm_eq_abs, ← hH]
    exact mul_le_mul (mul_le_mul_of_nonneg_right hw hH0) hd (abs_nonneg _) (by positivity)
  have hS := (norm_add_le _ _).trans (add_le_add hA hB)
  rw [← hJ] at hxq
  rw [norm_mul, norm_div, norm_mul, norm_odd, Complex.norm_real, Real.norm_of_nonneg hb.le]
  refine (mul_le_mul (div_le_div_of_nonneg_right (mul_le_mul_of_nonneg_left hxq (by positivity)) hb.le) hS
    (norm_nonneg _) (by positivity)).trans ?_
  rw [show (2 * (n : ℝ) + 1) * (q * J) / euclid s c = q * ((2 * (n : ℝ) + 1) * J / euclid s c) by ring, mul_assoc]
  refine mul_le_mul_of_nonneg_left ?_ hq
  have e : (2 * (n : ℝ) + 1) * J / euclid s c * (n * H + ‖k‖ * euclid s c * H1 + 2 * H * ((n : ℝ) + 1) ^ 2)
      = ((n + 2 * ((n : ℝ) + 1) ^ 2) * ((2 * (n : ℝ) + 1) * (J * H))
        + ‖k‖ * euclid s c * ((2 * (n : ℝ) + 1) * (J * H1))) / euclid s c := by ring
  rw [e]
  have e2 : hM k s c t / euclid s c * 4 * (((n : ℝ) + 1) ^ 2 * (euclid t c / euclid s c) ^ n)
      = (4 * ((n : ℝ) + 1) ^ 2 * R) / euclid s c := by rw [hR]; ring
  rw [e2]
  refine div_le_div_of_nonneg_right ?_ hb.le
  have hn0 : (0 : ℝ) ≤ n := Nat.cast_nonneg n
  calc _ ≤ (n + 2 * ((n : ℝ) + 1) ^ 2) * R
          + ‖k‖ * euclid s c * (R * ((2 * (n : ℝ) + 1) / (‖k‖ * euclid s c))) :=
        add_le_add (mul_le_mul_of_nonneg_left h1 (by positivity)) (mul_le_mul_of_nonneg_left h2 (by positivity))
    _ = (n + 2 * ((n : ℝ) + 1) ^ 2 + (2 * (n : ℝ) + 1)) * R := by field_simp
    _ ≤ _ := by
      refine mul_le_mul_of_nonneg_right ?_ hR0
      nlinarith [sq_nonneg ((n : ℝ))]

/-- Size of the source derivative of one term. -/
theorem gS_bound {s c t : V3} (ht : t ≠ c) (hs : s ≠ c) {k : ℂ} (hk : k ≠ 0) (m : Fin 3) (n : ℕ) :
    ‖gS k s c m t n‖ ≤ hM k s c t / euclid s c * 4 * (((n : ℝ) + 1) ^ 2 * (euclid t c / euclid s c) ^ n) := by
  have h := gS_bound_gen ht hs hk m n (x := sphJ n (k * euclid t c)) zero_le_one (by rw [one_mul])
  rw [one_mul] at h
  exact h

/-! ## Differentiation term by term -/

/-- The term of order `n` of the expansion. -/
noncomputable def lterm (k : ℂ) (s c t : V3) (n : ℕ) : ℂ :=
  (2 * (n : ℂ) + 1) * sphJ n (k * euclid t c) * sphH n (k * euclid s c) * (leg (cosv s c t) n : ℝ)

theorem lterm_summable {s c t : V3} (ht : t ≠ c) (hts : euclid t c < euclid s c) {k : ℂ} (hk : k ≠ 0) :
    Summable (lterm k s c t) := by
  obtain ⟨hs, hr0, hr1⟩ := ratio_lt ht hts
  have hx := cosv_range s c t
  have hsum : Summable fun n : ℕ => hM k s c t * (euclid t c / euclid s c) ^ n :=
    (summable_geometric_of_lt_one hr0.le hr1).mul_left _
  refine Summable.of_norm_bounded hsum fun n => ?_
  obtain ⟨h1, _⟩ := jh_sizes ht hs hk n
  unfold lterm
  rw [norm_mul, norm_mul, norm_mul, norm_odd, Complex.norm_real, Real.norm_eq_abs]
  calc _ ≤ (2 * (n : ℝ) + 1) * ‖sphJ n (k * euclid t c)‖ * ‖sphH n (k * euclid s c)‖ * 1 :=
        mul_le_mul_of_nonneg_left (leg_abs_le hx.1 hx.2 n) (by positivity)
    _ ≤ _ := by rw [mul_one, mul_assoc]; exact h1

theorem helmKern_tsum {s c t : V3} (ht : t ≠ c) (hts : euclid t c < euclid s c) {k : ℂ} (hk : k ≠ 0) :
    helmKern k s t = Complex.I * k * ∑' n, lterm k s c t n := by
  have h1 := (lterm_summable ht hts hk).hasSum.tendsto_sum_nat
  have h2 := ((tendsto_add_atTop_iff_nat 1).mpr h1).const_mul (Complex.I * k)
  exact tendsto_nhds_unique (helmLocal_tendsto ht hts hk) h2

theorem tail_bound {g : ℕ → ℂ} {C ρ : ℝ} (h0 : 0 ≤ ρ) (h1 : ρ < 1)
    (hg : ∀ n : ℕ, ‖g n‖ ≤ C * (((n : ℝ) + 1) ^ 2 * ρ ^ n)) (p : ℕ) :
    ‖(∑' n, g n) - ∑ n ∈ range (p + 1), g n‖ ≤ C * sqTail ρ p := by
  have hs := (sq_summable h0 h1).mul_left C
  have hgs : Summable g := Summable.of_norm_bounded hs hg
  rw [← hgs.sum_add_tsum_nat_add (p + 1), add_sub_cancel_left]
  have hs' := (summable_nat_add_iff (p + 1)).mpr hs
  refine (tsum_of_norm_bounded hs'.hasSum fun n => hg (n + (p + 1))).trans (le_of_eq ?_)
  unfold sqTail
  rw [tsum_mul_left]

/-- The derivative of the kernel in a target coordinate is the sum of the derivatives of the
terms. -/
theorem helmKern_deriv_t {s c t : V3} (ht : t ≠ c) (hts : euclid t c < euclid s c) {k : ℂ} (hk : k ≠ 0) (m : Fin 3) :
    HasDerivAt (fun y => helmKern k s (Function.update t m y)) (Complex.I * k * ∑' n, gT k s c m t n) (t m) := by
  obtain ⟨hs, hr0, hr1⟩ := ratio_lt ht hts
  have ha := euclid_pos ht
  have hb := euclid_pos hs
  have hkp : 0 < ‖k‖ := norm_pos_iff.mpr hk
  have hcont : ContinuousAt (fun y => euclid (Function.update t m y) c) (t m) := (euclid_deriv ht m).continuousAt
  have hself : euclid (Function.update t m (t m)) c = euclid t c := by rw [Function.update_eq_self]
  obtain ⟨a1, ha1⟩ : ∃ a1, a1 = (euclid t c + euclid s c) / 2 := ⟨_, rfl⟩
  have hev : ∀ᶠ y in 𝓝 (t m), euclid (Function.update t m y) c ∈ Set.Ioo (euclid t c / 2) a1 := by
    refine hcont.eventually_mem (IsOpen.mem_nhds isOpen_Ioo ?_)
    rw [hself, ha1]
    exact ⟨by linarith, by linarith⟩
  obtain ⟨ε, hε, hball⟩ := Metric.eventually_nhds_iff_ball.mp hev
  have ha1s : a1 < euclid s c := by rw [ha1]; linarith
  have ha1p : 0 < a1 := by rw [ha1]; linarith
  have hne : ∀ y ∈ Metric.ball (t m) ε, Function.update t m y ≠ c := by
    intro y hy h
    have h1 := (hball y hy).1
    rw [h, euclid_self] at h1
    linarith
  have hρ0 : 0 ≤ a1 / euclid s c := by positivity
  have hρ1 : a1 / euclid s c < 1 := by rw [div_lt_one hb]; exact ha1s
  obtain ⟨B, hB⟩ : ∃ B, B = Real.exp (‖k‖ * a1) * (‖Complex.exp (Complex.I * (k * euclid s c))‖
      * Real.exp ‖k * (euclid s c : ℂ)‖) / (‖k‖ * euclid s c) / (euclid t c / 2) * (3 + (‖k‖ * a1) ^ 2) := ⟨_, rfl⟩
  have hbound : ∀ (n : ℕ) (y : ℝ), y ∈ Metric.ball (t m) ε →
      ‖gT k s c m (Function.update t m y) n‖ ≤ B * (((n : ℝ) + 1) ^ 2 * (a1 / euclid s c) ^ n) := by
    intro n y hy
    have hy' := hball y hy
    have hyp : 0 < euclid (Function.update t m y) c := by linarith [hy'.1]
    refine (gT_bound (hne y hy) hs hk m n).trans ?_
    have hE : 0 < ‖Complex.exp (Complex.I * (k * euclid s c))‖ := norm_pos_iff.mpr (Complex.exp_ne_zero _)
    refine mul_le_mul ?_ ?_ (by positivity) (by rw [hB]; positivity)
    · rw [hB]
      refine mul_le_mul ?_ ?_ (by positivity) (by positivity)
      · unfold hM helmConst
        refine div_le_div₀ (by positivity) ?_ (by positivity) hy'.1.le
        refine div_le_div_of_nonneg_right ?_ (by positivity)
        refine mul_le_mul_of_nonneg_right ?_ (by positivity)
        rw [norm_k_mul k hyp]
        exact Real.exp_le_exp.mpr (mul_le_mul_of_nonneg_left hy'.2.le hkp.le)
      · have : ‖k‖ * euclid (Function.update t m y) c ≤ ‖k‖ * a1 := mul_le_mul_of_nonneg_left hy'.2.le hkp.le
        have := pow_le_pow_left₀ (by positivity) this 2
        linarith
    · refine mul_le_mul_of_nonneg_left ?_ (by positivity)
      exact pow_le_pow_left₀ (by positivity) (div_le_div_of_nonneg_right hy'.2.le hb.le) n
  have hder : ∀ (n : ℕ) (y : ℝ), y ∈ Metric.ball (t m) ε →
      HasDerivAt (fun y => lterm k s c (Function.update t m y) n) (gT k s c m (Function.update t m y) n) y := by
    intro n y hy
    have h := term_deriv_t (hne y hy) hs hk m n
    simp only [Function.update_idem, Function.update_self] at h
    exact h
  have hmem : t m ∈ Metric.ball (t m) ε := Metric.mem_ball_self hε
  have hmain := hasDerivAt_tsum_of_isPreconnected ((sq_summable hρ0 hρ1).mul_left B) Metric.isOpen_ball
    (convex_ball (t m) ε).isPreconnected hder hbound hmem
    (by simpa only [Function.update_eq_self] using lterm_summable ht hts hk) hmem
  have h2 := hmain.const_mul (Complex.I * k)
  rw [Function.update_eq_self] at h2
  refine h2.congr_of_eventuallyEq ?_
  filter_upwards [Metric.isOpen_ball.mem_nhds hmem] with y hy
  exact helmKern_tsum (hne y hy) ((hball y hy).2.trans ha1s) hk

/-- The derivative of the kernel in a source coordinate is the sum of the derivatives of the
terms. -/
theorem helmKern_deriv_s {s c t : V3} (ht : t ≠ c) (hts : euclid t c < euclid s c) {k : ℂ} (hk : k ≠ 0) (m : Fin 3) :
    HasDerivAt (fun y => helmKern k (Function.update s m y) t) (Complex.I * k * ∑' n, gS k s c m t n) (s m) := by
  obtain ⟨hs, hr0, hr1⟩ := ratio_lt ht hts
  have ha := euclid_pos ht
  have hb := euclid_pos hs
  have hkp : 0 < ‖k‖ := norm_pos_iff.mpr hk
  have hcont : ContinuousAt (fun y => euclid (Function.update s m y) c) (s m) := (euclid_deriv hs m).continuousAt
  have hself : euclid (Function.update s m (s m)) c = euclid s c := by rw [Function.update_eq_self]
  obtain ⟨b1, hb1⟩ : ∃ b1, b1 = (euclid t c + euclid s c) / 2 := ⟨_, rfl⟩
  have hev : ∀ᶠ y in 𝓝 (s m), euclid (Function.update s m y) c ∈ Set.Ioo b1 (2 * euclid s c) := by
    refine hcont.eventually_mem (IsOpen.mem_nhds isOpen_Ioo ?_)
    rw [hself, hb1]
    exact ⟨by linarith, by linarith⟩
  obtain ⟨ε, hε, hball⟩ := Metric.eventually_nhds_iff_ball.mp hev
  have hb1p : 0 < b1 := by rw [hb1]; linarith
  have hab1 : euclid t c < b1 := by rw [hb1]; linarith
  have hne : ∀ y ∈ Metric.ball (s m) ε, Function.update s m y ≠ c := by
    intro y hy h
    have h1 := (hball y hy).1
    rw [h, euclid_self] at h1
    linarith
  have hρ0 : 0 ≤ euclid t c / b1 := by positivity
  have hρ1 : euclid t c / b1 < 1 := by rw [div_lt_one hb1p]; exact hab1
  obtain ⟨B, hB⟩ : ∃ B, B = Real.exp ‖k * (euclid t c : ℂ)‖ * (Real.exp (‖k‖ * (2 * euclid s c))
      * Real.exp (‖k‖ * (2 * euclid s c))) / (‖k‖ * b1) / b1 * 4 := ⟨_, rfl⟩
  have hbound : ∀ (n : ℕ) (y : ℝ), y ∈ Metric.ball (s m) ε →
      ‖gS k (Function.update s m y) c m t n‖ ≤ B * (((n : ℝ) + 1) ^ 2 * (euclid t c / b1) ^ n) := by
    intro n y hy
    have hy' := hball y hy
    have hyp : 0 < euclid (Function.update s m y) c := by linarith [hy'.1]
    refine (gS_bound ht (hne y hy) hk m n).trans ?_
    have hle : Real.exp ‖k * (euclid (Function.update s m y) c : ℂ)‖ ≤ Real.exp (‖k‖ * (2 * euclid s c)) := by
      rw [norm_k_mul k hyp]
      exact Real.exp_le_exp.mpr (mul_le_mul_of_nonneg_left hy'.2.le hkp.le)
    have hEle : ‖Complex.exp (Complex.I * (k * euclid (Function.update s m y) c))‖
        ≤ Real.exp (‖k‖ * (2 * euclid s c)) := by
      refine (Complex.norm_exp_le_exp_norm _).trans (le_trans (le_of_eq ?_) hle)
      rw [norm_mul, Complex.norm_I, one_mul]
    refine mul_le_mul ?_ ?_ (by positivity) (by rw [hB]; positivity)
    · rw [hB]
      refine mul_le_mul_of_nonneg_right ?_ (by norm_num)
      unfold hM helmConst
      refine div_le_div₀ (by positivity) ?_ hb1p hy'.1.le
      refine div_le_div₀ (by positivity) ?_ (by positivity) (mul_le_mul_of_nonneg_left hy'.1.le hkp.le)
      refine mul_le_mul_of_nonneg_left ?_ (by positivity)
      exact mul_le_mul hEle hle (by positivity) (by positivity)
    · refine mul_le_mul_of_nonneg_left ?_ (by positivity)
      exact pow_le_pow_left₀ (by positivity) (div_le_div_of_nonneg_left ha.le hb1p hy'.1.le) n
  have hder : ∀ (n : ℕ) (y : ℝ), y ∈ Metric.ball (s m) ε →
      HasDerivAt (fun y => lterm k (Function.update s m y) c t n) (gS k (Function.update s m y) c m t n) y := by
    intro n y hy
    have h := term_deriv_s ht (hne y hy) hk m n
    simp only [Function.update_idem, Function.update_self] at h
    exact h
  have hmem : s m ∈ Metric.ball (s m) ε := Metric.mem_ball_self hε
  have hmain := hasDerivAt_tsum_of_isPreconnected ((sq_summable hρ0 hρ1).mul_left B) Metric.isOpen_ball
    (convex_ball (s m) ε).isPreconnected hder hbound hmem
    (by simpa only [Function.update_eq_self] using lterm_summable ht hts hk) hmem
  have h2 := hmain.const_mul (Complex.I * k)
  rw [Function.update_eq_self] at h2
  refine h2.congr_of_eventuallyEq ?_
  filter_upwards [Metric.isOpen_ball.mem_nhds hmem] with y hy
  exact helmKern_tsum ht (hab1.trans (hball y hy).1) hk

/-! ## Errors of the computed gradients -/

theorem partial_le {C ρ : ℝ} (hC : 0 ≤ C) (h0 : 0 ≤ ρ) (h1 : ρ < 1) (p : ℕ) {g : ℕ → ℂ}
    (hg : ∀ n, n < p → ‖g n‖ ≤ C * (((n : ℝ) + 1) ^ 2 * ρ ^ n)) : ‖∑ n ∈ range p, g n‖ ≤ C * sqTotal ρ := by
  refine (norm_sum_le _ _).trans ((sum_le_sum fun n hn => hg n (mem_range.mp hn)).trans ?_)
  rw [← mul_sum]
  exact mul_le_mul_of_nonneg_left ((sq_summable h0 h1).sum_le_tsum _ fun n _ => by positivity) hC

/-- Error of one term of the gradient computed with approximate Bessel values. -/
theorem gT_err {s c t : V3} (ht : t ≠ c) (hs : s ≠ c) {k : ℂ} (hk : k ≠ 0) (hz1 : ‖k‖ * euclid t c ≤ 3) (m : Fin 3)
    (n : ℕ) {x x' : ℂ} {q : ℝ} (hq : 0 ≤ q) (hx : ‖x‖ ≤ q * ‖sphJ n (k * euclid t c)‖)
    (hx' : ‖x'‖ ≤ 2 * q * ‖sphJ (n - 1) (k * euclid t c)‖) :
    ‖(2 * (n : ℂ) + 1) * sphH n (k * euclid s c) / euclid t c
      * (k * x' * (leg (cosv s c t) n : ℝ) * (t m - c m : ℝ)
        + ((s m - c m) / euclid s c - cosv s c t * (t m - c m) / euclid t c : ℝ) * x * (dleg (cosv s c t) n : ℝ))‖
      ≤ 8 * q * (hM k s c t / euclid t c * (((n : ℝ) + 1) ^ 2 * (euclid t c / euclid s c) ^ n)) := by
  have ha := euclid_pos ht
  have hb := euclid_pos hs
  have hkp : 0 < ‖k‖ := norm_pos_iff.mpr hk
  obtain ⟨h1, _, _, _⟩ := jh_sizes ht hs hk n
  have hr := cosv_range s c t
  have hl := leg_abs_le hr.1 hr.2 n
  have hd := dleg_abs_le hr.1 hr.2 n
  have hw := w_le ht hs m
  have hcm := comp_le t c m
  have hMp := hM_pos (t := t) hs hk
  obtain ⟨R, hR⟩ : ∃ R, R = hM k s c t * (euclid t c / euclid s c) ^ n := ⟨_, rfl⟩
  have hR0 : 0 ≤ R := by rw [hR]; positivity
  have hm1 : (2 * (n : ℝ) + 1) * (‖sphJ (n - 1) (k * euclid t c)‖ * ‖sphH n (k * euclid s c)‖)
      ≤ R * ((2 * (n : ℝ) + 3) / (‖k‖ * euclid t c)) := by
    rcases Nat.eq_zero_or_pos n with h0 | h0
    · subst h0
      simp only [Nat.zero_sub, ← hR] at h1 ⊢
      refine h1.trans (le_mul_of_one_le_right hR0 ?_)
      rw [Nat.cast_zero, mul_zero, zero_add, le_div_iff₀ (by positivity), one_mul]
      exact hz1
    · obtain ⟨l, rfl⟩ : ∃ l, n = l + 1 := ⟨n - 1, by omega⟩
      have h3 := (jh_sizes ht hs hk l).2.2.1
      rw [← hR] at h3
      refine h3.trans (mul_le_mul_of_nonneg_left ?_ hR0)
      exact div_le_div_of_nonneg_right (by linarith) (by positivity)
  obtain ⟨J, hJ⟩ : ∃ J, J = ‖sphJ n (k * euclid t c)‖ := ⟨_, rfl⟩
  obtain ⟨Jm, hJm⟩ : ∃ J, J = ‖sphJ (n - 1) (k * euclid t c)‖ := ⟨_, rfl⟩
  obtain ⟨H, hH⟩ : ∃ H, H = ‖sphH n (k * euclid s c)‖ := ⟨_, rfl⟩
  rw [← hJ, ← hH, ← hR] at h1
  rw [← hJm, ← hH] at hm1
  rw [← hJ] at hx
  rw [← hJm] at hx'
  have hJ0 : 0 ≤ J := hJ ▸ norm_nonneg _
  have hJm0 : 0 ≤ Jm := hJm ▸ norm_nonneg _
  have hH0 : 0 ≤ H := hH ▸ norm_nonneg _
  have hA : ‖k * x' * (leg (cosv s c t) n : ℝ) * ((t m - c m : ℝ) : ℂ)‖ ≤ ‖k‖ * (2 * q * Jm) * 1 * euclid t c := by
    rw [norm_mul, norm_mul, norm_mul, Complex.norm_real, Complex.norm_real, Real.norm_eq_abs, Real.norm_eq_abs]
    exact mul_le_mul (mul_le_mul (mul_le_mul_of_nonneg_left hx' hkp.le) hl (abs_nonneg _) (by positivity)) hcm
      (abs_nonneg _) (by positivity)
  have hB : ‖(((s m - c m) / euclid s c - cosv s c t * (t m - c m) / euclid t c : ℝ) : ℂ) * x
        * (dleg (cosv s c t) n : ℝ)‖ ≤ 2 * (q * J) * ((n : ℝ) + 1) ^ 2 := by
    rw [norm_mul, norm_mul, Complex.norm_real, Complex.norm_real, Real.norm_eq_abs, Real.norm_eq_abs]
    exact mul_le_mul (mul_le_mul hw hx (norm_nonneg _) (by norm_num)) hd (abs_nonneg _) (by positivity)
  have hS := (norm_add_le _ _).trans (add_le_add hA hB)
  rw [norm_mul, norm_div, norm_mul, norm_odd, ← hH, Complex.norm_real, Real.norm_of_nonneg ha.le]
  refine (mul_le_mul_of_nonneg_left hS (by positivity)).trans ?_
  have e : (2 * (n : ℝ) + 1) * H / euclid t c * (‖k‖ * (2 * q * Jm) * 1 * euclid t c + 2 * (q * J) * ((n : ℝ) + 1) ^ 2)
      = 2 * q / euclid t c * (‖k‖ * euclid t c * ((2 * (n : ℝ) + 1) * (Jm * H))
        + ((n : ℝ) + 1) ^ 2 * ((2 * (n : ℝ) + 1) * (J * H))) := by ring
  have e2 : 8 * q * (hM k s c t / euclid t c * (((n : ℝ) + 1) ^ 2 * (euclid t c / euclid s c) ^ n))
      = 2 * q / euclid t c * (4 * ((n : ℝ) + 1) ^ 2 * R) := by rw [hR]; ring
  rw [e, e2]
  refine mul_le_mul_of_nonneg_left ?_ (by positivity)
  have hn0 : (0 : ℝ) ≤ n := Nat.cast_nonneg n
  calc _ ≤ ‖k‖ * euclid t c * (R * ((2 * (n : ℝ) + 3) / (‖k‖ * euclid t c))) + ((n : ℝ) + 1) ^ 2 * R :=
        add_le_add (mul_le_mul_of_nonneg_left hm1 (by positivity)) (mul_le_mul_of_nonneg_left h1 (by positivity))
    _ = (2 * (n : ℝ) + 3 + ((n : ℝ) + 1) ^ 2) * R := by field_simp
    _ ≤ _ := mul_le_mul_of_nonneg_right (by nlinarith [sq_nonneg (n : ℝ)]) hR0

/-- C82 (gradient, total error): with the precomputed Bessel values, every component of the gradient
differs from the charge times the derivative of `exp(ik|s-t|)/|s-t|` by at most the stated
truncation and precomputation errors. -/
theorem C82_gradient_error {s c t : V3} {k : ℂ} (hz : 1 / 10 ^ 200 ≤ ‖k * (euclid t c : ℂ)‖)
    (hz1 : ‖k * (euclid t c : ℂ)‖ ≤ 3) (hts : euclid t c < euclid s c)
    (hb : 1 / 10 ^ 15 ≤ ‖k * (euclid s c : ℂ)‖) (grad : Fin 3 → ℂ) (charge : ℂ) (order : ℕ) (ho : order ≤ 50) :
    ∃ (jvals jderivs : Buf ℂ) (jscale : Fl ℝ) (v D : Fin 3 → ℂ),
      tsHelmholtzPrecompute c t order true k = some (.ok jvals (some jderivs) jscale) ∧
      tsHelmholtzSp (fun m => fin (grad m)) s c t (fin charge) order k jvals jderivs jscale
        = some (fun m => fin (grad m + v m)) ∧
      (∀ m, HasDerivAt (fun y => helmKern k s (Function.update t m y)) (D m) (t m)) ∧
      ∀ m, ‖v m - charge * D m‖ ≤ ‖charge‖ * (helmConst k s c t / (euclid s c * euclid t c)
        * ((3 + (‖k‖ * euclid t c) ^ 2) * sqTail (euclid t c / euclid s c) order + 4 / 10 ^ 18 * sqTotal (euclid t c / euclid s c))) := by
  have hz0 := tiny_ne (not_lt.mpr hz)
  have hk : k ≠ 0 := left_ne_zero_of_mul hz0
  have ht : t ≠ c := by
    rintro rfl
    rw [euclid_self] at hz0; simp at hz0
  obtain ⟨hs, hr0, hr1⟩ := ratio_lt ht hts
  have ha := euclid_pos ht
  have hbp := euclid_pos hs
  have hkp : 0 < ‖k‖ := norm_pos_iff.mpr hk
  have hak : k * (euclid t c : ℂ) ≠ 0 := mul_ne_zero hk (by exact_mod_cast ha.ne')
  have hza : ‖k‖ * euclid t c ≤ 3 := by rw [← norm_k_mul k ha]; exact hz1
  obtain ⟨jvals, jd, jscale, u, u', h1, hjs, hj, hu, hd, hu'⟩ := C82_precompute_partial hz hz1 order ho true
  obtain ⟨jderivs, rfl, hjd⟩ := hd rfl
  refine ⟨jvals, jderivs, fin jscale, _, fun m => Complex.I * k * ∑' n, gT k s c m t n, h1,
    tsHelmholtzSp_eq ht hs hk (not_lt.mpr hb) grad charge order (by omega) u u' jvals jderivs jscale hjs hj hjd,
    fun m => helmKern_deriv_t ht hts hk m, fun m => ?_⟩
  simp only
  have hMk : ‖k‖ * hM k s c t = helmConst k s c t / euclid s c := by unfold hM; field_simp
  have hMp := hM_pos (t := t) hs hk
  have hsp : hspSum k u u' (k * euclid s c) (cosv s c t) (euclid t c) (t m - c m)
      ((s m - c m) / euclid s c - cosv s c t * (t m - c m) / euclid t c) (order + 1)
      - ∑ n ∈ range (order + 1), gT k s c m t n
      = ∑ n ∈ range (order + 1), (2 * (n : ℂ) + 1) * sphH n (k * euclid s c) / euclid t c
      * (k * (u' n - dval (fun i => sphJ i (k * euclid t c)) n) * (leg (cosv s c t) n : ℝ) * (t m - c m : ℝ)
        + ((s m - c m) / euclid s c - cosv s c t * (t m - c m) / euclid t c : ℝ) * (u n - sphJ n (k * euclid t c))
          * (dleg (cosv s c t) n : ℝ)) := by
    unfold hspSum gT
    rw [← sum_sub_distrib]
    exact sum_congr rfl fun n _ => by ring
  have hE1 : ‖hspSum k u u' (k * euclid s c) (cosv s c t) (euclid t c) (t m - c m)
      ((s m - c m) / euclid s c - cosv s c t * (t m - c m) / euclid t c) (order + 1)
      - ∑ n ∈ range (order + 1), gT k s c m t n‖
      ≤ 4 / 10 ^ 18 * (hM k s c t / euclid t c) * sqTotal (euclid t c / euclid s c) := by
    rw [hsp]
    refine partial_le (by positivity) hr0.le hr1 _ fun n hn => ?_
    have hn' : n ≤ order := by omega
    refine (gT_err ht hs hk hza m n (q := 5 / 10 ^ 19) (by positivity) (hu n hn') ?_).trans (le_of_eq (by ring))
    have := hu' n hn'
    rw [(sphJ_dval n hak).deriv] at this
    refine this.trans (le_of_eq (by ring))
  have hE2 := tail_bound hr0.le hr1 (gT_bound ht hs hk m) order
  have hsplit : charge * (Complex.I * k * hspSum k u u' (k * euclid s c) (cosv s c t) (euclid t c) (t m - c m)
      ((s m - c m) / euclid s c - cosv s c t * (t m - c m) / euclid t c) (order + 1))
      - charge * (Complex.I * k * ∑' n, gT k s c m t n)
      = charge * (Complex.I * k * ((hspSum k u u' (k * euclid s c) (cosv s c t) (euclid t c) (t m - c m)
      ((s m - c m) / euclid s c - cosv s c t * (t m - c m) / euclid t c) (order + 1)
      - ∑ n ∈ range (order + 1), gT k s c m t n) - ((∑' n, gT k s c m t n) - ∑ n ∈ range (order + 1), gT k s c m t n))) := by
    ring
  have hT0 : 0 ≤ sqTail (euclid t c / euclid s c) order := tsum_nonneg fun n => by positivity
  rw [hsplit, norm_mul, norm_mul, norm_mul, Complex.norm_I, one_mul]
  refine mul_le_mul_of_nonneg_left ?_ (norm_nonneg _)
  refine (mul_le_mul_of_nonneg_left ((norm_sub_le _ _).trans (add_le_add hE1 hE2)) hkp.le).trans ?_
  have e3 : ‖k‖ * (4 / 10 ^ 18 * (hM k s c t / euclid t c) * sqTotal (euclid t c / euclid s c)
      + hM k s c t / euclid t c * (3 + (‖k‖ * euclid t c) ^ 2) * sqTail (euclid t c / euclid s c) order)
      = (‖k‖ * hM k s c t) / euclid t c * ((3 + (‖k‖ * euclid t c) ^ 2) * sqTail (euclid t c / euclid s c) order
        + 4 / 10 ^ 18 * sqTotal (euclid t c / euclid s c)) := by ring
  rw [e3, hMk, div_div]

/-- C82 (double layer, total error): same for the derivative in the source along the dipole. -/
theorem C82_double_layer_error {s c t : V3} {k : ℂ} (hz : 1 / 10 ^ 200 ≤ ‖k * (euclid t c : ℂ)‖)
    (hz1 : ‖k * (euclid t c : ℂ)‖ ≤ 3) (hts : euclid t c < euclid s c)
    (hb : 1 / 10 ^ 15 ≤ ‖k * (euclid s c : ℂ)‖) (dipole : V3) (dipstr : ℂ) (order : ℕ) (ho : order ≤ 50) (ifder : Bool) :
    ∃ (jvals : Buf ℂ) (jderivs : Option (Buf ℂ)) (jscale : Fl ℝ) (v : ℂ) (D : Fin 3 → ℂ),
      tsHelmholtzPrecompute c t order ifder k = some (.ok jvals jderivs jscale) ∧
      tsHelmholtzD s c t dipole (fin dipstr) order k jvals jscale = some (fin v) ∧
      (∀ m, HasDerivAt (fun y => helmKern k (Function.update s m y) t) (D m) (s m)) ∧
      ‖v - dipstr * ∑ m, (dipole m : ℂ) * D m‖ ≤ ‖dipstr‖ * ((∑ m, |dipole m|) * (helmConst k s c t / euclid s c ^ 2
        * (4 * (sqTail (euclid t c / euclid s c) order + 5 / 10 ^ 19 * sqTotal (euclid t c / euclid s c))))) := by
  have hz0 := tiny_ne (not_lt.mpr hz)
  have hk : k ≠ 0 := left_ne_zero_of_mul hz0
  have ht : t ≠ c := by
    rintro rfl
    rw [euclid_self] at hz0; simp at hz0
  obtain ⟨hs, hr0, hr1⟩ := ratio_lt ht hts
  have ha := euclid_pos ht
  have hbp := euclid_pos hs
  have hkp : 0 < ‖k‖ := norm_pos_iff.mpr hk
  obtain ⟨jvals, jd, jscale, u, u', h1, hjs, hj, hu, -, -⟩ := C82_precompute_partial hz hz1 order ho ifder
  refine ⟨jvals, jd, fin jscale, _, fun m => Complex.I * k * ∑' n, gS k s c m t n, h1,
    tsHelmholtzD_eq ht hs hk (not_lt.mpr hb) dipole dipstr order (by omega) u jvals jscale hjs hj,
    fun m => helmKern_deriv_s ht hts hk m, ?_⟩
  have hMk : ‖k‖ * hM k s c t = helmConst k s c t / euclid s c := by unfold hM; field_simp
  have hMp := hM_pos (t := t) hs hk
  rw [← mul_sub, norm_mul, ← sum_sub_distrib]
  refine mul_le_mul_of_nonneg_left ((norm_sum_le _ _).trans ?_) (norm_nonneg _)
  rw [sum_mul]
  refine sum_le_sum fun m _ => ?_
  rw [← mul_sub, ← mul_sub, norm_mul, norm_mul, norm_mul, Complex.norm_I, one_mul, Complex.norm_real, Real.norm_eq_abs]
  refine mul_le_mul_of_nonneg_left ?_ (abs_nonneg _)
  have hsp : hdSum k u (k * euclid s c) (cosv s c t) (euclid s c) (s m - c m)
      ((t m - c m) / euclid t c - cosv s c t * (s m - c m) / euclid s c) (order + 1)
      - ∑ n ∈ range (order + 1), gS k s c m t n
      = ∑ n ∈ range (order + 1), (2 * (n : ℂ) + 1) * (u n - sphJ n (k * euclid t c)) / euclid s c
      * (k * (s m - c m : ℝ) * sphH' n (k * euclid s c) * (leg (cosv s c t) n : ℝ)
        + ((t m - c m) / euclid t c - cosv s c t * (s m - c m) / euclid s c : ℝ) * sphH n (k * euclid s c)
          * (dleg (cosv s c t) n : ℝ)) := by
    unfold hdSum gS
    rw [← sum_sub_distrib]
    exact sum_congr rfl fun n _ => by ring
  have hE1 : ‖hdSum k u (k * euclid s c) (cosv s c t) (euclid s c) (s m - c m)
      ((t m - c m) / euclid t c - cosv s c t * (s m - c m) / euclid s c) (order + 1)
      - ∑ n ∈ range (order + 1), gS k s c m t n‖
      ≤ 5 / 10 ^ 19 * (hM k s c t / euclid s c * 4) * sqTotal (euclid t c / euclid s c) := by
    rw [hsp]
    refine partial_le (by positivity) hr0.le hr1 _ fun n hn => ?_
    exact (gS_bound_gen ht hs hk m n (q := 5 / 10 ^ 19) (by positivity) (hu n (by omega))).trans (le_of_eq (by ring))
  have hE2 := tail_bound hr0.le hr1 (gS_bound ht hs hk m) order
  have hsplit : ∀ A B C : ℂ, A - B = (A - C) - (B - C) := fun A B C => by ring
  rw [hsplit _ _ (∑ n ∈ range (order + 1), gS k s c m t n)]
  refine (mul_le_mul_of_nonneg_left ((norm_sub_le _ _).trans (add_le_add hE1 hE2)) hkp.le).trans (le_of_eq ?_)
  have e3 : ‖k‖ * (5 / 10 ^ 19 * (hM k s c t / euclid s c * 4) * sqTotal (euclid t c / euclid s c)
      + hM k s c t / euclid s c * 4 * sqTail (euclid t c / euclid s c) order)
      = (‖k‖ * hM k s c t) / euclid s c * (4 * (sqTail (euclid t c / euclid s c) order
        + 5 / 10 ^ 19 * sqTotal (euclid t c / euclid s c))) := by ring
  rw [e3, hMk, div_div, sq]

/-- The hypotheses are met by target distance 1, source distance 3, wave number 1, order 10. -/
example (dipole : V3) : ∃ (jvals : Buf ℂ) (jderivs : Option (Buf ℂ)) (jscale : Fl ℝ) (v : ℂ) (D : Fin 3 → ℂ),
      tsHelmholtzPrecompute exC exT 10 false 1 = some (.ok jvals jderivs jscale) ∧
      tsHelmholtzD exS exC exT dipole (fin 1) 10 1 jvals jscale = some (fin v) ∧
      (∀ m, HasDerivAt (fun y => helmKern 1 (Function.update exS m y) exT) (D m) (exS m)) ∧
      ‖v - 1 * ∑ m, (dipole m : ℂ) * D m‖ ≤ ‖(1 : ℂ)‖ * ((∑ m, |dipole m|) * (helmConst 1 exS exC exT / euclid exS exC ^ 2
        * (4 * (sqTail (euclid exT exC / euclid exS exC) 10 + 5 / 10 ^ 19 * sqTotal (euclid exT exC / euclid exS exC))))) := by
  have h1 : euclid exT exC = 1 := ex_dist.2
  have h3 : euclid exS exC = 3 := ex_dist.1
  exact C82_double_layer_error (by rw [h1]; norm_num) (by rw [h1]; norm_num) (by rw [h1, h3]; norm_num)
    (by rw [h3]; norm_num) dipole 1 10 (by norm_num) false

end Verif.Ts
