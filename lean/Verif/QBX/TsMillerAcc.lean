import Verif.QBX.TsMiller

/-!
# Accuracy and failure of the Bessel routine
-/

namespace Verif.Ts

open Fl Finset Filter Topology

theorem norm_coef {z : ℂ} (hz : z ≠ 0) (h1 : ‖z‖ ≤ 1) (i : ℕ) : 2 * (i : ℝ) + 1 ≤ ‖(2 * (i : ℂ) + 1) / z‖ := by
  rw [norm_div, norm_odd, le_div_iff₀ (norm_pos_iff.mpr hz)]
  exact mul_le_of_le_one_right (by positivity) h1

/-- One step of a recurrence solution whose last step did not decrease. -/
theorem grow_step {z : ℂ} (hz : z ≠ 0) (h1 : ‖z‖ ≤ 1) {i : ℕ} {a b c : ℂ} (hab : ‖a‖ ≤ ‖b‖)
    (h : c = (2 * (i : ℂ) + 1) / z * b - a) : 2 * (i : ℝ) * ‖b‖ ≤ ‖c‖ := by
  have h2 : ‖(2 * (i : ℂ) + 1) / z * b‖ - ‖a‖ ≤ ‖c‖ := by rw [h]; exact norm_sub_norm_le _ _
  have h3 : (2 * (i : ℝ) + 1) * ‖b‖ ≤ ‖(2 * (i : ℂ) + 1) / z * b‖ := by
    rw [norm_mul]; exact mul_le_mul_of_nonneg_right (norm_coef hz h1 i) (norm_nonneg _)
  linarith

theorem grow_up {z : ℂ} (hz : z ≠ 0) (h1 : ‖z‖ ≤ 1) {lo hi : ℕ} (hl : 1 ≤ lo) {f : ℕ → ℂ} (hf : Rec z lo hi f)
    (h0 : ‖f (lo - 1)‖ ≤ ‖f lo‖) : ∀ i, lo ≤ i → i < hi → 2 * (i : ℝ) * ‖f i‖ ≤ ‖f (i + 1)‖ ∧ ‖f i‖ ≤ ‖f (i + 1)‖ := by
  intro i h2 h3
  induction i, h2 using Nat.le_induction with
  | base =>
    have h := grow_step hz h1 h0 (hf lo le_rfl h3)
    refine ⟨h, le_trans ?_ h⟩
    have : (1 : ℝ) ≤ lo := by exact_mod_cast hl
    nlinarith [norm_nonneg (f lo)]
  | succ i h2 ih =>
    have h := grow_step hz h1 (ih (by omega)).2 (hf (i + 1) (by omega) h3)
    refine ⟨h, le_trans ?_ h⟩
    have : (0 : ℝ) ≤ i := Nat.cast_nonneg i
    push_cast
    nlinarith [norm_nonneg (f (i + 1))]

theorem odd!_ge (n : ℕ) : (n : ℝ) + 1 ≤ odd! n := by
  induction n with
  | zero => simp [odd!]
  | succ n ih =>
    rw [odd!]; push_cast
    have : (0 : ℝ) ≤ n := Nat.cast_nonneg n
    nlinarith

/-- `|j_n|` is non-increasing in `n` for `|z| ≤ 1`. -/
theorem sphJ_decr {z : ℂ} (hz : z ≠ 0) (h1 : ‖z‖ ≤ 1) (n : ℕ) : ‖sphJ (n + 1) z‖ ≤ ‖sphJ n z‖ := by
  by_contra hlt
  rw [not_le] at hlt
  have hgrow : ∀ m, ‖sphJ (n + 1) z‖ ≤ ‖sphJ (n + 1 + m) z‖ := by
    intro m
    induction m with
    | zero => exact le_rfl
    | succ m ih =>
      have hR : Rec z (n + 1) (n + 1 + m + 1) (fun i => sphJ i z) := fun i a b => sphJ_Rec hz _ i (by omega) b
      exact ih.trans (grow_up hz h1 (by omega) hR hlt.le (n + 1 + m) (by omega) (by omega)).2
  have hpos : 0 < ‖sphJ (n + 1) z‖ := lt_of_le_of_lt (norm_nonneg _) hlt
  obtain ⟨M, hM⟩ := exists_nat_gt (Real.exp 1 / ‖sphJ (n + 1) z‖)
  have h := (hgrow M).trans (sphJ_bound (n + 1 + M) hz)
  have h2 : Real.exp ‖z‖ * (‖z‖ ^ (n + 1 + M) / odd! (n + 1 + M)) ≤ Real.exp 1 * (1 / ((M : ℝ) + 1)) := by
    have hod := odd!_ge (n + 1 + M)
    have : (M : ℝ) + 1 ≤ odd! (n + 1 + M) := by
      push_cast at hod
      have : (0 : ℝ) ≤ n := Nat.cast_nonneg n
      linarith
    exact mul_le_mul (Real.exp_le_exp.mpr h1)
      (div_le_div₀ zero_le_one (pow_le_one₀ (norm_nonneg z) h1) (by positivity) this)
      (div_nonneg (pow_nonneg (norm_nonneg z) _) (odd!_pos _).le) (Real.exp_pos _).le
  have h3 := h.trans h2
  rw [mul_one_div, le_div_iff₀ (by positivity)] at h3
  rw [div_lt_iff₀ hpos] at hM
  nlinarith

theorem sphJ_anti {z : ℂ} (hz : z ≠ 0) (h1 : ‖z‖ ≤ 1) {m n : ℕ} (h : m ≤ n) : ‖sphJ n z‖ ≤ ‖sphJ m z‖ := by
  induction n, h using Nat.le_induction with
  | base => exact le_rfl
  | succ n _ ih => exact (sphJ_decr hz h1 n).trans ih

theorem normIx_zero {z : ℂ} (hz : z ≠ 0) (h1 : ‖z‖ ≤ 1) : normIx z = 0 := by
  unfold normIx
  rw [if_neg (not_lt.mpr (sphJ_decr hz h1 0))]

/-- The downward recursion grows. -/
theorem mil_grow {z : ℂ} (hz : z ≠ 0) (h1 : ‖z‖ ≤ 1) {N : ℕ} : ∀ m i, i + m + 1 = N →
    2 * ((i : ℝ) + 1) * ‖mil z N (i + 1)‖ ≤ ‖mil z N i‖ := by
  intro m
  induction m with
  | zero =>
    intro i h
    rw [show i + 1 = N by omega, (mil_top z N (by omega)).1, norm_zero, mul_zero]
    exact norm_nonneg _
  | succ m ih =>
    intro i h
    have hd := mil_down z N (i + 1) (by omega) (by omega)
    rw [Nat.add_sub_cancel] at hd
    have hprev := ih (i + 1) (by omega)
    have hle : ‖mil z N (i + 1 + 1)‖ ≤ ‖mil z N (i + 1)‖ := by
      refine le_trans ?_ hprev
      have : (0 : ℝ) ≤ i := Nat.cast_nonneg i
      push_cast
      nlinarith [norm_nonneg (mil z N (i + 1 + 1))]
    have := grow_step hz h1 hle hd
    push_cast at this
    exact this

theorem mil_grow' {z : ℂ} (hz : z ≠ 0) (h1 : ‖z‖ ≤ 1) {N i : ℕ} (h : i < N) :
    2 * ((i : ℝ) + 1) * ‖mil z N (i + 1)‖ ≤ ‖mil z N i‖ :=
  mil_grow hz h1 (N - i - 1) i (by omega)

theorem mil_decr {z : ℂ} (hz : z ≠ 0) (h1 : ‖z‖ ≤ 1) {N i j : ℕ} (hij : i ≤ j) (h : j ≤ N) :
    ‖mil z N j‖ ≤ ‖mil z N i‖ := by
  induction j, hij using Nat.le_induction with
  | base => exact le_rfl
  | succ j hij ih =>
    refine le_trans ?_ (ih (by omega))
    have := mil_grow' hz h1 (show j < N by omega)
    have h0 : (0 : ℝ) ≤ j := Nat.cast_nonneg j
    nlinarith [norm_nonneg (mil z N (j + 1))]

theorem mil_pos {z : ℂ} (hz : z ≠ 0) (h1 : ‖z‖ ≤ 1) {N i : ℕ} (h : i < N) : 1 ≤ ‖mil z N i‖ := by
  have := mil_decr hz h1 (show i ≤ N - 1 by omega) (Nat.sub_le N 1)
  rw [(mil_top z N (by omega)).2, norm_one] at this
  exact this

/-- The downward recursion at `nt - 1` equals the upward recursion at the top. -/
theorem mil_pat (z : ℂ) {nt N : ℕ} (h1 : 1 ≤ nt) (h2 : nt < N) : mil z N (nt - 1) = pat z nt N := by
  have hm : Rec z nt N (mil z N) := fun i a b => mil_Rec z N i (by omega) b
  have h := (pat_Rec z nt N h1).casorati hm N h2.le le_rfl
  obtain ⟨p0, p1⟩ := pat_start z nt h1
  obtain ⟨m0, m1⟩ := mil_top z N (by omega)
  rw [p0, p1, m0, m1] at h
  linear_combination -h

/-! ## The error -/

/-- The error of the computed values. -/
noncomputable def merr (z : ℂ) (N n : ℕ) : ℂ := mval z N n - sphJ n z

/-- The error solves the recurrence, vanishes at the normalization index and is `-j_N` at the top. -/
theorem merr_rec {z : ℂ} (hz : z ≠ 0) (N : ℕ) : Rec z 1 N (merr z N) :=
  (mil_Rec z N).lin (sphJ_Rec hz N) _

theorem merr_norm {z : ℂ} {N : ℕ} (hm : mil z N (normIx z) ≠ 0) : merr z N (normIx z) = 0 := by
  unfold merr mval
  field_simp
  ring

theorem merr_top (z : ℂ) {N : ℕ} (hN : 1 ≤ N) : merr z N N = -sphJ N z := by
  unfold merr mval
  rw [(mil_top z N hN).1]; ring

theorem merr_casorati {z : ℂ} (hz : z ≠ 0) {N i : ℕ} (h1 : 1 ≤ i) (h2 : i ≤ N) :
    merr z N i * mil z N (i - 1) - merr z N (i - 1) * mil z N i = -sphJ N z := by
  have h := (merr_rec hz N).casorati (mil_Rec z N)
  have hN : 1 ≤ N := h1.trans h2
  rw [h i h1 h2, ← h N hN le_rfl, merr_top z hN, (mil_top z N hN).1, (mil_top z N hN).2]
  ring

theorem sphJ_dval (n : ℕ) {z : ℂ} (hz : z ≠ 0) : HasDerivAt (sphJ n) (dval (fun m => sphJ m z) n) z := by
  have h := sphJ_hasDeriv n hz
  refine h.congr_deriv ?_
  unfold dval
  cases n with
  | zero => simp
  | succ n =>
    rw [if_neg (by omega), Nat.add_sub_cancel]
    have hnc : (2 * ((n + 1 : ℕ) : ℂ) + 1) ≠ 0 := by
      rw [← norm_pos_iff, norm_odd]; positivity
    simp only []
    rw [eq_div_iff hnc, show n + 1 + 1 = n + 2 by rfl, sphJ_rec n hz]
    push_cast
    field_simp
    ring

/-! ## When the routine succeeds and when it fails -/

/-- For `|z| ≥ 129` the upward recursion never reaches its threshold. -/
theorem top_missing {z : ℂ} (hz : 129 ≤ ‖z‖) {nt : ℕ} (h1 : 1 ≤ nt) (l : ℕ) (hl : nt < l) (hl' : l ≤ bufSize + 1) :
    ‖pat z nt l‖ ≤ 10 ^ 20 := by
  have key : ∀ m, nt + m ≤ 66 → ‖pseq z nt m‖ ≤ 2 ^ m / 2 ∧ ‖pseq z nt (m + 1)‖ ≤ 2 ^ (m + 1) / 2 := by
    intro m
    induction m with
    | zero => intro _; simp [pseq]
    | succ m ih =>
      intro hm
      obtain ⟨i1, i2⟩ := ih (by omega)
      refine ⟨i2, ?_⟩
      show ‖(2 * ((nt + m : ℕ) : ℂ) + 1) / z * pseq z nt (m + 1) - pseq z nt m‖ ≤ _
      have hc : ‖(2 * ((nt + m : ℕ) : ℂ) + 1) / z‖ ≤ 1 + 2 / 129 := by
        rw [norm_div, norm_odd, div_le_iff₀ (by linarith)]
        have : ((nt + m : ℕ) : ℝ) ≤ 65 := by exact_mod_cast (by omega : nt + m ≤ 65)
        linarith
      refine (norm_sub_le _ _).trans ?_
      rw [norm_mul]
      have h3 := mul_le_mul hc i2 (norm_nonneg _) (by norm_num)
      have hp : (0 : ℝ) < 2 ^ m := by positivity
      rw [pow_succ] at i2 h3
      rw [pow_succ, pow_succ]
      linarith
  unfold pat
  have hb : bufSize = 64 := rfl
  have := (key (l + 1 - nt) (by omega)).1
  refine this.trans ?_
  have h65 : (2 : ℝ) ^ (l + 1 - nt) ≤ 2 ^ 65 := pow_le_pow_right₀ (by norm_num) (by omega)
  norm_num at h65 ⊢
  linarith

end Verif.Ts
