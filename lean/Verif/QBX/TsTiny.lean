import Verif.QBX.TsHelmProps
import Mathlib.Analysis.Complex.ExponentialBounds

/-!
# C82: the precomputation for tiny arguments

For `0 < |k||t-c| < 10⁻²⁰⁰` the code returns the leading terms of the Bessel functions at zero.
-/

namespace Verif.Ts

open Fl

theorem sphJ_small (n : ℕ) {z : ℂ} (hz : z ≠ 0) (h1 : ‖z‖ ≤ 1) (hn : 1 ≤ n) : ‖sphJ n z‖ ≤ ‖z‖ := by
  refine (sphJ_bound n hz).trans ?_
  have hp : ‖z‖ ^ n ≤ ‖z‖ := by
    calc ‖z‖ ^ n ≤ ‖z‖ ^ 1 := pow_le_pow_of_le_one (norm_nonneg z) h1 hn
      _ = ‖z‖ := pow_one _
  have ho : 3 ≤ odd! n := by
    obtain ⟨m, rfl⟩ : ∃ m, n = m + 1 := ⟨n - 1, by omega⟩
    clear hn hp
    induction m with
    | zero => norm_num [odd!]
    | succ m ih =>
      rw [odd!]
      have : (1 : ℝ) ≤ 2 * ((m + 1 : ℕ) : ℝ) + 3 := by have : (0 : ℝ) ≤ ((m + 1 : ℕ) : ℝ) := Nat.cast_nonneg _; linarith
      nlinarith
  have he : Real.exp ‖z‖ ≤ 3 := by
    have := Real.exp_one_lt_d9
    have h2 := Real.exp_le_exp.mpr h1
    linarith
  calc Real.exp ‖z‖ * (‖z‖ ^ n / odd! n) ≤ 3 * (‖z‖ / 3) := by
        apply mul_le_mul he _ (by have := odd!_pos n; positivity) (by norm_num)
        exact div_le_div₀ (norm_nonneg z) hp (by norm_num) ho
    _ = ‖z‖ := by ring

theorem sphJ_zero_small {z : ℂ} (hz : z ≠ 0) (h1 : ‖z‖ ≤ 1) : ‖sphJ 0 z - 1‖ ≤ ‖z‖ := by
  have hI : ‖z * Complex.I‖ = ‖z‖ := by rw [norm_mul, Complex.norm_I, mul_one]
  have a1 : ‖Complex.exp (z * Complex.I) - 1 - z * Complex.I‖ ≤ ‖z‖ ^ 2 := by
    have := Complex.norm_exp_sub_one_sub_id_le (x := z * Complex.I) (by rw [hI]; exact h1)
    rwa [hI] at this
  have a2 : ‖Complex.exp (-z * Complex.I) - 1 - -z * Complex.I‖ ≤ ‖z‖ ^ 2 := by
    have hI' : ‖-z * Complex.I‖ = ‖z‖ := by rw [norm_mul, Complex.norm_I, mul_one, norm_neg]
    have := Complex.norm_exp_sub_one_sub_id_le (x := -z * Complex.I) (by rw [hI']; exact h1)
    rwa [hI'] at this
  have e : sphJ 0 z - 1 = ((Complex.exp (-z * Complex.I) - 1 - -z * Complex.I)
      - (Complex.exp (z * Complex.I) - 1 - z * Complex.I)) * Complex.I / 2 / z := by
    rw [sphJ_zero, Complex.sin]
    have hII : Complex.I * Complex.I = -1 := Complex.I_mul_I
    field_simp
    linear_combination (-2 * z) * hII
  rw [e, norm_div, norm_div, norm_mul, Complex.norm_I, mul_one, div_le_iff₀ (norm_pos_iff.mpr hz)]
  have : ‖(2 : ℂ)‖ = 2 := by norm_num
  rw [this]
  have := norm_sub_le (Complex.exp (-z * Complex.I) - 1 - -z * Complex.I) (Complex.exp (z * Complex.I) - 1 - z * Complex.I)
  nlinarith

/-- Unscaled values for tiny arguments. -/
def tinyVal (n : ℕ) : ℂ := if n = 0 then 1 else 0

/-- Unscaled derivatives for tiny arguments. -/
noncomputable def tinyDer (n : ℕ) : ℂ := if n = 1 then 1 / 3 else 0

/-- C82 (precomputation, tiny arguments): for `0 < |k||t-c| < 10⁻²⁰⁰` and every order the arrays have room for,
the precomputation returns, and its values and derivatives (unscaled) are those of `j_n` at 0, so they
are `j_n` and `j_n'` up to `|k||t-c|`. -/
theorem C82_precompute_tiny {c t : V3} {k : ℂ} (h0 : k * (euclid t c : ℂ) ≠ 0)
    (hz : ‖k * (euclid t c : ℂ)‖ < 1 / 10 ^ 200) (order : ℕ) (ho : order < 129) (ifder : Bool) :
    ∃ (jvals : Buf ℂ) (jderivs : Option (Buf ℂ)) (jscale : ℝ) (u u' : ℕ → ℂ),
      tsHelmholtzPrecompute c t order ifder k = some (.ok jvals jderivs (fin jscale)) ∧ jscale ≠ 0 ∧
      (∀ n, n ≤ order → jvals n = some (fin (u n / (jscale : ℂ) ^ n))) ∧
      (∀ n, n ≤ order → ‖u n - sphJ n (k * euclid t c)‖ ≤ ‖k * (euclid t c : ℂ)‖) ∧
      (ifder = true → ∃ d, jderivs = some d ∧ ∀ n, n ≤ order → d n = some (fin (u' n / (jscale : ℂ) ^ n))) ∧
      (∀ n, n ≤ order → ‖u' n - deriv (sphJ n) (k * euclid t c)‖ ≤ ‖k * (euclid t c : ℂ)‖) := by
  have h1 : ‖k * (euclid t c : ℂ)‖ ≤ 1 := hz.le.trans (by norm_num)
  have hsc : helmScale k (euclid t c) = ‖k * (euclid t c : ℂ)‖ := by
    unfold helmScale
    rw [if_pos (lt_of_lt_of_le hz (by norm_num))]
  have hs0 : ‖k * (euclid t c : ℂ)‖ ≠ 0 := norm_ne_zero_iff.mpr h0
  have hsize : ¬ (bufSize + padding ≤ max 1 order) := by
    have : bufSize + padding = 129 := rfl
    omega
  obtain ⟨jv, hjv⟩ : ∃ jv : Buf ℂ, jv = fun i =>
    if i = 0 then some (fin 1) else if i ≤ max 1 order then some (fin 0) else none := ⟨_, rfl⟩
  obtain ⟨jd, hjd⟩ : ∃ jd : Buf ℂ, jd = fun i => if i = 1 then
    some (toC (fin 1 / (fin ‖k * (euclid t c : ℂ)‖ * fin 3))) else if i ≤ max 1 order then some (fin 0) else none := ⟨_, rfl⟩
  refine ⟨jv, if ifder then some jd else none, ‖k * (euclid t c : ℂ)‖, tinyVal, tinyDer, ?_, hs0, ?_, ?_, ?_, ?_⟩
  · unfold tsHelmholtzPrecompute
    simp only [cdist_eq, hsc]
    unfold jfuns3d
    rw [if_pos hz, jTiny, if_neg hsize, hjv, hjd]
    rfl
  · intro n hn
    have hn' : n ≤ max 1 order := hn.trans (le_max_right _ _)
    simp only [tinyVal, hjv]
    by_cases h : n = 0
    · subst h; simp
    · simp [h, hn']
  · intro n _
    cases n with
    | zero =>
      rw [norm_sub_rev]
      exact sphJ_zero_small h0 h1
    | succ n =>
      simp only [tinyVal, if_neg (Nat.succ_ne_zero n), zero_sub, norm_neg]
      exact sphJ_small (n + 1) h0 h1 (by omega)
  · intro hd
    subst hd
    refine ⟨_, if_pos rfl, ?_⟩
    intro n hn
    have hn' : n ≤ max 1 order := hn.trans (le_max_right _ _)
    simp only [tinyDer, hjd]
    by_cases h : n = 1
    · subst h
      have h3 : ‖k * (euclid t c : ℂ)‖ * 3 ≠ 0 := mul_ne_zero hs0 (by norm_num)
      simp only [if_true, fin_mul]
      rw [fin_div _ h3, toC_fin]
      congr 2
      push_cast
      rw [pow_one]
      have : ((‖k * (euclid t c : ℂ)‖ : ℝ) : ℂ) ≠ 0 := by exact_mod_cast hs0
      field_simp
    · simp [h, hn']
  · intro n _
    rw [(sphJ_dval n h0).deriv]
    obtain ⟨z, hzz⟩ : ∃ z, z = k * (euclid t c : ℂ) := ⟨_, rfl⟩
    rw [← hzz] at h0 h1 ⊢
    have hj : ∀ m, 1 ≤ m → ‖sphJ m z‖ ≤ ‖z‖ := fun m hm => sphJ_small m h0 h1 hm
    unfold dval tinyDer
    match n with
    | 0 => simpa using hj 1 le_rfl
    | 1 =>
      simp only [if_true, if_neg one_ne_zero]
      have e : (1 / 3 : ℂ) - (((1 : ℕ) : ℂ) * sphJ (1 - 1) z - (((1 : ℕ) : ℂ) + 1) * sphJ (1 + 1) z) / (2 * ((1 : ℕ) : ℂ) + 1)
          = -(sphJ 0 z - 1) / 3 + 2 / 3 * sphJ 2 z := by
        norm_num
        ring
      rw [e]
      refine (norm_add_le _ _).trans ?_
      rw [norm_div, norm_neg, norm_mul]
      have e1 : ‖(3 : ℂ)‖ = 3 := by norm_num
      have e2 : ‖(2 / 3 : ℂ)‖ = 2 / 3 := by norm_num
      rw [e1, e2]
      have b1 := sphJ_zero_small h0 h1
      have b2 := hj 2 (by norm_num)
      linarith
    | n + 2 =>
      rw [if_neg (by omega), if_neg (by omega), zero_sub, norm_neg, norm_div, norm_odd, div_le_iff₀ (by positivity)]
      refine (norm_sub_le _ _).trans ?_
      rw [norm_mul, norm_mul]
      have e1 : ‖((n + 2 : ℕ) : ℂ)‖ = ((n + 2 : ℕ) : ℝ) := Complex.norm_natCast _
      have e2 : ‖((n + 2 : ℕ) : ℂ) + 1‖ = ((n + 2 : ℕ) : ℝ) + 1 := by
        rw [show ((n + 2 : ℕ) : ℂ) + 1 = ((n + 3 : ℕ) : ℂ) by push_cast; ring, Complex.norm_natCast]
        push_cast; ring
      rw [e1, e2]
      have b1 := hj (n + 2 - 1) (by omega)
      have b2 := hj (n + 2 + 1) (by omega)
      have c1 : (0 : ℝ) ≤ ((n + 2 : ℕ) : ℝ) := by positivity
      nlinarith [mul_le_mul_of_nonneg_left b1 c1, mul_le_mul_of_nonneg_left b2 (by linarith : (0 : ℝ) ≤ ((n + 2 : ℕ) : ℝ) + 1)]

/-- The hypotheses are met: `k = 10⁻²⁰¹`, `|t-c| = 1`. -/
example : ((1 / 10 ^ 201 : ℂ)) * (euclid exT exC : ℂ) ≠ 0 ∧ ‖(1 / 10 ^ 201 : ℂ) * (euclid exT exC : ℂ)‖ < 1 / 10 ^ 200 := by
  rw [ex_dist.2]
  norm_num

end Verif.Ts
