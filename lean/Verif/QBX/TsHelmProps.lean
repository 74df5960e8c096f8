import Verif.QBX.TsMillerMid

/-!
# C82: the target-specific Helmholtz kernels
-/

namespace Verif.Ts

open Fl Finset Filter Topology

/-! ## Specification (no reference to the model) -/

/-- `e^{ik|s-t|}/|s-t|`: the outgoing Helmholtz kernel without its constant `1/(4π)`. -/
noncomputable def helmKern (k : ℂ) (s t : V3) : ℂ :=
  Complex.exp (Complex.I * (k * euclid s t)) / euclid s t

/-- The order-`p` local (spherical-wave) expansion about `c` of the field at `t` of a unit charge
at `s`: `ik Σ_{n≤p} (2n+1) j_n(k|t-c|) h_n(k|s-c|) P_n(cos ∠)`. -/
noncomputable def helmLocal (p : ℕ) (k : ℂ) (s c t : V3) : ℂ :=
  Complex.I * k * ∑ n ∈ range (p + 1),
    (2 * (n : ℂ) + 1) * sphJ n (k * euclid t c) * sphH n (k * euclid s c) * (leg (cosv s c t) n : ℝ)

/-- A constant of moderate size in the error bounds: `e^{|k||t-c|} |e^{ik|s-c|}| e^{|k||s-c|}`. -/
noncomputable def helmConst (k : ℂ) (s c t : V3) : ℝ :=
  Real.exp ‖k * (euclid t c : ℂ)‖ * (‖Complex.exp (Complex.I * (k * euclid s c))‖ * Real.exp ‖k * (euclid s c : ℂ)‖)

/-! ## The expansion converges to the kernel -/

theorem helmLocal_hsum (p : ℕ) (k : ℂ) (s c t : V3) :
    helmLocal p k s c t = Complex.I * k * hsum (k * euclid t c) (k * euclid s c) (cosv s c t) p := rfl

/-- The shifted source used to apply Cauchy–Schwarz. -/
theorem mu_bound {s c t : V3} (ht : t ≠ c) (hst : s ≠ t) :
    |(∑ i, (t i - c i) * (s i - t i)) / euclid t c| ≤ euclid s t := by
  have ha := euclid_pos ht
  have hd := euclid_pos hst
  have h := cosv_range (fun i => s i - t i + c i) c t
  have e1 : inn (fun i => s i - t i + c i) c t = ∑ i, (t i - c i) * (s i - t i) := by
    unfold inn; exact sum_congr rfl fun i _ => by ring
  have e2 : euclid (fun i => s i - t i + c i) c = euclid s t := by
    unfold euclid; congr 1; exact sum_congr rfl fun i _ => by ring
  unfold cosv at h
  rw [e1, e2, div_mul_eq_div_div, le_div_iff₀ hd, div_le_iff₀ hd] at h
  rw [abs_le]
  constructor <;> linarith

theorem path_geom {s c t : V3} (ht : t ≠ c) (hs : s ≠ c) :
    euclid s t ^ 2 + 2 * euclid t c * ((∑ i, (t i - c i) * (s i - t i)) / euclid t c)
        = euclid s c ^ 2 - euclid t c ^ 2 ∧
    pb (euclid s t) ((∑ i, (t i - c i) * (s i - t i)) / euclid t c) (euclid t c) = euclid s c ∧
    ((∑ i, (t i - c i) * (s i - t i)) / euclid t c + euclid t c) / euclid s c = cosv s c t := by
  have ha := euclid_pos ht
  have hb := euclid_pos hs
  have h1 : euclid s t ^ 2 + 2 * euclid t c * ((∑ i, (t i - c i) * (s i - t i)) / euclid t c)
      = euclid s c ^ 2 - euclid t c ^ 2 := by
    rw [show 2 * euclid t c * ((∑ i, (t i - c i) * (s i - t i)) / euclid t c) = 2 * ∑ i, (t i - c i) * (s i - t i) by
      field_simp]
    rw [euclid_sq, euclid_sq, euclid_sq, Fin.sum_univ_three, Fin.sum_univ_three, Fin.sum_univ_three,
      Fin.sum_univ_three]
    ring
  refine ⟨h1, ?_, ?_⟩
  · unfold pb
    rw [h1, sub_add_cancel, Real.sqrt_sq hb.le]
  · unfold cosv
    have e : inn s c t = ∑ i, (t i - c i) * (s i - t i) + euclid t c ^ 2 := by
      rw [euclid_sq, inn, Fin.sum_univ_three, Fin.sum_univ_three, Fin.sum_univ_three]
      ring
    rw [e]
    field_simp

theorem helmKern_h0 {k : ℂ} (hk : k ≠ 0) {s t : V3} (h : s ≠ t) :
    helmKern k s t = Complex.I * k * sphH 0 (k * euclid s t) := by
  have hd : (euclid s t : ℂ) ≠ 0 := by exact_mod_cast (euclid_pos h).ne'
  have := Complex.I_ne_zero
  unfold helmKern
  rw [sphH_zero]
  field_simp

theorem helmLocal_error {s c t : V3} (ht : t ≠ c) (hts : euclid t c < euclid s c) {k : ℂ} (hk : k ≠ 0) (p : ℕ) :
    ‖helmKern k s t - helmLocal p k s c t‖
      ≤ helmConst k s c t / (euclid s c - euclid t c) * (euclid t c / euclid s c) ^ (p + 1) := by
  obtain ⟨hs, _, _⟩ := ratio_lt ht hts
  have hst := st_ne hts
  have ha := euclid_pos ht
  have hkp : 0 < ‖k‖ := norm_pos_iff.mpr hk
  obtain ⟨g1, g2, g3⟩ := path_geom ht hs
  have h := hsum_error hk (euclid_pos hst) (mu_bound ht hst) ha (by rw [g1]; nlinarith) p
  rw [g2, g3] at h
  rw [helmKern_h0 hk hst, helmLocal_hsum, ← mul_sub, norm_mul, norm_mul, Complex.norm_I, one_mul]
  refine (mul_le_mul_of_nonneg_left h hkp.le).trans (le_of_eq ?_)
  have hne : euclid s c - euclid t c ≠ 0 := by linarith
  unfold hcst helmConst
  field_simp

theorem helmLocal_tendsto {s c t : V3} (ht : t ≠ c) (hts : euclid t c < euclid s c) {k : ℂ} (hk : k ≠ 0) :
    Tendsto (fun p => helmLocal p k s c t) atTop (𝓝 (helmKern k s t)) := by
  obtain ⟨hs, hr0, hr1⟩ := ratio_lt ht hts
  have h0 : Tendsto (fun p : ℕ => helmConst k s c t / (euclid s c - euclid t c) * (euclid t c / euclid s c) ^ (p + 1))
      atTop (𝓝 0) := by
    have := ((tendsto_pow_atTop_nhds_zero_of_lt_one hr0.le hr1).comp (tendsto_add_atTop_nat 1)).const_mul
      (helmConst k s c t / (euclid s c - euclid t c))
    rw [mul_zero] at this
    exact this
  have h1 := squeeze_zero_norm (fun p => helmLocal_error ht hts hk p) h0
  have h2 := h1.const_sub (helmKern k s t)
  rw [sub_zero] at h2
  exact h2.congr fun p => by ring

/-! ## Gradients of the expansion -/

theorem hterm_deriv (k : ℂ) (A B N : ℝ → ℝ) (A' B' N' τ : ℝ) (hk : k ≠ 0) (hA : HasDerivAt A A' τ)
    (hB : HasDerivAt B B' τ) (hN : HasDerivAt N N' τ) (ha : 0 < A τ) (hb : 0 < B τ) (n : ℕ) :
    HasDerivAt (fun y => (2 * (n : ℂ) + 1) * sphJ n (k * A y) * sphH n (k * B y) * (leg (N y / (A y * B y)) n : ℝ))
      ((2 * (n : ℂ) + 1) *
        ((dval (fun m => sphJ m (k * A τ)) n * (k * A') * sphH n (k * B τ)
          + sphJ n (k * A τ) * (sphH' n (k * B τ) * (k * B'))) * (leg (N τ / (A τ * B τ)) n : ℝ)
        + sphJ n (k * A τ) * sphH n (k * B τ)
          * ((dleg (N τ / (A τ * B τ)) n * ((N' - N τ / (A τ * B τ) * (A' * B τ + A τ * B')) / (A τ * B τ)) : ℝ) : ℂ)))
      τ := by
  have hab : A τ * B τ ≠ 0 := mul_ne_zero ha.ne' hb.ne'
  have hak : k * (A τ : ℂ) ≠ 0 := mul_ne_zero hk (by exact_mod_cast ha.ne')
  have hbk : k * (B τ : ℂ) ≠ 0 := mul_ne_zero hk (by exact_mod_cast hb.ne')
  have hx := hN.fun_div (hA.fun_mul hB) hab
  have hl := ((leg_hasDeriv n (N τ / (A τ * B τ))).comp τ hx).ofReal_comp
  have hJ := HasDerivAt.comp_of_eq τ (h₂ := sphJ n) (sphJ_dval n hak) (hA.ofReal_comp.const_mul k) rfl
  have hH := HasDerivAt.comp_of_eq τ (h₂ := sphH n) (sphH'_deriv n hbk) (hB.ofReal_comp.const_mul k) rfl
  have h := ((hJ.const_mul (2 * (n : ℂ) + 1)).fun_mul hH).fun_mul hl
  refine h.congr_deriv ?_
  have e1 : (N' * (A τ * B τ) - N τ * (A' * B τ + A τ * B')) / (A τ * B τ) ^ 2
      = (N' - N τ / (A τ * B τ) * (A' * B τ + A τ * B')) / (A τ * B τ) := by
    field_simp
  rw [e1]
  simp only [Function.comp]
  push_cast
  ring

/-- The target derivative of one term (without `ik`). -/
noncomputable def gT (k : ℂ) (s c : V3) (m : Fin 3) (t : V3) (n : ℕ) : ℂ :=
  (2 * (n : ℂ) + 1) * sphH n (k * euclid s c) / euclid t c
    * (k * dval (fun i => sphJ i (k * euclid t c)) n * (leg (cosv s c t) n : ℝ) * (t m - c m : ℝ)
      + ((s m - c m) / euclid s c - cosv s c t * (t m - c m) / euclid t c : ℝ) * sphJ n (k * euclid t c)
        * (dleg (cosv s c t) n : ℝ))

/-- The source derivative of one term (without `ik`). -/
noncomputable def gS (k : ℂ) (s c : V3) (m : Fin 3) (t : V3) (n : ℕ) : ℂ :=
  (2 * (n : ℂ) + 1) * sphJ n (k * euclid t c) / euclid s c
    * (k * (s m - c m : ℝ) * sphH' n (k * euclid s c) * (leg (cosv s c t) n : ℝ)
      + ((t m - c m) / euclid t c - cosv s c t * (s m - c m) / euclid s c : ℝ) * sphH n (k * euclid s c)
        * (dleg (cosv s c t) n : ℝ))

theorem term_deriv_t {s c t : V3} (ht : t ≠ c) (hs : s ≠ c) {k : ℂ} (hk : k ≠ 0) (m : Fin 3) (n : ℕ) :
    HasDerivAt (fun y => (2 * (n : ℂ) + 1) * sphJ n (k * euclid (Function.update t m y) c) * sphH n (k * euclid s c)
        * (leg (cosv s c (Function.update t m y)) n : ℝ)) (gT k s c m t n) (t m) := by
  have ha := euclid_pos ht
  have hb := euclid_pos hs
  have hac : (euclid t c : ℂ) ≠ 0 := by exact_mod_cast ha.ne'
  have hbc : (euclid s c : ℂ) ≠ 0 := by exact_mod_cast hb.ne'
  unfold cosv
  have h := hterm_deriv k (fun y => euclid (Function.update t m y) c) (fun _ => euclid s c)
    (fun y => inn s c (Function.update t m y)) _ _ _ (t m) hk (euclid_deriv ht m) (hasDerivAt_const _ _)
    (inn_deriv_t s c t m) (by simpa [Function.update_eq_self] using ha) hb n
  refine h.congr_deriv ?_
  simp only [Function.update_eq_self, gT, cosv]
  obtain ⟨x, hx⟩ : ∃ x, x = inn s c t / (euclid t c * euclid s c) := ⟨_, rfl⟩
  rw [← hx]
  push_cast
  field_simp
  ring

theorem term_deriv_s {s c t : V3} (ht : t ≠ c) (hs : s ≠ c) {k : ℂ} (hk : k ≠ 0) (m : Fin 3) (n : ℕ) :
    HasDerivAt (fun y => (2 * (n : ℂ) + 1) * sphJ n (k * euclid t c) * sphH n (k * euclid (Function.update s m y) c)
        * (leg (cosv (Function.update s m y) c t) n : ℝ)) (gS k s c m t n) (s m) := by
  have ha := euclid_pos ht
  have hb := euclid_pos hs
  have hac : (euclid t c : ℂ) ≠ 0 := by exact_mod_cast ha.ne'
  have hbc : (euclid s c : ℂ) ≠ 0 := by exact_mod_cast hb.ne'
  unfold cosv
  have h := hterm_deriv k (fun _ => euclid t c) (fun y => euclid (Function.update s m y) c)
    (fun y => inn (Function.update s m y) c t) _ _ _ (s m) hk (hasDerivAt_const _ _) (euclid_deriv hs m)
    (inn_deriv_s s c t m) ha (by simpa [Function.update_eq_self] using hb) n
  refine h.congr_deriv ?_
  simp only [Function.update_eq_self, gS, cosv]
  obtain ⟨x, hx⟩ : ∃ x, x = inn s c t / (euclid t c * euclid s c) := ⟨_, rfl⟩
  rw [← hx]
  push_cast
  field_simp
  ring

theorem helmLocal_deriv_t {s c t : V3} (ht : t ≠ c) (hs : s ≠ c) {k : ℂ} (hk : k ≠ 0) (p : ℕ) (m : Fin 3) :
    HasDerivAt (fun y => helmLocal p k s c (Function.update t m y))
      (Complex.I * k * ∑ n ∈ range (p + 1), gT k s c m t n) (t m) := by
  unfold helmLocal
  exact (HasDerivAt.fun_sum fun n _ => term_deriv_t ht hs hk m n).const_mul _

theorem helmLocal_deriv_s {s c t : V3} (ht : t ≠ c) (hs : s ≠ c) {k : ℂ} (hk : k ≠ 0) (p : ℕ) (m : Fin 3) :
    HasDerivAt (fun y => helmLocal p k (Function.update s m y) c t)
      (Complex.I * k * ∑ n ∈ range (p + 1), gS k s c m t n) (s m) := by
  unfold helmLocal
  exact (HasDerivAt.fun_sum fun n _ => term_deriv_s ht hs hk m n).const_mul _

theorem hspSum_exact (k : ℂ) (s c t : V3) (m : Fin 3) (p : ℕ) :
    hspSum k (fun n => sphJ n (k * euclid t c)) (dval fun n => sphJ n (k * euclid t c)) (k * euclid s c) (cosv s c t)
      (euclid t c) (t m - c m) ((s m - c m) / euclid s c - cosv s c t * (t m - c m) / euclid t c) (p + 1)
      = ∑ n ∈ range (p + 1), gT k s c m t n := rfl

theorem hdSum_exact (k : ℂ) (s c t : V3) (m : Fin 3) (p : ℕ) :
    hdSum k (fun n => sphJ n (k * euclid t c)) (k * euclid s c) (cosv s c t)
      (euclid s c) (s m - c m) ((t m - c m) / euclid t c - cosv s c t * (s m - c m) / euclid s c) (p + 1)
      = ∑ n ∈ range (p + 1), gS k s c m t n := by
  unfold hdSum gS
  rfl

/-! ## C82 -/

/-- C82 (single layer, exact Bessel values): if the precomputed arrays hold `j_n(k|t-c|)/jscale^n`,
`ts_helmholtz_s` returns exactly the charge times the order-`p` local expansion, for every order
below the buffer size. -/
theorem C82_single_layer {s c t : V3} (ht : t ≠ c) (hs : s ≠ c) {k : ℂ} (hk : k ≠ 0)
    (hb : 1 / 10 ^ 15 ≤ ‖k * (euclid s c : ℂ)‖) (charge : ℂ) (order : ℕ) (ho : order < 64)
    (jvals : Buf ℂ) (jscale : ℝ) (hjs : jscale ≠ 0)
    (hj : ∀ n, n ≤ order → jvals n = some (fin (sphJ n (k * euclid t c) / (jscale : ℂ) ^ n))) :
    tsHelmholtzS s c t (fin charge) order k jvals (fin jscale) = some (fin (charge * helmLocal order k s c t)) := by
  rw [tsHelmholtzS_eq ht hs hk (not_lt.mpr hb) charge order ho (fun n => sphJ n (k * euclid t c)) jvals jscale hjs hj]
  rfl

/-- C82 (gradient, exact Bessel values): `ts_helmholtz_sp` adds to each component of `grad` exactly
the charge times the partial derivative of the local expansion in the target coordinate. -/
theorem C82_gradient {s c t : V3} (ht : t ≠ c) (hs : s ≠ c) {k : ℂ} (hk : k ≠ 0)
    (hb : 1 / 10 ^ 15 ≤ ‖k * (euclid s c : ℂ)‖) (grad : Fin 3 → ℂ) (charge : ℂ) (order : ℕ) (ho : order < 64)
    (jvals jderivs : Buf ℂ) (jscale : ℝ) (hjs : jscale ≠ 0)
    (hj : ∀ n, n ≤ order → jvals n = some (fin (sphJ n (k * euclid t c) / (jscale : ℂ) ^ n)))
    (hd : ∀ n, n ≤ order → jderivs n = some (fin (deriv (sphJ n) (k * euclid t c) / (jscale : ℂ) ^ n))) :
    ∃ D : Fin 3 → ℂ, (∀ m, HasDerivAt (fun y => helmLocal order k s c (Function.update t m y)) (D m) (t m)) ∧
      tsHelmholtzSp (fun m => fin (grad m)) s c t (fin charge) order k jvals jderivs (fin jscale)
        = some fun m => fin (grad m + charge * D m) := by
  have hak : k * (euclid t c : ℂ) ≠ 0 := mul_ne_zero hk (by exact_mod_cast (euclid_pos ht).ne')
  refine ⟨_, fun m => helmLocal_deriv_t ht hs hk order m, ?_⟩
  rw [tsHelmholtzSp_eq ht hs hk (not_lt.mpr hb) grad charge order ho (fun n => sphJ n (k * euclid t c))
    (dval fun n => sphJ n (k * euclid t c)) jvals jderivs jscale hjs hj
    (fun n hn => by rw [hd n hn, (sphJ_dval n hak).deriv])]
  congr 1

/-- C82 (double layer, exact Bessel values): `ts_helmholtz_d` returns exactly the dipole strength
times the derivative, in the direction of the dipole vector, of the local expansion with respect
to the source. -/
theorem C82_double_layer {s c t : V3} (ht : t ≠ c) (hs : s ≠ c) {k : ℂ} (hk : k ≠ 0)
    (hb : 1 / 10 ^ 15 ≤ ‖k * (euclid s c : ℂ)‖) (dipole : V3) (dipstr : ℂ) (order : ℕ) (ho : order < 64)
    (jvals : Buf ℂ) (jscale : ℝ) (hjs : jscale ≠ 0)
    (hj : ∀ n, n ≤ order → jvals n = some (fin (sphJ n (k * euclid t c) / (jscale : ℂ) ^ n))) :
    ∃ D : Fin 3 → ℂ, (∀ m, HasDerivAt (fun y => helmLocal order k (Function.update s m y) c t) (D m) (s m)) ∧
      tsHelmholtzD s c t dipole (fin dipstr) order k jvals (fin jscale)
        = some (fin (dipstr * ∑ m, (dipole m : ℂ) * D m)) := by
  refine ⟨_, fun m => helmLocal_deriv_s ht hs hk order m, ?_⟩
  rw [tsHelmholtzD_eq ht hs hk (not_lt.mpr hb) dipole dipstr order ho (fun n => sphJ n (k * euclid t c)) jvals jscale
    hjs hj]
  simp only [hdSum_exact]

/-- C82 (precomputation, any argument): whenever `ts_helmholtz_precompute` returns, its
values solve the Bessel recurrence below some index `N`, vanish at `N`, and agree with `j_0` or
`j_1` (whichever is larger); so their errors are the unique such solution that is 0 at that index
and `-j_N` at `N`. -/
theorem C82_precompute_general {c t : V3} {k : ℂ} (hz : 1 / 10 ^ 200 ≤ ‖k * (euclid t c : ℂ)‖) (order : ℕ)
    (ho : order < 64) (ifder : Bool) {N : ℕ} (hT : IsTop (k * euclid t c) (max 1 order) N) (hN : N < 64)
    (hm : mil (k * euclid t c) N (normIx (k * euclid t c)) ≠ 0) :
    ∃ (jvals : Buf ℂ) (jderivs : Option (Buf ℂ)) (jscale : ℝ) (u : ℕ → ℂ) (m : ℕ),
      tsHelmholtzPrecompute c t order ifder k = some (.ok jvals jderivs (fin jscale)) ∧
      (∀ n, n ≤ order → jvals n = some (fin (u n / (jscale : ℂ) ^ n))) ∧
      (∀ n, 1 ≤ n → n < N → u (n + 1) = (2 * (n : ℂ) + 1) / (k * euclid t c) * u n - u (n - 1)) ∧
      u N = 0 ∧ m ≤ 1 ∧ u m = sphJ m (k * euclid t c) := by
  have hz' : ¬ ‖k * (euclid t c : ℂ)‖ < 1 / 10 ^ 200 := not_lt.mpr hz
  have hz0 := tiny_ne hz'
  have hk : k ≠ 0 := left_ne_zero_of_mul hz0
  have hac : 0 < euclid t c := lt_of_le_of_ne (euclid_nonneg t c) (by
    have := right_ne_zero_of_mul hz0
    intro h; rw [← h] at this; simp at this)
  have hσ := helmScale_pos hk hac
  obtain ⟨fjs, fjder, h1, h2, _⟩ := jfuns_ok (size := bufSize + padding) (le_max_left 1 order) (by decide) hz'
    hσ.ne' ifder hT hN hm
  refine ⟨fjs, fjder, helmScale k (euclid t c), mval (k * euclid t c) N, normIx (k * euclid t c), ?_,
    fun n hn => h2 n (hn.trans (le_max_right 1 order)), ?_, ?_, normIx_le _, ?_⟩
  · unfold tsHelmholtzPrecompute
    simp only [cdist_eq]
    rw [h1]; rfl
  · intro n hn1 hn2
    unfold mval
    rw [mil_Rec _ _ n hn1 hn2]; ring
  · unfold mval
    rw [(mil_top _ N (by have := hT.1; omega)).1, zero_mul]
  · unfold mval
    field_simp

/-- C82 (precomputation): if `|k||t-c| ≤ 3` and the order is at most 50, `ts_helmholtz_precompute`
returns, and its values (unscaled) are `j_n` to a relative accuracy of `5·10⁻¹⁹`, its derivatives
`j_n'` to an absolute accuracy of `10⁻¹⁸ |j_{n-1}|`. -/
theorem C82_precompute_partial {c t : V3} {k : ℂ} (hz : 1 / 10 ^ 200 ≤ ‖k * (euclid t c : ℂ)‖)
    (hz1 : ‖k * (euclid t c : ℂ)‖ ≤ 3) (order : ℕ) (ho : order ≤ 50) (ifder : Bool) :
    ∃ (jvals : Buf ℂ) (jderivs : Option (Buf ℂ)) (jscale : ℝ) (u u' : ℕ → ℂ),
      tsHelmholtzPrecompute c t order ifder k = some (.ok jvals jderivs (fin jscale)) ∧ jscale ≠ 0 ∧
      (∀ n, n ≤ order → jvals n = some (fin (u n / (jscale : ℂ) ^ n))) ∧
      (∀ n, n ≤ order → ‖u n - sphJ n (k * euclid t c)‖ ≤ 5 / 10 ^ 19 * ‖sphJ n (k * euclid t c)‖) ∧
      (ifder = true → ∃ d, jderivs = some d ∧ ∀ n, n ≤ order → d n = some (fin (u' n / (jscale : ℂ) ^ n))) ∧
      (∀ n, n ≤ order →
        ‖u' n - deriv (sphJ n) (k * euclid t c)‖ ≤ 1 / 10 ^ 18 * ‖sphJ (n - 1) (k * euclid t c)‖) := by
  have hz' : ¬ ‖k * (euclid t c : ℂ)‖ < 1 / 10 ^ 200 := not_lt.mpr hz
  have hz0 := tiny_ne hz'
  have hk : k ≠ 0 := left_ne_zero_of_mul hz0
  have hac : 0 < euclid t c := lt_of_le_of_ne (euclid_nonneg t c) (by
    have := right_ne_zero_of_mul hz0
    intro h; rw [← h] at this; simp at this)
  have hσ := helmScale_pos hk hac
  obtain ⟨N, hT, hN⟩ := top_exists3 hz0 hz1 (le_max_left 1 order) (max_le (by norm_num) ho)
  have hm : mil (k * euclid t c) N (normIx (k * euclid t c)) ≠ 0 := by
    have hlt := hT.1
    exact mil_norm3 hz0 hz1 (by omega)
  obtain ⟨fjs, fjder, h1, h2, h3⟩ := jfuns_ok (size := bufSize + padding) (le_max_left 1 order) (by decide) hz'
    hσ.ne' ifder hT hN hm
  have hle : ∀ n, n ≤ order → n ≤ max 1 order := fun n hn => hn.trans (le_max_right 1 order)
  refine ⟨fjs, fjder, helmScale k (euclid t c), mval (k * euclid t c) N, dval (mval (k * euclid t c) N), ?_,
    hσ.ne', fun n hn => h2 n (hle n hn), fun n hn => mval_accuracy3 hz0 hz1 (le_max_left 1 order) hT n (hle n hn),
    fun hd => ?_, fun n hn => ?_⟩
  · unfold tsHelmholtzPrecompute
    simp only [cdist_eq]
    rw [h1]; rfl
  · obtain ⟨d, e, h⟩ := h3 hd
    exact ⟨d, e, fun n hn => h n (hle n hn)⟩
  · rw [(sphJ_dval n hz0).deriv]
    exact dval_accuracy3 hz0 hz1 (le_max_left 1 order) hT n (hle n hn)

/-- C82 (single layer, accuracy): for `|k||t-c| ≤ 3`, a target closer to the centre than the source,
and order at most 50, precomputation followed by `ts_helmholtz_s` returns the charge times
`e^{ik|s-t|}/|s-t|` up to the geometric truncation error and the error of the Bessel values. -/
theorem C82_single_layer_error {s c t : V3} {k : ℂ} (hz : 1 / 10 ^ 200 ≤ ‖k * (euclid t c : ℂ)‖)
    (hz1 : ‖k * (euclid t c : ℂ)‖ ≤ 3) (hts : euclid t c < euclid s c)
    (hb : 1 / 10 ^ 15 ≤ ‖k * (euclid s c : ℂ)‖) (charge : ℂ) (order : ℕ) (ho : order ≤ 50) (ifder : Bool) :
    ∃ (jvals : Buf ℂ) (jderivs : Option (Buf ℂ)) (jscale : Fl ℝ) (v : ℂ),
      tsHelmholtzPrecompute c t order ifder k = some (.ok jvals jderivs jscale) ∧
      tsHelmholtzS s c t (fin charge) order k jvals jscale = some (fin v) ∧
      ‖v - charge * helmKern k s t‖ ≤ ‖charge‖ * (helmConst k s c t / (euclid s c - euclid t c)
        * ((euclid t c / euclid s c) ^ (order + 1) + 5 / 10 ^ 19)) := by
  have hz0 := tiny_ne (not_lt.mpr hz)
  have hk : k ≠ 0 := left_ne_zero_of_mul hz0
  have ht : t ≠ c := by
    rintro rfl
    rw [euclid_self] at hz0; simp at hz0
  obtain ⟨hs, hr0, hr1⟩ := ratio_lt ht hts
  have hbk := ne_of_thresh (not_lt.mpr hb)
  have hkp : 0 < ‖k‖ := norm_pos_iff.mpr hk
  have hap := euclid_pos ht
  have hbp := euclid_pos hs
  obtain ⟨jv, jd, js, u, u', h1, hjs, h2, h3, _, _⟩ := C82_precompute_partial hz hz1 order ho ifder
  refine ⟨jv, jd, fin js, _, h1,
    tsHelmholtzS_eq ht hs hk (not_lt.mpr hb) charge order (by omega) u jv js hjs h2, ?_⟩
  have na : ‖k * (euclid t c : ℂ)‖ = ‖k‖ * euclid t c := by
    rw [norm_mul, Complex.norm_real, Real.norm_eq_abs, abs_of_pos hap]
  have nb : ‖k * (euclid s c : ℂ)‖ = ‖k‖ * euclid s c := by
    rw [norm_mul, Complex.norm_real, Real.norm_eq_abs, abs_of_pos hbp]
  have hdiff : ‖hexp u (k * euclid s c) (cosv s c t) order
      - hsum (k * euclid t c) (k * euclid s c) (cosv s c t) order‖
      ≤ 5 / 10 ^ 19 * (helmConst k s c t / (‖k‖ * (euclid s c - euclid t c))) := by
    unfold hexp hsum
    rw [← sum_sub_distrib]
    refine (norm_sum_le _ _).trans ?_
    have hterm1 : ∀ n ∈ range (order + 1),
        ‖(2 * (n : ℂ) + 1) * u n * sphH n (k * euclid s c) * (leg (cosv s c t) n : ℝ)
          - hterm (k * euclid t c) (k * euclid s c) (cosv s c t) n‖
        ≤ 5 / 10 ^ 19 * (helmConst k s c t / (‖k‖ * euclid s c) * (euclid t c / euclid s c) ^ n) := by
      intro n hn
      have hn' : n ≤ order := by rw [mem_range] at hn; omega
      have hb1 := hterm_bound hz0 hbk (x := 1) (by norm_num) le_rfl n
      rw [hterm, leg_one, norm_mul, norm_mul, norm_mul, norm_odd, Complex.ofReal_one, norm_one, mul_one, na, nb,
        mul_div_mul_left _ _ hkp.ne'] at hb1
      have e : (2 * (n : ℂ) + 1) * u n * sphH n (k * euclid s c) * (leg (cosv s c t) n : ℝ)
          - hterm (k * euclid t c) (k * euclid s c) (cosv s c t) n
          = (2 * (n : ℂ) + 1) * (u n - sphJ n (k * euclid t c)) * sphH n (k * euclid s c) * (leg (cosv s c t) n : ℝ) := by
        unfold hterm; ring
      rw [e, norm_mul, norm_mul, norm_mul, norm_odd, Complex.norm_real, Real.norm_eq_abs]
      have hx := cosv_range s c t
      calc _ ≤ (2 * (n : ℝ) + 1) * (5 / 10 ^ 19 * ‖sphJ n (k * euclid t c)‖) * ‖sphH n (k * euclid s c)‖ * 1 := by
            refine mul_le_mul ?_ (leg_abs_le hx.1 hx.2 n) (abs_nonneg _) (by positivity)
            exact mul_le_mul_of_nonneg_right (mul_le_mul_of_nonneg_left (h3 n hn') (by positivity)) (norm_nonneg _)
        _ = 5 / 10 ^ 19 * ((2 * (n : ℝ) + 1) * ‖sphJ n (k * euclid t c)‖ * ‖sphH n (k * euclid s c)‖) := by ring
        _ ≤ _ := mul_le_mul_of_nonneg_left hb1 (by positivity)
    refine (sum_le_sum hterm1).trans ?_
    rw [← mul_sum, ← mul_sum]
    refine mul_le_mul_of_nonneg_left ?_ (by positivity)
    have hgeo : ∑ n ∈ range (order + 1), (euclid t c / euclid s c) ^ n ≤ 1 / (1 - euclid t c / euclid s c) := by
      rw [geom_sum_eq hr1.ne, ← neg_div_neg_eq, neg_sub, neg_sub]
      exact div_le_div_of_nonneg_right (by linarith [pow_nonneg hr0.le (order + 1)]) (by linarith)
    have hCp : 0 ≤ helmConst k s c t / (‖k‖ * euclid s c) := by unfold helmConst; positivity
    refine (mul_le_mul_of_nonneg_left hgeo hCp).trans (le_of_eq ?_)
    have hne : euclid s c - euclid t c ≠ 0 := by linarith
    have h3 : 1 - euclid t c / euclid s c = (euclid s c - euclid t c) / euclid s c := by field_simp
    rw [h3]
    field_simp
  have htr := helmLocal_error ht hts hk order
  have e : charge * (Complex.I * k * hexp u (k * euclid s c) (cosv s c t) order) - charge * helmKern k s t
      = charge * (Complex.I * k * (hexp u (k * euclid s c) (cosv s c t) order
          - hsum (k * euclid t c) (k * euclid s c) (cosv s c t) order)
        - (helmKern k s t - helmLocal order k s c t)) := by
    rw [helmLocal_hsum]; ring
  rw [e, norm_mul]
  refine mul_le_mul_of_nonneg_left ((norm_sub_le _ _).trans ?_) (norm_nonneg _)
  rw [norm_mul, norm_mul, Complex.norm_I, one_mul]
  refine (add_le_add (mul_le_mul_of_nonneg_left hdiff hkp.le) htr).trans (le_of_eq ?_)
  have hne : euclid s c - euclid t c ≠ 0 := by linarith
  field_simp
  ring

/-! ### Where the claim fails -/

/-- C82 (large arguments): if `|k||t-c| ≥ 129`, `ts_helmholtz_precompute` calls `abort()` at every
order below the array size (the process dies). -/
theorem C82_abort_refuted {c t : V3} {k : ℂ} (hz : 129 ≤ ‖k * (euclid t c : ℂ)‖) (order : ℕ) (ho : order < 129)
    (ifder : Bool) : tsHelmholtzPrecompute c t order ifder k = some .abort := by
  have hz' : ¬ ‖k * (euclid t c : ℂ)‖ < 1 / 10 ^ 200 := by
    rw [not_lt]
    refine le_trans ?_ hz
    rw [div_le_iff₀ (by positivity)]
    have : (1 : ℝ) ≤ 10 ^ 200 := one_le_pow₀ (by norm_num)
    linarith
  have h := jfuns_ier (size := bufSize + padding) (le_max_left 1 order) (by decide)
    (show max 1 order < 129 from max_lt (by norm_num) ho) hz' (fin (helmScale k (euclid t c))) ifder
    (fun l hl hl' => top_missing hz (le_max_left 1 order) l hl hl')
  unfold tsHelmholtzPrecompute
  simp only [cdist_eq]
  rw [h]; rfl

/-- C82 (high orders): from order 63 on the precomputation never returns values: it aborts or
overruns its work array, whatever the points are (`|k||t-c| ≥ 10⁻²⁰⁰`). -/
theorem C82_order_refuted {c t : V3} {k : ℂ} (hz : 1 / 10 ^ 200 ≤ ‖k * (euclid t c : ℂ)‖) (order : ℕ)
    (h63 : 63 ≤ order) (ho : order < 129) (ifder : Bool) :
    tsHelmholtzPrecompute c t order ifder k = some .abort ∨ tsHelmholtzPrecompute c t order ifder k = none := by
  have hz' := not_lt.mpr hz
  have hb : bufSize = 64 := rfl
  unfold tsHelmholtzPrecompute
  simp only [cdist_eq]
  by_cases hsm : ∀ l, max 1 order < l → l ≤ bufSize + 1 → ‖pat (k * euclid t c) (max 1 order) l‖ ≤ 10 ^ 20
  · left
    rw [jfuns_ier (size := bufSize + padding) (le_max_left 1 order) (by decide)
      (show max 1 order < 129 from max_lt (by norm_num) ho) hz' (fin (helmScale k (euclid t c))) ifder hsm]
    rfl
  · right
    classical
    have hex : ∃ l, max 1 order < l ∧ l ≤ bufSize + 1 ∧ 10 ^ 20 < ‖pat (k * euclid t c) (max 1 order) l‖ := by
      by_contra hno
      apply hsm
      intro l a b
      by_contra hc
      exact hno ⟨l, a, b, not_le.mp hc⟩
    obtain ⟨e1, e2, e3⟩ := Nat.find_spec hex
    have hT : IsTop (k * euclid t c) (max 1 order) (Nat.find hex) := ⟨e1, e3, fun l a b => by
      by_contra hc
      exact Nat.find_min hex b ⟨a, by omega, not_le.mp hc⟩⟩
    rw [jfuns_overrun (size := bufSize + padding) (le_max_left 1 order) (by decide)
      (show max 1 order < 129 from max_lt (by norm_num) ho) hz' (fin (helmScale k (euclid t c))) ifder hT
      (by have := le_max_right 1 order; omega) e2]
    rfl

/-- C82 (source at the centre up to `10⁻¹⁵`): `ts_helmholtz_s` and `ts_helmholtz_sp` write through
a null pointer when `|k||s-c| < 10⁻¹⁵`. -/
theorem C82_null_refuted {s c t : V3} {k : ℂ} (hb : ‖k * (euclid s c : ℂ)‖ < 1 / 10 ^ 15) (grad : Fin 3 → Fl ℂ)
    (charge : Fl ℂ) (order : ℕ) (jv jd : Buf ℂ) (js : Fl ℝ) :
    tsHelmholtzS s c t charge order k jv js = none ∧ tsHelmholtzSp grad s c t charge order k jv jd js = none := by
  constructor
  · unfold tsHelmholtzS
    simp only [cdist_eq]
    rw [h3dall_null hb]
    cases legvals (cosAngle s c t) order false <;> rfl
  · unfold tsHelmholtzSp
    simp only [cdist_eq]
    rw [h3dall_null hb]
    cases legvals (cosAngle s c t) order true with
    | none => rfl
    | some lb =>
      obtain ⟨a, b⟩ := lb
      cases b <;> rfl

/-- C82 (double layer, source near the centre): in the same situation `ts_helmholtz_d` returns 0
(for exact Bessel values), although the dipole field is not 0. -/
theorem C82_zero_refuted {s c t : V3} (ht : t ≠ c) (hs : s ≠ c) {k : ℂ} (hk : k ≠ 0)
    (hb : ‖k * (euclid s c : ℂ)‖ < 1 / 10 ^ 15) (dipole : V3) (dipstr : ℂ) (order : ℕ) (ho : order < 64)
    (u : ℕ → ℂ) (jvals : Buf ℂ) (jscale : ℝ) (hj : ∀ n, n ≤ order → jvals n = some (fin (u n))) :
    tsHelmholtzD s c t dipole (fin dipstr) order k jvals (fin jscale) = some (fin 0) := by
  have hsp : 0 < cdist s c := by rw [cdist_eq]; exact euclid_pos hs
  have htp : 0 < cdist t c := by rw [cdist_eq]; exact euclid_pos ht
  have hσ := helmScale_pos hk hsp
  have hscc : (cdist s c : ℂ) ≠ 0 := by exact_mod_cast hsp.ne'
  unfold tsHelmholtzD
  simp only
  rw [legvals_ok _ _ _ ho, Option.bind_some]
  simp only [if_true, Option.bind_some]
  rw [h3dall_zero (by rw [cdist_eq]; exact hb) _ bufSize order ho, Option.bind_some, cosAngle_cosv ht hs]
  simp only [Option.bind_some]
  have key : ∀ m, m ≤ order + 1 → ∃ q : ℝ, (List.range' 0 m).foldlM
      (helmDBody (fun m => t m - c m) (fun m => s m - c m) (fin (cosv s c t)) (fin (cdist t c)) (fin (cdist s c)) k jvals
        (filled (fun _ => fin 0) (order + 1)) (filled (fun _ => fin 0) (order + 1))
        (filled (legF (fin (cosv s c t))) (order + 1)) (filled (dlegF (fin (cosv s c t))) (order + 1))
        (fin jscale / fin (helmScale k (cdist s c)))) (fun _ => fin 0, fin 1)
      = some (fun _ => fin 0, fin q) := by
    intro m
    induction m with
    | zero => intro _; exact ⟨1, rfl⟩
    | succ m ih =>
      intro hm
      obtain ⟨q, hq⟩ := ih (by omega)
      rw [foldlM_range_succ, hq, Option.bind_some, helmDBody, hj m (by omega), filled_ltK _ (by omega),
        filled_ltK _ (by omega), filled_ltK _ (by omega), legF_fin, dlegF_fin]
      simp only [Option.bind_some, fin_mul, fin_add, fin_sub, toC_fin, fin_div _ hσ.ne', fin_div _ htp.ne',
        fin_div _ hsp.ne', fin_div _ hscc]
      refine ⟨q * (jscale / helmScale k (cdist s c)), ?_⟩
      congr 2
      funext i
      congr 1
      ring
  obtain ⟨q, hq⟩ := key (order + 1) le_rfl
  rw [hq]
  simp

/-! ## The hypotheses are met: target at distance 1, source at distance 3, wave number 1 -/

/-- Potential and its total error for a concrete geometry, at order 10. -/
example : ∃ (jvals : Buf ℂ) (jderivs : Option (Buf ℂ)) (jscale : Fl ℝ) (v : ℂ),
      tsHelmholtzPrecompute exC exT 10 true 1 = some (.ok jvals jderivs jscale) ∧
      tsHelmholtzS exS exC exT (fin 2) 10 1 jvals jscale = some (fin v) ∧
      ‖v - 2 * helmKern 1 exS exT‖ ≤ ‖(2 : ℂ)‖ * (helmConst 1 exS exC exT / (euclid exS exC - euclid exT exC)
        * ((euclid exT exC / euclid exS exC) ^ (10 + 1) + 5 / 10 ^ 19)) := by
  have h1 : euclid exT exC = 1 := ex_dist.2
  have h3 : euclid exS exC = 3 := ex_dist.1
  exact C82_single_layer_error (by rw [h1]; norm_num) (by rw [h1]; norm_num) (by rw [h1, h3]; norm_num)
    (by rw [h3]; norm_num) 2 10 (by norm_num) true

/-- Wave number 200: the precomputation aborts for a target at distance 1. -/
example : tsHelmholtzPrecompute exC exT 10 true 200 = some .abort := by
  have h1 : euclid exT exC = 1 := ex_dist.2
  exact C82_abort_refuted (by rw [h1]; norm_num) 10 (by norm_num) true

/-- Wave number `10⁻¹⁶`: the potential kernel writes through a null pointer. -/
example (jv jd : Buf ℂ) (js : Fl ℝ) : tsHelmholtzS exS exC exT (fin 1) 4 (1 / 10 ^ 16) jv js = none := by
  have h3 : euclid exS exC = 3 := ex_dist.1
  exact (C82_null_refuted (by rw [h3]; norm_num) (fun _ => fin 0) (fin 1) 4 jv jd js).1

/-- The double-layer theorem applies to this geometry at order 5. -/
example (dipole : V3) : ∃ D : Fin 3 → ℂ,
    (∀ m, HasDerivAt (fun y => helmLocal 5 1 (Function.update exS m y) exC exT) (D m) (exS m)) ∧
      tsHelmholtzD exS exC exT dipole (fin 1) 5 1
        (fun n => some (fin (sphJ n (1 * (euclid exT exC : ℂ)) / ((1 : ℝ) : ℂ) ^ n))) (fin 1)
        = some (fin (1 * ∑ m, (dipole m : ℂ) * D m)) := by
  have h3 : euclid exS exC = 3 := ex_dist.1
  exact C82_double_layer ex_ne.1 ex_ne.2 one_ne_zero (by rw [h3]; norm_num) dipole 1 5 (by norm_num) _ 1 one_ne_zero
    (fun _ _ => rfl)

end Verif.Ts
