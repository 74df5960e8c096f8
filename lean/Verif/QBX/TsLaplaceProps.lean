import Verif.QBX.TsLaplace
import Mathlib.Algebra.BigOperators.Field

/-!
# C81: the target-specific Laplace kernels evaluate the local expansion and its gradients
-/

namespace Verif.Ts

open Fl Finset Filter Topology

/-! ## Specification (no reference to the model) -/

/-- Euclidean distance. -/
noncomputable def euclid (a b : V3) : ℝ := Real.sqrt (∑ i, (a i - b i) ^ 2)

/-- `1/|s - t|`: the free-space Laplace kernel without its constant `1/(4π)`. -/
noncomputable def kern (s t : V3) : ℝ := 1 / euclid s t

/-- The order-`p` local (Taylor) expansion about `c` of the potential at `t` of a unit charge at
`s`: the Taylor polynomial of degree `p` of `λ ↦ 1/|s - (c + λ(t-c))|` at `λ = 0`, evaluated at
`λ = 1`. -/
noncomputable def localExp (p : ℕ) (s c t : V3) : ℝ :=
  ∑ n ∈ range (p + 1),
    iteratedDeriv n (fun l : ℝ => kern s (fun i => c i + l * (t i - c i))) 0 / (n.factorial : ℝ)

/-! ## Geometry -/

theorem cdist_eq (a b : V3) : cdist a b = euclid a b := by
  unfold cdist euclid
  rw [Fin.sum_univ_three]
  congr 1; ring

theorem euclid_pos {a b : V3} (h : a ≠ b) : 0 < euclid a b := by
  unfold euclid
  apply Real.sqrt_pos.mpr
  obtain ⟨i, hi⟩ := Function.ne_iff.mp h
  refine lt_of_lt_of_le ?_ (Finset.single_le_sum (f := fun i => (a i - b i) ^ 2) (fun _ _ => sq_nonneg _) (Finset.mem_univ i))
  have : a i - b i ≠ 0 := sub_ne_zero.mpr hi
  positivity

theorem euclid_self (a : V3) : euclid a a = 0 := by simp [euclid]

theorem euclid_sq (a b : V3) : euclid a b ^ 2 = ∑ i, (a i - b i) ^ 2 := by
  unfold euclid
  exact Real.sq_sqrt (Finset.sum_nonneg fun _ _ => sq_nonneg _)

theorem euclid_nonneg (a b : V3) : 0 ≤ euclid a b := Real.sqrt_nonneg _

/-- The inner product of the two difference vectors. -/
noncomputable def inn (s c t : V3) : ℝ := ∑ i, (t i - c i) * (s i - c i)

/-- The cosine of the angle at `c`. -/
noncomputable def cosv (s c t : V3) : ℝ := inn s c t / (euclid t c * euclid s c)

theorem cosv_range (s c t : V3) : -1 ≤ cosv s c t ∧ cosv s c t ≤ 1 := by
  have h := Finset.sum_mul_sq_le_sq_mul_sq Finset.univ (fun i => t i - c i) (fun i => s i - c i)
  rw [← euclid_sq, ← euclid_sq, ← mul_pow] at h
  have h2 : |inn s c t| ≤ euclid t c * euclid s c :=
    abs_le_of_sq_le_sq h (mul_nonneg (euclid_nonneg _ _) (euclid_nonneg _ _))
  rw [← abs_le]
  unfold cosv
  rw [abs_div, abs_of_nonneg (mul_nonneg (euclid_nonneg _ _) (euclid_nonneg _ _))]
  exact div_le_one_of_le₀ h2 (mul_nonneg (euclid_nonneg _ _) (euclid_nonneg _ _))

theorem cosAngle_cosv {s c t : V3} (ht : t ≠ c) (hs : s ≠ c) : cosAngle s c t = fin (cosv s c t) := by
  have ha := (euclid_pos ht).ne'
  have hb := (euclid_pos hs).ne'
  rw [← cdist_eq] at ha hb
  rw [cosAngle_fin ha hb, cdist_eq, cdist_eq]
  unfold cosv inn
  rw [Fin.sum_univ_three]

theorem kern_line {s c t : V3} (ht : t ≠ c) (hs : s ≠ c) (l : ℝ) :
    kern s (fun i => c i + l * (t i - c i))
      = (1 / euclid s c) / Real.sqrt (quad (cosv s c t) (euclid t c / euclid s c * l)) := by
  have ha := (euclid_pos ht).ne'
  have hb := euclid_pos hs
  have hN : inn s c t = cosv s c t * (euclid t c * euclid s c) := by
    unfold cosv; field_simp
  have h1 : ∑ i, (s i - (c i + l * (t i - c i))) ^ 2
      = euclid s c ^ 2 - 2 * l * inn s c t + l ^ 2 * euclid t c ^ 2 := by
    rw [euclid_sq, euclid_sq, inn, Finset.mul_sum, Finset.mul_sum, ← Finset.sum_sub_distrib,
      ← Finset.sum_add_distrib]
    exact Finset.sum_congr rfl fun i _ => by ring
  have h2 : ∑ i, (s i - (c i + l * (t i - c i))) ^ 2
      = euclid s c ^ 2 * quad (cosv s c t) (euclid t c / euclid s c * l) := by
    rw [h1, hN]; unfold quad; field_simp
  unfold kern
  rw [show euclid s (fun i => c i + l * (t i - c i))
      = Real.sqrt (∑ i, (s i - (c i + l * (t i - c i))) ^ 2) from rfl, h2,
    Real.sqrt_mul (sq_nonneg _), Real.sqrt_sq hb.le, div_div]

theorem localExp_sum {s c t : V3} (ht : t ≠ c) (hs : s ≠ c) (p : ℕ) :
    localExp p s c t = lapSum (cosv s c t) (euclid t c) (euclid s c) p := by
  have hb := euclid_pos hs
  unfold localExp lapSum
  refine Finset.sum_congr rfl fun n _ => ?_
  rw [taylor_coeff (cosv_range s c t).1 (cosv_range s c t).2 (1 / euclid s c) (euclid t c / euclid s c) _
    (kern_line ht hs) n, div_pow, pow_succ]
  field_simp

theorem kern_eq {s c t : V3} (ht : t ≠ c) (hs : s ≠ c) :
    kern s t = (1 / euclid s c) / Real.sqrt (quad (cosv s c t) (euclid t c / euclid s c)) := by
  have h := kern_line ht hs 1
  rw [mul_one] at h
  rw [← h]
  congr 1; funext i; ring

/-! ## Derivatives of the closed sum -/

theorem term_deriv (A B N : ℝ → ℝ) (A' B' N' τ : ℝ) (hA : HasDerivAt A A' τ) (hB : HasDerivAt B B' τ)
    (hN : HasDerivAt N N' τ) (ha : 0 < A τ) (hb : 0 < B τ) (n : ℕ) :
    HasDerivAt (fun y => leg (N y / (A y * B y)) n * (A y ^ n / B y ^ (n + 1)))
      (dleg (N τ / (A τ * B τ)) n * ((N' - N τ / (A τ * B τ) * (A' * B τ + A τ * B')) / (A τ * B τ))
          * (A τ ^ n / B τ ^ (n + 1))
        + leg (N τ / (A τ * B τ)) n * ((n * A τ ^ (n - 1) * A') / B τ ^ (n + 1)
          - ((n : ℝ) + 1) * A τ ^ n * B' / B τ ^ (n + 2))) τ := by
  have hab : A τ * B τ ≠ 0 := mul_ne_zero ha.ne' hb.ne'
  have hbn : B τ ^ (n + 1) ≠ 0 := pow_ne_zero _ hb.ne'
  have hx := hN.fun_div (hA.fun_mul hB) hab
  have hl := (leg_hasDeriv n (N τ / (A τ * B τ))).comp τ hx
  have hq := (hA.fun_pow n).fun_div (hB.fun_pow (n + 1)) hbn
  have h := hl.fun_mul hq
  refine (h.congr_deriv ?_)
  have e1 : (N' * (A τ * B τ) - N τ * (A' * B τ + A τ * B')) / (A τ * B τ) ^ 2
      = (N' - N τ / (A τ * B τ) * (A' * B τ + A τ * B')) / (A τ * B τ) := by
    field_simp
  have e2 : (((n : ℝ) * A τ ^ (n - 1) * A') * B τ ^ (n + 1) - A τ ^ n * (((n + 1 : ℕ) : ℝ) * B τ ^ (n + 1 - 1) * B'))
        / (B τ ^ (n + 1)) ^ 2
      = (n * A τ ^ (n - 1) * A') / B τ ^ (n + 1) - ((n : ℝ) + 1) * A τ ^ n * B' / B τ ^ (n + 2) := by
    rw [Nat.add_sub_cancel, show n + 2 = n + 1 + 1 by rfl, pow_succ (B τ) (n + 1), pow_succ (B τ) n]
    push_cast
    have := pow_ne_zero n hb.ne'
    field_simp
  rw [e1, e2]
  simp only [Function.comp]

theorem upd_deriv (v : V3) (m i : Fin 3) :
    HasDerivAt (fun y => Function.update v m y i) (if i = m then 1 else 0) (v m) := by
  by_cases h : i = m
  · subst h
    simp only [Function.update_self, if_true]
    exact hasDerivAt_id' _
  · simp only [Function.update_of_ne h, if_neg h]
    exact hasDerivAt_const _ _

theorem euclid_deriv {v c : V3} (h : v ≠ c) (m : Fin 3) :
    HasDerivAt (fun y => euclid (Function.update v m y) c) ((v m - c m) / euclid v c) (v m) := by
  have hp := euclid_pos h
  have hq : HasDerivAt (fun y => ∑ i, (Function.update v m y i - c i) ^ 2) (2 * (v m - c m)) (v m) := by
    have := HasDerivAt.fun_sum (u := Finset.univ) (A := fun (i : Fin 3) (y : ℝ) => (Function.update v m y i - c i) ^ 2)
      (fun i _ => ((upd_deriv v m i).sub_const (c i)).fun_pow 2)
    refine this.congr_deriv ?_
    simp [Function.update_eq_self]
  have hne : ∑ i, (Function.update v m (v m) i - c i) ^ 2 ≠ 0 := by
    rw [Function.update_eq_self, ← euclid_sq]; positivity
  have hs := hq.sqrt hne
  refine hs.congr_deriv ?_
  rw [Function.update_eq_self]
  show 2 * (v m - c m) / (2 * euclid v c) = _
  field_simp

theorem inn_deriv_t (s c t : V3) (m : Fin 3) :
    HasDerivAt (fun y => inn s c (Function.update t m y)) (s m - c m) (t m) := by
  have := HasDerivAt.fun_sum (u := Finset.univ)
    (A := fun (i : Fin 3) (y : ℝ) => (Function.update t m y i - c i) * (s i - c i))
    (fun i _ => ((upd_deriv t m i).sub_const (c i)).mul_const (s i - c i))
  refine this.congr_deriv ?_
  simp

theorem inn_deriv_s (s c t : V3) (m : Fin 3) :
    HasDerivAt (fun y => inn (Function.update s m y) c t) (t m - c m) (s m) := by
  have := HasDerivAt.fun_sum (u := Finset.univ)
    (A := fun (i : Fin 3) (y : ℝ) => (t i - c i) * (Function.update s m y i - c i))
    (fun i _ => ((upd_deriv s m i).sub_const (c i)).const_mul (t i - c i))
  refine this.congr_deriv ?_
  simp

theorem upd_ne_eventually {v c : V3} (h : v ≠ c) (m : Fin 3) :
    ∀ᶠ y in 𝓝 (v m), Function.update v m y ≠ c := by
  have hc := (euclid_deriv h m).continuousAt
  have hp : 0 < euclid (Function.update v m (v m)) c := by
    rw [Function.update_eq_self]; exact euclid_pos h
  filter_upwards [hc.eventually (lt_mem_nhds hp)] with y hy he
  rw [he, euclid_self] at hy
  exact lt_irrefl _ hy

theorem localExp_deriv_t {s c t : V3} (ht : t ≠ c) (hs : s ≠ c) (p : ℕ) (m : Fin 3) :
    HasDerivAt (fun y => localExp p s c (Function.update t m y))
      (spSum (cosv s c t) (euclid t c) (euclid s c) ((t m - c m) / euclid t c) ((s m - c m) / euclid s c) p)
      (t m) := by
  have ha := euclid_pos ht
  have hb := euclid_pos hs
  have hsum : HasDerivAt (fun y => lapSum (cosv s c (Function.update t m y)) (euclid (Function.update t m y) c) (euclid s c) p)
      (spSum (cosv s c t) (euclid t c) (euclid s c) ((t m - c m) / euclid t c) ((s m - c m) / euclid s c) p)
      (t m) := by
    unfold lapSum cosv
    have h := HasDerivAt.fun_sum (u := range (p + 1)) (fun n _ => term_deriv
      (fun y => euclid (Function.update t m y) c) (fun _ => euclid s c) (fun y => inn s c (Function.update t m y))
      _ _ _ (t m) (euclid_deriv ht m) (hasDerivAt_const _ _) (inn_deriv_t s c t m)
      (by simpa [Function.update_eq_self] using ha) hb n)
    refine h.congr_deriv ?_
    simp only [Function.update_eq_self]
    rw [Finset.sum_range_succ', spSum]
    simp only [dleg, Nat.cast_zero, zero_mul, mul_zero, zero_div, zero_add, sub_zero, add_zero]
    refine Finset.sum_congr rfl fun n _ => ?_
    rw [Nat.add_sub_cancel]
    obtain ⟨x, hx⟩ : ∃ x, x = inn s c t / (euclid t c * euclid s c) := ⟨_, rfl⟩
    rw [← hx]
    rw [pow_succ (euclid t c) n, show n + 1 + 1 = n + 2 by rfl]
    push_cast
    field_simp
    ring
  refine hsum.congr_of_eventuallyEq ?_
  filter_upwards [upd_ne_eventually ht m] with y hy
  exact localExp_sum hy hs p

theorem localExp_deriv_s {s c t : V3} (ht : t ≠ c) (hs : s ≠ c) (p : ℕ) (m : Fin 3) :
    HasDerivAt (fun y => localExp p (Function.update s m y) c t)
      (dSum (cosv s c t) (euclid t c) (euclid s c) ((t m - c m) / euclid t c) ((s m - c m) / euclid s c) p)
      (s m) := by
  have ha := euclid_pos ht
  have hb := euclid_pos hs
  have hsum : HasDerivAt (fun y => lapSum (cosv (Function.update s m y) c t) (euclid t c) (euclid (Function.update s m y) c) p)
      (dSum (cosv s c t) (euclid t c) (euclid s c) ((t m - c m) / euclid t c) ((s m - c m) / euclid s c) p)
      (s m) := by
    unfold lapSum cosv
    have h := HasDerivAt.fun_sum (u := range (p + 1)) (fun n _ => term_deriv
      (fun _ => euclid t c) (fun y => euclid (Function.update s m y) c) (fun y => inn (Function.update s m y) c t)
      _ _ _ (s m) (hasDerivAt_const _ _) (euclid_deriv hs m) (inn_deriv_s s c t m)
      ha (by simpa [Function.update_eq_self] using hb) n)
    refine h.congr_deriv ?_
    simp only [Function.update_eq_self]
    unfold dSum
    refine Finset.sum_congr rfl fun n _ => ?_
    obtain ⟨x, hx⟩ : ∃ x, x = inn s c t / (euclid t c * euclid s c) := ⟨_, rfl⟩
    rw [← hx, show n + 2 = n + 1 + 1 by rfl, pow_succ _ (n + 1)]
    simp only [mul_zero, zero_mul, zero_div, zero_sub, zero_add]
    field_simp
    ring
  refine hsum.congr_of_eventuallyEq ?_
  filter_upwards [upd_ne_eventually hs m] with y hy
  exact localExp_sum ht hy p

/-! ## Limits and error bounds of the gradient sums -/

theorem spSum_eq {x a b : ℝ} (ha : 0 < a) (hb : 0 < b) (τ σ : ℝ) (p : ℕ) :
    spSum x a b τ σ p
      = (τ * gsumr x (a / b) p + (σ - x * τ) * (gsumx x (a / b) p / (a / b))) / b ^ 2 := by
  induction p with
  | zero => simp [spSum, gsumr, gsumx, dleg, leg]
  | succ p ih =>
    have e : spSum x a b τ σ (p + 1) = spSum x a b τ σ p
        + a ^ p / b ^ (p + 2) * (((p : ℝ) + 1) * τ * leg x (p + 1) + (σ - x * τ) * dleg x (p + 1)) := by
      unfold spSum; rw [Finset.sum_range_succ]
    rw [e, ih, gsumr_succ, gsumx_succ, pow_succ (a / b) p, pow_add b p 2, div_pow]
    field_simp
    ring

theorem dSum_eq {x a b : ℝ} (hb : 0 < b) (τ σ : ℝ) (p : ℕ) :
    dSum x a b τ σ p
      = (-σ * (gsum x (a / b) p + a / b * gsumr x (a / b) p) + (τ - x * σ) * gsumx x (a / b) p) / b ^ 2 := by
  induction p with
  | zero => simp [dSum, gsum, gsumr, gsumx, dleg, leg]; field_simp
  | succ p ih =>
    have e : dSum x a b τ σ (p + 1) = dSum x a b τ σ p
        + a ^ (p + 1) / b ^ (p + 1 + 2) * (-((((p + 1 : ℕ) : ℝ)) + 1) * σ * leg x (p + 1)
          + (τ - x * σ) * dleg x (p + 1)) := by
      unfold dSum; rw [Finset.sum_range_succ]
    rw [e, ih, gsumr_succ, gsumx_succ, gsum_succ, pow_succ (a / b) p, pow_add b (p + 1) 2, div_pow]
    push_cast
    field_simp
    ring

/-- Components of unit vectors `τ`, `σ` with `x = τ·σ`. -/
theorem unit_comp (τ σ : V3) (h1 : ∑ i, τ i ^ 2 = 1) (h2 : ∑ i, σ i ^ 2 = 1) (m : Fin 3) (x : ℝ)
    (hx : x = ∑ i, τ i * σ i) :
    τ m ^ 2 ≤ 1 ∧ (1 - x ^ 2) * τ m ^ 2 + (σ m - x * τ m) ^ 2 ≤ 1 - x ^ 2 := by
  have key : ∀ t0 t1 t2 s0 s1 s2 : ℝ, t0 ^ 2 + t1 ^ 2 + t2 ^ 2 = 1 → s0 ^ 2 + s1 ^ 2 + s2 ^ 2 = 1 →
      x = t0 * s0 + t1 * s1 + t2 * s2 →
      t0 ^ 2 ≤ 1 ∧ (1 - x ^ 2) * t0 ^ 2 + (s0 - x * t0) ^ 2 ≤ 1 - x ^ 2 := by
    intro t0 t1 t2 s0 s1 s2 e1 e2 ex
    refine ⟨by nlinarith [sq_nonneg t1, sq_nonneg t2], ?_⟩
    have h : (1 - x ^ 2) * (1 - t0 ^ 2) - (s0 - x * t0) ^ 2 = (s1 * t2 - s2 * t1) ^ 2 := by
      rw [ex]
      linear_combination (-(s1 ^ 2 + s2 ^ 2)) * e1 + (t0 ^ 2 - 1) * e2
    nlinarith [sq_nonneg (s1 * t2 - s2 * t1)]
  rw [Fin.sum_univ_three] at h1 h2 hx
  fin_cases m
  · exact key (τ 0) (τ 1) (τ 2) (σ 0) (σ 1) (σ 2) h1 h2 hx
  · exact key (τ 1) (τ 0) (τ 2) (σ 1) (σ 0) (σ 2) (by linarith) (by linarith) (by linarith)
  · exact key (τ 2) (τ 0) (τ 1) (σ 2) (σ 0) (σ 1) (by linarith) (by linarith) (by linarith)

theorem unit_sq {v c : V3} (h : v ≠ c) : ∑ i, ((v i - c i) / euclid v c) ^ 2 = 1 := by
  have hp := euclid_pos h
  simp only [div_pow]
  rw [← Finset.sum_div, ← euclid_sq]
  field_simp

theorem cosv_unit {s c t : V3} (ht : t ≠ c) (hs : s ≠ c) :
    cosv s c t = ∑ i, (t i - c i) / euclid t c * ((s i - c i) / euclid s c) := by
  have ha := euclid_pos ht
  have hb := euclid_pos hs
  unfold cosv inn
  rw [Finset.sum_div]
  exact Finset.sum_congr rfl fun i _ => by field_simp

theorem cosv_unit' {s c t : V3} (ht : t ≠ c) (hs : s ≠ c) :
    cosv s c t = ∑ i, (s i - c i) / euclid s c * ((t i - c i) / euclid t c) := by
  rw [cosv_unit ht hs]
  exact Finset.sum_congr rfl fun i _ => by ring

theorem euclid_comm (a b : V3) : euclid a b = euclid b a := by
  unfold euclid; congr 1; exact Finset.sum_congr rfl fun i _ => by ring

theorem kern_deriv_t {s t : V3} (h : t ≠ s) (m : Fin 3) :
    HasDerivAt (fun y => kern s (Function.update t m y)) ((s m - t m) / euclid s t ^ 3) (t m) := by
  have hp := euclid_pos h
  have h1 := (euclid_deriv h m).fun_inv (by simpa [Function.update_eq_self] using hp.ne')
  have e : (fun y => kern s (Function.update t m y)) = fun y => (euclid (Function.update t m y) s)⁻¹ := by
    funext y; unfold kern; rw [euclid_comm, one_div]
  rw [e, euclid_comm s t]
  refine h1.congr_deriv ?_
  simp only [Function.update_eq_self]
  field_simp
  ring

theorem kern_deriv_s {s t : V3} (h : s ≠ t) (m : Fin 3) :
    HasDerivAt (fun y => kern (Function.update s m y) t) ((t m - s m) / euclid s t ^ 3) (s m) := by
  have h1 := kern_deriv_t (s := t) (t := s) h m
  have e : (fun y => kern (Function.update s m y) t) = fun y => kern t (Function.update s m y) := by
    funext y; unfold kern; rw [euclid_comm]
  rw [e, euclid_comm s t]; exact h1

theorem ratio_lt {s c t : V3} (ht : t ≠ c) (hts : euclid t c < euclid s c) :
    s ≠ c ∧ 0 < euclid t c / euclid s c ∧ euclid t c / euclid s c < 1 := by
  have ha := euclid_pos ht
  have hb : 0 < euclid s c := ha.trans hts
  refine ⟨?_, by positivity, (div_lt_one hb).mpr hts⟩
  intro e
  rw [e, euclid_self] at hb
  exact lt_irrefl _ hb

theorem dist_st {s c t : V3} (ht : t ≠ c) (hs : s ≠ c) :
    euclid s t = euclid s c * Real.sqrt (quad (cosv s c t) (euclid t c / euclid s c)) := by
  have hb := euclid_pos hs
  have h := kern_eq ht hs
  unfold kern at h
  rw [div_div] at h
  have := congrArg (fun z => 1 / z) h
  simpa using this

theorem st_ne {s c t : V3} (hts : euclid t c < euclid s c) : s ≠ t := by
  intro e; rw [e] at hts; exact lt_irrefl _ hts

/-- Limit value of both gradients, up to sign. -/
theorem grad_limit {s c t : V3} (ht : t ≠ c) (hts : euclid t c < euclid s c) (m : Fin 3) :
    ((s m - c m) / euclid s c - euclid t c / euclid s c * ((t m - c m) / euclid t c))
        * (1 / Real.sqrt (quad (cosv s c t) (euclid t c / euclid s c)))
        / quad (cosv s c t) (euclid t c / euclid s c) / euclid s c ^ 2
      = (s m - t m) / euclid s t ^ 3 := by
  obtain ⟨hs, hr0, hr1⟩ := ratio_lt ht hts
  have ha := euclid_pos ht
  have hb := euclid_pos hs
  have hq := quad_pos (cosv_range s c t).1 (cosv_range s c t).2 (r := euclid t c / euclid s c)
    (by rwa [abs_of_pos hr0])
  rw [dist_st ht hs]
  obtain ⟨Q, hQ⟩ : ∃ Q, Q = quad (cosv s c t) (euclid t c / euclid s c) := ⟨_, rfl⟩
  rw [← hQ] at hq ⊢
  have hsq : 0 < Real.sqrt Q := Real.sqrt_pos.mpr hq
  have hQQ : Q = Real.sqrt Q ^ 2 := (Real.sq_sqrt hq.le).symm
  obtain ⟨w, hw⟩ : ∃ w, w = Real.sqrt Q := ⟨_, rfl⟩
  rw [← hw] at hsq hQQ ⊢
  rw [hQQ]
  field_simp
  ring

theorem sp_error {s c t : V3} (ht : t ≠ c) (hts : euclid t c < euclid s c) (m : Fin 3) (p : ℕ) :
    |spSum (cosv s c t) (euclid t c) (euclid s c) ((t m - c m) / euclid t c) ((s m - c m) / euclid s c) p
        - (s m - t m) / euclid s t ^ 3|
      ≤ gradTail (euclid t c / euclid s c) p / euclid s c ^ 2 := by
  obtain ⟨hs, hr0, hr1⟩ := ratio_lt ht hts
  have ha := euclid_pos ht
  have hb := euclid_pos hs
  have hx := cosv_range s c t
  have hr : |euclid t c / euclid s c| < 1 := by rwa [abs_of_pos hr0]
  have hu := unit_comp (fun i => (t i - c i) / euclid t c) (fun i => (s i - c i) / euclid s c)
    (unit_sq ht) (unit_sq hs) m (cosv s c t) (cosv_unit ht hs)
  have hlim := grad_limit ht hts m
  have tr := gsumr_tendsto hx.1 hx.2 hr
  have tx := gsumx_tendsto hx.1 hx.2 hr
  obtain ⟨x, hxe⟩ : ∃ x, x = cosv s c t := ⟨_, rfl⟩
  obtain ⟨r, hre⟩ : ∃ r, r = euclid t c / euclid s c := ⟨_, rfl⟩
  obtain ⟨τ, hτ⟩ : ∃ τ, τ = (t m - c m) / euclid t c := ⟨_, rfl⟩
  obtain ⟨σ, hσ⟩ : ∃ σ, σ = (s m - c m) / euclid s c := ⟨_, rfl⟩
  have hsp := fun p => spSum_eq (x := x) ha hb τ σ p
  simp only [← hxe, ← hre, ← hτ, ← hσ] at hu hlim tr tx hsp hx hr hr0 hr1 ⊢
  have hmain := grad_error hr0.le hr1
    (fun n => r ^ (n - 1) * (n * τ * leg x n + (σ - x * τ) * dleg x n))
    (fun n => by
      rw [abs_mul, Nat.add_sub_cancel, abs_of_nonneg (pow_nonneg hr0.le n), mul_comm]
      refine mul_le_mul_of_nonneg_right ?_ (pow_nonneg hr0.le n)
      have := leg_grad_bound hx.1 hx.2 (n + 1) τ (σ - x * τ) hu.1 hu.2
      push_cast at this ⊢
      exact this)
    (fun p => τ * gsumr x r p + (σ - x * τ) * (gsumx x r p / r))
    (fun p => by
      simp only [gsumr_succ, gsumx_succ, Nat.add_sub_cancel, pow_succ]
      push_cast
      field_simp
      ring)
    _ ((tr.const_mul τ).add ((tx.div_const r).const_mul (σ - x * τ))) p
  rw [hsp, ← hlim, ← sub_div, abs_div, abs_of_pos (by positivity : 0 < euclid s c ^ 2)]
  refine div_le_div_of_nonneg_right (le_of_eq_of_le (congrArg _ ?_) hmain) (by positivity)
  congr 1
  have hq := quad_pos hx.1 hx.2 hr
  have hsq : 0 < Real.sqrt (quad x r) := Real.sqrt_pos.mpr hq
  field_simp
  ring

theorem d_error {s c t : V3} (ht : t ≠ c) (hts : euclid t c < euclid s c) (m : Fin 3) (p : ℕ) :
    |dSum (cosv s c t) (euclid t c) (euclid s c) ((t m - c m) / euclid t c) ((s m - c m) / euclid s c) p
        - (t m - s m) / euclid s t ^ 3|
      ≤ gradTail (euclid t c / euclid s c) (p + 1) / euclid s c ^ 2 := by
  obtain ⟨hs, hr0, hr1⟩ := ratio_lt ht hts
  have ha := euclid_pos ht
  have hb := euclid_pos hs
  have hx := cosv_range s c t
  have hr : |euclid t c / euclid s c| < 1 := by rwa [abs_of_pos hr0]
  have hu := unit_comp (fun i => (s i - c i) / euclid s c) (fun i => (t i - c i) / euclid t c)
    (unit_sq hs) (unit_sq ht) m (cosv s c t) (cosv_unit' ht hs)
  have hlim := grad_limit ht hts m
  have t0 := gsum_tendsto hx.1 hx.2 hr
  have tr := gsumr_tendsto hx.1 hx.2 hr
  have tx := gsumx_tendsto hx.1 hx.2 hr
  obtain ⟨x, hxe⟩ : ∃ x, x = cosv s c t := ⟨_, rfl⟩
  obtain ⟨r, hre⟩ : ∃ r, r = euclid t c / euclid s c := ⟨_, rfl⟩
  obtain ⟨τ, hτ⟩ : ∃ τ, τ = (t m - c m) / euclid t c := ⟨_, rfl⟩
  obtain ⟨σ, hσ⟩ : ∃ σ, σ = (s m - c m) / euclid s c := ⟨_, rfl⟩
  have hsp := fun p => dSum_eq (x := x) (a := euclid t c) hb τ σ p
  simp only [← hxe, ← hre, ← hτ, ← hσ] at hu hlim t0 tr tx hsp hx hr hr0 hr1 ⊢
  have hσ1 : |σ| ≤ 1 := by
    rw [← sq_le_one_iff_abs_le_one]; exact hu.1
  have hmain := grad_error hr0.le hr1
    (fun n => match n with
      | 0 => 0
      | n + 1 => r ^ n * (-((n : ℝ) + 1) * σ * leg x n + (τ - x * σ) * dleg x n))
    (fun n => by
      rw [abs_mul, abs_of_nonneg (pow_nonneg hr0.le n), mul_comm]
      refine mul_le_mul_of_nonneg_right ?_ (pow_nonneg hr0.le n)
      have h1 := leg_grad_bound hx.1 hx.2 n (-σ) (τ - x * σ) (by rw [neg_sq]; exact hu.1)
        (by rw [neg_sq]; exact hu.2)
      have h2 : |-σ * leg x n| ≤ 1 := by
        rw [abs_mul, abs_neg]
        exact mul_le_one₀ hσ1 (abs_nonneg _) (leg_abs_le hx.1 hx.2 n)
      have h3 := abs_add_le (n * -σ * leg x n + (τ - x * σ) * dleg x n) (-σ * leg x n)
      have e : -((n : ℝ) + 1) * σ * leg x n + (τ - x * σ) * dleg x n
          = (n * -σ * leg x n + (τ - x * σ) * dleg x n) + -σ * leg x n := by ring
      rw [e]; linarith)
    (fun p => match p with
      | 0 => 0
      | p + 1 => -σ * (gsum x r p + r * gsumr x r p) + (τ - x * σ) * gsumx x r p)
    (fun p => by
      cases p with
      | zero => simp [gsum, gsumr, gsumx, leg, dleg]
      | succ p =>
        simp only [gsum_succ, gsumr_succ, gsumx_succ, pow_succ]
        push_cast
        ring)
    (-σ * (1 / Real.sqrt (quad x r) + r * ((x - r) * (1 / Real.sqrt (quad x r)) / quad x r))
      + (τ - x * σ) * (r * (1 / Real.sqrt (quad x r)) / quad x r))
    (by
      have h := ((t0.add (tr.const_mul r)).const_mul (-σ)).add (tx.const_mul (τ - x * σ))
      exact (tendsto_add_atTop_iff_nat 1).mp h) (p + 1)
  have hneg : (t m - s m) / euclid s t ^ 3 = -((s m - t m) / euclid s t ^ 3) := by ring
  rw [hsp, hneg, ← hlim, ← neg_div, ← sub_div, abs_div, abs_of_pos (by positivity : 0 < euclid s c ^ 2)]
  refine div_le_div_of_nonneg_right (le_of_eq_of_le (congrArg _ ?_) hmain) (by positivity)
  congr 1
  have hq := quad_pos hx.1 hx.2 hr
  have hsq : 0 < Real.sqrt (quad x r) := Real.sqrt_pos.mpr hq
  field_simp
  unfold quad
  ring

/-! ## C81 -/

/-- C81 (single layer): for a target other than the centre and a source other than the centre, at
every order, `ts_laplace_s` returns exactly the charge times the order-`p` local expansion
(Taylor polynomial about the centre) of `1/|s - t|`.  Missing from the full claim: the target may
be the centre itself (`C81_center_refuted`). -/
theorem C81_single_layer_partial {s c t : V3} (ht : t ≠ c) (hs : s ≠ c) (charge : ℂ) (order : ℕ) :
    tsLaplaceS s c t (fin charge) order = fin (charge * (localExp order s c t : ℝ)) := by
  have ha : cdist t c ≠ 0 := by rw [cdist_eq]; exact (euclid_pos ht).ne'
  have hb : cdist s c ≠ 0 := by rw [cdist_eq]; exact (euclid_pos hs).ne'
  rw [tsLaplaceS_sum ha hb (cosAngle_cosv ht hs), localExp_sum ht hs, cdist_eq, cdist_eq]

/-- C81 (single layer, accuracy): if the target is closer to the centre than the source, the value
differs from the exact potential by at most the geometric tail. -/
theorem C81_single_layer_error {s c t : V3} (ht : t ≠ c) (hts : euclid t c < euclid s c) (charge : ℂ)
    (order : ℕ) :
    ∃ v, tsLaplaceS s c t (fin charge) order = fin v ∧
      ‖v - charge * (1 / euclid s t : ℝ)‖
        ≤ ‖charge‖ * ((euclid t c / euclid s c) ^ (order + 1) / (euclid s c - euclid t c)) := by
  obtain ⟨hs, hr0, hr1⟩ := ratio_lt ht hts
  have hb := euclid_pos hs
  refine ⟨_, C81_single_layer_partial ht hs charge order, ?_⟩
  have hx := cosv_range s c t
  have he := gsum_error hx.1 hx.2 (r := euclid t c / euclid s c) (by rwa [abs_of_pos hr0]) order
  rw [abs_of_pos hr0] at he
  have hsum : localExp order s c t = gsum (cosv s c t) (euclid t c / euclid s c) order / euclid s c := by
    rw [localExp_sum ht hs, lapSum, gsum, Finset.sum_div]
    refine Finset.sum_congr rfl fun n _ => ?_
    rw [div_pow, pow_succ]; field_simp
  have hk : 1 / euclid s t = 1 / Real.sqrt (quad (cosv s c t) (euclid t c / euclid s c)) / euclid s c := by
    have := kern_eq ht hs
    unfold kern at this
    rw [this]; ring
  rw [hsum, hk, ← mul_sub, norm_mul, ← Complex.ofReal_sub, Complex.norm_real, ← sub_div]
  refine mul_le_mul_of_nonneg_left ?_ (norm_nonneg _)
  rw [Real.norm_eq_abs, abs_div, abs_of_pos hb, div_le_iff₀ hb]
  refine he.trans (le_of_eq ?_)
  have : euclid s c - euclid t c ≠ 0 := by linarith
  have h1 : 1 - euclid t c / euclid s c ≠ 0 := by linarith
  field_simp

/-- C81 (gradient): `ts_laplace_sp` adds to each component of `grad` exactly the charge times
the partial derivative of the local expansion in the target coordinate, at every order below the
buffer size.  Missing from the full claim: a target at the centre, and orders from 64 on. -/
theorem C81_gradient_partial {s c t : V3} (ht : t ≠ c) (hs : s ≠ c) (grad : Fin 3 → ℂ) (charge : ℂ)
    (order : ℕ) (ho : order < 64) :
    ∃ d : Fin 3 → ℝ,
      (∀ m, HasDerivAt (fun y => localExp order s c (Function.update t m y)) (d m) (t m)) ∧
      tsLaplaceSp (fun m => fin (grad m)) s c t (fin charge) order
        = some fun m => fin (grad m + charge * (d m : ℝ)) := by
  have ha : cdist t c ≠ 0 := by rw [cdist_eq]; exact (euclid_pos ht).ne'
  have hb : cdist s c ≠ 0 := by rw [cdist_eq]; exact (euclid_pos hs).ne'
  refine ⟨_, fun m => localExp_deriv_t ht hs order m, ?_⟩
  rw [tsLaplaceSp_sum ha hb (cosAngle_cosv ht hs) charge grad order ho]
  simp only [cdist_eq]

/-- C81 (gradient, accuracy): what `ts_laplace_sp` adds differs from the gradient of the exact
potential by at most `Σ_{n>p} n ρ^{n-1} / |s-c|²`, `ρ = |t-c|/|s-c| < 1`. -/
theorem C81_gradient_error {s c t : V3} (ht : t ≠ c) (hts : euclid t c < euclid s c)
    (grad : Fin 3 → ℂ) (charge : ℂ) (order : ℕ) (ho : order < 64) :
    ∃ (v : Fin 3 → ℂ) (k : Fin 3 → ℝ),
      tsLaplaceSp (fun m => fin (grad m)) s c t (fin charge) order = some (fun m => fin (grad m + v m)) ∧
      (∀ m, HasDerivAt (fun y => 1 / euclid s (Function.update t m y)) (k m) (t m)) ∧
      ∀ m, ‖v m - charge * (k m : ℝ)‖ ≤ ‖charge‖ *
        (((order : ℝ) + 1 - order * (euclid t c / euclid s c)) * (euclid t c / euclid s c) ^ order
          / (1 - euclid t c / euclid s c) ^ 2 / euclid s c ^ 2) := by
  obtain ⟨hs, hr0, hr1⟩ := ratio_lt ht hts
  have ha : cdist t c ≠ 0 := by rw [cdist_eq]; exact (euclid_pos ht).ne'
  have hb : cdist s c ≠ 0 := by rw [cdist_eq]; exact (euclid_pos hs).ne'
  refine ⟨_, fun m => (s m - t m) / euclid s t ^ 3,
    tsLaplaceSp_sum ha hb (cosAngle_cosv ht hs) charge grad order ho,
    fun m => kern_deriv_t (st_ne hts).symm m, fun m => ?_⟩
  rw [← mul_sub, norm_mul, ← Complex.ofReal_sub, Complex.norm_real]
  refine mul_le_mul_of_nonneg_left ?_ (norm_nonneg _)
  have := sp_error ht hts m order
  rw [cdist_eq, cdist_eq, Real.norm_eq_abs]
  exact this

/-- C81 (double layer): `ts_laplace_d` returns exactly the dipole strength times the derivative,
in the direction of the dipole vector, of the local expansion with respect to the source.
Missing from the full claim: a target at the centre, and orders from 64 on. -/
theorem C81_double_layer_partial {s c t : V3} (ht : t ≠ c) (hs : s ≠ c) (dipole : V3) (dipstr : ℂ)
    (order : ℕ) (ho : order < 64) :
    ∃ d : Fin 3 → ℝ,
      (∀ m, HasDerivAt (fun y => localExp order (Function.update s m y) c t) (d m) (s m)) ∧
      tsLaplaceD s c t dipole (fin dipstr) order
        = some (fin (dipstr * ((∑ m, dipole m * d m : ℝ) : ℂ))) := by
  have ha : cdist t c ≠ 0 := by rw [cdist_eq]; exact (euclid_pos ht).ne'
  have hb : cdist s c ≠ 0 := by rw [cdist_eq]; exact (euclid_pos hs).ne'
  refine ⟨_, fun m => localExp_deriv_s ht hs order m, ?_⟩
  rw [tsLaplaceD_sum ha hb (cosAngle_cosv ht hs) dipstr dipole order ho]
  simp only [cdist_eq]

/-- C81 (double layer, accuracy): the value differs from the exact dipole field by at most the
tail of the differentiated series. -/
theorem C81_double_layer_error {s c t : V3} (ht : t ≠ c) (hts : euclid t c < euclid s c)
    (dipole : V3) (dipstr : ℂ) (order : ℕ) (ho : order < 64) :
    ∃ (v : ℂ) (k : Fin 3 → ℝ),
      tsLaplaceD s c t dipole (fin dipstr) order = some (fin v) ∧
      (∀ m, HasDerivAt (fun y => 1 / euclid (Function.update s m y) t) (k m) (s m)) ∧
      ‖v - dipstr * ((∑ m, dipole m * k m : ℝ) : ℂ)‖ ≤ ‖dipstr‖ * ((∑ m, |dipole m|) *
        (((order : ℝ) + 2 - (order + 1) * (euclid t c / euclid s c)) * (euclid t c / euclid s c) ^ (order + 1)
          / (1 - euclid t c / euclid s c) ^ 2 / euclid s c ^ 2)) := by
  obtain ⟨hs, hr0, hr1⟩ := ratio_lt ht hts
  have ha : cdist t c ≠ 0 := by rw [cdist_eq]; exact (euclid_pos ht).ne'
  have hb : cdist s c ≠ 0 := by rw [cdist_eq]; exact (euclid_pos hs).ne'
  refine ⟨_, fun m => (t m - s m) / euclid s t ^ 3,
    tsLaplaceD_sum ha hb (cosAngle_cosv ht hs) dipstr dipole order ho,
    fun m => kern_deriv_s (st_ne hts) m, ?_⟩
  rw [← mul_sub, norm_mul, ← Complex.ofReal_sub, Complex.norm_real]
  refine mul_le_mul_of_nonneg_left ?_ (norm_nonneg _)
  rw [Real.norm_eq_abs, ← Finset.sum_sub_distrib, Finset.sum_mul]
  refine (Finset.abs_sum_le_sum_abs _ _).trans (Finset.sum_le_sum fun m _ => ?_)
  rw [← mul_sub, abs_mul]
  refine mul_le_mul_of_nonneg_left ?_ (abs_nonneg _)
  have := d_error ht hts m order
  rw [cdist_eq, cdist_eq]
  refine this.trans (le_of_eq ?_)
  unfold gradTail
  push_cast
  ring

/-- C81 (buffer): from order 64 on the two gradient kernels write past the end of their stack
arrays, whatever the points are. -/
theorem C81_overflow_refuted (s c t dipole : V3) (grad : Fin 3 → Fl ℂ) (q : Fl ℂ) (order : ℕ)
    (ho : 64 ≤ order) :
    tsLaplaceSp grad s c t q order = none ∧ tsLaplaceD s c t dipole q order = none := by
  have h := legvals_overflow (cosAngle s c t) order true ho
  constructor
  · unfold tsLaplaceSp; simp only [h, Option.bind_none]
  · unfold tsLaplaceD; simp only [h, Option.bind_none]

theorem cosAngle_center (s c : V3) : cosAngle s c c = bad := by
  unfold cosAngle
  rw [cdist_eq, cdist_eq, euclid_self, fin_mul, zero_mul, fin_div_zero]

theorem lapSBody_bad (ca tc sc : Fl ℝ) (st : LapSt) (h : st.result = bad) (k : ℕ) :
    ((lapSBody ca tc sc)^[k] st).result = bad := by
  induction k generalizing st with
  | zero => exact h
  | succ k ih =>
    rw [Function.iterate_succ_apply]
    exact ih _ (by simp only [lapSBody, h, bad_add])

/-- C81 (target at the centre): the local expansion is perfectly well defined there (its value is
`1/|s-c|` at every order), and order 0 returns it; but from order 1 on `ts_laplace_s` returns a
non-finite value, because it divides by `|t-c|`. -/
theorem C81_center_refuted {s c : V3} (hs : s ≠ c) (charge : ℂ) :
    (∀ order, localExp order s c c = 1 / euclid s c) ∧
    tsLaplaceS s c c (fin charge) 0 = fin (charge * (1 / euclid s c : ℝ)) ∧
    ∀ order, 1 ≤ order → tsLaplaceS s c c (fin charge) order = bad := by
  have hb := euclid_pos hs
  refine ⟨fun order => ?_, ?_, fun order ho => ?_⟩
  · unfold localExp
    rw [Finset.sum_range_succ']
    have : (fun l : ℝ => kern s (fun i => c i + l * (c i - c i))) = fun _ => kern s c := by
      funext l; congr 1; funext i; ring
    simp [this, iteratedDeriv_const, kern]
  · have hbC : ((euclid s c : ℝ) : ℂ) ≠ 0 := by exact_mod_cast hb.ne'
    unfold tsLaplaceS
    simp only [if_true, cdist_eq, toC_fin]
    rw [fin_div _ hbC]
    congr 1
    push_cast
    ring
  · unfold tsLaplaceS
    rw [if_neg (by omega), cosAngle_center]
    rw [lapSBody_bad _ _ _ _ (by simp only [bad_mul, bad_div, add_bad])]
    simp only [toC_bad, mul_bad]

theorem sp_fold_bad (tmc smc : V3) (ca tc sc : Fl ℝ) (lv ld : Buf ℝ) (n k : ℕ)
    (hlv : ∀ i, 1 ≤ i → i < 1 + k + n → ∃ v, lv i = some v) (hld : ∀ i, 1 ≤ i → i < 1 + k + n → ∃ v, ld i = some v)
    (h : ∀ m, fin (tmc m) / tc = bad) (st : (Fin 3 → Fl ℝ) × Fl ℝ) (hst : n = 0 → ∀ m, st.1 m = bad) :
    ∃ r, (List.range' (1 + k) n).foldlM (lapSpBody tmc smc ca tc sc lv ld) st = some r ∧ ∀ m, r.1 m = bad := by
  induction n generalizing k st with
  | zero => exact ⟨st, rfl, hst rfl⟩
  | succ n ih =>
    obtain ⟨v, hv⟩ := hlv (1 + k) (by omega) (by omega)
    obtain ⟨w, hw⟩ := hld (1 + k) (by omega) (by omega)
    rw [List.range'_succ, List.foldlM_cons, lapSpBody, hv, hw]
    simp only [Option.bind_some, h, mul_bad, bad_mul, bad_add, add_bad]
    obtain ⟨r, hr, hr2⟩ := ih (k + 1) (fun i h1 h2 => hlv i h1 (by omega)) (fun i h1 h2 => hld i h1 (by omega))
      (fun _ => bad, st.2 * (tc / sc)) (fun _ _ => rfl)
    refine ⟨r, ?_, hr2⟩
    rw [← hr]; rfl

/-- C81 (target at the centre, gradient): from order 1 on every component of the gradient becomes
non-finite. -/
theorem C81_center_gradient_refuted (s c : V3) (grad : Fin 3 → Fl ℂ) (q : Fl ℂ) (order : ℕ)
    (h1 : 1 ≤ order) (h2 : order < 64) :
    tsLaplaceSp grad s c c q order = some fun _ => bad := by
  unfold tsLaplaceSp
  simp only [legvals_ok _ order true h2, Option.bind_some, if_true]
  obtain ⟨r, hr, hr2⟩ := sp_fold_bad (fun m => c m - c m) (fun m => s m - c m) (cosAngle s c c)
    (fin (cdist c c)) (fin (cdist s c)) (filled (legF (cosAngle s c c)) (order + 1))
    (filled (dlegF (cosAngle s c c)) (order + 1)) order 0
    (fun i _ hi => ⟨_, filled_lt _ (by omega)⟩) (fun i _ hi => ⟨_, filled_lt _ (by omega)⟩)
    (fun m => by rw [cdist_eq, euclid_self, fin_div_zero]) (fun _ => fin 0, fin 1 / (fin (cdist s c) * fin (cdist s c)))
    (fun h => by omega)
  rw [show (1 : ℕ) + 0 = 1 by rfl] at hr
  rw [hr]
  simp only [Option.map_some, hr2, toC_bad, mul_bad, add_bad]

/-! ### Concrete instances -/

/-- A source, a centre and a target meeting the hypotheses of the C81 theorems. -/
def exS : V3 := ![3, 0, 0]
/-- Example centre. -/
def exC : V3 := ![0, 0, 0]
/-- Example target. -/
def exT : V3 := ![1, 0, 0]

theorem ex_comps : (exS 0 = 3 ∧ exS 1 = 0 ∧ exS 2 = 0) ∧ (exC 0 = 0 ∧ exC 1 = 0 ∧ exC 2 = 0) ∧
    (exT 0 = 1 ∧ exT 1 = 0 ∧ exT 2 = 0) := ⟨⟨rfl, rfl, rfl⟩, ⟨rfl, rfl, rfl⟩, ⟨rfl, rfl, rfl⟩⟩

theorem ex_dist : euclid exS exC = 3 ∧ euclid exT exC = 1 := by
  constructor
  · rw [show (3 : ℝ) = Real.sqrt (3 ^ 2) by rw [Real.sqrt_sq (by norm_num)]]
    unfold euclid; rw [Fin.sum_univ_three]; norm_num [ex_comps]
  · rw [show (1 : ℝ) = Real.sqrt (1 ^ 2) by rw [Real.sqrt_sq (by norm_num)]]
    unfold euclid; rw [Fin.sum_univ_three]; norm_num [ex_comps]

theorem ex_ne : exT ≠ exC ∧ exS ≠ exC := by
  constructor <;> intro h
  · have := congrFun h 0; norm_num [ex_comps] at this
  · have := congrFun h 0; norm_num [ex_comps] at this

example : exT ≠ exC ∧ exS ≠ exC ∧ euclid exT exC < euclid exS exC :=
  ⟨ex_ne.1, ex_ne.2, by rw [ex_dist.1, ex_dist.2]; norm_num⟩

/-- At order 1 the value is `1/3 + 1/9`, within `(1/3)²/2` of the exact `1/2`. -/
example : tsLaplaceS exS exC exT (fin 1) 1 = fin ((4 / 9 : ℝ) : ℂ) := by
  have hx : cosv exS exC exT = 1 := by
    unfold cosv inn; rw [ex_dist.1, ex_dist.2, Fin.sum_univ_three]; norm_num [ex_comps]
  rw [C81_single_layer_partial ex_ne.1 ex_ne.2, localExp_sum ex_ne.1 ex_ne.2, hx, ex_dist.1, ex_dist.2]
  congr 1
  rw [lapSum, Finset.sum_range_succ, Finset.sum_range_succ, Finset.sum_range_zero]
  norm_num [leg]

end Verif.Ts
