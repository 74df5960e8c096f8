import Verif.QBX.TsHelmModel
import Verif.QBX.TsLaplaceProps
import Verif.QBX.Addition

/-!
# What the Hankel routine and the three Helmholtz kernels compute
-/

namespace Verif.Ts

open Fl Finset

@[simp] theorem neg_fin {K : Type} [Neg K] (a : K) : Fl.neg (fin a) = fin (-a) := rfl
@[simp] theorem neg_bad {K : Type} [Neg K] : Fl.neg (bad : Fl K) = bad := rfl

theorem filled_ltK {K : Type} (f : ℕ → Fl K) {k i : ℕ} (h : i < k) : filled f k i = some (f i) := by
  simp [filled, h]

theorem filled_putN {K : Type} (size : ℕ) (f : ℕ → Fl K) (k : ℕ) (h : k < size) :
    Buf.putN size (filled f k) k (f k) = some (filled f (k + 1)) := by
  unfold Buf.putN
  rw [if_pos h]
  congr 1
  funext i
  unfold filled
  by_cases h1 : i = k
  · subst h1; simp
  · rw [if_neg h1]
    by_cases h2 : i < k
    · rw [if_pos h2, if_pos (by omega)]
    · rw [if_neg h2, if_neg (by omega)]

theorem fresh_filledK {K : Type} (f : ℕ → Fl K) : (Buf.fresh : Buf K) = filled f 0 := by
  funext i; simp [Buf.fresh, filled]

/-- A loop that fills one more cell per pass. -/
theorem fill_fold {K : Type} (body : Buf K → ℕ → Option (Buf K)) (f : ℕ → Fl K) (a o m : ℕ)
    (step : ∀ i, a ≤ i → i < a + m → body (filled f (i + o)) i = some (filled f (i + 1 + o))) :
    (List.range' a m).foldlM body (filled f (a + o)) = some (filled f (a + m + o)) := by
  induction m generalizing a with
  | zero => rfl
  | succ m ih =>
    rw [List.range'_succ, List.foldlM_cons, step a le_rfl (by omega)]
    have := ih (a + 1) (fun i h1 h2 => step i (by omega) (by omega))
    show (List.range' (a + 1) m).foldlM body (filled f (a + 1 + o)) = _
    rw [this]; congr 2; omega

theorem foldlM_range_succ {A : Type} (body : A → ℕ → Option A) (x : A) (m : ℕ) :
    (List.range' 0 (m + 1)).foldlM body x = ((List.range' 0 m).foldlM body x).bind fun y => body y m := by
  rw [List.range'_1_concat, List.foldlM_append, Nat.zero_add]
  cases (List.range' 0 m).foldlM body x with
  | none => rfl
  | some y =>
    show ([m].foldlM body y) = body y m
    rw [List.foldlM_cons]
    cases body y m <;> rfl

/-! ## The Hankel routine -/

/-- Scaled Hankel values. -/
noncomputable def hF (z : ℂ) (σ : ℝ) (n : ℕ) : Fl ℂ := fin (sphH n z * (σ : ℂ) ^ n)

/-- The derivative of `h_n`. -/
noncomputable def sphH' (n : ℕ) (z : ℂ) : ℂ := n / z * sphH n z - sphH (n + 1) z

theorem sphH'_deriv (n : ℕ) {z : ℂ} (hz : z ≠ 0) : HasDerivAt (sphH n) (sphH' n z) z := sphH_hasDeriv n hz

/-- Scaled derivatives of the Hankel values. -/
noncomputable def hdF (z : ℂ) (σ : ℝ) (n : ℕ) : Fl ℂ := fin (sphH' n z * (σ : ℂ) ^ n)

theorem ne_of_thresh {z : ℂ} (h : ¬ ‖z‖ < 1 / 10 ^ 15) : z ≠ 0 := by
  rintro rfl
  apply h
  rw [norm_zero]
  positivity

theorem h3d01_eq {z : ℂ} (h : ¬ ‖z‖ < 1 / 10 ^ 15) : h3d01 z = (fin (sphH 0 z), fin (sphH 1 z)) := by
  have hz := ne_of_thresh h
  have hi : Complex.I * z ≠ 0 := mul_ne_zero Complex.I_ne_zero hz
  unfold h3d01
  rw [if_neg h, fin_div _ hi, fin_div _ hz, sphH_one hz, sphH_zero]
  simp only [fin_sub, fin_mul]

theorem h3d_step {z : ℂ} (hz : z ≠ 0) (σ : ℝ) (size i : ℕ) (h1 : 1 ≤ i) (hi : i + 1 < size) :
    h3dBody size (toC (fin σ) / fin z) (fin σ * fin σ) (filled (hF z σ) (i + 1)) i
      = some (filled (hF z σ) (i + 1 + 1)) := by
  obtain ⟨n, rfl⟩ : ∃ n, i = n + 1 := ⟨i - 1, by omega⟩
  rw [h3dBody, filled_ltK _ (by omega), filled_ltK _ (by omega)]
  simp only [Option.bind_some, toC_fin, fin_div _ hz, fin_mul, hF, Nat.add_sub_cancel, fin_sub]
  rw [← filled_putN size (hF z σ) (n + 1 + 1) hi]
  congr 2
  rw [show n + 1 + 1 = n + 2 by rfl, sphH_rec n hz]
  push_cast
  field_simp
  ring

theorem h3dDer_step {z : ℂ} (hz : z ≠ 0) (σ : ℝ) (size i k : ℕ) (h1 : 1 ≤ i) (hik : i < k) (hi : i < size) :
    h3dDerBody size (fin 1 / fin z) (fin σ) (filled (hF z σ) k) (filled (hdF z σ) i) i
      = some (filled (hdF z σ) (i + 1)) := by
  obtain ⟨n, rfl⟩ : ∃ n, i = n + 1 := ⟨i - 1, by omega⟩
  rw [h3dDerBody, filled_ltK _ (by omega), filled_ltK _ (by omega)]
  simp only [Option.bind_some, toC_fin, fin_div _ hz, fin_mul, hF, Nat.add_sub_cancel, fin_sub]
  rw [← filled_putN size (hdF z σ) (n + 1) hi]
  congr 2
  rw [sphH', show n + 1 + 1 = n + 2 by rfl, sphH_rec n hz]
  push_cast
  field_simp
  ring

theorem h3d_values {z : ℂ} (h : ¬ ‖z‖ < 1 / 10 ^ 15) (σ : ℝ) (size nterms : ℕ) (hs : 1 < size)
    (hn : nterms < size) :
    ((Buf.putN size Buf.fresh 0 (h3d01 z).1).bind fun hv =>
    (hv.putN size 1 ((h3d01 z).2 * toC (fin σ))).bind fun hv =>
    ((List.range' 1 (nterms - 1)).foldlM (h3dBody size (toC (fin σ) / fin z) (fin σ * fin σ)) hv))
      = some (filled (hF z σ) (max 1 nterms + 1)) := by
  have hz := ne_of_thresh h
  have a0 : Buf.putN size Buf.fresh 0 (h3d01 z).1 = some (filled (hF z σ) 1) := by
    rw [fresh_filledK (hF z σ), h3d01_eq h]
    have := filled_putN size (hF z σ) 0 (by omega)
    simpa [hF] using this
  have a1 : Buf.putN size (filled (hF z σ) 1) 1 ((h3d01 z).2 * toC (fin σ)) = some (filled (hF z σ) 2) := by
    rw [h3d01_eq h]
    have := filled_putN size (hF z σ) 1 (by omega)
    simpa [hF] using this
  rw [a0, Option.bind_some, a1, Option.bind_some]
  have hf := fill_fold (h3dBody size (toC (fin σ) / fin z) (fin σ * fin σ)) (hF z σ) 1 1 (nterms - 1)
    (fun i h1 h2 => h3d_step hz σ size i h1 (by omega))
  rw [hf]
  congr 2
  omega

theorem h3dall_ok {z : ℂ} (h : ¬ ‖z‖ < 1 / 10 ^ 15) (σ : ℝ) (size nterms : ℕ) (hs : 1 < size)
    (hn : nterms < size) :
    h3dall size nterms z (fin σ) false none = some (filled (hF z σ) (max 1 nterms + 1), none) := by
  have hv := h3d_values h σ size nterms hs hn
  unfold h3dall
  rw [if_neg h]
  simp only [Bool.false_eq_true, if_false]
  cases e0 : Buf.putN size Buf.fresh 0 (h3d01 z).1 with
  | none => rw [e0] at hv; simp at hv
  | some b0 =>
    rw [e0, Option.bind_some] at hv
    rw [Option.bind_some]
    cases e1 : b0.putN size 1 ((h3d01 z).2 * toC (fin σ)) with
    | none => rw [e1] at hv; simp at hv
    | some b1 =>
      rw [e1, Option.bind_some] at hv
      rw [Option.bind_some, hv, Option.bind_some]

theorem h3dall_der_ok {z : ℂ} (h : ¬ ‖z‖ < 1 / 10 ^ 15) {σ : ℝ} (hσ : σ ≠ 0) (size nterms : ℕ) (hs : 1 < size)
    (hn : nterms < size) :
    h3dall size nterms z (fin σ) true (some Buf.fresh)
      = some (filled (hF z σ) (max 1 nterms + 1), some (filled (hdF z σ) (nterms + 1))) := by
  have hz := ne_of_thresh h
  have hσc : (σ : ℂ) ≠ 0 := by exact_mod_cast hσ
  have hd : h3dDers size nterms z (fin σ) (filled (hF z σ) (max 1 nterms + 1)) Buf.fresh
      = some (filled (hdF z σ) (nterms + 1)) := by
    unfold h3dDers
    rw [filled_ltK _ (by omega), Option.bind_some]
    have d0 : Buf.putN size Buf.fresh 0 (Fl.neg (hF z σ 1) / toC (fin σ)) = some (filled (hdF z σ) 1) := by
      rw [fresh_filledK (hdF z σ), ← filled_putN size (hdF z σ) 0 (by omega)]
      congr 1
      rw [hF, neg_fin, toC_fin, fin_div _ hσc, hdF, sphH']
      congr 1
      field_simp
      simp
    rw [d0, Option.bind_some]
    have hf := fill_fold (h3dDerBody size (fin 1 / fin z) (fin σ) (filled (hF z σ) (max 1 nterms + 1)))
      (hdF z σ) 1 0 nterms
      (fun i h1 h2 => h3dDer_step hz σ size i (max 1 nterms + 1) h1 (by omega) (by omega))
    rw [hf]
    congr 2
    omega
  have hv := h3d_values h σ size nterms hs hn
  unfold h3dall
  rw [if_neg h]
  simp only [if_true]
  cases e0 : Buf.putN size Buf.fresh 0 (h3d01 z).1 with
  | none => rw [e0] at hv; simp at hv
  | some b0 =>
    rw [e0, Option.bind_some] at hv
    rw [Option.bind_some]
    cases e1 : b0.putN size 1 ((h3d01 z).2 * toC (fin σ)) with
    | none => rw [e1] at hv; simp at hv
    | some b1 =>
      rw [e1, Option.bind_some] at hv
      rw [Option.bind_some, hv, Option.bind_some, Option.bind_some, hd, Option.map_some]

/-- Tiny arguments without a derivative array: a write through `NULL`. -/
theorem h3dall_null {z : ℂ} (h : ‖z‖ < 1 / 10 ^ 15) (σ : Fl ℝ) (size nterms : ℕ) :
    h3dall size nterms z σ false none = none := by
  unfold h3dall
  rw [if_pos h, List.range'_succ, List.foldlM_cons]
  have : h3dZero size (Buf.fresh, none) 0 = none := by
    unfold h3dZero
    cases Buf.putN size (Buf.fresh : Buf ℂ) 0 (fin 0) <;> rfl
  rw [this]; rfl

/-- Tiny arguments with a derivative array: zeros. -/
theorem h3dall_zero {z : ℂ} (h : ‖z‖ < 1 / 10 ^ 15) (σ : Fl ℝ) (size nterms : ℕ) (hn : nterms < size) :
    h3dall size nterms z σ true (some Buf.fresh)
      = some (filled (fun _ => fin 0) (nterms + 1), some (filled (fun _ => fin 0) (nterms + 1))) := by
  unfold h3dall
  rw [if_pos h, fresh_filledK (fun _ => (fin 0 : Fl ℂ))]
  have key : ∀ m, m ≤ nterms + 1 → (List.range' 0 m).foldlM (h3dZero size)
      (filled (fun _ => (fin 0 : Fl ℂ)) 0, some (filled (fun _ => (fin 0 : Fl ℂ)) 0))
        = some (filled (fun _ => fin 0) m, some (filled (fun _ => fin 0) m)) := by
    intro m
    induction m with
    | zero => intro _; rfl
    | succ m ih =>
      intro hm
      rw [foldlM_range_succ, ih (by omega), Option.bind_some, h3dZero]
      simp only [filled_putN size (fun _ => (fin 0 : Fl ℂ)) m (by omega), Option.bind_some, Option.map_some]
  exact key _ le_rfl

/-! ## The kernels -/

/-- `unscale` after `n` passes. -/
theorem helmScale_pos {k : ℂ} (hk : k ≠ 0) {r : ℝ} (hr : 0 < r) : 0 < helmScale k r := by
  unfold helmScale
  split
  · exact norm_pos_iff.mpr (mul_ne_zero hk (by exact_mod_cast hr.ne'))
  · exact one_pos

/-- The expansion with given Bessel values `u`. -/
noncomputable def hexp (u : ℕ → ℂ) (b : ℂ) (x : ℝ) (p : ℕ) : ℂ :=
  ∑ n ∈ range (p + 1), (2 * (n : ℂ) + 1) * u n * sphH n b * (leg x n : ℝ)

theorem helmS_fold {σ τ : ℝ} (hσ : σ ≠ 0) (hτ : τ ≠ 0) (u : ℕ → ℂ) (jv : Buf ℂ) (b : ℂ) (x : ℝ) (p a : ℕ)
    (hjv : ∀ n, n ≤ p → jv n = some (fin (u n / (τ : ℂ) ^ n))) (ha : p < a) (m : ℕ) (hm : m ≤ p + 1) :
    (List.range' 0 m).foldlM (helmSBody jv (filled (hF b σ) a) (filled (legF (fin x)) (p + 1)) (fin τ / fin σ))
        (fin 0, fin 1)
      = some (fin (∑ n ∈ range m, (2 * (n : ℂ) + 1) * u n * sphH n b * (leg x n : ℝ)), fin ((τ / σ) ^ m)) := by
  induction m with
  | zero => simp [pure]
  | succ m ih =>
    have hσc : (σ : ℂ) ≠ 0 := by exact_mod_cast hσ
    have hτc : (τ : ℂ) ≠ 0 := by exact_mod_cast hτ
    rw [foldlM_range_succ, ih (by omega), Option.bind_some, helmSBody, hjv m (by omega), filled_ltK _ (by omega), filled_ltK _ (by omega),
      legF_fin]
    simp only [Option.bind_some, hF, fin_mul, fin_add, toC_fin, fin_div _ hσ]
    congr 2
    · rw [sum_range_succ]
      congr 2
      push_cast
      rw [div_pow]
      field_simp

/-- The single layer kernel with Bessel values `u`. -/
theorem tsHelmholtzS_eq {s c t : V3} (ht : t ≠ c) (hs : s ≠ c) {k : ℂ} (hk : k ≠ 0)
    (hb : ¬ ‖k * (euclid s c : ℂ)‖ < 1 / 10 ^ 15) (charge : ℂ) (order : ℕ) (ho : order < 64) (u : ℕ → ℂ)
    (jv : Buf ℂ) (τ : ℝ) (hτ : τ ≠ 0) (hjv : ∀ n, n ≤ order → jv n = some (fin (u n / (τ : ℂ) ^ n))) :
    tsHelmholtzS s c t (fin charge) order k jv (fin τ)
      = some (fin (charge * (Complex.I * k * hexp u (k * euclid s c) (cosv s c t) order))) := by
  have hsp : 0 < cdist s c := by rw [cdist_eq]; exact euclid_pos hs
  have hσ := helmScale_pos hk hsp
  unfold tsHelmholtzS
  simp only
  rw [legvals_ok _ _ _ ho, Option.bind_some]
  simp only
  rw [h3dall_ok (by rw [cdist_eq]; exact hb) _ bufSize order (by decide) ho, Option.bind_some,
    cosAngle_cosv ht hs]
  simp only
  rw [helmS_fold hσ.ne' hτ u jv _ _ order _ hjv (by omega) (order + 1) le_rfl]
  simp only [Option.map_some, fin_mul, cdist_eq, hexp]
  congr 2
  ring

/-! ## Gradients -/

/-- Component `m` of the target gradient of the expansion, with Bessel values `u` and
derivatives `u'`. -/
noncomputable def hspSum (k : ℂ) (u u' : ℕ → ℂ) (b : ℂ) (x a : ℝ) (tm w : ℝ) (p : ℕ) : ℂ :=
  ∑ n ∈ range p, (2 * (n : ℂ) + 1) * sphH n b / a
    * (k * u' n * (leg x n : ℝ) * tm + w * u n * (dleg x n : ℝ))

theorem helmSp_fold {σ τ a sc : ℝ} (hσ : σ ≠ 0) (hτ : τ ≠ 0) (ha : a ≠ 0) (hsc : sc ≠ 0) (k : ℂ) (u u' : ℕ → ℂ)
    (jv jd : Buf ℂ) (b : ℂ) (x : ℝ) (tmc smc : V3) (p l : ℕ)
    (hjv : ∀ n, n ≤ p → jv n = some (fin (u n / (τ : ℂ) ^ n)))
    (hjd : ∀ n, n ≤ p → jd n = some (fin (u' n / (τ : ℂ) ^ n))) (hl : p < l) (m : ℕ) (hm : m ≤ p + 1) :
    (List.range' 0 m).foldlM (helmSpBody tmc smc (fin x) (fin a) (fin sc) k jv jd (filled (hF b σ) l)
        (filled (legF (fin x)) (p + 1)) (filled (dlegF (fin x)) (p + 1)) (fin τ / fin σ)) (fun _ => fin 0, fin 1)
      = some (fun i => fin (hspSum k u u' b x a (tmc i) (smc i / sc - x * tmc i / a) m), fin ((τ / σ) ^ m)) := by
  induction m with
  | zero => simp [pure, hspSum]
  | succ m ih =>
    have hσc : (σ : ℂ) ≠ 0 := by exact_mod_cast hσ
    have hτc : (τ : ℂ) ≠ 0 := by exact_mod_cast hτ
    have hac : (a : ℂ) ≠ 0 := by exact_mod_cast ha
    have hscc : (sc : ℂ) ≠ 0 := by exact_mod_cast hsc
    rw [foldlM_range_succ, ih (by omega), Option.bind_some, helmSpBody, hjv m (by omega), hjd m (by omega), filled_ltK _ (by omega),
      filled_ltK _ (by omega), filled_ltK _ (by omega), legF_fin, dlegF_fin]
    simp only [Option.bind_some, hF, fin_mul, fin_add, fin_sub, toC_fin, fin_div _ hσ, fin_div _ ha, fin_div _ hsc,
      fin_div _ hac]
    congr 2
    · funext i
      rw [hspSum, hspSum, sum_range_succ]
      congr 2
      push_cast
      rw [div_pow]
      field_simp

/-- Component `m` of the source gradient of the expansion, with Bessel values `u`. -/
noncomputable def hdSum (k : ℂ) (u : ℕ → ℂ) (b : ℂ) (x sc : ℝ) (sm w : ℝ) (p : ℕ) : ℂ :=
  ∑ n ∈ range p, (2 * (n : ℂ) + 1) * u n / sc
    * (k * sm * sphH' n b * (leg x n : ℝ) + w * sphH n b * (dleg x n : ℝ))

theorem helmD_fold {σ τ a sc : ℝ} (hσ : σ ≠ 0) (hτ : τ ≠ 0) (ha : a ≠ 0) (hsc : sc ≠ 0) (k : ℂ) (u : ℕ → ℂ)
    (jv : Buf ℂ) (b : ℂ) (x : ℝ) (tmc smc : V3) (p l : ℕ)
    (hjv : ∀ n, n ≤ p → jv n = some (fin (u n / (τ : ℂ) ^ n))) (hl : p < l) (m : ℕ) (hm : m ≤ p + 1) :
    (List.range' 0 m).foldlM (helmDBody tmc smc (fin x) (fin a) (fin sc) k jv (filled (hF b σ) l)
        (filled (hdF b σ) (p + 1))
        (filled (legF (fin x)) (p + 1)) (filled (dlegF (fin x)) (p + 1)) (fin τ / fin σ)) (fun _ => fin 0, fin 1)
      = some (fun i => fin (hdSum k u b x sc (smc i) (tmc i / a - x * smc i / sc) m), fin ((τ / σ) ^ m)) := by
  induction m with
  | zero => simp [pure, hdSum]
  | succ m ih =>
    have hσc : (σ : ℂ) ≠ 0 := by exact_mod_cast hσ
    have hτc : (τ : ℂ) ≠ 0 := by exact_mod_cast hτ
    have hac : (a : ℂ) ≠ 0 := by exact_mod_cast ha
    have hscc : (sc : ℂ) ≠ 0 := by exact_mod_cast hsc
    rw [foldlM_range_succ, ih (by omega), Option.bind_some, helmDBody, hjv m (by omega), filled_ltK _ (by omega),
      filled_ltK _ (by omega), filled_ltK _ (by omega), filled_ltK _ (by omega), legF_fin, dlegF_fin]
    simp only [Option.bind_some, hF, hdF, fin_mul, fin_add, fin_sub, toC_fin, fin_div _ hσ, fin_div _ ha, fin_div _ hsc,
      fin_div _ hscc]
    congr 2
    · funext i
      rw [hdSum, hdSum, sum_range_succ]
      congr 2
      push_cast
      rw [div_pow]
      field_simp

/-- The gradient kernel with Bessel values `u`, `u'`. -/
theorem tsHelmholtzSp_eq {s c t : V3} (ht : t ≠ c) (hs : s ≠ c) {k : ℂ} (hk : k ≠ 0)
    (hb : ¬ ‖k * (euclid s c : ℂ)‖ < 1 / 10 ^ 15) (grad : Fin 3 → ℂ) (charge : ℂ) (order : ℕ) (ho : order < 64)
    (u u' : ℕ → ℂ) (jv jd : Buf ℂ) (τ : ℝ) (hτ : τ ≠ 0)
    (hjv : ∀ n, n ≤ order → jv n = some (fin (u n / (τ : ℂ) ^ n)))
    (hjd : ∀ n, n ≤ order → jd n = some (fin (u' n / (τ : ℂ) ^ n))) :
    tsHelmholtzSp (fun m => fin (grad m)) s c t (fin charge) order k jv jd (fin τ)
      = some fun m => fin (grad m + charge * (Complex.I * k
          * hspSum k u u' (k * euclid s c) (cosv s c t) (euclid t c) (t m - c m)
            ((s m - c m) / euclid s c - cosv s c t * (t m - c m) / euclid t c) (order + 1))) := by
  have hsp : 0 < cdist s c := by rw [cdist_eq]; exact euclid_pos hs
  have htp : 0 < cdist t c := by rw [cdist_eq]; exact euclid_pos ht
  have hσ := helmScale_pos hk hsp
  unfold tsHelmholtzSp
  simp only
  rw [legvals_ok _ _ _ ho, Option.bind_some]
  simp only [if_true, Option.bind_some]
  rw [h3dall_ok (by rw [cdist_eq]; exact hb) _ bufSize order (by decide) ho, Option.bind_some,
    cosAngle_cosv ht hs]
  simp only
  rw [helmSp_fold hσ.ne' hτ htp.ne' hsp.ne' k u u' jv jd _ _ _ _ order _ hjv hjd (by omega) (order + 1) le_rfl]
  simp only [Option.map_some, fin_mul, fin_add, cdist_eq]
  congr 1
  funext m
  congr 1
  ring

/-- The double layer kernel with Bessel values `u`. -/
theorem tsHelmholtzD_eq {s c t : V3} (ht : t ≠ c) (hs : s ≠ c) {k : ℂ} (hk : k ≠ 0)
    (hb : ¬ ‖k * (euclid s c : ℂ)‖ < 1 / 10 ^ 15) (dipole : V3) (dipstr : ℂ) (order : ℕ) (ho : order < 64)
    (u : ℕ → ℂ) (jv : Buf ℂ) (τ : ℝ) (hτ : τ ≠ 0)
    (hjv : ∀ n, n ≤ order → jv n = some (fin (u n / (τ : ℂ) ^ n))) :
    tsHelmholtzD s c t dipole (fin dipstr) order k jv (fin τ)
      = some (fin (dipstr * ∑ m, (dipole m : ℂ) * (Complex.I * k
          * hdSum k u (k * euclid s c) (cosv s c t) (euclid s c) (s m - c m)
            ((t m - c m) / euclid t c - cosv s c t * (s m - c m) / euclid s c) (order + 1)))) := by
  have hsp : 0 < cdist s c := by rw [cdist_eq]; exact euclid_pos hs
  have htp : 0 < cdist t c := by rw [cdist_eq]; exact euclid_pos ht
  have hσ := helmScale_pos hk hsp
  unfold tsHelmholtzD
  simp only
  rw [legvals_ok _ _ _ ho, Option.bind_some]
  simp only [if_true, Option.bind_some]
  rw [h3dall_der_ok (by rw [cdist_eq]; exact hb) hσ.ne' bufSize order (by decide) ho, Option.bind_some,
    cosAngle_cosv ht hs]
  simp only [Option.bind_some]
  rw [helmD_fold hσ.ne' hτ htp.ne' hsp.ne' k u jv _ _ _ _ order _ hjv (by omega) (order + 1) le_rfl]
  simp only [Option.map_some, fin_mul, fin_add, toC_fin, cdist_eq]
  congr 2
  rw [Fin.sum_univ_three]
  ring

end Verif.Ts
