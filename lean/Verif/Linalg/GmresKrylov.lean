import Verif.Linalg.GmresExact
import Verif.Linalg.Vdot
import Mathlib.Analysis.InnerProductSpace.Basic
import Mathlib.Analysis.InnerProductSpace.Orthonormal
import Mathlib.LinearAlgebra.FiniteDimensional.Lemmas
import Mathlib.Tactic.Linarith
import Mathlib.Tactic.Ring
import Mathlib.Tactic.FieldSimp

/-!
# What GMRES converges to, and when (C80)

Same model as `Verif.Linalg.Gmres`, in a real or complex inner product space, with exact arithmetic and NaN after a
division by zero (`nanOps`).  `norm` is `np.sqrt(abs(dot(x, x)))` as in `pytential/linalg/gmres.py:190-191`; `dot` is
conjugate linear in the first argument, as NumPy's `vdot`.
-/

namespace Verif.Gmres

section
variable {𝕜 V : Type} [RCLike 𝕜] [NormedAddCommGroup V] [InnerProductSpace 𝕜 V]

variable (𝕜) in
/-- `norm` (`gmres.py:190-191`) -/
noncomputable def codeNorm (v : V) : ℝ := Real.sqrt ‖inner 𝕜 v v‖

/-- exact arithmetic in an inner product space; `1/norm` (`gmres.py:286`) -/
noncomputable def ipOps (A : V →ₗ[𝕜] V) : Ops (Option V) (Option 𝕜) (Option ℝ) :=
  nanOps A (fun x y => inner 𝕜 x y) (codeNorm 𝕜) (fun n => ((1 / n : ℝ) : 𝕜))

theorem codeNorm_eq (v : V) : codeNorm 𝕜 v = ‖v‖ := by
  unfold codeNorm
  rw [inner_self_eq_norm_sq_to_K, norm_pow, RCLike.norm_ofReal, abs_norm, Real.sqrt_sq (norm_nonneg v)]

/-- one pass of orthogonalization against directions whose images are orthonormal -/
theorem orthLoop_ip (A : V →ₗ[𝕜] V) (Ae e : List (Option (Option V))) (ee : Nat → V) (js : List Nat) (hn : js.Nodup)
    (hs : ∀ j ∈ js, Ae[j]? = some (some (some (A (ee j)))) ∧ e[j]? = some (some (some (ee j))))
    (ho : ∀ i ∈ js, ∀ j ∈ js, i ≠ j → inner 𝕜 (A (ee i)) (A (ee j)) = 0) (v : V) :
    orthLoop (ipOps A) Ae e js (some (A v), some v) =
      .ok (some (A (v - (js.map fun j => inner 𝕜 (A (ee j)) (A v) • ee j).sum)),
        some (v - (js.map fun j => inner 𝕜 (A (ee j)) (A v) • ee j).sum)) := by
  induction js generalizing v with
  | nil => simp [orthLoop]
  | cons j js ih =>
    obtain ⟨h1, h2⟩ := hs j (by simp)
    simp only [orthLoop, fetch, h1, h2]
    have hstep : (ipOps A).sub (some (A v)) ((ipOps A).smul ((ipOps A).dot (some (A (ee j))) (some (A v)))
        (some (A (ee j)))) = some (A (v - inner 𝕜 (A (ee j)) (A v) • ee j)) := by
      simp only [ipOps, nanOps, map₂_some, map_sub, map_smul]
    have hstep' : (ipOps A).sub (some v) ((ipOps A).smul ((ipOps A).dot (some (A (ee j))) (some (A v)))
        (some (ee j))) = some (v - inner 𝕜 (A (ee j)) (A v) • ee j) := by
      simp only [ipOps, nanOps, map₂_some]
    rw [hstep, hstep', ih (List.nodup_cons.1 hn).2 (fun i hi => hs i (List.mem_cons_of_mem _ hi))
      (fun i hi k hk => ho i (List.mem_cons_of_mem _ hi) k (List.mem_cons_of_mem _ hk))]
    have hsum : (js.map fun i => inner 𝕜 (A (ee i)) (A (v - inner 𝕜 (A (ee j)) (A v) • ee j)) • ee i)
        = js.map fun i => inner 𝕜 (A (ee i)) (A v) • ee i := by
      refine List.map_congr_left fun i hi => ?_
      have hij : i ≠ j := by rintro rfl; exact (List.nodup_cons.1 hn).1 hi
      rw [map_sub, map_smul, inner_sub_right, inner_smul_right,
        ho i (List.mem_cons_of_mem _ hi) j (by simp) hij, mul_zero, sub_zero]
    rw [hsum, List.map_cons, List.sum_cons, sub_sub]

theorem normalize_ip (A : V →ₗ[𝕜] V) (v : V) (h : A v ≠ 0) :
    normalize (ipOps A) (some (A v), some v)
      = (some (A (((‖A v‖⁻¹ : ℝ) : 𝕜) • v)), some (((‖A v‖⁻¹ : ℝ) : 𝕜) • v)) := by
  have h0 : ‖A v‖ ≠ 0 := norm_ne_zero_iff.2 h
  simp only [normalize, ipOps, nanOps, Option.map_some, codeNorm_eq, h0, if_false, map₂_some, map_smul, one_div]

theorem normalize_zero (A : V →ₗ[𝕜] V) (v : V) (h : A v = 0) :
    normalize (ipOps A) (some (A v), some v) = (none, none) := by
  simp only [normalize, ipOps, nanOps, Option.map_some, codeNorm_eq, h, norm_zero, if_true]
  rfl

theorem orthLoop_none (A : V →ₗ[𝕜] V) (Ae e : List (Option (Option V))) (js : List Nat) (q : Option V × Option V)
    (hq : q.1 = none) (q' : Option V × Option V) (h : orthLoop (ipOps A) Ae e js q = .ok q') : q'.1 = none := by
  induction js generalizing q with
  | nil => simp only [orthLoop] at h; cases h; exact hq
  | cons j js ih =>
    obtain ⟨w, rp⟩ := q
    simp only at hq
    subst hq
    simp only [orthLoop] at h
    split at h
    · cases h
    · split at h
      · cases h
      · refine ih _ ?_ h
        simp only [ipOps, nanOps]; rfl

/-- the new direction before normalization: the residual without its components along the stored directions -/
noncomputable def newDir (A : V →ₗ[𝕜] V) (ee : Nat → V) (cnt : Nat) (r : V) : V :=
  r - ((List.range cnt).map fun j => inner 𝕜 (A (ee j)) (A r) • ee j).sum

/-- ... and after -/
noncomputable def unitDir (A : V →ₗ[𝕜] V) (ee : Nat → V) (cnt : Nat) (r : V) : V :=
  ((‖A (newDir A ee cnt r)‖⁻¹ : ℝ) : 𝕜) • newDir A ee cnt r

theorem inner_list_sum (w : V) (l : List V) : inner 𝕜 w l.sum = (l.map fun v => inner 𝕜 w v).sum := by
  induction l with
  | nil => simp
  | cons v l ih => simp [inner_add_right, ih]

theorem map_list_sum' (A : V →ₗ[𝕜] V) (l : List V) : A l.sum = (l.map fun v => A v).sum := by
  induction l with
  | nil => simp
  | cons v l ih => simp [ih]

theorem sum_map_zero {α M : Type} [AddMonoid M] (l : List α) (f : α → M) (h : ∀ a ∈ l, f a = 0) : (l.map f).sum = 0 := by
  induction l with
  | nil => simp
  | cons a l ih => simp [h a, ih fun b hb => h b (List.mem_cons_of_mem _ hb)]

theorem sum_map_single {M : Type} [AddCommMonoid M] (n i : Nat) (hi : i < n) (f : Nat → M)
    (h : ∀ j < n, j ≠ i → f j = 0) : ((List.range n).map f).sum = f i := by
  induction n with
  | zero => omega
  | succ n ih =>
    rw [List.range_succ, List.map_append, List.sum_append, List.map_singleton, List.sum_singleton]
    by_cases hin : i = n
    · subst hin
      rw [sum_map_zero _ _ (fun a ha => h a (by have := List.mem_range.1 ha; omega)
        (by have := List.mem_range.1 ha; omega)), zero_add]
    · rw [ih (by omega) (fun j hj => h j (by omega)), h n (by omega) (by omega), add_zero]

/-- images of stored directions are orthonormal -/
def ONImages (A : V →ₗ[𝕜] V) (ee : Nat → V) (k : Nat) : Prop :=
  ∀ i < k, ∀ j < k, inner 𝕜 (A (ee i)) (A (ee j)) = if i = j then 1 else 0

theorem newDir_perp (A : V →ₗ[𝕜] V) (ee : Nat → V) (cnt : Nat) (ho : ONImages A ee cnt) (r : V) (i : Nat) (hi : i < cnt) :
    inner 𝕜 (A (ee i)) (A (newDir A ee cnt r)) = 0 := by
  rw [newDir, map_sub, inner_sub_right, map_list_sum', inner_list_sum, List.map_map, List.map_map,
    sum_map_single cnt i hi]
  · simp only [Function.comp, map_smul, inner_smul_right]
    rw [ho i hi i hi, if_pos rfl, mul_one, sub_self]
  · intro j hj hne
    simp only [Function.comp, map_smul, inner_smul_right]
    rw [ho i hi j hj, if_neg (Ne.symm hne), mul_zero]

/-- both rounds of orthogonalization -/
theorem orthTrips_ip (A : V →ₗ[𝕜] V) (Ae e : List (Option (Option V))) (ee : Nat → V) (cnt : Nat)
    (hs : ∀ j < cnt, Ae[j]? = some (some (some (A (ee j)))) ∧ e[j]? = some (some (some (ee j))))
    (ho : ONImages A ee cnt) (r : V) :
    (A (newDir A ee cnt r) ≠ 0 → orthTrips (ipOps A) Ae e cnt 2 (some (A r), some r)
      = .ok (some (A (unitDir A ee cnt r)), some (unitDir A ee cnt r))) ∧
    (A (newDir A ee cnt r) = 0 → ∀ q, orthTrips (ipOps A) Ae e cnt 2 (some (A r), some r) = .ok q → q.1 = none) := by
  have hs' : ∀ j ∈ List.range cnt, Ae[j]? = some (some (some (A (ee j)))) ∧ e[j]? = some (some (some (ee j))) :=
    fun j hj => hs j (List.mem_range.1 hj)
  have ho' : ∀ i ∈ List.range cnt, ∀ j ∈ List.range cnt, i ≠ j → inner 𝕜 (A (ee i)) (A (ee j)) = 0 := by
    intro i hi j hj hij
    rw [ho i (List.mem_range.1 hi) j (List.mem_range.1 hj), if_neg hij]
  have h1 : orthLoop (ipOps A) Ae e (List.range cnt) (some (A r), some r)
      = .ok (some (A (newDir A ee cnt r)), some (newDir A ee cnt r)) :=
    orthLoop_ip A Ae e ee (List.range cnt) List.nodup_range hs' ho' r
  constructor
  · intro hne
    have hz : ∀ j ∈ List.range cnt, inner 𝕜 (A (ee j)) (A (unitDir A ee cnt r)) • ee j = 0 := by
      intro j hj
      rw [unitDir, map_smul, inner_smul_right, newDir_perp A ee cnt ho r j (List.mem_range.1 hj), mul_zero, zero_smul]
    have h2 := orthLoop_ip A Ae e ee (List.range cnt) List.nodup_range hs' ho' (unitDir A ee cnt r)
    rw [sum_map_zero _ _ hz, sub_zero] at h2
    have hun : ‖A (unitDir A ee cnt r)‖ = 1 := by
      rw [unitDir, map_smul, norm_smul, RCLike.norm_ofReal, abs_of_nonneg (inv_nonneg.2 (norm_nonneg _)),
        inv_mul_cancel₀ (norm_ne_zero_iff.2 hne)]
    have hu0 : A (unitDir A ee cnt r) ≠ 0 := by
      rw [← norm_ne_zero_iff, hun]; exact one_ne_zero
    have hn1 : normalize (ipOps A) (some (A (newDir A ee cnt r)), some (newDir A ee cnt r))
        = (some (A (unitDir A ee cnt r)), some (unitDir A ee cnt r)) := normalize_ip A _ hne
    have hn2 : normalize (ipOps A) (some (A (unitDir A ee cnt r)), some (unitDir A ee cnt r))
        = (some (A (unitDir A ee cnt r)), some (unitDir A ee cnt r)) := by
      rw [normalize_ip A _ hu0, hun, inv_one, RCLike.ofReal_one, one_smul]
    simp only [orthTrips, h1, hn1, h2, hn2]
  · intro hz q hq
    simp only [orthTrips, h1, normalize_zero A _ hz] at hq
    split at hq
    · cases hq
    · rename_i q' hq'
      cases hq
      have := orthLoop_none A Ae e _ _ rfl q' hq'
      obtain ⟨w, rp⟩ := q'
      simp only at this
      subst this
      rfl

/-- state before a breakdown: the residual is exact, the directions below `k` are stored with their images, these are
orthonormal and orthogonal to the residual -/
structure Good (A : V →ₗ[𝕜] V) (p : Params (Option ℝ)) (b : V) (st : St (Option V) (Option ℝ)) (x : V) (ee : Nat → V) :
    Prop where
  hx : st.x = some x
  res : st.recalc = false → st.r = some (b - A x)
  lenA : st.Ae.length = p.restart
  lenE : st.e.length = p.restart
  k : st.k ≤ p.restart
  slots : ∀ j < st.k, st.Ae[j]? = some (some (some (A (ee j)))) ∧ st.e[j]? = some (some (some (ee j)))
  orth : ONImages A ee st.k
  perp : ∀ j < st.k, inner 𝕜 (A (ee j)) (b - A x) = 0

variable {A : V →ₗ[𝕜] V} {p : Params (Option ℝ)} {b x : V} {st st' : St (Option V) (Option ℝ)} {ee : Nat → V}

theorem good_top (h : Good A p b st x ee) :
    (top (ipOps A) p (some b) st).2.r = some (b - A x) ∧ (top (ipOps A) p (some b) st).1 = st.k ∧
    (top (ipOps A) p (some b) st).2.k = (if st.k = p.restart then 0 else st.k) := by
  refine ⟨?_, ?_, rfl⟩
  · simp only [top]
    split
    · rw [h.hx]; rfl
    · rename_i hr; exact h.res (by simpa using hr)
  · simp only [top]
    split
    · rename_i hk; exact hk.symm
    · rfl

theorem unitDir_norm (A : V →ₗ[𝕜] V) (ee : Nat → V) (cnt : Nat) (r : V) (h : A (newDir A ee cnt r) ≠ 0) :
    inner 𝕜 (A (unitDir A ee cnt r)) (A (unitDir A ee cnt r)) = 1 := by
  have hun : ‖A (unitDir A ee cnt r)‖ = 1 := by
    rw [unitDir, map_smul, norm_smul, RCLike.norm_ofReal, abs_of_nonneg (inv_nonneg.2 (norm_nonneg _)),
      inv_mul_cancel₀ (norm_ne_zero_iff.2 h)]
  rw [inner_self_eq_norm_sq_to_K, hun, RCLike.ofReal_one, one_pow]

theorem unitDir_perp (A : V →ₗ[𝕜] V) (ee : Nat → V) (cnt : Nat) (ho : ONImages A ee cnt) (r : V) (i : Nat) (hi : i < cnt) :
    inner 𝕜 (A (ee i)) (A (unitDir A ee cnt r)) = 0 := by
  rw [unitDir, map_smul, inner_smul_right, newDir_perp A ee cnt ho r i hi, mul_zero]

theorem inner_zero_symm (v w : V) (h : inner 𝕜 v w = 0) : inner 𝕜 w v = 0 := by
  rw [← inner_conj_symm, h, map_zero]

/-- the new iterate -/
noncomputable def nextX (A : V →ₗ[𝕜] V) (ee : Nat → V) (k : Nat) (b x : V) : V :=
  x + inner 𝕜 (A (unitDir A ee k (b - A x))) (b - A x) • unitDir A ee k (b - A x)

theorem nextX_res (A : V →ₗ[𝕜] V) (ee : Nat → V) (k : Nat) (b x : V) :
    b - A (nextX A ee k b x) = (b - A x)
      - inner 𝕜 (A (unitDir A ee k (b - A x))) (b - A x) • A (unitDir A ee k (b - A x)) := by
  rw [nextX, map_add, map_smul]; abel

/-- one iteration: either a breakdown, or one more direction -/
theorem good_step (hr : 0 < p.restart) (it : Nat) (h : Good A p b st x ee)
    (ha : advance (ipOps A) (top (ipOps A) p (some b) st).1 it (top (ipOps A) p (some b) st).2 = .ok st') :
    (A (newDir A ee st.k (b - A x)) = 0 ∧ Dead st') ∨
    (A (newDir A ee st.k (b - A x)) ≠ 0 ∧
      st'.k = (if st.k = p.restart then 0 else st.k) + 1 ∧
      Good A p b st' (nextX A ee st.k b x)
        (Function.update ee (if st.k = p.restart then 0 else st.k) (unitDir A ee st.k (b - A x)))) := by
  obtain ⟨htr, htc, htk⟩ := good_top h
  have hx : (top (ipOps A) p (some b) st).2.x = some x := h.hx
  have hA : (top (ipOps A) p (some b) st).2.Ae = st.Ae := rfl
  have he : (top (ipOps A) p (some b) st).2.e = st.e := rfl
  generalize (top (ipOps A) p (some b) st) = t at *
  obtain ⟨cnt, s⟩ := t
  simp only at htr htc htk hx hA he ha
  subst htc
  have hkk : s.k < p.restart := by
    rw [htk]; have := h.k; split <;> omega
  have hkl : s.k ≤ st.k := by rw [htk]; split <;> omega
  obtain ⟨ht1, ht2⟩ := orthTrips_ip A st.Ae st.e ee st.k h.slots h.orth (b - A x)
  simp only [advance, hA, he, htr] at ha
  have hAr : (ipOps A).A (some (b - A x)) = some (A (b - A x)) := rfl
  rw [hAr] at ha
  by_cases hz : A (newDir A ee st.k (b - A x)) = 0
  · refine Or.inl ⟨hz, ?_⟩
    split at ha
    · cases ha
    · rename_i w rp hq
      have hw := ht2 hz _ hq
      simp only at hw
      subst hw
      split at ha
      · cases ha
      · split at ha
        · cases ha
        · cases ha
          refine ⟨?_, ?_⟩
          · simp only [hx]; rfl
          · intro hrec
            simp only at hrec
            simp only [hrec, Bool.false_eq_true, if_false]; rfl
  · refine Or.inr ⟨hz, ?_⟩
    rw [ht1 hz] at ha
    simp only [store, h.lenA, h.lenE, hkk, if_true] at ha
    cases ha
    simp only [htr, hx]
    rw [← htk]
    refine ⟨rfl, ?_⟩
    refine ⟨rfl, ?_, by simp [h.lenA], by simp [h.lenE], by simp only; omega, ?_, ?_, ?_⟩
    · intro hrec
      simp only at hrec
      simp only [hrec, Bool.false_eq_true, if_false]
      rw [nextX_res]; rfl
    · intro j hj
      simp only at hj ⊢
      by_cases hjk : s.k = j
      · subst hjk
        rw [List.getElem?_set_self (by rw [h.lenA]; exact hkk), List.getElem?_set_self (by rw [h.lenE]; exact hkk)]
        simp
      · rw [List.getElem?_set_ne hjk, List.getElem?_set_ne hjk, Function.update_of_ne (Ne.symm hjk)]
        exact h.slots j (by omega)
    · intro i hi j hj
      simp only at hi hj
      by_cases hik : i = s.k
      · by_cases hjk : j = s.k
        · rw [hik, hjk, if_pos rfl, Function.update_self]
          exact unitDir_norm A ee st.k _ hz
        · rw [hik, if_neg (by omega), Function.update_self, Function.update_of_ne hjk]
          exact inner_zero_symm _ _ (unitDir_perp A ee st.k h.orth _ j (by omega))
      · by_cases hjk : j = s.k
        · rw [hjk, if_neg hik, Function.update_self, Function.update_of_ne hik]
          exact unitDir_perp A ee st.k h.orth _ i (by omega)
        · rw [Function.update_of_ne hik, Function.update_of_ne hjk]
          exact h.orth i (by omega) j (by omega)
    · intro j hj
      simp only at hj
      rw [nextX_res, inner_sub_right, inner_smul_right]
      by_cases hjk : j = s.k
      · rw [hjk, Function.update_self, unitDir_norm A ee st.k _ hz, mul_one, sub_self]
      · rw [Function.update_of_ne hjk, h.perp j (by omega), unitDir_perp A ee st.k h.orth _ j (by omega), mul_zero, sub_zero]

theorem good_init (p : Params (Option ℝ)) (A : V →ₗ[𝕜] V) (b : V) (x0 : Option V) :
    Good A p b (initial (ipOps A) p (some b) (x0.map some)) (x0.getD 0) (fun _ => 0) := by
  refine ⟨?_, ?_, by simp [initial], by simp [initial], Nat.zero_le _, ?_, ?_, ?_⟩
  · cases x0 <;> simp [initial, ipOps, nanOps, Option.map₂]
  · intro hrec
    cases x0 with
    | none => simp [initial]
    | some x => simp [initial] at hrec
  · intro j hj; exact absurd hj (Nat.not_lt_zero _)
  · intro j hj; exact absurd hj (Nat.not_lt_zero _)
  · intro j hj; exact absurd hj (Nat.not_lt_zero _)

/-- how much an iteration gains -/
theorem step_norm (A : V →ₗ[𝕜] V) (ee : Nat → V) (k : Nat) (b x : V)
    (hz : A (newDir A ee k (b - A x)) ≠ 0) :
    ‖b - A (nextX A ee k b x)‖ ^ 2 = ‖b - A x‖ ^ 2 - ‖inner 𝕜 (A (unitDir A ee k (b - A x))) (b - A x)‖ ^ 2 := by
  rw [nextX_res]
  generalize hr : b - A x = r at *
  have h1 := unitDir_norm A ee k r hz
  generalize A (unitDir A ee k r) = w at *
  have hw : ‖w‖ = 1 := by
    have : ‖inner 𝕜 w w‖ = 1 := by rw [h1, norm_one]
    rw [inner_self_eq_norm_sq_to_K, norm_pow, RCLike.norm_ofReal, abs_norm] at this
    nlinarith [norm_nonneg w]
  rw [@norm_sub_sq 𝕜, inner_smul_right, norm_smul, hw, mul_one]
  have : inner 𝕜 w r * inner 𝕜 r w = ((‖inner 𝕜 w r‖ ^ 2 : ℝ) : 𝕜) := by
    rw [← inner_conj_symm r w, RCLike.mul_conj]; push_cast; rfl
  rw [this, RCLike.ofReal_re]; ring

/-- the component along the new direction -/
theorem step_gain (A : V →ₗ[𝕜] V) (ee : Nat → V) (k : Nat) (r : V) (ho : ONImages A ee k)
    (hp : ∀ j < k, inner 𝕜 (A (ee j)) r = 0) (hz : A (newDir A ee k r) ≠ 0) :
    ‖inner 𝕜 r (A r)‖ ≤ ‖inner 𝕜 (A (unitDir A ee k r)) r‖ * ‖A r‖ := by
  have hsum : A (newDir A ee k r) = A r - ((List.range k).map fun j => inner 𝕜 (A (ee j)) (A r) • A (ee j)).sum := by
    rw [newDir, map_sub, map_list_sum', List.map_map]
    simp only [Function.comp_def, map_smul]
  have h1 : inner 𝕜 r (A (newDir A ee k r)) = inner 𝕜 r (A r) := by
    rw [hsum, inner_sub_right, inner_list_sum, List.map_map, sum_map_zero, sub_zero]
    intro j hj
    simp only [Function.comp, inner_smul_right]
    rw [inner_zero_symm _ _ (hp j (List.mem_range.1 hj)), mul_zero]
  have h2 : inner 𝕜 (A (newDir A ee k r)) (A (newDir A ee k r)) = inner 𝕜 (A (newDir A ee k r)) (A r) := by
    have h2' : inner 𝕜 (A (newDir A ee k r)) (A (newDir A ee k r)) = inner 𝕜 (A (newDir A ee k r))
        (A r - ((List.range k).map fun j => inner 𝕜 (A (ee j)) (A r) • A (ee j)).sum) := by rw [← hsum]
    rw [h2', inner_sub_right, inner_list_sum, List.map_map, sum_map_zero, sub_zero]
    intro j hj
    simp only [Function.comp, inner_smul_right]
    rw [inner_zero_symm _ _ (newDir_perp A ee k ho r j (List.mem_range.1 hj)), mul_zero]
  have h3 : ‖A (newDir A ee k r)‖ ≤ ‖A r‖ := by
    have h4 := norm_inner_le_norm (𝕜 := 𝕜) (A (newDir A ee k r)) (A r)
    rw [← h2, inner_self_eq_norm_sq_to_K, norm_pow, RCLike.norm_ofReal, abs_norm] at h4
    have h5 := norm_pos_iff.2 hz
    nlinarith
  have h0 := norm_pos_iff.2 hz
  have h6 : ‖inner 𝕜 (A (unitDir A ee k r)) r‖ = ‖A (newDir A ee k r)‖⁻¹ * ‖inner 𝕜 r (A r)‖ := by
    rw [unitDir, map_smul, inner_smul_left, norm_mul, RCLike.norm_conj, RCLike.norm_ofReal,
      abs_of_nonneg (inv_nonneg.2 (norm_nonneg _)), ← h1, norm_inner_symm]
  rw [h6, mul_comm, ← mul_assoc]
  have h7 : 1 ≤ ‖A r‖ * ‖A (newDir A ee k r)‖⁻¹ := by
    rw [← div_eq_mul_inv, le_div_iff₀ h0, one_mul]; exact h3
  calc ‖inner 𝕜 r (A r)‖ = 1 * ‖inner 𝕜 r (A r)‖ := (one_mul _).symm
    _ ≤ _ := mul_le_mul_of_nonneg_right h7 (norm_nonneg _)

/-- no breakdown where the residual has a component along its image -/
theorem no_breakdown (A : V →ₗ[𝕜] V) (ee : Nat → V) (k : Nat) (r : V)
    (hp : ∀ j < k, inner 𝕜 (A (ee j)) r = 0) (hr : inner 𝕜 r (A r) ≠ 0) : A (newDir A ee k r) ≠ 0 := by
  intro hz
  apply hr
  have hsum : A (newDir A ee k r) = A r - ((List.range k).map fun j => inner 𝕜 (A (ee j)) (A r) • A (ee j)).sum := by
    rw [newDir, map_sub, map_list_sum', List.map_map]
    simp only [Function.comp_def, map_smul]
  have h1 : inner 𝕜 r (A (newDir A ee k r)) = inner 𝕜 r (A r) := by
    rw [hsum, inner_sub_right, inner_list_sum, List.map_map, sum_map_zero, sub_zero]
    intro j hj
    simp only [Function.comp, inner_smul_right]
    rw [inner_zero_symm _ _ (hp j (List.mem_range.1 hj)), mul_zero]
  rw [← h1, hz, inner_zero_right]

/-! ## Strict decrease and rate -/

/-- the residual vectors after the start, as long as no breakdown: what one iteration does to the norm -/
theorem good_rate (c : ℝ) (hc : 0 ≤ c) (hA : ∀ v : V, c * (‖v‖ * ‖A v‖) ≤ ‖inner 𝕜 v (A v)‖)
    (h : Good A p b st x ee) (hz : A (newDir A ee st.k (b - A x)) ≠ 0) :
    ‖b - A (nextX A ee st.k b x)‖ ^ 2 ≤ (1 - c ^ 2) * ‖b - A x‖ ^ 2 := by
  rw [step_norm A ee st.k b x hz]
  have h1 := step_gain A ee st.k (b - A x) h.orth h.perp hz
  have h2 := hA (b - A x)
  have h3 : A (b - A x) ≠ 0 := by
    intro h0
    have h4 : A (newDir A ee st.k (b - A x)) = 0 := by
      rw [newDir, map_sub, h0, map_list_sum', List.map_map, sum_map_zero, sub_zero]
      intro j _
      simp [Function.comp]
    exact hz h4
  have h5 := norm_pos_iff.2 h3
  have h6 : c * ‖b - A x‖ ≤ ‖inner 𝕜 (A (unitDir A ee st.k (b - A x))) (b - A x)‖ := by
    have : (c * ‖b - A x‖) * ‖A (b - A x)‖
        ≤ ‖inner 𝕜 (A (unitDir A ee st.k (b - A x))) (b - A x)‖ * ‖A (b - A x)‖ := by
      calc _ = c * (‖b - A x‖ * ‖A (b - A x)‖) := by ring
        _ ≤ _ := h2.trans h1
    exact le_of_mul_le_mul_right this h5
  have h7 : (c * ‖b - A x‖) ^ 2 ≤ ‖inner 𝕜 (A (unitDir A ee st.k (b - A x))) (b - A x)‖ ^ 2 :=
    pow_le_pow_left₀ (mul_nonneg hc (norm_nonneg _)) h6 2
  nlinarith

/-- the numerical range of the operator does not contain zero -/
def Definite (A : V →ₗ[𝕜] V) : Prop := ∀ v, v ≠ 0 → inner 𝕜 v (A v) ≠ 0

/-! ## Krylov spaces -/

/-- the Krylov space: combinations of `r, A r, ..., A^(n-1) r` -/
def krylov (A : V →ₗ[𝕜] V) (r : V) (n : Nat) : Submodule 𝕜 V :=
  Submodule.span 𝕜 (Set.range fun j : Fin n => (A ^ (j : Nat)) r)

/-- the span of the first directions -/
def dirs (𝕜 : Type) [RCLike 𝕜] {V : Type} [NormedAddCommGroup V] [InnerProductSpace 𝕜 V] (ee : Nat → V) (n : Nat) :
    Submodule 𝕜 V :=
  Submodule.span 𝕜 (Set.range fun j : Fin n => ee j)

theorem krylov_mono (A : V →ₗ[𝕜] V) (r : V) {m n : Nat} (h : m ≤ n) : krylov A r m ≤ krylov A r n := by
  refine Submodule.span_mono ?_
  rintro _ ⟨j, rfl⟩
  exact ⟨⟨j, by omega⟩, rfl⟩

theorem krylov_first (A : V →ₗ[𝕜] V) (r : V) (n : Nat) : r ∈ krylov A r (n + 1) :=
  Submodule.subset_span ⟨⟨0, by omega⟩, by simp⟩

theorem krylov_map (A : V →ₗ[𝕜] V) (r : V) (n : Nat) (v : V) (h : v ∈ krylov A r n) : A v ∈ krylov A r (n + 1) := by
  induction h using Submodule.span_induction with
  | mem v hv =>
    obtain ⟨j, rfl⟩ := hv
    exact Submodule.subset_span ⟨⟨j + 1, by omega⟩, by simp [pow_succ']⟩
  | zero => rw [map_zero]; exact Submodule.zero_mem _
  | add v w _ _ hv hw => rw [map_add]; exact Submodule.add_mem _ hv hw
  | smul c v _ hv => rw [map_smul]; exact Submodule.smul_mem _ c hv

theorem krylov_le (A : V →ₗ[𝕜] V) (r : V) (n : Nat) : Module.finrank 𝕜 (krylov A r n) ≤ n := by
  have := finrank_range_le_card (R := 𝕜) (fun j : Fin n => (A ^ (j : Nat)) r)
  exact this.trans_eq (Fintype.card_fin n)

theorem dirs_card (A : V →ₗ[𝕜] V) (ee : Nat → V) (n : Nat) (ho : ONImages A ee n) :
    Module.finrank 𝕜 (dirs 𝕜 ee n) = n := by
  have hon : Orthonormal 𝕜 (fun j : Fin n => A (ee j)) := by
    rw [orthonormal_iff_ite]
    intro i j
    rw [ho i i.2 j j.2]
    simp [Fin.ext_iff]
  have hli : LinearIndependent 𝕜 (fun j : Fin n => ee j) :=
    LinearIndependent.of_comp A hon.linearIndependent
  have := finrank_span_eq_card hli
  exact this.trans (Fintype.card_fin n)

/-- the directions span the Krylov space if they lie in it -/
theorem dirs_eq (A : V →ₗ[𝕜] V) (r : V) (ee : Nat → V) (n : Nat) (ho : ONImages A ee n)
    (h : ∀ j < n, ee j ∈ krylov A r n) : dirs 𝕜 ee n = krylov A r n := by
  have : FiniteDimensional 𝕜 (krylov A r n) := FiniteDimensional.span_of_finite 𝕜 (Set.finite_range _)
  refine Submodule.eq_of_le_of_finrank_le ?_ ?_
  · refine Submodule.span_le.2 ?_
    rintro _ ⟨j, rfl⟩
    exact h j j.2
  · rw [dirs_card A ee n ho]; exact krylov_le A r n

theorem dirs_perp (A : V →ₗ[𝕜] V) (ee : Nat → V) (n : Nat) (r : V) (hp : ∀ j < n, inner 𝕜 (A (ee j)) r = 0)
    (z : V) (hz : z ∈ dirs 𝕜 ee n) : inner 𝕜 (A z) r = 0 := by
  induction hz using Submodule.span_induction with
  | mem v hv => obtain ⟨j, rfl⟩ := hv; exact hp j j.2
  | zero => rw [map_zero, inner_zero_left]
  | add v w _ _ hv hw => rw [map_add, inner_add_left, hv, hw, add_zero]
  | smul c v _ hv => rw [map_smul, inner_smul_left, hv, mul_zero]

theorem dirs_mem (ee : Nat → V) (n j : Nat) (h : j < n) : ee j ∈ dirs 𝕜 ee n :=
  Submodule.subset_span ⟨⟨j, h⟩, rfl⟩

theorem sum_mem_list (S : Submodule 𝕜 V) (l : List V) (h : ∀ v ∈ l, v ∈ S) : l.sum ∈ S := by
  induction l with
  | nil => simp
  | cons v l ih =>
    rw [List.sum_cons]
    exact S.add_mem (h v (by simp)) (ih fun w hw => h w (List.mem_cons_of_mem _ hw))

/-- what holds up to the first restart -/
structure First (A : V →ₗ[𝕜] V) (b x0 : V) (it : Nat) (st : St (Option V) (Option ℝ)) (x : V) (ee : Nat → V) :
    Prop where
  k : st.k = it
  sub : x - x0 ∈ krylov A (b - A x0) it
  span : dirs 𝕜 ee it = krylov A (b - A x0) it

theorem first_step (x0 : V) (it : Nat) (h : Good A p b st x ee) (hf : First A b x0 it st x ee) (hit : it < p.restart)
    (hk : st'.k = (if st.k = p.restart then 0 else st.k) + 1)
    (hg : Good A p b st' (nextX A ee st.k b x)
        (Function.update ee (if st.k = p.restart then 0 else st.k) (unitDir A ee st.k (b - A x)))) :
    First A b x0 (it + 1) st' (nextX A ee st.k b x)
        (Function.update ee (if st.k = p.restart then 0 else st.k) (unitDir A ee st.k (b - A x))) := by
  have hne : st.k ≠ p.restart := by rw [hf.k]; omega
  rw [if_neg hne] at hk hg ⊢
  have hr : b - A x ∈ krylov A (b - A x0) (it + 1) := by
    have : b - A x = (b - A x0) - A (x - x0) := by rw [map_sub]; abel
    rw [this]
    exact Submodule.sub_mem _ (krylov_first A _ it) (krylov_map A _ it _ hf.sub)
  have hu : unitDir A ee st.k (b - A x) ∈ krylov A (b - A x0) (it + 1) := by
    refine Submodule.smul_mem _ _ (Submodule.sub_mem _ hr (sum_mem_list _ _ ?_))
    intro v hv
    obtain ⟨j, hj, rfl⟩ := List.mem_map.1 hv
    refine Submodule.smul_mem _ _ (krylov_mono A _ (Nat.le_succ it) ?_)
    rw [← hf.span]
    exact dirs_mem ee it j (by rw [← hf.k]; exact List.mem_range.1 hj)
  refine ⟨by rw [hk, hf.k], ?_, ?_⟩
  · have : nextX A ee st.k b x - x0 = (x - x0)
        + inner 𝕜 (A (unitDir A ee st.k (b - A x))) (b - A x) • unitDir A ee st.k (b - A x) := by
      rw [nextX]; abel
    rw [this]
    exact Submodule.add_mem _ (krylov_mono A _ (Nat.le_succ it) hf.sub) (Submodule.smul_mem _ _ hu)
  · have h2 : st'.k = it + 1 := by rw [hk, hf.k]
    refine dirs_eq A _ _ (it + 1) (h2 ▸ hg.orth) ?_
    intro j hj
    by_cases hjk : j = st.k
    · rw [hjk, Function.update_self]; exact hu
    · rw [Function.update_of_ne hjk]
      refine krylov_mono A _ (Nat.le_succ it) ?_
      rw [← hf.span]
      have := hf.k
      exact dirs_mem ee it j (by omega)

theorem first_minimal (x0 : V) (it : Nat) (h : Good A p b st x ee) (hf : First A b x0 it st x ee) (y : V)
    (hy : y - x0 ∈ krylov A (b - A x0) it) : ‖b - A x‖ ≤ ‖b - A y‖ := by
  have hz : x - y ∈ dirs 𝕜 ee it := by
    rw [hf.span]
    have : x - y = (x - x0) - (y - x0) := by abel
    rw [this]; exact Submodule.sub_mem _ hf.sub hy
  have hp := dirs_perp A ee it (b - A x) (fun j hj => h.perp j (by rw [hf.k]; exact hj)) _ hz
  have hsum : b - A y = (b - A x) + A (x - y) := by rw [map_sub]; abel
  have hsq : ‖b - A y‖ ^ 2 = ‖b - A x‖ ^ 2 + ‖A (x - y)‖ ^ 2 := by
    rw [hsum, @norm_add_sq 𝕜, inner_zero_symm _ _ hp, map_zero]; ring
  have : ‖b - A x‖ ^ 2 ≤ ‖b - A y‖ ^ 2 := by rw [hsq]; nlinarith [norm_nonneg (A (x - y))]
  exact le_of_sq_le_sq this (norm_nonneg _)

/-- **C80, minimal residuals**: up to the first restart, the `n`-th iterate lies in the initial guess plus the `n`-th
Krylov space, and no vector there has a smaller residual: `gmres` is GMRES.  (Entries after a breakdown are NaN, not
vectors.) -/
theorem C80_minimal (A : V →ₗ[𝕜] V) (p : Params (Option ℝ)) (hr : 0 < p.restart) (b : V) (x0 : Option V)
    (n : Nat) (hn : n ≤ p.restart) (r : V)
    (h : (gmres (ipOps A) p (some b) (x0.map some)).callbacks[n]? = some (some r)) :
    ∃ x, (gmres (ipOps A) p (some b) (x0.map some)).iterates[n]? = some (some x) ∧ r = b - A x ∧
      x - x0.getD 0 ∈ krylov A (b - A (x0.getD 0)) n ∧
      ∀ y, y - x0.getD 0 ∈ krylov A (b - A (x0.getD 0)) n → ‖b - A x‖ ≤ ‖b - A y‖ := by
  revert n r
  let P : List (Option V) → List (Option V) → Prop := fun cb its =>
    ∀ n, n ≤ p.restart → ∀ r, cb[n]? = some (some r) →
    ∃ x, its[n]? = some (some x) ∧ r = b - A x ∧
      x - x0.getD 0 ∈ krylov A (b - A (x0.getD 0)) n ∧
      ∀ y, y - x0.getD 0 ∈ krylov A (b - A (x0.getD 0)) n → ‖b - A x‖ ≤ ‖b - A y‖
  let I : Nat → St (Option V) (Option ℝ) → Prop := fun it st =>
    st.callbacks.length = it ∧ st.iterates.length = it ∧ P st.callbacks st.iterates ∧
    (Dead st ∨ ∃ x ee, Good A p b st x ee ∧ (it ≤ p.restart → First A b (x0.getD 0) it st x ee))
  have htop : ∀ it st, I it st →
      P (top (ipOps A) p (some b) st).2.callbacks (top (ipOps A) p (some b) st).2.iterates := by
    intro it st ⟨h1, h2, h3, h4⟩ n hn r hcb
    have hcb' : (top (ipOps A) p (some b) st).2.callbacks
      = st.callbacks ++ [(top (ipOps A) p (some b) st).2.r] := rfl
    have hit' : (top (ipOps A) p (some b) st).2.iterates = st.iterates ++ [st.x] := rfl
    rw [hcb'] at hcb
    rw [hit']
    by_cases hlt : n < it
    · rw [List.getElem?_append_left (by omega)] at hcb
      rw [List.getElem?_append_left (by omega)]
      exact h3 n hn r hcb
    · have hle : n < it + 1 := by
        have := (List.getElem?_eq_some_iff.1 hcb).1
        simp at this; omega
      have hne : n = it := by omega
      subst hne
      rw [List.getElem?_append_right (by omega), h1, Nat.sub_self] at hcb
      rw [List.getElem?_append_right (by omega), h2, Nat.sub_self]
      simp only [List.getElem?_cons_zero, Option.some.injEq] at hcb ⊢
      rcases h4 with hd | ⟨x, ee, hg, hf⟩
      · rw [show (top (ipOps A) p (some b) st).2.r = none from dead_top A _ _ _ p b st hd] at hcb
        cases hcb
      · rw [(good_top hg).1] at hcb
        cases hcb
        exact ⟨x, hg.hx, rfl, (hf hn).sub, fun y hy => first_minimal _ _ hg (hf hn) y hy⟩
  refine loop_exit (ipOps A) p (some b) I ?_ (fun out => P out.callbacks out.iterates)
    ?_ ?_ ?_ ?_ p.maxiter 0 _ (by omega) ?_
  · intro it st st' h _ _ ha
    obtain ⟨-, hcb, hits, -, -, -, -⟩ := advance_norms ha
    have ht := htop it st h
    obtain ⟨h1, h2, h3, h4⟩ := h
    refine ⟨by rw [hcb]; simp [top, h1], by rw [hits]; simp [top, h2], by rw [hcb, hits]; exact ht, ?_⟩
    rcases h4 with hd | ⟨x, ee, hg, hf⟩
    · exact Or.inl (dead_step A _ _ _ p b it st st' hd ha)
    · rcases good_step hr it hg ha with ⟨-, hd⟩ | ⟨-, hk, hg'⟩
      · exact Or.inl hd
      · exact Or.inr ⟨_, _, hg', fun hle => first_step _ it hg (hf (by omega)) (by omega) hk hg'⟩
  · intro it st h _; exact h.2.2.1
  · intro it st h _ _; exact htop it st h
  · intro it st out h _ _ hc
    rcases checks_some hc with ⟨rfl, -⟩ | ⟨rfl, -⟩ | ⟨rfl, -⟩ <;> exact htop it st h
  · intro it st x h _ _ _; exact htop it st h
  · refine ⟨rfl, rfl, ?_, Or.inr ⟨_, _, good_init p A b x0, fun _ => ⟨rfl, ?_, ?_⟩⟩⟩
    · intro n _ r h; simp [initial] at h
    · rw [sub_self]; exact Submodule.zero_mem _
    · simp [dirs, krylov]

/-! ## Definite operators -/

theorem converged_false (h : Good A p b st x ee)
    (hc : converged (ipOps A) p (some b) ((ipOps A).norm (top (ipOps A) p (some b) st).2.r) = false) : b - A x ≠ 0 := by
  intro h0
  rw [(good_top h).1, h0] at hc
  simp [converged, ipOps, nanOps, codeNorm_eq] at hc

theorem good_slots (h : Good A p b st x ee) : Slots p st :=
  ⟨h.lenA, h.lenE, h.k, fun j hj => ⟨⟨_, (h.slots j hj).1⟩, ⟨_, (h.slots j hj).2⟩⟩⟩

theorem definite_step (hA : inner 𝕜 (b - A x) (A (b - A x)) ≠ 0) (hr : 0 < p.restart) (it : Nat) (h : Good A p b st x ee)
    (hc : converged (ipOps A) p (some b) ((ipOps A).norm (top (ipOps A) p (some b) st).2.r) = false)
    (ha : advance (ipOps A) (top (ipOps A) p (some b) st).1 it (top (ipOps A) p (some b) st).2 = .ok st') :
    A (newDir A ee st.k (b - A x)) ≠ 0 ∧ st'.k = (if st.k = p.restart then 0 else st.k) + 1 ∧
      Good A p b st' (nextX A ee st.k b x)
        (Function.update ee (if st.k = p.restart then 0 else st.k) (unitDir A ee st.k (b - A x))) := by
  rcases good_step hr it h ha with ⟨hz, -⟩ | h'
  · exact absurd hz (no_breakdown A ee st.k _ h.perp hA)
  · exact h'

theorem strict_step (hA : inner 𝕜 (b - A x) (A (b - A x)) ≠ 0) (h : Good A p b st x ee) :
    ‖b - A (nextX A ee st.k b x)‖ < ‖b - A x‖ := by
  have hz := no_breakdown A ee st.k _ h.perp hA
  have h1 := step_norm A ee st.k b x hz
  have h2 := step_gain A ee st.k _ h.orth h.perp hz
  have h3 : 0 < ‖inner 𝕜 (b - A x) (A (b - A x))‖ := norm_pos_iff.2 hA
  have h4 : 0 < ‖inner 𝕜 (A (unitDir A ee st.k (b - A x))) (b - A x)‖ := by
    by_contra h0
    have h0 : ‖inner 𝕜 (A (unitDir A ee st.k (b - A x))) (b - A x)‖ = 0 :=
      le_antisymm (not_lt.1 h0) (norm_nonneg _)
    rw [h0, zero_mul] at h2
    exact absurd h3 (not_lt.2 h2)
  have h5 : ‖b - A (nextX A ee st.k b x)‖ ^ 2 < ‖b - A x‖ ^ 2 := by rw [h1]; nlinarith
  exact lt_of_pow_lt_pow_left₀ 2 (norm_nonneg _) h5

/-- **C80, strict decrease**: for a definite operator there is no breakdown and every iteration reduces the residual, also
across restarts. -/
theorem C80_strict (A : V →ₗ[𝕜] V) (hA : Definite A) (p : Params (Option ℝ)) (hr : 0 < p.restart) (b : V)
    (x0 : Option V) :
    ∃ rs : List V, (gmres (ipOps A) p (some b) (x0.map some)).callbacks = rs.map some ∧
      rs.Pairwise (fun r r' => ‖r'‖ < ‖r‖) := by
  let I : Nat → St (Option V) (Option ℝ) → Prop := fun _ st =>
    ∃ (x : V) (ee : Nat → V) (rs : List V), Good A p b st x ee ∧ st.callbacks = rs.map some ∧ rs.Pairwise (fun r r' : V => ‖r'‖ < ‖r‖) ∧
      ∀ r ∈ rs, ‖b - A x‖ < ‖r‖
  have htop : ∀ it st, I it st → ∃ rs : List V, (top (ipOps A) p (some b) st).2.callbacks = rs.map some ∧
      rs.Pairwise (fun r r' => ‖r'‖ < ‖r‖) := by
    rintro it st ⟨x, ee, rs, hg, hcb, hp, hl⟩
    refine ⟨rs ++ [b - A x], ?_, ?_⟩
    · have : (top (ipOps A) p (some b) st).2.callbacks
        = st.callbacks ++ [(top (ipOps A) p (some b) st).2.r] := rfl
      rw [this, hcb, (good_top hg).1, List.map_append]; rfl
    · refine List.pairwise_append.2 ⟨hp, List.pairwise_singleton _ _, ?_⟩
      intro r hr r' hr'
      rw [List.mem_singleton.1 hr']; exact hl r hr
  refine loop_exit (ipOps A) p (some b) I ?_ (fun out => ∃ rs : List V, out.callbacks = rs.map some ∧
      rs.Pairwise (fun r r' => ‖r'‖ < ‖r‖)) ?_ ?_ ?_ ?_ p.maxiter 0 _ (by omega)
      ⟨_, _, [], good_init p A b x0, rfl, List.Pairwise.nil, by intro r h; cases h⟩
  · intro it st st' h hc _ ha
    obtain ⟨-, hcb, -⟩ := advance_norms ha
    obtain ⟨x, ee, rs, hg, hcb', hp, hl⟩ := h
    obtain ⟨hz, -, hg'⟩ := definite_step (hA _ (converged_false hg hc)) hr it hg hc ha
    have hs := strict_step (hA _ (converged_false hg hc)) hg
    refine ⟨_, _, rs ++ [b - A x], hg', ?_, ?_, ?_⟩
    · have : (top (ipOps A) p (some b) st).2.callbacks
        = st.callbacks ++ [(top (ipOps A) p (some b) st).2.r] := rfl
      rw [hcb, this, hcb', (good_top hg).1, List.map_append]; rfl
    · refine List.pairwise_append.2 ⟨hp, List.pairwise_singleton _ _, ?_⟩
      intro r hr r' hr'
      rw [List.mem_singleton.1 hr']; exact hl r hr
    · intro r hr'
      rcases List.mem_append.1 hr' with hr' | hr'
      · exact hs.trans (hl r hr')
      · rw [List.mem_singleton.1 hr']; exact hs
  · rintro it st ⟨x, ee, rs, hg, hcb, hp, hl⟩ _
    exact ⟨rs, hcb, hp⟩
  · intro it st h _ _; exact htop it st h
  · intro it st out h _ _ hc
    rcases checks_some hc with ⟨rfl, -⟩ | ⟨rfl, -⟩ | ⟨rfl, -⟩ <;> exact htop it st h
  · intro it st x h _ _ _; exact htop it st h

/-- the state of a run that goes well, together with the residuals so far -/
structure Hist (A : V →ₗ[𝕜] V) (p : Params (Option ℝ)) (b : V) (ρ : ℝ) (it : Nat) (st : St (Option V) (Option ℝ))
    (x : V) (ee : Nat → V) (rs : List V) : Prop where
  good : Good A p b st x ee
  cb : st.callbacks = rs.map some
  norms : st.norms = rs.map fun r => some ‖r‖
  len : rs.length = it
  last : st.last = rs.getLast?.map fun r => some ‖r‖
  rate : ∀ (i : Nat) r, rs[i]? = some r → ‖b - A x‖ ^ 2 ≤ ρ ^ (it - i) * ‖r‖ ^ 2
  dec : ∀ r ∈ rs, ‖b - A x‖ ≤ ‖r‖

theorem hist_init (p : Params (Option ℝ)) (A : V →ₗ[𝕜] V) (b : V) (x0 : Option V) (ρ : ℝ) :
    Hist A p b ρ 0 (initial (ipOps A) p (some b) (x0.map some)) (x0.getD 0) (fun _ => 0) [] :=
  ⟨good_init p A b x0, rfl, rfl, rfl, rfl, by intro i r h; simp at h, by intro r h; cases h⟩

theorem hist_step (hA : inner 𝕜 (b - A x) (A (b - A x)) ≠ 0) (hr : 0 < p.restart) (ρ : ℝ) (hρ : 0 ≤ ρ)
    (hrate : ∀ (st : St (Option V) (Option ℝ)) x ee, Good A p b st x ee → A (newDir A ee st.k (b - A x)) ≠ 0 →
      ‖b - A (nextX A ee st.k b x)‖ ^ 2 ≤ ρ * ‖b - A x‖ ^ 2)
    (it : Nat) (rs : List V) (h : Hist A p b ρ it st x ee rs)
    (hc : converged (ipOps A) p (some b) ((ipOps A).norm (top (ipOps A) p (some b) st).2.r) = false)
    (ha : advance (ipOps A) (top (ipOps A) p (some b) st).1 it (top (ipOps A) p (some b) st).2 = .ok st') :
    Hist A p b ρ (it + 1) st' (nextX A ee st.k b x)
        (Function.update ee (if st.k = p.restart then 0 else st.k) (unitDir A ee st.k (b - A x))) (rs ++ [b - A x]) := by
  obtain ⟨hno, hcb, -, -, -, -, hla⟩ := advance_norms ha
  obtain ⟨hz, -, hg'⟩ := definite_step hA hr it h.good hc ha
  have hs := strict_step hA h.good
  have htr := (good_top h.good).1
  have hnr : (ipOps A).norm (some (b - A x)) = some ‖b - A x‖ := by
    simp [ipOps, nanOps, codeNorm_eq]
  refine ⟨hg', ?_, ?_, by simp [h.len], ?_, ?_, ?_⟩
  · have : (top (ipOps A) p (some b) st).2.callbacks
      = st.callbacks ++ [(top (ipOps A) p (some b) st).2.r] := rfl
    rw [hcb, this, h.cb, htr, List.map_append]; rfl
  · rw [hno, top_norms, htr, hnr, List.map_append]
    rw [h.norms]; rfl
  · rw [hla, htr, hnr]; simp
  · intro i r hi
    have hone := hrate st x ee h.good hz
    by_cases hlt : i < rs.length
    · rw [List.getElem?_append_left hlt] at hi
      have h1 := h.rate i r hi
      have hlen := h.len
      have h2 : it + 1 - i = (it - i) + 1 := by omega
      calc _ ≤ ρ * ‖b - A x‖ ^ 2 := hone
        _ ≤ ρ * (ρ ^ (it - i) * ‖r‖ ^ 2) := mul_le_mul_of_nonneg_left h1 hρ
        _ = _ := by rw [h2, pow_succ]; ring
    · have hi' := hi
      rw [List.getElem?_append_right (by omega)] at hi
      have hlt' := (List.getElem?_eq_some_iff.1 hi').1
      have hlen := h.len
      simp only [List.length_append, List.length_singleton] at hlt'
      have hieq : i = it := by omega
      rw [hieq, hlen, Nat.sub_self, List.getElem?_cons_zero, Option.some.injEq] at hi
      rw [hieq, ← hi, Nat.add_sub_cancel_left, pow_one]; exact hone
  · intro r hr'
    rcases List.mem_append.1 hr' with hr' | hr'
    · exact hs.le.trans (h.dec r hr')
    · rw [List.mem_singleton.1 hr']; exact hs.le

omit [RCLike 𝕜] [NormedAddCommGroup V] [InnerProductSpace 𝕜 V] in
theorem stall_nonneg (o : Ops (Option V) (Option 𝕜) (Option ℝ)) (hs : 0 ≤ p.stall) (ns : List (Option ℝ)) (n : Option ℝ) :
    stallTest o p ns n ≠ none := by
  simp only [stallTest, fromEnd]
  split
  · rename_i hc
    rw [if_pos (by omega), if_pos (by omega), List.getElem?_eq_getElem (by omega)]
    simp
  · simp

/-- the checks only fail for stalling -/
theorem hist_checks (ρ : ℝ) (it : Nat) (rs : List V) (h : Hist A p b ρ it st x ee rs) (hs : 0 ≤ p.stall)
    (out : Outcome (Option V) (Option ℝ)) (hk : checks (ipOps A) p it (top (ipOps A) p (some b) st).2 = some out) :
    p.stall ≠ 0 ∧ p.stall < it + 1 ∧
      ∃ old, fromEnd (st.norms ++ [some ‖b - A x‖]) p.stall = some old ∧
        (ipOps A).lt ((ipOps A).div old p.noProgress) (some ‖b - A x‖) = true := by
  have htr := (good_top h.good).1
  have hnr : (ipOps A).norm (some (b - A x)) = some ‖b - A x‖ := by
    simp [ipOps, nanOps, codeNorm_eq]
  rcases checks_some hk with ⟨-, -, last, hla, hlt⟩ | ⟨-, hst⟩ | ⟨-, hst⟩
  · exfalso
    have hla' : st.last = some last := hla
    rw [htr, hnr] at hlt
    rw [h.last] at hla'
    cases hl : rs.getLast? with
    | none => rw [hl] at hla'; cases hla'
    | some r =>
      rw [hl] at hla'
      cases hla'
      have hd := h.dec r (List.mem_of_getLast? hl)
      simp only [ipOps, nanOps, map₂_some, decide_eq_true_eq] at hlt
      have := norm_nonneg (b - A x)
      linarith
  · rw [top_norms, htr, hnr] at hst
    change stallTest (ipOps A) p (st.norms ++ [some ‖b - A x‖]) _ = _ at hst
    have hlen : (st.norms ++ [some ‖b - A x‖]).length = it + 1 := by rw [h.norms]; simp [h.len]
    simp only [stallTest, hlen] at hst
    split at hst
    · rename_i hc
      refine ⟨hc.1, by have := hc.2; push_cast at this; exact this, ?_⟩
      split at hst
      · cases hst
      · rename_i old hold
        exact ⟨old, hold, by simpa using hst⟩
    · cases hst
  · exact absurd hst (stall_nonneg _ hs _ _)

theorem rate_of_coercive (m M : ℝ) (hm : 0 < m) (hmM : m ≤ M) (h1 : ∀ v : V, m * ‖v‖ ^ 2 ≤ ‖inner 𝕜 v (A v)‖)
    (h2 : ∀ v : V, ‖A v‖ ≤ M * ‖v‖) :
    Definite A ∧ 0 ≤ 1 - (m / M) ^ 2 ∧ ∀ (st : St (Option V) (Option ℝ)) x ee, Good A p b st x ee →
      A (newDir A ee st.k (b - A x)) ≠ 0 →
      ‖b - A (nextX A ee st.k b x)‖ ^ 2 ≤ (1 - (m / M) ^ 2) * ‖b - A x‖ ^ 2 := by
  have hM : 0 < M := hm.trans_le hmM
  have hc : 0 ≤ m / M := div_nonneg hm.le hM.le
  refine ⟨?_, ?_, ?_⟩
  · intro v hv h0
    have h3 := h1 v
    rw [h0, norm_zero] at h3
    have h4 := norm_pos_iff.2 hv
    have : 0 < m * ‖v‖ ^ 2 := by positivity
    linarith
  · have : m / M ≤ 1 := (div_le_one hM).2 hmM
    nlinarith
  · intro st x ee hg hz
    refine good_rate (m / M) hc ?_ hg hz
    intro v
    refine le_trans ?_ (h1 v)
    have h3 := h2 v
    calc m / M * (‖v‖ * ‖A v‖) ≤ m / M * (‖v‖ * (M * ‖v‖)) := by gcongr
      _ = m * ‖v‖ ^ 2 := by field_simp

/-- **C80, rate**: if the operator is bounded by `M` and coercive with constant `m`, each iteration reduces the squared
residual norm at least by the factor `1 - (m/M)²`, whatever the restart length. -/
theorem C80_rate (A : V →ₗ[𝕜] V) (m M : ℝ) (hm : 0 < m) (hmM : m ≤ M)
    (h1 : ∀ v : V, m * ‖v‖ ^ 2 ≤ ‖inner 𝕜 v (A v)‖) (h2 : ∀ v : V, ‖A v‖ ≤ M * ‖v‖)
    (p : Params (Option ℝ)) (hr : 0 < p.restart) (b : V) (x0 : Option V) :
    ∃ rs : List V, (gmres (ipOps A) p (some b) (x0.map some)).callbacks = rs.map some ∧
      ∀ (i j : Nat) ri rj, i ≤ j → rs[i]? = some ri → rs[j]? = some rj →
        ‖rj‖ ^ 2 ≤ (1 - (m / M) ^ 2) ^ (j - i) * ‖ri‖ ^ 2 := by
  obtain ⟨hA, hρ, hrate⟩ := rate_of_coercive (A := A) (p := p) (b := b) m M hm hmM h1 h2
  generalize 1 - (m / M) ^ 2 = ρ at *
  let R : List V → Prop := fun rs => ∀ (i j : Nat) ri rj, i ≤ j → rs[i]? = some ri → rs[j]? = some rj →
        ‖rj‖ ^ 2 ≤ ρ ^ (j - i) * ‖ri‖ ^ 2
  have happ : ∀ it (st : St (Option V) (Option ℝ)) x ee rs, Hist A p b ρ it st x ee rs → R rs → R (rs ++ [b - A x]) := by
    intro it st x ee rs h hR i j ri rj hij hi hj
    have hlen := h.len
    have hj' := (List.getElem?_eq_some_iff.1 hj).1
    simp only [List.length_append, List.length_singleton] at hj'
    by_cases hjt : j < rs.length
    · rw [List.getElem?_append_left (by omega)] at hi hj
      exact hR i j ri rj hij hi hj
    · have hje : j = it := by omega
      rw [List.getElem?_append_right (by omega), hje, hlen, Nat.sub_self, List.getElem?_cons_zero,
        Option.some.injEq] at hj
      rw [← hj, hje]
      by_cases hit : i < rs.length
      · rw [List.getElem?_append_left hit] at hi
        exact h.rate i ri hi
      · have hie : i = it := by omega
        rw [List.getElem?_append_right (by omega), hie, hlen, Nat.sub_self, List.getElem?_cons_zero,
          Option.some.injEq] at hi
        rw [← hi, hie, Nat.sub_self, pow_zero, one_mul]
  have htop : ∀ it (st : St (Option V) (Option ℝ)) x ee rs, Hist A p b ρ it st x ee rs →
      (top (ipOps A) p (some b) st).2.callbacks = (rs ++ [b - A x]).map some := by
    intro it st x ee rs h
    have : (top (ipOps A) p (some b) st).2.callbacks
      = st.callbacks ++ [(top (ipOps A) p (some b) st).2.r] := rfl
    rw [this, h.cb, (good_top h.good).1, List.map_append]; rfl
  refine loop_exit (ipOps A) p (some b) (fun it st => ∃ x ee rs, Hist A p b ρ it st x ee rs ∧ R rs) ?_
    (fun out => ∃ rs : List V, out.callbacks = rs.map some ∧ R rs) ?_ ?_ ?_ ?_ p.maxiter 0 _ (by omega)
      ⟨_, _, [], hist_init p A b x0 ρ, by intro i j ri rj _ h; simp at h⟩
  · rintro it st st' ⟨x, ee, rs, h, hR⟩ hc _ ha
    exact ⟨_, _, _, hist_step (hA _ (converged_false h.good hc)) hr ρ hρ hrate it rs h hc ha, happ _ _ _ _ _ h hR⟩
  · rintro it st ⟨x, ee, rs, h, hR⟩ _
    exact ⟨rs, h.cb, hR⟩
  · rintro it st ⟨x, ee, rs, h, hR⟩ _ _
    exact ⟨_, htop _ _ _ _ _ h, happ _ _ _ _ _ h hR⟩
  · rintro it st out ⟨x, ee, rs, h, hR⟩ _ _ hc
    rcases checks_some hc with ⟨rfl, -⟩ | ⟨rfl, -⟩ | ⟨rfl, -⟩ <;>
      exact ⟨_, htop _ _ _ _ _ h, happ _ _ _ _ _ h hR⟩
  · rintro it st y ⟨x, ee, rs, h, hR⟩ _ _ _
    exact ⟨_, htop _ _ _ _ _ h, happ _ _ _ _ _ h hR⟩

/-- **C80, convergence**: under the same hypotheses, as soon as the rate guarantees the tolerance after `n` iterations, and
`maxiter` allows for them, `gmres` reports success after at most `n` iterations - provided the stall test is off, or asks for
less progress than the rate guarantees. -/
theorem C80_converges (A : V →ₗ[𝕜] V) (m M : ℝ) (hm : 0 < m) (hmM : m ≤ M)
    (h1 : ∀ v : V, m * ‖v‖ ^ 2 ≤ ‖inner 𝕜 v (A v)‖) (h2 : ∀ v : V, ‖A v‖ ≤ M * ‖v‖)
    (p : Params (Option ℝ)) (hr : 0 < p.restart) (b : V) (x0 : Option V) (t : ℝ) (ht : p.tol = some t) (ht0 : 0 ≤ t)
    (n : Nat) (hn : n < p.maxiter)
    (hrate : (1 - (m / M) ^ 2) ^ n * ‖b - A (x0.getD 0)‖ ^ 2 < (t * ‖b‖) ^ 2)
    (hst : p.stall = 0 ∨ ∃ (s : Nat) (q : ℝ), p.stall = s + 1 ∧ p.noProgress = some q ∧ 0 < q ∧
      (1 - (m / M) ^ 2) ^ s * q ^ 2 ≤ 1) :
    ∃ r, (gmres (ipOps A) p (some b) (x0.map some)).ending = .returned r ∧ r.success = true ∧ r.iterationCount ≤ n := by
  obtain ⟨hA, hρ, hstep⟩ := rate_of_coercive (A := A) (p := p) (b := b) m M hm hmM h1 h2
  generalize 1 - (m / M) ^ 2 = ρ at *
  let I : Nat → St (Option V) (Option ℝ) → Prop := fun it st => it ≤ n ∧ ∃ x ee rs, Hist A p b ρ it st x ee rs ∧
    ‖b - A x‖ ^ 2 ≤ ρ ^ it * ‖b - A (x0.getD 0)‖ ^ 2
  have hs0 : 0 ≤ p.stall := by
    rcases hst with h | ⟨s, q, h, -⟩ <;> omega
  refine loop_exit (ipOps A) p (some b) I ?_
    (fun out => ∃ r, out.ending = .returned r ∧ r.success = true ∧ r.iterationCount ≤ n)
    ?_ ?_ ?_ ?_ p.maxiter 0 _ (by omega) ⟨Nat.zero_le _, _, _, [], hist_init p A b x0 ρ, by simp⟩
  · rintro it st st' ⟨hit, x, ee, rs, h, hb⟩ hc _ ha
    have hne : it ≠ n := by
      rintro rfl
      have h3 : ‖b - A x‖ < t * ‖b‖ :=
        lt_of_pow_lt_pow_left₀ 2 (mul_nonneg ht0 (norm_nonneg b)) (hb.trans_lt hrate)
      rw [(good_top h.good).1] at hc
      simp only [converged, ipOps, nanOps, Option.map_some, codeNorm_eq, ht, map₂_some, Bool.or_eq_false_iff,
        decide_eq_false_iff_not] at hc
      exact hc.1 h3
    refine ⟨by omega, _, _, _, hist_step (hA _ (converged_false h.good hc)) hr ρ hρ hstep it rs h hc ha, ?_⟩
    have hz := (definite_step (hA _ (converged_false h.good hc)) hr it h.good hc ha).1
    calc _ ≤ ρ * ‖b - A x‖ ^ 2 := hstep st x ee h.good hz
      _ ≤ ρ * (ρ ^ it * ‖b - A (x0.getD 0)‖ ^ 2) := mul_le_mul_of_nonneg_left hb hρ
      _ = _ := by rw [pow_succ]; ring
  · rintro it st ⟨hit, -⟩ h
    omega
  · rintro it st ⟨hit, -⟩ _ _
    exact ⟨_, rfl, rfl, hit⟩
  · rintro it st out ⟨hit, x, ee, rs, h, hb⟩ _ _ hc
    exfalso
    obtain ⟨k1, k2, old, k3, k4⟩ := hist_checks ρ it rs h hs0 out hc
    rcases hst with h0 | ⟨s, q, hs, hq, hq0, hsq⟩
    · exact k1 h0
    · have hlen : (st.norms ++ [some ‖b - A x‖]).length = it + 1 := by rw [h.norms]; simp [h.len]
      have hsn : p.stall.toNat = s + 1 := by omega
      simp only [fromEnd, hlen, hsn] at k3
      rw [if_pos (by omega), if_pos (by omega)] at k3
      rw [h.norms, ← List.map_singleton (f := fun r : V => some ‖r‖), ← List.map_append, List.getElem?_map] at k3
      cases hro : (rs ++ [b - A x])[it + 1 - (s + 1)]? with
      | none => rw [hro] at k3; cases k3
      | some r =>
        rw [hro] at k3
        cases k3
        simp only [ipOps, nanOps, hq, hq0.ne', if_false, decide_eq_true_eq] at k4
        have hr' : ‖b - A x‖ ^ 2 ≤ ρ ^ s * ‖r‖ ^ 2 := by
          have hlen := h.len
          by_cases hlt : it + 1 - (s + 1) < rs.length
          · rw [List.getElem?_append_left hlt] at hro
            have := h.rate _ r hro
            have he : it - (it + 1 - (s + 1)) = s := by omega
            rwa [he] at this
          · have hs' : s = 0 := by omega
            rw [List.getElem?_append_right (by omega)] at hro
            have he : it + 1 - (s + 1) - rs.length = 0 := by omega
            rw [he, List.getElem?_cons_zero, Option.some.injEq] at hro
            rw [hs', pow_zero, one_mul, hro]
        have h5 : (‖r‖ / q) ^ 2 < ‖b - A x‖ ^ 2 :=
          pow_lt_pow_left₀ k4 (div_nonneg (norm_nonneg _) hq0.le) two_ne_zero
        rw [div_pow, div_lt_iff₀ (by positivity)] at h5
        have h6 : ‖b - A x‖ ^ 2 * q ^ 2 ≤ ‖r‖ ^ 2 := by
          calc _ ≤ ρ ^ s * ‖r‖ ^ 2 * q ^ 2 := by gcongr
            _ = (ρ ^ s * q ^ 2) * ‖r‖ ^ 2 := by ring
            _ ≤ 1 * ‖r‖ ^ 2 := by gcongr
            _ = _ := one_mul _
        linarith
  · rintro it st y ⟨hit, x, ee, rs, h, hb⟩ _ _ hy
    obtain ⟨st'', h3, -⟩ := slots_advance (ipOps A) p (some b) hr it st (good_slots h.good)
    rw [hy] at h3; cases h3

/-- **C80, finite termination**: in exact arithmetic a definite system in `d` dimensions is solved in at most `d` iterations if
there is no restart before, `maxiter` allows for them and the stall window is off or not shorter than `d`.  Partial: for
operators that are invertible but not definite this is false (`C80_refuted`, `C80_breakdown`). -/
theorem C80_finite_partial [FiniteDimensional 𝕜 V] (A : V →ₗ[𝕜] V) (hA : Definite A) (p : Params (Option ℝ)) (hr : 0 < p.restart)
    (hd : Module.finrank 𝕜 V ≤ p.restart) (hm : Module.finrank 𝕜 V < p.maxiter)
    (hst : p.stall = 0 ∨ (Module.finrank 𝕜 V : Int) ≤ p.stall) (b : V) (x0 : Option V) :
    ∃ r, (gmres (ipOps A) p (some b) (x0.map some)).ending = .returned r ∧ r.success = true ∧
      r.iterationCount ≤ Module.finrank 𝕜 V := by
  have hs0 : 0 ≤ p.stall := by
    rcases hst with h | h <;> omega
  have hstep : ∀ (st : St (Option V) (Option ℝ)) x ee, Good A p b st x ee →
      A (newDir A ee st.k (b - A x)) ≠ 0 →
      ‖b - A (nextX A ee st.k b x)‖ ^ 2 ≤ 1 * ‖b - A x‖ ^ 2 := by
    intro st x ee _ hz
    rw [step_norm A ee st.k b x hz]
    nlinarith [sq_nonneg ‖inner 𝕜 (A (unitDir A ee st.k (b - A x))) (b - A x)‖]
  have hzero : ∀ (st : St (Option V) (Option ℝ)) x ee, Good A p b st x ee → st.k = Module.finrank 𝕜 V → b - A x = 0 := by
    intro st x ee hg hk
    by_contra hne
    have htop : dirs 𝕜 ee st.k = ⊤ := Submodule.eq_top_of_finrank_eq (by rw [dirs_card A ee st.k hg.orth, hk])
    have := dirs_perp A ee st.k (b - A x) hg.perp (b - A x) (by rw [htop]; exact Submodule.mem_top)
    exact hA _ hne (inner_zero_symm _ _ this)
  refine loop_exit (ipOps A) p (some b)
    (fun it st => it ≤ Module.finrank 𝕜 V ∧ st.k = it ∧ ∃ x ee rs, Hist A p b 1 it st x ee rs) ?_
    (fun out => ∃ r, out.ending = .returned r ∧ r.success = true ∧ r.iterationCount ≤ Module.finrank 𝕜 V)
    ?_ ?_ ?_ ?_ p.maxiter 0 _ (by omega) ⟨Nat.zero_le _, rfl, _, _, [], hist_init p A b x0 1⟩
  · rintro it st st' ⟨hit, hk, x, ee, rs, h⟩ hc _ ha
    have hne : it ≠ Module.finrank 𝕜 V := fun he => converged_false h.good hc (hzero st x ee h.good (hk.trans he))
    have hk' := (definite_step (hA _ (converged_false h.good hc)) hr it h.good hc ha).2.1
    rw [if_neg (by omega), hk] at hk'
    exact ⟨by omega, hk', _, _, _, hist_step (hA _ (converged_false h.good hc)) hr 1 zero_le_one hstep it rs h hc ha⟩
  · rintro it st ⟨hit, -⟩ h
    omega
  · rintro it st ⟨hit, -⟩ _ _
    exact ⟨_, rfl, rfl, hit⟩
  · rintro it st out ⟨hit, hk, x, ee, rs, h⟩ _ hc hck
    exfalso
    have hne : it ≠ Module.finrank 𝕜 V := fun he => converged_false h.good hc (hzero st x ee h.good (hk.trans he))
    obtain ⟨k1, k2, -⟩ := hist_checks 1 it rs h hs0 out hck
    rcases hst with h0 | h0
    · exact k1 h0
    · omega
  · rintro it st y ⟨hit, hk, x, ee, rs, h⟩ _ _ hy
    obtain ⟨st'', h3, -⟩ := slots_advance (ipOps A) p (some b) hr it st (good_slots h.good)
    rw [hy] at h3; cases h3

/-- **C80, with the defaults**: `gmres(op, rhs)` solves every definite system with at most ten unknowns.  Partial: definite
operators only, see `C80_refuted`. -/
theorem C80_defaults_partial [FiniteDimensional 𝕜 V] (A : V →ₗ[𝕜] V) (hA : Definite A) (n : Nat)
    (hn : Module.finrank 𝕜 V = n) (h1 : 1 ≤ n) (h10 : n ≤ 10) (b : V) (x0 : Option V) :
    ∃ r, (gmres (ipOps A) (Vdot.fillDefaults n {}) (some b) (x0.map some)).ending = .returned r ∧ r.success = true ∧
      r.iterationCount ≤ n := by
  have := C80_finite_partial A hA (Vdot.fillDefaults n {}) (by simp [Vdot.fillDefaults]; omega)
    (by simp [Vdot.fillDefaults, hn]; omega) (by simp [Vdot.fillDefaults, hn]; omega)
    (Or.inr (by simp [Vdot.fillDefaults, hn]; omega)) b x0
  rwa [hn] at this

/-- **C80 fails for operators that are not definite**: if the initial residual is orthogonal to its image, the iteration breaks
down, and unless the initial guess already passes the convergence test, success is never reported. -/
theorem C80_breakdown (A : V →ₗ[𝕜] V) (p : Params (Option ℝ)) (hr : 0 < p.restart) (b : V) (x0 : Option V)
    (h0 : inner 𝕜 (b - A (x0.getD 0)) (A (b - A (x0.getD 0))) = 0)
    (hne : b - A (x0.getD 0) ≠ 0) (t : ℝ) (ht : p.tol = some t) (htb : t * ‖b‖ ≤ ‖b - A (x0.getD 0)‖)
    (r : Result (Option V) (Option ℝ))
    (h : (gmres (ipOps A) p (some b) (x0.map some)).ending = .returned r) : r.success = false := by
  revert r
  generalize hr0 : b - A (x0.getD 0) = r0 at *
  let I : Nat → St (Option V) (Option ℝ) → Prop := fun _ st => Dead st ∨
    ∃ ee, Good A p b st (x0.getD 0) ee ∧ (st.k = 0 ∨ (st.k = 1 ∧ ∃ c : 𝕜, c ≠ 0 ∧ A r0 = c • A (ee 0)))
  have hconv : ∀ it st, I it st →
      converged (ipOps A) p (some b) ((ipOps A).norm (top (ipOps A) p (some b) st).2.r) = false := by
    rintro it st (hd | ⟨ee, hg, -⟩)
    · rw [show (top (ipOps A) p (some b) st).2.r = none from dead_top A _ _ _ p b st hd]
      simp [converged, ipOps, nanOps]
    · rw [(good_top hg).1, hr0]
      simp only [converged, ipOps, nanOps, Option.map_some, codeNorm_eq, ht, map₂_some, Bool.or_eq_false_iff,
        decide_eq_false_iff_not]
      exact ⟨not_lt.2 htb, norm_ne_zero_iff.2 hne⟩
  have hfail : ∀ (st : St (Option V) (Option ℝ)) it s r, (st.fail p it s).ending = .returned r → r.success = false := by
    intro st it s r h
    simp only [St.fail, St.finish] at h
    split at h <;> cases h
    rfl
  refine loop_exit (ipOps A) p (some b) I ?_
    (fun out => ∀ r, out.ending = .returned r → r.success = false)
    ?_ ?_ ?_ ?_ p.maxiter 0 _ (by omega) (Or.inr ⟨_, good_init p A b x0, Or.inl rfl⟩)
  · rintro it st st' (hd | ⟨ee, hg, hk⟩) _ _ ha
    · exact Or.inl (dead_step A _ _ _ p b it st st' hd ha)
    · rcases good_step hr it hg ha with ⟨-, hd⟩ | ⟨hz, hk', hg'⟩
      · exact Or.inl hd
      · rw [hr0] at hz
        rcases hk with hk | ⟨hk, c, hc, hA⟩
        · right
          rw [hk] at hz hg' hk'
          have hcond : (if 0 = p.restart then 0 else 0) = 0 := ite_self 0
          have hnd : newDir A ee 0 r0 = r0 := by simp [newDir]
          have hx : nextX A ee 0 b (x0.getD 0) = x0.getD 0 := by
            rw [nextX, hr0, unitDir, hnd, map_smul, inner_smul_left, inner_zero_symm _ _ h0, mul_zero, zero_smul, add_zero]
          rw [hcond, hx, hr0] at hg'
          rw [hcond] at hk'
          refine ⟨_, hg', Or.inr ⟨hk', ((‖A r0‖ : ℝ) : 𝕜), ?_, ?_⟩⟩
          · rw [hnd] at hz
            exact RCLike.ofReal_ne_zero.2 (norm_ne_zero_iff.2 hz)
          · rw [Function.update_self, unitDir, hnd, map_smul, smul_smul, ← RCLike.ofReal_mul]
            rw [hnd] at hz
            rw [mul_inv_cancel₀ (norm_ne_zero_iff.2 hz), RCLike.ofReal_one, one_smul]
        · exfalso
          apply hz
          rw [hk, newDir, List.range_one, List.map_singleton, List.sum_singleton, map_sub, map_smul, hA, inner_smul_right,
            hg.orth 0 (by omega) 0 (by omega), if_pos rfl, mul_one, sub_self]
  · intro it st _ _; exact hfail _ _ _
  · intro it st hI _ hc
    rw [hconv it st hI] at hc; cases hc
  · intro it st out _ _ _ hc r hout
    rcases checks_some hc with ⟨rfl, -⟩ | ⟨rfl, -⟩ | ⟨rfl, -⟩
    · exact hfail _ _ _ r hout
    · exact hfail _ _ _ r hout
    · cases hout
  · intro it st y _ _ _ _ r hout
    cases y <;> cases hout

end

/-- **C80 is false for invertible operators in general**: a quarter turn of the plane.  The Krylov space of dimension two
contains the solution, but `gmres` does not find it, whatever the parameters (with a tolerance of at most one). -/
theorem C80_refuted : ∃ (A : ℂ →ₗ[ℝ] ℂ) (b : ℂ), Function.Bijective A ∧
    (∃ x ∈ krylov A b 2, A x = b) ∧
    ∀ (p : Params (Option ℝ)) (t : ℝ), 0 < p.restart → p.tol = some t → t ≤ 1 →
      ∀ r, (gmres (ipOps A) p (some b) none).ending = .returned r → r.success = false := by
  refine ⟨LinearMap.mulLeft ℝ Complex.I, 1, ⟨?_, ?_⟩, ⟨-Complex.I, ?_, ?_⟩, ?_⟩
  · intro x y h
    simpa using h
  · intro y
    refine ⟨-Complex.I * y, ?_⟩
    simp [← mul_assoc]
  · refine Submodule.neg_mem _ (Submodule.subset_span ⟨1, ?_⟩)
    simp
  · simp
  · intro p t hr ht h1 r h
    refine C80_breakdown (LinearMap.mulLeft ℝ Complex.I) p hr 1 none ?_ ?_ t ht ?_ r h
    · simp
    · simp
    · simpa using h1

/-- a definite operator that is neither symmetric nor normal: `x ↦ (2 + i) x` on the plane; the hypotheses of the rate hold with
`m = 2`, `M = 3` -/
example : Definite (LinearMap.mulLeft ℝ (2 + Complex.I) : ℂ →ₗ[ℝ] ℂ) ∧
    (∀ v : ℂ, 2 * ‖v‖ ^ 2 ≤ ‖inner ℝ v (LinearMap.mulLeft ℝ (2 + Complex.I) v)‖) ∧
    ∀ v : ℂ, ‖LinearMap.mulLeft ℝ (2 + Complex.I) v‖ ≤ 3 * ‖v‖ := by
  have h : ∀ v : ℂ, inner ℝ v (LinearMap.mulLeft ℝ (2 + Complex.I) v) = 2 * ‖v‖ ^ 2 := by
    intro v
    rw [← Complex.normSq_eq_norm_sq, Complex.normSq_apply]
    simp [Complex.inner]; ring
  refine ⟨?_, ?_, ?_⟩
  · intro v hv
    rw [h]
    have := norm_pos_iff.2 hv
    positivity
  · intro v
    rw [h, Real.norm_of_nonneg (by positivity)]
  · intro v
    rw [LinearMap.mulLeft_apply, norm_mul]
    refine mul_le_mul_of_nonneg_right ?_ (norm_nonneg v)
    refine (norm_add_le _ _).trans ?_
    rw [Complex.norm_I]; norm_num

/-- the quantities of the convergence theorem for this operator: with a tolerance of 0.1 eight iterations are enough, the default
stall test (ten iterations, factor 1.25) is harmless -/
example : (1 - (2 / 3 : ℝ) ^ 2) ^ 8 * 1 ^ 2 < (1 / 10 * 1 : ℝ) ^ 2 ∧ (1 - (2 / 3 : ℝ) ^ 2) ^ 9 * (5 / 4 : ℝ) ^ 2 ≤ 1 := by
  norm_num

end Verif.Gmres
