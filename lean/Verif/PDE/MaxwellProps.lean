import Verif.PDE.Maxwell
import Mathlib.LinearAlgebra.Matrix.NonsingularInverse
import Mathlib.Tactic.Module
import Mathlib.Tactic.LinearCombination
import Mathlib.Tactic.FieldSimp
import Mathlib.Data.Complex.Basic

/-!
# C66, C67: Maxwell's equations and the boundary conditions
-/

namespace Verif.Maxwell

variable {K N V T : Type} [Field K] [AddCommGroup V] [Module K V] [AddCommGroup T] [Module K T]

/-! ## Specification -/

namespace Spec

/-- the vector product -/
def cross (a : Fin 3 → K) (b : Fin 3 → T) : Fin 3 → T :=
  ![a 1 • b 2 - a 2 • b 1, a 2 • b 0 - a 0 • b 2, a 0 • b 1 - a 1 • b 0]

/-- the curl of a vector field -/
def curl (d : Fin 3 → V →ₗ[K] V) (v : Fin 3 → V) : Fin 3 → V :=
  ![d 1 (v 2) - d 2 (v 1), d 2 (v 0) - d 0 (v 2), d 0 (v 1) - d 1 (v 0)]

/-- the divergence of a vector field -/
def div (d : Fin 3 → V →ₗ[K] V) (v : Fin 3 → V) : V := d 0 (v 0) + d 1 (v 1) + d 2 (v 2)

/-- first and second half of an array of six entries -/
def e (F : Fin 6 → T) : Fin 3 → T := ![F 0, F 1, F 2]
/-- first and second half of an array of six entries -/
def h (F : Fin 6 → T) : Fin 3 → T := ![F 3, F 4, F 5]

/-- Maxwell's equations without sources for a time dependence `exp(-iωt)` in a medium with
permittivity `eps` and permeability `mu`; `io` is `iω` -/
structure Maxwell (d : Fin 3 → V →ₗ[K] V) (io eps mu : K) (E H : Fin 3 → V) : Prop where
  faraday : curl d E = fun i => (io * mu) • H i
  ampere : curl d H = fun i => (-(io * eps)) • E i
  gaussE : div d E = 0
  gaussH : div d H = 0

/-- partial derivatives commute -/
def Commute (d : Fin 3 → V →ₗ[K] V) : Prop := ∀ a b v, d a (d b v) = d b (d a v)

/-- solutions of the Helmholtz equation -/
def Helmholtz (d : Fin 3 → V →ₗ[K] V) (k : K) (v : V) : Prop :=
  d 0 (d 0 v) + d 1 (d 1 v) + d 2 (d 2 v) = (-(k * k)) • v

/-- normal and tangential vectors are an orthonormal basis at each node -/
structure Frame (I : Interp K N V) : Prop where
  nn : ∀ n, ∑ i, I.nrm n i * I.nrm n i = 1
  nt : ∀ n a, ∑ i, I.nrm n i * I.tan n a i = 0
  tt : ∀ n a b, ∑ i, I.tan n a i * I.tan n b i = if a = b then 1 else 0

/-- the classical facts about the single layer potential with wave number `k`: linear,
continuous across the surface, its gradient jumps by minus the density along the normal -/
structure Jumps (I : Interp K N V) (k : K) : Prop where
  cont : ∀ σ n, I.tr .plus (I.S k σ) n = I.tr .minus (I.S k σ) n
  grad : ∀ σ m n, I.tr .plus (I.d m (I.S k σ)) n - I.tr .minus (I.d m (I.S k σ)) n
    = - (I.nrm n m * σ n)

/-- `n × v` on the surface -/
def nx (I : Interp K N V) (v : Fin 3 → N → K) (n : N) : Fin 3 → K :=
  cross (I.nrm n) (fun i => v i n)

/-- `n · v` on the surface -/
def ndot (I : Interp K N V) (v : Fin 3 → N → K) (n : N) : K :=
  I.nrm n 0 * v 0 n + I.nrm n 1 * v 1 n + I.nrm n 2 * v 2 n

end Spec

/-! ## Vector calculus -/

theorem fin3 {P : Fin 3 → Prop} (h0 : P 0) (h1 : P 1) (h2 : P 2) : ∀ i, P i := by
  intro i
  match i with
  | 0 => exact h0
  | 1 => exact h1
  | 2 => exact h2

/-- C66: the sums over permutation symbols are the vector product. -/
theorem C66_cross (a : Fin 3 → K) (b : Fin 3 → T) : cross a b = Spec.cross a b := by
  funext i
  revert i
  apply fin3 <;>
  · simp only [cross, Fin.sum_univ_three, levi, Spec.cross]
    simp
    try abel

/-- C66: the sums over permutation symbols are the curl. -/
theorem C66_curl (I : Interp K N V) (v : Fin 3 → V) :
    I.curl LinearMap.id v = Spec.curl I.d v := by
  funext i
  revert i
  apply fin3 <;>
  · simp only [Interp.curl, Fin.sum_univ_three, levi, Spec.curl]
    simp
    try abel

/-- C66: the sum over axes is the divergence. -/
theorem C66_div (I : Interp K N V) (v : Fin 3 → V) : I.div v = Spec.div I.d v := by
  simp only [Interp.div, Fin.sum_univ_three, Spec.div]

theorem curl_ev (I : Interp K N V) (ev : V →ₗ[K] T) (v : Fin 3 → V) (i : Fin 3) :
    I.curl ev v i = ev (Spec.curl I.d v i) := by
  rw [← C66_curl]
  simp only [Interp.curl, map_sum, map_smul, LinearMap.id_apply]

theorem flat_e (a b : Fin 3 → T) : Spec.e (flat a b) = a := by
  funext i
  revert i
  apply fin3 <;> rfl

theorem flat_h (a b : Fin 3 → T) : Spec.h (flat a b) = b := by
  funext i
  revert i
  apply fin3 <;> rfl

theorem div_curl (d : Fin 3 → V →ₗ[K] V) (hc : Spec.Commute d) (v : Fin 3 → V) :
    Spec.div d (Spec.curl d v) = 0 := by
  simp only [Spec.div, Spec.curl, Matrix.cons_val_zero, Matrix.cons_val_one, Matrix.cons_val,
    map_sub]
  rw [hc 1 0, hc 2 0, hc 2 1]
  abel

theorem curl_grad (d : Fin 3 → V →ₗ[K] V) (hc : Spec.Commute d) (p : V) :
    Spec.curl d (fun i => d i p) = 0 := by
  funext i
  revert i
  apply fin3
  · simp [Spec.curl, hc 1 2]
  · simp [Spec.curl, hc 2 0]
  · simp [Spec.curl, hc 0 1]

theorem curl_curl (d : Fin 3 → V →ₗ[K] V) (hc : Spec.Commute d) (k : K) (v : Fin 3 → V)
    (hv : ∀ i, Spec.Helmholtz d k (v i)) (i : Fin 3) :
    Spec.curl d (Spec.curl d v) i = d i (Spec.div d v) + (k * k) • v i := by
  have h : ∀ i, (k * k) • v i = -(d 0 (d 0 (v i)) + d 1 (d 1 (v i)) + d 2 (d 2 (v i))) := by
    intro i
    rw [hv i, neg_smul, neg_neg]
  rw [h i]
  revert i
  apply fin3
  · simp only [Spec.curl, Spec.div, Matrix.cons_val_zero, Matrix.cons_val_one, Matrix.cons_val,
      map_sub, map_add]
    rw [hc 1 0, hc 2 0]
    abel
  · simp only [Spec.curl, Spec.div, Matrix.cons_val_zero, Matrix.cons_val_one, Matrix.cons_val,
      map_sub, map_add]
    rw [hc 2 1, hc 0 1]
    abel
  · simp only [Spec.curl, Spec.div, Matrix.cons_val_zero, Matrix.cons_val_one, Matrix.cons_val,
      map_sub, map_add]
    rw [hc 0 2, hc 1 2]
    abel

theorem curl_smul (d : Fin 3 → V →ₗ[K] V) (c : K) (v : Fin 3 → V) :
    Spec.curl d (fun i => c • v i) = fun i => c • Spec.curl d v i := by
  funext i
  revert i
  apply fin3 <;> simp [Spec.curl, smul_sub]

theorem curl_sub (d : Fin 3 → V →ₗ[K] V) (v w : Fin 3 → V) :
    Spec.curl d (fun i => v i - w i) = fun i => Spec.curl d v i - Spec.curl d w i := by
  funext i
  revert i
  apply fin3
  all_goals
    simp only [Spec.curl, Matrix.cons_val_zero, Matrix.cons_val_one, Matrix.cons_val, map_sub]
    abel

theorem curl_add (d : Fin 3 → V →ₗ[K] V) (v w : Fin 3 → V) :
    Spec.curl d (fun i => v i + w i) = fun i => Spec.curl d v i + Spec.curl d w i := by
  funext i
  revert i
  apply fin3
  all_goals
    simp only [Spec.curl, Matrix.cons_val_zero, Matrix.cons_val_one, Matrix.cons_val, map_add]
    abel

theorem div_smul (d : Fin 3 → V →ₗ[K] V) (c : K) (v : Fin 3 → V) :
    Spec.div d (fun i => c • v i) = c • Spec.div d v := by
  simp [Spec.div, smul_add]

theorem div_sub (d : Fin 3 → V →ₗ[K] V) (v w : Fin 3 → V) :
    Spec.div d (fun i => v i - w i) = Spec.div d v - Spec.div d w := by
  simp only [Spec.div, map_sub]
  abel

theorem div_add (d : Fin 3 → V →ₗ[K] V) (v w : Fin 3 → V) :
    Spec.div d (fun i => v i + w i) = Spec.div d v + Spec.div d w := by
  simp only [Spec.div, map_add]
  abel

/-! ## Incident fields -/

/-- **C66.**  The field of a point source satisfies Maxwell's equations away from the source,
whatever the current: all that is used is that each component of the potential satisfies the
Helmholtz equation. -/
theorem C66_point_source (I : Interp K N V) (hI : I.imag * I.imag = -1) (k : K)
    (hc : Spec.Commute I.d) (G : Fin 3 → V) (hG : ∀ i, Spec.Helmholtz I.d k (G i)) :
    Spec.Maxwell I.d (I.imag * k) 1 1 (Spec.e (I.pointSource k G))
      (Spec.h (I.pointSource k G)) := by
  have hH : ∀ i, Spec.Helmholtz I.d k (Spec.curl I.d G i) := by
    have lin : ∀ (a b : Fin 3) (x y : V), Spec.Helmholtz I.d k x → Spec.Helmholtz I.d k y →
        Spec.Helmholtz I.d k (I.d a x - I.d b y) := by
      intro a b x y hx hy
      unfold Spec.Helmholtz at hx hy ⊢
      simp only [map_sub]
      have hx' := congrArg (I.d a) hx
      have hy' := congrArg (I.d b) hy
      simp only [map_add, map_smul] at hx' hy'
      rw [hc a, hc a 0, hc a 1 (I.d 1 x), hc a 1, hc a 2 (I.d 2 x), hc a 2] at hx'
      rw [hc b, hc b 0, hc b 1 (I.d 1 y), hc b 1, hc b 2 (I.d 2 y), hc b 2] at hy'
      rw [smul_sub, ← hx', ← hy']
      abel
    apply fin3
    · exact lin 1 2 _ _ (hG 2) (hG 1)
    · exact lin 2 0 _ _ (hG 0) (hG 2)
    · exact lin 0 1 _ _ (hG 1) (hG 0)
  unfold Interp.pointSource
  simp only [C66_curl, flat_e, flat_h]
  constructor
  · rw [curl_smul]
    simp
  · funext i
    rw [curl_curl I.d hc k _ hH, div_curl I.d hc, map_zero, zero_add, smul_smul]
    congr 1
    linear_combination (k * k) * hI
  · rw [div_smul, div_curl I.d hc, smul_zero]
  · exact div_curl I.d hc _

theorem dir_unit (sqrt : K → K) (v : Fin 3 → K)
    (hs : sqrt (∑ j, v j * v j) * sqrt (∑ j, v j * v j) = ∑ j, v j * v j)
    (hv : ∑ j, v j * v j ≠ 0) :
    waveDir sqrt v 0 * waveDir sqrt v 0 + waveDir sqrt v 1 * waveDir sqrt v 1
      + waveDir sqrt v 2 * waveDir sqrt v 2 = 1 := by
  unfold waveDir
  generalize sqrt (∑ j, v j * v j) = s at *
  have hs0 : s ≠ 0 := by
    rintro rfl
    exact hv (by rw [← hs, mul_zero])
  field_simp
  rw [← Fin.sum_univ_three (fun j => v j ^ 2)]
  rw [pow_two, hs]
  exact Finset.sum_congr rfl fun j _ => pow_two _

/-- **C66.**  A plane wave with `epsilon = mu = 1` satisfies Maxwell's equations at the given
frequency, for every direction and amplitude (orthogonal to the direction or not).  Missing: other
media (`C66_plane_wave_medium_refuted`; what holds there is `C66_plane_wave_induction`). -/
theorem C66_plane_wave_partial (d : Fin 3 → V →ₗ[K] V) (sqrt : K → K) (imag : K)
    (wave : (Fin 3 → K) → V) (amp v : Fin 3 → K) (omega : K)
    (hw : ∀ p m, d m (wave p) = p m • wave p)
    (hs : sqrt (∑ j, v j * v j) * sqrt (∑ j, v j * v j) = ∑ j, v j * v j)
    (hv : ∑ j, v j * v j ≠ 0) (h1 : sqrt 1 = 1) :
    Spec.Maxwell d (imag * omega) 1 1 (Spec.e (planeWave sqrt imag wave amp v omega 1 1))
      (Spec.h (planeWave sqrt imag wave amp v omega 1 1)) := by
  have hn := dir_unit sqrt v hs hv
  unfold planeWave
  simp only [flat_e, flat_h, mul_one, h1, one_smul, C66_cross]
  generalize waveDir sqrt v = n at *
  have ho : waveAmp amp n 0 * n 0 + waveAmp amp n 1 * n 1 + waveAmp amp n 2 * n 2 = 0 := by
    simp only [waveAmp, Fin.sum_univ_three]
    linear_combination (-(amp 0 * n 0 + amp 1 * n 1 + amp 2 * n 2)) * hn
  generalize waveAmp amp n = a at *
  have hW := hw (fun j => imag * (n j * omega))
  generalize wave (fun j => imag * (n j * omega)) = W at *
  constructor
  · funext i
    revert i
    apply fin3
    all_goals
      simp only [Spec.curl, Spec.cross, Matrix.cons_val_zero, Matrix.cons_val_one,
        Matrix.cons_val, map_smul, hW]
      module
  · funext i
    revert i
    apply fin3
    · simp only [Spec.curl, Spec.cross, Matrix.cons_val_zero, Matrix.cons_val_one,
        Matrix.cons_val, map_smul, map_sub, hW, smul_smul, ← sub_smul]
      congr 1
      linear_combination (imag * omega * n 0) * ho - (imag * omega * a 0) * hn
    · simp only [Spec.curl, Spec.cross, Matrix.cons_val_zero, Matrix.cons_val_one,
        Matrix.cons_val, map_smul, map_sub, hW, smul_smul, ← sub_smul]
      congr 1
      linear_combination (imag * omega * n 1) * ho - (imag * omega * a 1) * hn
    · simp only [Spec.curl, Spec.cross, Matrix.cons_val_zero, Matrix.cons_val_one,
        Matrix.cons_val, map_smul, map_sub, hW, smul_smul, ← sub_smul]
      congr 1
      linear_combination (imag * omega * n 2) * ho - (imag * omega * a 2) * hn
  · simp only [Spec.div, map_smul, hW, smul_smul, ← add_smul]
    have : a 0 * (imag * (n 0 * omega)) + a 1 * (imag * (n 1 * omega))
        + a 2 * (imag * (n 2 * omega)) = 0 := by linear_combination (imag * omega) * ho
    rw [this, zero_smul]
  · simp only [Spec.div, Spec.cross, Matrix.cons_val_zero, Matrix.cons_val_one,
        Matrix.cons_val, map_smul, map_sub, hW]
    module

/-- **C66, other media.**  With other values of `epsilon` and `mu` (and `c` their root), the
second half of the plane wave is the magnetic induction `B`, and the frequency is
`omega / c` (`omega` being the wave number): `curl E = iω'B`, `curl B = -iω'με E`. -/
theorem C66_plane_wave_induction (d : Fin 3 → V →ₗ[K] V) (sqrt : K → K) (imag : K)
    (wave : (Fin 3 → K) → V) (amp v : Fin 3 → K) (omega epsilon mu : K)
    (hw : ∀ p m, d m (wave p) = p m • wave p)
    (hs : sqrt (∑ j, v j * v j) * sqrt (∑ j, v j * v j) = ∑ j, v j * v j)
    (hv : ∑ j, v j * v j ≠ 0)
    (hc : sqrt (mu * epsilon) * sqrt (mu * epsilon) = mu * epsilon)
    (h0 : mu * epsilon ≠ 0) :
    Spec.Maxwell d (imag * (omega / sqrt (mu * epsilon))) (mu * epsilon) 1
      (Spec.e (planeWave sqrt imag wave amp v omega epsilon mu))
      (Spec.h (planeWave sqrt imag wave amp v omega epsilon mu)) := by
  have hn := dir_unit sqrt v hs hv
  unfold planeWave
  simp only [flat_e, flat_h, mul_one, C66_cross]
  have hc0 : sqrt (mu * epsilon) ≠ 0 := by
    intro h
    rw [h, mul_zero] at hc
    exact h0 hc.symm
  have hq : imag * (omega / sqrt (mu * epsilon)) * sqrt (mu * epsilon) = imag * omega := by
    field_simp
  have hq' : imag * (omega / sqrt (mu * epsilon)) * (mu * epsilon)
      = imag * omega * sqrt (mu * epsilon) := by
    generalize sqrt (mu * epsilon) = c at *
    rw [← hc]
    field_simp
  generalize waveDir sqrt v = n at *
  have ho : waveAmp amp n 0 * n 0 + waveAmp amp n 1 * n 1 + waveAmp amp n 2 * n 2 = 0 := by
    simp only [waveAmp, Fin.sum_univ_three]
    linear_combination (-(amp 0 * n 0 + amp 1 * n 1 + amp 2 * n 2)) * hn
  generalize waveAmp amp n = a at *
  have hW := hw (fun j => imag * (n j * omega))
  generalize wave (fun j => imag * (n j * omega)) = W at *
  generalize sqrt (mu * epsilon) = c at *
  constructor
  · funext i
    rw [smul_smul, mul_one, hq]
    revert i
    apply fin3
    all_goals
      simp only [Spec.curl, Spec.cross, Matrix.cons_val_zero, Matrix.cons_val_one,
        Matrix.cons_val, map_smul, hW]
      module
  · funext i
    rw [hq']
    revert i
    apply fin3
    · simp only [Spec.curl, Spec.cross, Matrix.cons_val_zero, Matrix.cons_val_one,
        Matrix.cons_val, map_smul, map_sub, hW, smul_smul, ← sub_smul]
      congr 1
      linear_combination (imag * omega * c * n 0) * ho - (imag * omega * c * a 0) * hn
    · simp only [Spec.curl, Spec.cross, Matrix.cons_val_zero, Matrix.cons_val_one,
        Matrix.cons_val, map_smul, map_sub, hW, smul_smul, ← sub_smul]
      congr 1
      linear_combination (imag * omega * c * n 1) * ho - (imag * omega * c * a 1) * hn
    · simp only [Spec.curl, Spec.cross, Matrix.cons_val_zero, Matrix.cons_val_one,
        Matrix.cons_val, map_smul, map_sub, hW, smul_smul, ← sub_smul]
      congr 1
      linear_combination (imag * omega * c * n 2) * ho - (imag * omega * c * a 2) * hn
  · simp only [Spec.div, map_smul, hW, smul_smul, ← add_smul]
    have : a 0 * (imag * (n 0 * omega)) + a 1 * (imag * (n 1 * omega))
        + a 2 * (imag * (n 2 * omega)) = 0 := by linear_combination (imag * omega) * ho
    rw [this, zero_smul]
  · simp only [Spec.div, Spec.cross, Matrix.cons_val_zero, Matrix.cons_val_one,
        Matrix.cons_val, map_smul, map_sub, hW]
    module

/-! ## Boundary values -/

theorem nCross_eq (I : Interp K N V) (v : Fin 3 → N → K) (i : Fin 3) (n : N) :
    I.nCross v i n = Spec.nx I v n i := by
  rw [Interp.nCross, C66_cross]
  rfl

theorem nDot_eq (I : Interp K N V) (v : Fin 3 → N → K) (n : N) :
    I.nDot v n = Spec.ndot I v n := by
  rw [Interp.nDot, Fin.sum_univ_three]
  rfl

/-- a vector with vanishing normal and tangential parts vanishes -/
theorem frame_zero (I : Interp K N V) (F : Spec.Frame I) (n : N) (v : Fin 3 → K)
    (hn : ∑ i, I.nrm n i * v i = 0) (ht : ∀ a, ∑ i, I.tan n a i * v i = 0) : v = 0 := by
  let Q : Matrix (Fin 3) (Fin 3) K := ![I.nrm n, I.tan n 0, I.tan n 1]
  have hQ : Q * Q.transpose = 1 := by
    ext i j
    rw [Matrix.mul_apply]
    simp only [Matrix.transpose_apply]
    have h1 := F.nn n
    have h2 := F.nt n
    have h3 := F.tt n
    have h2' : ∀ a, ∑ i, I.tan n a i * I.nrm n i = 0 := by
      intro a
      rw [← h2 a]
      exact Finset.sum_congr rfl fun i _ => mul_comm _ _
    match i, j with
    | 0, 0 => simpa [Q] using h1
    | 0, 1 => simpa [Q] using h2 0
    | 0, 2 => simpa [Q] using h2 1
    | 1, 0 => simpa [Q] using h2' 0
    | 1, 1 => simpa [Q] using h3 0 0
    | 1, 2 => simpa [Q] using h3 0 1
    | 2, 0 => simpa [Q] using h2' 1
    | 2, 1 => simpa [Q] using h3 1 0
    | 2, 2 => simpa [Q] using h3 1 1
  have hQ' : Q.transpose * Q = 1 := mul_eq_one_comm.1 hQ
  have hv : Q.mulVec v = 0 := by
    funext i
    rw [Matrix.mulVec, dotProduct]
    revert i
    apply fin3
    · exact hn
    · exact ht 0
    · exact ht 1
  have := congrArg (fun w => Q.transpose.mulVec w) hv
  simpa [Matrix.mulVec_mulVec, hQ'] using this

/-- two tangential vectors with the same tangential components are equal -/
theorem frame_eq (I : Interp K N V) (F : Spec.Frame I) (v w : Fin 3 → N → K)
    (hv : ∀ n, Spec.ndot I v n = 0) (hw : ∀ n, Spec.ndot I w n = 0) :
    I.toTan v = I.toTan w ↔ v = w := by
  constructor
  · intro h
    funext i n
    have := frame_zero I F n (fun i => v i n - w i n) ?_ ?_
    · exact sub_eq_zero.1 (congrFun this i)
    · have h1 := hv n
      have h2 := hw n
      simp only [Spec.ndot] at h1 h2
      rw [Fin.sum_univ_three]
      linear_combination h1 - h2
    · intro a
      have h1 := congrFun (congrFun h a) n
      simp only [Interp.toTan, Fin.sum_univ_three] at h1
      rw [Fin.sum_univ_three]
      linear_combination h1
  · rintro rfl
    rfl

theorem toXyz_normal (I : Interp K N V) (F : Spec.Frame I) (t : Fin 2 → N → K) (n : N) :
    Spec.ndot I (I.toXyz t) n = 0 := by
  have h0 := F.nt n 0
  have h1 := F.nt n 1
  simp only [Fin.sum_univ_three] at h0 h1
  simp only [Spec.ndot, Interp.toXyz, Fin.sum_univ_two]
  linear_combination (t 0 n) * h0 + (t 1 n) * h1

theorem nx_normal (I : Interp K N V) (v : Fin 3 → N → K) (n : N) :
    Spec.ndot I (fun i n => Spec.nx I v n i) n = 0 := by
  simp only [Spec.ndot, Spec.nx, Spec.cross, Matrix.cons_val_zero, Matrix.cons_val_one,
    Matrix.cons_val, smul_eq_mul]
  ring

/-- `n × (n × v) = -v` for tangential `v` -/
theorem nx_nx (I : Interp K N V) (F : Spec.Frame I) (v : Fin 3 → N → K) (n : N)
    (hv : Spec.ndot I v n = 0) (i : Fin 3) :
    Spec.nx I (fun i n => Spec.nx I v n i) n i = - v i n := by
  have hn := F.nn n
  rw [Fin.sum_univ_three] at hn
  simp only [Spec.ndot] at hv
  revert i
  apply fin3
  · simp only [Spec.nx, Spec.cross, Matrix.cons_val_zero, Matrix.cons_val_one,
      Matrix.cons_val, smul_eq_mul]
    linear_combination (I.nrm n 0) * hv - (v 0 n) * hn
  · simp only [Spec.nx, Spec.cross, Matrix.cons_val_zero, Matrix.cons_val_one,
      Matrix.cons_val, smul_eq_mul]
    linear_combination (I.nrm n 1) * hv - (v 1 n) * hn
  · simp only [Spec.nx, Spec.cross, Matrix.cons_val_zero, Matrix.cons_val_one,
      Matrix.cons_val, smul_eq_mul]
    linear_combination (I.nrm n 2) * hv - (v 2 n) * hn

theorem avg_apply (I : Interp K N V) (v : V) (n : N) :
    I.avg v n = 1 / 2 * (I.tr .plus v n + I.tr .minus v n) := by
  simp [Interp.avg]
  ring

/-- boundary value of the single layer potential -/
theorem tr_S (h2 : (2 : K) ≠ 0) (I : Interp K N V) (k : K) (J : Spec.Jumps I k) (s : Side)
    (σ : N → K) (n : N) : I.tr s (I.S k σ) n = I.avg (I.S k σ) n := by
  have := J.cont σ n
  rw [avg_apply]
  cases s
  · rw [← this]
    field_simp
    ring
  · rw [this]
    field_simp
    ring

/-- boundary value of its gradient -/
theorem tr_grad (h2 : (2 : K) ≠ 0) (I : Interp K N V) (k : K) (J : Spec.Jumps I k) (s : Side)
    (σ : N → K) (m : Fin 3) (n : N) :
    I.tr s (I.d m (I.S k σ)) n
      = I.avg (I.d m (I.S k σ)) n - s.sgn * (1 / 2) * (I.nrm n m * σ n) := by
  have := J.grad σ m n
  rw [avg_apply]
  cases s
  · simp only [Side.sgn]
    field_simp
    linear_combination this
  · simp only [Side.sgn]
    field_simp
    linear_combination -this

/-- boundary value of the curl of the single layer potential -/
theorem tr_curl (h2 : (2 : K) ≠ 0) (I : Interp K N V) (k : K) (J : Spec.Jumps I k) (s : Side)
    (σ : Fin 3 → N → K) (i : Fin 3) (n : N) :
    I.curl (I.tr s) (fun j => I.S k (σ j)) i n
      = I.curl I.avg (fun j => I.S k (σ j)) i n - s.sgn * (1 / 2) * Spec.nx I σ n i := by
  rw [curl_ev, curl_ev]
  revert i
  apply fin3
  all_goals
    simp only [Spec.curl, Spec.nx, Spec.cross, Matrix.cons_val_zero, Matrix.cons_val_one,
      Matrix.cons_val, map_sub, Pi.sub_apply, smul_eq_mul]
    rw [tr_grad h2 I k J, tr_grad h2 I k J]
    ring

/-! ## The charge-current MFIE -/

theorem Side.sgn_flip (s : Side) : (s.flip.sgn : K) = - s.sgn := by cases s <;> simp [Side.flip, Side.sgn]

theorem scat_h (I : Interp K N V) (k : K) (ev : V →ₗ[K] T) (Jt : Fin 2 → N → K) (rho : N → K) :
    Spec.h (I.scattered k ev Jt rho) = I.curl ev (fun i => I.S k (I.toXyz Jt i)) := by
  unfold Interp.scattered
  rw [flat_h]

theorem scat_e (I : Interp K N V) (k : K) (ev : V →ₗ[K] T) (Jt : Fin 2 → N → K) (rho : N → K) :
    Spec.e (I.scattered k ev Jt rho)
      = fun i => (I.imag * k) • ev (I.S k (I.toXyz Jt i)) - ev (I.d i (I.S k rho)) := by
  unfold Interp.scattered
  rw [flat_e]
  rfl

/-- `n × H` on side `s` -/
theorem nx_scat (h2 : (2 : K) ≠ 0) (I : Interp K N V) (F : Spec.Frame I) (k : K)
    (J : Spec.Jumps I k) (s : Side) (Jt : Fin 2 → N → K) (rho : N → K) (i : Fin 3) (n : N) :
    Spec.nx I (Spec.h (I.scattered k (I.tr s) Jt rho)) n i
      = Spec.nx I (I.curl I.avg (fun i => I.S k (I.toXyz Jt i))) n i
        + s.sgn * (1 / 2) * I.toXyz Jt i n := by
  rw [scat_h]
  have hx := nx_nx I F (I.toXyz Jt) n (toXyz_normal I F Jt n) i
  have hc := fun j => tr_curl h2 I k J s (I.toXyz Jt) j n
  revert i
  apply fin3
  all_goals
    intro hx
    simp only [Spec.nx, Spec.cross, Matrix.cons_val_zero, Matrix.cons_val_one,
      Matrix.cons_val, smul_eq_mul] at hx hc ⊢
    rw [hc, hc]
    simp only [Matrix.cons_val_zero, Matrix.cons_val_one, Matrix.cons_val]
    linear_combination (-(s.sgn * (1 / 2))) * hx

/-- **C66, currents.**  `j_operator(loc, J) = j_rhs(Hinc)` says exactly that the total magnetic
field has no tangential component on the side opposite to `loc` (where the total field is to
vanish). -/
theorem C66_pec_current (h2 : (2 : K) ≠ 0) (I : Interp K N V) (F : Spec.Frame I) (k : K)
    (J : Spec.Jumps I k) (loc : Side) (Jt : Fin 2 → N → K) (rho : N → K)
    (Hinc : Fin 3 → N → K) :
    I.jOperator k loc Jt = I.jRhs Hinc ↔
      ∀ n i, Spec.nx I (fun i n => Hinc i n
        + Spec.h (I.scattered k (I.tr loc.flip) Jt rho) i n) n i = 0 := by
  unfold Interp.jOperator Interp.jRhs
  have hJ : ∀ i n, loc.sgn * (1 / 2) * I.toXyz Jt i n
      - I.nCross (I.curl I.avg (fun i => I.S k (I.toXyz Jt i))) i n
      = - Spec.nx I (Spec.h (I.scattered k (I.tr loc.flip) Jt rho)) n i := by
    intro i n
    rw [nx_scat h2 I F k J, nCross_eq, Side.sgn_flip]
    ring
  have hl : (fun i n => loc.sgn * (1 / 2) * I.toXyz Jt i n
      - I.nCross (I.curl I.avg (fun i => I.S k (I.toXyz Jt i))) i n)
      = fun i n => - Spec.nx I (Spec.h (I.scattered k (I.tr loc.flip) Jt rho)) n i := by
    funext i n
    exact hJ i n
  have hr : I.nCross Hinc = fun i n => Spec.nx I Hinc n i := by
    funext i n
    exact nCross_eq I Hinc i n
  simp only [hl, hr]
  rw [frame_eq I F]
  · generalize Spec.h (I.scattered k (I.tr loc.flip) Jt rho) = H
    have hadd : ∀ n i, Spec.nx I (fun i n => Hinc i n + H i n) n i
        = Spec.nx I Hinc n i + Spec.nx I H n i := by
      intro n
      apply fin3
      all_goals
        simp only [Spec.nx, Spec.cross, Matrix.cons_val_zero, Matrix.cons_val_one,
          Matrix.cons_val, smul_eq_mul]
        ring
    constructor
    · intro h n i
      rw [hadd]
      have := congrFun (congrFun h i) n
      rw [← this]
      ring
    · intro h
      funext i n
      have := h n i
      rw [hadd] at this
      linear_combination -this
  · intro n
    have := nx_normal I (Spec.h (I.scattered k (I.tr loc.flip) Jt rho)) n
    simp only [Spec.ndot] at this ⊢
    linear_combination -this
  · exact nx_normal I Hinc

/-- **C66, currents.**  Then, on the side `loc`, `n × H` of the total field is the current
(with the sign of the side): the unknown is the physical surface current. -/
theorem C66_pec_current_physical (h2 : (2 : K) ≠ 0) (I : Interp K N V) (F : Spec.Frame I)
    (k : K) (J : Spec.Jumps I k) (loc : Side) (Jt : Fin 2 → N → K) (rho : N → K)
    (Hinc : Fin 3 → N → K) (hsol : I.jOperator k loc Jt = I.jRhs Hinc) (n : N) (i : Fin 3) :
    Spec.nx I (fun i n => Hinc i n + Spec.h (I.scattered k (I.tr loc) Jt rho) i n) n i
      = loc.sgn * I.toXyz Jt i n := by
  have h0 := (C66_pec_current h2 I F k J loc Jt rho Hinc).1 hsol n i
  have h1 := nx_scat h2 I F k J loc Jt rho i n
  have h3 := nx_scat h2 I F k J loc.flip Jt rho i n
  rw [Side.sgn_flip] at h3
  have hadd : ∀ H : Fin 3 → N → K, Spec.nx I (fun i n => Hinc i n + H i n) n i
      = Spec.nx I Hinc n i + Spec.nx I H n i := by
    intro H
    revert i
    apply fin3
    all_goals
      intros
      simp only [Spec.nx, Spec.cross, Matrix.cons_val_zero, Matrix.cons_val_one,
        Matrix.cons_val, smul_eq_mul]
      ring
  rw [hadd] at h0 ⊢
  rw [h1]
  rw [h3] at h0
  have e2 : (1 / 2 : K) + 1 / 2 = 1 := by field_simp; ring
  linear_combination h0 + (loc.sgn * I.toXyz Jt i n) * e2

/-- `n · E` on side `s` -/
theorem ndot_scat (h2 : (2 : K) ≠ 0) (I : Interp K N V) (F : Spec.Frame I) (k : K)
    (J : Spec.Jumps I k) (s : Side) (Jt : Fin 2 → N → K) (rho : N → K) (n : N) :
    Spec.ndot I (Spec.e (I.scattered k (I.tr s) Jt rho)) n
      = I.imag * k * Spec.ndot I (fun i => I.avg (I.S k (I.toXyz Jt i))) n
        - Spec.ndot I (fun m => I.avg (I.d m (I.S k rho))) n + s.sgn * (1 / 2) * rho n := by
  rw [scat_e]
  have hn := F.nn n
  rw [Fin.sum_univ_three] at hn
  simp only [Spec.ndot, Pi.sub_apply, Pi.smul_apply, smul_eq_mul]
  rw [tr_S h2 I k J, tr_S h2 I k J, tr_S h2 I k J, tr_grad h2 I k J, tr_grad h2 I k J,
    tr_grad h2 I k J]
  linear_combination (s.sgn * (1 / 2) * rho n) * hn

/-- **C66, charges.**  `rho_operator(loc, rho) = rho_rhs(J, Einc)` says exactly that the total
electric field has no normal component on the side opposite to `loc`. -/
theorem C66_pec_charge (h2 : (2 : K) ≠ 0) (I : Interp K N V) (F : Spec.Frame I) (k : K)
    (J : Spec.Jumps I k) (loc : Side) (Jt : Fin 2 → N → K) (rho : N → K)
    (Einc : Fin 3 → N → K) :
    I.rhoOperator k loc rho = I.rhoRhs k Jt Einc ↔
      ∀ n, Spec.ndot I (fun i n => Einc i n
        + Spec.e (I.scattered k (I.tr loc.flip) Jt rho) i n) n = 0 := by
  have hadd : ∀ n (E : Fin 3 → N → K), Spec.ndot I (fun i n => Einc i n + E i n) n
      = Spec.ndot I Einc n + Spec.ndot I E n := by
    intro n E
    simp only [Spec.ndot]
    ring
  rw [funext_iff]
  apply forall_congr'
  intro n
  rw [hadd, ndot_scat h2 I F k J, Side.sgn_flip]
  simp only [Interp.rhoOperator, Interp.rhoRhs, Interp.spAvg, nDot_eq]
  constructor
  · intro h
    linear_combination -h
  · intro h
    linear_combination -h

/-- **C66, charges.**  Then, on the side `loc`, `n · E` of the total field is the charge. -/
theorem C66_pec_charge_physical (h2 : (2 : K) ≠ 0) (I : Interp K N V) (F : Spec.Frame I)
    (k : K) (J : Spec.Jumps I k) (loc : Side) (Jt : Fin 2 → N → K) (rho : N → K)
    (Einc : Fin 3 → N → K) (hsol : I.rhoOperator k loc rho = I.rhoRhs k Jt Einc) (n : N) :
    Spec.ndot I (fun i n => Einc i n + Spec.e (I.scattered k (I.tr loc) Jt rho) i n) n
      = loc.sgn * rho n := by
  have hadd : ∀ n (E : Fin 3 → N → K), Spec.ndot I (fun i n => Einc i n + E i n) n
      = Spec.ndot I Einc n + Spec.ndot I E n := by
    intro n E
    simp only [Spec.ndot]
    ring
  have h0 := (C66_pec_charge h2 I F k J loc Jt rho Einc).1 hsol n
  rw [hadd] at h0 ⊢
  rw [ndot_scat h2 I F k J] at h0 ⊢
  rw [Side.sgn_flip] at h0
  have e2 : (1 / 2 : K) + 1 / 2 = 1 := by field_simp; ring
  linear_combination h0 + (loc.sgn * rho n) * e2

/-- **C66.**  The field of currents and charges satisfies Maxwell's equations off the surface
exactly when the potentials satisfy the Lorenz condition `div A = ik φ`. -/
theorem C66_pec_field (I : Interp K N V) (hI : I.imag * I.imag = -1) (k : K) (hk : k ≠ 0)
    (hc : Spec.Commute I.d) (hH : ∀ σ, Spec.Helmholtz I.d k (I.S k σ)) (Jt : Fin 2 → N → K)
    (rho : N → K) :
    Spec.Maxwell I.d (I.imag * k) 1 1 (Spec.e (I.scattered k LinearMap.id Jt rho))
        (Spec.h (I.scattered k LinearMap.id Jt rho)) ↔
      Spec.div I.d (fun i => I.S k (I.toXyz Jt i)) = (I.imag * k) • I.S k rho := by
  have hi0 : I.imag ≠ 0 := by
    intro h
    rw [h, mul_zero] at hI
    exact one_ne_zero (neg_eq_zero.1 hI.symm)
  rw [scat_e, scat_h, C66_curl]
  simp only [LinearMap.id_apply]
  generalize hA : (fun i => I.S k (I.toXyz Jt i)) = A
  have hA' : ∀ i, I.S k (I.toXyz Jt i) = A i := fun i => congrFun hA i
  have hAH : ∀ i, Spec.Helmholtz I.d k (A i) := fun i => by rw [← hA']; exact hH _
  simp only [hA']
  have hp := hH rho
  generalize I.S k rho = p at *
  have hdiv : Spec.div I.d (fun i => (I.imag * k) • A i - I.d i p)
      = (I.imag * k) • (Spec.div I.d A - (I.imag * k) • p) := by
    rw [div_sub, div_smul, smul_sub, smul_smul]
    have : Spec.div I.d (fun i => I.d i p) = (-(k * k)) • p := hp
    rw [this]
    congr 2
    linear_combination (-k * k) * hI
  constructor
  · intro h
    have h1 := h.gaussE
    rw [hdiv] at h1
    have h3 := (smul_eq_zero.1 h1).resolve_left (mul_ne_zero hi0 hk)
    exact sub_eq_zero.1 h3
  · intro h
    refine ⟨?_, ?_, ?_, div_curl I.d hc A⟩
    · rw [curl_sub, curl_smul, curl_grad I.d hc]
      simp
    · funext i
      rw [curl_curl I.d hc k A hAH, h, map_smul]
      have : (k * k) = -(I.imag * k * (I.imag * k)) := by linear_combination (k * k) * hI
      rw [this]
      module
    · rw [hdiv, h, sub_self, smul_zero]

end Verif.Maxwell
