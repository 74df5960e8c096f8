import Verif.PDE.FlowCalculus
import Verif.PDE.StokesProps
import Mathlib.Analysis.SpecialFunctions.Trigonometric.Basic

/-!
# The kernels of Stokes flow and the equations they satisfy
-/

namespace Verif.Flow

open Finset Verif.Stokes Real

/-- The kernels of `sumpy` (which is not part of `/repo`), for the difference `x` of target and
source and the viscosity `m`: the fundamental solution of (minus) the Laplacian, the fundamental
solution of Stokes flow with the sign `sumpy` gives it, and its stress. -/
noncomputable def kernel (k : SK) (m : ℝ) (x : Pt) : ℝ :=
  match k with
  | .laplace d => if d = 2 then -(1 / (2 * π)) * Real.log (rad d x) else 1 / (4 * π) * inv d 1 x
  | .stokeslet d i j =>
    if d = 2 then -(1 / (4 * π * m)) * (-(kron i j * Real.log (rad d x)) + x i * x j * inv d 2 x)
    else -(1 / (8 * π * m)) * (kron i j * inv d 1 x + x i * x j * inv d 3 x)
  | .stresslet d i j k =>
    if d = 2 then 1 / π * (x i * x j * x k * inv d 4 x)
    else 3 / (4 * π) * (x i * x j * x k * inv d 5 x)

/-- the dimension of a kernel -/
def kdim : SK → Nat
  | .laplace d => d
  | .stokeslet d _ _ => d
  | .stresslet d _ _ _ => d

/-- the kernels as expressions that can be differentiated -/
noncomputable def kx (k : SK) (m : ℝ) : RX :=
  match k with
  | .laplace d => if d = 2 then .mul (.const (-(1 / (2 * π)))) .log else .mul (.const (1 / (4 * π))) (.inv 1)
  | .stokeslet d i j =>
    if d = 2 then .mul (.const (-(1 / (4 * π * m)))) (.add (.mul (.const (-kron i j)) .log)
      (.mul (.mul (.coord i) (.coord j)) (.inv 2)))
    else .mul (.const (-(1 / (8 * π * m)))) (.add (.mul (.const (kron i j)) (.inv 1))
      (.mul (.mul (.coord i) (.coord j)) (.inv 3)))
  | .stresslet d i j k =>
    if d = 2 then .mul (.const (1 / π)) (.mul (.mul (.mul (.coord i) (.coord j)) (.coord k)) (.inv 4))
    else .mul (.const (3 / (4 * π))) (.mul (.mul (.mul (.coord i) (.coord j)) (.coord k)) (.inv 5))

theorem kernel_eq (k : SK) (m : ℝ) : kernel k m = (kx k m).eval (kdim k) := by
  funext x
  cases k <;> simp only [kernel, kx, kdim] <;> split_ifs <;> simp only [RX.eval] <;> ring

/-- derivatives of a kernel, as values -/
theorem pds_kernel (k : SK) (m : ℝ) (ds : List Nat) (hds : ∀ i ∈ ds, i < kdim k) (x : Pt)
    (h : 0 < sq (kdim k) x) :
    pds (kernel k m) ds x = (ds.foldr RX.diff (kx k m)).eval (kdim k) x := by
  rw [kernel_eq]
  exact pds_eval (kdim k) (kx k m) ds hds x h

/-- derivatives of kernels are derivatives -/
theorem pds_kernel_partial (k : SK) (m : ℝ) (i : Nat) (hi : i < kdim k) (ds : List Nat)
    (hds : ∀ j ∈ ds, j < kdim k) (x : Pt) (h : 0 < sq (kdim k) x) :
    HasPartial (pds (kernel k m) ds) i (pds (kernel k m) (i :: ds) x) x := by
  rw [kernel_eq]
  exact pds_partial (kdim k) i hi (kx k m) ds hds x h

theorem sq2 (x : Pt) : sq 2 x = x 0 ^ 2 + x 1 ^ 2 := by
  unfold sq
  simp [Finset.sum_range_succ]

theorem sq3 (x : Pt) : sq 3 x = x 0 ^ 2 + x 1 ^ 2 + x 2 ^ 2 := by
  unfold sq
  simp [Finset.sum_range_succ]

/-- the Stokeslet is divergence free -/
theorem sl_div (dim : Nat) (hd : dim = 2 ∨ dim = 3) (m : ℝ) (j : Nat) (hj : j < dim) (x : Pt)
    (h : 0 < sq dim x) :
    ∑ c ∈ range dim, pds (kernel (.stokeslet dim c j) m) [c] x = 0 := by
  have e : ∀ c ∈ range dim, pds (kernel (.stokeslet dim c j) m) [c] x
      = ((kx (.stokeslet dim c j) m).diff c).eval dim x := fun c hc =>
    pds_kernel (.stokeslet dim c j) m [c] (by simpa [kdim] using hc) x h
  rw [Finset.sum_congr rfl e]
  rcases hd with rfl | rfl
  · have h2 := sq_inv h 2
    rw [sq2] at h2
    interval_cases j <;> simp [Finset.sum_range_succ, kx, RX.diff, RX.eval, kron]
    · linear_combination (2 * (1 / (4 * π * m)) * x 0) * h2
    · linear_combination (2 * (1 / (4 * π * m)) * x 1) * h2
  · have h3 := sq_inv h 3
    rw [sq3] at h3
    interval_cases j <;> simp [Finset.sum_range_succ, kx, RX.diff, RX.eval, kron]
    · linear_combination (3 * (1 / (8 * π * m)) * x 0) * h3
    · linear_combination (3 * (1 / (8 * π * m)) * x 1) * h3
    · linear_combination (3 * (1 / (8 * π * m)) * x 2) * h3

/-- the Stokeslet, with the gradient of the Laplace kernel as its pressure, satisfies the Stokes
equations -/
theorem sl_momentum (dim : Nat) (hd : dim = 2 ∨ dim = 3) (m : ℝ) (hm : m ≠ 0) (j c : Nat) (hj : j < dim)
    (hc : c < dim) (x : Pt) (h : 0 < sq dim x) :
    m * ∑ i ∈ range dim, pds (kernel (.stokeslet dim c j) m) [i, i] x
      = pds (kernel (.laplace dim) m) [c, j] x := by
  have e : ∀ i ∈ range dim, pds (kernel (.stokeslet dim c j) m) [i, i] x
      = (((kx (.stokeslet dim c j) m).diff i).diff i).eval dim x := fun i hi =>
    pds_kernel (.stokeslet dim c j) m [i, i] (by simpa [kdim] using hi) x h
  have e' : pds (kernel (.laplace dim) m) [c, j] x = (((kx (.laplace dim) m).diff j).diff c).eval dim x :=
    pds_kernel (.laplace dim) m [c, j] (by simp [kdim, hj, hc]) x h
  rw [Finset.sum_congr rfl e, e']
  have hpi : π ≠ 0 := Real.pi_ne_zero
  rcases hd with rfl | rfl
  · obtain ⟨A, hA⟩ : ∃ A, A = 1 / (4 * π * m) := ⟨_, rfl⟩
    have hL : 1 / (2 * π) = 2 * m * A := by
      rw [hA]
      field_simp
      norm_num
    have r1 := sq_inv h 2
    have r2 := congrArg (x c * x j * ·) (sq_inv h 4)
    simp only [sq2] at r1 r2
    simp only [kx, if_true, ← hA, hL, Finset.sum_range_succ, Finset.range_zero, Finset.sum_empty]
    clear hA hL e e'
    interval_cases j <;> interval_cases c <;> simp [RX.diff, RX.eval, kron] <;>
      first
      | linear_combination (-2 * m * A) * r1 + (-8 * m * A) * r2
      | linear_combination (-8 * m * A) * r2
  · obtain ⟨A, hA⟩ : ∃ A, A = 1 / (8 * π * m) := ⟨_, rfl⟩
    have hL : 1 / (4 * π) = 2 * m * A := by
      rw [hA]
      field_simp
      norm_num
    have r1 := sq_inv h 3
    have r2 := congrArg (x c * x j * ·) (sq_inv h 5)
    simp only [sq3] at r1 r2
    simp only [kx, if_false, show ¬ (3 = 2) by decide, ← hA, hL, Finset.sum_range_succ, Finset.range_zero,
      Finset.sum_empty]
    clear hA hL e e'
    interval_cases j <;> interval_cases c <;> simp [RX.diff, RX.eval, kron] <;>
      first
      | linear_combination (-3 * m * A) * r1 + (-15 * m * A) * r2
      | linear_combination (-15 * m * A) * r2

/-- the Stresslet is the stress of the Stokeslet -/
theorem sl_stress (dim : Nat) (hd : dim = 2 ∨ dim = 3) (m : ℝ) (hm : m ≠ 0) (c i j : Nat) (hc : c < dim)
    (hi : i < dim) (hj : j < dim) (x : Pt) (h : 0 < sq dim x) :
    kernel (.stresslet dim c i j) m x
      = - (kron c i * pds (kernel (.laplace dim) m) [j] x)
        + m * (pds (kernel (.stokeslet dim c j) m) [i] x + pds (kernel (.stokeslet dim i j) m) [c] x) := by
  have e1 : pds (kernel (.laplace dim) m) [j] x = ((kx (.laplace dim) m).diff j).eval dim x :=
    pds_kernel (.laplace dim) m [j] (by simp [kdim, hj]) x h
  have e2 : pds (kernel (.stokeslet dim c j) m) [i] x = ((kx (.stokeslet dim c j) m).diff i).eval dim x :=
    pds_kernel (.stokeslet dim c j) m [i] (by simp [kdim, hi]) x h
  have e3 : pds (kernel (.stokeslet dim i j) m) [c] x = ((kx (.stokeslet dim i j) m).diff c).eval dim x :=
    pds_kernel (.stokeslet dim i j) m [c] (by simp [kdim, hc]) x h
  have e4 : kernel (.stresslet dim c i j) m x = (kx (.stresslet dim c i j) m).eval dim x :=
    congrFun (kernel_eq (.stresslet dim c i j) m) x
  rw [e1, e2, e3, e4]
  have hpi : π ≠ 0 := Real.pi_ne_zero
  rcases hd with rfl | rfl
  · obtain ⟨A, hA⟩ : ∃ A, A = 1 / (4 * π * m) := ⟨_, rfl⟩
    have hL : 1 / (2 * π) = 2 * m * A := by
      rw [hA]
      field_simp
      norm_num
    have hT : 1 / π = 4 * m * A := by
      rw [hA]
      field_simp
    simp only [kx, if_true, ← hA, hL, hT]
    clear hA hL hT e1 e2 e3 e4
    interval_cases j <;> interval_cases c <;> interval_cases i <;> simp [RX.diff, RX.eval, kron] <;> ring
  · obtain ⟨A, hA⟩ : ∃ A, A = 1 / (8 * π * m) := ⟨_, rfl⟩
    have hL : 1 / (4 * π) = 2 * m * A := by
      rw [hA]
      field_simp
      norm_num
    have hT : 3 / (4 * π) = 6 * m * A := by
      rw [hA]
      field_simp
      norm_num
    simp only [kx, if_false, show ¬ (3 = 2) by decide, ← hA, hL, hT]
    clear hA hL hT e1 e2 e3 e4
    interval_cases j <;> interval_cases c <;> interval_cases i <;> simp [RX.diff, RX.eval, kron] <;> ring

/-- the Stresslet is divergence free -/
theorem dl_div (dim : Nat) (hd : dim = 2 ∨ dim = 3) (m : ℝ) (i j : Nat) (hi : i < dim) (hj : j < dim) (x : Pt)
    (h : 0 < sq dim x) :
    ∑ c ∈ range dim, pds (kernel (.stresslet dim c i j) m) [c] x = 0 := by
  have e : ∀ c ∈ range dim, pds (kernel (.stresslet dim c i j) m) [c] x
      = ((kx (.stresslet dim c i j) m).diff c).eval dim x := fun c hc =>
    pds_kernel (.stresslet dim c i j) m [c] (by simpa [kdim] using hc) x h
  rw [Finset.sum_congr rfl e]
  rcases hd with rfl | rfl
  · have r := congrArg (x i * x j * ·) (sq_inv h 4)
    simp only [sq2] at r
    obtain ⟨A, hA⟩ : ∃ A, A = 1 / π := ⟨_, rfl⟩
    simp only [kx, if_true, ← hA, Finset.sum_range_succ, Finset.range_zero, Finset.sum_empty]
    clear e hA
    interval_cases i <;> interval_cases j <;> simp [RX.diff, RX.eval, kron] <;>
      linear_combination (-4 * A) * r
  · have r := congrArg (x i * x j * ·) (sq_inv h 5)
    simp only [sq3] at r
    obtain ⟨A, hA⟩ : ∃ A, A = 3 / (4 * π) := ⟨_, rfl⟩
    simp only [kx, if_false, show ¬ (3 = 2) by decide, ← hA, Finset.sum_range_succ, Finset.range_zero,
      Finset.sum_empty]
    clear e hA
    interval_cases i <;> interval_cases j <;> simp [RX.diff, RX.eval, kron] <;>
      linear_combination (-5 * A) * r

/-- the Stresslet, with twice the viscosity times the second derivatives of the Laplace kernel as its
pressure, satisfies the Stokes equations -/
theorem dl_momentum (dim : Nat) (hd : dim = 2 ∨ dim = 3) (m : ℝ) (i j c : Nat) (hi : i < dim) (hj : j < dim)
    (hc : c < dim) (x : Pt) (h : 0 < sq dim x) :
    m * ∑ k ∈ range dim, pds (kernel (.stresslet dim c i j) m) [k, k] x
      = 2 * m * pds (kernel (.laplace dim) m) [c, i, j] x := by
  have e : ∀ k ∈ range dim, pds (kernel (.stresslet dim c i j) m) [k, k] x
      = (((kx (.stresslet dim c i j) m).diff k).diff k).eval dim x := fun k hk =>
    pds_kernel (.stresslet dim c i j) m [k, k] (by simpa [kdim] using hk) x h
  have e' : pds (kernel (.laplace dim) m) [c, i, j] x
      = ((((kx (.laplace dim) m).diff j).diff i).diff c).eval dim x :=
    pds_kernel (.laplace dim) m [c, i, j] (by simp [kdim, hi, hj, hc]) x h
  rw [Finset.sum_congr rfl e, e']
  have hpi : π ≠ 0 := Real.pi_ne_zero
  rcases hd with rfl | rfl
  · obtain ⟨A, hA⟩ : ∃ A, A = 1 / (2 * π) := ⟨_, rfl⟩
    have hT : 1 / π = 2 * A := by
      rw [hA]
      field_simp
    have r := congrArg (x i * x j * x c * ·) (sq_inv h 6)
    simp only [sq2] at r
    simp only [kx, if_true, ← hA, hT, Finset.sum_range_succ, Finset.range_zero, Finset.sum_empty]
    clear hA hT e e'
    interval_cases i <;> interval_cases j <;> interval_cases c <;> simp [RX.diff, RX.eval, kron] <;>
      linear_combination (48 * m * A) * r
  · obtain ⟨A, hA⟩ : ∃ A, A = 1 / (4 * π) := ⟨_, rfl⟩
    have hT : 3 / (4 * π) = 3 * A := by
      rw [hA]
      field_simp
    have r := congrArg (x i * x j * x c * ·) (sq_inv h 7)
    simp only [sq3] at r
    simp only [kx, if_false, show ¬ (3 = 2) by decide, ← hA, hT, Finset.sum_range_succ, Finset.range_zero,
      Finset.sum_empty]
    clear hA hT e e'
    interval_cases i <;> interval_cases j <;> interval_cases c <;> simp [RX.diff, RX.eval, kron] <;>
      linear_combination (105 * m * A) * r

end Verif.Flow
