import Verif.Surface.SmallMat
import Verif.Surface.Frames
import Mathlib.Analysis.SpecialFunctions.Sqrt
import Mathlib.Analysis.SpecialFunctions.Pow.Real
import Mathlib.Analysis.Calculus.Deriv.Mul
import Mathlib.Analysis.Calculus.Deriv.Inv
import Mathlib.Analysis.Calculus.Deriv.Add
import Mathlib.Analysis.Calculus.Deriv.Pow
import Mathlib.LinearAlgebra.Matrix.NonsingularInverse

/-!
# Curvatures (C73)

Models `mean_curvature`, `first_fundamental_form`, `second_fundamental_form`, `shape_operator`,
`_max_curvature` and `_scaled_max_curvature` (`pytential/symbolic/primitives.py:939-1053`, `1258-1303`) as
the real numbers their expressions evaluate to at one point, from the first and second derivatives of the
parametrization there.  Differentiation on elements and rounding are not modelled.
-/

namespace Verif.Curvature

open Verif.Frames Verif.Surface

/-- first and second reference derivatives of the coordinates at a point: `d1 axis component`,
`d2 axis axis component` (`num_reference_derivative`, `reference_jacobian`, `primitives.py:790-850`) -/
structure Jet where
  d1 : Nat → Nat → ℝ
  d2 : Nat → Nat → Nat → ℝ

/-- a derivative as a vector -/
def vec (n : Nat) (v : Nat → ℝ) : Vec n := fun i => v i

/-- the formula for curves (`primitives.py:951-959`) -/
noncomputable def curvature2 (xp yp xpp ypp : ℝ) : ℝ := (xp * ypp - yp * xpp) / (xp ^ 2 + yp ^ 2) ^ ((3 : ℝ) / 2)

/-- `first_fundamental_form` of a surface (`primitives.py:973-984`): `pd_mat.T @ pd_mat` -/
def fundForm1 (ru rv : Vec 3) (i j : Nat) : ℝ :=
  ent2 (dot ru ru) (dot ru rv) (dot rv ru) (dot rv rv) i j

/-- `second_fundamental_form` (`primitives.py:982-1026`) -/
noncomputable def fundForm2 (ru rv ruu ruv rvv : Vec 3) (i j : Nat) : ℝ :=
  ent2 (dot ruu (normal3 ru rv)) (dot ruv (normal3 ru rv)) (dot ruv (normal3 ru rv)) (dot rvv (normal3 ru rv)) i j

/-- `shape_operator` of a surface from its derivatives (`primitives.py:1031-1053`) -/
noncomputable def shapeOp (ru rv ruu ruv rvv : Vec 3) : Mat :=
  shapeOperator (fundForm1 ru rv 0 0) (fundForm1 ru rv 0 1) (fundForm1 ru rv 1 1)
    (fundForm2 ru rv ruu ruv rvv 0 0) (fundForm2 ru rv ruu ruv rvv 0 1) (fundForm2 ru rv ruu ruv rvv 1 1)

/-- the formula for surfaces (`primitives.py:961-964`) -/
noncomputable def curvature3 (ru rv ruu ruv rvv : Vec 3) : ℝ :=
  -(1 / 2) * ((shapeOp ru rv ruu ruv rvv).e 0 0 + (shapeOp ru rv ruu ruv rvv).e 1 1)

/-- `mean_curvature` (`primitives.py:939-970`) -/
noncomputable def meanCurvature (ambient : Nat) (dim : Option Nat) (j : Jet) : Except Err ℝ :=
  let dim := dim.getD (ambient - 1)
  if ambient = 2 ∧ dim = 1 then .ok (curvature2 (j.d1 0 0) (j.d1 0 1) (j.d2 0 0 0) (j.d2 0 0 1))
  else if ambient = 3 ∧ dim = 2 then
    .ok (curvature3 (vec 3 (j.d1 0)) (vec 3 (j.d1 1)) (vec 3 (j.d2 0 0)) (vec 3 (j.d2 0 1)) (vec 3 (j.d2 1 1)))
  else .error .notImplemented

/-- `_max_curvature` (`primitives.py:1258-1282`) -/
noncomputable def maxCurv (ambient : Nat) (dim : Option Nat) (j : Jet) : Except Err ℝ :=
  let dim' := dim.getD (ambient - 1)
  if ambient = 2 then (meanCurvature ambient (some dim') j).map fun x => |x|
  else if ambient = 3 then
    if dim' = 2 then
      let ru := vec 3 (j.d1 0)
      let rv := vec 3 (j.d1 1)
      maxCurvature (fundForm1 ru rv 0 0) (fundForm1 ru rv 0 1) (fundForm1 ru rv 1 1)
        (fundForm2 ru rv (vec 3 (j.d2 0 0)) (vec 3 (j.d2 0 1)) (vec 3 (j.d2 1 1)) 0 0)
        (fundForm2 ru rv (vec 3 (j.d2 0 0)) (vec 3 (j.d2 0 1)) (vec 3 (j.d2 1 1)) 0 1)
        (fundForm2 ru rv (vec 3 (j.d2 0 0)) (vec 3 (j.d2 0 1)) (vec 3 (j.d2 1 1)) 1 1)
    else .error .notImplemented
  else .error .notImplemented

/-- `_scaled_max_curvature` (`primitives.py:1285-1303`), for hypercube elements -/
noncomputable def scaledMaxCurv (ambient : Nat) (dim : Option Nat) (j : Jet) : Except Err ℝ := do
  let c ← maxCurv ambient dim j
  let s ← hypercubeStretch ambient (dim.getD (ambient - 1)) (fun r c => j.d1 c r)
  pure (c * s)

/-! # Specification -/

/-- the derivatives of the composition of a curve with a change of parameter with derivatives `p`, `q` -/
def reparam2 (p q xp xpp : ℝ) : ℝ × ℝ := (p * xp, p ^ 2 * xpp + q * xp)

/-- normal curvature of a surface in the tangent direction `a ru + b rv`, with the normal of the code: the part along the
normal of the acceleration of a curve on the surface with this velocity -/
noncomputable def normalCurvature (ru rv ruu ruv rvv : Vec 3) (a b : ℝ) : ℝ :=
  dot (a ^ 2 • ruu + (2 * a * b) • ruv + b ^ 2 • rvv) (normal3 ru rv)

/-- the given jet scaled by a factor -/
def Jet.scale (l : ℝ) (j : Jet) : Jet := ⟨fun a c => l * j.d1 a c, fun a b c => l * j.d2 a b c⟩

/-- velocity of a curve on the surface with coefficients `a` with respect to the parameters -/
def velocity (j : Jet) (a : Nat → ℝ) : Vec 3 := fun c => ∑ i ∈ Finset.range 2, a i * j.d1 i c

/-- acceleration of such a curve (up to tangential vectors) -/
def acceleration (j : Jet) (a : Nat → ℝ) : Vec 3 :=
  fun c => ∑ i ∈ Finset.range 2, ∑ k ∈ Finset.range 2, a i * a k * j.d2 i k c

/-- the unit normal of the code -/
noncomputable def jetNormal (j : Jet) : Vec 3 := normal3 (fun c => j.d1 0 c) (fun c => j.d1 1 c)

/-! # Properties -/

theorem pow32 (s : ℝ) (hs : 0 < s) : s ^ ((3 : ℝ) / 2) = s * √s := by
  have : (3 : ℝ) / 2 = 1 + 1 / 2 := by norm_num
  rw [this, Real.rpow_add hs, Real.rpow_one, ← Real.sqrt_eq_rpow]

/-- **C73**: mean curvatures are available exactly for curves in the plane and surfaces in space; an omitted dimension is
one less than that of the space. -/
theorem C73_available (ambient : Nat) (dim : Option Nat) (j : Jet) :
    ((∃ k, meanCurvature ambient dim j = .ok k) ↔
      (ambient = 2 ∧ (dim = none ∨ dim = some 1)) ∨ (ambient = 3 ∧ (dim = none ∨ dim = some 2))) ∧
    meanCurvature ambient none j = meanCurvature ambient (some (ambient - 1)) j ∧
    ∀ e, meanCurvature ambient dim j = .error e → e = .notImplemented := by
  unfold meanCurvature
  refine ⟨?_, rfl, ?_⟩
  · cases dim with
    | none =>
      simp only [Option.getD_none]
      by_cases h2 : ambient = 2
      · subst h2; simp
      · by_cases h3 : ambient = 3
        · subst h3; simp
        · simp [h2, h3]
    | some d =>
      simp only [Option.getD_some]
      by_cases h2 : ambient = 2
      · subst h2
        by_cases hd : d = 1 <;> simp [hd]
      · by_cases h3 : ambient = 3
        · subst h3
          by_cases hd : d = 2 <;> simp [hd]
        · simp [h2, h3]
  · intro e
    simp only
    split
    · intro h; cases h
    · split
      · intro h; cases h
      · intro h; cases h; rfl

/-- **C73, curves**: `mean_curvature` is the signed curvature of the Frenet formula: the unit tangent of any regular, twice
differentiable curve turns with it, towards the side opposite to the normal of the code if it is positive. -/
theorem C73_frenet (xp yp : ℝ → ℝ) (xpp ypp t : ℝ) (hx : HasDerivAt xp xpp t) (hy : HasDerivAt yp ypp t)
    (hreg : xp t ≠ 0 ∨ yp t ≠ 0) :
    let speed := √(xp t ^ 2 + yp t ^ 2)
    let k := curvature2 (xp t) (yp t) xpp ypp
    HasDerivAt (fun s => xp s / √(xp s ^ 2 + yp s ^ 2)) (-(k * speed) * normal2 ![xp t, yp t] 0) t ∧
    HasDerivAt (fun s => yp s / √(xp s ^ 2 + yp s ^ 2)) (-(k * speed) * normal2 ![xp t, yp t] 1) t := by
  intro speed k
  have hpos : 0 < xp t ^ 2 + yp t ^ 2 := by
    rcases hreg with h | h
    · have := sq_pos_of_ne_zero h; nlinarith [sq_nonneg (yp t)]
    · have := sq_pos_of_ne_zero h; nlinarith [sq_nonneg (xp t)]
  have hsp : 0 < speed := Real.sqrt_pos.2 hpos
  have hsq : speed ^ 2 = xp t ^ 2 + yp t ^ 2 := Real.sq_sqrt hpos.le
  have hk : k = (xp t * ypp - yp t * xpp) / speed ^ 3 := by
    show curvature2 _ _ _ _ = _
    rw [curvature2, pow32 _ hpos, ← hsq, Real.sqrt_sq hsp.le]
    ring
  have harea : areaElement ![xp t, yp t] = speed := by
    simp [areaElement, Fin.sum_univ_two, speed]
  have hd : HasDerivAt (fun s => √(xp s ^ 2 + yp s ^ 2))
      ((2 * xp t * xpp + 2 * yp t * ypp) / (2 * speed)) t := by
    have h0 : HasDerivAt (fun s => xp s ^ 2 + yp s ^ 2) (2 * xp t * xpp + 2 * yp t * ypp) t := by
      have := HasDerivAt.fun_add (hx.fun_pow 2) (hy.fun_pow 2)
      simpa using this
    exact h0.sqrt (ne_of_gt hpos)
  have hne : speed ≠ 0 := ne_of_gt hsp
  refine ⟨?_, ?_⟩
  · refine (hx.div hd hne).congr_deriv ?_
    show (xpp * speed - xp t * _) / speed ^ 2 = _
    simp only [normal2, dual2, harea, hk, Matrix.cons_val_zero, Matrix.cons_val_one]
    field_simp
    linear_combination xpp * hsq
  · refine (hy.div hd hne).congr_deriv ?_
    show (ypp * speed - yp t * _) / speed ^ 2 = _
    simp only [normal2, dual2, harea, hk, Matrix.cons_val_zero, Matrix.cons_val_one]
    field_simp
    linear_combination ypp * hsq

/-- **C73, curves**: the curvature does not depend on the parametrization, except that it changes sign with the
orientation. -/
theorem C73_reparam_2d (p q xp yp xpp ypp : ℝ) (hreg : xp ≠ 0 ∨ yp ≠ 0) :
    let x' := reparam2 p q xp xpp
    let y' := reparam2 p q yp ypp
    (0 < p → curvature2 x'.1 y'.1 x'.2 y'.2 = curvature2 xp yp xpp ypp) ∧
    (p < 0 → curvature2 x'.1 y'.1 x'.2 y'.2 = -curvature2 xp yp xpp ypp) := by
  have hpos : 0 < xp ^ 2 + yp ^ 2 := by
    rcases hreg with h | h
    · have := sq_pos_of_ne_zero h; nlinarith [sq_nonneg yp]
    · have := sq_pos_of_ne_zero h; nlinarith [sq_nonneg xp]
  have hs : 0 < √(xp ^ 2 + yp ^ 2) := Real.sqrt_pos.2 hpos
  have key : ∀ a : ℝ, 0 < a → a ^ 2 = p ^ 2 →
      ((p * xp) ^ 2 + (p * yp) ^ 2) ^ ((3 : ℝ) / 2) = a ^ 3 * ((xp ^ 2 + yp ^ 2) * √(xp ^ 2 + yp ^ 2)) := by
    intro a ha h
    have h1 : (p * xp) ^ 2 + (p * yp) ^ 2 = a ^ 2 * (xp ^ 2 + yp ^ 2) := by rw [h]; ring
    rw [h1, pow32 _ (by positivity), Real.sqrt_mul (by positivity), Real.sqrt_sq ha.le]
    ring
  intro x' y'
  refine ⟨fun hp => ?_, fun hp => ?_⟩
  · simp only [x', y', reparam2, curvature2]
    rw [key p hp rfl, pow32 _ hpos]
    field_simp
    ring
  · simp only [x', y', reparam2, curvature2]
    rw [key (-p) (by linarith) (by ring), pow32 _ hpos]
    have hp' : p ≠ 0 := ne_of_lt hp
    field_simp
    ring

/-- **C73, curves**: rotations and translations leave the curvature alone, reflections change its sign, and scaling by
`l > 0` divides it by `l`. -/
theorem C73_motions_2d (xp yp xpp ypp c s l : ℝ) (hcs : c ^ 2 + s ^ 2 = 1) (hl : 0 < l) :
    curvature2 (c * xp - s * yp) (s * xp + c * yp) (c * xpp - s * ypp) (s * xpp + c * ypp) = curvature2 xp yp xpp ypp ∧
    curvature2 yp xp ypp xpp = -curvature2 xp yp xpp ypp ∧
    curvature2 (l * xp) (l * yp) (l * xpp) (l * ypp) = curvature2 xp yp xpp ypp / l := by
  refine ⟨?_, ?_, ?_⟩
  · have h1 : (c * xp - s * yp) ^ 2 + (s * xp + c * yp) ^ 2 = xp ^ 2 + yp ^ 2 := by
      linear_combination (xp ^ 2 + yp ^ 2) * hcs
    simp only [curvature2, h1]
    congr 1
    linear_combination (xp * ypp - yp * xpp) * hcs
  · simp only [curvature2, add_comm (yp ^ 2)]
    rw [← neg_div]
    congr 1
    ring
  · by_cases h0 : xp ^ 2 + yp ^ 2 = 0
    · have hx : xp = 0 := by nlinarith [sq_nonneg xp, sq_nonneg yp]
      have hy : yp = 0 := by nlinarith [sq_nonneg xp, sq_nonneg yp]
      simp [curvature2, hx, hy]
    · have hpos : 0 < xp ^ 2 + yp ^ 2 := lt_of_le_of_ne (by positivity) (Ne.symm h0)
      have h1 : (l * xp) ^ 2 + (l * yp) ^ 2 = l ^ 2 * (xp ^ 2 + yp ^ 2) := by ring
      have hs : 0 < √(xp ^ 2 + yp ^ 2) := Real.sqrt_pos.2 hpos
      simp only [curvature2]
      rw [h1, pow32 _ (by positivity), pow32 _ hpos, Real.sqrt_mul (by positivity), Real.sqrt_sq hl.le]
      field_simp

/-- **C73, curves**: circles of radius `R`, however parametrized, have curvature `1/R` if positively oriented, i.e. if the
normal of the code points outwards, and `-1/R` else.  (`c`, `s`: cosine and sine of the angle, `p`, `q`: first and second
derivative of the angle.) -/
theorem C73_circle (R c s p q : ℝ) (hR : 0 < R) (hcs : c ^ 2 + s ^ 2 = 1) :
    let k := curvature2 (-R * s * p) (R * c * p) (-R * c * p ^ 2 - R * s * q) (-R * s * p ^ 2 + R * c * q)
    let n := normal2 ![-R * s * p, R * c * p]
    (0 < p → k = 1 / R ∧ n 0 = c ∧ n 1 = s) ∧ (p < 0 → k = -1 / R ∧ n 0 = -c ∧ n 1 = -s) := by
  intro k n
  have h1 : (-R * s * p) ^ 2 + (R * c * p) ^ 2 = (R * p) ^ 2 := by linear_combination (R ^ 2 * p ^ 2) * hcs
  have h2 : -R * s * p * (-R * s * p ^ 2 + R * c * q) - R * c * p * (-R * c * p ^ 2 - R * s * q) = R ^ 2 * p ^ 3 := by
    linear_combination (R ^ 2 * p ^ 3) * hcs
  have ha : areaElement ![-R * s * p, R * c * p] = |R * p| := by
    rw [areaElement, Fin.sum_univ_two]
    simp only [Matrix.cons_val_zero, Matrix.cons_val_one]
    rw [h1, Real.sqrt_sq_eq_abs]
  have hk : p ≠ 0 → k = R ^ 2 * p ^ 3 / ((R * p) ^ 2 * |R * p|) := by
    intro hp
    have : 0 < (R * p) ^ 2 := by positivity
    simp only [k, curvature2]
    rw [h1, h2, pow32 _ this, Real.sqrt_sq_eq_abs]
  refine ⟨fun hp => ?_, fun hp => ?_⟩
  · have habs : |R * p| = R * p := abs_of_pos (by positivity)
    have hp' : p ≠ 0 := ne_of_gt hp
    refine ⟨?_, ?_, ?_⟩
    · rw [hk hp', habs]; field_simp
    · simp only [n, normal2, dual2, ha, habs, Matrix.cons_val_zero, Matrix.cons_val_one]; field_simp
    · simp only [n, normal2, dual2, ha, habs, Matrix.cons_val_zero, Matrix.cons_val_one]; field_simp
  · have habs : |R * p| = -(R * p) := abs_of_neg (by nlinarith)
    have hp' : p ≠ 0 := ne_of_lt hp
    refine ⟨?_, ?_, ?_⟩
    · rw [hk hp', habs]; field_simp
    · simp only [n, normal2, dual2, ha, habs, Matrix.cons_val_zero, Matrix.cons_val_one]; field_simp
    · simp only [n, normal2, dual2, ha, habs, Matrix.cons_val_zero, Matrix.cons_val_one]; field_simp

example : (3 / 5 : ℝ) ^ 2 + (4 / 5) ^ 2 = 1 := by norm_num

/-! ## Surfaces -/

theorem gram_pos (ru rv : Vec 3) (h : wedge3 ru rv ≠ 0) : 0 < dot ru ru * dot rv rv - dot ru rv * dot ru rv := by
  obtain ⟨-, -, -, h4, h5, -⟩ := C55_normal_3d ru rv h
  have := pow_pos h5 2
  rw [h4] at this
  nlinarith

theorem curvature3_eq (ru rv ruu ruv rvv : Vec 3) :
    curvature3 ru rv ruu ruv rvv
      = -(dot ruu (normal3 ru rv) * dot rv rv - 2 * (dot ruv (normal3 ru rv) * dot ru rv)
          + dot rvv (normal3 ru rv) * dot ru ru) / (2 * (dot ru ru * dot rv rv - dot ru rv * dot ru rv)) := by
  simp only [curvature3, shapeOp, shapeOperator, ent2, fundForm1, fundForm2, if_true, one_ne_zero, if_false]
  rw [show ∀ a b : ℝ, a / (2 * b) = 1 / 2 * (1 / b * a) from fun a b => by
    by_cases hb : b = 0
    · simp [hb]
    · field_simp]
  ring

/-- **C73, surfaces**: the mean curvature is minus the mean of the principal curvatures. -/
theorem C73_principal (ru rv ruu ruv rvv : Vec 3) (h : wedge3 ru rv ≠ 0) :
    ∃ k1 k2, smallMatEigenvalues (shapeOp ru rv ruu ruv rvv) = .ok [k1, k2] ∧
      (∀ k, IsEigenvalue (shapeOp ru rv ruu ruv rvv) k ↔ k = k1 ∨ k = k2) ∧
      curvature3 ru rv ruu ruv rvv = -((k1 + k2) / 2) := by
  have hg := gram_pos ru rv h
  have hE : 0 < dot ru ru := by
    rcases (dot_self_nonneg ru).lt_or_eq with h | h
    · exact h
    · exfalso
      rw [← h] at hg
      nlinarith [mul_self_nonneg (dot ru rv)]
  have hd := shape_discriminant (fundForm1 ru rv 0 0) (fundForm1 ru rv 0 1) (fundForm1 ru rv 1 1)
    (fundForm2 ru rv ruu ruv rvv 0 0) (fundForm2 ru rv ruu ruv rvv 0 1) (fundForm2 ru rv ruu ruv rvv 1 1)
    (by simpa [fundForm1, ent2] using hE) (by simpa [fundForm1, ent2] using hg)
  obtain ⟨ls, h1, -, -, h2⟩ := C43_eigenvalues (shapeOp ru rv ruu ruv rvv) rfl (Or.inr rfl) (fun _ => hd)
  have h1' := h1
  rw [smallMatEigenvalues, if_neg (by simp [shapeOp, shapeOperator]), if_neg (by simp [shapeOp, shapeOperator]),
    if_pos (by simp [shapeOp, shapeOperator])] at h1'
  simp only [Except.ok.injEq] at h1'
  refine ⟨_, _, h1.trans (by rw [← h1']), ?_, ?_⟩
  · intro k
    rw [h2 k, ← h1']
    simp
  · simp only [curvature3]
    ring

/-- **C73, surfaces**: the mean curvature is minus the mean of the normal curvatures in any two orthogonal directions. -/
theorem C73_mean_of_normal (ru rv ruu ruv rvv : Vec 3) (h : wedge3 ru rv ≠ 0) (a b c d : ℝ)
    (h1 : dot (a • ru + b • rv) (a • ru + b • rv) = 1) (h2 : dot (c • ru + d • rv) (c • ru + d • rv) = 1)
    (h3 : dot (a • ru + b • rv) (c • ru + d • rv) = 0) :
    curvature3 ru rv ruu ruv rvv
      = -((normalCurvature ru rv ruu ruv rvv a b + normalCurvature ru rv ruu ruv rvv c d) / 2) := by
  have hg := gram_pos ru rv h
  have hadd : ∀ u v w : Vec 3, dot (u + v) w = dot u w + dot v w := fun u v w => by
    rw [dot_comm, dot_add, dot_comm w, dot_comm w]
  have hsm : ∀ (r : ℝ) (u w : Vec 3), dot (r • u) w = r * dot u w := fun r u w => by
    rw [dot_comm, dot_smul, dot_comm]
  simp only [dot_add, hadd, hsm, dot_smul, dot_comm rv ru] at h1 h2 h3
  rw [curvature3_eq]
  simp only [normalCurvature, hadd, hsm]
  generalize dot ruu (normal3 ru rv) = e
  generalize dot ruv (normal3 ru rv) = f
  generalize dot rvv (normal3 ru rv) = g
  generalize dot ru ru = E at *
  generalize dot ru rv = F at *
  generalize dot rv rv = G at *
  have hM : (!![a, b; c, d] * !![E, F; F, G]) * !![a, c; b, d] = (1 : Matrix (Fin 2) (Fin 2) ℝ) := by
    rw [Matrix.mul_fin_two, Matrix.mul_fin_two, Matrix.one_fin_two]
    ext i j
    fin_cases i <;> fin_cases j <;> simp <;> linarith
  rw [mul_eq_one_comm, ← Matrix.mul_assoc, Matrix.mul_fin_two, Matrix.mul_fin_two, Matrix.one_fin_two] at hM
  have e00 := congrFun (congrFun hM 0) 0
  have e01 := congrFun (congrFun hM 0) 1
  have e10 := congrFun (congrFun hM 1) 0
  have e11 := congrFun (congrFun hM 1) 1
  simp at e00 e01 e10 e11
  have k1 : (a ^ 2 + c ^ 2) * (E * G - F * F) = G := by linear_combination G * e00 - F * e01
  have k2 : (b ^ 2 + d ^ 2) * (E * G - F * F) = E := by linear_combination E * e11 - F * e10
  have k3 : (a * b + c * d) * (E * G - F * F) = -F := by linear_combination E * e01 - F * e00
  have hne : E * G - F * F ≠ 0 := ne_of_gt hg
  rw [div_eq_iff (by positivity)]
  linear_combination e * k1 + g * k2 + 2 * f * k3

/-- directions as in `C73_mean_of_normal` exist: on a plane they are the axes -/
example : dot ((1 : ℝ) • (![1, 0, 0] : Vec 3) + (0 : ℝ) • ![0, 1, 0]) ((1 : ℝ) • ![1, 0, 0] + (0 : ℝ) • ![0, 1, 0]) = 1 ∧
    wedge3 ![1, 0, 0] ![0, 1, 0] ≠ 0 := by
  constructor
  · simp [dot, Fin.sum_univ_three]
  · intro h
    have := congrFun h 2
    simp [wedge3] at this

theorem dot_add_left (u v w : Vec 3) : dot (u + v) w = dot u w + dot v w := by
  rw [dot_comm, dot_add, dot_comm w, dot_comm w]

theorem dot_smul_left (r : ℝ) (u w : Vec 3) : dot (r • u) w = r * dot u w := by
  rw [dot_comm, dot_smul, dot_comm]

theorem wedge3_comb (ru rv : Vec 3) (a b c d : ℝ) :
    wedge3 (a • ru + b • rv) (c • ru + d • rv) = (a * d - b * c) • wedge3 ru rv := by
  funext i
  fin_cases i <;> simp [wedge3] <;> ring

theorem area_smul (r : ℝ) (w : Vec 3) : areaElement (r • w) = |r| * areaElement w := by
  simp only [areaElement, Pi.smul_apply, smul_eq_mul, mul_pow, ← Finset.mul_sum]
  rw [Real.sqrt_mul (sq_nonneg r), Real.sqrt_sq_eq_abs]

theorem normal3_comb (ru rv : Vec 3) (a b c d : ℝ) :
    normal3 (a • ru + b • rv) (c • ru + d • rv) = ((a * d - b * c) / |a * d - b * c|) • normal3 ru rv := by
  funext i
  simp only [normal3, wedge3_comb, area_smul, Pi.smul_apply, smul_eq_mul]
  by_cases h : a * d - b * c = 0
  · simp [h]
  · have : |a * d - b * c| ≠ 0 := abs_ne_zero.2 h
    rw [mul_div_mul_comm]

/-- **C73, surfaces**: the mean curvature does not depend on the parametrization, except that it changes sign with the
orientation.  (`a b c d`: first derivatives of the old parameters with respect to the new; `p`, `q`: their second
derivatives.) -/
theorem C73_reparam_3d (ru rv ruu ruv rvv : Vec 3) (h : wedge3 ru rv ≠ 0) (a b c d : ℝ) (p q : Fin 3 → ℝ) :
    let k' := curvature3 (a • ru + b • rv) (c • ru + d • rv)
      (a ^ 2 • ruu + (2 * a * b) • ruv + b ^ 2 • rvv + p 0 • ru + q 0 • rv)
      ((a * c) • ruu + (a * d + b * c) • ruv + (b * d) • rvv + p 1 • ru + q 1 • rv)
      (c ^ 2 • ruu + (2 * c * d) • ruv + d ^ 2 • rvv + p 2 • ru + q 2 • rv)
    (0 < a * d - b * c → k' = curvature3 ru rv ruu ruv rvv) ∧
    (a * d - b * c < 0 → k' = -curvature3 ru rv ruu ruv rvv) := by
  intro k'
  obtain ⟨-, hn1, hn2, -, -, -⟩ := C55_normal_3d ru rv h
  rw [dot_comm] at hn1 hn2
  have hg := gram_pos ru rv h
  have key : ∀ σ : ℝ, (a * d - b * c) / |a * d - b * c| = σ → a * d - b * c ≠ 0 →
      k' = σ * curvature3 ru rv ruu ruv rvv := by
    intro σ hσ hne
    simp only [k']
    rw [curvature3_eq, curvature3_eq, normal3_comb, hσ]
    simp only [dot_add_left, dot_smul_left, dot_add, dot_smul, hn1, hn2, dot_comm rv ru]
    generalize dot ruu (normal3 ru rv) = e
    generalize dot ruv (normal3 ru rv) = f
    generalize dot rvv (normal3 ru rv) = g
    generalize dot ru ru = E at *
    generalize dot ru rv = F at *
    generalize dot rv rv = G at *
    have hne' : E * G - F * F ≠ 0 := ne_of_gt hg
    have hD : (a * (a * E + b * F) + b * (a * F + b * G)) * (c * (c * E + d * F) + d * (c * F + d * G))
        - (a * (c * E + d * F) + b * (c * F + d * G)) * (a * (c * E + d * F) + b * (c * F + d * G))
        = (a * d - b * c) ^ 2 * (E * G - F * F) := by ring
    have hD' : (a * (a * E + b * F) + b * (a * F + b * G)) * (c * (c * E + d * F) + d * (c * F + d * G))
        - (c * (a * E + b * F) + d * (a * F + b * G)) * (c * (a * E + b * F) + d * (a * F + b * G))
        = (a * d - b * c) ^ 2 * (E * G - F * F) := by ring
    first
      | rw [hD]
      | rw [hD']
    rw [mul_div_assoc', div_eq_div_iff (by positivity) (by positivity)]
    ring
  refine ⟨fun hp => ?_, fun hp => ?_⟩
  · rw [key 1 (by rw [abs_of_pos hp, div_self (ne_of_gt hp)]) (ne_of_gt hp), one_mul]
  · rw [key (-1) (by rw [abs_of_neg hp, div_neg, div_self (ne_of_lt hp)]) (ne_of_lt hp)]
    ring

/-- **C73, surfaces**: spheres of radius `R`, however parametrized, have mean curvature `1/R` if the normal of the code
points outwards and `-1/R` if inwards.  (`x` is the position relative to the center; the hypotheses say that the
equation of the sphere holds up to second order.) -/
theorem C73_sphere (R : ℝ) (hR : 0 < R) (x ru rv ruu ruv rvv : Vec 3) (h : wedge3 ru rv ≠ 0) (h0 : dot x x = R ^ 2)
    (h1 : dot x ru = 0) (h2 : dot x rv = 0) (h3 : dot x ruu = -dot ru ru) (h4 : dot x ruv = -dot ru rv)
    (h5 : dot x rvv = -dot rv rv) :
    (0 < dot (normal3 ru rv) x → curvature3 ru rv ruu ruv rvv = 1 / R) ∧
    (dot (normal3 ru rv) x < 0 → curvature3 ru rv ruu ruv rvv = -1 / R) ∧ dot (normal3 ru rv) x ≠ 0 := by
  obtain ⟨hn0, hn1, hn2, -, ha, -⟩ := C55_normal_3d ru rv h
  have hg := gram_pos ru rv h
  have hx : x = dot (normal3 ru rv) x • normal3 ru rv := by
    have hw : ∀ i, areaElement (wedge3 ru rv) ^ 2 * x i = dot (wedge3 ru rv) x * wedge3 ru rv i := by
      have hs : areaElement (wedge3 ru rv) ^ 2 = wedge3 ru rv 0 ^ 2 + wedge3 ru rv 1 ^ 2 + wedge3 ru rv 2 ^ 2 := by
        rw [areaElement, Real.sq_sqrt (Finset.sum_nonneg fun _ _ => sq_nonneg _), Fin.sum_univ_three]
      rw [hs]
      simp only [dot, Fin.sum_univ_three] at h1 h2
      intro i
      simp only [dot, Fin.sum_univ_three, wedge3, Matrix.cons_val_zero, Matrix.cons_val_one, Matrix.cons_val]
      fin_cases i
      · simp
        linear_combination
          (ru 0 * (rv 0 ^ 2 + rv 1 ^ 2 + rv 2 ^ 2) - rv 0 * (ru 0 * rv 0 + ru 1 * rv 1 + ru 2 * rv 2)) * h1
          + (rv 0 * (ru 0 ^ 2 + ru 1 ^ 2 + ru 2 ^ 2) - ru 0 * (ru 0 * rv 0 + ru 1 * rv 1 + ru 2 * rv 2)) * h2
      · simp
        linear_combination
          (ru 1 * (rv 0 ^ 2 + rv 1 ^ 2 + rv 2 ^ 2) - rv 1 * (ru 0 * rv 0 + ru 1 * rv 1 + ru 2 * rv 2)) * h1
          + (rv 1 * (ru 0 ^ 2 + ru 1 ^ 2 + ru 2 ^ 2) - ru 1 * (ru 0 * rv 0 + ru 1 * rv 1 + ru 2 * rv 2)) * h2
      · simp
        linear_combination
          (ru 2 * (rv 0 ^ 2 + rv 1 ^ 2 + rv 2 ^ 2) - rv 2 * (ru 0 * rv 0 + ru 1 * rv 1 + ru 2 * rv 2)) * h1
          + (rv 2 * (ru 0 ^ 2 + ru 1 ^ 2 + ru 2 ^ 2) - ru 2 * (ru 0 * rv 0 + ru 1 * rv 1 + ru 2 * rv 2)) * h2
    funext i
    have hd : dot (normal3 ru rv) x = dot (wedge3 ru rv) x / areaElement (wedge3 ru rv) := by
      simp only [dot, normal3, Fin.sum_univ_three]
      ring
    simp only [Pi.smul_apply, smul_eq_mul, hd, normal3]
    have := hw i
    field_simp
    linarith
  have hsq : dot (normal3 ru rv) x ^ 2 = R ^ 2 := by
    have hh := h0
    rw [hx] at hh
    simp only [dot_smul_left, dot_smul, hn0] at hh
    rw [← hh]
    ring
  generalize hs : dot (normal3 ru rv) x = s at *
  have hne : s ≠ 0 := by rintro rfl; simp only [ne_eq, OfNat.ofNat_ne_zero, not_false_eq_true, zero_pow] at hsq; exact absurd hsq.symm (ne_of_gt (pow_pos hR 2))
  have sec : ∀ w : Vec 3, dot w (normal3 ru rv) = dot x w / s := by
    intro w
    rw [hx, dot_smul_left, dot_comm w, mul_div_cancel_left₀ _ hne]
  have hk : curvature3 ru rv ruu ruv rvv = 1 / s := by
    rw [curvature3_eq, sec, sec, sec, h3, h4, h5]
    generalize dot ru ru = E at *
    generalize dot ru rv = F at *
    generalize dot rv rv = G at *
    have hne' : E * G - F * F ≠ 0 := ne_of_gt hg
    rw [div_eq_div_iff (by positivity) hne]
    field_simp
    ring
  refine ⟨fun hp => ?_, fun hp => ?_, hne⟩
  · have : s = R := by
      have := abs_eq_abs.2 ((sq_eq_sq_iff_eq_or_eq_neg).1 hsq)
      rwa [abs_of_pos hp, abs_of_pos hR] at this
    rw [hk, this]
  · have : s = -R := by
      have := abs_eq_abs.2 ((sq_eq_sq_iff_eq_or_eq_neg).1 hsq)
      rw [abs_of_neg hp, abs_of_pos hR] at this
      linarith
    rw [hk, this]
    rw [div_neg, neg_div]

/-- the hypotheses of `C73_sphere` hold at the north pole of the unit sphere as the graph of `sqrt (1 - u² - v²)` -/
example : dot (![0, 0, 1] : Vec 3) ![0, 0, 1] = 1 ^ 2 ∧ dot (![0, 0, 1] : Vec 3) ![1, 0, 0] = 0 ∧
    dot (![0, 0, 1] : Vec 3) ![0, 1, 0] = 0 ∧ dot (![0, 0, 1] : Vec 3) ![0, 0, -1] = -dot ![1, 0, 0] ![1, 0, 0] ∧
    dot (![0, 0, 1] : Vec 3) ![0, 0, 0] = -dot ![1, 0, 0] ![0, 1, 0] := by
  simp [dot, Fin.sum_univ_three]

/-- **C73**: the conventions in two and three dimensions agree: the mean curvature of the cylinder over a curve is half
the curvature of the curve. -/
theorem C73_cylinder (xp yp xpp ypp : ℝ) (hreg : xp ≠ 0 ∨ yp ≠ 0) :
    curvature3 ![xp, yp, 0] ![0, 0, 1] ![xpp, ypp, 0] ![0, 0, 0] ![0, 0, 0] = curvature2 xp yp xpp ypp / 2 ∧
    normal3 ![xp, yp, 0] ![0, 0, 1] = ![normal2 ![xp, yp] 0, normal2 ![xp, yp] 1, 0] := by
  have hpos : 0 < xp ^ 2 + yp ^ 2 := by
    rcases hreg with h | h
    · have := sq_pos_of_ne_zero h; nlinarith [sq_nonneg yp]
    · have := sq_pos_of_ne_zero h; nlinarith [sq_nonneg xp]
  have hs : 0 < √(xp ^ 2 + yp ^ 2) := Real.sqrt_pos.2 hpos
  have hsq : √(xp ^ 2 + yp ^ 2) ^ 2 = xp ^ 2 + yp ^ 2 := Real.sq_sqrt hpos.le
  have hw : wedge3 ![xp, yp, 0] ![0, 0, 1] = ![yp, -xp, 0] := by
    funext i
    fin_cases i <;> simp [wedge3]
  have ha3 : areaElement ![yp, -xp, 0] = √(xp ^ 2 + yp ^ 2) := by
    simp [areaElement, Fin.sum_univ_three, add_comm]
  have ha2 : areaElement ![xp, yp] = √(xp ^ 2 + yp ^ 2) := by
    simp [areaElement, Fin.sum_univ_two]
  have hn : normal3 ![xp, yp, 0] ![0, 0, 1] = ![yp / √(xp ^ 2 + yp ^ 2), -xp / √(xp ^ 2 + yp ^ 2), 0] := by
    funext i
    simp only [normal3, hw, ha3]
    fin_cases i <;> simp
  refine ⟨?_, ?_⟩
  · rw [curvature3_eq, hn, curvature2, pow32 _ hpos]
    simp only [dot, Fin.sum_univ_three, Matrix.cons_val_zero, Matrix.cons_val_one, Matrix.cons_val]
    generalize √(xp ^ 2 + yp ^ 2) = S at *
    have hne : S ≠ 0 := ne_of_gt hs
    have e1 : xp * xp + yp * yp + 0 * 0 = S ^ 2 := by rw [hsq]; ring
    rw [e1, ← hsq]
    field_simp
    ring
  · rw [hn]
    funext i
    fin_cases i <;> simp [normal2, dual2, ha2]

/-! ## Scale invariance -/

/-- a jet as it enters the formulas -/
theorem velocity_eq (j : Jet) (a : Nat → ℝ) : velocity j a = a 0 • vec 3 (j.d1 0) + a 1 • vec 3 (j.d1 1) := by
  ext c
  simp [velocity, Finset.sum_range_succ, vec]

theorem acceleration_eq (j : Jet) (hsym : ∀ c, j.d2 0 1 c = j.d2 1 0 c) (a : Nat → ℝ) : acceleration j a
    = (a 0) ^ 2 • vec 3 (j.d2 0 0) + (2 * a 0 * a 1) • vec 3 (j.d2 0 1) + (a 1) ^ 2 • vec 3 (j.d2 1 1) := by
  ext c
  simp [acceleration, Finset.sum_range_succ, vec, ← hsym]
  ring

/-- **C73, surfaces from their derivatives**: the mean curvature of a surface in space is minus the mean of the normal
parts of the accelerations of two unit speed curves in orthogonal directions. -/
theorem C73_surface (j : Jet) (hsym : ∀ c, j.d2 0 1 c = j.d2 1 0 c)
    (hreg : wedge3 (fun c => j.d1 0 c) (fun c => j.d1 1 c) ≠ 0) (a b : Nat → ℝ)
    (ha : dot (velocity j a) (velocity j a) = 1) (hb : dot (velocity j b) (velocity j b) = 1)
    (hab : dot (velocity j a) (velocity j b) = 0) (dim : Option Nat) (hdim : dim = none ∨ dim = some 2) :
    meanCurvature 3 dim j
      = .ok (-((dot (acceleration j a) (jetNormal j) + dot (acceleration j b) (jetNormal j)) / 2)) := by
  have hd : dim.getD (3 - 1) = 2 := by rcases hdim with rfl | rfl <;> rfl
  simp only [meanCurvature, hd]
  rw [if_neg (by norm_num), if_pos (by simp)]
  simp only [velocity_eq] at ha hb hab
  rw [C73_mean_of_normal (vec 3 (j.d1 0)) (vec 3 (j.d1 1)) (vec 3 (j.d2 0 0)) (vec 3 (j.d2 0 1)) (vec 3 (j.d2 1 1)) hreg (a 0) (a 1) (b 0) (b 1) ha hb hab, acceleration_eq j hsym a,
    acceleration_eq j hsym b]
  rfl

/-- **C73, curves from their derivatives**: the mean curvature of a curve in the plane is the part of its acceleration
along the velocity turned by a right angle, in a unit speed parametrization. -/
theorem C73_curve (j : Jet) (a : ℝ) (ha : 0 < a) (hunit : (a * j.d1 0 0) ^ 2 + (a * j.d1 0 1) ^ 2 = 1) (dim : Option Nat)
    (hdim : dim = none ∨ dim = some 1) :
    meanCurvature 2 dim j
      = .ok (a ^ 2 * j.d2 0 0 1 * (a * j.d1 0 0) - a ^ 2 * j.d2 0 0 0 * (a * j.d1 0 1)) := by
  have hd : dim.getD (2 - 1) = 1 := by rcases hdim with rfl | rfl <;> rfl
  simp only [meanCurvature, hd]
  rw [if_pos (by simp)]
  have hs : (j.d1 0 0) ^ 2 + (j.d1 0 1) ^ 2 = (1 / a) ^ 2 := by
    field_simp
    linear_combination hunit
  simp only [curvature2]
  rw [hs, pow32 _ (by positivity), Real.sqrt_sq (by positivity)]
  congr 1
  field_simp

/-- **C44, from the derivatives**: for conformal parametrizations of a surface the largest absolute curvature is that of
the normal curvatures of unit speed curves.  Missing: every other parametrization, see `C44_refuted` -/
theorem C44_from_derivatives_partial (j : Jet) (hsym : ∀ c, j.d2 0 1 c = j.d2 1 0 c)
    (hpos : 0 < dot (fun c => j.d1 0 c : Vec 3) (fun c => j.d1 0 c))
    (hE : dot (fun c => j.d1 0 c : Vec 3) (fun c => j.d1 0 c) = dot (fun c => j.d1 1 c : Vec 3) (fun c => j.d1 1 c))
    (hF : dot (fun c => j.d1 0 c : Vec 3) (fun c => j.d1 1 c) = 0) (dim : Option Nat) (hdim : dim = none ∨ dim = some 2) :
    ∃ k, maxCurv 3 dim j = .ok k ∧
      (∃ a, dot (velocity j a) (velocity j a) = 1 ∧ |dot (acceleration j a) (jetNormal j)| = k) ∧
      ∀ a, dot (velocity j a) (velocity j a) = 1 → |dot (acceleration j a) (jetNormal j)| ≤ k := by
  have hd : dim.getD (3 - 1) = 2 := by rcases hdim with rfl | rfl <;> rfl
  have hv : ∀ a, dot (velocity j a) (velocity j a)
      = dot (fun c => j.d1 0 c : Vec 3) (fun c => j.d1 0 c) * (a 0 ^ 2 + a 1 ^ 2) := by
    intro a
    have hF' : dot (vec 3 (j.d1 1)) (vec 3 (j.d1 0)) = 0 := by rw [dot_comm]; exact hF
    have hG : dot (vec 3 (j.d1 1)) (vec 3 (j.d1 1)) = dot (vec 3 (j.d1 0)) (vec 3 (j.d1 0)) := hE.symm
    have hF0 : dot (vec 3 (j.d1 0)) (vec 3 (j.d1 1)) = 0 := hF
    rw [velocity_eq]
    simp only [dot_add_left, dot_smul_left, dot_add, dot_smul, hF', hF0, hG]
    change _ = dot (vec 3 (j.d1 0)) (vec 3 (j.d1 0)) * _
    ring
  have hac : ∀ a, dot (acceleration j a) (jetNormal j) = a 0 ^ 2 * dot (vec 3 (j.d2 0 0)) (jetNormal j)
      + 2 * a 0 * a 1 * dot (vec 3 (j.d2 0 1)) (jetNormal j) + a 1 ^ 2 * dot (vec 3 (j.d2 1 1)) (jetNormal j) := by
    intro a
    rw [acceleration_eq j hsym]
    simp only [dot_add_left, dot_smul_left]
  simp only [hv, hac]
  have hm : maxCurv 3 dim j = maxCurvature (dot (fun c => j.d1 0 c : Vec 3) (fun c => j.d1 0 c)) 0
      (dot (fun c => j.d1 0 c : Vec 3) (fun c => j.d1 0 c)) (dot (vec 3 (j.d2 0 0)) (jetNormal j))
      (dot (vec 3 (j.d2 0 1)) (jetNormal j)) (dot (vec 3 (j.d2 1 1)) (jetNormal j)) := by
    simp only [maxCurv, hd]
    rw [if_neg (by norm_num), if_pos trivial, if_pos trivial]
    simp only [fundForm1, fundForm2, ent2, if_true, one_ne_zero, if_false]
    have h1 : dot (vec 3 (j.d1 1)) (vec 3 (j.d1 1)) = dot (fun c => j.d1 0 c : Vec 3) (fun c => j.d1 0 c) := hE.symm
    have h2 : dot (vec 3 (j.d1 0)) (vec 3 (j.d1 1)) = 0 := hF
    rw [h1, h2]
    rfl
  rw [hm]
  generalize dot (fun c => j.d1 0 c : Vec 3) (fun c => j.d1 0 c) = E at hpos
  generalize dot (vec 3 (j.d2 0 0)) (jetNormal j) = e
  generalize dot (vec 3 (j.d2 0 1)) (jetNormal j) = f
  generalize dot (vec 3 (j.d2 1 1)) (jetNormal j) = g
  obtain ⟨k, hk, ⟨l, hl, hlk⟩, hmax⟩ := C44_max_curvature_partial E 0 E e f g (by nlinarith) (by ring)
  have hsh := (C44_shape_operator E 0 E e f g (by nlinarith)).2
  refine ⟨k, hk, ?_, ?_⟩
  · obtain ⟨x, y, hxy, h1, h2⟩ := (hsh l).1 hl
    have hq : 0 < E * (x ^ 2 + y ^ 2) := by
      rcases hxy with h | h <;> positivity
    set r := √(E * (x ^ 2 + y ^ 2)) with hr
    have hr0 : 0 < r := Real.sqrt_pos.2 hq
    have hr2 : r ^ 2 = E * (x ^ 2 + y ^ 2) := Real.sq_sqrt hq.le
    refine ⟨fun i => if i = 0 then x / r else y / r, ?_, ?_⟩
    · simp only [if_true, one_ne_zero, if_false]
      field_simp
      linarith
    · simp only [if_true, one_ne_zero, if_false]
      rw [← hlk]
      congr 1
      field_simp
      rw [hr2]
      linear_combination x * h1 + y * h2
  · intro a ha
    -- both roots are eigenvalues
    set R := √((e - g) ^ 2 + 4 * f ^ 2) with hR
    have hR0 : 0 ≤ R := Real.sqrt_nonneg _
    have hR2 : R ^ 2 = (e - g) ^ 2 + 4 * f ^ 2 := Real.sq_sqrt (by positivity)
    have heig : ∀ s : ℝ, s ^ 2 = 1 → |((e + g) + s * R) / (2 * E)| ≤ k := by
      intro s hs
      refine hmax _ ((hsh _).2 ?_)
      have hlam : ((e + g) + s * R) / (2 * E) * E = ((e + g) + s * R) / 2 := by field_simp
      generalize ((e + g) + s * R) / (2 * E) = lam at hlam
      by_cases hf : f = 0
      · have hRs : R ^ 2 = (e - g) ^ 2 := by rw [hR2, hf]; ring
        have : (s * R - (e - g)) * (s * R + (e - g)) = 0 := by linear_combination R ^ 2 * hs + hRs
        rcases mul_eq_zero.1 this with h | h
        · exact ⟨1, 0, Or.inl one_ne_zero, by linear_combination -hlam - h / 2, by rw [hf]; ring⟩
        · exact ⟨0, 1, Or.inr one_ne_zero, by rw [hf]; ring, by linear_combination -hlam - h / 2⟩
      · refine ⟨f, ((g - e) + s * R) / 2, Or.inl hf, ?_, ?_⟩
        · linear_combination -f * hlam
        · linear_combination -(((g - e) + s * R) / 2) * hlam - hR2 / 4 - R ^ 2 / 4 * hs
    have h1 := heig 1 (by norm_num)
    have h2 := heig (-1) (by norm_num)
    -- the oscillating part is bounded by the root
    have hosc : |(e - g) * (a 0 ^ 2 - a 1 ^ 2) + 4 * f * a 0 * a 1| ≤ R * (a 0 ^ 2 + a 1 ^ 2) := by
      apply abs_le_of_sq_le_sq _ (by positivity)
      have : (R * (a 0 ^ 2 + a 1 ^ 2)) ^ 2 - ((e - g) * (a 0 ^ 2 - a 1 ^ 2) + 4 * f * a 0 * a 1) ^ 2
          = (2 * (e - g) * (a 0 * a 1) - 2 * f * (a 0 ^ 2 - a 1 ^ 2)) ^ 2 := by
        linear_combination (a 0 ^ 2 + a 1 ^ 2) ^ 2 * hR2
      nlinarith [sq_nonneg (2 * (e - g) * (a 0 * a 1) - 2 * f * (a 0 ^ 2 - a 1 ^ 2))]
    have hs : a 0 ^ 2 + a 1 ^ 2 = 1 / E := by field_simp; linarith
    rw [hs] at hosc
    have hform : a 0 ^ 2 * e + 2 * a 0 * a 1 * f + a 1 ^ 2 * g
        = ((e + g) * (1 / E) + ((e - g) * (a 0 ^ 2 - a 1 ^ 2) + 4 * f * a 0 * a 1)) / 2 := by
      rw [← hs]; ring
    rw [hform]
    generalize (e - g) * (a 0 ^ 2 - a 1 ^ 2) + 4 * f * a 0 * a 1 = w at hosc
    have e1 : ((e + g) + 1 * R) / (2 * E) = ((e + g) * (1 / E) + R * (1 / E)) / 2 := by field_simp
    have e2 : ((e + g) + -1 * R) / (2 * E) = ((e + g) * (1 / E) - R * (1 / E)) / 2 := by field_simp; ring
    rw [e1] at h1
    rw [e2] at h2
    rw [abs_le] at *
    constructor <;> linarith [h1.1, h1.2, h2.1, h2.2, hosc.1, hosc.2]

/-- such derivatives: those of the paraboloid `(u, v, (u² + 3 v²) / 2)` at its vertex -/
example : ∃ j : Jet, (∀ c, j.d2 0 1 c = j.d2 1 0 c) ∧ 0 < dot (fun c => j.d1 0 c : Vec 3) (fun c => j.d1 0 c) ∧
    dot (fun c => j.d1 0 c : Vec 3) (fun c => j.d1 0 c) = dot (fun c => j.d1 1 c : Vec 3) (fun c => j.d1 1 c) ∧
    dot (fun c => j.d1 0 c : Vec 3) (fun c => j.d1 1 c) = 0 ∧ j.d2 0 0 2 = 1 ∧ j.d2 1 1 2 = 3 := by
  refine ⟨⟨fun a c => if a = c then 1 else 0, fun a b c => if a = b ∧ c = 2 then 1 + 2 * a else 0⟩, ?_, ?_, ?_, ?_, ?_, ?_⟩ <;>
    simp [dot, Fin.sum_univ_three]
  norm_num

theorem maxStretch_unique (ambient ambient' dim : Nat) (J J' : Jac) (s s' : ℝ)
    (h : ∀ v, imageSq ambient dim J v = imageSq ambient' dim J' v)
    (h1 : IsMaxStretch ambient dim J s) (h2 : IsMaxStretch ambient' dim J' s') : s = s' := by
  have hle : ∀ {t t' : ℝ} {A A' : Nat} {K K' : Jac}, (∀ v, imageSq A dim K v = imageSq A' dim K' v) →
      IsMaxStretch A dim K t → IsMaxStretch A' dim K' t' → t ≤ t' := by
    intro t t' A A' K K' hK hA hA'
    obtain ⟨v, hv, he⟩ := hA.2.2
    have := hA'.2.1 v
    rw [← hK v, he] at this
    exact le_of_mul_le_mul_right this (Real.sqrt_pos.2 hv)
  exact le_antisymm (hle h h1 h2) (hle (fun v => (h v).symm) h2 h1)

theorem imageSq_scale (ambient dim : Nat) (J : Jac) (l : ℝ) (v : Nat → ℝ) :
    imageSq ambient dim (fun r c => l * J r c) v = l ^ 2 * imageSq ambient dim J v := by
  simp only [imageSq, Finset.mul_sum]
  refine Finset.sum_congr rfl fun r _ => ?_
  rw [show ∑ c ∈ Finset.range dim, l * J r c * v c = l * ∑ c ∈ Finset.range dim, J r c * v c from by
    rw [Finset.mul_sum]; exact Finset.sum_congr rfl fun c _ => by ring]
  ring

/-- **C73**: stretch factors are proportional to the size of the geometry. -/
theorem stretch_scale (ambient dim : Nat) (hdim : dim = 1 ∨ dim = 2) (J : Jac) (l : ℝ) (hl : 0 < l) :
    ∃ s, hypercubeStretch ambient dim J = .ok s ∧ hypercubeStretch ambient dim (fun r c => l * J r c) = .ok (l * s) := by
  obtain ⟨s, h1, h2, h3, v, hv, h4⟩ := stretch_spec ambient dim hdim J
  obtain ⟨s', h1', h'⟩ := stretch_spec ambient dim hdim (fun r c => l * J r c)
  have hq : ∀ v, √(imageSq ambient dim (fun r c => l * J r c) v) = l * √(imageSq ambient dim J v) := by
    intro v
    rw [imageSq_scale, Real.sqrt_mul (sq_nonneg l), Real.sqrt_sq hl.le]
  have : IsMaxStretch ambient dim (fun r c => l * J r c) (l * s) := by
    refine ⟨mul_nonneg hl.le h2, fun w => ?_, v, hv, ?_⟩
    · rw [hq]
      have := mul_le_mul_of_nonneg_left (h3 w) hl.le
      nlinarith
    · rw [hq]
      linear_combination l * h4
  refine ⟨s, h1, ?_⟩
  show hypercubeStretch ambient dim (fun r c => l * J r c) = _
  rw [show hypercubeStretch ambient dim (fun r c => l * J r c) = .ok s' from h1',
    maxStretch_unique ambient ambient dim _ _ s' (l * s) (fun _ => rfl) h' this]

theorem shapeOperator_scale (E F G e f g l : ℝ) (hl : 0 < l) (i j : Nat) :
    (shapeOperator (l ^ 2 * E) (l ^ 2 * F) (l ^ 2 * G) (l * e) (l * f) (l * g)).e i j
      = (shapeOperator E F G e f g).e i j / l := by
  have hent : ∀ a b c d t : ℝ, ent2 (t * a) (t * b) (t * c) (t * d) i j = t * ent2 a b c d i j := by
    intro a b c d t
    simp only [ent2]
    split_ifs <;> rfl
  simp only [shapeOperator]
  rw [show l ^ 2 * E * (l ^ 2 * G) - l ^ 2 * F * (l ^ 2 * F) = l ^ 4 * (E * G - F * F) from by ring,
    show l * e * (l ^ 2 * G) - l * f * (l ^ 2 * F) = l ^ 3 * (e * G - f * F) from by ring,
    show l * f * (l ^ 2 * G) - l * g * (l ^ 2 * F) = l ^ 3 * (f * G - g * F) from by ring,
    show l * f * (l ^ 2 * E) - l * e * (l ^ 2 * F) = l ^ 3 * (f * E - e * F) from by ring,
    show l * g * (l ^ 2 * E) - l * f * (l ^ 2 * F) = l ^ 3 * (g * E - f * F) from by ring, hent]
  by_cases hD : E * G - F * F = 0
  · simp [hD]
  · field_simp

theorem maxCurvature_scale (E F G e f g l : ℝ) (hl : 0 < l) :
    ∃ k, maxCurvature E F G e f g = .ok k ∧
      maxCurvature (l ^ 2 * E) (l ^ 2 * F) (l ^ 2 * G) (l * e) (l * f) (l * g) = .ok (k / l) := by
  have hdef : ∀ E F G e f g : ℝ, maxCurvature E F G e f g = .ok (max
      |((shapeOperator E F G e f g).e 0 0 + (shapeOperator E F G e f g).e 1 1
        - √(4 * (shapeOperator E F G e f g).e 0 1 ^ 2
          + ((shapeOperator E F G e f g).e 0 0 - (shapeOperator E F G e f g).e 1 1) ^ 2)) / 2|
      |((shapeOperator E F G e f g).e 0 0 + (shapeOperator E F G e f g).e 1 1
        + √(4 * (shapeOperator E F G e f g).e 0 1 ^ 2
          + ((shapeOperator E F G e f g).e 0 0 - (shapeOperator E F G e f g).e 1 1) ^ 2)) / 2|) := by
    intro E F G e f g
    rfl
  refine ⟨_, hdef _ _ _ _ _ _, ?_⟩
  rw [hdef]
  simp only [shapeOperator_scale E F G e f g l hl]
  generalize (shapeOperator E F G e f g).e 0 0 = a
  generalize (shapeOperator E F G e f g).e 0 1 = b
  generalize (shapeOperator E F G e f g).e 1 1 = d
  have h1 : √(4 * (b / l) ^ 2 + (a / l - d / l) ^ 2) = √(4 * b ^ 2 + (a - d) ^ 2) / l := by
    rw [show 4 * (b / l) ^ 2 + (a / l - d / l) ^ 2 = (4 * b ^ 2 + (a - d) ^ 2) / l ^ 2 from by field_simp,
      Real.sqrt_div (by positivity), Real.sqrt_sq hl.le]
  rw [h1]
  congr 1
  have h2 : ∀ t : ℝ, |t / l| = |t| / l := fun t => by rw [abs_div, abs_of_pos hl]
  rw [show (a / l + d / l - √(4 * b ^ 2 + (a - d) ^ 2) / l) / 2 = ((a + d - √(4 * b ^ 2 + (a - d) ^ 2)) / 2) / l from by ring,
    show (a / l + d / l + √(4 * b ^ 2 + (a - d) ^ 2) / l) / 2 = ((a + d + √(4 * b ^ 2 + (a - d) ^ 2)) / 2) / l from by ring,
    h2, h2, max_div_div_right hl.le]

theorem vec_scale (l : ℝ) (v : Nat → ℝ) : vec 3 (fun c => l * v c) = l • vec 3 v := by
  funext i
  simp [vec]

theorem normal3_scale (ru rv : Vec 3) (l : ℝ) (hl : 0 < l) : normal3 (l • ru) (l • rv) = normal3 ru rv := by
  have := normal3_comb ru rv l 0 0 l
  simp only [zero_smul, add_zero, zero_add, mul_zero, sub_zero] at this
  rw [this, abs_of_pos (by positivity), div_self (by positivity), one_smul]

/-- **C73**: the curvature used as refinement criterion is scale-invariant, as documented: enlarging the geometry by any
factor leaves it alone, for curves in the plane and surfaces in space (the other cases are refused). -/
theorem C73_scale_invariant (ambient : Nat) (dim : Option Nat) (j : Jet) (l : ℝ) (hl : 0 < l) :
    scaledMaxCurv ambient dim (j.scale l) = scaledMaxCurv ambient dim j ∧
    ((∃ k, scaledMaxCurv ambient dim j = .ok k) ↔
      (ambient = 2 ∧ (dim = none ∨ dim = some 1)) ∨ (ambient = 3 ∧ (dim = none ∨ dim = some 2))) := by
  have hdim : ∀ d : Nat, (ambient = 2 ∧ (dim = none ∨ dim = some 1)) ∨ (ambient = 3 ∧ (dim = none ∨ dim = some 2)) ↔
      (ambient = 2 ∧ dim.getD (ambient - 1) = 1) ∨ (ambient = 3 ∧ dim.getD (ambient - 1) = 2) := by
    intro _
    cases dim with
    | none =>
      simp only [Option.getD_none]
      constructor
      · rintro (⟨h, -⟩ | ⟨h, -⟩) <;> subst h <;> simp
      · rintro (⟨h, -⟩ | ⟨h, -⟩) <;> subst h <;> simp
    | some d => simp
  rw [hdim 0]
  generalize hd : dim.getD (ambient - 1) = d
  by_cases h2 : ambient = 2
  · subst h2
    by_cases h1 : d = 1
    · subst h1
      obtain ⟨s, hs, hs'⟩ := stretch_scale 2 1 (Or.inl rfl) (fun r c => j.d1 c r) l hl
      obtain ⟨-, -, hc⟩ := C73_motions_2d (j.d1 0 0) (j.d1 0 1) (j.d2 0 0 0) (j.d2 0 0 1) 1 0 l (by norm_num) hl
      simp only [scaledMaxCurv, hd, maxCurv, meanCurvature, if_true, Option.getD_some, and_self, Except.map, Jet.scale, bind,
        Except.bind, pure, Except.pure, hs, hs', hc]
      refine ⟨?_, ?_⟩
      · rw [abs_div, abs_of_pos hl]
        congr 1
        field_simp
      · simp
    · simp [scaledMaxCurv, hd, maxCurv, meanCurvature, h1, Except.map, bind, Except.bind]
  · by_cases h3 : ambient = 3
    · subst h3
      by_cases h1 : d = 2
      · subst h1
        obtain ⟨s, hs, hs'⟩ := stretch_scale 3 2 (Or.inr rfl) (fun r c => j.d1 c r) l hl
        have hl2 : ∀ x y : Vec 3, dot (l • x) (l • y) = l ^ 2 * dot x y := by
          intro x y; rw [dot_smul_left, dot_smul]; ring
        obtain ⟨k, hk, hk'⟩ := maxCurvature_scale
          (fundForm1 (vec 3 (j.d1 0)) (vec 3 (j.d1 1)) 0 0) (fundForm1 (vec 3 (j.d1 0)) (vec 3 (j.d1 1)) 0 1)
          (fundForm1 (vec 3 (j.d1 0)) (vec 3 (j.d1 1)) 1 1)
          (fundForm2 (vec 3 (j.d1 0)) (vec 3 (j.d1 1)) (vec 3 (j.d2 0 0)) (vec 3 (j.d2 0 1)) (vec 3 (j.d2 1 1)) 0 0)
          (fundForm2 (vec 3 (j.d1 0)) (vec 3 (j.d1 1)) (vec 3 (j.d2 0 0)) (vec 3 (j.d2 0 1)) (vec 3 (j.d2 1 1)) 0 1)
          (fundForm2 (vec 3 (j.d1 0)) (vec 3 (j.d1 1)) (vec 3 (j.d2 0 0)) (vec 3 (j.d2 0 1)) (vec 3 (j.d2 1 1)) 1 1) l hl
        have e1 : ∀ a b : Nat, fundForm1 (l • vec 3 (j.d1 0)) (l • vec 3 (j.d1 1)) a b
            = l ^ 2 * fundForm1 (vec 3 (j.d1 0)) (vec 3 (j.d1 1)) a b := by
          intro a b
          simp only [fundForm1, ent2, hl2]
          split_ifs <;> rfl
        have e2 : ∀ (x y z : Vec 3) (a b : Nat), fundForm2 (l • vec 3 (j.d1 0)) (l • vec 3 (j.d1 1)) (l • x) (l • y) (l • z) a b
            = l * fundForm2 (vec 3 (j.d1 0)) (vec 3 (j.d1 1)) x y z a b := by
          intro x y z a b
          simp only [fundForm2, ent2, normal3_scale _ _ l hl, dot_smul_left]
          split_ifs <;> rfl
        have hA : maxCurv 3 dim j = .ok k := by
          simp only [maxCurv, hd, if_true]
          rw [if_neg (by norm_num)]
          exact hk
        have hB : maxCurv 3 dim (j.scale l) = .ok (k / l) := by
          simp only [maxCurv, hd, if_true, Jet.scale]
          rw [if_neg (by norm_num)]
          simp only [vec_scale, e1, e2]
          exact hk'
        have hC : scaledMaxCurv 3 dim j = .ok (k * s) := by
          simp only [scaledMaxCurv, hd, hA, bind, Except.bind, pure, Except.pure, hs]
        have hD : scaledMaxCurv 3 dim (j.scale l) = .ok (k / l * (l * s)) := by
          unfold scaledMaxCurv
          rw [hB, hd, show (fun r c => (j.scale l).d1 c r) = fun r c => l * j.d1 c r from rfl, hs']
          rfl
        rw [hC, hD]
        refine ⟨?_, by simp⟩
        congr 1
        field_simp
      · simp [scaledMaxCurv, hd, maxCurv, h1, bind, Except.bind]
    · simp [scaledMaxCurv, maxCurv, h2, h3, bind, Except.bind]

/-! # C56: vertex order -/

/-- `modepy.tools.EQUILATERAL_TO_UNIT_MAP[2].a`: linear part of the map from the equilateral to the unit triangle (from
modepy, used in `primitives.py:1162-1168`) -/
noncomputable def equiToUnit2 (i j : Nat) : ℝ := ent2 1 (-1 / √3) 0 (2 / √3) i j

/-- a map of reference coordinates followed by the element map -/
def afterMap (J : Jac) (P : Nat → Nat → ℝ) : Jac := fun r c => ∑ k ∈ Finset.range 2, J r k * P k c

/-- linear parts of the affine maps that exchange vertices of the unit triangle with corners `(-1,-1)`, `(1,-1)`,
`(-1,1)`: the second and third, the first and second, and all that can be composed of them -/
inductive VertexMap : (Nat → Nat → ℝ) → Prop
  | swap23 : VertexMap (ent2 0 1 1 0)
  | swap12 : VertexMap (ent2 (-1) (-1) 0 1)
  | comp (P Q : Nat → Nat → ℝ) : VertexMap P → VertexMap Q → VertexMap (afterMap P Q)

theorem stretch_of_isometry (ambient : Nat) (J J' : Jac) (Q : Nat → Nat → ℝ)
    (hJ : ∀ v, imageSq ambient 2 J' v = imageSq ambient 2 J (fun k => Q k 0 * v 0 + Q k 1 * v 1))
    (h1 : Q 0 0 ^ 2 + Q 1 0 ^ 2 = 1) (h2 : Q 0 1 ^ 2 + Q 1 1 ^ 2 = 1) (h3 : Q 0 0 * Q 0 1 + Q 1 0 * Q 1 1 = 0) (s : ℝ)
    (h : IsMaxStretch ambient 2 J s) : IsMaxStretch ambient 2 J' s := by
  have hlen : ∀ v : Nat → ℝ, lenSq 2 (fun k => Q k 0 * v 0 + Q k 1 * v 1) = lenSq 2 v := by
    intro v
    simp only [lenSq, sum_range_two]
    linear_combination v 0 ^ 2 * h1 + v 1 ^ 2 * h2 + 2 * v 0 * v 1 * h3
  obtain ⟨ha, hb, w, hw, hc⟩ := h
  have hM : (!![Q 0 0, Q 1 0; Q 0 1, Q 1 1]) * !![Q 0 0, Q 0 1; Q 1 0, Q 1 1] = (1 : Matrix (Fin 2) (Fin 2) ℝ) := by
    rw [Matrix.mul_fin_two, Matrix.one_fin_two]
    ext i j
    fin_cases i <;> fin_cases j <;> simp <;> linarith
  rw [mul_eq_one_comm, Matrix.mul_fin_two, Matrix.one_fin_two] at hM
  have e00 := congrFun (congrFun hM 0) 0
  have e01 := congrFun (congrFun hM 0) 1
  have e10 := congrFun (congrFun hM 1) 0
  have e11 := congrFun (congrFun hM 1) 1
  simp at e00 e01 e10 e11
  refine ⟨ha, fun v => ?_, fun k => Q 0 k * w 0 + Q 1 k * w 1, ?_, ?_⟩
  · have := hb (fun k => Q k 0 * v 0 + Q k 1 * v 1)
    rwa [hlen, ← hJ] at this
  · have : lenSq 2 (fun k => Q 0 k * w 0 + Q 1 k * w 1) = lenSq 2 w := by
      simp only [lenSq, sum_range_two]
      linear_combination w 0 ^ 2 * e00 + w 1 ^ 2 * e11 + 2 * w 0 * w 1 * e01
    rw [this]; exact hw
  · have hl : lenSq 2 (fun k => Q 0 k * w 0 + Q 1 k * w 1) = lenSq 2 w := by
      simp only [lenSq, sum_range_two]
      linear_combination w 0 ^ 2 * e00 + w 1 ^ 2 * e11 + 2 * w 0 * w 1 * e01
    rw [hl, hJ, ← hc]
    congr 2
    simp only [imageSq, sum_range_two]
    refine Finset.sum_congr rfl fun r _ => ?_
    have a0 : Q 0 0 * (Q 0 0 * w 0 + Q 1 0 * w 1) + Q 0 1 * (Q 0 1 * w 0 + Q 1 1 * w 1) = w 0 := by
      linear_combination w 0 * e00 + w 1 * e01
    have a1 : Q 1 0 * (Q 0 0 * w 0 + Q 1 0 * w 1) + Q 1 1 * (Q 0 1 * w 0 + Q 1 1 * w 1) = w 1 := by
      linear_combination w 0 * e10 + w 1 * e11
    rw [a0, a1]

theorem simplexStretch_of_isometry (ambient : Nat) (J : Jac) (P Q : Nat → Nat → ℝ)
    (hPQ : ∀ i < 2, ∀ j < 2, equiJac 2 P equiToUnit2 i j = ∑ k ∈ Finset.range 2, equiToUnit2 i k * Q k j)
    (h1 : Q 0 0 ^ 2 + Q 1 0 ^ 2 = 1) (h2 : Q 0 1 ^ 2 + Q 1 1 ^ 2 = 1) (h3 : Q 0 0 * Q 0 1 + Q 1 0 * Q 1 1 = 0) :
    simplexStretch ambient 2 (afterMap J P) equiToUnit2 = simplexStretch ambient 2 J equiToUnit2 := by
  obtain ⟨s, hs, hm⟩ := C56_simplex_stretch ambient 2 (Or.inr rfl) J equiToUnit2
  obtain ⟨s', hs', hm'⟩ := C56_simplex_stretch ambient 2 (Or.inr rfl) (afterMap J P) equiToUnit2
  have := stretch_of_isometry ambient (equiJac 2 J equiToUnit2) (equiJac 2 (afterMap J P) equiToUnit2) Q (by
    intro v
    simp only [imageSq]
    refine Finset.sum_congr rfl fun r _ => ?_
    have p00 := hPQ 0 (by norm_num) 0 (by norm_num)
    have p01 := hPQ 0 (by norm_num) 1 (by norm_num)
    have p10 := hPQ 1 (by norm_num) 0 (by norm_num)
    have p11 := hPQ 1 (by norm_num) 1 (by norm_num)
    simp only [equiJac, afterMap, sum_range_two] at *
    congr 1
    linear_combination (J r 0 * v 0) * p00 + (J r 0 * v 1) * p01 + (J r 1 * v 0) * p10 + (J r 1 * v 1) * p11) h1 h2 h3 s hm
  rw [hs, hs', maxStretch_unique ambient ambient 2 _ _ s' s (fun _ => rfl) hm' this]

/-- **C56**: the stretch factor of triangles does not depend on the order of their vertices. -/
theorem C56_vertex_order (ambient : Nat) (P : Nat → Nat → ℝ) (hP : VertexMap P) (J : Jac) :
    simplexStretch ambient 2 (afterMap J P) equiToUnit2 = simplexStretch ambient 2 J equiToUnit2 := by
  have h3 : √(3 : ℝ) ≠ 0 := by positivity
  have hsq : √(3 : ℝ) ^ 2 = 3 := Real.sq_sqrt (by norm_num)
  induction hP generalizing J with
  | swap23 =>
    apply simplexStretch_of_isometry ambient J _ (ent2 (1 / 2) (√3 / 2) (√3 / 2) (-(1 / 2)))
    · intro i hi j hj
      have hi2 : i = 0 ∨ i = 1 := by omega
      have hj2 : j = 0 ∨ j = 1 := by omega
      rcases hi2 with rfl | rfl <;> rcases hj2 with rfl | rfl <;>
        simp [equiJac, sum_range_two, ent2, equiToUnit2] <;> field_simp <;> nlinarith
    · simp [ent2]; nlinarith
    · simp [ent2]; nlinarith
    · simp [ent2]; ring
  | swap12 =>
    apply simplexStretch_of_isometry ambient J _ (ent2 (-1) 0 0 1)
    · intro i hi j hj
      have hi2 : i = 0 ∨ i = 1 := by omega
      have hj2 : j = 0 ∨ j = 1 := by omega
      rcases hi2 with rfl | rfl <;> rcases hj2 with rfl | rfl <;>
        simp [equiJac, sum_range_two, ent2, equiToUnit2] <;> field_simp <;> norm_num
    · simp [ent2]
    · simp [ent2]
    · simp [ent2]
  | comp P Q _ _ ihP ihQ =>
    have : afterMap J (afterMap P Q) = afterMap (afterMap J P) Q := by
      funext r c
      simp only [afterMap, sum_range_two]
      ring
    rw [this, ihQ, ihP]

/-- exchanging the first and third vertex is among these maps -/
example : ∃ P, VertexMap P ∧ ∀ i < 2, ∀ j < 2, P i j = ent2 1 0 (-1) (-1) i j := by
  refine ⟨_, .comp _ _ (.comp _ _ .swap23 .swap12) .swap23, ?_⟩
  intro i hi j hj
  have hi2 : i = 0 ∨ i = 1 := by omega
  have hj2 : j = 0 ∨ j = 1 := by omega
  rcases hi2 with rfl | rfl <;> rcases hj2 with rfl | rfl <;> simp [afterMap, sum_range_two, ent2]

end Verif.Curvature
