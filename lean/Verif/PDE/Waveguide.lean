import Mathlib.Analysis.SpecialFunctions.Pow.Complex
import Mathlib.Analysis.SpecialFunctions.Pow.Real
import Mathlib.Algebra.Module.LinearMap.Defs
import Mathlib.Algebra.Module.Pi
import Mathlib.Algebra.BigOperators.Fin
import Mathlib.Tactic.LinearCombination
import Mathlib.Tactic.Module
import Mathlib.Tactic.FinCases
import Mathlib.Tactic.NormNum
import Mathlib.Tactic.Ring

/-!
# The waveguide operator

Model of `pytential/symbolic/pde/maxwell/waveguide.py` (`SecondKindInfZMuellerOperator`): integral equations for the modes
of a dielectric waveguide that is infinite in `z` direction, on the boundary curves of its cross section.

Functions away from the curve are elements of a module `V` over the complex numbers, with partial derivatives `d 0`, `d 1`;
densities are functions on the nodes `N`.  Common subexpression markers are transparent.  Variables for refractive indices
stand for their values.
-/

namespace Verif.Waveguide

open Complex (I)

/-- exterior limit (normal side) and interior limit -/
inductive Side | ext | int
deriving DecidableEq

/-- `qbx_forced_limit=+1` or `"avg"`: the only ones the operator uses -/
inductive Lim | plus | avg

/-- What the symbols stand for: unit tangent and unit normal at the nodes of a location (`none`: the default location), partial
derivatives off the curve, single layer potential for each wave number (of a density on the default location), the potential
of the source derivative of the kernel along a direction field, and limits on the default location from either side. -/
structure Interp (N V W : Type) [AddCommGroup V] [Module ℂ V] where
  tan : Option W → N → Fin 2 → ℂ
  nrm : Option W → N → Fin 2 → ℂ
  d : Fin 2 → V →ₗ[ℂ] V
  single : ℂ → (N → ℂ) →ₗ[ℂ] V
  dsrc : ℂ → (N → Fin 2 → ℂ) → (N → ℂ) →ₗ[ℂ] V
  tr : Side → V →ₗ[ℂ] (N → ℂ)

variable {N V W : Type} [AddCommGroup V] [Module ℂ V]

/-! ### The model -/

/-- `upper_half_square_root` (`waveguide.py:81-87`) -/
noncomputable def upperRoot (x : ℂ) : ℂ :=
  if (x ^ ((1 : ℂ) / 2)).im < 0 then I * (-x) ^ ((1 : ℂ) / 2) else x ^ ((1 : ℂ) / 2)

/-- value of a potential on the curve for a limit -/
noncomputable def Interp.take (P : Interp N V W) : Lim → V → N → ℂ
  | .plus, f => P.tr .ext f
  | .avg, f => fun x => (P.tr .ext f x + P.tr .int f x) / 2

/-- `self.S` (`waveguide.py:116-120`): source and target are the default locations, whatever the interface is -/
noncomputable def Interp.S (P : Interp N V W) (k : ℂ) (σ : N → ℂ) (lim : Lim) : N → ℂ := P.take lim (P.single k σ)

/-- `self.D` (`waveguide.py:122-126`): `sym.D`, the direction is the normal of the default location -/
noncomputable def Interp.D (P : Interp N V W) (k : ℂ) (σ : N → ℂ) : N → ℂ := P.take .avg (P.dsrc k (P.nrm none) σ)

/-- the potential in `self.T` (`waveguide.py:128-136`): scalar part of `sym.int_g_dsource` with the tangent (see C78) -/
noncomputable def Interp.tPot (P : Interp N V W) (w : W) (k : ℂ) (σ : N → ℂ) : V := P.dsrc k (P.tan (some w)) σ

/-- `self.T` (`waveguide.py:128-136`) -/
noncomputable def Interp.T (P : Interp N V W) (w : W) (k : ℂ) (σ : N → ℂ) : N → ℂ := P.take .plus (P.tPot w k σ)

/-- `Tt` in `operator` (`waveguide.py:268-270`): `sym.tangential_derivative` (C78) at the default location -/
noncomputable def Interp.Tt (P : Interp N V W) (w : W) (k : ℂ) (σ : N → ℂ) (x : N) : ℂ :=
  ∑ m, P.tan none x m * P.take .plus (P.d m (P.tPot w k σ)) x

/-- `Sn` in `operator` (`waveguide.py:272-274`) -/
noncomputable def Interp.Sn (P : Interp N V W) (k : ℂ) (σ : N → ℂ) (x : N) : ℂ :=
  ∑ m, P.nrm none x m * P.take .avg (P.d m (P.single k σ)) x

/-- `St` in `operator` (`waveguide.py:276-278`) -/
noncomputable def Interp.St (P : Interp N V W) (k : ℂ) (σ : N → ℂ) (x : N) : ℂ :=
  ∑ m, P.tan none x m * P.take .plus (P.d m (P.single k σ)) x

/-- `tangent.scalar_product(S(dom, v * phi))` (`waveguide.py:288-298`, `320-325`) for a vector field `v`: the
potential is taken for each component -/
noncomputable def Interp.tanS (P : Interp N V W) (w : W) (k : ℂ) (v : N → Fin 2 → ℂ) (σ : N → ℂ) (x : N) : ℂ :=
  ∑ m, P.tan (some w) x m * P.S k (fun y => v y m * σ y) .plus x

/-- an interface: outer domain, inner domain, location (`waveguide.py:53-60`) -/
structure Iface (W : Type) where
  outer : Nat
  inner : Nat
  loc : W

/-- `operator`, first equation of an interface (`waveguide.py:283`, `300-301`, `308-311`, `331`, `336`); `n0`, `n1` are the
indices outside and inside, `k0`, `k1` the wave numbers `K` -/
noncomputable def row1 (P : Interp N V W) (w : W) (ne n0 n1 k0 k1 : ℂ) (p1 p3 p4 : N → ℂ) (x : N) : ℂ :=
  (n0 ^ 2 + n1 ^ 2) / 2 * p1 x + (n0 ^ 2 * P.D k0 p1 x - n1 ^ 2 * P.D k1 p1 x) + 0
    + ne * (P.T w k0 p3 x - P.T w k1 p3 x)
    + I * ((n0 ^ 2 - ne ^ 2) * P.S k0 p4 .plus x - (n1 ^ 2 - ne ^ 2) * P.S k1 p4 .plus x)

/-- `a23_expr` (`waveguide.py:317-326`) -/
noncomputable def a23 (P : Interp N V W) (w : W) (n0 n1 k0 k1 : ℂ) (p : N → ℂ) (x : N) : ℂ :=
  I * (P.Tt w k0 p x - P.Tt w k1 p x)
    - I * (n0 ^ 2 * P.tanS w k0 (P.tan (some w)) p x - n1 ^ 2 * P.tanS w k1 (P.tan (some w)) p x)

/-- `operator`, second equation (`waveguide.py:284`, `288-292`, `305`, `328`, `332`, `337`) -/
noncomputable def row2 (P : Interp N V W) (w : W) (ne n0 n1 k0 k1 : ℂ) (p1 p2 p3 p4 : N → ℂ) (x : N) : ℂ :=
  (n0 ^ 2 + n1 ^ 2) / 2 * p2 x
    + -I * ne * (n0 ^ 2 * P.tanS w k0 (P.nrm (some w)) p1 x - n1 ^ 2 * P.tanS w k1 (P.nrm (some w)) p1 x)
    + (-n0 ^ 2 * P.Sn k0 p2 x + n1 ^ 2 * P.Sn k1 p2 x)
    + a23 P w n0 n1 k0 k1 p3 x
    + ne * (P.St k0 p4 x - P.St k1 p4 x)

/-- `operator`, third equation (`waveguide.py:285`, `302-303`, `312-315`, `333`, `338`) -/
noncomputable def row3 (P : Interp N V W) (w : W) (ne n0 n1 k0 k1 : ℂ) (p1 p2 p3 : N → ℂ) (x : N) : ℂ :=
  p3 x + -(ne * (P.T w k0 p1 x - P.T w k1 p1 x))
    + -(I * ((n0 ^ 2 - ne ^ 2) * P.S k0 p2 .plus x - (n1 ^ 2 - ne ^ 2) * P.S k1 p2 .plus x))
    + (P.D k0 p3 x - P.D k1 p3 x) + 0

/-- `operator`, fourth equation (`waveguide.py:286`, `294-298`, `306`, `329`, `334`, `339`) -/
noncomputable def row4 (P : Interp N V W) (w : W) (ne n0 n1 k0 k1 : ℂ) (p1 p2 p3 p4 : N → ℂ) (x : N) : ℂ :=
  p4 x + -a23 P w n0 n1 k0 k1 p1 x + -(ne * (P.St k0 p2 x - P.St k1 p2 x))
    + -I * ne * (P.tanS w k0 (P.nrm (some w)) p3 x - P.tanS w k1 (P.nrm (some w)) p3 x)
    + (-P.Sn k0 p4 x + P.Sn k1 p4 x)

/-- what the methods raise -/
inductive Err | indexError | attributeError
deriving DecidableEq

/-- `operator` (`waveguide.py:239-344`).  The wave number of a domain is that of `__init__` (`waveguide.py:89-91`).  `none` is
Python's `None`.  The unknowns of interface `i` have the numbers `4 i` to `4 i + 3` (`unknown_index`, `waveguide.py:99-108`).
The `return` stands inside the loop over the interfaces, so that only the first one is processed.  Simplified: domain numbers
are not negative. -/
noncomputable def operator (P : Interp N V W) (ns : List ℂ) (ne : ℂ) (ifaces : List (Iface W)) (u : Nat → N → ℂ) :
    Except Err (Option (Nat → N → ℂ)) :=
  match ifaces with
  | [] => .ok none
  | f :: _ =>
    match ns[f.outer]?, ns[f.inner]? with
    | some n0, some n1 =>
      let k0 := upperRoot (n0 ^ 2 - ne ^ 2)
      let k1 := upperRoot (n1 ^ 2 - ne ^ 2)
      .ok (some fun r =>
        if r = 0 then row1 P f.loc ne n0 n1 k0 k1 (u 0) (u 2) (u 3)
        else if r = 1 then row2 P f.loc ne n0 n1 k0 k1 (u 0) (u 1) (u 2) (u 3)
        else if r = 2 then row3 P f.loc ne n0 n1 k0 k1 (u 0) (u 1) (u 2)
        else if r = 3 then row4 P f.loc ne n0 n1 k0 k1 (u 0) (u 1) (u 2) (u 3)
        else 0)
    | _, _ => .error .indexError

/-- `representation` (`waveguide.py:138-146`): after two harmless statements it reads the attribute `k_vacuum`, which the class
does not have -/
def representation (_ : Nat) (_ : Nat → N → ℂ) : Except Err (Fin 6 → V) := .error .attributeError

/-! ### Specification -/

/-- `E` and `H`, the amplitudes of fields proportional to `exp(i ne z)`, satisfy Maxwell's equations `curl E = i H` and
`curl H = -i n² E` (lengths in units of the inverse vacuum wave number) where the partial derivatives are `d 0` and `d 1`. -/
def IsMode (d : Fin 2 → V →ₗ[ℂ] V) (n ne : ℂ) (E H : Fin 3 → V) : Prop :=
  d 1 (E 2) - (I * ne) • E 1 = I • H 0 ∧ (I * ne) • E 0 - d 0 (E 2) = I • H 1 ∧ d 0 (E 1) - d 1 (E 0) = I • H 2 ∧
  d 1 (H 2) - (I * ne) • H 1 = (-I * n ^ 2) • E 0 ∧ (I * ne) • H 0 - d 0 (H 2) = (-I * n ^ 2) • E 1 ∧
  d 0 (H 1) - d 1 (H 0) = (-I * n ^ 2) • E 2

/-- The representation of the electric field by densities `jt`, `jz`, `mt`, `mz` in a domain of index `n` with wave number `k`: what
`representation` (`waveguide.py:188-210`) would add for an interface if it did not fail, with `dx`, `dy` the derivatives
along the two axes and `k_v = 1`. -/
noncomputable def fieldE (P : Interp N V W) (w : W) (n ne k : ℂ) (jt jz mt mz : N → ℂ) : Fin 3 → V
  | 0 => I • P.d 0 (P.tPot w k jt) + ne • P.d 0 (P.single k jz)
      - (I * n ^ 2) • P.single k (fun y => jt y * P.tan (some w) y 0) - P.d 1 (P.single k mz)
      + (I * ne) • P.single k (fun y => mt y * P.tan (some w) y 1)
  | 1 => I • P.d 1 (P.tPot w k jt) + ne • P.d 1 (P.single k jz)
      - (I * n ^ 2) • P.single k (fun y => jt y * P.tan (some w) y 1) + P.d 0 (P.single k mz)
      - (I * ne) • P.single k (fun y => mt y * P.tan (some w) y 0)
  | 2 => -ne • P.tPot w k jt - (I * (n ^ 2 - ne ^ 2)) • P.single k jz + P.dsrc k (P.nrm none) mt

/-- The magnetic field in the same way (`waveguide.py:213-235`). -/
noncomputable def fieldH (P : Interp N V W) (w : W) (n ne k : ℂ) (jt jz mt mz : N → ℂ) : Fin 3 → V
  | 0 => -I • P.d 0 (P.tPot w k mt) - ne • P.d 0 (P.single k mz)
      + (I * n ^ 2) • P.single k (fun y => mt y * P.tan (some w) y 0) - n ^ 2 • P.d 1 (P.single k jz)
      + (I * ne * n ^ 2) • P.single k (fun y => jt y * P.tan (some w) y 1)
  | 1 => -I • P.d 1 (P.tPot w k mt) - ne • P.d 1 (P.single k mz)
      + (I * n ^ 2) • P.single k (fun y => mt y * P.tan (some w) y 1) + n ^ 2 • P.d 0 (P.single k jz)
      - (I * ne * n ^ 2) • P.single k (fun y => jt y * P.tan (some w) y 0)
  | 2 => ne • P.tPot w k mt + (I * (n ^ 2 - ne ^ 2)) • P.single k mz + n ^ 2 • P.dsrc k (P.nrm none) jt

/-- Tangential component in the cross section of a field at a node, from one side. -/
noncomputable def along (P : Interp N V W) (s : Side) (F : Fin 3 → V) (x : N) : ℂ :=
  P.tan none x 0 * P.tr s (F 0) x + P.tan none x 1 * P.tr s (F 1) x

/-- The facts about layer potentials on a smooth curve that are used, for one wave number: partial derivatives commute; the single
layer potential solves the Helmholtz equation; kernels depend on the difference of target and source only; single layer
potentials, tangential source derivatives and tangential derivatives of both are continuous across the curve; double layer
potentials jump by the density and normal derivatives of single layer potentials by minus the density. -/
structure Layers (P : Interp N V W) (k : ℂ) : Prop where
  comm : ∀ v, P.d 0 (P.d 1 v) = P.d 1 (P.d 0 v)
  helmholtz : ∀ σ, P.d 0 (P.d 0 (P.single k σ)) + P.d 1 (P.d 1 (P.single k σ)) = -k ^ 2 • P.single k σ
  shift : ∀ v σ, P.dsrc k v σ
    = -(P.d 0 (P.single k fun y => σ y * v y 0) + P.d 1 (P.single k fun y => σ y * v y 1))
  single_cont : ∀ σ x, P.tr .ext (P.single k σ) x = P.tr .int (P.single k σ) x
  tan_cont : ∀ σ x, P.tr .ext (P.dsrc k (P.tan none) σ) x = P.tr .int (P.dsrc k (P.tan none) σ) x
  double_jump : ∀ σ x, P.tr .ext (P.dsrc k (P.nrm none) σ) x - P.tr .int (P.dsrc k (P.nrm none) σ) x = σ x
  normal_jump : ∀ σ x, ∑ m, P.nrm none x m * (P.tr .ext (P.d m (P.single k σ)) x - P.tr .int (P.d m (P.single k σ)) x) = -σ x
  dtan_single : ∀ σ x, ∑ m, P.tan none x m * (P.tr .ext (P.d m (P.single k σ)) x - P.tr .int (P.d m (P.single k σ)) x) = 0
  dtan_tan : ∀ σ x, ∑ m, P.tan none x m *
    (P.tr .ext (P.d m (P.dsrc k (P.tan none) σ)) x - P.tr .int (P.d m (P.dsrc k (P.tan none) σ)) x) = 0

/-- The location `w` of the interface is the default location, and normals are tangents turned clockwise (C97). -/
structure Located (P : Interp N V W) (w : W) : Prop where
  tan : P.tan (some w) = P.tan none
  nrm : P.nrm (some w) = P.nrm none
  turn : ∀ x, P.nrm none x 0 = P.tan none x 1 ∧ P.nrm none x 1 = -P.tan none x 0

/-! ### Properties -/

theorem sqrt_sq (x : ℂ) : (x ^ ((1 : ℂ) / 2)) ^ 2 = x := by
  simp

theorem sqrt_re (x : ℂ) : 0 ≤ (x ^ ((1 : ℂ) / 2)).re := by
  rcases eq_or_ne x 0 with rfl | hx
  · rw [Complex.zero_cpow (by norm_num)]; simp
  · rw [Complex.cpow_def_of_ne_zero hx, Complex.exp_re]
    refine mul_nonneg (Real.exp_pos _).le (Real.cos_nonneg_of_mem_Icc ?_)
    have h1 := Complex.neg_pi_lt_arg x
    have h2 := Complex.arg_le_pi x
    have h3 : (Complex.log x * (1 / 2)).im = x.arg / 2 := by
      have : ((1 : ℂ) / 2) = ((1 / 2 : ℝ) : ℂ) := by push_cast; rfl
      rw [this, Complex.im_mul_ofReal, Complex.log_im]; ring
    rw [h3]
    constructor <;> linarith

/-- C98 (wave numbers): the wave number of a domain is the square root of `n² - ne²` with nonnegative imaginary part, so that
potentials do not grow away from the interface; for positive `n² - ne²` it is the positive root. -/
theorem C98_wave_number (x : ℂ) :
    upperRoot x ^ 2 = x ∧ 0 ≤ (upperRoot x).im ∧ ∀ t : ℝ, 0 < t → x = (t : ℂ) → upperRoot x = ((√t : ℝ) : ℂ) := by
  refine ⟨?_, ?_, ?_⟩
  · unfold upperRoot
    by_cases h : (x ^ ((1 : ℂ) / 2)).im < 0
    · rw [if_pos h, mul_pow, Complex.I_sq, sqrt_sq]; ring
    · rw [if_neg h, sqrt_sq]
  · unfold upperRoot
    by_cases h : (x ^ ((1 : ℂ) / 2)).im < 0
    · rw [if_pos h, Complex.I_mul_im]; exact sqrt_re _
    · rw [if_neg h]; exact not_lt.mp h
  · rintro t ht rfl
    have h1 : ((t : ℂ)) ^ ((1 : ℂ) / 2) = ((√t : ℝ) : ℂ) := by
      rw [Real.sqrt_eq_rpow, Complex.ofReal_cpow ht.le]; push_cast; rfl
    unfold upperRoot
    rw [h1, if_neg (by simp)]

/-- the two tangential source derivatives and their sources, expanded -/
theorem maxwell_aux (P : Interp N V W) (w : W) (hw : Located P w) (n ne k : ℂ) (hk : k ^ 2 = n ^ 2 - ne ^ 2)
    (h : Layers P k) (jt jz mt mz : N → ℂ) :
    IsMode P.d n ne (fieldE P w n ne k jt jz mt mz) (fieldH P w n ne k jt jz mt mz) := by
  have hT : ∀ σ, P.tPot w k σ = -(P.d 0 (P.single k fun y => σ y * P.tan (some w) y 0)
      + P.d 1 (P.single k fun y => σ y * P.tan (some w) y 1)) := fun σ => h.shift _ _
  have hD : ∀ σ, P.dsrc k (P.nrm none) σ = P.d 1 (P.single k fun y => σ y * P.tan (some w) y 0)
      - P.d 0 (P.single k fun y => σ y * P.tan (some w) y 1) := by
    intro σ
    rw [h.shift]
    have e0 : (fun y => σ y * P.nrm none y 0) = fun y => σ y * P.tan (some w) y 1 := by
      funext y; rw [hw.tan, (hw.turn y).1]
    have e1 : (fun y => σ y * P.nrm none y 1) = -fun y => σ y * P.tan (some w) y 0 := by
      funext y; rw [hw.tan, (hw.turn y).2]; simp
    rw [e0, e1, map_neg, map_neg]; abel
  have hI : I * I = -1 := Complex.I_mul_I
  have hc := h.comm
  unfold IsMode
  simp only [fieldE, fieldH, hT, hD, map_add, map_sub, map_smul, map_neg]
  have h0 := h.helmholtz jz
  have h1 := h.helmholtz mz
  have h2 := h.helmholtz fun y => jt y * P.tan (some w) y 0
  have h3 := h.helmholtz fun y => jt y * P.tan (some w) y 1
  have h4 := h.helmholtz fun y => mt y * P.tan (some w) y 0
  have h5 := h.helmholtz fun y => mt y * P.tan (some w) y 1
  rw [hk] at h0 h1 h2 h3 h4 h5
  have hI2 : I ^ 2 = -1 := Complex.I_sq
  simp only [hc]
  generalize P.single k jz = a at *
  generalize P.single k mz = b at *
  generalize (P.single k fun y => jt y * P.tan (some w) y 0) = j0 at *
  generalize (P.single k fun y => jt y * P.tan (some w) y 1) = j1 at *
  generalize (P.single k fun y => mt y * P.tan (some w) y 0) = m0 at *
  generalize (P.single k fun y => mt y * P.tan (some w) y 1) = m1 at *
  refine ⟨?_, ?_, ?_, ?_, ?_, ?_⟩
  · linear_combination (norm := skip) (1:ℂ) • h4
    match_scalars <;> (ring_nf; try simp only [hI2]; try ring)
  · linear_combination (norm := skip) (1:ℂ) • h5
    match_scalars <;> (ring_nf; try simp only [hI2]; try ring)
  · linear_combination (norm := skip) (1:ℂ) • h1
    match_scalars <;> (ring_nf; try simp only [hI2]; try ring)
  · linear_combination (norm := skip) (n^2:ℂ) • h2
    match_scalars <;> (ring_nf; try simp only [hI2]; try ring)
  · linear_combination (norm := skip) (n^2:ℂ) • h3
    match_scalars <;> (ring_nf; try simp only [hI2]; try ring)
  · linear_combination (norm := skip) (n^2:ℂ) • h0
    match_scalars <;> (ring_nf; try simp only [hI2]; try ring)

theorem rows_eq (P : Interp N V W) (w : W) (hw : Located P w) (ne n0 n1 k0 k1 : ℂ)
    (h0 : Layers P k0) (h1 : Layers P k1) (a b c e : N → ℂ) (x : N) :
    row1 P w ne n0 n1 k0 k1 a c e x
      = P.tr .ext (fieldH P w n0 ne k0 a b c e 2) x - P.tr .int (fieldH P w n1 ne k1 a b c e 2) x ∧
    row2 P w ne n0 n1 k0 k1 a b c e x
      = along P .int (fieldH P w n1 ne k1 a b c e) x - along P .ext (fieldH P w n0 ne k0 a b c e) x ∧
    row3 P w ne n0 n1 k0 k1 a b c x
      = P.tr .ext (fieldE P w n0 ne k0 a b c e 2) x - P.tr .int (fieldE P w n1 ne k1 a b c e 2) x ∧
    row4 P w ne n0 n1 k0 k1 a b c e x
      = along P .int (fieldE P w n1 ne k1 a b c e) x - along P .ext (fieldE P w n0 ne k0 a b c e) x := by
  have e1 : ∀ σ : N → ℂ, (fun y => P.nrm none y 0 * σ y) = fun y => σ y * P.tan none y 1 := by
    intro σ; funext y; rw [(hw.turn y).1, mul_comm]
  have e2 : ∀ σ : N → ℂ, (fun y => P.nrm none y 1 * σ y) = -fun y => σ y * P.tan none y 0 := by
    intro σ; funext y; rw [(hw.turn y).2, Pi.neg_apply]; ring
  have e3 : ∀ (σ : N → ℂ) (m : Fin 2), (fun y => P.tan none y m * σ y) = fun y => σ y * P.tan none y m := by
    intro σ m; funext y; rw [mul_comm]
  have hT : ∀ k σ, P.tPot w k σ = P.dsrc k (P.tan none) σ := by
    intro k σ; unfold Interp.tPot; rw [hw.tan]
  have t0 := (hw.turn x).1
  have t1 := (hw.turn x).2
  have sc := fun σ => h1.single_cont σ x
  have tc := fun σ => h1.tan_cont σ x
  have d0 := fun σ => h0.double_jump σ x
  have d1 := fun σ => h1.double_jump σ x
  have m0 := fun σ => h0.normal_jump σ x
  have m1 := fun σ => h1.normal_jump σ x
  have ts := fun σ => h1.dtan_single σ x
  have tt := fun σ => h1.dtan_tan σ x
  simp only [Fin.sum_univ_two, t0, t1] at m0 m1 ts tt
  refine ⟨?_, ?_, ?_, ?_⟩
  · simp only [row1, Interp.T, Interp.S, Interp.D, Interp.take, hT, fieldH, map_add, map_sub, map_smul, map_neg, Pi.add_apply,
      Pi.sub_apply, Pi.smul_apply, Pi.neg_apply, smul_eq_mul]
    linear_combination (-(n0 ^ 2) / 2) * d0 a - (n1 ^ 2 / 2) * d1 a - ne * tc c - I * (n1 ^ 2 - ne ^ 2) * sc e
  · simp only [row2, a23, Interp.Tt, Interp.St, Interp.Sn, Interp.tanS, Interp.S, Interp.take, along, hT, fieldH, map_add, map_sub,
      map_smul, map_neg, Pi.add_apply, Pi.sub_apply, Pi.smul_apply, Pi.neg_apply, smul_eq_mul, Fin.sum_univ_two, e1, e2, e3, t0,
      t1, hw.tan, hw.nrm]
    linear_combination (I * ne * n1 ^ 2) * (P.tan none x 0 * sc (fun y => a y * P.tan none y 1)
      - P.tan none x 1 * sc (fun y => a y * P.tan none y 0)) + n1 ^ 2 / 2 * m1 b + n0 ^ 2 / 2 * m0 b - I * tt c
      + I * n1 ^ 2 * (P.tan none x 0 * sc (fun y => c y * P.tan none y 0)
        + P.tan none x 1 * sc (fun y => c y * P.tan none y 1)) - ne * ts e
  · simp only [row3, Interp.T, Interp.S, Interp.D, Interp.take, hT, fieldE, map_add, map_sub, map_smul, map_neg, Pi.add_apply,
      Pi.sub_apply, Pi.smul_apply, Pi.neg_apply, smul_eq_mul]
    linear_combination (-1 / 2) * d0 c - (1 / 2) * d1 c + ne * tc a + I * (n1 ^ 2 - ne ^ 2) * sc b
  · simp only [row4, a23, Interp.Tt, Interp.St, Interp.Sn, Interp.tanS, Interp.S, Interp.take, along, hT, fieldE, map_add, map_sub,
      map_smul, map_neg, Pi.add_apply, Pi.sub_apply, Pi.smul_apply, Pi.neg_apply, smul_eq_mul, Fin.sum_univ_two, e1, e2, e3, t0,
      t1, hw.tan, hw.nrm]
    linear_combination (I * ne) * (P.tan none x 0 * sc (fun y => c y * P.tan none y 1)
      - P.tan none x 1 * sc (fun y => c y * P.tan none y 0)) + 1 / 2 * m1 e + 1 / 2 * m0 e + I * tt a
      - I * n1 ^ 2 * (P.tan none x 0 * sc (fun y => a y * P.tan none y 0)
        + P.tan none x 1 * sc (fun y => a y * P.tan none y 1)) + ne * ts b

/-- C98 (one interface): the four equations are, for the fields the densities represent outside and inside, the jumps of the
tangential components of `H` and `E` (along `z` and, with a minus sign, along the curve).  These fields satisfy Maxwell's
equations in both domains, so solutions of `operator(u) = 0` are modes.  Partial: `C98_interfaces_refuted`, `C98_fields_refuted`; the
location of the interface must be the default one, since potentials ignore it. -/
theorem C98_interface_partial (P : Interp N V W) (ns : List ℂ) (ne : ℂ) (f : Iface W) (n0 n1 k0 k1 : ℂ)
    (h0 : ns[f.outer]? = some n0) (h1 : ns[f.inner]? = some n1) (hk0 : k0 = upperRoot (n0 ^ 2 - ne ^ 2))
    (hk1 : k1 = upperRoot (n1 ^ 2 - ne ^ 2)) (hw : Located P f.loc) (hl0 : Layers P k0) (hl1 : Layers P k1)
    (u : Nat → N → ℂ) (E0 H0 E1 H1 : Fin 3 → V)
    (hE0 : E0 = fieldE P f.loc n0 ne k0 (u 0) (u 1) (u 2) (u 3)) (hH0 : H0 = fieldH P f.loc n0 ne k0 (u 0) (u 1) (u 2) (u 3))
    (hE1 : E1 = fieldE P f.loc n1 ne k1 (u 0) (u 1) (u 2) (u 3)) (hH1 : H1 = fieldH P f.loc n1 ne k1 (u 0) (u 1) (u 2) (u 3)) :
    IsMode P.d n0 ne E0 H0 ∧ IsMode P.d n1 ne E1 H1 ∧
    ∃ r, operator P ns ne [f] u = .ok (some r) ∧ ∀ x,
      r 0 x = P.tr .ext (H0 2) x - P.tr .int (H1 2) x ∧ r 1 x = along P .int H1 x - along P .ext H0 x ∧
      r 2 x = P.tr .ext (E0 2) x - P.tr .int (E1 2) x ∧ r 3 x = along P .int E1 x - along P .ext E0 x := by
  subst hE0 hH0 hE1 hH1
  have r0 : k0 ^ 2 = n0 ^ 2 - ne ^ 2 := by rw [hk0]; exact (C98_wave_number _).1
  have r1 : k1 ^ 2 = n1 ^ 2 - ne ^ 2 := by rw [hk1]; exact (C98_wave_number _).1
  refine ⟨maxwell_aux P f.loc hw n0 ne k0 r0 hl0 _ _ _ _, maxwell_aux P f.loc hw n1 ne k1 r1 hl1 _ _ _ _, ?_⟩
  subst hk0 hk1
  unfold operator
  simp only [h0, h1]
  exact ⟨_, rfl, fun x => rows_eq P f.loc hw ne n0 n1 _ _ hl0 hl1 (u 0) (u 1) (u 2) (u 3) x⟩

/-- C98 (no contrast): if the refractive indices on both sides agree, all integral operators cancel and the equations are
multiples of the unknowns, `n²` for the first two and `1` for the last two; so there are no modes then (`n ≠ 0`). -/
theorem C98_no_contrast (P : Interp N V W) (ns : List ℂ) (ne : ℂ) (f : Iface W) (fs : List (Iface W)) (n : ℂ)
    (h0 : ns[f.outer]? = some n) (h1 : ns[f.inner]? = some n) (u : Nat → N → ℂ) :
    ∃ r, operator P ns ne (f :: fs) u = .ok (some r) ∧ ∀ x,
      r 0 x = n ^ 2 * u 0 x ∧ r 1 x = n ^ 2 * u 1 x ∧ r 2 x = u 2 x ∧ r 3 x = u 3 x := by
  unfold operator
  simp only [h0, h1]
  refine ⟨_, rfl, fun x => ⟨?_, ?_, ?_, ?_⟩⟩
  · simp [row1]
  · simp [row2, a23]
  · simp [row3]
  · simp [row4, a23]

/-- C98 (duality of electric and magnetic densities): the magnetic densities enter the equations for `H` as the electric
densities enter those for `E`, with the opposite sign. -/
theorem C98_duality (P : Interp N V W) (ns : List ℂ) (ne : ℂ) (f : Iface W) (fs : List (Iface W)) (a b : N → ℂ)
    (u v : Nat → N → ℂ) (hu : u 0 = 0 ∧ u 1 = 0 ∧ u 2 = a ∧ u 3 = b) (hv : v 0 = a ∧ v 1 = b ∧ v 2 = 0 ∧ v 3 = 0)
    (r s : Nat → N → ℂ) (hr : operator P ns ne (f :: fs) u = .ok (some r))
    (hs : operator P ns ne (f :: fs) v = .ok (some s)) (x : N) : s 2 x = -r 0 x ∧ s 3 x = -r 1 x := by
  obtain ⟨u0, u1, u2, u3⟩ := hu
  obtain ⟨v0, v1, v2, v3⟩ := hv
  have zero : (fun _ : N => (0 : ℂ)) = 0 := rfl
  unfold operator at hr hs
  cases h0 : ns[f.outer]? with
  | none => simp [h0] at hr
  | some n0 =>
    cases h1 : ns[f.inner]? with
    | none => simp [h0, h1] at hr
    | some n1 =>
      simp only [h0, h1, Except.ok.injEq, Option.some.injEq] at hr hs
      subst hr hs
      simp only [u0, u1, u2, u3, v0, v1, v2, v3]
      constructor
      · simp [row1, row3, Interp.D, Interp.take]
        ring
      · simp [row2, row4, Interp.Sn, Interp.tanS, Interp.S, Interp.take, zero]
        ring

/-- **C98 is false for several interfaces**: only the equations of the first interface are set up, because the loop returns after
it; all others are zero.  So densities on the other interfaces are arbitrary in solutions of `operator(u) = 0`. -/
theorem C98_interfaces_refuted (P : Interp N V W) (ns : List ℂ) (ne : ℂ) (f : Iface W) (fs : List (Iface W)) (u : Nat → N → ℂ)
    (r : Nat → N → ℂ) (h : operator P ns ne (f :: fs) u = .ok (some r)) :
    operator P ns ne [f] u = .ok (some r) ∧ (∀ i, 4 ≤ i → ∀ x, r i x = 0) ∧
    ∀ u', (∀ i < 4, u' i = u i) → operator P ns ne (f :: fs) u' = .ok (some r) := by
  refine ⟨h, ?_, ?_⟩
  · unfold operator at h
    cases h0 : ns[f.outer]? with
    | none => simp [h0] at h
    | some n0 =>
      cases h1 : ns[f.inner]? with
      | none => simp [h0, h1] at h
      | some n1 =>
        simp only [h0, h1, Except.ok.injEq, Option.some.injEq] at h
        intro i hi x
        subst h
        simp only [show i ≠ 0 by omega, show i ≠ 1 by omega, show i ≠ 2 by omega, show i ≠ 3 by omega, if_false, Pi.zero_apply]
  · intro u' hu
    rw [← h]
    unfold operator
    simp only [hu 0 (by omega), hu 1 (by omega), hu 2 (by omega), hu 3 (by omega)]

/-- **C98 is false without interfaces**: `operator` returns `None` instead of an empty array. -/
theorem C98_empty_refuted (P : Interp N V W) (ns : List ℂ) (ne : ℂ) (u : Nat → N → ℂ) :
    operator P ns ne [] u = .ok none := rfl

/-- **C98 is false for the fields**: `representation` always raises `AttributeError`. -/
theorem C98_fields_refuted (domain : Nat) (u : Nat → N → ℂ) :
    (representation domain u : Except Err (Fin 6 → V)) = .error .attributeError := rfl

/-! ### An instance: a plane interface and fields that depend on the distance from it only -/

/-- wave numbers of the example -/
noncomputable def exK : Bool → ℂ
  | true => 4
  | false => 5 / 4

/-- derivative of `exp(± i k s)` for each side and wave number -/
noncomputable def exD : (Side → Bool → ℂ) →ₗ[ℂ] (Side → Bool → ℂ) where
  toFun f := fun s b => (match s with | .ext => I * exK b | .int => -(I * exK b)) * f s b
  map_add' f g := by funext s b; simp [mul_add]
  map_smul' c f := by funext s b; simp; ring

/-- single layer potential of the example -/
noncomputable def exSingle (k : ℂ) : (Unit → ℂ) →ₗ[ℂ] (Side → Bool → ℂ) where
  toFun σ := fun _ b => (if k = exK b then I / (2 * k) else 0) * σ ()
  map_add' f g := by funext s b; simp [mul_add]
  map_smul' c f := by funext s b; simp; ring

/-- density times a component of a direction field -/
def exMul (v : Unit → ℂ) : (Unit → ℂ) →ₗ[ℂ] (Unit → ℂ) where
  toFun σ := fun y => σ y * v y
  map_add' f g := by funext y; simp [add_mul]
  map_smul' c f := by funext y; simp; ring

/-- the sum over both wave numbers at the interface -/
def exTr (s : Side) : (Side → Bool → ℂ) →ₗ[ℂ] (Unit → ℂ) where
  toFun f := fun _ => f s true + f s false
  map_add' f g := by funext y; simp; ring
  map_smul' c f := by funext y; simp; ring

/-- the example -/
noncomputable def exP : Interp Unit (Side → Bool → ℂ) Unit where
  tan _ _ := ![0, 1]
  nrm _ _ := ![1, 0]
  d m := if m = 0 then exD else 0
  single := exSingle
  dsrc k v := -(exD ∘ₗ exSingle k ∘ₗ exMul fun y => v y 0)
  tr := exTr

theorem exP_located : Located exP () := ⟨rfl, rfl, fun _ => by simp [exP]⟩

theorem exP_layers (c : Bool) : Layers exP (exK c) := by
  have ne4 : (4 : ℂ) ≠ 5 / 4 := by norm_num
  have hI : I ^ 2 = -1 := Complex.I_sq
  constructor
  · intro v; simp [exP]
  · intro σ; funext s b
    cases s <;> cases b <;> cases c <;> simp [exP, exD, exSingle, exK, ne4, ne4.symm] <;>
      first | linear_combination (5 / 8 * I * σ ()) * hI | linear_combination (2 * I * σ ()) * hI
  · intro v σ; simp [exP]; rfl
  · intro σ x; simp [exP, exSingle, exTr]
  · intro σ x; simp [exP, exSingle, exTr, exD, exMul]
  · intro σ x; cases c <;> simp [exP, exD, exSingle, exK, exTr, exMul, ne4, ne4.symm] <;>
      first | linear_combination (-σ ()) * hI | linear_combination (σ ()) * hI
  · intro σ x; cases c <;> simp [exP, exD, exSingle, exK, exTr, ne4, ne4.symm] <;>
      first | linear_combination (-σ ()) * hI | linear_combination (σ ()) * hI
  · intro σ x; simp [exP]
  · intro σ x; simp [exP]

/-- The hypotheses of `C98_interface_partial` are met: indices 5 and 13/4, effective index 3. -/
example : ([5, 13 / 4] : List ℂ)[(⟨0, 1, ()⟩ : Iface Unit).outer]? = some 5 ∧
    ([5, 13 / 4] : List ℂ)[(⟨0, 1, ()⟩ : Iface Unit).inner]? = some (13 / 4) ∧
    Located exP () ∧ Layers exP (upperRoot (5 ^ 2 - 3 ^ 2)) ∧ Layers exP (upperRoot ((13 / 4) ^ 2 - 3 ^ 2)) := by
  have a : upperRoot (5 ^ 2 - 3 ^ 2) = exK true := by
    rw [(C98_wave_number _).2.2 16 (by norm_num) (by norm_num),
      show (16 : ℝ) = 4 ^ 2 by norm_num, Real.sqrt_sq (by norm_num)]
    simp [exK]
  have b : upperRoot ((13 / 4) ^ 2 - 3 ^ 2) = exK false := by
    rw [(C98_wave_number _).2.2 (25 / 16) (by norm_num) (by norm_num),
      show (25 / 16 : ℝ) = (5 / 4) ^ 2 by norm_num, Real.sqrt_sq (by norm_num)]
    simp [exK]
  rw [a, b]
  exact ⟨rfl, rfl, exP_located, exP_layers true, exP_layers false⟩

end Verif.Waveguide
