import Mathlib.Algebra.Module.LinearMap.Defs
import Mathlib.Algebra.Module.Pi
import Mathlib.Algebra.BigOperators.Fin
import Mathlib.Algebra.Field.Basic
import Mathlib.Tactic.Ring

/-!
# Maxwell sources and integral equation operators

Model of `pytential/symbolic/pde/maxwell/__init__.py` (`get_sym_maxwell_point_source`,
`get_sym_maxwell_plane_wave`, `PECChargeCurrentMFIEOperator`, `MuellerAugmentedMFIEOperator`) and
of the vector calculus in `pytential/symbolic/primitives.py` (`dd_axis`, `grad`, `div`, `curl`,
`cross`, `n_cross`, `n_dot`, `xyz_to_tangential`, `tangential_to_xyz`).

Functions away from the surface are elements of a module `V` over the field `K` of complex
numbers, with partial derivatives `d m`; densities and boundary values are functions on the
nodes `N`.  `common subexpression` markers are transparent.
-/

namespace Verif.Maxwell

/-- side of the surface: `+1` or `-1` -/
inductive Side | plus | minus
deriving DecidableEq

/-- the other side -/
def Side.flip : Side → Side
  | .plus => .minus
  | .minus => .plus

variable {K N V T : Type} [Field K] [AddCommGroup V] [Module K V] [AddCommGroup T] [Module K T]

/-- the sign as a number -/
def Side.sgn : Side → K
  | .plus => 1
  | .minus => -1

/-- What the symbols stand for: the imaginary unit, unit normal and tangential basis at the
nodes, partial derivatives of functions off the surface, the Helmholtz single layer potential
for each wave number, and the boundary values from either side. -/
structure Interp (K N V : Type) [Field K] [AddCommGroup V] [Module K V] where
  imag : K
  nrm : N → Fin 3 → K
  tan : N → Fin 2 → Fin 3 → K
  d : Fin 3 → V →ₗ[K] V
  S : K → (N → K) → V
  tr : Side → V →ₗ[K] (N → K)

/-! ### Vector calculus -/

/-- `pytools.levi_civita` of three indices: `(j-i)*(k-i)*(k-j)/2` -/
def levi (i j k : Fin 3) : ℤ :=
  ((j : ℤ) - (i : ℤ)) * ((k : ℤ) - (i : ℤ)) * ((k : ℤ) - (j : ℤ)) / 2

/-- `sym.cross` (`primitives.py:2541-2553`) -/
def cross (a : Fin 3 → K) (b : Fin 3 → T) (i : Fin 3) : T :=
  ∑ j, ∑ k, ((levi i j k : ℤ) : K) • a j • b k

/-- `sym.n_dot` (`primitives.py:2531-2538`) -/
def Interp.nDot (I : Interp K N V) (v : Fin 3 → N → K) (n : N) : K := ∑ i, I.nrm n i * v i n

/-- `sym.n_cross` (`primitives.py:2556-2561`) -/
def Interp.nCross (I : Interp K N V) (v : Fin 3 → N → K) (i : Fin 3) (n : N) : K :=
  cross (I.nrm n) (fun k => v k n) i

/-- `sym.xyz_to_tangential` (`primitives.py:2498-2507`) -/
def Interp.toTan (I : Interp K N V) (v : Fin 3 → N → K) (a : Fin 2) (n : N) : K :=
  ∑ i, I.tan n a i * v i n

/-- `sym.tangential_to_xyz` (`primitives.py:2510-2518`) -/
def Interp.toXyz (I : Interp K N V) (t : Fin 2 → N → K) (i : Fin 3) (n : N) : K :=
  ∑ a, I.tan n a i * t a n

/-- `sym.curl` (`primitives.py:2571-2580`) of potentials evaluated through `ev` (the limit is
part of each potential, the derivative is taken of the potential) -/
def Interp.curl (I : Interp K N V) (ev : V →ₗ[K] T) (v : Fin 3 → V) (l : Fin 3) : T :=
  ∑ m, ∑ n, ((levi l m n : ℤ) : K) • ev (I.d m (v n))

/-- `sym.grad` (`primitives.py:1850-1857`) of a potential evaluated through `ev` -/
def Interp.grad (I : Interp K N V) (ev : V →ₗ[K] T) (v : V) (m : Fin 3) : T := ev (I.d m v)

/-- `sym.div` (`primitives.py:2564-2568`) -/
def Interp.div (I : Interp K N V) (v : Fin 3 → V) : V := ∑ m, I.d m (v m)

/-- `qbx_forced_limit="avg"`: mean of both sides (`mappers.py:876-879`, property C13) -/
def Interp.avg (I : Interp K N V) : V →ₗ[K] (N → K) :=
  (1 / 2 : K) • (I.tr .plus + I.tr .minus)

/-- `obj_array.flat(e, h)` of two three-vectors -/
def flat (e h : Fin 3 → T) : Fin 6 → T := Fin.append (m := 3) (n := 3) e h

/-! ### Incident fields -/

/-- `get_sym_maxwell_point_source` (`maxwell/__init__.py:58-85`); `G` are the components of
`sym.S(kernel, jxyz, k=k, qbx_forced_limit=None)` -/
def Interp.pointSource (I : Interp K N V) (k : K) (G : Fin 3 → V) : Fin 6 → V :=
  let A := I.curl LinearMap.id G
  flat (fun i => (I.imag * k) • A i) (I.curl LinearMap.id A)

/-- the direction `n = v/sqrt(dot(v, v))` of `get_sym_maxwell_plane_wave`
(`maxwell/__init__.py:119-120`) -/
def waveDir (sqrt : K → K) (v : Fin 3 → K) (i : Fin 3) : K := v i / sqrt (∑ j, v j * v j)

/-- the orthogonalized amplitude (`maxwell/__init__.py:122`) -/
def waveAmp (amp n : Fin 3 → K) (i : Fin 3) : K := amp i - (∑ j, amp j * n j) * n i

/-- `get_sym_maxwell_plane_wave` (`maxwell/__init__.py:90-128`); `wave p` is the function
`x ↦ exp(p·x)` -/
def planeWave (sqrt : K → K) (imag : K) (wave : (Fin 3 → K) → V) (amp v : Fin 3 → K)
    (omega epsilon mu : K) : Fin 6 → V :=
  let n := waveDir sqrt v
  let cinv := sqrt (mu * epsilon)
  let e := fun i => waveAmp amp n i • wave (fun j => imag * (n j * omega))
  flat e (fun i => cinv • cross n e i)

/-! ### The charge-current MFIE -/

/-- `PECChargeCurrentMFIEOperator.j_operator` (`maxwell/__init__.py:164-169`) -/
def Interp.jOperator (I : Interp K N V) (k : K) (loc : Side) (Jt : Fin 2 → N → K) :
    Fin 2 → N → K :=
  let J := I.toXyz Jt
  let c := I.nCross (I.curl I.avg (fun i => I.S k (J i)))
  I.toTan (fun i n => loc.sgn * (1 / 2) * J i n - c i n)

/-- `j_rhs` (`maxwell/__init__.py:171-172`) -/
def Interp.jRhs (I : Interp K N V) (Hinc : Fin 3 → N → K) : Fin 2 → N → K :=
  I.toTan (I.nCross Hinc)

/-- `sym.Sp` with limit `"avg"` (`primitives.py:2334-2361`): normal derivative of the single
layer potential -/
def Interp.spAvg (I : Interp K N V) (k : K) (rho : N → K) (n : N) : K :=
  I.nDot (fun m => I.avg (I.d m (I.S k rho))) n

/-- `rho_operator` (`maxwell/__init__.py:174-176`) -/
def Interp.rhoOperator (I : Interp K N V) (k : K) (loc : Side) (rho : N → K) (n : N) : K :=
  loc.sgn * (1 / 2) * rho n + I.spAvg k rho n

/-- `rho_rhs` (`maxwell/__init__.py:178-185`) -/
def Interp.rhoRhs (I : Interp K N V) (k : K) (Jt : Fin 2 → N → K) (Einc : Fin 3 → N → K)
    (n : N) : K :=
  let J := I.toXyz Jt
  I.nDot Einc n + I.imag * k * I.nDot (fun i => I.avg (I.S k (J i))) n

/-- `scattered_volume_field` (`maxwell/__init__.py:187-202`) evaluated through `ev` -/
def Interp.scattered (I : Interp K N V) (k : K) (ev : V →ₗ[K] T) (Jt : Fin 2 → N → K)
    (rho : N → K) : Fin 6 → T :=
  let J := I.toXyz Jt
  let A := fun i => I.S k (J i)
  let phi := I.S k rho
  flat (fun i => (I.imag * k) • ev (A i) - I.grad ev phi i) (I.curl ev A)

/-! ### The Müller equation -/

/-- `MaxwellDomain` (`maxwell/__init__.py:209-212`) -/
structure Domain (K : Type) where
  epsilon : K
  mu : K

/-- `ks` (`maxwell/__init__.py:236-240`) -/
def waveNumber (sqrt : K → K) (omega : K) (dom : Domain K) : K :=
  omega * sqrt (dom.epsilon * dom.mu)

/-- `split_unknown` (`maxwell/__init__.py:245-250`): tangential electric current -/
def jt (unk : Fin 6 → N → K) : Fin 2 → N → K := ![unk 0, unk 1]

/-- `split_unknown`: electric charge -/
def rhoE (unk : Fin 6 → N → K) : N → K := unk 2

/-- `split_unknown`: tangential magnetic current -/
def mt (unk : Fin 6 → N → K) : Fin 2 → N → K := ![unk 3, unk 4]

/-- `split_unknown`: magnetic charge -/
def rhoM (unk : Fin 6 → N → K) : N → K := unk 5

/-- the fields `E0`, `E1` of `operator` (`maxwell/__init__.py:275-281`), `E0` of
`representation` (`:324`): `a` is the coefficient of the single layer -/
def Interp.fieldE (I : Interp K N V) (ev : V →ₗ[K] T) (k a mu : K) (J M : Fin 3 → N → K)
    (rho : N → K) (i : Fin 3) : T :=
  a • ev (I.S k (J i)) + mu • I.curl ev (fun j => I.S k (M j)) i - I.grad ev (I.S k rho) i

/-- the fields `H0`, `H1` of `operator` (`maxwell/__init__.py:277-282`), `H0` of
`representation` (`:325`) -/
def Interp.fieldH (I : Interp K N V) (ev : V →ₗ[K] T) (k a eps : K) (J M : Fin 3 → N → K)
    (rho : N → K) (i : Fin 3) : T :=
  a • ev (I.S k (M i)) + eps • I.curl ev (fun j => I.S k (J j)) i + I.grad ev (I.S k rho) i

/-- the equations `F1` … `F4` (`maxwell/__init__.py:284-289`) from the averaged fields -/
def Interp.muellerRows (I : Interp K N V) (d0 d1 : Domain K) (E0 H0 E1 H1 J M : Fin 3 → N → K)
    (re rm : N → K) : Fin 6 → N → K :=
  let f1 := I.toTan (fun i n => I.nCross (fun j n => H1 j n - H0 j n) i n
    + 1 / 2 * (d0.epsilon + d1.epsilon) * J i n)
  let f2 := fun n => I.nDot (fun i n => d1.epsilon * E1 i n - d0.epsilon * E0 i n) n
    + 1 / 2 * (d1.epsilon + d0.epsilon) * re n
  let f3 := I.toTan (fun i n => I.nCross (fun j n => E1 j n - E0 j n) i n
    + 1 / 2 * (d0.mu + d1.mu) * M i n)
  let f4 := fun n => - I.nDot (fun i n => d1.mu * H1 i n - d0.mu * H0 i n) n
    + 1 / 2 * (d1.mu + d0.mu) * rm n
  ![f1 0, f1 1, f2, f3 0, f3 1, f4]

/-- `operator` (`maxwell/__init__.py:252-291`); `dom0, dom1 = self.domains` needs two domains -/
def Interp.muellerOperator (I : Interp K N V) (sqrt : K → K) (omega : K)
    (domains : List (Domain K)) (unk : Fin 6 → N → K) : Except String (Fin 6 → N → K) :=
  match domains with
  | [d0, d1] =>
    let J := I.toXyz (jt unk)
    let M := I.toXyz (mt unk)
    let k0 := waveNumber sqrt omega d0
    let k1 := waveNumber sqrt omega d1
    let E0 := I.fieldE I.avg k0 (I.imag * omega * d0.mu * d0.epsilon) d0.mu J M (rhoE unk)
    let H0 := I.fieldH I.avg k0 (-I.imag * omega * d0.mu * d0.epsilon) d0.epsilon J M (rhoM unk)
    let E1 := I.fieldE I.avg k1 (I.imag * omega * d1.mu * d1.epsilon) d1.mu J M (rhoE unk)
    let H1 := I.fieldH I.avg k1 (-I.imag * omega * d1.mu * d1.epsilon) d1.epsilon J M (rhoM unk)
    .ok (I.muellerRows d0 d1 E0 H0 E1 H1 J M (rhoE unk) (rhoM unk))
  | _ => .error "ValueError"

/-- `rhs` (`maxwell/__init__.py:293-302`) -/
def Interp.muellerRhs (I : Interp K N V) (domains : List (Domain K)) (Einc Hinc : Fin 3 → N → K) :
    Except String (Fin 6 → N → K) :=
  match domains with
  | [_, d1] =>
    let f1 := I.toTan (I.nCross Hinc)
    let f3 := I.toTan (I.nCross Einc)
    .ok ![f1 0, f1 1, I.nDot (fun i n => d1.epsilon * Einc i n), f3 0, f3 1,
      I.nDot (fun i n => -d1.mu * Hinc i n)]
  | _ => .error "ValueError"

/-- `representation` (`maxwell/__init__.py:304-327`): the coefficients of the single layers are
`1j*k*eps` and `-1j*k*mu` -/
def Interp.muellerRepr (I : Interp K N V) (sqrt : K → K) (omega : K) (domains : List (Domain K))
    (i : Nat) (sol : Fin 6 → N → K) (ev : V →ₗ[K] T) : Except String (Fin 6 → T) :=
  match domains[i]? with
  | some dom =>
    let J := I.toXyz (jt sol)
    let M := I.toXyz (mt sol)
    let k := waveNumber sqrt omega dom
    .ok (flat (I.fieldE ev k (I.imag * k * dom.epsilon) dom.mu J M (rhoE sol))
      (I.fieldH ev k (-I.imag * k * dom.mu) dom.epsilon J M (rhoM sol)))
  | none => .error "IndexError"

end Verif.Maxwell
