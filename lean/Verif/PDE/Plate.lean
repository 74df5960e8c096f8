import Mathlib.Analysis.SpecialFunctions.Trigonometric.Basic
import Verif.PDE.ScalarProps

/-!
# Fourth order operators: clamped plates and Cahn-Hilliard (C72)

Model of `BiharmonicClampedPlateOperator` (`pytential/symbolic/pde/scalar.py:556-706`) and `CahnHilliardOperator`
(`pytential/symbolic/pde/cahn_hilliard.py`), in the symbolic language of `Verif.PDE.Expr`.

The mean curvature is an expression supplied as a parameter.
-/

namespace Verif.PDE

variable {K A N : Type} [Field K]

/-- `sym.normal_derivative(dim, e, dofdesc=dd)` of a linear combination of layer potentials with numbers as coefficients
(`DerivativeTaker.map_sum`, `map_product`, `map_int_g`, `mappers.py:560-640`) -/
def dnLin (dd : DD) : Expr K A → Py (Expr K A)
  | .pot p lim d => normalDerivative dd (.pot p lim d)
  | .add a b => do
    let a' ← dnLin dd a
    let b' ← dnLin dd b
    pure (.add a' b')
  | .mul (.num c) e => do
    let e' ← dnLin dd e
    pure (.mul (.num c) e')
  | _ => .error "not supported"

/-! ## clamped plates -/

/-- a `BiharmonicClampedPlateOperator` -/
structure Plate where
  kernel : Kernel

/-- the constructor (`scalar.py:598-610`) -/
def mkPlate (k : Kernel) (locSign : Side) : Py Plate :=
  if locSign ≠ .minus then .error "only interior problems (loc_sign == -1) are supported"
  else if k.dim ≠ 2 then .error "unsupported dimension"
  else .ok ⟨k⟩

/-- `dn(knl)` (`scalar.py:653-654`) -/
def dn (k : Kernel) : Kernel := { k with sderivs := "normal_dir" :: k.sderivs }

/-- `dt(knl)` (`scalar.py:656-657`) -/
def dt (k : Kernel) : Kernel := { k with sderivs := "tangent_dir" :: k.sderivs }

/-- `{**kwargs, "normal_dir": normal_dir}`: the normal is that of the default discretization (`scalar.py:660-661`) -/
def argsN (kwargs : Args A) : Args A := kwargs.merge [("normal_dir", .normal none)]
/-- `{**kwargs, "normal_dir": normal_dir, "tangent_dir": tangent_dir}` (`scalar.py:671-675`) -/
def argsNT (kwargs : Args A) : Args A := kwargs.merge [("normal_dir", .normal none), ("tangent_dir", .tangent none)]
/-- `{**kwargs, "tangent_dir": tangent_dir}` (`scalar.py:684`) -/
def argsT (kwargs : Args A) : Args A := kwargs.merge [("tangent_dir", .tangent none)]

/-- `representation` (`scalar.py:622-684`); `assert sigma.shape == (2,)` -/
def Plate.representation (o : Plate) (sigma : List (Expr K A)) (mp : Expr K A → Py (Expr K A)) (lim : Limit)
    (src tgt : DD) (kwargs : Args A) : Py (Expr K A) :=
  match sigma with
  | [s0, s1] => do
    let snnn ← symS (dn (dn (dn o.kernel))) (argsN kwargs) lim src tgt s0
    let sntt ← symS (dn (dt (dt o.kernel))) (argsNT kwargs) lim src tgt s0
    let snn ← symS (dn (dn o.kernel)) (argsN kwargs) lim src tgt s1
    let stt ← symS (dt (dt o.kernel)) (argsT kwargs) lim src tgt s1
    let a ← mp snnn
    let b ← mp sntt
    let c ← mp snn
    let d ← mp stt
    pure (.add (.sub (.add a (.mul (.num 3) b)) c) d)
  | _ => .error "AssertionError"

/-- `operator` (`scalar.py:692-704`); `curv dd` is `sym.mean_curvature(2, dofdesc=dd)` -/
def Plate.operator (o : Plate) (curv : DD → Expr K A) (sigma : List (Expr K A)) (dd : DD) (kwargs : Args A) :
    Py (List (Expr K A)) :=
  match sigma with
  | [s0, s1] => do
    let R ← o.representation sigma (fun e => .ok e) .avg dd dd kwargs
    let dR ← dnLin dd R
    pure [.add (.quot s0 (.num 2)) R, .add (.sub (.quot s1 (.num 2)) (.mul (curv dd) s0)) dR]
  | _ => .error "AssertionError"

/-! ### specification -/

/-- a potential on the surface `dd` -/
def surfPot (k : Kernel) (args : Args A) (dd : DD) (d : Bool) : Pot A := ⟨k, args, dd, dd, if d then some dd else none⟩

/-- the four potentials of a clamped plate on the surface `dd`, whose directions are the normal and the tangent of the
surface `nd`, as values at the nodes -/
structure PlatePots (A : Type) where
  nnn : Bool → Pot A
  ntt : Bool → Pot A
  nn : Bool → Pot A
  tt : Bool → Pot A

/-- with the normals and tangents of the surface `nd` -/
def platePots (k : Kernel) (kwargs : Args A) (nd dd : DD) : PlatePots A :=
  ⟨surfPot (dn (dn (dn k))) (kwargs.merge [("normal_dir", .normal nd)]) dd,
   surfPot (dn (dt (dt k))) (kwargs.merge [("normal_dir", .normal nd), ("tangent_dir", .tangent nd)]) dd,
   surfPot (dn (dn k)) (kwargs.merge [("normal_dir", .normal nd)]) dd,
   surfPot (dt (dt k)) (kwargs.merge [("tangent_dir", .tangent nd)]) dd⟩

/-- the kernels `K₁ = G_nnn + 3 G_ntt` and `K₂ = - G_nn + G_tt` of [Farkas1990], or their normal derivatives -/
def kern1 (I : Interp K A N) (p : PlatePots A) (d : Bool) (s : Side) (f : N → K) (n : N) : K :=
  I.bdry (p.nnn d) s f n + 3 * I.bdry (p.ntt d) s f n
/-- boundary value of the second layer potential `K₂ = -∂ₙₙG + ∂ₜₜG` of a density (see `kern1`) -/
def kern2 (I : Interp K A N) (p : PlatePots A) (d : Bool) (s : Side) (f : N → K) (n : N) : K :=
  - I.bdry (p.nn d) s f n + I.bdry (p.tt d) s f n

/-- the jump relations of [Farkas1990] on the surface `dd` of mean curvature `κ`, for the kernel `k`: from outside to
inside `K₁` jumps by the density, its normal derivative by `-2κ` times the density, `K₂` is continuous and its normal
derivative jumps by the density -/
structure PlateJumps (I : Interp K A N) (k : Kernel) (kwargs : Args A) (dd : DD) (κ : N → K) : Prop where
  j1 : ∀ f n, kern1 I (platePots k kwargs dd dd) false .minus f n - kern1 I (platePots k kwargs dd dd) false .plus f n = f n
  j1n : ∀ f n, kern1 I (platePots k kwargs dd dd) true .minus f n - kern1 I (platePots k kwargs dd dd) true .plus f n
    = - (2 * κ n * f n)
  j2 : ∀ f n, kern2 I (platePots k kwargs dd dd) false .minus f n = kern2 I (platePots k kwargs dd dd) false .plus f n
  j2n : ∀ f n, kern2 I (platePots k kwargs dd dd) true .minus f n - kern2 I (platePots k kwargs dd dd) true .plus f n = f n

/-! ### theorems -/

/-- **C72**: clamped plate operators exist exactly for interior problems in two dimensions. -/
theorem C72_plate_init (k : Kernel) (s : Side) :
    (∃ o, mkPlate k s = .ok o) ↔ s = .minus ∧ k.dim = 2 := by
  unfold mkPlate
  by_cases hs : s = .minus
  · by_cases hk : k.dim = 2
    · simp [hs, hk]
    · simp [hs, hk]
  · simp [hs]

/-- the potentials accept these arguments -/
theorem plate_symS [DecidableEq K] (k : Kernel) (kwargs : Args A) (hk : ArgsOK k.base kwargs) (hd : k.sderivs = [])
    (extra : Args A) (sd : List String) (h1 : ∀ n ∈ sd, ∃ v, (n, v) ∈ extra) (h2 : ∀ p ∈ extra, p.1 ∈ sd)
    (lim : Limit) (src tgt : DD) (d : Expr K A) :
    symS { k with sderivs := sd } (kwargs.merge extra) lim src tgt d
      = .ok (.pot ⟨{ k with sderivs := sd }, kwargs.merge extra, src, tgt, none⟩ lim d) := by
  unfold symS
  rw [mkIntG_ok_iff]
  refine ⟨⟨?_, ?_⟩, rfl⟩
  · intro n hn
    simp only [Kernel.argNames, List.mem_append] at hn
    simp only [Args.merge, List.mem_append, List.mem_filter]
    by_cases he : ∃ v, (n, v) ∈ extra
    · obtain ⟨v, hv⟩ := he
      exact ⟨v, Or.inl hv⟩
    · rcases hn with hn | hn
      · obtain ⟨v, hv⟩ := hk.1 n hn
        refine ⟨v, Or.inr ⟨hv, ?_⟩⟩
        by_contra hc
        simp only [Option.isNone_iff_eq_none] at hc
        have : (List.lookup n extra).isSome = true := by
          cases hl : List.lookup n extra with
          | none => exact absurd hl hc
          | some _ => rfl
        exact he ((lookup_isSome_iff extra n).1 this)
      · exact absurd (h1 n hn) he
  · intro p hp
    simp only [Args.merge, List.mem_append, List.mem_filter] at hp
    simp only [Kernel.argNames, List.mem_append]
    rcases hp with hp | hp
    · exact Or.inr (h2 p hp)
    · exact Or.inl (hk.2 p hp.1)

theorem representation_ok [DecidableEq K] (k : Kernel) (kwargs : Args A) (hk : ArgsOK k.base kwargs) (hd : k.sderivs = [])
    (s0 s1 : Expr K A) (lim : Limit) (src tgt : DD) :
    (Plate.mk k).representation [s0, s1] (fun e => .ok e) lim src tgt kwargs
      = .ok (.add (.sub (.add (.pot ⟨dn (dn (dn k)), argsN kwargs, src, tgt, none⟩ lim s0)
          (.mul (.num 3) (.pot ⟨dn (dt (dt k)), argsNT kwargs, src, tgt, none⟩ lim s0)))
          (.pot ⟨dn (dn k), argsN kwargs, src, tgt, none⟩ lim s1))
          (.pot ⟨dt (dt k), argsT kwargs, src, tgt, none⟩ lim s1)) := by
  have e1 : symS (dn (dn (dn k))) (argsN kwargs) lim src tgt s0 = .ok (.pot ⟨dn (dn (dn k)), argsN kwargs, src, tgt, none⟩ lim s0) := by
    have := plate_symS k kwargs hk hd [("normal_dir", .normal none)] ["normal_dir", "normal_dir", "normal_dir"]
      (by simp) (by simp) lim src tgt s0
    simpa only [dn, hd, argsN] using this
  have e2 : symS (dn (dt (dt k))) (argsNT kwargs) lim src tgt s0 = .ok (.pot ⟨dn (dt (dt k)), argsNT kwargs, src, tgt, none⟩ lim s0) := by
    have := plate_symS k kwargs hk hd [("normal_dir", .normal none), ("tangent_dir", .tangent none)]
      ["normal_dir", "tangent_dir", "tangent_dir"] (by simp) (by simp) lim src tgt s0
    simpa only [dn, dt, hd, argsNT] using this
  have e3 : symS (dn (dn k)) (argsN kwargs) lim src tgt s1 = .ok (.pot ⟨dn (dn k), argsN kwargs, src, tgt, none⟩ lim s1) := by
    have := plate_symS k kwargs hk hd [("normal_dir", .normal none)] ["normal_dir", "normal_dir"]
      (by simp) (by simp) lim src tgt s1
    simpa only [dn, hd, argsN] using this
  have e4 : symS (dt (dt k)) (argsT kwargs) lim src tgt s1 = .ok (.pot ⟨dt (dt k), argsT kwargs, src, tgt, none⟩ lim s1) := by
    have := plate_symS k kwargs hk hd [("tangent_dir", .tangent none)] ["tangent_dir", "tangent_dir"]
      (by simp) (by simp) lim src tgt s1
    simpa only [dt, hd, argsT] using this
  simp only [Plate.representation, e1, e2, e3, e4, bind, Except.bind, pure, Except.pure]

theorem representation_dn (k : Kernel) (kwargs : Args A) (s0 s1 : Expr K A) (lim : Limit) (dd : DD) :
    dnLin dd (.add (.sub (.add (.pot ⟨dn (dn (dn k)), argsN kwargs, dd, dd, none⟩ lim s0)
          (.mul (.num 3) (.pot ⟨dn (dt (dt k)), argsNT kwargs, dd, dd, none⟩ lim s0)))
          (.pot ⟨dn (dn k), argsN kwargs, dd, dd, none⟩ lim s1))
          (.pot ⟨dt (dt k), argsT kwargs, dd, dd, none⟩ lim s1) : Expr K A)
      = .ok (.add (.sub (.add (.pot ⟨dn (dn (dn k)), argsN kwargs, dd, dd, some dd⟩ lim s0)
          (.mul (.num 3) (.pot ⟨dn (dt (dt k)), argsNT kwargs, dd, dd, some dd⟩ lim s0)))
          (.pot ⟨dn (dn k), argsN kwargs, dd, dd, some dd⟩ lim s1))
          (.pot ⟨dt (dt k), argsT kwargs, dd, dd, some dd⟩ lim s1)) := by
  simp only [dnLin, Expr.sub, Expr.neg, normalDerivative, bind, Except.bind, pure, Except.pure]

/-- the four potentials combined -/
def plateSum (k : Kernel) (kwargs : Args A) (s0 s1 : Expr K A) (lim : Limit) (dd : DD) (d : Option DD) : Expr K A :=
  .add (.sub (.add (.pot ⟨dn (dn (dn k)), argsN kwargs, dd, dd, d⟩ lim s0)
          (.mul (.num 3) (.pot ⟨dn (dt (dt k)), argsNT kwargs, dd, dd, d⟩ lim s0)))
          (.pot ⟨dn (dn k), argsN kwargs, dd, dd, d⟩ lim s1))
          (.pot ⟨dt (dt k), argsT kwargs, dd, dd, d⟩ lim s1)

theorem operator_ok [DecidableEq K] (k : Kernel) (kwargs : Args A) (hk : ArgsOK k.base kwargs) (hd : k.sderivs = [])
    (curv : DD → Expr K A) (s0 s1 : Expr K A) (dd : DD) :
    (Plate.mk k).operator curv [s0, s1] dd kwargs = .ok
      [.add (.quot s0 (.num 2)) (plateSum k kwargs s0 s1 .avg dd none),
       .add (.sub (.quot s1 (.num 2)) (.mul (curv dd) s0)) (plateSum k kwargs s0 s1 .avg dd (some dd))] := by
  simp only [Plate.operator, representation_ok k kwargs hk hd, representation_dn, bind, Except.bind, pure, Except.pure,
    plateSum]

/-- **C72**: on the default discretization, the clamped plate operator is the interior boundary value of the field it
represents, and of its normal derivative, by the jump relations of [Farkas1990]: so densities for which it gives the
boundary data represent fields that assume them.

Partial: on another discretization the normals and tangents in the potentials are those of the default one
(`C72_plate_dofdesc_refuted`). -/
theorem C72_plate_partial [DecidableEq K] (h2 : (2 : K) ≠ 0) (I : Interp K A N) (k : Kernel) (kwargs : Args A)
    (hk : ArgsOK k.base kwargs) (hd : k.sderivs = []) (curv : DD → Expr K A) (κ : N → K)
    (hκ : ∀ n, I.eval (curv none) n = κ n) (hj : PlateJumps I k kwargs none κ) (s0 s1 : Expr K A) :
    ∃ e1 e2 R Rn, (Plate.mk k).operator curv [s0, s1] none kwargs = .ok [e1, e2] ∧
      (Plate.mk k).representation [s0, s1] (fun e => .ok e) (.side .minus) none none kwargs = .ok R ∧
      dnLin none R = .ok Rn ∧ ∀ n, I.eval e1 n = I.eval R n ∧ I.eval e2 n = I.eval Rn n := by
  refine ⟨_, _, _, _, operator_ok k kwargs hk hd curv s0 s1 none, representation_ok k kwargs hk hd s0 s1 _ none none,
    representation_dn k kwargs s0 s1 _ none, ?_⟩
  · intro n
    have a1 := hj.j1 (I.eval s0) n
    have a2 := hj.j1n (I.eval s0) n
    have a3 := hj.j2 (I.eval s1) n
    have a4 := hj.j2n (I.eval s1) n
    simp only [kern1, kern2, platePots, surfPot, if_true, Bool.false_eq_true, if_false] at a1 a2 a3 a4
    simp only [plateSum, Interp.eval, eval_sub, Interp.pot, hκ, argsN, argsNT, argsT]
    constructor
    · field_simp
      linear_combination (-1) * a1 + (-1) * a3
    · field_simp
      linear_combination (-1) * a2 + (-1) * a4

/-- **C72**: a density vector of another length than two is refused with an `AssertionError`. -/
theorem C72_plate_density (o : Plate) (curv : DD → Expr K A) (sigma : List (Expr K A)) (dd : DD) (kwargs : Args A)
    (mp : Expr K A → Py (Expr K A)) (lim : Limit) (src tgt : DD) (h : sigma.length ≠ 2) :
    o.operator curv sigma dd kwargs = .error "AssertionError" ∧
    o.representation sigma mp lim src tgt kwargs = .error "AssertionError" := by
  match sigma with
  | [] => exact ⟨rfl, rfl⟩
  | [_] => exact ⟨rfl, rfl⟩
  | [_, _] => simp at h
  | _ :: _ :: _ :: _ => exact ⟨rfl, rfl⟩

/-- interpretation with one node in which potentials with the normals of their own source have the jumps required of
them (for a flat curve) and all other potentials vanish -/
def jumpInterp : Interp ℚ Unit Unit where
  vars _ _ := 1
  sqrtW _ _ := 1
  mean _ f := f ()
  bdry p s f n :=
    if p.args.lookup "normal_dir" = some (.normal p.src) ∧ p.args.lookup "tangent_dir" = none ∧ s = .minus then
      if p.kernel.sderivs.length = 3 ∧ p.dn = none then f n
      else if p.kernel.sderivs.length = 2 ∧ p.dn ≠ none then - f n else 0
    else 0
  off _ _ _ := 0

/-- example: the biharmonic kernel in two dimensions -/
def biharm : Kernel := ⟨.biharmonic, 2, []⟩

theorem jumpInterp_ok (dd : DD) : PlateJumps jumpInterp biharm [] dd (fun _ => 0) := by
  constructor <;> intro f n <;>
    simp [kern1, kern2, platePots, surfPot, jumpInterp, Args.merge, dn, dt, biharm, List.lookup]

example : ArgsOK (A := Unit) biharm.base [] ∧ biharm.sderivs = [] ∧ PlateJumps jumpInterp biharm [] none (fun _ => 0) :=
  ⟨⟨by simp [biharm, KBase.argNames], by simp⟩, rfl, jumpInterp_ok none⟩

/-- **C72** refuted: for a surface that is not the default one, the operator is not the interior boundary value of the
field, although the jump relations hold on all surfaces: the normals and tangents in the potentials are those of the
default discretization. -/
theorem C72_plate_dofdesc_refuted :
    (∀ dd, PlateJumps jumpInterp biharm [] dd (fun _ => 0)) ∧
    ∃ e1 e2 R, (Plate.mk biharm).operator (fun _ => .num 0) [.var "s0", .var "s1"] (some "plate") [] = .ok [e1, e2] ∧
      (Plate.mk biharm).representation [.var "s0", .var "s1"] (fun e => .ok e) (.side .minus) (some "plate") (some "plate") []
        = .ok R ∧ jumpInterp.eval e1 () ≠ jumpInterp.eval R () := by
  refine ⟨jumpInterp_ok, ?_⟩
  have hk : ArgsOK (A := Unit) biharm.base [] := ⟨by simp [biharm, KBase.argNames], by simp⟩
  refine ⟨_, _, _, operator_ok biharm [] hk rfl _ _ _ _, representation_ok biharm [] hk rfl _ _ _ _ _, ?_⟩
  · simp only [plateSum, Interp.eval, eval_sub, Interp.pot]
    simp [jumpInterp, Args.merge, argsN, argsNT, argsT, List.lookup]

/-! ## Cahn-Hilliard -/

/-- a `CahnHilliardOperator` (`cahn_hilliard.py:38-41`); the constructor of the base class is not called -/
structure CahnHilliard (K : Type) where
  lam1 : K
  lam2 : K
  c : K

/-- `HelmholtzKernel(2, allow_evanescent=True)` (`cahn_hilliard.py:50-51`) -/
def hhk : Kernel := ⟨.helmholtz, 2, []⟩

/-- a layer potential with wave number `1j * lam` (`cahn_hilliard.py:59-62`, `69-70`) -/
def chS (imag lam : K) (lim : Limit) (d : Expr K K) : Py (Expr K K) :=
  symS hhk [("k", .user (imag * lam))] lim none none d

/-- the scaling `-1/(2*np.pi) / hhk_scaling` (`cahn_hilliard.py:52`, `68`) -/
def chScale (imag pi : K) : K := -1 / (2 * pi) / (imag / 4)

/-- `S_G` (`cahn_hilliard.py:46-70`); numbers as parameters, so that `lam1**2 == lam2**2` is a `ZeroDivisionError` -/
def CahnHilliard.sG [DecidableEq K] (o : CahnHilliard K) (imag pi : K) (i : Nat) (d : Expr K K) (lim : Limit)
    (opMap : Expr K K → Py (Expr K K)) : Py (Expr K K) :=
  if i = 0 then
    if o.lam1 ^ 2 - o.lam2 ^ 2 = 0 then .error "ZeroDivisionError"
    else do
      let a ← chS imag o.lam1 lim d
      let a' ← opMap a
      let b ← chS imag o.lam2 lim d
      let b' ← opMap b
      pure (.mul (.num (-1 / (2 * pi * (o.lam1 ^ 2 - o.lam2 ^ 2)) / (imag / 4))) (.sub a' b'))
  else do
    let a ← chS imag (if i = 1 then o.lam1 else o.lam2) lim d
    let a' ← opMap a
    pure (.mul (.num (chScale imag pi)) a')

/-- `representation` (`cahn_hilliard.py:72-76`), generalized to any limit -/
def CahnHilliard.repr [DecidableEq K] (o : CahnHilliard K) (imag pi : K) (lim : Limit) (s1 s2 : Expr K K) : Py (Expr K K) := do
  let a ← o.sG imag pi 1 s1 lim (fun e => .ok e)
  let b ← o.sG imag pi 0 s2 lim (fun e => .ok e)
  pure (.add a b)

/-- `operator` (`cahn_hilliard.py:78-109`) -/
def CahnHilliard.op [DecidableEq K] (o : CahnHilliard K) (imag pi : K) (s1 s2 : Expr K K) : Py (List (Expr K K)) := do
  let n11 ← o.sG imag pi 1 s1 .avg (normalDerivative none)
  let s11 ← o.sG imag pi 1 s1 (.side .plus) (fun e => .ok e)
  let n02 ← o.sG imag pi 0 s2 .avg (normalDerivative none)
  let s02 ← o.sG imag pi 0 s2 (.side .plus) (fun e => .ok e)
  let n12 ← o.sG imag pi 1 s2 .avg (normalDerivative none)
  pure [.add (.mul (.num (1 / 2)) s1)
          (.add (.add (.add n11 (.mul (.num o.c) s11)) n02) (.mul (.num o.c) s02)),
        .add (.sub (.mul (.num (1 / 2 * o.lam2 ^ 2)) s1) (.mul (.num (1 / 2)) s2))
          (.add (.sub (.mul (.num (o.lam2 ^ 2)) n11) n12) (.mul (.num (o.lam1 ^ 2)) n02))]

/-- `prepare_rhs`, inherited from `L2WeightedPDEOperator` (`scalar.py:174-178`), reads attributes that the constructor
did not set -/
def CahnHilliard.prepareRhs (_o : CahnHilliard K) (_b : Expr K K) : Py (Expr K K) := .error "AttributeError"

/-! ### specification -/

/-- the Laplacian of a linear combination of Helmholtz potentials: `-k²` times each -/
def laplacian : Expr K K → Option (Expr K K)
  | .pot ⟨⟨.helmholtz, 2, []⟩, [("k", .user k)], s, t, none⟩ lim d =>
    some (.mul (.num (-(k * k))) (.pot ⟨⟨.helmholtz, 2, []⟩, [("k", .user k)], s, t, none⟩ lim d))
  | .add a b => (laplacian a).bind fun a' => (laplacian b).map fun b' => .add a' b'
  | .mul (.num c) e => (laplacian e).map fun e' => .mul (.num c) e'
  | _ => none

/-! ### theorems -/

theorem chS_ok [DecidableEq K] (imag lam : K) (lim : Limit) (d : Expr K K) :
    chS imag lam lim d = .ok (.pot ⟨hhk, [("k", .user (imag * lam))], none, none, none⟩ lim d) := by
  unfold chS symS
  rw [mkIntG_ok_iff]
  refine ⟨⟨?_, ?_⟩, rfl⟩ <;> simp [hhk, Kernel.argNames, KBase.argNames]

/-- the potential of wave number `1j * lam`, with or without normal derivative -/
def chP (imag lam : K) (lim : Limit) (d : Option DD) (e : Expr K K) : Expr K K :=
  .pot ⟨hhk, [("k", .user (imag * lam))], none, none, d⟩ lim e

/-- the combination of two of them, `S_G(0, ·)` -/
def chG0 (o : CahnHilliard K) (imag pi : K) (lim : Limit) (d : Option DD) (e : Expr K K) : Expr K K :=
  .mul (.num (-1 / (2 * pi * (o.lam1 ^ 2 - o.lam2 ^ 2)) / (imag / 4))) (.sub (chP imag o.lam1 lim d e) (chP imag o.lam2 lim d e))

/-- `S_G(1, ·)` -/
def chG1 (o : CahnHilliard K) (imag pi : K) (lim : Limit) (d : Option DD) (e : Expr K K) : Expr K K :=
  .mul (.num (chScale imag pi)) (chP imag o.lam1 lim d e)

theorem op_ok [DecidableEq K] (imag pi : K) (o : CahnHilliard K) (hne : o.lam1 ^ 2 - o.lam2 ^ 2 ≠ 0) (s1 s2 : Expr K K) :
    o.op imag pi s1 s2 = .ok
      [.add (.mul (.num (1 / 2)) s1)
          (.add (.add (.add (chG1 o imag pi .avg (some none) s1) (.mul (.num o.c) (chG1 o imag pi (.side .plus) none s1)))
            (chG0 o imag pi .avg (some none) s2)) (.mul (.num o.c) (chG0 o imag pi (.side .plus) none s2))),
       .add (.sub (.mul (.num (1 / 2 * o.lam2 ^ 2)) s1) (.mul (.num (1 / 2)) s2))
          (.add (.sub (.mul (.num (o.lam2 ^ 2)) (chG1 o imag pi .avg (some none) s1)) (chG1 o imag pi .avg (some none) s2))
            (.mul (.num (o.lam1 ^ 2)) (chG0 o imag pi .avg (some none) s2)))] := by
  simp only [CahnHilliard.op, CahnHilliard.sG, chS_ok, normalDerivative, bind, Except.bind, pure, Except.pure, if_true,
      one_ne_zero, if_false, hne, chG1, chG0, chP]

theorem repr_ok [DecidableEq K] (imag pi : K) (o : CahnHilliard K) (hne : o.lam1 ^ 2 - o.lam2 ^ 2 ≠ 0) (lim : Limit)
    (s1 s2 : Expr K K) :
    o.repr imag pi lim s1 s2 = .ok (.add (chG1 o imag pi lim none s1) (chG0 o imag pi lim none s2)) := by
  simp only [CahnHilliard.repr, CahnHilliard.sG, chS_ok, bind, Except.bind, pure, Except.pure, if_true,
      one_ne_zero, if_false, hne, chG1, chG0, chP]

/-- the Laplacian of the field -/
def chLap (o : CahnHilliard K) (imag pi : K) (lim : Limit) (d : Option DD) (s1 s2 : Expr K K) : Expr K K :=
  .add (.mul (.num (chScale imag pi)) (.mul (.num (-(imag * o.lam1 * (imag * o.lam1)))) (chP imag o.lam1 lim d s1)))
    (.mul (.num (-1 / (2 * pi * (o.lam1 ^ 2 - o.lam2 ^ 2)) / (imag / 4)))
      (.add (.mul (.num (-(imag * o.lam1 * (imag * o.lam1)))) (chP imag o.lam1 lim d s2))
        (.mul (.num (-1)) (.mul (.num (-(imag * o.lam2 * (imag * o.lam2)))) (chP imag o.lam2 lim d s2)))))

/-- **C72**: both rows of the Cahn-Hilliard operator differ from the boundary conditions `∂ₙu + cu` and
`∂ₙ((λ₁² + λ₂²)u - Δu)` of the field `u` it represents, on either side of the surface, by a multiple `(1 ± f)/2` of the
densities, where `f = -1/(2π)/(i/4)` is the scaling of the potentials.

Partial: what is claimed is that there is no difference, which needs `f = 1` (interior) or `f = -1`
(`C72_cahn_hilliard_refuted`). -/
theorem C72_cahn_hilliard_partial [DecidableEq K] (h2 : (2 : K) ≠ 0) (imag pi : K) (hi : imag * imag = -1) (hpi : pi ≠ 0)
    (o : CahnHilliard K) (hne : o.lam1 ^ 2 - o.lam2 ^ 2 ≠ 0) (I : Interp K K N) (hj : Jumps I hhk none)
    (s1 s2 : Expr K K) (side : Side) :
    ∃ e1 e2 u un lu v vn, o.op imag pi s1 s2 = .ok [e1, e2] ∧ o.repr imag pi (.side side) s1 s2 = .ok u ∧
      dnLin none u = .ok un ∧ laplacian u = some lu ∧ v = .add (.mul (.num (o.lam1 ^ 2 + o.lam2 ^ 2)) u) (.mul (.num (-1)) lu) ∧
      dnLin none v = .ok vn ∧
      ∀ n, I.eval e1 n - (I.eval un n + o.c * I.eval u n) = (1 + side.sgn * chScale imag pi) / 2 * I.eval s1 n ∧
        I.eval e2 n - I.eval vn n
          = (1 + side.sgn * chScale imag pi) / 2 * (o.lam2 ^ 2 * I.eval s1 n - I.eval s2 n) := by
  have hi0 : imag ≠ 0 := by rintro rfl; simp at hi
  refine ⟨_, _, _, .add (chG1 o imag pi (.side side) (some none) s1) (chG0 o imag pi (.side side) (some none) s2),
    chLap o imag pi (.side side) none s1 s2, _,
    .add (.mul (.num (o.lam1 ^ 2 + o.lam2 ^ 2))
      (.add (chG1 o imag pi (.side side) (some none) s1) (chG0 o imag pi (.side side) (some none) s2)))
      (.mul (.num (-1)) (chLap o imag pi (.side side) (some none) s1 s2)),
    op_ok imag pi o hne s1 s2, repr_ok imag pi o hne (.side side) s1 s2, ?_, ?_, rfl, ?_, ?_⟩
  · simp only [chG1, chG0, chP, dnLin, Expr.sub, Expr.neg, normalDerivative, bind, Except.bind, pure, Except.pure]
  · simp only [chLap, chG1, chG0, chP, laplacian, hhk, Expr.sub, Expr.neg, Option.bind_some, Option.map_some]
  · simp only [chLap, chG1, chG0, chP, dnLin, Expr.sub, Expr.neg, normalDerivative, bind, Except.bind, pure, Except.pure]
  · intro n
    have q := fun (lam : K) (f : N → K) => hj.slp [("k", .user (imag * lam))] f n
    have p := fun (lam : K) (f : N → K) => hj.sl [("k", .user (imag * lam))] f n
    simp only [slp, if_true, Bool.false_eq_true, if_false] at p q
    have q11 := q o.lam1 (I.eval s1)
    have q12 := q o.lam1 (I.eval s2)
    have q22 := q o.lam2 (I.eval s2)
    have p11 := p o.lam1 (I.eval s1)
    have p12 := p o.lam1 (I.eval s2)
    have p22 := p o.lam2 (I.eval s2)
    have hsc : (-1 / (2 * pi * (o.lam1 ^ 2 - o.lam2 ^ 2)) / (imag / 4)) = chScale imag pi * (1 / (o.lam1 ^ 2 - o.lam2 ^ 2)) := by
      unfold chScale
      field_simp
    have hsq : ∀ lam : K, -(imag * lam * (imag * lam)) = lam ^ 2 := by
      intro lam
      linear_combination (- lam ^ 2) * hi
    have hinv : (o.lam1 ^ 2 - o.lam2 ^ 2) * (1 / (o.lam1 ^ 2 - o.lam2 ^ 2)) = 1 := by field_simp
    simp only [chLap, chG1, chG0, chP, Interp.eval, eval_sub, Interp.pot, hsc, hsq]
    generalize chScale imag pi = f
    generalize 1 / (o.lam1 ^ 2 - o.lam2 ^ 2) = w at hinv ⊢
    generalize ha11 : I.bdry ⟨hhk, [("k", .user (imag * o.lam1))], none, none, none⟩ .plus (I.eval s1) n = a11 at *
    generalize hb11 : I.bdry ⟨hhk, [("k", .user (imag * o.lam1))], none, none, none⟩ .minus (I.eval s1) n = b11 at *
    generalize ha12 : I.bdry ⟨hhk, [("k", .user (imag * o.lam1))], none, none, none⟩ .plus (I.eval s2) n = a12 at *
    generalize hb12 : I.bdry ⟨hhk, [("k", .user (imag * o.lam1))], none, none, none⟩ .minus (I.eval s2) n = b12 at *
    generalize ha22 : I.bdry ⟨hhk, [("k", .user (imag * o.lam2))], none, none, none⟩ .plus (I.eval s2) n = a22 at *
    generalize hb22 : I.bdry ⟨hhk, [("k", .user (imag * o.lam2))], none, none, none⟩ .minus (I.eval s2) n = b22 at *
    generalize hA11 : I.bdry ⟨hhk, [("k", .user (imag * o.lam1))], none, none, some none⟩ .plus (I.eval s1) n = A11 at *
    generalize hB11 : I.bdry ⟨hhk, [("k", .user (imag * o.lam1))], none, none, some none⟩ .minus (I.eval s1) n = B11 at *
    generalize hA12 : I.bdry ⟨hhk, [("k", .user (imag * o.lam1))], none, none, some none⟩ .plus (I.eval s2) n = A12 at *
    generalize hB12 : I.bdry ⟨hhk, [("k", .user (imag * o.lam1))], none, none, some none⟩ .minus (I.eval s2) n = B12 at *
    generalize hA22 : I.bdry ⟨hhk, [("k", .user (imag * o.lam2))], none, none, some none⟩ .plus (I.eval s2) n = A22 at *
    generalize hB22 : I.bdry ⟨hhk, [("k", .user (imag * o.lam2))], none, none, some none⟩ .minus (I.eval s2) n = B22 at *
    generalize I.eval s1 n = S1 at *
    generalize I.eval s2 n = S2 at *
    subst p11 p12 p22
    have hA11' : A11 = B11 - S1 := by linear_combination q11
    have hA12' : A12 = B12 - S2 := by linear_combination q12
    have hA22' : A22 = B22 - S2 := by linear_combination q22
    cases side with
    | plus =>
      simp only [Side.sgn, hA11, hA12, hA22, ha11, ha12, ha22]
      constructor
      · rw [hA11', hA12', hA22']
        field_simp
        ring
      · rw [hA11', hA12', hA22']
        field_simp
        linear_combination (2 * f * (B12 - S2)) * hinv
    | minus =>
      simp only [Side.sgn, hB11, hB12, hB22, hb11, hb12, hb22]
      constructor
      · rw [hA11', hA12', hA22']
        field_simp
        ring
      · rw [hA11', hA12', hA22']
        field_simp
        linear_combination (2 * f * B12) * hinv

/-- jump relations for an interpretation with one node -/
noncomputable def chInterp : Interp ℂ ℂ Unit where
  vars _ _ := 1
  sqrtW _ _ := 1
  mean _ f := f ()
  bdry p s f n :=
    if p.kernel.sderivs = [] then (if p.dn ≠ none ∧ s = .minus then f n else 0)
    else (if p.dn = none ∧ s = .plus then f n else 0)
  off _ _ _ := 0

theorem chInterp_jumps : Jumps chInterp hhk none := by
  constructor <;> intro args f n <;> simp [chInterp, slp, dlp, hhk]

example : Jumps chInterp hhk none ∧ Complex.I * Complex.I = -1 ∧ (Real.pi : ℂ) ≠ 0 ∧
    (⟨2, 1, 0⟩ : CahnHilliard ℂ).lam1 ^ 2 - (⟨2, 1, 0⟩ : CahnHilliard ℂ).lam2 ^ 2 ≠ 0 := by
  refine ⟨chInterp_jumps, Complex.I_mul_I, ?_, by norm_num⟩
  exact_mod_cast Real.pi_ne_zero

/-- the scaling of the potentials is not `±1`, but imaginary -/
theorem chScale_ne (s : Side) : 1 + s.sgn * chScale Complex.I (Real.pi : ℂ) ≠ 0 := by
  have hpi : (Real.pi : ℂ) ≠ 0 := by exact_mod_cast Real.pi_ne_zero
  have hf : chScale Complex.I (Real.pi : ℂ) = ((2 / Real.pi : ℝ) : ℂ) * Complex.I := by
    unfold chScale
    have hI : Complex.I ≠ 0 := Complex.I_ne_zero
    push_cast
    field_simp
    linear_combination (-4 : ℂ) * Complex.I_mul_I
  intro h
  have hre := congrArg Complex.re h
  rw [hf] at hre
  cases s <;> simp [Side.sgn] at hre

/-- **C72** refuted: the potentials of the Cahn-Hilliard operator are scaled by `2i/π`, but the jump terms in it are not:
wherever the first density does not vanish, the first row is not the boundary value of `∂ₙu + cu` from either side. -/
theorem C72_cahn_hilliard_refuted :
    ∃ (o : CahnHilliard ℂ) (I : Interp ℂ ℂ Unit), Jumps I hhk none ∧ I.eval (.var "s1") () ≠ 0 ∧ ∀ side : Side,
      ∃ e1 e2 u un, o.op Complex.I (Real.pi : ℂ) (.var "s1") (.var "s2") = .ok [e1, e2] ∧
        o.repr Complex.I (Real.pi : ℂ) (.side side) (.var "s1") (.var "s2") = .ok u ∧ dnLin none u = .ok un ∧
        I.eval e1 () ≠ I.eval un () + o.c * I.eval u () := by
  refine ⟨⟨2, 1, 0⟩, chInterp, chInterp_jumps, by simp [Interp.eval, chInterp], fun side => ?_⟩
  obtain ⟨e1, e2, u, un, lu, v, vn, h1, h2, h3, -, -, -, h7⟩ := C72_cahn_hilliard_partial (by norm_num) Complex.I (Real.pi : ℂ)
    Complex.I_mul_I (by exact_mod_cast Real.pi_ne_zero) ⟨2, 1, 0⟩ (by norm_num) chInterp chInterp_jumps (.var "s1") (.var "s2") side
  refine ⟨e1, e2, u, un, h1, h2, h3, ?_⟩
  intro he
  have := (h7 ()).1
  rw [he, sub_self] at this
  have hv : chInterp.eval (.var "s1" : Expr ℂ ℂ) () = 1 := rfl
  rw [hv, mul_one] at this
  have h0 : (1 + side.sgn * chScale Complex.I (Real.pi : ℂ)) = 0 := by
    have := this.symm
    simpa using this
  exact chScale_ne side h0

/-- **C72**: if the two parameters have the same square, building the operator divides by zero; preparing a right-hand
side never works. -/
theorem C72_cahn_hilliard_fails [DecidableEq K] (o : CahnHilliard K) (imag pi : K) (s1 s2 : Expr K K) :
    (o.lam1 ^ 2 = o.lam2 ^ 2 → o.op imag pi s1 s2 = .error "ZeroDivisionError") ∧
    (o.lam1 ^ 2 ≠ o.lam2 ^ 2 → ∃ e, o.op imag pi s1 s2 = .ok e) ∧
    ∀ b : Expr K K, o.prepareRhs b = .error "AttributeError" := by
  refine ⟨?_, ?_, fun b => rfl⟩
  · intro h
    have h0 : o.lam1 ^ 2 - o.lam2 ^ 2 = 0 := sub_eq_zero.2 h
    simp only [CahnHilliard.op, CahnHilliard.sG, chS_ok, normalDerivative, bind, Except.bind, pure, Except.pure,
      one_ne_zero, if_false, if_true, h0]
  · intro h
    exact ⟨_, op_ok imag pi o (sub_ne_zero.2 h) s1 s2⟩

end Verif.PDE
