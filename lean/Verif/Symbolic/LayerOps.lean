import Mathlib.Analysis.Calculus.ContDiff.Basic
import Mathlib.Analysis.Calculus.FDeriv.Symmetric
import Mathlib.Analysis.Complex.Basic
import Mathlib.Algebra.BigOperators.Fin
import Mathlib.Tactic.Common
import Mathlib.Tactic.Ring
import Mathlib.Analysis.Calculus.FDeriv.Pow

/-!
# Layer potential constructors (C78)

Models `sym.S`, `sym.D`, `sym.Sp`, `sym.Dp`, `sym.Spp`, `int_g_vec`, `int_g_dsource`,
`normal_derivative`, `normal_second_derivative` and `tangential_derivative`
(`pytential/symbolic/primitives.py:2060-2459`) and the fields the potentials they build stand for.

Simplifications: kernels are a base kernel (any function, smooth away from the sources) with derivatives
wrapped around it; kernel arguments other than direction vectors are part of the base kernel's function; the
density is the name of a function on the source; common subexpressions (`cse`) are transparent (C08);
pymbolic's `DerivativeBinder` is taken at its documented effect (`mappers.py:703-711`: the operand is
differentiated along each axis by `DerivativeTaker`, `mappers.py:675-681`); `ambient_dim` is the dimension
of the kernel and `dim` one less.
-/

namespace Verif.LayerOps

open scoped ContDiff

/-! # Model -/

/-- scalar kernels of `sumpy.kernel` as pytential uses them: a base kernel taking the given arguments, and
`AxisTargetDerivative`, `AxisSourceDerivative`, `DirectionalSourceDerivative` around a kernel
(`primitives.py:2119-2128`, `mappers.py:675-681`) -/
inductive Kernel (n : Nat) where
  | base (args : List String)
  | axisTarget (axis : Fin n) (k : Kernel n)
  | axisSource (axis : Fin n) (k : Kernel n)
  | dirSource (name : String) (k : Kernel n)

/-- `SourceTransformationRemover` (`primitives.py:2236-2239`) -/
def Kernel.sxr {n : Nat} : Kernel n → Kernel n
  | .base a => .base a
  | .axisTarget i k => .axisTarget i k.sxr
  | .axisSource _ k => k.sxr
  | .dirSource _ k => k.sxr

/-- `TargetTransformationRemover` (`primitives.py:2236-2240`) -/
def Kernel.txr {n : Nat} : Kernel n → Kernel n
  | .base a => .base a
  | .axisTarget _ k => k.txr
  | .axisSource i k => .axisSource i k.txr
  | .dirSource m k => .dirSource m k.txr

/-- names of the arguments of a kernel: `get_args()` and `get_source_args()` (`primitives.py:2059-2062`) -/
def Kernel.argNames {n : Nat} : Kernel n → List String
  | .base a => a
  | .axisTarget _ k => k.argNames
  | .axisSource _ k => k.argNames
  | .dirSource m k => m :: k.argNames

/-- `_insert_source_derivative_into_kernel` (`primitives.py:2119-2128`) -/
def Kernel.insert {n : Nat} : Kernel n → Kernel n
  | .base a => .dirSource "dsource_vec" (.base a)
  | .axisTarget i k => .axisTarget i k.insert
  | .axisSource i k => .axisSource i k.insert
  | .dirSource m k => .dirSource m k.insert

/-- DOF descriptors: `None` or a name (`dof_desc.py`, `as_dofdesc`) -/
abbrev DD := Option String

/-- scalar coefficients: components of a vector of the user, of `normal(dofdesc)`, of the unit tangent
`pseudoscalar / area_element` of a curve, and what arises from them (`primitives.py:918-936`, `2297-2299`) -/
inductive Co (n : Nat) where
  | var (v : String) (axis : Fin n)
  | normal (dd : DD) (axis : Fin n)
  | tangent (dd : DD) (axis : Fin n)
  | zero
  | neg (c : Co n)
  | add (a b : Co n)

/-- a kernel argument: given by the user, or a direction vector (`primitives.py:2193-2196`) -/
inductive Arg (n : Nat) where
  | user
  | dir (v : Fin n → Co n)

/-- a dictionary of kernel arguments -/
abbrev Args (n : Nat) := List (String × Arg n)

/-- `{**a, **b}` -/
def Args.merge {n : Nat} (a b : Args n) : Args n := b ++ a.filter fun p => (b.lookup p.1).isNone

/-- values of `qbx_forced_limit` (`primitives.py:1926-1946`) -/
inductive Lim where
  | none | avg | p1 | m1 | p2 | m2
deriving DecidableEq

/-- `IntG` with one source kernel and one density (`primitives.py:1886-2010`) -/
structure IntG (n : Nat) where
  tk : Kernel n
  sk : Kernel n
  density : String
  lim : Lim
  src : DD
  tgt : DD
  args : Args n

/-- exceptions -/
inductive Err where
  | valueError
deriving DecidableEq

/-- the check of kernel arguments in `IntG.__post_init__` (`primitives.py:2054-2073`) -/
def IntG.check {n : Nat} (P : IntG n) : Except Err (IntG n) :=
  if ¬ ((P.sk.argNames ++ P.tk.argNames).all fun m => (P.args.lookup m).isSome) then .error .valueError
  else if ¬ (P.args.all fun p => (P.sk.argNames ++ P.tk.argNames).contains p.1) then .error .valueError
  else .ok P

/-- `int_g_vec` for a scalar density (`primitives.py:2216-2268`) -/
def intGVec {n : Nat} (k : Kernel n) (density : String) (lim : Lim) (src tgt : DD) (args kwargs : Args n) :
    Except Err (IntG n) :=
  IntG.check ⟨k.sxr, k.txr, density, lim, src, tgt, args.merge kwargs⟩

/-- `int_g_vec` for an object array of densities (`primitives.py:2265-2266`) -/
def intGVecL {n : Nat} (k : Kernel n) (ds : List String) (lim : Lim) (src tgt : DD) (args kwargs : Args n) :
    Except Err (List (IntG n)) :=
  ds.mapM fun d => intGVec k d lim src tgt args kwargs

/-- `S` (`primitives.py:2271-2288`); `none` is an unspecified limit -/
def symS {n : Nat} (k : Kernel n) (density : String) (lim : Option Lim) (src tgt : DD) (args kwargs : Args n) :
    Except Err (IntG n) :=
  intGVec k density (lim.getD .p1) src tgt args kwargs

/-- a blade of at most two axes in the product of two vectors: the scalar, or `e_a ∧ e_b` -/
inductive Blade (n : Nat) where
  | scalar
  | pair (a b : Fin n)
deriving DecidableEq

/-- blade of the geometric product `e_a e_b` and whether the canonical reordering changes the sign (pymbolic's
`MultiVector.__mul__`, used in `primitives.py:2205`) -/
def bladeMul {n : Nat} (a b : Fin n) : Blade n × Bool :=
  if a = b then (.scalar, false) else if a < b then (.pair a b, false) else (.pair b a, true)

/-- the terms `± v_a nabla_b` of one component of the product of the vectors `v` and `nabla` -/
def bladeTerms {n : Nat} (v : Fin n → Co n) (B : Blade n) : List (Co n × Fin n) :=
  ((List.finRange n).flatMap fun a => (List.finRange n).map fun b => (a, b)).filterMap fun p =>
    if (bladeMul p.1 p.2).1 = B then some (if (bladeMul p.1 p.2).2 then .neg (v p.1) else v p.1, p.2) else none

/-- `_get_dir_vec` (`primitives.py:2131-2164`): coefficients of the components of `nabla` -/
def dirVec {n : Nat} (ts : List (Co n × Fin n)) : Fin n → Co n := fun i =>
  (ts.filter fun t => t.2 = i).foldr (fun t c => .add t.1 c) .zero

/-- one component of `int_g_dsource` (`primitives.py:2167-2209`) for a vector `dsource` -/
def intGDsource {n : Nat} (v : Fin n → Co n) (B : Blade n) (k : Kernel n) (density : String) (lim : Lim)
    (src tgt : DD) (args kwargs : Args n) : Except Err (IntG n) :=
  intGVec k.insert density lim src tgt (args.merge [("dsource_vec", .dir (dirVec (bladeTerms v B)))]) kwargs

/-- `D` (`primitives.py:2394-2425`) -/
def symD {n : Nat} (k : Kernel n) (density : String) (lim : Option Lim) (src tgt : DD) (args kwargs : Args n) :
    Except Err (IntG n) :=
  intGDsource (fun i => .normal src i) .scalar k density (lim.getD .avg) src tgt args kwargs

/-- results: linear combinations of potentials -/
inductive Ex (n : Nat) where
  | pot (P : IntG n)
  | mul (c : Co n) (e : Ex n)
  | zero
  | add (a b : Ex n)

/-- a sum -/
def Ex.sumL {n : Nat} (l : List (Ex n)) : Ex n := l.foldr .add .zero

/-- `DerivativeTaker.map_int_g` (`mappers.py:675-681`) -/
def takeD {n : Nat} (axis : Fin n) (P : IntG n) : IntG n := { P with tk := .axisTarget axis P.tk }

/-- `normal_derivative` of a potential (`primitives.py:2307-2316`) -/
def normalDeriv {n : Nat} (P : IntG n) (dd : DD) : Ex n :=
  .sumL ((List.finRange n).map fun a => .mul (.normal dd a) (.pot (takeD a P)))

/-- `normal_second_derivative` of a potential (`primitives.py:2319-2331`) -/
def normalDeriv2 {n : Nat} (P : IntG n) (dd : DD) : Ex n :=
  .sumL ((List.finRange n).map fun i => .mul (.normal dd i)
    (.sumL ((List.finRange n).map fun j => .mul (.normal dd j) (.pot (takeD j (takeD i P))))))

/-- the terms of `(nabla * d(operand)) >> pder` (`primitives.py:2291-2304`): the right contraction of `e_a` with a
blade is nonzero only if every axis of the blade is `a`; what is left of `e_a` is the axis itself if the blade is
a scalar, and nothing else -/
def contractTerms {n : Nat} (blades : List (List (Fin n) × Co n)) (P : IntG n) : List (List (Fin n) × Ex n) :=
  (List.finRange n).flatMap fun a => (blades.filter fun B => B.1.all fun b => b = a).map fun B =>
    (if B.1.isEmpty then [a] else [], .mul B.2 (.pot (takeD a P)))

/-- the component of `tangential_derivative` for a result blade -/
def tangentialDeriv {n : Nat} (blades : List (List (Fin n) × Co n)) (P : IntG n) (B : List (Fin n)) : Ex n :=
  .sumL (((contractTerms blades P).filter fun t => t.1 = B).map fun t => t.2)

/-- `pseudoscalar / area_element` of a curve: the unit tangent (`primitives.py:2297-2299`) -/
def curveBlades (n : Nat) (dd : DD) : List (List (Fin n) × Co n) :=
  (List.finRange n).map fun a => ([a], .tangent dd a)

/-- `Sp` (`primitives.py:2334-2361`) -/
def symSp {n : Nat} (k : Kernel n) (density : String) (lim : Option Lim) (src tgt : DD) (args kwargs : Args n) :
    Except Err (Ex n) := do
  let P ← symS k density (some (lim.getD .avg)) src tgt args kwargs
  pure (normalDeriv P tgt)

/-- `Spp` (`primitives.py:2364-2391`) -/
def symSpp {n : Nat} (k : Kernel n) (density : String) (lim : Option Lim) (src tgt : DD) (args kwargs : Args n) :
    Except Err (Ex n) := do
  let P ← symS k density (some (lim.getD .p1)) src tgt args kwargs
  pure (normalDeriv2 P tgt)

/-- `Dp` (`primitives.py:2428-2459`) -/
def symDp {n : Nat} (k : Kernel n) (density : String) (lim : Option Lim) (src tgt : DD) (args kwargs : Args n) :
    Except Err (Ex n) := do
  let P ← symD k density (some (lim.getD .p1)) src tgt args kwargs
  pure (normalDeriv P tgt)

/-! # Specification -/

/-- points and vectors -/
abbrev E (n : Nat) := Fin n → ℝ

/-- quadrature nodes and weights of a discretization, as a map from node numbers -/
structure Surf (n : Nat) where
  m : Nat
  y : Nat → E n
  w : Nat → ℝ

/-- What the symbols stand for: the base kernel, discretizations, densities at the nodes, normals and unit tangents
of one discretization at the nodes of another (only meaningful if they are the same), the user's coefficient vectors and
direction vectors at the nodes of a discretization. -/
structure Env (n : Nat) where
  G : E n × E n → ℂ
  surf : DD → Surf n
  dens : String → DD → Nat → ℂ
  nrm : DD → DD → Nat → E n
  tan : DD → DD → Nat → E n
  vec : String → DD → Nat → E n
  dir : String → DD → Nat → E n

/-- derivative along a vector -/
noncomputable def Dir {X : Type} [NormedAddCommGroup X] [NormedSpace ℝ X] (u : X) (f : X → ℂ) : X → ℂ :=
  fun p => fderiv ℝ f p u

variable {n : Nat}

/-- value of a coefficient at a node -/
def coVal (env : Env n) (dd : DD) (i : Nat) : Co n → ℝ
  | .var v a => env.vec v dd i a
  | .normal d a => env.nrm d dd i a
  | .tangent d a => env.tan d dd i a
  | .zero => 0
  | .neg c => -coVal env dd i c
  | .add a b => coVal env dd i a + coVal env dd i b

/-- value of a direction vector at a source -/
def dirVal (env : Env n) (src : DD) (args : Args n) (j : Nat) (name : String) : E n :=
  match args.lookup name with
  | some (.dir v) => fun a => coVal env src j (v a)
  | _ => env.dir name src j

/-- a kernel as an operation on functions of a target and a source: derivatives of the function -/
noncomputable def Kernel.den (env : Env n) (src : DD) (args : Args n) (j : Nat) :
    Kernel n → (E n × E n → ℂ) → E n × E n → ℂ
  | .base _, f => f
  | .axisTarget a k, f => Dir (Pi.single a 1, 0) (k.den env src args j f)
  | .axisSource a k, f => Dir (0, Pi.single a 1) (k.den env src args j f)
  | .dirSource m k, f => Dir (0, dirVal env src args j m) (k.den env src args j f)

/-- the field of a potential: the quadrature sum of the density against the base kernel, transformed by the source
kernel and the target kernel -/
noncomputable def field (env : Env n) (P : IntG n) (x : E n) : ℂ :=
  ∑ j ∈ Finset.range (env.surf P.src).m, ((env.surf P.src).w j : ℂ) *
    (P.tk.den env P.src P.args j (P.sk.den env P.src P.args j env.G) (x, (env.surf P.src).y j)) * env.dens P.density P.src j

/-- the field of a result, its coefficients taken at node `i` of the target `dd` -/
noncomputable def Ex.field (env : Env n) (dd : DD) (i : Nat) : Ex n → E n → ℂ
  | .pot P, x => LayerOps.field env P x
  | .mul c e, x => (coVal env dd i c : ℂ) * e.field env dd i x
  | .zero, _ => 0
  | .add a b, x => a.field env dd i x + b.field env dd i x

/-- the layer potential of a kernel function depending on the source node -/
noncomputable def layer (env : Env n) (src : DD) (density : String) (K : Nat → E n × E n → ℂ) (x : E n) : ℂ :=
  ∑ j ∈ Finset.range (env.surf src).m,
    ((env.surf src).w j : ℂ) * K j (x, (env.surf src).y j) * env.dens density src j

/-- the base kernel is smooth on an open set that contains all pairs of a target `x` in question with a source -/
structure Smooth (env : Env n) (src : DD) (U : Set (E n × E n)) (W : Set (E n)) : Prop where
  openU : IsOpen U
  smooth : ContDiffOn ℝ ∞ env.G U
  openW : IsOpen W
  pairs : ∀ x ∈ W, ∀ j < (env.surf src).m, (x, (env.surf src).y j) ∈ U

/-- every potential of a result satisfies `p` -/
def Ex.All (p : IntG n → Prop) : Ex n → Prop
  | .pot P => p P
  | .mul _ e => e.All p
  | .zero => True
  | .add a b => a.All p ∧ b.All p

/-! # Derivatives along several vectors -/

section
variable {X : Type} [NormedAddCommGroup X] [NormedSpace ℝ X]

/-- iterated derivatives, outermost first -/
noncomputable def dirs : List X → (X → ℂ) → X → ℂ
  | [], f => f
  | u :: l, f => Dir u (dirs l f)

theorem Dir_smooth {U : Set X} (hU : IsOpen U) {f : X → ℂ} (hf : ContDiffOn ℝ ∞ f U) (u : X) :
    ContDiffOn ℝ ∞ (Dir u f) U := by
  have h := hf.fderiv_of_isOpen hU (m := ∞) (by simp)
  exact h.clm_apply contDiffOn_const

theorem Dir_congr {U : Set X} (hU : IsOpen U) {f g : X → ℂ} (h : ∀ p ∈ U, f p = g p) (u : X) :
    ∀ p ∈ U, Dir u f p = Dir u g p := by
  intro p hp
  have : f =ᶠ[nhds p] g := Filter.eventuallyEq_of_mem (hU.mem_nhds hp) h
  simp only [Dir, this.fderiv_eq]

theorem Dir_comm {U : Set X} (hU : IsOpen U) {f : X → ℂ} (hf : ContDiffOn ℝ ∞ f U) (u v : X) :
    ∀ p ∈ U, Dir u (Dir v f) p = Dir v (Dir u f) p := by
  intro p hp
  have h1 : ContDiffAt ℝ ∞ f p := hf.contDiffAt (hU.mem_nhds hp)
  have hs : IsSymmSndFDerivAt ℝ f p := h1.isSymmSndFDerivAt (by simp; exact WithTop.coe_le_coe.2 le_top)
  have hd : DifferentiableAt ℝ (fderiv ℝ f) p :=
    ((h1.fderiv_right (m := 1) (by exact WithTop.coe_le_coe.2 le_top)).differentiableAt (by simp))
  have e : ∀ a b : X, Dir a (Dir b f) p = fderiv ℝ (fderiv ℝ f) p a b := by
    intro a b
    change fderiv ℝ (fun y => fderiv ℝ f y b) p a = _
    rw [fderiv_clm_apply hd (differentiableAt_const b)]
    simp
  rw [e, e]
  exact hs.eq u v

theorem dirs_smooth {U : Set X} (hU : IsOpen U) {f : X → ℂ} (hf : ContDiffOn ℝ ∞ f U) :
    ∀ l : List X, ContDiffOn ℝ ∞ (dirs l f) U
  | [] => hf
  | u :: l => Dir_smooth hU (dirs_smooth hU hf l) u

theorem dirs_perm {U : Set X} (hU : IsOpen U) {f : X → ℂ} (hf : ContDiffOn ℝ ∞ f U) {l m : List X} (h : l.Perm m) :
    ∀ p ∈ U, dirs l f p = dirs m f p := by
  induction h with
  | nil => intro p _; rfl
  | cons u _ ih => exact Dir_congr hU ih u
  | swap u v l => exact Dir_comm hU (dirs_smooth hU hf l) v u
  | trans _ _ h1 h2 => intro p hp; rw [h1 p hp, h2 p hp]

theorem dirs_append (l m : List X) (f : X → ℂ) : dirs (l ++ m) f = dirs l (dirs m f) := by
  induction l with
  | nil => rfl
  | cons u l ih => simp only [List.cons_append, dirs, ih]

theorem Dir_deriv {U : Set X} (hU : IsOpen U) {f : X → ℂ} (hf : ContDiffOn ℝ ∞ f U) (u : X) (p : X) (hp : p ∈ U) :
    HasDerivAt (fun t : ℝ => f (p + t • u)) (Dir u f p) 0 := by
  have h1 : DifferentiableAt ℝ f p := (hf.contDiffAt (hU.mem_nhds hp)).differentiableAt (by simp)
  have h2 : HasDerivAt (fun t : ℝ => p + t • u) u 0 := by
    simpa using ((hasDerivAt_id (0 : ℝ)).smul_const u).const_add p
  have h3 : HasFDerivAt f (fderiv ℝ f p) (p + (0 : ℝ) • u) := by simpa using h1.hasFDerivAt
  exact h3.comp_hasDerivAt (0 : ℝ) h2

end

/-- the directions of the derivatives of a kernel, outermost first -/
def Kernel.vecs (env : Env n) (src : DD) (args : Args n) (j : Nat) : Kernel n → List (E n × E n)
  | .base _ => []
  | .axisTarget a k => (Pi.single a 1, 0) :: k.vecs env src args j
  | .axisSource a k => (0, Pi.single a 1) :: k.vecs env src args j
  | .dirSource m k => (0, dirVal env src args j m) :: k.vecs env src args j

theorem den_eq (env : Env n) (src : DD) (args : Args n) (j : Nat) (k : Kernel n) (f : E n × E n → ℂ) :
    k.den env src args j f = dirs (k.vecs env src args j) f := by
  induction k with
  | base => rfl
  | axisTarget a k ih => simp only [Kernel.den, Kernel.vecs, dirs, ih]
  | axisSource a k ih => simp only [Kernel.den, Kernel.vecs, dirs, ih]
  | dirSource a k ih => simp only [Kernel.den, Kernel.vecs, dirs, ih]

theorem vecs_split (env : Env n) (src : DD) (args : Args n) (j : Nat) (k : Kernel n) :
    (k.sxr.vecs env src args j ++ k.txr.vecs env src args j).Perm (k.vecs env src args j) := by
  induction k with
  | base => exact List.Perm.refl _
  | axisTarget a k ih => exact List.Perm.cons _ ih
  | axisSource a k ih => exact (List.perm_middle).trans (List.Perm.cons _ ih)
  | dirSource a k ih => exact (List.perm_middle).trans (List.Perm.cons _ ih)

theorem vecs_insert (env : Env n) (src : DD) (args : Args n) (j : Nat) (k : Kernel n) :
    k.insert.vecs env src args j = k.vecs env src args j ++ [(0, dirVal env src args j "dsource_vec")] := by
  induction k with
  | base => rfl
  | axisTarget a k ih => simp only [Kernel.insert, Kernel.vecs, ih, List.cons_append]
  | axisSource a k ih => simp only [Kernel.insert, Kernel.vecs, ih, List.cons_append]
  | dirSource a k ih => simp only [Kernel.insert, Kernel.vecs, ih, List.cons_append]

/-- direction vectors are looked up by name -/
theorem vecs_congr (env : Env n) (src : DD) (args args' : Args n) (j : Nat) (k : Kernel n)
    (h : ∀ m ∈ k.argNames, args.lookup m = args'.lookup m) : k.vecs env src args j = k.vecs env src args' j := by
  induction k with
  | base => rfl
  | axisTarget a k ih => simp only [Kernel.vecs, ih h]
  | axisSource a k ih => simp only [Kernel.vecs, ih h]
  | dirSource m k ih =>
    have h1 := ih (fun x hx => h x (by simp [Kernel.argNames, hx]))
    have h2 := h m (by simp [Kernel.argNames])
    simp only [Kernel.vecs, h1, dirVal, h2]

/-! # Arguments -/

theorem lookup_append {α : Type} (m : String) : ∀ a b : List (String × α),
    (a ++ b).lookup m = (a.lookup m).or (b.lookup m)
  | [], b => by simp
  | (k, v) :: a, b => by
    simp only [List.cons_append, List.lookup_cons]
    cases h : m == k with
    | true => simp
    | false => simpa using lookup_append m a b

theorem lookup_filter {α : Type} (m : String) (f : String → Bool) : ∀ a : List (String × α),
    (a.filter fun p => f p.1).lookup m = if f m then a.lookup m else none
  | [] => by simp
  | (k, v) :: a => by
    have ih := lookup_filter m f a
    by_cases hk : m = k
    · subst hk
      cases hf : f m with
      | true => simp [hf]
      | false => simp [hf, ih]
    · have : (m == k) = false := by simpa using hk
      cases hf : f k with
      | true => simp [hf, List.lookup_cons, this, ih]
      | false => simp [hf, List.lookup_cons, this, ih]

theorem lookup_merge (a b : Args n) (m : String) : (a.merge b).lookup m = (b.lookup m).or (a.lookup m) := by
  rw [Args.merge, lookup_append, lookup_filter m (fun k => (b.lookup k).isNone)]
  cases b.lookup m <;> simp

theorem lookup_isSome {α : Type} (a : List (String × α)) (m : String) : (a.lookup m).isSome ↔ ∃ v, (m, v) ∈ a := by
  induction a with
  | nil => simp
  | cons p a ih =>
    obtain ⟨k, v⟩ := p
    simp only [List.lookup_cons, List.mem_cons, Prod.mk.injEq]
    by_cases hk : m = k
    · subst hk; simp
    · have : (m == k) = false := by simpa using hk
      simp [this, hk, ih]

theorem check_ok (P Q : IntG n) : P.check = .ok Q ↔ Q = P ∧
    ∀ m, (m ∈ P.sk.argNames ∨ m ∈ P.tk.argNames) ↔ (P.args.lookup m).isSome := by
  unfold IntG.check
  by_cases h1 : ((P.sk.argNames ++ P.tk.argNames).all fun m => (P.args.lookup m).isSome) = true
  · by_cases h2 : (P.args.all fun p => (P.sk.argNames ++ P.tk.argNames).contains p.1) = true
    · rw [if_neg (by simp [h1]), if_neg (by simp only [h2]; simp)]
      simp only [List.all_eq_true, List.mem_append] at h1
      simp only [List.all_eq_true, List.contains_iff_mem, List.mem_append] at h2
      refine ⟨fun h => ⟨(Except.ok.inj h).symm, fun m => ⟨h1 m, fun h => ?_⟩⟩, fun h => by rw [h.1]⟩
      obtain ⟨v, hv⟩ := (lookup_isSome _ _).1 h
      exact h2 (m, v) hv
    · rw [if_neg (by simp [h1]), if_pos h2]
      refine ⟨(by intro h; cases h), fun h => ?_⟩
      exfalso
      apply h2
      simp only [List.all_eq_true, List.contains_iff_mem, List.mem_append]
      intro p hp
      exact (h.2 p.1).2 ((lookup_isSome _ _).2 ⟨p.2, hp⟩)
  · rw [if_pos h1]
    refine ⟨(by intro h; cases h), fun h => ?_⟩
    exfalso
    apply h1
    simp only [List.all_eq_true, List.mem_append]
    exact fun m hm => (h.2 m).1 hm

theorem argNames_split (k : Kernel n) (m : String) : (m ∈ k.txr.argNames ∨ m ∈ k.sxr.argNames) ↔ m ∈ k.argNames := by
  induction k with
  | base => simp [Kernel.txr, Kernel.sxr]
  | axisTarget a k ih => simpa [Kernel.txr, Kernel.sxr, Kernel.argNames] using ih
  | axisSource a k ih => simpa [Kernel.txr, Kernel.sxr, Kernel.argNames] using ih
  | dirSource a k ih => simp only [Kernel.txr, Kernel.sxr, Kernel.argNames, List.mem_cons, or_assoc, ih]

theorem argNames_insert (k : Kernel n) (m : String) : m ∈ k.insert.argNames ↔ m = "dsource_vec" ∨ m ∈ k.argNames := by
  induction k with
  | base => simp [Kernel.insert, Kernel.argNames]
  | axisTarget a k ih => simpa [Kernel.insert, Kernel.argNames] using ih
  | axisSource a k ih => simpa [Kernel.insert, Kernel.argNames] using ih
  | dirSource a k ih =>
    simp only [Kernel.insert, Kernel.argNames, List.mem_cons, ih]
    tauto

theorem intGVec_ok (k : Kernel n) (d : String) (lim : Lim) (src tgt : DD) (args kwargs : Args n) (P : IntG n) :
    intGVec k d lim src tgt args kwargs = .ok P ↔
      P = ⟨k.sxr, k.txr, d, lim, src, tgt, args.merge kwargs⟩ ∧
      ∀ m, m ∈ k.argNames ↔ ((args.merge kwargs).lookup m).isSome := by
  rw [intGVec, check_ok]
  simp only [argNames_split]

/-- **C78, arguments**: a potential can be built exactly if the arguments given (by dictionary or keyword) are those
of its kernel; else `ValueError` is raised.  Double layers supply the direction vector themselves. -/
theorem C78_arguments (k : Kernel n) (d : String) (lim : Option Lim) (src tgt : DD) (args kwargs : Args n) :
    ((∃ P, symS k d lim src tgt args kwargs = .ok P) ↔
      ∀ m, m ∈ k.argNames ↔ (args.lookup m).isSome ∨ (kwargs.lookup m).isSome) ∧
    ((∃ P, symD k d lim src tgt args kwargs = .ok P) ↔
      ∀ m, m ≠ "dsource_vec" → (m ∈ k.argNames ↔ (args.lookup m).isSome ∨ (kwargs.lookup m).isSome)) ∧
    ((∃ e, symSp k d lim src tgt args kwargs = .ok e) ↔ ∃ P, symS k d lim src tgt args kwargs = .ok P) ∧
    ((∃ e, symSpp k d lim src tgt args kwargs = .ok e) ↔ ∃ P, symS k d lim src tgt args kwargs = .ok P) ∧
    ((∃ e, symDp k d lim src tgt args kwargs = .ok e) ↔ ∃ P, symD k d lim src tgt args kwargs = .ok P) ∧
    ∀ e, symS k d lim src tgt args kwargs = .error e ∨ symD k d lim src tgt args kwargs = .error e → e = .valueError := by
  have hS : ∀ l : Lim, (∃ P, intGVec k d l src tgt args kwargs = .ok P) ↔
      ∀ m, m ∈ k.argNames ↔ (args.lookup m).isSome ∨ (kwargs.lookup m).isSome := by
    intro l
    simp only [intGVec_ok, lookup_merge, exists_eq_left, Option.isSome_or, Bool.or_eq_true, or_comm]
  have hD : ∀ l : Lim, (∃ P, intGDsource (fun i => .normal src i) .scalar k d l src tgt args kwargs = .ok P) ↔
      ∀ m, m ≠ "dsource_vec" → (m ∈ k.argNames ↔ (args.lookup m).isSome ∨ (kwargs.lookup m).isSome) := by
    intro l
    simp only [intGDsource, intGVec_ok, lookup_merge, exists_eq_left, argNames_insert]
    refine forall_congr' fun m => ?_
    by_cases hm : m = "dsource_vec"
    · subst hm
      cases kwargs.lookup "dsource_vec" <;> simp
    · have : (m == "dsource_vec") = false := by simpa using hm
      simp only [hm, false_or, List.lookup_cons, this, List.lookup_nil, Option.none_or, Option.isSome_or,
        Bool.or_eq_true, ne_eq, not_false_eq_true, true_imp_iff, or_comm]
  have hb : ∀ {α β : Type} (x : Except Err α) (f : α → β),
      (∃ e, (do let P ← x; pure (f P) : Except Err β) = .ok e) ↔ ∃ P, x = .ok P := by
    intro α β x f
    cases x with
    | error e => exact ⟨(by rintro ⟨_, h⟩; cases h), (by rintro ⟨_, h⟩; cases h)⟩
    | ok a => exact ⟨fun _ => ⟨a, rfl⟩, fun _ => ⟨f a, rfl⟩⟩
  have he : ∀ (P : IntG n) e, P.check = .error e → e = .valueError := by
    intro P e h
    cases e
    rfl
  refine ⟨hS _, hD _, ?_, ?_, ?_, ?_⟩
  · rw [symSp, hb, symS, symS, hS, hS]
  · rw [symSpp, hb, symS, symS, hS, hS]
  · rw [symDp, hb, symD, symD, hD, hD]
  · rintro e (h | h)
    · exact he _ e h
    · exact he _ e h

/-- **C78, places**: every potential in a result has the density, source, target and limit asked for; unspecified limits
default to `+1` for `S`, `Spp` and `Dp` and to `'avg'` for `D` and `Sp`. -/
theorem C78_places (k : Kernel n) (d : String) (lim : Option Lim) (src tgt : DD) (args kwargs : Args n) (l1 lavg : Lim)
    (h1 : l1 = lim.getD .p1) (ha : lavg = lim.getD .avg) :
    (∀ P, symS k d lim src tgt args kwargs = .ok P → P.density = d ∧ P.src = src ∧ P.tgt = tgt ∧ P.lim = l1) ∧
    (∀ P, symD k d lim src tgt args kwargs = .ok P → P.density = d ∧ P.src = src ∧ P.tgt = tgt ∧ P.lim = lavg) ∧
    (∀ e, symSp k d lim src tgt args kwargs = .ok e →
      e.All fun P => P.density = d ∧ P.src = src ∧ P.tgt = tgt ∧ P.lim = lavg) ∧
    (∀ e, symSpp k d lim src tgt args kwargs = .ok e →
      e.All fun P => P.density = d ∧ P.src = src ∧ P.tgt = tgt ∧ P.lim = l1) ∧
    (∀ e, symDp k d lim src tgt args kwargs = .ok e →
      e.All fun P => P.density = d ∧ P.src = src ∧ P.tgt = tgt ∧ P.lim = l1) := by
  subst h1 ha
  have hsum : ∀ (p : IntG n → Prop) (l : List (Ex n)), (∀ e ∈ l, e.All p) → (Ex.sumL l).All p := by
    intro p l
    induction l with
    | nil => intro _; trivial
    | cons e l ih => intro h; exact ⟨h e (by simp), ih fun x hx => h x (by simp [hx])⟩
  have hN : ∀ (p : IntG n → Prop) (P : IntG n) (dd : DD), (∀ a, p (takeD a P)) → (normalDeriv P dd).All p := by
    intro p P dd h
    refine hsum p _ fun e he => ?_
    obtain ⟨a, _, rfl⟩ := List.mem_map.1 he
    exact h a
  have hN2 : ∀ (p : IntG n → Prop) (P : IntG n) (dd : DD), (∀ a b, p (takeD b (takeD a P))) → (normalDeriv2 P dd).All p := by
    intro p P dd h
    refine hsum p _ fun e he => ?_
    obtain ⟨a, _, rfl⟩ := List.mem_map.1 he
    refine hsum p _ fun e he => ?_
    obtain ⟨b, _, rfl⟩ := List.mem_map.1 he
    exact h a b
  have hS : ∀ l P, symS k d (some l) src tgt args kwargs = .ok P → P.density = d ∧ P.src = src ∧ P.tgt = tgt ∧ P.lim = l := by
    intro l P h
    have := ((intGVec_ok k d l src tgt args kwargs P).1 h).1
    subst this
    exact ⟨rfl, rfl, rfl, rfl⟩
  have hD : ∀ l P, symD k d (some l) src tgt args kwargs = .ok P → P.density = d ∧ P.src = src ∧ P.tgt = tgt ∧ P.lim = l := by
    intro l P h
    have := ((intGVec_ok _ d l src tgt _ kwargs P).1 h).1
    subst this
    exact ⟨rfl, rfl, rfl, rfl⟩
  refine ⟨fun P h => hS _ P h, fun P h => hD _ P h, fun e h => ?_, fun e h => ?_, fun e h => ?_⟩
  · simp only [symSp] at h
    cases hP : symS k d (some (lim.getD .avg)) src tgt args kwargs with
    | error x => rw [hP] at h; cases h
    | ok P =>
      rw [hP] at h
      cases h
      exact hN _ _ _ fun a => hS _ P hP
  · simp only [symSpp] at h
    cases hP : symS k d (some (lim.getD .p1)) src tgt args kwargs with
    | error x => rw [hP] at h; cases h
    | ok P =>
      rw [hP] at h
      cases h
      exact hN2 _ _ _ fun a b => hS _ P hP
  · simp only [symDp] at h
    cases hP : symD k d (some (lim.getD .p1)) src tgt args kwargs with
    | error x => rw [hP] at h; cases h
    | ok P =>
      rw [hP] at h
      cases h
      exact hN _ _ _ fun a => hD _ P hP

/-! # Values -/

/-- both kernels of a potential together have the derivatives of the kernel given -/
theorem den_split {env : Env n} {src : DD} {U : Set (E n × E n)} {W : Set (E n)} (hs : Smooth env src U W)
    (args : Args n) (j : Nat) (k : Kernel n) (p : E n × E n) (hp : p ∈ U) :
    k.sxr.den env src args j (k.txr.den env src args j env.G) p = k.den env src args j env.G p := by
  rw [den_eq, den_eq, den_eq, ← dirs_append]
  exact dirs_perm hs.openU hs.smooth (vecs_split env src args j k) p hp

theorem layer_congr {env : Env n} {src : DD} {U : Set (E n × E n)} {W : Set (E n)} (hs : Smooth env src U W) (d : String)
    (K K' : Nat → E n × E n → ℂ) (h : ∀ j, ∀ p ∈ U, K j p = K' j p) (x : E n) (hx : x ∈ W) :
    layer env src d K x = layer env src d K' x := by
  refine Finset.sum_congr rfl fun j hj => ?_
  rw [h j _ (hs.pairs x hx j (Finset.mem_range.1 hj))]

/-- **C78, single layers**: `S` is the layer potential with the kernel given, whatever source and target derivatives that
kernel has. -/
theorem C78_single (env : Env n) (k : Kernel n) (d : String) (lim : Option Lim) (src tgt : DD) (args kwargs : Args n)
    (P : IntG n) (h : symS k d lim src tgt args kwargs = .ok P) (U : Set (E n × E n)) (W : Set (E n))
    (hs : Smooth env src U W) (x : E n) (hx : x ∈ W) :
    field env P x = layer env src d (fun j => k.den env src (args.merge kwargs) j env.G) x := by
  have := ((intGVec_ok _ d _ src tgt _ kwargs P).1 h).1
  subst this
  exact layer_congr hs d _ _ (fun j p hp => den_split hs _ j k p hp) x hx

/-! ## Direction vectors -/

theorem coVal_fold (env : Env n) (dd : DD) (i : Nat) (l : List (Co n × Fin n)) :
    coVal env dd i (l.foldr (fun t c => .add t.1 c) .zero) = (l.map fun t => coVal env dd i t.1).sum := by
  induction l with
  | nil => rfl
  | cons t l ih => simp only [List.foldr_cons, coVal, ih, List.map_cons, List.sum_cons]

theorem sum_filterMap_filter {α β : Type} (f : α → Option β) (g : β → Bool) (v : β → ℝ) (l : List α) :
    (((l.filterMap f).filter g).map v).sum
      = (l.map fun a => match f a with | some b => if g b then v b else 0 | none => 0).sum := by
  induction l with
  | nil => rfl
  | cons a l ih =>
    simp only [List.filterMap_cons, List.map_cons, List.sum_cons]
    cases hf : f a with
    | none => simp [ih]
    | some b =>
      cases hg : g b with
      | true => simp [hg, ih]
      | false => simp [hg, ih]

theorem sum_flatMap_list {α β : Type} (f : α → List β) (v : β → ℝ) (l : List α) :
    ((l.flatMap f).map v).sum = (l.map fun a => ((f a).map v).sum).sum := by
  induction l with
  | nil => rfl
  | cons a l ih => simp [ih]

theorem sum_finRange (f : Fin n → ℝ) : ((List.finRange n).map f).sum = ∑ i, f i := by
  rw [← List.ofFn_eq_map, List.sum_ofFn]

/-- sign of a term of the geometric product -/
def sgn (b : Bool) : ℝ := if b then -1 else 1

theorem coVal_dirVec (env : Env n) (dd : DD) (j : Nat) (v : Fin n → Co n) (B : Blade n) (i : Fin n) :
    coVal env dd j (dirVec (bladeTerms v B) i)
      = ∑ a, if (bladeMul a i).1 = B then sgn (bladeMul a i).2 * coVal env dd j (v a) else 0 := by
  rw [dirVec, coVal_fold, bladeTerms, sum_filterMap_filter, sum_flatMap_list, sum_finRange]
  refine Finset.sum_congr rfl fun a _ => ?_
  rw [List.map_map, sum_finRange, Finset.sum_eq_single i]
  · simp only [Function.comp_apply]
    by_cases hB : (bladeMul a i).1 = B
    · rw [if_pos hB, if_pos hB]
      cases hs : (bladeMul a i).2 <;> simp [sgn, coVal]
    · rw [if_neg hB, if_neg hB]
  · intro b _ hb
    simp only [Function.comp_apply]
    by_cases hB : (bladeMul a b).1 = B
    · rw [if_pos hB]
      simp [hb]
    · rw [if_neg hB]
  · intro h
    exact absurd (Finset.mem_univ i) h

/-- the scalar part of the product of a vector with `nabla` is the derivative along the vector -/
theorem dirVec_scalar (env : Env n) (dd : DD) (j : Nat) (v : Fin n → Co n) (i : Fin n) :
    coVal env dd j (dirVec (bladeTerms v .scalar) i) = coVal env dd j (v i) := by
  rw [coVal_dirVec, Finset.sum_eq_single i]
  · simp [bladeMul, sgn]
  · intro a _ ha
    have : (bladeMul a i).1 ≠ .scalar := by
      unfold bladeMul
      rw [if_neg ha]
      split <;> simp
    rw [if_neg this]
  · intro h
    exact absurd (Finset.mem_univ i) h

/-- the component `e_a ∧ e_b` of the product -/
theorem dirVec_pair (env : Env n) (dd : DD) (j : Nat) (v : Fin n → Co n) (a b : Fin n) (hab : a < b) (i : Fin n) :
    coVal env dd j (dirVec (bladeTerms v (.pair a b)) i)
      = if i = b then coVal env dd j (v a) else if i = a then -coVal env dd j (v b) else 0 := by
  rw [coVal_dirVec]
  have key : ∀ c : Fin n, (bladeMul c i).1 = .pair a b ↔ (c = a ∧ i = b) ∨ (c = b ∧ i = a) := by
    intro c
    unfold bladeMul
    by_cases h1 : c = i
    · rw [if_pos h1]
      constructor
      · intro h; cases h
      · rintro (⟨rfl, rfl⟩ | ⟨rfl, rfl⟩)
        · exact absurd h1 (ne_of_lt hab)
        · exact absurd h1.symm (ne_of_lt hab)
    · rw [if_neg h1]
      by_cases h2 : c < i
      · rw [if_pos h2]
        simp only [Blade.pair.injEq]
        constructor
        · exact fun h => Or.inl h
        · rintro (h | ⟨rfl, rfl⟩)
          · exact h
          · exact absurd h2 (not_lt.2 hab.le)
      · rw [if_neg h2]
        simp only [Blade.pair.injEq]
        constructor
        · exact fun h => Or.inr ⟨h.2, h.1⟩
        · rintro (⟨rfl, rfl⟩ | h)
          · exact absurd hab h2
          · exact ⟨h.2, h.1⟩
  by_cases hb : i = b
  · subst hb
    rw [if_pos rfl, Finset.sum_eq_single a]
    · rw [if_pos ((key a).2 (Or.inl ⟨rfl, rfl⟩))]
      simp [bladeMul, ne_of_lt hab, hab, sgn]
    · intro c _ hc
      rw [if_neg]
      rw [key]
      rintro (⟨h, _⟩ | ⟨_, h⟩)
      · exact hc h
      · exact absurd h.symm (ne_of_lt hab)
    · intro h
      exact absurd (Finset.mem_univ a) h
  · rw [if_neg hb]
    by_cases ha : i = a
    · subst ha
      rw [if_pos rfl, Finset.sum_eq_single b]
      · rw [if_pos ((key b).2 (Or.inr ⟨rfl, rfl⟩))]
        simp [bladeMul, (ne_of_lt hab).symm, not_lt.2 hab.le, sgn]
      · intro c _ hc
        rw [if_neg]
        rw [key]
        rintro (⟨_, h⟩ | ⟨h, _⟩)
        · exact hb h
        · exact hc h
      · intro h
        exact absurd (Finset.mem_univ b) h
    · rw [if_neg ha]
      refine Finset.sum_eq_zero fun c _ => ?_
      rw [if_neg]
      rw [key]
      rintro (⟨_, h⟩ | ⟨_, h⟩)
      · exact hb h
      · exact ha h

/-- what `int_g_dsource` stands for, in terms of the direction vector it makes -/
theorem dsource_field (env : Env n) (v : Fin n → Co n) (B : Blade n) (k : Kernel n) (d : String) (lim : Lim) (src tgt : DD)
    (args kwargs : Args n) (P : IntG n) (h : intGDsource v B k d lim src tgt args kwargs = .ok P)
    (hk : "dsource_vec" ∉ k.argNames) (hkw : kwargs.lookup "dsource_vec" = none) (U : Set (E n × E n)) (W : Set (E n))
    (hs : Smooth env src U W) (x : E n) (hx : x ∈ W) :
    field env P x = layer env src d (fun j p => deriv (fun t : ℝ => k.den env src (args.merge kwargs) j env.G
      (p.1, p.2 + t • fun i => coVal env src j (dirVec (bladeTerms v B) i))) 0) x := by
  have := ((intGVec_ok _ d _ src tgt _ kwargs P).1 h).1
  subst this
  refine layer_congr hs d _ _ (fun j p hp => ?_) x hx
  rw [den_split hs _ j k.insert p hp, den_eq, vecs_insert]
  have hv : k.vecs env src ((args.merge [("dsource_vec", .dir (dirVec (bladeTerms v B)))]).merge kwargs) j
      = k.vecs env src (args.merge kwargs) j := by
    refine vecs_congr _ _ _ _ _ _ fun m hm => ?_
    have hne : (m == "dsource_vec") = false := by
      simpa using fun h : m = "dsource_vec" => hk (h ▸ hm)
    simp only [lookup_merge, List.lookup_cons, hne, List.lookup_nil, Option.none_or]
  have hd : dirVal env src ((args.merge [("dsource_vec", .dir (dirVec (bladeTerms v B)))]).merge kwargs) j "dsource_vec"
      = fun i => coVal env src j (dirVec (bladeTerms v B) i) := by
    simp [dirVal, lookup_merge, hkw]
  rw [hv, hd, dirs_perm hs.openU hs.smooth (List.perm_append_singleton _ _) p hp]
  simp only [dirs]
  rw [← den_eq]
  have h1 : ContDiffOn ℝ ∞ (k.den env src (args.merge kwargs) j env.G) U := by
    rw [den_eq]
    exact dirs_smooth hs.openU hs.smooth _
  have h2 := (Dir_deriv hs.openU h1 (0, fun i => coVal env src j (dirVec (bladeTerms v B) i)) p hp).deriv
  rw [← h2]
  congr 1
  funext t
  congr 1
  simp [Prod.ext_iff]

/-- **C78, double layers**: `D` is the layer potential with the derivative of the kernel along the normal of the *source*,
with respect to the source point.  Missing: kernels which themselves have a direction vector called `dsource_vec`, see
`C78_refuted`, and keyword arguments of this name. -/
theorem C78_double_partial (env : Env n) (k : Kernel n) (d : String) (lim : Option Lim) (src tgt : DD)
    (args kwargs : Args n) (P : IntG n) (h : symD k d lim src tgt args kwargs = .ok P) (hk : "dsource_vec" ∉ k.argNames)
    (hkw : kwargs.lookup "dsource_vec" = none) (U : Set (E n × E n)) (W : Set (E n)) (hs : Smooth env src U W) (x : E n)
    (hx : x ∈ W) :
    field env P x = layer env src d (fun j p => deriv (fun t : ℝ => k.den env src (args.merge kwargs) j env.G
      (p.1, p.2 + t • env.nrm src src j)) 0) x := by
  rw [dsource_field env _ _ k d _ src tgt args kwargs P h hk hkw U W hs x hx]
  have : ∀ j, (fun i => coVal env src j (dirVec (bladeTerms (fun i => Co.normal src i) .scalar) i)) = env.nrm src src j := by
    intro j
    funext i
    rw [dirVec_scalar]
    rfl
  simp only [this]

/-- **C78, vector derivatives**: the components of `int_g_dsource` for a vector `v` are those of the geometric product of
`v` and the source gradient: the derivative along `v`, and for `a < b` the derivative along `v_a e_b - v_b e_a`. -/
theorem C78_dsource_partial (env : Env n) (v : Fin n → Co n) (k : Kernel n) (d : String) (lim : Lim) (src tgt : DD)
    (args kwargs : Args n) (hk : "dsource_vec" ∉ k.argNames)
    (hkw : kwargs.lookup "dsource_vec" = none) (U : Set (E n × E n)) (W : Set (E n)) (hs : Smooth env src U W) (x : E n)
    (hx : x ∈ W) :
    (∀ P, intGDsource v .scalar k d lim src tgt args kwargs = .ok P →
      field env P x = layer env src d (fun j p => deriv (fun t : ℝ => k.den env src (args.merge kwargs) j env.G
        (p.1, p.2 + t • fun i => coVal env src j (v i))) 0) x) ∧
    ∀ a b, a < b → ∀ P, intGDsource v (.pair a b) k d lim src tgt args kwargs = .ok P →
      field env P x = layer env src d (fun j p => deriv (fun t : ℝ => k.den env src (args.merge kwargs) j env.G
        (p.1, p.2 + t • (Pi.single b (coVal env src j (v a)) - Pi.single a (coVal env src j (v b))))) 0) x := by
  refine ⟨fun P h => ?_, fun a b hab P h => ?_⟩
  · rw [dsource_field env _ _ k d _ src tgt args kwargs P h hk hkw U W hs x hx]
    simp only [dirVec_scalar]
  · rw [dsource_field env _ _ k d _ src tgt args kwargs P h hk hkw U W hs x hx]
    have : ∀ j, (fun i => coVal env src j (dirVec (bladeTerms v (.pair a b)) i))
        = Pi.single b (coVal env src j (v a)) - Pi.single a (coVal env src j (v b)) := by
      intro j
      funext i
      rw [dirVec_pair env src j v a b hab i, Pi.sub_apply]
      by_cases hb : i = b
      · subst hb
        simp [Pi.single_eq_of_ne (ne_of_gt hab)]
      · rw [if_neg hb, Pi.single_eq_of_ne hb]
        by_cases ha : i = a
        · subst ha
          simp
        · rw [if_neg ha, Pi.single_eq_of_ne ha, sub_zero]
    simp only [this]

/-! ## Target derivatives -/

theorem field_takeD (env : Env n) (P : IntG n) (a : Fin n) (x : E n) :
    field env (takeD a P) x = ∑ j ∈ Finset.range (env.surf P.src).m, ((env.surf P.src).w j : ℂ) *
      Dir (Pi.single a 1, 0) (P.tk.den env P.src P.args j (P.sk.den env P.src P.args j env.G)) (x, (env.surf P.src).y j)
        * env.dens P.density P.src j := rfl

theorem field_sumL (env : Env n) (dd : DD) (i : Nat) (x : E n) (l : List (Ex n)) :
    (Ex.sumL l).field env dd i x = (l.map fun e => e.field env dd i x).sum := by
  induction l with
  | nil => rfl
  | cons e l ih =>
    change e.field env dd i x + (Ex.sumL l).field env dd i x = _
    rw [ih]
    simp

theorem sum_finRangeC (f : Fin n → ℂ) : ((List.finRange n).map f).sum = ∑ i, f i := by
  rw [← List.ofFn_eq_map, List.sum_ofFn]

/-- linear combinations of axis derivatives are derivatives along vectors -/
theorem Dir_axes (v : E n) (f : E n × E n → ℂ) (p : E n × E n) :
    ∑ a, (v a : ℂ) * Dir (Pi.single a 1, 0) f p = Dir (v, 0) f p := by
  have hv : ((v, 0) : E n × E n) = ∑ a, v a • ((Pi.single a 1, 0) : E n × E n) := by
    apply Prod.ext
    · rw [Prod.fst_sum]
      funext i
      simp [Finset.sum_apply, Pi.single_apply]
    · rw [Prod.snd_sum]
      simp
  simp only [Dir]
  rw [hv, map_sum]
  refine Finset.sum_congr rfl fun a _ => ?_
  rw [map_smul]
  simp

theorem field_along (env : Env n) (P : IntG n) (v : E n) (x : E n) :
    ∑ a, (v a : ℂ) * field env (takeD a P) x = ∑ j ∈ Finset.range (env.surf P.src).m, ((env.surf P.src).w j : ℂ) *
      Dir (v, 0) (P.tk.den env P.src P.args j (P.sk.den env P.src P.args j env.G)) (x, (env.surf P.src).y j)
        * env.dens P.density P.src j := by
  simp only [field_takeD, Finset.mul_sum]
  rw [Finset.sum_comm]
  refine Finset.sum_congr rfl fun j _ => ?_
  rw [← Dir_axes, Finset.mul_sum, Finset.sum_mul]
  exact Finset.sum_congr rfl fun a _ => by ring

/-- the combination of axis derivatives with the components of a vector is the derivative of the field along it -/
theorem along_deriv {env : Env n} {P : IntG n} {U : Set (E n × E n)} {W : Set (E n)} (hs : Smooth env P.src U W) (v : E n)
    (x : E n) (hx : x ∈ W) :
    HasDerivAt (fun t : ℝ => field env P (x + t • v)) (∑ a, (v a : ℂ) * field env (takeD a P) x) 0 := by
  rw [field_along]
  unfold field
  refine HasDerivAt.fun_sum fun j hj => ?_
  have h1 : ContDiffOn ℝ ∞ (P.tk.den env P.src P.args j (P.sk.den env P.src P.args j env.G)) U := by
    rw [den_eq, den_eq]
    exact dirs_smooth hs.openU (dirs_smooth hs.openU hs.smooth _) _
  have h2 := Dir_deriv hs.openU h1 (v, 0) (x, (env.surf P.src).y j) (hs.pairs x hx j (Finset.mem_range.1 hj))
  have h3 : (fun t : ℝ => P.tk.den env P.src P.args j (P.sk.den env P.src P.args j env.G)
      ((x, (env.surf P.src).y j) + t • ((v, 0) : E n × E n)))
      = fun t : ℝ => P.tk.den env P.src P.args j (P.sk.den env P.src P.args j env.G)
        (x + t • v, (env.surf P.src).y j) := by
    funext t
    congr 1
    simp [Prod.ext_iff]
  rw [h3] at h2
  exact (h2.const_mul _).mul_const _

theorem normalDeriv_field (env : Env n) (P : IntG n) (dd : DD) (i : Nat) (x : E n) :
    (normalDeriv P dd).field env dd i x = ∑ a, (env.nrm dd dd i a : ℂ) * field env (takeD a P) x := by
  rw [normalDeriv, field_sumL, List.map_map, ← sum_finRangeC]
  rfl

/-- **C78, normal derivatives**: `normal_derivative` of a potential is the derivative of its field along the normal of the
target. -/
theorem C78_normal_derivative (env : Env n) (P : IntG n) (dd : DD) (i : Nat) (U : Set (E n × E n)) (W : Set (E n))
    (hs : Smooth env P.src U W) (x : E n) (hx : x ∈ W) :
    HasDerivAt (fun t : ℝ => field env P (x + t • env.nrm dd dd i)) ((normalDeriv P dd).field env dd i x) 0 := by
  rw [normalDeriv_field]
  exact along_deriv hs _ x hx

theorem normalDeriv2_field (env : Env n) (P : IntG n) (dd : DD) (i : Nat) (x : E n) :
    (normalDeriv2 P dd).field env dd i x
      = ∑ a, (env.nrm dd dd i a : ℂ) * (normalDeriv (takeD a P) dd).field env dd i x := by
  rw [normalDeriv2, field_sumL, List.map_map, ← sum_finRangeC]
  rfl

/-- **C78, second normal derivatives**: `normal_second_derivative` is the second derivative of the field along the
(fixed) normal of the target. -/
theorem C78_second_derivative (env : Env n) (P : IntG n) (dd : DD) (i : Nat) (U : Set (E n × E n)) (W : Set (E n))
    (hs : Smooth env P.src U W) (x : E n) (hx : x ∈ W) :
    HasDerivAt (deriv fun t : ℝ => field env P (x + t • env.nrm dd dd i)) ((normalDeriv2 P dd).field env dd i x) 0 := by
  set v := env.nrm dd dd i with hv
  have hcont : Continuous fun t : ℝ => x + t • v := by fun_prop
  have hev : ∀ᶠ t : ℝ in nhds 0, x + t • v ∈ W := by
    refine hcont.continuousAt.eventually_mem (hs.openW.mem_nhds ?_)
    simpa using hx
  have hd : (deriv fun t : ℝ => field env P (x + t • v)) =ᶠ[nhds 0]
      fun t : ℝ => ∑ a, (v a : ℂ) * field env (takeD a P) (x + t • v) := by
    filter_upwards [hev] with t ht
    have h1 := along_deriv hs v (x + t • v) ht
    have h2 : HasDerivAt (fun s : ℝ => field env P (x + s • v))
        (∑ a, (v a : ℂ) * field env (takeD a P) (x + t • v)) t := by
      have h3 : HasDerivAt (fun s : ℝ => s - t) 1 t := by simpa using (hasDerivAt_id t).sub_const t
      have h4 : HasDerivAt (fun s : ℝ => field env P (x + t • v + s • v))
          (∑ a, (v a : ℂ) * field env (takeD a P) (x + t • v)) (t - t) := by rw [sub_self]; exact h1
      have h5 := HasDerivAt.scomp (h := fun s : ℝ => s - t) t h4 h3
      rw [one_smul] at h5
      refine h5.congr_of_eventuallyEq (Filter.Eventually.of_forall fun s => ?_)
      change field env P (x + s • v) = field env P (x + t • v + (s - t) • v)
      congr 1
      rw [sub_smul]
      abel
    exact h2.deriv
  refine HasDerivAt.congr_of_eventuallyEq ?_ hd
  rw [normalDeriv2_field]
  refine HasDerivAt.fun_sum fun a _ => ?_
  exact (C78_normal_derivative env (takeD a P) dd i U W hs x hx).const_mul _

/-- **C78, `Sp` and `Spp`**: first and second derivative, along the normal of the target, of the single layer potential with
the kernel given. -/
theorem C78_Sp (env : Env n) (k : Kernel n) (d : String) (lim : Option Lim) (src tgt : DD) (args kwargs : Args n)
    (i : Nat) (U : Set (E n × E n)) (W : Set (E n)) (hs : Smooth env src U W) (x : E n) (hx : x ∈ W) :
    (∀ e, symSp k d lim src tgt args kwargs = .ok e →
      HasDerivAt (fun t : ℝ => layer env src d (fun j => k.den env src (args.merge kwargs) j env.G)
        (x + t • env.nrm tgt tgt i)) (e.field env tgt i x) 0) ∧
    ∀ e, symSpp k d lim src tgt args kwargs = .ok e →
      HasDerivAt (deriv fun t : ℝ => layer env src d (fun j => k.den env src (args.merge kwargs) j env.G)
        (x + t • env.nrm tgt tgt i)) (e.field env tgt i x) 0 := by
  have hcont : Continuous fun t : ℝ => x + t • env.nrm tgt tgt i := by fun_prop
  have hev : ∀ᶠ t : ℝ in nhds 0, x + t • env.nrm tgt tgt i ∈ W := by
    refine hcont.continuousAt.eventually_mem (hs.openW.mem_nhds ?_)
    simpa using hx
  have hfield : ∀ l P, symS k d (some l) src tgt args kwargs = .ok P → P.src = src ∧
      ∀ x ∈ W, layer env src d (fun j => k.den env src (args.merge kwargs) j env.G) x = field env P x := by
    intro l P hP
    exact ⟨((C78_places k d (some l) src tgt args kwargs l l rfl rfl).1 P hP).2.1,
      fun x hx => (C78_single env k d (some l) src tgt args kwargs P hP U W hs x hx).symm⟩
  refine ⟨fun e h => ?_, fun e h => ?_⟩
  · simp only [symSp] at h
    cases hP : symS k d (some (lim.getD .avg)) src tgt args kwargs with
    | error x => rw [hP] at h; cases h
    | ok P =>
      rw [hP] at h
      cases h
      obtain ⟨h1, h2⟩ := hfield _ P hP
      refine (C78_normal_derivative env P tgt i U W (h1 ▸ hs) x hx).congr_of_eventuallyEq ?_
      filter_upwards [hev] with t ht using h2 _ ht
  · simp only [symSpp] at h
    cases hP : symS k d (some (lim.getD .p1)) src tgt args kwargs with
    | error x => rw [hP] at h; cases h
    | ok P =>
      rw [hP] at h
      cases h
      obtain ⟨h1, h2⟩ := hfield _ P hP
      refine (C78_second_derivative env P tgt i U W (h1 ▸ hs) x hx).congr_of_eventuallyEq ?_
      have : (fun t : ℝ => layer env src d (fun j => k.den env src (args.merge kwargs) j env.G)
          (x + t • env.nrm tgt tgt i)) =ᶠ[nhds 0] fun t : ℝ => field env P (x + t • env.nrm tgt tgt i) := by
        filter_upwards [hev] with t ht using h2 _ ht
      exact this.deriv

/-- **C78, `Dp`**: the derivative, along the normal of the target, of the double layer potential.  Missing: as in
`C78_double_partial`. -/
theorem C78_Dp_partial (env : Env n) (k : Kernel n) (d : String) (lim : Option Lim) (src tgt : DD) (args kwargs : Args n)
    (hk : "dsource_vec" ∉ k.argNames) (hkw : kwargs.lookup "dsource_vec" = none)
    (i : Nat) (U : Set (E n × E n)) (W : Set (E n)) (hs : Smooth env src U W) (x : E n) (hx : x ∈ W) :
    ∀ e, symDp k d lim src tgt args kwargs = .ok e →
      HasDerivAt (fun t : ℝ => layer env src d (fun j p => deriv (fun s : ℝ => k.den env src (args.merge kwargs) j env.G
        (p.1, p.2 + s • env.nrm src src j)) 0) (x + t • env.nrm tgt tgt i)) (e.field env tgt i x) 0 := by
  intro e h
  have hcont : Continuous fun t : ℝ => x + t • env.nrm tgt tgt i := by fun_prop
  have hev : ∀ᶠ t : ℝ in nhds 0, x + t • env.nrm tgt tgt i ∈ W := by
    refine hcont.continuousAt.eventually_mem (hs.openW.mem_nhds ?_)
    simpa using hx
  simp only [symDp] at h
  cases hP : symD k d (some (lim.getD .p1)) src tgt args kwargs with
  | error x => rw [hP] at h; cases h
  | ok P =>
    rw [hP] at h
    cases h
    have h1 := ((C78_places k d (some (lim.getD .p1)) src tgt args kwargs _ _ rfl rfl).2.1 P hP).2.1
    refine (C78_normal_derivative env P tgt i U W (h1 ▸ hs) x hx).congr_of_eventuallyEq ?_
    filter_upwards [hev] with t ht
      using (C78_double_partial env k d _ src tgt args kwargs P hP hk hkw U W hs _ ht).symm

/-- **C78, tangential derivatives**: on curves `tangential_derivative` is the derivative of the field along the unit
tangent of the target. -/
theorem C78_tangential (env : Env n) (P : IntG n) (dd : DD) (i : Nat) (U : Set (E n × E n)) (W : Set (E n))
    (hs : Smooth env P.src U W) (x : E n) (hx : x ∈ W) :
    HasDerivAt (fun t : ℝ => field env P (x + t • env.tan dd dd i))
      ((tangentialDeriv (curveBlades n dd) P []).field env dd i x) 0 := by
  have : (tangentialDeriv (curveBlades n dd) P []).field env dd i x
      = ∑ a, (env.tan dd dd i a : ℂ) * field env (takeD a P) x := by
    have hc : contractTerms (curveBlades n dd) P
        = (List.finRange n).map fun a => ([], .mul (.tangent dd a) (.pot (takeD a P))) := by
      have hf : ∀ a : Fin n, ((curveBlades n dd).filter fun B => B.1.all fun b => b = a) = [([a], .tangent dd a)] := by
        intro a
        rw [curveBlades, List.filter_map]
        have : ((List.finRange n).filter ((fun B : List (Fin n) × Co n => B.1.all fun b => b = a)
            ∘ fun a => ([a], Co.tangent dd a))) = [a] := by
          have h1 : ((fun B : List (Fin n) × Co n => B.1.all fun b => b = a)
            ∘ fun a => ([a], Co.tangent dd a)) = fun b => decide (b = a) := by
            funext b
            simp
          rw [h1]
          have h2 := List.filter_beq (l := List.finRange n) a
          rw [List.count_eq_one_of_mem (List.nodup_finRange n) (List.mem_finRange a), List.replicate_one] at h2
          rw [← h2]
          refine List.filter_congr fun b _ => ?_
          rfl
        rw [this]
        rfl
      rw [contractTerms]
      simp only [hf, List.map_cons, List.map_nil, List.isEmpty_cons, Bool.false_eq_true, if_false]
      rw [List.map_eq_flatMap]
    rw [tangentialDeriv, hc, List.filter_eq_self.2, field_sumL, List.map_map, List.map_map, ← sum_finRangeC]
    · rfl
    · intro t ht
      obtain ⟨a, _, rfl⟩ := List.mem_map.1 ht
      simp
  rw [this]
  exact along_deriv hs _ x hx

/-- For surfaces (the unit tangent blade has two axes) every component of `tangential_derivative` vanishes, whatever the
operand is. -/
theorem C78_tangential_surface_zero (env : Env n) (P : IntG n) (dd : DD) (i : Nat) (blades : List (List (Fin n) × Co n))
    (h : ∀ B ∈ blades, ∃ a b c, B = ([a, b], c) ∧ a < b) (R : List (Fin n)) (x : E n) :
    (tangentialDeriv blades P R).field env dd i x = 0 := by
  have hc : contractTerms blades P = [] := by
    have hf : ∀ a : Fin n, (blades.filter fun B => B.1.all fun b => b = a) = [] := by
      intro a
      rw [List.filter_eq_nil_iff]
      intro B hB
      obtain ⟨p, q, c, rfl, hpq⟩ := h B hB
      simp only [List.all_cons, List.all_nil, Bool.and_true, Bool.and_eq_true, decide_eq_true_eq]
      rintro ⟨rfl, rfl⟩
      exact lt_irrefl _ hpq
    simp [contractTerms, hf]
  rw [tangentialDeriv, hc]
  rfl

theorem mapM_get {α β : Type} (f : α → Except Err β) : ∀ (l : List α) (m : List β), l.mapM f = .ok m →
    m.length = l.length ∧ ∀ (i : Nat) a, l[i]? = some a → ∃ b, m[i]? = some b ∧ f a = .ok b
  | [], m, h => by
    cases h
    exact ⟨rfl, fun i a h => by simp at h⟩
  | a :: l, m, h => by
    rw [List.mapM_cons] at h
    cases h1 : f a with
    | error e => rw [h1] at h; cases h
    | ok b =>
      cases h2 : l.mapM f with
      | error e => rw [h1, h2] at h; cases h
      | ok m' =>
        rw [h1, h2] at h
        cases h
        obtain ⟨i1, i2⟩ := mapM_get f l m' h2
        refine ⟨by simp [i1], fun i c hc => ?_⟩
        cases i with
        | zero =>
          simp only [List.getElem?_cons_zero, Option.some.injEq] at hc
          subst hc
          exact ⟨b, rfl, h1⟩
        | succ i =>
          simp only [List.getElem?_cons_succ] at hc ⊢
          exact i2 i c hc

/-- **C78, vectors**: a vector of densities gives the vector of the potentials of its components. -/
theorem C78_vector (k : Kernel n) (ds : List String) (lim : Lim) (src tgt : DD) (args kwargs : Args n)
    (Ps : List (IntG n)) (h : intGVecL k ds lim src tgt args kwargs = .ok Ps) :
    Ps.length = ds.length ∧ ∀ (i : Nat) d, ds[i]? = some d →
      ∃ P, Ps[i]? = some P ∧ symS k d (some lim) src tgt args kwargs = .ok P :=
  mapM_get _ ds Ps h

/-! # Examples -/

/-- the first coordinate of the source, as a linear map -/
noncomputable def exL : E 2 × E 2 →L[ℝ] ℂ :=
  Complex.ofRealCLM.comp ((ContinuousLinearMap.proj (R := ℝ) (φ := fun _ : Fin 2 => ℝ) 0).comp (ContinuousLinearMap.snd ℝ (E 2) (E 2)))

theorem exL_apply (p : E 2 × E 2) : exL p = ((p.2 0 : ℝ) : ℂ) := rfl

/-- one source at `(1, 0)` with normal `e_0`, the kernel `y_0 ^ 2`, and the direction vectors `e_1` of the user -/
noncomputable def exEnv : Env 2 where
  G p := exL p ^ 2
  surf _ := ⟨1, fun _ => Pi.single 0 1, fun _ => 1⟩
  dens _ _ _ := 1
  nrm _ _ _ := Pi.single 0 1
  tan _ _ _ := Pi.single 1 1
  vec _ _ _ := Pi.single 0 1
  dir _ _ _ := Pi.single 1 1

theorem exEnv_smooth (src : DD) : Smooth exEnv src Set.univ Set.univ where
  openU := isOpen_univ
  smooth := (exL.contDiff.pow 2).contDiffOn
  openW := isOpen_univ
  pairs _ _ _ _ := trivial

theorem Dir_sq (u p : E 2 × E 2) : Dir u (fun q => exL q ^ 2) p = 2 * exL u * exL p := by
  have h := (exL.hasFDerivAt (x := p)).pow 2
  have h' : HasFDerivAt (fun q => exL q ^ 2) _ p := h
  rw [Dir, h'.fderiv]
  simp
  ring

theorem Dir_lin (c : ℂ) (u p : E 2 × E 2) : Dir u (fun q => c * exL q) p = c * exL u := by
  have h := (exL.hasFDerivAt (x := p)).const_mul c
  have h' : HasFDerivAt (fun q => c * exL q) _ p := h
  rw [Dir, h'.fderiv]
  simp

/-- **C78, the limit of the double layer potential**: a kernel that already has a direction vector `dsource_vec` loses it:
the derivative along the vector given by the user is replaced by a second one along the normal.  The double layer potential of
`∂_1 (y_0 ^ 2)` is `0`, that of the program is `2`. -/
theorem C78_refuted : ∃ (env : Env 2) (k : Kernel 2) (args : Args 2) (P : IntG 2) (x : E 2),
    Smooth env none Set.univ Set.univ ∧ symD k "sigma" none none none args [] = .ok P ∧
    field env P x ≠ layer env none "sigma" (fun j p => deriv (fun t : ℝ => k.den env none args j env.G
      (p.1, p.2 + t • env.nrm none none j)) 0) x := by
  let P : IntG 2 := ⟨.base [], .dirSource "dsource_vec" (.dirSource "dsource_vec" (.base [])), "sigma", .avg, none, none,
    [("dsource_vec", .dir (dirVec (bladeTerms (fun i => .normal none i) .scalar)))]⟩
  have hok : symD (.dirSource "dsource_vec" (.base [])) "sigma" none none none [("dsource_vec", Arg.user (n := 2))] []
      = .ok P := by
    rw [symD, intGDsource, intGVec_ok]
    refine ⟨rfl, fun m => ?_⟩
    by_cases hm : m = "dsource_vec"
    · subst hm
      simp [Kernel.insert, Kernel.argNames, Args.merge]
    · have : (m == "dsource_vec") = false := by simpa using hm
      simp [Kernel.insert, Kernel.argNames, Args.merge, hm, this]
  refine ⟨exEnv, .dirSource "dsource_vec" (.base []), [("dsource_vec", .user)], P, 0, exEnv_smooth none, hok, ?_⟩
  have hv : dirVal exEnv none P.args 0 "dsource_vec" = Pi.single 0 1 := by
    funext i
    simp only [dirVal, P, List.lookup_cons, BEq.rfl]
    rw [dirVec_scalar]
    rfl
  have h1 : field exEnv P 0 = 2 := by
    have hd : ∀ p, P.sk.den exEnv none P.args 0 exEnv.G p = 2 := by
      intro p
      have hG : exEnv.G = fun q => exL q ^ 2 := rfl
      have hin : Dir ((0 : E 2), (Pi.single 0 1 : E 2)) (fun q => exL q ^ 2) = fun q => 2 * exL q := by
        funext q
        rw [Dir_sq, exL_apply]
        simp
      simp only [P, Kernel.den] at hv ⊢
      rw [hv, hG, hin, Dir_lin, exL_apply]
      simp
    have ht : ∀ p, P.tk.den exEnv P.src P.args 0 (P.sk.den exEnv P.src P.args 0 exEnv.G) p = 2 := hd
    simp only [field, show (exEnv.surf P.src).m = 1 from rfl, Finset.sum_range_one, ht]
    simp [exEnv]
  have h2 : layer exEnv none "sigma" (fun j p => deriv (fun t : ℝ => Kernel.den exEnv none
      [("dsource_vec", .user)] j (.dirSource "dsource_vec" (.base [])) exEnv.G (p.1, p.2 + t • exEnv.nrm none none j)) 0) 0 = 0 := by
    have hz : ∀ j, Kernel.den exEnv none [("dsource_vec", .user)] j (.dirSource "dsource_vec" (.base [])) exEnv.G
        = fun _ => 0 := by
      intro j
      funext q
      change Dir ((0 : E 2), (Pi.single 1 1 : E 2)) (fun q => exL q ^ 2) q = 0
      rw [Dir_sq, exL_apply]
      simp
    simp only [hz, layer, deriv_const, mul_zero, zero_mul, Finset.sum_const_zero]
  rw [h1, h2]
  exact two_ne_zero

/-- kernels without such an argument meet the hypotheses of the theorems above, and the potential is not trivial: the double
layer potential of `y_0 ^ 2` at a source `(1, 0)` is `2` -/
example : ∃ P, symD (n := 2) (.base []) "sigma" none none none [] [] = .ok P ∧ field exEnv P 0 = 2 := by
  obtain ⟨P, hP⟩ := (C78_arguments (n := 2) (.base []) "sigma" none none none [] []).2.1.2
    (by intro m _; simp [Kernel.argNames])
  refine ⟨P, hP, ?_⟩
  rw [C78_double_partial exEnv _ _ _ _ _ _ _ P hP (by simp [Kernel.argNames]) rfl _ _ (exEnv_smooth none) 0 trivial]
  have : ∀ p : E 2 × E 2, deriv (fun t : ℝ => Kernel.den exEnv none (Args.merge [] []) 0 (.base []) exEnv.G
      (p.1, p.2 + t • exEnv.nrm none none 0)) 0 = 2 * exL p := by
    intro p
    have h := Dir_deriv (isOpen_univ) (exEnv_smooth none).smooth ((0 : E 2), (Pi.single 0 1 : E 2)) p trivial
    have h2 : Dir ((0 : E 2), (Pi.single 0 1 : E 2)) exEnv.G p = 2 * exL p := by
      change Dir _ (fun q => exL q ^ 2) p = _
      rw [Dir_sq, exL_apply]
      simp
    rw [h2] at h
    rw [← h.deriv]
    have h3 : ∀ t : ℝ, ((p.1, p.2 + t • exEnv.nrm none none 0) : E 2 × E 2) = p + t • ((0 : E 2), (Pi.single 0 1 : E 2)) := by
      intro t
      ext <;> simp [exEnv]
    simp only [h3]
    rfl
  rw [layer, show (exEnv.surf none).m = 1 from rfl, Finset.sum_range_one, this (0, (exEnv.surf none).y 0)]
  simp [exEnv, exL_apply]

/-- unknown and missing arguments are rejected, and a curve in the plane has tangential derivatives -/
example : symS (n := 2) (.base ["k"]) "sigma" none none none [] [] = .error .valueError ∧
    symS (n := 2) (.base []) "sigma" none none none [("k", .user)] [] = .error .valueError ∧
    (∃ P, symS (n := 2) (.base ["k"]) "sigma" none none none [] [("k", .user)] = .ok P) ∧
    (curveBlades 2 none).length = 2 := by
  refine ⟨rfl, rfl, ⟨_, rfl⟩, rfl⟩

end Verif.LayerOps
