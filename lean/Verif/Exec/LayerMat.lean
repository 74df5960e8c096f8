import Verif.QBX.Direct
import Verif.QBX.Setup
import Verif.Exec.MatAccept
import Verif.Symbolic.DofDesc
import Mathlib.Algebra.BigOperators.Ring.List
import Mathlib.Algebra.BigOperators.Group.List.Basic
import Mathlib.Tactic.Ring

/-!
# The matrix of a layer potential (C88)

`MatrixBuilder.map_int_g` (`pytential/symbolic/matrix.py:450-518`), `P2PMatrixBuilder.map_int_g`
(`:553-621`), `QBXClusterMatrixBuilder.map_int_g` (`:655-735`) on one side, direct evaluation of layer
potentials (`pytential/qbx/__init__.py:866-1068`, with the strengths of `:1075-1096`) on the other.  In C24 the
matrices of layer potentials are given; here they are computed from the geometry, and the evaluation runs the
model of direct evaluation (C40) with the expansions chosen as in C79.

Simplifications: numbers are an arbitrary field; what sumpy's kernels compute for one source, one target and one
expansion center are functions of the scene (`Scene.expn`, `Scene.plain`); expressions are evaluated recursively
(C01 and C76 relate this to compiled execution).  Kernel arguments are part of the layer potential.
-/

set_option linter.unusedSectionVars false

namespace Verif.LayerMat

open Verif.DofDesc (DD Obj Stage Gran)
open Verif.QBXSetup
open Verif.MatBuild
open Finset

/-! # Model -/

/-- the fields of `IntG` (`primitives.py:1886-1975`); densities are separate -/
structure Pot (A : Type) where
  sks : List Kn
  tk : Kn
  src : DD
  tgt : DD
  limit : Option Int
  args : A

/-- What the collection of places, meshmode and sumpy provide.  `discr` and `target` are the objects returned by
`get_discretization` and `get_target_or_discretization` (`none`: they raise).  `center d side` are
`expansion_centers(side, dofdesc=d)`, i.e. node + side * radius * normal (`primitives.py:1383-1399`).
`expn x tk sk a c r t s` is the value at `t` of the expansion `x` about `c` with radius `r` of a unit source at `s`
(`sumpy.qbx`), `plain` the same without expansion (`sumpy.p2p`).  `assoc` is `user_target_to_center` for a target and a
side, `qbxCenter`, `qbxRadius` are the centers of the source (`qbx/__init__.py:1009-1052`). -/
structure Scene (α P A : Type) where
  discr : DD → Option Nat
  target : DD → Option Nat
  ndofs : DD → Nat
  node : DD → Nat → P
  waa : DD → Nat → α
  center : DD → Int → Nat → P
  radius : DD → Nat → α
  factory : Factory
  order : Nat
  expn : Expn → Kn → Kn → A → P → α → P → P → α
  plain : Kn → Kn → A → P → P → α
  ncenters : Nat
  qbxCenter : Nat → P
  qbxRadius : Nat → α
  assoc : DD → Int → List Int

variable {α P A : Type} [Field α] [DecidableEq α]

/-! ## Matrix builders -/

/-- the matrix of one source kernel (`matrix.py:461-516`): expansions about the centers of the *target*, columns
weighted -/
def lpMat (S : Scene α P A) (weighted : Bool) (g : Pot A) (l : Int) (sk : Kn) : Arr α :=
  ⟨S.ndofs g.tgt, S.ndofs g.src, fun i j =>
    S.expn (directExpn S.factory sk.getBase [g.tk] S.order) g.tk sk g.args (S.center g.tgt l i) (S.radius g.tgt i)
      (S.node g.tgt i) (S.node g.src j) * (if weighted then S.waa g.src j else 1)⟩

/-- the matrices `map_int_g` uses, one per source kernel; `none`: it raises, because source or target are not
discretizations (`matrix.py:451-454`) or because of `assert abs(expr.qbx_forced_limit) > 0` (`:458`), a `TypeError` if
there is no limit -/
def matPot (S : Scene α P A) (weighted : Bool) (g : Pot A) : Option (List (Arr α)) :=
  match S.discr g.src, S.discr g.tgt, g.limit with
  | some _, some _, some l => if l = 0 then none else some (g.sks.map (lpMat S weighted g l))
  | _, _, _ => none

/-- `P2PMatrixBuilder.map_int_g` for one source kernel (`matrix.py:563-619`): the *base* kernels of source and target,
without the diagonal if `excludeSelf` -/
def p2pMat (S : Scene α P A) (weighted excludeSelf : Bool) (g : Pot A) (sk : Kn) : Arr α :=
  ⟨S.ndofs g.tgt, S.ndofs g.src, fun i j =>
    (if excludeSelf = true ∧ i = j then 0 else
      S.plain (.base g.tk.getBase) (.base sk.getBase) g.args (S.node g.tgt i) (S.node g.src j))
      * (if weighted then S.waa g.src j else 1)⟩

/-- `QBXClusterMatrixBuilder.map_int_g` for one source kernel (`matrix.py:655-735`): one entry per pair of target and
source index; `none`: it raises -/
def clusterVals (S : Scene α P A) (weighted : Bool) (g : Pot A) (pairs : List (Nat × Nat)) (sk : Kn) : Option (List α) :=
  match S.discr g.src, S.target g.tgt, g.limit with
  | some a, some b, some l =>
    if weighted = true ∧ a ≠ b then none
    else if l = 0 then none
    else some (pairs.map fun p =>
      S.expn (directExpn S.factory sk.getBase [g.tk] S.order) g.tk sk g.args (S.center g.tgt l p.1) (S.radius g.tgt p.1)
        (S.node g.tgt p.1) (S.node g.src p.2) * (if weighted then S.waa g.src p.2 else 1))
  | _, _, _ => none

/-- expressions after the preparation of `build_matrix` (`execution.py:1025`), with their layer potentials -/
inductive LE (α A : Type)
  | dep
  | otherDep (n : Nat)
  | var (s : String)
  | num (a : α)
  | coord (k : Nat) (f : Nat → α)
  | sum (cs : List (LE α A))
  | prod (cs : List (LE α A))
  | quot (a b : LE α A)
  | pow (a : LE α A) (k : Nat)
  | call (f : α → α) (a : LE α A)
  | interp (R : Arr α) (a : LE α A)
  | refD (R : Arr α) (a : LE α A)
  | pot (g : Pot A) (dens : List (LE α A))

mutual
/-- the expression with the matrices of its layer potentials; a layer potential the builder refuses is replaced by one
whose lists do not match, which also raises -/
def toME (S : Scene α P A) : LE α A → ME α
  | .dep => .dep
  | .otherDep n => .otherDep n
  | .var s => .var s
  | .num a => .num a
  | .coord k f => .coord k f
  | .sum cs => .sum (toMEL S cs)
  | .prod cs => .prod (toMEL S cs)
  | .quot a b => .quot (toME S a) (toME S b)
  | .pow a k => .pow (toME S a) k
  | .call f a => .call f (toME S a)
  | .interp R a => .interp R (toME S a)
  | .refD R a => .refD R (toME S a)
  | .pot g ds => match matPot S true g with
    | some Ms => .intG Ms (toMEL S ds)
    | none => .intG [] [.num 0]
/-- same for lists -/
def toMEL (S : Scene α P A) : List (LE α A) → List (ME α)
  | [] => []
  | c :: cs => toME S c :: toMEL S cs
end

/-- a block of `build_matrix(places, expr, input)` (`execution.py:1001-1075`): `n` DOFs of the input -/
def buildMatrix (S : Scene α P A) (n : Nat) (ctx : String → Option (BV α)) (e : LE α A) :
    Except Err (Option (Arr α)) :=
  buildBlock n ctx (toME S e)

/-! ## Direct evaluation -/

/-- what one target gets from all sources: the sum over source kernels and nodes (`sumpy`'s appliers sum over the source
kernels) of `f` times strength -/
def sumOver (S : Scene α P A) (src : DD) (sks : List Kn) (strs : List (Nat → α)) (f : Kn → P → α) : α :=
  ((sks.zip strs).map fun p => ∑ j ∈ range (S.ndofs src), f p.1 (S.node src j) * p.2 j).sum

/-- `get_flat_strengths_from_densities` (`qbx/__init__.py:1075-1096`) -/
def strengths (S : Scene α P A) (src : DD) (dens : List (Nat → α)) : List (Nat → α) :=
  dens.map fun d j => S.waa src j * d j

/-- is the target the source itself (`qbx/__init__.py:925-935`)? -/
def isSelf (S : Scene α P A) (src t : DD) : Bool :=
  match S.target t, S.discr { src with stage := t.stage } with
  | some a, some b => decide (a = b)
  | _, _ => false

/-- target kernel number `k` -/
def knl (tks : List Kn) (k : Nat) : Kn := tks.getD k (.base (.laplace 2))

/-- the ingredients of direct evaluation of a statement with target kernels `tks`, the expansion `x` on the source and
`y` elsewhere (`qbx/__init__.py:902-1056`) -/
def env (S : Scene α P A) (x y : Expn) (tks : List Kn) (g : Pot A) (dens : List (Nat → α)) : Direct.Env DD α where
  isSelf := isSelf S g.src
  ndofs := S.ndofs
  selfVal := fun t side k i => sumOver S g.src g.sks (strengths S g.src dens) fun sk s =>
    S.expn x (knl tks k) sk g.args (S.center t side i) (S.radius t i) (S.node t i) s
  p2p := fun t k i => sumOver S g.src g.sks (strengths S g.src dens) fun sk s =>
    S.plain (knl tks k) sk g.args (S.node t i) s
  ncenters := S.ncenters
  userTtc := S.assoc
  subsetVal := fun t c k i => sumOver S g.src g.sks (strengths S g.src dens) fun sk s =>
    S.expn y (knl tks k) sk g.args (S.qbxCenter c) (S.qbxRadius c) (S.node t i) s

/-- densities have to be arrays (`TypeError` otherwise, `qbx/__init__.py:1086-1091`) on the source nodes -/
def densities (n : Nat) : List (EV α) → Except Err (List (Nat → α))
  | [] => .ok []
  | .sc _ :: _ => .error .type
  | .ve m f :: us => if m = n then (densities n us).map (f :: ·) else .error .shape

/-- the output for the layer potential -/
def outOf (tks : List Kn) (g : Pot A) : Direct.Out DD := ⟨"result", g.tgt, g.limit, tks.idxOf g.tk⟩

/-- the array of the only result -/
def only : Direct.Results α → Option (List α)
  | [some (_, l)] => some l
  | _ => none

/-- after execution -/
def finish (n : Nat) : Except Direct.Err (Direct.Results α) → Except Err (EV α)
  | .error .assertion => .error .assertion
  | .error .noCenter => .error .runtime
  | .ok r => match only r with
    | some l => .ok (.ve n fun i => l.getD i 0)
    | none => .error .type

/-- a layer potential evaluated directly, in a statement with target kernels `tks`
(`exec_compute_potential_insn_direct`, `qbx/__init__.py:866-1068`).  `ValueError` of `single_valued`
(`:619-620`) is `Err.type` here. -/
def directPot (S : Scene α P A) (σ : Direct.Sched) (tks : List Kn) (g : Pot A) (us : List (EV α)) :
    Except Err (EV α) :=
  if us.length ≠ g.sks.length then .error .type
  else match densities (S.ndofs g.src) us with
    | .error e => .error e
    | .ok dens => match onSurface S.factory g.sks tks S.order, offSurface g.sks S.order with
      | .ok x, .ok y => finish (S.ndofs g.tgt) (Direct.exec σ (env S x y tks g dens) [outOf tks g])
      | _, _ => .error .type

mutual
/-- the value of an expression at the input `x`, layer potentials being evaluated by `pot` -/
def evWith (pot : Pot A → List (EV α) → Except Err (EV α)) (n : Nat) (x : Nat → α)
    (ctx : String → Option (BV α)) : LE α A → Except Err (EV α)
  | .dep => .ok (.ve n x)
  | .otherDep k => .ok (.ve k (fun _ => 0))
  | .var s => match ctx s with
    | none => .error .key
    | some v => ofBV v
  | .num a => .ok (.sc a)
  | .coord k f => .ok (.ve k f)
  | .sum cs => match evAll pot n x ctx cs with
    | .error e => .error e
    | .ok us => us.foldlM (opEV (· + ·)) (.sc 0)
  | .prod cs => match evAll pot n x ctx cs with
    | .error e => .error e
    | .ok us => us.foldlM (opEV (· * ·)) (.sc 1)
  | .quot a b => match evWith pot n x ctx a with
    | .error e => .error e
    | .ok u => match evWith pot n x ctx b with
      | .error e => .error e
      | .ok v => opEV (· / ·) u v
  | .pow a k => match evWith pot n x ctx a with
    | .error e => .error e
    | .ok u => .ok (mapEV (· ^ k) u)
  | .call f a => match evWith pot n x ctx a with
    | .error e => .error e
    | .ok u => .ok (mapEV f u)
  | .interp R a => match evWith pot n x ctx a with
    | .error e => .error e
    | .ok u => interpEV R u
  | .refD R a => match evWith pot n x ctx a with
    | .error e => .error e
    | .ok u => refDEV R u
  | .pot g ds => match evAll pot n x ctx ds with
    | .error e => .error e
    | .ok us => pot g us
/-- the values of several expressions -/
def evAll (pot : Pot A → List (EV α) → Except Err (EV α)) (n : Nat) (x : Nat → α)
    (ctx : String → Option (BV α)) : List (LE α A) → Except Err (List (EV α))
  | [] => .ok []
  | c :: cs => match evWith pot n x ctx c with
    | .error e => .error e
    | .ok u => match evAll pot n x ctx cs with
      | .error e => .error e
      | .ok us => .ok (u :: us)
end

/-! # Specification -/

/-- the layer potential maps from the source to itself: its target is the discretization of the source at the
target's stage, with a side -/
def OnSource (S : Scene α P A) (g : Pot A) : Prop :=
  (∃ a, S.discr g.src = some a) ∧
  (∃ b, S.discr g.tgt = some b ∧ S.target g.tgt = some b ∧ S.discr { g.src with stage := g.tgt.stage } = some b) ∧
  ∃ l, g.limit = some l ∧ l ≠ 0

/-- all source kernels have the same base kernel (else direct evaluation refuses); the statement in which the potential
is evaluated has its target kernel, and target derivatives only if the potential has some itself (C79) -/
def GoodBatch (tks : List Kn) (g : Pot A) : Prop :=
  (∃ b, SameBase b g.sks) ∧ g.tk ∈ tks ∧ ((∃ t ∈ tks, targetDerivs t ≠ 0) ↔ targetDerivs g.tk ≠ 0)

mutual
/-- a property of all layer potentials of an expression -/
def AllPots (Q : Pot A → Prop) : LE α A → Prop
  | .sum cs => AllPotsL Q cs
  | .prod cs => AllPotsL Q cs
  | .quot a b => AllPots Q a ∧ AllPots Q b
  | .pow a _ => AllPots Q a
  | .call _ a => AllPots Q a
  | .interp _ a => AllPots Q a
  | .refD _ a => AllPots Q a
  | .pot g ds => Q g ∧ AllPotsL Q ds
  | _ => True
/-- same for lists -/
def AllPotsL (Q : Pot A → Prop) : List (LE α A) → Prop
  | [] => True
  | c :: cs => AllPots Q c ∧ AllPotsL Q cs
end

/-- The QBX sum: at node `i` of the target, the expansions about the center of the node on side `l` of all source kernels
and all source nodes, times quadrature weight times density. -/
def qbxSum (S : Scene α P A) (g : Pot A) (l : Int) (dens : List (Nat → α)) (i : Nat) : α :=
  ((g.sks.zip dens).map fun p => ∑ j ∈ range (S.ndofs g.src),
    S.expn (directExpn S.factory p.1.getBase [g.tk] S.order) g.tk p.1 g.args (S.center g.tgt l i) (S.radius g.tgt i)
      (S.node g.tgt i) (S.node g.src j) * (S.waa g.src j * p.2 j)).sum

/-- equal as functions on the nodes -/
def Same : EV α → EV α → Prop
  | .sc a, .sc b => a = b
  | .ve n f, .ve m g => n = m ∧ ∀ i < n, f i = g i
  | _, _ => False

/-! # Direct evaluation on the source -/

theorem same_refl (u : EV α) : Same u u := by cases u <;> simp [Same]

theorem good_expn (S : Scene α P A) (tks : List Kn) (g : Pot A) (h : GoodBatch tks g) :
    ∃ x y, onSurface S.factory g.sks tks S.order = .ok x ∧ offSurface g.sks S.order = .ok y ∧
      ∀ sk ∈ g.sks, x = directExpn S.factory sk.getBase [g.tk] S.order := by
  obtain ⟨⟨b, hne, hb⟩, hmem, hd⟩ := h
  have hc : commonBase g.sks = .ok b := by
    cases hs : g.sks with
    | nil => exact absurd hs hne
    | cons k ks =>
      have hk : k.getBase = b := hb k (by rw [hs]; exact List.mem_cons_self)
      simp only [commonBase]
      rw [if_pos, hk]
      rw [List.all_eq_true]
      intro x hx
      have := hb x (by rw [hs]; exact List.mem_cons_of_mem _ hx)
      simp [this, hk]
  have hb1 : onSurface S.factory g.sks tks S.order = onSurface S.factory g.sks [g.tk] S.order := by
    apply C79_batch_partial
    rw [hd]
    simp
  refine ⟨directExpn S.factory b [g.tk] S.order, ⟨"VolumeTaylorLocalExpansion", b, S.order⟩, ?_, ?_, ?_⟩
  · rw [hb1, onSurface, hc]
  · rw [offSurface, hc]
  · intro sk hsk
    rw [hb sk hsk]

theorem exec_self (σ : Direct.Sched) (E : Direct.Env DD α) (o : Direct.Out DD) (l : Int)
    (hs : E.isSelf o.target = true) (hl : o.limit = some l) (h0 : l ≠ 0) :
    Direct.exec σ E [o] = .ok [some (o.name, (List.range (E.ndofs o.target)).map fun i =>
      E.selfVal o.target l o.kernel i)] := by
  have hp : Direct.partStep E ([], []) (0, o) = .ok ([((o.target, l), [(0, o)])], []) := by
    simp only [Direct.partStep]
    rw [if_pos hs, hl]
    simp only
    rw [if_neg h0]
    rfl
  simp only [Direct.exec, Direct.partition, List.zipIdx_cons, List.zipIdx_nil, List.map_cons, List.map_nil,
    List.foldlM_cons, List.foldlM_nil, bind, Except.bind, pure, Except.pure]
  rw [hp]
  simp [Direct.runSelf, Direct.runOther, Direct.writeGroup, Direct.selfArr, List.replicate, pure, Except.pure]

theorem knl_idxOf (tks : List Kn) (t : Kn) (h : t ∈ tks) : knl tks (tks.idxOf t) = t := by
  have hlt : tks.idxOf t < tks.length := List.idxOf_lt_length_of_mem h
  simp only [knl, List.getD_eq_getElem?_getD, List.getElem?_eq_getElem hlt, Option.getD_some]
  exact List.getElem_idxOf hlt

theorem isSelf_of (S : Scene α P A) (g : Pot A) (h : OnSource S g) : isSelf S g.src g.tgt = true := by
  obtain ⟨_, ⟨b, _, h2, h3⟩, _⟩ := h
  simp [isSelf, h2, h3]

theorem strengths_zip (S : Scene α P A) (src : DD) (f : Kn → P → α) : ∀ (sks : List Kn) (dens : List (Nat → α)),
    sumOver S src sks (strengths S src dens) f
      = ((sks.zip dens).map fun p => ∑ j ∈ range (S.ndofs src), f p.1 (S.node src j) * (S.waa src j * p.2 j)).sum
  | [], dens => by simp [sumOver]
  | _ :: _, [] => by simp [sumOver, strengths]
  | k :: ks, d :: ds => by
    have ih := strengths_zip S src f ks ds
    simp only [sumOver, strengths, List.map_cons, List.zip_cons_cons, List.sum_cons] at ih ⊢
    rw [ih]

/-- direct evaluation of a potential on its source is the QBX sum -/
theorem directPot_self (S : Scene α P A) (σ : Direct.Sched) (tks : List Kn) (g : Pot A) (l : Int)
    (hon : OnSource S g) (hl : g.limit = some l) (hb : GoodBatch tks g) (us : List (EV α)) (dens : List (Nat → α))
    (hlen : us.length = g.sks.length) (hd : densities (S.ndofs g.src) us = .ok dens) :
    ∃ f, directPot S σ tks g us = .ok (.ve (S.ndofs g.tgt) f) ∧ ∀ i < S.ndofs g.tgt, f i = qbxSum S g l dens i := by
  obtain ⟨x, y, hx, hy, hsame⟩ := good_expn S tks g hb
  have h0 : l ≠ 0 := by
    obtain ⟨_, _, l', hl', h0⟩ := hon
    rw [hl] at hl'
    cases hl'
    exact h0
  have hex := exec_self σ (env S x y tks g dens) (outOf tks g) l (isSelf_of S g hon) hl h0
  refine ⟨fun i => ((List.range (S.ndofs g.tgt)).map fun i =>
    (env S x y tks g dens).selfVal g.tgt l (tks.idxOf g.tk) i).getD i 0, ?_, ?_⟩
  · simp only [directPot]
    rw [if_neg (by simpa using hlen), hd, hx, hy]
    simp only
    rw [hex]
    rfl
  · intro i hi
    simp only [List.getD_eq_getElem?_getD, List.getElem?_map, List.getElem?_range hi, Option.map_some, Option.getD_some]
    simp only [env]
    rw [strengths_zip, knl_idxOf tks g.tk hb.2.1, qbxSum]
    congr 1
    apply List.map_congr_left
    intro p hp
    rw [hsame p.1 (List.of_mem_zip hp).1]

/-! # Matrices -/

/-- the function of an array -/
def dens1 : EV α → Nat → α
  | .sc a => fun _ => a
  | .ve _ f => f

theorem densities_ok (n : Nat) : ∀ (us : List (EV α)) (dens : List (Nat → α)), densities n us = .ok dens →
    dens = us.map dens1 ∧ ∀ u ∈ us, ∃ f, u = .ve n f
  | [], dens, h => by
    simp only [densities, Except.ok.injEq] at h
    subst h
    simp
  | .sc _ :: _, dens, h => by simp [densities] at h
  | .ve m f :: us, dens, h => by
    simp only [densities] at h
    by_cases hm : m = n
    · rw [if_pos hm] at h
      subst hm
      cases hds : densities m us with
      | error e => rw [hds] at h; simp [Except.map] at h
      | ok ds =>
        rw [hds] at h
        simp only [Except.map, Except.ok.injEq] at h
        obtain ⟨h1, h2⟩ := densities_ok m us ds hds
        refine ⟨by rw [← h, h1]; rfl, ?_⟩
        intro u hu
        rcases List.mem_cons.mp hu with rfl | hu
        · exact ⟨f, rfl⟩
        · exact h2 u hu
    · rw [if_neg hm] at h
      cases h

theorem evIntG_acc (n : Nat) (x : Nat → α) (ctx : String → Option (BV α)) (m k : Nat) :
    ∀ (Rs : List (Arr α)) (ds : List (ME α)) (us : List (EV α)) (f : Nat → α),
      List.Forall₂ (fun d u => ∃ u', ev n x ctx d = .ok u' ∧ Same u u') ds us →
      Rs.length = us.length → (∀ R ∈ Rs, R.rows = m ∧ R.cols = k) → (∀ u ∈ us, ∃ h, u = .ve k h) →
      ∃ w, evIntG n x ctx (.ve m f) Rs ds = .ok (.ve m w) ∧ ∀ i < m, w i = f i +
        ((Rs.zip (us.map dens1)).map fun p => ∑ j ∈ range k, p.1.get i j * p.2 j).sum
  | [], ds, us, f, h, hl, hR, hu => by
    have : us = [] := List.length_eq_zero_iff.mp (by simpa using hl.symm)
    subst this
    cases h
    exact ⟨f, by rw [evIntG], by simp⟩
  | R :: Rs, ds, us, f, h, hl, hR, hu => by
    cases h with
    | nil => simp at hl
    | @cons d u ds us hd hds =>
      obtain ⟨u', hu', hs⟩ := hd
      obtain ⟨hh, rfl⟩ := hu u List.mem_cons_self
      obtain ⟨hr, hc⟩ := hR R List.mem_cons_self
      cases u' with
      | sc a => exact absurd hs (by simp [Same])
      | ve k' h' =>
        obtain ⟨rfl, heq⟩ := hs
        obtain ⟨w, hw, hv⟩ := evIntG_acc n x ctx m k Rs ds us
          (fun i => f i + ∑ j ∈ range k, R.get i j * h' j) hds (by simpa using hl)
          (fun R' hR' => hR R' (List.mem_cons_of_mem _ hR')) (fun u hu' => hu u (List.mem_cons_of_mem _ hu'))
        refine ⟨w, ?_, ?_⟩
        · rw [evIntG, hu']
          simp only [applyEV]
          rw [if_pos hc]
          simp only [opEV, hr, if_true]
          exact hw
        · intro i hi
          rw [hv i hi]
          simp only [List.map_cons, List.zip_cons_cons, List.sum_cons, dens1]
          have : ∑ j ∈ range k, R.get i j * h' j = ∑ j ∈ range k, R.get i j * hh j :=
            Finset.sum_congr rfl fun j hj => by rw [heq j (Finset.mem_range.mp hj)]
          rw [this, add_assoc]

theorem evIntG_start (n : Nat) (x : Nat → α) (ctx : String → Option (BV α)) (m k : Nat)
    (Rs : List (Arr α)) (ds : List (ME α)) (us : List (EV α))
    (h : List.Forall₂ (fun d u => ∃ u', ev n x ctx d = .ok u' ∧ Same u u') ds us) (hne : Rs ≠ [])
    (hl : Rs.length = us.length) (hR : ∀ R ∈ Rs, R.rows = m ∧ R.cols = k) (hu : ∀ u ∈ us, ∃ h, u = .ve k h) :
    ∃ w, evIntG n x ctx (.sc 0) Rs ds = .ok (.ve m w) ∧ ∀ i < m, w i =
      ((Rs.zip (us.map dens1)).map fun p => ∑ j ∈ range k, p.1.get i j * p.2 j).sum := by
  cases Rs with
  | nil => exact absurd rfl hne
  | cons R Rs =>
    cases h with
    | nil => simp at hl
    | @cons d u ds us hd hds =>
      obtain ⟨u', hu', hs⟩ := hd
      obtain ⟨hh, rfl⟩ := hu u List.mem_cons_self
      obtain ⟨hr, hc⟩ := hR R List.mem_cons_self
      cases u' with
      | sc a => exact absurd hs (by simp [Same])
      | ve k' h' =>
        obtain ⟨rfl, heq⟩ := hs
        obtain ⟨w, hw, hv⟩ := evIntG_acc n x ctx m k Rs ds us
          (fun i => 0 + ∑ j ∈ range k, R.get i j * h' j) hds (by simpa using hl)
          (fun R' hR' => hR R' (List.mem_cons_of_mem _ hR')) (fun u hu' => hu u (List.mem_cons_of_mem _ hu'))
        refine ⟨w, ?_, ?_⟩
        · rw [evIntG, hu']
          simp only [applyEV]
          rw [if_pos hc]
          simp only [opEV, hr]
          exact hw
        · intro i hi
          rw [hv i hi]
          simp only [List.map_cons, List.zip_cons_cons, List.sum_cons, dens1, zero_add]
          have : ∑ j ∈ range k, R.get i j * h' j = ∑ j ∈ range k, R.get i j * hh j :=
            Finset.sum_congr rfl fun j hj => by rw [heq j (Finset.mem_range.mp hj)]
          rw [this]

/-- the matrices give the QBX sum -/
theorem mats_sum (S : Scene α P A) (g : Pot A) (l : Int) (i : Nat) : ∀ (sks : List Kn) (dens : List (Nat → α)),
    (((sks.map (lpMat S true g l)).zip dens).map fun p => ∑ j ∈ range (S.ndofs g.src), p.1.get i j * p.2 j).sum
      = ((sks.zip dens).map fun p => ∑ j ∈ range (S.ndofs g.src),
    S.expn (directExpn S.factory p.1.getBase [g.tk] S.order) g.tk p.1 g.args (S.center g.tgt l i) (S.radius g.tgt i)
      (S.node g.tgt i) (S.node g.src j) * (S.waa g.src j * p.2 j)).sum
  | [], dens => by simp
  | _ :: _, [] => by simp
  | k :: ks, d :: ds => by
    have ih := mats_sum S g l i ks ds
    simp only [List.map_cons, List.zip_cons_cons, List.sum_cons] at ih ⊢
    rw [ih]
    congr 1
    apply Finset.sum_congr rfl
    intro j _
    simp only [lpMat, if_true]
    ring

/-! # Expressions -/

theorem opEV_same (op : α → α → α) {u u' v v' w : EV α} (hu : Same u u') (hv : Same v v')
    (h : opEV op u v = .ok w) : ∃ w', opEV op u' v' = .ok w' ∧ Same w w' := by
  cases u with
  | sc a => cases u' with
    | ve _ _ => exact absurd hu (by simp [Same])
    | sc a' => cases v with
      | sc b => cases v' with
        | ve _ _ => exact absurd hv (by simp [Same])
        | sc b' =>
          simp only [Same] at hu hv
          subst hu; subst hv
          exact ⟨w, h, same_refl w⟩
      | ve n f => cases v' with
        | sc _ => exact absurd hv (by simp [Same])
        | ve m f' =>
          simp only [Same] at hu hv
          obtain ⟨rfl, hv⟩ := hv
          subst hu
          simp only [opEV, Except.ok.injEq] at h ⊢
          subst h
          exact ⟨_, rfl, rfl, fun i hi => by simp only [hv i hi]⟩
  | ve n f => cases u' with
    | sc _ => exact absurd hu (by simp [Same])
    | ve n' f' =>
      obtain ⟨rfl, hu⟩ := hu
      cases v with
      | sc b => cases v' with
        | ve _ _ => exact absurd hv (by simp [Same])
        | sc b' =>
          simp only [Same] at hv
          subst hv
          simp only [opEV, Except.ok.injEq] at h ⊢
          subst h
          exact ⟨_, rfl, rfl, fun i hi => by simp only [hu i hi]⟩
      | ve m g => cases v' with
        | sc _ => exact absurd hv (by simp [Same])
        | ve m' g' =>
          obtain ⟨rfl, hv⟩ := hv
          simp only [opEV] at h ⊢
          by_cases hnm : n = m
          · subst hnm
            simp only [if_true, Except.ok.injEq] at h ⊢
            subst h
            exact ⟨_, rfl, rfl, fun i hi => by simp only [hu i hi, hv i hi]⟩
          · rw [if_neg hnm] at h
            cases h

theorem mapEV_same (f : α → α) {u u' : EV α} (hu : Same u u') : Same (mapEV f u) (mapEV f u') := by
  cases u <;> cases u' <;> simp only [Same, mapEV] at hu ⊢
  · rw [hu]
  · exact ⟨hu.1, fun i hi => by rw [hu.2 i hi]⟩

theorem refDEV_same (R : Arr α) {u u' w : EV α} (hu : Same u u') (h : refDEV R u = .ok w) :
    ∃ w', refDEV R u' = .ok w' ∧ Same w w' := by
  cases u with
  | sc a => simp [refDEV] at h
  | ve n f => cases u' with
    | sc _ => exact absurd hu (by simp [Same])
    | ve n' f' =>
      obtain ⟨rfl, hu⟩ := hu
      simp only [refDEV, applyEV] at h ⊢
      by_cases hc : R.cols = n
      · rw [if_pos hc] at h ⊢
        simp only [Except.ok.injEq] at h
        subst h
        refine ⟨_, rfl, rfl, fun i hi => ?_⟩
        exact Finset.sum_congr rfl fun j hj => by rw [hu j (Finset.mem_range.mp hj)]
      · rw [if_neg hc] at h
        cases h

theorem interpEV_same (R : Arr α) {u u' w : EV α} (hu : Same u u') (h : interpEV R u = .ok w) :
    ∃ w', interpEV R u' = .ok w' ∧ Same w w' := by
  cases u with
  | sc a => cases u' with
    | ve _ _ => exact absurd hu (by simp [Same])
    | sc a' =>
      simp only [Same] at hu
      subst hu
      exact ⟨w, h, same_refl w⟩
  | ve n f => cases u' with
    | sc _ => exact absurd hu (by simp [Same])
    | ve n' f' =>
      obtain ⟨rfl, hu⟩ := hu
      simp only [interpEV, applyEV] at h ⊢
      by_cases hc : R.cols = n
      · rw [if_pos hc] at h ⊢
        simp only [Except.ok.injEq] at h
        subst h
        refine ⟨_, rfl, rfl, fun i hi => ?_⟩
        exact Finset.sum_congr rfl fun j hj => by rw [hu j (Finset.mem_range.mp hj)]
      · rw [if_neg hc] at h
        cases h

theorem fold_same (n : Nat) (x : Nat → α) (ctx : String → Option (BV α)) (op : α → α → α) :
    ∀ (ds : List (ME α)) (us : List (EV α)) (acc acc' v : EV α),
      List.Forall₂ (fun d u => ∃ u', ev n x ctx d = .ok u' ∧ Same u u') ds us → Same acc acc' →
      us.foldlM (opEV op) acc = .ok v → ∃ v', evFold n x ctx op acc' ds = .ok v' ∧ Same v v'
  | [], us, acc, acc', v, h, ha, hv => by
    cases h
    simp only [List.foldlM_nil, pure, Except.pure, Except.ok.injEq] at hv
    subst hv
    exact ⟨acc', by rw [evFold], ha⟩
  | d :: ds, us, acc, acc', v, h, ha, hv => by
    cases h with
    | @cons _ u _ us hd hds =>
      obtain ⟨u', hu', hs⟩ := hd
      simp only [List.foldlM_cons, bind, Except.bind] at hv
      cases hop : opEV op acc u with
      | error e => rw [hop] at hv; cases hv
      | ok w =>
        rw [hop] at hv
        obtain ⟨w', hw', hsw⟩ := opEV_same op ha hs hop
        obtain ⟨v', hv', hsv⟩ := fold_same n x ctx op ds us w w' v hds hsw hv
        refine ⟨v', ?_, hsv⟩
        rw [evFold, hu']
        simp only [hw']
        exact hv'

section

variable (S : Scene α P A) (σ : Direct.Sched) (tks : Pot A → List Kn) (n : Nat) (x : Nat → α)
  (ctx : String → Option (BV α))

mutual
theorem ev_same : ∀ (e : LE α A), AllPots (fun g => OnSource S g ∧ GoodBatch (tks g) g) e → ∀ v,
    evWith (fun g => directPot S σ (tks g) g) n x ctx e = .ok v →
    ∃ v', ev n x ctx (toME S e) = .ok v' ∧ Same v v'
  | .dep, _, v, h => ⟨v, by simpa only [evWith, toME, ev] using h, same_refl v⟩
  | .otherDep k, _, v, h => ⟨v, by simpa only [evWith, toME, ev] using h, same_refl v⟩
  | .var s, _, v, h => by
    refine ⟨v, ?_, same_refl v⟩
    simp only [evWith] at h
    simp only [toME, ev]
    cases hs : ctx s with
    | none => rw [hs] at h; cases h
    | some w => rw [hs] at h; exact h
  | .num a, _, v, h => ⟨v, by simpa only [evWith, toME, ev] using h, same_refl v⟩
  | .coord k f, _, v, h => ⟨v, by simpa only [evWith, toME, ev] using h, same_refl v⟩
  | .sum cs, hp, v, h => by
    simp only [AllPots] at hp
    simp only [evWith] at h
    cases hc : evAll (fun g => directPot S σ (tks g) g) n x ctx cs with
    | error e => rw [hc] at h; cases h
    | ok us =>
      rw [hc] at h
      have := evAll_same cs hp us hc
      simp only [toME, ev]
      exact fold_same n x ctx _ _ us _ _ v this (same_refl _) h
  | .prod cs, hp, v, h => by
    simp only [AllPots] at hp
    simp only [evWith] at h
    cases hc : evAll (fun g => directPot S σ (tks g) g) n x ctx cs with
    | error e => rw [hc] at h; cases h
    | ok us =>
      rw [hc] at h
      have := evAll_same cs hp us hc
      simp only [toME, ev]
      exact fold_same n x ctx _ _ us _ _ v this (same_refl _) h
  | .quot a b, hp, v, h => by
    simp only [AllPots] at hp
    simp only [evWith] at h
    cases ha : evWith (fun g => directPot S σ (tks g) g) n x ctx a with
    | error e => rw [ha] at h; cases h
    | ok u =>
      rw [ha] at h
      simp only at h
      cases hb : evWith (fun g => directPot S σ (tks g) g) n x ctx b with
      | error e => rw [hb] at h; cases h
      | ok w =>
        rw [hb] at h
        obtain ⟨u', hu', hs⟩ := ev_same a hp.1 u ha
        obtain ⟨w', hw', hsw⟩ := ev_same b hp.2 w hb
        obtain ⟨v', hv', hsv⟩ := opEV_same _ hs hsw h
        refine ⟨v', ?_, hsv⟩
        simp only [toME, ev, hu', hw']
        exact hv'
  | .pow a k, hp, v, h => by
    simp only [AllPots] at hp
    simp only [evWith] at h
    cases ha : evWith (fun g => directPot S σ (tks g) g) n x ctx a with
    | error e => rw [ha] at h; cases h
    | ok u =>
      rw [ha] at h
      obtain ⟨u', hu', hs⟩ := ev_same a hp u ha
      simp only [Except.ok.injEq] at h
      subst h
      exact ⟨_, by simp only [toME, ev, hu'], mapEV_same _ hs⟩
  | .call f a, hp, v, h => by
    simp only [AllPots] at hp
    simp only [evWith] at h
    cases ha : evWith (fun g => directPot S σ (tks g) g) n x ctx a with
    | error e => rw [ha] at h; cases h
    | ok u =>
      rw [ha] at h
      obtain ⟨u', hu', hs⟩ := ev_same a hp u ha
      simp only [Except.ok.injEq] at h
      subst h
      exact ⟨_, by simp only [toME, ev, hu'], mapEV_same _ hs⟩
  | .interp R a, hp, v, h => by
    simp only [AllPots] at hp
    simp only [evWith] at h
    cases ha : evWith (fun g => directPot S σ (tks g) g) n x ctx a with
    | error e => rw [ha] at h; cases h
    | ok u =>
      rw [ha] at h
      obtain ⟨u', hu', hs⟩ := ev_same a hp u ha
      obtain ⟨v', hv', hsv⟩ := interpEV_same R hs h
      exact ⟨v', by simp only [toME, ev, hu']; exact hv', hsv⟩
  | .refD R a, hp, v, h => by
    simp only [AllPots] at hp
    simp only [evWith] at h
    cases ha : evWith (fun g => directPot S σ (tks g) g) n x ctx a with
    | error e => rw [ha] at h; cases h
    | ok u =>
      rw [ha] at h
      obtain ⟨u', hu', hs⟩ := ev_same a hp u ha
      obtain ⟨v', hv', hsv⟩ := refDEV_same R hs h
      exact ⟨v', by simp only [toME, ev, hu']; exact hv', hsv⟩
  | .pot g ds, hp, v, h => by
    simp only [AllPots] at hp
    obtain ⟨⟨hon, hb⟩, hds⟩ := hp
    simp only [evWith] at h
    cases hc : evAll (fun g => directPot S σ (tks g) g) n x ctx ds with
    | error e => rw [hc] at h; cases h
    | ok us =>
      rw [hc] at h
      simp only at h
      have hall := evAll_same ds hds us hc
      obtain ⟨⟨a, ha⟩, ⟨b, hb1, hb2, hb3⟩, l, hl, h0⟩ := hon
      have hm : matPot S true g = some (g.sks.map (lpMat S true g l)) := by
        simp only [matPot, ha, hb1, hl]
        rw [if_neg h0]
      have hlen : us.length = g.sks.length := by
        by_contra hne
        simp only [directPot] at h
        rw [if_pos hne] at h
        cases h
      cases hd : densities (S.ndofs g.src) us with
      | error e =>
        simp only [directPot] at h
        rw [if_neg (by simpa using hlen), hd] at h
        cases h
      | ok dens =>
        obtain ⟨hd1, hd2⟩ := densities_ok _ us dens hd
        obtain ⟨f, hf, hfv⟩ := directPot_self S σ (tks g) g l
          ⟨⟨a, ha⟩, ⟨b, hb1, hb2, hb3⟩, l, hl, h0⟩ hl hb us dens hlen hd
        rw [hf] at h
        cases h
        obtain ⟨w, hw, hwv⟩ := evIntG_start n x ctx (S.ndofs g.tgt) (S.ndofs g.src) (g.sks.map (lpMat S true g l))
          (toMEL S ds) us hall (by obtain ⟨_, hne, _⟩ := hb.1; simpa using hne) (by simpa using hlen.symm)
          (by intro R hR; obtain ⟨k, _, rfl⟩ := List.mem_map.mp hR; exact ⟨rfl, rfl⟩) hd2
        refine ⟨.ve (S.ndofs g.tgt) w, by simp only [toME, hm, ev]; exact hw, rfl, fun i hi => ?_⟩
        rw [hfv i hi, hwv i hi, ← hd1, qbxSum, mats_sum]
theorem evAll_same : ∀ (cs : List (LE α A)), AllPotsL (fun g => OnSource S g ∧ GoodBatch (tks g) g) cs → ∀ us,
    evAll (fun g => directPot S σ (tks g) g) n x ctx cs = .ok us →
    List.Forall₂ (fun d u => ∃ u', ev n x ctx d = .ok u' ∧ Same u u') (toMEL S cs) us
  | [], _, us, h => by
    simp only [evAll, Except.ok.injEq] at h
    subst h
    simp only [toMEL]
    exact .nil
  | c :: cs, hp, us, h => by
    simp only [AllPotsL] at hp
    simp only [evAll] at h
    cases hc : evWith (fun g => directPot S σ (tks g) g) n x ctx c with
    | error e => rw [hc] at h; cases h
    | ok u =>
      rw [hc] at h
      simp only at h
      cases hcs : evAll (fun g => directPot S σ (tks g) g) n x ctx cs with
      | error e => rw [hcs] at h; cases h
      | ok us' =>
        rw [hcs] at h
        simp only [Except.ok.injEq] at h
        subst h
        simp only [toMEL]
        exact .cons (ev_same c hp.1 u hc) (evAll_same cs hp.2 us' hcs)
end

end

/-! # C88 -/

/-- what stays true if a value is replaced by the same function on the nodes -/
theorem isZ_same {u v : EV α} (h : Same u v) (hz : IsZ v) : IsZ u := by
  cases u with
  | sc a => cases v with
    | sc b => simp only [Same] at h; subst h; exact hz
    | ve _ _ => exact absurd h (by simp [Same])
  | ve n f => cases v with
    | sc _ => exact absurd h (by simp [Same])
    | ve m g =>
      obtain ⟨rfl, h⟩ := h
      simp only [IsZ] at hz ⊢
      intro i hi
      rw [h i hi]
      exact hz i hi

/-- **C88, matrices and evaluation**: if all layer potentials of an expression map from their source to itself, a matrix
built by `build_matrix` is the matrix of direct evaluation: applied to any input it gives the value of the expression at
this input (zero for the zero block), where the layer potentials run through direct QBX evaluation in statements with
any further target kernels.  Partial: for other targets there is no such matrix, or a wrong one (`C88_other_refuted`,
`C88_limit_refuted`); target derivatives elsewhere in the statement change the evaluation (C79); the fragment of
C24 (`Frag`). -/
theorem C88_matrix_partial (S : Scene α P A) (σ : Direct.Sched) (tks : Pot A → List Kn) (n : Nat)
    (ctx : String → Option (BV α)) (hctx : PlainCtx ctx) (e : LE α A)
    (hp : AllPots (fun g => OnSource S g ∧ GoodBatch (tks g) g) e) (hf : Frag (toME S e))
    (b : Option (Arr α)) (hb : buildMatrix S n ctx e = .ok b) (x : Nat → α) (v : EV α)
    (hv : evWith (fun g => directPot S σ (tks g) g) n x ctx e = .ok v) :
    match b with
    | none => IsZ v
    | some M => M.cols = n ∧ ∃ g, v = .ve M.rows g ∧ ∀ i < M.rows, g i = ∑ j ∈ range n, M.get i j * x j := by
  obtain ⟨v', hv', hs⟩ := ev_same S σ tks n x ctx e hp v hv
  have h := C24_matrix_partial n ctx hctx (toME S e) hf b hb x v' hv'
  cases b with
  | none => exact isZ_same hs h
  | some M =>
    obtain ⟨hc, g, rfl, hg⟩ := h
    cases v with
    | sc a => exact absurd hs (by simp [Same])
    | ve m f =>
      obtain ⟨rfl, hfg⟩ := hs
      exact ⟨hc, f, rfl, fun i hi => by rw [hfg i hi, hg i hi]⟩

/-- **C88, the value of a layer potential**: direct evaluation on the source succeeds for all densities on the source
nodes and gives the QBX sum. -/
theorem C88_direct_value (S : Scene α P A) (σ : Direct.Sched) (tks : List Kn) (g : Pot A) (l : Int)
    (hon : OnSource S g) (hl : g.limit = some l) (hb : GoodBatch tks g) (dens : List (Nat → α))
    (hlen : dens.length = g.sks.length) :
    ∃ f, directPot S σ tks g (dens.map (EV.ve (S.ndofs g.src))) = .ok (.ve (S.ndofs g.tgt) f) ∧
      ∀ i < S.ndofs g.tgt, f i = qbxSum S g l dens i := by
  apply directPot_self S σ tks g l hon hl hb _ dens (by simpa using hlen)
  have : ∀ ds : List (Nat → α), densities (S.ndofs g.src) (ds.map (EV.ve (S.ndofs g.src))) = .ok ds := by
    intro ds
    induction ds with
    | nil => rfl
    | cons d ds ih =>
      simp only [List.map_cons, densities, if_true]
      rw [ih]
      rfl
  exact this dens

/-- **C88, entries**: the matrix of a layer potential of the input with one source kernel has one row per target node and
one column per source node, with the value of the expansion about the target's center times quadrature weight. -/
theorem C88_entries (S : Scene α P A) (ctx : String → Option (BV α)) (g : Pot A) (sk : Kn) (l : Int)
    (hk : g.sks = [sk]) (hl : g.limit = some l) (hon : OnSource S g) :
    ∃ M, buildMatrix S (S.ndofs g.src) ctx (.pot g [.dep]) = .ok (some M) ∧ M.rows = S.ndofs g.tgt ∧
      M.cols = S.ndofs g.src ∧ ∀ i < M.rows, ∀ j < M.cols, M.get i j =
        S.expn (directExpn S.factory sk.getBase [g.tk] S.order) g.tk sk g.args (S.center g.tgt l i) (S.radius g.tgt i)
          (S.node g.tgt i) (S.node g.src j) * S.waa g.src j := by
  obtain ⟨⟨a, ha⟩, ⟨b, hb1, hb2, hb3⟩, l', hl', h0⟩ := hon
  rw [hl] at hl'
  cases hl'
  have hm : matPot S true g = some [lpMat S true g l sk] := by
    simp only [matPot, ha, hb1, hl]
    rw [if_neg h0, hk]
    rfl
  refine ⟨⟨S.ndofs g.tgt, S.ndofs g.src, fun i j => 0 + ∑ k ∈ range (S.ndofs g.src),
    (lpMat S true g l sk).get i k * (if k = j then 1 else 0)⟩, ?_, rfl, rfl, ?_⟩
  · simp only [buildMatrix, buildBlock, toME, hm, toMEL, build, buildIntG, isZero, Bool.false_eq_true, if_false, matMul]
    simp only [lpMat, if_true, addBV]
  · intro i hi j hj
    simp only [zero_add]
    rw [Finset.sum_eq_single j]
    · simp [lpMat]
    · intro k _ hkj
      simp [hkj]
    · intro hnot
      exact absurd (Finset.mem_range.mpr hj) hnot

/-- **C88, refusals**: `build_matrix` of a layer potential raises if source or target are not discretizations or
the potential has no side. -/
theorem C88_refuses (S : Scene α P A) (n : Nat) (ctx : String → Option (BV α)) (g : Pot A) (ds : List (LE α A)) :
    (S.discr g.src = none ∨ S.discr g.tgt = none ∨ g.limit = none ∨ g.limit = some 0) →
    ∃ err, buildMatrix S n ctx (.pot g ds) = .error err := by
  intro h
  have hm : matPot S true g = none := by
    simp only [matPot]
    rcases h with h | h | h | h
    · rw [h]
    · rw [h]; cases S.discr g.src <;> rfl
    · rw [h]; cases S.discr g.src <;> cases S.discr g.tgt <;> rfl
    · rw [h]; cases S.discr g.src <;> cases S.discr g.tgt <;> rfl
  exact ⟨.type, by simp only [buildMatrix, buildBlock, toME, hm, build, buildIntG]⟩

/-- **C88, batches**: the results of a statement with several outputs are those of its outputs alone. -/
theorem C88_batch {T V : Type} [DecidableEq T] (σ : Direct.Sched) (hσ : ∀ {β : Type} (l : List β), (σ l).Perm l)
    (E : Direct.Env T V) (outs : List (Direct.Out T)) (hlen : Direct.Sized E outs) (r : Direct.Results V)
    (hr : Direct.exec σ E outs = .ok r) (i : Nat) (o : Direct.Out T) (ho : outs[(i : Nat)]? = some o) :
    ∃ l, Direct.exec σ E [o] = .ok [some (o.name, l)] ∧ r[(i : Nat)]? = some (some (o.name, l)) := by
  obtain ⟨h1, h2, h3⟩ := Direct.C40_direct_values σ hσ E outs hlen r hr
  have hmem : o ∈ outs := List.mem_of_getElem? ho
  have hl1 : Direct.Sized E [o] := by
    intro o' ho'
    rw [List.mem_singleton] at ho'
    subst ho'
    exact hlen _ hmem
  cases hx : Direct.exec σ E [o] with
  | error e =>
    rcases Direct.C40_direct_errors σ E [o] hl1 e hx with ⟨_, o', ho', hb⟩ | ⟨_, _, o', ho', hb⟩
    · rw [List.mem_singleton] at ho'
      subst ho'
      exact absurd hb (h2 _ hmem)
    · rw [List.mem_singleton] at ho'
      subst ho'
      exact absurd hb (h3 _ hmem)
  | ok r1 =>
    obtain ⟨g1, _, _⟩ := Direct.C40_direct_values σ hσ E [o] hl1 r1 hx
    refine ⟨_, by rw [g1]; rfl, ?_⟩
    rw [h1, List.getElem?_map, ho]
    rfl

/-- **C88, cluster builders**: what the QBX cluster builder returns are the entries of the full matrix at the requested
pairs, and it refuses weighted entries between different discretizations. -/
theorem C88_cluster (S : Scene α P A) (weighted : Bool) (g : Pot A) (pairs : List (Nat × Nat)) (sk : Kn) (vs : List α)
    (h : clusterVals S weighted g pairs sk = some vs) :
    (∃ l, g.limit = some l ∧ l ≠ 0 ∧ vs = pairs.map fun p => (lpMat S weighted g l sk).get p.1 p.2) ∧
    (weighted = true → S.target g.tgt = S.discr g.src) := by
  simp only [clusterVals] at h
  cases ha : S.discr g.src with
  | none => rw [ha] at h; cases h
  | some a => cases hb : S.target g.tgt with
    | none => rw [ha, hb] at h; cases h
    | some b => cases hl : g.limit with
      | none => rw [ha, hb, hl] at h; cases h
      | some l =>
        rw [ha, hb, hl] at h
        simp only at h
        by_cases hw : weighted = true ∧ a ≠ b
        · rw [if_pos hw] at h; cases h
        · rw [if_neg hw] at h
          by_cases h0 : l = 0
          · rw [if_pos h0] at h; cases h
          · rw [if_neg h0] at h
            cases h
            refine ⟨⟨l, rfl, h0, rfl⟩, fun hwt => ?_⟩
            by_contra hne
            exact hw ⟨hwt, fun hab => hne (by rw [hab])⟩

/-- plain quadrature of a layer potential (`unregularized.py:155-200`, C63) -/
def plainSum (S : Scene α P A) (g : Pot A) (dens : List (Nat → α)) (i : Nat) : α :=
  ((g.sks.zip dens).map fun p => ∑ j ∈ range (S.ndofs g.src),
    S.plain g.tk p.1 g.args (S.node g.tgt i) (S.node g.src j) * (S.waa g.src j * p.2 j)).sum

/-- **C88, point-to-point matrices**: for kernels without derivatives the weighted matrices of `P2PMatrixBuilder` with all
interactions, applied to densities, give plain quadrature.  Partial: derivatives in the kernels are dropped
(`C88_p2p_refuted`). -/
theorem C88_p2p_partial (S : Scene α P A) (g : Pot A) (ht : g.tk = .base g.tk.getBase)
    (hs : ∀ k ∈ g.sks, k = .base k.getBase) (dens : List (Nat → α)) (i : Nat) :
    (((g.sks.map (p2pMat S true false g)).zip dens).map fun p =>
      ∑ j ∈ range p.1.cols, p.1.get i j * p.2 j).sum = plainSum S g dens i := by
  have key : ∀ (sks : List Kn) (dens : List (Nat → α)), (∀ k ∈ sks, k = .base k.getBase) →
      (((sks.map (p2pMat S true false g)).zip dens).map fun p => ∑ j ∈ range p.1.cols, p.1.get i j * p.2 j).sum
      = ((sks.zip dens).map fun p => ∑ j ∈ range (S.ndofs g.src),
          S.plain g.tk p.1 g.args (S.node g.tgt i) (S.node g.src j) * (S.waa g.src j * p.2 j)).sum := by
    intro sks
    induction sks with
    | nil => intro dens _; simp
    | cons k ks ih =>
      intro dens hs
      cases dens with
      | nil => simp
      | cons d ds =>
        simp only [List.map_cons, List.zip_cons_cons, List.sum_cons]
        rw [ih ds (fun k' hk' => hs k' (List.mem_cons_of_mem _ hk'))]
        congr 1
        apply Finset.sum_congr rfl
        intro j _
        have hk := hs k List.mem_cons_self
        simp only [p2pMat, Bool.false_eq_true, false_and, if_false, if_true]
        rw [← ht, ← hk]
        ring
  exact key g.sks dens hs

/-! # Examples -/

/-- two surfaces in one dimension with one node each, at 0 and at 1; radius 1/4, normal 1; the kernel is `1/(s - t)`,
expansions are of order 1 (derivatives of the kernel: factor 2) -/
def exScene : Scene ℚ ℚ Unit where
  discr := fun d => if d.geometry = .ident "a" then some 0 else if d.geometry = .ident "b" then some 1 else none
  target := fun d => if d.geometry = .ident "a" then some 0 else if d.geometry = .ident "b" then some 1 else some 2
  ndofs := fun _ => 1
  node := fun d _ => if d.geometry = .ident "a" then 0 else 1
  waa := fun _ _ => 1/2
  center := fun d l _ => (if d.geometry = .ident "a" then 0 else 1) + l * (1/4)
  radius := fun _ _ => 1/4
  factory := exFactory
  order := 1
  expn := fun _ _ _ _ c _ t s => 1/(s - c) + (t - c)/(s - c)^2
  plain := fun _ sk _ t s => if sourceDerivs sk = 0 then 1/(s - t) else 2/(s - t)
  ncenters := 2
  qbxCenter := fun _ => 0
  qbxRadius := fun _ => 1/4
  assoc := fun _ _ => [-1, -1, -1]

/-- descriptor of a whole surface -/
def exDD (s : String) : DD := ⟨.ident s, none, .node⟩

/-- a single layer potential from `a` -/
def exPot (t : String) (l : Option Int) : Pot Unit := ⟨[.base (.laplace 2)], .base (.laplace 2), exDD "a", exDD t, l, ()⟩

/-- the hypotheses of `C88_matrix_partial` hold for `u/2 + S u` -/
example : AllPots (fun g => OnSource exScene g ∧ GoodBatch [g.tk] g)
      (.sum [.prod [.num (1/2), .dep], .pot (exPot "a" (some 1)) [.dep]] : LE ℚ Unit) ∧
    Frag (toME exScene (.sum [.prod [.num (1/2), .dep], .pot (exPot "a" (some 1)) [.dep]])) ∧
    (match buildMatrix exScene 1 (fun _ => none)
        (.sum [.prod [.num (1/2), .dep], .pot (exPot "a" (some 1)) [.dep]]) with
      | .ok (some M) => M.get 0 0
      | _ => 0) = 1/2 + (-4 - 4) / 2 := by
  refine ⟨?_, ?_, by decide +kernel⟩
  · simp only [AllPots, AllPotsL]
    refine ⟨⟨trivial, trivial, trivial⟩, ⟨⟨⟨⟨0, rfl⟩, ⟨0, rfl, rfl, rfl⟩, 1, rfl, by decide⟩,
      ⟨⟨.laplace 2, by simp [exPot], by simp [exPot, Kn.getBase]⟩, by simp, by simp⟩⟩, trivial, trivial⟩, trivial⟩
  · show Frag (ME.sum [.prod [.num (1/2), .dep], .intG _ [.dep]])
    simp only [Frag, FragL, and_self]

/-- **C88 is false for other targets**: for a potential from `a` to another surface `b` with limit +2 a matrix is built,
but from expansions about points at twice the expansion radius from `b`, and it is not the matrix of the evaluation
(plain quadrature, since no center of `a` is close). -/
theorem C88_other_refuted : ∃ (M : Arr ℚ) (f : Nat → ℚ),
    buildMatrix exScene 1 (fun _ => none) (.pot (exPot "b" (some 2)) [.dep]) = .ok (some M) ∧
    evWith (fun g => directPot exScene (fun l => l) [g.tk] g) 1 (fun _ => 1) (fun _ => none)
      (.pot (exPot "b" (some 2)) [.dep]) = .ok (.ve 1 f) ∧
    f 0 ≠ ∑ j ∈ range 1, M.get 0 j * 1 := by
  refine ⟨_, _, rfl, rfl, ?_⟩
  decide +kernel

/-- **C88 is false without a limit**: the default for other targets cannot be built at all, although it can be evaluated. -/
theorem C88_limit_refuted :
    (∃ err, buildMatrix exScene 1 (fun _ => none) (.pot (exPot "b" none) [.dep]) = .error err) ∧
    ∃ f, evWith (fun g => directPot exScene (fun l => l) [g.tk] g) 1 (fun _ => 1) (fun _ => none)
      (.pot (exPot "b" none) [.dep]) = .ok (.ve 1 f) :=
  ⟨C88_refuses _ _ _ _ _ (.inr (.inr (.inl rfl))), ⟨_, rfl⟩⟩

/-- a double layer potential -/
def exDouble : Pot Unit :=
  ⟨[.dirSource "n" (.base (.laplace 2))], .base (.laplace 2), exDD "a", exDD "b", none, ()⟩

/-- **C88 is false for point-to-point matrices of derivatives**: the matrix of the double layer potential is that of the
single layer potential and does not give its plain quadrature. -/
theorem C88_p2p_refuted :
    p2pMat exScene true false exDouble (.dirSource "n" (.base (.laplace 2)))
      = p2pMat exScene true false (exPot "b" none) (.base (.laplace 2)) ∧
    ((exDouble.sks.map (p2pMat exScene true false exDouble)).map fun R => ∑ j ∈ range R.cols, R.get 0 j * 1).sum
      ≠ plainSum exScene exDouble [fun _ => 1] 0 := by
  refine ⟨rfl, ?_⟩
  decide +kernel

example : plainSum exScene (exPot "b" none) [fun _ => 1] 0 = -1/2 := by decide +kernel

end Verif.LayerMat
