import Verif.Bind.Layer
import Verif.QBX.Paths

/-!
# From `bind` to the QBX sums, with the FMM (C94)

`bind(places, IntG(...))(**inputs)` on a QBX source with `fmm_order` set: the preparation, compilation and execution of C76,
where layer potentials are evaluated by the models of target association (C30, C31), of the FMM driver (C38) and of
`exec_compute_potential_insn_fmm` (`pytential/qbx/__init__.py:694-793`, C36, C77).

Simplifications: those of C76, C77 and `Verif.Bind.Layer` (statements are executed output by output; translation operators
are exact, with the sumpy back end).
-/

set_option linter.unusedSectionVars false

namespace Verif.BindLayer

open Verif.Sym Verif.DofDesc Verif.Bind
open Verif.QBXSetup (Kn Base SameBase Expn Wrangler setup qbxClass)
open Verif.MatBuild (EV Arr interpEV)
open Verif.LayerMat (Scene Pot directPot densities strengths sumOver qbxSum plainSum dens1 OnSource GoodBatch)
open Verif.Paths (Problem FmmRun runFmm discrs Driven)

variable {α P F : Type} [Field α] [DecidableEq α] [Field F] [LinearOrder F] [IsStrictOrderedRing F]

/-! ## Model -/

/-- What the FMM path has besides the scene: tunnels, enlarged radii and distances for target association
(`target_assoc.py:776-872`), the geometry data inspector (`qbx/__init__.py:762-765`), the association of a target
discretization with a side request, which does not depend on densities (`qbx/geometry.py:720-829`; `none`: it raises), and
the potentials the driver returns for a statement (`qbx/fmm.py:470-580`). -/
structure Accel (α F P : Type) where
  src : TargetAssoc.Source F
  srcDist : P → Nat → F
  ctrDist : P → Nat → F
  inspect : Option Bool
  assoc : DD → DD → Int → Option (List Int)
  drv : Pot (Args α) → Expn → List (Nat → α) → List α

/-- The evaluation problem of C77 for a layer potential: nodes of the targets, centers, sources with strengths for all source
kernels (`qbx/__init__.py:1075-1096`), point evaluation and evaluation through the QBX expansion `x` (`qbx/fmm.py:92-121`).
Points are numbered. -/
def problem (Sc : Scene α P (Args α)) (A : Accel α F P) (x : Expn) (g : Pot (Args α)) (dens : List (Nat → α)) :
    Problem DD (P × Nat) F (List α) α where
  discr t := (List.range (Sc.ndofs t)).map fun i => (Sc.node t i, i)
  centers := (List.range Sc.ncenters).map fun c => (Sc.qbxCenter c, c)
  nsrc := Sc.ndofs g.src
  src := A.src
  srcDist p := A.srcDist p.1
  ctrDist p := A.ctrDist p.1
  w j := (strengths Sc g.src dens).map fun d => d j
  K _ j p w := ((g.sks.zip w).map fun q => Sc.plain g.tk q.1 g.args p.1 (Sc.node g.src j) * q.2).sum
  Q _ j c p w := ((g.sks.zip w).map fun q =>
    Sc.expn x g.tk q.1 g.args (Sc.qbxCenter c) (Sc.qbxRadius c) p.1 (Sc.node g.src j) * q.2).sum

/-- the output of the statement -/
def fmmOut (g : Pot (Args α)) : Geometry.Out DD := ⟨"result", g.tgt, g.limit, 0⟩

/-- the QBX expansion of a wrangler (`qbx/fmm.py:83-90`) -/
def qbxExpn (order : Nat) {Z : Type} : Except QBXSetup.SErr (Wrangler Z) → Option Expn
  | .ok (.sumpy (.sumpy _ _ q b _ _)) => some ⟨q, b, order⟩
  | _ => none

/-- the array of the only result -/
def finishFmm (n : Nat) : Option (Geometry.Exec α) → Option (EV α)
  | some (.done [(_, l)]) => some (.ve n fun i => l.getD i 0)
  | _ => none

/-- association and the FMM, for checked densities (`qbx/__init__.py:732-791`) -/
def fmmRun (Sc : Scene α P (Args α)) (A : Accel α F P) (g : Pot (Args α)) (dens : List (Nat → α)) (x : Expn) :
    Option (EV α) :=
  match A.assoc g.src g.tgt (g.limit.getD 0) with
  | none => none
  | some a => finishFmm (Sc.ndofs g.tgt)
      (runFmm (problem Sc A x g dens) a A.inspect (fun _ => A.drv g x dens) [fmmOut g])

/-- `exec_compute_potential_insn_fmm` for one layer potential (`qbx/__init__.py:694-793`): strengths (`:709-711`), wrangler
(`:732-743`), association and potentials -/
def fmmEval (Sc : Scene α P (Args α)) (A : Accel α F P) (g : Pot (Args α)) (us : List (EV α)) : Option (EV α) :=
  match densities (Sc.ndofs g.src) us with
  | .error _ => none
  | .ok dens =>
    (qbxExpn Sc.order (setup (0 : α) Sc.factory "sumpy" none g.sks [g.tk] [] [])).bind (fmmRun Sc A g dens)

/-- `exec_compute_potential_insn` of a QBX source with acceleration (`qbx/__init__.py:534-554`) -/
def fmmPot (Sc : Scene α P (Args α)) (A : Accel α F P) (C : Coding) (src : String) (pairs kargs : List (String × EV α))
    (tk tgt : String) (lim : Compiler.Lim) : Option (EV α) :=
  fmmEval Sc A (potOf C src pairs kargs tk tgt lim) (pairs.map Prod.snd)

/-- an evaluator whose layer potentials are evaluated by the FMM -/
def withFmm (I : Compiler.Interp (EV α)) (Sc : Scene α P (Args α)) (A : Accel α F P) (C : Coding) :
    Compiler.Interp (EV α) :=
  { I with pot := fmmPot Sc A C }

/-! ## Specification -/

/-- The association and the driver do what C31 and C38 say, for every statement: enlarged radii are positive, association is
that of `associate` on some tree if that succeeds, and the driver ran with exact translation operators on some tree and traversal, in some
order of the stores. -/
structure Runs (Sc : Scene α P (Args α)) (A : Accel α F P) : Prop where
  pos : ∀ c < Sc.ncenters, 0 < A.src.radTol c
  inspect : A.inspect ≠ some false
  run : ∀ (g : Pot (Args α)) (x : Expn) (dens : List (Nat → α)) (a : List Int),
    A.assoc g.src g.tgt (g.limit.getD 0) = some a →
      FmmRun (problem Sc A x g dens) (discrs (problem Sc A x g dens) [fmmOut g]) a (fun _ => A.drv g x dens)

/-- The sum of the QBX expansions of the FMM about center `k` of the source, at the target point `i`. -/
def fmmSum (Sc : Scene α P (Args α)) (g : Pot (Args α)) (b : Base) (k : Nat) (dens : List (Nat → α)) (i : Nat) : α :=
  ((g.sks.zip dens).map fun p => ∑ j ∈ Finset.range (Sc.ndofs g.src),
    Sc.expn ⟨qbxClass Sc.factory b, b, Sc.order⟩ g.tk p.1 g.args (Sc.qbxCenter k) (Sc.qbxRadius k)
      (Sc.node g.tgt i) (Sc.node g.src j) * (Sc.waa g.src j * p.2 j)).sum

/-- the value at target point `i` if it is associated with `v`: a center, or none if negative -/
def fmmValue (Sc : Scene α P (Args α)) (g : Pot (Args α)) (b : Base) (v : Int) (dens : List (Nat → α)) (i : Nat) : α :=
  if v < 0 then plainSum Sc g dens i else fmmSum Sc g b v.toNat dens i

/-- the point `p` is in no tunnel, or `v` is the center of the requested side nearest to it (relative to its radius) whose
enlarged disk contains it: association without a tree (C31) -/
def nearest (Sc : Scene α P (Args α)) (A : Accel α F P) (nsrc : Nat) (p : P) (side : Int) : Int :=
  ((⟨side, A.srcDist p, A.ctrDist p, [List.range nsrc], [List.range Sc.ncenters], []⟩ :
    TargetAssoc.Target F).found A.src).ttc

/-! ## Sums -/

theorem list_sum_range (n : Nat) (f : Nat → α) : ((List.range n).map f).sum = ∑ j ∈ Finset.range n, f j := by
  induction n with
  | zero => simp
  | succ n ih => rw [List.range_succ, List.map_append, List.sum_append, ih, Finset.sum_range_succ]; simp

theorem sum_swap {β : Type} (l : List β) (n : Nat) (f : β → Nat → α) :
    ((List.range n).map fun j => (l.map fun p => f p j).sum).sum = (l.map fun p => ∑ j ∈ Finset.range n, f p j).sum := by
  rw [list_sum_range]
  induction l with
  | nil => simp
  | cons a l ih => simp only [List.map_cons, List.sum_cons, Finset.sum_add_distrib, ih]

theorem zip_strengths {β : Type} (Sc : Scene α P (Args α)) (src : DD) (j : Nat) (f : β → α → α) :
    ∀ (l : List β) (dens : List (Nat → α)),
      (l.zip ((strengths Sc src dens).map fun d => d j)).map (fun q => f q.1 q.2)
        = (l.zip dens).map fun q => f q.1 (Sc.waa src j * q.2 j)
  | [], _ => rfl
  | _ :: _, [] => rfl
  | a :: l, d :: dens => by
    have := zip_strengths Sc src j f l dens
    simp only [strengths, List.map_cons, List.zip_cons_cons, List.map_map] at this ⊢
    rw [← this]

theorem plain_problem (Sc : Scene α P (Args α)) (A : Accel α F P) (x : Expn) (g : Pot (Args α)) (dens : List (Nat → α))
    (k i : Nat) : Paths.plain (problem Sc A x g dens) k (Sc.node g.tgt i, i) = plainSum Sc g dens i := by
  have h := fun j => zip_strengths Sc g.src j
    (fun (sk : Kn) w => Sc.plain g.tk sk g.args (Sc.node g.tgt i) (Sc.node g.src j) * w) g.sks dens
  simp only [Paths.plain, problem, h, plainSum]
  exact sum_swap _ _ fun (q : Kn × (Nat → α)) j => Sc.plain g.tk q.1 g.args (Sc.node g.tgt i) (Sc.node g.src j) * (Sc.waa g.src j * q.2 j)

theorem via_problem (Sc : Scene α P (Args α)) (A : Accel α F P) (b : Base) (g : Pot (Args α)) (dens : List (Nat → α))
    (k c i : Nat) :
    Paths.via (problem Sc A ⟨qbxClass Sc.factory b, b, Sc.order⟩ g dens) k c (Sc.node g.tgt i, i) = fmmSum Sc g b c dens i := by
  have h := fun j => zip_strengths Sc g.src j
    (fun (sk : Kn) w => Sc.expn ⟨qbxClass Sc.factory b, b, Sc.order⟩ g.tk sk g.args (Sc.qbxCenter c) (Sc.qbxRadius c)
      (Sc.node g.tgt i) (Sc.node g.src j) * w) g.sks dens
  simp only [Paths.via, problem, h, fmmSum]
  exact sum_swap _ _ fun (q : Kn × (Nat → α)) j => Sc.expn ⟨qbxClass Sc.factory b, b, Sc.order⟩ g.tk q.1 g.args (Sc.qbxCenter c)
    (Sc.qbxRadius c) (Sc.node g.tgt i) (Sc.node g.src j) * (Sc.waa g.src j * q.2 j)

/-! ## What the FMM path returns -/

section

variable {Sc : Scene α P (Args α)} {A : Accel α F P}

theorem discrs_problem (x : Expn) (g : Pot (Args α)) (dens : List (Nat → α)) :
    discrs (problem Sc A x g dens) [fmmOut g]
      = [((List.range (Sc.ndofs g.tgt)).map fun i => (Sc.node g.tgt i, i), g.limit.getD 0)] := by
  simp [discrs, Geometry.collect, fmmOut, problem, alookup]

theorem points_problem (x : Expn) (g : Pot (Args α)) (dens : List (Nat → α)) :
    Paths.points (discrs (problem Sc A x g dens) [fmmOut g])
      = (List.range (Sc.ndofs g.tgt)).map fun i => ((Sc.node g.tgt i, i), g.limit.getD 0) := by
  rw [discrs_problem]
  simp [Paths.points]

/-- associations are centers or -1, one for each target -/
theorem assoc_range (hR : Runs Sc A) (g : Pot (Args α)) (a : List Int)
    (ha : A.assoc g.src g.tgt (g.limit.getD 0) = some a) :
    a.length = Sc.ndofs g.tgt ∧ ∀ v ∈ a, -1 ≤ v ∧ v < (Sc.ncenters : Int) := by
  obtain ⟨⟨lv, hf, hok⟩, -⟩ := hR.run g ⟨"", .laplace 2, 0⟩ [] a ha
  have h := Paths.associate_ok _ _ _ _ hf a hok
  constructor
  · rw [h, List.length_map, Paths.targets, List.length_map, List.length_zipIdx, points_problem]
    simp
  · intro v hv
    rw [h, List.mem_map] at hv
    obtain ⟨t, ht, rfl⟩ := hv
    have hlen : (problem Sc A ⟨"", .laplace 2, 0⟩ g []).centers.length = Sc.ncenters := by simp [problem]
    have hs := TargetAssoc.found_spec _ _ _ t (hf t ht)
    rw [hlen] at hs
    rcases hs with ⟨-, h, -⟩ | ⟨-, -, ⟨-, h, -⟩ | ⟨-, c, hc, h, -⟩⟩
    · change (t.found A.src).ttc = -1 at h
      change -1 ≤ (t.found A.src).ttc ∧ (t.found A.src).ttc < _
      omega
    · change (t.found A.src).ttc = -1 at h
      change -1 ≤ (t.found A.src).ttc ∧ (t.found A.src).ttc < _
      omega
    · change (t.found A.src).ttc = c at h
      change -1 ≤ (t.found A.src).ttc ∧ (t.found A.src).ttc < _
      omega

/-- what the FMM path returns, whatever the order of the steps inside -/
theorem fmmRun_eq (hR : Runs Sc A) (g : Pot (Args α)) (dens : List (Nat → α)) (b : Base) (a : List Int)
    (ha : A.assoc g.src g.tgt (g.limit.getD 0) = some a) :
    fmmRun Sc A g dens ⟨qbxClass Sc.factory b, b, Sc.order⟩ = some (.ve (Sc.ndofs g.tgt) fun i =>
      ((List.range (Sc.ndofs g.tgt)).map fun i => fmmValue Sc g b (a.getD i 0) dens i).getD i 0) := by
  obtain ⟨hlen, hrange⟩ := assoc_range hR g a ha
  obtain ⟨x, hx⟩ : ∃ x : Expn, x = ⟨qbxClass Sc.factory b, b, Sc.order⟩ := ⟨_, rfl⟩
  have hrun := hR.run g x dens a ha
  obtain ⟨K, Q, hKQ, hd⟩ := hrun.run 0
  have hc : (problem Sc A x g dens).centers.length = Sc.ncenters := by simp [problem]
  rw [hc] at hd
  obtain ⟨hl, hv⟩ := Paths.driven_spec hd hrange
  -- the driver returns values at the centers, then those at the targets
  have hdrv : A.drv g x dens = (A.drv g x dens).take Sc.ncenters ++
      (List.range (Sc.ndofs g.tgt)).map fun i => fmmValue Sc g b (a.getD i 0) dens i := by
    conv => lhs; rw [← List.take_append_drop Sc.ncenters (A.drv g x dens)]
    congr 1
    apply List.ext_getElem?
    intro i
    rw [List.getElem?_drop, List.getElem?_map]
    by_cases hi : i < Sc.ndofs g.tgt
    · have hp : ((problem Sc A x g dens).centers ++ (Paths.points (discrs (problem Sc A x g dens) [fmmOut g])).map
          Prod.fst)[Sc.ncenters + i]? = some (Sc.node g.tgt i, i) := by
        rw [List.getElem?_append_right (by rw [hc]; omega), hc, points_problem]
        simp [List.getElem?_range hi]
      obtain ⟨h1, h2⟩ := hv i (by omega)
      have hai : a[i]? = some (a.getD i 0) := by
        rw [List.getD_eq_getElem?_getD, List.getElem?_eq_getElem (by omega)]
        rfl
      have hmem := hrange _ (List.mem_of_getElem? hai)
      rw [List.getElem?_range hi, Option.map_some]
      by_cases hneg : a.getD i 0 < 0
      · have hm1 : a.getD i 0 = -1 := by omega
        rw [h1 (by rw [hai, hm1]), fmmValue, if_pos hneg, ← plain_problem Sc A x g dens 0 i, Paths.plain]
        congr 3
        funext s
        exact (hKQ s _ _ hp).1 _
      · have hm1 : a.getD i 0 = ((a.getD i 0).toNat : Int) := by omega
        rw [h2 (a.getD i 0).toNat (by rw [hai, ← hm1]), fmmValue, if_neg hneg, ← via_problem Sc A b g dens 0 _ i, ← hx,
          Paths.via]
        congr 3
        funext s
        exact (hKQ s _ _ hp).2 _ _
    · rw [List.getElem?_eq_none (by rw [hl]; omega), List.getElem?_eq_none (by simpa using hi)]
      rfl
  have hfail : (a.any (· == Paths.failedState)) = false := by
    rw [List.any_eq_false]
    intro v hv
    have := hrange v hv
    simp [Paths.failedState]
    omega
  have hex := Geometry.C36_outputs (problem Sc A x g dens).discr (problem Sc A x g dens).centers
    (fun _ => a.any (· == Paths.failedState)) A.inspect (fun _ _ _ => A.drv g x dens) [fmmOut g]
    (fun _ p _ => fmmValue Sc g b (a.getD p.2 0) dens p.2) (fun _ => (A.drv g x dens).take Sc.ncenters)
    (fun _ => by rw [hc, List.length_take, hl]; omega)
    (fun _ => by
      have := discrs_problem (Sc := Sc) (A := A) x g dens
      unfold discrs at this
      rw [this]
      simp only [List.flatMap_cons, List.flatMap_nil, List.append_nil, List.map_map]
      exact hdrv)
    hfail hR.inspect
  unfold fmmRun
  rw [ha, ← hx]
  simp only [runFmm]
  rw [hex]
  simp only [finishFmm, List.map_cons, List.map_nil, problem, fmmOut, List.map_map]
  rfl

/-- the expansion the sumpy back end is set up with -/
theorem qbxExpn_ok (f : QBXSetup.Factory) (sks tks : List Kn) (n : Nat) (b : Base) (hb : SameBase b sks)
    (hi : b.invariant = true) :
    qbxExpn n (setup (0 : α) f "sumpy" none sks tks [] []) = some ⟨qbxClass f b, b, n⟩ := by
  rw [(QBXSetup.C79_sumpy_partial (0 : α) f none sks tks [] []).1 b hb (by simp) hi]
  rfl

theorem qbxExpn_none (f : QBXSetup.Factory) (sks tks : List Kn) (n : Nat) (h : ¬ ∃ b, SameBase b sks ∧ b.invariant = true) :
    qbxExpn n (setup (0 : α) f "sumpy" none sks tks [] []) = none := by
  cases hs : setup (0 : α) f "sumpy" none sks tks [] [] with
  | error e => rfl
  | ok w => exact absurd ((QBXSetup.C79_sumpy_partial (0 : α) f none sks tks [] []).2.1 w hs).2 h

/-- evaluation of one layer potential with the FMM -/
theorem fmmEval_ok (hR : Runs Sc A) (g : Pot (Args α)) (us : List (EV α)) (hd : ∀ u ∈ us, ∃ f, u = EV.ve (Sc.ndofs g.src) f)
    (b : Base) (hb : SameBase b g.sks) (hi : b.invariant = true) (a : List Int)
    (ha : A.assoc g.src g.tgt (g.limit.getD 0) = some a) :
    fmmEval Sc A g us = some (.ve (Sc.ndofs g.tgt) fun i =>
      ((List.range (Sc.ndofs g.tgt)).map fun i => fmmValue Sc g b (a.getD i 0) (us.map dens1) i).getD i 0) := by
  unfold fmmEval
  rw [densities_all _ _ hd]
  simp only
  rw [qbxExpn_ok Sc.factory g.sks [g.tk] Sc.order b hb hi, Option.bind_some, fmmRun_eq hR g _ b a ha]

/-- the same, entry by entry -/
theorem fmmEval_vals (hR : Runs Sc A) (g : Pot (Args α)) (us : List (EV α)) (hd : ∀ u ∈ us, ∃ f, u = EV.ve (Sc.ndofs g.src) f)
    (b : Base) (hb : SameBase b g.sks) (hi : b.invariant = true) (a : List Int)
    (ha : A.assoc g.src g.tgt (g.limit.getD 0) = some a) :
    ∃ f, fmmEval Sc A g us = some (.ve (Sc.ndofs g.tgt) f) ∧
      ∀ i < Sc.ndofs g.tgt, f i = fmmValue Sc g b (a.getD i 0) (us.map dens1) i := by
  refine ⟨_, fmmEval_ok hR g us hd b hb hi a ha, fun i hi => ?_⟩
  simp only [List.getD_eq_getElem?_getD, List.getElem?_map, List.getElem?_range hi, Option.map_some, Option.getD_some]

theorem fmmValue_perm (C : Coding) (src : String) {p p' k k' : List (String × EV α)} (tk tgt : String) (lim : Compiler.Lim)
    (hp : p.Perm p') (hk : k.Perm k') (b : Base) (v : Int) (i : Nat) :
    fmmValue Sc (potOf C src p k tk tgt lim) b v ((p.map Prod.snd).map dens1) i =
      fmmValue Sc (potOf C src p' k' tk tgt lim) b v ((p'.map Prod.snd).map dens1) i := by
  have hkk : (↑k : Args α) = ↑k' := Multiset.coe_eq_coe.2 hk
  have key : ∀ f : Kn → Nat → α,
      ((((potOf C src p k tk tgt lim).sks.zip ((p.map Prod.snd).map dens1)).map fun q =>
        ∑ j ∈ Finset.range (Sc.ndofs (C.place src)), f q.1 j * (Sc.waa (C.place src) j * q.2 j)).sum) =
      ((((potOf C src p' k' tk tgt lim).sks.zip ((p'.map Prod.snd).map dens1)).map fun q =>
        ∑ j ∈ Finset.range (Sc.ndofs (C.place src)), f q.1 j * (Sc.waa (C.place src) j * q.2 j)).sum) := by
    intro f
    simp only [potOf]
    rw [List.map_map, List.map_map, List.zip_map', List.zip_map', List.map_map, List.map_map]
    exact (hp.map _).sum_eq
  unfold fmmValue
  split
  · unfold plainSum
    have := key fun sk j => Sc.plain (C.kern tk) sk (↑k) (Sc.node (C.place tgt) i) (Sc.node (C.place src) j)
    simp only [potOf] at this ⊢
    rw [this, hkk]
  · unfold fmmSum
    have := key fun sk j => Sc.expn ⟨qbxClass Sc.factory b, b, Sc.order⟩ (C.kern tk) sk (↑k) (Sc.qbxCenter v.toNat)
      (Sc.qbxRadius v.toNat) (Sc.node (C.place tgt) i) (Sc.node (C.place src) j)
    simp only [potOf] at this ⊢
    rw [this, hkk]

/-- evaluation with the FMM does not depend on the order of the densities -/
theorem fmmPot_perm (hR : Runs Sc A) (C : Coding) (src : String) {p p' k k' : List (String × EV α)} (tk tgt : String)
    (lim : Compiler.Lim) (hp : p.Perm p') (hk : k.Perm k') :
    fmmPot Sc A C src p k tk tgt lim = fmmPot Sc A C src p' k' tk tgt lim := by
  have hsk : ((p.map fun q => C.kern q.1)).Perm (p'.map fun q => C.kern q.1) := hp.map _
  by_cases hd : ∀ u ∈ p.map Prod.snd, ∃ f, u = EV.ve (Sc.ndofs (C.place src)) f
  · have hd' : ∀ u ∈ p'.map Prod.snd, ∃ f, u = EV.ve (Sc.ndofs (C.place src)) f := fun u hu =>
      hd u ((hp.map Prod.snd).mem_iff.2 hu)
    by_cases hb : ∃ b, SameBase b (p.map fun q => C.kern q.1) ∧ b.invariant = true
    · obtain ⟨b, hb, hi⟩ := hb
      cases ha : A.assoc (C.place src) (C.place tgt) ((limInt lim).getD 0) with
      | some a =>
        unfold fmmPot
        rw [fmmEval_ok hR (potOf C src p k tk tgt lim) _ hd b hb hi a ha,
          fmmEval_ok hR (potOf C src p' k' tk tgt lim) _ hd' b (sameBase_perm hsk hb) hi a ha]
        simp only [fmmValue_perm C src tk tgt lim hp hk]
        rfl
      | none =>
        have key : ∀ (p k : List (String × EV α)) x dens, fmmRun Sc A (potOf C src p k tk tgt lim) dens x = none := by
          intro p k x dens
          simp only [fmmRun, potOf]
          rw [ha]
        have key2 : ∀ (p k : List (String × EV α)), fmmPot Sc A C src p k tk tgt lim = none := by
          intro p k
          unfold fmmPot fmmEval
          cases densities (Sc.ndofs (potOf C src p k tk tgt lim).src) (p.map Prod.snd) with
          | error e => rfl
          | ok dens =>
            simp only
            cases qbxExpn Sc.order (setup (0 : α) Sc.factory "sumpy" none (potOf C src p k tk tgt lim).sks
              [(potOf C src p k tk tgt lim).tk] [] []) with
            | none => rfl
            | some x => exact key p k x dens
        rw [key2, key2]
    · have hb' : ¬ ∃ b, SameBase b (p'.map fun q => C.kern q.1) ∧ b.invariant = true := by
        rintro ⟨b, h1, h2⟩
        exact hb ⟨b, sameBase_perm hsk.symm h1, h2⟩
      have key : ∀ (p k : List (String × EV α)), (¬ ∃ b, SameBase b (p.map fun q => C.kern q.1) ∧ b.invariant = true) →
          fmmPot Sc A C src p k tk tgt lim = none := by
        intro p k hb
        unfold fmmPot fmmEval
        cases densities (Sc.ndofs (potOf C src p k tk tgt lim).src) (p.map Prod.snd) with
        | error e => rfl
        | ok dens =>
          simp only
          rw [qbxExpn_none Sc.factory (potOf C src p k tk tgt lim).sks _ Sc.order hb]
          rfl
      rw [key p k hb, key p' k' hb']
  · have key : ∀ (p k : List (String × EV α)), (¬ ∀ u ∈ p.map Prod.snd, ∃ f, u = EV.ve (Sc.ndofs (C.place src)) f) →
        fmmPot Sc A C src p k tk tgt lim = none := by
      intro p k hd
      unfold fmmPot fmmEval
      cases hx : densities (Sc.ndofs (potOf C src p k tk tgt lim).src) (p.map Prod.snd) with
      | error e => rfl
      | ok dens => exact absurd (LayerMat.densities_ok _ _ _ hx).2 hd
    rw [key p k hd, key p' k' fun h => hd fun u hu => h u ((hp.map Prod.snd).mem_iff.1 hu)]

/-- such an evaluator has the laws the compiler relies on -/
theorem withFmm_lawful (hR : Runs Sc A) (I : Compiler.Interp (EV α)) (C : Coding) (h0 : ∀ v, I.add I.zero v = v) :
    Compiler.Lawful (withFmm I Sc A C) where
  zero_add := h0
  pot_perm := fun src _ _ _ _ tk tgt lim hp hk => fmmPot_perm hR C src tk tgt lim hp hk

/-- the association is the one without a tree, unless there are ties -/
theorem assoc_nearest (hR : Runs Sc A) (g : Pot (Args α)) (a : List Int)
    (ha : A.assoc g.src g.tgt (g.limit.getD 0) = some a)
    (hno : ∀ i < Sc.ndofs g.tgt, Paths.NoTie A.src Sc.ncenters
      ⟨g.limit.getD 0, A.srcDist (Sc.node g.tgt i), A.ctrDist (Sc.node g.tgt i), [], [], []⟩) :
    a = (List.range (Sc.ndofs g.tgt)).map fun i => nearest Sc A (Sc.ndofs g.src) (Sc.node g.tgt i) (g.limit.getD 0) := by
  have hc : (problem Sc A ⟨"", .laplace 2, 0⟩ g []).centers.length = Sc.ncenters := by simp [problem]
  have hrun := hR.run g ⟨"", .laplace 2, 0⟩ [] a ha
  have h := Paths.C77_association (problem Sc A ⟨"", .laplace 2, 0⟩ g []) (by rw [hc]; exact hR.pos) _ a hrun.associated (by
    intro q hq
    rw [points_problem] at hq
    obtain ⟨i, hi, rfl⟩ := List.mem_map.1 hq
    unfold Paths.Unique
    rw [hc]
    exact hno i (List.mem_range.1 hi))
  rw [h, points_problem, List.map_map]
  apply List.map_congr_left
  intro i _
  simp only [Function.comp_apply, Paths.brute, nearest, problem, List.length_map, List.length_range]

end

/-! ## Theorems -/

section

variable {E : Enc} {C : Coding} {pl : List (Obj × PlaceKind)} {S T : DD} {g : IG} {cs : List SE}
variable (c : Compiler.Cfg) (I : Compiler.Interp (EV α)) (Sc : Scene α P (Args α)) (A : Accel α F P)
  (ctx : Compiler.Ctx (EV α)) (cc : Compiler.Cache (EV α))

/-- the pairs of source kernels and densities are those of the layer potential -/
theorem fmmPot_evaluated (g : IG) (hE : Coded E C g) (lim : Lim) (ds args : List (EV α)) (hd : ds.length = g.sks.length) :
    fmmPot Sc A C (E.place (DDs g.src .quadStage2)) (g.sks.zip ds) (g.kn.zip args) (E.kern g.tk)
        (E.place (tgtStage g).tgt) (trLim lim) = fmmEval Sc A (evaluated C E g lim args) ds := by
  have h1 : (g.sks.zip ds).map Prod.snd = ds := List.map_snd_zip (by omega)
  have h2 : ((g.sks.zip ds).map fun p => C.kern p.1) = g.sks.map C.kern := by
    have := congrArg (List.map C.kern) (List.map_fst_zip (l₁ := g.sks) (l₂ := ds) (by omega))
    rw [List.map_map] at this
    exact this
  unfold fmmPot potOf evaluated
  rw [h1, h2, hE.1, hE.2]

/-- **C94**: `bind(places, IntG)(**inputs)` on an accelerated QBX source is an array with one entry for each target point.
If point `i` is associated with a center of the source, entry `i` is the sum over source kernels and quadrature nodes of the
value at the point of the QBX expansion of the kernel about that center, times quadrature weight, area element and
interpolated density; otherwise it is plain quadrature — whatever trees, traversals and schedules are used and whatever
is in the caches. -/
theorem C94_potential (hR : Runs Sc A) (h : Bindable E C pl S T g cs) (hc : Compiler.CfgOk c)
    (h0 : ∀ v, I.add I.zero v = v) (hcc : Compiler.CacheValid (withFmm I Sc A C) ctx cc) (hlim : g.lim ≠ .avg)
    (vs : List (EV α)) (hv : Operands E (withFmm I Sc A C) ctx pl S T (filled S T g).src g.nd cs vs)
    (hd : ∀ u ∈ vs.take g.nd, ∃ f, u = EV.ve (Sc.ndofs (DDs (filled S T g).src .quadStage2)) f)
    (b : Base) (hb : SameBase b (g.sks.map C.kern)) (hi : b.invariant = true) (a : List Int)
    (ha : A.assoc (DDs (filled S T g).src .quadStage2) (tgtStage (filled S T g)).tgt ((limInt (trLim g.lim)).getD 0)
      = some a) :
    ∃ f, bindEval E c (withFmm I Sc A C) pl S T (.node (.intg g) cs) ctx cc
        = .ok (.ve (Sc.ndofs (tgtStage (filled S T g)).tgt) f) ∧
      ∀ i < Sc.ndofs (tgtStage (filled S T g)).tgt,
        f i = fmmValue Sc (evaluated C E (filled S T g) g.lim (vs.drop g.nd)) b (a.getD i 0)
          ((vs.take g.nd).map dens1) i := by
  obtain ⟨f, h1, h2⟩ := fmmEval_vals hR (evaluated C E (filled S T g) g.lim (vs.drop g.nd)) (vs.take g.nd) hd b hb hi a ha
  refine ⟨f, bind_pot c ctx cc (withFmm I Sc A C) (withFmm_lawful hR I C h0) h hc hcc hlim vs hv _
    ((fmmPot_evaluated Sc A (filled S T g) h.coded g.lim (vs.take g.nd) (vs.drop g.nd) ?_).trans h1), h2⟩
  have := take_length h hv
  simpa [filled] using this

/-- **C94**: the center is the nearest one of the requested side (relative to its radius) among those whose enlarged disk
contains the point, if the point is in the tunnel of some source node, and there is none otherwise — unless two centers are equally near. -/
theorem C94_nearest (hR : Runs Sc A) (h : Bindable E C pl S T g cs) (hc : Compiler.CfgOk c)
    (h0 : ∀ v, I.add I.zero v = v) (hcc : Compiler.CacheValid (withFmm I Sc A C) ctx cc) (hlim : g.lim ≠ .avg)
    (vs : List (EV α)) (hv : Operands E (withFmm I Sc A C) ctx pl S T (filled S T g).src g.nd cs vs)
    (hd : ∀ u ∈ vs.take g.nd, ∃ f, u = EV.ve (Sc.ndofs (DDs (filled S T g).src .quadStage2)) f)
    (b : Base) (hb : SameBase b (g.sks.map C.kern)) (hi : b.invariant = true)
    (ha : A.assoc (DDs (filled S T g).src .quadStage2) (tgtStage (filled S T g)).tgt ((limInt (trLim g.lim)).getD 0)
      ≠ none)
    (hno : ∀ i < Sc.ndofs (tgtStage (filled S T g)).tgt, Paths.NoTie A.src Sc.ncenters
      ⟨(limInt (trLim g.lim)).getD 0, A.srcDist (Sc.node (tgtStage (filled S T g)).tgt i),
        A.ctrDist (Sc.node (tgtStage (filled S T g)).tgt i), [], [], []⟩) :
    ∃ f, bindEval E c (withFmm I Sc A C) pl S T (.node (.intg g) cs) ctx cc
        = .ok (.ve (Sc.ndofs (tgtStage (filled S T g)).tgt) f) ∧
      ∀ i < Sc.ndofs (tgtStage (filled S T g)).tgt,
        f i = fmmValue Sc (evaluated C E (filled S T g) g.lim (vs.drop g.nd)) b
          (nearest Sc A (Sc.ndofs (DDs (filled S T g).src .quadStage2)) (Sc.node (tgtStage (filled S T g)).tgt i)
            ((limInt (trLim g.lim)).getD 0))
          ((vs.take g.nd).map dens1) i := by
  obtain ⟨a, ha⟩ := Option.ne_none_iff_exists'.1 ha
  obtain ⟨f, h1, h2⟩ := C94_potential c I Sc A ctx cc hR h hc h0 hcc hlim vs hv hd b hb hi a ha
  refine ⟨f, h1, fun i hi => ?_⟩
  have hn := assoc_nearest hR (evaluated C E (filled S T g) g.lim (vs.drop g.nd)) a ha hno
  have hi' : i < Sc.ndofs (evaluated C E (filled S T g) g.lim (vs.drop g.nd)).tgt := hi
  rw [h2 i hi, hn]
  congr 1
  simp only [List.getD_eq_getElem?_getD, List.getElem?_map, List.getElem?_range hi', Option.map_some, Option.getD_some]
  rfl

/-- **C94**: which center a point is associated with: none exactly if the point is in no source node's tunnel; otherwise a
center of the requested side whose enlarged disk contains the point, and no center on the same side of the surface whose
enlarged disk contains the point is nearer relative to its radius. -/
theorem C94_center (hR : Runs Sc A) (s t : DD) (side : Int) (a : List Int) (ha : A.assoc s t side = some a) :
    a.length = Sc.ndofs t ∧ ∀ i < Sc.ndofs t,
      (a.getD i 0 = -1 ∧ ∀ j < Sc.ndofs s, A.src.tunnel j < A.srcDist (Sc.node t i) j) ∨
      ∃ k < Sc.ncenters, a.getD i 0 = (k : Int) ∧ (∃ j < Sc.ndofs s, A.srcDist (Sc.node t i) j ≤ A.src.tunnel j) ∧
        0 ≤ TargetAssoc.side k * side ∧ A.ctrDist (Sc.node t i) k ≤ A.src.radTol k ∧
        ∀ k' < Sc.ncenters, TargetAssoc.side k' = TargetAssoc.side k → A.ctrDist (Sc.node t i) k' ≤ A.src.radTol k' →
          A.ctrDist (Sc.node t i) k / A.src.radTol k ≤ A.ctrDist (Sc.node t i) k' / A.src.radTol k' := by
  obtain ⟨g, hg⟩ : ∃ g : Pot (Args α), g = ⟨[], .base (.laplace 2), s, t, some side, 0⟩ := ⟨_, rfl⟩
  have h1 : g.src = s := by rw [hg]
  have h2 : g.tgt = t := by rw [hg]
  have h3 : g.limit.getD 0 = side := by rw [hg]; rfl
  have hc : (problem Sc A ⟨"", .laplace 2, 0⟩ g []).centers.length = Sc.ncenters := by simp [problem]
  have ha' : A.assoc g.src g.tgt (g.limit.getD 0) = some a := by rw [h1, h2, h3]; exact ha
  obtain ⟨hlen, -⟩ := assoc_range hR g a ha'
  obtain ⟨⟨lv, hf, hok⟩, -⟩ := hR.run g ⟨"", .laplace 2, 0⟩ [] a ha'
  have hass := Paths.associate_ok _ _ _ _ hf a hok
  have hun := (TargetAssoc.C31_unassigned _ _ _ _ hf a hok).2
  refine ⟨by rw [hlen, h2], fun i hi => ?_⟩
  rw [← h2] at hi
  have ht : (Paths.targets (problem Sc A ⟨"", .laplace 2, 0⟩ g []) lv
      (discrs (problem Sc A ⟨"", .laplace 2, 0⟩ g []) [fmmOut g]))[i]?
      = some ⟨side, A.srcDist (Sc.node t i), A.ctrDist (Sc.node t i), lv.mark i, lv.ctr i, lv.ref i⟩ := by
    rw [Paths.targets, List.getElem?_map, List.getElem?_zipIdx, points_problem, List.getElem?_map, List.getElem?_range hi]
    simp only [Option.map_some, Paths.target, problem, h2, h3, Nat.zero_add]
  have hmem := List.mem_of_getElem? ht
  have hcov := hf _ hmem
  rw [hc] at hcov
  have hai : a[i]? = some (a.getD i 0) := by
    rw [List.getD_eq_getElem?_getD, List.getElem?_eq_getElem (by omega)]
    rfl
  have hv : a.getD i 0 = ((⟨side, A.srcDist (Sc.node t i), A.ctrDist (Sc.node t i), lv.mark i, lv.ctr i, lv.ref i⟩ :
      TargetAssoc.Target F).found A.src).ttc := by
    have := hai
    rw [hass, List.getElem?_map, ht] at this
    simp only [Option.map_some, Option.some.injEq] at this
    rw [hass]
    exact this.symm
  have hiff := hun i _ _ ht hai
  have hns : (problem Sc A ⟨"", .laplace 2, 0⟩ g []).nsrc = Sc.ndofs s := by simp only [problem, h1]
  by_cases hm : a.getD i 0 = -1
  · left
    refine ⟨hm, fun j hj => ?_⟩
    exact not_le.1 (hiff.1 hm j (by rw [hns]; exact hj))
  · right
    have hclose : ∃ j < Sc.ndofs s, A.srcDist (Sc.node t i) j ≤ A.src.tunnel j := by
      by_contra hno
      refine hm (hiff.2 fun j hj hcl => hno ⟨j, by rw [← hns]; exact hj, hcl⟩)
    have hmark := ((TargetAssoc.marked_iff _ _ _ _ hcov).1).2 (by
      obtain ⟨j, hj, hcl⟩ := hclose
      exact ⟨j, by rw [hns]; exact hj, hcl⟩)
    rcases TargetAssoc.found_marked _ _ _ _ hcov hmark with ⟨-, h, -⟩ | ⟨-, k, hk, h, he, hmin, -⟩
    · exact absurd (hv.trans h) hm
    · refine ⟨k, hk, hv.trans h, hclose, he.side, he.disk, fun k' hk' hs hd => ?_⟩
      refine hmin k' hk' ⟨?_, hd⟩ hs
      rw [hs]
      exact he.side

/-- **C94**, `'avg'`: entry `i` is half the sum of the values with the centers of the two sides. -/
theorem C94_mean (hR : Runs Sc A) (h : Bindable E C pl S T g cs) (hc : Compiler.CfgOk c)
    (h0 : ∀ v, I.add I.zero v = v) (har : Arith E I) (hcc : Compiler.CacheValid (withFmm I Sc A C) ctx cc)
    (hlim : g.lim = .avg)
    (vs : List (EV α)) (hv : Operands E (withFmm I Sc A C) ctx pl S T (filled S T g).src g.nd cs vs)
    (hd : ∀ u ∈ vs.take g.nd, ∃ f, u = EV.ve (Sc.ndofs (DDs (filled S T g).src .quadStage2)) f)
    (b : Base) (hb : SameBase b (g.sks.map C.kern)) (hi : b.invariant = true) (ap am : List Int)
    (hap : A.assoc (DDs (filled S T g).src .quadStage2) (tgtStage (filled S T g)).tgt 1 = some ap)
    (ham : A.assoc (DDs (filled S T g).src .quadStage2) (tgtStage (filled S T g)).tgt (-1) = some am) :
    ∃ f, bindEval E c (withFmm I Sc A C) pl S T (.node (.intg g) cs) ctx cc
        = .ok (.ve (Sc.ndofs (tgtStage (filled S T g)).tgt) f) ∧
      ∀ i < Sc.ndofs (tgtStage (filled S T g)).tgt, f i = 1 / 2 *
        (fmmValue Sc (evaluated C E (filled S T g) .p1 (vs.drop g.nd)) b (ap.getD i 0) ((vs.take g.nd).map dens1) i
          + fmmValue Sc (evaluated C E (filled S T g) .m1 (vs.drop g.nd)) b (am.getD i 0) ((vs.take g.nd).map dens1) i) := by
  have hl : (vs.take g.nd).length = (filled S T g).sks.length := by
    have := take_length h hv
    simpa [filled] using this
  obtain ⟨fp, p1, p2⟩ := fmmEval_vals hR (evaluated C E (filled S T g) .p1 (vs.drop g.nd)) (vs.take g.nd) hd b hb hi ap hap
  obtain ⟨fm, m1, m2⟩ := fmmEval_vals hR (evaluated C E (filled S T g) .m1 (vs.drop g.nd)) (vs.take g.nd) hd b hb hi am ham
  refine ⟨fun i => 1 / 2 * (fp i + fm i), bind_avg c ctx cc (withFmm I Sc A C) (withFmm_lawful hR I C h0) h hc hcc hlim vs
    hv _ _ _ _
    ((fmmPot_evaluated Sc A (filled S T g) h.coded .p1 (vs.take g.nd) (vs.drop g.nd) hl).trans p1)
    ((fmmPot_evaluated Sc A (filled S T g) h.coded .m1 (vs.take g.nd) (vs.drop g.nd) hl).trans m1) har.half ?_, ?_⟩
  · have hadd : ∀ n f g, (withFmm I Sc A C).add (.ve n f) (.ve n g) = .ve n fun i => f i + g i := har.add
    simp only [evaluated]
    rw [hadd]
    exact har.scale _ _ _
  · intro i hi
    simp only
    rw [p2 i hi, m2 i hi]

/-- **C94**, the FMM and direct evaluation agree away from the source: if both use the same association (as they do, C77) and
the QBX expansion class of the back end has the values of the expansions of direct evaluation, then switching the FMM on or
off does not change the result of `bind(places, IntG)(**inputs)`. -/
theorem C94_agree_elsewhere (hR : Runs Sc A) (h : Bindable E C pl S T g cs) (hc : Compiler.CfgOk c)
    (h0 : ∀ v, I.add I.zero v = v) (σ : Direct.Sched) (hσ : ∀ {β : Type} (l : List β), (σ l).Perm l)
    (hcc : Compiler.CacheValid (withFmm I Sc A C) ctx cc) (cc' : Compiler.Cache (EV α))
    (hcc' : Compiler.CacheValid (withScene I Sc σ C) ctx cc')
    (hlim : g.lim = .none ∨ g.lim = .p2 ∨ g.lim = .m2) (vs : List (EV α))
    (hv : Operands E (withFmm I Sc A C) ctx pl S T (filled S T g).src g.nd cs vs)
    (hv' : Operands E (withScene I Sc σ C) ctx pl S T (filled S T g).src g.nd cs vs)
    (hd : ∀ u ∈ vs.take g.nd, ∃ f, u = EV.ve (Sc.ndofs (DDs (filled S T g).src .quadStage2)) f)
    (b : Base) (hb : SameBase b (g.sks.map C.kern)) (hi : b.invariant = true) (a : List Int)
    (ha : A.assoc (DDs (filled S T g).src .quadStage2) (tgtStage (filled S T g)).tgt ((limInt (trLim g.lim)).getD 0)
      = some a)
    (ha' : Sc.assoc (tgtStage (filled S T g)).tgt ((limInt (trLim g.lim)).getD 0) = Geometry.userTtc Sc.ncenters a)
    (hoff : LayerMat.isSelf Sc (DDs (filled S T g).src .quadStage2) (tgtStage (filled S T g)).tgt = false)
    (hx : Sc.expn ⟨qbxClass Sc.factory b, b, Sc.order⟩ = Sc.expn ⟨"VolumeTaylorLocalExpansion", b, Sc.order⟩) :
    ∃ f f', bindEval E c (withFmm I Sc A C) pl S T (.node (.intg g) cs) ctx cc
        = .ok (.ve (Sc.ndofs (tgtStage (filled S T g)).tgt) f) ∧
      bindEval E c (withScene I Sc σ C) pl S T (.node (.intg g) cs) ctx cc'
        = .ok (.ve (Sc.ndofs (tgtStage (filled S T g)).tgt) f') ∧
      ∀ i < Sc.ndofs (tgtStage (filled S T g)).tgt, f i = f' i := by
  obtain ⟨hlen, hrange⟩ := assoc_range hR (evaluated C E (filled S T g) g.lim (vs.drop g.nd)) a ha
  have hlen' : a.length = Sc.ndofs (tgtStage (filled S T g)).tgt := hlen
  obtain ⟨f, h1, h2⟩ := C94_potential c I Sc A ctx cc hR h hc h0 hcc (by rcases hlim with h | h | h <;> rw [h] <;> simp)
    vs hv hd b hb hi a ha
  obtain ⟨f', k1, k2⟩ := C90_elsewhere c I Sc σ ctx cc' h hc h0 hσ hcc' hlim vs hv' hd b hb hoff
    (by rw [ha', Geometry.userTtc, List.length_append, List.length_replicate, hlen'])
  refine ⟨f, f', h1, k1, fun i hi => ?_⟩
  rw [h2 i hi, k2 i hi]
  have hai : a[i]? = some (a.getD i 0) := by
    rw [List.getD_eq_getElem?_getD, List.getElem?_eq_getElem (by omega)]
    rfl
  have hcen : centerAt Sc (evaluated C E (filled S T g) g.lim (vs.drop g.nd)) i =
      if a.getD i 0 < 0 then none else some (a.getD i 0).toNat := by
    unfold centerAt
    have : (Sc.assoc (tgtStage (filled S T g)).tgt ((limInt (trLim g.lim)).getD 0))[Sc.ncenters + i]? = some (a.getD i 0) := by
      rw [ha', Paths.ttc_get, hai]
    simp only [evaluated]
    rw [this]
  rw [hcen]
  unfold fmmValue
  by_cases hneg : a.getD i 0 < 0
  · rw [if_pos hneg, if_pos hneg]
  · rw [if_neg hneg, if_neg hneg]
    simp only [fmmSum, centerSum, hx]

/-- **C94**, the FMM and direct evaluation agree on the source: if association picks for each node its own center on the side
of the limit (as it does after refinement with disturbance tolerance 0, C77_own_center, C85; not always with the
default tolerance, C77_refined_refuted) and the expansions have the same values, then switching the
FMM on or off does not change the result. -/
theorem C94_agree_source (hR : Runs Sc A) (h : Bindable E C pl S T g cs) (hc : Compiler.CfgOk c)
    (h0 : ∀ v, I.add I.zero v = v) (σ : Direct.Sched)
    (hcc : Compiler.CacheValid (withFmm I Sc A C) ctx cc) (cc' : Compiler.Cache (EV α))
    (hcc' : Compiler.CacheValid (withScene I Sc σ C) ctx cc') (hlim : g.lim ≠ .avg) (vs : List (EV α))
    (hv : Operands E (withFmm I Sc A C) ctx pl S T (filled S T g).src g.nd cs vs)
    (hv' : Operands E (withScene I Sc σ C) ctx pl S T (filled S T g).src g.nd cs vs)
    (hd : ∀ u ∈ vs.take g.nd, ∃ f, u = EV.ve (Sc.ndofs (DDs (filled S T g).src .quadStage2)) f)
    (b : Base) (hb : SameBase b (g.sks.map C.kern)) (hi : b.invariant = true) (a : List Int) (l : Int)
    (hl : limInt (trLim g.lim) = some l)
    (hon : OnSource Sc (evaluated C E (filled S T g) g.lim (vs.drop g.nd)))
    (ha : A.assoc (DDs (filled S T g).src .quadStage2) (tgtStage (filled S T g)).tgt l = some a)
    (hown : ∀ i < Sc.ndofs (tgtStage (filled S T g)).tgt, a.getD i 0 = (Paths.own l i : Int))
    (hcen : ∀ i < Sc.ndofs (tgtStage (filled S T g)).tgt,
      Sc.center (tgtStage (filled S T g)).tgt l i = Sc.qbxCenter (Paths.own l i) ∧
      Sc.radius (tgtStage (filled S T g)).tgt i = Sc.qbxRadius (Paths.own l i))
    (hx : Sc.expn ⟨qbxClass Sc.factory b, b, Sc.order⟩
      = Sc.expn (QBXSetup.directExpn Sc.factory b [C.kern (E.kern g.tk)] Sc.order)) :
    ∃ f f', bindEval E c (withFmm I Sc A C) pl S T (.node (.intg g) cs) ctx cc
        = .ok (.ve (Sc.ndofs (tgtStage (filled S T g)).tgt) f) ∧
      bindEval E c (withScene I Sc σ C) pl S T (.node (.intg g) cs) ctx cc'
        = .ok (.ve (Sc.ndofs (tgtStage (filled S T g)).tgt) f') ∧
      ∀ i < Sc.ndofs (tgtStage (filled S T g)).tgt, f i = f' i := by
  obtain ⟨f, h1, h2⟩ := C94_potential c I Sc A ctx cc hR h hc h0 hcc hlim vs hv hd b hb hi a (by rw [hl]; exact ha)
  obtain ⟨f', k1, k2⟩ := C90_side c I Sc σ ctx cc' h hc h0 hcc' hlim vs hv' hd ⟨b, hb⟩ hon l hl
  refine ⟨f, f', h1, k1, fun i hi => ?_⟩
  rw [h2 i hi, k2 i hi, hown i hi]
  unfold fmmValue
  rw [if_neg (by omega)]
  unfold fmmSum qbxSum
  congr 1
  apply List.map_congr_left
  intro q hq
  have hqb : q.1.getBase = b := hb.2 q.1 (List.of_mem_zip hq).1
  simp only [evaluated, filled] at hcen hx hqb ⊢
  rw [hqb, (hcen i hi).1, (hcen i hi).2, hx]
  rfl

end

/-! ## The hypotheses can be met -/

section

variable [Inhabited P]

open Classical in
/-- any scene with positive radii has an association and a driver -/
theorem runs_exist (Sc : Scene α P (Args α)) (src : TargetAssoc.Source F) (srcDist ctrDist : P → Nat → F)
    (hpos : ∀ c < Sc.ncenters, 0 < src.radTol c) :
    ∃ A : Accel α F P, A.src = src ∧ A.srcDist = srcDist ∧ A.ctrDist = ctrDist ∧ Runs Sc A ∧
      ∀ s t side, (∀ i < Sc.ndofs t, (∃ j < Sc.ndofs s, srcDist (Sc.node t i) j ≤ src.tunnel j) →
          ∃ k < Sc.ncenters, 0 ≤ TargetAssoc.side k * side ∧ ctrDist (Sc.node t i) k ≤ src.radTol k) →
        A.assoc s t side ≠ none := by
  let A0 : Accel α F P := ⟨src, srcDist, ctrDist, none, fun _ _ _ => none, fun _ _ _ => []⟩
  let lst : DD → Int → List (List (P × Nat) × Int) := fun t side =>
    [((List.range (Sc.ndofs t)).map fun i => (Sc.node t i, i), side)]
  let pr0 : DD → DD → Problem DD (P × Nat) F (List α) α := fun s t =>
    problem Sc A0 ⟨"", .laplace 2, 0⟩ ⟨[], .base (.laplace 2), s, t, none, 0⟩ []
  let as : DD → DD → Int → Option (List Int) := fun s t side =>
    if h : ∃ a, Paths.Assoc (pr0 s t) (lst t side) a then some h.choose else none
  have has : ∀ s t side a, as s t side = some a → Paths.Assoc (pr0 s t) (lst t side) a := by
    intro s t side a h
    simp only [as] at h
    split at h
    · rename_i hex
      cases h
      exact hex.choose_spec
    · cases h
  let A1 : Accel α F P := ⟨src, srcDist, ctrDist, none, as, fun _ _ _ => []⟩
  have key : ∀ (g : Pot (Args α)) (x : Expn) (dens : List (Nat → α)), ∃ D : List α, ∀ a,
      as g.src g.tgt (g.limit.getD 0) = some a → Driven
        (fun s u w => Paths.atNode ((problem Sc A1 x g dens).centers ++
          (Paths.points (lst g.tgt (g.limit.getD 0))).map Prod.fst) u fun p => (problem Sc A1 x g dens).K 0 s p w)
        (fun s c u w => Paths.atNode ((problem Sc A1 x g dens).centers ++
          (Paths.points (lst g.tgt (g.limit.getD 0))).map Prod.fst) u fun p => (problem Sc A1 x g dens).Q 0 s c p w)
        (Sc.ndofs g.src) (problem Sc A1 x g dens).centers.length a (problem Sc A1 x g dens).w D := by
    intro g x dens
    cases hA : as g.src g.tgt (g.limit.getD 0) with
    | none => exact ⟨[], fun a h => by cases h⟩
    | some a =>
      obtain ⟨lv, hf, hok⟩ := has _ _ _ _ hA
      have hr := Paths.associate_ok _ _ _ _ hf a hok
      have hrange : ∀ v ∈ a, -1 ≤ v ∧ v < (Sc.ncenters : Int) := by
        intro v hv
        rw [hr, List.mem_map] at hv
        obtain ⟨t, ht, rfl⟩ := hv
        have hs := TargetAssoc.found_spec _ _ _ t (hf t ht)
        have hlen : (pr0 g.src g.tgt).centers.length = Sc.ncenters := by simp [pr0, problem]
        rw [hlen] at hs
        rcases hs with ⟨-, h, -⟩ | ⟨-, -, ⟨-, h, -⟩ | ⟨-, c, hc, h, -⟩⟩ <;> simp only [h] <;> omega
      obtain ⟨D, hD⟩ := Paths.driven_exists
        (fun s u w => Paths.atNode ((problem Sc A1 x g dens).centers ++
          (Paths.points (lst g.tgt (g.limit.getD 0))).map Prod.fst) u fun p => (problem Sc A1 x g dens).K 0 s p w)
        (fun s c u w => Paths.atNode ((problem Sc A1 x g dens).centers ++
          (Paths.points (lst g.tgt (g.limit.getD 0))).map Prod.fst) u fun p => (problem Sc A1 x g dens).Q 0 s c p w)
        (Sc.ndofs g.src) (problem Sc A1 x g dens).centers.length a
        (by rw [show (problem Sc A1 x g dens).centers.length = Sc.ncenters by simp [problem]]; exact hrange) (problem Sc A1 x g dens).w
      exact ⟨D, fun a' h => by cases h; exact hD⟩
  refine ⟨⟨src, srcDist, ctrDist, none, as, fun g x dens => (key g x dens).choose⟩, rfl, rfl, rfl,
    ⟨hpos, by simp, ?_⟩, ?_⟩
  · intro g x dens a ha
    rw [discrs_problem]
    have hD := (key g x dens).choose_spec a ha
    refine ⟨has _ _ _ _ ha, fun k => ⟨_, _, ?_, hD⟩⟩
    intro s u p hp
    have hp' : ((problem Sc A1 x g dens).centers ++ (Paths.points (lst g.tgt (g.limit.getD 0))).map Prod.fst)[u]?
      = some p := hp
    constructor <;> intros <;> simp only [Paths.atNode, hp'] <;> rfl
  · intro s t side hok hnone
    have hc : (pr0 s t).centers.length = Sc.ncenters := by simp [pr0, problem]
    have hex : ∃ a, Paths.Assoc (pr0 s t) (lst t side) a := by
      refine Paths.assoc_exists (pr0 s t) (by rw [hc]; exact hpos) _ ?_
      intro q hq hclose
      simp only [lst, Paths.points, List.flatMap_cons, List.flatMap_nil, List.append_nil, List.map_map, List.mem_map,
        List.mem_range] at hq
      obtain ⟨i, hi, rfl⟩ := hq
      rw [hc]
      exact hok i hi hclose
    simp only [as] at hnone
    rw [dif_pos hex] at hnone
    cases hnone

end

section

/-- the scene of C90 with the centers of nodes 0 and 1 as centers for association, and targets `t` at 9/8 and 41/8, the first
of them near the outer center of node 1 -/
def exFScene : Scene ℚ ℚ (Args ℚ) :=
  { exScene with
    ncenters := 4
    node := fun d i => if d.geometry = .ident "t" then 9/8 + 4 * i else i
    assoc := fun _ _ => [-1, -1, -1, -1, 3, -1]
    qbxCenter := fun k => ((k / 2 : Nat) : ℚ) + if k % 2 = 1 then 1/4 else -1/4 }

/-- tunnels of 1/4, radii 1/4 enlarged by half -/
def exSource : TargetAssoc.Source ℚ := ⟨fun _ => 1/4, fun _ => 3/8, id⟩

theorem exNoTie (p : ℚ) (hp : p = 0 ∨ p = 1 ∨ p = 9/8 ∨ p = 41/8) (side : Int) :
    Paths.NoTie exSource 4 ⟨side, fun j => |p - j|,
      fun k => |p - (((k / 2 : Nat) : ℚ) + if k % 2 = 1 then 1/4 else -1/4)|, [], [], []⟩ := by
  intro c hc c' hc' he he' hs hr
  have hd := he.disk
  have hd' := he'.disk
  have h1 : c = 0 ∨ c = 1 ∨ c = 2 ∨ c = 3 := by omega
  have h2 : c' = 0 ∨ c' = 1 ∨ c' = 2 ∨ c' = 3 := by omega
  rcases h1 with rfl | rfl | rfl | rfl <;> rcases h2 with rfl | rfl | rfl | rfl <;>
    first
    | rfl
    | (exfalso; revert hs; decide)
    | (exfalso; rcases hp with rfl | rfl | rfl | rfl <;> simp only at hd hd' <;>
        first | (revert hd; decide +kernel) | (revert hd'; decide +kernel))

/-- an association and a driver for the scene -/
theorem exRuns : ∃ A : Accel ℚ ℚ ℚ, A.src = exSource ∧ A.srcDist = (fun (p : ℚ) (j : Nat) => |p - (j : ℚ)|) ∧
    A.ctrDist = (fun p k => |p - (((k / 2 : Nat) : ℚ) + if k % 2 = 1 then 1/4 else -1/4)|) ∧ Runs exFScene A ∧
    A.assoc (exD (some .quadStage2)) (exD (some .stage1)) 1 ≠ none ∧
    A.assoc (exD (some .quadStage2)) ⟨.ident "t", some .stage1, .node⟩ 0 ≠ none := by
  obtain ⟨A, h1, h2, h3, h4, h5⟩ := runs_exist exFScene exSource (fun (p : ℚ) (j : Nat) => |p - (j : ℚ)|)
    (fun p k => |p - (((k / 2 : Nat) : ℚ) + if k % 2 = 1 then 1/4 else -1/4)|) (fun _ _ => by simp [exSource])
  have two : ∀ i : Nat, i < 2 → i = 0 ∨ i = 1 := fun i _ => by omega
  refine ⟨A, h1, h2, h3, h4, h5 _ _ _ ?_, h5 _ _ _ ?_⟩
  · intro i hi _
    rcases two i hi with rfl | rfl
    · exact ⟨1, by decide, by decide, by decide +kernel⟩
    · exact ⟨3, by decide, by decide, by decide +kernel⟩
  · intro i hi hc
    rcases two i hi with rfl | rfl
    · exact ⟨3, by decide, by decide, by decide +kernel⟩
    · exfalso
      revert hc
      decide +kernel

/-- `C94_nearest`, `C94_agree_source` apply on the source, with limit `+1` -/
example : ∃ A : Accel ℚ ℚ ℚ, Runs exFScene A ∧ ∀ σ : Direct.Sched, ∃ f f',
    bindEval exEnc Compiler.exCfg (withFmm exI exFScene A exCoding) [(.ident "q", .qbx)] (exD none) (exD none)
        (.node (.intg (exG .p1)) (vars ["sigma"])) exCtx [] = .ok (.ve 2 f) ∧
    bindEval exEnc Compiler.exCfg (withScene exI exFScene σ exCoding) [(.ident "q", .qbx)] (exD none) (exD none)
        (.node (.intg (exG .p1)) (vars ["sigma"])) exCtx [] = .ok (.ve 2 f') ∧
    (∀ i < 2, f i = f' i) ∧ f 0 = 1/2 * (-4 + -4) + 1/2 * (4/3 + (-1/4) / (3/4)^2) := by
  obtain ⟨A, h1, h2, h3, hR, hA, -⟩ := exRuns
  refine ⟨A, hR, fun σ => ?_⟩
  have hv : Given exEnc exI exCtx (filled (exD none) (exD none) (exG .p1)).src 1 ["sigma"] [.ve 2 fun _ => 1] :=
    ⟨⟨_, rfl, rfl⟩, trivial⟩
  have hvF : Given exEnc (withFmm exI exFScene A exCoding) exCtx (filled (exD none) (exD none) (exG .p1)).src 1 ["sigma"]
      [.ve 2 fun _ => 1] := ⟨⟨_, rfl, rfl⟩, trivial⟩
  have hcc : ∀ I : Compiler.Interp (EV ℚ), Compiler.CacheValid I exCtx [] := fun I => by
    intro k v h
    simp at h
  have hd : ∀ u ∈ ([.ve 2 fun _ => 1] : List (EV ℚ)), ∃ f, u = EV.ve 2 f := by
    intro u hu
    rw [List.mem_singleton] at hu
    exact ⟨_, hu⟩
  have hb : SameBase (.laplace 2) [exCoding.kern "G"] := ⟨by simp, by simp [exCoding, Kn.getBase]⟩
  have hno : ∀ i < 2, Paths.NoTie A.src exFScene.ncenters
      ⟨1, A.srcDist (exFScene.node (exD (some .stage1)) i), A.ctrDist (exFScene.node (exD (some .stage1)) i), [], [], []⟩ := by
    intro i hi
    rw [h1, h2, h3]
    have : i = 0 ∨ i = 1 := by omega
    rcases this with rfl | rfl
    · exact exNoTie 0 (by simp) 1
    · exact exNoTie 1 (by simp) 1
  obtain ⟨a, ha⟩ := Option.ne_none_iff_exists'.1 hA
  have hn := assoc_nearest hR (evaluated exCoding exEnc (filled (exD none) (exD none) (exG .p1)) .p1 []) a ha hno
  have hn2 : a = [1, 3] := by
    rw [hn]
    unfold nearest
    rw [h1, h2, h3]
    decide +kernel
  obtain ⟨f, f', k1, k2, k3⟩ := C94_agree_source Compiler.exCfg exI exFScene A exCtx [] hR (exBindable .p1 (by simp))
    Compiler.exCfg_ok exZero σ (hcc _) [] (hcc _) (by simp [exG]) [.ve 2 fun _ => 1] (operands_vars _ _ _ _ hvF)
    (operands_vars _ _ _ _ (given_scene _ _ _ _ hv)) hd (.laplace 2) hb rfl a 1 rfl
    ⟨⟨0, rfl⟩, ⟨1, rfl, rfl, rfl⟩, 1, rfl, by decide⟩ ha
    (by
      intro i hi
      have : i = 0 ∨ i = 1 := by
        have : i < 2 := hi
        omega
      rw [hn2]
      rcases this with rfl | rfl <;> rfl)
    (by
      intro i hi
      have : i = 0 ∨ i = 1 := by
        have : i < 2 := hi
        omega
      rcases this with rfl | rfl <;> exact ⟨by decide +kernel, rfl⟩) rfl
  obtain ⟨f2, l1, l2⟩ := C94_nearest Compiler.exCfg exI exFScene A exCtx [] hR (exBindable .p1 (by simp))
    Compiler.exCfg_ok exZero (hcc _) (by simp [exG]) [.ve 2 fun _ => 1] (operands_vars _ _ _ _ hvF) hd (.laplace 2) hb rfl
    hA hno
  refine ⟨f, f', k1, k2, k3, ?_⟩
  have hff : f2 = f := by
    rw [k1] at l1
    injection l1 with l1
    injection l1 with _ l1
    exact l1.symm
  rw [← hff, l2 0 (by decide)]
  unfold nearest
  rw [h1, h2, h3]
  decide +kernel

/-- `C94_agree_elsewhere` applies to the targets `t` -/
example : ∃ A : Accel ℚ ℚ ℚ, Runs exFScene A ∧ ∃ f f',
    bindEval exEnc Compiler.exCfg (withFmm exI exFScene A exCoding) [(.ident "q", .qbx), (.ident "t", .target)] (exD none)
        ⟨.ident "t", none, .node⟩ (.node (.intg (exG .none)) (vars ["sigma"])) exCtx [] = .ok (.ve 2 f) ∧
    bindEval exEnc Compiler.exCfg (withScene exI exFScene (fun l => l) exCoding) [(.ident "q", .qbx), (.ident "t", .target)]
        (exD none) ⟨.ident "t", none, .node⟩ (.node (.intg (exG .none)) (vars ["sigma"])) exCtx [] = .ok (.ve 2 f') ∧
    ∀ i < 2, f i = f' i := by
  obtain ⟨A, h1, h2, h3, hR, -, hA⟩ := exRuns
  refine ⟨A, hR, ?_⟩
  have hb : Bindable exEnc exCoding [(.ident "q", .qbx), (.ident "t", .target)] (exD none) ⟨.ident "t", none, .node⟩
      (exG .none) (vars ["sigma"]) := by
    refine bindable_vars ⟨by decide, by decide⟩ (by decide) ?_ (by simp [exG]) rfl rfl ?_ (by decide) (by decide)
    · unfold LimitOk
      rw [if_neg (by decide)]
      decide
    · intro x hx i hi
      simp only [List.mem_singleton] at hx
      subst hx
      exact Compiler.toString_nat_ne hi 's' (by decide +kernel) (by decide +kernel) (by decide +kernel)
  have hno : ∀ i < 2, Paths.NoTie A.src exFScene.ncenters
      ⟨0, A.srcDist (exFScene.node ⟨.ident "t", some .stage1, .node⟩ i),
        A.ctrDist (exFScene.node ⟨.ident "t", some .stage1, .node⟩ i), [], [], []⟩ := by
    intro i hi
    rw [h1, h2, h3]
    have : i = 0 ∨ i = 1 := by omega
    rcases this with rfl | rfl
    · have : exFScene.node ⟨.ident "t", some .stage1, .node⟩ 0 = 9/8 := by decide +kernel
      rw [this]
      exact exNoTie _ (by simp) 0
    · have : exFScene.node ⟨.ident "t", some .stage1, .node⟩ 1 = 41/8 := by decide +kernel
      rw [this]
      exact exNoTie _ (by simp) 0
  obtain ⟨a, ha⟩ := Option.ne_none_iff_exists'.1 hA
  have hn := assoc_nearest hR (evaluated exCoding exEnc (filled (exD none) ⟨.ident "t", none, .node⟩ (exG .none)) .none []) a
    ha hno
  have hn2 : a = [3, -1] := by
    rw [hn]
    unfold nearest
    rw [h1, h2, h3]
    decide +kernel
  exact C94_agree_elsewhere Compiler.exCfg exI exFScene A exCtx [] hR hb Compiler.exCfg_ok exZero (fun l => l)
    (fun l => List.Perm.refl l) (by intro k v h; simp at h) [] (by intro k v h; simp at h) (Or.inl rfl) [.ve 2 fun _ => 1]
    (operands_vars _ _ _ _ ⟨⟨_, rfl, rfl⟩, trivial⟩) (operands_vars _ _ _ _ ⟨⟨_, rfl, rfl⟩, trivial⟩)
    (by intro u hu; rw [List.mem_singleton.1 hu]; exact ⟨_, rfl⟩) (.laplace 2)
    ⟨by simp [exG], by simp [exG, exCoding, Kn.getBase]⟩ rfl a ha (by rw [hn2]; rfl) rfl rfl

end

end Verif.BindLayer
