import Verif.QBX.FMMLib
import Mathlib.Tactic.Common

/-!
# Back ends and expansions (C79)

Models how `QBXLayerPotentialSource` chooses expansions and sets up its FMM back ends for the kernels of one
potential statement: `_tree_indep_data_for_wrangler` (`pytential/qbx/__init__.py:617-659`),
`get_expansion_for_qbx_direct_eval` and the two appliers of direct evaluation (`:799-850`), the constructors of the
wranglers (`pytential/qbx/fmm.py:77-204`, `pytential/qbx/fmmlib.py:158-208`).

Simplifications: expansion classes are names; an expansion is a class, a base kernel and an order.  Kernels are a base
kernel with derivatives around it.  `single_valued` (pytools) raises `ValueError`.  What the constructors of sumpy and
boxtree do is not modelled.
-/

namespace Verif.QBXSetup

open Verif.FMMLib (Knl TreeIndep)

/-! # Model -/

/-- a base kernel of `sumpy.kernel`; `id` distinguishes kernels of other kinds -/
inductive Base where
  | laplace (dim : Nat)
  | helmholtz (dim : Nat) (kName : String)
  | other (id : Nat) (translationInvariant : Bool)
deriving DecidableEq, Repr

/-- `is_translation_invariant` (`fmm.py:154`); Laplace and Helmholtz kernels are -/
def Base.invariant : Base → Bool
  | .other _ t => t
  | _ => true

/-- kernels: derivatives around a base kernel (sumpy) -/
inductive Kn where
  | base (b : Base)
  | dirSource (name : String) (k : Kn)
  | axisSource (axis : Nat) (k : Kn)
  | axisTarget (axis : Nat) (k : Kn)
  | dirTarget (name : String) (k : Kn)
deriving DecidableEq, Repr

/-- `get_base_kernel` (used in `qbx/__init__.py:619-620`) -/
def Kn.getBase : Kn → Base
  | .base b => b
  | .dirSource _ k => k.getBase
  | .axisSource _ k => k.getBase
  | .axisTarget _ k => k.getBase
  | .dirTarget _ k => k.getBase

/-- `replace_base_kernel` (used in `qbx/__init__.py:645-648`) -/
def Kn.replaceBase : Kn → Kn → Kn
  | .base _, s => s
  | .dirSource n k, s => .dirSource n (k.replaceBase s)
  | .axisSource a k, s => .axisSource a (k.replaceBase s)
  | .axisTarget a k, s => .axisTarget a (k.replaceBase s)
  | .dirTarget n k, s => .dirTarget n (k.replaceBase s)

/-- `TargetDerivativeRemover` (used in `qbx/__init__.py:805`) -/
def Kn.txr : Kn → Kn
  | .base b => .base b
  | .dirSource n k => .dirSource n k.txr
  | .axisSource a k => .axisSource a k.txr
  | .axisTarget _ k => k.txr
  | .dirTarget _ k => k.txr

/-- a kernel as `FMMLib.digest` looks at it: wrappers it does not know are `other` -/
def Kn.toKnl : Kn → Knl
  | .base (.laplace d) => .laplace d
  | .base (.helmholtz d n) => .helmholtz d n
  | .base (.other _ _) => .other
  | .dirSource n k => .dirSource n k.toKnl
  | .axisTarget a k => .axisTarget a k.toKnl
  | .axisSource _ _ => .other
  | .dirTarget _ _ => .other

/-- an expansion: class, base kernel, order -/
structure Expn where
  cls : String
  kernel : Base
  order : Nat
deriving DecidableEq, Repr

/-- `expansion_factory`: the classes it picks for a base kernel; `qbxLocal` is `none` if asking for it raises
`AttributeError` (`qbx/__init__.py:621-630`) -/
structure Factory where
  mpole : Base → String
  locl : Base → String
  qbxLocal : Base → Option String

/-- exceptions -/
inductive SErr
  | value
  | index
  | unboundLocal
  | key
deriving DecidableEq, Repr

/-- `single_valued(k.get_base_kernel() for k in source_kernels)` (`qbx/__init__.py:619-620`) -/
def commonBase : List Kn → Except SErr Base
  | [] => .error .value
  | k :: ks => if ks.all fun x => x.getBase = k.getBase then .ok k.getBase else .error .value

/-- the class of QBX local expansions (`qbx/__init__.py:626-630`) -/
def qbxClass (f : Factory) (b : Base) : String := (f.qbxLocal b).getD (f.locl b)

/-- what the wranglers need to know before they see a tree (`qbx/__init__.py:632-656`) -/
inductive TI
  | sumpy (mpole locl qbx : String) (base : Base) (targets sources : List Kn)
  | fmmlib (base : Base) (ti : TreeIndep)
deriving DecidableEq, Repr

/-- errors of the constructor of the FMMLib data -/
def liftErr : FMMLib.Err → SErr
  | .value => .value
  | .index => .index
  | .shape => .value

/-- the FMMLib branch (`qbx/__init__.py:643-656`): `source_kernel, = source_kernels` needs exactly one -/
def fmmlibData (base : Base) (useTs : Option Bool) (tks : List Kn) : List Kn → Except SErr TI
  | [s] => match FMMLib.digest useTs (tks.map fun t => (t.replaceBase s).toKnl) with
    | .ok ti => .ok (.fmmlib base ti)
    | .error e => .error (liftErr e)
  | _ => .error .value

/-- `_tree_indep_data_for_wrangler` (`qbx/__init__.py:617-659`) -/
def treeIndep (f : Factory) (backend : String) (useTs : Option Bool) (sks tks : List Kn) : Except SErr TI :=
  match commonBase sks with
  | .error e => .error e
  | .ok b =>
    if backend = "sumpy" then .ok (.sumpy (f.mpole b) (f.locl b) (qbxClass f b) b tks sks)
    else if backend = "fmmlib" then fmmlibData b useTs tks sks
    else .error .value

/-- what a wrangler is set up with, as far as pytential decides it: sumpy's translation operators by name, FMMLib's
Helmholtz parameter and dipole vectors -/
inductive Wrangler (C : Type)
  | sumpy (ti : TI)
  | fmmlib (ti : TreeIndep) (k : C) (dipole : Option (List C))
deriving DecidableEq, Repr

/-- `helmholtz_k` (`fmmlib.py:172-175`) -/
def helmholtzK {C : Type} (zero : C) (kernelArgs : List (String × C)) : Option String → Except SErr C
  | none => .ok zero
  | some n => match kernelArgs.lookup n with
    | some v => .ok v
    | none => .error .key

/-- `dipole_vec` (`fmmlib.py:177-183`) -/
def dipoleVec {C : Type} (sourceArgs : List (String × List C)) : Option String → Except SErr (Option (List C))
  | none => .ok none
  | some n => match sourceArgs.lookup n with
    | some v => .ok (some v)
    | none => .error .key

/-- the constructors of the wranglers (`fmm.py:138-167`, `fmmlib.py:158-208`).  In the first, `traversal` is only
assigned where the translation classes are built, that is for translation invariant kernels. -/
def wrangler {C : Type} (zero : C) (useTs : Option Bool) (kernelArgs : List (String × C))
    (sourceArgs : List (String × List C)) : TI → Except SErr (Wrangler C)
  | .sumpy m l q b t s =>
    if useTs = some true then .error .value
    else if b.invariant then .ok (.sumpy (.sumpy m l q b t s))
    else .error .unboundLocal
  | .fmmlib _ ti => match helmholtzK zero kernelArgs ti.kName with
    | .error e => .error e
    | .ok k => match dipoleVec sourceArgs ti.sourceDeriv with
      | .error e => .error e
      | .ok d => .ok (.fmmlib ti k d)

/-- both steps (`qbx/__init__.py:732-743`) -/
def setup {C : Type} (zero : C) (f : Factory) (backend : String) (useTs : Option Bool) (sks tks : List Kn)
    (kernelArgs : List (String × C)) (sourceArgs : List (String × List C)) : Except SErr (Wrangler C) :=
  match treeIndep f backend useTs sks tks with
  | .error e => .error e
  | .ok ti => wrangler zero useTs kernelArgs sourceArgs ti

/-- the expansions behind sumpy's QBX operators `p2qbxl`, `m2qbxl`, `l2qbxl`, `qbxl2p` (`fmm.py:92-121`): `use_rscale`
is never given (`fmm.py:86-88`), so `qbx_local_expansion` is the factory alone -/
def qbxOps (f : Factory) (b : Base) (srcOrder tgtOrder : Nat) : List (Option Expn × Expn) :=
  [(none, ⟨qbxClass f b, b, tgtOrder⟩),
   (some ⟨f.mpole b, b, srcOrder⟩, ⟨qbxClass f b, b, tgtOrder⟩),
   (some ⟨f.locl b, b, srcOrder⟩, ⟨qbxClass f b, b, tgtOrder⟩),
   (none, ⟨qbxClass f b, b, tgtOrder⟩)]

/-- `inner_fmm_level_to_order`: the kernel and arguments with which the user's function is asked for the order of a
level (`fmmlib.py:185-193`) -/
def orderQuery {C : Type} [DecidableEq C] (zero : C) (dim : Nat) (k : C) : Base × List (String × C) :=
  if k = zero then (.laplace dim, []) else (.helmholtz dim "k", [("k", k)])

/-- `get_expansion_for_qbx_direct_eval` (`qbx/__init__.py:799-810`) -/
def directExpn (f : Factory) (b : Base) (tks : List Kn) (qbxOrder : Nat) : Expn :=
  if tks.any fun t => t ≠ t.txr then ⟨f.locl b, b, qbxOrder⟩ else ⟨"LineTaylorLocalExpansion", b, qbxOrder⟩

/-- expansion of `get_lpot_applier`: targets on the source itself (`qbx/__init__.py:812-828`) -/
def onSurface (f : Factory) (sks tks : List Kn) (qbxOrder : Nat) : Except SErr Expn :=
  match commonBase sks with
  | .error e => .error e
  | .ok b => .ok (directExpn f b tks qbxOrder)

/-- expansion of `get_lpot_applier_on_tgt_subset`: other targets (`qbx/__init__.py:830-850`) -/
def offSurface (sks : List Kn) (qbxOrder : Nat) : Except SErr Expn :=
  match commonBase sks with
  | .error e => .error e
  | .ok b => .ok ⟨"VolumeTaylorLocalExpansion", b, qbxOrder⟩

/-! # Specification -/

/-- all kernels have this base kernel, and there is one -/
def SameBase (b : Base) (ks : List Kn) : Prop := ks ≠ [] ∧ ∀ k ∈ ks, k.getBase = b

/-- number of target derivatives anywhere in a kernel -/
def targetDerivs : Kn → Nat
  | .base _ => 0
  | .dirSource _ k => targetDerivs k
  | .axisSource _ k => targetDerivs k
  | .axisTarget _ k => targetDerivs k + 1
  | .dirTarget _ k => targetDerivs k + 1

/-- number of source derivatives anywhere in a kernel -/
def sourceDerivs : Kn → Nat
  | .base _ => 0
  | .dirSource _ k => sourceDerivs k + 1
  | .axisSource _ k => sourceDerivs k + 1
  | .axisTarget _ k => sourceDerivs k
  | .dirTarget _ k => sourceDerivs k

/-- a Laplace or Helmholtz kernel in one of these dimensions -/
def LapHelm (dims : List Nat) (b : Base) : Prop := ∃ d ∈ dims, b = .laplace d ∨ ∃ n, b = .helmholtz d n

/-- the source kernels FMMLib can do: potentials of charges or dipoles -/
def Charges (dims : List Nat) (s : Kn) : Prop :=
  ∃ b, LapHelm dims b ∧ (s = .base b ∨ ∃ n, s = .dirSource n (.base b))

/-- the axis of a target kernel that is the potential (`none`) or one component of its gradient -/
def IsOutput (t : Kn) (axis : Option Nat) : Prop :=
  ∃ b, (axis = none ∧ t = .base b) ∨ ∃ a, axis = some a ∧ t = .axisTarget a (.base b)

/-- name of the Helmholtz parameter of a base kernel -/
def kParam : Base → Option String
  | .helmholtz _ n => some n
  | _ => none

/-- name of the direction of a dipole kernel -/
def dipoleName : Kn → Option String
  | .dirSource n _ => some n
  | _ => none

/-! # Proofs -/

theorem commonBase_ok (ks : List Kn) (b : Base) : commonBase ks = .ok b ↔ SameBase b ks := by
  cases ks with
  | nil => simp [commonBase, SameBase]
  | cons k ks =>
    simp only [commonBase, SameBase, ne_eq, reduceCtorEq, not_false_eq_true, true_and, List.mem_cons, forall_eq_or_imp]
    by_cases h : (ks.all fun x => x.getBase = k.getBase) = true
    · rw [if_pos h]
      simp only [List.all_eq_true, decide_eq_true_eq] at h
      constructor
      · intro hb
        cases hb
        exact ⟨rfl, h⟩
      · rintro ⟨rfl, _⟩
        rfl
    · rw [if_neg h]
      constructor
      · intro hb; cases hb
      · rintro ⟨rfl, h2⟩
        exact absurd (by simpa using h2) h

theorem commonBase_err (ks : List Kn) (e : SErr) (h : commonBase ks = .error e) : e = .value := by
  cases ks with
  | nil => cases h; rfl
  | cons k ks =>
    rw [commonBase] at h
    split at h
    · cases h
    · cases h; rfl

theorem txr_ne (t : Kn) : t ≠ t.txr ↔ 0 < targetDerivs t := by
  have hlen : ∀ t : Kn, targetDerivs t.txr = 0 := by
    intro t
    induction t <;> simp_all [Kn.txr, targetDerivs]
  have heq : ∀ t : Kn, targetDerivs t = 0 → t.txr = t := by
    intro t
    induction t <;> simp_all [Kn.txr, targetDerivs]
  constructor
  · intro h
    rcases Nat.eq_zero_or_pos (targetDerivs t) with h0 | h0
    · exact absurd (heq t h0).symm h
    · exact h0
  · intro h he
    have := hlen t
    rw [← he] at this
    omega

theorem any_txr (tks : List Kn) : (tks.any fun t => t ≠ t.txr) = true ↔ ∃ t ∈ tks, 0 < targetDerivs t := by
  simp only [List.any_eq_true, decide_eq_true_eq, txr_ne]

/-- **C79, the sumpy back end**: a potential statement can be set up exactly if its source kernels have one base kernel,
target-specific QBX is not demanded and the base kernel is translation invariant; all of multipole, local and QBX
expansions are those the factory picks for the base kernel.  Partial: kernels that are not translation invariant are refused,
not by an error message but an unbound variable (`C79_invariant_refuted`). -/
theorem C79_sumpy_partial {C : Type} (zero : C) (f : Factory) (useTs : Option Bool) (sks tks : List Kn)
    (ka : List (String × C)) (sa : List (String × List C)) :
    (∀ b, SameBase b sks → useTs ≠ some true → b.invariant = true →
      setup zero f "sumpy" useTs sks tks ka sa
        = .ok (.sumpy (.sumpy (f.mpole b) (f.locl b) (qbxClass f b) b tks sks))) ∧
    (∀ w, setup zero f "sumpy" useTs sks tks ka sa = .ok w →
      useTs ≠ some true ∧ ∃ b, SameBase b sks ∧ b.invariant = true) ∧
    (∀ e, setup zero f "sumpy" useTs sks tks ka sa = .error e →
      (e = .value ∧ (useTs = some true ∨ ∀ b, ¬ SameBase b sks)) ∨
      (e = .unboundLocal ∧ ∃ b, SameBase b sks ∧ b.invariant = false)) := by
  have key : ∀ b, commonBase sks = .ok b → setup zero f "sumpy" useTs sks tks ka sa =
      if useTs = some true then .error .value
      else if b.invariant then .ok (.sumpy (.sumpy (f.mpole b) (f.locl b) (qbxClass f b) b tks sks))
      else .error .unboundLocal := by
    intro b h
    rw [setup, treeIndep, h]
    rfl
  have kerr : ∀ e, commonBase sks = .error e → setup zero f "sumpy" useTs sks tks ka sa = .error e := by
    intro e h
    rw [setup, treeIndep, h]
  refine ⟨?_, ?_, ?_⟩
  · intro b hb hu hi
    rw [key b ((commonBase_ok _ _).2 hb), if_neg hu, if_pos hi]
  · intro w hw
    cases hc : commonBase sks with
    | error e => rw [kerr e hc] at hw; cases hw
    | ok b =>
      rw [key b hc] at hw
      by_cases hu : useTs = some true
      · rw [if_pos hu] at hw; cases hw
      · rw [if_neg hu] at hw
        by_cases hi : b.invariant = true
        · exact ⟨hu, b, (commonBase_ok _ _).1 hc, hi⟩
        · rw [if_neg hi] at hw; cases hw
  · intro e he
    cases hc : commonBase sks with
    | error e' =>
      rw [kerr e' hc] at he
      cases he
      refine Or.inl ⟨commonBase_err _ _ hc, Or.inr fun b hb => ?_⟩
      rw [(commonBase_ok _ _).2 hb] at hc
      cases hc
    | ok b =>
      rw [key b hc] at he
      by_cases hu : useTs = some true
      · rw [if_pos hu] at he
        cases he
        exact Or.inl ⟨rfl, Or.inl hu⟩
      · rw [if_neg hu] at he
        by_cases hi : b.invariant = true
        · rw [if_pos hi] at he; cases he
        · rw [if_neg hi] at he
          cases he
          exact Or.inr ⟨rfl, b, (commonBase_ok _ _).1 hc, by simpa using hi⟩

/-- **C79, the sumpy back end for standard kernels**: Laplace and Helmholtz kernels with any derivatives are always set
up, unless target-specific QBX is demanded. -/
theorem C79_sumpy_standard {C : Type} (zero : C) (f : Factory) (useTs : Option Bool) (sks tks : List Kn)
    (ka : List (String × C)) (sa : List (String × List C)) (b : Base) (hs : SameBase b sks) (ht : useTs ≠ some true)
    (hb : (∃ d, b = .laplace d) ∨ ∃ d n, b = .helmholtz d n) :
    setup zero f "sumpy" useTs sks tks ka sa
      = .ok (.sumpy (.sumpy (f.mpole b) (f.locl b) (qbxClass f b) b tks sks)) :=
  (C79_sumpy_partial zero f useTs sks tks ka sa).1 b hs ht (by
    rcases hb with ⟨d, rfl⟩ | ⟨d, n, rfl⟩ <;> rfl)

example : SameBase (.helmholtz 3 "k") [.dirSource "n" (.base (.helmholtz 3 "k"))] := ⟨by simp, by simp [Kn.getBase]⟩

/-- **C79 is false** for kernels that are not translation invariant: with the sumpy back end every statement with such a
kernel fails, with an unbound variable. -/
theorem C79_invariant_refuted {C : Type} (zero : C) (f : Factory) (id : Nat) (tks : List Kn) (ka : List (String × C))
    (sa : List (String × List C)) :
    setup zero f "sumpy" none [.base (.other id false)] tks ka sa = .error .unboundLocal := rfl

/-- **C79, unknown back ends** are refused with `ValueError`. -/
theorem C79_backend {C : Type} (zero : C) (f : Factory) (backend : String) (useTs : Option Bool) (sks tks : List Kn)
    (ka : List (String × C)) (sa : List (String × List C)) (h1 : backend ≠ "sumpy") (h2 : backend ≠ "fmmlib") :
    setup zero f backend useTs sks tks ka sa = .error .value := by
  rw [setup, treeIndep]
  cases hc : commonBase sks with
  | error e => rw [commonBase_err _ _ hc]
  | ok b => simp only [h1, h2, if_false]

/-- **C79, sumpy's QBX operators**: all form, translate and evaluate one and the same QBX expansion: same class, kernel
and order. -/
theorem C79_one_expansion (f : Factory) (b : Base) (so tor : Nat) :
    ∀ p ∈ qbxOps f b so tor, p.2 = ⟨(f.qbxLocal b).getD (f.locl b), b, tor⟩ ∧
      ∀ e, p.1 = some e → e.kernel = b ∧ e.order = so := by
  intro p hp
  simp only [qbxOps, List.mem_cons, List.not_mem_nil, or_false] at hp
  rcases hp with rfl | rfl | rfl | rfl
  · exact ⟨rfl, by intro e h; cases h⟩
  · exact ⟨rfl, by intro e h; cases h; exact ⟨rfl, rfl⟩⟩
  · exact ⟨rfl, by intro e h; cases h; exact ⟨rfl, rfl⟩⟩
  · exact ⟨rfl, by intro e h; cases h⟩

/-! ## FMMLib -/

theorem toKnl_laplace {k : Kn} {d : Nat} (h : k.toKnl = .laplace d) : k = .base (.laplace d) := by
  cases k with
  | base b => cases b <;> simp_all [Kn.toKnl]
  | _ => cases h

theorem toKnl_helmholtz {k : Kn} {d : Nat} {n : String} (h : k.toKnl = .helmholtz d n) : k = .base (.helmholtz d n) := by
  cases k with
  | base b => cases b <;> simp_all [Kn.toKnl]
  | _ => cases h

theorem toKnl_dir {k : Kn} {n : String} {i : Knl} (h : k.toKnl = .dirSource n i) : ∃ k', k = .dirSource n k' ∧ k'.toKnl = i := by
  cases k with
  | base b => cases b <;> simp_all [Kn.toKnl]
  | dirSource m k => simp only [Kn.toKnl, Knl.dirSource.injEq] at h; exact ⟨k, by rw [h.1], h.2⟩
  | _ => cases h

theorem toKnl_axis {k : Kn} {n : Nat} {i : Knl} (h : k.toKnl = .axisTarget n i) : ∃ k', k = .axisTarget n k' ∧ k'.toKnl = i := by
  cases k with
  | base b => cases b <;> simp_all [Kn.toKnl]
  | axisTarget m k => simp only [Kn.toKnl, Knl.axisTarget.injEq] at h; exact ⟨k, by rw [h.1], h.2⟩
  | _ => cases h

theorem isBase_toKnl (dims : List Nat) (k : Kn) : FMMLib.IsBase dims k.toKnl ↔ ∃ b, LapHelm dims b ∧ k = .base b := by
  constructor
  · rintro ⟨d, hd, h | ⟨n, h⟩⟩
    · exact ⟨_, ⟨d, hd, Or.inl rfl⟩, toKnl_laplace h⟩
    · exact ⟨_, ⟨d, hd, Or.inr ⟨n, rfl⟩⟩, toKnl_helmholtz h⟩
  · rintro ⟨b, ⟨d, hd, rfl | ⟨n, rfl⟩⟩, rfl⟩
    · exact ⟨d, hd, Or.inl rfl⟩
    · exact ⟨d, hd, Or.inr ⟨n, rfl⟩⟩

theorem plain_toKnl (s : Kn) : FMMLib.Plain s.toKnl ↔ Charges [2, 3] s := by
  constructor
  · rintro (h | ⟨n, i, h, hb⟩)
    · obtain ⟨b, hb, rfl⟩ := (isBase_toKnl _ _).1 h
      exact ⟨b, hb, Or.inl rfl⟩
    · obtain ⟨k', rfl, rfl⟩ := toKnl_dir h
      obtain ⟨b, hb', rfl⟩ := (isBase_toKnl _ _).1 hb
      exact ⟨b, hb', Or.inr ⟨n, rfl⟩⟩
  · rintro ⟨b, hb, rfl | ⟨n, rfl⟩⟩
    · exact Or.inl ((isBase_toKnl _ _).2 ⟨b, hb, rfl⟩)
    · exact Or.inr ⟨n, _, rfl, (isBase_toKnl _ (.base b)).2 ⟨b, hb, rfl⟩⟩

theorem not_charges_axis (dims : List Nat) (a : Nat) (k : Kn) : ¬ Charges dims (.axisTarget a k) := by
  rintro ⟨b, _, h | ⟨n, h⟩⟩ <;> cases h

theorem not_charges_dir (dims : List Nat) (a : String) (k : Kn) : ¬ Charges dims (.dirTarget a k) := by
  rintro ⟨b, _, h | ⟨n, h⟩⟩ <;> cases h

theorem handled_axis (a : Nat) (k : Kn) : FMMLib.Handled (Kn.axisTarget a k).toKnl ↔ Charges [2, 3] k := by
  constructor
  · rintro (h | ⟨a', i, h, hp⟩)
    · exact absurd ((plain_toKnl _).1 h) (not_charges_axis _ _ _)
    · obtain ⟨k', hk, rfl⟩ := toKnl_axis h
      cases hk
      exact (plain_toKnl _).1 hp
  · intro h
    exact Or.inr ⟨a, _, rfl, (plain_toKnl _).2 h⟩

theorem handled_iff (s t : Kn) (hs : targetDerivs s = 0) (ht : sourceDerivs t = 0) :
    FMMLib.Handled (t.replaceBase s).toKnl ↔ Charges [2, 3] s ∧ ∃ a, IsOutput t a := by
  cases t with
  | base b =>
    constructor
    · rintro (h | ⟨a, i, h, hp⟩)
      · exact ⟨(plain_toKnl s).1 h, none, b, Or.inl ⟨rfl, rfl⟩⟩
      · obtain ⟨k', hk, rfl⟩ := toKnl_axis h
        rw [Kn.replaceBase] at hk
        rw [hk] at hs
        simp [targetDerivs] at hs
    · rintro ⟨h, -⟩
      exact Or.inl ((plain_toKnl s).2 h)
  | dirSource n k => simp [sourceDerivs] at ht
  | axisSource n k => simp [sourceDerivs] at ht
  | axisTarget a k =>
    rw [Kn.replaceBase, handled_axis]
    cases k with
    | base b =>
      exact ⟨fun h => ⟨h, some a, b, Or.inr ⟨a, rfl, rfl⟩⟩, fun h => h.1⟩
    | dirSource n k => simp [sourceDerivs] at ht
    | axisSource n k => simp [sourceDerivs] at ht
    | axisTarget a' k =>
      refine ⟨fun h => absurd h (not_charges_axis _ _ _), ?_⟩
      rintro ⟨-, x, b, ⟨-, h⟩ | ⟨y, -, h⟩⟩ <;> cases h
    | dirTarget a' k =>
      refine ⟨fun h => absurd h (not_charges_dir _ _ _), ?_⟩
      rintro ⟨-, x, b, ⟨-, h⟩ | ⟨y, -, h⟩⟩ <;> cases h
  | dirTarget n k =>
    constructor
    · rintro (h | ⟨a, i, h, hp⟩)
      · exact absurd ((plain_toKnl _).1 h) (not_charges_dir _ _ _)
      · cases h
    · rintro ⟨-, x, b, ⟨-, h⟩ | ⟨y, -, h⟩⟩ <;> cases h

/-- what FMMLib sees of an output -/
theorem output_facts (s t : Kn) (a : Option Nat) (hs : Charges [2, 3] s) (ht : IsOutput t a) :
    FMMLib.axisOf (t.replaceBase s).toKnl = a ∧ FMMLib.sourceName (t.replaceBase s).toKnl = dipoleName s ∧
    FMMLib.kNameOf (t.replaceBase s).toKnl.base = kParam s.getBase := by
  obtain ⟨b, ⟨d, _, rfl | ⟨n, rfl⟩⟩, rfl | ⟨m, rfl⟩⟩ := hs <;>
    obtain ⟨b', ⟨rfl, rfl⟩ | ⟨a', rfl, rfl⟩⟩ := ht <;> exact ⟨rfl, rfl, rfl⟩

theorem ts_iff (s t : Kn) (a : Option Nat) (hs : Charges [2, 3] s) (ht : IsOutput t a) :
    FMMLib.TsHandled (t.replaceBase s).toKnl ↔ Charges [3] s ∧ (a = none ∨ dipoleName s = none) := by
  have hb : ∀ b : Base, FMMLib.IsBase [3] (Kn.base b).toKnl ↔ LapHelm [3] b := by
    intro b
    rw [isBase_toKnl]
    constructor
    · rintro ⟨b', h, h'⟩; cases h'; exact h
    · intro h; exact ⟨b, h, rfl⟩
  have nb : ∀ n k, ¬ FMMLib.IsBase [3] (Kn.dirSource n k).toKnl := by
    rintro n k ⟨d, _, h | ⟨m, h⟩⟩ <;> cases h
  have na : ∀ n k, ¬ FMMLib.IsBase [3] (Kn.axisTarget n k).toKnl := by
    rintro n k ⟨d, _, h | ⟨m, h⟩⟩ <;> cases h
  have c1 : ∀ b, Charges [3] (.base b) ↔ LapHelm [3] b := by
    intro b
    constructor
    · rintro ⟨b', h, h' | ⟨n, h'⟩⟩
      · cases h'; exact h
      · cases h'
    · intro h; exact ⟨b, h, Or.inl rfl⟩
  have c2 : ∀ n b, Charges [3] (.dirSource n (.base b)) ↔ LapHelm [3] b := by
    intro n b
    constructor
    · rintro ⟨b', h, h' | ⟨n, h'⟩⟩
      · cases h'
      · cases h'; exact h
    · intro h; exact ⟨b, h, Or.inr ⟨n, rfl⟩⟩
  have basecase : ∀ b : Base, FMMLib.TsHandled (Kn.base b).toKnl ↔ LapHelm [3] b := by
    intro b
    constructor
    · rintro (h | ⟨n, i, h, -⟩ | ⟨n, i, h, -⟩)
      · exact (hb b).1 h
      · cases b <;> cases h
      · cases b <;> cases h
    · intro h; exact Or.inl ((hb b).2 h)
  obtain ⟨b, hbb, rfl | ⟨m, rfl⟩⟩ := hs <;> obtain ⟨b', ⟨rfl, rfl⟩ | ⟨a', rfl, rfl⟩⟩ := ht
  · rw [c1]
    simp only [Kn.replaceBase, true_or, and_true]
    exact basecase b
  · rw [c1]
    simp only [Kn.replaceBase, dipoleName, or_true, and_true]
    constructor
    · rintro (h | ⟨n, i, h, -⟩ | ⟨n, i, h, hi⟩)
      · exact absurd h (na _ _)
      · cases h
      · cases h
        exact (hb b).1 hi
    · intro h; exact Or.inr (Or.inr ⟨a', _, rfl, (hb b).2 h⟩)
  · rw [c2]
    simp only [Kn.replaceBase, true_or, and_true]
    constructor
    · rintro (h | ⟨n, i, h, hi⟩ | ⟨n, i, h, hi⟩)
      · exact absurd h (nb _ _)
      · cases h
        exact (hb b).1 hi
      · cases h
    · intro h; exact Or.inr (Or.inl ⟨m, _, rfl, (hb b).2 h⟩)
  · simp only [Kn.replaceBase, dipoleName, reduceCtorEq, or_self, and_false, iff_false]
    rintro (h | ⟨n, i, h, hi⟩ | ⟨n, i, h, hi⟩)
    · exact absurd h (na _ _)
    · cases h
    · cases h
      exact absurd hi (nb _ _)

/-- **C79, the FMMLib back end**: a statement (with at least one output) is accepted exactly if it has a single source
kernel, which is a 2D or 3D Laplace or Helmholtz kernel or a directional source derivative of one, each target kernel is the
potential or one component of its gradient and, where target-specific QBX is demanded, the kernel is three-dimensional
without both derivatives; anything else raises `ValueError`. -/
theorem C79_fmmlib (f : Factory) (useTs : Option Bool) (sks tks : List Kn) (hne : tks ≠ [])
    (hs : ∀ s ∈ sks, targetDerivs s = 0) (ht : ∀ t ∈ tks, sourceDerivs t = 0) :
    ((∃ ti, treeIndep f "fmmlib" useTs sks tks = .ok ti) ↔
      ∃ s, sks = [s] ∧ Charges [2, 3] s ∧ (∀ t ∈ tks, ∃ a, IsOutput t a) ∧
        (useTs = some true → Charges [3] s ∧ ∀ t ∈ tks, IsOutput t none ∨ dipoleName s = none)) ∧
    ∀ e, treeIndep f "fmmlib" useTs sks tks = .error e → e = .value := by
  have hdisp : ∀ b, commonBase sks = .ok b → treeIndep f "fmmlib" useTs sks tks = fmmlibData b useTs tks sks := by
    intro b h
    rw [treeIndep, h]
    rfl
  have herr : ∀ e, commonBase sks = .error e → treeIndep f "fmmlib" useTs sks tks = .error e := by
    intro e h
    rw [treeIndep, h]
  match sks with
  | [] =>
    constructor
    · constructor
      · rintro ⟨ti, h⟩; cases h
      · rintro ⟨s, h, -⟩; cases h
    · intro e h; cases h; rfl
  | [s] =>
    have hs' := hs s (by simp)
    have hb : commonBase [s] = .ok s.getBase := rfl
    have hD := FMMLib.C59_digest useTs (tks.map fun t => (t.replaceBase s).toKnl)
    have hm : ∀ (p : Knl → Prop), (∀ k ∈ (tks.map fun t => (t.replaceBase s).toKnl), p k) ↔
        ∀ t ∈ tks, p (t.replaceBase s).toKnl := by
      intro p; simp
    rw [hdisp _ hb]
    constructor
    · have h1 : (∃ ti, fmmlibData s.getBase useTs tks [s] = .ok ti) ↔
          ∃ ti, FMMLib.digest useTs (tks.map fun t => (t.replaceBase s).toKnl) = .ok ti := by
        rw [fmmlibData]
        cases FMMLib.digest useTs (tks.map fun t => (t.replaceBase s).toKnl) with
        | ok ti => exact ⟨fun _ => ⟨ti, rfl⟩, fun _ => ⟨_, rfl⟩⟩
        | error e => exact ⟨(by rintro ⟨_, h⟩; cases h), (by rintro ⟨_, h⟩; cases h)⟩
      rw [h1, hD.1, hm, hm]
      constructor
      · rintro ⟨-, h2, -, -, h3⟩
        have hall : ∀ t ∈ tks, Charges [2, 3] s ∧ ∃ a, IsOutput t a := fun t h => (handled_iff s t hs' (ht t h)).1 (h2 t h)
        obtain ⟨t0, ht0⟩ := List.exists_mem_of_ne_nil _ hne
        have hc := (hall t0 ht0).1
        refine ⟨s, rfl, hc, fun t h => (hall t h).2, fun hu => ⟨?_, fun t h => ?_⟩⟩
        · obtain ⟨a, ha⟩ := (hall t0 ht0).2
          exact ((ts_iff s t0 a hc ha).1 (h3 hu t0 ht0)).1
        · obtain ⟨a, ha⟩ := (hall t h).2
          rcases ((ts_iff s t a hc ha).1 (h3 hu t h)).2 with rfl | h'
          · exact Or.inl ha
          · exact Or.inr h'
      · rintro ⟨s', hss, hc, hout, hts⟩
        cases hss
        refine ⟨by simpa using hne, fun t h => (handled_iff s t hs' (ht t h)).2 ⟨hc, hout t h⟩, ?_, ?_, ?_⟩
        · refine ⟨dipoleName s, fun k hk => ?_⟩
          obtain ⟨t, h, rfl⟩ := List.mem_map.1 hk
          obtain ⟨a, ha⟩ := hout t h
          exact (output_facts s t a hc ha).2.1
        · refine ⟨kParam s.getBase, fun k hk => ?_⟩
          obtain ⟨t, h, rfl⟩ := List.mem_map.1 hk
          obtain ⟨a, ha⟩ := hout t h
          exact (output_facts s t a hc ha).2.2
        · intro hu t h
          obtain ⟨h4, h5⟩ := hts hu
          rcases h5 t h with h6 | h6
          · exact (ts_iff s t none hc h6).2 ⟨h4, Or.inl rfl⟩
          · obtain ⟨a, ha⟩ := hout t h
            exact (ts_iff s t a hc ha).2 ⟨h4, Or.inr h6⟩
    · intro e h
      rw [fmmlibData] at h
      have hl : tks.map (fun t => (t.replaceBase s).toKnl) ≠ [] := by simpa using hne
      have hE : ∀ e, FMMLib.digest useTs (tks.map fun t => (t.replaceBase s).toKnl) = .error e → e = .value := by
        intro e he
        rw [FMMLib.digest, if_neg hl] at he
        cases hd : FMMLib.digestLoop useTs (tks.map fun t => (t.replaceBase s).toKnl)
            ⟨useTs != some false, false, [], [], []⟩ with
        | error e' =>
          rw [hd] at he
          cases he
          have := FMMLib.digestLoop_spec useTs (tks.map fun t => (t.replaceBase s).toKnl) ⟨useTs != some false, false, [], [], []⟩
          by_cases hall : ∀ k ∈ tks.map (fun t => (t.replaceBase s).toKnl),
              FMMLib.Handled k ∧ (useTs = some true → FMMLib.TsHandled k)
          · rw [this.1 hall] at hd; cases hd
          · rw [this.2 hall] at hd; cases hd; rfl
        | ok a =>
          rw [hd] at he
          simp only at he
          by_cases h1 : FMMLib.singleValued a.derivs = false
          · rw [if_pos h1] at he; cases he; rfl
          · rw [if_neg h1] at he
            by_cases h2 : FMMLib.singleValued a.ks = false
            · rw [if_pos h2] at he; cases he; rfl
            · rw [if_neg h2] at he; cases he
      cases hd : FMMLib.digest useTs (tks.map fun t => (t.replaceBase s).toKnl) with
      | ok ti => rw [hd] at h; cases h
      | error e' =>
        rw [hd] at h
        cases h
        rw [hE e' hd]
        rfl
  | s :: s' :: l =>
    constructor
    · constructor
      · rintro ⟨ti, h⟩
        cases hc : commonBase (s :: s' :: l) with
        | error e => rw [herr e hc] at h; cases h
        | ok b => rw [hdisp b hc] at h; cases h
      · rintro ⟨x, h, -⟩; cases h
    · intro e h
      cases hc : commonBase (s :: s' :: l) with
      | error e' => rw [herr e' hc] at h; cases h; exact commonBase_err _ _ hc
      | ok b => rw [hdisp b hc] at h; cases h; rfl

/-- **C79, FMMLib's parameters**: an accepted statement computes for each target kernel, in order, its own component of the
gradient or the potential; Helmholtz parameter and dipole directions are the user's values for the arguments the source kernel
names; a missing one is a `KeyError`; parameter zero is used for the Laplace kernel. -/
theorem C79_fmmlib_parameters {C : Type} (zero : C) (f : Factory) (useTs : Option Bool) (s : Kn) (tks : List Kn)
    (hne : tks ≠ []) (hs : targetDerivs s = 0) (ht : ∀ t ∈ tks, sourceDerivs t = 0)
    (ka : List (String × C)) (sa : List (String × List C)) (w : Wrangler C)
    (h : setup zero f "fmmlib" useTs [s] tks ka sa = .ok w) :
    ∃ ti k d, w = .fmmlib ti k d ∧ List.Forall₂ IsOutput tks ti.outputs ∧
      (∀ n, kParam s.getBase = some n → ka.lookup n = some k) ∧ (kParam s.getBase = none → k = zero) ∧
      (∀ n, dipoleName s = some n → ∃ v, sa.lookup n = some v ∧ d = some v) ∧ (dipoleName s = none → d = none) := by
  cases hti : treeIndep f "fmmlib" useTs [s] tks with
  | error e => rw [setup, hti] at h; cases h
  | ok TI =>
    have hacc := ((C79_fmmlib f useTs [s] tks hne (by simpa using hs) ht).1).1 ⟨TI, hti⟩
    obtain ⟨s', hss, hc, hout, -⟩ := hacc
    cases hss
    have hdig : ∃ ti, FMMLib.digest useTs (tks.map fun t => (t.replaceBase s).toKnl) = .ok ti ∧ TI = .fmmlib s.getBase ti := by
      have : treeIndep f "fmmlib" useTs [s] tks = fmmlibData s.getBase useTs tks [s] := rfl
      rw [this, fmmlibData] at hti
      cases hd : FMMLib.digest useTs (tks.map fun t => (t.replaceBase s).toKnl) with
      | ok ti => rw [hd] at hti; cases hti; exact ⟨ti, rfl, rfl⟩
      | error e => rw [hd] at hti; cases hti
    obtain ⟨ti, hd, rfl⟩ := hdig
    obtain ⟨h1, -, -, h4, h5⟩ := (FMMLib.C59_digest useTs _).2 ti hd
    obtain ⟨t0, ht0⟩ := List.exists_mem_of_ne_nil _ hne
    obtain ⟨a0, ha0⟩ := hout t0 ht0
    have e4 : ti.sourceDeriv = dipoleName s := by
      rw [← h4 _ (List.mem_map.2 ⟨t0, ht0, rfl⟩)]
      exact (output_facts s t0 a0 hc ha0).2.1
    have e5 : ti.kName = kParam s.getBase := by
      rw [← h5 _ (List.mem_map.2 ⟨t0, ht0, rfl⟩)]
      exact (output_facts s t0 a0 hc ha0).2.2
    have hfor : List.Forall₂ IsOutput tks ti.outputs := by
      rw [h1, List.map_map, List.forall₂_map_right_iff, List.forall₂_same]
      intro t h
      obtain ⟨a, ha⟩ := hout t h
      rw [Function.comp, (output_facts s t a hc ha).1]
      exact ha
    rw [setup, hti] at h
    simp only [wrangler] at h
    cases hk : helmholtzK zero ka ti.kName with
    | error e => rw [hk] at h; cases h
    | ok k =>
      rw [hk] at h
      simp only at h
      cases hv : dipoleVec sa ti.sourceDeriv with
      | error e => rw [hv] at h; cases h
      | ok d =>
        rw [hv] at h
        cases h
        refine ⟨ti, k, d, rfl, hfor, ?_, ?_, ?_, ?_⟩
        · intro n hn
          rw [e5, hn, helmholtzK] at hk
          cases hl : ka.lookup n with
          | none => rw [hl] at hk; cases hk
          | some v => rw [hl] at hk; cases hk; rfl
        · intro hn
          rw [e5, hn, helmholtzK] at hk
          cases hk
          rfl
        · intro n hn
          rw [e4, hn, dipoleVec] at hv
          cases hl : sa.lookup n with
          | none => rw [hl] at hv; cases hv
          | some v => rw [hl] at hv; cases hv; exact ⟨v, rfl, rfl⟩
        · intro hn
          rw [e4, hn, dipoleVec] at hv
          cases hv
          rfl

/-- **C79, orders**: FMMLib's levels are asked for with the kernel that is evaluated: a Helmholtz kernel with its parameter
(under the name `k`, whatever the user calls it), or the Laplace kernel if the parameter is zero. -/
theorem C79_order_query {C : Type} [DecidableEq C] (zero : C) (dim : Nat) (k : C) :
    (k = zero → orderQuery zero dim k = (.laplace dim, [])) ∧
    (k ≠ zero → orderQuery zero dim k = (.helmholtz dim "k", [("k", k)])) := by
  refine ⟨fun h => ?_, fun h => ?_⟩
  · rw [orderQuery, if_pos h]
  · rw [orderQuery, if_neg h]

/-! ## Direct evaluation -/

/-- **C79, direct evaluation on the source**: line Taylor expansions, which cannot be differentiated at the target, are used
exactly if no kernel of the statement has a target derivative; otherwise the factory's local expansion.  The kernel is the
common base kernel and the order the source's QBX order.  Statements without a common base kernel are refused. -/
theorem C79_on_surface (f : Factory) (sks tks : List Kn) (p : Nat) :
    (∀ b, SameBase b sks → (∀ t ∈ tks, targetDerivs t = 0) →
      onSurface f sks tks p = .ok ⟨"LineTaylorLocalExpansion", b, p⟩) ∧
    (∀ b, SameBase b sks → (∃ t ∈ tks, targetDerivs t ≠ 0) → onSurface f sks tks p = .ok ⟨f.locl b, b, p⟩) ∧
    ((∀ b, ¬ SameBase b sks) → onSurface f sks tks p = .error .value) := by
  refine ⟨fun b hb h => ?_, fun b hb h => ?_, fun h => ?_⟩
  · rw [onSurface, (commonBase_ok _ _).2 hb]
    simp only [directExpn]
    rw [if_neg]
    rw [any_txr]
    rintro ⟨t, ht, hp⟩
    rw [h t ht] at hp
    exact absurd hp (lt_irrefl _)
  · rw [onSurface, (commonBase_ok _ _).2 hb]
    simp only [directExpn]
    rw [if_pos]
    rw [any_txr]
    obtain ⟨t, ht, hp⟩ := h
    exact ⟨t, ht, Nat.pos_of_ne_zero hp⟩
  · rw [onSurface]
    cases hc : commonBase sks with
    | error e => rw [commonBase_err _ _ hc]
    | ok b => exact absurd ((commonBase_ok _ _).1 hc) (h b)

/-- **C79, direct evaluation off the source**: always volume Taylor expansions of the common base kernel, of the source's
QBX order. -/
theorem C79_off_surface (sks : List Kn) (p : Nat) :
    (∀ b, SameBase b sks → offSurface sks p = .ok ⟨"VolumeTaylorLocalExpansion", b, p⟩) ∧
    ((∀ b, ¬ SameBase b sks) → offSurface sks p = .error .value) := by
  refine ⟨fun b hb => ?_, fun h => ?_⟩
  · rw [offSurface, (commonBase_ok _ _).2 hb]
  · rw [offSurface]
    cases hc : commonBase sks with
    | error e => rw [commonBase_err _ _ hc]
    | ok b => exact absurd ((commonBase_ok _ _).1 hc) (h b)

/-- **C79, what else is computed does not matter**: two statements with the same source kernels use the same expansion.
Partial: on the source itself only if both or neither ask for target derivatives (`C79_batch_refuted`); off the
source and in the FMM always. -/
theorem C79_batch_partial (f : Factory) (sks tks tks' : List Kn) (p : Nat)
    (h : (∃ t ∈ tks, targetDerivs t ≠ 0) ↔ ∃ t ∈ tks', targetDerivs t ≠ 0) :
    onSurface f sks tks p = onSurface f sks tks' p := by
  rw [onSurface, onSurface]
  cases commonBase sks with
  | error e => rfl
  | ok b =>
    have e : (tks.any fun t => t ≠ t.txr) = (tks'.any fun t => t ≠ t.txr) := by
      rw [Bool.eq_iff_iff, any_txr, any_txr]
      simpa only [Nat.pos_iff_ne_zero] using h
    simp only [directExpn, e]

/-- **C79 is false** on the source itself: the expansion for a single layer potential changes if its gradient is computed in
the same statement. -/
theorem C79_batch_refuted : ∃ (f : Factory) (s : Kn) (t g : Kn),
    onSurface f [s] [t] 4 = .ok ⟨"LineTaylorLocalExpansion", s.getBase, 4⟩ ∧
    onSurface f [s] [t, g] 4 = .ok ⟨"H2DLocalExpansion", s.getBase, 4⟩ :=
  ⟨⟨fun _ => "H2DMultipoleExpansion", fun _ => "H2DLocalExpansion", fun _ => none⟩, .base (.helmholtz 2 "k"),
    .base (.helmholtz 2 "k"), .axisTarget 0 (.base (.helmholtz 2 "k")), rfl, rfl⟩

/-! ## Examples -/

/-- a factory -/
def exFactory : Factory := ⟨fun _ => "M", fun _ => "L", fun _ => none⟩

/-- a Helmholtz double layer potential and its gradient, with FMMLib -/
example : setup (0 : Int) exFactory "fmmlib" none [.dirSource "dsource_vec" (.base (.helmholtz 3 "kappa"))]
    [.base (.helmholtz 3 "kappa"), .axisTarget 1 (.base (.helmholtz 3 "kappa"))] [("kappa", 5)] [("dsource_vec", [1, 2])]
    = .ok (.fmmlib ⟨false, true, [none, some 1], some "dsource_vec", some "kappa"⟩ 5 (some [1, 2])) := by decide

/-- two source kernels are too many for FMMLib but not for sumpy -/
example : setup (0 : Int) exFactory "fmmlib" none [.base (.laplace 3), .dirSource "n" (.base (.laplace 3))]
      [.base (.laplace 3)] [] [] = .error .value ∧
    (∃ w, setup (0 : Int) exFactory "sumpy" none [.base (.laplace 3), .dirSource "n" (.base (.laplace 3))]
      [.base (.laplace 3)] [] [] = .ok w) ∧
    setup (0 : Int) exFactory "sumpy" none [.base (.laplace 3), .base (.laplace 2)] [.base (.laplace 3)] [] []
      = .error .value :=
  ⟨by decide, ⟨_, rfl⟩, by decide⟩

end Verif.QBXSetup
