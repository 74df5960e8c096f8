import Verif.QBX.FMM
import Verif.QBX.Direct
import Verif.QBX.TargetAssoc
import Mathlib.Algebra.Order.Field.Rat
import Mathlib.Tactic.Linarith
import Mathlib.Tactic.NormNum

/-!
# FMM and direct evaluation of a layer potential (C77)

`QBXLayerPotentialSource.exec_compute_potential_insn` (`pytential/qbx/__init__.py:538-564`) runs either
`exec_compute_potential_insn_direct` or `exec_compute_potential_insn_fmm`.  This module composes the
models of target association (`Verif.TargetAssoc`), of the FMM (`Verif.Geometry`, `Verif.FMM`) and of
direct evaluation (`Verif.Direct`) and compares what the two return.

Shared with those models: expansions are exact (`Q` is the value at a target of a source's expansion
about a center, whether formed directly or by translation), arrays are lists in flat order, the tree and
the traversal are boxtree's.
-/

namespace Verif.Paths

open Verif.Util Verif.Geometry

set_option linter.unusedSectionVars false

/-! ## strengths -/

/-- the value of a density: a `DOFArray` (one row per element in each group) or something else -/
inductive DensityValue (R : Type)
  | dofs (groups : List (List (List R)))
  | other

/-- `flatten` of a `DOFArray`: groups, elements, nodes (arraycontext/meshmode) -/
def flat {R : Type} (groups : List (List (List R))) : List R := (groups.map List.flatten).flatten

/-- product of two `DOFArray`s, node by node -/
def times {R : Type} [Mul R] (a b : List (List (List R))) : List (List (List R)) :=
  a.zipWith (fun g h => g.zipWith (fun x y => x.zipWith (· * ·) y) h) b

/-- the two arrays live on the same discretization -/
def SameShape {R : Type} (a b : List (List (List R))) : Prop :=
  a.map (fun g => g.map List.length) = b.map (fun g => g.map List.length)

/-- `isinstance(ary, DOFArray)` (`qbx/__init__.py:1087-1091`) -/
def DensityValue.groups? {R : Type} : DensityValue R → Option (List (List (List R)))
  | .dofs g => some g
  | .other => none

/-- `get_flat_strengths_from_densities` (`qbx/__init__.py:1075-1097`), used by both paths: `none` is the `TypeError`; the check runs over all densities first -/
def strengths {R : Type} [Mul R] (waa : List (List (List R))) (densities : List (DensityValue R)) :
    Option (List (List R)) :=
  (densities.mapM DensityValue.groups?).map fun gs => gs.map fun g => flat (times waa g)

theorem zipWith_flatten {A B C : Type} (f : A → B → C) :
    ∀ (a : List (List A)) (b : List (List B)), a.map List.length = b.map List.length →
      (a.zipWith (fun x y => x.zipWith f y) b).flatten = a.flatten.zipWith f b.flatten
  | [], [], _ => rfl
  | [], _ :: _, h => by cases h
  | _ :: _, [], h => by cases h
  | x :: a, y :: b, h => by
    simp only [List.map_cons, List.cons.injEq] at h
    rw [List.zipWith_cons_cons, List.flatten_cons, List.flatten_cons, List.flatten_cons, List.zipWith_append h.1,
      zipWith_flatten f a b h.2]

theorem flat_times {R : Type} [Mul R] : ∀ (a b : List (List (List R))), SameShape a b →
    flat (times a b) = (flat a).zipWith (· * ·) (flat b)
  | [], [], _ => rfl
  | [], _ :: _, h => by cases h
  | _ :: _, [], h => by cases h
  | x :: a, y :: b, h => by
    simp only [SameShape, List.map_cons, List.cons.injEq] at h
    have ih := flat_times a b h.2
    simp only [flat, times, List.zipWith_cons_cons, List.map_cons, List.flatten_cons] at ih ⊢
    rw [ih, zipWith_flatten _ x y h.1, List.zipWith_append]
    have := congrArg List.sum h.1
    rw [List.length_flatten, List.length_flatten, this]

/-- C77: **source strengths** are, in flat node order, weight times area element times density at each node,
one array per density; a density that does not evaluate to a `DOFArray` raises `TypeError`. -/
theorem C77_strengths {R : Type} [Mul R] (waa : List (List (List R))) (densities : List (DensityValue R)) :
    (strengths waa densities = none ↔ DensityValue.other ∈ densities) ∧
    ∀ gs : List (List (List (List R))), densities = gs.map DensityValue.dofs → (∀ g ∈ gs, SameShape waa g) →
      strengths waa densities = some (gs.map fun g => (flat waa).zipWith (· * ·) (flat g)) := by
  constructor
  · rw [strengths, Option.map_eq_none_iff]
    induction densities with
    | nil => simp
    | cons d ds ih =>
      rw [List.mapM_cons]
      cases d with
      | other => simp [DensityValue.groups?]
      | dofs g =>
        simp only [List.mem_cons, reduceCtorEq, false_or]
        rw [← ih]
        cases ds.mapM DensityValue.groups? <;> simp [DensityValue.groups?]
  · intro gs hgs hsh
    have hm : densities.mapM DensityValue.groups? = some gs := by
      rw [hgs]
      clear hgs hsh
      induction gs with
      | nil => rfl
      | cons g gs ih =>
        rw [List.map_cons, List.mapM_cons, ih]
        rfl
    rw [strengths, hm, Option.map_some]
    congr 1
    apply List.map_congr_left
    intro g hg
    exact flat_times waa g (hsh g hg)

example : strengths [[[1, 2], [3, 4]], [[5]]] [.dofs [[[10, 20], [30, 40]], [[50]]], .dofs [[[1, 1], [1, 1]], [[0]]]]
    = some [[10, 40, 90, 160, 250], [1, 2, 3, 4, 0]] := by decide
example : strengths [[[1, 2]]] [.dofs [[[3, 4]]], .other] = none := by decide

/-! ## association does not depend on the tree -/

section assoc

open Verif.TargetAssoc

variable {F : Type} [Field F] [LinearOrder F] [IsStrictOrderedRing F]

/-- no two centers of one side serve the target equally well -/
def NoTie (src : Source F) (nc : Nat) (t : Target F) : Prop :=
  ∀ c < nc, ∀ c' < nc, Eligible src t c → Eligible src t c' → side c = side c' →
    rel src t c = rel src t c' → c = c'

/-- two views of the same target: same point and side request, possibly different trees -/
structure Same (t t' : Target F) : Prop where
  flag : t.flag = t'.flag
  src : t.srcDist = t'.srcDist
  ctr : t.ctrDist = t'.ctrDist

theorem best_unique {dist rel : Nat → F} {elig : Nat → Prop} {seen seen' : List Nat}
    {idx idx' : Int} {d d' r r' : Option F}
    (h : Best dist rel elig seen idx d r) (h' : Best dist rel elig seen' idx' d' r')
    (hs : ∀ c, elig c → (c ∈ seen ↔ c ∈ seen'))
    (hu : ∀ c ∈ seen, ∀ c' ∈ seen, elig c → elig c' → rel c = rel c' → c = c') :
    idx = idx' ∧ d = d' := by
  rcases h with ⟨h1, h2, -, h4⟩ | ⟨b, hb, he, h1, h2, -, h4⟩ <;>
    rcases h' with ⟨k1, k2, -, k4⟩ | ⟨b', hb', he', k1, k2, -, k4⟩
  · exact ⟨h1.trans k1.symm, h2.trans k2.symm⟩
  · exact absurd he' (h4 b' ((hs b' he').2 hb'))
  · exact absurd he (k4 b ((hs b he).1 hb))
  · have : b = b' := hu b hb b' ((hs b' he').2 hb') he he'
      (le_antisymm (h4 b' ((hs b' he').2 hb') he') (k4 b ((hs b he).1 hb) he))
    subst this
    exact ⟨h1.trans k1.symm, h2.trans k2.symm⟩

theorem found_same (src : Source F) (ns nc : Nat) (t t' : Target F) (h : Covered src ns nc t)
    (h' : Covered src ns nc t') (hsame : Same t t') (hno : NoTie src nc t) :
    (t.found src).ttc = (t'.found src).ttc := by
  obtain ⟨m1, m2⟩ := marked_iff src ns nc t h
  obtain ⟨m1', m2'⟩ := marked_iff src ns nc t' h'
  have hclose : (∃ s < ns, Close src t s) ↔ ∃ s < ns, Close src t' s := by
    simp only [Close, hsame.src]
  by_cases hm : t.marked src = 1
  · have hm' : t'.marked src = 1 := m1'.2 (hclose.1 (m1.1 hm))
    obtain ⟨inv, httc⟩ := find_inv t.ctrDist src.radTol t.flag t.ctrLeaves
    obtain ⟨inv', httc'⟩ := find_inv t'.ctrDist src.radTol t'.flag t'.ctrLeaves
    rw [← hsame.flag, ← hsame.ctr] at inv' httc'
    have hlt : ∀ c, c ∈ t.ctrLeaves.flatten → c < nc := by
      intro c hc
      obtain ⟨l, hl, hcl⟩ := List.mem_flatten.1 hc
      exact h.ctr_lt l hl c hcl
    have hlt' : ∀ c, c ∈ t'.ctrLeaves.flatten → c < nc := by
      intro c hc
      obtain ⟨l, hl, hcl⟩ := List.mem_flatten.1 hc
      exact h'.ctr_lt l hl c hcl
    have hin : ∀ c < nc, Eligible src t c → c ∈ t.ctrLeaves.flatten := by
      intro c hc he
      obtain ⟨l, hl, hcl⟩ := h.ctr c hc he.disk
      exact List.mem_flatten.2 ⟨l, hl, hcl⟩
    have hin' : ∀ c < nc, Eligible src t c → c ∈ t'.ctrLeaves.flatten := by
      intro c hc he
      obtain ⟨l, hl, hcl⟩ := h'.ctr c hc (by rw [← hsame.ctr]; exact he.disk)
      exact List.mem_flatten.2 ⟨l, hl, hcl⟩
    have heligP : ∀ c < nc, EligP t.ctrDist src.radTol t.flag c → Eligible src t c :=
      fun c hc hp => (elig_iff src ns nc t h c hc).2 (Or.inl hp)
    have heligM : ∀ c < nc, EligM t.ctrDist src.radTol t.flag c → Eligible src t c :=
      fun c hc hp => (elig_iff src ns nc t h c hc).2 (Or.inr hp)
    have hp := best_unique inv.plus inv'.plus
      (fun c hc => ⟨fun hx => hin' c (hlt c hx) (heligP c (hlt c hx) hc),
        fun hx => hin c (hlt' c hx) (heligP c (hlt' c hx) hc)⟩)
      (fun c hc c' hc' he he' hr => hno c (hlt c hc) c' (hlt c' hc') (heligP c (hlt c hc) he)
        (heligP c' (hlt c' hc') he')
        (by have a := he.2.2; have b := he'.2.2; simp only [side] at a b ⊢; omega) hr)
    have hM := best_unique inv.minus inv'.minus
      (fun c hc => ⟨fun hx => hin' c (hlt c hx) (heligM c (hlt c hx) hc),
        fun hx => hin c (hlt' c hx) (heligM c (hlt' c hx) hc)⟩)
      (fun c hc c' hc' he he' hr => hno c (hlt c hc) c' (hlt c' hc') (heligM c (hlt c hc) he)
        (heligM c' (hlt c' hc') he')
        (by have a := he.2.2; have b := he'.2.2; simp only [side] at a b ⊢; omega) hr)
    have e1 : t.found src = find t.ctrDist src.radTol t.flag 1 t.ctrLeaves := by rw [Target.found, hm]
    have e2 : t'.found src = find t.ctrDist src.radTol t.flag 1 t'.ctrLeaves := by
      rw [Target.found, hm', ← hsame.flag, ← hsame.ctr]
    rw [e1, e2, httc, httc', hp.1, hp.2, hM.1, hM.2]
  · have hm' : ¬ t'.marked src = 1 := fun hx => hm (m1.2 (hclose.2 (m1'.1 hx)))
    rw [Target.found, Target.found, m2 hm, m2' hm', find_unmarked, find_unmarked]

/-- what a successful association returns -/
theorem associate_ok (src : Source F) (ns nc : Nat) (ts : List (Target F))
    (h : ∀ t ∈ ts, Covered src ns nc t) (ttc : List Int) (hr : associate src ts = .ok ttc) :
    ttc = ts.map fun t => (t.found src).ttc := by
  simp only [associate] at hr
  split at hr
  · rename_i hno
    cases hr
    apply List.map_congr_left
    intro t ht
    obtain ⟨-, h2⟩ := marked_iff src ns nc t (h t ht)
    have : t.marked src ≠ 1 := by
      intro hm
      apply hno
      rw [List.any_eq_true]
      exact ⟨t, ht, by simp [hm]⟩
    rw [Target.found, h2 this, find_unmarked]
    rfl
  · split at hr
    · split at hr <;> cases hr
    · cases hr; rfl

end assoc

/-! ## the evaluation problem -/

/-- everything both paths start from: target discretizations as lists of points, distances of points
from sources and centers, tunnel and expansion radii (`Source`), numbers of sources and centers,
strengths (weights and area elements times density), and for each output kernel `K k s p w`: the value
at `p` of source `s` with strength `w`; `Q k s c p w`: the value at `p` of the expansion of that source
about center `c` -/
structure Problem (T P F R V : Type) where
  discr : T → List P
  centers : List P
  nsrc : Nat
  src : TargetAssoc.Source F
  srcDist : P → Nat → F
  ctrDist : P → Nat → F
  w : Nat → R
  K : Nat → Nat → P → R → V
  Q : Nat → Nat → Nat → P → R → V

/-- which leaves of its tree the area queries find for target number `i` of a list (marking, center
finding, refinement) -/
structure Leaves where
  mark : Nat → List (List Nat)
  ctr : Nat → List (List Nat)
  ref : Nat → List (List Nat)

section

variable {T P F R V : Type} [Field F] [LinearOrder F] [IsStrictOrderedRing F] [AddCommMonoid V]

/-- a point with a side request, seen through the leaves an area query found -/
def target (pr : Problem T P F R V) (lv : Leaves) (i : Nat) (p : P) (side : Int) : TargetAssoc.Target F :=
  ⟨side, pr.srcDist p, pr.ctrDist p, lv.mark i, lv.ctr i, lv.ref i⟩

/-- the points of the target discretizations with their side requests, one after the other
(`geometry.py:808-829`, `target_assoc.py:776-812`) -/
def points (lst : List (List P × Int)) : List (P × Int) := lst.flatMap fun q => q.1.map fun p => (p, q.2)

/-- targets handed to association -/
def targets (pr : Problem T P F R V) (lv : Leaves) (lst : List (List P × Int)) : List (TargetAssoc.Target F) :=
  ((points lst).zipIdx).map fun q => target pr lv q.2 q.1.1 q.1.2

/-- the leaves cover what the area queries promise (C30, C31) -/
def Found (pr : Problem T P F R V) (lv : Leaves) (lst : List (List P × Int)) : Prop :=
  ∀ t ∈ targets pr lv lst, TargetAssoc.Covered pr.src pr.nsrc pr.centers.length t

/-- association of the targets of `lst` with some tree -/
def Assoc (pr : Problem T P F R V) (lst : List (List P × Int)) (assoc : List Int) : Prop :=
  ∃ lv : Leaves, Found pr lv lst ∧ TargetAssoc.associate pr.src (targets pr lv lst) = .ok assoc

/-! ## specification -/

/-- target association without a tree: look at all sources and all centers -/
def brute (pr : Problem T P F R V) (p : P) (side : Int) : Int :=
  ((⟨side, pr.srcDist p, pr.ctrDist p, [List.range pr.nsrc], [List.range pr.centers.length], []⟩ :
    TargetAssoc.Target F).found pr.src).ttc

/-- quadrature: sum over all sources -/
def plain (pr : Problem T P F R V) (k : Nat) (p : P) : V :=
  ((List.range pr.nsrc).map fun s => pr.K k s p (pr.w s)).sum

/-- QBX: sum over all sources of their expansions about center `c` -/
def via (pr : Problem T P F R V) (k c : Nat) (p : P) : V :=
  ((List.range pr.nsrc).map fun s => pr.Q k s c p (pr.w s)).sum

/-- the value of the layer potential at an off-surface point, with a given association -/
def valueWith (pr : Problem T P F R V) (v : Int) (k : Nat) (p : P) : V :=
  if v < 0 then plain pr k p else via pr k v.toNat p

/-- the value of the layer potential at a point with a side request -/
def value (pr : Problem T P F R V) (k : Nat) (p : P) (side : Int) : V := valueWith pr (brute pr p side) k p

/-- no ties at a point -/
def Unique (pr : Problem T P F R V) (p : P) (side : Int) : Prop :=
  NoTie pr.src pr.centers.length ⟨side, pr.srcDist p, pr.ctrDist p, [], [], []⟩

theorem brute_covered (pr : Problem T P F R V) (hpos : ∀ c < pr.centers.length, 0 < pr.src.radTol c) (p : P)
    (side : Int) :
    TargetAssoc.Covered pr.src pr.nsrc pr.centers.length
      ⟨side, pr.srcDist p, pr.ctrDist p, [List.range pr.nsrc], [List.range pr.centers.length], []⟩ where
  mark s hs _ := ⟨List.range pr.nsrc, by simp, by simpa using hs⟩
  mark_lt l hl s hs := by
    rw [List.mem_singleton.1 hl] at hs
    simpa using hs
  ctr c hc _ := ⟨List.range pr.centers.length, by simp, by simpa using hc⟩
  ctr_lt l hl s hs := by
    rw [List.mem_singleton.1 hl] at hs
    simpa using hs
  pos := hpos

/-- C77: **Target association depends only on the point and the requested side**: whichever tree it runs
on, together with whichever other targets, it assigns what looking at all sources and centers would,
provided no two centers of one side serve the point equally well. -/
theorem C77_association (pr : Problem T P F R V) (hpos : ∀ c < pr.centers.length, 0 < pr.src.radTol c)
    (lst : List (List P × Int)) (assoc : List Int)
    (h : Assoc pr lst assoc) (hno : ∀ q ∈ points lst, Unique pr q.1 q.2) :
    assoc = (points lst).map fun q => brute pr q.1 q.2 := by
  obtain ⟨lv, hf, ha⟩ := h
  rw [associate_ok pr.src pr.nsrc pr.centers.length _ hf assoc ha, targets, List.map_map]
  have : (points lst).map (fun q => brute pr q.1 q.2)
      = ((points lst).zipIdx).map fun q => brute pr q.1.1 q.1.2 := by
    conv => lhs; rw [← List.zipIdx_map_fst 0 (points lst)]
    rw [List.map_map]
    rfl
  rw [this]
  apply List.map_congr_left
  rintro ⟨⟨p, s⟩, i⟩ hq
  have hmem : (p, s) ∈ points lst := List.fst_mem_of_mem_zipIdx hq
  refine found_same pr.src pr.nsrc pr.centers.length _ _ (hf _ ?_) (brute_covered pr hpos p s) ⟨rfl, rfl, rfl⟩ ?_
  · exact List.mem_map.2 ⟨_, hq, rfl⟩
  · intro c hc c' hc' he he' hs hr
    exact hno _ hmem c hc c' hc' ⟨he.side, he.disk⟩ ⟨he'.side, he'.disk⟩ hs hr

/-- C77: **Whether association succeeds depends only on the points and sides too**: it succeeds for a list
of target discretizations together if and only if it does for each of them alone. -/
theorem C77_association_succeeds (pr : Problem T P F R V) (lst : List (List P × Int)) (lv : Leaves)
    (hf : Found pr lv lst) (lvs : List P × Int → Leaves) (hfs : ∀ q ∈ lst, Found pr (lvs q) [q]) :
    (∃ assoc, TargetAssoc.associate pr.src (targets pr lv lst) = .ok assoc) ↔
      ∀ q ∈ lst, ∃ assoc, TargetAssoc.associate pr.src (targets pr (lvs q) [q]) = .ok assoc := by
  have key : ∀ (l : List (List P × Int)) (lv : Leaves), Found pr lv l →
      ((∃ assoc, TargetAssoc.associate pr.src (targets pr lv l) = .ok assoc) ↔
        ∀ r ∈ points l, (∃ s < pr.nsrc, pr.srcDist r.1 s ≤ pr.src.tunnel s) →
          ∃ c < pr.centers.length, 0 ≤ TargetAssoc.side c * r.2 ∧ pr.ctrDist r.1 c ≤ pr.src.radTol c) := by
    intro l lv hl
    rw [TargetAssoc.C31_succeeds pr.src pr.nsrc pr.centers.length _ hl]
    constructor
    · intro h r hr hc
      obtain ⟨i, hi⟩ := List.mem_iff_getElem?.1 hr
      have hm : target pr lv i r.1 r.2 ∈ targets pr lv l :=
        List.mem_map.2 ⟨(r, i), by rw [List.mem_zipIdx_iff_getElem?]; exact hi, rfl⟩
      obtain ⟨c, hc, he⟩ := h _ hm hc
      exact ⟨c, hc, he.side, he.disk⟩
    · intro h t ht hc
      obtain ⟨⟨r, i⟩, hri, rfl⟩ := List.mem_map.1 ht
      obtain ⟨c, hc, h1, h2⟩ := h r (List.fst_mem_of_mem_zipIdx hri) hc
      exact ⟨c, hc, h1, h2⟩
  rw [key lst lv hf]
  constructor
  · intro h q hq
    rw [key [q] _ (hfs q hq)]
    intro r hr
    apply h r
    simp only [points, List.flatMap_cons, List.flatMap_nil, List.append_nil] at hr
    exact List.mem_flatMap.2 ⟨q, hq, hr⟩
  · intro h r hr
    obtain ⟨q, hq, hrq⟩ := List.mem_flatMap.1 hr
    refine (key [q] _ (hfs q hq)).1 (h q hq) r ?_
    simpa [points] using hrq

/-! ## the FMM path -/

/-- `result` is what the QBX FMM driver returns for one output kernel, for some exact translation operators,
some tree (permutations `us`, `sorted`, boxes) and traversal covering every source once, and some order of
the stores of the kernels: the hypotheses of `C38_fmm` (`qbx/fmm.py:470-580`, `qbx/geometry.py`) -/
inductive Driven (K : Nat → Nat → R → V) (Q : Nat → Nat → Nat → R → V) (nsrc ncenters : Nat) (assoc : List Int)
    (w : Nat → R) (result : List V) : Prop
  | intro {Mp Lc Qx : Type} [AddCommMonoid Mp] [AddCommMonoid Lc] [AddCommMonoid Qx]
    (o : FMM.Ops R Mp Lc Qx V) (us : List Nat) (hus : us.Perm (List.range us.length)) (hn : us.length = nsrc)
    (ut : Nat → Nat) (sorted : List Nat)
    (hut : ∀ u t : Nat, sorted[u]? = some t → ut t = u)
    (hsorted : sorted.Perm (List.range sorted.length))
    (he : FMM.Exact o (fun s t => K (us.getD s 0) (ut t)) (fun s c t => Q (us.getD s 0) c (ut t)))
    (tr : FMM.Trav) (hcov : FMM.Covers tr us.length) (htr : FMM.TravOK tr)
    (hlen : sorted.length = ncenters + assoc.length)
    (boxes : List (Nat × Nat)) (hnd : tr.targetBoxes.Nodup)
    (htb : ∀ b ∈ tr.targetBoxes, b < boxes.length)
    (hown : ∀ (b s n : Nat), boxes[b]? = some (s, n) → 0 < n → b ∈ tr.targetBoxes)
    (hbcov : ∀ t < sorted.length, ∃ b s n : Nat, boxes[b]? = some (s, n) ∧ s ≤ t ∧ t < s + n)
    (huniq : ∀ (t b s n b' s' n' : Nat), boxes[b]? = some (s, n) → s ≤ t → t < s + n →
      boxes[b']? = some (s', n') → s' ≤ t → t < s' + n' → b = b')
    (hin : ∀ (b s n : Nat), boxes[b]? = some (s, n) → s + n ≤ sorted.length)
    (tbox : Nat → Nat)
    (htbox : ∀ t < sorted.length, ∃ B : Nat, tr.targetBoxes[tbox t]? = some B)
    (ws1 : List (Nat × Int)) (hws1 : ws1.Perm (sorted.zip (userTtc ncenters assoc)))
    (ws2 : List (Nat × Nat))
    (hws2 : ws2.Perm (scanFrom (fun c : Int => decide (0 ≤ c)) 0 0 (scatter ws1 0 sorted.length)))
    (starts lists : List Nat)
    (hkv : KVSorted (filteredPairs (scatter ws1 0 sorted.length)
      (scanOut ws2 (scanCount (fun c : Int => decide (0 ≤ c)) (scatter ws1 0 sorted.length))))
      ncenters starts lists)
    (wsU : List (Nat × Bool)) (hwsU : wsU.Perm (usedStores assoc))
    (ws0 : List (Nat × Nat)) (hws0 : ws0.Perm (sorted.zip (List.range sorted.length)))
    (wsB : List (Nat × Nat))
    (hwsB : wsB.Perm (lookupStores ncenters (boxToTargetBox tr.targetBoxes boxes.length) boxes
      (scatter ws0 0 sorted.length)))
    (wsP : List (Nat × Qx)) (hP : wsP.Perm (FMM.p2qbxlStores o tr (fun s => w (us.getD s 0))
      (globalCenters ncenters wsU) (centerToTargetBox ncenters wsB)))
    (wsQ : List (Nat × V)) (hQ : wsQ.Perm (FMM.qbxl2pStores o (globalCenters ncenters wsU)
      (fun c => Offsets.slice lists (starts.getD c 0) (starts.getD (c + 1) 0))
      (FMM.qbxExpansions o tr (fun s => w (us.getD s 0)) (centerToTargetBox ncenters wsB) wsP)))
    (hresult : result = FMM.drive o tr (fun s => w (us.getD s 0))
      (nonQbxTargets sorted (nonQbxFlags ncenters (userTtc ncenters assoc))) tbox sorted wsQ) :
    Driven K Q nsrc ncenters assoc w result

theorem driven_spec {K : Nat → Nat → R → V} {Q : Nat → Nat → Nat → R → V} {nsrc ncenters : Nat} {assoc : List Int}
    {w : Nat → R} {result : List V} (h : Driven K Q nsrc ncenters assoc w result)
    (hassoc : ∀ v ∈ assoc, -1 ≤ v ∧ v < (ncenters : Int)) :
    result.length = ncenters + assoc.length ∧
    ∀ i < assoc.length,
      (assoc[i]? = some (-1) →
        result[ncenters + i]? = some (((List.range nsrc).map fun s => K s (ncenters + i) (w s)).sum)) ∧
      (∀ c : Nat, assoc[i]? = some (c : Int) →
        result[ncenters + i]? = some (((List.range nsrc).map fun s => Q s c (ncenters + i) (w s)).sum)) := by
  obtain ⟨o, us, hus, hn, ut, sorted, hut, hsorted, he, tr, hcov, htr, hlen, boxes, hnd, htb, hown, hbcov, huniq, hin,
    tbox, htbox, ws1, hws1, ws2, hws2, starts, lists, hkv, wsU, hwsU, ws0, hws0, wsB, hwsB, wsP, hP, wsQ, hQ, hr⟩ := h
  subst hn
  exact FMM.C38_fmm o K Q us hus ut sorted hut hsorted he tr hcov htr ncenters assoc hassoc hlen boxes hnd htb hown
    hbcov huniq hin tbox htbox ws1 hws1 ws2 hws2 starts lists hkv wsU hwsU ws0 hws0 wsB hwsB w wsP hP wsQ hQ result hr

/-- `target_state.FAILED` (`geometry.py:100-121`) -/
def failedState : Int := -2

/-- one run of the FMM path on the target discretizations `lst`: association on some tree, and for each
output kernel a run of the driver on all targets (centers first), `D k` being what it returns -/
structure FmmRun (pr : Problem T P F R V) (lst : List (List P × Int)) (assoc : List Int) (D : Nat → List V) :
    Prop where
  associated : Assoc pr lst assoc
  run : ∀ k, ∃ (K : Nat → Nat → R → V) (Q : Nat → Nat → Nat → R → V),
    (∀ (s u : Nat) (p : P), (pr.centers ++ (points lst).map Prod.fst)[u]? = some p →
      (∀ w, K s u w = pr.K k s p w) ∧ ∀ c w, Q s c u w = pr.Q k s c p w) ∧
    Driven K Q pr.nsrc pr.centers.length assoc pr.w (D k)

/-- `exec_compute_potential_insn_fmm` (`qbx/__init__.py:694-793`) with association `assoc` and driver
results `D` -/
def runFmm [DecidableEq T] (pr : Problem T P F R V) (assoc : List Int) (inspect : Option Bool) (D : Nat → List V)
    (outs : List (Out T)) : Option (Exec V) :=
  execFmm pr.discr pr.centers (fun _ => assoc.any (· == failedState)) inspect (fun _ _ k => D k) outs

/-- the target discretizations of a statement (`qbx/__init__.py:661-692`) -/
def discrs [DecidableEq T] (pr : Problem T P F R V) (outs : List (Out T)) : List (List P × Int) :=
  (collect pr.discr outs [] []).2

theorem brute_range (pr : Problem T P F R V) (hpos : ∀ c < pr.centers.length, 0 < pr.src.radTol c) (p : P)
    (side : Int) : brute pr p side = -1 ∨ ∃ c < pr.centers.length, brute pr p side = (c : Int) := by
  rcases TargetAssoc.found_spec pr.src pr.nsrc pr.centers.length _ (brute_covered pr hpos p side) with
    ⟨-, h, -⟩ | ⟨-, -, ⟨-, h, -⟩ | ⟨-, c, hc, h, -⟩⟩
  · exact Or.inl h
  · exact Or.inl h
  · exact Or.inr ⟨c, hc, h⟩

/-- what the driver returns: values at the centers (unused), then the values at the targets -/
theorem driver_values (pr : Problem T P F R V) (hpos : ∀ c < pr.centers.length, 0 < pr.src.radTol c)
    (lst : List (List P × Int)) (assoc : List Int) (D : Nat → List V) (h : FmmRun pr lst assoc D)
    (hno : ∀ q ∈ points lst, Unique pr q.1 q.2) (k : Nat) :
    D k = (D k).take pr.centers.length ++ lst.flatMap (fun q => q.1.map fun p => value pr k p q.2) ∧
      ((D k).take pr.centers.length).length = pr.centers.length := by
  have ha := C77_association pr hpos lst assoc h.associated hno
  obtain ⟨K, Q, hKQ, hd⟩ := h.run k
  have hrange : ∀ v ∈ assoc, -1 ≤ v ∧ v < (pr.centers.length : Int) := by
    intro v hv
    rw [ha, List.mem_map] at hv
    obtain ⟨q, -, rfl⟩ := hv
    rcases brute_range pr hpos q.1 q.2 with h | ⟨c, hc, h⟩ <;> rw [h] <;> omega
  obtain ⟨hl, hv⟩ := driven_spec hd hrange
  have hpl : assoc.length = (points lst).length := by rw [ha, List.length_map]
  have hflat : lst.flatMap (fun q => q.1.map fun p => value pr k p q.2)
      = (points lst).map fun q => value pr k q.1 q.2 := by
    rw [points, List.map_flatMap]
    simp only [List.map_map]
    rfl
  refine ⟨?_, by rw [List.length_take, hl]; omega⟩
  conv => lhs; rw [← List.take_append_drop pr.centers.length (D k)]
  rw [hflat]
  congr 1
  apply List.ext_getElem?
  intro i
  rw [List.getElem?_drop, List.getElem?_map]
  cases hq : (points lst)[i]? with
  | none =>
    rw [List.getElem?_eq_none_iff] at hq
    simp [hl]
    omega
  | some q =>
    have hi := (List.getElem?_eq_some_iff.1 hq).1
    have hp : (pr.centers ++ (points lst).map Prod.fst)[pr.centers.length + i]? = some q.1 := by
      rw [List.getElem?_append_right (by omega)]
      simp [hq]
    have hai : assoc[i]? = some (brute pr q.1 q.2) := by rw [ha, List.getElem?_map, hq]; rfl
    obtain ⟨h1, h2⟩ := hv i (by omega)
    rw [Option.map_some]
    rcases brute_range pr hpos q.1 q.2 with hb | ⟨c, hc, hb⟩
    · rw [h1 (by rw [hai, hb]), value, valueWith, hb, if_pos (by decide), plain]
      congr 3
      funext s
      exact (hKQ s _ _ hp).1 _
    · rw [h2 c (by rw [hai, hb]), value, valueWith, hb, if_neg (by omega), via]
      congr 3
      funext s
      exact (hKQ s _ _ hp).2 _ _

theorem points_collect [DecidableEq T] (pr : Problem T P F R V) (outs : List (Out T)) (o : Out T) (ho : o ∈ outs)
    (p : P) (hp : p ∈ pr.discr o.target) : (p, o.limit.getD 0) ∈ points (discrs pr outs) := by
  obtain ⟨i1, -, i3⟩ := collect_spec pr.discr outs [] [] (by intro key n h; cases h)
  obtain ⟨n, hn⟩ := i3 o ho
  have := List.mem_of_getElem? (i1 _ _ hn)
  exact List.mem_flatMap.2 ⟨_, this, List.mem_map.2 ⟨p, hp, rfl⟩⟩

/-- C77: **FMM evaluation** returns for each output, in order, the value of the layer potential at the
points of its target: through the center brute-force association would pick for the requested side, or by
quadrature where it picks none.  The check for failed targets never fires. -/
theorem C77_fmm_values [DecidableEq T] (pr : Problem T P F R V)
    (hpos : ∀ c < pr.centers.length, 0 < pr.src.radTol c) (outs : List (Out T)) (assoc : List Int)
    (D : Nat → List V) (h : FmmRun pr (discrs pr outs) assoc D)
    (hno : ∀ q ∈ points (discrs pr outs), Unique pr q.1 q.2) (inspect : Option Bool) (hi : inspect ≠ some false) :
    runFmm pr assoc inspect D outs
      = some (.done (outs.map fun o =>
          (o.name, (pr.discr o.target).map fun p => value pr o.kernel p (o.limit.getD 0)))) := by
  have hd := driver_values pr hpos _ assoc D h hno
  refine C36_outputs pr.discr pr.centers _ inspect _ outs (fun k p s => value pr k p s)
    (fun k => (D k).take pr.centers.length) (fun k => (hd k).2) (fun k => (hd k).1) ?_ hi
  have ha := C77_association pr hpos _ assoc h.associated hno
  rw [List.any_eq_false]
  intro v hv
  rw [ha, List.mem_map] at hv
  obtain ⟨q, -, rfl⟩ := hv
  rcases brute_range pr hpos q.1 q.2 with h | ⟨c, hc, h⟩ <;> rw [h] <;> simp [failedState]

/-! ## the direct path -/

/-- number of the center belonging to node `j` on a side (interior first, C35, C74) -/
def own (side : Int) (j : Nat) : Nat := if 0 < side then 2 * j + 1 else 2 * j

/-- value at a node of a list of points, 0 outside -/
def atNode (pts : List P) (j : Nat) (f : P → V) : V :=
  match pts[j]? with
  | some p => f p
  | none => 0

/-- the surroundings of `exec_compute_potential_insn_direct` (`qbx/__init__.py:866-1064`) for this problem:
self interactions use each node's own center on the requested side (`:957-967`), `assocOf t side` is
association run for that target alone (`:1008-1020`) -/
def directEnv (pr : Problem T P F R V) (isSelf : T → Bool) (assocOf : T → Int → List Int) : Direct.Env T V where
  isSelf := isSelf
  ndofs t := (pr.discr t).length
  selfVal t side k j := atNode (pr.discr t) j fun p => via pr k (own side j) p
  p2p t k j := atNode (pr.discr t) j fun p => plain pr k p
  ncenters := pr.centers.length
  userTtc t side := userTtc pr.centers.length (assocOf t side)
  subsetVal t c k j := atNode (pr.discr t) j fun p => via pr k c p

/-- the same outputs, as the model of direct evaluation takes them -/
def toDirect (o : Out T) : Direct.Out T := ⟨o.name, o.target, o.limit, o.kernel⟩

/-- `exec_compute_potential_insn_direct` for this problem -/
def runDirect [DecidableEq T] (pr : Problem T P F R V) (σ : Direct.Sched) (isSelf : T → Bool)
    (assocOf : T → Int → List Int) (outs : List (Out T)) : Except Direct.Err (Direct.Results V) :=
  Direct.exec σ (directEnv pr isSelf assocOf) (outs.map toDirect)

/-- associations of the direct path: one for each target which is not the source itself -/
def DirectRun (pr : Problem T P F R V) (isSelf : T → Bool) (assocOf : T → Int → List Int) (outs : List (Out T)) : Prop :=
  ∀ o ∈ outs,
    (isSelf o.target = false → Assoc pr [(pr.discr o.target, o.limit.getD 0)] (assocOf o.target (o.limit.getD 0))) ∧
    (isSelf o.target = true → (assocOf o.target (o.limit.getD 0)).length = (pr.discr o.target).length)

/-- the value at node `j` that direct evaluation should give -/
def directValue (pr : Problem T P F R V) (isSelf : T → Bool) (o : Out T) (j : Nat) (p : P) : V :=
  if isSelf o.target then via pr o.kernel (own (o.limit.getD 0) j) p else value pr o.kernel p (o.limit.getD 0)

theorem assoc_single (pr : Problem T P F R V) (hpos : ∀ c < pr.centers.length, 0 < pr.src.radTol c)
    (pts : List P) (side : Int) (assoc : List Int) (h : Assoc pr [(pts, side)] assoc)
    (hno : ∀ p ∈ pts, Unique pr p side) : assoc = pts.map fun p => brute pr p side := by
  have hp : points [(pts, side)] = pts.map fun p => (p, side) := by simp [points]
  have := C77_association pr hpos _ assoc h (by
    intro q hq
    rw [hp, List.mem_map] at hq
    obtain ⟨p, hp, rfl⟩ := hq
    exact hno p hp)
  rw [this, hp, List.map_map]
  rfl

theorem ttc_get (n i : Nat) (assoc : List Int) : (userTtc n assoc)[n + i]? = assoc[i]? := by
  rw [userTtc, List.getElem?_append_right (by simp)]
  simp

theorem center_of [DecidableEq T] (pr : Problem T P F R V) (hpos : ∀ c < pr.centers.length, 0 < pr.src.radTol c)
    (isSelf : T → Bool) (assocOf : T → Int → List Int) (outs : List (Out T)) (h : DirectRun pr isSelf assocOf outs)
    (hno : ∀ o ∈ outs, isSelf o.target = false → ∀ p ∈ pr.discr o.target, Unique pr p (o.limit.getD 0))
    (o : Out T) (ho : o ∈ outs) (hs : isSelf o.target = false) (j : Nat) (p : P)
    (hp : (pr.discr o.target)[j]? = some p) :
    Direct.centerOf (directEnv pr isSelf assocOf) (toDirect o) j
      = if brute pr p (o.limit.getD 0) < 0 then none else some (brute pr p (o.limit.getD 0)).toNat := by
  have ha := assoc_single pr hpos _ _ _ ((h o ho).1 hs) (hno o ho hs)
  have : (userTtc pr.centers.length (assocOf o.target (o.limit.getD 0)))[pr.centers.length + j]?
      = some (brute pr p (o.limit.getD 0)) := by
    rw [ttc_get, ha, List.getElem?_map, hp]; rfl
  simp only [Direct.centerOf, directEnv, toDirect, this]

theorem sized [DecidableEq T] (pr : Problem T P F R V) (hpos : ∀ c < pr.centers.length, 0 < pr.src.radTol c)
    (isSelf : T → Bool) (assocOf : T → Int → List Int) (outs : List (Out T)) (h : DirectRun pr isSelf assocOf outs)
    (hno : ∀ o ∈ outs, isSelf o.target = false → ∀ p ∈ pr.discr o.target, Unique pr p (o.limit.getD 0)) :
    Direct.Sized (directEnv pr isSelf assocOf) (outs.map toDirect) := by
  intro d hd
  obtain ⟨o, ho, rfl⟩ := List.mem_map.1 hd
  simp only [directEnv, toDirect, userTtc, List.length_append, List.length_replicate]
  cases hs : isSelf o.target with
  | true => rw [(h o ho).2 hs]
  | false => rw [assoc_single pr hpos _ _ _ ((h o ho).1 hs) (hno o ho hs), List.length_map]

theorem range_map {A B : Type} (l : List A) (g : Nat → B) (f : A × Nat → B)
    (h : ∀ (j : Nat) (a : A), l[j]? = some a → g j = f (a, j)) : (List.range l.length).map g = l.zipIdx.map f := by
  apply List.ext_getElem?
  intro i
  rw [List.getElem?_map, List.getElem?_map, List.getElem?_zipIdx]
  cases hi : l[i]? with
  | none =>
    rw [List.getElem?_eq_none_iff] at hi
    simp [hi]
  | some a =>
    have := (List.getElem?_eq_some_iff.1 hi).1
    simp [this, h i a hi]

/-- C77: **direct evaluation**, if it succeeds, returns for each output, in order, the value of the layer
potential at each point of its target; on the source itself each node uses its own center. -/
theorem C77_direct_values [DecidableEq T] (pr : Problem T P F R V)
    (hpos : ∀ c < pr.centers.length, 0 < pr.src.radTol c) (σ : Direct.Sched)
    (hσ : ∀ {α : Type} (l : List α), (σ l).Perm l) (isSelf : T → Bool) (assocOf : T → Int → List Int)
    (outs : List (Out T)) (h : DirectRun pr isSelf assocOf outs)
    (hno : ∀ o ∈ outs, isSelf o.target = false → ∀ p ∈ pr.discr o.target, Unique pr p (o.limit.getD 0))
    (r : Direct.Results V) (hr : runDirect pr σ isSelf assocOf outs = .ok r) :
    r = outs.map fun o => some (o.name, ((pr.discr o.target).zipIdx).map fun q => directValue pr isSelf o q.2 q.1) := by
  obtain ⟨h1, -, -⟩ := Direct.C40_direct_values σ hσ (directEnv pr isSelf assocOf) (outs.map toDirect)
    (sized pr hpos isSelf assocOf outs h hno) r hr
  rw [h1, List.map_map]
  apply List.map_congr_left
  intro o ho
  simp only [Function.comp, toDirect]
  congr 2
  apply range_map
  intro j p hp
  simp only [Direct.valueAt]
  by_cases hs : isSelf o.target = true
  · simp only [directEnv, directValue, hs, if_true, atNode, hp]
  · have hs' : isSelf o.target = false := by simpa using hs
    have hc := center_of pr hpos isSelf assocOf outs h hno o ho hs' j p hp
    simp only [toDirect] at hc
    rw [hc]
    simp only [directEnv, directValue, hs', Bool.false_eq_true, if_false, value, valueWith]
    by_cases hb : brute pr p (o.limit.getD 0) < 0
    · simp only [if_pos hb, atNode, hp]
    · simp only [if_neg hb, atNode, hp]

theorem bad_self_iff (pr : Problem T P F R V) (isSelf : T → Bool) (assocOf : T → Int → List Int) (o : Out T) :
    Direct.BadSelf (directEnv pr isSelf assocOf) (toDirect o) ↔
      isSelf o.target = true ∧ (o.limit = none ∨ o.limit = some 0) := Iff.rfl

theorem unassociated_iff [DecidableEq T] (pr : Problem T P F R V)
    (hpos : ∀ c < pr.centers.length, 0 < pr.src.radTol c)
    (isSelf : T → Bool) (assocOf : T → Int → List Int) (outs : List (Out T)) (h : DirectRun pr isSelf assocOf outs)
    (hno : ∀ o ∈ outs, isSelf o.target = false → ∀ p ∈ pr.discr o.target, Unique pr p (o.limit.getD 0))
    (o : Out T) (ho : o ∈ outs) :
    Direct.Unassociated (directEnv pr isSelf assocOf) (toDirect o) ↔
      isSelf o.target = false ∧ (o.limit = some 1 ∨ o.limit = some (-1)) ∧
        ∃ p ∈ pr.discr o.target, brute pr p (o.limit.getD 0) = -1 := by
  constructor
  · rintro ⟨hs, hl, j, hj, hc⟩
    refine ⟨hs, hl, ?_⟩
    obtain ⟨p, hp⟩ : ∃ p, (pr.discr o.target)[j]? = some p := ⟨_, List.getElem?_eq_getElem hj⟩
    refine ⟨p, List.mem_of_getElem? hp, ?_⟩
    rw [center_of pr hpos isSelf assocOf outs h hno o ho hs j p hp] at hc
    rcases brute_range pr hpos p (o.limit.getD 0) with hb | ⟨c, -, hb⟩
    · exact hb
    · rw [hb, if_neg (by omega)] at hc
      cases hc
  · rintro ⟨hs, hl, p, hp, hb⟩
    obtain ⟨j, hj⟩ := List.mem_iff_getElem?.1 hp
    refine ⟨hs, hl, j, (List.getElem?_eq_some_iff.1 hj).1, ?_⟩
    rw [center_of pr hpos isSelf assocOf outs h hno o ho hs j p hj, hb]
    rfl

/-- C77: **when direct evaluation refuses**: with an assertion exactly if a target which is the source itself
is asked for without a side, otherwise with `RuntimeError` exactly if an off-surface output demands side
`±1` and brute-force association finds no center for one of its points; it succeeds in all other cases. -/
theorem C77_direct_refuses [DecidableEq T] (pr : Problem T P F R V)
    (hpos : ∀ c < pr.centers.length, 0 < pr.src.radTol c) (σ : Direct.Sched)
    (hσ : ∀ {α : Type} (l : List α), (σ l).Perm l)
    (isSelf : T → Bool) (assocOf : T → Int → List Int)
    (outs : List (Out T)) (h : DirectRun pr isSelf assocOf outs)
    (hno : ∀ o ∈ outs, isSelf o.target = false → ∀ p ∈ pr.discr o.target, Unique pr p (o.limit.getD 0)) :
    (runDirect pr σ isSelf assocOf outs = .error .assertion ↔
      ∃ o ∈ outs, isSelf o.target = true ∧ (o.limit = none ∨ o.limit = some 0)) ∧
    (runDirect pr σ isSelf assocOf outs = .error .noCenter ↔
      (∀ o ∈ outs, ¬ (isSelf o.target = true ∧ (o.limit = none ∨ o.limit = some 0))) ∧
      ∃ o ∈ outs, isSelf o.target = false ∧ (o.limit = some 1 ∨ o.limit = some (-1)) ∧
        ∃ p ∈ pr.discr o.target, brute pr p (o.limit.getD 0) = -1) := by
  have hsz := sized pr hpos isSelf assocOf outs h hno
  have hex : (∃ d ∈ outs.map toDirect, Direct.BadSelf (directEnv pr isSelf assocOf) d) ↔
      ∃ o ∈ outs, isSelf o.target = true ∧ (o.limit = none ∨ o.limit = some 0) := by
    constructor
    · rintro ⟨d, hd, hb⟩
      obtain ⟨o, ho, rfl⟩ := List.mem_map.1 hd
      exact ⟨o, ho, hb⟩
    · rintro ⟨o, ho, hb⟩
      exact ⟨_, List.mem_map.2 ⟨o, ho, rfl⟩, hb⟩
  have hex2 : (∃ d ∈ outs.map toDirect, Direct.Unassociated (directEnv pr isSelf assocOf) d) ↔
      ∃ o ∈ outs, isSelf o.target = false ∧ (o.limit = some 1 ∨ o.limit = some (-1)) ∧
        ∃ p ∈ pr.discr o.target, brute pr p (o.limit.getD 0) = -1 := by
    constructor
    · rintro ⟨d, hd, hb⟩
      obtain ⟨o, ho, rfl⟩ := List.mem_map.1 hd
      exact ⟨o, ho, (unassociated_iff pr hpos isSelf assocOf outs h hno o ho).1 hb⟩
    · rintro ⟨o, ho, hb⟩
      exact ⟨_, List.mem_map.2 ⟨o, ho, rfl⟩, (unassociated_iff pr hpos isSelf assocOf outs h hno o ho).2 hb⟩
  rw [← hex, ← hex2]
  have hno1 : (∀ o ∈ outs, ¬ (isSelf o.target = true ∧ (o.limit = none ∨ o.limit = some 0))) ↔
      ∀ d ∈ outs.map toDirect, ¬ Direct.BadSelf (directEnv pr isSelf assocOf) d := by
    constructor
    · intro hn d hd hb
      obtain ⟨o, ho, rfl⟩ := List.mem_map.1 hd
      exact hn o ho hb
    · intro hn o ho hb
      exact hn _ (List.mem_map.2 ⟨o, ho, rfl⟩) hb
  rw [hno1]
  have herr := Direct.C40_direct_errors σ (directEnv pr isSelf assocOf) (outs.map toDirect) hsz
  have hval := Direct.C40_direct_values σ hσ (directEnv pr isSelf assocOf) (outs.map toDirect) hsz
  rw [runDirect]
  cases hx : Direct.exec σ (directEnv pr isSelf assocOf) (outs.map toDirect) with
  | ok r =>
    obtain ⟨-, h2, h3⟩ := hval r hx
    refine ⟨⟨(by intro h; cases h), ?_⟩, ⟨(by intro h; cases h), ?_⟩⟩
    · rintro ⟨d, hd, hb⟩
      exact absurd hb (h2 d hd)
    · rintro ⟨-, d, hd, hb⟩
      exact absurd hb (h3 d hd)
  | error e =>
    rcases herr e hx with ⟨rfl, d, hd, hb⟩ | ⟨rfl, hn, hu⟩
    · refine ⟨⟨fun _ => ⟨d, hd, hb⟩, fun _ => rfl⟩, ⟨(by intro h; cases h), ?_⟩⟩
      rintro ⟨hn, -⟩
      exact absurd hb (hn d hd)
    · refine ⟨⟨(by intro h; cases h), ?_⟩, ⟨fun _ => ⟨hn, hu⟩, fun _ => rfl⟩⟩
      rintro ⟨d, hd, hb⟩
      exact absurd hb (hn d hd)

/-- C77, the part that holds: if both paths return, they return the same for every output whose target is
not the source itself, and for outputs on the source if association picks each node's own center.  (The
full property also asks that the two paths refuse the same inputs, that ties do not matter and that
on-surface targets need no such condition; see the refutations below.) -/
theorem C77_paths_agree_partial [DecidableEq T] (pr : Problem T P F R V)
    (hpos : ∀ c < pr.centers.length, 0 < pr.src.radTol c)
    (outs : List (Out T)) (assoc : List Int) (D : Nat → List V) (hfmm : FmmRun pr (discrs pr outs) assoc D)
    (hno : ∀ o ∈ outs, ∀ p ∈ pr.discr o.target, Unique pr p (o.limit.getD 0))
    (inspect : Option Bool) (hi : inspect ≠ some false)
    (σ : Direct.Sched) (hσ : ∀ {α : Type} (l : List α), (σ l).Perm l) (isSelf : T → Bool)
    (assocOf : T → Int → List Int) (hdir : DirectRun pr isSelf assocOf outs)
    (r : Direct.Results V) (hr : runDirect pr σ isSelf assocOf outs = .ok r) :
    ∃ rs, runFmm pr assoc inspect D outs = some (.done rs) ∧ rs.length = outs.length ∧ r.length = outs.length ∧
      ∀ (i : Nat) (o : Out T), outs[i]? = some o →
        (isSelf o.target = true → ∀ (j : Nat) (p : P), (pr.discr o.target)[j]? = some p →
          brute pr p (o.limit.getD 0) = (own (o.limit.getD 0) j : Int)) →
        ∃ v, rs[i]? = some (o.name, v) ∧ r[i]? = some (some (o.name, v)) ∧
          v.length = (pr.discr o.target).length := by
  have hpts : ∀ q ∈ points (discrs pr outs), Unique pr q.1 q.2 := by
    intro q hq
    obtain ⟨d, hd, hqd⟩ := List.mem_flatMap.1 hq
    obtain ⟨p, hp, rfl⟩ := List.mem_map.1 hqd
    obtain ⟨o, ho, h1, h2⟩ : ∃ o ∈ outs, d.1 = pr.discr o.target ∧ d.2 = o.limit.getD 0 := by
      have key : ∀ (os : List (Out T)) dict lst, d ∈ (collect pr.discr os dict lst).2 →
          d ∈ lst ∨ ∃ o ∈ os, d.1 = pr.discr o.target ∧ d.2 = o.limit.getD 0 := by
        intro os
        induction os with
        | nil => intro dict lst h; exact Or.inl h
        | cons o os ih =>
          intro dict lst h
          rw [collect] at h
          split at h
          · rcases ih _ _ h with h | ⟨o', ho', h⟩
            · exact Or.inl h
            · exact Or.inr ⟨o', List.mem_cons_of_mem _ ho', h⟩
          · rcases ih _ _ h with h | ⟨o', ho', h⟩
            · rcases List.mem_append.1 h with h | h
              · exact Or.inl h
              · rw [List.mem_singleton] at h
                exact Or.inr ⟨o, List.mem_cons_self, by rw [h], by rw [h]⟩
            · exact Or.inr ⟨o', List.mem_cons_of_mem _ ho', h⟩
      rcases key outs [] [] hd with h | h
      · cases h
      · exact h
    simp only
    rw [h2]
    exact hno o ho p (by rw [← h1]; exact hp)
  have h1 := C77_fmm_values pr hpos outs assoc D hfmm hpts inspect hi
  have h2 := C77_direct_values pr hpos σ hσ isSelf assocOf outs hdir (fun o ho _ => hno o ho) r hr
  refine ⟨_, h1, by simp, by rw [h2, List.length_map], ?_⟩
  intro i o ho hself
  refine ⟨_, by rw [List.getElem?_map, ho]; rfl, ?_, by simp⟩
  rw [h2, List.getElem?_map, ho, Option.map_some]
  congr 3
  have : (pr.discr o.target).map (fun p => value pr o.kernel p (o.limit.getD 0))
      = ((pr.discr o.target).zipIdx).map fun q => value pr o.kernel q.1 (o.limit.getD 0) := by
    conv => lhs; rw [← List.zipIdx_map_fst 0 (pr.discr o.target)]
    rw [List.map_map]
    rfl
  rw [this]
  apply List.map_congr_left
  rintro ⟨p, j⟩ hq
  rw [List.mem_zipIdx_iff_getElem?] at hq
  simp only [directValue]
  by_cases hs : isSelf o.target = true
  · rw [if_pos hs, value, valueWith, hself hs j p hq, if_neg (by omega)]
    rfl
  · rw [if_neg hs]

/-- C77: **on the source itself association picks each node's own center**, so that the last theorem covers
on-surface targets: for side `±1` (or any nonzero request), if the node is as far from its own center as
that center's radius `r`, no center's disk has the node in its interior (what refinement achieves with expansion-disturbance
tolerance 0 only: for the default 0.025 see `C77_refined_refuted`, `QBX/OwnCenter.lean`), radii
are enlarged by the same factor for all centers, the node is within some source's tunnel, and there is no
tie. -/
theorem C77_own_center (pr : Problem T P F R V) (side : Int) (hside : side ≠ 0) (j : Nat) (p : P)
    (rad : Nat → F) (tol : F) (htol : 0 ≤ tol) (hrad : ∀ c < pr.centers.length, 0 < rad c)
    (hr : ∀ c < pr.centers.length, pr.src.radTol c = rad c * (1 + tol))
    (hj : own side j < pr.centers.length)
    (hown : pr.ctrDist p (own side j) = rad (own side j))
    (hdisk : ∀ c < pr.centers.length, rad c ≤ pr.ctrDist p c)
    (hclose : ∃ s < pr.nsrc, pr.srcDist p s ≤ pr.src.tunnel s)
    (hu : Unique pr p side) : brute pr p side = (own side j : Int) := by
  have h1 : (0 : F) < 1 + tol := by linarith
  have hpos : ∀ c < pr.centers.length, 0 < pr.src.radTol c := by
    intro c hc; rw [hr c hc]; exact mul_pos (hrad c hc) h1
  have hcov := brute_covered pr hpos p side
  have helig : TargetAssoc.Eligible pr.src
      ⟨side, pr.srcDist p, pr.ctrDist p, [List.range pr.nsrc], [List.range pr.centers.length], []⟩ (own side j) := by
    refine ⟨?_, ?_⟩
    · simp only [TargetAssoc.side, own]
      by_cases hs : 0 < side
      · rw [if_pos hs]
        have : ((2 * j + 1 : Nat) : Int) % 2 = 1 := by omega
        rw [this]; omega
      · rw [if_neg hs]
        have : ((2 * j : Nat) : Int) % 2 = 0 := by omega
        rw [this]; omega
    · simp only
      rw [hown, hr _ hj]
      nlinarith [hrad _ hj]
  have hm := ((TargetAssoc.marked_iff pr.src pr.nsrc pr.centers.length _ hcov).1).2 hclose
  rcases TargetAssoc.found_marked pr.src pr.nsrc pr.centers.length _ hcov hm with ⟨-, -, hn⟩ | ⟨-, c, hc, ht, he, hb, -⟩
  · exact absurd helig (hn _ hj)
  · have hsame : TargetAssoc.side (own side j) = TargetAssoc.side c := by
      have a := helig.side
      have b := he.side
      simp only at a b
      have ha : TargetAssoc.side (own side j) = 1 ∨ TargetAssoc.side (own side j) = -1 := by
        simp only [TargetAssoc.side]; omega
      have hb : TargetAssoc.side c = 1 ∨ TargetAssoc.side c = -1 := by simp only [TargetAssoc.side]; omega
      rcases ha with ha | ha <;> rcases hb with hb | hb <;> rw [ha] at a <;> rw [hb] at b <;> rw [ha, hb] <;> omega
    have hle := hb _ hj helig hsame
    have hge : TargetAssoc.rel pr.src
        ⟨side, pr.srcDist p, pr.ctrDist p, [List.range pr.nsrc], [List.range pr.centers.length], []⟩ (own side j)
        ≤ TargetAssoc.rel pr.src
        ⟨side, pr.srcDist p, pr.ctrDist p, [List.range pr.nsrc], [List.range pr.centers.length], []⟩ c := by
      simp only [TargetAssoc.rel]
      rw [hown, hr _ hj, hr _ hc, div_le_div_iff₀ (mul_pos (hrad _ hj) h1) (mul_pos (hrad _ hc) h1)]
      have := mul_le_mul_of_nonneg_left (hdisk c hc) (le_of_lt (mul_pos (hrad _ hj) h1))
      nlinarith
    have : c = own side j := hu c hc _ hj ⟨he.side, he.disk⟩ ⟨helig.side, helig.disk⟩ hsame.symm (le_antisymm hle hge)
    rw [brute, ht, this]

/-! ## every problem has runs: the hypotheses can be met -/

theorem countP_lt_succ (pairs : List (Nat × Nat)) (k : Nat) :
    pairs.countP (fun p => decide (p.1 < k + 1)) = pairs.countP (fun p => decide (p.1 < k)) + (bucket pairs k).length := by
  induction pairs with
  | nil => rfl
  | cons p ps ih =>
    simp only [bucket, List.length_map] at ih ⊢
    rw [List.countP_cons, List.countP_cons, List.filter_cons, ih]
    by_cases h1 : p.1 = k
    · simp [h1]; omega
    · by_cases h2 : p.1 < k
      · simp [h1, h2, Nat.lt_succ_of_lt h2]; omega
      · have : ¬ p.1 < k + 1 := by omega
        simp [h1, h2, this]

theorem buckets_length (pairs : List (Nat × Nat)) (k : Nat) :
    ((List.range k).flatMap (bucket pairs)).length = pairs.countP (fun p => decide (p.1 < k)) := by
  induction k with
  | zero => simp
  | succ k ih =>
    rw [List.range_succ, List.flatMap_append, List.length_append, ih, countP_lt_succ]
    simp

/-- a key-value sort exists -/
theorem kv_exists (pairs : List (Nat × Nat)) (n : Nat) (h : ∀ p ∈ pairs, p.1 < n) :
    ∃ starts lists, KVSorted pairs n starts lists := by
  refine ⟨(List.range (n + 1)).map fun k => pairs.countP (fun p => decide (p.1 < k)),
    (List.range n).flatMap (bucket pairs), ⟨by simp, ?_, ?_, ?_⟩⟩
  · intro k hk
    rw [List.getElem?_map, List.getElem?_range (by omega)]
    rfl
  · rw [buckets_length, List.countP_eq_length]
    intro p hp
    simpa using h p hp
  · intro k hk
    refine ⟨_, _, by rw [List.getElem?_map, List.getElem?_range (by omega)]; rfl,
      by rw [List.getElem?_map, List.getElem?_range (by omega)]; rfl, ?_⟩
    have hsplit : (List.range n).flatMap (bucket pairs)
        = (List.range (k + 1)).flatMap (bucket pairs) ++ (List.range' (k + 1) (n - (k + 1))).flatMap (bucket pairs) := by
      rw [← List.flatMap_append]
      congr 1
      have h1 : List.range' 0 (k + 1) ++ List.range' (k + 1) (n - (k + 1)) = List.range' 0 (k + 1 + (n - (k + 1))) := by
        have := @List.range'_append_1 0 (k + 1) (n - (k + 1))
        rwa [Nat.zero_add] at this
      rw [List.range_eq_range', List.range_eq_range', h1]
      congr 1
      omega
    simp only
    rw [hsplit, ← buckets_length, ← buckets_length, List.take_left' rfl, List.range_succ, List.flatMap_append,
      List.drop_left' rfl]
    simp

/-- a single box holding everything -/
def boxTrav (ns : Nat) : FMM.Trav where
  own b := if b = 0 then List.range ns else []
  srcStart _ := 0
  srcCount b := if b = 0 then ns else 0
  children _ := []
  parent _ := none
  nlevels := 1
  levelSize _ := 1
  targetBoxes := [0]
  list1Starts := [0, 1]
  list1Lists := [0]
  list2 _ := []
  list4 _ := []
  list3 := []

/-- expansions which store the potential at every target -/
def boxOps (K : Nat → Nat → R → V) (Q : Nat → Nat → Nat → R → V) :
    FMM.Ops R (Nat × Nat → V) (Nat × Nat → V) (Nat → V) V where
  p2p := K
  p2m _ s w := fun x => if x.1 = 0 then K s x.2 w else Q s (x.1 - 1) x.2 w
  m2m _ _ := AddMonoidHom.id _
  m2l _ _ := AddMonoidHom.id _
  p2l _ s w := fun x => if x.1 = 0 then K s x.2 w else Q s (x.1 - 1) x.2 w
  l2l _ _ := AddMonoidHom.id _
  m2p _ t := ⟨⟨fun f => f (0, t), rfl⟩, fun _ _ => rfl⟩
  l2p _ t := ⟨⟨fun f => f (0, t), rfl⟩, fun _ _ => rfl⟩
  p2q c s w := fun t => Q s c t w
  m2q c _ := ⟨⟨fun f t => f (c + 1, t), rfl⟩, fun _ _ => rfl⟩
  l2q c _ := ⟨⟨fun f t => f (c + 1, t), rfl⟩, fun _ _ => rfl⟩
  q2p _ t := ⟨⟨fun f => f t, rfl⟩, fun _ _ => rfl⟩

theorem driven_exists (K : Nat → Nat → R → V) (Q : Nat → Nat → Nat → R → V) (nsrc ncenters : Nat) (assoc : List Int)
    (hassoc : ∀ v ∈ assoc, -1 ≤ v ∧ v < (ncenters : Int)) (w : Nat → R) :
    ∃ result, Driven K Q nsrc ncenters assoc w result := by
  have hlen : (List.range (ncenters + assoc.length)).length = ncenters + assoc.length := by simp
  have hkeys : ∀ p ∈ filteredPairs (scatter ((List.range (ncenters + assoc.length)).zip (userTtc ncenters assoc)) 0
        (List.range (ncenters + assoc.length)).length)
      (scanOut (scanFrom (fun c : Int => decide (0 ≤ c)) 0 0
          (scatter ((List.range (ncenters + assoc.length)).zip (userTtc ncenters assoc)) 0
            (List.range (ncenters + assoc.length)).length))
        (scanCount (fun c : Int => decide (0 ≤ c))
          (scatter ((List.range (ncenters + assoc.length)).zip (userTtc ncenters assoc)) 0
            (List.range (ncenters + assoc.length)).length))), p.1 < ncenters := by
    have hsc : scatter ((List.range (ncenters + assoc.length)).zip (userTtc ncenters assoc)) 0
        (List.range (ncenters + assoc.length)).length = userTtc ncenters assoc := by
      have hul : (userTtc ncenters assoc).length = ncenters + assoc.length := by simp [userTtc]
      obtain ⟨h1, h2⟩ := scatter_spec (List.range (ncenters + assoc.length)) (userTtc ncenters assoc)
        (by simp [hul]) (by simp) _ (List.Perm.refl _) (0 : Int)
      apply List.ext_getElem?
      intro i
      by_cases hi : i < ncenters + assoc.length
      · have hv : (userTtc ncenters assoc)[i]? = some ((userTtc ncenters assoc)[i]'(by omega)) :=
          List.getElem?_eq_getElem _
        rw [h2 i i _ (by rw [List.getElem?_range hi]) hv, hv]
      · rw [List.getElem?_eq_none (by rw [h1]; simp; omega), List.getElem?_eq_none (by omega)]
    rw [hsc, scan_spec _ _ _ (List.Perm.refl _)]
    intro p hp
    obtain ⟨t, ht, rfl⟩ := List.mem_map.1 hp
    rw [mem_flagged] at ht
    obtain ⟨-, v, hv, hf⟩ := ht
    rw [Nat.sub_zero] at hv
    simp only [List.getD, hv, Option.getD_some]
    simp only [decide_eq_true_eq] at hf
    rw [userTtc] at hv
    rcases List.mem_append.1 (List.mem_of_getElem? hv) with h | h
    · have := (List.mem_replicate.1 h).2
      omega
    · have := (hassoc v h).2
      omega
  obtain ⟨starts, lists, hkv⟩ := kv_exists _ ncenters hkeys
  refine ⟨_, Driven.intro (boxOps (fun s t => K ((List.range nsrc).getD s 0) t)
      (fun s c t => Q ((List.range nsrc).getD s 0) c t)) (List.range nsrc) (by simp) (by simp) id (List.range (ncenters + assoc.length))
    ?_ (by simp) ?_ (boxTrav nsrc) ?_ ?_ hlen [(0, ncenters + assoc.length)] (by simp [boxTrav])
    (by simp [boxTrav]) ?_ ?_ ?_ ?_ (fun _ => 0) (by intro t _; exact ⟨0, rfl⟩)
    _ (List.Perm.refl _) _ (List.Perm.refl _) starts lists hkv _ (List.Perm.refl _) _ (List.Perm.refl _)
    _ (List.Perm.refl _) _ (List.Perm.refl _) _ (List.Perm.refl _) rfl⟩
  · intro u t h
    obtain ⟨h1, h2⟩ := List.getElem?_eq_some_iff.1 h
    simpa using h2.symm
  · exact ⟨fun _ _ _ => rfl, fun _ _ _ _ => rfl, fun _ _ _ _ => rfl, fun _ _ _ _ => rfl, fun _ _ _ _ => rfl,
      fun _ _ _ _ => rfl, fun _ _ _ _ => rfl, fun _ _ _ _ => rfl, fun _ _ _ _ => rfl⟩
  · intro k B hk
    have hk0 : k = 0 := by
      have := (List.getElem?_eq_some_iff.1 hk).1
      simp [boxTrav] at this
      exact this
    subst hk0
    simp [boxTrav, FMM.Trav.list1, Offsets.slice, FMM.far]
  · refine ⟨?_, ?_, ?_, ?_, ?_⟩
    · intro b
      by_cases hb : b = 0
      · subst hb; simp [boxTrav, List.range_eq_range']
      · simp [boxTrav, hb]
    · intro k hk
      have : k = 0 := by simpa [boxTrav] using hk
      subst this
      simp [boxTrav]
    · intro x hx; simp [boxTrav] at hx
    · intro l x hx; simp [boxTrav] at hx
    · intro B hB
      have : B = 0 := by simpa [boxTrav] using hB
      subst this
      simp [boxTrav, FMM.Trav.levelStart, Offsets.off]
  · intro b s n hb _
    have : b = 0 := by
      have := (List.getElem?_eq_some_iff.1 hb).1
      simpa using this
    subst this
    simp [boxTrav]
  · intro t ht
    refine ⟨0, 0, ncenters + assoc.length, rfl, by omega, ?_⟩
    simpa using ht
  · intro t b s n b' s' n' hb _ _ hb' _ _
    have h1 := (List.getElem?_eq_some_iff.1 hb).1
    have h2 := (List.getElem?_eq_some_iff.1 hb').1
    simp at h1 h2
    omega
  · intro b s n hb
    have : b = 0 := by
      have := (List.getElem?_eq_some_iff.1 hb).1
      simpa using this
    subst this
    simp only [List.getElem?_cons_zero, Option.some.injEq, Prod.mk.injEq] at hb
    simp
    omega

/-- every problem whose association succeeds has a run of the FMM path, so the hypotheses of the theorems
above can always be met -/
theorem fmm_run_exists (pr : Problem T P F R V) (hpos : ∀ c < pr.centers.length, 0 < pr.src.radTol c)
    (lst : List (List P × Int)) (assoc : List Int)
    (h : Assoc pr lst assoc) (hno : ∀ q ∈ points lst, Unique pr q.1 q.2) : ∃ D, FmmRun pr lst assoc D := by
  have ha := C77_association pr hpos lst assoc h hno
  have hrange : ∀ v ∈ assoc, -1 ≤ v ∧ v < (pr.centers.length : Int) := by
    intro v hv
    rw [ha, List.mem_map] at hv
    obtain ⟨q, -, rfl⟩ := hv
    rcases brute_range pr hpos q.1 q.2 with h | ⟨c, hc, h⟩ <;> rw [h] <;> omega
  have key : ∀ k, ∃ result, Driven
      (fun s u w => atNode (pr.centers ++ (points lst).map Prod.fst) u fun p => pr.K k s p w)
      (fun s c u w => atNode (pr.centers ++ (points lst).map Prod.fst) u fun p => pr.Q k s c p w)
      pr.nsrc pr.centers.length assoc pr.w result :=
    fun k => driven_exists _ _ _ _ _ hrange _
  refine ⟨fun k => (key k).choose, h, fun k => ⟨_, _, ?_, (key k).choose_spec⟩⟩
  intro s u p hp
  constructor <;> intros <;> simp only [atNode, hp]

/-- and it has one on a tree with a single leaf, if brute-force association succeeds -/
theorem assoc_exists (pr : Problem T P F R V) (hpos : ∀ c < pr.centers.length, 0 < pr.src.radTol c)
    (lst : List (List P × Int))
    (hok : ∀ q ∈ points lst, (∃ s < pr.nsrc, pr.srcDist q.1 s ≤ pr.src.tunnel s) →
      ∃ c < pr.centers.length, 0 ≤ TargetAssoc.side c * q.2 ∧ pr.ctrDist q.1 c ≤ pr.src.radTol c) :
    ∃ assoc, Assoc pr lst assoc := by
  have hf : Found pr ⟨fun _ => [List.range pr.nsrc], fun _ => [List.range pr.centers.length], fun _ => []⟩ lst := by
    intro t ht
    obtain ⟨⟨⟨p, s⟩, i⟩, -, rfl⟩ := List.mem_map.1 ht
    exact brute_covered pr hpos p s
  obtain ⟨assoc, ha⟩ := (TargetAssoc.C31_succeeds pr.src pr.nsrc pr.centers.length _ hf).2 (by
    intro t ht hc
    obtain ⟨⟨⟨p, s⟩, i⟩, hm, rfl⟩ := List.mem_map.1 ht
    obtain ⟨c, hc, h1, h2⟩ := hok (p, s) (List.fst_mem_of_mem_zipIdx hm) hc
    exact ⟨c, hc, h1, h2⟩)
  exact ⟨assoc, _, hf, ha⟩

end

/-! ## an instance -/

/-- a line with two source nodes at 0 and 10, radius 1, tunnels of 1/2, tolerance 1/2: target 0 is the
source, target 1 has a point near the first node and a far one, target 2 only the near point -/
def exPr : Problem Nat Rat Rat Int Int where
  discr t := if t = 0 then [0, 10] else if t = 1 then [1 / 4, 5] else [1 / 4]
  centers := [-1, 1, 9, 11]
  nsrc := 2
  src := ⟨fun _ => 1 / 2, fun _ => 3 / 2, id⟩
  srcDist p s := |p - 10 * s|
  ctrDist p c := |p - ([-1, 1, 9, 11] : List Rat).getD c 0|
  w s := if s = 0 then 3 else 5
  K k s _ w := w * (s + 1) + 100 * k
  Q k s c _ w := w * (1000 + 10 * c + s) + 100 * k

theorem exPr_pos : ∀ c < exPr.centers.length, 0 < exPr.src.radTol c := by
  intro c _; simp [exPr]

theorem exPr_unique (p : Rat) (hp : p = 1 / 4 ∨ p = 5 ∨ p = 0 ∨ p = 10) (side : Int) : Unique exPr p side := by
  intro c hc c' hc' he he' hs hr
  have hd := he.disk
  have hd' := he'.disk
  simp only [exPr, List.length_cons, List.length_nil] at hc hc'
  have h1 : c = 0 ∨ c = 1 ∨ c = 2 ∨ c = 3 := by omega
  have h2 : c' = 0 ∨ c' = 1 ∨ c' = 2 ∨ c' = 3 := by omega
  rcases h1 with rfl | rfl | rfl | rfl <;> rcases h2 with rfl | rfl | rfl | rfl <;>
    first
    | rfl
    | (exfalso; revert hs; decide)
    | (exfalso; rcases hp with rfl | rfl | rfl | rfl <;> simp only [exPr] at hd hd' <;>
        first | (revert hd; decide +kernel) | (revert hd'; decide +kernel))

example : (brute exPr (1 / 4) 0, brute exPr (1 / 4) (-1), brute exPr 5 0, brute exPr 10 1) = (1, 0, -1, 3) := by
  decide +kernel

def exOut : List (Out Nat) := [⟨"a", 1, none, 0⟩, ⟨"b", 0, some 1, 1⟩, ⟨"c", 1, some 2, 1⟩]

theorem exPr_ok (q : Rat × Int) (hp : q.1 = 1 / 4 ∨ q.1 = 5 ∨ q.1 = 0 ∨ q.1 = 10) :
    (∃ s < exPr.nsrc, exPr.srcDist q.1 s ≤ exPr.src.tunnel s) →
      ∃ c < exPr.centers.length, 0 ≤ TargetAssoc.side c * q.2 ∧ exPr.ctrDist q.1 c ≤ exPr.src.radTol c := by
  obtain ⟨p, s⟩ := q
  simp only at hp ⊢
  intro hex
  by_cases hs : 0 ≤ s
  · rcases hp with rfl | rfl | rfl | rfl
    · exact ⟨1, by decide, by simp only [TargetAssoc.side]; omega, by decide +kernel⟩
    · exfalso; revert hex; decide +kernel
    · exact ⟨1, by decide, by simp only [TargetAssoc.side]; omega, by decide +kernel⟩
    · exact ⟨3, by decide, by simp only [TargetAssoc.side]; omega, by decide +kernel⟩
  · rcases hp with rfl | rfl | rfl | rfl
    · exact ⟨0, by decide, by simp only [TargetAssoc.side]; omega, by decide +kernel⟩
    · exfalso; revert hex; decide +kernel
    · exact ⟨0, by decide, by simp only [TargetAssoc.side]; omega, by decide +kernel⟩
    · exact ⟨2, by decide, by simp only [TargetAssoc.side]; omega, by decide +kernel⟩

theorem exPr_points (outs : List (Out Nat)) (q : Rat × Int) (hq : q ∈ points (discrs exPr outs)) :
    q.1 = 1 / 4 ∨ q.1 = 5 ∨ q.1 = 0 ∨ q.1 = 10 := by
  have key : ∀ (os : List (Out Nat)) dict lst, (∀ d ∈ lst, ∃ t, d.1 = exPr.discr t) →
      ∀ d ∈ (collect exPr.discr os dict lst).2, ∃ t, d.1 = exPr.discr t := by
    intro os
    induction os with
    | nil => intro dict lst h; exact h
    | cons o os ih =>
      intro dict lst h
      rw [collect]
      split
      · exact ih _ _ h
      · refine ih _ _ ?_
        intro d hd
        rcases List.mem_append.1 hd with hd | hd
        · exact h d hd
        · rw [List.mem_singleton] at hd
          exact ⟨o.target, by rw [hd]⟩
  obtain ⟨d, hd, hqd⟩ := List.mem_flatMap.1 hq
  obtain ⟨p, hp, rfl⟩ := List.mem_map.1 hqd
  obtain ⟨t, ht⟩ := key outs [] [] (by intro d h; cases h) d hd
  rw [ht] at hp
  simp only [exPr] at hp
  by_cases h0 : t = 0
  · rw [if_pos h0] at hp
    rcases List.mem_cons.1 hp with h | h
    · exact Or.inr (Or.inr (Or.inl h))
    · exact Or.inr (Or.inr (Or.inr (List.mem_singleton.1 h)))
  · rw [if_neg h0] at hp
    by_cases h1 : t = 1
    · rw [if_pos h1] at hp
      rcases List.mem_cons.1 hp with h | h
      · exact Or.inl h
      · exact Or.inr (Or.inl (List.mem_singleton.1 h))
    · rw [if_neg h1] at hp
      exact Or.inl (List.mem_singleton.1 hp)

theorem exPr_assoc (outs : List (Out Nat)) : ∃ assoc, Assoc exPr (discrs exPr outs) assoc :=
  assoc_exists exPr exPr_pos _ fun q hq => exPr_ok q (exPr_points outs q hq)

theorem exPr_run (outs : List (Out Nat)) : ∃ assoc D, FmmRun exPr (discrs exPr outs) assoc D := by
  obtain ⟨assoc, ha⟩ := exPr_assoc outs
  obtain ⟨D, hD⟩ := fmm_run_exists exPr exPr_pos _ assoc ha fun q hq => exPr_unique q.1 (exPr_points outs q hq) q.2
  exact ⟨assoc, D, hD⟩

/-- the conditions of `C77_own_center` at both nodes -/
example (j : Nat) (hj : j < 2) (p : Rat) (hp : (exPr.discr 0)[j]? = some p) : brute exPr p 1 = (own 1 j : Int) := by
  have : j = 0 ∧ p = 0 ∨ j = 1 ∧ p = 10 := by
    have h2 : j = 0 ∨ j = 1 := by omega
    rcases h2 with rfl | rfl
    · left; refine ⟨rfl, ?_⟩; simpa [exPr] using hp.symm
    · right; refine ⟨rfl, ?_⟩; simpa [exPr] using hp.symm
  have hr : ∀ c < exPr.centers.length, exPr.src.radTol c = 1 * (1 + 1 / 2) := by
    intro c _; simp only [exPr]; norm_num
  have four : ∀ Q : Nat → Prop, Q 0 → Q 1 → Q 2 → Q 3 → ∀ c < exPr.centers.length, Q c := by
    intro Q h0 h1 h2 h3 c hc
    have : c < 4 := hc
    have : c = 0 ∨ c = 1 ∨ c = 2 ∨ c = 3 := by omega
    rcases this with rfl | rfl | rfl | rfl <;> assumption
  rcases this with ⟨rfl, rfl⟩ | ⟨rfl, rfl⟩
  · exact C77_own_center exPr 1 (by decide) 0 0 (fun _ => 1) (1 / 2) (by norm_num) (fun _ _ => by norm_num) hr
      (by decide) (by decide +kernel)
      (four _ (by decide +kernel) (by decide +kernel) (by decide +kernel) (by decide +kernel))
      ⟨0, by decide, by decide +kernel⟩ (exPr_unique 0 (by simp) 1)
  · exact C77_own_center exPr 1 (by decide) 1 10 (fun _ => 1) (1 / 2) (by norm_num) (fun _ _ => by norm_num) hr
      (by decide) (by decide +kernel)
      (four _ (by decide +kernel) (by decide +kernel) (by decide +kernel) (by decide +kernel))
      ⟨1, by decide, by decide +kernel⟩ (exPr_unique 10 (by simp) 1)

/-- associations of the direct path for this problem -/
def exAssocOf (t : Nat) (side : Int) : List Int := (exPr.discr t).map fun p => brute exPr p side

theorem exPr_direct (outs : List (Out Nat)) : DirectRun exPr (· == 0) exAssocOf outs := by
  intro o ho
  refine ⟨fun _ => ?_, fun _ => by simp [exAssocOf]⟩
  have hpts : ∀ q ∈ points [(exPr.discr o.target, o.limit.getD 0)], q.1 = 1 / 4 ∨ q.1 = 5 ∨ q.1 = 0 ∨ q.1 = 10 := by
    intro q hq
    apply exPr_points [o] q
    simpa [discrs, collect, alookup] using hq
  obtain ⟨assoc, ha⟩ := assoc_exists exPr exPr_pos [(exPr.discr o.target, o.limit.getD 0)] fun q hq => exPr_ok q (hpts q hq)
  have := assoc_single exPr exPr_pos _ _ _ ha fun p hp => exPr_unique p
    (hpts (p, o.limit.getD 0) (by simp [points, hp])) _
  rw [exAssocOf, ← this]
  exact ha

/-- the two paths on this problem, including on-surface targets -/
example : ∃ assoc D r, FmmRun exPr (discrs exPr exOut) assoc D ∧
    runFmm exPr assoc none D exOut = some (.done [("a", [8085, 13]), ("b", [8285, 8445]), ("c", [8285, 213])]) ∧
    runDirect exPr (fun l => l) (· == 0) exAssocOf exOut = .ok r ∧
    r = [some ("a", [8085, 13]), some ("b", [8285, 8445]), some ("c", [8285, 213])] := by
  obtain ⟨assoc, D, hD⟩ := exPr_run exOut
  refine ⟨assoc, D, _, hD, ?_, rfl, ?_⟩
  · rw [C77_fmm_values exPr exPr_pos exOut assoc D hD
      (fun q hq => exPr_unique q.1 (exPr_points _ q hq) q.2) none (by simp)]
    decide +kernel
  · decide +kernel

/-- C77: **the two paths do not refuse the same requests.**  Asked for side `+1` at a target with a point
away from the surface, direct evaluation raises `RuntimeError` while the FMM path returns the value of plain
quadrature there. -/
theorem C77_side_far_refuted : ∃ (outs : List (Out Nat)) (assoc : List Int) (D : Nat → List Int),
    (∀ o ∈ outs, ∀ p ∈ exPr.discr o.target, Unique exPr p (o.limit.getD 0)) ∧
    FmmRun exPr (discrs exPr outs) assoc D ∧ DirectRun exPr (· == 0) exAssocOf outs ∧
    runFmm exPr assoc none D outs = some (.done [("a", [8085, plain exPr 0 5])]) ∧
    runDirect exPr (fun l => l) (· == 0) exAssocOf outs = .error .noCenter := by
  obtain ⟨assoc, D, hD⟩ := exPr_run [⟨"a", 1, some 1, 0⟩]
  refine ⟨[⟨"a", 1, some 1, 0⟩], assoc, D, ?_, hD, exPr_direct _, ?_, by decide +kernel⟩
  · intro o ho p hp
    exact exPr_unique p (exPr_points [o] (p, o.limit.getD 0) (points_collect exPr [o] o (by simp) p hp)) _
  · rw [C77_fmm_values exPr exPr_pos _ assoc D hD
      (fun q hq => exPr_unique q.1 (exPr_points _ q hq) q.2) none (by simp)]
    decide +kernel

/-- a point at the same distance from all four centers -/
def exTie : Problem Nat Rat Rat Int Int :=
  { exPr with discr := fun _ => [0], ctrDist := fun _ _ => 1 }

/-- C77: **ties are decided by the tree.**  Where two centers of one side are equally good, which one is
assigned depends on the order in which the area query visits the leaves, and so does the value. -/
theorem C77_tie_refuted : ∃ a b : List Int, Assoc exTie [([0], 0)] a ∧ Assoc exTie [([0], 0)] b ∧ a ≠ b ∧
    a.map (fun v => valueWith exTie v 0 0) ≠ b.map (fun v => valueWith exTie v 0 0) := by
  have hf : ∀ ctr : List (List Nat), (∀ c < 4, ∃ l ∈ ctr, c ∈ l) → (∀ l ∈ ctr, ∀ c ∈ l, c < 4) →
      Found exTie ⟨fun _ => [[0, 1]], fun _ => ctr, fun _ => []⟩ [([0], 0)] := by
    intro ctr h1 h2 t ht
    have : t = target exTie ⟨fun _ => [[0, 1]], fun _ => ctr, fun _ => []⟩ 0 0 0 := by
      simpa [targets, points] using ht
    subst this
    refine ⟨?_, ?_, ?_, ?_, ?_⟩
    · intro s hs _
      refine ⟨[0, 1], by simp [target], ?_⟩
      have : s = 0 ∨ s = 1 := by simp only [exTie, exPr] at hs; omega
      simpa using this
    · intro l hl s hs
      simp only [target, List.mem_singleton] at hl
      subst hl
      have : s = 0 ∨ s = 1 := by simpa using hs
      simp only [exTie, exPr]
      omega
    · intro c hc _
      exact h1 c hc
    · intro l hl c hc
      exact h2 l hl c hc
    · intro c _
      simp [exTie, exPr]
  refine ⟨[0], [2], ⟨_, hf [[0, 1, 2, 3]] (by decide) (by decide), ?_⟩,
    ⟨_, hf [[2, 3], [0, 1]] (by decide) (by decide), ?_⟩, by decide, by decide +kernel⟩
  · have : ∀ r, (match r with | TargetAssoc.Result.ok l => some l | _ => none) = some [0] →
      r = TargetAssoc.Result.ok [0] := by
      intro r h
      cases r <;> simp_all
    apply this
    decide +kernel
  · have : ∀ r, (match r with | TargetAssoc.Result.ok l => some l | _ => none) = some [2] →
      r = TargetAssoc.Result.ok [2] := by
      intro r h
      cases r <;> simp_all
    apply this
    decide +kernel

/-- two nodes so close that a disk of the second contains the first -/
def exNear : Problem Nat Rat Rat Int Int :=
  { exPr with
    discr := fun _ => [0, 1 / 2]
    centers := [-1, 1, 3 / 4, 1 / 4]
    ctrDist := fun p c => |p - ([-1, 1, 3 / 4, 1 / 4] : List Rat).getD c 0| }

theorem exNear_pos : ∀ c < exNear.centers.length, 0 < exNear.src.radTol c := by
  intro c _; simp [exNear, exPr]

theorem exNear_unique (p : Rat) (hp : p = 0 ∨ p = 1 / 2) : Unique exNear p 1 := by
  intro c hc c' hc' he he' hs hr
  have hd := he.side
  have hd' := he'.side
  simp only [exNear, exPr, List.length_cons, List.length_nil] at hc hc'
  have h1 : c = 0 ∨ c = 1 ∨ c = 2 ∨ c = 3 := by omega
  have h2 : c' = 0 ∨ c' = 1 ∨ c' = 2 ∨ c' = 3 := by omega
  rcases h1 with rfl | rfl | rfl | rfl <;> rcases h2 with rfl | rfl | rfl | rfl <;>
    first
    | rfl
    | (exfalso; revert hs; decide)
    | (exfalso; revert hd; decide)
    | (exfalso; rcases hp with rfl | rfl <;> revert hr <;> decide +kernel)

/-- C77: **on the source itself the two paths may use different centers.**  If a node lies inside the disk of
another node's center, association (FMM path) prefers that center, direct evaluation uses the node's own. -/
theorem C77_self_refuted : ∃ (outs : List (Out Nat)) (assoc : List Int) (D : Nat → List Int) (assocOf : Nat → Int → List Int),
    (∀ o ∈ outs, ∀ p ∈ exNear.discr o.target, Unique exNear p (o.limit.getD 0)) ∧
    FmmRun exNear (discrs exNear outs) assoc D ∧ DirectRun exNear (fun _ => true) assocOf outs ∧
    runFmm exNear assoc none D outs = some (.done [("a", [via exNear 0 3 0, via exNear 0 3 (1 / 2)])]) ∧
    runDirect exNear (fun l => l) (fun _ => true) assocOf outs
      = .ok [some ("a", [via exNear 0 1 0, via exNear 0 3 (1 / 2)])] ∧
    via exNear 0 3 0 ≠ via exNear 0 1 0 := by
  have hpts : ∀ q ∈ points (discrs exNear [⟨"a", 0, some 1, 0⟩]), (q.1 = 0 ∨ q.1 = 1 / 2) ∧ q.2 = 1 := by
    intro q hq
    have : q = (0, 1) ∨ q = (1 / 2, 1) := by
      simpa [discrs, collect, points, exNear, alookup] using hq
    rcases this with rfl | rfl <;> simp
  have hu : ∀ q ∈ points (discrs exNear [⟨"a", 0, some 1, 0⟩]), Unique exNear q.1 q.2 := by
    intro q hq
    rw [(hpts q hq).2]
    exact exNear_unique q.1 (hpts q hq).1
  obtain ⟨assoc, ha⟩ := assoc_exists exNear exNear_pos (discrs exNear [⟨"a", 0, some 1, 0⟩]) (by
    intro q hq _
    refine ⟨3, by decide, by rw [(hpts q hq).2]; decide, ?_⟩
    rcases (hpts q hq).1 with h | h <;> rw [h] <;> decide +kernel)
  obtain ⟨D, hD⟩ := fmm_run_exists exNear exNear_pos _ assoc ha hu
  refine ⟨[⟨"a", 0, some 1, 0⟩], assoc, D, fun _ _ => [-1, -1], ?_, hD, ?_, ?_, by decide +kernel, by decide +kernel⟩
  · intro o ho p hp
    rw [List.mem_singleton] at ho
    subst ho
    exact exNear_unique p (by simpa [exNear] using hp)
  · intro o ho
    exact ⟨(by intro h; cases h), fun _ => rfl⟩
  · rw [C77_fmm_values exNear exNear_pos _ assoc D hD hu none (by simp)]
    decide +kernel

end Verif.Paths
