import Verif.QBX.Geometry
import Mathlib.Algebra.BigOperators.Group.List.Basic
import Mathlib.Algebra.Group.Hom.Defs
import Mathlib.Algebra.Ring.Int.Defs
import Mathlib.Algebra.Group.Prod
import Mathlib.Tactic.Linarith
import Mathlib.Tactic.Ring
import Mathlib.Tactic.Abel

/-!
# The QBX FMM driver (C38)

Models `drive_fmm` and the QBX stages of `QBXExpansionWrangler` (`pytential/qbx/fmm.py`), with the
kernels of `pytential/qbx/interactions.py`.

The point FMM passes of boxtree/sumpy (forming, coarsening and evaluating expansions box by box) are
represented by the recursions they carry out level by level; tree and traversal are arbitrary data
subject to the coverage condition of the property.  Expansions live in arbitrary commutative monoids
and translation operators are additive.  Positions do not appear: operators are indexed by box,
source, center and target numbers, all in tree order.
-/

namespace Verif.FMM

open Verif.Util Verif.Offsets Verif.Geometry

/-- translation operators, indexed by tree numbers of boxes, sources, targets and by centers -/
structure Ops (R Mp Lc Qx V : Type) [AddCommMonoid Mp] [AddCommMonoid Lc] [AddCommMonoid Qx]
    [AddCommMonoid V] where
  p2p : Nat → Nat → R → V
  p2m : Nat → Nat → R → Mp
  m2m : Nat → Nat → Mp →+ Mp
  m2l : Nat → Nat → Mp →+ Lc
  p2l : Nat → Nat → R → Lc
  l2l : Nat → Nat → Lc →+ Lc
  m2p : Nat → Nat → Mp →+ V
  l2p : Nat → Nat → Lc →+ V
  p2q : Nat → Nat → R → Qx
  m2q : Nat → Nat → Mp →+ Qx
  l2q : Nat → Nat → Lc →+ Qx
  q2p : Nat → Nat → Qx →+ V

/-- the translation operators are exact: translating an expansion gives the expansion formed directly,
and evaluating one gives the interaction -/
structure Exact {R Mp Lc Qx V : Type} [AddCommMonoid Mp] [AddCommMonoid Lc] [AddCommMonoid Qx]
    [AddCommMonoid V] (o : Ops R Mp Lc Qx V) (val : Nat → Nat → R → V) (qval : Nat → Nat → Nat → R → V) :
    Prop where
  p2p : ∀ s t w, o.p2p s t w = val s t w
  m2m : ∀ p c s w, o.m2m p c (o.p2m c s w) = o.p2m p s w
  m2l : ∀ b b' s w, o.m2l b b' (o.p2m b' s w) = o.p2l b s w
  l2l : ∀ p c s w, o.l2l p c (o.p2l p s w) = o.p2l c s w
  m2p : ∀ b t s w, o.m2p b t (o.p2m b s w) = val s t w
  l2p : ∀ b t s w, o.l2p b t (o.p2l b s w) = val s t w
  m2q : ∀ c b s w, o.m2q c b (o.p2m b s w) = o.p2q c s w
  l2q : ∀ c b s w, o.l2q c b (o.p2l b s w) = o.p2q c s w
  q2p : ∀ c t s w, o.q2p c t (o.p2q c s w) = qval s c t w

/-- separated smaller boxes of one source level (boxtree's `from_sep_smaller_by_level[l]`): only
nonempty lists are stored -/
structure Ssn where
  nonempty : List Nat
  starts : List Nat
  lists : List Nat

/-- the `j`-th stored list -/
def Ssn.nth (x : Ssn) (j : Nat) : List Nat := slice x.lists (x.starts.getD j 0) (x.starts.getD (j + 1) 0)

/-- list of target box number `k` -/
def Ssn.of (x : Ssn) (k : Nat) : List Nat :=
  (x.nonempty.zipIdx).flatMap fun q => if q.1 = k then x.nth q.2 else []

/-- tree and traversal -/
structure Trav where
  /-- sources directly in a box -/
  own : Nat → List Nat
  /-- `box_source_starts` -/
  srcStart : Nat → Nat
  /-- `box_source_counts_nonchild` -/
  srcCount : Nat → Nat
  children : Nat → List Nat
  /-- parent, none for the root -/
  parent : Nat → Option Nat
  nlevels : Nat
  /-- boxes per level; boxes are numbered level by level -/
  levelSize : Nat → Nat
  targetBoxes : List Nat
  /-- merged list 1, by target box index -/
  list1Starts : List Nat
  list1Lists : List Nat
  /-- lists 2 and 4, by box -/
  list2 : Nat → List Nat
  list4 : Nat → List Nat
  list3 : List Ssn

/-- `neighbor_source_boxes` of target box index `k` -/
def Trav.list1 (tr : Trav) (k : Nat) : List Nat :=
  slice tr.list1Lists (tr.list1Starts.getD k 0) (tr.list1Starts.getD (k + 1) 0)

/-- first box of a level -/
def Trav.levelStart (tr : Trav) (l : Nat) : Nat := off tr.levelSize l

/-- sources in the subtree of a box (to the given depth) -/
def sub (tr : Trav) : Nat → Nat → List Nat
  | 0, b => tr.own b
  | f + 1, b => tr.own b ++ (tr.children b).flatMap (sub tr f)

/-- sources covered by the local expansion of a box, on its own and its ancestors' lists 2 and 4 -/
def far (tr : Trav) : Nat → Nat → List Nat
  | 0, b => (tr.list2 b).flatMap (sub tr tr.nlevels) ++ (tr.list4 b).flatMap tr.own
  | f + 1, b =>
    ((tr.list2 b).flatMap (sub tr tr.nlevels) ++ (tr.list4 b).flatMap tr.own) ++
      match tr.parent b with
      | none => []
      | some p => far tr f p

/-- the traversal covers every source exactly once for each target box -/
def Covers (tr : Trav) (nsources : Nat) : Prop :=
  ∀ (k B : Nat), tr.targetBoxes[k]? = some B →
    ((tr.list1 k).flatMap tr.own ++ tr.list3.flatMap (fun x => (x.of k).flatMap (sub tr tr.nlevels)) ++
      far tr tr.nlevels B).Perm (List.range nsources)

/-- CSR arrays of boxtree's lists of one level: at most one list per target box, monotone starts, one more than lists, beginning
at zero and not running over the end -/
structure SsnOK (x : Ssn) : Prop where
  nodup : x.nonempty.Nodup
  len : x.starts.length = x.nonempty.length + 1
  zero : x.starts.getD 0 0 = 0
  mono : ∀ j < x.nonempty.length, x.starts.getD j 0 ≤ x.starts.getD (j + 1) 0
  le : ∀ j ≤ x.nonempty.length, x.starts.getD j 0 ≤ x.lists.length

/-- well-formedness of the traversal: the arrays are consistent, list 3 boxes of a level are not numbered before that
level, target boxes are boxes of the tree -/
structure TravOK (tr : Trav) : Prop where
  own : ∀ b, tr.own b = List.range' (tr.srcStart b) (tr.srcCount b)
  list1 : ∀ k < tr.targetBoxes.length, tr.list1Starts.getD (k + 1) 0 ≤ tr.list1Lists.length
  ssn : ∀ x ∈ tr.list3, SsnOK x
  level : ∀ (l : Nat) (x : Ssn), tr.list3[l]? = some x → ∀ k, ∀ b ∈ x.of k, tr.levelStart l ≤ b
  box : ∀ B ∈ tr.targetBoxes, B < tr.levelStart tr.nlevels

/-- what a kernel reads in `for i in range(starts[k], starts[k+1]): lists[i]` -/
def kernelRow (starts lists : List Nat) (k : Nat) : List Nat :=
  (List.range' (starts.getD k 0) (starts.getD (k + 1) 0 - starts.getD k 0)).map fun i => lists.getD i 0

/-- `for isrc in range(isrc_start, isrc_start + box_source_counts_nonchild[ibox])` (`interactions.py:100-103`) -/
def kernelOwn (tr : Trav) (b : Nat) : List Nat := List.range' (tr.srcStart b) (tr.srcCount b)

theorem kernelRow_eq (starts lists : List Nat) (k : Nat) (h : starts.getD (k + 1) 0 ≤ lists.length) :
    kernelRow starts lists k = slice lists (starts.getD k 0) (starts.getD (k + 1) 0) := by
  have hl := slice_length lists (starts.getD k 0) (starts.getD (k + 1) 0) h
  apply List.ext_getElem
  · rw [hl, kernelRow, List.length_map, List.length_range']
  · intro i h1 h2
    simp only [kernelRow, List.getElem_map, List.getElem_range', Nat.one_mul, slice, List.getElem_take,
      List.getElem_drop]
    have : starts.getD k 0 + i < lists.length := by
      rw [kernelRow, List.length_map, List.length_range'] at h1
      omega
    rw [List.getD, List.getElem?_eq_getElem this]
    rfl

section

variable {R Mp Lc Qx V : Type} [AddCommMonoid Mp] [AddCommMonoid Lc] [AddCommMonoid Qx]
  [AddCommMonoid V]

/-- `form_multipoles` followed by `coarsen_multipoles` (`fmm.py:441-455`): a box's multipole is formed
from its own sources, plus its children's -/
def up (o : Ops R Mp Lc Qx V) (tr : Trav) (w : Nat → R) : Nat → Nat → Mp
  | 0, b => ((tr.own b).map fun s => o.p2m b s (w s)).sum
  | f + 1, b => ((tr.own b).map fun s => o.p2m b s (w s)).sum
      + ((tr.children b).map fun c => o.m2m b c (up o tr w f c)).sum

/-- `mpole_exps` (`fmm.py:441-455`) -/
def mpole (o : Ops R Mp Lc Qx V) (tr : Trav) (w : Nat → R) (b : Nat) : Mp := up o tr w tr.nlevels b

/-- `multipole_to_local` plus `form_locals` (`fmm.py:472-478,502-510`) -/
def locals0 (o : Ops R Mp Lc Qx V) (tr : Trav) (w : Nat → R) (b : Nat) : Lc :=
  ((tr.list2 b).map fun b' => o.m2l b b' (mpole o tr w b')).sum
    + ((tr.list4 b).map fun b' => ((tr.own b').map fun s => o.p2l b s (w s)).sum).sum

/-- `refine_locals` (`fmm.py:519-523`): parents' local expansions are added, level by level -/
def down (o : Ops R Mp Lc Qx V) (tr : Trav) (w : Nat → R) : Nat → Nat → Lc
  | 0, b => locals0 o tr w b
  | f + 1, b => locals0 o tr w b +
      match tr.parent b with
      | none => 0
      | some p => o.l2l p b (down o tr w f p)

/-- `local_exps` (`fmm.py:519-523`) -/
def loc (o : Ops R Mp Lc Qx V) (tr : Trav) (w : Nat → R) (b : Nat) : Lc := down o tr w tr.nlevels b

/-- `eval_direct` at target `t` of target box `k` (`fmm.py:461-466`) -/
def evalDirect (o : Ops R Mp Lc Qx V) (tr : Trav) (w : Nat → R) (k t : Nat) : V :=
  ((tr.list1 k).map fun b => ((tr.own b).map fun s => o.p2p s t (w s)).sum).sum

/-- `eval_multipoles` (`fmm.py:487-493`) -/
def evalMultipoles (o : Ops R Mp Lc Qx V) (tr : Trav) (w : Nat → R) (k t : Nat) : V :=
  (tr.list3.map fun x => ((x.of k).map fun b => o.m2p b t (mpole o tr w b)).sum).sum

/-- `eval_locals` (`fmm.py:529-535`) -/
def evalLocals (o : Ops R Mp Lc Qx V) (tr : Trav) (w : Nat → R) (k t : Nat) : V :=
  o.l2p (tr.targetBoxes.getD k 0) t (loc o tr w (tr.targetBoxes.getD k 0))

/-- `non_qbx_potentials` (`fmm.py:461-535`), an array over the filtered targets; `tbox t` is the target
box (index) the kernels visit target `t` in -/
def nonQbxPotentials (o : Ops R Mp Lc Qx V) (tr : Trav) (w : Nat → R) (nonQbx : List Nat)
    (tbox : Nat → Nat) : List V :=
  nonQbx.map fun t => evalDirect o tr w (tbox t) t + evalMultipoles o tr w (tbox t) t
    + evalLocals o tr w (tbox t) t

/-- stores of `form_global_qbx_locals` (`fmm.py:231-265`, kernel `P2QBXLFromCSR`,
`interactions.py:84-125`): for the centers in use, coefficients are initialised to zero, accumulated
over list 1 and stored -/
def p2qbxlStores (o : Ops R Mp Lc Qx V) (tr : Trav) (w : Nat → R) (global : List Nat) (ctb : List Nat) :
    List (Nat × Qx) :=
  global.map fun c =>
    (c, ((kernelRow tr.list1Starts tr.list1Lists (ctb.getD c 0)).map fun b =>
      ((kernelOwn tr b).map fun s => o.p2q c s (w s)).sum).sum)

/-- `qbx_center_to_target_box_source_level` (`geometry.py:702-730`): minus one everywhere, then the
positions of the nonempty lists, gathered at the centers' target boxes -/
def centerLevelTable (x : Ssn) (ctb : List Nat) (c : Nat) : Int :=
  ((runStores (copyStores 0 x.nonempty |>.map fun q => (q.2, (q.1 : Int))) (fun _ => some (-1)))
    (ctb.getD c 0)).getD (-1)

/-- `translate_box_multipoles_to_qbx_local` for one source level (`fmm.py:280-310`, kernel `M2QBXL`,
`interactions.py:196-235`): all centers whose box has a nonempty list; multipoles are read through a
view starting at the level's first box -/
def m2qbxlLevel (o : Ops R Mp Lc Qx V) (tr : Trav) (mp : Nat → Mp) (ctb : List Nat) (l : Nat) (x : Ssn)
    (q : Nat → Qx) (c : Nat) : Qx :=
  let j := centerLevelTable x ctb c
  if j ≠ -1 then
    q c + ((kernelRow x.starts x.lists j.toNat).map fun b =>
      o.m2q c b (mp (tr.levelStart l + (b - tr.levelStart l)))).sum
  else q c

/-- the loop over source levels (`fmm.py:270-312`) -/
def m2qbxl (o : Ops R Mp Lc Qx V) (tr : Trav) (mp : Nat → Mp) (ctb : List Nat) : Nat → Qx :=
  (tr.list3.zipIdx).foldl (fun q xl => m2qbxlLevel o tr mp ctb xl.2 xl.1 q) (fun _ => 0)

/-- `translate_box_local_to_qbx_local` for one level (`fmm.py:327-354`, kernel `L2QBXL`,
`interactions.py:318-356`): centers whose box is on this level -/
def l2qbxlLevel (o : Ops R Mp Lc Qx V) (tr : Trav) (lc : Nat → Lc) (ctb : List Nat) (l : Nat)
    (q : Nat → Qx) (c : Nat) : Qx :=
  let B := tr.targetBoxes.getD (ctb.getD c 0) 0
  if tr.levelStart l ≤ B ∧ B < tr.levelStart l + tr.levelSize l then
    q c + o.l2q c B (lc (tr.levelStart l + (B - tr.levelStart l)))
  else q c

/-- the loop over levels (`fmm.py:317-356`) -/
def l2qbxl (o : Ops R Mp Lc Qx V) (tr : Trav) (lc : Nat → Lc) (ctb : List Nat) : Nat → Qx :=
  (List.range tr.nlevels).foldl (fun q l => l2qbxlLevel o tr lc ctb l q) (fun _ => 0)

/-- `qbx_expansions` (`fmm.py:546-557`) from the stores `wsP` of the first stage -/
def qbxExpansions (o : Ops R Mp Lc Qx V) (tr : Trav) (w : Nat → R) (ctb : List Nat)
    (wsP : List (Nat × Qx)) (c : Nat) : Qx :=
  (runStores wsP (fun _ => some 0) c).getD 0 + m2qbxl o tr (mpole o tr w) ctb c
    + l2qbxl o tr (loc o tr w) ctb c

/-- stores of `eval_qbx_expansions` (`fmm.py:358-389`, kernel `QBXL2P`, `interactions.py:442-479`) -/
def qbxl2pStores (o : Ops R Mp Lc Qx V) (global : List Nat) (ctt : Nat → List Nat) (q : Nat → Qx) :
    List (Nat × V) :=
  global.flatMap fun c => (ctt c).map fun t => (t, o.q2p c t (q c))

/-- the end of `drive_fmm` (`fmm.py:571-588`): the non-QBX potentials are stored at their places, the
QBX potentials added, and user target `u` reads from `sorted_target_ids[u]` -/
def finish (nonQbx : List Nat) (pots : List V) (qbxPot : Nat → V) (sorted : List Nat) : List V :=
  sorted.map fun t =>
    (runStores (nonQbx.zip pots) (fun _ => some 0) t).getD 0 + (qbxPot t + 0)

/-- `drive_fmm` (`fmm.py:414-594`): source weights are brought to tree order
(`wt s = w[user_source_ids[s]]`, `:436-437,199-200`); `wsP`, `wsQ` are the stores of the two kernels
in the order they happen -/
def drive (o : Ops R Mp Lc Qx V) (tr : Trav) (wt : Nat → R) (nonQbx : List Nat) (tbox : Nat → Nat)
    (sorted : List Nat) (wsQ : List (Nat × V)) : List V :=
  finish nonQbx (nonQbxPotentials o tr wt nonQbx tbox)
    (fun t => (runStores wsQ (fun _ => some 0) t).getD 0) sorted

end

/-! ## sums over lists -/

section

variable {A : Type} [AddCommMonoid A]

theorem sum_flatMap {X Y : Type} (l : List X) (f : X → List Y) (g : Y → A) :
    ((l.flatMap f).map g).sum = (l.map fun x => ((f x).map g).sum).sum := by
  induction l with
  | nil => rfl
  | cons x l ih => simp [List.flatMap_cons, ih]

theorem sum_map_hom {B X : Type} [AddCommMonoid B] (h : A →+ B) (l : List X) (f : X → A) :
    h ((l.map f).sum) = (l.map fun x => h (f x)).sum := by
  induction l with
  | nil => simp
  | cons x l ih => simp [ih]

theorem sum_perm {X : Type} (l l' : List X) (hp : l.Perm l') (f : X → A) :
    (l.map f).sum = (l'.map f).sum := (hp.map f).sum_eq

end

section

variable {R Mp Lc Qx V : Type} [AddCommMonoid Mp] [AddCommMonoid Lc] [AddCommMonoid Qx]
  [AddCommMonoid V]

theorem up_spec (o : Ops R Mp Lc Qx V) (val qval) (he : Exact o val qval) (tr : Trav) (w : Nat → R)
    (f b : Nat) : up o tr w f b = ((sub tr f b).map fun s => o.p2m b s (w s)).sum := by
  induction f generalizing b with
  | zero => rfl
  | succ f ih =>
    rw [up, sub, List.map_append, List.sum_append, sum_flatMap]
    congr 2
    apply List.map_congr_left
    intro c _
    rw [ih, sum_map_hom]
    congr 1
    apply List.map_congr_left
    intro s _
    exact he.m2m b c s (w s)

theorem locals0_spec (o : Ops R Mp Lc Qx V) (val qval) (he : Exact o val qval) (tr : Trav) (w : Nat → R)
    (b : Nat) : locals0 o tr w b
      = (((tr.list2 b).flatMap (sub tr tr.nlevels) ++ (tr.list4 b).flatMap tr.own).map
          fun s => o.p2l b s (w s)).sum := by
  rw [locals0, List.map_append, List.sum_append, sum_flatMap, sum_flatMap]
  congr 2
  apply List.map_congr_left
  intro b' _
  rw [mpole, up_spec o val qval he, sum_map_hom]
  congr 1
  apply List.map_congr_left
  intro s _
  exact he.m2l b b' s (w s)

theorem down_spec (o : Ops R Mp Lc Qx V) (val qval) (he : Exact o val qval) (tr : Trav) (w : Nat → R)
    (f b : Nat) : down o tr w f b = ((far tr f b).map fun s => o.p2l b s (w s)).sum := by
  induction f generalizing b with
  | zero => rw [down, far, locals0_spec o val qval he]
  | succ f ih =>
    rw [down, far, List.map_append, List.sum_append, locals0_spec o val qval he]
    congr 1
    cases tr.parent b with
    | none => simp
    | some p =>
      simp only
      rw [ih, sum_map_hom]
      congr 1
      apply List.map_congr_left
      intro s _
      exact he.l2l p b s (w s)

/-- the point FMM sums over all sources at every target of a target box -/
theorem point_spec (o : Ops R Mp Lc Qx V) (val qval) (he : Exact o val qval) (tr : Trav) (ns : Nat)
    (hcov : Covers tr ns) (w : Nat → R) (k B t : Nat) (hk : tr.targetBoxes[k]? = some B) :
    evalDirect o tr w k t + evalMultipoles o tr w k t + evalLocals o tr w k t
      = ((List.range ns).map fun s => val s t (w s)).sum := by
  rw [← sum_perm _ _ (hcov k B hk), List.map_append, List.map_append, List.sum_append, List.sum_append]
  congr 1
  · congr 1
    · rw [evalDirect, sum_flatMap]
      congr 1
      apply List.map_congr_left
      intro b _
      congr 1
      apply List.map_congr_left
      intro s _
      exact he.p2p s t (w s)
    · rw [evalMultipoles, sum_flatMap]
      congr 1
      apply List.map_congr_left
      intro x _
      rw [sum_flatMap]
      congr 1
      apply List.map_congr_left
      intro b _
      rw [mpole, up_spec o val qval he, sum_map_hom]
      congr 1
      apply List.map_congr_left
      intro s _
      exact he.m2p b t s (w s)
  · have hB : tr.targetBoxes.getD k 0 = B := by simp [List.getD, hk]
    rw [evalLocals, hB, loc, down_spec o val qval he, sum_map_hom]
    congr 1
    apply List.map_congr_left
    intro s _
    exact he.l2p B t s (w s)

/-! ## QBX stages -/

/-- lookup of the position of a nonempty list -/
theorem centerLevelTable_spec (x : Ssn) (hnd : x.nonempty.Nodup) (ctb : List Nat) (c k : Nat)
    (hk : ctb.getD c 0 = k) :
    (∀ j : Nat, x.nonempty[j]? = some k → centerLevelTable x ctb c = (j : Int)) ∧
    (k ∉ x.nonempty → centerLevelTable x ctb c = -1) := by
  have hkeys : ((copyStores 0 x.nonempty).map fun q => (q.2, (q.1 : Int))).map Prod.fst = x.nonempty := by
    rw [List.map_map]
    have h1 : (Prod.fst ∘ fun q : Nat × Nat => (q.2, (q.1 : Int))) = Prod.snd := rfl
    rw [h1, copyStores, List.map_map]
    have h2 : (Prod.snd ∘ fun q : Nat × Nat => (q.2, q.1)) = Prod.fst := rfl
    rw [h2, List.zipIdx_map_fst]
  constructor
  · intro j hj
    rw [centerLevelTable, hk, runStores_mem _ _ k (j : Int)]
    · rfl
    · rw [hkeys]; exact hnd
    · rw [List.mem_map]
      refine ⟨(j, k), ?_, rfl⟩
      rw [copyStores_eq]
      exact ⟨Nat.zero_le _, by simpa using hj⟩
  · intro hno
    rw [centerLevelTable, hk, runStores_skip]
    · rfl
    · rw [hkeys]; exact hno

theorem flatMap_single {X Y : Type} (l : List X) (f : X → List Y) (j : Nat) (x : X) (hj : l[j]? = some x)
    (h : ∀ (i : Nat) (y : X), l[i]? = some y → i ≠ j → f y = []) : l.flatMap f = f x := by
  induction l generalizing j with
  | nil => cases hj
  | cons a l ih =>
    rw [List.flatMap_cons]
    cases j with
    | zero =>
      have ha : a = x := by simpa using hj
      subst ha
      have : l.flatMap f = [] := by
        rw [List.flatMap_eq_nil_iff]
        intro y hy
        obtain ⟨i, hi⟩ := List.mem_iff_getElem?.1 hy
        exact h (i + 1) y (by simpa using hi) (by omega)
      rw [this, List.append_nil]
    | succ j =>
      rw [h 0 a (by simp) (by omega), List.nil_append]
      exact ih j (by simpa using hj) fun i y hy hij => h (i + 1) y (by simpa using hy) (by omega)

theorem ssn_of_spec (x : Ssn) (hnd : x.nonempty.Nodup) (k : Nat) :
    (∀ (j : Nat), x.nonempty[j]? = some k → x.of k = x.nth j) ∧ (k ∉ x.nonempty → x.of k = []) := by
  constructor
  · intro j hj
    rw [Ssn.of, flatMap_single _ _ j (k, j)]
    · simp
    · rw [List.getElem?_zipIdx, hj]; simp
    · intro i y hy hij
      rw [List.getElem?_zipIdx] at hy
      cases hx : x.nonempty[i]? with
      | none => rw [hx] at hy; simp at hy
      | some v =>
        rw [hx] at hy
        simp only [Option.map_some, Nat.zero_add] at hy
        injection hy with hy
        subst hy
        simp only
        rw [if_neg]
        rintro rfl
        obtain ⟨h1, h2⟩ := List.getElem?_eq_some_iff.1 hj
        obtain ⟨h3, h4⟩ := List.getElem?_eq_some_iff.1 hx
        exact hij ((List.getElem_inj hnd).1 (h4.trans h2.symm))
  · intro hno
    rw [Ssn.of, List.flatMap_eq_nil_iff]
    rintro ⟨a, j⟩ hy
    rw [List.mem_zipIdx_iff_getElem?] at hy
    simp only at hy ⊢
    rw [if_neg]
    rintro rfl
    exact hno (List.mem_of_getElem? hy)

theorem m2qbxlLevel_spec (o : Ops R Mp Lc Qx V) (tr : Trav) (mp : Nat → Mp) (ctb : List Nat) (l : Nat)
    (x : Ssn) (hx : SsnOK x) (q : Nat → Qx) (c k : Nat) (hk : ctb.getD c 0 = k)
    (hlev : ∀ b ∈ x.of k, tr.levelStart l ≤ b) :
    m2qbxlLevel o tr mp ctb l x q c = q c + ((x.of k).map fun b => o.m2q c b (mp b)).sum := by
  obtain ⟨t1, t2⟩ := centerLevelTable_spec x hx.nodup ctb c k hk
  obtain ⟨s1, s2⟩ := ssn_of_spec x hx.nodup k
  by_cases hin : k ∈ x.nonempty
  · obtain ⟨j, hj⟩ := List.mem_iff_getElem?.1 hin
    have hjl := (List.getElem?_eq_some_iff.1 hj).1
    rw [m2qbxlLevel, t1 j hj]
    simp only [Int.toNat_natCast]
    rw [if_pos (by omega), kernelRow_eq _ _ _ (hx.le (j + 1) (by omega))]
    show q c + ((x.nth j).map _).sum = _
    congr 2
    rw [s1 j hj] at hlev ⊢
    apply List.map_congr_left
    intro b hb
    have := hlev b hb
    congr 2
    omega
  · rw [m2qbxlLevel, t2 hin, s2 hin]
    simp

theorem foldl_add_spec {X : Type} {A : Type} [AddCommMonoid A] (l : List X) (step : (Nat → A) → X → Nat → A)
    (c : Nat) (d : X → A) (h : ∀ x ∈ l, ∀ q, step q x c = q c + d x) (q0 : Nat → A) :
    (l.foldl (fun q x => step q x) q0) c = q0 c + (l.map d).sum := by
  induction l generalizing q0 with
  | nil => simp
  | cons x l ih =>
    rw [List.foldl_cons, ih fun y hy => h y (List.mem_cons_of_mem _ hy), h x List.mem_cons_self]
    simp [add_assoc]

theorem zipIdx_map_fst' {X Y : Type} (l : List X) (g : X → Y) :
    (l.zipIdx.map fun p => g p.1) = l.map g := by
  conv => rhs; rw [← List.zipIdx_map_fst 0 l]
  rw [List.map_map]; rfl

theorem m2qbxl_spec (o : Ops R Mp Lc Qx V) (tr : Trav) (mp : Nat → Mp) (ctb : List Nat)
    (hnd : ∀ x ∈ tr.list3, SsnOK x) (c k : Nat) (hk : ctb.getD c 0 = k)
    (hlev : ∀ (l : Nat) (x : Ssn), tr.list3[l]? = some x → ∀ b ∈ x.of k, tr.levelStart l ≤ b) :
    m2qbxl o tr mp ctb c = (tr.list3.map fun x => ((x.of k).map fun b => o.m2q c b (mp b)).sum).sum := by
  rw [m2qbxl, foldl_add_spec tr.list3.zipIdx (fun q xl => m2qbxlLevel o tr mp ctb xl.2 xl.1 q) c
    (fun xl => ((xl.1.of k).map fun b => o.m2q c b (mp b)).sum)]
  · rw [zero_add, zipIdx_map_fst' tr.list3 fun x => ((x.of k).map fun b => o.m2q c b (mp b)).sum]
  · rintro ⟨x, l⟩ hx q
    rw [List.mem_zipIdx_iff_getElem?] at hx
    exact m2qbxlLevel_spec o tr mp ctb l x (hnd x (List.mem_of_getElem? hx)) q c k hk (hlev l x hx)

theorem sum_map_ite_single {A : Type} [AddCommMonoid A] (n l0 : Nat) (hl : l0 < n) (P : Nat → Prop)
    [DecidablePred P] (h0 : P l0) (hu : ∀ l, P l → l = l0) (v : A) :
    ((List.range n).map fun l => if P l then v else 0).sum = v := by
  induction n with
  | zero => omega
  | succ n ih =>
    rw [List.range_succ, List.map_append, List.sum_append]
    by_cases hn : l0 = n
    · subst hn
      have : ((List.range l0).map fun l => if P l then v else 0) = (List.range l0).map fun _ => (0 : A) := by
        apply List.map_congr_left
        intro l hl'
        rw [if_neg]
        intro h
        have := hu l h
        simp at hl'
        omega
      rw [this]
      simp [h0]
    · rw [ih (by omega)]
      simp only [List.map_cons, List.map_nil, List.sum_cons, List.sum_nil, add_zero]
      rw [if_neg, add_zero]
      intro h
      exact hn (hu n h).symm

theorem l2qbxl_spec (o : Ops R Mp Lc Qx V) (tr : Trav) (lc : Nat → Lc) (ctb : List Nat) (c k B : Nat)
    (hk : ctb.getD c 0 = k) (hB : tr.targetBoxes[k]? = some B) (hBl : B < tr.levelStart tr.nlevels) :
    l2qbxl o tr lc ctb c = o.l2q c B (lc B) := by
  obtain ⟨l0, hl0, h1, h2⟩ := off_exists tr.levelSize (n := tr.nlevels) (p := B) hBl
  have hBB : tr.targetBoxes.getD (ctb.getD c 0) 0 = B := by rw [hk]; simp [List.getD, hB]
  rw [l2qbxl, foldl_add_spec _ (fun q l => l2qbxlLevel o tr lc ctb l q) c
    (fun l => if tr.levelStart l ≤ B ∧ B < tr.levelStart l + tr.levelSize l then o.l2q c B (lc B) else 0)]
  · rw [zero_add]
    apply sum_map_ite_single tr.nlevels l0 hl0
    · exact ⟨h1, h2⟩
    · rintro l ⟨h3, h4⟩
      exact off_unique tr.levelSize (p := B) h3 h4 h1 h2
  · intro l _ q
    rw [l2qbxlLevel]
    simp only [hBB]
    split
    · rename_i h
      congr 2
      congr 1
      omega
    · simp

/-- the QBX expansion of a center in use represents all sources -/
theorem qbx_spec (o : Ops R Mp Lc Qx V) (val qval) (he : Exact o val qval) (tr : Trav) (ns : Nat)
    (hcov : Covers tr ns) (w : Nat → R) (global ctb : List Nat) (hgn : global.Nodup)
    (wsP : List (Nat × Qx)) (hP : wsP.Perm (p2qbxlStores o tr w global ctb))
    (htr : TravOK tr) (c k B : Nat) (hc : c ∈ global)
    (hk : ctb.getD c 0 = k) (hB : tr.targetBoxes[k]? = some B) :
    qbxExpansions o tr w ctb wsP c = ((List.range ns).map fun s => o.p2q c s (w s)).sum := by
  rw [← sum_perm _ _ (hcov k B hB), List.map_append, List.map_append, List.sum_append, List.sum_append]
  rw [qbxExpansions, m2qbxl_spec o tr _ ctb htr.ssn c k hk fun l x hx b hb => htr.level l x hx k b hb,
    l2qbxl_spec o tr _ ctb c k B hk hB (htr.box B (List.mem_of_getElem? hB))]
  have hkeys : (p2qbxlStores o tr w global ctb).map Prod.fst = global := by
    rw [p2qbxlStores, List.map_map]
    exact List.map_id' global
  congr 1
  · congr 1
    · have hnd' : ((p2qbxlStores o tr w global ctb).map Prod.fst).Nodup := by rw [hkeys]; exact hgn
      rw [runStores_perm _ _ _ hnd' hP, runStores_mem _ _ c _ hnd' (by
        rw [p2qbxlStores, List.mem_map]
        exact ⟨c, hc, rfl⟩), hk, sum_flatMap,
        kernelRow_eq _ _ _ (htr.list1 k (List.getElem?_eq_some_iff.1 hB).1)]
      simp only [kernelOwn, ← htr.own]
      rfl
    · rw [sum_flatMap]
      congr 1
      apply List.map_congr_left
      intro x _
      rw [sum_flatMap]
      congr 1
      apply List.map_congr_left
      intro b _
      rw [mpole, up_spec o val qval he, sum_map_hom]
      congr 1
      apply List.map_congr_left
      intro s _
      exact he.m2q c b s (w s)
  · rw [loc, down_spec o val qval he, sum_map_hom]
    congr 1
    apply List.map_congr_left
    intro s _
    exact he.l2q c B s (w s)

/-! # C38 -/

/-- the geometry data as the driver uses it -/
structure Geo where
  ncenters : Nat
  sorted : List Nat
  ttc : List Int
  global : List Nat
  ctt : Nat → List Nat
  nonQbx : List Nat
  ctb : List Nat

/-- what C37 and C54 establish about it, together with the absence of failed targets -/
structure GeoOK (g : Geo) (tr : Trav) : Prop where
  perm : g.sorted.Perm (List.range g.sorted.length)
  len : g.ttc.length = g.sorted.length
  center : ∀ u < g.ncenters, g.ttc[u]? = some (-1)
  range : ∀ (u : Nat) (v : Int), g.ttc[u]? = some v → -1 ≤ v ∧ v < g.ncenters
  globalNodup : g.global.Nodup
  global : ∀ c, c ∈ g.global ↔ c < g.ncenters ∧ ∃ u : Nat, g.ncenters ≤ u ∧ g.ttc[u]? = some (c : Int)
  cttNodup : ∀ c < g.ncenters, (g.ctt c).Nodup
  ctt : ∀ c < g.ncenters, ∀ t, t ∈ g.ctt c ↔ ∃ u : Nat, g.sorted[u]? = some t ∧ g.ttc[u]? = some (c : Int)
  nonQbxNodup : g.nonQbx.Nodup
  nonQbx : ∀ t, t ∈ g.nonQbx ↔ ∃ u : Nat, g.ncenters ≤ u ∧ g.sorted[u]? = some t ∧ g.ttc[u]? = some (-1)
  ctb : ∀ c < g.ncenters, ∃ k B : Nat, g.ctb[c]? = some k ∧ tr.targetBoxes[k]? = some B

theorem sum_sources {A : Type} [AddCommMonoid A] (us : List Nat) (hus : us.Perm (List.range us.length))
    (f : Nat → A) :
    ((List.range us.length).map fun s => f (us.getD s 0)).sum = ((List.range us.length).map f).sum := by
  have h1 : ((List.range us.length).map fun s => f (us.getD s 0)) = us.map f := by
    apply List.ext_getElem
    · simp
    · intro i h2 h3
      simp only [List.getElem_map, List.getElem_range]
      congr 1
      have : i < us.length := by simpa using h3
      simp [List.getD, List.getElem?_eq_getElem this]
  rw [h1]
  exact sum_perm _ _ hus f

theorem drive_spec (o : Ops R Mp Lc Qx V) (val qval) (he : Exact o val qval) (tr : Trav) (ns : Nat)
    (hcov : Covers tr ns) (htr : TravOK tr) (g : Geo) (hg : GeoOK g tr) (wt : Nat → R) (tbox : Nat → Nat)
    (htb : ∀ t < g.sorted.length, ∃ B, tr.targetBoxes[tbox t]? = some B)
    (wsP : List (Nat × Qx)) (hP : wsP.Perm (p2qbxlStores o tr wt g.global g.ctb))
    (wsQ : List (Nat × V))
    (hQ : wsQ.Perm (qbxl2pStores o g.global g.ctt (qbxExpansions o tr wt g.ctb wsP)))
    (u t : Nat) (hu : g.sorted[u]? = some t) :
    (u < g.ncenters → (drive o tr wt g.nonQbx tbox g.sorted wsQ)[u]? = some 0) ∧
    (g.ncenters ≤ u → g.ttc[u]? = some (-1) → (drive o tr wt g.nonQbx tbox g.sorted wsQ)[u]?
      = some (((List.range ns).map fun s => val s t (wt s)).sum)) ∧
    (∀ c : Nat, g.ttc[u]? = some (c : Int) → (drive o tr wt g.nonQbx tbox g.sorted wsQ)[u]?
      = some (((List.range ns).map fun s => qval s c t (wt s)).sum)) := by
  have hres : (drive o tr wt g.nonQbx tbox g.sorted wsQ)[u]?
      = some ((runStores (g.nonQbx.zip (nonQbxPotentials o tr wt g.nonQbx tbox)) (fun _ => some 0) t).getD 0
          + ((runStores wsQ (fun _ => some 0) t).getD 0 + 0)) := by
    simp [drive, finish, hu]
  have htl : t < g.sorted.length := by
    have := hg.perm.mem_iff.1 (List.mem_of_getElem? hu)
    simpa using this
  have hkN : (g.nonQbx.zip (nonQbxPotentials o tr wt g.nonQbx tbox)).map Prod.fst = g.nonQbx :=
    List.map_fst_zip (by simp [nonQbxPotentials])
  -- a target with no center gets no QBX potential
  have hqno : (∀ c : Nat, g.ttc[u]? ≠ some (c : Int)) → runStores wsQ (fun _ => some 0) t = some 0 := by
    intro h
    rw [runStores_skip]
    intro hin
    obtain ⟨⟨t', v⟩, hm, rfl⟩ := List.mem_map.1 hin
    rw [hQ.mem_iff, qbxl2pStores, List.mem_flatMap] at hm
    obtain ⟨c, hc, hm⟩ := hm
    obtain ⟨t'', ht'', he'⟩ := List.mem_map.1 hm
    obtain ⟨rfl, -⟩ := Prod.mk.inj he'
    obtain ⟨u', hu', hc'⟩ := (hg.ctt c ((hg.global c).1 hc).1 _).1 ht''
    have := perm_inj g.sorted hg.perm u u' _ hu hu'
    subst this
    exact h c hc'
  have hnno : (∀ u', g.ncenters ≤ u' → g.sorted[u']? = some t → g.ttc[u']? ≠ some (-1)) →
      runStores (g.nonQbx.zip (nonQbxPotentials o tr wt g.nonQbx tbox)) (fun _ => some 0) t = some 0 := by
    intro h
    rw [runStores_skip]
    rw [hkN, hg.nonQbx]
    rintro ⟨u', h1, h2, h3⟩
    exact h u' h1 h2 h3
  refine ⟨?_, ?_, ?_⟩
  · intro huc
    rw [hres, hqno, hnno]
    · simp
    · intro u' h1 h2 _
      have := perm_inj g.sorted hg.perm u u' _ hu h2
      omega
    · intro c h
      rw [hg.center u huc] at h
      injection h with h
      omega
  · intro huc hv
    rw [hres, hqno]
    · rw [runStores_mem _ _ t
        (evalDirect o tr wt (tbox t) t + evalMultipoles o tr wt (tbox t) t + evalLocals o tr wt (tbox t) t)]
      · obtain ⟨B, hB⟩ := htb t htl
        rw [Option.getD_some, point_spec o val qval he tr ns hcov wt _ B t hB]
        simp
      · rw [hkN]; exact hg.nonQbxNodup
      · have : t ∈ g.nonQbx := (hg.nonQbx t).2 ⟨u, huc, hu, hv⟩
        obtain ⟨i, hi⟩ := List.mem_iff_getElem?.1 this
        rw [List.mem_iff_getElem?]
        refine ⟨i, ?_⟩
        rw [List.getElem?_zip_eq_some]
        exact ⟨hi, by simp [nonQbxPotentials, hi]⟩
    · intro c h
      rw [hv] at h
      injection h with h
      omega
  · intro c hc
    have hcl : c < g.ncenters := by have := (hg.range u _ hc).2; omega
    have hun : g.ncenters ≤ u := by
      by_contra hlt
      have h1 := hg.center u (by omega)
      rw [hc] at h1
      injection h1 with h1
      omega
    have hcg : c ∈ g.global := (hg.global c).2 ⟨hcl, u, hun, hc⟩
    rw [hres, hnno]
    · obtain ⟨k, B, hk, hB⟩ := hg.ctb c hcl
      have hq := qbx_spec o val qval he tr ns hcov wt g.global g.ctb hg.globalNodup wsP hP htr c k B
        hcg (by simp [List.getD, hk]) hB
      rw [runStores_mem' wsQ _ t (o.q2p c t (qbxExpansions o tr wt g.ctb wsP c))]
      · rw [hq, sum_map_hom]
        simp only [Option.getD_some, zero_add, add_zero]
        congr 2
        apply List.map_congr_left
        intro s _
        exact he.q2p c t s (wt s)
      · intro v hv
        rw [hQ.mem_iff, qbxl2pStores, List.mem_flatMap] at hv
        obtain ⟨c', hc', hm⟩ := hv
        obtain ⟨t'', ht'', he'⟩ := List.mem_map.1 hm
        obtain ⟨rfl, hv2⟩ := Prod.mk.inj he'
        obtain ⟨u', hu', hcu'⟩ := (hg.ctt c' ((hg.global c').1 hc').1 _).1 ht''
        have := perm_inj g.sorted hg.perm u u' _ hu hu'
        subst this
        rw [hc] at hcu'
        injection hcu' with hcu'
        have : c = c' := by omega
        subst this
        exact hv2.symm
      · left
        rw [hQ.mem_iff, qbxl2pStores, List.mem_flatMap]
        exact ⟨c, hcg, List.mem_map.2 ⟨t, (hg.ctt c hcl t).2 ⟨u, hu, hc⟩, rfl⟩⟩
    · intro u' _ h2 h3
      have := perm_inj g.sorted hg.perm u u' _ hu h2
      subst this
      rw [hc] at h3
      injection h3 with h3
      omega

/-- the geometry data computed by the code from an association (C37, C54) -/
theorem geo_ok (tr : Trav) (sorted : List Nat) (hsorted : sorted.Perm (List.range sorted.length))
    (ncenters : Nat) (assoc : List Int) (hassoc : ∀ v ∈ assoc, -1 ≤ v ∧ v < (ncenters : Int))
    (hlen : sorted.length = ncenters + assoc.length)
    (boxes : List (Nat × Nat)) (hnd : tr.targetBoxes.Nodup)
    (htb : ∀ b ∈ tr.targetBoxes, b < boxes.length)
    (hown : ∀ (b s n : Nat), boxes[b]? = some (s, n) → 0 < n → b ∈ tr.targetBoxes)
    (hbcov : ∀ t < sorted.length, ∃ b s n : Nat, boxes[b]? = some (s, n) ∧ s ≤ t ∧ t < s + n)
    (huniq : ∀ (t b s n b' s' n' : Nat), boxes[b]? = some (s, n) → s ≤ t → t < s + n →
      boxes[b']? = some (s', n') → s' ≤ t → t < s' + n' → b = b')
    (hin : ∀ (b s n : Nat), boxes[b]? = some (s, n) → s + n ≤ sorted.length)
    (ws1 : List (Nat × Int)) (hws1 : ws1.Perm (sorted.zip (userTtc ncenters assoc)))
    (ws2 : List (Nat × Nat))
    (hws2 : ws2.Perm (scanFrom (fun c : Int => decide (0 ≤ c)) 0 0 (scatter ws1 0 sorted.length)))
    (starts lists : List Nat)
    (hkv : KVSorted (filteredPairs (scatter ws1 0 sorted.length)
      (scanOut ws2 (scanCount (fun c : Int => decide (0 ≤ c)) (scatter ws1 0 sorted.length))))
      ncenters starts lists)
    (wsU : List (Nat × Bool)) (hwsU : wsU.Perm (usedStores assoc))
    (ws0 : List (Nat × Nat)) (hws0 : ws0.Perm (sorted.zip (List.range sorted.length)))
    (wsB : List (Nat × Nat))
    (hwsB : wsB.Perm (lookupStores ncenters (boxToTargetBox tr.targetBoxes boxes.length) boxes
      (scatter ws0 0 sorted.length))) :
    GeoOK ⟨ncenters, sorted, userTtc ncenters assoc, globalCenters ncenters wsU,
      fun c => slice lists (starts.getD c 0) (starts.getD (c + 1) 0),
      nonQbxTargets sorted (nonQbxFlags ncenters (userTtc ncenters assoc)),
      centerToTargetBox ncenters wsB⟩ tr := by
  have hlists := C37_center_lists ncenters assoc sorted hlen hsorted ws1 hws1 ws2 hws2 starts lists hkv
  have hglob := C37_global_centers ncenters assoc wsU hwsU
  have hnon := C37_non_qbx ncenters assoc sorted hsorted
  have hbox := C54_center_to_target_box ncenters sorted hsorted (by omega) boxes tr.targetBoxes hnd htb hown
    hbcov huniq hin ws0 hws0 wsB hwsB
  refine ⟨hsorted, by simp [userTtc, hlen], ?_, ?_, hglob.2.imp (fun h => Nat.ne_of_lt h), hglob.1, ?_, ?_,
    hnon.2.imp (fun h => Nat.ne_of_lt h), hnon.1, ?_⟩
  · intro u hu
    simp only at hu ⊢
    rw [userTtc, List.getElem?_append_left (by simpa using hu)]
    simp [hu]
  · intro u v hv
    simp only [userTtc] at hv ⊢
    rw [List.getElem?_append] at hv
    split at hv
    · rw [List.getElem?_replicate] at hv
      split at hv
      · injection hv with hv; omega
      · cases hv
    · exact hassoc v (List.mem_of_getElem? hv)
  · intro c hc
    obtain ⟨a, b, ha, hb, h1, -⟩ := hlists c hc
    simp only [List.getD, ha, hb, Option.getD_some]
    exact h1
  · intro c hc t
    obtain ⟨a, b, ha, hb, -, h2⟩ := hlists c hc
    simp only [List.getD, ha, hb, Option.getD_some]
    exact h2 t
  · intro c hc
    obtain ⟨t, k, b, s, n, -, h2, h3, -⟩ := hbox c hc
    exact ⟨k, b, h2, h3⟩

/-- C38: If the translation operators are exact (`he`: evaluating gives the interactions `K` directly
and `Q` through a center, given in user numbering) and the traversal covers every source exactly once
for each target box, then the QBX FMM, run on the geometry data computed by the code from the target
association `assoc` and the tree's permutations (`us`: tree to user source numbers, `sorted`: user to
tree target numbers), returns in user order for every target the sum over all sources -- through its
QBX center if it has one, directly otherwise.  All kernels perform their stores in arbitrary order. -/
theorem C38_fmm (o : Ops R Mp Lc Qx V) (K : Nat → Nat → R → V) (Q : Nat → Nat → Nat → R → V)
    (us : List Nat) (hus : us.Perm (List.range us.length)) (ut : Nat → Nat) (sorted : List Nat)
    (hut : ∀ u t : Nat, sorted[u]? = some t → ut t = u)
    (hsorted : sorted.Perm (List.range sorted.length))
    (he : Exact o (fun s t => K (us.getD s 0) (ut t)) (fun s c t => Q (us.getD s 0) c (ut t)))
    (tr : Trav) (hcov : Covers tr us.length) (htr : TravOK tr)
    (ncenters : Nat) (assoc : List Int) (hassoc : ∀ v ∈ assoc, -1 ≤ v ∧ v < (ncenters : Int))
    (hlen : sorted.length = ncenters + assoc.length)
    -- own target ranges of the boxes
    (boxes : List (Nat × Nat)) (hnd : tr.targetBoxes.Nodup)
    (htb : ∀ b ∈ tr.targetBoxes, b < boxes.length)
    (hown : ∀ (b s n : Nat), boxes[b]? = some (s, n) → 0 < n → b ∈ tr.targetBoxes)
    (hbcov : ∀ t < sorted.length, ∃ b s n : Nat, boxes[b]? = some (s, n) ∧ s ≤ t ∧ t < s + n)
    (huniq : ∀ (t b s n b' s' n' : Nat), boxes[b]? = some (s, n) → s ≤ t → t < s + n →
      boxes[b']? = some (s', n') → s' ≤ t → t < s' + n' → b = b')
    (hin : ∀ (b s n : Nat), boxes[b]? = some (s, n) → s + n ≤ sorted.length)
    (tbox : Nat → Nat)
    (htbox : ∀ t < sorted.length, ∃ B : Nat, tr.targetBoxes[tbox t]? = some B)
    -- the stores of the kernels, in the order they happen
    (ws1 : List (Nat × Int)) (hws1 : ws1.Perm (sorted.zip (userTtc ncenters assoc)))
    (ws2 : List (Nat × Nat))
    (hws2 : ws2.Perm (scanFrom (fun c : Int => decide (0 ≤ c)) 0 0 (scatter ws1 0 sorted.length)))
    (starts lists : List Nat)
    (hkv : KVSorted (filteredPairs (scatter ws1 0 sorted.length)
      (scanOut ws2 (scanCount (fun c : Int => decide (0 ≤ c)) (scatter ws1 0 sorted.length))))
      ncenters starts lists)
    (wsU : List (Nat × Bool)) (hwsU : wsU.Perm (usedStores assoc))
    (ws0 : List (Nat × Nat)) (hws0 : ws0.Perm (sorted.zip (List.range sorted.length)))
    (wsB : List (Nat × Nat))
    (hwsB : wsB.Perm (lookupStores ncenters (boxToTargetBox tr.targetBoxes boxes.length) boxes
      (scatter ws0 0 sorted.length)))
    (w : Nat → R)
    (wsP : List (Nat × Qx)) (hP : wsP.Perm (p2qbxlStores o tr (fun s => w (us.getD s 0))
      (globalCenters ncenters wsU) (centerToTargetBox ncenters wsB)))
    (wsQ : List (Nat × V)) (hQ : wsQ.Perm (qbxl2pStores o (globalCenters ncenters wsU)
      (fun c => slice lists (starts.getD c 0) (starts.getD (c + 1) 0))
      (qbxExpansions o tr (fun s => w (us.getD s 0)) (centerToTargetBox ncenters wsB) wsP)))
    (result : List V)
    (hresult : result = drive o tr (fun s => w (us.getD s 0))
      (nonQbxTargets sorted (nonQbxFlags ncenters (userTtc ncenters assoc))) tbox sorted wsQ) :
    result.length = ncenters + assoc.length ∧
    ∀ i < assoc.length,
      (assoc[i]? = some (-1) →
        result[ncenters + i]? = some (((List.range us.length).map fun s => K s (ncenters + i) (w s)).sum)) ∧
      (∀ c : Nat, assoc[i]? = some (c : Int) →
        result[ncenters + i]? = some (((List.range us.length).map fun s => Q s c (ncenters + i) (w s)).sum)) := by
  subst hresult
  have hg := geo_ok tr sorted hsorted ncenters assoc hassoc hlen boxes hnd htb hown hbcov huniq hin ws1 hws1 ws2
    hws2 starts lists hkv wsU hwsU ws0 hws0 wsB hwsB
  refine ⟨by simp [drive, finish, hlen], ?_⟩
  intro i hi
  have hul : ncenters + i < sorted.length := by omega
  have hu : sorted[ncenters + i]? = some sorted[ncenters + i] := List.getElem?_eq_getElem hul
  obtain ⟨-, d2, d3⟩ := drive_spec o _ _ he tr us.length hcov htr _ hg (fun s => w (us.getD s 0)) tbox htbox
    wsP hP wsQ hQ (ncenters + i) _ hu
  have hget : (userTtc ncenters assoc)[ncenters + i]? = assoc[i]? := by
    rw [userTtc, List.getElem?_append_right (by simp)]
    simp
  constructor
  · intro hv
    rw [d2 (by simp) (by rw [hget]; exact hv)]
    congr 1
    rw [hut _ _ hu]
    exact sum_sources us hus fun s => K s (ncenters + i) (w s)
  · intro c hc
    rw [d3 c (by rw [hget]; exact hc)]
    congr 1
    rw [hut _ _ hu]
    exact sum_sources us hus fun s => Q s c (ncenters + i) (w s)

end

/-! ## an instance: a linear kernel on a line, with expansions about centers -/

/-- shift of a first-order expansion `(Σ w, Σ w (x - c))` by `d` -/
def exShift (d : Int) : Int × Int →+ Int × Int where
  toFun p := (p.1, p.2 + p.1 * d)
  map_zero' := by simp
  map_add' p q := by
    ext
    · simp
    · simp; ring

/-- evaluation of an expansion at distance `d` -/
def exEval (d : Int) : Int × Int →+ Int where
  toFun p := p.2 + p.1 * d
  map_zero' := by simp
  map_add' p q := by simp; ring

/-- positions of sources, targets (user numbers), boxes and centers -/
def exPos (i : Nat) : Int := 5 * i + 3

/-- expansions of all kinds about box/center positions; sources in tree order are `us` -/
def exOps (us : List Nat) (ut : Nat → Nat) : Ops Int (Int × Int) (Int × Int) (Int × Int) Int where
  p2p s t w := w * (exPos (us.getD s 0) + 2 * exPos (ut t))
  p2m b s w := (w, w * (exPos (us.getD s 0) - 100 * b))
  m2m p c := exShift (100 * c - 100 * p)
  m2l b b' := exShift (100 * b' - 100 * b)
  p2l b s w := (w, w * (exPos (us.getD s 0) - 100 * b))
  l2l p c := exShift (100 * p - 100 * c)
  m2p b t := exEval (100 * b + 2 * exPos (ut t))
  l2p b t := exEval (100 * b + 2 * exPos (ut t))
  p2q c s w := (w, w * (exPos (us.getD s 0) - 7 * c))
  m2q c b := exShift (100 * b - 7 * c)
  l2q c b := exShift (100 * b - 7 * c)
  q2p c t := exEval (7 * c + 2 * exPos (ut t) + 1000)

/-- these operators are exact -/
theorem exExact (us : List Nat) (ut : Nat → Nat) :
    Exact (exOps us ut) (fun s t => (fun i u w => w * (exPos i + 2 * exPos u)) (us.getD s 0) (ut t))
      (fun s c t => (fun i (_ : Nat) u w => w * (exPos i + 2 * exPos u + 1000)) (us.getD s 0) c (ut t)) where
  p2p s t w := rfl
  m2m p c s w := by simp only [exOps, exShift]; ext <;> simp; ring
  m2l p c s w := by simp only [exOps, exShift]; ext <;> simp; ring
  l2l p c s w := by simp only [exOps, exShift]; ext <;> simp; ring
  m2p p c s w := by simp only [exOps, exEval]; simp; ring
  l2p p c s w := by simp only [exOps, exEval]; simp; ring
  m2q p c s w := by simp only [exOps, exShift]; ext <;> simp; ring
  l2q p c s w := by simp only [exOps, exShift]; ext <;> simp; ring
  q2p p c s w := by simp only [exOps, exEval]; simp; ring

/-- a root with two leaves; target box 1 sees itself directly and box 2 through list 2; target box 2 sees
itself directly and box 1 through list 3 -/
def exTrav : Trav where
  own b := if b = 1 then [0] else if b = 2 then [1, 2] else []
  srcStart b := if b = 2 then 1 else 0
  srcCount b := if b = 0 then 0 else if b = 1 then 1 else if b = 2 then 2 else 0
  children b := if b = 0 then [1, 2] else []
  parent b := if b = 0 then none else some 0
  nlevels := 2
  levelSize l := if l = 0 then 1 else 2
  targetBoxes := [1, 2]
  list1Starts := [0, 1, 2]
  list1Lists := [1, 2]
  list2 b := if b = 1 then [2] else []
  list4 _ := []
  list3 := [⟨[], [0], []⟩, ⟨[1], [0, 1], [1]⟩]

example : Covers exTrav 3 := by
  intro k B hk
  have : k = 0 ∨ k = 1 := by
    have := (List.getElem?_eq_some_iff.1 hk).1
    simp [exTrav] at this
    omega
  rcases this with rfl | rfl
  · have : B = 1 := by simpa [exTrav] using hk.symm
    subst this; decide
  · have : B = 2 := by simpa [exTrav] using hk.symm
    subst this; decide

theorem exTravOK : TravOK exTrav where
  own b := by
    match b with
    | 0 => decide
    | 1 => decide
    | 2 => decide
    | b + 3 => simp [exTrav]
  list1 := by decide
  ssn := by
    intro x hx
    have : x = ⟨[], [0], []⟩ ∨ x = ⟨[1], [0, 1], [1]⟩ := by simpa [exTrav] using hx
    rcases this with rfl | rfl <;>
    exact ⟨by decide, by decide, by decide, by decide, by decide⟩
  level := by
    intro l x hx k b hb
    have hl : l < 2 := by simpa [exTrav] using (List.getElem?_eq_some_iff.1 hx).1
    have : l = 0 ∨ l = 1 := by omega
    rcases this with rfl | rfl
    · have : x = ⟨[], [0], []⟩ := by simpa [exTrav] using hx.symm
      subst this; simp [Ssn.of] at hb
    · have : x = ⟨[1], [0, 1], [1]⟩ := by simpa [exTrav] using hx.symm
      subst this
      by_cases hk : 1 = k
      · subst hk
        have : b = 1 := by simpa [Ssn.of, Ssn.nth, slice] using hb
        subst this; decide
      · simp [Ssn.of, hk] at hb
  box := by decide

/-- the driver on this tree: one center (in box 1, tree number 0), a target in box 2 using it and two
targets without center -/
example : drive (exOps [2, 0, 1] id) exTrav (fun s => ([1, 10, 100] : List Int).getD ([2, 0, 1].getD s 0) 0)
    [1, 3] (fun t => if t ≤ 1 then 0 else 1) [0, 1, 2, 3]
    (qbxl2pStores (exOps [2, 0, 1] id) [0] (fun _ => [2])
      (qbxExpansions (exOps [2, 0, 1] id) exTrav (fun s => ([1, 10, 100] : List Int).getD ([2, 0, 1].getD s 0) 0)
        [0] (p2qbxlStores (exOps [2, 0, 1] id) exTrav
          (fun s => ([1, 10, 100] : List Int).getD ([2, 0, 1].getD s 0) 0) [0] [0])))
    = [0,
       1 * (3 + 2 * 8) + 10 * (8 + 2 * 8) + 100 * (13 + 2 * 8),
       1 * (3 + 2 * 13 + 1000) + 10 * (8 + 2 * 13 + 1000) + 100 * (13 + 2 * 13 + 1000),
       1 * (3 + 2 * 18) + 10 * (8 + 2 * 18) + 100 * (13 + 2 * 18)] := by
  decide +kernel

end Verif.FMM
