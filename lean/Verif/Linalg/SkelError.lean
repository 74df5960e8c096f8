import Mathlib.Algebra.BigOperators.Ring.Finset
import Mathlib.Algebra.Order.Field.Rat
import Mathlib.Algebra.Order.BigOperators.Ring.Finset
import Mathlib.Tactic.Linarith
import Mathlib.Tactic.Abel
import Verif.Linalg.Skeleton

/-!
# Skeletonization errors (C70)

Model of `cluster_skeletonization_error` and `skeletonization_error` (`pytential/linalg/utils.py:405-541`).

Entries are elements of a ring, `numpy.linalg.norm(·, ord=ord)` is a parameter (that it raises for some matrices and
some `ord` is not modelled); what is assumed of it is a hypothesis of each theorem.
-/

namespace Verif.SkelError
open Verif.IndexList Verif.Skeleton

/-- a NumPy floating point scalar: rounding and overflow are not modelled, division by zero is -/
inductive Num (V : Type) | num (v : V) | nan | inf
  deriving DecidableEq, Repr

variable {F V : Type}

/-- `mat[np.ix_(r, c)]`; an index outside of `mat` raises `IndexError` -/
def ix (A : Mat F) (r c : List Nat) : Except SErr (Mat F) :=
  if (∀ a ∈ r, a < A.m) ∧ (∀ b ∈ c, b < A.n) then
    .ok ⟨r.length, c.length, fun a b => A.e (r.getD a 0) (c.getD b 0)⟩
  else .error .index

/-- `A @ B` of two matrices; shapes which do not match raise `ValueError` -/
def matmul [Semiring F] (A B : Mat F) : Except SErr (Mat F) :=
  if A.n = B.m then .ok ⟨A.m, B.n, fun a b => ∑ l ∈ Finset.range A.n, A.e a l * B.e l b⟩ else .error .value

/-- NumPy broadcasting of one axis -/
def bdim (m n : Nat) : Except SErr Nat :=
  if m = n then .ok m else if m = 1 then .ok n else if n = 1 then .ok m else .error .value

/-- index into an axis of length `n` broadcast to another length -/
def bidx (n a : Nat) : Nat := if n = 1 then 0 else a

/-- `x - y` of two matrices, with broadcasting -/
def sub [Ring F] (x y : Mat F) : Except SErr (Mat F) := do
  let m ← bdim x.m y.m
  let n ← bdim x.n y.n
  pure ⟨m, n, fun a b => x.e (bidx x.m a) (bidx x.n b) - y.e (bidx y.m a) (bidx y.n b)⟩

/-- `result / la.norm(x, ord=ord)` if `relative` (`utils.py:449-450`, `536-537`) -/
def quot [Field V] [DecidableEq V] (relative : Bool) (r s : V) : Num V :=
  if relative then
    if s = 0 then (if r = 0 then .nan else .inf) else .num (r / s)
  else .num r

/-- `mnorm` (`utils.py:446-452`) -/
def mnorm [Ring F] [Field V] [DecidableEq V] (nrm : Mat F → V) (relative : Bool) (x y : Mat F) :
    Except SErr (Num V) := do
  let d ← sub x y
  pure (quot relative (nrm d) (nrm x))

/-- `itertools.product(range(n), repeat=2)` -/
def pairs (n : Nat) : List (Nat × Nat) :=
  (List.range n).flatMap fun i => (List.range n).map fun j => (i, j)

/-- element `i` of an object array -/
def getAt {α : Type} (l : List α) (i : Nat) : Except SErr α :=
  match l[i]? with
  | some a => .ok a
  | none => .error .index

/-- the two arrays `tgt_error`, `src_error` (`utils.py:456-457`) -/
structure Errs (V : Type) where
  tgt : Nat → Nat → Num V
  src : Nat → Nat → Num V

/-- `x[i, j] = v` -/
def put {α : Type} (x : Nat → Nat → α) (i j : Nat) (v : α) : Nat → Nat → α :=
  fun a b => if a = i ∧ b = j then v else x a b

/-- the two errors of one pair of clusters (`utils.py:464-478`) -/
def blockErrors [Ring F] [Field V] [DecidableEq V] (nrm : Mat F → V) (relative : Bool) (mat : Mat F) (S : Result F)
    (i j : Nat) : Except SErr (Num V × Num V) := do
  let ftgt ← lift (S.index.targets.clusterIndices i)
  let fsrc ← lift (S.index.sources.clusterIndices j)
  let A ← ix mat ftgt fsrc
  let stgt ← lift (S.skel.targets.clusterIndices i)
  let ssrc ← lift (S.skel.sources.clusterIndices j)
  let S₁ ← ix mat stgt fsrc
  let L ← getAt S.L i
  let LS ← matmul L S₁
  let t ← mnorm nrm relative A LS
  let S₂ ← ix mat ftgt ssrc
  let R ← getAt S.R j
  let SR ← matmul S₂ R
  let s ← mnorm nrm relative A SR
  pure (t, s)

/-- body of the loop over pairs of clusters (`utils.py:459-478`) -/
def errStep [Ring F] [Field V] [DecidableEq V] (nrm : Mat F → V) (relative : Bool) (mat : Mat F) (S : Result F)
    (e : Errs V) (ij : Nat × Nat) : Except SErr (Errs V) :=
  if ij.1 = ij.2 then .ok e
  else do
    let p ← blockErrors nrm relative mat S ij.1 ij.2
    pure ⟨put e.tgt ij.1 ij.2 p.1, put e.src ij.1 ij.2 p.2⟩

/-- `cluster_skeletonization_error` (`utils.py:405-482`) -/
def clusterError [Ring F] [Field V] [DecidableEq V] (nrm : Mat F → V) (relative : Bool) (mat : Mat F) (S : Result F) :
    Except SErr ((Nat → Nat → Num V) × (Nat → Nat → Num V)) := do
  let e ← (pairs S.index.n).foldlM (errStep nrm relative mat S) ⟨fun _ _ => .num 0, fun _ _ => .num 0⟩
  pure (e.tgt, e.src)

/-- position of the last occurrence of `p` in `r` -/
def lastIdx (r : List Nat) (p : Nat) : Nat := r.length - 1 - r.reverse.idxOf p

/-- `A[np.ix_(r, c)] = B`, with broadcasting of `B`; of several values for one entry the last is kept -/
def assignIx (A : Mat F) (r c : List Nat) (B : Mat F) : Except SErr (Mat F) :=
  if (∀ a ∈ r, a < A.m) ∧ (∀ b ∈ c, b < A.n) then
    if (B.m = r.length ∨ B.m = 1) ∧ (B.n = c.length ∨ B.n = 1) then
      .ok ⟨A.m, A.n, fun p q => if p ∈ r ∧ q ∈ c then B.e (bidx B.m (lastIdx r p)) (bidx B.n (lastIdx c q)) else A.e p q⟩
    else .error .value
  else .error .index

/-- `L[i] @ S @ R[j]` (`utils.py:525-531`) -/
def approxBlock [Ring F] (mat : Mat F) (S : Result F) (i j : Nat) : Except SErr (Mat F) := do
  let stgt ← lift (S.skel.targets.clusterIndices i)
  let ssrc ← lift (S.skel.sources.clusterIndices j)
  let S₁ ← ix mat stgt ssrc
  let L ← getAt S.L i
  let LS ← matmul L S₁
  let R ← getAt S.R j
  matmul LS R

/-- body of the loop of `skeletonization_error` (`utils.py:518-531`) -/
def sklStep [Ring F] (mat : Mat F) (S : Result F) (skl : Mat F) (ij : Nat × Nat) : Except SErr (Mat F) :=
  if ij.1 = ij.2 then .ok skl
  else do
    let ftgt ← lift (S.index.targets.clusterIndices ij.1)
    let fsrc ← lift (S.index.sources.clusterIndices ij.2)
    let B ← approxBlock mat S ij.1 ij.2
    assignIx skl ftgt fsrc B

/-- `skeletonization_error` (`utils.py:485-541`) -/
def skelError [Ring F] [Field V] [DecidableEq V] (nrm : Mat F → V) (relative : Bool) (mat : Mat F) (S : Result F) :
    Except SErr (Num V) := do
  let skl ← (pairs S.index.n).foldlM (sklStep mat S) mat
  mnorm nrm relative mat skl

/-! ## specification -/

/-- a norm of matrices sees their shape and their entries -/
def Ext (nrm : Mat F → V) : Prop :=
  ∀ A B : Mat F, A.m = B.m → A.n = B.n → (∀ a b, a < A.m → b < A.n → A.e a b = B.e a b) → nrm A = nrm B

/-- a norm is zero exactly for matrices all of whose entries are -/
def Definite [Zero F] [Zero V] (nrm : Mat F → V) : Prop :=
  ∀ A : Mat F, nrm A = 0 ↔ ∀ a b, a < A.m → b < A.n → A.e a b = 0

/-- the data of a skeletonization: `n` clusters, the target and source points `ft i`, `fs i` of cluster `i`, its
skeleton points `st i`, `ss i` and interpolation matrices `L i`, `R i` of the right shapes -/
structure Data (A : Mat F) (S : Result F) (n : Nat) (ft fs st ss : Nat → List Nat) (L R : Nat → Mat F) : Prop where
  count : S.index.targets.nclusters = n
  ftOk : ∀ i, i < n → S.index.targets.clusterIndices i = .ok (ft i)
  fsOk : ∀ i, i < n → S.index.sources.clusterIndices i = .ok (fs i)
  stOk : ∀ i, i < n → S.skel.targets.clusterIndices i = .ok (st i)
  ssOk : ∀ i, i < n → S.skel.sources.clusterIndices i = .ok (ss i)
  LOk : ∀ i, i < n → S.L[i]? = some (L i)
  ROk : ∀ i, i < n → S.R[i]? = some (R i)
  Lshape : ∀ i, i < n → (L i).m = (ft i).length ∧ (L i).n = (st i).length
  Rshape : ∀ i, i < n → (R i).m = (ss i).length ∧ (R i).n = (fs i).length
  rows : ∀ i, i < n → ∀ p ∈ ft i, p < A.m
  cols : ∀ i, i < n → ∀ q ∈ fs i, q < A.n
  stSub : ∀ i, i < n → ∀ p ∈ st i, p ∈ ft i
  ssSub : ∀ i, i < n → ∀ q ∈ ss i, q ∈ fs i

/-- clusters neither overlap nor repeat a point -/
structure Disjoint (n : Nat) (f : Nat → List Nat) : Prop where
  nodup : ∀ i, i < n → (f i).Nodup
  disj : ∀ i j, i < n → j < n → i ≠ j → ∀ p ∈ f i, p ∉ f j

/-- `A_ij - L_i T_ij`, as a matrix of shape (points of cluster `i`) × (points of cluster `j`) -/
def tgtDiff [Ring F] (A : Mat F) (ft fs st : Nat → List Nat) (L : Nat → Mat F) (i j : Nat) : Mat F :=
  ⟨(ft i).length, (fs j).length, fun a b =>
    A.e ((ft i).getD a 0) ((fs j).getD b 0) -
      ∑ l ∈ Finset.range (st i).length, (L i).e a l * A.e ((st i).getD l 0) ((fs j).getD b 0)⟩

/-- `A_ij - S_ij R_j` -/
def srcDiff [Ring F] (A : Mat F) (ft fs ss : Nat → List Nat) (R : Nat → Mat F) (i j : Nat) : Mat F :=
  ⟨(ft i).length, (fs j).length, fun a b =>
    A.e ((ft i).getD a 0) ((fs j).getD b 0) -
      ∑ l ∈ Finset.range (ss j).length, A.e ((ft i).getD a 0) ((ss j).getD l 0) * (R j).e l b⟩

/-- entry `a, b` of `A_ij - L_i S_ij R_j` -/
def bothDiff [Ring F] (A : Mat F) (ft fs st ss : Nat → List Nat) (L R : Nat → Mat F) (i j : Nat) : Mat F :=
  ⟨(ft i).length, (fs j).length, fun a b =>
    A.e ((ft i).getD a 0) ((fs j).getD b 0) -
      ∑ q ∈ Finset.range (ss j).length, ∑ l ∈ Finset.range (st i).length,
        (L i).e a l * A.e ((st i).getD l 0) ((ss j).getD q 0) * (R j).e q b⟩

/-! ## lemmas -/

theorem count_n {A : Mat F} {S : Result F} {n : Nat} {ft fs st ss : Nat → List Nat} {L R : Nat → Mat F}
    (h : Data A S n ft fs st ss L R) : S.index.n = n := by
  unfold TSList.n
  rw [h.count]
  simp

theorem ix_ok (A : Mat F) (r c : List Nat) (hr : ∀ a ∈ r, a < A.m) (hc : ∀ b ∈ c, b < A.n) :
    ix A r c = .ok ⟨r.length, c.length, fun a b => A.e (r.getD a 0) (c.getD b 0)⟩ := by
  unfold ix
  rw [if_pos ⟨hr, hc⟩]

theorem matmul_ok [Semiring F] (A B : Mat F) (h : A.n = B.m) :
    matmul A B = .ok ⟨A.m, B.n, fun a b => ∑ l ∈ Finset.range A.n, A.e a l * B.e l b⟩ := by
  unfold matmul
  rw [if_pos h]

theorem bdim_self (m : Nat) : bdim m m = .ok m := by unfold bdim; rw [if_pos rfl]

theorem bidx_lt {n a : Nat} (h : a < n) : bidx n a = a := by
  unfold bidx
  by_cases h1 : n = 1
  · rw [if_pos h1]; omega
  · rw [if_neg h1]

theorem mnorm_ok [Ring F] [Field V] [DecidableEq V] (nrm : Mat F → V) (hn : Ext nrm) (relative : Bool) (x y D : Mat F)
    (hm : x.m = y.m) (hn' : x.n = y.n) (hDm : D.m = x.m) (hDn : D.n = x.n)
    (hD : ∀ a b, a < x.m → b < x.n → D.e a b = x.e a b - y.e a b) :
    mnorm nrm relative x y = .ok (quot relative (nrm D) (nrm x)) := by
  have hs : sub x y = .ok ⟨x.m, x.n, fun a b => x.e (bidx x.m a) (bidx x.n b) - y.e (bidx y.m a) (bidx y.n b)⟩ := by
    unfold sub
    rw [← hm, ← hn', bdim_self, bdim_self]
    rfl
  unfold mnorm
  rw [hs]
  have : nrm ⟨x.m, x.n, fun a b => x.e (bidx x.m a) (bidx x.n b) - y.e (bidx y.m a) (bidx y.n b)⟩ = nrm D := by
    refine hn _ _ hDm.symm hDn.symm ?_
    intro a b ha hb
    simp only at ha hb ⊢
    rw [hD a b ha hb, bidx_lt ha, bidx_lt hb, bidx_lt (hm ▸ ha), bidx_lt (hn' ▸ hb)]
  simp only [bind, Except.bind, pure, Except.pure, this]

/-- the block `A_ij` of the matrix -/
def full (A : Mat F) (ft fs : Nat → List Nat) (i j : Nat) : Mat F :=
  ⟨(ft i).length, (fs j).length, fun a b => A.e ((ft i).getD a 0) ((fs j).getD b 0)⟩

theorem blockErrors_ok [Ring F] [Field V] [DecidableEq V] (nrm : Mat F → V) (hn : Ext nrm) (relative : Bool) (A : Mat F)
    (S : Result F) (n : Nat) (ft fs st ss : Nat → List Nat) (L R : Nat → Mat F) (h : Data A S n ft fs st ss L R)
    (i j : Nat) (hi : i < n) (hj : j < n) :
    blockErrors nrm relative A S i j = .ok
      (quot relative (nrm (tgtDiff A ft fs st L i j)) (nrm (full A ft fs i j)),
       quot relative (nrm (srcDiff A ft fs ss R i j)) (nrm (full A ft fs i j))) := by
  have hL : getAt S.L i = .ok (L i) := by unfold getAt; rw [h.LOk i hi]
  have hR : getAt S.R j = .ok (R j) := by unfold getAt; rw [h.ROk j hj]
  have hst : ∀ p ∈ st i, p < A.m := fun p hp => h.rows i hi p (h.stSub i hi p hp)
  have hss : ∀ q ∈ ss j, q < A.n := fun q hq => h.cols j hj q (h.ssSub j hj q hq)
  have h1 : mnorm nrm relative (full A ft fs i j)
      ⟨(L i).m, (fs j).length, fun a b => ∑ l ∈ Finset.range (L i).n, (L i).e a l * A.e ((st i).getD l 0) ((fs j).getD b 0)⟩
      = .ok (quot relative (nrm (tgtDiff A ft fs st L i j)) (nrm (full A ft fs i j))) := by
    refine mnorm_ok nrm hn relative _ _ _ (h.Lshape i hi).1.symm rfl rfl rfl ?_
    intro a b _ _
    simp only [tgtDiff, full, (h.Lshape i hi).2]
  have h2 : mnorm nrm relative (full A ft fs i j)
      ⟨(ft i).length, (R j).n, fun a b => ∑ l ∈ Finset.range (ss j).length, A.e ((ft i).getD a 0) ((ss j).getD l 0) * (R j).e l b⟩
      = .ok (quot relative (nrm (srcDiff A ft fs ss R i j)) (nrm (full A ft fs i j))) := by
    refine mnorm_ok nrm hn relative _ _ _ rfl (h.Rshape j hj).2.symm rfl rfl ?_
    intro a b _ _
    simp only [srcDiff, full]
  unfold blockErrors
  rw [h.ftOk i hi, h.fsOk j hj, h.stOk i hi, h.ssOk j hj, hL, hR]
  simp only [lift, bind, Except.bind, ix_ok A (ft i) (fs j) (h.rows i hi) (h.cols j hj),
    ix_ok A (st i) (fs j) hst (h.cols j hj), ix_ok A (ft i) (ss j) (h.rows i hi) hss,
    matmul_ok (L i) ⟨(st i).length, (fs j).length, fun a b => A.e ((st i).getD a 0) ((fs j).getD b 0)⟩ (h.Lshape i hi).2,
    matmul_ok ⟨(ft i).length, (ss j).length, fun a b => A.e ((ft i).getD a 0) ((ss j).getD b 0)⟩ (R j) (h.Rshape j hj).1.symm]
  have e1 := h1
  have e2 := h2
  unfold full at e1 e2 ⊢
  simp only [e1, e2, pure, Except.pure]

theorem mem_pairs (n i j : Nat) : (i, j) ∈ pairs n ↔ i < n ∧ j < n := by
  simp [pairs]

theorem err_fold [Ring F] [Field V] [DecidableEq V] (nrm : Mat F → V) (relative : Bool) (A : Mat F) (S : Result F)
    (f g : Nat → Nat → Num V) (l : List (Nat × Nat))
    (h : ∀ ij ∈ l, ij.1 ≠ ij.2 → blockErrors nrm relative A S ij.1 ij.2 = .ok (f ij.1 ij.2, g ij.1 ij.2)) (e : Errs V) :
    ∃ e', l.foldlM (errStep nrm relative A S) e = .ok e' ∧
      (∀ i j, (i, j) ∈ l → i ≠ j → e'.tgt i j = f i j ∧ e'.src i j = g i j) ∧
      (∀ i j, (i, j) ∉ l ∨ i = j → e'.tgt i j = e.tgt i j ∧ e'.src i j = e.src i j) := by
  induction l generalizing e with
  | nil => exact ⟨e, rfl, by simp, fun _ _ _ => ⟨rfl, rfl⟩⟩
  | cons p l ih =>
    obtain ⟨pi, pj⟩ := p
    by_cases hp : pi = pj
    · obtain ⟨e', h1, h2, h3⟩ := ih (fun ij hij => h ij (List.mem_cons_of_mem _ hij)) e
      refine ⟨e', ?_, ?_, ?_⟩
      · rw [List.foldlM_cons]
        have : errStep nrm relative A S e (pi, pj) = .ok e := by unfold errStep; rw [if_pos hp]
        rw [this]
        exact h1
      · intro i j hij hne
        rcases List.mem_cons.1 hij with heq | hm
        · injection heq with a b; exact absurd (a.trans (hp.trans b.symm)) hne
        · exact h2 i j hm hne
      · intro i j hij
        apply h3
        rcases hij with hij | hij
        · exact Or.inl fun hm => hij (List.mem_cons_of_mem _ hm)
        · exact Or.inr hij
    · have hb := h (pi, pj) (List.mem_cons_self) hp
      obtain ⟨e', h1, h2, h3⟩ := ih (fun ij hij => h ij (List.mem_cons_of_mem _ hij))
        ⟨put e.tgt pi pj (f pi pj), put e.src pi pj (g pi pj)⟩
      refine ⟨e', ?_, ?_, ?_⟩
      · rw [List.foldlM_cons]
        have : errStep nrm relative A S e (pi, pj) = .ok ⟨put e.tgt pi pj (f pi pj), put e.src pi pj (g pi pj)⟩ := by
          unfold errStep
          rw [if_neg hp, hb]
          rfl
        rw [this]
        exact h1
      · intro i j hij hne
        by_cases hm : (i, j) ∈ l
        · exact h2 i j hm hne
        · have := h3 i j (Or.inl hm)
          rcases List.mem_cons.1 hij with heq | hm'
          · injection heq with a b
            subst a b
            simpa [put] using this
          · exact absurd hm' hm
      · intro i j hij
        have hne : ¬ (i = pi ∧ j = pj) := by
          rintro ⟨rfl, rfl⟩
          rcases hij with hij | hij
          · exact hij List.mem_cons_self
          · exact hp hij
        have := h3 i j (hij.imp (fun hij hm => hij (List.mem_cons_of_mem _ hm)) id)
        simpa [put, hne] using this

theorem lastIdx_getD (r : List Nat) (hr : r.Nodup) (a : Nat) (ha : a < r.length) : lastIdx r (r.getD a 0) = a := by
  unfold lastIdx
  have hnd : r.reverse.Nodup := List.nodup_reverse.2 hr
  have hb : r.length - 1 - a < r.reverse.length := by rw [List.length_reverse]; omega
  have hx : r.getD a 0 = r.reverse[r.length - 1 - a] := by
    rw [List.getElem_reverse, List.getD_eq_getElem?_getD, List.getElem?_eq_getElem ha, Option.getD_some]
    congr 1
    omega
  rw [hx, hnd.idxOf_getElem]
  omega

theorem approxBlock_ok [Ring F] (A : Mat F) (S : Result F) (n : Nat) (ft fs st ss : Nat → List Nat) (L R : Nat → Mat F)
    (h : Data A S n ft fs st ss L R) (i j : Nat) (hi : i < n) (hj : j < n) :
    approxBlock A S i j = .ok ⟨(ft i).length, (fs j).length, fun a b =>
      ∑ q ∈ Finset.range (ss j).length, (∑ l ∈ Finset.range (st i).length,
        (L i).e a l * A.e ((st i).getD l 0) ((ss j).getD q 0)) * (R j).e q b⟩ := by
  have hL : getAt S.L i = .ok (L i) := by unfold getAt; rw [h.LOk i hi]
  have hR : getAt S.R j = .ok (R j) := by unfold getAt; rw [h.ROk j hj]
  have hst : ∀ p ∈ st i, p < A.m := fun p hp => h.rows i hi p (h.stSub i hi p hp)
  have hss : ∀ q ∈ ss j, q < A.n := fun q hq => h.cols j hj q (h.ssSub j hj q hq)
  have hm2 : ∀ f : Nat → Nat → F, matmul ⟨(L i).m, (ss j).length, f⟩ (R j) =
      .ok ⟨(L i).m, (R j).n, fun a b => ∑ l ∈ Finset.range (ss j).length, f a l * (R j).e l b⟩ := fun f =>
    matmul_ok ⟨(L i).m, (ss j).length, f⟩ (R j) (h.Rshape j hj).1.symm
  unfold approxBlock
  rw [h.stOk i hi, h.ssOk j hj, hL, hR]
  simp only [lift, bind, Except.bind, ix_ok A (st i) (ss j) hst hss,
    matmul_ok (L i) ⟨(st i).length, (ss j).length, fun a b => A.e ((st i).getD a 0) ((ss j).getD b 0)⟩ (h.Lshape i hi).2,
    hm2]
  rw [(h.Lshape i hi).1, (h.Rshape j hj).2, (h.Lshape i hi).2]

theorem skl_fold [Ring F] (A : Mat F) (S : Result F) (n : Nat) (ft fs st ss : Nat → List Nat) (L R : Nat → Mat F)
    (h : Data A S n ft fs st ss L R) (hft : Disjoint n ft) (hfs : Disjoint n fs) (l : List (Nat × Nat))
    (hl : ∀ ij ∈ l, ij.1 < n ∧ ij.2 < n) (B : Mat F) (hm : B.m = A.m) (hn : B.n = A.n) :
    ∃ C, l.foldlM (sklStep A S) B = .ok C ∧ C.m = A.m ∧ C.n = A.n ∧
      (∀ i j, (i, j) ∈ l → i ≠ j → ∀ a b, a < (ft i).length → b < (fs j).length →
        C.e ((ft i).getD a 0) ((fs j).getD b 0) =
          ∑ q ∈ Finset.range (ss j).length, (∑ r ∈ Finset.range (st i).length,
            (L i).e a r * A.e ((st i).getD r 0) ((ss j).getD q 0)) * (R j).e q b) ∧
      (∀ p q, (∀ i j, (i, j) ∈ l → i ≠ j → ¬ (p ∈ ft i ∧ q ∈ fs j)) → C.e p q = B.e p q) := by
  induction l generalizing B with
  | nil => exact ⟨B, rfl, hm, hn, by simp, fun _ _ _ => rfl⟩
  | cons p l ih =>
    obtain ⟨pi, pj⟩ := p
    by_cases hp : pi = pj
    · obtain ⟨C, h1, h2, h3, h4, h5⟩ := ih (fun ij hij => hl ij (List.mem_cons_of_mem _ hij)) B hm hn
      refine ⟨C, ?_, h2, h3, ?_, ?_⟩
      · rw [List.foldlM_cons]
        have : sklStep A S B (pi, pj) = .ok B := by unfold sklStep; rw [if_pos hp]
        rw [this]
        exact h1
      · intro i j hij hne
        rcases List.mem_cons.1 hij with heq | hmm
        · injection heq with a b; exact absurd (a.trans (hp.trans b.symm)) hne
        · exact h4 i j hmm hne
      · intro p q hpq
        exact h5 p q fun i j hij => hpq i j (List.mem_cons_of_mem _ hij)
    · obtain ⟨hpi, hpj⟩ := hl (pi, pj) List.mem_cons_self
      simp only at hpi hpj
      have hstep : sklStep A S B (pi, pj) = .ok ⟨B.m, B.n, fun p q =>
          if p ∈ ft pi ∧ q ∈ fs pj then
            (fun a b => ∑ q ∈ Finset.range (ss pj).length, (∑ l ∈ Finset.range (st pi).length,
              (L pi).e a l * A.e ((st pi).getD l 0) ((ss pj).getD q 0)) * (R pj).e q b)
              (bidx (ft pi).length (lastIdx (ft pi) p)) (bidx (fs pj).length (lastIdx (fs pj) q))
          else B.e p q⟩ := by
        unfold sklStep
        rw [if_neg hp, h.ftOk pi hpi, h.fsOk pj hpj, approxBlock_ok A S n ft fs st ss L R h pi pj hpi hpj]
        simp only [lift, bind, Except.bind]
        unfold assignIx
        rw [if_pos ⟨fun a ha => hm ▸ h.rows pi hpi a ha, fun b hb => hn ▸ h.cols pj hpj b hb⟩,
          if_pos ⟨Or.inl rfl, Or.inl rfl⟩]
      obtain ⟨C, h1, h2, h3, h4, h5⟩ := ih (fun ij hij => hl ij (List.mem_cons_of_mem _ hij)) ⟨B.m, B.n, fun p q =>
          if p ∈ ft pi ∧ q ∈ fs pj then
            (fun a b => ∑ q ∈ Finset.range (ss pj).length, (∑ l ∈ Finset.range (st pi).length,
              (L pi).e a l * A.e ((st pi).getD l 0) ((ss pj).getD q 0)) * (R pj).e q b)
              (bidx (ft pi).length (lastIdx (ft pi) p)) (bidx (fs pj).length (lastIdx (fs pj) q))
          else B.e p q⟩ hm hn
      refine ⟨C, ?_, h2, h3, ?_, ?_⟩
      · rw [List.foldlM_cons, hstep]
        exact h1
      · intro i j hij hne a b ha hb
        by_cases hmm : (i, j) ∈ l
        · exact h4 i j hmm hne a b ha hb
        · have heq : (i, j) = (pi, pj) := by
            rcases List.mem_cons.1 hij with heq | h'
            · exact heq
            · exact absurd h' hmm
          injection heq with ei ej
          subst ei ej
          have hap : (ft i).getD a 0 ∈ ft i := by
            rw [List.getD_eq_getElem?_getD, List.getElem?_eq_getElem ha, Option.getD_some]; exact List.getElem_mem ha
          have hbp : (fs j).getD b 0 ∈ fs j := by
            rw [List.getD_eq_getElem?_getD, List.getElem?_eq_getElem hb, Option.getD_some]; exact List.getElem_mem hb
          rw [h5]
          · simp only [hap, hbp, and_self, if_true]
            rw [lastIdx_getD _ (hft.nodup i hpi) a ha, lastIdx_getD _ (hfs.nodup j hpj) b hb, bidx_lt ha, bidx_lt hb]
          · rintro i' j' hij' _ ⟨hpa, hpb⟩
            have hlt := hl (i', j') (List.mem_cons_of_mem _ hij')
            simp only at hlt
            have e1 : i = i' := by
              by_contra hc
              exact hft.disj i i' hpi hlt.1 hc _ hap hpa
            have e2 : j = j' := by
              by_contra hc
              exact hfs.disj j j' hpj hlt.2 hc _ hbp hpb
            subst e1 e2
            exact hmm hij'
      · intro p q hpq
        rw [h5 p q fun i j hij => hpq i j (List.mem_cons_of_mem _ hij)]
        simp only
        rw [if_neg (hpq pi pj List.mem_cons_self hp)]

/-! ## theorems -/

/-- **C70**: for a skeletonization whose interpolation matrices have the right shapes and whose points are rows and
columns of `mat`, `cluster_skeletonization_error` succeeds.  For two different clusters `i`, `j` the entry `i, j` of
the first array is the norm of `A_ij - L_i T_ij`, that of the second the norm of `A_ij - S_ij R_j`, each divided by the
norm of `A_ij` if a relative error was asked for; the diagonal of both is zero.

Partial: the documentation promises the source errors first (`C70_order_refuted`). -/
theorem C70_cluster_partial [Ring F] [Field V] [DecidableEq V] (nrm : Mat F → V) (hn : Ext nrm) (relative : Bool) (A : Mat F)
    (S : Result F) (n : Nat) (ft fs st ss : Nat → List Nat) (L R : Nat → Mat F) (h : Data A S n ft fs st ss L R) :
    ∃ T E, clusterError nrm relative A S = .ok (T, E) ∧
      (∀ i, T i i = .num 0 ∧ E i i = .num 0) ∧
      ∀ i j, i < n → j < n → i ≠ j →
        T i j = quot relative (nrm (tgtDiff A ft fs st L i j)) (nrm (full A ft fs i j)) ∧
        E i j = quot relative (nrm (srcDiff A ft fs ss R i j)) (nrm (full A ft fs i j)) := by
  obtain ⟨e, h1, h2, h3⟩ := err_fold nrm relative A S
    (fun i j => quot relative (nrm (tgtDiff A ft fs st L i j)) (nrm (full A ft fs i j)))
    (fun i j => quot relative (nrm (srcDiff A ft fs ss R i j)) (nrm (full A ft fs i j)))
    (pairs n) (fun ij hij _ => blockErrors_ok nrm hn relative A S n ft fs st ss L R h ij.1 ij.2
      ((mem_pairs n ij.1 ij.2).1 hij).1 ((mem_pairs n ij.1 ij.2).1 hij).2)
    ⟨fun _ _ => .num 0, fun _ _ => .num 0⟩
  refine ⟨e.tgt, e.src, ?_, fun i => h3 i i (Or.inr rfl), fun i j hi hj hne => h2 i j ((mem_pairs n i j).2 ⟨hi, hj⟩) hne⟩
  unfold clusterError
  rw [count_n h, h1]
  rfl

/-- **C70**: for clusters which do not overlap, `skeletonization_error` succeeds, and returns the norm of the matrix
(relative to that of `mat`) whose block for two different clusters is `A_ij - L_i S_ij R_j` and all of whose other
entries are zero. -/
theorem C70_total [Ring F] [Field V] [DecidableEq V] (nrm : Mat F → V) (hn : Ext nrm) (relative : Bool) (A : Mat F)
    (S : Result F) (n : Nat) (ft fs st ss : Nat → List Nat) (L R : Nat → Mat F) (h : Data A S n ft fs st ss L R)
    (hft : Disjoint n ft) (hfs : Disjoint n fs) :
    ∃ D : Mat F, skelError nrm relative A S = .ok (quot relative (nrm D) (nrm A)) ∧ D.m = A.m ∧ D.n = A.n ∧
      (∀ i j, i < n → j < n → i ≠ j → ∀ a b, a < (ft i).length → b < (fs j).length →
        D.e ((ft i).getD a 0) ((fs j).getD b 0) = (bothDiff A ft fs st ss L R i j).e a b) ∧
      (∀ p q, (∀ i j, i < n → j < n → i ≠ j → ¬ (p ∈ ft i ∧ q ∈ fs j)) → D.e p q = 0) := by
  obtain ⟨C, h1, h2, h3, h4, h5⟩ := skl_fold A S n ft fs st ss L R h hft hfs (pairs n)
    (fun ij hij => (mem_pairs n ij.1 ij.2).1 hij) A rfl rfl
  refine ⟨⟨A.m, A.n, fun p q => A.e p q - C.e p q⟩, ?_, rfl, rfl, ?_, ?_⟩
  · unfold skelError
    rw [count_n h, h1]
    exact mnorm_ok nrm hn relative A C _ h2.symm h3.symm rfl rfl (fun _ _ _ _ => rfl)
  · intro i j hi hj hne a b ha hb
    simp only [h4 i j ((mem_pairs n i j).2 ⟨hi, hj⟩) hne a b ha hb, bothDiff, Finset.sum_mul]
  · intro p q hpq
    simp only
    rw [h5 p q, sub_self]
    intro i j hij hne
    exact hpq i j ((mem_pairs n i j).1 hij).1 ((mem_pairs n i j).1 hij).2 hne

/-- **C70**: each block of the error of the whole matrix is the source error of the block plus the target error, at the
source skeleton, propagated by the right interpolation matrix. -/
theorem C70_decompose [Ring F] (A : Mat F) (S : Result F) (n : Nat) (ft fs st ss : Nat → List Nat) (L R : Nat → Mat F)
    (h : Data A S n ft fs st ss L R) (i j : Nat) (_hi : i < n) (hj : j < n) :
    ∃ pos : Nat → Nat, (∀ q, q < (ss j).length → pos q < (fs j).length ∧ (fs j).getD (pos q) 0 = (ss j).getD q 0) ∧
      ∀ a b, (bothDiff A ft fs st ss L R i j).e a b = (srcDiff A ft fs ss R i j).e a b +
        ∑ q ∈ Finset.range (ss j).length, (tgtDiff A ft fs st L i j).e a (pos q) * (R j).e q b := by
  have hpos : ∀ q, ∃ p, q < (ss j).length → p < (fs j).length ∧ (fs j).getD p 0 = (ss j).getD q 0 := by
    intro q
    by_cases hq : q < (ss j).length
    · have hmem : (ss j).getD q 0 ∈ fs j := by
        apply h.ssSub j hj
        rw [List.getD_eq_getElem?_getD, List.getElem?_eq_getElem hq, Option.getD_some]
        exact List.getElem_mem hq
      obtain ⟨p, hp, he⟩ := List.getElem_of_mem hmem
      refine ⟨p, fun _ => ⟨hp, ?_⟩⟩
      rw [← he, List.getD_eq_getElem?_getD, List.getElem?_eq_getElem hp, Option.getD_some]
    · exact ⟨0, fun hq' => absurd hq' hq⟩
  obtain ⟨pos, hp⟩ := Classical.axiomOfChoice hpos
  refine ⟨pos, hp, ?_⟩
  intro a b
  have hcongr : ∀ q ∈ Finset.range (ss j).length, (tgtDiff A ft fs st L i j).e a (pos q) * (R j).e q b =
      A.e ((ft i).getD a 0) ((ss j).getD q 0) * (R j).e q b -
        ∑ l ∈ Finset.range (st i).length, (L i).e a l * A.e ((st i).getD l 0) ((ss j).getD q 0) * (R j).e q b := by
    intro q hq
    simp only [tgtDiff, (hp q (Finset.mem_range.1 hq)).2, sub_mul, Finset.sum_mul]
  rw [Finset.sum_congr rfl hcongr, Finset.sum_sub_distrib]
  simp only [bothDiff, srcDiff]
  abel

/-- **C70**: if the source and target errors of all pairs of different clusters vanish, so does the error of the whole
matrix, unless it was asked for relative to the norm of a zero matrix. -/
theorem C70_exact [Ring F] [Field V] [DecidableEq V] (nrm : Mat F → V) (hn : Ext nrm) (hd : Definite nrm) (A : Mat F)
    (S : Result F) (n : Nat) (ft fs st ss : Nat → List Nat) (L R : Nat → Mat F) (h : Data A S n ft fs st ss L R)
    (hft : Disjoint n ft) (hfs : Disjoint n fs) (T E : Nat → Nat → Num V) (hc : clusterError nrm false A S = .ok (T, E))
    (hT : ∀ i j, i < n → j < n → T i j = .num 0) (hE : ∀ i j, i < n → j < n → E i j = .num 0) :
    skelError nrm false A S = .ok (.num 0) := by
  obtain ⟨T', E', h1, -, h3⟩ := C70_cluster_partial nrm hn false A S n ft fs st ss L R h
  have he : (T, E) = (T', E') := by
    have := hc.symm.trans h1
    injection this
  injection he with e1 e2
  subst e1 e2
  obtain ⟨D, g1, g2, g3, g4, g5⟩ := C70_total nrm hn false A S n ft fs st ss L R h hft hfs
  rw [g1]
  have hz : nrm D = 0 := by
    rw [hd D]
    intro p q _ _
    by_cases hcov : ∀ i j, i < n → j < n → i ≠ j → ¬ (p ∈ ft i ∧ q ∈ fs j)
    · exact g5 p q hcov
    · push Not at hcov
      obtain ⟨i, j, hi, hj, hne, hpi, hqj⟩ := hcov
      obtain ⟨a, ha, rfl⟩ := List.getElem_of_mem hpi
      obtain ⟨b, hb, rfl⟩ := List.getElem_of_mem hqj
      have hD := g4 i j hi hj hne a b ha hb
      rw [List.getD_eq_getElem?_getD, List.getElem?_eq_getElem ha, Option.getD_some,
        List.getD_eq_getElem?_getD, List.getElem?_eq_getElem hb, Option.getD_some] at hD
      rw [hD]
      obtain ⟨pos, hp, hdec⟩ := C70_decompose A S n ft fs st ss L R h i j hi hj
      have ht0 : nrm (tgtDiff A ft fs st L i j) = 0 := by
        have := (h3 i j hi hj hne).1
        rw [hT i j hi hj] at this
        simpa [quot] using this.symm
      have hs0 : nrm (srcDiff A ft fs ss R i j) = 0 := by
        have := (h3 i j hi hj hne).2
        rw [hE i j hi hj] at this
        simpa [quot] using this.symm
      rw [hdec a b, (hd _).1 hs0 a b ha hb, zero_add]
      apply Finset.sum_eq_zero
      intro q hq
      rw [(hd _).1 ht0 a (pos q) ha (hp q (Finset.mem_range.1 hq)).1, zero_mul]
  rw [hz]
  rfl

/-- **C70**: a relative error is a number exactly if the norm it is relative to is not zero; it is then the quotient of
the two norms; else it is infinite, or NaN if the error is zero too. -/
theorem C70_relative [Field V] [DecidableEq V] (r s : V) :
    (s ≠ 0 → quot true r s = .num (r / s)) ∧ (s = 0 → ∀ v, quot true r s ≠ .num v) ∧ quot false r s = .num r ∧
    quot true (0 : V) 0 = .nan ∧ (r ≠ 0 → quot true r 0 = .inf) := by
  refine ⟨fun h => by simp [quot, h], fun h v => ?_, rfl, by simp [quot], fun h => by simp [quot, h]⟩
  subst h
  by_cases hr : r = 0 <;> simp [quot, hr]

/-- **C70**: every successful skeletonization, with any interpolative decomposition that keeps its promises, of clusters
of rows and columns of `A` is one to which the theorems above apply. -/
theorem C70_of_skeletonize [Ring F] (id : ID F) (hid : IDOK id) (ws wt : Wrangler F) (m : TSList)
    (hm : m.targets.nclusters = m.sources.nclusters) (ht : WF m.targets) (hs : WF m.sources) (idEps : Option ℚ)
    (idRank : Option Nat) (S : Result F) (h : skeletonize id ws wt m idEps idRank = .ok S) (A : Mat F)
    (hr : ∀ p ∈ m.targets.indices, p < A.m) (hc : ∀ q ∈ m.sources.indices, q < A.n) :
    ∃ ft fs st ss L R, Data A S m.n ft fs st ss L R := by
  obtain ⟨h1, -, -, -, -, -, -, h8⟩ := C49_consistent id hid ws wt m hm ht hs idEps idRank S h
  have hn : (m.n : Int) = m.targets.nclusters := by
    have := ht.length_pos
    rw [TSList.n, IList.nclusters]; omega
  have key : ∀ i : Nat, ∃ x : (List Nat × List Nat) × (List Nat × List Nat) × (Mat F × Mat F), i < m.n →
      m.targets.clusterIndices i = .ok x.1.1 ∧ m.sources.clusterIndices i = .ok x.1.2 ∧
      S.skel.targets.clusterIndices i = .ok x.2.1.1 ∧ S.skel.sources.clusterIndices i = .ok x.2.1.2 ∧
      S.L[i]? = some x.2.2.1 ∧ S.R[i]? = some x.2.2.2 ∧
      ∃ k, Interpolates x.1.1 x.2.1.1 k x.2.2.1.t ∧ Interpolates x.1.2 x.2.1.2 k x.2.2.2 := by
    intro i
    by_cases hi : i < m.n
    · obtain ⟨ct, cs, st, ss, k, L, R, q1, q2, q3, q4, q5, q6, -, -, -, q10, q11⟩ := h8 i (by omega)
      exact ⟨((ct, cs), (st, ss), (L, R)), fun _ => ⟨q1, q2, q3, q4, q5, q6, k, q10, q11⟩⟩
    · exact ⟨(([], []), ([], []), (⟨0, 0, fun _ _ => 0⟩, ⟨0, 0, fun _ _ => 0⟩)), fun hi' => absurd hi' hi⟩
  obtain ⟨f, hf⟩ := Classical.axiomOfChoice key
  have hmem : ∀ (l : IList) (i : Nat) (c : List Nat), l.clusterIndices i = .ok c → ∀ x ∈ c, x ∈ l.indices := by
    intro l i c hcc x hx
    unfold IList.clusterIndices at hcc
    split_ifs at hcc
    injection hcc with hcc
    subst hcc
    unfold Verif.Offsets.slice at hx
    exact List.mem_of_mem_take (List.mem_of_mem_drop hx)
  refine ⟨fun i => (f i).1.1, fun i => (f i).1.2, fun i => (f i).2.1.1, fun i => (f i).2.1.2, fun i => (f i).2.2.1,
    fun i => (f i).2.2.2, ?_, ?_, ?_, ?_, ?_, ?_, ?_, ?_, ?_, ?_, ?_, ?_, ?_⟩
  · rw [h1, hn]
  · intro i hi; rw [h1]; exact (hf i hi).1
  · intro i hi; rw [h1]; exact (hf i hi).2.1
  · intro i hi; exact (hf i hi).2.2.1
  · intro i hi; exact (hf i hi).2.2.2.1
  · intro i hi; exact (hf i hi).2.2.2.2.1
  · intro i hi; exact (hf i hi).2.2.2.2.2.1
  · intro i hi
    obtain ⟨k, q1, -⟩ := (hf i hi).2.2.2.2.2.2
    exact ⟨q1.shape.2, q1.shape.1.trans q1.len.symm⟩
  · intro i hi
    obtain ⟨k, -, q2⟩ := (hf i hi).2.2.2.2.2.2
    exact ⟨q2.shape.1.trans q2.len.symm, q2.shape.2⟩
  · intro i hi p hp; exact hr p (hmem _ _ _ (hf i hi).1 p hp)
  · intro i hi q hq; exact hc q (hmem _ _ _ (hf i hi).2.1 q hq)
  · intro i hi
    obtain ⟨k, q1, -⟩ := (hf i hi).2.2.2.2.2.2
    exact (C49_subset _ _ _ _ q1).1
  · intro i hi
    obtain ⟨k, -, q2⟩ := (hf i hi).2.2.2.2.2.2
    exact (C49_subset _ _ _ _ q2).1

/-! ### example -/

/-- sum of the absolute values of the entries, a norm -/
def sumNorm (A : Mat ℚ) : ℚ := ∑ a ∈ Finset.range A.m, ∑ b ∈ Finset.range A.n, |A.e a b|

theorem sumNorm_ext : Ext sumNorm := by
  intro A B hm hn h
  unfold sumNorm
  rw [← hm, ← hn]
  refine Finset.sum_congr rfl fun a ha => Finset.sum_congr rfl fun b hb => ?_
  rw [h a b (Finset.mem_range.1 ha) (Finset.mem_range.1 hb)]

theorem sumNorm_definite : Definite sumNorm := by
  intro A
  unfold sumNorm
  rw [Finset.sum_eq_zero_iff_of_nonneg (fun a _ => Finset.sum_nonneg fun b _ => abs_nonneg _)]
  constructor
  · intro h a b ha hb
    have := (Finset.sum_eq_zero_iff_of_nonneg (fun b _ => abs_nonneg _)).1 (h a (Finset.mem_range.2 ha)) b
      (Finset.mem_range.2 hb)
    exact abs_eq_zero.1 this
  · intro h a ha
    refine Finset.sum_eq_zero fun b hb => ?_
    rw [h a b (Finset.mem_range.1 ha) (Finset.mem_range.1 hb), abs_zero]

/-- a 4 × 4 matrix with two clusters of two points, of which the first is the skeleton of each -/
def exMat : Mat ℚ := ⟨4, 4, fun a b => if a = b then 7 else if a < 2 ∧ b < 2 then 1 else (a + 1) * (if b = 1 then 3 else 1)⟩
def exIdx : IList := ⟨[0, 1, 2, 3], [0, 2, 4]⟩
def exSkl : IList := ⟨[0, 2], [0, 1, 2]⟩
/-- left interpolation: exact, as the off-diagonal blocks have rank one; right: wrong for the first cluster -/
def exRes : Result ℚ :=
  ⟨[⟨2, 1, fun a _ => if a = 0 then 1 else 2⟩, ⟨2, 1, fun a _ => if a = 0 then 1 else 4 / 3⟩],
   [⟨1, 2, fun _ _ => 1⟩, ⟨1, 2, fun _ _ => 1⟩], ⟨exIdx, exIdx⟩, ⟨exSkl, exSkl⟩⟩

def exF (i : Nat) : List Nat := if i = 0 then [0, 1] else [2, 3]
def exS (i : Nat) : List Nat := if i = 0 then [0] else [2]
def exL (i : Nat) : Mat ℚ := if i = 0 then ⟨2, 1, fun a _ => if a = 0 then 1 else 2⟩ else ⟨2, 1, fun a _ => if a = 0 then 1 else 4 / 3⟩
def exR (_i : Nat) : Mat ℚ := ⟨1, 2, fun _ _ => 1⟩

theorem exData : Data exMat exRes 2 exF exF exS exS exL exR := by
  refine ⟨rfl, ?_, ?_, ?_, ?_, ?_, ?_, ?_, ?_, ?_, ?_, ?_, ?_⟩ <;> intro i hi <;>
    (have hi2 : i = 0 ∨ i = 1 := by omega) <;> rcases hi2 with rfl | rfl <;> first | rfl | exact ⟨rfl, rfl⟩ | decide

theorem exDisjoint : Disjoint 2 exF := by
  refine ⟨?_, ?_⟩
  · intro i hi
    have hi2 : i = 0 ∨ i = 1 := by omega
    rcases hi2 with rfl | rfl <;> decide
  · intro i j hi hj hne p hp
    have hi2 : i = 0 ∨ i = 1 := by omega
    have hj2 : j = 0 ∨ j = 1 := by omega
    rcases hi2 with rfl | rfl <;> rcases hj2 with rfl | rfl <;> first | exact absurd rfl hne | (revert hp; simp [exF]; omega)

example : Data exMat exRes 2 exF exF exS exS exL exR ∧ Disjoint 2 exF ∧ Ext sumNorm ∧ Definite sumNorm :=
  ⟨exData, exDisjoint, sumNorm_ext, sumNorm_definite⟩

/-- **C70** refuted: the first of the two arrays returned is not that of the source errors, as documented, but that of
the target errors: here the left interpolation of the second cluster is exact for its interactions with the first, the
right interpolation of the first is not, and it is the first array that is zero at this pair. -/
theorem C70_order_refuted :
    ∃ T E, clusterError sumNorm false exMat exRes = .ok (T, E) ∧ T 1 0 = .num 0 ∧ E 1 0 ≠ .num 0 ∧
      T 1 0 ≠ .num (sumNorm (srcDiff exMat exF exF exS exR 1 0)) := by
  obtain ⟨T, E, h1, -, h3⟩ := C70_cluster_partial sumNorm sumNorm_ext false exMat exRes 2 exF exF exS exS exL exR exData
  obtain ⟨ht, hs⟩ := h3 1 0 (by omega) (by omega) (by omega)
  have ht0 : sumNorm (tgtDiff exMat exF exF exS exL 1 0) = 0 := by decide +kernel
  have hs0 : sumNorm (srcDiff exMat exF exF exS exR 1 0) ≠ 0 := by decide +kernel
  refine ⟨T, E, h1, ?_, ?_, ?_⟩
  · rw [ht, ht0]; rfl
  · rw [hs]; simp [quot, hs0]
  · rw [ht, ht0]
    simp only [quot]
    intro hc
    injection hc with hc
    exact hs0 hc.symm

end Verif.SkelError
