import Verif.Exec.MatBuild
import Verif.Linalg.IndexList

/-!
# Cluster matrix builders (C57)

Model of `ClusterMatrixBuilderBase`, `ClusterMatrixBuilderWithoutComposition` and of the two
cluster builders `QBXClusterMatrixBuilder`, `P2PClusterMatrixBuilder`
(`pytential/symbolic/matrix.py:293-367, 628-845`), on the same expressions as the full
builder of `MatBuild` (they share `MatrixBuilderBase`).

A cluster builder gets the flat lists of target and source indices of
`make_index_cluster_cartesian_product` (C26) and returns one flat array with an entry per
pair.  The matrices of layer potentials are given (they include the quadrature weights);
sumpy's subset generators are assumed to compute the entries at the given pairs.  The
`NotImplementedError` for weighted potentials whose source and target discretizations
differ is left out.
-/

set_option linter.unusedSectionVars false

namespace Verif.ClusterMat

open Finset Verif.MatBuild

variable {α : Type} [Field α] [DecidableEq α]

/-- the pair of (target, source) indices at a flat position -/
def at' (P : List (Nat × Nat)) (k : Nat) : Nat × Nat := P[k]?.getD (0, 0)

/-- `get_dep_variable` of the cluster builders (`matrix.py:336-345`): one where target and
source index agree; of `ClusterMatrixBuilderWithoutComposition` (`matrix.py:359-361`): 1.0 -/
def depVal (P : List (Nat × Nat)) (inner : Bool) : BV α :=
  if inner then .sc 1
  else .ve P.length (fun k => if (at' P k).1 = (at' P k).2 then 1 else 0)

/-- term kinds of `map_sum` (`matrix.py:189-197`) with `is_kind_matrix`/`is_kind_vector` of
the cluster builders (`matrix.py:347-355`): a matrix is an array with the size of the
product; otherwise `is_kind_vector` reads `tgt_src_index.target`, an attribute that
`TargetAndSourceClusterList` does not have (`linalg/utils.py:134-150`). -/
def kindC (N : Nat) : BV α → Except Err Kind
  | .sc _ => .ok .scalar
  | .oth _ _ => .ok .scalar
  | .ve k _ => if k = N then .ok .matrix else .error .attribute
  | .ma m k _ => if m * k = N then .ok .matrix else .error .attribute

/-- one factor of `map_product` (`matrix.py:217-230`) with the kinds of the cluster
builders: matrix factor so far, product of vectors and scalars so far -/
def stepC (N : Nat) (mat : Option (BV α)) (acc : BV α) : BV α → Except Err (Option (BV α) × BV α)
  | .sc a => match mulVS acc (.sc a) with
    | .error e => .error e
    | .ok acc' => .ok (mat, acc')
  | .ve k f => if k = N then (match mat with
      | some _ => .error .runtime
      | none => .ok (some (.ve k f), acc))
    else match mulVS acc (.ve k f) with
      | .error e => .error e
      | .ok acc' => .ok (mat, acc')
  | .ma _ _ _ => .error .type
  | .oth _ _ => .ok (mat, acc)

/-- the end of `map_product` (`matrix.py:232-239`): asking whether an array of factors is a
vector fails, see `kindC` -/
def finishC (mat : Option (BV α)) (acc : BV α) : Except Err (BV α) :=
  match mat with
  | none => .ok acc
  | some M => match acc with
    | .sc a => mulVS M (.sc a)
    | .ve _ _ => .error .attribute
    | _ => .error .type

/-- `map_call` (`matrix.py:272-288`) with the kinds of the cluster builders -/
def callC (N : Nat) (h : α → α) : BV α → Except Err (BV α)
  | .sc a => .ok (.sc (h a))
  | .ve k f => if k = N then .error .runtime else .ok (.ve k (fun i => h (f i)))
  | .ma _ _ _ => .error .type
  | .oth _ _ => .error .type

/-- `map_num_reference_derivative` (`matrix.py:241-263`) with the kinds of the cluster builders: an array with the
size of the product is taken for a matrix -/
def refDC (N : Nat) (R : Arr α) : BV α → Except Err (BV α)
  | .sc _ => .error .assertion
  | .oth _ _ => .error .assertion
  | .ma _ _ _ => .error .type
  | .ve k f => if k = N then .error .notImplemented else refDBV R (.ve k f)

mutual

/-- a cluster builder applied to an expression; `inner` is the mapper for densities
(`_inner_mapper`, `matrix.py:324-334`), which knows no layer potentials.  Neither knows
interpolations.  The remaining methods are `MatrixBuilderBase`'s (`matrix.py:159-288`). -/
def cbuild (P : List (Nat × Nat)) (ctx : String → Option (BV α)) (inner : Bool) :
    ME α → Except Err (BV α)
  | .dep => .ok (depVal P inner)
  | .otherDep _ => .ok (.sc 0)
  | .var s => match ctx s with
    | none => .error .key
    | some v => .ok v
  | .num a => .ok (.sc a)
  | .coord k f => .ok (.ve k f)
  | .sum cs => cSum P ctx inner none (.sc 0) cs
  | .prod cs => cProd P ctx inner none (.sc 1) cs
  | .quot a b => match cbuild P ctx inner a with
    | .error e => .error e
    | .ok x => match cbuild P ctx inner b with
      | .error e => .error e
      | .ok y => divBV x y
  | .pow a k => match cbuild P ctx inner a with
    | .error e => .error e
    | .ok x => powBV k x
  | .call f a => match cbuild P ctx inner a with
    | .error e => .error e
    | .ok x => callC P.length f x
  | .interp _ _ => .error .unsupported
  | .refD R a => match cbuild P ctx inner a with
    | .error e => .error e
    | .ok x => refDC P.length R x
  | .intG mats dens => if inner then .error .unsupported else cIntG P ctx (.sc 0) mats dens

/-- loop of `map_sum` (`matrix.py:182-208`) -/
def cSum (P : List (Nat × Nat)) (ctx : String → Option (BV α)) (inner : Bool)
    (kind : Option Kind) (acc : BV α) : List (ME α) → Except Err (BV α)
  | [] => .ok acc
  | c :: cs => match cbuild P ctx inner c with
    | .error e => .error e
    | .ok x =>
      if isZero x then cSum P ctx inner kind acc cs
      else match kindC P.length x with
        | .error e => .error e
        | .ok k =>
          if kind.getD k ≠ k then .error .runtime
          else match addBV acc x with
            | .error e => .error e
            | .ok acc' => cSum P ctx inner (some k) acc' cs

/-- loop of `map_product` (`matrix.py:211-230`) -/
def cProd (P : List (Nat × Nat)) (ctx : String → Option (BV α)) (inner : Bool)
    (mat : Option (BV α)) (acc : BV α) : List (ME α) → Except Err (BV α)
  | [] => finishC mat acc
  | c :: cs => match cbuild P ctx inner c with
    | .error e => .error e
    | .ok x =>
      if isZero x then .ok (.sc 0)
      else match stepC P.length mat acc x with
        | .error e => .error e
        | .ok (mat', acc') => cProd P ctx inner mat' acc' cs

/-- loop of `map_int_g` (`matrix.py:655-735`, `matrix.py:769-845`): the density must come out
as a number, which multiplies the entries of the kernel at the given pairs -/
def cIntG (P : List (Nat × Nat)) (ctx : String → Option (BV α)) (acc : BV α) :
    List (Arr α) → List (ME α) → Except Err (BV α)
  | [], [] => .ok acc
  | R :: Rs, d :: ds => match cbuild P ctx true d with
    | .error e => .error e
    | .ok x =>
      if isZero x then cIntG P ctx acc Rs ds
      else match x with
        | .sc c => match addBV acc (.ve P.length (fun k => R.get (at' P k).1 (at' P k).2 * c)) with
          | .error e => .error e
          | .ok acc' => cIntG P ctx acc' Rs ds
        | _ => .error .notImplemented
  | _, _ => .error .type

end

/-! ## Agreement with the full builder -/

/-- A value of the full builder and a value of a cluster builder that stand for the same
thing.  Scalars and 1D arrays of the context are the same on both sides.  For the outer
builder a matrix becomes the array of its entries at the pairs, or the number zero if these
vanish.  For the inner builder a multiple of the identity becomes a number; what becomes an
array does not matter. -/
def Rel (n : Nat) (P : List (Nat × Nat)) (inner : Bool) : BV α → BV α → Prop
  | .sc a, .sc b => b = a
  | .ve k f, .ve l g => l = k ∧ g = f
  | .ma m k f, .ve l g => inner = true ∨
      (l = P.length ∧ ∀ i < P.length, g i = f (at' P i).1 (at' P i).2)
  | .ma m k f, .sc c =>
      (inner = true ∧ m = n ∧ k = n ∧ ∀ i j, f i j = if i = j then c else 0) ∨
      (inner = false ∧ c = 0 ∧ ∀ i < P.length, f (at' P i).1 (at' P i).2 = 0)
  | _, _ => False

section
variable {n : Nat} {P : List (Nat × Nat)} {inner : Bool}

theorem rel_notMat {x y : BV α} (h : Rel n P inner x y) (hx : NotMat x) : y = x := by
  cases x <;> cases y <;> simp_all [Rel]
  · exact absurd rfl (hx _ _ _)
  · exact absurd rfl (hx _ _ _)

theorem rel_self {x : BV α} (h : (∃ a, x = .sc a) ∨ ∃ k f, x = .ve k f) : Rel n P inner x x := by
  rcases h with ⟨a, rfl⟩ | ⟨k, f, rfl⟩ <;> simp [Rel]

/-- `kindOf` of a sum -/
theorem kindOf_add {a b c : BV α} (hk : kindOf a = kindOf b ∨ a = .sc 0) (h : addBV a b = .ok c) :
    kindOf c = kindOf b := by
  cases a <;> cases b <;> simp only [addBV] at h <;> (try split at h) <;> cases h <;>
    simp_all [kindOf]

theorem rel_add {a b c a' b' c' : BV α} (ha : Rel n P inner a a') (hb : Rel n P inner b b')
    (hk : kindOf a = kindOf b ∨ a = .sc 0) (h : addBV a b = .ok c) (h' : addBV a' b' = .ok c') :
    Rel n P inner c c' := by
  cases a <;> cases b <;> simp [kindOf] at hk <;> simp only [addBV] at h <;> (try split at h) <;>
    cases h <;> cases a' <;> simp only [Rel] at ha <;> cases b' <;> simp only [Rel] at hb <;>
    simp only [addBV] at h' <;> (try split at h') <;> cases h' <;> simp only [Rel]
  all_goals first
    | (cases inner <;> simp_all [Rel]; done)
    | (cases inner <;> simp_all [Rel] <;> intros <;> split <;> simp_all)

theorem rel_skip {a b c a' : BV α} (ha : Rel n P inner a a') (hb : Rel n P inner b (.sc 0))
    (hk : kindOf a = kindOf b ∨ a = .sc 0) (h : addBV a b = .ok c) : Rel n P inner c a' := by
  cases a <;> cases b <;> simp [kindOf] at hk <;> simp only [addBV] at h <;> (try split at h) <;>
    cases h <;> cases a' <;> simp only [Rel] at ha <;> simp only [Rel] at hb <;> simp only [Rel]
  all_goals first
    | (cases inner <;> simp_all [Rel]; done)
    | (cases inner <;> simp_all [Rel] <;> intros <;> split <;> simp_all)

/-- Loop invariant of `map_product`, both builders.  Without a matrix: same factors, or the
cluster builder has mistaken a 1D array of the size of the product for a matrix.  With a
matrix: the inner builder has a number, the outer one the entries of the matrix, or
the inner one holds an array (and will fail). -/
def PS (n : Nat) (P : List (Nat × Nat)) (inner : Bool) (accF : BV α) (matC : Option (BV α))
    (accC : BV α) : Option (Arr α) → Prop
  | none =>
    (matC = none ∧ accC = accF ∧
      ((∃ a, accF = .sc a) ∨ ∃ k f, k ≠ P.length ∧ accF = .ve k f)) ∨
    (∃ g c F, matC = some (.ve P.length g) ∧ accC = .sc c ∧ accF = .ve P.length F ∧
      ∀ i, F i = g i * c)
  | some M =>
    (inner = true ∧ matC = none ∧ ∃ a c, accF = .sc a ∧ accC = .sc c ∧ M.rows = n ∧ M.cols = n ∧
      ∀ i j, M.get i j * a = if i = j then c else 0) ∨
    (inner = false ∧ ∃ g, matC = some (.ve P.length g) ∧ accC = accF ∧
      ∀ i < P.length, g i = M.get (at' P i).1 (at' P i).2) ∨
    (inner = true ∧ ((∃ k g, matC = some (.ve k g)) ∨ (matC = none ∧ ∃ k g, accC = .ve k g)))

theorem ps_end {matF : Option (Arr α)} {accF accC v w : BV α} {matC : Option (BV α)}
    (hv : (match matF with | none => .ok accF | some M => scaleMat M.rows M.cols M.get accF) = Except.ok (ε := Err) v)
    (h : PS n P inner accF matC accC matF)
    (hw : finishC matC accC = .ok w) : Rel n P inner v w := by
  cases matF with
  | none =>
    simp only [PS] at h
    rcases h with ⟨rfl, rfl, h⟩ | ⟨g, c, F, rfl, rfl, rfl, h⟩
    · simp only [finishC] at hw
      cases hv; cases hw
      rcases h with ⟨a, rfl⟩ | ⟨k, f, _, rfl⟩ <;> simp [Rel]
    · simp only [finishC, mulVS] at hw
      cases hv; cases hw
      simp only [Rel, true_and]
      funext i; exact (h i).symm
  | some M =>
    simp only [PS] at h
    rcases h with ⟨rfl, rfl, a, c, rfl, rfl, h1, h2, h3⟩ | ⟨rfl, g, rfl, rfl, h⟩ | ⟨rfl, h⟩
    · simp only [finishC, scaleMat] at hv hw
      cases hv; cases hw
      simp [Rel, h1, h2, h3]
    · cases accC <;> simp only [finishC, mulVS] at hw <;> cases hw
      simp only [scaleMat] at hv
      cases hv
      simp only [Rel, Bool.false_eq_true, false_or, true_and]
      intro i hi; rw [h i hi]
    · have hm : ∃ m k f, v = .ma m k f := by
        cases accF <;> simp only [scaleMat] at hv <;> (try split at hv) <;> cases hv <;> exact ⟨_, _, _, rfl⟩
      obtain ⟨m, k, f, rfl⟩ := hm
      rcases h with ⟨k, g, rfl⟩ | ⟨rfl, k, g, rfl⟩
      · cases accC <;> simp only [finishC, mulVS] at hw <;> cases hw
        simp [Rel]
      · simp only [finishC] at hw; cases hw; simp [Rel]

/-- a number -/
theorem ps_sc {matF : Option (Arr α)} {accF accC accF' accC' : BV α} {matC matC' : Option (BV α)} {a : α}
    (h : PS n P inner accF matC accC matF) (hv : mulVS accF (.sc a) = .ok accF')
    (hw : stepC P.length matC accC (.sc a) = .ok (matC', accC')) :
    PS n P inner accF' matC' accC' matF := by
  have hw' : mulVS accC (.sc a) = .ok accC' ∧ matC' = matC := by
    simp only [stepC] at hw
    split at hw
    · cases hw
    · rename_i hm; cases hw; exact ⟨hm, rfl⟩
  obtain ⟨hw1, rfl⟩ := hw'
  cases matF with
  | none =>
    simp only [PS] at h ⊢
    rcases h with ⟨rfl, rfl, h⟩ | ⟨g, c, F, rfl, rfl, rfl, h⟩
    · left
      rw [hw1] at hv; cases hv
      refine ⟨rfl, rfl, ?_⟩
      rcases h with ⟨b, rfl⟩ | ⟨k, f, hk, rfl⟩ <;> simp only [mulVS] at hw1 <;> cases hw1
      · exact Or.inl ⟨_, rfl⟩
      · exact Or.inr ⟨_, _, hk, rfl⟩
    · right
      simp only [mulVS] at hw1 hv
      cases hw1; cases hv
      exact ⟨_, _, _, rfl, rfl, rfl, fun i => by rw [h i]; ring⟩
  | some M =>
    simp only [PS] at h ⊢
    rcases h with ⟨rfl, rfl, b, c, rfl, rfl, h1, h2, h3⟩ | ⟨rfl, g, rfl, rfl, h⟩ | ⟨rfl, h⟩
    · left
      simp only [mulVS] at hw1 hv
      cases hw1; cases hv
      refine ⟨rfl, rfl, _, _, rfl, rfl, h1, h2, fun i j => ?_⟩
      rw [← mul_assoc, h3]; split <;> simp
    · right; left
      rw [hw1] at hv; cases hv
      exact ⟨rfl, g, rfl, rfl, h⟩
    · right; right
      refine ⟨rfl, ?_⟩
      rcases h with h | ⟨h, k, g, rfl⟩
      · exact Or.inl h
      · simp only [mulVS] at hw1; cases hw1
        exact Or.inr ⟨h, _, _, rfl⟩

theorem mulVS_ve {x v : BV α} {k : Nat} {f : Nat → α} (h : mulVS x (.ve k f) = .ok v) :
    ∃ g, v = .ve k g := by
  cases x <;> simp only [mulVS] at h <;> (try split at h) <;> cases h
  · exact ⟨_, rfl⟩
  · rename_i h; subst h; exact ⟨_, rfl⟩

/-- a 1D array -/
theorem ps_ve {matF : Option (Arr α)} {accF accC accF' accC' : BV α} {matC matC' : Option (BV α)}
    {k : Nat} {f : Nat → α}
    (h : PS n P inner accF matC accC matF) (hv : mulVS accF (.ve k f) = .ok accF')
    (hw : stepC P.length matC accC (.ve k f) = .ok (matC', accC')) :
    PS n P inner accF' matC' accC' matF := by
  by_cases hk : k = P.length
  · subst hk
    simp only [stepC, if_true] at hw
    cases matC with
    | some x => cases hw
    | none =>
      cases hw
      cases matF with
      | none =>
        simp only [PS] at h ⊢
        right
        simp only [true_and, reduceCtorEq, false_and, exists_false, or_false] at h
        obtain ⟨rfl, h⟩ := h
        rcases h with ⟨a, rfl⟩ | ⟨l, g, hl, rfl⟩
        · simp only [mulVS] at hv; cases hv
          exact ⟨_, _, _, rfl, rfl, rfl, fun i => mul_comm _ _⟩
        · simp only [mulVS, if_neg hl] at hv; cases hv
      | some M =>
        simp only [PS] at h ⊢
        right; right
        rcases h with ⟨rfl, _⟩ | ⟨_, g, hg, _⟩ | ⟨rfl, _⟩
        · exact ⟨rfl, Or.inl ⟨_, _, rfl⟩⟩
        · cases hg
        · exact ⟨rfl, Or.inl ⟨_, _, rfl⟩⟩
  · simp only [stepC, if_neg hk] at hw
    cases hm : mulVS accC (.ve k f) with
    | error e => rw [hm] at hw; cases hw
    | ok z =>
      rw [hm] at hw
      cases hw
      cases matF with
      | none =>
        simp only [PS] at h ⊢
        rcases h with ⟨rfl, rfl, h⟩ | ⟨g, c, F, rfl, rfl, rfl, h⟩
        · left
          rw [hm] at hv; cases hv
          obtain ⟨g, rfl⟩ := mulVS_ve hm
          exact ⟨rfl, rfl, Or.inr ⟨_, _, hk, rfl⟩⟩
        · simp only [mulVS, if_neg (Ne.symm hk)] at hv; cases hv
      | some M =>
        simp only [PS] at h ⊢
        rcases h with ⟨rfl, rfl, b, c, rfl, rfl, h1, h2, h3⟩ | ⟨rfl, g, rfl, rfl, h⟩ | ⟨rfl, h⟩
        · right; right
          obtain ⟨g, rfl⟩ := mulVS_ve hm
          exact ⟨rfl, Or.inr ⟨rfl, _, _, rfl⟩⟩
        · right; left
          rw [hm] at hv; cases hv
          exact ⟨rfl, g, rfl, rfl, h⟩
        · right; right
          refine ⟨rfl, ?_⟩
          rcases h with h | ⟨h, _⟩
          · exact Or.inl h
          · obtain ⟨g, rfl⟩ := mulVS_ve hm
            exact Or.inr ⟨h, _, _, rfl⟩

/-- a matrix -/
theorem ps_ma {accF accC accC' y : BV α} {matC matC' : Option (BV α)}
    {m k : Nat} {f : Nat → Nat → α}
    (h : PS n P inner accF matC accC none) (hy : Rel n P inner (.ma m k f) y) (hz : y ≠ .sc 0)
    (hw : stepC P.length matC accC y = .ok (matC', accC')) :
    PS n P inner accF matC' accC' (some ⟨m, k, f⟩) := by
  simp only [PS] at h ⊢
  cases y with
  | ma _ _ _ => simp [Rel] at hy
  | oth _ _ => simp [Rel] at hy
  | sc c =>
    simp only [Rel] at hy
    rcases hy with ⟨rfl, rfl, rfl, hf⟩ | ⟨_, rfl, _⟩
    · have hw' : mulVS accC (.sc c) = .ok accC' ∧ matC' = matC := by
        simp only [stepC] at hw
        split at hw
        · cases hw
        · rename_i hm; cases hw; exact ⟨hm, rfl⟩
      obtain ⟨hw1, rfl⟩ := hw'
      rcases h with ⟨rfl, rfl, ⟨a, rfl⟩ | ⟨l, g, _, rfl⟩⟩ | ⟨g, d, F, rfl, rfl, rfl, h⟩
      · left
        simp only [mulVS] at hw1; cases hw1
        refine ⟨rfl, rfl, _, _, rfl, rfl, rfl, rfl, fun i j => ?_⟩
        simp only [hf]; split <;> simp [mul_comm]
      · right; right
        simp only [mulVS] at hw1; cases hw1
        exact ⟨rfl, Or.inr ⟨rfl, _, _, rfl⟩⟩
      · right; right
        exact ⟨rfl, Or.inl ⟨_, _, rfl⟩⟩
    · exact absurd rfl hz
  | ve l g =>
    by_cases hl : l = P.length
    · subst hl
      simp only [stepC, if_true] at hw
      cases matC with
      | some x => cases hw
      | none =>
        cases hw
        simp only [Rel, true_and] at hy
        simp only [true_and, reduceCtorEq, false_and, exists_false, or_false] at h
        obtain ⟨rfl, _⟩ := h
        cases inner with
        | true => right; right; exact ⟨rfl, Or.inl ⟨_, _, rfl⟩⟩
        | false =>
          right; left
          rcases hy with hy | hy
          · cases hy
          · exact ⟨rfl, g, rfl, rfl, hy⟩
    · simp only [Rel, hl, false_and, or_false] at hy
      subst hy
      simp only [stepC, if_neg hl] at hw
      right; right
      refine ⟨rfl, ?_⟩
      cases hm : mulVS accC (.ve l g) with
      | error e => rw [hm] at hw; cases hw
      | ok z =>
        rw [hm] at hw
        cases hw
        obtain ⟨g', rfl⟩ := mulVS_ve hm
        rcases h with ⟨rfl, rfl, _⟩ | ⟨g, d, F, rfl, rfl, rfl, h⟩
        · exact Or.inr ⟨rfl, _, _, rfl⟩
        · exact Or.inl ⟨_, _, rfl⟩

/-- once the matrix factor vanishes the product does -/
theorem prod_zero (ctx : String → Option (BV α)) : ∀ (cs : List (ME α)) (M : Arr α) (acc v : BV α),
    Rel n P inner (.ma M.rows M.cols M.get) (.sc 0) → buildProd n ctx (some M) acc cs = .ok v →
    Rel n P inner v (.sc 0)
  | [], M, acc, v, h, hv => by
    simp only [buildProd] at hv
    cases acc <;> simp only [scaleMat] at hv <;> (try split at hv) <;> cases hv <;>
      simp only [Rel] at h ⊢ <;>
      (rcases h with ⟨h1, h2, h3, h4⟩ | ⟨h1, h2, h3⟩ <;> [left; right]) <;> simp_all
  | c :: cs, M, acc, v, h, hv => by
    simp only [buildProd] at hv
    cases hc : build n ctx c with
    | error e => rw [hc] at hv; cases hv
    | ok x =>
      rw [hc] at hv
      dsimp only at hv
      by_cases hz : isZero x = true
      · rw [if_pos hz] at hv; cases hv; simp [Rel]
      · rw [if_neg hz] at hv
        cases x with
        | ma m k f => cases hv
        | oth k f => exact prod_zero ctx cs M _ v h hv
        | sc a =>
          dsimp only at hv
          split at hv
          · cases hv
          · exact prod_zero ctx cs M _ v h hv
        | ve k f =>
          dsimp only at hv
          split at hv
          · cases hv
          · exact prod_zero ctx cs M _ v h hv

theorem rel_div_num {x y v w : BV α} {a : α} (h : Rel n P inner x y)
    (hv : divBV x (.sc a) = .ok v) (hw : divBV y (.sc a) = .ok w) : Rel n P inner v w := by
  cases x <;> cases y <;> simp only [Rel] at h <;> simp only [divBV] at hv hw <;> cases hv <;> cases hw <;>
    simp only [Rel]
  · rw [h]
  · exact ⟨h.1, by rw [h.2]⟩
  · rcases h with ⟨h1, h2, h3, h4⟩ | ⟨h1, h2, h3⟩
    · left; refine ⟨h1, h2, h3, fun i j => ?_⟩
      rw [h4]; split <;> simp
    · right; refine ⟨h1, by simp [h2], fun i hi => by simp [h3 i hi]⟩
  · rcases h with h | ⟨h1, h2⟩
    · exact Or.inl h
    · exact Or.inr ⟨h1, fun i hi => by rw [h2 i hi]⟩

/-- adding the contribution of one kernel -/
theorem matMul_identity {R : Arr α} {m k : Nat} {f : Nat → Nat → α} {c : α} {v : BV α}
    (hm : m = n) (hk : k = n) (hf : ∀ i j, f i j = if i = j then c else 0)
    (hP : ∀ i < P.length, (at' P i).2 < n) (hv : matMul R m k f = .ok v) :
    (∀ N, N = P.length → Rel n P false v (.ve N (fun i => R.get (at' P i).1 (at' P i).2 * c))) ∧
    (c = 0 → Rel n P false v (.sc 0)) := by
  subst hm
  subst hk
  simp only [matMul] at hv
  split at hv
  swap
  · cases hv
  cases hv
  have e : ∀ i < P.length, ∑ l ∈ range k, R.get (at' P i).1 l * f l (at' P i).2
      = R.get (at' P i).1 (at' P i).2 * c := by
    intro i hi
    rw [Finset.sum_eq_single (at' P i).2]
    · simp [hf]
    · intro b _ hb; simp [hf, hb]
    · intro hn; exact absurd (Finset.mem_range.2 (hP i hi)) hn
  constructor
  · intro N hN
    exact Or.inr ⟨hN, fun i hi => (e i hi).symm⟩
  · intro hc
    refine Or.inr ⟨rfl, rfl, fun i hi => ?_⟩
    have := e i hi
    rw [hc, mul_zero] at this
    exact this

end

section
variable (n : Nat) (P : List (Nat × Nat)) (ctx : String → Option (BV α)) (hctx : PlainCtx ctx)
  (hP : ∀ i < P.length, (at' P i).2 < n)
include hctx hP

mutual

theorem cbuild_rel : ∀ (e : ME α) (inner : Bool) (v w : BV α), Frag e → build n ctx e = .ok v →
    cbuild P ctx inner e = .ok w → Rel n P inner v w
  | .dep, inner, v, w, _, hv, hw => by
    simp only [build, cbuild] at hv hw
    cases hv; cases hw
    cases inner <;> simp [depVal, Rel]
  | .otherDep _, inner, v, w, _, hv, hw => by
    simp only [build, cbuild] at hv hw
    cases hv; cases hw; simp [Rel]
  | .var s, inner, v, w, _, hv, hw => by
    simp only [build, cbuild] at hv hw
    cases hs : ctx s with
    | none => rw [hs] at hw; cases hw
    | some x =>
      rw [hs] at hw hv; cases hw; cases hv
      exact rel_self (hctx s _ hs)
  | .num a, inner, v, w, _, hv, hw => by
    simp only [build, cbuild] at hv hw
    cases hv; cases hw; simp [Rel]
  | .coord k f, inner, v, w, _, hv, hw => by
    simp only [build, cbuild] at hv hw
    cases hv; cases hw; exact rel_self (Or.inr ⟨k, f, rfl⟩)
  | .sum cs, inner, v, w, hf, hv, hw => by
    simp only [build, cbuild] at hv hw
    simp only [Frag] at hf
    exact cSum_rel cs inner none none (.sc 0) (.sc 0) v w hf (by simp [Rel]) (Or.inl ⟨rfl, rfl⟩) hv hw
  | .prod cs, inner, v, w, hf, hv, hw => by
    simp only [build, cbuild] at hv hw
    simp only [Frag] at hf
    exact cProd_rel cs inner none none (.sc 1) (.sc 1) v w hf
      (Or.inl ⟨rfl, rfl, Or.inl ⟨_, rfl⟩⟩) hv hw
  | .quot a b, inner, v, w, hf, hv, hw => by
    simp only [Frag] at hf
    simp only [build, cbuild] at hv hw
    cases ha : build n ctx a with
    | error e => rw [ha] at hv; cases hv
    | ok x =>
      rw [ha] at hv
      cases ha' : cbuild P ctx inner a with
      | error e => rw [ha'] at hw; cases hw
      | ok x' =>
        rw [ha'] at hw
        dsimp only at hv hw
        have h1 := cbuild_rel a inner x x' hf.1 ha ha'
        cases hb : build n ctx b with
        | error e => rw [hb] at hv; cases hv
        | ok y =>
          rw [hb] at hv
          cases hb' : cbuild P ctx inner b with
          | error e => rw [hb'] at hw; cases hw
          | ok y' =>
            rw [hb'] at hw
            dsimp only at hv hw
            have h2 := cbuild_rel b inner y y' hf.2.1 hb hb'
            rcases hf.2.2 with ⟨n1, n2⟩ | hn
            · have hx := build_noDep n ctx hctx a x n1 ha
              have hy := build_noDep n ctx hctx b y n2 hb
              have e1 := rel_notMat h1 hx
              have e2 := rel_notMat h2 hy
              subst e1; subst e2
              rw [hw] at hv; cases hv
              have := notMat_div hx hy hw
              cases v with
              | ma m k f => exact absurd rfl (this _ _ _)
              | oth k f =>
                cases x' <;> cases y' <;> simp only [divBV] at hw <;> (try split at hw) <;> cases hw
              | sc a => simp [Rel]
              | ve k f => simp [Rel]
            · cases b <;> simp only [isNum] at hn
              simp only [build, cbuild] at hb hb'
              cases hb; cases hb'
              exact rel_div_num h1 hv hw
  | .pow a k, inner, v, w, hf, hv, hw => by
    simp only [Frag] at hf
    simp only [build, cbuild] at hv hw
    cases ha : build n ctx a with
    | error e => rw [ha] at hv; cases hv
    | ok x =>
      rw [ha] at hv
      cases ha' : cbuild P ctx inner a with
      | error e => rw [ha'] at hw; cases hw
      | ok x' =>
        rw [ha'] at hw
        dsimp only at hv hw
        have h1 := cbuild_rel a inner x x' hf.1 ha ha'
        have hx := build_noDep n ctx hctx a x hf.2 ha
        have e1 := rel_notMat h1 hx
        subst e1
        rw [hw] at hv; cases hv
        cases x' <;> simp only [powBV] at hw <;> cases hw
        · simp [Rel]
        · simp [Rel]
        · exact absurd rfl (hx _ _ _)
        · simp [Rel] at h1
  | .call f a, inner, v, w, hf, hv, hw => by
    simp only [Frag] at hf
    simp only [build, cbuild] at hv hw
    cases ha : build n ctx a with
    | error e => rw [ha] at hv; cases hv
    | ok x =>
      rw [ha] at hv
      cases ha' : cbuild P ctx inner a with
      | error e => rw [ha'] at hw; cases hw
      | ok x' =>
        rw [ha'] at hw
        dsimp only at hv hw
        have h1 := cbuild_rel a inner x x' hf ha ha'
        cases x <;> cases x' <;> simp only [Rel] at h1 <;> simp only [callBV, callC] at hv hw <;>
          (try split at hw) <;> cases hv <;> cases hw <;> simp [Rel, h1]
  | .interp R a, inner, v, w, hf, hv, hw => by simp [cbuild] at hw
  | .refD R a, inner, v, w, hf, hv, hw => by
    simp only [Frag] at hf
    simp only [build, cbuild] at hv hw
    cases ha : build n ctx a with
    | error e => rw [ha] at hv; cases hv
    | ok x =>
      rw [ha] at hv
      cases ha' : cbuild P ctx inner a with
      | error e => rw [ha'] at hw; cases hw
      | ok x' =>
        rw [ha'] at hw
        dsimp only at hv hw
        have h1 := cbuild_rel a inner x x' hf ha ha'
        cases x with
        | ve k f =>
          cases x' with
          | ve k' f' =>
            simp only [refDC] at hw
            split at hw
            · cases hw
            · simp only [Rel] at h1
              obtain ⟨rfl, rfl⟩ := h1
              rw [hw] at hv
              cases hv
              simp only [refDBV] at hw
              split at hw
              · cases hw; simp [Rel]
              · cases hw
          | _ => simp [refDC] at hw
        | _ => simp [refDBV] at hv
  | .intG mats ds, inner, v, w, hf, hv, hw => by
    simp only [Frag] at hf
    simp only [build, cbuild] at hv hw
    cases inner with
    | true => cases hw
    | false =>
      simp only [Bool.false_eq_true, if_false] at hw
      exact cIntG_rel ds mats (.sc 0) (.sc 0) v w hf (by simp [Rel]) (Or.inr rfl) hv hw
  termination_by structural e => e

theorem cSum_rel : ∀ (cs : List (ME α)) (inner : Bool) (k k' : Option Kind) (acc acc' v w : BV α),
    FragL cs → Rel n P inner acc acc' → (k = none ∧ acc = .sc 0 ∨ k = some (kindOf acc)) →
    buildSum n ctx k acc cs = .ok v → cSum P ctx inner k' acc' cs = .ok w → Rel n P inner v w
  | [], _, _, _, _, _, _, _, _, ha, _, hv, hw => by
    simp only [buildSum, cSum] at hv hw
    cases hv; cases hw; exact ha
  | c :: cs, inner, k, k', acc, acc', v, w, hf, ha, hk, hv, hw => by
    simp only [FragL] at hf
    simp only [buildSum, cSum] at hv hw
    cases hc : build n ctx c with
    | error e => rw [hc] at hv; cases hv
    | ok x =>
      rw [hc] at hv
      cases hc' : cbuild P ctx inner c with
      | error e => rw [hc'] at hw; cases hw
      | ok x' =>
        rw [hc'] at hw
        dsimp only at hv hw
        have h1 := cbuild_rel c inner x x' hf.1 hc hc'
        by_cases hz : isZero x = true
        · rw [if_pos hz] at hv
          rw [isZero_iff] at hz
          subst hz
          have e := rel_notMat h1 (by intro m l f hh; cases hh)
          subst e
          rw [if_pos (by simp [isZero])] at hw
          exact cSum_rel cs inner k k' acc acc' v w hf.2 ha hk hv hw
        · rw [if_neg hz] at hv
          by_cases hkk : k.getD (kindOf x) ≠ kindOf x
          · rw [if_pos hkk] at hv; cases hv
          · rw [if_neg hkk] at hv
            have hkind : kindOf acc = kindOf x ∨ acc = .sc 0 := by
              rcases hk with ⟨_, h⟩ | h
              · exact Or.inr h
              · subst h; left; simpa using hkk
            cases hadd : addBV acc x with
            | error e => rw [hadd] at hv; cases hv
            | ok s =>
              rw [hadd] at hv
              dsimp only at hv
              have hks : some (kindOf x) = some (kindOf s) := by rw [kindOf_add hkind hadd]
              by_cases hz' : isZero x' = true
              · rw [if_pos hz'] at hw
                rw [isZero_iff] at hz'
                subst hz'
                exact cSum_rel cs inner _ k' s acc' v w hf.2 (rel_skip ha h1 hkind hadd) (Or.inr hks) hv hw
              · rw [if_neg hz'] at hw
                split at hw
                · cases hw
                · split at hw
                  · cases hw
                  · split at hw
                    · cases hw
                    · rename_i hadd'
                      exact cSum_rel cs inner _ _ s _ v w hf.2 (rel_add ha h1 hkind hadd hadd') (Or.inr hks) hv hw
  termination_by structural cs => cs

theorem cProd_rel : ∀ (cs : List (ME α)) (inner : Bool) (mat : Option (Arr α)) (mat' : Option (BV α))
    (acc acc' v w : BV α), FragL cs → PS n P inner acc mat' acc' mat →
    buildProd n ctx mat acc cs = .ok v → cProd P ctx inner mat' acc' cs = .ok w → Rel n P inner v w
  | [], _, _, _, _, _, _, _, _, ha, hv, hw => by
    simp only [buildProd, cProd] at hv hw
    exact ps_end hv ha hw
  | c :: cs, inner, mat, mat', acc, acc', v, w, hf, ha, hv, hw => by
    simp only [FragL] at hf
    simp only [buildProd, cProd] at hv hw
    cases hc : build n ctx c with
    | error e => rw [hc] at hv; cases hv
    | ok x =>
      rw [hc] at hv
      cases hc' : cbuild P ctx inner c with
      | error e => rw [hc'] at hw; cases hw
      | ok x' =>
        rw [hc'] at hw
        dsimp only at hv hw
        have h1 := cbuild_rel c inner x x' hf.1 hc hc'
        by_cases hz : isZero x = true
        · rw [if_pos hz] at hv
          rw [isZero_iff] at hz
          subst hz
          have e := rel_notMat h1 (by intro m l f hh; cases hh)
          subst e
          rw [if_pos (by simp [isZero])] at hw
          cases hv; cases hw; simp [Rel]
        · rw [if_neg hz] at hv
          cases x with
          | oth k f => simp [Rel] at h1
          | sc a =>
            have e := rel_notMat h1 (by intro m l f hh; cases hh)
            subst e
            rw [if_neg hz] at hw
            dsimp only at hv
            split at hv
            · cases hv
            · rename_i hm
              split at hw
              · cases hw
              · rename_i hs
                exact cProd_rel cs inner mat _ _ _ v w hf.2 (ps_sc ha hm hs) hv hw
          | ve k f =>
            have e := rel_notMat h1 (by intro m l f hh; cases hh)
            subst e
            rw [if_neg hz] at hw
            dsimp only at hv
            split at hv
            · cases hv
            · rename_i hm
              split at hw
              · cases hw
              · rename_i hs
                exact cProd_rel cs inner mat _ _ _ v w hf.2 (ps_ve ha hm hs) hv hw
          | ma m k f =>
            dsimp only at hv
            cases mat with
            | some M => cases hv
            | none =>
              dsimp only at hv
              by_cases hz' : isZero x' = true
              · rw [if_pos hz'] at hw
                rw [isZero_iff] at hz'
                subst hz'
                cases hw
                exact prod_zero ctx cs ⟨m, k, f⟩ acc v h1 hv
              · rw [if_neg hz'] at hw
                split at hw
                · cases hw
                · rename_i hs
                  exact cProd_rel cs inner _ _ _ _ v w hf.2
                    (ps_ma ha h1 (fun e => hz' ((isZero_iff _).2 e)) hs) hv hw
  termination_by structural cs => cs

theorem cIntG_rel : ∀ (ds : List (ME α)) (Rs : List (Arr α)) (acc acc' v w : BV α),
    FragL ds → Rel n P false acc acc' → (kindOf acc = .matrix ∨ acc = .sc 0) →
    buildIntG n ctx acc Rs ds = .ok v → cIntG P ctx acc' Rs ds = .ok w → Rel n P false v w
  | [], [], _, _, _, _, _, ha, _, hv, hw => by
    simp only [buildIntG, cIntG] at hv hw
    cases hv; cases hw; exact ha
  | [], _ :: _, _, _, _, _, _, _, _, hv, _ => by simp [buildIntG] at hv
  | _ :: _, [], _, _, _, _, _, _, _, hv, _ => by simp [buildIntG] at hv
  | d :: ds, R :: Rs, acc, acc', v, w, hf, ha, hk, hv, hw => by
    simp only [FragL] at hf
    simp only [buildIntG, cIntG] at hv hw
    cases hc : build n ctx d with
    | error e => rw [hc] at hv; cases hv
    | ok x =>
      rw [hc] at hv
      cases hc' : cbuild P ctx true d with
      | error e => rw [hc'] at hw; cases hw
      | ok x' =>
        rw [hc'] at hw
        dsimp only at hv hw
        have h1 := cbuild_rel d true x x' hf.1 hc hc'
        by_cases hz : isZero x = true
        · rw [if_pos hz] at hv
          rw [isZero_iff] at hz
          subst hz
          have e := rel_notMat h1 (by intro m l f hh; cases hh)
          subst e
          rw [if_pos (by simp [isZero])] at hw
          exact cIntG_rel ds Rs acc acc' v w hf.2 ha hk hv hw
        · rw [if_neg hz] at hv
          cases x with
          | sc a => cases hv
          | ve k f => cases hv
          | oth k f => cases hv
          | ma m l f =>
            dsimp only at hv
            cases hmm : matMul R m l f with
            | error e => rw [hmm] at hv; cases hv
            | ok z =>
              rw [hmm] at hv
              dsimp only at hv
              have hzk : kindOf z = .matrix := by
                simp only [matMul] at hmm
                split at hmm <;> cases hmm
                rfl
              have hk' : kindOf acc = kindOf z ∨ acc = .sc 0 := by
                rcases hk with hk | hk
                · left; rw [hk, hzk]
                · exact Or.inr hk
              cases hadd : addBV acc z with
              | error e => rw [hadd] at hv; cases hv
              | ok s =>
                rw [hadd] at hv
                dsimp only at hv
                have hks : kindOf s = .matrix ∨ s = .sc 0 := by
                  left; rw [kindOf_add hk' hadd, hzk]
                cases x' with
                | ve k g =>
                  rw [if_neg (by simp [isZero])] at hw; cases hw
                | ma _ _ _ => simp [Rel] at h1
                | oth _ _ => simp [Rel] at h1
                | sc c =>
                  simp only [Rel, Bool.true_eq_false, false_and, or_false, true_and] at h1
                  obtain ⟨e1, e2, e3⟩ := h1
                  have hmul := matMul_identity (P := P) e1 e2 e3 hP hmm
                  by_cases hz' : isZero (BV.sc c) = true
                  · rw [if_pos hz'] at hw
                    rw [isZero_iff] at hz'
                    cases hz'
                    exact cIntG_rel ds Rs s acc' v w hf.2 (rel_skip ha (hmul.2 rfl) hk' hadd) hks hv hw
                  · rw [if_neg hz'] at hw
                    dsimp only at hw
                    split at hw
                    · cases hw
                    · rename_i hadd'
                      exact cIntG_rel ds Rs s _ v w hf.2 (rel_add ha (hmul.1 _ rfl) hk' hadd hadd') hks hv hw
  termination_by structural ds => ds

end

end

/-! ## Properties -/

/-- C57: whenever the full builder produces a matrix and the cluster builder a result, the
result is the array of the entries of that matrix at the requested (target, source) pairs,
in order — or the number zero, if all of these vanish.  Partial: the fragment `Frag` of C24
(see `C57_refuted` for what the cluster builder accepts beyond the full one). -/
theorem C57_entries_partial (n : Nat) (P : List (Nat × Nat)) (ctx : String → Option (BV α))
    (hctx : PlainCtx ctx) (hP : ∀ p ∈ P, p.2 < n) (e : ME α) (hf : Frag e) (m k : Nat)
    (A : Nat → Nat → α) (hv : build n ctx e = .ok (.ma m k A)) (w : BV α)
    (hw : cbuild P ctx false e = .ok w) :
    (∃ g, w = .ve P.length g ∧ ∀ i p, P[i]? = some p → g i = A p.1 p.2) ∨
    (w = .sc 0 ∧ ∀ p ∈ P, A p.1 p.2 = 0) := by
  have hP' : ∀ i < P.length, (at' P i).2 < n := by
    intro i hi
    simp only [at', List.getElem?_eq_getElem hi, Option.getD_some]
    exact hP _ (List.getElem_mem hi)
  have h := cbuild_rel n P ctx hctx hP' e false _ w hf hv hw
  cases w with
  | ma _ _ _ => simp [Rel] at h
  | oth _ _ => simp [Rel] at h
  | ve l g =>
    simp only [Rel, Bool.false_eq_true, false_or] at h
    obtain ⟨rfl, h⟩ := h
    left
    refine ⟨g, rfl, fun i p hp => ?_⟩
    have hi : i < P.length := (List.getElem?_eq_some_iff.1 hp).1
    rw [h i hi]; simp [at', hp]
  | sc c =>
    simp only [Rel, Bool.false_eq_true, false_and, false_or, true_and] at h
    obtain ⟨rfl, h⟩ := h
    right
    refine ⟨rfl, fun p hp => ?_⟩
    obtain ⟨i, hi, rfl⟩ := List.mem_iff_getElem.1 hp
    have := h i hi
    simpa [at', List.getElem?_eq_getElem hi] using this

/-- C57: hence, for target and source index lists as in C26 and the pairs that
`make_index_cluster_cartesian_product` produces for them, cutting the flat result into
diagonal blocks gives the blocks of the full matrix. -/
theorem C57_blocks_partial (n : Nat) (T : IndexList.TSList)
    (hm : T.targets.nclusters = T.sources.nclusters)
    (ht : IndexList.WF T.targets) (hs : IndexList.WF T.sources) (ws : List IndexList.Write)
    (hp : ws.Perm (IndexList.kernelWrites T)) (P : List (Nat × Nat))
    (hPT : IndexList.cartesianProduct T ws = P.map (fun p => some (some p.1, some p.2)))
    (ctx : String → Option (BV α)) (hctx : PlainCtx ctx) (hP : ∀ p ∈ P, p.2 < n) (e : ME α)
    (hf : Frag e) (m k : Nat) (A : Nat → Nat → α) (hv : build n ctx e = .ok (.ma m k A))
    (g : Nat → α) (hw : cbuild P ctx false e = .ok (.ve P.length g)) (c : Nat) (hc : c < T.n) :
    ∃ rows, T.clusterTake A c c = .ok rows ∧
      IndexList.diagBlock ((List.range P.length).map g) T c = .ok rows := by
  apply IndexList.C26_blocks T hm ht hs ws hp A _ _ c hc
  rw [hPT]
  rcases C57_entries_partial n P ctx hctx hP e hf m k A hv _ hw with ⟨g', hg, h⟩ | ⟨h, _⟩
  · cases hg
    apply List.ext_getElem?
    intro i
    simp only [List.getElem?_map, List.map_map]
    by_cases hi : i < P.length
    · rw [List.getElem?_range hi, List.getElem?_eq_getElem hi]
      simp [h i _ (List.getElem?_eq_getElem hi)]
    · rw [List.getElem?_eq_none (by simpa using hi), List.getElem?_eq_none (by simpa using hi)]
      rfl
  · cases h

mutual

/-- densities a cluster builder is meant for: linear combinations of the input -/
def Dens : ME α → Prop
  | .dep => True
  | .otherDep _ => True
  | .sum cs => DensL cs
  | .prod [.num _, d] => Dens d
  | .quot d (.num _) => Dens d
  | _ => False

/-- see `Dens` -/
def DensL : List (ME α) → Prop
  | [] => True
  | c :: cs => Dens c ∧ DensL cs

end

mutual

/-- expressions a cluster builder is meant for: linear combinations of the input and of
layer potentials of densities -/
def LC : ME α → Prop
  | .dep => True
  | .otherDep _ => True
  | .sum cs => LCL cs
  | .prod [.num _, d] => LC d
  | .quot d (.num _) => LC d
  | .intG mats ds => mats.length = ds.length ∧ DensL ds
  | _ => False

/-- see `LC` -/
def LCL : List (ME α) → Prop
  | [] => True
  | c :: cs => LC c ∧ LCL cs

end

section
variable (P : List (Nat × Nat)) (ctx : String → Option (BV α))

mutual

theorem dens_ok : ∀ (e : ME α), Dens e → ∃ c, cbuild P ctx true e = .ok (.sc c)
  | .dep, _ => ⟨1, by simp [cbuild, depVal]⟩
  | .otherDep _, _ => ⟨0, by simp [cbuild]⟩
  | .var _, h => by simp [Dens] at h
  | .num _, h => by simp [Dens] at h
  | .coord _ _, h => by simp [Dens] at h
  | .sum cs, h => by
    simp only [Dens] at h
    simp only [cbuild]
    exact densSum_ok cs none 0 (Or.inl rfl) h
  | .prod cs, h => by
    match cs, h with
    | [.num a, d], h =>
      simp only [Dens] at h
      obtain ⟨c, hc⟩ := dens_ok d h
      simp only [cbuild, cProd, hc]
      by_cases ha : a = 0
      · simp [isZero, ha]
      · by_cases hcc : c = 0
        · simp [isZero, hcc, ha, stepC, mulVS]
        · simp [isZero, hcc, ha, stepC, mulVS, finishC]
  | .quot d b, h => by
    match b, h with
    | .num a, h =>
      simp only [Dens] at h
      obtain ⟨c, hc⟩ := dens_ok d h
      simp [cbuild, hc, divBV]
  | .pow _ _, h => by simp [Dens] at h
  | .call _ _, h => by simp [Dens] at h
  | .interp _ _, h => by simp [Dens] at h
  | .refD _ _, h => by simp [Dens] at h
  | .intG _ _, h => by simp [Dens] at h

theorem densSum_ok : ∀ (cs : List (ME α)) (k : Option Kind) (a : α), (k = none ∨ k = some .scalar) →
    DensL cs → ∃ c, cSum P ctx true k (.sc a) cs = .ok (.sc c)
  | [], _, a, _, _ => ⟨a, by simp [cSum]⟩
  | d :: ds, k, a, hk, h => by
    simp only [DensL] at h
    obtain ⟨c, hc⟩ := dens_ok d h.1
    simp only [cSum, hc]
    by_cases hz : isZero (BV.sc c) = true
    · rw [if_pos hz]; exact densSum_ok ds k a hk h.2
    · rw [if_neg hz]
      simp only [kindC]
      rw [if_neg (by rcases hk with rfl | rfl <;> simp)]
      simp only [addBV]
      exact densSum_ok ds _ _ (Or.inr rfl) h.2

end

/-- what a cluster builder returns on `LC` -/
def Flat (w : BV α) : Prop := w = .sc 0 ∨ ∃ g, w = .ve P.length g

theorem densIntG_ok : ∀ (ds : List (ME α)) (Rs : List (Arr α)) (acc : BV α), Flat P acc →
    Rs.length = ds.length → DensL ds → ∃ w, cIntG P ctx acc Rs ds = .ok w ∧ Flat P w
  | [], [], acc, ha, _, _ => ⟨acc, by simp [cIntG], ha⟩
  | [], _ :: _, _, _, h, _ => by simp at h
  | _ :: _, [], _, _, h, _ => by simp at h
  | d :: ds, R :: Rs, acc, ha, hl, h => by
    simp only [DensL] at h
    obtain ⟨c, hc⟩ := dens_ok P ctx d h.1
    simp only [cIntG, hc]
    simp only [List.length_cons, Nat.add_right_cancel_iff] at hl
    by_cases hz : isZero (BV.sc c) = true
    · rw [if_pos hz]; exact densIntG_ok ds Rs acc ha hl h.2
    · rw [if_neg hz]
      rcases ha with rfl | ⟨g, rfl⟩ <;> simp only [addBV, if_true] <;>
        exact densIntG_ok ds Rs _ (Or.inr ⟨_, rfl⟩) hl h.2

mutual

theorem lc_ok : ∀ (e : ME α), LC e → ∃ w, cbuild P ctx false e = .ok w ∧ Flat P w
  | .dep, _ => ⟨depVal P false, by simp [cbuild],
      Or.inr ⟨fun k => if (at' P k).1 = (at' P k).2 then 1 else 0, by simp [depVal]⟩⟩
  | .otherDep _, _ => ⟨_, by simp [cbuild], Or.inl rfl⟩
  | .var _, h => by simp [LC] at h
  | .num _, h => by simp [LC] at h
  | .coord _ _, h => by simp [LC] at h
  | .sum cs, h => by
    simp only [LC] at h
    simp only [cbuild]
    exact lcSum_ok cs none (.sc 0) (Or.inl rfl) (Or.inl rfl) h
  | .prod cs, h => by
    match cs, h with
    | [.num a, d], h =>
      simp only [LC] at h
      obtain ⟨w, hw, hF⟩ := lc_ok d h
      simp only [cbuild, cProd, hw]
      by_cases ha : a = 0
      · simp [isZero, ha, Flat]
      · rcases hF with rfl | ⟨g, rfl⟩
        · simp [isZero, ha, stepC, mulVS, Flat]
        · simp [isZero, ha, stepC, mulVS, finishC, Flat]
  | .quot d b, h => by
    match b, h with
    | .num a, h =>
      simp only [LC] at h
      obtain ⟨w, hw, hF⟩ := lc_ok d h
      rcases hF with rfl | ⟨g, rfl⟩ <;> simp [cbuild, hw, divBV, Flat]
  | .pow _ _, h => by simp [LC] at h
  | .call _ _, h => by simp [LC] at h
  | .interp _ _, h => by simp [LC] at h
  | .refD _ _, h => by simp [LC] at h
  | .intG mats ds, h => by
    simp only [LC] at h
    simp only [cbuild]
    exact densIntG_ok P ctx ds mats (.sc 0) (Or.inl rfl) h.1 h.2

theorem lcSum_ok : ∀ (cs : List (ME α)) (k : Option Kind) (acc : BV α),
    (k = none ∨ k = some .matrix) → Flat P acc → LCL cs →
    ∃ w, cSum P ctx false k acc cs = .ok w ∧ Flat P w
  | [], _, acc, _, ha, _ => ⟨acc, by simp [cSum], ha⟩
  | d :: ds, k, acc, hk, ha, h => by
    simp only [LCL] at h
    obtain ⟨w, hw, hF⟩ := lc_ok d h.1
    simp only [cSum, hw]
    rcases hF with rfl | ⟨g, rfl⟩
    · rw [if_pos (by simp [isZero])]; exact lcSum_ok ds k acc hk ha h.2
    · rw [if_neg (by simp [isZero])]
      simp only [kindC, if_true]
      rw [if_neg (by rcases hk with rfl | rfl <;> simp)]
      rcases ha with rfl | ⟨g', rfl⟩ <;> simp only [addBV, if_true] <;>
        exact lcSum_ok ds _ _ (Or.inr rfl) (Or.inr ⟨_, rfl⟩) h.2

end
end

/-- C57: a cluster builder accepts every linear combination of the input and of layer
potentials of linear combinations of the input; the result has one entry per pair (or is
the number zero). -/
theorem C57_accepts (P : List (Nat × Nat)) (ctx : String → Option (BV α)) (e : ME α) (h : LC e) :
    cbuild P ctx false e = .ok (.sc 0) ∨ ∃ g, cbuild P ctx false e = .ok (.ve P.length g) := by
  obtain ⟨w, hw, rfl | ⟨g, rfl⟩⟩ := lc_ok P ctx e h
  · exact Or.inl hw
  · exact Or.inr ⟨g, hw⟩

/-- C57: composition of layer potentials and interpolation are refused. -/
theorem C57_no_composition (P : List (Nat × Nat)) (ctx : String → Option (BV α)) (R Q : Arr α)
    (mats : List (Arr α)) (ds : List (ME α)) (a : ME α) :
    cbuild P ctx false (.intG [R] [.intG mats ds]) = .error .unsupported ∧
    cbuild P ctx false (.intG [R] [.interp Q a]) = .error .unsupported ∧
    cbuild P ctx false (.interp Q a) = .error .unsupported := by
  simp [cbuild, cIntG]

/-- C57: reference derivatives of anything that depends on the unknown are refused by the cluster builders, as by the full
one, and so are those of numbers; the derivative of an array that is not as long as the product of the indices is that of
the full builder. -/
theorem C57_reference_derivative (P : List (Nat × Nat)) (ctx : String → Option (BV α)) (R : Arr α) :
    (∀ (A : ME α) (g : Nat → α), cbuild P ctx false A = .ok (.ve P.length g) →
      cbuild P ctx false (.refD R A) = .error .notImplemented) ∧
    (∀ A : ME α, LC A → cbuild P ctx false (.refD R A) = .error .notImplemented ∨
      cbuild P ctx false (.refD R A) = .error .assertion) ∧
    (∀ a : α, cbuild P ctx false (.refD R (.num a)) = .error .assertion) ∧
    (∀ (n : Nat) (s : String) (f : Nat → α), ctx s = some (.ve R.cols f) → R.cols ≠ P.length →
      cbuild P ctx false (.refD R (.var s)) = build n ctx (.refD R (.var s))) := by
  refine ⟨fun A g h => ?_, fun A hA => ?_, fun a => rfl, fun n s f hs hne => ?_⟩
  · simp [cbuild, h, refDC]
  · rcases C57_accepts P ctx A hA with h | ⟨g, h⟩
    · right; simp [cbuild, h, refDC]
    · left; simp [cbuild, h, refDC]
  · simp [cbuild, build, hs, refDC, hne]

/-- non-vacuity -/
example : cbuild (α := ℚ) [(0, 0), (1, 1)] (fun _ => none) false (.refD ⟨2, 2, fun _ _ => 1⟩ .dep)
    = .error .notImplemented :=
  (C57_reference_derivative _ _ _).1 _ _ rfl

/-- C57 is false for densities that are not linear in the input: a constant density and the
square of the input are refused by the full builder, but the cluster builder treats
both like multiples of the input. -/
theorem C57_refuted : ∃ (R : Arr ℚ) (P : List (Nat × Nat)) (g h : Nat → ℚ),
    build 1 (fun _ => none) (.intG [R] [.num 3]) = .error .assertion ∧
    cbuild P (fun _ => none) false (.intG [R] [.num 3]) = .ok (.ve 1 g) ∧ g 0 = 3 ∧
    build 1 (fun _ => none) (.intG [R] [.prod [.dep, .dep]]) = .error .runtime ∧
    cbuild P (fun _ => none) false (.intG [R] [.prod [.dep, .dep]]) = .ok (.ve 1 h) ∧ h 0 = 1 := by
  refine ⟨⟨1, 1, fun _ _ => 1⟩, [(0, 0)], fun _ => 0 + 1 * 3, fun _ => 0 + 1 * (1 * 1 * 1), ?_, ?_, ?_, ?_, ?_, ?_⟩
  · simp [build, buildIntG, isZero]
  · simp [cbuild, cIntG, isZero, addBV]
  · norm_num
  · simp [build, buildIntG, buildProd, isZero]
  · simp [cbuild, cIntG, cProd, isZero, addBV, depVal, stepC, mulVS, finishC]
  · norm_num

/-- C57 is false for products with nodal arrays: the full builder scales the rows, the
cluster builder fails on an attribute that does not exist. -/
theorem C57_refuted_vector : ∃ (R : Arr ℚ) (P : List (Nat × Nat)) (ctx : String → Option (BV ℚ))
    (A : Nat → Nat → ℚ), PlainCtx ctx ∧
    build 2 ctx (.prod [.var "w", .intG [R] [.dep]]) = .ok (.ma 2 2 A) ∧
    cbuild P ctx false (.prod [.var "w", .intG [R] [.dep]]) = .error .attribute := by
  refine ⟨⟨2, 2, fun _ _ => 1⟩, [(0, 0)], fun _ => some (.ve 2 (fun i => i + 1)), _, ?_, rfl, ?_⟩
  · intro s v hv; cases hv; exact Or.inr ⟨_, _, rfl⟩
  · simp [cbuild, cProd, cIntG, isZero, addBV, depVal, stepC, mulVS, finishC]

/-- non-vacuity: half the input plus a layer potential of twice the input, on the pairs of a
1×2 and a 1×1 block -/
example : ∃ (R : Arr ℚ) (e : ME ℚ) (A : Nat → Nat → ℚ) (g : Nat → ℚ),
    LC e ∧ Frag e ∧ build 3 (fun _ => none) e = .ok (.ma 3 3 A) ∧
    cbuild [(1, 0), (1, 1), (2, 2)] (fun _ => none) false e = .ok (.ve 3 g) ∧
    A 1 0 = 2 ∧ A 1 1 = 5 / 2 := by
  refine ⟨⟨3, 3, fun _ _ => 1⟩, .sum [.quot .dep (.num 2), .intG [⟨3, 3, fun _ _ => 1⟩] [.prod [.num 2, .dep]]],
    _, fun k => (if (at' [(1, 0), (1, 1), (2, 2)] k).1 = (at' [(1, 0), (1, 1), (2, 2)] k).2 then 1 else 0) / 2
      + 2, ?_, ?_, rfl, ?_, ?_, ?_⟩
  · simp [LC, LCL, DensL, Dens]
  · simp [Frag, FragL, isNum]
  · simp [cbuild, cSum, cIntG, cProd, isZero, addBV, depVal, stepC, mulVS, finishC, divBV, kindC]
  · norm_num [Finset.sum_range_succ]
  · norm_num [Finset.sum_range_succ]

end Verif.ClusterMat
