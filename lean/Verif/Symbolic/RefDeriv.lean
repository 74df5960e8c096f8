import Mathlib.Tactic.Common
import Mathlib.Algebra.Module.LinearMap.Defs
import Mathlib.Algebra.Module.Pi
import Mathlib.Algebra.Field.Rat
import Mathlib.Data.List.Nodup
import Mathlib.Tactic.NormNum

/-!
# Reference derivatives (C96)

`NumReferenceDerivative` and `num_reference_derivative` (`pytential/symbolic/primitives.py:732-814`), their
evaluation (`pytential/symbolic/execution.py:258-266`), and the lifting of functions of scalar expressions to object
arrays and multivectors (`for_each_expression`, `primitives.py:493-513`).

Not modelled: the warnings; entries of `ref_axes` that are not pairs of integers (these fail in `sorted` or `dict`);
`meshmode.discretization.num_reference_derivative`, which is taken to apply the differentiation matrices of the axes it
is given one after the other.
-/

namespace Verif.RefDeriv

/-- what a caller may pass as `ref_axes` (`primitives.py:751-754`, `769-780`) -/
inductive Axes
  | int (axis : Int)
  | pairs (l : List (Int × Int))
  | other
  deriving DecidableEq, Repr

/-- the exceptions of the constructor: `TypeError`, and the two `ValueError`s (`primitives.py:781-793`) -/
inductive Err | notATuple | unsorted | repeated
  deriving DecidableEq, Repr

/-- comparison of pairs in Python: lexicographic -/
def pyLe (p q : Int × Int) : Bool := decide (p.1 < q.1) || (p.1 == q.1 && decide (p.2 ≤ q.2))

/-- insertion into a sorted list, part of `sorted` -/
def insertPair (p : Int × Int) : List (Int × Int) → List (Int × Int)
  | [] => [p]
  | q :: l => if pyLe p q then p :: q :: l else q :: insertPair p l

/-- `sorted(ref_axes)` (`primitives.py:784`).  Simplification: insertion sort; all stable sorts agree. -/
def pySorted : List (Int × Int) → List (Int × Int)
  | [] => []
  | p :: l => insertPair p (pySorted l)

/-- `d[axis] = order`: an existing key keeps its place -/
def dictSet (axis order : Int) : List (Int × Int) → List (Int × Int)
  | [] => [(axis, order)]
  | q :: d => if q.1 = axis then (axis, order) :: d else q :: dictSet axis order d

/-- `dict(ref_axes)` (`primitives.py:789`) -/
def pyDict (l : List (Int × Int)) : List (Int × Int) := l.foldl (fun d p => dictSet p.1 p.2 d) []

/-- an integer stands for one derivative along that axis; nothing but tuples is allowed otherwise
(`primitives.py:773-782`, `812-813`) -/
def asPairs : Axes → Except Err (List (Int × Int))
  | .int a => .ok [(a, 1)]
  | .pairs l => .ok l
  | .other => .error .notATuple

/-- the two checks (`primitives.py:784-792`) -/
def checkPairs (l : List (Int × Int)) : Except Err (List (Int × Int)) :=
  if pySorted l ≠ l then .error .unsorted
  else if (pyDict l).length ≠ l.length then .error .repeated
  else .ok l

/-- `NumReferenceDerivative.__init__`: the stored `ref_axes` (`primitives.py:767-796`) -/
def mkAxes (a : Axes) : Except Err (List (Int × Int)) :=
  match asPairs a with
  | .error r => .error r
  | .ok l => checkPairs l

/-- what a function decorated with `for_each_expression` may be given: an expression, an object array of operands, or
a multivector with expressions as coefficients (`primitives.py:493-513`) -/
inductive Operand (E : Type)
  | expr (e : E)
  | arr (xs : List (Operand E))
  | mv (cs : List (Nat × E))

/-- the node `NumReferenceDerivative(ref_axes, operand, dofdesc)` -/
structure Node (E D : Type) where
  axes : List (Int × Int)
  operand : E
  dd : D

/-- a function of the scalar expressions applied to all coefficients of a multivector (`componentwise` of pymbolic,
called in `primitives.py:506`) -/
def coefs {E F : Type} (f : E → Except Err F) : List (Nat × E) → Except Err (List (Nat × F))
  | [] => .ok []
  | (bits, c) :: cs =>
    match f c with
    | .error r => .error r
    | .ok c' =>
      match coefs f cs with
      | .error r => .error r
      | .ok cs' => .ok ((bits, c') :: cs')

mutual
/-- the wrapper made by `for_each_expression` (`primitives.py:502-511`).  The entries of an object array may be arrays
or multivectors themselves; for `NumReferenceDerivative` these are taken apart by `__new__` (`primitives.py:751-765`). -/
def forEach {E F : Type} (f : E → Except Err F) : Operand E → Except Err (Operand F)
  | .expr e => match f e with
    | .error r => .error r
    | .ok e' => .ok (.expr e')
  | .arr xs => match forEachL f xs with
    | .error r => .error r
    | .ok xs' => .ok (.arr xs')
  | .mv cs => match coefs f cs with
    | .error r => .error r
    | .ok cs' => .ok (.mv cs')
/-- the loop over the entries of an object array (`obj_array.vectorize`) -/
def forEachL {E F : Type} (f : E → Except Err F) : List (Operand E) → Except Err (List (Operand F))
  | [] => .ok []
  | x :: xs => match forEach f x with
    | .error r => .error r
    | .ok x' => match forEachL f xs with
      | .error r => .error r
      | .ok xs' => .ok (x' :: xs')
end

/-- construction of one node (`primitives.py:803-814`) -/
def mkNode {E D : Type} (a : Axes) (dd : D) (e : E) : Except Err (Node E D) :=
  match mkAxes a with
  | .error r => .error r
  | .ok l => .ok ⟨l, e, dd⟩

/-- `num_reference_derivative(operand, ref_axes, dofdesc)` (`primitives.py:802-814`) -/
def numReferenceDerivative {E D : Type} (x : Operand E) (a : Axes) (dd : D) : Except Err (Operand (Node E D)) :=
  forEach (mkNode a dd) x

/-- `flatten([axis] * mult for axis, mult in expr.ref_axes)` (`execution.py:260`); a list times a number that is not
positive is empty -/
def flatAxes (l : List (Int × Int)) : List Int := l.flatMap fun p => List.replicate p.2.toNat p.1

/-- `map_num_reference_derivative` (`execution.py:258-266`): the differentiation operators of the axes are applied one
after the other -/
def evalAxes {V : Type} (d : Int → V → V) (l : List (Int × Int)) (v : V) : V :=
  (flatAxes l).foldl (fun v a => d a v) v

/-- evaluation of a node whose operand has a value -/
def evalNode {E D V : Type} (d : D → Int → V → V) (val : E → V) (n : Node E D) : V :=
  evalAxes (d n.dd) n.axes (val n.operand)

/-! ## Specification -/

/-- every axis occurs at most once, in ascending order -/
def Ascending (l : List (Int × Int)) : Prop := l.Pairwise fun p q => p.1 < q.1

/-- the order of the derivative along an axis (no derivative for axes not mentioned, nor for orders that are not
positive) -/
def order (l : List (Int × Int)) (a : Int) : Nat :=
  match l.find? fun p => p.1 == a with
  | none => 0
  | some p => p.2.toNat

mutual
/-- a function of scalars on all scalars of an operand: the shape stays -/
def Operand.map {E F : Type} (f : E → F) : Operand E → Operand F
  | .expr e => .expr (f e)
  | .arr xs => .arr (Operand.mapL f xs)
  | .mv cs => .mv (cs.map fun c => (c.1, f c.2))
/-- the same for a list of operands -/
def Operand.mapL {E F : Type} (f : E → F) : List (Operand E) → List (Operand F)
  | [] => []
  | x :: xs => x.map f :: Operand.mapL f xs
end

mutual
/-- the scalar expressions of an operand, in order -/
def leaves {E : Type} : Operand E → List E
  | .expr e => [e]
  | .arr xs => leavesL xs
  | .mv cs => cs.map Prod.snd
/-- the same for a list of operands -/
def leavesL {E : Type} : List (Operand E) → List E
  | [] => []
  | x :: xs => leaves x ++ leavesL xs
end

/-! ## Sorting and dictionaries -/

theorem insertPair_perm (p : Int × Int) (l : List (Int × Int)) : (insertPair p l).Perm (p :: l) := by
  induction l with
  | nil => exact List.Perm.refl _
  | cons q l ih =>
    simp only [insertPair]
    split
    · exact List.Perm.refl _
    · exact (List.Perm.cons q ih).trans (List.Perm.swap p q l)

theorem pyLe_total (p q : Int × Int) (h : pyLe p q = false) : pyLe q p = true := by
  simp only [pyLe, Bool.or_eq_false_iff, Bool.and_eq_false_iff, decide_eq_false_iff_not, beq_eq_false_iff_ne,
    Bool.or_eq_true, Bool.and_eq_true, decide_eq_true_eq, beq_iff_eq] at *
  omega

theorem pyLe_trans {p q r : Int × Int} (h : pyLe p q = true) (h' : pyLe q r = true) : pyLe p r = true := by
  simp only [pyLe, Bool.or_eq_true, Bool.and_eq_true, decide_eq_true_eq, beq_iff_eq] at *
  omega

theorem insertPair_sorted (p : Int × Int) (l : List (Int × Int)) (h : l.Pairwise fun a b => pyLe a b = true) :
    (insertPair p l).Pairwise fun a b => pyLe a b = true := by
  induction l with
  | nil => exact List.pairwise_singleton _ _
  | cons q l ih =>
    simp only [insertPair]
    obtain ⟨hq, hl⟩ := List.pairwise_cons.1 h
    split
    · rename_i hpq
      refine List.pairwise_cons.2 ⟨?_, h⟩
      intro r hr
      rcases List.mem_cons.1 hr with rfl | hr
      · exact hpq
      · exact pyLe_trans hpq (hq r hr)
    · rename_i hpq
      refine List.pairwise_cons.2 ⟨?_, ih hl⟩
      intro r hr
      rcases List.mem_cons.1 ((insertPair_perm p l).subset hr) with rfl | hr
      · exact pyLe_total _ _ (by simpa using hpq)
      · exact hq r hr

theorem pySorted_sorted (l : List (Int × Int)) : (pySorted l).Pairwise fun a b => pyLe a b = true := by
  induction l with
  | nil => exact List.Pairwise.nil
  | cons p l ih => exact insertPair_sorted p _ ih

theorem pySorted_id (l : List (Int × Int)) (h : l.Pairwise fun a b => pyLe a b = true) : pySorted l = l := by
  induction l with
  | nil => rfl
  | cons p l ih =>
    obtain ⟨hp, hl⟩ := List.pairwise_cons.1 h
    rw [pySorted, ih hl]
    cases l with
    | nil => rfl
    | cons q l => rw [insertPair, if_pos (hp q (List.mem_cons_self ..))]

/-- `sorted` leaves exactly the sorted lists alone -/
theorem pySorted_iff (l : List (Int × Int)) : pySorted l = l ↔ l.Pairwise fun a b => pyLe a b = true :=
  ⟨fun h => h ▸ pySorted_sorted l, pySorted_id l⟩

theorem dictSet_keys (a o : Int) (d : List (Int × Int)) :
    (dictSet a o d).map Prod.fst = if a ∈ d.map Prod.fst then d.map Prod.fst else d.map Prod.fst ++ [a] := by
  induction d with
  | nil => simp [dictSet]
  | cons q d ih =>
    simp only [dictSet]
    split
    · rename_i h; simp [h]
    · rename_i h
      rw [List.map_cons, ih]
      have h' : ¬ a = q.1 := fun e => h e.symm
      simp only [List.map_cons, List.mem_cons, h', false_or]
      split <;> simp

theorem foldl_dict_le (l d : List (Int × Int)) :
    (l.foldl (fun d p => dictSet p.1 p.2 d) d).length ≤ d.length + l.length := by
  induction l generalizing d with
  | nil => simp
  | cons p l ih =>
    simp only [List.foldl_cons, List.length_cons]
    refine (ih _).trans ?_
    have := congrArg List.length (dictSet_keys p.1 p.2 d)
    rw [List.length_map] at this
    rw [this]
    split <;> simp <;> omega

theorem foldl_dict_full (l d : List (Int × Int)) :
    (l.foldl (fun d p => dictSet p.1 p.2 d) d).length = d.length + l.length ↔
      (l.map Prod.fst).Nodup ∧ ∀ p ∈ l, p.1 ∉ d.map Prod.fst := by
  induction l generalizing d with
  | nil => simp
  | cons p l ih =>
    have hk := dictSet_keys p.1 p.2 d
    have hl := congrArg List.length hk
    rw [List.length_map] at hl
    simp only [List.foldl_cons, List.length_cons]
    by_cases hm : p.1 ∈ d.map Prod.fst
    · rw [if_pos hm] at hk hl
      rw [List.length_map] at hl
      refine ⟨fun h => ?_, fun h => absurd hm (h.2 p (List.mem_cons_self ..))⟩
      have := foldl_dict_le l (dictSet p.1 p.2 d)
      omega
    · rw [if_neg hm] at hk hl
      have h1 : (dictSet p.1 p.2 d).length = d.length + 1 := by simpa using hl
      have := ih (dictSet p.1 p.2 d)
      rw [h1, hk] at this
      rw [show d.length + (l.length + 1) = d.length + 1 + l.length by omega, this]
      simp only [List.map_cons, List.nodup_cons, List.mem_cons, List.mem_append, List.not_mem_nil, or_false,
        not_or, forall_eq_or_imp]
      constructor
      · rintro ⟨h2, h3⟩
        refine ⟨⟨?_, h2⟩, hm, fun q hq => (h3 q hq).1⟩
        intro hc
        obtain ⟨q, hq, he⟩ := List.mem_map.1 hc
        exact (h3 q hq).2 he
      · rintro ⟨⟨h2, h3⟩, -, h4⟩
        exact ⟨h3, fun q hq => ⟨h4 q hq, fun he => h2 (List.mem_map.2 ⟨q, hq, he⟩)⟩⟩

/-- a dictionary is as long as the list of its items exactly if no key is repeated -/
theorem pyDict_full (l : List (Int × Int)) : (pyDict l).length = l.length ↔ (l.map Prod.fst).Nodup := by
  have := foldl_dict_full l []
  simpa [pyDict] using this

theorem ascending_iff (l : List (Int × Int)) :
    Ascending l ↔ (l.Pairwise fun a b => pyLe a b = true) ∧ (l.map Prod.fst).Nodup := by
  rw [Ascending, List.Nodup, List.pairwise_map, ← List.pairwise_and_iff]
  constructor <;> intro h <;> refine h.imp ?_ <;> intro p q <;>
    simp only [pyLe, Bool.or_eq_true, Bool.and_eq_true, decide_eq_true_eq, beq_iff_eq] <;> omega

theorem order_cons (p : Int × Int) (l : List (Int × Int)) (h : Ascending (p :: l)) (a : Int) :
    order (p :: l) a = (if p.1 = a then p.2.toNat else 0) + order l a := by
  obtain ⟨hp, -⟩ := List.pairwise_cons.1 h
  unfold order
  rw [List.find?_cons]
  by_cases he : p.1 = a
  · have hnone : (l.find? fun p => p.1 == a) = none := by
      rw [List.find?_eq_none]
      intro q hq hqa
      have := hp q hq
      simp only [beq_iff_eq] at hqa
      omega
    rw [hnone]
    simp [he]
  · have : (p.1 == a) = false := by simpa using he
    rw [this, if_neg he, Nat.zero_add]

theorem flatAxes_count (l : List (Int × Int)) (h : Ascending l) (a : Int) : (flatAxes l).count a = order l a := by
  induction l with
  | nil => rfl
  | cons p l ih =>
    rw [order_cons p l h a, ← ih (List.pairwise_cons.1 h).2]
    simp only [flatAxes, List.flatMap_cons, List.count_append, List.count_replicate]
    congr 1
    by_cases he : p.1 = a
    · simp [he]
    · simp [he]

theorem foldl_perm {V : Type} (d : Int → V → V) (hd : ∀ a b v, d a (d b v) = d b (d a v)) {l l' : List Int}
    (h : l.Perm l') (v : V) : l.foldl (fun v a => d a v) v = l'.foldl (fun v a => d a v) v := by
  induction h generalizing v with
  | nil => rfl
  | cons a _ ih => exact ih _
  | swap a b l => simp only [List.foldl_cons]; rw [hd]
  | trans _ _ ih1 ih2 => rw [ih1, ih2]

/-! ## C96 -/

/-- **C96**: which `ref_axes` are accepted: an integer (one derivative along that axis), and exactly the tuples with
every axis at most once and in ascending order; they are stored as given. -/
theorem C96_accepted (a : Axes) (l : List (Int × Int)) :
    mkAxes a = .ok l ↔ Ascending l ∧ (a = .pairs l ∨ ∃ i, a = .int i ∧ l = [(i, 1)]) := by
  have hcheck : ∀ l l', checkPairs l = .ok l' ↔ l' = l ∧ Ascending l := by
    intro l l'
    simp only [checkPairs]
    by_cases h1 : pySorted l = l
    · rw [if_neg (by simpa using h1)]
      by_cases h2 : (pyDict l).length = l.length
      · rw [if_neg (by simpa using h2), ascending_iff]
        refine ⟨fun h => ?_, fun h => by rw [h.1]⟩
        cases h
        exact ⟨rfl, (pySorted_iff l).1 h1, (pyDict_full l).1 h2⟩
      · rw [if_pos h2]
        refine ⟨(by intro h; cases h), fun h => absurd ((pyDict_full l).2 ((ascending_iff l).1 h.2).2) h2⟩
    · rw [if_pos h1]
      refine ⟨(by intro h; cases h), fun h => absurd ((pySorted_iff l).2 ((ascending_iff l).1 h.2).1) h1⟩
  cases a with
  | int i =>
    simp only [mkAxes, asPairs, hcheck, Axes.int.injEq, exists_eq_left', reduceCtorEq, false_or]
    refine ⟨fun h => ⟨h.1 ▸ h.2, h.1⟩, fun h => ⟨h.2, h.2 ▸ h.1⟩⟩
  | pairs m =>
    simp only [mkAxes, asPairs, hcheck, Axes.pairs.injEq, reduceCtorEq, false_and, exists_const, or_false]
    refine ⟨fun h => ⟨h.1 ▸ h.2, h.1.symm⟩, fun h => ⟨h.2.symm, h.2 ▸ h.1⟩⟩
  | other => simp [mkAxes, asPairs]

/-- **C96**: what is refused, and how: other types with `TypeError`; tuples that are not sorted as `sorted` does; and
sorted ones with a repeated axis. -/
theorem C96_refused (a : Axes) :
    (mkAxes a = .error .notATuple ↔ a = .other) ∧
    (mkAxes a = .error .unsorted ↔ ∃ l, a = .pairs l ∧
      ¬ l.Pairwise fun p q => p.1 < q.1 ∨ p.1 = q.1 ∧ p.2 ≤ q.2) ∧
    (mkAxes a = .error .repeated ↔ ∃ l, a = .pairs l ∧
      (l.Pairwise fun p q => p.1 < q.1 ∨ p.1 = q.1 ∧ p.2 ≤ q.2) ∧ ¬ (l.map Prod.fst).Nodup) := by
  have hle : ∀ l : List (Int × Int), (l.Pairwise fun p q => p.1 < q.1 ∨ p.1 = q.1 ∧ p.2 ≤ q.2) ↔ pySorted l = l := by
    intro l
    rw [pySorted_iff]
    constructor <;> intro h <;> refine h.imp ?_ <;> intro p q <;>
      simp only [pyLe, Bool.or_eq_true, Bool.and_eq_true, decide_eq_true_eq, beq_iff_eq] <;> exact id
  cases a with
  | int i => simp [mkAxes, asPairs, checkPairs, pySorted, insertPair, pyDict, dictSet]
  | pairs m =>
    simp only [mkAxes, asPairs, Axes.pairs.injEq, exists_eq_left', reduceCtorEq, iff_false, hle, ← pyDict_full,
      checkPairs]
    by_cases h1 : pySorted m = m
    · rw [if_neg (by simpa using h1)]
      by_cases h2 : (pyDict m).length = m.length
      · rw [if_neg (by simpa using h2)]; simp [h1, h2]
      · rw [if_pos h2]; simp [h1, h2]
    · rw [if_pos h1]; simp [h1]
  | other => simp [mkAxes, asPairs]

/-- **C96**: the value of an accepted reference derivative depends on the order along each axis only: if the
differentiation operators of the axes commute, derivatives of derivatives are the derivatives of the summed orders; in
particular a derivative may be taken axis by axis. -/
theorem C96_value {V : Type} (d : Int → V → V) (hd : ∀ a b v, d a (d b v) = d b (d a v))
    (l l₁ l₂ : List (Int × Int)) (h : Ascending l) (h₁ : Ascending l₁) (h₂ : Ascending l₂)
    (hsum : ∀ a, order l a = order l₁ a + order l₂ a) (v : V) :
    evalAxes d l v = evalAxes d l₂ (evalAxes d l₁ v) := by
  unfold evalAxes
  rw [← List.foldl_append]
  refine foldl_perm d hd ?_ v
  rw [List.perm_iff_count]
  intro a
  rw [List.count_append, flatAxes_count l h, flatAxes_count l₁ h₁, flatAxes_count l₂ h₂, hsum]

/-- **C96**: one pair `(axis, order)` differentiates `order` times along `axis`. -/
theorem C96_power {V : Type} (d : Int → V → V) (a : Int) (n : Nat) (v : V) :
    evalAxes d [(a, n)] v = (d a)^[n] v := by
  simp only [evalAxes, flatAxes, List.flatMap_cons, List.flatMap_nil, List.append_nil, Int.toNat_natCast]
  induction n generalizing v with
  | zero => rfl
  | succ n ih => rw [List.replicate_succ, List.foldl_cons, ih, Function.iterate_succ_apply]

/-- **C96**: reference derivatives of linear differentiation operators are linear. -/
theorem C96_linear {K V : Type} [Semiring K] [AddCommMonoid V] [Module K V] (d : Int → V →ₗ[K] V)
    (l : List (Int × Int)) (v w : V) (c : K) :
    evalAxes (fun a => d a) l (c • v + w) = c • evalAxes (fun a => d a) l v + evalAxes (fun a => d a) l w := by
  unfold evalAxes
  induction flatAxes l generalizing v w with
  | nil => rfl
  | cons a as ih => simp only [List.foldl_cons, map_add, map_smul]; exact ih _ _

/-- shifts of the Taylor coefficients, the differentiation operators of the next theorem -/
def shift (a : Int) (f : (Int → Nat) → Rat) : (Int → Nat) → Rat := fun m => f fun b => m b + if a = b then 1 else 0

theorem shift_comm (a b : Int) (f : (Int → Nat) → Rat) : shift a (shift b f) = shift b (shift a f) := by
  funext m
  simp only [shift]
  congr 1
  funext c
  omega

theorem shift_flat (as : List Int) (f : (Int → Nat) → Rat) (m : Int → Nat) :
    as.foldl (fun f a => shift a f) f m = f fun b => m b + as.count b := by
  induction as generalizing f with
  | nil => rfl
  | cons a as ih =>
    rw [List.foldl_cons, ih]
    simp only [shift]
    congr 1
    funext b
    rw [List.count_cons]
    by_cases h : a = b
    · simp [h]; omega
    · have : ¬ (a == b) = true := by simpa using h
      simp [h]

/-- **C96**: accepted reference derivatives with positive orders that always have the same values are equal: nothing
else is accepted as another spelling of the same derivative. -/
theorem C96_distinct (l l' : List (Int × Int)) (h : Ascending l) (h' : Ascending l')
    (hpos : ∀ p ∈ l, 0 < p.2) (hpos' : ∀ p ∈ l', 0 < p.2)
    (heq : ∀ f : (Int → Nat) → Rat, evalAxes shift l f = evalAxes shift l' f) : l = l' := by
  have hord : ∀ a, order l a = order l' a := by
    classical
    have := congrFun (heq fun m => if m = order l then 1 else 0) (fun _ => 0)
    simp only [evalAxes] at this
    rw [shift_flat, shift_flat] at this
    have e1 : (fun b => 0 + (flatAxes l).count b) = order l := by
      funext b; rw [Nat.zero_add, flatAxes_count l h]
    have e2 : (fun b => 0 + (flatAxes l').count b) = order l' := by
      funext b; rw [Nat.zero_add, flatAxes_count l' h']
    rw [e1, e2, if_pos rfl] at this
    by_cases hc : order l' = order l
    · intro a; rw [hc]
    · rw [if_neg hc] at this
      exact absurd this (by norm_num)
  clear heq
  induction l generalizing l' with
  | nil =>
    cases l' with
    | nil => rfl
    | cons q l' =>
      exfalso
      have h1 := hord q.1
      rw [order_cons q l' h'] at h1
      have h2 := hpos' q (List.mem_cons_self ..)
      simp only [order, List.find?_nil, if_true] at h1
      omega
  | cons p l ih =>
    cases l' with
    | nil =>
      exfalso
      have h1 := hord p.1
      rw [order_cons p l h] at h1
      have h2 := hpos p (List.mem_cons_self ..)
      simp only [order, List.find?_nil, if_true] at h1
      omega
    | cons q l' =>
      obtain ⟨hp, hl⟩ := List.pairwise_cons.1 h
      obtain ⟨hq, hl'⟩ := List.pairwise_cons.1 h'
      have hz : ∀ (m : List (Int × Int)) (a : Int), (∀ r ∈ m, a < r.1) → order m a = 0 := by
        intro m a hm
        unfold order
        have : (m.find? fun p => p.1 == a) = none := by
          rw [List.find?_eq_none]
          intro r hr he
          have := hm r hr
          simp only [beq_iff_eq] at he
          omega
        rw [this]
      have p2 := hpos p (List.mem_cons_self ..)
      have q2 := hpos' q (List.mem_cons_self ..)
      have e1 := hord p.1
      have e2 := hord q.1
      rw [order_cons p l h, order_cons q l' h', if_pos rfl, hz l p.1 hp] at e1
      rw [order_cons p l h, order_cons q l' h', if_pos rfl, hz l' q.1 hq] at e2
      have haxis : p.1 = q.1 := by
        rcases lt_trichotomy p.1 q.1 with hlt | he | hgt
        · rw [if_neg (by omega), hz l' p.1 (fun r hr => lt_trans hlt (hq r hr))] at e1
          omega
        · exact he
        · rw [if_neg (by omega), hz l q.1 (fun r hr => lt_trans hgt (hp r hr))] at e2
          omega
      have hsnd : p.2 = q.2 := by
        rw [if_pos haxis.symm, haxis, hz l' q.1 hq] at e1
        omega
      have hpq : p = q := Prod.ext haxis hsnd
      subst hpq
      congr 1
      refine ih l' hl hl' (fun r hr => hpos r (List.mem_cons_of_mem _ hr))
        (fun r hr => hpos' r (List.mem_cons_of_mem _ hr)) ?_
      intro a
      have := hord a
      rw [order_cons p l h, order_cons p l' h'] at this
      omega

theorem coefs_ok {E F : Type} (f : E → Except Err F) (g : E → F) (cs : List (Nat × E))
    (h : ∀ e ∈ cs.map Prod.snd, f e = .ok (g e)) : coefs f cs = .ok (cs.map fun c => (c.1, g c.2)) := by
  induction cs with
  | nil => rfl
  | cons c cs ih =>
    obtain ⟨bits, c⟩ := c
    simp only [List.map_cons, List.mem_cons, forall_eq_or_imp] at h
    simp only [coefs, h.1, ih h.2, List.map_cons]

theorem coefs_err {E F : Type} (f : E → Except Err F) (r : Err) (cs : List (Nat × E))
    (h : ∀ e ∈ cs.map Prod.snd, f e = .error r) (hne : cs.map Prod.snd ≠ []) : coefs f cs = .error r := by
  cases cs with
  | nil => exact absurd rfl hne
  | cons c cs =>
    obtain ⟨bits, c⟩ := c
    simp only [List.map_cons, List.mem_cons, forall_eq_or_imp] at h
    simp only [coefs, h.1]

mutual
theorem forEach_ok {E F : Type} (f : E → Except Err F) (g : E → F) :
    ∀ x : Operand E, (∀ e ∈ leaves x, f e = .ok (g e)) → forEach f x = .ok (x.map g)
  | .expr e, h => by simp [forEach, h e (by simp [leaves]), Operand.map]
  | .arr xs, h => by
    rw [forEach, forEachL_ok f g xs (by simpa [leaves] using h), Operand.map]
  | .mv cs, h => by
    rw [forEach, coefs_ok f g cs (by simpa [leaves] using h), Operand.map]
theorem forEachL_ok {E F : Type} (f : E → Except Err F) (g : E → F) :
    ∀ xs : List (Operand E), (∀ e ∈ leavesL xs, f e = .ok (g e)) → forEachL f xs = .ok (Operand.mapL g xs)
  | [], _ => rfl
  | x :: xs, h => by
    simp only [leavesL, List.mem_append] at h
    rw [forEachL, forEach_ok f g x (fun e he => h e (Or.inl he)),
      forEachL_ok f g xs (fun e he => h e (Or.inr he)), Operand.mapL]
end

mutual
theorem forEach_nil {E F : Type} (f : E → Except Err F) :
    ∀ x : Operand E, leaves x = [] → ∃ y, forEach f x = .ok y
  | .expr e, h => by simp [leaves] at h
  | .arr xs, h => by
    obtain ⟨ys, hy⟩ := forEachL_nil f xs (by simpa [leaves] using h)
    exact ⟨.arr ys, by rw [forEach, hy]⟩
  | .mv [], _ => ⟨.mv [], rfl⟩
  | .mv (c :: cs), h => by simp [leaves] at h
theorem forEachL_nil {E F : Type} (f : E → Except Err F) :
    ∀ xs : List (Operand E), leavesL xs = [] → ∃ ys, forEachL f xs = .ok ys
  | [], _ => ⟨[], rfl⟩
  | x :: xs, h => by
    rw [leavesL, List.append_eq_nil_iff] at h
    obtain ⟨y, hy⟩ := forEach_nil f x h.1
    obtain ⟨ys, hys⟩ := forEachL_nil f xs h.2
    exact ⟨y :: ys, by rw [forEachL, hy, hys]⟩
end

mutual
theorem forEach_err {E F : Type} (f : E → Except Err F) (r : Err) (h : ∀ e, f e = .error r) :
    ∀ x : Operand E, leaves x ≠ [] → forEach f x = .error r
  | .expr e, _ => by simp [forEach, h e]
  | .arr xs, hne => by
    rw [forEach, forEachL_err f r h xs (by simpa [leaves] using hne)]
  | .mv cs, hne => by
    rw [forEach, coefs_err f r cs (fun e _ => h e) (by simpa [leaves] using hne)]
theorem forEachL_err {E F : Type} (f : E → Except Err F) (r : Err) (h : ∀ e, f e = .error r) :
    ∀ xs : List (Operand E), leavesL xs ≠ [] → forEachL f xs = .error r
  | [], hne => absurd rfl hne
  | x :: xs, hne => by
    rw [forEachL]
    by_cases hx : leaves x = []
    · obtain ⟨y, hy⟩ := forEach_nil f x hx
      have hxs : leavesL xs ≠ [] := fun he => hne (by rw [leavesL, hx, he]; rfl)
      rw [hy, forEachL_err f r h xs hxs]
    · rw [forEach_err f r h x hx]
end

mutual
theorem map_map {E F G : Type} (f : E → F) (g : F → G) : ∀ x : Operand E, (x.map f).map g = x.map (g ∘ f)
  | .expr e => rfl
  | .arr xs => by simp only [Operand.map, mapL_map f g xs]
  | .mv cs => by simp [Operand.map]
theorem mapL_map {E F G : Type} (f : E → F) (g : F → G) :
    ∀ xs : List (Operand E), Operand.mapL g (Operand.mapL f xs) = Operand.mapL (g ∘ f) xs
  | [] => rfl
  | x :: xs => by simp only [Operand.mapL, map_map f g x, mapL_map f g xs]
end

/-- **C96**: `num_reference_derivative` of an object array or a multivector, however they are nested, is taken
componentwise: with accepted `ref_axes` the result has the shape of the operand, and the values of its components are the
derivatives of the values of the components of the operand; `ref_axes` that are not accepted are refused with the same
exception, unless there is no component at all. -/
theorem C96_componentwise {E D V : Type} (x : Operand E) (a : Axes) (dd : D) :
    (∀ l, mkAxes a = .ok l → ∃ y, numReferenceDerivative x a dd = .ok y ∧ y = x.map (fun e => ⟨l, e, dd⟩) ∧
      ∀ (d : D → Int → V → V) (val : E → V), y.map (evalNode d val) = (x.map val).map (evalAxes (d dd) l)) ∧
    (∀ r, mkAxes a = .error r → leaves x ≠ [] → numReferenceDerivative x a dd = .error r) := by
  refine ⟨fun l hl => ⟨x.map (fun e => ⟨l, e, dd⟩), ?_, rfl, fun d val => ?_⟩, fun r hr hne => ?_⟩
  · exact forEach_ok _ _ x (fun e _ => by simp only [mkNode, hl])
  · rw [map_map, map_map]; rfl
  · exact forEach_err _ r (fun e => by simp only [mkNode, hr]) x hne

/-- **C96**: orders that are not positive are accepted and take no derivative. -/
theorem C96_nonpositive {V : Type} (d : Int → V → V) (a m : Int) (hm : m ≤ 0) (v : V) :
    mkAxes (.pairs [(a, m)]) = .ok [(a, m)] ∧ evalAxes d [(a, m)] v = v := by
  refine ⟨(C96_accepted _ _).2 ⟨List.pairwise_singleton _ _, Or.inl rfl⟩, ?_⟩
  have : m.toNat = 0 := by omega
  simp [evalAxes, flatAxes, this]

/-- non-vacuity: the documented example, a mixed derivative of the second fundamental form, and the two errors -/
example : mkAxes (.pairs [(0, 2), (1, 1)]) = .ok [(0, 2), (1, 1)] ∧ mkAxes (.int 3) = .ok [(3, 1)] ∧
    mkAxes (.pairs [(1, 1), (0, 1)]) = .error .unsorted ∧ mkAxes (.pairs [(0, 1), (0, 1)]) = .error .repeated ∧
    mkAxes (.pairs [(0, 2), (0, 1)]) = .error .unsorted ∧ mkAxes .other = .error .notATuple := by decide

/-- non-vacuity: the mixed derivative is the derivative along one axis of the derivative along the other -/
example (f : (Int → Nat) → Rat) : evalAxes shift [(0, 1), (1, 1)] f = shift 1 (shift 0 f) ∧
    evalAxes shift [(0, 1), (1, 1)] f = evalAxes shift [(0, 1)] (evalAxes shift [(1, 1)] f) := by
  refine ⟨rfl, C96_value shift (fun a b v => shift_comm a b v) _ _ _ ?_ ?_ ?_ ?_ f⟩
  · simp [Ascending]
  · simp [Ascending]
  · simp [Ascending]
  · intro a
    simp only [order, List.find?_cons, List.find?_nil]
    by_cases h0 : a = 0
    · subst h0; decide
    · by_cases h1 : a = 1
      · subst h1; decide
      · have e0 : ((0 : Int) == a) = false := by simpa using fun h => h0 h.symm
        have e1 : ((1 : Int) == a) = false := by simpa using fun h => h1 h.symm
        simp [e0, e1]

/-- non-vacuity: an array holding an expression and a bivector -/
example : ∃ y, numReferenceDerivative (E := String) (.arr [.expr "x", .mv [(3, "y")]]) (.int 1) () = .ok y ∧
    leaves (y.map fun n => (n.axes, n.operand)) = [([(1, 1)], "x"), ([(1, 1)], "y")] := by
  obtain ⟨y, h1, h2, -⟩ := (C96_componentwise (V := Nat) (.arr [.expr "x", .mv [(3, "y")]]) (.int 1) ()).1 [(1, 1)]
    (by decide)
  exact ⟨y, h1, by rw [h2]; rfl⟩

end Verif.RefDeriv
