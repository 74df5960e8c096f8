import Mathlib.Tactic.Common
import Mathlib.Algebra.BigOperators.Intervals
import Mathlib.Algebra.Field.Basic
import Mathlib.Algebra.Field.Rat
import Mathlib.Tactic.Ring
import Mathlib.Tactic.Linarith
import Mathlib.Algebra.BigOperators.Ring.Finset

/-!
# Building matrices from expressions (C24)

Model of `MatrixBuilderBase`/`MatrixBuilder` (`pytential/symbolic/matrix.py:110-520`) as used
by `build_matrix` (`execution.py:1001-1075`), compared with evaluation of the same
expression.

Numbers are an arbitrary field (no infinities or NaNs, no rounding).  Arrays have a shape
and entries; entries outside the shape are never used.  Operations on arrays of different
length raise; NumPy's broadcasting of length-one arrays is not modelled.  The value of an
interpolation or of a layer potential is a given matrix applied to the operand
(the matrices come from meshmode and sumpy).  Power and quotient are pymbolic's
`EvaluationMapper` methods, i.e. Python's `**` and `/` on the values.
-/

set_option linter.unusedSectionVars false

namespace Verif.MatBuild

open Finset

/-- a given matrix (resampling, layer potential) -/
structure Arr (α : Type) where
  rows : Nat
  cols : Nat
  get : Nat → Nat → α

/-- values while building: scalar, 1D array, 2D array, or an object that is none of these,
for example a `DOFArray` (with the nodal values it stands for) -/
inductive BV (α : Type)
  | sc (a : α)
  | ve (n : Nat) (f : Nat → α)
  | ma (m n : Nat) (f : Nat → Nat → α)
  | oth (n : Nat) (f : Nat → α)

/-- values while evaluating: a scalar or a function on the nodes -/
inductive EV (α : Type)
  | sc (a : α)
  | ve (n : Nat) (f : Nat → α)

/-- the exceptions raised by the matrix builders (`symbolic/matrix.py:113-520`); `unsupported` stands for expressions outside of the model -/
inductive Err | runtime | shape | key | notImplemented | assertion | type | attribute | unsupported
  deriving DecidableEq, Repr

/-- Preprocessed expressions: the chosen input, another input (with its number of DOFs), a
variable of the context, numbers, node coordinates (on `k` nodes), sums, products, quotients, powers, calls of elementwise
functions, interpolation, reference derivatives (their matrix), layer potentials (one matrix per source kernel). -/
inductive ME (α : Type)
  | dep
  | otherDep (n : Nat)
  | var (s : String)
  | num (a : α)
  | coord (k : Nat) (f : Nat → α)
  | sum (cs : List (ME α))
  | prod (cs : List (ME α))
  | quot (a b : ME α)
  | pow (a : ME α) (k : Nat)
  | call (f : α → α) (a : ME α)
  | interp (R : Arr α) (a : ME α)
  | refD (R : Arr α) (a : ME α)
  | intG (mats : List (Arr α)) (dens : List (ME α))

variable {α : Type} [Field α] [DecidableEq α]

/-- `is_zero` (`matrix.py:80-81`) -/
def isZero : BV α → Bool
  | .sc a => decide (a = 0)
  | _ => false

/-- kinds of terms in `map_sum` (`matrix.py:178-180`) -/
inductive Kind | matrix | vector | scalar
  deriving DecidableEq, Repr

/-- term kind (`matrix.py:189-197`): what is not an `ndarray` counts as scalar -/
def kindOf : BV α → Kind
  | .ma _ _ _ => .matrix
  | .ve _ _ => .vector
  | .sc _ => .scalar
  | .oth _ _ => .scalar

/-- `a + b` -/
def addBV : BV α → BV α → Except Err (BV α)
  | .sc a, .sc b => .ok (.sc (a + b))
  | .sc a, .ve n f => .ok (.ve n (fun i => a + f i))
  | .ve n f, .sc a => .ok (.ve n (fun i => f i + a))
  | .ve n f, .ve m g => if n = m then .ok (.ve n (fun i => f i + g i)) else .error .shape
  | .sc a, .ma m n f => .ok (.ma m n (fun i j => a + f i j))
  | .ma m n f, .ma m' n' g =>
    if m = m' ∧ n = n' then .ok (.ma m n (fun i j => f i j + g i j)) else .error .shape
  | .sc a, .oth n f => .ok (.oth n (fun i => a + f i))
  | .oth n f, .sc a => .ok (.oth n (fun i => f i + a))
  | .oth n f, .oth m g => if n = m then .ok (.oth n (fun i => f i + g i)) else .error .shape
  | _, _ => .error .type

/-- `a * b` for the accumulated vectors and scalars of `map_product` -/
def mulVS : BV α → BV α → Except Err (BV α)
  | .sc a, .sc b => .ok (.sc (a * b))
  | .sc a, .ve n f => .ok (.ve n (fun i => a * f i))
  | .ve n f, .sc a => .ok (.ve n (fun i => f i * a))
  | .ve n f, .ve m g => if n = m then .ok (.ve n (fun i => f i * g i)) else .error .shape
  | _, _ => .error .type

/-- the end of `map_product` (`matrix.py:232-239`): a vector multiplies rows -/
def scaleMat (m n : Nat) (f : Nat → Nat → α) : BV α → Except Err (BV α)
  | .sc a => .ok (.ma m n (fun i j => f i j * a))
  | .ve k v => if k = m then .ok (.ma m n (fun i j => f i j * v i)) else .error .shape
  | _ => .error .type

/-- NumPy's `a / b` (pymbolic's `map_quotient`): dividing a matrix by a vector acts along
the last axis.  Objects that are not NumPy values are left out. -/
def divBV : BV α → BV α → Except Err (BV α)
  | .sc a, .sc b => .ok (.sc (a / b))
  | .sc a, .ve n f => .ok (.ve n (fun i => a / f i))
  | .ve n f, .sc a => .ok (.ve n (fun i => f i / a))
  | .ve n f, .ve m g => if n = m then .ok (.ve n (fun i => f i / g i)) else .error .shape
  | .ma m n f, .sc a => .ok (.ma m n (fun i j => f i j / a))
  | .ma m n f, .ve k v => if k = n then .ok (.ma m n (fun i j => f i j / v j)) else .error .shape
  | .sc a, .ma m n f => .ok (.ma m n (fun i j => a / f i j))
  | .ve k v, .ma m n f => if k = n then .ok (.ma m n (fun i j => v j / f i j)) else .error .shape
  | .ma m n f, .ma m' n' g =>
    if m = m' ∧ n = n' then .ok (.ma m n (fun i j => f i j / g i j)) else .error .shape
  | _, _ => .error .type

/-- NumPy's `a ** k` (pymbolic's `map_power`), elementwise -/
def powBV (k : Nat) : BV α → Except Err (BV α)
  | .sc a => .ok (.sc (a ^ k))
  | .ve n f => .ok (.ve n (fun i => f i ^ k))
  | .ma m n f => .ok (.ma m n (fun i j => f i j ^ k))
  | .oth n f => .ok (.oth n (fun i => f i ^ k))

/-- `map_call` after the recursive call (`matrix.py:276-288`) -/
def callBV (h : α → α) : BV α → Except Err (BV α)
  | .ma _ _ _ => .error .runtime
  | .sc a => .ok (.sc (h a))
  | .ve n f => .ok (.ve n (fun i => h (f i)))
  | .oth _ _ => .error .type

/-- `A @ B` -/
def matMul (R : Arr α) (m n : Nat) (f : Nat → Nat → α) : Except Err (BV α) :=
  if R.cols = m then .ok (.ma R.rows n (fun i j => ∑ k ∈ range m, R.get i k * f k j))
  else .error .shape

/-- `map_interpolation` after the recursive call (`matrix.py:400-448`).  For a 1D operand the
code unflattens each *entry* of the operand, which raises. -/
def interpBV (R : Arr α) : BV α → Except Err (BV α)
  | .sc a => .ok (.sc a)
  | .ve _ _ => .error .shape
  | .ma m n f => matMul R m n f
  | .oth _ _ => .error .runtime

/-- `map_num_reference_derivative` after the recursive call (`matrix.py:241-263`): a number or an object that is no
`ndarray` fails an assertion, a matrix is refused, an array is put on the discretization of the node and
differentiated -/
def refDBV (R : Arr α) : BV α → Except Err (BV α)
  | .sc _ => .error .assertion
  | .oth _ _ => .error .assertion
  | .ma _ _ _ => .error .notImplemented
  | .ve m f => if R.cols = m then .ok (.ve R.rows (fun i => ∑ k ∈ range m, R.get i k * f k)) else .error .shape

mutual

/-- `MatrixBuilder.__call__`: `n` is the number of DOFs of the chosen input
(`map_variable`, `matrix.py:159-173`; node coordinates: `:265-270`; quotients, powers: pymbolic). -/
def build (n : Nat) (ctx : String → Option (BV α)) : ME α → Except Err (BV α)
  | .dep => .ok (.ma n n (fun i j => if i = j then 1 else 0))
  | .otherDep _ => .ok (.sc 0)
  | .var s => match ctx s with
    | none => .error .key
    | some v => .ok v
  | .num a => .ok (.sc a)
  | .coord k f => .ok (.ve k f)
  | .sum cs => buildSum n ctx none (.sc 0) cs
  | .prod cs => buildProd n ctx none (.sc 1) cs
  | .quot a b => match build n ctx a with
    | .error e => .error e
    | .ok x => match build n ctx b with
      | .error e => .error e
      | .ok y => divBV x y
  | .pow a k => match build n ctx a with
    | .error e => .error e
    | .ok x => powBV k x
  | .call f a => match build n ctx a with
    | .error e => .error e
    | .ok x => callBV f x
  | .interp R a => match build n ctx a with
    | .error e => .error e
    | .ok x => interpBV R x
  | .refD R a => match build n ctx a with
    | .error e => .error e
    | .ok x => refDBV R x
  | .intG mats dens => buildIntG n ctx (.sc 0) mats dens

/-- loop of `map_sum` (`matrix.py:182-208`): kind of the sum so far, sum so far -/
def buildSum (n : Nat) (ctx : String → Option (BV α)) (kind : Option Kind) (acc : BV α) :
    List (ME α) → Except Err (BV α)
  | [] => .ok acc
  | c :: cs => match build n ctx c with
    | .error e => .error e
    | .ok x =>
      if isZero x then buildSum n ctx kind acc cs
      else if kind.getD (kindOf x) ≠ kindOf x then .error .runtime
      else match addBV acc x with
        | .error e => .error e
        | .ok acc' => buildSum n ctx (some (kindOf x)) acc' cs

/-- loop of `map_product` (`matrix.py:211-230`): matrix factor so far, product of the
scalars and vectors so far.  A factor that is neither a number nor an `ndarray` matches no
branch and is skipped. -/
def buildProd (n : Nat) (ctx : String → Option (BV α)) (mat : Option (Arr α)) (acc : BV α) :
    List (ME α) → Except Err (BV α)
  | [] => match mat with
    | none => .ok acc
    | some M => scaleMat M.rows M.cols M.get acc
  | c :: cs => match build n ctx c with
    | .error e => .error e
    | .ok x =>
      if isZero x then .ok (.sc 0)
      else match x with
        | .ma m k f => match mat with
          | some _ => .error .runtime
          | none => buildProd n ctx (some ⟨m, k, f⟩) acc cs
        | .oth _ _ => buildProd n ctx mat acc cs
        | x => match mulVS acc x with
          | .error e => .error e
          | .ok acc' => buildProd n ctx mat acc' cs

/-- loop of `map_int_g` (`matrix.py:460-518`) over kernels and densities -/
def buildIntG (n : Nat) (ctx : String → Option (BV α)) (acc : BV α) :
    List (Arr α) → List (ME α) → Except Err (BV α)
  | [], [] => .ok acc
  | R :: Rs, d :: ds => match build n ctx d with
    | .error e => .error e
    | .ok x =>
      if isZero x then buildIntG n ctx acc Rs ds
      else match x with
        | .ma m k f => match matMul R m k f with
          | .error e => .error e
          | .ok y => match addBV acc y with
            | .error e => .error e
            | .ok acc' => buildIntG n ctx acc' Rs ds
        | .ve _ _ => .error .notImplemented
        | _ => .error .assertion
  | _, _ => .error .type

end

/-- a block of `build_matrix` (`execution.py:1060-1069`): must be zero or an array;
`_bmat` then needs two dimensions. -/
def buildBlock (n : Nat) (ctx : String → Option (BV α)) (e : ME α) :
    Except Err (Option (Arr α)) :=
  match build n ctx e with
  | .error x => .error x
  | .ok (.sc a) => if a = 0 then .ok none else .error .assertion
  | .ok (.ma m k f) => .ok (some ⟨m, k, f⟩)
  | .ok (.ve _ _) => .error .shape
  | .ok (.oth _ _) => .error .assertion

/-! ## Specification: evaluation -/

/-- pointwise sum and product with broadcasting of scalars -/
def opEV (op : α → α → α) : EV α → EV α → Except Err (EV α)
  | .sc a, .sc b => .ok (.sc (op a b))
  | .sc a, .ve n f => .ok (.ve n (fun i => op a (f i)))
  | .ve n f, .sc a => .ok (.ve n (fun i => op (f i) a))
  | .ve n f, .ve m g => if n = m then .ok (.ve n (fun i => op (f i) (g i))) else .error .shape

/-- pointwise function -/
def mapEV (h : α → α) : EV α → EV α
  | .sc a => .sc (h a)
  | .ve n f => .ve n (fun i => h (f i))

/-- matrix applied to a density; a scalar density is constant -/
def applyEV (R : Arr α) : EV α → Except Err (EV α)
  | .sc a => .ok (.ve R.rows (fun i => ∑ k ∈ range R.cols, R.get i k * a))
  | .ve n f => if R.cols = n then .ok (.ve R.rows (fun i => ∑ k ∈ range n, R.get i k * f k))
    else .error .shape

/-- interpolation leaves scalars alone -/
def interpEV (R : Arr α) : EV α → Except Err (EV α)
  | .sc a => .ok (.sc a)
  | v => applyEV R v

/-- the reference derivative of nodal values (`execution.py:258-266`); of a number it raises -/
def refDEV (R : Arr α) : EV α → Except Err (EV α)
  | .sc _ => .error .type
  | v => applyEV R v

/-- the value of a context variable -/
def ofBV : BV α → Except Err (EV α)
  | .sc a => .ok (.sc a)
  | .ve n f => .ok (.ve n f)
  | .oth n f => .ok (.ve n f)
  | .ma _ _ _ => .error .type

mutual

/-- value of an expression if the chosen input is `x` (of length `n`) and the others are
zero -/
def ev (n : Nat) (x : Nat → α) (ctx : String → Option (BV α)) : ME α → Except Err (EV α)
  | .dep => .ok (.ve n x)
  | .otherDep k => .ok (.ve k (fun _ => 0))
  | .var s => match ctx s with
    | none => .error .key
    | some v => ofBV v
  | .num a => .ok (.sc a)
  | .coord k f => .ok (.ve k f)
  | .sum cs => evFold n x ctx (· + ·) (.sc 0) cs
  | .prod cs => evFold n x ctx (· * ·) (.sc 1) cs
  | .quot a b => match ev n x ctx a with
    | .error e => .error e
    | .ok u => match ev n x ctx b with
      | .error e => .error e
      | .ok v => opEV (· / ·) u v
  | .pow a k => match ev n x ctx a with
    | .error e => .error e
    | .ok u => .ok (mapEV (· ^ k) u)
  | .call f a => match ev n x ctx a with
    | .error e => .error e
    | .ok u => .ok (mapEV f u)
  | .interp R a => match ev n x ctx a with
    | .error e => .error e
    | .ok u => interpEV R u
  | .refD R a => match ev n x ctx a with
    | .error e => .error e
    | .ok u => refDEV R u
  | .intG mats dens => evIntG n x ctx (.sc 0) mats dens

/-- the loops over the children of sums and products (`symbolic/matrix.py:175-239`) -/
def evFold (n : Nat) (x : Nat → α) (ctx : String → Option (BV α)) (op : α → α → α) (acc : EV α) :
    List (ME α) → Except Err (EV α)
  | [] => .ok acc
  | c :: cs => match ev n x ctx c with
    | .error e => .error e
    | .ok u => match opEV op acc u with
      | .error e => .error e
      | .ok acc' => evFold n x ctx op acc' cs

/-- the loop over the densities and kernels of a layer potential (`symbolic/matrix.py:461-520`) -/
def evIntG (n : Nat) (x : Nat → α) (ctx : String → Option (BV α)) (acc : EV α) :
    List (Arr α) → List (ME α) → Except Err (EV α)
  | [], [] => .ok acc
  | R :: Rs, d :: ds => match ev n x ctx d with
    | .error e => .error e
    | .ok u => match applyEV R u with
      | .error e => .error e
      | .ok v => match opEV (· + ·) acc v with
        | .error e => .error e
        | .ok acc' => evIntG n x ctx acc' Rs ds
  | _, _ => .error .type

end

mutual

/-- the chosen input does not occur -/
def noDep : ME α → Prop
  | .dep => False
  | .sum cs => noDepL cs
  | .prod cs => noDepL cs
  | .quot a b => noDep a ∧ noDep b
  | .pow a _ => noDep a
  | .call _ a => noDep a
  | .interp _ a => noDep a
  | .refD _ a => noDep a
  | .intG _ ds => noDepL ds
  | _ => True

/-- `noDep` for every member of a list -/
def noDepL : List (ME α) → Prop
  | [] => True
  | c :: cs => noDep c ∧ noDepL cs

end

/-- interpolation reproduces constants -/
def Resamples (R : Arr α) : Prop := ∀ i < R.rows, ∑ k ∈ range R.cols, R.get i k = 1

/-- literal numbers -/
def isNum : ME α → Prop
  | .num _ => True
  | _ => False

mutual

/-- The fragment of `C24_matrix_partial`: the chosen input does not occur under powers, a
quotient that contains it has a literal denominator, interpolations reproduce constants. -/
def Frag : ME α → Prop
  | .sum cs => FragL cs
  | .prod cs => FragL cs
  | .quot a b => Frag a ∧ Frag b ∧ ((noDep a ∧ noDep b) ∨ isNum b)
  | .pow a _ => Frag a ∧ noDep a
  | .call _ a => Frag a
  | .interp R a => Resamples R ∧ Frag a
  | .refD _ a => Frag a
  | .intG _ ds => FragL ds
  | _ => True

/-- `Frag` for every member of a list -/
def FragL : List (ME α) → Prop
  | [] => True
  | c :: cs => Frag c ∧ FragL cs

end

/-! ## Agreement -/

/-- a builder value agrees with a value at the input `x` -/
def Agrees (n : Nat) (x : Nat → α) : BV α → EV α → Prop
  | .sc a, .sc b => b = a
  | .sc a, .ve k f => ∀ i < k, f i = a
  | .ve k f, .ve k' g => k' = k ∧ ∀ i < k, g i = f i
  | .ma m n' M, .ve m' g => m' = m ∧ n' = n ∧ ∀ i < m, g i = ∑ j ∈ range n, M i j * x j
  | _, _ => False

theorem isZero_iff (v : BV α) : isZero v = true ↔ v = .sc 0 := by
  cases v <;> simp [isZero]

/-- one step of a sum -/
theorem agrees_add {n : Nat} {x : Nat → α} {a b c : BV α} {u v w : EV α}
    (ha : Agrees n x a u) (hb : Agrees n x b v) (hk : kindOf a = kindOf b ∨ a = .sc 0)
    (hc : addBV a b = .ok c) (hw : opEV (· + ·) u v = .ok w) : Agrees n x c w := by
  cases a <;> cases b <;> cases u <;> cases v <;> simp only [Agrees] at ha hb <;>
    simp only [addBV, opEV] at hc hw <;> try (simp [kindOf] at hk; done)
  all_goals (try split at hc) <;> (try split at hw) <;> simp_all [Agrees]
  all_goals first
    | (obtain ⟨rfl⟩ := hc; obtain ⟨rfl⟩ := hw; simp_all [Agrees]; done)
    | (subst hc; subst hw; simp_all [Agrees]; done)
    | skip
  all_goals
    subst hc; subst hw
    simp only [kindOf, reduceCtorEq, false_or] at hk
    simp_all [Finset.sum_add_distrib, add_mul]

/-- adding a zero term -/
theorem agrees_add_zero {n : Nat} {x : Nat → α} {a : BV α} {u v w : EV α}
    (ha : Agrees n x a u) (hb : Agrees n x (.sc 0) v)
    (hw : opEV (· + ·) u v = .ok w) : Agrees n x a w := by
  cases a <;> cases u <;> cases v <;> simp only [Agrees] at ha hb <;>
    simp only [opEV] at hw
  all_goals (try split at hw) <;> simp_all [Agrees]
  all_goals
    subst hw
    simp_all

/-- the state of the product loop agrees with the product so far -/
def ProdInv (n : Nat) (x : Nat → α) : Option (Arr α) → BV α → EV α → Prop
  | none, .sc a, u => Agrees n x (.sc a) u
  | none, .ve k f, u => Agrees n x (.ve k f) u
  | some M, .sc a, .ve m g => m = M.rows ∧ M.cols = n ∧
      ∀ i < m, g i = (∑ j ∈ range n, M.get i j * x j) * a
  | some M, .ve k f, .ve m g => m = M.rows ∧ k = M.rows ∧ M.cols = n ∧
      ∀ i < m, g i = (∑ j ∈ range n, M.get i j * x j) * f i
  | _, _, _ => False

theorem prodInv_end {n : Nat} {x : Nat → α} {mat : Option (Arr α)} {acc c : BV α} {u : EV α}
    (h : ProdInv n x mat acc u)
    (hc : (match mat with | none => Except.ok acc | some M => scaleMat M.rows M.cols M.get acc) =
      .ok c) : Agrees n x c u := by
  cases mat with
  | none =>
    simp only [Except.ok.injEq] at hc
    subst hc
    cases acc <;> simp only [ProdInv] at h
    · exact h
    · exact h
  | some M =>
    cases acc <;> cases u <;> simp only [ProdInv, scaleMat] at h hc
    · cases hc
      refine ⟨h.1, h.2.1, ?_⟩
      intro i hi
      rw [h.2.2 i (by omega), Finset.sum_mul]
      exact Finset.sum_congr rfl (fun j _ => by ring)
    · rw [if_pos h.2.1] at hc
      cases hc
      refine ⟨h.1, h.2.2.1, ?_⟩
      intro i hi
      rw [h.2.2.2 i (by omega), Finset.sum_mul]
      exact Finset.sum_congr rfl (fun j _ => by ring)

theorem prodInv_vs {n : Nat} {x : Nat → α} {mat : Option (Arr α)} {acc b acc' : BV α} {u v w : EV α}
    (h : ProdInv n x mat acc u) (hb : Agrees n x b v) (hm : mulVS acc b = .ok acc')
    (hw : opEV (· * ·) u v = .ok w) : ProdInv n x mat acc' w := by
  cases mat with
  | none =>
    cases acc <;> cases b <;> cases u <;> cases v <;>
      simp only [ProdInv, Agrees] at h hb <;> simp only [mulVS, opEV] at hm hw
    all_goals (try split at hm) <;> (try split at hw) <;> simp_all [ProdInv, Agrees]
    all_goals
      subst hm; subst hw
      simp_all
  | some M =>
    cases acc <;> cases b <;> cases u <;> cases v <;>
      simp only [ProdInv, Agrees] at h hb <;> simp only [mulVS, opEV] at hm hw
    all_goals (try split at hm) <;> (try split at hw) <;> simp_all [ProdInv, Agrees]
    all_goals
      subst hm; subst hw
      simp_all [mul_assoc]

theorem prodInv_mat {n : Nat} {x : Nat → α} {acc : BV α} {m k : Nat} {f : Nat → Nat → α} {u v w : EV α}
    (h : ProdInv n x none acc u) (hb : Agrees n x (.ma m k f) v)
    (hw : opEV (· * ·) u v = .ok w) : ProdInv n x (some ⟨m, k, f⟩) acc w := by
  cases acc <;> cases u <;> cases v <;>
    simp only [ProdInv, Agrees] at h hb <;> simp only [opEV] at hw
  all_goals (try split at hw) <;> simp_all [ProdInv, Agrees]
  all_goals
    subst hw
    simp_all [mul_comm]

/-- zero values -/
def IsZ : EV α → Prop
  | .sc a => a = 0
  | .ve k f => ∀ i < k, f i = 0

theorem isZ_of_agrees {n : Nat} {x : Nat → α} {v : EV α} (h : Agrees n x (.sc 0) v) : IsZ v := by
  cases v <;> simpa [Agrees, IsZ] using h

theorem agrees_of_isZ {n : Nat} {x : Nat → α} {v : EV α} (h : IsZ v) : Agrees n x (.sc 0) v := by
  cases v <;> simpa [Agrees, IsZ] using h

theorem isZ_mul {u v w : EV α} (h : IsZ u ∨ IsZ v) (hw : opEV (· * ·) u v = .ok w) : IsZ w := by
  cases u <;> cases v <;> simp only [opEV] at hw
  all_goals (try split at hw) <;> simp_all [IsZ]
  all_goals
    subst hw
    rcases h with h | h <;> simp_all [IsZ]

theorem isZ_fold (n : Nat) (x : Nat → α) (ctx : String → Option (BV α)) (cs : List (ME α))
    (acc v : EV α) (h : IsZ acc) (hv : evFold n x ctx (· * ·) acc cs = .ok v) : IsZ v := by
  induction cs generalizing acc with
  | nil => simp only [evFold] at hv; cases hv; exact h
  | cons c cs ih =>
    simp only [evFold] at hv
    split at hv
    · cases hv
    · split at hv
      · cases hv
      · rename_i hop
        exact ih _ (isZ_mul (Or.inl h) hop) hv

theorem isZ_apply {R : Arr α} {v w : EV α} (h : IsZ v) (hw : applyEV R v = .ok w) : IsZ w := by
  cases v with
  | sc a =>
    simp only [applyEV] at hw
    cases hw
    intro i hi
    have h0 : a = 0 := h
    simp [h0]
  | ve k f =>
    simp only [applyEV] at hw
    split at hw
    · cases hw
      intro i hi
      apply Finset.sum_eq_zero
      intro l hl
      rw [h l (Finset.mem_range.1 hl), mul_zero]
    · cases hw

theorem agrees_matMul {n : Nat} {x : Nat → α} {R : Arr α} {m k : Nat} {f : Nat → Nat → α} {c : BV α}
    {v w : EV α} (hb : Agrees n x (.ma m k f) v) (hc : matMul R m k f = .ok c)
    (hw : applyEV R v = .ok w) : Agrees n x c w := by
  cases v with
  | sc a => simp [Agrees] at hb
  | ve m' g =>
  simp only [Agrees] at hb
  obtain ⟨rfl, rfl, h⟩ := hb
  simp only [matMul, applyEV] at hc hw
  split at hc
  · rename_i hcols
    rw [if_pos hcols] at hw
    cases hc; cases hw
    refine ⟨rfl, rfl, ?_⟩
    intro i hi
    dsimp only
    have : ∀ l ∈ range m', R.get i l * g l = ∑ j ∈ range k, R.get i l * (f l j * x j) := by
      intro l hl
      rw [← Finset.mul_sum]
      exact congrArg _ (h l (Finset.mem_range.1 hl))
    rw [Finset.sum_congr rfl this, Finset.sum_comm]
    apply Finset.sum_congr rfl
    intro j _
    rw [Finset.sum_mul]
    exact Finset.sum_congr rfl (fun l _ => by ring)
  · cases hc

theorem agrees_interp {n : Nat} {x : Nat → α} {R : Arr α} (hR : Resamples R) {b c : BV α}
    {v w : EV α} (hb : Agrees n x b v) (hc : interpBV R b = .ok c)
    (hw : interpEV R v = .ok w) : Agrees n x c w := by
  cases b with
  | sc a =>
    simp only [interpBV] at hc
    cases hc
    cases v with
    | sc b => simp only [interpEV] at hw; cases hw; exact hb
    | ve k f =>
      simp only [interpEV, applyEV] at hw
      split at hw
      · rename_i hk
        cases hw
        intro i hi
        have : ∀ l ∈ range k, R.get i l * f l = R.get i l * a := by
          intro l hl
          rw [hb l (Finset.mem_range.1 hl)]
        dsimp only
        rw [Finset.sum_congr rfl this, ← Finset.sum_mul, ← hk, hR i hi, one_mul]
      · cases hw
  | ve k f => simp [interpBV] at hc
  | ma m k f =>
    cases v with
    | sc b => simp [Agrees] at hb
    | ve k' g => exact agrees_matMul hb hc hw
  | oth k f => simp [interpBV] at hc

theorem agrees_refD {n : Nat} {x : Nat → α} {R : Arr α} {b c : BV α} {v w : EV α} (hb : Agrees n x b v)
    (hc : refDBV R b = .ok c) (hw : refDEV R v = .ok w) : Agrees n x c w := by
  cases b with
  | sc a => simp [refDBV] at hc
  | oth k f => simp [refDBV] at hc
  | ma m k f => simp [refDBV] at hc
  | ve k f =>
    cases v with
    | sc b => simp [refDEV] at hw
    | ve k' g =>
      obtain ⟨rfl, hg⟩ := hb
      simp only [refDBV] at hc
      simp only [refDEV, applyEV] at hw
      split at hc
      · rename_i hk
        rw [if_pos hk] at hw
        cases hc; cases hw
        refine ⟨rfl, fun i _ => Finset.sum_congr rfl fun l hl => ?_⟩
        rw [hg l (Finset.mem_range.1 hl)]
      · cases hc

theorem agrees_call {n : Nat} {x : Nat → α} {h : α → α} {b c : BV α} {v : EV α}
    (hb : Agrees n x b v) (hc : callBV h b = .ok c) : Agrees n x c (mapEV h v) := by
  cases b <;> cases v <;> simp only [Agrees, callBV] at hb hc <;> cases hc <;>
    simp_all [Agrees, mapEV]

theorem agrees_pow {n : Nat} {x : Nat → α} {k : Nat} {b c : BV α} {v : EV α}
    (hb : Agrees n x b v) (hn : ∀ m l f, b ≠ .ma m l f) (hc : powBV k b = .ok c) :
    Agrees n x c (mapEV (· ^ k) v) := by
  cases b <;> cases v <;> simp only [Agrees, powBV] at hb hc <;> cases hc <;>
    first | (simp_all [Agrees, mapEV]; done) | exact absurd rfl (hn _ _ _)

theorem agrees_div {n : Nat} {x : Nat → α} {a b c : BV α} {u v w : EV α}
    (ha : Agrees n x a u) (hb : Agrees n x b v) (hna : ∀ m l f, a ≠ .ma m l f)
    (hnb : ∀ m l f, b ≠ .ma m l f) (hc : divBV a b = .ok c) (hw : opEV (· / ·) u v = .ok w) :
    Agrees n x c w := by
  cases a with
  | ma m l f => exact absurd rfl (hna _ _ _)
  | oth k f => cases u <;> simp [Agrees] at ha
  | sc a => cases b with
    | ma m l f => exact absurd rfl (hnb _ _ _)
    | oth k f => cases v <;> simp [Agrees] at hb
    | sc b =>
      cases u <;> cases v <;> simp only [Agrees] at ha hb <;> simp only [divBV, opEV] at hc hw
      all_goals (try split at hw) <;> simp_all [Agrees]
      all_goals subst hc; subst hw; simp_all
    | ve k f =>
      cases u <;> cases v <;> simp only [Agrees] at ha hb <;> simp only [divBV, opEV] at hc hw
      all_goals (try split at hw) <;> simp_all [Agrees]
      all_goals subst hc; subst hw; simp_all
  | ve k f => cases b with
    | ma m l f => exact absurd rfl (hnb _ _ _)
    | oth k f => cases v <;> simp [Agrees] at hb
    | sc b =>
      cases u <;> cases v <;> simp only [Agrees] at ha hb <;> simp only [divBV, opEV] at hc hw
      all_goals (try split at hw) <;> simp_all [Agrees]
      all_goals subst hc; subst hw; simp_all
    | ve k f =>
      cases u <;> cases v <;> simp only [Agrees] at ha hb <;> simp only [divBV, opEV] at hc hw
      all_goals (try split at hc) <;> (try split at hw) <;> simp_all [Agrees]
      all_goals subst hc; subst hw; simp_all

/-- division by a literal -/
theorem agrees_div_num {n : Nat} {x : Nat → α} {a c : BV α} {b : α} {u w : EV α}
    (ha : Agrees n x a u) (hc : divBV a (.sc b) = .ok c) (hw : opEV (· / ·) u (.sc b) = .ok w) :
    Agrees n x c w := by
  cases a <;> cases u <;> simp only [Agrees] at ha <;> simp only [divBV, opEV] at hc hw
  all_goals cases hc; cases hw; simp_all [Agrees]
  intro i hi
  rw [div_eq_mul_inv, Finset.sum_mul]
  exact Finset.sum_congr rfl (fun j _ => by ring)

/-- the context holds scalars and 1D arrays -/
def PlainCtx (ctx : String → Option (BV α)) : Prop :=
  ∀ s v, ctx s = some v → (∃ a, v = .sc a) ∨ ∃ n f, v = .ve n f

/-- not a matrix -/
def NotMat (v : BV α) : Prop := ∀ m l f, v ≠ .ma m l f

theorem notMat_add {a b c : BV α} (ha : NotMat a) (hb : NotMat b) (h : addBV a b = .ok c) :
    NotMat c := by
  cases a <;> cases b <;> simp only [addBV] at h <;> try split at h
  all_goals first
    | exact absurd rfl (ha _ _ _)
    | exact absurd rfl (hb _ _ _)
    | (cases h <;> (intro m l f hh; cases hh))

theorem notMat_mulVS {a b c : BV α} (h : mulVS a b = .ok c) : NotMat c := by
  cases a <;> cases b <;> simp only [mulVS] at h <;> try split at h
  all_goals (cases h <;> (intro m l f hh; cases hh))

theorem notMat_div {a b c : BV α} (ha : NotMat a) (hb : NotMat b) (h : divBV a b = .ok c) :
    NotMat c := by
  cases a <;> cases b <;> simp only [divBV] at h <;> try split at h
  all_goals first
    | exact absurd rfl (ha _ _ _)
    | exact absurd rfl (hb _ _ _)
    | (cases h <;> (intro m l f hh; cases hh))

section
variable (n : Nat) (ctx : String → Option (BV α)) (hctx : PlainCtx ctx)
include hctx

mutual

theorem build_noDep : ∀ (e : ME α) (v : BV α), noDep e → build n ctx e = .ok v → NotMat v
  | .dep, _, h, _ => absurd h (by simp [noDep])
  | .otherDep _, v, _, h => by
    simp only [build] at h; cases h; intro m l f hh; cases hh
  | .var s, v, _, h => by
    simp only [build] at h
    cases hs : ctx s with
    | none => rw [hs] at h; cases h
    | some w =>
      rw [hs] at h; cases h
      rcases hctx s _ hs with ⟨a, rfl⟩ | ⟨k, f, rfl⟩ <;> (intro m l f hh; cases hh)
  | .num a, v, _, h => by
    simp only [build] at h; cases h; intro m l f hh; cases hh
  | .coord k g, v, _, h => by
    simp only [build] at h; cases h; intro m l f hh; cases hh
  | .sum cs, v, hd, h => by
    simp only [build] at h
    exact buildSum_noDep cs none (.sc 0) v (by simpa [noDep] using hd)
      (by intro m l f hh; cases hh) h
  | .prod cs, v, hd, h => by
    simp only [build] at h
    exact buildProd_noDep cs (.sc 1) v (by simpa [noDep] using hd)
      (by intro m l f hh; cases hh) h
  | .quot a b, v, hd, h => by
    simp only [noDep] at hd
    simp only [build] at h
    cases ha : build n ctx a with
    | error e => rw [ha] at h; cases h
    | ok x =>
      rw [ha] at h
      dsimp only at h
      cases hb : build n ctx b with
      | error e => rw [hb] at h; cases h
      | ok y =>
        rw [hb] at h
        exact notMat_div (build_noDep a x hd.1 ha) (build_noDep b y hd.2 hb) h
  | .pow a k, v, hd, h => by
    simp only [noDep] at hd
    simp only [build] at h
    cases ha : build n ctx a with
    | error e => rw [ha] at h; cases h
    | ok x =>
      rw [ha] at h
      have := build_noDep a x hd ha
      cases x with
      | ma m l f => exact absurd rfl (this _ _ _)
      | _ => simp only [powBV] at h; cases h; intro m l f hh; cases hh
  | .call g a, v, hd, h => by
    simp only [noDep] at hd
    simp only [build] at h
    cases ha : build n ctx a with
    | error e => rw [ha] at h; cases h
    | ok x =>
      rw [ha] at h
      cases x <;> simp only [callBV] at h <;> cases h <;> (intro m l f hh; cases hh)
  | .interp R a, v, hd, h => by
    simp only [noDep] at hd
    simp only [build] at h
    cases ha : build n ctx a with
    | error e => rw [ha] at h; cases h
    | ok x =>
      rw [ha] at h
      have := build_noDep a x hd ha
      cases x with
      | ma m l f => exact absurd rfl (this _ _ _)
      | sc a => simp only [interpBV] at h; cases h; intro m l f hh; cases hh
      | _ => simp [interpBV] at h
  | .refD R a, v, hd, h => by
    simp only [build] at h
    cases ha : build n ctx a with
    | error e => rw [ha] at h; cases h
    | ok x =>
      rw [ha] at h
      cases x with
      | ve k g =>
        simp only [refDBV] at h
        split at h
        · cases h; intro m l f hh; cases hh
        · cases h
      | _ => simp [refDBV] at h
  | .intG Rs ds, v, hd, h => by
    simp only [build] at h
    exact buildIntG_noDep ds Rs (.sc 0) v (by simpa [noDep] using hd)
      (by intro m l f hh; cases hh) h

theorem buildSum_noDep : ∀ (cs : List (ME α)) (k : Option Kind) (acc v : BV α), noDepL cs →
    NotMat acc → buildSum n ctx k acc cs = .ok v → NotMat v
  | [], _, _, _, _, ha, h => by simp only [buildSum] at h; cases h; exact ha
  | c :: cs, k, acc, v, hd, ha, h => by
    simp only [noDepL] at hd
    simp only [buildSum] at h
    cases hc : build n ctx c with
    | error e => rw [hc] at h; cases h
    | ok x =>
      rw [hc] at h
      dsimp only at h
      split at h
      · exact buildSum_noDep cs k acc v hd.2 ha h
      · split at h
        · cases h
        · split at h
          · cases h
          · rename_i hadd
            exact buildSum_noDep cs _ _ v hd.2 (notMat_add ha (build_noDep c x hd.1 hc) hadd) h

theorem buildProd_noDep : ∀ (cs : List (ME α)) (acc v : BV α), noDepL cs →
    NotMat acc → buildProd n ctx none acc cs = .ok v → NotMat v
  | [], _, _, _, ha, h => by simp only [buildProd] at h; cases h; exact ha
  | c :: cs, acc, v, hd, ha, h => by
    simp only [noDepL] at hd
    simp only [buildProd] at h
    cases hc : build n ctx c with
    | error e => rw [hc] at h; cases h
    | ok x =>
      rw [hc] at h
      dsimp only at h
      split at h
      · cases h; intro m l f hh; cases hh
      · have hx := build_noDep c x hd.1 hc
        cases x with
        | ma m l f => exact absurd rfl (hx _ _ _)
        | oth k f => exact buildProd_noDep cs acc v hd.2 ha h
        | sc a =>
          dsimp only at h
          split at h
          · cases h
          · rename_i hm
            exact buildProd_noDep cs _ v hd.2 (notMat_mulVS hm) h
        | ve k f =>
          dsimp only at h
          split at h
          · cases h
          · rename_i hm
            exact buildProd_noDep cs _ v hd.2 (notMat_mulVS hm) h

theorem buildIntG_noDep : ∀ (ds : List (ME α)) (Rs : List (Arr α)) (acc v : BV α), noDepL ds →
    NotMat acc → buildIntG n ctx acc Rs ds = .ok v → NotMat v
  | [], [], _, _, _, ha, h => by simp only [buildIntG] at h; cases h; exact ha
  | [], _ :: _, _, _, _, _, h => by simp [buildIntG] at h
  | _ :: _, [], _, _, _, _, h => by simp [buildIntG] at h
  | d :: ds, R :: Rs, acc, v, hd, ha, h => by
    simp only [noDepL] at hd
    simp only [buildIntG] at h
    cases hc : build n ctx d with
    | error e => rw [hc] at h; cases h
    | ok x =>
      rw [hc] at h
      dsimp only at h
      split at h
      · exact buildIntG_noDep ds Rs acc v hd.2 ha h
      · have hx := build_noDep d x hd.1 hc
        cases x with
        | ma m l f => exact absurd rfl (hx _ _ _)
        | _ => simp at h

end

end

section
variable (n : Nat) (x : Nat → α) (ctx : String → Option (BV α)) (hctx : PlainCtx ctx)
include hctx

mutual

theorem build_agrees : ∀ (e : ME α) (b : BV α) (v : EV α), Frag e → build n ctx e = .ok b →
    ev n x ctx e = .ok v → Agrees n x b v
  | .dep, b, v, _, hb, hv => by
    simp only [build, ev] at hb hv
    cases hb; cases hv
    refine ⟨rfl, rfl, ?_⟩
    intro i hi
    simp [Finset.mem_range.2 hi]
  | .otherDep k, b, v, _, hb, hv => by
    simp only [build, ev] at hb hv
    cases hb; cases hv
    intro i _; rfl
  | .var s, b, v, _, hb, hv => by
    simp only [build, ev] at hb hv
    cases hs : ctx s with
    | none => rw [hs] at hb; cases hb
    | some w =>
      rw [hs] at hb hv
      cases hb
      rcases hctx s _ hs with ⟨a, rfl⟩ | ⟨k, f, rfl⟩ <;>
        (simp only [ofBV] at hv; cases hv; simp [Agrees])
  | .num a, b, v, _, hb, hv => by
    simp only [build, ev] at hb hv
    cases hb; cases hv
    rfl
  | .coord k f, b, v, _, hb, hv => by
    simp only [build, ev] at hb hv
    cases hb; cases hv
    exact ⟨rfl, fun _ _ => rfl⟩
  | .sum cs, b, v, hf, hb, hv => by
    simp only [build, ev] at hb hv
    exact buildSum_agrees cs none (.sc 0) b (.sc 0) v (by simpa [Frag] using hf) rfl
      (Or.inr rfl) hb hv
  | .prod cs, b, v, hf, hb, hv => by
    simp only [build, ev] at hb hv
    exact buildProd_agrees cs none (.sc 1) b (.sc 1) v (by simpa [Frag] using hf) rfl hb hv
  | .quot a c, b, v, hf, hb, hv => by
    simp only [Frag] at hf
    obtain ⟨hfa, hfc, hcase⟩ := hf
    simp only [build, ev] at hb hv
    cases ha : build n ctx a with
    | error e => rw [ha] at hb; cases hb
    | ok y =>
      rw [ha] at hb
      dsimp only at hb
      cases hc : build n ctx c with
      | error e => rw [hc] at hb; cases hb
      | ok z =>
        rw [hc] at hb
        dsimp only at hb
        cases hea : ev n x ctx a with
        | error e => rw [hea] at hv; cases hv
        | ok u =>
          rw [hea] at hv
          dsimp only at hv
          cases hec : ev n x ctx c with
          | error e => rw [hec] at hv; cases hv
          | ok w =>
            rw [hec] at hv
            dsimp only at hv
            have h1 := build_agrees a y u hfa ha hea
            rcases hcase with ⟨na, nc⟩ | hnum
            · have h2 := build_agrees c z w hfc hc hec
              exact agrees_div h1 h2 (build_noDep n ctx hctx a y na ha)
                (build_noDep n ctx hctx c z nc hc) hb hv
            · cases c <;> simp only [isNum] at hnum
              simp only [build, ev] at hc hec
              cases hc; cases hec
              exact agrees_div_num h1 hb hv
  | .pow a k, b, v, hf, hb, hv => by
    simp only [Frag] at hf
    simp only [build, ev] at hb hv
    cases ha : build n ctx a with
    | error e => rw [ha] at hb; cases hb
    | ok y =>
      rw [ha] at hb
      cases hea : ev n x ctx a with
      | error e => rw [hea] at hv; cases hv
      | ok u =>
        rw [hea] at hv
        cases hv
        exact agrees_pow (build_agrees a y u hf.1 ha hea) (build_noDep n ctx hctx a y hf.2 ha) hb
  | .call g a, b, v, hf, hb, hv => by
    simp only [Frag] at hf
    simp only [build, ev] at hb hv
    cases ha : build n ctx a with
    | error e => rw [ha] at hb; cases hb
    | ok y =>
      rw [ha] at hb
      cases hea : ev n x ctx a with
      | error e => rw [hea] at hv; cases hv
      | ok u =>
        rw [hea] at hv
        cases hv
        exact agrees_call (build_agrees a y u hf ha hea) hb
  | .interp R a, b, v, hf, hb, hv => by
    simp only [Frag] at hf
    simp only [build, ev] at hb hv
    cases ha : build n ctx a with
    | error e => rw [ha] at hb; cases hb
    | ok y =>
      rw [ha] at hb
      cases hea : ev n x ctx a with
      | error e => rw [hea] at hv; cases hv
      | ok u =>
        rw [hea] at hv
        exact agrees_interp hf.1 (build_agrees a y u hf.2 ha hea) hb hv
  | .refD R a, b, v, hf, hb, hv => by
    simp only [Frag] at hf
    simp only [build, ev] at hb hv
    cases ha : build n ctx a with
    | error e => rw [ha] at hb; cases hb
    | ok y =>
      rw [ha] at hb
      cases hea : ev n x ctx a with
      | error e => rw [hea] at hv; cases hv
      | ok u =>
        rw [hea] at hv
        exact agrees_refD (build_agrees a y u hf ha hea) hb hv
  | .intG Rs ds, b, v, hf, hb, hv => by
    simp only [build, ev] at hb hv
    exact buildIntG_agrees ds Rs (.sc 0) b (.sc 0) v (by simpa [Frag] using hf) rfl
      (Or.inr rfl) hb hv

theorem buildSum_agrees : ∀ (cs : List (ME α)) (k : Option Kind) (acc b : BV α) (u v : EV α),
    FragL cs → Agrees n x acc u → (k = some (kindOf acc) ∨ acc = .sc 0) →
    buildSum n ctx k acc cs = .ok b → evFold n x ctx (· + ·) u cs = .ok v → Agrees n x b v
  | [], _, _, _, _, _, _, ha, _, hb, hv => by
    simp only [buildSum, evFold] at hb hv
    cases hb; cases hv; exact ha
  | c :: cs, k, acc, b, u, v, hf, ha, hk, hb, hv => by
    simp only [FragL] at hf
    simp only [buildSum, evFold] at hb hv
    cases hc : build n ctx c with
    | error e => rw [hc] at hb; cases hb
    | ok y =>
      rw [hc] at hb
      dsimp only at hb
      cases hec : ev n x ctx c with
      | error e => rw [hec] at hv; cases hv
      | ok t =>
        rw [hec] at hv
        dsimp only at hv
        have h1 := build_agrees c y t hf.1 hc hec
        cases hop : opEV (· + ·) u t with
        | error e => rw [hop] at hv; cases hv
        | ok u' =>
          rw [hop] at hv
          dsimp only at hv
          by_cases hz : isZero y = true
          · rw [if_pos hz] at hb
            rw [isZero_iff] at hz
            subst hz
            exact buildSum_agrees cs k acc b u' v hf.2 (agrees_add_zero ha h1 hop) hk hb hv
          · rw [if_neg hz] at hb
            split at hb
            · cases hb
            · rename_i hkind
              cases hadd : addBV acc y with
              | error e => rw [hadd] at hb; cases hb
              | ok acc' =>
                rw [hadd] at hb
                dsimp only at hb
                have hk' : kindOf acc = kindOf y ∨ acc = .sc 0 := by
                  rcases hk with rfl | rfl
                  · left
                    simpa using hkind
                  · exact Or.inr rfl
                have h2 := agrees_add ha h1 hk' hadd hop
                refine buildSum_agrees cs _ acc' b u' v hf.2 h2 ?_ hb hv
                left
                congr 1
                cases acc <;> cases y <;> simp only [addBV] at hadd <;>
                  (try split at hadd) <;> cases hadd <;> first
                    | rfl
                    | (simp [kindOf] at hk'; done)
  termination_by structural cs => cs

theorem buildProd_agrees : ∀ (cs : List (ME α)) (mat : Option (Arr α)) (acc b : BV α) (u v : EV α),
    FragL cs → ProdInv n x mat acc u →
    buildProd n ctx mat acc cs = .ok b → evFold n x ctx (· * ·) u cs = .ok v → Agrees n x b v
  | [], mat, acc, b, u, v, _, ha, hb, hv => by
    simp only [buildProd, evFold] at hb hv
    cases hv
    exact prodInv_end ha hb
  | c :: cs, mat, acc, b, u, v, hf, ha, hb, hv => by
    simp only [FragL] at hf
    simp only [buildProd, evFold] at hb hv
    cases hc : build n ctx c with
    | error e => rw [hc] at hb; cases hb
    | ok y =>
      rw [hc] at hb
      dsimp only at hb
      cases hec : ev n x ctx c with
      | error e => rw [hec] at hv; cases hv
      | ok t =>
        rw [hec] at hv
        dsimp only at hv
        have h1 := build_agrees c y t hf.1 hc hec
        cases hop : opEV (· * ·) u t with
        | error e => rw [hop] at hv; cases hv
        | ok u' =>
          rw [hop] at hv
          dsimp only at hv
          by_cases hz : isZero y = true
          · rw [if_pos hz] at hb
            cases hb
            rw [isZero_iff] at hz
            subst hz
            exact agrees_of_isZ (isZ_fold n x ctx cs u' v
              (isZ_mul (Or.inr (isZ_of_agrees h1)) hop) hv)
          · rw [if_neg hz] at hb
            cases y with
            | ma m l f =>
              dsimp only at hb
              cases mat with
              | some M => cases hb
              | none =>
                dsimp only at hb
                exact buildProd_agrees cs _ acc b u' v hf.2 (prodInv_mat ha h1 hop) hb hv
            | oth k f => cases t <;> simp [Agrees] at h1
            | sc a =>
              dsimp only at hb
              cases hm : mulVS acc (.sc a) with
              | error e => rw [hm] at hb; cases hb
              | ok acc' =>
                rw [hm] at hb
                exact buildProd_agrees cs mat acc' b u' v hf.2 (prodInv_vs ha h1 hm hop) hb hv
            | ve k f =>
              dsimp only at hb
              cases hm : mulVS acc (.ve k f) with
              | error e => rw [hm] at hb; cases hb
              | ok acc' =>
                rw [hm] at hb
                exact buildProd_agrees cs mat acc' b u' v hf.2 (prodInv_vs ha h1 hm hop) hb hv
  termination_by structural cs => cs

theorem buildIntG_agrees : ∀ (ds : List (ME α)) (Rs : List (Arr α)) (acc b : BV α) (u v : EV α),
    FragL ds → Agrees n x acc u → (kindOf acc = .matrix ∨ acc = .sc 0) →
    buildIntG n ctx acc Rs ds = .ok b → evIntG n x ctx u Rs ds = .ok v → Agrees n x b v
  | [], [], _, _, _, _, _, ha, _, hb, hv => by
    simp only [buildIntG, evIntG] at hb hv
    cases hb; cases hv; exact ha
  | [], _ :: _, _, _, _, _, _, _, _, hb, _ => by simp [buildIntG] at hb
  | _ :: _, [], _, _, _, _, _, _, _, hb, _ => by simp [buildIntG] at hb
  | d :: ds, R :: Rs, acc, b, u, v, hf, ha, hk, hb, hv => by
    simp only [FragL] at hf
    simp only [buildIntG, evIntG] at hb hv
    cases hc : build n ctx d with
    | error e => rw [hc] at hb; cases hb
    | ok y =>
      rw [hc] at hb
      dsimp only at hb
      cases hec : ev n x ctx d with
      | error e => rw [hec] at hv; cases hv
      | ok t =>
        rw [hec] at hv
        dsimp only at hv
        have h1 := build_agrees d y t hf.1 hc hec
        cases hap : applyEV R t with
        | error e => rw [hap] at hv; cases hv
        | ok r =>
          rw [hap] at hv
          dsimp only at hv
          cases hop : opEV (· + ·) u r with
          | error e => rw [hop] at hv; cases hv
          | ok u' =>
            rw [hop] at hv
            dsimp only at hv
            by_cases hz : isZero y = true
            · rw [if_pos hz] at hb
              rw [isZero_iff] at hz
              subst hz
              have h2 : Agrees n x (.sc 0) r := agrees_of_isZ (isZ_apply (isZ_of_agrees h1) hap)
              exact buildIntG_agrees ds Rs acc b u' v hf.2 (agrees_add_zero ha h2 hop) hk hb hv
            · rw [if_neg hz] at hb
              cases y with
              | ma m l f =>
                dsimp only at hb
                cases hmm : matMul R m l f with
                | error e => rw [hmm] at hb; cases hb
                | ok z =>
                  rw [hmm] at hb
                  dsimp only at hb
                  have h2 := agrees_matMul h1 hmm hap
                  have hzk : kindOf z = .matrix := by
                    simp only [matMul] at hmm
                    split at hmm <;> cases hmm
                    rfl
                  cases hadd : addBV acc z with
                  | error e => rw [hadd] at hb; cases hb
                  | ok acc' =>
                    rw [hadd] at hb
                    dsimp only at hb
                    have hk' : kindOf acc = kindOf z ∨ acc = .sc 0 := by
                      rcases hk with hk | hk
                      · left; rw [hk, hzk]
                      · exact Or.inr hk
                    refine buildIntG_agrees ds Rs acc' b u' v hf.2
                      (agrees_add ha h2 hk' hadd hop) ?_ hb hv
                    left
                    cases acc <;> cases z <;> simp only [addBV] at hadd <;>
                      (try split at hadd) <;> cases hadd <;> first
                        | rfl
                        | (simp [kindOf] at hzk; done)
              | _ => simp at hb
  termination_by structural ds => ds

end

end

/-- C24: for every expression of the fragment and every context of numbers and 1D arrays,
a block that is built gives the value of the expression: the product of the matrix with the
input vector, or zero for the zero block.  Partial: see `Frag` and the four refutations. -/
theorem C24_matrix_partial (n : Nat) (ctx : String → Option (BV α)) (hctx : PlainCtx ctx)
    (e : ME α) (hf : Frag e) (b : Option (Arr α)) (hb : buildBlock n ctx e = .ok b)
    (x : Nat → α) (v : EV α) (hv : ev n x ctx e = .ok v) :
    match b with
    | none => IsZ v
    | some M => M.cols = n ∧ ∃ g, v = .ve M.rows g ∧
        ∀ i < M.rows, g i = ∑ j ∈ range n, M.get i j * x j := by
  unfold buildBlock at hb
  cases h : build n ctx e with
  | error y => rw [h] at hb; cases hb
  | ok y =>
    have ha := build_agrees n x ctx hctx e y v hf h hv
    rw [h] at hb
    cases y with
    | sc a =>
      dsimp only at hb
      split at hb
      · rename_i h0
        cases hb
        subst h0
        exact isZ_of_agrees ha
      · cases hb
    | ve k f => cases hb
    | oth k f => cases hb
    | ma m k f =>
      cases hb
      cases v with
      | sc a => simp [Agrees] at ha
      | ve m' g =>
        obtain ⟨rfl, rfl, h3⟩ := ha
        exact ⟨rfl, g, rfl, h3⟩

/-- C24: hence in the fragment whatever is accepted is linear: the value at a combination
of two inputs is the combination of the values. -/
theorem C24_linear_partial (n : Nat) (ctx : String → Option (BV α)) (hctx : PlainCtx ctx)
    (e : ME α) (hf : Frag e) (M : Arr α) (hb : buildBlock n ctx e = .ok (some M))
    (c d : α) (x y : Nat → α) (u v w : EV α) (hu : ev n x ctx e = .ok u)
    (hv : ev n y ctx e = .ok v) (hw : ev n (fun i => c * x i + d * y i) ctx e = .ok w) :
    ∃ f g h, u = .ve M.rows f ∧ v = .ve M.rows g ∧ w = .ve M.rows h ∧
      ∀ i < M.rows, h i = c * f i + d * g i := by
  obtain ⟨_, f, rfl, hf'⟩ := C24_matrix_partial n ctx hctx e hf _ hb x u hu
  obtain ⟨_, g, rfl, hg'⟩ := C24_matrix_partial n ctx hctx e hf _ hb y v hv
  obtain ⟨_, h, rfl, hh'⟩ := C24_matrix_partial n ctx hctx e hf _ hb _ w hw
  refine ⟨f, g, h, rfl, rfl, rfl, ?_⟩
  intro i hi
  rw [hf' i hi, hg' i hi, hh' i hi, Finset.mul_sum, Finset.mul_sum, ← Finset.sum_add_distrib]
  exact Finset.sum_congr rfl (fun j _ => by ring)

/-- C24: a product of two factors that both depend on the input is rejected, so is an
affine expression. -/
theorem C24_rejects (n : Nat) (ctx : String → Option (BV α)) (a : α) (ha : a ≠ 0) :
    buildBlock n ctx (.prod [.dep, .dep]) = .error .runtime ∧
    buildBlock n ctx (.sum [.dep, .num a]) = .error .runtime ∧
    buildBlock n ctx (.num a) = .error .assertion := by
  refine ⟨?_, ?_, ?_⟩
  · simp [buildBlock, build, buildProd, isZero]
  · simp [buildBlock, build, buildSum, isZero, kindOf, addBV, ha]
  · simp [buildBlock, build, ha]

theorem build_of_block {n : Nat} {ctx : String → Option (BV α)} {A : ME α} {M : Arr α}
    (h : buildBlock n ctx A = .ok (some M)) : build n ctx A = .ok (.ma M.rows M.cols M.get) := by
  unfold buildBlock at h
  split at h
  · cases h
  · split at h <;> cases h
  · cases h; assumption
  · cases h
  · cases h

/-- C24: more generally, a product of two expressions that depend on the input, a function of such an expression,
and the sum of such an expression and a number or an array from the context are rejected. -/
theorem C24_rejects_general (n : Nat) (ctx : String → Option (BV α)) (A B : ME α) (M N : Arr α)
    (hA : buildBlock n ctx A = .ok (some M)) (hB : buildBlock n ctx B = .ok (some N)) :
    buildBlock n ctx (.prod [A, B]) = .error .runtime ∧
    (∀ f, buildBlock n ctx (.call f A) = .error .runtime) ∧
    (∀ a, a ≠ 0 → buildBlock n ctx (.sum [A, .num a]) = .error .runtime ∧
      buildBlock n ctx (.sum [.num a, A]) = .error .runtime) ∧
    (∀ s k g, ctx s = some (.ve k g) → buildBlock n ctx (.sum [A, .var s]) = .error .runtime ∧
      buildBlock n ctx (.sum [.var s, A]) = .error .runtime) := by
  have hA := build_of_block hA
  have hB := build_of_block hB
  refine ⟨?_, ?_, ?_, ?_⟩
  · simp [buildBlock, build, buildProd, isZero, hA, hB]
  · intro f; simp [buildBlock, build, callBV, hA]
  · intro a ha
    exact ⟨by simp [buildBlock, build, buildSum, isZero, kindOf, addBV, ha, hA],
      by simp [buildBlock, build, buildSum, isZero, kindOf, addBV, ha, hA]⟩
  · intro s k g hs
    exact ⟨by simp [buildBlock, build, buildSum, isZero, kindOf, addBV, hA, hs],
      by simp [buildBlock, build, buildSum, isZero, kindOf, addBV, hA, hs]⟩

example : buildBlock (α := ℚ) 2 (fun _ => none) (.prod [.sum [.dep, .prod [.num 3, .dep]], .dep]) = .error .runtime :=
  (C24_rejects_general 2 (fun _ => none) _ _ _ _ rfl rfl).1

/-- C24 is false for powers: the square of the input is accepted and turned into the
identity matrix. -/
theorem C24_refuted_power : ∃ (M : Arr ℚ) (x : Nat → ℚ) (v : Nat → ℚ),
    buildBlock 1 (fun _ => none) (.pow .dep 2) = .ok (some M) ∧
    ev 1 x (fun _ => none) (.pow .dep 2) = .ok (.ve 1 v) ∧
    v 0 ≠ ∑ j ∈ range 1, M.get 0 j * x j := by
  refine ⟨⟨1, 1, fun i j => (if i = j then 1 else 0) ^ 2⟩, fun _ => 3, fun _ => 3 ^ 2, rfl, rfl, ?_⟩
  norm_num [Finset.sum_range_one]

/-- C24 is false for quotients: an operator result divided by a 1D array has its columns
divided instead of its rows. -/
theorem C24_refuted_quotient : ∃ (R M : Arr ℚ) (ctx : String → Option (BV ℚ)) (x v : Nat → ℚ),
    PlainCtx ctx ∧
    buildBlock 2 ctx (.quot (.intG [R] [.dep]) (.var "w")) = .ok (some M) ∧
    ev 2 x ctx (.quot (.intG [R] [.dep]) (.var "w")) = .ok (.ve 2 v) ∧
    v 0 ≠ ∑ j ∈ range 2, M.get 0 j * x j := by
  refine ⟨⟨2, 2, fun _ _ => 1⟩, _, fun _ => some (.ve 2 (fun i => i + 1)), fun _ => 1, _,
    ?_, rfl, rfl, ?_⟩
  · intro s v hv; cases hv; exact Or.inr ⟨_, _, rfl⟩
  · norm_num [Finset.sum_range_succ]

/-- C24 is false for context values that are not NumPy arrays or numbers: a factor that is
a `DOFArray` is silently left out of a product. -/
theorem C24_refuted_dofarray : ∃ (M : Arr ℚ) (ctx : String → Option (BV ℚ)) (x v : Nat → ℚ),
    buildBlock 1 ctx (.prod [.var "w", .dep]) = .ok (some M) ∧
    ev 1 x ctx (.prod [.var "w", .dep]) = .ok (.ve 1 v) ∧
    v 0 ≠ ∑ j ∈ range 1, M.get 0 j * x j := by
  refine ⟨_, fun _ => some (.oth 1 (fun _ => 5)), fun _ => 1, _, rfl, rfl, ?_⟩
  norm_num [Finset.sum_range_succ]

/-- non-vacuity: half the input plus a layer potential of the input, times a 1D array -/
example : ∃ (ctx : String → Option (BV ℚ)) (R : Arr ℚ) (b : Option (Arr ℚ)) (v : EV ℚ),
    let e : ME ℚ := .sum [.quot .dep (.num 2), .prod [.var "w", .intG [R] [.dep]]]
    PlainCtx ctx ∧ Frag e ∧ buildBlock 2 ctx e = .ok b ∧ ev 2 (fun _ => 3) ctx e = .ok v := by
  refine ⟨fun _ => some (.ve 2 (fun i => i + 1)), ⟨2, 2, fun _ _ => 1⟩, _, _, ?_, ?_, rfl, rfl⟩
  · intro s v hv; cases hv; exact Or.inr ⟨_, _, rfl⟩
  · simp [Frag, FragL, isNum]

end Verif.MatBuild
