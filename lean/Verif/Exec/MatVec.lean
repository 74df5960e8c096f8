import Mathlib.Tactic.Common

/-!
# Wrapping bound operators for solvers (C22)

Model of `MatVecOp` (`pytential/symbolic/execution.py:474-566`) and
`BoundExpression.scipy_op` (`execution.py:810-854`).

A `DOFArray` is a list of groups, a group a list of elements, an element the list of its
nodal values; a discretization is known by the list of (number of elements, nodes per
element) of its groups.  Values are any type; the bound expression is an arbitrary
function that may raise.
-/

namespace Verif.MatVec

/-- `DOFArray`: groups, elements, unit DOFs -/
abbrev DOFArr (α : Type) := List (List (List α))

/-- group sizes of a discretization -/
abbrev Discr := List (Nat × Nat)

/-- `discr.ndofs` -/
def ndofs (d : Discr) : Nat := (d.map (fun g => g.1 * g.2)).sum

/-- `x` lives on `d` -/
def HasShape {α : Type} : Discr → DOFArr α → Prop
  | [], [] => True
  | (ne, nd) :: d, g :: x => g.length = ne ∧ (∀ el ∈ g, el.length = nd) ∧ HasShape d x
  | _, _ => False

/-- arguments and results of the bound expression: one component or an object array -/
inductive Val (α : Type)
  | one (x : DOFArr α)
  | many (xs : List (DOFArr α))

/-- the exceptions raised when the operator is applied (`execution.py:474-566`) -/
inductive Err | value | assertion | index | eval
  deriving DecidableEq, Repr

/-- `arraycontext.flatten` of a `DOFArray` (called in `execution.py:513`) -/
def flattenD {α : Type} (x : DOFArr α) : List α := (x.map List.flatten).flatten

/-- cut a list into `n` pieces of length `k` -/
def chunks {α : Type} (k : Nat) : Nat → List α → List (List α)
  | 0, _ => []
  | n + 1, xs => xs.take k :: chunks k n (xs.drop k)

/-- `arraycontext.unflatten` with the nodes of the discretization as template
(`execution.py:524-529`) -/
def unflattenD {α : Type} : Discr → List α → DOFArr α
  | [], _ => []
  | (ne, nd) :: d, v => chunks nd ne (v.take (ne * nd)) :: unflattenD d (v.drop (ne * nd))

/-- the loop of `scipy_op` over the domains (`execution.py:832-846`): ranges and total -/
def startsAndEnds : Nat → List Nat → List (Nat × Nat) × Nat
  | total, [] => ([], total)
  | total, s :: ss =>
    ((total, total + s) :: (startsAndEnds (total + s) ss).1, (startsAndEnds (total + s) ss).2)

/-- `MatVecOp`: the fields the methods use (`execution.py:486-493`) -/
structure Op (α : Type) where
  boundExpr : Val α → Except Err (Val α)
  totalDofs : Nat
  discrs : List Discr
  ranges : List (Nat × Nat)

/-- `scipy_op` (`execution.py:810-854`) for the given discretizations of the domains -/
def scipyOp {α : Type} (f : Val α → Except Err (Val α)) (discrs : List Discr) : Op α :=
  ⟨f, (startsAndEnds 0 (discrs.map ndofs)).2, discrs, (startsAndEnds 0 (discrs.map ndofs)).1⟩

/-- `_operator_uses_obj_array` (`execution.py:499-501`) -/
def Op.usesObjArray {α : Type} (o : Op α) : Bool := o.discrs.length > 1

/-- `result[start:end] = flat`; a length mismatch raises -/
def assign {α : Type} (result : List α) (r : Nat × Nat) (flat : List α) : Except Err (List α) :=
  if r.2 - r.1 = flat.length then .ok (result.take r.1 ++ flat ++ result.drop r.2)
  else .error .value

/-- the loop of `flatten` (`execution.py:511-514`), `zip(..., strict=True)` -/
def flattenLoop {α : Type} : List (List α) → List (Nat × Nat) → List α → Except Err (List α)
  | [], [], result => .ok result
  | x :: xs, r :: rs, result =>
    match assign result r x with
    | .error e => .error e
    | .ok result' => flattenLoop xs rs result'
  | _, _, _ => .error .value

/-- the flat components `flatten` loops over: the value itself is wrapped in a list unless
the operator uses object arrays (`execution.py:506-508`); flattening an object array that
was wrapped in a list concatenates its components. -/
def Op.components {α : Type} (o : Op α) : Val α → List (List α)
  | .one x => if o.usesObjArray then x.map List.flatten else [flattenD x]
  | .many xs => if o.usesObjArray then xs.map flattenD else [(xs.map flattenD).flatten]

/-- `flatten` (`execution.py:503-516`); `zero` fills `array_context.zeros` -/
def Op.flatten {α : Type} (o : Op α) (zero : α) (v : Val α) : Except Err (List α) :=
  flattenLoop (o.components v) o.ranges (List.replicate o.totalDofs zero)

/-- one round of `unflatten` (`execution.py:521-531`) -/
def unflattenComp {α : Type} (ary : List α) (d : Discr) (r : Nat × Nat) : DOFArr α :=
  unflattenD d ((ary.take r.2).drop r.1)

/-- `unflatten` (`execution.py:518-537`) -/
def Op.unflatten {α : Type} (o : Op α) (ary : List α) : Except Err (Val α) :=
  if o.usesObjArray then .ok (.many (List.zipWith (unflattenComp ary) o.discrs o.ranges))
  else match List.zipWith (unflattenComp ary) o.discrs o.ranges with
    | [] => .error .index
    | c :: _ => .ok (.one c)

/-- the argument of `matvec`: flat or structured -/
inductive Arg (α : Type)
  | flat (v : List α)
  | structured (v : Val α)

/-- `matvec` (`execution.py:539-566`); host and device arrays are not told apart -/
def Op.matvec {α : Type} (o : Op α) (zero : α) : Arg α → Except Err (Arg α)
  | .structured v => match o.boundExpr v with
    | .error e => .error e
    | .ok r => .ok (.structured r)
  | .flat v =>
    if v.length ≠ o.totalDofs then .error .assertion
    else match o.unflatten v with
      | .error e => .error e
      | .ok a => match o.boundExpr a with
        | .error e => .error e
        | .ok r => match o.flatten zero r with
          | .error e => .error e
          | .ok w => .ok (.flat w)

/-! ## Proofs -/

theorem startsAndEnds_spec (ss : List Nat) (t : Nat) :
    (startsAndEnds t ss).2 = t + ss.sum ∧
    (startsAndEnds t ss).1.length = ss.length ∧
    (∀ i, i < ss.length → (startsAndEnds t ss).1[i]? =
      some (t + (ss.take i).sum, t + (ss.take (i + 1)).sum)) := by
  induction ss generalizing t with
  | nil => simp [startsAndEnds]
  | cons s ss ih =>
    obtain ⟨h1, h2, h3⟩ := ih (t + s)
    refine ⟨by simp [startsAndEnds, h1]; omega, by simp [startsAndEnds, h2], ?_⟩
    intro i hi
    cases i with
    | zero => simp [startsAndEnds]
    | succ i =>
      simp only [startsAndEnds, List.getElem?_cons_succ, List.take_succ_cons, List.sum_cons]
      rw [h3 i (by simpa using hi)]
      simp [Nat.add_assoc]

/-- C22: the component ranges of the operator are consecutive, start at zero, have the
sizes of the discretizations and end at `shape[0]`. -/
theorem C22_ranges {α : Type} (f : Val α → Except Err (Val α)) (discrs : List Discr) :
    (scipyOp f discrs).ranges.length = discrs.length ∧
    (∀ s e, (scipyOp f discrs).ranges[0]? = some (s, e) → s = 0) ∧
    (∀ (i : Nat) s e s' e', (scipyOp f discrs).ranges[i]? = some (s, e) →
      (scipyOp f discrs).ranges[i + 1]? = some (s', e') → e = s') ∧
    (∀ (i : Nat) s e d, (scipyOp f discrs).ranges[i]? = some (s, e) → discrs[i]? = some d →
      e = s + ndofs d) ∧
    (∀ s e, (scipyOp f discrs).ranges.getLast? = some (s, e) → e = (scipyOp f discrs).totalDofs) ∧
    (scipyOp f discrs).totalDofs = (discrs.map ndofs).sum := by
  obtain ⟨h1, h2, h3⟩ := startsAndEnds_spec (discrs.map ndofs) 0
  have hlt : ∀ (i : Nat) p, (scipyOp f discrs).ranges[i]? = some p → i < (discrs.map ndofs).length := by
    intro i p hp
    obtain ⟨h, _⟩ := List.getElem?_eq_some_iff.1 hp
    simpa [scipyOp, h2] using h
  have hget : ∀ (i : Nat) s e, (scipyOp f discrs).ranges[i]? = some (s, e) →
      s = ((discrs.map ndofs).take i).sum ∧ e = ((discrs.map ndofs).take (i + 1)).sum := by
    intro i s e hp
    have := h3 i (hlt i _ hp)
    simp only [scipyOp] at hp
    rw [this] at hp
    simp only [Nat.zero_add, Option.some.injEq, Prod.mk.injEq] at hp
    exact ⟨hp.1.symm, hp.2.symm⟩
  refine ⟨by simp [scipyOp, h2], ?_, ?_, ?_, ?_, by simp [scipyOp, h1]⟩
  · intro s e h
    simpa using (hget 0 s e h).1
  · intro i s e s' e' h h'
    rw [(hget i s e h).2, (hget (i + 1) s' e' h').1]
  · intro i s e d h hd
    rw [(hget i s e h).1, (hget i s e h).2, List.take_add_one]
    simp [hd]
  · intro s e h
    rw [List.getLast?_eq_getElem?] at h
    have := (hget _ s e h).2
    have hl := hlt _ _ h
    rw [this]
    have : (scipyOp f discrs).ranges.length = (discrs.map ndofs).length := by simp [scipyOp, h2]
    rw [this] at hl ⊢
    rw [Nat.sub_add_cancel (by omega), List.take_length]
    simp [scipyOp, h1]

theorem chunks_flatten {α : Type} (k : Nat) : ∀ (n : Nat) (v : List α), v.length = n * k →
    (chunks k n v).flatten = v
  | 0, v, h => by
    have : v = [] := List.length_eq_zero_iff.1 (by simpa using h)
    simp [chunks, this]
  | n + 1, v, h => by
    rw [Nat.succ_mul] at h
    simp only [chunks, List.flatten_cons]
    rw [chunks_flatten k n (v.drop k) (by simp; omega), List.take_append_drop]

theorem chunks_of_flatten {α : Type} (k : Nat) (g : List (List α)) (h : ∀ el ∈ g, el.length = k) :
    chunks k g.length g.flatten = g := by
  induction g with
  | nil => simp [chunks]
  | cons el g ih =>
    have h0 : el.length = k := h el (by simp)
    simp only [List.length_cons, chunks, List.flatten_cons]
    rw [List.take_left' h0, List.drop_left' h0, ih (fun e he => h e (by simp [he]))]

theorem length_flatten_group {α : Type} (k : Nat) (g : List (List α))
    (h : ∀ el ∈ g, el.length = k) : g.flatten.length = g.length * k := by
  induction g with
  | nil => simp
  | cons el g ih =>
    simp only [List.flatten_cons, List.length_append, List.length_cons]
    rw [h el (by simp), ih (fun e he => h e (by simp [he])), Nat.succ_mul, Nat.add_comm]

theorem flattenD_length {α : Type} (d : Discr) (x : DOFArr α) (h : HasShape d x) :
    (flattenD x).length = ndofs d := by
  induction d generalizing x with
  | nil => cases x with
    | nil => rfl
    | cons _ _ => cases h
  | cons g d ih =>
    obtain ⟨ne, nd⟩ := g
    cases x with
    | nil => cases h
    | cons g x =>
      obtain ⟨h1, h2, h3⟩ := h
      have := ih x h3
      simp only [flattenD, ndofs, List.map_cons, List.flatten_cons, List.length_append,
        List.sum_cons] at this ⊢
      rw [this, length_flatten_group nd g h2, h1]

theorem unflattenD_flattenD {α : Type} (d : Discr) (x : DOFArr α) (h : HasShape d x) :
    unflattenD d (flattenD x) = x := by
  induction d generalizing x with
  | nil => cases x with
    | nil => rfl
    | cons _ _ => cases h
  | cons g d ih =>
    obtain ⟨ne, nd⟩ := g
    cases x with
    | nil => cases h
    | cons g x =>
      obtain ⟨h1, h2, h3⟩ := h
      have hl : g.flatten.length = ne * nd := by rw [length_flatten_group nd g h2, h1]
      have h' := ih x h3
      simp only [flattenD] at h'
      simp only [flattenD, unflattenD, List.map_cons, List.flatten_cons]
      rw [List.take_left' hl, List.drop_left' hl, h']
      have := chunks_of_flatten nd g h2
      rw [h1] at this
      rw [this]

theorem flattenD_unflattenD {α : Type} (d : Discr) (v : List α) (h : v.length = ndofs d) :
    flattenD (unflattenD d v) = v := by
  induction d generalizing v with
  | nil =>
    have : v = [] := List.length_eq_zero_iff.1 (by simpa [ndofs] using h)
    simp [unflattenD, flattenD, this]
  | cons g d ih =>
    obtain ⟨ne, nd⟩ := g
    simp only [ndofs, List.map_cons, List.sum_cons] at h
    have h' := ih (v.drop (ne * nd)) (by simp [ndofs]; omega)
    simp only [flattenD] at h'
    simp only [unflattenD, flattenD, List.map_cons, List.flatten_cons]
    rw [h', chunks_flatten nd ne _ (by simp; omega), List.take_append_drop]

theorem hasShape_unflattenD {α : Type} (d : Discr) (v : List α) (h : v.length = ndofs d) :
    HasShape d (unflattenD d v) := by
  have hch : ∀ (k n : Nat) (v : List α), v.length = n * k →
      (chunks k n v).length = n ∧ ∀ el ∈ chunks k n v, el.length = k := by
    intro k n
    induction n with
    | zero => intro v _; simp [chunks]
    | succ n ih =>
      intro v hv
      rw [Nat.succ_mul] at hv
      obtain ⟨a, b⟩ := ih (v.drop k) (by simp; omega)
      refine ⟨by simp [chunks, a], ?_⟩
      intro el hel
      simp only [chunks, List.mem_cons] at hel
      rcases hel with rfl | hel
      · simp; omega
      · exact b el hel
  induction d generalizing v with
  | nil => simp [unflattenD, HasShape]
  | cons g d ih =>
    obtain ⟨ne, nd⟩ := g
    simp only [ndofs, List.map_cons, List.sum_cons] at h
    obtain ⟨a, b⟩ := hch nd ne (v.take (ne * nd)) (by simp; omega)
    exact ⟨a, b, ih (v.drop (ne * nd)) (by simp [ndofs]; omega)⟩

/-- the loop writes the components one after the other -/
theorem flattenLoop_spec {α : Type} (xs : List (List α)) (pre suf : List α)
    (hs : suf.length = (xs.map List.length).sum) :
    flattenLoop xs (startsAndEnds pre.length (xs.map List.length)).1 (pre ++ suf) =
      .ok (pre ++ xs.flatten) := by
  induction xs generalizing pre suf with
  | nil =>
    have : suf = [] := List.length_eq_zero_iff.1 (by simpa using hs)
    simp [startsAndEnds, flattenLoop, this]
  | cons x xs ih =>
    simp only [List.map_cons, List.sum_cons] at hs
    simp only [List.map_cons, startsAndEnds, flattenLoop, assign]
    rw [if_pos (by omega)]
    dsimp only
    have hd : (pre ++ suf).drop (pre.length + x.length) = suf.drop x.length := by
      rw [List.drop_append]; simp
    rw [List.take_left' rfl, hd]
    have := ih (pre ++ x) (suf.drop x.length) (by simp; omega)
    rw [List.length_append] at this
    rw [this]
    simp

/-- the components a structured value must have for the operator -/
def Fits {α : Type} (discrs : List Discr) : Val α → Prop
  | .one x => ∃ d, discrs = [d] ∧ HasShape d x
  | .many xs => 1 < discrs.length ∧ List.Forall₂ HasShape discrs xs

/-- concatenation of the components -/
def concat {α : Type} : Val α → List α
  | .one x => flattenD x
  | .many xs => (xs.map flattenD).flatten

theorem lengths_of_forall2 {α : Type} {ds : List Discr} {xs : List (DOFArr α)}
    (h : List.Forall₂ HasShape ds xs) : (xs.map flattenD).map List.length = ds.map ndofs := by
  induction h with
  | nil => rfl
  | cons h _ ih =>
    simp only [List.map_cons, ih, flattenD_length _ _ h]

theorem flatten_concat {α : Type} (f : Val α → Except Err (Val α)) (discrs : List Discr) (zero : α)
    (x : Val α) (h : Fits discrs x) :
    (scipyOp f discrs).flatten zero x = .ok (concat x) := by
  cases x with
  | one x =>
    obtain ⟨d, rfl, hd⟩ := h
    have hl := flattenD_length d x hd
    have := flattenLoop_spec [flattenD x] [] (List.replicate (ndofs d) zero) (by simp [hl])
    simp only [List.map_cons, List.map_nil, List.length_nil, List.nil_append,
      List.flatten_cons, List.flatten_nil, List.append_nil, hl] at this
    simpa [Op.flatten, scipyOp, Op.components, Op.usesObjArray, startsAndEnds, concat] using this
  | many xs =>
    obtain ⟨h1, h2⟩ := h
    have hl := lengths_of_forall2 h2
    obtain ⟨s1, _, _⟩ := startsAndEnds_spec (discrs.map ndofs) 0
    have := flattenLoop_spec (xs.map flattenD) []
      (List.replicate (discrs.map ndofs).sum zero) (by simp only [hl]; simp)
    rw [hl] at this
    simp only [List.length_nil, List.nil_append] at this
    simp only [Op.flatten, scipyOp, Op.components, Op.usesObjArray, gt_iff_lt, h1, decide_true,
      if_true, s1, Nat.zero_add, concat]
    exact this

/-- cutting the concatenation at the ranges gives the components back -/
theorem zipWith_unflatten {α : Type} (ds : List Discr) (xs : List (DOFArr α))
    (h : List.Forall₂ HasShape ds xs) (pre : List α) :
    List.zipWith (unflattenComp (pre ++ (xs.map flattenD).flatten)) ds
      (startsAndEnds pre.length (ds.map ndofs)).1 = xs := by
  induction h generalizing pre with
  | nil => rfl
  | cons h _ ih =>
    rename_i d x ds xs _
    have hl := flattenD_length d x h
    simp only [List.map_cons, startsAndEnds, List.zipWith_cons_cons, List.flatten_cons]
    have h1 : unflattenComp (pre ++ (flattenD x ++ (xs.map flattenD).flatten)) d
        (pre.length, pre.length + ndofs d) = x := by
      unfold unflattenComp
      have : ((pre ++ (flattenD x ++ (xs.map flattenD).flatten)).take (pre.length + ndofs d)).drop
          pre.length = flattenD x := by
        rw [← hl, ← List.append_assoc, List.take_left' (by simp)]
        simp
      rw [this, unflattenD_flattenD d x h]
    have h2 := ih (pre ++ flattenD x)
    rw [List.length_append, hl, List.append_assoc] at h2
    rw [h1, h2]

/-- every flat vector of the right length is the concatenation of components that fit -/
theorem exists_components {α : Type} (ds : List Discr) (v : List α)
    (h : v.length = (ds.map ndofs).sum) :
    ∃ xs : List (DOFArr α), List.Forall₂ HasShape ds xs ∧ (xs.map flattenD).flatten = v := by
  induction ds generalizing v with
  | nil =>
    have : v = [] := List.length_eq_zero_iff.1 (by simpa using h)
    exact ⟨[], .nil, by simp [this]⟩
  | cons d ds ih =>
    simp only [List.map_cons, List.sum_cons] at h
    obtain ⟨xs, h1, h2⟩ := ih (v.drop (ndofs d)) (by simp; omega)
    refine ⟨unflattenD d (v.take (ndofs d)) :: xs,
      .cons (hasShape_unflattenD d _ (by simp; omega)) h1, ?_⟩
    rw [List.map_cons, List.flatten_cons, h2, flattenD_unflattenD d _ (by simp; omega),
      List.take_append_drop]

theorem unflatten_concat {α : Type} (f : Val α → Except Err (Val α)) (discrs : List Discr)
    (x : Val α) (h : Fits discrs x) :
    (scipyOp f discrs).unflatten (concat x) = .ok x := by
  cases x with
  | one x =>
    obtain ⟨d, rfl, hd⟩ := h
    have := zipWith_unflatten [d] [x] (.cons hd .nil) []
    simp only [List.map_cons, List.map_nil, List.flatten_cons, List.flatten_nil, List.append_nil,
      List.nil_append, List.length_nil] at this
    simp only [Op.unflatten, scipyOp, Op.usesObjArray, List.length_singleton, concat,
      List.map_cons, List.map_nil]
    rw [this]
    rfl
  | many xs =>
    obtain ⟨h1, h2⟩ := h
    have := zipWith_unflatten discrs xs h2 []
    simp only [List.nil_append, List.length_nil] at this
    simp only [Op.unflatten, scipyOp, Op.usesObjArray, concat, gt_iff_lt, h1, decide_true, if_true]
    rw [this]

/-- C22: for structured values that fit the operator (a bare component for one domain, an
object array with one component per domain otherwise) flattening gives the concatenation of
the components and unflattening it gives the value back.  Partial: object arrays with a
single component do not come back, see `C22_refuted`. -/
theorem C22_roundtrip_partial {α : Type} (f : Val α → Except Err (Val α)) (discrs : List Discr)
    (zero : α) (x : Val α) (h : Fits discrs x) :
    (scipyOp f discrs).flatten zero x = .ok (concat x) ∧
    (concat x).length = (scipyOp f discrs).totalDofs ∧
    (scipyOp f discrs).unflatten (concat x) = .ok x := by
  refine ⟨flatten_concat f discrs zero x h, ?_, unflatten_concat f discrs x h⟩
  rw [(C22_ranges f discrs).2.2.2.2.2]
  cases x with
  | one x => obtain ⟨d, rfl, hd⟩ := h; simp [concat, flattenD_length d x hd]
  | many xs =>
    have := lengths_of_forall2 h.2
    simp only [concat, List.length_flatten]
    rw [this]

/-- C22: every flat vector of length `shape[0]` unflattens to a value that fits, and
flattening that gives the vector back. -/
theorem C22_flat_roundtrip {α : Type} (f : Val α → Except Err (Val α)) (discrs : List Discr)
    (hne : discrs ≠ []) (zero : α) (v : List α) (h : v.length = (scipyOp f discrs).totalDofs) :
    ∃ x, Fits discrs x ∧ (scipyOp f discrs).unflatten v = .ok x ∧
      (scipyOp f discrs).flatten zero x = .ok v := by
  rw [(C22_ranges f discrs).2.2.2.2.2] at h
  obtain ⟨xs, h1, h2⟩ := exists_components discrs v h
  cases discrs with
  | nil => exact absurd rfl hne
  | cons d ds =>
    cases ds with
    | nil =>
      cases h1 with
      | cons hd ht =>
        cases ht
        rename_i x
        have hc : concat (.one x) = v := by simpa [concat] using h2
        have hf : Fits [d] (.one x) := ⟨d, rfl, hd⟩
        refine ⟨.one x, hf, ?_, ?_⟩
        · rw [← hc]; exact unflatten_concat f [d] _ hf
        · rw [← hc]; exact flatten_concat f [d] zero _ hf
    | cons d' ds =>
      have hf : Fits (d :: d' :: ds) (.many xs) := ⟨by simp, h1⟩
      have hc : concat (.many xs) = v := h2
      refine ⟨.many xs, hf, ?_, ?_⟩
      · rw [← hc]; exact unflatten_concat f _ _ hf
      · rw [← hc]; exact flatten_concat f _ zero _ hf

/-- C22: on flat vectors `matvec` applies the bound expression to the components and
flattens the result: it is the structured operator seen through `flatten`. -/
theorem C22_matvec {α : Type} (f : Val α → Except Err (Val α)) (discrs : List Discr) (zero : α)
    (x y : Val α) (hx : Fits discrs x) (hy : Fits discrs y) (hf : f x = .ok y) :
    (scipyOp f discrs).matvec zero (.structured x) = .ok (.structured y) ∧
    (scipyOp f discrs).matvec zero (.flat (concat x)) = .ok (.flat (concat y)) := by
  obtain ⟨_, hl, hu⟩ := C22_roundtrip_partial f discrs zero x hx
  have hfl := flatten_concat f discrs zero y hy
  have hb : ∀ v, (scipyOp f discrs).boundExpr v = f v := fun _ => rfl
  constructor
  · simp only [Op.matvec, hb, hf]
  · simp only [Op.matvec, hl, ne_eq, not_true_eq_false, if_false, hu, hb, hf, hfl]

/-- C22: errors of the expression are passed on, vectors of a wrong length are rejected. -/
theorem C22_matvec_errors {α : Type} (f : Val α → Except Err (Val α)) (discrs : List Discr)
    (zero : α) :
    (∀ v, v.length ≠ (discrs.map ndofs).sum →
      (scipyOp f discrs).matvec zero (.flat v) = .error .assertion) ∧
    (∀ x e, Fits discrs x → f x = .error e →
      (scipyOp f discrs).matvec zero (.structured x) = .error e ∧
      (scipyOp f discrs).matvec zero (.flat (concat x)) = .error e) := by
  have hb : ∀ v, (scipyOp f discrs).boundExpr v = f v := fun _ => rfl
  constructor
  · intro v hv
    rw [← (C22_ranges f discrs).2.2.2.2.2] at hv
    simp only [Op.matvec, ne_eq, hv, not_false_eq_true, if_true]
  · intro x e hx hf
    obtain ⟨_, hl, hu⟩ := C22_roundtrip_partial f discrs zero x hx
    simp only [Op.matvec, hl, ne_eq, not_true_eq_false, if_false, hu, hb, hf, and_self]

/-- C22 is false for vector-valued operators with one component: the object array
`[x]` is flattened, but comes back as the bare component `x`, so a vector-valued
expression is not applied to a vector. -/
theorem C22_refuted : ∃ (discrs : List Discr) (x : DOFArr Nat), HasShape discrs[0]! x ∧
    ∀ f : Val Nat → Except Err (Val Nat), ∃ v,
      (scipyOp f discrs).flatten 0 (.many [x]) = .ok v ∧
      (scipyOp f discrs).unflatten v = .ok (.one x) := by
  refine ⟨[[(1, 2)]], [[[7, 8]]], by simp [HasShape], fun f => ⟨[7, 8], rfl, rfl⟩⟩

/-- non-vacuity: two components, one with two groups -/
example : Fits [[(1, 2), (2, 1)], [(1, 1)]] (.many [[[[1, 2]], [[3], [4]]], [[[5]]]]) := by
  simp [Fits, HasShape]
example : (scipyOp (α := Nat) (fun v => .ok v) [[(1, 2), (2, 1)], [(1, 1)]]).ranges =
    [(0, 4), (4, 5)] := rfl

end Verif.MatVec
