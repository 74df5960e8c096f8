import Verif.Exec.Norms
import Verif.Linalg.GmresExact

/-!
# The inner product of GMRES on structured vectors, and the defaults (C75)

Model of `structured_vdot` (`pytential/linalg/gmres.py:84-109`), of the entry point `gmres`
(`:352-403`) and of the default parameters (`:161-186`).  Numbers are exact complex numbers.

`actx.np.vdot` belongs to arraycontext; it is modelled by what its documentation says: it
recurses into containers of equal structure, adds the products of the leaves, and works on device
arrays and numbers, not on host arrays.
-/

namespace Verif.Vdot

open Verif.Norms (Ctx CArg findCtx)

/-- a Python exception; `library` is raised by arraycontext or PyOpenCL -/
inductive Err | typeError | valueError | library
deriving DecidableEq, Repr

/-- the vectors `gmres` is used with: a number (with its Python type), a NumPy array of numbers,
a device array, a `DOFArray` (groups; a group is a device array), and an object array -/
inductive Val
  | num (ty : Nat) (z : ℂ)
  | host (l : List ℂ)
  | dev (l : List ℂ)
  | dof (c : Option Ctx) (gs : List (List ℂ))
  | obj (l : List Val)

/-- `type(x)`: NumPy arrays of numbers and of objects have the same type (`gmres.py:90`) -/
def Val.pyType : Val → Nat
  | .host _ => 0
  | .obj _ => 0
  | .dev _ => 1
  | .dof _ _ => 2
  | .num ty _ => ty + 3

/-- the products added by `np.vdot` (`gmres.py:97`): the first argument is conjugated -/
noncomputable def dotList (a b : List ℂ) : ℂ :=
  (List.zipWith (fun x y => starRingEnd ℂ x * y) a b).sum

/-- `np.vdot` and its device version: the sizes must agree -/
noncomputable def npVdot (a b : List ℂ) : Except Err ℂ :=
  if a.length = b.length then .ok (dotList a b) else .error .valueError

/-- the groups of two `DOFArray`s -/
noncomputable def groupsVdot : List (List ℂ) → List (List ℂ) → Except Err ℂ
  | [], [] => .ok 0
  | a :: as, b :: bs => do
    let x ← npVdot a b
    let y ← groupsVdot as bs
    return x + y
  | _, _ => .error .library

mutual
/-- `actx.np.vdot` (called in `gmres.py:104`) -/
noncomputable def actxVdot : Val → Val → Except Err ℂ
  | .num _ a, .num _ b => .ok (starRingEnd ℂ a * b)
  | .dev a, .dev b => npVdot a b
  | .dof _ a, .dof _ b => groupsVdot a b
  | .obj a, .obj b => actxVdotList a b
  | _, _ => .error .library
/-- the entries of two object arrays -/
noncomputable def actxVdotList : List Val → List Val → Except Err ℂ
  | [], [] => .ok 0
  | a :: as, b :: bs => do
    let x ← actxVdot a b
    let y ← actxVdotList as bs
    return x + y
  | _, _ => .error .library
end

/-- the case distinction of `structured_vdot` (`gmres.py:94-109`), after the types have been
compared.  A NumPy array of numbers against an object array is left to NumPy, here refused. -/
noncomputable def vdotCases (actx : Option Ctx) : Val → Val → Except Err ℂ
  | .num _ a, .num _ b => npVdot [a] [b]
  | .host a, .host b => npVdot a b
  | .host _, .obj _ => .error .library
  | x, y => if actx.isNone then .error .valueError else actxVdot x y

/-- `structured_vdot` (`gmres.py:84-109`) -/
noncomputable def structuredVdot (actx : Option Ctx) (x y : Val) : Except Err ℂ :=
  if x.pyType ≠ y.pyType then .error .typeError else vdotCases actx x y

mutual
/-- what the search for array contexts sees of a vector (`execution.py:718-724`) -/
def Val.carg : Val → CArg
  | .dof c _ => .dof c
  | .obj l => .obj (cargs l)
  | _ => .other
/-- entries of an object array -/
def cargs : List Val → List CArg
  | [] => []
  | a :: l => a.carg :: cargs l
end

/-- the array context `gmres` gives to the default inner product (`gmres.py:379-388`); failures
of the search are swallowed, `x0=None` has no context -/
def defaultCtx (opCtx : Option Ctx) (rhs : Val) (x0 : Option Val) : Option Ctx :=
  match findCtx opCtx [rhs.carg, (x0.map Val.carg).getD .other] with
  | .ok c => some c
  | .error _ => none

/-- the default inner product (`gmres.py:390`) -/
noncomputable def defaultDot (opCtx : Option Ctx) (rhs : Val) (x0 : Option Val) (x y : Val) :
    Except Err ℂ :=
  structuredVdot (defaultCtx opCtx rhs x0) x y

/-! ### Specification: entries and shapes -/

mutual
/-- all entries of a vector, in order -/
def Val.entries : Val → List ℂ
  | .num _ z => [z]
  | .host l => l
  | .dev l => l
  | .dof _ gs => gs.flatten
  | .obj l => entriesList l
/-- entries of an object array -/
def entriesList : List Val → List ℂ
  | [] => []
  | a :: l => a.entries ++ entriesList l
end

/-- the structure of a vector, without its entries -/
inductive Shape
  | num (ty : Nat)
  | host (n : Nat)
  | dev (n : Nat)
  | dof (c : Option Ctx) (ns : List Nat)
  | obj (l : List Shape)

mutual
/-- the structure of a vector -/
def Val.shape : Val → Shape
  | .num ty _ => .num ty
  | .host l => .host l.length
  | .dev l => .dev l.length
  | .dof c gs => .dof c (gs.map List.length)
  | .obj l => .obj (shapeList l)
/-- structures of the entries of an object array -/
def shapeList : List Val → List Shape
  | [] => []
  | a :: l => a.shape :: shapeList l
end

mutual
/-- number of entries -/
def Shape.size : Shape → Nat
  | .num _ => 1
  | .host n => n
  | .dev n => n
  | .dof _ ns => ns.sum
  | .obj l => sizeList l
/-- number of entries of an object array -/
def sizeList : List Shape → Nat
  | [] => 0
  | a :: l => a.size + sizeList l
end

mutual
/-- no host arrays: the vector lives on the device -/
def Shape.onDevice : Shape → Bool
  | .host _ => false
  | .obj l => onDeviceList l
  | _ => true
/-- no host arrays in an object array -/
def onDeviceList : List Shape → Bool
  | [] => true
  | a :: l => a.onDevice && onDeviceList l
end

/-- cut `v 0, v 1, ...` into groups of the given sizes -/
def fillGroups : List Nat → (Nat → ℂ) → List (List ℂ)
  | [], _ => []
  | n :: ns, v => (List.range n).map v :: fillGroups ns (fun i => v (i + n))

mutual
/-- the vector of shape `s` with entries `v 0, v 1, ...` -/
def fill : Shape → (Nat → ℂ) → Val
  | .num ty, v => .num ty (v 0)
  | .host n, v => .host ((List.range n).map v)
  | .dev n, v => .dev ((List.range n).map v)
  | .dof c ns, v => .dof c (fillGroups ns v)
  | .obj l, v => .obj (fillList l v)
/-- entries of an object array -/
def fillList : List Shape → (Nat → ℂ) → List Val
  | [], _ => []
  | s :: l, v => fill s v :: fillList l (fun i => v (i + s.size))
end

/-- a number or a NumPy array of numbers -/
def Val.isHost : Val → Bool
  | .num _ _ => true
  | .host _ => true
  | _ => false

/-! ### Lemmas -/

theorem range_append_map {α : Type} (m n : Nat) (v : Nat → α) :
    (List.range (m + n)).map v = (List.range m).map v ++ (List.range n).map (fun i => v (i + m)) := by
  rw [List.range_add, List.map_append, List.map_map]
  congr 1
  apply List.map_congr_left
  intro i _
  simp [Nat.add_comm]

theorem fillGroups_flatten (ns : List Nat) (v : Nat → ℂ) :
    (fillGroups ns v).flatten = (List.range ns.sum).map v := by
  induction ns generalizing v with
  | nil => rfl
  | cons n ns ih =>
    rw [fillGroups, List.flatten_cons, ih, List.sum_cons, range_append_map]

theorem fillGroups_lengths (ns : List Nat) (v : Nat → ℂ) :
    (fillGroups ns v).map List.length = ns := by
  induction ns generalizing v with
  | nil => rfl
  | cons n ns ih => rw [fillGroups, List.map_cons, ih]; simp

mutual
theorem fill_entries : ∀ (s : Shape) (v : Nat → ℂ), (fill s v).entries = (List.range s.size).map v
  | .num _, _ => rfl
  | .host _, _ => rfl
  | .dev _, _ => rfl
  | .dof _ ns, v => by rw [fill, Val.entries, fillGroups_flatten, Shape.size]
  | .obj l, v => by rw [fill, Val.entries, fillList_entries l v, Shape.size]
theorem fillList_entries : ∀ (l : List Shape) (v : Nat → ℂ),
    entriesList (fillList l v) = (List.range (sizeList l)).map v
  | [], _ => rfl
  | s :: l, v => by
    rw [fillList, entriesList, fill_entries s v, fillList_entries l _, sizeList, range_append_map]
end

mutual
theorem fill_shape : ∀ (s : Shape) (v : Nat → ℂ), (fill s v).shape = s
  | .num _, _ => rfl
  | .host n, v => by simp [fill, Val.shape]
  | .dev n, v => by simp [fill, Val.shape]
  | .dof _ ns, v => by rw [fill, Val.shape, fillGroups_lengths]
  | .obj l, v => by rw [fill, Val.shape, fillList_shape l v]
theorem fillList_shape : ∀ (l : List Shape) (v : Nat → ℂ), shapeList (fillList l v) = l
  | [], _ => rfl
  | s :: l, v => by rw [fillList, shapeList, fill_shape s v, fillList_shape l _]
end

mutual
theorem entries_length : ∀ x : Val, x.entries.length = x.shape.size
  | .num _ _ => rfl
  | .host _ => rfl
  | .dev _ => rfl
  | .dof _ gs => by rw [Val.entries, Val.shape, Shape.size, List.length_flatten]
  | .obj l => by rw [Val.entries, Val.shape, Shape.size, entriesList_length l]
theorem entriesList_length : ∀ l : List Val, (entriesList l).length = sizeList (shapeList l)
  | [] => rfl
  | a :: l => by
    rw [entriesList, shapeList, sizeList, List.length_append, entries_length a, entriesList_length l]
end

theorem dotList_append (a b c d : List ℂ) (h : a.length = b.length) :
    dotList (a ++ c) (b ++ d) = dotList a b + dotList c d := by
  rw [dotList, List.zipWith_append h, List.sum_append, dotList, dotList]

theorem groupsVdot_ok : ∀ (a b : List (List ℂ)), a.map List.length = b.map List.length →
    groupsVdot a b = .ok (dotList a.flatten b.flatten) := by
  intro a
  induction a with
  | nil =>
    intro b h
    cases b with
    | nil => simp [groupsVdot, dotList]
    | cons => simp at h
  | cons x a ih =>
    intro b h
    cases b with
    | nil => simp at h
    | cons y b =>
      simp only [List.map_cons, List.cons.injEq] at h
      simp only [groupsVdot, npVdot, h.1, if_pos, bind, Except.bind, ih b h.2, pure, Except.pure,
        List.flatten_cons]
      rw [dotList_append _ _ _ _ h.1]

mutual
theorem actxVdot_ok : ∀ x y : Val, x.shape = y.shape → x.shape.onDevice = true →
    actxVdot x y = .ok (dotList x.entries y.entries)
  | .num _ a, y, h, _ => by
    cases y <;> simp_all [Val.shape, actxVdot, Val.entries, dotList]
  | .host a, y, h, hd => by simp [Val.shape, Shape.onDevice] at hd
  | .dev a, y, h, _ => by
    cases y <;> simp_all [Val.shape, actxVdot, Val.entries, npVdot]
  | .dof _ a, y, h, _ => by
    cases y with
    | dof c b =>
      simp only [Val.shape, Shape.dof.injEq] at h
      rw [actxVdot, groupsVdot_ok a b h.2]; rfl
    | _ => simp [Val.shape] at h
  | .obj l, y, h, hd => by
    cases y with
    | obj m =>
      simp only [Val.shape, Shape.obj.injEq] at h
      simp only [Val.shape, Shape.onDevice] at hd
      rw [actxVdot, actxVdotList_ok l m h hd]; rfl
    | _ => simp [Val.shape] at h
theorem actxVdotList_ok : ∀ l m : List Val, shapeList l = shapeList m →
    onDeviceList (shapeList l) = true →
    actxVdotList l m = .ok (dotList (entriesList l) (entriesList m))
  | [], m, h, _ => by
    cases m with
    | nil => simp [actxVdotList, dotList, entriesList]
    | cons => simp [shapeList] at h
  | a :: l, m, h, hd => by
    cases m with
    | nil => simp [shapeList] at h
    | cons b m =>
      simp only [shapeList, List.cons.injEq] at h
      simp only [shapeList, onDeviceList, Bool.and_eq_true] at hd
      simp only [actxVdotList, bind, Except.bind, actxVdot_ok a b h.1 hd.1,
        actxVdotList_ok l m h.2 hd.2, pure, Except.pure, entriesList]
      rw [dotList_append]
      rw [entries_length, entries_length, h.1]
end

theorem pyType_of_shape (x y : Val) (h : x.shape = y.shape) : x.pyType = y.pyType := by
  cases x <;> cases y <;> simp_all [Val.shape, Val.pyType]

/-! ### Theorems -/

mutual
theorem actxVdot_host : ∀ x y : Val, x.shape = y.shape → x.shape.onDevice = false →
    actxVdot x y = .error .library
  | .num _ a, y, h, hd => by simp [Val.shape, Shape.onDevice] at hd
  | .host a, y, h, hd => by cases y <;> simp [actxVdot]
  | .dev a, y, h, hd => by simp [Val.shape, Shape.onDevice] at hd
  | .dof _ a, y, h, hd => by simp [Val.shape, Shape.onDevice] at hd
  | .obj l, y, h, hd => by
    cases y with
    | obj m =>
      simp only [Val.shape, Shape.obj.injEq] at h
      simp only [Val.shape, Shape.onDevice] at hd
      rw [actxVdot, actxVdotList_host l m h hd]
    | _ => simp [Val.shape] at h
theorem actxVdotList_host : ∀ l m : List Val, shapeList l = shapeList m →
    onDeviceList (shapeList l) = false → actxVdotList l m = .error .library
  | [], m, h, hd => by simp [shapeList, onDeviceList] at hd
  | a :: l, m, h, hd => by
    cases m with
    | nil => simp [shapeList] at h
    | cons b m =>
      simp only [shapeList, List.cons.injEq] at h
      simp only [shapeList, onDeviceList, Bool.and_eq_false_iff] at hd
      cases ha : a.shape.onDevice with
      | false => simp only [actxVdotList, bind, Except.bind, actxVdot_host a b h.1 ha]
      | true =>
        simp only [actxVdotList, bind, Except.bind, actxVdot_ok a b h.1 ha,
          actxVdotList_host l m h.2 (hd.resolve_left (by simp [ha]))]
end

/-- the right side of `C75_vdot` implies the left one -/
theorem vdot_ok (actx : Option Ctx) (x y : Val) (hs : x.shape = y.shape)
    (h : x.isHost = true ∨ (x.shape.onDevice = true ∧ actx ≠ none)) :
    structuredVdot actx x y = .ok (dotList x.entries y.entries) := by
  have ht := pyType_of_shape x y hs
  rw [structuredVdot, if_neg (by simp [ht])]
  cases x with
  | num t a =>
    cases y with
    | num u b => simp [vdotCases, npVdot, Val.entries]
    | _ => simp [Val.shape] at hs
  | host a =>
    cases y with
    | host b =>
      simp only [Val.shape, Shape.host.injEq] at hs
      simp [vdotCases, npVdot, Val.entries, hs]
    | _ => simp [Val.shape] at hs
  | _ =>
    obtain ⟨h1, h2⟩ := h.resolve_left (by simp [Val.isHost])
    cases hc : actx with
    | none => exact absurd hc h2
    | some c => rw [vdotCases, ← actxVdot_ok _ _ hs h1] <;> simp

/-- C75: for two vectors of the same structure `structured_vdot` returns a number exactly for
numbers and NumPy arrays of numbers, and, if there is an array context, for everything without
NumPy arrays of numbers inside; that number is the Hermitian product of all entries (first
argument conjugated), however deeply they are nested. -/
theorem C75_vdot (actx : Option Ctx) (x y : Val) (hs : x.shape = y.shape) (z : ℂ) :
    structuredVdot actx x y = .ok z ↔
      (x.isHost = true ∨ (x.shape.onDevice = true ∧ actx ≠ none)) ∧
      z = (List.zipWith (fun a b => starRingEnd ℂ a * b) x.entries y.entries).sum := by
  change _ ↔ _ ∧ z = dotList x.entries y.entries
  by_cases h : x.isHost = true ∨ (x.shape.onDevice = true ∧ actx ≠ none)
  · rw [vdot_ok actx x y hs h]
    constructor
    · intro e; cases e; exact ⟨h, rfl⟩
    · rintro ⟨_, rfl⟩; rfl
  · constructor
    · intro e
      exfalso
      have ht := pyType_of_shape x y hs
      rw [structuredVdot, if_neg (by simp [ht])] at e
      rw [not_or] at h
      cases hx : x with
      | num => exact h.1 (by rw [hx]; rfl)
      | host => exact h.1 (by rw [hx]; rfl)
      | _ =>
        cases hc : actx with
        | none => rw [hx, hc] at e; simp [vdotCases] at e
        | some c =>
          have hd : x.shape.onDevice = false := by
            cases hd : x.shape.onDevice with
            | false => rfl
            | true => exact absurd ⟨hd, by simp [hc]⟩ h.2
          have := actxVdot_host x y hs hd
          rw [hx, hc] at e
          rw [hx] at this
          simp [vdotCases, this] at e
    · rintro ⟨h', _⟩; exact absurd h' h

/-- C75: what is refused: vectors of different Python types with `TypeError`; device arrays,
`DOFArray`s and object arrays without array context with `ValueError`, whatever their
contents. -/
theorem C75_refused (actx : Option Ctx) (x y : Val) :
    (x.pyType ≠ y.pyType → structuredVdot actx x y = .error .typeError) ∧
    (x.pyType = y.pyType → x.isHost = false → structuredVdot none x y = .error .valueError) := by
  constructor
  · intro h; rw [structuredVdot, if_pos h]
  · intro h hx
    rw [structuredVdot, if_neg (by simp [h])]
    cases x with
    | num => simp [Val.isHost] at hx
    | host => simp [Val.isHost] at hx
    | _ => simp [vdotCases]

/-- C75: `gmres` finds the array context itself: it is the one all `DOFArray`s in the
right-hand side and the initial guess, and the operator, agree on, if that is a PyOpenCL
context; in all other cases (none, a disagreement, another kind of context) there is none. -/
theorem C75_context (opCtx : Option Ctx) (rhs : Val) (x0 : Option Val) (c : Ctx) :
    defaultCtx opCtx rhs x0 = some c ↔
      c.cl = true ∧
      (opCtx.toList ++ (rhs.carg.ctxs ++ ((x0.map Val.carg).getD .other).ctxs)) ≠ [] ∧
      ∀ d ∈ opCtx.toList ++ (rhs.carg.ctxs ++ ((x0.map Val.carg).getD .other).ctxs), d = c := by
  have key : ∀ l : List Ctx, (Norms.pickCtx l = .ok c) ↔ (c.cl = true ∧ l ≠ [] ∧ ∀ d ∈ l, d = c) := by
    intro l
    cases l with
    | nil => simp [Norms.pickCtx]
    | cons a l =>
      simp only [Norms.pickCtx]
      by_cases h1 : l.all (fun d => decide (d = a)) = true
      · rw [if_pos h1]
        simp only [List.all_eq_true, decide_eq_true_eq] at h1
        by_cases h2 : a.cl = true
        · rw [if_pos h2]
          constructor
          · intro h; cases h
            exact ⟨h2, by simp, by simpa using h1⟩
          · rintro ⟨_, _, h⟩
            rw [h a (by simp)]
        · rw [if_neg h2]
          constructor
          · intro h; cases h
          · rintro ⟨h, _, h'⟩
            rw [← h' a (by simp)] at h
            exact absurd h h2
      · rw [if_neg h1]
        constructor
        · intro h; cases h
        · rintro ⟨_, _, h⟩
          apply absurd _ h1
          simp only [List.all_eq_true, decide_eq_true_eq]
          intro d hd
          rw [h d (by simp [hd]), h a (by simp)]
  have hl : Norms.ctxsList [rhs.carg, (x0.map Val.carg).getD .other] =
      rhs.carg.ctxs ++ ((x0.map Val.carg).getD .other).ctxs := by
    simp [Norms.ctxsList]
  cases opCtx with
  | none =>
    simp only [defaultCtx, findCtx, Norms.suppliedCtxs, bind, Except.bind, List.nil_append, hl,
      Option.toList]
    rw [← key]
    cases Norms.pickCtx (rhs.carg.ctxs ++ ((x0.map Val.carg).getD .other).ctxs) <;> simp
  | some o =>
    simp only [defaultCtx, findCtx, Norms.suppliedCtxs, bind, Except.bind, hl, Option.toList]
    by_cases ho : o.cl = true
    · rw [if_pos ho, ← key]
      simp only []
      cases Norms.pickCtx ([o] ++ (rhs.carg.ctxs ++ ((x0.map Val.carg).getD .other).ctxs)) <;> simp
    · rw [if_neg ho]
      simp only []
      constructor
      · intro h; cases h
      · rintro ⟨h1, _, h3⟩
        rw [← h3 o (by simp)] at h1
        exact absurd h1 ho

/-- C75: every vector has the form used below: a shape filled with numbers. -/
theorem C75_shapes (x : Val) : ∃ v, x = fill x.shape v := by
  have groups : ∀ gs : List (List ℂ),
      gs = fillGroups (gs.map List.length) (fun i => gs.flatten.getD i 0) := by
    intro gs
    induction gs with
    | nil => rfl
    | cons a gs ih =>
      rw [List.map_cons, fillGroups]
      congr 1
      · apply List.ext_getElem (by simp)
        intro i h1 h2
        have h1 : i < a.length := h1
        simp [List.getElem?_append, h1]
      · conv_lhs => rw [ih]
        congr 1
        funext i
        simp [List.getElem?_append]
  have leaf : ∀ l : List ℂ, l = (List.range l.length).map (fun i => l.getD i 0) := by
    intro l
    apply List.ext_getElem (by simp)
    intro i h1 h2
    simp [h1]
  suffices h : x = fill x.shape (fun i => x.entries.getD i 0) from ⟨_, h⟩
  exact go leaf groups x
where
  go (leaf : ∀ l : List ℂ, l = (List.range l.length).map (fun i => l.getD i 0))
      (groups : ∀ gs : List (List ℂ),
        gs = fillGroups (gs.map List.length) (fun i => gs.flatten.getD i 0)) :
      ∀ x : Val, x = fill x.shape (fun i => x.entries.getD i 0)
    | .num _ _ => by simp [Val.shape, fill, Val.entries]
    | .host l => by rw [Val.shape, fill, Val.entries]; exact congrArg _ (leaf l)
    | .dev l => by rw [Val.shape, fill, Val.entries]; exact congrArg _ (leaf l)
    | .dof c gs => by rw [Val.shape, fill, Val.entries]; exact congrArg _ (groups gs)
    | .obj l => by rw [Val.shape, fill, Val.entries]; exact congrArg _ (goList leaf groups l)
  goList (leaf : ∀ l : List ℂ, l = (List.range l.length).map (fun i => l.getD i 0))
      (groups : ∀ gs : List (List ℂ),
        gs = fillGroups (gs.map List.length) (fun i => gs.flatten.getD i 0)) :
      ∀ l : List Val, l = fillList (shapeList l) (fun i => (entriesList l).getD i 0)
    | [] => rfl
    | a :: l => by
      rw [shapeList, fillList, entriesList]
      congr 1
      · conv_lhs => rw [go leaf groups a]
        exact fill_congr _ _ _ (fun i hi => by
          rw [← entries_length] at hi
          simp [List.getElem?_append, hi])
      · conv_lhs => rw [goList leaf groups l]
        congr 1
        funext i
        rw [← entries_length]
        simp [List.getElem?_append]
  fill_congr : ∀ (s : Shape) (v w : Nat → ℂ), (∀ i, i < s.size → v i = w i) → fill s v = fill s w
    | .num _, v, w, h => by rw [fill, fill, h 0 (by simp [Shape.size])]
    | .host n, v, w, h => by
      rw [fill, fill]; congr 1; apply List.map_congr_left
      intro i hi; exact h i (List.mem_range.1 hi)
    | .dev n, v, w, h => by
      rw [fill, fill]; congr 1; apply List.map_congr_left
      intro i hi; exact h i (List.mem_range.1 hi)
    | .dof c ns, v, w, h => by
      rw [fill, fill]; congr 1; exact groups_congr ns v w h
    | .obj l, v, w, h => by
      rw [fill, fill]; congr 1; exact fillList_congr l v w h
  groups_congr : ∀ (ns : List Nat) (v w : Nat → ℂ), (∀ i, i < ns.sum → v i = w i) →
      fillGroups ns v = fillGroups ns w
    | [], _, _, _ => rfl
    | n :: ns, v, w, h => by
      rw [fillGroups, fillGroups]
      congr 1
      · apply List.map_congr_left
        intro i hi
        exact h i (by have := List.mem_range.1 hi; simp only [List.sum_cons]; omega)
      · exact groups_congr ns _ _ (fun i hi => h _ (by simp only [List.sum_cons]; omega))
  fillList_congr : ∀ (l : List Shape) (v w : Nat → ℂ), (∀ i, i < sizeList l → v i = w i) →
      fillList l v = fillList l w
    | [], _, _, _ => rfl
    | s :: l, v, w, h => by
      rw [fillList, fillList]
      congr 1
      · exact fill_congr s v w (fun i hi => h i (by rw [sizeList]; omega))
      · exact fillList_congr l _ _ (fun i hi => h _ (by rw [sizeList]; omega))

/-! ### Solving with the defaults -/

/-- the vector of shape `s` with the given entries -/
def vec (s : Shape) (v : Fin s.size → ℂ) : Val :=
  fill s (fun i => if h : i < s.size then v ⟨i, h⟩ else 0)

theorem dotList_range (n : Nat) (v w : Nat → ℂ) :
    dotList ((List.range n).map v) ((List.range n).map w) =
      ∑ i ∈ Finset.range n, starRingEnd ℂ (v i) * w i := by
  induction n with
  | zero => simp [dotList]
  | succ n ih =>
    rw [List.range_succ, List.map_append, List.map_append, dotList_append _ _ _ _ (by simp), ih,
      Finset.sum_range_succ]
    simp [dotList]

/-- the Hermitian product of complex vectors -/
noncomputable def herm {n : Nat} (v w : Fin n → ℂ) : ℂ := ∑ i, starRingEnd ℂ (v i) * w i

/-- the Euclidean norm of a complex vector -/
noncomputable def norm2 {n : Nat} (v : Fin n → ℂ) : ℝ := Real.sqrt (∑ i, ‖v i‖ ^ 2)

theorem vec_dot (s : Shape) (actx : Option Ctx) (v w : Fin s.size → ℂ) (z : ℂ)
    (h : structuredVdot actx (vec s v) (vec s w) = .ok z) : z = herm v w := by
  have h1 := ((C75_vdot actx _ _ (by rw [vec, vec, fill_shape, fill_shape]) z).1 h).2
  change z = dotList (vec s v).entries (vec s w).entries at h1
  rw [vec, vec, fill_entries, fill_entries, dotList_range, Finset.sum_range] at h1
  rw [h1, herm]
  apply Finset.sum_congr rfl
  intro i _
  simp

theorem herm_self {n : Nat} (v : Fin n → ℂ) : herm v v = ((∑ i, ‖v i‖ ^ 2 : ℝ) : ℂ) := by
  rw [herm, Complex.ofReal_sum]
  apply Finset.sum_congr rfl
  intro i _
  rw [Complex.conj_mul', Complex.ofReal_pow]

theorem norm2_eq {n : Nat} (v : Fin n → ℂ) : Real.sqrt ‖herm v v‖ = norm2 v := by
  rw [herm_self, Complex.norm_real, Real.norm_of_nonneg (Finset.sum_nonneg (fun i _ => by positivity)),
    norm2]

theorem norm2_toLp {n : Nat} (v : Fin n → ℂ) : norm2 v = ‖(WithLp.toLp 2 v : EuclideanSpace ℂ (Fin n))‖ := by
  rw [EuclideanSpace.norm_eq, norm2]

theorem herm_toLp {n : Nat} (v w : Fin n → ℂ) :
    herm v w = inner ℂ (WithLp.toLp 2 v : EuclideanSpace ℂ (Fin n)) (WithLp.toLp 2 w) := by
  rw [herm, PiLp.inner_apply]
  apply Finset.sum_congr rfl
  intro i _
  simp [RCLike.inner_apply, mul_comm]

theorem herm_laws (n : Nat) :
    Gmres.NormLaws (K := ℂ) (V := Fin n → ℂ) herm norm2 (fun x => ((1 / x : ℝ) : ℂ)) where
  nonneg v := Real.sqrt_nonneg _
  unit v h := by
    rw [norm2_toLp] at h ⊢
    rw [WithLp.toLp_smul, norm_smul, Complex.norm_real, norm2_toLp]
    rw [Real.norm_of_nonneg (by positivity)]
    field_simp
  bessel w r h := by
    rw [norm2_toLp] at h ⊢
    rw [norm2_toLp, herm_toLp, WithLp.toLp_sub, WithLp.toLp_smul]
    generalize (WithLp.toLp 2 w : EuclideanSpace ℂ (Fin n)) = a at *
    generalize (WithLp.toLp 2 r : EuclideanSpace ℂ (Fin n)) = b at *
    have ho : inner ℂ (b - inner ℂ a b • a) (inner ℂ a b • a) = 0 := by
      rw [inner_smul_right, inner_sub_left, inner_smul_left, inner_self_eq_norm_sq_to_K, h]
      simp
    have := norm_add_sq_eq_norm_sq_add_norm_sq_of_inner_eq_zero _ _ ho
    rw [sub_add_cancel] at this
    exact abs_le_of_sq_le_sq' (by nlinarith [mul_self_nonneg ‖inner ℂ a b • a‖]) (norm_nonneg _) |>.2

/-- the optional arguments of `gmres` (`gmres.py:354-366`) -/
structure UserParams where
  restart : Option Nat := none
  tol : Option ℝ := none
  maxiter : Option Nat := none
  hardFailure : Option Bool := none
  noProgress : Option ℝ := none
  stall : Option Int := none
  requireMonotonicity : Bool := true

/-- the parameters `_gmres` works with (`gmres.py:161-186`); `n` is `op.shape[0]` -/
noncomputable def fillDefaults (n : Nat) (u : UserParams) : Gmres.Params (Option ℝ) where
  restart := u.restart.getD (min n 20)
  tol := some (u.tol.getD (1 / 100000))
  maxiter := u.maxiter.getD (2 * n)
  hardFailure := u.hardFailure.getD true
  requireMonotonicity := u.requireMonotonicity
  noProgress := some (u.noProgress.getD (5 / 4))
  stall := u.stall.getD 10

/-- `gmres` (`gmres.py:352-403`) on vectors of shape `s` whose inner products are `dot`:
`norm` is `np.sqrt(abs(dot(x, x)))` (`:190-191`) -/
noncomputable def run {n : Nat} (A : (Fin n → ℂ) →ₗ[ℂ] (Fin n → ℂ)) (dot : (Fin n → ℂ) → (Fin n → ℂ) → ℂ)
    (u : UserParams) (b : Fin n → ℂ) (x0 : Option (Fin n → ℂ)) :
    Gmres.Outcome (Option (Fin n → ℂ)) (Option ℝ) :=
  Gmres.gmres (Gmres.nanOps A dot (fun v => Real.sqrt ‖dot v v‖) (fun x => ((1 / x : ℝ) : ℂ)))
    (fillDefaults n u) (some b) (x0.map some)

theorem run_eq {n : Nat} (A : (Fin n → ℂ) →ₗ[ℂ] (Fin n → ℂ)) (u : UserParams) (b : Fin n → ℂ)
    (x0 : Option (Fin n → ℂ)) (dot : (Fin n → ℂ) → (Fin n → ℂ) → ℂ) (h : dot = herm) :
    run A dot u b x0 = Gmres.gmres (Gmres.nanOps A herm norm2 (fun x => ((1 / x : ℝ) : ℂ)))
      (fillDefaults n u) (some b) (x0.map some) := by
  subst h
  rw [run]
  have : (fun v : Fin n → ℂ => Real.sqrt ‖herm v v‖) = norm2 := funext norm2_eq
  rw [this]

/-- C75: `gmres(op, rhs)` with the default inner product, on vectors of any structure on which
that inner product works (`C75_vdot`, `C75_context`): unless `hard_failure=False` is given, every
solution returned solves the system up to the tolerance, `1e-5` by default, in the Euclidean norm
of all entries; the residual norms never increase and the solver never complains about
non-monotonic residuals. -/
theorem C75_solve (s : Shape) (opCtx : Option Ctx) (A : (Fin s.size → ℂ) →ₗ[ℂ] (Fin s.size → ℂ))
    (u : UserParams) (b : Fin s.size → ℂ) (x0 : Option (Fin s.size → ℂ))
    (dot : (Fin s.size → ℂ) → (Fin s.size → ℂ) → ℂ)
    (hdot : ∀ v w, defaultDot opCtx (vec s b) (x0.map (vec s)) (vec s v) (vec s w) = .ok (dot v w)) :
    (∀ r, (run A dot u b x0).ending = .returned r → u.hardFailure ≠ some false →
      r.success = true ∧ ∃ x, r.solution = some x ∧
        (norm2 (b - A x) < u.tol.getD (1 / 100000) * norm2 b ∨ A x = b)) ∧
    Gmres.Decreasing ((run A dot u b x0).callbacks.map (Option.map norm2)) ∧
    (∀ r, (run A dot u b x0).ending = .returned r → r.state ≠ .nonMonotonic) ∧
    (run A dot u b x0).ending ≠ .gmresError .nonMonotonic := by
  have hd : dot = herm := funext fun v => funext fun w => vec_dot s _ v w _ (hdot v w)
  rw [run_eq A u b x0 dot hd]
  refine ⟨?_, Gmres.C53_decreasing A herm norm2 _ (herm_laws _) _ b x0,
    Gmres.C53_never_nonmonotonic A herm norm2 _ (herm_laws _) _ b x0⟩
  intro r hr hh
  have hsucc : r.success = true := by
    have := Gmres.C28_honest (Gmres.nanOps A herm norm2 (fun x => ((1 / x : ℝ) : ℂ)))
      (fillDefaults s.size u) (some b) (x0.map some)
    rw [hr] at this
    cases hrs : r.success with
    | true => rfl
    | false =>
      simp only [hrs, Bool.false_eq_true, if_false] at this
      have h2 := this.2.1
      simp only [fillDefaults] at h2
      cases hu : u.hardFailure with
      | none => rw [hu] at h2; cases h2
      | some c => rw [hu] at h2 hh; simp at h2; exact absurd (by rw [h2]) hh
  refine ⟨hsucc, ?_⟩
  obtain ⟨x, hx, h⟩ := Gmres.C27_breakdown A herm norm2 _ (fillDefaults s.size u) b x0 r hr hsucc
  refine ⟨x, hx, ?_⟩
  rcases h with ⟨t, ht, h⟩ | h
  · left
    simp only [fillDefaults, Option.some.injEq] at ht
    rw [ht]; exact h
  · right
    rw [norm2_toLp, norm_eq_zero] at h
    have h2 : b - A x = 0 := by
      simpa using congrArg (fun e : EuclideanSpace ℂ (Fin s.size) => e.ofLp) h
    exact (sub_eq_zero.1 h2).symm

/-- C75: with no optional arguments and at least one unknown, the call ends in a result or
`GMRESError`, never in another exception of its own, after at most `2 n` residuals; for an empty
system it raises `GMRESError` (iteration limit) although `0 = 0` is solved. -/
theorem C75_defaults {n : Nat} (A : (Fin n → ℂ) →ₗ[ℂ] (Fin n → ℂ))
    (dot : (Fin n → ℂ) → (Fin n → ℂ) → ℂ) (b : Fin n → ℂ) :
    (0 < n → ((∃ r, (run A dot {} b none).ending = .returned r) ∨
        ∃ st, (run A dot {} b none).ending = .gmresError st)) ∧
    (run A dot {} b none).callbacks.length ≤ 2 * n ∧
    (n = 0 → (run A dot {} b none).ending = .gmresError .maxIterations) := by
  refine ⟨?_, ?_, ?_⟩
  · intro hn
    exact Gmres.C28_no_index _ _ _ _ (by simp [fillDefaults]; omega) (by simp [fillDefaults])
  · exact (Gmres.C28_bound _ _ _ _).1
  · rintro rfl
    simp [run, Gmres.gmres, fillDefaults, Gmres.loop, Gmres.St.fail, Gmres.St.finish]

/-- the vector used below: a `DOFArray` with two groups beside a number, in an object array -/
def exShape : Shape := .obj [.dof (some ⟨1, true⟩) [2, 1], .num 0]

/-- non-vacuity of `C75_solve`: the inner product works on `exShape` -/
example (b v w : Fin exShape.size → ℂ) :
    defaultDot none (vec exShape b) none (vec exShape v) (vec exShape w) = .ok (herm v w) := by
  have hs : (vec exShape v).shape = (vec exShape w).shape := by
    rw [vec, vec, fill_shape, fill_shape]
  have hc : defaultCtx none (vec exShape b) none = some ⟨1, true⟩ := by
    rw [C75_context]
    simp [vec, exShape, fill, fillList, Val.carg, cargs, CArg.ctxs, Norms.ctxsList]
  rw [defaultDot, hc]
  have h := vdot_ok (some ⟨1, true⟩) _ _ hs
    (Or.inr ⟨by rw [vec, fill_shape]; rfl, by simp⟩)
  rw [h, vec_dot exShape _ v w _ h]

/-- a right-hand side whose context is not a PyOpenCL context finds no inner product: the very
first norm fails with `ValueError` -/
example (gs : List (List ℂ)) (x : Val) :
    defaultDot none (.dof (some ⟨1, false⟩) gs) none (.dof (some ⟨1, false⟩) gs)
      (.dof (some ⟨1, false⟩) gs) = .error .valueError := by
  simp [defaultDot, defaultCtx, findCtx, Norms.suppliedCtxs, Val.carg, Norms.ctxsList, CArg.ctxs,
    Norms.pickCtx, bind, Except.bind, structuredVdot, vdotCases]

end Verif.Vdot
