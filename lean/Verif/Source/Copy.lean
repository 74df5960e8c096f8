import Mathlib.Algebra.Ring.Rat

/-!
# Constructing and copying layer potential sources (C51)

Models the argument processing of `QBXLayerPotentialSource.__init__` and `copy`
(`pytential/qbx/__init__.py:164-478`) and of `UnregularizedLayerPotentialSource`
(`pytential/unregularized.py:81-122`).  Opaque objects (discretizations, expansion factories,
cost models, inspectors) are values of parameter types; their truth value in `x or y` is true as for
every Python object without `__bool__`/`__len__`.  Deprecation warnings are not modelled.
-/

namespace Verif.Copy

/-- exceptions -/
inductive Err where
  | valueError
  | typeError
  | assertion
  | runtimeError
deriving DecidableEq, Repr

/-- `fmm_order: bool | int` -/
inductive FmmOrder where
  | bool (b : Bool)
  | int (n : Int)
deriving DecidableEq, Repr

/-- `QBXRefinementMode` members as far as argument processing cares -/
inductive RefMode where
  | noRefinement
  | refine
  | adaptOnly
deriving DecidableEq, Repr

/-- a level-to-order argument: `False` or a callable; callables are functions of an opaque argument
tuple -/
abbrev Lto (L : Type) := Option (L → Int)

/-- the opaque types -/
structure Sorts where
  Discr : Type
  Factory : Type
  Cost : Type
  Inspector : Type
  LtoArg : Type

/-- what the constructor asks of its surroundings: dimensions and machine epsilon of a discretization,
the freshly made default objects -/
structure World (S : Sorts) where
  dim : S.Discr → Nat
  ambientDim : S.Discr → Nat
  defaultTol : S.Discr → Rat
  defaultFactory : S.Factory
  defaultCost : S.Cost

/-- attributes of a QBX source (`__init__.py:348-370`) -/
structure Config (S : Sorts) where
  densityDiscr : S.Discr
  fineOrder : Int
  qbxOrder : Int
  fmmLto : Lto S.LtoArg
  fmmBackend : String
  factory : S.Factory
  tol : Rat
  debug : Bool
  refMode : RefMode
  extent : Bool
  stickOut : Rat
  wellSep : Int
  maxLeaf : Int
  extentNorm : String
  sepCrit : String
  sepMin : Int
  treeKind : String
  targetSpecific : Option Bool
  inspector : Option S.Inspector
  cost : S.Cost

/-- constructor arguments (`__init__.py:164-192`); `none` is Python's `None`, for `tol` the outer `none`
is `NOT_PROVIDED` -/
structure Args (S : Sorts) where
  densityDiscr : S.Discr
  fineOrder : Option Int
  qbxOrder : Option Int := none
  fmmOrder : Option FmmOrder := none
  fmmLto : Option (Lto S.LtoArg) := none
  factory : Option S.Factory := none
  tol : Option (Option Rat) := none
  debug : Bool := true
  refMode : Option RefMode := none
  disableRefinement : Option Bool := none
  extent : Bool := true
  stickOut : Rat := 1 / 2
  maxLeaf : Option Int := none
  extentNorm : Option String := none
  treeKind : String := "adaptive"
  wellSep : Int := 2
  sepCrit : Option String := none
  sepMin : Option Int := none
  targetSpecific : Option Bool := none
  inspector : Option S.Inspector := none
  cost : Option S.Cost := none
  fmmBackend : String := "sumpy"

section

variable {S : Sorts}

/-- the level-to-order attribute from the two FMM arguments (`258-262`, `276-287`) -/
def mkLto (order : Option FmmOrder) (lto : Option (Lto S.LtoArg)) : Except Err (Lto S.LtoArg) :=
  match order, lto with
  | some _, some _ => .error .typeError
  | none, none => .error .typeError
  | none, some l => .ok l
  | some (.bool false), none => .ok none
  | some (.bool true), none => .error .assertion
  | some (.int n), none => .ok (some fun _ => n)

/-- default `_max_leaf_refine_weight` (`289-304`) -/
def defaultMaxLeaf (ambientDim : Nat) : Int := if ambientDim = 2 then 64 else if ambientDim = 3 then 512 else 64

/-- default `_from_sep_smaller_min_nsources_cumul` (`307-314`) -/
def defaultSepMin (dim : Nat) : Int := if dim = 1 then 15 else 30

/-- refinement mode (`324-337`) -/
def mkRefMode (mode : Option RefMode) (disable : Option Bool) : RefMode :=
  match mode with
  | some m => m
  | none => match disable with
    | some true => .noRefinement
    | some false => .refine
    | none => .refine

/-- tolerance (`253-256`) -/
def mkTol (w : World S) (d : S.Discr) (tol : Option (Option Rat)) : Except Err Rat :=
  match tol with
  | none => .ok (w.defaultTol d)
  | some none => .error .assertion
  | some (some t) => .ok t

/-- `QBXLayerPotentialSource.__init__` (`164-370`) -/
def mk (w : World S) (a : Args S) : Except Err (Config S) :=
  match a.fineOrder with
  | none => .error .valueError
  | some fine =>
    match a.qbxOrder with
    | none => .error .valueError
    | some qbx =>
      match mkTol w a.densityDiscr a.tol with
      | .error e => .error e
      | .ok tol =>
        match mkLto a.fmmOrder a.fmmLto with
        | .error e => .error e
        | .ok lto =>
          if w.dim a.densityDiscr + 1 = w.ambientDim a.densityDiscr then
            .ok {
              densityDiscr := a.densityDiscr, fineOrder := fine, qbxOrder := qbx, fmmLto := lto,
              fmmBackend := a.fmmBackend, factory := a.factory.getD w.defaultFactory, tol := tol,
              debug := a.debug, refMode := mkRefMode a.refMode a.disableRefinement, extent := a.extent,
              stickOut := a.stickOut, wellSep := a.wellSep,
              maxLeaf := a.maxLeaf.getD (defaultMaxLeaf (w.ambientDim a.densityDiscr)),
              extentNorm := a.extentNorm.getD "l2", sepCrit := a.sepCrit.getD "precise_linf",
              sepMin := a.sepMin.getD (defaultSepMin (w.dim a.densityDiscr)), treeKind := a.treeKind,
              targetSpecific := a.targetSpecific, inspector := a.inspector,
              cost := a.cost.getD w.defaultCost }
          else .error .runtimeError

/-- arguments of `copy` (`377-400`); where the default is `NOT_PROVIDED`, `none` stands for it and
`some none` for an explicit `None` -/
structure CopyArgs (S : Sorts) where
  densityDiscr : Option S.Discr := none
  fineOrder : Option Int := none
  qbxOrder : Option Int := none
  fmmOrder : Option (Option FmmOrder) := none
  fmmLto : Option (Option (Lto S.LtoArg)) := none
  factory : Option S.Factory := none
  tol : Option (Option Rat) := none
  extent : Option Bool := none
  stickOut : Option Rat := none
  maxLeaf : Option Int := none
  extentNorm : Option String := none
  sepCrit : Option String := none
  treeKind : Option String := none
  targetSpecific : Option (Option Bool) := none
  inspector : Option S.Inspector := none
  cost : Option (Option S.Cost) := none
  fmmBackend : Option String := none
  debug : Option Bool := none
  refMode : Option (Option RefMode) := none
  disableRefinement : Option Bool := none

/-- `x or y` for an integer `x` that may be `None` -/
def orInt (x : Option Int) (y : Int) : Int := match x with
  | none => y
  | some v => if v = 0 then y else v

/-- `x or y` for a string `x` that may be `None` -/
def orStr (x : Option String) (y : String) : String := match x with
  | none => y
  | some v => if v = "" then y else v

/-- the FMM keyword handed on by `copy` (`404-415`) -/
def copyFmm (c : Config S) (order : Option (Option FmmOrder)) (lto : Option (Option (Lto S.LtoArg))) :
    Except Err (Option FmmOrder × Option (Lto S.LtoArg)) :=
  match order, lto with
  | some _, some _ => .error .typeError
  | some o, none => .ok (o, none)
  | none, some l => .ok (none, l)
  | none, none => .ok (none, some c.fmmLto)

/-- the refinement mode handed on by `copy` (`417-427`, `444-447`) -/
def copyRefMode (c : Config S) (mode : Option (Option RefMode)) (disable : Option Bool) : Option RefMode :=
  match mode with
  | some m => m
  | none => match disable with
    | some true => some .noRefinement
    | some false => some .refine
    | none => some c.refMode

/-- `QBXLayerPotentialSource.copy` (`377-478`) -/
def copy (w : World S) (c : Config S) (a : CopyArgs S) : Except Err (Config S) :=
  match copyFmm c a.fmmOrder a.fmmLto with
  | .error e => .error e
  | .ok fmm =>
    mk w {
      densityDiscr := a.densityDiscr.getD c.densityDiscr
      fineOrder := some (a.fineOrder.getD c.fineOrder)
      qbxOrder := some (a.qbxOrder.getD c.qbxOrder)
      fmmOrder := fmm.1
      fmmLto := fmm.2
      factory := some (a.factory.getD c.factory)
      tol := some (a.tol.getD (some c.tol))
      debug := a.debug.getD c.debug
      refMode := copyRefMode c a.refMode a.disableRefinement
      extent := a.extent.getD c.extent
      stickOut := a.stickOut.getD c.stickOut
      wellSep := c.wellSep
      maxLeaf := some (orInt a.maxLeaf c.maxLeaf)
      extentNorm := some (orStr a.extentNorm c.extentNorm)
      sepCrit := some (orStr a.sepCrit c.sepCrit)
      sepMin := some c.sepMin
      treeKind := orStr a.treeKind c.treeKind
      targetSpecific := a.targetSpecific.getD c.targetSpecific
      inspector := a.inspector.or c.inspector
      cost := a.cost.getD (some c.cost)
      fmmBackend := orStr a.fmmBackend c.fmmBackend }

/-! # C51: QBX sources -/

/-- C51: copying a source without arguments reproduces its configuration, for every source the
constructor can produce -/
theorem C51_copy_identity (w : World S) (a : Args S) (c : Config S) (h : mk w a = .ok c) :
    copy w c {} = .ok c := by
  have hdim : w.dim c.densityDiscr + 1 = w.ambientDim c.densityDiscr := by
    rw [mk] at h
    repeat' split at h
    all_goals first | cases h | skip
    assumption
  obtain ⟨⟩ := c
  simp only at hdim
  simp [copy, copyFmm, mk, mkTol, mkLto, hdim, copyRefMode, mkRefMode, orInt, orStr]

/-- C51: a successful `copy` changes exactly the attributes whose argument is given.  For the arguments
tested by truth value, `0` and `""` count as not given. -/
theorem C51_copy_overrides (w : World S) (c c' : Config S) (a : CopyArgs S) (h : copy w c a = .ok c') :
    c'.densityDiscr = a.densityDiscr.getD c.densityDiscr ∧
    c'.fineOrder = a.fineOrder.getD c.fineOrder ∧
    c'.qbxOrder = a.qbxOrder.getD c.qbxOrder ∧
    c'.fmmLto = (match a.fmmOrder, a.fmmLto with
      | some (some (.int n)), _ => some fun _ => n
      | some _, _ => none
      | none, some (some l) => l
      | none, _ => c.fmmLto) ∧
    c'.fmmBackend = ((a.fmmBackend.filter (· ≠ "")).getD c.fmmBackend) ∧
    c'.factory = a.factory.getD c.factory ∧
    (match a.tol with
      | none => c'.tol = c.tol
      | some t => t = some c'.tol) ∧
    c'.debug = a.debug.getD c.debug ∧
    c'.refMode = (match a.refMode, a.disableRefinement with
      | some (some m), _ => m
      | some none, _ => .refine
      | none, some true => .noRefinement
      | none, some false => .refine
      | none, none => c.refMode) ∧
    c'.extent = a.extent.getD c.extent ∧
    c'.stickOut = a.stickOut.getD c.stickOut ∧
    c'.wellSep = c.wellSep ∧
    c'.maxLeaf = (a.maxLeaf.filter (· ≠ 0)).getD c.maxLeaf ∧
    c'.extentNorm = (a.extentNorm.filter (· ≠ "")).getD c.extentNorm ∧
    c'.sepCrit = (a.sepCrit.filter (· ≠ "")).getD c.sepCrit ∧
    c'.sepMin = c.sepMin ∧
    c'.treeKind = (a.treeKind.filter (· ≠ "")).getD c.treeKind ∧
    c'.targetSpecific = a.targetSpecific.getD c.targetSpecific ∧
    c'.inspector = a.inspector.or c.inspector ∧
    c'.cost = (a.cost.getD (some c.cost)).getD w.defaultCost := by
  have hs : ∀ (x : Option String) (y : String), orStr x y = (x.filter (· ≠ "")).getD y := by
    intro x y
    cases x with
    | none => rfl
    | some v => by_cases hv : v = "" <;> simp [orStr, hv, Option.filter]
  have hi : ∀ (x : Option Int) (y : Int), orInt x y = (x.filter (· ≠ 0)).getD y := by
    intro x y
    cases x with
    | none => rfl
    | some v => by_cases hv : v = 0 <;> simp [orInt, hv, Option.filter]
  rw [copy] at h
  cases hf : copyFmm c a.fmmOrder a.fmmLto with
  | error e => rw [hf] at h; cases h
  | ok fmm =>
    rw [hf] at h
    simp only [mk] at h
    cases ht : mkTol w (a.densityDiscr.getD c.densityDiscr) (some (a.tol.getD (some c.tol))) with
    | error e => rw [ht] at h; cases h
    | ok tol =>
      rw [ht] at h
      cases hl : mkLto fmm.1 fmm.2 with
      | error e => rw [hl] at h; cases h
      | ok lto =>
        rw [hl] at h
        simp only at h
        split at h
        · injection h with h
          subst h
          refine ⟨rfl, rfl, rfl, ?_, hs _ _, rfl, ?_, rfl, ?_, rfl, rfl, rfl, hi _ _, hs _ _, hs _ _, rfl,
            hs _ _, rfl, rfl, rfl⟩
          · simp only
            revert hf hl
            rcases a.fmmOrder with _ | (_ | (b | n)) <;> rcases a.fmmLto with _ | (_ | l) <;>
              intro hf hl <;> simp [copyFmm] at hf <;> subst hf <;> simp [mkLto] at hl <;>
              first | exact hl.symm | skip
            all_goals (cases b <;> simp [mkLto] at hl <;> exact hl.symm)
          · simp only
            revert ht
            rcases a.tol with _ | (_ | t) <;> intro ht <;> simp [mkTol] at ht <;> simp [ht]
          · simp only [copyRefMode, mkRefMode]
            rcases a.refMode with _ | (_ | m) <;> rcases a.disableRefinement with _ | (_ | _) <;> rfl
        · cases h

/-- C51: conflicting FMM order specifications raise `TypeError`, in the constructor and in `copy` -/
theorem C51_conflicting_orders (w : World S) (c : Config S) (o : Option FmmOrder)
    (l : Option (Lto S.LtoArg)) (a : CopyArgs S) :
    (a.fmmOrder = some o → a.fmmLto = some l → copy w c a = .error .typeError) ∧
    (∀ b : Args S, b.fineOrder ≠ none → b.qbxOrder ≠ none → b.tol ≠ some none →
      ((b.fmmOrder.isSome = b.fmmLto.isSome) ↔ mk w b = .error .typeError)) := by
  constructor
  · intro h1 h2
    rw [copy, h1, h2]
    rfl
  · intro b h1 h2 h3
    obtain ⟨f, hf⟩ := Option.ne_none_iff_exists'.1 h1
    obtain ⟨q, hq⟩ := Option.ne_none_iff_exists'.1 h2
    have ht : ∃ t, mkTol w b.densityDiscr b.tol = .ok t := by
      rcases ht : b.tol with _ | (_ | t)
      · exact ⟨_, rfl⟩
      · exact absurd ht h3
      · exact ⟨_, rfl⟩
    obtain ⟨t, ht⟩ := ht
    rw [mk, hf, hq]
    simp only [ht]
    rcases b.fmmOrder with _ | o <;> rcases b.fmmLto with _ | l
    · simp [mkLto]
    · simp only [mkLto]
      constructor
      · intro h; simp at h
      · intro h; split at h <;> simp at h
    · rcases o with (_ | _) | n <;> simp only [mkLto]
      · constructor
        · intro h; simp at h
        · intro h; split at h <;> simp at h
      · simp
      · constructor
        · intro h; simp at h
        · intro h; split at h <;> simp at h
    · simp [mkLto]

/-- C51 (documented defaults): a source made without `_max_leaf_refine_weight` refines leaves above 64
in the plane and above 512 in space, and one made without `_from_sep_smaller_min_nsources_cumul` uses
15 on curves and 30 on surfaces; a given value is used as it is. -/
theorem C51_defaults (w : World S) (a : Args S) (c : Config S) (h : mk w a = .ok c) :
    (∀ n, a.maxLeaf = some n → c.maxLeaf = n) ∧ (∀ n, a.sepMin = some n → c.sepMin = n) ∧
    (a.maxLeaf = none → w.ambientDim a.densityDiscr = 2 → c.maxLeaf = 64) ∧
    (a.maxLeaf = none → w.ambientDim a.densityDiscr = 3 → c.maxLeaf = 512) ∧
    (a.sepMin = none → w.ambientDim a.densityDiscr = 2 → c.sepMin = 15) ∧
    (a.sepMin = none → w.ambientDim a.densityDiscr = 3 → c.sepMin = 30) := by
  rw [mk] at h
  repeat' split at h
  all_goals cases h
  refine ⟨?_, ?_, ?_, ?_, ?_, ?_⟩
  all_goals intros
  all_goals simp_all [defaultMaxLeaf, defaultSepMin]

/-- C51: a successful constructor call stores what it was given -/
theorem C51_constructor (w : World S) (a : Args S) (c : Config S) (h : mk w a = .ok c) :
    c.densityDiscr = a.densityDiscr ∧ a.fineOrder = some c.fineOrder ∧ a.qbxOrder = some c.qbxOrder ∧
    (∀ n, a.fmmOrder = some (.int n) → c.fmmLto = some fun _ => n) ∧
    (a.fmmOrder = some (.bool false) → c.fmmLto = none) ∧ (∀ l, a.fmmLto = some l → c.fmmLto = l) ∧
    a.fmmOrder.isSome ≠ a.fmmLto.isSome ∧
    w.dim c.densityDiscr + 1 = w.ambientDim c.densityDiscr ∧
    (∀ m, a.refMode = some m → c.refMode = m) ∧
    (a.refMode = none → a.disableRefinement = some true → c.refMode = .noRefinement) ∧
    (a.refMode = none → a.disableRefinement ≠ some true → c.refMode = .refine) := by
  rw [mk] at h
  cases hf : a.fineOrder with
  | none => rw [hf] at h; cases h
  | some f =>
    cases hq : a.qbxOrder with
    | none => rw [hf, hq] at h; cases h
    | some q =>
      rw [hf, hq] at h
      simp only at h
      cases ht : mkTol w a.densityDiscr a.tol with
      | error e => rw [ht] at h; cases h
      | ok t =>
        rw [ht] at h
        simp only at h
        cases hl : mkLto a.fmmOrder a.fmmLto with
        | error e => rw [hl] at h; cases h
        | ok lto =>
          rw [hl] at h
          simp only at h
          split at h
          · rename_i hdim
            injection h with h
            subst h
            refine ⟨rfl, rfl, rfl, ?_, ?_, ?_, ?_, hdim, ?_, ?_, ?_⟩
            · intro n hn
              rw [hn] at hl
              rcases hm : a.fmmLto with _ | l <;> rw [hm] at hl <;> simp [mkLto] at hl
              exact hl.symm
            · intro hn
              rw [hn] at hl
              rcases hm : a.fmmLto with _ | l <;> rw [hm] at hl <;> simp [mkLto] at hl
              exact hl.symm
            · intro l hm
              rw [hm] at hl
              rcases hn : a.fmmOrder with _ | o <;> rw [hn] at hl <;> simp [mkLto] at hl
              exact hl.symm
            · intro he
              rcases hn : a.fmmOrder with _ | o <;> rcases hm : a.fmmLto with _ | l <;>
                rw [hn, hm] at hl he <;> simp [mkLto] at hl he
            · intro m hm; simp [mkRefMode, hm]
            · intro hm hd; simp [mkRefMode, hm, hd]
            · intro hm hd
              rcases hdd : a.disableRefinement with _ | (_ | _)
              · simp [mkRefMode, hm]
              · simp [mkRefMode, hm]
              · exact absurd hdd hd
          · cases h

/-! # C51: unregularized sources -/

/-- attributes of an unregularized source (`unregularized.py:91-110`) -/
structure UConfig (S : Sorts) where
  densityDiscr : S.Discr
  fmmLto : Lto S.LtoArg
  factory : S.Factory
  debug : Bool

/-- `UnregularizedLayerPotentialSource.__init__` (`unregularized.py:81-110`): `fmm_order` is `False`,
`None` or an integer (`none` = `False`); `fmm_order=None` makes a level function returning `None` and is
not modelled -/
def mkU (w : World S) (d : S.Discr) (order : Option Int) (lto : Option (Lto S.LtoArg))
    (factory : Option S.Factory) (debug : Bool) : Except Err (UConfig S) :=
  match order, lto with
  | some _, some _ => .error .typeError
  | some n, none => .ok ⟨d, some fun _ => n, factory.getD w.defaultFactory, debug⟩
  | none, none => .ok ⟨d, none, factory.getD w.defaultFactory, debug⟩
  | none, some l => .ok ⟨d, l, factory.getD w.defaultFactory, debug⟩

/-- `UnregularizedLayerPotentialSource.copy` (`unregularized.py:112-122`): `fmm_level_to_order or
self.fmm_level_to_order` (a callable is true, `False` and `None` are not), no expansion factory -/
def copyU (w : World S) (c : UConfig S) (d : Option S.Discr) (lto : Option (Lto S.LtoArg))
    (debug : Option Bool) : Except Err (UConfig S) :=
  let l : Lto S.LtoArg := match lto with
    | some (some f) => some f
    | _ => c.fmmLto
  mkU w (d.getD c.densityDiscr) none (some l) none (debug.getD c.debug)

/-- C51 for unregularized sources, as far as it holds: a copy keeps every attribute that is not
overridden except the expansion factory, which is reset to the default; hence the full statement holds
exactly for sources with the default factory -/
theorem C51_unregularized_partial (w : World S) (c : UConfig S) (d : Option S.Discr)
    (f : Option (S.LtoArg → Int)) (debug : Option Bool) :
    copyU w c d (f.map some) debug
      = .ok ⟨d.getD c.densityDiscr, f.or c.fmmLto, w.defaultFactory, debug.getD c.debug⟩ ∧
    (copyU w c none none none = .ok c ↔ c.factory = w.defaultFactory) := by
  constructor
  · cases f <;> simp [copyU, mkU]
  · simp only [copyU, mkU, Option.getD_none]
    constructor
    · intro h
      injection h with h
      rw [← h]
    · intro h
      rw [← h]

/-- sorts and world of the witnesses below -/
def exSorts : Sorts := ⟨Unit, Nat, Nat, Nat, Unit⟩
def exWorld : World exSorts := ⟨fun _ => 1, fun _ => 2, fun _ => 1 / 1000, (0 : Nat), (0 : Nat)⟩

/-- arguments of an ordinary source -/
def exArgs : Args exSorts where
  densityDiscr := ()
  fineOrder := some 4
  qbxOrder := some 2
  fmmOrder := some (.int 10)

/-- C51 is false for unregularized sources: a copy loses a non-default expansion factory, and
`copy(fmm_level_to_order=False)` does not turn the FMM off -/
theorem C51_refuted_unregularized :
    (∃ c : UConfig exSorts, mkU exWorld () none none (some (1 : Nat)) true = .ok c ∧
      copyU exWorld c none none none ≠ .ok c) ∧
    (∃ c c' : UConfig exSorts, mkU exWorld () (some 3) none none true = .ok c ∧
      copyU exWorld c none (some none) none = .ok c' ∧ c'.fmmLto ≠ none) := by
  refine ⟨⟨⟨(), none, (1 : Nat), true⟩, rfl, ?_⟩, ⟨⟨(), some fun _ => 3, (0 : Nat), true⟩,
    ⟨(), some fun _ => 3, (0 : Nat), true⟩, rfl, rfl, ?_⟩⟩
  · intro h
    have h2 := (C51_unregularized_partial exWorld ⟨(), none, (1 : Nat), true⟩ none none none).2.1 h
    exact absurd (show (1 : Nat) = 0 from h2) (by decide)
  · intro h; cases h

/-- C51, what it leaves out for QBX sources: `copy(_max_leaf_refine_weight=0)` is silently ignored -/
theorem C51_refuted_falsy_override :
    ∃ (c c' : Config exSorts), mk exWorld exArgs = .ok c ∧
      copy exWorld c { maxLeaf := some 0 } = .ok c' ∧ c'.maxLeaf = 64 := ⟨_, _, rfl, rfl, rfl⟩

/-- a constructible source -/
example : ∃ c, mk exWorld exArgs = .ok c := ⟨_, rfl⟩

example : ∃ c c', mk exWorld exArgs = .ok c ∧
    copy exWorld c { qbxOrder := some 7, fmmOrder := some (some (.bool false)) } = .ok c' ∧
    c'.qbxOrder = 7 ∧ c'.fmmLto = none ∧ c'.fineOrder = 4 := ⟨_, _, rfl, rfl, rfl, rfl, rfl⟩

end

end Verif.Copy
