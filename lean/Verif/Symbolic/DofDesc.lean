/-!
# `DOFDescriptor` and `as_dofdesc` (C09, C10)

Model of `pytential/symbolic/dof_desc.py`.  Python objects that can be passed as a
geometry, stage or granularity are an inductive type; subclasses of `DOFDescriptor`
are not modelled.
-/

namespace Verif.DofDesc

/-- The three stage classes (`dof_desc.py:76-92`). -/
inductive Stage | stage1 | stage2 | quadStage2
  deriving DecidableEq, Repr

/-- The three granularity classes (`dof_desc.py:100-109`). -/
inductive Gran | node | center | element
  deriving DecidableEq, Repr

/-- Python objects: `None`, the classes of this module, the sentinel default of
`copy` (`dof_desc.py:117-118`), any other hashable identifier, and descriptors. -/
inductive Obj where
  | none
  | noArg
  | stage (s : Stage)
  | gran (g : Gran)
  | defaultSource
  | defaultTarget
  | ident (s : String)
  | dd (geometry : Obj) (stage : Option Stage) (gran : Gran)
  deriving DecidableEq, Repr

/-- `ValueError` -/
inductive Err | value
  deriving DecidableEq, Repr

/-- A descriptor: the constructor's fields (`dof_desc.py:188-190`). -/
structure DD where
  geometry : Obj
  stage : Option Stage
  gran : Gran
  deriving DecidableEq, Repr

/-- view a descriptor as an object -/
def DD.obj (d : DD) : Obj := .dd d.geometry d.stage d.gran

/-- `DOFDescriptor.__init__` (`dof_desc.py:162-190`): defaults and validation. -/
def mk (geometry stage gran : Obj) : Except Err DD :=
  let gran : Obj := match gran with | .none => .gran .node | g => g
  let stageOk : Except Err (Option Stage) := match stage with
    | .none => .ok none
    | .stage s => .ok (some s)
    | _ => .error .value
  match stageOk with
  | .error x => .error x
  | .ok s => match gran with
    | .gran g => .ok ⟨geometry, s, g⟩
    | _ => .error .value

/-- stage as an object -/
def stageObj : Option Stage → Obj
  | .none => .none
  | some s => .stage s

/-- first statement of `copy` (`dof_desc.py:196-199`): a descriptor passed as geometry
is replaced by its geometry and, if no stage was given, its stage. -/
def unwrapGeo (geometry stage : Obj) : Obj × Obj :=
  match geometry with
  | .dd g s _ => (g, if stage = .noArg then stageObj s else stage)
  | g => (g, stage)

/-- `DOFDescriptor.copy` (`dof_desc.py:192-208`); the defaults of the arguments are
`None`, the sentinel, and `None`. -/
def copy (self : DD) (geometry stage gran : Obj) : Except Err DD :=
  mk (if (unwrapGeo geometry stage).1 = .none then self.geometry else (unwrapGeo geometry stage).1)
    (if (unwrapGeo geometry stage).2 = .noArg then stageObj self.stage
      else (unwrapGeo geometry stage).2)
    (if gran = .none then .gran self.gran else gran)

/-- `to_stage1`, `to_stage2`, `to_quad_stage2` (`dof_desc.py:210-217`). -/
def toStage (s : Stage) (d : DD) : Except Err DD := copy d .none (.stage s) .none

/-- `as_dofdesc` (`dof_desc.py:265-275`); `None` cannot happen: the constructor calls
are valid (the model returns the constructor's result). -/
def asDofdesc : Obj → Except Err DD
  | .dd g s gr => .ok ⟨g, s, gr⟩
  | .stage s => mk .none (.stage s) .none
  | .gran g => mk .none .none (.gran g)
  | o => mk o .none .none

/-- `DOFDescriptor.__eq__` (`dof_desc.py:223-227`): same type and `==` on the three
fields, recursively for nested descriptors. -/
def Obj.eq : Obj → Obj → Bool
  | .dd g s r, .dd g' s' r' => Obj.eq g g' && decide (s = s') && decide (r = r')
  | .none, .none => true
  | .noArg, .noArg => true
  | .stage s, .stage s' => decide (s = s')
  | .gran s, .gran s' => decide (s = s')
  | .defaultSource, .defaultSource => true
  | .defaultTarget, .defaultTarget => true
  | .ident s, .ident s' => decide (s = s')
  | _, _ => false

/-- `__ne__` (`dof_desc.py:229-230`) -/
def Obj.ne (a b : Obj) : Bool := !(Obj.eq a b)

/-- `DOFDescriptor.__hash__` (`dof_desc.py:219-221`): the hash of the tuple of type and
fields, for arbitrary hash functions of atoms (`ha`) and tuples (`ht`). -/
def Obj.hash (ha : Obj → Int) (ht : Int → Option Stage → Gran → Int) : Obj → Int
  | .dd g s r => ht (Obj.hash ha ht g) s r
  | o => ha o

/-! ## C09 -/

/-- legal stage arguments -/
def ValidStage (o : Obj) : Prop := o = .none ∨ ∃ s, o = .stage s
/-- legal granularity arguments -/
def ValidGran (o : Obj) : Prop := o = .none ∨ ∃ g, o = .gran g

/-- C09 (constructor): construction succeeds exactly for legal stages and
granularities, raises `ValueError` otherwise, keeps geometry and stage, and uses node
granularity by default. -/
theorem C09_construct (geometry stage gran : Obj) :
    ((∃ d, mk geometry stage gran = .ok d) ↔ ValidStage stage ∧ ValidGran gran) ∧
    (¬ (ValidStage stage ∧ ValidGran gran) → mk geometry stage gran = .error .value) ∧
    (∀ d, mk geometry stage gran = .ok d → d.geometry = geometry ∧
      (stage = stageObj d.stage) ∧ (gran = .gran d.gran ∨ gran = .none ∧ d.gran = .node)) := by
  cases stage <;> cases gran <;> simp [mk, ValidStage, ValidGran, stageObj] <;>
    (intro d h; subst h; simp [stageObj])

/-- not a descriptor -/
def NotDesc (o : Obj) : Prop := ∀ g s r, o ≠ .dd g s r

/-- C09 (copy): with a geometry that is not a descriptor, `copy` changes exactly the
given fields and fails exactly when an explicitly given stage/granularity is
illegal. -/
theorem C09_copy_fields (d : DD) (geometry stage gran : Obj) (hg : NotDesc geometry)
    (hs : stage = .noArg ∨ ValidStage stage) (hr : ValidGran gran) :
    ∃ d', copy d geometry stage gran = .ok d' ∧
      (d'.geometry = if geometry = .none then d.geometry else geometry) ∧
      (stageObj d'.stage = if stage = .noArg then stageObj d.stage else stage) ∧
      (Obj.gran d'.gran = if gran = .none then .gran d.gran else gran) := by
  have hp : unwrapGeo geometry stage = (geometry, stage) := by
    cases geometry with
    | dd g s r => exact absurd rfl (hg g s r)
    | _ => rfl
  unfold copy
  rw [hp]
  have hst : ∀ o : Option Stage, ∃ x, mk (if geometry = .none then d.geometry else geometry) (stageObj o)
      (if gran = .none then .gran d.gran else gran) = .ok x ∧
      x.geometry = (if geometry = .none then d.geometry else geometry) ∧ x.stage = o ∧
      (Obj.gran x.gran = if gran = .none then .gran d.gran else gran) := by
    intro o
    rcases hr with h | ⟨g, h⟩ <;> subst h <;> cases o <;> simp [mk, stageObj]
  rcases hs with h | h | ⟨s, h⟩ <;> subst h <;> simp only
  · obtain ⟨x, h1, h2, h3, h4⟩ := hst d.stage
    exact ⟨x, by simpa using h1, h2, by simp [h3], h4⟩
  · obtain ⟨x, h1, h2, h3, h4⟩ := hst none
    exact ⟨x, by simpa [stageObj] using h1, h2, by simp [h3, stageObj], h4⟩
  · obtain ⟨x, h1, h2, h3, h4⟩ := hst (some s)
    exact ⟨x, by simpa [stageObj] using h1, h2, by simp [h3, stageObj], h4⟩

/-- C09 (copy with illegal explicit arguments): `ValueError`. -/
theorem C09_copy_rejects (d : DD) (geometry stage gran : Obj)
    (h : ¬ (stage = .noArg ∨ ValidStage stage) ∨ ¬ ValidGran gran) :
    copy d geometry stage gran = .error .value := by
  rcases h with h | h
  · simp only [not_or] at h
    have h2 : (unwrapGeo geometry stage).2 = stage := by
      cases geometry <;> simp [unwrapGeo, h.1]
    unfold copy
    simp only [h2, h.1, if_false]
    have h3 : ¬ ValidStage stage := h.2
    cases stage <;> simp_all [mk, ValidStage]
  · have h1 : gran ≠ .none := fun hh => h (Or.inl hh)
    unfold copy
    simp only [h1, if_false]
    cases gran <;> simp_all [mk, ValidGran] <;> split <;> rfl

/-- C09 (copy with a descriptor as geometry): takes over geometry (unless unset) and
stage (unless a stage is given explicitly), never the granularity. -/
theorem C09_copy_from_descriptor (d other : DD) (stage : Obj)
    (hs : stage = .noArg ∨ ValidStage stage) :
    ∃ d', copy d other.obj stage .none = .ok d' ∧
      (d'.geometry = if other.geometry = .none then d.geometry else other.geometry) ∧
      (stageObj d'.stage = if stage = .noArg then stageObj other.stage else stage) ∧
      d'.gran = d.gran := by
  have hst : ∀ o : Option Stage, stageObj o ≠ .noArg := by intro o; cases o <;> simp [stageObj]
  have hmk : ∀ g (o : Option Stage) r, mk g (stageObj o) (.gran r) = .ok ⟨g, o, r⟩ := by
    intro g o r; cases o <;> simp [mk, stageObj]
  unfold copy
  simp only [DD.obj, if_true, unwrapGeo]
  rcases hs with h | h | ⟨s, h⟩ <;> subst h
  · simp only [if_true, hst, if_false, hmk]
    exact ⟨_, rfl, rfl, rfl, rfl⟩
  · have h0 : (Obj.none : Obj) = stageObj none := rfl
    refine ⟨⟨if other.geometry = .none then d.geometry else other.geometry, none, d.gran⟩, ?_, rfl, ?_, rfl⟩
    · simp only [reduceCtorEq, if_false]
      exact hmk _ none _
    · simp [stageObj]
  · refine ⟨⟨if other.geometry = .none then d.geometry else other.geometry, some s, d.gran⟩, ?_, rfl, ?_, rfl⟩
    · simp only [reduceCtorEq, if_false]
      exact hmk _ (some s) _
    · simp [stageObj]

/-- apply a sequence of `to_stage...` calls -/
def toStages (d : DD) : List Stage → Except Err DD
  | [] => .ok d
  | s :: l => match toStage s d with
    | .error x => .error x
    | .ok d' => toStages d' l

/-- C09 (stages): any sequence of `to_stage...` calls succeeds and sets exactly the
stage, to that of the last call. -/
theorem C09_last_stage_wins : ∀ (l : List Stage) (d : DD),
    toStages d l = .ok { d with stage := match l.getLast? with | some s => some s | none => d.stage }
  | [], d => by simp [toStages]
  | s :: l, d => by
    have h1 : toStage s d = .ok { d with stage := some s } := by simp [toStage, copy, mk, unwrapGeo]
    simp only [toStages, h1]
    rw [C09_last_stage_wins l]
    cases l with
    | nil => simp
    | cons a l =>
      rw [List.getLast?_cons_cons]
      cases h : (a :: l).getLast? with
      | none => simp at h
      | some x => simp

example : toStages ⟨.ident "bdry", none, .center⟩ [.stage1, .quadStage2, .stage2]
    = .ok ⟨.ident "bdry", some .stage2, .center⟩ := by rfl
example : copy ⟨.ident "a", some .stage1, .element⟩ (.dd (.ident "b") none .center) .noArg .none
    = .ok ⟨.ident "b", none, .element⟩ := by rfl
example : mk (.ident "a") (.gran .node) .none = .error .value := by rfl

/-! ## C10 -/

/-- C10: `as_dofdesc` never fails and is idempotent. -/
theorem C10_as_dofdesc_idempotent (o : Obj) :
    ∃ d, asDofdesc o = .ok d ∧ asDofdesc d.obj = .ok d := by
  cases o <;> simp [asDofdesc, mk, DD.obj]

/-- C10: meaning of `as_dofdesc`: descriptors are unchanged; a stage, a granularity or
any other identifier sets exactly that field. -/
theorem C10_as_dofdesc_value (o : Obj) : asDofdesc o = .ok (match o with
    | .dd g s r => ⟨g, s, r⟩
    | .stage s => ⟨.none, some s, .node⟩
    | .gran g => ⟨.none, none, g⟩
    | o => ⟨o, none, .node⟩) := by
  cases o <;> simp [asDofdesc, mk]

theorem eq_iff : ∀ (a b : Obj), Obj.eq a b = true ↔ a = b
  | .dd g s r, b => by
    cases b with
    | dd g' s' r' => simp [Obj.eq, eq_iff g g', and_assoc]
    | _ => simp [Obj.eq]
  | .none, b => by cases b <;> simp [Obj.eq]
  | .noArg, b => by cases b <;> simp [Obj.eq]
  | .stage s, b => by cases b <;> simp [Obj.eq]
  | .gran s, b => by cases b <;> simp [Obj.eq]
  | .defaultSource, b => by cases b <;> simp [Obj.eq]
  | .defaultTarget, b => by cases b <;> simp [Obj.eq]
  | .ident s, b => by cases b <;> simp [Obj.eq]

/-- C10: `==` on descriptors is an equivalence relation, `!=` is its negation, and equal
descriptors hash equal, for all hash functions of atoms and tuples. -/
theorem C10_eq_hash (ha : Obj → Int) (ht : Int → Option Stage → Gran → Int) :
    (∀ a : DD, Obj.eq a.obj a.obj = true) ∧
    (∀ a b : DD, Obj.eq a.obj b.obj = true → Obj.eq b.obj a.obj = true) ∧
    (∀ a b c : DD, Obj.eq a.obj b.obj = true → Obj.eq b.obj c.obj = true →
      Obj.eq a.obj c.obj = true) ∧
    (∀ a b : DD, Obj.ne a.obj b.obj = true ↔ ¬ Obj.eq a.obj b.obj = true) ∧
    (∀ a b : DD, Obj.eq a.obj b.obj = true → Obj.hash ha ht a.obj = Obj.hash ha ht b.obj) := by
  refine ⟨fun a => (eq_iff _ _).2 rfl, fun a b h => (eq_iff _ _).2 ((eq_iff _ _).1 h).symm,
    fun a b c h h' => (eq_iff _ _).2 (((eq_iff _ _).1 h).trans ((eq_iff _ _).1 h')), ?_,
    fun a b h => by rw [(eq_iff _ _).1 h]⟩
  intro a b
  simp [Obj.ne]

/-- C10: descriptors are equal exactly when geometry, stage and granularity agree. -/
theorem C10_eq_fields (a b : DD) : Obj.eq a.obj b.obj = true ↔
    a.geometry = b.geometry ∧ a.stage = b.stage ∧ a.gran = b.gran := by
  rw [eq_iff]
  simp [DD.obj]

example : Obj.eq (.dd (.ident "a") none .node) (.dd (.ident "a") (some .stage1) .node) = false := by rfl

end Verif.DofDesc
