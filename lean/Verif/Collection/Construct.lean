/-!
# Constructing geometry collections (C18)

Model of `GeometryCollection.__init__` (`pytential/collection.py:147-236`) and
`_prepare_auto_where` (`pytential/symbolic/execution.py:598-623`).
-/

namespace Verif.Coll

/-- Geometry identifiers: strings, the two unnamed defaults (`dof_desc.py`,
`_UNNAMED_SOURCE`/`_UNNAMED_TARGET`), other hashable objects. -/
inductive GeoId | str (s : String) | unnamedSource | unnamedTarget | obj (n : Nat)
  deriving DecidableEq, Repr

/-- What the `isinstance` tests of the constructor can tell apart, with the ambient
dimension; `target` is `PointsTarget`, `customTarget` any other subclass of `TargetBase`,
`other` any unsupported object. -/
inductive Kind | qbx | unregularized | pointSource | discr | target | customTarget | other
  deriving DecidableEq, Repr

/-- a geometry object: identity, kind, ambient dimension -/
structure Geo where
  uid : Nat
  kind : Kind
  dim : Nat
  deriving DecidableEq, Repr

/-- `isinstance(p, PotentialSource | TargetBase | Discretization)`
(`collection.py:219-223`) -/
def Geo.supported (g : Geo) : Bool := g.kind != .other

/-- the documented forms of the argument `places` -/
inductive PlacesArg
  | single (g : Geo)
  | pair (s t : Geo)
  | mapping (m : List (GeoId × Geo))
  deriving Repr

/-- Python `dict`s as association lists, insertion order, unique keys: display
`{k1: v1, k2: v2}` -/
def insertD {α : Type} (m : List (GeoId × α)) (k : GeoId) (v : α) : List (GeoId × α) :=
  if (m.map (·.1)).contains k then m.map (fun p => if p.1 = k then (k, v) else p) else m ++ [(k, v)]

/-- dictionary lookup -/
def lookupD {α : Type} (m : List (GeoId × α)) (k : GeoId) : Option α :=
  (m.find? (fun p => decide (p.1 = k))).map (·.2)

/-- exceptions of the constructor -/
inductive CErr | value | type | runtime | assertion | key
  deriving DecidableEq, Repr

/-- result of construction: places and the default source and target -/
structure Built where
  places : List (GeoId × Geo)
  autoSource : GeoId
  autoTarget : GeoId
  deriving Repr

/-- the argument `auto_where`: `None`, one identifier, or a pair -/
inductive AutoArg | none | one (g : GeoId) | two (s t : GeoId)
  deriving Repr

/-- `_prepare_auto_where(auto_where)` without collection (`execution.py:598-623`); only
the geometry of the descriptors matters here. -/
def prepareAutoWhere : AutoArg → GeoId × GeoId
  | .none => (.unnamedSource, .unnamedTarget)
  | .one g => (g, g)
  | .two s t => (s, t)

/-- "construct dict" (`collection.py:172-195`).  A bare target takes the second branch of
the first `if` and then falls through to the final `else` of the second `if`, whose
`assert isinstance(places, Mapping)` fails; so does any unsupported object. -/
def makeDict (a : PlacesArg) (src tgt : GeoId) : Except CErr (List (GeoId × Geo) × GeoId × GeoId) :=
  match a with
  | .single g =>
    match g.kind with
    | .qbx => .ok (insertD (insertD [] src g) src g, src, src)
    | .discr | .pointSource | .unregularized => .ok (insertD (insertD [] src g) tgt g, src, tgt)
    | .target | .customTarget | .other => .error .assertion
  | .pair s t => .ok (insertD (insertD [] src s) tgt t, src, tgt)
  | .mapping m => .ok (m, src, tgt)

/-- "validate" (`collection.py:199-230`) -/
def validate (valid : String → Bool) (m : List (GeoId × Geo)) (src tgt : GeoId) : Except CErr Built :=
  if (lookupD m src).isNone then .error .value
  else if (lookupD m tgt).isNone then .error .value
  else if (m.map (·.1)).any (fun k => match k with | .str s => !valid s | _ => false) then .error .value
  else if (m.map (·.2)).any (fun g => !g.supported) then .error .type
  else match m.map (·.2.dim) with
    | [] => .error .runtime
    | d :: ds => if ds.all (fun d' => d' == d) then .ok ⟨m, src, tgt⟩ else .error .runtime

/-- `GeometryCollection.__init__` (`collection.py:147-236`); `valid` is
`_is_valid_identifier`. -/
def construct (valid : String → Bool) (a : PlacesArg) (w : AutoArg) : Except CErr Built :=
  match makeDict a (prepareAutoWhere w).1 (prepareAutoWhere w).2 with
  | .error x => .error x
  | .ok (m, s, t) => validate valid m s t

/-! ## Specification and proof -/

/-- the named places a documented argument stands for, given the default names -/
def Meaning (a : PlacesArg) (src tgt : GeoId) (m : List (GeoId × Geo)) : Prop :=
  match a with
  | .single g => ∀ k v, (k, v) ∈ m ↔ v = g ∧ (k = src ∨ k = tgt ∧ g.kind ≠ .qbx)
  | .pair s t => src ≠ tgt → ∀ k v, (k, v) ∈ m ↔ (k = src ∧ v = s) ∨ (k = tgt ∧ v = t)
  | .mapping m' => m = m'

/-- all requirements the constructor checks -/
def WellFormed (valid : String → Bool) (m : List (GeoId × Geo)) (src tgt : GeoId) : Prop :=
  (∃ g, (src, g) ∈ m) ∧ (∃ g, (tgt, g) ∈ m) ∧
  (∀ s g, (GeoId.str s, g) ∈ m → valid s = true) ∧
  (∀ k g, (k, g) ∈ m → g.kind ≠ .other) ∧
  (∀ k g k' g', (k, g) ∈ m → (k', g') ∈ m → g.dim = g'.dim)

theorem lookupD_isNone {α : Type} (m : List (GeoId × α)) (k : GeoId) :
    (lookupD m k).isNone = true ↔ ∀ v, (k, v) ∉ m := by
  unfold lookupD
  simp only [Option.isNone_map, Option.isNone_iff_eq_none, List.find?_eq_none, decide_eq_true_eq]
  constructor
  · intro h v hv; exact h (k, v) hv rfl
  · rintro h ⟨k', v⟩ hp rfl; exact h v hp

theorem validate_ok (valid : String → Bool) (m : List (GeoId × Geo)) (src tgt : GeoId) :
    (WellFormed valid m src tgt → validate valid m src tgt = .ok ⟨m, src, tgt⟩) ∧
    (¬ WellFormed valid m src tgt → ∃ x, validate valid m src tgt = .error x) := by
  unfold validate
  by_cases h1 : (lookupD m src).isNone
  · rw [if_pos h1]
    refine ⟨fun ⟨⟨g, hg⟩, _⟩ => absurd hg ((lookupD_isNone m src).1 h1 g), fun _ => ⟨_, rfl⟩⟩
  rw [if_neg h1]
  have h1' : ∃ g, (src, g) ∈ m := by
    rw [lookupD_isNone] at h1; simpa using h1
  by_cases h2 : (lookupD m tgt).isNone
  · rw [if_pos h2]
    refine ⟨fun ⟨_, ⟨g, hg⟩, _⟩ => absurd hg ((lookupD_isNone m tgt).1 h2 g), fun _ => ⟨_, rfl⟩⟩
  rw [if_neg h2]
  have h2' : ∃ g, (tgt, g) ∈ m := by
    rw [lookupD_isNone] at h2; simpa using h2
  by_cases h3 : (m.map (·.1)).any (fun k => match k with | .str s => !valid s | _ => false) = true
  · rw [if_pos h3]
    refine ⟨fun h => ?_, fun _ => ⟨_, rfl⟩⟩
    exfalso
    rw [List.any_eq_true] at h3
    obtain ⟨k, hk, hv⟩ := h3
    obtain ⟨p, hp, rfl⟩ := List.mem_map.1 hk
    obtain ⟨k, g⟩ := p
    cases k with
    | str s => have := h.2.2.1 s g hp; simp [this] at hv
    | _ => simp at hv
  rw [if_neg h3]
  have h3' : ∀ s g, (GeoId.str s, g) ∈ m → valid s = true := by
    intro s g hg
    by_cases hv : valid s = true
    · exact hv
    · exact absurd (List.any_eq_true.2 ⟨.str s, List.mem_map.2 ⟨_, hg, rfl⟩, by simp [hv]⟩) h3
  by_cases h4 : (m.map (·.2)).any (fun g => !g.supported) = true
  · rw [if_pos h4]
    refine ⟨fun h => ?_, fun _ => ⟨_, rfl⟩⟩
    exfalso
    rw [List.any_eq_true] at h4
    obtain ⟨g, hg, hv⟩ := h4
    obtain ⟨⟨k, g⟩, hp, rfl⟩ := List.mem_map.1 hg
    have := h.2.2.2.1 k g hp
    simp [Geo.supported, this] at hv
  rw [if_neg h4]
  have h4' : ∀ k g, (k, g) ∈ m → g.kind ≠ .other := by
    intro k g hg ho
    exact absurd (List.any_eq_true.2 ⟨g, List.mem_map.2 ⟨_, hg, rfl⟩, by simp [Geo.supported, ho]⟩) h4
  have hall : (∀ d ∈ m.map (fun p => p.2.dim), ∀ d' ∈ m.map (fun p => p.2.dim), d = d') ↔
      (∀ k g k' g', (k, g) ∈ m → (k', g') ∈ m → g.dim = g'.dim) := by
    constructor
    · intro h k g k' g' hg hg'
      exact h _ (List.mem_map.2 ⟨_, hg, rfl⟩) _ (List.mem_map.2 ⟨_, hg', rfl⟩)
    · intro h d hd d' hd'
      obtain ⟨⟨k, g⟩, hp, rfl⟩ := List.mem_map.1 hd
      obtain ⟨⟨k', g'⟩, hp', rfl⟩ := List.mem_map.1 hd'
      exact h k g k' g' hp hp'
  have hW : WellFormed valid m src tgt ↔
      (∀ d ∈ m.map (fun p => p.2.dim), ∀ d' ∈ m.map (fun p => p.2.dim), d = d') := by
    rw [hall]
    exact ⟨fun h => h.2.2.2.2, fun h => ⟨h1', h2', h3', h4', h⟩⟩
  rw [hW]
  cases hd : m.map (fun p => p.2.dim) with
  | nil =>
    exfalso
    obtain ⟨g, hg⟩ := h1'
    have : m = [] := by simpa using hd
    rw [this] at hg
    cases hg
  | cons d ds =>
    simp only
    by_cases ha : ds.all (fun d' => d' == d) = true
    · rw [if_pos ha]
      refine ⟨fun _ => rfl, fun h => absurd ?_ h⟩
      rw [List.all_eq_true] at ha
      have : ∀ x ∈ d :: ds, x = d := by
        intro x hx
        rcases List.mem_cons.1 hx with rfl | hx
        · rfl
        · simpa using ha x hx
      intro x hx y hy
      rw [this x hx, this y hy]
    · rw [if_neg ha]
      refine ⟨fun h => absurd ?_ ha, fun _ => ⟨_, rfl⟩⟩
      rw [List.all_eq_true]
      intro x hx
      simpa using h x (by simp [hx]) d (by simp)

theorem makeDict_meaning (a : PlacesArg) (src tgt : GeoId) (m s t)
    (h : makeDict a src tgt = .ok (m, s, t)) : Meaning a src tgt m ∧ s = src ∧
      (t = tgt ∨ t = src) := by
  cases a with
  | single g =>
    simp only [makeDict] at h
    split at h
    all_goals first | (cases h; done) | skip
    all_goals
      rename_i hk
      simp only [Except.ok.injEq, Prod.mk.injEq] at h
      obtain ⟨rfl, rfl, rfl⟩ := h
      refine ⟨?_, rfl, by simp⟩
      simp only [Meaning, hk]
      intro k v
      by_cases hst : src = tgt
      · subst hst; simp [insertD]; grind
      · simp [insertD, hst]; grind
  | pair s' t' =>
    simp only [makeDict, Except.ok.injEq, Prod.mk.injEq] at h
    obtain ⟨rfl, rfl, rfl⟩ := h
    refine ⟨?_, rfl, by simp⟩
    intro hst k v
    simp [insertD, Ne.symm hst]
    try grind
  | mapping m' =>
    simp only [makeDict, Except.ok.injEq, Prod.mk.injEq] at h
    obtain ⟨rfl, rfl, rfl⟩ := h
    exact ⟨rfl, rfl, by simp⟩

/-- C18: for every mapping, and every pair or single geometry other than a bare target
set, construction succeeds exactly if the defaults are present, string names are valid,
all values are supported and all ambient dimensions agree; the places are the ones
meant.  Partial: see `C18_refuted`. -/
theorem C18_construct_partial (valid : String → Bool) (a : PlacesArg) (w : AutoArg)
    (ha : ∀ g, a = .single g → g.kind ≠ .target ∧ g.kind ≠ .customTarget) :
    (∃ b, construct valid a w = .ok b ∧ Meaning a (prepareAutoWhere w).1 (prepareAutoWhere w).2 b.places ∧
        b.autoSource = (prepareAutoWhere w).1 ∧
        WellFormed valid b.places b.autoSource b.autoTarget) ∨
    (∃ x, construct valid a w = .error x ∧
      ((∃ g, a = .single g ∧ g.kind = .other) ∨ ∃ m s t, makeDict a (prepareAutoWhere w).1 (prepareAutoWhere w).2 = .ok (m, s, t) ∧
        Meaning a (prepareAutoWhere w).1 (prepareAutoWhere w).2 m ∧ ¬ WellFormed valid m s t)) := by
  unfold construct
  cases h : makeDict a (prepareAutoWhere w).1 (prepareAutoWhere w).2 with
  | error x =>
    right
    refine ⟨x, rfl, ?_⟩
    cases a with
    | single g =>
      simp only [makeDict] at h
      left
      refine ⟨g, rfl, ?_⟩
      have := ha g rfl
      cases hk : g.kind <;> simp_all
    | pair s t => simp [makeDict] at h
    | mapping m => simp [makeDict] at h
  | ok p =>
    obtain ⟨m, s, t⟩ := p
    obtain ⟨hm, hs, ht⟩ := makeDict_meaning _ _ _ _ _ _ h
    obtain ⟨v1, v2⟩ := validate_ok valid m s t
    by_cases hw : WellFormed valid m s t
    · left
      exact ⟨_, v1 hw, hm, hs, hw⟩
    · right
      obtain ⟨x, hx⟩ := v2 hw
      exact ⟨x, hx, Or.inr ⟨m, s, t, rfl, hm, hw⟩⟩

/-- C18 (mappings): the plain equivalence for the mapping form. -/
theorem C18_mapping (valid : String → Bool) (m : List (GeoId × Geo)) (w : AutoArg) :
    (∃ b, construct valid (.mapping m) w = .ok b) ↔
      WellFormed valid m (prepareAutoWhere w).1 (prepareAutoWhere w).2 := by
  obtain ⟨v1, v2⟩ := validate_ok valid m (prepareAutoWhere w).1 (prepareAutoWhere w).2
  simp only [construct, makeDict]
  constructor
  · rintro ⟨b, hb⟩
    by_cases hw : WellFormed valid m (prepareAutoWhere w).1 (prepareAutoWhere w).2
    · exact hw
    · obtain ⟨x, hx⟩ := v2 hw
      rw [hx] at hb; cases hb
  · intro hw; exact ⟨_, v1 hw⟩

/-- C18 is false for a bare target set, a documented form of the argument: construction
always fails with an `AssertionError`. -/
theorem C18_refuted (valid : String → Bool) (w : AutoArg) (n d : Nat) :
    construct valid (.single ⟨n, .target, d⟩) w = .error .assertion := rfl

/-- non-vacuity -/
example : WellFormed (fun _ => true) [(.str "q", ⟨0, .qbx, 2⟩), (.str "t", ⟨1, .target, 2⟩)] (.str "q") (.str "t") := by
  simp [WellFormed]; grind
example : ∃ b, construct (fun _ => true) (.single ⟨0, .qbx, 2⟩) .none = .ok b := ⟨_, rfl⟩

end Verif.Coll
