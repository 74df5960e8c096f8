import Verif.QBX.Checks

/-!
# The refinement loops (C32, C33)

Models `_refine_qbx_stage1` and `_refine_qbx_stage2` (`pytential/qbx/refinement.py:667-884`).

`meshmode`'s refiner is modelled as the state it is: it remembers the mesh it refined last, and
refining a discretization of another mesh than the refiner's current one is an error of the model
(`mismatch`), shown never to happen.  The expansion disk and quadrature resolution checks are
represented by the set of elements they flag (characterised in `Checks.lean`).
-/

namespace Verif.Refine

open Verif.Checks

set_option linter.unusedSectionVars false

section

variable {M D F : Type} [DecidableEq M] [LinearOrder F]

/-- `QBXRefinementMode` (`refinement.py:142-144`) -/
inductive Mode
  | refine
  | none
  | error
deriving DecidableEq

/-- names of the criteria (`refinement.py:720`, `:741`, `:764`, `:846`) -/
inductive Crit
  | lengthScale
  | curvature
  | disks
  | quad
deriving DecidableEq

/-- meshes and discretizations: mesh of a discretization, number of elements, refined mesh for given
flags, discretization made by the group factory, per-element quantities and outcomes of the two
tree-based checks -/
structure Env (M D F : Type) where
  meshOf : D → M
  nel : M → Nat
  refineMesh : M → (Nat → Bool) → M
  mkDiscr : M → D
  quadRes : D → Nat → F
  curv : D → Nat → F
  diskBad : D → Nat → Bool
  quadBad : D → D → Nat → Bool

/-- parameters of the refinement -/
structure Params (F : Type) where
  mode : Mode
  lengthScale : Option F
  curvThreshold : Option F
  maxiter : Nat
  rounds : Nat

/-- a refinement connection: from where, which elements were flagged, to where -/
structure Link (D : Type) where
  src : D
  flags : Nat → Bool
  dst : D

/-- how refinement ends: discretization, the connections of the chain, and the criteria listed in the
warning if one was issued; or `QBXRefinementNeededError` with its criteria; or a mismatch between
refiner and discretization -/
inductive Outcome (D : Type)
  | done (d : D) (links : List (Link D)) (warning : Option (List (List Crit)))
  | needed (criteria : List Crit)
  | mismatch

/-- threshold check, when a threshold is given (`refinement.py:703-720`, `:725-741`): flags and
criteria -/
def optThreshold (ord : List Nat → List Nat) (prop : Nat → F) (n : Nat) (crit : Crit) :
    Option F → (Nat → Bool) × List Crit → (Nat → Bool) × List Crit
  | .none, st => st
  | some t, (flags, cs) =>
    let r := checkThreshold ord prop n t flags
    (r.1, if r.2 then cs ++ [crit] else cs)

/-- a tree-based check whose set of offending elements is `bad` (`refinement.py:758-764`,
`:841-846`) -/
def setCheck (ord : List Nat → List Nat) (bad : Nat → Bool) (n : Nat) (crit : Crit)
    (st : (Nat → Bool) × List Crit) : (Nat → Bool) × List Crit :=
  let r := runUpdates (ord ((List.range n).filter bad)) (st.1, false)
  (r.1, if r.2 then st.2 ++ [crit] else st.2)

/-- the checks of one stage-1 iteration (`refinement.py:701-767`) -/
def checks1 (ord : List Nat → List Nat) (e : Env M D F) (p : Params F) (d : D) :
    (Nat → Bool) × List Crit :=
  let n := e.nel (e.meshOf d)
  let a := optThreshold ord (e.quadRes d) n .lengthScale p.lengthScale (fun _ => false, [])
  let b := optThreshold ord (e.curv d) n .curvature p.curvThreshold a
  if b.2 = [] then setCheck ord (e.diskBad d) n .disks b else b

/-- the check of one stage-2 iteration (`refinement.py:839-846`) -/
def checks2 (ord : List Nat → List Nat) (e : Env M D F) (d1 d : D) : (Nat → Bool) × List Crit :=
  setCheck ord (e.quadBad d1 d) (e.nel (e.meshOf d)) .quad (fun _ => false, [])

/-- `wrangler.refine` (`refinement.py:534-546`) with the refiner's current mesh `cur`: the new current
mesh and the connection -/
def wrangRefine (e : Env M D F) (cur : M) (d : D) (flags : Nat → Bool) : Option (M × Link D) :=
  if e.meshOf d = cur then
    some (e.refineMesh cur flags, ⟨d, flags, e.mkDiscr (e.refineMesh cur flags)⟩)
  else .none

/-- the `while` loop of either stage (`refinement.py:692-788`, `:820-869`); also returns the refiner's
current mesh.  `check` is the iteration's checks. -/
def loop (check : D → (Nat → Bool) × List Crit) (e : Env M D F) (mode : Mode) (maxiter : Nat)
    (niter : Nat) (cur : M) (d : D) (links : List (Link D)) (crits : List (List Crit)) :
    Outcome D × M :=
  if niter + 1 > maxiter then (.done d links (some crits), cur)
  else if (check d).2 = [] then (.done d links .none, cur)
  else if mode = .error then (.needed (check d).2, cur)
  else
    match wrangRefine e cur d (check d).1 with
    | .none => (.mismatch, cur)
    | some (cur', l) =>
      loop check e mode maxiter (niter + 1) cur' l.dst (links ++ [l]) (crits ++ [(check d).2])
termination_by maxiter - niter

/-- `_refine_qbx_stage1` (`refinement.py:667-794`) -/
def stage1 (ord : List Nat → List Nat) (e : Env M D F) (p : Params F) (d : D) : Outcome D :=
  if p.mode = .none then .done d [] .none
  else (loop (checks1 ord e p) e p.mode p.maxiter 0 (e.meshOf d) d [] []).1

/-- the forced uniform rounds (`refinement.py:871-878`) -/
def uniform (e : Env M D F) : Nat → M → D → List (Link D) → Option (D × List (Link D))
  | 0, _, d, links => some (d, links)
  | n + 1, cur, d, links =>
    match wrangRefine e cur d (fun i => decide (i < e.nel (e.meshOf d))) with
    | .none => .none
    | some (cur', l) => uniform e n cur' l.dst (links ++ [l])

/-- `_refine_qbx_stage2` (`refinement.py:797-884`) -/
def stage2 (ord : List Nat → List Nat) (e : Env M D F) (p : Params F) (d1 : D) : Outcome D :=
  if p.mode = .none then .done d1 [] .none
  else
    match loop (checks2 ord e d1) e p.mode p.maxiter 0 (e.meshOf d1) d1 [] [] with
    | (.done d links w, cur) =>
      match uniform e p.rounds cur d links with
      | some (d', links') => .done d' links' w
      | .none => .mismatch
    | (o, _) => o

/-! ## specification -/

/-- element `i` of `d` violates a stage-1 criterion -/
inductive Bad1 (e : Env M D F) (p : Params F) (d : D) (i : Nat) : Crit → Prop
  | lengthScale (t : F) : p.lengthScale = some t → t < e.quadRes d i → Bad1 e p d i .lengthScale
  | curvature (t : F) : p.curvThreshold = some t → t < e.curv d i → Bad1 e p d i .curvature
  | disks : e.diskBad d i = true → Bad1 e p d i .disks

/-- all stage-1 criteria hold on all elements -/
def Satisfied1 (e : Env M D F) (p : Params F) (d : D) : Prop :=
  ∀ i < e.nel (e.meshOf d), ∀ c, ¬ Bad1 e p d i c

/-- the stage-2 criterion holds on all elements -/
def Satisfied2 (e : Env M D F) (d1 d : D) : Prop :=
  ∀ i < e.nel (e.meshOf d), e.quadBad d1 d i = false

/-- elements a stage-1 round refines: those violating a size criterion, or if there are none, those
violating the disk criterion -/
def Flag1 (e : Env M D F) (p : Params F) (d : D) (i : Nat) : Prop :=
  i < e.nel (e.meshOf d) ∧
    ((Bad1 e p d i .lengthScale ∨ Bad1 e p d i .curvature) ∨
      Bad1 e p d i .disks ∧
        ∀ j < e.nel (e.meshOf d), ¬ Bad1 e p d j .lengthScale ∧ ¬ Bad1 e p d j .curvature)

/-- a chain of refinements leading from `d` to `d'`, each of a nonempty set of elements given by
`flag` -/
inductive Chain (e : Env M D F) (flag : D → Nat → Prop) : D → List (Link D) → D → Prop
  | nil (d) : Chain e flag d [] d
  | cons (d d' : D) (l : Link D) (ls : List (Link D)) : l.src = d →
      (∀ i, l.flags i = true ↔ flag d i) → (∃ i, flag d i) →
      l.dst = e.mkDiscr (e.refineMesh (e.meshOf d) l.flags) → Chain e flag l.dst ls d' →
      Chain e flag d (l :: ls) d'

/-- a chain of `n` refinements of all elements leading from `d` to `d'` -/
inductive Uniform (e : Env M D F) : Nat → D → List (Link D) → D → Prop
  | nil (d) : Uniform e 0 d [] d
  | cons (n : Nat) (d d' : D) (l : Link D) (ls : List (Link D)) : l.src = d →
      (∀ i, l.flags i = true ↔ i < e.nel (e.meshOf d)) →
      l.dst = e.mkDiscr (e.refineMesh (e.meshOf d) l.flags) → Uniform e n l.dst ls d' →
      Uniform e (n + 1) d (l :: ls) d'

/-! ## checks -/

theorem chain_snoc (e : Env M D F) (flag : D → Nat → Prop) (d d' : D) (ls : List (Link D)) (l : Link D)
    (h : Chain e flag d ls d') (h1 : l.src = d') (h2 : ∀ i, l.flags i = true ↔ flag d' i)
    (h3 : ∃ i, flag d' i) (h4 : l.dst = e.mkDiscr (e.refineMesh (e.meshOf d') l.flags)) :
    Chain e flag d (ls ++ [l]) l.dst := by
  induction h with
  | nil d => exact .cons d _ l [] h1 h2 h3 h4 (.nil _)
  | cons d d' l' ls a1 a2 a3 a4 _ ih => exact .cons d _ l' _ a1 a2 a3 a4 (ih h1 h2 h3 h4)

theorem optThreshold_spec (ord : List Nat → List Nat) (hord : ∀ l, (ord l).Perm l) (prop : Nat → F)
    (n : Nat) (crit : Crit) (o : Option F) (flags : Nat → Bool) (cs : List Crit) :
    (∀ i, (optThreshold ord prop n crit o (flags, cs)).1 i = true ↔
      flags i = true ∨ i < n ∧ ∃ t, o = some t ∧ t < prop i) ∧
    ((optThreshold ord prop n crit o (flags, cs)).2 = [] ↔
      cs = [] ∧ ∀ i < n, ∀ t, o = some t → ¬ t < prop i) ∧
    (∀ c, c ∈ (optThreshold ord prop n crit o (flags, cs)).2 ↔
      c ∈ cs ∨ c = crit ∧ ∃ i < n, ∃ t, o = some t ∧ t < prop i) := by
  cases o with
  | none => simp [optThreshold]
  | some t =>
    have hev : ∀ e, (∃ i ∈ List.range n, e ∈ thresholdEvents prop t i) ↔ e < n ∧ t < prop e := by
      intro e
      constructor
      · rintro ⟨i, hi, he⟩
        simp only [thresholdEvents] at he
        split at he
        · rename_i ht
          rw [List.mem_singleton] at he; subst he
          exact ⟨List.mem_range.1 hi, ht⟩
        · cases he
      · rintro ⟨h1, h2⟩
        exact ⟨e, List.mem_range.2 h1, by simp [thresholdEvents, h2]⟩
    have h1 : ∀ e, (checkThreshold ord prop n t flags).1 e = true ↔
        flags e = true ∨ e < n ∧ t < prop e := by
      intro e
      rw [checkThreshold, (runUpdates_spec _ flags false).1 e]
      apply or_congr Iff.rfl
      rw [(hord _).mem_iff, List.mem_flatMap, hev]
    have h2 : (checkThreshold ord prop n t flags).2 = true ↔ ∃ e < n, t < prop e := by
      rw [checkThreshold, (runUpdates_spec _ flags false).2]
      constructor
      · rintro (h' | ⟨e, he⟩)
        · cases h'
        · rw [(hord _).mem_iff, List.mem_flatMap, hev] at he
          exact ⟨e, he⟩
      · rintro ⟨e, he⟩
        exact Or.inr ⟨e, (hord _).mem_iff.2 (List.mem_flatMap.2 ((hev e).2 he))⟩
    refine ⟨?_, ?_, ?_⟩
    · intro i
      simp only [optThreshold]
      rw [h1 i]
      simp
    · simp only [optThreshold]
      by_cases h : (checkThreshold ord prop n t flags).2 = true
      · rw [if_pos h]
        obtain ⟨e, he, ht⟩ := h2.1 h
        simp only [List.append_eq_nil_iff, List.cons_ne_self, and_false, false_iff, not_and]
        intro _ h'
        exact h' e he t rfl ht
      · rw [if_neg h]
        constructor
        · intro hcs
          refine ⟨hcs, fun i hi t' ht' hlt => h (h2.2 ⟨i, hi, ?_⟩)⟩
          cases ht'; exact hlt
        · exact fun h => h.1
    · intro c
      simp only [optThreshold]
      by_cases h : (checkThreshold ord prop n t flags).2 = true
      · rw [if_pos h]
        obtain ⟨e, he, ht⟩ := h2.1 h
        simp only [List.mem_append, List.mem_singleton]
        exact or_congr Iff.rfl ⟨fun hc => ⟨hc, e, he, t, rfl, ht⟩, fun hc => hc.1⟩
      · rw [if_neg h]
        constructor
        · exact Or.inl
        · rintro (hc | ⟨-, i, hi, t', ht', hlt⟩)
          · exact hc
          · cases ht'; exact absurd (h2.2 ⟨i, hi, hlt⟩) h

theorem setCheck_spec (ord : List Nat → List Nat) (hord : ∀ l, (ord l).Perm l) (bad : Nat → Bool)
    (n : Nat) (crit : Crit) (flags : Nat → Bool) (cs : List Crit) :
    (∀ i, (setCheck ord bad n crit (flags, cs)).1 i = true ↔
      flags i = true ∨ i < n ∧ bad i = true) ∧
    ((setCheck ord bad n crit (flags, cs)).2 = [] ↔ cs = [] ∧ ∀ i < n, bad i = false) ∧
    (∀ c, c ∈ (setCheck ord bad n crit (flags, cs)).2 ↔
      c ∈ cs ∨ c = crit ∧ ∃ i < n, bad i = true) := by
  have hmem : ∀ i, i ∈ ord ((List.range n).filter bad) ↔ i < n ∧ bad i = true := by
    intro i
    rw [(hord _).mem_iff, List.mem_filter, List.mem_range]
  obtain ⟨h1, h2⟩ := runUpdates_spec (ord ((List.range n).filter bad)) flags false
  refine ⟨?_, ?_, ?_⟩
  · intro i
    simp only [setCheck]
    rw [h1 i, hmem]
  · simp only [setCheck]
    by_cases h : (runUpdates (ord ((List.range n).filter bad)) (flags, false)).2 = true
    · rw [if_pos h]
      rcases h2.1 h with h' | ⟨e, he⟩
      · cases h'
      · obtain ⟨he, hb⟩ := (hmem e).1 he
        simp only [List.append_eq_nil_iff, List.cons_ne_self, and_false, false_iff, not_and]
        intro _ h'
        rw [h' e he] at hb; cases hb
    · rw [if_neg h]
      constructor
      · intro hcs
        refine ⟨hcs, fun i hi => ?_⟩
        cases hb : bad i with
        | false => rfl
        | true => exact absurd (h2.2 (Or.inr ⟨i, (hmem i).2 ⟨hi, hb⟩⟩)) h
      · exact fun h => h.1
  · intro c
    simp only [setCheck]
    by_cases h : (runUpdates (ord ((List.range n).filter bad)) (flags, false)).2 = true
    · rw [if_pos h]
      rcases h2.1 h with h' | ⟨e, he⟩
      · cases h'
      · simp only [List.mem_append, List.mem_singleton]
        exact or_congr Iff.rfl ⟨fun hc => ⟨hc, e, (hmem e).1 he⟩, fun hc => hc.1⟩
    · rw [if_neg h]
      constructor
      · exact Or.inl
      · rintro (hc | ⟨-, i, hi⟩)
        · exact hc
        · exact absurd (h2.2 (Or.inr ⟨i, (hmem i).2 hi⟩)) h

theorem bad1_length (e : Env M D F) (p : Params F) (d : D) (i : Nat) :
    Bad1 e p d i .lengthScale ↔ ∃ t, p.lengthScale = some t ∧ t < e.quadRes d i := by
  constructor
  · intro h; cases h with | lengthScale t h1 h2 => exact ⟨t, h1, h2⟩
  · rintro ⟨t, h1, h2⟩; exact .lengthScale t h1 h2

theorem bad1_curv (e : Env M D F) (p : Params F) (d : D) (i : Nat) :
    Bad1 e p d i .curvature ↔ ∃ t, p.curvThreshold = some t ∧ t < e.curv d i := by
  constructor
  · intro h; cases h with | curvature t h1 h2 => exact ⟨t, h1, h2⟩
  · rintro ⟨t, h1, h2⟩; exact .curvature t h1 h2

theorem bad1_disks (e : Env M D F) (p : Params F) (d : D) (i : Nat) :
    Bad1 e p d i .disks ↔ e.diskBad d i = true := by
  constructor
  · intro h; cases h with | disks h => exact h
  · exact .disks

/-- everything about the checks of a stage-1 iteration -/
theorem checks1_spec (ord : List Nat → List Nat) (hord : ∀ l, (ord l).Perm l) (e : Env M D F)
    (p : Params F) (d : D) :
    ((checks1 ord e p d).2 = [] ↔ Satisfied1 e p d) ∧
    (∀ i, (checks1 ord e p d).1 i = true ↔ Flag1 e p d i) ∧
    (∀ c, c ∈ (checks1 ord e p d).2 ↔ ∃ i, Flag1 e p d i ∧ Bad1 e p d i c ∧
      (c = .disks → ∀ j < e.nel (e.meshOf d), ¬ Bad1 e p d j .lengthScale ∧ ¬ Bad1 e p d j .curvature)) := by
  obtain ⟨a1, a2, a3⟩ := optThreshold_spec ord hord (e.quadRes d) (e.nel (e.meshOf d)) .lengthScale
    p.lengthScale (fun _ => false) []
  obtain ⟨b1, b2, b3⟩ := optThreshold_spec ord hord (e.curv d) (e.nel (e.meshOf d)) .curvature
    p.curvThreshold (optThreshold ord (e.quadRes d) (e.nel (e.meshOf d)) .lengthScale p.lengthScale
      (fun _ => false, [])).1 (optThreshold ord (e.quadRes d) (e.nel (e.meshOf d)) .lengthScale
        p.lengthScale (fun _ => false, [])).2
  have hb1 : ∀ i, (optThreshold ord (e.curv d) (e.nel (e.meshOf d)) .curvature p.curvThreshold
      (optThreshold ord (e.quadRes d) (e.nel (e.meshOf d)) .lengthScale p.lengthScale
        (fun _ => false, []))).1 i = true ↔
      i < e.nel (e.meshOf d) ∧ (Bad1 e p d i .lengthScale ∨ Bad1 e p d i .curvature) := by
    intro i
    rw [b1 i, a1 i, bad1_length, bad1_curv, and_or_left]
    simp
  have hb2 : (optThreshold ord (e.curv d) (e.nel (e.meshOf d)) .curvature p.curvThreshold
      (optThreshold ord (e.quadRes d) (e.nel (e.meshOf d)) .lengthScale p.lengthScale
        (fun _ => false, []))).2 = [] ↔
      ∀ j < e.nel (e.meshOf d), ¬ Bad1 e p d j .lengthScale ∧ ¬ Bad1 e p d j .curvature := by
    rw [b2, a2]
    constructor
    · rintro ⟨⟨-, h1⟩, h2⟩ j hj
      rw [bad1_length, bad1_curv]
      exact ⟨fun ⟨t, ht, hlt⟩ => h1 j hj t ht hlt, fun ⟨t, ht, hlt⟩ => h2 j hj t ht hlt⟩
    · intro h
      refine ⟨⟨rfl, fun j hj t ht hlt => (h j hj).1 ?_⟩, fun j hj t ht hlt => (h j hj).2 ?_⟩
      · rw [bad1_length]; exact ⟨t, ht, hlt⟩
      · rw [bad1_curv]; exact ⟨t, ht, hlt⟩
  have hb3 : ∀ c, c ∈ (optThreshold ord (e.curv d) (e.nel (e.meshOf d)) .curvature p.curvThreshold
      (optThreshold ord (e.quadRes d) (e.nel (e.meshOf d)) .lengthScale p.lengthScale
        (fun _ => false, []))).2 ↔
      ∃ i < e.nel (e.meshOf d), Bad1 e p d i c ∧ c ≠ .disks := by
    intro c
    rw [b3, a3]
    constructor
    · rintro ((h | ⟨rfl, i, hi, h⟩) | ⟨rfl, i, hi, h⟩)
      · cases h
      · exact ⟨i, hi, (bad1_length e p d i).2 h, by decide⟩
      · exact ⟨i, hi, (bad1_curv e p d i).2 h, by decide⟩
    · rintro ⟨i, hi, h, hc⟩
      cases h with
      | lengthScale t h1 h2 => exact Or.inl (Or.inr ⟨rfl, i, hi, t, h1, h2⟩)
      | curvature t h1 h2 => exact Or.inr ⟨rfl, i, hi, t, h1, h2⟩
      | disks h => exact absurd rfl hc
  generalize hbd : optThreshold ord (e.curv d) (e.nel (e.meshOf d)) .curvature p.curvThreshold
      (optThreshold ord (e.quadRes d) (e.nel (e.meshOf d)) .lengthScale p.lengthScale
        (fun _ => false, [])) = b at hb1 hb2 hb3
  have hck : checks1 ord e p d
      = if b.2 = [] then setCheck ord (e.diskBad d) (e.nel (e.meshOf d)) .disks b else b := by
    simp only [checks1, hbd]
  rw [hck]
  by_cases hnil : b.2 = []
  · rw [if_pos hnil]
    have hall := hb2.1 hnil
    obtain ⟨c1, c2, c3⟩ := setCheck_spec ord hord (e.diskBad d) (e.nel (e.meshOf d)) .disks b.1 b.2
    refine ⟨?_, ?_, ?_⟩
    · rw [c2]
      constructor
      · rintro ⟨-, h⟩ i hi c hbad
        cases hbad with
        | lengthScale t h1 h2 => exact (hall i hi).1 (.lengthScale t h1 h2)
        | curvature t h1 h2 => exact (hall i hi).2 (.curvature t h1 h2)
        | disks hd => rw [h i hi] at hd; cases hd
      · intro h
        refine ⟨hnil, fun i hi => ?_⟩
        cases hb : e.diskBad d i with
        | false => rfl
        | true => exact absurd (.disks hb) (h i hi .disks)
    · intro i
      rw [c1 i, hb1 i]
      constructor
      · rintro (⟨hi, h⟩ | ⟨hi, h⟩)
        · exact ⟨hi, Or.inl h⟩
        · exact ⟨hi, Or.inr ⟨.disks h, hall⟩⟩
      · rintro ⟨hi, h | ⟨h, -⟩⟩
        · exact Or.inl ⟨hi, h⟩
        · exact Or.inr ⟨hi, (bad1_disks e p d i).1 h⟩
    · intro c
      rw [c3 c, hnil]
      constructor
      · rintro (h | ⟨rfl, i, hi, h⟩)
        · cases h
        · exact ⟨i, ⟨hi, Or.inr ⟨.disks h, hall⟩⟩, .disks h, fun _ => hall⟩
      · rintro ⟨i, hf, hbad, -⟩
        cases hbad with
        | lengthScale t h1 h2 => exact absurd (.lengthScale t h1 h2) (hall i hf.1).1
        | curvature t h1 h2 => exact absurd (.curvature t h1 h2) (hall i hf.1).2
        | disks hd => exact Or.inr ⟨rfl, i, hf.1, hd⟩
  · rw [if_neg hnil]
    refine ⟨?_, ?_, ?_⟩
    · constructor
      · intro h; exact absurd h hnil
      · intro h
        refine absurd (hb2.2 fun j hj => ⟨h j hj _, h j hj _⟩) hnil
    · intro i
      rw [hb1 i]
      constructor
      · rintro ⟨hi, h⟩; exact ⟨hi, Or.inl h⟩
      · rintro ⟨hi, h | ⟨-, h⟩⟩
        · exact ⟨hi, h⟩
        · exact absurd (hb2.2 h) hnil
    · intro c
      rw [hb3 c]
      constructor
      · rintro ⟨i, hi, hbad, hc⟩
        refine ⟨i, ⟨hi, Or.inl ?_⟩, hbad, fun h => absurd h hc⟩
        cases hbad with
        | lengthScale t h1 h2 => exact Or.inl (.lengthScale t h1 h2)
        | curvature t h1 h2 => exact Or.inr (.curvature t h1 h2)
        | disks hd => exact absurd rfl hc
      · rintro ⟨i, hf, hbad, hc⟩
        refine ⟨i, hf.1, hbad, ?_⟩
        rintro rfl
        exact hnil (hb2.2 (hc rfl))

/-! ## the loop -/

/-- what a run of the loop from iteration `niter` does -/
theorem loop_spec (check : D → (Nat → Bool) × List Crit) (e : Env M D F) (flag : D → Nat → Prop)
    (hm : ∀ m, e.meshOf (e.mkDiscr m) = m) (hflag : ∀ d i, (check d).1 i = true ↔ flag d i)
    (hex : ∀ d, (check d).2 ≠ [] → ∃ i, flag d i)
    (mode : Mode) (maxiter niter : Nat) (cur : M) (d0 d : D) (links : List (Link D))
    (crits : List (List Crit)) (hcur : e.meshOf d = cur) (hch : Chain e flag d0 links d)
    (hlen : links.length = niter) (hcr : crits.length = niter) (hni : niter ≤ maxiter)
    (hmode : mode = .error → niter = 0) :
    match loop check e mode maxiter niter cur d links crits with
    | (.done d' links' w, cur') =>
        e.meshOf d' = cur' ∧ Chain e flag d0 links' d' ∧ links'.length ≤ maxiter ∧
        (w = .none → (check d').2 = []) ∧
        (∀ cs, w = some cs → links'.length = maxiter ∧ cs.length = maxiter) ∧
        (mode = .error → links' = links ∧ d' = d)
    | (.needed cs, _) => mode = .error ∧ cs = (check d).2 ∧ cs ≠ [] ∧ niter < maxiter
    | (.mismatch, _) => False := by
  rw [loop]
  by_cases h : niter + 1 > maxiter
  · rw [if_pos h]
    refine ⟨hcur, hch, by omega, (by intro h'; cases h'), ?_, fun _ => ⟨rfl, rfl⟩⟩
    intro cs hcs
    cases hcs
    exact ⟨by omega, by omega⟩
  · rw [if_neg h]
    by_cases h2 : (check d).2 = []
    · rw [if_pos h2]
      exact ⟨hcur, hch, by omega, fun _ => h2, (by intro cs hcs; cases hcs), fun _ => ⟨rfl, rfl⟩⟩
    · rw [if_neg h2]
      by_cases h3 : mode = .error
      · rw [if_pos h3]
        exact ⟨h3, rfl, h2, by omega⟩
      · rw [if_neg h3]
        simp only [wrangRefine, hcur, if_true]
        have ih := loop_spec check e flag hm hflag hex mode maxiter (niter + 1)
          (e.refineMesh cur (check d).1) d0 (e.mkDiscr (e.refineMesh cur (check d).1))
          (links ++ [⟨d, (check d).1, e.mkDiscr (e.refineMesh cur (check d).1)⟩])
          (crits ++ [(check d).2]) (hm _)
          (chain_snoc e flag d0 d links ⟨d, (check d).1, e.mkDiscr (e.refineMesh cur (check d).1)⟩ hch rfl
            (hflag d) (hex d h2) (by rw [hcur]))
          (by simp [hlen]) (by simp [hcr]) (by omega) (fun h => absurd h h3)
        revert ih
        generalize loop check e mode maxiter (niter + 1) (e.refineMesh cur (check d).1)
          (e.mkDiscr (e.refineMesh cur (check d).1))
          (links ++ [⟨d, (check d).1, e.mkDiscr (e.refineMesh cur (check d).1)⟩])
          (crits ++ [(check d).2]) = r
        intro ih
        obtain ⟨o, c⟩ := r
        cases o with
        | done d' links' w =>
          obtain ⟨i1, i2, i3, i4, i5, i6⟩ := ih
          exact ⟨i1, i2, i3, i4, i5, fun h => absurd h h3⟩
        | needed cs => exact absurd ih.1 h3
        | mismatch => exact ih
termination_by maxiter - niter

/-- C32, stage 1: refinement that returns has performed at most `maxiter` rounds; the connection leads
from the original to the returned discretization through exactly the performed refinements, each of
the (nonempty) set of elements violating the criteria of that round; without warning all criteria
hold for the returned discretization; a warning is issued only after exactly `maxiter` rounds. -/
theorem C32_stage1 (ord : List Nat → List Nat) (hord : ∀ l, (ord l).Perm l) (e : Env M D F)
    (hm : ∀ m, e.meshOf (e.mkDiscr m) = m) (p : Params F) (hmode : p.mode ≠ .none) (d d' : D)
    (links : List (Link D)) (w : Option (List (List Crit)))
    (h : stage1 ord e p d = .done d' links w) :
    Chain e (Flag1 e p) d links d' ∧ links.length ≤ p.maxiter ∧
      (w = none → Satisfied1 e p d') ∧
      (∀ cs, w = some cs → links.length = p.maxiter ∧ cs.length = p.maxiter) := by
  rw [stage1, if_neg hmode] at h
  have key := loop_spec (checks1 ord e p) e (Flag1 e p) hm (fun d => (checks1_spec ord hord e p d).2.1)
    (by
      intro d hne
      obtain ⟨c, hc⟩ := List.exists_mem_of_ne_nil _ hne
      obtain ⟨i, hi, -⟩ := ((checks1_spec ord hord e p d).2.2 c).1 hc
      exact ⟨i, hi⟩)
    p.mode p.maxiter 0 (e.meshOf d) d d [] [] rfl (.nil d) rfl rfl (by omega) (fun _ => rfl)
  revert key h
  generalize loop (checks1 ord e p) e p.mode p.maxiter 0 (e.meshOf d) d [] [] = r
  obtain ⟨o, c⟩ := r
  intro h key
  simp only at h
  subst h
  obtain ⟨k1, k2, k3, k4, k5, -⟩ := key
  exact ⟨k2, k3, fun hw => (checks1_spec ord hord e p d').1.1 (k4 hw), k5⟩

theorem uniform_spec (e : Env M D F) (hm : ∀ m, e.meshOf (e.mkDiscr m) = m) (n : Nat) (cur : M) (d : D)
    (links : List (Link D)) (hcur : e.meshOf d = cur) :
    ∃ d' ls, uniform e n cur d links = some (d', links ++ ls) ∧ Uniform e n d ls d' := by
  induction n generalizing cur d links with
  | zero => exact ⟨d, [], by simp [uniform], .nil d⟩
  | succ n ih =>
    obtain ⟨d', ls, h1, h2⟩ := ih
      (e.refineMesh cur (fun i => decide (i < e.nel (e.meshOf d))))
      (e.mkDiscr (e.refineMesh cur (fun i => decide (i < e.nel (e.meshOf d)))))
      (links ++ [⟨d, fun i => decide (i < e.nel (e.meshOf d)),
        e.mkDiscr (e.refineMesh cur (fun i => decide (i < e.nel (e.meshOf d))))⟩]) (hm _)
    refine ⟨d', ⟨d, fun i => decide (i < e.nel (e.meshOf d)),
        e.mkDiscr (e.refineMesh cur (fun i => decide (i < e.nel (e.meshOf d))))⟩ :: ls, ?_, ?_⟩
    · simp only [uniform, wrangRefine, hcur, if_true] at h1 ⊢
      rw [h1]; simp
    · exact .cons n d d' _ ls rfl (fun i => by simp) (by rw [hcur]) h2

/-- elements a stage-2 round refines -/
def Flag2 (e : Env M D F) (d1 d : D) (i : Nat) : Prop :=
  i < e.nel (e.meshOf d) ∧ e.quadBad d1 d i = true

theorem checks2_spec (ord : List Nat → List Nat) (hord : ∀ l, (ord l).Perm l) (e : Env M D F) (d1 d : D) :
    ((checks2 ord e d1 d).2 = [] ↔ Satisfied2 e d1 d) ∧
    (∀ i, (checks2 ord e d1 d).1 i = true ↔ Flag2 e d1 d i) ∧
    ((checks2 ord e d1 d).2 ≠ [] → ∃ i, Flag2 e d1 d i) := by
  obtain ⟨c1, c2, c3⟩ := setCheck_spec ord hord (e.quadBad d1 d) (e.nel (e.meshOf d)) .quad
    (fun _ => false) []
  refine ⟨?_, ?_, ?_⟩
  · rw [checks2, c2]; simp [Satisfied2]
  · intro i; rw [checks2, c1]; simp [Flag2]
  · intro hne
    obtain ⟨c, hc⟩ := List.exists_mem_of_ne_nil _ hne
    rcases (c3 c).1 hc with h | ⟨-, i, hi, hb⟩
    · cases h
    · exact ⟨i, hi, hb⟩

/-- C32, stage 2: likewise, with the requested number of uniform rounds performed at the end; without
warning the quadrature resolution criterion holds for the discretization before the uniform
rounds. -/
theorem C32_stage2 (ord : List Nat → List Nat) (hord : ∀ l, (ord l).Perm l) (e : Env M D F)
    (hm : ∀ m, e.meshOf (e.mkDiscr m) = m) (p : Params F) (hmode : p.mode ≠ .none) (d1 d' : D)
    (links : List (Link D)) (w : Option (List (List Crit)))
    (h : stage2 ord e p d1 = .done d' links w) :
    ∃ d l1 l2, links = l1 ++ l2 ∧ Chain e (Flag2 e d1) d1 l1 d ∧ Uniform e p.rounds d l2 d' ∧
      l1.length ≤ p.maxiter ∧ (w = none → Satisfied2 e d1 d) ∧
      (∀ cs, w = some cs → l1.length = p.maxiter ∧ cs.length = p.maxiter) := by
  rw [stage2, if_neg hmode] at h
  have key := loop_spec (checks2 ord e d1) e (Flag2 e d1) hm (fun d => (checks2_spec ord hord e d1 d).2.1)
    (fun d => (checks2_spec ord hord e d1 d).2.2)
    p.mode p.maxiter 0 (e.meshOf d1) d1 d1 [] [] rfl (.nil d1) rfl rfl (by omega) (fun _ => rfl)
  revert key h
  generalize loop (checks2 ord e d1) e p.mode p.maxiter 0 (e.meshOf d1) d1 [] [] = r
  obtain ⟨o, c⟩ := r
  intro h key
  cases o with
  | needed cs => cases h
  | mismatch => cases h
  | done d l1 w' =>
    obtain ⟨k1, k2, k3, k4, k5, -⟩ := key
    obtain ⟨d'', ls, h1, h2⟩ := uniform_spec e hm p.rounds c d l1 k1
    simp only [h1] at h
    cases h
    exact ⟨d, l1, ls, rfl, k2, h2, k3, fun hw => (checks2_spec ord hord e d1 d).1.1 (k4 hw), k5⟩

/-- C32: the refiner is never used on a discretization it does not belong to. -/
theorem C32_no_mismatch (ord : List Nat → List Nat) (hord : ∀ l, (ord l).Perm l) (e : Env M D F)
    (hm : ∀ m, e.meshOf (e.mkDiscr m) = m) (p : Params F) (d : D) :
    stage1 ord e p d ≠ .mismatch ∧ stage2 ord e p d ≠ .mismatch := by
  constructor
  · rw [stage1]
    split
    · intro h; cases h
    · have key := loop_spec (checks1 ord e p) e (Flag1 e p) hm
        (fun d => (checks1_spec ord hord e p d).2.1)
        (by
          intro d hne
          obtain ⟨c, hc⟩ := List.exists_mem_of_ne_nil _ hne
          obtain ⟨i, hi, -⟩ := ((checks1_spec ord hord e p d).2.2 c).1 hc
          exact ⟨i, hi⟩)
        p.mode p.maxiter 0 (e.meshOf d) d d [] [] rfl (.nil d) rfl rfl (by omega) (fun _ => rfl)
      revert key
      generalize loop (checks1 ord e p) e p.mode p.maxiter 0 (e.meshOf d) d [] [] = r
      obtain ⟨o, c⟩ := r
      intro key h
      simp only at h
      subst h
      exact key
  · rw [stage2]
    split
    · intro h; cases h
    · have key := loop_spec (checks2 ord e d) e (Flag2 e d) hm
        (fun d' => (checks2_spec ord hord e d d').2.1) (fun d' => (checks2_spec ord hord e d d').2.2)
        p.mode p.maxiter 0 (e.meshOf d) d d [] [] rfl (.nil d) rfl rfl (by omega) (fun _ => rfl)
      revert key
      generalize loop (checks2 ord e d) e p.mode p.maxiter 0 (e.meshOf d) d [] [] = r
      obtain ⟨o, c⟩ := r
      intro key h
      cases o with
      | needed cs => cases h
      | mismatch => exact key
      | done d' l1 w' =>
        obtain ⟨d'', ls, h1, h2⟩ := uniform_spec e hm p.rounds c d' l1 key.1
        simp only [h1] at h
        cases h

/-- C33: `NO_REFINEMENT` returns the given discretizations with identity connections and without
warning, whatever the criteria and forced rounds. -/
theorem C33_none (ord : List Nat → List Nat) (e : Env M D F) (p : Params F) (hp : p.mode = .none)
    (d : D) : stage1 ord e p d = .done d [] none ∧ stage2 ord e p d = .done d [] none := by
  simp [stage1, stage2, hp]

/-- C33, stage 1: `ERROR_ON_REFINEMENT` (with at least one iteration allowed) raises
`QBXRefinementNeededError` exactly if some element violates some criterion, naming violated
criteria only; otherwise the discretization is returned as it is. -/
theorem C33_error_stage1 (ord : List Nat → List Nat) (hord : ∀ l, (ord l).Perm l) (e : Env M D F)
    (p : Params F) (hp : p.mode = .error)
    (hmax : 1 ≤ p.maxiter) (d : D) :
    (Satisfied1 e p d → stage1 ord e p d = .done d [] none) ∧
    (¬ Satisfied1 e p d → ∃ cs, stage1 ord e p d = .needed cs ∧ cs ≠ [] ∧
      ∀ c ∈ cs, ∃ i < e.nel (e.meshOf d), Bad1 e p d i c) := by
  have h0 : stage1 ord e p d
      = if (checks1 ord e p d).2 = [] then .done d [] none else .needed (checks1 ord e p d).2 := by
    rw [stage1, if_neg (by rw [hp]; decide), loop, if_neg (by omega), hp]
    split
    · rfl
    · rfl
  obtain ⟨c1, -, c3⟩ := checks1_spec ord hord e p d
  constructor
  · intro hs
    rw [h0, if_pos (c1.2 hs)]
  · intro hs
    have hne : (checks1 ord e p d).2 ≠ [] := fun h => hs (c1.1 h)
    rw [h0, if_neg hne]
    refine ⟨_, rfl, hne, ?_⟩
    intro c hc
    obtain ⟨i, hf, hb, -⟩ := (c3 c).1 hc
    exact ⟨i, hf.1, hb⟩

/-- C33, stage 2: likewise; if the criterion holds, exactly the requested number of uniform rounds is
carried out. -/
theorem C33_error_stage2 (ord : List Nat → List Nat) (hord : ∀ l, (ord l).Perm l) (e : Env M D F)
    (hm : ∀ m, e.meshOf (e.mkDiscr m) = m) (p : Params F) (hp : p.mode = .error)
    (hmax : 1 ≤ p.maxiter) (d : D) :
    (Satisfied2 e d d → ∃ d' ls, stage2 ord e p d = .done d' ls none ∧ Uniform e p.rounds d ls d') ∧
    (¬ Satisfied2 e d d → stage2 ord e p d = .needed [.quad]) := by
  obtain ⟨c1, -, -⟩ := checks2_spec ord hord e d d
  have hl : loop (checks2 ord e d) e p.mode p.maxiter 0 (e.meshOf d) d [] []
      = if (checks2 ord e d d).2 = [] then (.done d [] none, e.meshOf d)
        else (.needed (checks2 ord e d d).2, e.meshOf d) := by
    rw [loop, if_neg (by omega), hp]
    split
    · rfl
    · rfl
  constructor
  · intro hs
    obtain ⟨d', ls, h1, h2⟩ := uniform_spec e hm p.rounds (e.meshOf d) d [] rfl
    refine ⟨d', ls, ?_, h2⟩
    rw [stage2, if_neg (by rw [hp]; decide), hl, if_pos (c1.2 hs)]
    simp only [h1]
    rfl
  · intro hs
    have hne : (checks2 ord e d d).2 ≠ [] := fun h => hs (c1.1 h)
    rw [stage2, if_neg (by rw [hp]; decide), hl, if_neg hne]
    have : (checks2 ord e d d).2 = [] ∨ (checks2 ord e d d).2 = [.quad] := by
      simp only [checks2, setCheck]
      split
      · right; rfl
      · left; rfl
    rcases this with h | h
    · exact absurd h hne
    · simp only [h]

/-- C33: with no iteration allowed at all, `ERROR_ON_REFINEMENT` degenerates to a warning: no criterion
is looked at and no error raised (`refinement.py:704-710,824-830` come before the check). -/
theorem C33_maxiter_zero (ord : List Nat → List Nat) (e : Env M D F) (p : Params F)
    (hp : p.mode ≠ .none) (hmax : p.maxiter = 0) (d : D) : stage1 ord e p d = .done d [] (some []) := by
  rw [stage1, if_neg hp, loop, if_pos (by omega)]

/-- C33: in the refining mode no error is raised. -/
theorem C33_refine_no_error (ord : List Nat → List Nat) (hord : ∀ l, (ord l).Perm l) (e : Env M D F)
    (hm : ∀ m, e.meshOf (e.mkDiscr m) = m) (p : Params F) (hp : p.mode = .refine) (d : D) :
    (∃ d' ls w, stage1 ord e p d = .done d' ls w) ∧ (∃ d' ls w, stage2 ord e p d = .done d' ls w) := by
  have hno : ∀ check : D → (Nat → Bool) × List Crit, ∀ n cur d ls cs,
      ∀ crit c', loop check e .refine p.maxiter n cur d ls cs ≠ (.needed crit, c') := by
    intro check n
    induction hk : p.maxiter - n generalizing n with
    | zero =>
      intro cur d ls cs crit c' h
      rw [loop] at h
      rw [if_pos (by omega)] at h
      cases h
    | succ k ih =>
      intro cur d ls cs crit c' h
      rw [loop] at h
      split at h
      · cases h
      · split at h
        · cases h
        · rw [if_neg (by decide)] at h
          split at h
          · cases h
          · exact ih (n + 1) (by omega) _ _ _ _ _ _ h
  obtain ⟨h1, h2⟩ := C32_no_mismatch ord hord e hm p d
  constructor
  · rw [stage1, if_neg (by rw [hp]; decide)] at h1 ⊢
    rw [hp] at h1 ⊢
    cases hr : loop (checks1 ord e p) e .refine p.maxiter 0 (e.meshOf d) d [] [] with
    | mk o c =>
      rw [hr] at h1
      cases o with
      | done d' ls w => exact ⟨d', ls, w, rfl⟩
      | needed cs => exact absurd hr (hno _ _ _ _ _ _ _ _)
      | mismatch => exact absurd rfl h1
  · rw [stage2, if_neg (by rw [hp]; decide)] at h2 ⊢
    rw [hp] at h2 ⊢
    cases hr : loop (checks2 ord e d) e .refine p.maxiter 0 (e.meshOf d) d [] [] with
    | mk o c =>
      rw [hr] at h2
      cases o with
      | done d' ls w =>
        simp only at h2 ⊢
        cases hu : uniform e p.rounds c d' ls with
        | none => rw [hu] at h2; exact absurd rfl h2
        | some r => exact ⟨_, _, _, rfl⟩
      | needed cs => exact absurd hr (hno _ _ _ _ _ _ _ _)
      | mismatch => exact absurd rfl h2

end

set_option synthInstance.maxSize 2000

/-! ## example: meshes of an interval, given by the list of element lengths -/

/-- elements are halved -/
def exRefine (m : List Nat) (flags : Nat → Bool) : List Nat :=
  (m.zipIdx).flatMap (fun (h, i) => if flags i then [h / 2, h / 2] else [h])

/-- discretizations are meshes; length scale criterion on element lengths; an element is disturbed if
it is more than three times as long as its right neighbor -/
def exEnv : Env (List Nat) (List Nat) Nat where
  meshOf := id
  nel := List.length
  refineMesh := exRefine
  mkDiscr := id
  quadRes := fun d i => d.getD i 0
  curv := fun _ _ => 0
  diskBad := fun d i => decide (i + 1 < d.length) && decide (3 * d.getD (i + 1) 0 < d.getD i 0)
  quadBad := fun _ _ _ => false

/-- what an outcome looks like from outside: final mesh, mesh sequence, warning, error -/
def exShow : Outcome (List Nat) → Option (List Nat × List (List Nat) × Option (List (List Crit))) × List Crit
  | .done d ls w => (some (d, ls.map Link.dst, w), [])
  | .needed cs => (none, cs)
  | .mismatch => (none, [])

/-- a mesh that first violates the length scale and then, twice, the disk criterion -/
example : exShow (stage1 id exEnv ⟨.refine, some 16, none, 10, 0⟩ [32, 2])
    = (some ([16, 8, 4, 4, 2], [[16, 16, 2], [16, 8, 8, 2], [16, 8, 4, 4, 2]], none), []) := by
  decide +kernel

/-- with a single iteration allowed the refiner gives up with a warning -/
example : exShow (stage1 id exEnv ⟨.refine, some 16, none, 1, 0⟩ [32, 2])
    = (some ([16, 16, 2], [[16, 16, 2]], some [[.lengthScale]]), []) := by
  decide +kernel

/-- in the error mode the violated criterion is reported -/
example : exShow (stage1 id exEnv ⟨.error, some 16, none, 10, 0⟩ [32, 2]) = (none, [.lengthScale]) := by
  decide +kernel

example : ∀ m, exEnv.meshOf (exEnv.mkDiscr m) = m := fun _ => rfl

end Verif.Refine
