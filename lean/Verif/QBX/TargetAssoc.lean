import Mathlib.Tactic.Common
import Mathlib.Algebra.Order.Field.Basic
import Mathlib.Algebra.Order.Field.Rat
import Mathlib.Algebra.Field.Rat
import Mathlib.Tactic.Linarith

/-!
# Target association (C30, C31)

Model of `pytential/qbx/target_assoc.py`: the three area-query kernels (`:185-426`), the
wrangler methods driving them (`:534-850`) and `associate_targets_to_qbx_centers` (`:853-952`).

For every target the area query hands the kernels a list of leaf boxes, each with the list of
sources (or centers) it contains; order and number of leaves are arbitrary.  The kernel
instance of a target reads and writes only that target's array entries, apart from the
commutative `atomic_or`s, so kernels are modelled target by target.

Distances and radii live in an arbitrary linearly ordered field.
-/

namespace Verif.TargetAssoc

set_option linter.unusedSectionVars false

variable {F : Type} [Field F] [LinearOrder F]

/-- `SIDE_FOR_CENTER_PARTICLE` (`qbx/utils.py:64`) -/
def side (c : Nat) : Int := 2 * ((c : Int) % 2) - 1

/-! ## kernels -/

/-- `QBX_TARGET_MARKER`, leaf operation (`target_assoc.py:214-230`): does some source of the
leaf have the target in its tunnel? -/
def markLeaf (dist tunnel : Nat → F) (status : Nat) : List Nat → Nat
  | [] => status
  | s :: ss => markLeaf dist tunnel (if dist s ≤ tunnel s then 1 else status) ss

/-- the marker over all leaves found for one target, from status 0 (`target_assoc.py:896`) -/
def mark (dist tunnel : Nat → F) (leaves : List (List Nat)) : Nat :=
  leaves.foldl (markLeaf dist tunnel) 0

/-- array entries of one target in `QBX_CENTER_FINDER` (`target_assoc.py:247-257`);
`none` is infinity -/
structure FState (F : Type) where
  status : Nat
  ttc : Int
  plus : Int
  minus : Int
  distP : Option F
  distM : Option F
  relP : Option F
  relM : Option F

/-- `a < b` with `none` = infinity -/
def ltInf : Option F → Option F → Bool
  | none, _ => false
  | some _, none => true
  | some a, some b => decide (a < b)

/-- body of the loop over the centers of a leaf (`target_assoc.py:283-345`) -/
def considerCenter (dist radTol : Nat → F) (flag : Int) (st : FState F) (c : Nat) : FState F :=
  if side c * flag < 0 then st
  else if 1 < dist c / radTol c then st
  else if 0 < side c then
    if ltInf (some (dist c / radTol c)) st.relP then
      { st with status := 2, relP := some (dist c / radTol c), distP := some (dist c), plus := c }
    else st
  else
    if ltInf (some (dist c / radTol c)) st.relM then
      { st with status := 2, relM := some (dist c / radTol c), distM := some (dist c), minus := c }
    else st

/-- leaf operation of the center finder (`target_assoc.py:273-365`) -/
def findLeaf (dist radTol : Nat → F) (flag : Int) (st : FState F) (cs : List Nat) : FState F :=
  if st.status = 1 ∨ st.status = 2 then
    let st' := cs.foldl (considerCenter dist radTol flag) st
    { st' with ttc := if ltInf st'.distP st'.distM then st'.plus else st'.minus }
  else st

/-- initial array entries (`target_assoc.py:698-711`, `:845-850`) -/
def initF (status : Nat) : FState F := ⟨status, -1, -1, -1, none, none, none, none⟩

/-- the center finder over all leaves found for one target -/
def find (dist radTol : Nat → F) (flag : Int) (status : Nat) (leaves : List (List Nat)) : FState F :=
  leaves.foldl (findLeaf dist radTol flag) (initF status)

/-- sources for which `QBX_FAILED_TARGET_ASSOCIATION_REFINER` flags the element
(`target_assoc.py:402-424`), for one target -/
def refineHits (dist tunnel : Nat → F) (status : Nat) (leaves : List (List Nat)) : List Nat :=
  leaves.flatten.filter (fun s => decide (dist s ≤ tunnel s) && (status == 1))

/-! ## driver -/

/-- one target: side request, distances to sources and centers, and the leaves the three area
queries find -/
structure Target (F : Type) where
  flag : Int
  srcDist : Nat → F
  ctrDist : Nat → F
  markLeaves : List (List Nat)
  ctrLeaves : List (List Nat)
  refLeaves : List (List Nat)

/-- the layer potential source: tunnel radii by source, expansion radii by center times
`1 + tolerance` (`target_assoc.py:671-681`), element of each source -/
structure Source (F : Type) where
  tunnel : Nat → F
  radTol : Nat → F
  elem : Nat → Nat

/-- how association ends; `failed` carries the two flag arrays of
`QBXTargetAssociationFailedError` and whether the message speaks of on-surface targets -/
inductive Result
  | ok (targetToCenter : List Int)
  | failed (refine : Nat → Bool) (failedTargets : List Bool) (onSurface : Bool)
  | assertion

/-- status after marking -/
def Target.marked (src : Source F) (t : Target F) : Nat := mark t.srcDist src.tunnel t.markLeaves

/-- state after center finding -/
def Target.found (src : Source F) (t : Target F) : FState F :=
  find t.ctrDist src.radTol t.flag (t.marked src) t.ctrLeaves

/-- `target_status == MARKED_QBX_CENTER_PENDING` (`target_assoc.py:915-916`) -/
def Target.notFound (src : Source F) (t : Target F) : Bool := (t.found src).status == 1

/-- sources whose element is flagged because of `t` -/
def Target.hits (src : Source F) (t : Target F) : List Nat :=
  refineHits t.srcDist src.tunnel (t.found src).status t.refLeaves

/-- `associate_targets_to_qbx_centers` (`target_assoc.py:896-952`) -/
def associate (src : Source F) (ts : List (Target F)) : Result :=
  if ¬ ts.any (fun t => t.marked src == 1) then .ok (ts.map (fun _ => -1))
  else if ts.any (fun t => t.notFound src) then
    if ts.any (fun t => !(t.hits src).isEmpty) then
      .failed (fun e => ts.any (fun t => (t.hits src).any (fun s => src.elem s == e)))
        (ts.map (fun t => t.notFound src))
        (ts.any (fun t => t.notFound src && (t.flag == -1 || t.flag == 1)))
    else .assertion
  else .ok (ts.map (fun t => (t.found src).ttc))

/-! ## specification -/

/-- some source has the target within its tunnel -/
def Close (src : Source F) (t : Target F) (s : Nat) : Prop := t.srcDist s ≤ src.tunnel s

/-- center `c` may serve the target: right side, target inside the enlarged disk -/
structure Eligible (src : Source F) (t : Target F) (c : Nat) : Prop where
  side : 0 ≤ side c * t.flag
  disk : t.ctrDist c ≤ src.radTol c

/-- the area queries find all sources and centers that matter among the `ns` sources and `nc`
centers, and only existing ones; the radii are positive -/
structure Covered (src : Source F) (ns nc : Nat) (t : Target F) : Prop where
  mark : ∀ s < ns, Close src t s → ∃ l ∈ t.markLeaves, s ∈ l
  mark_lt : ∀ l ∈ t.markLeaves, ∀ s ∈ l, s < ns
  ctr : ∀ c < nc, t.ctrDist c ≤ src.radTol c → ∃ l ∈ t.ctrLeaves, c ∈ l
  ctr_lt : ∀ l ∈ t.ctrLeaves, ∀ c ∈ l, c < nc
  pos : ∀ c < nc, 0 < src.radTol c

/-- the area query of the refiner finds all close sources -/
structure RefCovered (src : Source F) (ns : Nat) (t : Target F) : Prop where
  ref : ∀ s < ns, Close src t s → ∃ l ∈ t.refLeaves, s ∈ l
  ref_lt : ∀ l ∈ t.refLeaves, ∀ s ∈ l, s < ns

/-! ## the marker -/

theorem markLeaf_spec (dist tunnel : Nat → F) (st : Nat) (l : List Nat) :
    markLeaf dist tunnel st l = if ∃ s ∈ l, dist s ≤ tunnel s then 1 else st := by
  induction l generalizing st with
  | nil => simp [markLeaf]
  | cons s ss ih =>
    rw [markLeaf, ih]
    by_cases h1 : ∃ s ∈ ss, dist s ≤ tunnel s
    · rw [if_pos h1, if_pos]
      obtain ⟨x, hx, hx'⟩ := h1
      exact ⟨x, List.mem_cons_of_mem _ hx, hx'⟩
    · rw [if_neg h1]
      by_cases h2 : dist s ≤ tunnel s
      · rw [if_pos h2, if_pos ⟨s, List.mem_cons_self, h2⟩]
      · rw [if_neg h2, if_neg]
        rintro ⟨x, hx, hx'⟩
        rcases List.mem_cons.1 hx with rfl | hx
        · exact h2 hx'
        · exact h1 ⟨x, hx, hx'⟩

theorem mark_spec (dist tunnel : Nat → F) (leaves : List (List Nat)) :
    mark dist tunnel leaves = if ∃ l ∈ leaves, ∃ s ∈ l, dist s ≤ tunnel s then 1 else 0 := by
  have key : ∀ st, leaves.foldl (markLeaf dist tunnel) st
      = if ∃ l ∈ leaves, ∃ s ∈ l, dist s ≤ tunnel s then 1 else st := by
    induction leaves with
    | nil => intro st; simp
    | cons l ls ih =>
      intro st
      rw [List.foldl_cons, ih, markLeaf_spec]
      by_cases h1 : ∃ l ∈ ls, ∃ s ∈ l, dist s ≤ tunnel s
      · rw [if_pos h1, if_pos]
        obtain ⟨x, hx, hx'⟩ := h1
        exact ⟨x, List.mem_cons_of_mem _ hx, hx'⟩
      · rw [if_neg h1]
        by_cases h2 : ∃ s ∈ l, dist s ≤ tunnel s
        · rw [if_pos h2, if_pos ⟨l, List.mem_cons_self, h2⟩]
        · rw [if_neg h2, if_neg]
          rintro ⟨x, hx, hx'⟩
          rcases List.mem_cons.1 hx with rfl | hx
          · exact h2 hx'
          · exact h1 ⟨x, hx, hx'⟩
  exact key 0

theorem marked_iff (src : Source F) (ns nc : Nat) (t : Target F) (h : Covered src ns nc t) :
    (t.marked src = 1 ↔ ∃ s < ns, Close src t s) ∧ (t.marked src ≠ 1 → t.marked src = 0) := by
  rw [Target.marked, mark_spec]
  constructor
  · constructor
    · intro h1
      split at h1
      · rename_i h2
        obtain ⟨l, hl, s, hs, hd⟩ := h2
        exact ⟨s, h.mark_lt l hl s hs, hd⟩
      · cases h1
    · rintro ⟨s, hs, hc⟩
      obtain ⟨l, hl, hsl⟩ := h.mark s hs hc
      rw [if_pos ⟨l, hl, s, hsl, hc⟩]
  · intro h1
    split
    · rename_i h2; rw [if_pos h2] at h1; exact absurd rfl h1
    · rfl

/-! ## the center finder -/

/-- the registers of one side describe the best of the eligible centers seen -/
def Best (dist rel : Nat → F) (elig : Nat → Prop) (seen : List Nat) (idx : Int) (d r : Option F) : Prop :=
  (idx = -1 ∧ d = none ∧ r = none ∧ ∀ c ∈ seen, ¬ elig c) ∨
  (∃ c ∈ seen, elig c ∧ idx = (c : Int) ∧ d = some (dist c) ∧ r = some (rel c) ∧
    ∀ c' ∈ seen, elig c' → rel c ≤ rel c')

theorem best_skip {dist rel : Nat → F} {elig : Nat → Prop} {seen : List Nat} {idx : Int}
    {d r : Option F} {c : Nat} (h : Best dist rel elig seen idx d r) (hc : ¬ elig c) :
    Best dist rel elig (seen ++ [c]) idx d r := by
  rcases h with ⟨h1, h2, h3, h4⟩ | ⟨b, hb, he, h1, h2, h3, h4⟩
  · refine Or.inl ⟨h1, h2, h3, fun x hx => ?_⟩
    rcases List.mem_append.1 hx with hx | hx
    · exact h4 x hx
    · rw [List.mem_singleton.1 hx]; exact hc
  · refine Or.inr ⟨b, List.mem_append_left _ hb, he, h1, h2, h3, fun x hx hx' => ?_⟩
    rcases List.mem_append.1 hx with hx | hx
    · exact h4 x hx hx'
    · rw [List.mem_singleton.1 hx] at hx'; exact absurd hx' hc

theorem best_take {dist rel : Nat → F} {elig : Nat → Prop} {seen : List Nat} {idx : Int}
    {d r : Option F} {c : Nat} (h : Best dist rel elig seen idx d r) (hc : elig c)
    (hlt : ltInf (some (rel c)) r = true) :
    Best dist rel elig (seen ++ [c]) c (some (dist c)) (some (rel c)) := by
  refine Or.inr ⟨c, by simp, hc, rfl, rfl, rfl, fun x hx hx' => ?_⟩
  rcases List.mem_append.1 hx with hx | hx
  · rcases h with ⟨-, -, -, h4⟩ | ⟨b, hb, he, -, -, h3, h4⟩
    · exact absurd hx' (h4 x hx)
    · subst h3
      simp only [ltInf, decide_eq_true_eq] at hlt
      exact le_trans (le_of_lt hlt) (h4 x hx hx')
  · rw [List.mem_singleton.1 hx]

theorem best_keep {dist rel : Nat → F} {elig : Nat → Prop} {seen : List Nat} {idx : Int}
    {d r : Option F} {c : Nat} (h : Best dist rel elig seen idx d r)
    (hlt : ltInf (some (rel c)) r = false) :
    Best dist rel elig (seen ++ [c]) idx d r := by
  rcases h with ⟨h1, h2, h3, h4⟩ | ⟨b, hb, he, h1, h2, h3, h4⟩
  · subst h3; simp [ltInf] at hlt
  · refine Or.inr ⟨b, List.mem_append_left _ hb, he, h1, h2, h3, fun x hx hx' => ?_⟩
    rcases List.mem_append.1 hx with hx | hx
    · exact h4 x hx hx'
    · subst h3
      simp only [ltInf, decide_eq_false_iff_not, not_lt] at hlt
      rw [List.mem_singleton.1 hx]; exact hlt

/-- eligible on the exterior side, in terms of the kernel's tests -/
def EligP (dist radTol : Nat → F) (flag : Int) (c : Nat) : Prop :=
  ¬ side c * flag < 0 ∧ ¬ 1 < dist c / radTol c ∧ 0 < side c

/-- eligible on the interior side -/
def EligM (dist radTol : Nat → F) (flag : Int) (c : Nat) : Prop :=
  ¬ side c * flag < 0 ∧ ¬ 1 < dist c / radTol c ∧ ¬ 0 < side c

/-- invariant of the center finder -/
structure FInv (dist radTol : Nat → F) (flag : Int) (seen : List Nat) (st : FState F) : Prop where
  plus : Best dist (fun c => dist c / radTol c) (EligP dist radTol flag) seen st.plus st.distP st.relP
  minus : Best dist (fun c => dist c / radTol c) (EligM dist radTol flag) seen st.minus st.distM st.relM
  status : st.status = 1 ∧ (∀ c ∈ seen, ¬ EligP dist radTol flag c ∧ ¬ EligM dist radTol flag c) ∨
    st.status = 2 ∧ ∃ c ∈ seen, EligP dist radTol flag c ∨ EligM dist radTol flag c

theorem status_skip {dist radTol : Nat → F} {flag : Int} {seen : List Nat} {s : Nat} {c : Nat}
    (h : s = 1 ∧ (∀ c ∈ seen, ¬ EligP dist radTol flag c ∧ ¬ EligM dist radTol flag c) ∨
      s = 2 ∧ ∃ c ∈ seen, EligP dist radTol flag c ∨ EligM dist radTol flag c)
    (hc : s = 2 ∨ ¬ EligP dist radTol flag c ∧ ¬ EligM dist radTol flag c) :
    s = 1 ∧ (∀ x ∈ seen ++ [c], ¬ EligP dist radTol flag x ∧ ¬ EligM dist radTol flag x) ∨
      s = 2 ∧ ∃ x ∈ seen ++ [c], EligP dist radTol flag x ∨ EligM dist radTol flag x := by
  rcases h with ⟨h1, h2⟩ | ⟨h1, x, hx, h2⟩
  · rcases hc with hc | hc
    · rw [h1] at hc; cases hc
    · refine Or.inl ⟨h1, fun x hx => ?_⟩
      rcases List.mem_append.1 hx with hx | hx
      · exact h2 x hx
      · rw [List.mem_singleton.1 hx]; exact hc
  · exact Or.inr ⟨h1, x, List.mem_append_left _ hx, h2⟩

theorem best_some_mem {dist rel : Nat → F} {elig : Nat → Prop} {seen : List Nat} {idx : Int}
    {d r : Option F} {x : F} (h : Best dist rel elig seen idx d r)
    (hlt : ltInf (some x) r = false) : ∃ c ∈ seen, elig c := by
  rcases h with ⟨-, -, h3, -⟩ | ⟨b, hb, he, -⟩
  · subst h3; simp [ltInf] at hlt
  · exact ⟨b, hb, he⟩

theorem consider_inv (dist radTol : Nat → F) (flag : Int) (seen : List Nat) (st : FState F) (c : Nat)
    (h : FInv dist radTol flag seen st) :
    FInv dist radTol flag (seen ++ [c]) (considerCenter dist radTol flag st c) := by
  simp only [considerCenter]
  split
  · rename_i h1
    have hp : ¬ EligP dist radTol flag c := fun he => he.1 h1
    have hm : ¬ EligM dist radTol flag c := fun he => he.1 h1
    exact ⟨best_skip h.plus hp, best_skip h.minus hm, status_skip h.status (Or.inr ⟨hp, hm⟩)⟩
  · rename_i h1
    split
    · rename_i h2
      have hp : ¬ EligP dist radTol flag c := fun he => he.2.1 h2
      have hm : ¬ EligM dist radTol flag c := fun he => he.2.1 h2
      exact ⟨best_skip h.plus hp, best_skip h.minus hm, status_skip h.status (Or.inr ⟨hp, hm⟩)⟩
    · rename_i h2
      split
      · rename_i h3
        have hp : EligP dist radTol flag c := ⟨h1, h2, h3⟩
        have hm : ¬ EligM dist radTol flag c := fun he => he.2.2 h3
        split
        · rename_i h4
          exact ⟨best_take h.plus hp h4, best_skip h.minus hm, Or.inr ⟨rfl, c, by simp, Or.inl hp⟩⟩
        · rename_i h4
          have h4 : ltInf (some (dist c / radTol c)) st.relP = false := by simpa using h4
          refine ⟨best_keep h.plus h4, best_skip h.minus hm, status_skip h.status (Or.inl ?_)⟩
          obtain ⟨x, hx, hx'⟩ := best_some_mem h.plus h4
          rcases h.status with ⟨-, hs⟩ | ⟨hs, -⟩
          · exact absurd hx' (hs x hx).1
          · exact hs
      · rename_i h3
        have hp : ¬ EligP dist radTol flag c := fun he => h3 he.2.2
        have hm : EligM dist radTol flag c := ⟨h1, h2, h3⟩
        split
        · rename_i h4
          exact ⟨best_skip h.plus hp, best_take h.minus hm h4, Or.inr ⟨rfl, c, by simp, Or.inr hm⟩⟩
        · rename_i h4
          have h4 : ltInf (some (dist c / radTol c)) st.relM = false := by simpa using h4
          refine ⟨best_skip h.plus hp, best_keep h.minus h4, status_skip h.status (Or.inl ?_)⟩
          obtain ⟨x, hx, hx'⟩ := best_some_mem h.minus h4
          rcases h.status with ⟨-, hs⟩ | ⟨hs, -⟩
          · exact absurd hx' (hs x hx).2
          · exact hs

theorem foldl_inv (dist radTol : Nat → F) (flag : Int) (seen : List Nat) (st : FState F) (cs : List Nat)
    (h : FInv dist radTol flag seen st) :
    FInv dist radTol flag (seen ++ cs) (cs.foldl (considerCenter dist radTol flag) st) := by
  induction cs generalizing seen st with
  | nil => simpa using h
  | cons c cs ih =>
    rw [List.foldl_cons]
    have := ih (seen ++ [c]) _ (consider_inv dist radTol flag seen st c h)
    simpa using this

theorem leaves_inv (dist radTol : Nat → F) (flag : Int) (leaves : List (List Nat)) (seen : List Nat)
    (st : FState F) (h : FInv dist radTol flag seen st)
    (ht : st.ttc = if ltInf st.distP st.distM then st.plus else st.minus) :
    FInv dist radTol flag (seen ++ leaves.flatten) (leaves.foldl (findLeaf dist radTol flag) st) ∧
    (leaves.foldl (findLeaf dist radTol flag) st).ttc
      = if ltInf (leaves.foldl (findLeaf dist radTol flag) st).distP
          (leaves.foldl (findLeaf dist radTol flag) st).distM
        then (leaves.foldl (findLeaf dist radTol flag) st).plus
        else (leaves.foldl (findLeaf dist radTol flag) st).minus := by
  induction leaves generalizing seen st with
  | nil => simpa using ⟨h, ht⟩
  | cons l ls ih =>
    rw [List.foldl_cons]
    have hst : st.status = 1 ∨ st.status = 2 := by
      rcases h.status with ⟨h1, -⟩ | ⟨h1, -⟩
      · exact Or.inl h1
      · exact Or.inr h1
    have hf := foldl_inv dist radTol flag seen st l h
    have := ih (seen ++ l) (findLeaf dist radTol flag st l)
      (by simp only [findLeaf, if_pos hst]; exact ⟨hf.plus, hf.minus, hf.status⟩)
      (by simp only [findLeaf, if_pos hst])
    simpa using this

theorem find_inv (dist radTol : Nat → F) (flag : Int) (leaves : List (List Nat)) :
    FInv dist radTol flag leaves.flatten (find dist radTol flag 1 leaves) ∧
    (find dist radTol flag 1 leaves).ttc
      = if ltInf (find dist radTol flag 1 leaves).distP (find dist radTol flag 1 leaves).distM
        then (find dist radTol flag 1 leaves).plus else (find dist radTol flag 1 leaves).minus := by
  have := leaves_inv dist radTol flag leaves [] (initF 1)
    ⟨Or.inl ⟨rfl, rfl, rfl, by simp⟩, Or.inl ⟨rfl, rfl, rfl, by simp⟩,
      Or.inl ⟨rfl, by simp⟩⟩ rfl
  rw [List.nil_append] at this
  exact this

theorem find_unmarked (dist radTol : Nat → F) (flag : Int) (leaves : List (List Nat)) :
    find dist radTol flag 0 leaves = initF 0 := by
  have : ∀ l : List (List Nat), l.foldl (findLeaf dist radTol flag) (initF 0) = initF 0 := by
    intro l
    induction l with
    | nil => rfl
    | cons a l ih => rw [List.foldl_cons]; simpa [findLeaf, initF] using ih
  exact this leaves

theorem elig_iff [IsStrictOrderedRing F] (src : Source F) (ns nc : Nat) (t : Target F)
    (h : Covered src ns nc t) (c : Nat) (hc : c < nc) :
    Eligible src t c ↔ EligP t.ctrDist src.radTol t.flag c ∨ EligM t.ctrDist src.radTol t.flag c := by
  have hpos := h.pos c hc
  have hd : ¬ 1 < t.ctrDist c / src.radTol c ↔ t.ctrDist c ≤ src.radTol c := by
    rw [not_lt, div_le_one hpos]
  constructor
  · intro he
    by_cases hs : 0 < side c
    · exact Or.inl ⟨not_lt.2 he.side, hd.2 he.disk, hs⟩
    · exact Or.inr ⟨not_lt.2 he.side, hd.2 he.disk, hs⟩
  · rintro (⟨h1, h2, -⟩ | ⟨h1, h2, -⟩)
    · exact ⟨not_lt.1 h1, hd.1 h2⟩
    · exact ⟨not_lt.1 h1, hd.1 h2⟩

variable [IsStrictOrderedRing F]

/-- Relative distance used to compare centers of one side. -/
def rel (src : Source F) (t : Target F) (c : Nat) : F := t.ctrDist c / src.radTol c

theorem found_marked (src : Source F) (ns nc : Nat) (t : Target F) (h : Covered src ns nc t)
    (hm : t.marked src = 1) :
    ((t.found src).status = 1 ∧ (t.found src).ttc = -1 ∧ ∀ c < nc, ¬ Eligible src t c) ∨
    ((t.found src).status = 2 ∧ ∃ c < nc, (t.found src).ttc = (c : Int) ∧ Eligible src t c ∧
      (∀ c' < nc, Eligible src t c' → side c' = side c → rel src t c ≤ rel src t c') ∧
      ((∀ c' < nc, Eligible src t c' → side c' = side c) ∨
        ∃ c' < nc, Eligible src t c' ∧ side c' ≠ side c ∧ t.ctrDist c ≤ t.ctrDist c' ∧
          ∀ c'' < nc, Eligible src t c'' → side c'' = side c' → rel src t c' ≤ rel src t c'')) := by
  obtain ⟨inv, httc⟩ := find_inv t.ctrDist src.radTol t.flag t.ctrLeaves
  have hf : t.found src = find t.ctrDist src.radTol t.flag 1 t.ctrLeaves := by
    rw [Target.found, hm]
  rw [← hf] at inv httc
  have hseen : ∀ c, c ∈ t.ctrLeaves.flatten → c < nc := by
    intro c hc
    obtain ⟨l, hl, hcl⟩ := List.mem_flatten.1 hc
    exact h.ctr_lt l hl c hcl
  have hmem : ∀ c < nc, Eligible src t c → c ∈ t.ctrLeaves.flatten := by
    intro c hc he
    obtain ⟨l, hl, hcl⟩ := h.ctr c hc he.disk
    exact List.mem_flatten.2 ⟨l, hl, hcl⟩
  have hsideP : ∀ c, 0 < side c → side c = 1 := by intro c hc; simp only [side] at hc ⊢; omega
  have hsideM : ∀ c, ¬ 0 < side c → side c = -1 := by intro c hc; simp only [side] at hc ⊢; omega
  have hEP : ∀ c < nc, Eligible src t c → side c = 1 → EligP t.ctrDist src.radTol t.flag c := by
    intro c hc he hs
    rcases (elig_iff src ns nc t h c hc).1 he with hp | hm
    · exact hp
    · have := hm.2.2; rw [hs] at this; omega
  have hEM : ∀ c < nc, Eligible src t c → side c = -1 → EligM t.ctrDist src.radTol t.flag c := by
    intro c hc he hs
    rcases (elig_iff src ns nc t h c hc).1 he with hp | hm
    · have := hp.2.2; rw [hs] at this; omega
    · exact hm
  have hcases : ∀ c, side c = 1 ∨ side c = -1 := by intro c; simp only [side]; omega
  rcases inv.plus with ⟨p1, p2, p3, p4⟩ | ⟨cp, hcp, ep, p1, p2, p3, p4⟩ <;>
    rcases inv.minus with ⟨m1, m2, m3, m4⟩ | ⟨cm, hcm, em, m1, m2, m3, m4⟩
  · left
    refine ⟨?_, ?_, ?_⟩
    · rcases inv.status with ⟨h1, -⟩ | ⟨-, x, hx, hx' | hx'⟩
      · exact h1
      · exact absurd hx' (p4 x hx)
      · exact absurd hx' (m4 x hx)
    · rw [httc, p2, m2, m1]; rfl
    · intro c hc he
      rcases (elig_iff src ns nc t h c hc).1 he with hp | hm'
      · exact p4 c (hmem c hc he) hp
      · exact m4 c (hmem c hc he) hm'
  · right
    have hcm' := hseen cm hcm
    refine ⟨?_, cm, hcm', ?_, (elig_iff src ns nc t h cm hcm').2 (Or.inr em), ?_, Or.inl ?_⟩
    · rcases inv.status with ⟨-, h2⟩ | ⟨h1, -⟩
      · exact absurd em (h2 cm hcm).2
      · exact h1
    · rw [httc, p2, m2, m1]; rfl
    · intro c' hc' he' hs
      exact m4 c' (hmem c' hc' he') (hEM c' hc' he' (by rw [hs]; exact hsideM _ em.2.2))
    · intro c' hc' he'
      rw [hsideM _ em.2.2]
      rcases hcases c' with hs | hs
      · exact absurd (hEP c' hc' he' hs) (p4 c' (hmem c' hc' he'))
      · exact hs
  · right
    have hcp' := hseen cp hcp
    refine ⟨?_, cp, hcp', ?_, (elig_iff src ns nc t h cp hcp').2 (Or.inl ep), ?_, Or.inl ?_⟩
    · rcases inv.status with ⟨-, h2⟩ | ⟨h1, -⟩
      · exact absurd ep (h2 cp hcp).1
      · exact h1
    · rw [httc, p2, m2, p1]; rfl
    · intro c' hc' he' hs
      exact p4 c' (hmem c' hc' he') (hEP c' hc' he' (by rw [hs]; exact hsideP _ ep.2.2))
    · intro c' hc' he'
      rw [hsideP _ ep.2.2]
      rcases hcases c' with hs | hs
      · exact hs
      · exact absurd (hEM c' hc' he' hs) (m4 c' (hmem c' hc' he'))
  · right
    have hcp' := hseen cp hcp
    have hcm' := hseen cm hcm
    have sp := hsideP _ ep.2.2
    have sm := hsideM _ em.2.2
    have hstat : (t.found src).status = 2 := by
      rcases inv.status with ⟨-, h2⟩ | ⟨h1, -⟩
      · exact absurd ep (h2 cp hcp).1
      · exact h1
    by_cases hlt : t.ctrDist cp < t.ctrDist cm
    · refine ⟨hstat, cp, hcp', ?_, (elig_iff src ns nc t h cp hcp').2 (Or.inl ep), ?_, Or.inr ?_⟩
      · rw [httc, p2, m2, p1]; simp [ltInf, hlt]
      · intro c' hc' he' hs
        exact p4 c' (hmem c' hc' he') (hEP c' hc' he' (by rw [hs]; exact sp))
      · refine ⟨cm, hcm', (elig_iff src ns nc t h cm hcm').2 (Or.inr em), by rw [sp, sm]; decide,
          le_of_lt hlt, ?_⟩
        intro c'' hc'' he'' hs
        exact m4 c'' (hmem c'' hc'' he'') (hEM c'' hc'' he'' (by rw [hs]; exact sm))
    · refine ⟨hstat, cm, hcm', ?_, (elig_iff src ns nc t h cm hcm').2 (Or.inr em), ?_, Or.inr ?_⟩
      · rw [httc, p2, m2, m1]; simp [ltInf, hlt]
      · intro c' hc' he' hs
        exact m4 c' (hmem c' hc' he') (hEM c' hc' he' (by rw [hs]; exact sm))
      · refine ⟨cp, hcp', (elig_iff src ns nc t h cp hcp').2 (Or.inl ep), by rw [sp, sm]; decide,
          le_of_not_gt hlt, ?_⟩
        intro c'' hc'' he'' hs
        exact p4 c'' (hmem c'' hc'' he'') (hEP c'' hc'' he'' (by rw [hs]; exact sp))

/-- everything about one target after both kernels -/
theorem found_spec (src : Source F) (ns nc : Nat) (t : Target F) (h : Covered src ns nc t) :
    ((∀ s < ns, ¬ Close src t s) ∧ (t.found src).ttc = -1 ∧ t.notFound src = false) ∨
    ((∃ s < ns, Close src t s) ∧ t.marked src = 1 ∧
      (((t.found src).status = 1 ∧ (t.found src).ttc = -1 ∧ ∀ c < nc, ¬ Eligible src t c) ∨
       ((t.found src).status = 2 ∧ ∃ c < nc, (t.found src).ttc = (c : Int) ∧ Eligible src t c))) := by
  obtain ⟨h1, h2⟩ := marked_iff src ns nc t h
  by_cases hm : t.marked src = 1
  · right
    refine ⟨h1.1 hm, hm, ?_⟩
    rcases found_marked src ns nc t h hm with hx | ⟨hs, c, hc, ht, he, -⟩
    · exact Or.inl hx
    · exact Or.inr ⟨hs, c, hc, ht, he⟩
  · left
    refine ⟨fun s hs hc => hm (h1.2 ⟨s, hs, hc⟩), ?_, ?_⟩
    · rw [Target.found, h2 hm, find_unmarked]; rfl
    · rw [Target.notFound, Target.found, h2 hm, find_unmarked]; rfl

/-- C30: if association assigns center `c` to a target, then `c` is a center on the requested
side, the target lies within `(1+tol)` times its radius, no eligible center on the same side has
a smaller relative distance, and either there is no eligible center on the other side, or one of
least relative distance there is at least as far away in absolute distance. -/
theorem C30_assigned (src : Source F) (ns nc : Nat) (ts : List (Target F))
    (h : ∀ t ∈ ts, Covered src ns nc t) (ttc : List Int) (hr : associate src ts = .ok ttc)
    (i : Nat) (t : Target F) (ht : ts[i]? = some t) (v : Int) (hv : ttc[i]? = some v) (hne : v ≠ -1) :
    ∃ c < nc, v = (c : Int) ∧ Eligible src t c ∧
      (∀ c' < nc, Eligible src t c' → side c' = side c → rel src t c ≤ rel src t c') ∧
      ((∀ c' < nc, Eligible src t c' → side c' = side c) ∨
        ∃ c' < nc, Eligible src t c' ∧ side c' ≠ side c ∧ t.ctrDist c ≤ t.ctrDist c' ∧
          ∀ c'' < nc, Eligible src t c'' → side c'' = side c' → rel src t c' ≤ rel src t c'') := by
  have htm : t ∈ ts := List.mem_of_getElem? ht
  simp only [associate] at hr
  split at hr
  · cases hr
    rw [List.getElem?_map, ht] at hv
    simp only [Option.map_some, Option.some.injEq] at hv
    exact absurd hv.symm hne
  · split at hr
    · split at hr <;> cases hr
    · cases hr
      rw [List.getElem?_map, ht] at hv
      simp only [Option.map_some, Option.some.injEq] at hv
      obtain ⟨h1, h2⟩ := marked_iff src ns nc t (h t htm)
      by_cases hm : t.marked src = 1
      · rcases found_marked src ns nc t (h t htm) hm with ⟨-, hx, -⟩ | ⟨-, c, hc, hx, he, h3, h4⟩
        · exact absurd (hv.symm.trans hx) hne
        · exact ⟨c, hc, hv.symm.trans hx, he, h3, h4⟩
      · rw [Target.found, h2 hm, find_unmarked] at hv
        exact absurd hv.symm hne

/-- C31: if association succeeds, a target has no center exactly if no source has it inside its
tunnel, and every target gets an entry. -/
theorem C31_unassigned (src : Source F) (ns nc : Nat) (ts : List (Target F))
    (h : ∀ t ∈ ts, Covered src ns nc t) (ttc : List Int) (hr : associate src ts = .ok ttc) :
    ttc.length = ts.length ∧ ∀ (i : Nat) t v, ts[i]? = some t → ttc[i]? = some v →
      (v = -1 ↔ ∀ s < ns, ¬ Close src t s) := by
  simp only [associate] at hr
  split at hr
  · rename_i hno
    cases hr
    refine ⟨by simp, ?_⟩
    intro i t v ht hv
    rw [List.getElem?_map, ht] at hv
    simp only [Option.map_some, Option.some.injEq] at hv
    subst hv
    refine ⟨fun _ s hs hc => ?_, fun _ => rfl⟩
    have htm : t ∈ ts := List.mem_of_getElem? ht
    apply hno
    rw [List.any_eq_true]
    exact ⟨t, htm, by rw [((marked_iff src ns nc t (h t htm)).1).2 ⟨s, hs, hc⟩]; rfl⟩
  · split at hr
    · split at hr <;> cases hr
    · rename_i hany
      cases hr
      refine ⟨by simp, ?_⟩
      intro i t v ht hv
      have htm : t ∈ ts := List.mem_of_getElem? ht
      rw [List.getElem?_map, ht] at hv
      simp only [Option.map_some, Option.some.injEq] at hv
      subst hv
      have hnf : t.notFound src = false := by
        cases hn : t.notFound src with
        | false => rfl
        | true => exact absurd (List.any_eq_true.2 ⟨t, htm, hn⟩) hany
      rcases found_spec src ns nc t (h t htm) with ⟨h1, h2, -⟩ | ⟨h1, -, ⟨h2, -⟩ | ⟨-, c, -, h3, -⟩⟩
      · exact ⟨fun _ => h1, fun _ => h2⟩
      · simp [Target.notFound, h2] at hnf
      · constructor
        · intro h4; rw [h3] at h4; omega
        · intro h4
          obtain ⟨s, hs, hc⟩ := h1
          exact absurd hc (h4 s hs)

theorem notFound_iff (src : Source F) (ns nc : Nat) (t : Target F) (h : Covered src ns nc t) :
    t.notFound src = true ↔ (∃ s < ns, Close src t s) ∧ ∀ c < nc, ¬ Eligible src t c := by
  rcases found_spec src ns nc t h with ⟨h1, h2, h3⟩ | ⟨h1, -, ⟨h2, -, h4⟩ | ⟨h2, c, hc, -, h4⟩⟩
  · rw [h3]
    constructor
    · intro h; cases h
    · rintro ⟨⟨s, hs, hc⟩, -⟩; exact absurd hc (h1 s hs)
  · simp only [Target.notFound, h2, beq_self_eq_true, true_iff]
    exact ⟨h1, h4⟩
  · simp only [Target.notFound, h2]
    constructor
    · intro h; cases h
    · rintro ⟨-, h5⟩; exact absurd h4 (h5 c hc)

/-- C31: association succeeds exactly if every close target has an eligible center. -/
theorem C31_succeeds (src : Source F) (ns nc : Nat) (ts : List (Target F))
    (h : ∀ t ∈ ts, Covered src ns nc t) :
    (∃ ttc, associate src ts = .ok ttc) ↔
      ∀ t ∈ ts, (∃ s < ns, Close src t s) → ∃ c < nc, Eligible src t c := by
  constructor
  · rintro ⟨ttc, hr⟩ t ht hclose
    simp only [associate] at hr
    split at hr
    · rename_i hno
      exfalso
      apply hno
      rw [List.any_eq_true]
      exact ⟨t, ht, by rw [((marked_iff src ns nc t (h t ht)).1).2 hclose]; rfl⟩
    · split at hr
      · split at hr <;> cases hr
      · rename_i hany
        by_contra hne
        apply hany
        rw [List.any_eq_true]
        refine ⟨t, ht, (notFound_iff src ns nc t (h t ht)).2 ⟨hclose, ?_⟩⟩
        intro c hc he
        exact hne ⟨c, hc, he⟩
  · intro hall
    simp only [associate]
    split
    · exact ⟨_, rfl⟩
    · split
      · rename_i hany
        obtain ⟨t, ht, hn⟩ := List.any_eq_true.1 hany
        obtain ⟨h1, h2⟩ := (notFound_iff src ns nc t (h t ht)).1 hn
        obtain ⟨c, hc, he⟩ := hall t ht h1
        exact absurd he (h2 c hc)
      · exact ⟨_, rfl⟩

theorem mem_hits (src : Source F) (t : Target F) (s : Nat) :
    s ∈ t.hits src ↔ (∃ l ∈ t.refLeaves, s ∈ l) ∧ Close src t s ∧ t.notFound src = true := by
  simp only [Target.hits, refineHits, List.mem_filter, List.mem_flatten, Bool.and_eq_true,
    decide_eq_true_eq, Close, Target.notFound]

/-- C31, whatever the refiner's area query finds: if some close target has no eligible center, then the call either dies on its
assertion — exactly if no close source of such a target is in the leaf boxes found — or raises the error; then the flags for
targets and the message are exact, and the elements flagged for refinement are those owning a close source of such a target in the
leaf boxes found (at least one of them). -/
theorem C31_failed_any (src : Source F) (ns nc : Nat) (ts : List (Target F)) (h : ∀ t ∈ ts, Covered src ns nc t)
    (hfail : ∃ t ∈ ts, (∃ s < ns, Close src t s) ∧ ∀ c < nc, ¬ Eligible src t c) :
    (associate src ts = .assertion ∧ ∀ t ∈ ts, (∃ s < ns, Close src t s) → (∀ c < nc, ¬ Eligible src t c) →
        ∀ l ∈ t.refLeaves, ∀ s ∈ l, ¬ Close src t s) ∨
    ∃ refine failed onSurface, associate src ts = .failed refine failed onSurface ∧
      failed.length = ts.length ∧
      (∀ (i : Nat) t b, ts[i]? = some t → failed[i]? = some b →
        (b = true ↔ (∃ s < ns, Close src t s) ∧ ∀ c < nc, ¬ Eligible src t c)) ∧
      (∀ e, refine e = true ↔ ∃ t ∈ ts, ((∃ s < ns, Close src t s) ∧ ∀ c < nc, ¬ Eligible src t c) ∧
        ∃ l ∈ t.refLeaves, ∃ s ∈ l, Close src t s ∧ src.elem s = e) ∧
      (∃ e, refine e = true) ∧
      (onSurface = true ↔ ∃ t ∈ ts, ((∃ s < ns, Close src t s) ∧ ∀ c < nc, ¬ Eligible src t c) ∧
        (t.flag = -1 ∨ t.flag = 1)) := by
  obtain ⟨t, ht, hcl, hel⟩ := hfail
  have h1 : ts.any (fun t => t.marked src == 1) = true := by
    rw [List.any_eq_true]
    exact ⟨t, ht, by rw [((marked_iff src ns nc t (h t ht)).1).2 hcl]; rfl⟩
  have hnf := (notFound_iff src ns nc t (h t ht)).2 ⟨hcl, hel⟩
  have h2 : ts.any (fun t => t.notFound src) = true := List.any_eq_true.2 ⟨t, ht, hnf⟩
  by_cases h3 : ts.any (fun t => !(t.hits src).isEmpty) = true
  · right
    refine ⟨_, _, _, by simp only [associate, h1, h2, h3, not_true_eq_false, if_false, if_true]; rfl,
      by simp, ?_, ?_, ?_, ?_⟩
    · intro i t b hi hb
      rw [List.getElem?_map, hi] at hb
      simp only [Option.map_some, Option.some.injEq] at hb
      subst hb
      exact notFound_iff src ns nc t (h t (List.mem_of_getElem? hi))
    · intro e
      rw [List.any_eq_true]
      constructor
      · rintro ⟨t, ht, hany⟩
        obtain ⟨s, hs, he⟩ := List.any_eq_true.1 hany
        obtain ⟨⟨l, hl, hsl⟩, h5, h6⟩ := (mem_hits src t s).1 hs
        exact ⟨t, ht, (notFound_iff src ns nc t (h t ht)).1 h6, l, hl, s, hsl, h5, by simpa using he⟩
      · rintro ⟨t, ht, hne, l, hl, s, hsl, hc, he⟩
        refine ⟨t, ht, List.any_eq_true.2 ⟨s, (mem_hits src t s).2 ⟨⟨l, hl, hsl⟩, hc, ?_⟩, by simpa using he⟩⟩
        exact (notFound_iff src ns nc t (h t ht)).2 hne
    · obtain ⟨t', ht', hh⟩ := List.any_eq_true.1 h3
      cases hl : t'.hits src with
      | nil => rw [hl] at hh; cases hh
      | cons s l =>
        refine ⟨src.elem s, ?_⟩
        rw [List.any_eq_true]
        exact ⟨t', ht', List.any_eq_true.2 ⟨s, by rw [hl]; exact List.mem_cons_self .., by simp⟩⟩
    · rw [List.any_eq_true]
      constructor
      · rintro ⟨t, ht, hb⟩
        simp only [Bool.and_eq_true, Bool.or_eq_true, beq_iff_eq] at hb
        exact ⟨t, ht, (notFound_iff src ns nc t (h t ht)).1 hb.1, hb.2⟩
      · rintro ⟨t, ht, hb, hf⟩
        refine ⟨t, ht, ?_⟩
        simp only [Bool.and_eq_true, Bool.or_eq_true, beq_iff_eq]
        exact ⟨(notFound_iff src ns nc t (h t ht)).2 hb, hf⟩
  · left
    refine ⟨by simp only [associate, h1, h2, h3, not_true_eq_false, if_false, if_true]; rfl, ?_⟩
    intro t' ht' hc' he' l hl s hsl hcs
    apply h3
    rw [List.any_eq_true]
    refine ⟨t', ht', ?_⟩
    have : s ∈ t'.hits src :=
      (mem_hits src t' s).2 ⟨⟨l, hl, hsl⟩, hcs, (notFound_iff src ns nc t' (h t' ht')).2 ⟨hc', he'⟩⟩
    cases hh : t'.hits src with
    | nil => rw [hh] at this; cases this
    | cons a l => rfl

/-- C31: when association fails, the error flags exactly the close targets without eligible
center, the message speaks of surface targets exactly if one of these requested a surface side,
and exactly the elements owning a source close to such a target are flagged for refinement (at
least one of them).  This needs the refiner's area query to find all close sources; see
`C31_refuted`. -/
theorem C31_failed_partial (src : Source F) (ns nc : Nat) (ts : List (Target F))
    (h : ∀ t ∈ ts, Covered src ns nc t) (href : ∀ t ∈ ts, RefCovered src ns t)
    (hfail : ∃ t ∈ ts, (∃ s < ns, Close src t s) ∧ ∀ c < nc, ¬ Eligible src t c) :
    ∃ refine failed onSurface, associate src ts = .failed refine failed onSurface ∧
      failed.length = ts.length ∧
      (∀ (i : Nat) t b, ts[i]? = some t → failed[i]? = some b →
        (b = true ↔ (∃ s < ns, Close src t s) ∧ ∀ c < nc, ¬ Eligible src t c)) ∧
      (∀ e, refine e = true ↔ ∃ t ∈ ts, (∀ c < nc, ¬ Eligible src t c) ∧
        ∃ s < ns, Close src t s ∧ src.elem s = e) ∧
      (∃ e, refine e = true) ∧
      (onSurface = true ↔ ∃ t ∈ ts, ((∃ s < ns, Close src t s) ∧ ∀ c < nc, ¬ Eligible src t c) ∧
        (t.flag = -1 ∨ t.flag = 1)) := by
  obtain ⟨t, ht, hcl, hel⟩ := hfail
  have h1 : ts.any (fun t => t.marked src == 1) = true := by
    rw [List.any_eq_true]
    exact ⟨t, ht, by rw [((marked_iff src ns nc t (h t ht)).1).2 hcl]; rfl⟩
  have hnf := (notFound_iff src ns nc t (h t ht)).2 ⟨hcl, hel⟩
  have h2 : ts.any (fun t => t.notFound src) = true := List.any_eq_true.2 ⟨t, ht, hnf⟩
  have hhits : ∀ t ∈ ts, ∀ s, s ∈ t.hits src ↔ s < ns ∧ Close src t s ∧ t.notFound src = true := by
    intro t ht s
    rw [mem_hits]
    constructor
    · rintro ⟨⟨l, hl, hs⟩, h3, h4⟩
      exact ⟨(href t ht).ref_lt l hl s hs, h3, h4⟩
    · rintro ⟨hs, h3, h4⟩
      exact ⟨(href t ht).ref s hs h3, h3, h4⟩
  obtain ⟨s, hs, hcs⟩ := hcl
  have hsh : s ∈ t.hits src := (hhits t ht s).2 ⟨hs, hcs, hnf⟩
  have h3 : ts.any (fun t => !(t.hits src).isEmpty) = true := by
    rw [List.any_eq_true]
    refine ⟨t, ht, ?_⟩
    cases hh : t.hits src with
    | nil => rw [hh] at hsh; cases hsh
    | cons a l => rfl
  refine ⟨_, _, _, by simp only [associate, h1, h2, h3, not_true_eq_false, if_false, if_true]; rfl,
    by simp, ?_, ?_, ?_, ?_⟩
  · intro i t b hi hb
    rw [List.getElem?_map, hi] at hb
    simp only [Option.map_some, Option.some.injEq] at hb
    subst hb
    exact notFound_iff src ns nc t (h t (List.mem_of_getElem? hi))
  · intro e
    rw [List.any_eq_true]
    constructor
    · rintro ⟨t, ht, hany⟩
      obtain ⟨s, hs, he⟩ := List.any_eq_true.1 hany
      obtain ⟨h4, h5, h6⟩ := (hhits t ht s).1 hs
      exact ⟨t, ht, ((notFound_iff src ns nc t (h t ht)).1 h6).2, s, h4, h5, by simpa using he⟩
    · rintro ⟨t, ht, hne, s, hs, hc, he⟩
      refine ⟨t, ht, List.any_eq_true.2 ⟨s, (hhits t ht s).2 ⟨hs, hc, ?_⟩, by simpa using he⟩⟩
      exact (notFound_iff src ns nc t (h t ht)).2 ⟨⟨s, hs, hc⟩, hne⟩
  · refine ⟨src.elem s, ?_⟩
    rw [List.any_eq_true]
    exact ⟨t, ht, List.any_eq_true.2 ⟨s, hsh, by simp⟩⟩
  · rw [List.any_eq_true]
    constructor
    · rintro ⟨t, ht, hb⟩
      simp only [Bool.and_eq_true, Bool.or_eq_true, beq_iff_eq] at hb
      exact ⟨t, ht, (notFound_iff src ns nc t (h t ht)).1 hb.1, hb.2⟩
    · rintro ⟨t, ht, hb, hf⟩
      refine ⟨t, ht, ?_⟩
      simp only [Bool.and_eq_true, Bool.or_eq_true, beq_iff_eq]
      exact ⟨(notFound_iff src ns nc t (h t ht)).2 hb, hf⟩

/-- C31: no other failure is ever reported: whatever the refiner finds, the call never succeeds
when a close target has no eligible center. -/
theorem C31_never_silent (src : Source F) (ns nc : Nat) (ts : List (Target F))
    (h : ∀ t ∈ ts, Covered src ns nc t)
    (hfail : ∃ t ∈ ts, (∃ s < ns, Close src t s) ∧ ∀ c < nc, ¬ Eligible src t c) :
    ∀ ttc, associate src ts ≠ .ok ttc := by
  intro ttc hr
  obtain ⟨t, ht, hcl, hel⟩ := hfail
  obtain ⟨c, hc, he⟩ := (C31_succeeds src ns nc ts h).1 ⟨ttc, hr⟩ t ht hcl
  exact hel c hc he

/-- One source at distance 1/4 with tunnel radius 1/2, centers 0 (interior) and 1 (exterior): a
volume target is assigned the nearer center 1. -/
example : (match associate (F := ℚ) ⟨fun _ => 1/2, fun _ => 1, fun _ => 0⟩
    [⟨0, fun _ => 1/4, fun c => if c = 0 then 3/4 else 1/4, [[], [0]], [[0], [1]], [[0]]⟩,
     ⟨0, fun _ => 3, fun _ => 3, [[0]], [], []⟩] with
    | .ok l => l
    | _ => []) = [1, -1] := by
  decide +kernel

end Verif.TargetAssoc
