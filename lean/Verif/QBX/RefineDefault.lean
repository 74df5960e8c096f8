import Verif.QBX.Refine

/-!
# Refinement under pytential's own warning filter (C92)

Importing `pytential` turns `RefinerNotConvergedWarning` into an exception
(`pytential/__init__.py:62-69`).  This module describes what callers of the two refinement stages
(`pytential/qbx/refinement.py:667-884`) then see.
-/

namespace Verif.Refine

set_option synthInstance.maxSize 2000

open Verif.Checks

set_option linter.unusedSectionVars false

section

variable {M D F : Type} [DecidableEq M] [LinearOrder F]

/-- what a caller sees: a discretization with the connections leading to it, the not-converged
exception with the criteria listed per round, `QBXRefinementNeededError`, or an internal mismatch -/
inductive Seen (D : Type)
  | returned (d : D) (links : List (Link D))
  | notConverged (criteria : List (List Crit))
  | needed (criteria : List Crit)
  | mismatch

/-- the filter installed by `_set_up_errors` (`pytential/__init__.py:62-69`) applied to the outcome of
a stage: a warning becomes an exception.  (In stage 2 the exception leaves the function before the
forced uniform rounds, `refinement.py:826-828`; these have no effect of their own.) -/
def seen : Outcome D → Seen D
  | .done d links .none => .returned d links
  | .done _ _ (some cs) => .notConverged cs
  | .needed cs => .needed cs
  | .mismatch => .mismatch

/-! ## the loop, described by the chain of refinements -/

/-- the criteria reported per round -/
def critsOf (check : D → (Nat → Bool) × List Crit) (links : List (Link D)) : List (List Crit) :=
  links.map (fun l => (check l.src).2)

/-- along a chain whose length fits into `maxiter` the loop performs exactly these refinements -/
theorem loop_follows (check : D → (Nat → Bool) × List Crit) (e : Env M D F) (flag : D → Nat → Prop)
    (hm : ∀ m, e.meshOf (e.mkDiscr m) = m) (hflag : ∀ d i, (check d).1 i = true ↔ flag d i)
    (hno : ∀ d, (check d).2 = [] → ∀ i, ¬ flag d i)
    (maxiter : Nat) (d d' : D) (ls : List (Link D)) (hch : Chain e flag d ls d') :
    ∀ (niter : Nat) (cur : M) (links : List (Link D)) (crits : List (List Crit)),
      e.meshOf d = cur → niter + ls.length ≤ maxiter →
      ∃ cur', e.meshOf d' = cur' ∧
        loop check e .refine maxiter niter cur d links crits
          = loop check e .refine maxiter (niter + ls.length) cur' d' (links ++ ls)
              (crits ++ critsOf check ls) := by
  induction hch with
  | nil d =>
    intro niter cur links crits hcur _
    exact ⟨cur, hcur, by simp [critsOf]⟩
  | cons d d' l ls h1 h2 h3 h4 _ ih =>
    intro niter cur links crits hcur hlen
    simp only [List.length_cons] at hlen
    have hfl : l.flags = (check d).1 := by
      funext i
      have := h2 i
      rw [← hflag d i] at this
      exact Bool.eq_iff_iff.2 this
    have hne : (check d).2 ≠ [] := by
      intro h
      obtain ⟨i, hi⟩ := h3
      exact hno d h i hi
    have hl : l = ⟨d, (check d).1, e.mkDiscr (e.refineMesh cur (check d).1)⟩ := by
      cases l
      simp only at h1 h4 hfl
      rw [hcur] at h4
      subst h1 hfl
      rw [h4]
    obtain ⟨cur', hc', hr⟩ := ih (niter + 1) (e.refineMesh cur (check d).1) (links ++ [l])
      (crits ++ [(check d).2]) (by rw [hl]; exact hm _) (by omega)
    refine ⟨cur', hc', ?_⟩
    conv_lhs => rw [loop]
    rw [if_neg (by omega), if_neg hne, if_neg (by simp)]
    simp only [wrangRefine, hcur, if_true]
    have hdst : l.dst = e.mkDiscr (e.refineMesh cur (check d).1) := by rw [hl]
    rw [hdst] at hr
    rw [← hl, hr]
    simp only [List.length_cons, List.append_assoc, List.cons_append, List.nil_append]
    have : (check d).2 :: critsOf check ls = critsOf check (l :: ls) := by
      simp [critsOf, h1]
    rw [this, Nat.add_right_comm, Nat.add_assoc]

/-- the loop in the refining mode, completely: it returns without warning after a chain of fewer than
`maxiter` refinements to a discretization without violations, or with a warning after a chain of
exactly `maxiter` refinements -/
theorem loop_iff (check : D → (Nat → Bool) × List Crit) (e : Env M D F) (flag : D → Nat → Prop)
    (hm : ∀ m, e.meshOf (e.mkDiscr m) = m) (hflag : ∀ d i, (check d).1 i = true ↔ flag d i)
    (hex : ∀ d, (check d).2 ≠ [] → ∃ i, flag d i) (hno : ∀ d, (check d).2 = [] → ∀ i, ¬ flag d i)
    (maxiter : Nat) (d : D) :
    (∃ d' ls, Chain e flag d ls d' ∧ ls.length < maxiter ∧ (check d').2 = [] ∧
      loop check e .refine maxiter 0 (e.meshOf d) d [] [] = (.done d' ls .none, e.meshOf d')) ∨
    (∃ d' ls, Chain e flag d ls d' ∧ ls.length = maxiter ∧
      loop check e .refine maxiter 0 (e.meshOf d) d [] []
        = (.done d' ls (some (critsOf check ls)), e.meshOf d')) := by
  have key : ∀ n ≤ maxiter,
      (∃ d' ls, Chain e flag d ls d' ∧ ls.length < n ∧ (check d').2 = []) ∨
      (∃ d' ls, Chain e flag d ls d' ∧ ls.length = n) := by
    intro n
    induction n with
    | zero => intro _; exact Or.inr ⟨d, [], .nil d, rfl⟩
    | succ n ih =>
      intro hn
      rcases ih (by omega) with ⟨d', ls, h1, h2, h3⟩ | ⟨d', ls, h1, h2⟩
      · exact Or.inl ⟨d', ls, h1, by omega, h3⟩
      · by_cases hc : (check d').2 = []
        · exact Or.inl ⟨d', ls, h1, by omega, hc⟩
        · refine Or.inr ⟨_, _, chain_snoc e flag d d' ls
            ⟨d', (check d').1, e.mkDiscr (e.refineMesh (e.meshOf d') (check d').1)⟩ h1 rfl
            (hflag d') (hex d' hc) rfl, by simp [h2]⟩
  rcases key maxiter le_rfl with ⟨d', ls, h1, h2, h3⟩ | ⟨d', ls, h1, h2⟩
  · obtain ⟨cur', hc', hr⟩ := loop_follows check e flag hm hflag hno maxiter d d' ls h1 0 (e.meshOf d) [] []
      rfl (by omega)
    refine Or.inl ⟨d', ls, h1, h2, h3, ?_⟩
    rw [hr, loop, if_neg (by omega), if_pos h3, hc']
    rfl
  · obtain ⟨cur', hc', hr⟩ := loop_follows check e flag hm hflag hno maxiter d d' ls h1 0 (e.meshOf d) [] []
      rfl (by omega)
    refine Or.inr ⟨d', ls, h1, h2, ?_⟩
    rw [hr, loop, if_pos (by omega), hc']
    rfl

/-- chains are determined by where they start and how long they are, and one that ends where nothing is
flagged cannot be continued -/
theorem chain_unique (e : Env M D F) (flag : D → Nat → Prop) (d d1 d2 : D) (l1 l2 : List (Link D))
    (h1 : Chain e flag d l1 d1) (h2 : Chain e flag d l2 d2) :
    (l1.length = l2.length → l1 = l2 ∧ d1 = d2) ∧ (l1.length < l2.length → ∃ i, flag d1 i) := by
  induction h1 generalizing l2 with
  | nil d =>
    cases h2 with
    | nil => exact ⟨fun _ => ⟨rfl, rfl⟩, fun h => absurd h (by simp)⟩
    | cons _ _ l ls a1 a2 a3 a4 a5 => exact ⟨fun h => by simp at h, fun _ => a3⟩
  | cons d d1 l ls a1 a2 a3 a4 _ ih =>
    cases h2 with
    | nil => exact ⟨fun h => by simp at h, fun h => by simp at h⟩
    | cons _ _ l' ls' b1 b2 b3 b4 b5 =>
      have hf : l.flags = l'.flags := by
        funext i
        exact Bool.eq_iff_iff.2 ((a2 i).trans (b2 i).symm)
      have hl : l = l' := by
        cases l; cases l'
        simp only at hf a1 a4 b1 b4
        subst hf a1
        subst a4
        rw [b1, b4]
      subst hl
      obtain ⟨i1, i2⟩ := ih ls' b5
      refine ⟨fun h => ?_, fun h => i2 (by simpa using h)⟩
      obtain ⟨j1, j2⟩ := i1 (by simpa using h)
      exact ⟨by rw [j1], j2⟩

theorem sat1_noflag (e : Env M D F) (p : Params F) (d : D) (h : Satisfied1 e p d) (i : Nat) :
    ¬ Flag1 e p d i := by
  rintro ⟨hi, (h' | h') | ⟨h', -⟩⟩
  · exact h i hi _ h'
  · exact h i hi _ h'
  · exact h i hi _ h'

theorem sat2_noflag (e : Env M D F) (d1 d : D) (h : Satisfied2 e d1 d) (i : Nat) :
    ¬ Flag2 e d1 d i := by
  rintro ⟨hi, h'⟩
  rw [h i hi] at h'
  cases h'

/-- criterion `c` is reported for stage-1 discretization `d`: some element violates it, and the disk
criterion is reported only if the other two hold everywhere -/
def Reported1 (e : Env M D F) (p : Params F) (d : D) (c : Crit) : Prop :=
  (∃ i < e.nel (e.meshOf d), Bad1 e p d i c) ∧
    (c = .disks → ∀ j < e.nel (e.meshOf d), ¬ Bad1 e p d j .lengthScale ∧ ¬ Bad1 e p d j .curvature)

theorem checks1_reported (ord : List Nat → List Nat) (hord : ∀ l, (ord l).Perm l) (e : Env M D F)
    (p : Params F) (d : D) (c : Crit) : c ∈ (checks1 ord e p d).2 ↔ Reported1 e p d c := by
  rw [(checks1_spec ord hord e p d).2.2 c, Reported1]
  constructor
  · rintro ⟨i, hi, hb, hc⟩
    exact ⟨⟨i, hi.1, hb⟩, hc⟩
  · rintro ⟨⟨i, hi, hb⟩, hc⟩
    refine ⟨i, ⟨hi, ?_⟩, hb, hc⟩
    cases c with
    | lengthScale => exact Or.inl (Or.inl hb)
    | curvature => exact Or.inl (Or.inr hb)
    | disks => exact Or.inr ⟨hb, hc rfl⟩
    | quad => cases hb

/-- C92, stage 1: with the warning filter pytential installs, stage-1 refinement has exactly two
outcomes.  It returns precisely if fewer than `maxiter` rounds of refining the offending elements lead
to a discretization satisfying all criteria, and returns that one; otherwise it raises the not-converged
exception, whose message lists, for each of the `maxiter` rounds, the criteria violated before it. -/
theorem C92_stage1 (ord : List Nat → List Nat) (hord : ∀ l, (ord l).Perm l) (e : Env M D F)
    (hm : ∀ m, e.meshOf (e.mkDiscr m) = m) (p : Params F) (hmode : p.mode = .refine) (d : D) :
    (∀ d' links, seen (stage1 ord e p d) = .returned d' links ↔
      Chain e (Flag1 e p) d links d' ∧ links.length < p.maxiter ∧ Satisfied1 e p d') ∧
    ((∃ cs, seen (stage1 ord e p d) = .notConverged cs) ↔
      ∃ d' links, Chain e (Flag1 e p) d links d' ∧ links.length = p.maxiter) ∧
    (∀ cs, seen (stage1 ord e p d) = .notConverged cs → ∀ d' links,
      Chain e (Flag1 e p) d links d' → links.length = p.maxiter →
      cs.length = p.maxiter ∧ ∀ (k : Nat) l ck, links[k]? = some l → cs[k]? = some ck →
        ∀ c, c ∈ ck ↔ Reported1 e p l.src c) ∧
    (∀ cs, seen (stage1 ord e p d) ≠ .needed cs) ∧ seen (stage1 ord e p d) ≠ .mismatch := by
  have hex : ∀ d, (checks1 ord e p d).2 ≠ [] → ∃ i, Flag1 e p d i := by
    intro d hne
    obtain ⟨c, hc⟩ := List.exists_mem_of_ne_nil _ hne
    obtain ⟨i, hi, -⟩ := ((checks1_spec ord hord e p d).2.2 c).1 hc
    exact ⟨i, hi⟩
  have hno : ∀ d, (checks1 ord e p d).2 = [] → ∀ i, ¬ Flag1 e p d i := fun d h =>
    sat1_noflag e p d ((checks1_spec ord hord e p d).1.1 h)
  have hst : stage1 ord e p d
      = (loop (checks1 ord e p) e .refine p.maxiter 0 (e.meshOf d) d [] []).1 := by
    rw [stage1, if_neg (by rw [hmode]; simp), hmode]
  rcases loop_iff (checks1 ord e p) e (Flag1 e p) hm (fun d => (checks1_spec ord hord e p d).2.1) hex hno
    p.maxiter d with ⟨d0, l0, h1, h2, h3, h4⟩ | ⟨d0, l0, h1, h2, h4⟩
  · have hs0 := (checks1_spec ord hord e p d0).1.1 h3
    rw [hst, h4]
    simp only [seen]
    refine ⟨fun d' links => ⟨?_, ?_⟩, ⟨?_, ?_⟩, ?_, ?_, ?_⟩
    · intro h; cases h; exact ⟨h1, h2, hs0⟩
    · rintro ⟨g1, g2, g3⟩
      obtain ⟨u1, u2⟩ := chain_unique e (Flag1 e p) d d0 d' l0 links h1 g1
      obtain ⟨v1, v2⟩ := chain_unique e (Flag1 e p) d d' d0 links l0 g1 h1
      have hle : l0.length = links.length := by
        by_contra hne
        rcases Nat.lt_or_gt_of_ne hne with hlt | hlt
        · obtain ⟨i, hi⟩ := u2 hlt; exact sat1_noflag e p d0 hs0 i hi
        · obtain ⟨i, hi⟩ := v2 hlt; exact sat1_noflag e p d' g3 i hi
      obtain ⟨rfl, rfl⟩ := u1 hle
      rfl
    · rintro ⟨cs, h⟩; cases h
    · rintro ⟨d', links, g1, g2⟩
      obtain ⟨i, hi⟩ := (chain_unique e (Flag1 e p) d d0 d' l0 links h1 g1).2 (by omega)
      exact absurd hi (sat1_noflag e p d0 hs0 i)
    · intro cs h; cases h
    · intro cs h; cases h
    · intro h; cases h
  · rw [hst, h4]
    simp only [seen]
    refine ⟨fun d' links => ⟨?_, ?_⟩, ⟨?_, ?_⟩, ?_, ?_, ?_⟩
    · intro h; cases h
    · rintro ⟨g1, g2, g3⟩
      obtain ⟨i, hi⟩ := (chain_unique e (Flag1 e p) d d' d0 links l0 g1 h1).2 (by omega)
      exact absurd hi (sat1_noflag e p d' g3 i)
    · intro _; exact ⟨d0, l0, h1, h2⟩
    · intro _; exact ⟨_, rfl⟩
    · intro cs h d' links g1 g2
      cases h
      obtain ⟨rfl, -⟩ := (chain_unique e (Flag1 e p) d d0 d' l0 links h1 g1).1 (by omega)
      refine ⟨by simp [critsOf, g2], ?_⟩
      intro k l ck hl hck c
      simp only [critsOf, List.getElem?_map, hl, Option.map_some, Option.some.injEq] at hck
      subst hck
      exact checks1_reported ord hord e p l.src c
    · intro cs h; cases h
    · intro h; cases h

/-- C92, stage 2: likewise.  It returns precisely if fewer than `maxiter` rounds lead to a
discretization resolving the quadrature; that one, refined uniformly as often as requested, is what is
returned. -/
theorem C92_stage2 (ord : List Nat → List Nat) (hord : ∀ l, (ord l).Perm l) (e : Env M D F)
    (hm : ∀ m, e.meshOf (e.mkDiscr m) = m) (p : Params F) (hmode : p.mode = .refine) (d1 : D) :
    (∀ d' links, seen (stage2 ord e p d1) = .returned d' links →
      ∃ d l1 l2, links = l1 ++ l2 ∧ Chain e (Flag2 e d1) d1 l1 d ∧ l1.length < p.maxiter ∧
        Satisfied2 e d1 d ∧ Uniform e p.rounds d l2 d') ∧
    (∀ d l1, Chain e (Flag2 e d1) d1 l1 d → l1.length < p.maxiter → Satisfied2 e d1 d →
      ∃ d' l2, seen (stage2 ord e p d1) = .returned d' (l1 ++ l2)) ∧
    ((∃ cs, seen (stage2 ord e p d1) = .notConverged cs) ↔
      ∃ d l1, Chain e (Flag2 e d1) d1 l1 d ∧ l1.length = p.maxiter) ∧
    (∀ cs, seen (stage2 ord e p d1) ≠ .needed cs) ∧ seen (stage2 ord e p d1) ≠ .mismatch := by
  have hno : ∀ d, (checks2 ord e d1 d).2 = [] → ∀ i, ¬ Flag2 e d1 d i := fun d h =>
    sat2_noflag e d1 d ((checks2_spec ord hord e d1 d).1.1 h)
  rcases loop_iff (checks2 ord e d1) e (Flag2 e d1) hm (fun d => (checks2_spec ord hord e d1 d).2.1)
    (fun d => (checks2_spec ord hord e d1 d).2.2) hno
    p.maxiter d1 with ⟨d0, l0, h1, h2, h3, h4⟩ | ⟨d0, l0, h1, h2, h4⟩
  · have hs0 := (checks2_spec ord hord e d1 d0).1.1 h3
    obtain ⟨d'', ls, u1, u2⟩ := uniform_spec e hm p.rounds (e.meshOf d0) d0 l0 rfl
    have hst : stage2 ord e p d1 = .done d'' (l0 ++ ls) .none := by
      rw [stage2, if_neg (by rw [hmode]; simp), hmode, h4]
      simp only [u1]
    rw [hst]
    simp only [seen]
    refine ⟨?_, ?_, ⟨?_, ?_⟩, ?_, ?_⟩
    · intro d' links h; cases h; exact ⟨d0, l0, ls, rfl, h1, h2, hs0, u2⟩
    · intro d l1 g1 g2 g3
      obtain ⟨w1, w2⟩ := chain_unique e (Flag2 e d1) d1 d0 d l0 l1 h1 g1
      obtain ⟨v1, v2⟩ := chain_unique e (Flag2 e d1) d1 d d0 l1 l0 g1 h1
      have hle : l0.length = l1.length := by
        by_contra hne
        rcases Nat.lt_or_gt_of_ne hne with hlt | hlt
        · obtain ⟨i, hi⟩ := w2 hlt; exact sat2_noflag e d1 d0 hs0 i hi
        · obtain ⟨i, hi⟩ := v2 hlt; exact sat2_noflag e d1 d g3 i hi
      obtain ⟨rfl, rfl⟩ := w1 hle
      exact ⟨d'', ls, rfl⟩
    · rintro ⟨cs, h⟩; cases h
    · rintro ⟨d', links, g1, g2⟩
      obtain ⟨i, hi⟩ := (chain_unique e (Flag2 e d1) d1 d0 d' l0 links h1 g1).2 (by omega)
      exact absurd hi (sat2_noflag e d1 d0 hs0 i)
    · intro cs h; cases h
    · intro h; cases h
  · obtain ⟨d'', ls, u1, u2⟩ := uniform_spec e hm p.rounds (e.meshOf d0) d0 l0 rfl
    have hst : stage2 ord e p d1 = .done d'' (l0 ++ ls) (some (critsOf (checks2 ord e d1) l0)) := by
      rw [stage2, if_neg (by rw [hmode]; simp), hmode, h4]
      simp only [u1]
    rw [hst]
    simp only [seen]
    refine ⟨?_, ?_, ⟨?_, ?_⟩, ?_, ?_⟩
    · intro d' links h; cases h
    · intro d l1 g1 g2 g3
      obtain ⟨i, hi⟩ := (chain_unique e (Flag2 e d1) d1 d d0 l1 l0 g1 h1).2 (by omega)
      exact absurd hi (sat2_noflag e d1 d g3 i)
    · intro _; exact ⟨d0, l0, h1, h2⟩
    · intro _; exact ⟨_, rfl⟩
    · intro cs h; cases h
    · intro h; cases h

/-- C92, `ERROR_ON_REFINEMENT` with at least one iteration: the caller gets the discretization back exactly if all criteria are met,
and otherwise `QBXRefinementNeededError` naming violated criteria. -/
theorem C92_error (ord : List Nat → List Nat) (hord : ∀ l, (ord l).Perm l) (e : Env M D F) (p : Params F)
    (hmode : p.mode = .error) (hmax : 1 ≤ p.maxiter) (d : D) :
    (seen (stage1 ord e p d) = .returned d [] ↔ Satisfied1 e p d) ∧
    ((∃ cs, seen (stage1 ord e p d) = .needed cs ∧ cs ≠ [] ∧ ∀ c ∈ cs, ∃ i < e.nel (e.meshOf d), Bad1 e p d i c) ↔
      ¬ Satisfied1 e p d) ∧
    ((∃ cs, seen (stage2 ord e p d) = .needed cs) ↔ ¬ Satisfied2 e d d) := by
  obtain ⟨h1, h2⟩ := C33_error_stage1 ord hord e p hmode hmax d
  have hs2 : Satisfied2 e d d → ∀ cs, seen (stage2 ord e p d) ≠ .needed cs := by
    intro hs cs h
    obtain ⟨c1, -, -⟩ := checks2_spec ord hord e d d
    rw [stage2, if_neg (by rw [hmode]; decide), loop, if_neg (by omega), if_pos (c1.2 hs)] at h
    simp only at h
    split at h <;> cases h
  have hn2 : ¬ Satisfied2 e d d → stage2 ord e p d = .needed [.quad] := by
    intro hs
    obtain ⟨c1, -, -⟩ := checks2_spec ord hord e d d
    have hne : (checks2 ord e d d).2 ≠ [] := fun h => hs (c1.1 h)
    rw [stage2, if_neg (by rw [hmode]; decide), loop, if_neg (by omega), if_neg hne, hmode]
    have : (checks2 ord e d d).2 = [] ∨ (checks2 ord e d d).2 = [.quad] := by
      simp only [checks2, setCheck]
      split
      · right; rfl
      · left; rfl
    rcases this with h | h
    · exact absurd h hne
    · simp only [h, if_true]
  refine ⟨⟨?_, ?_⟩, ⟨?_, ?_⟩, ⟨?_, ?_⟩⟩
  · intro h
    by_contra hs
    obtain ⟨cs, hc, -⟩ := h2 hs
    rw [hc] at h
    cases h
  · intro hs
    rw [h1 hs]
    rfl
  · rintro ⟨cs, hc, -⟩ hs
    rw [h1 hs] at hc
    cases hc
  · intro hs
    obtain ⟨cs, hc, hne, hb⟩ := h2 hs
    exact ⟨cs, by rw [hc]; rfl, hne, hb⟩
  · rintro ⟨cs, hc⟩ hs
    exact hs2 hs cs hc
  · intro hs
    exact ⟨[.quad], by rw [hn2 hs]; rfl⟩

/-- C92: whatever is returned in the refining mode satisfies the criteria (before forced uniform rounds), so a geometry
that does not is never handed out silently. -/
theorem C92_never_silent (ord : List Nat → List Nat) (hord : ∀ l, (ord l).Perm l) (e : Env M D F)
    (hm : ∀ m, e.meshOf (e.mkDiscr m) = m) (p : Params F) (hmode : p.mode = .refine) (d d1 d2 : D)
    (k1 k2 : List (Link D)) (h1 : seen (stage1 ord e p d) = .returned d1 k1)
    (h2 : seen (stage2 ord e p d1) = .returned d2 k2) (hr : p.rounds = 0) :
    Satisfied1 e p d1 ∧ Satisfied2 e d1 d2 := by
  refine ⟨(((C92_stage1 ord hord e hm p hmode d).1 d1 k1).1 h1).2.2, ?_⟩
  obtain ⟨d', l1, l2, -, -, -, hs, hu⟩ := (C92_stage2 ord hord e hm p hmode d1).1 d2 k2 h2
  rw [hr] at hu
  cases hu
  exact hs

end

/-! ## examples -/

/-- as `exShow`, for what the caller sees -/
def exSeen : Seen (List Nat) → Option (List Nat × Nat) × Option (List (List Crit))
  | .returned d ls => (some (d, ls.length), none)
  | .notConverged cs => (none, some cs)
  | .needed _ => (none, none)
  | .mismatch => (none, none)

/-- three rounds are needed; with four allowed refinement returns -/
example : exSeen (seen (stage1 id exEnv ⟨.refine, some 16, none, 4, 0⟩ [32, 2]))
    = (some ([16, 8, 4, 4, 2], 3), none) := by
  decide +kernel

/-- `ERROR_ON_REFINEMENT`: an error, and the discretization itself -/
example : exSeen (seen (stage1 id exEnv ⟨.error, some 16, none, 10, 0⟩ [32, 2])) = (none, none) ∧
    exSeen (seen (stage1 id exEnv ⟨.error, some 16, none, 10, 0⟩ [16, 8, 4, 4, 2])) = (some ([16, 8, 4, 4, 2], 0), none) := by
  decide +kernel

/-- C92, where the exception is spurious: three rounds are allowed and three rounds suffice, but the criteria are not
checked again after the last round and the exception is raised although the discretization it had reached satisfies
all of them (with one more round allowed that discretization is returned). -/
theorem C92_spurious :
    exSeen (seen (stage1 id exEnv ⟨.refine, some 16, none, 3, 0⟩ [32, 2]))
      = (none, some [[.lengthScale], [.disks], [.disks]]) ∧
    exShow (stage1 id exEnv ⟨.refine, some 16, none, 3, 0⟩ [32, 2])
      = (some ([16, 8, 4, 4, 2], [[16, 16, 2], [16, 8, 8, 2], [16, 8, 4, 4, 2]],
          some [[.lengthScale], [.disks], [.disks]]), []) ∧
    Satisfied1 exEnv ⟨.refine, some 16, none, 3, 0⟩ [16, 8, 4, 4, 2] :=
  ⟨by decide +kernel, by decide +kernel,
    (checks1_spec id (fun _ => List.Perm.refl _) exEnv _ _).1.1 (by decide +kernel)⟩

end Verif.Refine
