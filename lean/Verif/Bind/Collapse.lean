import Verif.Bind.Exact

/-!
# Interpolations that become trivial when locations are filled in (C11, C76)

No new model: an exact description of the tagger of `Verif.Symbolic.Tagger` for all expressions, including those with an interpolation
whose two ends become the same place.
-/

namespace Verif.Bind

open Verif.Sym Verif.DofDesc

/-! ## Specification -/

/-- is this the head of an interpolation? -/
def isInterp : Head → Bool
  | .interp _ _ => true
  | _ => false

/-- a node, or just its operand if it is an interpolation between equal places -/
def dropTrivial : Head → List SE → SE
  | .interp f t, [o] => if f = t then o else .node (.interp f t) [o]
  | h, cs => .node h cs

mutual
/-- The expression without its interpolations between equal places. -/
def squash : SE → SE
  | .node h cs => dropTrivial h (squashL cs)
/-- same for lists -/
def squashL : List SE → List SE
  | [] => []
  | c :: l => squash c :: squashL l
end

/-- Somewhere in the expression an interpolation between equal places is applied to an interpolation (disregarding
interpolations between equal places in between). -/
def SelfRef (e : SE) : Prop := ∃ d o, Sub e (.node (.interp d d) [o]) ∧ isInterp (squash o).head = true

/-! ## Proofs -/

theorem squashL_eq : ∀ l, squashL l = l.map squash
  | [] => rfl
  | c :: l => by simp [squashL, squashL_eq l]

mutual
/-- build all nodes anew, from the leaves -/
def rebuild : SE → Except Sym.Err SE
  | .node h cs => match rebuildL cs with
    | .error x => .error x
    | .ok cs' => build h cs'
/-- same for lists -/
def rebuildL : List SE → Except Sym.Err (List SE)
  | [] => .ok []
  | c :: l => match rebuild c with
    | .error x => .error x
    | .ok c' => match rebuildL l with
      | .error x => .error x
      | .ok l' => .ok (c' :: l')
end

theorem locTag_rebuild {S T : DD} : ∀ e, locTag S S e = rebuild (placed S T true e) := by
  apply SE.ind
  intro h cs ih
  have hl : ∀ l : List SE, (∀ c ∈ l, c ∈ cs) → locTagL S S l = rebuildL (placedL S T true l) := by
    intro l
    induction l with
    | nil => intro _; rfl
    | cons c l ihl =>
      intro hs
      simp only [locTagL, placedL, rebuildL, ih c (hs c (by simp)), ihl (fun c hc => hs c (by simp [hc]))]
      cases rebuild (placed S T true c) with
      | error x => rfl
      | ok c' => cases rebuildL (placedL S T true l) <;> rfl
  simp only [locTag, placed, rebuild, hl cs (fun _ h => h), Bool.true_or, if_true]
  cases rebuildL (placedL S T true cs) <;> rfl

theorem toTag_rebuild {S T : DD} : ∀ e, toTag S T e = rebuild (placed S T false e) := by
  apply SE.ind
  intro h cs ih
  have hl : ∀ l : List SE, (∀ c ∈ l, c ∈ cs) → toTagL S T l = rebuildL (placedL S T false l) := by
    intro l
    induction l with
    | nil => intro _; rfl
    | cons c l ihl =>
      intro hs
      simp only [toTagL, placedL, rebuildL, ih c (hs c (by simp)), ihl (fun c hc => hs c (by simp [hc]))]
      cases rebuild (placed S T false c) with
      | error x => rfl
      | ok c' => cases rebuildL (placedL S T false l) <;> rfl
  have hl' : ∀ l : List SE, locTagL S S l = rebuildL (placedL S T true l) := by
    intro l
    induction l with
    | nil => rfl
    | cons c l ihl =>
      simp only [locTagL, placedL, rebuildL, locTag_rebuild (T := T) c, ihl]
      cases rebuild (placed S T true c) with
      | error x => rfl
      | ok c' => cases rebuildL (placedL S T true l) <;> rfl
  cases h with
  | intg g => simp only [toTag, placed, rebuild, hl' cs, isIntG, Bool.or_true]; cases rebuildL (placedL S T true cs) <;> rfl
  | _ => simp only [toTag, placed, rebuild, hl cs (fun _ h => h), isIntG, Bool.or_false]; cases rebuildL (placedL S T false cs) <;> rfl

/-- rebuilding drops trivial interpolations, or fails -/
theorem rebuild_spec : ∀ e, (SelfRef e → rebuild e = .error .cyclic) ∧ (¬ SelfRef e → rebuild e = .ok (squash e)) := by
  apply SE.ind
  intro h cs ih
  have hl : ∀ l : List SE, (∀ c ∈ l, c ∈ cs) → ((∃ c ∈ l, SelfRef c) → rebuildL l = .error .cyclic) ∧
      ((∀ c ∈ l, ¬ SelfRef c) → rebuildL l = .ok (squashL l)) := by
    intro l
    induction l with
    | nil => intro _; exact ⟨(by rintro ⟨c, hc, -⟩; cases hc), fun _ => rfl⟩
    | cons c l ihl =>
      intro hs
      obtain ⟨i1, i2⟩ := ih c (hs c (by simp))
      obtain ⟨j1, j2⟩ := ihl (fun c hc => hs c (by simp [hc]))
      constructor
      · rintro ⟨c', hc', hr⟩
        by_cases hc : SelfRef c
        · simp only [rebuildL, i1 hc]
        · rcases List.mem_cons.1 hc' with rfl | hm
          · exact absurd hr hc
          · simp only [rebuildL, i2 hc, j1 ⟨c', hm, hr⟩]
      · intro hn
        simp only [rebuildL, i2 (hn c (by simp)), j2 (fun c' hc' => hn c' (by simp [hc'])), squashL]
  obtain ⟨k1, k2⟩ := hl cs (fun _ h => h)
  by_cases hc : ∃ c ∈ cs, SelfRef c
  · constructor
    · intro _; simp only [rebuild, k1 hc]
    · intro hn
      obtain ⟨c, hm, d, o, hs, ho⟩ := hc
      exact absurd ⟨d, o, .child hm hs, ho⟩ hn
  · have hc' : ∀ c ∈ cs, ¬ SelfRef c := fun c hm hr => hc ⟨c, hm, hr⟩
    simp only [rebuild, k2 hc', squash]
    have hsub : SelfRef (.node h cs) → ∃ d o, h = .interp d d ∧ cs = [o] ∧ isInterp (squash o).head = true := by
      rintro ⟨d, o, hs, ho⟩
      cases hs with
      | refl => exact ⟨d, o, rfl, rfl, ho⟩
      | child hm hs => exact absurd ⟨d, o, hs, ho⟩ (hc' _ hm)
    constructor
    · intro hr
      obtain ⟨d, o, rfl, rfl, ho⟩ := hsub hr
      simp only [squashL, build, mkInterp, if_true]
      cases hh : (squash o).head <;> rw [hh] at ho <;> first | rfl | cases ho
    · intro hn
      have hother : ∀ h cs, isInterp h = false → build h cs = .ok (dropTrivial h cs) := by
        intro h cs hh
        cases h <;> first | rfl | cases hh
      by_cases hi : isInterp h = false
      · exact hother _ _ hi
      · cases h with
        | interp f t =>
          cases cs with
          | nil => rfl
          | cons o l =>
            cases l with
            | nil =>
              simp only [squashL, build, mkInterp, dropTrivial]
              by_cases hft : f = t
              · subst hft
                rw [if_pos rfl, if_pos rfl]
                cases hh : (squash o).head with
                | interp a b => exact absurd ⟨f, o, .refl _, by rw [hh]; rfl⟩ hn
                | _ => rfl
              · rw [if_neg hft, if_neg hft]
            | cons o2 l => rfl
        | _ => exact absurd rfl hi

/-! ## C11 -/

/-- **C11**, exactly, for every expression and all defaults: tagging fills in the locations and drops interpolations between places that
are then equal; it fails if and only if such an interpolation is applied to an interpolation. -/
theorem C11_exact (S T : DD) (e : SE) :
    (∀ e', toTag S T e = .ok e' ↔ ¬ SelfRef (placed S T false e) ∧ e' = squash (placed S T false e)) ∧
      (∀ x, toTag S T e = .error x ↔ SelfRef (placed S T false e) ∧ x = .cyclic) := by
  obtain ⟨h1, h2⟩ := rebuild_spec (placed S T false e)
  rw [toTag_rebuild]
  by_cases hs : SelfRef (placed S T false e)
  · rw [h1 hs]
    exact ⟨fun e' => ⟨(by intro h; cases h), fun h => absurd hs h.1⟩,
      fun x => ⟨fun h => ⟨hs, (Except.error.inj h).symm⟩, fun h => by rw [h.2]⟩⟩
  · rw [h2 hs]
    exact ⟨fun e' => ⟨fun h => ⟨hs, (Except.ok.inj h).symm⟩, fun h => by rw [h.2]⟩,
      fun x => ⟨(by intro h; cases h), fun h => absurd h.1 hs⟩⟩

/-! ## C76 -/

section

variable {V : Type}

theorem squash_node (h : Head) (cs : List SE) (hi : isInterp h = false) : squash (.node h cs) = .node h (squashL cs) := by
  cases h <;> first | rfl | cases hi

theorem squash_interp (f t : DD) (cs : List SE) :
    squash (.node (.interp f t) cs) = .node (.interp f t) (squashL cs) ∨
      f = t ∧ ∃ o, cs = [o] ∧ squash (.node (.interp f t) cs) = squash o := by
  cases cs with
  | nil => exact Or.inl rfl
  | cons o l =>
    cases l with
    | nil =>
      simp only [squash, squashL, dropTrivial]
      by_cases hft : f = t
      · rw [if_pos hft]
        exact Or.inr ⟨hft, o, rfl, rfl⟩
      · rw [if_neg hft]
        exact Or.inl rfl
    | cons o2 l => exact Or.inl rfl

theorem stageTag_squash (s : Stage) : ∀ e, stageTag s (squash e) = squash (stageTag s e) := by
  apply SE.ind
  intro h cs ih
  have hl : stageTagL s (squashL cs) = squashL (stageTagL s cs) := by
    rw [stageTagL_eq, stageTagL_eq, squashL_eq, squashL_eq, List.map_map, List.map_map]
    exact List.map_congr_left fun c hc => ih c hc
  cases h with
  | interp f t =>
    rcases squash_interp f t cs with h1 | ⟨rfl, o, rfl, h1⟩
    · rw [h1]
      simp only [stageTag]
      cases cs with
      | nil => rfl
      | cons o l =>
        cases l with
        | nil =>
          have hft : f ≠ t := by
            rintro rfl
            simp only [squash, squashL, dropTrivial, if_true] at h1
            have : ∀ x : SE, x ≠ .node (.interp f f) [x] := by
              intro x hx
              have := congrArg sizeOf hx
              simp at this
              omega
            exact this _ h1
          simp only [squashL, stageTagL, squash, dropTrivial, if_neg hft] at hl ⊢
          rw [ih o (by simp)]
        | cons o2 l => rw [hl]; rfl
    · rw [h1, ih o (by simp)]
      simp only [stageTag, stageTagL, squash, squashL, dropTrivial, if_true]
  | prop k dd =>
    cases k with
    | nodeCoord a =>
      simp only [squash, dropTrivial, stageTag]
      split <;> rfl
    | _ => simp only [squash, dropTrivial, stageTag, hl]
  | nrd a dd =>
    simp only [squash, dropTrivial, stageTag]
    split
    · rfl
    · rw [hl]; rfl
  | _ => simp only [squash, dropTrivial, stageTag, hl]

variable {W : Type} (J : Head → List W → W) (hJ : ∀ d v, J (.interp d d) [v] = v)
include hJ

theorem value_squash : ∀ e, value J (squash e) = value J e := by
  apply SE.ind
  intro h cs ih
  have hl : valueL J (squashL cs) = valueL J cs := by
    rw [valueL_eq, valueL_eq, squashL_eq, List.map_map]
    exact List.map_congr_left fun c hc => ih c hc
  cases h with
  | interp f t =>
    rcases squash_interp f t cs with h1 | ⟨rfl, o, rfl, h1⟩
    · rw [h1]
      simp only [value, hl]
    · rw [h1, ih o (by simp)]
      simp only [value, valueL, hJ]
  | _ => simp only [squash, dropTrivial, value, hl]

theorem meaning_squash (pl : List (Obj × PlaceKind)) : ∀ e tg, meaning J pl tg (squash e) = meaning J pl tg e := by
  apply SE.ind (P := fun e => ∀ tg, meaning J pl tg (squash e) = meaning J pl tg e)
  intro h cs ih tg
  have hl : meaningL J pl tg (squashL cs) = meaningL J pl tg cs := by
    rw [meaningL_eq, meaningL_eq, squashL_eq, List.map_map]
    exact List.map_congr_left fun c hc => ih c hc tg
  have ha : ∀ f1 f2 t n (l : List SE), (∀ c ∈ l, c ∈ cs) →
      meaningArgs J pl tg f1 f2 t n (squashL l) = meaningArgs J pl tg f1 f2 t n l := by
    intro f1 f2 t n l
    induction l generalizing n with
    | nil => intro _; rfl
    | cons c l ihl =>
      intro hs
      simp only [squashL, meaningArgs, ih c (hs c (by simp)), ihl _ (fun c hc => hs c (by simp [hc]))]
  have hv : ∀ e, value J (squash e) = value J e := value_squash J hJ
  have hvl : ∀ l, valueL J (squashL l) = valueL J l := by
    intro l
    rw [valueL_eq, valueL_eq, squashL_eq, List.map_map]
    exact List.map_congr_left fun c _ => hv c
  have hst : ∀ l, stageTagL .stage2 (squashL l) = squashL (stageTagL .stage2 l) := by
    intro l
    rw [stageTagL_eq, stageTagL_eq, squashL_eq, squashL_eq, List.map_map, List.map_map]
    exact List.map_congr_left fun c _ => stageTag_squash _ c
  cases h with
  | interp f t =>
    rcases squash_interp f t cs with h1 | ⟨rfl, o, rfl, h1⟩
    · rw [h1]
      simp only [meaning, hl]
    · rw [h1, ih o (by simp)]
      simp only [meaning, meaningL, hJ]
  | nrd a dd =>
    rw [squash_node _ _ rfl]
    have h2 : stageTag .stage2 (.node (.nrd a dd) (squashL cs)) = squash (stageTag .stage2 (.node (.nrd a dd) cs)) := by
      rw [← stageTag_squash, squash_node _ _ rfl]
    have h3 : value J (.node (.nrd a dd) (squashL cs)) = value J (.node (.nrd a dd) cs) := by
      rw [← squash_node _ _ rfl, hv]
    simp only [meaning, h2, hv, h3]
  | prop k dd =>
    rw [squash_node _ _ rfl]
    have h2 : stageTag .stage2 (.node (.prop k dd) (squashL cs)) = squash (stageTag .stage2 (.node (.prop k dd) cs)) := by
      rw [← stageTag_squash, squash_node _ _ rfl]
    have h3 : value J (.node (.prop k dd) (squashL cs)) = value J (.node (.prop k dd) cs) := by
      rw [← squash_node _ _ rfl, hv]
    simp only [meaning]
    cases tg with
    | false => exact h3
    | true =>
      simp only [if_true]
      rw [h2, hv]
  | intg g =>
    rw [squash_node _ _ rfl]
    simp only [meaning]
    rw [ha _ _ _ _ cs (fun _ h => h), hst]
    cases tg with
    | false => simp only [Bool.false_eq_true, if_false, hvl]
    | true => simp only [if_true, hvl]
  | _ =>
    rw [squash_node _ _ rfl]
    simp only [meaning, hl]

end

theorem sub_squash : ∀ e h' cs', Sub (squash e) (.node h' cs') → ∃ cs0, Sub e (.node h' cs0) ∧ cs' = squashL cs0 := by
  apply SE.ind (P := fun e => ∀ h' cs', Sub (squash e) (.node h' cs') → ∃ cs0, Sub e (.node h' cs0) ∧ cs' = squashL cs0)
  intro h cs ih h' cs' hx
  have key : squash (.node h cs) = .node h (squashL cs) → ∃ cs0, Sub (.node h cs) (.node h' cs0) ∧ cs' = squashL cs0 := by
    intro h1
    rw [h1] at hx
    cases hx with
    | refl => exact ⟨_, .refl _, rfl⟩
    | child hc hs =>
      rw [squashL_eq] at hc
      obtain ⟨c, hm, rfl⟩ := List.mem_map.1 hc
      obtain ⟨y, k1, k2⟩ := ih c hm h' cs' hs
      exact ⟨y, .child hm k1, k2⟩
  cases h with
  | interp f t =>
    rcases squash_interp f t cs with h1 | ⟨rfl, o, rfl, h1⟩
    · exact key h1
    · rw [h1] at hx
      obtain ⟨y, k1, k2⟩ := ih o (by simp) h' cs' hx
      exact ⟨y, .child (by simp) k1, k2⟩
  | _ => exact key rfl

theorem allIntG_squash {P : IG → Prop} : ∀ e, AllIntG P e → AllIntG P (squash e) := by
  apply SE.ind
  intro h cs ih ha
  simp only [AllIntG] at ha
  have hl : AllIntGL P (squashL cs) := by
    rw [squashL_eq, allIntGL_iff]
    intro c hc
    obtain ⟨c', hm, rfl⟩ := List.mem_map.1 hc
    exact ih c' hm (allIntGL_iff.1 ha.2 c' hm)
  have key : squash (.node h cs) = .node h (squashL cs) → AllIntG P (squash (.node h cs)) := by
    intro h1
    rw [h1]
    exact ⟨ha.1, hl⟩
  cases h with
  | interp f t =>
    rcases squash_interp f t cs with h1 | ⟨rfl, o, rfl, h1⟩
    · exact key h1
    · rw [h1]
      exact ih o (by simp) (allIntGL_iff.1 ha.2 o (by simp))
  | _ => exact key rfl

theorem homNest_squash : ∀ e, HomNest e → HomNest (squash e) := by
  apply SE.ind
  intro h cs ih ha
  simp only [HomNest] at ha
  have hl : HomNestL (squashL cs) := by
    rw [squashL_eq, homNestL_iff]
    intro c hc
    obtain ⟨c', hm, rfl⟩ := List.mem_map.1 hc
    exact ih c' hm (homNestL_iff.1 ha.2 c' hm)
  have key : squash (.node h cs) = .node h (squashL cs) → HomNest (squash (.node h cs)) := by
    intro h1
    rw [h1]
    refine ⟨fun g hg => ?_, hl⟩
    have := ha.1 g hg
    rw [squashL_eq, allIntGL_iff]
    intro c hc
    obtain ⟨c', hm, rfl⟩ := List.mem_map.1 hc
    exact allIntG_squash c' (allIntGL_iff.1 this c' hm)
  cases h with
  | interp f t =>
    rcases squash_interp f t cs with h1 | ⟨rfl, o, rfl, h1⟩
    · exact key h1
    · rw [h1]
      exact ih o (by simp) (homNestL_iff.1 ha.2 o (by simp))
  | _ => exact key rfl

theorem squash_keeps : ∀ e, Keeps e (squash e) := by
  apply SE.ind
  intro h cs ih
  have key : squash (.node h cs) = .node h (squashL cs) → Keeps (.node h cs) (squash (.node h cs)) := by
    intro h1
    rw [h1, squashL_eq]
    exact keeps_node (.same h) (keeps_map squash cs ih)
  cases h with
  | interp f t =>
    rcases squash_interp f t cs with h1 | ⟨rfl, o, rfl, h1⟩
    · exact key h1
    · rw [h1]
      refine Keeps.trans ⟨?_, ?_, ?_⟩ (ih o (by simp))
      · intro k hk
        exact has_node.2 (Or.inr ⟨o, by simp, hk⟩)
      · intro hg
        exact (good_node.1 hg).2 o (by simp)
      · intro Q hq
        exact (sealed_node.1 hq).2 o (by simp)
  | _ => exact key rfl

theorem placed_final {S T : DD} : ∀ e b, Final S (if b then S else T) e → placed S T b e = e := by
  apply SE.ind (P := fun e => ∀ b, Final S (if b then S else T) e → placed S T b e = e)
  intro h cs ih b hf
  simp only [Final] at hf
  obtain ⟨h1, -, h3⟩ := hf
  have hT : (if isIntG h then S else if b then S else T) = (if (b || isIntG h) then S else T) := by
    cases b <;> cases isIntG h <;> rfl
  rw [hT] at h3
  have hl : ∀ l : List SE, (∀ c ∈ l, c ∈ cs) → FinalL S (if (b || isIntG h) then S else T) l →
      placedL S T (b || isIntG h) l = l := by
    intro l
    induction l with
    | nil => intro _ _; rfl
    | cons c l ihl =>
      intro hs hf
      simp only [FinalL] at hf
      simp only [placedL, ih c (hs c (by simp)) _ hf.1, ihl (fun c hc => hs c (by simp [hc])) hf.2]
  simp only [placed, h1, hl cs (fun _ h => h) h3]

theorem final_sub {S T : DD} : ∀ e (b : Bool), Final S (if b then S else T) e → ∀ f t o, Sub e (.node (.interp f t) [o]) →
    fillDD S f ≠ fillDD S t := by
  apply SE.ind (P := fun e => ∀ b : Bool, Final S (if b then S else T) e → ∀ f t o, Sub e (.node (.interp f t) [o]) →
    fillDD S f ≠ fillDD S t)
  intro h cs ih b hf f t o hs
  simp only [Final] at hf
  obtain ⟨h1, h2, h3⟩ := hf
  cases hs with
  | refl =>
    simp only [retag, Head.interp.injEq] at h1
    rw [h1.1, h1.2]
    exact h2 f t o rfl rfl
  | child hc hs =>
    rename_i c
    have hT : (if isIntG h then S else if b then S else T) = (if (b || isIntG h) then S else T) := by
      cases b <;> cases isIntG h <;> rfl
    rw [hT] at h3
    have hl : ∀ l : List SE, FinalL S (if (b || isIntG h) then S else T) l → ∀ c ∈ l,
        Final S (if (b || isIntG h) then S else T) c := by
      intro l
      induction l with
      | nil => intro _ c hc; cases hc
      | cons c' l ihl =>
        intro hf c hc
        simp only [FinalL] at hf
        rcases List.mem_cons.1 hc with rfl | hc
        · exact hf.1
        · exact ihl hf.2 c hc
    exact ih c hc _ (hl cs h3 c hc) f t o hs

theorem sub_placed {S T : DD} : ∀ e (b : Bool) h' cs', Sub (placed S T b e) (.node h' cs') →
    ∃ h0 cs0 T' b', Sub e (.node h0 cs0) ∧ h' = retag S T' h0 ∧ cs' = placedL S T b' cs0 := by
  apply SE.ind (P := fun e => ∀ (b : Bool) h' cs', Sub (placed S T b e) (.node h' cs') →
    ∃ h0 cs0 T' b', Sub e (.node h0 cs0) ∧ h' = retag S T' h0 ∧ cs' = placedL S T b' cs0)
  intro h cs ih b h' cs' hx
  simp only [placed] at hx
  cases hx with
  | refl => exact ⟨h, cs, _, _, .refl _, rfl, rfl⟩
  | child hc hs =>
    rw [placedL_eq] at hc
    obtain ⟨c, hm, rfl⟩ := List.mem_map.1 hc
    obtain ⟨h0, cs0, T', b', k1, k2, k3⟩ := ih c hm _ h' cs' hs
    exact ⟨h0, cs0, T', b', .child hm k1, k2, k3⟩

/-- **C76** for all interpolations: also if filling in the locations makes both ends of an interpolation equal, evaluating the bound
expression gives the meaning of the expression with its locations filled in, if interpolating from a place to the same place is the identity.
(The preparation fails if such an interpolation is applied to an interpolation, `C76_cyclic`.) -/
theorem C76_collapse {V : Type} (E : Enc) (c : Compiler.Cfg) (I : Compiler.Interp V) (pl : List (Obj × PlaceKind)) (S T : DD)
    (e e' : SE) (ctx : Compiler.Ctx V) (cc : Compiler.Cache V) (hc : Compiler.CfgOk c) (hI : Compiler.Lawful I)
    (hid : ∀ d v, I.op (E.head (.interp d d)) [v] = some v) (hcc : Compiler.CacheValid I ctx cc) (hS : Explicit S)
    (hT : Explicit T) (hu : UnregOk pl e) (h1 : ∀ f t cs, Sub e (.node (.interp f t) cs) → cs.length = 1)
    (hnest : HomNest (placed S T false e))
    (havg : AllIntG (fun g => g.src.geometry ∉ qbxNames pl → g.lim ≠ .avg) (placed S T false e)) (hg : Good e)
    (hn : NoClash e) (hok : prepare pl S T e = .ok e') :
    (∀ v, bindEval E c I pl S T e ctx cc = .ok v ↔ meaning (mean E I ctx) pl false (placed S T false e) = some v) ∧
      ((∃ x, bindEval E c I pl S T e ctx cc = .error (.eval x)) ↔
        meaning (mean E I ctx) pl false (placed S T false e) = none) := by
  have hJ : ∀ d v, mean E I ctx (.interp d d) [v] = v := by
    intro d v
    cases v with
    | none => rfl
    | some w => exact hid d w
  obtain ⟨e1, ht⟩ : ∃ e1, toTag S T e = .ok e1 := by
    cases ht : toTag S T e with
    | ok e1 => exact ⟨e1, rfl⟩
    | error x => simp only [prepare, ht] at hok; cases hok
  have hf := toTag_final hS hT e e1 ht
  have hp : placed S T false e1 = e1 := placed_final e1 false hf
  have hs : e1 = squash (placed S T false e) := ((C11_exact S T e).1 e1).1 ht |>.2
  have hprep : prepare pl S T e1 = prepare pl S T e := by
    simp only [prepare, ht, C11_idempotent hS hT e e1 ht]
  have hbind : bindEval E c I pl S T e1 ctx cc = bindEval E c I pl S T e ctx cc := by
    simp only [bindEval, hprep]
  have hk : Keeps e e1 := by
    rw [hs]
    exact (placed_keeps S T e false).trans (squash_keeps _)
  have hplain : Plain pl S T e1 := by
    refine ⟨?_, ?_, ?_⟩
    · intro f t cs hsub
      have hlen : cs.length = 1 := by
        rw [hs] at hsub
        obtain ⟨cs1, k1, rfl⟩ := sub_squash _ _ _ hsub
        obtain ⟨h0, cs0, T', b', k3, k4, rfl⟩ := sub_placed _ _ _ _ k1
        rw [squashL_eq, placedL_eq, List.length_map, List.length_map]
        cases h0 with
        | interp f0 t0 => exact h1 f0 t0 cs0 k3
        | _ => cases k4
      match cs, hlen with
      | [o], _ => exact final_sub e1 false hf f t o hsub
    · rw [hp, hs]; exact homNest_squash _ hnest
    · rw [hp, hs]; exact allIntG_squash _ havg
  have hu1 : UnregOk pl e1 := by
    rcases hu with h | h
    · exact Or.inl h
    · right
      rw [hs]
      exact allIntG_squash _ (placed_unlimited S T e false h)
  obtain ⟨k1, k2⟩ := C76_exact E c I pl S T e1 e' ctx cc hc hI hcc hu1 hplain (hk.2 hg) (noClash_keeps hk hn)
    (by rw [hprep, hok])
  have hm : meaning (mean E I ctx) pl false (placed S T false e1) = meaning (mean E I ctx) pl false (placed S T false e) := by
    rw [hp, hs, meaning_squash (mean E I ctx) hJ]
  rw [hm, hbind] at k2
  refine ⟨fun v => ?_, k2⟩
  have := k1 v
  rw [hm, hbind] at this
  exact this

/-- **C76**: `bind` fails if an interpolation whose ends become equal is applied to an interpolation. -/
theorem C76_cyclic {V : Type} (E : Enc) (c : Compiler.Cfg) (I : Compiler.Interp V) (pl : List (Obj × PlaceKind)) (S T : DD)
    (e : SE) (ctx : Compiler.Ctx V) (cc : Compiler.Cache V) (h : SelfRef (placed S T false e)) :
    bindEval E c I pl S T e ctx cc = .error (.prepare .cyclic) := by
  have := ((C11_exact S T e).2 .cyclic).2 ⟨h, rfl⟩
  simp only [bindEval, prepare, this]

/-! ### The hypotheses can be met -/

/-- `interpolate(sigma, from the default, to "q")` with default source `q`: both ends become `q` -/
def exTrivial : SE := .node .sum [.node (.interp ⟨.none, none, .node⟩ exD) [.node (.var "sigma") []], .node (.var "sigma") []]

/-- integers, with interpolation as the identity -/
def exIntId : Compiler.Interp Int := { exInt with op := fun f l => if f = "interp" then l.head? else exInt.op f l }

theorem exIntId_lawful : Compiler.Lawful exIntId := ⟨exInt_lawful.zero_add, exInt_lawful.pot_perm⟩

example : squash (placed exD exD false exTrivial) ≠ placed exD exD false exTrivial := by decide +kernel

example : ∃ e', prepare exColl exD exD exTrivial = .ok e' ∧
    bindEval exEnc Compiler.exCfg exIntId exColl exD exD exTrivial exInputs [] = .ok 10 := by
  obtain ⟨e', he⟩ : ∃ e', prepare exColl exD exD exTrivial = .ok e' := ⟨_, rfl⟩
  refine ⟨e', he, ((C76_collapse exEnc Compiler.exCfg exIntId exColl exD exD exTrivial e' exInputs [] Compiler.exCfg_ok
    exIntId_lawful (fun _ _ => rfl) (by intro k v h; cases h) (by simp [Explicit, exD]) (by simp [Explicit, exD])
    (Or.inl (fun p hp => by revert p; decide)) ?_ ?_ ?_ ?_ ?_ he).1 10).2 (by decide +kernel)⟩
  · intro f t cs hs
    cases hs with
    | child hc hs =>
      simp only [List.mem_cons, List.not_mem_nil, or_false] at hc
      rcases hc with rfl | rfl
      · cases hs with
        | refl => rfl
        | child hc hs =>
          simp only [List.mem_cons, List.not_mem_nil, or_false] at hc
          subst hc
          cases hs with
          | child hc hs => cases hc
      · cases hs with
        | child hc hs => cases hc
  · simp [exTrivial, placed, placedL, retag, HomNest, HomNestL]
  · simp [exTrivial, placed, placedL, retag, AllIntG, AllIntGL]
  · simp [exTrivial, good_node, NodeOk]
  · intro x hx hc
    have hx : x = "sigma" := by simpa [exTrivial, has_node, key, eq_comm] using hx
    subst hx
    rcases hc with ⟨i, hi⟩ | ⟨p, hp, -⟩
    · exact Compiler.toString_nat_ne hi 's' (by decide +kernel) (by decide +kernel) (by decide +kernel)
    · simp [exTrivial, has_node, key] at hp

/-- and so can that of `C76_cyclic` -/
example : SelfRef (placed exD exD false (.node (.interp ⟨.none, none, .node⟩ exD)
    [.node (.interp ⟨.ident "q", some .stage1, .node⟩ exD) [.node (.var "sigma") []]])) :=
  ⟨exD, _, .refl _, by decide +kernel⟩

end Verif.Bind
