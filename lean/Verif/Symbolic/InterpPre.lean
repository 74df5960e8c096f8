import Verif.Symbolic.QBXPre

/-!
# Unregularized and interpolation preprocessing (C14, C15)

Model of `UnregularizedPreprocessor` (`pytential/symbolic/mappers.py:718-738`),
`DiscretizationStageTagger` (`568-602`) and `InterpolationPreprocessor` (`743-825`, with
its default `from_discr_stage = QBX_SOURCE_STAGE2`, the only one used by `bind`).
-/

namespace Verif.Sym

open Verif.DofDesc

/-! ## Unregularized sources -/

mutual
/-- `UnregularizedPreprocessor.rec` (`mappers.py:718-738`): applied to *every* layer
potential; the geometry name is not looked at. -/
def unregPre : SE → Except Err SE
  | .node (.intg g) cs =>
    if g.lim = .p1 ∨ g.lim = .m1 then .error .value
    else match unregPreL cs with
      | .error x => .error x
      | .ok cs' => .ok (.node (.intg { g with lim := .none }) cs')
  | .node h cs => match unregPreL cs with
    | .error x => .error x
    | .ok cs' => .ok (.node h cs')
/-- `UnregularizedPreprocessor.rec` on children -/
def unregPreL : List SE → Except Err (List SE)
  | [] => .ok []
  | c :: l => match unregPre c with
    | .error x => .error x
    | .ok c' => match unregPreL l with
      | .error x => .error x
      | .ok l' => .ok (c' :: l')
end

/-- C14 (partial): layer potentials without a requested limit are never rejected or
changed by the presence of an unregularized source, at any depth. -/
theorem C14_unlimited_partial : ∀ e, AllIntG (fun g => g.lim = .none) e → unregPre e = .ok e := by
  apply SE.ind
  intro h cs ih he
  simp only [AllIntG] at he
  have hl : ∀ l : List SE, (∀ c ∈ l, c ∈ cs) → unregPreL l = .ok l := by
    intro l
    induction l with
    | nil => intro _; rfl
    | cons c l ihl =>
      intro hs
      simp [unregPreL, ih c (hs c (by simp)) (allIntGL_iff.1 he.2 c (hs c (by simp))),
        ihl (fun c hc => hs c (by simp [hc]))]
  cases h with
  | intg g =>
    have hg := he.1 g rfl
    have : ({ g with lim := .none } : IG) = g := by cases g; simp_all
    simp [unregPre, hg, hl cs (fun _ h => h), this]
  | _ => simp [unregPre, hl cs (fun _ h => h)]

/-- C14 is false: with an unregularized source `u` in the collection, an on-surface
potential of the QBX source `q` is rejected, and its side request `+2` is dropped. -/
theorem C14_refuted :
    (∃ e, AllIntG (fun g => g.src.geometry = .ident "q" ∧ LimitOk g) e ∧ unregPre e = .error .value) ∧
    (∃ e e', AllIntG (fun g => g.src.geometry = .ident "q" ∧ LimitOk g) e ∧ unregPre e = .ok e' ∧ e' ≠ e) := by
  refine ⟨⟨.node (.intg ⟨.base "G", ["G"], 1, .p1, ⟨.ident "q", none, .node⟩, ⟨.ident "q", none, .node⟩, []⟩)
    [.node (.var "sigma") []], ?_, rfl⟩,
    ⟨.node (.intg ⟨.base "G", ["G"], 1, .p2, ⟨.ident "q", none, .node⟩, ⟨.ident "t", none, .node⟩, []⟩)
    [.node (.var "sigma") []], _, ?_, rfl, by decide⟩⟩ <;>
    simp [AllIntG, AllIntGL, LimitOk]

/-- non-vacuity of `C14_unlimited_partial` -/
example : AllIntG (fun g => g.lim = .none) (.node .sum
    [.node (.intg ⟨.base "G", ["G"], 1, .none, ⟨.ident "q", none, .node⟩, ⟨.ident "t", none, .node⟩, []⟩)
      [.node (.var "sigma") []], .node (.var "x") []]) := by
  simp [AllIntG, AllIntGL]

/-! ## Upsampling: model -/

/-- kinds of places, as far as `isinstance` checks look at them -/
inductive PlaceKind | qbx | unregularized | pointSource | target
  deriving DecidableEq, Repr

/-- `places.get_geometry(geo)` (`collection.py:409-417`): `KeyError` if absent -/
def getGeo (pl : List (Obj × PlaceKind)) (o : Obj) : Except Err PlaceKind :=
  match pl.find? (fun p => decide (p.1 = o)) with
  | some p => .ok p.2
  | none => .error .key

/-- `d.copy(discr_stage=s)` (`dof_desc.py:192-208`) -/
def DDs (d : DD) (s : Stage) : DD := { d with stage := some s }

/-- `DDs` is `DOFDescriptor.to_stage...` of `Verif.DofDesc`. -/
theorem DDs_eq (d : DD) (s : Stage) : toStage s d = .ok (DDs d s) := by
  simp [toStage, copy, unwrapGeo, mk, DDs]

mutual
/-- `DiscretizationStageTagger(s).rec` (`mappers.py:568-602`): changes the stage of node
coordinates and reference derivatives; does not recurse if the stage already agrees. -/
def stageTag (s : Stage) : SE → SE
  | .node h cs => match h with
    | .prop (.nodeCoord a) dd =>
      if dd.stage = some s then .node (.prop (.nodeCoord a) dd) cs
      else .node (.prop (.nodeCoord a) (DDs dd s)) cs
    | .nrd a dd =>
      if dd.stage = some s then .node (.nrd a dd) cs
      else .node (.nrd a (DDs dd s)) (stageTagL s cs)
    | h => .node h (stageTagL s cs)
/-- on children -/
def stageTagL (s : Stage) : List SE → List SE
  | [] => []
  | c :: l => stageTag s c :: stageTagL s l
end

/-- `interpolate(operand, from_dd, to_dd)` (`primitives.py:1514-1527`) -/
def interpolate (o : SE) (f t : DD) : Except Err SE :=
  if f = t then .ok o
  else if t.gran = .center then .error .value
  else .ok (.node (.interp f t) [o])

/-- the target of an `IntG` after `mappers.py:788-789` -/
def tgtStage (g : IG) : IG :=
  if g.tgt.stage = none then { g with tgt := DDs g.tgt .stage1 } else g

/-- is the source of `g` to be upsampled (`mappers.py:791-797`)? -/
def upsampled (pl : List (Obj × PlaceKind)) (g : IG) : Except Err Bool :=
  if g.src.stage ≠ none then .ok false
  else match getGeo pl g.src.geometry with
    | .error x => .error x
    | .ok k => .ok (decide (k = .qbx))

/-- `InterpolationPreprocessor.map_num_reference_derivative` (`mappers.py:771-785`).  The
recursion on the tagged expression returns at once: its stage is `QBX_SOURCE_STAGE2`. -/
def nrdPre (pl : List (Obj × PlaceKind)) (a : String) (dd : DD) (cs : List SE) : Except Err SE :=
  if dd.stage ≠ some .quadStage2 then .ok (.node (.nrd a dd) cs)
  else match getGeo pl dd.geometry with
    | .error x => .error x
    | .ok k =>
      if k = .qbx then interpolate (stageTag .stage2 (.node (.nrd a dd) cs)) (DDs dd .stage2) dd
      else .ok (.node (.nrd a dd) cs)

/-- the head after `DiscretizationStageTagger(QBX_SOURCE_STAGE2)` if `tg` -/
def tagHd (tg : Bool) : SE → SE := fun e => if tg then stageTag .stage2 e else e

mutual
/-- `InterpolationPreprocessor.rec` (`mappers.py:743-825`).  Kernel arguments are first
passed through the stage tagger; the flag `tg` says that the expression to be processed
is the tagged version of the given one (see `interpPre_tagged`). -/
def interpPre (pl : List (Obj × PlaceKind)) (tg : Bool) : SE → Except Err SE
  | .node (.nrd a dd) cs =>
    if tg then .ok (stageTag .stage2 (.node (.nrd a dd) cs)) else nrdPre pl a dd cs
  | .node (.intg g) cs => match upsampled pl (tgtStage g) with
    | .error x => .error x
    | .ok false => .ok (.node (.intg (tgtStage g)) (if tg then stageTagL .stage2 cs else cs))
    | .ok true =>
      match interpArgs pl tg (DDs g.src .stage1) (DDs g.src .stage2) (DDs g.src .quadStage2) g.nd cs with
      | .error x => .error x
      | .ok cs' => .ok (.node (.intg { tgtStage g with src := DDs g.src .quadStage2 }) cs')
  | .node (.prop k dd) cs => .ok (tagHd tg (.node (.prop k dd) cs))
  | .node h cs => match interpPreL pl tg cs with
    | .error x => .error x
    | .ok cs' => .ok (.node h cs')
/-- on children -/
def interpPreL (pl : List (Obj × PlaceKind)) (tg : Bool) : List SE → Except Err (List SE)
  | [] => .ok []
  | c :: l => match interpPre pl tg c with
    | .error x => .error x
    | .ok c' => match interpPreL pl tg l with
      | .error x => .error x
      | .ok l' => .ok (c' :: l')
/-- densities (the first `n` expressions) are interpolated from stage 1, kernel arguments
are tagged and interpolated from stage 2 (`mappers.py:799-817`) -/
def interpArgs (pl : List (Obj × PlaceKind)) (tg : Bool) (f1 f2 t : DD) : Nat → List SE →
    Except Err (List SE)
  | _, [] => .ok []
  | n, c :: l => match interpPre pl (tg || n == 0) c with
    | .error x => .error x
    | .ok c' => match interpolate c' (if n = 0 then f2 else f1) t with
      | .error x => .error x
      | .ok c'' => match interpArgs pl tg f1 f2 t (n - 1) l with
        | .error x => .error x
        | .ok l' => .ok (c'' :: l')
end

/-! ## Upsampling: justification of the flag -/

theorem stageTagL_eq (s : Stage) : ∀ l, stageTagL s l = l.map (stageTag s)
  | [] => rfl
  | c :: l => by simp [stageTagL, stageTagL_eq s l]

/-- tagging twice is tagging once -/
theorem stageTag_idem (s : Stage) : ∀ e, stageTag s (stageTag s e) = stageTag s e := by
  apply SE.ind
  intro h cs ih
  have hl : stageTagL s (stageTagL s cs) = stageTagL s cs := by
    simp only [stageTagL_eq, List.map_map]
    exact List.map_congr_left fun c hc => ih c hc
  cases h with
  | prop k dd =>
    cases k <;> simp only [stageTag, hl]
    split
    · rename_i h; simp [stageTag, h]
    · simp [stageTag, DDs]
  | nrd a dd =>
    simp only [stageTag]
    split
    · rename_i h; simp [stageTag, h]
    · simp [stageTag, DDs]
  | _ => simp only [stageTag, hl]

theorem stageTagL_idem (s : Stage) (cs : List SE) :
    stageTagL s (stageTagL s cs) = stageTagL s cs := by
  simp only [stageTagL_eq, List.map_map]
  exact List.map_congr_left fun c _ => stageTag_idem s c

theorem interpPre_true_tag (pl : List (Obj × PlaceKind)) : ∀ e,
    interpPre pl true (stageTag .stage2 e) = interpPre pl true e := by
  apply SE.ind
  intro h cs ih
  have hl : ∀ l : List SE, (∀ c ∈ l, c ∈ cs) →
      interpPreL pl true (stageTagL .stage2 l) = interpPreL pl true l := by
    intro l
    induction l with
    | nil => intro _; rfl
    | cons c l ihl =>
      intro hs
      simp only [interpPreL, stageTagL, ih c (hs c (by simp)), ihl (fun c hc => hs c (by simp [hc]))]
  have ha : ∀ (l : List SE) f1 f2 t n, (∀ c ∈ l, c ∈ cs) →
      interpArgs pl true f1 f2 t n (stageTagL .stage2 l) = interpArgs pl true f1 f2 t n l := by
    intro l
    induction l with
    | nil => intros; rfl
    | cons c l ihl =>
      intro f1 f2 t n hs
      simp only [interpArgs, stageTagL, Bool.true_or, ih c (hs c (by simp)),
        ihl f1 f2 t (n-1) (fun c hc => hs c (by simp [hc]))]
  cases h with
  | prop k dd =>
    have h1 := stageTag_idem .stage2 (.node (.prop k dd) cs)
    have h2 : ∀ k' dd' cs', interpPre pl true (.node (.prop k' dd') cs') =
        .ok (stageTag .stage2 (.node (.prop k' dd') cs')) := fun _ _ _ => rfl
    rw [h2, ← h1]
    cases k <;> simp only [stageTag, h2] <;> (try split) <;> simp_all [stageTag, DDs, h2]
  | nrd a dd =>
    have h1 := stageTag_idem .stage2 (.node (.nrd a dd) cs)
    have h2 : ∀ k' dd' cs', interpPre pl true (.node (.nrd k' dd') cs') =
        .ok (stageTag .stage2 (.node (.nrd k' dd') cs')) := fun _ _ _ => rfl
    rw [h2, ← h1]
    simp only [stageTag] <;> split <;> simp_all [stageTag, DDs, h2]
  | intg g =>
    simp only [stageTag, interpPre, if_true, stageTagL_idem, ha cs _ _ _ _ (fun _ h => h)]
  | _ => simp only [stageTag, interpPre, hl cs (fun _ h => h)]

/-- `interpPre true e` is the preprocessing of the tagged expression, as in the code. -/
theorem interpPre_tagged (pl : List (Obj × PlaceKind)) : ∀ e,
    interpPre pl true e = interpPre pl false (stageTag .stage2 e) := by
  apply SE.ind
  intro h cs ih
  have hl : ∀ l : List SE, (∀ c ∈ l, c ∈ cs) →
      interpPreL pl true l = interpPreL pl false (stageTagL .stage2 l) := by
    intro l
    induction l with
    | nil => intro _; rfl
    | cons c l ihl =>
      intro hs
      simp only [interpPreL, stageTagL, ih c (hs c (by simp)), ihl (fun c hc => hs c (by simp [hc]))]
  have ha : ∀ (l : List SE) f1 f2 t n, (∀ c ∈ l, c ∈ cs) →
      interpArgs pl true f1 f2 t n l = interpArgs pl false f1 f2 t n (stageTagL .stage2 l) := by
    intro l
    induction l with
    | nil => intros; rfl
    | cons c l ihl =>
      intro f1 f2 t n hs
      have hc : interpPre pl true c = interpPre pl (n == 0) (stageTag .stage2 c) := by
        cases hn : (n == 0) with
        | false => exact ih c (hs c (by simp))
        | true => exact (interpPre_true_tag pl c).symm
      simp only [interpArgs, stageTagL, Bool.true_or, Bool.false_or, hc,
        ihl f1 f2 t (n-1) (fun c hc => hs c (by simp [hc]))]
  cases h with
  | prop k dd =>
    cases k <;> simp only [stageTag, interpPre, tagHd, if_true, Bool.false_eq_true, if_false]
    split <;> simp [interpPre, tagHd]
  | nrd a dd =>
    simp only [stageTag, interpPre, if_true]
    split
    · rename_i h; simp [interpPre, nrdPre, h]
    · simp [interpPre, nrdPre, DDs]
  | intg g =>
    simp only [stageTag, interpPre, if_true, Bool.false_eq_true, if_false, ha cs _ _ _ _ (fun _ h => h)]
  | _ => simp only [stageTag, interpPre, hl cs (fun _ h => h)]

/-! ## Upsampling: specification and proofs -/

/-- a source registered as a QBX source in the collection -/
def IsQBX (pl : List (Obj × PlaceKind)) (o : Obj) : Prop := getGeo pl o = .ok .qbx

/-- the potential needs no further treatment: its target has a stage, and so has its
source if it is a QBX source -/
def Ready (pl : List (Obj × PlaceKind)) (g : IG) : Prop :=
  g.tgt.stage ≠ none ∧ (IsQBX pl g.src.geometry → g.src.stage ≠ none)

mutual
/-- Layer potentials below a potential that is not upsampled (non-QBX source, or stage
chosen by the user) or below a reference derivative are ready already. -/
def Flat (pl : List (Obj × PlaceKind)) : SE → Prop
  | .node h cs =>
    (∀ g, h = .intg g → (g.src.stage ≠ none ∨ ¬ IsQBX pl g.src.geometry) → AllIntGL (Ready pl) cs) ∧
    (∀ a dd, h = .nrd a dd → AllIntGL (Ready pl) cs) ∧
    (∀ k dd, h = .prop k dd → AllIntGL (Ready pl) cs) ∧ FlatL pl cs
/-- same for lists -/
def FlatL (pl : List (Obj × PlaceKind)) : List SE → Prop
  | [] => True
  | c :: l => Flat pl c ∧ FlatL pl l
end

theorem flatL_iff {pl} : ∀ {l : List SE}, FlatL pl l ↔ ∀ c ∈ l, Flat pl c
  | [] => by simp [FlatL]
  | c :: l => by simp [FlatL, flatL_iff]

/-- the specification of "the same expression evaluated on stage `s`": node coordinates
and reference derivatives are moved to stage `s`, everything else stays; what is already
differentiated on stage `s` is not touched. -/
inductive Restage (s : Stage) : SE → SE → Prop
  | coord (a dd cs) : Restage s (.node (.prop (.nodeCoord a) dd) cs)
      (.node (.prop (.nodeCoord a) ⟨dd.geometry, some s, dd.gran⟩) cs)
  | derivDone (a dd cs) : dd.stage = some s → Restage s (.node (.nrd a dd) cs) (.node (.nrd a dd) cs)
  | deriv (a dd cs cs') : dd.stage ≠ some s → List.Forall₂ (Restage s) cs cs' →
      Restage s (.node (.nrd a dd) cs) (.node (.nrd a ⟨dd.geometry, some s, dd.gran⟩) cs')
  | other (h cs cs') : (∀ a dd, h ≠ .prop (.nodeCoord a) dd) → (∀ a dd, h ≠ .nrd a dd) →
      List.Forall₂ (Restage s) cs cs' → Restage s (.node h cs) (.node h cs')

theorem stageTag_restage (s : Stage) : ∀ e, Restage s e (stageTag s e) := by
  apply SE.ind
  intro h cs ih
  have hl : List.Forall₂ (Restage s) cs (stageTagL s cs) := by
    rw [stageTagL_eq, List.forall₂_map_right_iff, List.forall₂_same]
    exact ih
  cases h with
  | prop k dd =>
    cases k with
    | nodeCoord a =>
      simp only [stageTag]
      split
      · rename_i h
        have := Restage.coord (s := s) a dd cs
        rwa [← h] at this
      · exact .coord a dd cs
    | _ => exact .other _ _ _ (by simp) (by simp) hl
  | nrd a dd =>
    simp only [stageTag]
    split
    · rename_i h; exact .derivDone a dd cs h
    · rename_i h; exact .deriv a dd cs _ h hl
  | _ => exact .other _ _ _ (by simp) (by simp) hl

theorem allIntG_stageTag {P : IG → Prop} (s : Stage) : ∀ e, AllIntG P e → AllIntG P (stageTag s e) := by
  apply SE.ind
  intro h cs ih he
  simp only [AllIntG] at he
  have hl : AllIntGL P (stageTagL s cs) := by
    rw [stageTagL_eq]
    refine allIntGL_iff.2 fun c hc => ?_
    obtain ⟨d, hd, rfl⟩ := List.mem_map.1 hc
    exact ih d hd (allIntGL_iff.1 he.2 d hd)
  cases h with
  | prop k dd =>
    cases k <;> simp only [stageTag]
    case nodeCoord => split <;> exact ⟨by simp, he.2⟩
    all_goals exact ⟨by simp, hl⟩
  | nrd a dd => simp only [stageTag]; split <;> [exact ⟨by simp, he.2⟩; exact ⟨by simp, hl⟩]
  | intg g => exact ⟨he.1, hl⟩
  | _ => exact ⟨by simp, hl⟩

theorem allIntGL_stageTagL {P : IG → Prop} (s : Stage) (l : List SE) (h : AllIntGL P l) :
    AllIntGL P (stageTagL s l) := by
  rw [stageTagL_eq]
  refine allIntGL_iff.2 fun c hc => ?_
  obtain ⟨d, hd, rfl⟩ := List.mem_map.1 hc
  exact allIntG_stageTag s d (allIntGL_iff.1 h d hd)

theorem allIntG_interpolate {P : IG → Prop} {o o' : SE} {f t : DD} (h : AllIntG P o)
    (hi : interpolate o f t = .ok o') : AllIntG P o' := by
  unfold interpolate at hi
  split at hi
  · cases hi; exact h
  · split at hi
    · cases hi
    · cases hi; exact ⟨by simp, h, trivial⟩

theorem tgtStage_ready (g : IG) : (tgtStage g).tgt.stage ≠ none ∧ (tgtStage g).src = g.src ∧
    (tgtStage g).nd = g.nd := by
  unfold tgtStage
  split
  · simp [DDs]
  · rename_i h; exact ⟨h, rfl, rfl⟩

theorem interpPre_ready (pl : List (Obj × PlaceKind)) : ∀ (e : SE), Flat pl e →
    ∀ tg e', interpPre pl tg e = .ok e' → AllIntG (Ready pl) e' := by
  apply SE.ind
  intro h cs ih hf tg e' he
  simp only [Flat] at hf
  obtain ⟨f1, f2, f3, f4⟩ := hf
  have hl : ∀ l l' : List SE, (∀ c ∈ l, c ∈ cs) → interpPreL pl tg l = .ok l' → AllIntGL (Ready pl) l' := by
    intro l
    induction l with
    | nil => intro l' _ h; simp only [interpPreL, Except.ok.injEq] at h; subst h; trivial
    | cons c l ihl =>
      intro l' hs h
      simp only [interpPreL] at h
      split at h
      · cases h
      · rename_i c' hc'
        split at h
        · cases h
        · rename_i l'' hl''
          simp only [Except.ok.injEq] at h; subst h
          exact ⟨ih c (hs c (by simp)) (flatL_iff.1 f4 c (hs c (by simp))) tg c' hc',
            ihl _ (fun c hc => hs c (by simp [hc])) hl''⟩
  have ha : ∀ (l l' : List SE) d1 d2 t n, (∀ c ∈ l, c ∈ cs) → interpArgs pl tg d1 d2 t n l = .ok l' →
      AllIntGL (Ready pl) l' := by
    intro l
    induction l with
    | nil => intro l' _ _ _ _ _ h; simp only [interpArgs, Except.ok.injEq] at h; subst h; trivial
    | cons c l ihl =>
      intro l' d1 d2 t n hs h
      simp only [interpArgs] at h
      split at h
      · cases h
      · rename_i c' hc'
        split at h
        · cases h
        · rename_i c'' hc''
          split at h
          · cases h
          · rename_i l'' hl''
            simp only [Except.ok.injEq] at h; subst h
            exact ⟨allIntG_interpolate
              (ih c (hs c (by simp)) (flatL_iff.1 f4 c (hs c (by simp))) _ c' hc') hc'',
              ihl _ _ _ _ _ (fun c hc => hs c (by simp [hc])) hl''⟩
  have hrest : ∀ hd, isIntG hd = false → (match interpPreL pl tg cs with
      | .error x => (.error x : Except Err SE)
      | .ok cs' => .ok (.node hd cs')) = .ok e' → AllIntG (Ready pl) e' := by
    intro hd hi hh
    split at hh
    · cases hh
    · rename_i cs' hcs
      cases hh
      refine ⟨?_, hl cs cs' (fun _ h => h) hcs⟩
      intro g hg; rw [hg] at hi; cases hi
  cases h with
  | nrd a dd =>
    have hn : AllIntG (Ready pl) (.node (.nrd a dd) cs) := ⟨by simp, f2 a dd rfl⟩
    simp only [interpPre] at he
    split at he
    · cases he; exact allIntG_stageTag _ _ hn
    · simp only [nrdPre] at he
      split at he
      · cases he; exact hn
      · split at he
        · cases he
        · split at he
          · exact allIntG_interpolate (allIntG_stageTag _ _ hn) he
          · cases he; exact hn
  | prop k dd =>
    have hn : AllIntG (Ready pl) (.node (.prop k dd) cs) := ⟨by simp, f3 k dd rfl⟩
    simp only [interpPre, tagHd, Except.ok.injEq] at he
    subst he
    split
    · exact allIntG_stageTag _ _ hn
    · exact hn
  | intg g =>
    obtain ⟨t1, t2, t3⟩ := tgtStage_ready g
    simp only [interpPre] at he
    split at he
    · cases he
    · rename_i hu
      simp only [Except.ok.injEq] at he
      subst he
      have hcond : g.src.stage ≠ none ∨ ¬ IsQBX pl g.src.geometry := by
        unfold upsampled at hu
        rw [t2] at hu
        split at hu
        · rename_i h; exact Or.inl h
        · split at hu
          · cases hu
          · rename_i k hk
            right
            intro hq
            unfold IsQBX at hq
            rw [hq] at hk; cases hk; simp at hu
      have hcs := f1 g rfl hcond
      refine ⟨?_, ?_⟩
      · intro g' h'; cases h'
        refine ⟨t1, ?_⟩
        rw [t2]
        intro hq
        rcases hcond with h | h
        · exact h
        · exact absurd hq h
      · split
        · exact allIntGL_stageTagL _ _ hcs
        · exact hcs
    · split at he
      · cases he
      · rename_i cs' hcs
        simp only [Except.ok.injEq] at he
        subst he
        refine ⟨?_, ha cs cs' _ _ _ _ (fun _ h => h) hcs⟩
        intro g' h'; cases h'
        exact ⟨t1, by simp [DDs]⟩
  | _ => exact hrest _ rfl (by simpa only [interpPre] using he)

/-- C15 (upsampling): after preprocessing every layer potential has an explicit target
stage and every layer potential on a QBX source has an explicit source stage.  Partial:
requires that no untreated potential hides below one that the preprocessor does not
enter (`C15_refuted`). -/
theorem C15_ready_partial (pl : List (Obj × PlaceKind)) (e e' : SE) (hf : Flat pl e)
    (h : interpPre pl false e = .ok e') : AllIntG (Ready pl) e' :=
  interpPre_ready pl e hf false e' h

/-- C15 (what happens to a potential on a QBX source without a stage): its source becomes
the quadrature stage, each density is interpolated there from stage 1 and each kernel
argument from stage 2 after being evaluated there. -/
theorem C15_upsampled (pl : List (Obj × PlaceKind)) (g : IG) (ds ks : List SE) (e' : SE)
    (hq : IsQBX pl g.src.geometry) (hs : g.src.stage = none) (hgr : g.src.gran = .node)
    (hnd : ds.length = g.nd)
    (h : interpPre pl false (.node (.intg g) (ds ++ ks)) = .ok e') :
    ∃ ds' ks' : List SE, e' = .node (.intg { g with
        src := ⟨g.src.geometry, some .quadStage2, .node⟩,
        tgt := ⟨g.tgt.geometry, some (g.tgt.stage.getD .stage1), g.tgt.gran⟩ }) (ds' ++ ks') ∧
      List.Forall₂ (fun d d' => ∃ p, interpPre pl false d = .ok p ∧
        d' = .node (.interp ⟨g.src.geometry, some .stage1, .node⟩ ⟨g.src.geometry, some .quadStage2, .node⟩) [p])
        ds ds' ∧
      List.Forall₂ (fun k k' => ∃ k2 p, Restage .stage2 k k2 ∧ interpPre pl false k2 = .ok p ∧
        k' = .node (.interp ⟨g.src.geometry, some .stage2, .node⟩ ⟨g.src.geometry, some .quadStage2, .node⟩) [p])
        ks ks' := by
  obtain ⟨t1, t2, t3⟩ := tgtStage_ready g
  have hu : upsampled pl (tgtStage g) = .ok true := by
    unfold upsampled
    rw [t2, hs]
    unfold IsQBX at hq
    simp [hq]
  simp only [interpPre, hu] at h
  have hks : ∀ (l l' : List SE), interpArgs pl false (DDs g.src .stage1) (DDs g.src .stage2)
      (DDs g.src .quadStage2) 0 l = .ok l' →
      List.Forall₂ (fun k k' => ∃ k2 p, Restage .stage2 k k2 ∧ interpPre pl false k2 = .ok p ∧
        k' = .node (.interp ⟨g.src.geometry, some .stage2, .node⟩ ⟨g.src.geometry, some .quadStage2, .node⟩) [p])
        l l' := by
    intro l
    induction l with
    | nil => intro l' h; simp only [interpArgs, Except.ok.injEq] at h; subst h; exact .nil
    | cons c l ihl =>
      intro l' h
      simp only [interpArgs, Bool.false_or, beq_self_eq_true, interpPre_tagged] at h
      split at h
      · cases h
      · rename_i c' hc'
        split at h
        · cases h
        · rename_i c'' hc''
          split at h
          · cases h
          · rename_i l'' hl''
            simp only [Except.ok.injEq] at h; subst h
            refine .cons ⟨_, c', stageTag_restage _ c, hc', ?_⟩ (ihl l'' hl'')
            simp [interpolate, DDs, hgr] at hc''
            exact hc''.symm
  have hds : ∀ (l : List SE) (n : Nat) (m : List SE) (l' : List SE), l.length = n →
      interpArgs pl false (DDs g.src .stage1) (DDs g.src .stage2) (DDs g.src .quadStage2) n (l ++ m) = .ok l' →
      ∃ a b, l' = a ++ b ∧ List.Forall₂ (fun d d' => ∃ p, interpPre pl false d = .ok p ∧
        d' = .node (.interp ⟨g.src.geometry, some .stage1, .node⟩ ⟨g.src.geometry, some .quadStage2, .node⟩) [p])
        l a ∧ List.Forall₂ (fun k k' => ∃ k2 p, Restage .stage2 k k2 ∧ interpPre pl false k2 = .ok p ∧
        k' = .node (.interp ⟨g.src.geometry, some .stage2, .node⟩ ⟨g.src.geometry, some .quadStage2, .node⟩) [p])
        m b := by
    intro l
    induction l with
    | nil =>
      intro n m l' hn h
      subst hn
      exact ⟨[], l', rfl, .nil, hks m l' h⟩
    | cons c l ihl =>
      intro n m l' hn h
      subst hn
      simp only [List.cons_append, List.length_cons, interpArgs, Bool.false_or,
        Nat.add_one_sub_one] at h
      have h0 : (l.length + 1 == 0) = false := by simp
      rw [h0] at h
      rw [if_neg (Nat.succ_ne_zero _)] at h
      split at h
      · cases h
      · rename_i c' hc'
        split at h
        · cases h
        · rename_i c'' hc''
          split at h
          · cases h
          · rename_i l'' hl''
            simp only [Except.ok.injEq] at h; subst h
            obtain ⟨a, b, e1, e2, e3⟩ := ihl _ m l'' rfl hl''
            refine ⟨c'' :: a, b, by simp [e1], .cons ⟨c', hc', ?_⟩ e2, e3⟩
            simp [interpolate, DDs, hgr] at hc''
            exact hc''.symm
  split at h
  · cases h
  · rename_i cs' hcs
    simp only [Except.ok.injEq] at h
    obtain ⟨a, b, e1, e2, e3⟩ := hds ds g.nd ks cs' hnd hcs
    refine ⟨a, b, ?_, e2, e3⟩
    rw [← h, e1]
    congr 2
    obtain ⟨⟩ := g
    rename_i tk sks nd lim src tgt kn
    obtain ⟨tg, tst, tgr⟩ := tgt
    obtain ⟨sg, sst, sgr⟩ := src
    simp only at hgr
    subst hgr
    cases tst <;> simp [tgtStage, DDs]

/-! ### Idempotence -/

mutual
/-- the preprocessor has nothing to do at any node it reaches -/
def Done (pl : List (Obj × PlaceKind)) : SE → Prop
  | .node h cs => match h with
    | .intg g => g.tgt.stage ≠ none ∧ upsampled pl g = .ok false
    | .nrd _ dd => dd.stage = some .quadStage2 → ∃ k, getGeo pl dd.geometry = .ok k ∧ k ≠ .qbx
    | .prop _ _ => True
    | _ => DoneL pl cs
/-- same for lists -/
def DoneL (pl : List (Obj × PlaceKind)) : List SE → Prop
  | [] => True
  | c :: l => Done pl c ∧ DoneL pl l
end

theorem interpPre_of_done (pl : List (Obj × PlaceKind)) : ∀ e, Done pl e →
    interpPre pl false e = .ok e := by
  apply SE.ind
  intro h cs ih hd
  have hl : ∀ l : List SE, (∀ c ∈ l, c ∈ cs) → DoneL pl l → interpPreL pl false l = .ok l := by
    intro l
    induction l with
    | nil => intros; rfl
    | cons c l ihl =>
      intro hs h
      simp only [DoneL] at h
      simp [interpPreL, ih c (hs c (by simp)) h.1, ihl (fun c hc => hs c (by simp [hc])) h.2]
  cases h with
  | intg g =>
    simp only [Done] at hd
    have : tgtStage g = g := by simp [tgtStage, hd.1]
    simp [interpPre, this, hd.2]
  | nrd a dd =>
    simp only [Done] at hd
    simp only [interpPre, Bool.false_eq_true, if_false, nrdPre]
    split
    · rfl
    · rename_i h
      simp only [ne_eq, not_not] at h
      obtain ⟨k, hk, hne⟩ := hd h
      simp [hk, hne]
  | prop k dd => simp [interpPre, tagHd]
  | _ =>
    simp only [Done] at hd
    simp only [interpPre, hl cs (fun _ h => h) hd]

theorem interpPre_done (pl : List (Obj × PlaceKind)) : ∀ e tg e', interpPre pl tg e = .ok e' →
    Done pl e' := by
  apply SE.ind
  intro h cs ih tg e' he
  have hl : ∀ l l' : List SE, (∀ c ∈ l, c ∈ cs) → interpPreL pl tg l = .ok l' → DoneL pl l' := by
    intro l
    induction l with
    | nil => intro l' _ h; simp only [interpPreL, Except.ok.injEq] at h; subst h; trivial
    | cons c l ihl =>
      intro l' hs h
      simp only [interpPreL] at h
      split at h
      · cases h
      · rename_i c' hc'
        split at h
        · cases h
        · rename_i l'' hl''
          simp only [Except.ok.injEq] at h; subst h
          exact ⟨ih c (hs c (by simp)) tg c' hc', ihl _ (fun c hc => hs c (by simp [hc])) hl''⟩
  have htag : ∀ a dd, Done pl (stageTag .stage2 (.node (.nrd a dd) cs)) := by
    intro a dd
    simp only [stageTag]
    split
    · rename_i h
      simp only [Done]
      intro h'; rw [h] at h'; cases h'
    · simp [Done, DDs]
  have hrest : ∀ hd, (∀ cs', DoneL pl cs' → Done pl (.node hd cs')) → (match interpPreL pl tg cs with
      | .error x => (.error x : Except Err SE)
      | .ok cs' => .ok (.node hd cs')) = .ok e' → Done pl e' := by
    intro hd hi hh
    split at hh
    · cases hh
    · rename_i cs' hcs
      cases hh
      exact hi _ (hl cs cs' (fun _ h => h) hcs)
  cases h with
  | nrd a dd =>
    simp only [interpPre] at he
    split at he
    · cases he; exact htag a dd
    · simp only [nrdPre] at he
      split at he
      · rename_i h
        cases he
        simp only [Done]
        intro h'; exact absurd h' h
      · split at he
        · cases he
        · rename_i k hk
          split at he
          · unfold interpolate at he
            split at he
            · cases he; exact htag a dd
            · split at he
              · cases he
              · cases he
                exact ⟨htag a dd, trivial⟩
          · rename_i hne
            cases he
            simp only [Done]
            exact fun _ => ⟨k, hk, hne⟩
  | prop k dd =>
    simp only [interpPre, tagHd, Except.ok.injEq] at he
    subst he
    split
    · cases k <;> simp only [stageTag] <;> (try split) <;> simp [Done]
    · simp [Done]
  | intg g =>
    obtain ⟨t1, t2, t3⟩ := tgtStage_ready g
    simp only [interpPre] at he
    split at he
    · cases he
    · rename_i hu
      cases he
      exact ⟨t1, hu⟩
    · split at he
      · cases he
      · cases he
        exact ⟨t1, by simp [upsampled, DDs]⟩
  | _ =>
    simp only [interpPre] at he
    refine hrest _ ?_ he
    exact fun cs' h => by simpa only [Done] using h

/-- C15 (idempotence): preprocessing its own result changes nothing. -/
theorem C15_idempotent (pl : List (Obj × PlaceKind)) (e e' : SE)
    (h : interpPre pl false e = .ok e') : interpPre pl false e' = .ok e' :=
  interpPre_of_done pl e' (interpPre_done pl e false e' h)

/-- C15 (derivatives): a reference derivative requested on the quadrature stage of a QBX
source is taken on stage 2, of the same operand evaluated there, and then interpolated to
the quadrature stage; a derivative on any other stage is left as it is. -/
theorem C15_derivative (pl : List (Obj × PlaceKind)) (a : String) (o : Obj) (cs : List SE) :
    (IsQBX pl o → ∃ cs', List.Forall₂ (Restage .stage2) cs cs' ∧
      interpPre pl false (.node (.nrd a ⟨o, some .quadStage2, .node⟩) cs) =
        .ok (.node (.interp ⟨o, some .stage2, .node⟩ ⟨o, some .quadStage2, .node⟩)
          [.node (.nrd a ⟨o, some .stage2, .node⟩) cs'])) ∧
    (∀ st gr, st ≠ some .quadStage2 → interpPre pl false (.node (.nrd a ⟨o, st, gr⟩) cs) =
      .ok (.node (.nrd a ⟨o, st, gr⟩) cs)) := by
  refine ⟨fun hq => ⟨stageTagL .stage2 cs, ?_, ?_⟩, fun st gr h => ?_⟩
  · rw [stageTagL_eq, List.forall₂_map_right_iff, List.forall₂_same]
    exact fun c _ => stageTag_restage _ c
  · unfold IsQBX at hq
    simp [interpPre, nrdPre, hq, stageTag, DDs, interpolate]
  · simp [interpPre, nrdPre, h]

/-- C15 (other sources): a potential on a known source that is not a QBX source, or on
one whose stage the user chose, keeps source, densities and arguments. -/
theorem C15_other (pl : List (Obj × PlaceKind)) (g : IG) (cs : List SE)
    (h : g.src.stage ≠ none ∨ ∃ k, getGeo pl g.src.geometry = .ok k ∧ k ≠ .qbx) :
    interpPre pl false (.node (.intg g) cs) = .ok (.node (.intg { g with
      tgt := ⟨g.tgt.geometry, some (g.tgt.stage.getD .stage1), g.tgt.gran⟩ }) cs) := by
  obtain ⟨t1, t2, t3⟩ := tgtStage_ready g
  have hu : upsampled pl (tgtStage g) = .ok false := by
    unfold upsampled
    rw [t2]
    by_cases hs : g.src.stage = none
    · rcases h with h | ⟨k, hk, hne⟩
      · exact absurd hs h
      · simp [hs, hk, hne]
    · simp [hs]
  simp only [interpPre, hu]
  congr 3
  obtain ⟨⟩ := g
  rename_i tk sks nd lim src tgt kn
  obtain ⟨tg, tst, tgr⟩ := tgt
  cases tst <;> simp [tgtStage, DDs]

/-- example collection: QBX source `q`, point source `p`, target `t` -/
def exPl : List (Obj × PlaceKind) := [(.ident "q", .qbx), (.ident "p", .pointSource), (.ident "t", .target)]

/-- C15 is false below potentials of other sources: the inner potential on the QBX source
keeps its unset source stage. -/
theorem C15_refuted : ∃ e e', interpPre exPl false e = .ok e' ∧ ¬ AllIntG (Ready exPl) e' := by
  refine ⟨.node (.intg ⟨.base "G", ["G"], 1, .none, ⟨.ident "p", none, .node⟩, ⟨.ident "t", none, .node⟩, []⟩)
    [.node (.intg ⟨.base "G", ["G"], 1, .none, ⟨.ident "q", none, .node⟩, ⟨.ident "p", none, .node⟩, []⟩)
      [.node (.var "sigma") []]], _, rfl, ?_⟩
  simp [AllIntG, AllIntGL, Ready]

/-- non-vacuity: nested potentials on a QBX source with a normal-derivative argument -/
def exUp : SE :=
  .node (.intg ⟨.base "dG", ["dG"], 1, .p1, ⟨.ident "q", none, .node⟩, ⟨.ident "q", none, .node⟩, ["dsource_vec"]⟩)
    [.node (.intg ⟨.base "G", ["G"], 1, .p1, ⟨.ident "q", none, .node⟩, ⟨.ident "q", none, .node⟩, []⟩)
      [.node (.var "sigma") []],
     .node (.nrd "0" ⟨.ident "q", some .quadStage2, .node⟩)
      [.node (.prop (.nodeCoord 0) ⟨.ident "q", some .quadStage2, .node⟩) []]]

example : Flat exPl exUp ∧ ∃ e', interpPre exPl false exUp = .ok e' := by
  refine ⟨?_, _, rfl⟩
  have hq : IsQBX exPl (.ident "q") := by rfl
  simp [exUp, Flat, FlatL, AllIntGL, AllIntG, hq]

end Verif.Sym
