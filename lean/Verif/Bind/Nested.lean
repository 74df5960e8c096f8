import Verif.Bind.Collapse
import Verif.Symbolic.QBXNest
/-!
# C76 for arbitrarily nested layer potentials and all interpolations

`C76_exact` assumes that nested layer potentials share their source and `C76_collapse` drops the assumption on interpolations.
Here both are dropped: what is left of the assumptions on the layer potentials is that those with limit `'avg'` are on a QBX source
and not inside a potential of another source (the QBX preprocessor does not see the others, `C13_refuted`).
-/
namespace Verif.Bind
open Verif.Sym
open Verif.DofDesc (DD Obj Stage)

variable {V : Type}

/-! ## Specification -/

mutual
/-- Every `'avg'` potential is on one of the sources `ns` and all potentials around it have the same source
(`outer`: the sources of the potentials around the expression). -/
def AvgSeen (ns outer : List Obj) : SE → Prop
  | .node h cs => match h with
    | .intg g => (g.lim = .avg → g.src.geometry ∈ ns ∧ Seen outer g) ∧ AvgSeenL ns (g.src.geometry :: outer) cs
    | _ => AvgSeenL ns outer cs
/-- same for lists -/
def AvgSeenL (ns outer : List Obj) : List SE → Prop
  | [] => True
  | c :: l => AvgSeen ns outer c ∧ AvgSeenL ns outer l
end

/-! ## Proofs -/

theorem avgSeenL_iff {ns outer : List Obj} : ∀ {l : List SE}, AvgSeenL ns outer l ↔ ∀ c ∈ l, AvgSeen ns outer c
  | [] => by simp [AvgSeenL]
  | c :: l => by simp [AvgSeenL, avgSeenL_iff]

theorem noAvg_expandR (ns : List Obj) : ∀ e outer, AvgSeen ns outer e → NoAvg (expandR ns outer e) := by
  apply SE.ind (P := fun e => ∀ outer, AvgSeen ns outer e → NoAvg (expandR ns outer e))
  intro h cs ih outer ha
  have hl : ∀ o, AvgSeenL ns o cs → AllIntGL (fun g => g.lim ≠ .avg) (expandRL ns o cs) := by
    intro o ho
    rw [expandRL_eq]
    refine allIntGL_iff.2 fun c hc => ?_
    obtain ⟨d, hd, rfl⟩ := List.mem_map.1 hc
    exact ih d hd o (avgSeenL_iff.1 ho d hd)
  cases h with
  | intg g =>
    simp only [AvgSeen] at ha
    have hl' := hl _ ha.2
    simp only [expandR]
    split
    · refine ⟨by simp, ⟨by simp, trivial⟩, ⟨by simp, ⟨?_, hl'⟩, ⟨?_, hl'⟩, trivial⟩, trivial⟩
      · intro g' h'; cases h'; simp
      · intro g' h'; cases h'; simp
    · rename_i hc
      refine ⟨?_, hl'⟩
      intro g' h' hv
      cases h'
      exact hc ⟨(ha.1 hv).1, hv, (ha.1 hv).2⟩
  | _ =>
    simp only [AvgSeen] at ha
    simp only [expandR]
    exact ⟨(by intro g hg; cases hg), hl _ ha⟩

theorem avgSeen_squash (ns : List Obj) : ∀ e outer, AvgSeen ns outer e → AvgSeen ns outer (squash e) := by
  apply SE.ind (P := fun e => ∀ outer, AvgSeen ns outer e → AvgSeen ns outer (squash e))
  intro h cs ih outer ha
  have hl : ∀ o, AvgSeenL ns o cs → AvgSeenL ns o (squashL cs) := by
    intro o ho
    rw [squashL_eq, avgSeenL_iff]
    intro c hc
    obtain ⟨c', hm, rfl⟩ := List.mem_map.1 hc
    exact ih c' hm o (avgSeenL_iff.1 ho c' hm)
  cases h with
  | interp f t =>
    simp only [AvgSeen] at ha
    rcases squash_interp f t cs with h1 | ⟨rfl, o, rfl, h1⟩
    · rw [h1]; simp only [AvgSeen]; exact hl _ ha
    · rw [h1]
      exact ih o (by simp) outer (avgSeenL_iff.1 ha o (by simp))
  | intg g =>
    simp only [AvgSeen] at ha
    simp only [squash, dropTrivial, AvgSeen]
    exact ⟨ha.1, hl _ ha.2⟩
  | _ =>
    simp only [AvgSeen] at ha
    simp only [squash, dropTrivial, AvgSeen]
    exact hl _ ha

theorem expandR_keeps (ns : List Obj) : ∀ e outer, Keeps e (expandR ns outer e) := by
  apply SE.ind (P := fun e => ∀ outer, Keeps e (expandR ns outer e))
  intro h cs ih outer
  have hc : ∀ o, List.Forall₂ Keeps cs (expandRL ns o cs) := by
    intro o
    rw [expandRL_eq]; exact keeps_map _ cs (fun c hc => ih c hc o)
  cases h with
  | intg g =>
    simp only [expandR]
    split
    · exact meanOf_keeps g cs _ (hc _)
    · exact keeps_node (.same _) (hc _)
  | _ => simp only [expandR]; exact keeps_node (.same _) (hc _)

theorem value_stageTag_expandR {W : Type} (J : Head → List W → W) (s : Stage) (ns : List Obj) :
    ∀ e outer, value J (stageTag s (expandR ns outer e)) = value J (stageTag s e) := by
  apply SE.ind (P := fun e => ∀ outer, value J (stageTag s (expandR ns outer e)) = value J (stageTag s e))
  intro h cs ih outer
  have hl : ∀ o, valueL J (stageTagL s (expandRL ns o cs)) = valueL J (stageTagL s cs) := by
    intro o
    rw [expandRL_eq, stageTagL_eq, stageTagL_eq, valueL_eq, valueL_eq]
    simp only [List.map_map]
    exact List.map_congr_left fun c hc => ih c hc o
  have hl0 : ∀ o, valueL J (expandRL ns o cs) = valueL J cs := by
    intro o
    rw [expandRL_eq, valueL_eq, valueL_eq, List.map_map]
    exact List.map_congr_left fun c hc => value_expandR J ns c o
  cases h with
  | intg g =>
    simp only [expandR]
    split
    · rename_i hg
      simp only [meanOf, stageTag, stageTagL, value, valueL, hl, hg.2.1]
      simp
    · simp only [stageTag, value_intg, hl]
  | prop k dd =>
    cases k with
    | nodeCoord a =>
      simp only [expandR, stageTag]
      split <;> simp only [value, hl0]
    | _ => simp only [expandR, stageTag, value, hl]
  | nrd a dd =>
    simp only [expandR, stageTag]
    split
    · simp only [value, hl0]
    · simp only [value, hl]
  | _ => simp only [expandR, stageTag, value, hl]

theorem valueL_stageTag_expandR {W : Type} (J : Head → List W → W) (s : Stage) (ns outer : List Obj)
    (cs : List SE) : valueL J (stageTagL s (expandRL ns outer cs)) = valueL J (stageTagL s cs) := by
  rw [expandRL_eq, stageTagL_eq, stageTagL_eq, valueL_eq, valueL_eq]
  simp only [List.map_map]
  exact List.map_congr_left fun c hc => value_stageTag_expandR J s ns c outer

theorem valueL_expandRL {W : Type} (J : Head → List W → W) (ns outer : List Obj)
    (cs : List SE) : valueL J (expandRL ns outer cs) = valueL J cs := by
  rw [expandRL_eq, valueL_eq, valueL_eq, List.map_map]
  exact List.map_congr_left fun c hc => value_expandR J ns c outer

/-- the meaning of an expression does not depend on whether the `'avg'` potentials that are seen have been replaced -/
theorem meaning_expandR {W : Type} (J : Head → List W → W) (pl : List (Obj × PlaceKind))
    (ns : List Obj) : ∀ e outer tg, meaning J pl tg (expandR ns outer e) = meaning J pl tg e := by
  apply SE.ind (P := fun e => ∀ outer tg, meaning J pl tg (expandR ns outer e) = meaning J pl tg e)
  intro h cs ih outer tg
  have hl : ∀ o, meaningL J pl tg (expandRL ns o cs) = meaningL J pl tg cs := by
    intro o
    rw [expandRL_eq, meaningL_eq, meaningL_eq, List.map_map]
    exact List.map_congr_left fun c hc => ih c hc o tg
  have ha : ∀ (o : List Obj) (l : List SE) f1 f2 t n, (∀ c ∈ l, c ∈ cs) →
      meaningArgs J pl tg f1 f2 t n (expandRL ns o l) = meaningArgs J pl tg f1 f2 t n l := by
    intro o l
    induction l with
    | nil => intros; rfl
    | cons c l ihl =>
      intro f1 f2 t n hs
      simp only [expandRL, meaningArgs, ih c (hs c (by simp)),
        ihl _ _ _ _ (fun c hc => hs c (by simp [hc]))]
  have hv : ∀ o, valueL J (if tg = true then stageTagL .stage2 (expandRL ns o cs) else expandRL ns o cs) =
      valueL J (if tg = true then stageTagL .stage2 cs else cs) := by
    intro o
    split
    · exact valueL_stageTag_expandR J _ ns o cs
    · exact valueL_expandRL J ns o cs
  cases h with
  | intg g =>
    simp only [expandR]
    split
    · rename_i hg
      simp only [meanOf, meaning, meaningL]
      have hu : ∀ l, upsamples pl { g with lim := l } = upsamples pl g := fun _ => rfl
      rw [hu .p1, hu .m1]
      obtain ⟨t', ht, ht0⟩ : ∃ t', (∀ l, tgtStage { g with lim := l } =
          { g with lim := l, tgt := t' }) ∧ tgtStage g = { g with tgt := t' } := by
        by_cases hst : g.tgt.stage = none
        · exact ⟨DDs g.tgt .stage1, fun l => by simp [tgtStage, hst], by simp [tgtStage, hst]⟩
        · exact ⟨g.tgt, fun l => by simp [tgtStage, hst], by simp [tgtStage, hst]⟩
      rw [ht .p1, ht .m1, ht0]
      by_cases hup : upsamples pl g = true
      · simp only [if_pos hup, ha _ cs _ _ _ _ (fun _ h => h), potMean]
        simp [hg.2.1, value, valueL]
      · rw [hv, if_neg hup, if_neg hup, if_neg hup]
        simp [potMean, hg.2.1, value, valueL]
    · simp only [meaning, ha _ cs _ _ _ _ (fun _ h => h)]
      rw [hv]
  | nrd a dd =>
    have h1 := value_stageTag_expandR J .stage2 ns (.node (.nrd a dd) cs) outer
    have h2 := value_expandR J ns (.node (.nrd a dd) cs) outer
    simp only [expandR] at h1 h2
    simp only [expandR, meaning, h1, h2]
  | prop k dd =>
    have h1 := value_stageTag_expandR J .stage2 ns (.node (.prop k dd) cs) outer
    have h2 := value_expandR J ns (.node (.prop k dd) cs) outer
    simp only [expandR] at h1 h2
    simp only [expandR, meaning]
    split
    · exact h1
    · exact h2
  | _ => simp only [expandR, meaning, hl]

theorem unregOk_squash {pl : List (Obj × PlaceKind)} {S T : DD} {e : SE} (hu : UnregOk pl e) :
    UnregOk pl (squash (placed S T false e)) := by
  rcases hu with h | h
  · exact Or.inl h
  · exact Or.inr (allIntG_squash _ (placed_unlimited S T e false h))

/-- what the preparation did, if it succeeded -/
theorem prepare_seen {pl : List (Obj × PlaceKind)} {S T : DD} {e e' : SE} (hS : Explicit S) (hT : Explicit T)
    (hu : UnregOk pl e) (h : prepare pl S T e = .ok e') :
    AllSeen (fun g => g.src.geometry ∈ qbxNames pl → LimitOk g) [] (squash (placed S T false e)) ∧
      interpPre pl false (expandR (qbxNames pl) [] (squash (placed S T false e))) = .ok e' := by
  obtain ⟨e1, ht⟩ : ∃ e1, toTag S T e = .ok e1 := by
    cases ht : toTag S T e with
    | ok e1 => exact ⟨e1, rfl⟩
    | error x => simp only [prepare, ht] at h; cases h
  have hp : placed S T false e1 = e1 := placed_final e1 false (toTag_final hS hT e e1 ht)
  have hs : e1 = squash (placed S T false e) := ((C11_exact S T e).1 e1).1 ht |>.2
  have hl := prepLoop_ok (e := e1) (by rw [hs]; exact unregOk_squash hu) S T false
  rw [hp] at hl
  simp only [prepare, ht, hl] at h
  rw [hs] at h
  obtain ⟨h1, h2⟩ := C12_exact (qbxNames pl) (squash (placed S T false e))
  by_cases hok : AllSeen (fun g => g.src.geometry ∈ qbxNames pl → LimitOk g) [] (squash (placed S T false e))
  · rw [h1 hok] at h; exact ⟨hok, h⟩
  · rw [h2 hok] at h; cases h

/-- **C76** for all nestings of layer potentials and all interpolations: evaluating a bound expression returns `v` if and only if `v` is
the meaning of the expression with its locations filled in and interpolations between equal places left out, and raises if and only if
that expression has no meaning.  Layer potentials with different sources may be nested; those with limit `'avg'` have to be on a QBX
source and outside of potentials of other sources. -/
theorem C76_general (E : Enc) (c : Compiler.Cfg) (I : Compiler.Interp V) (pl : List (Obj × PlaceKind)) (S T : DD) (e e' : SE)
    (ctx : Compiler.Ctx V) (cc : Compiler.Cache V) (hc : Compiler.CfgOk c) (hI : Compiler.Lawful I)
    (hcc : Compiler.CacheValid I ctx cc) (hS : Explicit S) (hT : Explicit T) (hu : UnregOk pl e)
    (ha : AvgSeen (qbxNames pl) [] (placed S T false e)) (hg : Good e) (hn : NoClash e)
    (hok : prepare pl S T e = .ok e') :
    (∀ v, bindEval E c I pl S T e ctx cc = .ok v ↔
        meaning (mean E I ctx) pl false (squash (placed S T false e)) = some v) ∧
      ((∃ x, bindEval E c I pl S T e ctx cc = .error (.eval x)) ↔
        meaning (mean E I ctx) pl false (squash (placed S T false e)) = none) := by
  obtain ⟨_, h2⟩ := prepare_seen hS hT hu hok
  have hk : Keeps e e' := (((placed_keeps S T e false).trans (squash_keeps _)).trans
    (expandR_keeps _ _ _)).trans (interpPre_keeps pl _ _ _ h2)
  have hna : NoAvg e' := noAvg_interpPre pl _ (noAvg_expandR _ _ _ (avgSeen_squash _ _ _ ha)) _ _ h2
  have hden : meaning (mean E I ctx) pl false (squash (placed S T false e)) = Compiler.den I ctx (tr E e') := by
    rw [← meaning_expandR (mean E I ctx) pl (qbxNames pl) _ [], ← interpPre_value _ pl _ _ _ h2, ← tr_den E I ctx e' hna]
  obtain ⟨k1, k2⟩ := Compiler.C01_exact c I (tr E e') ctx cc hc hI (tr_wf E e' (hk.2 hg) hna)
    (tr_noClash E e' (noClash_keeps hk hn)) (tr_noCond E e') hcc
  rw [hden]
  constructor
  · intro v
    rw [← k1 v]
    simp only [bindEval, hok]
    cases hx : Compiler.evalBound c I (tr E e') ctx cc with
    | error x => simp
    | ok r =>
      obtain ⟨w, c1, cc1⟩ := r
      simp only [Except.ok.injEq, Prod.mk.injEq]
      exact ⟨fun h => ⟨c1, cc1, h, rfl, rfl⟩, fun ⟨_, _, h, _⟩ => h⟩
  · rw [← k2]
    simp only [bindEval, hok]
    cases hx : Compiler.evalBound c I (tr E e') ctx cc with
    | error x => simp
    | ok r => simp

/-- **C76** for all nestings of layer potentials: if interpolating from a place to the same place is the identity, the value is the meaning
of the expression with its locations filled in. -/
theorem C76_nested (E : Enc) (c : Compiler.Cfg) (I : Compiler.Interp V) (pl : List (Obj × PlaceKind)) (S T : DD) (e e' : SE)
    (ctx : Compiler.Ctx V) (cc : Compiler.Cache V) (hc : Compiler.CfgOk c) (hI : Compiler.Lawful I)
    (hid : ∀ d v, I.op (E.head (.interp d d)) [v] = some v) (hcc : Compiler.CacheValid I ctx cc) (hS : Explicit S)
    (hT : Explicit T) (hu : UnregOk pl e) (ha : AvgSeen (qbxNames pl) [] (placed S T false e)) (hg : Good e) (hn : NoClash e)
    (hok : prepare pl S T e = .ok e') :
    (∀ v, bindEval E c I pl S T e ctx cc = .ok v ↔ meaning (mean E I ctx) pl false (placed S T false e) = some v) ∧
      ((∃ x, bindEval E c I pl S T e ctx cc = .error (.eval x)) ↔
        meaning (mean E I ctx) pl false (placed S T false e) = none) := by
  have hJ : ∀ d v, mean E I ctx (.interp d d) [v] = v := by
    intro d v
    cases v with
    | none => rfl
    | some w => exact hid d w
  have := C76_general E c I pl S T e e' ctx cc hc hI hcc hS hT hu ha hg hn hok
  rwa [meaning_squash (mean E I ctx) hJ] at this

/-- **C76** (refusal): for all nestings, `bind` raises `ValueError` if a layer potential on a QBX source, outside of potentials of other
sources, has a limit that does not fit its target. -/
theorem C76_refused (E : Enc) (c : Compiler.Cfg) (I : Compiler.Interp V) (pl : List (Obj × PlaceKind)) (S T : DD) (e : SE)
    (ctx : Compiler.Ctx V) (cc : Compiler.Cache V) (hS : Explicit S) (hT : Explicit T) (hu : UnregOk pl e)
    (hr : ¬ SelfRef (placed S T false e))
    (hl : ¬ AllSeen (fun g => g.src.geometry ∈ qbxNames pl → LimitOk g) [] (squash (placed S T false e))) :
    bindEval E c I pl S T e ctx cc = .error (.prepare .value) := by
  have ht := ((C11_exact S T e).1 _).2 ⟨hr, rfl⟩
  have hp : placed S T false (squash (placed S T false e)) = squash (placed S T false e) :=
    placed_final _ false (toTag_final hS hT e _ ht)
  have hlo := prepLoop_ok (e := squash (placed S T false e)) (unregOk_squash hu) S T false
  rw [hp] at hlo
  simp only [bindEval, prepare, ht, hlo, (C12_exact (qbxNames pl) _).2 hl]

/-! ### The hypotheses can be met -/

/-- a potential on the QBX source `q`, inside it one on the point source `p`, off the surface, added to an `'avg'` potential -/
def exNested : SE := .node .sum
  [.node (.intg ⟨.base "G", ["G"], 1, .p1, exD, exD, []⟩)
    [.node (.intg ⟨.base "G", ["G"], 1, .none, ⟨.ident "p", none, .node⟩, exD, []⟩) [.node (.var "sigma") []]],
   .node (.intg ⟨.base "G", ["G"], 1, .avg, exD, exD, []⟩) [.node (.var "sigma") []]]

/-- it is not covered by `C76_exact` -/
example : ¬ HomNest (placed exD exD false exNested) := by
  simp [exNested, placed, placedL, retag, HomNest, HomNestL, AllIntG, AllIntGL, exD, fillDD]

/-- a collection with `q` and the point source `p` -/
def exColl2 : List (Obj × PlaceKind) := [(.ident "q", .qbx), (.ident "p", .pointSource)]

/-- evaluated -/
def exNestedVal : Int := ((meaning (mean exEnc exInt exInputs) exColl2 false (squash (placed exD exD false exNested))).getD 0)

example : ∃ e', prepare exColl2 exD exD exNested = .ok e' ∧
    bindEval exEnc Compiler.exCfg exInt exColl2 exD exD exNested exInputs [] = .ok exNestedVal := by
  obtain ⟨e', he⟩ : ∃ e', prepare exColl2 exD exD exNested = .ok e' := ⟨_, rfl⟩
  refine ⟨e', he, ((C76_general exEnc Compiler.exCfg exInt exColl2 exD exD exNested e' exInputs [] Compiler.exCfg_ok
    exInt_lawful (by intro k v h; cases h) (by simp [Explicit, exD]) (by simp [Explicit, exD])
    (Or.inl (fun p hp => by revert p; decide)) ?_ ?_ ?_ he).1 exNestedVal).2 (by decide +kernel)⟩
  · simp [exNested, placed, placedL, retag, AvgSeen, AvgSeenL, Seen, exD, fillDD, exColl2, qbxNames]
  · simp [exNested, good_node, NodeOk]
  · intro x hx hc
    have hx : x = "sigma" := by simpa [exNested, has_node, key, eq_comm] using hx
    subst hx
    rcases hc with ⟨i, hi⟩ | ⟨p, hp, -⟩
    · exact Compiler.toString_nat_ne hi 's' (by decide +kernel) (by decide +kernel) (by decide +kernel)
    · simp [exNested, has_node, key] at hp

/-- and so can those of `C76_refused`: on-surface evaluation without a side, inside a potential of the same source -/
example : ¬ AllSeen (fun g => g.src.geometry ∈ qbxNames exColl2 → LimitOk g) [] (squash (placed exD exD false
    (.node (.intg ⟨.base "G", ["G"], 1, .p1, exD, exD, []⟩)
      [.node (.intg ⟨.base "G", ["G"], 1, .none, exD, exD, []⟩) [.node (.var "sigma") []]]))) := by
  simp [placed, placedL, retag, squash, squashL, dropTrivial, AllSeen, AllSeenL, Seen, exD, fillDD, exColl2, qbxNames, LimitOk]

end Verif.Bind
