import Verif.Symbolic.QBXPre

/-!
# QBX preprocessing of arbitrarily nested layer potentials (C12, C13)

`QBXPreprocessor` (`pytential/symbolic/mappers.py:828-885`) returns a layer potential of
another source without looking inside.  So what the loop over all sources
(`execution.py:649-651`) does with a potential depends on the potentials around it.  This
file describes the outcome for every expression, whatever the nesting.
-/

namespace Verif.Sym

open Verif.DofDesc

/-! ## Specification -/

/-- the layer potentials around `g`, whose sources are `outer`, all have the source of `g` -/
def Seen (outer : List Obj) (g : IG) : Prop := ∀ o ∈ outer, o = g.src.geometry

instance (outer : List Obj) (g : IG) : Decidable (Seen outer g) := by unfold Seen; infer_instance

mutual
/-- every layer potential, at any depth, all of whose enclosing potentials have its own
source satisfies `P` (`outer`: the sources of the potentials around the expression) -/
def AllSeen (P : IG → Prop) (outer : List Obj) : SE → Prop
  | .node h cs => match h with
    | .intg g => (Seen outer g → P g) ∧ AllSeenL P (g.src.geometry :: outer) cs
    | _ => AllSeenL P outer cs
/-- same for lists -/
def AllSeenL (P : IG → Prop) (outer : List Obj) : List SE → Prop
  | [] => True
  | c :: l => AllSeen P outer c ∧ AllSeenL P outer l
end

mutual
/-- The expression with every `'avg'` potential on one of the sources `ns`, all of whose
enclosing potentials have its own source, replaced by the mean of its one-sided limits,
and nothing else changed. -/
def expandR (ns outer : List Obj) : SE → SE
  | .node h cs => match h with
    | .intg g => if g.src.geometry ∈ ns ∧ g.lim = .avg ∧ Seen outer g
        then meanOf g (expandRL ns (g.src.geometry :: outer) cs)
        else .node (.intg g) (expandRL ns (g.src.geometry :: outer) cs)
    | h => .node h (expandRL ns outer cs)
/-- same for lists -/
def expandRL (ns outer : List Obj) : List SE → List SE
  | [] => []
  | c :: l => expandR ns outer c :: expandRL ns outer l
end

/-! ## Proofs -/

theorem allSeenL_iff {P : IG → Prop} {outer : List Obj} : ∀ {l : List SE},
    AllSeenL P outer l ↔ ∀ c ∈ l, AllSeen P outer c
  | [] => by simp [AllSeenL]
  | c :: l => by simp [AllSeenL, allSeenL_iff]

theorem expandRL_eq (ns outer : List Obj) : ∀ l, expandRL ns outer l = l.map (expandR ns outer)
  | [] => rfl
  | c :: l => by simp [expandRL, expandRL_eq ns outer l]

theorem allSeen_node {P : IG → Prop} {outer : List Obj} {h : Head} {cs : List SE}
    (hi : isIntG h = false) : AllSeen P outer (.node h cs) ↔ AllSeenL P outer cs := by
  cases h <;> simp_all [isIntG, AllSeen]

theorem expandR_node {ns outer : List Obj} {h : Head} {cs : List SE} (hi : isIntG h = false) :
    expandR ns outer (.node h cs) = .node h (expandRL ns outer cs) := by
  cases h <;> simp_all [isIntG, expandR]

theorem expandR_meanOf (ns outer : List Obj) (g : IG) (cs : List SE) :
    expandR ns outer (meanOf g cs) = meanOf g (expandRL ns (g.src.geometry :: outer) cs) := by
  simp [meanOf, expandR, expandRL]

theorem allSeen_meanOf (P : IG → Prop) (outer : List Obj) (g : IG) (cs : List SE) :
    AllSeen P outer (meanOf g cs) ↔ (Seen outer g → P { g with lim := .p1 } ∧ P { g with lim := .m1 }) ∧
      AllSeenL P (g.src.geometry :: outer) cs := by
  simp only [meanOf, AllSeen, AllSeenL, Seen]
  tauto

/-- properties of potentials that do not distinguish `'avg'`, `+1` and `-1` -/
theorem AllSeen.expandR {P : IG → Prop} {ns : List Obj}
    (hP : ∀ g, g.lim = .avg → ((P { g with lim := .p1 } ∧ P { g with lim := .m1 }) ↔ P g)) :
    ∀ e outer, AllSeen P outer (expandR ns outer e) ↔ AllSeen P outer e := by
  apply SE.ind (P := fun e => ∀ outer, AllSeen P outer (Verif.Sym.expandR ns outer e) ↔ AllSeen P outer e)
  intro h cs ih outer
  have hl : ∀ o, AllSeenL P o (expandRL ns o cs) ↔ AllSeenL P o cs := by
    intro o
    rw [allSeenL_iff, allSeenL_iff, expandRL_eq]
    simp only [List.mem_map, forall_exists_index, and_imp, forall_apply_eq_imp_iff₂]
    exact ⟨fun k c hc => (ih c hc o).1 (k c hc), fun k c hc => (ih c hc o).2 (k c hc)⟩
  cases hi : isIntG h with
  | false => rw [expandR_node hi, allSeen_node hi, allSeen_node hi, hl]
  | true =>
    cases h <;> simp only [isIntG, Bool.false_eq_true] at hi
    rename_i g
    simp only [Verif.Sym.expandR]
    by_cases hc : g.src.geometry ∈ ns ∧ g.lim = .avg ∧ Seen outer g
    · rw [if_pos hc, allSeen_meanOf, hl, hP g hc.2.1]
      simp only [AllSeen]
    · rw [if_neg hc]
      simp only [AllSeen, hl]

/-- nothing happens to the potentials of `geo` below a potential of another source -/
theorem expandR_blocked {geo : Obj} : ∀ e outer, (∃ o ∈ outer, o ≠ geo) →
    expandR [geo] outer e = e ∧ AllSeen (OkOn [geo]) outer e := by
  apply SE.ind (P := fun e => ∀ outer, (∃ o ∈ outer, o ≠ geo) →
    expandR [geo] outer e = e ∧ AllSeen (OkOn [geo]) outer e)
  intro h cs ih outer hb
  have hl : ∀ o, (∃ x ∈ o, x ≠ geo) → expandRL [geo] o cs = cs ∧ AllSeenL (OkOn [geo]) o cs := by
    intro o ho
    refine ⟨?_, allSeenL_iff.2 fun c hc => (ih c hc o ho).2⟩
    rw [expandRL_eq]
    conv => rhs; rw [← List.map_id cs]
    exact List.map_congr_left fun c hc => (ih c hc o ho).1
  cases hi : isIntG h with
  | false => rw [expandR_node hi, allSeen_node hi, (hl outer hb).1]; exact ⟨rfl, (hl outer hb).2⟩
  | true =>
    cases h <;> simp only [isIntG, Bool.false_eq_true] at hi
    rename_i g
    obtain ⟨x, hx, hxg⟩ := hb
    have hn : g.src.geometry = geo → ¬ Seen outer g := fun hg hs => hxg ((hs x hx).trans hg)
    obtain ⟨k1, k2⟩ := hl (g.src.geometry :: outer) ⟨x, by simp [hx], hxg⟩
    refine ⟨?_, ?_⟩
    · simp only [expandR, k1]
      rw [if_neg]
      rintro ⟨hm, -, hs⟩
      exact hn (by simpa using hm) hs
    · simp only [AllSeen]
      exact ⟨fun hs hm => absurd hs (hn (by simpa using hm)), k2⟩

/-- one pass: the preprocessor of `geo` -/
theorem qbxPre_exact {geo : Obj} : ∀ e outer, (∀ o ∈ outer, o = geo) →
    (AllSeen (OkOn [geo]) outer e → qbxPre geo e = .ok (expandR [geo] outer e)) ∧
      (¬ AllSeen (OkOn [geo]) outer e → qbxPre geo e = .error .value) := by
  apply SE.ind (P := fun e => ∀ outer, (∀ o ∈ outer, o = geo) →
    (AllSeen (OkOn [geo]) outer e → qbxPre geo e = .ok (expandR [geo] outer e)) ∧
      (¬ AllSeen (OkOn [geo]) outer e → qbxPre geo e = .error .value))
  intro h cs ih outer ho
  have hl : ∀ o, (∀ x ∈ o, x = geo) → ∀ l : List SE, (∀ c ∈ l, c ∈ cs) →
      (AllSeenL (OkOn [geo]) o l → qbxPreL geo l = .ok (expandRL [geo] o l)) ∧
      (¬ AllSeenL (OkOn [geo]) o l → qbxPreL geo l = .error .value) := by
    intro o hx l
    induction l with
    | nil => intro _; simp [AllSeenL, qbxPreL, expandRL]
    | cons c l ihl =>
      intro hs
      obtain ⟨i1, i2⟩ := ihl (fun c hc => hs c (by simp [hc]))
      obtain ⟨j1, j2⟩ := ih c (hs c (by simp)) o hx
      by_cases hc : AllSeen (OkOn [geo]) o c
      · by_cases hl : AllSeenL (OkOn [geo]) o l
        · refine ⟨fun _ => ?_, fun h => absurd ⟨hc, hl⟩ h⟩
          simp [qbxPreL, j1 hc, i1 hl, expandRL]
        · refine ⟨fun h => absurd h.2 hl, fun _ => ?_⟩
          simp [qbxPreL, j1 hc, i2 hl]
      · refine ⟨fun h => absurd h.1 hc, fun _ => ?_⟩
        simp [qbxPreL, j2 hc]
  cases hi : isIntG h with
  | false =>
    rw [qbxPre_node hi, expandR_node hi, allSeen_node hi]
    obtain ⟨k1, k2⟩ := hl outer ho cs (fun _ h => h)
    exact ⟨fun h => by rw [k1 h], fun h => by rw [k2 h]⟩
  | true =>
    cases h <;> simp only [isIntG, Bool.false_eq_true] at hi
    rename_i g
    by_cases hg : g.src.geometry = geo
    · obtain ⟨k1, k2⟩ := hl (g.src.geometry :: outer)
        (by intro x hx; rcases List.mem_cons.1 hx with rfl | hx; exacts [hg, ho x hx]) cs (fun _ h => h)
      have hs : Seen outer g := fun o h => (ho o h).trans hg.symm
      have hA : AllSeen (OkOn [geo]) outer (.node (.intg g) cs) ↔
          LimitOk g ∧ AllSeenL (OkOn [geo]) (g.src.geometry :: outer) cs := by
        simp only [AllSeen, hs, true_imp_iff, OkOn, hg, List.mem_singleton]
      rw [hA]
      by_cases hc : AllSeenL (OkOn [geo]) (g.src.geometry :: outer) cs
      · by_cases hL : LimitOk g
        · refine ⟨fun _ => ?_, fun h => absurd ⟨hL, hc⟩ h⟩
          simp only [qbxPre, hg, ne_eq, not_true_eq_false, if_false, k1 hc, qbxLimit_ok g _ hL]
          simp [expandR, hg, hs]
        · refine ⟨fun h => absurd h.1 hL, fun _ => ?_⟩
          simp only [qbxPre, hg, ne_eq, not_true_eq_false, if_false, k1 hc, qbxLimit_err g _ hL]
      · refine ⟨fun h => absurd h.2 hc, fun _ => ?_⟩
        simp only [qbxPre, hg, ne_eq, not_true_eq_false, if_false, k2 hc]
    · have hb : ∀ c, c ∈ cs → expandR [geo] (g.src.geometry :: outer) c = c ∧
          AllSeen (OkOn [geo]) (g.src.geometry :: outer) c :=
        fun c _ => expandR_blocked c _ ⟨g.src.geometry, by simp, hg⟩
      have hcs : expandRL [geo] (g.src.geometry :: outer) cs = cs := by
        rw [expandRL_eq]
        conv => rhs; rw [← List.map_id cs]
        exact List.map_congr_left fun c hc => (hb c hc).1
      have hall : AllSeen (OkOn [geo]) outer (.node (.intg g) cs) := by
        simp only [AllSeen]
        exact ⟨fun _ hm => absurd (by simpa using hm) hg, allSeenL_iff.2 fun c hc => (hb c hc).2⟩
      refine ⟨fun _ => ?_, fun h => absurd hall h⟩
      simp [qbxPre, hg, expandR, hcs]

theorem expandR_expandR (n : Obj) (ns : List Obj) : ∀ e outer,
    expandR ns outer (expandR [n] outer e) = expandR (n :: ns) outer e := by
  apply SE.ind (P := fun e => ∀ outer, expandR ns outer (expandR [n] outer e) = expandR (n :: ns) outer e)
  intro h cs ih outer
  have hl : ∀ o, expandRL ns o (expandRL [n] o cs) = expandRL (n :: ns) o cs := by
    intro o
    simp only [expandRL_eq, List.map_map]
    exact List.map_congr_left fun c hc => ih c hc o
  cases hi : isIntG h with
  | false => rw [expandR_node hi, expandR_node hi, expandR_node hi, hl]
  | true =>
    cases h <;> simp only [isIntG, Bool.false_eq_true] at hi
    rename_i g
    by_cases hc : g.src.geometry ∈ [n] ∧ g.lim = .avg ∧ Seen outer g
    · have h1 : expandR [n] outer (.node (.intg g) cs) =
          meanOf g (expandRL [n] (g.src.geometry :: outer) cs) := by simp only [expandR]; rw [if_pos hc]
      have h2 : expandR (n :: ns) outer (.node (.intg g) cs) =
          meanOf g (expandRL (n :: ns) (g.src.geometry :: outer) cs) := by
        simp only [expandR]
        rw [if_pos ⟨by simp only [List.mem_singleton] at hc; simp [hc.1], hc.2⟩]
      rw [h1, h2, expandR_meanOf, hl]
    · have h1 : expandR [n] outer (.node (.intg g) cs) =
          .node (.intg g) (expandRL [n] (g.src.geometry :: outer) cs) := by
        simp only [expandR]; rw [if_neg hc]
      rw [h1]
      simp only [expandR, hl]
      by_cases h3 : g.src.geometry ∈ ns ∧ g.lim = .avg ∧ Seen outer g
      · rw [if_pos h3, if_pos ⟨by simp [h3.1], h3.2⟩]
      · rw [if_neg h3, if_neg]
        rintro ⟨hm, hr⟩
        rcases List.mem_cons.1 hm with hm | hm
        · exact hc ⟨by simp [hm], hr⟩
        · exact h3 ⟨hm, hr⟩

theorem expandR_nil : ∀ e outer, expandR [] outer e = e := by
  apply SE.ind (P := fun e => ∀ outer, expandR [] outer e = e)
  intro h cs ih outer
  have hl : ∀ o, expandRL [] o cs = cs := by
    intro o
    rw [expandRL_eq]
    conv => rhs; rw [← List.map_id cs]
    exact List.map_congr_left fun c hc => ih c hc o
  cases hi : isIntG h with
  | false => rw [expandR_node hi, hl]
  | true =>
    cases h <;> simp only [isIntG, Bool.false_eq_true] at hi
    simp [expandR, hl]

theorem AllSeen.mono {P Q : IG → Prop} (h : ∀ g, P g → Q g) : ∀ e outer,
    AllSeen P outer e → AllSeen Q outer e := by
  apply SE.ind (P := fun e => ∀ outer, AllSeen P outer e → AllSeen Q outer e)
  intro hd cs ih outer he
  have hl : ∀ o, AllSeenL P o cs → AllSeenL Q o cs := fun o k =>
    allSeenL_iff.2 fun c hc => ih c hc o (allSeenL_iff.1 k c hc)
  cases hi : isIntG hd with
  | false => rw [allSeen_node hi] at he ⊢; exact hl _ he
  | true =>
    cases hd <;> simp only [isIntG, Bool.false_eq_true] at hi
    simp only [AllSeen] at he ⊢
    exact ⟨fun k => h _ (he.1 k), hl _ he.2⟩

theorem AllSeen.and {P Q : IG → Prop} : ∀ e outer, AllSeen P outer e → AllSeen Q outer e →
    AllSeen (fun g => P g ∧ Q g) outer e := by
  apply SE.ind (P := fun e => ∀ outer, AllSeen P outer e → AllSeen Q outer e →
    AllSeen (fun g => P g ∧ Q g) outer e)
  intro hd cs ih outer he hf
  have hl : ∀ o, AllSeenL P o cs → AllSeenL Q o cs → AllSeenL (fun g => P g ∧ Q g) o cs := fun o k k' =>
    allSeenL_iff.2 fun c hc => ih c hc o (allSeenL_iff.1 k c hc) (allSeenL_iff.1 k' c hc)
  cases hi : isIntG hd with
  | false => rw [allSeen_node hi] at he hf ⊢; exact hl _ he hf
  | true =>
    cases hd <;> simp only [isIntG, Bool.false_eq_true] at hi
    simp only [AllSeen] at he hf ⊢
    exact ⟨fun k => ⟨he.1 k, hf.1 k⟩, hl _ he.2 hf.2⟩

/-- a condition that always holds holds for all -/
theorem AllSeen.all {P : IG → Prop} (h : ∀ g, P g) : ∀ e outer, AllSeen P outer e := by
  apply SE.ind (P := fun e => ∀ outer, AllSeen P outer e)
  intro hd cs ih outer
  have hl : ∀ o, AllSeenL P o cs := fun o => allSeenL_iff.2 fun c hc => ih c hc o
  cases hi : isIntG hd with
  | false => rw [allSeen_node hi]; exact hl _
  | true =>
    cases hd <;> simp only [isIntG, Bool.false_eq_true] at hi
    simp only [AllSeen]
    exact ⟨fun _ => h _, hl _⟩

/-- C12 (exact outcome, no restriction on the nesting): for all collections of QBX
sources and all expressions, preprocessing succeeds exactly if every layer potential on
one of the sources, all of whose enclosing layer potentials have the same source as
itself, obeys the limit rules, and raises `ValueError` otherwise; if it succeeds, exactly
the `'avg'` potentials of this kind are replaced and nothing else changes.  In
particular a potential inside a potential of another source is neither checked nor
changed. -/
theorem C12_exact (ns : List Obj) (e : SE) :
    (AllSeen (fun g => g.src.geometry ∈ ns → LimitOk g) [] e → prepQBX ns e = .ok (expandR ns [] e)) ∧
    (¬ AllSeen (fun g => g.src.geometry ∈ ns → LimitOk g) [] e → prepQBX ns e = .error .value) := by
  change (AllSeen (OkOn ns) [] e → _) ∧ (¬ AllSeen (OkOn ns) [] e → _)
  induction ns generalizing e with
  | nil =>
    refine ⟨fun _ => by rw [expandR_nil]; rfl, fun h => absurd (AllSeen.all ?_ e []) h⟩
    intro g hm; cases hm
  | cons n ns ih =>
    obtain ⟨h1, h2⟩ := qbxPre_exact (geo := n) e [] (by simp)
    have hm1 : AllSeen (OkOn (n :: ns)) [] e → AllSeen (OkOn [n]) [] e :=
      AllSeen.mono (fun g hg hm => hg (by simp at hm; simp [hm])) e []
    by_cases hA : AllSeen (OkOn [n]) [] e
    · obtain ⟨k1, k2⟩ := ih (expandR [n] [] e)
      have hk : AllSeen (OkOn ns) [] (expandR [n] [] e) ↔ AllSeen (OkOn ns) [] e := by
        apply AllSeen.expandR
        intro g hg
        unfold OkOn LimitOk
        by_cases hm : g.src.geometry ∈ ns
        · simp [hm, hg]
        · simp [hm]
      have hsplit : AllSeen (OkOn (n :: ns)) [] e ↔ AllSeen (OkOn [n]) [] e ∧ AllSeen (OkOn ns) [] e := by
        constructor
        · intro h
          exact ⟨hm1 h, AllSeen.mono (fun g hg hm => hg (by simp [hm])) e [] h⟩
        · rintro ⟨ha, hb⟩
          refine AllSeen.mono ?_ e [] (AllSeen.and e [] ha hb)
          intro g ⟨hg1, hg2⟩ hm
          rcases List.mem_cons.1 hm with hm | hm
          · exact hg1 (by simp [hm])
          · exact hg2 hm
      simp only [prepQBX, h1 hA]
      rw [hsplit]
      refine ⟨fun h => ?_, fun h => ?_⟩
      · rw [k1 (hk.2 h.2), expandR_expandR]
      · exact k2 (fun h' => h ⟨hA, hk.1 h'⟩)
    · refine ⟨fun h => absurd (hm1 h) hA, fun _ => ?_⟩
      simp only [prepQBX, h2 hA]

theorem value_expandR {V : Type} (I : Head → List V → V) (ns : List Obj) :
    ∀ e outer, value I (expandR ns outer e) = value I e := by
  have vl : ∀ l, valueL I l = l.map (value I) := by
    intro l; induction l with
    | nil => rfl
    | cons c l ih => simp [valueL, ih]
  apply SE.ind (P := fun e => ∀ outer, value I (expandR ns outer e) = value I e)
  intro h cs ih outer
  have hl : ∀ o, valueL I (expandRL ns o cs) = valueL I cs := by
    intro o
    rw [vl, vl, expandRL_eq, List.map_map]
    exact List.map_congr_left fun c hc => ih c hc o
  cases hi : isIntG h with
  | false =>
    rw [expandR_node hi]
    cases h <;> simp_all [value, isIntG]
  | true =>
    cases h <;> simp only [isIntG, Bool.false_eq_true] at hi
    rename_i g
    simp only [expandR]
    split
    · rename_i hc
      simp [meanOf, value, valueL, hc.2.1, hl]
    · simp only [value, hl]

theorem allSeen_no_avg (ns : List Obj) : ∀ e outer,
    AllSeen (fun g => g.src.geometry ∈ ns → g.lim ≠ .avg) outer (expandR ns outer e) := by
  apply SE.ind (P := fun e => ∀ outer,
    AllSeen (fun g => g.src.geometry ∈ ns → g.lim ≠ .avg) outer (expandR ns outer e))
  intro h cs ih outer
  have hl : ∀ o, AllSeenL (fun g => g.src.geometry ∈ ns → g.lim ≠ .avg) o (expandRL ns o cs) := by
    intro o
    rw [expandRL_eq]
    refine allSeenL_iff.2 fun c hc => ?_
    obtain ⟨d, hd, rfl⟩ := List.mem_map.1 hc
    exact ih d hd o
  cases hi : isIntG h with
  | false => rw [expandR_node hi, allSeen_node hi]; exact hl _
  | true =>
    cases h <;> simp only [isIntG, Bool.false_eq_true] at hi
    rename_i g
    simp only [expandR]
    split
    · rw [allSeen_meanOf]
      exact ⟨fun _ => ⟨by simp, by simp⟩, hl _⟩
    · rename_i hc
      simp only [AllSeen]
      exact ⟨fun hs hm ha => hc ⟨hm, ha, hs⟩, hl _⟩

/-- C13 (no restriction on the nesting): whenever preprocessing succeeds, the result has
the same value as the expression, for every interpretation of all operations in which
`'avg'` means half the sum of the `+1` and `-1` potentials, and no `'avg'` potential on
the given sources is left outside potentials of other sources. -/
theorem C13_value {V : Type} (I : Head → List V → V) (ns : List Obj) (e e' : SE)
    (h : prepQBX ns e = .ok e') :
    value I e' = value I e ∧ AllSeen (fun g => g.src.geometry ∈ ns → g.lim ≠ .avg) [] e' := by
  obtain ⟨h1, h2⟩ := C12_exact ns e
  by_cases hA : AllSeen (fun g => g.src.geometry ∈ ns → LimitOk g) [] e
  · rw [h1 hA] at h
    simp only [Except.ok.injEq] at h
    subst h
    exact ⟨value_expandR I ns e [], allSeen_no_avg ns e []⟩
  · rw [h2 hA] at h; cases h

/-- C12: the outcome of preprocessing, result or error, does not depend on the order in
which the sources of the collection are visited. -/
theorem C12_order (ns ns' : List Obj) (hs : ∀ n, n ∈ ns ↔ n ∈ ns') (e : SE) :
    prepQBX ns e = prepQBX ns' e := by
  have hex : ∀ e outer, expandR ns outer e = expandR ns' outer e := by
    apply SE.ind (P := fun e => ∀ outer, expandR ns outer e = expandR ns' outer e)
    intro h cs ih outer
    have hl : ∀ o, expandRL ns o cs = expandRL ns' o cs := by
      intro o
      simp only [expandRL_eq]
      exact List.map_congr_left fun c hc => ih c hc o
    cases hi : isIntG h with
    | false => rw [expandR_node hi, expandR_node hi, hl]
    | true =>
      cases h <;> simp only [isIntG, Bool.false_eq_true] at hi
      simp only [expandR, hs, hl]
  obtain ⟨h1, h2⟩ := C12_exact ns e
  obtain ⟨k1, k2⟩ := C12_exact ns' e
  have hiff : (fun g : IG => g.src.geometry ∈ ns → LimitOk g) = fun g => g.src.geometry ∈ ns' → LimitOk g := by
    funext g; rw [hs]
  rw [hiff] at h1 h2
  by_cases hA : AllSeen (fun g => g.src.geometry ∈ ns' → LimitOk g) [] e
  · rw [h1 hA, k1 hA, hex]
  · rw [h2 hA, k2 hA]

/-- non-vacuity of `C12_exact` and `C13_value`: a potential on `b` inside one on `a`, both
QBX sources, the inner one with a limit that is not allowed: accepted and unchanged -/
example : AllSeen (fun g => g.src.geometry ∈ [.ident "a", .ident "b"] → LimitOk g) [] (exNest .none) ∧
    prepQBX [.ident "a", .ident "b"] (exNest .none) = .ok (exNest .none) := by
  refine ⟨?_, rfl⟩
  simp [exNest, AllSeen, AllSeenL, Seen, LimitOk]

/-- ... and one where the nesting is on one source: refused -/
example : ¬ AllSeen (fun g => g.src.geometry ∈ [.ident "s", .ident "b"] → LimitOk g) []
      (.node (.intg ⟨.base "G", ["G"], 1, .avg, exS, exS, []⟩)
      [.node (.intg ⟨.base "G", ["G"], 1, .none, exS, exS, []⟩) [.node (.var "sigma") []]]) ∧
    prepQBX [.ident "s", .ident "b"] (.node (.intg ⟨.base "G", ["G"], 1, .avg, exS, exS, []⟩)
      [.node (.intg ⟨.base "G", ["G"], 1, .none, exS, exS, []⟩) [.node (.var "sigma") []]]) =
      .error .value := by
  refine ⟨?_, rfl⟩
  simp [AllSeen, AllSeenL, Seen, LimitOk, exS]

/-- ... and three levels `a[b[a['avg']]]`: the innermost potential is not reached -/
example : ∃ e, prepQBX [.ident "a", .ident "b"] e = .ok e ∧
    ¬ AllIntG (fun g => g.lim ≠ .avg) e := by
  refine ⟨.node (.intg ⟨.base "G", ["G"], 1, .p1, ⟨.ident "a", none, .node⟩, ⟨.ident "a", none, .node⟩, []⟩)
    [.node (.intg ⟨.base "G", ["G"], 1, .p1, ⟨.ident "b", none, .node⟩, ⟨.ident "b", none, .node⟩, []⟩)
      [.node (.intg ⟨.base "G", ["G"], 1, .avg, ⟨.ident "a", none, .node⟩, ⟨.ident "a", none, .node⟩, []⟩)
        [.node (.var "sigma") []]]], rfl, ?_⟩
  simp [AllIntG, AllIntGL]

end Verif.Sym
