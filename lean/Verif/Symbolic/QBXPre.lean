import Verif.Symbolic.Tagger

/-!
# Preprocessing for QBX sources (C12, C13)

Model of `QBXPreprocessor` (`pytential/symbolic/mappers.py:828-885`) as called by
`QBXLayerPotentialSource.preprocess_optemplate` (`qbx/__init__.py:518-524`), for all
QBX sources of a collection in order (`execution.py:649-651`).
-/

namespace Verif.Sym

open Verif.DofDesc

/-! ## Model -/

/-- `is_self` (`mappers.py:842-845`). -/
def isSelf (g : IG) : Bool :=
  decide (g.src.geometry = g.tgt.geometry) && decide (g.src.stage = g.tgt.stage)

/-- Last part of `QBXPreprocessor.map_int_g` (`mappers.py:834-882`), with the already
processed children `cs`. -/
def qbxLimit (g : IG) (cs : List SE) : Except Err SE :=
  if isSelf g then
    match g.lim with
    | .none => .error .value
    | .p2 => .error .value
    | .m2 => .error .value
    | .avg => .ok (.node .prod [.node (.num (1/2)) [], .node .sum
        [.node (.intg { g with lim := .p1 }) cs, .node (.intg { g with lim := .m1 }) cs]])
    | .p1 => .ok (.node (.intg g) cs)
    | .m1 => .ok (.node (.intg g) cs)
  else
    match g.lim with
    | .avg => .error .value
    | .p1 => .error .value
    | .m1 => .error .value
    | _ => .ok (.node (.intg g) cs)

mutual
/-- `QBXPreprocessor(geo).rec` (`mappers.py:828-885`, inheriting `IdentityMapper`,
`mappers.py:104-200`): layer potentials of other sources are returned without
recursion.  (`qbx_forced_limit == 0` cannot occur: `primitives.py:2010`.) -/
def qbxPre (geo : Obj) : SE → Except Err SE
  | .node (.intg g) cs =>
    if g.src.geometry ≠ geo then .ok (.node (.intg g) cs)
    else match qbxPreL geo cs with
      | .error x => .error x
      | .ok cs' => qbxLimit g cs'
  | .node h cs => match qbxPreL geo cs with
    | .error x => .error x
    | .ok cs' => .ok (.node h cs')
/-- `QBXPreprocessor(geo).rec` on children -/
def qbxPreL (geo : Obj) : List SE → Except Err (List SE)
  | [] => .ok []
  | c :: l => match qbxPre geo c with
    | .error x => .error x
    | .ok c' => match qbxPreL geo l with
      | .error x => .error x
      | .ok l' => .ok (c' :: l')
end

/-- the loop of `_prepare_expr` (`execution.py:649-651`) over the QBX sources of a
collection -/
def prepQBX : List Obj → SE → Except Err SE
  | [], e => .ok e
  | n :: ns, e => match qbxPre n e with
    | .error x => .error x
    | .ok e' => prepQBX ns e'

/-! ## Specification -/

mutual
/-- every layer potential of the expression, at any depth, satisfies `P` -/
def AllIntG (P : IG → Prop) : SE → Prop
  | .node h cs => (∀ g, h = .intg g → P g) ∧ AllIntGL P cs
/-- same for lists -/
def AllIntGL (P : IG → Prop) : List SE → Prop
  | [] => True
  | c :: l => AllIntG P c ∧ AllIntGL P l
end

/-- the limit rules: on-surface evaluation admits exactly `+1`, `-1`, `'avg'`,
off-surface evaluation exactly `None`, `+2`, `-2` -/
def LimitOk (g : IG) : Prop :=
  if g.src.geometry = g.tgt.geometry ∧ g.src.stage = g.tgt.stage
  then g.lim = .p1 ∨ g.lim = .m1 ∨ g.lim = .avg
  else g.lim = .none ∨ g.lim = .p2 ∨ g.lim = .m2

mutual
/-- layer potentials nested in the density or arguments of a layer potential have the
same source geometry as the outer one -/
def HomNest : SE → Prop
  | .node h cs => (∀ g, h = .intg g → AllIntGL (fun g' => g'.src.geometry = g.src.geometry) cs) ∧
      HomNestL cs
/-- same for lists -/
def HomNestL : List SE → Prop
  | [] => True
  | c :: l => HomNest c ∧ HomNestL l
end

/-- half the sum of the two one-sided limits of a layer potential -/
def meanOf (g : IG) (cs : List SE) : SE :=
  .node .prod [.node (.num (1/2)) [], .node .sum
    [.node (.intg { g with lim := .p1 }) cs, .node (.intg { g with lim := .m1 }) cs]]

mutual
/-- The expression with every `'avg'` layer potential on one of the sources `ns` replaced
by the mean of its one-sided limits, and nothing else changed. -/
def expand (ns : List Obj) : SE → SE
  | .node h cs => match h with
    | .intg g => if g.src.geometry ∈ ns ∧ g.lim = .avg then meanOf g (expandL ns cs)
        else .node (.intg g) (expandL ns cs)
    | h => .node h (expandL ns cs)
/-- same for lists -/
def expandL (ns : List Obj) : List SE → List SE
  | [] => []
  | c :: l => expand ns c :: expandL ns l
end

mutual
/-- Value of an expression for an arbitrary interpretation `I` of all operations, where
an `'avg'` potential means half the sum of the `+1` and the `-1` potential. -/
def value {V : Type} (I : Head → List V → V) : SE → V
  | .node h cs => match h with
    | .intg g => if g.lim = .avg then
          I .prod [I (.num (1/2)) [], I .sum [I (.intg { g with lim := .p1 }) (valueL I cs),
            I (.intg { g with lim := .m1 }) (valueL I cs)]]
        else I (.intg g) (valueL I cs)
    | h => I h (valueL I cs)
/-- values of a list -/
def valueL {V : Type} (I : Head → List V → V) : List SE → List V
  | [] => []
  | c :: l => value I c :: valueL I l
end

/-! ## Proofs -/

theorem allIntGL_iff {P : IG → Prop} : ∀ {l : List SE}, AllIntGL P l ↔ ∀ c ∈ l, AllIntG P c
  | [] => by simp [AllIntGL]
  | c :: l => by simp [AllIntGL, allIntGL_iff]

theorem homNestL_iff : ∀ {l : List SE}, HomNestL l ↔ ∀ c ∈ l, HomNest c
  | [] => by simp [HomNestL]
  | c :: l => by simp [HomNestL, homNestL_iff]

theorem expandL_eq (ns : List Obj) : ∀ l, expandL ns l = l.map (expand ns)
  | [] => rfl
  | c :: l => by simp [expandL, expandL_eq ns l]

theorem AllIntG.mono {P Q : IG → Prop} (h : ∀ g, P g → Q g) : ∀ e, AllIntG P e → AllIntG Q e := by
  apply SE.ind
  intro hd cs ih he
  simp only [AllIntG] at he ⊢
  refine ⟨fun g hg => h g (he.1 g hg), allIntGL_iff.2 fun c hc => ih c hc (allIntGL_iff.1 he.2 c hc)⟩

theorem AllIntG.and {P Q : IG → Prop} : ∀ e, AllIntG P e → AllIntG Q e →
    AllIntG (fun g => P g ∧ Q g) e := by
  apply SE.ind
  intro hd cs ih h1 h2
  simp only [AllIntG] at h1 h2 ⊢
  exact ⟨fun g hg => ⟨h1.1 g hg, h2.1 g hg⟩,
    allIntGL_iff.2 fun c hc => ih c hc (allIntGL_iff.1 h1.2 c hc) (allIntGL_iff.1 h2.2 c hc)⟩

/-- limit rule restricted to a set of sources -/
def OkOn (ns : List Obj) (g : IG) : Prop := g.src.geometry ∈ ns → LimitOk g

theorem qbxLimit_ok (g : IG) (cs : List SE) (h : LimitOk g) :
    qbxLimit g cs = .ok (if g.lim = .avg then meanOf g cs else .node (.intg g) cs) := by
  unfold LimitOk at h
  unfold qbxLimit isSelf
  by_cases hs : g.src.geometry = g.tgt.geometry ∧ g.src.stage = g.tgt.stage
  · rw [if_pos hs] at h
    rw [if_pos (by simp [hs.1, hs.2])]
    rcases h with h | h | h <;> rw [h] <;> simp [meanOf]
  · rw [if_neg hs] at h
    rw [if_neg (by simpa using hs)]
    rcases h with h | h | h <;> rw [h] <;> simp

theorem qbxLimit_err (g : IG) (cs : List SE) (h : ¬ LimitOk g) : qbxLimit g cs = .error .value := by
  unfold LimitOk at h
  unfold qbxLimit isSelf
  by_cases hs : g.src.geometry = g.tgt.geometry ∧ g.src.stage = g.tgt.stage
  · rw [if_pos hs] at h
    rw [if_pos (by simp [hs.1, hs.2])]
    cases hl : g.lim <;> simp_all
  · rw [if_neg hs] at h
    rw [if_neg (by simpa using hs)]
    cases hl : g.lim <;> simp_all

theorem qbxPre_node {geo : Obj} {h : Head} {cs : List SE} (hi : isIntG h = false) :
    qbxPre geo (.node h cs) = match qbxPreL geo cs with
      | .error x => .error x
      | .ok cs' => .ok (.node h cs') := by
  cases h <;> simp_all [isIntG, qbxPre]

theorem expand_node {ns : List Obj} {h : Head} {cs : List SE} (hi : isIntG h = false) :
    expand ns (.node h cs) = .node h (expandL ns cs) := by
  cases h <;> simp_all [isIntG, expand]

/-- expressions without potentials on `ns` are unchanged -/
theorem expand_other {ns : List Obj} : ∀ e, AllIntG (fun g => g.src.geometry ∉ ns) e →
    expand ns e = e := by
  apply SE.ind
  intro h cs ih he
  simp only [AllIntG] at he
  have hl : expandL ns cs = cs := by
    rw [expandL_eq]
    conv => rhs; rw [← List.map_id cs]
    exact List.map_congr_left fun c hc => ih c hc (allIntGL_iff.1 he.2 c hc)
  cases hi : isIntG h with
  | false => rw [expand_node hi, hl]
  | true =>
    cases h <;> simp only [isIntG, Bool.false_eq_true] at hi
    rename_i g
    simp [expand, he.1 g rfl, hl]

theorem qbxPreL_spec {geo : Obj} (l : List SE)
    (ih : ∀ c ∈ l, (AllIntG (OkOn [geo]) c → qbxPre geo c = .ok (expand [geo] c)) ∧
      (¬ AllIntG (OkOn [geo]) c → qbxPre geo c = .error .value)) :
    (AllIntGL (OkOn [geo]) l → qbxPreL geo l = .ok (expandL [geo] l)) ∧
      (¬ AllIntGL (OkOn [geo]) l → qbxPreL geo l = .error .value) := by
  induction l with
  | nil => simp [AllIntGL, qbxPreL, expandL]
  | cons c l ihl =>
    obtain ⟨i1, i2⟩ := ihl (fun c hc => ih c (by simp [hc]))
    obtain ⟨j1, j2⟩ := ih c (by simp)
    by_cases hc : AllIntG (OkOn [geo]) c
    · by_cases hl : AllIntGL (OkOn [geo]) l
      · refine ⟨fun _ => ?_, fun h => absurd ⟨hc, hl⟩ h⟩
        simp [qbxPreL, j1 hc, i1 hl, expandL]
      · refine ⟨fun h => absurd h.2 hl, fun _ => ?_⟩
        simp [qbxPreL, j1 hc, i2 hl]
    · refine ⟨fun h => absurd h.1 hc, fun _ => ?_⟩
      simp [qbxPreL, j2 hc]

theorem qbxPre_spec {geo : Obj} : ∀ e, HomNest e →
    (AllIntG (OkOn [geo]) e → qbxPre geo e = .ok (expand [geo] e)) ∧
      (¬ AllIntG (OkOn [geo]) e → qbxPre geo e = .error .value) := by
  apply SE.ind
  intro h cs ih hn
  simp only [HomNest] at hn
  have hl := qbxPreL_spec (geo := geo) cs (fun c hc => ih c hc (homNestL_iff.1 hn.2 c hc))
  cases hi : isIntG h with
  | false =>
    have hA : AllIntG (OkOn [geo]) (.node h cs) ↔ AllIntGL (OkOn [geo]) cs := by
      simp only [AllIntG]
      refine ⟨fun h => h.2, fun h' => ⟨?_, h'⟩⟩
      intro g hg
      rw [hg] at hi; cases hi
    rw [qbxPre_node hi, expand_node hi, hA]
    refine ⟨fun h => by rw [hl.1 h], fun h => by rw [hl.2 h]⟩
  | true =>
    cases h <;> simp only [isIntG, Bool.false_eq_true] at hi
    rename_i g
    by_cases hg : g.src.geometry = geo
    · have hA : AllIntG (OkOn [geo]) (.node (.intg g) cs) ↔ LimitOk g ∧ AllIntGL (OkOn [geo]) cs := by
        simp only [AllIntG]
        refine ⟨fun h => ⟨h.1 g rfl (by simp [hg]), h.2⟩, fun h => ⟨?_, h.2⟩⟩
        intro g' hg'
        cases hg'
        exact fun _ => h.1
      rw [hA]
      by_cases hc : AllIntGL (OkOn [geo]) cs
      · by_cases hL : LimitOk g
        · refine ⟨fun _ => ?_, fun h => absurd ⟨hL, hc⟩ h⟩
          simp only [qbxPre, hg, ne_eq, not_true_eq_false, if_false, hl.1 hc, qbxLimit_ok g _ hL]
          simp [expand, hg]
        · refine ⟨fun h => absurd h.1 hL, fun _ => ?_⟩
          simp only [qbxPre, hg, ne_eq, not_true_eq_false, if_false, hl.1 hc, qbxLimit_err g _ hL]
      · refine ⟨fun h => absurd h.2 hc, fun _ => ?_⟩
        simp only [qbxPre, hg, ne_eq, not_true_eq_false, if_false, hl.2 hc]
    · have hcs : AllIntGL (fun g' => g'.src.geometry ∉ [geo]) cs := by
        refine allIntGL_iff.2 fun c hc => AllIntG.mono ?_ c (allIntGL_iff.1 (hn.1 g rfl) c hc)
        intro g' h
        simp [h, hg]
      have hall : AllIntG (fun g' => g'.src.geometry ∉ [geo]) (.node (.intg g) cs) := by
        simp only [AllIntG]
        refine ⟨?_, hcs⟩
        intro g' h'; cases h'; simpa using hg
      refine ⟨fun _ => ?_, fun h => absurd (AllIntG.mono (fun g' h => fun h' => absurd h' h) _ hall) h⟩
      rw [expand_other _ hall]
      simp [qbxPre, hg]

/-- properties of potentials that do not look at `+1`/`-1`/`avg` differences survive
expansion -/
theorem AllIntG.expand {P : IG → Prop} {ns : List Obj}
    (h1 : ∀ g, g.src.geometry ∈ ns → g.lim = .avg → P g → P { g with lim := .p1 } ∧ P { g with lim := .m1 }) :
    ∀ e, AllIntG P e → AllIntG P (expand ns e) := by
  apply SE.ind
  intro h cs ih he
  simp only [AllIntG] at he
  have hl : AllIntGL P (expandL ns cs) := by
    rw [expandL_eq]
    refine allIntGL_iff.2 fun c hc => ?_
    obtain ⟨d, hd, rfl⟩ := List.mem_map.1 hc
    exact ih d hd (allIntGL_iff.1 he.2 d hd)
  cases hi : isIntG h with
  | false =>
    rw [expand_node hi]
    exact ⟨he.1, hl⟩
  | true =>
    cases h <;> simp only [isIntG, Bool.false_eq_true] at hi
    rename_i g
    simp only [Verif.Sym.expand]
    split
    · rename_i hc
      obtain ⟨p, m⟩ := h1 g hc.1 hc.2 (he.1 g rfl)
      refine ⟨by simp, ⟨by simp, trivial⟩, ⟨by simp, ⟨?_, hl⟩, ⟨?_, hl⟩, trivial⟩, trivial⟩
      · intro g' h'; cases h'; exact p
      · intro g' h'; cases h'; exact m
    · exact ⟨he.1, hl⟩

theorem AllIntG.expand_rev {P : IG → Prop} {ns : List Obj}
    (h1 : ∀ g, g.lim = .avg → P { g with lim := .p1 } → P g) :
    ∀ e, AllIntG P (Verif.Sym.expand ns e) → AllIntG P e := by
  apply SE.ind
  intro h cs ih he
  have hl : AllIntGL P (expandL ns cs) → AllIntGL P cs := by
    rw [expandL_eq]
    intro hh
    exact allIntGL_iff.2 fun c hc => ih c hc (allIntGL_iff.1 hh _ (List.mem_map_of_mem hc))
  cases hi : isIntG h with
  | false =>
    rw [expand_node hi] at he
    exact ⟨he.1, hl he.2⟩
  | true =>
    cases h <;> simp only [isIntG, Bool.false_eq_true] at hi
    rename_i g
    simp only [Verif.Sym.expand] at he
    split at he
    · rename_i hc
      simp only [meanOf, AllIntG, AllIntGL] at he
      obtain ⟨_, _, ⟨_, ⟨h2, h3⟩, _⟩, _⟩ := he
      refine ⟨?_, hl h3⟩
      intro g' h'; cases h'
      exact h1 g hc.2 (h2 _ rfl)
    · exact ⟨he.1, hl he.2⟩

theorem HomNest.expand {ns : List Obj} : ∀ e, HomNest e → HomNest (expand ns e) := by
  apply SE.ind
  intro h cs ih hn
  simp only [HomNest] at hn
  have hl : HomNestL (expandL ns cs) := by
    rw [expandL_eq]
    refine homNestL_iff.2 fun c hc => ?_
    obtain ⟨d, hd, rfl⟩ := List.mem_map.1 hc
    exact ih d hd (homNestL_iff.1 hn.2 d hd)
  have ha : ∀ g, h = .intg g → AllIntGL (fun g' => g'.src.geometry = g.src.geometry) (expandL ns cs) := by
    intro g hg
    rw [expandL_eq]
    refine allIntGL_iff.2 fun c hc => ?_
    obtain ⟨d, hd, rfl⟩ := List.mem_map.1 hc
    exact AllIntG.expand (fun g' _ _ h => ⟨h, h⟩) _ (allIntGL_iff.1 (hn.1 g hg) d hd)
  cases hi : isIntG h with
  | false =>
    rw [expand_node hi]
    exact ⟨ha, hl⟩
  | true =>
    cases h <;> simp only [isIntG, Bool.false_eq_true] at hi
    rename_i g
    simp only [Verif.Sym.expand]
    split
    · refine ⟨by simp, ⟨by simp, trivial⟩, ⟨by simp, ⟨?_, hl⟩, ⟨?_, hl⟩, trivial⟩, trivial⟩
      · intro g' h'; cases h'; exact ha g rfl
      · intro g' h'; cases h'; exact ha g rfl
    · exact ⟨ha, hl⟩

theorem expand_expand (n : Obj) (ns : List Obj) : ∀ e, expand ns (expand [n] e) = expand (n :: ns) e := by
  apply SE.ind
  intro h cs ih
  have hl : expandL ns (expandL [n] cs) = expandL (n :: ns) cs := by
    simp only [expandL_eq, List.map_map]
    exact List.map_congr_left fun c hc => ih c hc
  cases hi : isIntG h with
  | false => rw [expand_node hi, expand_node hi, expand_node hi, hl]
  | true =>
    cases h <;> simp only [isIntG, Bool.false_eq_true] at hi
    rename_i g
    by_cases h1 : g.src.geometry = n <;> by_cases h2 : g.lim = .avg <;>
      by_cases h3 : g.src.geometry ∈ ns <;> simp [expand, h1, h2, h3, hl, meanOf, expandL] <;> simp_all

theorem expand_nil : ∀ e, expand [] e = e := fun e => expand_other e (AllIntG.mono (P := fun _ => True)
  (fun _ _ => by simp) e (by
    revert e; apply SE.ind; intro h cs ih
    exact ⟨fun _ _ => trivial, allIntGL_iff.2 ih⟩))

theorem prepQBX_spec : ∀ (ns : List Obj) (e : SE), HomNest e →
    (AllIntG (OkOn ns) e → prepQBX ns e = .ok (expand ns e)) ∧
    (¬ AllIntG (OkOn ns) e → prepQBX ns e = .error .value)
  | [], e, _ => by
    refine ⟨fun _ => by rw [expand_nil]; rfl, fun h => absurd ?_ h⟩
    revert e; intro e _ _
    have : ∀ e, AllIntG (OkOn []) e := by
      apply SE.ind; intro h cs ih
      exact ⟨fun _ _ => by simp [OkOn], allIntGL_iff.2 ih⟩
    exact this e
  | n :: ns, e, hn => by
    obtain ⟨h1, h2⟩ := qbxPre_spec (geo := n) e hn
    by_cases hA : AllIntG (OkOn [n]) e
    · obtain ⟨k1, k2⟩ := prepQBX_spec ns (expand [n] e) (HomNest.expand e hn)
      have hk : AllIntG (OkOn ns) (expand [n] e) ↔ AllIntG (OkOn ns) e := by
        constructor
        · apply AllIntG.expand_rev
          intro g hg hp hm
          have := hp hm
          unfold LimitOk at this ⊢
          simp_all
        · apply AllIntG.expand
          intro g _ hg hp
          unfold OkOn LimitOk at *
          constructor <;> intro hm <;> have := hp hm <;> simp_all
      have hsplit : AllIntG (OkOn (n :: ns)) e ↔ AllIntG (OkOn [n]) e ∧ AllIntG (OkOn ns) e := by
        constructor
        · intro h
          exact ⟨AllIntG.mono (fun g hg hm => hg (by simp at hm; simp [hm])) e h,
            AllIntG.mono (fun g hg hm => hg (by simp [hm])) e h⟩
        · rintro ⟨ha, hb⟩
          refine AllIntG.mono ?_ e (AllIntG.and e ha hb)
          intro g ⟨hg1, hg2⟩ hm
          rcases List.mem_cons.1 hm with hm | hm
          · exact hg1 (by simp [hm])
          · exact hg2 hm
      simp only [prepQBX, h1 hA]
      rw [hsplit]
      refine ⟨fun h => ?_, fun h => ?_⟩
      · rw [k1 (hk.2 h.2), expand_expand]
      · exact k2 (fun h' => h ⟨hA, hk.1 h'⟩)
    · refine ⟨fun h => absurd (AllIntG.mono (fun g hg hm => hg (by simp at hm; simp [hm])) e h) hA, fun _ => ?_⟩
      simp only [prepQBX, h2 hA]

/-- C12: for all collections of QBX sources and all expressions in which nested layer
potentials share their source: preprocessing succeeds exactly if every layer potential
on one of the sources, at any depth, obeys the limit rules, and raises `ValueError`
otherwise; if it succeeds, nothing but `'avg'` potentials changes.  Partial: potentials
nested in a potential of another source are not checked (`C12_refuted`). -/
theorem C12_limits_partial (ns : List Obj) (e : SE) (hn : HomNest e) :
    (AllIntG (fun g => g.src.geometry ∈ ns → LimitOk g) e → prepQBX ns e = .ok (expand ns e)) ∧
    (¬ AllIntG (fun g => g.src.geometry ∈ ns → LimitOk g) e → prepQBX ns e = .error .value) :=
  prepQBX_spec ns e hn

/-- C12 (non-`avg` operators keep their limit): an accepted expression without `'avg'`
on the given sources is returned unchanged, whatever the nesting. -/
theorem C12_keep (ns : List Obj) : ∀ (e e' : SE), AllIntG (fun g => g.src.geometry ∈ ns → g.lim ≠ .avg) e →
    prepQBX ns e = .ok e' → e' = e := by
  have one : ∀ geo e, AllIntG (fun g => g.src.geometry = geo → g.lim ≠ .avg) e →
      ∀ e', qbxPre geo e = .ok e' → e' = e := by
    intro geo
    apply SE.ind (P := fun e => AllIntG (fun g => g.src.geometry = geo → g.lim ≠ .avg) e →
      ∀ e', qbxPre geo e = .ok e' → e' = e)
    intro h cs ih he e' hq
    simp only [AllIntG] at he
    have hl : ∀ l l' : List SE, (∀ c ∈ l, c ∈ cs) → qbxPreL geo l = .ok l' → l' = l := by
      intro l
      induction l with
      | nil => intro l' _ h; simp only [qbxPreL, Except.ok.injEq] at h; exact h.symm
      | cons c l ihl =>
        intro l' hs h
        simp only [qbxPreL] at h
        split at h
        · cases h
        · rename_i c' hc'
          split at h
          · cases h
          · rename_i l'' hl''
            simp only [Except.ok.injEq] at h; subst h
            rw [ih c (hs c (by simp)) (allIntGL_iff.1 he.2 c (hs c (by simp))) c' hc',
              ihl _ (fun c hc => hs c (by simp [hc])) hl'']
    cases hi : isIntG h with
    | false =>
      rw [qbxPre_node hi] at hq
      split at hq
      · cases hq
      · rename_i cs' hcs
        simp only [Except.ok.injEq] at hq
        rw [← hq, hl cs cs' (fun _ h => h) hcs]
    | true =>
      cases h <;> simp only [isIntG, Bool.false_eq_true] at hi
      rename_i g
      simp only [qbxPre] at hq
      split at hq
      · simp only [Except.ok.injEq] at hq; exact hq.symm
      · rename_i hg
        simp only [ne_eq, not_not] at hg
        split at hq
        · cases hq
        · rename_i cs' hcs
          have hne := he.1 g rfl hg
          by_cases hL : LimitOk g
          · rw [qbxLimit_ok g cs' hL] at hq
            simp only [hne, if_false, Except.ok.injEq] at hq
            rw [← hq, hl cs cs' (fun _ h => h) hcs]
          · rw [qbxLimit_err g cs' hL] at hq
            cases hq
  induction ns with
  | nil => intro e e' _ h; simp only [prepQBX, Except.ok.injEq] at h; exact h.symm
  | cons n ns ihn =>
    intro e e' he h
    simp only [prepQBX] at h
    split at h
    · cases h
    · rename_i e1 h1
      have hh : e1 = e := one n e (AllIntG.mono (fun g hg hm => hg (by simp [hm])) e he) e1 h1
      subst hh
      exact ihn e1 e' (AllIntG.mono (fun g hg hm => hg (by simp [hm])) e1 he) h

theorem value_expand {V : Type} (I : Head → List V → V) (ns : List Obj) :
    ∀ e, value I (expand ns e) = value I e := by
  have vl : ∀ l, valueL I l = l.map (value I) := by
    intro l; induction l with
    | nil => rfl
    | cons c l ih => simp [valueL, ih]
  apply SE.ind
  intro h cs ih
  have hl : valueL I (expandL ns cs) = valueL I cs := by
    rw [vl, vl, expandL_eq, List.map_map]
    exact List.map_congr_left fun c hc => ih c hc
  cases hi : isIntG h with
  | false =>
    rw [expand_node hi]
    cases h <;> simp_all [value, isIntG]
  | true =>
    cases h <;> simp only [isIntG, Bool.false_eq_true] at hi
    rename_i g
    simp only [expand]
    split
    · rename_i hc
      simp [meanOf, value, valueL, hc.2, hl]
    · simp only [value, hl]

theorem no_avg_expand (ns : List Obj) : ∀ e,
    AllIntG (fun g => g.src.geometry ∈ ns → g.lim ≠ .avg) (expand ns e) := by
  apply SE.ind
  intro h cs ih
  have hl : AllIntGL (fun g => g.src.geometry ∈ ns → g.lim ≠ .avg) (expandL ns cs) := by
    rw [expandL_eq]
    refine allIntGL_iff.2 fun c hc => ?_
    obtain ⟨d, hd, rfl⟩ := List.mem_map.1 hc
    exact ih d hd
  cases hi : isIntG h with
  | false =>
    rw [expand_node hi]
    refine ⟨?_, hl⟩
    intro g hg; rw [hg] at hi; cases hi
  | true =>
    cases h <;> simp only [isIntG, Bool.false_eq_true] at hi
    rename_i g
    simp only [expand]
    split
    · refine ⟨by simp, ⟨by simp, trivial⟩, ⟨by simp, ⟨?_, hl⟩, ⟨?_, hl⟩, trivial⟩, trivial⟩
      · intro g' h'; cases h'; simp
      · intro g' h'; cases h'; simp
    · rename_i hc
      refine ⟨?_, hl⟩
      intro g' h' hm ha
      cases h'
      exact hc ⟨hm, ha⟩

/-- C13: if preprocessing succeeds (nested potentials sharing their source) the result
has no `'avg'` potential on the given sources and the same value, for every
interpretation of all operations in which `'avg'` means half the sum of the `+1` and
`-1` potentials.  Partial: `C13_refuted`. -/
theorem C13_avg_partial {V : Type} (I : Head → List V → V) (ns : List Obj) (e e' : SE)
    (hn : HomNest e) (h : prepQBX ns e = .ok e') :
    AllIntG (fun g => g.src.geometry ∈ ns → g.lim ≠ .avg) e' ∧ value I e' = value I e := by
  obtain ⟨h1, h2⟩ := prepQBX_spec ns e hn
  by_cases hA : AllIntG (OkOn ns) e
  · rw [h1 hA] at h
    simp only [Except.ok.injEq] at h
    subst h
    exact ⟨no_avg_expand ns e, value_expand I ns e⟩
  · rw [h2 hA] at h; cases h

/-- `S_a[S_b[sigma]]`, the inner potential being on-surface with limit `lim` -/
def exNest (lim : Lim) : SE :=
  .node (.intg ⟨.base "G", ["G"], 1, .p1, ⟨.ident "a", none, .node⟩, ⟨.ident "a", none, .node⟩, []⟩)
    [.node (.intg ⟨.base "G", ["G"], 1, lim, ⟨.ident "b", none, .node⟩, ⟨.ident "b", none, .node⟩, []⟩)
      [.node (.var "sigma") []]]

/-- C12 is false across geometries: `None` for on-surface evaluation is accepted when the
potential is nested in a potential of another QBX source. -/
theorem C12_refuted : ∃ ns e, ¬ AllIntG (fun g => g.src.geometry ∈ ns → LimitOk g) e ∧
    ∃ e', prepQBX ns e = .ok e' := by
  refine ⟨[.ident "a", .ident "b"], exNest .none, ?_, _, rfl⟩
  simp [exNest, AllIntG, AllIntGL, LimitOk]

/-- C13 is false across geometries: an `'avg'` potential remains. -/
theorem C13_refuted : ∃ ns e e', prepQBX ns e = .ok e' ∧
    ¬ AllIntG (fun g => g.src.geometry ∈ ns → g.lim ≠ .avg) e' := by
  refine ⟨[.ident "a", .ident "b"], exNest .avg, _, rfl, ?_⟩
  simp [AllIntG, AllIntGL, exNest]

/-- non-vacuity: nested `'avg'` potentials on one source -/
example : HomNest (.node (.intg ⟨.base "G", ["G"], 1, .avg, exS, exS, []⟩)
      [.node (.intg ⟨.base "G", ["G"], 1, .avg, exS, exS, []⟩) [.node (.var "sigma") []]]) ∧
    ∃ e', prepQBX [.ident "s", .ident "t"] (.node (.intg ⟨.base "G", ["G"], 1, .avg, exS, exS, []⟩)
      [.node (.intg ⟨.base "G", ["G"], 1, .avg, exS, exS, []⟩) [.node (.var "sigma") []]]) = .ok e' := by
  refine ⟨?_, _, rfl⟩
  simp [HomNest, HomNestL, AllIntG, AllIntGL]

end Verif.Sym
