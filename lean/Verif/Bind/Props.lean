import Verif.Bind.Passes

/-!
# C76: `bind(places, expr)(**context)` is the meaning of the expression
-/

namespace Verif.Bind

open Verif.Sym Verif.DofDesc

variable {V : Type}

/-! ### Values -/

theorem valueL_eq {W : Type} (J : Head → List W → W) : ∀ l, valueL J l = l.map (value J)
  | [] => rfl
  | c :: l => by simp [valueL, valueL_eq J l]

theorem meaningL_eq {W : Type} (J : Head → List W → W) (pl : List (Obj × PlaceKind)) (tg : Bool) :
    ∀ l, meaningL J pl tg l = l.map (meaning J pl tg)
  | [] => rfl
  | c :: l => by simp [meaningL, meaningL_eq J pl tg l]

theorem value_intg {W : Type} (J : Head → List W → W) (g : IG) (cs : List SE) :
    value J (.node (.intg g) cs) = potMean J g (valueL J cs) := by
  simp only [value, potMean]

theorem upsampled_eq {pl : List (Obj × PlaceKind)} {g : IG} {b : Bool}
    (h : upsampled pl (tgtStage g) = .ok b) : upsamples pl g = b := by
  have hs : (tgtStage g).src = g.src := by unfold tgtStage; split <;> rfl
  unfold upsampled at h
  rw [hs] at h
  unfold upsamples
  by_cases h1 : g.src.stage = none
  · simp only [h1, ne_eq, not_true_eq_false, if_false] at h
    cases hg : getGeo pl g.src.geometry with
    | error x => rw [hg] at h; cases h
    | ok k =>
      rw [hg] at h
      simp only [Except.ok.injEq] at h
      simp [h1, ← h]
  · simp only [ne_eq, h1, not_false_eq_true, if_true, Except.ok.injEq] at h
    simp [h1, ← h]

theorem DDs_ne (d : DD) (s t : Stage) (h : s ≠ t) : DDs d s ≠ DDs d t := by
  intro he
  have := congrArg DD.stage he
  simp [DDs] at this
  exact h this

theorem interpolate_value {W : Type} (J : Head → List W → W) {o o' : SE} {f t : DD} (hne : f ≠ t)
    (h : interpolate o f t = .ok o') : value J o' = J (.interp f t) [value J o] := by
  unfold interpolate at h
  rw [if_neg hne] at h
  split at h
  · cases h
  · cases h; simp [value, valueL]

/-- the interpolation pass makes the meaning explicit -/
theorem interpPre_value {W : Type} (J : Head → List W → W) (pl : List (Obj × PlaceKind)) :
    ∀ e tg e', interpPre pl tg e = .ok e' → value J e' = meaning J pl tg e := by
  apply SE.ind (P := fun e => ∀ tg e', interpPre pl tg e = .ok e' → value J e' = meaning J pl tg e)
  intro h cs ih tg e' he
  have hl : ∀ l l' : List SE, (∀ c ∈ l, c ∈ cs) → interpPreL pl tg l = .ok l' →
      valueL J l' = meaningL J pl tg l := by
    intro l
    induction l with
    | nil => intro l' _ h; simp only [interpPreL, Except.ok.injEq] at h; subst h; rfl
    | cons c l ihl =>
      intro l' hs h
      simp only [interpPreL] at h
      split at h
      · cases h
      · rename_i c' hc'
        split at h
        · cases h
        · rename_i l'' hl''
          simp only [Except.ok.injEq] at h; subst h
          simp only [valueL, meaningL, ih c (hs c (by simp)) tg c' hc',
            ihl _ (fun c hc => hs c (by simp [hc])) hl'']
  have ha : ∀ (l : List SE) f1 f2 t n l', (∀ c ∈ l, c ∈ cs) → f1 ≠ t → f2 ≠ t →
      interpArgs pl tg f1 f2 t n l = .ok l' → valueL J l' = meaningArgs J pl tg f1 f2 t n l := by
    intro l
    induction l with
    | nil => intro f1 f2 t n l' _ _ _ h; simp only [interpArgs, Except.ok.injEq] at h; subst h; rfl
    | cons c l ihl =>
      intro f1 f2 t n l' hs h1 h2 h
      simp only [interpArgs] at h
      split at h
      · cases h
      · rename_i c' hc'
        split at h
        · cases h
        · rename_i c'' hc''
          split at h
          · cases h
          · rename_i l'' hl''
            simp only [Except.ok.injEq] at h; subst h
            have hne : (if n = 0 then f2 else f1) ≠ t := by split <;> assumption
            simp only [valueL, meaningArgs, interpolate_value J hne hc'',
              ih c (hs c (by simp)) _ c' hc',
              ihl _ _ _ _ _ (fun c hc => hs c (by simp [hc])) h1 h2 hl'']
  cases h with
  | nrd a dd =>
    simp only [interpPre] at he
    simp only [meaning]
    split at he
    · rename_i htg
      cases he; simp [htg]
    · rename_i htg
      simp only [htg, Bool.false_eq_true, if_false]
      simp only [nrdPre] at he
      split at he
      · rename_i hd
        cases he
        rw [if_neg (fun h => hd h.1)]
      · rename_i hd
        simp only [ne_eq, not_not] at hd
        split at he
        · cases he
        · rename_i k hk
          split at he
          · rename_i hkq
            rw [if_pos ⟨hd, by rw [hk, hkq]⟩]
            refine interpolate_value J ?_ he
            intro hh
            have := congrArg DD.stage hh
            rw [hd] at this
            simp [DDs] at this
          · rename_i hkq
            cases he
            rw [if_neg]
            rintro ⟨_, h2⟩
            rw [hk] at h2
            exact hkq (by simpa using h2)
  | prop k dd =>
    simp only [interpPre, tagHd, Except.ok.injEq] at he
    subst he
    simp only [meaning]
  | intg g =>
    simp only [interpPre] at he
    simp only [meaning]
    split at he
    · cases he
    · rename_i hu
      cases he
      have hf : ¬ (upsamples pl g = true) := by rw [upsampled_eq hu]; simp
      rw [if_neg hf, value_intg]
    · rename_i hu
      split at he
      · cases he
      · rename_i cs' hcs
        cases he
        rw [if_pos (upsampled_eq hu), value_intg,
          ha cs _ _ _ _ _ (fun _ h => h) (DDs_ne _ _ _ (by decide)) (DDs_ne _ _ _ (by decide)) hcs]
  | _ =>
    simp only [interpPre] at he
    split at he
    · cases he
    · rename_i cs' hcs
      cases he
      simp only [meaning, value, hl cs cs' (fun _ h => h) hcs]

/-- expanding `'avg'` does not change what moving to another stage yields -/
theorem value_stageTag_expand {W : Type} (J : Head → List W → W) (s : Stage) (ns : List Obj) :
    ∀ e, value J (stageTag s (expand ns e)) = value J (stageTag s e) := by
  apply SE.ind
  intro h cs ih
  have hl : valueL J (stageTagL s (expandL ns cs)) = valueL J (stageTagL s cs) := by
    rw [expandL_eq, stageTagL_eq, stageTagL_eq, valueL_eq, valueL_eq]
    simp only [List.map_map]
    exact List.map_congr_left fun c hc => ih c hc
  have hl0 : valueL J (expandL ns cs) = valueL J cs := by
    rw [expandL_eq, valueL_eq, valueL_eq, List.map_map]
    exact List.map_congr_left fun c hc => value_expand J ns c
  cases h with
  | intg g =>
    simp only [expand]
    split
    · rename_i hg
      simp only [meanOf, stageTag, stageTagL, value, valueL, hl, hg.2]
      simp
    · simp only [stageTag, value_intg, hl]
  | prop k dd =>
    cases k with
    | nodeCoord a =>
      simp only [expand, stageTag]
      split <;> simp only [value, hl0]
    | _ => simp only [expand, stageTag, value, hl]
  | nrd a dd =>
    simp only [expand, stageTag]
    split
    · simp only [value, hl0]
    · simp only [value, hl]
  | _ => simp only [expand, stageTag, value, hl]

theorem valueL_stageTag_expand {W : Type} (J : Head → List W → W) (s : Stage) (ns : List Obj)
    (cs : List SE) : valueL J (stageTagL s (expandL ns cs)) = valueL J (stageTagL s cs) := by
  rw [expandL_eq, stageTagL_eq, stageTagL_eq, valueL_eq, valueL_eq]
  simp only [List.map_map]
  exact List.map_congr_left fun c hc => value_stageTag_expand J s ns c

theorem valueL_expandL {W : Type} (J : Head → List W → W) (ns : List Obj)
    (cs : List SE) : valueL J (expandL ns cs) = valueL J cs := by
  rw [expandL_eq, valueL_eq, valueL_eq, List.map_map]
  exact List.map_congr_left fun c hc => value_expand J ns c

/-- the meaning of an expression does not depend on whether `'avg'` has been expanded -/
theorem meaning_expand {W : Type} (J : Head → List W → W) (pl : List (Obj × PlaceKind))
    (ns : List Obj) : ∀ e tg, meaning J pl tg (expand ns e) = meaning J pl tg e := by
  apply SE.ind (P := fun e => ∀ tg, meaning J pl tg (expand ns e) = meaning J pl tg e)
  intro h cs ih tg
  have hl : meaningL J pl tg (expandL ns cs) = meaningL J pl tg cs := by
    rw [expandL_eq, meaningL_eq, meaningL_eq, List.map_map]
    exact List.map_congr_left fun c hc => ih c hc tg
  have ha : ∀ (l : List SE) f1 f2 t n, (∀ c ∈ l, c ∈ cs) →
      meaningArgs J pl tg f1 f2 t n (expandL ns l) = meaningArgs J pl tg f1 f2 t n l := by
    intro l
    induction l with
    | nil => intros; rfl
    | cons c l ihl =>
      intro f1 f2 t n hs
      simp only [expandL, meaningArgs, ih c (hs c (by simp)),
        ihl _ _ _ _ (fun c hc => hs c (by simp [hc]))]
  cases h with
  | intg g =>
    simp only [expand]
    split
    · rename_i hg
      simp only [meanOf, meaning, meaningL]
      have hu : ∀ l, upsamples pl { g with lim := l } = upsamples pl g := fun _ => rfl
      rw [hu .p1, hu .m1]
      obtain ⟨t', ht, ht0⟩ : ∃ t', (∀ l, tgtStage { g with lim := l } =
          { g with lim := l, tgt := t' }) ∧ tgtStage g = { g with tgt := t' } := by
        by_cases hst : g.tgt.stage = none
        · exact ⟨DDs g.tgt .stage1, fun l => by simp [tgtStage, hst], by simp [tgtStage, hst]⟩
        · exact ⟨g.tgt, fun l => by simp [tgtStage, hst], by simp [tgtStage, hst]⟩
      rw [ht .p1, ht .m1, ht0]
      by_cases hup : upsamples pl g = true
      · simp only [if_pos hup, ha cs _ _ _ _ (fun _ h => h), potMean]
        simp [hg.2, value, valueL]
      · have hv : valueL J (if tg = true then stageTagL .stage2 (expandL ns cs) else expandL ns cs) =
            valueL J (if tg = true then stageTagL .stage2 cs else cs) := by
          split
          · exact valueL_stageTag_expand J _ ns cs
          · exact valueL_expandL J ns cs
        rw [hv, if_neg hup, if_neg hup, if_neg hup]
        simp [potMean, hg.2, value, valueL]
    · simp only [meaning, ha cs _ _ _ _ (fun _ h => h)]
      have hv : valueL J (if tg = true then stageTagL .stage2 (expandL ns cs) else expandL ns cs) =
          valueL J (if tg = true then stageTagL .stage2 cs else cs) := by
        split
        · exact valueL_stageTag_expand J _ ns cs
        · exact valueL_expandL J ns cs
      rw [hv]
  | nrd a dd =>
    have h1 := value_stageTag_expand J .stage2 ns (.node (.nrd a dd) cs)
    have h2 := value_expand J ns (.node (.nrd a dd) cs)
    simp only [expand] at h1 h2
    simp only [expand, meaning, h1, h2]
  | prop k dd =>
    have h1 := value_stageTag_expand J .stage2 ns (.node (.prop k dd) cs)
    have h2 := value_expand J ns (.node (.prop k dd) cs)
    simp only [expand] at h1 h2
    simp only [expand, meaning]
    split
    · exact h1
    · exact h2
  | _ => simp only [expand, meaning, hl]

/-! ### The compiler's view -/

theorem trL_eq (E : Enc) : ∀ l, trL E l = l.map (tr E)
  | [] => rfl
  | c :: l => by simp [trL, trL_eq E l]

theorem denL_eq (I : Compiler.Interp V) (env : Compiler.Ctx V) : ∀ l,
    Compiler.denL I env l = allSome (l.map (Compiler.den I env))
  | [] => rfl
  | e :: l => by
    simp only [Compiler.denL, List.map_cons, allSome, denL_eq I env l]
    cases Compiler.den I env e <;> cases allSome (l.map (Compiler.den I env)) <;> rfl

/-- no potential asks for `'avg'` -/
def NoAvg (e : SE) : Prop := AllIntG (fun g => g.lim ≠ .avg) e

theorem tr_den (E : Enc) (I : Compiler.Interp V) (env : Compiler.Ctx V) : ∀ e, NoAvg e →
    Compiler.den I env (tr E e) = value (mean E I env) e := by
  apply SE.ind
  intro h cs ih hn
  simp only [NoAvg, AllIntG] at hn
  have hl : (trL E cs).map (Compiler.den I env) = valueL (mean E I env) cs := by
    rw [trL_eq, valueL_eq, List.map_map]
    exact List.map_congr_left fun c hc => ih c hc (allIntGL_iff.1 hn.2 c hc)
  cases h with
  | var x => simp only [tr, Compiler.den, value, mean]
  | sum => simp only [tr, Compiler.den, value, mean, denL_eq, hl]
  | cse p s =>
    simp only [tr, value]
    rw [← hl]
    match htl : trL E cs with
    | [] => simp [trCse, Compiler.den, mean, Compiler.denL, allSome]
    | [c] => simp [trCse, Compiler.den, mean]
    | a :: b :: l =>
      simp only [trCse, Compiler.den, mean, denL_eq, List.map_cons]
  | intg g =>
    have hg := hn.1 g rfl
    rw [value_intg, potMean, if_neg hg]
    simp only [tr, Compiler.den, mean, denL_eq, List.map_take, List.map_drop, hl, trG]
    generalize allSome (List.take g.nd (valueL (mean E I env) cs)) = a
    generalize allSome (List.drop g.nd (valueL (mean E I env) cs)) = b
    cases a <;> cases b <;> rfl
  | _ => simp only [tr, Compiler.den, value, mean, denL_eq, hl]

theorem mem_subsL {s : Compiler.Expr} : ∀ {l : List Compiler.Expr},
    s ∈ Compiler.subsL l ↔ ∃ e ∈ l, s ∈ Compiler.subs e
  | [] => by simp [Compiler.subsL]
  | e :: l => by simp [Compiler.subsL, mem_subsL (l := l)]

theorem mem_opsL {s : Compiler.Expr} : ∀ {l : List Compiler.Expr},
    s ∈ Compiler.opsL l ↔ ∃ e ∈ l, s ∈ Compiler.ops e
  | [] => by simp [Compiler.opsL]
  | e :: l => by simp [Compiler.opsL, mem_opsL (l := l)]

theorem mem_depsL {d : Bool × String} : ∀ {l : List Compiler.Expr},
    d ∈ Compiler.depsL l ↔ ∃ e ∈ l, d ∈ Compiler.deps e
  | [] => by simp [Compiler.depsL]
  | e :: l => by simp [Compiler.depsL, mem_depsL (l := l)]

theorem mem_trL {E : Enc} {x : Compiler.Expr} {cs : List SE} (h : x ∈ trL E cs) :
    ∃ c ∈ cs, x = tr E c := by
  rw [trL_eq] at h
  obtain ⟨c, hc, rfl⟩ := List.mem_map.1 h
  exact ⟨c, hc, rfl⟩

/-- operators of a translated expression come from layer potentials -/
theorem tr_ops (E : Enc) : ∀ e, ¬ Has .intg e → Compiler.ops (tr E e) = [] := by
  apply SE.ind
  intro h cs ih hn
  have hl : ∀ l : List Compiler.Expr, (∀ x ∈ l, x ∈ trL E cs) → Compiler.opsL l = [] := by
    intro l hs
    rw [List.eq_nil_iff_forall_not_mem]
    intro o ho
    obtain ⟨x, hx, hox⟩ := mem_opsL.1 ho
    obtain ⟨c, hc, rfl⟩ := mem_trL (hs x hx)
    rw [ih c hc (fun hh => hn (has_node.2 (Or.inr ⟨c, hc, hh⟩)))] at hox
    cases hox
  cases h with
  | var x => simp [tr, Compiler.ops]
  | intg g => exact absurd (has_node.2 (Or.inl rfl)) hn
  | sum => simp only [tr, Compiler.ops]; exact hl _ (fun _ h => h)
  | cse p s =>
    simp only [tr]
    match htl : trL E cs with
    | [] => simp [trCse, Compiler.ops, Compiler.opsL]
    | [c] =>
      simp only [trCse, Compiler.ops]
      have := hl [c] (by simp [htl])
      simpa [Compiler.opsL] using this
    | a :: b :: l =>
      simp only [trCse, Compiler.ops]
      exact hl _ (by simp [htl])
  | _ => simp only [tr, Compiler.ops]; exact hl _ (fun _ h => h)

theorem tr_deps (E : Enc) : ∀ e d, d ∈ Compiler.deps (tr E e) → Has (.var d.2) e := by
  apply SE.ind (P := fun e => ∀ d, d ∈ Compiler.deps (tr E e) → Has (.var d.2) e)
  intro h cs ih d hd
  have hl : ∀ l : List Compiler.Expr, (∀ x ∈ l, x ∈ trL E cs) → d ∈ Compiler.depsL l →
      Has (.var d.2) (.node h cs) := by
    intro l hs hd
    obtain ⟨x, hx, hdx⟩ := mem_depsL.1 hd
    obtain ⟨c, hc, rfl⟩ := mem_trL (hs x hx)
    exact has_node.2 (Or.inr ⟨c, hc, ih c hc d hdx⟩)
  cases h with
  | var x =>
    simp only [tr, Compiler.deps, List.mem_singleton] at hd
    subst hd
    exact has_node.2 (Or.inl rfl)
  | sum => simp only [tr, Compiler.deps] at hd; exact hl _ (fun _ h => h) hd
  | cse p s =>
    simp only [tr] at hd
    match htl : trL E cs with
    | [] => simp [htl, trCse, Compiler.deps, Compiler.depsL] at hd
    | [c] =>
      simp only [htl, trCse, Compiler.deps] at hd
      exact hl [c] (by simp [htl]) (by simpa [Compiler.depsL] using hd)
    | a :: b :: l =>
      simp only [htl, trCse, Compiler.deps] at hd
      exact hl _ (by simp [htl]) hd
  | intg g =>
    simp only [tr, Compiler.deps, List.mem_append] at hd
    rcases hd with hd | hd
    · exact hl _ (fun x hx => List.mem_of_mem_take hx) hd
    · exact hl _ (fun x hx => List.mem_of_mem_drop hx) hd
  | _ => simp only [tr, Compiler.deps] at hd; exact hl _ (fun _ h => h) hd

/-- every sub-expression of a translated expression is the translation of a sub-expression -/
theorem tr_subs (E : Enc) : ∀ e s, s ∈ Compiler.subs (tr E e) → ∃ e', Sub e e' ∧ s = tr E e' := by
  apply SE.ind (P := fun e => ∀ s, s ∈ Compiler.subs (tr E e) → ∃ e', Sub e e' ∧ s = tr E e')
  intro h cs ih s hs
  have hl : ∀ l : List Compiler.Expr, (∀ x ∈ l, x ∈ trL E cs) → s ∈ Compiler.subsL l →
      ∃ e', Sub (.node h cs) e' ∧ s = tr E e' := by
    intro l hsub hm
    obtain ⟨x, hx, hsx⟩ := mem_subsL.1 hm
    obtain ⟨c, hc, rfl⟩ := mem_trL (hsub x hx)
    obtain ⟨e', h1, h2⟩ := ih c hc s hsx
    exact ⟨e', .child hc h1, h2⟩
  have h0 : s = tr E (.node h cs) → ∃ e', Sub (.node h cs) e' ∧ s = tr E e' :=
    fun hh => ⟨_, .refl _, hh⟩
  cases h with
  | var x =>
    simp only [tr, Compiler.subs, List.mem_singleton] at hs
    exact h0 (by simp only [tr]; exact hs)
  | sum =>
    simp only [tr, Compiler.subs, List.mem_cons] at hs
    rcases hs with hs | hs
    · exact h0 (by simp only [tr]; exact hs)
    · exact hl _ (fun _ h => h) hs
  | cse p sc =>
    simp only [tr] at hs
    match htl : trL E cs with
    | [] =>
      simp [htl, trCse, Compiler.subs, Compiler.subsL] at hs
      exact h0 (by simp only [tr, htl, trCse]; exact hs)
    | [c] =>
      simp only [htl, trCse, Compiler.subs, List.mem_cons] at hs
      rcases hs with hs | hs
      · exact h0 (by simp only [tr, htl, trCse]; exact hs)
      · exact hl [c] (by simp [htl]) (by simpa [Compiler.subsL] using hs)
    | a :: b :: l =>
      simp only [htl, trCse, Compiler.subs, List.mem_cons] at hs
      rcases hs with hs | hs
      · exact h0 (by simp only [tr, htl, trCse]; exact hs)
      · exact hl _ (by simp [htl]) hs
  | intg g =>
    simp only [tr, Compiler.subs, List.mem_cons, List.mem_append] at hs
    rcases hs with hs | hs | hs
    · exact h0 (by simp only [tr]; exact hs)
    · exact hl _ (fun x hx => List.mem_of_mem_take hx) hs
    · exact hl _ (fun x hx => List.mem_of_mem_drop hx) hs
  | _ =>
    simp only [tr, Compiler.subs, List.mem_cons] at hs
    rcases hs with hs | hs
    · exact h0 (by simp only [tr]; exact hs)
    · exact hl _ (fun _ h => h) hs

theorem noAvg_sub {e e' : SE} (h : Sub e e') : NoAvg e → NoAvg e' := by
  induction h with
  | refl => exact fun h => h
  | child hc _ ih =>
    intro hn
    simp only [NoAvg, AllIntG] at hn
    exact ih (allIntGL_iff.1 hn.2 _ hc)

theorem tr_okNode (E : Enc) (h : Head) (cs : List SE) (hg : NodeOk h cs) (hn : NoAvg (.node h cs)) :
    Compiler.OkNode (tr E (.node h cs)) := by
  cases h with
  | sum =>
    simp only [tr, Compiler.OkNode, NodeOk] at hg ⊢
    rw [trL_eq]
    intro h0
    exact hg (List.map_eq_nil_iff.1 h0)
  | cse p s =>
    simp only [NodeOk] at hg
    obtain ⟨c, rfl⟩ := List.length_eq_one_iff.1 hg.1
    simp only [tr, trL, trCse, Compiler.OkNode]
    intro hs
    refine tr_ops E c (hg.2 ?_ c (by simp))
    intro h0
    exact hs (by simp [trScope, h0])
  | intg g =>
    simp only [NoAvg, AllIntG] at hn
    have ha := hn.1 g rfl
    simp only [NodeOk] at hg
    have hlen : (trL E cs).length = cs.length := by rw [trL_eq, List.length_map]
    simp only [tr, Compiler.OkNode, trG]
    refine ⟨?_, hg.1, ?_, ?_⟩
    · cases hlim : g.lim <;> simp [trLim]
      exact ha hlim
    · rw [List.length_take, hlen]; omega
    · rw [List.length_drop, hlen]; omega
  | _ => simp [tr, Compiler.OkNode]

theorem tr_wf (E : Enc) (e : SE) (hg : Good e) (hn : NoAvg e) : Compiler.WF (tr E e) := by
  intro s hs
  obtain ⟨e', h1, rfl⟩ := tr_subs E e s hs
  obtain ⟨h, cs⟩ := e'
  exact tr_okNode E h cs (hg h cs h1) (noAvg_sub h1 hn)

theorem sub_trans {a b c : SE} (h : Sub a b) (h' : Sub b c) : Sub a c := by
  induction h with
  | refl => exact h'
  | child hc _ ih => exact .child hc (ih h')

theorem tr_cse (E : Enc) (e : SE) (p : Option String) (sc : Compiler.Scope) (c : Compiler.Expr)
    (h : tr E e = .cse p sc c) : ∃ s cs, e = .node (.cse p s) cs := by
  obtain ⟨hd, cs⟩ := e
  cases hd with
  | cse p' s =>
    simp only [tr] at h
    match htl : trL E cs with
    | [] => simp [htl, trCse] at h
    | [c'] =>
      simp only [htl, trCse, Compiler.Expr.cse.injEq] at h
      exact ⟨s, cs, by rw [h.1]⟩
    | a :: b :: l => simp [htl, trCse] at h
  | _ => simp [tr] at h

theorem tr_noClash (E : Enc) (e : SE) (h : NoClash e) : Compiler.NoClash (tr E e) := by
  intro x hx hgen
  obtain ⟨d, hd, rfl⟩ := List.mem_map.1 hx
  refine h d.2 (tr_deps E e d hd) ?_
  rcases hgen with hi | ⟨p, sc, c, hm, hp⟩
  · exact Or.inl hi
  · right
    obtain ⟨e', h1, h2⟩ := tr_subs E e _ hm
    obtain ⟨s, cs, rfl⟩ := tr_cse E e' _ _ _ h2.symm
    exact ⟨p, ⟨_, cs, h1, rfl⟩, hp⟩

theorem noClash_keeps {e e' : SE} (hk : Keeps e e') (h : NoClash e) : NoClash e' := by
  intro x hx hc
  refine h x (hk.1 _ hx) ?_
  rcases hc with hc | ⟨p, hp, hc⟩
  · exact Or.inl hc
  · exact Or.inr ⟨p, hk.1 _ hp, hc⟩

/-! ### `'avg'` is gone -/

theorem plainAvg_expand (ns : List Obj) : ∀ e,
    AllIntG (fun g => g.src.geometry ∉ ns → g.lim ≠ .avg) e →
    AllIntG (fun g => g.src.geometry ∉ ns → g.lim ≠ .avg) (expand ns e) := by
  apply SE.ind
  intro h cs ih he
  simp only [AllIntG] at he
  have hl : AllIntGL (fun g => g.src.geometry ∉ ns → g.lim ≠ .avg) (expandL ns cs) := by
    rw [expandL_eq]
    refine allIntGL_iff.2 fun c hc => ?_
    obtain ⟨d, hd, rfl⟩ := List.mem_map.1 hc
    exact ih d hd (allIntGL_iff.1 he.2 d hd)
  cases h with
  | intg g =>
    simp only [expand]
    split
    · rename_i hg
      simp only [meanOf, AllIntG, AllIntGL]
      refine ⟨by simp, ⟨by simp, trivial⟩, ⟨by simp, ⟨?_, hl⟩, ⟨?_, hl⟩, trivial⟩, trivial⟩ <;>
      · intro g' hg'
        cases hg'
        intro h; exact absurd hg.1 h
    · exact ⟨he.1, hl⟩
  | _ => simp only [expand, AllIntG]; exact ⟨he.1, hl⟩

theorem noAvg_expand (ns : List Obj) (e : SE)
    (h : AllIntG (fun g => g.src.geometry ∉ ns → g.lim ≠ .avg) e) : NoAvg (expand ns e) := by
  have h1 := (no_avg_expand ns e).and _ (plainAvg_expand ns e h)
  refine h1.mono (fun g hg => ?_) _
  by_cases hm : g.src.geometry ∈ ns
  · exact hg.1 hm
  · exact hg.2 hm

theorem tgtStage_lim (g : IG) : (tgtStage g).lim = g.lim := by
  unfold tgtStage; split <;> rfl

theorem noAvg_interpPre (pl : List (Obj × PlaceKind)) : ∀ e, NoAvg e → ∀ tg e',
    interpPre pl tg e = .ok e' → NoAvg e' := by
  apply SE.ind
  intro h cs ih hn tg e' he
  have hn' := hn
  simp only [NoAvg, AllIntG] at hn'
  obtain ⟨n1, n2⟩ := hn'
  have hl : ∀ l l' : List SE, (∀ c ∈ l, c ∈ cs) → interpPreL pl tg l = .ok l' →
      AllIntGL (fun g => g.lim ≠ .avg) l' := by
    intro l
    induction l with
    | nil => intro l' _ h; simp only [interpPreL, Except.ok.injEq] at h; subst h; trivial
    | cons c l ihl =>
      intro l' hs h
      simp only [interpPreL] at h
      split at h
      · cases h
      · rename_i c' hc'
        split at h
        · cases h
        · rename_i l'' hl''
          simp only [Except.ok.injEq] at h; subst h
          exact ⟨ih c (hs c (by simp)) (allIntGL_iff.1 n2 c (hs c (by simp))) tg c' hc',
            ihl _ (fun c hc => hs c (by simp [hc])) hl''⟩
  have ha : ∀ (l l' : List SE) d1 d2 t n, (∀ c ∈ l, c ∈ cs) → interpArgs pl tg d1 d2 t n l = .ok l' →
      AllIntGL (fun g => g.lim ≠ .avg) l' := by
    intro l
    induction l with
    | nil => intro l' _ _ _ _ _ h; simp only [interpArgs, Except.ok.injEq] at h; subst h; trivial
    | cons c l ihl =>
      intro l' d1 d2 t n hs h
      simp only [interpArgs] at h
      split at h
      · cases h
      · rename_i c' hc'
        split at h
        · cases h
        · rename_i c'' hc''
          split at h
          · cases h
          · rename_i l'' hl''
            simp only [Except.ok.injEq] at h; subst h
            exact ⟨allIntG_interpolate
              (ih c (hs c (by simp)) (allIntGL_iff.1 n2 c (hs c (by simp))) _ c' hc') hc'',
              ihl _ _ _ _ _ (fun c hc => hs c (by simp [hc])) hl''⟩
  cases h with
  | nrd a dd =>
    simp only [interpPre] at he
    split at he
    · cases he; exact allIntG_stageTag _ _ hn
    · simp only [nrdPre] at he
      split at he
      · cases he; exact hn
      · split at he
        · cases he
        · split at he
          · exact allIntG_interpolate (allIntG_stageTag _ _ hn) he
          · cases he; exact hn
  | prop k dd =>
    simp only [interpPre, tagHd, Except.ok.injEq] at he
    subst he
    split
    · exact allIntG_stageTag _ _ hn
    · exact hn
  | intg g =>
    simp only [interpPre] at he
    split at he
    · cases he
    · cases he
      refine ⟨?_, ?_⟩
      · intro g' hg'; cases hg'; rw [tgtStage_lim]; exact n1 g rfl
      · split
        · exact allIntGL_stageTagL _ _ n2
        · exact n2
    · split at he
      · cases he
      · rename_i cs' hcs
        cases he
        refine ⟨?_, ha cs _ _ _ _ _ (fun _ h => h) hcs⟩
        intro g' hg'; cases hg'
        show (tgtStage g).lim ≠ .avg
        rw [tgtStage_lim]; exact n1 g rfl
  | _ =>
    simp only [interpPre] at he
    split at he
    · cases he
    · rename_i cs' hcs
      cases he
      exact ⟨by simp, hl cs cs' (fun _ h => h) hcs⟩

/-! ### Preparation -/

/-- a collection without unregularized sources, or an expression that requests no limits (C14: with an
unregularized source the limits of all potentials are refused or dropped) -/
def UnregOk (pl : List (Obj × PlaceKind)) (e : SE) : Prop :=
  (∀ p ∈ pl, p.2 ≠ .unregularized) ∨ AllIntG (fun g => g.lim = .none) e

theorem prepLoop_ok {pl : List (Obj × PlaceKind)} {e : SE} (hu : UnregOk pl e) (S T : DD) (b : Bool) :
    prepLoop pl (placed S T b e) = prepQBX (qbxNames pl) (placed S T b e) := by
  rcases hu with h | h
  · exact prepLoop_eq pl _ h
  · exact prepLoop_unlimited pl _ (placed_unlimited S T e b h)

/-- Restrictions on expressions, each with its own property: no interpolation between equal places
(C11), nested layer potentials share their source (C12), `'avg'` is used with QBX sources only
(C13). -/
structure Plain (pl : List (Obj × PlaceKind)) (S T : DD) (e : SE) : Prop where
  collapse : NoCollapse S e
  nest : HomNest (placed S T false e)
  avg : AllIntG (fun g => g.src.geometry ∉ qbxNames pl → g.lim ≠ .avg) (placed S T false e)

theorem prepare_inv {pl : List (Obj × PlaceKind)} {S T : DD} {e e' : SE} (hu : UnregOk pl e)
    (hp : Plain pl S T e) (h : prepare pl S T e = .ok e') :
    AllIntG (OkOn (qbxNames pl)) (placed S T false e) ∧
      interpPre pl false (expand (qbxNames pl) (placed S T false e)) = .ok e' := by
  simp only [prepare, toTag_placed e hp.collapse, prepLoop_ok hu] at h
  obtain ⟨h1, h2⟩ := prepQBX_spec (qbxNames pl) _ hp.nest
  by_cases hok : AllIntG (OkOn (qbxNames pl)) (placed S T false e)
  · rw [h1 hok] at h; exact ⟨hok, h⟩
  · rw [h2 hok] at h; cases h

/-- every variable has a value and no operation or layer potential fails -/
structure Total (I : Compiler.Interp V) (ctx : Compiler.Ctx V) (e : SE) : Prop where
  var : ∀ x, Has (.var x) e → ∃ v, ctx x = some v
  op : ∀ f vs, ∃ v, I.op f vs = some v
  pot : ∀ src p k tk tgt lim, ∃ v, I.pot src p k tk tgt lim = some v

theorem allSome_some : ∀ l : List (Option V), (∀ x ∈ l, ∃ v, x = some v) → ∃ m, allSome l = some m
  | [], _ => ⟨[], rfl⟩
  | x :: l, h => by
    obtain ⟨v, rfl⟩ := h x (by simp)
    obtain ⟨m, hm⟩ := allSome_some l (fun y hy => h y (by simp [hy]))
    exact ⟨v :: m, by simp [allSome, hm]⟩

theorem den_total (E : Enc) (I : Compiler.Interp V) (ctx : Compiler.Ctx V) : ∀ e, NoAvg e →
    Total I ctx e → ∃ v, Compiler.den I ctx (tr E e) = some v := by
  apply SE.ind
  intro h cs ih hn ht
  have hn' := hn
  simp only [NoAvg, AllIntG] at hn'
  have hc : ∀ x ∈ (trL E cs).map (Compiler.den I ctx), ∃ v, x = some v := by
    intro x hx
    rw [trL_eq, List.map_map] at hx
    obtain ⟨c, hcm, rfl⟩ := List.mem_map.1 hx
    exact ih c hcm (allIntGL_iff.1 hn'.2 c hcm)
      ⟨fun x hx => ht.var x (has_node.2 (Or.inr ⟨c, hcm, hx⟩)), ht.op, ht.pot⟩
  obtain ⟨m, hm⟩ := allSome_some _ hc
  cases h with
  | var x =>
    simp only [tr, Compiler.den]
    exact ht.var x (has_node.2 (Or.inl rfl))
  | sum => simp only [tr, Compiler.den, denL_eq, hm]; exact ⟨_, rfl⟩
  | cse p s =>
    simp only [tr]
    match htl : trL E cs with
    | [] => simp [trCse, Compiler.den, Compiler.denL, ht.op]
    | [c] =>
      rw [htl] at hc
      simp only [trCse, Compiler.den]
      exact hc _ (by simp)
    | a :: b :: l =>
      rw [htl] at hm
      simp only [trCse, Compiler.den, denL_eq, hm]
      exact ht.op _ _
  | intg g =>
    simp only [tr, Compiler.den, denL_eq, List.map_take, List.map_drop]
    obtain ⟨a, ha⟩ := allSome_some (((trL E cs).map (Compiler.den I ctx)).take g.nd)
      (fun x hx => hc x (List.mem_of_mem_take hx))
    obtain ⟨b, hb⟩ := allSome_some (((trL E cs).map (Compiler.den I ctx)).drop g.nd)
      (fun x hx => hc x (List.mem_of_mem_drop hx))
    simp only [ha, hb]
    exact ht.pot _ _ _ _ _ _
  | _ =>
    simp only [tr, Compiler.den, denL_eq, hm]
    exact ht.op _ _

theorem has_sub {k : Key} {e e' : SE} (hs : Sub e e') (h : Has k e') : Has k e := by
  obtain ⟨h', cs, h1, h2⟩ := h
  exact ⟨h', cs, sub_trans hs h1, h2⟩

theorem total_keeps {I : Compiler.Interp V} {ctx : Compiler.Ctx V} {e e' : SE}
    (h : ∀ k, Has k e' → Has k e) (ht : Total I ctx e) : Total I ctx e' :=
  ⟨fun x hx => ht.var x (h _ hx), ht.op, ht.pot⟩

theorem allDefined_total (E : Enc) (I : Compiler.Interp V) (ctx : Compiler.Ctx V) (e : SE)
    (hn : NoAvg e) (ht : Total I ctx e) : Compiler.AllDefined I ctx (tr E e) := by
  intro s hs
  obtain ⟨e', h1, rfl⟩ := tr_subs E e s hs
  exact den_total E I ctx e' (noAvg_sub h1 hn) (total_keeps (fun k => has_sub h1) ht)

/-! ## Theorems -/

/-- **C76**: whenever the preparation succeeds, evaluating the bound expression gives the meaning of
the expression with its locations filled in — if every sub-expression of the prepared expression
has a value.  Partial: expressions outside of `Plain` and `NoClash` have other outcomes (C02, C11,
C12, C13), and unregularized sources are left out. -/
theorem C76_bind_partial (E : Enc) (c : Compiler.Cfg) (I : Compiler.Interp V)
    (pl : List (Obj × PlaceKind)) (S T : DD) (e e' : SE) (ctx : Compiler.Ctx V)
    (cc : Compiler.Cache V) (hc : Compiler.CfgOk c) (hI : Compiler.Lawful I)
    (hcc : Compiler.CacheValid I ctx cc) (hu : UnregOk pl e) (hp : Plain pl S T e) (hg : Good e)
    (hn : NoClash e) (hok : prepare pl S T e = .ok e')
    (hd : Compiler.AllDefined I ctx (tr E e')) :
    ∃ v, meaning (mean E I ctx) pl false (placed S T false e) = some v ∧
      bindEval E c I pl S T e ctx cc = .ok v := by
  obtain ⟨_, h2⟩ := prepare_inv hu hp hok
  have hk : Keeps e e' := ((placed_keeps S T e false).trans (expand_keeps _ _)).trans
    (interpPre_keeps pl _ _ _ h2)
  have hna : NoAvg e' := noAvg_interpPre pl _ (noAvg_expand _ _ hp.avg) _ _ h2
  obtain ⟨v, ctx', cc', h3, h4, _⟩ := Compiler.C01_bound_eval c I (tr E e') ctx cc hc hI
    (tr_wf E e' (hk.2 hg) hna) (tr_noClash E e' (noClash_keeps hk hn)) hd hcc
  refine ⟨v, ?_, ?_⟩
  · rw [← meaning_expand (mean E I ctx) pl (qbxNames pl), ← interpPre_value _ pl _ _ _ h2,
      ← tr_den E I ctx e' hna, h3]
  · simp only [bindEval, hok, h4]

/-- **C76**: if no operation can fail and every variable of the expression is given, then the value
exists and is what `bind` and evaluation return. -/
theorem C76_total_partial (E : Enc) (c : Compiler.Cfg) (I : Compiler.Interp V)
    (pl : List (Obj × PlaceKind)) (S T : DD) (e e' : SE) (ctx : Compiler.Ctx V)
    (cc : Compiler.Cache V) (hc : Compiler.CfgOk c) (hI : Compiler.Lawful I)
    (hcc : Compiler.CacheValid I ctx cc) (hu : UnregOk pl e) (hp : Plain pl S T e) (hg : Good e)
    (hn : NoClash e) (ht : Total I ctx e) (hok : prepare pl S T e = .ok e') :
    ∃ v, meaning (mean E I ctx) pl false (placed S T false e) = some v ∧
      bindEval E c I pl S T e ctx cc = .ok v := by
  obtain ⟨_, h2⟩ := prepare_inv hu hp hok
  have hk : Keeps e e' := ((placed_keeps S T e false).trans (expand_keeps _ _)).trans
    (interpPre_keeps pl _ _ _ h2)
  have hna : NoAvg e' := noAvg_interpPre pl _ (noAvg_expand _ _ hp.avg) _ _ h2
  exact C76_bind_partial E c I pl S T e e' ctx cc hc hI hcc hu hp hg hn hok
    (allDefined_total E I ctx e' hna (total_keeps hk.1 ht))

/-- **C76**: the result does not depend on the caches of the collection, on the order in which the
compiler schedules statements or iterates over sets, or on the names it generates. -/
theorem C76_schedule (E : Enc) (c c' : Compiler.Cfg) (I : Compiler.Interp V)
    (pl : List (Obj × PlaceKind)) (S T : DD) (e : SE) (ctx : Compiler.Ctx V)
    (cc cc' : Compiler.Cache V) (hc : Compiler.CfgOk c) (hc' : Compiler.CfgOk c')
    (hI : Compiler.Lawful I) (hcc : Compiler.CacheValid I ctx cc)
    (hcc' : Compiler.CacheValid I ctx cc') (hu : UnregOk pl e) (hp : Plain pl S T e) (hg : Good e)
    (hn : NoClash e) (ht : Total I ctx e) :
    bindEval E c I pl S T e ctx cc = bindEval E c' I pl S T e ctx cc' := by
  cases hok : prepare pl S T e with
  | error x => simp only [bindEval, hok]
  | ok e' =>
    obtain ⟨v, h1, h2⟩ := C76_total_partial E c I pl S T e e' ctx cc hc hI hcc hu hp hg hn ht hok
    obtain ⟨w, h3, h4⟩ := C76_total_partial E c' I pl S T e e' ctx cc' hc' hI hcc' hu hp hg hn ht hok
    rw [h1] at h3
    cases h3
    rw [h2, h4]

/-- **C76**: a layer potential on a QBX source whose limit does not fit its target makes `bind`
raise `ValueError`, wherever it occurs in the expression. -/
theorem C76_limits (E : Enc) (c : Compiler.Cfg) (I : Compiler.Interp V)
    (pl : List (Obj × PlaceKind)) (S T : DD) (e : SE) (ctx : Compiler.Ctx V)
    (cc : Compiler.Cache V) (hu : UnregOk pl e) (hp : Plain pl S T e)
    (hbad : ¬ AllIntG (fun g => g.src.geometry ∈ qbxNames pl → LimitOk g) (placed S T false e)) :
    bindEval E c I pl S T e ctx cc = .error (.prepare .value) := by
  have h2 := (prepQBX_spec (qbxNames pl) _ hp.nest).2 hbad
  simp only [bindEval, prepare, toTag_placed e hp.collapse, prepLoop_ok hu, h2]

/-! ### The hypotheses can be met -/

/-- `1/2` as an operation, products, interpolation (here: adding 1), coordinates -/
def exEnc : Enc where
  head h := match h with
    | .num _ => "half"
    | .prod => "mul"
    | .interp _ _ => "interp"
    | _ => "coord"
  kern k := match k with
    | .base s => s
    | _ => "other"
  place d := match d.stage with
    | some .stage1 => "stage1"
    | some .stage2 => "stage2"
    | some .quadStage2 => "quad"
    | none => "-"

/-- integers as values, with `2` in place of `1/2`; all operations are total -/
def exInt : Compiler.Interp Int where
  num n := n
  sub v i := some (v + i)
  op f l := some (match f with
    | "half" => 2
    | "mul" => l.prod
    | "interp" => l.sum + 1
    | _ => 10)
  truthy v := decide (v ≠ 0)
  zero := 0
  add := (· + ·)
  arr l := l.sum
  pot _ ps ks _ _ lim := some ((if lim = .m1 then 3 else 1) * (ps.map (fun p => p.2)).sum
    + (ks.map Prod.snd).sum)

theorem exInt_lawful : Compiler.Lawful exInt where
  zero_add v := by simp [exInt]
  pot_perm src p p' k k' tk tgt lim h h' := by
    simp only [exInt]
    rw [(h.map (fun p => p.2)).sum_eq, (h'.map Prod.snd).sum_eq]

/-- a collection with one QBX source -/
def exColl : List (Obj × PlaceKind) := [(.ident "q", .qbx), (.ident "t", .target)]

/-- its default location -/
def exD : DD := ⟨.ident "q", none, .node⟩

/-- `cse(D(sigma, arg=x_0; 'avg'), "u") + sigma`, with no location given -/
def exBind : SE := .node .sum
  [.node (.cse (some "u") "pymbolic_eval")
    [.node (.intg ⟨.base "D", ["G"], 1, .avg, ⟨.none, none, .node⟩,
        ⟨.none, none, .node⟩, ["arg"]⟩)
      [.node (.var "sigma") [], .node (.prop (.nodeCoord 0) ⟨.none, none, .node⟩) []]],
   .node (.var "sigma") []]

/-- the inputs -/
def exInputs : Compiler.Ctx Int := fun x => if x = "sigma" then some 5 else none

theorem exBind_good : Good exBind := by
  simp [exBind, good_node, NodeOk]

theorem exBind_var {x : String} (h : Has (.var x) exBind) : x = "sigma" := by
  simpa [exBind, has_node, key, eq_comm] using h

theorem exBind_pfx {p : String} (h : Has (.pfx p) exBind) : p = "u" := by
  simpa [exBind, has_node, key, eq_comm] using h

theorem exBind_noClash : NoClash exBind := by
  intro x hx hc
  have hx := exBind_var hx
  subst hx
  rcases hc with ⟨i, hi⟩ | ⟨p, hp, h | ⟨i, hi⟩⟩
  · exact Compiler.toString_nat_ne hi 's' (by decide +kernel) (by decide +kernel) (by decide +kernel)
  · rw [exBind_pfx hp] at h; exact absurd h (by decide)
  · rw [exBind_pfx hp] at hi
    exact Compiler.toString_nat_ne hi 's' (by decide +kernel) (by decide +kernel) (by decide +kernel)

theorem exBind_total : Total exInt exInputs exBind :=
  ⟨fun x hx => ⟨5, by simp [exInputs, exBind_var hx]⟩, fun _ _ => ⟨_, rfl⟩, fun _ _ _ _ _ _ => ⟨_, rfl⟩⟩

theorem exBind_plain : Plain exColl exD exD exBind := by
  refine ⟨?_, ?_, ?_⟩
  · intro f t cs hs
    exfalso
    have hi : ∀ f t cs e, Sub e (.node (.interp f t) cs) →
        e.head = .interp f t ∨ ∃ c ∈ e.children, Sub c (.node (.interp f t) cs) := by
      intro f t cs e h
      cases h with
      | refl => exact Or.inl rfl
      | child hc h => exact Or.inr ⟨_, hc, h⟩
    rcases hi f t cs _ hs with h | ⟨c, hc, h⟩
    · cases h
    · simp only [exBind, SE.children, List.mem_cons, List.not_mem_nil, or_false] at hc
      rcases hc with rfl | rfl
      · rcases hi f t cs _ h with h | ⟨c, hc, h⟩
        · cases h
        · simp only [SE.children, List.mem_cons, List.not_mem_nil, or_false] at hc
          subst hc
          rcases hi f t cs _ h with h | ⟨c, hc, h⟩
          · cases h
          · simp only [SE.children, List.mem_cons, List.not_mem_nil, or_false] at hc
            rcases hc with rfl | rfl <;>
            · rcases hi f t cs _ h with h | ⟨c, hc, h⟩
              · cases h
              · cases hc
      · rcases hi f t cs _ h with h | ⟨c, hc, h⟩
        · cases h
        · cases hc
  · simp [exBind, placed, placedL, retag, HomNest, HomNestL, AllIntG, AllIntGL]
  · refine ⟨by simp [retag], ?_⟩
    simp [placedL, placed, retag, AllIntG, AllIntGL, qbxNames, exColl]
    decide

/-- the hypotheses of `C76_total_partial` are met, and the value is
`2 ((5+1) + (10+1) + 3 (5+1) + (10+1)) + 5` -/
example : UnregOk exColl exBind ∧ Plain exColl exD exD exBind ∧ Good exBind ∧ NoClash exBind ∧
    Total exInt exInputs exBind ∧ (∃ e', prepare exColl exD exD exBind = .ok e') ∧
    meaning (mean exEnc exInt exInputs) exColl false (placed exD exD false exBind) = some 97 ∧
    (match bindEval exEnc Compiler.exCfg exInt exColl exD exD exBind exInputs [] with
      | .ok v => some v
      | .error _ => none) = some 97 := by
  refine ⟨Or.inl (fun p hp => by revert p; decide), exBind_plain, exBind_good, exBind_noClash, exBind_total, ⟨_, rfl⟩,
    by decide +kernel, by decide +kernel⟩

/-- and an unregularized source is admitted for potentials without limits -/
example : UnregOk [(.ident "u", .unregularized), (.ident "t", .target)] (.node (.intg ⟨.base "D", ["G"], 1, .none,
    ⟨.ident "u", none, .node⟩, ⟨.ident "t", none, .node⟩, []⟩) [.node (.var "sigma") []]) := by
  right
  simp [AllIntG, AllIntGL]

/-- the hypothesis of `C76_limits` is met by a potential on the surface without a limit -/
example : ¬ AllIntG (fun g => g.src.geometry ∈ qbxNames exColl → LimitOk g)
    (placed exD exD false (.node (.intg ⟨.base "D", ["G"], 1, .none, ⟨.none, none, .node⟩,
        ⟨.none, none, .node⟩, []⟩) [.node (.var "sigma") []])) := by
  intro h
  have := h.1 _ rfl (by decide)
  revert this
  simp [LimitOk]

end Verif.Bind
