import Verif.Compiler.Safe
import Verif.Compiler.Track

/-! Helper lemmas: executing compiled code can only fail because an operation raises;
which cache keys an execution can create. -/

namespace Verif.Compiler

variable {V : Type} {I : Interp V} {c : Cfg} {e0 : Expr}

mutual
theorem ev_safe {G : String → Prop} {ctx : Ctx V} : ∀ (e : Expr) (cc : Cache V) (x : XErr),
    RawOk G e → (∀ x ∈ varNames e, ∃ v, ctx x = some v) → ev I ctx e cc = .error x → x = .raised
  | .num n, cc, x, _, _, h => by simp [ev] at h
  | .var y, cc, x, _, hv, h => by
    obtain ⟨v, hy⟩ := hv y (by simp [varNames, deps])
    simp [ev, hy] at h
  | .nir y, cc, x, _, hv, h => by
    obtain ⟨v, hy⟩ := hv y (by simp [varNames, deps])
    simp [ev, hy] at h
  | .sub y i, cc, x, _, hv, h => by
    obtain ⟨v, hy⟩ := hv y (by simp [varNames, deps])
    simp only [ev, hy] at h
    split at h
    · simp at h
    · simpa using h.symm
  | .op f l, cc, x, hr, hv, h => by
    simp only [ev] at h
    split at h
    · rename_i y hy
      have := evL_safe l cc y hr (by simpa [varNames, deps] using hv) hy
      simp only [Except.error.injEq] at h
      exact h ▸ this
    · split at h
      · simp at h
      · simpa using h.symm
  | .ite a b d, cc, x, hr, hv, h => by
    simp only [ev] at h
    simp only [varNames, deps, List.map_append, List.mem_append] at hv
    split at h
    · rename_i y hy
      have := ev_safe a cc y hr.1 (fun x hx => hv x (Or.inl (Or.inl hx))) hy
      simp only [Except.error.injEq] at h
      exact h ▸ this
    · split at h
      · exact ev_safe b _ x hr.2.1 (fun x hx => hv x (Or.inl (Or.inr hx))) h
      · exact ev_safe d _ x hr.2.2 (fun x hx => hv x (Or.inr hx)) h
  | .sum l, cc, x, hr, hv, h => by
    simp only [ev] at h
    split at h
    · rename_i y hy
      have := evL_safe l cc y hr (by simpa [varNames, deps] using hv) hy
      simp only [Except.error.injEq] at h
      exact h ▸ this
    · simp at h
  | .arr l, cc, x, hr, hv, h => by
    simp only [ev] at h
    split at h
    · rename_i y hy
      have := evL_safe l cc y hr (by simpa [varNames, deps] using hv) hy
      simp only [Except.error.injEq] at h
      exact h ▸ this
    · simp at h
  | .cse p sc ch, cc, x, hr, hv, h => by
    simp only [ev] at h
    split at h
    · exact ev_safe ch cc x hr.1 (by simpa [varNames, deps] using hv) h
    · split at h
      · simp at h
      · split at h
        · rename_i y hy
          have := ev_safe ch cc y hr.1 (by simpa [varNames, deps] using hv) hy
          simp only [Except.error.injEq] at h
          exact h ▸ this
        · simp at h
  | .intg g d k, cc, x, hr, _, _ => by simp [RawOk] at hr
theorem evL_safe {G : String → Prop} {ctx : Ctx V} : ∀ (l : List Expr) (cc : Cache V) (x : XErr),
    RawOkL G l → (∀ x ∈ (depsL l).map Prod.snd, ∃ v, ctx x = some v) →
    evL I ctx l cc = .error x → x = .raised
  | [], cc, x, _, _, h => by simp [evL] at h
  | e :: l, cc, x, hr, hv, h => by
    simp only [evL] at h
    simp only [depsL, List.map_append, List.mem_append] at hv
    split at h
    · rename_i y hy
      have := ev_safe e cc y hr.1 (fun x hx => hv x (Or.inl hx)) hy
      simp only [Except.error.injEq] at h
      exact h ▸ this
    · split at h
      · rename_i y hy
        have := evL_safe l _ y hr.2 (fun x hx => hv x (Or.inr hx)) hy
        simp only [Except.error.injEq] at h
        exact h ▸ this
      · simp at h
end

theorem execOuts_safe (src : String) (pairs kargs : List (String × V)) (tks : List String) :
    ∀ (outs : List Out), (∀ o ∈ outs, ∃ tk, tks[o.tkIdx]? = some tk) →
      (∀ x, execOuts I src pairs kargs tks outs = .error x → x = .raised) ∧
      (∀ as, execOuts I src pairs kargs tks outs = .ok as → as.map Prod.fst = outs.map Out.name)
  | [], _ => by simp [execOuts]
  | o :: os, h => by
    obtain ⟨tk, htk⟩ := h o (by simp)
    obtain ⟨h1, h2⟩ := execOuts_safe src pairs kargs tks os (fun o ho => h o (by simp [ho]))
    constructor
    · intro x hx
      simp only [execOuts, htk] at hx
      split at hx
      · simpa using hx.symm
      · split at hx
        · rename_i y hy
          simp only [Except.error.injEq] at hx
          exact hx ▸ h1 y hy
        · simp at hx
    · intro as has
      simp only [execOuts, htk] at has
      split at has
      · simp at has
      · split at has
        · simp at has
        · rename_i r hr
          simp only [Except.ok.injEq] at has
          subst has
          simp [h2 r hr]

/-- index part of `CodeFacts` for one statement -/
def IdxOk (s : Stmt) : Prop := ∀ outs tks kn kv sks ds src p, s = .pot outs tks kn kv sks ds src p →
    ∀ o ∈ outs, ∃ tk, tks[o.tkIdx]? = some tk

theorem execStmt_safe {G : String → Prop} {ctx : Ctx V} (s : Stmt) (cc : Cache V)
    (hraw : StmtRaw G s) (hidx : IdxOk s) (hx : ∀ x ∈ s.depNames, ∃ v, ctx x = some v) :
    (∀ x, execStmt I ctx s cc = .error x → x = .raised) ∧
    (∀ as cc', execStmt I ctx s cc = .ok (as, cc') → as.map Prod.fst = s.assignees) := by
  cases s with
  | assign n e p =>
    obtain ⟨hr, hn⟩ := hraw
    have hv : ∀ x ∈ varNames e, ∃ v, ctx x = some v := by
      intro x hxe
      apply hx
      simp only [Stmt.depNames, Stmt.dependencies, varNames] at hxe ⊢
      obtain ⟨d, hd, rfl⟩ := List.mem_map.1 hxe
      refine List.mem_map.2 ⟨d, List.mem_filter.2 ⟨hd, ?_⟩, rfl⟩
      simp only [decide_eq_true_eq]
      intro hdn
      apply hn
      rw [← hdn]
      exact List.mem_map_of_mem hd
    constructor
    · intro x h
      simp only [execStmt] at h
      split at h
      · rename_i y hy
        simp only [Except.error.injEq] at h
        exact h ▸ ev_safe e cc y hr hv hy
      · simp at h
    · intro as cc' h
      simp only [execStmt] at h
      split at h
      · simp at h
      · simp only [Except.ok.injEq, Prod.mk.injEq] at h
        rw [← h.1]; simp [Stmt.assignees]
  | pot outs tks kn kv sks ds src p =>
    obtain ⟨hr1, hr2⟩ := hraw
    simp only [Stmt.depNames, Stmt.dependencies, List.map_append, List.mem_append] at hx
    have ho := fun pairs kargs => execOuts_safe (I := I) src pairs kargs tks outs (hidx _ _ _ _ _ _ _ _ rfl)
    constructor
    · intro x h
      simp only [execStmt] at h
      split at h
      · rename_i y hy
        simp only [Except.error.injEq] at h
        exact h ▸ evL_safe ds cc y hr1 (fun x hx' => hx x (Or.inl hx')) hy
      · split at h
        · rename_i y hy
          simp only [Except.error.injEq] at h
          exact h ▸ evL_safe kv _ y hr2 (fun x hx' => hx x (Or.inr hx')) hy
        · split at h
          · rename_i y hy
            simp only [Except.error.injEq] at h
            exact h ▸ (ho _ _).1 y hy
          · simp at h
    · intro as cc' h
      simp only [execStmt] at h
      split at h
      · simp at h
      · split at h
        · simp at h
        · split at h
          · simp at h
          · rename_i r hr
            simp only [Except.ok.injEq, Prod.mk.injEq] at h
            rw [← h.1]
            exact (ho _ _).2 r hr

theorem setAll_dom : ∀ (as : List (String × V)) (ctx : Ctx V) (y : String),
    ((∃ v, ctx y = some v) ∨ y ∈ as.map Prod.fst) → ∃ v, setAll ctx as y = some v
  | [], ctx, y, h => by simpa [setAll] using h
  | (x, v) :: l, ctx, y, h => by
    rw [setAll]
    apply setAll_dom
    by_cases hyx : y = x
    · exact Or.inl ⟨v, by simp [hyx]⟩
    · rcases h with ⟨w, h⟩ | h
      · exact Or.inl ⟨w, by simp [hyx, h]⟩
      · simp only [List.map_cons, List.mem_cons, hyx, false_or] at h
        exact Or.inr h

/-- Running the schedule of any well-formed statement list can only fail because
an operation raises. -/
theorem runSched_safe {G : String → Prop} (stmts : List Stmt) (res : List String)
    (hraw : ∀ s ∈ stmts, StmtRaw G s) (hidx : ∀ s ∈ stmts, IdxOk s) :
    ∀ (fuel : Nat) (avail : List String) (done : List Nat) (ctx : Ctx V) (cc : Cache V),
      (∀ x ∈ avail, ∃ v, ctx x = some v) →
      (∀ x, runSched I ((scheduleLoop stmts res fuel avail done).filterMap
          (fun p => (stmts[p.1]?).map (fun s => (s, p.2)))) ctx cc = .error x → x = .raised) ∧
      (∀ ctx' cc', runSched I ((scheduleLoop stmts res fuel avail done).filterMap
          (fun p => (stmts[p.1]?).map (fun s => (s, p.2)))) ctx cc = .ok (ctx', cc') →
        ∀ x ∈ res, ((∃ v, ctx x = some v) ∨
          x ∈ assignedBy stmts (scheduleLoop stmts res fuel avail done)) → ∃ v, ctx' x = some v) := by
  intro fuel
  induction fuel with
  | zero =>
    intro avail done ctx cc hav
    refine ⟨by simp [scheduleLoop, runSched], ?_⟩
    intro ctx' cc' h x _ hx
    simp only [scheduleLoop, List.filterMap_nil, runSched, Except.ok.injEq, Prod.mk.injEq] at h
    obtain ⟨rfl, rfl⟩ := h
    rcases hx with h | h
    · exact h
    · simp [scheduleLoop, assignedBy] at h
  | succ fuel ih =>
    intro avail done ctx cc hav
    unfold scheduleLoop
    split
    · refine ⟨by simp [runSched], ?_⟩
      intro ctx' cc' h x _ hx
      simp only [List.filterMap_nil, runSched, Except.ok.injEq, Prod.mk.injEq] at h
      obtain ⟨rfl, rfl⟩ := h
      rcases hx with h | h
      · exact h
      · simp [assignedBy] at h
    · rename_i i disc hstep
      have hnd : disc.Nodup := by
        unfold nextStep at hstep
        split at hstep
        · simp at hstep
        · simp only [Option.some.injEq, Prod.mk.injEq] at hstep
          rw [← hstep.2]; exact nodup_nub _
      obtain ⟨hi, hd, hdeps, hdisc, -⟩ := nextStep_spec hstep
      have hsi : stmts[i]? = some stmts[i] := List.getElem?_eq_getElem hi
      have hmem : stmts[i] ∈ stmts := List.getElem_mem hi
      have hdepsEq : depNamesAt stmts i = (stmts[i]).depNames := by simp [depNamesAt, hsi]
      have hasgEq : assigneesAt stmts i = (stmts[i]).assignees := by simp [assigneesAt, hsi]
      obtain ⟨ctx1, hdel, hctx1⟩ := delAll_ok disc ctx hnd
        (fun x hx => hav x ((hdisc x).1 hx).1)
      obtain ⟨hs1, hs2⟩ := execStmt_safe (I := I) (ctx := ctx1) stmts[i] cc (hraw _ hmem) (hidx _ hmem) (by
        intro x hx
        rw [← hdepsEq] at hx
        have hxd : x ∉ disc := fun hh =>
          ((hdisc x).1 hh).2.1 (mem_neededVars.2 ⟨i, ⟨hi, hd⟩, hx⟩)
        rw [hctx1]; simp only [hxd, if_false]; exact hav x (hdeps x hx))
      simp only [List.filterMap_cons, hsi, Option.map_some, runSched, hdel]
      cases hex : execStmt I ctx1 stmts[i] cc with
      | error y =>
        have := hs1 y hex
        subst this
        simp
      | ok p =>
        obtain ⟨as, cc1⟩ := p
        have has := hs2 as cc1 hex
        simp only
        obtain ⟨ih1, ih2⟩ := ih
          (avail.filter (fun x => x ∉ disc) ++ assigneesAt stmts i) (i :: done) (setAll ctx1 as) cc1
          (by
            intro x hx
            apply setAll_dom
            rw [hasgEq, ← has] at hx
            rcases List.mem_append.1 hx with h | h
            · obtain ⟨h1, h2⟩ := List.mem_filter.1 h
              simp only [decide_eq_true_eq] at h2
              left
              rw [hctx1]; simp only [h2, if_false]
              exact hav x h1
            · exact Or.inr h)
        refine ⟨ih1, ?_⟩
        intro ctx' cc' h x hxr hx
        apply ih2 ctx' cc' h x hxr
        simp only [assignedBy, List.flatMap_cons, List.mem_append] at hx ⊢
        rcases hx with h | h | h
        · left
          apply setAll_dom
          left
          rw [hctx1]
          have : x ∉ disc := fun hh => ((hdisc x).1 hh).2.2 hxr
          simp only [this, if_false]
          exact h
        · left
          apply setAll_dom
          right
          rw [has, ← hasgEq]; exact h
        · exact Or.inr h

/-- The emitted code of a well-formed expression. -/
theorem compile_facts (hc : CfgOk c) (hwf : WF e0) (hnc : NoClash e0) : ∃ stmts r reps st,
    compile c e0 = .ok (mkCode stmts r) ∧ CodeFacts e0 stmts r ∧ st.code = stmts ∧
    TInv c e0 st reps ∧ TGood c e0 reps stmts e0 r := by
  obtain ⟨r, st, ρ, h1, h2, h3⟩ := compile_inv (unit_hyp hc hwf hnc)
  obtain ⟨reps, h4, h5⟩ := compile_T hwf hnc hc h1
  exact ⟨st.code, r, reps, st, by simp [compile, h1], CodeFacts.of_inv h2 h3, rfl, h4, h5⟩

theorem execute_safe (hc : CfgOk c) (hwf : WF e0) (hnc : NoClash e0) (env : Ctx V) (cc : Cache V)
    (hinp : ∀ x ∈ varNames e0, ∃ v, env x = some v) :
    ∃ code, compile c e0 = .ok code ∧
      ∀ x, execute I code env cc = .error x → x = .raised := by
  obtain ⟨stmts, r, reps, st, h1, h2, -⟩ := compile_facts hc hwf hnc
  refine ⟨_, h1, ?_⟩
  have hin : ∀ x ∈ inputsOf stmts, ∃ v, env x = some v := fun x hx => hinp x (h2.inputs_user hx)
  have hfind : (mkCode stmts r).inputs.find? (fun x => (env x).isNone) = none := by
    rw [List.find?_eq_none]
    intro x hx
    obtain ⟨v, hv⟩ := hin x hx
    simp [hv]
  obtain ⟨hs1, hs2⟩ := runSched_safe (I := I) stmts ((deps r).map Prod.snd) h2.raw h2.idx
    (stmts.length + 1) (inputsOf stmts) [] env cc hin
  intro x hx
  simp only [execute, hfind] at hx
  split at hx
  · rename_i y hy
    simp only [Except.error.injEq] at hx
    exact hx ▸ hs1 y hy
  · rename_i ctx' cc' hy
    split at hx
    · rename_i y hy'
      simp only [Except.error.injEq] at hx
      subst hx
      refine ev_safe r cc' _ h2.resRaw ?_ hy'
      intro z hz
      apply hs2 ctx' cc' hy z hz
      obtain ⟨⟨b, w⟩, hd, rfl⟩ := List.mem_map.1 hz
      have hdep := h2.resDep _ hd
      cases b with
      | true =>
        simp only [DepOk, if_true] at hdep
        exact Or.inr (assignedBy_all h2 _ hdep)
      | false =>
        have hdep' : w ∈ varNames e0 := by simpa [DepOk, NotVar] using hdep
        exact Or.inl (hinp w hdep')
    · simp at hx

/-! ### cache keys -/

/-- cache keys an evaluation of `e` may create -/
def KeyOf (e : Expr) (k : Scope × Option String × Expr) : Prop :=
  k.1 ≠ .evaluation ∧ .cse k.2.1 k.1 k.2.2 ∈ subs e

mutual
theorem ev_keys {ctx : Ctx V} : ∀ (e : Expr) (cc cc' : Cache V) (v : V),
    ev I ctx e cc = .ok (v, cc') → ∀ p ∈ cc', p ∈ cc ∨ KeyOf e p.1
  | .num n, cc, cc', v, h => by
    simp only [ev, Except.ok.injEq, Prod.mk.injEq] at h; rw [← h.2]; intro p hp; exact Or.inl hp
  | .var y, cc, cc', v, h => by
    simp only [ev] at h
    split at h
    · simp only [Except.ok.injEq, Prod.mk.injEq] at h; rw [← h.2]; intro p hp; exact Or.inl hp
    · simp at h
  | .nir y, cc, cc', v, h => by
    simp only [ev] at h
    split at h
    · simp only [Except.ok.injEq, Prod.mk.injEq] at h; rw [← h.2]; intro p hp; exact Or.inl hp
    · simp at h
  | .sub y i, cc, cc', v, h => by
    simp only [ev] at h
    split at h
    · split at h
      · simp only [Except.ok.injEq, Prod.mk.injEq] at h; rw [← h.2]; intro p hp; exact Or.inl hp
      · simp at h
    · simp at h
  | .op f l, cc, cc', v, h => by
    simp only [ev] at h
    split at h
    · simp at h
    · rename_i vs cc1 hl
      split at h
      · simp only [Except.ok.injEq, Prod.mk.injEq] at h
        rw [← h.2]
        intro p hp
        rcases evL_keys l cc cc1 vs hl p hp with h | ⟨e, he, h⟩
        · exact Or.inl h
        · exact Or.inr ⟨h.1, by simp only [subs, List.mem_cons]; exact Or.inr (mem_subsL.2 ⟨e, he, h.2⟩)⟩
      · simp at h
  | .ite a b d, cc, cc', v, h => by
    simp only [ev] at h
    split at h
    · simp at h
    · rename_i va cc1 ha
      intro p hp
      have hA : ∀ p ∈ cc1, p ∈ cc ∨ KeyOf (.ite a b d) p.1 := by
        intro p hp
        rcases ev_keys a cc cc1 va ha p hp with h | h
        · exact Or.inl h
        · exact Or.inr ⟨h.1, by simp only [subs, List.mem_cons, List.mem_append]; exact Or.inr (Or.inl (Or.inl h.2))⟩
      split at h
      · rcases ev_keys b cc1 cc' v h p hp with h | h
        · exact hA p h
        · exact Or.inr ⟨h.1, by simp only [subs, List.mem_cons, List.mem_append]; exact Or.inr (Or.inl (Or.inr h.2))⟩
      · rcases ev_keys d cc1 cc' v h p hp with h | h
        · exact hA p h
        · exact Or.inr ⟨h.1, by simp only [subs, List.mem_cons, List.mem_append]; exact Or.inr (Or.inr h.2)⟩
  | .sum l, cc, cc', v, h => by
    simp only [ev] at h
    split at h
    · simp at h
    · rename_i vs cc1 hl
      simp only [Except.ok.injEq, Prod.mk.injEq] at h
      rw [← h.2]
      intro p hp
      rcases evL_keys l cc cc1 vs hl p hp with h | ⟨e, he, h⟩
      · exact Or.inl h
      · exact Or.inr ⟨h.1, by simp only [subs, List.mem_cons]; exact Or.inr (mem_subsL.2 ⟨e, he, h.2⟩)⟩
  | .arr l, cc, cc', v, h => by
    simp only [ev] at h
    split at h
    · simp at h
    · rename_i vs cc1 hl
      simp only [Except.ok.injEq, Prod.mk.injEq] at h
      rw [← h.2]
      intro p hp
      rcases evL_keys l cc cc1 vs hl p hp with h | ⟨e, he, h⟩
      · exact Or.inl h
      · exact Or.inr ⟨h.1, by simp only [subs, List.mem_cons]; exact Or.inr (mem_subsL.2 ⟨e, he, h.2⟩)⟩
  | .cse q sc ch, cc, cc', v, h => by
    simp only [ev] at h
    have up : ∀ k, KeyOf ch k → KeyOf (.cse q sc ch) k := fun k hk =>
      ⟨hk.1, by simp only [subs, List.mem_cons]; exact Or.inr hk.2⟩
    split at h
    · intro p hp
      rcases ev_keys ch cc cc' v h p hp with h | h
      · exact Or.inl h
      · exact Or.inr (up _ h)
    · rename_i hsc
      split at h
      · simp only [Except.ok.injEq, Prod.mk.injEq] at h; rw [← h.2]; intro p hp; exact Or.inl hp
      · split at h
        · simp at h
        · rename_i w cc1 hch
          simp only [Except.ok.injEq, Prod.mk.injEq] at h
          rw [← h.2]
          intro p hp
          rcases List.mem_cons.1 hp with hp | hp
          · subst hp
            exact Or.inr ⟨hsc, by simp [subs]⟩
          · rcases ev_keys ch cc cc1 w hch p hp with h | h
            · exact Or.inl h
            · exact Or.inr (up _ h)
  | .intg g d k, cc, cc', v, h => by simp [ev] at h
theorem evL_keys {ctx : Ctx V} : ∀ (l : List Expr) (cc cc' : Cache V) (vs : List V),
    evL I ctx l cc = .ok (vs, cc') → ∀ p ∈ cc', p ∈ cc ∨ ∃ e ∈ l, KeyOf e p.1
  | [], cc, cc', vs, h => by
    simp only [evL, Except.ok.injEq, Prod.mk.injEq] at h; rw [← h.2]; intro p hp; exact Or.inl hp
  | e :: l, cc, cc', vs, h => by
    simp only [evL] at h
    split at h
    · simp at h
    · rename_i w cc1 he
      split at h
      · simp at h
      · rename_i ws cc2 hl
        simp only [Except.ok.injEq, Prod.mk.injEq] at h
        rw [← h.2]
        intro p hp
        rcases evL_keys l cc1 cc2 ws hl p hp with h | ⟨e', he', h⟩
        · rcases ev_keys e cc cc1 w he p h with h | h
          · exact Or.inl h
          · exact Or.inr ⟨e, by simp, h⟩
        · exact Or.inr ⟨e', by simp [he'], h⟩
end

theorem execStmt_keys {ctx : Ctx V} {s : Stmt} {cc cc' : Cache V} {as : List (String × V)}
    (h : execStmt I ctx s cc = .ok (as, cc')) :
    ∀ p ∈ cc', p ∈ cc ∨ ∃ e ∈ stmtExprs s, KeyOf e p.1 := by
  cases s with
  | assign n e pr =>
    simp only [execStmt] at h
    split at h
    · simp at h
    · rename_i v cc1 he
      simp only [Except.ok.injEq, Prod.mk.injEq] at h
      rw [← h.2]
      intro p hp
      rcases ev_keys e cc cc1 v he p hp with h | h
      · exact Or.inl h
      · exact Or.inr ⟨e, by simp [stmtExprs], h⟩
  | pot outs tks kn kv sks ds src pr =>
    simp only [execStmt] at h
    split at h
    · simp at h
    rename_i dv cc1 hd
    split at h
    · simp at h
    rename_i kvv cc2 hk
    split at h
    · simp at h
    simp only [Except.ok.injEq, Prod.mk.injEq] at h
    rw [← h.2]
    intro p hp
    rcases evL_keys kv cc1 cc2 kvv hk p hp with h | ⟨e, he, h⟩
    · rcases evL_keys ds cc cc1 dv hd p h with h | ⟨e, he, h⟩
      · exact Or.inl h
      · exact Or.inr ⟨e, by simp [stmtExprs, he], h⟩
    · exact Or.inr ⟨e, by simp [stmtExprs, he], h⟩

theorem runSched_keys : ∀ (sched : List (Stmt × List String)) (ctx ctx' : Ctx V) (cc cc' : Cache V),
    runSched I sched ctx cc = .ok (ctx', cc') →
    ∀ p ∈ cc', p ∈ cc ∨ ∃ s ∈ sched, ∃ e ∈ stmtExprs s.1, KeyOf e p.1
  | [], ctx, ctx', cc, cc', h => by
    simp only [runSched, Except.ok.injEq, Prod.mk.injEq] at h
    rw [← h.2]; intro p hp; exact Or.inl hp
  | (s, disc) :: l, ctx, ctx', cc, cc', h => by
    simp only [runSched] at h
    split at h
    · simp at h
    split at h
    · simp at h
    rename_i as cc1 hs
    intro p hp
    rcases runSched_keys l _ ctx' cc1 cc' h p hp with h | ⟨s', hs', h⟩
    · rcases execStmt_keys hs p h with h | h
      · exact Or.inl h
      · exact Or.inr ⟨(s, disc), by simp, h⟩
    · exact Or.inr ⟨s', by simp [hs'], h⟩

theorem execute_keys {code : Code} {ctx ctx' : Ctx V} {cc cc' : Cache V} {v : V}
    (h : execute I code ctx cc = .ok (v, ctx', cc')) :
    ∀ p ∈ cc', p ∈ cc ∨ KeyOf code.result p.1 ∨
      ∃ s ∈ code.schedule, ∃ e ∈ stmtExprs s.1, KeyOf e p.1 := by
  simp only [execute] at h
  split at h
  · simp at h
  split at h
  · simp at h
  rename_i ctx1 cc1 hr
  split at h
  · simp at h
  rename_i w cc2 he
  simp only [Except.ok.injEq, Prod.mk.injEq] at h
  rw [← h.2.2]
  intro p hp
  rcases ev_keys _ _ _ _ he p hp with h | h
  · rcases runSched_keys _ _ _ _ _ hr p h with h | h
    · exact Or.inl h
    · exact Or.inr (Or.inr h)
  · exact Or.inr (Or.inl h)

/-- cache keys created by executing compiled code come from the CSEs of the expression -/
theorem compile_keys (hc : CfgOk c) (hwf : WF e0) (hnc : NoClash e0) {code : Code}
    (hcode : compile c e0 = .ok code) {ctx ctx' : Ctx V} {cc cc' : Cache V} {v : V}
    (h : execute I code ctx cc = .ok (v, ctx', cc')) :
    ∀ p ∈ cc', p ∈ cc ∨ KeyOf e0 p.1 := by
  obtain ⟨stmts, r, reps, st, h1, -, h3, h4, h5⟩ := compile_facts hc hwf hnc
  rw [h1, Except.ok.injEq] at hcode
  subst hcode
  intro p hp
  rcases execute_keys h p hp with h | h | ⟨s, hs, e, he, h⟩
  · exact Or.inl h
  · exact Or.inr ⟨h.1, h5.cse _ h.2 (by simp [isCse])⟩
  · simp only [mkCode, List.mem_filterMap, Option.map_eq_some_iff] at hs
    obtain ⟨q, -, s', hs', rfl⟩ := hs
    have : s' ∈ st.code := h3 ▸ getElem?_mem hs'
    exact Or.inr ⟨h.1, h4.cse s' this e he _ h.2 (by simp [isCse])⟩

end Verif.Compiler
