import Verif.Compiler.Schedule

/-! Helper lemmas about direct evaluation `den` and the evaluator `ev`. -/

namespace Verif.Compiler

variable {V : Type}

mutual
theorem den_congr (I : Interp V) {ρ ρ' : Ctx V} : ∀ (e : Expr),
    (∀ x ∈ varNames e, ρ x = ρ' x) → den I ρ e = den I ρ' e
  | .num _, _ => by simp [den]
  | .var x, h => by simpa [den] using h x (by simp [varNames, deps])
  | .nir x, h => by simpa [den] using h x (by simp [varNames, deps])
  | .sub x _, h => by simp [den, h x (by simp [varNames, deps])]
  | .op f l, h => by
    simp only [den]; rw [denL_congr I l (by simpa [varNames, deps] using h)]
  | .ite c a b, h => by
    simp only [varNames, deps, List.map_append, List.mem_append] at h
    simp only [den]
    rw [den_congr I c (fun x hx => h x (Or.inl (Or.inl hx))),
      den_congr I a (fun x hx => h x (Or.inl (Or.inr hx))),
      den_congr I b (fun x hx => h x (Or.inr hx))]
  | .sum l, h => by
    simp only [den]; rw [denL_congr I l (by simpa [varNames, deps] using h)]
  | .arr l, h => by
    simp only [den]; rw [denL_congr I l (by simpa [varNames, deps] using h)]
  | .cse _ _ c, h => by
    simp only [den]; exact den_congr I c (by simpa [varNames, deps] using h)
  | .intg g d k, h => by
    simp only [varNames, deps, List.map_append, List.mem_append] at h
    simp only [den]
    rw [denL_congr I d (fun x hx => h x (Or.inl hx)), denL_congr I k (fun x hx => h x (Or.inr hx))]
theorem denL_congr (I : Interp V) {ρ ρ' : Ctx V} : ∀ (l : List Expr),
    (∀ x ∈ (depsL l).map Prod.snd, ρ x = ρ' x) → denL I ρ l = denL I ρ' l
  | [], _ => by simp [denL]
  | e :: l, h => by
    simp only [depsL, List.map_append, List.mem_append] at h
    simp only [denL]
    rw [den_congr I e (fun x hx => h x (Or.inl hx)), denL_congr I l (fun x hx => h x (Or.inr hx))]
end

mutual
/-- Expressions the evaluator can handle: no layer potentials, and only
non-generated names below CSEs. -/
def RawOk (G : String → Prop) : Expr → Prop
  | .num _ | .var _ | .nir _ | .sub _ _ => True
  | .op _ l => RawOkL G l
  | .ite c a b => RawOk G c ∧ RawOk G a ∧ RawOk G b
  | .sum l => RawOkL G l
  | .arr l => RawOkL G l
  | .cse _ _ c => RawOk G c ∧ ∀ x ∈ varNames c, ¬ G x
  | .intg .. => False
/-- `RawOk` for every member of a list -/
def RawOkL (G : String → Prop) : List Expr → Prop
  | [] => True
  | e :: l => RawOk G e ∧ RawOkL G l
end

/-- Cached CSE values are the values of the cached expressions. -/
def CacheValid (I : Interp V) (env : Ctx V) (cc : Cache V) : Prop :=
  ∀ k v, (k, v) ∈ cc → den I env k.2.2 = some v

mutual
theorem ev_ok (I : Interp V) {G : String → Prop} {env ρ ctx : Ctx V}
    (hρ : ∀ x, ¬ G x → ρ x = env x) :
    ∀ (e : Expr) (v : V) (cc : Cache V), RawOk G e → (∀ x ∈ varNames e, ctx x = ρ x) →
      CacheValid I env cc → den I ρ e = some v →
      ∃ cc', ev I ctx e cc = .ok (v, cc') ∧ CacheValid I env cc'
  | .num n, v, cc, _, _, hc, hd => by
    simp only [den, Option.some.injEq] at hd; subst hd
    exact ⟨cc, by simp [ev], hc⟩
  | .var x, v, cc, _, hx, hc, hd => by
    have := hx x (by simp [varNames, deps])
    simp only [den] at hd
    exact ⟨cc, by simp [ev, this, hd], hc⟩
  | .nir x, v, cc, _, hx, hc, hd => by
    have := hx x (by simp [varNames, deps])
    simp only [den] at hd
    exact ⟨cc, by simp [ev, this, hd], hc⟩
  | .sub x i, v, cc, _, hx, hc, hd => by
    have := hx x (by simp [varNames, deps])
    simp only [den, Option.bind_eq_some_iff] at hd
    obtain ⟨w, hw, hv⟩ := hd
    exact ⟨cc, by simp [ev, this, hw, hv], hc⟩
  | .op f l, v, cc, hr, hx, hc, hd => by
    simp only [den, Option.bind_eq_some_iff] at hd
    obtain ⟨vs, hvs, hv⟩ := hd
    obtain ⟨cc', h1, h2⟩ := evL_ok I hρ l vs cc hr (by simpa [varNames, deps] using hx) hc hvs
    exact ⟨cc', by simp [ev, h1, hv], h2⟩
  | .ite c a b, v, cc, hr, hx, hc, hd => by
    simp only [varNames, deps, List.map_append, List.mem_append] at hx
    simp only [den] at hd
    split at hd
    · simp at hd
    · rename_i vc hvc
      obtain ⟨cc1, h1, h2⟩ := ev_ok I hρ c vc cc hr.1 (fun x h => hx x (Or.inl (Or.inl h))) hc hvc
      split at hd
      · rename_i ht
        obtain ⟨cc2, h3, h4⟩ := ev_ok I hρ a v cc1 hr.2.1 (fun x h => hx x (Or.inl (Or.inr h))) h2 hd
        exact ⟨cc2, by simp [ev, h1, ht, h3], h4⟩
      · rename_i ht
        obtain ⟨cc2, h3, h4⟩ := ev_ok I hρ b v cc1 hr.2.2 (fun x h => hx x (Or.inr h)) h2 hd
        exact ⟨cc2, by simp [ev, h1, ht, h3], h4⟩
  | .sum l, v, cc, hr, hx, hc, hd => by
    simp only [den, Option.map_eq_some_iff] at hd
    obtain ⟨vs, hvs, hv⟩ := hd
    obtain ⟨cc', h1, h2⟩ := evL_ok I hρ l vs cc hr (by simpa [varNames, deps] using hx) hc hvs
    exact ⟨cc', by simp [ev, h1, hv], h2⟩
  | .arr l, v, cc, hr, hx, hc, hd => by
    simp only [den, Option.map_eq_some_iff] at hd
    obtain ⟨vs, hvs, hv⟩ := hd
    obtain ⟨cc', h1, h2⟩ := evL_ok I hρ l vs cc hr (by simpa [varNames, deps] using hx) hc hvs
    exact ⟨cc', by simp [ev, h1, hv], h2⟩
  | .cse p sc c, v, cc, hr, hx, hc, hd => by
    simp only [den] at hd
    have hx' : ∀ x ∈ varNames c, ctx x = ρ x := by simpa [varNames, deps] using hx
    simp only [ev]
    split
    · exact ev_ok I hρ c v cc hr.1 hx' hc hd
    · split
      · rename_i w hw
        have h1 := hc _ _ (alookup_mem hw)
        have h2 : den I ρ c = den I env c := den_congr I c (fun x hx => hρ x (hr.2 x hx))
        simp only at h1
        rw [h2, h1] at hd
        cases hd
        exact ⟨cc, rfl, hc⟩
      · obtain ⟨cc', h1, h2⟩ := ev_ok I hρ c v cc hr.1 hx' hc hd
        refine ⟨((sc, p, c), v) :: cc', by simp [h1], ?_⟩
        intro k w hk
        rcases List.mem_cons.1 hk with h | h
        · cases h
          have h2 : den I ρ c = den I env c := den_congr I c (fun x hx => hρ x (hr.2 x hx))
          simp only; rw [← h2]; exact hd
        · exact h2 k w h
  | .intg .., v, cc, hr, _, _, _ => by simp [RawOk] at hr
theorem evL_ok (I : Interp V) {G : String → Prop} {env ρ ctx : Ctx V}
    (hρ : ∀ x, ¬ G x → ρ x = env x) :
    ∀ (l : List Expr) (vs : List V) (cc : Cache V), RawOkL G l →
      (∀ x ∈ (depsL l).map Prod.snd, ctx x = ρ x) →
      CacheValid I env cc → denL I ρ l = some vs →
      ∃ cc', evL I ctx l cc = .ok (vs, cc') ∧ CacheValid I env cc'
  | [], vs, cc, _, _, hc, hd => by
    simp only [denL, Option.some.injEq] at hd; subst hd
    exact ⟨cc, by simp [evL], hc⟩
  | e :: l, vs, cc, hr, hx, hc, hd => by
    simp only [depsL, List.map_append, List.mem_append] at hx
    simp only [denL] at hd
    split at hd
    · rename_i v vs' hv hvs
      cases hd
      obtain ⟨cc1, h1, h2⟩ := ev_ok I hρ e v cc hr.1 (fun x h => hx x (Or.inl h)) hc hv
      obtain ⟨cc2, h3, h4⟩ := evL_ok I hρ l vs' cc1 hr.2 (fun x h => hx x (Or.inr h)) h2 hvs
      exact ⟨cc2, by simp [evL, h1, h3], h4⟩
    · simp at hd
end

/-! ### Solutions of a statement list -/

/-- The valuation `ρ` satisfies the statement. -/
def StmtSat (I : Interp V) (ρ : Ctx V) : Stmt → Prop
  | .assign n e _ => ∃ v, den I ρ e = some v ∧ ρ n = some v
  | .pot outs tks kn kv sks ds src _ =>
    ∃ dv kvv, denL I ρ ds = some dv ∧ denL I ρ kv = some kvv ∧
      ∀ o ∈ outs, ∃ tk v, tks[o.tkIdx]? = some tk ∧
        I.pot src (sks.zip dv) (kn.zip kvv) tk o.tgt o.lim = some v ∧ ρ o.name = some v

/-- Everything the evaluator needs to execute the statement. -/
def StmtRaw (G : String → Prop) : Stmt → Prop
  | .assign n e _ => RawOk G e ∧ n ∉ varNames e
  | .pot _ _ _ kv _ ds _ _ => RawOkL G ds ∧ RawOkL G kv

theorem execOuts_ok (I : Interp V) (ρ : Ctx V) (src : String) (pairs kargs : List (String × V))
    (tks : List String) : ∀ (outs : List Out),
    (∀ o ∈ outs, ∃ tk v, tks[o.tkIdx]? = some tk ∧
        I.pot src pairs kargs tk o.tgt o.lim = some v ∧ ρ o.name = some v) →
    ∃ as, execOuts I src pairs kargs tks outs = .ok as ∧ as.map Prod.fst = outs.map Out.name ∧
      ∀ p ∈ as, ρ p.1 = some p.2
  | [], _ => ⟨[], by simp [execOuts]⟩
  | o :: os, h => by
    obtain ⟨tk, v, h1, h2, h3⟩ := h o (by simp)
    obtain ⟨as, h4, h5, h6⟩ := execOuts_ok I ρ src pairs kargs tks os (fun o ho => h o (by simp [ho]))
    refine ⟨(o.name, v) :: as, by simp [execOuts, h1, h2, h4], by simp [h5], ?_⟩
    intro p hp
    rcases List.mem_cons.1 hp with h | h
    · rw [h]; exact h3
    · exact h6 p h

theorem execStmt_ok (I : Interp V) {G : String → Prop} {env ρ ctx : Ctx V}
    (hρ : ∀ x, ¬ G x → ρ x = env x) (s : Stmt) (cc : Cache V)
    (hraw : StmtRaw G s) (hx : ∀ x ∈ s.depNames, ctx x = ρ x)
    (hc : CacheValid I env cc) (hs : StmtSat I ρ s) :
    ∃ as cc', execStmt I ctx s cc = .ok (as, cc') ∧ CacheValid I env cc' ∧
      as.map Prod.fst = s.assignees ∧ ∀ p ∈ as, ρ p.1 = some p.2 := by
  cases s with
  | assign n e p =>
    obtain ⟨v, h1, h2⟩ := hs
    obtain ⟨hr, hn⟩ := hraw
    obtain ⟨cc', h3, h4⟩ := ev_ok I hρ e v cc hr (ctx := ctx) (by
      intro x hxe
      apply hx
      simp only [Stmt.depNames, Stmt.dependencies, varNames] at hxe ⊢
      obtain ⟨d, hd, rfl⟩ := List.mem_map.1 hxe
      refine List.mem_map.2 ⟨d, List.mem_filter.2 ⟨hd, ?_⟩, rfl⟩
      simp only [decide_eq_true_eq]
      intro hdn
      apply hn
      rw [← hdn]
      exact List.mem_map_of_mem hd) hc h1
    exact ⟨[(n, v)], cc', by simp [execStmt, h3], h4, by simp [Stmt.assignees], by simpa using h2⟩
  | pot outs tks kn kv sks ds src p =>
    obtain ⟨dv, kvv, h1, h2, h3⟩ := hs
    obtain ⟨hr1, hr2⟩ := hraw
    simp only [Stmt.depNames, Stmt.dependencies, List.map_append, List.mem_append] at hx
    obtain ⟨cc1, h4, h5⟩ := evL_ok I hρ ds dv cc hr1 (fun x h => hx x (Or.inl h)) hc h1
    obtain ⟨cc2, h6, h7⟩ := evL_ok I hρ kv kvv cc1 hr2 (fun x h => hx x (Or.inr h)) h5 h2
    obtain ⟨as, h8, h9, h10⟩ := execOuts_ok I ρ src (sks.zip dv) (kn.zip kvv) tks outs h3
    exact ⟨as, cc2, by simp [execStmt, h4, h6, h8], h7, by simp [Stmt.assignees, h9], h10⟩

theorem delAll_ok : ∀ (d : List String) (ctx : Ctx V), d.Nodup → (∀ x ∈ d, ∃ v, ctx x = some v) →
    ∃ ctx', delAll ctx d = .ok ctx' ∧ ∀ y, ctx' y = if y ∈ d then none else ctx y
  | [], ctx, _, _ => ⟨ctx, by simp [delAll]⟩
  | x :: xs, ctx, hnd, h => by
    obtain ⟨v, hv⟩ := h x (by simp)
    rw [List.nodup_cons] at hnd
    obtain ⟨ctx', h1, h2⟩ := delAll_ok xs (fun y => if y = x then none else ctx y) hnd.2 (by
      intro y hy
      obtain ⟨w, hw⟩ := h y (by simp [hy])
      refine ⟨w, ?_⟩
      have : y ≠ x := fun hh => hnd.1 (hh ▸ hy)
      simp [this, hw])
    refine ⟨ctx', by simp [delAll, hv, h1], ?_⟩
    intro y
    rw [h2]
    by_cases hyx : y = x
    · simp [hyx]
    · by_cases hy : y ∈ xs
      · simp [hy]
      · simp [hyx, hy]

theorem setAll_get (ρ : Ctx V) : ∀ (as : List (String × V)) (ctx : Ctx V),
    (∀ p ∈ as, ρ p.1 = some p.2) →
    ∀ y, setAll ctx as y = if y ∈ as.map Prod.fst then ρ y else ctx y
  | [], ctx, _, y => by simp [setAll]
  | (x, v) :: l, ctx, h, y => by
    rw [setAll, setAll_get ρ l _ (fun p hp => h p (by simp [hp]))]
    have hx : ρ x = some v := h (x, v) (by simp)
    by_cases hy : y ∈ l.map Prod.fst
    · simp [hy]
    · by_cases hyx : y = x
      · subst hyx; simp [hy, hx]
      · simp [hy, hyx]

/-- Running the schedule of a satisfiable statement list: never fails, and every
variable that is still live has its value from `ρ`. -/
theorem runSched_ok (I : Interp V) {G : String → Prop} {env ρ : Ctx V}
    (hρ : ∀ x, ¬ G x → ρ x = env x) (stmts : List Stmt) (res : List String)
    (hsat : ∀ s ∈ stmts, StmtSat I ρ s) (hraw : ∀ s ∈ stmts, StmtRaw G s) :
    ∀ (fuel : Nat) (avail : List String) (done : List Nat) (ctx : Ctx V) (cc : Cache V),
      (∀ x ∈ avail, ctx x = ρ x ∧ ∃ v, ctx x = some v) → CacheValid I env cc →
      ∃ ctx' cc', runSched I ((scheduleLoop stmts res fuel avail done).filterMap
          (fun p => (stmts[p.1]?).map (fun s => (s, p.2)))) ctx cc = .ok (ctx', cc') ∧
        CacheValid I env cc' ∧
        (∀ x ∈ res, (x ∈ avail ∨ x ∈ assignedBy stmts (scheduleLoop stmts res fuel avail done)) →
          ctx' x = ρ x) ∧
        (∀ x, x ∉ avail → x ∉ assignedBy stmts (scheduleLoop stmts res fuel avail done) →
          ctx' x = ctx x) := by
  intro fuel
  induction fuel with
  | zero =>
    intro avail done ctx cc hav hc
    refine ⟨ctx, cc, by simp [scheduleLoop, runSched], hc, ?_, by simp⟩
    intro x _ h
    rcases h with h | h
    · exact (hav x h).1
    · simp [scheduleLoop, assignedBy] at h
  | succ fuel ih =>
    intro avail done ctx cc hav hc
    unfold scheduleLoop
    split
    · refine ⟨ctx, cc, by simp [runSched], hc, ?_, by simp⟩
      intro x _ h
      rcases h with h | h
      · exact (hav x h).1
      · simp [assignedBy] at h
    · rename_i i disc hstep
      have hnd : disc.Nodup := by
        unfold nextStep at hstep
        split at hstep
        · simp at hstep
        · simp only [Option.some.injEq, Prod.mk.injEq] at hstep
          rw [← hstep.2]; exact nodup_nub _
      obtain ⟨hi, hd, hdeps, hdisc, -⟩ := nextStep_spec hstep
      have hsi : stmts[i]? = some stmts[i] := List.getElem?_eq_getElem hi
      have hmem : stmts[i] ∈ stmts := List.getElem_mem hi
      have hdepsEq : depNamesAt stmts i = (stmts[i]).depNames := by simp [depNamesAt, hsi]
      have hasgEq : assigneesAt stmts i = (stmts[i]).assignees := by simp [assigneesAt, hsi]
      obtain ⟨ctx1, hdel, hctx1⟩ := delAll_ok disc ctx hnd
        (fun x hx => (hav x ((hdisc x).1 hx).1).2)
      obtain ⟨as, cc1, hex, hc1, has1, has2⟩ := execStmt_ok I hρ (ctx := ctx1) stmts[i] cc (hraw _ hmem) (by
        intro x hx
        rw [← hdepsEq] at hx
        have hxd : x ∉ disc := fun hh =>
          ((hdisc x).1 hh).2.1 (mem_neededVars.2 ⟨i, ⟨hi, hd⟩, hx⟩)
        rw [hctx1]; simp [hxd, (hav x (hdeps x hx)).1]) hc (hsat _ hmem)
      have hset := setAll_get ρ as ctx1 has2
      obtain ⟨ctx', cc', hrun, hc', hres, hother⟩ := ih
        (avail.filter (fun x => x ∉ disc) ++ assigneesAt stmts i) (i :: done) (setAll ctx1 as) cc1
        (by
          intro x hx
          rw [hset]
          by_cases hxa : x ∈ as.map Prod.fst
          · simp only [hxa, if_true]
            obtain ⟨p, hp, rfl⟩ := List.mem_map.1 hxa
            exact ⟨trivial, p.2, has2 p hp⟩
          · simp only [hxa, if_false]
            rw [hasgEq, ← has1] at hx
            rcases List.mem_append.1 hx with h | h
            · obtain ⟨h1, h2⟩ := List.mem_filter.1 h
              simp only [decide_eq_true_eq] at h2
              rw [hctx1]; simp only [h2, if_false]
              exact hav x h1
            · exact absurd h hxa) hc1
      refine ⟨ctx', cc', ?_, hc', ?_, ?_⟩
      · simp only [List.filterMap_cons, hsi, Option.map_some]
        simp only [runSched, hdel, hex]
        exact hrun
      · intro x hxr hx
        apply hres x hxr
        simp only [assignedBy, List.flatMap_cons, List.mem_append] at hx ⊢
        rcases hx with h | h | h
        · left; left
          rw [List.mem_filter]
          refine ⟨h, ?_⟩
          simp only [decide_eq_true_eq]
          exact fun hh => ((hdisc x).1 hh).2.2 hxr
        · left; right; exact h
        · right; exact h
      · intro x hx1 hx2
        simp only [assignedBy, List.flatMap_cons, List.mem_append, not_or] at hx2
        rw [hother x (by
          rw [List.mem_append, not_or]
          exact ⟨fun h => hx1 (List.mem_filter.1 h).1, hx2.1⟩) hx2.2, hset]
        rw [has1, ← hasgEq]
        simp only [hx2.1, if_false]
        rw [hctx1]
        have : x ∉ disc := fun hh => hx1 ((hdisc x).1 hh).1
        simp [this]

end Verif.Compiler
