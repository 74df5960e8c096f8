import Verif.Compiler.Props

/-!
C07: what exactly happens when `BoundExpression.eval(context)` is called twice with the same dictionary.
`execute` (`execution.py:672-698`) works in the dictionary of the caller: it deletes inputs that are not needed any more and
adds temporaries.  The second call either returns the same value (nothing was deleted), or reports a missing input; it never
returns anything else.
-/

namespace Verif.Compiler

variable {V : Type}

theorem execOuts_names (I : Interp V) (src : String) (pairs kargs : List (String × V)) (tks : List String) :
    ∀ (outs : List Out) r, execOuts I src pairs kargs tks outs = .ok r → r.map Prod.fst = outs.map Out.name
  | [], r, h => by
    simp only [execOuts, Except.ok.injEq] at h
    subst h; rfl
  | o :: os, r, h => by
    simp only [execOuts] at h
    split at h
    · simp at h
    split at h
    · simp at h
    split at h
    · simp at h
    rename_i r' hr
    simp only [Except.ok.injEq] at h
    subst h
    simp [execOuts_names I src pairs kargs tks os r' hr]

theorem execStmt_names (I : Interp V) (ctx : Ctx V) (s : Stmt) (cc cc' : Cache V) (as : List (String × V))
    (h : execStmt I ctx s cc = .ok (as, cc')) : as.map Prod.fst = s.assignees := by
  cases s with
  | assign n e p =>
    simp only [execStmt] at h
    split at h
    · simp at h
    · simp only [Except.ok.injEq, Prod.mk.injEq] at h
      rw [← h.1]; simp [Stmt.assignees]
  | pot outs tks kn kv sks ds src p =>
    simp only [execStmt] at h
    split at h
    · simp at h
    split at h
    · simp at h
    split at h
    · simp at h
    rename_i r hr
    simp only [Except.ok.injEq, Prod.mk.injEq] at h
    rw [← h.1]
    exact execOuts_names I _ _ _ _ _ _ hr

theorem setAll_other : ∀ (as : List (String × V)) (ctx : Ctx V) (y : String), y ∉ as.map Prod.fst → setAll ctx as y = ctx y
  | [], ctx, y, _ => rfl
  | (x, v) :: l, ctx, y, h => by
    simp only [List.map_cons, List.mem_cons, not_or] at h
    rw [setAll, setAll_other l _ y h.2, if_neg h.1]

theorem delAll_spec : ∀ (l : List String) (ctx ctx' : Ctx V), delAll ctx l = .ok ctx' →
    ∀ y, ctx' y = if y ∈ l then none else ctx y
  | [], ctx, ctx', h, y => by
    simp only [delAll, Except.ok.injEq] at h
    subst h; simp
  | x :: l, ctx, ctx', h, y => by
    simp only [delAll] at h
    split at h
    · simp at h
    rw [delAll_spec l _ ctx' h y]
    by_cases hy : y ∈ l
    · simp [hy]
    · by_cases hx : y = x <;> simp [hy, hx]

/-- the dictionary after the schedule: a name that no statement assigns is deleted if some step discards it, and is otherwise
as before -/
theorem runSched_final (I : Interp V) : ∀ (sched : List (Stmt × List String)) (ctx ctx' : Ctx V) (cc cc' : Cache V),
    runSched I sched ctx cc = .ok (ctx', cc') → ∀ x, (∀ q ∈ sched, x ∉ q.1.assignees) →
      ((∃ q ∈ sched, x ∈ q.2) → ctx' x = none) ∧ ((∀ q ∈ sched, x ∉ q.2) → ctx' x = ctx x)
  | [], ctx, ctx', cc, cc', h, x, _ => by
    simp only [runSched, Except.ok.injEq, Prod.mk.injEq] at h
    rw [h.1]; simp
  | (s, d) :: l, ctx, ctx', cc, cc', h, x, hx => by
    simp only [runSched] at h
    split at h
    · simp at h
    rename_i c1 h1
    split at h
    · simp at h
    rename_i as cc1 h2
    have hn := execStmt_names I _ _ _ _ _ h2
    have hxs : x ∉ as.map Prod.fst := by rw [hn]; exact hx (s, d) (by simp)
    have hl := runSched_final I l _ _ _ _ h x (fun q hq => hx q (by simp [hq]))
    rw [setAll_other _ _ _ hxs, delAll_spec _ _ _ h1] at hl
    constructor
    · rintro ⟨q, hq, hxq⟩
      by_cases hin : ∃ q ∈ l, x ∈ q.2
      · exact hl.1 hin
      · rcases List.mem_cons.1 hq with rfl | hq
        · rw [hl.2 (fun q hq hxq => hin ⟨q, hq, hxq⟩), if_pos hxq]
        · exact absurd ⟨q, hq, hxq⟩ hin
    · intro hq
      rw [hl.2 (fun q hql => hq q (by simp [hql])), if_neg (hq (s, d) (by simp))]

/-- what a successful evaluation does to the variables of the expression in the dictionary of the caller -/
theorem evalBound_final (c : Cfg) (I : Interp V) (e : Expr) (ctx : Ctx V) (cc : Cache V) (hc : CfgOk c) (hwf : WF e)
    (hnc : NoClash e) (v : V) (ctx' : Ctx V) (cc' : Cache V) (h : evalBound c I e ctx cc = .ok (v, ctx', cc')) :
    ∃ code, compile c e = .ok code ∧ execute I code ctx cc = .ok (v, ctx', cc') ∧
      (∀ y ∈ code.inputs, y ∈ varNames e ∧ ctx y ≠ none) ∧ ∀ x ∈ varNames e,
      ctx' x = ctx x ∨ (ctx' x = none ∧ x ∈ code.inputs) := by
  obtain ⟨stmts, r, reps, st, h1, h2, h3, h4, h5⟩ := compile_facts hc hwf hnc
  refine ⟨mkCode stmts r, h1, ?_⟩
  simp only [evalBound, h1] at h
  split at h
  · simp at h
  rename_i res hr
  simp only [Except.ok.injEq] at h
  subst h
  refine ⟨hr, ?_, ?_⟩
  · intro y hy
    refine ⟨h2.inputs_user hy, fun hn => ?_⟩
    simp only [execute] at hr
    split at hr
    · simp at hr
    rename_i hf
    rw [List.find?_eq_none] at hf
    have := hf y hy
    simp [hn] at this
  intro x hx
  simp only [execute] at hr
  split at hr
  · simp at hr
  split at hr
  · simp at hr
  rename_i ctx1 cc1 hs
  split at hr
  · simp at hr
  simp only [Except.ok.injEq, Prod.mk.injEq] at hr
  obtain ⟨-, rfl, -⟩ := hr
  have hna : ∀ q ∈ (mkCode stmts r).schedule, x ∉ q.1.assignees := by
    intro q hq hxq
    simp only [mkCode, List.mem_filterMap, Option.map_eq_some_iff] at hq
    obtain ⟨p, -, s', hs', rfl⟩ := hq
    exact h2.gen x (List.mem_flatMap.2 ⟨s', getElem?_mem hs', hxq⟩) hx
  have hf := runSched_final I _ _ _ _ _ hs x hna
  by_cases hd : ∃ q ∈ (mkCode stmts r).schedule, x ∈ q.2
  · refine Or.inr ⟨hf.1 hd, ?_⟩
    obtain ⟨q, hq, hxq⟩ := hd
    obtain ⟨pre, post, hsp⟩ := List.append_of_mem hq
    rcases (C04_discards_safe stmts r pre q.1 q.2 post hsp x hxq).1 with h | ⟨q', hq', h⟩
    · exact h
    · exact absurd h (hna q' (by rw [hsp]; simp [hq']))
  · exact Or.inl (hf.2 (fun q hq hxq => hd ⟨q, hq, hxq⟩))

/-- **C07**, exactly: `eval(context)` twice with the same dictionary (and the caches left by the first call).  The first call
leaves each variable of the expression in the dictionary or deletes it.  If it deletes none of those that were there, the second
call returns the same value; otherwise the second call raises "missing input", naming a variable the first call deleted.  Nothing
else can happen: no call ever returns another value. -/
theorem C07_eval_twice (c : Cfg) (I : Interp V) (e : Expr) (ctx : Ctx V) (cc : Cache V)
    (hc : CfgOk c) (hI : Lawful I) (hwf : WF e) (hnc : NoClash e) (hd : AllDefined I ctx e) (hcc : ClosedValid I cc) :
    ∃ v ctx1 cc1, den I ctx e = some v ∧ evalBound c I e ctx cc = .ok (v, ctx1, cc1) ∧
      (∀ x ∈ varNames e, ctx1 x = ctx x ∨ ctx1 x = none) ∧
      ((∀ x ∈ varNames e, ctx1 x = ctx x) → ∃ ctx2 cc2, evalBound c I e ctx1 cc1 = .ok (v, ctx2, cc2)) ∧
      ((∃ x ∈ varNames e, ctx1 x ≠ ctx x) → ∃ y, evalBound c I e ctx1 cc1 = .error (.exec (.missingInput y)) ∧
        y ∈ varNames e ∧ ctx y ≠ none ∧ ctx1 y = none) := by
  obtain ⟨v, ctx1, cc1, h1, h2, h3⟩ := C01_bound_eval c I e ctx cc hc hI hwf hnc hd (hcc.valid ctx)
  obtain ⟨code, hcode, hex, hinp, hfin⟩ := evalBound_final c I e ctx cc hc hwf hnc v ctx1 cc1 h2
  refine ⟨v, ctx1, cc1, h1, h2, fun x hx => (hfin x hx).imp id And.left, ?_, ?_⟩
  · intro hsame
    have hden : ∀ s ∈ subs e, den I ctx1 s = den I ctx s := by
      intro s hs
      apply den_congr
      intro x hx
      obtain ⟨d, hdd, rfl⟩ := List.mem_map.1 hx
      exact hsame _ (List.mem_map.2 ⟨d, deps_of_subs e hs hdd, rfl⟩)
    have hd' : AllDefined I ctx1 e := by
      intro s hs
      rw [hden s hs]
      exact hd s hs
    have hcv : CacheValid I ctx1 cc1 := by
      intro k w hk
      rcases compile_keys hc hwf hnc hcode hex (k, w) hk with h | h
      · exact hcc.valid ctx1 k w h
      · rw [hden k.2.2 (subs_trans e (by simp only [subs]; exact List.mem_cons_of_mem _ (self_mem_subs _)) h.2)]
        exact h3 k w hk
    obtain ⟨v', ctx2, cc2, g1, g2, -⟩ := C01_bound_eval c I e ctx1 cc1 hc hI hwf hnc hd' hcv
    rw [hden e (self_mem_subs e), h1] at g1
    rw [Option.some.inj g1]
    exact ⟨ctx2, cc2, g2⟩
  · rintro ⟨x, hx, hne⟩
    obtain ⟨hxn, hxi⟩ := (hfin x hx).resolve_left hne
    simp only [evalBound, hcode, execute]
    cases hf : code.inputs.find? (fun x => (ctx1 x).isNone) with
    | none =>
      rw [List.find?_eq_none] at hf
      have := hf x hxi
      simp [hxn] at this
    | some y =>
      have hy := List.find?_some hf
      have hyi := List.mem_of_find?_eq_some hf
      have hyn : ctx1 y = none := by simpa using hy
      exact ⟨y, rfl, (hinp y hyi).1, (hinp y hyi).2, hyn⟩

/-- non-vacuity: the expression of `C07_refuted`, where the input is deleted -/
example : ∃ v ctx1 cc1, evalBound exCfg exI exE exCtx [] = .ok (v, ctx1, cc1) ∧
    (∀ x ∈ varNames exE, ctx1 x = exCtx x ∨ ctx1 x = none) := by
  obtain ⟨v, ctx1, cc1, -, h, h', -⟩ := C07_eval_twice exCfg exI exE exCtx [] exCfg_ok exI_lawful exE_wf exE_noClash exE_defined
    (by intro k v h; simp at h)
  exact ⟨v, ctx1, cc1, h, h'⟩

/-- both outcomes occur: `S(2 sigma) + 3` deletes its input and fails the second time (`C07_refuted`), `S(2 sigma) + sigma` keeps
it and returns the same value again -/
example : evalTwice exCfg exI (.sum [.intg ⟨"S", ["G"], "src", "tgt", .p1, []⟩ [.op "mul" [.num 2, exS]] [], exS]) exCtx
      = some (15, .ok 15) := by rfl

end Verif.Compiler
