import Verif.Compiler.Rename
import Mathlib.Algebra.BigOperators.Group.List.Basic

/-!
# C01 - C08: compiling and executing bound expressions
-/

namespace Verif.Compiler

variable {V : Type}

/-- Failures of `BoundExpression.eval`. -/
inductive BErr | comp (x : CErr) | exec (x : XErr)
  deriving DecidableEq, Repr

/-- `BoundExpression.eval(context)` (`execution.py:856-896`) with the memoized
property `code` (`execution.py:764-768`).  Returns the value, the state of the
caller's dictionary afterwards and the caches.  Left out: deriving the array
context, and the shortcut for top-level `DISCRETIZATION` CSEs, which looks up
`expr.child` in a cache keyed by `(prefix, child)` and so never hits. -/
def evalBound (c : Cfg) (I : Interp V) (e : Expr) (ctx : Ctx V) (cc : Cache V) :
    Except BErr (V × Ctx V × Cache V) :=
  match compile c e with
  | .error x => .error (.comp x)
  | .ok code =>
    match execute I code ctx cc with
    | .error x => .error (.exec x)
    | .ok r => .ok r

/-! ### A concrete interpretation used for examples -/

/-- sort keys, set order, priorities and groups for examples -/
def exCfg : Cfg := ⟨fun p => p.1, id, List.reverse, fun _ => 0, fun _ _ => none⟩

/-- integers as values; division can raise; the potential is a weighted sum -/
def exI : Interp Int where
  num := id
  sub v i := some (v + i)
  op f l := match f, l with
    | "mul", [a, b] => some (a * b)
    | "div", [a, b] => if b = 0 then none else some (a / b)
    | _, _ => none
  truthy v := v ≠ 0
  zero := 0
  add := (· + ·)
  arr l := l.sum
  pot _ ps ks tk _ lim := some ((if tk = "D" then 2 else 1) * (if lim = .m1 then 5 else 1)
    * (ps.map (fun p => (p.1.length : Int) * p.2)).sum + (ks.map Prod.snd).sum)

theorem exI_lawful : Lawful exI where
  zero_add v := by simp [exI]
  pot_perm src p p' k k' tk tgt lim h h' := by
    simp only [exI]
    rw [(h.map (fun p => (p.1.length : Int) * p.2)).sum_eq, (h'.map Prod.snd).sum_eq]

theorem exCfg_ok : CfgOk exCfg := fun l => List.reverse_perm l

/-- `sigma` -/
def exS : Expr := .var "sigma"
/-- `u = cse(sigma + 3, "u")` -/
def exU : Expr := .cse (some "u") .evaluation (.sum [exS, .num 3])
/-- `S(2 sigma) + u + D(2 sigma, k=u) + S(D(..)) + u + if(sigma, a[1], 7)` with
two layer potentials in one group and nested layer potentials -/
def exE : Expr := .sum
  [.intg ⟨"S", ["G"], "src", "tgt", .p1, ["k"]⟩ [.op "mul" [.num 2, exS]] [exU], exU,
   .intg ⟨"D", ["G"], "src", "tgt", .m1, ["k"]⟩ [.op "mul" [.num 2, exS]] [exU],
   .intg ⟨"S", ["G", "H"], "src", "tgt", .p1, []⟩
     [.intg ⟨"D", ["G"], "src", "tgt", .m1, ["k"]⟩ [.op "mul" [.num 2, exS]] [exU], exS] [],
   .cse none .expression (.op "mul" [.num 2, .num 21]),
   exU, .ite exS (.sub "a" 1) (.num 7)]
/-- inputs -/
def exCtx : Ctx Int := fun x => if x = "sigma" then some 5 else if x = "a" then some 100 else none

theorem of_all {l : List Expr} {P : Expr → Prop} [DecidablePred P] (h : l.all (fun x => decide (P x)) = true) :
    ∀ s ∈ l, P s := by
  intro s hs
  have := List.all_eq_true.1 h s hs
  simpa using this

instance : DecidablePred OkNode := fun e => by
  cases e <;> simp only [OkNode] <;> infer_instance

theorem exE_wf : WF exE := of_all (by decide +kernel)

theorem exE_defined : AllDefined exI exCtx exE := by
  intro s hs
  have : ∀ s ∈ subs exE, (den exI exCtx s).isSome = true := by
    apply of_all
    decide +kernel
  exact Option.isSome_iff_exists.1 (this s hs)

theorem toString_nat_ne {i : Nat} {p s : String} (h : s = p ++ toString i) (q : Char)
    (hq : s.toList.head? = some q) (hp : p.toList.head? ≠ some q) (hne : p.toList ≠ []) : False := by
  subst h
  rw [String.toList_append] at hq
  cases hl : p.toList with
  | nil => exact hne hl
  | cons a l => simp [hl] at hq hp; exact hp hq

theorem exE_prefix {p : String} {sc : Scope} {ch : Expr} (h : .cse (some p) sc ch ∈ subs exE) : p = "u" := by
  have : (subs exE).all (fun s => match s with | .cse (some p) _ _ => p == "u" | _ => true) = true := by
    decide +kernel
  simpa using List.all_eq_true.1 this _ h

theorem exE_noClash : NoClash exE := by
  intro x hx hg
  have hx' : x = "sigma" ∨ x = "a" := by
    have : ∀ x ∈ varNames exE, x = "sigma" ∨ x = "a" := by decide +kernel
    exact this x hx
  rcases hg with ⟨i, hi⟩ | ⟨p, sc, ch, hm, hp⟩
  · rcases hx' with h | h <;> rw [h] at hi
    · exact toString_nat_ne hi 's' (by decide +kernel) (by decide +kernel) (by decide +kernel)
    · exact toString_nat_ne hi 'a' (by decide +kernel) (by decide +kernel) (by decide +kernel)
  · have hpu := exE_prefix hm
    subst hpu
    rcases hp with h | ⟨i, hi⟩
    · rcases hx' with h' | h' <;> rw [h'] at h <;> exact absurd h (by decide)
    · rcases hx' with h | h <;> rw [h] at hi
      · exact toString_nat_ne hi 's' (by decide +kernel) (by decide +kernel) (by decide +kernel)
      · exact toString_nat_ne hi 'a' (by decide +kernel) (by decide +kernel) (by decide +kernel)

/-! ### C01 -/

/-- C01: evaluating a bound expression succeeds and returns the directly evaluated
value, for every expression, interpretation, priority assignment, sort key, set
iteration order, input and valid cache content. -/
theorem C01_bound_eval (c : Cfg) (I : Interp V) (e : Expr) (ctx : Ctx V) (cc : Cache V)
    (hc : CfgOk c) (hI : Lawful I) (hwf : WF e) (hnc : NoClash e) (hd : AllDefined I ctx e)
    (hcc : CacheValid I ctx cc) :
    ∃ v ctx' cc', den I ctx e = some v ∧ evalBound c I e ctx cc = .ok (v, ctx', cc') ∧
      CacheValid I ctx cc' := by
  have h : Hyp I ctx c e := ⟨hI, hc, hwf, hnc, hd⟩
  obtain ⟨code, ctx', cc', h1, h2, h3⟩ := compile_execute h cc hcc
  exact ⟨F I ctx e, ctx', cc', h.denF (self_mem_subs e), by simp [evalBound, h1, h2], h3⟩

/-- The hypotheses of `C01_bound_eval` are met by a non-trivial expression. -/
example : ∃ ctx' cc', evalBound exCfg exI exE exCtx [] = .ok (398, ctx', cc') := by
  obtain ⟨v, ctx', cc', h1, h2, -⟩ := C01_bound_eval exCfg exI exE exCtx [] exCfg_ok exI_lawful exE_wf
    exE_noClash exE_defined (by intro k v h; simp at h)
  have : den exI exCtx exE = some 398 := by decide +kernel
  rw [this, Option.some.injEq] at h1
  exact ⟨ctx', cc', h1 ▸ h2⟩

/-- `if 0 then (1/0 + sigma) else 7` -/
def exLazy : Expr :=
  .ite (.num 0) (.sum [.op "div" [.num 1, .num 0], exS]) (.num 7)

/-- Why C01 asks for all sub-expressions to be defined: compiled conditionals are
not lazy, a sum in the branch that is not taken is still computed. -/
theorem C01_untaken_branch_is_computed :
    den exI exCtx exLazy = some 7 ∧
    (evalBound exCfg exI exLazy exCtx []).toOption.map Prod.fst = none := by
  constructor
  · decide +kernel
  · decide +kernel

/-! ### C02 -/

/-- C02 (part): renaming the inputs does not change the value, provided neither the
old nor the new names are names the compiler generates.  Missing: the same without
the no-clash hypotheses, which is false (`C02_refuted`). -/
theorem C02_rename_partial (c : Cfg) (I : Interp V) (e : Expr) (f : String → String)
    (ctx ctx2 : Ctx V) (hc : CfgOk c) (hI : Lawful I) (hwf : WF e)
    (hnc : NoClash e) (hnc2 : NoClash (ren f e)) (hd : AllDefined I ctx e)
    (hctx : ∀ x ∈ varNames e, ctx2 (f x) = ctx x) :
    ∃ v a b, evalBound c I e ctx [] = .ok (v, a) ∧ evalBound c I (ren f e) ctx2 [] = .ok (v, b) := by
  obtain ⟨v, c1, c2, h1, h2, -⟩ := C01_bound_eval c I e ctx [] hc hI hwf hnc hd (by intro k v h; simp at h)
  obtain ⟨w, d1, d2, h3, h4, -⟩ := C01_bound_eval c I (ren f e) ctx2 [] hc hI (wf_ren hwf) hnc2
    (allDefined_ren hwf hd hctx) (by intro k v h; simp at h)
  rw [den_ren e (no_nir hwf) hctx, h1, Option.some.injEq] at h3
  subst h3
  exact ⟨v, _, _, h2, h4⟩

/-- `cse(2*x, "sigma") + x` -/
def exCap (x : String) : Expr :=
  .sum [.cse (some "sigma") .evaluation (.op "mul" [.num 2, .var x]), .var x]

/-- C02 fails for inputs named like a CSE prefix: with the input called `sigma` the
compiled code returns `4 sigma` instead of `3 sigma`, with the input called `tau` it
returns the right value. -/
theorem C02_refuted :
    (evalBound exCfg exI (exCap "tau") (fun x => if x = "tau" then some 5 else none) []).toOption.map Prod.fst
      = some 15 ∧
    (evalBound exCfg exI (exCap "sigma") (fun x => if x = "sigma" then some 5 else none) []).toOption.map Prod.fst
      = some 20 ∧
    den exI (fun x => if x = "sigma" then some 5 else none) (exCap "sigma") = some 15 := by
  refine ⟨by decide +kernel, by decide +kernel, by decide +kernel⟩

/-- the no-clash hypotheses of `C02_rename_partial` are met -/
example : ∃ v a b, evalBound exCfg exI exE exCtx [] = .ok (v, a) ∧
    evalBound exCfg exI (ren (fun x => x) exE) exCtx [] = .ok (v, b) := by
  have hr : ren (fun x => x) exE = exE := by decide +kernel
  exact C02_rename_partial exCfg exI exE (fun x => x) exCtx exCtx exCfg_ok exI_lawful exE_wf
    exE_noClash (hr ▸ exE_noClash) exE_defined (fun _ _ => rfl)

/-! ### C03, C04 -/

/-- the statements emitted for `e` (before scheduling) and the result expression -/
def emitted (c : Cfg) (e : Expr) : Except CErr (Expr × List Stmt) :=
  match memoized e (compU c (nub (ops e)) e) St.init with
  | .error x => .error x
  | .ok (r, st) => .ok (r, st.code)

theorem compile_emitted (c : Cfg) (e : Expr) :
    compile c e = match emitted c e with
      | .error x => .error x
      | .ok (r, stmts) => .ok (mkCode stmts r) := by
  simp only [compile, emitted]
  split
  · rename_i h; simp [h]
  · rename_i h; simp [h]

/-- a schedule of statements: every step only reads inputs or variables assigned by
earlier steps and not discarded before -/
def ReadsOk (inputs : List String) (sched : List (Stmt × List String)) : Prop :=
  ∀ pre s d post, sched = pre ++ (s, d) :: post → ∀ x ∈ s.depNames,
    (x ∈ inputs ∨ ∃ q ∈ pre, x ∈ q.1.assignees) ∧ x ∉ d ∧ ∀ q ∈ pre, x ∉ q.2

/-- every discarded variable exists, and is not read by this or a later step nor by
the result -/
def DiscardsOk (inputs : List String) (sched : List (Stmt × List String)) (result : Expr) : Prop :=
  ∀ pre s d post, sched = pre ++ (s, d) :: post → ∀ x ∈ d,
    (x ∈ inputs ∨ ∃ q ∈ pre, x ∈ q.1.assignees) ∧ x ∉ s.depNames ∧
    (∀ q ∈ post, x ∉ q.1.depNames) ∧ x ∉ varNames result

theorem sched_split (stmts : List Stmt) : ∀ (L : List (Nat × List String)),
    (∀ p ∈ L, p.1 < stmts.length) → ∀ pre s d post,
    L.filterMap (fun p => (stmts[p.1]?).map (fun s => (s, p.2))) = pre ++ (s, d) :: post →
    ∃ lp i lpost, L = lp ++ (i, d) :: lpost ∧ stmts[i]? = some s ∧
      lp.filterMap (fun p => (stmts[p.1]?).map (fun s => (s, p.2))) = pre ∧
      lpost.filterMap (fun p => (stmts[p.1]?).map (fun s => (s, p.2))) = post
  | [], _, pre, s, d, post, h => by simp at h
  | (j, e) :: L, hL, pre, s, d, post, h => by
    have hjl : j < stmts.length := hL (j, e) (by simp)
    have hj : stmts[j]? = some stmts[j] := List.getElem?_eq_getElem hjl
    simp only [List.filterMap_cons, hj, Option.map_some] at h
    cases pre with
    | nil =>
      simp only [List.nil_append, List.cons.injEq, Prod.mk.injEq] at h
      obtain ⟨⟨rfl, rfl⟩, h⟩ := h
      exact ⟨[], j, L, rfl, hj, rfl, h⟩
    | cons a pre =>
      simp only [List.cons_append, List.cons.injEq] at h
      obtain ⟨rfl, h⟩ := h
      obtain ⟨lp, i, lpost, h1, h2, h3, h4⟩ := sched_split stmts L (fun p hp => hL p (by simp [hp])) pre s d post h
      exact ⟨(j, e) :: lp, i, lpost, by rw [h1]; rfl, h2, by simp [hj, h3], h4⟩

theorem assignedBy_sched {stmts : List Stmt} {L : List (Nat × List String)} {x : String}
    (h : x ∈ assignedBy stmts L) :
    ∃ q ∈ L.filterMap (fun p => (stmts[p.1]?).map (fun s => (s, p.2))), x ∈ q.1.assignees := by
  simp only [assignedBy, List.mem_flatMap] at h
  obtain ⟨p, hp, hx⟩ := h
  simp only [assigneesAt] at hx
  split at hx
  · rename_i s hs
    exact ⟨(s, p.2), List.mem_filterMap.2 ⟨p, hp, by simp [hs]⟩, hx⟩
  · simp at hx

theorem computeSchedule_range (stmts : List Stmt) (res : List String) :
    ∀ p ∈ computeSchedule stmts res, p.1 < stmts.length := fun p hp =>
  ((scheduleLoop_spec stmts res (stmts.length + 1) (inputsOf stmts) []).2.1 p hp).1

/-- C04 (schedule): for every statement list and result, each released variable
exists at that point, is read neither by the step, nor by any later step, nor by the
result. -/
theorem C04_discards_safe (stmts : List Stmt) (r : Expr) :
    DiscardsOk (mkCode stmts r).inputs (mkCode stmts r).schedule (mkCode stmts r).result := by
  intro pre s d post h x hx
  obtain ⟨lp, i, lpost, h1, h2, h3, h4⟩ := sched_split stmts _ (computeSchedule_range _ _) pre s d post h
  obtain ⟨-, h5⟩ := (scheduleLoop_spec stmts ((deps r).map Prod.snd) (stmts.length + 1) (inputsOf stmts) []).2.2 lp i d lpost h1
  obtain ⟨h6, h7, h8⟩ := h5 x hx
  refine ⟨?_, ?_, ?_, h7⟩
  · rcases h6 with h | h
    · exact Or.inl h
    · exact Or.inr (h3 ▸ assignedBy_sched h)
  · have := h8 (i, d) (by simp)
    simpa [depNamesAt, h2] using this
  · intro q hq
    rw [← h4, List.mem_filterMap] at hq
    obtain ⟨p, hp, hq⟩ := hq
    obtain ⟨s', hs', rfl⟩ := Option.map_eq_some_iff.1 hq
    have := h8 p (by simp [hp])
    simpa [depNamesAt, hs'] using this

/-- C03 (safety half): for every statement list and result, each step reads only
inputs and variables assigned by earlier steps, none of which has been released, and
no statement is scheduled twice. -/
theorem C03_schedule_safe (stmts : List Stmt) (r : Expr) :
    ReadsOk (mkCode stmts r).inputs (mkCode stmts r).schedule ∧
    ((computeSchedule stmts (varNames r)).map Prod.fst).Nodup := by
  refine ⟨?_, (scheduleLoop_spec stmts _ (stmts.length + 1) (inputsOf stmts) []).1⟩
  intro pre s d post h x hx
  have hD := C04_discards_safe stmts r
  refine ⟨?_, fun hxd => (hD pre s d post h x hxd).2.1 hx, ?_⟩
  · obtain ⟨lp, i, lpost, h1, h2, h3, h4⟩ := sched_split stmts _ (computeSchedule_range _ _) pre s d post h
    obtain ⟨h5, -⟩ := (scheduleLoop_spec stmts ((deps r).map Prod.snd) (stmts.length + 1) (inputsOf stmts) []).2.2 lp i d lpost h1
    rcases h5 x (by simpa [depNamesAt, h2] using hx) with h | h
    · exact Or.inl h
    · exact Or.inr (h3 ▸ assignedBy_sched h)
  · intro q hq hxq
    obtain ⟨pre1, pre2, rfl⟩ := List.append_of_mem hq
    have := (hD pre1 q.1 q.2 (pre2 ++ (s, d) :: post) (by rw [h]; simp) x hxq).2.2.1 (s, d) (by simp)
    exact this hx

/-- C03 (order): no statement is overtaken by one of lower priority: when a step is taken, no
later statement all of whose inputs are there has a higher priority. -/
theorem C03_priority (stmts : List Stmt) (r : Expr) (pre : List (Stmt × List String)) (s : Stmt)
    (d : List String) (post : List (Stmt × List String))
    (h : (mkCode stmts r).schedule = pre ++ (s, d) :: post) (q : Stmt × List String) (hq : q ∈ post)
    (hr : ∀ x ∈ q.1.depNames, x ∈ (mkCode stmts r).inputs ∨ ∃ p ∈ pre, x ∈ p.1.assignees) :
    q.1.prio ≤ s.prio := by
  obtain ⟨lp, i, lpost, h1, h2, h3, h4⟩ := sched_split stmts _ (computeSchedule_range _ _) pre s d post h
  rw [← h4, List.mem_filterMap] at hq
  obtain ⟨p, hp, hq⟩ := hq
  obtain ⟨s', hs', rfl⟩ := Option.map_eq_some_iff.1 hq
  have := scheduleLoop_prio stmts _ (stmts.length + 1) (inputsOf stmts) [] lp i d lpost h1 p hp ?_
  · simpa [prioAt, h2, hs'] using this
  · intro x hx
    simp only [depNamesAt, hs'] at hx
    rcases hr x hx with h | ⟨q, hq, hxq⟩
    · exact Or.inl h
    · right
      rw [← h3, List.mem_filterMap] at hq
      obtain ⟨p', hp', hq⟩ := hq
      obtain ⟨s2, hs2, rfl⟩ := Option.map_eq_some_iff.1 hq
      simp only [assignedBy, List.mem_flatMap]
      exact ⟨p', hp', by simpa [assigneesAt, hs2] using hxq⟩

/-- non-vacuity: of two ready statements the one with the higher priority goes first -/
example : (mkCode [.assign "a" (.var "x") 0, .assign "b" (.var "x") 1] (.var "a")).schedule.map
    (fun p => p.1.assignees) = [["b"], ["a"]] ∧
    (mkCode [.assign "a" (.var "x") 0, .assign "b" (.var "x") 1] (.var "a")).inputs = ["x", "x"] := by
  decide +kernel

theorem filterMap_perm_of {stmts : List Stmt} {L : List (Nat × List String)}
    (hnd : (L.map Prod.fst).Nodup) (hr : ∀ p ∈ L, p.1 < stmts.length)
    (hall : ∀ i, i < stmts.length → i ∈ L.map Prod.fst) :
    ((L.filterMap (fun p => (stmts[p.1]?).map (fun s => (s, p.2)))).map Prod.fst).Perm stmts := by
  have h1 : (L.map Prod.fst).Perm (List.range stmts.length) := by
    rw [List.perm_ext_iff_of_nodup hnd List.nodup_range]
    intro a
    rw [List.mem_range]
    constructor
    · intro h
      obtain ⟨p, hp, rfl⟩ := List.mem_map.1 h
      exact hr p hp
    · exact hall a
  have h2 : (L.filterMap (fun p => (stmts[p.1]?).map (fun s => (s, p.2)))).map Prod.fst =
      (L.map Prod.fst).filterMap (fun i => stmts[i]?) := by
    clear h1 hnd hr hall
    induction L with
    | nil => rfl
    | cons p L ih =>
      simp only [List.filterMap_cons, List.map_cons]
      cases h : stmts[p.1]? with
      | none => simpa using ih
      | some s => simpa using ih
  have h3 : (List.range stmts.length).filterMap (fun i => stmts[i]?) = stmts := by
    clear h1 h2 hnd hr hall
    induction stmts with
    | nil => rfl
    | cons s l ih =>
      rw [List.length_cons, List.range_succ_eq_map, List.filterMap_cons]
      simp only [List.getElem?_cons_zero, List.filterMap_map]
      congr 1
  rw [h2]
  have h4 := h1.filterMap (fun i => stmts[i]?)
  rw [h3] at h4
  exact h4

/-- C03: compiling succeeds, the schedule executes every emitted statement exactly
once (it is a permutation of the emitted statements), and each step reads only inputs
and variables that earlier steps assigned and nobody released. -/
theorem C03_schedule (c : Cfg) (e : Expr) (hc : CfgOk c) (hwf : WF e) (hnc : NoClash e) :
    ∃ r stmts code, emitted c e = .ok (r, stmts) ∧ compile c e = .ok code ∧
      (code.schedule.map Prod.fst).Perm stmts ∧
      ((stmts.flatMap Stmt.assignees).Nodup) ∧
      ReadsOk code.inputs code.schedule := by
  obtain ⟨r, st, ρ, h1, h2, h3⟩ := compile_inv (unit_hyp hc hwf hnc)
  have hf := CodeFacts.of_inv h2 h3
  refine ⟨r, st.code, mkCode st.code r, by simp [emitted, h1], by simp [compile, h1], ?_, hf.nodup,
    (C03_schedule_safe st.code r).1⟩
  exact filterMap_perm_of (C03_schedule_safe st.code r).2 (computeSchedule_range _ _) (hf.complete _)

/-- non-vacuity of `C03_schedule` -/
example : ∃ r stmts code, emitted exCfg exE = .ok (r, stmts) ∧ compile exCfg exE = .ok code ∧
      (code.schedule.map Prod.fst).Perm stmts ∧ ((stmts.flatMap Stmt.assignees).Nodup) ∧
      ReadsOk code.inputs code.schedule :=
  C03_schedule exCfg exE exCfg_ok exE_wf exE_noClash

/-- and its schedule is not empty -/
example : (match compile exCfg exE with | .ok code => code.schedule.length | .error _ => 0) = 10 := by
  decide +kernel

/-- C04 (execution): if every variable of the expression is supplied, evaluation can
only fail because an operation or layer potential itself raises: there is no missing
input, no failing `del`, no unbound variable, no index error. -/
theorem C04_execution_safe (c : Cfg) (I : Interp V) (e : Expr) (ctx : Ctx V) (cc : Cache V)
    (hc : CfgOk c) (hwf : WF e) (hnc : NoClash e)
    (hin : ∀ x ∈ varNames e, ∃ v, ctx x = some v) (err : BErr)
    (h : evalBound c I e ctx cc = .error err) : err = .exec .raised := by
  obtain ⟨code, h1, h2⟩ := execute_safe (I := I) hc hwf hnc ctx cc hin
  simp only [evalBound, h1] at h
  split at h
  · rename_i x hx
    rw [h2 x hx, Except.error.injEq] at h
    exact h.symm
  · simp at h

/-- non-vacuity: an evaluation with all inputs in which an operation raises -/
example : evalBound exCfg exI (.sum [.op "div" [.num 1, exS], exS])
    (fun x => if x = "sigma" then some 0 else none) [] = .error (.exec .raised) := by rfl

/-! ### C05 -/

/-- C05 (part): if a variable occurring in a layer potential of the expression is not
supplied, evaluation fails with "missing input" naming a variable that is indeed
missing; this is decided before the first statement (the first line of `execute`).
Missing: variables that occur only outside layer potentials (see
`C05_read_or_result_partial` and `C05_refuted`). -/
theorem C05_missing_density_partial (c : Cfg) (I : Interp V) (e : Expr) (ctx : Ctx V) (cc : Cache V)
    (hc : CfgOk c) (hwf : WF e) (hnc : NoClash e) (o : Expr) (ho : o ∈ subs e) (hoi : isIntG o = true)
    (x : String) (hx : x ∈ varNames o) (hmiss : ctx x = none) :
    ∃ y, evalBound c I e ctx cc = .error (.exec (.missingInput y)) ∧ ctx y = none := by
  obtain ⟨stmts, r, reps, st, h1, h2, h3, h4, h5⟩ := compile_facts hc hwf hnc
  have hwo : ∀ d ∈ deps o, d.1 = false := fun d hd => deps_user hwf (deps_of_subs e ho hd)
  obtain ⟨d, hd, rfl⟩ := List.mem_map.1 hx
  have hd' : (false, d.2) ∈ deps o := by have := hwo d hd; rw [← this]; exact hd
  have hin : d.2 ∈ inputsOf stmts := h5.covOps o ((mem_ops_iff e).2 ⟨ho, hoi⟩) d.2 hd'
  cases hf : (mkCode stmts r).inputs.find? (fun x => (ctx x).isNone) with
  | none =>
    rw [List.find?_eq_none] at hf
    have := hf d.2 hin
    simp [hmiss] at this
  | some y =>
    refine ⟨y, by simp [evalBound, h1, execute, hf], ?_⟩
    have := List.find?_some hf
    simpa using this

/-- C05 (part): a missing variable is either reported before any statement runs, or it
occurs literally in the final result expression. -/
theorem C05_read_or_result_partial (c : Cfg) (I : Interp V) (e : Expr) (ctx : Ctx V) (cc : Cache V)
    (hc : CfgOk c) (hwf : WF e) (hnc : NoClash e)
    (x : String) (hx : x ∈ varNames e) (hmiss : ctx x = none) :
    (∃ y, evalBound c I e ctx cc = .error (.exec (.missingInput y)) ∧ ctx y = none) ∨
    (∃ code, compile c e = .ok code ∧ x ∈ varNames code.result) := by
  obtain ⟨stmts, r, reps, st, h1, h2, h3, h4, h5⟩ := compile_facts hc hwf hnc
  obtain ⟨d, hd, rfl⟩ := List.mem_map.1 hx
  have hd' : (false, d.2) ∈ deps e := by have := deps_user hwf hd; rw [← this]; exact hd
  rcases h5.cov d.2 hd' with hin | hin
  · left
    cases hf : (mkCode stmts r).inputs.find? (fun x => (ctx x).isNone) with
    | none =>
      rw [List.find?_eq_none] at hf
      have := hf d.2 hin
      simp [hmiss] at this
    | some y =>
      refine ⟨y, by simp [evalBound, h1, execute, hf], ?_⟩
      have := List.find?_some hf
      simpa using this
  · right
    exact ⟨_, h1, List.mem_map.2 ⟨(false, d.2), hin, rfl⟩⟩

/-- C05 fails for a variable that is only read by the result expression: `2*x` with no
inputs is not reported as a missing input. -/
theorem C05_refuted :
    evalBound exCfg exI (.op "mul" [.num 2, .var "x"]) (fun _ => none) []
      = .error (.exec (.unbound "x")) := by rfl

/-- non-vacuity of C05: leaving out `sigma` -/
example : ∃ y, evalBound exCfg exI exE (fun x => if x = "a" then some 1 else none) []
    = .error (.exec (.missingInput y)) ∧ (if y = "a" then some (1 : Int) else none) = none :=
  C05_missing_density_partial exCfg exI exE _ [] exCfg_ok exE_wf exE_noClash
    (.intg ⟨"D", ["G"], "src", "tgt", .m1, ["k"]⟩ [.op "mul" [.num 2, exS]] [exU]) (by decide +kernel) rfl
    "sigma" (by decide +kernel) (by decide +kernel)

/-! ### C06 -/

/-- C06: there is a list of representatives, pairwise in different groups, covering the
group of every layer potential of the expression, such that the potential statements
executed are, one by one and in the order emitted, the statements of the representatives' groups:
same source, kernels, kernel arguments; the highest of the group's priorities; as many outputs as there are distinct
operators in the group; and for each operator of the group an output with exactly its
target kernel, target and limit. (That each operator gets the value of its own output
is part of `C01_bound_eval`.) -/
theorem C06_groups_once (c : Cfg) (e : Expr) (hc : CfgOk c) (hwf : WF e) (hnc : NoClash e) :
    ∃ r stmts code reps, emitted c e = .ok (r, stmts) ∧ compile c e = .ok code ∧
      ((code.schedule.map Prod.fst).filter isPot).Perm (stmts.filter isPot) ∧
      List.Forall₂ (Computes c (nub (ops e))) (stmts.filter isPot) reps ∧
      (reps.map (feat c)).Nodup ∧ (∀ o ∈ reps, o ∈ subs e ∧ isIntG o = true) ∧
      (∀ o ∈ subs e, isIntG o = true → ∃ o' ∈ reps, feat c o' = feat c o) := by
  obtain ⟨r, stmts, code, h1, h2, h3, -⟩ := C03_schedule c e hc hwf hnc
  simp only [emitted] at h1
  split at h1
  · simp at h1
  · rename_i r' st hm
    simp only [Except.ok.injEq, Prod.mk.injEq] at h1
    obtain ⟨rfl, rfl⟩ := h1
    obtain ⟨reps, h4, h5⟩ := compile_T hwf hnc hc hm
    refine ⟨r', st.code, code, reps, by simp [emitted, hm], h2, h3.filter _, h4.pots, h4.nodup, ?_, ?_⟩
    · intro o ho
      exact (mem_ops_iff e).1 (mem_nub.1 (h4.inAll o ho))
    · intro o ho hoi
      obtain ⟨o', h6, h7⟩ := List.mem_map.1 (h5.fts o ((mem_ops_iff e).2 ⟨ho, hoi⟩))
      exact ⟨o', h6, h7⟩

/-- number of distinct groups = number of potential statements executed -/
theorem C06_count (c : Cfg) (e : Expr) (hc : CfgOk c) (hwf : WF e) (hnc : NoClash e) :
    ∃ code, compile c e = .ok code ∧
      ((code.schedule.map Prod.fst).filter isPot).length
        = (nub ((((subs e).filter isIntG)).map (feat c))).length := by
  obtain ⟨r, stmts, code, reps, -, h2, h3, h4, h5, h6, h7⟩ := C06_groups_once c e hc hwf hnc
  refine ⟨code, h2, ?_⟩
  rw [h3.length_eq, h4.length_eq, ← List.length_map (feat c)]
  apply List.Perm.length_eq
  rw [List.perm_ext_iff_of_nodup h5 (nodup_nub _)]
  intro a
  rw [mem_nub, List.mem_map, List.mem_map]
  constructor
  · rintro ⟨o, ho, rfl⟩
    exact ⟨o, List.mem_filter.2 (h6 o ho), rfl⟩
  · rintro ⟨o, ho, rfl⟩
    obtain ⟨h8, h9⟩ := List.mem_filter.1 ho
    exact h7 o h8 h9

/-- non-vacuity: four layer potential nodes, two groups -/
example : ((subs exE).filter isIntG).length = 4 ∧
    (nub ((((subs exE).filter isIntG)).map (feat exCfg))).length = 2 := by
  constructor <;> decide +kernel

/-! ### C07 -/

/-- C07 (part): `BoundExpression.__call__` (`execution.py:914-930`, keyword arguments
are collected in a fresh dictionary for each call): calling twice with the same
arguments gives the same value.  Missing: the same for `eval` with one dictionary,
which is false (`C07_refuted`). -/
theorem C07_call_twice_partial (c : Cfg) (I : Interp V) (e : Expr) (kwargs : Ctx V)
    (hc : CfgOk c) (hI : Lawful I) (hwf : WF e) (hnc : NoClash e) (hd : AllDefined I kwargs e) :
    ∃ v ctx1 cc1 ctx2 cc2, evalBound c I e kwargs [] = .ok (v, ctx1, cc1) ∧
      evalBound c I e kwargs cc1 = .ok (v, ctx2, cc2) := by
  obtain ⟨v, c1, c2, h1, h2, h3⟩ := C01_bound_eval c I e kwargs [] hc hI hwf hnc hd (by intro k v h; simp at h)
  obtain ⟨w, d1, d2, h4, h5, -⟩ := C01_bound_eval c I e kwargs c2 hc hI hwf hnc hd h3
  rw [h1, Option.some.injEq] at h4
  subst h4
  exact ⟨v, c1, c2, d1, d2, h2, h5⟩

example : ∃ v ctx1 cc1 ctx2 cc2, evalBound exCfg exI exE exCtx [] = .ok (v, ctx1, cc1) ∧
      evalBound exCfg exI exE exCtx cc1 = .ok (v, ctx2, cc2) :=
  C07_call_twice_partial exCfg exI exE exCtx exCfg_ok exI_lawful exE_wf exE_noClash exE_defined

/-- evaluate twice with one dictionary; the result of the second evaluation -/
def evalTwice (c : Cfg) (I : Interp V) (e : Expr) (ctx : Ctx V) : Option (V × Except BErr V) :=
  match evalBound c I e ctx [] with
  | .error _ => none
  | .ok (v, ctx', cc') => some (v, (evalBound c I e ctx' cc').map Prod.fst)

/-- C07 fails for `eval(context)`: the second evaluation with the dictionary left by
the first reports a missing input, because `execute` deletes inputs from the caller's
dictionary.  The expression is `S(2 sigma) + 3`. -/
theorem C07_refuted :
    evalTwice exCfg exI
      (.sum [.intg ⟨"S", ["G"], "src", "tgt", .p1, []⟩ [.op "mul" [.num 2, exS]] [], .num 3]) exCtx
      = some (13, .error (.exec (.missingInput "sigma"))) := by rfl

/-! ### C08 -/

/-- the caches that survive a call: one per bound expression for `EXPRESSION` scope,
one shared by all bound expressions of the geometry collection for `DISCRETIZATION`
scope (`execution.py:316-321`, `collection.py:_get_cache`) -/
structure Caches (V : Type) where
  places : Cache V
  bound : Expr → Cache V

/-- one call `bind(places, e)(**kwargs)` on a given bound expression -/
def call (c : Cfg) (I : Interp V) (e : Expr) (kwargs : Ctx V) (s : Caches V) :
    Except BErr V × Caches V :=
  match evalBound c I e kwargs (s.places ++ s.bound e) with
  | .error x => (.error x, s)
  | .ok (v, _, cc) =>
    (.ok v, ⟨cc.filter (fun p => p.1.1 = .discretization),
      fun e' => if e' = e then cc.filter (fun p => p.1.1 = .expression) else s.bound e'⟩)

/-- a sequence of calls of bound expressions, threading the caches -/
def calls (c : Cfg) (I : Interp V) : List (Expr × Ctx V) → Caches V → List (Except BErr V)
  | [], _ => []
  | (e, kw) :: l, s => (call c I e kw s).1 :: calls c I l (call c I e kw s).2

/-- CSEs cached beyond a single evaluation contain no input variables -/
def CachedClosed (e : Expr) : Prop :=
  ∀ p sc ch, .cse p sc ch ∈ subs e → sc ≠ .evaluation → varNames ch = []

/-- cached entries are variable-free and hold the right values -/
def ClosedValid (I : Interp V) (cc : Cache V) : Prop :=
  ∀ k v, (k, v) ∈ cc → varNames k.2.2 = [] ∧ den I (fun _ => none) k.2.2 = some v

theorem ClosedValid.valid {I : Interp V} {cc : Cache V} (h : ClosedValid I cc) (env : Ctx V) :
    CacheValid I env cc := by
  intro k v hk
  obtain ⟨h1, h2⟩ := h k v hk
  rw [← h2]
  apply den_congr
  intro x hx
  rw [h1] at hx
  simp at hx

/-- C08 (part): whatever the sequence of calls (of any bound expressions on the same
places, with any inputs), every call returns the value of a fresh evaluation, as long
as the CSEs of `EXPRESSION`/`DISCRETIZATION` scope do not depend on input variables.
Missing: input dependent CSEs of these scopes, for which the claim is false
(`C08_refuted`). -/
theorem C08_history_partial (c : Cfg) (I : Interp V) (hc : CfgOk c) (hI : Lawful I) :
    ∀ (hist : List (Expr × Ctx V)) (s : Caches V),
      (∀ p ∈ hist, WF p.1 ∧ NoClash p.1 ∧ AllDefined I p.2 p.1 ∧ CachedClosed p.1) →
      ClosedValid I s.places → (∀ e, ClosedValid I (s.bound e)) →
      List.Forall₂ (fun p r => ∃ v, den I p.2 p.1 = some v ∧ r = .ok v) hist (calls c I hist s)
  | [], s, _, _, _ => by simp [calls]
  | (e, kw) :: l, s, h, hs1, hs2 => by
    obtain ⟨hwf, hnc, hd, hcl⟩ := h (e, kw) (by simp)
    have hcv : ClosedValid I (s.places ++ s.bound e) := by
      intro k v hk
      rcases List.mem_append.1 hk with hk | hk
      · exact hs1 k v hk
      · exact hs2 e k v hk
    obtain ⟨v, ctx', cc', h1, h2, h3⟩ := C01_bound_eval c I e kw (s.places ++ s.bound e) hc hI hwf hnc hd
      (hcv.valid kw)
    have hcv' : ClosedValid I cc' := by
      intro k w hk
      have hh : varNames k.2.2 = [] := by
        simp only [evalBound] at h2
        split at h2
        · simp at h2
        · rename_i code hcode
          split at h2
          · simp at h2
          · rename_i r hr
            simp only [Except.ok.injEq] at h2
            subst h2
            rcases compile_keys hc hwf hnc hcode hr (k, w) hk with h | h
            · exact (hcv k w h).1
            · exact hcl _ _ _ h.2 h.1
      refine ⟨hh, ?_⟩
      rw [← h3 k w hk]
      apply den_congr
      intro x hx
      rw [hh] at hx
      simp at hx
    simp only [calls]
    refine List.Forall₂.cons ⟨v, h1, by simp [call, h2]⟩ ?_
    apply C08_history_partial c I hc hI l _ (fun p hp => h p (by simp [hp]))
    · simp only [call, h2]
      intro k w hk
      exact hcv' k w (List.mem_filter.1 hk).1
    · intro e'
      simp only [call, h2]
      by_cases he : e' = e
      · simp only [he, if_true]
        intro k w hk
        exact hcv' k w (List.mem_filter.1 hk).1
      · simp only [he, if_false]
        exact hs2 e'

/-- C08 fails for input dependent CSEs of scope `EXPRESSION`: the second call returns
the value of the first. -/
theorem C08_refuted :
    calls exCfg exI
      [(.cse none .expression (.op "mul" [.num 2, exS]), fun x => if x = "sigma" then some 5 else none),
       (.cse none .expression (.op "mul" [.num 2, exS]), fun x => if x = "sigma" then some 7 else none)]
      ⟨[], fun _ => []⟩ = [.ok 10, .ok 10] := by rfl

theorem exE_closed : CachedClosed exE := by
  intro p sc ch h hsc
  have : (subs exE).all (fun s => match s with
      | .cse _ sc ch => sc == .evaluation || varNames ch == [] | _ => true) = true := by decide +kernel
  have := List.all_eq_true.1 this _ h
  simp only [Bool.or_eq_true, beq_iff_eq] at this
  exact this.resolve_left hsc

/-- non-vacuity of C08 -/
example : List.Forall₂ (fun p r => ∃ v, den exI p.2 p.1 = some v ∧ r = .ok v)
    [(exE, exCtx), (exE, exCtx)] (calls exCfg exI [(exE, exCtx), (exE, exCtx)] ⟨[], fun _ => []⟩) :=
  C08_history_partial exCfg exI exCfg_ok exI_lawful _ _ (by
    intro p hp
    simp only [List.mem_cons, List.not_mem_nil, or_false, or_self] at hp
    subst hp
    exact ⟨exE_wf, exE_noClash, exE_defined, exE_closed⟩) (by intro k v h; simp at h)
    (by intro e k v h; simp at h)

end Verif.Compiler
