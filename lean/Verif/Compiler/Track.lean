import Verif.Compiler.Correct2
import Mathlib.Data.List.Forall2

/-! Helper lemmas: a second, interpretation independent invariant of the compiler.
It tracks which variables are read by statements (C05), which groups of layer
potentials have been computed (C06) and which CSE nodes reach the evaluator (C08). -/

namespace Verif.Compiler

/-- potential statements -/
def isPot : Stmt → Bool
  | .pot .. => true
  | _ => false

/-- CSE nodes -/
def isCse : Expr → Bool
  | .cse .. => true
  | _ => false

/-- expressions occurring in a statement -/
def stmtExprs : Stmt → List Expr
  | .assign _ e _ => [e]
  | .pot _ _ _ kv _ ds _ _ => ds ++ kv

/-- every CSE node of `r` is a sub-expression of `e0` -/
def CseIn (e0 r : Expr) : Prop := ∀ s ∈ subs r, isCse s = true → s ∈ subs e0

theorem foldl_max_spec (f : Expr → Int) : ∀ (l : List Expr) (m : Int),
    m ≤ l.foldl (fun m x => max m (f x)) m ∧ (∀ x ∈ l, f x ≤ l.foldl (fun m x => max m (f x)) m) ∧
    (l.foldl (fun m x => max m (f x)) m = m ∨ ∃ x ∈ l, l.foldl (fun m x => max m (f x)) m = f x) := by
  intro l
  induction l with
  | nil => intro m; simp
  | cons a l ih =>
    intro m
    obtain ⟨h1, h2, h3⟩ := ih (max m (f a))
    simp only [List.foldl_cons]
    refine ⟨by omega, ?_, ?_⟩
    · intro x hx
      rcases List.mem_cons.1 hx with rfl | hx
      · omega
      · exact h2 x hx
    · rcases h3 with h | ⟨x, hx, h⟩
      · rcases Int.le_total m (f a) with hm | hm
        · right; exact ⟨a, by simp, by omega⟩
        · left; omega
      · right; exact ⟨x, by simp [hx], h⟩

theorem maxPrio_spec (c : Cfg) (l : List Expr) (hl : l ≠ []) :
    (∀ x ∈ l, c.prio x ≤ maxPrio c l) ∧ ∃ x ∈ l, c.prio x = maxPrio c l := by
  cases l with
  | nil => exact absurd rfl hl
  | cons a l =>
    obtain ⟨h1, h2, h3⟩ := foldl_max_spec c.prio l (c.prio a)
    simp only [maxPrio]
    refine ⟨?_, ?_⟩
    · intro x hx
      rcases List.mem_cons.1 hx with rfl | hx
      · exact h1
      · exact h2 x hx
    · rcases h3 with h | ⟨x, hx, h⟩
      · exact ⟨a, by simp, h.symm⟩
      · exact ⟨x, by simp [hx], h.symm⟩

/-- `s` is the statement computing the group of operators (out of `all`) with the
features of `o`. -/
def Computes (c : Cfg) (all : List Expr) (s : Stmt) (o : Expr) : Prop :=
  match s, o with
  | .pot outs tks kn _ sks _ src prio, .intg g _ _ =>
    (∀ o' ∈ all, feat c o' = feat c o → c.prio o' ≤ prio) ∧
    (∃ o' ∈ all, feat c o' = feat c o ∧ c.prio o' = prio) ∧
    src = g.src ∧ kn = g.kn ∧ sks.Perm g.sks ∧
    outs.length = (all.filter (fun o' => feat c o' = feat c o)).length ∧
    ∀ g' d' k', .intg g' d' k' ∈ all → feat c (.intg g' d' k') = feat c o →
      ∃ out ∈ outs, tks[out.tkIdx]? = some g'.tk ∧ out.tgt = g'.tgt ∧ out.lim = g'.lim
  | _, _ => False

section
variable (c : Cfg) (e0 : Expr)

/-- proof device: what a rewritten expression keeps of the original one: inputs read, layer potentials computed -/
structure TGood (reps : List Expr) (code : List Stmt) (e r : Expr) : Prop where
  cov : ∀ x, (false, x) ∈ deps e → x ∈ inputsOf code ∨ (false, x) ∈ deps r
  covOps : ∀ o ∈ ops e, ∀ x, (false, x) ∈ deps o → x ∈ inputsOf code
  cse : CseIn e0 r
  fts : ∀ o ∈ ops e, feat c o ∈ reps.map (feat c)

structure TInv (st : St) (reps : List Expr) : Prop where
  memo : ∀ p ∈ st.memo, TGood c e0 reps st.code p.1 p.2
  e2v : ∀ p ∈ st.e2v, TGood c e0 reps st.code p.1 p.2
  done : ∀ o ∈ nub (ops e0), feat c o ∈ reps.map (feat c) → ∃ v, (o, v) ∈ st.e2v
  pots : List.Forall₂ (Computes c (nub (ops e0))) (st.code.filter isPot) reps
  nodup : (reps.map (feat c)).Nodup
  inAll : ∀ o ∈ reps, o ∈ nub (ops e0)
  cse : ∀ s ∈ st.code, ∀ r ∈ stmtExprs s, CseIn e0 r

/-- proof device: a later state only appends code and representatives of layer potentials of `es` -/
structure TExt (es : List Expr) (st : St) (reps : List Expr) (st' : St) (reps' : List Expr) :
    Prop where
  code : ∃ ext, st'.code = st.code ++ ext
  reps : ∃ new, reps' = reps ++ new ∧ ∀ o ∈ new, ∃ o' ∈ opsL es, feat c o = feat c o'

/-- the action `f` compiles `e` -/
def CompT (e : Expr) (f : St → R) : Prop :=
  ∀ st reps r st', TInv c e0 st reps → f st = .ok (r, st') →
    ∃ reps', TInv c e0 st' reps' ∧ TExt c [e] st reps st' reps' ∧ TGood c e0 reps' st'.code e r

end

variable {c : Cfg} {e0 : Expr}

theorem inputsOf_append (a b : List Stmt) : inputsOf (a ++ b) = inputsOf a ++ inputsOf b := by
  simp [inputsOf]

theorem TExt.refl {es : List Expr} (st : St) (reps : List Expr) : TExt c es st reps st reps :=
  ⟨⟨[], by simp⟩, ⟨[], by simp⟩⟩

theorem TExt.trans {es : List Expr} {st st' st'' : St} {reps reps' reps'' : List Expr}
    (h : TExt c es st reps st' reps') (h' : TExt c es st' reps' st'' reps'') :
    TExt c es st reps st'' reps'' := by
  obtain ⟨e1, h1⟩ := h.code
  obtain ⟨e2, h2⟩ := h'.code
  obtain ⟨n1, h3, h4⟩ := h.reps
  obtain ⟨n2, h5, h6⟩ := h'.reps
  refine ⟨⟨e1 ++ e2, by rw [h2, h1]; simp⟩, ⟨n1 ++ n2, by rw [h5, h3]; simp, ?_⟩⟩
  intro o ho
  rcases List.mem_append.1 ho with h | h
  · exact h4 o h
  · exact h6 o h

theorem TExt.mono {es es' : List Expr} {st st' : St} {reps reps' : List Expr}
    (h : TExt c es st reps st' reps') (hs : ∀ o ∈ opsL es, o ∈ opsL es') :
    TExt c es' st reps st' reps' := by
  obtain ⟨n, h1, h2⟩ := h.reps
  refine ⟨h.code, n, h1, ?_⟩
  intro o ho
  obtain ⟨o', h3, h4⟩ := h2 o ho
  exact ⟨o', hs o' h3, h4⟩

theorem TGood.ext {es : List Expr} {st st' : St} {reps reps' : List Expr} {e r : Expr}
    (h : TGood c e0 reps st.code e r) (hx : TExt c es st reps st' reps') :
    TGood c e0 reps' st'.code e r := by
  obtain ⟨x1, h1⟩ := hx.code
  obtain ⟨n1, h3, -⟩ := hx.reps
  refine ⟨?_, ?_, h.cse, ?_⟩
  · intro x hx
    rw [h1, inputsOf_append]
    rcases h.cov x hx with h | h
    · exact Or.inl (List.mem_append_left _ h)
    · exact Or.inr h
  · intro o ho x hx
    rw [h1, inputsOf_append]
    exact List.mem_append_left _ (h.covOps o ho x hx)
  · intro o ho
    rw [h3, List.map_append]
    exact List.mem_append_left _ (h.fts o ho)

theorem compT_memoized {e : Expr} {f : St → R} (hf : CompT c e0 e f) :
    CompT c e0 e (memoized e f) := by
  intro st reps r st' hinv h
  unfold memoized at h
  split at h
  · exact hf st reps r st' hinv h
  · split at h
    · rename_i r' hr
      simp only [Except.ok.injEq, Prod.mk.injEq] at h
      obtain ⟨rfl, rfl⟩ := h
      exact ⟨reps, hinv, TExt.refl _ _, hinv.memo _ (alookup_mem hr)⟩
    · split at h
      · simp at h
      · rename_i r' st1 hr
        simp only [Except.ok.injEq, Prod.mk.injEq] at h
        obtain ⟨rfl, rfl⟩ := h
        obtain ⟨reps', h1, h2, h3⟩ := hf st reps _ _ hinv hr
        refine ⟨reps', { h1 with memo := ?_ }, ⟨h2.code, h2.reps⟩, h3⟩
        intro p hp
        rcases List.mem_cons.1 hp with h | h
        · subst h; exact h3
        · exact h1.memo p h

theorem mem_inputsOf' {stmts : List Stmt} {x : String} {s : Stmt} (hs : s ∈ stmts)
    (h : (false, x) ∈ s.dependencies) : x ∈ inputsOf stmts := by
  simp only [inputsOf, List.mem_filterMap, List.mem_flatMap]
  exact ⟨(false, x), ⟨s, hs, h⟩, by simp⟩

/-- appending an assignment -/
theorem tinv_assign {st : St} {reps : List Expr} {n : String} {r : Expr} {prio : Int}
    {names : List String} (h : TInv c e0 st reps) (hc : CseIn e0 r) :
    TInv c e0 { st with names := names, code := st.code ++ [.assign n r prio] } reps ∧
    TExt c [] st reps { st with names := names, code := st.code ++ [.assign n r prio] } reps := by
  have hx : TExt c [] st reps { st with names := names, code := st.code ++ [.assign n r prio] } reps :=
    ⟨⟨_, rfl⟩, ⟨[], by simp⟩⟩
  refine ⟨⟨fun p hp => (h.memo p hp).ext hx, fun p hp => (h.e2v p hp).ext hx, h.done, ?_, h.nodup,
    h.inAll, ?_⟩, hx⟩
  · simp only [List.filter_append, List.filter_cons, isPot, Bool.false_eq_true, if_false,
      List.filter_nil, List.append_nil]
    exact h.pots
  · intro s hs r' hr'
    rcases List.mem_append.1 hs with hs | hs
    · exact h.cse s hs r' hr'
    · simp only [List.mem_singleton] at hs
      subst hs
      simp only [stmtExprs, List.mem_singleton] at hr'
      subst hr'
      exact hc

theorem assignNew_T (hnc : NoClash e0) {st : St} {reps : List Expr} {e r : Expr} (prio : Int)
    (pfx : Option String) (hp : ∀ p, pfx = some p → ∃ sc ch, .cse (some p) sc ch ∈ subs e0)
    (he : ∀ x, (false, x) ∈ deps e → x ∈ varNames e0)
    (h : TInv c e0 st reps) (hg : TGood c e0 reps st.code e r) :
    TInv c e0 (assignNew prio pfx r st).2 reps ∧
    TExt c [] st reps (assignNew prio pfx r st).2 reps ∧
    TGood c e0 reps (assignNew prio pfx r st).2.code e (assignNew prio pfx r st).1 := by
  unfold assignNew
  split
  · exact ⟨h, TExt.refl _ _, hg⟩
  · have hgen : GenName e0 (varName pfx st.names) := by
      cases pfx with
      | none =>
        obtain ⟨i, hi⟩ := varName_none_form st.names
        rw [hi]; exact Or.inl ⟨i, rfl⟩
      | some p =>
        obtain ⟨i, hi⟩ := varName_some_form p st.names
        obtain ⟨sc, ch, hm⟩ := hp p rfl
        rw [hi]
        refine Or.inr ⟨p, sc, ch, hm, ?_⟩
        cases i with
        | zero => exact Or.inl rfl
        | succ i => exact Or.inr ⟨i + 2, rfl⟩
    obtain ⟨h1, h2⟩ := tinv_assign (n := varName pfx st.names) (prio := prio)
      (names := varName pfx st.names :: st.names) h hg.cse
    refine ⟨h1, h2, ?_⟩
    have hg' := hg.ext h2
    refine ⟨?_, hg'.covOps, ?_, hg'.fts⟩
    · intro x hx
      rcases hg'.cov x hx with h | h
      · exact Or.inl h
      · left
        refine mem_inputsOf' (s := .assign (varName pfx st.names) r prio) (by simp) ?_
        simp only [Stmt.dependencies, List.mem_filter]
        refine ⟨h, ?_⟩
        simp only [decide_eq_true_eq, ne_eq]
        intro hh
        exact hnc _ (he x hx) (hh ▸ hgen)
    · intro s hs
      simp only [subs, List.mem_singleton] at hs
      subst hs
      simp [isCse]

/-- expressions whose variables are variables of `e0` -/
def Usr (e0 e : Expr) : Prop := ∀ x, (false, x) ∈ deps e → x ∈ varNames e0

theorem Usr.of_sub {e : Expr} (h : e ∈ subs e0) : Usr e0 e := by
  intro x hx
  exact List.mem_map_of_mem (f := Prod.snd) (deps_of_subs e0 h hx)

theorem opsL_single (e : Expr) : opsL [e] = ops e := by simp [opsL]

theorem TExt.of_nil {es : List Expr} {st st' : St} {reps reps' : List Expr}
    (h : TExt c [] st reps st' reps') : TExt c es st reps st' reps' :=
  h.mono (by simp [opsL])

theorem mapRec_T : ∀ (as : List Act) (st : St) (reps : List Expr) (rs : List Expr) (st' : St),
    (∀ a ∈ as, CompT c e0 a.1 a.2) → TInv c e0 st reps → mapRec as st = .ok (rs, st') →
    ∃ reps', TInv c e0 st' reps' ∧ TExt c (as.map Prod.fst) st reps st' reps' ∧
      List.Forall₂ (TGood c e0 reps' st'.code) (as.map Prod.fst) rs
  | [], st, reps, rs, st', _, hinv, h => by
    simp only [mapRec, Except.ok.injEq, Prod.mk.injEq] at h
    obtain ⟨rfl, rfl⟩ := h
    exact ⟨reps, hinv, TExt.refl _ _, by simp⟩
  | a :: as, st, reps, rs, st', ha, hinv, h => by
    simp only [mapRec] at h
    split at h
    · simp at h
    · rename_i r st1 h1
      split at h
      · simp at h
      · rename_i rs' st2 h2
        simp only [Except.ok.injEq, Prod.mk.injEq] at h
        obtain ⟨rfl, rfl⟩ := h
        obtain ⟨reps1, i1, x1, g1⟩ := compT_memoized (ha a (by simp)) st reps r st1 hinv h1
        obtain ⟨reps2, i2, x2, g2⟩ := mapRec_T as st1 reps1 rs' st2 (fun a h => ha a (by simp [h])) i1 h2
        refine ⟨reps2, i2, TExt.trans (x1.mono ?_) (x2.mono ?_), List.Forall₂.cons (g1.ext x2) g2⟩
        · intro o ho; simp only [opsL_single] at ho; simp [opsL, ho]
        · intro o ho; simp only [List.map_cons, opsL, List.mem_append]; exact Or.inr ho

theorem mapAssign_T (hnc : NoClash e0) :
    ∀ (as : List Act) (st : St) (reps : List Expr) (rs : List Expr) (st' : St),
    (∀ a ∈ as, CompT c e0 a.1 a.2 ∧ Usr e0 a.1) → TInv c e0 st reps →
    mapAssign as st = .ok (rs, st') →
    ∃ reps', TInv c e0 st' reps' ∧ TExt c (as.map Prod.fst) st reps st' reps' ∧
      List.Forall₂ (TGood c e0 reps' st'.code) (as.map Prod.fst) rs
  | [], st, reps, rs, st', _, hinv, h => by
    simp only [mapAssign, Except.ok.injEq, Prod.mk.injEq] at h
    obtain ⟨rfl, rfl⟩ := h
    exact ⟨reps, hinv, TExt.refl _ _, by simp⟩
  | a :: as, st, reps, rs, st', ha, hinv, h => by
    simp only [mapAssign] at h
    split at h
    · simp at h
    · rename_i r st1 h1
      split at h
      · simp at h
      · rename_i rs' st2 h2
        simp only [Except.ok.injEq, Prod.mk.injEq] at h
        obtain ⟨rfl, rfl⟩ := h
        obtain ⟨reps1, i1, x1, g1⟩ := compT_memoized (ha a (by simp)).1 st reps r st1 hinv h1
        obtain ⟨i1', x1', g1'⟩ := assignNew_T hnc 0 none (by simp) (ha a (by simp)).2 i1 g1
        obtain ⟨reps2, i2, x2, g2⟩ := mapAssign_T hnc as _ reps1 rs' st2 (fun a h => ha a (by simp [h])) i1' h2
        refine ⟨reps2, i2, TExt.trans (x1.mono ?_) (TExt.trans x1'.of_nil (x2.mono ?_)), List.Forall₂.cons (g1'.ext x2) g2⟩
        · intro o ho; simp only [opsL_single] at ho; simp [opsL, ho]
        · intro o ho; simp only [List.map_cons, opsL, List.mem_append]; exact Or.inr ho

/-- list version of `TGood` for a node with children `es` compiled to `rs` -/
structure TGoodL (c : Cfg) (e0 : Expr) (reps : List Expr) (code : List Stmt) (es rs : List Expr) : Prop where
  cov : ∀ x, (false, x) ∈ depsL es → x ∈ inputsOf code ∨ (false, x) ∈ depsL rs
  covOps : ∀ o ∈ opsL es, ∀ x, (false, x) ∈ deps o → x ∈ inputsOf code
  cse : ∀ s ∈ subsL rs, isCse s = true → s ∈ subs e0
  fts : ∀ o ∈ opsL es, feat c o ∈ reps.map (feat c)

theorem TGoodL.of {reps : List Expr} {code : List Stmt} {es rs : List Expr}
    (h : List.Forall₂ (TGood c e0 reps code) es rs) : TGoodL c e0 reps code es rs := by
  induction h with
  | nil => exact ⟨by simp [depsL], by simp [opsL], by simp [subsL], by simp [opsL]⟩
  | cons h _ ih =>
    refine ⟨?_, ?_, ?_, ?_⟩
    · intro x hx
      simp only [depsL, List.mem_append] at hx ⊢
      rcases hx with hx | hx
      · rcases h.cov x hx with h | h
        · exact Or.inl h
        · exact Or.inr (Or.inl h)
      · rcases ih.cov x hx with h | h
        · exact Or.inl h
        · exact Or.inr (Or.inr h)
    · intro o ho
      simp only [opsL, List.mem_append] at ho
      rcases ho with ho | ho
      · exact h.covOps o ho
      · exact ih.covOps o ho
    · intro s hs
      simp only [subsL, List.mem_append] at hs
      rcases hs with hs | hs
      · exact h.cse s hs
      · exact ih.cse s hs
    · intro o ho
      simp only [opsL, List.mem_append] at ho
      rcases ho with ho | ho
      · exact h.fts o ho
      · exact ih.fts o ho

theorem sumRest_T (hnc : NoClash e0) :
    ∀ (as : List Act) (es : List Expr) (v : Expr) (st : St) (reps : List Expr) (r : Expr) (st' : St),
    (∀ a ∈ as, CompT c e0 a.1 a.2 ∧ Usr e0 a.1) → (∀ e ∈ es, Usr e0 e) → TInv c e0 st reps →
    TGood c e0 reps st.code (.sum es) v →
    sumRest v as st = .ok (r, st') →
    ∃ reps', TInv c e0 st' reps' ∧ TExt c (as.map Prod.fst) st reps st' reps' ∧
      TGood c e0 reps' st'.code (.sum (es ++ as.map Prod.fst)) r
  | [], es, v, st, reps, r, st', _, _, hinv, hg, h => by
    simp only [sumRest, Except.ok.injEq, Prod.mk.injEq] at h
    obtain ⟨rfl, rfl⟩ := h
    exact ⟨reps, hinv, TExt.refl _ _, by simpa using hg⟩
  | a :: as, es, v, st, reps, r, st', ha, hes, hinv, hg, h => by
    simp only [sumRest] at h
    split at h
    · simp at h
    · rename_i r1 st1 h1
      obtain ⟨reps1, i1, x1, g1⟩ := compT_memoized (ha a (by simp)).1 st reps r1 st1 hinv h1
      have hg1 := hg.ext x1
      have hgs : TGood c e0 reps1 st1.code (.sum (es ++ [a.1])) (.sum [v, r1]) := by
        refine ⟨?_, ?_, ?_, ?_⟩
        · intro x hx
          simp only [deps, mem_depsL] at hx
          obtain ⟨e, he, hx⟩ := hx
          simp only [deps, depsL, List.append_nil, List.mem_append]
          rcases List.mem_append.1 he with he | he
          · rcases hg1.cov x (by simp only [deps, mem_depsL]; exact ⟨e, he, hx⟩) with h | h
            · exact Or.inl h
            · exact Or.inr (Or.inl h)
          · simp only [List.mem_singleton] at he
            subst he
            rcases g1.cov x hx with h | h
            · exact Or.inl h
            · exact Or.inr (Or.inr h)
        · intro o ho
          simp only [ops, mem_opsL] at ho
          obtain ⟨e, he, ho⟩ := ho
          rcases List.mem_append.1 he with he | he
          · exact hg1.covOps o (by simp only [ops, mem_opsL]; exact ⟨e, he, ho⟩)
          · simp only [List.mem_singleton] at he
            subst he
            exact g1.covOps o ho
        · intro s hs hc
          simp only [subs, subsL, List.append_nil, List.mem_cons, List.mem_append] at hs
          rcases hs with hs | hs | hs
          · subst hs; simp [isCse] at hc
          · exact hg1.cse s hs hc
          · exact g1.cse s hs hc
        · intro o ho
          simp only [ops, mem_opsL] at ho
          obtain ⟨e, he, ho⟩ := ho
          rcases List.mem_append.1 he with he | he
          · exact hg1.fts o (by simp only [ops, mem_opsL]; exact ⟨e, he, ho⟩)
          · simp only [List.mem_singleton] at he
            subst he
            exact g1.fts o ho
      have hus : ∀ e ∈ es ++ [a.1], Usr e0 e := by
        intro e he
        rcases List.mem_append.1 he with he | he
        · exact hes e he
        · simp only [List.mem_singleton] at he
          subst he; exact (ha a (by simp)).2
      obtain ⟨i2, x2, g2⟩ := assignNew_T hnc 0 none (by simp) (by
        intro x hx
        simp only [deps, mem_depsL] at hx
        obtain ⟨e, he, hx⟩ := hx
        exact hus e he x hx) i1 hgs
      obtain ⟨reps3, i3, x3, g3⟩ := sumRest_T hnc as (es ++ [a.1]) _ _ reps1 r st'
        (fun a h => ha a (by simp [h])) hus i2 g2 h
      refine ⟨reps3, i3, TExt.trans (x1.mono ?_) (TExt.trans x2.of_nil (x3.mono ?_)), by simpa using g3⟩
      · intro o ho; simp only [opsL_single] at ho; simp [opsL, ho]
      · intro o ho; simp only [List.map_cons, opsL, List.mem_append]; exact Or.inr ho

theorem sumFold_T (hnc : NoClash e0) (as : List Act)
    (ha : ∀ a ∈ as, CompT c e0 a.1 a.2 ∧ Usr e0 a.1) :
    CompT c e0 (.sum (as.map Prod.fst)) (sumFold as) := by
  intro st reps r st' hinv h
  cases as with
  | nil => simp [sumFold] at h
  | cons a as =>
    simp only [sumFold] at h
    split at h
    · simp at h
    · rename_i r1 st1 h1
      obtain ⟨reps1, i1, x1, g1⟩ := compT_memoized (ha a (by simp)).1 st reps r1 st1 hinv h1
      obtain ⟨i2, x2, g2⟩ := assignNew_T hnc 0 none (by simp) (ha a (by simp)).2 i1 g1
      obtain ⟨reps3, i3, x3, g3⟩ := sumRest_T hnc as [a.1] _ _ reps1 r st'
        (fun a h => ha a (by simp [h])) (by simpa using (ha a (by simp)).2) i2
        ⟨by simpa [deps, depsL] using g2.cov, by simpa [ops, opsL] using g2.covOps, g2.cse,
          by simpa [ops, opsL] using g2.fts⟩ h
      refine ⟨reps3, i3, TExt.trans (x1.mono ?_) (TExt.trans x2.of_nil (x3.mono ?_)), by simpa using g3⟩
      · intro o ho; simp only [opsL_single] at ho; simp [opsL, ops, ho]
      · intro o ho
        rw [opsL_single]
        simp only [List.map_cons, ops, opsL, List.mem_append]; exact Or.inr ho

/-! ### sizes -/

mutual
/-- proof device: size of an expression -/
def sz : Expr → Nat
  | .num _ | .var _ | .nir _ | .sub _ _ => 1
  | .op _ l => szL l + 1
  | .ite c a b => sz c + sz a + sz b + 1
  | .sum l => szL l + 1
  | .arr l => szL l + 1
  | .cse _ _ c => sz c + 1
  | .intg _ d k => szL d + szL k + 1
/-- proof device: size of a list of expressions -/
def szL : List Expr → Nat
  | [] => 0
  | e :: l => sz e + szL l
end

theorem sz_mem {e : Expr} : ∀ {l : List Expr}, e ∈ l → sz e ≤ szL l
  | a :: l, h => by
    simp only [szL]
    rcases List.mem_cons.1 h with h | h
    · subst h; omega
    · have := sz_mem h; omega

mutual
theorem sz_subs {s : Expr} : ∀ (e : Expr), s ∈ subs e → sz s ≤ sz e
  | .num _, h => by simp [subs] at h; subst h; exact Nat.le_refl _
  | .var _, h => by simp [subs] at h; subst h; exact Nat.le_refl _
  | .nir _, h => by simp [subs] at h; subst h; exact Nat.le_refl _
  | .sub _ _, h => by simp [subs] at h; subst h; exact Nat.le_refl _
  | .op f l, h => by
    simp only [subs, List.mem_cons] at h
    rcases h with h | h
    · subst h; exact Nat.le_refl _
    · have := sz_subsL l h; simp only [sz]; omega
  | .ite c a b, h => by
    simp only [subs, List.mem_cons, List.mem_append] at h
    rcases h with h | (h | h) | h
    · subst h; exact Nat.le_refl _
    · have := sz_subs c h; simp only [sz]; omega
    · have := sz_subs a h; simp only [sz]; omega
    · have := sz_subs b h; simp only [sz]; omega
  | .sum l, h => by
    simp only [subs, List.mem_cons] at h
    rcases h with h | h
    · subst h; exact Nat.le_refl _
    · have := sz_subsL l h; simp only [sz]; omega
  | .arr l, h => by
    simp only [subs, List.mem_cons] at h
    rcases h with h | h
    · subst h; exact Nat.le_refl _
    · have := sz_subsL l h; simp only [sz]; omega
  | .cse p sc c, h => by
    simp only [subs, List.mem_cons] at h
    rcases h with h | h
    · subst h; exact Nat.le_refl _
    · have := sz_subs c h; simp only [sz]; omega
  | .intg g d k, h => by
    simp only [subs, List.mem_cons, List.mem_append] at h
    rcases h with h | h | h
    · subst h; exact Nat.le_refl _
    · have := sz_subsL d h; simp only [sz]; omega
    · have := sz_subsL k h; simp only [sz]; omega
theorem sz_subsL {s : Expr} : ∀ (l : List Expr), s ∈ subsL l → sz s ≤ szL l
  | [], h => by simp [subsL] at h
  | e :: l, h => by
    simp only [subsL, List.mem_append] at h
    simp only [szL]
    rcases h with h | h
    · have := sz_subs e h; omega
    · have := sz_subsL l h; omega
end

theorem mem_zip_right {α β : Type} : ∀ {l : List α} {m : List β}, l.length = m.length →
    ∀ b ∈ m, ∃ a, (a, b) ∈ l.zip m
  | [], [], _, b, h => by simp at h
  | a :: l, b :: m, hl, x, h => by
    rcases List.mem_cons.1 h with h | h
    · subst h; exact ⟨a, by simp⟩
    · obtain ⟨a', h'⟩ := mem_zip_right (l := l) (m := m) (by simpa using hl) x h
      exact ⟨a', by simp [h']⟩

/-- operators with equal features have the same densities and kernel arguments -/
theorem feat_dens {g g' : IG} {d k d' k' : List Expr}
    (hf : feat c (.intg g d k) = feat c (.intg g' d' k'))
    (hl : g.sks.length = d.length) (hk : g.kn.length = k.length) :
    (∀ e ∈ d, e ∈ d') ∧ (∀ e ∈ k, e ∈ k') := by
  simp only [feat, Feat.mk.injEq] at hf
  obtain ⟨-, h2, -, h4⟩ := hf
  constructor
  · intro e he
    obtain ⟨a, ha⟩ := mem_zip_right hl e he
    have p : (g.sks.zip d).Perm (g'.sks.zip d') :=
      (sortKey_perm c.skKey _).symm.trans (h2 ▸ sortKey_perm c.skKey _)
    exact (List.of_mem_zip (p.mem_iff.1 ha)).2
  · intro e he
    obtain ⟨a, ha⟩ := mem_zip_right hk e he
    have p : (g.kn.zip k).Perm (g'.kn.zip k') :=
      (sortKey_perm Prod.fst _).symm.trans (h4 ▸ sortKey_perm Prod.fst _)
    exact (List.of_mem_zip (p.mem_iff.1 ha)).2

/-- an operator nested in the densities or arguments of another one is in a
different group -/
theorem feat_ne_nested (hwf : WF e0) {g : IG} {d k : List Expr} (he : Expr.intg g d k ∈ subs e0)
    {o : Expr} (ho : o ∈ opsL (d ++ k)) : feat c o ≠ feat c (.intg g d k) := by
  intro hf
  obtain ⟨e, hed, hoe⟩ := mem_opsL.1 ho
  obtain ⟨h1, h2⟩ := (mem_ops_iff e).1 hoe
  have hok := hwf _ he
  simp only [OkNode] at hok
  cases o with
  | intg g' d' k' =>
    obtain ⟨hd, hk⟩ := feat_dens hf.symm hok.2.2.1 hok.2.2.2
    have hs := sz_subs e h1
    simp only [sz] at hs
    rcases List.mem_append.1 hed with h | h
    · have := sz_mem (hd e h); omega
    · have := sz_mem (hk e h); omega
  | _ => simp [isIntG] at h2

theorem TGoodL.ext {es : List Expr} {st st' : St} {reps reps' : List Expr} {ds rs : List Expr}
    (h : TGoodL c e0 reps st.code ds rs) (hx : TExt c es st reps st' reps') :
    TGoodL c e0 reps' st'.code ds rs := by
  obtain ⟨x1, h1⟩ := hx.code
  obtain ⟨n1, h3, -⟩ := hx.reps
  refine ⟨?_, ?_, h.cse, ?_⟩
  · intro x hx
    rw [h1, inputsOf_append]
    rcases h.cov x hx with h | h
    · exact Or.inl (List.mem_append_left _ h)
    · exact Or.inr h
  · intro o ho x hx
    rw [h1, inputsOf_append]
    exact List.mem_append_left _ (h.covOps o ho x hx)
  · intro o ho
    rw [h3, List.map_append]
    exact List.mem_append_left _ (h.fts o ho)

theorem forall₂_snoc {α β : Type} {R : α → β → Prop} {l : List α} {m : List β} {a : α} {b : β}
    (h : List.Forall₂ R l m) (hab : R a b) : List.Forall₂ R (l ++ [a]) (m ++ [b]) := by
  induction h with
  | nil => exact List.Forall₂.cons hab List.Forall₂.nil
  | cons h _ ih => exact List.Forall₂.cons h ih

theorem intgBody_T (hwf : WF e0) (hnc : NoClash e0) (hc : CfgOk c) {g : IG} {d k : List Expr}
    {dA kA : List Act} (hdA : dA.map Prod.fst = d) (hkA : kA.map Prod.fst = k)
    (he : Expr.intg g d k ∈ subs e0)
    (hdOk : ∀ a ∈ dA, CompT c e0 a.1 a.2 ∧ Usr e0 a.1) (hkOk : ∀ a ∈ kA, CompT c e0 a.1 a.2) :
    CompT c e0 (.intg g d k) (intgBody c (nub (ops e0)) (.intg g d k) g dA kA) := by
  intro st reps r st' hinv h
  have hok := hwf _ he
  simp only [OkNode] at hok
  obtain ⟨-, -, hlen, hlenk⟩ := hok
  have hself : Expr.intg g d k ∈ nub (ops e0) := mem_nub.2 ((mem_ops_iff e0).2 ⟨he, by simp [isIntG]⟩)
  unfold intgBody at h
  split at h
  · rename_i v hv
    simp only [Except.ok.injEq, Prod.mk.injEq] at h
    obtain ⟨rfl, rfl⟩ := h
    exact ⟨reps, hinv, TExt.refl _ _, hinv.e2v _ (alookup_mem hv)⟩
  rename_i hnone
  have hsperm : (sortedPairs c g dA).Perm (g.sks.zip dA) := sortKey_perm _ _
  generalize hsorted : sortedPairs c g dA = sorted at hsperm h
  have hlenA : g.sks.length = dA.length := by rw [hlen, ← hdA, List.length_map]
  have hes : ((sorted.map Prod.snd).map Prod.fst).Perm d := by
    have := ((hsperm.map Prod.snd).map Prod.fst)
    rw [map_snd_zip_eq hlenA, hdA] at this
    exact this
  split at h
  · simp at h
  split at h
  · simp at h
  rename_i dvars st1 h1
  obtain ⟨reps1, i1, x1, g1⟩ := mapAssign_T hnc (sorted.map Prod.snd) st reps dvars st1 (by
    intro a ha
    obtain ⟨p, hp, rfl⟩ := List.mem_map.1 ha
    exact hdOk _ (List.of_mem_zip (a := p.1) (b := p.2) (hsperm.mem_iff.1 hp)).2) hinv h1
  have hgperm : (groupOf c (nub (ops e0)) (.intg g d k)).Perm
      ((nub (ops e0)).filter (fun o => feat c o = feat c (.intg g d k))) := hc _
  generalize hgroup : groupOf c (nub (ops e0)) (.intg g d k) = group at hgperm h
  have hgmem : ∀ o, o ∈ group ↔ o ∈ nub (ops e0) ∧ feat c o = feat c (.intg g d k) := by
    intro o; rw [hgperm.mem_iff]; simp
  split at h
  · simp at h
  split at h
  · simp at h
  obtain ⟨fn1, fn2, fn3, fn4⟩ := freshNames_spec group.length st1.names
  generalize hfn : freshNames group.length st1.names = fn at fn1 fn2 fn3 fn4 h
  split at h
  · simp at h
  rename_i kvals st3 h3
  have i1' : TInv c e0 { st1 with names := fn.2 } reps1 := ⟨i1.memo, i1.e2v, i1.done, i1.pots,
    i1.nodup, i1.inAll, i1.cse⟩
  obtain ⟨reps3, i3, x3', g3'⟩ := mapRec_T kA _ reps1 kvals st3 hkOk i1' h3
  rw [hkA] at x3' g3'
  have x3 : TExt c k st1 reps1 st3 reps3 := ⟨x3'.code, x3'.reps⟩
  have gd : TGoodL c e0 reps3 st3.code ((sorted.map Prod.snd).map Prod.fst) dvars := (TGoodL.of g1).ext x3
  have gk : TGoodL c e0 reps3 st3.code k kvals := TGoodL.of g3'
  -- the group is new
  have hnew : feat c (.intg g d k) ∉ reps3.map (feat c) := by
    intro hmem
    obtain ⟨n1, e1, f1⟩ := x1.reps
    obtain ⟨n3, e3, f3⟩ := x3.reps
    rw [e3, e1] at hmem
    obtain ⟨o, ho, hf⟩ := List.mem_map.1 hmem
    rcases List.mem_append.1 ho with ho | ho
    · rcases List.mem_append.1 ho with ho | ho
      · obtain ⟨v, hv⟩ := hinv.done _ hself (hf ▸ List.mem_map_of_mem ho)
        have := alookup_isSome_of_mem hv
        rw [hnone] at this
        simp at this
      · obtain ⟨o', h1, h2⟩ := f1 o ho
        obtain ⟨e, h5, h6⟩ := mem_opsL.1 h1
        exact feat_ne_nested hwf he
          (mem_opsL.2 ⟨e, List.mem_append_left _ (hes.mem_iff.1 h5), h6⟩) (h2.symm.trans hf)
    · obtain ⟨o', h1, h2⟩ := f3 o ho
      obtain ⟨e, h5, h6⟩ := mem_opsL.1 h1
      exact feat_ne_nested hwf he
        (mem_opsL.2 ⟨e, List.mem_append_right _ h5, h6⟩) (h2.symm.trans hf)
  generalize hst4 : emitPot c g group fn.1 (sorted.map Prod.fst) dvars kvals st3 = st4 at h
  have hx4 : TExt c [.intg g d k] st3 reps3 st4 (reps3 ++ [.intg g d k]) := by
    rw [← hst4]
    exact ⟨⟨_, rfl⟩, ⟨_, rfl, by
      intro o ho
      simp only [List.mem_singleton] at ho
      subst ho
      exact ⟨_, by simp [opsL, ops], rfl⟩⟩⟩
  have gd4 := gd.ext hx4
  have gk4 := gk.ext hx4
  have hcode4 : st4.code = st3.code ++ [.pot (mkOuts fn.1 group (groupTks c group)) (groupTks c group)
      g.kn kvals (sorted.map Prod.fst) dvars g.src (maxPrio c group)] := by rw [← hst4]; rfl
  have he2v4 : ∀ p, p ∈ st4.e2v ↔ p ∈ st3.e2v ∨ ∃ q ∈ fn.1.zip group, p = (q.2, .nir q.1) := by
    intro p; rw [← hst4]; exact foldl_e2v_mem _ _ _
  -- every variable of a density or argument is read by a statement
  have hrd : ∀ e, e ∈ d ∨ e ∈ k → ∀ x, (false, x) ∈ deps e → x ∈ inputsOf st4.code := by
    intro e hmem x hx
    have hst : ∀ x, (false, x) ∈ depsL dvars ∨ (false, x) ∈ depsL kvals → x ∈ inputsOf st4.code := by
      intro x hx
      rw [hcode4]
      refine mem_inputsOf' (List.mem_append_right _ (List.mem_singleton.2 rfl)) ?_
      simp only [Stmt.dependencies, List.mem_append]
      exact hx
    rcases hmem with hmem | hmem
    · rcases gd4.cov x (mem_depsL.2 ⟨e, hes.mem_iff.2 hmem, hx⟩) with h | h
      · exact h
      · exact hst x (Or.inl h)
    · rcases gk4.cov x (mem_depsL.2 ⟨e, hmem, hx⟩) with h | h
      · exact h
      · exact hst x (Or.inr h)
  have hnested : ∀ o e, (e ∈ d ∨ e ∈ k) → o ∈ ops e →
      (∀ x, (false, x) ∈ deps o → x ∈ inputsOf st4.code) ∧
      feat c o ∈ (reps3 ++ [Expr.intg g d k]).map (feat c) := by
    intro o e hmem ho
    rcases hmem with hmem | hmem
    · have := mem_opsL.2 ⟨e, hes.mem_iff.2 hmem, ho⟩
      exact ⟨gd4.covOps o this, gd4.fts o this⟩
    · have := mem_opsL.2 ⟨e, hmem, ho⟩
      exact ⟨gk4.covOps o this, gk4.fts o this⟩
  -- members of the group
  have hgood : ∀ o ∈ group, ∀ n, TGood c e0 (reps3 ++ [.intg g d k]) st4.code o (.nir n) := by
    intro o ho n
    obtain ⟨ho1, ho2⟩ := (hgmem o).1 ho
    obtain ⟨hos, hoi⟩ := (mem_ops_iff e0).1 (mem_nub.1 ho1)
    cases o with
    | intg g' d' k' =>
      have hok' := hwf _ hos
      simp only [OkNode] at hok'
      obtain ⟨fd, fk⟩ := feat_dens ho2 hok'.2.2.1 hok'.2.2.2
      have hcovo : ∀ x, (false, x) ∈ deps (.intg g' d' k') → x ∈ inputsOf st4.code := by
        intro x hx
        simp only [deps, List.mem_append, mem_depsL] at hx
        rcases hx with ⟨e, h1, h2⟩ | ⟨e, h1, h2⟩
        · exact hrd e (Or.inl (fd e h1)) x h2
        · exact hrd e (Or.inr (fk e h1)) x h2
      have hcases : ∀ o ∈ ops (.intg g' d' k'), o = .intg g' d' k' ∨
          ∃ e, (e ∈ d ∨ e ∈ k) ∧ o ∈ ops e := by
        intro o ho
        simp only [ops, List.mem_cons, List.mem_append, mem_opsL] at ho
        rcases ho with h | ⟨e, h1, h2⟩ | ⟨e, h1, h2⟩
        · exact Or.inl h
        · exact Or.inr ⟨e, Or.inl (fd e h1), h2⟩
        · exact Or.inr ⟨e, Or.inr (fk e h1), h2⟩
      refine ⟨fun x hx => Or.inl (hcovo x hx), ?_, ?_, ?_⟩
      · intro o ho
        rcases hcases o ho with h | ⟨e, h1, h2⟩
        · subst h; exact hcovo
        · exact (hnested o e h1 h2).1
      · intro s hs hc
        simp only [subs, List.mem_singleton] at hs
        subst hs; simp [isCse] at hc
      · intro o ho
        rcases hcases o ho with h | ⟨e, h1, h2⟩
        · subst h; rw [ho2]; simp
        · exact (hnested o e h1 h2).2
    | _ => simp [isIntG] at hoi
  have hzip : ∀ o ∈ group, ∃ n, (n, o) ∈ fn.1.zip group := fun o ho => mem_zip_right (by rw [fn1]) o ho
  have i4 : TInv c e0 st4 (reps3 ++ [.intg g d k]) := by
    refine ⟨?_, ?_, ?_, ?_, ?_, ?_, ?_⟩
    · intro p hp
      have : st4.memo = st3.memo := by rw [← hst4]; rfl
      rw [this] at hp
      exact (i3.memo p hp).ext hx4
    · intro p hp
      rcases (he2v4 p).1 hp with h | ⟨q, hq, rfl⟩
      · exact (i3.e2v p h).ext hx4
      · exact hgood q.2 (List.of_mem_zip (a := q.1) (b := q.2) hq).2 _
    · intro o ho hf
      rw [List.map_append, List.mem_append] at hf
      rcases hf with hf | hf
      · obtain ⟨v, hv⟩ := i3.done o ho hf
        exact ⟨v, (he2v4 _).2 (Or.inl hv)⟩
      · simp only [List.map_cons, List.map_nil, List.mem_singleton] at hf
        obtain ⟨n, hn⟩ := hzip o ((hgmem o).2 ⟨ho, hf⟩)
        exact ⟨.nir n, (he2v4 _).2 (Or.inr ⟨(n, o), hn, rfl⟩)⟩
    · rw [hcode4, List.filter_append]
      simp only [List.filter_cons, isPot, if_true, List.filter_nil]
      refine forall₂_snoc i3.pots ?_
      have hgs : Expr.intg g d k ∈ group := (hgmem _).2 ⟨hself, rfl⟩
      obtain ⟨hmp1, o1, hmp2, hmp3⟩ := maxPrio_spec c group (List.ne_nil_of_mem hgs)
      refine ⟨fun o' h1 h2 => hmp1 o' ((hgmem o').2 ⟨h1, h2⟩),
        ⟨o1, ((hgmem o1).1 hmp2).1, ((hgmem o1).1 hmp2).2, hmp3⟩, rfl, rfl, ?_, ?_, ?_⟩
      · have := hsperm.map Prod.fst
        rw [map_fst_zip_eq hlenA] at this
        exact this
      · rw [← hgperm.length_eq]
        simp [mkOuts, fn1]
      · intro g' d' k' hm hf
        have hog := (hgmem _).2 ⟨hm, hf⟩
        obtain ⟨n, hn⟩ := hzip _ hog
        refine ⟨_, List.mem_map_of_mem hn, ?_, rfl, rfl⟩
        apply tks_lookup
        simp only [groupTks, List.mem_map]
        exact ⟨.intg g' d' k', (sortKey_perm _ _).mem_iff.2 hog, rfl⟩
    · rw [List.map_append, List.nodup_append]
      refine ⟨i3.nodup, by simp, ?_⟩
      intro a ha b hb
      simp only [List.map_cons, List.map_nil, List.mem_singleton] at hb
      subst hb
      exact fun hh => hnew (hh ▸ ha)
    · intro o ho
      rcases List.mem_append.1 ho with ho | ho
      · exact i3.inAll o ho
      · simp only [List.mem_singleton] at ho
        subst ho; exact hself
    · intro s hs r hr
      rw [hcode4] at hs
      rcases List.mem_append.1 hs with hs | hs
      · exact i3.cse s hs r hr
      · simp only [List.mem_singleton] at hs
        subst hs
        simp only [stmtExprs, List.mem_append] at hr
        intro s hs
        rcases hr with hr | hr
        · exact gd.cse s (mem_subsL.2 ⟨r, hr, hs⟩)
        · exact gk.cse s (mem_subsL.2 ⟨r, hr, hs⟩)
  have xall : TExt c [.intg g d k] st reps st4 (reps3 ++ [.intg g d k]) := by
    refine TExt.trans (x1.mono ?_) (TExt.trans (x3.mono ?_) hx4)
    · intro o ho
      obtain ⟨e, h5, h6⟩ := mem_opsL.1 ho
      rw [opsL_single]
      simp only [ops, List.mem_cons, List.mem_append, mem_opsL]
      exact Or.inr (Or.inl ⟨e, hes.mem_iff.1 h5, h6⟩)
    · intro o ho
      rw [opsL_single]
      simp only [ops, List.mem_cons, List.mem_append]
      exact Or.inr (Or.inr ho)
  simp only at h
  split at h
  · rename_i v hv
    simp only [Except.ok.injEq, Prod.mk.injEq] at h
    obtain ⟨rfl, rfl⟩ := h
    exact ⟨_, i4, xall, i4.e2v _ (alookup_mem hv)⟩
  · simp at h

theorem TExt.one {e : Expr} {es : List Expr} {st st' : St} {reps reps' : List Expr}
    (h : TExt c es st reps st' reps') (hs : ∀ o ∈ opsL es, o ∈ ops e) :
    TExt c [e] st reps st' reps' := h.mono (by simpa [opsL_single] using hs)

theorem leaf_T {e : Expr} (he : e ∈ subs e0) (ho : ops e = []) :
    CompT c e0 e (fun st => .ok (e, st)) := by
  intro st reps r st' hinv h
  simp only [Except.ok.injEq, Prod.mk.injEq] at h
  obtain ⟨rfl, rfl⟩ := h
  refine ⟨reps, hinv, TExt.refl _ _, fun x hx => Or.inr hx, by simp [ho], ?_, by simp [ho]⟩
  intro s hs _
  exact subs_trans e0 hs he

mutual
theorem compU_T (hwf : WF e0) (hnc : NoClash e0) (hc : CfgOk c) : ∀ (e : Expr), e ∈ subs e0 →
    CompT c e0 e (compU c (nub (ops e0)) e)
  | .num n, he => by simpa [compU] using leaf_T he (by simp [ops])
  | .var x, he => by simpa [compU] using leaf_T he (by simp [ops])
  | .nir x, he => by simpa [compU] using leaf_T he (by simp [ops])
  | .sub x i, he => by simpa [compU] using leaf_T he (by simp [ops])
  | .op f l, he => by
    intro st reps r st' hinv h
    simp only [compU] at h
    split at h
    · simp at h
    · rename_i rs st1 h1
      simp only [Except.ok.injEq, Prod.mk.injEq] at h
      obtain ⟨rfl, rfl⟩ := h
      have hl : ∀ e ∈ l, e ∈ subs e0 := fun e hel =>
        subs_trans e0 (t := .op f l) (by simp only [subs, List.mem_cons]; exact Or.inr (mem_subs_child hel)) he
      obtain ⟨reps', i1, x1, g1⟩ := mapRec_T _ st reps rs st1
        (fun a ha => (actsT hwf hnc hc l hl a ha).1) hinv h1
      rw [acts_fst] at x1 g1
      have g := TGoodL.of g1
      refine ⟨reps', i1, x1.one (by simp [ops]), g.cov, g.covOps, ?_, g.fts⟩
      intro s hs hcs
      simp only [subs, List.mem_cons] at hs
      rcases hs with hs | hs
      · subst hs; simp [isCse] at hcs
      · exact g.cse s hs hcs
  | .ite a b d, he => by
    intro st reps r st' hinv h
    have ha : a ∈ subs e0 := subs_trans e0 (t := .ite a b d) (by
      simp only [subs, List.mem_cons, List.mem_append]; exact Or.inr (Or.inl (Or.inl (self_mem_subs a)))) he
    have hb : b ∈ subs e0 := subs_trans e0 (t := .ite a b d) (by
      simp only [subs, List.mem_cons, List.mem_append]; exact Or.inr (Or.inl (Or.inr (self_mem_subs b)))) he
    have hd : d ∈ subs e0 := subs_trans e0 (t := .ite a b d) (by
      simp only [subs, List.mem_cons, List.mem_append]; exact Or.inr (Or.inr (self_mem_subs d))) he
    simp only [compU] at h
    split at h
    · simp at h
    rename_i ra st1 h1
    split at h
    · simp at h
    rename_i rb st2 h2
    split at h
    · simp at h
    rename_i rd st3 h3
    simp only [Except.ok.injEq, Prod.mk.injEq] at h
    obtain ⟨rfl, rfl⟩ := h
    obtain ⟨reps1, i1, x1, g1⟩ := compT_memoized (compU_T hwf hnc hc a ha) st reps _ _ hinv h1
    obtain ⟨reps2, i2, x2, g2⟩ := compT_memoized (compU_T hwf hnc hc b hb) st1 reps1 _ _ i1 h2
    obtain ⟨reps3, i3, x3, g3⟩ := compT_memoized (compU_T hwf hnc hc d hd) st2 reps2 _ _ i2 h3
    have g := TGoodL.of (List.Forall₂.cons ((g1.ext x2).ext x3)
      (List.Forall₂.cons (g2.ext x3) (List.Forall₂.cons g3 List.Forall₂.nil)))
    refine ⟨reps3, i3, (x1.one (by simp +contextual [opsL, ops])).trans
      ((x2.one (by simp +contextual [opsL, ops])).trans (x3.one (by simp +contextual [opsL, ops]))),
      ?_, ?_, ?_, ?_⟩
    · have := g.cov; simpa [deps, depsL, or_assoc] using this
    · have := g.covOps; simpa [ops, opsL, or_assoc] using this
    · intro s hs hcs
      simp only [subs, List.mem_cons, List.mem_append] at hs
      rcases hs with hs | hs
      · subst hs; simp [isCse] at hcs
      · exact g.cse s (by simpa [subsL, or_assoc] using hs) hcs
    · have := g.fts; simpa [ops, opsL, or_assoc] using this
  | .sum l, he => by
    have hl : ∀ e ∈ l, e ∈ subs e0 := fun e hel =>
      subs_trans e0 (t := .sum l) (by simp only [subs, List.mem_cons]; exact Or.inr (mem_subs_child hel)) he
    have := sumFold_T hnc (acts c (nub (ops e0)) l) (actsT hwf hnc hc l hl)
    rw [acts_fst] at this
    simpa [compU] using this
  | .arr l, he => by
    intro st reps r st' hinv h
    simp only [compU] at h
    split at h
    · simp at h
    · rename_i rs st1 h1
      simp only [Except.ok.injEq, Prod.mk.injEq] at h
      obtain ⟨rfl, rfl⟩ := h
      have hl : ∀ e ∈ l, e ∈ subs e0 := fun e hel =>
        subs_trans e0 (t := .arr l) (by simp only [subs, List.mem_cons]; exact Or.inr (mem_subs_child hel)) he
      obtain ⟨reps', i1, x1, g1⟩ := mapAssign_T hnc _ st reps rs st1
        (actsT hwf hnc hc l hl) hinv h1
      rw [acts_fst] at x1 g1
      have g := TGoodL.of g1
      refine ⟨reps', i1, x1.one (by simp [ops]), g.cov, g.covOps, ?_, g.fts⟩
      intro s hs hcs
      simp only [subs, List.mem_cons] at hs
      rcases hs with hs | hs
      · subst hs; simp [isCse] at hcs
      · exact g.cse s hs hcs
  | .cse p sc ch, he => by
    intro st reps r st' hinv h
    have hch : ch ∈ subs e0 := subs_trans e0 (t := .cse p sc ch) (by
      simp only [subs, List.mem_cons]; exact Or.inr (self_mem_subs ch)) he
    simp only [compU] at h
    split at h
    · rename_i hsc
      have ho : ops ch = [] := hwf _ he hsc
      exact leaf_T he (by simpa [ops] using ho) st reps r st' hinv h
    · split at h
      · rename_i v hv
        simp only [Except.ok.injEq, Prod.mk.injEq] at h
        obtain ⟨rfl, rfl⟩ := h
        have g := hinv.e2v _ (alookup_mem hv)
        exact ⟨reps, hinv, TExt.refl _ _, g.cov, g.covOps, g.cse, g.fts⟩
      · split at h
        · simp at h
        rename_i r1 st1 h1
        have hcomp : ∃ reps1, TInv c e0 st1 reps1 ∧ TExt c [ch] st reps st1 reps1 ∧
            TGood c e0 reps1 st1.code ch r1 := by
          split at h1
          · exact compU_T hwf hnc hc ch hch st reps _ _ hinv h1
          · exact compT_memoized (compU_T hwf hnc hc ch hch) st reps _ _ hinv h1
        obtain ⟨reps1, i1, x1, g1⟩ := hcomp
        obtain ⟨i2, x2, g2⟩ := assignNew_T hnc (c.prio (.cse p sc ch)) p (by
          intro q hq; subst hq; exact ⟨sc, ch, he⟩) (Usr.of_sub hch) i1 g1
        simp only [Except.ok.injEq, Prod.mk.injEq] at h
        obtain ⟨rfl, rfl⟩ := h
        refine ⟨reps1, { i2 with e2v := ?_, done := ?_ }, ?_, g2.cov, g2.covOps, g2.cse, g2.fts⟩
        · intro q hq
          rcases List.mem_cons.1 hq with hq | hq
          · subst hq; exact g2
          · exact i2.e2v q hq
        · intro o ho hf
          obtain ⟨v, hv⟩ := i2.done o ho hf
          exact ⟨v, List.mem_cons_of_mem _ hv⟩
        · have := (x1.one (e := .cse p sc ch) (by simp [opsL, ops])).trans x2.of_nil
          exact ⟨this.code, this.reps⟩
  | .intg g d k, he => by
    have hd : ∀ e ∈ d, e ∈ subs e0 := fun e hel =>
      subs_trans e0 (t := .intg g d k) (by
        simp only [subs, List.mem_cons, List.mem_append]; exact Or.inr (Or.inl (mem_subs_child hel))) he
    have hk : ∀ e ∈ k, e ∈ subs e0 := fun e hel =>
      subs_trans e0 (t := .intg g d k) (by
        simp only [subs, List.mem_cons, List.mem_append]; exact Or.inr (Or.inr (mem_subs_child hel))) he
    simp only [compU]
    exact intgBody_T hwf hnc hc (acts_fst _ _ _) (acts_fst _ _ _) he (actsT hwf hnc hc d hd)
      (fun a ha => (actsT hwf hnc hc k hk a ha).1)
theorem actsT (hwf : WF e0) (hnc : NoClash e0) (hc : CfgOk c) : ∀ (l : List Expr),
    (∀ e ∈ l, e ∈ subs e0) → ∀ a ∈ acts c (nub (ops e0)) l, CompT c e0 a.1 a.2 ∧ Usr e0 a.1
  | [], _, a, ha => by simp [acts] at ha
  | e :: l, hl, a, ha => by
    simp only [acts, List.mem_cons] at ha
    rcases ha with ha | ha
    · subst ha
      exact ⟨compU_T hwf hnc hc e (hl e (by simp)), Usr.of_sub (hl e (by simp))⟩
    · exact actsT hwf hnc hc l (fun e he => hl e (by simp [he])) a ha
end

theorem init_T : TInv c e0 St.init [] :=
  ⟨by simp [St.init], by simp [St.init], by simp, by simp [St.init], by simp, by simp, by simp [St.init]⟩

/-- Result of compiling a whole expression. -/
theorem compile_T (hwf : WF e0) (hnc : NoClash e0) (hc : CfgOk c) {r : Expr} {st : St}
    (h : memoized e0 (compU c (nub (ops e0)) e0) St.init = .ok (r, st)) :
    ∃ reps, TInv c e0 st reps ∧ TGood c e0 reps st.code e0 r := by
  obtain ⟨reps, h1, -, h3⟩ := compT_memoized (compU_T hwf hnc hc e0 (self_mem_subs e0)) _ _ _ _
    init_T h
  exact ⟨reps, h1, h3⟩

end Verif.Compiler
