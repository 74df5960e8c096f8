import Verif.Compiler.Props

/-!
# The drawing of the dataflow of compiled code (C89)

`dot_dataflow_graph` (`pytential/symbolic/compiler.py:327-384`) draws `Code`: one node per statement, a node `initial`, a
node `result`, and an arrow for every value handed on.  The model keeps nodes and arrows and leaves out the text of labels
(arrows are labelled with the expression whose value they carry).  The `dep_mapper` argument is the compiler's.
-/

namespace Verif.Compiler.Dataflow

open Verif.Compiler

/-- nodes of the drawing: `initial`, `result` (`compiler.py:335-338`) and `node0`, `node1`, … (`compiler.py:340-342`) -/
inductive Node
  | initial
  | result
  | stmt (k : Nat)
deriving DecidableEq, Repr

/-- an arrow `orig -> target [label="expr"]` (`compiler.py:368-370`) -/
structure Arrow where
  orig : Node
  target : Node
  label : Expr
deriving DecidableEq

/-- `Code.statements` (`compiler.py:416-418`) -/
def statements (code : Code) : List Stmt := code.schedule.map Prod.fst

/-- `for assignee in insn.get_assignees(): origins[assignee] = node_name` (`compiler.py:357-358`) -/
def setOrigins (k : Nat) (o : List (String × Nat)) : List String → List (String × Nat)
  | [] => o
  | x :: xs => setOrigins k ((x, k) :: o) xs

/-- the loop filling `origins` (`compiler.py:340-358`); the newest entry of a name is found first -/
def originsFrom (k : Nat) (o : List (String × Nat)) : List Stmt → List (String × Nat)
  | [] => o
  | s :: l => originsFrom (k + 1) (setOrigins k o s.assignees) l

/-- `origins.get(name, "initial")` (`compiler.py:364`) -/
def originOf (o : List (String × Nat)) (x : String) : Node :=
  match o.lookup x with
  | some k => .stmt k
  | none => .initial

/-- `get_orig_node` (`compiler.py:360-366`): `Variable`s (also the compiler's own) by name, everything else `initial` -/
def origNode (o : List (String × Nat)) : Expr → Node
  | .var x => originOf o x
  | .nir x => originOf o x
  | _ => .initial

/-- `gen_expr_arrow` (`compiler.py:368-370`) -/
def arrow (o : List (String × Nat)) (target : Node) (e : Expr) : Arrow := ⟨origNode o e, target, e⟩

/-- a dependency as an expression: dependencies are `Variable`s, the compiler's own are `NamedIntermediateResult`s -/
def depExpr (d : Bool × String) : Expr := if d.1 then .nir d.2 else .var d.2

/-- the arrows into the statements (`compiler.py:372-374`); dependencies form a set -/
def stmtArrowsFrom (o : List (String × Nat)) (k : Nat) : List Stmt → List Arrow
  | [] => []
  | s :: l => ((nub s.dependencies).map (fun d => arrow o (.stmt k) (depExpr d))) ++ stmtArrowsFrom o (k + 1) l

/-- the arrows into `result` (`compiler.py:376-382`): one per component of an object array, else one -/
def resultArrows (o : List (String × Nat)) : Expr → List Arrow
  | .arr l => l.map (arrow o .result)
  | e => [arrow o .result e]

/-- the nodes drawn for the statements (`compiler.py:340-355`) -/
def nodes (code : Code) : List Node :=
  .initial :: .result :: (List.range (statements code).length).map Node.stmt

/-- `origins` after the loop -/
def origins (code : Code) : List (String × Nat) := originsFrom 0 [] (statements code)

/-- the arrows of `dot_dataflow_graph` (`compiler.py:327-384`) -/
def arrows (code : Code) : List Arrow :=
  stmtArrowsFrom (origins code) 0 (statements code) ++ resultArrows (origins code) code.result

/-! ## Specification -/

/-- the value of variable `x` comes from node `n`: the statement assigning it, or from outside -/
def ComesFrom (stmts : List Stmt) (x : String) (n : Node) : Prop :=
  (∃ (i : Nat) (s : Stmt), stmts[i]? = some s ∧ x ∈ s.assignees ∧ n = .stmt i) ∨
    ((∀ s ∈ stmts, x ∉ s.assignees) ∧ n = .initial)

/-- the drawing shows an arrow labelled with the variable `x` -/
def Drawn (code : Code) (n t : Node) (x : String) : Prop :=
  ∃ v, (v = .var x ∨ v = .nir x) ∧ (⟨n, t, v⟩ : Arrow) ∈ arrows code

/-- the values making up the result -/
def parts : Expr → List Expr
  | .arr l => l
  | e => [e]

/-! ## Proofs -/

theorem lookup_setOrigins (k : Nat) (x : String) : ∀ (l : List String) (o : List (String × Nat)),
    (setOrigins k o l).lookup x = if x ∈ l then some k else o.lookup x
  | [], o => by simp [setOrigins]
  | y :: l, o => by
    simp only [setOrigins, lookup_setOrigins k x l]
    by_cases h : x ∈ l
    · simp [h]
    · rw [if_neg h]
      by_cases hy : x = y
      · subst hy; simp [List.lookup]
      · have : (x == y) = false := by simpa using hy
        simp [List.lookup, this, h, hy]

theorem lookup_originsFrom (x : String) : ∀ (l : List Stmt) (k : Nat) (o : List (String × Nat)),
    (l.flatMap Stmt.assignees).Nodup →
    (∀ (i : Nat) (s : Stmt), l[i]? = some s → x ∈ s.assignees → (originsFrom k o l).lookup x = some (k + i)) ∧
    ((∀ s ∈ l, x ∉ s.assignees) → (originsFrom k o l).lookup x = o.lookup x)
  | [], k, o, _ => by simp [originsFrom]
  | s :: l, k, o, hnd => by
    rw [List.flatMap_cons, List.nodup_append] at hnd
    obtain ⟨-, h2, h3⟩ := hnd
    obtain ⟨ih1, ih2⟩ := lookup_originsFrom x l (k + 1) (setOrigins k o s.assignees) h2
    refine ⟨?_, ?_⟩
    · intro i t ht hx
      cases i with
      | zero =>
        simp only [List.getElem?_cons_zero, Option.some.injEq] at ht
        subst ht
        simp only [originsFrom]
        rw [ih2, lookup_setOrigins, if_pos hx]
        · rfl
        · intro t ht hxt
          exact h3 x hx x (List.mem_flatMap.2 ⟨t, ht, hxt⟩) rfl
      | succ i =>
        simp only [List.getElem?_cons_succ] at ht
        simp only [originsFrom]
        rw [ih1 i t ht hx]
        congr 1
        omega
    · intro h
      simp only [originsFrom]
      rw [ih2 (fun t ht => h t (List.mem_cons_of_mem _ ht)), lookup_setOrigins,
        if_neg (h s List.mem_cons_self)]

theorem lookup_bound (x : String) : ∀ (l : List Stmt) (k : Nat) (o : List (String × Nat)),
    (∀ m, o.lookup x = some m → m < k) → ∀ m, (originsFrom k o l).lookup x = some m → m < k + l.length
  | [], k, o, ho, m, h => ho m h
  | s :: l, k, o, ho, m, h => by
    have := lookup_bound x l (k + 1) (setOrigins k o s.assignees) ?_ m h
    · simp only [List.length_cons]
      omega
    · intro m hm
      rw [lookup_setOrigins] at hm
      split at hm
      · simp at hm
        omega
      · have := ho m hm
        omega

theorem originOf_iff {stmts : List Stmt} (hnd : (stmts.flatMap Stmt.assignees).Nodup) (x : String) (n : Node) :
    originOf (originsFrom 0 [] stmts) x = n ↔ ComesFrom stmts x n := by
  obtain ⟨h1, h2⟩ := lookup_originsFrom x stmts 0 [] hnd
  by_cases h : ∃ (i : Nat) (s : Stmt), stmts[i]? = some s ∧ x ∈ s.assignees
  · obtain ⟨i, s, hs, hx⟩ := h
    have := h1 i s hs hx
    rw [Nat.zero_add] at this
    simp only [originOf, this]
    constructor
    · rintro rfl
      exact Or.inl ⟨i, s, hs, hx, rfl⟩
    · rintro (⟨j, t, ht, hxt, rfl⟩ | ⟨hno, -⟩)
      · have := h1 j t ht hxt
        rw [Nat.zero_add] at this
        simp_all
      · exact absurd hx (hno s (List.mem_of_getElem? hs))
  · have hno : ∀ s ∈ stmts, x ∉ s.assignees := by
      intro s hs hx
      obtain ⟨i, hi⟩ := List.mem_iff_getElem?.1 hs
      exact h ⟨i, s, hi, hx⟩
    have := h2 hno
    simp only [originOf, this, List.lookup]
    constructor
    · rintro rfl
      exact Or.inr ⟨hno, rfl⟩
    · rintro (⟨j, t, ht, hxt, rfl⟩ | ⟨-, rfl⟩)
      · exact absurd ⟨j, t, ht, hxt⟩ h
      · rfl

theorem mem_stmtArrowsFrom (o : List (String × Nat)) (a : Arrow) : ∀ (l : List Stmt) (k : Nat),
    a ∈ stmtArrowsFrom o k l ↔ ∃ (j : Nat) (s : Stmt) (d : Bool × String), l[j]? = some s ∧ d ∈ s.dependencies ∧
      a = arrow o (.stmt (k + j)) (depExpr d)
  | [], k => by simp [stmtArrowsFrom]
  | s :: l, k => by
    simp only [stmtArrowsFrom, List.mem_append, mem_stmtArrowsFrom o a l (k + 1), List.mem_map, mem_nub]
    constructor
    · rintro (⟨d, hd, rfl⟩ | ⟨j, t, d, ht, hd, rfl⟩)
      · exact ⟨0, s, d, rfl, hd, rfl⟩
      · refine ⟨j + 1, t, d, ht, hd, ?_⟩
        rw [Nat.add_right_comm k 1 j]; rfl
    · rintro ⟨j, t, d, ht, hd, rfl⟩
      cases j with
      | zero =>
        simp only [List.getElem?_cons_zero, Option.some.injEq] at ht
        subst ht
        exact Or.inl ⟨d, hd, rfl⟩
      | succ j =>
        refine Or.inr ⟨j, t, d, ht, hd, ?_⟩
        rw [Nat.add_right_comm k 1 j]; rfl

theorem origNode_var {o : List (String × Nat)} {v : Expr} {x : String} (h : v = .var x ∨ v = .nir x) :
    origNode o v = originOf o x := by
  rcases h with rfl | rfl <;> rfl

theorem depExpr_var (d : Bool × String) : depExpr d = .var d.2 ∨ depExpr d = .nir d.2 := by
  unfold depExpr
  cases d.1 <;> simp

theorem resultArrows_eq (o : List (String × Nat)) (r : Expr) :
    resultArrows o r = (parts r).map (arrow o .result) := by
  cases r <;> rfl

/-- the arrows into a statement -/
theorem drawn_stmt {code : Code} (hnd : ((statements code).flatMap Stmt.assignees).Nodup) (n : Node) (j : Nat)
    (x : String) : Drawn code n (.stmt j) x ↔
      ∃ s, (statements code)[j]? = some s ∧ x ∈ s.depNames ∧ ComesFrom (statements code) x n := by
  constructor
  · rintro ⟨v, hv, h⟩
    rw [arrows, List.mem_append, resultArrows_eq, List.mem_map] at h
    rcases h with h | ⟨e, -, h⟩
    · obtain ⟨j', s, d, hs, hd, h⟩ := (mem_stmtArrowsFrom _ _ _ _).1 h
      simp only [arrow, Arrow.mk.injEq, Node.stmt.injEq, Nat.zero_add] at h
      obtain ⟨h1, rfl, rfl⟩ := h
      have hx : d.2 = x := by
        rcases depExpr_var d with h | h <;> rw [h] at hv <;> simpa using hv
      refine ⟨s, hs, hx ▸ List.mem_map_of_mem hd, ?_⟩
      rw [← originOf_iff hnd, ← origNode_var hv]
      exact h1.symm
    · simp [arrow] at h
  · rintro ⟨s, hs, hx, hc⟩
    obtain ⟨d, hd, rfl⟩ := List.mem_map.1 hx
    refine ⟨depExpr d, depExpr_var d, ?_⟩
    rw [arrows, List.mem_append]
    left
    rw [mem_stmtArrowsFrom]
    refine ⟨j, s, d, hs, hd, ?_⟩
    rw [← originOf_iff hnd] at hc
    simp only [arrow, origNode_var (depExpr_var d), Nat.zero_add]
    rw [← hc]
    rfl

/-- the arrows into `result` -/
theorem drawn_result {code : Code} (hnd : ((statements code).flatMap Stmt.assignees).Nodup) (n : Node)
    (x : String) : Drawn code n .result x ↔
      (.var x ∈ parts code.result ∨ .nir x ∈ parts code.result) ∧ ComesFrom (statements code) x n := by
  constructor
  · rintro ⟨v, hv, h⟩
    rw [arrows, List.mem_append, resultArrows_eq, List.mem_map] at h
    rcases h with h | ⟨e, he, h⟩
    · obtain ⟨j', s, d, hs, hd, h⟩ := (mem_stmtArrowsFrom _ _ _ _).1 h
      simp [arrow] at h
    · simp only [arrow, Arrow.mk.injEq, true_and] at h
      obtain ⟨h1, rfl⟩ := h
      refine ⟨by rcases hv with rfl | rfl <;> simp [he], ?_⟩
      rw [← originOf_iff hnd, ← origNode_var hv]
      exact h1
  · rintro ⟨hm, hc⟩
    rw [← originOf_iff hnd] at hc
    have key : ∀ v, (v = .var x ∨ v = .nir x) → v ∈ parts code.result → Drawn code n .result x := by
      intro v hv hm
      refine ⟨v, hv, ?_⟩
      rw [arrows, List.mem_append, resultArrows_eq, List.mem_map]
      refine Or.inr ⟨v, hm, ?_⟩
      simp only [arrow, origNode_var hv]
      rw [← hc]
      rfl
    rcases hm with hm | hm
    · exact key _ (Or.inl rfl) hm
    · exact key _ (Or.inr rfl) hm

theorem code_nodup {c : Cfg} {e : Expr} (hc : CfgOk c) (hwf : WF e) (hnc : NoClash e) :
    ∃ code, compile c e = .ok code ∧ ((statements code).flatMap Stmt.assignees).Nodup ∧
      ReadsOk code.inputs code.schedule ∧
      (∀ x ∈ code.inputs, ∀ s ∈ statements code, x ∉ s.assignees) ∧
      (∀ d ∈ deps code.result, if d.1 then ∃ s ∈ statements code, d.2 ∈ s.assignees
        else ∀ s ∈ statements code, d.2 ∉ s.assignees) := by
  obtain ⟨r, st, ρ, h1, h2, h3⟩ := compile_inv (unit_hyp hc hwf hnc)
  have hf := CodeFacts.of_inv h2 h3
  have hp : (statements (mkCode st.code r)).Perm st.code :=
    filterMap_perm_of (C03_schedule_safe st.code r).2 (computeSchedule_range _ _) (hf.complete _)
  refine ⟨mkCode st.code r, by simp [compile, h1], ((hp.flatMap_right _).nodup_iff).2 hf.nodup,
    (C03_schedule_safe st.code r).1, ?_, ?_⟩
  · intro x hx s hs hxs
    obtain ⟨t, ht, hd⟩ := mem_inputsOf.1 hx
    obtain ⟨i, hi⟩ := List.mem_iff_getElem?.1 ht
    have h5 := hf.topo i t hi _ (mem_dependencies_raw hd)
    exact h5 (hf.gen x (List.mem_flatMap.2 ⟨s, hp.mem_iff.1 hs, hxs⟩))
  · intro d hd
    have h5 := hf.resDep d hd
    obtain ⟨b, x⟩ := d
    cases b with
    | false =>
      intro s hs hxs
      exact h5 (hf.gen x (List.mem_flatMap.2 ⟨s, hp.mem_iff.1 hs, hxs⟩))
    | true =>
      obtain ⟨s, hs, hxs⟩ := List.mem_flatMap.1 h5
      exact ⟨s, hp.mem_iff.2 hs, hxs⟩

/-- C89 (statements): in the drawing of compiled code there is an arrow labelled `x` from a node to the node of the `j`-th
executed statement exactly if this statement reads `x` and the node is where the value of `x` comes from. -/
theorem C89_statements (c : Cfg) (e : Expr) (hc : CfgOk c) (hwf : WF e) (hnc : NoClash e) :
    ∃ code, compile c e = .ok code ∧ ∀ (n : Node) (j : Nat) (x : String),
      Drawn code n (.stmt j) x ↔
        ∃ s, (statements code)[j]? = some s ∧ x ∈ s.depNames ∧ ComesFrom (statements code) x n := by
  obtain ⟨code, h1, h2, -⟩ := code_nodup hc hwf hnc
  exact ⟨code, h1, drawn_stmt h2⟩

/-- C89 (order): arrows into a statement start at an earlier statement or, if they carry an input, at `initial`; so the
drawing has no cycles. -/
theorem C89_forward (c : Cfg) (e : Expr) (hc : CfgOk c) (hwf : WF e) (hnc : NoClash e) :
    ∃ code, compile c e = .ok code ∧ ∀ (n : Node) (j : Nat) (x : String), Drawn code n (.stmt j) x →
      (∃ i, i < j ∧ n = .stmt i) ∨ (n = .initial ∧ x ∈ code.inputs) := by
  obtain ⟨code, h1, h2, h3, h4, -⟩ := code_nodup hc hwf hnc
  refine ⟨code, h1, fun n j x h => ?_⟩
  obtain ⟨s, hs, hx, hcf⟩ := (drawn_stmt h2 n j x).1 h
  rw [statements, List.getElem?_map, Option.map_eq_some_iff] at hs
  obtain ⟨p, hp, rfl⟩ := hs
  have hsplit : code.schedule = code.schedule.take j ++ (p.1, p.2) :: code.schedule.drop (j + 1) := by
    obtain ⟨hlt, hget⟩ := List.getElem?_eq_some_iff.1 hp
    have hp' : (p.1, p.2) = code.schedule[j] := hget.symm
    rw [hp', List.cons_getElem_drop_succ, List.take_append_drop]
  rcases (h3 _ _ _ _ hsplit x hx).1 with hr | ⟨q, hq, hxq⟩
  · right
    rcases hcf with ⟨i, t, ht, hxt, rfl⟩ | ⟨hno, rfl⟩
    · exact absurd hxt (h4 x hr t (List.mem_of_getElem? ht))
    · exact ⟨rfl, hr⟩
  · left
    obtain ⟨i, hi⟩ := List.mem_iff_getElem?.1 hq
    have hij : i < j := by
      have := (List.getElem?_eq_some_iff.1 hi).1
      rw [List.length_take] at this
      omega
    rw [List.getElem?_take_of_lt hij] at hi
    refine ⟨i, hij, ?_⟩
    have : ComesFrom (statements code) x (.stmt i) :=
      Or.inl ⟨i, q.1, by rw [statements, List.getElem?_map, hi]; rfl, hxq, rfl⟩
    rw [← originOf_iff h2] at this hcf
    exact hcf.symm.trans this

/-- C89 (ends): every arrow joins nodes that are drawn, and none leaves `result` or enters `initial`. -/
theorem C89_ends (code : Code) (a : Arrow) (ha : a ∈ arrows code) :
    a.orig ∈ nodes code ∧ a.target ∈ nodes code ∧ a.orig ≠ .result ∧ a.target ≠ .initial := by
  have horig : ∀ e, origNode (origins code) e ∈ nodes code ∧ origNode (origins code) e ≠ .result := by
    have hx : ∀ x, originOf (origins code) x ∈ nodes code ∧ originOf (origins code) x ≠ .result := by
      intro x
      unfold originOf
      cases h : (origins code).lookup x with
      | none => simp [nodes]
      | some m =>
        have := lookup_bound x (statements code) 0 [] (by simp) m h
        simp [nodes]
        omega
    intro e
    cases e <;> first | exact hx _ | simp [origNode, nodes]
  rw [arrows, List.mem_append, resultArrows_eq, List.mem_map] at ha
  rcases ha with ha | ⟨e, -, rfl⟩
  · obtain ⟨j, s, d, hs, -, rfl⟩ := (mem_stmtArrowsFrom _ _ _ _).1 ha
    have := (List.getElem?_eq_some_iff.1 hs).1
    refine ⟨(horig _).1, ?_, (horig _).2, by simp [arrow]⟩
    simp [arrow, nodes]
    omega
  · exact ⟨(horig _).1, by simp [arrow, nodes], (horig _).2, by simp [arrow]⟩

/-- the result's values are variables -/
def PlainResult (r : Expr) : Prop := ∀ v ∈ parts r, ∃ x, v = .var x ∨ v = .nir x

/-- C89 (result): if the result is a variable or an array of variables, there is an arrow labelled `x` from a node to `result`
exactly if `x` is read by the result and the node is where its value comes from.  Partial: for other results (a multiple of a
layer potential, a component of a vector variable) see `C89_result_refuted`. -/
theorem C89_result_partial (c : Cfg) (e : Expr) (hc : CfgOk c) (hwf : WF e) (hnc : NoClash e) :
    ∃ code, compile c e = .ok code ∧ (PlainResult code.result → ∀ (n : Node) (x : String),
      Drawn code n .result x ↔ x ∈ varNames code.result ∧ ComesFrom (statements code) x n) := by
  obtain ⟨code, h1, h2, -⟩ := code_nodup hc hwf hnc
  refine ⟨code, h1, fun hp n x => ?_⟩
  rw [drawn_result h2]
  have : (.var x ∈ parts code.result ∨ .nir x ∈ parts code.result) ↔ x ∈ varNames code.result := by
    have hL : ∀ l : List Expr, (∀ v ∈ l, ∃ x, v = .var x ∨ v = .nir x) →
        ((.var x ∈ l ∨ .nir x ∈ l) ↔ x ∈ (depsL l).map Prod.snd) := by
      intro l
      induction l with
      | nil => simp [depsL]
      | cons v l ih =>
        intro h
        have := ih (fun v hv => h v (List.mem_cons_of_mem _ hv))
        obtain ⟨y, rfl | rfl⟩ := h v List.mem_cons_self <;>
        · simp only [depsL, deps, List.map_append, List.mem_append, ← this]
          simp
          tauto
    have hone : (∃ l, code.result = .arr l) ∨ parts code.result = [code.result] := by
      cases code.result <;> simp [parts]
    rcases hone with ⟨l, hl⟩ | hone
    · unfold PlainResult at hp
      rw [hl] at hp ⊢
      exact hL l hp
    · unfold PlainResult at hp
      rw [hone] at hp ⊢
      rw [hL _ hp]
      simp [varNames, depsL]
  rw [this]

/-- C89 is false for other results: whatever the result reads, its only arrow comes from `initial`. -/
theorem C89_result_refuted :
    (∀ (code : Code) (n : Node) (v : Expr), (∀ x l, code.result ≠ .var x ∧ code.result ≠ .nir x ∧ code.result ≠ .arr l) →
      ((⟨n, .result, v⟩ : Arrow) ∈ arrows code ↔ n = .initial ∧ v = code.result)) ∧
    ∃ code x, compile exCfg (.op "mul" [.num 2, .intg ⟨"k", ["k"], "s", "t", .none, []⟩ [.var "sigma"] []]) = .ok code ∧
      x ∈ varNames code.result ∧ ComesFrom (statements code) x (.stmt 0) ∧
      ∀ n v, (⟨n, .result, v⟩ : Arrow) ∈ arrows code → n = .initial := by
  have hgen : ∀ (code : Code) (n : Node) (v : Expr),
      (∀ x l, code.result ≠ .var x ∧ code.result ≠ .nir x ∧ code.result ≠ .arr l) →
      ((⟨n, .result, v⟩ : Arrow) ∈ arrows code ↔ n = .initial ∧ v = code.result) := by
    intro code n v h
    have hp : parts code.result = [code.result] ∧ ∀ o, origNode o code.result = .initial := by
      cases hr : code.result with
      | var x => exact absurd hr (h x []).1
      | nir x => exact absurd hr (h x []).2.1
      | arr l => exact absurd hr (h "" l).2.2
      | _ => exact ⟨rfl, fun _ => rfl⟩
    rw [arrows, List.mem_append, resultArrows_eq, hp.1, mem_stmtArrowsFrom]
    constructor
    · rintro (⟨j, s, d, -, -, h⟩ | h)
      · simp [arrow] at h
      · simpa [arrow, hp.2] using h
    · rintro ⟨rfl, rfl⟩
      exact Or.inr (by simp [arrow, hp.2])
  refine ⟨hgen, ?_⟩
  refine ⟨⟨["sigma"], [(.pot [⟨"_expr0", 0, "t", .none⟩] ["k"] [] [] ["k"] [.var "sigma"] "s" 0, [])],
      .op "mul" [.num 2, .nir "_expr0"]⟩, "_expr0", by rfl, by decide +kernel, ?_, ?_⟩
  · exact Or.inl ⟨0, _, rfl, by decide +kernel, rfl⟩
  · intro n v h
    exact ((hgen _ n v (fun x l => ⟨by simp, by simp, by simp⟩)).1 h).1

/-- non-vacuity of `C89_statements` and `C89_forward`: the drawing of a compiled expression -/
example : ∃ code, compile exCfg exE = .ok code ∧ ∀ (n : Node) (j : Nat) (x : String),
      Drawn code n (.stmt j) x ↔
        ∃ s, (statements code)[j]? = some s ∧ x ∈ s.depNames ∧ ComesFrom (statements code) x n :=
  C89_statements exCfg exE exCfg_ok exE_wf exE_noClash

/-- two statements feeding a third, whose value is the result -/
example : ∃ code, compile exCfg (.sum [.intg ⟨"k", ["k"], "s", "t", .none, []⟩ [.var "sigma"] [], .var "a"]) = .ok code ∧
    PlainResult code.result ∧ Drawn code .initial (.stmt 0) "sigma" ∧ Drawn code (.stmt 0) (.stmt 1) "_expr0" ∧
      Drawn code .initial (.stmt 1) "a" ∧ Drawn code (.stmt 1) .result "_expr1" := by
  refine ⟨⟨["sigma", "a"], [(.pot [⟨"_expr0", 0, "t", .none⟩] ["k"] [] [] ["k"] [.var "sigma"] "s" 0, []),
    (.assign "_expr1" (.sum [.nir "_expr0", .var "a"]) 0, ["sigma"])], .nir "_expr1"⟩, by rfl, ?_,
    ⟨.var "sigma", by decide +kernel, by decide +kernel⟩, ⟨.nir "_expr0", by decide +kernel, by decide +kernel⟩,
    ⟨.var "a", by decide +kernel, by decide +kernel⟩, ⟨.nir "_expr1", by decide +kernel, by decide +kernel⟩⟩
  intro v hv
  simp only [parts, List.mem_singleton] at hv
  exact ⟨_, Or.inr hv⟩

end Verif.Compiler.Dataflow
