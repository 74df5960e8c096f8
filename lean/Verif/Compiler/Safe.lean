import Verif.Compiler.Correct2

/-! Helper lemmas: execution safety (no `KeyError`, no unbound variables) and the
assembled compile-then-execute statement. -/

namespace Verif.Compiler

variable {V : Type} {I : Interp V} {env : Ctx V} {c : Cfg} {e0 : Expr}

/-- The interpretation in which everything is defined; used to extract the
interpretation independent part of the compiler invariant. -/
def unitI : Interp Unit where
  num _ := ()
  sub _ _ := some ()
  op _ _ := some ()
  truthy _ := true
  zero := ()
  add _ _ := ()
  arr _ := ()
  pot _ _ _ _ _ _ := some ()

mutual
theorem unit_den : ∀ (e : Expr), ∃ v, den unitI (fun _ => some ()) e = some v
  | .num _ => ⟨(), by simp [den]⟩
  | .var _ => ⟨(), by simp [den]⟩
  | .nir _ => ⟨(), by simp [den]⟩
  | .sub _ _ => ⟨(), by simp [den, unitI]⟩
  | .op f l => by obtain ⟨vs, h⟩ := unit_denL l; exact ⟨(), by simp only [den, h]; rfl⟩
  | .ite a b d => by
    obtain ⟨va, ha⟩ := unit_den a
    obtain ⟨vb, hb⟩ := unit_den b
    exact ⟨vb, by simp only [den, ha, hb]; rfl⟩
  | .sum l => by obtain ⟨vs, h⟩ := unit_denL l; exact ⟨(), by simp [den, h]⟩
  | .arr l => by obtain ⟨vs, h⟩ := unit_denL l; exact ⟨(), by simp [den, h]⟩
  | .cse p sc ch => by obtain ⟨v, h⟩ := unit_den ch; exact ⟨v, by simp [den, h]⟩
  | .intg g d k => by
    obtain ⟨vs, h⟩ := unit_denL d
    obtain ⟨ws, h'⟩ := unit_denL k
    exact ⟨(), by simp only [den, h, h']; rfl⟩
theorem unit_denL : ∀ (l : List Expr), ∃ vs, denL unitI (fun _ => some ()) l = some vs
  | [] => ⟨[], by simp [denL]⟩
  | e :: l => by
    obtain ⟨v, h⟩ := unit_den e
    obtain ⟨vs, h'⟩ := unit_denL l
    exact ⟨v :: vs, by simp [denL, h, h']⟩
end

theorem unit_hyp (hc : CfgOk c) (hwf : WF e0) (hnc : NoClash e0) :
    Hyp unitI (fun _ => some ()) c e0 where
  law := ⟨fun _ => rfl, fun _ _ _ _ _ _ _ _ _ _ => rfl⟩
  cfg := hc
  wf := hwf
  noClash := hnc
  defined := fun s _ => unit_den s

/-- Interpretation independent facts about the emitted code. -/
structure CodeFacts (e0 : Expr) (code : List Stmt) (r : Expr) : Prop where
  raw : ∀ s ∈ code, StmtRaw (NotVar e0) s
  idx : ∀ s ∈ code, ∀ outs tks kn kv sks ds src p, s = .pot outs tks kn kv sks ds src p →
    ∀ o ∈ outs, ∃ tk, tks[o.tkIdx]? = some tk
  topo : ∀ i s, code[i]? = some s → ∀ d ∈ rawDeps s, DepOk (NotVar e0) (code.take i) d
  nodup : (assigned code).Nodup
  gen : ∀ n ∈ assigned code, NotVar e0 n
  resRaw : RawOk (NotVar e0) r
  resDep : ∀ d ∈ deps r, DepOk (NotVar e0) code d

theorem CodeFacts.of_inv {st : St} {ρ : Ctx V} {v : V} {r : Expr} (h : Inv I env (NotVar e0) st ρ)
    (hg : GoodV I (NotVar e0) st.code ρ v r) : CodeFacts e0 st.code r where
  raw s hs := (h.sat s hs).2
  idx := by
    rintro s hs outs tks kn kv sks ds src p rfl o ho
    obtain ⟨_, _, -, -, h3⟩ := (h.sat _ hs).1
    obtain ⟨tk, _, h4, -⟩ := h3 o ho
    exact ⟨tk, h4⟩
  topo := h.topo
  nodup := h.asgNodup
  gen n hn := h.gen n (h.asgNames n hn)
  resRaw := hg.raw
  resDep := hg.dep

theorem mem_dependencies_raw {s : Stmt} {d : Bool × String} (h : d ∈ s.dependencies) :
    d ∈ rawDeps s := by
  cases s with
  | assign n e p => exact (List.mem_filter.1 h).1
  | pot outs tks kn kv sks ds src p => exact h

theorem mem_inputsOf {stmts : List Stmt} {x : String} :
    x ∈ inputsOf stmts ↔ ∃ s ∈ stmts, (false, x) ∈ s.dependencies := by
  simp only [inputsOf, List.mem_filterMap, List.mem_flatMap]
  constructor
  · rintro ⟨⟨b, y⟩, ⟨s, hs, hd⟩, h⟩
    cases b with
    | false => simp at h; subst h; exact ⟨s, hs, hd⟩
    | true => simp at h
  · rintro ⟨s, hs, hd⟩
    exact ⟨(false, x), ⟨s, hs, hd⟩, by simp⟩

theorem getElem?_mem {α : Type} {l : List α} {i : Nat} {a : α} (h : l[i]? = some a) : a ∈ l :=
  List.mem_of_getElem? h

theorem mem_assigned_take {code : List Stmt} {i : Nat} {x : String}
    (h : x ∈ assigned (code.take i)) : ∃ j, j < i ∧ x ∈ assigneesAt code j := by
  simp only [assigned, List.mem_flatMap] at h
  obtain ⟨s, hs, hx⟩ := h
  obtain ⟨j, hj, rfl⟩ := List.mem_iff_getElem.1 hs
  rw [List.length_take] at hj
  rw [List.getElem_take] at hx
  refine ⟨j, by omega, ?_⟩
  simp only [assigneesAt, List.getElem?_eq_getElem (show j < code.length by omega)]
  exact hx

theorem CodeFacts.topoOrdered {code : List Stmt} {r : Expr} (h : CodeFacts e0 code r) :
    TopoOrdered code (inputsOf code) := by
  intro i hi x hx
  have hs := List.getElem?_eq_getElem hi
  simp only [depNamesAt, hs, Stmt.depNames] at hx
  obtain ⟨⟨b, y⟩, hd, rfl⟩ := List.mem_map.1 hx
  cases b with
  | false => exact Or.inl (mem_inputsOf.2 ⟨_, getElem?_mem hs, hd⟩)
  | true =>
    have := h.topo i _ hs _ (mem_dependencies_raw hd)
    simp only [DepOk, if_true] at this
    exact Or.inr (mem_assigned_take this)

theorem CodeFacts.inputs_user {code : List Stmt} {r : Expr} (h : CodeFacts e0 code r) {x : String}
    (hx : x ∈ inputsOf code) : x ∈ varNames e0 := by
  obtain ⟨s, hs, hd⟩ := mem_inputsOf.1 hx
  obtain ⟨i, hi, rfl⟩ := List.mem_iff_getElem.1 hs
  have := h.topo i _ (List.getElem?_eq_getElem hi) _ (mem_dependencies_raw hd)
  simpa [DepOk, NotVar] using this

theorem CodeFacts.complete {code : List Stmt} {r : Expr} (h : CodeFacts e0 code r)
    (res : List String) :
    ∀ i, i < code.length → i ∈ (computeSchedule code res).map Prod.fst := by
  intro i hi
  have := scheduleLoop_complete code res (inputsOf code) h.topoOrdered (code.length + 1)
    (inputsOf code) [] (by have := undone_nil_length code; omega) (by
      intro j _ _ x _ hx
      rcases hx with hx | ⟨k, hk, -⟩
      · exact hx
      · simp at hk) i hi
  simpa [computeSchedule] using this

theorem assignedBy_all {code : List Stmt} {r : Expr} (h : CodeFacts e0 code r) (res : List String)
    {x : String} (hx : x ∈ assigned code) : x ∈ assignedBy code (computeSchedule code res) := by
  simp only [assigned, List.mem_flatMap] at hx
  obtain ⟨s, hs, hx⟩ := hx
  obtain ⟨i, hi, rfl⟩ := List.mem_iff_getElem.1 hs
  obtain ⟨p, hp, rfl⟩ := List.mem_map.1 (h.complete res i hi)
  simp only [assignedBy, List.mem_flatMap]
  exact ⟨p, hp, by simp [assigneesAt, List.getElem?_eq_getElem hi, hx]⟩

theorem mem_assigned_of_assignedBy {code : List Stmt} {L : List (Nat × List String)} {x : String}
    (h : x ∈ assignedBy code L) : x ∈ assigned code := by
  simp only [assignedBy, List.mem_flatMap] at h
  obtain ⟨p, -, hx⟩ := h
  simp only [assigneesAt] at hx
  split at hx
  · rename_i s hs
    simp only [assigned, List.mem_flatMap]
    exact ⟨s, getElem?_mem hs, hx⟩
  · simp at hx

theorem var_defined (hd : AllDefined I env e0) {x : String} (hx : x ∈ varNames e0) :
    ∃ v, env x = some v := by
  obtain ⟨⟨b, y⟩, hd', rfl⟩ := List.mem_map.1 hx
  have := mem_deps_subs e0 hd'
  cases b with
  | true =>
    simp only [if_true] at this
    obtain ⟨v, hv⟩ := hd _ this
    exact ⟨v, by simpa [den] using hv⟩
  | false =>
    simp only [Bool.false_eq_true, if_false] at this
    rcases this with h | ⟨i, h⟩
    · obtain ⟨v, hv⟩ := hd _ h
      exact ⟨v, by simpa [den] using hv⟩
    · obtain ⟨v, hv⟩ := hd _ h
      simp only [den] at hv
      cases hy : env y with
      | none => simp [hy] at hv
      | some w => exact ⟨w, rfl⟩

theorem depNames_of_rawDeps {s : Stmt} {x : String} (h : x ∈ s.depNames) :
    ∃ d ∈ rawDeps s, d.2 = x := by
  obtain ⟨d, hd, rfl⟩ := List.mem_map.1 h
  exact ⟨d, mem_dependencies_raw hd, rfl⟩

/-- Compile and execute. -/
theorem compile_execute (h : Hyp I env c e0) (cc : Cache V) (hcc : CacheValid I env cc) :
    ∃ code ctx' cc', compile c e0 = .ok code ∧
      execute I code env cc = .ok (F I env e0, ctx', cc') ∧ CacheValid I env cc' := by
  obtain ⟨r, st, ρ, h1, h2, h3⟩ := compile_inv h
  have hf := CodeFacts.of_inv h2 h3
  have hin : ∀ x ∈ inputsOf st.code, env x = ρ x ∧ ∃ v, env x = some v := by
    intro x hx
    have hu := hf.inputs_user hx
    exact ⟨(h2.agree x (fun hn => hn hu)).symm, var_defined h.defined hu⟩
  obtain ⟨ctx', cc1, hrun, hc1, hres, hoth⟩ := runSched_ok I h2.agree st.code
    ((deps r).map Prod.snd) (fun s hs => (h2.sat s hs).1) (fun s hs => (h2.sat s hs).2)
    (st.code.length + 1) (inputsOf st.code) [] env cc hin hcc
  obtain ⟨cc2, hev, hc2⟩ := ev_ok I h2.agree r _ cc1 (ctx := ctx') h3.raw (by
    intro x hx
    obtain ⟨⟨b, y⟩, hd, rfl⟩ := List.mem_map.1 hx
    have hdep := h3.dep _ hd
    by_cases hy : y ∈ inputsOf st.code
    · exact hres _ hx (Or.inl hy)
    · cases b with
      | true =>
        simp only [DepOk, if_true] at hdep
        exact hres _ hx (Or.inr (assignedBy_all hf _ hdep))
      | false =>
        have hdep' : ¬ NotVar e0 y := by simpa [DepOk] using hdep
        show ctx' y = ρ y
        rw [hoth y hy (fun ha => hdep' (h2.gen y (h2.asgNames y (mem_assigned_of_assignedBy ha)))),
          h2.agree y hdep']) hc1 h3.val
  refine ⟨mkCode st.code r, ctx', cc2, by simp [compile, h1], ?_, hc2⟩
  have hfind : (mkCode st.code r).inputs.find? (fun x => (env x).isNone) = none := by
    rw [List.find?_eq_none]
    intro x hx
    obtain ⟨v, hv⟩ := (hin x hx).2
    simp [hv]
  simp only [execute, hfind]
  have : runSched I (mkCode st.code r).schedule env cc = .ok (ctx', cc1) := hrun
  rw [this]
  have h' : (mkCode st.code r).result = r := rfl
  simp only [h', hev]

end Verif.Compiler
