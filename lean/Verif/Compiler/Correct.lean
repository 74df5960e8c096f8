import Verif.Compiler.Eval
import Verif.Compiler.Names

/-! Correctness invariant of the compiler (helper lemmas for C01, C03-C06). -/

namespace Verif.Compiler

variable {V : Type}

/-! ### Facts about sub-expressions -/

theorem self_mem_subs (e : Expr) : e ∈ subs e := by cases e <;> simp [subs]

theorem mem_subsL {s : Expr} : ∀ {l : List Expr}, s ∈ subsL l ↔ ∃ e ∈ l, s ∈ subs e
  | [] => by simp [subsL]
  | e :: l => by simp [subsL, mem_subsL (l := l)]

theorem mem_opsL {s : Expr} : ∀ {l : List Expr}, s ∈ opsL l ↔ ∃ e ∈ l, s ∈ ops e
  | [] => by simp [opsL]
  | e :: l => by simp [opsL, mem_opsL (l := l)]

theorem mem_depsL {d : Bool × String} : ∀ {l : List Expr}, d ∈ depsL l ↔ ∃ e ∈ l, d ∈ deps e
  | [] => by simp [depsL]
  | e :: l => by simp [depsL, mem_depsL (l := l)]

mutual
theorem subs_trans {s t : Expr} : ∀ (e : Expr), s ∈ subs t → t ∈ subs e → s ∈ subs e
  | .num _, h1, h2 => by simp [subs] at h2; subst h2; exact h1
  | .var _, h1, h2 => by simp [subs] at h2; subst h2; exact h1
  | .nir _, h1, h2 => by simp [subs] at h2; subst h2; exact h1
  | .sub _ _, h1, h2 => by simp [subs] at h2; subst h2; exact h1
  | .op f l, h1, h2 => by
    simp only [subs, List.mem_cons] at h2
    rcases h2 with rfl | h2
    · exact h1
    · simp only [subs, List.mem_cons]; exact Or.inr (subsL_trans l h1 h2)
  | .ite c a b, h1, h2 => by
    simp only [subs, List.mem_cons, List.mem_append] at h2
    rcases h2 with rfl | (h2 | h2) | h2
    · exact h1
    · simp only [subs, List.mem_cons, List.mem_append]
      exact Or.inr (Or.inl (Or.inl (subs_trans c h1 h2)))
    · simp only [subs, List.mem_cons, List.mem_append]
      exact Or.inr (Or.inl (Or.inr (subs_trans a h1 h2)))
    · simp only [subs, List.mem_cons, List.mem_append]
      exact Or.inr (Or.inr (subs_trans b h1 h2))
  | .sum l, h1, h2 => by
    simp only [subs, List.mem_cons] at h2
    rcases h2 with rfl | h2
    · exact h1
    · simp only [subs, List.mem_cons]; exact Or.inr (subsL_trans l h1 h2)
  | .arr l, h1, h2 => by
    simp only [subs, List.mem_cons] at h2
    rcases h2 with rfl | h2
    · exact h1
    · simp only [subs, List.mem_cons]; exact Or.inr (subsL_trans l h1 h2)
  | .cse p sc c, h1, h2 => by
    simp only [subs, List.mem_cons] at h2
    rcases h2 with rfl | h2
    · exact h1
    · simp only [subs, List.mem_cons]; exact Or.inr (subs_trans c h1 h2)
  | .intg g d k, h1, h2 => by
    simp only [subs, List.mem_cons, List.mem_append] at h2
    rcases h2 with rfl | h2 | h2
    · exact h1
    · simp only [subs, List.mem_cons, List.mem_append]; exact Or.inr (Or.inl (subsL_trans d h1 h2))
    · simp only [subs, List.mem_cons, List.mem_append]; exact Or.inr (Or.inr (subsL_trans k h1 h2))
theorem subsL_trans {s t : Expr} : ∀ (l : List Expr), s ∈ subs t → t ∈ subsL l → s ∈ subsL l
  | [], _, h2 => by simp [subsL] at h2
  | e :: l, h1, h2 => by
    simp only [subsL, List.mem_append] at h2 ⊢
    rcases h2 with h2 | h2
    · exact Or.inl (subs_trans e h1 h2)
    · exact Or.inr (subsL_trans l h1 h2)
end

mutual
/-- The collected operators are exactly the layer potentials among the
sub-expressions. -/
theorem mem_ops_iff {s : Expr} : ∀ (e : Expr), s ∈ ops e ↔ s ∈ subs e ∧ isIntG s = true
  | .num _ => by simp [ops, subs]; intro h; subst h; simp [isIntG]
  | .var _ => by simp [ops, subs]; intro h; subst h; simp [isIntG]
  | .nir _ => by simp [ops, subs]; intro h; subst h; simp [isIntG]
  | .sub _ _ => by simp [ops, subs]; intro h; subst h; simp [isIntG]
  | .op f l => by
    simp only [ops, subs, List.mem_cons, mem_opsL_iff l]
    constructor
    · rintro ⟨h1, h2⟩; exact ⟨Or.inr h1, h2⟩
    · rintro ⟨h1 | h1, h2⟩
      · subst h1; simp [isIntG] at h2
      · exact ⟨h1, h2⟩
  | .ite c a b => by
    simp only [ops, subs, List.mem_cons, List.mem_append, mem_ops_iff c, mem_ops_iff a, mem_ops_iff b]
    constructor
    · rintro ((⟨h1, h2⟩ | ⟨h1, h2⟩) | ⟨h1, h2⟩)
      · exact ⟨Or.inr (Or.inl (Or.inl h1)), h2⟩
      · exact ⟨Or.inr (Or.inl (Or.inr h1)), h2⟩
      · exact ⟨Or.inr (Or.inr h1), h2⟩
    · rintro ⟨h1 | (h1 | h1) | h1, h2⟩
      · subst h1; simp [isIntG] at h2
      · exact Or.inl (Or.inl ⟨h1, h2⟩)
      · exact Or.inl (Or.inr ⟨h1, h2⟩)
      · exact Or.inr ⟨h1, h2⟩
  | .sum l => by
    simp only [ops, subs, List.mem_cons, mem_opsL_iff l]
    constructor
    · rintro ⟨h1, h2⟩; exact ⟨Or.inr h1, h2⟩
    · rintro ⟨h1 | h1, h2⟩
      · subst h1; simp [isIntG] at h2
      · exact ⟨h1, h2⟩
  | .arr l => by
    simp only [ops, subs, List.mem_cons, mem_opsL_iff l]
    constructor
    · rintro ⟨h1, h2⟩; exact ⟨Or.inr h1, h2⟩
    · rintro ⟨h1 | h1, h2⟩
      · subst h1; simp [isIntG] at h2
      · exact ⟨h1, h2⟩
  | .cse p sc c => by
    simp only [ops, subs, List.mem_cons, mem_ops_iff c]
    constructor
    · rintro ⟨h1, h2⟩; exact ⟨Or.inr h1, h2⟩
    · rintro ⟨h1 | h1, h2⟩
      · subst h1; simp [isIntG] at h2
      · exact ⟨h1, h2⟩
  | .intg g d k => by
    simp only [ops, subs, List.mem_cons, List.mem_append, mem_opsL_iff d, mem_opsL_iff k]
    constructor
    · rintro (h | ⟨h1, h2⟩ | ⟨h1, h2⟩)
      · subst h; exact ⟨Or.inl rfl, by simp [isIntG]⟩
      · exact ⟨Or.inr (Or.inl h1), h2⟩
      · exact ⟨Or.inr (Or.inr h1), h2⟩
    · rintro ⟨h1 | h1 | h1, h2⟩
      · exact Or.inl h1
      · exact Or.inr (Or.inl ⟨h1, h2⟩)
      · exact Or.inr (Or.inr ⟨h1, h2⟩)
theorem mem_opsL_iff {s : Expr} : ∀ (l : List Expr), s ∈ opsL l ↔ s ∈ subsL l ∧ isIntG s = true
  | [] => by simp [opsL, subsL]
  | e :: l => by
    simp only [opsL, subsL, List.mem_append, mem_ops_iff e, mem_opsL_iff l]
    constructor
    · rintro (⟨h1, h2⟩ | ⟨h1, h2⟩)
      · exact ⟨Or.inl h1, h2⟩
      · exact ⟨Or.inr h1, h2⟩
    · rintro ⟨h1 | h1, h2⟩
      · exact Or.inl ⟨h1, h2⟩
      · exact Or.inr ⟨h1, h2⟩
end

mutual
/-- The dependencies of an expression come from its variable sub-expressions. -/
theorem mem_deps_subs {b : Bool} {x : String} : ∀ (e : Expr), (b, x) ∈ deps e →
    (if b then Expr.nir x ∈ subs e else (Expr.var x ∈ subs e ∨ ∃ i, Expr.sub x i ∈ subs e))
  | .num _, h => by simp [deps] at h
  | .var y, h => by simp [deps] at h; obtain ⟨rfl, rfl⟩ := h; simp [subs]
  | .nir y, h => by simp [deps] at h; obtain ⟨rfl, rfl⟩ := h; simp [subs]
  | .sub y i, h => by simp [deps] at h; obtain ⟨rfl, rfl⟩ := h; simp [subs]
  | .op f l, h => by
    have := mem_depsL_subs l h
    cases b <;> simp_all [subs]
  | .ite c a d, h => by
    simp only [deps, List.mem_append] at h
    rcases h with (h | h) | h
    · have := mem_deps_subs c h
      cases b <;> simp_all [subs]
      rcases this with h | ⟨i, h⟩
      · exact Or.inl (Or.inl h)
      · exact Or.inr ⟨i, Or.inl h⟩
    · have := mem_deps_subs a h
      cases b <;> simp_all [subs]
      rcases this with h | ⟨i, h⟩
      · exact Or.inl (Or.inr (Or.inl h))
      · exact Or.inr ⟨i, Or.inr (Or.inl h)⟩
    · have := mem_deps_subs d h
      cases b <;> simp_all [subs]
      rcases this with h | ⟨i, h⟩
      · exact Or.inl (Or.inr (Or.inr h))
      · exact Or.inr ⟨i, Or.inr (Or.inr h)⟩
  | .sum l, h => by
    have := mem_depsL_subs l h
    cases b <;> simp_all [subs]
  | .arr l, h => by
    have := mem_depsL_subs l h
    cases b <;> simp_all [subs]
  | .cse p sc c, h => by
    have := mem_deps_subs c h
    cases b <;> simp_all [subs]
  | .intg g d k, h => by
    simp only [deps, List.mem_append] at h
    rcases h with h | h
    · have := mem_depsL_subs d h
      cases b <;> simp_all [subs]
      rcases this with h | ⟨i, h⟩
      · exact Or.inl (Or.inl h)
      · exact Or.inr ⟨i, Or.inl h⟩
    · have := mem_depsL_subs k h
      cases b <;> simp_all [subs]
      rcases this with h | ⟨i, h⟩
      · exact Or.inl (Or.inr h)
      · exact Or.inr ⟨i, Or.inr h⟩
theorem mem_depsL_subs {b : Bool} {x : String} : ∀ (l : List Expr), (b, x) ∈ depsL l →
    (if b then Expr.nir x ∈ subsL l else (Expr.var x ∈ subsL l ∨ ∃ i, Expr.sub x i ∈ subsL l))
  | [], h => by simp [depsL] at h
  | e :: l, h => by
    simp only [depsL, List.mem_append] at h
    rcases h with h | h
    · have := mem_deps_subs e h
      cases b <;> simp_all [subsL]
      rcases this with h | ⟨i, h⟩
      · exact Or.inl (Or.inl h)
      · exact Or.inr ⟨i, Or.inl h⟩
    · have := mem_depsL_subs l h
      cases b <;> simp_all [subsL]
      rcases this with h | ⟨i, h⟩
      · exact Or.inl (Or.inr h)
      · exact Or.inr ⟨i, Or.inr h⟩
end

mutual
theorem deps_of_subs {d : Bool × String} {s : Expr} : ∀ (e : Expr), s ∈ subs e → d ∈ deps s → d ∈ deps e
  | .num _, h, hd => by simp [subs] at h; subst h; exact hd
  | .var _, h, hd => by simp [subs] at h; subst h; exact hd
  | .nir _, h, hd => by simp [subs] at h; subst h; exact hd
  | .sub _ _, h, hd => by simp [subs] at h; subst h; exact hd
  | .op f l, h, hd => by
    simp only [subs, List.mem_cons] at h
    rcases h with rfl | h
    · exact hd
    · simp only [deps]; exact depsL_of_subs l h hd
  | .ite c a b, h, hd => by
    simp only [subs, List.mem_cons, List.mem_append] at h
    rcases h with rfl | (h | h) | h
    · exact hd
    · simp only [deps, List.mem_append]; exact Or.inl (Or.inl (deps_of_subs c h hd))
    · simp only [deps, List.mem_append]; exact Or.inl (Or.inr (deps_of_subs a h hd))
    · simp only [deps, List.mem_append]; exact Or.inr (deps_of_subs b h hd)
  | .sum l, h, hd => by
    simp only [subs, List.mem_cons] at h
    rcases h with rfl | h
    · exact hd
    · simp only [deps]; exact depsL_of_subs l h hd
  | .arr l, h, hd => by
    simp only [subs, List.mem_cons] at h
    rcases h with rfl | h
    · exact hd
    · simp only [deps]; exact depsL_of_subs l h hd
  | .cse p sc c, h, hd => by
    simp only [subs, List.mem_cons] at h
    rcases h with rfl | h
    · exact hd
    · simp only [deps]; exact deps_of_subs c h hd
  | .intg g d' k, h, hd => by
    simp only [subs, List.mem_cons, List.mem_append] at h
    rcases h with rfl | h | h
    · exact hd
    · simp only [deps, List.mem_append]; exact Or.inl (depsL_of_subs d' h hd)
    · simp only [deps, List.mem_append]; exact Or.inr (depsL_of_subs k h hd)
theorem depsL_of_subs {d : Bool × String} {s : Expr} : ∀ (l : List Expr), s ∈ subsL l → d ∈ deps s → d ∈ depsL l
  | [], h, _ => by simp [subsL] at h
  | e :: l, h, hd => by
    simp only [subsL, List.mem_append] at h
    simp only [depsL, List.mem_append]
    rcases h with h | h
    · exact Or.inl (deps_of_subs e h hd)
    · exact Or.inr (depsL_of_subs l h hd)
end

/-- User expressions have no temporaries among their dependencies. -/
theorem deps_user {e : Expr} (hwf : WF e) {d : Bool × String} (h : d ∈ deps e) : d.1 = false := by
  obtain ⟨b, x⟩ := d
  cases b with
  | false => rfl
  | true => exact absurd (hwf _ (by simpa using mem_deps_subs e h)) (by simp [OkNode])

mutual
theorem rawOk_of {G : String → Prop} : ∀ (e : Expr), ops e = [] → (∀ x ∈ varNames e, ¬ G x) → RawOk G e
  | .num _, _, _ => by simp [RawOk]
  | .var _, _, _ => by simp [RawOk]
  | .nir _, _, _ => by simp [RawOk]
  | .sub _ _, _, _ => by simp [RawOk]
  | .op f l, h, hx => by simp only [RawOk]; exact rawOkL_of l h hx
  | .ite c a b, h, hx => by
    simp only [ops, List.append_eq_nil_iff] at h
    simp only [varNames, deps, List.map_append, List.mem_append] at hx
    simp only [RawOk]
    exact ⟨rawOk_of c h.1.1 (fun x hh => hx x (Or.inl (Or.inl hh))),
      rawOk_of a h.1.2 (fun x hh => hx x (Or.inl (Or.inr hh))),
      rawOk_of b h.2 (fun x hh => hx x (Or.inr hh))⟩
  | .sum l, h, hx => by simp only [RawOk]; exact rawOkL_of l h hx
  | .arr l, h, hx => by simp only [RawOk]; exact rawOkL_of l h hx
  | .cse p sc c, h, hx => by simp only [RawOk]; exact ⟨rawOk_of c h hx, hx⟩
  | .intg g d k, h, _ => by simp [ops] at h
theorem rawOkL_of {G : String → Prop} : ∀ (l : List Expr), opsL l = [] →
    (∀ x ∈ (depsL l).map Prod.snd, ¬ G x) → RawOkL G l
  | [], _, _ => by simp [RawOkL]
  | e :: l, h, hx => by
    simp only [opsL, List.append_eq_nil_iff] at h
    simp only [depsL, List.map_append, List.mem_append] at hx
    simp only [RawOkL]
    exact ⟨rawOk_of e h.1 (fun x hh => hx x (Or.inl hh)), rawOkL_of l h.2 (fun x hh => hx x (Or.inr hh))⟩
end

/-! ### The invariant -/

/-- names assigned by a statement list -/
def assigned (code : List Stmt) : List String := code.flatMap Stmt.assignees

/-- All dependencies of a statement, including (for assignments) the own name. -/
def rawDeps : Stmt → List (Bool × String)
  | .assign _ e _ => deps e
  | .pot _ _ _ kv _ ds _ _ => depsL ds ++ depsL kv

section
variable (I : Interp V) (env : Ctx V) (G : String → Prop)

/-- Dependency `d` is a user variable or a temporary assigned in `code`. -/
def DepOk (code : List Stmt) (d : Bool × String) : Prop :=
  if d.1 then d.2 ∈ assigned code else ¬ G d.2

/-- The compiled expression `r` denotes the value `v`. -/
structure GoodV (code : List Stmt) (ρ : Ctx V) (v : V) (r : Expr) : Prop where
  raw : RawOk G r
  dep : ∀ d ∈ deps r, DepOk G code d
  val : den I ρ r = some v

/-- proof device: what holds of the compiler state and the run-time context `ρ` after executing `st.code` -/
structure Inv (st : St) (ρ : Ctx V) : Prop where
  agree : ∀ x, ¬ G x → ρ x = env x
  gen : ∀ n ∈ st.names, G n
  asgNames : ∀ n ∈ assigned st.code, n ∈ st.names
  asgNodup : (assigned st.code).Nodup
  sat : ∀ s ∈ st.code, StmtSat I ρ s ∧ StmtRaw G s
  topo : ∀ i s, st.code[i]? = some s → ∀ d ∈ rawDeps s, DepOk G (st.code.take i) d
  memo : ∀ p ∈ st.memo, ∃ v, den I env p.1 = some v ∧ GoodV I G st.code ρ v p.2
  e2v : ∀ p ∈ st.e2v, ∃ v, den I env p.1 = some v ∧ GoodV I G st.code ρ v p.2

/-- proof device: a later state only appends code, and its context agrees with the earlier one -/
structure Ext (st : St) (ρ : Ctx V) (st' : St) (ρ' : Ctx V) : Prop where
  agree : ∀ x, (¬ G x ∨ x ∈ assigned st.code) → ρ' x = ρ x
  names : ∀ n ∈ st.names, n ∈ st'.names
  code : ∃ ext, st'.code = st.code ++ ext ∧ ∀ n ∈ assigned ext, n ∉ st.names

/-- The action `f` compiles an expression whose value is `v`. -/
def CompV (v : V) (f : St → R) : Prop :=
  ∀ st ρ, Inv I env G st ρ → ∃ r st' ρ', f st = .ok (r, st') ∧ Inv I env G st' ρ' ∧
    Ext G st ρ st' ρ' ∧ GoodV I G st'.code ρ' v r

end

variable {I : Interp V} {env : Ctx V} {G : String → Prop}

theorem assigned_append (a b : List Stmt) : assigned (a ++ b) = assigned a ++ assigned b := by
  simp [assigned]

theorem Ext.refl (st : St) (ρ : Ctx V) : Ext G st ρ st ρ :=
  ⟨fun _ _ => rfl, fun _ h => h, [], by simp, by simp [assigned]⟩

theorem Ext.trans {st st' st'' : St} {ρ ρ' ρ'' : Ctx V} (h : Ext G st ρ st' ρ')
    (h' : Ext G st' ρ' st'' ρ'') : Ext G st ρ st'' ρ'' := by
  obtain ⟨e1, he1, hn1⟩ := h.code
  obtain ⟨e2, he2, hn2⟩ := h'.code
  refine ⟨?_, fun n hn => h'.names n (h.names n hn), e1 ++ e2, by rw [he2, he1, List.append_assoc], ?_⟩
  · intro x hx
    rw [h'.agree x ?_, h.agree x hx]
    rcases hx with hx | hx
    · exact Or.inl hx
    · right; rw [he1, assigned_append]; exact List.mem_append_left _ hx
  · intro n hn
    rw [assigned_append] at hn
    rcases List.mem_append.1 hn with hn | hn
    · exact hn1 n hn
    · exact fun hh => hn2 n hn (h.names n hh)

theorem DepOk.mono {code ext : List Stmt} {d : Bool × String} (h : DepOk G code d) :
    DepOk G (code ++ ext) d := by
  unfold DepOk at *
  split
  · rename_i hd; rw [if_pos hd] at h; rw [assigned_append]; exact List.mem_append_left _ h
  · rename_i hd; rw [if_neg hd] at h; exact h

theorem GoodV.mono {code ext : List Stmt} {ρ ρ' : Ctx V} {v : V} {r : Expr}
    (h : GoodV I G code ρ v r) (hag : ∀ x, (¬ G x ∨ x ∈ assigned code) → ρ' x = ρ x) :
    GoodV I G (code ++ ext) ρ' v r := by
  refine ⟨h.raw, fun d hd => (h.dep d hd).mono, ?_⟩
  rw [den_congr I (ρ' := ρ) r, h.val]
  intro x hx
  obtain ⟨d, hd, rfl⟩ := List.mem_map.1 hx
  apply hag
  have := h.dep d hd
  unfold DepOk at this
  split at this
  · exact Or.inr this
  · exact Or.inl this

theorem GoodV.ext {st st' : St} {ρ ρ' : Ctx V} {v : V} {r : Expr}
    (h : GoodV I G st.code ρ v r) (he : Ext G st ρ st' ρ') : GoodV I G st'.code ρ' v r := by
  obtain ⟨e, h1, -⟩ := he.code
  rw [h1]; exact h.mono he.agree

/-- satisfaction of a statement only depends on its dependencies and assignees -/
theorem StmtSat.congr {ρ ρ' : Ctx V} {s : Stmt} (h : StmtSat I ρ s)
    (hag : ∀ x, (x ∈ (rawDeps s).map Prod.snd ∨ x ∈ s.assignees) → ρ' x = ρ x) :
    StmtSat I ρ' s := by
  cases s with
  | assign n e p =>
    obtain ⟨v, h1, h2⟩ := h
    refine ⟨v, ?_, ?_⟩
    · rw [den_congr I (ρ' := ρ) e, h1]
      intro x hx; exact hag x (Or.inl hx)
    · rw [hag n (Or.inr (by simp [Stmt.assignees])), h2]
  | pot outs tks kn kv sks ds src p =>
    obtain ⟨dv, kvv, h1, h2, h3⟩ := h
    simp only [rawDeps, List.map_append, List.mem_append] at hag
    refine ⟨dv, kvv, ?_, ?_, ?_⟩
    · rw [denL_congr I (ρ' := ρ) ds, h1]
      intro x hx; exact hag x (Or.inl (Or.inl hx))
    · rw [denL_congr I (ρ' := ρ) kv, h2]
      intro x hx; exact hag x (Or.inl (Or.inr hx))
    · intro o ho
      obtain ⟨tk, v, h4, h5, h6⟩ := h3 o ho
      refine ⟨tk, v, h4, h5, ?_⟩
      rw [hag _ (Or.inr (by simp only [Stmt.assignees]; exact List.mem_map_of_mem ho)), h6]

theorem DepOk.mem_of_take {code : List Stmt} {i : Nat} {d : Bool × String}
    (h : DepOk G (code.take i) d) : DepOk G code d := by
  have := h.mono (ext := code.drop i)
  rwa [List.take_append_drop] at this

/-- Extending the code by one satisfied statement keeps the invariant. -/
theorem Inv.snoc {st : St} {ρ ρ' : Ctx V} {s : Stmt} {names : List String}
    (h : Inv I env G st ρ)
    (hag : ∀ x, (¬ G x ∨ x ∈ assigned st.code) → ρ' x = ρ x)
    (hgen : ∀ n ∈ names, G n) (hsub : ∀ n ∈ st.names, n ∈ names)
    (hnew : ∀ n ∈ s.assignees, n ∈ names ∧ n ∉ assigned st.code) (hnd : s.assignees.Nodup)
    (hsat : StmtSat I ρ' s) (hraw : StmtRaw G s)
    (hdep : ∀ d ∈ rawDeps s, DepOk G st.code d) :
    Inv I env G { st with names := names, code := st.code ++ [s] } ρ' where
  agree x hx := by rw [hag x (Or.inl hx)]; exact h.agree x hx
  gen := hgen
  asgNames := by
    intro n hn
    simp only [assigned_append, List.mem_append] at hn
    rcases hn with hn | hn
    · exact hsub n (h.asgNames n hn)
    · exact (hnew n (by simpa [assigned] using hn)).1
  asgNodup := by
    simp only [assigned_append]
    rw [List.nodup_append]
    refine ⟨h.asgNodup, by simpa [assigned] using hnd, ?_⟩
    rintro a ha b hb rfl
    exact (hnew a (by simpa [assigned] using hb)).2 ha
  sat := by
    intro t ht
    simp only [List.mem_append, List.mem_singleton] at ht
    rcases ht with ht | rfl
    · obtain ⟨h1, h2⟩ := h.sat t ht
      refine ⟨h1.congr ?_, h2⟩
      intro x hx
      apply hag
      rcases hx with hx | hx
      · obtain ⟨d, hd, rfl⟩ := List.mem_map.1 hx
        obtain ⟨i, hi, rfl⟩ := List.mem_iff_getElem.1 ht
        have := (h.topo i _ (List.getElem?_eq_getElem hi) d hd).mem_of_take
        unfold DepOk at this
        split at this
        · exact Or.inr this
        · exact Or.inl this
      · right
        simp only [assigned, List.mem_flatMap]
        exact ⟨t, ht, hx⟩
    · exact ⟨hsat, hraw⟩
  topo := by
    intro i t hi d hd
    simp only at hi
    rcases Nat.lt_trichotomy i st.code.length with hlt | heq | hgt
    · rw [List.getElem?_append_left hlt] at hi
      simp only [List.take_append_of_le_length (Nat.le_of_lt hlt)]
      exact h.topo i t hi d hd
    · subst heq
      simp at hi
      subst hi
      simp only [List.take_left']
      exact hdep d hd
    · rw [List.getElem?_append_right (Nat.le_of_lt hgt)] at hi
      have : i - st.code.length ≠ 0 := by omega
      cases hk : i - st.code.length with
      | zero => exact absurd hk this
      | succ k => rw [hk] at hi; simp at hi
  memo := fun p hp => by
    obtain ⟨v, h1, h2⟩ := h.memo p hp
    exact ⟨v, h1, h2.mono hag⟩
  e2v := fun p hp => by
    obtain ⟨v, h1, h2⟩ := h.e2v p hp
    exact ⟨v, h1, h2.mono hag⟩

theorem compV_memoized {e : Expr} {f : St → R} {v : V} (hv : den I env e = some v)
    (h : CompV I env G v f) : CompV I env G v (memoized e f) := by
  intro st ρ hinv
  have key : ∀ (hne : ∀ l, e ≠ .arr l), ∃ r st' ρ', (match alookup e st.memo with
      | some r => (.ok (r, st) : R)
      | none => match f st with
        | .error x => .error x
        | .ok (r, st') => .ok (r, { st' with memo := (e, r) :: st'.memo })) = .ok (r, st') ∧
      Inv I env G st' ρ' ∧ Ext G st ρ st' ρ' ∧ GoodV I G st'.code ρ' v r := by
    intro _
    split
    · rename_i r hr
      obtain ⟨w, h1, h2⟩ := hinv.memo _ (alookup_mem hr)
      simp only at h1
      rw [hv] at h1; cases h1
      exact ⟨r, st, ρ, rfl, hinv, Ext.refl _ _, h2⟩
    · obtain ⟨r, st', ρ', h1, h2, h3, h4⟩ := h st ρ hinv
      rw [h1]
      refine ⟨r, _, ρ', rfl, ?_, ⟨h3.agree, h3.names, h3.code⟩, h4⟩
      exact { h2 with
        memo := by
          intro p hp
          rcases List.mem_cons.1 hp with h | h
          · subst h; exact ⟨v, hv, h4⟩
          · exact h2.memo p h }
  unfold memoized
  split
  · exact h st ρ hinv
  · rename_i hne
    exact key (fun l hl => hne l hl)

/-- `assign_to_new_var` produces a variable holding the value. -/
theorem assignNew_ok {v : V} {r : Expr} {st : St} {ρ : Ctx V} (prio : Int) (pfx : Option String)
    (hG : ∀ i, G (plainName i)) (hpfx : ∀ p, pfx = some p → ∀ i, G (prefixName p i))
    (hinv : Inv I env G st ρ) (hgood : GoodV I G st.code ρ v r) :
    ∃ ρ', Inv I env G (assignNew prio pfx r st).2 ρ' ∧ Ext G st ρ (assignNew prio pfx r st).2 ρ' ∧
      GoodV I G (assignNew prio pfx r st).2.code ρ' v (assignNew prio pfx r st).1 := by
  unfold assignNew
  split
  · exact ⟨ρ, hinv, Ext.refl _ _, hgood⟩
  · have hfresh := varName_fresh pfx st.names
    have hgenN : G (varName pfx st.names) := by
      cases pfx with
      | none => obtain ⟨i, hi⟩ := varName_none_form st.names; rw [hi]; exact hG i
      | some p => obtain ⟨i, hi⟩ := varName_some_form p st.names; rw [hi]; exact hpfx p rfl i
    generalize hn : varName pfx st.names = n at *
    have hnA : n ∉ assigned st.code := fun h => hfresh (hinv.asgNames n h)
    have hag : ∀ x, (¬ G x ∨ x ∈ assigned st.code) →
        (fun y => if y = n then some v else ρ y) x = ρ x := by
      intro x hx
      have : x ≠ n := by
        rintro rfl
        rcases hx with hx | hx
        · exact hx hgenN
        · exact hnA hx
      simp [this]
    have hnr : n ∉ varNames r := by
      intro hmem
      obtain ⟨d, hd, hdn⟩ := List.mem_map.1 hmem
      have := hgood.dep d hd
      unfold DepOk at this
      rw [hdn] at this
      split at this
      · exact hnA this
      · exact this hgenN
    refine ⟨fun y => if y = n then some v else ρ y, ?_, ⟨hag, ?_, ?_⟩, ?_⟩
    · apply hinv.snoc (s := .assign n r prio) hag
      · intro m hm
        rcases List.mem_cons.1 hm with h | h
        · rw [h]; exact hgenN
        · exact hinv.gen m h
      · intro m hm; exact List.mem_cons_of_mem _ hm
      · intro m hm
        simp only [Stmt.assignees, List.mem_singleton] at hm
        subst hm; exact ⟨by simp, hnA⟩
      · simp [Stmt.assignees]
      · refine ⟨v, ?_, by simp⟩
        exact (hgood.mono (ext := []) hag).val
      · exact ⟨hgood.raw, hnr⟩
      · exact hgood.dep
    · intro m hm; exact List.mem_cons_of_mem _ hm
    · refine ⟨[.assign n r prio], rfl, ?_⟩
      intro m hm
      simp only [assigned, List.flatMap_cons, Stmt.assignees, List.flatMap_nil, List.append_nil,
        List.mem_singleton] at hm
      subst hm; exact hfresh
    · refine ⟨by simp [RawOk], ?_, by simp [den]⟩
      intro d hd
      simp only [deps, List.mem_singleton] at hd
      subst hd
      simp [DepOk, assigned, Stmt.assignees]

end Verif.Compiler
