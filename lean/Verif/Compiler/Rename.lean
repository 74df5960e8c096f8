import Verif.Compiler.Safe2

/-! Renaming of input variables (specification and helper lemmas for C02). -/

namespace Verif.Compiler

mutual
/-- Rename the input variables of an expression. -/
def ren (f : String → String) : Expr → Expr
  | .num n => .num n
  | .var x => .var (f x)
  | .nir x => .nir x
  | .sub x i => .sub (f x) i
  | .op g l => .op g (renL f l)
  | .ite c a b => .ite (ren f c) (ren f a) (ren f b)
  | .sum l => .sum (renL f l)
  | .arr l => .arr (renL f l)
  | .cse p s c => .cse p s (ren f c)
  | .intg g d k => .intg g (renL f d) (renL f k)
/-- `ren` on every member of a list -/
def renL (f : String → String) : List Expr → List Expr
  | [] => []
  | e :: l => ren f e :: renL f l
end

variable {V : Type} {I : Interp V} {f : String → String}

theorem renL_eq_map (f : String → String) : ∀ (l : List Expr), renL f l = l.map (ren f)
  | [] => rfl
  | e :: l => by simp [renL, renL_eq_map f l]

mutual
theorem subs_ren : ∀ (e : Expr), subs (ren f e) = (subs e).map (ren f)
  | .num _ | .var _ | .nir _ | .sub _ _ => by simp [subs, ren]
  | .op g l => by simp [subs, ren, subsL_ren l]
  | .ite c a b => by simp [subs, ren, subs_ren c, subs_ren a, subs_ren b]
  | .sum l => by simp [subs, ren, subsL_ren l]
  | .arr l => by simp [subs, ren, subsL_ren l]
  | .cse p s c => by simp [subs, ren, subs_ren c]
  | .intg g d k => by simp [subs, ren, subsL_ren d, subsL_ren k]
theorem subsL_ren : ∀ (l : List Expr), subsL (renL f l) = (subsL l).map (ren f)
  | [] => by simp [subsL, renL]
  | e :: l => by simp [subsL, renL, subs_ren e, subsL_ren l]
end

mutual
theorem ops_ren_nil : ∀ (e : Expr), ops e = [] → ops (ren f e) = []
  | .num _, _ | .var _, _ | .nir _, _ | .sub _ _, _ => by simp [ops, ren]
  | .op g l, h => by simp only [ops, ren] at *; exact opsL_ren_nil l h
  | .ite c a b, h => by
    simp only [ops, ren, List.append_eq_nil_iff] at *
    exact ⟨⟨ops_ren_nil c h.1.1, ops_ren_nil a h.1.2⟩, ops_ren_nil b h.2⟩
  | .sum l, h => by simp only [ops, ren] at *; exact opsL_ren_nil l h
  | .arr l, h => by simp only [ops, ren] at *; exact opsL_ren_nil l h
  | .cse p s c, h => by simp only [ops, ren] at *; exact ops_ren_nil c h
  | .intg g d k, h => by simp [ops] at h
theorem opsL_ren_nil : ∀ (l : List Expr), opsL l = [] → opsL (renL f l) = []
  | [], _ => by simp [opsL, renL]
  | e :: l, h => by
    simp only [opsL, renL, List.append_eq_nil_iff] at *
    exact ⟨ops_ren_nil e h.1, opsL_ren_nil l h.2⟩
end

theorem wf_ren {e : Expr} (h : WF e) : WF (ren f e) := by
  intro s hs
  rw [subs_ren] at hs
  obtain ⟨t, ht, rfl⟩ := List.mem_map.1 hs
  have := h t ht
  cases t with
  | nir x => simp [OkNode] at this
  | sum l =>
    simp only [OkNode, ren, renL_eq_map] at *
    simpa using this
  | cse p sc c =>
    simp only [OkNode, ren] at *
    exact fun hsc => ops_ren_nil c (this hsc)
  | intg g d k =>
    simp only [OkNode, ren, renL_eq_map, List.length_map] at *
    exact this
  | _ => simp [OkNode, ren]

mutual
theorem den_ren {env env' : Ctx V} : ∀ (e : Expr), (∀ x, .nir x ∉ subs e) →
    (∀ x ∈ varNames e, env' (f x) = env x) → den I env' (ren f e) = den I env e
  | .num _, _, _ => by simp [den, ren]
  | .var x, _, h => by simpa [den, ren] using h x (by simp [varNames, deps])
  | .nir x, hn, _ => by exact absurd (by simp [subs]) (hn x)
  | .sub x i, _, h => by simp [den, ren, h x (by simp [varNames, deps])]
  | .op g l, hn, h => by
    simp only [den, ren]
    rw [denL_ren l (fun x hx => hn x (by simp [subs, hx])) (by simpa [varNames, deps] using h)]
  | .ite c a b, hn, h => by
    simp only [varNames, deps, List.map_append, List.mem_append] at h
    simp only [subs, List.mem_cons, List.mem_append, not_or] at hn
    simp only [den, ren]
    rw [den_ren c (fun x => (hn x).2.1.1) (fun x hx => h x (Or.inl (Or.inl hx))),
      den_ren a (fun x => (hn x).2.1.2) (fun x hx => h x (Or.inl (Or.inr hx))),
      den_ren b (fun x => (hn x).2.2) (fun x hx => h x (Or.inr hx))]
  | .sum l, hn, h => by
    simp only [den, ren]
    rw [denL_ren l (fun x hx => hn x (by simp [subs, hx])) (by simpa [varNames, deps] using h)]
  | .arr l, hn, h => by
    simp only [den, ren]
    rw [denL_ren l (fun x hx => hn x (by simp [subs, hx])) (by simpa [varNames, deps] using h)]
  | .cse p s c, hn, h => by
    simp only [den, ren]
    exact den_ren c (fun x hx => hn x (by simp [subs, hx])) (by simpa [varNames, deps] using h)
  | .intg g d k, hn, h => by
    simp only [varNames, deps, List.map_append, List.mem_append] at h
    simp only [den, ren]
    rw [denL_ren d (fun x hx => hn x (by simp [subs, hx])) (fun x hx => h x (Or.inl hx)),
      denL_ren k (fun x hx => hn x (by simp [subs, hx])) (fun x hx => h x (Or.inr hx))]
theorem denL_ren {env env' : Ctx V} : ∀ (l : List Expr), (∀ x, .nir x ∉ subsL l) →
    (∀ x ∈ (depsL l).map Prod.snd, env' (f x) = env x) → denL I env' (renL f l) = denL I env l
  | [], _, _ => by simp [denL, renL]
  | e :: l, hn, h => by
    simp only [depsL, List.map_append, List.mem_append] at h
    simp only [denL, renL]
    rw [den_ren e (fun x hx => hn x (by simp [subsL, hx])) (fun x hx => h x (Or.inl hx)),
      denL_ren l (fun x hx => hn x (by simp [subsL, hx])) (fun x hx => h x (Or.inr hx))]
end

theorem no_nir {e : Expr} (h : WF e) (x : String) : .nir x ∉ subs e := fun hx => h _ hx

theorem allDefined_ren {env env' : Ctx V} {e : Expr} (hwf : WF e) (hd : AllDefined I env e)
    (h : ∀ x ∈ varNames e, env' (f x) = env x) : AllDefined I env' (ren f e) := by
  intro s hs
  rw [subs_ren] at hs
  obtain ⟨t, ht, rfl⟩ := List.mem_map.1 hs
  obtain ⟨v, hv⟩ := hd t ht
  refine ⟨v, ?_⟩
  rw [den_ren t (fun x hx => no_nir hwf x (subs_trans e hx ht)) ?_, hv]
  intro x hx
  obtain ⟨d, hd, rfl⟩ := List.mem_map.1 hx
  exact h _ (List.mem_map_of_mem (deps_of_subs e ht hd))

end Verif.Compiler
