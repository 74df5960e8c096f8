import Verif.Compiler.Props

/-!
# Whatever is returned is right (C01)

`C01_bound_eval` assumes that nothing raises.  Here: if the evaluation of a bound expression returns a value at all, it is the
value of the expression; and for expressions without conditionals it returns exactly if the expression has a value.

The proof runs the program with a second interpretation that never raises but carries failures along as values; while
nothing raises, both runs do the same.
-/

namespace Verif.Compiler

variable {V : Type}

/-! ## An interpretation that never raises -/

/-- all values, if there are all of them -/
def gather (l : List (Option V)) : Option (List V) := if l.all Option.isSome then some (l.filterMap id) else none

/-- the same with names -/
def gatherP (l : List (String × Option V)) : Option (List (String × V)) :=
  if l.all (fun q => q.2.isSome) then some (l.filterMap fun q => q.2.map fun v => (q.1, v)) else none

/-- `I.add` on values that may be missing -/
def addO (I : Interp V) : Option V → Option V → Option V
  | some x, some y => some (I.add x y)
  | _, _ => none

/-- `I.pot` on arguments that may be missing -/
def potO (I : Interp V) (src : String) (p k : List (String × Option V)) (tk tgt : String) (lim : Lim) : Option V :=
  match gatherP p, gatherP k with
  | some p, some k => I.pot src p k tk tgt lim
  | _, _ => none

/-- failures as values -/
def total (I : Interp V) : Interp (Option V) where
  num n := some (I.num n)
  sub v i := some (v.bind fun v => I.sub v i)
  op f l := some ((gather l).bind (I.op f))
  truthy v := (v.map I.truthy).getD false
  zero := some I.zero
  add := addO I
  arr l := (gather l).map I.arr
  pot src p k tk tgt lim := some (potO I src p k tk tgt lim)

/-- missing variables are failures too -/
def totalCtx (ctx : Ctx V) : Ctx (Option V) := fun x => some (ctx x)

/-- successful values -/
def lift (cc : Cache V) : Cache (Option V) := cc.map fun p => (p.1, some p.2)

theorem gather_some (vs : List V) : gather (vs.map some) = some vs := by
  unfold gather
  rw [if_pos (by simp)]
  simp [List.filterMap_map]

theorem gather_cons (a : Option V) (l : List (Option V)) :
    gather (a :: l) = match a, gather l with | some v, some vs => some (v :: vs) | _, _ => none := by
  unfold gather
  cases a with
  | none => simp
  | some v =>
    by_cases h : l.all Option.isSome = true
    · rw [if_pos (by simpa using h), if_pos h]
      simp
    · rw [if_neg (by simpa using h), if_neg h]

theorem gatherP_zip : ∀ (ns : List String) (vs : List V), gatherP (ns.zip (vs.map some)) = some (ns.zip vs)
  | [], _ => by simp [gatherP]
  | _ :: _, [] => by simp [gatherP]
  | n :: ns, v :: vs => by
    have := gatherP_zip ns vs
    unfold gatherP at this ⊢
    by_cases h : (ns.zip (vs.map some)).all (fun q => q.2.isSome) = true
    · rw [if_pos h] at this
      rw [if_pos (by simpa using h)]
      simp only [List.map_cons, List.zip_cons_cons, List.filterMap_cons, Option.map_some, Option.some.injEq] at this ⊢
      rw [this]
    · rw [if_neg h] at this
      cases this

theorem gatherP_perm {p p' : List (String × Option V)} (h : p.Perm p') :
    (gatherP p = none ∧ gatherP p' = none) ∨ ∃ q q', gatherP p = some q ∧ gatherP p' = some q' ∧ q.Perm q' := by
  unfold gatherP
  have hall : p.all (fun q => q.2.isSome) = p'.all (fun q => q.2.isSome) := by
    rw [Bool.eq_iff_iff, List.all_eq_true, List.all_eq_true]
    exact forall_congr' fun x => by rw [h.mem_iff]
  by_cases hp : p.all (fun q => q.2.isSome) = true
  · right
    rw [if_pos hp, if_pos (hall ▸ hp)]
    exact ⟨_, _, rfl, rfl, h.filterMap _⟩
  · left
    rw [if_neg hp, if_neg (hall ▸ hp)]
    exact ⟨rfl, rfl⟩

theorem total_lawful {I : Interp V} (hI : Lawful I) : Lawful (total I) where
  zero_add v := by
    cases v with
    | none => rfl
    | some v => exact congrArg some (hI.zero_add v)
  pot_perm src p p' k k' tk tgt lim hp hk := by
    show some (potO I src p k tk tgt lim) = some (potO I src p' k' tk tgt lim)
    unfold potO
    rcases gatherP_perm hp with ⟨h1, h2⟩ | ⟨q, q', h1, h2, h3⟩
    · rw [h1, h2]
    · rcases gatherP_perm hk with ⟨k1, k2⟩ | ⟨r, r', k1, k2, k3⟩
      · rw [h1, h2, k1, k2]
      · rw [h1, h2, k1, k2]
        simp only
        rw [hI.pot_perm src q q' r r' tk tgt lim h3 k3]

theorem foldl_addO_none (I : Interp V) : ∀ l : List (Option V), l.foldl (addO I) none = none
  | [] => rfl
  | a :: l => by
    simp only [List.foldl_cons, addO]
    exact foldl_addO_none I l

theorem foldl_addO (I : Interp V) : ∀ (l : List (Option V)) (z : V),
    l.foldl (addO I) (some z) = (gather l).map fun vs => vs.foldl I.add z
  | [], z => by simp [gather]
  | none :: l, z => by
    rw [gather_cons]
    simp only [List.foldl_cons, addO, foldl_addO_none]
    rfl
  | some v :: l, z => by
    rw [gather_cons]
    simp only [List.foldl_cons, addO, foldl_addO I l]
    cases gather l <;> rfl

/-! ## Its values -/

mutual
/-- it always has a value -/
theorem den_total (I : Interp V) (ctx : Ctx V) : ∀ e, ∃ w, den (total I) (totalCtx ctx) e = some w
  | .num _ => ⟨_, rfl⟩
  | .var _ => ⟨_, rfl⟩
  | .nir _ => ⟨_, rfl⟩
  | .sub _ _ => ⟨_, rfl⟩
  | .op f l => by
    obtain ⟨ws, h⟩ := denL_total I ctx l
    exact ⟨_, by simp only [den, h, Option.bind_some]; rfl⟩
  | .ite c a b => by
    obtain ⟨w, h⟩ := den_total I ctx c
    simp only [den, h]
    by_cases ht : (total I).truthy w = true
    · rw [if_pos ht]
      exact den_total I ctx a
    · rw [if_neg ht]
      exact den_total I ctx b
  | .sum l => by
    obtain ⟨ws, h⟩ := denL_total I ctx l
    exact ⟨_, by simp only [den, h, Option.map_some]; rfl⟩
  | .arr l => by
    obtain ⟨ws, h⟩ := denL_total I ctx l
    exact ⟨_, by simp only [den, h, Option.map_some]; rfl⟩
  | .cse _ _ c => by
    simp only [den]
    exact den_total I ctx c
  | .intg g d k => by
    obtain ⟨ws, h⟩ := denL_total I ctx d
    obtain ⟨us, h'⟩ := denL_total I ctx k
    exact ⟨_, by simp only [den, h, h']; rfl⟩
theorem denL_total (I : Interp V) (ctx : Ctx V) : ∀ l, ∃ ws, denL (total I) (totalCtx ctx) l = some ws
  | [] => ⟨_, rfl⟩
  | e :: l => by
    obtain ⟨w, h⟩ := den_total I ctx e
    obtain ⟨ws, h'⟩ := denL_total I ctx l
    exact ⟨w :: ws, by simp only [denL, h, h']⟩
end

theorem denL_gather (I : Interp V) (ctx : Ctx V) : ∀ l, denL I ctx l = gather (l.map (den I ctx))
  | [] => by simp [denL, gather]
  | e :: l => by
    rw [List.map_cons, gather_cons, ← denL_gather I ctx l]
    simp only [denL]
    cases den I ctx e <;> cases denL I ctx l <;> rfl

/-- what the next theorem needs to know about a node -/
def Fine (I : Interp V) (ctx : Ctx V) : Expr → Prop
  | .ite c _ _ => ∃ v, den I ctx c = some v
  | .intg g d k => g.sks.length = d.length ∧ g.kn.length = k.length
  | _ => True

theorem gatherP_gather : ∀ (ns : List String) (l : List (Option V)), ns.length = l.length →
    gatherP (ns.zip l) = (gather l).map fun vs => ns.zip vs
  | [], [], _ => rfl
  | n :: ns, a :: l, h => by
    have ih := gatherP_gather ns l (by simpa using h)
    rw [gather_cons]
    cases a with
    | none => simp [gatherP]
    | some v =>
      unfold gatherP at ih ⊢
      by_cases hc : (ns.zip l).all (fun q => q.2.isSome) = true
      · rw [if_pos hc] at ih
        rw [if_pos (by simpa using hc)]
        cases hg : gather l with
        | none => rw [hg] at ih; cases ih
        | some vs =>
          rw [hg, Option.map_some, Option.some.injEq] at ih
          simp only [List.zip_cons_cons, List.filterMap_cons, Option.map_some, ih]
      · rw [if_neg hc] at ih
        rw [if_neg (by simpa using hc)]
        cases hg : gather l with
        | none => rfl
        | some vs => rw [hg] at ih; cases ih
  | [], _ :: _, h => by cases h
  | _ :: _, [], h => by cases h

mutual
/-- and it is the value of the expression, if there is one, otherwise a failure -/
theorem den_eq (I : Interp V) (ctx : Ctx V) : ∀ e, (∀ s ∈ subs e, Fine I ctx s) →
    den (total I) (totalCtx ctx) e = some (den I ctx e)
  | .num _, _ => rfl
  | .var _, _ => rfl
  | .nir _, _ => rfl
  | .sub _ _, _ => rfl
  | .op f l, h => by
    have := denL_eq I ctx l fun s hm => h s (by simp only [subs, List.mem_cons]; exact Or.inr hm)
    simp only [den, this, Option.bind_some, denL_gather I ctx l]
    rfl
  | .ite c a b, h => by
    have hc := den_eq I ctx c fun s hm => h s (by
      simp only [subs, List.mem_cons, List.mem_append]; exact Or.inr (Or.inl (Or.inl hm)))
    have ha := den_eq I ctx a fun s hm => h s (by
      simp only [subs, List.mem_cons, List.mem_append]; exact Or.inr (Or.inl (Or.inr hm)))
    have hb := den_eq I ctx b fun s hm => h s (by
      simp only [subs, List.mem_cons, List.mem_append]; exact Or.inr (Or.inr hm))
    obtain ⟨v, hv⟩ : ∃ v, den I ctx c = some v := h _ (self_mem_subs _)
    rw [hv] at hc
    simp only [den, hc, hv, ha, hb]
    have : (total I).truthy (some v) = I.truthy v := rfl
    rw [this]
    split <;> rfl
  | .sum l, h => by
    have := denL_eq I ctx l fun s hm => h s (by simp only [subs, List.mem_cons]; exact Or.inr hm)
    simp only [den, this, Option.map_some, denL_gather I ctx l]
    exact congrArg some (foldl_addO I _ _)
  | .arr l, h => by
    have := denL_eq I ctx l fun s hm => h s (by simp only [subs, List.mem_cons]; exact Or.inr hm)
    simp only [den, this, Option.map_some, denL_gather I ctx l]
    rfl
  | .cse _ _ c, h => by
    simp only [den]
    exact den_eq I ctx c fun s hm => h s (by simp only [subs, List.mem_cons]; exact Or.inr hm)
  | .intg g d k, h => by
    have h1 := denL_eq I ctx d fun s hm => h s (by
      simp only [subs, List.mem_cons, List.mem_append]; exact Or.inr (Or.inl hm))
    have h2 := denL_eq I ctx k fun s hm => h s (by
      simp only [subs, List.mem_cons, List.mem_append]; exact Or.inr (Or.inr hm))
    obtain ⟨l1, l2⟩ : g.sks.length = d.length ∧ g.kn.length = k.length := h _ (self_mem_subs _)
    simp only [den, h1, h2, denL_gather I ctx]
    show some (potO I g.src (g.sks.zip (d.map (den I ctx))) (g.kn.zip (k.map (den I ctx))) g.tk g.tgt g.lim) = _
    unfold potO
    rw [gatherP_gather _ _ (by simpa using l1), gatherP_gather _ _ (by simpa using l2)]
    cases gather (d.map (den I ctx)) <;> cases gather (k.map (den I ctx)) <;> rfl
theorem denL_eq (I : Interp V) (ctx : Ctx V) : ∀ l, (∀ s ∈ subsL l, Fine I ctx s) →
    denL (total I) (totalCtx ctx) l = some (l.map (den I ctx))
  | [], _ => rfl
  | e :: l, h => by
    have h1 := den_eq I ctx e fun s hm => h s (by simp only [subsL, List.mem_append]; exact Or.inl hm)
    have h2 := denL_eq I ctx l fun s hm => h s (by simp only [subsL, List.mem_append]; exact Or.inr hm)
    simp only [denL, h1, h2, List.map_cons]
end

mutual
/-- values that exist are kept, conditionals or not -/
theorem den_up (I : Interp V) (ctx : Ctx V) : ∀ e v, den I ctx e = some v →
    den (total I) (totalCtx ctx) e = some (some v)
  | .num _, v, h => congrArg some h
  | .var _, v, h => congrArg some h
  | .nir _, v, h => congrArg some h
  | .sub _ _, v, h => congrArg some h
  | .op f l, v, h => by
    simp only [den] at h
    obtain ⟨vs, h1, h2⟩ := Option.bind_eq_some_iff.1 h
    have := denL_up I ctx l vs h1
    simp only [den, this, Option.bind_some]
    show some ((gather (vs.map some)).bind (I.op f)) = _
    rw [gather_some, Option.bind_some, h2]
  | .ite c a b, v, h => by
    simp only [den] at h
    cases hc : den I ctx c with
    | none => rw [hc] at h; cases h
    | some w =>
      rw [hc] at h
      have h1 := den_up I ctx c w hc
      simp only [den, h1]
      have : (total I).truthy (some w) = I.truthy w := rfl
      rw [this]
      by_cases ht : I.truthy w = true
      · simp only [if_pos ht] at h ⊢
        exact den_up I ctx a v h
      · simp only [if_neg ht] at h ⊢
        exact den_up I ctx b v h
  | .sum l, v, h => by
    simp only [den] at h
    obtain ⟨vs, h1, h2⟩ := Option.map_eq_some_iff.1 h
    have := denL_up I ctx l vs h1
    simp only [den, this, Option.map_some]
    have h3 := foldl_addO I (vs.map some) I.zero
    rw [gather_some] at h3
    rw [← h2]
    exact congrArg some h3
  | .arr l, v, h => by
    simp only [den] at h
    obtain ⟨vs, h1, h2⟩ := Option.map_eq_some_iff.1 h
    have := denL_up I ctx l vs h1
    simp only [den, this, Option.map_some]
    show some ((gather (vs.map some)).map I.arr) = _
    rw [gather_some, Option.map_some, h2]
  | .cse _ _ c, v, h => by
    simp only [den] at h ⊢
    exact den_up I ctx c v h
  | .intg g d k, v, h => by
    simp only [den] at h
    cases h1 : denL I ctx d with
    | none => rw [h1] at h; cases h
    | some dv =>
      cases h2 : denL I ctx k with
      | none => rw [h1, h2] at h; cases h
      | some kv =>
        rw [h1, h2] at h
        simp only [den, denL_up I ctx d dv h1, denL_up I ctx k kv h2]
        show some (potO I g.src (g.sks.zip (dv.map some)) (g.kn.zip (kv.map some)) g.tk g.tgt g.lim) = _
        unfold potO
        rw [gatherP_zip, gatherP_zip]
        exact congrArg some h
theorem denL_up (I : Interp V) (ctx : Ctx V) : ∀ l vs, denL I ctx l = some vs →
    denL (total I) (totalCtx ctx) l = some (vs.map some)
  | [], vs, h => by
    simp only [denL, Option.some.injEq] at h
    subst h
    rfl
  | e :: l, vs, h => by
    simp only [denL] at h
    cases h1 : den I ctx e with
    | none => rw [h1] at h; cases h
    | some w =>
      cases h2 : denL I ctx l with
      | none => rw [h1, h2] at h; cases h
      | some ws =>
        rw [h1, h2] at h
        simp only [Option.some.injEq] at h
        subst h
        simp only [denL, den_up I ctx e w h1, denL_up I ctx l ws h2, List.map_cons]
end

/-! ## The runs -/

/-- the second run has at least the variables of the first -/
def Rel (ctx : Ctx V) (ctx' : Ctx (Option V)) : Prop := ∀ x v, ctx x = some v → ctx' x = some (some v)

theorem alookup_lift (k : Scope × Option String × Expr) : ∀ cc : Cache V,
    alookup k (lift cc) = (alookup k cc).map some
  | [] => rfl
  | (k', v) :: cc => by
    have := alookup_lift k cc
    simp only [lift, List.map_cons, alookup] at this ⊢
    split
    · rfl
    · exact this

mutual
theorem ev_lift {I : Interp V} {ctx : Ctx V} {ctx' : Ctx (Option V)} (hr : Rel ctx ctx') : ∀ e cc v cc1,
    ev I ctx e cc = .ok (v, cc1) → ev (total I) ctx' e (lift cc) = .ok (some v, lift cc1)
  | .num n, cc, v, cc1, h => by
    simp only [ev, Except.ok.injEq, Prod.mk.injEq] at h ⊢
    obtain ⟨rfl, rfl⟩ := h
    exact ⟨rfl, rfl⟩
  | .var x, cc, v, cc1, h => by
    simp only [ev] at h ⊢
    cases hx : ctx x with
    | none => rw [hx] at h; cases h
    | some w =>
      rw [hx] at h
      simp only [Except.ok.injEq, Prod.mk.injEq] at h
      obtain ⟨rfl, rfl⟩ := h
      rw [hr x _ hx]
  | .nir x, cc, v, cc1, h => by
    simp only [ev] at h ⊢
    cases hx : ctx x with
    | none => rw [hx] at h; cases h
    | some w =>
      rw [hx] at h
      simp only [Except.ok.injEq, Prod.mk.injEq] at h
      obtain ⟨rfl, rfl⟩ := h
      rw [hr x _ hx]
  | .sub x i, cc, v, cc1, h => by
    simp only [ev] at h ⊢
    cases hx : ctx x with
    | none => rw [hx] at h; cases h
    | some w =>
      rw [hx] at h
      cases hs : I.sub w i with
      | none => simp only [hs] at h; cases h
      | some u =>
        simp only [hs, Except.ok.injEq, Prod.mk.injEq] at h
        obtain ⟨rfl, rfl⟩ := h
        rw [hr x _ hx]
        simp only [total, Option.bind_some, hs]
  | .op f l, cc, v, cc1, h => by
    simp only [ev] at h ⊢
    cases hl : evL I ctx l cc with
    | error x => rw [hl] at h; cases h
    | ok r =>
      obtain ⟨vs, cc2⟩ := r
      rw [hl] at h
      cases ho : I.op f vs with
      | none => simp only [ho] at h; cases h
      | some u =>
        simp only [ho, Except.ok.injEq, Prod.mk.injEq] at h
        obtain ⟨rfl, rfl⟩ := h
        rw [evL_lift hr l cc vs cc2 hl]
        simp only [total, gather_some, Option.bind_some, ho]
  | .ite c a b, cc, v, cc1, h => by
    simp only [ev] at h ⊢
    cases hc : ev I ctx c cc with
    | error x => rw [hc] at h; cases h
    | ok r =>
      obtain ⟨w, cc2⟩ := r
      rw [hc] at h
      rw [ev_lift hr c cc w cc2 hc]
      have : (total I).truthy (some w) = I.truthy w := rfl
      simp only [this]
      by_cases ht : I.truthy w = true
      · simp only [if_pos ht] at h ⊢
        exact ev_lift hr a cc2 v cc1 h
      · simp only [if_neg ht] at h ⊢
        exact ev_lift hr b cc2 v cc1 h
  | .sum l, cc, v, cc1, h => by
    simp only [ev] at h ⊢
    cases hl : evL I ctx l cc with
    | error x => rw [hl] at h; cases h
    | ok r =>
      obtain ⟨vs, cc2⟩ := r
      rw [hl] at h
      simp only [Except.ok.injEq, Prod.mk.injEq] at h
      obtain ⟨rfl, rfl⟩ := h
      rw [evL_lift hr l cc vs cc2 hl]
      have h3 := foldl_addO I (vs.map some) I.zero
      rw [gather_some] at h3
      simp only [total]
      rw [h3]
      rfl
  | .arr l, cc, v, cc1, h => by
    simp only [ev] at h ⊢
    cases hl : evL I ctx l cc with
    | error x => rw [hl] at h; cases h
    | ok r =>
      obtain ⟨vs, cc2⟩ := r
      rw [hl] at h
      simp only [Except.ok.injEq, Prod.mk.injEq] at h
      obtain ⟨rfl, rfl⟩ := h
      rw [evL_lift hr l cc vs cc2 hl]
      simp only [total, gather_some, Option.map_some]
  | .cse p sc child, cc, v, cc1, h => by
    simp only [ev] at h ⊢
    by_cases hs : sc = .evaluation
    · simp only [if_pos hs] at h ⊢
      exact ev_lift hr child cc v cc1 h
    · simp only [if_neg hs] at h ⊢
      rw [alookup_lift]
      cases ha : alookup (sc, p, child) cc with
      | some w =>
        rw [ha] at h
        simp only [Except.ok.injEq, Prod.mk.injEq] at h
        obtain ⟨rfl, rfl⟩ := h
        rfl
      | none =>
        rw [ha] at h
        cases hc : ev I ctx child cc with
        | error x => rw [hc] at h; cases h
        | ok r =>
          obtain ⟨w, cc2⟩ := r
          rw [hc] at h
          simp only [Except.ok.injEq, Prod.mk.injEq] at h
          obtain ⟨rfl, rfl⟩ := h
          simp only [Option.map_none, ev_lift hr child cc w cc2 hc]
          rfl
  | .intg .., cc, v, cc1, h => by simp only [ev] at h; cases h
theorem evL_lift {I : Interp V} {ctx : Ctx V} {ctx' : Ctx (Option V)} (hr : Rel ctx ctx') : ∀ l cc vs cc1,
    evL I ctx l cc = .ok (vs, cc1) → evL (total I) ctx' l (lift cc) = .ok (vs.map some, lift cc1)
  | [], cc, vs, cc1, h => by
    simp only [evL, Except.ok.injEq, Prod.mk.injEq] at h ⊢
    obtain ⟨rfl, rfl⟩ := h
    exact ⟨rfl, rfl⟩
  | e :: l, cc, vs, cc1, h => by
    simp only [evL] at h ⊢
    cases h1 : ev I ctx e cc with
    | error x => rw [h1] at h; cases h
    | ok r =>
      obtain ⟨w, cc2⟩ := r
      rw [h1] at h
      simp only at h
      cases h2 : evL I ctx l cc2 with
      | error x => rw [h2] at h; cases h
      | ok r =>
        obtain ⟨ws, cc3⟩ := r
        rw [h2] at h
        simp only [Except.ok.injEq, Prod.mk.injEq] at h
        obtain ⟨rfl, rfl⟩ := h
        rw [ev_lift hr e cc w cc2 h1]
        simp only [evL_lift hr l cc2 ws cc3 h2, List.map_cons]
end

theorem execOuts_lift {I : Interp V} (src : String) (sks kn tks : List String) (dv kv : List V) :
    ∀ outs r, execOuts I src (sks.zip dv) (kn.zip kv) tks outs = .ok r →
      execOuts (total I) src (sks.zip (dv.map some)) (kn.zip (kv.map some)) tks outs = .ok (r.map fun q => (q.1, some q.2))
  | [], r, h => by
    simp only [execOuts, Except.ok.injEq] at h ⊢
    subst h
    rfl
  | o :: os, r, h => by
    simp only [execOuts] at h ⊢
    cases ht : tks[o.tkIdx]? with
    | none => rw [ht] at h; cases h
    | some tk =>
      simp only [ht] at h ⊢
      cases hp : I.pot src (sks.zip dv) (kn.zip kv) tk o.tgt o.lim with
      | none => rw [hp] at h; cases h
      | some v =>
        rw [hp] at h
        simp only at h
        cases hr : execOuts I src (sks.zip dv) (kn.zip kv) tks os with
        | error x => rw [hr] at h; cases h
        | ok q =>
          rw [hr] at h
          simp only [Except.ok.injEq] at h
          subst h
          have : (total I).pot src (sks.zip (dv.map some)) (kn.zip (kv.map some)) tk o.tgt o.lim = some (some v) := by
            show some (potO I src (sks.zip (dv.map some)) (kn.zip (kv.map some)) tk o.tgt o.lim) = _
            unfold potO
            rw [gatherP_zip, gatherP_zip]
            exact congrArg some hp
          rw [this]
          simp only [execOuts_lift src sks kn tks dv kv os q hr, List.map_cons]

theorem execStmt_lift {I : Interp V} {ctx : Ctx V} {ctx' : Ctx (Option V)} (hr : Rel ctx ctx') (s : Stmt) (cc : Cache V)
    (as : List (String × V)) (cc1 : Cache V) (h : execStmt I ctx s cc = .ok (as, cc1)) :
    execStmt (total I) ctx' s (lift cc) = .ok (as.map fun q => (q.1, some q.2), lift cc1) := by
  cases s with
  | assign n e p =>
    simp only [execStmt] at h ⊢
    cases h1 : ev I ctx e cc with
    | error x => rw [h1] at h; cases h
    | ok r =>
      obtain ⟨v, cc2⟩ := r
      rw [h1] at h
      simp only [Except.ok.injEq, Prod.mk.injEq] at h
      obtain ⟨rfl, rfl⟩ := h
      rw [ev_lift hr e cc v cc2 h1]
      rfl
  | pot outs tks kn kv sks ds src p =>
    simp only [execStmt] at h ⊢
    cases h1 : evL I ctx ds cc with
    | error x => rw [h1] at h; cases h
    | ok r =>
      obtain ⟨dv, cc2⟩ := r
      rw [h1] at h
      simp only at h
      cases h2 : evL I ctx kv cc2 with
      | error x => rw [h2] at h; cases h
      | ok r =>
        obtain ⟨kvv, cc3⟩ := r
        rw [h2] at h
        simp only at h
        cases h3 : execOuts I src (sks.zip dv) (kn.zip kvv) tks outs with
        | error x => rw [h3] at h; cases h
        | ok q =>
          rw [h3] at h
          simp only [Except.ok.injEq, Prod.mk.injEq] at h
          obtain ⟨rfl, rfl⟩ := h
          rw [evL_lift hr ds cc dv cc2 h1]
          simp only [evL_lift hr kv cc2 kvv cc3 h2, execOuts_lift src sks kn tks dv kvv outs q h3]

theorem delAll_lift : ∀ (d : List String) (ctx : Ctx V) (ctx' : Ctx (Option V)) (ctx1 : Ctx V), Rel ctx ctx' →
    delAll ctx d = .ok ctx1 → ∃ ctx1', delAll ctx' d = .ok ctx1' ∧ Rel ctx1 ctx1'
  | [], ctx, ctx', ctx1, hr, h => by
    simp only [delAll, Except.ok.injEq] at h
    subst h
    exact ⟨ctx', rfl, hr⟩
  | x :: d, ctx, ctx', ctx1, hr, h => by
    simp only [delAll] at h ⊢
    cases hx : ctx x with
    | none => rw [hx] at h; cases h
    | some w =>
      rw [hx] at h
      rw [hr x w hx]
      refine delAll_lift d _ _ ctx1 ?_ h
      intro y v hy
      simp only at hy ⊢
      by_cases hxy : y = x
      · rw [if_pos hxy] at hy; cases hy
      · rw [if_neg hxy] at hy ⊢
        exact hr y v hy

theorem setAll_lift : ∀ (as : List (String × V)) (ctx : Ctx V) (ctx' : Ctx (Option V)), Rel ctx ctx' →
    Rel (setAll ctx as) (setAll ctx' (as.map fun q => (q.1, some q.2)))
  | [], _, _, hr => hr
  | (x, v) :: as, ctx, ctx', hr => by
    simp only [setAll, List.map_cons]
    refine setAll_lift as _ _ ?_
    intro y w hy
    simp only at hy ⊢
    by_cases hxy : y = x
    · rw [if_pos hxy] at hy ⊢
      rw [Option.some.injEq] at hy
      rw [hy]
    · rw [if_neg hxy] at hy ⊢
      exact hr y w hy

theorem runSched_lift {I : Interp V} : ∀ (l : List (Stmt × List String)) (ctx : Ctx V) (ctx' : Ctx (Option V)) (cc : Cache V)
    (ctx1 : Ctx V) (cc1 : Cache V), Rel ctx ctx' → runSched I l ctx cc = .ok (ctx1, cc1) →
      ∃ ctx1', runSched (total I) l ctx' (lift cc) = .ok (ctx1', lift cc1) ∧ Rel ctx1 ctx1'
  | [], ctx, ctx', cc, ctx1, cc1, hr, h => by
    simp only [runSched, Except.ok.injEq, Prod.mk.injEq] at h
    obtain ⟨rfl, rfl⟩ := h
    exact ⟨ctx', rfl, hr⟩
  | (s, d) :: l, ctx, ctx', cc, ctx1, cc1, hr, h => by
    simp only [runSched] at h ⊢
    cases h1 : delAll ctx d with
    | error x => rw [h1] at h; cases h
    | ok c1 =>
      rw [h1] at h
      simp only at h
      obtain ⟨c1', k1, k2⟩ := delAll_lift d ctx ctx' c1 hr h1
      cases h2 : execStmt I c1 s cc with
      | error x => rw [h2] at h; cases h
      | ok r =>
        obtain ⟨as, cc2⟩ := r
        rw [h2] at h
        simp only at h
        rw [k1]
        simp only [execStmt_lift k2 s cc as cc2 h2]
        exact runSched_lift l _ _ cc2 ctx1 cc1 (setAll_lift as _ _ k2) h

/-- while nothing raises, both interpretations do the same -/
theorem execute_lift {I : Interp V} (code : Code) (ctx : Ctx V) (cc : Cache V) (v : V) (ctx1 : Ctx V) (cc1 : Cache V)
    (h : execute I code ctx cc = .ok (v, ctx1, cc1)) :
    ∃ ctx1' cc1', execute (total I) code (totalCtx ctx) (lift cc) = .ok (some v, ctx1', cc1') := by
  unfold execute at h ⊢
  cases hf : code.inputs.find? (fun x => (ctx x).isNone) with
  | some x => rw [hf] at h; cases h
  | none =>
    rw [hf] at h
    simp only at h
    have hf' : code.inputs.find? (fun x => (totalCtx ctx x).isNone) = none := by
      rw [List.find?_eq_none]
      intro x _
      simp [totalCtx]
    rw [hf']
    simp only
    cases hs : runSched I code.schedule ctx cc with
    | error x => rw [hs] at h; cases h
    | ok r =>
      obtain ⟨c1, cc2⟩ := r
      rw [hs] at h
      simp only at h
      obtain ⟨c1', k1, k2⟩ := runSched_lift code.schedule ctx (totalCtx ctx) cc c1 cc2
        (fun x v hx => by simp only [totalCtx, hx]) hs
      rw [k1]
      simp only
      cases he : ev I c1 code.result cc2 with
      | error x => rw [he] at h; cases h
      | ok r =>
        obtain ⟨w, cc3⟩ := r
        rw [he] at h
        simp only [Except.ok.injEq, Prod.mk.injEq] at h
        obtain ⟨rfl, -, -⟩ := h
        rw [ev_lift k2 code.result cc2 w cc3 he]
        exact ⟨_, _, rfl⟩

/-! ## Theorems -/

/-- all conditions in the expression have values -/
def CondDefined (I : Interp V) (ctx : Ctx V) (e : Expr) : Prop :=
  ∀ c a b, Expr.ite c a b ∈ subs e → ∃ v, den I ctx c = some v

/-- no conditionals in the expression -/
def NoCond (e : Expr) : Prop := ∀ c a b, Expr.ite c a b ∉ subs e

theorem fine_of {I : Interp V} {ctx : Ctx V} {e : Expr} (hwf : WF e) (hc : CondDefined I ctx e) :
    ∀ s ∈ subs e, Fine I ctx s := by
  intro s hs
  have hok := hwf s hs
  cases s with
  | ite c a b => exact hc c a b hs
  | intg g d k => exact ⟨hok.2.2.1, hok.2.2.2⟩
  | _ => trivial

/-- **C01**: a value returned by a bound expression is the value of the expression, whether or not some operation in it can
raise, as long as the conditions of its conditionals have values: nothing raised is ever turned into a result. -/
theorem C01_sound (c : Cfg) (I : Interp V) (e : Expr) (ctx : Ctx V) (cc : Cache V) (hc : CfgOk c) (hI : Lawful I)
    (hwf : WF e) (hnc : NoClash e) (hcond : CondDefined I ctx e) (hcc : CacheValid I ctx cc) (v : V) (ctx' : Ctx V)
    (cc' : Cache V) (h : evalBound c I e ctx cc = .ok (v, ctx', cc')) : den I ctx e = some v := by
  unfold evalBound at h
  cases hcomp : compile c e with
  | error x => rw [hcomp] at h; cases h
  | ok code =>
    rw [hcomp] at h
    simp only at h
    cases hx : execute I code ctx cc with
    | error x => rw [hx] at h; cases h
    | ok r =>
      rw [hx] at h
      simp only [Except.ok.injEq] at h
      subst h
      obtain ⟨ctx1', cc1', h1⟩ := execute_lift code ctx cc v ctx' cc' hx
      obtain ⟨w, c2, cc2, h2, h3, -⟩ := C01_bound_eval c (total I) e (totalCtx ctx) (lift cc) hc (total_lawful hI) hwf hnc
        (fun s _ => den_total I ctx s) (by
          intro k u hm
          obtain ⟨⟨k', v'⟩, hm', heq⟩ := List.mem_map.1 hm
          simp only [Prod.mk.injEq] at heq
          obtain ⟨rfl, rfl⟩ := heq
          exact den_up I ctx _ _ (hcc _ _ hm'))
      simp only [evalBound, hcomp, h1, Except.ok.injEq, Prod.mk.injEq] at h3
      rw [den_eq I ctx e (fine_of hwf hcond), Option.some.injEq] at h2
      rw [h2, ← h3.1]

mutual
theorem allDefined_of (I : Interp V) (ctx : Ctx V) : ∀ e, NoCond e → ∀ v, den I ctx e = some v → AllDefined I ctx e
  | .num n, _, v, h => by
    intro s hs
    simp only [subs, List.mem_singleton] at hs
    subst hs
    exact ⟨v, h⟩
  | .var n, _, v, h => by
    intro s hs
    simp only [subs, List.mem_singleton] at hs
    subst hs
    exact ⟨v, h⟩
  | .nir n, _, v, h => by
    intro s hs
    simp only [subs, List.mem_singleton] at hs
    subst hs
    exact ⟨v, h⟩
  | .sub n i, _, v, h => by
    intro s hs
    simp only [subs, List.mem_singleton] at hs
    subst hs
    exact ⟨v, h⟩
  | .op f l, hn, v, h => by
    intro s hs
    simp only [subs, List.mem_cons] at hs
    rcases hs with rfl | hs
    · exact ⟨v, h⟩
    · simp only [den] at h
      obtain ⟨vs, h1, _⟩ := Option.bind_eq_some_iff.1 h
      exact allDefinedL_of I ctx l (fun c a b hm => hn c a b (by simp only [subs, List.mem_cons]; exact Or.inr hm)) vs h1 s hs
  | .ite c a b, hn, _, _ => absurd (self_mem_subs _) (hn c a b)
  | .sum l, hn, v, h => by
    intro s hs
    simp only [subs, List.mem_cons] at hs
    rcases hs with rfl | hs
    · exact ⟨v, h⟩
    · simp only [den] at h
      obtain ⟨vs, h1, _⟩ := Option.map_eq_some_iff.1 h
      exact allDefinedL_of I ctx l (fun c a b hm => hn c a b (by simp only [subs, List.mem_cons]; exact Or.inr hm)) vs h1 s hs
  | .arr l, hn, v, h => by
    intro s hs
    simp only [subs, List.mem_cons] at hs
    rcases hs with rfl | hs
    · exact ⟨v, h⟩
    · simp only [den] at h
      obtain ⟨vs, h1, _⟩ := Option.map_eq_some_iff.1 h
      exact allDefinedL_of I ctx l (fun c a b hm => hn c a b (by simp only [subs, List.mem_cons]; exact Or.inr hm)) vs h1 s hs
  | .cse p sc c, hn, v, h => by
    intro s hs
    simp only [subs, List.mem_cons] at hs
    rcases hs with rfl | hs
    · exact ⟨v, h⟩
    · simp only [den] at h
      exact allDefined_of I ctx c (fun c' a b hm => hn c' a b (by simp only [subs, List.mem_cons]; exact Or.inr hm)) v h s hs
  | .intg g d k, hn, v, h => by
    intro s hs
    simp only [subs, List.mem_cons, List.mem_append] at hs
    rcases hs with rfl | hs
    · exact ⟨v, h⟩
    · simp only [den] at h
      cases h1 : denL I ctx d with
      | none => rw [h1] at h; cases h
      | some dv =>
        cases h2 : denL I ctx k with
        | none => rw [h1, h2] at h; cases h
        | some kv =>
          rcases hs with hs | hs
          · exact allDefinedL_of I ctx d (fun c a b hm => hn c a b (by
              simp only [subs, List.mem_cons, List.mem_append]; exact Or.inr (Or.inl hm))) dv h1 s hs
          · exact allDefinedL_of I ctx k (fun c a b hm => hn c a b (by
              simp only [subs, List.mem_cons, List.mem_append]; exact Or.inr (Or.inr hm))) kv h2 s hs
theorem allDefinedL_of (I : Interp V) (ctx : Ctx V) : ∀ l, (∀ c a b, Expr.ite c a b ∉ subsL l) → ∀ vs,
    denL I ctx l = some vs → ∀ s ∈ subsL l, ∃ v, den I ctx s = some v
  | [], _, _, _ => by
    intro s hs
    simp only [subsL] at hs
    cases hs
  | e :: l, hn, vs, h => by
    intro s hs
    simp only [denL] at h
    cases h1 : den I ctx e with
    | none => rw [h1] at h; cases h
    | some w =>
      cases h2 : denL I ctx l with
      | none => rw [h1, h2] at h; cases h
      | some ws =>
        simp only [subsL, List.mem_append] at hs
        rcases hs with hs | hs
        · exact allDefined_of I ctx e (fun c a b hm => hn c a b (by simp only [subsL, List.mem_append]; exact Or.inl hm)) w
            h1 s hs
        · exact allDefinedL_of I ctx l (fun c a b hm => hn c a b (by simp only [subsL, List.mem_append]; exact Or.inr hm)) ws
            h2 s hs
end

/-- **C01**, exactly: an expression without conditionals has a value if and only if its bound form returns one, and it is the
same; otherwise an exception is raised.  For every interpretation of the operations, priorities, set orders, inputs and valid cache
content. -/
theorem C01_exact (c : Cfg) (I : Interp V) (e : Expr) (ctx : Ctx V) (cc : Cache V) (hc : CfgOk c) (hI : Lawful I)
    (hwf : WF e) (hnc : NoClash e) (hn : NoCond e) (hcc : CacheValid I ctx cc) :
    (∀ v, (∃ ctx' cc', evalBound c I e ctx cc = .ok (v, ctx', cc')) ↔ den I ctx e = some v) ∧
      ((∃ x, evalBound c I e ctx cc = .error x) ↔ den I ctx e = none) := by
  have key : ∀ v, (∃ ctx' cc', evalBound c I e ctx cc = .ok (v, ctx', cc')) ↔ den I ctx e = some v := by
    intro v
    constructor
    · rintro ⟨ctx', cc', h⟩
      exact C01_sound c I e ctx cc hc hI hwf hnc (fun c a b hm => absurd hm (hn c a b)) hcc v ctx' cc' h
    · intro h
      obtain ⟨w, ctx', cc', h1, h2, -⟩ := C01_bound_eval c I e ctx cc hc hI hwf hnc (allDefined_of I ctx e hn v h) hcc
      rw [h, Option.some.injEq] at h1
      exact ⟨ctx', cc', h1 ▸ h2⟩
  refine ⟨key, ?_⟩
  constructor
  · rintro ⟨x, hx⟩
    cases hd : den I ctx e with
    | none => rfl
    | some v =>
      obtain ⟨ctx', cc', h⟩ := (key v).2 hd
      rw [h] at hx
      cases hx
  · intro h
    cases hx : evalBound c I e ctx cc with
    | error x => exact ⟨x, rfl⟩
    | ok r =>
      obtain ⟨v, ctx', cc'⟩ := r
      have := (key v).1 ⟨ctx', cc', hx⟩
      rw [h] at this
      cases this

/-! ### The hypotheses can be met -/

/-- `u = cse(sigma / t, "u")`: raises if `t` is 0 -/
def exDivU : Expr := .cse (some "u") .evaluation (.op "div" [.var "sigma", .var "t"])
/-- `S(2 sigma, k=u) + u` -/
def exDiv : Expr := .sum
  [.intg ⟨"S", ["G"], "src", "tgt", .p1, ["k"]⟩ [.op "mul" [.num 2, .var "sigma"]] [exDivU], exDivU]
/-- inputs -/
def exDivCtx (t : Int) : Ctx Int := fun x => if x = "sigma" then some 6 else if x = "t" then some t else none

theorem exDiv_wf : WF exDiv := of_all (by decide +kernel)

theorem exDiv_noCond : NoCond exDiv := by
  intro c a b hm
  have : (subs exDiv).all (fun s => match s with | .ite _ _ _ => false | _ => true) = true := by decide +kernel
  simpa using List.all_eq_true.1 this _ hm

theorem exDiv_prefix {p : String} {sc : Scope} {ch : Expr} (h : .cse (some p) sc ch ∈ subs exDiv) : p = "u" := by
  have : (subs exDiv).all (fun s => match s with | .cse (some p) _ _ => p == "u" | _ => true) = true := by
    decide +kernel
  simpa using List.all_eq_true.1 this _ h

theorem exDiv_noClash : NoClash exDiv := by
  intro x hx hg
  have hx' : x = "sigma" ∨ x = "t" := by
    have : ∀ x ∈ varNames exDiv, x = "sigma" ∨ x = "t" := by decide +kernel
    exact this x hx
  rcases hg with ⟨i, hi⟩ | ⟨p, sc, ch, hm, hp⟩
  · rcases hx' with h | h <;> rw [h] at hi
    · exact toString_nat_ne hi 's' (by decide +kernel) (by decide +kernel) (by decide +kernel)
    · exact toString_nat_ne hi 't' (by decide +kernel) (by decide +kernel) (by decide +kernel)
  · have hpu := exDiv_prefix hm
    subst hpu
    rcases hp with h | ⟨i, hi⟩
    · rcases hx' with h' | h' <;> rw [h'] at h <;> exact absurd h (by decide)
    · rcases hx' with h | h <;> rw [h] at hi
      · exact toString_nat_ne hi 's' (by decide +kernel) (by decide +kernel) (by decide +kernel)
      · exact toString_nat_ne hi 't' (by decide +kernel) (by decide +kernel) (by decide +kernel)

/-- with `t = 2` the value is returned -/
example : ∃ ctx' cc', evalBound exCfg exI exDiv (exDivCtx 2) [] = .ok (18, ctx', cc') :=
  ((C01_exact exCfg exI exDiv (exDivCtx 2) [] exCfg_ok exI_lawful exDiv_wf exDiv_noClash exDiv_noCond
    (by intro k v h; cases h)).1 18).2 (by decide +kernel)

/-- with `t = 0` an exception is raised -/
example : ∃ x, evalBound exCfg exI exDiv (exDivCtx 0) [] = .error x :=
  (C01_exact exCfg exI exDiv (exDivCtx 0) [] exCfg_ok exI_lawful exDiv_wf exDiv_noClash exDiv_noCond
    (by intro k v h; cases h)).2.2 (by decide +kernel)

/-- with the conditional of `exE` -/
example (v : Int) (ctx' : Ctx Int) (cc' : Cache Int) (h : evalBound exCfg exI exE exCtx [] = .ok (v, ctx', cc')) :
    den exI exCtx exE = some v :=
  C01_sound exCfg exI exE exCtx [] exCfg_ok exI_lawful exE_wf exE_noClash
    (fun c a b hm => by
      refine exE_defined c ?_
      have : (subs exE).all (fun s => match s with | .ite c _ _ => decide (c ∈ subs exE) | _ => true) = true := by
        decide +kernel
      simpa using List.all_eq_true.1 this _ hm) (by intro k v h; cases h) v ctx' cc' h

end Verif.Compiler
