import Verif.Linalg.Gmres

/-!
# Why gmres stops and how often it applies the operator (C28)
-/

namespace Verif.Gmres

variable {V K N : Type}

/-! ## Specification (on the list of residual norms reported so far) -/

/-- the last residual is more than 1.25 times the one before -/
def Blown (o : Ops V K N) (p : Params N) (ns : List N) : Prop :=
  p.requireMonotonicity = true ∧ ∃ l a b, ns = l ++ [a, b] ∧ o.lt (o.mul o.c125 a) b = true

/-- there are more than `stall_iterations` residuals, and the last one is still more than
`1 / no_progress_factor` times the one `stall_iterations` from the end -/
def Stalled (o : Ops V K N) (p : Params N) (ns : List N) : Prop :=
  ∃ s : Nat, p.stall = s ∧ 0 < s ∧ s < ns.length ∧ ∃ old last,
    ns[ns.length - s]? = some old ∧ ns.getLast? = some last ∧
    o.lt (o.div old p.noProgress) last = true

/-- the state a call ends with -/
def Ending.state : Ending V N → Option State
  | .returned r => some r.state
  | .gmresError s => some s
  | _ => none

/-! ## Proofs -/

theorem stallTest_iff {o : Ops V K N} {p : Params N} (hs : 0 ≤ p.stall) (ns : List N) (n : N)
    (hn : ns.getLast? = some n) :
    stallTest o p ns n ≠ none ∧ (stallTest o p ns n = some true ↔ Stalled o p ns) := by
  obtain ⟨s, hps⟩ := Int.eq_ofNat_of_zero_le hs
  have hl : 0 < ns.length := by
    cases ns with
    | nil => simp at hn
    | cons => simp
  unfold stallTest
  by_cases hc : p.stall ≠ 0 ∧ p.stall < ns.length
  · rw [if_pos hc]
    have h0 : 0 < s := by omega
    have h1 : s < ns.length := by omega
    have hf : fromEnd ns p.stall = some (ns[ns.length - s]'(by omega)) := by
      unfold fromEnd
      have ht : p.stall.toNat = s := by omega
      rw [if_pos (by omega), ht, if_pos (by omega), List.getElem?_eq_getElem (by omega)]
    rw [hf]
    refine ⟨by simp, ?_⟩
    constructor
    · intro h
      simp only [Option.some.injEq] at h
      exact ⟨s, hps, h0, h1, _, n, List.getElem?_eq_getElem (by omega), hn, h⟩
    · rintro ⟨s', h2, h3, h4, old, last, h5, h6, h7⟩
      have : s' = s := by omega
      subst this
      rw [List.getElem?_eq_getElem (by omega)] at h5
      rw [hn] at h6
      cases h5; cases h6
      simp only [h7]
  · rw [if_neg hc]
    refine ⟨by simp, ?_⟩
    constructor
    · intro h; cases h
    · rintro ⟨s', h2, h3, h4, -⟩
      exfalso; apply hc; constructor <;> omega

/-- loop invariant -/
structure Reasons (o : Ops V K N) (p : Params N) (x0 : Option V) (it : Nat) (st : St V N) : Prop where
  norms : st.norms = st.callbacks.map o.norm
  len : st.norms.length = it
  last : st.last = st.norms.getLast?
  recalc : st.recalc = if it = 0 then x0.isSome else it % 10 == 0
  apps : st.applications = if it = 0 then 0 else it + (it - 1) / 10 + (if x0.isSome then 1 else 0)
  clean : ∀ l, l <+: st.norms → ¬ Blown o p l ∧ ¬ Stalled o p l

theorem reasons_init (o : Ops V K N) (p : Params N) (b : V) (x0 : Option V) :
    Reasons o p x0 0 (initial o p b x0) := by
  refine ⟨rfl, rfl, rfl, rfl, rfl, ?_⟩
  intro l hl
  have : l = [] := by simpa [initial] using hl
  subst this
  refine ⟨?_, ?_⟩
  · rintro ⟨-, l, a, b, h, -⟩; simp at h
  · rintro ⟨s, -, -, h, -⟩; simp at h

/-- what the checks of one iteration find -/
theorem checks_iff (o : Ops V K N) (p : Params N) (b : V) (x0 : Option V) (hs : 0 ≤ p.stall) (it : Nat)
    (st : St V N) (h : Reasons o p x0 it st) :
    (checks o p it (top o p b st).2 = none →
      ¬ Blown o p (top o p b st).2.norms ∧ ¬ Stalled o p (top o p b st).2.norms) ∧
    ∀ out, checks o p it (top o p b st).2 = some out →
      (out = (top o p b st).2.fail p it .nonMonotonic ∧ Blown o p (top o p b st).2.norms) ∨
      (out = (top o p b st).2.fail p it .stalled ∧ Stalled o p (top o p b st).2.norms ∧
        ¬ Blown o p (top o p b st).2.norms) := by
  have hlast : (top o p b st).2.last = st.norms.getLast? := h.last
  have hN : (top o p b st).2.norms = st.norms ++ [o.norm (top o p b st).2.r] := top_norms o p b st
  generalize (top o p b st).2 = t at hlast hN
  have hgl : t.norms.getLast? = some (o.norm t.r) := by rw [hN]; simp
  obtain ⟨hnn, hst⟩ := stallTest_iff (o := o) hs t.norms (o.norm t.r) hgl
  unfold checks
  cases hl : t.last with
  | none =>
    rw [hl] at hlast
    have hnil : st.norms = [] := by
      cases hn : st.norms with
      | nil => rfl
      | cons a l => rw [hn] at hlast; simp [List.getLast?_cons] at hlast
    rw [hnil] at hN
    refine ⟨fun _ => ⟨?_, ?_⟩, by intro out h; cases h⟩
    · rintro ⟨-, l, a, c, h, -⟩
      rw [hN] at h
      have := congrArg List.length h
      simp at this
    · rintro ⟨s, -, h1, h2, -⟩
      rw [hN] at h2
      simp at h2
      omega
  | some last =>
    rw [hl] at hlast
    have hb : Blown o p t.norms ↔
        (o.lt (o.mul o.c125 last) (o.norm t.r) && p.requireMonotonicity) = true := by
      simp only [Bool.and_eq_true]
      obtain ⟨l0, hl0⟩ : ∃ l0, st.norms = l0 ++ [last] := by
        rcases List.eq_nil_or_concat st.norms with h0 | ⟨l0, a, h0⟩
        · rw [h0] at hlast; simp at hlast
        · rw [h0] at hlast
          simp only [List.concat_eq_append, List.getLast?_append, List.getLast?_singleton,
            Option.some_or, Option.some.injEq] at hlast
          exact ⟨l0, by rw [h0, List.concat_eq_append, hlast]⟩
      rw [hl0] at hN
      constructor
      · rintro ⟨hm, l, a, c, h1, h2⟩
        rw [hN] at h1
        have : l0 ++ [last, o.norm t.r] = l ++ [a, c] := by simpa using h1
        have h3 := List.append_inj' this rfl
        simp only [List.cons.injEq, and_true] at h3
        obtain ⟨-, rfl, rfl⟩ := h3
        exact ⟨h2, hm⟩
      · rintro ⟨h1, hm⟩
        exact ⟨hm, l0, last, _, by rw [hN]; simp, h1⟩
    dsimp only
    by_cases hc : (o.lt (o.mul o.c125 last) (o.norm t.r) && p.requireMonotonicity) = true
    · rw [if_pos hc]
      refine ⟨by simp, ?_⟩
      rintro out ho
      cases ho
      exact Or.inl ⟨rfl, hb.2 hc⟩
    · rw [if_neg hc]
      cases hk : stallTest o p t.norms (o.norm t.r) with
      | none => exact absurd hk hnn
      | some v =>
        cases v with
        | true =>
          refine ⟨by simp, ?_⟩
          rintro out ho
          cases ho
          exact Or.inr ⟨rfl, hst.1 hk, fun hh => hc (hb.1 hh)⟩
        | false =>
          refine ⟨fun _ => ⟨fun hh => hc (hb.1 hh), fun hh => ?_⟩, by intro out h; cases h⟩
          rw [hst.2 hh] at hk; cases hk

theorem top_apps (o : Ops V K N) (p : Params N) (b : V) (x0 : Option V) (it : Nat) (st : St V N)
    (h : Reasons o p x0 it st) :
    (top o p b st).2.applications = it + it / 10 + (if x0.isSome then 1 else 0) := by
  simp only [top, h.apps, h.recalc]
  by_cases h0 : it = 0
  · subst h0; simp
  · rw [if_neg h0, if_neg h0]
    by_cases hz : it % 10 = 0
    · simp only [hz, BEq.rfl, if_true]; omega
    · simp only [beq_iff_eq, hz, if_false]; omega

theorem top_map (o : Ops V K N) (p : Params N) (b : V) (x0 : Option V) (it : Nat) (st : St V N)
    (h : Reasons o p x0 it st) :
    (top o p b st).2.norms = (top o p b st).2.callbacks.map o.norm := by
  simp only [top, List.map_append, h.norms, List.map_cons, List.map_nil]

theorem reasons_step (o : Ops V K N) (p : Params N) (b : V) (x0 : Option V) (hs : 0 ≤ p.stall) (it : Nat)
    (st st' : St V N) (h : Reasons o p x0 it st) (hk : checks o p it (top o p b st).2 = none)
    (ha : advance o (top o p b st).1 it (top o p b st).2 = .ok st') : Reasons o p x0 (it + 1) st' := by
  obtain ⟨h1, h2, h3, h4, h5, -, h7⟩ := advance_norms ha
  refine ⟨?_, ?_, ?_, ?_, ?_, ?_⟩
  · rw [h1, h2]; exact top_map o p b x0 it st h
  · rw [h1, top_norms]; simp [h.len]
  · rw [h7, h1, top_norms]; simp
  · rw [h5]; simp
  · rw [h4, top_apps o p b x0 it st h]; simp; omega
  · intro l hl
    rw [h1] at hl
    rw [top_norms, List.prefix_concat_iff] at hl
    rcases hl with rfl | hl
    · rw [← top_norms]; exact (checks_iff o p b x0 hs it st h).1 hk
    · exact h.clean l hl

/-- C28: gmres stops exactly when it should, for the reason it gives: whatever it reports, no
proper initial part of the reported residuals had blown up or stalled; with `non-monotonic
residuals` the whole history has blown up, with `stalled` it has stalled, and with the iteration
limit there are `maxiter` residuals without any of that. -/
theorem C28_reasons (o : Ops V K N) (p : Params N) (b : V) (x0 : Option V) (hs : 0 ≤ p.stall)
    (s : State) (hend : (gmres o p b x0).ending.state = some s) :
    let ns := (gmres o p b x0).callbacks.map o.norm
    (∀ r, (gmres o p b x0).ending = .returned r → r.residualNorms = ns) ∧
    (∀ l, l <+: ns → l ≠ ns → ¬ Blown o p l ∧ ¬ Stalled o p l) ∧
    (s = .nonMonotonic → Blown o p ns) ∧ (s = .stalled → Stalled o p ns) ∧
    (s = .maxIterations → ns.length = p.maxiter ∧ ¬ Blown o p ns ∧ ¬ Stalled o p ns) := by
  revert hend
  refine loop_exit o p b (Reasons o p x0) (fun it st st' h _ hk ha => reasons_step o p b x0 hs it st st' h hk ha)
    (fun out => out.ending.state = some s →
      (∀ r, out.ending = .returned r → r.residualNorms = out.callbacks.map o.norm) ∧
      (∀ l, l <+: out.callbacks.map o.norm → l ≠ out.callbacks.map o.norm → ¬ Blown o p l ∧ ¬ Stalled o p l) ∧
      (s = .nonMonotonic → Blown o p (out.callbacks.map o.norm)) ∧
      (s = .stalled → Stalled o p (out.callbacks.map o.norm)) ∧
      (s = .maxIterations → (out.callbacks.map o.norm).length = p.maxiter ∧
        ¬ Blown o p (out.callbacks.map o.norm) ∧ ¬ Stalled o p (out.callbacks.map o.norm)))
    ?_ ?_ ?_ ?_ p.maxiter 0 _ (by omega) (reasons_init o p b x0)
  · intro it st h hit hend
    have hst : State.maxIterations = s := by
      simp only [St.fail, St.finish] at hend
      split at hend <;> simpa [Ending.state] using hend
    subst hst
    have hcb : (st.fail p (it - 1) .maxIterations).callbacks.map o.norm = st.norms := by
      simp only [St.fail, St.finish]; exact h.norms.symm
    rw [hcb]
    refine ⟨?_, fun l hl _ => h.clean l hl, by simp, by simp, fun _ => ⟨by rw [h.len, hit], h.clean _ (List.prefix_refl _)⟩⟩
    intro r hr
    simp only [St.fail, St.finish] at hr
    split at hr <;> cases hr
    rfl
  · intro it st h _ _ hend
    simp only [St.finish, Ending.state, Option.some.injEq] at hend
    subst hend
    have hcb : (top o p b st).2.callbacks.map o.norm = (top o p b st).2.norms := (top_map o p b x0 it st h).symm
    simp only [St.finish]
    rw [hcb]
    refine ⟨by intro r hr; cases hr; rfl, ?_, by simp, by simp, by simp⟩
    intro l hl hne
    rw [top_norms, List.prefix_concat_iff] at hl
    rcases hl with rfl | hl
    · exact absurd (top_norms o p b st).symm hne
    · exact h.clean l hl
  · intro it st out h _ _ hk hend
    have hpre : ∀ l, l <+: (top o p b st).2.norms → l ≠ (top o p b st).2.norms →
        ¬ Blown o p l ∧ ¬ Stalled o p l := by
      intro l hl hne
      rw [top_norms, List.prefix_concat_iff] at hl
      rcases hl with rfl | hl
      · exact absurd (top_norms o p b st).symm hne
      · exact h.clean l hl
    have hcb : ∀ s', ((top o p b st).2.fail p it s').callbacks.map o.norm = (top o p b st).2.norms := by
      intro s'; simp only [St.fail, St.finish]; exact (top_map o p b x0 it st h).symm
    have hret : ∀ s' r, ((top o p b st).2.fail p it s').ending = .returned r →
        r.residualNorms = (top o p b st).2.norms := by
      intro s' r hr
      simp only [St.fail, St.finish] at hr
      split at hr <;> cases hr
      rfl
    have hstate : ∀ s', ((top o p b st).2.fail p it s').ending.state = some s → s' = s := by
      intro s' hr
      simp only [St.fail, St.finish] at hr
      split at hr <;> simpa [Ending.state] using hr
    rcases (checks_iff o p b x0 hs it st h).2 out hk with ⟨rfl, hB⟩ | ⟨rfl, hS, hB⟩
    · have := hstate _ hend
      subst this
      rw [hcb]
      exact ⟨hret _, hpre, fun _ => hB, by simp, by simp⟩
    · have := hstate _ hend
      subst this
      rw [hcb]
      exact ⟨hret _, hpre, by simp, fun _ => hS, by simp⟩
  · intro it st x _ _ _ _ hend
    cases x <;> simp [St.finish, ending_of_err, Ending.state] at hend

/-- C28: the operator is applied once per iteration that goes on, once more every tenth
iteration to recompute the residual, and once at the start if there is an initial guess. -/
theorem C28_operator_count (o : Ops V K N) (p : Params N) (b : V) (x0 : Option V) (hs : 0 ≤ p.stall)
    (hm : 0 < p.maxiter) (s : State) (hend : (gmres o p b x0).ending.state = some s) :
    0 < (gmres o p b x0).callbacks.length ∧
    (gmres o p b x0).applications + (if s = .maxIterations then 0 else 1) =
      (gmres o p b x0).callbacks.length + ((gmres o p b x0).callbacks.length - 1) / 10 +
        (if x0.isSome then 1 else 0) := by
  revert hend
  refine loop_exit o p b (Reasons o p x0) (fun it st st' h _ hk ha => reasons_step o p b x0 hs it st st' h hk ha)
    (fun out => out.ending.state = some s → 0 < out.callbacks.length ∧
      out.applications + (if s = .maxIterations then 0 else 1) =
      out.callbacks.length + (out.callbacks.length - 1) / 10 + (if x0.isSome then 1 else 0))
    ?_ ?_ ?_ ?_ p.maxiter 0 _ (by omega) (reasons_init o p b x0)
  · intro it st h hit hend
    have hst : State.maxIterations = s := by
      simp only [St.fail, St.finish] at hend
      split at hend <;> simpa [Ending.state] using hend
    subst hst
    have hlen : st.callbacks.length = it := by rw [← h.len, h.norms, List.length_map]
    simp only [St.fail, St.finish, if_true, hlen, h.apps]
    rw [if_neg (by omega)]
    omega
  · intro it st h _ _ hend
    simp only [St.finish, Ending.state, Option.some.injEq] at hend
    subst hend
    have hlen : (top o p b st).2.callbacks.length = it + 1 := by
      simp only [top, List.length_append, List.length_singleton]
      rw [← h.len, h.norms, List.length_map]
    simp only [St.finish, hlen, top_apps o p b x0 it st h]
    simp only [reduceCtorEq, if_false]
    omega
  · intro it st out h _ _ hk hend
    have hlen : (top o p b st).2.callbacks.length = it + 1 := by
      simp only [top, List.length_append, List.length_singleton]
      rw [← h.len, h.norms, List.length_map]
    have hstate : ∀ s', ((top o p b st).2.fail p it s').ending.state = some s → s' = s := by
      intro s' hr
      simp only [St.fail, St.finish] at hr
      split at hr <;> simpa [Ending.state] using hr
    rcases (checks_iff o p b x0 hs it st h).2 out hk with ⟨rfl, hB⟩ | ⟨rfl, hS, hB⟩ <;>
    · have := hstate _ hend
      subst this
      simp only [St.fail, St.finish, hlen, top_apps o p b x0 it st h]
      simp only [reduceCtorEq, if_false]
      omega
  · intro it st x _ _ _ _ hend
    cases x <;> simp [St.finish, ending_of_err, Ending.state] at hend

/-- C28: in exact arithmetic these reasons are: the residual has grown by more than a factor of
1.25, respectively has not shrunk by the factor `no_progress_factor` within the last
`stall_iterations` residuals. -/
theorem C28_reasons_exact {K V N : Type} [CommRing K] [AddCommGroup V] [Module K V] [Field N]
    [LinearOrder N] (A : V → V) (dot : V → V → K) (norm : V → N) (recip : N → K) (p : Params N) (ns : List N) :
    (Blown (exactOps A dot norm recip) p ns ↔ p.requireMonotonicity = true ∧
      ∃ l a b, ns = l ++ [a, b] ∧ (5 / 4 : N) * a < b) ∧
    (Stalled (exactOps A dot norm recip) p ns ↔ ∃ s : Nat, p.stall = s ∧ 0 < s ∧ s < ns.length ∧
      ∃ old last, ns[ns.length - s]? = some old ∧ ns.getLast? = some last ∧ old / p.noProgress < last) := by
  simp [Blown, Stalled, exactOps]

/-- non-vacuity: with the operator zero and a stall window of one, the second residual stalls -/
example : ∃ r, (gmres (exactOps (K := ℚ) (V := ℚ) (N := ℚ) (fun _ => 0) (fun a b => a * b) (fun x => |x|)
    (fun n => 1 / n)) ⟨2, 1/10, 5, false, true, 5/4, 1⟩ 3 (some 0)).ending = .returned r ∧
    r.state = .stalled ∧ r.residualNorms = [3, 3] ∧
    (gmres (exactOps (K := ℚ) (V := ℚ) (N := ℚ) (fun _ => 0) (fun a b => a * b) (fun x => |x|)
    (fun n => 1 / n)) ⟨2, 1/10, 5, false, true, 5/4, 1⟩ 3 (some 0)).applications = 2 := by
  refine ⟨⟨0, [3, 3], 1, false, .stalled⟩, ?_, rfl, rfl, ?_⟩ <;>
  norm_num [gmres, loop, top, initial, exactOps, converged, checks, advance, orthTrips, orthLoop,
    fetch, store, normalize, stallTest, fromEnd, St.finish, St.fail, abs_of_pos]

end Verif.Gmres
