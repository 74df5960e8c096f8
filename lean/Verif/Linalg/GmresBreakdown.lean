import Verif.Linalg.GmresKrylov

/-!
# Exactly when GMRES succeeds (C80)

`C80_finite_partial` assumes a definite operator.  Here the operator is arbitrary: a run succeeds (within as many iterations as
there are unknowns) exactly if none of the residuals it sees before passing the convergence test is orthogonal to its image.
-/

namespace Verif.Gmres

section
variable {𝕜 V : Type} [RCLike 𝕜] [NormedAddCommGroup V] [InnerProductSpace 𝕜 V]
variable {A : V →ₗ[𝕜] V} {p : Params (Option ℝ)} {b x : V} {st st' : St (Option V) (Option ℝ)} {ee : Nat → V}

/-- a residual at which the iteration gets stuck: it does not pass the convergence test (`gmres.py:217-226`) and is orthogonal to
its image -/
def Stuck (A : V →ₗ[𝕜] V) (t : ℝ) (b r : V) : Prop :=
  t * ‖b‖ ≤ ‖r‖ ∧ r ≠ 0 ∧ inner 𝕜 r (A r) = 0

/-- the convergence test in exact arithmetic -/
theorem converged_iff (A : V →ₗ[𝕜] V) (t : ℝ) (ht : p.tol = some t) (r : V) :
    converged (ipOps A) p (some b) ((ipOps A).norm (some r)) = true ↔ ‖r‖ < t * ‖b‖ ∨ r = 0 := by
  simp only [converged, ipOps, nanOps, Option.map_some, codeNorm_eq, ht, map₂_some, Bool.or_eq_true,
    decide_eq_true_eq, norm_eq_zero]

theorem converged_dead (A : V →ₗ[𝕜] V) :
    converged (ipOps A) p (some b) ((ipOps A).norm none) = false := by
  simp [converged, ipOps, nanOps]

/-- at a residual orthogonal to its image the iterate does not change -/
theorem stuck_next (h : Good A p b st x ee) (h0 : inner 𝕜 (b - A x) (A (b - A x)) = 0) :
    nextX A ee st.k b x = x := by
  have hsum : A (newDir A ee st.k (b - A x)) = A (b - A x)
      - ((List.range st.k).map fun j => inner 𝕜 (A (ee j)) (A (b - A x)) • A (ee j)).sum := by
    rw [newDir, map_sub, map_list_sum', List.map_map]
    simp only [Function.comp_def, map_smul]
  have h1 : inner 𝕜 (b - A x) (A (newDir A ee st.k (b - A x))) = 0 := by
    rw [hsum, inner_sub_right, inner_list_sum, List.map_map, sum_map_zero, sub_zero, h0]
    intro j hj
    simp only [Function.comp, inner_smul_right]
    rw [inner_zero_symm _ _ (h.perp j (List.mem_range.1 hj)), mul_zero]
  rw [nextX, unitDir, map_smul, inner_smul_left, inner_zero_symm _ _ h1, mul_zero, zero_smul, add_zero]

theorem fail_unsuccessful (st : St (Option V) (Option ℝ)) (it : Nat) (s : State) (r : Result (Option V) (Option ℝ))
    (h : (st.fail p it s).ending = .returned r) : r.success = false := by
  simp only [St.fail, St.finish] at h
  split at h <;> cases h
  rfl

/-- **C80, breakdown at any time**: if one of the residuals handed to the callback does not pass the convergence test and is
orthogonal to its image, success is never reported - whatever operator, restart length, stall window and iteration limit. -/
theorem C80_stuck (A : V →ₗ[𝕜] V) (p : Params (Option ℝ)) (hr : 0 < p.restart) (b : V) (x0 : Option V)
    (t : ℝ) (ht : p.tol = some t) (r : V)
    (hcb : some r ∈ (gmres (ipOps A) p (some b) (x0.map some)).callbacks) (hs : Stuck A t b r)
    (res : Result (Option V) (Option ℝ))
    (h : (gmres (ipOps A) p (some b) (x0.map some)).ending = .returned res) : res.success = false := by
  let I : Nat → St (Option V) (Option ℝ) → Prop := fun _ st =>
    (Dead st ∨ ∃ x ee, Good A p b st x ee ∧
      (some r ∈ st.callbacks → b - A x = r))
  let P : Outcome (Option V) (Option ℝ) → Prop := fun out =>
    some r ∈ out.callbacks → ∀ res, out.ending = .returned res → res.success = false
  suffices hP : P (gmres (ipOps A) p (some b) (x0.map some)) from hP hcb res h
  have hnot : ∀ r', r' = r → converged (ipOps A) p (some b) ((ipOps A).norm (some r')) = false := by
    intro r' he
    rw [he, Bool.eq_false_iff, Ne, converged_iff A t ht, not_or]
    exact ⟨not_lt.2 hs.1, hs.2.1⟩
  have hcbs : ∀ st : St (Option V) (Option ℝ), (top (ipOps A) p (some b) st).2.callbacks
      = st.callbacks ++ [(top (ipOps A) p (some b) st).2.r] := fun _ => rfl
  refine loop_exit (ipOps A) p (some b) I ?_ P ?_ ?_ ?_ ?_ p.maxiter 0 _ (by omega)
    (Or.inr ⟨_, _, good_init p A b x0, by intro hm; simp [initial] at hm⟩)
  · rintro it st st' (hd | ⟨x, ee, hg, hx⟩) _ _ ha
    · exact Or.inl (dead_step A _ _ _ p b it st st' hd ha)
    · obtain ⟨-, hcb', -⟩ := advance_norms ha
      rcases good_step hr it hg ha with ⟨-, hd⟩ | ⟨-, -, hg'⟩
      · exact Or.inl hd
      · refine Or.inr ⟨_, _, hg', fun hm => ?_⟩
        have hxr : b - A x = r := by
          rw [hcb', hcbs, (good_top hg).1, List.mem_append, List.mem_singleton, Option.some.injEq] at hm
          rcases hm with hm | hm
          · exact hx hm
          · exact hm.symm
        rw [stuck_next hg (by rw [hxr]; exact hs.2.2)]
        exact hxr
  · intro it st _ _ _ res hres; exact fail_unsuccessful _ _ _ res hres
  · rintro it st (hd | ⟨x, ee, hg, hx⟩) _ hc hm
    · rw [show (top (ipOps A) p (some b) st).2.r = none from dead_top A _ _ _ p b st hd, converged_dead] at hc
      cases hc
    · have hm' : some r ∈ (top (ipOps A) p (some b) st).2.callbacks := hm
      have hxr : b - A x = r := by
        rw [hcbs, (good_top hg).1, List.mem_append, List.mem_singleton, Option.some.injEq] at hm'
        rcases hm' with hm' | hm'
        · exact hx hm'
        · exact hm'.symm
      rw [(good_top hg).1, hnot _ hxr] at hc
      cases hc
  · intro it st out _ _ _ hc _ res hres
    rcases checks_some hc with ⟨rfl, -⟩ | ⟨rfl, -⟩ | ⟨rfl, -⟩
    · exact fail_unsuccessful _ _ _ res hres
    · exact fail_unsuccessful _ _ _ res hres
    · cases hres
  · intro it st y _ _ _ _ _ res hres
    cases y <;> cases hres

/-- without stuck residuals the run succeeds in at most as many iterations as there are unknowns -/
theorem C80_unstuck [FiniteDimensional 𝕜 V] (A : V →ₗ[𝕜] V) (p : Params (Option ℝ)) (hr : 0 < p.restart)
    (hd : Module.finrank 𝕜 V ≤ p.restart) (hm : Module.finrank 𝕜 V < p.maxiter)
    (hst : p.stall = 0 ∨ (Module.finrank 𝕜 V : Int) ≤ p.stall) (b : V) (x0 : Option V)
    (t : ℝ) (ht : p.tol = some t)
    (hno : ∀ r, some r ∈ (gmres (ipOps A) p (some b) (x0.map some)).callbacks → ¬ Stuck A t b r) :
    ∃ res, (gmres (ipOps A) p (some b) (x0.map some)).ending = .returned res ∧ res.success = true ∧
      res.iterationCount ≤ Module.finrank 𝕜 V := by
  have hs0 : 0 ≤ p.stall := by
    rcases hst with h | h <;> omega
  have hstep : ∀ (st : St (Option V) (Option ℝ)) x ee, Good A p b st x ee →
      A (newDir A ee st.k (b - A x)) ≠ 0 →
      ‖b - A (nextX A ee st.k b x)‖ ^ 2 ≤ 1 * ‖b - A x‖ ^ 2 := by
    intro st x ee _ hz
    rw [step_norm A ee st.k b x hz]
    nlinarith [sq_nonneg ‖inner 𝕜 (A (unitDir A ee st.k (b - A x))) (b - A x)‖]
  have hzero : ∀ (st : St (Option V) (Option ℝ)) x ee, Good A p b st x ee → st.k = Module.finrank 𝕜 V →
      inner 𝕜 (b - A x) (A (b - A x)) = 0 := by
    intro st x ee hg hk
    have htop : dirs 𝕜 ee st.k = ⊤ := Submodule.eq_top_of_finrank_eq (by rw [dirs_card A ee st.k hg.orth, hk])
    have := dirs_perp A ee st.k (b - A x) hg.perp (b - A x) (by rw [htop]; exact Submodule.mem_top)
    exact inner_zero_symm _ _ this
  let Bad : List (Option V) → Prop := fun cb => ∃ r, some r ∈ cb ∧ Stuck A t b r
  let P : Outcome (Option V) (Option ℝ) → Prop := fun out =>
    Bad out.callbacks ∨ ∃ res, out.ending = .returned res ∧ res.success = true ∧ res.iterationCount ≤ Module.finrank 𝕜 V
  suffices hP : P (gmres (ipOps A) p (some b) (x0.map some)) by
    rcases hP with ⟨r, h1, h2⟩ | h
    · exact absurd h2 (hno r h1)
    · exact h
  have hgrow : ∀ st : St (Option V) (Option ℝ), Bad st.callbacks → Bad (top (ipOps A) p (some b) st).2.callbacks := by
    rintro st ⟨r, h1, h2⟩
    exact ⟨r, List.mem_append_left _ h1, h2⟩
  have hnew : ∀ (st : St (Option V) (Option ℝ)) x ee, Good A p b st x ee →
      converged (ipOps A) p (some b) ((ipOps A).norm (top (ipOps A) p (some b) st).2.r) = false →
      inner 𝕜 (b - A x) (A (b - A x)) = 0 → Bad (top (ipOps A) p (some b) st).2.callbacks := by
    intro st x ee hg hc h0
    refine ⟨b - A x, ?_, ?_⟩
    · have : (top (ipOps A) p (some b) st).2.callbacks
        = st.callbacks ++ [(top (ipOps A) p (some b) st).2.r] := rfl
      rw [this, (good_top hg).1]
      exact List.mem_append_right _ (List.mem_singleton.2 rfl)
    · rw [(good_top hg).1, Bool.eq_false_iff, Ne, converged_iff A t ht, not_or] at hc
      exact ⟨not_lt.1 hc.1, hc.2, h0⟩
  refine loop_exit (ipOps A) p (some b)
    (fun it st => Bad st.callbacks ∨ (it ≤ Module.finrank 𝕜 V ∧ st.k = it ∧ ∃ x ee rs, Hist A p b 1 it st x ee rs)) ?_ P
    ?_ ?_ ?_ ?_ p.maxiter 0 _ (by omega) (Or.inr ⟨Nat.zero_le _, rfl, _, _, [], hist_init p A b x0 1⟩)
  · rintro it st st' (hb | ⟨hit, hk, x, ee, rs, h⟩) hc _ ha
    · obtain ⟨-, hcb, -⟩ := advance_norms ha
      exact Or.inl (by rw [hcb]; exact hgrow st hb)
    · obtain ⟨-, hcb, -⟩ := advance_norms ha
      by_cases h0 : inner 𝕜 (b - A x) (A (b - A x)) = 0
      · exact Or.inl (by rw [hcb]; exact hnew st x ee h.good hc h0)
      · have hne : it ≠ Module.finrank 𝕜 V := fun he => h0 (hzero st x ee h.good (hk.trans he))
        have hk' := (definite_step h0 hr it h.good hc ha).2.1
        rw [if_neg (by omega), hk] at hk'
        exact Or.inr ⟨by omega, hk', _, _, _, hist_step h0 hr 1 zero_le_one hstep it rs h hc ha⟩
  · rintro it st (hb | ⟨hit, -⟩) h
    · exact Or.inl hb
    · omega
  · rintro it st (hb | ⟨hit, -⟩) _ _
    · exact Or.inl (hgrow st hb)
    · exact Or.inr ⟨_, rfl, rfl, hit⟩
  · rintro it st out (hb | ⟨hit, hk, x, ee, rs, h⟩) _ hc hck
    · left
      rcases checks_some hck with ⟨rfl, -⟩ | ⟨rfl, -⟩ | ⟨rfl, -⟩ <;> exact hgrow st hb
    · by_cases h0 : inner 𝕜 (b - A x) (A (b - A x)) = 0
      · left
        rcases checks_some hck with ⟨rfl, -⟩ | ⟨rfl, -⟩ | ⟨rfl, -⟩ <;> exact hnew st x ee h.good hc h0
      · exfalso
        have hne : it ≠ Module.finrank 𝕜 V := fun he => h0 (hzero st x ee h.good (hk.trans he))
        obtain ⟨k1, k2, -⟩ := hist_checks 1 it rs h hs0 out hck
        rcases hst with h0 | h0
        · exact k1 h0
        · omega
  · rintro it st y (hb | ⟨hit, hk, x, ee, rs, h⟩) _ _ hy
    · exact Or.inl (hgrow st hb)
    · obtain ⟨st'', h3, -⟩ := slots_advance (ipOps A) p (some b) hr it st (good_slots h.good)
      rw [hy] at h3; cases h3

/-- **C80, exactly when**: for an arbitrary linear operator on a space with `d` dimensions, if there is no restart before `d`
iterations, `maxiter` allows for them and the stall window is off or not shorter than `d`: `gmres` reports success exactly if no
residual it meets before the test passes is orthogonal to its image; and then it takes at most `d` iterations. -/
theorem C80_exact [FiniteDimensional 𝕜 V] (A : V →ₗ[𝕜] V) (p : Params (Option ℝ)) (hr : 0 < p.restart)
    (hd : Module.finrank 𝕜 V ≤ p.restart) (hm : Module.finrank 𝕜 V < p.maxiter)
    (hst : p.stall = 0 ∨ (Module.finrank 𝕜 V : Int) ≤ p.stall) (b : V) (x0 : Option V)
    (t : ℝ) (ht : p.tol = some t) :
    ((∃ res, (gmres (ipOps A) p (some b) (x0.map some)).ending = .returned res ∧ res.success = true) ↔
      ∀ r, some r ∈ (gmres (ipOps A) p (some b) (x0.map some)).callbacks → ¬ Stuck A t b r) ∧
    ∀ res, (gmres (ipOps A) p (some b) (x0.map some)).ending = .returned res → res.success = true →
      res.iterationCount ≤ Module.finrank 𝕜 V := by
  have hto : (∃ res, (gmres (ipOps A) p (some b) (x0.map some)).ending = .returned res ∧ res.success = true) →
      ∀ r, some r ∈ (gmres (ipOps A) p (some b) (x0.map some)).callbacks → ¬ Stuck A t b r := by
    rintro ⟨res, h1, h2⟩ r hm' hs
    rw [C80_stuck A p hr b x0 t ht r hm' hs res h1] at h2
    cases h2
  refine ⟨⟨hto, ?_⟩, ?_⟩
  · intro hno
    obtain ⟨res, h1, h2, -⟩ := C80_unstuck A p hr hd hm hst b x0 t ht hno
    exact ⟨res, h1, h2⟩
  · intro res h1 h2
    obtain ⟨res', h3, -, h4⟩ := C80_unstuck A p hr hd hm hst b x0 t ht (hto ⟨res, h1, h2⟩)
    rw [h1] at h3
    cases h3
    exact h4

/-- definite operators have no stuck residuals -/
theorem definite_unstuck (hA : Definite A) (t : ℝ) (r : V) : ¬ Stuck A t b r := fun h => hA r h.2.1 h.2.2

end

/-- a stuck residual: the quarter turn of `C80_refuted`, at the start; and one that is not, for an operator that is not definite:
the reflection of the plane -/
example : Stuck (LinearMap.mulLeft ℝ Complex.I : ℂ →ₗ[ℝ] ℂ) (1 / 10) 1 1 ∧
    ¬ Definite (Complex.conjAe.toLinearMap : ℂ →ₗ[ℝ] ℂ) ∧
    ¬ Stuck (Complex.conjAe.toLinearMap : ℂ →ₗ[ℝ] ℂ) (1 / 10) 1 1 := by
  refine ⟨⟨by norm_num, by simp, by simp⟩, ?_, ?_⟩
  · intro h
    have := h (1 + Complex.I) (by intro h; have := congrArg Complex.re h; simp at this)
    simp [Complex.inner] at this
  · intro h
    have := h.2.2
    simp at this

end Verif.Gmres
