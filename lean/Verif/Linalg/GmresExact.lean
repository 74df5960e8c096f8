import Verif.Linalg.Gmres
import Mathlib.Data.Option.NAry
import Mathlib.Tactic.Linarith
import Mathlib.Tactic.Ring

/-!
# GMRES in exact arithmetic with breakdown (C27, C53)

Same model as `Verif.Linalg.Gmres`, with arithmetic that is exact as long as no division by
zero happens and yields NaN (`none`) afterwards, the way NumPy does: comparisons with NaN are
false.  The normalization `1/norm(w)` of `pytential/linalg/gmres.py:286` does divide by zero
when the new direction depends linearly on the stored ones.
-/

namespace Verif.Gmres

/-- exact arithmetic with NaN as `none` -/
def nanOps {K V N : Type} [CommRing K] [AddCommGroup V] [Module K V] [Field N] [LinearOrder N]
    (A : V → V) (dot : V → V → K) (norm : V → N) (recip : N → K) :
    Ops (Option V) (Option K) (Option N) where
  A := Option.map A
  add := Option.map₂ (· + ·)
  sub := Option.map₂ (· - ·)
  smul := Option.map₂ (· • ·)
  zero := some 0
  dot := Option.map₂ dot
  norm := Option.map norm
  recip := fun n => match n with | none => none | some n => if n = 0 then none else some (recip n)
  lt := fun a b => match a, b with | some a, some b => decide (a < b) | _, _ => false
  mul := Option.map₂ (· * ·)
  div := fun a b => match a, b with
    | some a, some b => if b = 0 then none else some (a / b) | _, _ => none
  isZero := fun a => match a with | some a => decide (a = 0) | none => false
  c125 := some (5 / 4)

section
variable {K V N : Type} [CommRing K] [AddCommGroup V] [Module K V] [Field N] [LinearOrder N]
  (A : V →ₗ[K] V) (dot : V → V → K) (norm : V → N) (recip : N → K)

/-- What is needed of inner product, norm and reciprocal for the residuals to decrease: scaling
by the reciprocal norm normalizes, and removing the component along a unit vector does not
increase the norm (Bessel).  Every inner product has these properties. -/
structure NormLaws : Prop where
  nonneg : ∀ v, 0 ≤ norm v
  unit : ∀ v, norm v ≠ 0 → norm (recip (norm v) • v) = 1
  bessel : ∀ w r, norm w = 1 → norm (r - dot w r • w) ≤ norm r

/-- state before a breakdown: `x` is a number, the residual is exact, filled slots are images,
and the last recorded norm bounds the current residual -/
structure Live (b : V) (st : St (Option V) (Option N)) (x : V) : Prop where
  hx : st.x = some x
  res : st.recalc = false → st.r = some (b - A x)
  images : ∀ (j : Nat) a ee, st.Ae[j]? = some (some a) → st.e[j]? = some (some ee) →
    ∃ ee', ee = some ee' ∧ a = some (A ee')
  last : NormLaws dot norm recip → ∀ l, st.last = some l → ∃ l', l = some l' ∧ norm (b - A x) ≤ l'

/-- state after a breakdown -/
structure Dead (st : St (Option V) (Option N)) : Prop where
  x : st.x = none
  res : st.recalc = false → st.r = none

theorem map₂_some {α β γ : Type} (f : α → β → γ) (a : α) (b : β) :
    Option.map₂ f (some a) (some b) = some (f a b) := rfl

/-- a direction pair: NaN, or a vector with its image -/
def Pair (q : Option V × Option V) : Prop :=
  q.1 = none ∨ ∃ v, q.2 = some v ∧ q.1 = some (A v)

theorem pair_loop (Ae e : List (Option (Option V)))
    (h : ∀ (j : Nat) a ee, Ae[j]? = some (some a) → e[j]? = some (some ee) →
      ∃ ee', ee = some ee' ∧ a = some (A ee'))
    (js : List Nat) (q q' : Option V × Option V) (hq : Pair A q)
    (ho : orthLoop (nanOps A dot norm recip) Ae e js q = .ok q') : Pair A q' := by
  induction js generalizing q with
  | nil => simp only [orthLoop] at ho; cases ho; exact hq
  | cons j js ih =>
    obtain ⟨w, rp⟩ := q
    simp only [orthLoop, fetch] at ho
    split at ho
    · cases ho
    · rename_i a ha
      split at ho
      · cases ho
      · rename_i ee he
        have ha' : Ae[j]? = some (some a) := by
          split at ha <;> cases ha; assumption
        have he' : e[j]? = some (some ee) := by
          split at he <;> cases he; assumption
        obtain ⟨ee', rfl, rfl⟩ := h j a ee ha' he'
        refine ih _ ?_ ho
        rcases hq with hn | ⟨v, hv, hw⟩
        · left; simp only at hn; subst hn; rfl
        · right
          simp only at hv hw
          subst hv; subst hw
          refine ⟨v - dot (A ee') (A v) • ee', rfl, ?_⟩
          simp only [nanOps, map₂_some, map_sub, map_smul]

theorem pair_normalize (q : Option V × Option V) (hq : Pair A q) :
    Pair A (normalize (nanOps A dot norm recip) q) := by
  obtain ⟨w, rp⟩ := q
  rcases hq with hn | ⟨v, hv, hw⟩
  · left; simp only at hn; subst hn; rfl
  · simp only at hv hw
    subst hv; subst hw
    simp only [normalize, nanOps, Option.map_some, Pair]
    split
    · left; rfl
    · right
      exact ⟨recip (norm (A v)) • v, rfl, by simp only [map₂_some, map_smul]⟩

/-- normalized: NaN or norm one -/
def Unit (q : Option V × Option V) : Prop := ∀ w, q.1 = some w → norm w = 1

theorem unit_normalize (hl : NormLaws dot norm recip) (q : Option V × Option V) :
    Unit norm (normalize (nanOps A dot norm recip) q) := by
  obtain ⟨w, rp⟩ := q
  intro u hu
  cases w with
  | none => cases hu
  | some w =>
    simp only [normalize, nanOps, Option.map_some] at hu
    split at hu
    · cases hu
    · rename_i hz
      simp only [map₂_some, Option.some.injEq] at hu
      rw [← hu]; exact hl.unit w hz

theorem pair_trips (Ae e : List (Option (Option V))) (cnt : Nat)
    (h : ∀ (j : Nat) a ee, Ae[j]? = some (some a) → e[j]? = some (some ee) →
      ∃ ee', ee = some ee' ∧ a = some (A ee'))
    (n : Nat) (q q' : Option V × Option V) (hq : Pair A q)
    (ho : orthTrips (nanOps A dot norm recip) Ae e cnt n q = .ok q') : Pair A q' := by
  induction n generalizing q with
  | zero => simp only [orthTrips] at ho; cases ho; exact hq
  | succ n ih =>
    simp only [orthTrips] at ho
    split at ho
    · cases ho
    · rename_i q1 h1
      exact ih _ (pair_normalize A dot norm recip q1 (pair_loop A dot norm recip Ae e h _ _ _ hq h1)) ho

theorem unit_trips (hl : NormLaws dot norm recip) (Ae e : List (Option (Option V))) (cnt n : Nat)
    (q q' : Option V × Option V)
    (ho : orthTrips (nanOps A dot norm recip) Ae e cnt (n + 1) q = .ok q') : Unit norm q' := by
  induction n generalizing q with
  | zero =>
    simp only [orthTrips] at ho
    split at ho
    · cases ho
    · cases ho; exact unit_normalize A dot norm recip hl _
  | succ n ih =>
    rw [orthTrips] at ho
    split at ho
    · cases ho
    · exact ih _ ho

theorem live_top (p : Params (Option N)) (b x : V) (st : St (Option V) (Option N))
    (h : Live A dot norm recip b st x) :
    (top (nanOps A dot norm recip) p (some b) st).2.r = some (b - A x) := by
  simp only [top]
  split
  · rw [h.hx]; rfl
  · rename_i hr; exact h.res (by simpa using hr)

theorem dead_top (p : Params (Option N)) (b : V) (st : St (Option V) (Option N)) (h : Dead st) :
    (top (nanOps A dot norm recip) p (some b) st).2.r = none := by
  simp only [top]
  split
  · rw [h.x]; rfl
  · rename_i hr; exact h.res (by simpa using hr)

theorem dead_step (p : Params (Option N)) (b : V) (it : Nat) (st st' : St (Option V) (Option N))
    (h : Dead st)
    (ha : advance (nanOps A dot norm recip) (top (nanOps A dot norm recip) p (some b) st).1 it
      (top (nanOps A dot norm recip) p (some b) st).2 = .ok st') : Dead st' := by
  have hr := dead_top A dot norm recip p b st h
  have hx : (top (nanOps A dot norm recip) p (some b) st).2.x = none := h.x
  generalize (top (nanOps A dot norm recip) p (some b) st) = t at *
  simp only [advance] at ha
  split at ha
  · cases ha
  · rename_i w rp hq
    split at ha
    · cases ha
    · split at ha
      · cases ha
      · cases ha
        refine ⟨?_, ?_⟩
        · simp only [hx]; rfl
        · intro hrec
          simp only at hrec
          simp only [hrec, Bool.false_eq_true, if_false, hr]; rfl

theorem live_step (p : Params (Option N)) (b x : V) (it : Nat) (st st' : St (Option V) (Option N))
    (h : Live A dot norm recip b st x)
    (ha : advance (nanOps A dot norm recip) (top (nanOps A dot norm recip) p (some b) st).1 it
      (top (nanOps A dot norm recip) p (some b) st).2 = .ok st') :
    (∃ x', Live A dot norm recip b st' x') ∨ Dead st' := by
  have hr := live_top A dot norm recip p b x st h
  have hx : (top (nanOps A dot norm recip) p (some b) st).2.x = some x := h.hx
  have hA : (top (nanOps A dot norm recip) p (some b) st).2.Ae = st.Ae := rfl
  have he : (top (nanOps A dot norm recip) p (some b) st).2.e = st.e := rfl
  generalize (top (nanOps A dot norm recip) p (some b) st) = t at *
  obtain ⟨cnt, s⟩ := t
  simp only at hr hx hA he ha
  simp only [advance] at ha
  split at ha
  · cases ha
  · rename_i w rp hq
    have hpair : Pair A (w, rp) := pair_trips A dot norm recip _ _ _ (by rw [hA, he]; exact h.images)
      _ _ _ (Or.inr ⟨b - A x, by rw [hr], by rw [hr]; rfl⟩) hq
    split at ha
    · cases ha
    · rename_i Ae' hAe'
      split at ha
      · cases ha
      · rename_i e' he'
        cases ha
        rcases hpair with hn | ⟨v, hv, hw⟩
        · right
          simp only at hn
          subst hn
          refine ⟨?_, ?_⟩
          · simp only [hx, hr]; rfl
          · intro hrec
            simp only at hrec
            simp only [hrec, Bool.false_eq_true, if_false, hr]; rfl
        · left
          simp only at hv hw
          subst hv; subst hw
          have hnew : b - A (x + dot (A v) (b - A x) • v)
              = (b - A x) - dot (A v) (b - A x) • A v := by
            rw [map_add, map_smul]; abel
          refine ⟨x + dot (A v) (b - A x) • v, ?_, ?_, ?_, ?_⟩
          · simp only [hx, hr]; rfl
          · intro hrec
            simp only at hrec
            simp only [hrec, Bool.false_eq_true, if_false, hr]
            rw [hnew]; rfl
          · intro j a ee h1 h2
            simp only at h1 h2
            simp only [store] at hAe' he'
            split at hAe'
            · rename_i hlt
              split at he'
              · rename_i hlt'
                cases hAe'; cases he'
                by_cases hj : s.k = j
                · subst hj
                  simp only [List.getElem?_set_self hlt, List.getElem?_set_self hlt',
                    Option.some.injEq] at h1 h2
                  exact ⟨v, h2.symm, h1.symm⟩
                · rw [List.getElem?_set_ne hj] at h1 h2
                  rw [hA] at h1; rw [he] at h2
                  exact h.images j a ee h1 h2
              · cases he'
            · cases hAe'
          · intro hlaws l hl
            simp only [Option.some.injEq] at hl
            refine ⟨norm (b - A x), ?_, ?_⟩
            · rw [← hl, hr]; rfl
            · rw [hnew]
              refine hlaws.bessel _ _ ?_
              exact unit_trips A dot norm recip hlaws _ _ _ 1 _ _ hq _ rfl

theorem live_init (p : Params (Option N)) (b : V) (x0 : Option V) :
    Live A dot norm recip b (initial (nanOps A dot norm recip) p (some b) (x0.map some)) (x0.getD 0) := by
  refine ⟨?_, ?_, ?_, ?_⟩
  · cases x0 <;> simp [initial, nanOps, Option.map₂]
  · intro hrec
    cases x0 with
    | none => simp [initial]
    | some x => simp [initial] at hrec
  · intro j a ee h1
    simp only [initial, List.getElem?_replicate] at h1
    split at h1 <;> cases h1
  · intro _ l hl; cases hl

/-- C27 with breakdown: if a division by zero turns the iteration into NaNs, success is never
reported; a successful result is a number with a small residual. -/
theorem C27_breakdown (p : Params (Option N)) (b : V) (x0 : Option V)
    (r : Result (Option V) (Option N))
    (h : (gmres (nanOps A dot norm recip) p (some b) (x0.map some)).ending = .returned r)
    (hs : r.success = true) :
    ∃ x, r.solution = some x ∧
      ((∃ t, p.tol = some t ∧ norm (b - A x) < t * norm b) ∨ norm (b - A x) = 0) := by
  revert r
  refine loop_exit (nanOps A dot norm recip) p (some b)
    (fun _ st => (∃ x, Live A dot norm recip b st x) ∨ Dead st) ?_
    (fun out => ∀ r, out.ending = .returned r → r.success = true →
      ∃ x, r.solution = some x ∧
        ((∃ t, p.tol = some t ∧ norm (b - A x) < t * norm b) ∨ norm (b - A x) = 0))
    ?_ ?_ ?_ ?_ p.maxiter 0 _ (by omega) (Or.inl ⟨_, live_init A dot norm recip p b x0⟩)
  · intro it st st' h _ _ ha
    rcases h with ⟨x, h⟩ | h
    · exact live_step A dot norm recip p b x it st st' h ha
    · exact Or.inr (dead_step A dot norm recip p b it st st' h ha)
  · intro it st _ _ r hr hs
    simp only [St.fail, St.finish] at hr
    split at hr <;> cases hr
    cases hs
  · intro it st h _ hc r hr hs
    cases hr
    rcases h with ⟨x, h⟩ | h
    · refine ⟨x, h.hx, ?_⟩
      rw [live_top A dot norm recip p b x st h] at hc
      simp only [converged, nanOps, Option.map_some, Bool.or_eq_true, decide_eq_true_eq] at hc
      rcases hc with hc | hc
      · left
        cases ht : p.tol with
        | none => rw [ht] at hc; simp [Option.map₂] at hc
        | some t =>
          rw [ht] at hc
          exact ⟨t, rfl, by simpa [Option.map₂] using hc⟩
      · right; exact hc
    · rw [dead_top A dot norm recip p b st h] at hc
      simp [converged, nanOps] at hc
  · intro it st out _ _ _ hc r hr hs
    rcases checks_some hc with ⟨rfl, -⟩ | ⟨rfl, -⟩ | ⟨rfl, -⟩
    · simp only [St.fail, St.finish] at hr
      split at hr <;> cases hr
      cases hs
    · simp only [St.fail, St.finish] at hr
      split at hr <;> cases hr
      cases hs
    · cases hr
  · intro it st x _ _ _ _ r hr
    cases x <;> cases hr

variable [IsStrictOrderedRing N]

/-- C53: for a linear operator and an inner product, in exact arithmetic, `gmres` never ends
with "non-monotonic residuals". -/
theorem C53_never_nonmonotonic (hl : NormLaws dot norm recip) (p : Params (Option N)) (b : V)
    (x0 : Option V) :
    (∀ r, (gmres (nanOps A dot norm recip) p (some b) (x0.map some)).ending = .returned r →
      r.state ≠ .nonMonotonic) ∧
    (gmres (nanOps A dot norm recip) p (some b) (x0.map some)).ending ≠ .gmresError .nonMonotonic := by
  refine loop_exit (nanOps A dot norm recip) p (some b)
    (fun _ st => (∃ x, Live A dot norm recip b st x) ∨ Dead st) ?_
    (fun out => (∀ r, out.ending = .returned r → r.state ≠ .nonMonotonic) ∧
      out.ending ≠ .gmresError .nonMonotonic)
    ?_ ?_ ?_ ?_ p.maxiter 0 _ (by omega) (Or.inl ⟨_, live_init A dot norm recip p b x0⟩)
  · intro it st st' h _ _ ha
    rcases h with ⟨x, h⟩ | h
    · exact live_step A dot norm recip p b x it st st' h ha
    · exact Or.inr (dead_step A dot norm recip p b it st st' h ha)
  · intro it st _ _
    simp only [St.fail, St.finish]
    constructor
    · intro r hr
      split at hr <;> cases hr
      simp
    · split <;> simp
  · intro it st h _ hc
    simp only [St.finish]
    exact ⟨fun r hr => (by cases hr; simp), by simp⟩
  · intro it st out h _ _ hc
    rcases checks_some hc with ⟨rfl, -, last, hlast, hlt⟩ | ⟨rfl, -⟩ | ⟨rfl, -⟩
    · exfalso
      have hlast' : st.last = some last := hlast
      rcases h with ⟨x, h⟩ | h
      · obtain ⟨l', rfl, hle⟩ := h.last hl last hlast'
        rw [live_top A dot norm recip p b x st h] at hlt
        simp only [nanOps, map₂_some, Option.map_some, decide_eq_true_eq] at hlt
        have hn := hl.nonneg (b - A x)
        linarith
      · rw [dead_top A dot norm recip p b st h] at hlt
        simp [nanOps] at hlt
    · simp only [St.fail, St.finish]
      constructor
      · intro r hr
        split at hr <;> cases hr
        simp
      · split <;> simp
    · simp only [St.finish]
      exact ⟨fun r hr => (by cases hr), by simp⟩
  · intro it st x _ _ _ _
    cases x <;> simp [St.finish, ending_of_err]

end

section
variable {K V N : Type} [CommRing K] [AddCommGroup V] [Module K V] [Field N] [LinearOrder N]
  (A : V →ₗ[K] V) (dot : V → V → K) (norm : V → N) (recip : N → K)

/-- the recorded norms: non-increasing numbers, then NaNs only -/
def Decreasing (ns : List (Option N)) : Prop :=
  ns.Pairwise (fun a b => ∀ b', b = some b' → ∃ a', a = some a' ∧ b' ≤ a')

/-- C53: under the same hypotheses the residual norms seen by the user never increase: later
ones are at most as large as earlier ones, up to a possible breakdown, after which all of them
are NaN. -/
theorem C53_decreasing (hl : NormLaws dot norm recip) (p : Params (Option N)) (b : V)
    (x0 : Option V) :
    Decreasing ((gmres (nanOps A dot norm recip) p (some b) (x0.map some)).callbacks.map
      (Option.map norm)) := by
  have happ : ∀ (ns : List (Option N)) (n : Option N), Decreasing ns →
      (∀ m ∈ ns, ∀ n', n = some n' → ∃ m', m = some m' ∧ n' ≤ m') → Decreasing (ns ++ [n]) := by
    intro ns n h1 h2
    refine List.pairwise_append.2 ⟨h1, List.pairwise_singleton _ _, ?_⟩
    intro a ha b hb
    rw [List.mem_singleton.1 hb]
    exact h2 a ha
  -- invariant: live with all recorded norms at least the current residual norm, or dead
  let I : Nat → St (Option V) (Option N) → Prop := fun _ st =>
    Decreasing (st.callbacks.map (Option.map norm)) ∧
    ((∃ x, Live A dot norm recip b st x ∧
      ∀ m ∈ st.callbacks.map (Option.map norm), ∃ m', m = some m' ∧ norm (b - A x) ≤ m') ∨ Dead st)
  have htop : ∀ st, I 0 st → Decreasing
      ((top (nanOps A dot norm recip) p (some b) st).2.callbacks.map (Option.map norm)) := by
    intro st h
    have hcb : (top (nanOps A dot norm recip) p (some b) st).2.callbacks
      = st.callbacks ++ [(top (nanOps A dot norm recip) p (some b) st).2.r] := rfl
    rw [hcb, List.map_append]
    refine happ _ _ h.1 ?_
    intro m hm n' hn'
    rcases h.2 with ⟨x, hlive, hall⟩ | hd
    · rw [live_top A dot norm recip p b x st hlive] at hn'
      simp only [Option.map_some, Option.some.injEq] at hn'
      obtain ⟨m', hm', hle⟩ := hall m hm
      exact ⟨m', hm', hn' ▸ hle⟩
    · rw [dead_top A dot norm recip p b st hd] at hn'
      cases hn'
  refine loop_exit (nanOps A dot norm recip) p (some b) I ?_
    (fun out => Decreasing (out.callbacks.map (Option.map norm)))
    ?_ ?_ ?_ ?_ p.maxiter 0 _ (by omega)
    ⟨List.Pairwise.nil, Or.inl ⟨_, live_init A dot norm recip p b x0, by intro m hm; cases hm⟩⟩
  · intro it st st' h _ _ ha
    obtain ⟨-, hcb, -, -, -, -, hlast⟩ := advance_norms ha
    refine ⟨by rw [hcb]; exact htop st h, ?_⟩
    rcases h.2 with ⟨x, hlive, hall⟩ | hd
    · rcases live_step A dot norm recip p b x it st st' hlive ha with ⟨x', hx'⟩ | hd
      · left
        refine ⟨x', hx', ?_⟩
        obtain ⟨l', hl', hle⟩ := hx'.last hl _ hlast
        rw [live_top A dot norm recip p b x st hlive] at hl'
        simp only [nanOps, Option.map_some, Option.some.injEq] at hl'
        rw [hcb]
        intro m hm
        have hcb' : (top (nanOps A dot norm recip) p (some b) st).2.callbacks
          = st.callbacks ++ [(top (nanOps A dot norm recip) p (some b) st).2.r] := rfl
        rw [hcb', List.map_append, List.mem_append] at hm
        rcases hm with hm | hm
        · obtain ⟨m', hm', hle'⟩ := hall m hm
          exact ⟨m', hm', le_trans (hl' ▸ hle) hle'⟩
        · rw [live_top A dot norm recip p b x st hlive] at hm
          simp only [List.map_cons, List.map_nil, List.mem_singleton, Option.map_some] at hm
          exact ⟨l', by rw [hm, hl'], hle⟩
      · exact Or.inr hd
    · exact Or.inr (dead_step A dot norm recip p b it st st' hd ha)
  · intro it st h _
    simp only [St.fail, St.finish]
    exact h.1
  · intro it st h _ _; exact htop st h
  · intro it st out h _ _ hc
    rcases checks_some hc with ⟨rfl, -⟩ | ⟨rfl, -⟩ | ⟨rfl, -⟩ <;> exact htop st h
  · intro it st x h _ _ _; exact htop st h

end

/-- the hypotheses hold for the rationals with the usual product and absolute value -/
example : NormLaws (K := ℚ) (V := ℚ) (N := ℚ) (fun a b => a * b) (fun x => |x|) (fun n => 1 / n) := by
  refine ⟨fun v => abs_nonneg v, ?_, ?_⟩
  · intro v hv
    have hv' : |v| ≠ 0 := hv
    simp only [smul_eq_mul]
    rw [abs_mul, abs_div, abs_one, abs_abs, one_div, inv_mul_cancel₀ hv']
  · intro w r hw
    have : w * w = 1 := by
      have : |w| * |w| = 1 := by rw [hw]; norm_num
      rwa [abs_mul_abs_self] at this
    simp only [smul_eq_mul]
    have h0 : r - w * r * w = 0 := by
      have : w * r * w = w * w * r := by ring
      rw [this, ‹w * w = 1›]; ring
    rw [h0]; simp

end Verif.Gmres
