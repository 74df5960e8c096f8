import Mathlib.Tactic.Common
import Mathlib.Algebra.Module.LinearMap.Defs
import Mathlib.Algebra.Order.Field.Basic
import Mathlib.Algebra.Order.Field.Rat
import Mathlib.Algebra.Field.Rat
import Mathlib.Tactic.Abel
import Mathlib.Tactic.NormNum

/-!
# GMRES (C27, C28)

Model of `_gmres` (`pytential/linalg/gmres.py:144-315`).  All arithmetic goes through a
record of operations without any laws, so that the termination and reporting theorems (C28)
hold for floating point numbers, NaNs and operators that are not linear.  The theorems on the
residual (C27) instantiate it with exact arithmetic.

The progress callback and printing are not modelled, apart from the list of vectors the
callback receives.
-/

namespace Verif.Gmres

/-- the operations `_gmres` uses on vectors `V`, scalars `K` and norms `N` -/
structure Ops (V K N : Type) where
  /-- `a_call` -/
  A : V → V
  add : V → V → V
  sub : V → V → V
  smul : K → V → V
  zero : K
  dot : V → V → K
  /-- `np.sqrt(abs(dot(x, x)))` (`gmres.py:190-191`) -/
  norm : V → N
  /-- `1/norm` (`gmres.py:286`) -/
  recip : N → K
  lt : N → N → Bool
  mul : N → N → N
  div : N → N → N
  isZero : N → Bool
  /-- the literal 1.25 -/
  c125 : N

/-- the parameters after the defaults have been filled in (`gmres.py:161-186`) -/
structure Params (N : Type) where
  restart : Nat
  tol : N
  maxiter : Nat
  hardFailure : Bool
  requireMonotonicity : Bool
  noProgress : N
  stall : Int

/-- how the solve ended: the `success` and `state` fields set at `gmres.py:230-315` -/
inductive State | success | nonMonotonic | stalled | maxIterations
  deriving DecidableEq, Repr

/-- `GMRESResult` (`gmres.py:125-141`) -/
structure Result (V N : Type) where
  solution : V
  residualNorms : List N
  iterationCount : Nat
  success : Bool
  state : State

/-- how the call ends: a result, `GMRESError(state)`, or another exception -/
inductive Ending (V N : Type)
  | returned (r : Result V N)
  | gmresError (s : State)
  | indexError
  | typeError

/-- Outcome of a call together with what can be observed on the way: the vectors the callback
got, the operator applications, and (ghost) the iterate at the time of each callback. -/
structure Outcome (V N : Type) where
  ending : Ending V N
  callbacks : List V
  applications : Nat
  iterates : List V

/-- local variables of the main loop -/
structure St (V N : Type) where
  x : V
  r : V
  recalc : Bool
  Ae : List (Option V)
  e : List (Option V)
  k : Nat
  last : Option N
  norms : List N
  callbacks : List V
  applications : Nat
  iterates : List V

variable {V K N : Type}

/-- exceptions of list and `None` accesses in the body of the loop (`gmres.py:144-315`) -/
inductive Err | index | type

/-- `Ae[j]`; an entry that is still `None` makes the arithmetic fail with `TypeError` -/
def fetch (l : List (Option V)) (j : Nat) : Except Err V :=
  match l[j]? with
  | none => .error .index
  | some none => .error .type
  | some (some v) => .ok v

/-- the loop over `j` (`gmres.py:280-283`) -/
def orthLoop (o : Ops V K N) (Ae e : List (Option V)) : List Nat → V × V → Except Err (V × V)
  | [], p => .ok p
  | j :: js, (w, rp) =>
    match fetch Ae j with
    | .error x => .error x
    | .ok a =>
      match fetch e j with
      | .error x => .error x
      | .ok ee =>
        orthLoop o Ae e js (o.sub w (o.smul (o.dot a w) a), o.sub rp (o.smul (o.dot a w) ee))

/-- normalization (`gmres.py:286-288`) -/
def normalize (o : Ops V K N) (p : V × V) : V × V :=
  (o.smul (o.recip (o.norm p.1)) p.1, o.smul (o.recip (o.norm p.1)) p.2)

/-- `orth_trips` rounds (`gmres.py:279-288`) -/
def orthTrips (o : Ops V K N) (Ae e : List (Option V)) (cnt : Nat) :
    Nat → V × V → Except Err (V × V)
  | 0, p => .ok p
  | n + 1, p =>
    match orthLoop o Ae e (List.range cnt) p with
    | .error x => .error x
    | .ok q => orthTrips o Ae e cnt n (normalize o q)

/-- `l[k] = v` -/
def store (l : List (Option V)) (k : Nat) (v : V) : Except Err (List (Option V)) :=
  if k < l.length then .ok (l.set k (some v)) else .error .index

/-- `residual_norms[-stall_iterations]` -/
def fromEnd (l : List N) (stall : Int) : Option N :=
  if 0 < stall then (if stall.toNat ≤ l.length then l[l.length - stall.toNat]? else none)
  else l[(-stall).toNat]?

/-- the convergence test (`gmres.py:230`) -/
def converged (o : Ops V K N) (p : Params N) (b : V) (nr : N) : Bool :=
  o.lt nr (o.mul p.tol (o.norm b)) || o.isZero nr

/-- an exception in the body of the loop leaves the solver (no handler in `gmres.py:144-315`) -/
def ending_of_err : Err → Ending V N
  | .index => .indexError
  | .type => .typeError

/-- leave the loop with the given ending -/
def St.finish (st : St V N) (en : Ending V N) : Outcome V N :=
  ⟨en, st.callbacks, st.applications, st.iterates⟩

/-- a failing exit (`gmres.py:241-249`, `260-268`, `307-315`) -/
def St.fail (st : St V N) (p : Params N) (iteration : Nat) (s : State) : Outcome V N :=
  st.finish (if p.hardFailure then .gmresError s
    else .returned ⟨st.x, st.norms, iteration, false, s⟩)

/-- top of the loop body: restart, recalculation of the residual, recording
(`gmres.py:213-228`).  Returns the orthogonalization count. -/
def top (o : Ops V K N) (p : Params N) (b : V) (st : St V N) : Nat × St V N :=
  let k := if st.k = p.restart then 0 else st.k
  let cnt := if st.k = p.restart then p.restart else st.k
  let r := if st.recalc then o.sub b (o.A st.x) else st.r
  (cnt, { st with
    k := k, r := r,
    norms := st.norms ++ [o.norm r],
    callbacks := st.callbacks ++ [r],
    applications := st.applications + (if st.recalc then 1 else 0),
    iterates := st.iterates ++ [st.x] })

/-- the stall test (`gmres.py:253-257`): `none` if the subscript is out of range -/
def stallTest (o : Ops V K N) (p : Params N) (norms : List N) (nr : N) : Option Bool :=
  if p.stall ≠ 0 ∧ p.stall < norms.length then
    match fromEnd norms p.stall with
    | none => none
    | some old => some (o.lt (o.div old p.noProgress) nr)
  else some false

/-- the monotonicity and stall checks (`gmres.py:237-268`): `none` to go on -/
def checks (o : Ops V K N) (p : Params N) (iteration : Nat) (st : St V N) : Option (Outcome V N) :=
  match st.last with
  | none => none
  | some last =>
    if o.lt (o.mul o.c125 last) (o.norm st.r) && p.requireMonotonicity then
      some (st.fail p iteration .nonMonotonic)
    else
      match stallTest o p st.norms (o.norm st.r) with
      | none => some (st.finish .indexError)
      | some true => some (st.fail p iteration .stalled)
      | some false => none

/-- the new direction and the update (`gmres.py:270-304`) -/
def advance (o : Ops V K N) (cnt iteration : Nat) (st : St V N) : Except Err (St V N) :=
  match orthTrips o st.Ae st.e cnt 2 (o.A st.r, st.r) with
  | .error x => .error x
  | .ok (w, rp) =>
    match store st.Ae st.k w with
    | .error x => .error x
    | .ok Ae' =>
      match store st.e st.k rp with
      | .error x => .error x
      | .ok e' =>
        .ok { st with
          Ae := Ae', e := e', last := some (o.norm st.r),
          recalc := (iteration + 1) % 10 == 0,
          r := if (iteration + 1) % 10 == 0 then st.r else o.sub st.r (o.smul (o.dot w st.r) w),
          x := o.add st.x (o.smul (o.dot w st.r) rp),
          k := st.k + 1,
          applications := st.applications + 1 }

/-- the main loop (`gmres.py:212-315`); `fuel` iterations remain, `iteration` counts up -/
def loop (o : Ops V K N) (p : Params N) (b : V) : Nat → Nat → St V N → Outcome V N
  | 0, iteration, st => st.fail p (iteration - 1) .maxIterations
  | fuel + 1, iteration, st =>
    let t := top o p b st
    if converged o p b (o.norm t.2.r) then
      t.2.finish (.returned ⟨t.2.x, t.2.norms, iteration, true, .success⟩)
    else
      match checks o p iteration t.2 with
      | some out => out
      | none =>
        match advance o t.1 iteration t.2 with
        | .error x => t.2.finish (ending_of_err x)
        | .ok st' => loop o p b fuel (iteration + 1) st'

/-- local variables before the loop (`gmres.py:193-211`) -/
def initial (o : Ops V K N) (p : Params N) (b : V) (x0 : Option V) : St V N :=
  { x := match x0 with | none => o.smul o.zero b | some x => x
    r := b
    recalc := x0.isSome
    Ae := List.replicate p.restart none
    e := List.replicate p.restart none
    k := 0, last := none, norms := [], callbacks := [], applications := 0, iterates := [] }

/-- `_gmres` -/
def gmres (o : Ops V K N) (p : Params N) (b : V) (x0 : Option V) : Outcome V N :=
  loop o p b p.maxiter 0 (initial o p b x0)

/-! ## C28: termination and reporting, for arbitrary operations -/

theorem top_norms (o : Ops V K N) (p : Params N) (b : V) (st : St V N) :
    (top o p b st).2.norms = st.norms ++ [o.norm (top o p b st).2.r] := rfl

theorem advance_norms {o : Ops V K N} {cnt it : Nat} {st st' : St V N}
    (h : advance o cnt it st = .ok st') :
    st'.norms = st.norms ∧ st'.callbacks = st.callbacks ∧ st'.iterates = st.iterates ∧
    st'.applications = st.applications + 1 ∧ st'.recalc = ((it + 1) % 10 == 0) ∧
    st'.k = st.k + 1 ∧ st'.last = some (o.norm st.r) := by
  simp only [advance] at h
  split at h
  · cases h
  · split at h
    · cases h
    · split at h
      · cases h
      · cases h; exact ⟨rfl, rfl, rfl, rfl, rfl, rfl, rfl⟩

/-- everything an exit of `checks` can be -/
theorem checks_some {o : Ops V K N} {p : Params N} {it : Nat} {st : St V N} {out : Outcome V N}
    (h : checks o p it st = some out) :
    (out = st.fail p it .nonMonotonic ∧ p.requireMonotonicity = true ∧
      ∃ last, st.last = some last ∧ o.lt (o.mul o.c125 last) (o.norm st.r) = true) ∨
    (out = st.fail p it .stalled ∧ stallTest o p st.norms (o.norm st.r) = some true) ∨
    (out = st.finish .indexError ∧ stallTest o p st.norms (o.norm st.r) = none) := by
  simp only [checks] at h
  split at h
  · cases h
  · rename_i last hl
    split at h
    · rename_i hc
      simp only [Bool.and_eq_true] at hc
      cases h; exact Or.inl ⟨rfl, hc.2, last, hl, hc.1⟩
    · split at h
      · rename_i hs; cases h; exact Or.inr (Or.inr ⟨rfl, hs⟩)
      · rename_i hs; cases h; exact Or.inr (Or.inl ⟨rfl, hs⟩)
      · cases h

/-- General induction principle: whatever holds at all exits holds for the outcome. -/
theorem loop_exit (o : Ops V K N) (p : Params N) (b : V) (I : Nat → St V N → Prop)
    (hstep : ∀ it st st', I it st → converged o p b (o.norm (top o p b st).2.r) = false →
      checks o p it (top o p b st).2 = none →
      advance o (top o p b st).1 it (top o p b st).2 = .ok st' → I (it + 1) st')
    (Q : Outcome V N → Prop)
    (hmax : ∀ it st, I it st → it = p.maxiter → Q (st.fail p (it - 1) .maxIterations))
    (hsucc : ∀ it st, I it st → it < p.maxiter →
      converged o p b (o.norm (top o p b st).2.r) = true →
      Q ((top o p b st).2.finish (.returned ⟨(top o p b st).2.x, (top o p b st).2.norms, it, true, .success⟩)))
    (hchk : ∀ it st out, I it st → it < p.maxiter →
      converged o p b (o.norm (top o p b st).2.r) = false →
      checks o p it (top o p b st).2 = some out → Q out)
    (herr : ∀ it st x, I it st → it < p.maxiter →
      converged o p b (o.norm (top o p b st).2.r) = false →
      advance o (top o p b st).1 it (top o p b st).2 = .error x →
      Q ((top o p b st).2.finish (ending_of_err x)))
    (fuel it : Nat) (st : St V N) (hf : it + fuel = p.maxiter) (hI : I it st) :
    Q (loop o p b fuel it st) := by
  induction fuel generalizing it st with
  | zero => exact hmax it st hI (by omega)
  | succ fuel ih =>
    simp only [loop]
    split
    · rename_i hc; exact hsucc it st hI (by omega) hc
    · rename_i hc
      have hc : converged o p b (o.norm (top o p b st).2.r) = false := by simpa using hc
      split
      · rename_i out ho; exact hchk it st out hI (by omega) hc ho
      · rename_i ho
        split
        · rename_i x hx; exact herr it st x hI (by omega) hc hx
        · rename_i st' hx
          exact ih (it + 1) st' (by omega) (hstep it st st' hI hc ho hx)

/-- loop invariant on the counters -/
structure Counts (p : Params N) (it : Nat) (st : St V N) : Prop where
  norms : st.norms.length = it
  callbacks : st.callbacks.length = it
  iterates : st.iterates.length = it
  apps : st.applications + (if st.recalc then 1 else 0) ≤ it + 1 + it / 10

theorem counts_step (o : Ops V K N) (p : Params N) (b : V) (it : Nat) (st st' : St V N)
    (h : Counts p it st) (ha : advance o (top o p b st).1 it (top o p b st).2 = .ok st') :
    Counts p (it + 1) st' := by
  obtain ⟨h1, h2, h3, h4, h5, -, -⟩ := advance_norms ha
  refine ⟨?_, ?_, ?_, ?_⟩
  · rw [h1]; simp [top, h.norms]
  · rw [h2]; simp [top, h.callbacks]
  · rw [h3]; simp [top, h.iterates]
  · rw [h4, h5]
    have := h.apps
    simp only [top]
    by_cases hz : ((it + 1) % 10 == 0) = true
    · rw [if_pos hz]
      have hz : (it + 1) % 10 = 0 := by simpa using hz
      omega
    · rw [if_neg hz]
      have : it / 10 ≤ (it + 1) / 10 := Nat.div_le_div_right (by omega)
      omega

theorem counts_init (o : Ops V K N) (p : Params N) (b : V) (x0 : Option V) :
    Counts p 0 (initial o p b x0) := by
  refine ⟨rfl, rfl, rfl, ?_⟩
  cases x0 <;> simp [initial]

/-- C28: at most `maxiter` residuals are computed, the iteration count lies below `maxiter`
(or both are zero), and the operator is applied at most once per iteration, plus once every
tenth iteration and once at the start. -/
theorem C28_bound (o : Ops V K N) (p : Params N) (b : V) (x0 : Option V) :
    (gmres o p b x0).callbacks.length ≤ p.maxiter ∧
    (gmres o p b x0).applications ≤ p.maxiter + 1 + p.maxiter / 10 ∧
    ∀ r, (gmres o p b x0).ending = .returned r →
      r.residualNorms.length ≤ p.maxiter ∧ r.iterationCount ≤ p.maxiter - 1 := by
  have key : ∀ it (st : St V N), Counts p it st → it < p.maxiter →
      (top o p b st).2.callbacks.length ≤ p.maxiter ∧
      (top o p b st).2.applications ≤ p.maxiter + 1 + p.maxiter / 10 ∧
      (top o p b st).2.norms.length ≤ p.maxiter := by
    intro it st h hlt
    have h1 := h.norms; have h2 := h.callbacks; have h4 := h.apps
    have : it / 10 ≤ p.maxiter / 10 := Nat.div_le_div_right (by omega)
    simp only [top, List.length_append, List.length_cons, List.length_nil]
    refine ⟨by omega, by omega, by omega⟩
  refine loop_exit o p b (Counts p) (fun it st st' h _ _ ha => counts_step o p b it st st' h ha)
    (fun out => out.callbacks.length ≤ p.maxiter ∧ out.applications ≤ p.maxiter + 1 + p.maxiter / 10 ∧
      ∀ r, out.ending = .returned r → r.residualNorms.length ≤ p.maxiter ∧ r.iterationCount ≤ p.maxiter - 1)
    ?_ ?_ ?_ ?_ p.maxiter 0 _ (by omega) (counts_init o p b x0)
  · intro it st h hit
    have h1 := h.norms; have h2 := h.callbacks; have h4 := h.apps
    refine ⟨by simp [St.fail, St.finish]; omega, by simp only [St.fail, St.finish]; rw [hit] at h4; omega, ?_⟩
    intro r hr
    simp only [St.fail, St.finish] at hr
    split at hr
    · cases hr
    · cases hr; exact ⟨by simp only; omega, by simp only; omega⟩
  · intro it st h hlt _
    obtain ⟨k1, k2, k3⟩ := key it st h hlt
    refine ⟨k1, k2, ?_⟩
    intro r hr; cases hr; exact ⟨k3, by simp only; omega⟩
  · intro it st out h hlt _ hc
    obtain ⟨k1, k2, k3⟩ := key it st h hlt
    rcases checks_some hc with ⟨rfl, -⟩ | ⟨rfl, -⟩ | ⟨rfl, -⟩
    · refine ⟨k1, k2, ?_⟩
      intro r hr
      simp only [St.fail, St.finish] at hr
      split at hr
      · cases hr
      · cases hr; exact ⟨k3, by simp only; omega⟩
    · refine ⟨k1, k2, ?_⟩
      intro r hr
      simp only [St.fail, St.finish] at hr
      split at hr
      · cases hr
      · cases hr; exact ⟨k3, by simp only; omega⟩
    · exact ⟨k1, k2, fun r hr => by cases hr⟩
  · intro it st x h hlt _ hx
    obtain ⟨k1, k2, k3⟩ := key it st h hlt
    refine ⟨k1, k2, fun r hr => ?_⟩
    cases x <;> cases hr

/-- no recorded norm passed the convergence test -/
def NoneConverged (o : Ops V K N) (p : Params N) (b : V) (ns : List N) : Prop :=
  ∀ n ∈ ns, converged o p b n = false

/-- C28: the outcome is reported honestly, whatever the arithmetic does.  A result marked
successful has a last recorded residual norm that passes the convergence test (and no earlier
one did); a result marked unsuccessful is only returned without `hard_failure`, and none of its
recorded residual norms passes the test; `GMRESError` is only raised with `hard_failure`, and
after residuals none of which passes the test (`callbacks` are the residual vectors). -/
theorem C28_honest (o : Ops V K N) (p : Params N) (b : V) (x0 : Option V) :
    match (gmres o p b x0).ending with
    | .returned r =>
      if r.success then
        r.state = .success ∧ ∃ ns n, r.residualNorms = ns ++ [n] ∧
          (o.lt n (o.mul p.tol (o.norm b)) = true ∨ o.isZero n = true) ∧ NoneConverged o p b ns
      else r.state ≠ .success ∧ p.hardFailure = false ∧ NoneConverged o p b r.residualNorms
    | .gmresError s => s ≠ .success ∧ p.hardFailure = true ∧
        NoneConverged o p b ((gmres o p b x0).callbacks.map o.norm)
    | _ => True := by
  refine loop_exit o p b (fun _ st => NoneConverged o p b st.norms ∧ st.norms = st.callbacks.map o.norm) ?_
    (fun out => match out.ending with
    | .returned r =>
      if r.success then
        r.state = .success ∧ ∃ ns n, r.residualNorms = ns ++ [n] ∧
          (o.lt n (o.mul p.tol (o.norm b)) = true ∨ o.isZero n = true) ∧ NoneConverged o p b ns
      else r.state ≠ .success ∧ p.hardFailure = false ∧ NoneConverged o p b r.residualNorms
    | .gmresError s => s ≠ .success ∧ p.hardFailure = true ∧
        NoneConverged o p b (out.callbacks.map o.norm)
    | _ => True)
    ?_ ?_ ?_ ?_ p.maxiter 0 _ (by omega) ⟨(by intro n hn; cases hn), rfl⟩
  · intro it st st' h hc _ ha
    obtain ⟨h1, h2, -⟩ := advance_norms ha
    rw [h1, h2]
    refine ⟨?_, ?_⟩
    · intro n hn
      rw [top_norms] at hn
      rcases List.mem_append.1 hn with hn | hn
      · exact h.1 n hn
      · rw [List.mem_singleton.1 hn]; exact hc
    · simp only [top, List.map_append, h.2, List.map_cons, List.map_nil]
  · intro it st h _
    simp only [St.fail, St.finish]
    by_cases hf : p.hardFailure = true
    · simp only [hf, if_true]
      refine ⟨by decide, trivial, ?_⟩
      rw [← h.2]; exact h.1
    · simp only [hf]
      simp only [Bool.false_eq_true, if_false]
      exact ⟨by decide, by simpa using hf, h.1⟩
  · intro it st h _ hc
    simp only [St.finish, if_true]
    refine ⟨trivial, st.norms, o.norm (top o p b st).2.r, rfl, ?_, h.1⟩
    simpa [converged] using hc
  · intro it st out h _ hc hk
    have hall : NoneConverged o p b (top o p b st).2.norms := by
      intro n hn
      rw [top_norms] at hn
      rcases List.mem_append.1 hn with hn | hn
      · exact h.1 n hn
      · rw [List.mem_singleton.1 hn]; exact hc
    have hmap : (top o p b st).2.norms = (top o p b st).2.callbacks.map o.norm := by
      simp only [top, List.map_append, h.2, List.map_cons, List.map_nil]
    have hfail : ∀ s : State, s ≠ .success → (match ((top o p b st).2.fail p it s).ending with
      | .returned r =>
        if r.success then
          r.state = .success ∧ ∃ ns n, r.residualNorms = ns ++ [n] ∧
            (o.lt n (o.mul p.tol (o.norm b)) = true ∨ o.isZero n = true) ∧ NoneConverged o p b ns
        else r.state ≠ .success ∧ p.hardFailure = false ∧ NoneConverged o p b r.residualNorms
      | .gmresError s' => s' ≠ .success ∧ p.hardFailure = true ∧
          NoneConverged o p b (((top o p b st).2.fail p it s).callbacks.map o.norm)
      | _ => True) := by
      intro s hs
      simp only [St.fail, St.finish]
      by_cases hf : p.hardFailure = true
      · simp only [hf, if_true]
        refine ⟨hs, trivial, ?_⟩
        rw [← hmap]; exact hall
      · simp only [hf]
        simp only [Bool.false_eq_true, if_false]
        exact ⟨hs, by simpa using hf, hall⟩
    rcases checks_some hk with ⟨rfl, -⟩ | ⟨rfl, -⟩ | ⟨rfl, -⟩
    · exact hfail _ (by decide)
    · exact hfail _ (by decide)
    · simp only [St.finish]
  · intro it st x _ _ _ _
    cases x <;> simp [St.finish, ending_of_err]

/-- the stored directions: `restart` slots; those below `k`, or all of them once a restart is
due or has happened, are filled -/
structure Slots (p : Params N) (st : St V N) : Prop where
  lenA : st.Ae.length = p.restart
  lenE : st.e.length = p.restart
  k : st.k ≤ p.restart
  filled : ∀ j, j < st.k → (∃ a, st.Ae[j]? = some (some a)) ∧ ∃ a, st.e[j]? = some (some a)

theorem orthLoop_ok (o : Ops V K N) (Ae e : List (Option V)) (js : List Nat) (q : V × V)
    (h : ∀ j ∈ js, (∃ a, Ae[j]? = some (some a)) ∧ ∃ a, e[j]? = some (some a)) :
    ∃ q', orthLoop o Ae e js q = .ok q' := by
  induction js generalizing q with
  | nil => exact ⟨q, rfl⟩
  | cons j js ih =>
    obtain ⟨⟨a, ha⟩, ⟨a', ha'⟩⟩ := h j List.mem_cons_self
    simp only [orthLoop, fetch, ha, ha']
    exact ih _ (fun i hi => h i (List.mem_cons_of_mem _ hi))

theorem orthTrips_ok (o : Ops V K N) (Ae e : List (Option V)) (cnt n : Nat) (q : V × V)
    (h : ∀ j < cnt, (∃ a, Ae[j]? = some (some a)) ∧ ∃ a, e[j]? = some (some a)) :
    ∃ q', orthTrips o Ae e cnt n q = .ok q' := by
  induction n generalizing q with
  | zero => exact ⟨q, rfl⟩
  | succ n ih =>
    obtain ⟨q', hq⟩ := orthLoop_ok o Ae e (List.range cnt) q (fun j hj => h j (List.mem_range.1 hj))
    simp only [orthTrips, hq]
    exact ih _

theorem store_filled (l : List (Option V)) (k : Nat) (v : V) (j : Nat) (hk : k < l.length)
    (h : j < k → ∃ a, l[j]? = some (some a)) (hj : j < k + 1) :
    ∃ a, (l.set k (some v))[j]? = some (some a) := by
  by_cases he : j = k
  · subst he; exact ⟨v, by simp [hk]⟩
  · obtain ⟨a, ha⟩ := h (by omega)
    exact ⟨a, by rw [List.getElem?_set_ne (by omega)]; exact ha⟩

theorem slots_advance (o : Ops V K N) (p : Params N) (b : V) (hr : 0 < p.restart) (it : Nat)
    (st : St V N) (h : Slots p st) :
    ∃ st', advance o (top o p b st).1 it (top o p b st).2 = .ok st' ∧ Slots p st' := by
  have hcnt : ∀ j < (top o p b st).1, (∃ a, st.Ae[j]? = some (some a)) ∧ ∃ a, st.e[j]? = some (some a) := by
    intro j hj
    simp only [top] at hj
    split at hj
    · rename_i hk; exact h.filled j (by omega)
    · exact h.filled j hj
  obtain ⟨⟨w, rp⟩, hq⟩ := orthTrips_ok o st.Ae st.e (top o p b st).1 2
    (o.A (top o p b st).2.r, (top o p b st).2.r) hcnt
  have hk' : (top o p b st).2.k < p.restart := by
    have := h.k
    simp only [top]
    split <;> omega
  have hAe : (top o p b st).2.Ae = st.Ae := rfl
  have he : (top o p b st).2.e = st.e := rfl
  simp only [advance, hAe, he, hq, store, h.lenA, h.lenE, hk', if_true]
  refine ⟨_, rfl, ?_⟩
  refine ⟨by simp [h.lenA], by simp [h.lenE], by simp only; omega, ?_⟩
  intro j hj
  simp only at hj ⊢
  have hfill : j < (top o p b st).2.k → (∃ a, st.Ae[j]? = some (some a)) ∧ ∃ a, st.e[j]? = some (some a) := by
    intro hjk
    simp only [top] at hjk
    split at hjk
    · omega
    · exact h.filled j hjk
  exact ⟨store_filled _ _ _ _ (by rw [h.lenA]; exact hk') (fun hjk => (hfill hjk).1) hj,
    store_filled _ _ _ _ (by rw [h.lenE]; exact hk') (fun hjk => (hfill hjk).2) hj⟩

/-- C28: with a restart length of at least one and a non-negative stall window, the call never
leaves its own arrays: it ends in a result or `GMRESError`, whatever the arithmetic does. -/
theorem C28_no_index (o : Ops V K N) (p : Params N) (b : V) (x0 : Option V)
    (hr : 0 < p.restart) (hs : 0 ≤ p.stall) :
    (∃ r, (gmres o p b x0).ending = .returned r) ∨ ∃ s, (gmres o p b x0).ending = .gmresError s := by
  have hst : ∀ ns n, stallTest o p ns n ≠ none := by
    intro ns n
    simp only [stallTest, fromEnd]
    split
    · rename_i hc
      rw [if_pos (by omega), if_pos (by omega),
        List.getElem?_eq_getElem (by omega)]
      simp
    · simp
  have hfail : ∀ (st : St V N) it s, (∃ r, (st.fail p it s).ending = .returned r) ∨
      ∃ s', (st.fail p it s).ending = .gmresError s' := by
    intro st it s
    simp only [St.fail, St.finish]
    split
    · exact Or.inr ⟨_, rfl⟩
    · exact Or.inl ⟨_, rfl⟩
  refine loop_exit o p b (fun _ st => Slots p st) ?_
    (fun out => (∃ r, out.ending = .returned r) ∨ ∃ s, out.ending = .gmresError s)
    ?_ ?_ ?_ ?_ p.maxiter 0 _ (by omega) ?_
  · intro it st st' h _ _ ha
    obtain ⟨st'', h1, h2⟩ := slots_advance o p b hr it st h
    rw [ha] at h1; cases h1; exact h2
  · intro it st _ _; exact hfail _ _ _
  · intro it st _ _ _; exact Or.inl ⟨_, rfl⟩
  · intro it st out _ _ _ hc
    rcases checks_some hc with ⟨rfl, -⟩ | ⟨rfl, -⟩ | ⟨rfl, hn⟩
    · exact hfail _ _ _
    · exact hfail _ _ _
    · exact absurd hn (hst _ _)
  · intro it st x h _ _ hx
    obtain ⟨st'', h1, -⟩ := slots_advance o p b hr it st h
    rw [hx] at h1; cases h1
  · refine ⟨by simp [initial], by simp [initial], Nat.zero_le _, ?_⟩
    intro j hj
    exact absurd hj (Nat.not_lt_zero _)

/-- Outside these ranges the claim fails: with `restart=0` the first direction has no slot. -/
theorem C28_restart_zero (o : Ops V K N) (p : Params N) (b : V) (hr : p.restart = 0)
    (hm : 0 < p.maxiter) (hc : converged o p b (o.norm b) = false) :
    (gmres o p b none).ending = .indexError := by
  obtain ⟨m, hm⟩ : ∃ m, p.maxiter = m + 1 := ⟨p.maxiter - 1, by omega⟩
  simp [gmres, loop, top, initial, hr, hm, hc, checks, advance, orthTrips, orthLoop, store,
    St.finish, ending_of_err]

/-! ## C27: exact arithmetic -/

/-- Exact arithmetic: `V` a module over a commutative ring, norms in a linearly ordered field.
The inner product, the norm and the reciprocal are arbitrary functions. -/
def exactOps {K V N : Type} [CommRing K] [AddCommGroup V] [Module K V] [Field N] [LinearOrder N]
    (A : V → V) (dot : V → V → K) (norm : V → N) (recip : N → K) : Ops V K N where
  A := A
  add := (· + ·)
  sub := (· - ·)
  smul := (· • ·)
  zero := 0
  dot := dot
  norm := norm
  recip := recip
  lt := fun a b => decide (a < b)
  mul := (· * ·)
  div := (· / ·)
  isZero := fun a => decide (a = 0)
  c125 := 5 / 4

section exact
variable {K V N : Type} [CommRing K] [AddCommGroup V] [Module K V] [Field N] [LinearOrder N]
  (A : V →ₗ[K] V) (dot : V → V → K) (norm : V → N) (recip : N → K)

/-- the loop invariant: the residual is up to date unless it is about to be recomputed, the
second array holds the images of the first, and all norms so far were residual norms -/
structure Exact (b : V) (st : St V N) : Prop where
  res : st.recalc = false → st.r = b - A st.x
  images : ∀ (j : Nat) a ee, st.Ae[j]? = some (some a) → st.e[j]? = some (some ee) → A ee = a
  norms : st.norms = st.iterates.map (fun x => norm (b - A x))
  cbs : st.callbacks = st.iterates.map (fun x => b - A x)

theorem exact_loop (Ae e : List (Option V))
    (h : ∀ (j : Nat) a ee, Ae[j]? = some (some a) → e[j]? = some (some ee) → A ee = a)
    (js : List Nat) (q q' : V × V) (hq : A q.2 = q.1)
    (ho : orthLoop (exactOps A dot norm recip) Ae e js q = .ok q') : A q'.2 = q'.1 := by
  induction js generalizing q with
  | nil => simp only [orthLoop] at ho; cases ho; exact hq
  | cons j js ih =>
    obtain ⟨w, rp⟩ := q
    simp only [orthLoop, fetch] at ho
    split at ho
    · cases ho
    · rename_i a ha
      split at ho
      · cases ho
      · rename_i ee he
        have ha' : Ae[j]? = some (some a) := by
          split at ha <;> cases ha; assumption
        have he' : e[j]? = some (some ee) := by
          split at he <;> cases he; assumption
        refine ih _ ?_ ho
        have := h j a ee ha' he'
        simp only [exactOps] at hq ⊢
        rw [map_sub, map_smul, this, hq]

theorem exact_trips (Ae e : List (Option V)) (cnt : Nat)
    (h : ∀ (j : Nat) a ee, Ae[j]? = some (some a) → e[j]? = some (some ee) → A ee = a)
    (n : Nat) (q q' : V × V) (hq : A q.2 = q.1)
    (ho : orthTrips (exactOps A dot norm recip) Ae e cnt n q = .ok q') : A q'.2 = q'.1 := by
  induction n generalizing q with
  | zero => simp only [orthTrips] at ho; cases ho; exact hq
  | succ n ih =>
    simp only [orthTrips] at ho
    split at ho
    · cases ho
    · rename_i q1 h1
      refine ih _ ?_ ho
      have := exact_loop A dot norm recip Ae e h _ _ _ hq h1
      simp only [normalize, exactOps, map_smul, this]

theorem exact_top (p : Params N) (b : V) (st : St V N) (h : Exact A norm b st) :
    (top (exactOps A dot norm recip) p b st).2.r = b - A st.x := by
  simp only [top, exactOps]
  split
  · rfl
  · rename_i hr; exact h.res (by simpa using hr)

theorem exact_step (p : Params N) (b : V) (it : Nat) (st st' : St V N) (h : Exact A norm b st)
    (ha : advance (exactOps A dot norm recip) (top (exactOps A dot norm recip) p b st).1 it
      (top (exactOps A dot norm recip) p b st).2 = .ok st') : Exact A norm b st' := by
  have hr := exact_top A dot norm recip p b st h
  have hn : (top (exactOps A dot norm recip) p b st).2.norms
      = (top (exactOps A dot norm recip) p b st).2.iterates.map (fun x => norm (b - A x)) := by
    rw [top_norms, hr]
    simp only [top, List.map_append, h.norms, List.map_cons, List.map_nil]
    rfl
  have hc : (top (exactOps A dot norm recip) p b st).2.callbacks
      = (top (exactOps A dot norm recip) p b st).2.iterates.map (fun x => b - A x) := by
    have : (top (exactOps A dot norm recip) p b st).2.callbacks
      = st.callbacks ++ [(top (exactOps A dot norm recip) p b st).2.r] := rfl
    rw [this, hr]
    simp only [top, List.map_append, h.cbs, List.map_cons, List.map_nil]
  have hx : (top (exactOps A dot norm recip) p b st).2.x = st.x := rfl
  have hA : (top (exactOps A dot norm recip) p b st).2.Ae = st.Ae := rfl
  have he : (top (exactOps A dot norm recip) p b st).2.e = st.e := rfl
  generalize (top (exactOps A dot norm recip) p b st) = t at *
  obtain ⟨cnt, s⟩ := t
  simp only at hr hn hc hx hA he ha
  simp only [advance] at ha
  split at ha
  · cases ha
  · rename_i w rp hq
    have himg : A rp = w := exact_trips A dot norm recip _ _ _ (by rw [hA, he]; exact h.images) _ _ _
      (by simp [exactOps]) hq
    split at ha
    · cases ha
    · rename_i Ae' hAe'
      split at ha
      · cases ha
      · rename_i e' he'
        cases ha
        refine ⟨?_, ?_, hn, hc⟩
        · intro hrec
          simp only at hrec
          simp only [hrec, if_false, Bool.false_eq_true]
          simp only [exactOps]
          rw [map_add, map_smul, himg, hr, hx]
          abel
        · intro j a ee h1 h2
          simp only at h1 h2
          simp only [store] at hAe' he'
          split at hAe'
          · rename_i hlt
            split at he'
            · rename_i hlt'
              cases hAe'; cases he'
              by_cases hj : s.k = j
              · subst hj
                simp only [List.getElem?_set_self hlt, List.getElem?_set_self hlt',
                  Option.some.injEq] at h1 h2
                rw [← h1, ← h2]; exact himg
              · rw [List.getElem?_set_ne hj] at h1 h2
                rw [hA] at h1; rw [he] at h2
                exact h.images j a ee h1 h2
            · cases he'
          · cases hAe'

theorem exact_init (p : Params N) (b : V) (x0 : Option V) :
    Exact A norm b (initial (exactOps A dot norm recip) p b x0) := by
  refine ⟨?_, ?_, rfl, rfl⟩
  · intro hrec
    cases x0 with
    | none => simp [initial, exactOps]
    | some x => simp [initial] at hrec
  · intro j a ee h1
    simp only [initial, List.getElem?_replicate] at h1
    split at h1 <;> cases h1

/-- C27: for a linear operator in exact arithmetic, whatever the inner product, a result
marked successful satisfies `‖b - A x‖ < tol ‖b‖`, or its residual norm is zero. -/
theorem C27_success (p : Params N) (b : V) (x0 : Option V) (r : Result V N)
    (h : (gmres (exactOps A dot norm recip) p b x0).ending = .returned r) (hs : r.success = true) :
    norm (b - A r.solution) < p.tol * norm b ∨ norm (b - A r.solution) = 0 := by
  revert r
  refine loop_exit (exactOps A dot norm recip) p b (fun _ st => Exact A norm b st) ?_
    (fun out => ∀ r, out.ending = .returned r → r.success = true →
      norm (b - A r.solution) < p.tol * norm b ∨ norm (b - A r.solution) = 0)
    ?_ ?_ ?_ ?_ p.maxiter 0 _ (by omega) (exact_init A dot norm recip p b x0)
  · intro it st st' h _ _ ha; exact exact_step A dot norm recip p b it st st' h ha
  · intro it st _ _ r hr hs
    simp only [St.fail, St.finish] at hr
    split at hr <;> cases hr
    cases hs
  · intro it st h _ hc r hr hs
    cases hr
    rw [exact_top A dot norm recip p b st h] at hc
    simpa [converged, exactOps, top] using hc
  · intro it st out _ _ _ hc r hr hs
    rcases checks_some hc with ⟨rfl, -⟩ | ⟨rfl, -⟩ | ⟨rfl, -⟩
    · simp only [St.fail, St.finish] at hr
      split at hr <;> cases hr
      cases hs
    · simp only [St.fail, St.finish] at hr
      split at hr <;> cases hr
      cases hs
    · cases hr
  · intro it st x _ _ _ _ r hr
    cases x <;> cases hr

/-- C27: all residual norms reported are true residual norms: entry `i` is `‖b - A xᵢ‖` for
the `i`-th iterate, the callback got `b - A xᵢ`, and a successful result returns the last of
these iterates. -/
theorem C27_residuals (p : Params N) (b : V) (x0 : Option V) (out : Outcome V N)
    (hout : gmres (exactOps A dot norm recip) p b x0 = out) :
    out.callbacks = out.iterates.map (fun x => b - A x) ∧
    (∀ x, out.iterates.head? = some x → x = x0.getD 0) ∧
    ∀ r, out.ending = .returned r →
      r.residualNorms = out.iterates.map (fun x => norm (b - A x)) ∧
      (r.success = true → out.iterates.getLast? = some r.solution) := by
  subst hout
  have hd : ∀ (st : St V N) (y : V), (∀ x, st.iterates.head? = some x → x = y) →
      (st.iterates = [] → st.x = y) →
      ∀ x, (top (exactOps A dot norm recip) p b st).2.iterates.head? = some x → x = y := by
    intro st y h1 h2 x hx
    simp only [top] at hx
    cases hi : st.iterates with
    | nil => rw [hi] at hx; simp only [List.nil_append, List.head?_cons, Option.some.injEq] at hx
             rw [← hx]; exact h2 hi
    | cons z zs => rw [hi] at hx h1; exact h1 x (by simpa using hx)
  refine loop_exit (exactOps A dot norm recip) p b
    (fun _ st => Exact A norm b st ∧ (∀ x, st.iterates.head? = some x → x = x0.getD 0) ∧
      (st.iterates = [] → st.x = x0.getD 0)) ?_
    (fun out => out.callbacks = out.iterates.map (fun x => b - A x) ∧
      (∀ x, out.iterates.head? = some x → x = x0.getD 0) ∧
      ∀ r, out.ending = .returned r →
        r.residualNorms = out.iterates.map (fun x => norm (b - A x)) ∧
        (r.success = true → out.iterates.getLast? = some r.solution))
    ?_ ?_ ?_ ?_ p.maxiter 0 _ (by omega)
    ⟨exact_init A dot norm recip p b x0, (by intro x hx; cases hx), (by
      intro _; cases x0 <;> simp [initial, exactOps])⟩
  · intro it st st' h _ _ ha
    refine ⟨exact_step A dot norm recip p b it st st' h.1 ha, ?_, ?_⟩
    · rw [(advance_norms ha).2.2.1]; exact hd st _ h.2.1 h.2.2
    · rw [(advance_norms ha).2.2.1]; intro hn; simp [top] at hn
  · intro it st h _
    refine ⟨h.1.cbs, h.2.1, ?_⟩
    intro r hr
    simp only [St.fail, St.finish] at hr ⊢
    split at hr <;> cases hr
    exact ⟨h.1.norms, fun hs => by cases hs⟩
  all_goals
    intro it st
  · intro h _ hc
    refine ⟨?_, hd st _ h.2.1 h.2.2, ?_⟩
    · have : (top (exactOps A dot norm recip) p b st).2.callbacks
        = st.callbacks ++ [(top (exactOps A dot norm recip) p b st).2.r] := rfl
      simp only [St.finish]
      rw [this, exact_top A dot norm recip p b st h.1]
      simp only [top, List.map_append, h.1.cbs, List.map_cons, List.map_nil]
    · intro r hr
      cases hr
      refine ⟨?_, fun _ => ?_⟩
      · simp only [St.finish]
        rw [top_norms, exact_top A dot norm recip p b st h.1]
        simp only [top, List.map_append, h.1.norms, List.map_cons, List.map_nil]
        rfl
      · simp [St.finish, top]
  · intro out h _ _ hc
    have hcb : (top (exactOps A dot norm recip) p b st).2.callbacks
        = (top (exactOps A dot norm recip) p b st).2.iterates.map (fun x => b - A x) := by
      have : (top (exactOps A dot norm recip) p b st).2.callbacks
        = st.callbacks ++ [(top (exactOps A dot norm recip) p b st).2.r] := rfl
      rw [this, exact_top A dot norm recip p b st h.1]
      simp only [top, List.map_append, h.1.cbs, List.map_cons, List.map_nil]
    have hno : (top (exactOps A dot norm recip) p b st).2.norms
        = (top (exactOps A dot norm recip) p b st).2.iterates.map (fun x => norm (b - A x)) := by
      rw [top_norms, exact_top A dot norm recip p b st h.1]
      simp only [top, List.map_append, h.1.norms, List.map_cons, List.map_nil]
      rfl
    have hh := hd st _ h.2.1 h.2.2
    rcases checks_some hc with ⟨rfl, -⟩ | ⟨rfl, -⟩ | ⟨rfl, -⟩
    · refine ⟨hcb, hh, ?_⟩
      intro r hr
      simp only [St.fail, St.finish] at hr ⊢
      split at hr <;> cases hr
      exact ⟨hno, fun hs => by cases hs⟩
    · refine ⟨hcb, hh, ?_⟩
      intro r hr
      simp only [St.fail, St.finish] at hr ⊢
      split at hr <;> cases hr
      exact ⟨hno, fun hs => by cases hs⟩
    · refine ⟨hcb, hh, fun r hr => by cases hr⟩
  · intro x h _ _ _
    refine ⟨?_, hd st _ h.2.1 h.2.2, ?_⟩
    · have : (top (exactOps A dot norm recip) p b st).2.callbacks
        = st.callbacks ++ [(top (exactOps A dot norm recip) p b st).2.r] := rfl
      simp only [St.finish]
      rw [this, exact_top A dot norm recip p b st h.1]
      simp only [top, List.map_append, h.1.cbs, List.map_cons, List.map_nil]
    · intro r hr
      cases x <;> cases hr

end exact

/-- a run that succeeds after one update: `A` doubles, the norm is the absolute value -/
example : ∃ r, (gmres (exactOps (K := ℚ) (V := ℚ) (N := ℚ) (fun x => 2 * x) (fun a b => a * b) (fun x => |x|)
    (fun n => 1 / n)) ⟨1, 1/10, 5, true, true, 5/4, 10⟩ 3 none).ending = .returned r ∧
    r.success = true ∧ r.iterationCount = 1 ∧ r.solution = 3 / 2 := by
  refine ⟨⟨3/2, [3, 0], 1, true, .success⟩, ?_, rfl, rfl, rfl⟩
  norm_num [gmres, loop, top, initial, exactOps, converged, checks, advance, orthTrips, orthLoop,
    fetch, store, normalize, stallTest, St.finish, abs_of_pos]

end Verif.Gmres
