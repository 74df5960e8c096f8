import Mathlib.Tactic.Common
import Mathlib.Algebra.Field.Basic
import Mathlib.Algebra.Field.Rat
import Mathlib.Tactic.FieldSimp
import Mathlib.Tactic.Ring
import Mathlib.Tactic.LinearCombination
import Mathlib.Tactic.NormNum
import Mathlib.Algebra.Order.AbsoluteValue.Basic
import Mathlib.Algebra.Order.Field.Basic

/-!
# Muller's method (C29)

Model of `muller` and `muller_deflate` (`pytential/muller.py:38-139`).  The arithmetic is a
record of operations without laws, so the theorems on what is returned hold for floating
point numbers; the theorem on the step itself uses exact arithmetic.
-/

namespace Verif.Muller

/-- arithmetic on complex numbers `C` and magnitudes `R` -/
structure Ops (C R : Type) where
  add : C → C → C
  sub : C → C → C
  mul : C → C → C
  div : C → C → C
  one : C
  two : C
  four : C
  neg2 : C
  sqrt : C → C
  abs : C → R
  lt : R → R → Bool
  /-- the literal 1e-14 -/
  tiny : R
  isNan : C → Bool

variable {C R : Type}

/-- the iteration variables -/
structure Pts (C : Type) where
  z1 : C
  z2 : C
  z3 : C
  w1 : C
  w2 : C
  w3 : C

/-- `lambda_` on entry of the step (`muller.py:112-114`) -/
def lam0 (o : Ops C R) (s : Pts C) : C := o.div (o.sub s.z3 s.z2) (o.sub s.z2 s.z1)

/-- `g` (`muller.py:115`) -/
def gval (o : Ops C R) (s : Pts C) : C :=
  let l := lam0 o s
  o.add (o.sub (o.mul (o.mul s.w1 l) l) (o.mul (o.mul s.w2 (o.add o.one l)) (o.add o.one l)))
    (o.mul s.w3 (o.add o.one (o.mul o.two l)))

/-- `det` (`muller.py:116`) -/
def detval (o : Ops C R) (s : Pts C) : C :=
  let l := lam0 o s
  o.sub (o.mul (gval o s) (gval o s))
    (o.mul (o.mul (o.mul (o.mul o.four s.w3) (o.add o.one l)) l)
      (o.add (o.sub (o.mul s.w1 l) (o.mul s.w2 (o.add o.one l))) s.w3))

/-- the denominator picked (`muller.py:118-124`) -/
def denom (o : Ops C R) (s : Pts C) : C :=
  let h1 := o.add (gval o s) (o.sqrt (detval o s))
  let h2 := o.sub (gval o s) (o.sqrt (detval o s))
  if o.lt (o.abs h2) (o.abs h1) then h1 else h2

/-- the new `lambda_` (`muller.py:121-124`) -/
def lam1 (o : Ops C R) (s : Pts C) : C :=
  o.div (o.mul (o.mul o.neg2 s.w3) (o.add o.one (lam0 o s))) (denom o s)

/-- the new `z3` (`muller.py:126-130`) -/
def newz (o : Ops C R) (s : Pts C) : C := o.add s.z3 (o.mul (lam1 o s) (o.sub s.z3 s.z2))

/-- the shift of the variables and the evaluation of `f` (`muller.py:126-131`) -/
def step (o : Ops C R) (f : C → C) (s : Pts C) : Pts C :=
  ⟨s.z2, s.z3, newz o s, s.w2, s.w3, f (newz o s)⟩

/-- `move_mag` (`muller.py:133-136`), for the variables after the step -/
def moveMag (o : Ops C R) (s : Pts C) : R :=
  if o.lt (o.abs s.z3) o.tiny then o.abs (o.sub s.z3 s.z2)
  else o.abs (o.div (o.sub s.z3 s.z2) s.z3)

/-- exceptions of the root finder (`muller.py:38-139`) -/
inductive Err | runtime | index
  deriving DecidableEq, Repr

/-- the main loop (`muller.py:107-139`); `fuel` bounds the remaining rounds, the loop leaves by
itself when `niter` reaches `maxiter` -/
def loop (o : Ops C R) (f : C → C) (maxiter : Nat) (tol : R) :
    Nat → Nat → Pts C → Except Err (C × Nat)
  | 0, _, _ => .error .runtime
  | fuel + 1, niter, s =>
    if maxiter ≤ niter + 1 then .error .runtime
    else if o.lt (moveMag o (step o f s)) tol then .ok ((step o f s).z3, niter + 1)
    else loop o f maxiter tol fuel (niter + 1) (step o f s)

/-- `muller` (`muller.py:80-139`); `z_start` is a triple (when it is `None`, an arbitrary one
is drawn by the caller of this model) -/
def muller (o : Ops C R) (f : C → C) (maxiter : Nat) (tol : R) (z : C × C × C) :
    Except Err (C × Nat) :=
  loop o f maxiter tol (maxiter + 1) 0 ⟨z.1, z.2.1, z.2.2, f z.1, f z.2.1, f z.2.2⟩

/-- `f_deflated` (`muller.py:54-59`) for the roots found so far -/
def deflated (o : Ops C R) (f : C → C) (roots : List C) (z : C) : C :=
  roots.foldl (fun y r => o.div y (o.sub z r)) (f z)

/-- the retry loop (`muller.py:70-75`): `miter` retries remain.  Note that `roots` then already
contains the root being retried. -/
def retry (o : Ops C R) (f : C → C) (maxiter : Nat) (eps : R) (starts : Nat → C × C × C)
    (found : List (C × Nat)) : Nat → Nat → C × Nat → Except Err ((C × Nat) × Nat)
  | 0, calls, cur => .ok (cur, calls)
  | m + 1, calls, cur =>
    if o.isNan cur.1 || cur.2 == maxiter then
      match muller o (deflated o f (found.map Prod.fst ++ [cur.1])) maxiter eps (starts calls) with
      | .error e => .error e
      | .ok cur' => retry o f maxiter eps starts found m (calls + 1) cur'
    else .ok (cur, calls)

/-- the loop over the roots (`muller.py:64-75`); `starts i` is the starting triple of the
`i`-th call of `muller` (constant if `z_start` is given, random otherwise) -/
def deflateLoop (o : Ops C R) (f : C → C) (maxiter : Nat) (eps : R) (starts : Nat → C × C × C) :
    Nat → Nat → List (C × Nat) → Except Err (List (C × Nat))
  | 0, _, found => .ok found
  | n + 1, calls, found =>
    match muller o (deflated o f (found.map Prod.fst)) maxiter eps (starts calls) with
    | .error e => .error e
    | .ok cur =>
      match retry o f maxiter eps starts found 50 (calls + 1) cur with
      | .error e => .error e
      | .ok (cur', calls') => deflateLoop o f maxiter eps starts n calls' (found ++ [cur'])

/-- `muller_deflate` (`muller.py:38-77`): the roots with their iteration counts -/
def mullerDeflate (o : Ops C R) (f : C → C) (n maxiter : Nat) (eps : R)
    (starts : Nat → C × C × C) : Except Err (List (C × Nat)) :=
  deflateLoop o f maxiter eps starts n 0 []

/-! ## specification -/

/-- the points after `n` rounds -/
def iterate (o : Ops C R) (f : C → C) (s : Pts C) : Nat → Pts C
  | 0 => s
  | n + 1 => step o f (iterate o f s n)

/-- the three starting points with their function values (`muller.py:97-105`) -/
def startPts (f : C → C) (z : C × C × C) : Pts C :=
  ⟨z.1, z.2.1, z.2.2, f z.1, f z.2.1, f z.2.2⟩

/-- The convergence criterion for two successive iterates: the last move is below the tolerance,
absolutely if the new point is tiny, and relative to the new point otherwise. -/
def CloseMove (o : Ops C R) (tol : R) (old new : C) : Prop :=
  (o.lt (o.abs new) o.tiny = true ∧ o.lt (o.abs (o.sub new old)) tol = true) ∨
  (o.lt (o.abs new) o.tiny = false ∧ o.lt (o.abs (o.div (o.sub new old) new)) tol = true)

/-- the convergence criterion after `n` rounds: the points of the last two rounds are close -/
def Converged (o : Ops C R) (f : C → C) (tol : R) (z : C × C × C) (n : Nat) : Prop :=
  CloseMove o tol (iterate o f (startPts f z) n).z2 (iterate o f (startPts f z) n).z3

theorem moveMag_lt (o : Ops C R) (tol : R) (s : Pts C) :
    o.lt (moveMag o s) tol = true ↔ CloseMove o tol s.z2 s.z3 := by
  unfold moveMag CloseMove
  by_cases h : o.lt (o.abs s.z3) o.tiny = true
  · rw [if_pos h]; simp [h]
  · rw [if_neg h]; simp [h]

theorem iterate_step (o : Ops C R) (f : C → C) (s : Pts C) (n : Nat) :
    iterate o f (step o f s) n = iterate o f s (n + 1) := by
  induction n with
  | zero => rfl
  | succ n ih => simp only [iterate] at ih ⊢; rw [ih]

theorem loop_spec (o : Ops C R) (f : C → C) (maxiter : Nat) (tol : R) (z : C × C × C)
    (fuel niter : Nat) (hf : maxiter < fuel + niter + 1)
    (hno : ∀ k, 0 < k → k ≤ niter → ¬ Converged o f tol z k) :
    (∀ zr n, loop o f maxiter tol fuel niter (iterate o f (startPts f z) niter) = .ok (zr, n) →
      0 < n ∧ n < maxiter ∧ zr = (iterate o f (startPts f z) n).z3 ∧ Converged o f tol z n ∧
      ∀ k, 0 < k → k < n → ¬ Converged o f tol z k) ∧
    (∀ e, loop o f maxiter tol fuel niter (iterate o f (startPts f z) niter) = .error e →
      e = .runtime ∧ ∀ k, 0 < k → k < maxiter → ¬ Converged o f tol z k) := by
  induction fuel generalizing niter with
  | zero =>
    refine ⟨fun zr n h => (by simp [loop] at h), fun e h => ?_⟩
    simp only [loop] at h
    cases h
    exact ⟨rfl, fun k h0 hk => hno k h0 (by omega)⟩
  | succ fuel ih =>
    simp only [loop]
    split
    · rename_i hm
      refine ⟨fun zr n h => (by cases h), fun e h => ?_⟩
      cases h
      exact ⟨rfl, fun k h0 hk => hno k h0 (by omega)⟩
    · rename_i hm
      split
      · rename_i hc
        refine ⟨fun zr n h => ?_, fun e h => by cases h⟩
        cases h
        exact ⟨by omega, by omega, rfl, (moveMag_lt o tol _).1 hc, fun k h0 hk => hno k h0 (by omega)⟩
      · rename_i hc
        have : step o f (iterate o f (startPts f z) niter) = iterate o f (startPts f z) (niter + 1) := rfl
        rw [this] at hc ⊢
        refine ih (niter + 1) (by omega) ?_
        intro k h0 hk
        by_cases he : k = niter + 1
        · subst he; exact fun h => hc ((moveMag_lt o tol _).2 h)
        · exact hno k h0 (by omega)

/-- C29: `muller` returns `(z, n)` exactly when round `n < maxiter` is the first whose
convergence criterion holds, and then `z` is the point of that round. -/
theorem C29_returns (o : Ops C R) (f : C → C) (maxiter : Nat) (tol : R) (z : C × C × C)
    (zr : C) (n : Nat) :
    muller o f maxiter tol z = .ok (zr, n) ↔
      0 < n ∧ n < maxiter ∧ zr = (iterate o f (startPts f z) n).z3 ∧ Converged o f tol z n ∧
      ∀ k, 0 < k → k < n → ¬ Converged o f tol z k := by
  have hs := loop_spec o f maxiter tol z (maxiter + 1) 0 (by omega) (fun k h0 hk => by omega)
  have he : muller o f maxiter tol z
      = loop o f maxiter tol (maxiter + 1) 0 (iterate o f (startPts f z) 0) := rfl
  rw [he]
  constructor
  · exact hs.1 zr n
  · rintro ⟨h0, hn, hz, hc, hmin⟩
    cases hl : loop o f maxiter tol (maxiter + 1) 0 (iterate o f (startPts f z) 0) with
    | error e => exact absurd hc ((hs.2 e hl).2 n h0 hn)
    | ok p =>
      obtain ⟨zr', n'⟩ := p
      obtain ⟨h0', hn', hz', hc', hmin'⟩ := hs.1 zr' n' hl
      have : n' = n := by
        rcases Nat.lt_trichotomy n' n with h | h | h
        · exact absurd hc' (hmin n' h0' h)
        · exact h
        · exact absurd hc (hmin' n h0 h)
      subst this
      rw [hz, hz']

/-- C29: `muller` raises `RuntimeError` exactly when no round below `maxiter` converges. -/
theorem C29_raises (o : Ops C R) (f : C → C) (maxiter : Nat) (tol : R) (z : C × C × C) :
    (∃ e, muller o f maxiter tol z = .error e) ↔
      ∀ n, 0 < n → n < maxiter → ¬ Converged o f tol z n := by
  have hs := loop_spec o f maxiter tol z (maxiter + 1) 0 (by omega) (fun k h0 hk => by omega)
  have he : muller o f maxiter tol z
      = loop o f maxiter tol (maxiter + 1) 0 (iterate o f (startPts f z) 0) := rfl
  rw [he]
  constructor
  · rintro ⟨e, h⟩; exact (hs.2 e h).2
  · intro h
    cases hl : loop o f maxiter tol (maxiter + 1) 0 (iterate o f (startPts f z) 0) with
    | error e => exact ⟨e, rfl⟩
    | ok p =>
      obtain ⟨zr', n'⟩ := p
      obtain ⟨h0', hn', -, hc', -⟩ := hs.1 zr' n' hl
      exact absurd hc' (h n' h0' hn')

/-- the only error is `RuntimeError` -/
theorem C29_runtime (o : Ops C R) (f : C → C) (maxiter : Nat) (tol : R) (z : C × C × C) (e : Err)
    (h : muller o f maxiter tol z = .error e) : e = .runtime :=
  ((loop_spec o f maxiter tol z (maxiter + 1) 0 (by omega) (fun k h0 hk => by omega)).2 e h).1

/-- what IEEE arithmetic guarantees about NaNs: they propagate through subtraction and
division, and comparisons with the magnitude of a NaN are false -/
structure NanLaws (o : Ops C R) : Prop where
  sub : ∀ a b, o.isNan a = true → o.isNan (o.sub a b) = true
  div : ∀ a b, o.isNan a = true → o.isNan (o.div a b) = true
  lt : ∀ a r, o.isNan a = true → o.lt (o.abs a) r = false

/-- C29: a NaN is never returned. -/
theorem C29_no_nan (o : Ops C R) (hn : NanLaws o) (f : C → C) (maxiter : Nat) (tol : R)
    (z : C × C × C) (zr : C) (n : Nat) (h : muller o f maxiter tol z = .ok (zr, n)) :
    o.isNan zr = false := by
  obtain ⟨-, -, hz, hc, -⟩ := (C29_returns o f maxiter tol z zr n).1 h
  cases hnan : o.isNan zr with
  | false => rfl
  | true =>
    rw [hz] at hnan
    rcases hc with ⟨-, hc⟩ | ⟨-, hc⟩
    · rw [hn.lt _ _ (hn.sub _ _ hnan)] at hc; cases hc
    · rw [hn.lt _ _ (hn.div _ _ (hn.sub _ _ hnan))] at hc; cases hc

theorem retry_none (o : Ops C R) (f : C → C) (maxiter : Nat) (eps : R) (starts : Nat → C × C × C)
    (found : List (C × Nat)) (m calls : Nat) (cur : C × Nat) (h1 : o.isNan cur.1 = false)
    (h2 : cur.2 < maxiter) : retry o f maxiter eps starts found m calls cur = .ok (cur, calls) := by
  cases m with
  | zero => rfl
  | succ m =>
    have : (o.isNan cur.1 || cur.2 == maxiter) = false := by
      rw [h1, Bool.false_or, beq_eq_false_iff_ne]; omega
    simp [retry, this]

theorem deflateLoop_spec (o : Ops C R) (hn : NanLaws o) (f : C → C) (maxiter : Nat) (eps : R)
    (starts : Nat → C × C × C) (n calls : Nat) (found res : List (C × Nat))
    (hcalls : calls = found.length)
    (h : deflateLoop o f maxiter eps starts n calls found = .ok res) :
    ∃ new, res = found ++ new ∧ new.length = n ∧
      ∀ (i : Nat) p, new[i]? = some p →
        muller o (deflated o f ((found ++ new.take i).map Prod.fst)) maxiter eps
          (starts (found.length + i)) = .ok p := by
  induction n generalizing calls found with
  | zero =>
    simp only [deflateLoop] at h
    cases h
    exact ⟨[], by simp, rfl, fun i p hp => by simp at hp⟩
  | succ n ih =>
    simp only [deflateLoop] at h
    split at h
    · cases h
    · rename_i cur hcur
      have h1 := C29_no_nan o hn _ maxiter eps _ cur.1 cur.2 hcur
      have h2 := ((C29_returns o _ maxiter eps _ cur.1 cur.2).1 hcur).2.1
      rw [retry_none o f maxiter eps starts found 50 (calls + 1) cur h1 h2] at h
      obtain ⟨new, hres, hlen, hall⟩ := ih (calls + 1) (found ++ [cur]) (by simp [hcalls]) h
      refine ⟨cur :: new, by simp [hres], by simp [hlen], ?_⟩
      intro i p hp
      cases i with
      | zero =>
        simp only [List.getElem?_cons_zero, Option.some.injEq] at hp
        subst hp
        simpa [hcalls] using hcur
      | succ i =>
        rw [List.getElem?_cons_succ] at hp
        have := hall i p hp
        rw [List.length_append, List.length_singleton] at this
        rw [show found.length + (i + 1) = found.length + 1 + i by omega]
        simpa using this

/-- C29: a successful `muller_deflate` returns `n` roots, and the `i`-th is what `muller`
returns for the function divided by `z - root` for the preceding roots; the retry loop is never
needed. -/
theorem C29_deflate (o : Ops C R) (hn : NanLaws o) (f : C → C) (n maxiter : Nat) (eps : R)
    (starts : Nat → C × C × C) (res : List (C × Nat))
    (h : mullerDeflate o f n maxiter eps starts = .ok res) :
    res.length = n ∧ ∀ (i : Nat) p, res[i]? = some p →
      muller o (fun z => ((res.take i).map Prod.fst).foldl (fun y r => o.div y (o.sub z r)) (f z))
        maxiter eps (starts i) = .ok p := by
  obtain ⟨new, h1, h2, h3⟩ := deflateLoop_spec o hn f maxiter eps starts n 0 [] res rfl h
  simp only [List.nil_append] at h1 h3
  subst h1
  refine ⟨h2, fun i p hp => ?_⟩
  have := h3 i p hp
  rw [List.length_nil, Nat.zero_add] at this
  exact this

/-- C29: if some root is not found, `muller_deflate` raises `RuntimeError`. -/
theorem C29_deflate_error (o : Ops C R) (hn : NanLaws o) (f : C → C) (n maxiter : Nat) (eps : R)
    (starts : Nat → C × C × C) (e : Err) (h : mullerDeflate o f n maxiter eps starts = .error e) :
    e = .runtime := by
  have : ∀ n calls found, deflateLoop o f maxiter eps starts n calls found = .error e → e = .runtime := by
    intro n
    induction n with
    | zero => intro calls found h; simp [deflateLoop] at h
    | succ n ih =>
      intro calls found h
      simp only [deflateLoop] at h
      split at h
      · rename_i e' he; cases h; exact C29_runtime o _ maxiter eps _ _ he
      · rename_i cur hcur
        rw [retry_none o f maxiter eps starts found 50 (calls + 1) cur
          (C29_no_nan o hn _ maxiter eps _ cur.1 cur.2 hcur)
          ((C29_returns o _ maxiter eps _ cur.1 cur.2).1 hcur).2.1] at h
        exact ih _ _ h
  exact this n 0 [] h

/-! ### the step in exact arithmetic -/

/-- exact arithmetic in a field; square root and comparisons are arbitrary -/
def exactOps {C R : Type} [Field C] (sqrt : C → C) (abs : C → R) (lt : R → R → Bool) (tiny : R) :
    Ops C R where
  add := (· + ·)
  sub := (· - ·)
  mul := (· * ·)
  div := (· / ·)
  one := 1
  two := 2
  four := 4
  neg2 := -2
  sqrt := sqrt
  abs := abs
  lt := lt
  tiny := tiny
  isNan := fun _ => false

/-- C29: in exact arithmetic each step lands on a zero of the parabola through the last three
points, as long as the first two of them are distinct, the denominator is not zero, and the
square root squares to its argument. -/
theorem C29_parabola {C R : Type} [Field C] (sqrt : C → C) (abs : C → R) (lt : R → R → Bool)
    (tiny : R) (f : C → C) (s : Pts C) (a b c : C)
    (h1 : s.w1 = a * s.z1 ^ 2 + b * s.z1 + c) (h2 : s.w2 = a * s.z2 ^ 2 + b * s.z2 + c)
    (h3 : s.w3 = a * s.z3 ^ 2 + b * s.z3 + c)
    (hz : s.z2 ≠ s.z1) (hz3 : s.z3 ≠ s.z2)
    (hd : denom (exactOps sqrt abs lt tiny) s ≠ 0)
    (hs : sqrt (detval (exactOps sqrt abs lt tiny) s) * sqrt (detval (exactOps sqrt abs lt tiny) s)
      = detval (exactOps sqrt abs lt tiny) s) :
    let z := (step (exactOps sqrt abs lt tiny) f s).z3
    a * z ^ 2 + b * z + c = 0 := by
  obtain ⟨z1, z2, z3, w1, w2, w3⟩ := s
  simp only at h1 h2 h3 hz hz3
  simp only [step, newz, lam1]
  have hq : z2 - z1 ≠ 0 := sub_ne_zero.2 hz
  have hq3 : z3 - z2 ≠ 0 := sub_ne_zero.2 hz3
  set s : Pts C := ⟨z1, z2, z3, w1, w2, w3⟩ with hsdef
  set o := exactOps sqrt abs lt tiny with ho
  have hD : denom o s * denom o s - 2 * gval o s * denom o s
      + 4 * w3 * (1 + lam0 o s) * lam0 o s * (w1 * lam0 o s - w2 * (1 + lam0 o s) + w3) = 0 := by
    have hdet : detval o s = gval o s * gval o s
      - 4 * w3 * (1 + lam0 o s) * lam0 o s * (w1 * lam0 o s - w2 * (1 + lam0 o s) + w3) := rfl
    have hsq := hs
    have hcase : denom o s = gval o s + sqrt (detval o s) ∨ denom o s = gval o s - sqrt (detval o s) := by
      simp only [denom]
      split
      · exact Or.inl rfl
      · exact Or.inr rfl
    rcases hcase with hc | hc <;> rw [hc] <;> linear_combination hsq + hdet
  have hg : gval o s = w1 * lam0 o s * lam0 o s - w2 * (1 + lam0 o s) * (1 + lam0 o s)
    + w3 * (1 + 2 * lam0 o s) := rfl
  have hl : lam0 o s * (z2 - z1) = z3 - z2 := by
    show (z3 - z2) / (z2 - z1) * (z2 - z1) = z3 - z2
    exact div_mul_cancel₀ _ hq
  have hden : denom o s ≠ 0 := hd
  generalize hDv : denom o s = D at hD hden
  generalize hgv : gval o s = g at hD hg
  generalize hlv : lam0 o s = l at hD hg hl
  have hl0 : l ≠ 0 := by
    intro h0; rw [h0, zero_mul] at hl; exact hq3 hl.symm
  show a * (z3 + (-2 * w3 * (1 + l)) / D * (z3 - z2)) ^ 2
    + b * (z3 + (-2 * w3 * (1 + l)) / D * (z3 - z2)) + c = 0
  have e1 : l * (w1 * l - w2 * (1 + l) + w3) = a * (z3 - z2) ^ 2 * (1 + l) := by
    have : z1 = z2 - (z2 - z1) := by ring
    subst h1 h2 h3
    have hz3' : z3 = z2 + l * (z2 - z1) := by rw [hl]; ring
    subst hz3'
    ring
  have e2 : g = (1 + l) * (2 * a * z3 + b) * (z3 - z2) := by
    subst h1 h2 h3
    have hz3' : z3 = z2 + l * (z2 - z1) := by rw [hl]; ring
    rw [hg]
    subst hz3'
    ring
  by_cases h1l : 1 + l = 0
  · -- z3 = z1
    have hg0 : g = 0 := by rw [e2, h1l]; ring
    have hD0 : D * D = 0 := by
      have := hD
      rw [hg0, h1l] at this
      linear_combination this
    exact absurd (mul_self_eq_zero.1 hD0) hden
  · have hkey : w3 * (D * D - 2 * g * D + 4 * w3 * (1 + l) * (a * (z3 - z2) ^ 2 * (1 + l))) = 0 := by
      have : D * D - 2 * g * D + 4 * w3 * (1 + l) * (a * (z3 - z2) ^ 2 * (1 + l)) = 0 := by
        rw [← e1]; linear_combination hD
      rw [this, mul_zero]
    rw [e2] at hkey
    have hfin : (a * (z3 + (-2 * w3 * (1 + l)) / D * (z3 - z2)) ^ 2
      + b * (z3 + (-2 * w3 * (1 + l)) / D * (z3 - z2)) + c) * (D * D) = 0 := by
      have hx : (-2 * w3 * (1 + l)) / D * D = -2 * w3 * (1 + l) := div_mul_cancel₀ _ hden
      generalize (-2 * w3 * (1 + l)) / D = q at hx
      have : (a * (z3 + q * (z3 - z2)) ^ 2 + b * (z3 + q * (z3 - z2)) + c) * (D * D)
        = (a * z3 ^ 2 + b * z3 + c) * D * D + (2 * a * z3 + b) * (z3 - z2) * (q * D) * D
          + a * (z3 - z2) ^ 2 * (q * D) ^ 2 := by ring
      rw [this, hx, ← h3]
      linear_combination hkey
    rcases mul_eq_zero.1 hfin with h | h
    · exact h
    · exact absurd (mul_self_eq_zero.1 h) hden

/-- C29: of the zeros of the parabola the step lands on the one closest to the current point
(the denominator of larger magnitude is the one used). -/
theorem C29_closest {C R : Type} [Field C] [Field R] [LinearOrder R] [IsStrictOrderedRing R]
    (sqrt : C → C) (abs : AbsoluteValue C R) (tiny : R) (f : C → C) (s : Pts C) (a b c : C)
    (h1 : s.w1 = a * s.z1 ^ 2 + b * s.z1 + c) (h2 : s.w2 = a * s.z2 ^ 2 + b * s.z2 + c)
    (h3 : s.w3 = a * s.z3 ^ 2 + b * s.z3 + c)
    (hz : s.z2 ≠ s.z1) (hz3 : s.z3 ≠ s.z2)
    (hd : denom (exactOps sqrt abs (fun x y => decide (x < y)) tiny) s ≠ 0)
    (hs : sqrt (detval (exactOps sqrt abs (fun x y => decide (x < y)) tiny) s)
        * sqrt (detval (exactOps sqrt abs (fun x y => decide (x < y)) tiny) s)
      = detval (exactOps sqrt abs (fun x y => decide (x < y)) tiny) s)
    (z' : C) (hz' : a * z' ^ 2 + b * z' + c = 0) :
    abs ((step (exactOps sqrt abs (fun x y => decide (x < y)) tiny) f s).z3 - s.z3)
      ≤ abs (z' - s.z3) := by
  obtain ⟨z1, z2, z3, w1, w2, w3⟩ := s
  simp only at h1 h2 h3 hz hz3
  simp only [step, newz, lam1]
  have hq : z2 - z1 ≠ 0 := sub_ne_zero.2 hz
  have hq3 : z3 - z2 ≠ 0 := sub_ne_zero.2 hz3
  set s : Pts C := ⟨z1, z2, z3, w1, w2, w3⟩ with hsdef
  set o := exactOps sqrt abs (fun x y => decide (x < y)) tiny with ho
  have hdet : detval o s = gval o s * gval o s
      - 4 * w3 * (1 + lam0 o s) * lam0 o s * (w1 * lam0 o s - w2 * (1 + lam0 o s) + w3) := rfl
  have hmax : abs (gval o s + sqrt (detval o s)) ≤ abs (denom o s) ∧
      abs (gval o s - sqrt (detval o s)) ≤ abs (denom o s) := by
    have hlt : o.lt (o.abs (gval o s - sqrt (detval o s))) (o.abs (gval o s + sqrt (detval o s)))
      = decide (abs (gval o s - sqrt (detval o s)) < abs (gval o s + sqrt (detval o s))) := rfl
    by_cases hc : abs (gval o s - sqrt (detval o s)) < abs (gval o s + sqrt (detval o s))
    · have : denom o s = gval o s + sqrt (detval o s) := by
        show (if o.lt (o.abs (gval o s - sqrt (detval o s))) (o.abs (gval o s + sqrt (detval o s))) = true
          then gval o s + sqrt (detval o s) else gval o s - sqrt (detval o s)) = _
        rw [hlt, if_pos (decide_eq_true hc)]
      rw [this]; exact ⟨le_refl _, le_of_lt hc⟩
    · have : denom o s = gval o s - sqrt (detval o s) := by
        show (if o.lt (o.abs (gval o s - sqrt (detval o s))) (o.abs (gval o s + sqrt (detval o s))) = true
          then gval o s + sqrt (detval o s) else gval o s - sqrt (detval o s)) = _
        rw [hlt, if_neg (by simpa using hc)]
      rw [this]; exact ⟨not_lt.1 hc, le_refl _⟩
  have hg : gval o s = w1 * lam0 o s * lam0 o s - w2 * (1 + lam0 o s) * (1 + lam0 o s)
    + w3 * (1 + 2 * lam0 o s) := rfl
  have hl : lam0 o s * (z2 - z1) = z3 - z2 := by
    show (z3 - z2) / (z2 - z1) * (z2 - z1) = z3 - z2
    exact div_mul_cancel₀ _ hq
  have hden : denom o s ≠ 0 := hd
  generalize hrv : sqrt (detval o s) = r at hs hmax
  rw [hdet] at hs
  generalize hDv : denom o s = D at hmax hden
  generalize hgv : gval o s = g at hs hmax hg
  generalize hlv : lam0 o s = l at hs hg hl
  show abs (z3 + (-2 * w3 * (1 + l)) / D * (z3 - z2) - z3) ≤ abs (z' - z3)
  have e1 : l * (w1 * l - w2 * (1 + l) + w3) = a * (z3 - z2) ^ 2 * (1 + l) := by
    subst h1 h2 h3
    have hz3' : z3 = z2 + l * (z2 - z1) := by rw [hl]; ring
    subst hz3'
    ring
  have e2 : g = (1 + l) * (2 * a * z3 + b) * (z3 - z2) := by
    subst h1 h2 h3
    have hz3' : z3 = z2 + l * (z2 - z1) := by rw [hl]; ring
    rw [hg]
    subst hz3'
    ring
  have hstep : z3 + (-2 * w3 * (1 + l)) / D * (z3 - z2) - z3
      = (-2 * w3 * (1 + l)) * (z3 - z2) / D := by ring
  rw [hstep, map_div₀, div_le_iff₀ (abs.pos hden)]
  -- the zero `z'` belongs to one of the two denominators
  by_cases hw : z' - z3 = 0
  · have : w3 = 0 := by
      rw [h3, ← sub_eq_zero.1 hw]; exact hz'
    rw [this]; simp [hw]
  · have hquad : ((-2 * w3 * (1 + l)) * (z3 - z2) - (g + r) * (z' - z3))
        * ((-2 * w3 * (1 + l)) * (z3 - z2) - (g - r) * (z' - z3)) = 0 := by
      have hexp : w3 + (2 * a * z3 + b) * (z' - z3) + a * (z' - z3) ^ 2 = 0 := by
        rw [h3]; linear_combination hz'
      have hr : r * r = g * g - 4 * w3 * (1 + l) * (a * (z3 - z2) ^ 2 * (1 + l)) := by
        rw [hs, ← e1]; ring
      have : ((-2 * w3 * (1 + l)) * (z3 - z2) - (g + r) * (z' - z3))
        * ((-2 * w3 * (1 + l)) * (z3 - z2) - (g - r) * (z' - z3))
        = 4 * w3 ^ 2 * (1 + l) ^ 2 * (z3 - z2) ^ 2
          + 4 * w3 * (1 + l) * (z3 - z2) * g * (z' - z3) + (g * g - r * r) * (z' - z3) ^ 2 := by
        ring
      rw [this, hr, e2]
      linear_combination 4 * w3 * (1 + l) ^ 2 * (z3 - z2) ^ 2 * hexp
    rcases mul_eq_zero.1 hquad with h | h
    · rw [sub_eq_zero.1 h, map_mul, mul_comm]
      exact mul_le_mul_of_nonneg_left hmax.1 (abs.nonneg _)
    · rw [sub_eq_zero.1 h, map_mul, mul_comm]
      exact mul_le_mul_of_nonneg_left hmax.2 (abs.nonneg _)

/-! ### the sequence of points -/

/-- `seq` is the sequence of points Muller's method visits from the start values `z`: each point
is computed by the rule `newz` from the three before it and the values of `f` at them. -/
structure Visits (o : Ops C R) (f : C → C) (z : C × C × C) (seq : Nat → C) : Prop where
  start : seq 0 = z.1 ∧ seq 1 = z.2.1 ∧ seq 2 = z.2.2
  next : ∀ n, seq (n + 3) = newz o ⟨seq n, seq (n + 1), seq (n + 2),
    f (seq n), f (seq (n + 1)), f (seq (n + 2))⟩

/-- after `n` rounds the variables are three successive points with the values of `f` there -/
theorem iterate_visits (o : Ops C R) (f : C → C) (z : C × C × C) (seq : Nat → C)
    (h : Visits o f z seq) (n : Nat) :
    iterate o f (startPts f z) n = ⟨seq n, seq (n + 1), seq (n + 2),
      f (seq n), f (seq (n + 1)), f (seq (n + 2))⟩ := by
  induction n with
  | zero =>
    obtain ⟨h0, h1, h2⟩ := h.start
    simp only [iterate, startPts, h0, h1, h2, Nat.zero_add]
  | succ n ih =>
    simp only [iterate, step, ih]
    rw [← h.next n]

/-- C29: there is exactly one sequence of points for given start values (so that the theorems
below are about something). -/
theorem C29_visits (o : Ops C R) (f : C → C) (z : C × C × C) : ∃! seq, Visits o f z seq := by
  have hz1 : ∀ n, (iterate o f (startPts f z) (n + 1)).z1 = (iterate o f (startPts f z) n).z2 :=
    fun n => rfl
  have hz2 : ∀ n, (iterate o f (startPts f z) (n + 1)).z2 = (iterate o f (startPts f z) n).z3 :=
    fun n => rfl
  have hw : ∀ n, (iterate o f (startPts f z) n).w1 = f (iterate o f (startPts f z) n).z1 ∧
      (iterate o f (startPts f z) n).w2 = f (iterate o f (startPts f z) n).z2 ∧
      (iterate o f (startPts f z) n).w3 = f (iterate o f (startPts f z) n).z3 := by
    intro n
    induction n with
    | zero => exact ⟨rfl, rfl, rfl⟩
    | succ n ih => exact ⟨ih.2.1, ih.2.2, rfl⟩
  refine ⟨fun n => (iterate o f (startPts f z) n).z1, ⟨⟨rfl, rfl, rfl⟩, fun n => ?_⟩, ?_⟩
  · show (iterate o f (startPts f z) (n + 1)).z3 = _
    have e1 : (iterate o f (startPts f z) (n + 1)).z1 = (iterate o f (startPts f z) n).z2 := rfl
    have e2 : (iterate o f (startPts f z) (n + 2)).z1 = (iterate o f (startPts f z) n).z3 := rfl
    simp only [e1, e2]
    rw [← (hw n).1, ← (hw n).2.1, ← (hw n).2.2]
    rfl
  · intro seq h
    funext n
    rw [iterate_visits o f z seq h n]

/-- C29: `muller` returns `(z, n)` exactly when `n` is the first number in `1 … maxiter-1` such that
the points `n+1` and `n+2` of the sequence are close, and then `z` is the point `n+2`. -/
theorem C29_sequence (o : Ops C R) (f : C → C) (maxiter : Nat) (tol : R) (z : C × C × C)
    (seq : Nat → C) (h : Visits o f z seq) (zr : C) (n : Nat) :
    muller o f maxiter tol z = .ok (zr, n) ↔
      0 < n ∧ n < maxiter ∧ zr = seq (n + 2) ∧ CloseMove o tol (seq (n + 1)) (seq (n + 2)) ∧
      ∀ k, 0 < k → k < n → ¬ CloseMove o tol (seq (k + 1)) (seq (k + 2)) := by
  rw [C29_returns]
  simp only [Converged, iterate_visits o f z seq h]

/-- C29: in exact arithmetic every point of the sequence from the fourth on is a zero of the
parabola that interpolates `f` at the three points before it, under the conditions of
`C29_parabola` at these points. -/
theorem C29_interpolates {C R : Type} [Field C] (sqrt : C → C) (abs : C → R) (lt : R → R → Bool)
    (tiny : R) (f : C → C) (z : C × C × C) (seq : Nat → C)
    (h : Visits (exactOps sqrt abs lt tiny) f z seq) (n : Nat) (a b c : C)
    (hpar : ∀ i, i < 3 → f (seq (n + i)) = a * seq (n + i) ^ 2 + b * seq (n + i) + c)
    (hz : seq (n + 1) ≠ seq n) (hz3 : seq (n + 2) ≠ seq (n + 1))
    (hd : denom (exactOps sqrt abs lt tiny) ⟨seq n, seq (n + 1), seq (n + 2),
      f (seq n), f (seq (n + 1)), f (seq (n + 2))⟩ ≠ 0)
    (hs : sqrt (detval (exactOps sqrt abs lt tiny) ⟨seq n, seq (n + 1), seq (n + 2),
          f (seq n), f (seq (n + 1)), f (seq (n + 2))⟩)
        * sqrt (detval (exactOps sqrt abs lt tiny) ⟨seq n, seq (n + 1), seq (n + 2),
          f (seq n), f (seq (n + 1)), f (seq (n + 2))⟩)
      = detval (exactOps sqrt abs lt tiny) ⟨seq n, seq (n + 1), seq (n + 2),
          f (seq n), f (seq (n + 1)), f (seq (n + 2))⟩) :
    a * seq (n + 3) ^ 2 + b * seq (n + 3) + c = 0 := by
  rw [h.next n]
  exact C29_parabola sqrt abs lt tiny f _ a b c (hpar 0 (by omega)) (hpar 1 (by omega))
    (hpar 2 (by omega)) hz hz3 hd hs

/-- arithmetic for the examples: the square root is only right at 64 -/
def exOps : Ops ℚ ℚ :=
  exactOps (fun x => if x = 64 then 8 else x) (fun x => |x|) (fun a b => decide (a < b)) 0

/-- a step meeting the hypotheses: `z^2 - 1` at 0, 2, 4 (the discriminant is 64) -/
example : denom exOps ⟨0, 2, 4, -1, 3, 15⟩ ≠ 0 ∧ detval exOps ⟨0, 2, 4, -1, 3, 15⟩ = 64 ∧
    newz exOps ⟨0, 2, 4, -1, 3, 15⟩ = 1 := by
  norm_num [exOps, exactOps, denom, gval, detval, lam0, newz, lam1, abs_of_pos]

/-- the hypotheses of `C29_closest` are met by the same step: it lands on 1, at distance 3 of the
current point 4, whereas the other zero -1 is at distance 5 -/
example : abs ((step exOps (fun z => z ^ 2 - 1) ⟨0, 2, 4, -1, 3, 15⟩).z3 - 4) ≤ abs ((-1 : ℚ) - 4) := by
  refine C29_closest (fun x : ℚ => if x = 64 then 8 else x) AbsoluteValue.abs 0 (fun z => z ^ 2 - 1)
    ⟨0, 2, 4, -1, 3, 15⟩ 1 0 (-1) ?_ ?_ ?_ ?_ ?_ ?_ ?_ (-1) ?_
  all_goals norm_num [exactOps, denom, gval, detval, lam0, abs_of_pos]

/-- the conditions of `C29_interpolates` are met at the start of the search for the zeros of
`z^2 - 1` from 0, 2, 4: the fourth point is 1 -/
example (seq : Nat → ℚ) (h : Visits exOps (fun z => z ^ 2 - 1) (0, 2, 4) seq) : seq 3 = 1 := by
  obtain ⟨h0, h1, h2⟩ := h.start
  have := h.next 0
  simp only [Nat.zero_add, h0, h1, h2] at this
  rw [this]
  norm_num [exOps, exactOps, denom, gval, detval, lam0, newz, lam1, abs_of_pos]

/-- Rationals with NaN (`none`): the laws of `NanLaws` hold, and `muller` finds a root. -/
def ratOps : Ops (Option ℚ) (Option ℚ) where
  add := fun a b => do return (← a) + (← b)
  sub := fun a b => do return (← a) - (← b)
  mul := fun a b => do return (← a) * (← b)
  div := fun a b => do let y ← b; if y = 0 then none else return (← a) / y
  one := some 1
  two := some 2
  four := some 4
  neg2 := some (-2)
  sqrt := fun a => match a with | none => none | some x => if x = 4 then some 2 else some x
  abs := fun a => do return |← a|
  lt := fun a b => match a, b with | some x, some y => decide (x < y) | _, _ => false
  tiny := some (1 / 1000)
  isNan := fun a => a.isNone

theorem ratOps_nan : NanLaws ratOps := by
  refine ⟨?_, ?_, ?_⟩
  · intro a b h; cases a <;> simp_all [ratOps]
  · intro a b h
    cases a with
    | none =>
      cases b with
      | none => rfl
      | some y => by_cases hy : y = 0 <;> simp [ratOps, hy]
    | some x => simp [ratOps] at h
  · intro a r h; cases a <;> simp_all [ratOps]

/-- a run on `f z = z^2 - 1` from three exact-looking points -/
example : muller ratOps (fun z => do let x ← z; return x * x - 1) 10 (some (1 / 10))
    (some 0, some 2, some (-1)) = .ok (some (-1), 1) := by
  norm_num [muller, loop, ratOps, step, newz, lam1, lam0, denom, gval, detval, moveMag]

end Verif.Muller
