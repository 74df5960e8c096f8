import Verif.Compiler.Sound

/-!
# Calls that fail or are interrupted (C08)

`ev` of `Compiler/Model.lean` forgets the caches when an exception is raised.  The program does not: what a call has stored in the
caches of the geometry collection and of the bound expression stays there when the call raises.  Here evaluation returns the caches in
all cases, and a call can also be interrupted (`KeyboardInterrupt`) after any number of steps.  Without an interrupt it does the same as
`ev` (`evS_none`, `evS_ok`).
-/

namespace Verif.Compiler

variable {V A B : Type}

/-- the exception that ends an evaluation: one raised by it, or an interrupt -/
inductive Stop | err (x : XErr) | interrupted
  deriving DecidableEq, Repr

/-- the caches, and the number of steps until the interrupt, if there is one -/
abbrev World (V : Type) := Cache V × Option Nat

/-- sequencing: an exception ends the evaluation, what has been stored stays (exceptions propagate through `execution.py:111-389` and
`672-698`, there are no handlers and no rollback) -/
def andThen (r : Except Stop A × World V) (f : A → World V → Except Stop B × World V) : Except Stop B × World V :=
  match r with
  | (.ok a, w) => f a w
  | (.error x, w) => (.error x, w)

/-- a point where an interrupt may happen -/
def ticking (w : World V) (f : World V → Except Stop B × World V) : Except Stop B × World V :=
  match w.2 with
  | some 0 => (.error .interrupted, w)
  | some (n + 1) => f (w.1, some n)
  | none => f w

/-- a result or an exception -/
def orRaise (o : Option A) (x : XErr) (w : World V) : Except Stop A × World V :=
  match o with
  | some a => (.ok a, w)
  | none => (.error (.err x), w)

mutual
/-- `EvaluationMapperBase` (`execution.py:111-389`) as in `ev`, with the caches after an exception.  Interrupts may happen before each
node and before each store to a cache. -/
def evS (I : Interp V) (ctx : Ctx V) : Expr → World V → Except Stop V × World V
  | .num n, w => ticking w fun w => (.ok (I.num n), w)
  | .var x, w => ticking w (orRaise (ctx x) (.unbound x))
  | .nir x, w => ticking w (orRaise (ctx x) (.unbound x))
  | .sub x i, w => ticking w fun w => andThen (orRaise (ctx x) (.unbound x) w) fun v => orRaise (I.sub v i) .raised
  | .op f l, w => ticking w fun w => andThen (evSL I ctx l w) fun vs => orRaise (I.op f vs) .raised
  | .ite c a b, w => ticking w fun w => andThen (evS I ctx c w) fun v w =>
      if I.truthy v then evS I ctx a w else evS I ctx b w
  | .sum l, w => ticking w fun w => andThen (evSL I ctx l w) fun vs w => (.ok (vs.foldl I.add I.zero), w)
  | .arr l, w => ticking w fun w => andThen (evSL I ctx l w) fun vs w => (.ok (I.arr vs), w)
  | .cse p sc child, w => ticking w fun w =>
      if sc = .evaluation then evS I ctx child w
      else match alookup (sc, p, child) w.1 with
        | some v => (.ok v, w)
        | none => andThen (evS I ctx child w) fun v w =>
            ticking w fun w => (.ok v, (((sc, p, child), v) :: w.1, w.2))
  | .intg .., w => ticking w fun w => (.error (.err .noIntG), w)
/-- the operands of a node, from left to right -/
def evSL (I : Interp V) (ctx : Ctx V) : List Expr → World V → Except Stop (List V) × World V
  | [], w => (.ok [], w)
  | e :: l, w => andThen (evS I ctx e w) fun v w => andThen (evSL I ctx l w) fun vs w => (.ok (v :: vs), w)
end

/-- an exception or result that comes with no change to the caches -/
def ofExcept (r : Except XErr A) (w : World V) : Except Stop A × World V :=
  match r with
  | .ok a => (.ok a, w)
  | .error x => (.error (.err x), w)

/-- `exec_assign` (`execution.py:366-368`) and `exec_compute_potential_insn` (`execution.py:399-402`) -/
def execStmtS (I : Interp V) (ctx : Ctx V) : Stmt → World V → Except Stop (List (String × V)) × World V
  | .assign n e _, w => andThen (evS I ctx e w) fun v w => (.ok [(n, v)], w)
  | .pot outs tks kn kv sks ds src _, w => andThen (evSL I ctx ds w) fun dv w => andThen (evSL I ctx kv w) fun kvv w =>
      ticking w (ofExcept (execOuts I src (sks.zip dv) (kn.zip kvv) tks outs))

/-- the loop over the schedule (`execution.py:679-694`) -/
def runSchedS (I : Interp V) : List (Stmt × List String) → Ctx V → World V → Except Stop (Ctx V) × World V
  | [], ctx, w => (.ok ctx, w)
  | (s, disc) :: l, ctx, w => andThen (ofExcept (delAll ctx disc) w) fun ctx1 w =>
      andThen (execStmtS I ctx1 s w) fun as w => runSchedS I l (setAll ctx1 as) w

/-- `execute` (`execution.py:672-698`) -/
def executeS (I : Interp V) (code : Code) (ctx : Ctx V) (w : World V) : Except Stop V × World V :=
  match code.inputs.find? (fun x => (ctx x).isNone) with
  | some x => (.error (.err (.missingInput x)), w)
  | none => andThen (runSchedS I code.schedule ctx w) fun ctx' w => evS I ctx' code.result w

/-- the exception that ends a call -/
inductive CallErr | comp (x : CErr) | stop (x : Stop)
  deriving DecidableEq, Repr

/-- one call `bind(places, e)(**kwargs)` (`execution.py:856-896`), interrupted after the given number of steps.  Whatever happens, the
caches keep what was stored. -/
def callS (c : Cfg) (I : Interp V) (e : Expr) (kwargs : Ctx V) (stop : Option Nat) (s : Caches V) :
    Except CallErr V × Caches V :=
  match compile c e with
  | .error x => (.error (.comp x), s)
  | .ok code =>
    let r := executeS I code kwargs (s.places ++ s.bound e, stop)
    (r.1.mapError .stop, ⟨r.2.1.filter (fun p => p.1.1 = .discretization),
      fun e' => if e' = e then r.2.1.filter (fun p => p.1.1 = .expression) else s.bound e'⟩)

/-- one call: the expression, its inputs, and the time of the interrupt -/
structure Call (V : Type) where
  expr : Expr
  kwargs : Ctx V
  stop : Option Nat

/-- a sequence of calls of bound expressions, threading the caches; the interpreter goes on after exceptions and interrupts (a caller
that catches them, an interactive session) -/
def callsS (c : Cfg) (I : Interp V) : List (Call V) → Caches V → List (Except CallErr V)
  | [], _ => []
  | k :: l, s => (callS c I k.expr k.kwargs k.stop s).1 :: callsS c I l (callS c I k.expr k.kwargs k.stop s).2

/-! ## Inversion -/

theorem andThen_cases {r : Except Stop A × World V} {f : A → World V → Except Stop B × World V} {y : Except Stop B × World V}
    (h : andThen r f = y) : (∃ x w, r = (.error x, w) ∧ y = (.error x, w)) ∨ ∃ a w, r = (.ok a, w) ∧ f a w = y := by
  match r, h with
  | (.ok a, w), h => exact Or.inr ⟨a, w, rfl, h⟩
  | (.error x, w), h => exact Or.inl ⟨x, w, rfl, h.symm⟩

theorem ticking_cases {w : World V} {f : World V → Except Stop B × World V} {y : Except Stop B × World V}
    (h : ticking w f = y) : (y = (.error .interrupted, w)) ∨ ∃ n, f (w.1, n) = y := by
  match w, h with
  | (cc, some 0), h => exact Or.inl h.symm
  | (cc, some (n + 1)), h => exact Or.inr ⟨some n, h⟩
  | (cc, none), h => exact Or.inr ⟨none, h⟩

theorem andThen_ok {r : Except Stop A × World V} {f : A → World V → Except Stop B × World V} {b : B} {w' : World V}
    (h : andThen r f = (.ok b, w')) : ∃ a w, r = (.ok a, w) ∧ f a w = (.ok b, w') := by
  rcases andThen_cases h with ⟨x, w, -, h⟩ | h
  · cases h
  · exact h

theorem ticking_ok {w : World V} {f : World V → Except Stop B × World V} {b : B} {w' : World V}
    (h : ticking w f = (.ok b, w')) : ∃ n, f (w.1, n) = (.ok b, w') := by
  rcases ticking_cases h with h | h
  · cases h
  · exact h

theorem orRaise_ok {o : Option A} {x : XErr} {w w' : World V} {a : A} (h : orRaise o x w = (.ok a, w')) :
    o = some a ∧ w' = w := by
  cases o with
  | none => simp [orRaise] at h
  | some b =>
    simp only [orRaise, Prod.mk.injEq, Except.ok.injEq] at h
    exact ⟨by rw [h.1], h.2.symm⟩

theorem orRaise_world (o : Option A) (x : XErr) (w : World V) : (orRaise o x w).2 = w := by
  cases o <;> rfl

theorem ofExcept_ok {r : Except XErr A} {w w' : World V} {a : A} (h : ofExcept r w = (.ok a, w')) : r = .ok a ∧ w' = w := by
  cases r with
  | error x => simp [ofExcept] at h
  | ok b =>
    simp only [ofExcept, Prod.mk.injEq, Except.ok.injEq] at h
    exact ⟨by rw [h.1], h.2.symm⟩

theorem ofExcept_world (r : Except XErr A) (w : World V) : (ofExcept r w).2 = w := by
  cases r <;> rfl

/-! ## Evaluations that succeed are those of `ev` -/

mutual
theorem evS_ok {I : Interp V} {ctx : Ctx V} : ∀ e (w : World V) v (w' : World V),
    evS I ctx e w = (.ok v, w') → ev I ctx e w.1 = .ok (v, w'.1)
  | .num n, w, v, w', h => by
    simp only [evS] at h
    obtain ⟨m, h⟩ := ticking_ok h
    simp only [Prod.mk.injEq, Except.ok.injEq] at h
    obtain ⟨rfl, rfl⟩ := h
    rfl
  | .var x, w, v, w', h => by
    simp only [evS] at h
    obtain ⟨m, h⟩ := ticking_ok h
    obtain ⟨k, rfl⟩ := orRaise_ok h
    simp only [ev, k]
  | .nir x, w, v, w', h => by
    simp only [evS] at h
    obtain ⟨m, h⟩ := ticking_ok h
    obtain ⟨k, rfl⟩ := orRaise_ok h
    simp only [ev, k]
  | .sub x i, w, v, w', h => by
    simp only [evS] at h
    obtain ⟨m, h⟩ := ticking_ok h
    obtain ⟨u, w1, h1, h⟩ := andThen_ok h
    obtain ⟨k1, rfl⟩ := orRaise_ok h1
    obtain ⟨k2, rfl⟩ := orRaise_ok h
    simp only [ev, k1, k2]
  | .op f l, w, v, w', h => by
    simp only [evS] at h
    obtain ⟨m, h⟩ := ticking_ok h
    obtain ⟨u, w1, h1, h⟩ := andThen_ok h
    obtain ⟨k, rfl⟩ := orRaise_ok h
    have := evSL_ok l _ _ _ h1
    simp only at this
    simp only [ev, this, k]
  | .ite c a b, w, v, w', h => by
    simp only [evS] at h
    obtain ⟨m, h⟩ := ticking_ok h
    obtain ⟨u, w1, h1, h⟩ := andThen_ok h
    have := evS_ok c _ _ _ h1
    simp only at this
    simp only [ev, this]
    by_cases ht : I.truthy u = true
    · simp only [if_pos ht] at h ⊢
      exact evS_ok a _ _ _ h
    · simp only [if_neg ht] at h ⊢
      exact evS_ok b _ _ _ h
  | .sum l, w, v, w', h => by
    simp only [evS] at h
    obtain ⟨m, h⟩ := ticking_ok h
    obtain ⟨u, w1, h1, h⟩ := andThen_ok h
    have := evSL_ok l _ _ _ h1
    simp only [Prod.mk.injEq, Except.ok.injEq] at h
    obtain ⟨rfl, rfl⟩ := h
    simp only at this
    simp only [ev, this]
  | .arr l, w, v, w', h => by
    simp only [evS] at h
    obtain ⟨m, h⟩ := ticking_ok h
    obtain ⟨u, w1, h1, h⟩ := andThen_ok h
    have := evSL_ok l _ _ _ h1
    simp only [Prod.mk.injEq, Except.ok.injEq] at h
    obtain ⟨rfl, rfl⟩ := h
    simp only at this
    simp only [ev, this]
  | .cse p sc child, w, v, w', h => by
    simp only [evS] at h
    obtain ⟨m, h⟩ := ticking_ok h
    by_cases hs : sc = .evaluation
    · simp only [if_pos hs] at h
      simp only [ev, if_pos hs]
      exact evS_ok child (w.1, m) v w' h
    · simp only [if_neg hs] at h
      simp only [ev, if_neg hs]
      cases ha : alookup (sc, p, child) w.1 with
      | some u =>
        simp only [ha, Prod.mk.injEq, Except.ok.injEq] at h
        obtain ⟨rfl, rfl⟩ := h
        rfl
      | none =>
        simp only [ha] at h
        obtain ⟨u, w1, h1, h⟩ := andThen_ok h
        obtain ⟨m, h⟩ := ticking_ok h
        have := evS_ok child _ _ _ h1
        simp only [Prod.mk.injEq, Except.ok.injEq] at h
        obtain ⟨rfl, rfl⟩ := h
        simp only at this
        simp only [this]
  | .intg .., w, v, w', h => by
    simp only [evS] at h
    obtain ⟨m, h⟩ := ticking_ok h
    cases h
theorem evSL_ok {I : Interp V} {ctx : Ctx V} : ∀ l (w : World V) v (w' : World V),
    evSL I ctx l w = (.ok v, w') → evL I ctx l w.1 = .ok (v, w'.1)
  | [], w, v, w', h => by
    simp only [evSL, Prod.mk.injEq, Except.ok.injEq] at h
    obtain ⟨rfl, rfl⟩ := h
    rfl
  | e :: l, w, v, w', h => by
    simp only [evSL] at h
    obtain ⟨u, w1, h1, h⟩ := andThen_ok h
    obtain ⟨us, w2, h2, h⟩ := andThen_ok h
    have k1 := evS_ok e _ _ _ h1
    have k2 := evSL_ok l _ _ _ h2
    simp only [Prod.mk.injEq, Except.ok.injEq] at h
    obtain ⟨rfl, rfl⟩ := h
    simp only [evL, k1, k2]
end

/-! ## Without an interrupt, the exceptions are those of `ev` -/

/-- the result without the caches -/
def ofEv (r : Except XErr (A × B)) : Except Stop A :=
  match r with
  | .ok (v, _) => .ok v
  | .error x => .error (.err x)

/-- no interrupt is pending -/
def Quiet (r : Except Stop A × World V) (x : Except Stop A) : Prop := r.1 = x ∧ r.2.2 = none

theorem quiet_ticking {cc : Cache V} {f : World V → Except Stop B × World V} {x : Except Stop B}
    (h : Quiet (f (cc, none)) x) : Quiet (ticking (cc, none) f) x := h

theorem quiet_andThen {r : Except Stop A × World V} {f : A → World V → Except Stop B × World V}
    {o : Except XErr (A × Cache V)} {x : Except Stop B} (hr : Quiet r (ofEv o)) (hok : ∀ a w, r = (.ok a, w) → o = .ok (a, w.1))
    (he : ∀ y, o = .error y → x = .error (.err y)) (hf : ∀ a cc, o = .ok (a, cc) → Quiet (f a (cc, none)) x) :
    Quiet (andThen r f) x := by
  obtain ⟨h1, h2⟩ := hr
  obtain ⟨a, w⟩ := r
  simp only at h1 h2
  subst h1
  cases o with
  | error y =>
    simp only [ofEv, andThen, Quiet]
    exact ⟨(he y rfl).symm, h2⟩
  | ok q =>
    obtain ⟨a, cc⟩ := q
    have := hok a w rfl
    simp only [Except.ok.injEq, Prod.mk.injEq, true_and] at this
    obtain ⟨w1, w2⟩ := w
    simp only at h2 this
    subst h2 this
    exact hf a cc rfl

mutual
theorem evS_none (I : Interp V) (ctx : Ctx V) : ∀ e (cc : Cache V), Quiet (evS I ctx e (cc, none)) (ofEv (ev I ctx e cc))
  | .num n, cc => by
    simp only [evS, ev]
    exact ⟨rfl, rfl⟩
  | .var x, cc => by
    simp only [evS, ev]
    apply quiet_ticking
    cases ctx x <;> exact ⟨rfl, rfl⟩
  | .nir x, cc => by
    simp only [evS, ev]
    apply quiet_ticking
    cases ctx x <;> exact ⟨rfl, rfl⟩
  | .sub x i, cc => by
    simp only [evS, ev]
    apply quiet_ticking
    cases ctx x with
    | none => exact ⟨rfl, rfl⟩
    | some v =>
      simp only [orRaise, andThen]
      cases I.sub v i <;> exact ⟨rfl, rfl⟩
  | .op f l, cc => by
    simp only [evS, ev]
    apply quiet_ticking
    refine quiet_andThen (evSL_none I ctx l cc) (fun a w h => evSL_ok l _ _ _ h) (fun y h => by rw [h]; rfl) ?_
    intro a c1 h
    rw [h]
    simp only
    cases I.op f a <;> exact ⟨rfl, rfl⟩
  | .ite c a b, cc => by
    simp only [evS, ev]
    apply quiet_ticking
    refine quiet_andThen (evS_none I ctx c cc) (fun a w h => evS_ok c _ _ _ h) (fun y h => by rw [h]; rfl) ?_
    intro u c1 h
    rw [h]
    simp only
    by_cases ht : I.truthy u = true
    · simp only [if_pos ht]
      exact evS_none I ctx a c1
    · simp only [if_neg ht]
      exact evS_none I ctx b c1
  | .sum l, cc => by
    simp only [evS, ev]
    apply quiet_ticking
    refine quiet_andThen (evSL_none I ctx l cc) (fun a w h => evSL_ok l _ _ _ h) (fun y h => by rw [h]; rfl) ?_
    intro a c1 h
    rw [h]
    exact ⟨rfl, rfl⟩
  | .arr l, cc => by
    simp only [evS, ev]
    apply quiet_ticking
    refine quiet_andThen (evSL_none I ctx l cc) (fun a w h => evSL_ok l _ _ _ h) (fun y h => by rw [h]; rfl) ?_
    intro a c1 h
    rw [h]
    exact ⟨rfl, rfl⟩
  | .cse p sc child, cc => by
    simp only [evS, ev]
    apply quiet_ticking
    by_cases hs : sc = .evaluation
    · simp only [if_pos hs]
      exact evS_none I ctx child cc
    · simp only [if_neg hs]
      cases alookup (sc, p, child) cc with
      | some v => exact ⟨rfl, rfl⟩
      | none =>
        simp only
        refine quiet_andThen (evS_none I ctx child cc) (fun a w h => evS_ok child _ _ _ h) (fun y h => by rw [h]; rfl) ?_
        intro a c1 h
        rw [h]
        exact ⟨rfl, rfl⟩
  | .intg .., cc => by
    simp only [evS, ev]
    exact ⟨rfl, rfl⟩
theorem evSL_none (I : Interp V) (ctx : Ctx V) : ∀ l (cc : Cache V), Quiet (evSL I ctx l (cc, none)) (ofEv (evL I ctx l cc))
  | [], cc => by
    simp only [evSL, evL]
    exact ⟨rfl, rfl⟩
  | e :: l, cc => by
    simp only [evSL, evL]
    refine quiet_andThen (evS_none I ctx e cc) (fun a w h => evS_ok e _ _ _ h) (fun y h => by rw [h]; rfl) ?_
    intro a c1 h
    rw [h]
    simp only
    refine quiet_andThen (evSL_none I ctx l c1) (fun a w h => evSL_ok l _ _ _ h) (fun y h => by rw [h]; rfl) ?_
    intro as c2 h
    rw [h]
    exact ⟨rfl, rfl⟩
end

/-! ## The same for statements, the schedule and `execute` -/

theorem execStmtS_ok {I : Interp V} {ctx : Ctx V} (s : Stmt) (w : World V) (as : List (String × V)) (w' : World V)
    (h : execStmtS I ctx s w = (.ok as, w')) : execStmt I ctx s w.1 = .ok (as, w'.1) := by
  cases s with
  | assign n e p =>
    simp only [execStmtS] at h
    obtain ⟨u, w1, h1, h⟩ := andThen_ok h
    have := evS_ok e _ _ _ h1
    simp only [Prod.mk.injEq, Except.ok.injEq] at h
    obtain ⟨rfl, rfl⟩ := h
    simp only [execStmt, this]
  | pot outs tks kn kv sks ds src p =>
    simp only [execStmtS] at h
    obtain ⟨dv, w1, h1, h⟩ := andThen_ok h
    obtain ⟨kvv, w2, h2, h⟩ := andThen_ok h
    obtain ⟨m, h⟩ := ticking_ok h
    obtain ⟨k, rfl⟩ := ofExcept_ok h
    simp only [execStmt, evSL_ok ds _ _ _ h1, evSL_ok kv _ _ _ h2, k]

theorem runSchedS_ok {I : Interp V} : ∀ (l : List (Stmt × List String)) (ctx : Ctx V) (w : World V) (ctx' : Ctx V) (w' : World V),
    runSchedS I l ctx w = (.ok ctx', w') → runSched I l ctx w.1 = .ok (ctx', w'.1)
  | [], ctx, w, ctx', w', h => by
    simp only [runSchedS, Prod.mk.injEq, Except.ok.injEq] at h
    obtain ⟨rfl, rfl⟩ := h
    rfl
  | (s, d) :: l, ctx, w, ctx', w', h => by
    simp only [runSchedS] at h
    obtain ⟨c1, w1, h1, h'⟩ := andThen_ok h
    obtain ⟨as, w2, h2, h3⟩ := andThen_ok h'
    obtain ⟨k, rfl⟩ := ofExcept_ok h1
    simp only [runSched, k, execStmtS_ok s _ _ _ h2]
    exact runSchedS_ok l (setAll c1 as) w2 ctx' w' h3

theorem executeS_ok {I : Interp V} (code : Code) (ctx : Ctx V) (w : World V) (v : V) (w' : World V)
    (h : executeS I code ctx w = (.ok v, w')) : ∃ ctx', execute I code ctx w.1 = .ok (v, ctx', w'.1) := by
  unfold executeS at h
  unfold execute
  cases hf : code.inputs.find? (fun x => (ctx x).isNone) with
  | some x => rw [hf] at h; cases h
  | none =>
    rw [hf] at h
    simp only at h
    obtain ⟨c1, w1, h1, h⟩ := andThen_ok h
    simp only [runSchedS_ok _ _ _ _ _ h1, evS_ok _ _ _ _ h]
    exact ⟨_, rfl⟩

theorem execStmtS_none (I : Interp V) (ctx : Ctx V) (s : Stmt) (cc : Cache V) :
    Quiet (execStmtS I ctx s (cc, none)) (ofEv (execStmt I ctx s cc)) := by
  cases s with
  | assign n e p =>
    simp only [execStmtS, execStmt]
    refine quiet_andThen (evS_none I ctx e cc) (fun a w h => evS_ok e _ _ _ h) (fun y h => by rw [h]; rfl) ?_
    intro a c1 h
    rw [h]
    exact ⟨rfl, rfl⟩
  | pot outs tks kn kv sks ds src p =>
    simp only [execStmtS, execStmt]
    refine quiet_andThen (evSL_none I ctx ds cc) (fun a w h => evSL_ok ds _ _ _ h) (fun y h => by rw [h]; rfl) ?_
    intro dv c1 h
    rw [h]
    simp only
    refine quiet_andThen (evSL_none I ctx kv c1) (fun a w h => evSL_ok kv _ _ _ h) (fun y h => by rw [h]; rfl) ?_
    intro kvv c2 h
    rw [h]
    simp only
    apply quiet_ticking
    cases execOuts I src (sks.zip dv) (kn.zip kvv) tks outs <;> exact ⟨rfl, rfl⟩

theorem runSchedS_none (I : Interp V) : ∀ (l : List (Stmt × List String)) (ctx : Ctx V) (cc : Cache V),
    Quiet (runSchedS I l ctx (cc, none)) (ofEv (runSched I l ctx cc))
  | [], ctx, cc => ⟨rfl, rfl⟩
  | (s, d) :: l, ctx, cc => by
    simp only [runSchedS, runSched]
    cases delAll ctx d with
    | error x => exact ⟨rfl, rfl⟩
    | ok c1 =>
      simp only [ofExcept, andThen]
      refine quiet_andThen (execStmtS_none I c1 s cc) (fun a w h => execStmtS_ok s _ _ _ h) (fun y h => by rw [h]; rfl) ?_
      intro as c2 h
      rw [h]
      exact runSchedS_none I l _ c2

theorem executeS_none (I : Interp V) (code : Code) (ctx : Ctx V) (cc : Cache V) :
    Quiet (executeS I code ctx (cc, none)) (ofEv (execute I code ctx cc)) := by
  unfold executeS execute
  cases code.inputs.find? (fun x => (ctx x).isNone) with
  | some x => exact ⟨rfl, rfl⟩
  | none =>
    simp only
    refine quiet_andThen (runSchedS_none I code.schedule ctx cc) (fun a w h => runSchedS_ok _ _ _ _ _ h)
      (fun y h => by rw [h]; rfl) ?_
    intro c1 c2 h
    rw [h]
    simp only
    have h1 := evS_none I c1 code.result c2
    cases hv : ev I c1 code.result c2 with
    | error x => rw [hv] at h1; exact h1
    | ok q => rw [hv] at h1; exact h1

/-! ## Caches only grow -/

mutual
theorem ev_grow {I : Interp V} {ctx : Ctx V} : ∀ e (cc : Cache V) v cc', ev I ctx e cc = .ok (v, cc') → cc ⊆ cc'
  | .num n, cc, v, cc', h => by
    simp only [ev, Except.ok.injEq, Prod.mk.injEq] at h
    rw [h.2]
    exact fun _ h => h
  | .var x, cc, v, cc', h => by
    simp only [ev] at h
    split at h <;> simp only [Except.ok.injEq, Prod.mk.injEq, reduceCtorEq] at h
    rw [h.2]
    exact fun _ h => h
  | .nir x, cc, v, cc', h => by
    simp only [ev] at h
    split at h <;> simp only [Except.ok.injEq, Prod.mk.injEq, reduceCtorEq] at h
    rw [h.2]
    exact fun _ h => h
  | .sub x i, cc, v, cc', h => by
    simp only [ev] at h
    split at h <;> try cases h
    split at h <;> simp only [Except.ok.injEq, Prod.mk.injEq, reduceCtorEq] at h
    rw [h.2]
    exact fun _ h => h
  | .op f l, cc, v, cc', h => by
    simp only [ev] at h
    split at h <;> try cases h
    rename_i vs c1 h1
    split at h <;> simp only [Except.ok.injEq, Prod.mk.injEq, reduceCtorEq] at h
    rw [← h.2]
    exact evL_grow l _ _ _ h1
  | .ite c a b, cc, v, cc', h => by
    simp only [ev] at h
    split at h <;> try cases h
    rename_i u c1 h1
    have k1 := ev_grow c _ _ _ h1
    by_cases ht : I.truthy u = true
    · rw [if_pos ht] at h
      exact fun x hx => ev_grow a _ _ _ h (k1 hx)
    · rw [if_neg ht] at h
      exact fun x hx => ev_grow b _ _ _ h (k1 hx)
  | .sum l, cc, v, cc', h => by
    simp only [ev] at h
    split at h <;> simp only [Except.ok.injEq, Prod.mk.injEq, reduceCtorEq] at h
    rename_i vs c1 h1
    rw [← h.2]
    exact evL_grow l _ _ _ h1
  | .arr l, cc, v, cc', h => by
    simp only [ev] at h
    split at h <;> simp only [Except.ok.injEq, Prod.mk.injEq, reduceCtorEq] at h
    rename_i vs c1 h1
    rw [← h.2]
    exact evL_grow l _ _ _ h1
  | .cse p sc child, cc, v, cc', h => by
    simp only [ev] at h
    by_cases hs : sc = .evaluation
    · rw [if_pos hs] at h
      exact ev_grow child _ _ _ h
    · rw [if_neg hs] at h
      cases ha : alookup (sc, p, child) cc with
      | some u =>
        simp only [ha, Except.ok.injEq, Prod.mk.injEq] at h
        rw [h.2]
        exact fun _ h => h
      | none =>
        simp only [ha] at h
        split at h <;> simp only [Except.ok.injEq, Prod.mk.injEq, reduceCtorEq] at h
        rename_i u c1 h1
        rw [← h.2]
        exact fun x hx => List.mem_cons_of_mem _ (ev_grow child _ _ _ h1 hx)
  | .intg .., cc, v, cc', h => by simp only [ev] at h; cases h
theorem evL_grow {I : Interp V} {ctx : Ctx V} : ∀ l (cc : Cache V) v cc', evL I ctx l cc = .ok (v, cc') → cc ⊆ cc'
  | [], cc, v, cc', h => by
    simp only [evL, Except.ok.injEq, Prod.mk.injEq] at h
    rw [h.2]
    exact fun _ h => h
  | e :: l, cc, v, cc', h => by
    simp only [evL] at h
    split at h <;> try cases h
    rename_i u c1 h1
    split at h <;> simp only [Except.ok.injEq, Prod.mk.injEq, reduceCtorEq] at h
    rename_i us c2 h2
    rw [← h.2]
    exact fun x hx => evL_grow l _ _ _ h2 (ev_grow e _ _ _ h1 hx)
end

theorem execStmt_grow {I : Interp V} {ctx : Ctx V} (s : Stmt) (cc : Cache V) (as : List (String × V)) (cc' : Cache V)
    (h : execStmt I ctx s cc = .ok (as, cc')) : cc ⊆ cc' := by
  cases s with
  | assign n e p =>
    simp only [execStmt] at h
    split at h <;> simp only [Except.ok.injEq, Prod.mk.injEq, reduceCtorEq] at h
    rename_i u c1 h1
    rw [← h.2]
    exact ev_grow e _ _ _ h1
  | pot outs tks kn kv sks ds src p =>
    simp only [execStmt] at h
    split at h <;> try cases h
    rename_i u c1 h1
    split at h <;> try cases h
    rename_i u2 c2 h2
    split at h <;> simp only [Except.ok.injEq, Prod.mk.injEq, reduceCtorEq] at h
    rw [← h.2]
    exact fun x hx => evL_grow kv _ _ _ h2 (evL_grow ds _ _ _ h1 hx)

theorem runSched_grow {I : Interp V} : ∀ (l : List (Stmt × List String)) (ctx : Ctx V) (cc : Cache V) (ctx' : Ctx V)
    (cc' : Cache V), runSched I l ctx cc = .ok (ctx', cc') → cc ⊆ cc'
  | [], ctx, cc, ctx', cc', h => by
    simp only [runSched, Except.ok.injEq, Prod.mk.injEq] at h
    rw [h.2]
    exact fun _ h => h
  | (s, d) :: l, ctx, cc, ctx', cc', h => by
    simp only [runSched] at h
    split at h <;> try cases h
    split at h <;> try cases h
    rename_i as c1 h1
    exact fun x hx => runSched_grow l _ _ _ _ h (execStmt_grow s _ _ _ h1 hx)

/-! ## What a failed run has stored, the run that never raises stores too -/

theorem ticking_grow {P : Cache V → Prop} {w : World V} {f : World V → Except Stop B × World V} (h0 : P w.1)
    (hf : ∀ n, P (f (w.1, n)).2.1) : P (ticking w f).2.1 := by
  rcases ticking_cases (w := w) (f := f) rfl with k | ⟨m, k⟩
  · rw [k]; exact h0
  · rw [← k]; exact hf m

theorem andThen_grow {P : Cache V → Prop} {r : Except Stop A × World V} {f : A → World V → Except Stop B × World V}
    (he : P r.2.1) (hf : ∀ a w, r = (.ok a, w) → P (f a w).2.1) : P (andThen r f).2.1 := by
  rcases andThen_cases (r := r) (f := f) rfl with ⟨x, w, k, k'⟩ | ⟨a, w, k, k'⟩
  · rw [k']; rw [k] at he; exact he
  · rw [← k']; exact hf a w k

mutual
theorem evS_grow {I : Interp V} {ctx : Ctx V} {ctx' : Ctx (Option V)} (hr : Rel ctx ctx') : ∀ e (w : World V) u ccT,
    ev (total I) ctx' e (lift w.1) = .ok (u, ccT) → lift (evS I ctx e w).2.1 ⊆ ccT
  | .num n, w, u, ccT, h => by
    have hg := ev_grow _ _ _ _ h
    simp only [evS]
    exact ticking_grow (P := fun c => lift c ⊆ ccT) hg fun m => hg
  | .var x, w, u, ccT, h => by
    have hg := ev_grow _ _ _ _ h
    simp only [evS]
    exact ticking_grow (P := fun c => lift c ⊆ ccT) hg fun m => by rw [orRaise_world]; exact hg
  | .nir x, w, u, ccT, h => by
    have hg := ev_grow _ _ _ _ h
    simp only [evS]
    exact ticking_grow (P := fun c => lift c ⊆ ccT) hg fun m => by rw [orRaise_world]; exact hg
  | .sub x i, w, u, ccT, h => by
    have hg := ev_grow _ _ _ _ h
    simp only [evS]
    refine ticking_grow (P := fun c => lift c ⊆ ccT) hg fun m => ?_
    refine andThen_grow (P := fun c => lift c ⊆ ccT) (by rw [orRaise_world]; exact hg) ?_
    intro a w1 h1
    obtain ⟨-, rfl⟩ := orRaise_ok h1
    rw [orRaise_world]
    exact hg
  | .op f l, w, u, ccT, h => by
    have hg := ev_grow _ _ _ _ h
    simp only [ev] at h
    obtain ⟨vs, c1, h1⟩ : ∃ vs c1, evL (total I) ctx' l (lift w.1) = .ok (vs, c1) := by
      cases hl : evL (total I) ctx' l (lift w.1) with
      | error x => rw [hl] at h; cases h
      | ok q => exact ⟨q.1, q.2, rfl⟩
    rw [h1] at h
    simp only [total, Except.ok.injEq, Prod.mk.injEq] at h
    obtain ⟨-, rfl⟩ := h
    simp only [evS]
    refine ticking_grow (P := fun c => lift c ⊆ c1) hg fun m => ?_
    have ih := evSL_grow hr l (w.1, m) vs c1 h1
    refine andThen_grow (P := fun c => lift c ⊆ c1) ih ?_
    intro a w1 k1
    rw [k1] at ih
    rw [orRaise_world]
    exact ih
  | .ite c a b, w, u, ccT, h => by
    have hg := ev_grow _ _ _ _ h
    simp only [ev] at h
    split at h <;> try cases h
    rename_i v c1 h1
    simp only [evS]
    refine ticking_grow (P := fun c => lift c ⊆ ccT) hg fun m => ?_
    have ih := evS_grow hr c (w.1, m) v c1 h1
    have hg1 : c1 ⊆ ccT := by
      split at h
      · exact ev_grow _ _ _ _ h
      · exact ev_grow _ _ _ _ h
    refine andThen_grow (P := fun c => lift c ⊆ ccT) (fun x hx => hg1 (ih hx)) ?_
    intro v' w1 k1
    have k2 := ev_lift hr _ _ _ _ (evS_ok _ _ _ _ k1)
    simp only [h1, Except.ok.injEq, Prod.mk.injEq] at k2
    obtain ⟨rfl, rfl⟩ := k2
    have : (total I).truthy (some v') = I.truthy v' := rfl
    rw [this] at h
    by_cases ht : I.truthy v' = true
    · rw [if_pos ht] at h ⊢
      exact evS_grow hr a w1 u ccT h
    · rw [if_neg ht] at h ⊢
      exact evS_grow hr b w1 u ccT h
  | .sum l, w, u, ccT, h => by
    have hg := ev_grow _ _ _ _ h
    simp only [ev] at h
    split at h <;> simp only [Except.ok.injEq, Prod.mk.injEq, reduceCtorEq] at h
    rename_i vs c1 h1
    obtain ⟨-, rfl⟩ := h
    simp only [evS]
    refine ticking_grow (P := fun c => lift c ⊆ c1) hg fun m => ?_
    have ih := evSL_grow hr l (w.1, m) vs c1 h1
    refine andThen_grow (P := fun c => lift c ⊆ c1) ih ?_
    intro a w1 k1
    rw [k1] at ih
    exact ih
  | .arr l, w, u, ccT, h => by
    have hg := ev_grow _ _ _ _ h
    simp only [ev] at h
    split at h <;> simp only [Except.ok.injEq, Prod.mk.injEq, reduceCtorEq] at h
    rename_i vs c1 h1
    obtain ⟨-, rfl⟩ := h
    simp only [evS]
    refine ticking_grow (P := fun c => lift c ⊆ c1) hg fun m => ?_
    have ih := evSL_grow hr l (w.1, m) vs c1 h1
    refine andThen_grow (P := fun c => lift c ⊆ c1) ih ?_
    intro a w1 k1
    rw [k1] at ih
    exact ih
  | .cse p sc child, w, u, ccT, h => by
    have hg := ev_grow _ _ _ _ h
    simp only [ev] at h
    simp only [evS]
    refine ticking_grow (P := fun c => lift c ⊆ ccT) hg fun m => ?_
    by_cases hs : sc = .evaluation
    · rw [if_pos hs] at h ⊢
      exact evS_grow hr child (w.1, m) u ccT h
    · rw [if_neg hs] at h ⊢
      rw [alookup_lift] at h
      cases ha : alookup (sc, p, child) w.1 with
      | some v =>
        simp only
        exact hg
      | none =>
        rw [ha] at h
        simp only [Option.map_none] at h
        split at h <;> simp only [Except.ok.injEq, Prod.mk.injEq, reduceCtorEq] at h
        rename_i v c1 h1
        obtain ⟨-, rfl⟩ := h
        simp only
        have ih := evS_grow hr child (w.1, m) v c1 h1
        have ih' : lift (evS I ctx child (w.1, m)).2.1 ⊆ ((sc, p, child), v) :: c1 :=
          fun x hx => List.mem_cons_of_mem _ (ih hx)
        refine andThen_grow (P := fun c => lift c ⊆ ((sc, p, child), v) :: c1) ih' ?_
        intro v' w1 k1
        have k2 := ev_lift hr _ _ _ _ (evS_ok _ _ _ _ k1)
        simp only [h1, Except.ok.injEq, Prod.mk.injEq] at k2
        obtain ⟨rfl, rfl⟩ := k2
        refine ticking_grow (P := fun c => lift c ⊆ ((sc, p, child), some v') :: lift w1.1)
          (fun x hx => List.mem_cons_of_mem _ hx) fun m2 => ?_
        exact fun x hx => hx
  | .intg .., w, u, ccT, h => by simp only [ev] at h; cases h
theorem evSL_grow {I : Interp V} {ctx : Ctx V} {ctx' : Ctx (Option V)} (hr : Rel ctx ctx') : ∀ l (w : World V) u ccT,
    evL (total I) ctx' l (lift w.1) = .ok (u, ccT) → lift (evSL I ctx l w).2.1 ⊆ ccT
  | [], w, u, ccT, h => evL_grow [] (lift w.1) u ccT h
  | e :: l, w, u, ccT, h => by
    simp only [evL] at h
    split at h <;> try cases h
    rename_i v c1 h1
    split at h <;> simp only [Except.ok.injEq, Prod.mk.injEq, reduceCtorEq] at h
    rename_i us c2 h2
    obtain ⟨-, rfl⟩ := h
    simp only [evSL]
    have ih := evS_grow hr e w v c1 h1
    have hg := evL_grow _ _ _ _ h2
    refine andThen_grow (P := fun c => lift c ⊆ c2) (fun x hx => hg (ih hx)) ?_
    intro v' w1 k1
    have k2 := ev_lift hr _ _ _ _ (evS_ok _ _ _ _ k1)
    rw [h1] at k2
    simp only [Except.ok.injEq, Prod.mk.injEq] at k2
    obtain ⟨rfl, rfl⟩ := k2
    have ih2 := evSL_grow hr l w1 us c2 h2
    refine andThen_grow (P := fun c => lift c ⊆ c2) ih2 ?_
    intro a w2 k1
    rw [k1] at ih2
    exact ih2
end

theorem execStmtS_grow {I : Interp V} {ctx : Ctx V} {ctx' : Ctx (Option V)} (hr : Rel ctx ctx') (s : Stmt) (w : World V)
    (as : List (String × Option V)) (ccT : Cache (Option V)) (h : execStmt (total I) ctx' s (lift w.1) = .ok (as, ccT)) :
    lift (execStmtS I ctx s w).2.1 ⊆ ccT := by
  cases s with
  | assign n e p =>
    simp only [execStmt] at h
    split at h <;> simp only [Except.ok.injEq, Prod.mk.injEq, reduceCtorEq] at h
    rename_i u c1 h1
    obtain ⟨-, rfl⟩ := h
    simp only [execStmtS]
    have ih := evS_grow hr e w u c1 h1
    refine andThen_grow (P := fun c => lift c ⊆ c1) ih ?_
    intro a w1 k1
    rw [k1] at ih
    exact ih
  | pot outs tks kn kv sks ds src p =>
    simp only [execStmt] at h
    split at h <;> try cases h
    rename_i u c1 h1
    split at h <;> try cases h
    rename_i u2 c2 h2
    split at h <;> simp only [Except.ok.injEq, Prod.mk.injEq, reduceCtorEq] at h
    obtain ⟨-, rfl⟩ := h
    simp only [execStmtS]
    have ih := evSL_grow hr ds w u c1 h1
    have hg := evL_grow _ _ _ _ h2
    refine andThen_grow (P := fun c => lift c ⊆ c2) (fun x hx => hg (ih hx)) ?_
    intro a w1 k1
    have k2 := evL_lift hr _ _ _ _ (evSL_ok _ _ _ _ k1)
    rw [h1] at k2
    simp only [Except.ok.injEq, Prod.mk.injEq] at k2
    obtain ⟨rfl, rfl⟩ := k2
    have ih2 := evSL_grow hr kv w1 u2 c2 h2
    refine andThen_grow (P := fun c => lift c ⊆ c2) ih2 ?_
    intro b w2 k2
    rw [k2] at ih2
    refine ticking_grow (P := fun c => lift c ⊆ c2) ih2 fun m => ?_
    rw [ofExcept_world]
    exact ih2

theorem runSchedS_grow {I : Interp V} : ∀ (l : List (Stmt × List String)) (ctx : Ctx V) (ctx' : Ctx (Option V)) (w : World V)
    (ctxT : Ctx (Option V)) (ccT : Cache (Option V)), Rel ctx ctx' → runSched (total I) l ctx' (lift w.1) = .ok (ctxT, ccT) →
      lift (runSchedS I l ctx w).2.1 ⊆ ccT
  | [], ctx, ctx', w, ctxT, ccT, hr, h => by
    simp only [runSched, Except.ok.injEq, Prod.mk.injEq] at h
    obtain ⟨-, rfl⟩ := h
    exact fun x hx => hx
  | (s, d) :: l, ctx, ctx', w, ctxT, ccT, hr, h => by
    have hg := runSched_grow _ _ _ _ _ h
    simp only [runSched] at h
    cases hd : delAll ctx' d with
    | error x => rw [hd] at h; cases h
    | ok c1 =>
      rw [hd] at h
      simp only at h
      cases hx : execStmt (total I) c1 s (lift w.1) with
      | error x => rw [hx] at h; cases h
      | ok q =>
        obtain ⟨as, c2⟩ := q
        rw [hx] at h
        simp only at h
        simp only [runSchedS]
        refine andThen_grow (P := fun c => lift c ⊆ ccT) (by rw [ofExcept_world]; exact hg) ?_
        intro ctx1 w1 k1
        obtain ⟨k2, rfl⟩ := ofExcept_ok k1
        obtain ⟨c1', k3, hr1⟩ := delAll_lift d ctx ctx' ctx1 hr k2
        rw [hd, Except.ok.injEq] at k3
        subst k3
        have ih := execStmtS_grow hr1 s w1 as c2 hx
        have hg2 := runSched_grow _ _ _ _ _ h
        refine andThen_grow (P := fun c => lift c ⊆ ccT) (fun x hx => hg2 (ih hx)) ?_
        intro bs w2 k4
        have k5 := execStmt_lift hr1 _ _ _ _ (execStmtS_ok _ _ _ _ k4)
        rw [hx] at k5
        simp only [Except.ok.injEq, Prod.mk.injEq] at k5
        obtain ⟨rfl, rfl⟩ := k5
        exact runSchedS_grow l _ _ w2 ctxT ccT (setAll_lift bs _ _ hr1) h

theorem executeS_grow {I : Interp V} (code : Code) (ctx : Ctx V) (w : World V) (u : Option V) (ctxT : Ctx (Option V))
    (ccT : Cache (Option V)) (h : execute (total I) code (totalCtx ctx) (lift w.1) = .ok (u, ctxT, ccT)) :
    lift (executeS I code ctx w).2.1 ⊆ ccT := by
  unfold execute at h
  unfold executeS
  split at h <;> try cases h
  cases hs : runSched (total I) code.schedule (totalCtx ctx) (lift w.1) with
  | error x => rw [hs] at h; cases h
  | ok q =>
    obtain ⟨c1, c2⟩ := q
    rw [hs] at h
    simp only at h
    cases he : ev (total I) c1 code.result c2 with
    | error x => rw [he] at h; cases h
    | ok q =>
      obtain ⟨u', c3⟩ := q
      rw [he] at h
      simp only [Except.ok.injEq, Prod.mk.injEq] at h
      obtain ⟨rfl, rfl, rfl⟩ := h
      have hrel : Rel ctx (totalCtx ctx) := fun x v hx => by simp only [totalCtx, hx]
      have hg := ev_grow _ _ _ _ he
      split
      · exact fun x hx => hg (runSched_grow _ _ _ _ _ hs hx)
      · have ih := runSchedS_grow code.schedule ctx (totalCtx ctx) w c1 c2 hrel hs
        refine andThen_grow (P := fun c => lift c ⊆ c3) (fun x hx => hg (ih hx)) ?_
        intro ctx1 w1 k1
        obtain ⟨c1', k2, hr1⟩ := runSched_lift _ _ _ _ _ _ hrel (runSchedS_ok _ _ _ _ _ k1)
        rw [hs] at k2
        simp only [Except.ok.injEq, Prod.mk.injEq] at k2
        obtain ⟨rfl, rfl⟩ := k2
        exact evS_grow hr1 code.result w1 u' c3 he

/-! ## Theorems -/

/-- what is in the caches after a call, however it ended, is what was there before or the right value of a common subexpression -/
theorem executeS_stored (c : Cfg) (I : Interp V) (e : Expr) (ctx : Ctx V) (cc : Cache V) (n : Option Nat) (code : Code)
    (hc : CfgOk c) (hI : Lawful I) (hwf : WF e) (hnc : NoClash e) (hcond : CondDefined I ctx e) (hcc : CacheValid I ctx cc)
    (hcode : compile c e = .ok code) :
    ∀ p ∈ (executeS I code ctx (cc, n)).2.1, p ∈ cc ∨ KeyOf e p.1 ∧ den I ctx p.1.2.2 = some p.2 := by
  obtain ⟨u, c2, ccT, h2, h3, h4⟩ := C01_bound_eval c (total I) e (totalCtx ctx) (lift cc) hc (total_lawful hI) hwf hnc
    (fun s _ => den_total I ctx s) (by
      intro k u hm
      obtain ⟨⟨k', v'⟩, hm', heq⟩ := List.mem_map.1 hm
      simp only [Prod.mk.injEq] at heq
      obtain ⟨rfl, rfl⟩ := heq
      exact den_up I ctx _ _ (hcc _ _ hm'))
  have hx : execute (total I) code (totalCtx ctx) (lift cc) = .ok (u, c2, ccT) := by
    simp only [evalBound, hcode] at h3
    cases hh : execute (total I) code (totalCtx ctx) (lift cc) with
    | error x => rw [hh] at h3; cases h3
    | ok q =>
      rw [hh] at h3
      simpa using h3
  have hg := executeS_grow code ctx (cc, n) u c2 ccT hx
  rintro ⟨k, v⟩ hp
  have hm : (k, some v) ∈ ccT := hg (List.mem_map.2 ⟨(k, v), hp, rfl⟩)
  rcases compile_keys hc hwf hnc hcode hx _ hm with h | h
  · obtain ⟨⟨k', v'⟩, hm', heq⟩ := List.mem_map.1 h
    simp only [Prod.mk.injEq, Option.some.injEq] at heq
    obtain ⟨rfl, rfl⟩ := heq
    exact Or.inl hm'
  · refine Or.inr ⟨h, ?_⟩
    have hv := h4 _ _ hm
    have hsub : k.2.2 ∈ subs e := subs_trans (s := k.2.2) (t := .cse k.2.1 k.1 k.2.2) e
      (by simp only [subs, List.mem_cons]; exact Or.inr (self_mem_subs _)) h.2
    rw [den_eq I ctx _ (fun s hs => fine_of hwf hcond s (subs_trans e hs hsub)), Option.some.injEq] at hv
    exact hv

/-- **C08, one call**: however a call ends, with a result, an exception or an interrupt after any number of steps, the caches hold
correct values afterwards; a result is the value of the expression; and a call that is not interrupted returns the value if the
expression has one. -/
theorem C08_crash (c : Cfg) (I : Interp V) (k : Call V) (s : Caches V) (hc : CfgOk c) (hI : Lawful I) (hwf : WF k.expr)
    (hnc : NoClash k.expr) (hcond : CondDefined I k.kwargs k.expr) (hcl : CachedClosed k.expr)
    (hs1 : ClosedValid I s.places) (hs2 : ∀ e, ClosedValid I (s.bound e)) :
    (∀ v, (callS c I k.expr k.kwargs k.stop s).1 = .ok v → den I k.kwargs k.expr = some v) ∧
    (k.stop = none → NoCond k.expr ∨ AllDefined I k.kwargs k.expr → ∀ v, den I k.kwargs k.expr = some v →
      (callS c I k.expr k.kwargs k.stop s).1 = .ok v) ∧
    ClosedValid I (callS c I k.expr k.kwargs k.stop s).2.places ∧
    ∀ e, ClosedValid I ((callS c I k.expr k.kwargs k.stop s).2.bound e) := by
  obtain ⟨e, ctx, n⟩ := k
  simp only at hwf hnc hcond hcl ⊢
  have hcv : ClosedValid I (s.places ++ s.bound e) := by
    intro k v hk
    rcases List.mem_append.1 hk with hk | hk
    · exact hs1 k v hk
    · exact hs2 e k v hk
  cases hcode : compile c e with
  | error x =>
    obtain ⟨u, c2, ccT, -, h3, -⟩ := C01_bound_eval c (total I) e (totalCtx ctx) [] hc (total_lawful hI) hwf hnc
      (fun s _ => den_total I ctx s) (by intro k v h; cases h)
    simp only [evalBound, hcode] at h3
    cases h3
  | ok code =>
    have hst := executeS_stored c I e ctx (s.places ++ s.bound e) n code hc hI hwf hnc hcond (hcv.valid ctx) hcode
    have hcv' : ClosedValid I (executeS I code ctx (s.places ++ s.bound e, n)).2.1 := by
      intro k v hk
      rcases hst _ hk with h | ⟨h1, h2⟩
      · exact hcv k v h
      · have hh : varNames k.2.2 = [] := hcl _ _ _ h1.2 h1.1
        refine ⟨hh, ?_⟩
        rw [← h2]
        apply den_congr
        intro x hx
        rw [hh] at hx
        simp at hx
    simp only [callS, hcode]
    refine ⟨?_, ?_, ?_, ?_⟩
    · intro v hv
      obtain ⟨r, w⟩ : ∃ r w, executeS I code ctx (s.places ++ s.bound e, n) = (r, w) := ⟨_, _, rfl⟩
      obtain ⟨w, hw⟩ := w
      rw [hw] at hv
      cases r with
      | error x => simp [Except.mapError] at hv
      | ok v' =>
        simp only [Except.mapError, Except.ok.injEq] at hv
        subst hv
        obtain ⟨ctx', hx⟩ := executeS_ok code ctx _ _ _ hw
        exact C01_sound c I e ctx (s.places ++ s.bound e) hc hI hwf hnc hcond (hcv.valid ctx) v' ctx' w.1
          (by simp only at hx; simp only [evalBound, hcode, hx])
    · rintro rfl hd v hv
      have hall : AllDefined I ctx e := by
        rcases hd with hd | hd
        · exact allDefined_of I ctx e hd v hv
        · exact hd
      obtain ⟨u, c2, cc2, h1, h2, -⟩ := C01_bound_eval c I e ctx (s.places ++ s.bound e) hc hI hwf hnc hall (hcv.valid ctx)
      rw [hv, Option.some.injEq] at h1
      subst h1
      have hq := (executeS_none I code ctx (s.places ++ s.bound e)).1
      simp only [evalBound, hcode] at h2
      cases hh : execute I code ctx (s.places ++ s.bound e) with
      | error x => rw [hh] at h2; cases h2
      | ok q =>
        rw [hh] at h2 hq
        simp only [Except.ok.injEq] at h2
        subst h2
        rw [hq]
        rfl
    · intro k v hk
      exact hcv' k v (List.mem_filter.1 hk).1
    · intro e'
      by_cases he : e' = e
      · rw [if_pos he]
        intro k v hk
        exact hcv' k v (List.mem_filter.1 hk).1
      · rw [if_neg he]
        exact hs2 e'

/-- **C08, histories**: in every sequence of calls, of any bound expressions on the same places, with any inputs, some of which raise
and some of which are interrupted after any number of steps, each call returns nothing but the value of its expression, and a call that
is not interrupted returns it if there is one: earlier calls, however they ended, have no influence.  Partial: as long as the CSEs of
`EXPRESSION`/`DISCRETIZATION` scope do not depend on input variables (`C08_refuted`). -/
theorem C08_crashes_partial (c : Cfg) (I : Interp V) (hc : CfgOk c) (hI : Lawful I) :
    ∀ (hist : List (Call V)) (s : Caches V),
      (∀ k ∈ hist, WF k.expr ∧ NoClash k.expr ∧ CondDefined I k.kwargs k.expr ∧ CachedClosed k.expr) →
      ClosedValid I s.places → (∀ e, ClosedValid I (s.bound e)) →
      List.Forall₂ (fun k r => (∀ v, r = .ok v → den I k.kwargs k.expr = some v) ∧
        (k.stop = none → NoCond k.expr ∨ AllDefined I k.kwargs k.expr → ∀ v, den I k.kwargs k.expr = some v → r = .ok v))
        hist (callsS c I hist s)
  | [], s, _, _, _ => by simp [callsS]
  | k :: l, s, h, hs1, hs2 => by
    obtain ⟨hwf, hnc, hd, hcl⟩ := h k (by simp)
    obtain ⟨h1, h2, h3, h4⟩ := C08_crash c I k s hc hI hwf hnc hd hcl hs1 hs2
    simp only [callsS]
    exact List.Forall₂.cons ⟨h1, h2⟩ (C08_crashes_partial c I hc hI l _ (fun p hp => h p (by simp [hp])) h3 h4)

/-- **C08**: without interrupts the calls are those of `calls` as long as nothing raises: the two models agree. -/
theorem C08_same (c : Cfg) (I : Interp V) (e : Expr) (kw : Ctx V) (s : Caches V) (v : V)
    (h : (call c I e kw s).1 = .ok v) : callS c I e kw none s = (.ok v, (call c I e kw s).2) := by
  unfold call evalBound at h
  unfold callS call evalBound
  cases hcode : compile c e with
  | error x => simp only [hcode] at h; cases h
  | ok code =>
    simp only [hcode] at h ⊢
    have hq := (executeS_none I code kw (s.places ++ s.bound e)).1
    cases hh : execute I code kw (s.places ++ s.bound e) with
    | error x => rw [hh] at h; cases h
    | ok q =>
      obtain ⟨u, c1, cc1⟩ := q
      rw [hh] at h hq
      simp only [Except.ok.injEq] at h
      subst h
      obtain ⟨r, w⟩ : ∃ r w, executeS I code kw (s.places ++ s.bound e, none) = (r, w) := ⟨_, _, rfl⟩
      obtain ⟨w, hw⟩ := w
      rw [hw] at hq ⊢
      simp only [ofEv] at hq
      subst hq
      obtain ⟨ctx', hx⟩ := executeS_ok code kw _ _ _ hw
      simp only [hh, Except.ok.injEq, Prod.mk.injEq, true_and] at hx
      simp only [hx.2]
      rfl

/-! ### The hypotheses can be met -/

/-- `2 * 21` in a CSE of scope `EXPRESSION`, and `10 / sigma` -/
def exCrash : Expr := .sum [.cse none .expression (.op "mul" [.num 2, .num 21]), .op "div" [.num 10, exS]]

/-- inputs `sigma = x` -/
def exSigma (x : Int) : Ctx Int := fun y => if y = "sigma" then some x else none

theorem exCrash_wf : WF exCrash := of_all (by decide +kernel)

theorem exCrash_noCond : NoCond exCrash := by
  intro c a b h
  have : (subs exCrash).all (fun s => match s with | .ite .. => false | _ => true) = true := by decide +kernel
  exact absurd (List.all_eq_true.1 this _ h) (by simp)

theorem exCrash_closed : CachedClosed exCrash := by
  intro p sc ch h hsc
  have : (subs exCrash).all (fun s => match s with
      | .cse _ sc ch => sc == .evaluation || varNames ch == [] | _ => true) = true := by decide +kernel
  have := List.all_eq_true.1 this _ h
  simp only [Bool.or_eq_true, beq_iff_eq] at this
  exact this.resolve_left hsc

theorem exCrash_noClash : NoClash exCrash := by
  intro x hx hg
  have hx' : x = "sigma" := by
    have : ∀ x ∈ varNames exCrash, x = "sigma" := by decide +kernel
    exact this x hx
  subst hx'
  rcases hg with ⟨i, hi⟩ | ⟨p, sc, ch, hm, hp⟩
  · exact toString_nat_ne hi 's' (by decide +kernel) (by decide +kernel) (by decide +kernel)
  · have : (subs exCrash).all (fun s => match s with | .cse (some _) _ _ => false | _ => true) = true := by decide +kernel
    exact absurd (List.all_eq_true.1 this _ hm) (by simp)

/-- calls with `sigma = 0`, which raises, with `sigma = 5`, interrupted, and with `sigma = 5` -/
def exHist : List (Call Int) := [⟨exCrash, exSigma 0, none⟩, ⟨exCrash, exSigma 5, some 5⟩, ⟨exCrash, exSigma 5, none⟩]

/-- the first two calls fail, but leave the CSE in the cache; the third returns `42 + 10 / 5` -/
example : ((callS exCfg exI exCrash (exSigma 0) none ⟨[], fun _ => []⟩).2.bound exCrash).map (·.2) = [42] ∧
    callsS exCfg exI exHist ⟨[], fun _ => []⟩ = [.error (.stop (.err .raised)), .error (.stop .interrupted), .ok 44] ∧
    ∀ k ∈ exHist, WF k.expr ∧ NoClash k.expr ∧ CondDefined exI k.kwargs k.expr ∧ CachedClosed k.expr ∧
      (NoCond k.expr ∨ AllDefined exI k.kwargs k.expr) := by
  refine ⟨by rfl, by rfl, ?_⟩
  intro k hk
  have : k.expr = exCrash := by
    simp only [exHist, List.mem_cons, List.not_mem_nil, or_false] at hk
    rcases hk with rfl | rfl | rfl <;> rfl
  rw [this]
  exact ⟨exCrash_wf, exCrash_noClash, fun c a b h => absurd h (exCrash_noCond c a b), exCrash_closed, Or.inl exCrash_noCond⟩

end Verif.Compiler
