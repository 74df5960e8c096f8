import Verif.Util.Lists

/-!
# Model of `pytential/symbolic/compiler.py` and of `execute` / the evaluator in
# `pytential/symbolic/execution.py`

Simplifications (see DESIGN.md):

* Every expression node other than the ones the compiler or evaluator treat
  specially (sums, object arrays, CSEs, layer potentials `IntG`, variables,
  subscripted variables, conditionals) is an `op f args`: products, quotients,
  powers, calls, node coordinates, interpolations, reductions, ...  For them the
  compiler inherits `IdentityMapper` (recurse and rebuild) and the evaluator
  evaluates the children and applies an operation that may raise.
* Kernels and `DOFDescriptor`s are opaque strings.
* Expression equality/hash is structural equality (see C17 for the exception).
* `MultiVector` results are not modelled (object arrays are).
-/

namespace Verif.Compiler

/-- `pymbolic.primitives.cse_scope` as re-exported in
`pytential/symbolic/primitives.py`. -/
inductive Scope | evaluation | expression | discretization
  deriving DecidableEq, Repr

/-- Values of `IntG.qbx_forced_limit` (`primitives.py:1886-1960`). -/
inductive Lim | none | m2 | m1 | p1 | p2 | avg
  deriving DecidableEq, Repr

/-- The non-expression fields of an `IntG` (`primitives.py:1886-2000`):
target kernel, source kernels, source and target descriptors, limit, and the
names of the kernel arguments. -/
structure IG where
  tk : String
  sks : List String
  src : String
  tgt : String
  lim : Lim
  kn : List String
  deriving DecidableEq, Repr

/-- Expression trees (see the header for `op`).
`nir` is `NamedIntermediateResult` (`primitives.py:539`), a `Variable` subclass
used for the compiler's temporaries.  `arr` is an object array. -/
inductive Expr where
  | num (n : Int)
  | var (x : String)
  | nir (x : String)
  | sub (x : String) (i : Nat)
  | op (f : String) (args : List Expr)
  | ite (c a b : Expr)
  | sum (args : List Expr)
  | arr (args : List Expr)
  | cse (pfx : Option String) (scope : Scope) (child : Expr)
  | intg (g : IG) (dens : List Expr) (kv : List Expr)
  deriving Repr

mutual
/-- Structural equality (Python `__eq__` on expression nodes). -/
def Expr.decEq : (a b : Expr) → Decidable (a = b)
  | .num a, .num b => if h : a = b then isTrue (by rw [h]) else isFalse (by simpa using h)
  | .var a, .var b => if h : a = b then isTrue (by rw [h]) else isFalse (by simpa using h)
  | .nir a, .nir b => if h : a = b then isTrue (by rw [h]) else isFalse (by simpa using h)
  | .sub a i, .sub b j =>
    if h : a = b ∧ i = j then isTrue (by rw [h.1, h.2]) else isFalse (by simpa using h)
  | .op f l, .op g m =>
    match decEqL l m with
    | isTrue h => if h' : f = g then isTrue (by rw [h, h']) else isFalse (by simp [h'])
    | isFalse h => isFalse (by simp [h])
  | .ite c a b, .ite c' a' b' =>
    match Expr.decEq c c', Expr.decEq a a', Expr.decEq b b' with
    | isTrue h1, isTrue h2, isTrue h3 => isTrue (by rw [h1, h2, h3])
    | isFalse h, _, _ => isFalse (by simp [h])
    | _, isFalse h, _ => isFalse (by simp [h])
    | _, _, isFalse h => isFalse (by simp [h])
  | .sum l, .sum m =>
    match decEqL l m with
    | isTrue h => isTrue (by rw [h])
    | isFalse h => isFalse (by simp [h])
  | .arr l, .arr m =>
    match decEqL l m with
    | isTrue h => isTrue (by rw [h])
    | isFalse h => isFalse (by simp [h])
  | .cse p s c, .cse p' s' c' =>
    match Expr.decEq c c' with
    | isTrue h => if h' : p = p' ∧ s = s' then isTrue (by rw [h, h'.1, h'.2])
        else isFalse (by intro hh; injection hh with h1 h2; exact h' ⟨h1, h2⟩)
    | isFalse h => isFalse (by simp [h])
  | .intg g d k, .intg g' d' k' =>
    match decEqL d d', decEqL k k' with
    | isTrue h1, isTrue h2 => if h' : g = g' then isTrue (by rw [h1, h2, h'])
        else isFalse (by simp [h'])
    | isFalse h, _ => isFalse (by simp [h])
    | _, isFalse h => isFalse (by simp [h])
  | .num _, .var _ | .num _, .nir _ | .num _, .sub .. | .num _, .op .. | .num _, .ite ..
  | .num _, .sum _ | .num _, .arr _ | .num _, .cse .. | .num _, .intg .. => isFalse (by simp)
  | .var _, .num _ | .var _, .nir _ | .var _, .sub .. | .var _, .op .. | .var _, .ite ..
  | .var _, .sum _ | .var _, .arr _ | .var _, .cse .. | .var _, .intg .. => isFalse (by simp)
  | .nir _, .num _ | .nir _, .var _ | .nir _, .sub .. | .nir _, .op .. | .nir _, .ite ..
  | .nir _, .sum _ | .nir _, .arr _ | .nir _, .cse .. | .nir _, .intg .. => isFalse (by simp)
  | .sub .., .num _ | .sub .., .var _ | .sub .., .nir _ | .sub .., .op .. | .sub .., .ite ..
  | .sub .., .sum _ | .sub .., .arr _ | .sub .., .cse .. | .sub .., .intg .. => isFalse (by simp)
  | .op .., .num _ | .op .., .var _ | .op .., .nir _ | .op .., .sub .. | .op .., .ite ..
  | .op .., .sum _ | .op .., .arr _ | .op .., .cse .. | .op .., .intg .. => isFalse (by simp)
  | .ite .., .num _ | .ite .., .var _ | .ite .., .nir _ | .ite .., .sub .. | .ite .., .op ..
  | .ite .., .sum _ | .ite .., .arr _ | .ite .., .cse .. | .ite .., .intg .. => isFalse (by simp)
  | .sum _, .num _ | .sum _, .var _ | .sum _, .nir _ | .sum _, .sub .. | .sum _, .op ..
  | .sum _, .ite .. | .sum _, .arr _ | .sum _, .cse .. | .sum _, .intg .. => isFalse (by simp)
  | .arr _, .num _ | .arr _, .var _ | .arr _, .nir _ | .arr _, .sub .. | .arr _, .op ..
  | .arr _, .ite .. | .arr _, .sum _ | .arr _, .cse .. | .arr _, .intg .. => isFalse (by simp)
  | .cse .., .num _ | .cse .., .var _ | .cse .., .nir _ | .cse .., .sub .. | .cse .., .op ..
  | .cse .., .ite .. | .cse .., .sum _ | .cse .., .arr _ | .cse .., .intg .. => isFalse (by simp)
  | .intg .., .num _ | .intg .., .var _ | .intg .., .nir _ | .intg .., .sub .. | .intg .., .op ..
  | .intg .., .ite .. | .intg .., .sum _ | .intg .., .arr _ | .intg .., .cse .. => isFalse (by simp)
/-- the list part of the decidable equality of expressions -/
def decEqL : (a b : List Expr) → Decidable (a = b)
  | [], [] => isTrue rfl
  | [], _ :: _ => isFalse (by simp)
  | _ :: _, [] => isFalse (by simp)
  | a :: l, b :: m =>
    match Expr.decEq a b, decEqL l m with
    | isTrue h1, isTrue h2 => isTrue (by rw [h1, h2])
    | isFalse h, _ => isFalse (by simp [h])
    | _, isFalse h => isFalse (by simp [h])
end

instance : DecidableEq Expr := Expr.decEq

/-! ## Collectors -/

mutual
/-- `OperatorCollector` (`mappers.py:290-293` on top of `CombineMapper`,
`mappers.py:218-262`): all layer potentials of an expression, outermost first,
descending into densities, kernel arguments and CSEs of every scope.  The model
returns a list with repetitions; `compile` removes them. -/
def ops : Expr → List Expr
  | .num _ | .var _ | .nir _ | .sub _ _ => []
  | .op _ l => opsL l
  | .ite c a b => ops c ++ ops a ++ ops b
  | .sum l => opsL l
  | .arr l => opsL l
  | .cse _ _ c => ops c
  | .intg g d k => .intg g d k :: (opsL d ++ opsL k)
/-- `ops` of the members of a list, in order (`OperatorCollector`, `mappers.py:218-293`, `combine`) -/
def opsL : List Expr → List Expr
  | [] => []
  | e :: l => ops e ++ opsL l
end

mutual
/-- `DependencyMapper` with `include_lookups=include_subscripts=False`
(`compiler.py:580-584`) resp. `composite_leaves=False` (`compiler.py:467`):
the `Variable`s of an expression, with a flag telling `NamedIntermediateResult`s
apart. -/
def deps : Expr → List (Bool × String)
  | .num _ => []
  | .var x => [(false, x)]
  | .nir x => [(true, x)]
  | .sub x _ => [(false, x)]
  | .op _ l => depsL l
  | .ite c a b => deps c ++ deps a ++ deps b
  | .sum l => depsL l
  | .arr l => depsL l
  | .cse _ _ c => deps c
  | .intg _ d k => depsL d ++ depsL k
/-- `deps` of the members of a list (`DependencyMapper`, `mappers.py:297-315`) -/
def depsL : List Expr → List (Bool × String)
  | [] => []
  | e :: l => deps e ++ depsL l
end

/-! ## Statements -/

/-- `PotentialOutput` (`compiler.py:193-214`). -/
structure Out where
  name : String
  tkIdx : Nat
  tgt : String
  lim : Lim
  deriving DecidableEq, Repr

/-- `Assign` (`compiler.py:115-187`, always with a single name here: the only
constructor call is `make_assign`, `compiler.py:655-661`) and `ComputePotential`
(`compiler.py:217-321`). -/
inductive Stmt where
  | assign (name : String) (rhs : Expr) (prio : Int)
  | pot (outs : List Out) (tks : List String) (kn : List String) (kv : List Expr)
      (sks : List String) (dens : List Expr) (src : String) (prio : Int)
  deriving Repr

/-- `priority` (`compiler.py:94`). -/
def Stmt.prio : Stmt → Int
  | .assign _ _ p => p
  | .pot _ _ _ _ _ _ _ p => p

/-- `get_assignees` (`compiler.py:134-136`, `250-252`). -/
def Stmt.assignees : Stmt → List String
  | .assign n _ _ => [n]
  | .pot outs _ _ _ _ _ _ _ => outs.map Out.name

/-- `get_dependencies` (`compiler.py:138-152`: variables of the right hand side
whose name is not the assignee; `254-266`: variables of densities and kernel
arguments). -/
def Stmt.dependencies : Stmt → List (Bool × String)
  | .assign n e _ => (deps e).filter (fun d => d.2 ≠ n)
  | .pot _ _ _ kv _ ds _ _ => depsL ds ++ depsL kv

/-- Names of the dependencies. -/
def Stmt.depNames (s : Stmt) : List String := s.dependencies.map Prod.snd

/-! ## Scheduler -/

/-- One iteration of the loop of `pytools.argmax2` (first maximum wins). -/
def argmaxStep (cur : Nat × Int) (x : Nat × Int) : Nat × Int :=
  if x.2 > cur.2 then x else cur

/-- `argmax2(available_stmts)` (`compiler.py:482`); `none` for an empty list. -/
def argmax2 : List (Nat × Int) → Option Nat
  | [] => none
  | x :: xs => some (xs.foldl argmaxStep x).1

/-- Positions of the statements not yet done. Statements are compared by
identity (`eq=False`, `compiler.py:115,217`), so `done` holds positions. -/
def undone (stmts : List Stmt) (done : List Nat) : List Nat :=
  (List.range stmts.length).filter (fun i => i ∉ done)

/-- The names of the variables statement `i` depends on. -/
def depNamesAt (stmts : List Stmt) (i : Nat) : List String :=
  match stmts[i]? with
  | some s => s.depNames
  | none => []

/-- Priority of statement `i`. -/
def prioAt (stmts : List Stmt) (i : Nat) : Int :=
  match stmts[i]? with
  | some s => s.prio
  | none => 0

/-- Assignees of statement `i`. -/
def assigneesAt (stmts : List Stmt) (i : Nat) : List String :=
  match stmts[i]? with
  | some s => s.assignees
  | none => []

/-- `available_stmts` (`compiler.py:446-451`). -/
def availableStmts (stmts : List Stmt) (avail : List String) (done : List Nat) : List (Nat × Int) :=
  ((undone stmts done).filter
    (fun i => (depNamesAt stmts i).all (fun d => decide (d ∈ avail)))).map
    (fun i => (i, prioAt stmts i))

/-- `needed_vars` (`compiler.py:456-461`). -/
def neededVars (stmts : List Stmt) (done : List Nat) : List String :=
  (undone stmts done).flatMap (depNamesAt stmts)

/-- `_get_next_step` (`compiler.py:437-484`): `none` models
`_NoStatementAvailableError`; `resVars` are the names of the variables in the
result expression (`compiler.py:466-480`).  `nub`: the discardable variables form
a set. -/
def nextStep (stmts : List Stmt) (resVars : List String) (avail : List String)
    (done : List Nat) : Option (Nat × List String) :=
  match argmax2 (availableStmts stmts avail done) with
  | none => none
  | some i =>
    some (i, nub (avail.filter (fun x => x ∉ neededVars stmts done ∧ x ∉ resVars)))

/-- The `while True` loop of `_compute_schedule` (`compiler.py:507-525`), with
fuel; `available_vars` and `done_stmts` are the loop state.  Every iteration adds
a position to `done_stmts`, so `stmts.length + 1` iterations suffice
(see `C03_schedule`). -/
def scheduleLoop (stmts : List Stmt) (resVars : List String) :
    Nat → List String → List Nat → List (Nat × List String)
  | 0, _, _ => []
  | fuel + 1, avail, done =>
    match nextStep stmts resVars avail done with
    | none => []
    | some (i, disc) =>
      (i, disc) :: scheduleLoop stmts resVars fuel
        (avail.filter (fun x => x ∉ disc) ++ assigneesAt stmts i) (i :: done)

/-- `inputs` (`compiler.py:497-502`): names of dependencies that are not
`NamedIntermediateResult`s. -/
def inputsOf (stmts : List Stmt) : List String :=
  (stmts.flatMap Stmt.dependencies).filterMap (fun d => if d.1 then none else some d.2)

/-- `_compute_schedule` (`compiler.py:487-527`). -/
def computeSchedule (stmts : List Stmt) (resVars : List String) :
    List (Nat × List String) :=
  scheduleLoop stmts resVars (stmts.length + 1) (inputsOf stmts) []

/-- `Code` (`compiler.py:398-427`): inputs, schedule, result. -/
structure Code where
  inputs : List String
  schedule : List (Stmt × List String)
  result : Expr
  deriving Repr

/-- `Code(inputs, schedule, result)` as built at the end of
`OperatorCompiler.__call__` (`compiler.py:620-621`). -/
def mkCode (stmts : List Stmt) (result : Expr) : Code where
  inputs := inputsOf stmts
  schedule := (computeSchedule stmts ((deps result).map Prod.snd)).filterMap
    (fun p => (stmts[p.1]?).map (fun s => (s, p.2)))
  result := result

/-! ## Compiler -/

/-- Environment of the compiler that is not part of the model:
* `skKey`: `str((source_kernel, density))`, the sort key of `sort_arrays_together`;
* `tkRepr`: `repr(target_kernel)`;
* `setIter`: iteration order of the Python `set` holding an operator group;
* `prio`: `getattr(expr, "priority", 0)`;
* `groupExtra`: the extra grouping features of the source class
  (`source.py:225-237`, `unregularized.py:139-145`: the base kernel of the target
  kernel; `qbx/__init__.py:527-532`: nothing). -/
structure Cfg where
  skKey : String × Expr → String
  tkRepr : String → String
  setIter : List Expr → List Expr
  prio : Expr → Int
  groupExtra : (src tk : String) → Option String

/-- Compiler failures: `IndexError` for an empty sum, the assertion on the
forced limit (`compiler.py:767-768`), unpacking failure for empty kernel lists
(`compiler.py:750-751`), unknown group (`KeyError`, `compiler.py:759`). -/
inductive CErr | index | assertion | unpack | key
  deriving DecidableEq, Repr

/-- Compiler state (`compiler.py:566-584`): `code`, the `CachedMapper` cache,
`expr_to_var`, `assigned_names`. -/
structure St where
  code : List Stmt
  memo : List (Expr × Expr)
  e2v : List (Expr × Expr)
  names : List String
  deriving Repr

/-- Names tried by `generate_plain_names` (`compiler.py:635-639`, prefix `_expr`). -/
def plainName (i : Nat) : String := "_expr" ++ toString i

/-- Names tried for a prefix (`compiler.py:628-633`): `p`, `p_2`, `p_3`, ... -/
def prefixName (p : String) (i : Nat) : String :=
  match i with
  | 0 => p
  | i + 1 => p ++ "_" ++ toString (i + 2)

/-- The search loops of `get_var_name` (`compiler.py:642-650`): first candidate
not in `used`, starting at `i`. `used.length + 1` candidates suffice. -/
def firstUnused (used : List String) (gen : Nat → String) : Nat → Nat → String
  | 0, i => gen i
  | fuel + 1, i => if gen i ∉ used then gen i else firstUnused used gen fuel (i + 1)

/-- `get_var_name` (`compiler.py:627-653`). -/
def varName (pfx : Option String) (used : List String) : String :=
  match pfx with
  | none => firstUnused used plainName used.length 0
  | some p => firstUnused used (prefixName p) used.length 0

/-- `isinstance(expr, Variable | Subscript)` (`compiler.py:672`). -/
def isVarLike : Expr → Bool
  | .var _ | .nir _ | .sub _ _ => true
  | _ => false

/-- `assign_to_new_var` (`compiler.py:663-678`). -/
def assignNew (prio : Int) (pfx : Option String) (e : Expr) (st : St) : Expr × St :=
  if isVarLike e then (e, st)
  else
    let n := varName pfx st.names
    (.nir n, { st with names := n :: st.names, code := st.code ++ [.assign n e prio] })

/-- result of a compiler step: the rewritten expression and the new state, or the exception raised -/
abbrev R := Except CErr (Expr × St)
/-- a child expression together with the action that compiles it -/
abbrev Act := Expr × (St → R)

/-- `CachedMapper.__call__` as used by `CachedIdentityMapper`
(`mappers.py:203-212`): look the expression up in the cache, otherwise compute
and store; unhashable object arrays fall back to the uncached mapper. -/
def memoized (e : Expr) (f : St → R) (st : St) : R :=
  match e with
  | .arr _ => f st
  | _ =>
    match alookup e st.memo with
    | some r => .ok (r, st)
    | none =>
      match f st with
      | .error x => .error x
      | .ok (r, st') => .ok (r, { st' with memo := (e, r) :: st'.memo })

/-- Recursive call `self.rec(child)`. -/
def Act.run (a : Act) (st : St) : R := memoized a.1 a.2 st

/-- `map_sum`, loop over the remaining children (`compiler.py:689-694`). -/
def sumRest : Expr → List Act → St → R
  | v, [], st => .ok (v, st)
  | v, a :: l, st =>
    match a.run st with
    | .error x => .error x
    | .ok (r, st1) =>
      let p := assignNew 0 none (.sum [v, r]) st1
      sumRest p.1 l p.2

/-- `map_sum` (`compiler.py:685-696`). -/
def sumFold : List Act → St → R
  | [], _ => .error .index
  | a :: l, st =>
    match a.run st with
    | .error x => .error x
    | .ok (r, st1) =>
      let p := assignNew 0 none r st1
      sumRest p.1 l p.2

/-- `[self.rec(c) for c in children]` (identity mapper, kernel arguments
`compiler.py:770-772`). -/
def mapRec : List Act → St → Except CErr (List Expr × St)
  | [], st => .ok ([], st)
  | a :: l, st =>
    match a.run st with
    | .error x => .error x
    | .ok (r, st1) =>
      match mapRec l st1 with
      | .error x => .error x
      | .ok (rs, st2) => .ok (r :: rs, st2)

/-- `[self.assign_to_new_var(self.rec(c)) for c in ...]`
(`compiler.py:704-706`, `755-757`). -/
def mapAssign : List Act → St → Except CErr (List Expr × St)
  | [], st => .ok ([], st)
  | a :: l, st =>
    match a.run st with
    | .error x => .error x
    | .ok (r, st1) =>
      let p := assignNew 0 none r st1
      match mapAssign l p.2 with
      | .error x => .error x
      | .ok (rs, st2) => .ok (p.1 :: rs, st2)

/-- Grouping features (`compiler.py:586-596` with the source's
`op_group_features` and `hashable_kernel_args`, `primitives.py:1872-1882`). -/
structure Feat where
  src : String
  pairs : List (String × Expr)
  extra : Option String
  kargs : List (String × Expr)
  deriving DecidableEq

/-- `op_group_features`; for non-`IntG`s the value is irrelevant. -/
def feat (c : Cfg) : Expr → Feat
  | .intg g d k =>
    { src := g.src
      pairs := sortKey c.skKey (g.sks.zip d)
      extra := c.groupExtra g.src g.tk
      kargs := sortKey Prod.fst (g.kn.zip k) }
  | _ => ⟨"", [], none, []⟩

/-- `[self.get_var_name() for _op in group]` (`compiler.py:760`). -/
def freshNames : Nat → List String → List String × List String
  | 0, used => ([], used)
  | n + 1, used =>
    let x := varName none used
    let r := freshNames n (x :: used)
    (x :: r.1, r.2)

/-- target kernel of an operator. -/
def tkOf : Expr → String
  | .intg g _ _ => g.tk
  | _ => ""
/-- target of an operator. -/
def tgtOf : Expr → String
  | .intg g _ _ => g.tgt
  | _ => ""
/-- forced limit of an operator. -/
def limOf : Expr → Lim
  | .intg g _ _ => g.lim
  | _ => .avg

/-- `{kernel: i for i, kernel in enumerate(target_kernels)}[k]`
(`compiler.py:765-766`): the last position wins; counting starts at `i`. -/
def lastIdx (k : String) : List String → Nat → Nat → Nat
  | [], _, best => best
  | x :: xs, i, best => lastIdx k xs (i + 1) (if x = k then i else best)

/-- maximum of the priorities of a group (`compiler.py:800`). -/
def maxPrio (c : Cfg) : List Expr → Int
  | [] => 0
  | e :: l => l.foldl (fun m x => max m (c.prio x)) (c.prio e)

/-- `group_to_operators[features]` in set iteration order (`compiler.py:608-612`,
`759`); `all` are the operators collected by `__call__` (`compiler.py:603-607`). -/
def groupOf (c : Cfg) (all : List Expr) (e : Expr) : List Expr :=
  c.setIter (all.filter (fun o => feat c o = feat c e))

/-- `target_kernels` (`compiler.py:762-763`). -/
def groupTks (c : Cfg) (group : List Expr) : List String :=
  (sortKey (fun o => c.tkRepr (tkOf o)) group).map tkOf

/-- `sort_arrays_together(source_kernels, densities, key=str)`
(`compiler.py:750-751`, `utils.py:47-57`), on densities paired with their
compilation actions. -/
def sortedPairs (c : Cfg) (g : IG) (dActs : List Act) : List (String × Act) :=
  sortKey (fun p => c.skKey (p.1, p.2.1)) (g.sks.zip dActs)

/-- `outputs` (`compiler.py:780-787`). -/
def mkOuts (names : List String) (group : List Expr) (tks : List String) : List Out :=
  (names.zip group).map (fun p =>
    { name := p.1, tkIdx := lastIdx (tkOf p.2) tks 0 0, tgt := tgtOf p.2, lim := limOf p.2 : Out })

/-- Append the `ComputePotential` statement and record the variables of all
group members (`compiler.py:789-805`). -/
def emitPot (c : Cfg) (g : IG) (group : List Expr) (names : List String) (sks : List String)
    (dvars kvals : List Expr) (st : St) : St :=
  { st with
    code := st.code ++ [.pot (mkOuts names group (groupTks c group)) (groupTks c group) g.kn kvals
                          sks dvars g.src (maxPrio c group)]
    e2v := (names.zip group).foldl (fun m p => (p.2, .nir p.1) :: m) st.e2v }

/-- `map_int_g` (`compiler.py:744-807`). -/
def intgBody (c : Cfg) (all : List Expr) (e : Expr) (g : IG) (dActs kActs : List Act)
    (st : St) : R :=
  match alookup e st.e2v with
  | some v => .ok (v, st)
  | none =>
    if (sortedPairs c g dActs).isEmpty then .error .unpack
    else
      match mapAssign ((sortedPairs c g dActs).map Prod.snd) st with
      | .error x => .error x
      | .ok (dvars, st1) =>
        if (groupOf c all e).isEmpty then .error .key
        else if (groupOf c all e).any (fun o => limOf o = .avg) then .error .assertion
        else
          match mapRec kActs
              { st1 with names := (freshNames (groupOf c all e).length st1.names).2 } with
          | .error x => .error x
          | .ok (kvals, st3) =>
            let st4 := emitPot c g (groupOf c all e)
              (freshNames (groupOf c all e).length st1.names).1
              ((sortedPairs c g dActs).map Prod.fst) dvars kvals st3
            match alookup e st4.e2v with
            | some v => .ok (v, st4)
            | none => .error .key

/-- is the expression a layer potential -/
def isIntG : Expr → Bool
  | .intg .. => true
  | _ => false

mutual
/-- The `map_...` methods of `OperatorCompiler` (`compiler.py:684-811`), with
`IdentityMapper` (`mappers.py:100-200`) for all other nodes. -/
def compU (c : Cfg) (all : List Expr) : Expr → St → R
  | .num n => fun st => .ok (.num n, st)
  | .var x => fun st => .ok (.var x, st)
  | .nir x => fun st => .ok (.nir x, st)
  | .sub x i => fun st => .ok (.sub x i, st)
  | .op f l => fun st =>
    match mapRec (acts c all l) st with
    | .error x => .error x
    | .ok (rs, st') => .ok (.op f rs, st')
  | .ite a b d => fun st =>
    match memoized a (compU c all a) st with
    | .error x => .error x
    | .ok (ra, st1) =>
      match memoized b (compU c all b) st1 with
      | .error x => .error x
      | .ok (rb, st2) =>
        match memoized d (compU c all d) st2 with
        | .error x => .error x
        | .ok (rd, st3) => .ok (.ite ra rb rd, st3)
  | .sum l => sumFold (acts c all l)
  | .arr l => fun st =>
    match mapAssign (acts c all l) st with
    | .error x => .error x
    | .ok (rs, st') => .ok (.arr rs, st')
  | .cse p sc child => fun st =>
    if sc ≠ .evaluation then .ok (.cse p sc child, st)
    else
      match alookup child st.e2v with
      | some v => .ok (v, st)
      | none =>
        match (if isIntG child then compU c all child st
               else memoized child (compU c all child) st) with
        | .error x => .error x
        | .ok (r, st1) =>
          let q := assignNew (c.prio (.cse p sc child)) p r st1
          .ok (q.1, { q.2 with e2v := (child, q.1) :: q.2.e2v })
  | .intg g d k => intgBody c all (.intg g d k) g (acts c all d) (acts c all k)
/-- children together with their compilation actions -/
def acts (c : Cfg) (all : List Expr) : List Expr → List Act
  | [] => []
  | e :: l => (e, compU c all e) :: acts c all l
end

/-- initial compiler state (`compiler.py:575-579`) -/
def St.init : St := ⟨[], [], [], []⟩

/-- `OperatorCompiler.__call__` (`compiler.py:600-621`). -/
def compile (c : Cfg) (e : Expr) : Except CErr Code :=
  match memoized e (compU c (nub (ops e)) e) St.init with
  | .error x => .error x
  | .ok (r, st) => .ok (mkCode st.code r)

/-! ## Execution -/

/-- Interpretation of the primitive operations.  `none` models a raised
exception.  `pot src pairs kargs tk tgt lim` is the value of a layer potential
with the given source, (source kernel, density) pairs, kernel arguments, target
kernel, target and limit (`exec_compute_potential_insn` of the source). -/
structure Interp (V : Type) where
  num : Int → V
  sub : V → Nat → Option V
  op : String → List V → Option V
  truthy : V → Bool
  zero : V
  add : V → V → V
  arr : List V → V
  pot : String → List (String × V) → List (String × V) → String → String → Lim → Option V

/-- Run time failures: `ValueError("missing input")`, `KeyError` of `del`,
unknown variable, an operation that raises, no `map_int_g` in the evaluator,
index error. -/
inductive XErr
  | missingInput (x : String) | delKey (x : String) | unbound (x : String)
  | raised | noIntG | index
  deriving DecidableEq, Repr

/-- Variable context, a `dict`. -/
abbrev Ctx (V : Type) := String → Option V
/-- CSE caches: key `(prefix, child)` (`execution.py:316-327`) per scope. -/
abbrev Cache (V : Type) := List ((Scope × Option String × Expr) × V)

variable {V : Type}

mutual
/-- `EvaluationMapperBase` (`execution.py:111-389`) over pymbolic's evaluator.
Conditionals only evaluate the branch taken; sums are Python `sum`, starting
at 0; CSEs of `EXPRESSION`/`DISCRETIZATION` scope go through the cache
(`execution.py:316-343`). -/
def ev (I : Interp V) (ctx : Ctx V) : Expr → Cache V → Except XErr (V × Cache V)
  | .num n, cc => .ok (I.num n, cc)
  | .var x, cc => match ctx x with
    | some v => .ok (v, cc)
    | none => .error (.unbound x)
  | .nir x, cc => match ctx x with
    | some v => .ok (v, cc)
    | none => .error (.unbound x)
  | .sub x i, cc => match ctx x with
    | some v => match I.sub v i with
      | some w => .ok (w, cc)
      | none => .error .raised
    | none => .error (.unbound x)
  | .op f l, cc => match evL I ctx l cc with
    | .error x => .error x
    | .ok (vs, cc') => match I.op f vs with
      | some w => .ok (w, cc')
      | none => .error .raised
  | .ite c a b, cc => match ev I ctx c cc with
    | .error x => .error x
    | .ok (v, cc') => if I.truthy v then ev I ctx a cc' else ev I ctx b cc'
  | .sum l, cc => match evL I ctx l cc with
    | .error x => .error x
    | .ok (vs, cc') => .ok (vs.foldl I.add I.zero, cc')
  | .arr l, cc => match evL I ctx l cc with
    | .error x => .error x
    | .ok (vs, cc') => .ok (I.arr vs, cc')
  | .cse p sc child, cc =>
    if sc = .evaluation then ev I ctx child cc
    else match alookup (sc, p, child) cc with
      | some v => .ok (v, cc)
      | none => match ev I ctx child cc with
        | .error x => .error x
        | .ok (v, cc') => .ok (v, ((sc, p, child), v) :: cc')
  | .intg .., _ => .error .noIntG
/-- evaluate the operands from left to right, threading the cache of evaluated subexpressions (`execution.py:111-130`, `EvaluationMapperBase`) -/
def evL (I : Interp V) (ctx : Ctx V) : List Expr → Cache V → Except XErr (List V × Cache V)
  | [], cc => .ok ([], cc)
  | e :: l, cc => match ev I ctx e cc with
    | .error x => .error x
    | .ok (v, cc1) => match evL I ctx l cc1 with
      | .error x => .error x
      | .ok (vs, cc2) => .ok (v :: vs, cc2)
end

/-- Outputs of a potential statement. -/
def execOuts (I : Interp V) (src : String) (pairs kargs : List (String × V))
    (tks : List String) : List Out → Except XErr (List (String × V))
  | [] => .ok []
  | o :: os => match tks[o.tkIdx]? with
    | none => .error .index
    | some tk => match I.pot src pairs kargs tk o.tgt o.lim with
      | none => .error .raised
      | some v => match execOuts I src pairs kargs tks os with
        | .error x => .error x
        | .ok r => .ok ((o.name, v) :: r)

/-- `exec_assign` (`execution.py:366-368`) and `exec_compute_potential_insn`
(`execution.py:399-402`): the list of `(name, value)` assignments. -/
def execStmt (I : Interp V) (ctx : Ctx V) : Stmt → Cache V →
    Except XErr (List (String × V) × Cache V)
  | .assign n e _, cc => match ev I ctx e cc with
    | .error x => .error x
    | .ok (v, cc') => .ok ([(n, v)], cc')
  | .pot outs tks kn kv sks ds src _, cc => match evL I ctx ds cc with
    | .error x => .error x
    | .ok (dv, cc1) => match evL I ctx kv cc1 with
      | .error x => .error x
      | .ok (kvv, cc2) =>
        match execOuts I src (sks.zip dv) (kn.zip kvv) tks outs with
        | .error x => .error x
        | .ok r => .ok (r, cc2)

/-- `del context[name]` for all discardable names (`execution.py:680-681`). -/
def delAll (ctx : Ctx V) : List String → Except XErr (Ctx V)
  | [] => .ok ctx
  | x :: xs => match ctx x with
    | none => .error (.delKey x)
    | some _ => delAll (fun y => if y = x then none else ctx y) xs

/-- `context[target] = value` for all assignments (`execution.py:689-694`). -/
def setAll (ctx : Ctx V) : List (String × V) → Ctx V
  | [] => ctx
  | (x, v) :: l => setAll (fun y => if y = x then some v else ctx y) l

/-- The loop over the schedule (`execution.py:679-694`). -/
def runSched (I : Interp V) : List (Stmt × List String) → Ctx V → Cache V →
    Except XErr (Ctx V × Cache V)
  | [], ctx, cc => .ok (ctx, cc)
  | (s, disc) :: l, ctx, cc => match delAll ctx disc with
    | .error x => .error x
    | .ok ctx1 => match execStmt I ctx1 s cc with
      | .error x => .error x
      | .ok (as, cc1) => runSched I l (setAll ctx1 as) cc1

/-- `execute` (`execution.py:672-698`).  Besides the value, the final context
(the dictionary passed by the caller is mutated in place) and caches are returned. -/
def execute (I : Interp V) (code : Code) (ctx : Ctx V) (cc : Cache V) :
    Except XErr (V × Ctx V × Cache V) :=
  match code.inputs.find? (fun x => (ctx x).isNone) with
  | some x => .error (.missingInput x)
  | none => match runSched I code.schedule ctx cc with
    | .error x => .error x
    | .ok (ctx', cc') => match ev I ctx' code.result cc' with
      | .error x => .error x
      | .ok (v, cc'') => .ok (v, ctx', cc'')

end Verif.Compiler
