import Verif.Compiler.Model

/-!
# Specification for the compiler/executor properties

Direct evaluation of an expression tree, without temporaries, schedule, cache or
discards, plus the vocabulary (sub-expressions, variable names, generated names)
used in the theorem statements.
-/

namespace Verif.Compiler

variable {V : Type}

mutual
/-- Mathematical value of an expression: evaluate the tree bottom up, `none` if
an operation raises or a variable is missing. -/
def den (I : Interp V) (env : Ctx V) : Expr → Option V
  | .num n => some (I.num n)
  | .var x => env x
  | .nir x => env x
  | .sub x i => (env x).bind (fun v => I.sub v i)
  | .op f l => (denL I env l).bind (I.op f)
  | .ite c a b =>
    match den I env c with
    | none => none
    | some v => if I.truthy v then den I env a else den I env b
  | .sum l => (denL I env l).map (fun vs => vs.foldl I.add I.zero)
  | .arr l => (denL I env l).map I.arr
  | .cse _ _ c => den I env c
  | .intg g d k =>
    match denL I env d, denL I env k with
    | some dv, some kv => I.pot g.src (g.sks.zip dv) (g.kn.zip kv) g.tk g.tgt g.lim
    | _, _ => none
/-- the values of the members of a list, provided that all of them have one -/
def denL (I : Interp V) (env : Ctx V) : List Expr → Option (List V)
  | [] => some []
  | e :: l =>
    match den I env e, denL I env l with
    | some v, some vs => some (v :: vs)
    | _, _ => none
end

mutual
/-- All sub-expressions, including the expression itself. -/
def subs : Expr → List Expr
  | .num n => [.num n]
  | .var x => [.var x]
  | .nir x => [.nir x]
  | .sub x i => [.sub x i]
  | .op f l => .op f l :: subsL l
  | .ite c a b => .ite c a b :: (subs c ++ subs a ++ subs b)
  | .sum l => .sum l :: subsL l
  | .arr l => .arr l :: subsL l
  | .cse p s c => .cse p s c :: subs c
  | .intg g d k => .intg g d k :: (subsL d ++ subsL k)
/-- all subexpressions of the members of a list -/
def subsL : List Expr → List Expr
  | [] => []
  | e :: l => subs e ++ subsL l
end

/-- Names of the variables occurring in an expression. -/
def varNames (e : Expr) : List String := (deps e).map Prod.snd

/-- What users can write: no compiler temporaries, non-empty sums, layer
potentials with as many densities as (at least one) source kernels, as many
kernel argument values as names and a limit different from `'avg'` (removed
during preprocessing, C13), and no layer potential below a CSE of
`EXPRESSION`/`DISCRETIZATION` scope (these reach the evaluator, which has no rule
for them). -/
def OkNode : Expr → Prop
  | .nir _ => False
  | .sum l => l ≠ []
  | .cse _ sc c => sc ≠ .evaluation → ops c = []
  | .intg g d k =>
    g.lim ≠ .avg ∧ g.sks ≠ [] ∧ g.sks.length = d.length ∧ g.kn.length = k.length
  | _ => True

/-- Every sub-expression is something users can write. -/
def WF (e : Expr) : Prop := ∀ s ∈ subs e, OkNode s

/-- Every sub-expression has a value (no operation raises, no variable missing). -/
def AllDefined (I : Interp V) (env : Ctx V) (e : Expr) : Prop :=
  ∀ s ∈ subs e, ∃ v, den I env s = some v

/-- Names the compiler may generate for `e`: `_expr<i>`, or a CSE prefix of `e`,
possibly followed by `_<i>`. -/
def GenName (e : Expr) (x : String) : Prop :=
  (∃ i : Nat, x = "_expr" ++ toString i) ∨
  (∃ p sc c, .cse (some p) sc c ∈ subs e ∧
    (x = p ∨ ∃ i : Nat, x = p ++ "_" ++ toString i))

/-- No variable of `e` has a name the compiler may generate. -/
def NoClash (e : Expr) : Prop := ∀ x ∈ varNames e, ¬ GenName e x

/-- Laws of the interpretation needed by the compiler: Python's `sum` starts with
`0 + x = x`; a layer potential does not depend on the order in which its
(kernel, density) pairs and its keyword arguments are listed. -/
structure Lawful (I : Interp V) : Prop where
  zero_add : ∀ v, I.add I.zero v = v
  pot_perm : ∀ src p p' k k' tk tgt lim, p.Perm p' → k.Perm k' →
    I.pot src p k tk tgt lim = I.pot src p' k' tk tgt lim

/-- The iteration order of a set is some order of its elements. -/
def CfgOk (c : Cfg) : Prop := ∀ l, (c.setIter l).Perm l

end Verif.Compiler
