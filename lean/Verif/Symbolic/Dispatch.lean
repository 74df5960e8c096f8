import Mathlib.Tactic.Common

/-!
# Which expression nodes the mappers handle (C86)

Every pass of `bind` (`pytential/symbolic/execution.py:626-656`, `:963-1010`) is a `pymbolic` mapper: at a node it calls
the method named by the node's class, `map_` followed by the class name in snake case
(`primitives.py:1604`, `:1690` rely on this naming), and raises `UnsupportedExpressionError` if the mapper has none.
No class of `pytential` sets `mapper_method` itself.  The method tables below are those of the classes cited, without the
methods for `pymbolic`'s own nodes, which `pymbolic`'s base classes supply.
-/

namespace Verif.Dispatch

/-- errors of a pass -/
inductive Err
  | unsupported (cls : String)
  | value (cls : String)
deriving DecidableEq

/-- insert the underscores of snake case: between a lower and an upper case letter, and before an upper case letter that
is preceded by an upper and followed by a lower case one (`pymbolic.primitives._CAMEL_TO_SNAKE_RE`) -/
def underscores : Option Char → List Char → List Char
  | _, [] => []
  | prev, c :: cs =>
    let low := fun o : Option Char => (o.map Char.isLower).getD false
    let upp := fun o : Option Char => (o.map Char.isUpper).getD false
    if c.isUpper && (low prev || (upp prev && low cs.head?)) then '_' :: c :: underscores (some c) cs
    else c :: underscores (some c) cs

/-- `mapper_method` of a class (`pymbolic.primitives.expr_dataclass`, used in `primitives.py:1553` and for all other
nodes) -/
def mapperMethod (cls : String) : String :=
  "map_" ++ String.ofList ((underscores none cls.toList).map Char.toLower)

/-- expression nodes of `pytential` (`primitives.py:636-2040`) and, by name, everything from `pymbolic` -/
inductive Node
  | errorExpression | isShapeClass | qWeight | ones | nodeCoordinateComponent | numReferenceDerivative
  | interpolation | interleave | iterativeInverse | nodeSum | nodeMax | nodeMin
  | elementwiseSum | elementwiseMin | elementwiseMax | intG
  | pymbolic
deriving DecidableEq

/-- class names (`primitives.py:551`, `:644-700`, `:1495-1556`, `:1632-1760`, `:1900`) -/
def Node.cls : Node → String
  | .errorExpression => "ErrorExpression"
  | .isShapeClass => "IsShapeClass"
  | .qWeight => "QWeight"
  | .ones => "Ones"
  | .nodeCoordinateComponent => "NodeCoordinateComponent"
  | .numReferenceDerivative => "NumReferenceDerivative"
  | .interpolation => "Interpolation"
  | .interleave => "Interleave"
  | .iterativeInverse => "IterativeInverse"
  | .nodeSum => "NodeSum"
  | .nodeMax => "NodeMax"
  | .nodeMin => "NodeMin"
  | .elementwiseSum => "ElementwiseSum"
  | .elementwiseMin => "ElementwiseMin"
  | .elementwiseMax => "ElementwiseMax"
  | .intG => "IntG"
  | .pymbolic => "Sum"

/-- expressions: nodes with their operands -/
inductive Tree
  | mk (n : Node) (children : List Tree)

/-- methods of `IdentityMapper` (`mappers.py:103-201`) -/
def identityM : List String :=
  ["map_node_sum", "map_node_max", "map_node_min", "map_elementwise_sum", "map_elementwise_min", "map_elementwise_max",
    "map_num_reference_derivative", "map_spatial_constant", "map_ones", "map_q_weight", "map_node_coordinate_component",
    "map_is_shape_class", "map_error_expression", "map_inverse", "map_int_g", "map_interpolation", "map_interleave"]

/-- methods of `CombineMapper` (`mappers.py:220-265`) -/
def combineM : List String :=
  ["map_node_sum", "map_node_max", "map_node_min", "map_num_reference_derivative", "map_elementwise_sum",
    "map_elementwise_min", "map_elementwise_max", "map_interpolation", "map_interleave", "map_spatial_constant",
    "map_int_g", "map_inverse"]

/-- methods of `Collector` (`mappers.py:272-288`): its own and those of `CombineMapper` -/
def collectorM : List String :=
  ["map_ones", "map_is_shape_class", "map_error_expression", "map_node_coordinate_component", "map_q_weight",
    "map_spatial_constant"] ++ combineM

/-- methods of `LocationTagger` (`mappers.py:391-530`): its own and those of `IdentityMapper` -/
def taggerM : List String :=
  ["map_ones", "map_q_weight", "map_node_coordinate_component", "map_num_reference_derivative", "map_elementwise_sum",
    "map_elementwise_min", "map_elementwise_max", "map_int_g", "map_inverse", "map_interpolation", "map_interleave",
    "map_is_shape_class", "map_error_expression"] ++ identityM

/-- methods of `EvaluationMapperBase` (`execution.py:111-392`) -/
def evaluationM : List String :=
  ["map_max", "map_min", "map_node_sum", "map_node_max", "map_node_min", "map_elementwise_sum", "map_elementwise_min",
    "map_elementwise_max", "map_ones", "map_node_coordinate_component", "map_num_reference_derivative", "map_q_weight",
    "map_inverse", "map_interpolation", "map_interleave", "map_error_expression", "map_is_shape_class", "map_call"]

/-- methods of `StringifyMapper` (`mappers.py:892-1015`) -/
def stringifyM : List String :=
  ["map_ones", "map_inverse", "map_elementwise_sum", "map_elementwise_min", "map_elementwise_max", "map_node_max",
    "map_node_min", "map_node_sum", "map_node_coordinate_component", "map_num_reference_derivative", "map_q_weight",
    "map_int_g", "map_interpolation", "map_interleave", "map_error_expression", "map_is_shape_class"]

/-- the passes an expression goes through when bound and evaluated, and when printed -/
inductive Pass
  /-- `flatten` (`mappers.py:379-388`, `execution.py:641`) -/
  | flatten
  /-- `ToTargetTagger` (`mappers.py:532-560`, `execution.py:643-648`) -/
  | toTarget
  /-- `DerivativeBinder` (`mappers.py:703-715`, `execution.py:649`) -/
  | derivativeBinder
  /-- `UnregularizedPreprocessor`, `QBXPreprocessor` (`mappers.py:718-740`, `:829-890`, `execution.py:651-653`) -/
  | preprocessor
  /-- `InterpolationPreprocessor` (`mappers.py:743-826`, `execution.py:655-656`) -/
  | interpolation
  /-- `OperatorCollector` (`mappers.py:291-294`, `compiler.py:560-590`) -/
  | operatorCollector
  /-- `OperatorCompiler` (`compiler.py:533-810`) -/
  | compiler
  /-- `DependencyMapper` (`mappers.py:297-302`, `compiler.py:133-150`) -/
  | dependency
  /-- `EvaluationMapper` (`execution.py:111-406`) -/
  | evaluation
  /-- `StringifyMapper` (`mappers.py:892-1015`) -/
  | stringify
deriving DecidableEq

/-- method table of a pass -/
def Pass.methods : Pass → List String
  | .flatten | .derivativeBinder | .preprocessor | .interpolation | .compiler => identityM
  | .toTarget => taggerM
  | .operatorCollector | .dependency => collectorM
  | .evaluation => evaluationM
  | .stringify => stringifyM

/-- what `pymbolic` raises for a node without method: `UnsupportedExpressionError`, or `ValueError` from a stringifier -/
def missing (p : Pass) (n : Node) : Err := if p = .stringify then .value n.cls else .unsupported n.cls

/-- dispatch at a node: nodes of `pymbolic` are handled by the base classes -/
def dispatch (p : Pass) : Node → Except Err Unit
  | .pymbolic => .ok ()
  | n => if p.methods.contains (mapperMethod n.cls) then .ok () else .error (missing p n)

mutual
/-- a pass over an expression: dispatch at the node, then the operands (the methods cited above recurse into all of
them) -/
def run (p : Pass) : Tree → Except Err Unit
  | .mk n cs =>
    match dispatch p n with
    | .error e => .error e
    | .ok () => runAll p cs

/-- the operands in order -/
def runAll (p : Pass) : List Tree → Except Err Unit
  | [] => .ok ()
  | t :: ts =>
    match run p t with
    | .error e => .error e
    | .ok () => runAll p ts
end

mutual
/-- node class `n` occurs in the expression -/
def Occurs (n : Node) : Tree → Prop
  | .mk m cs => m = n ∨ OccursAny n cs

/-- node class `n` occurs in one of the expressions -/
def OccursAny (n : Node) : List Tree → Prop
  | [] => False
  | t :: ts => Occurs n t ∨ OccursAny n ts
end

theorem dispatch_inverse (p : Pass) : dispatch p .iterativeInverse = .error (missing p .iterativeInverse) := by
  cases p <;> decide +kernel

theorem dispatch_other (p : Pass) (n : Node) (h1 : n ≠ .iterativeInverse) (h2 : p = .evaluation → n ≠ .intG) :
    dispatch p n = .ok () := by
  cases n <;> first
    | exact absurd rfl h1
    | (cases p <;> first | (exact absurd rfl (h2 rfl)) | decide +kernel)

mutual
theorem run_spec (p : Pass) : ∀ t, (p = .evaluation → ¬ Occurs .intG t) →
    (¬ Occurs .iterativeInverse t → run p t = .ok ()) ∧
    (Occurs .iterativeInverse t → run p t = .error (missing p .iterativeInverse))
  | .mk n cs, hg => by
    have hg' : p = .evaluation → ¬ OccursAny .intG cs := fun h h' => hg h (by rw [Occurs]; exact Or.inr h')
    obtain ⟨ih1, ih2⟩ := runAll_spec p cs hg'
    by_cases hn : n = .iterativeInverse
    · refine ⟨fun h => absurd (by rw [Occurs]; exact Or.inl hn) h, fun _ => ?_⟩
      rw [run, hn, dispatch_inverse]
    · have hd : dispatch p n = .ok () :=
        dispatch_other p n hn (fun h h' => hg h (by rw [Occurs]; exact Or.inl h'))
      rw [run, hd]
      refine ⟨fun h => ih1 (fun h' => h (by rw [Occurs]; exact Or.inr h')), fun h => ?_⟩
      rw [Occurs] at h
      rcases h with h | h
      · exact absurd h hn
      · exact ih2 h

theorem runAll_spec (p : Pass) : ∀ ts, (p = .evaluation → ¬ OccursAny .intG ts) →
    (¬ OccursAny .iterativeInverse ts → runAll p ts = .ok ()) ∧
    (OccursAny .iterativeInverse ts → runAll p ts = .error (missing p .iterativeInverse))
  | [], _ => ⟨fun _ => rfl, fun h => by rw [OccursAny] at h; exact h.elim⟩
  | t :: ts, hg => by
    obtain ⟨a1, a2⟩ := run_spec p t (fun h h' => hg h (by rw [OccursAny]; exact Or.inl h'))
    obtain ⟨b1, b2⟩ := runAll_spec p ts (fun h h' => hg h (by rw [OccursAny]; exact Or.inr h'))
    by_cases ht : Occurs .iterativeInverse t
    · refine ⟨fun h => absurd (by rw [OccursAny]; exact Or.inl ht) h, fun _ => ?_⟩
      rw [runAll, a2 ht]
    · rw [runAll, a1 ht]
      refine ⟨fun h => b1 (fun h' => h (by rw [OccursAny]; exact Or.inr h')), fun h => ?_⟩
      rw [OccursAny] at h
      rcases h with h | h
      · exact absurd h ht
      · exact b2 h
end

/-- C86: every pass of `bind`, evaluation (once layer potentials have been replaced by the variables holding their
values) and printing handle every expression made of `pytential`'s nodes without `IterativeInverse`.  Partial:
`IterativeInverse` is handled by no pass, see `C86_refuted`. -/
theorem C86_handled_partial (p : Pass) (t : Tree) (hi : ¬ Occurs .iterativeInverse t)
    (he : p = .evaluation → ¬ Occurs .intG t) : run p t = .ok () :=
  (run_spec p t he).1 hi

/-- C86 is false for `IterativeInverse`: its class name makes its method `map_iterative_inverse`, whereas all mappers
define `map_inverse` (`mappers.py:170,261,483,897`, `execution.py:273`).  Already the first pass of `bind` raises
`UnsupportedExpressionError` for every expression with a solve anywhere in it, and printing it raises `ValueError`. -/
theorem C86_refuted (p : Pass) (hp : p ≠ .evaluation) (t : Tree) (h : Occurs .iterativeInverse t) :
    run p t = .error (if p = .stringify then .value "IterativeInverse" else .unsupported "IterativeInverse") ∧
      mapperMethod "IterativeInverse" = "map_iterative_inverse" :=
  ⟨(run_spec p t (fun h' => absurd h' hp)).2 h, by decide +kernel⟩

/-- a solve for a layer potential inside a sum is refused -/
example : run .flatten (.mk .pymbolic [.mk .ones [], .mk .iterativeInverse [.mk .intG [.mk .pymbolic []]]])
    = .error (.unsupported "IterativeInverse") :=
  (C86_refuted .flatten (by decide) _ (by simp [Occurs, OccursAny])).1

/-- a double layer potential of an interpolated density is handled -/
example : run .toTarget (.mk .intG [.mk .interpolation [.mk .pymbolic []], .mk .qWeight []]) = .ok () :=
  C86_handled_partial .toTarget _ (by simp [Occurs, OccursAny]) (by simp)

end Verif.Dispatch
