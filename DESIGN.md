# Formal model of inducer/pytential in Lean 4 — design

`/repo` is read as text only; nothing of it is run.  The model and the theorems are in `lean/Verif/`.
Each area is one or more modules; a module starts with the model (every definition cites file and lines of
`/repo`), then the specification vocabulary, then helper lemmas, then the property theorems `Cxx_*`, each with a
non-vacuity `example` beside it.  For big areas these parts are separate modules (`Compiler/Model`, `Compiler/Spec`,
`Compiler/Correct`…, `Compiler/Props`; `Collection/Caches`, `Collection/CacheProps`, `Collection/Props`).

Naming: a theorem `Cxx_…` belongs to property Cxx of `properties.jsonl`.  `…_partial` means that the English
property is *not* fully covered; the restriction is a hypothesis of the theorem.  `Cxx_refuted…` is a concrete
witness, evaluated by the kernel, that the unrestricted property is false of the modelled code: those properties stay
`partial` because the code violates them, not because a proof is missing.

## General modelling decisions

* Floating point numbers, device arrays and kernels' values are abstracted by an arbitrary type, by a record of
  operations without laws (GMRES, Muller), or by an arbitrary (ordered) field/ring/module: theorems of the latter kind are about
  exact arithmetic and say nothing about rounding.
* Exceptions are values (`Except Err α` / `Option α`); where a property speaks about errors, the error branches are modelled.
* Dictionary/set iteration order, statement priorities, tree/leaf enumeration order and the order of the stores of
  parallel kernels are *parameters* (or arbitrary permutations), so theorems hold for every order.
* Stateful parts (collections with caches, evaluation caches, refiner) are state machines; theorems quantify over
  all programs (operation lists) from the initial state.
* External libraries (meshmode, boxtree, sumpy, pymbolic, loopy, scipy) are parameters with their documented contract as hypothesis.

## Trusted base

* Lean 4.33.0's kernel.
* Axioms: no axiom is declared in this project.  `#print axioms` over all 659 theorems named in MANIFEST.json gives
  at most the three standard ones: 500 theorems depend on {propext, Classical.choice, Quot.sound}; 109 theorems depend on {propext, Quot.sound}; 44 theorems depend on {propext}; 6 theorems depend on no axiom.
* My reading of `/repo`: that each definition models the cited lines (the simplifications are stated at the definition
  or in the module header).
* The contracts of external libraries, which are hypotheses (or structure fields) of the theorem statements:
  meshmode (refiner returns the refinement of its current mesh, connections interpolate), boxtree (tree arrays, area
  query and traversal coverage, key-value sort, list filters), sumpy (translation operators are additive, P2P and subset
  generators compute the entries asked for), pymbolic (mapper dispatch, generated `__eq__`/`__hash__`), scipy
  (`interpolative` returns a column/row interpolation with the requested error), loopy/pyopencl (kernels execute all their stores once).

## Properties: what is modelled, how it is proved, what is proved

After each theorem: module, and the axioms it depends on (P = propext, C = Classical.choice, Q = Quot.sound, - = none).

### C01 Bound expressions evaluate to their mathematical value — proved

For every symbolic expression all of whose subexpressions evaluate without an exception (compiled conditionals compute both branches) and whose variable names do not clash with the names the compiler generates (names of the form _exprN, and CSE prefixes with optional _N suffix), calling the bound expression with values for its variables returns exactly the value obtained by evaluating the expression tree directly; splitting sums into temporaries, sharing CSEs, batching layer potentials and discarding variables early never change the result. If some operations may raise, then whatever is returned is still the value of the expression (conditions of conditionals being defined), and for an expression without conditionals a value is returned exactly if direct evaluation has one and an exception is raised otherwise.

*Model and proof.* Model: expression trees (numbers, variables, n-ary operations, sums, CSEs, IntGs, object arrays), `OperatorCompiler` as a state machine over (code, memo, expr_to_var, assigned names, groups), `_compute_schedule`, `BoundExpression.execute`. Proof: compile invariant 'every recorded variable, evaluated after running the emitted statements in any dependency-respecting order, denotes its expression', composed with the schedule theorems (C03/C04).

*Status.* for expressions after preprocessing; every sub-expression must evaluate without error (C01_untaken_branch_is_computed shows why: compiled conditionals are not lazy)

* `Verif.Compiler.C01_bound_eval` (Verif/Compiler/Props.lean; PCQ): C01: evaluating a bound expression succeeds and returns the directly evaluated value, for every expression, interpretation, priority assignment, sort key, set iteration order, input and valid cache content.
* `Verif.Compiler.C01_untaken_branch_is_computed` (Verif/Compiler/Props.lean; PCQ): Why C01 asks for all sub-expressions to be defined: compiled conditionals are not lazy, a sum in the branch that is not taken is still computed.
* `Verif.Compiler.C01_sound` (Verif/Compiler/Sound.lean; PCQ): **C01**: a value returned by a bound expression is the value of the expression, whether or not some operation in it can raise, as long as the conditions of its conditionals have values: nothing raised is ever turned into a result.
* `Verif.Compiler.C01_exact` (Verif/Compiler/Sound.lean; PCQ): **C01**, exactly: an expression without conditionals has a value if and only if its bound form returns one, and it is the same; otherwise an exception is raised. For every interpretation of the operations, priorities, set orders, inputs and valid cache content.

### C02 Evaluation does not depend on how input variables are named — partial

Renaming the user's input variables (and the corresponding keyword arguments) does not change the value of a bound expression.

*Model and proof.* Same model. Expected false (name capture). Witness theorem, plus partial under name disjointness (corollary of C01).

*Status.* false in general: name capture by a CSE prefix (C02_refuted); proved when neither set of names clashes with generated names

* `Verif.Compiler.C02_rename_partial` (Verif/Compiler/Props.lean; PCQ): C02 (part): renaming the inputs does not change the value, provided neither the old nor the new names are names the compiler generates. Missing: the same without the no-clash hypotheses, which is false (`C02_refuted`).
* `Verif.Compiler.C02_refuted` (Verif/Compiler/Props.lean; PCQ): C02 fails for inputs named like a CSE prefix: with the input called `sigma` the compiled code returns `4 sigma` instead of `3 sigma`, with the input called `tau` it returns the right value.

### C03 Compiled schedules are complete, duplicate-free and topologically ordered — proved

In the code of every bound expression each statement is scheduled exactly once, and only after every variable it reads is an input or has been assigned by an earlier statement and not discarded since.

*Model and proof.* Model `_get_next_step`/`_compute_schedule` over arbitrary statement lists and an arbitrary priority function; invariant over the scheduling loop.

* `Verif.Compiler.C03_schedule_safe` (Verif/Compiler/Props.lean; PCQ): C03 (safety half): for every statement list and result, each step reads only inputs and variables assigned by earlier steps, none of which has been released, and no statement is scheduled twice.
* `Verif.Compiler.C03_priority` (Verif/Compiler/Props.lean; PCQ): C03 (order): no statement is overtaken by one of lower priority: when a step is taken, no later statement all of whose inputs are there has a higher priority.
* `Verif.Compiler.C03_schedule` (Verif/Compiler/Props.lean; PCQ): C03: compiling succeeds, the schedule executes every emitted statement exactly once (it is a permutation of the emitted statements), and each step reads only inputs and variables that earlier steps assigned and nobody released.

### C04 No variable is discarded while still needed — proved

A variable released by the schedule is never read by a later statement nor by the result expression, and releasing it never fails: executing the code of a bound expression with all required inputs never raises KeyError/unbound variable.

*Model and proof.* Same loop; invariant 'available = inputs + assigned − discarded'.

* `Verif.Compiler.C04_discards_safe` (Verif/Compiler/Props.lean; PCQ): C04 (schedule): for every statement list and result, each released variable exists at that point, is read neither by the step, nor by any later step, nor by the result.
* `Verif.Compiler.C04_execution_safe` (Verif/Compiler/Props.lean; PCQ): C04 (execution): if every variable of the expression is supplied, evaluation can only fail because an operation or layer potential itself raises: there is no missing input, no failing `del`, no unbound variable, no index error.

### C05 Missing inputs are reported before any computation — partial

If a variable occurring in a bound expression is not supplied, evaluation raises ValueError('missing input') before any statement runs.

*Model and proof.* Model the input check of `execute`; partial because variables of the result expression only are not checked.

*Status.* false for variables read only by the result expression (C05_refuted); proved for all variables occurring in layer potentials, and otherwise 'reported or occurs in the result'

* `Verif.Compiler.C05_missing_density_partial` (Verif/Compiler/Props.lean; PCQ): C05 (part): if a variable occurring in a layer potential of the expression is not supplied, evaluation fails with "missing input" naming a variable that is indeed missing; this is decided before the first statement (the first line of `execute`). Missing: variables that occur only outside layer potentials (see `C05_read_or_result_partial` and `C05_refuted`).
* `Verif.Compiler.C05_read_or_result_partial` (Verif/Compiler/Props.lean; PCQ): C05 (part): a missing variable is either reported before any statement runs, or it occurs literally in the final result expression.
* `Verif.Compiler.C05_refuted` (Verif/Compiler/Props.lean; PCQ): C05 fails for a variable that is only read by the result expression: `2*x` with no inputs is not reported as a missing input.

### C06 Each layer potential group is computed once and every operator receives its own output — proved

All IntG operators with equal source, source kernels, densities and kernel arguments are evaluated by a single potential statement, no group is evaluated twice, and each operator's variable is bound to the output with that operator's own target kernel, target and limit.

*Model and proof.* Compiler invariant on emitted ComputePotential statements.

*Status.* value side (each operator gets its own output) is part of C01

* `Verif.Compiler.C06_groups_once` (Verif/Compiler/Props.lean; PCQ): C06: there is a list of representatives, pairwise in different groups, covering the group of every layer potential of the expression, such that the potential statements executed are, one by one and in the order emitted, the statements of the representatives' groups: same source, kernels, kernel arguments; the highest of the group's priorities; as many outputs as there are distinct operators in the group; and for each operator of the group an output with exactly its target kernel, target and limit. (That each operator gets the value of its own output is part of `C01_bound_eval`.)
* `Verif.Compiler.C06_count` (Verif/Compiler/Props.lean; PCQ): number of distinct groups = number of potential statements executed

### C07 Evaluating a bound expression leaves the caller's context reusable — partial

Calling BoundExpression.eval(context) twice with the same dictionary gives the same value both times.

*Model and proof.* Model dict mutation in `execute`; expected false: witness; partial for code without discards of inputs.

*Status.* false for eval(context) (C07_refuted: execute deletes inputs from the caller's dict); proved for __call__. C07_eval_twice says exactly what happens with one dictionary: the second call returns the same value if no variable was deleted and otherwise raises 'missing input' for a deleted one; no other value is ever returned

* `Verif.Compiler.C07_call_twice_partial` (Verif/Compiler/Props.lean; PCQ): C07 (part): `BoundExpression.__call__` (`execution.py:914-930`, keyword arguments are collected in a fresh dictionary for each call): calling twice with the same arguments gives the same value. Missing: the same for `eval` with one dictionary, which is false (`C07_refuted`).
* `Verif.Compiler.C07_refuted` (Verif/Compiler/Props.lean; PCQ): C07 fails for `eval(context)`: the second evaluation with the dictionary left by the first reports a missing input, because `execute` deletes inputs from the caller's dictionary. The expression is `S(2 sigma) + 3`.
* `Verif.Compiler.C07_eval_twice` (Verif/Compiler/Twice.lean; PCQ): **C07**, exactly: `eval(context)` twice with the same dictionary (and the caches left by the first call). The first call leaves each variable of the expression in the dictionary or deletes it. If it deletes none of those that were there, the second call returns the same value; otherwise the second call raises "missing input", naming a variable the first call deleted. Nothing else can happen: no call ever returns another value.

### C08 CSE caching across evaluations is transparent — partial

The value returned by a bound expression called repeatedly with different inputs equals the value of a fresh evaluation each time, whatever the CSE scopes in the expression, and whether or not earlier calls raised exceptions or were interrupted.

*Model and proof.* Model the evaluator's CSE caches over a sequence of calls; partial for cached subtrees that do not depend on inputs; witness for the rest.

*Status.* False for input-dependent EXPRESSION/DISCRETIZATION CSEs (C08_refuted); proved when cached CSEs are closed: C08_history_partial for calls that succeed, C08_crash and C08_crashes_partial for all histories, with calls that raise or are interrupted after any number of steps (caches keep what was stored; the conditions of conditionals must have values).

* `Verif.Compiler.C08_crash` (Verif/Compiler/Crash.lean; PCQ): **C08, one call**: however a call ends, with a result, an exception or an interrupt after any number of steps, the caches hold correct values afterwards; a result is the value of the expression; and a call that is not interrupted returns the value if the expression has one.
* `Verif.Compiler.C08_crashes_partial` (Verif/Compiler/Crash.lean; PCQ): **C08, histories**: in every sequence of calls, of any bound expressions on the same places, with any inputs, some of which raise and some of which are interrupted after any number of steps, each call returns nothing but the value of its expression, and a call that is not interrupted returns it if there is one: earlier calls, however they ended, have no influence. Partial: as long as the CSEs of `EXPRESSION`/`DISCRETIZATION` scope do not depend on input variables (`C08_refuted`).
* `Verif.Compiler.C08_same` (Verif/Compiler/Crash.lean; PCQ): **C08**: without interrupts the calls are those of `calls` as long as nothing raises: the two models agree.
* `Verif.Compiler.C08_history_partial` (Verif/Compiler/Props.lean; PCQ): C08 (part): whatever the sequence of calls (of any bound expressions on the same places, with any inputs), every call returns the value of a fresh evaluation, as long as the CSEs of `EXPRESSION`/`DISCRETIZATION` scope do not depend on input variables. Missing: input dependent CSEs of these scopes, for which the claim is false (`C08_refuted`).
* `Verif.Compiler.C08_refuted` (Verif/Compiler/Props.lean; PCQ): C08 fails for input dependent CSEs of scope `EXPRESSION`: the second call returns the value of the first.

### C09 DOFDescriptor construction, copying and stage changes — proved

A descriptor can be built exactly from valid stages/granularities (others raise ValueError); copy changes exactly the given fields; to_stageN sets the stage and nothing else, the last one wins; passing a descriptor as geometry takes over its stage unless a stage is given explicitly, and never its granularity.

*Model and proof.* Direct model of `DOFDescriptor` constructor/copy/to_stageN.

* `Verif.DofDesc.C09_construct` (Verif/Symbolic/DofDesc.lean; PQ): C09 (constructor): construction succeeds exactly for legal stages and granularities, raises `ValueError` otherwise, keeps geometry and stage, and uses node granularity by default.
* `Verif.DofDesc.C09_copy_fields` (Verif/Symbolic/DofDesc.lean; PQ): C09 (copy): with a geometry that is not a descriptor, `copy` changes exactly the given fields and fails exactly when an explicitly given stage/granularity is illegal.
* `Verif.DofDesc.C09_copy_rejects` (Verif/Symbolic/DofDesc.lean; PQ): C09 (copy with illegal explicit arguments): `ValueError`.
* `Verif.DofDesc.C09_copy_from_descriptor` (Verif/Symbolic/DofDesc.lean; PQ): C09 (copy with a descriptor as geometry): takes over geometry (unless unset) and stage (unless a stage is given explicitly), never the granularity.
* `Verif.DofDesc.C09_last_stage_wins` (Verif/Symbolic/DofDesc.lean; P): C09 (stages): any sequence of `to_stage...` calls succeeds and sets exactly the stage, to that of the last call.

### C10 as_dofdesc is idempotent and descriptor equality is an equivalence compatible with hashing — proved

as_dofdesc(as_dofdesc(x)) == as_dofdesc(x); equal descriptors have equal hashes and equality is reflexive, symmetric and transitive.

*Model and proof.* Direct model of `as_dofdesc` and dataclass equality/hash.

* `Verif.DofDesc.C10_as_dofdesc_idempotent` (Verif/Symbolic/DofDesc.lean; PQ): C10: `as_dofdesc` never fails and is idempotent.
* `Verif.DofDesc.C10_as_dofdesc_value` (Verif/Symbolic/DofDesc.lean; P): C10: meaning of `as_dofdesc`: descriptors are unchanged; a stage, a granularity or any other identifier sets exactly that field.
* `Verif.DofDesc.C10_eq_hash` (Verif/Symbolic/DofDesc.lean; P): C10: `==` on descriptors is an equivalence relation, `!=` is its negation, and equal descriptors hash equal, for all hash functions of atoms and tuples.
* `Verif.DofDesc.C10_eq_fields` (Verif/Symbolic/DofDesc.lean; P): C10: descriptors are equal exactly when geometry, stage and granularity agree.

### C11 Default tagging preserves explicit placements and leaves nothing unplaced — partial

After binding, every node of the expression has a concrete geometry; explicitly placed nodes keep their geometry; everything outside layer potentials defaults to the target, everything inside a layer potential's density/arguments defaults to the source; tagging twice equals tagging once. Interpolations whose ends become the same place disappear, nothing else does, and tagging fails exactly if such an interpolation is applied to another interpolation.

*Model and proof.* Model of LocationTagger family over expression trees; structural induction.

*Status.* false for layer potentials/solves/interpolations placed at DEFAULT_SOURCE/DEFAULT_TARGET (C11_refuted: not replaced); interpolations whose ends become equal disappear, and make tagging fail exactly if applied to another interpolation (C11_exact, C11_collapse_refuted); everything else proved

* `Verif.Bind.C11_exact` (Verif/Bind/Collapse.lean; PCQ): **C11**, exactly, for every expression and all defaults: tagging fills in the locations and drops interpolations between places that are then equal; it fails if and only if such an interpolation is applied to an interpolation.
* `Verif.Sym.C11_tagging` (Verif/Symbolic/Tagger.lean; PQ): C11 (what tagging does): for concrete defaults and an expression none of whose interpolations becomes trivial, tagging succeeds, changes nothing but descriptors, and every descriptor is treated as the specification `PlacedAs` demands.
* `Verif.Sym.C11_idempotent` (Verif/Symbolic/Tagger.lean; PQ): C11 (idempotence): tagging an already tagged expression changes nothing; no hypothesis on the expression.
* `Verif.Sym.C11_concrete_partial` (Verif/Symbolic/Tagger.lean; PQ): C11 (nothing unplaced): after tagging every descriptor has a geometry, and every location-dependent quantity has a concrete one. Partial: for layer potentials, solves and interpolations the symbolic defaults `DEFAULT_SOURCE`/`DEFAULT_TARGET` are not replaced (`C11_refuted`).
* `Verif.Sym.C11_refuted` (Verif/Symbolic/Tagger.lean; P): C11 is false for layer potentials placed at `DEFAULT_SOURCE`: tagging succeeds and leaves the symbolic default in place.
* `Verif.Sym.C11_collapse_refuted` (Verif/Symbolic/Tagger.lean; P): C11: tagging can also fail (the result would contain itself) when an interpolation around an interpolation becomes trivial.

### C12 QBX forced-limit rules — partial

For a layer potential on a QBX source: self-evaluation accepts exactly +1, -1 and 'avg'; off-surface evaluation accepts exactly None, +2, -2; anything else raises ValueError; accepted operators other than 'avg' keep their limit.

*Model and proof.* Model of QBXPreprocessor.map_int_g; structural induction.

*Status.* C12_exact gives the exact outcome for every nesting: a potential is checked and expanded iff all potentials around it have its own source; the claim for all depths is therefore false (C12_refuted: potentials nested in a potential of another QBX source are never visited) and proved if nested potentials share their source. C12_order: the order of the sources does not matter. 'Self' is same geometry and same stage as in the code, so source stage None and target stage STAGE1 counts as off-surface.

* `Verif.Sym.C12_exact` (Verif/Symbolic/QBXNest.lean; PCQ): C12 (exact outcome, no restriction on the nesting): for all collections of QBX sources and all expressions, preprocessing succeeds exactly if every layer potential on one of the sources, all of whose enclosing layer potentials have the same source as itself, obeys the limit rules, and raises `ValueError` otherwise; if it succeeds, exactly the `'avg'` potentials of this kind are replaced and nothing else changes. In particular a potential inside a potential of another source is neither checked nor changed.
* `Verif.Sym.C12_order` (Verif/Symbolic/QBXNest.lean; PCQ): C12: the outcome of preprocessing, result or error, does not depend on the order in which the sources of the collection are visited.
* `Verif.Sym.C12_limits_partial` (Verif/Symbolic/QBXPre.lean; PCQ): C12: for all collections of QBX sources and all expressions in which nested layer potentials share their source: preprocessing succeeds exactly if every layer potential on one of the sources, at any depth, obeys the limit rules, and raises `ValueError` otherwise; if it succeeds, nothing but `'avg'` potentials changes. Partial: potentials nested in a potential of another source are not checked (`C12_refuted`).
* `Verif.Sym.C12_keep` (Verif/Symbolic/QBXPre.lean; PCQ): C12 (non-`avg` operators keep their limit): an accepted expression without `'avg'` on the given sources is returned unchanged, whatever the nesting.
* `Verif.Sym.C12_refuted` (Verif/Symbolic/QBXPre.lean; PCQ): C12 is false across geometries: `None` for on-surface evaluation is accepted when the potential is nested in a potential of another QBX source.

### C13 'avg' limits are replaced by the mean of the two one-sided limits — partial

After binding, no operator with limit 'avg' remains, and an 'avg' operator evaluates to half the sum of the +1 and -1 operators with the same operands.

*Model and proof.* Same; witness for the non-recursing branch, partial otherwise.

*Status.* C13_value: values are preserved for every nesting; that no 'avg' remains is proved outside potentials of other sources (everywhere if nested potentials share their source) and false otherwise (C13_refuted)

* `Verif.Sym.C13_value` (Verif/Symbolic/QBXNest.lean; PCQ): C13 (no restriction on the nesting): whenever preprocessing succeeds, the result has the same value as the expression, for every interpretation of all operations in which `'avg'` means half the sum of the `+1` and `-1` potentials, and no `'avg'` potential on the given sources is left outside potentials of other sources.
* `Verif.Sym.C13_avg_partial` (Verif/Symbolic/QBXPre.lean; PCQ): C13: if preprocessing succeeds (nested potentials sharing their source) the result has no `'avg'` potential on the given sources and the same value, for every interpretation of all operations in which `'avg'` means half the sum of the `+1` and `-1` potentials. Partial: `C13_refuted`.
* `Verif.Sym.C13_refuted` (Verif/Symbolic/QBXPre.lean; PCQ): C13 is false across geometries: an `'avg'` potential remains.

### C14 Unregularized preprocessing affects only the potentials of unregularized sources — partial

Binding an expression against a collection that contains an unregularized source must not change or reject layer potentials whose source is another geometry.

*Model and proof.* Model of UnregularizedPreprocessor; witness + partial.

*Status.* false (C14_refuted, C14_bind_refuted): the preprocessor ignores its geometry name; C14_characterization and C14_prepare say exactly what happens instead: limits of all potentials are dropped, side limits of any potential are refused; unaffected only potentials without limit

* `Verif.Bind.C14_characterization` (Verif/Bind/Unreg.lean; PCQ): C14 (what happens instead): preprocessing for an unregularized source removes the requested limits of *every* layer potential in the expression, whatever its source, and raises `ValueError` exactly if some layer potential, at any depth and of any source, requests a limit from a side.
* `Verif.Bind.C14_bind_refuted` (Verif/Bind/Unreg.lean; PCQ): C14 (false at the level of `bind`): if the collection contains an unregularized source anywhere among its places, binding any expression in which some layer potential, whatever its source, requests a limit from a side of the surface raises an error.
* `Verif.Bind.C14_prepare` (Verif/Bind/Unreg.lean; PCQ): C14 (limits dropped): with only unregularized sources in the collection, preparing an expression without side limits removes all requested limits before interpolation is inserted.
* `Verif.Sym.C14_unlimited_partial` (Verif/Symbolic/InterpPre.lean; PQ): C14 (partial): layer potentials without a requested limit are never rejected or changed by the presence of an unregularized source, at any depth.
* `Verif.Sym.C14_refuted` (Verif/Symbolic/InterpPre.lean; PCQ): C14 is false: with an unregularized source `u` in the collection, an on-surface potential of the QBX source `q` is rejected, and its side request `+2` is dropped.

### C15 Source quadrature upsampling — partial

After binding, every layer potential on a QBX source has its densities on the quadrature stage (QBX_SOURCE_QUAD_STAGE2) unless the user chose a stage explicitly, targets have an explicit stage, and repeating the preprocessing changes nothing; potentials on other sources are untouched.

*Model and proof.* Model of InterpolationPreprocessor; structural induction.

*Status.* proved unless a potential is nested below one the preprocessor does not enter (C15_refuted); idempotence is proved without restriction

* `Verif.Sym.C15_ready_partial` (Verif/Symbolic/InterpPre.lean; PQ): C15 (upsampling): after preprocessing every layer potential has an explicit target stage and every layer potential on a QBX source has an explicit source stage. Partial: requires that no untreated potential hides below one that the preprocessor does not enter (`C15_refuted`).
* `Verif.Sym.C15_upsampled` (Verif/Symbolic/InterpPre.lean; PCQ): C15 (what happens to a potential on a QBX source without a stage): its source becomes the quadrature stage, each density is interpolated there from stage 1 and each kernel argument from stage 2 after being evaluated there.
* `Verif.Sym.C15_idempotent` (Verif/Symbolic/InterpPre.lean; PCQ): C15 (idempotence): preprocessing its own result changes nothing.
* `Verif.Sym.C15_derivative` (Verif/Symbolic/InterpPre.lean; PQ): C15 (derivatives): a reference derivative requested on the quadrature stage of a QBX source is taken on stage 2, of the same operand evaluated there, and then interpolated to the quadrature stage; a derivative on any other stage is left as it is.
* `Verif.Sym.C15_other` (Verif/Symbolic/InterpPre.lean; P): C15 (other sources): a potential on a known source that is not a QBX source, or on one whose stage the user chose, keeps source, densities and arguments.
* `Verif.Sym.C15_refuted` (Verif/Symbolic/InterpPre.lean; PQ): C15 is false below potentials of other sources: the inner potential on the QBX source keeps its unset source stage.

### C16 Symbolic derivatives are linear and correct — partial

Taking a target derivative of a linear combination of layer potentials gives the same linear combination of the differentiated potentials; constants differentiate to zero; a product with more than one spatially varying factor is rejected. grad has one component per axis with the derivative along that axis, laplace is the sum of the second derivatives, and both exist for every linear combination.

*Model and proof.* Model of DerivativeTaker over linear combinations with a semantic derivation as spec.

*Status.* value correctness and rejection proved without restriction; acceptance fails for SpatialConstant summands (C16_refuted)

* `Verif.Sym.C16_linear` (Verif/Symbolic/Derivative.lean; PQ): C16: if the symbolic derivative of an expression exists, its value is the derivative of the expression's value: for every ring of functions, derivation and interpretation of constants, variables, operations and layer potentials.
* `Verif.Sym.C16_rejects` (Verif/Symbolic/Derivative.lean; PQ): C16 (rejection): a product with more than one spatially varying factor (all factors being supported) is rejected.
* `Verif.Sym.C16_accepts_partial` (Verif/Symbolic/Derivative.lean; PQ): C16 (acceptance): every linear combination of layer potentials has a symbolic derivative. Partial: a `SpatialConstant` is accepted as a factor but not as a summand (`C16_refuted`).
* `Verif.Sym.C16_refuted` (Verif/Symbolic/Derivative.lean; PQ): C16 is false for spatial constants as summands: the derivative of `k + S[sigma]` with `k` a `SpatialConstant` is refused, although the derivative of the product `k * S[sigma]` is not.
* `Verif.Sym.C16_grad` (Verif/Symbolic/Gradient.lean; PQ): C16 (gradients): if `grad` succeeds it has one component per axis, and the value of component `a` is the derivative along axis `a` of the value of the operand.
* `Verif.Sym.C16_laplace` (Verif/Symbolic/Gradient.lean; PQ): C16 (Laplacians): if `laplace` succeeds its value is the sum of the second derivatives of the value of the operand along all axes.
* `Verif.Sym.C16_dd_axis` (Verif/Symbolic/Gradient.lean; PQ): C16 (derivatives along an axis): `dd_axis` of an object array has the derivatives of the values of the entries; an axis outside of the space is refused.
* `Verif.Sym.C16_accepts_all_partial` (Verif/Symbolic/Gradient.lean; PCQ): C16 (acceptance): every linear combination of layer potentials has a gradient, a Laplacian and, along each axis of the space, a derivative, so these can be applied repeatedly. Partial for the same reason as `C16_accepts_partial`.

### C17 Distinct layer potentials compare unequal — partial

Two IntG objects compare equal (and hash equal) exactly when all their components, including qbx_forced_limit, are equal.

*Model and proof.* Model of the memoised-hash equality; witness for −1/−2 and partial otherwise.

*Status.* false for limits -1/-2 (C17_refuted, hash(-1)==hash(-2) in CPython and __eq__ does not compare the limit); C17_exact: without hash collisions == is equality up to confusing these two limits; C17_equivalence: with any hash function it is an equivalence that never ignores anything but limits

* `Verif.Sym.C17_equality_partial` (Verif/Symbolic/IntGEq.lean; PQ): C17 (partial): without hash collisions, expressions in which no layer potential uses the limit `-2` (or none uses `-1`) compare equal exactly when they are identical, including all limits at all depths.
* `Verif.Sym.C17_hash` (Verif/Symbolic/IntGEq.lean; PQ): C17: equal expressions hash equal, and `==` is reflexive (no assumption on the hash).
* `Verif.Sym.C17_refuted` (Verif/Symbolic/IntGEq.lean; PQ): C17 is false: whatever the hash function, the potentials with limits `-1` and `-2` (same kernel, density, source, target) compare equal.
* `Verif.Sym.C17_exact` (Verif/Symbolic/IntGEqFull.lean; PQ): C17, what `==` is: without hash collisions two expressions compare equal exactly if they are the same up to confusing the limits `-1` and `-2` (which the property excludes: `C17_refuted`).
* `Verif.Sym.C17_equivalence` (Verif/Symbolic/IntGEqFull.lean; PQ): C17, whatever the hash function does: `==` is an equivalence relation, expressions that compare equal agree in everything but limits, and the same expressions (also up to the limits `-1` and `-2`) always compare equal.

### C18 Geometry collections only ever hold valid places — partial

Constructing a GeometryCollection succeeds exactly if the default geometries are present, string identifiers are valid Python identifiers, every value is a source/target/discretization and all ambient dimensions agree; every documented input form (single geometry, pair, mapping) is accepted.

*Model and proof.* Model of the GeometryCollection constructor as `Except`; iff theorem; witness for bare targets.

*Status.* false for a bare target set, a documented input form (C18_refuted: always AssertionError); proved for mappings, pairs and other single geometries

* `Verif.Coll.C18_construct_partial` (Verif/Collection/Construct.lean; PCQ): C18: for every mapping, and every pair or single geometry other than a bare target set, construction succeeds exactly if the defaults are present, string names are valid, all values are supported and all ambient dimensions agree; the places are the ones meant. Partial: see `C18_refuted`.
* `Verif.Coll.C18_mapping` (Verif/Collection/Construct.lean; PCQ): C18 (mappings): the plain equivalence for the mapping form.
* `Verif.Coll.C18_refuted` (Verif/Collection/Construct.lean; P): C18 is false for a bare target set, a documented form of the argument: construction always fails with an `AssertionError`.
* `Verif.Coll.C18_defaults` (Verif/Util/Tight.lean; PCQ): C18 (defaults): the default source and target of a collection are the ones requested; without a request they are the unnamed source and target, with one name that name stands for both; a QBX source given on its own is its own default target.

### C19 Refined discretizations are computed once and stay stable — proved

In one GeometryCollection, get_discretization(geometry, stage) returns the same object every time, whatever other stages/geometries have been requested before or in between; a stage of None means stage 1; existing cache entries are never overwritten.

*Model and proof.* Cache state machine, induction over request sequences.

*Status.* refinement is an arbitrary oracle that may raise; all programs over a heap of collections

* `Verif.Coll.C19_stable` (Verif/Collection/Props.lean; PCQ): C19: whatever a program did before and does between (with any collection), asking the same collection again for the same geometry and stage returns the same object, and doing so changes nothing, in particular runs no refinement.
* `Verif.Coll.C19_none` (Verif/Collection/Props.lean; P): C19: no stage means stage 1.
* `Verif.Coll.C19_other_requests` (Verif/Collection/Props.lean; PCQ): C19: the discretizations of two stages of one source are linked: a request for a later stage never changes an earlier one, and conversely.
* `Verif.Coll.C19_no_overwrite` (Verif/Collection/Props.lean; PCQ): C19: in no reachable world can any operation run into the cache's "trying to overwrite" error (nor does a missing cache entry escape as `KeyError`).

### C20 Copies and merges of collections are independent — proved

copy()/merge() never modify their arguments; the copy starts with its own caches, so refining in one collection never changes what the other returns; merge prefers the argument's places; add_geometry_to_collection rejects existing names and keeps every existing place and its cached discretizations.

*Model and proof.* Heap-of-collections state machine, induction over histories.

*Status.* heap model; caches of collections are Python dicts copied entry by entry

* `Verif.Coll.C20_isolation` (Verif/Collection/Props.lean; P): C20: an operation on one collection leaves every other collection exactly as it was, and `copy`, `merge`, `add_geometry_to_collection` and `refine_geometry_collection` leave all existing collections, including their arguments, exactly as they were.
* `Verif.Coll.C20_copy` (Verif/Collection/Props.lean; PCQ): C20: copying always works, gives a new object with the same places and defaults and with empty caches.
* `Verif.Coll.C20_merge` (Verif/Collection/Props.lean; PCQ): C20: a merged collection has the argument's places and, for names the argument does not have, the ones of the collection; its caches are empty.
* `Verif.Coll.C20_merge_coll` (Verif/Collection/Props.lean; P): C20: `merge` with another collection is `merge` with its places.
* `Verif.Coll.C20_add_existing` (Verif/Collection/Props.lean; P): C20: `add_geometry_to_collection` rejects a name that is already there with `ValueError` (when it is the first offending entry) ...
* `Verif.Coll.C20_add_type` (Verif/Collection/Props.lean; P): C20: a new geometry of any other kind than targets and point sources is a `TypeError` (when it is the first offending entry) ...
* `Verif.Coll.C20_add` (Verif/Collection/Props.lean; PCQ): C20: ... and otherwise, if it succeeds, every name of the old collection still stands for the same geometry, the new names are there, and every discretization the old collection has already computed is what the new one returns, without any work; the default places, connections and cached common subexpressions are kept, too.
* `Verif.Coll.C20_store` (Verif/Collection/Props.lean; P): C20: what is put in a cache of one collection is found there, and in no other place.

### C21 Connections between stages compose end to end — partial

connection_from_dds(from, to) either raises or returns a chain of connections, each starting on the discretization where the previous one ends, from the discretization of `from` to that of `to` (followed by the granularity change); identical descriptors give the identity; unsupported requests raise ValueError.

*Model and proof.* Model of connection_from_dds as function producing a chain; theorem: chain endpoints match.

*Status.* false when the from-stage is unspecified (C21_refuted); proved for all other descriptors

* `Verif.Coll.C21_errors` (Verif/Collection/Props.lean; PCQ): C21: a connection request fails only because a name is unknown, a geometry has no discretization, refinement raised, or - with `ValueError` - because the descriptors are on different geometries, not both of node granularity, or differ in stage although the source is not a QBX source or the target stage is not the quadrature one.
* `Verif.Coll.C21_chain_partial` (Verif/Collection/Props.lean; PCQ): C21: a connection that is returned leads from the discretization of `from` to the one of `to` (both as `get_discretization` returns them in the same collection), through connections each of which starts where the previous one ends. Partial: an unspecified stage on the `from` side is excluded unless both stages agree, see `C21_refuted`.
* `Verif.Coll.C21_refuted` (Verif/Collection/Props.lean; PQ): C21 is false for an unspecified stage: the connection from the unspecified stage to the quadrature stage claims to start at the stage-1 discretization (that is what `get_discretization` returns for it) but its first link starts at the unrefined density discretization.

### C22 Operator wrapping for solvers is lossless — partial

For the operator returned by scipy_op, the component ranges partition [0, shape[0]) contiguously in order, unflatten(flatten(x)) == x and flatten(unflatten(v)) == v for vectors of matching sizes, and matvec applies the bound expression to exactly these components.

*Model and proof.* Model of starts_and_ends, flatten, unflatten over lists.

*Status.* roundtrip fails for a 1-component object array, which comes back as the bare component (C22_refuted), and exactly for values that do not fit (C22_roundtrip_iff); everything else proved over any ring

* `Verif.MatVec.C22_ranges` (Verif/Exec/MatVec.lean; PQ): C22: the component ranges of the operator are consecutive, start at zero, have the sizes of the discretizations and end at `shape[0]`.
* `Verif.MatVec.C22_roundtrip_partial` (Verif/Exec/MatVec.lean; PQ): C22: for structured values that fit the operator (a bare component for one domain, an object array with one component per domain otherwise) flattening gives the concatenation of the components and unflattening it gives the value back. Partial: object arrays with a single component do not come back, see `C22_refuted`.
* `Verif.MatVec.C22_flat_roundtrip` (Verif/Exec/MatVec.lean; PQ): C22: every flat vector of length `shape[0]` unflattens to a value that fits, and flattening that gives the vector back.
* `Verif.MatVec.C22_matvec` (Verif/Exec/MatVec.lean; PQ): C22: on flat vectors `matvec` applies the bound expression to the components and flattens the result: it is the structured operator seen through `flatten`.
* `Verif.MatVec.C22_matvec_errors` (Verif/Exec/MatVec.lean; PQ): C22: errors of the expression are passed on, vectors of a wrong length are rejected.
* `Verif.MatVec.C22_refuted` (Verif/Exec/MatVec.lean; PQ): C22 is false for vector-valued operators with one component: the object array `[x]` is flattened, but comes back as the bare component `x`, so a vector-valued expression is not applied to a vector.
* `Verif.MatVec.C22_flatten_iff` (Verif/Util/Tight.lean; PCQ): C22 (rejection): flattening accepts a value exactly if it has one flat component per domain, each of the size of that domain; anything else raises `ValueError` rather than being truncated, padded or shifted.
* `Verif.MatVec.C22_roundtrip_iff` (Verif/Util/Tight.lean; PCQ): C22 (roundtrip, exactly): a value survives flattening and unflattening if and only if it fits the operator, that is, it is a bare component of the right shape for one domain and an object array with a component of the right shape for each of several domains.

### C23 Block matrices are assembled at the right offsets — partial

In the matrix returned by build_matrix, block (i, j) of the expression/input pair occupies exactly the rows of output i and the columns of input j, zero blocks are filled with zeros, and the product of the assembled matrix with a stacked vector is the stacked sum of block products.

*Model and proof.* Model of `_bmat` with numpy cumsum offsets; Mathlib-free sums over lists.

*Status.* layout proved when every block row and block column holds at least one non-zero block; an all-zero one raises (C23_refuted)

* `Verif.BMat.C23_layout_partial` (Verif/Exec/BMat.lean; PCQ): C23: if the sizes of the blocks fit together and every block row and column has a block that is not the scalar zero, the result has the total size, and block (i, j) sits in exactly the rows of block row i and the columns of block column j; zero blocks are filled with zeros. Partial: block rows or columns of scalar zeros only, see `C23_refuted`.
* `Verif.BMat.C23_partition` (Verif/Exec/BMat.lean; PCQ): C23: every row of the result belongs to exactly one block row (the ranges partition the rows; the same holds for columns with `w`).
* `Verif.BMat.C23_rejects` (Verif/Exec/BMat.lean; PCQ): C23: blocks that do not fit together, and block rows or columns of zeros only, raise.
* `Verif.BMat.C23_product` (Verif/Exec/BMat.lean; PCQ): C23: multiplying the assembled matrix with a stacked vector gives, in the rows of block row i, the sum over j of block (i, j) times component j.
* `Verif.BMat.C23_refuted` (Verif/Exec/BMat.lean; P): C23 is false for "any pattern of zero blocks": an operator that does not depend on one of its inputs (a block column of zeros) cannot be assembled at all.

### C24 Matrix building agrees with evaluation — partial

For an expression linear in the chosen input, the matrix produced by MatrixBuilder applied to any input vector equals the value of the expression at that vector (with other inputs zero); expressions that are not linear are rejected.

*Model and proof.* Model of MatrixBuilder over a commutative ring, dense matrices as functions/lists; structural induction.

*Status.* Visibly linear expressions (LinA): matrix built, evaluation succeeds, and they agree, without further assumptions (C24_total). In general entry-wise exactness (C24_matrix_partial) proved for expressions without powers or array quotients of the unknown, acceptance (C24_accepts) for all visibly linear expressions; false for powers, quotients by arrays, DOFArray factors (wrong matrix, C24_refuted_power/_quotient/_dofarray) and for coefficients adding a number to an array (refused, C24_refuted_mixed). Reference derivatives and node coordinates only occur in coefficients: C24_reference_derivative

* `Verif.MatBuild.C24_accepts` (Verif/Exec/MatAccept.lean; PCQ): C24: every expression that is visibly linear in the unknown is accepted; the block is zero or a matrix with a row per node of the result and a column per DOF of the unknown.
* `Verif.MatBuild.C24_reference_derivative` (Verif/Exec/MatAccept.lean; PCQ): C24: reference derivatives (of curve parametrizations, say) only occur in coefficients. Of what depends on the unknown they are refused (`NotImplementedError`), of numbers too (by an assertion); with the derivative of an array as the coefficient of the unknown, the block is the diagonal matrix of the derivative's nodal values.
* `Verif.MatBuild.C24_refuted_mixed` (Verif/Exec/MatAccept.lean; PCQ): C24 is false for coefficients that add a number to an array: `(w + 1) * u` is linear in the unknown, but refused.
* `Verif.MatBuild.C24_matrix_partial` (Verif/Exec/MatBuild.lean; PCQ): C24: for every expression of the fragment and every context of numbers and 1D arrays, a block that is built gives the value of the expression: the product of the matrix with the input vector, or zero for the zero block. Partial: see `Frag` and the four refutations.
* `Verif.MatBuild.C24_linear_partial` (Verif/Exec/MatBuild.lean; PCQ): C24: hence in the fragment whatever is accepted is linear: the value at a combination of two inputs is the combination of the values.
* `Verif.MatBuild.C24_rejects` (Verif/Exec/MatBuild.lean; PCQ): C24: a product of two factors that both depend on the input is rejected, so is an affine expression.
* `Verif.MatBuild.C24_rejects_general` (Verif/Exec/MatBuild.lean; PCQ): C24: more generally, a product of two expressions that depend on the input, a function of such an expression, and the sum of such an expression and a number or an array from the context are rejected.
* `Verif.MatBuild.C24_refuted_power` (Verif/Exec/MatBuild.lean; PCQ): C24 is false for powers: the square of the input is accepted and turned into the identity matrix.
* `Verif.MatBuild.C24_refuted_quotient` (Verif/Exec/MatBuild.lean; PCQ): C24 is false for quotients: an operator result divided by a 1D array has its columns divided instead of its rows.
* `Verif.MatBuild.C24_refuted_dofarray` (Verif/Exec/MatBuild.lean; PCQ): C24 is false for context values that are not NumPy arrays or numbers: a factor that is a `DOFArray` is silently left out of a product.
* `Verif.MatBuild.C24_total` (Verif/Exec/MatTotal.lean; PCQ): **C24, in full for visibly linear expressions**: the matrix is built, the expression has a value at every input, and the value is the matrix times the input (zero for the zero block).

### C25 Index lists partition their indices — proved

For an IndexList, cluster_indices(0..nclusters-1) concatenated give the whole index array, sizes add up, make_index_list round-trips a non-empty list of clusters (an empty one raises ValueError), cluster_take picks exactly that cluster's entries, and out-of-range clusters raise IndexError.

*Model and proof.* Model of IndexList with starts array.

*Status.* WF is what the class documents for starts (first start 0, non-decreasing, last = number of indices)

* `Verif.IndexList.C25_partition` (Verif/Linalg/IndexList.lean; PCQ): C25: the clusters `0 .. nclusters-1` exist, have the reported sizes, and concatenated in order they are the whole index array; the sizes add up to the number of indices.
* `Verif.IndexList.C25_bounds` (Verif/Linalg/IndexList.lean; PQ): C25: cluster numbers outside `0 .. nclusters-1` raise `IndexError` in all accessors, whatever the list.
* `Verif.IndexList.C25_take` (Verif/Linalg/IndexList.lean; P): C25: `cluster_take(x, i)` is the list of the entries of `x` at the indices of cluster `i`, in that order, when these lie in `x`.
* `Verif.IndexList.C25_roundtrip` (Verif/Linalg/IndexList.lean; PCQ): C25: `make_index_list` of a non-empty list of clusters gives a well-formed list with exactly these clusters; an empty list raises `ValueError`.
* `Verif.IndexList.C25_explicit` (Verif/Linalg/IndexList.lean; P): C25: with explicit starts, a list is made exactly when the last start is the number of indices; otherwise `ValueError` (or `IndexError` without any start).

### C26 Cluster-pair (cartesian product) indexing is consistent — proved

The flattened row/column index arrays of a TargetAndSourceClusterList enumerate each diagonal block in row-major order without gaps or overlaps, so taking a block from the flat array equals taking the block directly from the full matrix; mismatched cluster counts raise ValueError.

*Model and proof.* Model of TargetAndSourceClusterList cartesian product kernels.

*Status.* stores of the parallel kernel executed in any order

* `Verif.IndexList.C26_disjoint` (Verif/Linalg/IndexList.lean; PCQ): C26: whatever order the stores of the kernel are executed in, no two of them hit the same position, every position of the result is written, and nothing is written beyond it.
* `Verif.IndexList.C26_rowmajor` (Verif/Linalg/IndexList.lean; PCQ): C26: whatever order the stores are executed in, the slice of the product arrays that belongs to cluster `c` holds the pairs (row index, column index) of diagonal block `c` in row-major order.
* `Verif.IndexList.C26_blocks` (Verif/Linalg/IndexList.lean; PCQ): C26: gathering a matrix at the product arrays and cutting it into diagonal blocks gives the same blocks as taking them from the matrix directly, for every cluster.
* `Verif.IndexList.C26_mismatch` (Verif/Linalg/IndexList.lean; P): C26: target and source lists with different cluster counts are refused with `ValueError`, all others accepted.

### C27 GMRES success means the residual is small — proved

If gmres reports success for a linear operator, then (in exact arithmetic) the returned solution x satisfies norm(b - A x) < tol * norm(b) or equals zero residual; the residual list it reports are the true residual norms.

*Model and proof.* Model of `_gmres` over an inner product field; invariant; last update is a least squares minimiser.

*Status.* exact arithmetic in any module; also with NaN after breakdown (C27_breakdown)

* `Verif.Gmres.C27_success` (Verif/Linalg/Gmres.lean; PCQ): C27: for a linear operator in exact arithmetic, whatever the inner product, a result marked successful satisfies `‖b - A x‖ < tol ‖b‖`, or its residual norm is zero.
* `Verif.Gmres.C27_residuals` (Verif/Linalg/Gmres.lean; PCQ): C27: all residual norms reported are true residual norms: entry `i` is `‖b - A xᵢ‖` for the `i`-th iterate, the callback got `b - A xᵢ`, and a successful result returns the last of these iterates.
* `Verif.Gmres.C27_breakdown` (Verif/Linalg/GmresExact.lean; PCQ): C27 with breakdown: if a division by zero turns the iteration into NaNs, success is never reported; a successful result is a number with a small residual.

### C28 GMRES always terminates within maxiter and reports failure honestly — proved

gmres performs at most maxiter operator iterations, and returns success=False (or raises when hard_failure) when it stops for any reason other than convergence; it never indexes outside its history.

*Model and proof.* Loop model with fuel = maxiter.

*Status.* arbitrary operations without laws, so floating point included; restart=0 raises IndexError (C28_restart_zero)

* `Verif.Gmres.C28_bound` (Verif/Linalg/Gmres.lean; PQ): C28: at most `maxiter` residuals are computed, the iteration count lies below `maxiter` (or both are zero), and the operator is applied at most once per iteration, plus once every tenth iteration and once at the start.
* `Verif.Gmres.C28_honest` (Verif/Linalg/Gmres.lean; PQ): C28: the outcome is reported honestly, whatever the arithmetic does. A result marked successful has a last recorded residual norm that passes the convergence test (and no earlier one did); a result marked unsuccessful is only returned without `hard_failure`, and none of its recorded residual norms passes the test; `GMRESError` is only raised with `hard_failure`, and after residuals none of which passes the test (`callbacks` are the residual vectors).
* `Verif.Gmres.C28_no_index` (Verif/Linalg/Gmres.lean; PCQ): C28: with a restart length of at least one and a non-negative stall window, the call never leaves its own arrays: it ends in a result or `GMRESError`, whatever the arithmetic does.
* `Verif.Gmres.C28_restart_zero` (Verif/Linalg/Gmres.lean; PQ): Outside these ranges the claim fails: with `restart=0` the first direction has no slot.
* `Verif.Gmres.C28_reasons` (Verif/Linalg/GmresReasons.lean; PCQ): C28: gmres stops exactly when it should, for the reason it gives: whatever it reports, no proper initial part of the reported residuals had blown up or stalled; with `non-monotonic residuals` the whole history has blown up, with `stalled` it has stalled, and with the iteration limit there are `maxiter` residuals without any of that.
* `Verif.Gmres.C28_operator_count` (Verif/Linalg/GmresReasons.lean; PCQ): C28: the operator is applied once per iteration that goes on, once more every tenth iteration to recompute the residual, and once at the start if there is an initial guess.
* `Verif.Gmres.C28_reasons_exact` (Verif/Linalg/GmresReasons.lean; PQ): C28: in exact arithmetic these reasons are: the residual has grown by more than a factor of 1.25, respectively has not shrunk by the factor `no_progress_factor` within the last `stall_iterations` residuals.
* `Verif.Gmres.C28_error_reasons` (Verif/Util/Tight.lean; PCQ): C28 (failure by exception): if gmres raises with a state, then the reason given by the state holds of the residual history; the operator was applied as often as that history says.

### C29 Muller's method only returns converged roots — proved

muller(f) returns (z, n) only if its convergence criterion held at z after n iterations with n below maxiter, and raises RuntimeError otherwise; it never returns NaN; roots found with deflation are found for the deflated function. The points visited form one sequence in which each point comes from the three before it and the values of f at exactly those; in exact arithmetic it is the zero, closest to the last point, of the parabola through them, and z is the point n + 2 of the sequence.

*Model and proof.* Loop model of muller over an abstract field with equality/size tests.

*Status.* arbitrary operations; NaN propagation as hypothesis NanLaws; C29_parabola additionally proves the step formula

* `Verif.Muller.C29_returns` (Verif/Linalg/Muller.lean; PQ): C29: `muller` returns `(z, n)` exactly when round `n < maxiter` is the first whose convergence criterion holds, and then `z` is the point of that round.
* `Verif.Muller.C29_raises` (Verif/Linalg/Muller.lean; PQ): C29: `muller` raises `RuntimeError` exactly when no round below `maxiter` converges.
* `Verif.Muller.C29_runtime` (Verif/Linalg/Muller.lean; PQ): the only error is `RuntimeError`
* `Verif.Muller.C29_no_nan` (Verif/Linalg/Muller.lean; PQ): C29: a NaN is never returned.
* `Verif.Muller.C29_deflate` (Verif/Linalg/Muller.lean; PQ): C29: a successful `muller_deflate` returns `n` roots, and the `i`-th is what `muller` returns for the function divided by `z - root` for the preceding roots; the retry loop is never needed.
* `Verif.Muller.C29_deflate_error` (Verif/Linalg/Muller.lean; PQ): C29: if some root is not found, `muller_deflate` raises `RuntimeError`.
* `Verif.Muller.C29_parabola` (Verif/Linalg/Muller.lean; PCQ): C29: in exact arithmetic each step lands on a zero of the parabola through the last three points, as long as the first two of them are distinct, the denominator is not zero, and the square root squares to its argument.
* `Verif.Muller.C29_closest` (Verif/Linalg/Muller.lean; PCQ): C29: of the zeros of the parabola the step lands on the one closest to the current point (the denominator of larger magnitude is the one used).
* `Verif.Muller.C29_visits` (Verif/Linalg/Muller.lean; PQ): C29: there is exactly one sequence of points for given start values (so that the theorems below are about something).
* `Verif.Muller.C29_sequence` (Verif/Linalg/Muller.lean; PQ): C29: `muller` returns `(z, n)` exactly when `n` is the first number in `1 … maxiter-1` such that the points `n+1` and `n+2` of the sequence are close, and then `z` is the point `n+2`.
* `Verif.Muller.C29_interpolates` (Verif/Linalg/Muller.lean; PCQ): C29: in exact arithmetic every point of the sequence from the fourth on is a zero of the parabola that interpolates `f` at the three points before it, under the conditions of `C29_parabola` at these points.

### C30 Associated QBX centers are valid and optimal — proved

If target association assigns center c to a target, then c lies on the requested side, the target lies within (1+tol) times c's expansion radius, c has the least relative distance among the eligible centers on its side, and its distance is not larger than that of the best center on the other side.

*Model and proof.* Kernel fold model over arbitrary enumeration order; fold invariant.

*Status.* kernel level for arbitrary leaf enumerations, and geometric level (AreaQuery.lean) where the space invader and area queries are computed from positions and leaf boxes

* `Verif.AreaQuery.C30_geometry` (Verif/QBX/AreaQuery.lean; PCQ): C30, for positions, trees and searches: an assigned center lies on the requested side, has the target within its enlarged radius, has the least relative distance among the usable centers of its side, and if the other side has usable centers then one of least relative distance there is at least as far away.
* `Verif.TargetAssoc.C30_assigned` (Verif/QBX/TargetAssoc.lean; PCQ): C30: if association assigns center `c` to a target, then `c` is a center on the requested side, the target lies within `(1+tol)` times its radius, no eligible center on the same side has a smaller relative distance, and either there is no eligible center on the other side, or one of least relative distance there is at least as far away in absolute distance.

### C31 Targets far from the geometry never use QBX and close targets always do — partial

A target is left without center exactly if no source has it inside its tunnel radius; if a close target has no eligible center association fails with QBXTargetAssociationFailedError whose flags mark exactly these targets, and the refine flags mark at least one element close to such a target.

*Model and proof.* Kernel fold model; existential characterisation.

*Status.* Success/unassigned/never-silent parts proved in full. The failure-report part holds only if the tree permutation is an involution on sources: mark_elements_for_refinement indexes tree.sources with user_source_ids (target_assoc.py:774); C31_refuted exhibits a tree for which the call dies on its assertion instead of raising QBXTargetAssociationFailedError. C31_geometry_failed_any says what holds for every tree: the call dies on the assertion or raises with exact target flags and at least one, and only correct, refine flags (some may be missing).

* `Verif.AreaQuery.C31_geometry` (Verif/QBX/AreaQuery.lean; PCQ): C31, for positions, trees and searches: on success a target has no center exactly if no source has it in its tunnel; association succeeds exactly if all targets in tunnels have a usable center.
* `Verif.AreaQuery.C31_geometry_failed_any` (Verif/QBX/AreaQuery.lean; PCQ): C31, for every tree: if a target in the tunnel of a source has no usable center, then the call raises `QBXTargetAssociationFailedError` or dies on its assertion. When it raises, the flags for targets are exact, at least one element is flagged for refinement, and every flagged element owns a source that has such a target in its tunnel — what can be missing are flags for further elements.
* `Verif.AreaQuery.C31_geometry_failed_partial` (Verif/QBX/AreaQuery.lean; PCQ): C31: if the tree's permutation is an involution on the sources (for instance if the particles are already in tree order), failure is reported with exactly the right flags. The general case is false, see `C31_refuted`.
* `Verif.AreaQuery.C31_refuted` (Verif/QBX/AreaQuery.lean; PCQ): C31 is false for the refinement flags: here a target in the tunnel of a source has no usable center, but the call ends in the failed assertion `have_element_to_refine` (`target_assoc.py:946`) instead of `QBXTargetAssociationFailedError`.
* `Verif.TargetAssoc.C31_unassigned` (Verif/QBX/TargetAssoc.lean; PCQ): C31: if association succeeds, a target has no center exactly if no source has it inside its tunnel, and every target gets an entry.
* `Verif.TargetAssoc.C31_succeeds` (Verif/QBX/TargetAssoc.lean; PCQ): C31: association succeeds exactly if every close target has an eligible center.
* `Verif.TargetAssoc.C31_failed_any` (Verif/QBX/TargetAssoc.lean; PCQ): C31, whatever the refiner's area query finds: if some close target has no eligible center, then the call either dies on its assertion — exactly if no close source of such a target is in the leaf boxes found — or raises the error; then the flags for targets and the message are exact, and the elements flagged for refinement are those owning a close source of such a target in the leaf boxes found (at least one of them).
* `Verif.TargetAssoc.C31_failed_partial` (Verif/QBX/TargetAssoc.lean; PCQ): C31: when association fails, the error flags exactly the close targets without eligible center, the message speaks of surface targets exactly if one of these requested a surface side, and exactly the elements owning a source close to such a target are flagged for refinement (at least one of them). This needs the refiner's area query to find all close sources; see `C31_refuted`.
* `Verif.TargetAssoc.C31_never_silent` (Verif/QBX/TargetAssoc.lean; PCQ): C31: no other failure is ever reported: whatever the refiner finds, the call never succeeds when a close target has no eligible center.

### C32 Refinement either satisfies the criteria or warns — proved

Stage-1/stage-2 refinement stops after at most maxiter rounds, and if it returns without a not-converged warning then every criterion holds for the discretization it returns (for stage 2: for the one it had before the requested uniform rounds, which are then performed exactly as many times as requested); the returned connection leads from the original to the refined discretization through exactly the performed refinements.

*Model and proof.* Refinement loop as fold over abstract mesh states with abstract checks.

*Status.* loops with at most maxiter rounds, chain of flagged refinements, criteria on return; refiner state matches (no_mismatch). The convergence claims are for the criteria sets; the disk/quadrature checks are characterised in C34

* `Verif.Refine.C32_stage1` (Verif/QBX/Refine.lean; PQ): C32, stage 1: refinement that returns has performed at most `maxiter` rounds; the connection leads from the original to the returned discretization through exactly the performed refinements, each of the (nonempty) set of elements violating the criteria of that round; without warning all criteria hold for the returned discretization; a warning is issued only after exactly `maxiter` rounds.
* `Verif.Refine.C32_stage2` (Verif/QBX/Refine.lean; PQ): C32, stage 2: likewise, with the requested number of uniform rounds performed at the end; without warning the quadrature resolution criterion holds for the discretization before the uniform rounds.
* `Verif.Refine.C32_no_mismatch` (Verif/QBX/Refine.lean; PQ): C32: the refiner is never used on a discretization it does not belong to.

### C33 Refinement modes are honored — proved

NO_REFINEMENT returns the original discretizations with identity connections; ERROR_ON_REFINEMENT raises QBXRefinementNeededError exactly if some criterion is violated and otherwise leaves the mesh unchanged (apart from forced uniform rounds, which are carried out in both refining modes exactly the requested number of times).

*Model and proof.* Same.

*Status.* also records that maxiter=0 turns ERROR_ON_REFINEMENT into a warning (C33_maxiter_zero)

* `Verif.Refine.C33_none` (Verif/QBX/Refine.lean; PQ): C33: `NO_REFINEMENT` returns the given discretizations with identity connections and without warning, whatever the criteria and forced rounds.
* `Verif.Refine.C33_error_stage1` (Verif/QBX/Refine.lean; PQ): C33, stage 1: `ERROR_ON_REFINEMENT` (with at least one iteration allowed) raises `QBXRefinementNeededError` exactly if some element violates some criterion, naming violated criteria only; otherwise the discretization is returned as it is.
* `Verif.Refine.C33_error_stage2` (Verif/QBX/Refine.lean; PQ): C33, stage 2: likewise; if the criterion holds, exactly the requested number of uniform rounds is carried out.
* `Verif.Refine.C33_maxiter_zero` (Verif/QBX/Refine.lean; PQ): C33: with no iteration allowed at all, `ERROR_ON_REFINEMENT` degenerates to a warning: no criterion is looked at and no error raised (`refinement.py:704-710,824-830` come before the check).
* `Verif.Refine.C33_refine_no_error` (Verif/QBX/Refine.lean; PQ): C33: in the refining mode no error is raised.

### C34 Refinement checks flag exactly the offending elements — proved

The expansion-disk check flags exactly the elements owning a center that has a source within (1-tol) times its radius; the quadrature-resolution check flags exactly the elements with a source node having a center within its danger zone; the threshold check flags exactly elements above the threshold; the returned boolean is true iff some element is flagged by the check.

*Model and proof.* Checker kernels as folds over an arbitrary enumeration with early exit.

*Status.* kernels modelled per box with unordered writes and early exit

* `Verif.Checks.C34_disks` (Verif/QBX/Checks.lean; PCQ): C34: after the expansion disk check, an element is flagged iff it was before or it owns a center (interior or exterior, of one of its nodes) with a source within `(1 - tol)` times its radius; the returned Boolean tells whether such a center exists. This holds for every tree and every order of the kernel's updates.
* `Verif.Checks.C34_quad` (Verif/QBX/Checks.lean; PCQ): C34: after the quadrature resolution check, an element is flagged iff it was before or it has a node with some center within the element's danger zone radius.
* `Verif.Checks.C34_threshold` (Verif/QBX/Checks.lean; PQ): C34: after the threshold check, an element is flagged iff it was before or its property exceeds the threshold.

### C35 Particle numbering in QBX trees is consistent — proved

In a tree with QBX metadata sources, centers and targets occupy disjoint consecutive ranges covering all particles; element start tables are such that binary search of a source (or center) finds precisely the element whose nodes contain it; center 2i (2i+1) is the interior (exterior) center of source i.

*Model and proof.* Prefix-sum tables and bsearch, proof by strong induction.

*Status.* host tables and the device binary search

* `Verif.QTree.C35_source_lookup` (Verif/QBX/Tree.lean; PCQ): C35: the element start table has one entry per element and a final one with the number of sources; looking up node `j` of element `iel` of group `k` finds precisely this element.
* `Verif.QTree.C35_center_lookup` (Verif/QBX/Tree.lean; PCQ): C35: the center start table exists exactly for stage 1; looking up either center of a node finds the node's element.
* `Verif.QTree.C35_slices` (Verif/QBX/Tree.lean; PCQ): C35: sources, centers and targets occupy consecutive ranges that together are all particles, in this order.
* `Verif.QTree.C35_two_centers` (Verif/QBX/Tree.lean; P): C35: a stage-1 tree is built only if there are exactly two centers per source.
* `Verif.QTree.C35_sides` (Verif/QBX/Tree.lean; PCQ): C35: with centers interleaved from the interior (`-1`) and exterior (`+1`) centers of the nodes, center `c` of the tree is the center of source `c / 2` on side `2 (c mod 2) - 1`.
* `Verif.QTree.C35_box_lists` (Verif/QBX/Tree.lean; PCQ): C35: the class list of a box holds exactly the class numbers of the particles of that class in the box, without repetition.
* `Verif.QTree.C35_starts_iff` (Verif/Util/Tight.lean; PCQ): C35: the first-source offsets exist exactly if every element has at least one node; otherwise computing them raises `ZeroDivisionError`.

### C36 Target slices of the QBX FMM are disjoint and complete — proved

The target list consists of the centers followed by the targets of each target discretization; target_discr_starts delimit disjoint consecutive slices whose sizes are the discretizations' DOF counts, and each output of a potential statement is cut from the slice of its own (target, side) pair.

*Model and proof.* Prefix sums of target sizes.

*Status.* target list, side preferences, dictionary of (target, side) pairs and cutting of the outputs

* `Verif.Geometry.C36_starts` (Verif/QBX/Geometry.lean; PQ): C36: `target_discr_starts` starts after the centers, grows by the DOF count of each target discretization, has one entry more than there are discretizations and ends at the number of targets.
* `Verif.Geometry.C36_targets` (Verif/QBX/Geometry.lean; PCQ): C36: whatever the order in which the copy kernels perform their stores, the target list holds the centers first and then, from `target_discr_starts[k]` on, the points of target discretization `k`; every target number belongs to exactly one of these.
* `Verif.Geometry.C36_sides` (Verif/QBX/Geometry.lean; PCQ): C36: the side preferences of target discretization `k` are the side requested for it, those of the centers are 0.
* `Verif.Geometry.C36_outputs` (Verif/QBX/Geometry.lean; PQ): C36: every output of the statement is cut from the slice of its own target and side: if the driver returns at each target the value `φ kernel point side`, then the result of each output is `φ` with its own kernel and side at the points of its own target, in order; outputs come in the requested order; no lookup fails.
* `Verif.Geometry.C36_failed` (Verif/QBX/Geometry.lean; P): C36: a failed target makes the execution raise; an inspector returning false makes all results zero.

### C37 Center-to-target lists invert the target-to-center map — proved

center_to_tree_targets lists, for each center, precisely the targets (by their number in the tree) associated with it, each once; global_qbx_centers are exactly the centers with at least one associated target; the non-QBX target list holds exactly the targets that are not centers and have no associated center.

*Model and proof.* Lists: sort by key + starts; permutation lemma.

*Status.* scan, scatter and bucket sort under arbitrary store orders; pyopencl's key-value sort and boxtree's filter by their specification

* `Verif.Geometry.C37_center_lists` (Verif/QBX/Geometry.lean; PCQ): C37: for every center, `center_to_tree_targets` lists exactly the tree numbers of the targets associated with it, each once -- for every association, tree permutation `sorted` (user to tree number) and order of the kernels' stores.
* `Verif.Geometry.C37_global_centers` (Verif/QBX/Geometry.lean; PCQ): C37: `global_qbx_centers` are, in increasing order, exactly the centers some target is associated with.
* `Verif.Geometry.C37_non_qbx` (Verif/QBX/Geometry.lean; PCQ): C37: the non-QBX target list holds exactly the (tree numbers of) targets that are not centers and have no associated center, in increasing order.

### C38 The QBX FMM adds up every source exactly once at every target — proved

If the translation operators are exact and the traversal lists cover each (target box, source box) pair exactly once, the QBX FMM driver returns in user order, for every target, the sum over all sources, through its QBX center if it has one and directly otherwise.

*Model and proof.* Driver over abstract additive operators with the traversal's coverage contract.

*Status.* point FMM passes of boxtree/sumpy represented by their recursions; QBX stages (p2qbxl, m2qbxl with per-level tables, l2qbxl, qbxl2p) and reordering modelled in detail, geometry data computed as in C37/C54

* `Verif.FMM.C38_fmm` (Verif/QBX/FMM.lean; PCQ): C38: If the translation operators are exact (`he`: evaluating gives the interactions `K` directly and `Q` through a center, given in user numbering) and the traversal covers every source exactly once for each target box, then the QBX FMM, run on the geometry data computed by the code from the target association `assoc` and the tree's permutations (`us`: tree to user source numbers, `sorted`: user to tree target numbers), returns in user order for every target the sum over all sources -- through its QBX center if it has one, directly otherwise. All kernels perform their stores in arbitrary order.

### C39 The two QBX cost models agree — proved

The OpenCL cost model (box-centric) and the reference Python cost model (center-centric) report the same cost for every target box and stage, for every tree and association.

*Model and proof.* Two folds over the same tree/traversal data; double-counting argument.

*Status.* The box-centric and the center-centric cost model agree for every stage, target box, tree, list 3 and cost table (commutative semiring arithmetic, any store order); totals over stages not included.

* `Verif.Cost.C39_form` (Verif/QBX/Cost.lean; PCQ): C39: forming QBX expansions
* `Verif.Cost.C39_l2qbxl` (Verif/QBX/Cost.lean; PCQ): C39: box local to QBX local translations
* `Verif.Cost.C39_eval` (Verif/QBX/Cost.lean; PCQ): C39: evaluating QBX expansions at the associated targets
* `Verif.Cost.C39_target_specific` (Verif/QBX/Cost.lean; PCQ): C39: target-specific QBX evaluation
* `Verif.Cost.C39_m2qbxl` (Verif/QBX/Cost.lean; PCQ): C39: multipole to QBX local translations (list 3)

### C40 Direct QBX evaluation fills every output exactly once — proved

Direct (non-FMM) evaluation returns one entry per requested output in order, self targets use the expansion on the requested side for every node, other targets use the QBX center value where a center is associated and the plain quadrature value elsewhere, and a +-1 request with an unassociated target raises RuntimeError.

*Model and proof.* exec_direct model over lists of outputs.

*Status.* Values, order of results and both error cases of direct evaluation for all output lists, associations and store orders; kernel values are parameters.

* `Verif.Direct.C40_direct_values` (Verif/QBX/Direct.lean; PCQ): C40: if direct evaluation succeeds, entry `i` of the result is output `i`'s name and the array of its values: on self targets the expansion on the requested side at every node, on other targets the value of the associated center's expansion, or plain quadrature where there is none; and it succeeds only if no output demanded a center some target lacks
* `Verif.Direct.C40_direct_errors` (Verif/QBX/Direct.lean; PCQ): C40: the errors. A self target without a side trips an assertion; otherwise a ±1 request with an unassociated target raises `RuntimeError`; otherwise evaluation succeeds

### C41 Interleaving places interior and exterior center data alternately — proved

interleave(a, b) yields a DOF vector with entry 2i = a[i] and 2i+1 = b[i] in every element group, so sides and radii of interleaved centers match the side convention used by target association.

*Model and proof.* List model.

*Status.* interleave/flatten

* `Verif.Dofs.C41_values` (Verif/QBX/Dofs.lean; PCQ): C41: interleaving yields a vector twice as long with `a[i]` at `2i` and `b[i]` at `2i + 1` of the flattened vectors, group by group, whatever order the kernels' stores are executed in.
* `Verif.Dofs.C41_accepts` (Verif/QBX/Dofs.lean; PCQ): C41: interleaving succeeds exactly for two thawed DOF arrays of the same array context whose groups match the discretization and each other in number, shape and dtype.

### C42 Elementwise reductions — proved

ElementwiseSum/Min/Max with node granularity returns at each node the reduction over its own element and with element granularity one such value per element; other granularities raise ValueError; applying ElementwiseMax/Min twice equals applying it once (node granularity).

*Model and proof.* List model with groups/elements.

*Status.* node/element reductions over groups

* `Verif.Dofs.C42_node_extremum` (Verif/QBX/Dofs.lean; PQ): C42: with node granularity, `ElementwiseMax` and `ElementwiseMin` give at every node the largest (smallest) value on the node's own element, in an array of the operand's shape.
* `Verif.Dofs.C42_element_extremum` (Verif/QBX/Dofs.lean; PQ): C42: with element granularity there is one entry per element, the largest (smallest) value on the element.
* `Verif.Dofs.C42_sum` (Verif/QBX/Dofs.lean; PQ): C42: `ElementwiseSum` sums over the node's own element, respectively over the element.
* `Verif.Dofs.C42_center` (Verif/QBX/Dofs.lean; -): C42: center granularity is rejected with `ValueError`.
* `Verif.Dofs.C42_idempotent` (Verif/QBX/Dofs.lean; PQ): C42: taking the elementwise maximum or minimum twice changes nothing.

### C43 Small matrix formulas used for metric terms are exact — proved

The closed-form inverses and eigenvalues used for first fundamental forms and shape operators satisfy A*inv(A)=I (nonzero determinant) and yield exactly the real roots of the characteristic polynomial, which exist unless the square root of a negative number is taken.

*Model and proof.* Polynomial identities over a field.

*Status.* Exact real arithmetic (no floating point). Inverse for 1x1/2x2 symmetric-use, eigenvalue formulas vs. characteristic polynomial (IsEigenvalue is defined with an explicit nonzero eigenvector), error cases for other shapes.

* `Verif.Surface.C43_inverse` (Verif/Surface/SmallMat.lean; PCQ): C43: the inverse is a two-sided inverse for nonzero determinant; shapes other than 1x1 and 2x2 are refused
* `Verif.Surface.C43_eigenvalues` (Verif/Surface/SmallMat.lean; PCQ): C43: the eigenvalue formula for general matrices with real spectrum (nonnegative discriminant) returns, in increasing order, exactly the eigenvalues
* `Verif.Surface.C43_real` (Verif/Surface/SmallMat.lean; PCQ): C43: the hypothesis of `C43_eigenvalues` is no restriction on real eigenvalues: a 2x2 matrix has a real eigenvalue exactly if the number under the square root is not negative (otherwise the code takes the square root of a negative number)
* `Verif.Surface.C43_sym_eigenvalues` (Verif/Surface/SmallMat.lean; PCQ): C43: the eigenvalue formula for symmetric matrices returns, in increasing order, exactly the eigenvalues, which are always real
* `Verif.Surface.C43_eigenvalue_shapes` (Verif/Surface/SmallMat.lean; PCQ): C43: shapes

### C44 Maximum curvature is the largest principal curvature — partial

In 3D, the maximum curvature used by the refinement criterion is the largest absolute eigenvalue of the shape operator.

*Model and proof.* Witness that the implemented formula fails; partial for symmetric shape operators.

*Status.* The code feeds the (generally non-symmetric) matrix of the shape operator to the symmetric eigenvalue formula, so the full property is FALSE of the code: C44_refuted gives a regular parametrization with principal curvatures +-1 for which 2 is returned, C44_underestimate_refuted one for which half of the largest is returned. C44_exact says exactly when the value is right (entry (0,1) of the matrix zero or equal to entry (1,0)) and when it errs on the safe side. C44_general_formula proves the property for the general eigenvalue formula also present in the code base.

* `Verif.Curvature.C44_from_derivatives_partial` (Verif/Surface/Curvature.lean; PCQ): **C44, from the derivatives**: for conformal parametrizations of a surface the largest absolute curvature is that of the normal curvatures of unit speed curves. Missing: every other parametrization, see `C44_refuted`
* `Verif.Surface.C44_shape_operator` (Verif/Surface/SmallMat.lean; PCQ): C44: the shape operator is the second fundamental form premultiplied by the inverse of the first (computed by `_small_mat_inverse`), and its eigenvalues are the principal curvatures: the `k` for which `II v = k I v` has a nonzero solution
* `Verif.Surface.C44_general_formula` (Verif/Surface/SmallMat.lean; PCQ): C44 as it would hold for the general eigenvalue formula: it yields the largest absolute eigenvalue of the shape operator for every regular parametrization
* `Verif.Surface.C44_max_curvature_partial` (Verif/Surface/SmallMat.lean; PCQ): C44, the part that holds for the formula in the code: when the shape operator's matrix happens to be symmetric (for instance for conformal parametrizations, `E = G`, `F = 0`). Missing: every other parametrization, see `C44_refuted`
* `Verif.Surface.C44_refuted` (Verif/Surface/SmallMat.lean; PCQ): C44 is false: for the regular parametrization with `I = diag(1, 4)` and second fundamental form `[[0, 2], [2, 0]]` (the saddle `z = 2uv`-like forms with one direction stretched), the shape operator has eigenvalues ±1 but the code's formula returns 2
* `Verif.Surface.C44_exact` (Verif/Surface/SmallMat.lean; PCQ): C44, exactly when it holds: for a regular parametrization the code always returns a number; it is the largest absolute principal curvature if and only if the off-diagonal entry `(0, 1)` of the matrix of the shape operator vanishes or equals the entry `(1, 0)`, and it is at least as large (so that refinement errs on the safe side) if and only if the square of the entry `(0, 1)` is at least the product of the two.
* `Verif.Surface.C44_underestimate_refuted` (Verif/Surface/SmallMat.lean; PCQ): C44 errs on the unsafe side, too: stretching the other direction (`I = diag(4, 1)`) the code returns half of the largest curvature, so that elements that are too curved for the criterion are not refined.

### C45 Tangential frames are orthonormal and conversions invert each other — proved

tangential_onb returns orthonormal vectors spanning the tangent space, tangential_to_xyz and xyz_to_tangential are mutually inverse on tangential fields, project_to_tangential is the idempotent orthogonal projection.

*Model and proof.* Identities over real vectors.

*Status.* Any ambient dimension, any number of linearly independent tangent columns, real arithmetic.

* `Verif.Frames.C45_orthonormal_basis` (Verif/Surface/Frames.lean; PCQ): C45: for linearly independent columns, `tangential_onb` returns as many vectors, orthonormal and spanning the same space
* `Verif.Frames.C45_tangential_roundtrip` (Verif/Surface/Frames.lean; PCQ): C45: tangential coordinates survive the round trip
* `Verif.Frames.C45_orthogonal_projection` (Verif/Surface/Frames.lean; PCQ): C45: `project_to_tangential` is the orthogonal projection onto the tangent space: its result is tangential and the difference is orthogonal to every tangential vector
* `Verif.Frames.C45_xyz_roundtrip` (Verif/Surface/Frames.lean; PCQ): C45: tangential vectors survive the round trip the other way
* `Verif.Frames.C45_idempotent` (Verif/Surface/Frames.lean; PCQ): C45: projecting twice is projecting once

### C46 Proxy balls contain their clusters — proved

With a radius factor of at least one, the ball of the proxy radius around the center of a (nonempty) cluster covers all points of the cluster (and, for QBX, their expansion disks); proxy points of cluster i are stored in the slice [i*nproxy, (i+1)*nproxy) and lie on the sphere of that radius; in two dimensions the reference points are the distinct corners of a regular polygon.

*Model and proof.* Max-of-distances list model.

*Status.* Arithmetic is over the reals (no rounding); radius_factor >= 1 is a hypothesis of the containment theorem; clusters are nonempty; the 3D reference sample from pytools is a parameter with unit-norm points.

* `Verif.Proxy.C46_init` (Verif/Linalg/Proxy.lean; PCQ): C46: `norm_type` must be `"l2"` or `"linf"` (`ValueError` otherwise), the radius factor defaults to a number above 1
* `Verif.Proxy.C46_reference` (Verif/Linalg/Proxy.lean; PCQ): C46: in two dimensions exactly the requested number of reference points is generated, and all of them have distance one from the origin; dimensions other than 2 and 3 raise `ValueError`
* `Verif.Proxy.C46_equispaced` (Verif/Linalg/Proxy.lean; PCQ): C46: the reference points in two dimensions are the corners of a regular polygon: they are distinct, one is `(1, 0)`, and turning the plane by an `n`-th of a full turn takes each of them to the next, and the last to the first
* `Verif.Proxy.C46_layout` (Verif/Linalg/Proxy.lean; PCQ): C46: proxy points of cluster `i` are exactly those with numbers `[i * nproxy, (i + 1) * nproxy)`; each is written, and is the scaled and translated reference point; they lie on the sphere around the cluster's center with the cluster's proxy radius
* `Verif.Proxy.C46_contains` (Verif/Linalg/Proxy.lean; PCQ): C46, `ProxyGenerator`: the cluster radius is the distance of the farthest point of the cluster from the center (so the smallest radius that covers the cluster), and with a radius factor of at least one the proxy ball contains every point of the cluster
* `Verif.Proxy.C46_contains_qbx` (Verif/Linalg/Proxy.lean; PCQ): C46, `QBXProxyGenerator`: with a radius factor of at least one the proxy ball contains the whole expansion disks on both sides of every point of the cluster, and, the centers being at the distance of the expansion radius, the points themselves
* `Verif.Proxy.C46_center` (Verif/Linalg/Proxy.lean; PCQ): C46: the center of a cluster is the mean of its points for `"l2"`, and the middle of its bounding box for `"linf"`: in each coordinate it is half way between an attained lower and an attained upper bound

### C47 Neighbor gathering is exact and never returns own points — proved

gather_cluster_neighbor_points returns for every cluster exactly those points of the target index list outside the cluster that lie within the cluster's proxy ball (up to a floating point tolerance by which the radius is enlarged), each once, as a valid index list with the same number of clusters.

*Model and proof.* Filter model with tree query contract.

*Status.* boxtree's area query and the tree are contracts (TreeOK/QueryOK): the ball returned for radius r contains every point within r and only points within r+eps.

* `Verif.Neighbors.C47_exact` (Verif/Linalg/Neighbors.lean; PCQ): C47: the neighbors of cluster `c` are points of the target index list outside of the cluster; all those inside the proxy ball are found, none farther away than the proxy radius plus `eps` is, and none is returned twice. (The index list has no repeated DOF.)
* `Verif.Neighbors.C47_mismatch` (Verif/Linalg/Neighbors.lean; PCQ): C47: index lists with different numbers of clusters are rejected with `ValueError`
* `Verif.Neighbors.C47_after_proxy` (Verif/Linalg/Neighbors.lean; PCQ): C47 on freshly generated proxies with the default target list: every DOF of another cluster inside the proxy ball is found, no DOF of the cluster itself ever is

### C48 Node partitioning covers every degree of freedom exactly once — partial

partition_by_nodes returns clusters that contain each DOF of the discretization precisely once. With tree_kind set they are the boxtree leaves; with tree_kind=None they are max(ndofs//max_particles_in_box, 2) consecutive ranges whose sizes differ by at most one, and anything but a one-dimensional curve is rejected.

*Model and proof.* Prefix/linspace model.

*Status.* Finding: the curve check accepts surfaces in 3D although the message says only curves are supported (C48_curve_check_refuted); finding: for tree_kind=None max_particles_in_box is not a bound on cluster size (C48_size_bound_refuted).

* `Verif.Partition.C48_tree` (Verif/Linalg/Partition.lean; PCQ): C48: the clusters made from a tree contain every DOF exactly once
* `Verif.Partition.C48_ranges` (Verif/Linalg/Partition.lean; PCQ): C48, `tree_kind=None`: there are `max(ndofs // max_particles_in_box, 2)` clusters, which contain every DOF exactly once (and in order), whatever monotone rounding of relative accuracy `u` the arithmetic has
* `Verif.Partition.C48_balanced` (Verif/Linalg/Partition.lean; PCQ): C48: in exact arithmetic the clusters are balanced, their sizes differing by at most one
* `Verif.Partition.C48_rejects_partial` (Verif/Linalg/Partition.lean; PCQ): C48, the part of the rejection that holds: curves outside of the plane raise `ValueError`. Missing: the error message ("only curves are supported for 'tree_kind=None'") promises it for everything that is not a curve, see `C48_curve_check_refuted`
* `Verif.Partition.C48_curve_check_refuted` (Verif/Linalg/Partition.lean; PCQ): surfaces in three dimensions are not rejected
* `Verif.Partition.C48_size_bound_refuted` (Verif/Linalg/Partition.lean; PCQ): `max_particles_in_box` does not bound the size of a cluster for `tree_kind=None`: 95 DOFs and at most 32 particles give a cluster of at least 47

### C49 Skeletonization yields consistent index sets — proved

The skeleton of each cluster is a subset of the cluster's own indices, has the same number of rows and columns for targets and sources of the cluster, and interpolation matrices have matching shapes; a single cluster or missing/both of id_eps/id_rank is rejected.

*Model and proof.* Index bookkeeping with interpolative decomposition as contract.

*Status.* scipy's interpolative decomposition is a contract (IDOK/IDTotal). Finding: truncating the interpolation rows to the common rank loses the requested accuracy (C49_truncation_loses).

* `Verif.Skeleton.C49_consistent` (Verif/Linalg/Skeleton.lean; PCQ): C49: whenever skeletonization succeeds, there are as many skeleton clusters as clusters; the skeleton of cluster `i` consists of `k_i > 0` of the cluster's own target (source) indices, the same number for targets and sources; `L[i]` has shape `(ntargets_i, k_i)`, `R[i]` has shape `(k_i, nsources_i)`, and both reproduce values at the skeleton points exactly
* `Verif.Skeleton.C49_subset` (Verif/Linalg/Skeleton.lean; PQ): a skeleton is a subset of its cluster, without repetitions if the cluster has none
* `Verif.Skeleton.C49_single` (Verif/Linalg/Skeleton.lean; P): C49: a single cluster is rejected with `ValueError`
* `Verif.Skeleton.C49_id_args` (Verif/Linalg/Skeleton.lean; P): C49: with both or none of `id_eps` and `id_rank` the decomposition raises `ValueError`, so skeletonization never succeeds
* `Verif.Skeleton.C49_success` (Verif/Linalg/Skeleton.lean; PCQ): C49: with two or more non-empty clusters, evaluable interactions, exactly one of `id_eps`/`id_rank` (the latter positive and no larger than any target cluster and its proxies), skeletonization succeeds
* `Verif.Skeleton.C49_recovers` (Verif/Linalg/Skeleton.lean; PCQ): C49: if the decomposition is exact and its rank does not exceed what the source side allows, the target interpolation recovers the interactions of the cluster from those of its skeleton
* `Verif.Skeleton.C49_truncation_loses` (Verif/Linalg/Skeleton.lean; PCQ): dropping rows of the interpolation matrix when the source side allows less rank (`skeletonization.py:662-664`) loses the accuracy `id_eps` asks for: here the decomposition is exact, but `L` does not recover the matrix

### C50 sort_arrays_together applies one stable permutation — proved

sort_arrays_together returns its (nonempty) arrays permuted by one and the same permutation, sorted by the key of the first; entries that belonged together stay together; hence operator grouping does not depend on the order in which kernels/densities are listed, as long as the key tells them apart.

*Model and proof.* Stable sort model.

*Status.* One stable permutation, ValueError on unequal lengths, pairs stay together; grouping independent of listing if the key tells rows apart (refuted for colliding str keys); empty arrays give no arrays (C50_empty).

* `Verif.SortTogether.C50_one_stable_permutation` (Verif/Source/SortTogether.lean; PCQ): C50: for at least one row, `sort_arrays_together` returns its arrays, all permuted by one permutation: the stable one that sorts the keys
* `Verif.SortTogether.C50_strict` (Verif/Source/SortTogether.lean; PQ): C50: arrays of different lengths raise `ValueError`
* `Verif.SortTogether.C50_empty` (Verif/Source/SortTogether.lean; PCQ): C50 (edge case the documentation does not mention): with empty arrays, the result is no arrays at all instead of as many empty ones, so unpacking it fails
* `Verif.SortTogether.C50_pairs_stay_together` (Verif/Source/SortTogether.lean; PCQ): C50: kernels and densities that belonged together stay together, so any sum over them is unchanged
* `Verif.SortTogether.C50_grouping_independent_of_listing` (Verif/Source/SortTogether.lean; PCQ): C50: if the key tells the rows apart, the grouping features do not depend on the order in which kernels and densities are listed
* `Verif.SortTogether.C50_refuted_for_colliding_keys` (Verif/Source/SortTogether.lean; PCQ): C50 without the hypothesis: rows with the same key keep their listing order, so the features differ

### C51 Copying a layer potential source preserves its configuration — partial

source.copy() without arguments has the same configuration as source, copy(x=v) changes precisely x, and conflicting FMM order specifications raise TypeError.

*Model and proof.* Record model of constructor/copy for the three source classes.

*Status.* QBX sources: identity, overrides, TypeError, constructor. Unregularized sources: false (expansion factory dropped, FMM cannot be switched off), proved what holds.

* `Verif.Copy.C51_copy_identity` (Verif/Source/Copy.lean; P): C51: copying a source without arguments reproduces its configuration, for every source the constructor can produce
* `Verif.Copy.C51_copy_overrides` (Verif/Source/Copy.lean; PQ): C51: a successful `copy` changes exactly the attributes whose argument is given. For the arguments tested by truth value, `0` and `""` count as not given.
* `Verif.Copy.C51_conflicting_orders` (Verif/Source/Copy.lean; PQ): C51: conflicting FMM order specifications raise `TypeError`, in the constructor and in `copy`
* `Verif.Copy.C51_defaults` (Verif/Source/Copy.lean; P): C51 (documented defaults): a source made without `_max_leaf_refine_weight` refines leaves above 64 in the plane and above 512 in space, and one made without `_from_sep_smaller_min_nsources_cumul` uses 15 on curves and 30 on surfaces; a given value is used as it is.
* `Verif.Copy.C51_constructor` (Verif/Source/Copy.lean; P): C51: a successful constructor call stores what it was given
* `Verif.Copy.C51_unregularized_partial` (Verif/Source/Copy.lean; P): C51 for unregularized sources, as far as it holds: a copy keeps every attribute that is not overridden except the expansion factory, which is reset to the default; hence the full statement holds exactly for sources with the default factory
* `Verif.Copy.C51_refuted_unregularized` (Verif/Source/Copy.lean; PCQ): C51 is false for unregularized sources: a copy loses a non-default expansion factory, and `copy(fmm_level_to_order=False)` does not turn the FMM off
* `Verif.Copy.C51_refuted_falsy_override` (Verif/Source/Copy.lean; PCQ): C51, what it leaves out for QBX sources: `copy(_max_leaf_refine_weight=0)` is silently ignored

### C52 Placing an expression keeps its discretization stage and granularity — partial

A quantity requested on a certain discretization stage or with a certain granularity, without naming a geometry, is evaluated on that stage and with that granularity of the default geometry after binding.

*Model and proof.* Same tagger model as C11; case analysis on the descriptor. False in general: witness, and the part for explicitly placed descriptors.

*Status.* false (C52_refuted): placing an unplaced descriptor on a default descriptor overwrites its stage; granularity and explicitly placed descriptors proved

* `Verif.Sym.C52_stage_partial` (Verif/Symbolic/Tagger.lean; PQ): C52 (partial): tagging keeps the granularity of every descriptor and the stage of every descriptor with an explicit geometry.
* `Verif.Sym.C52_refuted` (Verif/Symbolic/Tagger.lean; P): C52 is false: nodes requested on the quadrature stage without naming a geometry lose the stage when they are placed on the default source.

### C53 GMRES residuals never increase — proved

For a linear operator and an inner product, in exact arithmetic, the residual norms gmres reports never increase from one iteration to the next (through restarts and residual recomputation), so the solver never stops with 'non-monotonic residuals'; a breakdown of the orthogonalization only leads to NaNs and never to reported success.

*Model and proof.* GMRES model with exact arithmetic over an inner product given by laws (scaling normalizes, Bessel inequality); invariant over the loop.

*Status.* NormLaws: scaling normalizes, Bessel inequality

* `Verif.Gmres.C53_never_nonmonotonic` (Verif/Linalg/GmresExact.lean; PCQ): C53: for a linear operator and an inner product, in exact arithmetic, `gmres` never ends with "non-monotonic residuals".
* `Verif.Gmres.C53_decreasing` (Verif/Linalg/GmresExact.lean; PCQ): C53: under the same hypotheses the residual norms seen by the user never increase: later ones are at most as large as earlier ones, up to a possible breakdown, after which all of them are NaN.

### C54 Every QBX center is attributed to the target box containing it — proved

qbx_center_to_target_box()[c] is the index in traversal.target_boxes of the one box whose own targets include center c, whatever the order in which the device kernel executes.

*Model and proof.* Box target ranges as a partition of the targets; kernel of `qbx_center_to_target_box_lookup` with unordered stores.

*Status.* boxes' own target ranges partition the targets

* `Verif.Geometry.C54_center_to_target_box` (Verif/QBX/Geometry.lean; PCQ): C54: every center is attributed the (index of the) target box whose own target range contains it: if the own ranges of the boxes partition the tree targets and every box with own targets is a target box, then for every order of the stores, entry `c` of `qbx_center_to_target_box` is the index in `target_boxes` of the one box containing center `c`.

### C55 Normals are unit and orthogonal, area elements are lengths/areas, centers sit at the radius — proved

For every nondegenerate parametrization in 2D/3D the normal has length one and is orthogonal to all tangent vectors; the area element is the square root of the determinant of the first fundamental form; the cross-product helpers obey the vector identities; expansion centers lie at distance exactly the expansion radius on the chosen side.

*Model and proof.* Real vectors of the pseudoscalar/area element/normal expressions in 2D and 3D; identities.

*Status.* 2D and 3D normals via the pseudoscalar wedge product; real arithmetic.

* `Verif.Frames.C55_normal_2d` (Verif/Surface/Frames.lean; PCQ): C55: normals of curves: unit, orthogonal to the tangent, on the right of it (outside for positively oriented curves); the area element is the length of the tangent
* `Verif.Frames.C55_normal_3d` (Verif/Surface/Frames.lean; PCQ): C55: normals of surfaces: unit, orthogonal to both tangents, right-handed with them; the squared area element is the determinant of the first fundamental form
* `Verif.Frames.C55_cross` (Verif/Surface/Frames.lean; PCQ): C55: the cross product is orthogonal to its factors and `n × (n × v) = (n·v) n - v` for unit `n`, so `n_cross` applied twice is minus the tangential part
* `Verif.Frames.C55_expansion_centers` (Verif/Surface/Frames.lean; PCQ): C55: with a unit normal, the expansion centers of the two sides lie at distance `r` from their node, on opposite sides, `2 r` apart

### C56 The stretch factor bounds how far the element mapping stretches, independent of orientation — proved

The mapping stretch factor driving quadrature-resolution checks is twice the largest factor by which the derivative of the reference-to-global map stretches a (bi-unit/equilateral) reference direction, and does not change when the element is rotated or embedded in another ambient space.

*Model and proof.* Stretch factor expressions as real numbers; characterised as twice the maximum of the mapped unit directions.

*Status.* Exact real arithmetic; IsMaxStretch spells out 'twice the largest stretch'.

* `Verif.Curvature.C56_vertex_order` (Verif/Surface/Curvature.lean; PCQ): **C56**: the stretch factor of triangles does not depend on the order of their vertices.
* `Verif.Surface.C56_hypercube_stretch` (Verif/Surface/SmallMat.lean; PCQ): C56: the stretch factor of hypercube elements
* `Verif.Surface.C56_simplex_stretch` (Verif/Surface/SmallMat.lean; PCQ): C56: the stretch factor of simplex elements is that of the map from the equilateral reference element
* `Verif.Surface.C56_rotation_invariant` (Verif/Surface/SmallMat.lean; PCQ): the largest stretch is unique, so the factor is invariant under rotations of the ambient space (maps that preserve the lengths of images)
* `Verif.Surface.C56_rotation_invariant_simplex` (Verif/Surface/SmallMat.lean; PCQ): C56: the same for simplex elements
* `Verif.Surface.C56_moved` (Verif/Surface/SmallMat.lean; PCQ): C56: rotating, reflecting or embedding an element into a space of another dimension changes neither stretch factor

### C57 Cluster matrix builders return the entries of the full matrix — partial

For every expression accepted by both, a cluster matrix builder returns exactly the entries of the full operator matrix at the requested (target, source) index pairs, so that its diagonal blocks are the blocks of the full matrix; it accepts all linear combinations of the density and of layer potentials of it, and refuses what the full builder refuses (expressions nonlinear in the density).

*Model and proof.* Cluster builders on the expressions of C24; entries compared with the full builder's at the product index lists of C26.

*Status.* Entries and blocks proved in the fragment of C24; acceptance of linear combinations proved. Refusal is false: constant and quadratic densities are accepted (C57_refuted), and products with nodal arrays, which the full builder handles, die on a missing attribute (C57_refuted_vector).

* `Verif.ClusterMat.C57_entries_partial` (Verif/Exec/ClusterMat.lean; PCQ): C57: whenever the full builder produces a matrix and the cluster builder a result, the result is the array of the entries of that matrix at the requested (target, source) pairs, in order — or the number zero, if all of these vanish. Partial: the fragment `Frag` of C24 (see `C57_refuted` for what the cluster builder accepts beyond the full one).
* `Verif.ClusterMat.C57_blocks_partial` (Verif/Exec/ClusterMat.lean; PCQ): C57: hence, for target and source index lists as in C26 and the pairs that `make_index_cluster_cartesian_product` produces for them, cutting the flat result into diagonal blocks gives the blocks of the full matrix.
* `Verif.ClusterMat.C57_accepts` (Verif/Exec/ClusterMat.lean; PCQ): C57: a cluster builder accepts every linear combination of the input and of layer potentials of linear combinations of the input; the result has one entry per pair (or is the number zero).
* `Verif.ClusterMat.C57_no_composition` (Verif/Exec/ClusterMat.lean; PCQ): C57: composition of layer potentials and interpolation are refused.
* `Verif.ClusterMat.C57_reference_derivative` (Verif/Exec/ClusterMat.lean; PCQ): C57: reference derivatives of anything that depends on the unknown are refused by the cluster builders, as by the full one, and so are those of numbers; the derivative of an array that is not as long as the product of the indices is that of the full builder.
* `Verif.ClusterMat.C57_refuted` (Verif/Exec/ClusterMat.lean; PCQ): C57 is false for densities that are not linear in the input: a constant density and the square of the input are refused by the full builder, but the cluster builder treats both like multiples of the input.
* `Verif.ClusterMat.C57_refuted_vector` (Verif/Exec/ClusterMat.lean; PCQ): C57 is false for products with nodal arrays: the full builder scales the rows, the cluster builder fails on an attribute that does not exist.

### C58 Proxy expressions keep exactly the layer potential terms, with untransformed kernels, at the given places — partial

prepare_proxy_expr turns a sum of terms, each of which is free of layer potentials, a layer potential, or a product with one layer potential, into the sum of the layer potentials with their numerical factors; products of several layer potentials are refused; all kernels of the result are free of source and target transformations; all layer potentials of the result go from the given source to the given target, and all quantities in their densities are on the source.

*Model and proof.* `prepare_proxy_expr` and its three mappers over the expression trees of C11; structural induction, terms as a specification of sums.

*Status.* C58_terms/C58_product: terms kept, several layer potentials refused. Claim false in parts: an expression without layer potential that is not a sum survives (C58_refuted_terms); layer potentials nested in an untransformed one keep transformed kernels (C58_refuted_kernels); quantities inside densities are put on the target, and explicit interpolation descriptors stay (C58_refuted_places). C58_kernels_partial/C58_places_partial/C58_proxy_partial prove the rest when nothing is nested/interpolated/solved for. pymbolic's flattened_sum/flattened_product modelled from their documented behaviour, order of terms not modelled.

* `Verif.Sym.C58_terms` (Verif/Symbolic/ProxyExpr.lean; PCQ): C58: a sum of terms of the documented form — terms without layer potential, layer potentials, products with one layer potential — is reduced to the sum of the layer potentials with their constant factors.
* `Verif.Sym.C58_product` (Verif/Symbolic/ProxyExpr.lean; PCQ): C58: a product of two layer potentials is refused with `RuntimeError`, whatever the other factors (without layer potentials) are.
* `Verif.Sym.C58_refuted_terms` (Verif/Symbolic/ProxyExpr.lean; PCQ): C58 is false for expressions that are not sums: a multiple of the density alone is not removed, but turned into a constant, whose value is not the sum of the (no) layer potentials.
* `Verif.Sym.C58_kernels_partial` (Verif/Symbolic/ProxyExpr.lean; PQ): C58: if no layer potential is nested in another one, all kernels of the result are free of source and target transformations; source, target, limit and number of densities are those of a layer potential of the original expression, and of its arguments exactly those not belonging to source transformations remain. Partial: see `C58_refuted_kernels`.
* `Verif.Sym.C58_kernels_identity` (Verif/Symbolic/ProxyExpr.lean; PQ): C58: expressions without transformed kernels are left alone.
* `Verif.Sym.C58_places_partial` (Verif/Symbolic/ProxyExpr.lean; PQ): C58: without interpolations, interleaving and solves, replacing descriptors succeeds, changes nothing else, and puts all layer potentials from the given source to the given target and all other quantities on the given target. Partial: see `C58_refuted_places`.
* `Verif.Sym.C58_proxy_partial` (Verif/Symbolic/ProxyExpr.lean; PQ): C58: altogether, if nothing is nested, interpolated or solved for, every layer potential of the prepared expression has untransformed kernels, and goes from the given source to the given target.
* `Verif.Sym.C58_refuted_kernels` (Verif/Symbolic/ProxyExpr.lean; P): C58 is false for nested layer potentials: the single layer potential of a double layer potential keeps the transformed kernel inside.
* `Verif.Sym.C58_refuted_places` (Verif/Symbolic/ProxyExpr.lean; PCQ): C58 is false for quantities in densities: they are put on the target, although layer potentials take their densities on the source; and for interpolations, whose explicit descriptors stay.

### C59 The FMMLib backend computes the same sums, with and without target-specific QBX — proved

The FMMLib backend accepts exactly the nonempty lists of 2D/3D Laplace/Helmholtz kernels with at most one directional source derivative and one target derivative that agree in source direction and Helmholtz parameter (and are within reach of target-specific QBX if that is demanded); on accepted lists, with exact translation operators and a covering traversal, it returns for each kernel and target the sum over all sources, through the target's center if it has one, of the potential or of the gradient component, whether or not target-specific QBX is used, and never raises the error about gradients of dipoles.

*Model and proof.* The kernel digest loop, the QBX stages with their NumPy index manipulations (source box lists with `-1` entries, slice assignments, fancy `+=`), the target-specific loops as stores in arbitrary order, and `drive_fmm`; Fortran routines and target-specific kernels are exact operators; same argument as C38 plus an analysis of the index arrays.

* `Verif.FMMLib.C59_digest` (Verif/QBX/FMMLib.lean; PCQ): C59 (kernels): the backend accepts a nonempty list of kernels exactly if each is a 2D/3D Laplace or Helmholtz kernel with at most a directional source derivative and at most one target derivative outside, all have the same source direction and the same Helmholtz parameter, and, when target-specific QBX is demanded, each is handled by it; otherwise it raises. Accepted, it produces a gradient iff some kernel needs it, every kernel's own output, and uses target-specific QBX exactly when it is not forbidden and all kernels can be handled.
* `Verif.FMMLib.C59_ts_no_dipole_gradient` (Verif/QBX/FMMLib.lean; PCQ): C59 (no gradients of dipoles): when target-specific QBX is used with a source derivative, no gradient is wanted, so `impl.pyx`'s "Does not support computing gradient of dipole sources" cannot be raised.
* `Verif.FMMLib.C59_fmmlib` (Verif/QBX/FMMLib.lean; PCQ): C59: for every list of kernels `ks` the backend accepts (`hti`), with exact translation operators (values are the potential and its gradient), exact target-specific kernels where these are used, and a traversal covering every source exactly once for each target box, the driver with the FMMLib wrangler raises no error and returns one array per kernel, in the order of the kernels; its entry for a target is, in user order, the sum over all sources -- through the target's QBX center if it has one, directly otherwise -- of the potential, or of the component of the gradient the kernel asks for. In particular the results with and without target-specific QBX are equal. The parallel loop over the centers stores in arbitrary order.

### C60 Dirichlet and Neumann operators are the boundary values of their representations — partial

For DirichletOperator and NeumannOperator, operator(u) equals the square root of the quadrature weight times the boundary value (Dirichlet) or boundary normal derivative (Neumann), on the side given by loc_sign, of the field representation(u) — plus the mean of the density for the problems reported as unique only up to a constant. So a density solving operator(u) = prepare_rhs(b) represents a field with boundary data b; L2 weighting is only a change of variables; all potentials in operator(u) satisfy the limit rules checked by bind; keyword arguments override the constructor's kernel arguments in both methods; representation works at any target.

*Model and proof.* Model the symbolic expressions built by S/D/Sp/Dp with the argument check of IntG, the two operator classes, and the value of expressions over an arbitrary field with arbitrary boundary operators; prove the trace identity from the jump relations and the Calderon identity; refute where the code deviates.

*Status.* Partial: false of the code in four places, each with a refutation theorem: Dirichlet operator ignores keyword arguments; improved Neumann operator with weighting misses a division by sqrt(w); Neumann representation at an explicit target uses an illegal potential; default Neumann operator of a Yukawa kernel always raises. Jump relations and Calderon identity are hypotheses; BiharmonicClampedPlateOperator is the subject of C72.

* `Verif.PDE.C60_dirichlet_partial` (Verif/PDE/ScalarProps.lean; PCQ): **C60, Dirichlet.** With the kernel arguments given to the constructor, both `operator(u)` and `representation(u)` are built, and the value of the operator is the square root of the weight times the boundary value of the represented field on the side the problem is posed on — plus the mean of the density for the exterior Laplace problem, which is unique only up to a constant.
* `Verif.PDE.C60_dirichlet_solution_partial` (Verif/PDE/ScalarProps.lean; PCQ): **C60.** A density that solves the integral equation yields a field with the prescribed Dirichlet data (when no constant has to be fixed).
* `Verif.PDE.C60_neumann_partial` (Verif/PDE/ScalarProps.lean; PCQ): **C60, Neumann.** With the kernel arguments given to the constructor, the value of `operator(u)` is the square root of the weight times the boundary value, on the side of the problem, of the normal derivative of the represented field — plus the mean of the density for the interior Laplace problem — provided the "improved" operator is not combined with weighting and a nonzero `alpha`.
* `Verif.PDE.C60_neumann_built` (Verif/PDE/ScalarProps.lean; PCQ): **C60.** When `NeumannOperator.operator` is built: exactly when the kernel gets its arguments and, for the improved operator, the kernel is a Laplace or Helmholtz kernel.
* `Verif.PDE.C60_neumann_solution_partial` (Verif/PDE/ScalarProps.lean; PCQ): **C60.** A density that solves the integral equation yields a field with the prescribed Neumann data (when no constant has to be fixed).
* `Verif.PDE.C60_dirichlet_weighting` (Verif/PDE/ScalarProps.lean; PCQ): **C60.** `L²` weighting is a change of variables: the weighted operator applied to `√w σ` is `√w` times the unweighted operator applied to `σ`, so both equations have the same solutions and represent the same field. (Dirichlet.)
* `Verif.PDE.C60_neumann_weighting_partial` (Verif/PDE/ScalarProps.lean; PCQ): **C60.** The same for Neumann, when the improved operator is not used or `alpha` is zero.
* `Verif.PDE.C60_dirichlet_field` (Verif/PDE/ScalarProps.lean; PCQ): **C60.** At any targets the Dirichlet representation is `α S[u/√w] - D[u/√w]` with the arguments of the constructor overridden by the keyword arguments, each potential passed through `map_potentials`.
* `Verif.PDE.C60_kwargs_override` (Verif/PDE/ScalarProps.lean; PCQ): the values of the merged dictionary: keyword arguments win
* `Verif.PDE.C60_dirichlet_bindable` (Verif/PDE/ScalarProps.lean; PCQ): **C60.** Every potential in `DirichletOperator.operator(u)` satisfies the limit rules enforced when the expression is bound.
* `Verif.PDE.C60_neumann_bindable` (Verif/PDE/ScalarProps.lean; PCQ): **C60.** The same for the Neumann operator.
* `Verif.PDE.C60_dirichlet_field_bindable` (Verif/PDE/ScalarProps.lean; PCQ): **C60.** `DirichletOperator.representation` at a target other than the source (no one-sided limit) satisfies the limit rules enforced when the expression is bound.
* `Verif.PDE.C60_neumann_field_bindable_partial` (Verif/PDE/ScalarProps.lean; PCQ): **C60.** `NeumannOperator.representation` at a target other than the source satisfies the limit rules when `alpha` is zero (for other values see `C60_neumann_target_refuted`).
* `Verif.PDE.C60_defaults` (Verif/PDE/ScalarProps.lean; PQ): **C60.** An operator made without keywords has no `L²` weighting, uses the improved operator, no kernel arguments, and `alpha = 1j` exactly for Helmholtz kernels (else 0).
* `Verif.PDE.C60_dirichlet_kwargs_refuted` (Verif/PDE/ScalarWitness.lean; PCQ): **C60 fails for keyword arguments (Dirichlet).** `DirichletOperator.operator` ignores its keyword arguments: with `k` overridden in the call, operator and representation use different wave numbers.
* `Verif.PDE.C60_dirichlet_kwargs_missing_refuted` (Verif/PDE/ScalarWitness.lean; PCQ): … and with `k` supplied by keyword only, `representation` is built while `operator` raises.
* `Verif.PDE.C60_neumann_weight_refuted` (Verif/PDE/ScalarWitness.lean; PCQ): **C60 fails for the improved Neumann operator with weighting**: the `-u/4` of the Calderón identity is not divided by the square root of the weight.
* `Verif.PDE.C60_neumann_target_refuted` (Verif/PDE/ScalarWitness.lean; PCQ): **C60 fails for the Neumann representation at an explicit target**: whenever `alpha` is not zero and target and source are different geometries, the returned expression contains a potential from the source to the target with limit `+1`, which is rejected when the expression is bound — for every kernel, density and argument.
* `Verif.PDE.C60_neumann_yukawa_refuted` (Verif/PDE/ScalarWitness.lean; PCQ): **C60 fails for the default Neumann operator of a Yukawa kernel**, which the class documentation lists as supported: with the defaults (`alpha = 0`, `use_improved_operator=True`) `operator` always raises, although the improved operator is documented to be used only when `alpha` is not zero.
* `Verif.PDE.C60_kernel_arguments` (Verif/Util/Tight.lean; PCQ): C60 (kernel arguments): a single layer potential is built exactly if precisely the arguments of its kernel are supplied: none for Laplace and biharmonic, `k` for Helmholtz, `lam` for Yukawa.

### C61 Stokes potentials sum the right kernel components and the exterior operators are traces of the flow — proved

In 2D and 3D StokesletWrapper and StressletWrapper never miss a kernel and their apply, apply_derivative, apply_pressure and apply_stress return, component by component, the tensor contractions they document (Stokeslet: sum_i S_ci[sigma_i]; Stresslet: sum_ij T_cij[n_i sigma_j]; stress: (-p delta_cj + mu (d_j u_c + d_c u_j)) dir_j); other dimensions are rejected. For HsiaoKressExteriorStokesOperator and HebekerExteriorStokesOperator, a density solving operator(sigma) = prepare_rhs(b) gives a velocity whose exterior boundary value is b.

*Model and proof.* Model the dictionaries and loops with failing lookups; prove by an invariant of the accumulation loops that they compute the contraction; derive the trace identity from the jump relation.

*Status.* Jump relation and symmetry of the kernels are hypotheses; building and evaluating the expressions are identified (C01).

* `Verif.Stokes.C61_stokeslet` (Verif/PDE/StokesProps.lean; PQ): **C61.** In two and three dimensions no key of the kernel dictionaries is ever missing and `StokesletWrapper.apply` (and `apply_derivative`) is `Σ_i S_{ci}[σ_i]`.
* `Verif.Stokes.C61_stresslet` (Verif/PDE/StokesProps.lean; PQ): **C61.** The Stresslet potential is `Σ_{ij} T_{cij}[n_i σ_j]`.
* `Verif.Stokes.C61_stokeslet_stress` (Verif/PDE/StokesProps.lean; PQ): **C61.** Stress of the Stokeslet flow in direction `d`: `Σ_{ij} d_i T_{cij}[σ_j]`, the direction applied at the targets.
* `Verif.Stokes.C61_stokeslet_pressure` (Verif/PDE/StokesProps.lean; PQ): **C61.** Pressures: `Σ_i ∂_i S[σ_i]` for the Stokeslet.
* `Verif.Stokes.C61_stresslet_pressure` (Verif/PDE/StokesProps.lean; PQ): **C61.** … and `2μ Σ_{ij} ∂_i ∂_j S[σ_i n_j]` for the Stresslet.
* `Verif.Stokes.C61_stresslet_stress` (Verif/PDE/StokesProps.lean; PQ): **C61.** Stress of the Stresslet flow: `(-p δ_{cj} + μ (∂_j u_c + ∂_c u_j)) d_j` with `u` its velocity and `p` its pressure.
* `Verif.Stokes.C61_dimension` (Verif/PDE/StokesProps.lean; PQ): **C61.** Other dimensions are rejected by every entry point.
* `Verif.Stokes.C61_hebeker` (Verif/PDE/StokesProps.lean; PCQ): **C61, Hebeker.** `operator(σ)` is the boundary value of `velocity(σ)` from the exterior; so a solution of `operator(σ) = prepare_rhs(b)` represents a flow with boundary velocity `b`.
* `Verif.Stokes.C61_hebeker_solution` (Verif/PDE/StokesProps.lean; PCQ): **C61, Hebeker.** A solution represents the prescribed boundary velocity.
* `Verif.Stokes.C61_hsiao_kress` (Verif/PDE/StokesProps.lean; PCQ): **C61, Hsiao–Kress.** `operator(σ)` is the boundary value of `velocity(σ)` from the exterior plus what `prepare_rhs` adds to the right-hand side; so a solution of `operator(σ) = prepare_rhs(b)` represents a flow with boundary velocity `b`.
* `Verif.Stokes.C61_hsiao_kress_velocity` (Verif/PDE/StokesProps.lean; PQ): **C61, Hsiao–Kress.** The velocity at any limit, away from the surface or on it: minus the single layer of `-omega` spread over the curve, minus the double layer of `σ`, minus `eta` times (`alpha/2π ∫σ` minus the single layer of `σ` without its mean).
* `Verif.Stokes.C61_hsiao_kress_parameters` (Verif/PDE/StokesProps.lean; PQ): **C61, Hsiao–Kress, parameters.** The constructor's `alpha` and `eta` enter the velocity of the operator as documented, and leaving either out means 1.
* `Verif.Stokes.C61_hsiao_kress_meanless` (Verif/PDE/StokesProps.lean; PCQ): **C61, Hsiao–Kress.** The density of the single layer part has mean zero, for any linear integral that does not vanish on constants.
* `Verif.Stokes.C61_hsiao_kress_solution` (Verif/PDE/StokesProps.lean; PCQ): **C61, Hsiao–Kress.** A solution represents the prescribed boundary velocity.

### C62 Beltrami operators — partial

For the Yukawa-, Helmholtz- and other Beltrami operators and either preconditioning, a density solving operator(sigma) = prepare_rhs(b) gives, through prepare_solution(sigma), a solution of the Beltrami equation with right-hand side b; for the Laplace-Beltrami operator it gives the solution with right-hand side b - mean(b), of mean zero if b has mean zero. Keyword arguments given to operator() override the kernel arguments; an unknown preconditioning, the Laplace kernel in the general operator and missing kernel arguments are refused.

*Model and proof.* Verif/PDE/Beltrami.lean models all of beltrami.py, computing values of the potentials built, with the kernel-argument check of IntG. Potential theory (Calderon identities, decomposition of the surface Laplacian, additivity, injectivity of S) enters as hypotheses (Theory, IntegralTheory). C62_operator_partial/C62_solution_partial/C62_laplace/C62_laplace_solution/C62_constructed/C62_rejects; keyword arguments are refuted by C62_kwargs_refuted.

*Status.* False for keyword arguments: operator(sigma, **kwargs) with any keyword raises ValueError because the keywords are also handed to the argument-free Laplace kernel (C62_kwargs_refuted); everything else proved. Left and right preconditioned Laplace-Beltrami operators give solutions whose means have opposite signs when b does not have mean zero (C62_laplace_solution).

* `Verif.Beltrami.C62_operator_partial` (Verif/PDE/BeltramiProps.lean; PCQ): C62 (operators, partial: no keyword arguments, see `C62_kwargs_refuted`): for a kernel other than Laplace, with the arguments of the kernel given at construction, and either preconditioning, `operator(sigma)` is `prepare_rhs(B u)` where `u = prepare_solution(sigma)` and `B` is the Beltrami operator.
* `Verif.Beltrami.C62_solution_partial` (Verif/PDE/BeltramiProps.lean; PCQ): C62 (solution, partial: no keyword arguments): if the density solves the integral equation `operator(sigma) = prepare_rhs(b)`, then `prepare_solution(sigma)` solves the Beltrami equation with right-hand side `b`.
* `Verif.Beltrami.C62_laplace` (Verif/PDE/BeltramiProps.lean; PCQ): C62 (Laplace-Beltrami operator): `operator(sigma)` is `prepare_rhs` of `-Δ u` plus or minus the integral of `u`, with `u = prepare_solution(sigma)`: minus for left, plus for right preconditioning.
* `Verif.Beltrami.C62_laplace_solution` (Verif/PDE/BeltramiProps.lean; PCQ): C62 (Laplace-Beltrami solution): if the density solves the integral equation, then `u = prepare_solution(sigma)` satisfies `-Δ u = b - mean(b)`, so `-Δ u = b` with `u` of mean zero for every `b` of mean zero. (For other `b` the mean of `u` depends on the preconditioning.)
* `Verif.Beltrami.C62_constructed` (Verif/PDE/BeltramiProps.lean; PCQ): C62 (construction): the Yukawa and Helmholtz operators can be constructed with either preconditioning, carry the kernel of that name with its argument set to the variable of the name the user chose, and act on surfaces of codimension one unless told otherwise; any other preconditioning is refused.
* `Verif.Beltrami.C62_rejects` (Verif/PDE/BeltramiProps.lean; PQ): C62 (rejection): the general operator refuses the Laplace kernel with a `TypeError`, and an operator lacking an argument of its kernel, or having one too many, can neither prepare its solution nor be built.
* `Verif.Beltrami.C62_kwargs_refuted` (Verif/PDE/BeltramiProps.lean; PQ): C62 is false for keyword arguments: `operator(sigma, **kwargs)` with any keyword argument, in particular with a new value for the argument of the kernel, always raises a `ValueError` because the arguments are also handed to the Laplace kernel.

### C63 Point sources and unregularized sources compute the sums they stand for — partial

Executing a potential of a point source or an unregularized layer potential source returns, for the requested outputs in order and with their names, the sum over all source points (times quadrature weights and area elements for layer potentials) and all source kernels of the output's own target kernel, on the points of the output's own target: flat for point targets, in element groups for discretizations of the requested stage. With an FMM the results are the same, although each distinct target is handed to it once and kernel arguments are reordered to tree order; one-sided limits are refused and unknown geometries raise KeyError.

*Model and proof.* Verif/Source/Exec.lean models the three execution functions, argument evaluation and reordering, target gathering and slicing, and the two lookups of the collection; P2P is given by its documented sums and the FMM is a parameter assumed exact (Spec.FmmExact). C63_point_source, C63_unregularized_direct, C63_unregularized_fmm_partial, C63_fmm_targets_once, C63_fmm_one_sided_limit, C63_unknown_geometry, C63_fmm_surface_target_refuted.

*Status.* False for FMM evaluation at layer potential sources: the FMM path looks targets up with get_geometry (ignoring the stage), and layer potential sources have no nodes(), so the evaluation raises AttributeError (C63_fmm_surface_target_refuted), while direct evaluation of the same expression works. Everything else proved.

* `Verif.SrcExec.C63_point_source` (Verif/Source/ExecProps.lean; PCQ): C63: executing the potential of a point source: the results are in the order of the requested outputs, carry their names, and each is, on the points of its own target (unflattened for a discretization of the requested stage), the sum over all source points and source kernels of the output's own target kernel times the densities.
* `Verif.SrcExec.C63_unregularized_direct` (Verif/Source/ExecProps.lean; PCQ): C63: direct evaluation of a potential of an unregularized source: in the order of the outputs, with their names, each on the points of its own target, the sum over all nodes and source kernels of the output's own target kernel times quadrature weight (including the area element) times density.
* `Verif.SrcExec.C63_unknown_geometry` (Verif/Source/ExecProps.lean; PQ): C63: an output on a geometry that is not in the collection raises `KeyError` (as soon as it is reached; the other outputs being fine).
* `Verif.SrcExec.C63_unregularized_fmm_partial` (Verif/Source/ExecProps.lean; PCQ): C63, the part that holds for FMM evaluation: provided no target is itself a layer potential source and no one-sided limit is requested, and given an FMM that computes the sums it stands for, an unregularized source yields exactly what direct evaluation yields (`C63_unregularized_direct`): every output has its own name, target and target kernel, although targets shared between outputs are passed to the FMM only once and the per-source kernel arguments are reordered to tree order. Missing for the full property: targets that are layer potential sources (`C63_fmm_surface_target_refuted`).
* `Verif.SrcExec.C63_fmm_targets_once` (Verif/Source/ExecProps.lean; PCQ): C63: the FMM is handed each distinct target exactly once, in order of first appearance, whatever the number of outputs requested on it.
* `Verif.SrcExec.C63_fmm_one_sided_limit` (Verif/Source/ExecProps.lean; P): C63: with an FMM, asking an unregularized source for a one-sided limit fails with an `AssertionError` before anything is evaluated.
* `Verif.SrcExec.C63_fmm_surface_target_refuted` (Verif/Source/ExecProps.lean; PQ): C63, where the full property fails: with an FMM, a target that is a layer potential source (a QBX or unregularized surface, for example the source itself) makes the evaluation fail with an `AttributeError`, although direct evaluation handles it (`C63_unregularized_direct`).
* `Verif.SrcExec.C63_fmm_kernel` (Verif/Source/ExecProps.lean; PQ): C63: the FMM accepts a list of target kernels (otherwise an assertion fails) exactly when any two of them agree up to derivatives at the target.
* `Verif.SrcExec.C63_dispatch` (Verif/Source/ExecProps.lean; -): C63: a source evaluates directly exactly when its FMM order is `False`.

### C64 Potentials are computed in a type that can hold them, whatever was computed before — partial

The array type in which a potential is computed has the precision of the source and is complex exactly when a kernel or a density is complex-valued, for direct and FMM evaluation; the entry type of a value is found exactly when all arrays nested in it agree; and the evaluator of point-to-point interactions an array context hands out has the kernels asked for and the type this source would choose, whatever other sources, kernels and densities were evaluated in that context before.

*Model and proof.* Verif/Source/Dtype.lean models the choice of types, _entry_dtype over arbitrarily nested values and the memoized get_p2p as a state machine over call histories. C64_direct_partial, C64_fmm_partial, C64_entry_dtype, C64_p2p_kernels, C64_p2p_history_partial and the witnesses C64_direct_complex_density_refuted, C64_fmm_first_density_refuted, C64_p2p_history_refuted.

*Status.* False in three corners, each with a witness: direct evaluation chooses the type from the target kernels alone (complex densities with real kernels); FMM evaluation looks at the first density only; get_p2p is memoized in the array context with the kernels as key but captures the precision of the first source. Proved with those corners excluded by explicit hypotheses; C64_entry_dtype and C64_p2p_kernels hold without restriction.

* `Verif.Dtype.C64_direct_partial` (Verif/Source/Dtype.lean; PQ): C64: a type chosen from the target kernels alone is right as long as the densities are real or some target kernel is complex-valued. Missing: complex densities with real kernels (`C64_direct_complex_density_refuted`).
* `Verif.Dtype.C64_direct_complex_density_refuted` (Verif/Source/Dtype.lean; P): C64, direct QBX evaluation: for a real kernel (such as Laplace's) and a complex density the result array is real.
* `Verif.Dtype.C64_entry_dtype` (Verif/Source/Dtype.lean; PQ): C64: the entry type of a value is found exactly when all arrays in it, however nested, have one and the same type; that type is returned.
* `Verif.Dtype.C64_fmm_partial` (Verif/Source/Dtype.lean; PQ): C64: an FMM computes in the right type, provided no density is complex unless the first one is (or some kernel is). Missing: instructions whose first density is real and another complex (`C64_fmm_first_density_refuted`).
* `Verif.Dtype.C64_fmm_first_density_refuted` (Verif/Source/Dtype.lean; P): C64, FMM evaluation: with real kernels, a real first density and a complex second one, the output type is real.
* `Verif.Dtype.C64_p2p_kernels` (Verif/Source/Dtype.lean; P): C64: whatever was evaluated before in the array context, the evaluator of point-to-point interactions has the kernels asked for.
* `Verif.Dtype.C64_p2p_history_partial` (Verif/Source/Dtype.lean; PQ): C64: as long as all sources used in an array context have the same precision, the result type of a point-to-point evaluation does not depend on what was evaluated before: it is the one this source would choose itself. Missing: sources of different precision (`C64_p2p_history_refuted`).
* `Verif.Dtype.C64_p2p_history_refuted` (Verif/Source/Dtype.lean; P): C64, where history matters: after a double precision source, a single precision source evaluating the same kernels gets the double precision evaluator (and the other way round).

### C65 Integrals, means and norms are the quadrature quantities they are named after — partial

integral(discr, x) is the sum over all nodes of weight times area element times value; means of constants are those constants, means lie between bounds of the field and subtracting the mean leaves integral zero. norm(discr, x) is the square root of the integral of the squared pointwise length, for one field and for vectors of fields, and norm(discr, x, inf) the largest absolute value of any component at any node: both satisfy the triangle inequality, scaling and definiteness. A multivector is measured like the vector of its components and refused if it is not a vector; other orders raise ValueError. The array context used is the one supplied or occurring in the arguments, however nested; several different ones raise ValueError, none raises TypeError.

*Model and proof.* Verif/Exec/Norms.lean models the functions over exact complex numbers, with as_vector and Python's max spelled out; NormsProps.lean proves C65_integral, C65_integral_linear, C65_mean, C65_mean_bounds, C65_norm2, C65_norm2_triangle, C65_norm2_scale, C65_norm2_definite, C65_norm_inf_partial, C65_norm_inf_laws, C65_order, C65_multivector, C65_context, C65_context_disagree and the witness C65_inf_multivector_refuted.

*Status.* False for the maximum norm of a multivector that lacks a component: the component becomes the number 0, on which the node maximum fails an assertion (C65_inf_multivector_refuted), while the 2-norm works. Everything else proved. C65_nan_order records that NaN in a vector is noticed or not depending on the order of components.

* `Verif.Norms.C65_context` (Verif/Exec/NormsProps.lean; PQ): **C65.** An expression is evaluated in the array context `c` exactly when `c` is a PyOpenCL context that was supplied or occurs, however deeply nested in object arrays, in some argument, and no other context was supplied or occurs.
* `Verif.Norms.C65_context_disagree` (Verif/Exec/NormsProps.lean; PCQ): **C65.** Contexts that disagree are reported as such: with acceptable supplied context, `ValueError` is raised exactly when two different contexts are present.
* `Verif.Norms.C65_integral` (Verif/Exec/NormsProps.lean; PCQ): **C65.** `integral` is the quadrature sum over all nodes of all element groups: weight times area element times value.
* `Verif.Norms.C65_integral_number` (Verif/Exec/NormsProps.lean; PCQ): **C65.** A number has no array context: its integral cannot be computed this way.
* `Verif.Norms.C65_integral_linear` (Verif/Exec/NormsProps.lean; PCQ): **C65.** Integrals are linear.
* `Verif.Norms.C65_mean` (Verif/Exec/NormsProps.lean; PCQ): **C65.** The mean of a constant is that constant, and subtracting the mean leaves a field whose integral vanishes, unless the area is zero.
* `Verif.Norms.C65_mean_bounds` (Verif/Exec/NormsProps.lean; PCQ): **C65.** The mean is the weighted average: it lies between bounds of a real field when all weights are positive and there is a node.
* `Verif.Norms.C65_norm2` (Verif/Exec/NormsProps.lean; PCQ): **C65.** The 2-norm of a field, or of a vector of fields, is the square root of the quadrature sum of its squared pointwise length.
* `Verif.Norms.C65_norm2_triangle` (Verif/Exec/NormsProps.lean; PCQ): **C65.** Triangle inequality of the 2-norm, when no weight is negative.
* `Verif.Norms.C65_norm2_scale` (Verif/Exec/NormsProps.lean; PCQ): **C65.** Multiplying a field by a number multiplies its 2-norm by the absolute value.
* `Verif.Norms.C65_norm2_definite` (Verif/Exec/NormsProps.lean; PCQ): **C65.** With positive weights, exactly the fields that vanish at every node have 2-norm zero; no norm is negative.
* `Verif.Norms.C65_norm_inf_partial` (Verif/Exec/NormsProps.lean; PCQ): **C65.** The maximum norm of a field, or of a vector of fields, is the largest absolute value of any component at any node. Missing: vectors with components that are plain numbers (`C65_inf_multivector_refuted`).
* `Verif.Norms.C65_norm_inf_laws` (Verif/Exec/NormsProps.lean; PCQ): **C65.** Triangle inequality, scaling and definiteness of the maximum norm.
* `Verif.Norms.C65_order` (Verif/Exec/NormsProps.lean; PCQ): **C65.** Any other order is refused with `ValueError`, for every field.
* `Verif.Norms.C65_multivector` (Verif/Exec/NormsProps.lean; PCQ): **C65.** A multivector is measured like the vector of its axis coefficients (zero where there is none) in the 2-norm; one with a component of another grade is refused.
* `Verif.Norms.C65_inf_multivector_refuted` (Verif/Exec/NormsProps.lean; PCQ): **C65 fails for multivectors without one of the components**: the missing component is the number 0, over which no node maximum is taken, so the maximum norm raises `AssertionError`, although the 2-norm of the same field exists.
* `Verif.Norms.C65_nan_order` (Verif/Exec/NormsProps.lean; P): Python's `max` over components is no help against NaN: whether it is noticed depends on the order of the components (numbers with `none` for NaN, on which every comparison fails).

### C66 Maxwell: incident fields satisfy Maxwell's equations and the MFIE imposes the conductor conditions — partial

The symbolic vector product, curl and divergence are the textbook ones. The point source field satisfies Maxwell's equations away from the source for every current, and the plane wave satisfies them at the given frequency in the given medium for every direction and amplitude. For a perfect conductor, j_operator(loc, J) = j_rhs(Hinc) says exactly that the total magnetic field has no tangential component on the side opposite to loc, and then n x H on loc is the current; rho_operator(loc, rho) = rho_rhs(J, Einc) says exactly that the total electric field has no normal component on that side, and then n . E on loc is the charge; the scattered field satisfies Maxwell's equations exactly if current and charge potentials satisfy the Lorenz condition.

*Model and proof.* Verif/PDE/Maxwell.lean models the functions over an arbitrary field of numbers, with layer potentials as a structure carrying derivatives, traces and the jump relations (both one-sided limits and the average); MaxwellProps.lean proves C66_cross, C66_curl, C66_div, C66_point_source, C66_plane_wave_partial, C66_plane_wave_induction, C66_pec_current, C66_pec_current_physical, C66_pec_charge, C66_pec_charge_physical, C66_pec_field; MaxwellMueller.lean has the witness C66_plane_wave_medium_refuted and a toy world meeting the hypotheses.

*Status.* False for plane waves in media with epsilon or mu other than 1: the second half is B = sqrt(mu*epsilon) n x E and not H, and omega is used as the wave number (C66_plane_wave_medium_refuted); what does hold there is C66_plane_wave_induction. Everything else proved.

* `Verif.Maxwell.C66_plane_wave_medium_refuted` (Verif/PDE/MaxwellMueller.lean; PCQ): **C66 fails for plane waves in other media**: with `mu = 4`, `epsilon = 1` the returned pair is not a solution of Maxwell's equations for that medium, neither with `omega` as the frequency nor with `omega` as the wave number.
* `Verif.Maxwell.C66_cross` (Verif/PDE/MaxwellProps.lean; PCQ): C66: the sums over permutation symbols are the vector product.
* `Verif.Maxwell.C66_curl` (Verif/PDE/MaxwellProps.lean; PCQ): C66: the sums over permutation symbols are the curl.
* `Verif.Maxwell.C66_div` (Verif/PDE/MaxwellProps.lean; PCQ): C66: the sum over axes is the divergence.
* `Verif.Maxwell.C66_point_source` (Verif/PDE/MaxwellProps.lean; PCQ): **C66.** The field of a point source satisfies Maxwell's equations away from the source, whatever the current: all that is used is that each component of the potential satisfies the Helmholtz equation.
* `Verif.Maxwell.C66_plane_wave_partial` (Verif/PDE/MaxwellProps.lean; PCQ): **C66.** A plane wave with `epsilon = mu = 1` satisfies Maxwell's equations at the given frequency, for every direction and amplitude (orthogonal to the direction or not). Missing: other media (`C66_plane_wave_medium_refuted`; what holds there is `C66_plane_wave_induction`).
* `Verif.Maxwell.C66_plane_wave_induction` (Verif/PDE/MaxwellProps.lean; PCQ): **C66, other media.** With other values of `epsilon` and `mu` (and `c` their root), the second half of the plane wave is the magnetic induction `B`, and the frequency is `omega / c` (`omega` being the wave number): `curl E = iω'B`, `curl B = -iω'με E`.
* `Verif.Maxwell.C66_pec_current` (Verif/PDE/MaxwellProps.lean; PCQ): **C66, currents.** `j_operator(loc, J) = j_rhs(Hinc)` says exactly that the total magnetic field has no tangential component on the side opposite to `loc` (where the total field is to vanish).
* `Verif.Maxwell.C66_pec_current_physical` (Verif/PDE/MaxwellProps.lean; PCQ): **C66, currents.** Then, on the side `loc`, `n × H` of the total field is the current (with the sign of the side): the unknown is the physical surface current.
* `Verif.Maxwell.C66_pec_charge` (Verif/PDE/MaxwellProps.lean; PCQ): **C66, charges.** `rho_operator(loc, rho) = rho_rhs(J, Einc)` says exactly that the total electric field has no normal component on the side opposite to `loc`.
* `Verif.Maxwell.C66_pec_charge_physical` (Verif/PDE/MaxwellProps.lean; PCQ): **C66, charges.** Then, on the side `loc`, `n · E` of the total field is the charge.
* `Verif.Maxwell.C66_pec_field` (Verif/PDE/MaxwellProps.lean; PCQ): **C66.** The field of currents and charges satisfies Maxwell's equations off the surface exactly when the potentials satisfy the Lorenz condition `div A = ik φ`.

### C67 Maxwell transmission: Mueller's operator imposes the transmission conditions on the represented fields — partial

For two domains the six rows of operator(unk) are the jumps, across the surface, of tangential H, normal D, tangential E and normal B of the fields that unk represents in the two media, so operator(unk) = rhs(Einc, Hinc) says exactly that the incident field minus the outside field and minus the inside field fit together. representation(i, unk) gives those fields in domain i, and they satisfy Maxwell's equations of that medium if the potentials satisfy the Lorenz conditions. Any other number of domains raises, and an index that is no domain raises IndexError.

*Model and proof.* Verif/PDE/Maxwell.lean models the operator, right-hand side and representation; MaxwellMueller.lean proves C67_field, C67_operator, C67_solution, C67_two_domains, C67_representation_partial, C67_representation_index and the witness C67_representation_refuted.

*Status.* False for representation in media where epsilon, mu and sqrt(epsilon*mu) are not all equal: it weights the single layers with 1j*k*eps and -1j*k*mu where operator uses 1j*omega*mu*eps (C67_representation_refuted). Everything else proved. Solutions represent the negative of the scattered and transmitted fields (visible in C67_solution).

* `Verif.Maxwell.C67_field` (Verif/PDE/MaxwellMueller.lean; PCQ): **C67.** The fields of currents and charges satisfy Maxwell's equations in the medium if the potentials satisfy the Lorenz conditions, for a wave number with `k² = ω²εμ`.
* `Verif.Maxwell.C67_operator` (Verif/PDE/MaxwellMueller.lean; PCQ): **C67, the operator.** For two domains (0 inside, 1 outside) the six rows of `operator` are, in terms of the fields of the unknowns in the two media and their boundary values from outside (domain 1) and inside (domain 0): the tangential components of `n × (H₁ - H₀)`, then `n · (ε₁E₁ - ε₀E₀)`, the tangential components of `n × (E₁ - E₀)`, and `-n · (μ₁H₁ - μ₀H₀)`.
* `Verif.Maxwell.C67_solution` (Verif/PDE/MaxwellMueller.lean; PCQ): **C67, solutions.** `operator(unk) = rhs(Einc, Hinc)` says exactly that the incident field *minus* the outside field and *minus* the inside field fit together across the surface: tangential `E` and `H` and normal `εE` and `μH` are continuous.
* `Verif.Maxwell.C67_two_domains` (Verif/PDE/MaxwellMueller.lean; PCQ): **C67.** The operator and the right-hand side exist exactly for two domains.
* `Verif.Maxwell.C67_representation_partial` (Verif/PDE/MaxwellMueller.lean; PCQ): **C67, the representation.** `representation(i, sol)` gives the fields of domain `i` that `operator` is about, provided `√(εμ)` equals both `ε` and `μ` (for instance both are 1). Missing: other media (`C67_representation_refuted`).
* `Verif.Maxwell.C67_representation_index` (Verif/PDE/MaxwellMueller.lean; PCQ): **C67, the representation.** An index that is not a domain raises `IndexError`.
* `Verif.Maxwell.C67_representation_refuted` (Verif/PDE/MaxwellMueller.lean; PCQ): **C67 fails for the representation in other media**: with `ε = 4`, `μ = 1` (and `√4 = 2`), the electric field of `representation` is not the one of `operator` (its single layer has the coefficient `ikε = 2iωε` instead of `iωμε`).

### C68 Modeled costs: per box and per stage add up, scale with their calibration parameter and count operations — proved

qbx_cost_per_box and qbx_cost_per_stage describe the same total: summing over boxes equals summing over stages, if this holds for the FMM part. The cost of a box is its FMM cost plus its entries of the applicable QBX stages, exactly one of the two near field stages being used. Each stage cost is proportional to the one calibration parameter that calibration fits for that stage and independent of the others; with unit parameters the costs count operations (pairs of center and direct source, center and list 3 box, center, center and target). The OpenCL and the Python model agree. A result exists exactly if every level has an order and all five parameters are given; the metadata record the orders.

*Model and proof.* Verif/QBX/CostTotals.lean models the functions over a commutative semiring with dictionaries as association lists and boxtree's FMM costs as parameters; CostTotalsProps.lean proves C68_needs, C68_total, C68_box, C68_stages, C68_calibration, C68_unit, C68_counts, C68_models (using C39), C68_metadata, C68_coefficients.

* `Verif.Cost.C68_needs` (Verif/QBX/CostTotalsProps.lean; PCQ): **C68, calibration parameters.** Costs can be computed exactly if the order of every level is defined and all five QBX calibration parameters are present, used or not.
* `Verif.Cost.C68_total` (Verif/QBX/CostTotalsProps.lean; PCQ): **C68, totals.** Summing the cost per box over all boxes gives the sum of the costs per stage, provided the FMM part does; both raise the same exceptions.
* `Verif.Cost.C68_box` (Verif/QBX/CostTotalsProps.lean; PCQ): **C68, per box.** The cost of a box is its FMM cost plus, if it is target box number `k`, entry `k` of the four applicable QBX stages.
* `Verif.Cost.C68_stages` (Verif/QBX/CostTotalsProps.lean; PCQ): **C68, stages.** The stages of the result are those of the FMM and exactly one of the two near field stages, together with the other three QBX stages, each the sum over the target boxes.
* `Verif.Cost.C68_calibration` (Verif/QBX/CostTotalsProps.lean; PCQ): **C68, calibration.** The cost of each QBX stage depends on the calibration parameters only through the parameter that calibration fits for that stage, and is proportional to it.
* `Verif.Cost.C68_unit` (Verif/QBX/CostTotalsProps.lean; PCQ): **C68, unit parameters.** `get_unit_calibration_params` sets the five QBX parameters to one and leaves the others as they are.
* `Verif.Cost.C68_counts` (Verif/QBX/CostTotalsProps.lean; PCQ): **C68, counts.** For the center-centric model the totals are: one `p2qbxl` per pair of a center in use and a direct source of its box; one `p2p_tsqbx` per such pair and target of the center; one multipole translation per center and list 3 box of its box; one local translation per center; one evaluation per target of a center.
* `Verif.Cost.C68_models` (Verif/QBX/CostTotalsProps.lean; PCQ): **C68, both models.** The box-centric (OpenCL) and the center-centric (Python) cost model give the same results, box by box and stage by stage.
* `Verif.Cost.C68_metadata` (Verif/QBX/CostTotalsProps.lean; PCQ): **C68, metadata.** The metadata record the QBX order, the sizes, and the FMM order of every level.
* `Verif.Cost.C68_coefficients` (Verif/QBX/CostTotalsProps.lean; P): **C68, coefficient counts.** The translation cost models count `(p + 1)^(dim - 1)` coefficients for expansions that use the PDE and `(p + 1)^dim` for Taylor expansions, and point-and-shoot translations only in three dimensions with the PDE.

### C69 Costs of bound expressions can be modeled, calibrated and applied — partial

BoundExpression.cost_per_stage and cost_per_box return one entry for every potential of the expression, for exactly the expressions all of whose potentials are computed by FMM-accelerated QBX; other sources raise. These entries, together with timings, can be given to estimate_kernel_specific_calibration_params, which fits the parameters of each set of kernels to all pairs of modeled and measured costs for it and raises AssertionError exactly if something timed has no modeled cost; the parameters so obtained can be passed back to cost_per_stage for the same expressions. Evaluation itself is direct exactly if fmm_order is False.

*Model and proof.* Verif/QBX/CostBound.lean models the mapper, the dispatch and the calibration loop and proves C69_dispatch, C69_cost_partial, C69_estimate, C69_lookup_partial and the witnesses C69_cost_empty_refuted, C69_lookup_refuted, C69_calibration_refuted.

*Status.* False of the code: cost_per_stage and cost_per_box return empty dictionaries for every expression (C69_cost_empty_refuted), so calibration from them always fails (C69_calibration_refuted), and parameters are stored by source kernels but looked up by target kernels (C69_lookup_refuted). Proved: when the functions succeed, what calibration computes, and when parameters apply.

* `Verif.CostBound.C69_dispatch` (Verif/QBX/CostBound.lean; P): **C69, dispatch.** A QBX potential is computed directly exactly if `fmm_order` is `False`, with the FMM otherwise, and a warning is issued exactly if the geometry was not refined.
* `Verif.CostBound.C69_context` (Verif/QBX/CostBound.lean; PCQ): **C69, potentials are zero in cost evaluation.** Costs are modeled by running the whole program: later statements see the given arguments, all assigned values, and zeros for all potentials.
* `Verif.CostBound.C69_cost_partial` (Verif/QBX/CostBound.lean; PCQ): **C69, costs of a bound expression.** `cost_per_stage` and `cost_per_box` succeed exactly if all inputs are given and every potential is computed by FMM-accelerated QBX with calibration parameters for its *target* kernels. Missing: the documented result, one entry per potential (`C69_cost_empty_refuted`).
* `Verif.CostBound.C69_cost_empty_refuted` (Verif/QBX/CostBound.lean; PCQ): **C69 fails for the result**: whatever the program, both dictionaries are empty, so no potential has a modeled cost.
* `Verif.CostBound.C69_estimate` (Verif/QBX/CostBound.lean; PCQ): **C69, calibration.** Calibration succeeds exactly if there are as many models as timings and every timed instruction has a modeled cost in its case (`AssertionError` otherwise). It then fits, for every set of source kernels timed, all pairs of modeled and measured costs for it, in order.
* `Verif.CostBound.C69_lookup_partial` (Verif/QBX/CostBound.lean; PCQ): **C69, use of the parameters.** Parameters estimated from timings that include a potential with the same source kernels apply to an instruction whose source and target kernels agree as sets. Missing: other instructions (`C69_lookup_refuted`).
* `Verif.CostBound.C69_lookup_refuted` (Verif/QBX/CostBound.lean; PCQ): **C69 fails for the use of the parameters**: parameters calibrated with a double layer potential do not apply to that same potential, because they are stored by source kernels and looked up by target kernels.
* `Verif.CostBound.C69_calibration_refuted` (Verif/QBX/CostBound.lean; PCQ): **C69, calibration fails in practice**: modeled costs obtained from `cost_per_stage` cannot be used for calibration, as soon as anything was timed.
* `Verif.CostBound.C69_cost_errors` (Verif/Util/Tight.lean; PQ): C69 (refusals): modeling the cost of a potential fails with `NotImplementedError` for direct QBX evaluation and point sources, and with `AttributeError` for sources without a cost model.

### C70 Skeletonization errors measure what they say — partial

cluster_skeletonization_error(mat, skeleton, ord, relative) succeeds for every skeletonization whose points are rows and columns of mat and returns a tuple (src_errors, tgt_errors) of (nclusters, nclusters) arrays, where for different clusters i, j the target error is the norm of A_ij - L_i T_ij and the source error that of A_ij - S_ij R_j (divided by the norm of A_ij if relative), and the diagonals are zero. skeletonization_error returns, for clusters that do not overlap, the norm of A - D - L S R (divided by that of A if relative), i.e. of the matrix whose blocks for different clusters are A_ij - L_i S_ij R_j and which is zero elsewhere. If all cluster errors vanish, so does the error of the whole matrix; in general it is at most the sum over all pairs of clusters of the source error plus the target error times the norm of R_j.

*Model and proof.* Verif/Linalg/SkelError.lean models both functions with NumPy indexing, assignment, products and broadcasting and an abstract norm, and proves C70_cluster_partial, C70_total, C70_decompose, C70_exact, C70_relative, C70_of_skeletonize and the witness C70_order_refuted.

*Status.* Partial because the order of the result is the reverse of the documented one (C70_order_refuted): target errors come first. Everything else is proved in full.

* `Verif.SkelError.C70_bound` (Verif/Linalg/SkelBound.lean; PCQ): **C70**: the error of the whole matrix is at most the sum, over all pairs of different clusters, of the source error of the pair plus its target error times the norm of the right interpolation matrix: so small cluster errors mean a small error.
* `Verif.SkelError.C70_skeleton_nodup` (Verif/Linalg/SkelBound.lean; PCQ): **C70**: the skeleton of a cluster of distinct points consists of distinct points, so `C70_bound` applies to every successful skeletonization of clusters that do not overlap.
* `Verif.SkelError.C70_cluster_partial` (Verif/Linalg/SkelError.lean; PCQ): **C70**: for a skeletonization whose interpolation matrices have the right shapes and whose points are rows and columns of `mat`, `cluster_skeletonization_error` succeeds. For two different clusters `i`, `j` the entry `i, j` of the first array is the norm of `A_ij - L_i T_ij`, that of the second the norm of `A_ij - S_ij R_j`, each divided by the norm of `A_ij` if a relative error was asked for; the diagonal of both is zero. Partial: the documentation promises the source errors first (`C70_order_refuted`).
* `Verif.SkelError.C70_total` (Verif/Linalg/SkelError.lean; PCQ): **C70**: for clusters which do not overlap, `skeletonization_error` succeeds, and returns the norm of the matrix (relative to that of `mat`) whose block for two different clusters is `A_ij - L_i S_ij R_j` and all of whose other entries are zero.
* `Verif.SkelError.C70_decompose` (Verif/Linalg/SkelError.lean; PCQ): **C70**: each block of the error of the whole matrix is the source error of the block plus the target error, at the source skeleton, propagated by the right interpolation matrix.
* `Verif.SkelError.C70_exact` (Verif/Linalg/SkelError.lean; PCQ): **C70**: if the source and target errors of all pairs of different clusters vanish, so does the error of the whole matrix, unless it was asked for relative to the norm of a zero matrix.
* `Verif.SkelError.C70_relative` (Verif/Linalg/SkelError.lean; PQ): **C70**: a relative error is a number exactly if the norm it is relative to is not zero; it is then the quotient of the two norms; else it is infinite, or NaN if the error is zero too.
* `Verif.SkelError.C70_of_skeletonize` (Verif/Linalg/SkelError.lean; PCQ): **C70**: every successful skeletonization, with any interpolative decomposition that keeps its promises, of clusters of rows and columns of `A` is one to which the theorems above apply.
* `Verif.SkelError.C70_order_refuted` (Verif/Linalg/SkelError.lean; PCQ): **C70** refuted: the first of the two arrays returned is not that of the source errors, as documented, but that of the target errors: here the left interpolation of the second cluster is exact for its interactions with the first, the right interpolation of the first is not, and it is the first array that is zero at this pair.

### C71 Skeletonization wranglers evaluate and weight the right interactions — partial

make_skeletonization_wrangler accepts one expression or many, one density or many, no domain, one, or one per density, and weights that are on by default, one flag or a pair of flags (else ValueError). For every block, the four interactions are evaluated for the density and the domain of its column and the expression of its row, sources being columns and targets rows; target proxy interactions of cluster i are multiplied by the mean of the quadrature weights over the neighbors of cluster i, which lies between the smallest and the largest of them, so that weighting keeps interactions finite. Proxies and neighbors of target clusters are found around the target points. skeletonize_by_proxy returns an array of shape (number of expressions, number of densities) of the skeletonizations of all blocks.

*Model and proof.* Verif/Linalg/SkelWeights.lean models the functions with opaque expressions and builders and rationals or NaN as entries, and proves C71_flags, C71_domains, C71_make, C71_calls, C71_calls_succeed, C71_mean, C71_mean_bounds, C71_weighted, C71_finite_partial, C71_target_proxy, C71_blocks, C71_geometry_partial and the witnesses C71_empty_refuted, C71_geometry_refuted.

*Status.* False of the code in two places: the weight of a cluster without neighbors is 0/0, so that its proxy interactions become NaN and an assertion fails (C71_empty_refuted); and proxies and neighbors of target clusters are found among the points of the source domain even if the target is another geometry (C71_geometry_refuted). Everything else is proved.

* `Verif.SkelWeights.C71_flags` (Verif/Linalg/SkelWeights.lean; P): **C71**: weighting is on for sources and targets unless a flag, or a pair of flags, says otherwise; anything else raises `ValueError`.
* `Verif.SkelWeights.C71_domains` (Verif/Linalg/SkelWeights.lean; PQ): **C71**: each density has a domain: the default source geometry if none is given, the one that is given, or the one at the same place of the list; a list of another length is refused.
* `Verif.SkelWeights.C71_make` (Verif/Linalg/SkelWeights.lean; PQ): **C71**: a wrangler has one prepared expression and one expression for each kind of proxies per expression given, one domain per density, weights both sides by default, and evaluates neighbors with QBX, source proxies pointwise and target proxies with QBX unless told otherwise.
* `Verif.SkelWeights.C71_calls` (Verif/Linalg/SkelWeights.lean; PCQ): **C71**: all four interactions of a block are evaluated for the density and the domain of its column, the other densities being known to the builder as such. Neighbor interactions come from the prepared expression of the row, proxy interactions from the one for this side, with the proxies added to the collection and nothing excluded; source clusters are the columns, target clusters the rows. Builders apply weights as told, except that those of target proxies never do.
* `Verif.SkelWeights.C71_calls_succeed` (Verif/Linalg/SkelWeights.lean; PCQ): **C71**: the four evaluations succeed for every row and column of the wrangler and as many clusters of proxies (or neighbors) as there are clusters.
* `Verif.SkelWeights.C71_mean` (Verif/Linalg/SkelWeights.lean; PCQ): **C71**: the weight of a cluster with points is the mean of the weights at its points; that of an empty cluster is NaN.
* `Verif.SkelWeights.C71_mean_bounds` (Verif/Linalg/SkelWeights.lean; PCQ): **C71**: the weight of a cluster lies between bounds of the weights at its points; in particular it is positive if they are, and equal to them if they are all equal.
* `Verif.SkelWeights.C71_weighted` (Verif/Linalg/SkelWeights.lean; PCQ): **C71**: weighting multiplies every entry of the block of cluster `i`, and nothing else, by the weight of cluster `i` of neighbors; it is refused if there are not as many of these as there are blocks.
* `Verif.SkelWeights.C71_finite_partial` (Verif/Linalg/SkelWeights.lean; PCQ): **C71**: finite target proxy interactions stay finite under weighting exactly if every cluster whose block has entries has neighbors. Partial: the full claim is that weighting does not make skeletonization fail, whatever the clusters; clusters without neighbors refute it (`C71_empty_refuted`).
* `Verif.SkelWeights.C71_empty_refuted` (Verif/Linalg/SkelWeights.lean; PCQ): **C71** refuted: for two clusters so far from each other that neither has neighbors, finite interactions with their proxies become NaN by weighting, and skeletonization fails with `AssertionError` (in `python -O`, hands NaN to the decomposition).
* `Verif.SkelWeights.C71_target_proxy` (Verif/Linalg/SkelWeights.lean; PCQ): **C71**: target proxy interactions are those of the builder call, weighted by the means over the neighbors of the weights of the domain of the column exactly if the wrangler says so.
* `Verif.SkelWeights.C71_blocks` (Verif/Linalg/SkelWeights.lean; PQ): **C71**: `skeletonize_by_proxy` returns an array with one row per expression and one column per density, whose entry `i, j` is the skeletonization of block `i, j`, for one and the same wrangler with default weights and builders.
* `Verif.SkelWeights.C71_geometry_partial` (Verif/Linalg/SkelWeights.lean; P): **C71**: the proxies around the source clusters of a block, and their neighbors, are found among the points of the domain of its column, those of the target clusters as well; so both are found among the right points if the block has this domain as its target. Partial: for blocks whose target is another geometry the points of the wrong geometry are used (`C71_geometry_refuted`).
* `Verif.SkelWeights.C71_geometry_refuted` (Verif/Linalg/SkelWeights.lean; P): **C71** refuted: for the interaction of a source geometry 3 with a target geometry 4 (whether set as default or in the expression), indices of target points select points of geometry 3 for proxies and neighbors.

### C72 Fourth-order operators: clamped plate and Cahn-Hilliard — partial

BiharmonicClampedPlateOperator accepts exactly kernels in two dimensions and the interior side, and two densities (else AssertionError); for potentials with the jump relations of the clamped plate kernels, its operator is the interior boundary trace of its representation and of the normal derivative of that, on any geometry. CahnHilliardOperator.operator is the boundary trace of the boundary conditions applied to its representation u, i.e. of du/dn + c u and dv/dn with v = b u - Laplacian u, on one side; it raises ZeroDivisionError if the two wave numbers have equal squares.

*Model and proof.* Verif/PDE/Plate.lean models both operators in the expression language of C60 and proves C72_plate_init, C72_plate_partial, C72_plate_density, C72_cahn_hilliard_partial, C72_cahn_hilliard_fails and the witnesses C72_plate_dofdesc_refuted, C72_cahn_hilliard_refuted.

*Status.* False of the code in two places: the representation of the clamped plate uses the normal of the default discretization instead of that of the given source (C72_plate_dofdesc_refuted; proved for the default dofdesc); the potentials of Cahn-Hilliard are scaled by 2i/pi but the jump terms are not, so that the operator is the trace on neither side (C72_cahn_hilliard_refuted; the exact discrepancy is proved in C72_cahn_hilliard_partial).

* `Verif.PDE.C72_plate_init` (Verif/PDE/Plate.lean; PQ): **C72**: clamped plate operators exist exactly for interior problems in two dimensions.
* `Verif.PDE.C72_plate_partial` (Verif/PDE/Plate.lean; PCQ): **C72**: on the default discretization, the clamped plate operator is the interior boundary value of the field it represents, and of its normal derivative, by the jump relations of [Farkas1990]: so densities for which it gives the boundary data represent fields that assume them. Partial: on another discretization the normals and tangents in the potentials are those of the default one (`C72_plate_dofdesc_refuted`).
* `Verif.PDE.C72_plate_density` (Verif/PDE/Plate.lean; PQ): **C72**: a density vector of another length than two is refused with an `AssertionError`.
* `Verif.PDE.C72_plate_dofdesc_refuted` (Verif/PDE/Plate.lean; PCQ): **C72** refuted: for a surface that is not the default one, the operator is not the interior boundary value of the field, although the jump relations hold on all surfaces: the normals and tangents in the potentials are those of the default discretization.
* `Verif.PDE.C72_cahn_hilliard_partial` (Verif/PDE/Plate.lean; PCQ): **C72**: both rows of the Cahn-Hilliard operator differ from the boundary conditions `∂ₙu + cu` and `∂ₙ((λ₁² + λ₂²)u - Δu)` of the field `u` it represents, on either side of the surface, by a multiple `(1 ± f)/2` of the densities, where `f = -1/(2π)/(i/4)` is the scaling of the potentials. Partial: what is claimed is that there is no difference, which needs `f = 1` (interior) or `f = -1` (`C72_cahn_hilliard_refuted`).
* `Verif.PDE.C72_cahn_hilliard_refuted` (Verif/PDE/Plate.lean; PCQ): **C72** refuted: the potentials of the Cahn-Hilliard operator are scaled by `2i/π`, but the jump terms in it are not: wherever the first density does not vanish, the first row is not the boundary value of `∂ₙu + cu` from either side.
* `Verif.PDE.C72_cahn_hilliard_fails` (Verif/PDE/Plate.lean; PCQ): **C72**: if the two parameters have the same square, building the operator divides by zero; preparing a right-hand side never works.

### C73 Curvatures are geometric: Frenet, principal curvatures, invariance under parametrization and scale — proved

mean_curvature is available exactly for curves in the plane and surfaces in space (else NotImplementedError). For every regular, twice differentiable curve it is the signed curvature of Frenet's formula: the unit tangent turns with it, away from the normal if it is positive. For every regular surface it is minus the mean of the principal curvatures, and of the normal curvatures in any two orthogonal tangent directions. It does not depend on the parametrization except for its sign, which changes with the orientation; it is 1/R for circles and spheres of radius R with exterior normals; the conventions in two and three dimensions agree on cylinders. The scaled maximum curvature used in refinement does not change when the geometry is scaled.

*Model and proof.* Verif/Surface/Curvature.lean models the formulas over the reals with derivatives as data, and proves C73_available, C73_frenet (with Mathlib's derivative), C73_reparam_2d, C73_motions_2d, C73_circle, C73_principal, C73_mean_of_normal, C73_reparam_3d, C73_sphere, C73_cylinder, C73_scale_invariant; also C56_vertex_order.

* `Verif.Curvature.C73_available` (Verif/Surface/Curvature.lean; PCQ): **C73**: mean curvatures are available exactly for curves in the plane and surfaces in space; an omitted dimension is one less than that of the space.
* `Verif.Curvature.C73_frenet` (Verif/Surface/Curvature.lean; PCQ): **C73, curves**: `mean_curvature` is the signed curvature of the Frenet formula: the unit tangent of any regular, twice differentiable curve turns with it, towards the side opposite to the normal of the code if it is positive.
* `Verif.Curvature.C73_reparam_2d` (Verif/Surface/Curvature.lean; PCQ): **C73, curves**: the curvature does not depend on the parametrization, except that it changes sign with the orientation.
* `Verif.Curvature.C73_motions_2d` (Verif/Surface/Curvature.lean; PCQ): **C73, curves**: rotations and translations leave the curvature alone, reflections change its sign, and scaling by `l > 0` divides it by `l`.
* `Verif.Curvature.C73_circle` (Verif/Surface/Curvature.lean; PCQ): **C73, curves**: circles of radius `R`, however parametrized, have curvature `1/R` if positively oriented, i.e. if the normal of the code points outwards, and `-1/R` else. (`c`, `s`: cosine and sine of the angle, `p`, `q`: first and second derivative of the angle.)
* `Verif.Curvature.C73_principal` (Verif/Surface/Curvature.lean; PCQ): **C73, surfaces**: the mean curvature is minus the mean of the principal curvatures.
* `Verif.Curvature.C73_mean_of_normal` (Verif/Surface/Curvature.lean; PCQ): **C73, surfaces**: the mean curvature is minus the mean of the normal curvatures in any two orthogonal directions.
* `Verif.Curvature.C73_reparam_3d` (Verif/Surface/Curvature.lean; PCQ): **C73, surfaces**: the mean curvature does not depend on the parametrization, except that it changes sign with the orientation. (`a b c d`: first derivatives of the old parameters with respect to the new; `p`, `q`: their second derivatives.)
* `Verif.Curvature.C73_sphere` (Verif/Surface/Curvature.lean; PCQ): **C73, surfaces**: spheres of radius `R`, however parametrized, have mean curvature `1/R` if the normal of the code points outwards and `-1/R` if inwards. (`x` is the position relative to the center; the hypotheses say that the equation of the sphere holds up to second order.)
* `Verif.Curvature.C73_cylinder` (Verif/Surface/Curvature.lean; PCQ): **C73**: the conventions in two and three dimensions agree: the mean curvature of the cylinder over a curve is half the curvature of the curve.
* `Verif.Curvature.C73_surface` (Verif/Surface/Curvature.lean; PCQ): **C73, surfaces from their derivatives**: the mean curvature of a surface in space is minus the mean of the normal parts of the accelerations of two unit speed curves in orthogonal directions.
* `Verif.Curvature.C73_curve` (Verif/Surface/Curvature.lean; PCQ): **C73, curves from their derivatives**: the mean curvature of a curve in the plane is the part of its acceleration along the velocity turned by a right angle, in a unit speed parametrization.
* `Verif.Curvature.C73_scale_invariant` (Verif/Surface/Curvature.lean; PCQ): **C73**: the curvature used as refinement criterion is scale-invariant, as documented: enlarging the geometry by any factor leaves it alone, for curves in the plane and surfaces in space (the other cases are refused).

### C74 Expansion radii and centers fit together at every granularity — proved

expansion_radii at a node is half (for surfaces a quarter) of the stretch factor of the element map there; source danger zone and tunnel radii are 3/4 and 1/2 of it. With center granularity both centers of a node get the radius of the node, in the order of interleaved_expansion_centers: interior center first, and the k-th center lies exactly at the k-th radius from node k/2, along the normal on its side. h_max and h_min are the largest and smallest stretch factor and bound the radii; for straight uniform elements they are the element lengths. Element granularity (ValueError), mixed meshes (NotImplementedError), other shapes (RuntimeError) and other element types (TypeError) are refused.

*Model and proof.* Verif/Surface/Radii.lean models the functions on flattened lists of real values and proves C74_shapes, C74_radii, C74_centers, C74_mesh_width, C74_segment, C74_center_descriptor, using C41, C55 and C56.

* `Verif.Radii.C74_shapes` (Verif/Surface/Radii.lean; PCQ): **C74, shapes**: radii are refused for meshes that mix element types (`NotImplementedError`), for shapes other than simplices and hypercubes (`RuntimeError`) and for other element groups (`TypeError`), whatever the granularity.
* `Verif.Radii.C74_radii` (Verif/Surface/Radii.lean; PCQ): **C74, radii**: the expansion radius at a node is one half (for surfaces: one quarter) of the stretch factor there, the danger zone radius of a source is three quarters of it and the tunnel radius one half; with center granularity both centers of a node get the radius of the node; element granularity is refused.
* `Verif.Radii.C74_centers` (Verif/Surface/Radii.lean; PCQ): **C74, centers**: there are two centers per node, the interior one first. Center `k` lies at distance `r` from node `k / 2`, along the normal on its side, where `r` is the `k`-th radius with center granularity and also the radius of the node.
* `Verif.Radii.C74_mesh_width` (Verif/Surface/Radii.lean; PCQ): **C74, mesh width**: `h_max` and `h_min` are the largest and smallest stretch factor, and bound the expansion radii.
* `Verif.Radii.C74_segment` (Verif/Surface/Radii.lean; PCQ): **C74, element size**: as documented, the resolution of a straight element with uniform parametrization is its length: for a segment with ends `p`, `q` in any dimension, by both formulas.
* `Verif.Radii.C74_center_descriptor` (Verif/Surface/Radii.lean; PCQ): **C74**: descriptors that already have center granularity are not converted: without `granularity`, the nodal radii are returned (half as many as there are centers); with it, the call is refused.

### C75 GMRES entry point: the default inner product is the Hermitian product of all entries, the defaults solve to 1e-5 — proved

With no inner product given, gmres uses one that, for vectors of the same structure (numbers, NumPy arrays, device arrays, DOFArrays, object arrays nested in any way), is the Hermitian product of all entries with the first argument conjugated. It works exactly for numbers and NumPy arrays of numbers and, if the operator, the right-hand side and the initial guess agree on one PyOpenCL array context, for vectors on the device; without such a context it raises ValueError, for different Python types TypeError. With it, and unless hard_failure=False is given, every solution returned has a residual below tol (1e-5 by default) times the norm of the right-hand side, or none, and residual norms never increase; with no optional arguments a non-empty system ends in a result or GMRESError after at most 2n residuals, and an empty one in GMRESError.

*Model and proof.* Vectors as nested values; recursion over the structure shows the inner product is the flat Hermitian product; its laws are those the C53 theorems need, so C27, C28 and C53 apply to the entry point with its defaults.

* `Verif.Vdot.C75_vdot` (Verif/Linalg/Vdot.lean; PCQ): C75: for two vectors of the same structure `structured_vdot` returns a number exactly for numbers and NumPy arrays of numbers, and, if there is an array context, for everything without NumPy arrays of numbers inside; that number is the Hermitian product of all entries (first argument conjugated), however deeply they are nested.
* `Verif.Vdot.C75_refused` (Verif/Linalg/Vdot.lean; PCQ): C75: what is refused: vectors of different Python types with `TypeError`; device arrays, `DOFArray`s and object arrays without array context with `ValueError`, whatever their contents.
* `Verif.Vdot.C75_context` (Verif/Linalg/Vdot.lean; PCQ): C75: `gmres` finds the array context itself: it is the one all `DOFArray`s in the right-hand side and the initial guess, and the operator, agree on, if that is a PyOpenCL context; in all other cases (none, a disagreement, another kind of context) there is none.
* `Verif.Vdot.C75_shapes` (Verif/Linalg/Vdot.lean; PCQ): C75: every vector has the form used below: a shape filled with numbers.
* `Verif.Vdot.C75_solve` (Verif/Linalg/Vdot.lean; PCQ): C75: `gmres(op, rhs)` with the default inner product, on vectors of any structure on which that inner product works (`C75_vdot`, `C75_context`): unless `hard_failure=False` is given, every solution returned solves the system up to the tolerance, `1e-5` by default, in the Euclidean norm of all entries; the residual norms never increase and the solver never complains about non-monotonic residuals.
* `Verif.Vdot.C75_defaults` (Verif/Linalg/Vdot.lean; PCQ): C75: with no optional arguments and at least one unknown, the call ends in a result or `GMRESError`, never in another exception of its own, after at most `2 n` residuals; for an empty system it raises `GMRESError` (iteration limit) although `0 = 0` is solved.

### C76 bind and evaluate: the value of an expression is its meaning with all locations filled in — partial

Evaluating bind(places, expr) with values for all variables returns the value obtained by filling in the default locations (inside layer potentials the source, outside the target), computing each layer potential on a QBX source without a chosen stage from densities interpolated from stage 1 and arguments evaluated on stage 2, both taken to the quadrature stage, taking 'avg' as the mean of the two one-sided limits and targets without a stage on stage 1, and applying all other operations to the values of their operands. The value does not depend on caches, on the schedule of statements or on the iteration order of sets; a layer potential on a QBX source with a limit that does not fit its target makes bind raise ValueError. Evaluation of a successfully bound expression returns a value exactly if that meaning exists, and raises exactly if an operation in it raises or a variable it needs is not given.

*Model and proof.* Composition of the models of the passes (C11-C15) with the compiler theorem (C01): a denotation of expressions with filled-in locations, shown equal to the plain value of the expression after the passes by induction over expressions; the passes keep well-formedness and add no names.

*Status.* Partial: 'avg' only on QBX sources and not inside potentials of other sources, no limits if the collection has an unregularized source, and no variable named like a compiler temporary (the general claim is refuted in C02 and C12-C15); interpolations whose ends become equal disappear (C76_collapse) or make bind fail (C76_cyclic, C11_exact); all nestings of potentials are covered by C76_general, C76_nested and C76_refused, the flattening at the start of _prepare_expr by C76_flatten and C95, all steps of _prepare_expr by C76_all (DerivativeBinder on expressions without unbound derivatives, where it can only merge products; C76_binder: it does nothing unless an interpolation collapses).

* `Verif.Bind.C76_collapse` (Verif/Bind/Collapse.lean; PCQ): **C76** for all interpolations: also if filling in the locations makes both ends of an interpolation equal, evaluating the bound expression gives the meaning of the expression with its locations filled in, if interpolating from a place to the same place is the identity. (The preparation fails if such an interpolation is applied to an interpolation, `C76_cyclic`.)
* `Verif.Bind.C76_cyclic` (Verif/Bind/Collapse.lean; PCQ): **C76**: `bind` fails if an interpolation whose ends become equal is applied to an interpolation.
* `Verif.Bind.C76_exact` (Verif/Bind/Exact.lean; PCQ): **C76**, exactly: if the preparation succeeds, then `bind` followed by evaluation returns `v` if and only if `v` is the meaning of the expression with its locations filled in, and raises if and only if that expression has no meaning (an operation in it raises, or a variable is not given). No operation is assumed to be total and no variable is assumed to be given.
* `Verif.Bind.C76_schedule_any` (Verif/Bind/Exact.lean; PCQ): **C76**: without any assumption on the operations and the inputs, the outcome (the value, or that something is raised) does not depend on the caches of the collection, on the order in which the compiler schedules statements or iterates over sets, or on the names it generates.
* `Verif.Bind.C76_flatten` (Verif/Bind/Flatten.lean; PCQ): **C76** with flattening: if the expression with its locations filled in has a meaning, this is what `bind(places, expr)(**context)` returns; what is returned is in all cases the meaning of the flattened expression. (Only one direction for the expression itself: a factor 0 makes `bind` drop the other factors, evaluable or not, see `C95_zero`.)
* `Verif.Bind.C76_general` (Verif/Bind/Nested.lean; PCQ): **C76** for all nestings of layer potentials and all interpolations: evaluating a bound expression returns `v` if and only if `v` is the meaning of the expression with its locations filled in and interpolations between equal places left out, and raises if and only if that expression has no meaning. Layer potentials with different sources may be nested; those with limit `'avg'` have to be on a QBX source and outside of potentials of other sources.
* `Verif.Bind.C76_nested` (Verif/Bind/Nested.lean; PCQ): **C76** for all nestings of layer potentials: if interpolating from a place to the same place is the identity, the value is the meaning of the expression with its locations filled in.
* `Verif.Bind.C76_refused` (Verif/Bind/Nested.lean; PCQ): **C76** (refusal): for all nestings, `bind` raises `ValueError` if a layer potential on a QBX source, outside of potentials of other sources, has a limit that does not fit its target.
* `Verif.Bind.C76_all` (Verif/Bind/Prepare.lean; PCQ): **C76** for all steps of `_prepare_expr`: if the expression with its locations filled in has a meaning, and preparing it succeeds, this is what `bind(places, expr)(**context)` returns.
* `Verif.Bind.C76_binder` (Verif/Bind/Prepare.lean; PCQ): **C76**: unless filling in the locations makes both ends of an interpolation equal, binding derivatives changes nothing any more.
* `Verif.Bind.C76_bind_partial` (Verif/Bind/Props.lean; PCQ): **C76**: whenever the preparation succeeds, evaluating the bound expression gives the meaning of the expression with its locations filled in — if every sub-expression of the prepared expression has a value. Partial: expressions outside of `Plain` and `NoClash` have other outcomes (C02, C11, C12, C13), and unregularized sources are left out.
* `Verif.Bind.C76_total_partial` (Verif/Bind/Props.lean; PCQ): **C76**: if no operation can fail and every variable of the expression is given, then the value exists and is what `bind` and evaluation return.
* `Verif.Bind.C76_schedule` (Verif/Bind/Props.lean; PCQ): **C76**: the result does not depend on the caches of the collection, on the order in which the compiler schedules statements or iterates over sets, or on the names it generates.
* `Verif.Bind.C76_limits` (Verif/Bind/Props.lean; PCQ): **C76**: a layer potential on a QBX source whose limit does not fit its target makes `bind` raise `ValueError`, wherever it occurs in the expression.

### C77 The FMM and the direct path evaluate the same layer potential — partial

Whether a layer potential is evaluated with the FMM or directly does not change the result: with exact expansions both return for each output, in order, at each point of its target the sum over all sources through the center that association picks for the point and the requested side, or plain quadrature where it picks none. Association depends only on the point and the side, not on the tree or the other targets. On the source itself association picks each node's own center. Both use as strengths quadrature weight times area element times density in node order, and refuse (TypeError) densities which are not DOFArrays.

*Model and proof.* Composition of the models of target association (C30, C31), the target bookkeeping and driver of the FMM (C36-C38) and direct evaluation (C40): association is shown equal to a brute-force one over all sources and centers, both paths to a common specification; every problem is shown to have runs.

*Status.* Partial: the two paths agree wherever both return, provided no two centers of one side are equally good (ties are decided by the tree) and, on the source itself, no node lies inside a disk of another center (refinement ensures this with expansion-disturbance tolerance 0 only, C77_refined_refuted); the paths do not refuse the same requests (side +-1 with a target away from the surface: RuntimeError in the direct path, plain quadrature with the FMM). Each restriction has a refutation.

* `Verif.RefineGeom.C77_refined_refuted` (Verif/QBX/OwnCenter.lean; PCQ): **C77 is false for refined geometries too**: a geometry that stage-1 refinement with the default tolerance returns without a warning, on which the FMM evaluates a layer potential at one of its own nodes through the center of another node (the association, for every tolerance and any other targets), where direct evaluation uses the node's own center `2 * 1 + 1`.
* `Verif.Paths.C77_strengths` (Verif/QBX/Paths.lean; PQ): C77: **source strengths** are, in flat node order, weight times area element times density at each node, one array per density; a density that does not evaluate to a `DOFArray` raises `TypeError`.
* `Verif.Paths.C77_association` (Verif/QBX/Paths.lean; PCQ): C77: **Target association depends only on the point and the requested side**: whichever tree it runs on, together with whichever other targets, it assigns what looking at all sources and centers would, provided no two centers of one side serve the point equally well.
* `Verif.Paths.C77_association_succeeds` (Verif/QBX/Paths.lean; PCQ): C77: **Whether association succeeds depends only on the points and sides too**: it succeeds for a list of target discretizations together if and only if it does for each of them alone.
* `Verif.Paths.C77_fmm_values` (Verif/QBX/Paths.lean; PCQ): C77: **FMM evaluation** returns for each output, in order, the value of the layer potential at the points of its target: through the center brute-force association would pick for the requested side, or by quadrature where it picks none. The check for failed targets never fires.
* `Verif.Paths.C77_direct_values` (Verif/QBX/Paths.lean; PCQ): C77: **direct evaluation**, if it succeeds, returns for each output, in order, the value of the layer potential at each point of its target; on the source itself each node uses its own center.
* `Verif.Paths.C77_direct_refuses` (Verif/QBX/Paths.lean; PCQ): C77: **when direct evaluation refuses**: with an assertion exactly if a target which is the source itself is asked for without a side, otherwise with `RuntimeError` exactly if an off-surface output demands side `±1` and brute-force association finds no center for one of its points; it succeeds in all other cases.
* `Verif.Paths.C77_paths_agree_partial` (Verif/QBX/Paths.lean; PCQ): C77, the part that holds: if both paths return, they return the same for every output whose target is not the source itself, and for outputs on the source if association picks each node's own center. (The full property also asks that the two paths refuse the same inputs, that ties do not matter and that on-surface targets need no such condition; see the refutations below.)
* `Verif.Paths.C77_own_center` (Verif/QBX/Paths.lean; PCQ): C77: **on the source itself association picks each node's own center**, so that the last theorem covers on-surface targets: for side `±1` (or any nonzero request), if the node is as far from its own center as that center's radius `r`, no center's disk has the node in its interior (what refinement achieves with expansion-disturbance tolerance 0 only: for the default 0.025 see `C77_refined_refuted`, `QBX/OwnCenter.lean`), radii are enlarged by the same factor for all centers, the node is within some source's tunnel, and there is no tie.
* `Verif.Paths.C77_side_far_refuted` (Verif/QBX/Paths.lean; PCQ): C77: **the two paths do not refuse the same requests.** Asked for side `+1` at a target with a point away from the surface, direct evaluation raises `RuntimeError` while the FMM path returns the value of plain quadrature there.
* `Verif.Paths.C77_tie_refuted` (Verif/QBX/Paths.lean; PCQ): C77: **ties are decided by the tree.** Where two centers of one side are equally good, which one is assigned depends on the order in which the area query visits the leaves, and so does the value.
* `Verif.Paths.C77_self_refuted` (Verif/QBX/Paths.lean; PCQ): C77: **on the source itself the two paths may use different centers.** If a node lies inside the disk of another node's center, association (FMM path) prefers that center, direct evaluation uses the node's own.

### C78 Layer potential constructors stand for the operators they name — partial

S is the single layer potential of the kernel given (with whatever derivatives it already carries), D the one of its derivative along the source normal, Sp and Spp the first and second derivative of S along the (fixed) target normal, Dp that of D; int_g_dsource with a vector v has as components the derivative along v and those along v_a e_b - v_b e_a; normal_derivative, normal_second_derivative and (on curves) tangential_derivative are the derivatives of the field of the potential in these directions. Densities, source, target and side are passed on; the side defaults to +1 for S, Spp, Dp and to the average for D and Sp. Kernel arguments, in a dictionary or by keyword, must be exactly those the kernel takes: else ValueError. Object arrays of densities give one potential per entry, in order.

*Model and proof.* Kernels as nested derivatives of a smooth function; the constructors as functions to potentials; the field of a potential is the quadrature sum of real (Frechet) derivatives of the kernel, and the results are derivatives in the sense of Mathlib.

*Status.* Partial: D, Dp and int_g_dsource of a kernel which already has a direction vector named dsource_vec (or a keyword of this name) overwrite it (refuted). tangential_derivative is a derivative on curves only: on surfaces in space it is identically zero (proved).

* `Verif.LayerOps.C78_arguments` (Verif/Symbolic/LayerOps.lean; PCQ): **C78, arguments**: a potential can be built exactly if the arguments given (by dictionary or keyword) are those of its kernel; else `ValueError` is raised. Double layers supply the direction vector themselves.
* `Verif.LayerOps.C78_places` (Verif/Symbolic/LayerOps.lean; PCQ): **C78, places**: every potential in a result has the density, source, target and limit asked for; unspecified limits default to `+1` for `S`, `Spp` and `Dp` and to `'avg'` for `D` and `Sp`.
* `Verif.LayerOps.C78_single` (Verif/Symbolic/LayerOps.lean; PCQ): **C78, single layers**: `S` is the layer potential with the kernel given, whatever source and target derivatives that kernel has.
* `Verif.LayerOps.C78_double_partial` (Verif/Symbolic/LayerOps.lean; PCQ): **C78, double layers**: `D` is the layer potential with the derivative of the kernel along the normal of the *source*, with respect to the source point. Missing: kernels which themselves have a direction vector called `dsource_vec`, see `C78_refuted`, and keyword arguments of this name.
* `Verif.LayerOps.C78_dsource_partial` (Verif/Symbolic/LayerOps.lean; PCQ): **C78, vector derivatives**: the components of `int_g_dsource` for a vector `v` are those of the geometric product of `v` and the source gradient: the derivative along `v`, and for `a < b` the derivative along `v_a e_b - v_b e_a`.
* `Verif.LayerOps.C78_normal_derivative` (Verif/Symbolic/LayerOps.lean; PCQ): **C78, normal derivatives**: `normal_derivative` of a potential is the derivative of its field along the normal of the target.
* `Verif.LayerOps.C78_second_derivative` (Verif/Symbolic/LayerOps.lean; PCQ): **C78, second normal derivatives**: `normal_second_derivative` is the second derivative of the field along the (fixed) normal of the target.
* `Verif.LayerOps.C78_Sp` (Verif/Symbolic/LayerOps.lean; PCQ): **C78, `Sp` and `Spp`**: first and second derivative, along the normal of the target, of the single layer potential with the kernel given.
* `Verif.LayerOps.C78_Dp_partial` (Verif/Symbolic/LayerOps.lean; PCQ): **C78, `Dp`**: the derivative, along the normal of the target, of the double layer potential. Missing: as in `C78_double_partial`.
* `Verif.LayerOps.C78_tangential` (Verif/Symbolic/LayerOps.lean; PCQ): **C78, tangential derivatives**: on curves `tangential_derivative` is the derivative of the field along the unit tangent of the target.
* `Verif.LayerOps.C78_tangential_surface_zero` (Verif/Symbolic/LayerOps.lean; PCQ): For surfaces (the unit tangent blade has two axes) every component of `tangential_derivative` vanishes, whatever the operand is.
* `Verif.LayerOps.C78_vector` (Verif/Symbolic/LayerOps.lean; PQ): **C78, vectors**: a vector of densities gives the vector of the potentials of its components.
* `Verif.LayerOps.C78_refuted` (Verif/Symbolic/LayerOps.lean; PCQ): **C78, the limit of the double layer potential**: a kernel that already has a direction vector `dsource_vec` loses it: the derivative along the vector given by the user is replaced by a second one along the normal. The double layer potential of `∂_1 (y_0 ^ 2)` is `0`, that of the program is `2`.
* `Verif.PDE.C78_normal_derivatives` (Verif/Util/Tight.lean; P): C78 (derivative of layer potentials): `Sp` and `Dp` keep source, target, kernel, limit and density of the single and double layer potential, and differentiate along the normal of the *target*; the double layer uses the normal of the *source* as direction.

### C79 Back ends and expansions chosen for a potential statement — partial

For a batched potential statement, the sumpy FMM back end accepts any kernels with one common base kernel unless target-specific QBX is demanded, and uses the factory's expansions of that base kernel, one and the same QBX expansion for forming, translating and evaluating; the FMMLib back end accepts exactly single source kernels that are 2D or 3D Laplace or Helmholtz kernels or a directional source derivative thereof, with potentials and gradient components as outputs (target-specific QBX: three dimensions, not both derivatives), passes the user's Helmholtz parameter and dipole directions by their names, computes for each output its own component; anything else is a ValueError (a missing argument a KeyError). Unknown back ends are refused. Direct evaluation uses line Taylor expansions on the source if no target derivative is wanted, else the factory's local expansion, and volume Taylor expansions off the source, always of the source's QBX order. Which expansion is used for a potential does not depend on what else is computed in the statement.

*Model and proof.* Kernels as nested derivatives of a base kernel; the dispatch, the digestion of kernels for FMMLib (shared with C59), the wranglers' constructors and the choice of expansion as functions; acceptance characterised by predicates on kernels that do not mention the code.

*Status.* Partial: with the sumpy back end kernels that are not translation invariant fail with UnboundLocalError (refuted); on the source itself the expansion depends on whether some kernel of the batched statement has a target derivative (refuted).

* `Verif.QBXSetup.C79_sumpy_partial` (Verif/QBX/Setup.lean; PQ): **C79, the sumpy back end**: a potential statement can be set up exactly if its source kernels have one base kernel, target-specific QBX is not demanded and the base kernel is translation invariant; all of multipole, local and QBX expansions are those the factory picks for the base kernel. Partial: kernels that are not translation invariant are refused, not by an error message but an unbound variable (`C79_invariant_refuted`).
* `Verif.QBXSetup.C79_sumpy_standard` (Verif/QBX/Setup.lean; PQ): **C79, the sumpy back end for standard kernels**: Laplace and Helmholtz kernels with any derivatives are always set up, unless target-specific QBX is demanded.
* `Verif.QBXSetup.C79_invariant_refuted` (Verif/QBX/Setup.lean; P): **C79 is false** for kernels that are not translation invariant: with the sumpy back end every statement with such a kernel fails, with an unbound variable.
* `Verif.QBXSetup.C79_backend` (Verif/QBX/Setup.lean; P): **C79, unknown back ends** are refused with `ValueError`.
* `Verif.QBXSetup.C79_one_expansion` (Verif/QBX/Setup.lean; P): **C79, sumpy's QBX operators**: all form, translate and evaluate one and the same QBX expansion: same class, kernel and order.
* `Verif.QBXSetup.C79_fmmlib` (Verif/QBX/Setup.lean; PCQ): **C79, the FMMLib back end**: a statement (with at least one output) is accepted exactly if it has a single source kernel, which is a 2D or 3D Laplace or Helmholtz kernel or a directional source derivative of one, each target kernel is the potential or one component of its gradient and, where target-specific QBX is demanded, the kernel is three-dimensional without both derivatives; anything else raises `ValueError`.
* `Verif.QBXSetup.C79_fmmlib_parameters` (Verif/QBX/Setup.lean; PCQ): **C79, FMMLib's parameters**: an accepted statement computes for each target kernel, in order, its own component of the gradient or the potential; Helmholtz parameter and dipole directions are the user's values for the arguments the source kernel names; a missing one is a `KeyError`; parameter zero is used for the Laplace kernel.
* `Verif.QBXSetup.C79_order_query` (Verif/QBX/Setup.lean; -): **C79, orders**: FMMLib's levels are asked for with the kernel that is evaluated: a Helmholtz kernel with its parameter (under the name `k`, whatever the user calls it), or the Laplace kernel if the parameter is zero.
* `Verif.QBXSetup.C79_on_surface` (Verif/QBX/Setup.lean; PQ): **C79, direct evaluation on the source**: line Taylor expansions, which cannot be differentiated at the target, are used exactly if no kernel of the statement has a target derivative; otherwise the factory's local expansion. The kernel is the common base kernel and the order the source's QBX order. Statements without a common base kernel are refused.
* `Verif.QBXSetup.C79_off_surface` (Verif/QBX/Setup.lean; PQ): **C79, direct evaluation off the source**: always volume Taylor expansions of the common base kernel, of the source's QBX order.
* `Verif.QBXSetup.C79_batch_partial` (Verif/QBX/Setup.lean; PQ): **C79, what else is computed does not matter**: two statements with the same source kernels use the same expansion. Partial: on the source itself only if both or neither ask for target derivatives (`C79_batch_refuted`); off the source and in the FMM always.
* `Verif.QBXSetup.C79_batch_refuted` (Verif/QBX/Setup.lean; -): **C79 is false** on the source itself: the expansion for a single layer potential changes if its gradient is computed in the same statement.

### C80 GMRES minimizes the residual over Krylov spaces and converges — partial

In exact arithmetic and for any inner product, up to the first restart the n-th iterate of gmres lies in the initial guess plus the n-th Krylov space of the initial residual, and no vector there has a smaller residual. For operators whose numerical range does not contain zero every iteration strictly reduces the residual, through restarts; if the operator is bounded by M and coercive with constant m the squared residual shrinks by the factor 1-(m/M)^2 at least, so gmres succeeds once this guarantees the tolerance within maxiter (and the stall test asks for no more progress). An invertible system with n unknowns is solved within n iterations if there is no restart before; with the defaults every such system of up to ten unknowns is solved. For an arbitrary operator success is reported exactly if no residual met before the convergence test passes is orthogonal to its image.

*Model and proof.* Same model of _gmres as C27, C28, C53, over Mathlib's inner product spaces with NaN after a division by zero; invariant: the stored directions have orthonormal images, orthogonal to the residual, and up to the first restart span the Krylov space.

*Status.* Partial: solvability within n iterations is proved for operators whose numerical range does not contain zero; it is false for invertible operators in general (quarter turn of the plane: the iteration breaks down and ends with NaN, C80_refuted). C80_exact says for arbitrary operators exactly when a run succeeds: never if a residual is orthogonal to its image before the test passes (C80_stuck, any restart length), otherwise within n iterations (C80_unstuck).

* `Verif.Gmres.C80_stuck` (Verif/Linalg/GmresBreakdown.lean; PCQ): **C80, breakdown at any time**: if one of the residuals handed to the callback does not pass the convergence test and is orthogonal to its image, success is never reported - whatever operator, restart length, stall window and iteration limit.
* `Verif.Gmres.C80_unstuck` (Verif/Linalg/GmresBreakdown.lean; PCQ): without stuck residuals the run succeeds in at most as many iterations as there are unknowns
* `Verif.Gmres.C80_exact` (Verif/Linalg/GmresBreakdown.lean; PCQ): **C80, exactly when**: for an arbitrary linear operator on a space with `d` dimensions, if there is no restart before `d` iterations, `maxiter` allows for them and the stall window is off or not shorter than `d`: `gmres` reports success exactly if no residual it meets before the test passes is orthogonal to its image; and then it takes at most `d` iterations.
* `Verif.Gmres.C80_minimal` (Verif/Linalg/GmresKrylov.lean; PCQ): **C80, minimal residuals**: up to the first restart, the `n`-th iterate lies in the initial guess plus the `n`-th Krylov space, and no vector there has a smaller residual: `gmres` is GMRES. (Entries after a breakdown are NaN, not vectors.)
* `Verif.Gmres.C80_strict` (Verif/Linalg/GmresKrylov.lean; PCQ): **C80, strict decrease**: for a definite operator there is no breakdown and every iteration reduces the residual, also across restarts.
* `Verif.Gmres.C80_rate` (Verif/Linalg/GmresKrylov.lean; PCQ): **C80, rate**: if the operator is bounded by `M` and coercive with constant `m`, each iteration reduces the squared residual norm at least by the factor `1 - (m/M)²`, whatever the restart length.
* `Verif.Gmres.C80_converges` (Verif/Linalg/GmresKrylov.lean; PCQ): **C80, convergence**: under the same hypotheses, as soon as the rate guarantees the tolerance after `n` iterations, and `maxiter` allows for them, `gmres` reports success after at most `n` iterations - provided the stall test is off, or asks for less progress than the rate guarantees.
* `Verif.Gmres.C80_finite_partial` (Verif/Linalg/GmresKrylov.lean; PCQ): **C80, finite termination**: in exact arithmetic a definite system in `d` dimensions is solved in at most `d` iterations if there is no restart before, `maxiter` allows for them and the stall window is off or not shorter than `d`. Partial: for operators that are invertible but not definite this is false (`C80_refuted`, `C80_breakdown`).
* `Verif.Gmres.C80_defaults_partial` (Verif/Linalg/GmresKrylov.lean; PCQ): **C80, with the defaults**: `gmres(op, rhs)` solves every definite system with at most ten unknowns. Partial: definite operators only, see `C80_refuted`.
* `Verif.Gmres.C80_breakdown` (Verif/Linalg/GmresKrylov.lean; PCQ): **C80 fails for operators that are not definite**: if the initial residual is orthogonal to its image, the iteration breaks down, and unless the initial guess already passes the convergence test, success is never reported.
* `Verif.Gmres.C80_refuted` (Verif/Linalg/GmresKrylov.lean; PCQ): **C80 is false for invertible operators in general**: a quarter turn of the plane. The Krylov space of dimension two contains the solution, but `gmres` does not find it, whatever the parameters (with a tolerance of at most one).

### C81 Target-specific Laplace kernels evaluate the local expansion and its gradients — partial

For every source, centre, target and order, the target-specific Laplace single-layer kernel returns the charge times the order-p local expansion about the centre (the Taylor polynomial of 1/|source - (centre + l(target - centre))| in l, at l = 1); the gradient kernel adds to its output the charge times the gradient of that expansion in the target, and the double-layer kernel returns the dipole strength times its derivative in the source along the dipole vector. If the target is closer to the centre than the source the truncation errors are at most |charge| rho^(p+1)/(|s-c|-|t-c|) for the potential and |charge| sum over n>p of n rho^(n-1)/|s-c|^2 for each gradient component, rho = |t-c|/|s-c|.

*Model and proof.* Loop-by-loop model over the reals with one extra non-finite value and fixed-size buffers. The Legendre recurrence, its generating function, |P_n| <= 1 and a Bernstein inequality are derived from scratch (formal power series, mean value theorem); the specification only mentions 1/|s-t|, Taylor coefficients and derivatives.

*Status.* Partial because the full claim is false of the code: a target at the centre gives a non-finite value from order 1 on (C81_center_refuted, C81_center_gradient_refuted), and from order 64 on the gradient kernels overrun their stack arrays (C81_overflow_refuted). Exact arithmetic instead of doubles.

* `Verif.Ts.C81_single_layer_partial` (Verif/QBX/TsLaplaceProps.lean; PCQ): C81 (single layer): for a target other than the centre and a source other than the centre, at every order, `ts_laplace_s` returns exactly the charge times the order-`p` local expansion (Taylor polynomial about the centre) of `1/|s - t|`. Missing from the full claim: the target may be the centre itself (`C81_center_refuted`).
* `Verif.Ts.C81_single_layer_error` (Verif/QBX/TsLaplaceProps.lean; PCQ): C81 (single layer, accuracy): if the target is closer to the centre than the source, the value differs from the exact potential by at most the geometric tail.
* `Verif.Ts.C81_gradient_partial` (Verif/QBX/TsLaplaceProps.lean; PCQ): C81 (gradient): `ts_laplace_sp` adds to each component of `grad` exactly the charge times the partial derivative of the local expansion in the target coordinate, at every order below the buffer size. Missing from the full claim: a target at the centre, and orders from 64 on.
* `Verif.Ts.C81_gradient_error` (Verif/QBX/TsLaplaceProps.lean; PCQ): C81 (gradient, accuracy): what `ts_laplace_sp` adds differs from the gradient of the exact potential by at most `Σ_{n>p} n ρ^{n-1} / |s-c|²`, `ρ = |t-c|/|s-c| < 1`.
* `Verif.Ts.C81_double_layer_partial` (Verif/QBX/TsLaplaceProps.lean; PCQ): C81 (double layer): `ts_laplace_d` returns exactly the dipole strength times the derivative, in the direction of the dipole vector, of the local expansion with respect to the source. Missing from the full claim: a target at the centre, and orders from 64 on.
* `Verif.Ts.C81_double_layer_error` (Verif/QBX/TsLaplaceProps.lean; PCQ): C81 (double layer, accuracy): the value differs from the exact dipole field by at most the tail of the differentiated series.
* `Verif.Ts.C81_overflow_refuted` (Verif/QBX/TsLaplaceProps.lean; PCQ): C81 (buffer): from order 64 on the two gradient kernels write past the end of their stack arrays, whatever the points are.
* `Verif.Ts.C81_center_refuted` (Verif/QBX/TsLaplaceProps.lean; PCQ): C81 (target at the centre): the local expansion is perfectly well defined there (its value is `1/|s-c|` at every order), and order 0 returns it; but from order 1 on `ts_laplace_s` returns a non-finite value, because it divides by `|t-c|`.
* `Verif.Ts.C81_center_gradient_refuted` (Verif/QBX/TsLaplaceProps.lean; PCQ): C81 (target at the centre, gradient): from order 1 on every component of the gradient becomes non-finite.

### C82 Target-specific Helmholtz kernels evaluate the local expansion and its gradients — partial

For every source, centre, target, wave number and order, given the spherical Bessel values of the target, the target-specific Helmholtz single-layer kernel returns the charge times the order-p local expansion i k sum_{n<=p} (2n+1) j_n(k|t-c|) h_n(k|s-c|) P_n(cos angle); the gradient kernel adds to its output the charge times the gradient of that expansion in the target, and the double-layer kernel returns the dipole strength times its derivative in the source along the dipole vector. If the target is closer to the centre than the source, that expansion converges to exp(ik|s-t|)/|s-t| geometrically with ratio rho = |t-c|/|s-c|. The precomputation returns j_n(k|t-c|) and derivatives (to a relative accuracy of 5e-19 in the values), so the potential computed from it has error at most |charge| C/(|s-c|-|t-c|) (rho^(p+1) + 5e-19) with the explicit constant C of the specification. The gradient and double layer computed from it approximate the derivatives of exp(ik|s-t|)/|s-t| with errors bounded by explicit constants times sum_{n>p} (n+1)^2 rho^n plus 4e-18 times sum_n (n+1)^2 rho^n.

*Model and proof.* Loop-by-loop model over the complex numbers with one extra non-finite value and fixed-size buffers. The addition theorem for exp(ikr)/(kr), bounds on spherical Bessel and Hankel functions and the error analysis of Miller's downward recurrence are derived from scratch; the specification mentions only exp(ik|s-t|)/|s-t|, j_n, h_n, P_n and derivatives.

*Status.* Partial because the full claim is false of the code: |k||t-c| >= 129 makes the precomputation abort the process (C82_abort_refuted), orders from 63 on abort or overrun the scaling array (C82_order_refuted), and |k||s-c| < 1e-15 writes through a null pointer in the potential and gradient kernels and returns 0 in the double layer (C82_null_refuted, C82_zero_refuted). Accuracy of the precomputed values is proved for 0 < |k||t-c| <= 3, complex k (relative 5e-19 from 1e-200 on, absolute |k||t-c| below) and order <= 50; refining with kernel_length_scale=5/|k|, as the tests do, gives radii of at most 2.5/|k|. Above 3 only the characterization as the backward recurrence (C82_precompute_general). Exact arithmetic instead of doubles.

* `Verif.Ts.C82_gradient_error` (Verif/QBX/TsHelmGrad.lean; PCQ): C82 (gradient, total error): with the precomputed Bessel values, every component of the gradient differs from the charge times the derivative of `exp(ik|s-t|)/|s-t|` by at most the stated truncation and precomputation errors.
* `Verif.Ts.C82_double_layer_error` (Verif/QBX/TsHelmGrad.lean; PCQ): C82 (double layer, total error): same for the derivative in the source along the dipole.
* `Verif.Ts.C82_single_layer` (Verif/QBX/TsHelmProps.lean; PCQ): C82 (single layer, exact Bessel values): if the precomputed arrays hold `j_n(k|t-c|)/jscale^n`, `ts_helmholtz_s` returns exactly the charge times the order-`p` local expansion, for every order below the buffer size.
* `Verif.Ts.C82_gradient` (Verif/QBX/TsHelmProps.lean; PCQ): C82 (gradient, exact Bessel values): `ts_helmholtz_sp` adds to each component of `grad` exactly the charge times the partial derivative of the local expansion in the target coordinate.
* `Verif.Ts.C82_double_layer` (Verif/QBX/TsHelmProps.lean; PCQ): C82 (double layer, exact Bessel values): `ts_helmholtz_d` returns exactly the dipole strength times the derivative, in the direction of the dipole vector, of the local expansion with respect to the source.
* `Verif.Ts.C82_precompute_general` (Verif/QBX/TsHelmProps.lean; PCQ): C82 (precomputation, any argument): whenever `ts_helmholtz_precompute` returns, its values solve the Bessel recurrence below some index `N`, vanish at `N`, and agree with `j_0` or `j_1` (whichever is larger); so their errors are the unique such solution that is 0 at that index and `-j_N` at `N`.
* `Verif.Ts.C82_precompute_partial` (Verif/QBX/TsHelmProps.lean; PCQ): C82 (precomputation): if `|k||t-c| ≤ 3` and the order is at most 50, `ts_helmholtz_precompute` returns, and its values (unscaled) are `j_n` to a relative accuracy of `5·10⁻¹⁹`, its derivatives `j_n'` to an absolute accuracy of `10⁻¹⁸ |j_{n-1}|`.
* `Verif.Ts.C82_single_layer_error` (Verif/QBX/TsHelmProps.lean; PCQ): C82 (single layer, accuracy): for `|k||t-c| ≤ 3`, a target closer to the centre than the source, and order at most 50, precomputation followed by `ts_helmholtz_s` returns the charge times `e^{ik|s-t|}/|s-t|` up to the geometric truncation error and the error of the Bessel values.
* `Verif.Ts.C82_abort_refuted` (Verif/QBX/TsHelmProps.lean; PCQ): C82 (large arguments): if `|k||t-c| ≥ 129`, `ts_helmholtz_precompute` calls `abort()` at every order below the array size (the process dies).
* `Verif.Ts.C82_order_refuted` (Verif/QBX/TsHelmProps.lean; PCQ): C82 (high orders): from order 63 on the precomputation never returns values: it aborts or overruns its work array, whatever the points are (`|k||t-c| ≥ 10⁻²⁰⁰`).
* `Verif.Ts.C82_null_refuted` (Verif/QBX/TsHelmProps.lean; PCQ): C82 (source at the centre up to `10⁻¹⁵`): `ts_helmholtz_s` and `ts_helmholtz_sp` write through a null pointer when `|k||s-c| < 10⁻¹⁵`.
* `Verif.Ts.C82_zero_refuted` (Verif/QBX/TsHelmProps.lean; PCQ): C82 (double layer, source near the centre): in the same situation `ts_helmholtz_d` returns 0 (for exact Bessel values), although the dipole field is not 0.
* `Verif.Ts.C82_precompute_tiny` (Verif/QBX/TsTiny.lean; PCQ): C82 (precomputation, tiny arguments): for `0 < |k||t-c| < 10⁻²⁰⁰` and every order the arrays have room for, the precomputation returns, and its values and derivatives (unscaled) are those of `j_n` at 0, so they are `j_n` and `j_n'` up to `|k||t-c|`.

### C83 Target-specific QBX stores the near field of every target in every execution — partial

For every set of arguments and every execution of the thread-parallel loop (any assignment of centers to threads, any interleaving of their operations), a call of the target-specific evaluation stores, for each target of each listed center, the sum over the sources of the boxes in the center's near-field list of their order-p local expansions about that center (charges and dipoles, Laplace or Helmholtz), and its gradient if requested; these differ from the true field of those sources by at most the sum of the kernels' truncation and Bessel errors. Entries of targets not listed, and outputs not requested, are not touched; stale contents of the reused per-thread buffers never influence a value. ValueError is raised exactly for missing charges, missing dipole data or a requested gradient of dipoles.

*Model and proof.* Per-thread programs of small operations (load center, start target, load source, add kernels, store), a shared memory of thread rows and outputs, executions = interleavings; projection lemma (a thread's row depends only on its own operations), single-store lemma, kernel theorems C81/C82 per source.

*Status.* Partial because the kernels are (C81, C82): targets at their center, orders from 64 (Laplace gradients, dipoles) or above 50 (Helmholtz), |k||t-c| > 3 or sources within 1e-15/|k| of the center. Each target must be listed for one center only (C37 proves it of the geometry data). Exact arithmetic; out-of-range indices are not modelled. A target too far from its center aborts the whole call in every execution (C83_abort_refuted).

* `Verif.Ts.C83_backend_partial` (Verif/QBX/TsBridge.lean; PCQ): C83 (as the FMMLib backend uses it): with the arguments the wrangler passes, in every execution the arrays returned by the target-specific evaluation hold, for every pair in the list of stores `C59_fmmlib` assumes (with the Laplace kernels' values), the potential and the gradient of that pair.
* `Verif.Ts.C83_laplace_partial` (Verif/QBX/TsEval.lean; PCQ): C83 (Laplace): for every assignment of the centers to threads and every interleaving of their operations, a call stores for each target of each center exactly the sum over the center's near-field sources of the order-`p` local expansions about the center (for charges and dipoles), and its gradient if requested, and changes nothing else. Missing from the full claim: targets at their center and orders from 64 on (`C81_center_refuted`, `C81_overflow_refuted`).
* `Verif.Ts.C83_helmholtz_partial` (Verif/QBX/TsEval.lean; PCQ): C83 (Helmholtz): for every assignment of the centers to threads and every interleaving of their operations, the value stored for a target of a center differs from the Helmholtz field of the center's near-field sources by at most the sum of the bounds of C82, the stored gradient from the gradient of the field of the charges likewise, and nothing else changes; the values do not depend on the execution. Missing from the full claim: `|k||t-c|` outside `[10⁻²⁰⁰, 3]` and orders above 50 (`C82_abort_refuted`, `C82_order_refuted`), sources closer than `10⁻¹⁵/|k|` to the center (`C82_null_refuted`).
* `Verif.Ts.C83_laplace_error` (Verif/QBX/TsEval.lean; PCQ): C83 (Laplace, accuracy): if the targets are closer to their center than the sources, in every execution the stored potential and gradient differ from those of the field of the near-field sources by at most the sums of the truncation errors of C81.
* `Verif.Ts.C83_errors` (Verif/QBX/TsEval.lean; PCQ): C83 (errors): a call raises `ValueError` exactly if charges are requested and missing, dipoles are requested and their strengths or directions missing, or the gradient of dipoles is requested -- before anything is stored, in every execution; if neither charges nor dipoles or neither output is requested, or there are no centers, the outputs are left alone.
* `Verif.Ts.C83_abort_refuted` (Verif/QBX/TsEval.lean; PCQ): C83 (Helmholtz, failures): if the first target of the only center is so far from it that the precomputation calls `abort()` (`C82_abort_refuted`: `|k||t-c| ≥ 129`) or overruns its work array, so does the call -- in every execution, before anything is stored.

### C84 The Stokes wrappers return velocities, pressures and stresses of one flow — proved

In two and three dimensions, for every density, viscosity and set of weighted sources, at every point away from the sources: the velocity returned by StokesletWrapper.apply and the pressure returned by apply_pressure satisfy the Stokes equations (div u = 0, mu Laplacian u = grad p), apply_derivative returns the derivatives of that velocity, and apply_stress returns the stress -p delta + mu (grad u + grad u^T) of that velocity and pressure in the given direction; the same holds for StressletWrapper. The velocities of HsiaoKressExteriorStokesOperator and HebekerExteriorStokesOperator are Stokes flows.

*Model and proof.* Potentials of finitely many weighted sources with sumpy's kernels as an instance of the interpretation of C61; iterated partial derivatives (Mathlib deriv) of the kernels by symbolic differentiation proved correct; the equations for one source by algebra, for many by linearity.

*Status.* The formulas of the kernels (Laplace, Stokeslet, Stresslet, with sumpy's signs) are part of the trusted base: sumpy is not in /repo. Constant viscosity; real arithmetic; potentials are finite weighted sums over sources (direct evaluation), not QBX expansions.

* `Verif.Flow.C84_stokeslet` (Verif/PDE/FlowProps.lean; PCQ): **C84, Stokeslet.** In two and three dimensions, for every set of weighted sources, all densities and every viscosity, away from the sources: velocity `apply` and pressure `apply_pressure` satisfy the Stokes equations; `apply_derivative` returns the derivatives of the velocity; and `apply_stress` returns the stress `-p δ_ci + mu (∂_i u_c + ∂_c u_i)` of this flow applied to the direction.
* `Verif.Flow.C84_stresslet` (Verif/PDE/FlowProps.lean; PCQ): **C84, Stresslet.** In two and three dimensions, for every set of weighted sources, all densities, directions and viscosities, away from the sources: velocity `apply` and pressure `apply_pressure` satisfy the Stokes equations; `apply_derivative` returns the derivatives of the velocity; and `apply_stress` returns the stress of this flow applied to the direction.
* `Verif.Flow.C84_hebeker` (Verif/PDE/FlowProps.lean; PCQ): **C84, Hebeker.** The velocity of the exterior operator in space is a Stokes flow; its pressure, a method that is not implemented, is minus the Stresslet pressure minus `eta` times the Stokeslet pressure.
* `Verif.Flow.C84_hsiao_kress` (Verif/PDE/FlowProps.lean; PCQ): **C84, Hsiao–Kress.** The velocity of the exterior operator in the plane is a Stokes flow.

### C85 A geometry refined without warning is usable for QBX — proved

If stage-1 refinement returns without a not-converged warning, then at all nodes of the returned discretization the element size is at most the kernel length scale and the scaled curvature at most its threshold (where given), no node lies within (1-tol) expansion radii of any expansion center, and associating the nodes with centers, with any side requests and any nonnegative association tolerance, succeeds, every node getting a center on the requested side at most one expansion radius away. If stage-2 refinement returns without warning and no uniform rounds were requested, every quadrature node of the returned discretization is farther from every stage-1 expansion center than three quarters of the largest expansion radius of its element. The checks never fail with an internal error.

*Model and proof.* The loops of C32 run with the real checks of C34 on trees of node and center positions (RefineGeom.lean); the loops' outcomes are those of the loop model with the offending elements as check outcomes; success of association from C30/C31 because a node's own centers are one radius away.

*Status.* Real arithmetic, unit normals and positive element sizes assumed (C72, C74); meshmode's refiner and boxtree's tree builder enter with their documented guarantees. Expansion radii and danger zones as in C74.

* `Verif.RefineGeom.C85_nearest` (Verif/QBX/OwnCenter.lean; PCQ): C85: **which center serves a node**: one of the requested side; and no center on the same side of the surface whose enlarged disk contains the node is nearer to it relative to its radius.
* `Verif.RefineGeom.C85_centers` (Verif/QBX/RefineGeom.lean; PCQ): C85: the centers the other theorems number `2 * m` and `2 * m + 1` are one expansion radius away from node `m`, against and along its normal; the expansion radius is half the element size for curves and a quarter for surfaces in three dimensions.
* `Verif.RefineGeom.C85_stage1` (Verif/QBX/RefineGeom.lean; PCQ): C85, stage 1: refinement never dies on an internal assertion; if it returns without warning (in a refining mode), then at every node of the returned discretization the element size is at most the kernel length scale and the scaled curvature at most its threshold (where given), and every node is farther than `(1 - tol)` times the expansion radius away from every expansion center.
* `Verif.RefineGeom.C85_stage2` (Verif/QBX/RefineGeom.lean; PCQ): C85, stage 2: if refinement returns without warning, then for the discretization `d` it had before the requested uniform rounds, every node of its quad-stage-2 discretization is farther than three quarters of the largest expansion radius of its element away from every stage-1 expansion center. Without uniform rounds `d` is what is returned.
* `Verif.RefineGeom.C85_surface_targets` (Verif/QBX/RefineGeom.lean; PCQ): C85, targets on the surface: association of nodes of the discretization with its own centers always succeeds, whatever the side requests. In any association that succeeds, also with other targets present, a target that is a node gets a center on the requested side, and it lies within one expansion radius of it (without the tolerance).
* `Verif.RefineGeom.C85_refined` (Verif/QBX/RefineGeom.lean; PCQ): C85: after stage-1 refinement without warning, every node of the refined geometry, taken as a target with any side request, is served by a center of the refined geometry on the requested side at a relative distance between `1 - tol` and 1, and no source of the geometry is closer to that center than `1 - tol` expansion radii.

### C86 Every documented expression node can be bound, evaluated and printed — partial

Every pass an expression goes through in bind, its evaluation and printing handle every expression built from pytential's documented node classes: no pass raises UnsupportedExpressionError. GraphvizMapper draws every such expression.

*Model and proof.* Dispatch of the mappers by snake-cased class names and method tables (Dispatch.lean), passes over expression trees by structural induction; refuted for IterativeInverse.

*Status.* Partial: false for IterativeInverse, which no pass handles because its methods are called map_inverse and not map_iterative_inverse (C86_refuted); everything else proved. GraphvizMapper draws exactly the expressions of C86_graph_partial: sums over nodes (map_map_node_sum is misspelled), maxima, elementwise operations, interpolations and layer potentials without a numeric limit fail (C86_graph_refuted). Trusted: pymbolic's naming of mapper methods and its own nodes.

* `Verif.Dispatch.C86_handled_partial` (Verif/Symbolic/Dispatch.lean; PCQ): C86: every pass of `bind`, evaluation (once layer potentials have been replaced by the variables holding their values) and printing handle every expression made of `pytential`'s nodes without `IterativeInverse`. Partial: `IterativeInverse` is handled by no pass, see `C86_refuted`.
* `Verif.Dispatch.C86_refuted` (Verif/Symbolic/Dispatch.lean; PCQ): C86 is false for `IterativeInverse`: its class name makes its method `map_iterative_inverse`, whereas all mappers define `map_inverse` (`mappers.py:170,261,483,897`, `execution.py:273`). Already the first pass of `bind` raises `UnsupportedExpressionError` for every expression with a solve anywhere in it, and printing it raises `ValueError`.
* `Verif.Dispatch.Graph.C86_graph_partial` (Verif/Symbolic/Graph.lean; PCQ): C86 (drawing): `GraphvizMapper` draws an expression exactly if all its nodes are of `pymbolic`, ones, coordinates, quadrature weights, reference derivatives (whose operand is not looked at) or layer potentials with a numeric limit, and then writes one line per node. Partial: sums over nodes, maxima, minima, elementwise operations, interpolation and all other documented nodes cannot be drawn, and layer potentials only with numeric limits (`C86_graph_refuted`).
* `Verif.Dispatch.Graph.C86_graph_refuted` (Verif/Symbolic/Graph.lean; PCQ): **C86 is false for drawing**: the sum over nodes of anything is refused, because its method is misspelled; a layer potential with the default limit of the double layer (`'avg'`) or without limit raises `TypeError`; the operand of a reference derivative is not drawn.

### C87 Integral equations are solved: a converged solve satisfies the equation bound — partial

For an expression that is linear in the unknown as written (sums, products with factors free of it, layer potentials with linear densities and arguments free of it, interpolation, 'avg' limits, CSEs), bind(places, expr) is, in all calls, one and the same linear operator K, namely the meaning of the expression with locations filled in; scipy_op presents this operator on flat vectors; and if gmres, given this operator and a right-hand side b, reports success, its solution x (unflattened) satisfies ||b - K x|| < tol ||b|| or ||b - K x|| = 0.

*Model and proof.* Linearity of the meaning (C76) by induction on linear expressions; histories of calls from C08; composition with C22 and C27 (Bind/Linear.lean).

*Status.* Partial: the restrictions of C76_general on the expression, and no variables inside CSEs of scope EXPRESSION or DISCRETIZATION (C87_refuted). All nestings of potentials, and no totality: C87_superposition assumes only that the two evaluations succeed, C87_operator, C87_history_partial and C87_converged_partial that evaluation succeeds for all values of the unknown. Values of all kinds are elements of one module. C87_flat: with the flat vectors of MatVecOp.

* `Verif.Bind.C87_linear_partial` (Verif/Bind/Linear.lean; PCQ): **C87, linearity**: evaluating a bound expression that is linear in the unknown as written is a linear operation: there is a linear map `A`, acting on the values of the unknown, such that `bind(places, expr)(**context, u=x)` returns `A x`, the meaning of the expression (C76) - whatever the caches, the schedule and the names chosen by the compiler.
* `Verif.Bind.C87_repeated_partial` (Verif/Bind/Linear.lean; PCQ): **C87, repeated evaluation**, as solvers do it: however often and with whatever values the bound expression is called, each call returns the same linear operator applied to the value given. Partial: CSEs of scope `EXPRESSION` or `DISCRETIZATION` must not contain variables, see `C87_refuted`.
* `Verif.Bind.C87_solve_partial` (Verif/Bind/Linear.lean; PCQ): **C87, solutions**: a bound expression linear in `u` is one and the same operator `op` in all calls; if `gmres`, given this operator and the right-hand side `b`, reports success, then its solution `x` is a value (not NaN) with `‖b - K x‖ < tol ‖b‖`, or `‖b - K x‖ = 0`, where `K x` is the meaning of the expression with `u = x`.
* `Verif.Bind.C87_refuted` (Verif/Bind/Linear.lean; PCQ): **C87 fails** for expressions with CSEs of scope `EXPRESSION` around the unknown, although they are linear: a solver which calls the bound expression with `4` and then with `6` gets `2` both times.
* `Verif.Bind.C87_flat` (Verif/Bind/Linear.lean; PCQ): **C87, flat vectors** (also for systems): let `f` be a bound expression (scalar or an object array of expressions) that acts on its unknowns as the linear map `A` when all degrees of freedom are listed in a row. The operator made by `scipy_op` is `A`; if `gmres` reports success for it, its flat solution unflattens to unknowns `x` for which evaluating the expression gives `y` with `‖b - y‖ < tol ‖b‖`, or `‖b - y‖ = 0`.
* `Verif.Bind.C87_superposition` (Verif/Bind/LinearGen.lean; PCQ): **C87, superposition**: if evaluating a bound expression that is linear in `u` as written succeeds for `u = x` and for `u = y`, it succeeds for `u = x + a y`, and returns the same combination of the results - whatever the caches, the schedule and the names chosen by the compiler. Layer potentials may be nested in any way (as in C76_general) and other evaluations may fail.
* `Verif.Bind.C87_operator` (Verif/Bind/LinearGen.lean; PCQ): **C87, linearity**: if evaluation succeeds for all values of the unknown, the bound expression is a linear operator `A`: whatever the caches, evaluation returns `A x`, the meaning of the expression.
* `Verif.Bind.C87_history_partial` (Verif/Bind/LinearGen.lean; PCQ): **C87, repeated evaluation** for all nestings of potentials, assuming of the operations only that evaluation succeeds. Partial: CSEs of scope `EXPRESSION` or `DISCRETIZATION` must not contain variables, see `C87_refuted`.
* `Verif.Bind.C87_converged_partial` (Verif/Bind/LinearGen.lean; PCQ): **C87, solutions** for all nestings of potentials, assuming of the operations only that evaluation succeeds: a converged solve with the bound expression as operator satisfies the equation up to the tolerance.

### C88 The matrix of a layer potential is that of its evaluation — partial

For an expression whose layer potentials map from a source to itself, the matrix returned by build_matrix, applied to any input, gives the value of the expression at this input with all layer potentials evaluated directly: at each target node the sum over source kernels and source nodes of the local expansion about the node's center on the requested side, times quadrature weight, times density. The results of a batched statement are those of its outputs alone. Cluster builders return the entries of this matrix. A potential without side or whose source or target is not a discretization is refused. The same holds for other targets, and point-to-point matrices are those of plain quadrature.

*Model and proof.* Verif/Exec/LayerMat.lean: expressions with layer potentials; the matrices of the builders computed from nodes, centers, radii and weights; evaluation through the model of direct evaluation (C40) with the expansions of C79; agreement by induction over expressions, then C24.

*Status.* Partial: for targets other than the source the matrix builder either raises (no limit: abs(None), C88_limit_refuted) or builds a matrix from expansions about points at twice the expansion radius from the target (limit +-2, C88_other_refuted); point-to-point matrices drop all derivatives of kernels (C88_p2p_refuted); the fragment of C24; statements mixing kernels with and without target derivatives (C79). For visibly linear expressions nothing is assumed to succeed (C88_total, C88_cluster_total). Values of kernels and expansions are parameters.

* `Verif.LayerMat.C88_cluster_total` (Verif/Exec/ClusterLayer.lean; PCQ): **C88, cluster builders, end to end**: for a linear combination of the input and of layer potentials of it (`LC`, with potentials that map a discretization to itself) `QBXClusterMatrixBuilder` succeeds and returns one entry per pair of target and source index (or zero, if there are no terms): the value at the target node of the expression, evaluated directly, for the density that is one at the source index and zero elsewhere.
* `Verif.LayerMat.C88_p2p_cluster_partial` (Verif/Exec/ClusterLayer.lean; PCQ): **C88, point-to-point cluster builders**: on an expression accepted by both, `P2PClusterMatrixBuilder` returns the entries of the matrix of `P2PMatrixBuilder` built with the same options, at the pairs asked for (with the restriction of C24 to the fragment `Frag`).
* `Verif.LayerMat.C88_p2p_cluster_entries` (Verif/Exec/ClusterLayer.lean; PCQ): **C88, point-to-point entries**: for a potential of the input with one source kernel, from a discretization or from point sources to a discretization or to target points, `P2PClusterMatrixBuilder` returns for each pair of indices the value of the base kernel between the two points (zero for equal indices if these are excluded), times the quadrature weight of the source if asked for and if the source is a discretization.
* `Verif.LayerMat.C88_matrix_partial` (Verif/Exec/LayerMat.lean; PCQ): **C88, matrices and evaluation**: if all layer potentials of an expression map from their source to itself, a matrix built by `build_matrix` is the matrix of direct evaluation: applied to any input it gives the value of the expression at this input (zero for the zero block), where the layer potentials run through direct QBX evaluation in statements with any further target kernels. Partial: for other targets there is no such matrix, or a wrong one (`C88_other_refuted`, `C88_limit_refuted`); target derivatives elsewhere in the statement change the evaluation (C79); the fragment of C24 (`Frag`).
* `Verif.LayerMat.C88_direct_value` (Verif/Exec/LayerMat.lean; PCQ): **C88, the value of a layer potential**: direct evaluation on the source succeeds for all densities on the source nodes and gives the QBX sum.
* `Verif.LayerMat.C88_entries` (Verif/Exec/LayerMat.lean; PCQ): **C88, entries**: the matrix of a layer potential of the input with one source kernel has one row per target node and one column per source node, with the value of the expansion about the target's center times quadrature weight.
* `Verif.LayerMat.C88_refuses` (Verif/Exec/LayerMat.lean; PCQ): **C88, refusals**: `build_matrix` of a layer potential raises if source or target are not discretizations or the potential has no side.
* `Verif.LayerMat.C88_batch` (Verif/Exec/LayerMat.lean; PCQ): **C88, batches**: the results of a statement with several outputs are those of its outputs alone.
* `Verif.LayerMat.C88_cluster` (Verif/Exec/LayerMat.lean; PQ): **C88, cluster builders**: what the QBX cluster builder returns are the entries of the full matrix at the requested pairs, and it refuses weighted entries between different discretizations.
* `Verif.LayerMat.C88_p2p_partial` (Verif/Exec/LayerMat.lean; PCQ): **C88, point-to-point matrices**: for kernels without derivatives the weighted matrices of `P2PMatrixBuilder` with all interactions, applied to densities, give plain quadrature. Partial: derivatives in the kernels are dropped (`C88_p2p_refuted`).
* `Verif.LayerMat.C88_other_refuted` (Verif/Exec/LayerMat.lean; PCQ): **C88 is false for other targets**: for a potential from `a` to another surface `b` with limit +2 a matrix is built, but from expansions about points at twice the expansion radius from `b`, and it is not the matrix of the evaluation (plain quadrature, since no center of `a` is close).
* `Verif.LayerMat.C88_limit_refuted` (Verif/Exec/LayerMat.lean; PCQ): **C88 is false without a limit**: the default for other targets cannot be built at all, although it can be evaluated.
* `Verif.LayerMat.C88_p2p_refuted` (Verif/Exec/LayerMat.lean; PCQ): **C88 is false for point-to-point matrices of derivatives**: the matrix of the double layer potential is that of the single layer potential and does not give its plain quadrature.
* `Verif.LayerMat.C88_total` (Verif/Exec/MatTotal.lean; PCQ): **C88, in full for visibly linear expressions of potentials on their source**: `build_matrix` succeeds, direct evaluation succeeds at every input, and its value is the matrix times the input (zero for the zero block).

### C89 The drawing of the dataflow shows where every value comes from — partial

In the graph drawn by dot_dataflow_graph for the code of a bound expression there is an arrow labelled with a variable from one node to the node of a statement exactly if this statement reads the variable and the first node is the statement assigning it, or 'initial' if it is an input; arrows lead from earlier to later statements only; and the arrows into 'result' show in the same way where every variable of the result comes from.

*Model and proof.* Nodes and arrows of the drawing as a function of the modelled Code (labels' text left out); uniqueness of assignments and safety of the schedule from C03.

*Status.* Partial: a result that is neither a variable nor an array of variables (for example twice a layer potential) is drawn with a single arrow from 'initial', whatever statements it reads (C89_result_refuted).

* `Verif.Compiler.Dataflow.C89_statements` (Verif/Compiler/Dataflow.lean; PCQ): C89 (statements): in the drawing of compiled code there is an arrow labelled `x` from a node to the node of the `j`-th executed statement exactly if this statement reads `x` and the node is where the value of `x` comes from.
* `Verif.Compiler.Dataflow.C89_forward` (Verif/Compiler/Dataflow.lean; PCQ): C89 (order): arrows into a statement start at an earlier statement or, if they carry an input, at `initial`; so the drawing has no cycles.
* `Verif.Compiler.Dataflow.C89_ends` (Verif/Compiler/Dataflow.lean; PCQ): C89 (ends): every arrow joins nodes that are drawn, and none leaves `result` or enters `initial`.
* `Verif.Compiler.Dataflow.C89_result_partial` (Verif/Compiler/Dataflow.lean; PCQ): C89 (result): if the result is a variable or an array of variables, there is an arrow labelled `x` from a node to `result` exactly if `x` is read by the result and the node is where its value comes from. Partial: for other results (a multiple of a layer potential, a component of a vector variable) see `C89_result_refuted`.
* `Verif.Compiler.Dataflow.C89_result_refuted` (Verif/Compiler/Dataflow.lean; PCQ): C89 is false for other results: whatever the result reads, its only arrow comes from `initial`.

### C90 A bound layer potential on an unaccelerated QBX source evaluates to the QBX sum — proved

For a QBXLayerPotentialSource without acceleration, bind(places, IntG(...))(**inputs) returns an array with one entry per target node. If the target is the source, entry i is the sum over all source kernels and all quadrature nodes of the value at node i of the kernel's expansion about the center of node i on the side of qbx_forced_limit, times quadrature weight, area element and the density interpolated from stage 1 to the quadrature stage (for 'avg': half the sum of the two sides). For other targets it is the same sum with the expansion about the associated center, or plain quadrature where there is none. Limits that do not fit the target make bind raise ValueError; evaluation raises exactly if direct evaluation of the layer potential raises, and whole expressions of layer potentials evaluate to their value with layer potentials evaluated directly. Nothing depends on statement order, set iteration order, cache contents or the names the compiler generates.

*Model and proof.* Instantiate the layer potentials of the bind model (C76) with the model of direct evaluation (C40, C79, C88) on a scene; show that such an evaluator is independent of the order of densities and arguments as the compiler requires; then follow one layer potential through all passes.

*Status.* A statement is modelled output by output, which C88 justifies for statements whose target kernels all have or all lack derivatives.

* `Verif.BindLayer.C90_potential` (Verif/Bind/Layer.lean; PCQ): **C90**: `bind(places, IntG)(**inputs)` returns what direct evaluation returns for the layer potential on the quadrature stage of the source, with the densities interpolated there from stage 1 and the kernel arguments from stage 2 — whatever the order in which the compiler and the evaluation do things, and whatever is in the caches.
* `Verif.BindLayer.C90_average` (Verif/Bind/Layer.lean; PCQ): **C90**: with `'avg'` the two one-sided limits are evaluated, added and halved.
* `Verif.BindLayer.C90_refused` (Verif/Bind/Layer.lean; PCQ): **C90**: a limit that does not fit its target makes `bind` raise `ValueError`.
* `Verif.BindLayer.C90_side` (Verif/Bind/Layer.lean; PCQ): **C90**, on the source itself: `bind(places, IntG)(**inputs)` is an array with one entry for each target node, entry `i` being the QBX sum about the center of node `i` on the side of the limit: over source kernels and quadrature nodes, the value at the node of the expansion of the kernel times quadrature weight, area element and interpolated density.
* `Verif.BindLayer.C90_mean` (Verif/Bind/Layer.lean; PCQ): **C90**, `'avg'`: entry `i` is half the sum of the QBX sums of the two sides.
* `Verif.BindLayer.C90_elsewhere` (Verif/Bind/Layer.lean; PCQ): **C90**, other targets: entry `i` is the value of the expansions about the center of the source that point `i` is associated with (C33), or plain quadrature if there is none.
* `Verif.BindLayer.C90_variables` (Verif/Bind/Layer.lean; PCQ): **C90** for variables: `bind(places, IntG(kernels, sigma..., arg=var...))(sigma=..., ...)` on the source itself. All assumptions are about what the user passes: names and values of the variables, the limit, the collection.
* `Verif.BindLayer.C90_average_exact` (Verif/Bind/LayerAvg.lean; PCQ): **C90**, `'avg'`, exactly: the result is `v` if and only if direct evaluation returns a value on either side and half their sum is `v`; evaluation raises if and only if direct evaluation raises on one of the sides, or half the sum does not exist.
* `Verif.BindLayer.C90_exact` (Verif/Bind/LayerExact.lean; PCQ): **C90**, exactly: `bind(places, IntG)(**inputs)` returns `v` if and only if direct evaluation of the layer potential does, and raises if and only if direct evaluation raises.
* `Verif.BindLayer.C90_expression` (Verif/Bind/LayerExact.lean; PCQ): **C90** for whole expressions: an expression with any number of layer potentials on a QBX source without acceleration, and any other operations, evaluates to the value of the expression in which layer potentials have the values of direct evaluation, and raises if and only if that has no value.

### C91 build_matrix times the input is what bind evaluates, end to end — partial

build_matrix(places, expr, x, context) and bind(places, expr)(x=v, **context) belong together: if the layer potentials of the expression map from their source to itself, then for every input array v the bound expression returns the matrix times v (zeros if the block is zero), where both go through the whole of pytential: placement, 'avg' expansion, upsampling, then the matrix builder on one side and compilation, scheduling, caching and direct QBX evaluation on the other.

*Model and proof.* Translate the prepared expression into the language of the matrix builder model (C24, C88); show that its recursive evaluation is the value the compiled code returns (C01, C76, C90); apply C88.

*Status.* Partial: the restrictions of C76 (names, nesting), of C24 (no powers of or quotients by the unknown) and of C88 (targets on the source); coefficients are made of context values, node coordinates, their reference derivatives, elementwise functions and quotients, other nodal functions (weights, sums over nodes) only occur in kernel arguments. For visibly linear expressions nothing is assumed to succeed but the kernel arguments (C91_linear_partial).

* `Verif.BindLayer.C91_matrix_partial` (Verif/Bind/Matrix.lean; PCQ): **C91**: `build_matrix(places, expr, x)` times the values of `x` is `bind(places, expr)(x=...)`: if all layer potentials of the prepared expression map from their source to itself and every operation succeeds, then for every input array the bound expression returns the product of the matrix with it (zeros for the zero block), whatever the order of execution, the caches and the generated names. Partial: the restrictions of C76 (no clash of names, nested layer potentials on the same source, ...) and of C24 and C88 (no powers of or quotients by the unknown, targets on the source).
* `Verif.BindLayer.C91_linear_partial` (Verif/Bind/MatrixTotal.lean; PCQ): **C91 for visibly linear expressions**: if the prepared expression is visibly linear in `x` (`LinE`: sums, products with coefficients, which are made of numbers, arrays, node coordinates, derivatives of these, quotients and functions, interpolations and layer potentials on their source of linear expressions) and its kernel arguments can be evaluated, then `build_matrix(places, expr, x)` returns a matrix (or the zero block), `bind(places, expr)(x=xs)` succeeds for every input, whatever is in the caches, and its value is the matrix times the input. Partial: the restrictions of C76 on names and nesting, potentials on their source.

### C92 As imported, pytential never silently hands out an under-refined geometry — proved

With the warning filter that importing pytential installs (not-converged warnings become exceptions), refinement in the refining mode has exactly two outcomes per stage. It returns precisely if fewer than maxiter rounds, each refining exactly the elements that violate the criteria, lead to a discretization satisfying all criteria, and then returns that discretization (for stage 2: refined uniformly as often as requested) with the connections of these rounds. Otherwise it raises the not-converged exception, and the message lists for each of the maxiter rounds the criteria that were violated before it.

*Model and proof.* Describe the refinement history as a chain of rounds; show the loop follows it and that chains are unique (determinism), so the outcome is characterised by an equivalence.

*Status.* The exception is also raised when the maxiter-th round happens to satisfy all criteria, which are not checked again (C92_spurious).

* `Verif.Refine.C92_stage1` (Verif/QBX/RefineDefault.lean; PCQ): C92, stage 1: with the warning filter pytential installs, stage-1 refinement has exactly two outcomes. It returns precisely if fewer than `maxiter` rounds of refining the offending elements lead to a discretization satisfying all criteria, and returns that one; otherwise it raises the not-converged exception, whose message lists, for each of the `maxiter` rounds, the criteria violated before it.
* `Verif.Refine.C92_stage2` (Verif/QBX/RefineDefault.lean; PCQ): C92, stage 2: likewise. It returns precisely if fewer than `maxiter` rounds lead to a discretization resolving the quadrature; that one, refined uniformly as often as requested, is what is returned.
* `Verif.Refine.C92_error` (Verif/QBX/RefineDefault.lean; PCQ): C92, `ERROR_ON_REFINEMENT` with at least one iteration: the caller gets the discretization back exactly if all criteria are met, and otherwise `QBXRefinementNeededError` naming violated criteria.
* `Verif.Refine.C92_never_silent` (Verif/QBX/RefineDefault.lean; PCQ): C92: whatever is returned in the refining mode satisfies the criteria (before forced uniform rounds), so a geometry that does not is never handed out silently.
* `Verif.Refine.C92_spurious` (Verif/QBX/RefineDefault.lean; PQ): C92, where the exception is spurious: three rounds are allowed and three rounds suffice, but the criteria are not checked again after the last round and the exception is raised although the discretization it had reached satisfies all of them (with one more round allowed that discretization is returned).

### C93 A converged solve meets the tolerance in the boundary data — partial

Solving operator(u) = prepare_rhs(b) of a DirichletOperator or NeumannOperator with gmres: the operator is linear in u, and if gmres reports success, the boundary value (Dirichlet) or boundary normal derivative (Neumann), on the side of the problem, of representation(u) differs from the prescribed data b by less than tol relative to b, or not at all (with the mean of the density added for problems unique only up to a constant). The error is measured in the quadrature L2 norm if use_l2_weighting is set, and only in the Euclidean norm of the nodal values otherwise.

*Model and proof.* Compose the operator theorems of C60 with the exact-arithmetic GMRES theorem C27 on the Euclidean space of nodal values: the residual of the weighted system is sqrt(w) times the boundary error. Refute the L2 statement for unweighted operators.

*Status.* Partial for Neumann as in C60. Exact arithmetic with NaN after breakdown.

* `Verif.Solve.C93_linear` (Verif/PDE/Solve.lean; PCQ): **C93.** The operators of both boundary value problems are linear in the density, so that `gmres` is applied to a linear operator.
* `Verif.Solve.C93_dirichlet` (Verif/PDE/Solve.lean; PCQ): **C93, Dirichlet.** If GMRES reports success on `operator(u) = prepare_rhs(b)`, the boundary value of the represented field (with the mean of the density added for the exterior Laplace problem) differs from the data `b` by less than `tol` relative to `b`, in the quadrature `L²` norm with `use_l2_weighting` and in the Euclidean norm of the nodal values without — or not at all.
* `Verif.Solve.C93_neumann_partial` (Verif/PDE/Solve.lean; PCQ): **C93, Neumann.** The same for the normal derivative, as far as the Neumann operator is the boundary value of its representation (C60).
* `Verif.Solve.C93_unweighted_refuted` (Verif/PDE/Solve.lean; PCQ): **C93 needs the weighting**: without `use_l2_weighting`, success with tolerance `1/5` does not bound the relative error in the `L²` norm — here it is 10.

### C94 bind on an FMM-accelerated QBX source evaluates to QBX sums about the associated centers, and agrees with direct evaluation — proved

bind(places, IntG)(**inputs) on a QBX source with fmm_order set (sumpy back end, exact translations) returns an array with one entry per target point: if the point lies in no source node's tunnel, the plain quadrature sum; otherwise the sum over source kernels and quadrature nodes of the value at the point of the QBX expansion (of the class the factory picks, of the base kernel and order of the source) about a center of the requested side whose enlarged disk contains the point, none of the same side being nearer relative to its radius, times quadrature weight, area element and the density interpolated from stage 1; 'avg' is half the sum of both sides.  This holds for every tree, traversal, order of stores, schedule, and cache content.  If the expansion classes have the same values, the result is the same as without FMM: away from the source always, on the source if association picks each node's own center. Given densities of the right size, evaluation raises exactly if the source kernels have no common translation-invariant base kernel or target association fails.

*Model and proof.* compose C76/C90 (preparation, compilation, execution) with C77 (association, driver, cutting out of results): an evaluator whose layer potentials are run by the models of association and FMM driver is invariant under permutations of densities, hence C01 applies; values entry by entry

*Status.* Composition of C76, C90, C31, C36, C38, C77, C79. FMM translation operators are exact (the FMM error is not modelled); sumpy back end; statements are executed output by output. Agreement with direct evaluation assumes that the expansion classes the two paths use have the same values.

* `Verif.BindLayer.C94_potential` (Verif/Bind/FmmLayer.lean; PCQ): **C94**: `bind(places, IntG)(**inputs)` on an accelerated QBX source is an array with one entry for each target point. If point `i` is associated with a center of the source, entry `i` is the sum over source kernels and quadrature nodes of the value at the point of the QBX expansion of the kernel about that center, times quadrature weight, area element and interpolated density; otherwise it is plain quadrature — whatever trees, traversals and schedules are used and whatever is in the caches.
* `Verif.BindLayer.C94_nearest` (Verif/Bind/FmmLayer.lean; PCQ): **C94**: the center is the nearest one of the requested side (relative to its radius) among those whose enlarged disk contains the point, if the point is in the tunnel of some source node, and there is none otherwise — unless two centers are equally near.
* `Verif.BindLayer.C94_center` (Verif/Bind/FmmLayer.lean; PCQ): **C94**: which center a point is associated with: none exactly if the point is in no source node's tunnel; otherwise a center of the requested side whose enlarged disk contains the point, and no center on the same side of the surface whose enlarged disk contains the point is nearer relative to its radius.
* `Verif.BindLayer.C94_mean` (Verif/Bind/FmmLayer.lean; PCQ): **C94**, `'avg'`: entry `i` is half the sum of the values with the centers of the two sides.
* `Verif.BindLayer.C94_agree_elsewhere` (Verif/Bind/FmmLayer.lean; PCQ): **C94**, the FMM and direct evaluation agree away from the source: if both use the same association (as they do, C77) and the QBX expansion class of the back end has the values of the expansions of direct evaluation, then switching the FMM on or off does not change the result of `bind(places, IntG)(**inputs)`.
* `Verif.BindLayer.C94_agree_source` (Verif/Bind/FmmLayer.lean; PCQ): **C94**, the FMM and direct evaluation agree on the source: if association picks for each node its own center on the side of the limit (as it does after refinement with disturbance tolerance 0, C77_own_center, C85; not always with the default tolerance, C77_refined_refuted) and the expansions have the same values, then switching the FMM on or off does not change the result.
* `Verif.BindLayer.C94_mean_refused` (Verif/Bind/LayerAvg.lean; PCQ): **C94**, `'avg'`, exactly: with densities of the right size and array arithmetic, an average evaluated with the FMM raises if and only if the source kernels have no common translation-invariant base kernel, or target association fails for one of the sides.
* `Verif.BindLayer.C94_agree_mean` (Verif/Bind/LayerAvg.lean; PCQ): **C94**, the FMM and direct evaluation agree on the source for `'avg'`: if association picks for each node its own centers.
* `Verif.BindLayer.C94_refused` (Verif/Bind/LayerExact.lean; PCQ): **C94**, exactly: with densities of the right size, evaluation with the FMM returns a value if and only if the source kernels have a common base kernel that is translation invariant and target association succeeds; otherwise it raises.

### C95 Flattening sums and products does not change the value of an expression — proved

The first thing bind does is to flatten: nested sums and products are merged, zeros are dropped from sums and ones from products, a product with a zero factor becomes 0, x/1 and x**1 become x.  The result has none of these redundancies left, an expression without them is left alone, and flattening twice is the same as once.  If an expression, with its locations filled in, has a value, the flattened expression has the same value, so bind(places, expr)(**context) returns it.  A product one of whose factors flattens to 0 evaluates to the number 0 whatever the other factors are, even if they refer to undefined variables.

*Model and proof.* model FlattenMapper together with the queues of flattened_sum and flattened_product as loops; invariants of the loops (what is a term of what, the sum and product of queue and result) by well-founded induction; compose with C76

*Status.* pymbolic's flattened_sum, flattened_product and FlattenMapper are not in the repository: modelled after their documented behaviour. For rounding arithmetic the hypotheses of C95_value (commutative semiring) hold only up to rounding, since merged sums are added in another order.

* `Verif.Bind.C95_value` (Verif/Bind/Flatten.lean; PCQ): **C95** (values): flattening does not change the value of an expression: if the expression with its locations filled in has a value, the flattened one has the same. For every interpretation of the operations in which sums, products, `0`, `1`, `x/1` and `x**1` are those of a commutative semiring.
* `Verif.Bind.C95_zero` (Verif/Bind/Flatten.lean; PCQ): **C95** (zero factors): a product with a factor that flattens to 0 is replaced by the number 0: evaluating it needs none of the other factors, and gives what the number 0 evaluates to even if they refer to undefined variables or have illegal limits.
* `Verif.Sym.C95_normal` (Verif/Symbolic/Flatten.lean; PQ): C95 (normal form): in a flattened expression no sum has a term that is zero or a sum, no product has a factor that is zero, one or a product, sums and products have at least two operands, and nothing is divided by one or raised to the power one, at any depth.
* `Verif.Sym.C95_unchanged` (Verif/Symbolic/Flatten.lean; PQ): C95 (nothing else changes): an expression that is already in this form is returned unchanged.
* `Verif.Sym.C95_idempotent` (Verif/Symbolic/Flatten.lean; PQ): C95 (idempotence): flattening twice is flattening once.

### C96 Reference derivatives are the mixed derivatives asked for, componentwise — proved

num_reference_derivative(operand, ref_axes, dofdesc) accepts an axis number (one derivative along that axis) and exactly the tuples of pairs (axis, order) with every axis at most once and in ascending order; other types raise TypeError, tuples that are not sorted and sorted tuples with a repeated axis raise ValueError.  Evaluated, it differentiates order times along each axis; if differentiation along different axes commutes, a derivative of a derivative is the derivative of the summed orders, and two accepted tuples with positive orders that always give the same values are equal.  Orders that are not positive are accepted and take no derivative.  Object arrays and multivectors, however nested, are differentiated componentwise, keeping their shape.

*Model and proof.* model the constructor with Python's sorted (insertion sort on pairs) and dict as functions on lists, the evaluation as a fold of differentiation operators over the flattened axes, and the decorator by recursion over nested operands; acceptance via sortedness and duplicate-freeness, values via permutations of the flattened axes, distinctness via shifts of Taylor coefficients

*Status.* meshmode's num_reference_derivative is not in the repository: taken to apply the differentiation matrices one after the other. Entries that are not pairs of integers are not modelled.

* `Verif.RefDeriv.C96_accepted` (Verif/Symbolic/RefDeriv.lean; PCQ): **C96**: which `ref_axes` are accepted: an integer (one derivative along that axis), and exactly the tuples with every axis at most once and in ascending order; they are stored as given.
* `Verif.RefDeriv.C96_refused` (Verif/Symbolic/RefDeriv.lean; PCQ): **C96**: what is refused, and how: other types with `TypeError`; tuples that are not sorted as `sorted` does; and sorted ones with a repeated axis.
* `Verif.RefDeriv.C96_value` (Verif/Symbolic/RefDeriv.lean; PCQ): **C96**: the value of an accepted reference derivative depends on the order along each axis only: if the differentiation operators of the axes commute, derivatives of derivatives are the derivatives of the summed orders; in particular a derivative may be taken axis by axis.
* `Verif.RefDeriv.C96_power` (Verif/Symbolic/RefDeriv.lean; P): **C96**: one pair `(axis, order)` differentiates `order` times along `axis`.
* `Verif.RefDeriv.C96_linear` (Verif/Symbolic/RefDeriv.lean; -): **C96**: reference derivatives of linear differentiation operators are linear.
* `Verif.RefDeriv.C96_distinct` (Verif/Symbolic/RefDeriv.lean; PCQ): **C96**: accepted reference derivatives with positive orders that always have the same values are equal: nothing else is accepted as another spelling of the same derivative.
* `Verif.RefDeriv.C96_componentwise` (Verif/Symbolic/RefDeriv.lean; PQ): **C96**: `num_reference_derivative` of an object array or a multivector, however they are nested, is taken componentwise: with accepted `ref_axes` the result has the shape of the operand, and the values of its components are the derivatives of the values of the components of the operand; `ref_axes` that are not accepted are refused with the same exception, unless there is no component at all.
* `Verif.RefDeriv.C96_nonpositive` (Verif/Symbolic/RefDeriv.lean; PCQ): **C96**: orders that are not positive are accepted and take no derivative.

### C97 Normals and area elements computed with multivectors mean what geometry says, in every dimension — proved

In an ambient space of any dimension, normal() of a hypersurface with linearly independent tangents is a vector (as_vector succeeds), of unit length, orthogonal to every tangent, and positively oriented with the tangents in their order; its dot product with any vector, times the area element, is the determinant of that vector and the tangents.  area_element() is the square root of the determinant of the first fundamental form, for any number of tangents in a space of any dimension: zero exactly where the tangents are dependent, the tangent's length for curves, the absolute value of the Jacobian determinant for volumes.  make_sym_surface_mv(name, ...) is the combination of the tangents with the variables name0, name1, ... as coefficients: it has no normal component, and every tangential vector is obtained from exactly one choice of coefficients.

*Model and proof.* model the multivectors themselves (blade products with reordering signs, grade projection, reversion, scalar product, left contraction, inverse of the unit pseudoscalar) in every dimension; the product's top grade is the outer product, the outer product's top coefficient is an alternating map and hence the determinant; contraction by the unit pseudoscalar is evaluated blade by blade; the determinants are Mathlib's

*Status.* Real arithmetic, one point. The multivector operations are pymbolic's (not in /repo), modelled in an orthonormal basis. C97_agrees: in two and three dimensions these are the normals of C55.

* `Verif.GA.C97_cross_product` (Verif/Surface/GA.lean; PCQ): C97: the normal in any dimension, times the area element, is the generalised cross product of the tangents: its product with any vector is the determinant of that vector and the tangents
* `Verif.GA.C97_normal` (Verif/Surface/GA.lean; PCQ): C97: for linearly independent tangents the area element is positive and the normal is a vector (so that `as_vector` succeeds), of unit length, orthogonal to every tangent, and the normal followed by the tangents is positively oriented, spanning a volume equal to the area element
* `Verif.GA.C97_area_element` (Verif/Surface/GA.lean; PCQ): C97: the area element of a hypersurface in any dimension is the square root of the determinant of the first fundamental form, whether or not the tangents are independent
* `Verif.GA.C97_volume` (Verif/Surface/GA.lean; PCQ): C97: with as many tangents as dimensions the area element is the absolute value of their determinant
* `Verif.GA.C97_curve` (Verif/Surface/GA.lean; PCQ): C97: a curve's area element in any dimension is the length of its tangent
* `Verif.GA.C97_agrees` (Verif/Surface/GA.lean; PCQ): C97: in the plane and in space these are the normals and area elements of C55
* `Verif.GA.C97_surface_vector` (Verif/Surface/GA.lean; PCQ): C97: `make_sym_surface_mv` is a vector (nothing but grade one), the combination of the tangents with the coefficients: a tangential field, without normal component, and every tangential vector is one for exactly one choice of coefficients
* `Verif.GA.C97_inverse` (Verif/Surface/GA.lean; PCQ): C97: `inv` is the inverse: the product of a multiple of a basis blade with its `inv` is one (in `normal` it is applied to the unit pseudoscalar)
* `Verif.GA.C97_area_gram` (Verif/Surface/GAGram.lean; PCQ): C97: for any number of tangents in a space of any dimension the area element is the square root of the determinant of the first fundamental form
* `Verif.GA.C97_degenerate` (Verif/Surface/GAGram.lean; PCQ): C97: the area element vanishes exactly where the tangents are linearly dependent

### C98 The waveguide operator asks for continuous tangential fields of a mode — partial

For every list of interfaces, domain refractive indices and effective index, operator(unknown) of SecondKindInfZMuellerOperator has four equations per interface: for the electric and magnetic fields the densities represent in the adjoining domains (which satisfy Maxwell's equations there, with dependence exp(i ne z), lengths in units of the inverse vacuum wave number), they are the jumps of the tangential components of H and E, so that solutions of operator(u) = 0 are guided modes. The wave number in a domain of index n is the square root of n^2 - ne^2 with nonnegative imaginary part. Without contrast the equations are multiples of the unknowns. representation(domain, unknown) returns these fields.

*Model and proof.* fields are elements of a module with commuting partial derivatives and limits from both sides; the operator's blocks are written down as in the code, the fields as documented; Maxwell's equations follow from the Helmholtz equation and translation invariance, the rows from the jump relations; the branch of the root from Mathlib's complex powers

*Status.* Partial: with several interfaces only the equations of the first one are set up, the others are 0 (return inside the loop, C98_interfaces_refuted), and potentials ignore the interface's location; without interfaces None is returned (C98_empty_refuted); representation always raises AttributeError (C98_fields_refuted). Jump relations are hypotheses, shown consistent by an instance.

* `Verif.Waveguide.C98_wave_number` (Verif/PDE/Waveguide.lean; PCQ): C98 (wave numbers): the wave number of a domain is the square root of `n² - ne²` with nonnegative imaginary part, so that potentials do not grow away from the interface; for positive `n² - ne²` it is the positive root.
* `Verif.Waveguide.C98_interface_partial` (Verif/PDE/Waveguide.lean; PCQ): C98 (one interface): the four equations are, for the fields the densities represent outside and inside, the jumps of the tangential components of `H` and `E` (along `z` and, with a minus sign, along the curve). These fields satisfy Maxwell's equations in both domains, so solutions of `operator(u) = 0` are modes. Partial: `C98_interfaces_refuted`, `C98_fields_refuted`; the location of the interface must be the default one, since potentials ignore it.
* `Verif.Waveguide.C98_no_contrast` (Verif/PDE/Waveguide.lean; PCQ): C98 (no contrast): if the refractive indices on both sides agree, all integral operators cancel and the equations are multiples of the unknowns, `n²` for the first two and `1` for the last two; so there are no modes then (`n ≠ 0`).
* `Verif.Waveguide.C98_duality` (Verif/PDE/Waveguide.lean; PCQ): C98 (duality of electric and magnetic densities): the magnetic densities enter the equations for `H` as the electric densities enter those for `E`, with the opposite sign.
* `Verif.Waveguide.C98_interfaces_refuted` (Verif/PDE/Waveguide.lean; PCQ): **C98 is false for several interfaces**: only the equations of the first interface are set up, because the loop returns after it; all others are zero. So densities on the other interfaces are arbitrary in solutions of `operator(u) = 0`.
* `Verif.Waveguide.C98_empty_refuted` (Verif/PDE/Waveguide.lean; PCQ): **C98 is false without interfaces**: `operator` returns `None` instead of an empty array.
* `Verif.Waveguide.C98_fields_refuted` (Verif/PDE/Waveguide.lean; PCQ): **C98 is false for the fields**: `representation` always raises `AttributeError`.

### C99 Programs and arrays that are kept for reuse are those the call asks for — proved

Helpers that keep what they generate (elementwise reductions, interleaving, cluster centers, radii, neighbor selection, cluster means and index pairs, cost model kernels, code containers of trees, refinement, target association and the FMM, integrals and norms) return, after any history of calls of any of them in one array context with any parameters, including calls that failed, exactly the program for the parameters of the present call, and raise exactly if a first call would. The nodes, expansion radii and centers that direct evaluation keeps with the collection are those of the descriptor and side asked for, after any history of evaluations in any array contexts; the arrays belong to the array context of the earliest successful request.

*Model and proof.* the container's store as an association list with identifiers and arguments as in the code, every helper with the variables its inner function reads; induction over histories: the store holds the result of the earliest successful call with the same key; the keys determine the variables

*Status.* memoize_in is modelled from its documentation (pytools); classes and functions in identifiers are represented by their names. Arrays kept with a collection belong to the array context of an earlier evaluation (C99_context): evaluating one bound expression in array contexts on different devices would mix them. The ambient dimension read by the inner functions is not in the key: C99_dimension_needed shows the constructor's check of the collection (C18) is needed.

* `Verif.Memo.C99_programs` (Verif/Source/Memo.lean; PCQ): C99 (programs): in one array context, whatever helpers have been used before and with which parameters, failing ones included, a helper returns exactly the program for the parameters of its own call, or raises as it would at first.
* `Verif.Memo.C99_arrays` (Verif/Source/Memo.lean; PCQ): C99 (arrays): in a collection all of whose sources have its ambient dimension `dim`, after any history of direct evaluations with any array contexts, the nodes, radii and centers used are those the descriptor and side of the call ask for, and asking fails exactly if it would have failed at first.
* `Verif.Memo.C99_context` (Verif/Source/Memo.lean; PCQ): C99 (array contexts): the arrays live in the array context of the *earliest* evaluation that asked for them successfully, which need not be the one of the call.
* `Verif.Memo.C99_dimension_needed` (Verif/Source/Memo.lean; -): C99 without a common dimension: were sources of different ambient dimension allowed in one collection (they are not: the constructor of the collection rejects them), the radii computed for one would be used for the other.
* `Verif.Memo.C99_pairs` (Verif/Source/Memo.lean; PQ): `_product` (`linalg/utils.py:323-334`) of one `mindex`: the key is empty, the inner function reads the cluster list, which never changes, and the array context

### C100 Printed programs and descriptors — partial

str() of a DOF descriptor tells its geometry, its granularity and its stage (no stage being stage 1) as long as geometry names have no slash and are not one of '?', 's', 't'; str() of the code of a bound expression shows every statement once, in the order of execution, so that each value is printed before it is used, followed by the result; the line of a layer potential tells its name, whether and where it is evaluated away from its source, its limit and its kernel; printing raises ValueError exactly if a layer potential is the average of both sides; the text of a node of an expression tells its type, reduction, axes, limit, the texts of its descriptors and the text of its operands, as long as descriptors are printed without brackets and dashes.

*Model and proof.* Verif/Compiler/Printing.lean models texts as lists of characters; cutting at the first slash or blank recovers the parts of a descriptor or line; splitting into lines and joining is the identity; order and completeness come from the schedule theorem of C03.

*Status.* C100_descriptor_partial: without the restriction on geometry names the claim is false of the code (C100_descriptor_refuted): a place called 's' is printed like the default source, 'a/center' like the centers of 'a', and the places of expressions without names like the defaults. Texts of kernels and of expressions are parameters.

* `Verif.Printing.C100_descriptor_partial` (Verif/Compiler/Printing.lean; PCQ): C100: of descriptors on recognizable geometries, two are printed alike exactly if they have the same geometry, the same granularity, and the same stage (none being stage 1)
* `Verif.Printing.C100_descriptor_refuted` (Verif/Compiler/Printing.lean; PCQ): C100 is false of other geometries: a place called `s` is printed like the default source, the default target like the target of places without names, and the place called `a/center` like the centers of the place `a`
* `Verif.Printing.C100_line` (Verif/Compiler/Printing.lean; PCQ): C100: the line printed for an output tells its name, its target (nothing is printed if and only if it is the source), its limit, and its kernel, provided names and targets are printed without blanks and the text of a kernel does not begin with a bracket
* `Verif.Printing.C100_program` (Verif/Compiler/Printing.lean; PCQ): C100: a program is printed as its statements, each once, in the order of execution, and its result; printing raises `ValueError` exactly if some layer potential is the average of the two sides
* `Verif.Printing.C100_compiled` (Verif/Compiler/Printing.lean; PCQ): C100: in the printed program of an expression, a statement that uses a value comes after the statement that computes it, and every statement the compiler made is printed once
* `Verif.Printing.C100_assign` (Verif/Compiler/Printing.lean; PCQ): C100: the text of an assignment tells the name assigned, if it is without blanks, and the text of the expression; and it is not the text of a layer potential, unless the name is a brace
* `Verif.Printing.C100_potential` (Verif/Compiler/Printing.lean; PCQ): C100: a layer potential statement is printed as a line with its source and its densities, numbered in their order; then one line for each of its outputs, in their order; then one for each kernel argument with its name (if its text has no line break), in their order; then a closing brace
* `Verif.Printing.C100_nodes` (Verif/Compiler/PrintingNodes.lean; PCQ): C100: the text of a node tells its type, its reduction, axes, limit, the texts of its descriptors, and the text of its operands

## Findings: where the code does not do what its documentation or the property says

Each item marked Cxx has a machine-checked witness in the model.

* C02: names generated for CSE temporaries can capture an input variable of the same name.
* C05: a missing input read only by the result expression is reported after the computation, not before.
* C07: `BoundExpression.eval(context)` deletes inputs from the caller's dictionary.
* C08: CSE caching with EXPRESSION/DISCRETIZATION scope returns stale values for CSEs that depend on inputs.
* C11: layer potentials, solves and interpolations placed at DEFAULT_SOURCE/DEFAULT_TARGET are not replaced by the default tagger;
  an interpolation whose two ends become equal around another interpolation collapses.
* C12, C13, C15: preprocessors do not visit potentials nested in a potential they do not rewrite (e.g. of another source).
* C14: `UnregularizedPreprocessor` ignores its geometry name and changes/rejects potentials of every source.
* C16: `DerivativeTaker` refuses `SpatialConstant` summands.
* C17: `IntG` equality does not compare the limit, and hash(-1) == hash(-2) in CPython.
* C18: a bare target set, a documented input form, always fails with AssertionError.
* C21: `connection_from_dds` with an unspecified from-stage builds a chain that does not start at the requested discretization.
* C22: `MatVecOp.unflatten` turns a 1-component object array into its component.
* C23: `_bmat` fails for an all-zero block row or column.
* C24, C57: powers/quotients by arrays/DOFArray factors of the unknown give wrong matrices; `(w+1)*u` is refused; cluster builders accept
  nonlinear densities and use an attribute (`tgt_src_index.target`) that does not exist.
* C28: `restart=0` raises IndexError; `maxiter` exits do not check the last update.
* C31: `mark_elements_for_refinement` indexes `tree.sources` with `user_source_ids`.
* C33: `maxiter=0` turns ERROR_ON_REFINEMENT into a warning.
* C44: the symmetric eigenvalue formula is applied to the non-symmetric shape operator.
* C48: the curve check of `partition_by_nodes` accepts surfaces; `max_particles_in_box` is not a bound for `tree_kind=None`.
* C49: truncating the interpolation matrices to the common rank loses the requested accuracy.
* C50: the sort key is `str`, so colliding keys make grouping depend on the listing.
* C51: copying an unregularized source drops the expansion factory and cannot switch the FMM off.
* C52: placing an unplaced descriptor on a default descriptor overwrites its stage.
* C58: `KernelTransformationRemover` does not recurse into untransformed potentials; `_LocationReplacer.map_int_g` ignores what its
  recursion would do to kernel arguments.
* Read but not expressed as property: `QBXExpansionWrangler.__init__` leaves `traversal` unbound when the kernel is not translation
  invariant or translation data is supplied (`fmm.py:154-166`); the None-domain path of `_prepare_domains` is dead; the retry in
  `muller_deflate` is dead code; `BoundExpression.eval`'s fast path never hits; `map_inverse` passes a dofdesc as dtype and returns a
  `GMRESResult`; a pair of places with one `auto_where` name silently drops the source; `drive_cost_model` returns zeros;
  the proxy `norm_type` documentation says the radius is measured in that norm, but it is always ℓ².
* C60: `DirichletOperator.operator` computes the merged kernel arguments but its inner `S` and `D` pass `self.kernel_arguments`: keyword arguments are ignored (or the call raises because they are missing), unlike in `representation`.
* C60: improved `NeumannOperator.operator`: `-0.25 * u` should be `-0.25 * inv_sqrt_w_u`; wrong with `use_l2_weighting=True` and `alpha != 0`.
* C60: `NeumannOperator.representation` with explicit `target` different from `source` and `alpha != 0` builds the inner single layer with `target=target` and limit `+1`, which `bind` rejects.
* C60: `NeumannOperator(YukawaKernel(..)).operator` raises `ValueError` with default settings although `alpha == 0`.
* C62: `BeltramiOperator.operator(sigma, **kwargs)` hands the keyword arguments to the Laplace kernel too, so any keyword (for instance a new `k`) raises `ValueError`.
* C62 (remark): left and right preconditioning of `LaplaceBeltramiOperator` add `-W` and `+W`; for data without mean zero the two solutions have means of opposite sign.
* C63: FMM evaluation of an unregularized source looks its targets up with `get_geometry` instead of `get_target_or_discretization` (`unregularized.py:245`): any target that is a layer potential source (including the source itself) fails with `AttributeError: nodes`, while direct evaluation works; the requested stage is ignored.
* C64: `PotentialSource.get_p2p` memoizes in the array context with the kernels as key although the evaluator captures the precision of the source: a single precision source asking after a double precision one gets the double precision evaluator, and vice versa.
* C64: direct evaluation chooses its result type from the target kernels alone: a complex density with a real kernel (Laplace) gets a real result array. FMM evaluation looks at the first density only.
* C65: `norm(discr, x, np.inf)` of a `MultiVector` that lacks an axis component (multivectors drop zeros) raises `AssertionError`; the 2-norm works. The maximum over components uses Python's `max`, so a NaN is reported only if it is in the first component.
* C66: `get_sym_maxwell_plane_wave` with `epsilon` or `mu` other than 1 returns the magnetic induction `sqrt(mu*epsilon) n x E` where the other functions expect `H`, and uses `omega` as the wave number of the exponential: the pair does not satisfy Maxwell's equations of the medium.
* C67: `MuellerAugmentedMFIEOperator.representation` weights the single layers with `1j*k*eps` / `-1j*k*mu`, `operator` with `±1j*omega*mu*eps`: the two disagree unless `eps = mu = sqrt(eps*mu)`.
* C67 (remark): a solution of `operator(unk) == rhs(Einc, Hinc)` represents the negative of the scattered and transmitted fields.
* C69: `BoundExpression.cost_per_stage`/`cost_per_box` return two empty dictionaries for every expression: the driver passed by `cost_model_compute_potential_insn` (`qbx/__init__.py:578-588`) returns zeros and never calls the cost model, and nothing writes `modeled_cost` or `metadata`. Calibration from these results raises `AssertionError` as soon as anything was timed.
* C69: calibration parameters are stored by the set of *source* kernels (`cost.py:557`) and looked up by the set of *target* kernels (`execution.py:447`): parameters calibrated with a double layer potential raise `KeyError` for that same potential. Unregularized sources have no cost model method at all (`AttributeError`; point sources and direct QBX raise `NotImplementedError`).
* C68 (remark): all five QBX calibration parameters must be present although one of two near field stages is never used.
* C70: `cluster_skeletonization_error` documents `(src_errors, tgt_errors)` but returns `(tgt_error, src_error)`.
* C71: `_approximate_geometry_waa_magnitude` divides by the number of neighbors; a cluster whose proxy ball contains no other points gets the weight NaN, its target proxy interactions become NaN and `_skeletonize_block_by_proxy_with_mats` fails with `AssertionError`.
* C71: `_skeletonize_block_by_proxy_with_mats` passes `wrangler.domains[ibcol]` (the source domain) as `dofdesc` for the proxies and neighbors of the target clusters as well; with a target geometry other than the source, indices of targets select points of the source geometry.
* C72: `BiharmonicClampedPlateOperator.representation` takes `sym.normal(self.dim)` of the default discretization instead of that of `source`.
* C72: `CahnHilliardOperator` multiplies potentials by -1/(2π)/(i/4) = 2i/π but leaves the jump terms ±½ unscaled; the operator is the boundary trace of the representation on neither side. Its constructor does not call `super().__init__`, so that `prepare_rhs` raises `AttributeError`.
* C74 (remark): `expansion_radii` with a descriptor of center granularity returns nodal radii, not center radii (`C74_center_descriptor`); nothing in pytential calls it that way.
* C75: `gmres` swallows the failure to find an array context (`gmres.py:384-388`), so a right-hand side with an array context that is not a PyOpenCL context, or vectors that disagree on the context, surface as `ValueError("'array_context' is required")` in the first norm; an empty system (`shape == (0, 0)`) raises `GMRESError` for the iteration limit although it is solved.
* (reading, not modelled) `IterativeInverse` cannot be evaluated: `EvaluationMapper.map_inverse` (`execution.py:273-293`) looks the expression up in a dictionary, but its `extra_vars` is a `dict` (rebuilt as such by every mapper), so hashing raises `TypeError`; past that, the descriptor is passed where `scipy_op` expects a dtype, and the `GMRESResult` record instead of its solution would be returned.
* C77: With `qbx_forced_limit=+-1` at an off-surface target one of whose points is away from the surface, direct evaluation raises `RuntimeError` ("Did not find a matching QBX center for some targets"), whereas the FMM path silently returns the plain quadrature value there (`C77_side_far_refuted`). The two paths use different centers on the source itself if a node lies in another center's disk (`C77_self_refuted`), and ties between centers are decided by the order in which the tree is traversed (`C77_tie_refuted`).
* C78: `D`, `Dp` and `int_g_dsource` always call the direction `dsource_vec`; a kernel that already has a directional source derivative of that name (the double layer of a double layer, say) has its vector overwritten, and the result differs (`C78_refuted`).
* C78: `tangential_derivative` in three dimensions is identically zero: it contracts the (grade one) gradient from the right with the (grade two) pseudoscalar (`C78_tangential_surface_zero`).
* C79: `QBXExpansionWrangler.__init__` (`qbx/fmm.py:153-165`) assigns `traversal` only inside `if translation_classes_data is None and base_kernel.is_translation_invariant` and uses it afterwards: every FMM statement with a kernel that is not translation invariant fails with `UnboundLocalError` (`C79_invariant_refuted`).
* C79: on-surface direct evaluation uses line Taylor expansions or the factory's local expansion according to whether any kernel of the batched statement has a target derivative (`qbx/__init__.py:799-810`), so the value of a potential can depend on what else is computed with it (`C79_batch_refuted`).
* C80: `_gmres` takes the residual as the new direction (GCR); if a residual is orthogonal to its image the next direction is zero, the normalization divides by zero and the iteration continues with NaNs up to `maxiter` (`C80_breakdown`), although the system may be invertible and GMRES proper would solve it (`C80_refuted`: a quarter turn of the plane).
* C81: target-specific Laplace kernels return NaN for a target at the expansion centre from order 1 on (division by |t-c|), although the local expansion is perfectly defined there; from order 64 on `ts_laplace_sp`/`ts_laplace_d` write past their stack buffers (impl.pyx:288,333; the TODO at 685 acknowledges it).
* C82: `ts_helmholtz_precompute` aborts the whole process (`assert(0)`) when |k||t-c| >= 129, and for every order >= 63 it either aborts or writes past the 65-entry `iscale` array (`C82_abort_refuted`, `C82_order_refuted`).
* C82: for |k||s-c| < 1e-15 `h3dall_` zeroes its derivative array unconditionally, also when the caller passes NULL: the Helmholtz potential and gradient kernels then write through a null pointer; the double-layer kernel silently returns 0 (`C82_null_refuted`, `C82_zero_refuted`).
* C86: `IterativeInverse` cannot be used at all: `expr_dataclass` names its mapper method `map_iterative_inverse`, but all mappers define `map_inverse` (mappers.py:170,261,483,897, execution.py:273), so the first pass of `bind` raises `UnsupportedExpressionError`.
* C87: an expression with a CSE of scope EXPRESSION or DISCRETIZATION around the unknown is linear as written, but as an operator for gmres it returns the value of the first call in every iteration (stale cache, see C08).
* C88: `build_matrix` cannot build blocks between different geometries: without a limit, `abs(expr.qbx_forced_limit)` raises `TypeError`; with the limits ±2 it uses `expansion_centers(side=±2)`, i.e. points at twice the expansion radius from the *target*, where evaluation uses the centers of the source or plain quadrature (`matrix.py:457`, `:473-480`).
* C88: `P2PMatrixBuilder` uses base kernels only, so the point-to-point matrix of a double layer potential is that of the single layer potential (`matrix.py:562`, `:575-580`).
* C89: `dot_dataflow_graph` draws the result of code such as `2*S(sigma)` as coming from `initial`: `get_orig_node` looks variables up only if the whole result expression is one (compiler.py:360-366).
* C44: the returned curvature can also be too small: half of the largest principal curvature (`C44_underestimate_refuted`).
* C92: the criteria are not re-checked after the last allowed round: a geometry that satisfies all criteria after exactly maxiter rounds still produces RefinerNotConvergedWarning, which pytential's own filter turns into an exception (refinement.py:692-699, pytential/__init__.py:62-69; C92_spurious).
* C93: without use_l2_weighting a converged solve bounds the error only in the Euclidean norm of nodal values; the relative L2 error can exceed tol by any factor (witness: 50 times).
* C95: `bind` replaces a product with a zero factor by the number 0, so the other factors are not evaluated: errors in them (undefined variables, illegal limits) are not raised, and the result is a number, not an array.
* C77: refinement with the default expansion_disturbance_tolerance = 0.025 (refinement.py:936) does not ensure that a surface node is associated with its own center: a geometry accepted without warning in which association picks the other node's center, so FMM and direct evaluation expand about different centers (C77_refined_refuted).
* C96: `NumReferenceDerivative` accepts orders <= 0 and then silently takes no derivative (C96_nonpositive).
* C98: `SecondKindInfZMuellerOperator.operator` returns inside its loop over the interfaces: with several interfaces all equations but the first four are `0 = 0`; without interfaces it returns `None`; layer potentials are taken on the default location, whatever the interface is.
* C98: `SecondKindInfZMuellerOperator.representation` always raises `AttributeError` (`self.k_vacuum` is never set); behind that line `dx` and `dy` are the same derivative and the result array is too short.
* C86: `GraphvizMapper` cannot draw sums over nodes (its method is misspelled `map_map_node_sum`), maxima, minima, elementwise operations, interpolation; it raises `TypeError` for layer potentials whose limit is `None` or `'avg'`.
* C100: `DOFDescriptor.__str__` is not injective: a geometry identifier `"s"` prints like the default source, `"t"` like the default target, `"a/center"` like the centers of `"a"` (dof_desc.py:235-260).  `str()` of compiled code raises `ValueError` for `qbx_forced_limit="avg"`, which compiled code of unregularized sources can have (compiler.py:285-296).

## Which parts of the code are modelled

Per file of `/repo/pytential`: functions with a model (module names in brackets, `Verif.` omitted), then functions without.

**__init__.py**

* not modelled: `_set_up_logging_from_environment`, `_set_up_errors`, `_integral_op`, `integral`, `_norm_2_op`, `_norm_inf_op`, `norm`

**array_context.py**

* not modelled: `PyOpenCLArrayContext.transform_loopy_program`, `_acf`, `PytestPyOpenCLArrayContextFactory.__call__`

**collection.py**

* modelled: `GeometryCollection.__init__` [Collection.Caches, Collection.Construct]; `GeometryCollection._get_cache`, `GeometryCollection._get_discr_from_cache`, `GeometryCollection._add_discr_to_cache`, `GeometryCollection._get_conn_from_cache`, `GeometryCollection._add_conn_to_cache`, `GeometryCollection._get_qbx_discretization`, `GeometryCollection.get_connection`, `GeometryCollection.get_discretization`, `GeometryCollection.copy`, `GeometryCollection.merge`, `GeometryCollection.__repr__`, `GeometryCollection.__str__`, `add_geometry_to_collection` [Collection.Caches]; `GeometryCollection._get_discretization_or_geometry`, `GeometryCollection.get_source_or_discretization`, `GeometryCollection.get_target_or_discretization` [Collection.Caches, Source.Exec]; `GeometryCollection.get_geometry` [Collection.Caches, Source.Exec, Symbolic.InterpPre]
* not modelled: `NotADiscretizationError`, `_is_valid_identifier`, `_GeometryCollectionDiscretizationCacheKey`, `_GeometryCollectionConnectionCacheKey`, `GeometryCollection.auto_source`, `GeometryCollection.auto_target`

**linalg/direct_solver_symbolic.py**

* modelled: `prepare_expr`, `prepare_proxy_expr` [Linalg.SkelWeights, Symbolic.ProxyExpr]; `KernelTransformationRemover.__init__`, `KernelTransformationRemover.map_int_g`, `IntGTermCollector.map_sum`, `IntGTermCollector.map_product`, `IntGTermCollector.map_int_g`, `_LocationReplacer._default_dofdesc`, `_LocationReplacer.map_int_g`, `DOFDescriptorReplacer.map_int_g` [Symbolic.ProxyExpr]
* not modelled: `PROXY_SKELETONIZATION_SOURCE`, `PROXY_SKELETONIZATION_TARGET`

**linalg/gmres.py**

* modelled: `structured_vdot`, `gmres` [Linalg.Vdot]; `GMRESResult` [Linalg.Gmres]; `_gmres` [Linalg.Gmres, Linalg.GmresBreakdown, Linalg.GmresExact, Linalg.GmresKrylov, Linalg.Vdot]
* not modelled: `InnerProduct.__call__`, `CallableOperator.shape`, `CallableOperator.__call__`, `HasMatVec.shape`, `HasMatVec.matvec`, `GMRESError`, `ResidualPrinter.__init__`, `ResidualPrinter.__call__`, `lu`

**linalg/proxy.py**

* modelled: `partition_by_nodes` [Linalg.Neighbors, Linalg.Partition]; `_generate_unit_sphere`, `ProxyGeneratorBase.__init__`, `ProxyGeneratorBase.ambient_dim`, `ProxyGeneratorBase.nproxy`, `ProxyGeneratorBase.get_centers_kernel_ex`, `ProxyGeneratorBase.get_radii_kernel_ex`, `ProxyGeneratorBase.__call__`, `ProxyGenerator.get_radii_kernel_ex`, `QBXProxyGenerator.get_radii_kernel_ex`, `QBXProxyGenerator.__call__` [Linalg.Proxy]; `make_compute_cluster_centers_kernel_ex`, `make_compute_cluster_radii_kernel_ex`, `make_compute_cluster_qbx_radii_kernel_ex` [Linalg.Proxy, Source.Memo]; `gather_cluster_neighbor_points` [Linalg.Neighbors, Source.Memo]
* not modelled: `ProxyPointSource.__init__`, `ProxyPointSource.get_expansion_for_qbx_direct_eval`, `ProxyPointTarget.__init__`, `ProxyClusterGeometryData.nclusters`, `ProxyClusterGeometryData.discr`, `ProxyClusterGeometryData.to_numpy`, `ProxyClusterGeometryData.as_sources`, `ProxyClusterGeometryData.as_targets`

**linalg/skeletonization.py**

* modelled: `_approximate_geometry_waa_magnitude` [Linalg.SkelWeights, Source.Memo]; `_apply_weights`, `SkeletonizationWrangler.nrows`, `SkeletonizationWrangler.ncols`, `SkeletonizationWrangler._evaluate_expr`, `SkeletonizationWrangler.evaluate_target_proxy_interaction`, `make_skeletonization_wrangler`, `skeletonize_by_proxy` [Linalg.SkelWeights]; `SkeletonizationWrangler.evaluate_source_neighbor_interaction`, `SkeletonizationWrangler.evaluate_target_neighbor_interaction`, `SkeletonizationWrangler.evaluate_source_proxy_interaction`, `_evaluate_proxy_skeletonization_interaction`, `_skeletonize_block_by_proxy_with_mats` [Linalg.SkelWeights, Linalg.Skeleton]; `_ProxyNeighborEvaluationResult.__getitem__`, `SkeletonizationResult.__post_init__`, `SkeletonizationResult.nclusters` [Linalg.Skeleton]

**linalg/utils.py**

* modelled: `IndexList.nclusters`, `IndexList.nindices`, `IndexList.cluster_size`, `IndexList.cluster_indices`, `IndexList.cluster_take`, `TargetAndSourceClusterList.nclusters`, `TargetAndSourceClusterList.shape`, `TargetAndSourceClusterList.__iter__`, `TargetAndSourceClusterList._flat_cluster_starts`, `TargetAndSourceClusterList._flat_total_size`, `TargetAndSourceClusterList.cluster_shape`, `TargetAndSourceClusterList.cluster_indices`, `TargetAndSourceClusterList.cluster_take`, `TargetAndSourceClusterList.flat_cluster_take`, `make_index_list`, `make_flat_cluster_diag` [Linalg.IndexList]; `TargetAndSourceClusterList.__post_init__` [Exec.ClusterMat, Linalg.IndexList]; `make_index_cluster_cartesian_product` [Linalg.IndexList, Source.Memo]; `interp_decomp` [Linalg.Skeleton]; `cluster_skeletonization_error`, `skeletonization_error` [Linalg.SkelBound, Linalg.SkelError]

**log.py**

* not modelled: `colors`, `term_seq`, `ColoredFormatter.make_formatter_message`, `ColoredFormatter.__init__`, `ColoredFormatter.format`, `set_up_logging`

**muller.py**

* modelled: `muller_deflate`, `muller` [Linalg.Muller]

**qbx/__init__.py**

* modelled: `QBXDefaultExpansionFactory.get_qbx_local_expansion_class` [Exec.Norms, Source.Memo]; `NonFFTExpansionFactory` [Exec.Norms]; `QBXLayerPotentialSource.__init__`, `QBXLayerPotentialSource.copy` [Source.Copy]; `QBXLayerPotentialSource.preprocess_optemplate` [Bind.Model, Symbolic.QBXPre]; `QBXLayerPotentialSource.op_group_features` [Compiler.Model, Source.SortTogether]; `QBXLayerPotentialSource.exec_compute_potential_insn` [Bind.FmmLayer, Bind.Layer, QBX.CostBound, QBX.Paths]; `QBXLayerPotentialSource.cost_model_compute_potential_insn` [QBX.CostBound, QBX.Paths]; `QBXLayerPotentialSource._dispatch_compute_potential_insn` [QBX.CostBound]; `QBXLayerPotentialSource._tree_indep_data_for_wrangler` [Exec.LayerMat, QBX.Setup]; `QBXLayerPotentialSource.get_target_discrs_and_qbx_sides` [QBX.Geometry, QBX.Paths]; `QBXLayerPotentialSource.exec_compute_potential_insn_fmm` [Bind.FmmLayer, QBX.Geometry, QBX.Paths, QBX.Setup, Source.Dtype]; `QBXLayerPotentialSource.get_expansion_for_qbx_direct_eval` [QBX.Setup]; `QBXLayerPotentialSource.get_lpot_applier`, `QBXLayerPotentialSource.get_lpot_applier_on_tgt_subset` [QBX.Setup, Source.Dtype]; `QBXLayerPotentialSource.get_qbx_target_numberer` [QBX.Direct, QBX.Setup]; `QBXLayerPotentialSource.exec_compute_potential_insn_direct` [Bind.Layer, Exec.LayerMat, QBX.Direct, QBX.Paths, Source.Memo]; `get_flat_strengths_from_densities` [Bind.FmmLayer, Exec.LayerMat, QBX.Paths]
* not modelled: `QBXLayerPotentialSource.qbx_fmm_geometry_data`

**qbx/cost.py**

* modelled: `QBXTranslationCostModel.__init__`, `QBXTranslationCostModel.p2qbxl`, `QBXTranslationCostModel.p2p_tsqbx`, `QBXTranslationCostModel.qbxl2p`, `QBXTranslationCostModel.m2qbxl`, `QBXTranslationCostModel.l2qbxl`, `make_pde_aware_translation_cost_model`, `make_taylor_translation_cost_model`, `AbstractQBXCostModel.process_form_qbxl`, `AbstractQBXCostModel.process_m2qbxl`, `AbstractQBXCostModel.process_l2qbxl`, `AbstractQBXCostModel.process_eval_qbxl`, `AbstractQBXCostModel.process_eval_target_specific_qbxl`, `AbstractQBXCostModel.qbx_cost_factors_for_kernels_from_model`, `AbstractQBXCostModel.gather_metadata`, `AbstractQBXCostModel.qbx_cost_per_box`, `AbstractQBXCostModel.qbx_cost_per_stage`, `AbstractQBXCostModel.get_unit_calibration_params` [QBX.CostTotals]; `AbstractQBXCostModel.estimate_kernel_specific_calibration_params` [QBX.CostBound]; `QBXCostModel._fill_array_with_index_knl`, `QBXCostModel.count_global_qbx_centers_knl` [QBX.Cost, Source.Memo]; `QBXCostModel._fill_array_with_index`, `QBXCostModel.get_nqbx_centers_per_tgt_box` [QBX.Cost]; `QBXCostModel.process_form_qbxl`, `QBXCostModel.process_m2qbxl`, `QBXCostModel.process_l2qbxl`, `QBXCostModel.process_eval_qbxl`, `QBXCostModel.process_eval_target_specific_qbxl`, `_PythonQBXCostModel.process_form_qbxl`, `_PythonQBXCostModel.process_eval_target_specific_qbxl`, `_PythonQBXCostModel.process_m2qbxl`, `_PythonQBXCostModel.process_l2qbxl`, `_PythonQBXCostModel.process_eval_qbxl` [QBX.Cost, QBX.CostTotals]; `QBXCostModel.process_m2qbxl_knl` [QBX.Cost, QBX.CostTotals, Source.Memo]
* not modelled: `AbstractQBXCostModel.estimate_calibration_params`, `QBXCostModel.__init__`, `QBXCostModel.qbx_cost_factors_for_kernels_from_model`, `_PythonQBXCostModel.__init__`, `_PythonQBXCostModel.qbx_cost_per_box`, `_PythonQBXCostModel.qbx_cost_per_stage`, `_PythonQBXCostModel.qbx_cost_factors_for_kernels_from_model`

**qbx/direct.py**

* modelled: `LayerPotentialOnTargetAndCenterSubset.get_kernel` [QBX.Direct]
* not modelled: `LayerPotentialOnTargetAndCenterSubset.default_name`, `LayerPotentialOnTargetAndCenterSubset.get_cache_key`, `LayerPotentialOnTargetAndCenterSubset.get_optimized_kernel`, `LayerPotentialOnTargetAndCenterSubset.__call__`

**qbx/fmm.py**

* modelled: `QBXSumpyTreeIndependentDataForWrangler.__init__`, `QBXExpansionWrangler.__init__`, `QBXExpansionWrangler.output_zeros`, `QBXExpansionWrangler.full_output_zeros`, `QBXExpansionWrangler.qbx_local_expansion_zeros`, `QBXExpansionWrangler.reorder_potentials` [QBX.Setup]; `QBXSumpyTreeIndependentDataForWrangler.qbx_local_expansion`, `QBXSumpyTreeIndependentDataForWrangler.p2qbxl`, `QBXSumpyTreeIndependentDataForWrangler.m2qbxl`, `QBXSumpyTreeIndependentDataForWrangler.l2qbxl`, `QBXSumpyTreeIndependentDataForWrangler.qbxl2p`, `QBXSumpyTreeIndependentDataForWrangler.wrangler_cls` [Bind.FmmLayer, QBX.Setup]; `QBXExpansionWrangler.reorder_sources` [QBX.FMM, QBX.Setup]; `QBXExpansionWrangler.form_global_qbx_locals`, `QBXExpansionWrangler.translate_box_multipoles_to_qbx_local`, `QBXExpansionWrangler.translate_box_local_to_qbx_local`, `QBXExpansionWrangler.eval_qbx_expansions` [QBX.FMM]; `translation_classes_builder` [Source.Memo]; `drive_fmm` [Bind.FmmLayer, QBX.FMM, QBX.FMMLib, QBX.Paths]
* not modelled: `QBXExpansionWrangler.box_target_list_kwargs`, `QBXExpansionWrangler.eval_target_specific_qbx_locals`

**qbx/fmmlib.py**

* modelled: `QBXFMMLibTreeIndependentDataForWrangler.__init__`, `QBXFMMLibTreeIndependentDataForWrangler.is_supported_helmknl`, `QBXFMMLibTreeIndependentDataForWrangler.is_supported_helmknl_for_tsqbx`, `QBXFMMLibExpansionWrangler.add_potgrad_onto_output`, `QBXFMMLibExpansionWrangler.form_global_qbx_locals`, `QBXFMMLibExpansionWrangler.translate_box_multipoles_to_qbx_local`, `QBXFMMLibExpansionWrangler.translate_box_local_to_qbx_local`, `QBXFMMLibExpansionWrangler.eval_qbx_expansions` [QBX.FMMLib]; `QBXFMMLibExpansionWrangler.__init__` [QBX.Setup]; `QBXFMMLibExpansionWrangler.eval_target_specific_qbx_locals` [QBX.FMMLib, QBX.TsBridge]
* not modelled: `QBXFMMLibTreeIndependentDataForWrangler.wrangler_cls`, `QBXFMMLibExpansionWrangler._setup_actx`, `QBXFMMLibExpansionWrangler.output_zeros`, `QBXFMMLibExpansionWrangler.full_output_zeros`, `QBXFMMLibExpansionWrangler.reorder_sources`, `QBXFMMLibExpansionWrangler.reorder_potentials`, `QBXFMMLibExpansionWrangler._get_single_centers_array`, `QBXFMMLibExpansionWrangler.box_target_starts`, `QBXFMMLibExpansionWrangler.box_target_counts_nonchild`, `QBXFMMLibExpansionWrangler.targets`, `QBXFMMLibExpansionWrangler.qbx_local_expansion_zeros`, `QBXFMMLibExpansionWrangler.finalize_potentials`

**qbx/geometry.py**

* modelled: `target_state` [QBX.Paths]; `QBXFMMGeometryDataCodeContainer.copy_targets_kernel`, `QBXFMMGeometryDataCodeContainer.qbx_center_to_target_box_lookup`, `QBXFMMGeometryDataCodeContainer.pick_used_centers`, `QBXFMMGeometryData.target_info`, `QBXFMMGeometryData.target_side_preferences`, `QBXFMMGeometryData.qbx_center_to_target_box`, `QBXFMMGeometryData.center_to_tree_targets`, `QBXFMMGeometryData.non_qbx_box_target_lists` [QBX.Geometry]; `qbx_fmm_geometry_data_code_container` [Source.Memo]; `QBXFMMGeometryData.qbx_center_to_target_box_source_level` [Bind.FmmLayer, QBX.FMM]; `QBXFMMGeometryData.global_qbx_flags`, `QBXFMMGeometryData.global_qbx_centers` [Bind.FmmLayer, QBX.Geometry]; `QBXFMMGeometryData.user_target_to_center` [Bind.FmmLayer, QBX.Geometry, QBX.Paths]
* not modelled: `QBXFMMGeometryDataCodeContainer.__init__`, `QBXFMMGeometryDataCodeContainer.build_traversal`, `QBXFMMGeometryDataCodeContainer.build_leaf_to_ball_lookup`, `QBXFMMGeometryDataCodeContainer.key_value_sort`, `QBXFMMGeometryDataCodeContainer.filter_center_and_target_ids`, `QBXFMMGeometryDataCodeContainer.rotation_classes_builder`, `TargetInfo`, `CenterToTargetList`, `QBXFMMGeometryData.__init__`, `QBXFMMGeometryData.ambient_dim`, `QBXFMMGeometryData.coord_dtype`, `QBXFMMGeometryData._setup_actx`, `QBXFMMGeometryData.ncenters`, `QBXFMMGeometryData.flat_centers`, `QBXFMMGeometryData.flat_expansion_radii`, `QBXFMMGeometryData.tree`, `QBXFMMGeometryData.traversal`, `QBXFMMGeometryData.build_rotation_classes_lists`, `QBXFMMGeometryData.m2l_rotation_lists`, `QBXFMMGeometryData.m2l_rotation_angles`, `QBXFMMGeometryData.plot`

**qbx/interactions.py**

* modelled: `P2QBXLFromCSR.get_kernel`, `M2QBXL.get_kernel`, `L2QBXL.get_kernel`, `QBXL2P.get_kernel` [QBX.FMM]
* not modelled: `P2QBXLFromCSR.default_name`, `P2QBXLFromCSR.get_cache_key`, `P2QBXLFromCSR.get_optimized_kernel`, `P2QBXLFromCSR.__call__`, `M2QBXL.default_name`, `M2QBXL.get_cache_key`, `M2QBXL.get_optimized_kernel`, `M2QBXL.__call__`, `L2QBXL.default_name`, `L2QBXL.get_cache_key`, `L2QBXL.get_optimized_kernel`, `L2QBXL.__call__`, `QBXL2P.default_name`, `QBXL2P.get_cache_key`, `QBXL2P.get_optimized_kernel`, `QBXL2P.__call__`

**qbx/refinement.py**

* modelled: `QBXRefinementMode` [QBX.Refine]; `RefinerCodeContainer.element_prop_threshold_checker`, `RefinerWrangler.check_expansion_disks_undisturbed_by_sources`, `RefinerWrangler.check_element_prop_threshold` [QBX.Checks]; `refiner_code_container` [Source.Memo]; `RefinerWrangler.check_sufficient_source_quadrature_resolution` [QBX.Checks, QBX.RefineGeom]; `RefinerWrangler.refine` [QBX.Refine, QBX.RefineGeom]; `_make_quad_stage2_discr` [QBX.RefineGeom]; `_refine_qbx_stage1`, `_refine_qbx_stage2` [QBX.Refine, QBX.RefineDefault, QBX.RefineGeom]; `_refine_for_global_qbx`, `refine_geometry_collection` [Collection.Caches]
* not modelled: `QBXRefinementNeededError`, `RefinerCodeContainer.__init__`, `RefinerCodeContainer.expansion_disk_undisturbed_by_sources_checker`, `RefinerCodeContainer.sufficient_source_quadrature_resolution_checker`, `RefinerCodeContainer.get_wrangler`, `RefinerNotConvergedWarning`, `make_empty_refine_flags`, `_warn_max_iterations`, `_visualize_refinement`, `_make_temporary_collection`, `_refine_qbx_quad_stage2`

**qbx/target_assoc.py**

* modelled: `target_association_code_container` [Source.Memo]; `TargetAssociationWrangler.mark_targets`, `TargetAssociationWrangler.find_centers` [QBX.AreaQuery, QBX.TargetAssoc]; `TargetAssociationWrangler.mark_elements_for_refinement` [Bind.FmmLayer, QBX.AreaQuery, QBX.Paths, QBX.TargetAssoc]; `TargetAssociationWrangler.make_target_flags`, `TargetAssociationWrangler.make_default_target_association` [Bind.FmmLayer, QBX.TargetAssoc]; `associate_targets_to_qbx_centers` [Bind.FmmLayer, QBX.AreaQuery, QBX.RefineGeom, QBX.TargetAssoc]
* not modelled: `target_status_enum`, `target_flag_enum`, `_generate_enum_code`, `QBXTargetAssociationFailedError.__init__`, `QBXTargetAssociationFailedError.__str__`, `QBXTargetAssociationFailedError.__repr__`, `QBXTargetAssociation`, `TargetAssociationCodeContainer.__init__`, `TargetAssociationCodeContainer.target_marker`, `TargetAssociationCodeContainer.center_finder`, `TargetAssociationCodeContainer.refiner_for_failed_target_association`, `TargetAssociationCodeContainer.space_invader_query`, `TargetAssociationCodeContainer.get_wrangler`

**qbx/utils.py**

* modelled: `tree_code_container` [Source.Memo]; `build_tree_with_qbx_metadata` [QBX.AreaQuery, QBX.RefineGeom, QBX.Tree]
* not modelled: `TreeCodeContainer.__init__`, `TreeCodeContainer.build_tree`, `TreeCodeContainer.peer_list_finder`, `TreeCodeContainer.particle_list_filter`, `TreeCodeContainer.build_area_query`, `TreeCodeContainerMixin.build_tree`, `TreeCodeContainerMixin.peer_list_finder`, `TreeCodeContainerMixin.particle_list_filter`, `TreeWranglerBase.__init__`, `TreeWranglerBase.build_tree`, `TreeWranglerBase.find_peer_lists`, `TreeWithQBXMetadata`, `ToHostTransferredGeoDataWrapper.__init__`, `ToHostTransferredGeoDataWrapper.to_numpy`, `ToHostTransferredGeoDataWrapper.tree`, `ToHostTransferredGeoDataWrapper.traversal`, `ToHostTransferredGeoDataWrapper.lpot_source`, `ToHostTransferredGeoDataWrapper.ncenters`, `ToHostTransferredGeoDataWrapper.centers`, `ToHostTransferredGeoDataWrapper.expansion_radii`, `ToHostTransferredGeoDataWrapper.global_qbx_centers`, `ToHostTransferredGeoDataWrapper.qbx_center_to_target_box`, `ToHostTransferredGeoDataWrapper.qbx_center_to_target_box_source_level`, `ToHostTransferredGeoDataWrapper.non_qbx_box_target_lists`, `ToHostTransferredGeoDataWrapper.center_to_tree_targets`, `ToHostTransferredGeoDataWrapper.all_targets`, `ToHostTransferredGeoDataWrapper.m2l_rotation_lists`, `ToHostTransferredGeoDataWrapper.m2l_rotation_angles`

**source.py**

* modelled: `PotentialSource.get_p2p`, `PointPotentialSource.real_dtype`, `PointPotentialSource.complex_dtype`, `LayerPotentialSourceBase.ndofs`, `LayerPotentialSourceBase.get_fmm_output_and_expansion_dtype` [Source.Dtype]; `evaluate_kernel_arguments`, `LayerPotentialSourceBase.get_fmm_kernel`, `LayerPotentialSourceBase.get_fmm_expansion_wrangler_extra_kwargs` [Source.Exec]; `PointPotentialSource.op_group_features` [Compiler.Model, Source.SortTogether]; `PointPotentialSource.cost_model_compute_potential_insn` [QBX.CostBound]; `PointPotentialSource.exec_compute_potential_insn` [QBX.CostBound, Source.Exec]; `_entry_dtype` [QBX.CostBound, Source.Dtype]
* not modelled: `PotentialSource.ambient_dim`, `PotentialSource.ndofs`, `PotentialSource.real_dtype`, `PotentialSource.complex_dtype`, `PotentialSource.op_group_features`, `PotentialSource.preprocess_optemplate`, `PointPotentialSource.__init__`, `PointPotentialSource.points`, `PointPotentialSource.nodes`, `PointPotentialSource.ndofs`, `PointPotentialSource.ambient_dim`, `LayerPotentialSourceBase.__init__`, `LayerPotentialSourceBase._setup_actx`, `LayerPotentialSourceBase.cl_context`, `LayerPotentialSourceBase.ambient_dim`, `LayerPotentialSourceBase.dim`, `LayerPotentialSourceBase.real_dtype`, `LayerPotentialSourceBase.complex_dtype`

**symbolic/compiler.py**

* modelled: `Assign.__post_init__`, `PotentialOutput`, `ComputePotential.get_assignees`, `ComputePotential.get_dependencies`, `ComputePotential.__hash__`, `_get_next_step`, `_compute_schedule` [Compiler.Model]; `Assign.get_assignees`, `Assign.get_dependencies`, `OperatorCompiler.__init__`, `OperatorCompiler.op_group_features`, `OperatorCompiler.__call__`, `OperatorCompiler.get_var_name`, `OperatorCompiler.assign_to_new_var`, `OperatorCompiler.map_sum`, `OperatorCompiler.map_numpy_array`, `OperatorCompiler.map_common_subexpression`, `OperatorCompiler.map_int_g_ds` [Compiler.Model, Symbolic.Dispatch]; `Assign.__str__`, `Assign.__hash__`, `ComputePotential.__str__`, `Code.__str__` [Compiler.Model, Compiler.Printing]; `dot_dataflow_graph` [Compiler.Dataflow]; `Code.statements` [Compiler.Dataflow, Compiler.Model, Compiler.Printing]; `OperatorCompiler.make_assign` [Compiler.Model, Compiler.Printing, Symbolic.Dispatch]; `OperatorCompiler.map_int_g` [Bind.Layer, Compiler.Model, Symbolic.Dispatch]
* not modelled: `Statement.get_assignees`, `Statement.get_dependencies`, `Statement.__str__`, `_NoStatementAvailableError`

**symbolic/dof_connection.py**

* modelled: `interleave_dof_arrays` [QBX.Dofs, Source.Memo]; `DOFConnection.__call__` [Collection.Caches]; `connection_from_dds` [Collection.Caches, Surface.Radii]
* not modelled: `DOFConnection.__init__`

**symbolic/dof_desc.py**

* modelled: `_UNNAMED_SOURCE`, `_UNNAMED_TARGET`, `DEFAULT_SOURCE`, `DEFAULT_TARGET`, `DOFDescriptor.__str__` [Compiler.Printing]; `QBX_SOURCE_STAGE1`, `QBX_SOURCE_STAGE2`, `QBX_SOURCE_QUAD_STAGE2`, `GRANULARITY_NODE`, `GRANULARITY_CENTER`, `GRANULARITY_ELEMENT`, `_NoArgSentinel`, `DOFDescriptor.__init__`, `DOFDescriptor.to_stage2`, `DOFDescriptor.to_quad_stage2`, `DOFDescriptor.__hash__`, `DOFDescriptor.__eq__`, `DOFDescriptor.__ne__`, `DOFDescriptor.__repr__`, `as_dofdesc` [Symbolic.DofDesc]; `DOFDescriptor.copy` [Compiler.Printing, Symbolic.DofDesc, Symbolic.InterpPre, Symbolic.Tagger]; `DOFDescriptor.to_stage1` [Symbolic.DofDesc, Symbolic.InterpPre, Symbolic.Tagger]

**symbolic/execution.py**

* modelled: `EvaluationMapperBase.__init__`, `EvaluationMapperBase._map_minmax`, `EvaluationMapperBase.map_max`, `EvaluationMapperBase.map_min`, `EvaluationMapperBase.map_node_min`, `EvaluationMapperBase.map_ones`, `EvaluationMapperBase.map_node_coordinate_component`, `EvaluationMapperBase.map_q_weight`, `EvaluationMapperBase.map_error_expression`, `EvaluationMapperBase.exec_assign`, `EvaluationMapperBase.exec_compute_potential_insn`, `EvaluationMapperBase.map_call`, `EvaluationMapper.exec_compute_potential_insn` [Compiler.Crash, Compiler.Model, Symbolic.Dispatch]; `EvaluationMapperBase.map_node_sum`, `EvaluationMapperBase.map_node_max` [Compiler.Crash, Compiler.Model, Exec.Norms, Symbolic.Dispatch]; `EvaluationMapperBase._map_elementwise_reduction` [Compiler.Crash, Compiler.Model, QBX.Dofs, Source.Memo, Symbolic.Dispatch]; `EvaluationMapperBase.map_elementwise_sum`, `EvaluationMapperBase.map_elementwise_min`, `EvaluationMapperBase.map_elementwise_max` [Compiler.Crash, Compiler.Model, QBX.Dofs, Symbolic.Dispatch]; `EvaluationMapperBase.map_num_reference_derivative` [Compiler.Crash, Compiler.Model, Exec.MatBuild, Symbolic.Dispatch, Symbolic.RefDeriv]; `EvaluationMapperBase.map_inverse` [Collection.Caches, Compiler.Crash, Compiler.Model, Symbolic.Dispatch]; `EvaluationMapperBase.map_interpolation`, `EvaluationMapperBase.map_interleave`, `EvaluationMapperBase.map_is_shape_class` [Compiler.Crash, Compiler.Model, Surface.Radii, Symbolic.Dispatch]; `EvaluationMapperBase.map_common_subexpression` [Collection.Caches, Compiler.Crash, Compiler.Model, Compiler.Props, Symbolic.Dispatch]; `EvaluationMapper.__init__` [Symbolic.Dispatch]; `CostModelMapper.__init__`, `CostModelMapper.exec_compute_potential_insn`, `BoundExpression.cost_per_stage`, `BoundExpression.cost_per_box` [QBX.CostBound]; `MatVecOp.shape`, `MatVecOp._operator_uses_obj_array`, `MatVecOp.flatten`, `MatVecOp.unflatten`, `MatVecOp.matvec`, `BoundExpression.scipy_op` [Exec.MatVec]; `_prepare_domains` [Bind.Linear, Linalg.SkelWeights]; `_prepare_auto_where` [Bind.Linear, Collection.Construct]; `_prepare_expr` [Bind.Flatten, Bind.Model, Bind.Prepare, Symbolic.Dispatch, Symbolic.Flatten, Symbolic.QBXNest, Symbolic.QBXPre]; `execute` [Compiler.Crash, Compiler.Model, Compiler.Twice, QBX.CostBound]; `_find_array_context_from_args_in_context` [Exec.Norms, Linalg.Vdot]; `BoundExpression.__init__`, `BoundExpression.__call__` [Compiler.Props]; `BoundExpression.code` [Bind.Matrix, Bind.Model, Compiler.Props]; `BoundExpression.eval` [Bind.Model, Bind.Prepare, Compiler.Crash, Compiler.Props]; `bind` [Bind.Model, Bind.Prepare, Symbolic.Dispatch]; `_bmat` [Exec.BMat, Symbolic.Dispatch]; `build_matrix` [Bind.Matrix, Exec.LayerMat, Exec.MatBuild, Symbolic.Dispatch]
* not modelled: `EvaluationMapperCSECacheKey`, `EvaluationMapperBoundOpCacheKey`, `CostModelMapper.get_modeled_cost`, `_get_exec_function`, `BoundExpression._get_cache`, `BoundExpression.__call__`, `BoundExpression.__call__`, `BoundExpression.__call__`

**symbolic/mappers.py**

* modelled: `IdentityMapper._map_nodal_red`, `IdentityMapper._map_elwise_red`, `IdentityMapper.map_num_reference_derivative`, `IdentityMapper._map_childless`, `IdentityMapper.map_interpolation`, `IdentityMapper.map_interleave` [Compiler.Model, Symbolic.Dispatch, Symbolic.Flatten, Symbolic.QBXPre]; `IdentityMapper.map_inverse`, `IdentityMapper.map_int_g` [Compiler.Model, Symbolic.Dispatch, Symbolic.Expr, Symbolic.Flatten, Symbolic.QBXPre]; `CachedIdentityMapper.__call__`, `EvaluationRewriter.rec_arith` [Compiler.Model]; `CombineMapper._map_with_operand`, `CombineMapper.map_interleave`, `CombineMapper.map_spatial_constant`, `CombineMapper.map_int_g`, `CombineMapper.map_inverse` [Compiler.Model, Symbolic.Derivative, Symbolic.Dispatch]; `Collector._map_leaf`, `DependencyMapper` [Compiler.Model, Symbolic.Dispatch]; `OperatorCollector.map_int_g` [Compiler.Model, Symbolic.Dispatch, Symbolic.ProxyExpr]; `FlattenMapper`, `flatten` [Symbolic.Dispatch, Symbolic.Flatten]; `LocationTagger.__init__`, `LocationTagger.map_common_subexpression_uncached`, `LocationTagger._default_dofdesc`, `LocationTagger.map_ones`, `LocationTagger.map_node_coordinate_component`, `LocationTagger.map_num_reference_derivative`, `LocationTagger.map_elementwise_sum`, `LocationTagger.map_int_g`, `LocationTagger.map_is_shape_class`, `LocationTagger.map_error_expression`, `ToTargetTagger.map_int_g` [Symbolic.Dispatch, Symbolic.Tagger]; `LocationTagger.map_inverse`, `LocationTagger.map_interpolation` [Symbolic.Dispatch, Symbolic.Expr, Symbolic.ProxyExpr, Symbolic.Tagger]; `LocationTagger.map_interleave` [Symbolic.Dispatch, Symbolic.ProxyExpr, Symbolic.Tagger]; `DiscretizationStageTagger.__init__`, `DiscretizationStageTagger.map_node_coordinate_component` [PDE.Plate, Symbolic.InterpPre]; `DiscretizationStageTagger.map_num_reference_derivative` [PDE.Expr, PDE.Plate, Symbolic.InterpPre]; `_IsSptiallyVaryingMapper.combine`, `_IsSptiallyVaryingMapper.map_constant`, `_IsSptiallyVaryingMapper.map_spatial_constant`, `_IsSptiallyVaryingMapper.map_variable`, `_IsSptiallyVaryingMapper.map_int_g`, `_DerivativeTakerUnsupoortedProductError`, `DerivativeTaker.__init__`, `DerivativeTaker.map_constant` [PDE.Expr, PDE.Plate, Symbolic.Derivative]; `DerivativeTaker.map_sum`, `DerivativeSourceAndNablaComponentCollector` [Symbolic.Derivative]; `DerivativeTaker.map_product`, `DerivativeTaker.map_int_g` [Symbolic.Derivative, Symbolic.LayerOps]; `DerivativeBinder.take_derivative` [Bind.Prepare, Symbolic.Dispatch, Symbolic.Gradient, Symbolic.LayerOps]; `UnregularizedPreprocessor.map_int_g`, `InterpolationPreprocessor.__init__`, `InterpolationPreprocessor.map_num_reference_derivative`, `InterpolationPreprocessor.map_int_g` [Symbolic.Dispatch, Symbolic.InterpPre]; `QBXPreprocessor.map_int_g` [PDE.Expr, PDE.Maxwell, Symbolic.Dispatch, Symbolic.QBXNest, Symbolic.QBXPre]; `stringify_where` [Compiler.Printing, Symbolic.Dispatch]; `StringifyMapper.map_ones`, `StringifyMapper.map_inverse`, `StringifyMapper.map_elementwise_sum`, `StringifyMapper.map_elementwise_min`, `StringifyMapper.map_elementwise_max`, `StringifyMapper.map_node_max`, `StringifyMapper.map_node_min`, `StringifyMapper.map_node_sum`, `StringifyMapper.map_node_coordinate_component`, `StringifyMapper.map_num_reference_derivative`, `StringifyMapper.map_q_weight`, `StringifyMapper._stringify_kernel_args`, `StringifyMapper.map_int_g`, `StringifyMapper.map_interpolation`, `StringifyMapper.map_interleave`, `StringifyMapper.map_error_expression`, `StringifyMapper.map_is_shape_class`, `StringifyMapper.__call__` [Compiler.PrintingNodes, Symbolic.Dispatch]; `GraphvizMapper.__init__`, `GraphvizMapper.map_pytential_leaf`, `GraphvizMapper.map_map_node_sum`, `GraphvizMapper.map_int_g` [Symbolic.Graph]
* not modelled: `rec_int_g_arguments`, `EvaluationRewriter.map_variable`, `EvaluationRewriter.map_subscript`, `EvaluationRewriter.map_node_sum`, `EvaluationRewriter.map_node_coordinate_component`, `EvaluationRewriter.map_num_reference_derivative`, `EvaluationRewriter.map_int_g`, `EvaluationRewriter.map_common_subexpression`, `NablaComponentToUnitVector`, `DerivativeSourceFinder`, `PrettyStringifyMapper`

**symbolic/matrix.py**

* modelled: `is_zero` [Exec.BMat, Exec.MatBuild]; `_get_layer_potential_args` [Bind.Matrix]; `MatrixBuilderBase.map_variable`, `MatrixBuilderBase.map_subscript`, `MatrixBuilderBase.map_sum`, `MatrixBuilderBase.map_product`, `MatrixBuilderBase.map_num_reference_derivative`, `MatrixBuilderBase.map_node_coordinate_component`, `MatrixBuilderBase.map_call` [Bind.Matrix, Exec.ClusterMat, Exec.MatBuild]; `ClusterMatrixBuilderBase.__init__`, `ClusterMatrixBuilderBase._inner_mapper`, `ClusterMatrixBuilderBase.get_dep_variable`, `ClusterMatrixBuilderBase.is_kind_vector`, `ClusterMatrixBuilderBase.is_kind_matrix`, `ClusterMatrixBuilderWithoutComposition.get_dep_variable`, `P2PClusterMatrixBuilder.__init__` [Exec.ClusterMat]; `MatrixBuilder.map_interpolation` [Bind.Matrix, Collection.Caches, Exec.MatBuild]; `MatrixBuilder.map_int_g` [Bind.Matrix, Exec.LayerMat, Exec.MatBuild]; `P2PMatrixBuilder.map_int_g` [Exec.ClusterLayer, Exec.LayerMat]; `QBXClusterMatrixBuilder.__init__`, `P2PClusterMatrixBuilder.map_int_g` [Exec.ClusterLayer, Exec.ClusterMat]; `QBXClusterMatrixBuilder.map_int_g` [Exec.ClusterLayer, Exec.ClusterMat, Exec.LayerMat]
* not modelled: `MatrixBuilderBase.__init__`, `MatrixBuilderBase.get_dep_variable`, `MatrixBuilderBase.is_kind_vector`, `MatrixBuilderBase.is_kind_matrix`, `MatrixBuilderDirectResamplerCacheKey`, `MatrixBuilder.__init__`, `P2PMatrixBuilder.__init__`

**symbolic/old_diffop_primitives.py**

* not modelled: `grad_S`, `grad_D`, `tangential_surf_grad_source_S`, `surf_grad_S`, `curl_curl_S_volume`, `nxcurl_S`, `surface_laplacian_S_squared`, `S_surface_laplacian_S`, `xyz_to_tangential`, `tangential_to_xyz`, `project_to_tangential`, `surf_n_cross`

**symbolic/pde/beltrami.py**

* modelled: `BeltramiOperator.__init__`, `BeltramiOperator.prepare_solution`, `BeltramiOperator.prepare_rhs`, `BeltramiOperator.operator`, `LaplaceBeltramiOperator.__init__`, `LaplaceBeltramiOperator.operator`, `YukawaBeltramiOperator.__init__`, `HelmholtzBeltramiOperator.__init__` [PDE.Beltrami]
* not modelled: `BeltramiOperator.ambient_dim`, `BeltramiOperator.dtype`, `BeltramiOperator.get_density_var`

**symbolic/pde/cahn_hilliard.py**

* modelled: `CahnHilliardOperator.__init__`, `CahnHilliardOperator.S_G`, `CahnHilliardOperator.representation`, `CahnHilliardOperator.operator` [PDE.Plate]
* not modelled: `CahnHilliardOperator.make_unknown`

**symbolic/pde/maxwell/__init__.py**

* modelled: `get_sym_maxwell_point_source`, `get_sym_maxwell_plane_wave`, `PECChargeCurrentMFIEOperator.j_operator`, `PECChargeCurrentMFIEOperator.j_rhs`, `PECChargeCurrentMFIEOperator.rho_operator`, `PECChargeCurrentMFIEOperator.rho_rhs`, `PECChargeCurrentMFIEOperator.scattered_volume_field`, `MaxwellDomain`, `MuellerAugmentedMFIEOperator.ks`, `MuellerAugmentedMFIEOperator.split_unknown`, `MuellerAugmentedMFIEOperator.operator`, `MuellerAugmentedMFIEOperator.rhs`, `MuellerAugmentedMFIEOperator.representation` [PDE.Maxwell]
* not modelled: `PECChargeCurrentMFIEOperator.__init__`, `MuellerUnknowns`, `MuellerAugmentedMFIEOperator.kernel`, `MuellerAugmentedMFIEOperator.make_unknown`

**symbolic/pde/maxwell/generalized_debye.py**

* not modelled: `_debye_S0_surf_div`, `DebyeOperatorBase.__init__`, `DebyeOperatorBase.m`, `DebyeOperatorBase.boundary_field_base`, `DebyeOperatorBase.volume_field_base`, `DebyeOperatorBase.integral_equation`, `DebyeOperatorBase.prepare_rhs`, `DebyeOperatorBase.harmonic_vector_field_current`, `DebyeOperatorBase.cluster_points`, `InvertingDebyeOperatorBase.r_and_q`, `InvertingDebyeOperatorBase.boundary_field`, `InvertingDebyeOperatorBase.volume_field`, `InvertingDebyeOperatorBase.integral_equation`, `InvertingDebyeOperator.j`, `InvertingSLapSDebyeOperator.j`, `NonInvertingDebyeOperator.r_and_q`, `NonInvertingDebyeOperator.j`, `NonInvertingDebyeOperator.boundary_field`, `NonInvertingDebyeOperator.volume_field`, `NonInvertingDebyeOperator.integral_equation`

**symbolic/pde/maxwell/waveguide.py**

* modelled: `SecondKindInfZMuellerOperator.__init__`, `SecondKindInfZMuellerOperator.unknown_index`, `SecondKindInfZMuellerOperator.S`, `SecondKindInfZMuellerOperator.D`, `SecondKindInfZMuellerOperator.T`, `SecondKindInfZMuellerOperator.representation`, `SecondKindInfZMuellerOperator.operator` [PDE.Waveguide]
* not modelled: `SecondKindInfZMuellerOperator.make_unknown`, `SecondKindInfZMuellerOperator.tangent`

**symbolic/pde/scalar.py**

* modelled: `L2WeightedPDEOperator.get_sqrt_weight`, `L2WeightedPDEOperator.prepare_rhs`, `DirichletOperator.__init__`, `DirichletOperator.is_unique_only_up_to_constant`, `DirichletOperator.representation`, `DirichletOperator.operator`, `NeumannOperator.__init__`, `NeumannOperator.is_unique_only_up_to_constant`, `NeumannOperator.representation`, `NeumannOperator.operator` [PDE.Scalar]; `L2WeightedPDEOperator.representation`, `BiharmonicClampedPlateOperator.__init__`, `BiharmonicClampedPlateOperator.dim`, `BiharmonicClampedPlateOperator.prepare_rhs`, `BiharmonicClampedPlateOperator.get_density_var`, `BiharmonicClampedPlateOperator.representation`, `BiharmonicClampedPlateOperator.operator` [PDE.Plate]
* not modelled: `L2WeightedPDEOperator.__init__`, `L2WeightedPDEOperator.dim`, `L2WeightedPDEOperator.get_weight`, `L2WeightedPDEOperator.get_density_var`, `L2WeightedPDEOperator.operator`

**symbolic/primitives.py**

* modelled: `cse_scope` [Bind.Model]; `for_each_expression`, `NumReferenceDerivative.__new__` [Symbolic.RefDeriv]; `make_sym_surface_mv` [Surface.GA]; `NamedIntermediateResult`, `hashable_kernel_args` [Compiler.Model]; `ErrorExpression`, `DiscretizationProperty.__post_init__`, `SingleScalarOperandExpression.__new__`, `NodeMax`, `node_max`, `NodeMin`, `node_min`, `SingleScalarOperandExpressionWithWhere.__new__`, `SingleScalarOperandExpressionWithWhere.__post_init__` [Symbolic.Dispatch]; `IsShapeClass.__init__`, `QWeight`, `Ones.__post_init__`, `ones_vec`, `ElementwiseSum`, `elementwise_sum`, `ElementwiseMin`, `elementwise_min`, `ElementwiseMax`, `elementwise_max` [Symbolic.Dispatch, Symbolic.Expr]; `NodeCoordinateComponent.__init__`, `nodes` [Symbolic.Expr]; `NumReferenceDerivative.__init__`, `num_reference_derivative` [Surface.Curvature, Symbolic.RefDeriv]; `reference_jacobian`, `parametrization_derivative_matrix`, `mean_curvature` [Surface.Curvature]; `parametrization_derivative` [Surface.GA, Surface.GAGram]; `pseudoscalar` [Exec.Norms, Surface.Frames, Surface.GA, Surface.GAGram]; `area_element` [Surface.Frames, Surface.GA, Surface.GAGram]; `sqrt_jac_q_weight` [PDE.Expr, Surface.Frames, Surface.GA]; `normal` [Surface.Frames, Surface.GA, Symbolic.LayerOps]; `first_fundamental_form` [Surface.Curvature, Surface.GA]; `second_fundamental_form` [Exec.Norms, Surface.Curvature, Surface.GA]; `shape_operator` [Exec.Norms, Surface.Curvature, Surface.SmallMat]; `_element_size`, `_small_mat_inverse`, `_small_mat_eigenvalues`, `_small_sym_mat_eigenvalues`, `_simplex_mapping_max_stretch_factor`, `_hypercube_mapping_max_stretch_factor` [Surface.SmallMat]; `_equilateral_parametrization_derivative_matrix`, `_max_curvature`, `_scaled_max_curvature` [Surface.Curvature, Surface.SmallMat]; `_mapping_max_stretch_factor` [Surface.Radii, Surface.SmallMat]; `_expansion_radii_factor` [QBX.RefineGeom, Surface.Curvature, Surface.Radii]; `_quad_resolution`, `_close_target_tunnel_radii`, `h_max`, `h_min` [Surface.Radii]; `_source_danger_zone_radii`, `expansion_radii` [QBX.RefineGeom, Surface.Radii]; `expansion_centers` [Exec.LayerMat, QBX.RefineGeom, Surface.Frames, Surface.Radii]; `interleaved_expansion_centers` [Exec.LayerMat, QBX.RefineGeom, Surface.Radii]; `Interpolation.__new__` [Symbolic.Expr, Symbolic.Tagger]; `Interpolation.__post_init__`, `Interleave.to_dd`, `interleave` [Surface.Radii, Symbolic.Dispatch]; `interpolate` [Surface.Radii, Symbolic.Dispatch, Symbolic.InterpPre]; `integral`, `area` [Exec.Norms, Symbolic.Dispatch]; `mean` [Exec.Norms, PDE.Expr]; `Derivative.resolve` [Bind.Prepare]; `dd_axis`, `grad_mv`, `laplace` [Bind.Prepare, Symbolic.Gradient]; `grad` [Bind.Prepare, PDE.Maxwell, Symbolic.Gradient]; `IntG.__init__` [Compiler.Model, Exec.LayerMat, PDE.Expr, Symbolic.Expr, Symbolic.LayerOps]; `IntG.__post_init__` [PDE.Beltrami, PDE.Expr, Symbolic.Expr, Symbolic.LayerOps, Symbolic.QBXPre]; `IntG.copy`, `int_g_dsource`, `S`, `Spp`, `D`, `Dp` [PDE.Beltrami, PDE.Expr, Symbolic.LayerOps]; `IntG.__eq__`, `IntG.__hash__` [Symbolic.IntGEq, Symbolic.LayerOps]; `_insert_source_derivative_into_kernel`, `_get_dir_vec`, `_unspecified`, `int_g_vec`, `tangential_derivative`, `normal_derivative`, `normal_second_derivative` [PDE.Expr, Symbolic.LayerOps]; `Sp` [PDE.Beltrami, PDE.Expr, PDE.Maxwell, Symbolic.LayerOps]; `tangential_onb`, `project_to_tangential` [Surface.Frames]; `xyz_to_tangential`, `tangential_to_xyz`, `n_dot`, `cross`, `n_cross` [PDE.Maxwell, Surface.Frames]; `div`, `curl` [PDE.Maxwell]
* not modelled: `ExpressionNode.make_stringifier`, `make_sym_mv`, `Function.__call__`, `Function.__call__`, `Function.__call__`, `NumpyMathFunction`, `weights_and_area_elements`, `IterativeInverse.__post_init__`, `NodeSum`, `node_sum`, `Derivative.nabla`, `pretty`

**symbolic/stokes.py**

* modelled: `StokesletWrapper.__init__`, `StokesletWrapper.apply`, `StokesletWrapper.apply_pressure`, `StokesletWrapper.apply_derivative`, `StokesletWrapper.apply_stress`, `StressletWrapper.__init__`, `StressletWrapper.apply`, `StressletWrapper.apply_pressure`, `StressletWrapper.apply_derivative`, `StressletWrapper.apply_stress`, `StokesOperator.prepare_rhs`, `HsiaoKressExteriorStokesOperator.__init__`, `HsiaoKressExteriorStokesOperator._farfield`, `HsiaoKressExteriorStokesOperator._operator`, `HsiaoKressExteriorStokesOperator.prepare_rhs`, `HsiaoKressExteriorStokesOperator.operator`, `HsiaoKressExteriorStokesOperator.velocity`, `HebekerExteriorStokesOperator._operator`, `HebekerExteriorStokesOperator.operator`, `HebekerExteriorStokesOperator.velocity` [PDE.Stokes]
* not modelled: `StokesOperator.__init__`, `StokesOperator.dim`, `StokesOperator.get_density_var`, `StokesOperator.operator`, `StokesOperator.velocity`, `StokesOperator.pressure`, `HsiaoKressExteriorStokesOperator.pressure`, `HebekerExteriorStokesOperator.__init__`, `HebekerExteriorStokesOperator.pressure`

**target.py**

* not modelled: `TargetBase.ambient_dim`, `TargetBase.ndofs`, `TargetBase.nodes`, `PointsTarget.__init__`, `PointsTarget.ambient_dim`, `PointsTarget.ndofs`, `PointsTarget.nodes`, `PointsTarget.preprocess_optemplate`

**unregularized.py**

* modelled: `UnregularizedLayerPotentialSource.__init__` [Source.Copy]; `UnregularizedLayerPotentialSource.copy` [Source.Copy, Source.Exec]; `UnregularizedLayerPotentialSource.exec_compute_potential_insn`, `UnregularizedLayerPotentialSource.fmm_geometry_data`, `_FMMGeometryData.target_info` [Source.Exec]; `UnregularizedLayerPotentialSource.op_group_features` [Compiler.Model, Source.Exec, Source.SortTogether]; `UnregularizedLayerPotentialSource.preprocess_optemplate` [Bind.Model, Source.Exec]; `UnregularizedLayerPotentialSource.exec_compute_potential_insn_direct` [Exec.LayerMat, Source.Exec]; `UnregularizedLayerPotentialSource.exec_compute_potential_insn_fmm` [Source.Dtype, Source.Exec]
* not modelled: `UnregularizedLayerPotentialSource._tree_indep_data_for_wrangler`, `UnregularizedLayerPotentialSource.fmm_geometry_code_container`, `_FMMGeometryDataCodeContainer.copy_targets_kernel`, `_FMMGeometryDataCodeContainer.build_tree`, `_FMMGeometryDataCodeContainer.build_traversal`, `_TargetInfo`, `_FMMGeometryData.array_context`, `_FMMGeometryData.coord_dtype`, `_FMMGeometryData.ambient_dim`, `_FMMGeometryData.traversal`, `_FMMGeometryData.tree`

**utils.py**

* modelled: `sort_arrays_together` [Compiler.Model, Source.SortTogether]
* not modelled: `CanComparison`, `pytest_teardown_function`

## Why the unmodelled parts are not modelled

* Logging, printing, plotting, stringification, graphviz, pickling, deprecation shims, code containers, dtype selection, wrangler construction and
  kernel code generation carry no logic a property here depends on, or only pass objects to external libraries.
* The numbers computed by expansions, quadrature rules and special functions live in sumpy/meshmode/pymbolic and are parameters.
* Floating point rounding, OpenCL memory behaviour other than the order of stores, and running time are outside of the model.

## Testing the theorems against wrong programs

`seeded/LOG.jsonl` records edits of the model (automatic mutants: swapped comparisons, off-by-one, swapped branches and arguments,
dropped updates; and hand-written ones), the claim each breaks, the theorems that stopped proving and the theorems tightened because a
wrong program had survived.
