import Verif.QBX.CostTotals
import Mathlib.Data.Finset.Basic
import Mathlib.Tactic.Common

/-!
# Costs of bound expressions, calibration, and dispatch (C69)

Models `CostModelMapper`, `BoundExpression.cost_per_stage`/`cost_per_box`
(`symbolic/execution.py`), `exec_compute_potential_insn`, `cost_model_compute_potential_insn` and
`_dispatch_compute_potential_insn` of the potential sources (`source.py`, `qbx/__init__.py`,
`unregularized.py`), and `estimate_kernel_specific_calibration_params` (`qbx/cost.py`).

A kernel is a number; a `frozenset` of kernels is a `Finset`.  Evaluation of densities and kernel
arguments is left out (it is the subject of C05, C63 and others).
-/

namespace Verif.CostBound

/-- exceptions -/
inductive Err where
  | keyError
  | attributeError
  | notImplemented
  | assertion
  | missingInput
  deriving DecidableEq, Repr

/-- the geometries an instruction can name as its source: a QBX source (`fmm_order` False or not,
refinement mode `NO_REFINEMENT` or not), a point source, an unregularized source, or something that
is not a potential source -/
inductive Source where
  | qbx (direct noRefinement : Bool)
  | point
  | unregularized
  | other
  deriving DecidableEq, Repr

/-- a `ComputePotential` statement: identity, kernels, names of the outputs, source -/
structure Insn where
  ident : Nat
  sourceKernels : List Nat
  targetKernels : List Nat
  outputs : List String
  source : Source
  deriving DecidableEq, Repr

/-- statements; an assignment binds a name (its evaluation is left out) -/
inductive Stmt where
  | assign (name : String)
  | potential (i : Insn)

/-- what is called for an instruction -/
inductive Call where
  | direct
  | fmm
  /-- the FMM machinery with a driver returning zeros -/
  | zeroFmm
  | p2p
  | unregularized
  deriving DecidableEq, Repr

/-! ## Execution -/

/-- `exec_compute_potential_insn` of the sources (`qbx/__init__.py:538-561,596-609`,
`source.py:254-318`, `unregularized.py`): what runs, and whether the warning "Executing global QBX
without refinement" is issued -/
def dispatch : Source → Except Err (Call × Bool)
  | .qbx true w => .ok (.direct, w)
  | .qbx false w => .ok (.fmm, w)
  | .point => .ok (.p2p, false)
  | .unregularized => .ok (.unregularized, false)
  | .other => .error .attributeError

/-- `cost_model_compute_potential_insn` (`qbx/__init__.py:563-594`, `source.py:239-247`);
unregularized sources have no such method -/
def dispatchCost : Source → Except Err (Call × Bool)
  | .qbx true _ => .error .notImplemented
  | .qbx false w => .ok (.zeroFmm, w)
  | .point => .error .notImplemented
  | .unregularized => .error .attributeError
  | .other => .error .attributeError

/-! ## Cost evaluation -/

/-- the calibration parameters: `"constant_one"` or a dictionary by sets of kernels -/
inductive Calib (P : Type) where
  | constantOne
  | dict (d : Finset Nat → Option P)

/-- values in the context: given or computed by assignments, or the zeros standing for a potential -/
inductive Val where
  | value
  | zero
  deriving DecidableEq, Repr

/-- state of `CostModelMapper` (`execution.py:425-442`): the context and the collected results -/
structure St (C : Type) where
  context : List (String × Val)
  modeledCost : List (Insn × C)
  metadata : List (Insn × C)

/-- `CostModelMapper.exec_compute_potential_insn` (`execution.py:444-463`): the geometry, the
calibration parameters of the *target* kernels, the source, the check -/
def execCost {P C : Type} (calib : Calib P) (st : St C) (i : Insn) : Except Err (List (String × Val)) :=
  let params : Except Err Unit := match calib with
    | .constantOne => .ok ()
    | .dict d => match d i.targetKernels.toFinset with
      | some _ => .ok ()
      | none => .error .keyError
  match params with
  | .error e => .error e
  | .ok () =>
    match dispatchCost i.source with
    | .error e => .error e
    | .ok _ =>
      if st.modeledCost.any (fun q => q.1 == i) then .error .assertion
      else .ok (i.outputs.map fun o => (o, .zero))

/-- one statement of `execute` (`execution.py:679-694`); names once bound stay bound here -/
def stepCost {P C : Type} (calib : Calib P) (st : St C) : Stmt → Except Err (St C)
  | .assign n => .ok { st with context := (n, .value) :: st.context }
  | .potential i =>
    match execCost calib st i with
    | .error e => .error e
    | .ok as => .ok { st with context := as ++ st.context }

/-- the loop of `execute` -/
def runCost {P C : Type} (calib : Calib P) : St C → List Stmt → Except Err (St C)
  | st, [] => .ok st
  | st, x :: xs =>
    match stepCost calib st x with
    | .error e => .error e
    | .ok st' => runCost calib st' xs

/-- `cost_per_stage`, `cost_per_box` (`execution.py:775-808`) -/
def costOf {P C : Type} (calib : Calib P) (inputs : List String) (kwargs : List String) (prog : List Stmt) :
    Except Err (List (Insn × C) × List (Insn × C)) :=
  if inputs.all (fun n => kwargs.contains n) then
    match runCost calib ⟨kwargs.map fun n => (n, .value), [], []⟩ prog with
    | .error e => .error e
    | .ok st => .ok (st.modeledCost, st.metadata)
  else .error .missingInput

/-! ## Calibration -/

/-- `dict` lookup -/
def find {A C : Type} [DecidableEq A] (d : List (A × C)) (a : A) : Option C := (d.find? fun q => q.1 == a).map (·.2)

/-- `cost_per_kernel[knls]["model_costs"].append(...)`, creating the entry if needed
(`cost.py:558-567`) -/
def record {M R : Type} (d : List (Finset Nat × List (M × R))) (k : Finset Nat) (m : M) (r : R) :
    List (Finset Nat × List (M × R)) :=
  if d.any (fun q => q.1 == k) then d.map (fun q => if q.1 == k then (q.1, q.2 ++ [(m, r)]) else q)
  else d ++ [(k, [(m, r)])]

/-- the loop over the timed instructions of a case (`cost.py:553-567`) -/
def recordCase {M R : Type} (model : List (Insn × M)) :
    List (Finset Nat × List (M × R)) → List (Insn × R) → Except Err (List (Finset Nat × List (M × R)))
  | d, [] => .ok d
  | d, (i, r) :: rest =>
    match find model i with
    | none => .error .assertion
    | some m => recordCase model (record d i.sourceKernels.toFinset m r) rest

/-- the loop over the cases (`cost.py:549-567`) -/
def recordAll {M R : Type} : List (Finset Nat × List (M × R)) → List (List (Insn × M) × List (Insn × R)) →
    Except Err (List (Finset Nat × List (M × R)))
  | d, [] => .ok d
  | d, (m, t) :: rest =>
    match recordCase m d t with
    | .error e => .error e
    | .ok d' => recordAll d' rest

/-- `estimate_kernel_specific_calibration_params` (`cost.py:532-577`); `fit` is
`estimate_calibration_params` (of `boxtree`), given pairs of model and real cost -/
def estimate {M R P : Type} (fit : List (M × R) → P) (models : List (List (Insn × M)))
    (timings : List (List (Insn × R))) : Except Err (List (Finset Nat × P)) :=
  if models.length = timings.length then
    match recordAll [] (models.zip timings) with
    | .error e => .error e
    | .ok d => .ok (d.map fun q => (q.1, fit q.2))
  else .error .assertion


/-! # Properties -/

namespace Spec

/-- the potentials of a program -/
def potentials : List Stmt → List Insn
  | [] => []
  | .assign _ :: xs => potentials xs
  | .potential i :: xs => i :: potentials xs

/-- the instructions whose cost can be modeled: FMM-accelerated QBX -/
def Modelable (i : Insn) : Prop := ∃ w, i.source = .qbx false w

/-- calibration parameters are available for a set of kernels -/
def Calibrated {P : Type} (c : Calib P) (k : List Nat) : Prop := ∀ d, c = .dict d → ∃ p, d k.toFinset = some p

/-- the pairs of modeled and measured cost for a set of source kernels, in order -/
def pairs {M R : Type} (cases : List (List (Insn × M) × List (Insn × R))) (k : Finset Nat) : List (M × R) :=
  cases.flatMap fun c => c.2.filterMap fun t =>
    if t.1.sourceKernels.toFinset = k then (find c.1 t.1).map fun m => (m, t.2) else none

end Spec

/-- **C69, dispatch.**  A QBX potential is computed directly exactly if `fmm_order` is `False`, with
the FMM otherwise, and a warning is issued exactly if the geometry was not refined. -/
theorem C69_dispatch (src : Source) (c : Call) (w : Bool) :
    dispatch src = .ok (c, w) ↔
      (src = .qbx true w ∧ c = .direct) ∨ (src = .qbx false w ∧ c = .fmm) ∨
      (src = .point ∧ c = .p2p ∧ w = false) ∨ (src = .unregularized ∧ c = .unregularized ∧ w = false) := by
  cases src with
  | qbx d n => cases d <;> cases n <;> cases w <;> cases c <;> simp [dispatch]
  | point => cases w <;> cases c <;> simp [dispatch]
  | unregularized => cases w <;> cases c <;> simp [dispatch]
  | other => simp [dispatch]

theorem execCost_ok {P C : Type} (calib : Calib P) (st : St C) (i : Insn) (h0 : st.modeledCost = []) :
    (∃ as, execCost calib st i = .ok as) ↔ Spec.Modelable i ∧ Spec.Calibrated calib i.targetKernels := by
  unfold execCost Spec.Modelable Spec.Calibrated
  cases calib with
  | constantOne =>
    cases hs : i.source with
    | qbx d w => cases d <;> simp [dispatchCost, h0]
    | point => simp [dispatchCost]
    | unregularized => simp [dispatchCost]
    | other => simp [dispatchCost]
  | dict d =>
    cases hd : d i.targetKernels.toFinset with
    | none => simp [hd]
    | some p =>
      cases hs : i.source with
      | qbx d w => cases d <;> simp [dispatchCost, h0, hd]
      | point => simp [dispatchCost, hd]
      | unregularized => simp [dispatchCost, hd]
      | other => simp [dispatchCost, hd]

theorem runCost_spec {P C : Type} (calib : Calib P) (st : St C) (prog : List Stmt) (h0 : st.modeledCost = [])
    (h1 : st.metadata = []) :
    ((∃ st', runCost calib st prog = .ok st') ↔
      ∀ i ∈ Spec.potentials prog, Spec.Modelable i ∧ Spec.Calibrated calib i.targetKernels) ∧
    ∀ st', runCost calib st prog = .ok st' → st'.modeledCost = [] ∧ st'.metadata = [] := by
  induction prog generalizing st with
  | nil =>
    constructor
    · simp [runCost, Spec.potentials]
    · intro st' h
      cases h
      exact ⟨h0, h1⟩
  | cons x prog ih =>
    cases x with
    | assign n =>
      simp only [runCost, stepCost, Spec.potentials]
      exact ih _ h0 h1
    | potential i =>
      have he := execCost_ok calib st i h0
      simp only [runCost, stepCost, Spec.potentials]
      cases hx : execCost calib st i with
      | error e =>
        rw [hx] at he
        have hno : ¬ (Spec.Modelable i ∧ Spec.Calibrated calib i.targetKernels) := by
          intro h
          obtain ⟨as, h⟩ := he.2 h
          cases h
        constructor
        · constructor
          · rintro ⟨st', h⟩; cases h
          · intro h; exact absurd (h i (by simp)) hno
        · intro st' h; cases h
      | ok as =>
        rw [hx] at he
        have hyes := he.1 ⟨as, rfl⟩
        obtain ⟨ih1, ih2⟩ := ih { st with context := as ++ st.context } h0 h1
        refine ⟨?_, ih2⟩
        refine ih1.trans ?_
        constructor
        · intro h j hj
          rcases List.mem_cons.1 hj with rfl | hj
          · exact hyes
          · exact h j hj
        · intro h j hj
          exact h j (List.mem_cons_of_mem _ hj)

/-- names bound by a statement in cost evaluation, and to what -/
def Spec.bindings : Stmt → List (String × Val)
  | .assign n => [(n, .value)]
  | .potential i => i.outputs.map fun o => (o, .zero)

/-- **C69, potentials are zero in cost evaluation.**  Costs are modeled by running the whole program: later statements
see the given arguments, all assigned values, and zeros for all potentials. -/
theorem C69_context {P C : Type} (calib : Calib P) (st st' : St C) (prog : List Stmt)
    (h : runCost calib st prog = .ok st') :
    ∀ n v, (n, v) ∈ st'.context ↔ (n, v) ∈ st.context ∨ ∃ x ∈ prog, (n, v) ∈ Spec.bindings x := by
  induction prog generalizing st with
  | nil => cases h; simp
  | cons x prog ih =>
    cases x with
    | assign m =>
      simp only [runCost, stepCost] at h
      intro n v
      rw [ih _ h n v]
      have hb : (n, v) ∈ Spec.bindings (.assign m) ↔ (n, v) = (m, Val.value) := by
        simp only [Spec.bindings, List.mem_singleton]
      simp only [List.mem_cons, exists_eq_or_imp, hb]
      tauto
    | potential i =>
      simp only [runCost, stepCost] at h
      cases hx : execCost calib st i with
      | error e => rw [hx] at h; cases h
      | ok as =>
        rw [hx] at h
        have has : as = i.outputs.map fun o => (o, .zero) := by
          unfold execCost at hx
          revert hx
          cases calib with
          | constantOne =>
            cases i.source with
            | qbx d w =>
              cases d
              · simp only [dispatchCost]
                split
                · intro hx; cases hx
                · intro hx; cases hx; rfl
              · intro hx; cases hx
            | point => intro hx; cases hx
            | unregularized => intro hx; cases hx
            | other => intro hx; cases hx
          | dict d =>
            simp only
            cases d i.targetKernels.toFinset with
            | none => intro hx; cases hx
            | some p =>
              cases i.source with
              | qbx d w =>
                cases d
                · simp only [dispatchCost]
                  split
                  · intro hx; cases hx
                  · intro hx; cases hx; rfl
                · intro hx; cases hx
              | point => intro hx; cases hx
              | unregularized => intro hx; cases hx
              | other => intro hx; cases hx
        intro n v
        rw [ih _ h n v]
        have hb : (n, v) ∈ Spec.bindings (.potential i) ↔ (n, v) ∈ i.outputs.map fun o => (o, Val.zero) := Iff.rfl
        simp only [List.mem_append, List.mem_cons, exists_eq_or_imp, hb, has]
        tauto

/-- **C69, costs of a bound expression.**  `cost_per_stage` and `cost_per_box` succeed exactly if
all inputs are given and every potential is computed by FMM-accelerated QBX with calibration
parameters for its *target* kernels.  Missing: the documented result, one entry per potential
(`C69_cost_empty_refuted`). -/
theorem C69_cost_partial {P C : Type} (calib : Calib P) (inputs kwargs : List String) (prog : List Stmt) :
    (∃ r : List (Insn × C) × List (Insn × C), costOf calib inputs kwargs prog = .ok r) ↔
      (∀ n ∈ inputs, n ∈ kwargs) ∧
      ∀ i ∈ Spec.potentials prog, Spec.Modelable i ∧ Spec.Calibrated calib i.targetKernels := by
  unfold costOf
  by_cases h : inputs.all (fun n => kwargs.contains n) = true
  · rw [if_pos h]
    have h' : ∀ n ∈ inputs, n ∈ kwargs := by simpa using h
    have := (runCost_spec (C := C) calib ⟨kwargs.map fun n => (n, .value), [], []⟩ prog rfl rfl).1
    cases hr : runCost (C := C) calib ⟨kwargs.map fun n => (n, .value), [], []⟩ prog with
    | error e =>
      rw [hr] at this
      constructor
      · rintro ⟨r, hr⟩; cases hr
      · rintro ⟨-, h⟩
        obtain ⟨st, hst⟩ := this.2 h
        cases hst
    | ok st =>
      rw [hr] at this
      exact ⟨fun _ => ⟨h', this.1 ⟨st, rfl⟩⟩, fun _ => ⟨_, rfl⟩⟩
  · rw [if_neg h]
    have h' : ¬ ∀ n ∈ inputs, n ∈ kwargs := by simpa using h
    constructor
    · rintro ⟨r, hr⟩; cases hr
    · rintro ⟨h, -⟩; exact absurd h h'

/-- **C69 fails for the result**: whatever the program, both dictionaries are empty, so no potential
has a modeled cost. -/
theorem C69_cost_empty_refuted {P C : Type} (calib : Calib P) (inputs kwargs : List String) (prog : List Stmt)
    (r : List (Insn × C) × List (Insn × C)) (h : costOf calib inputs kwargs prog = .ok r) :
    r = ([], []) ∧ ∀ i ∈ Spec.potentials prog, find r.1 i = none := by
  unfold costOf at h
  by_cases hi : inputs.all (fun n => kwargs.contains n) = true
  · rw [if_pos hi] at h
    have := (runCost_spec (C := C) calib ⟨kwargs.map fun n => (n, .value), [], []⟩ prog rfl rfl).2
    cases hr : runCost (C := C) calib ⟨kwargs.map fun n => (n, .value), [], []⟩ prog with
    | error e => rw [hr] at h; cases h
    | ok st =>
      rw [hr] at h
      obtain ⟨h1, h2⟩ := this st hr
      cases h
      refine ⟨by rw [h1, h2], fun i _ => ?_⟩
      simp only [h1]
      rfl
  · rw [if_neg hi] at h
    cases h

/-! ## Calibration -/

theorem record_find {M R : Type} (d : List (Finset Nat × List (M × R))) (k k' : Finset Nat) (m : M) (r : R) :
    find (record d k m r) k' = if k' = k then some (((find d k).getD []) ++ [(m, r)]) else find d k' := by
  unfold record find
  by_cases h : d.any (fun q => q.1 == k) = true
  · rw [if_pos h]
    induction d with
    | nil => simp at h
    | cons q d ih =>
      rw [List.map_cons, List.find?_cons, List.find?_cons, List.find?_cons]
      by_cases hq : q.1 = k
      · have hqb : (q.1 == k) = true := by simpa using hq
        by_cases hk : k' = k
        · subst hk
          simp [hq]
        · have hb : (q.1 == k') = false := by simpa [hq] using fun h => hk h.symm
          simp only [hqb, if_true, hb, if_neg hk]
          by_cases hd : d.any (fun q => q.1 == k) = true
          · have := ih hd
            rw [if_neg hk] at this
            exact this
          · have : d.map (fun q => if q.1 == k then (q.1, q.2 ++ [(m, r)]) else q) = d := by
              conv_rhs => rw [← List.map_id d]
              apply List.map_congr_left
              intro x hx
              have : ¬ (x.1 == k) = true := fun hxk => hd (List.any_eq_true.2 ⟨x, hx, hxk⟩)
              simp [this]
            rw [this]
      · have hqb : (q.1 == k) = false := by simpa using hq
        have hd : d.any (fun q => q.1 == k) = true := by
          simpa [List.any_cons, hqb] using h
        simp only [hqb, Bool.false_eq_true, if_false]
        by_cases hk' : q.1 = k'
        · have : k' ≠ k := fun h => hq (hk'.trans h)
          simp [hk', this]
        · have hb : (q.1 == k') = false := by simpa using hk'
          simp only [hb]
          exact ih hd
  · rw [if_neg h, List.find?_append]
    have hn : d.find? (fun q => q.1 == k) = none := by
      rw [List.find?_eq_none]
      intro x hx hxm
      exact h (List.any_eq_true.2 ⟨x, hx, hxm⟩)
    by_cases hk : k' = k
    · subst hk
      rw [hn]
      simp
    · have hb : (k == k') = false := by simpa using fun h => hk h.symm
      rw [if_neg hk]
      cases hf : d.find? (fun q => q.1 == k') with
      | none => simp [hb]
      | some x => simp

/-- lookup after extension: empty lists are absent entries -/
def ext {M R : Type} (d : Option (List (M × R))) (l : List (M × R)) : Option (List (M × R)) :=
  if l = [] then d else some (d.getD [] ++ l)

theorem recordCase_spec {M R : Type} (model : List (Insn × M)) (ts : List (Insn × R))
    (d : List (Finset Nat × List (M × R))) :
    ((∃ d', recordCase model d ts = .ok d') ↔ ∀ t ∈ ts, ∃ m, find model t.1 = some m) ∧
    (∀ e, recordCase model d ts = .error e → e = .assertion) ∧
    ∀ d', recordCase model d ts = .ok d' → ∀ k, find d' k = ext (find d k) (Spec.pairs [(model, ts)] k) := by
  induction ts generalizing d with
  | nil =>
    refine ⟨by simp [recordCase], (by intro e h; cases h), ?_⟩
    intro d' h k
    cases h
    simp [Spec.pairs, ext]
  | cons t ts ih =>
    obtain ⟨i, r⟩ := t
    rw [recordCase]
    cases hm : find model i with
    | none =>
      simp only
      refine ⟨?_, by intro e h; cases h; rfl, by intro d' h; cases h⟩
      constructor
      · rintro ⟨d', h⟩; cases h
      · intro h
        obtain ⟨m, h⟩ := h (i, r) (by simp)
        rw [hm] at h
        cases h
    | some m =>
      simp only
      obtain ⟨h1, h2, h3⟩ := ih (record d i.sourceKernels.toFinset m r)
      refine ⟨?_, h2, ?_⟩
      · rw [h1]
        constructor
        · intro h t ht
          rcases List.mem_cons.1 ht with rfl | ht
          · exact ⟨m, hm⟩
          · exact h t ht
        · intro h t ht
          exact h t (List.mem_cons_of_mem _ ht)
      · intro d' h k
        rw [h3 d' h k, record_find]
        simp only [Spec.pairs, List.flatMap_cons, List.flatMap_nil, List.append_nil, List.filterMap_cons]
        by_cases hk : i.sourceKernels.toFinset = k
        · subst hk
          simp only [if_true, hm, Option.map_some]
          unfold ext
          split
          · rename_i hnil
            simp [hnil]
          · simp
        · rw [if_neg (fun h => hk h.symm)]
          simp [hk]

theorem ext_append {M R : Type} (d : Option (List (M × R))) (a b : List (M × R)) :
    ext (ext d a) b = ext d (a ++ b) := by
  unfold ext
  by_cases ha : a = []
  · subst ha; simp
  · by_cases hb : b = []
    · subst hb; simp [ha]
    · simp [ha, hb]

theorem recordAll_spec {M R : Type} (cases : List (List (Insn × M) × List (Insn × R)))
    (d : List (Finset Nat × List (M × R))) :
    ((∃ d', recordAll d cases = .ok d') ↔ ∀ c ∈ cases, ∀ t ∈ c.2, ∃ m, find c.1 t.1 = some m) ∧
    (∀ e, recordAll d cases = .error e → e = .assertion) ∧
    ∀ d', recordAll d cases = .ok d' → ∀ k, find d' k = ext (find d k) (Spec.pairs cases k) := by
  induction cases generalizing d with
  | nil =>
    refine ⟨by simp [recordAll], (by intro e h; cases h), ?_⟩
    intro d' h k
    cases h
    simp [Spec.pairs, ext]
  | cons c cs ih =>
    obtain ⟨m, t⟩ := c
    obtain ⟨g1, g2, g3⟩ := recordCase_spec m t d
    rw [recordAll]
    cases hc : recordCase m d t with
    | error e =>
      simp only
      refine ⟨?_, by intro e' h; cases h; exact g2 e hc, by intro d' h; cases h⟩
      constructor
      · rintro ⟨d', h⟩; cases h
      · intro h
        rw [hc] at g1
        obtain ⟨d', h'⟩ := g1.2 (h (m, t) (by simp))
        cases h'
    | ok d1 =>
      simp only
      obtain ⟨h1, h2, h3⟩ := ih d1
      refine ⟨?_, h2, ?_⟩
      · rw [h1]
        constructor
        · intro h c hc'
          rcases List.mem_cons.1 hc' with rfl | hc'
          · exact g1.1 ⟨d1, hc⟩
          · exact h c hc'
        · intro h c hc'
          exact h c (List.mem_cons_of_mem _ hc')
      · intro d' h k
        rw [h3 d' h k, g3 d1 hc k, ext_append]
        congr 1
        simp [Spec.pairs]

theorem find_map {A B C : Type} [DecidableEq A] (d : List (A × B)) (f : B → C) (k : A) :
    find (d.map fun q => (q.1, f q.2)) k = (find d k).map f := by
  unfold find
  rw [List.find?_map]
  have : ((fun q : A × C => q.1 == k) ∘ fun q : A × B => (q.1, f q.2)) = fun q : A × B => q.1 == k := rfl
  rw [this]
  cases d.find? (fun q => q.1 == k) <;> rfl

/-- **C69, calibration.**  Calibration succeeds exactly if there are as many models as timings and
every timed instruction has a modeled cost in its case (`AssertionError` otherwise). It then fits,
for every set of source kernels timed, all pairs of modeled and measured costs for it, in order. -/
theorem C69_estimate {M R P : Type} (fit : List (M × R) → P) (models : List (List (Insn × M)))
    (timings : List (List (Insn × R))) :
    ((∃ r, estimate fit models timings = .ok r) ↔ models.length = timings.length ∧
      ∀ c ∈ models.zip timings, ∀ t ∈ c.2, ∃ m, find c.1 t.1 = some m) ∧
    (∀ e, estimate fit models timings = .error e → e = .assertion) ∧
    ∀ r, estimate fit models timings = .ok r → ∀ k, find r k
      = if Spec.pairs (models.zip timings) k = [] then none
        else some (fit (Spec.pairs (models.zip timings) k)) := by
  unfold estimate
  obtain ⟨h1, h2, h3⟩ := recordAll_spec (models.zip timings) []
  by_cases h : models.length = timings.length
  · rw [if_pos h]
    cases hr : recordAll [] (models.zip timings) with
    | error e =>
      rw [hr] at h1
      simp only
      refine ⟨?_, by intro e' h; cases h; exact h2 e hr, by intro d' h; cases h⟩
      constructor
      · rintro ⟨r, h⟩; cases h
      · rintro ⟨-, h⟩
        obtain ⟨d, hd⟩ := h1.2 h
        cases hd
    | ok d =>
      rw [hr] at h1
      simp only
      refine ⟨?_, (by intro e h; cases h), ?_⟩
      · exact ⟨fun _ => ⟨h, h1.1 ⟨d, rfl⟩⟩, fun _ => ⟨_, rfl⟩⟩
      · intro r hr' k
        cases hr'
        rw [find_map, h3 d hr k]
        unfold ext
        split <;> simp [find]
  · rw [if_neg h]
    refine ⟨?_, by intro e h; cases h; rfl, by intro d' h; cases h⟩
    constructor
    · rintro ⟨r, h⟩; cases h
    · rintro ⟨h', -⟩; exact absurd h' h

/-- **C69, use of the parameters.**  Parameters estimated from timings that include a potential with
the same source kernels apply to an instruction whose source and target kernels agree as sets.
Missing: other instructions (`C69_lookup_refuted`). -/
theorem C69_lookup_partial {M R P : Type} (fit : List (M × R) → P) (models : List (List (Insn × M)))
    (timings : List (List (Insn × R))) (r : List (Finset Nat × P)) (h : estimate fit models timings = .ok r)
    (i : Insn) (hi : i.sourceKernels.toFinset = i.targetKernels.toFinset)
    (ht : ∃ c ∈ models.zip timings, ∃ t ∈ c.2, t.1.sourceKernels.toFinset = i.sourceKernels.toFinset) :
    Spec.Calibrated (.dict (find r)) i.targetKernels := by
  intro d hd
  cases hd
  obtain ⟨h1, -, h3⟩ := C69_estimate fit models timings
  have hm := (h1.1 ⟨r, h⟩).2
  rw [h3 r h, ← hi, if_neg]
  · exact ⟨_, rfl⟩
  · obtain ⟨c, hc, t, htc, htk⟩ := ht
    obtain ⟨m, hm⟩ := hm c hc t htc
    intro hnil
    have : (m, t.2) ∈ Spec.pairs (models.zip timings) i.sourceKernels.toFinset := by
      unfold Spec.pairs
      rw [List.mem_flatMap]
      refine ⟨c, hc, ?_⟩
      rw [List.mem_filterMap]
      exact ⟨t, htc, by rw [if_pos htk, hm]; rfl⟩
    rw [hnil] at this
    cases this

/-- a double layer potential: source kernel 1 (the source derivative), target kernel 0 -/
def exD : Insn := ⟨7, [1], [0], ["x"], .qbx false false⟩

/-- a single layer potential -/
def exS : Insn := ⟨8, [0], [0], ["y"], .qbx false false⟩

/-- **C69 fails for the use of the parameters**: parameters calibrated with a double layer potential
do not apply to that same potential, because they are stored by source kernels and looked up by
target kernels. -/
theorem C69_lookup_refuted :
    ∃ r : List (Finset Nat × Nat), estimate (fun l => l.length) [[(exD, 3)]] [[(exD, 5)]] = .ok r ∧
      costOf (C := Nat) (.dict (find r)) [] [] [.potential exD] = .error .keyError := by
  refine ⟨_, rfl, ?_⟩
  decide

/-- **C69, calibration fails in practice**: modeled costs obtained from `cost_per_stage` cannot be
used for calibration, as soon as anything was timed. -/
theorem C69_calibration_refuted {M R P P' : Type} (fit : List (M × R) → P) (calib : Calib P')
    (inputs kwargs : List String) (prog : List Stmt) (r : List (Insn × M) × List (Insn × M))
    (h : costOf calib inputs kwargs prog = .ok r) (timing : List (Insn × R)) (ht : timing ≠ []) :
    estimate fit [r.1] [timing] = .error .assertion := by
  rw [(C69_cost_empty_refuted calib inputs kwargs prog r h).1]
  obtain ⟨h1, h2, -⟩ := C69_estimate fit [([] : List (Insn × M))] [timing]
  cases he : estimate fit [([] : List (Insn × M))] [timing] with
  | error e => rw [h2 e he]
  | ok p =>
    exfalso
    have := (h1.1 ⟨p, he⟩).2 ([], timing) (by simp)
    cases timing with
    | nil => exact ht rfl
    | cons t ts =>
      obtain ⟨m, hm⟩ := this t (by simp)
      cases hm

/-- the hypotheses can be met: a program with a result, a calibration with entries -/
example : costOf (P := Nat) (C := Nat) .constantOne ["sigma"] ["sigma"] [.assign "a", .potential exD, .potential exS]
    = .ok ([], []) := by decide

example : estimate (fun l => l) [[(exD, 3), (exS, 4)], [(exS, 6)]] [[(exS, 10)], [(exS, 12)]]
    = .ok [({0}, [(4, 10), (6, 12)])] := by decide

example : costOf (P := Nat) (C := Nat) .constantOne [] []
    [.potential ⟨0, [0], [0], ["x"], .qbx true false⟩] = .error .notImplemented := by decide

end Verif.CostBound
