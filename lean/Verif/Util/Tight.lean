import Verif.Linalg.GmresReasons
import Verif.QBX.CostBound
import Verif.QBX.Checks
import Verif.Exec.MatVec
import Verif.PDE.ScalarProps
import Verif.Collection.Construct

/-!
# Failures are reported, defaults and arguments are the documented ones

Statements that pin down what the theorems on successful runs leave open: which errors occur, which
default names are used, which arguments kernels need.
-/

namespace Verif.Gmres

variable {V K N : Type}

/-- C28 (failure by exception): if gmres raises with a state, then the reason given by the state
holds of the residual history; the operator was applied as often as that history says. -/
theorem C28_error_reasons (o : Ops V K N) (p : Params N) (b : V) (x0 : Option V) (hs : 0 ≤ p.stall)
    (hm : 0 < p.maxiter) (s : State) (hend : (gmres o p b x0).ending = .gmresError s) :
    let ns := (gmres o p b x0).callbacks.map o.norm
    (∀ l, l <+: ns → l ≠ ns → ¬ Blown o p l ∧ ¬ Stalled o p l) ∧
    (s = .nonMonotonic → Blown o p ns) ∧ (s = .stalled → Stalled o p ns) ∧
    (s = .maxIterations → ns.length = p.maxiter ∧ ¬ Blown o p ns ∧ ¬ Stalled o p ns) ∧
    (gmres o p b x0).applications + (if s = .maxIterations then 0 else 1) =
      ns.length + (ns.length - 1) / 10 + (if x0.isSome then 1 else 0) := by
  have h : (gmres o p b x0).ending.state = some s := by rw [hend]; rfl
  obtain ⟨_, h1, h2, h3, h4⟩ := C28_reasons o p b x0 hs s h
  obtain ⟨_, h5⟩ := C28_operator_count o p b x0 hs hm s h
  refine ⟨h1, h2, h3, h4, ?_⟩
  rw [List.length_map]; exact h5

end Verif.Gmres

namespace Verif.QTree

/-- the loop over the groups fails if some group has no nodes per element -/
theorem fillStarts_error (gs : List Grp) (h : ∃ g ∈ gs, g.nunit = 0) (el base : Nat) (x : List Nat)
    (hx : el + nelements gs < x.length) : fillStarts el base gs x = .error .zeroDivision := by
  induction gs generalizing el base x with
  | nil => obtain ⟨g, hg, _⟩ := h; cases hg
  | cons g gs ih =>
    rw [fillStarts]
    have hn : nelements (g :: gs) = g.nel + nelements gs := by simp [nelements]
    by_cases h0 : g.nunit = 0
    · simp [arange, h0]
    · rw [arange_group _ _ _ (Nat.pos_of_ne_zero h0)]
      have hl : (Verif.Offsets.slice x el (el + g.nel)).length = g.nel := by
        simp [Verif.Offsets.slice]; omega
      simp only [setSlice]
      rw [if_pos (by rw [hl]; simp)]
      simp only
      refine ih ?_ _ _ _ ?_
      · obtain ⟨g', hg', hz⟩ := h
        rcases List.mem_cons.1 hg' with rfl | hg'
        · exact absurd hz h0
        · exact ⟨g', hg', hz⟩
      · simp; omega

/-- C35: the first-source offsets exist exactly if every element has at least one node; otherwise
computing them raises `ZeroDivisionError`. -/
theorem C35_starts_iff (gs : List Grp) :
    ((∀ g ∈ gs, 0 < g.nunit) → ∃ s, sourceStarts gs (ndofs gs) = .ok s) ∧
    ((∃ g ∈ gs, g.nunit = 0) → ∀ n, sourceStarts gs n = .error .zeroDivision) := by
  refine ⟨fun h => ⟨_, sourceStarts_eq gs h⟩, fun h n => ?_⟩
  rw [sourceStarts, fillStarts_error gs h 0 0 _ (by simp)]

end Verif.QTree

namespace Verif.MatVec

theorem flattenLoop_error {α : Type} (xs : List (List α)) (sizes : List Nat) (pre suf : List α)
    (hs : suf.length = sizes.sum) (hne : xs.map List.length ≠ sizes) :
    flattenLoop xs (startsAndEnds pre.length sizes).1 (pre ++ suf) = .error .value := by
  induction xs generalizing pre suf sizes with
  | nil =>
    cases sizes with
    | nil => simp at hne
    | cons n sizes => simp [startsAndEnds, flattenLoop]
  | cons x xs ih =>
    cases sizes with
    | nil => simp [startsAndEnds, flattenLoop]
    | cons n sizes =>
      simp only [startsAndEnds, flattenLoop, assign]
      by_cases hx : n = x.length
      · subst hx
        rw [if_pos (by omega)]
        simp only [List.sum_cons] at hs
        dsimp only
        have hd : (pre ++ suf).drop (pre.length + x.length) = suf.drop x.length := by
          rw [List.drop_append]; simp
        rw [List.take_left' rfl, hd]
        have := ih sizes (pre ++ x) (suf.drop x.length) (by simp; omega)
          (fun h => hne (by simp [h]))
        rw [List.length_append] at this
        exact this
      · rw [if_neg (by omega)]

/-- C22 (rejection): flattening accepts a value exactly if it has one flat component per domain,
each of the size of that domain; anything else raises `ValueError` rather than being truncated,
padded or shifted. -/
theorem C22_flatten_iff {α : Type} (f : Val α → Except Err (Val α)) (discrs : List Discr) (zero : α) (v : Val α) :
    (((scipyOp f discrs).components v).map List.length = discrs.map ndofs →
      (scipyOp f discrs).flatten zero v = .ok ((scipyOp f discrs).components v).flatten) ∧
    (((scipyOp f discrs).components v).map List.length ≠ discrs.map ndofs →
      (scipyOp f discrs).flatten zero v = .error .value) := by
  obtain ⟨s1, _, _⟩ := startsAndEnds_spec (discrs.map ndofs) 0
  constructor
  · intro h
    have := flattenLoop_spec ((scipyOp f discrs).components v) [] (List.replicate (discrs.map ndofs).sum zero)
      (by rw [h]; simp)
    rw [h] at this
    simp only [List.length_nil, List.nil_append] at this
    simp only [Op.flatten, scipyOp, s1, Nat.zero_add] at this ⊢
    exact this
  · intro h
    have := flattenLoop_error ((scipyOp f discrs).components v) (discrs.map ndofs) []
      (List.replicate (discrs.map ndofs).sum zero) (by simp) h
    simp only [List.length_nil, List.nil_append] at this
    simp only [Op.flatten, scipyOp, s1, Nat.zero_add] at this ⊢
    exact this

/-- C22 (roundtrip, exactly): a value survives flattening and unflattening if and only if it fits the operator, that
is, it is a bare component of the right shape for one domain and an object array with a component of the right shape
for each of several domains. -/
theorem C22_roundtrip_iff {α : Type} (f : Val α → Except Err (Val α)) (discrs : List Discr) (hne : discrs ≠ [])
    (zero : α) (x : Val α) :
    (∃ v, (scipyOp f discrs).flatten zero x = .ok v ∧ (scipyOp f discrs).unflatten v = .ok x) ↔ Fits discrs x := by
  constructor
  · rintro ⟨v, h1, h2⟩
    obtain ⟨g1, g2⟩ := C22_flatten_iff f discrs zero x
    by_cases hl : ((scipyOp f discrs).components x).map List.length = discrs.map ndofs
    · rw [g1 hl] at h1
      cases h1
      have hv : (((scipyOp f discrs).components x).flatten).length = (scipyOp f discrs).totalDofs := by
        rw [List.length_flatten, hl, (C22_ranges f discrs).2.2.2.2.2]
      obtain ⟨y, hy, hu, _⟩ := C22_flat_roundtrip f discrs hne zero _ hv
      rw [h2] at hu
      cases hu
      exact hy
    · rw [g2 hl] at h1
      cases h1
  · intro h
    obtain ⟨h1, _, h2⟩ := C22_roundtrip_partial f discrs zero x h
    exact ⟨_, h1, h2⟩

/-- three values for a domain with two degrees of freedom are refused -/
example : (scipyOp (α := Int) (fun v => .ok v) [[(1, 2)]]).flatten 0 (.one [[[1, 2, 3]]]) = .error .value := by
  decide

end Verif.MatVec

namespace Verif.CostBound

/-- C69 (refusals): modeling the cost of a potential fails with `NotImplementedError` for direct QBX
evaluation and point sources, and with `AttributeError` for sources without a cost model. -/
theorem C69_cost_errors (src : Source) :
    (dispatchCost src = .error .notImplemented ↔ (∃ w, src = .qbx true w) ∨ src = .point) ∧
    (dispatchCost src = .error .attributeError ↔ src = .unregularized ∨ src = .other) ∧
    (∀ c w, dispatchCost src = .ok (c, w) ↔ src = .qbx false w ∧ c = .zeroFmm) := by
  cases src with
  | qbx d n => cases d <;> cases n <;> simp [dispatchCost, eq_comm]
  | point => simp [dispatchCost]
  | unregularized => simp [dispatchCost]
  | other => simp [dispatchCost]

end Verif.CostBound

namespace Verif.Coll

/-- C18 (defaults): the default source and target of a collection are the ones requested; without a
request they are the unnamed source and target, with one name that name stands for both; a QBX
source given on its own is its own default target. -/
theorem C18_defaults (valid : String → Bool) (a : PlacesArg) (w : AutoArg) (b : Built)
    (h : construct valid a w = .ok b) :
    ((∃ g, a = .single g ∧ g.kind = .qbx) → b.autoTarget = b.autoSource) ∧
    (w = .none → b.autoSource = .unnamedSource ∧
      ((∀ g, a = .single g → g.kind ≠ .qbx) → b.autoTarget = .unnamedTarget)) ∧
    (∀ n, w = .one n → b.autoSource = n ∧ b.autoTarget = n) ∧
    (∀ s t, w = .two s t → b.autoSource = s ∧ ((∀ g, a = .single g → g.kind ≠ .qbx) → b.autoTarget = t)) := by
  have hv : ∀ m s t, validate valid m s t = .ok b → b.autoSource = s ∧ b.autoTarget = t := by
    intro m s t hv
    by_cases hw : WellFormed valid m s t
    · rw [(validate_ok valid m s t).1 hw] at hv
      cases hv; exact ⟨rfl, rfl⟩
    · obtain ⟨x, hx⟩ := (validate_ok valid m s t).2 hw
      rw [hx] at hv; cases hv
  unfold construct at h
  cases hm : makeDict a (prepareAutoWhere w).1 (prepareAutoWhere w).2 with
  | error x => rw [hm] at h; cases h
  | ok r =>
    obtain ⟨m, s, t⟩ := r
    rw [hm] at h
    obtain ⟨hs, ht⟩ := hv m s t h
    obtain ⟨_, h1, _⟩ := makeDict_meaning _ _ _ _ _ _ hm
    have hq : (∃ g, a = .single g ∧ g.kind = .qbx) → t = s := by
      rintro ⟨g, rfl, hg⟩
      simp only [makeDict, hg, Except.ok.injEq, Prod.mk.injEq] at hm
      rw [← hm.2.1, ← hm.2.2]
    have hnq : (∀ g, a = .single g → g.kind ≠ .qbx) → t = (prepareAutoWhere w).2 := by
      intro hg
      cases a with
      | single g =>
        have := hg g rfl
        simp only [makeDict] at hm
        split at hm
        all_goals first
          | (cases hm; done)
          | (simp only [Except.ok.injEq, Prod.mk.injEq] at hm
             first
               | exact hm.2.2.symm
               | (rename_i hk; exact absurd hk this))
      | pair _ _ =>
        simp only [makeDict, Except.ok.injEq, Prod.mk.injEq] at hm
        exact hm.2.2.symm
      | mapping _ =>
        simp only [makeDict, Except.ok.injEq, Prod.mk.injEq] at hm
        exact hm.2.2.symm
    refine ⟨fun h' => by rw [hs, ht]; exact hq h', ?_, ?_, ?_⟩
    · rintro rfl
      exact ⟨by rw [hs, h1]; rfl, fun hg => by rw [ht, hnq hg]; rfl⟩
    · rintro n rfl
      refine ⟨by rw [hs, h1]; rfl, ?_⟩
      by_cases hg : ∃ g, a = .single g ∧ g.kind = .qbx
      · rw [ht, hq hg, h1]; rfl
      · rw [ht, hnq (fun g hg' hk => hg ⟨g, hg', hk⟩)]; rfl
    · rintro s' t' rfl
      exact ⟨by rw [hs, h1]; rfl, fun hg => by rw [ht, hnq hg]; rfl⟩

end Verif.Coll

namespace Verif.PDE

variable {K A : Type}

/-- C60 (kernel arguments): a single layer potential is built exactly if precisely the arguments of
its kernel are supplied: none for Laplace and biharmonic, `k` for Helmholtz, `lam` for Yukawa. -/
theorem C60_kernel_arguments (dim : Nat) (args : Args A) (lim : Limit) (src tgt : DD) (d : Expr K A) :
    ((∃ e, symS ⟨.laplace, dim, []⟩ args lim src tgt d = .ok e) ↔ ∀ q ∈ args, False) ∧
    ((∃ e, symS ⟨.biharmonic, dim, []⟩ args lim src tgt d = .ok e) ↔ ∀ q ∈ args, False) ∧
    ((∃ e, symS ⟨.helmholtz, dim, []⟩ args lim src tgt d = .ok e) ↔
      (∃ q ∈ args, q.1 = "k") ∧ ∀ q ∈ args, q.1 = "k") ∧
    ((∃ e, symS ⟨.yukawa, dim, []⟩ args lim src tgt d = .ok e) ↔
      (∃ q ∈ args, q.1 = "lam") ∧ ∀ q ∈ args, q.1 = "lam") := by
  have key : ∀ (b : KBase), (∃ e, symS ⟨b, dim, []⟩ args lim src tgt d = .ok e) ↔
      (∀ n ∈ b.argNames, (args.get n).isSome) ∧ ∀ q ∈ args, q.1 ∈ b.argNames := by
    intro b
    simp only [symS, mkIntG, Kernel.argNames, List.append_nil]
    by_cases h1 : b.argNames.all fun n => (args.get n).isSome
    · by_cases h2 : args.all fun q => b.argNames.contains q.1
      · rw [if_neg (not_not.mpr h1), if_neg (not_not.mpr h2)]
        simp only [List.all_eq_true, List.contains_iff_mem] at h1 h2
        exact ⟨fun _ => ⟨h1, h2⟩, fun _ => ⟨_, rfl⟩⟩
      · rw [if_neg (not_not.mpr h1), if_pos h2]
        simp only [List.all_eq_true, List.contains_iff_mem] at h2
        exact ⟨(fun ⟨_, h⟩ => by cases h), fun h => absurd h.2 h2⟩
    · rw [if_pos h1]
      simp only [List.all_eq_true] at h1
      exact ⟨(fun ⟨_, h⟩ => by cases h), fun h => absurd h.1 h1⟩
  have hget : ∀ n, (args.get n).isSome = true ↔ ∃ q ∈ args, q.1 = n := by
    intro n
    refine (lookup_isSome_iff args n).trans ⟨fun ⟨v, hv⟩ => ⟨_, hv, rfl⟩, ?_⟩
    rintro ⟨⟨a, v⟩, hq, rfl⟩
    exact ⟨v, hq⟩
  refine ⟨?_, ?_, ?_, ?_⟩
  · rw [key]; simp [KBase.argNames]
  · rw [key]; simp [KBase.argNames]
  · rw [key]; simp [KBase.argNames, hget]
  · rw [key]; simp [KBase.argNames, hget]

/-- C78 (derivative of layer potentials): `Sp` and `Dp` keep source, target, kernel, limit and density
of the single and double layer potential, and differentiate along the normal of the *target*; the
double layer uses the normal of the *source* as direction. -/
theorem C78_normal_derivatives (k : Kernel) (args : Args A) (lim : Limit) (src tgt : DD) (d e : Expr K A) :
    (symSp k args lim src tgt d = .ok e → e = .pot ⟨k, args, src, tgt, some tgt⟩ lim d) ∧
    (symDp k args lim src tgt d = .ok e →
      e = .pot ⟨{ k with sderivs := k.sderivs ++ ["dsource_vec"] }, args.merge [("dsource_vec", .normal src)],
        src, tgt, some tgt⟩ lim d) := by
  have hI : ∀ (p : Pot A) (x : Expr K A), mkIntG p lim d = .ok x → x = .pot p lim d := by
    intro p x h
    unfold mkIntG at h
    split at h
    · cases h
    · split at h
      · cases h
      · cases h; rfl
  constructor
  · intro h
    cases hs : symS k args lim src tgt d with
    | error x => simp only [symSp, hs, bind, Except.bind] at h; cases h
    | ok x =>
      simp only [symSp, hs, bind, Except.bind] at h
      rw [hI _ x hs] at h
      simp only [normalDerivative, Except.ok.injEq] at h
      exact h.symm
  · intro h
    cases hs : symD k args lim src tgt d with
    | error x => simp only [symDp, hs, bind, Except.bind] at h; cases h
    | ok x =>
      simp only [symDp, hs, bind, Except.bind] at h
      rw [hI _ x hs] at h
      simp only [normalDerivative, Except.ok.injEq] at h
      exact h.symm

end Verif.PDE
