import Verif.PDE.Scalar

/-!
# C60: the Dirichlet and Neumann operators are the boundary traces of their representations
-/

namespace Verif.PDE

variable {K A N : Type} [Field K] [DecidableEq K]

/-! ## Specification -/

/-- exactly the arguments of the base kernel are supplied -/
def ArgsOK (base : KBase) (args : Args A) : Prop :=
  (∀ n ∈ base.argNames, ∃ v, (n, v) ∈ args) ∧ (∀ p ∈ args, p.1 ∈ base.argNames)

/-- the square root of the weight at a node, 1 when there is no weighting -/
def wt (I : Interp K A N) (o : ScalarOp K A) (dd : DD) (n : N) : K :=
  if o.weighted then I.sqrtW dd n else 1

/-! ## Constructors -/

theorem merge_nil (a : Args A) : Args.merge a [] = a := by
  simp [Args.merge]

theorem lookup_isSome_iff (a : Args A) (n : String) :
    (a.lookup n).isSome = true ↔ ∃ v, (n, v) ∈ a := by
  induction a with
  | nil => simp
  | cons p t ih =>
    obtain ⟨k, v⟩ := p
    rw [List.lookup_cons]
    by_cases h : n = k
    · subst h
      simp
    · have hb : (n == k) = false := by simpa using h
      rw [hb]
      simp only [Bool.false_eq_true, if_false, List.mem_cons, Prod.mk.injEq]
      rw [ih]
      constructor
      · rintro ⟨v', h'⟩
        exact ⟨v', Or.inr h'⟩
      · rintro ⟨v', h' | h'⟩
        · exact absurd h'.1 h
        · exact ⟨v', h'⟩

/-- when the arguments of a kernel are accepted -/
theorem mkIntG_ok_iff (p : Pot A) (lim : Limit) (d e : Expr K A) :
    mkIntG p lim d = .ok e ↔
      ((∀ n ∈ p.kernel.argNames, ∃ v, (n, v) ∈ p.args)
        ∧ (∀ q ∈ p.args, q.1 ∈ p.kernel.argNames)) ∧ e = .pot p lim d := by
  unfold mkIntG
  have h1 : (p.kernel.argNames.all (fun n => (p.args.get n).isSome)) = true ↔
      ∀ n ∈ p.kernel.argNames, ∃ v, (n, v) ∈ p.args := by
    rw [List.all_eq_true]
    constructor
    · intro h n hn
      exact (lookup_isSome_iff _ _).1 (h n hn)
    · intro h n hn
      exact (lookup_isSome_iff _ _).2 (h n hn)
  have h2 : (p.args.all (fun q => p.kernel.argNames.contains q.1)) = true ↔
      ∀ q ∈ p.args, q.1 ∈ p.kernel.argNames := by
    rw [List.all_eq_true]
    simp [List.contains_iff_mem]
  by_cases a : (p.kernel.argNames.all (fun n => (p.args.get n).isSome)) = true
  · rw [if_neg (not_not.2 a)]
    by_cases b : (p.args.all (fun q => p.kernel.argNames.contains q.1)) = true
    · rw [if_neg (not_not.2 b)]
      constructor
      · intro h
        exact ⟨⟨h1.1 a, h2.1 b⟩, (Except.ok.inj h).symm⟩
      · rintro ⟨_, rfl⟩
        rfl
    · rw [if_pos b]
      constructor
      · intro h; cases h
      · rintro ⟨⟨_, h⟩, _⟩
        exact absurd (h2.2 h) b
  · rw [if_pos a]
    constructor
    · intro h; cases h
    · rintro ⟨⟨h, _⟩, _⟩
      exact absurd (h1.2 h) a

theorem symS_ok_iff (k : KBase) (dim : Nat) (args : Args A) (lim : Limit) (s t : DD)
    (d e : Expr K A) :
    symS ⟨k, dim, []⟩ args lim s t d = .ok e ↔
      ArgsOK k args ∧ e = .pot ⟨⟨k, dim, []⟩, args, s, t, none⟩ lim d := by
  unfold symS
  rw [mkIntG_ok_iff]
  simp [Kernel.argNames, ArgsOK]

/-- the argument dictionary `sym.D` builds -/
theorem merge_dsource (args : Args A) (dd : DD) :
    Args.merge args [("dsource_vec", Arg.normal dd)]
      = ("dsource_vec", .normal dd) :: args.filter (fun p => p.1 != "dsource_vec") := by
  unfold Args.merge
  simp only [List.cons_append, List.nil_append]
  congr 1
  apply List.filter_congr
  rintro ⟨k, v⟩ _
  by_cases h : k = "dsource_vec"
  · simp [h, List.lookup]
  · have hb : (k == "dsource_vec") = false := by simpa using h
    simp only [List.lookup_cons, hb, List.lookup_nil]
    simp [h]

theorem symD_ok (k : KBase) (dim : Nat) (args : Args A) (lim : Limit) (s t : DD)
    (d : Expr K A) (h : ArgsOK k args) :
    symD ⟨k, dim, []⟩ args lim s t d
      = .ok (.pot ⟨⟨k, dim, ["dsource_vec"]⟩,
          ("dsource_vec", .normal s) :: args.filter (fun p => p.1 != "dsource_vec"),
          s, t, none⟩ lim d) := by
  unfold symD
  rw [mkIntG_ok_iff, merge_dsource]
  refine ⟨⟨?_, ?_⟩, ?_⟩
  · intro n hn
    simp only [insertSourceDerivative, Kernel.argNames, List.nil_append, List.mem_append,
      List.mem_singleton] at hn
    by_cases hd : n = "dsource_vec"
    · subst hd
      exact ⟨_, List.mem_cons_self ..⟩
    · obtain hn | hn := hn
      · obtain ⟨v, hv⟩ := h.1 n hn
        refine ⟨v, List.mem_cons_of_mem _ ?_⟩
        rw [List.mem_filter]
        exact ⟨hv, by simpa using hd⟩
      · exact absurd hn hd
  · intro q hq
    simp only [insertSourceDerivative, Kernel.argNames, List.nil_append, List.mem_append,
      List.mem_singleton]
    rw [List.mem_cons] at hq
    obtain rfl | hq := hq
    · exact Or.inr rfl
    · rw [List.mem_filter] at hq
      exact Or.inl (h.2 q hq.1)
  · simp [insertSourceDerivative]

theorem laplace_argsOK : ArgsOK (A := A) .laplace [] := by
  constructor
  · intro n hn
    simp [KBase.argNames] at hn
  · intro p hp
    cases hp

/-- the potential `sym.S` builds on the surface itself -/
theorem symS_self (k : KBase) (dim : Nat) (args : Args A) (lim : Limit) (dd : DD)
    (d : Expr K A) (h : ArgsOK k args) :
    symS ⟨k, dim, []⟩ args lim dd dd d
      = .ok (.pot (slp ⟨k, dim, []⟩ args dd false) lim d) := by
  rw [symS_ok_iff]
  exact ⟨h, by simp [slp]⟩

theorem symD_self (k : KBase) (dim : Nat) (args : Args A) (lim : Limit) (dd : DD)
    (d : Expr K A) (h : ArgsOK k args) :
    symD ⟨k, dim, []⟩ args lim dd dd d
      = .ok (.pot (dlp ⟨k, dim, []⟩ args dd false) lim d) := by
  rw [symD_ok _ _ _ _ _ _ _ h]
  simp [dlp]

theorem nd_slp (k : Kernel) (args : Args A) (dd : DD) (lim : Limit) (d : Expr K A) :
    normalDerivative dd (.pot (slp k args dd false) lim d)
      = .ok (.pot (slp k args dd true) lim d) := rfl

theorem nd_dlp (k : Kernel) (args : Args A) (dd : DD) (lim : Limit) (d : Expr K A) :
    normalDerivative dd (.pot (dlp k args dd false) lim d)
      = .ok (.pot (dlp k args dd true) lim d) := rfl

theorem symSp_self (k : KBase) (dim : Nat) (args : Args A) (lim : Limit) (dd : DD)
    (d : Expr K A) (h : ArgsOK k args) :
    symSp ⟨k, dim, []⟩ args lim dd dd d
      = .ok (.pot (slp ⟨k, dim, []⟩ args dd true) lim d) := by
  unfold symSp
  rw [symS_self _ _ _ _ _ _ h]
  rfl

theorem symDp_self (k : KBase) (dim : Nat) (args : Args A) (lim : Limit) (dd : DD)
    (d : Expr K A) (h : ArgsOK k args) :
    symDp ⟨k, dim, []⟩ args lim dd dd d
      = .ok (.pot (dlp ⟨k, dim, []⟩ args dd true) lim d) := by
  unfold symDp
  rw [symD_self _ _ _ _ _ _ h]
  rfl

/-! ## One-sided limits in terms of averages -/

theorem side_sl (h2 : (2 : K) ≠ 0) {I : Interp K A N} {k : Kernel} {dd : DD}
    (J : Jumps I k dd) (args : Args A) (s : Side) (f : N → K) (n : N) :
    I.bdry (slp k args dd false) s f n = I.bdry (slp k args dd false) .plus f n := by
  cases s
  · exact (J.sl args f n).symm
  · rfl

theorem side_dlp {I : Interp K A N} {k : Kernel} {dd : DD}
    (J : Jumps I k dd) (args : Args A) (s : Side) (f : N → K) (n : N) :
    I.bdry (dlp k args dd true) s f n = I.bdry (dlp k args dd true) .plus f n := by
  cases s
  · exact (J.dlp args f n).symm
  · rfl

theorem side_dl (h2 : (2 : K) ≠ 0) {I : Interp K A N} {k : Kernel} {dd : DD}
    (J : Jumps I k dd) (args : Args A) (s : Side) (f : N → K) (n : N) :
    I.bdry (dlp k args dd false) s f n
      = I.pot (dlp k args dd false) .avg f n + s.sgn * f n / 2 := by
  have h := J.dl args f n
  cases s
  · simp only [Interp.pot, Side.sgn]
    field_simp
    linear_combination (-1 : K) * h
  · simp only [Interp.pot, Side.sgn]
    field_simp
    linear_combination h

theorem side_slp (h2 : (2 : K) ≠ 0) {I : Interp K A N} {k : Kernel} {dd : DD}
    (J : Jumps I k dd) (args : Args A) (s : Side) (f : N → K) (n : N) :
    I.bdry (slp k args dd true) s f n
      = I.pot (slp k args dd true) .avg f n - s.sgn * f n / 2 := by
  have h := J.slp args f n
  cases s
  · simp only [Interp.pot, Side.sgn]
    field_simp
    linear_combination (-1 : K) * h
  · simp only [Interp.pot, Side.sgn]
    field_simp
    linear_combination h

theorem eval_weight (I : Interp K A N) (o : ScalarOp K A) (dd : DD) (n : N) :
    I.eval (o.sqrtWeight dd) n = wt I o dd n := by
  unfold ScalarOp.sqrtWeight wt
  cases o.weighted <;> simp [Interp.eval]

theorem eval_ones (I : Interp K A N) (b : Bool) (dd : DD) (e : Expr K A) (n : N) :
    I.eval (onesContribution b dd e) n = if b then I.mean dd (I.eval e) else 0 := by
  cases b <;> simp [onesContribution, Interp.eval]

theorem eval_inv (I : Interp K A N) (o : ScalarOp K A) (dd : DD) (u : Expr K A) :
    I.eval (o.invSqrtW dd u) = fun n => I.eval u n / wt I o dd n := by
  funext n
  simp [ScalarOp.invSqrtW, Interp.eval, eval_weight]

/-! ## Dirichlet -/

/-- the expression `DirichletOperator.operator` returns -/
theorem dirOp_eq (o : ScalarOp K A) (u : Expr K A) (dd : DD) (kw : Args A)
    (h : ArgsOK o.base o.kargs) :
    o.dirOp u dd kw = .ok (.add (.mul (.num o.half) u)
      (.mul (o.sqrtWeight dd) (.add
        (((Expr.pot (slp o.kernel o.kargs dd false) (.side .plus) (o.invSqrtW dd u)).scale
          o.alpha).sub (.pot (dlp o.kernel o.kargs dd false) .avg (o.invSqrtW dd u)))
        (onesContribution o.dirUnique dd (o.invSqrtW dd u))))) := by
  unfold ScalarOp.dirOp
  simp only [ScalarOp.kernel]
  rw [symS_self _ _ _ _ _ _ h, symD_self _ _ _ _ _ _ h]
  rfl

theorem dirRepr_eq (o : ScalarOp K A) (u : Expr K A) (lim : Limit) (dd : DD)
    (h : ArgsOK o.base o.kargs) :
    o.dirRepr u .ok lim dd dd [] = .ok
      (((Expr.pot (slp o.kernel o.kargs dd false) lim (o.invSqrtW dd u)).scale
          o.alpha).sub (.pot (dlp o.kernel o.kargs dd false) lim (o.invSqrtW dd u))) := by
  unfold ScalarOp.dirRepr
  simp only [ScalarOp.kernel, merge_nil]
  rw [symS_self _ _ _ _ _ _ h, symD_self _ _ _ _ _ _ h]
  rfl

/-- **C60, Dirichlet.**  With the kernel arguments given to the constructor, both
`operator(u)` and `representation(u)` are built, and the value of the operator is the
square root of the weight times the boundary value of the represented field on the side
the problem is posed on — plus the mean of the density for the exterior Laplace problem,
which is unique only up to a constant. -/
theorem C60_dirichlet_partial (h2 : (2 : K) ≠ 0) (I : Interp K A N) (o : ScalarOp K A)
    (dd : DD) (u : Expr K A) (J : Jumps I ⟨o.base, o.dim, []⟩ dd)
    (hw : ∀ n, wt I o dd n ≠ 0) (ha : ArgsOK o.base o.kargs) :
    ∃ e r, o.dirOp u dd [] = .ok e
      ∧ o.dirRepr u .ok (.side o.locSign) dd dd [] = .ok r
      ∧ ∀ n, I.eval e n = wt I o dd n * (I.eval r n
          + if o.base = .laplace ∧ o.locSign = .plus
            then I.mean dd (fun m => I.eval u m / wt I o dd m) else 0) := by
  refine ⟨_, _, dirOp_eq o u dd [] ha, dirRepr_eq o u _ dd ha, ?_⟩
  intro n
  simp only [Interp.eval, eval_sub, eval_scale, eval_weight, eval_ones, eval_inv]
  have hs := side_sl h2 J o.kargs o.locSign (fun n => I.eval u n / wt I o dd n) n
  have hd := side_dl h2 J o.kargs o.locSign (fun n => I.eval u n / wt I o dd n) n
  have hb : (if o.dirUnique = true then
        I.mean dd (fun m => I.eval u m / wt I o dd m) else 0)
      = (if o.base = .laplace ∧ o.locSign = .plus
        then I.mean dd (fun m => I.eval u m / wt I o dd m) else 0) := by
    simp [ScalarOp.dirUnique]
  rw [hb]
  simp only [Interp.pot, ScalarOp.kernel] at hs hd ⊢
  rw [hs, hd]
  have hwn := hw n
  unfold ScalarOp.half
  generalize (if o.base = .laplace ∧ o.locSign = .plus
        then I.mean dd (fun m => I.eval u m / wt I o dd m) else 0) = c
  field_simp
  ring

/-- **C60.**  A density that solves the integral equation yields a field with the
prescribed Dirichlet data (when no constant has to be fixed). -/
theorem C60_dirichlet_solution_partial (h2 : (2 : K) ≠ 0) (I : Interp K A N)
    (o : ScalarOp K A) (u b e r : Expr K A) (J : Jumps I ⟨o.base, o.dim, []⟩ none)
    (hw : ∀ n, wt I o none n ≠ 0) (ha : ArgsOK o.base o.kargs)
    (hu : ¬ (o.base = .laplace ∧ o.locSign = .plus))
    (he : o.dirOp u none [] = .ok e)
    (hr : o.dirRepr u .ok (.side o.locSign) none none [] = .ok r)
    (hsol : ∀ n, I.eval e n = I.eval (o.prepareRhs b) n) :
    ∀ n, I.eval r n = I.eval b n := by
  obtain ⟨e', r', he', hr', hv⟩ := C60_dirichlet_partial h2 I o none u J hw ha
  rw [he] at he'
  rw [hr] at hr'
  cases he'
  cases hr'
  intro n
  have h := hv n
  rw [if_neg hu, hsol n] at h
  simp only [ScalarOp.prepareRhs, Interp.eval, eval_weight, add_zero] at h
  exact (mul_left_cancel₀ (hw n) h).symm

/-! ## Neumann -/

theorem neuRepr_eq (o : ScalarOp K A) (u : Expr K A) (lim : Limit) (dd : DD)
    (h : ArgsOK o.base o.kargs) :
    o.neuRepr u (normalDerivative dd) lim dd dd [] = .ok
      ((Expr.pot (slp o.kernel o.kargs dd true) lim (o.invSqrtW dd u)).sub
        ((Expr.pot (dlp o.kernel o.kargs dd true) lim
          (.pot (slp (laplaceKernel o.dim) [] dd false) (.side .plus)
            (o.invSqrtW dd u))).scale o.alpha)) := by
  unfold ScalarOp.neuRepr
  simp only [ScalarOp.kernel, merge_nil, laplaceKernel]
  rw [symS_self _ _ _ _ _ _ laplace_argsOK]
  simp only [bind, Except.bind]
  rw [symS_self _ _ _ _ _ _ h]
  simp only
  rw [symD_self _ _ _ _ _ _ h]
  rfl

/-- the value of `D' S₀` in `operator` -/
theorem dps0_eval (h2 : (2 : K) ≠ 0) (I : Interp K A N) (o : ScalarOp K A) (dd : DD)
    (u x : Expr K A) (C : Calderon I o.dim dd)
    (ha : ArgsOK o.base o.kargs) (hi : o.improved = false ∨ o.weighted = false)
    (hx : o.dpS0 u dd o.kargs (o.invSqrtW dd u)
        (.pot (slp (laplaceKernel o.dim) [] dd false) (.side .plus) (o.invSqrtW dd u))
      = .ok x) (n : N) :
    I.eval x n = I.bdry (dlp o.kernel o.kargs dd true) .plus
      (I.bdry (slp (laplaceKernel o.dim) [] dd false) .plus
        (fun m => I.eval u m / wt I o dd m)) n := by
  have h4 : (4 : K) ≠ 0 := by
    have : (4 : K) = 2 * 2 := by norm_num
    rw [this]
    exact mul_ne_zero h2 h2
  unfold ScalarOp.dpS0 at hx
  by_cases him : o.improved = true
  · rw [if_pos him] at hx
    have hwt : o.weighted = false := by
      rcases hi with hi | hi
      · rw [him] at hi; cases hi
      · exact hi
    have hw1 : ∀ m, wt I o dd m = 1 := by intro m; simp [wt, hwt]
    have hinv : I.eval (o.invSqrtW dd u) = I.eval u := by
      rw [eval_inv]
      funext m
      rw [hw1, div_one]
    have hc := C (I.eval u) n
    unfold ScalarOp.improvedDpS0 at hx
    simp only [laplaceKernel, ScalarOp.kernel] at hx hc ⊢
    rw [symSp_self _ _ _ _ _ _ laplace_argsOK] at hx
    simp only [bind, Except.bind] at hx
    rw [symSp_self _ _ _ _ _ _ laplace_argsOK] at hx
    have hfun : (fun m => I.eval u m / wt I o dd m) = I.eval u := by
      funext m
      rw [hw1, div_one]
    rw [hfun]
    rcases hb : o.base with _ | _ | _ | _ | ⟨nm, ar⟩ <;> rw [hb] at hx ha <;>
      simp only at hx
    · cases hx
      have hk : o.kargs = [] := by
        rcases hk : o.kargs with _ | ⟨p, t⟩
        · rfl
        · have := ha.2 p (by rw [hk]; exact List.mem_cons_self ..)
          simp [KBase.argNames] at this
      rw [hk, hc]
      simp only [Interp.eval, hinv]
      ring
    · rw [symDp_self _ _ _ _ _ _ ha] at hx
      simp only at hx
      rw [symDp_self _ _ _ _ _ _ laplace_argsOK] at hx
      cases hx
      simp only [Interp.eval, eval_sub, hinv]
      simp only [Interp.pot] at hc ⊢
      rw [hc]
      ring
    all_goals cases hx
  · rw [if_neg him] at hx
    simp only [ScalarOp.kernel] at hx ⊢
    rw [symDp_self _ _ _ _ _ _ ha] at hx
    cases hx
    simp only [Interp.eval, eval_inv, Interp.pot]

/-- **C60, Neumann.**  With the kernel arguments given to the constructor, the value of
`operator(u)` is the square root of the weight times the boundary value, on the side of
the problem, of the normal derivative of the represented field — plus the mean of the
density for the interior Laplace problem — provided the "improved" operator is not
combined with weighting and a nonzero `alpha`. -/
theorem C60_neumann_partial (h2 : (2 : K) ≠ 0) (I : Interp K A N) (o : ScalarOp K A)
    (dd : DD) (u e : Expr K A) (J : Jumps I ⟨o.base, o.dim, []⟩ dd)
    (C : Calderon I o.dim dd)
    (hw : ∀ n, wt I o dd n ≠ 0) (ha : ArgsOK o.base o.kargs)
    (hi : o.improved = false ∨ o.weighted = false ∨ o.alpha = 0)
    (he : o.neuOp u dd [] = .ok e) :
    ∃ r, o.neuRepr u (normalDerivative dd) (.side o.locSign) dd dd [] = .ok r
      ∧ ∀ n, I.eval e n = wt I o dd n * (I.eval r n
          + if o.base = .laplace ∧ o.locSign = .minus
            then I.mean dd (fun m => I.eval u m / wt I o dd m) else 0) := by
  refine ⟨_, neuRepr_eq o u _ dd ha, ?_⟩
  intro n
  unfold ScalarOp.neuOp at he
  have hs0 : symS (laplaceKernel o.dim) [] (.side .plus) dd dd (o.invSqrtW dd u)
      = .ok (.pot (slp (A := A) (laplaceKernel o.dim) [] dd false) (.side .plus)
          (o.invSqrtW dd u)) := by
    simp only [laplaceKernel]
    rw [symS_self _ _ _ _ _ _ laplace_argsOK]
  simp only [hs0, bind, Except.bind, merge_nil] at he
  cases hx : o.dpS0 u dd o.kargs (o.invSqrtW dd u)
        (.pot (slp (laplaceKernel o.dim) [] dd false) (.side .plus) (o.invSqrtW dd u)) with
  | error m =>
    rw [hx] at he
    cases he
  | ok x =>
    rw [hx] at he
    have hxe : o.alpha * I.eval x n
        = o.alpha * I.bdry (dlp o.kernel o.kargs dd true) .plus
          (I.bdry (slp (laplaceKernel o.dim) [] dd false) .plus
            (fun m => I.eval u m / wt I o dd m)) n := by
      by_cases h0 : o.alpha = 0
      · rw [h0, zero_mul, zero_mul]
      · have hi' : o.improved = false ∨ o.weighted = false := by
          rcases hi with h | h | h
          · exact Or.inl h
          · exact Or.inr h
          · exact absurd h h0
        rw [dps0_eval h2 I o dd u x C ha hi' hx n]
    simp only [ScalarOp.kernel, merge_nil] at he
    rw [symSp_self _ _ _ _ _ _ ha] at he
    cases he
    simp only [Interp.eval, eval_sub, eval_scale, eval_weight, eval_ones, eval_inv]
    rw [hxe]
    have hs := side_slp h2 J o.kargs o.locSign (fun n => I.eval u n / wt I o dd n) n
    have hd := side_dlp J o.kargs o.locSign
      (I.bdry (slp (laplaceKernel o.dim) [] dd false) .plus
        (fun m => I.eval u m / wt I o dd m)) n
    have hb : (if o.neuUnique = true then
          I.mean dd (fun m => I.eval u m / wt I o dd m) else 0)
        = (if o.base = .laplace ∧ o.locSign = .minus
          then I.mean dd (fun m => I.eval u m / wt I o dd m) else 0) := by
      simp [ScalarOp.neuUnique]
    rw [hb]
    simp only [Interp.pot, ScalarOp.kernel] at hs hd ⊢
    have hp : I.pot (slp (laplaceKernel o.dim) [] dd false) (.side .plus)
        (fun m => I.eval u m / wt I o dd m)
        = I.bdry (slp (laplaceKernel o.dim) [] dd false) .plus
        (fun m => I.eval u m / wt I o dd m) := rfl
    rw [hs, hd]
    have hwn := hw n
    unfold ScalarOp.half
    generalize (if o.base = .laplace ∧ o.locSign = .minus
          then I.mean dd (fun m => I.eval u m / wt I o dd m) else 0) = c
    field_simp
    ring

/-- **C60.**  When `NeumannOperator.operator` is built: exactly when the kernel gets its
arguments and, for the improved operator, the kernel is a Laplace or Helmholtz kernel. -/
theorem C60_neumann_built (o : ScalarOp K A) (u : Expr K A) (dd : DD)
    (kw : Args A) :
    (∃ e, o.neuOp u dd kw = .ok e) ↔
      (ArgsOK o.base (o.kargs.merge kw)
        ∧ (o.improved = true → o.base = .laplace ∨ o.base = .helmholtz)) := by
  have hs0 : symS (laplaceKernel o.dim) [] (.side .plus) dd dd (o.invSqrtW dd u)
      = .ok (.pot (slp (A := A) (laplaceKernel o.dim) [] dd false) (.side .plus)
          (o.invSqrtW dd u)) := by
    simp only [laplaceKernel]
    rw [symS_self _ _ _ _ _ _ laplace_argsOK]
  constructor
  · rintro ⟨e, he⟩
    unfold ScalarOp.neuOp at he
    simp only [hs0, bind, Except.bind] at he
    cases hx : o.dpS0 u dd (o.kargs.merge kw) (o.invSqrtW dd u)
        (.pot (slp (laplaceKernel o.dim) [] dd false) (.side .plus) (o.invSqrtW dd u)) with
    | error m =>
      rw [hx] at he
      cases he
    | ok x =>
      rw [hx] at he
      simp only at he
      cases hp : symSp o.kernel (o.kargs.merge kw) .avg dd dd (o.invSqrtW dd u) with
      | error m =>
        rw [hp] at he
        cases he
      | ok y =>
        have hS : ArgsOK o.base (o.kargs.merge kw) := by
          unfold symSp at hp
          simp only [ScalarOp.kernel] at hp
          cases hq : symS ⟨o.base, o.dim, []⟩ (o.kargs.merge kw) .avg dd dd
              (o.invSqrtW dd u) with
          | error m =>
            rw [hq] at hp
            cases hp
          | ok z => exact ((symS_ok_iff _ _ _ _ _ _ _ _).1 hq).1
        refine ⟨hS, ?_⟩
        intro him
        unfold ScalarOp.dpS0 at hx
        rw [if_pos him] at hx
        unfold ScalarOp.improvedDpS0 at hx
        simp only [laplaceKernel] at hx
        rw [symSp_self _ _ _ _ _ _ laplace_argsOK] at hx
        simp only [bind, Except.bind] at hx
        rw [symSp_self _ _ _ _ _ _ laplace_argsOK] at hx
        rcases hb : o.base with _ | _ | _ | _ | ⟨nm, ar⟩ <;> rw [hb] at hx <;>
          simp only at hx
        · exact Or.inl rfl
        · exact Or.inr rfl
        all_goals cases hx
  · rintro ⟨hS, him⟩
    have hx : ∃ x, o.dpS0 u dd (o.kargs.merge kw) (o.invSqrtW dd u)
        (.pot (slp (laplaceKernel o.dim) [] dd false) (.side .plus) (o.invSqrtW dd u))
        = .ok x := by
      unfold ScalarOp.dpS0
      by_cases hi : o.improved = true
      · rw [if_pos hi]
        unfold ScalarOp.improvedDpS0
        simp only [laplaceKernel, ScalarOp.kernel]
        rw [symSp_self _ _ _ _ _ _ laplace_argsOK]
        simp only [bind, Except.bind]
        rw [symSp_self _ _ _ _ _ _ laplace_argsOK]
        rcases him hi with hb | hb
        · simp only [hb]
          exact ⟨_, rfl⟩
        · rw [hb] at hS
          simp only [hb]
          rw [symDp_self _ _ _ _ _ _ hS, symDp_self _ _ _ _ _ _ laplace_argsOK]
          exact ⟨_, rfl⟩
      · rw [if_neg hi]
        simp only [ScalarOp.kernel]
        rw [symDp_self _ _ _ _ _ _ hS]
        exact ⟨_, rfl⟩
    obtain ⟨x, hx⟩ := hx
    unfold ScalarOp.neuOp
    simp only [hs0, bind, Except.bind]
    rw [hx]
    simp only [ScalarOp.kernel]
    rw [symSp_self _ _ _ _ _ _ hS]
    exact ⟨_, rfl⟩

/-- **C60.**  A density that solves the integral equation yields a field with the
prescribed Neumann data (when no constant has to be fixed). -/
theorem C60_neumann_solution_partial (h2 : (2 : K) ≠ 0) (I : Interp K A N)
    (o : ScalarOp K A) (u b e r : Expr K A) (J : Jumps I ⟨o.base, o.dim, []⟩ none)
    (C : Calderon I o.dim none)
    (hw : ∀ n, wt I o none n ≠ 0) (ha : ArgsOK o.base o.kargs)
    (hi : o.improved = false ∨ o.weighted = false ∨ o.alpha = 0)
    (hu : ¬ (o.base = .laplace ∧ o.locSign = .minus))
    (he : o.neuOp u none [] = .ok e)
    (hr : o.neuRepr u (normalDerivative none) (.side o.locSign) none none [] = .ok r)
    (hsol : ∀ n, I.eval e n = I.eval (o.prepareRhs b) n) :
    ∀ n, I.eval r n = I.eval b n := by
  obtain ⟨r', hr', hv⟩ := C60_neumann_partial h2 I o none u e J C hw ha hi he
  rw [hr] at hr'
  cases hr'
  intro n
  have h := hv n
  rw [if_neg hu, hsol n] at h
  simp only [ScalarOp.prepareRhs, Interp.eval, eval_weight, add_zero] at h
  exact (mul_left_cancel₀ (hw n) h).symm

/-! ## Weighting -/

/-- **C60.**  `L²` weighting is a change of variables: the weighted operator applied to
`√w σ` is `√w` times the unweighted operator applied to `σ`, so both equations have the
same solutions and represent the same field.  (Dirichlet.) -/
theorem C60_dirichlet_weighting (h2 : (2 : K) ≠ 0) (I : Interp K A N) (o : ScalarOp K A)
    (dd : DD) (u v : Expr K A) (J : Jumps I ⟨o.base, o.dim, []⟩ dd)
    (hw : ∀ n, I.sqrtW dd n ≠ 0) (ha : ArgsOK o.base o.kargs)
    (huv : ∀ n, I.eval u n = I.sqrtW dd n * I.eval v n) :
    ∃ e e', ({ o with weighted := true } : ScalarOp K A).dirOp u dd [] = .ok e
      ∧ ({ o with weighted := false } : ScalarOp K A).dirOp v dd [] = .ok e'
      ∧ ∀ n, I.eval e n = I.sqrtW dd n * I.eval e' n := by
  obtain ⟨e, r, he, hr, hv⟩ := C60_dirichlet_partial h2 I
    ({ o with weighted := true } : ScalarOp K A) dd u J (by simpa [wt] using hw) ha
  obtain ⟨e', r', he', hr', hv'⟩ := C60_dirichlet_partial h2 I
    ({ o with weighted := false } : ScalarOp K A) dd v J (by simp [wt]) ha
  refine ⟨e, e', he, he', ?_⟩
  rw [dirRepr_eq ({ o with weighted := true } : ScalarOp K A) _ _ _ ha] at hr
  rw [dirRepr_eq ({ o with weighted := false } : ScalarOp K A) _ _ _ ha] at hr'
  cases hr
  cases hr'
  intro n
  rw [hv n, hv' n]
  have hfun : (fun m => I.eval u m / wt I ({ o with weighted := true } : ScalarOp K A) dd m)
      = I.eval v := by
    funext m
    simp only [wt, if_true, huv m]
    rw [mul_comm, mul_div_assoc, div_self (hw m), mul_one]
  have hfun' : (fun m => I.eval v m / wt I ({ o with weighted := false } : ScalarOp K A) dd m)
      = I.eval v := by
    funext m
    simp [wt]
  rw [hfun, hfun']
  simp only [eval_sub, eval_scale, Interp.eval, eval_inv, hfun, hfun', ScalarOp.kernel]
  simp [wt]

/-- **C60.**  The same for Neumann, when the improved operator is not used or `alpha` is
zero. -/
theorem C60_neumann_weighting_partial (h2 : (2 : K) ≠ 0) (I : Interp K A N)
    (o : ScalarOp K A) (dd : DD) (u v e e' : Expr K A) (J : Jumps I ⟨o.base, o.dim, []⟩ dd)
    (C : Calderon I o.dim dd)
    (hw : ∀ n, I.sqrtW dd n ≠ 0) (ha : ArgsOK o.base o.kargs)
    (hi : o.improved = false ∨ o.alpha = 0)
    (huv : ∀ n, I.eval u n = I.sqrtW dd n * I.eval v n)
    (he : ({ o with weighted := true } : ScalarOp K A).neuOp u dd [] = .ok e)
    (he' : ({ o with weighted := false } : ScalarOp K A).neuOp v dd [] = .ok e') :
    ∀ n, I.eval e n = I.sqrtW dd n * I.eval e' n := by
  obtain ⟨r, hr, hv⟩ := C60_neumann_partial h2 I
    ({ o with weighted := true } : ScalarOp K A) dd u e J C (by simpa [wt] using hw) ha
    (by rcases hi with h | h
        · exact Or.inl h
        · exact Or.inr (Or.inr h)) he
  obtain ⟨r', hr', hv'⟩ := C60_neumann_partial h2 I
    ({ o with weighted := false } : ScalarOp K A) dd v e' J C (by simp [wt]) ha
    (Or.inr (Or.inl rfl)) he'
  rw [neuRepr_eq ({ o with weighted := true } : ScalarOp K A) _ _ _ ha] at hr
  rw [neuRepr_eq ({ o with weighted := false } : ScalarOp K A) _ _ _ ha] at hr'
  cases hr
  cases hr'
  intro n
  rw [hv n, hv' n]
  have hfun : (fun m => I.eval u m / wt I ({ o with weighted := true } : ScalarOp K A) dd m)
      = I.eval v := by
    funext m
    simp only [wt, if_true, huv m]
    rw [mul_comm, mul_div_assoc, div_self (hw m), mul_one]
  have hfun' : (fun m => I.eval v m / wt I ({ o with weighted := false } : ScalarOp K A) dd m)
      = I.eval v := by
    funext m
    simp [wt]
  rw [hfun, hfun']
  have hin : I.eval (.pot (slp (laplaceKernel o.dim) [] dd false) (.side .plus)
      (({ o with weighted := true } : ScalarOp K A).invSqrtW dd u))
      = I.eval (.pot (slp (laplaceKernel o.dim) [] dd false) (.side .plus)
      (({ o with weighted := false } : ScalarOp K A).invSqrtW dd v)) := by
    funext m
    simp only [Interp.eval, eval_inv, hfun, hfun']
  simp only [eval_sub, eval_scale]
  have h1 : ∀ p lim m, I.eval (.pot p lim (.pot (slp (laplaceKernel o.dim) [] dd false)
      (.side .plus) (({ o with weighted := true } : ScalarOp K A).invSqrtW dd u))) m
      = I.eval (.pot p lim (.pot (slp (laplaceKernel o.dim) [] dd false)
      (.side .plus) (({ o with weighted := false } : ScalarOp K A).invSqrtW dd v))) m := by
    intro p lim m
    unfold Interp.eval
    rw [hin]
  simp only [ScalarOp.kernel]
  rw [h1]
  simp only [Interp.eval, eval_inv, hfun, hfun']
  simp [wt]

/-! ## Representation at arbitrary targets, and where potentials live -/

/-- **C60.**  At any targets the Dirichlet representation is `α S[u/√w] - D[u/√w]` with
the arguments of the constructor overridden by the keyword arguments, each potential
passed through `map_potentials`. -/
theorem C60_dirichlet_field (I : Interp K A N) (o : ScalarOp K A) (u : Expr K A)
    (mp : Expr K A → Expr K A) (lim : Limit) (src tgt : DD) (kw : Args A)
    (ha : ArgsOK o.base (o.kargs.merge kw)) :
    ∃ r d, o.dirRepr u (fun x => .ok (mp x)) lim src tgt kw = .ok r
      ∧ (∀ n, I.eval d n = I.eval u n / wt I o src n)
      ∧ ∀ n, I.eval r n =
          o.alpha * I.eval (mp (.pot ⟨⟨o.base, o.dim, []⟩, o.kargs.merge kw, src, tgt, none⟩
            lim d)) n
          - I.eval (mp (.pot ⟨⟨o.base, o.dim, ["dsource_vec"]⟩,
              ("dsource_vec", .normal src) ::
                (o.kargs.merge kw).filter (fun p => p.1 != "dsource_vec"),
              src, tgt, none⟩ lim d)) n := by
  have hR : o.dirRepr u (fun x => .ok (mp x)) lim src tgt kw = .ok
      (((mp (.pot ⟨⟨o.base, o.dim, []⟩, o.kargs.merge kw, src, tgt, none⟩
            lim (o.invSqrtW src u))).scale o.alpha).sub
          (mp (.pot ⟨⟨o.base, o.dim, ["dsource_vec"]⟩,
              ("dsource_vec", .normal src) ::
                (o.kargs.merge kw).filter (fun p => p.1 != "dsource_vec"),
              src, tgt, none⟩ lim (o.invSqrtW src u)))) := by
    unfold ScalarOp.dirRepr
    simp only [ScalarOp.kernel]
    rw [(symS_ok_iff _ _ _ _ _ _ _ _).2 ⟨ha, rfl⟩]
    simp only [bind, Except.bind]
    rw [symD_ok _ _ _ _ _ _ _ ha]
    rfl
  refine ⟨_, o.invSqrtW src u, hR, ?_, ?_⟩
  · intro n
    rw [eval_inv]
  · intro n
    rw [eval_sub, eval_scale]

/-- the values of the merged dictionary: keyword arguments win -/
theorem C60_kwargs_override (a b : Args A) (k : String) :
    (Args.merge a b).get k = (b.get k).or (a.get k) := by
  unfold Args.merge Args.get
  rw [List.lookup_append]
  cases hb : b.lookup k with
  | some v => simp
  | none =>
    simp only [Option.none_or]
    induction a with
    | nil => simp
    | cons p t ih =>
      obtain ⟨k', v'⟩ := p
      rw [List.filter_cons]
      by_cases h : k = k'
      · subst h
        simp [hb]
      · have hbk : (k == k') = false := by simpa using h
        by_cases hc : (b.lookup k').isNone = true
        · simp only [hc, if_true, List.lookup_cons, hbk]
          exact ih
        · simp only [hc, List.lookup_cons, hbk]
          exact ih

theorem allPots_scale [DecidableEq K] {P : Pot A → Limit → Prop} {c : K} {e : Expr K A}
    (h : e.AllPots P) : (e.scale c).AllPots P := by
  unfold Expr.scale
  split
  · exact trivial
  · exact ⟨trivial, h⟩

theorem allPots_sub {P : Pot A → Limit → Prop} {a b : Expr K A}
    (ha : a.AllPots P) (hb : b.AllPots P) : (a.sub b).AllPots P :=
  ⟨ha, trivial, hb⟩

theorem allPots_inv {P : Pot A → Limit → Prop} (o : ScalarOp K A) (dd : DD) {u : Expr K A}
    (h : u.AllPots P) : (o.invSqrtW dd u).AllPots P := by
  refine ⟨h, ?_⟩
  unfold ScalarOp.sqrtWeight
  split <;> exact trivial

theorem allPots_weight {P : Pot A → Limit → Prop} (o : ScalarOp K A) (dd : DD) :
    (o.sqrtWeight dd).AllPots P := by
  unfold ScalarOp.sqrtWeight
  split <;> exact trivial

theorem allPots_ones {P : Pot A → Limit → Prop} {b : Bool} {dd : DD} {e : Expr K A}
    (h : e.AllPots P) : (onesContribution b dd e).AllPots P := by
  unfold onesContribution
  split
  · exact ⟨trivial, h⟩
  · exact trivial

theorem limitOK_self {p : Pot A} {lim : Limit} (h : p.src = p.tgt) (hl : lim ≠ .none) :
    LimitOK p lim := Or.inl ⟨h, hl⟩

/-- **C60.**  Every potential in `DirichletOperator.operator(u)` satisfies the limit
rules enforced when the expression is bound. -/
theorem C60_dirichlet_bindable (o : ScalarOp K A) (u e : Expr K A) (dd : DD) (kw : Args A)
    (hu : u.AllPots LimitOK) (ha : ArgsOK o.base o.kargs)
    (he : o.dirOp u dd kw = .ok e) : e.AllPots LimitOK := by
  rw [dirOp_eq o u dd kw ha] at he
  cases he
  have hv := allPots_inv o dd hu
  refine ⟨⟨trivial, hu⟩, allPots_weight o dd, allPots_sub (allPots_scale ?_) ?_,
    allPots_ones hv⟩
  · exact ⟨limitOK_self rfl (by simp), hv⟩
  · exact ⟨limitOK_self rfl (by simp), hv⟩

/-- **C60.**  The same for the Neumann operator. -/
theorem C60_neumann_bindable (o : ScalarOp K A) (u e : Expr K A) (dd : DD) (kw : Args A)
    (hu : u.AllPots LimitOK) (he : o.neuOp u dd kw = .ok e) : e.AllPots LimitOK := by
  have hok := (C60_neumann_built o u dd kw).1 ⟨e, he⟩
  obtain ⟨hS, him⟩ := hok
  have hv := allPots_inv o dd hu
  have hs0 : symS (laplaceKernel o.dim) [] (.side .plus) dd dd (o.invSqrtW dd u)
      = .ok (.pot (slp (A := A) (laplaceKernel o.dim) [] dd false) (.side .plus)
          (o.invSqrtW dd u)) := by
    simp only [laplaceKernel]
    rw [symS_self _ _ _ _ _ _ laplace_argsOK]
  have hps : (Expr.pot (slp (A := A) (laplaceKernel o.dim) [] dd false) (.side .plus)
      (o.invSqrtW dd u)).AllPots LimitOK := ⟨limitOK_self rfl (by simp), hv⟩
  unfold ScalarOp.neuOp at he
  simp only [hs0, bind, Except.bind] at he
  cases hx : o.dpS0 u dd (o.kargs.merge kw) (o.invSqrtW dd u)
      (.pot (slp (laplaceKernel o.dim) [] dd false) (.side .plus) (o.invSqrtW dd u)) with
  | error m =>
    rw [hx] at he
    cases he
  | ok x =>
    have hxl : x.AllPots LimitOK := by
      unfold ScalarOp.dpS0 at hx
      by_cases hi : o.improved = true
      · rw [if_pos hi] at hx
        unfold ScalarOp.improvedDpS0 at hx
        simp only [laplaceKernel, ScalarOp.kernel] at hx hps
        rw [symSp_self _ _ _ _ _ _ laplace_argsOK] at hx
        simp only [bind, Except.bind] at hx
        rw [symSp_self _ _ _ _ _ _ laplace_argsOK] at hx
        rcases him hi with hb | hb
        · simp only [hb] at hx
          cases hx
          exact ⟨⟨trivial, hu⟩, limitOK_self rfl (by simp), limitOK_self rfl (by simp), hv⟩
        · rw [hb] at hS
          simp only [hb] at hx
          rw [symDp_self _ _ _ _ _ _ hS, symDp_self _ _ _ _ _ _ laplace_argsOK] at hx
          cases hx
          exact ⟨allPots_sub ⟨limitOK_self rfl (by simp), hps⟩
            ⟨limitOK_self rfl (by simp), hps⟩,
            ⟨trivial, hu⟩, limitOK_self rfl (by simp), limitOK_self rfl (by simp), hv⟩
      · rw [if_neg hi] at hx
        simp only [ScalarOp.kernel] at hx
        rw [symDp_self _ _ _ _ _ _ hS] at hx
        cases hx
        exact ⟨limitOK_self rfl (by simp), hps⟩
    rw [hx] at he
    simp only [ScalarOp.kernel] at he
    rw [symSp_self _ _ _ _ _ _ hS] at he
    cases he
    exact ⟨⟨trivial, hu⟩, allPots_weight o dd,
      allPots_sub ⟨limitOK_self rfl (by simp), hv⟩ (allPots_scale hxl),
      allPots_ones hv⟩

theorem limitOK_off {p : Pot A} (h : p.src ≠ p.tgt) : LimitOK p .none := Or.inr ⟨h, rfl⟩

/-- **C60.**  `DirichletOperator.representation` at a target other than the source (no
one-sided limit) satisfies the limit rules enforced when the expression is bound. -/
theorem C60_dirichlet_field_bindable (o : ScalarOp K A) (u r : Expr K A) (src tgt : DD)
    (kw : Args A) (hne : src ≠ tgt) (hu : u.AllPots LimitOK)
    (hr : o.dirRepr u .ok .none src tgt kw = .ok r) : r.AllPots LimitOK := by
  have hv := allPots_inv o src hu
  unfold ScalarOp.dirRepr at hr
  simp only [ScalarOp.kernel, bind, Except.bind] at hr
  cases hs : symS ⟨o.base, o.dim, []⟩ (o.kargs.merge kw) .none src tgt (o.invSqrtW src u) with
  | error m =>
    rw [hs] at hr
    cases hr
  | ok x =>
    obtain ⟨hS, rfl⟩ := (symS_ok_iff _ _ _ _ _ _ _ _).1 hs
    rw [hs] at hr
    simp only at hr
    rw [symD_ok _ _ _ _ _ _ _ hS] at hr
    cases hr
    exact allPots_sub (allPots_scale ⟨limitOK_off hne, hv⟩) ⟨limitOK_off hne, hv⟩

/-- **C60.**  `NeumannOperator.representation` at a target other than the source satisfies
the limit rules when `alpha` is zero (for other values see `C60_neumann_target_refuted`). -/
theorem C60_neumann_field_bindable_partial (o : ScalarOp K A) (u r : Expr K A) (src tgt : DD)
    (kw : Args A) (hne : src ≠ tgt) (h0 : o.alpha = 0) (hu : u.AllPots LimitOK)
    (hr : o.neuRepr u .ok .none src tgt kw = .ok r) : r.AllPots LimitOK := by
  have hv := allPots_inv o src hu
  unfold ScalarOp.neuRepr at hr
  simp only [laplaceKernel, ScalarOp.kernel] at hr
  rw [(symS_ok_iff _ _ _ _ _ _ _ _).2 ⟨laplace_argsOK, rfl⟩] at hr
  simp only [bind, Except.bind] at hr
  cases hs : symS ⟨o.base, o.dim, []⟩ (o.kargs.merge kw) .none src tgt (o.invSqrtW src u) with
  | error m =>
    rw [hs] at hr
    cases hr
  | ok x =>
    obtain ⟨hS, rfl⟩ := (symS_ok_iff _ _ _ _ _ _ _ _).1 hs
    rw [hs] at hr
    simp only at hr
    rw [symD_ok _ _ _ _ _ _ _ hS] at hr
    cases hr
    unfold Expr.scale
    rw [if_pos h0]
    exact allPots_sub ⟨limitOK_off hne, hv⟩ trivial

/-- such representations exist -/
example : ∃ r, (mkScalarOp (1 : K) .helmholtz 2 .plus (A := Nat)
    (kargs := [("k", .user 2)])).dirRepr (.var "u") .ok .none (some "qbx")
      (some "targets") [] = .ok r := ⟨_, rfl⟩

/-- **C60.**  An operator made without keywords has no `L²` weighting, uses the improved
operator, no kernel arguments, and `alpha = 1j` exactly for Helmholtz kernels (else 0). -/
theorem C60_defaults (imag : K) (base : KBase) (dim : Nat) (s : Side) :
    let o : ScalarOp K A := mkScalarOp imag base dim s
    (∀ dd, o.sqrtWeight dd = .num 1) ∧ o.improved = true ∧ o.kargs = []
      ∧ (base = .helmholtz → o.alpha = imag) ∧ (base ≠ .helmholtz → o.alpha = 0) := by
  refine ⟨fun _ => rfl, rfl, rfl, ?_, ?_⟩
  · rintro rfl
    rfl
  · intro h
    cases base <;> first | rfl | exact absurd rfl h

end Verif.PDE
