import Verif.PDE.Beltrami
import Mathlib.Tactic.FinCases

/-!
# Beltrami operators: properties (C62)

The facts of potential theory the construction rests on are hypotheses about the
interpretation (`Theory`, `LaplaceTheory`); what is proved is that the expressions built by
the code follow from them.
-/

namespace Verif.Beltrami

open Verif.PDE (Side Limit)

variable {K N : Type} [Field K]

/-! ## Specification -/

/-- the user supplied exactly the arguments of the kernel -/
def ArgsOK (k : Knl) (args : KArgs K N) : Prop :=
  (∀ a ∈ k.argNames, ∃ v, args.lookup a = some v) ∧ ∀ p ∈ args, p.1 ∈ k.argNames

/-- an additive operator -/
def Additive (T : Val K N → Val K N) : Prop :=
  ∀ f g n, T (fun n => f n + g n) n = T f n + T g n

/-- Potential theory on a smooth closed surface for the kernel `k` with arguments `args`,
`kap` the sum of the principal curvatures, and `B` the Beltrami operator (`-Δ + k²` for
Yukawa, `-Δ - k²` for Helmholtz): the two Calderón identities for Laplace, and the
decomposition of the Laplacian on the surface applied to the single layer potential. -/
structure Theory (I : Interp K N) (k : Knl) (args : KArgs K N) (kap : Val K N)
    (B : Val K N → Val K N) : Prop where
  single_add : Additive (I.G k false args 0 (.side .plus))
  dprime_add : Additive (I.G (.laplace k.dim) true [] 1 .avg)
  calderon_left : ∀ f n,
    I.G (.laplace k.dim) false [] 0 (.side .plus) (I.G (.laplace k.dim) true [] 1 .avg f) n
      = I.G (.laplace k.dim) true [] 0 .avg (I.G (.laplace k.dim) true [] 0 .avg f) n - f n / 4
  calderon_right : ∀ f n,
    I.G (.laplace k.dim) true [] 1 .avg (I.G (.laplace k.dim) false [] 0 (.side .plus) f) n
      = I.G (.laplace k.dim) false [] 1 .avg (I.G (.laplace k.dim) false [] 1 .avg f) n - f n / 4
  decomposition : ∀ f n, B (I.G k false args 0 (.side .plus) f) n
      = I.G k false args 2 .avg f n + kap n * I.G k false args 1 .avg f n

/-- the single layer potential determines its density -/
def SingleInjective (I : Interp K N) (k : Knl) (args : KArgs K N) : Prop :=
  ∀ f, (∀ n, I.G k false args 0 (.side .plus) f n = 0) → ∀ n, f n = 0

/-- the surface integral is linear, constants integrate to the (non-zero) area times the
constant, and Beltrami operators of functions have mean zero -/
structure IntegralTheory (int : Val K N → K) (B : Val K N → Val K N) : Prop where
  add : ∀ f g, int (fun n => f n + g n) = int f + int g
  const : ∀ c, int (fun _ => c) = c * int (fun _ => 1)
  area : int (fun _ => 1) ≠ 0
  beltrami : ∀ u, int (B u) = 0

/-! ## Proofs -/

theorem Additive.sub {T : Val K N → Val K N} (h : Additive T) (f g : Val K N) (n : N) :
    T (fun n => f n - g n) n = T f n - T g n := by
  have := h (fun n => f n - g n) g n
  simp only [sub_add_cancel] at this
  rw [eq_sub_iff_add_eq]
  exact this.symm

theorem update_nil (a : KArgs K N) : update a [] = a := by
  simp [update]

theorem intG_nil (I : Interp K N) (d : Nat) (ds : Bool) (m : Nat) (lim : Limit) (f : Val K N) :
    intG I (.laplace d) ds [] m lim f = .ok (I.G (.laplace d) ds [] m lim f) := by
  cases ds <;> simp [intG, Knl.argNames]

theorem intG_ok (I : Interp K N) (k : Knl) (args : KArgs K N) (h : ArgsOK k args) (m : Nat)
    (lim : Limit) (f : Val K N) : intG I k false args m lim f = .ok (I.G k false args m lim f) := by
  have h1 : k.argNames.all (fun a => (args.lookup a).isSome) = true := by
    rw [List.all_eq_true]
    intro a ha
    obtain ⟨v, hv⟩ := h.1 a ha
    simp [hv]
  have h2 : args.all (fun p => k.argNames.contains p.1) = true := by
    rw [List.all_eq_true]
    intro p hp
    simpa using h.2 p hp
  simp only [intG, h1, h2, Bool.false_eq_true, if_false, not_true]

/-- the value of the density expression for the solution -/
def solutionValue (I : Interp K N) (o : Op K N) (σ : Val K N) : Val K N :=
  let S := I.G o.kernel false o.kernelArguments 0 (.side .plus)
  if o.precond = "left" then S σ else S (S σ)

/-- the value of the preconditioned right-hand side -/
def rhsValue (I : Interp K N) (o : Op K N) (b : Val K N) : Val K N :=
  if o.precond = "left" then I.G o.kernel false o.kernelArguments 0 (.side .plus) b else b

theorem prepareSolution_eq (I : Interp K N) (o : Op K N) (ha : ArgsOK o.kernel o.kernelArguments)
    (σ : Val K N) : prepareSolution I o σ = .ok (solutionValue I o σ) := by
  unfold prepareSolution solutionValue
  by_cases hp : o.precond = "left"
  · rw [if_pos hp, if_pos hp]
    exact intG_ok I _ _ ha _ _ _
  · rw [if_neg hp, if_neg hp]
    simp only [S, intG_ok I _ _ ha]
    rfl

theorem prepareRhs_eq (I : Interp K N) (o : Op K N) (ha : ArgsOK o.kernel o.kernelArguments)
    (b : Val K N) : prepareRhs I o b = .ok (rhsValue I o b) := by
  unfold prepareRhs rhsValue
  by_cases hp : o.precond = "left"
  · rw [if_pos hp, if_pos hp]
    exact intG_ok I _ _ ha _ _ _
  · rw [if_neg hp, if_neg hp]

/-- the sum of the principal curvatures as the operator takes it: `dim` times the mean
curvature given by the user, or computed -/
def curvatureSum (I : Interp K N) (o : Op K N) (mc : Option (Val K N)) : Val K N :=
  match mc with
  | some h => fun n => (o.dim : K) * h n
  | none => fun n => (o.dim : K) * I.meanCurv o.kernel.dim o.dim n

theorem kappa_eq (I : Interp K N) (o : Op K N) (mc : Option (Val K N)) :
    kappa I o mc = curvatureSum I o mc := by
  cases mc <;> rfl

theorem opLeft_ok (I : Interp K N) (o : Op K N) (ha : ArgsOK o.kernel o.kernelArguments)
    (κ σ : Val K N) : opLeft I o κ o.kernelArguments [] σ =
      .ok (fun n => σ n / 4
        - I.G (.laplace o.kernel.dim) true [] 0 .avg (I.G (.laplace o.kernel.dim) true [] 0 .avg σ) n
        + I.G o.kernel false o.kernelArguments 0 (.side .plus)
            (fun n => κ n * I.G o.kernel false o.kernelArguments 1 .avg σ n) n
        + I.G o.kernel false o.kernelArguments 0 (.side .plus)
            (fun n => I.G o.kernel false o.kernelArguments 2 .avg σ n
              + I.G (.laplace o.kernel.dim) true [] 1 .avg σ n) n
        - I.G o.kernel false o.kernelArguments 0 (.side .plus) (I.G (.laplace o.kernel.dim) true [] 1 .avg σ) n
        + I.G (.laplace o.kernel.dim) false [] 0 (.side .plus) (I.G (.laplace o.kernel.dim) true [] 1 .avg σ) n) := by
  simp only [opLeft, S, D, Sp, Spp, Dp, intG_nil, intG_ok I _ _ ha]
  rfl

theorem opRight_ok (I : Interp K N) (o : Op K N) (ha : ArgsOK o.kernel o.kernelArguments)
    (κ σ : Val K N) : opRight I o κ o.kernelArguments [] σ =
      .ok (fun n => σ n / 4
        - I.G (.laplace o.kernel.dim) false [] 1 .avg (I.G (.laplace o.kernel.dim) false [] 1 .avg σ) n
        + (I.G o.kernel false o.kernelArguments 2 .avg (I.G o.kernel false o.kernelArguments 0 (.side .plus) σ) n
          + I.G (.laplace o.kernel.dim) true [] 1 .avg (I.G o.kernel false o.kernelArguments 0 (.side .plus) σ) n)
        - I.G (.laplace o.kernel.dim) true [] 1 .avg (fun n =>
            I.G o.kernel false o.kernelArguments 0 (.side .plus) σ n
              - I.G (.laplace o.kernel.dim) false [] 0 (.side .plus) σ n) n
        + κ n * I.G o.kernel false o.kernelArguments 1 .avg
            (I.G o.kernel false o.kernelArguments 0 (.side .plus) σ) n) := by
  simp only [opRight, S, Sp, Spp, Dp, intG_nil, intG_ok I _ _ ha]
  rfl

/-- C62 (operators, partial: no keyword arguments, see `C62_kwargs_refuted`): for a kernel
other than Laplace, with the arguments of the kernel given at construction, and either
preconditioning, `operator(sigma)` is `prepare_rhs(B u)` where `u = prepare_solution(sigma)`
and `B` is the Beltrami operator. -/
theorem C62_operator_partial (I : Interp K N) (o : Op K N) (mc : Option (Val K N))
    (B : Val K N → Val K N) (hk : ∀ d, o.kernel ≠ .laplace d)
    (ha : ArgsOK o.kernel o.kernelArguments)
    (T : Theory I o.kernel o.kernelArguments (curvatureSum I o mc) B) (σ : Val K N) :
    ∃ u r v, prepareSolution I o σ = .ok u ∧ prepareRhs I o (B u) = .ok r ∧
      operator I o σ mc [] = .ok v ∧ ∀ n, v n = r n := by
  have hl : o.kernel.isLaplace = false := by
    cases h : o.kernel with
    | laplace d => exact absurd h (hk d)
    | _ => rfl
  by_cases hp : o.precond = "left"
  · have hv : operator I o σ mc [] = opLeft I o (curvatureSum I o mc) o.kernelArguments [] σ := by
      unfold operator
      rw [hl, if_neg (by simp), if_pos hp, update_nil, kappa_eq]
    rw [opLeft_ok I o ha] at hv
    refine ⟨_, _, _, prepareSolution_eq I o ha σ, prepareRhs_eq I o ha _, hv, ?_⟩
    intro n
    simp only [rhsValue, solutionValue, if_pos hp]
    have hB : B (I.G o.kernel false o.kernelArguments 0 (.side .plus) σ)
        = fun n => I.G o.kernel false o.kernelArguments 2 .avg σ n
          + curvatureSum I o mc n * I.G o.kernel false o.kernelArguments 1 .avg σ n :=
      funext (T.decomposition σ)
    rw [hB, T.single_add, T.single_add, T.calderon_left]
    ring
  · have hv : operator I o σ mc [] = opRight I o (curvatureSum I o mc) o.kernelArguments [] σ := by
      unfold operator
      rw [hl, if_neg (by simp), if_neg hp, update_nil, kappa_eq]
    rw [opRight_ok I o ha] at hv
    refine ⟨_, _, _, prepareSolution_eq I o ha σ, prepareRhs_eq I o ha _, hv, ?_⟩
    intro n
    simp only [rhsValue, solutionValue, if_neg hp]
    rw [T.dprime_add.sub, T.calderon_right, T.decomposition]
    ring

/-- C62 (solution, partial: no keyword arguments): if the density solves the integral
equation `operator(sigma) = prepare_rhs(b)`, then `prepare_solution(sigma)` solves the
Beltrami equation with right-hand side `b`. -/
theorem C62_solution_partial (I : Interp K N) (o : Op K N) (mc : Option (Val K N))
    (B : Val K N → Val K N) (hk : ∀ d, o.kernel ≠ .laplace d)
    (ha : ArgsOK o.kernel o.kernelArguments)
    (T : Theory I o.kernel o.kernelArguments (curvatureSum I o mc) B)
    (hS : o.precond = "left" → SingleInjective I o.kernel o.kernelArguments)
    (σ b v : Val K N) (ho : operator I o σ mc [] = .ok v) (hr : prepareRhs I o b = .ok v) :
    ∃ u, prepareSolution I o σ = .ok u ∧ ∀ n, B u n = b n := by
  obtain ⟨u, r, v', h1, h2, h3, h4⟩ := C62_operator_partial I o mc B hk ha T σ
  rw [ho] at h3
  cases h3
  refine ⟨u, h1, ?_⟩
  rw [prepareRhs_eq I o ha] at h2 hr
  cases h2
  have hr' := Except.ok.inj hr
  by_cases hp : o.precond = "left"
  · simp only [rhsValue, if_pos hp] at h4 hr'
    have := hS hp (fun n => B u n - b n) (fun n => by
      rw [T.single_add.sub, ← h4 n, hr', sub_self])
    exact fun n => sub_eq_zero.1 (this n)
  · simp only [rhsValue, if_neg hp] at h4 hr'
    intro n
    rw [← h4 n, hr']

/-! ### Laplace-Beltrami -/

theorem W_laplace (I : Interp K N) (o : Op K N) (d : Nat) (hk : o.kernel = .laplace d) (f : Val K N) :
    W I o f = fun _ => 1 * I.integral d o.dim f := by
  funext n
  simp [W, hk, Knl.dim]

theorem lapLeft_ok (I : Interp K N) (o : Op K N) (d : Nat) (hk : o.kernel = .laplace d)
    (κ σ : Val K N) : lapLeft I o κ [] σ =
      .ok (fun n => σ n / 4 - I.G (.laplace d) true [] 0 .avg (I.G (.laplace d) true [] 0 .avg σ) n
        + I.G (.laplace d) false [] 0 (.side .plus) (fun n => I.G (.laplace d) false [] 2 .avg σ n
            + I.G (.laplace d) true [] 1 .avg σ n) n
        + I.G (.laplace d) false [] 0 (.side .plus) (fun n => κ n * I.G (.laplace d) false [] 1 .avg σ n) n
        - I.G (.laplace d) false [] 0 (.side .plus) (fun _ => 1 * I.integral d o.dim
            (I.G (.laplace d) false [] 0 (.side .plus) σ)) n) := by
  simp only [lapLeft, S, D, Sp, Spp, Dp, W_laplace I o d hk, hk, intG_nil]
  rfl

theorem lapRight_ok (I : Interp K N) (o : Op K N) (d : Nat) (hk : o.kernel = .laplace d)
    (κ σ : Val K N) : lapRight I o κ [] σ =
      .ok (fun n => σ n / 4 - I.G (.laplace d) false [] 1 .avg (I.G (.laplace d) false [] 1 .avg σ) n
        + (I.G (.laplace d) false [] 2 .avg (I.G (.laplace d) false [] 0 (.side .plus) σ) n
          + I.G (.laplace d) true [] 1 .avg (I.G (.laplace d) false [] 0 (.side .plus) σ) n)
        + κ n * I.G (.laplace d) false [] 1 .avg (I.G (.laplace d) false [] 0 (.side .plus) σ) n
        + 1 * I.integral d o.dim (I.G (.laplace d) false [] 0 (.side .plus)
            (I.G (.laplace d) false [] 0 (.side .plus) σ))) := by
  simp only [lapRight, S, Sp, Spp, Dp, W_laplace I o d hk, hk, intG_nil]
  rfl

/-- C62 (Laplace-Beltrami operator): `operator(sigma)` is `prepare_rhs` of `-Δ u` plus or
minus the integral of `u`, with `u = prepare_solution(sigma)`: minus for left, plus for
right preconditioning. -/
theorem C62_laplace (I : Interp K N) (d : Nat) (dim : Option Nat) (p : String) (o : Op K N)
    (ho : mkLaplace d dim p = .ok o) (mc : Option (Val K N)) (B : Val K N → Val K N)
    (T : Theory I (.laplace d) [] (curvatureSum I o mc) B) (σ : Val K N) :
    ∃ u r v, prepareSolution I o σ = .ok u ∧
      prepareRhs I o (fun n => B u n + (if p = "left" then -1 else 1) *
        I.integral d (dim.getD (d - 1)) u) = .ok r ∧
      laplaceOperator I o σ mc [] = .ok v ∧ ∀ n, v n = r n := by
  unfold mkLaplace mkOp at ho
  split at ho
  · cases ho
  cases ho
  generalize hoo : (⟨.laplace d, dim.getD ((Knl.laplace d).dim - 1), p, (none : Option (KArgs K N)).getD []⟩ : Op K N) = o at *
  have hk : o.kernel = .laplace d := by rw [← hoo]
  have hd : o.dim = dim.getD (d - 1) := by rw [← hoo]; rfl
  have hp' : o.precond = p := by rw [← hoo]
  have hka : o.kernelArguments = [] := by rw [← hoo]; rfl
  have ha : ArgsOK o.kernel o.kernelArguments := by
    rw [hk, hka]; exact ⟨by simp [Knl.argNames], by simp⟩
  have e1 := T.single_add
  by_cases hp : o.precond = "left"
  · have hv : laplaceOperator I o σ mc [] = lapLeft I o (curvatureSum I o mc) [] σ := by
      unfold laplaceOperator
      rw [if_pos hp, update_nil, kappa_eq, hka]
    rw [lapLeft_ok I o d hk] at hv
    refine ⟨_, _, _, prepareSolution_eq I o ha σ, prepareRhs_eq I o ha _, hv, ?_⟩
    intro n
    have hpl : p = "left" := by rw [← hp', hp]
    simp only [rhsValue, solutionValue, if_pos hp, hk, hka, if_pos hpl, ← hd]
    have hB : B (I.G (.laplace d) false [] 0 (.side .plus) σ)
        = fun n => I.G (.laplace d) false [] 2 .avg σ n
          + curvatureSum I o mc n * I.G (.laplace d) false [] 1 .avg σ n :=
      funext (T.decomposition σ)
    have hc := T.calderon_left σ n
    simp only [Knl.dim] at hc
    have hs := e1.sub (fun n => B (I.G (.laplace d) false [] 0 (.side .plus) σ) n)
      (fun _ => 1 * I.integral d o.dim (I.G (.laplace d) false [] 0 (.side .plus) σ)) n
    have hneg : (fun n => B (I.G (.laplace d) false [] 0 (.side .plus) σ) n
        + -1 * I.integral d o.dim (I.G (.laplace d) false [] 0 (.side .plus) σ))
        = fun n => B (I.G (.laplace d) false [] 0 (.side .plus) σ) n
        - 1 * I.integral d o.dim (I.G (.laplace d) false [] 0 (.side .plus) σ) := by
      funext n; ring
    rw [hneg, hs, hB, e1, e1, hc]
    ring
  · have hv : laplaceOperator I o σ mc [] = lapRight I o (curvatureSum I o mc) [] σ := by
      unfold laplaceOperator
      rw [if_neg hp, update_nil, kappa_eq, hka]
    rw [lapRight_ok I o d hk] at hv
    refine ⟨_, _, _, prepareSolution_eq I o ha σ, prepareRhs_eq I o ha _, hv, ?_⟩
    intro n
    have hpl : p ≠ "left" := by rw [← hp']; exact hp
    simp only [rhsValue, solutionValue, if_neg hp, hk, hka, if_neg hpl, ← hd]
    have hc := T.calderon_right σ n
    simp only [Knl.dim] at hc
    rw [T.decomposition, hc]
    ring

/-- C62 (Laplace-Beltrami solution): if the density solves the integral equation, then
`u = prepare_solution(sigma)` satisfies `-Δ u = b - mean(b)`, so `-Δ u = b` with `u` of mean
zero for every `b` of mean zero.  (For other `b` the mean of `u` depends on the
preconditioning.) -/
theorem C62_laplace_solution (I : Interp K N) (d : Nat) (dim : Option Nat) (p : String)
    (o : Op K N) (ho : mkLaplace d dim p = .ok o) (mc : Option (Val K N))
    (B : Val K N → Val K N) (T : Theory I (.laplace d) [] (curvatureSum I o mc) B)
    (J : IntegralTheory (I.integral d (dim.getD (d - 1))) B)
    (hS : p = "left" → SingleInjective I (.laplace d) [])
    (σ b v : Val K N) (hv : laplaceOperator I o σ mc [] = .ok v) (hr : prepareRhs I o b = .ok v) :
    ∃ u, prepareSolution I o σ = .ok u ∧
      (∀ n, B u n = b n - I.integral d (dim.getD (d - 1)) b
        / I.integral d (dim.getD (d - 1)) (fun _ => 1)) ∧
      I.integral d (dim.getD (d - 1)) u = (if p = "left" then -1 else 1) *
        (I.integral d (dim.getD (d - 1)) b / I.integral d (dim.getD (d - 1)) (fun _ => 1)) ∧
      (I.integral d (dim.getD (d - 1)) b = 0 →
        (∀ n, B u n = b n) ∧ I.integral d (dim.getD (d - 1)) u = 0) := by
  obtain ⟨u, r, v', h1, h2, h3, h4⟩ := C62_laplace I d dim p o ho mc B T σ
  rw [hv] at h3
  cases h3
  refine ⟨u, h1, ?_⟩
  set int := I.integral d (dim.getD (d - 1)) with hint
  set s : K := if p = "left" then -1 else 1 with hs
  have hss : s * s = 1 := by rw [hs]; split <;> ring
  have ha : ArgsOK o.kernel o.kernelArguments ∧ o.kernel = .laplace d ∧ o.kernelArguments = []
      ∧ o.precond = p := by
    unfold mkLaplace mkOp at ho
    split at ho
    · cases ho
    cases ho
    exact ⟨⟨by simp [Knl.argNames], by simp⟩, rfl, rfl, rfl⟩
  obtain ⟨ha, hk, hka, hpp⟩ := ha
  rw [prepareRhs_eq I o ha] at h2 hr
  cases h2
  have hr' := Except.ok.inj hr
  have main : ∀ n, B u n + s * int u = b n := by
    by_cases hp : p = "left"
    · simp only [rhsValue, hpp, if_pos hp, hk, hka] at h4 hr'
      have := hS hp (fun n => (B u n + s * int u) - b n) (fun n => by
        rw [T.single_add.sub, ← h4 n, hr', sub_self])
      exact fun n => sub_eq_zero.1 (this n)
    · simp only [rhsValue, hpp, if_neg hp] at h4 hr'
      intro n
      rw [← h4 n, hr']
  have hib : int b = s * int u * int (fun _ => 1) := by
    have : b = fun n => B u n + s * int u := funext fun n => (main n).symm
    rw [this, J.add, J.beltrami, J.const, zero_add]
  have hu : int u = s * (int b / int (fun _ => 1)) := by
    rw [hib]
    have := J.area
    field_simp
    linear_combination (-(int u)) * hss
  have hB : ∀ n, B u n = b n - int b / int (fun _ => 1) := by
    intro n
    have := main n
    rw [hu, ← mul_assoc, hss, one_mul] at this
    exact eq_sub_of_add_eq this
  refine ⟨hB, hu, ?_⟩
  intro h0
  refine ⟨fun n => by rw [hB n, h0, zero_div, sub_zero], by rw [hu, h0, zero_div, mul_zero]⟩

/-! ### Construction and rejection -/

/-- C62 (construction): the Yukawa and Helmholtz operators can be constructed with either
preconditioning, carry the kernel of that name with its argument set to the variable of the
name the user chose, and act on surfaces of codimension one unless told otherwise; any other
preconditioning is refused. -/
theorem C62_constructed (I : Interp K N) (d : Nat) (dim : Option Nat) (p kn : String) :
    (p = "left" ∨ p = "right" → ∃ y h : Op K N,
      mkYukawa I d dim p kn = .ok y ∧ mkHelmholtz I d dim p kn = .ok h ∧
      y.kernel = .yukawa d kn ∧ h.kernel = .helmholtz d kn ∧
      y.precond = p ∧ h.precond = p ∧ y.dim = dim.getD (d - 1) ∧ h.dim = dim.getD (d - 1) ∧
      y.kernelArguments = [(kn, I.var kn)] ∧ h.kernelArguments = [(kn, I.var kn)] ∧
      ArgsOK y.kernel y.kernelArguments ∧ ArgsOK h.kernel h.kernelArguments) ∧
    (¬ (p = "left" ∨ p = "right") → ∀ k args, mkOp (K := K) (N := N) k dim p args = .error .value) := by
  constructor
  · intro hp
    refine ⟨⟨.yukawa d kn, dim.getD (d - 1), p, [(kn, I.var kn)]⟩,
      ⟨.helmholtz d kn, dim.getD (d - 1), p, [(kn, I.var kn)]⟩, ?_, ?_, rfl, rfl, rfl, rfl, rfl,
      rfl, rfl, rfl, ?_, ?_⟩
    · simp [mkYukawa, mkOp, hp, Knl.dim]
    · simp [mkHelmholtz, mkOp, hp, Knl.dim]
    · exact ⟨by simp [Knl.argNames], by simp [Knl.argNames]⟩
    · exact ⟨by simp [Knl.argNames], by simp [Knl.argNames]⟩
  · intro hp k args
    simp [mkOp, hp]

/-- C62 (rejection): the general operator refuses the Laplace kernel with a `TypeError`, and
an operator lacking an argument of its kernel, or having one too many, can neither prepare
its solution nor be built. -/
theorem C62_rejects (I : Interp K N) (o : Op K N) (σ : Val K N) (mc : Option (Val K N)) :
    (∀ d kw, o.kernel = .laplace d → operator I o σ mc kw = .error .type) ∧
    (¬ ArgsOK o.kernel o.kernelArguments → (∀ d, o.kernel ≠ .laplace d) →
      prepareSolution I o σ = .error .value ∧ operator I o σ mc [] = .error .value) := by
  refine ⟨fun d kw h => by simp [operator, h, Knl.isLaplace], ?_⟩
  intro ha hk
  have hl : o.kernel.isLaplace = false := by
    cases h : o.kernel with
    | laplace d => exact absurd h (hk d)
    | _ => rfl
  have he : ∀ m lim f, intG I o.kernel false o.kernelArguments m lim f = .error .value := by
    intro m lim f
    by_cases h1 : o.kernel.argNames.all (fun a => (o.kernelArguments.lookup a).isSome) = true
    · by_cases h2 : o.kernelArguments.all (fun p => o.kernel.argNames.contains p.1) = true
      · refine absurd ⟨?_, ?_⟩ ha
        · intro a haa
          exact Option.isSome_iff_exists.1 (List.all_eq_true.1 h1 a haa)
        · intro p hp
          simpa using List.all_eq_true.1 h2 p hp
      · simp only [intG, h1, h2, Bool.false_eq_true, if_false, not_true, not_false_iff, if_true]
    · simp only [intG, h1, Bool.false_eq_true, if_false, not_false_iff, if_true]
  constructor
  · unfold prepareSolution
    split
    · exact he _ _ _
    · simp only [S, he]; rfl
  · unfold operator
    rw [hl, if_neg (by simp), update_nil]
    split
    · simp only [opLeft, S, D, Sp, Spp, Dp, intG_nil, he]; rfl
    · simp only [opRight, S, Sp, intG_nil, he]; rfl

theorem intG_laplace_kw (I : Interp K N) (d m : Nat) (lim : Limit) (f : Val K N) (kw : KArgs K N)
    (h : kw ≠ []) : intG I (.laplace d) false kw m lim f = .error .value := by
  obtain ⟨p, l, rfl⟩ := List.exists_cons_of_ne_nil h
  simp [intG, Knl.argNames]

/-- a potential is either built or refused with a `ValueError` -/
theorem intG_error (I : Interp K N) (k : Knl) (ds : Bool) (args : KArgs K N) (m : Nat) (lim : Limit)
    (f : Val K N) : (∃ v, intG I k ds args m lim f = .ok v) ∨ intG I k ds args m lim f = .error .value := by
  unfold intG
  generalize (if ds then args.filter (fun p => p.1 != "dsource_vec") else args) = a
  by_cases h1 : k.argNames.all (fun b => (a.lookup b).isSome) = true
  · by_cases h2 : a.all (fun p => k.argNames.contains p.1) = true
    · exact .inl ⟨_, by simp only [h1, h2, not_true, if_false]; rfl⟩
    · exact .inr (by simp only [h1, h2, not_true, if_false]; rfl)
  · exact .inr (by simp only [h1]; rfl)

/-- C62 is false for keyword arguments: `operator(sigma, **kwargs)` with any keyword
argument, in particular with a new value for the argument of the kernel, always raises a
`ValueError` because the arguments are also handed to the Laplace kernel. -/
theorem C62_kwargs_refuted (I : Interp K N) (o : Op K N) (hk : ∀ d, o.kernel ≠ .laplace d)
    (σ : Val K N) (mc : Option (Val K N)) (kw : KArgs K N) (h : kw ≠ []) :
    operator I o σ mc kw = .error .value := by
  have hl : o.kernel.isLaplace = false := by
    cases h : o.kernel with
    | laplace d => exact absurd h (hk d)
    | _ => rfl
  unfold operator
  rw [hl, if_neg (by simp)]
  generalize update o.kernelArguments kw = ctx
  split
  · unfold opLeft
    simp only [S, D, Sp, Spp, Dp]
    rcases intG_error I (.laplace o.kernel.dim) true kw 0 .avg σ with ⟨d, h1⟩ | h1 <;> rw [h1] <;>
      [skip; rfl]
    show (intG _ _ _ _ _ _ d >>= _) = _
    rcases intG_error I (.laplace o.kernel.dim) true kw 0 .avg d with ⟨dd, h1⟩ | h1 <;> rw [h1] <;>
      [skip; rfl]
    show (intG _ _ _ _ _ _ σ >>= _) = _
    rcases intG_error I o.kernel false ctx 1 .avg σ with ⟨sp, h1⟩ | h1 <;> rw [h1] <;> [skip; rfl]
    show (intG _ _ _ _ _ _ _ >>= _) = _
    rcases intG_error I o.kernel false ctx 0 (.side .plus) (fun n => kappa I o mc n * sp n) with ⟨t, h1⟩ | h1 <;>
      rw [h1] <;> [skip; rfl]
    show (intG _ _ _ _ _ _ σ >>= _) = _
    rcases intG_error I o.kernel false ctx 2 .avg σ with ⟨spp, h1⟩ | h1 <;> rw [h1] <;> [skip; rfl]
    show (intG _ _ _ _ _ _ σ >>= _) = _
    rcases intG_error I (.laplace o.kernel.dim) true kw 1 .avg σ with ⟨dp, h1⟩ | h1 <;> rw [h1] <;>
      [skip; rfl]
    show (intG _ _ _ _ _ _ _ >>= _) = _
    rcases intG_error I o.kernel false ctx 0 (.side .plus) (fun n => spp n + dp n) with ⟨t4, h1⟩ | h1 <;>
      rw [h1] <;> [skip; rfl]
    show (intG _ _ _ _ _ _ dp >>= _) = _
    rcases intG_error I o.kernel false ctx 0 (.side .plus) dp with ⟨t5, h1⟩ | h1 <;> rw [h1] <;> [skip; rfl]
    show (intG _ _ _ _ _ _ dp >>= _) = _
    rw [intG_laplace_kw I _ _ _ _ kw h]
    rfl
  · unfold opRight
    simp only [Sp, intG_laplace_kw I _ _ _ _ kw h]
    rfl

/-! ## Non-vacuity -/

/-- a two-point "surface": `exB` is its graph Laplacian -/
def exB (f : Val Rat Bool) : Val Rat Bool := fun n => f n - f (!n)

/-- every potential of Laplace and Yukawa on it: single layers are the identity, the second
normal derivative is the (graph) Laplacian minus the curvature term -/
def exI : Interp Rat Bool where
  G k ds _ m _ f := match k with
    | .laplace _ => match ds, m with
      | true, 0 => fun n => 2 * f n
      | true, _ => fun n => 15 / 4 * f n
      | false, 0 => f
      | false, 1 => fun n => 2 * f n
      | false, _ => fun n => exB f n - 6 * f n
    | _ => match m with
      | 0 => f
      | 1 => fun n => 2 * f n
      | _ => fun n => exB f n + 7 * f n - 6 * f n
  var _ := fun _ => 5
  meanCurv _ _ := fun _ => 3
  integral _ _ f := f true + f false

/-- hypotheses of `C62_operator_partial` and `C62_solution_partial` are met by a Yukawa
operator with computed and with given curvature -/
example : ∃ o : Op Rat Bool, mkYukawa exI 2 none "left" "lam" = .ok o ∧
    (∀ d, o.kernel ≠ .laplace d) ∧ ArgsOK o.kernel o.kernelArguments ∧
    Theory exI o.kernel o.kernelArguments (curvatureSum exI o none) (fun f n => exB f n + 7 * f n) ∧
    SingleInjective exI o.kernel o.kernelArguments := by
  refine ⟨⟨.yukawa 2 "lam", 1, "left", [("lam", exI.var "lam")]⟩, by simp [mkYukawa, mkOp, Knl.dim],
    by simp, ⟨by simp [Knl.argNames], by simp [Knl.argNames]⟩, ?_, ?_⟩
  · constructor
    · intro f g n; rfl
    · intro f g n; simp only [exI]; ring
    · intro f n; simp only [exI]; ring
    · intro f n; simp only [exI]; ring
    · intro f n; simp only [exI, curvatureSum, exB]; push_cast; ring
  · intro f h n; exact h n

/-- hypotheses of `C62_laplace` and `C62_laplace_solution` are met, with a solution -/
example : ∃ (o : Op Rat Bool) (v : Val Rat Bool), mkLaplace 2 none "right" = .ok o ∧
    Theory exI (.laplace 2) [] (curvatureSum exI o (some fun _ => 3)) exB ∧
    IntegralTheory (exI.integral 2 1) exB ∧
    laplaceOperator exI o (fun n => if n then 1 else -1) (some fun _ => 3) [] = .ok v ∧
    prepareRhs exI o (fun n => if n then 2 else -2) = .ok v := by
  refine ⟨⟨.laplace 2, 1, "right", []⟩, fun n => if n then 2 else -2, by simp [mkLaplace, mkOp, Knl.dim],
    ?_, ?_, ?_, ?_⟩
  · constructor
    · intro f g n; rfl
    · intro f g n; simp only [exI]; ring
    · intro f n; simp only [exI]; ring
    · intro f n; simp only [exI]; ring
    · intro f n; simp only [exI, curvatureSum, exB]; push_cast; ring
  · constructor
    · intro f g; simp only [exI]; ring
    · intro c; simp only [exI]; ring
    · simp only [exI]; norm_num
    · intro u; simp only [exI, exB]; simp
  · have : laplaceOperator exI ⟨.laplace 2, 1, "right", []⟩ (fun n => if n then 1 else -1)
        (some fun _ => 3) [] = lapRight exI ⟨.laplace 2, 1, "right", []⟩
          (kappa exI ⟨.laplace 2, 1, "right", []⟩ (some fun _ => 3)) [] (fun n => if n then 1 else -1) := by
      simp [laplaceOperator, update]
    rw [this, lapRight_ok exI _ 2 rfl]
    congr 1
    funext n
    cases n <;> simp [exI, exB, kappa] <;> norm_num
  · simp [prepareRhs]

end Verif.Beltrami
