import Verif.PDE.MaxwellProps

/-!
# C67: the Müller equation; C66, C67: where the claims fail, and that their hypotheses can be met
-/

namespace Verif.Maxwell

variable {K N V T : Type} [Field K] [AddCommGroup V] [Module K V] [AddCommGroup T] [Module K T]

namespace Spec

/-- the electric field, off the surface, of currents `J`, `M` and charge `rho` in a medium:
`iωμε S[J] + μ curl S[M] - grad S[ρ]` -/
def fieldE (I : Interp K N V) (k io eps mu : K) (J M : Fin 3 → N → K) (rho : N → K)
    (i : Fin 3) : V :=
  (io * mu * eps) • I.S k (J i) + mu • curl I.d (fun j => I.S k (M j)) i - I.d i (I.S k rho)

/-- the magnetic field: `-iωμε S[M] + ε curl S[J] + grad S[ρ]` -/
def fieldH (I : Interp K N V) (k io eps mu : K) (J M : Fin 3 → N → K) (rho : N → K)
    (i : Fin 3) : V :=
  (-(io * mu * eps)) • I.S k (M i) + eps • curl I.d (fun j => I.S k (J j)) i
    + I.d i (I.S k rho)

/-- boundary values of a vector field from one side -/
def trace (I : Interp K N V) (s : Side) (v : Fin 3 → V) (i : Fin 3) (n : N) : K := I.tr s (v i) n

end Spec

/-! ## The fields -/

/-- **C67.**  The fields of currents and charges satisfy Maxwell's equations in the medium if the
potentials satisfy the Lorenz conditions, for a wave number with `k² = ω²εμ`. -/
theorem C67_field (I : Interp K N V) (hI : I.imag * I.imag = -1) (k omega eps mu : K)
    (hk : k * k = omega * omega * (eps * mu)) (hc : Spec.Commute I.d)
    (hH : ∀ σ, Spec.Helmholtz I.d k (I.S k σ)) (J M : Fin 3 → N → K) (re rm : N → K)
    (hJ : Spec.div I.d (fun i => I.S k (J i)) = (I.imag * omega) • I.S k re)
    (hM : Spec.div I.d (fun i => I.S k (M i)) = (I.imag * omega) • I.S k rm) :
    Spec.Maxwell I.d (I.imag * omega) eps mu
      (Spec.fieldE I k (I.imag * omega) eps mu J M re)
      (Spec.fieldH I k (I.imag * omega) eps mu J M rm) := by
  have hE : Spec.fieldE I k (I.imag * omega) eps mu J M re = fun i =>
      ((I.imag * omega * mu * eps) • I.S k (J i) + mu • Spec.curl I.d (fun j => I.S k (M j)) i)
        - I.d i (I.S k re) := rfl
  have hF : Spec.fieldH I k (I.imag * omega) eps mu J M rm = fun i =>
      ((-(I.imag * omega * mu * eps)) • I.S k (M i)
        + eps • Spec.curl I.d (fun j => I.S k (J j)) i) + I.d i (I.S k rm) := rfl
  have hre : Spec.div I.d (fun i => I.d i (I.S k re)) = (-(k * k)) • I.S k re := hH re
  have hrm : Spec.div I.d (fun i => I.d i (I.S k rm)) = (-(k * k)) • I.S k rm := hH rm
  have hio : (I.imag * omega) * (I.imag * omega) = -(omega * omega) := by
    linear_combination (omega * omega) * hI
  constructor
  · rw [hE, curl_sub, curl_add, curl_smul, curl_smul, curl_grad I.d hc]
    funext i
    simp only [Pi.zero_apply, sub_zero]
    rw [curl_curl I.d hc k _ (fun i => hH _), hM, map_smul, hF]
    simp only [hk]
    have : omega * omega = -((I.imag * omega) * (I.imag * omega)) := by rw [hio, neg_neg]
    rw [this]
    module
  · rw [hF, curl_add, curl_add, curl_smul, curl_smul, curl_grad I.d hc]
    funext i
    simp only [Pi.zero_apply, add_zero]
    rw [curl_curl I.d hc k _ (fun i => hH _), hJ, map_smul, hE]
    simp only [hk]
    have : omega * omega = -((I.imag * omega) * (I.imag * omega)) := by rw [hio, neg_neg]
    rw [this]
    module
  · rw [hE, div_sub, div_add, div_smul, div_smul, hJ, div_curl I.d hc, hre, hk]
    have : omega * omega = -((I.imag * omega) * (I.imag * omega)) := by rw [hio, neg_neg]
    rw [this]
    module
  · rw [hF, div_add, div_add, div_smul, div_smul, hM, div_curl I.d hc, hrm, hk]
    have : omega * omega = -((I.imag * omega) * (I.imag * omega)) := by rw [hio, neg_neg]
    rw [this]
    module

/-! ## The operator -/

theorem tr_fieldE (h2 : (2 : K) ≠ 0) (I : Interp K N V) (k io eps mu : K) (hJ : Spec.Jumps I k)
    (s : Side) (J M : Fin 3 → N → K) (rho : N → K) (i : Fin 3) (n : N) :
    Spec.trace I s (Spec.fieldE I k io eps mu J M rho) i n
      = I.fieldE I.avg k (io * mu * eps) mu J M rho i n
        - s.sgn * (1 / 2) * (mu * Spec.nx I M n i - I.nrm n i * rho n) := by
  have hc := tr_curl h2 I k hJ s M i n
  rw [curl_ev] at hc
  simp only [Spec.trace, Spec.fieldE, Interp.fieldE, Interp.grad, map_sub, map_add, map_smul,
    Pi.sub_apply, Pi.add_apply, Pi.smul_apply, smul_eq_mul]
  rw [tr_S h2 I k hJ, tr_grad h2 I k hJ, hc]
  ring

theorem tr_fieldH (h2 : (2 : K) ≠ 0) (I : Interp K N V) (k io eps mu : K) (hJ : Spec.Jumps I k)
    (s : Side) (J M : Fin 3 → N → K) (rho : N → K) (i : Fin 3) (n : N) :
    Spec.trace I s (Spec.fieldH I k io eps mu J M rho) i n
      = I.fieldH I.avg k (-(io * mu * eps)) eps J M rho i n
        - s.sgn * (1 / 2) * (eps * Spec.nx I J n i + I.nrm n i * rho n) := by
  have hc := tr_curl h2 I k hJ s J i n
  rw [curl_ev] at hc
  simp only [Spec.trace, Spec.fieldH, Interp.fieldH, Interp.grad, map_add, map_smul,
    Pi.add_apply, Pi.smul_apply, smul_eq_mul]
  rw [tr_S h2 I k hJ, tr_grad h2 I k hJ, hc]
  ring

/-- the two algebraic facts behind the rows: what `n ×` and `n ·` make of the jump terms -/
theorem nx_jump (I : Interp K N V) (F : Spec.Frame I) (a b : K) (C X : Fin 3 → N → K)
    (rho : N → K) (n : N) (hX : Spec.ndot I X n = 0) (i : Fin 3)
    (Y : Fin 3 → N → K) (hY : ∀ i, Y i n = C i n - a * (b * Spec.nx I X n i + I.nrm n i * rho n)) :
    Spec.nx I Y n i = Spec.nx I C n i + a * b * X i n := by
  have hx := nx_nx I F X n hX i
  revert i
  apply fin3
  all_goals
    intro hx
    simp only [Spec.nx, Spec.cross, Matrix.cons_val_zero, Matrix.cons_val_one,
      Matrix.cons_val, smul_eq_mul] at hx hY ⊢
    rw [hY, hY]
    simp only [Matrix.cons_val_zero, Matrix.cons_val_one, Matrix.cons_val]
    linear_combination (-(a * b)) * hx

theorem ndot_jump (I : Interp K N V) (F : Spec.Frame I) (a b : K) (C X : Fin 3 → N → K)
    (rho : N → K) (n : N)
    (Y : Fin 3 → N → K) (hY : ∀ i, Y i n = C i n - a * (b * Spec.nx I X n i + I.nrm n i * rho n)) :
    Spec.ndot I Y n = Spec.ndot I C n - a * rho n := by
  have hn := F.nn n
  rw [Fin.sum_univ_three] at hn
  have hp := nx_normal I X n
  simp only [Spec.ndot] at hp ⊢
  rw [hY, hY, hY]
  linear_combination (-(a * b)) * hp - (a * rho n) * hn

theorem toTan_congr (I : Interp K N V) (v w : Fin 3 → N → K) (h : ∀ i n, v i n = w i n) :
    I.toTan v = I.toTan w := by
  have : v = w := by
    funext i n
    exact h i n
  rw [this]

theorem nx_sub (I : Interp K N V) (v w : Fin 3 → N → K) (n : N) (i : Fin 3) :
    Spec.nx I (fun i n => v i n - w i n) n i = Spec.nx I v n i - Spec.nx I w n i := by
  revert i
  apply fin3
  all_goals
    simp only [Spec.nx, Spec.cross, Matrix.cons_val_zero, Matrix.cons_val_one,
      Matrix.cons_val, smul_eq_mul]
    ring

theorem ndot_lin (I : Interp K N V) (a b : K) (v w : Fin 3 → N → K) (n : N) :
    Spec.ndot I (fun i n => a * v i n - b * w i n) n
      = a * Spec.ndot I v n - b * Spec.ndot I w n := by
  simp only [Spec.ndot]
  ring

/-- **C67, the operator.**  For two domains (0 inside, 1 outside) the six rows of `operator`
are, in terms of the fields of the unknowns in the two media and their boundary values from
outside (domain 1) and inside (domain 0): the tangential components of `n × (H₁ - H₀)`, then
`n · (ε₁E₁ - ε₀E₀)`, the tangential components of `n × (E₁ - E₀)`, and `-n · (μ₁H₁ - μ₀H₀)`. -/
theorem C67_operator (h2 : (2 : K) ≠ 0) (I : Interp K N V) (F : Spec.Frame I) (sqrt : K → K)
    (omega : K) (d0 d1 : Domain K) (unk : Fin 6 → N → K)
    (hJ0 : Spec.Jumps I (omega * sqrt (d0.epsilon * d0.mu)))
    (hJ1 : Spec.Jumps I (omega * sqrt (d1.epsilon * d1.mu))) :
    let J := I.toXyz ![unk 0, unk 1]
    let M := I.toXyz ![unk 3, unk 4]
    let E := fun (dm : Domain K) => Spec.fieldE I (omega * sqrt (dm.epsilon * dm.mu))
      (I.imag * omega) dm.epsilon dm.mu J M (unk 2)
    let H := fun (dm : Domain K) => Spec.fieldH I (omega * sqrt (dm.epsilon * dm.mu))
      (I.imag * omega) dm.epsilon dm.mu J M (unk 5)
    let E0 := Spec.trace I .minus (E d0)
    let E1 := Spec.trace I .plus (E d1)
    let H0 := Spec.trace I .minus (H d0)
    let H1 := Spec.trace I .plus (H d1)
    I.muellerOperator sqrt omega [d0, d1] unk = .ok
      ![I.toTan (fun i n => Spec.nx I (fun i n => H1 i n - H0 i n) n i) 0,
        I.toTan (fun i n => Spec.nx I (fun i n => H1 i n - H0 i n) n i) 1,
        fun n => Spec.ndot I (fun i n => d1.epsilon * E1 i n - d0.epsilon * E0 i n) n,
        I.toTan (fun i n => Spec.nx I (fun i n => E1 i n - E0 i n) n i) 0,
        I.toTan (fun i n => Spec.nx I (fun i n => E1 i n - E0 i n) n i) 1,
        fun n => - Spec.ndot I (fun i n => d1.mu * H1 i n - d0.mu * H0 i n) n] := by
  intro J M E H E0 E1 H0 H1
  have hEk : ∀ (dm : Domain K) (s : Side),
      Spec.Jumps I (omega * sqrt (dm.epsilon * dm.mu)) → ∀ i n, Spec.trace I s (E dm) i n
      = I.fieldE I.avg (omega * sqrt (dm.epsilon * dm.mu)) (I.imag * omega * dm.mu * dm.epsilon)
          dm.mu J M (unk 2) i n
        - s.sgn * (1 / 2) * (dm.mu * Spec.nx I M n i + I.nrm n i * (- unk 2 n)) := by
    intro dm s hJ i n
    rw [tr_fieldE h2 I _ _ _ _ hJ]
    ring
  have hHk : ∀ (dm : Domain K) (s : Side),
      Spec.Jumps I (omega * sqrt (dm.epsilon * dm.mu)) → ∀ i n, Spec.trace I s (H dm) i n
      = I.fieldH I.avg (omega * sqrt (dm.epsilon * dm.mu)) (-I.imag * omega * dm.mu * dm.epsilon)
          dm.epsilon J M (unk 5) i n
        - s.sgn * (1 / 2) * (dm.epsilon * Spec.nx I J n i + I.nrm n i * unk 5 n) := by
    intro dm s hJ i n
    rw [tr_fieldH h2 I _ _ _ _ hJ]
    congr 2
    ring
  have tJ : ∀ n, Spec.ndot I J n = 0 := toXyz_normal I F _
  have tM : ∀ n, Spec.ndot I M n = 0 := toXyz_normal I F _
  unfold Interp.muellerOperator Interp.muellerRows
  simp only [waveNumber, rhoE, rhoM, jt, mt]
  have hJd : I.toXyz ![unk 0, unk 1] = J := rfl
  have hMd : I.toXyz ![unk 3, unk 4] = M := rfl
  rw [hJd, hMd]
  have f1 : ∀ i n, I.nCross (fun j n =>
      I.fieldH I.avg (omega * sqrt (d1.epsilon * d1.mu)) (-I.imag * omega * d1.mu * d1.epsilon)
          d1.epsilon J M (unk 5) j n
      - I.fieldH I.avg (omega * sqrt (d0.epsilon * d0.mu)) (-I.imag * omega * d0.mu * d0.epsilon)
          d0.epsilon J M (unk 5) j n) i n + 1 / 2 * (d0.epsilon + d1.epsilon) * J i n
      = Spec.nx I (fun i n => H1 i n - H0 i n) n i := by
    intro i n
    rw [nCross_eq, nx_sub, nx_sub,
      nx_jump I F _ _ _ J (unk 5) n (tJ n) i H1 (fun i => hHk d1 .plus hJ1 i n),
      nx_jump I F _ _ _ J (unk 5) n (tJ n) i H0 (fun i => hHk d0 .minus hJ0 i n)]
    simp only [Side.sgn]
    ring
  have f3 : ∀ i n, I.nCross (fun j n =>
      I.fieldE I.avg (omega * sqrt (d1.epsilon * d1.mu)) (I.imag * omega * d1.mu * d1.epsilon)
          d1.mu J M (unk 2) j n
      - I.fieldE I.avg (omega * sqrt (d0.epsilon * d0.mu)) (I.imag * omega * d0.mu * d0.epsilon)
          d0.mu J M (unk 2) j n) i n + 1 / 2 * (d0.mu + d1.mu) * M i n
      = Spec.nx I (fun i n => E1 i n - E0 i n) n i := by
    intro i n
    rw [nCross_eq, nx_sub, nx_sub,
      nx_jump I F _ _ _ M (fun n => - unk 2 n) n (tM n) i E1 (fun i => hEk d1 .plus hJ1 i n),
      nx_jump I F _ _ _ M (fun n => - unk 2 n) n (tM n) i E0 (fun i => hEk d0 .minus hJ0 i n)]
    simp only [Side.sgn]
    ring
  congr 1
  rw [toTan_congr I _ _ f1, toTan_congr I _ _ f3]
  have f2 : ∀ n, I.nDot (fun i n => d1.epsilon *
      I.fieldE I.avg (omega * sqrt (d1.epsilon * d1.mu)) (I.imag * omega * d1.mu * d1.epsilon)
          d1.mu J M (unk 2) i n - d0.epsilon *
      I.fieldE I.avg (omega * sqrt (d0.epsilon * d0.mu)) (I.imag * omega * d0.mu * d0.epsilon)
          d0.mu J M (unk 2) i n) n + 1 / 2 * (d1.epsilon + d0.epsilon) * unk 2 n
      = Spec.ndot I (fun i n => d1.epsilon * E1 i n - d0.epsilon * E0 i n) n := by
    intro n
    rw [nDot_eq, ndot_lin, ndot_lin,
      ndot_jump I F _ _ _ M (fun n => - unk 2 n) n E1 (fun i => hEk d1 .plus hJ1 i n),
      ndot_jump I F _ _ _ M (fun n => - unk 2 n) n E0 (fun i => hEk d0 .minus hJ0 i n)]
    simp only [Side.sgn]
    ring
  have f4 : ∀ n, - I.nDot (fun i n => d1.mu *
      I.fieldH I.avg (omega * sqrt (d1.epsilon * d1.mu)) (-I.imag * omega * d1.mu * d1.epsilon)
          d1.epsilon J M (unk 5) i n - d0.mu *
      I.fieldH I.avg (omega * sqrt (d0.epsilon * d0.mu)) (-I.imag * omega * d0.mu * d0.epsilon)
          d0.epsilon J M (unk 5) i n) n + 1 / 2 * (d1.mu + d0.mu) * unk 5 n
      = - Spec.ndot I (fun i n => d1.mu * H1 i n - d0.mu * H0 i n) n := by
    intro n
    rw [nDot_eq, ndot_lin, ndot_lin,
      ndot_jump I F _ _ _ J (unk 5) n H1 (fun i => hHk d1 .plus hJ1 i n),
      ndot_jump I F _ _ _ J (unk 5) n H0 (fun i => hHk d0 .minus hJ0 i n)]
    simp only [Side.sgn]
    ring
  funext r
  match r with
  | 0 => rfl
  | 1 => rfl
  | 2 => exact funext f2
  | 3 => rfl
  | 4 => rfl
  | 5 => exact funext f4

/-- **C67, solutions.**  `operator(unk) = rhs(Einc, Hinc)` says exactly that the incident field
*minus* the outside field and *minus* the inside field fit together across the surface:
tangential `E` and `H` and normal `εE` and `μH` are continuous. -/
theorem C67_solution (h2 : (2 : K) ≠ 0) (I : Interp K N V) (F : Spec.Frame I) (sqrt : K → K)
    (omega : K) (d0 d1 : Domain K) (unk : Fin 6 → N → K) (Einc Hinc : Fin 3 → N → K)
    (hJ0 : Spec.Jumps I (omega * sqrt (d0.epsilon * d0.mu)))
    (hJ1 : Spec.Jumps I (omega * sqrt (d1.epsilon * d1.mu))) :
    let J := I.toXyz ![unk 0, unk 1]
    let M := I.toXyz ![unk 3, unk 4]
    let E := fun (dm : Domain K) => Spec.fieldE I (omega * sqrt (dm.epsilon * dm.mu))
      (I.imag * omega) dm.epsilon dm.mu J M (unk 2)
    let H := fun (dm : Domain K) => Spec.fieldH I (omega * sqrt (dm.epsilon * dm.mu))
      (I.imag * omega) dm.epsilon dm.mu J M (unk 5)
    let Eout := fun i n => Einc i n - Spec.trace I .plus (E d1) i n
    let Hout := fun i n => Hinc i n - Spec.trace I .plus (H d1) i n
    let Ein := fun i n => - Spec.trace I .minus (E d0) i n
    let Hin := fun i n => - Spec.trace I .minus (H d0) i n
    I.muellerOperator sqrt omega [d0, d1] unk = I.muellerRhs [d0, d1] Einc Hinc ↔
      ∀ n, Spec.nx I Hout n = Spec.nx I Hin n ∧ Spec.nx I Eout n = Spec.nx I Ein n
        ∧ d1.epsilon * Spec.ndot I Eout n = d0.epsilon * Spec.ndot I Ein n
        ∧ d1.mu * Spec.ndot I Hout n = d0.mu * Spec.ndot I Hin n := by
  intro J M E H Eout Hout Ein Hin
  rw [C67_operator h2 I F sqrt omega d0 d1 unk hJ0 hJ1]
  unfold Interp.muellerRhs
  simp only
  have hnx : ∀ v : Fin 3 → N → K, I.nCross v = fun i n => Spec.nx I v n i := by
    intro v
    funext i n
    exact nCross_eq I v i n
  have key : ∀ (A B C : Fin 3 → N → K),
      (∀ a, I.toTan (fun i n => Spec.nx I (fun i n => A i n - B i n) n i) a
        = I.toTan (I.nCross C) a) ↔
      ∀ n, Spec.nx I (fun i n => C i n - A i n) n = Spec.nx I (fun i n => - B i n) n := by
    intro A B C
    rw [← funext_iff, hnx, frame_eq I F _ _ (nx_normal I _) (nx_normal I _)]
    have neg : ∀ n i, Spec.nx I (fun i n => - B i n) n i = - Spec.nx I B n i := by
      intro n
      apply fin3
      all_goals
        simp only [Spec.nx, Spec.cross, Matrix.cons_val_zero, Matrix.cons_val_one,
          Matrix.cons_val, smul_eq_mul]
        ring
    constructor
    · intro h n
      funext i
      have := congrFun (congrFun h i) n
      simp only [nx_sub] at this
      rw [nx_sub, neg]
      linear_combination -this
    · intro h
      funext i n
      have := congrFun (h n) i
      rw [nx_sub, neg] at this
      rw [nx_sub]
      linear_combination -this
  have inj : ∀ (a b : Fin 6 → N → K), (Except.ok a : Except String _) = .ok b ↔ ∀ r, a r = b r := by
    intro a b
    constructor
    · intro h
      injection h with h
      intro r
      rw [h]
    · intro h
      rw [funext h]
  rw [inj]
  have kH := key (Spec.trace I .plus (H d1)) (Spec.trace I .minus (H d0)) Hinc
  have kE := key (Spec.trace I .plus (E d1)) (Spec.trace I .minus (E d0)) Einc
  constructor
  · intro h n
    have e1 : ∀ a, I.toTan (fun i n => Spec.nx I (fun i n =>
        Spec.trace I .plus (H d1) i n - Spec.trace I .minus (H d0) i n) n i) a
        = I.toTan (I.nCross Hinc) a := by
      intro a
      match a with
      | 0 => exact h 0
      | 1 => exact h 1
    have e3 : ∀ a, I.toTan (fun i n => Spec.nx I (fun i n =>
        Spec.trace I .plus (E d1) i n - Spec.trace I .minus (E d0) i n) n i) a
        = I.toTan (I.nCross Einc) a := by
      intro a
      match a with
      | 0 => exact h 3
      | 1 => exact h 4
    have e2 := congrFun (h 2) n
    have e4 := congrFun (h 5) n
    refine ⟨kH.1 e1 n, kE.1 e3 n, ?_, ?_⟩
    · simp only [Matrix.cons_val, nDot_eq, Spec.ndot] at e2
      simp only [Spec.ndot, Eout, Ein]
      linear_combination -e2
    · simp only [Matrix.cons_val, nDot_eq, Spec.ndot] at e4
      simp only [Spec.ndot, Hout, Hin]
      linear_combination e4
  · intro h
    have e1 := kH.2 fun n => (h n).1
    have e3 := kE.2 fun n => (h n).2.1
    intro r
    match r with
    | 0 => exact e1 0
    | 1 => exact e1 1
    | 2 =>
      funext n
      have e2 := (h n).2.2.1
      simp only [Spec.ndot, Eout, Ein] at e2
      simp only [Matrix.cons_val, nDot_eq, Spec.ndot]
      linear_combination -e2
    | 3 => exact e3 0
    | 4 => exact e3 1
    | 5 =>
      funext n
      have e2 := (h n).2.2.2
      simp only [Spec.ndot, Hout, Hin] at e2
      simp only [Matrix.cons_val, nDot_eq, Spec.ndot]
      linear_combination e2

/-- **C67.**  The operator and the right-hand side exist exactly for two domains. -/
theorem C67_two_domains (I : Interp K N V) (sqrt : K → K) (omega : K)
    (domains : List (Domain K)) (unk : Fin 6 → N → K) (Einc Hinc : Fin 3 → N → K) :
    ((∃ r, I.muellerOperator sqrt omega domains unk = .ok r) ↔ domains.length = 2)
    ∧ ((∃ r, I.muellerRhs domains Einc Hinc = .ok r) ↔ domains.length = 2) := by
  match domains with
  | [] => simp [Interp.muellerOperator, Interp.muellerRhs]
  | [_] => simp [Interp.muellerOperator, Interp.muellerRhs]
  | [_, _] => simp [Interp.muellerOperator, Interp.muellerRhs]
  | _ :: _ :: _ :: _ => simp [Interp.muellerOperator, Interp.muellerRhs]

/-! ## The representation -/

/-- **C67, the representation.**  `representation(i, sol)` gives the fields of domain `i` that
`operator` is about, provided `√(εμ)` equals both `ε` and `μ` (for instance both are 1).
Missing: other media (`C67_representation_refuted`). -/
theorem C67_representation_partial (I : Interp K N V) (sqrt : K → K) (omega : K)
    (domains : List (Domain K)) (i : Nat) (dm : Domain K) (hi : domains[i]? = some dm)
    (he : sqrt (dm.epsilon * dm.mu) = dm.epsilon) (hm : sqrt (dm.epsilon * dm.mu) = dm.mu)
    (sol : Fin 6 → N → K) :
    let J := I.toXyz ![sol 0, sol 1]
    let M := I.toXyz ![sol 3, sol 4]
    ∃ r, I.muellerRepr sqrt omega domains i sol LinearMap.id = .ok r
      ∧ Spec.e r = Spec.fieldE I (omega * sqrt (dm.epsilon * dm.mu)) (I.imag * omega) dm.epsilon
          dm.mu J M (sol 2)
      ∧ Spec.h r = Spec.fieldH I (omega * sqrt (dm.epsilon * dm.mu)) (I.imag * omega) dm.epsilon
          dm.mu J M (sol 5) := by
  intro J M
  unfold Interp.muellerRepr
  rw [hi]
  refine ⟨_, rfl, ?_, ?_⟩
  · rw [flat_e]
    funext j
    simp only [Interp.fieldE, Spec.fieldE, waveNumber, rhoE, rhoM, jt, mt, curl_ev,
      LinearMap.id_apply, Interp.grad]
    have : I.imag * (omega * sqrt (dm.epsilon * dm.mu)) * dm.epsilon
        = I.imag * omega * dm.mu * dm.epsilon := by
      rw [hm]
      ring
    rw [this]
  · rw [flat_h]
    funext j
    simp only [Interp.fieldH, Spec.fieldH, waveNumber, rhoE, rhoM, jt, mt, curl_ev,
      LinearMap.id_apply, Interp.grad]
    have : -I.imag * (omega * sqrt (dm.epsilon * dm.mu)) * dm.mu
        = -(I.imag * omega * dm.mu * dm.epsilon) := by
      rw [he]
      ring
    rw [this]

/-- **C67, the representation.**  An index that is not a domain raises `IndexError`. -/
theorem C67_representation_index (I : Interp K N V) (sqrt : K → K) (omega : K)
    (domains : List (Domain K)) (i : Nat) (sol : Fin 6 → N → K) (ev : V →ₗ[K] T)
    (hi : domains.length ≤ i) : ∃ m, I.muellerRepr sqrt omega domains i sol ev = .error m := by
  unfold Interp.muellerRepr
  rw [List.getElem?_eq_none hi]
  exact ⟨_, rfl⟩

/-! ## A world in which the hypotheses hold

The plane `z = 0` and fields depending on `z` only: a function off the plane that solves the
Helmholtz equation with wave number 1 and is outgoing is given by one coefficient on each side,
`a exp(iz)` above and `b exp(-iz)` below; the single layer potential of a constant density `σ` is
`iσ/2 exp(i|z|)`. -/

/-- derivative along `z` -/
noncomputable def exDz : (Side → ℂ) →ₗ[ℂ] (Side → ℂ) where
  toFun f s := Complex.I * s.sgn * f s
  map_add' f g := by funext s; simp only [Pi.add_apply]; ring
  map_smul' c f := by funext s; simp only [Pi.smul_apply, smul_eq_mul, RingHom.id_apply]; ring

/-- boundary values -/
def exTr (s : Side) : (Side → ℂ) →ₗ[ℂ] (Unit → ℂ) where
  toFun f _ := f s
  map_add' _ _ := rfl
  map_smul' _ _ := rfl

/-- the plane -/
noncomputable def exI : Interp ℂ Unit (Side → ℂ) where
  imag := Complex.I
  nrm _ := ![0, 0, 1]
  tan _ := ![![1, 0, 0], ![0, 1, 0]]
  d := ![0, 0, exDz]
  S _ σ _ := Complex.I / 2 * σ ()
  tr := exTr

theorem exFrame : Spec.Frame exI := by
  constructor
  · intro n; simp [exI, Fin.sum_univ_three]
  · intro n a; fin_cases a <;> simp [exI, Fin.sum_univ_three]
  · intro n a b; fin_cases a <;> fin_cases b <;> simp [exI, Fin.sum_univ_three]

theorem exJumps (k : ℂ) : Spec.Jumps exI k := by
  constructor
  · intro σ n
    rfl
  · intro σ m n
    fin_cases m
    · simp [exI]
    · simp [exI]
    · simp only [exI, exTr, exDz, Side.sgn, LinearMap.coe_mk, AddHom.coe_mk]
      simp
      ring_nf
      simp

theorem exCommute : Spec.Commute exI.d := by
  intro a b v
  fin_cases a <;> fin_cases b <;> simp [exI]

theorem exHelmholtz (v : Side → ℂ) : Spec.Helmholtz exI.d 1 v := by
  funext s
  simp only [exI, exDz]
  simp
  cases s
  · simp [Side.sgn]
    ring_nf
    simp
  · simp [Side.sgn]
    ring_nf
    simp

/-- the field of any current alone satisfies Maxwell's equations on the plane -/
example (Jt : Fin 2 → Unit → ℂ) :
    Spec.div exI.d (fun i => exI.S 1 (exI.toXyz Jt i)) = (exI.imag * 1) • exI.S 1 (fun _ => 0) := by
  funext s
  simp [Spec.div, exI, Interp.toXyz, exDz, Fin.sum_univ_two]

/-- a charge without current does not: the Lorenz condition fails -/
example : ¬ Spec.Maxwell exI.d (exI.imag * 1) 1 1
    (Spec.e (exI.scattered 1 LinearMap.id (fun _ _ => 0) (fun _ => 1)))
    (Spec.h (exI.scattered 1 LinearMap.id (fun _ _ => 0) (fun _ => 1))) := by
  rw [C66_pec_field exI (by simp [exI]) 1 one_ne_zero exCommute (fun _ => exHelmholtz _)]
  intro h
  have := congrFun h .plus
  simp [Spec.div, exI, Interp.toXyz, exDz] at this

/-- the integral equation has solutions -/
example (Hinc : Fin 3 → Unit → ℂ) : ∃ Jt, exI.jOperator 1 .plus Jt = exI.jRhs Hinc := by
  refine ⟨fun a n => 2 * exI.jRhs Hinc a n, ?_⟩
  funext a n
  have hc : ∀ (σ : Fin 3 → Unit → ℂ) i n, exI.curl exI.avg (fun j => exI.S 1 (σ j)) i n = 0 := by
    intro σ i n
    rw [curl_ev, avg_apply]
    fin_cases i <;> simp [Spec.curl, exI, exTr, exDz, Side.sgn]
  simp only [Interp.jOperator, nCross_eq, Spec.nx, Spec.cross, hc]
  simp only [Interp.toTan, Fin.sum_univ_three]
  fin_cases a <;> simp [exI, Interp.toXyz, Interp.jRhs, Fin.sum_univ_two, Interp.toTan, Side.sgn,
    Fin.sum_univ_three]

/-- **C67 fails for the representation in other media**: with `ε = 4`, `μ = 1` (and `√4 = 2`),
the electric field of `representation` is not the one of `operator` (its single layer has the
coefficient `ikε = 2iωε` instead of `iωμε`). -/
theorem C67_representation_refuted :
    ∃ (sqrt : ℂ → ℂ) (r : Fin 6 → Side → ℂ) (sol : Fin 6 → Unit → ℂ), sqrt 4 = 2 ∧ sqrt 1 = 1
      ∧ exI.muellerRepr sqrt (1 / 2) [⟨4, 1⟩, ⟨1, 1⟩] 0 sol LinearMap.id = .ok r
      ∧ Spec.e r ≠ Spec.fieldE exI (1 / 2 * sqrt 4) (exI.imag * (1 / 2)) 4 1
          (exI.toXyz ![sol 0, sol 1]) (exI.toXyz ![sol 3, sol 4]) (sol 2) := by
  classical
  refine ⟨fun x => if x = 4 then 2 else 1, _, fun r _ => if r = 0 then 1 else 0, by simp, by norm_num,
    rfl, ?_⟩
  intro h
  have h' := congrFun (congrFun h 0) .plus
  rw [flat_e] at h'
  simp only [Interp.fieldE, Spec.fieldE, waveNumber, rhoE, jt, mt, curl_ev,
      LinearMap.id_apply, Interp.grad] at h'
  simp [exI, Interp.toXyz, Fin.sum_univ_two, Spec.curl] at h'

/-- the functions `exp(p·x)`, by their eigenvalues -/
noncomputable def exD (m : Fin 3) : ((Fin 3 → ℂ) → ℂ) →ₗ[ℂ] ((Fin 3 → ℂ) → ℂ) where
  toFun f p := p m * f p
  map_add' f g := by funext p; simp only [Pi.add_apply]; ring
  map_smul' c f := by funext p; simp only [Pi.smul_apply, smul_eq_mul, RingHom.id_apply]; ring

open Classical in
/-- `exp(p·x)` -/
noncomputable def exWave (p : Fin 3 → ℂ) : (Fin 3 → ℂ) → ℂ := Pi.single p 1

/-- the hypotheses of the plane wave theorems can be met -/
theorem exWave_eigen (p : Fin 3 → ℂ) (m : Fin 3) : exD m (exWave p) = p m • exWave p := by
  classical
  funext q
  simp only [exD, exWave, LinearMap.coe_mk, AddHom.coe_mk, Pi.smul_apply, smul_eq_mul]
  by_cases h : q = p
  · subst h; rfl
  · simp [Pi.single_eq_of_ne h]

/-- **C66 fails for plane waves in other media**: with `mu = 4`, `epsilon = 1` the returned pair
is not a solution of Maxwell's equations for that medium, neither with `omega` as the frequency
nor with `omega` as the wave number. -/
theorem C66_plane_wave_medium_refuted :
    ∃ (sqrt : ℂ → ℂ) (amp v : Fin 3 → ℂ), sqrt 1 = 1 ∧ sqrt 4 = 2 ∧ ∑ j, v j * v j = 1
      ∧ (let F := planeWave sqrt Complex.I exWave amp v 1 1 4
        ¬ Spec.Maxwell exD (Complex.I * 1) 1 4 (Spec.e F) (Spec.h F)
        ∧ ¬ Spec.Maxwell exD (Complex.I * (1 / 2)) 1 4 (Spec.e F) (Spec.h F)) := by
  classical
  refine ⟨fun x => if x = 4 then 2 else 1, ![1, 0, 0], ![0, 0, 1], by norm_num, by simp,
    by simp [Fin.sum_univ_three], ?_⟩
  have hv : waveDir (fun x : ℂ => if x = 4 then 2 else 1) ![0, 0, 1] = ![0, 0, 1] := by
    funext i
    have : (∑ j, (![0, 0, 1] : Fin 3 → ℂ) j * (![0, 0, 1] : Fin 3 → ℂ) j) = 1 := by
      simp [Fin.sum_univ_three]
    rw [waveDir, this]
    norm_num
  have ha : waveAmp ![1, 0, 0] (![0, 0, 1] : Fin 3 → ℂ) = ![1, 0, 0] := by
    funext i
    rw [waveAmp, Fin.sum_univ_three]
    simp
  have key : ∀ c : ℂ, c * 4 * 2 ≠ Complex.I →
      ¬ Spec.Maxwell exD c 1 4
        (Spec.e (planeWave (fun x : ℂ => if x = 4 then 2 else 1) Complex.I exWave ![1, 0, 0]
          ![0, 0, 1] 1 1 4))
        (Spec.h (planeWave (fun x : ℂ => if x = 4 then 2 else 1) Complex.I exWave ![1, 0, 0]
          ![0, 0, 1] 1 1 4)) := by
    intro c hc h
    have h1 := congrFun (congrFun h.faraday 1) (fun j => Complex.I * (![0, 0, 1] j * 1))
    unfold planeWave at h1
    simp only [flat_e, flat_h, hv, ha, C66_cross] at h1
    simp only [Spec.curl, Spec.cross, Matrix.cons_val_zero, Matrix.cons_val_one,
        Matrix.cons_val, map_smul, exWave_eigen] at h1
    simp [exWave] at h1
    apply hc
    rw [h1]
  refine ⟨key _ ?_, key _ ?_⟩
  · intro h
    have := congrArg Complex.im h
    norm_num at this
  · intro h
    have := congrArg Complex.im h
    norm_num at this

end Verif.Maxwell
