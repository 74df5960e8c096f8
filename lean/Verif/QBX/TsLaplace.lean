import Verif.QBX.TsModel

/-!
# Target-specific QBX, Laplace: the loops compute closed sums

Proof machinery for C81 (the property statements are in `QBX/TsLaplaceProps.lean`).
-/

namespace Verif.Ts

open Fl Finset

/-! ## `legvals` -/

/-- What `legvals` stores, cell by cell. -/
noncomputable def legF (x : Fl ℝ) : ℕ → Fl ℝ
  | 0 => fin 1
  | 1 => x
  | (n + 2) => (fin (2 * ((n + 2 : ℕ) : ℝ) - 1) * x * legF x (n + 1)
      - fin (((n + 2 : ℕ) : ℝ) - 1) * legF x n) / fin ((n + 2 : ℕ) : ℝ)

/-- What `legvals` stores in the derivative array, cell by cell. -/
noncomputable def dlegF (x : Fl ℝ) : ℕ → Fl ℝ
  | 0 => fin 0
  | 1 => fin 1
  | (n + 2) => (fin (2 * ((n + 2 : ℕ) : ℝ) - 1) * (legF x (n + 1) + x * dlegF x (n + 1))
      - fin (((n + 2 : ℕ) : ℝ) - 1) * dlegF x n) / fin ((n + 2 : ℕ) : ℝ)

/-- The cells below `k` of a buffer filled with `f`. -/
def filled {K : Type} (f : ℕ → Fl K) (k : ℕ) : Buf K := fun i => if i < k then some (f i) else none

theorem filled_put (f : ℕ → Fl ℝ) (k : ℕ) (h : k < bufSize) :
    Buf.put (filled f k) k (f k) = some (filled f (k + 1)) := by
  unfold Buf.put
  rw [if_pos h]
  congr 1
  funext i
  unfold filled
  by_cases h1 : i = k
  · subst h1; simp
  · rw [if_neg h1]
    by_cases h2 : i < k
    · rw [if_pos h2, if_pos (by omega)]
    · rw [if_neg h2, if_neg (by omega)]

/-- The loop state of `legvals` before the pass for `j = k + 2`. -/
noncomputable def legState (x : Fl ℝ) (w : Bool) (k : ℕ) : LegSt :=
  ⟨filled (legF x) (k + 2), if w then some (filled (dlegF x) (k + 2)) else none,
    legF x k, legF x (k + 1), dlegF x k, dlegF x (k + 1)⟩

theorem putDer_filled (f : ℕ → Fl ℝ) (w : Bool) (k : ℕ) (h : k < bufSize) :
    putDer (if w then some (filled f k) else none) k (f k)
      = some (if w then some (filled f (k + 1)) else none) := by
  cases w
  · rfl
  · simp [putDer, filled_put f k h]

theorem legBody_step (x : Fl ℝ) (w : Bool) (k : ℕ) (h : k + 2 < bufSize) :
    legBody x (legState x w k) (k + 2) = some (legState x w (k + 1)) := by
  have h1 := filled_put (legF x) (k + 2) h
  have h2 := putDer_filled (dlegF x) w (k + 2) h
  simp only [legF, dlegF] at h1 h2
  simp only [legBody, legState]
  rw [h1, Option.bind_some, h2, Option.bind_some]
  simp only [legF, dlegF]

theorem leg_fold (x : Fl ℝ) (w : Bool) (m k : ℕ) (h : k + m + 1 < bufSize) :
    (List.range' (k + 2) m).foldlM (legBody x) (legState x w k) = some (legState x w (k + m)) := by
  induction m generalizing k with
  | zero => rfl
  | succ m ih =>
    rw [List.range'_succ, List.foldlM_cons, legBody_step x w k (by omega)]
    have := ih (k + 1) (by omega)
    rw [show k + 1 + 2 = k + 2 + 1 by omega] at this
    show (List.range' (k + 2 + 1) m).foldlM (legBody x) (legState x w (k + 1)) = _
    rw [this]; congr 2; omega

theorem fresh_filled (f : ℕ → Fl ℝ) : (Buf.fresh : Buf ℝ) = filled f 0 := by
  funext i; simp [Buf.fresh, filled]

theorem legvals_ok (x : Fl ℝ) (n : ℕ) (w : Bool) (h : n < bufSize) :
    legvals x n w = some (filled (legF x) (n + 1), if w then some (filled (dlegF x) (n + 1)) else none) := by
  have a0 : Buf.put (Buf.fresh) 0 (fin 1) = some (filled (legF x) 1) := by
    rw [fresh_filled (legF x)]; exact filled_put (legF x) 0 (by decide)
  have b0 : putDer (if w then some Buf.fresh else none) 0 (fin 0)
      = some (if w then some (filled (dlegF x) 1) else none) := by
    rw [fresh_filled (dlegF x)]; exact putDer_filled (dlegF x) w 0 (by decide)
  have a1 : Buf.put (filled (legF x) 1) 1 x = some (filled (legF x) 2) :=
    filled_put (legF x) 1 (by decide)
  have b1 := putDer_filled (dlegF x) w 1 (by decide)
  have b1' : putDer (if w then some (filled (dlegF x) 1) else none) 1 (fin 1)
      = some (if w then some (filled (dlegF x) 2) else none) := b1
  unfold legvals
  rw [a0, Option.bind_some, b0, Option.bind_some]
  by_cases h0 : n = 0
  · rw [if_pos h0, h0]
  rw [if_neg h0, a1, Option.bind_some, b1', Option.bind_some]
  by_cases h1 : n = 1
  · rw [if_pos h1, h1]
  rw [if_neg h1]
  have hf := leg_fold x w (n - 1) 0 (by omega)
  have hs : legState x w 0 = ⟨filled (legF x) 2, if w then some (filled (dlegF x) 2) else none,
      fin 1, x, fin 0, fin 1⟩ := by simp [legState, legF, dlegF]
  rw [hs] at hf
  rw [show (0 : ℕ) + 2 = 2 by rfl] at hf
  rw [hf]
  simp only [Option.map_some, legState]
  rw [show 0 + (n - 1) + 2 = n + 1 by omega]

theorem legvals_overflow (x : Fl ℝ) (n : ℕ) (w : Bool) (h : bufSize ≤ n) : legvals x n w = none := by
  have a0 : Buf.put (Buf.fresh) 0 (fin 1) = some (filled (legF x) 1) := by
    rw [fresh_filled (legF x)]; exact filled_put (legF x) 0 (by decide)
  have b0 : putDer (if w then some Buf.fresh else none) 0 (fin 0)
      = some (if w then some (filled (dlegF x) 1) else none) := by
    rw [fresh_filled (dlegF x)]; exact putDer_filled (dlegF x) w 0 (by decide)
  have a1 : Buf.put (filled (legF x) 1) 1 x = some (filled (legF x) 2) :=
    filled_put (legF x) 1 (by decide)
  have b1 := putDer_filled (dlegF x) w 1 (by decide)
  have b1' : putDer (if w then some (filled (dlegF x) 1) else none) 1 (fin 1)
      = some (if w then some (filled (dlegF x) 2) else none) := b1
  have hb : bufSize = 64 := rfl
  unfold legvals
  rw [a0, Option.bind_some, b0, Option.bind_some, if_neg (by omega), a1, Option.bind_some, b1',
    Option.bind_some, if_neg (by omega)]
  have hf := leg_fold x w 62 0 (by omega)
  have hs : legState x w 0 = ⟨filled (legF x) 2, if w then some (filled (dlegF x) 2) else none,
      fin 1, x, fin 0, fin 1⟩ := by simp [legState, legF, dlegF]
  rw [hs] at hf
  rw [show (0 : ℕ) + 2 = 2 by rfl] at hf
  have hsplit : List.range' 2 (n - 1) = List.range' 2 62 ++ 64 :: List.range' 65 (n - 64) := by
    have h1 := List.range'_append (s := 2) (m := 62) (n := (n - 64) + 1) (step := 1)
    have h2 : List.range' 64 (n - 64 + 1) = 64 :: List.range' 65 (n - 64) := List.range'_succ ..
    rw [show n - 1 = 62 + (n - 64 + 1) by omega, ← h2]
    exact h1.symm
  rw [hsplit, List.foldlM_append, hf]
  show (List.foldlM (legBody x) (legState x w (0 + 62)) (64 :: List.range' 65 (n - 64))).map _ = none
  rw [List.foldlM_cons]
  have : legBody x (legState x w (0 + 62)) 64 = none := by
    simp [legBody, Buf.put, hb]
  rw [this]; rfl

theorem legF_fin (x : ℝ) (n : ℕ) : legF (fin x) n = fin (leg x n) := by
  induction n using Nat.strong_induction_on with
  | _ n ih =>
    match n, ih with
    | 0, _ => rfl
    | 1, _ => rfl
    | (n + 2), ih =>
      have hne : (((n + 2 : ℕ) : ℝ)) ≠ 0 := by positivity
      rw [legF, ih (n + 1) (by omega), ih n (by omega)]
      simp only [fin_mul, fin_sub]
      rw [fin_div _ hne, leg]
      congr 1; push_cast; ring_nf

theorem dlegF_fin (x : ℝ) (n : ℕ) : dlegF (fin x) n = fin (dleg x n) := by
  induction n using Nat.strong_induction_on with
  | _ n ih =>
    match n, ih with
    | 0, _ => rfl
    | 1, _ => rfl
    | (n + 2), ih =>
      have hne : (((n + 2 : ℕ) : ℝ)) ≠ 0 := by positivity
      rw [dlegF, legF_fin, ih (n + 1) (by omega), ih n (by omega)]
      simp only [fin_mul, fin_sub, fin_add]
      rw [fin_div _ hne, dleg]
      congr 1; push_cast; ring_nf

/-! ## Closed sums -/

/-- `Σ_{n≤p} P_n(x) a^n / b^{n+1}`. -/
noncomputable def lapSum (x a b : ℝ) (p : ℕ) : ℝ := ∑ n ∈ range (p + 1), leg x n * (a ^ n / b ^ (n + 1))

/-- One component of the target gradient: `τ`, `σ` components of the unit vectors. -/
noncomputable def spSum (x a b τ σ : ℝ) (p : ℕ) : ℝ :=
  ∑ n ∈ range p, a ^ n / b ^ (n + 2) * (((n : ℝ) + 1) * τ * leg x (n + 1) + (σ - x * τ) * dleg x (n + 1))

/-- One component of the source gradient. -/
noncomputable def dSum (x a b τ σ : ℝ) (p : ℕ) : ℝ :=
  ∑ n ∈ range (p + 1), a ^ n / b ^ (n + 2) * (-((n : ℝ) + 1) * σ * leg x n + (τ - x * σ) * dleg x n)

theorem lapS_iter (x a b : ℝ) (hb : b ≠ 0) (k : ℕ) :
    (lapSBody (fin x) (fin a) (fin b))^[k]
      { result := fin (1 / b + x * a / (b * b)), r := fin (a * a / (b * b * b)), j := fin 2,
        p2 := fin 1, p1 := fin x }
    = { result := fin (lapSum x a b (k + 1)), r := fin (a ^ (k + 2) / b ^ (k + 3)),
        j := fin ((k : ℝ) + 2), p2 := fin (leg x k), p1 := fin (leg x (k + 1)) } := by
  induction k with
  | zero =>
    simp only [Function.iterate_zero, id]
    have h1 : 1 / b + x * a / (b * b) = lapSum x a b (0 + 1) := by
      simp [lapSum, Finset.sum_range_succ, leg]; ring
    have h2 : a * a / (b * b * b) = a ^ (0 + 2) / b ^ (0 + 3) := by ring
    rw [h1, h2]
    simp [leg]
  | succ k ih =>
    rw [Function.iterate_succ_apply', ih]
    have hj : ((k : ℝ) + 2) ≠ 0 := by positivity
    have hp : (2 * ((k : ℝ) + 2) - 1) * x * leg x (k + 1) - (((k : ℝ) + 2) - 1) * leg x k
        = ((k : ℝ) + 2) * leg x (k + 2) := by rw [leg_rec]; ring
    simp only [lapSBody, fin_mul, fin_sub, fin_add, fin_div _ hb, fin_div _ hj, hp]
    rw [mul_div_cancel_left₀ _ hj]
    congr 2
    · show _ = ∑ n ∈ range (k + 1 + 1 + 1), _
      rw [Finset.sum_range_succ]; rfl
    · rw [show k + 1 + 2 = (k + 2) + 1 by omega, show k + 1 + 3 = (k + 3) + 1 by omega, pow_succ, pow_succ b (k + 3)]
      field_simp
      ring
    · push_cast; ring

theorem cosAngle_fin {s c t : V3} (ha : cdist t c ≠ 0) (hb : cdist s c ≠ 0) :
    cosAngle s c t = fin (((t 0 - c 0) * (s 0 - c 0) + (t 1 - c 1) * (s 1 - c 1)
      + (t 2 - c 2) * (s 2 - c 2)) / (cdist t c * cdist s c)) := by
  unfold cosAngle
  rw [fin_mul, fin_div _ (mul_ne_zero ha hb)]

theorem tsLaplaceS_sum {s c t : V3} {x : ℝ} (ha : cdist t c ≠ 0) (hb : cdist s c ≠ 0)
    (hx : cosAngle s c t = fin x) (q : ℂ) (p : ℕ) :
    tsLaplaceS s c t (fin q) p = fin (q * (lapSum x (cdist t c) (cdist s c) p : ℝ)) := by
  have hbC : ((cdist s c : ℝ) : ℂ) ≠ 0 := by exact_mod_cast hb
  unfold tsLaplaceS
  rw [hx]
  by_cases h0 : p = 0
  · rw [if_pos h0, h0]
    simp only [toC_fin]
    rw [fin_div _ hbC]
    simp [lapSum, leg, div_eq_mul_inv]
  · rw [if_neg h0]
    obtain ⟨k, rfl⟩ : ∃ k, p = k + 1 := ⟨p - 1, by omega⟩
    have hb2 : cdist s c * cdist s c ≠ 0 := mul_ne_zero hb hb
    have hb3 : cdist s c * cdist s c * cdist s c ≠ 0 := mul_ne_zero hb2 hb
    simp only [fin_mul, fin_div _ hb, fin_div _ hb2, fin_div _ hb3, fin_add, Nat.add_sub_cancel]
    rw [lapS_iter x _ _ hb k]
    simp only [toC_fin, fin_mul]

theorem filled_lt (f : ℕ → Fl ℝ) {k i : ℕ} (h : i < k) : filled f k i = some (f i) := by
  simp [filled, h]

theorem sp_fold {x a b : ℝ} (ha : a ≠ 0) (hb : b ≠ 0) (tmc smc : V3) (p k : ℕ) (hk : k ≤ p) :
    (List.range' 1 k).foldlM
      (lapSpBody tmc smc (fin x) (fin a) (fin b) (filled (legF (fin x)) (p + 1)) (filled (dlegF (fin x)) (p + 1)))
      (fun _ => fin 0, fin (1 / (b * b)))
    = some (fun m => fin (spSum x a b (tmc m / a) (smc m / b) k), fin (a ^ k / b ^ (k + 2))) := by
  induction k with
  | zero =>
    simp [spSum, List.range']
    ring
  | succ k ih =>
    rw [List.range'_1_concat, List.foldlM_append, ih (by omega)]
    simp only [bind, Option.bind, List.foldlM_cons, List.foldlM_nil, pure]
    rw [lapSpBody, filled_lt _ (by omega), filled_lt _ (by omega), legF_fin, dlegF_fin]
    simp only [Option.bind_some, fin_mul, fin_div _ ha, fin_div _ hb, fin_add, fin_sub]
    congr 2
    · funext m
      unfold spSum
      rw [Finset.sum_range_succ, Nat.add_comm 1 k]
      congr 1; push_cast
      rw [mul_div_assoc]
    · congr 1
      rw [pow_succ, show k + 1 + 2 = (k + 2) + 1 by omega, pow_succ b (k + 2)]
      field_simp
      ring

theorem tsLaplaceSp_sum {s c t : V3} {x : ℝ} (ha : cdist t c ≠ 0) (hb : cdist s c ≠ 0)
    (hx : cosAngle s c t = fin x) (q : ℂ) (g : Fin 3 → ℂ) (p : ℕ) (hp : p < bufSize) :
    tsLaplaceSp (fun m => fin (g m)) s c t (fin q) p = some fun m => fin (g m + q *
      (spSum x (cdist t c) (cdist s c) ((t m - c m) / cdist t c) ((s m - c m) / cdist s c) p : ℝ)) := by
  have hb2 : cdist s c * cdist s c ≠ 0 := mul_ne_zero hb hb
  unfold tsLaplaceSp
  rw [hx]
  simp only [legvals_ok _ p true hp, Option.bind_some, if_true, fin_mul, fin_div _ hb2]
  rw [sp_fold ha hb _ _ p p le_rfl]
  simp only [Option.map_some, toC_fin, fin_mul, fin_add]

theorem d_fold {x a b : ℝ} (ha : a ≠ 0) (hb : b ≠ 0) (tmc smc : V3) (p k : ℕ) (hk : k ≤ p + 1) :
    (List.range' 0 k).foldlM
      (lapDBody tmc smc (fin x) (fin a) (fin b) (filled (legF (fin x)) (p + 1)) (filled (dlegF (fin x)) (p + 1)))
      (fun _ => fin 0, fin (1 / (b * b)))
    = some (fun m => fin (∑ n ∈ range k, a ^ n / b ^ (n + 2) *
        (-((n : ℝ) + 1) * (smc m / b) * leg x n + (tmc m / a - x * (smc m / b)) * dleg x n)),
        fin (a ^ k / b ^ (k + 2))) := by
  induction k with
  | zero =>
    simp [List.range']
    ring
  | succ k ih =>
    rw [List.range'_1_concat, List.foldlM_append, ih (by omega)]
    simp only [bind, Option.bind, List.foldlM_cons, List.foldlM_nil, pure]
    rw [Nat.zero_add, lapDBody, filled_lt _ (by omega), filled_lt _ (by omega), legF_fin, dlegF_fin]
    simp only [Option.bind_some, fin_mul, fin_div _ ha, fin_div _ hb, fin_add, fin_sub]
    congr 2
    · funext m
      rw [Finset.sum_range_succ]
      congr 1
      rw [mul_div_assoc]
    · congr 1
      rw [pow_succ, show k + 1 + 2 = (k + 2) + 1 by omega, pow_succ b (k + 2)]
      field_simp
      ring

theorem tsLaplaceD_sum {s c t : V3} {x : ℝ} (ha : cdist t c ≠ 0) (hb : cdist s c ≠ 0)
    (hx : cosAngle s c t = fin x) (q : ℂ) (dip : V3) (p : ℕ) (hp : p < bufSize) :
    tsLaplaceD s c t dip (fin q) p = some (fin (q * ((∑ m, dip m *
      dSum x (cdist t c) (cdist s c) ((t m - c m) / cdist t c) ((s m - c m) / cdist s c) p : ℝ) : ℂ))) := by
  have hb2 : cdist s c * cdist s c ≠ 0 := mul_ne_zero hb hb
  unfold tsLaplaceD
  rw [hx]
  simp only [legvals_ok _ p true hp, Option.bind_some, if_true, fin_mul, fin_div _ hb2]
  rw [d_fold ha hb _ _ p (p + 1) le_rfl]
  simp only [Option.map_some, toC_fin, fin_mul, fin_add, Fin.sum_univ_three]
  rfl

end Verif.Ts
