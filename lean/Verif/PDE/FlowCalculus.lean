import Mathlib.Tactic.Common
import Mathlib.Tactic.Ring
import Mathlib.Tactic.LinearCombination
import Mathlib.Tactic.FieldSimp
import Mathlib.Tactic.NormNum
import Mathlib.Tactic.Positivity
import Mathlib.Tactic.IntervalCases
import Mathlib.Algebra.BigOperators.Intervals
import Mathlib.Analysis.Real.Sqrt
import Mathlib.Analysis.SpecialFunctions.Sqrt
import Mathlib.Analysis.SpecialFunctions.Log.Deriv
import Mathlib.Analysis.Calculus.Deriv.Pow
import Mathlib.Analysis.Calculus.Deriv.Inv

/-!
# Partial derivatives of the kernels of Stokes flow

Points have coordinates numbered `0, 1, ...`, of which the first `dim` matter.
-/

namespace Verif.Flow

open Finset

/-- a point of the plane or of space -/
abbrev Pt := Nat → ℝ

/-- `f` has at `x` the partial derivative `v` along axis `i` -/
def HasPartial (f : Pt → ℝ) (i : Nat) (v : ℝ) (x : Pt) : Prop :=
  HasDerivAt (fun t => f (Function.update x i t)) v (x i)

/-- Kronecker's delta -/
def kron (i j : Nat) : ℝ := if i = j then 1 else 0

/-- squared distance from the origin -/
def sq (dim : Nat) (x : Pt) : ℝ := ∑ k ∈ range dim, x k ^ 2

/-- distance from the origin -/
noncomputable def rad (dim : Nat) (x : Pt) : ℝ := √(sq dim x)

/-- negative powers of the distance -/
noncomputable def inv (dim m : Nat) (x : Pt) : ℝ := ((rad dim x)⁻¹) ^ m

theorem HasPartial.congr_val {f : Pt → ℝ} {i : Nat} {v w : ℝ} {x : Pt} (h : HasPartial f i v x)
    (e : v = w) : HasPartial f i w x := e ▸ h

theorem HasPartial.add {f g : Pt → ℝ} {i : Nat} {v w : ℝ} {x : Pt} (hf : HasPartial f i v x)
    (hg : HasPartial g i w x) : HasPartial (fun y => f y + g y) i (v + w) x :=
  HasDerivAt.fun_add hf hg

theorem HasPartial.const (c : ℝ) (i : Nat) (x : Pt) : HasPartial (fun _ => c) i 0 x :=
  hasDerivAt_const _ _

theorem HasPartial.smul {f : Pt → ℝ} {i : Nat} {v : ℝ} {x : Pt} (c : ℝ) (hf : HasPartial f i v x) :
    HasPartial (fun y => c * f y) i (c * v) x :=
  HasDerivAt.const_mul c hf

theorem HasPartial.mul {f g : Pt → ℝ} {i : Nat} {v w : ℝ} {x : Pt} (hf : HasPartial f i v x)
    (hg : HasPartial g i w x) : HasPartial (fun y => f y * g y) i (v * g x + f x * w) x := by
  have := HasDerivAt.fun_mul hf hg
  simp only [Function.update_eq_self] at this
  exact this

theorem HasPartial.neg {f : Pt → ℝ} {i : Nat} {v : ℝ} {x : Pt} (hf : HasPartial f i v x) :
    HasPartial (fun y => - f y) i (- v) x :=
  HasDerivAt.fun_neg hf

theorem HasPartial.listSum {ι : Type} (l : List ι) (f : ι → Pt → ℝ) (i : Nat) (v : ι → ℝ) (x : Pt)
    (h : ∀ a ∈ l, HasPartial (f a) i (v a) x) :
    HasPartial (fun y => (l.map (fun a => f a y)).sum) i ((l.map v).sum) x := by
  induction l with
  | nil => exact HasPartial.const 0 i x
  | cons a t ih =>
    simp only [List.map_cons, List.sum_cons]
    exact (h a (List.mem_cons_self ..)).add (ih (fun b hb => h b (List.mem_cons_of_mem _ hb)))

/-- a shift of the origin -/
theorem HasPartial.shift {f : Pt → ℝ} {i : Nat} {v : ℝ} {x y : Pt}
    (h : HasPartial f i v (fun k => x k - y k)) :
    HasPartial (fun z => f (fun k => z k - y k)) i v x := by
  unfold HasPartial at *
  have e : (fun t => f (fun k => Function.update x i t k - y k))
      = fun t => f (Function.update (fun k => x k - y k) i (t - y i)) := by
    funext t
    congr 1
    funext k
    by_cases hk : k = i
    · subst hk
      simp
    · simp [hk]
  rw [e]
  exact HasDerivAt.comp_sub_const (x i) (y i) h

theorem partial_coord (j i : Nat) (x : Pt) : HasPartial (fun y => y j) i (kron j i) x := by
  unfold HasPartial kron
  by_cases h : j = i
  · subst h
    simp only [Function.update_self, if_true]
    exact hasDerivAt_id _
  · simp only [Function.update_apply, if_neg h]
    exact hasDerivAt_const _ _

theorem partial_sq (dim i : Nat) (hi : i < dim) (x : Pt) :
    HasPartial (sq dim) i (2 * x i) x := by
  unfold HasPartial sq
  have h : ∀ k ∈ range dim, HasDerivAt (fun t => Function.update x i t k ^ 2)
      (if k = i then 2 * x i else 0) (x i) := by
    intro k _
    by_cases hk : k = i
    · subst hk
      simp only [Function.update_self, if_true]
      have := hasDerivAt_pow 2 (x k)
      simpa using this
    · simp only [Function.update_apply, if_neg hk]
      exact hasDerivAt_const _ _
  have := HasDerivAt.fun_sum h
  rw [Finset.sum_ite_eq' (range dim) i (fun _ => 2 * x i), if_pos (Finset.mem_range.2 hi)] at this
  exact this

theorem rad_pos {dim : Nat} {x : Pt} (h : 0 < sq dim x) : 0 < rad dim x := Real.sqrt_pos.2 h

theorem rad_sq {dim : Nat} {x : Pt} (h : 0 < sq dim x) : rad dim x ^ 2 = sq dim x :=
  Real.sq_sqrt h.le

theorem sq_inv {dim : Nat} {x : Pt} (h : 0 < sq dim x) (m : Nat) :
    sq dim x * inv dim (m + 2) x = inv dim m x := by
  have hr := (rad_pos h).ne'
  rw [← rad_sq h]
  unfold inv
  rw [pow_add]
  field_simp

theorem partial_rad (dim i : Nat) (hi : i < dim) (x : Pt) (h : 0 < sq dim x) :
    HasPartial (rad dim) i (x i * inv dim 1 x) x := by
  have h1 := partial_sq dim i hi x
  unfold HasPartial at *
  have h2 := HasDerivAt.sqrt h1 (by rw [Function.update_eq_self]; exact h.ne')
  rw [Function.update_eq_self] at h2
  refine h2.congr_deriv ?_
  have hr : √(sq dim x) ≠ 0 := (rad_pos h).ne'
  unfold inv rad
  field_simp

theorem partial_inv (dim m i : Nat) (hi : i < dim) (x : Pt) (h : 0 < sq dim x) :
    HasPartial (inv dim m) i (-(m : ℝ) * x i * inv dim (m + 2) x) x := by
  have h1 := partial_rad dim i hi x h
  have hr := (rad_pos h).ne'
  unfold HasPartial at *
  have h2 := (HasDerivAt.fun_inv h1 (by rw [Function.update_eq_self]; exact hr)).fun_pow m
  rw [Function.update_eq_self] at h2
  refine h2.congr_deriv ?_
  unfold inv
  rcases m with _ | m
  · simp
  · simp only [Nat.add_sub_cancel]
    rw [show m + 1 + 2 = (m + 3) from rfl, pow_add _ m 3]
    push_cast
    field_simp

theorem partial_log (dim i : Nat) (hi : i < dim) (x : Pt) (h : 0 < sq dim x) :
    HasPartial (fun y => Real.log (rad dim y)) i (x i * inv dim 2 x) x := by
  have h1 := partial_rad dim i hi x h
  have hr := (rad_pos h).ne'
  unfold HasPartial at *
  have h2 := HasDerivAt.log h1 (by rw [Function.update_eq_self]; exact hr)
  rw [Function.update_eq_self] at h2
  refine h2.congr_deriv ?_
  unfold inv
  field_simp

/-! ## Symbolic differentiation of kernels -/

/-- sums and products of coordinates, negative powers of the distance and its logarithm -/
inductive RX where
  | const (c : ℝ)
  | coord (j : Nat)
  | inv (m : Nat)
  | log
  | add (a b : RX)
  | mul (a b : RX)

namespace RX

/-- the value of such an expression -/
noncomputable def eval (dim : Nat) : RX → Pt → ℝ
  | const c, _ => c
  | coord j, x => x j
  | inv m, x => Flow.inv dim m x
  | log, x => Real.log (rad dim x)
  | add a b, x => a.eval dim x + b.eval dim x
  | mul a b, x => a.eval dim x * b.eval dim x

/-- its partial derivative -/
noncomputable def diff (i : Nat) : RX → RX
  | const _ => const 0
  | coord j => const (kron j i)
  | inv m => mul (const (-(m : ℝ))) (mul (coord i) (inv (m + 2)))
  | log => mul (coord i) (inv 2)
  | add a b => add (a.diff i) (b.diff i)
  | mul a b => add (mul (a.diff i) b) (mul a (b.diff i))

theorem hasPartial (dim i : Nat) (hi : i < dim) (e : RX) (x : Pt) (h : 0 < sq dim x) :
    HasPartial (e.eval dim) i ((e.diff i).eval dim x) x := by
  induction e with
  | const c => exact HasPartial.const c i x
  | coord j => exact partial_coord j i x
  | inv m => exact (partial_inv dim m i hi x h).congr_val (by simp only [diff, eval]; ring)
  | log => exact partial_log dim i hi x h
  | add a b iha ihb => exact iha.add ihb
  | mul a b iha ihb => exact iha.mul ihb

end RX

theorem HasPartial.unique {f : Pt → ℝ} {i : Nat} {v w : ℝ} {x : Pt} (h : HasPartial f i v x)
    (h' : HasPartial f i w x) : v = w := HasDerivAt.unique h h'

/-- points near a point on a line along an axis keep a positive distance from the origin -/
theorem sq_eventually (dim i : Nat) (x : Pt) (h : 0 < sq dim x) :
    ∀ᶠ t in nhds (x i), 0 < sq dim (Function.update x i t) := by
  have hc : Continuous (fun t => sq dim (Function.update x i t)) := by
    unfold sq
    refine continuous_finset_sum _ (fun k _ => Continuous.pow ?_ 2)
    by_cases hk : k = i
    · subst hk
      simp only [Function.update_self]
      exact continuous_id
    · simp only [Function.update_apply, if_neg hk]
      exact continuous_const
  have : 0 < sq dim (Function.update x i (x i)) := by rwa [Function.update_eq_self]
  exact hc.continuousAt.eventually (isOpen_Ioi.mem_nhds this)

/-- partial derivative of a function -/
noncomputable def pd (f : Pt → ℝ) (i : Nat) : Pt → ℝ :=
  fun x => deriv (fun t => f (Function.update x i t)) (x i)

/-- iterated partial derivatives, the last axis of the list first -/
noncomputable def pds (f : Pt → ℝ) : List Nat → Pt → ℝ
  | [] => f
  | i :: ds => pd (pds f ds) i

theorem HasPartial.pd_eq {f : Pt → ℝ} {i : Nat} {v : ℝ} {x : Pt} (h : HasPartial f i v x) :
    pd f i x = v := HasDerivAt.deriv h

theorem pds_eval (dim : Nat) (e : RX) (ds : List Nat) (hds : ∀ i ∈ ds, i < dim) (x : Pt)
    (h : 0 < sq dim x) :
    pds (e.eval dim) ds x = (ds.foldr RX.diff e).eval dim x := by
  induction ds generalizing x with
  | nil => rfl
  | cons i t ih =>
    have hp := RX.hasPartial dim i (hds i (List.mem_cons_self ..)) (t.foldr RX.diff e) x h
    have he : (fun s => pds (e.eval dim) t (Function.update x i s)) =ᶠ[nhds (x i)]
        fun s => (t.foldr RX.diff e).eval dim (Function.update x i s) :=
      (sq_eventually dim i x h).mono (fun s hs =>
        ih (fun j hj => hds j (List.mem_cons_of_mem _ hj)) _ hs)
    exact HasPartial.pd_eq (f := pds (e.eval dim) t) (hp.congr_of_eventuallyEq he)

/-- iterated partial derivatives are partial derivatives -/
theorem pds_partial (dim i : Nat) (hi : i < dim) (e : RX) (ds : List Nat) (hds : ∀ j ∈ ds, j < dim)
    (x : Pt) (h : 0 < sq dim x) :
    HasPartial (pds (e.eval dim) ds) i (pds (e.eval dim) (i :: ds) x) x := by
  have hall : ∀ j ∈ i :: ds, j < dim := by
    intro j hj
    rcases List.mem_cons.1 hj with rfl | hj
    · exact hi
    · exact hds j hj
  rw [pds_eval dim e (i :: ds) hall x h]
  have hp := RX.hasPartial dim i hi (ds.foldr RX.diff e) x h
  have he : (fun s => pds (e.eval dim) ds (Function.update x i s)) =ᶠ[nhds (x i)]
      fun s => (ds.foldr RX.diff e).eval dim (Function.update x i s) :=
    (sq_eventually dim i x h).mono (fun s hs => pds_eval dim e ds hds _ hs)
  exact hp.congr_of_eventuallyEq he

end Verif.Flow
