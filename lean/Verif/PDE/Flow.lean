import Verif.PDE.FlowKernels

/-!
# C84: velocities and pressures returned by the Stokes wrappers are Stokes flows
-/

namespace Verif.Flow

open Finset Verif.Stokes Real

/-! ## Specification -/

/-- Velocity `u` and pressure `p` satisfy the Stokes equations `div u = 0` and `m Δu = grad p` with
viscosity `m` at all points of `Ω`. -/
def IsStokesFlow (dim : Nat) (m : ℝ) (Ω : Pt → Prop) (u : Nat → Pt → ℝ) (p : Pt → ℝ) : Prop :=
  ∃ (du ddu : Nat → Nat → Pt → ℝ) (dp : Nat → Pt → ℝ), ∀ x, Ω x →
    (∀ c < dim, ∀ i < dim, HasPartial (u c) i (du c i x) x ∧ HasPartial (du c i) i (ddu c i x) x) ∧
    (∀ c < dim, HasPartial p c (dp c x) x) ∧
    ∑ c ∈ range dim, du c c x = 0 ∧
    ∀ c < dim, m * ∑ i ∈ range dim, ddu c i x = dp c x

/-- `-p δ_ci + m (∂_i u_c + ∂_c u_i)` -/
noncomputable def stress (m : ℝ) (u : Nat → Pt → ℝ) (p : Pt → ℝ) (c i : Nat) (x : Pt) : ℝ :=
  - (kron c i * p x) + m * (pd (u c) i x + pd (u i) c x)

/-- `x` is none of the sources -/
def Off (dim : Nat) (src : List (Pt × ℝ)) (x : Pt) : Prop := ∀ s ∈ src, ∃ k < dim, x k ≠ s.1 k

/-- the viscosity at the source, if the kernel has one -/
def visc (mu : Option (Val ℝ Pt)) (y : Pt) : ℝ :=
  match mu with
  | some v => v y
  | none => 1

/-- Potentials of finitely many weighted sources, and target derivatives of them: what direct
evaluation away from the sources computes (`exec_compute_potential_insn`, C43, C60).  The viscosity is
that at the source. -/
noncomputable def quad (src : List (Pt × ℝ)) : Interp ℝ Pt where
  G k ds _ mu ρ x := (src.map (fun s =>
    s.2 * pds (kernel k (visc mu s.1)) ds (fun a => x a - s.1 a)
      * ρ s.1)).sum
  integral ρ := (src.map (fun s => s.2 * ρ s.1)).sum
  pi := π

/-! ## Flows can be added -/

theorem IsStokesFlow.congr {dim : Nat} {m : ℝ} {Ω : Pt → Prop} {u v : Nat → Pt → ℝ} {p q : Pt → ℝ}
    (h : IsStokesFlow dim m Ω u p) (hu : ∀ c < dim, v c = u c) (hp : q = p) :
    IsStokesFlow dim m Ω v q := by
  obtain ⟨du, ddu, dp, hx⟩ := h
  refine ⟨du, ddu, dp, fun x hΩ => ?_⟩
  obtain ⟨h1, h2, h3, h4⟩ := hx x hΩ
  refine ⟨fun c hc i hi => ?_, ?_, h3, h4⟩
  · rw [hu c hc]
    exact h1 c hc i hi
  · rw [hp]
    exact h2

theorem IsStokesFlow.mono {dim : Nat} {m : ℝ} {Ω Ω' : Pt → Prop} {u : Nat → Pt → ℝ} {p : Pt → ℝ}
    (h : IsStokesFlow dim m Ω u p) (hΩ : ∀ x, Ω' x → Ω x) : IsStokesFlow dim m Ω' u p := by
  obtain ⟨du, ddu, dp, hx⟩ := h
  exact ⟨du, ddu, dp, fun x hx' => hx x (hΩ x hx')⟩

theorem IsStokesFlow.add {dim : Nat} {m : ℝ} {Ω : Pt → Prop} {u v : Nat → Pt → ℝ} {p q : Pt → ℝ}
    (h : IsStokesFlow dim m Ω u p) (h' : IsStokesFlow dim m Ω v q) :
    IsStokesFlow dim m Ω (fun c x => u c x + v c x) (fun x => p x + q x) := by
  obtain ⟨du, ddu, dp, hx⟩ := h
  obtain ⟨dv, ddv, dq, hy⟩ := h'
  refine ⟨fun c i x => du c i x + dv c i x, fun c i x => ddu c i x + ddv c i x,
    fun c x => dp c x + dq c x, fun x hΩ => ?_⟩
  obtain ⟨h1, h2, h3, h4⟩ := hx x hΩ
  obtain ⟨k1, k2, k3, k4⟩ := hy x hΩ
  refine ⟨fun c hc i hi => ⟨(h1 c hc i hi).1.add (k1 c hc i hi).1, (h1 c hc i hi).2.add (k1 c hc i hi).2⟩,
    fun c hc => (h2 c hc).add (k2 c hc), ?_, fun c hc => ?_⟩
  · rw [Finset.sum_add_distrib, h3, k3, add_zero]
  · rw [Finset.sum_add_distrib, mul_add, h4 c hc, k4 c hc]

theorem IsStokesFlow.smul {dim : Nat} {m : ℝ} {Ω : Pt → Prop} {u : Nat → Pt → ℝ} {p : Pt → ℝ} (a : ℝ)
    (h : IsStokesFlow dim m Ω u p) :
    IsStokesFlow dim m Ω (fun c x => a * u c x) (fun x => a * p x) := by
  obtain ⟨du, ddu, dp, hx⟩ := h
  refine ⟨fun c i x => a * du c i x, fun c i x => a * ddu c i x,
    fun c x => a * dp c x, fun x hΩ => ?_⟩
  obtain ⟨h1, h2, h3, h4⟩ := hx x hΩ
  refine ⟨fun c hc i hi => ⟨(h1 c hc i hi).1.smul a, (h1 c hc i hi).2.smul a⟩,
    fun c hc => (h2 c hc).smul a, ?_, fun c hc => ?_⟩
  · rw [← Finset.mul_sum, h3, mul_zero]
  · simp only
    rw [← Finset.mul_sum, ← h4 c hc]
    ring

theorem IsStokesFlow.constant (dim : Nat) (m : ℝ) (Ω : Pt → Prop) (a : Nat → ℝ) :
    IsStokesFlow dim m Ω (fun c _ => a c) (fun _ => 0) :=
  ⟨fun _ _ _ => 0, fun _ _ _ => 0, fun _ _ => 0, fun x _ =>
    ⟨fun _ _ _ _ => ⟨HasPartial.const _ _ _, HasPartial.const _ _ _⟩, fun _ _ => HasPartial.const _ _ _,
      by simp, fun _ _ => by simp⟩⟩

theorem IsStokesFlow.listSum {ι : Type} {dim : Nat} {m : ℝ} {Ω : Pt → Prop} (l : List ι)
    (u : ι → Nat → Pt → ℝ) (p : ι → Pt → ℝ) (h : ∀ a ∈ l, IsStokesFlow dim m Ω (u a) (p a)) :
    IsStokesFlow dim m Ω (fun c x => (l.map (fun a => u a c x)).sum)
      (fun x => (l.map (fun a => p a x)).sum) := by
  induction l with
  | nil => exact IsStokesFlow.constant dim m Ω (fun _ => 0)
  | cons a t ih =>
    simp only [List.map_cons, List.sum_cons]
    exact (h a (List.mem_cons_self ..)).add (ih (fun b hb => h b (List.mem_cons_of_mem _ hb)))

theorem off_pos {dim : Nat} {src : List (Pt × ℝ)} {x : Pt} (h : Off dim src x) {s : Pt × ℝ} (hs : s ∈ src) :
    0 < sq dim (fun a => x a - s.1 a) := by
  obtain ⟨k, hk, hne⟩ := h s hs
  unfold sq
  refine Finset.sum_pos' (fun i _ => sq_nonneg _) ⟨k, Finset.mem_range.2 hk, ?_⟩
  have : x k - s.1 k ≠ 0 := sub_ne_zero.2 hne
  positivity

/-! ## Fields of one source -/

/-- derivatives of the field of a source -/
theorem source_partial (k : SK) (m : ℝ) (ds : List Nat) (i : Nat) (hi : i < kdim k)
    (hds : ∀ j ∈ ds, j < kdim k) (y x : Pt) (h : 0 < sq (kdim k) (fun a => x a - y a)) :
    HasPartial (fun z => pds (kernel k m) ds (fun a => z a - y a)) i
      (pds (kernel k m) (i :: ds) (fun a => x a - y a)) x :=
  HasPartial.shift (pds_kernel_partial k m i hi ds hds _ h)

theorem sl_flow (dim : Nat) (hd : dim = 2 ∨ dim = 3) (m : ℝ) (hm : m ≠ 0) (j : Nat) (hj : j < dim) (y : Pt) :
    IsStokesFlow dim m (fun x => 0 < sq dim (fun a => x a - y a))
      (fun c x => pds (kernel (.stokeslet dim c j) m) [] (fun a => x a - y a))
      (fun x => pds (kernel (.laplace dim) 1) [j] (fun a => x a - y a)) := by
  refine ⟨fun c i x => pds (kernel (.stokeslet dim c j) m) [i] (fun a => x a - y a),
    fun c i x => pds (kernel (.stokeslet dim c j) m) [i, i] (fun a => x a - y a),
    fun c x => pds (kernel (.laplace dim) 1) [c, j] (fun a => x a - y a), fun x hx => ⟨?_, ?_, ?_, ?_⟩⟩
  · intro c hc i hi
    exact ⟨source_partial (.stokeslet dim c j) m [] i hi (by simp) y x hx,
      source_partial (.stokeslet dim c j) m [i] i hi (by simpa [kdim] using hi) y x hx⟩
  · intro c hc
    exact source_partial (.laplace dim) 1 [j] c hc (by simpa [kdim] using hj) y x hx
  · exact sl_div dim hd m j hj _ hx
  · intro c hc
    exact sl_momentum dim hd m hm j c hj hc _ hx

theorem dl_flow (dim : Nat) (hd : dim = 2 ∨ dim = 3) (m : ℝ) (i j : Nat) (hi : i < dim) (hj : j < dim) (y : Pt) :
    IsStokesFlow dim m (fun x => 0 < sq dim (fun a => x a - y a))
      (fun c x => pds (kernel (.stresslet dim c i j) m) [] (fun a => x a - y a))
      (fun x => 2 * m * pds (kernel (.laplace dim) 1) [i, j] (fun a => x a - y a)) := by
  refine ⟨fun c k x => pds (kernel (.stresslet dim c i j) m) [k] (fun a => x a - y a),
    fun c k x => pds (kernel (.stresslet dim c i j) m) [k, k] (fun a => x a - y a),
    fun c x => 2 * m * pds (kernel (.laplace dim) 1) [c, i, j] (fun a => x a - y a),
    fun x hx => ⟨?_, ?_, ?_, ?_⟩⟩
  · intro c hc k hk
    exact ⟨source_partial (.stresslet dim c i j) m [] k hk (by simp) y x hx,
      source_partial (.stresslet dim c i j) m [k] k hk (by simpa [kdim] using hk) y x hx⟩
  · intro c hc
    exact HasPartial.smul (2 * m)
      (source_partial (.laplace dim) 1 [i, j] c hc (by simp [kdim, hi, hj]) y x hx)
  · exact dl_div dim hd m i j hi hj _ hx
  · intro c hc
    exact dl_momentum dim hd m i j c hi hj hc _ hx

/-! ## Fields of many sources -/

/-- potentials of many sources: derivatives -/
theorem quad_partial (src : List (Pt × ℝ)) (k : SK) (ds : List Nat) (i : Nat) (hi : i < kdim k)
    (hds : ∀ j ∈ ds, j < kdim k) (lim : Lim) (mu : Option (Val ℝ Pt)) (ρ : Val ℝ Pt) (x : Pt)
    (h : Off (kdim k) src x) :
    HasPartial ((quad src).G k ds lim mu ρ) i ((quad src).G k (i :: ds) lim mu ρ x) x := by
  refine HasPartial.listSum src (fun s z => s.2 * pds (kernel k (visc mu s.1)) ds
    (fun a => z a - s.1 a) * ρ s.1) i _ x (fun s hs => ?_)
  have h1 := (source_partial k (visc mu s.1) ds i hi hds s.1 x
    (off_pos h hs)).smul (s.2 * ρ s.1)
  have e : (fun z : Pt => s.2 * ρ s.1 * pds (kernel k (visc mu s.1)) ds
      (fun a => z a - s.1 a)) = (fun z : Pt => s.2 * pds (kernel k (visc mu s.1)) ds
    (fun a => z a - s.1 a) * ρ s.1) := by
    funext z
    ring
  rw [e] at h1
  exact h1.congr_val (by ring)

theorem kernel_symm (d i j : Nat) (m : ℝ) : kernel (.stokeslet d i j) m = kernel (.stokeslet d j i) m := by
  funext x
  have : kron i j = kron j i := by
    unfold kron
    by_cases h : i = j
    · simp [h]
    · simp [h, Ne.symm h]
  simp only [kernel, this, mul_comm (x i) (x j)]

theorem quad_symm (src : List (Pt × ℝ)) : Symm (quad src) where
  sl d i j := by
    funext ds lim mu ρ x
    simp only [quad, kernel_symm d i j]
  dl12 d i j k := by
    have : ∀ m, kernel (.stresslet d i j k) m = kernel (.stresslet d j i k) m := fun m => by
      funext x
      simp only [kernel, mul_comm (x i) (x j)]
    funext ds lim mu ρ x
    simp only [quad, this]
  dl23 d i j k := by
    have : ∀ m, kernel (.stresslet d i j k) m = kernel (.stresslet d i k j) m := fun m => by
      funext x
      simp only [kernel, mul_assoc, mul_left_comm (x j) (x k)]
    funext ds lim mu ρ x
    simp only [quad, this]

end Verif.Flow
