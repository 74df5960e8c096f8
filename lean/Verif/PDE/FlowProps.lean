import Verif.PDE.Flow

/-!
# C84: the Stokes equations, for the potentials returned by the wrappers
-/

namespace Verif.Flow

open Finset Verif.Stokes Real

/-- component `c` of a vector field given as a list -/
def comp (u : List (Val ℝ Pt)) (c : Nat) : Pt → ℝ := u.getD c (fun _ => 0)

theorem comp_range (dim : Nat) (f : Nat → Val ℝ Pt) (c : Nat) (hc : c < dim) :
    comp ((List.range dim).map f) c = f c := by
  unfold comp
  simp [List.getD, hc]

theorem sl_quad_flow (dim : Nat) (hd : dim = 2 ∨ dim = 3) (src : List (Pt × ℝ)) (m : ℝ) (hm : m ≠ 0)
    (lim lim' : Lim) (σ : List (Val ℝ Pt)) :
    IsStokesFlow dim m (Off dim src) (slSpec (quad src) dim [] σ (fun _ => m) lim)
      (fun x => sumAxes dim (fun i => (quad src).G (.laplace dim) [i] lim' none (σ.getD i (fun _ => 0)) x)) := by
  unfold slSpec sumAxes
  refine IsStokesFlow.listSum (List.range dim) (fun i c x =>
    (quad src).G (.stokeslet dim c i) [] lim (some (fun _ => m)) (σ.getD i (fun _ => 0)) x)
    (fun i x => (quad src).G (.laplace dim) [i] lim' none (σ.getD i (fun _ => 0)) x) (fun i hi => ?_)
  refine IsStokesFlow.listSum src (fun s c x => s.2 * pds (kernel (.stokeslet dim c i) m) [] (fun a => x a - s.1 a)
    * (σ.getD i (fun _ => 0)) s.1) (fun s x => s.2 * pds (kernel (.laplace dim) 1) [i] (fun a => x a - s.1 a)
    * (σ.getD i (fun _ => 0)) s.1) (fun s hs => ?_)
  refine (((sl_flow dim hd m hm i (List.mem_range.1 hi) s.1).smul (s.2 * (σ.getD i (fun _ => 0)) s.1)).mono
    (fun x hx => off_pos hx hs)).congr (fun c _ => ?_) ?_
  · funext x
    ring
  · funext x
    ring

theorem dl_quad_flow (dim : Nat) (hd : dim = 2 ∨ dim = 3) (src : List (Pt × ℝ)) (m : ℝ)
    (lim lim' : Lim) (σ normal : List (Val ℝ Pt)) :
    IsStokesFlow dim m (Off dim src) (dlSpec (quad src) dim [] σ normal (fun _ => m) lim)
      (dlPressureSpec (quad src) dim normal σ (fun _ => m) lim') := by
  unfold dlSpec dlPressureSpec sumAxes
  refine IsStokesFlow.listSum (List.range dim) (fun i c x => ((List.range dim).map (fun j =>
    (quad src).G (.stresslet dim c i j) [] lim (some (fun _ => m))
      (fun z => normal.getD i (fun _ => 0) z * σ.getD j (fun _ => 0) z) x)).sum)
    (fun i x => ((List.range dim).map (fun j => 2 * m * (quad src).G (.laplace dim) [i, j] lim' none
      (fun z => normal.getD i (fun _ => 0) z * σ.getD j (fun _ => 0) z) x)).sum) (fun i hi => ?_)
  refine IsStokesFlow.listSum (List.range dim) (fun j c x =>
    (quad src).G (.stresslet dim c i j) [] lim (some (fun _ => m))
      (fun z => normal.getD i (fun _ => 0) z * σ.getD j (fun _ => 0) z) x)
    (fun j x => 2 * m * (quad src).G (.laplace dim) [i, j] lim' none
      (fun z => normal.getD i (fun _ => 0) z * σ.getD j (fun _ => 0) z) x) (fun j hj => ?_)
  have h := IsStokesFlow.listSum (dim := dim) (m := m) (Ω := Off dim src) src
    (fun s c x => s.2 * pds (kernel (.stresslet dim c i j) m) [] (fun a => x a - s.1 a)
    * (normal.getD i (fun _ => 0) s.1 * σ.getD j (fun _ => 0) s.1))
    (fun s x => 2 * m * (s.2 * pds (kernel (.laplace dim) 1) [i, j] (fun a => x a - s.1 a)
    * (normal.getD i (fun _ => 0) s.1 * σ.getD j (fun _ => 0) s.1))) (fun s hs => by
      refine (((dl_flow dim hd m i j (List.mem_range.1 hi) (List.mem_range.1 hj) s.1).smul
        (s.2 * (normal.getD i (fun _ => 0) s.1 * σ.getD j (fun _ => 0) s.1))).mono
        (fun x hx => off_pos hx hs)).congr (fun c _ => ?_) ?_
      · funext x
        ring
      · funext x
        ring)
  refine h.congr (fun c _ => rfl) ?_
  funext x
  rw [List.sum_map_mul_left]
  rfl

theorem sumAxes_comm (dim : Nat) (f : Nat → Nat → ℝ) :
    sumAxes dim (fun i => sumAxes dim (fun j => f i j)) = sumAxes dim (fun j => sumAxes dim (fun i => f i j)) := by
  have e : ∀ g : Nat → ℝ, sumAxes dim g = ∑ i ∈ range dim, g i := fun g => by
    unfold sumAxes
    induction dim with
    | zero => rfl
    | succ n ih => rw [List.range_succ, List.map_append, List.sum_append, Finset.sum_range_succ, ih]; simp
  simp only [e]
  exact Finset.sum_comm

theorem sumAxes_eq (dim : Nat) (g : Nat → ℝ) : sumAxes dim g = ∑ i ∈ range dim, g i := by
  unfold sumAxes
  induction dim with
  | zero => rfl
  | succ n ih => rw [List.range_succ, List.map_append, List.sum_append, Finset.sum_range_succ, ih]; simp

/-- density and direction of a Stresslet can be exchanged -/
theorem dlSpec_swap (src : List (Pt × ℝ)) (dim : Nat) (ds : List Nat) (σ normal : List (Val ℝ Pt))
    (mu : Val ℝ Pt) (lim : Lim) :
    dlSpec (quad src) dim ds σ normal mu lim = dlSpec (quad src) dim ds normal σ mu lim := by
  funext c x
  unfold dlSpec
  rw [sumAxes_comm]
  congr 1
  funext i
  congr 1
  funext j
  rw [(quad_symm src).dl23 dim c j i]
  congr 1
  funext z
  exact mul_comm _ _

/-- target derivatives of a Stokeslet potential -/
theorem sl_quad_partial (dim : Nat) (src : List (Pt × ℝ)) (mu : Val ℝ Pt) (lim : Lim) (σ : List (Val ℝ Pt))
    (ds : List Nat) (hds : ∀ j ∈ ds, j < dim) (c i : Nat) (hi : i < dim) (x : Pt) (hx : Off dim src x) :
    HasPartial (slSpec (quad src) dim ds σ mu lim c) i (slSpec (quad src) dim (i :: ds) σ mu lim c x) x :=
  HasPartial.listSum (List.range dim) _ i _ x (fun j _ =>
    quad_partial src (.stokeslet dim c j) ds i hi hds lim (some mu) _ x hx)

/-- target derivatives of a Stresslet potential -/
theorem dl_quad_partial (dim : Nat) (src : List (Pt × ℝ)) (mu : Val ℝ Pt) (lim : Lim) (σ normal : List (Val ℝ Pt))
    (ds : List Nat) (hds : ∀ j ∈ ds, j < dim) (c i : Nat) (hi : i < dim) (x : Pt) (hx : Off dim src x) :
    HasPartial (dlSpec (quad src) dim ds σ normal mu lim c) i
      (dlSpec (quad src) dim (i :: ds) σ normal mu lim c x) x :=
  HasPartial.listSum (List.range dim) _ i _ x (fun k _ =>
    HasPartial.listSum (List.range dim) _ i _ x (fun j _ =>
      quad_partial src (.stresslet dim c k j) ds i hi hds lim (some mu) _ x hx))

/-- **C84, Stokeslet.**  In two and three dimensions, for every set of weighted sources, all densities and
every viscosity, away from the sources: velocity `apply` and pressure `apply_pressure` satisfy the Stokes
equations; `apply_derivative` returns the derivatives of the velocity; and `apply_stress` returns the
stress `-p δ_ci + mu (∂_i u_c + ∂_c u_i)` of this flow applied to the direction. -/
theorem C84_stokeslet (dim : Nat) (hd : dim = 2 ∨ dim = 3) (src : List (Pt × ℝ)) (m : ℝ) (hm : m ≠ 0)
    (lim : Lim) (σ dir : List (Val ℝ Pt)) (hσ : σ.length = dim) (hdir : dir.length = dim) :
    ∃ u p s, stokesletApply (quad src) dim [] σ (fun _ => m) lim = .ok u ∧
      stokesletPressure (quad src) dim σ lim = .ok p ∧
      stokesletStress (quad src) dim σ dir (fun _ => m) lim = .ok s ∧
      IsStokesFlow dim m (Off dim src) (comp u) p ∧
      (∀ i < dim, ∃ g, stokesletApply (quad src) dim [i] σ (fun _ => m) lim = .ok g ∧
        ∀ x, Off dim src x → ∀ c < dim, HasPartial (comp u c) i (comp g c x) x) ∧
      ∀ x, Off dim src x → ∀ c < dim,
        comp s c x = ∑ i ∈ range dim, stress m (comp u) p c i x * comp dir i x := by
  have hS := quad_symm src
  refine ⟨_, _, _, C61_stokeslet (quad src) hS dim hd [] σ (fun _ => m) lim hσ,
    C61_stokeslet_pressure (quad src) dim hd σ lim hσ,
    C61_stokeslet_stress (quad src) hS dim hd σ dir (fun _ => m) lim hσ hdir, ?_, ?_, ?_⟩
  · exact (sl_quad_flow dim hd src m hm lim lim σ).congr (fun c hc => comp_range dim _ c hc) rfl
  · intro i hi
    refine ⟨_, C61_stokeslet (quad src) hS dim hd [i] σ (fun _ => m) lim hσ, fun x hx c hc => ?_⟩
    rw [comp_range dim _ c hc, comp_range dim _ c hc]
    exact sl_quad_partial dim src _ lim σ [] (by simp) c i hi x hx
  · intro x hx c hc
    rw [comp_range dim _ c hc, sumAxes_eq]
    refine Finset.sum_congr rfl (fun i hi => ?_)
    have hi' := Finset.mem_range.1 hi
    have e : ∀ a < dim, comp ((List.range dim).map (slSpec (quad src) dim [] σ (fun _ => m) lim)) a
        = slSpec (quad src) dim [] σ (fun _ => m) lim a := fun a ha => comp_range dim _ a ha
    unfold stress
    rw [e c hc, e i hi', (sl_quad_partial dim src (fun _ => m) lim σ [] (by simp) c i hi' x hx).pd_eq,
      (sl_quad_partial dim src (fun _ => m) lim σ [] (by simp) i c hc x hx).pd_eq]
    unfold slSpec
    simp only [sumAxes_eq]
    rw [← Finset.sum_add_distrib, ← Finset.mul_sum, mul_comm _ (comp dir i x)]
    unfold comp
    congr 1
    rw [Finset.mul_sum, Finset.mul_sum, ← Finset.sum_neg_distrib, ← Finset.sum_add_distrib]
    refine Finset.sum_congr rfl (fun j hj => ?_)
    have hj' := Finset.mem_range.1 hj
    simp only [quad]
    have hs : ∀ s ∈ src, s.2 * pds (kernel (.stresslet dim c i j) (visc (some (fun _ => m)) s.1)) []
          (fun a => x a - s.1 a) * (σ.getD j (fun _ => 0)) s.1
        = -(kron c i * (s.2 * pds (kernel (.laplace dim) (visc none s.1)) [j] (fun a => x a - s.1 a)
            * (σ.getD j (fun _ => 0)) s.1))
          + m * (s.2 * pds (kernel (.stokeslet dim c j) (visc (some (fun _ => m)) s.1)) [i] (fun a => x a - s.1 a)
              * (σ.getD j (fun _ => 0)) s.1
            + s.2 * pds (kernel (.stokeslet dim i j) (visc (some (fun _ => m)) s.1)) [c] (fun a => x a - s.1 a)
              * (σ.getD j (fun _ => 0)) s.1) := by
      intro s hs
      have h1 := sl_stress dim hd m hm c i j hc hi' hj' _ (off_pos hx hs)
      have h2 : kernel (.laplace dim) (visc none s.1) = kernel (.laplace dim) m := rfl
      have h3 : visc (some (fun _ : Pt => m)) s.1 = m := rfl
      rw [h2, h3]
      simp only [pds] at h1 ⊢
      rw [h1]
      ring
    rw [List.map_congr_left hs]
    have split : ∀ (l : List (Pt × ℝ)) (f g h : Pt × ℝ → ℝ),
        (l.map (fun s => -(kron c i * f s) + m * (g s + h s))).sum
          = -(kron c i * (l.map f).sum) + m * ((l.map g).sum + (l.map h).sum) := by
      intro l f g h
      induction l with
      | nil => simp
      | cons a t ih =>
        simp only [List.map_cons, List.sum_cons, ih]
        ring
    exact split src _ _ _

/-- **C84, Stresslet.**  In two and three dimensions, for every set of weighted sources, all densities,
directions and viscosities, away from the sources: velocity `apply` and pressure `apply_pressure` satisfy
the Stokes equations; `apply_derivative` returns the derivatives of the velocity; and `apply_stress`
returns the stress of this flow applied to the direction. -/
theorem C84_stresslet (dim : Nat) (hd : dim = 2 ∨ dim = 3) (src : List (Pt × ℝ)) (m : ℝ)
    (lim : Lim) (σ normal dir : List (Val ℝ Pt)) (hσ : σ.length = dim) (hn : normal.length = dim)
    (hdir : dir.length = dim) :
    ∃ u p s, stressletApply (quad src) dim [] σ normal (fun _ => m) lim = .ok u ∧
      stressletPressure (quad src) dim σ normal (fun _ => m) lim = .ok p ∧
      stressletStress (quad src) dim σ normal dir (fun _ => m) lim = .ok s ∧
      IsStokesFlow dim m (Off dim src) (comp u) p ∧
      (∀ i < dim, ∃ g, stressletApply (quad src) dim [i] σ normal (fun _ => m) lim = .ok g ∧
        ∀ x, Off dim src x → ∀ c < dim, HasPartial (comp u c) i (comp g c x) x) ∧
      ∀ x, Off dim src x → ∀ c < dim,
        comp s c x = ∑ i ∈ range dim, stress m (comp u) p c i x * comp dir i x := by
  have hS := quad_symm src
  refine ⟨_, _, _, C61_stresslet (quad src) hS dim hd [] σ normal (fun _ => m) lim hσ hn,
    C61_stresslet_pressure (quad src) dim hd σ normal (fun _ => m) lim hσ hn,
    C61_stresslet_stress (quad src) hS dim hd σ normal dir (fun _ => m) lim hσ hn hdir, ?_, ?_, ?_⟩
  · refine (dl_quad_flow dim hd src m lim lim normal σ).congr (fun c hc => ?_) rfl
    rw [comp_range dim _ c hc, dlSpec_swap]
  · intro i hi
    refine ⟨_, C61_stresslet (quad src) hS dim hd [i] σ normal (fun _ => m) lim hσ hn, fun x hx c hc => ?_⟩
    rw [comp_range dim _ c hc, comp_range dim _ c hc]
    exact dl_quad_partial dim src _ lim σ normal [] (by simp) c i hi x hx
  · intro x hx c hc
    rw [comp_range dim _ c hc, sumAxes_eq]
    have e : ∀ a < dim, comp ((List.range dim).map (dlSpec (quad src) dim [] σ normal (fun _ => m) lim)) a
        = dlSpec (quad src) dim [] σ normal (fun _ => m) lim a := fun a ha => comp_range dim _ a ha
    have e2 : ∀ i ∈ range dim, stress m
        (comp ((List.range dim).map (dlSpec (quad src) dim [] σ normal (fun _ => m) lim)))
        (dlPressureSpec (quad src) dim σ normal (fun _ => m) lim) c i x * comp dir i x
        = -(if c = i then dlPressureSpec (quad src) dim σ normal (fun _ => m) lim x * comp dir i x else 0)
          + m * (dlSpec (quad src) dim [i] σ normal (fun _ => m) lim c x
            + dlSpec (quad src) dim [c] σ normal (fun _ => m) lim i x) * comp dir i x := by
      intro i hi
      have hi' := Finset.mem_range.1 hi
      unfold stress
      rw [e c hc, e i hi', (dl_quad_partial dim src (fun _ => m) lim σ normal [] (by simp) c i hi' x hx).pd_eq,
        (dl_quad_partial dim src (fun _ => m) lim σ normal [] (by simp) i c hc x hx).pd_eq]
      unfold kron
      split_ifs <;> ring
    rw [Finset.sum_congr rfl e2, Finset.sum_add_distrib, Finset.sum_neg_distrib,
      Finset.sum_ite_eq (range dim) c (fun i => dlPressureSpec (quad src) dim σ normal (fun _ => m) lim x
        * comp dir i x), if_pos (Finset.mem_range.2 hc)]
    unfold comp
    ring

/-- **C84, Hebeker.**  The velocity of the exterior operator in space is a Stokes flow; its pressure, a
method that is not implemented, is minus the Stresslet pressure minus `eta` times the Stokeslet
pressure. -/
theorem C84_hebeker (eta : ℝ) (src : List (Pt × ℝ)) (m : ℝ) (hm : m ≠ 0) (lim : Lim) (σ normal : List (Val ℝ Pt))
    (hσ : σ.length = 3) (hn : normal.length = 3) :
    ∃ v p q, hebVelocity eta (quad src) σ normal (fun _ => m) lim = .ok v ∧
      stressletPressure (quad src) 3 σ normal (fun _ => m) lim = .ok p ∧
      stokesletPressure (quad src) 3 σ lim = .ok q ∧
      IsStokesFlow 3 m (Off 3 src) (comp v) (fun x => -(p x + eta * q x)) := by
  have hS := quad_symm src
  have hv : hebVelocity eta (quad src) σ normal (fun _ => m) lim = .ok ((List.range 3).map (fun c n =>
      - (dlSpec (quad src) 3 [] σ normal (fun _ => m) lim c n
        + eta * slSpec (quad src) 3 [] σ (fun _ => m) (slpLim lim) c n))) := by
    unfold hebVelocity
    rw [hebOp_eq eta (quad src) hS σ normal _ _ hσ hn]
    simp only [bind, Except.bind, pure, Except.pure]
    rw [List.map_map]
    rfl
  refine ⟨_, _, _, hv, C61_stresslet_pressure (quad src) 3 (Or.inr rfl) σ normal (fun _ => m) lim hσ hn,
    C61_stokeslet_pressure (quad src) 3 (Or.inr rfl) σ lim hσ, ?_⟩
  have h := ((dl_quad_flow 3 (Or.inr rfl) src m lim lim normal σ).add
    ((sl_quad_flow 3 (Or.inr rfl) src m hm (slpLim lim) lim σ).smul eta)).smul (-1)
  refine h.congr (fun c hc => ?_) ?_
  · rw [comp_range 3 _ c hc, ← dlSpec_swap]
    funext x
    ring
  · funext x
    ring

/-- **C84, Hsiao–Kress.**  The velocity of the exterior operator in the plane is a Stokes flow. -/
theorem C84_hsiao_kress (h : HK ℝ Pt) (src : List (Pt × ℝ)) (m : ℝ) (hm : m ≠ 0) (lim : Lim)
    (σ normal : List (Val ℝ Pt)) (hσ : σ.length = 2) (hn : normal.length = 2) (ho : h.omega.length = 2) :
    ∃ v, h.velocity (quad src) σ normal (fun _ => m) lim = .ok v ∧
      ∃ p, IsStokesFlow 2 m (Off 2 src) (comp v) p := by
  have hS := quad_symm src
  refine ⟨_, C61_hsiao_kress_velocity h (quad src) hS σ normal (fun _ => m) lim hσ hn ho, ?_⟩
  have h1 := (sl_quad_flow 2 (Or.inl rfl) src m hm lim lim
    (h.omega.map (fun w n => - w n / (quad src).integral (fun _ => 1)))).smul (-1)
  have h2 := (dl_quad_flow 2 (Or.inl rfl) src m lim lim normal σ).smul (-1)
  have h3 := IsStokesFlow.constant 2 m (Off 2 src) (fun c => -(h.eta * (h.alpha / (2 * (quad src).pi)
    * (quad src).integral (σ.getD c (fun _ => 0)))))
  have h4 := (sl_quad_flow 2 (Or.inl rfl) src m hm (match lim with | .avg => .on .plus | l => l) lim
    (σ.map (fun s z => s z - (quad src).integral s / (quad src).integral (fun _ => 1)))).smul h.eta
  refine ⟨_, (((h1.add h2).add h3).add h4).congr (fun c hc => ?_) rfl⟩
  rw [comp_range 2 _ c hc, ← dlSpec_swap]
  funext x
  cases lim <;> (simp only; ring)

/-! ## The theorems are about something -/

/-- two sources in space -/
def exSrc : List (Pt × ℝ) := [(fun _ => 0, 1), (fun k => if k = 0 then 2 else 0, 3)]

/-- a point away from both -/
def exPt : Pt := fun k => if k = 1 then 1 else 0

theorem ex_off : Off 3 exSrc exPt := by
  intro s hs
  simp only [exSrc, List.mem_cons, List.not_mem_nil, or_false] at hs
  rcases hs with rfl | rfl
  · exact ⟨1, by decide, by simp [exPt]⟩
  · exact ⟨1, by decide, by simp [exPt]⟩

/-- the pressure of a force along the second axis at the origin, at a point of this axis: the flows of
the theorems are not trivial -/
example : ∃ p, stokesletPressure (quad [(fun _ => 0, 1)]) 3 [fun _ => 0, fun _ => 1, fun _ => 0] .none = .ok p ∧
    p exPt = -(1 / (4 * π)) := by
  refine ⟨_, C61_stokeslet_pressure _ 3 (Or.inr rfl) _ _ rfl, ?_⟩
  have e : (fun a => exPt a - (0 : ℝ)) = exPt := by
    funext a
    simp
  have hsq : sq 3 exPt = 1 := by
    rw [sq3]
    simp [exPt]
  have h := pds_kernel (.laplace 3) 1 [1] (by simp [kdim]) exPt (by rw [show kdim (.laplace 3) = 3 from rfl, hsq]; norm_num)
  have hr : rad 3 exPt = 1 := by
    unfold rad
    rw [hsq, Real.sqrt_one]
  have hv : pds (kernel (.laplace 3) 1) [1] exPt = -(1 / (4 * π)) := by
    rw [h]
    simp only [List.foldr, kx, kdim, if_false, show ¬ (3 = 2) by decide, RX.diff, RX.eval, inv, hr, exPt]
    norm_num
  simp only [sumAxes, quad, visc, e, List.map_cons, List.map_nil, List.sum_cons, List.sum_nil]
  have hl : List.range 3 = [0, 1, 2] := rfl
  rw [hl]
  simp only [List.map_cons, List.map_nil, List.sum_cons, List.sum_nil, List.getD, List.getElem?_cons_zero,
    List.getElem?_cons_succ, Option.getD_some, mul_zero, add_zero, zero_add, mul_one, one_mul, hv]

end Verif.Flow
