import Verif.QBX.RefineGeom
import Mathlib.Tactic.IntervalCases

/-!
# Refinement does not make association pick own centers (C77, C85)

Direct evaluation of a layer potential on its source uses for each node the center of that node; the FMM uses the center that target
association picks.  Stage-1 refinement admits nodes inside the expansion disk of another node, as long as they are farther than
`1 - tol` radii from its center, and then association prefers that center to the node's own one.
-/

namespace Verif.RefineGeom

open Verif.AreaQuery Verif.QTree Verif.Checks Verif.Refine Verif.TargetAssoc

section
variable {M D : Type} (W : World M D)

/-- C85: **which center serves a node**: one of the requested side; and no center on the same side of the surface whose enlarged disk
contains the node is nearer to it relative to its radius. -/
theorem C85_nearest (h : W.OK) (d : D) (ttol : ℝ) (ht : 0 ≤ ttol) (nt : Nat) (x : Nat → Nat → ℝ)
    (flag : Nat → Int) (elem : Nat → Nat) (ttc : List Int) (hrun : (W.scene d ttol nt x flag elem).run = .ok ttc) (t : Nat)
    (htlt : t < nt) (n : Nat) (hn : n < W.nnodes d) (hx : x t = W.node d n) :
    ∃ m < W.nnodes d, ∃ b < 2, ttc[t]? = some (((2 * m + b : Nat)) : Int) ∧
      (0 < flag t → b = 1) ∧ (flag t < 0 → b = 0) ∧
      ∀ m' < W.nnodes d, edist W.dim (W.center d (2 * m' + b)) (x t) ≤ W.radius d m' * (1 + ttol) →
        edist W.dim (W.center d (2 * m + b)) (x t) / W.radius d m
          ≤ edist W.dim (W.center d (2 * m' + b)) (x t) / W.radius d m' := by
  have wf := scene_wf W h d ttol ht nt x flag elem
  obtain ⟨g1, -⟩ := C31_geometry (W.scene d ttol nt x flag elem) wf
  obtain ⟨m0, hm0, b0, hb0, hget, hp, hm, -⟩ := (C85_surface_targets W h d ttol ht nt x flag elem).2 ttc hrun t htlt ⟨n, hn, hx⟩
  have hne : (((2 * m0 + b0 : Nat)) : Int) ≠ -1 := by omega
  obtain ⟨c, hc, hvc, hserve, hbest, -⟩ := C30_geometry (W.scene d ttol nt x flag elem) wf ttc hrun t htlt _ hget hne
  have hc0 : c = 2 * m0 + b0 := by omega
  subst hc0
  refine ⟨m0, hm0, b0, hb0, hget, hp, hm, ?_⟩
  intro m' hm' hd
  have hp1 : 0 < 1 + ttol := by positivity
  have hdist : ∀ m < W.nnodes d, edist W.dim ((W.scene d ttol nt x flag elem).pos (W.nnodes d + (2 * m + b0)))
      ((W.scene d ttol nt x flag elem).pos (W.nnodes d + 2 * W.nnodes d + t)) = edist W.dim (W.center d (2 * m + b0)) (x t) := by
    intro m hm
    rw [scene_center W d ttol nt x flag elem _ (by omega), scene_target]
  have hrel : ∀ m < W.nnodes d, (W.scene d ttol nt x flag elem).relDist t (2 * m + b0)
      = edist W.dim (W.center d (2 * m + b0)) (x t) / (W.radius d m * (1 + ttol)) := by
    intro m hm
    have e1 : (2 * m + b0) / 2 = m := by omega
    show edist W.dim ((W.scene d ttol nt x flag elem).pos (W.nnodes d + (2 * m + b0)))
      ((W.scene d ttol nt x flag elem).pos (W.nnodes d + 2 * W.nnodes d + t)) / (W.radius d ((2 * m + b0) / 2) * (1 + ttol)) = _
    rw [hdist m hm, e1]
  have hs : ∀ m, side (2 * m + b0) = if b0 = 0 then -1 else 1 := fun m => side_b m b0 hb0
  have hle := hbest (2 * m' + b0) (by show _ < 2 * W.nnodes d; omega) ⟨by
      have := hserve.1
      rw [hs] at this ⊢
      exact this, by
      have e1 : (2 * m' + b0) / 2 = m' := by omega
      show edist W.dim ((W.scene d ttol nt x flag elem).pos (W.nnodes d + (2 * m' + b0)))
        ((W.scene d ttol nt x flag elem).pos (W.nnodes d + 2 * W.nnodes d + t)) ≤ W.radius d ((2 * m' + b0) / 2) * (1 + ttol)
      rw [hdist m' hm', e1]
      exact hd⟩ (by rw [hs, hs])
  rw [hrel m0 hm0, hrel m' hm'] at hle
  have r0 := radius_pos W h d m0 hm0
  have r1 := radius_pos W h d m' hm'
  rw [div_le_div_iff₀ (by positivity) (by positivity)] at hle ⊢
  have : edist W.dim (W.center d (2 * m0 + b0)) (x t) * W.radius d m' * (1 + ttol)
      ≤ edist W.dim (W.center d (2 * m' + b0)) (x t) * W.radius d m0 * (1 + ttol) := by linarith
  exact le_of_mul_le_mul_right this hp1

end

/-! ## the witness: two elements of size 2 with one node each, the second slightly above the first -/

/-- nodes at `(0, 0)` and `(0.2772, 0.0496)`, normals upward, radii 1 -/
noncomputable def exStep : World Unit Unit where
  dim := 2
  nel := fun _ => 2
  refineMesh := fun m _ => m
  mkDiscr := fun m => m
  meshOf := fun m => m
  quadDiscr := fun m => m
  groups := fun _ => [⟨2, 1⟩]
  node := fun _ n i => if n = 0 then 0 else if i = 0 then 2772 / 10000 else 496 / 10000
  normal := fun _ _ i => if i = 0 then 0 else 1
  size := fun _ _ => 2
  curvAt := fun _ _ => 0
  tree := exTree

theorem exStep_ok : exStep.OK where
  factory := fun _ => rfl
  quad := fun _ => rfl
  nel := fun d => by simp [exStep, nelements]
  unit_pos := fun d g hg => by
    have : g = ⟨2, 1⟩ := List.mem_singleton.1 hg
    rw [this]; exact Nat.one_pos
  normal := fun d n _ => by
    show ∑ i ∈ Finset.range 2, (if i = 0 then (0 : ℝ) else 1) ^ 2 = 1
    simp [Finset.sum_range_succ]
  size := fun d n _ => by show (0 : ℝ) < 2; norm_num
  tree := exTree_ok

theorem exStep_nnodes : exStep.nnodes () = 2 := by simp [World.nnodes, ndofs, exStep]

theorem exStep_radius (n : Nat) : exStep.radius () n = 1 := by
  simp [World.radius, exStep]

theorem exStep_edist (c s : Nat) : edist 2 (exStep.center () c) (exStep.node () s) =
    Real.sqrt (((if c / 2 = 0 then 0 else 2772 / 10000) - (if s = 0 then 0 else 2772 / 10000)) ^ 2 +
      ((if c / 2 = 0 then 0 else 496 / 10000) + (if c % 2 = 0 then -1 else 1) - (if s = 0 then 0 else 496 / 10000)) ^ 2) := by
  rw [edist, Finset.sum_range_succ, Finset.sum_range_one]
  simp only [World.center, exStep_radius]
  simp [exStep]

/-- all nodes are at least `0.99` radii away from all centers -/
theorem exStep_far (m b s : Nat) (hm : m < 2) (hb : b < 2) (hs : s < 2) :
    99 / 100 ≤ edist 2 (exStep.center () (2 * m + b)) (exStep.node () s) := by
  rw [exStep_edist]
  apply Real.le_sqrt_of_sq_le
  interval_cases m <;> interval_cases b <;> interval_cases s <;> norm_num

/-- the second node is at exactly `0.99` radii from the upper center of the first -/
theorem exStep_near : edist 2 (exStep.center () (2 * 0 + 1)) (exStep.node () 1) = 99 / 100 := by
  rw [exStep_edist]
  rw [show (99 / 100 : ℝ) = Real.sqrt ((99 / 100) ^ 2) by rw [Real.sqrt_sq (by norm_num)]]
  congr 1
  norm_num

theorem exStep_own : edist 2 (exStep.center () (2 * 1 + 1)) (exStep.node () 1) = 1 := by
  rw [exStep_edist]
  rw [show (1 : ℝ) = Real.sqrt (1 ^ 2) by rw [Real.sqrt_sq (by norm_num)]]
  congr 1
  norm_num

/-- refinement with the default tolerance has nothing to complain about -/
theorem exStep_stage1 (ord : List Nat → List Nat) (hord : ∀ l, (ord l).Perm l) :
    exStep.stage1 ord ⟨.refine, none, none, 10, 0⟩ (1 / 40) () = .ok (.done () [] none) := by
  classical
  have h4 : (Refine.checks1 ord (exStep.env (1 / 40)) ⟨.refine, none, none, 10, 0⟩ ()).2 = [] := by
    rw [(checks1_spec ord hord _ _ _).1]
    intro i hi c hc
    cases hc with
    | lengthScale t h1 h2 => cases h1
    | curvature t h1 h2 => cases h1
    | disks h1 =>
      simp only [World.env, decide_eq_true_eq] at h1
      obtain ⟨n, b, hn, hb, s, hs, hd⟩ := h1
      have hn' := (nodeOf_lt _ _ _ hn).1
      have hn4 : n < exStep.nnodes () := hn'
      have hs4 : s < exStep.nnodes () := hs
      rw [Disturbs, geo_source exStep () () s hs] at hd
      have e1 : (exStep.geo () ()).pos ((exStep.geo () ()).ns + (2 * n + b)) = exStep.center () (2 * n + b) :=
        geo_center exStep () () _ (by omega)
      rw [e1] at hd
      have hd' : edist 2 (exStep.center () (2 * n + b)) (exStep.node () s)
          ≤ (1 - 1 / 40) * exStep.radius () ((2 * n + b) / 2) := hd
      rw [exStep_nnodes] at hn4 hs4
      have hle := exStep_far n b s hn4 hb hs4
      rw [exStep_radius] at hd'
      norm_num at hd' hle
      linarith
  rw [stage1_eq exStep ord hord exStep_ok]
  unfold Refine.stage1
  rw [if_neg (by simp), Refine.loop, if_neg (by simp), if_pos h4]

/-- **C77 is false for refined geometries too**: a geometry that stage-1 refinement with the default tolerance returns without a
warning, on which the FMM evaluates a layer potential at one of its own nodes through the center of another node (the association, for
every tolerance and any other targets), where direct evaluation uses the node's own center `2 * 1 + 1`. -/
theorem C77_refined_refuted (ord : List Nat → List Nat) (hord : ∀ l, (ord l).Perm l) : exStep.OK ∧
    exStep.stage1 ord ⟨.refine, none, none, 10, 0⟩ (1 / 40) () = .ok (.done () [] none) ∧
    ∀ (ttol : ℝ), 0 ≤ ttol → ∀ (nt : Nat) (x : Nat → Nat → ℝ) (flag : Nat → Int) (elem : Nat → Nat) (t : Nat), t < nt →
      x t = exStep.node () 1 → 0 < flag t → ∀ ttc, (exStep.scene () ttol nt x flag elem).run = .ok ttc →
        ttc[t]? = some 1 ∧ exStep.center () 1 ≠ exStep.center () (2 * 1 + 1) := by
  refine ⟨exStep_ok, exStep_stage1 ord hord, ?_⟩
  intro ttol ht nt x flag elem t htlt hx hf ttc hrun
  obtain ⟨m, hm, b, hb, hget, hp, -, hbest⟩ := C85_nearest exStep exStep_ok () ttol ht nt x flag elem ttc hrun t htlt 1
    (by rw [exStep_nnodes]; omega) hx
  obtain rfl := hp hf
  rw [exStep_nnodes] at hm
  have h0 := hbest 0 (by rw [exStep_nnodes]; omega)
  rw [hx] at h0
  have hdim : exStep.dim = 2 := rfl
  rw [hdim, exStep_near, exStep_radius] at h0
  refine ⟨?_, ?_⟩
  · have h1 := h0 (by linarith)
    rw [exStep_radius] at h1
    have hm0 : m = 0 := by
      by_contra hne
      have hm1 : m = 1 := by omega
      rw [hm1, exStep_own] at h1
      norm_num at h1
    rw [hget, hm0]
    rfl
  · intro hc
    have := congrFun hc 0
    simp only [World.center, exStep_radius] at this
    simp only [exStep] at this
    norm_num at this

/-- and association does run there -/
example : ∃ ttc, (exStep.scene () (1 / 1000) 2 (exStep.node ()) (fun _ => 1) (fun _ => 0)).run = .ok ttc :=
  (C85_surface_targets exStep exStep_ok () (1 / 1000) (by norm_num) 2 (exStep.node ()) (fun _ => 1) (fun _ => 0)).1
    fun t ht => ⟨t, by rw [exStep_nnodes]; exact ht, rfl⟩

end Verif.RefineGeom
