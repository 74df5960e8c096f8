import Mathlib.Analysis.Real.Sqrt
import Mathlib.Tactic.Ring
import Mathlib.Tactic.Linarith
import Mathlib.Tactic.FieldSimp
import Mathlib.Tactic.LinearCombination
import Mathlib.Tactic.NormNum
import Mathlib.Tactic.FinCases
import Mathlib.Algebra.BigOperators.Fin
import Mathlib.Algebra.BigOperators.Ring.Finset
import Mathlib.Algebra.Order.BigOperators.Ring.Finset
import Mathlib.LinearAlgebra.Span.Basic

/-!
# Tangential frames, normals, expansion centers (C45, C55)

Models `tangential_onb`, `xyz_to_tangential`, `tangential_to_xyz`, `project_to_tangential`, `n_dot`,
`cross`, `n_cross` (`pytential/symbolic/primitives.py:2466-2561`) and `pseudoscalar`, `area_element`,
`normal`, `expansion_centers` (`874-936`, `1382-1396`) as the real vectors their expressions evaluate to
at one point.  Floating point rounding is not modelled.
-/

namespace Verif.Frames

/-- vectors at a point in `n`-dimensional space -/
abbrev Vec (n : Nat) := Fin n → ℝ

variable {n : Nat}

/-- `a @ b` -/
def dot (a b : Vec n) : ℝ := ∑ i, a i * b i

/-- inner Gram-Schmidt loop (`primitives.py:2485-2488`): `q = q - (avec @ bvec) * bvec` -/
noncomputable def orth (avec : Vec n) (bs : List (Vec n)) : Vec n :=
  bs.foldl (fun q b => q - dot avec b • b) avec

/-- `q / sqrt(sum(q**2))` (`primitives.py:2491`) -/
noncomputable def normalize (q : Vec n) : Vec n := fun i => q i / √(∑ k, q k ^ 2)

/-- outer Gram-Schmidt loop over the columns of the derivative matrix (`primitives.py:2482-2491`) -/
noncomputable def gramSchmidt (bs : List (Vec n)) : List (Vec n) → List (Vec n)
  | [] => bs
  | a :: as => gramSchmidt (bs ++ [normalize (orth a bs)]) as

/-- `tangential_onb` (`primitives.py:2466-2495`) on the columns of the parametrization derivative -/
noncomputable def tangentialOnb (cols : List (Vec n)) : List (Vec n) := gramSchmidt [] cols

/-- `xyz_to_tangential` (`primitives.py:2498-2507`) -/
noncomputable def xyzToTangential (cols : List (Vec n)) (v : Vec n) : List ℝ :=
  (tangentialOnb cols).map fun b => dot b v

/-- `tangential_to_xyz` (`primitives.py:2510-2518`) -/
noncomputable def tangentialToXyz (cols : List (Vec n)) (t : List ℝ) : Vec n :=
  (List.zipWith (fun b (c : ℝ) => fun i => b i * c) (tangentialOnb cols) t).sum

/-- `project_to_tangential` (`primitives.py:2521-2528`) -/
noncomputable def projectToTangential (cols : List (Vec n)) (v : Vec n) : Vec n :=
  tangentialToXyz cols (xyzToTangential cols v)

/-! ## specification -/

/-- the tangent space: all linear combinations of the columns -/
def tangentSpace (cols : List (Vec n)) : Submodule ℝ (Vec n) := Submodule.span ℝ {v | v ∈ cols}

/-- linear independence of the columns: none is a combination of earlier ones -/
def Independent (cols : List (Vec n)) : Prop :=
  ∀ pre a post, cols = pre ++ a :: post → a ∉ tangentSpace pre

/-- orthonormal list -/
def Orthonormal (bs : List (Vec n)) : Prop :=
  (∀ b ∈ bs, dot b b = 1) ∧ bs.Pairwise fun b c => dot b c = 0

/-! ## lemmas -/

theorem dot_comm (a b : Vec n) : dot a b = dot b a := by
  rw [dot, dot]; exact Finset.sum_congr rfl fun i _ => mul_comm _ _

theorem dot_sub (a b c : Vec n) : dot a (b - c) = dot a b - dot a c := by
  rw [dot, dot, dot, ← Finset.sum_sub_distrib]
  exact Finset.sum_congr rfl fun i _ => by simp [mul_sub]

theorem dot_add (a b c : Vec n) : dot a (b + c) = dot a b + dot a c := by
  rw [dot, dot, dot, ← Finset.sum_add_distrib]
  exact Finset.sum_congr rfl fun i _ => by simp [mul_add]

theorem dot_smul (a : Vec n) (r : ℝ) (b : Vec n) : dot a (r • b) = r * dot a b := by
  rw [dot, dot, Finset.mul_sum]
  exact Finset.sum_congr rfl fun i _ => by simp [mul_left_comm]

theorem dot_zero (a : Vec n) : dot a 0 = 0 := by simp [dot]

theorem dot_self_nonneg (a : Vec n) : 0 ≤ dot a a := Finset.sum_nonneg fun _ _ => mul_self_nonneg _

theorem dot_self_eq_zero (a : Vec n) : dot a a = 0 ↔ a = 0 := by
  constructor
  · intro h
    rw [dot, Finset.sum_eq_zero_iff_of_nonneg fun _ _ => mul_self_nonneg _] at h
    funext i
    exact mul_self_eq_zero.1 (h i (Finset.mem_univ i))
  · rintro rfl; simp [dot]

theorem normalize_eq (q : Vec n) : normalize q = (√(dot q q))⁻¹ • q := by
  funext i
  have : (∑ k, q k ^ 2) = dot q q := Finset.sum_congr rfl fun i _ => by ring
  simp only [normalize, this, Pi.smul_apply, smul_eq_mul]
  rw [div_eq_inv_mul]

/-- the inner loop subtracts the projections onto an orthonormal list -/
theorem orth_perp (a : Vec n) (bs : List (Vec n)) (q : Vec n) (hbs : Orthonormal bs) :
    ∀ b ∈ bs, dot b (bs.foldl (fun q b => q - dot a b • b) q) = dot b q - dot b a := by
  induction bs generalizing q with
  | nil => intro b hb; cases hb
  | cons c bs ih =>
    have hc : dot c c = 1 := hbs.1 c List.mem_cons_self
    have hpw := List.pairwise_cons.1 hbs.2
    have hbs' : Orthonormal bs := ⟨fun b hb => hbs.1 b (List.mem_cons_of_mem _ hb), hpw.2⟩
    -- directions orthogonal to everything subtracted are untouched
    have hskip : ∀ (bs : List (Vec n)) (q : Vec n) (c : Vec n), (∀ b ∈ bs, dot c b = 0) →
        dot c (bs.foldl (fun q b => q - dot a b • b) q) = dot c q := by
      intro bs
      induction bs with
      | nil => intro q c _; rfl
      | cons d bs ih =>
        intro q c h
        rw [List.foldl_cons, ih _ _ (fun b hb => h b (List.mem_cons_of_mem _ hb)), dot_sub, dot_smul,
          h d List.mem_cons_self]
        ring
    intro b hb
    rw [List.foldl_cons]
    rcases List.mem_cons.1 hb with rfl | hb
    · rw [hskip bs _ b hpw.1, dot_sub, dot_smul, hc, dot_comm a b]
      ring
    · rw [ih _ hbs' b hb, dot_sub, dot_smul, dot_comm b c, hpw.1 b hb]
      ring

theorem orth_mem (a : Vec n) (bs : List (Vec n)) (q : Vec n) (W : Submodule ℝ (Vec n)) (h : ∀ b ∈ bs, b ∈ W) :
    q - bs.foldl (fun q b => q - dot a b • b) q ∈ W := by
  induction bs generalizing q with
  | nil => simp
  | cons c bs ih =>
    rw [List.foldl_cons]
    have h1 := ih (q - dot a c • c) (fun b hb => h b (List.mem_cons_of_mem _ hb))
    have h2 : dot a c • c ∈ W := W.smul_mem _ (h c List.mem_cons_self)
    have := W.add_mem h1 h2
    convert this using 1
    abel

theorem gramSchmidt_spec (as pre bs : List (Vec n)) (hbs : Orthonormal bs)
    (hspan : Submodule.span ℝ {v | v ∈ bs} = tangentSpace pre) (hlen : bs.length = pre.length)
    (hind : ∀ p a post, as = p ++ a :: post → a ∉ tangentSpace (pre ++ p)) :
    Orthonormal (gramSchmidt bs as) ∧
    Submodule.span ℝ {v | v ∈ gramSchmidt bs as} = tangentSpace (pre ++ as) ∧
    (gramSchmidt bs as).length = (pre ++ as).length := by
  induction as generalizing pre bs with
  | nil => rw [gramSchmidt, List.append_nil]; exact ⟨hbs, hspan, hlen⟩
  | cons a as ih =>
    rw [gramSchmidt]
    have ha : a ∉ tangentSpace pre := by simpa using hind [] a as rfl
    have hmem : a - orth a bs ∈ Submodule.span ℝ {v | v ∈ bs} :=
      orth_mem a bs a _ fun b hb => Submodule.subset_span hb
    have hq : orth a bs ≠ 0 := by
      intro h0
      rw [h0, sub_zero, hspan] at hmem
      exact ha hmem
    have hqq : 0 < dot (orth a bs) (orth a bs) :=
      lt_of_le_of_ne (dot_self_nonneg _) (fun h => hq ((dot_self_eq_zero _).1 h.symm))
    have hs : 0 < √(dot (orth a bs) (orth a bs)) := Real.sqrt_pos.2 hqq
    have hperp : ∀ b ∈ bs, dot b (orth a bs) = 0 := by
      intro b hb
      rw [orth, orth_perp a bs a hbs b hb]
      ring
    have hunit : dot (normalize (orth a bs)) (normalize (orth a bs)) = 1 := by
      rw [normalize_eq, dot_smul, dot_comm ((√(dot (orth a bs) (orth a bs)))⁻¹ • orth a bs), dot_smul,
        ← mul_assoc, ← mul_inv, Real.mul_self_sqrt hqq.le,
        inv_mul_cancel₀ (ne_of_gt hqq)]
    have hon : Orthonormal (bs ++ [normalize (orth a bs)]) := by
      constructor
      · intro b hb
        rcases List.mem_append.1 hb with hb | hb
        · exact hbs.1 b hb
        · rw [List.mem_singleton] at hb
          rw [hb]; exact hunit
      · rw [List.pairwise_append]
        refine ⟨hbs.2, List.pairwise_singleton _ _, ?_⟩
        intro b hb c hc
        rw [List.mem_singleton] at hc
        rw [hc, normalize_eq, dot_smul, hperp b hb, mul_zero]
    have hsp : Submodule.span ℝ {v | v ∈ bs ++ [normalize (orth a bs)]} = tangentSpace (pre ++ [a]) := by
      have hbW : ∀ W : Submodule ℝ (Vec n), Submodule.span ℝ {v | v ∈ bs} ≤ W →
          (a ∈ W ↔ normalize (orth a bs) ∈ W) := by
        intro W hW
        have hd : a - orth a bs ∈ W := hW hmem
        constructor
        · intro h
          rw [normalize_eq]
          apply W.smul_mem
          have := W.sub_mem h hd
          simpa using this
        · intro h
          rw [normalize_eq] at h
          have h2 := W.smul_mem (√(dot (orth a bs) (orth a bs))) h
          rw [smul_smul, mul_inv_cancel₀ (ne_of_gt hs), one_smul] at h2
          have := W.add_mem hd h2
          simpa using this
      apply le_antisymm
      · rw [Submodule.span_le]
        intro v hv
        have hle : Submodule.span ℝ {v | v ∈ bs} ≤ tangentSpace (pre ++ [a]) := by
          rw [hspan]
          apply Submodule.span_mono
          intro v hv
          exact List.mem_append_left _ hv
        rcases List.mem_append.1 hv with hv | hv
        · exact hle (Submodule.subset_span hv)
        · rw [List.mem_singleton] at hv
          rw [hv]
          refine (hbW _ hle).1 ?_
          apply Submodule.subset_span
          exact List.mem_append_right _ (List.mem_singleton.2 rfl)
      · rw [tangentSpace, Submodule.span_le]
        intro v hv
        have hle : Submodule.span ℝ {v | v ∈ bs} ≤ Submodule.span ℝ {v | v ∈ bs ++ [normalize (orth a bs)]} := by
          apply Submodule.span_mono
          intro v hv
          exact List.mem_append_left _ hv
        rcases List.mem_append.1 hv with hv | hv
        · apply hle
          rw [hspan]
          exact Submodule.subset_span hv
        · rw [List.mem_singleton] at hv
          rw [hv]
          refine (hbW _ hle).2 ?_
          apply Submodule.subset_span
          exact List.mem_append_right _ (List.mem_singleton.2 rfl)
    have := ih (pre ++ [a]) (bs ++ [normalize (orth a bs)]) hon hsp (by simp [hlen]) (by
      intro p c post hc
      have := hind (a :: p) c post (by rw [hc]; rfl)
      simpa using this)
    simpa using this

/-! # C45 -/

/-- C45: for linearly independent columns, `tangential_onb` returns as many vectors, orthonormal and
spanning the same space -/
theorem C45_orthonormal_basis (cols : List (Vec n)) (h : Independent cols) :
    (tangentialOnb cols).length = cols.length ∧ Orthonormal (tangentialOnb cols) ∧
      tangentSpace (tangentialOnb cols) = tangentSpace cols := by
  obtain ⟨h1, h2, h3⟩ := gramSchmidt_spec cols [] [] ⟨by simp, List.Pairwise.nil⟩
    (by simp [tangentSpace]) rfl (by simpa [Independent] using h)
  exact ⟨by simpa [tangentialOnb] using h3, h1, by simpa [tangentialOnb, tangentSpace] using h2⟩

/-- sum against an orthonormal list -/
theorem dot_zip_sum (bs : List (Vec n)) (hbs : Orthonormal bs) (t : List ℝ) (ht : t.length = bs.length) :
    bs.map (fun b => dot b (List.zipWith (fun b (c : ℝ) => fun i => b i * c) bs t).sum) = t := by
  induction bs generalizing t with
  | nil =>
    rw [List.length_nil, List.length_eq_zero_iff] at ht
    rw [ht]; rfl
  | cons b bs ih =>
    cases t with
    | nil => simp at ht
    | cons c t =>
      have hpw := List.pairwise_cons.1 hbs.2
      have hbs' : Orthonormal bs := ⟨fun b hb => hbs.1 b (List.mem_cons_of_mem _ hb), hpw.2⟩
      have hz : ∀ (bs : List (Vec n)) (t : List ℝ) (x : Vec n), (∀ b ∈ bs, dot x b = 0) →
          dot x (List.zipWith (fun b (c : ℝ) => fun i => b i * c) bs t).sum = 0 := by
        intro bs
        induction bs with
        | nil => intro t x _; simp [dot_zero]
        | cons d bs ih =>
          intro t x h
          cases t with
          | nil => simp [dot_zero]
          | cons c t =>
            rw [List.zipWith_cons_cons, List.sum_cons, dot_add,
              ih t x (fun b hb => h b (List.mem_cons_of_mem _ hb)),
              show (fun i => d i * c) = c • d from by funext i; simp [mul_comm], dot_smul,
              h d List.mem_cons_self]
            ring
      rw [List.zipWith_cons_cons, List.sum_cons, List.map_cons]
      have hb1 : (fun i => b i * c) = c • b := by funext i; simp [mul_comm]
      rw [dot_add, hz bs t b hpw.1, hb1, dot_smul, hbs.1 b List.mem_cons_self]
      congr 1
      · ring
      · have := ih hbs' t (by simpa using ht)
        conv_rhs => rw [← this]
        apply List.map_congr_left
        intro d hd
        rw [dot_add, dot_smul, dot_comm d b, hpw.1 d hd]
        ring

/-- C45: tangential coordinates survive the round trip -/
theorem C45_tangential_roundtrip (cols : List (Vec n)) (h : Independent cols) (t : List ℝ)
    (ht : t.length = cols.length) : xyzToTangential cols (tangentialToXyz cols t) = t := by
  obtain ⟨h1, h2, -⟩ := C45_orthonormal_basis cols h
  exact dot_zip_sum _ h2 t (by omega)

theorem toXyz_mem (cols : List (Vec n)) (t : List ℝ) : tangentialToXyz cols t ∈ tangentSpace (tangentialOnb cols) := by
  rw [tangentialToXyz]
  have : ∀ (bs : List (Vec n)) (t : List ℝ) (W : Submodule ℝ (Vec n)), (∀ b ∈ bs, b ∈ W) →
      (List.zipWith (fun b (c : ℝ) => fun i => b i * c) bs t).sum ∈ W := by
    intro bs
    induction bs with
    | nil => intro t W _; simp
    | cons b bs ih =>
      intro t W h
      cases t with
      | nil => simp
      | cons c t =>
        rw [List.zipWith_cons_cons, List.sum_cons]
        apply W.add_mem
        · rw [show (fun i => b i * c) = c • b from by funext i; simp [mul_comm]]
          exact W.smul_mem _ (h b List.mem_cons_self)
        · exact ih t W fun b hb => h b (List.mem_cons_of_mem _ hb)
  exact this _ t _ fun b hb => Submodule.subset_span hb

/-- C45: `project_to_tangential` is the orthogonal projection onto the tangent space: its result is
tangential and the difference is orthogonal to every tangential vector -/
theorem C45_orthogonal_projection (cols : List (Vec n)) (h : Independent cols) (v : Vec n) :
    projectToTangential cols v ∈ tangentSpace cols ∧
    ∀ w ∈ tangentSpace cols, dot w (v - projectToTangential cols v) = 0 := by
  obtain ⟨h1, h2, h3⟩ := C45_orthonormal_basis cols h
  constructor
  · rw [← h3]; exact toXyz_mem cols _
  · intro w hw
    rw [← h3] at hw
    induction hw using Submodule.span_induction with
    | mem b hb =>
      have := C45_tangential_roundtrip cols h (xyzToTangential cols v) (by simp [xyzToTangential, h1])
      rw [xyzToTangential, xyzToTangential] at this
      have hb' := List.map_inj_left.1 this b hb
      rw [dot_sub, projectToTangential, xyzToTangential, ← hb']
      ring
    | zero => rw [dot_comm, dot_zero]
    | add x y _ _ hx hy => rw [dot_comm, dot_add, dot_comm _ x, dot_comm _ y, hx, hy]; ring
    | smul r x _ hx => rw [dot_comm, dot_smul, dot_comm, hx]; ring

/-- C45: tangential vectors survive the round trip the other way -/
theorem C45_xyz_roundtrip (cols : List (Vec n)) (h : Independent cols) (v : Vec n)
    (hv : v ∈ tangentSpace cols) : tangentialToXyz cols (xyzToTangential cols v) = v := by
  obtain ⟨h1, h2⟩ := C45_orthogonal_projection cols h v
  have hd := h2 (v - projectToTangential cols v) ((tangentSpace cols).sub_mem hv h1)
  rw [dot_self_eq_zero, sub_eq_zero] at hd
  exact hd.symm

/-- C45: projecting twice is projecting once -/
theorem C45_idempotent (cols : List (Vec n)) (h : Independent cols) (v : Vec n) :
    projectToTangential cols (projectToTangential cols v) = projectToTangential cols v :=
  C45_xyz_roundtrip cols h _ (C45_orthogonal_projection cols h v).1

/-- two independent columns in space -/
example : Independent (n := 3) [![1, 1, 0], ![0, 2, 1]] := by
  intro pre a post h
  rcases pre with _ | ⟨p, _ | ⟨q, pre⟩⟩
  · simp only [List.nil_append, List.cons.injEq] at h
    rw [← h.1]
    intro hm
    simp only [tangentSpace, List.not_mem_nil, Set.ofPred_false, Submodule.span_empty, Submodule.mem_bot] at hm
    have := congrFun hm 0
    simp at this
  · simp only [List.cons_append, List.nil_append, List.cons.injEq] at h
    rw [← h.2.1, ← h.1]
    intro hm
    simp only [tangentSpace, List.mem_singleton, Set.ofPred_eq_eq_singleton, Submodule.mem_span_singleton] at hm
    obtain ⟨r, hr⟩ := hm
    have h0 := congrFun hr 0
    have h1 := congrFun hr 1
    simp at h0 h1
    rw [h0] at h1
    norm_num at h1
  · simp at h

/-! # C55: normals and expansion centers -/

/-- 2D: the pseudoscalar is the tangent vector; its dual `pder << I^{-1}` with `I = e1 e2` is the tangent
turned clockwise (`primitives.py:874-888`, `918-936`; the geometric algebra of `pymbolic` is evaluated by
hand here: `e1 << (e2 e1) = -e2`, `e2 << (e2 e1) = e1`) -/
def dual2 (t : Vec 2) : Vec 2 := ![t 1, -t 0]

/-- 3D: the pseudoscalar is the bivector `t1 ∧ t2`, coordinates on `e2e3`, `e3e1`, `e1e2`; its dual
`pder << I^{-1}` with `I = e1 e2 e3` has the same coordinates on `e1`, `e2`, `e3` -/
def wedge3 (s t : Vec 3) : Vec 3 := ![s 1 * t 2 - s 2 * t 1, s 2 * t 0 - s 0 * t 2, s 0 * t 1 - s 1 * t 0]

/-- `area_element` (`primitives.py:891-899`): square root of the squared norm of the pseudoscalar's
coordinates -/
noncomputable def areaElement {m : Nat} (ps : Vec m) : ℝ := √(∑ i, ps i ^ 2)

/-- `normal` in 2D (`primitives.py:918-936`) -/
noncomputable def normal2 (t : Vec 2) : Vec 2 := fun i => dual2 t i / areaElement t

/-- `normal` in 3D (`primitives.py:918-936`) -/
noncomputable def normal3 (s t : Vec 3) : Vec 3 := fun i => wedge3 s t i / areaElement (wedge3 s t)

/-- `levi_civita((i, j, k))` (pytools, used in `primitives.py:2548-2553`) -/
def leviCivita (i j k : Fin 3) : ℝ :=
  if (i, j, k) = (0, 1, 2) ∨ (i, j, k) = (1, 2, 0) ∨ (i, j, k) = (2, 0, 1) then 1
  else if (i, j, k) = (2, 1, 0) ∨ (i, j, k) = (0, 2, 1) ∨ (i, j, k) = (1, 0, 2) then -1 else 0

/-- `cross` (`primitives.py:2541-2553`) -/
noncomputable def cross (a b : Vec 3) : Vec 3 := fun i => ∑ j, ∑ k, leviCivita i j k * a j * b k

/-- `expansion_centers` (`primitives.py:1382-1396`): `x + side * radii * normals` -/
noncomputable def expansionCenter (x : Vec n) (side r : ℝ) (nrm : Vec n) : Vec n := fun i => x i + side * r * nrm i

/-- distance -/
noncomputable def dist (x y : Vec n) : ℝ := √(dot (x - y) (x - y))

/-- C55: normals of curves: unit, orthogonal to the tangent, on the right of it (outside for positively
oriented curves); the area element is the length of the tangent -/
theorem C55_normal_2d (t : Vec 2) (ht : t ≠ 0) :
    dot (normal2 t) (normal2 t) = 1 ∧ dot (normal2 t) t = 0 ∧
    areaElement t ^ 2 = dot t t ∧ 0 < areaElement t ∧
    normal2 t 0 * t 1 - normal2 t 1 * t 0 = areaElement t := by
  have hs : areaElement t ^ 2 = t 0 ^ 2 + t 1 ^ 2 := by
    rw [areaElement, Real.sq_sqrt (Finset.sum_nonneg fun _ _ => sq_nonneg _), Fin.sum_univ_two]
  have hpos : 0 < t 0 ^ 2 + t 1 ^ 2 := by
    by_contra hn
    have h0 : t 0 ^ 2 = 0 := by nlinarith [sq_nonneg (t 0), sq_nonneg (t 1)]
    have h1 : t 1 ^ 2 = 0 := by nlinarith [sq_nonneg (t 0), sq_nonneg (t 1)]
    apply ht
    funext i
    fin_cases i
    · simpa using h0
    · simpa using h1
  have ha : 0 < areaElement t := by
    rw [areaElement, Real.sqrt_pos, Fin.sum_univ_two]; exact hpos
  have hne : areaElement t ≠ 0 := ne_of_gt ha
  refine ⟨?_, ?_, ?_, ha, ?_⟩
  · simp only [dot, normal2, dual2, Fin.sum_univ_two, Matrix.cons_val_zero, Matrix.cons_val_one]
    field_simp
    rw [hs]; ring
  · simp only [dot, normal2, dual2, Fin.sum_univ_two, Matrix.cons_val_zero, Matrix.cons_val_one]
    field_simp
    ring
  · rw [hs, dot, Fin.sum_univ_two]; ring
  · simp only [normal2, dual2, Matrix.cons_val_zero, Matrix.cons_val_one]
    field_simp
    rw [hs]; ring

/-- C55: normals of surfaces: unit, orthogonal to both tangents, right-handed with them; the squared area
element is the determinant of the first fundamental form -/
theorem C55_normal_3d (s t : Vec 3) (h : wedge3 s t ≠ 0) :
    dot (normal3 s t) (normal3 s t) = 1 ∧ dot (normal3 s t) s = 0 ∧ dot (normal3 s t) t = 0 ∧
    areaElement (wedge3 s t) ^ 2 = dot s s * dot t t - dot s t ^ 2 ∧ 0 < areaElement (wedge3 s t) ∧
    dot (normal3 s t) (cross s t) = areaElement (wedge3 s t) := by
  set w := wedge3 s t with hw
  have hs : areaElement w ^ 2 = w 0 ^ 2 + w 1 ^ 2 + w 2 ^ 2 := by
    rw [areaElement, Real.sq_sqrt (Finset.sum_nonneg fun _ _ => sq_nonneg _), Fin.sum_univ_three]
  have hpos : 0 < w 0 ^ 2 + w 1 ^ 2 + w 2 ^ 2 := by
    by_contra hn
    have h0 : w 0 ^ 2 = 0 := by nlinarith [sq_nonneg (w 0), sq_nonneg (w 1), sq_nonneg (w 2)]
    have h1 : w 1 ^ 2 = 0 := by nlinarith [sq_nonneg (w 0), sq_nonneg (w 1), sq_nonneg (w 2)]
    have h2 : w 2 ^ 2 = 0 := by nlinarith [sq_nonneg (w 0), sq_nonneg (w 1), sq_nonneg (w 2)]
    apply h
    funext i
    fin_cases i
    · simpa using h0
    · simpa using h1
    · simpa using h2
  have ha : 0 < areaElement w := by
    rw [areaElement, Real.sqrt_pos, Fin.sum_univ_three]; exact hpos
  have hne : areaElement w ≠ 0 := ne_of_gt ha
  have e0 : w 0 = s 1 * t 2 - s 2 * t 1 := rfl
  have e1 : w 1 = s 2 * t 0 - s 0 * t 2 := rfl
  have e2 : w 2 = s 0 * t 1 - s 1 * t 0 := rfl
  refine ⟨?_, ?_, ?_, ?_, ha, ?_⟩
  · simp only [dot, normal3, Fin.sum_univ_three, ← hw]
    field_simp
    rw [hs]
  · simp only [dot, normal3, Fin.sum_univ_three, ← hw]
    field_simp
    rw [e0, e1, e2]; ring
  · simp only [dot, normal3, Fin.sum_univ_three, ← hw]
    field_simp
    rw [e0, e1, e2]; ring
  · rw [hs, e0, e1, e2]
    simp only [dot, Fin.sum_univ_three]
    ring
  · have c0 : cross s t 0 = w 0 := by
      simp [cross, leviCivita, Fin.sum_univ_three, e0]; ring
    have c1 : cross s t 1 = w 1 := by
      simp [cross, leviCivita, Fin.sum_univ_three, e1]; ring
    have c2 : cross s t 2 = w 2 := by
      simp [cross, leviCivita, Fin.sum_univ_three, e2]; ring
    rw [dot, Fin.sum_univ_three, c0, c1, c2]
    simp only [normal3, ← hw]
    field_simp
    rw [hs]

/-- C55: the cross product is orthogonal to its factors and `n × (n × v) = (n·v) n - v` for unit `n`, so
`n_cross` applied twice is minus the tangential part -/
theorem C55_cross (a b nrm v : Vec 3) (hn : dot nrm nrm = 1) :
    dot a (cross a b) = 0 ∧ dot b (cross a b) = 0 ∧
    cross nrm (cross nrm v) = dot nrm v • nrm - v := by
  have hc : ∀ a b : Vec 3, cross a b = wedge3 a b := by
    intro a b
    funext i
    fin_cases i <;> simp [cross, leviCivita, Fin.sum_univ_three, wedge3] <;> ring
  refine ⟨?_, ?_, ?_⟩
  · rw [hc]; simp [dot, wedge3, Fin.sum_univ_three]; ring
  · rw [hc]; simp [dot, wedge3, Fin.sum_univ_three]; ring
  · rw [hc, hc]
    simp only [dot, Fin.sum_univ_three] at hn ⊢
    funext i
    fin_cases i
    · simp [wedge3]
      linear_combination (-v 0) * hn
    · simp [wedge3]
      linear_combination (-v 1) * hn
    · simp [wedge3]
      linear_combination (-v 2) * hn

/-- C55: with a unit normal, the expansion centers of the two sides lie at distance `r` from their node,
on opposite sides, `2 r` apart -/
theorem C55_expansion_centers (x nrm : Vec n) (r : ℝ) (hr : 0 ≤ r) (hn : dot nrm nrm = 1) :
    (∀ side : ℝ, side = 1 ∨ side = -1 → dist (expansionCenter x side r nrm) x = r ∧
      dot (expansionCenter x side r nrm - x) nrm = side * r) ∧
    dist (expansionCenter x 1 r nrm) (expansionCenter x (-1) r nrm) = 2 * r := by
  have hd : ∀ side : ℝ, expansionCenter x side r nrm - x = (side * r) • nrm := by
    intro side
    funext i
    simp [expansionCenter]
  constructor
  · intro side hside
    have h2 : side * side = 1 := by rcases hside with rfl | rfl <;> norm_num
    constructor
    · rw [dist, hd, dot_smul, dot_comm, dot_smul, hn]
      rw [show side * r * (side * r * 1) = (side * side) * (r * r) by ring, h2, one_mul]
      exact Real.sqrt_mul_self hr
    · rw [hd, dot_comm, dot_smul, hn, mul_one]
  · have : expansionCenter x 1 r nrm - expansionCenter x (-1) r nrm = (2 * r) • nrm := by
      funext i
      simp [expansionCenter]
      ring
    rw [dist, this, dot_smul, dot_comm, dot_smul, hn, mul_one]
    exact Real.sqrt_mul_self (by linarith)

/-- hypotheses met -/
example : wedge3 ![1, 1, 0] ![0, 2, 1] ≠ 0 := by
  intro h
  have := congrFun h 0
  simp [wedge3] at this

end Verif.Frames
