import Mathlib.Analysis.Real.Sqrt
import Mathlib.Analysis.SpecialFunctions.Trigonometric.Basic
import Mathlib.Analysis.SpecialFunctions.Trigonometric.Angle
import Mathlib.Tactic.Ring
import Mathlib.Tactic.Linarith
import Mathlib.Tactic.NormNum
import Mathlib.Tactic.IntervalCases
import Mathlib.Tactic.FieldSimp
import Mathlib.Algebra.BigOperators.Fin
import Mathlib.Algebra.Order.BigOperators.Ring.Finset
import Verif.Linalg.IndexList
import Verif.QBX.Tree

/-!
# Proxy balls (C46)

Model of `_generate_unit_sphere`, the cluster center and radius kernels, `ProxyGeneratorBase.__init__`,
`ProxyGeneratorBase.__call__`, `ProxyGenerator` and `QBXProxyGenerator`
(`pytential/linalg/proxy.py:301-685`).  Coordinates are real numbers (rounding is not modelled), the node
array is a function of the DOF number (device reads outside of it are not modelled), and looking up the
discretization and binding the radius/center expressions is replaced by their values.
-/

namespace Verif.Proxy
open Verif.Offsets Verif.IndexList

/-- points in `d`-dimensional space -/
abbrev Pt (d : Nat) := Fin d → ℝ

variable {d : Nat}

/-- Euclidean distance, `sqrt(sum(idim, (a[idim] - b[idim])**2))` (`proxy.py:560-563`) -/
noncomputable def eucl (a b : Pt d) : ℝ := √(∑ i, (a i - b i) ^ 2)

/-- exceptions raised by the proxy generators (`proxy.py:301-685`) -/
inductive PErr | value | index | zeroDivision | assertion
  deriving DecidableEq, Repr

/-- the two accepted values of `norm_type` -/
inductive NormType | l2 | linf
  deriving DecidableEq, Repr

/-- the check of `norm_type` (`proxy.py:436-439`) -/
def parseNorm (s : String) : Except PErr NormType :=
  if s = "l2" then .ok .l2 else if s = "linf" then .ok .linf else .error .value

/-- `_generate_unit_sphere` (`proxy.py:301-322`).  `sample3` stands for
`pytools.sphere_sample_equidistant`, which is not part of the repository -/
noncomputable def generateUnitSphere (sample3 : Nat → List (Pt d)) (n : Nat) : Except PErr (List (Pt d)) :=
  if d = 2 then
    .ok ((List.range n).map fun (j : Nat) => fun i =>
      if i.val = 0 then Real.cos (2 * Real.pi * j / n) else Real.sin (2 * Real.pi * j / n))
  else if d = 3 then .ok (sample3 n)
  else .error .value

/-- a proxy generator (`proxy.py:392-405`) -/
structure Gen (d : Nat) where
  radiusFactor : ℝ
  norm : NormType
  ref : List (Pt d)

/-- `ProxyGeneratorBase.__init__` (`proxy.py:407-453`); `gen` is `generate_ref_proxies` -/
noncomputable def mkGen (approxNproxy : Option Nat) (radiusFactor : Option ℝ) (normType : String)
    (gen : Nat → Except PErr (List (Pt d))) : Except PErr (Gen d) := do
  let nt ← parseNorm normType
  let ref ← gen (approxNproxy.getD 32)
  pure ⟨radiusFactor.getD 1.1, nt, ref⟩

/-- `nproxy` (`proxy.py:460-463`) -/
def Gen.nproxy (g : Gen d) : Nat := g.ref.length

/-- `reduce(max, i, ...)` over the points of a cluster; over an empty cluster the device returns the
neutral element, which is not modelled (0 here) -/
noncomputable def reduceMax : List ℝ → ℝ
  | [] => 0
  | [x] => x
  | x :: y :: r => max x (reduceMax (y :: r))

/-- `reduce(min, i, ...)`, likewise -/
noncomputable def reduceMin : List ℝ → ℝ
  | [] => 0
  | [x] => x
  | x :: y :: r => min x (reduceMin (y :: r))

/-- the DOF numbers a kernel visits for cluster `c`: `srcindices[i + ioffset]` for `0 <= i < npoints`
(`proxy.py:355-356`, `558-559`, `608-609`) -/
def kernelDofs (l : IList) (c : Nat) : List Nat :=
  (List.range (l.start (c + 1) - l.start c)).map fun i => l.indices.getD (i + l.start c) 0

/-- `make_compute_cluster_centers_kernel_ex` (`proxy.py:325-377`) for one cluster with the given points -/
noncomputable def clusterCenter (nt : NormType) (pts : List (Pt d)) : Pt d := fun idim =>
  match nt with
  | .l2 => 1 / (pts.length : ℝ) * (pts.map fun p => p idim).sum
  | .linf => (reduceMax (pts.map fun p => p idim) + reduceMin (pts.map fun p => p idim)) / 2

/-- `make_compute_cluster_radii_kernel_ex` (`proxy.py:547-584`) for one cluster -/
noncomputable def plainRadius (sources : Nat → Pt d) (center : Pt d) (dofs : List Nat) : ℝ :=
  reduceMax (dofs.map fun k => eucl center (sources k))

/-- `make_compute_cluster_qbx_radii_kernel_ex` (`proxy.py:597-646`) for one cluster -/
noncomputable def qbxRadius (centerInt centerExt : Nat → Pt d) (expansionRadii : Nat → ℝ) (center : Pt d)
    (dofs : List Nat) : ℝ :=
  let rint := reduceMax (dofs.map fun k => eucl center (centerInt k) + expansionRadii k)
  let rext := reduceMax (dofs.map fun k => eucl center (centerExt k) + expansionRadii k)
  if rext < rint then rint else rext

/-- the proxy data (`proxy.py:213-259`); an entry `none` of `points` has never been written -/
structure Data (d : Nat) where
  srcindex : IList
  pxyindex : IList
  points : List (Option (Pt d))
  centers : List (Pt d)
  radii : List ℝ
  clusterRadii : List ℝ

/-- the slice assignment `proxies[:, base:base + nproxy] = points` (`proxy.py:525`) -/
def writePts (base : Nat) (pts : List (Pt d)) (buf : Nat → Option (Pt d)) : Nat → Option (Pt d) :=
  fun p => if base ≤ p ∧ p < base + pts.length then pts[p - base]? else buf p

/-- `radii[i] * ref_points + centers[:, i]` (`proxy.py:524`) -/
noncomputable def scaled (g : Gen d) (center : Pt d) (radius : ℝ) : List (Pt d) :=
  g.ref.map fun x => fun i => radius * x i + center i

/-- the loop over the clusters (`proxy.py:523-527`) -/
noncomputable def fillLoop (g : Gen d) : List (Pt d × ℝ) → Nat → (Nat → Option (Pt d)) → Nat → Option (Pt d)
  | [], _, buf => buf
  | (c, r) :: rest, base, buf => fillLoop g rest (base + g.nproxy) (writePts base (scaled g c r) buf)

/-- centers of all clusters (`proxy.py:496-500`) -/
noncomputable def allCenters (g : Gen d) (sources : Nat → Pt d) (dof : IList) : List (Pt d) :=
  (List.range (dof.starts.length - 1)).map fun c => clusterCenter g.norm ((kernelDofs dof c).map sources)

/-- radii of all clusters (`proxy.py:502-508`) -/
noncomputable def allRadii (g : Gen d) (radiusOf : Pt d → List Nat → ℝ) (sources : Nat → Pt d) (dof : IList) :
    List ℝ :=
  (List.range (dof.starts.length - 1)).map fun c =>
    radiusOf (clusterCenter g.norm ((kernelDofs dof c).map sources)) (kernelDofs dof c)

/-- error translation for `make_index_list` -/
def liftI : Except IndexList.Err IList → Except PErr IList
  | .ok l => .ok l
  | .error .index => .error .index
  | .error .value => .error .value
  | .error .assertion => .error .assertion

/-- error translation for `np.arange` -/
def liftT : Except Verif.QTree.Err (List Nat) → Except PErr (List Nat)
  | .ok l => .ok l
  | .error .zeroDivision => .error .zeroDivision
  | .error .assertion => .error .assertion
  | .error _ => .error .value

/-- `ProxyGeneratorBase.__call__` (`proxy.py:473-544`) with the radius kernel as parameter -/
noncomputable def Gen.call (g : Gen d) (radiusOf : Pt d → List Nat → ℝ) (sources : Nat → Pt d) (dof : IList) :
    Except PErr (Data d) := do
  let centers := allCenters g sources dof
  let clusterRadii := allRadii g radiusOf sources dof
  let radii := clusterRadii.map fun r => g.radiusFactor * r
  let nproxy := g.nproxy * (dof.starts.length - 1)
  let points := (List.range nproxy).map (fillLoop g (centers.zip radii) 0 fun _ => none)
  let pxyindices ← liftT (Verif.QTree.arange 0 nproxy 1)
  let pxystarts ← liftT (Verif.QTree.arange 0 (nproxy + 1) g.nproxy)
  let pxyindex ← liftI (makeIndexList (.flat pxyindices pxystarts))
  pure ⟨dof, pxyindex, points, centers, radii, clusterRadii⟩

/-- `ProxyGenerator.__call__` (`proxy.py:587-594`) -/
noncomputable def Gen.callPlain (g : Gen d) (sources : Nat → Pt d) (dof : IList) : Except PErr (Data d) :=
  g.call (plainRadius sources) sources dof

/-- `QBXProxyGenerator.__call__` (`proxy.py:649-685`), given the bound radii and centers -/
noncomputable def Gen.callQbx (g : Gen d) (centerInt centerExt : Nat → Pt d) (expansionRadii : Nat → ℝ)
    (sources : Nat → Pt d) (dof : IList) : Except PErr (Data d) :=
  g.call (qbxRadius centerInt centerExt expansionRadii) sources dof

/-! ## specification -/

/-- closed ball with center `c` and radius `r` -/
def InBall (c : Pt d) (r : ℝ) (x : Pt d) : Prop := eucl c x ≤ r

/-- the disk with center `e` and radius `ρ` is inside the ball -/
def DiskInBall (c : Pt d) (r : ℝ) (e : Pt d) (ρ : ℝ) : Prop := ∀ x, eucl e x ≤ ρ → eucl c x ≤ r

/-! ## lemmas -/

theorem eucl_nonneg (a b : Pt d) : 0 ≤ eucl a b := Real.sqrt_nonneg _

theorem eucl_comm (a b : Pt d) : eucl a b = eucl b a := by
  unfold eucl
  congr 1
  exact Finset.sum_congr rfl fun i _ => by ring

theorem eucl_sq (a b : Pt d) : eucl a b ^ 2 = ∑ i, (a i - b i) ^ 2 := by
  rw [eucl, Real.sq_sqrt (Finset.sum_nonneg fun i _ => sq_nonneg _)]

theorem eucl_triangle (a b c : Pt d) : eucl a c ≤ eucl a b + eucl b c := by
  have h1 := eucl_nonneg a b
  have h2 := eucl_nonneg b c
  have hcs : (∑ i, (a i - b i) * (b i - c i)) ^ 2
      ≤ (∑ i, (a i - b i) ^ 2) * ∑ i, (b i - c i) ^ 2 :=
    Finset.sum_mul_sq_le_sq_mul_sq _ _ _
  rw [← eucl_sq, ← eucl_sq] at hcs
  have hle : ∑ i, (a i - b i) * (b i - c i) ≤ eucl a b * eucl b c := by
    refine le_trans (le_abs_self _) (abs_le_of_sq_le_sq ?_ (mul_nonneg h1 h2))
    rw [mul_pow]; exact hcs
  have hsum : ∑ i, (a i - c i) ^ 2 = eucl a b ^ 2 + 2 * (∑ i, (a i - b i) * (b i - c i)) + eucl b c ^ 2 := by
    rw [eucl_sq, eucl_sq, Finset.mul_sum, ← Finset.sum_add_distrib, ← Finset.sum_add_distrib]
    exact Finset.sum_congr rfl fun i _ => by ring
  rw [eucl, Real.sqrt_le_left (by linarith), hsum]
  nlinarith

theorem le_reduceMax (l : List ℝ) (x : ℝ) (h : x ∈ l) : x ≤ reduceMax l := by
  induction l with
  | nil => cases h
  | cons a r ih =>
    cases r with
    | nil => rw [List.mem_singleton] at h; exact le_of_eq h
    | cons b r =>
      rw [reduceMax]
      rcases List.mem_cons.1 h with h | h
      · rw [h]; exact le_max_left _ _
      · exact le_trans (ih h) (le_max_right _ _)

theorem reduceMin_le (l : List ℝ) (x : ℝ) (h : x ∈ l) : reduceMin l ≤ x := by
  induction l with
  | nil => cases h
  | cons a r ih =>
    cases r with
    | nil => rw [List.mem_singleton] at h; exact le_of_eq h.symm
    | cons b r =>
      rw [reduceMin]
      rcases List.mem_cons.1 h with h | h
      · rw [h]; exact min_le_left _ _
      · exact le_trans (min_le_right _ _) (ih h)

theorem reduceMax_mem (l : List ℝ) (h : l ≠ []) : reduceMax l ∈ l := by
  induction l with
  | nil => exact absurd rfl h
  | cons a r ih =>
    cases r with
    | nil => exact List.mem_singleton.2 rfl
    | cons b r =>
      rw [reduceMax]
      rcases max_choice a (reduceMax (b :: r)) with h | h
      · rw [h]; exact List.mem_cons_self
      · rw [h]; exact List.mem_cons_of_mem _ (ih (by simp))

theorem reduceMin_mem (l : List ℝ) (h : l ≠ []) : reduceMin l ∈ l := by
  induction l with
  | nil => exact absurd rfl h
  | cons a r ih =>
    cases r with
    | nil => exact List.mem_singleton.2 rfl
    | cons b r =>
      rw [reduceMin]
      rcases min_choice a (reduceMin (b :: r)) with h | h
      · rw [h]; exact List.mem_cons_self
      · rw [h]; exact List.mem_cons_of_mem _ (ih (by simp))

/-- the kernels visit exactly the indices of the cluster -/
theorem kernelDofs_eq (l : IList) (h : WF l) (c : Nat) (dofs : List Nat)
    (hc : l.clusterIndices c = .ok dofs) : c < l.starts.length - 1 ∧ kernelDofs l c = dofs := by
  have hb : l.inBounds (c : Int) = true := by
    by_contra hb
    simp [IList.clusterIndices, hb] at hc
  have hlt : c + 1 < l.starts.length := by simpa [inBounds_nat] using hb
  refine ⟨by omega, ?_⟩
  simp only [IList.clusterIndices, hb, if_true, Int.toNat_natCast, Except.ok.injEq] at hc
  rw [← hc]
  have hle := h.start_le hlt
  have hmono := h.mono c (c + 1) (by omega) hlt
  apply List.ext_getElem?
  intro i
  rw [kernelDofs, List.getElem?_map, slice_get?]
  by_cases hi : i < l.start (c + 1) - l.start c
  · rw [List.getElem?_range hi]
    simp only [Option.map_some]
    rw [if_pos (by omega)]
    rw [List.getD_eq_getElem?_getD, Nat.add_comm i, List.getElem?_eq_getElem (by omega)]
    rfl
  · rw [List.getElem?_eq_none (by simpa using hi)]
    simp only [Option.map_none]
    rw [if_neg (by omega)]

theorem fillLoop_spec (g : Gen d) (cs : List (Pt d × ℝ)) (base : Nat) (buf : Nat → Option (Pt d)) (p : Nat) :
    fillLoop g cs base buf p =
      if base ≤ p ∧ p < base + g.nproxy * cs.length then
        (cs[(p - base) / g.nproxy]?).bind fun cr => (scaled g cr.1 cr.2)[(p - base) % g.nproxy]?
      else buf p := by
  induction cs generalizing base buf with
  | nil => rw [fillLoop, if_neg (by simp)]
  | cons cr rest ih =>
    obtain ⟨c, r⟩ := cr
    have hlen : (scaled g c r).length = g.nproxy := by simp [scaled, Gen.nproxy]
    rw [fillLoop, ih, List.length_cons, Nat.mul_succ]
    by_cases h1 : base + g.nproxy ≤ p ∧ p < base + g.nproxy + g.nproxy * rest.length
    · rw [if_pos h1, if_pos (by omega)]
      have hpos : 0 < g.nproxy := by
        rcases Nat.eq_zero_or_pos g.nproxy with h0 | h0
        · rw [h0, Nat.zero_mul] at h1; omega
        · exact h0
      obtain ⟨q, rfl⟩ : ∃ q, p = base + g.nproxy + q := ⟨p - (base + g.nproxy), by omega⟩
      have e1 : base + g.nproxy + q - (base + g.nproxy) = q := by omega
      have e2 : base + g.nproxy + q - base = q + g.nproxy := by omega
      rw [e1, e2, Nat.add_div_right _ hpos, Nat.add_mod_right, List.getElem?_cons_succ]
    · rw [if_neg h1, writePts, hlen]
      by_cases h2 : base ≤ p ∧ p < base + g.nproxy
      · rw [if_pos h2, if_pos (by omega), Nat.div_eq_of_lt (by omega), Nat.mod_eq_of_lt (by omega)]
        rfl
      · rw [if_neg h2, if_neg (by omega)]

theorem arange_one (n : Nat) : Verif.QTree.arange 0 n 1 = .ok (List.range n) := by
  simp [Verif.QTree.arange]

theorem arange_starts (m k : Nat) (hm : 0 < m) :
    Verif.QTree.arange 0 (m * k + 1) m = .ok ((List.range (k + 1)).map fun i => i * m) := by
  rw [Verif.QTree.arange, if_neg (by omega)]
  have : (m * k + 1 - 0 + (m - 1)) / m = k + 1 := by
    rw [show m * k + 1 - 0 + (m - 1) = m * (k + 1) by rw [Nat.mul_succ]; omega, Nat.mul_div_cancel_left _ hm]
  rw [this]
  simp

/-- the result of a call, written out -/
theorem call_eq (g : Gen d) (hg : g.ref ≠ []) (radiusOf : Pt d → List Nat → ℝ) (sources : Nat → Pt d)
    (dof : IList) :
    g.call radiusOf sources dof = .ok
      ⟨dof, ⟨List.range (g.nproxy * (dof.starts.length - 1)),
          (List.range (dof.starts.length - 1 + 1)).map fun i => i * g.nproxy⟩,
        (List.range (g.nproxy * (dof.starts.length - 1))).map
          (fillLoop g ((allCenters g sources dof).zip
            ((allRadii g radiusOf sources dof).map fun r => g.radiusFactor * r)) 0 fun _ => none),
        allCenters g sources dof, (allRadii g radiusOf sources dof).map fun r => g.radiusFactor * r,
        allRadii g radiusOf sources dof⟩ := by
  have hpos : 0 < g.nproxy := List.length_pos_iff.2 hg
  rw [Gen.call, arange_one, arange_starts _ _ hpos]
  have hl : (List.map (fun i => i * g.nproxy) (List.range (dof.starts.length - 1 + 1))).getLast?
      = some (g.nproxy * (dof.starts.length - 1)) := by
    rw [List.range_succ, List.map_append]
    simp [Nat.mul_comm]
  simp [liftT, liftI, makeIndexList, hl, bind, Except.bind, pure, Except.pure]

/-! # C46 -/

/-- C46: `norm_type` must be `"l2"` or `"linf"` (`ValueError` otherwise), the radius factor defaults to a
number above 1 -/
theorem C46_init (approx : Option Nat) (rf : Option ℝ) (nt : String) (gen : Nat → Except PErr (List (Pt d))) :
    (nt ≠ "l2" → nt ≠ "linf" → mkGen approx rf nt gen = .error .value) ∧
    (∀ g, mkGen approx rf nt gen = .ok g →
      (∀ x, rf = some x → g.radiusFactor = x) ∧ (rf = none → 1 < g.radiusFactor) ∧
      gen (approx.getD 32) = .ok g.ref) := by
  constructor
  · intro h1 h2
    simp [mkGen, parseNorm, h1, h2, bind, Except.bind]
  · intro g hg
    rw [mkGen] at hg
    cases hn : parseNorm nt with
    | error e => rw [hn] at hg; cases hg
    | ok n =>
      rw [hn] at hg
      cases hr : gen (approx.getD 32) with
      | error e => rw [hr] at hg; cases hg
      | ok ref =>
        rw [hr] at hg
        injection hg with hg
        subst hg
        refine ⟨?_, ?_, rfl⟩
        · rintro x rfl; rfl
        · rintro rfl
          change (1 : ℝ) < 1.1
          norm_num

/-- C46: in two dimensions exactly the requested number of reference points is generated, and all of them
have distance one from the origin; dimensions other than 2 and 3 raise `ValueError` -/
theorem C46_reference (sample3 : Nat → List (Pt d)) (n : Nat) :
    (d = 2 → ∃ ref, generateUnitSphere sample3 n = .ok ref ∧ ref.length = n ∧ ∀ x ∈ ref, eucl 0 x = 1) ∧
    (d ≠ 2 → d ≠ 3 → generateUnitSphere sample3 n = .error .value) := by
  constructor
  · rintro rfl
    refine ⟨_, by rw [generateUnitSphere, if_pos rfl], by simp, ?_⟩
    intro x hx
    obtain ⟨j, -, rfl⟩ := List.mem_map.1 hx
    rw [eucl, Fin.sum_univ_two]
    simp only [Pi.zero_apply, zero_sub, neg_sq, Fin.val_zero, if_true, Fin.val_one, one_ne_zero, if_false]
    rw [Real.cos_sq_add_sin_sq, Real.sqrt_one]
  · intro h1 h2
    rw [generateUnitSphere, if_neg h1, if_neg h2]

/-- C46: the reference points in two dimensions are the corners of a regular polygon: they are distinct, one is
`(1, 0)`, and turning the plane by an `n`-th of a full turn takes each of them to the next, and the last to the
first -/
theorem C46_equispaced (sample3 : Nat → List (Pt 2)) (n : Nat) (hn : 0 < n) :
    ∃ p : Nat → Pt 2, generateUnitSphere sample3 n = .ok ((List.range n).map p) ∧
      ((List.range n).map p).Nodup ∧ p 0 0 = 1 ∧ p 0 1 = 0 ∧
      ∀ j, j < n →
        p ((j + 1) % n) 0 = Real.cos (2 * Real.pi / n) * p j 0 - Real.sin (2 * Real.pi / n) * p j 1 ∧
        p ((j + 1) % n) 1 = Real.sin (2 * Real.pi / n) * p j 0 + Real.cos (2 * Real.pi / n) * p j 1 := by
  have hn' : (n : ℝ) ≠ 0 := Nat.cast_ne_zero.2 hn.ne'
  have hpi := Real.pi_pos
  refine ⟨_, by rw [generateUnitSphere, if_pos rfl], ?_, ?_, ?_, ?_⟩
  · refine List.Nodup.map_on ?_ List.nodup_range
    intro a ha b hb hab
    rw [List.mem_range] at ha hb
    have h0 := congrFun hab 0
    have h1 := congrFun hab 1
    simp only [Fin.val_zero, if_true, Fin.val_one, one_ne_zero, if_false] at h0 h1
    obtain ⟨k, hk⟩ := Real.Angle.angle_eq_iff_two_pi_dvd_sub.1 (Real.Angle.cos_sin_inj h0 h1)
    have e : ((a : ℝ) - b) = n * k := by
      field_simp at hk
      linarith
    have e' : ((a : ℤ) - b) = n * k := by exact_mod_cast e
    have hk1 : k < 1 := by
      by_contra hc
      have : (n : ℤ) * 1 ≤ n * k := Int.mul_le_mul_of_nonneg_left (by omega) (by omega)
      omega
    have hk2 : -1 < k := by
      by_contra hc
      have : (n : ℤ) * k ≤ n * (-1) := Int.mul_le_mul_of_nonneg_left (by omega) (by omega)
      omega
    have : k = 0 := by omega
    subst this
    omega
  · simp
  · simp
  · intro j hj
    simp only [Fin.val_zero, if_true, Fin.val_one, one_ne_zero, if_false]
    have key : Real.cos (2 * Real.pi * ((j + 1) % n : Nat) / n) = Real.cos (2 * Real.pi / n + 2 * Real.pi * j / n) ∧
        Real.sin (2 * Real.pi * ((j + 1) % n : Nat) / n) = Real.sin (2 * Real.pi / n + 2 * Real.pi * j / n) := by
      rcases Nat.lt_or_ge (j + 1) n with h | h
      · rw [Nat.mod_eq_of_lt h]
        have : 2 * Real.pi * ((j + 1 : Nat) : ℝ) / n = 2 * Real.pi / n + 2 * Real.pi * j / n := by
          push_cast; ring
        rw [this]
        exact ⟨rfl, rfl⟩
      · have e : j + 1 = n := by omega
        rw [e, Nat.mod_self]
        have : 2 * Real.pi / n + 2 * Real.pi * j / n = 2 * Real.pi := by
          have : (j : ℝ) + 1 = n := by exact_mod_cast e
          field_simp
          linarith
        rw [this]
        simp
    rw [key.1, key.2, Real.cos_add, Real.sin_add]
    exact ⟨rfl, rfl⟩

/-- C46: proxy points of cluster `i` are exactly those with numbers `[i * nproxy, (i + 1) * nproxy)`; each is
written, and is the scaled and translated reference point; they lie on the sphere around the cluster's center
with the cluster's proxy radius -/
theorem C46_layout (g : Gen d) (hg : g.ref ≠ []) (hunit : ∀ x ∈ g.ref, eucl 0 x = 1)
    (radiusOf : Pt d → List Nat → ℝ) (sources : Nat → Pt d) (dof : IList) (hw : WF dof) :
    ∃ D, g.call radiusOf sources dof = .ok D ∧ D.srcindex = dof ∧ WF D.pxyindex ∧
      D.pxyindex.nclusters = dof.nclusters ∧
      D.points.length = g.nproxy * (dof.starts.length - 1) ∧
      D.centers.length = dof.starts.length - 1 ∧ D.radii.length = dof.starts.length - 1 ∧
      ∀ i : Nat, i < dof.starts.length - 1 → ∃ c r, D.centers[i]? = some c ∧ D.radii[i]? = some r ∧
        D.pxyindex.clusterIndices i = .ok (List.range' (i * g.nproxy) g.nproxy) ∧
        ∀ j : Nat, j < g.nproxy → ∃ x p, g.ref[j]? = some x ∧ D.points[i * g.nproxy + j]? = some (some p) ∧
          (∀ k, p k = r * x k + c k) ∧ eucl c p = |r| := by
  have hpos : 0 < g.nproxy := List.length_pos_iff.2 hg
  refine ⟨_, call_eq g hg radiusOf sources dof, rfl, ?_, ?_, by simp, by simp [allCenters], by simp [allRadii], ?_⟩
  · constructor
    · simp
    · intro a b hab hb
      simp only [List.length_map, List.length_range] at hb
      simp only [IList.start, List.getElem?_map]
      rw [List.getElem?_range (by omega), List.getElem?_range hb]
      simp only [Option.map_some, Option.getD_some]
      exact Nat.mul_le_mul_right _ hab
    · rw [List.range_succ, List.map_append]
      simp [Nat.mul_comm]
  · have := hw.length_pos
    simp [IList.nclusters]
    omega
  · intro i hi
    have hc : (allCenters g sources dof)[i]? = some (clusterCenter g.norm ((kernelDofs dof i).map sources)) := by
      rw [allCenters, List.getElem?_map, List.getElem?_range hi]; rfl
    have hr : ((allRadii g radiusOf sources dof).map fun r => g.radiusFactor * r)[i]? = some (g.radiusFactor *
        radiusOf (clusterCenter g.norm ((kernelDofs dof i).map sources)) (kernelDofs dof i)) := by
      rw [allRadii, List.getElem?_map, List.getElem?_map, List.getElem?_range hi]; rfl
    refine ⟨_, _, hc, hr, ?_, ?_⟩
    · have hb : (⟨List.range (g.nproxy * (dof.starts.length - 1)),
          (List.range (dof.starts.length - 1 + 1)).map fun i => i * g.nproxy⟩ : IList).inBounds (i : Int) = true := by
        rw [inBounds_nat]; simp; omega
      simp only [IList.clusterIndices, hb, if_true, Int.toNat_natCast, IList.start, List.getElem?_map]
      rw [List.getElem?_range (by omega), List.getElem?_range (by omega)]
      simp only [Option.map_some, Option.getD_some]
      congr 1
      apply List.ext_getElem?
      intro k
      rw [slice_get?]
      have hle : (i + 1) * g.nproxy ≤ g.nproxy * (dof.starts.length - 1) := by
        rw [Nat.mul_comm]; exact Nat.mul_le_mul_left _ hi
      rw [Nat.succ_mul] at hle ⊢
      by_cases hk : k < g.nproxy
      · rw [if_pos (by omega), List.getElem?_range (by omega), List.getElem?_range' hk]; simp
      · rw [if_neg (by omega), List.getElem?_eq_none (by simpa using hk)]
    · intro j hj
      have hj' : j < g.ref.length := hj
      have hle : (i + 1) * g.nproxy ≤ g.nproxy * (dof.starts.length - 1) := by
        rw [Nat.mul_comm]; exact Nat.mul_le_mul_left _ hi
      rw [Nat.succ_mul] at hle
      generalize hcc : clusterCenter g.norm ((kernelDofs dof i).map sources) = c at hc hr
      generalize hrr : g.radiusFactor * radiusOf c (kernelDofs dof i) = r at hr
      refine ⟨g.ref[j], fun k => r * g.ref[j] k + c k, List.getElem?_eq_getElem hj', ?_, fun k => rfl, ?_⟩
      · rw [List.getElem?_map, List.getElem?_range (by omega), Option.map_some, fillLoop_spec,
          if_pos (by
            refine ⟨Nat.zero_le _, ?_⟩
            simp only [List.length_zip, List.length_map, allCenters, allRadii, List.length_range, Nat.min_self]
            omega)]
        rw [Nat.sub_zero, Nat.mul_comm i, Nat.mul_add_div hpos, Nat.div_eq_of_lt hj, Nat.add_zero,
          Nat.mul_add_mod, Nat.mod_eq_of_lt hj]
        rw [List.getElem?_zip_eq_some.2 ⟨hc, hr⟩ |> fun h => (h : _ = some (c, r))]
        simp only [Option.bind_some, scaled, List.getElem?_map, List.getElem?_eq_getElem hj', Option.map_some]
      · have hu := hunit g.ref[j] (List.getElem_mem hj')
        have : eucl c (fun k => r * g.ref[j] k + c k) ^ 2 = r ^ 2 := by
          have h1 : eucl 0 g.ref[j] ^ 2 = 1 := by rw [hu]; norm_num
          rw [eucl_sq] at h1 ⊢
          have e : ∀ k, (c k - (r * g.ref[j] k + c k)) ^ 2 = r ^ 2 * ((0 : Pt d) k - g.ref[j] k) ^ 2 := by
            intro k; simp only [Pi.zero_apply]; ring
          rw [Finset.sum_congr rfl fun k _ => e k, ← Finset.mul_sum, h1, mul_one]
        rw [← Real.sqrt_sq (eucl_nonneg _ _), this, Real.sqrt_sq_eq_abs]

/-- center and radius of a cluster after a call -/
theorem call_cluster (g : Gen d) (hg : g.ref ≠ []) (radiusOf : Pt d → List Nat → ℝ) (sources : Nat → Pt d)
    (dof : IList) (hw : WF dof) (D : Data d) (hD : g.call radiusOf sources dof = .ok D) (i : Nat)
    (dofs : List Nat) (hi : dof.clusterIndices i = .ok dofs) :
    D.centers[i]? = some (clusterCenter g.norm (dofs.map sources)) ∧
    D.clusterRadii[i]? = some (radiusOf (clusterCenter g.norm (dofs.map sources)) dofs) ∧
    D.radii[i]? = some (g.radiusFactor * radiusOf (clusterCenter g.norm (dofs.map sources)) dofs) := by
  obtain ⟨hlt, hk⟩ := kernelDofs_eq dof hw i dofs hi
  rw [call_eq g hg] at hD
  injection hD with hD
  subst hD
  refine ⟨?_, ?_, ?_⟩
  · simp only [allCenters, List.getElem?_map, List.getElem?_range hlt, Option.map_some, hk]
  · simp only [allRadii, List.getElem?_map, List.getElem?_range hlt, Option.map_some, hk]
  · simp only [allRadii, List.getElem?_map, List.getElem?_range hlt, Option.map_some, hk]

theorem le_factor {f r : ℝ} (hf : 1 ≤ f) (hr : 0 ≤ r) : r ≤ f * r := by nlinarith

/-- C46, `ProxyGenerator`: the cluster radius is the distance of the farthest point of the cluster from the
center (so the smallest radius that covers the cluster), and with a radius factor of at least one the proxy
ball contains every point of the cluster -/
theorem C46_contains (g : Gen d) (hg : g.ref ≠ []) (hf : 1 ≤ g.radiusFactor) (sources : Nat → Pt d) (dof : IList)
    (hw : WF dof) (D : Data d) (hD : g.callPlain sources dof = .ok D) (i : Nat) (dofs : List Nat)
    (hi : dof.clusterIndices i = .ok dofs) (hne : dofs ≠ []) :
    ∃ c rc r, D.centers[i]? = some c ∧ D.clusterRadii[i]? = some rc ∧ D.radii[i]? = some r ∧
      r = g.radiusFactor * rc ∧ (∃ k ∈ dofs, eucl c (sources k) = rc) ∧
      ∀ k ∈ dofs, InBall c rc (sources k) ∧ InBall c r (sources k) := by
  obtain ⟨h1, h2, h3⟩ := call_cluster g hg _ sources dof hw D hD i dofs hi
  refine ⟨_, _, _, h1, h2, h3, rfl, ?_, ?_⟩
  · have := reduceMax_mem (dofs.map fun k => eucl (clusterCenter g.norm (dofs.map sources)) (sources k))
      (by simpa using hne)
    obtain ⟨k, hk, he⟩ := List.mem_map.1 this
    exact ⟨k, hk, he⟩
  · intro k hk
    have hle : eucl (clusterCenter g.norm (dofs.map sources)) (sources k)
        ≤ plainRadius sources (clusterCenter g.norm (dofs.map sources)) dofs :=
      le_reduceMax _ _ (List.mem_map.2 ⟨k, hk, rfl⟩)
    have h0 := le_trans (eucl_nonneg _ _) hle
    exact ⟨hle, le_trans hle (le_factor hf h0)⟩

/-- C46, `QBXProxyGenerator`: with a radius factor of at least one the proxy ball contains the whole expansion
disks on both sides of every point of the cluster, and, the centers being at the distance of the expansion
radius, the points themselves -/
theorem C46_contains_qbx (g : Gen d) (hg : g.ref ≠ []) (hf : 1 ≤ g.radiusFactor)
    (centerInt centerExt : Nat → Pt d) (expansionRadii : Nat → ℝ) (hρ : ∀ k, 0 ≤ expansionRadii k)
    (sources : Nat → Pt d) (hdist : ∀ k, eucl (centerInt k) (sources k) = expansionRadii k)
    (dof : IList) (hw : WF dof) (D : Data d)
    (hD : g.callQbx centerInt centerExt expansionRadii sources dof = .ok D) (i : Nat) (dofs : List Nat)
    (hi : dof.clusterIndices i = .ok dofs) :
    ∃ c rc r, D.centers[i]? = some c ∧ D.clusterRadii[i]? = some rc ∧ D.radii[i]? = some r ∧
      ∀ k ∈ dofs, DiskInBall c rc (centerInt k) (expansionRadii k) ∧ DiskInBall c rc (centerExt k) (expansionRadii k)
        ∧ DiskInBall c r (centerInt k) (expansionRadii k) ∧ DiskInBall c r (centerExt k) (expansionRadii k)
        ∧ InBall c r (sources k) := by
  obtain ⟨h1, h2, h3⟩ := call_cluster g hg _ sources dof hw D hD i dofs hi
  refine ⟨_, _, _, h1, h2, h3, ?_⟩
  intro k hk
  generalize clusterCenter g.norm (dofs.map sources) = c
  have hint : eucl c (centerInt k) + expansionRadii k ≤ qbxRadius centerInt centerExt expansionRadii c dofs := by
    have hle : eucl c (centerInt k) + expansionRadii k
        ≤ reduceMax (dofs.map fun k => eucl c (centerInt k) + expansionRadii k) :=
      le_reduceMax _ _ (List.mem_map.2 ⟨k, hk, rfl⟩)
    rw [qbxRadius]
    split_ifs with h
    · exact hle
    · exact le_trans hle (not_lt.1 h)
  have hext : eucl c (centerExt k) + expansionRadii k ≤ qbxRadius centerInt centerExt expansionRadii c dofs := by
    have hle : eucl c (centerExt k) + expansionRadii k
        ≤ reduceMax (dofs.map fun k => eucl c (centerExt k) + expansionRadii k) :=
      le_reduceMax _ _ (List.mem_map.2 ⟨k, hk, rfl⟩)
    rw [qbxRadius]
    split_ifs with h
    · exact le_trans hle (le_of_lt h)
    · exact hle
  have h0 : 0 ≤ qbxRadius centerInt centerExt expansionRadii c dofs :=
    le_trans (add_nonneg (eucl_nonneg _ _) (hρ k)) hint
  have hfac := le_factor hf h0
  have d1 : DiskInBall c (qbxRadius centerInt centerExt expansionRadii c dofs) (centerInt k) (expansionRadii k) :=
    fun x hx => by linarith [eucl_triangle c (centerInt k) x]
  have d2 : DiskInBall c (qbxRadius centerInt centerExt expansionRadii c dofs) (centerExt k) (expansionRadii k) :=
    fun x hx => by linarith [eucl_triangle c (centerExt k) x]
  refine ⟨d1, d2, fun x hx => le_trans (d1 x hx) hfac, fun x hx => le_trans (d2 x hx) hfac, ?_⟩
  exact le_trans (d1 _ (le_of_eq (hdist k))) hfac

/-- C46: the center of a cluster is the mean of its points for `"l2"`, and the middle of its bounding box for
`"linf"`: in each coordinate it is half way between an attained lower and an attained upper bound -/
theorem C46_center (pts : List (Pt d)) (hne : pts ≠ []) (k : Fin d) :
    (pts.length : ℝ) * clusterCenter .l2 pts k = (pts.map fun p => p k).sum ∧
    ∃ lo ∈ pts, ∃ hi ∈ pts, (∀ p ∈ pts, lo k ≤ p k ∧ p k ≤ hi k) ∧
      clusterCenter .linf pts k = (lo k + hi k) / 2 := by
  constructor
  · rw [clusterCenter]
    have : (pts.length : ℝ) ≠ 0 := by
      rw [Nat.cast_ne_zero]; exact fun h => hne (List.length_eq_zero_iff.1 h)
    field_simp
  · have hm : pts.map (fun p => p k) ≠ [] := by simpa using hne
    obtain ⟨hi, h1, h2⟩ := List.mem_map.1 (reduceMax_mem _ hm)
    obtain ⟨lo, h3, h4⟩ := List.mem_map.1 (reduceMin_mem _ hm)
    refine ⟨lo, h3, hi, h1, ?_, ?_⟩
    · intro p hp
      rw [h2, h4]
      exact ⟨reduceMin_le _ _ (List.mem_map.2 ⟨p, hp, rfl⟩), le_reduceMax _ _ (List.mem_map.2 ⟨p, hp, rfl⟩)⟩
    · rw [h2, h4, clusterCenter, add_comm]

/-- a concrete case: two clusters on a line, four proxies on the unit circle -/
example : ∃ g : Gen 2, ∃ D, mkGen (some 4) none "linf" (generateUnitSphere fun _ => []) = .ok g ∧
    g.ref ≠ [] ∧ 1 ≤ g.radiusFactor ∧ (∀ x ∈ g.ref, eucl 0 x = 1) ∧
    WF ⟨[0, 1, 2], [0, 1, 3]⟩ ∧ g.callPlain (fun k => fun _ => (k : ℝ)) ⟨[0, 1, 2], [0, 1, 3]⟩ = .ok D := by
  obtain ⟨ref, h1, h2, h3⟩ := (C46_reference (d := 2) (fun _ => []) 4).1 rfl
  have hne : ref ≠ [] := by rintro rfl; simp at h2
  refine ⟨⟨1.1, .linf, ref⟩, _, ?_, hne, by norm_num, h3, ?_, call_eq _ hne _ _ _⟩
  · simp [mkGen, parseNorm, h1, bind, Except.bind, pure, Except.pure]
  · refine ⟨rfl, ?_, rfl⟩
    intro i j hij hj
    simp only [List.length_cons, List.length_nil] at hj
    have : i ≤ 2 := by omega
    interval_cases j <;> interval_cases i <;> simp [IList.start]

end Verif.Proxy
