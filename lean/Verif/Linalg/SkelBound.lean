import Mathlib.Algebra.Order.BigOperators.Group.Finset
import Verif.Linalg.SkelError
import Mathlib.Tactic.IntervalCases

/-!
# The errors of clusters bound the error of the skeletonized matrix (C70)

`cluster_skeletonization_error` and `skeletonization_error` (`pytential/linalg/utils.py:405-541`), modelled in
`Verif.Linalg.SkelError`, compared.
-/

namespace Verif.SkelError
open Verif.IndexList Verif.Skeleton

variable {F V : Type}

/-! ## specification -/

/-- what is needed of a matrix norm (true of `ord=None`, the Frobenius norm, of `ord=1, 2, inf`, and of the sum of the
absolute values below): norm axioms, submultiplicativity, and that neither choosing distinct columns of a matrix nor
placing it into a larger matrix of zeros increases it -/
structure MatNorm [Ring F] [Field V] [LinearOrder V] (nrm : Mat F → V) : Prop where
  ext : Ext nrm
  nonneg : ∀ A, 0 ≤ nrm A
  zero : ∀ A : Mat F, (∀ a b, a < A.m → b < A.n → A.e a b = 0) → nrm A = 0
  add : ∀ A B C : Mat F, A.m = C.m → A.n = C.n → B.m = C.m → B.n = C.n →
    (∀ a b, a < C.m → b < C.n → C.e a b = A.e a b + B.e a b) → nrm C ≤ nrm A + nrm B
  mul : ∀ A B C : Mat F, A.n = B.m → C.m = A.m → C.n = B.n →
    (∀ a b, a < C.m → b < C.n → C.e a b = ∑ l ∈ Finset.range A.n, A.e a l * B.e l b) → nrm C ≤ nrm A * nrm B
  select : ∀ (A C : Mat F) (pos : Nat → Nat), C.m = A.m → (∀ q, q < C.n → pos q < A.n) →
    (∀ q q', q < C.n → q' < C.n → pos q = pos q' → q = q') →
    (∀ a q, a < C.m → q < C.n → C.e a q = A.e a (pos q)) → nrm C ≤ nrm A
  embed : ∀ (A C : Mat F) (r c : List Nat), r.Nodup → c.Nodup → r.length = A.m → c.length = A.n →
    (∀ p ∈ r, p < C.m) → (∀ q ∈ c, q < C.n) →
    (∀ a b, a < A.m → b < A.n → C.e (r.getD a 0) (c.getD b 0) = A.e a b) →
    (∀ p q, ¬ (p ∈ r ∧ q ∈ c) → C.e p q = 0) → nrm C ≤ nrm A

/-! ## one block -/

theorem block_bound [Ring F] [Field V] [LinearOrder V] [IsStrictOrderedRing V] (nrm : Mat F → V) (hn : MatNorm nrm)
    (A : Mat F) (S : Result F) (n : Nat) (ft fs st ss : Nat → List Nat) (L R : Nat → Mat F)
    (h : Data A S n ft fs st ss L R) (i j : Nat) (hi : i < n) (hj : j < n) (hss : (ss j).Nodup) :
    nrm (bothDiff A ft fs st ss L R i j)
      ≤ nrm (srcDiff A ft fs ss R i j) + nrm (tgtDiff A ft fs st L i j) * nrm (R j) := by
  obtain ⟨pos, hp, hdec⟩ := C70_decompose A S n ft fs st ss L R h i j hi hj
  obtain ⟨hR1, hR2⟩ := h.Rshape j hj
  have hsel : nrm ⟨(ft i).length, (ss j).length, fun a q => (tgtDiff A ft fs st L i j).e a (pos q)⟩
      ≤ nrm (tgtDiff A ft fs st L i j) := by
    refine hn.select _ _ pos rfl (fun q hq => (hp q hq).1) ?_ (fun _ _ _ _ => rfl)
    intro q q' hq hq' he
    have h1 := (hp q hq).2
    have h2 := (hp q' hq').2
    rw [he] at h1
    have h3 := h1.symm.trans h2
    simp only at hq hq'
    rw [List.getD_eq_getElem?_getD, List.getElem?_eq_getElem hq, Option.getD_some,
      List.getD_eq_getElem?_getD, List.getElem?_eq_getElem hq', Option.getD_some] at h3
    exact (hss.getElem_inj_iff).1 h3
  have hmul : nrm ⟨(ft i).length, (fs j).length, fun a b =>
      ∑ q ∈ Finset.range (ss j).length, (tgtDiff A ft fs st L i j).e a (pos q) * (R j).e q b⟩
      ≤ nrm ⟨(ft i).length, (ss j).length, fun a q => (tgtDiff A ft fs st L i j).e a (pos q)⟩ * nrm (R j) :=
    hn.mul _ _ _ hR1.symm rfl hR2.symm (fun _ _ _ _ => rfl)
  have hadd := hn.add (srcDiff A ft fs ss R i j) ⟨(ft i).length, (fs j).length, fun a b =>
      ∑ q ∈ Finset.range (ss j).length, (tgtDiff A ft fs st L i j).e a (pos q) * (R j).e q b⟩
      (bothDiff A ft fs st ss L R i j) rfl rfl rfl rfl (fun a b _ _ => hdec a b)
  have := mul_le_mul_of_nonneg_right hsel (hn.nonneg (R j))
  linarith

/-! ## all blocks -/

/-- a matrix that vanishes outside of disjoint blocks is bounded by the sum of its blocks -/
theorem sum_blocks [Ring F] [Field V] [LinearOrder V] [IsStrictOrderedRing V] (nrm : Mat F → V) (hn : MatNorm nrm)
    (D : Mat F) (n : Nat) (ft fs : Nat → List Nat) (B : Nat → Nat → Mat F)
    (hft : Disjoint n ft) (hfs : Disjoint n fs)
    (rows : ∀ i, i < n → ∀ p ∈ ft i, p < D.m) (cols : ∀ i, i < n → ∀ q ∈ fs i, q < D.n)
    (hB : ∀ i j, (B i j).m = (ft i).length ∧ (B i j).n = (fs j).length)
    (hD : ∀ i j, i < n → j < n → i ≠ j → ∀ a b, a < (ft i).length → b < (fs j).length →
      D.e ((ft i).getD a 0) ((fs j).getD b 0) = (B i j).e a b)
    (P : Finset (Nat × Nat)) (hP : ∀ x ∈ P, x.1 < n ∧ x.2 < n ∧ x.1 ≠ x.2) :
    ∀ C : Mat F, C.m = D.m → C.n = D.n →
      (∀ p q, C.e p q = open Classical in if ∃ x ∈ P, p ∈ ft x.1 ∧ q ∈ fs x.2 then D.e p q else 0) →
      nrm C ≤ ∑ x ∈ P, nrm (B x.1 x.2) := by
  classical
  induction P using Finset.induction_on with
  | empty =>
    intro C _ _ hC
    rw [Finset.sum_empty, hn.zero C (fun a b _ _ => by rw [hC]; simp)]
  | insert x P hx ih =>
    intro C hm hnn hC
    rw [Finset.sum_insert hx]
    have hPx := hP x (Finset.mem_insert_self _ _)
    have ih' := ih (fun y hy => hP y (Finset.mem_insert_of_mem hy))
      ⟨D.m, D.n, fun p q => if ∃ x ∈ P, p ∈ ft x.1 ∧ q ∈ fs x.2 then D.e p q else 0⟩ rfl rfl
      (fun p q => rfl)
    have hemb : nrm ⟨D.m, D.n, fun p q => if p ∈ ft x.1 ∧ q ∈ fs x.2 then D.e p q else 0⟩ ≤ nrm (B x.1 x.2) := by
      refine hn.embed (B x.1 x.2) _ (ft x.1) (fs x.2) (hft.nodup _ hPx.1) (hfs.nodup _ hPx.2.1)
        (hB _ _).1.symm (hB _ _).2.symm (rows _ hPx.1) (cols _ hPx.2.1) ?_ ?_
      · intro a b ha hb
        rw [(hB _ _).1] at ha
        rw [(hB _ _).2] at hb
        have h1 : (ft x.1).getD a 0 ∈ ft x.1 := by
          rw [List.getD_eq_getElem?_getD, List.getElem?_eq_getElem ha, Option.getD_some]
          exact List.getElem_mem ha
        have h2 : (fs x.2).getD b 0 ∈ fs x.2 := by
          rw [List.getD_eq_getElem?_getD, List.getElem?_eq_getElem hb, Option.getD_some]
          exact List.getElem_mem hb
        simp only [h1, h2, and_self, if_true]
        exact hD _ _ hPx.1 hPx.2.1 hPx.2.2 a b ha hb
      · intro p q hpq
        simp only [if_neg hpq]
    have hdisj : ∀ p q, p ∈ ft x.1 ∧ q ∈ fs x.2 → ¬ ∃ y ∈ P, p ∈ ft y.1 ∧ q ∈ fs y.2 := by
      rintro p q ⟨h1, h2⟩ ⟨y, hy, h3, h4⟩
      have hPy := hP y (Finset.mem_insert_of_mem hy)
      have e1 : x.1 = y.1 := by
        by_contra hne
        exact hft.disj _ _ hPx.1 hPy.1 hne p h1 h3
      have e2 : x.2 = y.2 := by
        by_contra hne
        exact hfs.disj _ _ hPx.2.1 hPy.2.1 hne q h2 h4
      exact hx (by rw [Prod.ext e1 e2]; exact hy)
    have hadd := hn.add ⟨D.m, D.n, fun p q => if p ∈ ft x.1 ∧ q ∈ fs x.2 then D.e p q else 0⟩
      ⟨D.m, D.n, fun p q => if ∃ x ∈ P, p ∈ ft x.1 ∧ q ∈ fs x.2 then D.e p q else 0⟩ C
      hm.symm hnn.symm hm.symm hnn.symm (by
        intro p q _ _
        rw [hC p q]
        by_cases h1 : p ∈ ft x.1 ∧ q ∈ fs x.2
        · have h2 := hdisj p q h1
          rw [if_pos ⟨x, Finset.mem_insert_self _ _, h1⟩]
          simp only [if_pos h1, if_neg h2, add_zero]
        · by_cases h2 : ∃ y ∈ P, p ∈ ft y.1 ∧ q ∈ fs y.2
          · obtain ⟨y, hy, h3⟩ := h2
            rw [if_pos ⟨y, Finset.mem_insert_of_mem hy, h3⟩]
            simp only [if_neg h1, zero_add]
            rw [if_pos ⟨y, hy, h3⟩]
          · have h3 : ¬ ∃ y ∈ insert x P, p ∈ ft y.1 ∧ q ∈ fs y.2 := by
              rintro ⟨y, hy, h4⟩
              rcases Finset.mem_insert.1 hy with rfl | hy
              · exact h1 h4
              · exact h2 ⟨y, hy, h4⟩
            rw [if_neg h3]
            simp only [if_neg h1, if_neg h2, add_zero])
    linarith

/-- the pairs of different clusters -/
def offDiag (n : Nat) : Finset (Nat × Nat) :=
  ((Finset.range n) ×ˢ (Finset.range n)).filter fun x => x.1 ≠ x.2

/-- **C70**: the error of the whole matrix is at most the sum, over all pairs of different clusters, of the source error
of the pair plus its target error times the norm of the right interpolation matrix: so small cluster errors mean a
small error. -/
theorem C70_bound [Ring F] [Field V] [LinearOrder V] [IsStrictOrderedRing V] (nrm : Mat F → V) (hn : MatNorm nrm)
    (A : Mat F) (S : Result F) (n : Nat) (ft fs st ss : Nat → List Nat) (L R : Nat → Mat F)
    (h : Data A S n ft fs st ss L R) (hft : Disjoint n ft) (hfs : Disjoint n fs) (hss : ∀ j, j < n → (ss j).Nodup) :
    ∃ (T E : Nat → Nat → Num V) (t s : Nat → Nat → V) (e : V),
      clusterError nrm false A S = .ok (T, E) ∧
      (∀ i j, i < n → j < n → i ≠ j → T i j = .num (t i j) ∧ E i j = .num (s i j)) ∧
      skelError nrm false A S = .ok (.num e) ∧
      e ≤ ∑ x ∈ offDiag n, (s x.1 x.2 + t x.1 x.2 * nrm (R x.2)) := by
  classical
  obtain ⟨T, E, h1, -, h3⟩ := C70_cluster_partial nrm hn.ext false A S n ft fs st ss L R h
  obtain ⟨D, g1, g2, g3, g4, g5⟩ := C70_total nrm hn.ext false A S n ft fs st ss L R h hft hfs
  refine ⟨T, E, fun i j => nrm (tgtDiff A ft fs st L i j), fun i j => nrm (srcDiff A ft fs ss R i j), nrm D, h1,
    fun i j hi hj hne => h3 i j hi hj hne, g1, ?_⟩
  have hP : ∀ x ∈ offDiag n, x.1 < n ∧ x.2 < n ∧ x.1 ≠ x.2 := by
    intro x hx
    simp only [offDiag, Finset.mem_filter, Finset.mem_product, Finset.mem_range] at hx
    exact ⟨hx.1.1, hx.1.2, hx.2⟩
  have hs := sum_blocks nrm hn D n ft fs (fun i j => bothDiff A ft fs st ss L R i j) hft hfs
    (fun i hi p hp => by rw [g2]; exact h.rows i hi p hp) (fun i hi q hq => by rw [g3]; exact h.cols i hi q hq)
    (fun i j => ⟨rfl, rfl⟩) g4 (offDiag n) hP D rfl rfl (by
      intro p q
      by_cases hc : ∃ x ∈ offDiag n, p ∈ ft x.1 ∧ q ∈ fs x.2
      · rw [if_pos hc]
      · rw [if_neg hc]
        refine g5 p q fun i j hi hj hne hpq => hc ⟨(i, j), ?_, hpq⟩
        simp only [offDiag, Finset.mem_filter, Finset.mem_product, Finset.mem_range]
        exact ⟨⟨hi, hj⟩, hne⟩)
  refine hs.trans (Finset.sum_le_sum fun x hx => ?_)
  obtain ⟨x1, x2, -⟩ := hP x hx
  exact block_bound nrm hn A S n ft fs st ss L R h x.1 x.2 x1 x2 (hss _ x2)

/-- **C70**: the skeleton of a cluster of distinct points consists of distinct points, so `C70_bound` applies to every
successful skeletonization of clusters that do not overlap. -/
theorem C70_skeleton_nodup [Ring F] (id : ID F) (hid : IDOK id) (ws wt : Wrangler F) (m : TSList)
    (hm : m.targets.nclusters = m.sources.nclusters) (ht : WF m.targets) (hs : WF m.sources) (idEps : Option ℚ)
    (idRank : Option Nat) (S : Result F) (h : skeletonize id ws wt m idEps idRank = .ok S) (A : Mat F)
    (ft fs st ss : Nat → List Nat) (L R : Nat → Mat F) (hd : Data A S m.n ft fs st ss L R)
    (hfs : Disjoint m.n fs) : ∀ j, j < m.n → (ss j).Nodup := by
  intro j hj
  obtain ⟨h1, -, -, -, -, -, -, h8⟩ := C49_consistent id hid ws wt m hm ht hs idEps idRank S h
  have hn : (m.n : Int) = m.targets.nclusters := by
    have := ht.length_pos
    rw [TSList.n, IList.nclusters]; omega
  obtain ⟨ct, cs, st', ss', k, L', R', q1, q2, q3, q4, q5, q6, -, -, -, q10, q11⟩ := h8 j (by omega)
  have e1 : ss j = ss' := by
    have := (hd.ssOk j hj).symm.trans q4
    injection this
  have e2 : fs j = cs := by
    have h2 := hd.fsOk j hj
    rw [h1] at h2
    have := h2.symm.trans q2
    injection this
  obtain ⟨pos, p1, p2, p3, p4, -⟩ := q11.spec
  rw [e1, p4]
  refine (List.nodup_map_iff_inj_on p1).2 ?_
  intro a ha b hb hab
  have hnd := hfs.nodup j hj
  rw [e2] at hnd
  have ha' := p3 a ha
  have hb' := p3 b hb
  rw [List.getD_eq_getElem?_getD, List.getElem?_eq_getElem ha', Option.getD_some,
    List.getD_eq_getElem?_getD, List.getElem?_eq_getElem hb', Option.getD_some] at hab
  exact (hnd.getElem_inj_iff).1 hab

/-! ## example: the sum of the absolute values is such a norm -/

theorem sum_getD_le (l : List Nat) (hl : l.Nodup) (n : Nat) (h : ∀ p ∈ l, p < n) (f : Nat → ℚ) (hf : ∀ p, p ∉ l → f p = 0) :
    ∑ p ∈ Finset.range n, f p = ∑ a ∈ Finset.range l.length, f (l.getD a 0) := by
  have h1 : ∑ p ∈ Finset.range n, f p = ∑ p ∈ l.toFinset, f p := by
    symm
    refine Finset.sum_subset ?_ ?_
    · intro p hp; exact Finset.mem_range.2 (h p (List.mem_toFinset.1 hp))
    · intro p _ hp; exact hf p (fun hc => hp (List.mem_toFinset.2 hc))
  rw [h1]
  symm
  refine Finset.sum_bij (fun a _ => l.getD a 0) ?_ ?_ ?_ ?_
  · intro a ha
    have ha := Finset.mem_range.1 ha
    rw [List.mem_toFinset, List.getD_eq_getElem?_getD, List.getElem?_eq_getElem ha, Option.getD_some]
    exact List.getElem_mem ha
  · intro a ha b hb hab
    have ha := Finset.mem_range.1 ha
    have hb := Finset.mem_range.1 hb
    rw [List.getD_eq_getElem?_getD, List.getElem?_eq_getElem ha, Option.getD_some,
      List.getD_eq_getElem?_getD, List.getElem?_eq_getElem hb, Option.getD_some] at hab
    exact (hl.getElem_inj_iff).1 hab
  · intro p hp
    obtain ⟨a, ha, rfl⟩ := List.getElem_of_mem (List.mem_toFinset.1 hp)
    exact ⟨a, Finset.mem_range.2 ha, by
      rw [List.getD_eq_getElem?_getD, List.getElem?_eq_getElem ha, Option.getD_some]⟩
  · intro a _; rfl

theorem sumNorm_matNorm : MatNorm sumNorm where
  ext := sumNorm_ext
  nonneg := fun A => Finset.sum_nonneg fun a _ => Finset.sum_nonneg fun b _ => abs_nonneg _
  zero := fun A h => (sumNorm_definite A).2 h
  add := by
    intro A B C h1 h2 h3 h4 h
    unfold sumNorm
    rw [h1, h2, h3, h4, ← Finset.sum_add_distrib]
    refine Finset.sum_le_sum fun a ha => ?_
    rw [← Finset.sum_add_distrib]
    refine Finset.sum_le_sum fun b hb => ?_
    rw [h a b (Finset.mem_range.1 ha) (Finset.mem_range.1 hb)]
    exact abs_add_le _ _
  mul := by
    intro A B C h1 h2 h3 h
    unfold sumNorm
    rw [h2, h3, Finset.sum_mul]
    refine Finset.sum_le_sum fun a ha => ?_
    have step : ∀ b ∈ Finset.range B.n, |C.e a b| ≤ ∑ l ∈ Finset.range A.n, |A.e a l| * |B.e l b| := by
      intro b hb
      rw [h a b (by rw [h2]; exact Finset.mem_range.1 ha) (by rw [h3]; exact Finset.mem_range.1 hb)]
      refine (Finset.abs_sum_le_sum_abs _ _).trans (le_of_eq ?_)
      exact Finset.sum_congr rfl fun l _ => abs_mul _ _
    refine (Finset.sum_le_sum step).trans ?_
    rw [Finset.sum_comm, Finset.sum_mul]
    refine Finset.sum_le_sum fun l hl => ?_
    rw [← Finset.mul_sum]
    refine mul_le_mul_of_nonneg_left ?_ (abs_nonneg _)
    rw [h1] at hl
    exact Finset.single_le_sum (f := fun l => ∑ b ∈ Finset.range B.n, |B.e l b|)
      (fun l _ => Finset.sum_nonneg fun b _ => abs_nonneg _) hl
  select := by
    intro A C pos hm hp hi h
    unfold sumNorm
    rw [hm]
    refine Finset.sum_le_sum fun a ha => ?_
    have e : ∑ q ∈ Finset.range C.n, |C.e a q| = ∑ q ∈ (Finset.range C.n).image pos, |A.e a q| := by
      rw [Finset.sum_image (fun q hq q' hq' => hi q q' (Finset.mem_range.1 hq) (Finset.mem_range.1 hq'))]
      refine Finset.sum_congr rfl fun q hq => ?_
      rw [h a q (by rw [hm]; exact Finset.mem_range.1 ha) (Finset.mem_range.1 hq)]
    rw [e]
    refine Finset.sum_le_sum_of_subset_of_nonneg ?_ (fun _ _ _ => abs_nonneg _)
    intro p hp'
    obtain ⟨q, hq, rfl⟩ := Finset.mem_image.1 hp'
    exact Finset.mem_range.2 (hp q (Finset.mem_range.1 hq))
  embed := by
    intro A C r c hr hc hrl hcl hrm hcn h hz
    unfold sumNorm
    refine le_of_eq ?_
    rw [sum_getD_le r hr C.m hrm (fun p => ∑ q ∈ Finset.range C.n, |C.e p q|)
      (fun p hp => Finset.sum_eq_zero fun q _ => by rw [hz p q (fun hh => hp hh.1), abs_zero]), hrl]
    refine Finset.sum_congr rfl fun a ha => ?_
    rw [sum_getD_le c hc C.n hcn (fun q => |C.e (r.getD a 0) q|)
      (fun q hq => by rw [hz _ q (fun hh => hq hh.2), abs_zero]), hcl]
    refine Finset.sum_congr rfl fun b hb => ?_
    rw [h a b (Finset.mem_range.1 ha) (Finset.mem_range.1 hb)]

/-- the bound is about something: in the example the error is not zero -/
example : ∃ e : ℚ, skelError sumNorm false exMat exRes = .ok (.num e) ∧ (∀ j, j < 2 → (exS j).Nodup) := by
  obtain ⟨T, E, t, s, e, -, -, h, -⟩ := C70_bound sumNorm sumNorm_matNorm exMat exRes 2 exF exF exS exS exL exR exData
    exDisjoint exDisjoint (by intro j hj; interval_cases j <;> decide)
  exact ⟨e, h, by intro j hj; interval_cases j <;> decide⟩

end Verif.SkelError
