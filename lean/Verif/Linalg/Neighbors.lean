import Verif.Linalg.Proxy

/-!
# Neighbor points of clusters (C47)

Model of `gather_cluster_neighbor_points` (`pytential/linalg/proxy.py:692-821`).  The tree and the area query
come from `boxtree`, which is not part of the repository: `Tree` and `Query` hold their arrays, `TreeOK` and
`QueryOK` state what `boxtree` documents about them.
-/

namespace Verif.Neighbors
open Verif.Offsets Verif.IndexList Verif.Proxy

variable {d : Nat}

/-- the arrays of the tree read here: `sources` (tree order), `user_source_ids`, `box_source_starts`,
`box_source_counts_cumul` -/
structure Tree (d : Nat) where
  pos : Nat → Pt d
  userIds : Nat → Nat
  boxStart : Nat → Nat
  boxCount : Nat → Nat

/-- the picker kernel (`proxy.py:733-756`): positions of the points in the index list -/
def pick (nodes : Nat → Pt d) (indices : List Nat) (i : Nat) : Pt d := nodes (indices.getD i 0)

/-- tree numbers of the points in the boxes (`proxy.py:796-799`) -/
def boxPoints (T : Tree d) (boxes : List Nat) : List Nat :=
  boxes.flatMap fun b => List.range' (T.boxStart b) (T.boxCount b)

/-- the mask (`proxy.py:805-809`) for tree number `i` -/
noncomputable def keep (T : Tree d) (eps : ℝ) (center : Pt d) (radius : ℝ) (lo hi : Nat) (i : Nat) : Bool :=
  decide (eucl (T.pos i) center - eps ≤ radius) && (decide (T.userIds i < lo) || decide (hi ≤ T.userIds i))

/-- one iteration of the loop (`proxy.py:785-814`); the warning for clusters without neighbors is left out.
`leaves_near_ball_starts`/`_lists` are an index list -/
noncomputable def gatherOne (T : Tree d) (query : IList) (eps : ℝ) (tgtindex : IList) (centers : List (Pt d))
    (radii : List ℝ) (c : Nat) : List Nat :=
  let istart := query.start c
  let iend := query.start (c + 1)
  let iboxes := slice query.indices istart iend
  if iend - istart = 0 then []
  else
    ((boxPoints T iboxes).filter
        (keep T eps (centers.getD c 0) (radii.getD c 0) (tgtindex.start c) (tgtindex.start (c + 1)))).map
      fun i => tgtindex.indices.getD (T.userIds i) 0

/-- `gather_cluster_neighbor_points` (`proxy.py:692-819`).  `build` is the tree builder and `areaQuery` the
area query, both from `boxtree`; `eps` is `100 * finfo(dtype).eps` -/
noncomputable def gather (build : (Nat → Pt d) → Nat → Tree d) (areaQuery : Tree d → List (Pt d) → List ℝ → IList)
    (eps : ℝ) (nodes : Nat → Pt d) (D : Data d) (tgtindex? : Option IList) : Except PErr IList :=
  let tgtindex := tgtindex?.getD D.srcindex
  if tgtindex.nclusters ≠ D.srcindex.nclusters then .error .value
  else
    let T := build (pick nodes tgtindex.indices) tgtindex.indices.length
    let query := areaQuery T D.centers D.radii
    liftI (makeIndexList (.clusters ((List.range (D.srcindex.starts.length - 1)).map
      (gatherOne T query eps tgtindex D.centers D.radii))))

/-! ## specification of `boxtree` -/

/-- a box of the tree: center and half width -/
structure BoxGeo (d : Nat) where
  ctr : Pt d
  hw : ℝ

/-- what `boxtree` guarantees about a tree of the `n` points `pts`: the tree order is a permutation, and the
leaf boxes hold every point in exactly one contiguous range and contain it geometrically -/
structure TreeOK (T : Tree d) (pts : Nat → Pt d) (n : Nat) (leaves : List Nat) (geo : Nat → BoxGeo d) : Prop where
  bound : ∀ i < n, T.userIds i < n
  inj : ∀ i < n, ∀ j < n, T.userIds i = T.userIds j → i = j
  surj : ∀ j < n, ∃ i < n, T.userIds i = j
  pos : ∀ i < n, T.pos i = pts (T.userIds i)
  nodup : leaves.Nodup
  range : ∀ b ∈ leaves, T.boxStart b + T.boxCount b ≤ n
  cover : ∀ i < n, ∃ b ∈ leaves, T.boxStart b ≤ i ∧ i < T.boxStart b + T.boxCount b
  disjoint : ∀ b ∈ leaves, ∀ b' ∈ leaves, ∀ i, T.boxStart b ≤ i → i < T.boxStart b + T.boxCount b →
    T.boxStart b' ≤ i → i < T.boxStart b' + T.boxCount b' → b = b'
  inside : ∀ b ∈ leaves, ∀ i, T.boxStart b ≤ i → i < T.boxStart b + T.boxCount b →
    ∀ k, |(geo b).ctr k - T.pos i k| ≤ (geo b).hw

/-- what the area query guarantees: for every ball exactly the leaf boxes that overlap its `L∞` hull, each
once -/
def QueryOK (q : IList) (leaves : List Nat) (geo : Nat → BoxGeo d) (centers : List (Pt d)) (radii : List ℝ) : Prop :=
  WF q ∧ q.nclusters = centers.length ∧
  ∀ (c : Nat) ctr r, centers[c]? = some ctr → radii[c]? = some r →
    ∃ bs, q.clusterIndices c = .ok bs ∧ bs.Nodup ∧
      ∀ b, b ∈ bs ↔ b ∈ leaves ∧ ∀ k, |ctr k - (geo b).ctr k| ≤ (geo b).hw + r

/-! ## lemmas -/

theorem getD_of_lt {α : Type} (l : List α) (x : α) {i : Nat} (h : i < l.length) : l.getD i x = l[i] := by
  rw [List.getD_eq_getElem?_getD, List.getElem?_eq_getElem h, Option.getD_some]

theorem coord_le_eucl (a b : Pt d) (k : Fin d) : |a k - b k| ≤ eucl a b := by
  apply abs_le_of_sq_le_sq _ (eucl_nonneg _ _) |> fun h => h
  rw [eucl_sq]
  exact Finset.single_le_sum (f := fun i => (a i - b i) ^ 2) (fun i _ => sq_nonneg _) (Finset.mem_univ k)

/-- the tree numbers enumerated for a ball: all in range, none twice, and all points in the ball among them -/
theorem boxPoints_spec (T : Tree d) (pts : Nat → Pt d) (n : Nat) (leaves : List Nat) (geo : Nat → BoxGeo d)
    (hT : TreeOK T pts n leaves geo) (bs : List Nat) (hnd : bs.Nodup) (ctr : Pt d) (r : ℝ)
    (hbs : ∀ b, b ∈ bs ↔ b ∈ leaves ∧ ∀ k, |ctr k - (geo b).ctr k| ≤ (geo b).hw + r) :
    (boxPoints T bs).Nodup ∧ (∀ i ∈ boxPoints T bs, i < n) ∧
      ∀ i < n, eucl (T.pos i) ctr ≤ r → i ∈ boxPoints T bs := by
  have hmem : ∀ i, i ∈ boxPoints T bs ↔ ∃ b ∈ bs, T.boxStart b ≤ i ∧ i < T.boxStart b + T.boxCount b := by
    intro i
    simp [boxPoints, List.mem_flatMap, List.mem_range'_1]
  refine ⟨?_, ?_, ?_⟩
  · rw [boxPoints, List.nodup_flatMap]
    refine ⟨fun b _ => List.nodup_range', ?_⟩
    apply List.Nodup.pairwise_of_forall_ne hnd |> fun h => h
    intro b hb b' hb' hne i hi hi'
    simp only [List.mem_range'_1] at hi hi'
    exact hne (hT.disjoint b ((hbs b).1 hb).1 b' ((hbs b').1 hb').1 i hi.1 hi.2 hi'.1 hi'.2)
  · intro i hi
    obtain ⟨b, hb, -, h2⟩ := (hmem i).1 hi
    exact lt_of_lt_of_le h2 (hT.range b ((hbs b).1 hb).1)
  · intro i hi hdist
    obtain ⟨b, hb, h1, h2⟩ := hT.cover i hi
    rw [hmem]
    refine ⟨b, (hbs b).2 ⟨hb, ?_⟩, h1, h2⟩
    intro k
    have e1 := hT.inside b hb i h1 h2 k
    have e2 := coord_le_eucl (T.pos i) ctr k
    have e3 : |ctr k - (geo b).ctr k| ≤ |T.pos i k - ctr k| + |(geo b).ctr k - T.pos i k| := by
      rw [abs_sub_comm (T.pos i k), abs_sub_comm ((geo b).ctr k)]
      exact abs_sub_le _ _ _
    linarith

theorem gatherOne_eq (T : Tree d) (q : IList) (hq : WF q) (eps : ℝ) (tgtindex : IList) (centers : List (Pt d))
    (radii : List ℝ) (c : Nat) (bs : List Nat) (hc : q.clusterIndices c = .ok bs) (ctr : Pt d) (r : ℝ)
    (hctr : centers[c]? = some ctr) (hr : radii[c]? = some r) :
    gatherOne T q eps tgtindex centers radii c =
      ((boxPoints T bs).filter (keep T eps ctr r (tgtindex.start c) (tgtindex.start (c + 1)))).map
        fun i => tgtindex.indices.getD (T.userIds i) 0 := by
  have hb : q.inBounds (c : Int) = true := by
    by_contra hb
    simp [IList.clusterIndices, hb] at hc
  simp only [IList.clusterIndices, hb, if_true, Int.toNat_natCast, Except.ok.injEq] at hc
  have hlt : c + 1 < q.starts.length := by simpa [inBounds_nat] using hb
  rw [gatherOne, hc]
  simp only [List.getD_eq_getElem?_getD, hctr, hr, Option.getD_some]
  by_cases h0 : q.start (c + 1) - q.start c = 0
  · rw [if_pos h0]
    have : bs = [] := by
      rw [← hc, ← List.length_eq_zero_iff, slice_length _ _ _ (hq.start_le hlt), h0]
    rw [this]; rfl
  · rw [if_neg h0]

/-! # C47 -/

/-- C47: the neighbors of cluster `c` are points of the target index list outside of the cluster; all those
inside the proxy ball are found, none farther away than the proxy radius plus `eps` is, and none is returned
twice.  (The index list has no repeated DOF.) -/
theorem C47_exact (build : (Nat → Pt d) → Nat → Tree d) (areaQuery : Tree d → List (Pt d) → List ℝ → IList)
    (eps : ℝ) (heps : 0 ≤ eps) (nodes : Nat → Pt d) (D : Data d) (tgtindex? : Option IList) (tgtindex : IList)
    (htgt : tgtindex = tgtindex?.getD D.srcindex) (hw : WF tgtindex) (hnd : tgtindex.indices.Nodup)
    (hn : tgtindex.nclusters = D.srcindex.nclusters) (hpos : 0 < D.srcindex.nclusters)
    (hcl : (D.centers.length : Int) = D.srcindex.nclusters) (hrl : (D.radii.length : Int) = D.srcindex.nclusters)
    (leaves : List Nat) (geo : Nat → BoxGeo d)
    (hT : TreeOK (build (pick nodes tgtindex.indices) tgtindex.indices.length) (pick nodes tgtindex.indices)
      tgtindex.indices.length leaves geo)
    (hQ : QueryOK (areaQuery (build (pick nodes tgtindex.indices) tgtindex.indices.length) D.centers D.radii)
      leaves geo D.centers D.radii) :
    ∃ nbr, gather build areaQuery eps nodes D tgtindex? = .ok nbr ∧ WF nbr ∧
      nbr.nclusters = D.srcindex.nclusters ∧
      ∀ c : Nat, (c : Int) < D.srcindex.nclusters →
        ∃ ctr r own found, D.centers[c]? = some ctr ∧ D.radii[c]? = some r ∧
          tgtindex.clusterIndices c = .ok own ∧ nbr.clusterIndices c = .ok found ∧ found.Nodup ∧
          (∀ k ∈ found, k ∈ tgtindex.indices ∧ k ∉ own ∧ InBall ctr (r + eps) (nodes k)) ∧
          (∀ k ∈ tgtindex.indices, k ∉ own → InBall ctr r (nodes k) → k ∈ found) := by
  subst htgt
  generalize htt : tgtindex?.getD D.srcindex = tgt at *
  obtain ⟨hqw, hqn, hq⟩ := hQ
  generalize hTT : build (pick nodes tgt.indices) tgt.indices.length = T at *
  generalize hqq : areaQuery T D.centers D.radii = q at *
  have hlen : ((List.range (D.srcindex.starts.length - 1)).map
      (gatherOne T q eps tgt D.centers D.radii)).length = D.srcindex.starts.length - 1 := by simp
  have hns : 0 < D.srcindex.starts.length - 1 := by simp only [IList.nclusters] at hpos; omega
  obtain ⟨nbr, h1, h2, h3, h4⟩ := (C25_roundtrip ((List.range (D.srcindex.starts.length - 1)).map
      (gatherOne T q eps tgt D.centers D.radii))).2 (by
        intro h; rw [h] at hlen; simp at hlen; omega)
  refine ⟨nbr, ?_, h2, ?_, ?_⟩
  · rw [gather, htt]
    simp only [ne_eq, hn, not_true, if_false, hTT, hqq]
    rw [h1]; rfl
  · rw [h3, hlen]; simp only [IList.nclusters]; omega
  · intro c hc
    have hc1 : c < D.srcindex.starts.length - 1 := by simp only [IList.nclusters] at hc; omega
    have hcc : c < D.centers.length := by omega
    have hcr : c < D.radii.length := by omega
    obtain ⟨bs, hb1, hb2, hb3⟩ := hq c _ _ (List.getElem?_eq_getElem hcc) (List.getElem?_eq_getElem hcr)
    have hb : tgt.inBounds (c : Int) = true := by
      rw [inBounds_nat]; simp only [IList.nclusters] at hn hc; simp; omega
    have hlt : c + 1 < tgt.starts.length := by simpa [inBounds_nat] using hb
    have hown : tgt.clusterIndices c = .ok (slice tgt.indices (tgt.start c) (tgt.start (c + 1))) := by
      simp [IList.clusterIndices, hb]
    have hle := hw.start_le hlt
    have hfound := h4 c _ (by rw [List.getElem?_map, List.getElem?_range hc1]; rfl)
    rw [gatherOne_eq T q hqw eps tgt _ _ c bs hb1 _ _ (List.getElem?_eq_getElem hcc)
      (List.getElem?_eq_getElem hcr)] at hfound
    obtain ⟨s1, s2, s3⟩ := boxPoints_spec T _ _ leaves geo hT bs hb2 _ _ hb3
    refine ⟨_, _, _, _, List.getElem?_eq_getElem hcc, List.getElem?_eq_getElem hcr, hown, hfound, ?_, ?_, ?_⟩
    · apply List.Nodup.map_on _ (s1.filter _)
      intro i hi j hj hij
      have hi1 := s2 i (List.mem_filter.1 hi).1
      have hj1 := s2 j (List.mem_filter.1 hj).1
      rw [getD_of_lt _ _ (hT.bound i hi1), getD_of_lt _ _ (hT.bound j hj1)] at hij
      exact hT.inj i hi1 j hj1 ((hnd.getElem_inj_iff).1 hij)
    · intro k hk
      obtain ⟨i, hi, rfl⟩ := List.mem_map.1 hk
      obtain ⟨hi1, hi2⟩ := List.mem_filter.1 hi
      have hin := s2 i hi1
      have hu := hT.bound i hin
      rw [keep, Bool.and_eq_true, Bool.or_eq_true, decide_eq_true_eq, decide_eq_true_eq, decide_eq_true_eq] at hi2
      rw [getD_of_lt _ _ hu]
      refine ⟨List.getElem_mem hu, ?_, ?_⟩
      · intro hmem
        obtain ⟨m, hm⟩ := List.getElem?_of_mem hmem
        rw [slice_get?] at hm
        split_ifs at hm with hlt'
        have hm2 : tgt.start c + m < tgt.indices.length := by omega
        rw [List.getElem?_eq_getElem hm2, Option.some.injEq] at hm
        have := (hnd.getElem_inj_iff).1 hm
        omega
      · have hp : T.pos i = nodes tgt.indices[T.userIds i] := by
          rw [hT.pos i hin, pick, getD_of_lt _ _ hu]
        rw [InBall, ← hp, eucl_comm]
        linarith [hi2.1]
    · intro k hk hko hball
      obtain ⟨j, hj, rfl⟩ := List.getElem_of_mem hk
      obtain ⟨i, hi, rfl⟩ := hT.surj j hj
      have hp : T.pos i = nodes tgt.indices[T.userIds i] := by
        rw [hT.pos i hi, pick, getD_of_lt _ _ hj]
      have hd : eucl (T.pos i) D.centers[c] ≤ D.radii[c] := by rw [eucl_comm, hp]; exact hball
      refine List.mem_map.2 ⟨i, List.mem_filter.2 ⟨s3 i hi hd, ?_⟩, getD_of_lt _ _ hj⟩
      rw [keep, Bool.and_eq_true, Bool.or_eq_true, decide_eq_true_eq, decide_eq_true_eq, decide_eq_true_eq]
      refine ⟨by linarith, ?_⟩
      by_contra hcon
      apply hko
      apply List.mem_of_getElem? (i := T.userIds i - tgt.start c)
      rw [slice_get?, if_pos (by omega), show tgt.start c + (T.userIds i - tgt.start c) = T.userIds i by omega,
        List.getElem?_eq_getElem hj]

/-- C47: index lists with different numbers of clusters are rejected with `ValueError` -/
theorem C47_mismatch (build : (Nat → Pt d) → Nat → Tree d) (areaQuery : Tree d → List (Pt d) → List ℝ → IList)
    (eps : ℝ) (nodes : Nat → Pt d) (D : Data d) (tgtindex : IList)
    (h : tgtindex.nclusters ≠ D.srcindex.nclusters) :
    gather build areaQuery eps nodes D (some tgtindex) = .error .value := by
  rw [gather, Option.getD_some, if_pos h]

/-- the proxy data of a call meet the size requirements of `C47_exact` -/
theorem call_sizes (g : Gen d) (hg : g.ref ≠ []) (radiusOf : Pt d → List Nat → ℝ) (sources : Nat → Pt d)
    (dof : IList) (hw : WF dof) (D : Data d) (hD : g.call radiusOf sources dof = .ok D) :
    D.srcindex = dof ∧ (D.centers.length : Int) = D.srcindex.nclusters ∧
      (D.radii.length : Int) = D.srcindex.nclusters := by
  rw [call_eq g hg] at hD
  injection hD with hD
  subst hD
  have := hw.length_pos
  refine ⟨rfl, ?_, ?_⟩ <;> simp [allCenters, allRadii, IList.nclusters] <;> omega

/-- C47 on freshly generated proxies with the default target list: every DOF of another cluster inside the proxy
ball is found, no DOF of the cluster itself ever is -/
theorem C47_after_proxy (g : Gen d) (hg : g.ref ≠ []) (radiusOf : Pt d → List Nat → ℝ) (nodes : Nat → Pt d)
    (dof : IList) (hw : WF dof) (hnd : dof.indices.Nodup) (hpos : 0 < dof.nclusters) (D : Data d)
    (hD : g.call radiusOf nodes dof = .ok D)
    (build : (Nat → Pt d) → Nat → Tree d) (areaQuery : Tree d → List (Pt d) → List ℝ → IList)
    (eps : ℝ) (heps : 0 ≤ eps) (leaves : List Nat) (geo : Nat → BoxGeo d)
    (hT : TreeOK (build (pick nodes dof.indices) dof.indices.length) (pick nodes dof.indices)
      dof.indices.length leaves geo)
    (hQ : QueryOK (areaQuery (build (pick nodes dof.indices) dof.indices.length) D.centers D.radii)
      leaves geo D.centers D.radii) :
    ∃ nbr, gather build areaQuery eps nodes D none = .ok nbr ∧ WF nbr ∧ nbr.nclusters = dof.nclusters ∧
      ∀ c : Nat, (c : Int) < dof.nclusters →
        ∃ ctr r own found, D.centers[c]? = some ctr ∧ D.radii[c]? = some r ∧
          dof.clusterIndices c = .ok own ∧ nbr.clusterIndices c = .ok found ∧ found.Nodup ∧
          (∀ k ∈ found, k ∈ dof.indices ∧ k ∉ own ∧ InBall ctr (r + eps) (nodes k)) ∧
          (∀ k ∈ dof.indices, k ∉ own → InBall ctr r (nodes k) → k ∈ found) := by
  obtain ⟨h1, h2, h3⟩ := call_sizes g hg radiusOf nodes dof hw D hD
  have := C47_exact build areaQuery eps heps nodes D none dof (by rw [Option.getD_none, h1]) hw hnd (by rw [h1])
    (by rw [h1]; exact hpos) h2 h3 leaves geo hT hQ
  rwa [h1] at this

/-- a concrete case: points 0, 1, 2 on a line in two clusters, one leaf box holding all of them -/
example : ∃ (T : Tree 1) (q : IList), TreeOK T (pick (fun k _ => (k : ℝ)) [0, 1, 2]) 3 [0] (fun _ => ⟨0, 5⟩) ∧
    QueryOK (d := 1) q [0] (fun _ => ⟨0, 5⟩) [fun _ => 0, fun _ => 3 / 2] [1, 1] := by
  refine ⟨⟨pick (fun k _ => (k : ℝ)) [0, 1, 2], id, fun _ => 0, fun _ => 3⟩, ⟨[0, 0], [0, 1, 2]⟩, ?_, ?_, ?_, ?_⟩
  · constructor
    · intro i hi; exact hi
    · intro i _ j _ h; exact h
    · intro j hj; exact ⟨j, hj, rfl⟩
    · intro i _; rfl
    · simp
    · intro b _; simp
    · intro i hi; exact ⟨0, by simp, Nat.zero_le _, by simpa using hi⟩
    · intro b hb b' hb' _ _ _ _ _
      rw [List.mem_singleton] at hb hb'
      rw [hb, hb']
    · intro b _ i h1 h2 k
      have : i < 3 := by simpa using h2
      interval_cases i <;> simp [pick]
      norm_num
  · refine ⟨rfl, ?_, rfl⟩
    intro i j hij hj
    simp only [List.length_cons, List.length_nil] at hj
    have : i ≤ 2 := by omega
    interval_cases j <;> interval_cases i <;> simp [IList.start]
  · rfl
  · intro c ctr r h1 h2
    have hc : c < 2 := by
      by_contra h
      rw [List.getElem?_eq_none (by simp; omega)] at h1
      cases h1
    interval_cases c
    · simp only [List.getElem?_cons_zero, Option.some.injEq] at h1 h2
      subst h1 h2
      refine ⟨[0], rfl, by simp, ?_⟩
      intro b
      simp
      intro _; norm_num
    · simp at h1 h2
      subst h1 h2
      refine ⟨[0], rfl, by simp, ?_⟩
      intro b
      simp
      intro _
      rw [abs_of_pos (by norm_num)]
      norm_num

end Verif.Neighbors
