import Verif.QBX.FMM
import Mathlib.Algebra.BigOperators.Ring.List
import Mathlib.Algebra.Ring.Rat
import Mathlib.Data.List.Nodup
import Mathlib.Tactic.Abel

/-!
# The two QBX cost models (C39)

Models the box-centric cost model `QBXCostModel` (OpenCL) and the center-centric reference
`_PythonQBXCostModel` (`pytential/qbx/cost.py`).  Costs live in an arbitrary commutative semiring
(floating point rounding is not modelled).
-/

namespace Verif.Cost

open Verif.Util Verif.Offsets Verif.Geometry Verif.FMM

section

variable {F : Type} [CommSemiring F]

/-- `ary[i] += v` -/
def bump (ary : Nat → F) (i : Nat) (v : F) : Nat → F := fun k => if k = i then ary k + v else ary k

/-! ## box-centric model -/

/-- stores of `_fill_array_with_index(weight, global_centers_tree_order, 1)`
(`cost.py:610-622,683-693`) -/
def maskStores (F : Type) [CommSemiring F] (sorted global : List Nat) : List (Nat × F) :=
  global.map fun c => (sorted.getD c 0, 1)

/-- stores of `global_qbx_center_weight[sorted_target_ids[:ncenters]] *= weights` (`cost.py:695-697`) -/
def weightStores (sorted : List Nat) (ncenters : Nat) (mask : Nat → F) (weights : Nat → F) :
    List (Nat × F) :=
  (List.range ncenters).map fun c => (sorted.getD c 0, mask (sorted.getD c 0) * weights c)

/-- the mask after its stores -/
def mask (ws : List (Nat × F)) (t : Nat) : F := (runStores ws (fun _ => some 0) t).getD 0

/-- the (optionally weighted) mask (`cost.py:687-697`) -/
def centerWeight (ws0 ws1 : List (Nat × F)) (t : Nat) : F :=
  (runStores ws1 (fun t => some (mask ws0 t)) t).getD 0

/-- `count_global_qbx_centers` (`cost.py:645-657`): each target box adds up the weights over its own
targets -/
def countBox (boxes : List (Nat × Nat)) (targetBoxes : List Nat) (weight : Nat → F) (k : Nat) : F :=
  let b := targetBoxes.getD k 0
  ((List.range' ((boxes.getD b (0, 0)).1) ((boxes.getD b (0, 0)).2)).map weight).sum

/-- `process_form_qbxl` (`cost.py:720-727`) -/
def boxForm (count : Nat → F) (ndirect : Nat → F) (cost : F) (k : Nat) : F := count k * ndirect k * cost

/-- `process_m2qbxl` (`cost.py:740-791`): for every level, every nonempty list -/
def boxM2qbxl (list3 : List Ssn) (count : Nat → F) (cost : Nat → F) : Nat → F :=
  (list3.zipIdx).foldl (fun acc xl =>
    (xl.1.nonempty.zipIdx).foldl (fun acc q =>
      bump acc q.1 (count q.1 * ((xl.1.starts.getD (q.2 + 1) 0 - xl.1.starts.getD q.2 0 : Nat) : F)
        * cost xl.2)) acc) (fun _ => 0)

/-- `process_l2qbxl` (`cost.py:793-802`) -/
def boxL2qbxl (targetBoxes : List Nat) (level : Nat → Nat) (count : Nat → F) (cost : Nat → F) (k : Nat) : F :=
  count k * cost (level (targetBoxes.getD k 0))

/-- `process_eval_qbxl` (`cost.py:804-813`) -/
def boxEval (wcount : Nat → F) (cost : F) (k : Nat) : F := wcount k * cost

/-- `process_eval_target_specific_qbxl` (`cost.py:815-828`) -/
def boxTs (wcount : Nat → F) (ndirect : Nat → F) (cost : F) (k : Nat) : F := wcount k * ndirect k * cost

/-! ## center-centric reference -/

/-- `process_form_qbxl` (`cost.py:850-862`) -/
def refForm (global ctb : List Nat) (ndirect : Nat → F) (cost : F) (k : Nat) : F :=
  global.foldl (fun acc c => bump acc (ctb.getD c 0) (ndirect (ctb.getD c 0))) (fun _ => 0) k * cost

/-- `process_eval_target_specific_qbxl` (`cost.py:864-879`) -/
def refTs (global ctb : List Nat) (cttStarts : List Nat) (ndirect : Nat → F) (cost : F) (k : Nat) : F :=
  global.foldl (fun acc c => bump acc (ctb.getD c 0)
    (ndirect (ctb.getD c 0) * ((cttStarts.getD (c + 1) 0 - cttStarts.getD c 0 : Nat) : F))) (fun _ => 0) k
    * cost

/-- `process_m2qbxl` (`cost.py:881-911`) -/
def refM2qbxl (list3 : List Ssn) (global ctb : List Nat) (cost : Nat → F) : Nat → F :=
  (list3.zipIdx).foldl (fun acc xl =>
    global.foldl (fun acc c =>
      if centerLevelTable xl.1 ctb c = -1 then acc
      else bump acc (ctb.getD c 0)
        (((xl.1.starts.getD ((centerLevelTable xl.1 ctb c).toNat + 1) 0
          - xl.1.starts.getD (centerLevelTable xl.1 ctb c).toNat 0 : Nat) : F) * cost xl.2)) acc)
    (fun _ => 0)

/-- `process_l2qbxl` (`cost.py:913-927`) -/
def refL2qbxl (targetBoxes : List Nat) (level : Nat → Nat) (global ctb : List Nat) (cost : Nat → F) : Nat → F :=
  global.foldl (fun acc c =>
    bump acc (ctb.getD c 0) (cost (level (targetBoxes.getD (ctb.getD c 0) 0)))) (fun _ => 0)

/-- `process_eval_qbxl` (`cost.py:929-943`) -/
def refEval (global ctb : List Nat) (cttStarts : List Nat) (cost : F) (k : Nat) : F :=
  global.foldl (fun acc c => bump acc (ctb.getD c 0)
    ((cttStarts.getD (c + 1) 0 - cttStarts.getD c 0 : Nat) : F)) (fun _ => 0) k * cost

/-! ## accumulation -/

theorem foldl_bump {X : Type} (l : List X) (idx : X → Nat) (v : X → F) (acc : Nat → F) (k : Nat) :
    (l.foldl (fun a x => bump a (idx x) (v x)) acc) k
      = acc k + (l.map fun x => if idx x = k then v x else 0).sum := by
  induction l generalizing acc with
  | nil => simp
  | cons x l ih =>
    rw [List.foldl_cons, ih, List.map_cons, List.sum_cons, bump]
    by_cases h : idx x = k
    · rw [if_pos h, if_pos h.symm, add_assoc]
    · rw [if_neg h, if_neg (Ne.symm h), zero_add]

theorem foldl_foldl_bump {X Y : Type} (l : List X) (m : X → List Y) (idx : X → Y → Nat) (v : X → Y → F)
    (acc : Nat → F) (k : Nat) :
    (l.foldl (fun a x => (m x).foldl (fun a y => bump a (idx x y) (v x y)) a) acc) k
      = acc k + (l.map fun x => ((m x).map fun y => if idx x y = k then v x y else 0).sum).sum := by
  induction l generalizing acc with
  | nil => simp
  | cons x l ih =>
    rw [List.foldl_cons, ih, foldl_bump, List.map_cons, List.sum_cons, add_assoc]

theorem sum_comm_list {X Y A : Type} [AddCommMonoid A] (l : List X) (m : List Y) (f : X → Y → A) :
    (l.map fun x => (m.map fun y => f x y).sum).sum = (m.map fun y => (l.map fun x => f x y).sum).sum := by
  induction l with
  | nil => simp
  | cons x l ih =>
    simp only [List.map_cons, List.sum_cons]
    rw [ih]
    clear ih
    induction m with
    | nil => simp
    | cons y m ih =>
      simp only [List.map_cons, List.sum_cons]
      rw [← ih]
      abel

theorem sum_ite_eq_list {A : Type} [AddCommMonoid A] (l : List Nat) (hnd : l.Nodup) (a : Nat) (v : A) :
    (l.map fun t => if a = t then v else 0).sum = if a ∈ l then v else 0 := by
  induction l with
  | nil => simp
  | cons t l ih =>
    rw [List.nodup_cons] at hnd
    rw [List.map_cons, List.sum_cons, ih hnd.2]
    by_cases h : a = t
    · subst h
      rw [if_pos rfl, if_neg hnd.1, if_pos List.mem_cons_self, add_zero]
    · rw [if_neg h, zero_add]
      by_cases h2 : a ∈ l
      · rw [if_pos h2, if_pos (List.mem_cons_of_mem _ h2)]
      · rw [if_neg h2, if_neg]
        intro h3
        rcases List.mem_cons.1 h3 with h3 | h3
        · exact h h3
        · exact h2 h3

theorem sum_ite_mul {X : Type} (l : List X) (p : X → Prop) [DecidablePred p] (f : X → F) (v : F) :
    (l.map fun x => if p x then f x else 0).sum * v = (l.map fun x => if p x then f x * v else 0).sum := by
  induction l with
  | nil => simp
  | cons x l ih =>
    rw [List.map_cons, List.sum_cons, add_mul, ih, List.map_cons, List.sum_cons]
    congr 1
    split
    · rfl
    · simp

/-! ## the counts -/

/-- geometry data in the shape both models use: permutation of the targets, own target ranges of the
boxes, box of each center as established by C54, centers in use -/
structure CostGeo (ncenters : Nat) (sorted : List Nat) (boxes : List (Nat × Nat)) (targetBoxes : List Nat)
    (ctb : List Nat) (global : List Nat) : Prop where
  perm : sorted.Perm (List.range sorted.length)
  nc : ncenters ≤ sorted.length
  globalLt : ∀ c ∈ global, c < ncenters
  globalNodup : global.Nodup
  nodup : targetBoxes.Nodup
  uniq : ∀ (t b s n b' s' n' : Nat), boxes[b]? = some (s, n) → s ≤ t → t < s + n →
      boxes[b']? = some (s', n') → s' ≤ t → t < s' + n' → b = b'
  isBox : ∀ b ∈ targetBoxes, b < boxes.length
  ctbBox : ∀ c < ncenters, ∃ t k b s n : Nat, sorted[c]? = some t ∧ ctb[c]? = some k ∧
      targetBoxes[k]? = some b ∧ boxes[b]? = some (s, n) ∧ s ≤ t ∧ t < s + n

theorem sorted_getD (sorted : List Nat) (c : Nat) (hc : c < sorted.length) :
    sorted[c]? = some (sorted.getD c 0) := by
  simp [List.getD, List.getElem?_eq_getElem hc]

/-- a center lies in the own range of exactly the box it is attributed to -/
theorem in_box_iff {ncenters : Nat} {sorted : List Nat} {boxes : List (Nat × Nat)} {targetBoxes : List Nat}
    {ctb global : List Nat} (g : CostGeo ncenters sorted boxes targetBoxes ctb global) (c k : Nat)
    (hc : c < ncenters) (hk : k < targetBoxes.length) :
    sorted.getD c 0 ∈ List.range' ((boxes.getD (targetBoxes.getD k 0) (0, 0)).1)
        ((boxes.getD (targetBoxes.getD k 0) (0, 0)).2) ↔ ctb.getD c 0 = k := by
  obtain ⟨t, k', b', s', n', h1, h2, h3, h4, h5, h6⟩ := g.ctbBox c hc
  have hcl : c < sorted.length := by have := g.nc; omega
  have ht : sorted.getD c 0 = t := by simp [List.getD, h1]
  have hk' : ctb.getD c 0 = k' := by simp [List.getD, h2]
  have htb : targetBoxes[k]? = some (targetBoxes.getD k 0) := sorted_getD _ _ hk
  have hbl : targetBoxes.getD k 0 < boxes.length := g.isBox _ (List.mem_of_getElem? htb)
  have hb : boxes[targetBoxes.getD k 0]? = some (boxes.getD (targetBoxes.getD k 0) (0, 0)) := by
    rw [List.getD_eq_getElem?_getD (l := boxes), List.getElem?_eq_getElem hbl]; rfl
  rw [ht, hk', List.mem_range'_1]
  constructor
  · rintro ⟨h7, h8⟩
    have := g.uniq t b' s' n' _ _ _ h4 h5 h6 hb h7 h8
    rw [this] at h3
    obtain ⟨i1, i2⟩ := List.getElem?_eq_some_iff.1 h3
    obtain ⟨j1, j2⟩ := List.getElem?_eq_some_iff.1 htb
    exact (List.getElem_inj g.nodup).1 (i2.trans j2.symm)
  · rintro rfl
    rw [htb] at h3
    injection h3 with h3
    rw [h3] at hb ⊢
    rw [h4] at hb
    injection hb with hb
    rw [← hb]
    exact ⟨h5, h6⟩

theorem sorted_inj {ncenters : Nat} {sorted : List Nat} {boxes : List (Nat × Nat)} {targetBoxes : List Nat}
    {ctb global : List Nat} (g : CostGeo ncenters sorted boxes targetBoxes ctb global) (c d : Nat)
    (hc : c < ncenters) (hd : d < ncenters) (h : sorted.getD c 0 = sorted.getD d 0) : c = d := by
  have := g.nc
  have h1 := sorted_getD sorted c (by omega)
  have h2 := sorted_getD sorted d (by omega)
  rw [← h] at h2
  exact perm_inj sorted g.perm c d _ h1 h2

/-- the mask: 1 exactly at centers in use -/
theorem mask_spec {ncenters : Nat} {sorted : List Nat} {boxes : List (Nat × Nat)} {targetBoxes : List Nat}
    {ctb global : List Nat} (g : CostGeo ncenters sorted boxes targetBoxes ctb global)
    (ws : List (Nat × F)) (hws : ws.Perm (maskStores F sorted global)) (t : Nat) :
    mask ws t = (global.map fun c => if sorted.getD c 0 = t then (1 : F) else 0).sum := by
  have hkey : (maskStores F sorted global).map Prod.fst = global.map fun c => sorted.getD c 0 := by
    rw [maskStores, List.map_map]; rfl
  have hnd : ((maskStores F sorted global).map Prod.fst).Nodup := by
    rw [hkey]
    apply List.Nodup.map_on _ g.globalNodup
    intro c hc d hd h
    exact sorted_inj g c d (g.globalLt c hc) (g.globalLt d hd) h
  rw [mask, runStores_perm _ _ _ hnd hws]
  by_cases h : t ∈ global.map fun c => sorted.getD c 0
  · obtain ⟨c, hc, rfl⟩ := List.mem_map.1 h
    rw [runStores_mem _ _ _ 1 hnd (by rw [maskStores, List.mem_map]; exact ⟨c, hc, rfl⟩)]
    have : (global.map fun c' => if sorted.getD c' 0 = sorted.getD c 0 then (1 : F) else 0)
        = global.map fun c' => if c = c' then (1 : F) else 0 := by
      apply List.map_congr_left
      intro c' hc'
      by_cases he : c = c'
      · subst he; simp
      · rw [if_neg he, if_neg]
        intro h'
        exact he (sorted_inj g c c' (g.globalLt c hc) (g.globalLt c' hc') h'.symm)
    rw [this, sum_ite_eq_list _ g.globalNodup, if_pos hc]
    rfl
  · rw [runStores_skip _ _ _ (by rw [hkey]; exact h)]
    have : (global.map fun c' => if sorted.getD c' 0 = t then (1 : F) else 0) = global.map fun _ => 0 := by
      apply List.map_congr_left
      intro c' hc'
      rw [if_neg]
      intro h'
      exact h (List.mem_map.2 ⟨c', hc', h'⟩)
    rw [this]
    simp

/-- the weighted mask -/
theorem centerWeight_spec {ncenters : Nat} {sorted : List Nat} {boxes : List (Nat × Nat)}
    {targetBoxes : List Nat} {ctb global : List Nat}
    (g : CostGeo ncenters sorted boxes targetBoxes ctb global)
    (ws0 : List (Nat × F)) (hws0 : ws0.Perm (maskStores F sorted global)) (weights : Nat → F)
    (ws1 : List (Nat × F)) (hws1 : ws1.Perm (weightStores sorted ncenters (mask ws0) weights)) (t : Nat) :
    centerWeight ws0 ws1 t = (global.map fun c => if sorted.getD c 0 = t then weights c else 0).sum := by
  have hkey : (weightStores sorted ncenters (mask ws0) weights).map Prod.fst
      = (List.range ncenters).map fun c => sorted.getD c 0 := by
    rw [weightStores, List.map_map]; rfl
  have hnd : ((weightStores sorted ncenters (mask ws0) weights).map Prod.fst).Nodup := by
    rw [hkey]
    apply List.Nodup.map_on _ List.nodup_range
    intro c hc d hd h
    exact sorted_inj g c d (by simpa using hc) (by simpa using hd) h
  rw [centerWeight, runStores_perm _ _ _ hnd hws1]
  by_cases h : t ∈ (List.range ncenters).map fun c => sorted.getD c 0
  · obtain ⟨c, hc, rfl⟩ := List.mem_map.1 h
    have hc' : c < ncenters := by simpa using hc
    rw [runStores_mem _ _ _ _ hnd (by rw [weightStores, List.mem_map]; exact ⟨c, hc, rfl⟩),
      Option.getD_some, mask_spec g ws0 hws0, sum_ite_mul]
    congr 1
    apply List.map_congr_left
    intro d hd
    by_cases he : sorted.getD d 0 = sorted.getD c 0
    · have := sorted_inj g d c (g.globalLt d hd) hc' he
      subst this
      simp
    · rw [if_neg he, if_neg he]
  · rw [runStores_skip _ _ _ (by rw [hkey]; exact h), Option.getD_some, mask_spec g ws0 hws0]
    congr 1
    apply List.map_congr_left
    intro d hd
    have : sorted.getD d 0 ≠ t := by
      intro h'
      exact h (List.mem_map.2 ⟨d, by simpa using g.globalLt d hd, h'⟩)
    rw [if_neg this, if_neg this]

/-- counting over boxes is summing over centers -/
theorem countBox_spec {ncenters : Nat} {sorted : List Nat} {boxes : List (Nat × Nat)}
    {targetBoxes : List Nat} {ctb global : List Nat}
    (g : CostGeo ncenters sorted boxes targetBoxes ctb global) (weight : Nat → F) (weights : Nat → F)
    (hw : ∀ t, weight t = (global.map fun c => if sorted.getD c 0 = t then weights c else 0).sum)
    (k : Nat) (hk : k < targetBoxes.length) :
    countBox boxes targetBoxes weight k
      = (global.map fun c => if ctb.getD c 0 = k then weights c else 0).sum := by
  rw [countBox]
  rw [show weight = _ from funext hw]
  rw [sum_comm_list]
  congr 1
  apply List.map_congr_left
  intro c hc
  rw [sum_ite_eq_list _ List.nodup_range']
  have := in_box_iff g c k (g.globalLt c hc) hk
  by_cases h : ctb.getD c 0 = k
  · rw [if_pos h, if_pos (this.2 h)]
  · rw [if_neg h, if_neg (fun h' => h (this.1 h'))]

/-! # C39 -/

/-- C39: forming QBX expansions -/
theorem C39_form {ncenters : Nat} {sorted : List Nat} {boxes : List (Nat × Nat)}
    {targetBoxes : List Nat} {ctb global : List Nat}
    (g : CostGeo ncenters sorted boxes targetBoxes ctb global)
    (ws : List (Nat × F)) (hws : ws.Perm (maskStores F sorted global)) (ndirect : Nat → F) (cost : F)
    (k : Nat) (hk : k < targetBoxes.length) :
    boxForm (countBox boxes targetBoxes (mask ws)) ndirect cost k = refForm global ctb ndirect cost k := by
  rw [boxForm, refForm, foldl_bump, zero_add,
    countBox_spec g (mask ws) (fun _ => 1) (fun t => mask_spec g ws hws t) k hk, sum_ite_mul]
  congr 2
  apply List.map_congr_left
  intro c _
  split
  · rename_i h; rw [h, one_mul]
  · rfl

/-- C39: box local to QBX local translations -/
theorem C39_l2qbxl {ncenters : Nat} {sorted : List Nat} {boxes : List (Nat × Nat)}
    {targetBoxes : List Nat} {ctb global : List Nat}
    (g : CostGeo ncenters sorted boxes targetBoxes ctb global)
    (ws : List (Nat × F)) (hws : ws.Perm (maskStores F sorted global)) (level : Nat → Nat) (cost : Nat → F)
    (k : Nat) (hk : k < targetBoxes.length) :
    boxL2qbxl targetBoxes level (countBox boxes targetBoxes (mask ws)) cost k
      = refL2qbxl targetBoxes level global ctb cost k := by
  rw [boxL2qbxl, refL2qbxl, foldl_bump, zero_add,
    countBox_spec g (mask ws) (fun _ => 1) (fun t => mask_spec g ws hws t) k hk, sum_ite_mul]
  congr 1
  apply List.map_congr_left
  intro c _
  split
  · rename_i h; rw [h, one_mul]
  · rfl

/-- C39: evaluating QBX expansions at the associated targets -/
theorem C39_eval {ncenters : Nat} {sorted : List Nat} {boxes : List (Nat × Nat)}
    {targetBoxes : List Nat} {ctb global : List Nat}
    (g : CostGeo ncenters sorted boxes targetBoxes ctb global)
    (ws0 : List (Nat × F)) (hws0 : ws0.Perm (maskStores F sorted global)) (cttStarts : List Nat)
    (ws1 : List (Nat × F)) (hws1 : ws1.Perm (weightStores sorted ncenters (mask ws0)
      (fun c => ((cttStarts.getD (c + 1) 0 - cttStarts.getD c 0 : Nat) : F)))) (cost : F)
    (k : Nat) (hk : k < targetBoxes.length) :
    boxEval (countBox boxes targetBoxes (centerWeight ws0 ws1)) cost k
      = refEval global ctb cttStarts cost k := by
  rw [boxEval, refEval, foldl_bump, zero_add,
    countBox_spec g (centerWeight ws0 ws1) _ (fun t => centerWeight_spec g ws0 hws0 _ ws1 hws1 t) k hk]

/-- C39: target-specific QBX evaluation -/
theorem C39_target_specific {ncenters : Nat} {sorted : List Nat} {boxes : List (Nat × Nat)}
    {targetBoxes : List Nat} {ctb global : List Nat}
    (g : CostGeo ncenters sorted boxes targetBoxes ctb global)
    (ws0 : List (Nat × F)) (hws0 : ws0.Perm (maskStores F sorted global)) (cttStarts : List Nat)
    (ws1 : List (Nat × F)) (hws1 : ws1.Perm (weightStores sorted ncenters (mask ws0)
      (fun c => ((cttStarts.getD (c + 1) 0 - cttStarts.getD c 0 : Nat) : F)))) (ndirect : Nat → F) (cost : F)
    (k : Nat) (hk : k < targetBoxes.length) :
    boxTs (countBox boxes targetBoxes (centerWeight ws0 ws1)) ndirect cost k
      = refTs global ctb cttStarts ndirect cost k := by
  rw [boxTs, refTs, foldl_bump, zero_add,
    countBox_spec g (centerWeight ws0 ws1) _ (fun t => centerWeight_spec g ws0 hws0 _ ws1 hws1 t) k hk,
    sum_ite_mul]
  congr 2
  apply List.map_congr_left
  intro c _
  split
  · rename_i h; rw [h, mul_comm]
  · rfl

/-- the sum over nonempty lists hits target box `k` at most once -/
theorem ssn_sum (x : Ssn) (hnd : x.nonempty.Nodup) (k : Nat) (f : Nat → Nat → F) :
    ((x.nonempty.zipIdx).map fun q => if q.1 = k then f q.1 q.2 else 0).sum
      = match x.nonempty.idxOf? k with
        | none => 0
        | some j => f k j := by
  obtain ⟨ne, st, li⟩ := x
  simp only at hnd ⊢
  clear st li
  have gen : ∀ (i : Nat), ((ne.zipIdx i).map fun q => if q.1 = k then f q.1 q.2 else 0).sum
      = match ne.idxOf? k with
        | none => 0
        | some j => f k (i + j) := by
    induction ne with
    | nil => intro i; simp
    | cons a ne ih =>
      intro i
      rw [List.nodup_cons] at hnd
      rw [List.zipIdx_cons, List.map_cons, List.sum_cons, ih hnd.2, List.idxOf?_cons]
      by_cases h : a = k
      · subst h
        have : ne.idxOf? a = none := by simpa using hnd.1
        simp [this]
      · have hb : (a == k) = false := by simpa using h
        rw [if_neg h, hb, zero_add]
        cases hne : ne.idxOf? k with
        | none => simp
        | some j => simp [Nat.add_assoc, Nat.add_comm 1 j]
  simpa using gen 0

/-- C39: multipole to QBX local translations (list 3) -/
theorem C39_m2qbxl {ncenters : Nat} {sorted : List Nat} {boxes : List (Nat × Nat)}
    {targetBoxes : List Nat} {ctb global : List Nat}
    (g : CostGeo ncenters sorted boxes targetBoxes ctb global)
    (ws : List (Nat × F)) (hws : ws.Perm (maskStores F sorted global)) (list3 : List Ssn)
    (hnd : ∀ x ∈ list3, x.nonempty.Nodup) (cost : Nat → F) (k : Nat) (hk : k < targetBoxes.length) :
    boxM2qbxl list3 (countBox boxes targetBoxes (mask ws)) cost k = refM2qbxl list3 global ctb cost k := by
  have href : refM2qbxl list3 global ctb cost
      = (list3.zipIdx).foldl (fun acc xl => (global.filter fun c => centerLevelTable xl.1 ctb c ≠ -1).foldl
          (fun acc c => bump acc (ctb.getD c 0)
            (((xl.1.starts.getD ((centerLevelTable xl.1 ctb c).toNat + 1) 0
              - xl.1.starts.getD (centerLevelTable xl.1 ctb c).toNat 0 : Nat) : F) * cost xl.2)) acc)
          (fun _ => 0) := by
    rw [refM2qbxl]
    congr 1
    funext acc xl
    rw [List.foldl_filter]
    congr 1
    funext a c
    by_cases h : centerLevelTable xl.1 ctb c = -1
    · simp [h]
    · simp [h]
  rw [href, boxM2qbxl, foldl_foldl_bump, foldl_foldl_bump]
  congr 2
  apply List.map_congr_left
  rintro ⟨x, l⟩ hx
  have hxm : x ∈ list3 := by
    rw [List.mem_zipIdx_iff_getElem?] at hx
    exact List.mem_of_getElem? hx
  simp only
  rw [ssn_sum x (hnd x hxm) k fun q j => countBox boxes targetBoxes (mask ws) q
    * ((x.starts.getD (j + 1) 0 - x.starts.getD j 0 : Nat) : F) * cost l]
  rw [countBox_spec g (mask ws) (fun _ => 1) (fun t => mask_spec g ws hws t) k hk]
  -- the reference: only centers in box `k`
  cases hidx : x.nonempty.idxOf? k with
  | none =>
    simp only
    have hno : k ∉ x.nonempty := by simpa using hidx
    symm
    apply List.sum_eq_zero
    intro v hv
    obtain ⟨c, hc, rfl⟩ := List.mem_map.1 hv
    rw [List.mem_filter] at hc
    split
    · rename_i h
      have := (centerLevelTable_spec x (hnd x hxm) ctb c k h).2 hno
      simp [this] at hc
    · rfl
  | some j =>
    simp only
    have hj : x.nonempty[j]? = some k := by
      rw [List.idxOf?_eq_some_iff] at hidx
      obtain ⟨h1, h2, -⟩ := hidx
      rw [List.getElem?_eq_getElem h1]
      simpa using h2
    have hfil : ((global.filter fun c => centerLevelTable x ctb c ≠ -1).map fun y =>
          if ctb.getD y 0 = k then (((x.starts.getD ((centerLevelTable x ctb y).toNat + 1) 0
            - x.starts.getD (centerLevelTable x ctb y).toNat 0 : Nat) : F) * cost l) else 0).sum
        = (global.map fun c => if ctb.getD c 0 = k then
            1 * (((x.starts.getD (j + 1) 0 - x.starts.getD j 0 : Nat) : F) * cost l) else 0).sum := by
      clear hws g href
      induction global with
      | nil => rfl
      | cons c global ih =>
        rw [List.filter_cons]
        by_cases h : ctb.getD c 0 = k
        · have hc := (centerLevelTable_spec x (hnd x hxm) ctb c k h).1 j hj
          have : decide (centerLevelTable x ctb c ≠ -1) = true := by
            rw [hc]; simp
          rw [if_pos this, List.map_cons, List.sum_cons, ih, List.map_cons, List.sum_cons, if_pos h, if_pos h,
            hc, Int.toNat_natCast, one_mul]
        · split
          · rw [List.map_cons, List.sum_cons, ih, List.map_cons, List.sum_cons, if_neg h, if_neg h]
          · rw [ih, List.map_cons, List.sum_cons, if_neg h, zero_add]
    rw [hfil, ← sum_ite_mul, mul_assoc]

end

/-! ## an instance -/

/-- two target boxes, three centers of which two are in use; the tree of `Geometry.lean`'s example -/
example : CostGeo 2 [3, 0, 4, 1, 2] [(0, 0), (0, 2), (2, 3)] [1, 2] [1, 0] [0, 1] where
  perm := by decide
  nc := by decide
  globalLt := by decide
  globalNodup := by decide
  nodup := by decide
  uniq := by
    intro t b s n b' s' n' h1 h2 h3 h4 h5 h6
    have hb : b < 3 := (List.getElem?_eq_some_iff.1 h1).1
    have hb' : b' < 3 := (List.getElem?_eq_some_iff.1 h4).1
    have e1 : b = 0 ∨ b = 1 ∨ b = 2 := by omega
    have e2 : b' = 0 ∨ b' = 1 ∨ b' = 2 := by omega
    rcases e1 with rfl | rfl | rfl <;> rcases e2 with rfl | rfl | rfl <;> simp at h1 h4 <;> omega
  isBox := by decide
  ctbBox := by
    intro c hc
    have : c = 0 ∨ c = 1 := by omega
    rcases this with rfl | rfl
    · exact ⟨3, 1, 2, 2, 3, rfl, rfl, rfl, rfl, by decide, by decide⟩
    · exact ⟨0, 0, 1, 0, 2, rfl, rfl, rfl, rfl, by decide, by decide⟩

example : refForm [0, 1] [1, 0] (fun k => ([5, 7] : List ℚ).getD k 0) 3 1 = 21 ∧
    boxForm (countBox [(0, 0), (0, 2), (2, 3)] [1, 2] (mask (maskStores ℚ [3, 0, 4, 1, 2] [0, 1])))
      (fun k => ([5, 7] : List ℚ).getD k 0) 3 1 = 21 := by
  decide +kernel

end Verif.Cost
