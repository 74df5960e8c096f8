import Verif.QBX.CostTotals
import Verif.Compiler.Names
import Mathlib.Algebra.BigOperators.Ring.List
import Mathlib.Tactic.FinCases

/-! # Properties of the modeled costs (C68) -/

namespace Verif.Cost

open Verif.Util Verif.Offsets Verif.Geometry Verif.FMM

/-! ## Dictionaries -/

theorem Dict.find_put {A : Type} (d : Dict A) (n m : String) (v : A) :
    (d.put n v).find m = if m = n then some v else d.find m := by
  unfold Dict.put Dict.find
  by_cases h : d.any (fun q => q.1 == n)
  · rw [if_pos h]
    induction d with
    | nil => simp at h
    | cons q d ih =>
      rw [List.map_cons, List.find?_cons, List.find?_cons]
      by_cases hq : q.1 = n
      · by_cases hm : m = n
        · subst hm
          simp [hq]
        · have h1 : (n == m) = false := by simpa using fun h => hm h.symm
          simp only [hq, beq_self_eq_true, if_true, h1]
          by_cases hd : d.any (fun q => q.1 == n)
          · rw [ih hd]
          · have : d.map (fun q => if q.1 == n then (n, v) else q) = d := by
              conv_rhs => rw [← List.map_id d]
              apply List.map_congr_left
              intro r hr
              have : ¬ (r.1 == n) = true := fun hrn => hd (List.any_eq_true.2 ⟨r, hr, hrn⟩)
              simp [this]
            rw [this, if_neg hm]
      · have hd : d.any (fun q => q.1 == n) = true := by
          simpa [hq] using h
        have h1 : (q.1 == n) = false := by simpa using hq
        simp only [h1, Bool.false_eq_true, if_false]
        by_cases hm : q.1 = m
        · subst hm
          simp [hq]
        · have h2 : (q.1 == m) = false := by simpa using hm
          simp only [h2]
          exact ih hd
  · rw [if_neg h, List.find?_append]
    by_cases hm : m = n
    · subst hm
      have : d.find? (fun q => q.1 == m) = none := by
        rw [List.find?_eq_none]
        intro x hx hxm
        exact h (List.any_eq_true.2 ⟨x, hx, hxm⟩)
      rw [this]
      simp
    · have h1 : (n == m) = false := by simpa using fun h => hm h.symm
      cases hf : d.find? (fun q => q.1 == m) with
      | none => simp [h1, hm]
      | some x => simp [hm]

theorem levName_ne (l : Nat) (n : String) (h : ∀ r : String, n ≠ "p_fmm_lev" ++ r) : n ≠ levName l :=
  h _

theorem levName_inj {a b : Nat} (h : levName a = levName b) : a = b :=
  Verif.Compiler.toString_inj (Verif.Compiler.append_left_cancel' h)

theorem lev_ne (n : String) (h : n.toList.take 4 ≠ "p_fm".toList) (l : Nat) : n ≠ levName l := by
  rintro rfl
  apply h
  rw [levName, String.toList_append]
  rfl

theorem find_levels_other {A : Type} (orders : List A) (k : Nat) (d : Dict A) (n : String)
    (h : ∀ l, k ≤ l → n ≠ levName l) :
    ((orders.zipIdx k).foldl (fun d q => d.put (levName q.2) q.1) d).find n = d.find n := by
  induction orders generalizing k d with
  | nil => simp
  | cons o orders ih =>
    rw [List.zipIdx_cons, List.foldl_cons, ih (k + 1) _ fun l hl => h l (by omega), Dict.find_put,
      if_neg (h k le_rfl)]

theorem find_levels {A : Type} (orders : List A) (k : Nat) (d : Dict A) (l : Nat) (o : A)
    (h : orders[l]? = some o) :
    ((orders.zipIdx k).foldl (fun d q => d.put (levName q.2) q.1) d).find (levName (k + l)) = some o := by
  induction orders generalizing k d l with
  | nil => simp at h
  | cons o' orders ih =>
    rw [List.zipIdx_cons, List.foldl_cons]
    cases l with
    | zero =>
      rw [find_levels_other]
      · rw [Dict.find_put]
        simpa using h
      · intro l hl h'
        have := levName_inj h'
        omega
    | succ l =>
      have := ih (k + 1) (d.put (levName k) o') l (by simpa using h)
      rwa [Nat.add_assoc, Nat.add_comm 1 l] at this

/-! ## `mapM` -/

theorem mapM_ok {X Y E : Type} (f : X → Except E Y) (xs : List X) (ys : List Y) :
    xs.mapM f = .ok ys ↔ List.Forall₂ (fun x y => f x = .ok y) xs ys := by
  induction xs generalizing ys with
  | nil =>
    rw [List.mapM_nil]
    constructor
    · intro h
      cases h
      exact .nil
    · intro h
      cases h
      rfl
  | cons x xs ih =>
    rw [List.mapM_cons]
    cases hx : f x with
    | error e =>
      constructor
      · intro h
        cases h
      · intro h
        cases h with
        | cons h1 h2 => rw [hx] at h1; cases h1
    | ok y =>
      cases hxs : xs.mapM f with
      | error e =>
        constructor
        · intro h
          cases h
        · intro h
          cases h with
          | cons h1 h2 =>
            have := (ih _).2 h2
            rw [hxs] at this
            cases this
      | ok zs =>
        have h0 : (Except.ok y >>= fun a => Except.ok zs >>= fun b => (pure (a :: b) : Except E (List Y)))
            = .ok (y :: zs) := rfl
        rw [h0]
        constructor
        · intro h
          cases h
          exact .cons hx ((ih _).1 hxs)
        · intro h
          cases h with
          | cons h1 h2 =>
            have h3 := (ih _).2 h2
            rw [hxs] at h3
            rw [hx] at h1
            cases h1
            cases h3
            rfl

theorem mapM_range {Y E : Type} (f : Nat → Except E Y) (ys : List Y) (n : Nat) :
    (List.range n).mapM f = .ok ys ↔ ys.length = n ∧ ∀ l < n, ∃ y, f l = .ok y ∧ ys[l]? = some y := by
  rw [mapM_ok, List.forall₂_iff_get]
  simp only [List.length_range, List.get_eq_getElem, List.getElem_range]
  constructor
  · rintro ⟨h1, h2⟩
    refine ⟨h1.symm, fun l hl => ?_⟩
    exact ⟨_, h2 l hl (h1 ▸ hl), List.getElem?_eq_getElem _⟩
  · rintro ⟨h1, h2⟩
    refine ⟨h1.symm, fun l hl hl' => ?_⟩
    obtain ⟨y, h3, h4⟩ := h2 l hl
    rw [List.getElem?_eq_getElem hl'] at h4
    rw [h3, Option.some.inj h4]

section

variable {F : Type} [CommSemiring F]

/-! ## Cost factors -/

theorem qbxParams_p (s : Setup F) (orders : List F) (calib : Dict F) :
    (qbxParams s orders calib).find "p_qbx" = some s.qbxOrder := by
  rw [qbxParams, find_levels_other _ _ _ _ fun l _ => lev_ne _ (by decide) l, Dict.find_put, if_pos rfl]

theorem qbxParams_lev (s : Setup F) (orders : List F) (calib : Dict F) (l : Nat) (o : F)
    (h : orders[l]? = some o) : (qbxParams s orders calib).find (levName l) = some o := by
  have := find_levels orders 0 (calib.put "p_qbx" s.qbxOrder) l o h
  rwa [Nat.zero_add] at this

theorem qbxParams_other (s : Setup F) (orders : List F) (calib : Dict F) (n : String)
    (h : n.toList.take 4 ≠ "p_fm".toList) (h' : n ≠ "p_qbx") :
    (qbxParams s orders calib).find n = calib.find n := by
  rw [qbxParams, find_levels_other _ _ _ _ fun l _ => lev_ne _ h l, Dict.find_put, if_neg h']

theorem read_some {A : Type} (d : Dict A) (n : String) (v : A) (h : d.find n = some v) : d.read n = .ok v := by
  simp [Dict.read, h]

theorem read_none {A : Type} (d : Dict A) (n : String) (h : d.find n = none) :
    d.read n = .error (.unknown n) := by
  simp [Dict.read, h]

/-- the five calibration parameters of the QBX stages -/
structure Calib (F : Type) (d : Dict F) (form m2q l2q ev ts : F) : Prop where
  form : d.find "c_p2qbxl" = some form
  m2q : d.find "c_m2qbxl" = some m2q
  l2q : d.find "c_l2qbxl" = some l2q
  ev : d.find "c_qbxl2p" = some ev
  ts : d.find "c_p2p_tsqbx" = some ts

/-- the orders of all levels -/
def Orders (s : Setup F) (orders : List F) : Prop :=
  orders.length = s.nlevels ∧ ∀ l < s.nlevels, ∃ o, s.levelToOrder l = .ok o ∧ orders[l]? = some o

/-- number of QBX coefficients -/
def nqbx (s : Setup F) : F := (s.qbxOrder + 1) ^ (s.factory s.dim).ncoeffsQbx

/-- cost of one translation from the FMM expansion of the given order to a QBX expansion -/
def unitXlat (e2e : Bool → F → F → F) (s : Setup F) (o : F) : F :=
  e2e (s.factory s.dim).pointAndShoot ((o + 1) ^ (s.factory s.dim).ncoeffsFmm) (nqbx s)

theorem prepare_ok (e2e : Bool → F → F → F) (sqrt : F → F) (s : Setup F) (calib : Dict F) (orders : List F)
    (ho : Orders s orders) (a1 a2 a3 a4 a5 : F) (hc : Calib F calib a1 a2 a3 a4 a5) :
    prepare e2e sqrt s calib = .ok (orders, ⟨a1 * nqbx s, orders.map fun o => a2 * unitXlat e2e s o,
      orders.map fun o => a3 * unitXlat e2e s o, a4 * nqbx s, a5 * sqrt (nqbx s)⟩) := by
  have hp := read_some _ _ _ (qbxParams_p s orders calib)
  have h1 := read_some _ _ _ ((qbxParams_other s orders calib "c_p2qbxl" (by decide) (by decide)).trans hc.form)
  have h2 := read_some _ _ _ ((qbxParams_other s orders calib "c_m2qbxl" (by decide) (by decide)).trans hc.m2q)
  have h3 := read_some _ _ _ ((qbxParams_other s orders calib "c_l2qbxl" (by decide) (by decide)).trans hc.l2q)
  have h4 := read_some _ _ _ ((qbxParams_other s orders calib "c_qbxl2p" (by decide) (by decide)).trans hc.ev)
  have h5 := read_some _ _ _ ((qbxParams_other s orders calib "c_p2p_tsqbx" (by decide) (by decide)).trans hc.ts)
  have hx : ∀ (n : String) (a : F), (qbxParams s orders calib).read n = .ok a →
      (List.range s.nlevels).mapM (evalXlat e2e n (s.factory s.dim) (qbxParams s orders calib))
        = .ok (orders.map fun o => a * unitXlat e2e s o) := by
    intro n a ha
    rw [mapM_range]
    refine ⟨by simpa using ho.1, fun l hl => ?_⟩
    obtain ⟨o, -, ho⟩ := ho.2 l hl
    refine ⟨a * unitXlat e2e s o, ?_, by simp [ho]⟩
    simp only [evalXlat, ha, hp, read_some _ _ _ (qbxParams_lev s orders calib l o ho)]
    rfl
  have h0 : (List.range s.nlevels).mapM s.levelToOrder = .ok orders := (mapM_range _ _ _).2 ho
  have hcf : costFactors e2e sqrt s.nlevels (s.factory s.dim) (qbxParams s orders calib)
      = .ok ⟨a1 * nqbx s, orders.map fun o => a2 * unitXlat e2e s o,
        orders.map fun o => a3 * unitXlat e2e s o, a4 * nqbx s, a5 * sqrt (nqbx s)⟩ := by
    simp only [costFactors, hx _ _ h2, hx _ _ h3, evalLinear, evalTs, h1, h4, h5, hp]
    rfl
  unfold prepare
  rw [h0]
  show (do
    let f ← costFactors e2e sqrt s.nlevels (s.factory s.dim) (qbxParams s orders calib)
    pure (orders, f)) = _
  rw [hcf]
  rfl

/-- **C68, calibration parameters.**  Costs can be computed exactly if the order of every level is
defined and all five QBX calibration parameters are present, used or not. -/
theorem C68_needs (e2e : Bool → F → F → F) (sqrt : F → F) (p : Process F) (s : Setup F) (calib : Dict F)
    (hl : 0 < s.nlevels) :
    (∃ r, costPerStage e2e sqrt p s calib = .ok r) ↔ (∀ l < s.nlevels, ∃ o, s.levelToOrder l = .ok o)
      ∧ ∀ n ∈ ["c_p2qbxl", "c_m2qbxl", "c_l2qbxl", "c_qbxl2p", "c_p2p_tsqbx"], ∃ v, calib.find n = some v := by
  constructor
  · rintro ⟨r, hr⟩
    unfold costPerStage prepare at hr
    cases h0 : (List.range s.nlevels).mapM s.levelToOrder with
    | error e => rw [h0] at hr; cases hr
    | ok orders =>
      rw [h0] at hr
      have ho := (mapM_range _ _ _).1 h0
      refine ⟨fun l hl => ⟨_, (ho.2 l hl).choose_spec.1⟩, ?_⟩
      by_contra hcon
      push Not at hcon
      obtain ⟨n, hn, hv⟩ := hcon
      have hnone : calib.find n = none := by
        cases h : calib.find n with
        | none => rfl
        | some v => exact absurd h (hv v)
      have hx : ∀ n : String, (qbxParams s orders calib).read n = .error (.unknown n) →
          ∃ e, (List.range s.nlevels).mapM (evalXlat e2e n (s.factory s.dim) (qbxParams s orders calib))
            = .error e := by
        intro n hn
        cases h : (List.range s.nlevels).mapM (evalXlat e2e n (s.factory s.dim) (qbxParams s orders calib)) with
        | error e => exact ⟨e, rfl⟩
        | ok ys =>
          obtain ⟨y, hy, -⟩ := ((mapM_range _ _ _).1 h).2 0 hl
          simp only [evalXlat, hn] at hy
          cases hy
      have key : ∃ e, costFactors e2e sqrt s.nlevels (s.factory s.dim) (qbxParams s orders calib) = .error e := by
        unfold costFactors
        cases hA : evalLinear "c_p2qbxl" (s.factory s.dim) (qbxParams s orders calib) with
        | error e => exact ⟨e, rfl⟩
        | ok A =>
        cases hB : (List.range s.nlevels).mapM
            (evalXlat e2e "c_m2qbxl" (s.factory s.dim) (qbxParams s orders calib)) with
        | error e => exact ⟨e, rfl⟩
        | ok B =>
        cases hC : (List.range s.nlevels).mapM
            (evalXlat e2e "c_l2qbxl" (s.factory s.dim) (qbxParams s orders calib)) with
        | error e => exact ⟨e, rfl⟩
        | ok C =>
        cases hD : evalLinear "c_qbxl2p" (s.factory s.dim) (qbxParams s orders calib) with
        | error e => exact ⟨e, rfl⟩
        | ok D =>
        cases hE : evalTs sqrt (s.factory s.dim) (qbxParams s orders calib) with
        | error e => exact ⟨e, rfl⟩
        | ok E =>
        exfalso
        have hr : n.toList.take 4 ≠ "p_fm".toList ∧ n ≠ "p_qbx" := by
          fin_cases hn <;> decide
        have hread := read_none _ _ ((qbxParams_other s orders calib n hr.1 hr.2).trans hnone)
        fin_cases hn
        · simp only [evalLinear, hread] at hA; cases hA
        · obtain ⟨e, he⟩ := hx _ hread; rw [he] at hB; cases hB
        · obtain ⟨e, he⟩ := hx _ hread; rw [he] at hC; cases hC
        · simp only [evalLinear, hread] at hD; cases hD
        · simp only [evalTs, hread] at hE; cases hE
      obtain ⟨e, he⟩ := key
      have h1 : ((Except.ok orders : Except CErr (List F)) >>= fun orders => do
          let f ← costFactors e2e sqrt s.nlevels (s.factory s.dim) (qbxParams s orders calib)
          pure (orders, f)) = .error e := by
        show (do
          let f ← costFactors e2e sqrt s.nlevels (s.factory s.dim) (qbxParams s orders calib)
          pure (orders, f)) = _
        rw [he]
        rfl
      rw [h1] at hr
      cases hr
  · rintro ⟨ho, hn⟩
    choose! o ho using ho
    obtain ⟨a1, h1⟩ := hn "c_p2qbxl" (by simp)
    obtain ⟨a2, h2⟩ := hn "c_m2qbxl" (by simp)
    obtain ⟨a3, h3⟩ := hn "c_l2qbxl" (by simp)
    obtain ⟨a4, h4⟩ := hn "c_qbxl2p" (by simp)
    obtain ⟨a5, h5⟩ := hn "c_p2p_tsqbx" (by simp)
    have := prepare_ok e2e sqrt s calib ((List.range s.nlevels).map o)
      ⟨by simp, fun l hl => ⟨o l, ho l hl, by simp [hl]⟩⟩ a1 a2 a3 a4 a5 ⟨h1, h2, h3, h4, h5⟩
    unfold costPerStage
    rw [this]
    exact ⟨_, rfl⟩

/-! ## Per box and per stage -/

theorem set_map_foldl (ary : List F) (st : List (Nat × F)) (h : (st.map (·.1)).Nodup) (i : Nat) :
    (st.foldl (fun a q => a.set q.1 q.2) ary)[i]? =
      if i < ary.length then
        match st.find? (fun q => q.1 == i) with
        | some q => some q.2
        | none => ary[i]?
      else none := by
  induction st generalizing ary with
  | nil =>
    simp only [List.foldl_nil, List.find?_nil]
    split
    · rfl
    · rw [List.getElem?_eq_none]; omega
  | cons q st ih =>
    rw [List.map_cons, List.nodup_cons] at h
    rw [List.foldl_cons, ih _ h.2, List.length_set, List.find?_cons]
    split
    · rename_i hi
      by_cases hq : q.1 = i
      · have hn : st.find? (fun r => r.1 == i) = none := by
          rw [List.find?_eq_none]
          intro r hr hri
          apply h.1
          rw [hq, ← show r.1 = i by simpa using hri]
          exact List.mem_map_of_mem hr
        simp [hn, hq, hi]
      · have hb : (q.1 == i) = false := by simpa using hq
        simp only [hb]
        cases st.find? (fun r => r.1 == i) with
        | none => simp [List.getElem?_set, hq]
        | some r => rfl
    · rfl

theorem addAt_length (ary : List F) (index : List Nat) (v : List F) : (addAt ary index v).length = ary.length := by
  unfold addAt
  generalize ((index.zip v).map fun q => (q.1, ary.getD q.1 0 + q.2)) = st
  induction st generalizing ary with
  | nil => rfl
  | cons q st ih => rw [List.foldl_cons, ih, List.length_set]

/-- `ary[index] += v` with distinct indices -/
theorem addAt_spec (ary : List F) (index : List Nat) (v : List F) (hnd : index.Nodup)
    (hlen : v.length = index.length) (i : Nat) (hi : i < ary.length) :
    (addAt ary index v).getD i 0 = ary.getD i 0
      + match index.idxOf? i with
        | some k => v.getD k 0
        | none => 0 := by
  have h1 : (((index.zip v).map fun q => (q.1, ary.getD q.1 0 + q.2)).map (·.1)) = index := by
    rw [List.map_map]
    have : ((fun q : Nat × F => q.1) ∘ fun q : Nat × F => (q.1, ary.getD q.1 0 + q.2)) = Prod.fst := rfl
    rw [this, List.map_fst_zip]
    omega
  rw [List.getD_eq_getElem?_getD, addAt, set_map_foldl _ _ (by rw [h1]; exact hnd), if_pos hi]
  clear h1 hnd
  have key : ((index.zip v).map fun q => (q.1, ary.getD q.1 0 + q.2)).find? (fun q => q.1 == i)
      = match index.idxOf? i with
        | some k => some (i, ary.getD i 0 + v.getD k 0)
        | none => none := by
    induction index generalizing v with
    | nil => simp
    | cons j index ih =>
      cases v with
      | nil => simp at hlen
      | cons w v =>
        rw [List.zip_cons_cons, List.map_cons, List.find?_cons, List.idxOf?_cons]
        by_cases hj : j = i
        · subst hj
          simp
        · have hb : (j == i) = false := by simpa using hj
          simp only [hb]
          rw [ih v (by simpa using hlen)]
          cases index.idxOf? i with
          | none => simp
          | some k => simp
  rw [key]
  cases index.idxOf? i with
  | none => simp [List.getD_eq_getElem?_getD]
  | some k => simp

theorem sum_eq_range (l : List F) : l.sum = ((List.range l.length).map fun i => l.getD i 0).sum := by
  congr 1
  apply List.ext_getElem
  · simp
  · intro i h1 h2
    simp [List.getD_eq_getElem?_getD, List.getElem?_eq_getElem h1]

theorem addAt_sum (ary : List F) (index : List Nat) (v : List F) (hnd : index.Nodup)
    (hlen : v.length = index.length) (hlt : ∀ i ∈ index, i < ary.length) :
    (addAt ary index v).sum = ary.sum + v.sum := by
  rw [sum_eq_range (addAt ary index v), addAt_length, sum_eq_range ary]
  have h1 : ((List.range ary.length).map fun i => (addAt ary index v).getD i 0)
      = (List.range ary.length).map fun i => ary.getD i 0 +
          ((index.zip v).map fun q => if q.1 = i then q.2 else 0).sum := by
    apply List.map_congr_left
    intro i hi
    rw [addAt_spec ary index v hnd hlen i (List.mem_range.1 hi)]
    congr 1
    clear hlt
    induction index generalizing v with
    | nil => simp
    | cons j index ih =>
      cases v with
      | nil => simp at hlen
      | cons w v =>
        rw [List.nodup_cons] at hnd
        rw [List.zip_cons_cons, List.map_cons, List.sum_cons, ← ih v hnd.2 (by simpa using hlen),
          List.idxOf?_cons]
        by_cases hj : j = i
        · subst hj
          have hn : index.idxOf? j = none := by simpa using hnd.1
          simp [hn]
        · have hb : (j == i) = false := by simpa using hj
          simp only [hb, if_neg hj, zero_add]
          cases index.idxOf? i with
          | none => simp
          | some k => simp
  rw [h1, List.sum_map_add, sum_comm_list]
  congr 1
  have h2 : ((index.zip v).map fun q : Nat × F =>
      ((List.range ary.length).map fun i => if q.1 = i then q.2 else 0).sum) = (index.zip v).map (·.2) := by
    apply List.map_congr_left
    rintro ⟨j, w⟩ hq
    rw [sum_ite_eq_list _ List.nodup_range, if_pos]
    exact List.mem_range.2 (hlt j (List.of_mem_zip hq).1)
  rw [h2, List.map_snd_zip]
  omega

/-- arrays over the target boxes -/
structure Process.Shape (p : Process F) (n : Nat) : Prop where
  form : ∀ c, (p.form c).length = n
  ts : ∀ c, (p.ts c).length = n
  m2qbxl : ∀ c, (p.m2qbxl c).length = n
  l2qbxl : ∀ c, (p.l2qbxl c).length = n
  eval : ∀ c, (p.eval c).length = n

/-- the names of the five QBX stages -/
def qbxStages : List String := ["eval_target_specific_qbx_locals", "form_global_qbx_locals",
  "translate_box_multipoles_to_qbx_local", "translate_box_local_to_qbx_local", "eval_qbx_expansions"]

theorem put_new {A : Type} (d : Dict A) (n : String) (v : A) (h : d.find n = none) : d.put n v = d ++ [(n, v)] := by
  unfold Dict.put
  rw [if_neg]
  intro h'
  unfold Dict.find at h
  rw [Option.map_eq_none_iff, List.find?_eq_none] at h
  obtain ⟨q, hq, hqn⟩ := List.any_eq_true.1 h'
  exact h q hq hqn

/-- **C68, totals.**  Summing the cost per box over all boxes gives the sum of the costs per stage,
provided the FMM part does; both raise the same exceptions. -/
theorem C68_total (e2e : Bool → F → F → F) (sqrt : F → F) (p : Process F) (s : Setup F) (calib : Dict F)
    (hp : p.Shape s.targetBoxes.length) (hnd : s.targetBoxes.Nodup)
    (hlt : ∀ o, ∀ b ∈ s.targetBoxes, b < (s.parentBox o calib).length)
    (hnew : ∀ o, ∀ n ∈ qbxStages, (s.parentStage o calib).find n = none)
    (hpar : ∀ o, (s.parentBox o calib).sum = ((s.parentStage o calib).map (·.2)).sum) :
    (∀ e, costPerBox e2e sqrt p s calib = .error e ↔ costPerStage e2e sqrt p s calib = .error e) ∧
    ∀ box stage m m', costPerBox e2e sqrt p s calib = .ok (box, m) →
      costPerStage e2e sqrt p s calib = .ok (stage, m') → box.sum = (stage.map (·.2)).sum ∧ m = m' := by
  unfold costPerBox costPerStage
  cases hpre : prepare e2e sqrt s calib with
  | error e =>
    refine ⟨fun e' => Iff.rfl.trans ?_, ?_⟩
    · constructor
      · intro h; cases h; rfl
      · intro h; cases h; rfl
    · intro box stage m m' h; cases h
  | ok of =>
    obtain ⟨o, f⟩ := of
    refine ⟨fun e' => ?_, ?_⟩
    · constructor
      · intro h; cases h
      · intro h; cases h
    · intro box stage m m' hb hs
      have hb' := Except.ok.inj hb
      have hs' := Except.ok.inj hs
      rw [Prod.mk.injEq] at hb' hs'
      obtain ⟨rfl, rfl⟩ := hb'
      obtain ⟨rfl, rfl⟩ := hs'
      refine ⟨?_, rfl⟩
      have hv : (if s.useTs then p.ts f.tsqbx else p.form f.p2qbxl).length = s.targetBoxes.length := by
        split
        · exact hp.ts _
        · exact hp.form _
      rw [addAt_sum _ _ _ hnd (hp.eval _) (by
            intro b hb; rw [addAt_length, addAt_length, addAt_length]; exact hlt o b hb),
        addAt_sum _ _ _ hnd (hp.l2qbxl _) (by intro b hb; rw [addAt_length, addAt_length]; exact hlt o b hb),
        addAt_sum _ _ _ hnd (hp.m2qbxl _) (by intro b hb; rw [addAt_length]; exact hlt o b hb),
        addAt_sum _ _ _ hnd hv (hlt o)]
      have n1 := hnew o _ (show "eval_target_specific_qbx_locals" ∈ qbxStages by simp [qbxStages])
      have n2 := hnew o _ (show "form_global_qbx_locals" ∈ qbxStages by simp [qbxStages])
      have n3 := hnew o _ (show "translate_box_multipoles_to_qbx_local" ∈ qbxStages by simp [qbxStages])
      have n4 := hnew o _ (show "translate_box_local_to_qbx_local" ∈ qbxStages by simp [qbxStages])
      have n5 := hnew o _ (show "eval_qbx_expansions" ∈ qbxStages by simp [qbxStages])
      have hpo := hpar o
      by_cases hts : s.useTs = true
      · simp only [hts, if_true]
        rw [put_new _ "eval_qbx_expansions", put_new _ "translate_box_local_to_qbx_local",
          put_new _ "translate_box_multipoles_to_qbx_local", put_new _ "eval_target_specific_qbx_locals" _ n1]
        · simp [hpo]
          ring
        all_goals simp [Dict.find_put, n3, n4, n5]
      · simp only [hts]
        rw [put_new _ "eval_qbx_expansions", put_new _ "translate_box_local_to_qbx_local",
          put_new _ "translate_box_multipoles_to_qbx_local"]
        · simp [hpo, put_new _ "form_global_qbx_locals" _ n2]
          ring
        all_goals simp [Dict.find_put, n3, n4, n5]

/-- **C68, per box.**  The cost of a box is its FMM cost plus, if it is target box number `k`, entry
`k` of the four applicable QBX stages. -/
theorem C68_box (e2e : Bool → F → F → F) (sqrt : F → F) (p : Process F) (s : Setup F) (calib : Dict F)
    (hp : p.Shape s.targetBoxes.length) (hnd : s.targetBoxes.Nodup)
    (orders : List F) (ho : Orders s orders) (a1 a2 a3 a4 a5 : F) (hc : Calib F calib a1 a2 a3 a4 a5) :
    ∃ box m, costPerBox e2e sqrt p s calib = .ok (box, m) ∧ box.length = (s.parentBox orders calib).length ∧
      ∀ b < box.length, box.getD b 0 = (s.parentBox orders calib).getD b 0
        + match s.targetBoxes.idxOf? b with
          | none => 0
          | some k => (if s.useTs then p.ts (a5 * sqrt (nqbx s)) else p.form (a1 * nqbx s)).getD k 0
              + (p.m2qbxl (orders.map fun o => a2 * unitXlat e2e s o)).getD k 0
              + (p.l2qbxl (orders.map fun o => a3 * unitXlat e2e s o)).getD k 0
              + (p.eval (a4 * nqbx s)).getD k 0 := by
  unfold costPerBox
  rw [prepare_ok e2e sqrt s calib orders ho a1 a2 a3 a4 a5 hc]
  refine ⟨_, _, rfl, by simp only [addAt_length], ?_⟩
  intro b hb
  simp only [addAt_length] at hb
  have hv : (if s.useTs then p.ts (a5 * sqrt (nqbx s)) else p.form (a1 * nqbx s)).length
      = s.targetBoxes.length := by
    split
    · exact hp.ts _
    · exact hp.form _
  rw [addAt_spec _ _ _ hnd (hp.eval _) b (by simpa only [addAt_length] using hb),
    addAt_spec _ _ _ hnd (hp.l2qbxl _) b (by simpa only [addAt_length] using hb),
    addAt_spec _ _ _ hnd (hp.m2qbxl _) b (by simpa only [addAt_length] using hb),
    addAt_spec _ _ _ hnd hv b hb]
  cases s.targetBoxes.idxOf? b with
  | none => simp
  | some k => simp only; ring

/-- **C68, stages.**  The stages of the result are those of the FMM and exactly one of the two near
field stages, together with the other three QBX stages, each the sum over the target boxes. -/
theorem C68_stages (e2e : Bool → F → F → F) (sqrt : F → F) (p : Process F) (s : Setup F) (calib : Dict F)
    (orders : List F) (ho : Orders s orders) (a1 a2 a3 a4 a5 : F) (hc : Calib F calib a1 a2 a3 a4 a5) :
    ∃ stage m, costPerStage e2e sqrt p s calib = .ok (stage, m) ∧
      (∀ n, n ∉ qbxStages → stage.find n = (s.parentStage orders calib).find n) ∧
      (s.useTs = true → stage.find "eval_target_specific_qbx_locals" = some (p.ts (a5 * sqrt (nqbx s))).sum
        ∧ stage.find "form_global_qbx_locals" = (s.parentStage orders calib).find "form_global_qbx_locals") ∧
      (s.useTs = false → stage.find "form_global_qbx_locals" = some (p.form (a1 * nqbx s)).sum
        ∧ stage.find "eval_target_specific_qbx_locals"
          = (s.parentStage orders calib).find "eval_target_specific_qbx_locals") ∧
      stage.find "translate_box_multipoles_to_qbx_local"
        = some (p.m2qbxl (orders.map fun o => a2 * unitXlat e2e s o)).sum ∧
      stage.find "translate_box_local_to_qbx_local"
        = some (p.l2qbxl (orders.map fun o => a3 * unitXlat e2e s o)).sum ∧
      stage.find "eval_qbx_expansions" = some (p.eval (a4 * nqbx s)).sum := by
  unfold costPerStage
  rw [prepare_ok e2e sqrt s calib orders ho a1 a2 a3 a4 a5 hc]
  refine ⟨_, _, rfl, ?_, ?_, ?_, ?_, ?_, ?_⟩
  · intro n hn
    simp only [qbxStages, List.mem_cons, List.not_mem_nil, or_false, not_or] at hn
    obtain ⟨m1, m2, m3, m4, m5⟩ := hn
    by_cases hts : s.useTs = true <;> simp [hts, Dict.find_put, m1, m2, m3, m4, m5]
  · intro hts
    simp [hts, Dict.find_put]
  · intro hts
    simp [hts, Dict.find_put]
  all_goals simp [Dict.find_put]

/-! ## Calibration -/

/-- `_QBX_STAGE_TO_CALIBRATION_PARAMETER` (`cost.py:513-519`) -/
def stageParam : List (String × String) :=
  [("form_global_qbx_locals", "c_p2qbxl"), ("translate_box_multipoles_to_qbx_local", "c_m2qbxl"),
    ("translate_box_local_to_qbx_local", "c_l2qbxl"), ("eval_qbx_expansions", "c_qbxl2p"),
    ("eval_target_specific_qbx_locals", "c_p2p_tsqbx")]

/-- the totals of the `process_*` methods are proportional to the cost factors -/
structure Process.Linear (p : Process F) : Prop where
  form : ∀ a c, (p.form (a * c)).sum = a * (p.form c).sum
  ts : ∀ a c, (p.ts (a * c)).sum = a * (p.ts c).sum
  m2qbxl : ∀ a c, (p.m2qbxl (c.map (a * ·))).sum = a * (p.m2qbxl c).sum
  l2qbxl : ∀ a c, (p.l2qbxl (c.map (a * ·))).sum = a * (p.l2qbxl c).sum
  eval : ∀ a c, (p.eval (a * c)).sum = a * (p.eval c).sum

theorem over_mul (tb : List Nat) (a : F) (f g : Nat → F) (h : ∀ k, f k = a * g k) :
    (overBoxes tb f).sum = a * (overBoxes tb g).sum := by
  unfold overBoxes
  rw [← List.sum_map_mul_left]
  congr 1
  exact List.map_congr_left fun k _ => h k

theorem getD_map_mul (a : F) (c : List F) (l : Nat) : (c.map (a * ·)).getD l 0 = a * c.getD l 0 := by
  simp only [List.getD_eq_getElem?_getD, List.getElem?_map]
  cases c[l]? with
  | none => simp
  | some v => simp

theorem foldl_mul {X : Type} (l : List X) (step : (Nat → F) → X → Nat → F) (step' : (Nat → F) → X → Nat → F)
    (a : F) (h : ∀ f g x, (∀ k, f k = a * g k) → ∀ k, step f x k = a * step' g x k) (f g : Nat → F)
    (h0 : ∀ k, f k = a * g k) (k : Nat) : l.foldl step f k = a * l.foldl step' g k := by
  induction l generalizing f g with
  | nil => exact h0 k
  | cons x l ih => exact ih _ _ (h f g x h0)

theorem bump_mul (a : F) (f g : Nat → F) (h : ∀ k, f k = a * g k) (i : Nat) (v w : F) (hv : v = a * w) (k : Nat) :
    bump f i v k = a * bump g i w k := by
  unfold bump
  split
  · rw [h, hv, mul_add]
  · exact h k

theorem boxProcess_linear (tb : List Nat) (level : Nat → Nat) (list3 : List Ssn) (count wcount ndirect : Nat → F) :
    (boxProcess tb level list3 count wcount ndirect).Linear where
  form a c := over_mul _ _ _ _ fun k => by unfold boxForm; ring
  ts a c := over_mul _ _ _ _ fun k => by unfold boxTs; ring
  m2qbxl a c := over_mul _ _ _ _ fun k => by
    unfold boxM2qbxl
    apply foldl_mul
    · intro f g x h k
      apply foldl_mul
      · intro f g q h k
        apply bump_mul a _ _ h
        simp only [getD_map_mul]
        ring
      · exact h
    · intro k; simp
  l2qbxl a c := over_mul _ _ _ _ fun k => by unfold boxL2qbxl; simp only [getD_map_mul]; ring
  eval a c := over_mul _ _ _ _ fun k => by unfold boxEval; ring

theorem refProcess_linear (tb : List Nat) (level : Nat → Nat) (list3 : List Ssn) (global ctb cttStarts : List Nat)
    (ndirect : Nat → F) : (refProcess tb level list3 global ctb cttStarts ndirect).Linear where
  form a c := over_mul _ _ _ _ fun k => by unfold refForm; ring
  ts a c := over_mul _ _ _ _ fun k => by unfold refTs; ring
  m2qbxl a c := over_mul _ _ _ _ fun k => by
    unfold refM2qbxl
    apply foldl_mul
    · intro f g x h k
      apply foldl_mul
      · intro f g q h k
        simp only
        split
        · exact h k
        · apply bump_mul a _ _ h
          simp only [getD_map_mul]
          ring
      · exact h
    · intro k; simp
  l2qbxl a c := over_mul _ _ _ _ fun k => by
    unfold refL2qbxl
    apply foldl_mul
    · intro f g x h k
      apply bump_mul a _ _ h
      simp only [getD_map_mul]
    · intro k; simp
  eval a c := over_mul _ _ _ _ fun k => by unfold refEval; ring

/-- **C68, calibration.**  The cost of each QBX stage depends on the calibration parameters only
through the parameter that calibration fits for that stage, and is proportional to it. -/
theorem C68_calibration (e2e : Bool → F → F → F) (sqrt : F → F) (p : Process F) (hp : p.Linear) (s : Setup F)
    (hl : 0 < s.nlevels) (calib calib' : Dict F) (stage stage' m m' : Dict F)
    (h : costPerStage e2e sqrt p s calib = .ok (stage, m))
    (h' : costPerStage e2e sqrt p s calib' = .ok (stage', m'))
    (hnew : ∀ o c, ∀ n ∈ qbxStages, (s.parentStage o c).find n = none)
    (n c : String) (hn : (n, c) ∈ stageParam) (v : F) (hv : stage.find n = some v) :
    ∃ a b v', calib.find c = some a ∧ calib'.find c = some b ∧ stage'.find n = some v' ∧ b * v = a * v' := by
  obtain ⟨ho, hc⟩ := (C68_needs e2e sqrt p s calib hl).1 ⟨_, h⟩
  obtain ⟨-, hc'⟩ := (C68_needs e2e sqrt p s calib' hl).1 ⟨_, h'⟩
  choose! o ho using ho
  have hO : Orders s ((List.range s.nlevels).map o) :=
    ⟨by simp, fun l hl => ⟨o l, ho l hl, by simp [hl]⟩⟩
  obtain ⟨a1, h1⟩ := hc "c_p2qbxl" (by simp)
  obtain ⟨a2, h2⟩ := hc "c_m2qbxl" (by simp)
  obtain ⟨a3, h3⟩ := hc "c_l2qbxl" (by simp)
  obtain ⟨a4, h4⟩ := hc "c_qbxl2p" (by simp)
  obtain ⟨a5, h5⟩ := hc "c_p2p_tsqbx" (by simp)
  obtain ⟨b1, g1⟩ := hc' "c_p2qbxl" (by simp)
  obtain ⟨b2, g2⟩ := hc' "c_m2qbxl" (by simp)
  obtain ⟨b3, g3⟩ := hc' "c_l2qbxl" (by simp)
  obtain ⟨b4, g4⟩ := hc' "c_qbxl2p" (by simp)
  obtain ⟨b5, g5⟩ := hc' "c_p2p_tsqbx" (by simp)
  obtain ⟨t, tm, e1, -, e2, e3, e4, e5, e6⟩ := C68_stages e2e sqrt p s calib _ hO a1 a2 a3 a4 a5 ⟨h1, h2, h3, h4, h5⟩
  obtain ⟨u, um, f1, -, f2, f3, f4, f5, f6⟩ := C68_stages e2e sqrt p s calib' _ hO b1 b2 b3 b4 b5 ⟨g1, g2, g3, g4, g5⟩
  rw [h, Except.ok.injEq, Prod.mk.injEq] at e1
  rw [h', Except.ok.injEq, Prod.mk.injEq] at f1
  obtain ⟨rfl, -⟩ := e1
  obtain ⟨rfl, -⟩ := f1
  have hmul : ∀ (a : F) (os : List F), (os.map fun o => a * unitXlat e2e s o)
      = (os.map (unitXlat e2e s)).map (a * ·) := by
    intro a os
    rw [List.map_map]
    rfl
  rw [hmul] at e4 e5 f4 f5
  simp only [stageParam, List.mem_cons, Prod.mk.injEq, List.not_mem_nil, or_false] at hn
  rcases hn with ⟨rfl, rfl⟩ | ⟨rfl, rfl⟩ | ⟨rfl, rfl⟩ | ⟨rfl, rfl⟩ | ⟨rfl, rfl⟩
  · cases hts : s.useTs with
    | true =>
      rw [(e2 hts).2, hnew _ _ _ (by simp [qbxStages])] at hv
      cases hv
    | false =>
      refine ⟨a1, b1, _, h1, g1, (f3 hts).1, ?_⟩
      rw [(e3 hts).1, Option.some.injEq] at hv
      rw [← hv, hp.form, hp.form]
      ring
  · refine ⟨a2, b2, _, h2, g2, f4, ?_⟩
    rw [e4, Option.some.injEq] at hv
    rw [← hv, hp.m2qbxl, hp.m2qbxl]
    ring
  · refine ⟨a3, b3, _, h3, g3, f5, ?_⟩
    rw [e5, Option.some.injEq] at hv
    rw [← hv, hp.l2qbxl, hp.l2qbxl]
    ring
  · refine ⟨a4, b4, _, h4, g4, f6, ?_⟩
    rw [e6, Option.some.injEq] at hv
    rw [← hv, hp.eval, hp.eval]
    ring
  · cases hts : s.useTs with
    | false =>
      rw [(e3 hts).2, hnew _ _ _ (by simp [qbxStages])] at hv
      cases hv
    | true =>
      refine ⟨a5, b5, _, h5, g5, (f2 hts).1, ?_⟩
      rw [(e2 hts).1, Option.some.injEq] at hv
      rw [← hv, hp.ts, hp.ts]
      ring

/-- **C68, unit parameters.**  `get_unit_calibration_params` sets the five QBX parameters to one and
leaves the others as they are. -/
theorem C68_unit (base : Dict F) : Calib F (unitParams base) 1 1 1 1 1 ∧
    ∀ n, n ∉ stageParam.map (·.2) → (unitParams base).find n = base.find n := by
  constructor
  · constructor <;> simp [unitParams, Dict.find_put]
  · intro n hn
    simp only [stageParam, List.map_cons, List.map_nil, List.mem_cons, List.not_mem_nil, or_false, not_or] at hn
    simp [unitParams, Dict.find_put, hn]

/-! ## Operation counts -/

theorem over_foldl (tb global : List Nat) (idx : Nat → Nat) (v : Nat → F) (h : ∀ c ∈ global, idx c < tb.length) :
    (overBoxes tb fun k => global.foldl (fun acc c => bump acc (idx c) (v c)) (fun _ => 0) k).sum
      = (global.map v).sum := by
  unfold overBoxes
  simp only [foldl_bump, zero_add]
  rw [sum_comm_list]
  congr 1
  apply List.map_congr_left
  intro c hc
  rw [sum_ite_eq_list _ List.nodup_range, if_pos (List.mem_range.2 (h c hc))]

/-- **C68, counts.**  For the center-centric model the totals are: one `p2qbxl` per pair of a center
in use and a direct source of its box; one `p2p_tsqbx` per such pair and target of the center; one
multipole translation per center and list 3 box of its box; one local translation per center; one
evaluation per target of a center. -/
theorem C68_counts (tb : List Nat) (level : Nat → Nat) (list3 : List Ssn) (global ctb cttStarts : List Nat)
    (ndirect : Nat → F) (h : ∀ c ∈ global, ctb.getD c 0 < tb.length)
    (hnd : ∀ x ∈ list3, x.nonempty.Nodup) :
    let p := refProcess tb level list3 global ctb cttStarts ndirect
    let ntargets (c : Nat) : F := ((cttStarts.getD (c + 1) 0 - cttStarts.getD c 0 : Nat) : F)
    (∀ a, (p.form a).sum = (global.map fun c => ndirect (ctb.getD c 0)).sum * a) ∧
    (∀ a, (p.ts a).sum = (global.map fun c => ndirect (ctb.getD c 0) * ntargets c).sum * a) ∧
    (∀ a, (p.eval a).sum = (global.map ntargets).sum * a) ∧
    (∀ a, (p.l2qbxl a).sum = (global.map fun c => a.getD (level (tb.getD (ctb.getD c 0) 0)) 0).sum) ∧
    (∀ a, (p.m2qbxl a).sum = (list3.zipIdx.map fun xl => (global.map fun c =>
      match xl.1.nonempty.idxOf? (ctb.getD c 0) with
      | none => 0
      | some j => ((xl.1.starts.getD (j + 1) 0 - xl.1.starts.getD j 0 : Nat) : F) * a.getD xl.2 0).sum).sum) := by
  intro p ntargets
  have hmulR : ∀ (f : Nat → F) (a : F), (overBoxes tb fun k => f k * a).sum = (overBoxes tb f).sum * a := by
    intro f a
    unfold overBoxes
    rw [← List.sum_map_mul_right]
  refine ⟨fun a => ?_, fun a => ?_, fun a => ?_, fun a => ?_, fun a => ?_⟩
  · show (overBoxes tb fun k => _ * a).sum = _
    rw [hmulR, over_foldl tb global (fun c => ctb.getD c 0) _ h]
  · show (overBoxes tb fun k => _ * a).sum = _
    rw [hmulR, over_foldl tb global (fun c => ctb.getD c 0) _ h]
  · show (overBoxes tb fun k => _ * a).sum = _
    rw [hmulR, over_foldl tb global (fun c => ctb.getD c 0) _ h]
  · exact over_foldl tb global (fun c => ctb.getD c 0) _ h
  · show (overBoxes tb fun k => refM2qbxl list3 global ctb _ k).sum = _
    have hstep : ∀ xl : Ssn × Nat, ∀ acc : Nat → F, global.foldl (fun acc c =>
          if centerLevelTable xl.1 ctb c = -1 then acc
          else bump acc (ctb.getD c 0)
            (((xl.1.starts.getD ((centerLevelTable xl.1 ctb c).toNat + 1) 0
              - xl.1.starts.getD (centerLevelTable xl.1 ctb c).toNat 0 : Nat) : F) * a.getD xl.2 0)) acc
        = global.foldl (fun acc c => bump acc (ctb.getD c 0)
          (if centerLevelTable xl.1 ctb c = -1 then 0 else
            (((xl.1.starts.getD ((centerLevelTable xl.1 ctb c).toNat + 1) 0
              - xl.1.starts.getD (centerLevelTable xl.1 ctb c).toNat 0 : Nat) : F) * a.getD xl.2 0))) acc := by
      intro xl acc
      congr 1
      funext f c
      split
      · funext k
        unfold bump
        split <;> simp
      · rfl
    unfold refM2qbxl
    simp only [hstep]
    unfold overBoxes
    simp only [foldl_foldl_bump, zero_add]
    rw [sum_comm_list]
    congr 1
    apply List.map_congr_left
    rintro ⟨x, l⟩ hx
    have hxm : x ∈ list3 := by
      rw [List.mem_zipIdx_iff_getElem?] at hx
      exact List.mem_of_getElem? hx
    rw [sum_comm_list]
    congr 1
    apply List.map_congr_left
    intro c hc
    rw [sum_ite_eq_list _ List.nodup_range, if_pos (List.mem_range.2 (h c hc))]
    simp only
    cases hi : x.nonempty.idxOf? (ctb.getD c 0) with
    | none =>
      rw [if_pos ((centerLevelTable_spec x (hnd x hxm) ctb c _ rfl).2 (by simpa using hi))]
    | some j =>
      have hj : x.nonempty[j]? = some (ctb.getD c 0) := by
        rw [List.idxOf?_eq_some_iff] at hi
        obtain ⟨h1, h2, -⟩ := hi
        rw [List.getElem?_eq_getElem h1]
        simpa using h2
      have := (centerLevelTable_spec x (hnd x hxm) ctb c _ rfl).1 j hj
      rw [this, if_neg (by omega)]
      simp

/-- **C68, both models.**  The box-centric (OpenCL) and the center-centric (Python) cost model give
the same results, box by box and stage by stage. -/
theorem C68_models {ncenters : Nat} {sorted : List Nat} {boxes : List (Nat × Nat)}
    {ctb global : List Nat} (e2e : Bool → F → F → F) (sqrt : F → F) (s : Setup F) (calib : Dict F)
    (g : CostGeo ncenters sorted boxes s.targetBoxes ctb global)
    (ws0 : List (Nat × F)) (hws0 : ws0.Perm (maskStores F sorted global)) (cttStarts : List Nat)
    (ws1 : List (Nat × F)) (hws1 : ws1.Perm (weightStores sorted ncenters (mask ws0)
      (fun c => ((cttStarts.getD (c + 1) 0 - cttStarts.getD c 0 : Nat) : F))))
    (level : Nat → Nat) (list3 : List Ssn) (hnd : ∀ x ∈ list3, x.nonempty.Nodup) (ndirect : Nat → F) :
    let p := boxProcess s.targetBoxes level list3 (countBox boxes s.targetBoxes (mask ws0))
      (countBox boxes s.targetBoxes (centerWeight ws0 ws1)) ndirect
    let q := refProcess s.targetBoxes level list3 global ctb cttStarts ndirect
    costPerBox e2e sqrt p s calib = costPerBox e2e sqrt q s calib ∧
    costPerStage e2e sqrt p s calib = costPerStage e2e sqrt q s calib := by
  intro p q
  have : p = q := by
    have hover : ∀ f g : Nat → F, (∀ k < s.targetBoxes.length, f k = g k) →
        overBoxes s.targetBoxes f = overBoxes s.targetBoxes g := by
      intro f g h
      exact List.map_congr_left fun k hk => h k (List.mem_range.1 hk)
    show boxProcess _ _ _ _ _ _ = refProcess _ _ _ _ _ _ _
    unfold boxProcess refProcess
    congr 1
    · funext c; exact hover _ _ fun k hk => C39_form g ws0 hws0 ndirect c k hk
    · funext c; exact hover _ _ fun k hk => C39_target_specific g ws0 hws0 cttStarts ws1 hws1 ndirect c k hk
    · funext c; exact hover _ _ fun k hk => C39_m2qbxl g ws0 hws0 list3 hnd _ k hk
    · funext c; exact hover _ _ fun k hk => C39_l2qbxl g ws0 hws0 level _ k hk
    · funext c; exact hover _ _ fun k hk => C39_eval g ws0 hws0 cttStarts ws1 hws1 c k hk
  rw [this]
  exact ⟨rfl, rfl⟩

/-- **C68, metadata.**  The metadata record the QBX order, the sizes, and the FMM order of every
level. -/
theorem C68_metadata (s : Setup F) (orders : List F) :
    (metadata s orders).find "p_qbx" = some s.qbxOrder ∧ (metadata s orders).find "nlevels" = some (s.nlevels : F) ∧
    (metadata s orders).find "nsources" = some s.nsources ∧ (metadata s orders).find "ntargets" = some s.ntargets ∧
    (metadata s orders).find "ncenters" = some s.ncenters ∧
    ∀ (l : Nat) (o : F), orders[l]? = some o → (metadata s orders).find (levName l) = some o := by
  unfold metadata
  refine ⟨?_, ?_, ?_, ?_, ?_, ?_⟩
  · rw [find_levels_other _ _ _ _ fun l _ => lev_ne _ (by decide) l]; simp [Dict.find]
  · rw [find_levels_other _ _ _ _ fun l _ => lev_ne _ (by decide) l]; simp [Dict.find]
  · rw [find_levels_other _ _ _ _ fun l _ => lev_ne _ (by decide) l]; simp [Dict.find]
  · rw [find_levels_other _ _ _ _ fun l _ => lev_ne _ (by decide) l]; simp [Dict.find]
  · rw [find_levels_other _ _ _ _ fun l _ => lev_ne _ (by decide) l]; simp [Dict.find]
  · intro l o h
    have := find_levels orders 0 [("p_qbx", s.qbxOrder), ("nlevels", (s.nlevels : F)), ("nsources", s.nsources),
      ("ntargets", s.ntargets), ("ncenters", s.ncenters)] l o h
    rwa [Nat.zero_add] at this

/-- **C68, coefficient counts.**  The translation cost models count `(p + 1)^(dim - 1)` coefficients
for expansions that use the PDE and `(p + 1)^dim` for Taylor expansions, and point-and-shoot
translations only in three dimensions with the PDE. -/
theorem C68_coefficients (dim : Nat) (p : F) :
    ncoeffs (pdeAware dim).ncoeffsQbx p = (p + 1) ^ (dim - 1) ∧
    ncoeffs (pdeAware dim).ncoeffsFmm p = (p + 1) ^ (dim - 1) ∧
    ((pdeAware dim).pointAndShoot = true ↔ dim = 3) ∧
    ncoeffs (taylor dim).ncoeffsQbx p = (p + 1) ^ dim ∧ ncoeffs (taylor dim).ncoeffsFmm p = (p + 1) ^ dim ∧
    (taylor dim).pointAndShoot = false := by
  simp [ncoeffs, pdeAware, taylor]

end

/-! ## An example -/

/-- two target boxes out of three, one level -/
def exSetup (useTs : Bool) : Setup ℚ where
  useTs := useTs
  dim := 3
  nlevels := 2
  targetBoxes := [2, 1]
  qbxOrder := 3
  levelToOrder l := .ok (10 + l)
  nsources := 7
  ntargets := 9
  ncenters := 4
  factory := pdeAware
  parentBox _ _ := [1, 2, 3]
  parentStage _ _ := [("eval_direct", 4), ("form_multipoles", 2)]

/-- centers 0, 1 in target box 0, center 2 in target box 1 -/
def exProcess : Process ℚ :=
  refProcess [2, 1] (fun b => b - 1) [⟨[0], [0, 2], [0, 1]⟩, ⟨[], [0], []⟩] [0, 1, 2] [0, 0, 1] [0, 3, 4, 4]
    (fun k => k + 5)

/-- totals per box and per stage agree -/
example : (costPerBox (fun _ a b => a * b) (fun x => x) exProcess (exSetup false) (unitParams [])).map (·.1.sum)
    = (costPerStage (fun _ a b => a * b) (fun x => x) exProcess (exSetup false) (unitParams [])).map
        (fun r => (r.1.map (·.2)).sum) := by decide +kernel

example : ((costPerBox (fun _ a b => a * b) (fun x => x) exProcess (exSetup true) (unitParams [])).toOption.map
    (·.1)) ≠ some [1, 2, 3] := by decide +kernel

/-- without the parameter of the unused stage there is no result -/
example : (costPerStage (fun _ a b => a * b) (fun x => x) exProcess (exSetup false)
    ((unitParams []).filter fun q => q.1 != "c_p2p_tsqbx")).toOption = none := by decide +kernel

end Verif.Cost
