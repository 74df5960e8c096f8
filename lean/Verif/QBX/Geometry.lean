import Verif.Util.Scan
import Verif.Util.Offsets
import Verif.Util.Lists

/-!
# Target bookkeeping of the QBX FMM (C36, C37, C54)

Models the target list, target-to-center maps and their inverses of
`pytential/qbx/geometry.py` and the output side of the FMM execution in `pytential/qbx/__init__.py`.
-/

namespace Verif.Geometry

open Verif.Util Verif.Offsets

/-! ## The target list -/

/-- `target_discr_starts` of `QBXFMMGeometryData.target_info` (`geometry.py:511-518`): start from
`ncenters`, append the running total before each discretization, and the total at the end -/
def startsLoop : Nat → List Nat → List Nat
  | ntargets, [] => [ntargets]
  | ntargets, n :: ns => ntargets :: startsLoop (ntargets + n) ns

/-- `ntargets` after the loop (`geometry.py:511-518`) -/
def ntargets (ncenters : Nat) (ndofs : List Nat) : Nat := ndofs.foldl (· + ·) ncenters

/-- stores of one `copy_targets_kernel` call into `targets[:, start:start+n]`
(`geometry.py:141-160,529-534`) -/
def copyStores {P : Type} (start : Nat) (pts : List P) : List (Nat × P) :=
  (pts.zipIdx start).map fun q => (q.2, q.1)

/-- stores of the copies for the target discretizations (`geometry.py:526-534`) -/
def discrStores {P : Type} (starts : List Nat) (discrs : List (List P)) : List (Nat × P) :=
  (starts.zip discrs).flatMap fun q => copyStores q.1 q.2

/-- all stores making up `targets` (`geometry.py:520-534`) -/
def targetStores {P : Type} (centers : List P) (discrs : List (List P)) : List (Nat × P) :=
  copyStores 0 centers ++ discrStores (startsLoop centers.length (discrs.map List.length)) discrs

/-- `target_side_preferences` (`geometry.py:541-556`): zeros, then slice assignments -/
def sidePrefStores (starts : List Nat) (sized : List (Nat × Int)) : List (Nat × Int) :=
  (starts.zip sized).flatMap fun q => copyStores q.1 (List.replicate q.2.1 q.2.2)

/-! ## Target-to-center maps -/

/-- `user_target_to_center` (`geometry.py:831-835`): the centers get `NO_QBX_NEEDED = -1`, the other
targets the outcome of target association -/
def userTtc (ncenters : Nat) (assoc : List Int) : List Int := List.replicate ncenters (-1) ++ assoc

/-- `ary[sorted_target_ids] = values` on a zero array, read back as an array of `n` entries
(`geometry.py:850-851,672-678`) -/
def scatter {β : Type} (ws : List (Nat × β)) (zero : β) (n : Nat) : List β :=
  (List.range n).map fun i => (runStores ws (fun _ => some zero) i).getD zero

/-- the pairs `(center, tree target)` handed to the sort in `center_to_tree_targets`
(`geometry.py:853-868`): the scan's output arrays, `filtered_tree_ttc` being stored along with
`filtered_target_ids` -/
def filteredPairs (treeTtc : List Int) (ids : List Nat) : List (Nat × Nat) :=
  ids.map fun t => ((treeTtc.getD t 0).toNat, t)

/-- `pick_used_centers` (`geometry.py:255-276`): stores of ones for all targets with a center -/
def usedStores (assoc : List Int) : List (Nat × Bool) :=
  (assoc.filter (0 ≤ ·)).map fun c => (c.toNat, true)

/-- `global_qbx_centers` (`geometry.py:754-793`): `copy_if` over all centers, with `global_qbx_flags`
all one (`geometry.py:745-750`) -/
def globalCenters (ncenters : Nat) (used : List (Nat × Bool)) : List Nat :=
  (List.range ncenters).filter fun c => (runStores used (fun _ => some false) c).getD false

/-- flags of the targets without QBX, in user order (`geometry.py:885-893`): the centers' entries are
cleared -/
def nonQbxFlags (ncenters : Nat) (ttc : List Int) : List Bool :=
  (ttc.zipIdx).map fun q => if q.2 < ncenters then false else decide (q.1 = -1)

/-- `unfiltered_from_filtered_target_indices` of `filter_target_lists_in_tree_order` (boxtree): tree
numbers of the flagged targets, increasing; `sorted[u]` is the tree number of user target `u`
(`geometry.py:895-897`) -/
def nonQbxTargets (sorted : List Nat) (flags : List Bool) : List Nat :=
  (List.range sorted.length).filter fun t =>
    (sorted.zip flags).any fun q => q.1 = t && q.2

/-- `box_to_target_box` (`geometry.py:663-669`) -/
def boxToTargetBox (targetBoxes : List Nat) (nboxes : Nat) : List Nat :=
  scatter (copyStores 0 targetBoxes |>.map fun q => (q.2, q.1)) 0 nboxes

/-- stores of `qbx_center_to_target_box_lookup` (`geometry.py:177-199`): for each box and each target
in its own range which is a center, by user number -/
def lookupStores (ncenters : Nat) (b2tb : List Nat) (boxes : List (Nat × Nat)) (userFromTree : List Nat) :
    List (Nat × Nat) :=
  (boxes.zipIdx).flatMap fun q =>
    (List.range' q.1.1 q.1.2).filterMap fun t =>
      let u := userFromTree.getD t 0
      if u < ncenters then some (u, b2tb.getD q.2 0) else none

/-- `qbx_center_to_target_box` (`geometry.py:643-700`) -/
def centerToTargetBox (ncenters : Nat) (ws : List (Nat × Nat)) : List Nat := scatter ws 0 ncenters

/-! ## Output side of `exec_compute_potential_insn_fmm` -/

/-- a requested output: name, target (with stage), forced limit (`None` = no preference), target
kernel -/
structure Out (T : Type) where
  name : String
  target : T
  limit : Option Int
  kernel : Nat

/-- `get_target_discrs_and_qbx_sides` (`qbx/__init__.py:661-692`): the dictionary and the list -/
def collect {T P : Type} [DecidableEq T] (discr : T → List P) :
    List (Out T) → List ((T × Option Int) × Nat) → List (List P × Int) →
      List ((T × Option Int) × Nat) × List (List P × Int)
  | [], dict, lst => (dict, lst)
  | o :: os, dict, lst =>
    match alookup (o.target, o.limit) dict with
    | some _ => collect discr os dict lst
    | none =>
      collect discr os (dict ++ [((o.target, o.limit), lst.length)])
        (lst ++ [(discr o.target, o.limit.getD 0)])

/-- outcome of the execution -/
inductive Exec (V : Type)
  | failedTargets
  | zeros (names : List String)
  | done (results : List (String × List V))
deriving DecidableEq

/-- cutting out one result (`qbx/__init__.py:777-791`); a missing dictionary entry would be a
`KeyError` -/
def cut {T P V : Type} [DecidableEq T] (dict : List ((T × Option Int) × Nat)) (starts : List Nat)
    (pots : Nat → List V) (o : Out T) : Option (String × List V) :=
  match alookup (o.target, o.limit) dict with
  | none => none
  | some n =>
    match starts[n]?, starts[n + 1]? with
    | some a, some b => some (o.name, slice (pots o.kernel) a b)
    | _, _ => none

/-- `exec_compute_potential_insn_fmm` (`qbx/__init__.py:694-793`), with the driver (including target
association) a function of centers and target points with their side preferences; `none` for the
association is a failed target (`:755-758`); `inspect` is the geometry data inspector (`:762-765`) -/
def execFmm {T P V : Type} [DecidableEq T] (discr : T → List P) (centers : List P)
    (failed : List (List P × Int) → Bool) (inspect : Option Bool)
    (driver : List P → List (List P × Int) → Nat → List V) (outs : List (Out T)) : Option (Exec V) :=
  let r := collect discr outs [] []
  if failed r.2 then some .failedTargets
  else if inspect = some false then some (.zeros (outs.map Out.name))
  else
    ((outs.map (cut (P := P) r.1 (startsLoop centers.length (r.2.map fun q => q.1.length))
      (driver centers r.2))).mapM id).map .done

/-! # C36: target slices -/

theorem startsLoop_length (n : Nat) (l : List Nat) : (startsLoop n l).length = l.length + 1 := by
  induction l generalizing n with
  | nil => rfl
  | cons a l ih => simp [startsLoop, ih]

theorem startsLoop_get (n : Nat) (l : List Nat) (k : Nat) (hk : k ≤ l.length) :
    (startsLoop n l)[k]? = some (n + (l.take k).sum) := by
  induction l generalizing n k with
  | nil => have : k = 0 := by simpa using hk
           subst this; simp [startsLoop]
  | cons a l ih =>
    cases k with
    | zero => simp [startsLoop]
    | succ k =>
      simp only [startsLoop, List.getElem?_cons_succ]
      rw [ih _ _ (by simpa using hk)]
      simp [Nat.add_assoc]

theorem foldl_add (n : Nat) (l : List Nat) : l.foldl (· + ·) n = n + l.sum := by
  induction l generalizing n with
  | nil => simp
  | cons a l ih => simp [ih, Nat.add_assoc]

/-- C36: `target_discr_starts` starts after the centers, grows by the DOF count of each target
discretization, has one entry more than there are discretizations and ends at the number of
targets. -/
theorem C36_starts (ncenters : Nat) (ndofs : List Nat) :
    (startsLoop ncenters ndofs).length = ndofs.length + 1 ∧
    (startsLoop ncenters ndofs)[0]? = some ncenters ∧
    (∀ (k n a : Nat), ndofs[k]? = some n → (startsLoop ncenters ndofs)[k]? = some a →
      (startsLoop ncenters ndofs)[k + 1]? = some (a + n)) ∧
    (startsLoop ncenters ndofs)[ndofs.length]? = some (ntargets ncenters ndofs) := by
  refine ⟨startsLoop_length _ _, ?_, ?_, ?_⟩
  · rw [startsLoop_get _ _ _ (Nat.zero_le _)]; simp
  · intro k n a hk ha
    have hlt : k < ndofs.length := (List.getElem?_eq_some_iff.1 hk).1
    rw [startsLoop_get _ _ _ (by omega)] at ha ⊢
    injection ha with ha
    rw [← ha, List.take_add_one, hk]
    simp [Nat.add_assoc]
  · rw [startsLoop_get _ _ _ (Nat.le_refl _), ntargets, foldl_add]; simp

theorem copyStores_eq {P : Type} (start : Nat) (pts : List P) (p : Nat × P) :
    p ∈ copyStores start pts ↔ start ≤ p.1 ∧ pts[p.1 - start]? = some p.2 := by
  obtain ⟨i, x⟩ := p
  simp only [copyStores, List.mem_map, Prod.mk.injEq, Prod.exists]
  constructor
  · rintro ⟨a, b, h, rfl, rfl⟩
    rw [List.mem_zipIdx_iff_le_and_getElem?_sub] at h
    exact h
  · intro h
    exact ⟨x, i, by rw [List.mem_zipIdx_iff_le_and_getElem?_sub]; exact h, rfl, rfl⟩

theorem copyStores_keys {P : Type} (start : Nat) (pts : List P) :
    (copyStores start pts).map Prod.fst = List.range' start pts.length := by
  rw [copyStores, List.map_map]
  have : (Prod.fst ∘ fun q : P × Nat => (q.2, q.1)) = Prod.snd := rfl
  rw [this, List.zipIdx_map_snd]

theorem discrStores_keys {P : Type} (n : Nat) (discrs : List (List P)) :
    (discrStores (startsLoop n (discrs.map List.length)) discrs).map Prod.fst
      = List.range' n ((discrs.map List.length).sum) := by
  induction discrs generalizing n with
  | nil => simp [discrStores, startsLoop]
  | cons d ds ih =>
    have ih' := ih (n + d.length)
    simp only [discrStores, List.map_flatMap] at ih' ⊢
    simp only [startsLoop, List.map_cons, List.zip_cons_cons, List.flatMap_cons, copyStores_keys,
      List.sum_cons] at ih' ⊢
    rw [ih', List.range'_append_1]

theorem discrStores_mem {P : Type} (n : Nat) (discrs : List (List P)) (k i : Nat) (d : List P) (x : P)
    (a : Nat) (hd : discrs[k]? = some d) (hx : d[i]? = some x)
    (ha : (startsLoop n (discrs.map List.length))[k]? = some a) :
    (a + i, x) ∈ discrStores (startsLoop n (discrs.map List.length)) discrs := by
  rw [discrStores, List.mem_flatMap]
  refine ⟨(a, d), ?_, ?_⟩
  · rw [List.mem_iff_getElem?]
    refine ⟨k, ?_⟩
    rw [List.getElem?_zip_eq_some]
    exact ⟨ha, hd⟩
  · rw [copyStores_eq]
    refine ⟨by simp, by simpa using hx⟩

/-- C36: whatever the order in which the copy kernels perform their stores, the target list holds the
centers first and then, from `target_discr_starts[k]` on, the points of target discretization `k`;
every target number belongs to exactly one of these. -/
theorem C36_targets {P : Type} (centers : List P) (discrs : List (List P)) (ws : List (Nat × P))
    (hws : ws.Perm (targetStores centers discrs)) (buf : Nat → Option P) :
    (∀ (i : Nat) (x : P), centers[i]? = some x → runStores ws buf i = some x) ∧
    (∀ (k i a : Nat) (d : List P) (x : P), discrs[k]? = some d → d[i]? = some x →
      (startsLoop centers.length (discrs.map List.length))[k]? = some a →
      runStores ws buf (a + i) = some x) ∧
    (∀ t < ntargets centers.length (discrs.map List.length),
      (t < centers.length ∧ ∀ (k a : Nat),
        (startsLoop centers.length (discrs.map List.length))[k]? = some a → a ≤ t → False) ∨
      (∃ k a d, discrs[k]? = some d ∧
        (startsLoop centers.length (discrs.map List.length))[k]? = some a ∧
        a ≤ t ∧ t < a + d.length ∧
        ∀ (k' a' : Nat) (d' : List P), discrs[k']? = some d' →
          (startsLoop centers.length (discrs.map List.length))[k']? = some a' →
          a' ≤ t → t < a' + d'.length → k' = k)) := by
  have hkeys : (targetStores centers discrs).map Prod.fst
      = List.range' 0 (centers.length + (discrs.map List.length).sum) := by
    rw [targetStores, List.map_append, copyStores_keys, discrStores_keys]
    rw [← List.range'_append_1]; simp
  have hnd : ((targetStores centers discrs).map Prod.fst).Nodup := by
    rw [hkeys]; exact List.nodup_range'
  refine ⟨?_, ?_, ?_⟩
  · intro i x hx
    rw [runStores_perm _ _ _ hnd hws]
    apply runStores_mem _ _ _ _ hnd
    rw [targetStores, List.mem_append]
    left
    rw [copyStores_eq]
    exact ⟨Nat.zero_le _, by simpa using hx⟩
  · intro k i a d x hd hx ha
    rw [runStores_perm _ _ _ hnd hws]
    apply runStores_mem _ _ _ _ hnd
    rw [targetStores, List.mem_append]
    right
    exact discrStores_mem _ _ k i d x a hd hx ha
  · intro t ht
    by_cases hc : t < centers.length
    · left
      refine ⟨hc, ?_⟩
      intro k a ha hat
      have hk : k ≤ (discrs.map List.length).length := by
        have := (List.getElem?_eq_some_iff.1 ha).1
        rw [startsLoop_length] at this; omega
      rw [startsLoop_get _ _ _ hk] at ha
      injection ha with ha
      omega
    · right
      have gen : ∀ k, k ≤ discrs.length →
          (startsLoop centers.length (discrs.map List.length))[k]?
            = some (centers.length + off (fun j => (discrs.getD j []).length) k) := by
        intro k hk
        rw [startsLoop_get _ _ _ (by simpa using hk)]
        congr 2
        clear ht hkeys hnd hws hc
        induction k with
        | zero => simp [off]
        | succ k ih =>
          have hkl : k < discrs.length := by omega
          rw [List.take_add_one, List.sum_append, ih (by omega), off]
          congr 1
          simp [List.getElem?_eq_getElem hkl, List.getD]
      have htot : ntargets centers.length (discrs.map List.length)
          = centers.length + off (fun j => (discrs.getD j []).length) discrs.length := by
        have h1 := (C36_starts centers.length (discrs.map List.length)).2.2.2
        rw [List.length_map, gen _ (Nat.le_refl _)] at h1
        injection h1 with h1
        omega
      obtain ⟨k, hk, h1, h2⟩ := off_exists (fun j => (discrs.getD j []).length)
        (n := discrs.length) (p := t - centers.length) (by omega)
      have hd : discrs[k]? = some (discrs.getD k []) := by
        simp [List.getD, List.getElem?_eq_getElem hk]
      refine ⟨k, _, discrs.getD k [], hd, gen k (by omega), by omega, ?_, ?_⟩
      · simp only [off] at h2; omega
      · intro k' a' d' hd' ha' h3 h4
        have hk' : k' < discrs.length := (List.getElem?_eq_some_iff.1 hd').1
        rw [gen k' (by omega)] at ha'
        injection ha' with ha'
        have hd'' : discrs.getD k' [] = d' := by simp [List.getD, hd']
        refine off_unique (fun j => (discrs.getD j []).length) (p := t - centers.length) ?_ ?_ h1 h2
        · omega
        · simp only [off, hd'']; omega

/-- C36: the side preferences of target discretization `k` are the side requested for it, those of the
centers are 0. -/
theorem C36_sides {P : Type} (centers : List P) (discrs : List (List P × Int)) (ws : List (Nat × Int))
    (hws : ws.Perm (sidePrefStores (startsLoop centers.length (discrs.map fun q => q.1.length))
      (discrs.map fun q => (q.1.length, q.2)))) :
    (∀ i < centers.length, runStores ws (fun _ => some 0) i = some 0) ∧
    (∀ (k i a : Nat) (d : List P) (side : Int), discrs[k]? = some (d, side) → i < d.length →
      (startsLoop centers.length (discrs.map fun q => q.1.length))[k]? = some a →
      runStores ws (fun _ => some 0) (a + i) = some side) := by
  have heq : sidePrefStores (startsLoop centers.length (discrs.map fun q => q.1.length))
      (discrs.map fun q => (q.1.length, q.2))
      = discrStores (startsLoop centers.length ((discrs.map fun q => List.replicate q.1.length q.2).map
          List.length)) (discrs.map fun q => List.replicate q.1.length q.2) := by
    rw [sidePrefStores, discrStores, List.map_map]
    have : (List.length ∘ fun q : List P × Int => List.replicate q.1.length q.2)
        = fun q => q.1.length := by funext q; simp
    rw [this, List.zip_map_right, List.zip_map_right, List.flatMap_map, List.flatMap_map]
    rfl
  rw [heq] at hws
  have hkeys := discrStores_keys centers.length (discrs.map fun q => List.replicate q.1.length q.2)
  have hnd : ((discrStores (startsLoop centers.length ((discrs.map fun q => List.replicate q.1.length q.2).map
          List.length)) (discrs.map fun q => List.replicate q.1.length q.2)).map Prod.fst).Nodup := by
    rw [hkeys]; exact List.nodup_range'
  constructor
  · intro i hi
    rw [runStores_perm _ _ _ hnd hws, runStores_skip]
    rw [hkeys, List.mem_range'_1]
    omega
  · intro k i a d side hk hi ha
    rw [runStores_perm _ _ _ hnd hws]
    apply runStores_mem _ _ _ _ hnd
    apply discrStores_mem _ _ k i (List.replicate d.length side) side a
    · simp [hk]
    · simp [hi]
    · rw [List.map_map]
      have : (List.length ∘ fun q : List P × Int => List.replicate q.1.length q.2)
          = fun q => q.1.length := by funext q; simp
      rw [this]; exact ha

theorem alookup_append {α β : Type} [DecidableEq α] (k : α) (l m : List (α × β)) :
    alookup k (l ++ m) = match alookup k l with
      | some b => some b
      | none => alookup k m := by
  induction l with
  | nil => rfl
  | cons p l ih =>
    obtain ⟨a, b⟩ := p
    simp only [List.cons_append, alookup]
    split
    · rfl
    · exact ih

/-- what `collect` guarantees -/
theorem collect_spec {T P : Type} [DecidableEq T] (discr : T → List P) (outs : List (Out T))
    (dict : List ((T × Option Int) × Nat)) (lst : List (List P × Int))
    (hinv : ∀ key n, alookup key dict = some n → lst[n]? = some (discr key.1, key.2.getD 0)) :
    (∀ key n, alookup key (collect discr outs dict lst).1 = some n →
      (collect discr outs dict lst).2[n]? = some (discr key.1, key.2.getD 0)) ∧
    (∀ key n, alookup key dict = some n → alookup key (collect discr outs dict lst).1 = some n) ∧
    (∀ o ∈ outs, ∃ n, alookup (o.target, o.limit) (collect discr outs dict lst).1 = some n) := by
  induction outs generalizing dict lst with
  | nil => exact ⟨hinv, fun _ _ h => h, by simp⟩
  | cons o os ih =>
    cases hk : alookup (o.target, o.limit) dict with
    | some m =>
      have hc : collect discr (o :: os) dict lst = collect discr os dict lst := by
        rw [collect, hk]
      rw [hc]
      obtain ⟨i1, i2, i3⟩ := ih dict lst hinv
      refine ⟨i1, i2, ?_⟩
      intro o' ho'
      rcases List.mem_cons.1 ho' with rfl | h
      · exact ⟨m, i2 _ _ hk⟩
      · exact i3 o' h
    | none =>
      have hc : collect discr (o :: os) dict lst
          = collect discr os (dict ++ [((o.target, o.limit), lst.length)])
              (lst ++ [(discr o.target, o.limit.getD 0)]) := by
        rw [collect, hk]
      rw [hc]
      obtain ⟨i1, i2, i3⟩ := ih (dict ++ [((o.target, o.limit), lst.length)])
        (lst ++ [(discr o.target, o.limit.getD 0)]) (by
          intro key n h
          rw [alookup_append] at h
          cases hd : alookup key dict with
          | some m =>
            rw [hd] at h
            injection h with h
            subst h
            have := hinv key m hd
            rw [List.getElem?_append_left (List.getElem?_eq_some_iff.1 this).1]
            exact this
          | none =>
            rw [hd] at h
            simp only [alookup] at h
            split at h
            · rename_i hkey
              injection h with h
              subst h hkey
              simp
            · cases h)
      refine ⟨i1, ?_, ?_⟩
      · intro key n h
        apply i2
        rw [alookup_append, h]
      · intro o' ho'
        rcases List.mem_cons.1 ho' with rfl | h
        · refine ⟨lst.length, i2 _ _ ?_⟩
          rw [alookup_append, hk]
          simp [alookup]
        · exact i3 o' h

theorem slice_block {A V : Type} (f : A → List V) (sz : A → Nat) (hf : ∀ a, (f a).length = sz a)
    (pre : List V) (L : List A) (n : Nat) (a : A) (hn : L[n]? = some a) (x y : Nat)
    (hx : (startsLoop pre.length (L.map sz))[n]? = some x)
    (hy : (startsLoop pre.length (L.map sz))[n + 1]? = some y) :
    slice (pre ++ L.flatMap f) x y = f a := by
  have hlt := (List.getElem?_eq_some_iff.1 hn).1
  rw [startsLoop_get _ _ _ (by simp; omega)] at hx hy
  injection hx with hx
  injection hy with hy
  subst hx hy
  have hsplit : L = L.take n ++ a :: L.drop (n + 1) := by
    have : L[n] = a := (List.getElem?_eq_some_iff.1 hn).2
    rw [← this, List.getElem_cons_drop, List.take_append_drop]
  have hpre : ((L.take n).flatMap f).length = ((L.map sz).take n).sum := by
    rw [List.length_flatMap, ← List.map_take]
    congr 1
    exact List.map_congr_left fun a _ => hf a
  have htake : ((L.map sz).take (n + 1)).sum = ((L.map sz).take n).sum + (f a).length := by
    rw [List.take_add_one, List.sum_append, hf]
    simp [hn]
  rw [htake, ← hpre]
  have hflat : L.flatMap f = (L.take n).flatMap f ++ (f a ++ (L.drop (n + 1)).flatMap f) := by
    conv => lhs; rw [hsplit]
    rw [List.flatMap_append, List.flatMap_cons]
  rw [hflat, slice, ← List.append_assoc, ← List.append_assoc]
  have h1 : pre.length + (((L.take n).flatMap f).length + (f a).length)
      = ((pre ++ (L.take n).flatMap f) ++ f a).length := by simp [Nat.add_assoc]
  have h2 : pre.length + ((L.take n).flatMap f).length = (pre ++ (L.take n).flatMap f).length := by simp
  rw [h1, h2]
  rw [List.take_left' rfl, List.drop_left' rfl]

/-- C36: every output of the statement is cut from the slice of its own target and side: if the driver
returns at each target the value `φ kernel point side`, then the result of each output is `φ` with
its own kernel and side at the points of its own target, in order; outputs come in the requested
order; no lookup fails. -/
theorem C36_outputs {T P V : Type} [DecidableEq T] (discr : T → List P) (centers : List P)
    (failed : List (List P × Int) → Bool) (inspect : Option Bool)
    (driver : List P → List (List P × Int) → Nat → List V) (outs : List (Out T))
    (φ : Nat → P → Int → V) (cv : Nat → List V)
    (hcv : ∀ k, (cv k).length = centers.length)
    (hdrv : ∀ k, driver centers (collect discr outs [] []).2 k
      = cv k ++ (collect discr outs [] []).2.flatMap fun q => q.1.map fun p => φ k p q.2)
    (hf : failed (collect discr outs [] []).2 = false) (hi : inspect ≠ some false) :
    execFmm discr centers failed inspect driver outs
      = some (.done (outs.map fun o => (o.name, (discr o.target).map fun p => φ o.kernel p (o.limit.getD 0)))) := by
  obtain ⟨i1, -, i3⟩ := collect_spec discr outs [] [] (by intro key n h; cases h)
  simp only [execFmm, hf, Bool.false_eq_true, if_false, if_neg hi]
  have hmap : outs.map (cut (P := P) (collect discr outs [] []).1
      (startsLoop centers.length ((collect discr outs [] []).2.map fun q => q.1.length))
      (driver centers (collect discr outs [] []).2))
      = outs.map fun o => some (o.name, (discr o.target).map fun p => φ o.kernel p (o.limit.getD 0)) := by
    apply List.map_congr_left
    intro o ho
    obtain ⟨n, hn⟩ := i3 o ho
    have hl := i1 _ _ hn
    have hlt := (List.getElem?_eq_some_iff.1 hl).1
    have hs1 := startsLoop_get centers.length ((collect discr outs [] []).2.map fun q => q.1.length) n
      (by simp; omega)
    have hs2 := startsLoop_get centers.length ((collect discr outs [] []).2.map fun q => q.1.length) (n + 1)
      (by simp; omega)
    rw [cut, hn]
    simp only [hs1, hs2, hdrv]
    congr 2
    rw [← hcv o.kernel] at hs1 hs2 ⊢
    exact slice_block (fun q : List P × Int => q.1.map fun p => φ o.kernel p q.2) (fun q => q.1.length)
      (by intro a; simp) _ _ n _ hl _ _ hs1 hs2
  rw [hmap]
  have : ∀ l : List (Out T), (l.map fun o => some (o.name, (discr o.target).map fun p => φ o.kernel p (o.limit.getD 0))).mapM id
      = some (l.map fun o => (o.name, (discr o.target).map fun p => φ o.kernel p (o.limit.getD 0))) := by
    intro l
    induction l with
    | nil => rfl
    | cons o l ih => simp only [List.map_cons, List.mapM_cons, ih]; rfl
  rw [this]
  rfl

/-- C36: a failed target makes the execution raise; an inspector returning false makes all results
zero. -/
theorem C36_failed {T P V : Type} [DecidableEq T] (discr : T → List P) (centers : List P)
    (failed : List (List P × Int) → Bool) (inspect : Option Bool)
    (driver : List P → List (List P × Int) → Nat → List V) (outs : List (Out T)) :
    (failed (collect discr outs [] []).2 = true →
      execFmm discr centers failed inspect driver outs = some .failedTargets) ∧
    (failed (collect discr outs [] []).2 = false → inspect = some false →
      execFmm discr centers failed inspect driver outs = some (.zeros (outs.map Out.name))) := by
  constructor
  · intro h; simp [execFmm, h]
  · intro h h2; simp [execFmm, h, h2]

/-- three outputs, two of them for the same target and side: one slice for both -/
example : execFmm (T := Nat) (P := Nat) (V := Int) (fun t => if t = 0 then [10, 11] else [20, 21, 22])
    [1, 2] (fun _ => false) none
    (fun cs lst k => cs.map (fun _ => 0) ++ lst.flatMap fun q => q.1.map fun p : Nat => (1000 * k + p : Int) * 10 + q.2)
    [⟨"a", 0, none, 0⟩, ⟨"b", 1, some 1, 0⟩, ⟨"c", 0, none, 1⟩, ⟨"d", 0, some (-1), 0⟩]
    = some (.done [("a", [100, 110]), ("b", [201, 211, 221]), ("c", [10100, 10110]), ("d", [99, 109])]) := by
  decide +kernel

/-! # C37: target-to-center maps and their inverses -/

/-- scattering along a permutation -/
theorem scatter_spec {β : Type} (idx : List Nat) (vals : List β) (hlen : idx.length = vals.length)
    (hperm : idx.Perm (List.range idx.length)) (ws : List (Nat × β)) (hws : ws.Perm (idx.zip vals))
    (zero : β) :
    (scatter ws zero idx.length).length = idx.length ∧
    ∀ (u t : Nat) (v : β), idx[u]? = some t → vals[u]? = some v →
      (scatter ws zero idx.length)[t]? = some v := by
  refine ⟨by simp [scatter], ?_⟩
  intro u t v ht hv
  have hk : (idx.zip vals).map Prod.fst = idx := List.map_fst_zip (by omega)
  have hnd : ((idx.zip vals).map Prod.fst).Nodup := by
    rw [hk]; exact hperm.nodup_iff.2 List.nodup_range
  have htl : t < idx.length := by
    have := hperm.mem_iff.1 (List.mem_of_getElem? ht)
    simpa using this
  simp only [scatter, List.getElem?_map, List.getElem?_range htl, Option.map_some]
  rw [runStores_perm _ _ _ hnd hws, runStores_mem _ _ t v hnd]
  · rfl
  · rw [List.mem_iff_getElem?]
    exact ⟨u, by rw [List.getElem?_zip_eq_some]; exact ⟨ht, hv⟩⟩

/-- every tree target is some user target -/
theorem perm_surj (idx : List Nat) (hperm : idx.Perm (List.range idx.length)) (t : Nat)
    (ht : t < idx.length) : ∃ u, u < idx.length ∧ idx[u]? = some t := by
  have : t ∈ idx := hperm.mem_iff.2 (by simpa using ht)
  obtain ⟨u, hu⟩ := List.mem_iff_getElem?.1 this
  exact ⟨u, (List.getElem?_eq_some_iff.1 hu).1, hu⟩

theorem perm_inj (idx : List Nat) (hperm : idx.Perm (List.range idx.length)) (u v t : Nat)
    (hu : idx[u]? = some t) (hv : idx[v]? = some t) : u = v := by
  have hnd : idx.Nodup := hperm.nodup_iff.2 List.nodup_range
  obtain ⟨h1, h2⟩ := List.getElem?_eq_some_iff.1 hu
  obtain ⟨h3, h4⟩ := List.getElem?_eq_some_iff.1 hv
  exact (List.getElem_inj hnd).1 (h2.trans h4.symm)

/-- C37: for every center, `center_to_tree_targets` lists exactly the tree numbers of the targets
associated with it, each once -- for every association, tree permutation `sorted` (user to tree
number) and order of the kernels' stores. -/
theorem C37_center_lists (ncenters : Nat) (assoc : List Int) (sorted : List Nat)
    (hlen : sorted.length = ncenters + assoc.length)
    (hperm : sorted.Perm (List.range sorted.length))
    (ws1 : List (Nat × Int)) (hws1 : ws1.Perm (sorted.zip (userTtc ncenters assoc)))
    (ws2 : List (Nat × Nat))
    (hws2 : ws2.Perm (scanFrom (fun c : Int => decide (0 ≤ c)) 0 0 (scatter ws1 0 sorted.length)))
    (starts lists : List Nat)
    (hkv : KVSorted (filteredPairs (scatter ws1 0 sorted.length)
      (scanOut ws2 (scanCount (fun c : Int => decide (0 ≤ c)) (scatter ws1 0 sorted.length))))
      ncenters starts lists) (c : Nat) (hc : c < ncenters) :
    ∃ a b, starts[c]? = some a ∧ starts[c + 1]? = some b ∧ (slice lists a b).Nodup ∧
      ∀ t, t ∈ slice lists a b ↔
        ∃ u : Nat, sorted[u]? = some t ∧ (userTtc ncenters assoc)[u]? = some (c : Int) := by
  have hlu : sorted.length = (userTtc ncenters assoc).length := by simp [userTtc, hlen]
  obtain ⟨s1, s2⟩ := scatter_spec sorted (userTtc ncenters assoc) hlu hperm ws1 hws1 0
  rw [scan_spec _ _ _ hws2] at hkv
  obtain ⟨a, b, ha, hb, hp⟩ := hkv.slice c hc
  refine ⟨a, b, ha, hb, ?_⟩
  have hbk : bucket (filteredPairs (scatter ws1 0 sorted.length)
      (flagged (fun c : Int => decide (0 ≤ c)) 0 (scatter ws1 0 sorted.length))) c
      = (flagged (fun c : Int => decide (0 ≤ c)) 0 (scatter ws1 0 sorted.length)).filter
          (fun t => ((scatter ws1 0 sorted.length).getD t 0).toNat = c) := by
    simp only [bucket, filteredPairs, List.filter_map, List.map_map]
    rw [show ((fun p : Nat × Nat => p.2) ∘ fun t => (((scatter ws1 0 sorted.length).getD t 0).toNat, t))
        = id from rfl, List.map_id]
    rfl
  rw [hbk] at hp
  constructor
  · rw [slice, hp.nodup_iff]
    exact ((flagged_sorted _ _ _).imp (fun h => Nat.ne_of_lt h)).filter _
  · intro t
    rw [slice, hp.mem_iff, List.mem_filter, mem_flagged]
    simp only [Nat.zero_le, Nat.sub_zero, true_and, decide_eq_true_eq]
    constructor
    · rintro ⟨⟨x, hx, hx0⟩, hk⟩
      have htl : t < sorted.length := by
        have := (List.getElem?_eq_some_iff.1 hx).1
        omega
      obtain ⟨u, hul, hu⟩ := perm_surj sorted hperm t htl
      refine ⟨u, hu, ?_⟩
      have hv : (userTtc ncenters assoc)[u]? = some ((userTtc ncenters assoc)[u]'(by omega)) :=
        List.getElem?_eq_getElem _
      have := s2 u t _ hu hv
      rw [hx] at this
      injection this with this
      rw [hv, ← this]
      rw [List.getD, hx] at hk
      simp only [Option.getD_some] at hk
      congr 1
      omega
    · rintro ⟨u, hu, hv⟩
      have := s2 u t _ hu hv
      refine ⟨⟨_, this, by omega⟩, ?_⟩
      rw [List.getD, this]; simp

/-- C37: `global_qbx_centers` are, in increasing order, exactly the centers some target is associated
with. -/
theorem C37_global_centers (ncenters : Nat) (assoc : List Int) (ws : List (Nat × Bool))
    (hws : ws.Perm (usedStores assoc)) :
    (∀ c, c ∈ globalCenters ncenters ws ↔
      c < ncenters ∧ ∃ u : Nat, ncenters ≤ u ∧ (userTtc ncenters assoc)[u]? = some (c : Int)) ∧
    (globalCenters ncenters ws).Pairwise (· < ·) := by
  have hmem : ∀ c : Nat, (c : Int) ∈ assoc ↔
      ∃ u : Nat, ncenters ≤ u ∧ (userTtc ncenters assoc)[u]? = some (c : Int) := by
    intro c
    rw [List.mem_iff_getElem?]
    constructor
    · rintro ⟨i, hi⟩
      refine ⟨ncenters + i, by omega, ?_⟩
      rw [userTtc, List.getElem?_append_right (by simp)]
      simpa using hi
    · rintro ⟨u, hu, h⟩
      rw [userTtc, List.getElem?_append_right (by simpa using hu)] at h
      exact ⟨_, h⟩
  have hst : ∀ c : Nat, (c, true) ∈ ws ↔ (c : Int) ∈ assoc := by
    intro c
    rw [hws.mem_iff, usedStores, List.mem_map]
    constructor
    · rintro ⟨x, hx, hxc⟩
      rw [List.mem_filter] at hx
      have h0 : (0 : Int) ≤ x := by simpa using hx.2
      have : x = (c : Int) := by
        have := (Prod.mk.inj hxc).1
        omega
      rw [← this]; exact hx.1
    · intro h
      exact ⟨(c : Int), by simp [List.mem_filter, h], by simp⟩
  have hval : ∀ c b, (c, b) ∈ ws → b = true := by
    intro c b h
    rw [hws.mem_iff, usedStores, List.mem_map] at h
    obtain ⟨x, -, hx⟩ := h
    exact ((Prod.mk.inj hx).2).symm
  constructor
  · intro c
    rw [globalCenters, List.mem_filter, List.mem_range, ← hmem]
    constructor
    · rintro ⟨h1, h2⟩
      refine ⟨h1, ?_⟩
      by_contra hno
      rw [runStores_skip] at h2
      · simp at h2
      · intro hin
        obtain ⟨⟨c', b⟩, hcb, rfl⟩ := List.mem_map.1 hin
        have := hval _ _ hcb
        subst this
        exact hno ((hst _).1 hcb)
    · rintro ⟨h1, h2⟩
      refine ⟨h1, ?_⟩
      rw [runStores_mem' ws _ c true (fun u hu => hval c u hu) (Or.inl ((hst c).2 h2))]
      rfl
  · exact (List.pairwise_lt_range).filter _

/-- C37: the non-QBX target list holds exactly the (tree numbers of) targets that are not centers and
have no associated center, in increasing order. -/
theorem C37_non_qbx (ncenters : Nat) (assoc : List Int) (sorted : List Nat)
    (hperm : sorted.Perm (List.range sorted.length)) :
    (∀ t, t ∈ nonQbxTargets sorted (nonQbxFlags ncenters (userTtc ncenters assoc)) ↔
      ∃ u : Nat, ncenters ≤ u ∧ sorted[u]? = some t ∧ (userTtc ncenters assoc)[u]? = some (-1)) ∧
    (nonQbxTargets sorted (nonQbxFlags ncenters (userTtc ncenters assoc))).Pairwise (· < ·) := by
  constructor
  · intro t
    rw [nonQbxTargets, List.mem_filter, List.mem_range, List.any_eq_true]
    simp only [Bool.and_eq_true, decide_eq_true_eq, Prod.exists]
    constructor
    · rintro ⟨ht, t', f, hmem, rfl, hf⟩
      obtain ⟨u, hu⟩ := List.mem_iff_getElem?.1 hmem
      rw [List.getElem?_zip_eq_some] at hu
      simp only at hu
      rw [nonQbxFlags, List.getElem?_map] at hu
      obtain ⟨hu1, hu2⟩ := hu
      rw [List.getElem?_zipIdx] at hu2
      cases hv : (userTtc ncenters assoc)[u]? with
      | none => rw [hv] at hu2; simp at hu2
      | some v =>
        rw [hv] at hu2
        simp only [Option.map_some, Nat.zero_add] at hu2
        injection hu2 with hu2
        split at hu2
        · rw [← hu2] at hf; cases hf
        · rename_i hnc
          refine ⟨u, by omega, hu1, ?_⟩
          rw [hf] at hu2
          rw [hv]
          simpa using hu2
    · rintro ⟨u, hnu, hu, hv⟩
      have htl : t < sorted.length := by
        have := hperm.mem_iff.1 (List.mem_of_getElem? hu)
        simpa using this
      refine ⟨htl, t, true, ?_, rfl, rfl⟩
      rw [List.mem_iff_getElem?]
      refine ⟨u, ?_⟩
      rw [List.getElem?_zip_eq_some]
      refine ⟨hu, ?_⟩
      rw [nonQbxFlags, List.getElem?_map, List.getElem?_zipIdx, hv]
      simp only [Option.map_some, Nat.zero_add]
      rw [if_neg (by omega)]
      simp
  · exact (List.pairwise_lt_range).filter _

/-- C54: every center is attributed the (index of the) target box whose own target range contains it:
if the own ranges of the boxes partition the tree targets and every box with own targets is a target
box, then for every order of the stores, entry `c` of `qbx_center_to_target_box` is the index in
`target_boxes` of the one box containing center `c`. -/
theorem C54_center_to_target_box (ncenters : Nat) (sorted : List Nat)
    (hperm : sorted.Perm (List.range sorted.length)) (hnc : ncenters ≤ sorted.length)
    (boxes : List (Nat × Nat)) (targetBoxes : List Nat) (hnd : targetBoxes.Nodup)
    (htb : ∀ b ∈ targetBoxes, b < boxes.length)
    (hown : ∀ (b s n : Nat), boxes[b]? = some (s, n) → 0 < n → b ∈ targetBoxes)
    (hcov : ∀ t < sorted.length, ∃ b s n : Nat, boxes[b]? = some (s, n) ∧ s ≤ t ∧ t < s + n)
    (huniq : ∀ (t b s n b' s' n' : Nat), boxes[b]? = some (s, n) → s ≤ t → t < s + n →
      boxes[b']? = some (s', n') → s' ≤ t → t < s' + n' → b = b')
    (hin : ∀ (b s n : Nat), boxes[b]? = some (s, n) → s + n ≤ sorted.length)
    (ws0 : List (Nat × Nat)) (hws0 : ws0.Perm (sorted.zip (List.range sorted.length)))
    (ws : List (Nat × Nat))
    (hws : ws.Perm (lookupStores ncenters (boxToTargetBox targetBoxes boxes.length) boxes
      (scatter ws0 0 sorted.length))) (c : Nat) (hc : c < ncenters) :
    ∃ t k b s n : Nat, sorted[c]? = some t ∧ (centerToTargetBox ncenters ws)[c]? = some k ∧
      targetBoxes[k]? = some b ∧ boxes[b]? = some (s, n) ∧ s ≤ t ∧ t < s + n := by
  obtain ⟨l1, l2⟩ := scatter_spec sorted (List.range sorted.length) (by simp) hperm ws0 hws0 0
  have hcl : c < sorted.length := by omega
  have ht : sorted[c]? = some sorted[c] := List.getElem?_eq_getElem hcl
  have htl : sorted[c] < sorted.length := by
    have := hperm.mem_iff.1 (List.mem_of_getElem? ht)
    simpa using this
  obtain ⟨b, s, n, hb, hs, hn⟩ := hcov _ htl
  have hbm := hown b s n hb (by omega)
  obtain ⟨k, hk⟩ := List.mem_iff_getElem?.1 hbm
  -- box_to_target_box
  have hb2 : (boxToTargetBox targetBoxes boxes.length)[b]? = some k := by
    have hbl : b < boxes.length := (List.getElem?_eq_some_iff.1 hb).1
    simp only [boxToTargetBox, scatter, List.getElem?_map, List.getElem?_range hbl, Option.map_some]
    rw [runStores_mem _ _ b k]
    · rfl
    · rw [List.map_map]
      have : (Prod.fst ∘ fun q : Nat × Nat => (q.2, q.1)) = Prod.snd := rfl
      rw [this, copyStores, List.map_map]
      have : (Prod.snd ∘ fun q : Nat × Nat => (q.2, q.1)) = Prod.fst := rfl
      rw [this, List.zipIdx_map_fst]
      exact hnd
    · rw [List.mem_map]
      refine ⟨(k, b), ?_, rfl⟩
      rw [copyStores_eq]
      exact ⟨Nat.zero_le _, by simpa using hk⟩
  have hutt : ∀ t < sorted.length, ∀ u, (scatter ws0 0 sorted.length).getD t 0 = u →
      sorted[u]? = some t := by
    intro t htl u hu
    obtain ⟨v, hvl, hv⟩ := perm_surj sorted hperm t htl
    have := l2 v t v hv (by simp [hvl])
    rw [List.getD, this] at hu
    simp only [Option.getD_some] at hu
    rw [← hu]; exact hv
  refine ⟨_, k, b, s, n, ht, ?_, hk, hb, hs, hn⟩
  simp only [centerToTargetBox, scatter, List.getElem?_map, List.getElem?_range hc, Option.map_some]
  rw [runStores_mem' ws _ c k]
  · rfl
  · intro v hv
    rw [hws.mem_iff, lookupStores, List.mem_flatMap] at hv
    obtain ⟨⟨⟨s', n'⟩, b'⟩, hb', hv⟩ := hv
    rw [List.mem_zipIdx_iff_getElem?] at hb'
    simp only at hb'
    rw [List.mem_filterMap] at hv
    obtain ⟨t', ht', hv⟩ := hv
    simp only [List.mem_range'_1] at ht'
    simp only at hv
    split at hv
    · injection hv with hv
      obtain ⟨hv1, hv2⟩ := Prod.mk.inj hv
      have hle := hin b' s' n' hb'
      have := hutt t' (by omega) c hv1
      rw [ht] at this
      injection this with this
      have hbb := huniq _ b s n b' s' n' hb hs hn hb' (by omega) (by omega)
      rw [← hv2, ← hbb, List.getD, hb2]
      rfl
    · cases hv
  · left
    rw [hws.mem_iff, lookupStores, List.mem_flatMap]
    refine ⟨((s, n), b), ?_, ?_⟩
    · rw [List.mem_zipIdx_iff_getElem?]; exact hb
    · rw [List.mem_filterMap]
      refine ⟨sorted[c], by simp [List.mem_range'_1]; omega, ?_⟩
      have := l2 c _ c ht (by simp [hcl])
      simp only [List.getD, this, Option.getD_some]
      rw [if_pos hc, hb2]
      rfl

/-- an instance: 2 centers and 3 further targets in a permuted tree, one target with center 1, one with
center 0, one without -/
example : let sorted := [3, 0, 4, 1, 2]
    let assoc : List Int := [1, -1, 0]
    sorted.length = 2 + assoc.length ∧ sorted.Perm (List.range sorted.length) ∧
    scatter (sorted.zip (userTtc 2 assoc)) 0 5 = [-1, -1, 0, -1, 1] ∧
    globalCenters 2 (usedStores assoc) = [0, 1] ∧
    nonQbxTargets sorted (nonQbxFlags 2 (userTtc 2 assoc)) = [1] ∧
    KVSorted (filteredPairs [-1, -1, 0, -1, 1] [2, 4]) 2 [0, 1, 2] [2, 4] := by
  refine ⟨rfl, by decide, by decide, by decide, by decide, ⟨rfl, by decide, rfl, ?_⟩⟩
  intro k hk
  have : k = 0 ∨ k = 1 := by omega
  rcases this with rfl | rfl
  · exact ⟨0, 1, rfl, rfl, by decide⟩
  · exact ⟨1, 2, rfl, rfl, by decide⟩

/-- boxes of the same tree: box 0 has no own targets, boxes 1 and 2 do -/
example : centerToTargetBox 2 (lookupStores 2 (boxToTargetBox [1, 2] 3) [(0, 0), (0, 2), (2, 3)]
    (scatter ([3, 0, 4, 1, 2].zip (List.range 5)) 0 5)) = [1, 0] := by decide

end Verif.Geometry
