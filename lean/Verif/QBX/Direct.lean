import Verif.Util.Scan
import Mathlib.Data.List.Nodup

/-!
# Direct (non-FMM) QBX evaluation (C40)

Models `QBXLayerPotentialSource.exec_compute_potential_insn_direct`
(`pytential/qbx/__init__.py:866-1068`), its target numberer (`849-864`) and the subset kernel
(`pytential/qbx/direct.py:84-109`).  Not modelled: the numbers inside kernels (the values of the self
applier, of the quadrature kernel and of the subset kernel are parameters), flattening/unflattening,
caching of nodes/radii/centers.
-/

namespace Verif.Direct

open Verif.Util

/-- the fields of `PotentialOutput` used here (`symbolic/compiler.py`, `PotentialOutput`) -/
structure Out (T : Type) where
  name : String
  target : T
  limit : Option Int
  kernel : Nat

/-- outcomes of the two `assert`s and of the `RuntimeError` -/
inductive Err where
  | assertion
  | noCenter
deriving DecidableEq, Repr

/-- what the surrounding code provides.  `isSelf t`: the target discretization *is* the density
discretization of the source at the target's stage (`925-935`); `selfVal t side k i`: value of the layer
potential applier for kernel `k` at node `i` using centers on `side` (`961-967`); `p2p t k i`: plain
quadrature (`1002-1006`); `userTtc t side`: `geo_data.user_target_to_center()`, centers first
(`1009-1020`); `subsetVal t c k i`: value of the expansion about center `c` at target `i`
(`direct.py:91-107`) -/
structure Env (T V : Type) where
  isSelf : T → Bool
  ndofs : T → Nat
  selfVal : T → Int → Nat → Nat → V
  p2p : T → Nat → Nat → V
  ncenters : Nat
  userTtc : T → Int → List Int
  subsetVal : T → Nat → Nat → Nat → V

/-- members `(index, output)` grouped under their key -/
abbrev Groups (T : Type) := List ((T × Int) × List (Nat × Out T))

section

variable {T V : Type} [DecidableEq T]

/-- `d[key].append(x)` on a `defaultdict(list)` (insertion ordered) -/
def groupAdd (key : T × Int) (x : Nat × Out T) : Groups T → Groups T
  | [] => [(key, [x])]
  | (k, xs) :: g => if k = key then (k, xs ++ [x]) :: g else (k, xs) :: groupAdd key x g

/-- one step of the partitioning loop (`925-945`) -/
def partStep (env : Env T V) (acc : Groups T × Groups T) (x : Nat × Out T) :
    Except Err (Groups T × Groups T) :=
  if env.isSelf x.2.target then
    match x.2.limit with
    | none => .error .assertion
    | some l => if l = 0 then .error .assertion
                else .ok (groupAdd (x.2.target, l) x acc.1, acc.2)
  else .ok (acc.1, groupAdd (x.2.target, x.2.limit.getD 0) x acc.2)

/-- the partitioning loop (`915-945`) -/
def partition (env : Env T V) (xs : List (Nat × Out T)) : Except Err (Groups T × Groups T) :=
  xs.foldlM (partStep env) ([], [])

/-- results list under construction: `[None] * len(insn.outputs)` (`947`) -/
abbrev Results (V : Type) := List (Option (String × List V))

/-- `results[i] = (o.name, result)` for the members of a group (`969-982`, `1058-1064`); `arr k` is the
array computed for kernel `k` -/
def writeGroup (arr : Nat → List V) (res : Results V) (xs : List (Nat × Out T)) : Results V :=
  xs.foldl (fun res x => res.set x.1 (some (x.2.name, arr x.2.kernel))) res

/-- arrays of a self-interaction group (`959-967`) -/
def selfArr (env : Env T V) (key : T × Int) (k : Nat) : List V :=
  (List.range (env.ndofs key.1)).map fun i => env.selfVal key.1 key.2 k i

/-- the self-interaction loop (`958-982`) -/
def runSelf (env : Env T V) (g : Groups T) (res : Results V) : Results V :=
  g.foldl (fun res kx => writeGroup (selfArr env kx.1) res kx.2) res

/-- a schedule: the order in which work items perform their stores -/
abbrev Sched := {α : Type} → List α → List α

/-- `tgt_to_qbx_center = user_target_to_center()[ncenters:]` (`1018-1020`) -/
def ttc (env : Env T V) (key : T × Int) : List Int := (env.userTtc key.1 key.2).drop env.ncenters

/-- the numberer's flag `tgt_to_qbx_center[i] >= 0` (`856`) -/
def hasCenter (c : Int) : Bool := decide (0 ≤ c)

/-- `qbx_tgt_numbers[:qbx_tgt_count]` (`1022-1037`): result of the numbering scan -/
def qbxNumbers (σ : Sched) (env : Env T V) (key : T × Int) : List Nat :=
  scanOut (σ (scanFrom hasCenter 0 0 (ttc env key))) (scanCount hasCenter (ttc env key))

/-- `qbx_center_numbers = tgt_to_qbx_center[qbx_tgt_numbers]` (`1038`) -/
def centerNumbers (env : Env T V) (key : T × Int) (nums : List Nat) : List Nat :=
  nums.map fun i => ((ttc env key).getD i 0).toNat

/-- stores of the subset kernel into `result_k` (`direct.py:91-107`) -/
def subsetStores (env : Env T V) (key : T × Int) (nums cens : List Nat) (k : Nat) : List (Nat × V) :=
  (nums.zip cens).map fun ic => (ic.1, env.subsetVal key.1 ic.2 k ic.1)

/-- arrays of an other-target group: quadrature everywhere, then the subset kernel overwrites
(`1000-1056`) -/
def otherArr (σ : Sched) (env : Env T V) (key : T × Int) (k : Nat) : List V :=
  let nums := qbxNumbers σ env key
  let cens := centerNumbers env key nums
  (List.range (env.ndofs key.1)).filterMap fun i =>
    runStores (σ (subsetStores env key nums cens k)) (fun i => some (env.p2p key.1 k i)) i

/-- one iteration of the other-target loop (`995-1064`) -/
def otherStep (σ : Sched) (env : Env T V) (res : Results V) (kx : (T × Int) × List (Nat × Out T)) :
    Except Err (Results V) :=
  if kx.1.2.natAbs = 1 ∧ scanCount hasCenter (ttc env kx.1) < env.ndofs kx.1.1 then .error .noCenter
  else .ok (writeGroup (otherArr σ env kx.1) res kx.2)

/-- the other-target loop -/
def runOther (σ : Sched) (env : Env T V) (g : Groups T) (res : Results V) : Except Err (Results V) :=
  g.foldlM (otherStep σ env) res

/-- `exec_compute_potential_insn_direct` (`866-1068`) -/
def exec (σ : Sched) (env : Env T V) (outs : List (Out T)) : Except Err (Results V) := do
  let g ← partition env ((outs.zipIdx).map fun p => (p.2, p.1))
  let res := runSelf env g.1 (List.replicate outs.length none)
  runOther σ env g.2 res

/-! ## specification -/

/-- the center a target is associated with -/
def centerOf (env : Env T V) (o : Out T) (i : Nat) : Option Nat :=
  match (env.userTtc o.target (o.limit.getD 0))[env.ncenters + i]? with
  | none => none
  | some c => if c < 0 then none else some c.toNat

/-- what the caller should get at node `i` for output `o` -/
def valueAt (env : Env T V) (o : Out T) (i : Nat) : V :=
  if env.isSelf o.target then env.selfVal o.target (o.limit.getD 0) o.kernel i
  else match centerOf env o i with
    | some c => env.subsetVal o.target c o.kernel i
    | none => env.p2p o.target o.kernel i

/-- an output the preprocessor must not produce: a self target without a side -/
def BadSelf (env : Env T V) (o : Out T) : Prop := env.isSelf o.target = true ∧ (o.limit = none ∨ o.limit = some 0)

/-- an off-surface output that demands a center for every target but some target has none -/
def Unassociated (env : Env T V) (o : Out T) : Prop :=
  env.isSelf o.target = false ∧ (o.limit = some 1 ∨ o.limit = some (-1)) ∧
    ∃ i < env.ndofs o.target, centerOf env o i = none

/-! ## grouping -/

omit V in
theorem groupAdd_flat (key : T × Int) (x : Nat × Out T) (g : Groups T) :
    ((groupAdd key x g).flatMap Prod.snd).Perm (g.flatMap Prod.snd ++ [x]) := by
  induction g with
  | nil => simp [groupAdd]
  | cons kx g ih =>
    obtain ⟨k, xs⟩ := kx
    rw [groupAdd]
    split
    · simp only [List.flatMap_cons, List.append_assoc]
      exact List.Perm.append_left _ List.perm_append_comm
    · simp only [List.flatMap_cons, List.append_assoc]
      exact List.Perm.append_left _ ih

/-- every member carries its group's key -/
def Keyed (key : Nat × Out T → T × Int) (g : Groups T) : Prop := ∀ kx ∈ g, kx.2 ≠ [] ∧ ∀ x ∈ kx.2, key x = kx.1

theorem groupAdd_keyed (key : Nat × Out T → T × Int) (x : Nat × Out T) (g : Groups T) (hg : Keyed key g) :
    Keyed key (groupAdd (key x) x g) := by
  induction g with
  | nil =>
    intro kx h
    simp only [groupAdd, List.mem_singleton] at h
    subst h
    simp
  | cons kx g ih =>
    obtain ⟨k, xs⟩ := kx
    have h1 := hg (k, xs) List.mem_cons_self
    have h2 : Keyed key g := fun kx h => hg kx (List.mem_cons_of_mem _ h)
    rw [groupAdd]
    split
    · rename_i hk
      intro kx h
      rcases List.mem_cons.1 h with rfl | h
      · refine ⟨by simp, ?_⟩
        intro y hy
        rcases List.mem_append.1 hy with hy | hy
        · exact h1.2 y hy
        · rw [List.mem_singleton] at hy
          rw [hy]; exact hk.symm
      · exact h2 kx h
    · intro kx h
      rcases List.mem_cons.1 h with rfl | h
      · exact h1
      · exact ih h2 kx h

/-- key used by the loop -/
def keyOf (x : Nat × Out T) : T × Int := (x.2.target, x.2.limit.getD 0)

theorem partition_spec (env : Env T V) (xs : List (Nat × Out T)) (acc : Groups T × Groups T)
    (h1 : Keyed keyOf acc.1) (h2 : Keyed keyOf acc.2) :
    (∀ g, xs.foldlM (partStep env) acc = .ok g →
        (∀ x ∈ xs, ¬ BadSelf env x.2) ∧ Keyed keyOf g.1 ∧ Keyed keyOf g.2 ∧
        (g.1.flatMap Prod.snd).Perm (acc.1.flatMap Prod.snd ++ xs.filter fun x => env.isSelf x.2.target) ∧
        (g.2.flatMap Prod.snd).Perm (acc.2.flatMap Prod.snd ++ xs.filter fun x => !env.isSelf x.2.target)) ∧
    (∀ e, xs.foldlM (partStep env) acc = .error e → e = .assertion ∧ ∃ x ∈ xs, BadSelf env x.2) := by
  induction xs generalizing acc with
  | nil =>
    constructor
    · intro g hg
      have : acc = g := by simpa [pure, Except.pure] using hg
      subst this
      simp [h1, h2]
    · intro e he
      simp [pure, Except.pure] at he
  | cons x xs ih =>
    rw [List.foldlM_cons]
    by_cases hs : env.isSelf x.2.target = true
    · cases hl : x.2.limit with
      | none =>
        have hst : partStep env acc x = .error .assertion := by
          rw [partStep, if_pos hs]; simp [hl]
        rw [hst]
        constructor
        · intro g hg; cases hg
        · intro e he
          cases he
          exact ⟨rfl, x, List.mem_cons_self, hs, Or.inl hl⟩
      | some l =>
        by_cases hl0 : l = 0
        · have hst : partStep env acc x = .error .assertion := by
            rw [partStep, if_pos hs]; simp [hl, hl0]
          rw [hst]
          constructor
          · intro g hg; cases hg
          · intro e he
            cases he
            exact ⟨rfl, x, List.mem_cons_self, hs, Or.inr (by rw [hl, hl0])⟩
        · have hkey : keyOf x = (x.2.target, l) := by simp [keyOf, hl]
          have hst : partStep env acc x = .ok (groupAdd (x.2.target, l) x acc.1, acc.2) := by
            rw [partStep, if_pos hs]; simp [hl, hl0]
          rw [hst, ← hkey]
          have := ih (groupAdd (keyOf x) x acc.1, acc.2) (groupAdd_keyed keyOf x _ h1) h2
          constructor
          · intro g hg
            obtain ⟨a1, a2, a3, a4, a5⟩ := this.1 g hg
            refine ⟨?_, a2, a3, ?_, ?_⟩
            · intro y hy
              rcases List.mem_cons.1 hy with rfl | hy
              · rintro ⟨-, h | h⟩
                · rw [hl] at h; cases h
                · rw [hl] at h; injection h with h; exact hl0 h
              · exact a1 y hy
            · refine a4.trans ?_
              rw [List.filter_cons, if_pos hs]
              refine ((groupAdd_flat (keyOf x) x acc.1).append_right _).trans ?_
              simp
            · rw [List.filter_cons, if_neg (by simp [hs])]
              exact a5
          · intro e he
            obtain ⟨b1, y, hy, hb⟩ := this.2 e he
            exact ⟨b1, y, List.mem_cons_of_mem _ hy, hb⟩
    · have hsf : env.isSelf x.2.target = false := by simpa using hs
      have hst : partStep env acc x = .ok (acc.1, groupAdd (keyOf x) x acc.2) := by
        rw [partStep, if_neg hs]; rfl
      rw [hst]
      have := ih (acc.1, groupAdd (keyOf x) x acc.2) h1 (groupAdd_keyed keyOf x _ h2)
      constructor
      · intro g hg
        obtain ⟨a1, a2, a3, a4, a5⟩ := this.1 g hg
        refine ⟨?_, a2, a3, ?_, ?_⟩
        · intro y hy
          rcases List.mem_cons.1 hy with rfl | hy
          · rintro ⟨h, -⟩
            exact hs h
          · exact a1 y hy
        · rw [List.filter_cons, if_neg hs]
          exact a4
        · refine a5.trans ?_
          rw [List.filter_cons, if_pos (by simp [hsf])]
          refine ((groupAdd_flat (keyOf x) x acc.2).append_right _).trans ?_
          simp
      · intro e he
        obtain ⟨b1, y, hy, hb⟩ := this.2 e he
        exact ⟨b1, y, List.mem_cons_of_mem _ hy, hb⟩

/-! ## writing results -/

/-- `results[i] = e` for a list of writes -/
def setAll {E : Type} (ws : List (Nat × E)) (res : List E) : List E := ws.foldl (fun res w => res.set w.1 w.2) res

theorem setAll_length {E : Type} (ws : List (Nat × E)) (res : List E) : (setAll ws res).length = res.length := by
  induction ws generalizing res with
  | nil => rfl
  | cons w ws ih => rw [setAll, List.foldl_cons]; exact (ih _).trans (by simp)

theorem setAll_skip {E : Type} (ws : List (Nat × E)) (res : List E) (i : Nat) (h : i ∉ ws.map Prod.fst) :
    (setAll ws res)[i]? = res[i]? := by
  induction ws generalizing res with
  | nil => rfl
  | cons w ws ih =>
    rw [List.map_cons, List.mem_cons, not_or] at h
    rw [setAll, List.foldl_cons]
    refine (ih _ h.2).trans ?_
    rw [List.getElem?_set_ne (Ne.symm h.1)]

theorem setAll_mem {E : Type} (ws : List (Nat × E)) (res : List E) (i : Nat) (e : E)
    (hnd : (ws.map Prod.fst).Nodup) (h : (i, e) ∈ ws) (hi : i < res.length) :
    (setAll ws res)[i]? = some e := by
  induction ws generalizing res with
  | nil => cases h
  | cons w ws ih =>
    rw [List.map_cons, List.nodup_cons] at hnd
    rw [setAll, List.foldl_cons]
    rcases List.mem_cons.1 h with h | h
    · subst h
      refine (setAll_skip ws _ _ hnd.1).trans ?_
      simp [List.getElem?_set_self hi]
    · exact ih _ hnd.2 h (by simpa using hi)

theorem setAll_append {E : Type} (ws ws' : List (Nat × E)) (res : List E) :
    setAll (ws ++ ws') res = setAll ws' (setAll ws res) := by
  rw [setAll, List.foldl_append]; rfl

/-- writes of a group -/
def groupWrites (arr : T × Int → Nat → List V) (g : Groups T) : List (Nat × Option (String × List V)) :=
  g.flatMap fun kx => kx.2.map fun x => (x.1, some (x.2.name, arr kx.1 x.2.kernel))

omit [DecidableEq T] in
theorem writeGroup_eq (arr : Nat → List V) (res : Results V) (xs : List (Nat × Out T)) :
    writeGroup arr res xs = setAll (xs.map fun x => (x.1, some (x.2.name, arr x.2.kernel))) res := by
  rw [writeGroup, setAll, List.foldl_map]

omit [DecidableEq T] in
theorem groupFold_eq (arr : T × Int → Nat → List V) (g : Groups T) (res : Results V) :
    g.foldl (fun res kx => writeGroup (arr kx.1) res kx.2) res = setAll (groupWrites arr g) res := by
  induction g generalizing res with
  | nil => rfl
  | cons kx g ih =>
    rw [List.foldl_cons, ih, writeGroup_eq, groupWrites, groupWrites, List.flatMap_cons, setAll_append]

omit [DecidableEq T] in
/-- under the keying invariant the writes are those of the members with their own key -/
theorem groupWrites_eq (arr : T × Int → Nat → List V) (g : Groups T) (hg : Keyed keyOf g) :
    groupWrites arr g
      = (g.flatMap Prod.snd).map fun x => (x.1, some (x.2.name, arr (keyOf x) x.2.kernel)) := by
  rw [groupWrites, List.map_flatMap]
  have : ∀ (g : Groups T), Keyed keyOf g →
      (g.flatMap fun kx => kx.2.map fun x => (x.1, some (x.2.name, arr kx.1 x.2.kernel)))
        = g.flatMap fun kx => kx.2.map fun x => (x.1, some (x.2.name, arr (keyOf x) x.2.kernel)) := by
    intro g
    induction g with
    | nil => intro _; rfl
    | cons kx g ih =>
      intro hg
      rw [List.flatMap_cons, List.flatMap_cons, ih (fun kx h => hg kx (List.mem_cons_of_mem _ h))]
      congr 1
      apply List.map_congr_left
      intro x hx
      rw [(hg kx List.mem_cons_self).2 x hx]
  exact this g hg

/-! ## other targets -/

/-- the group is refused -/
def badGroup (env : Env T V) (key : T × Int) : Prop :=
  key.2.natAbs = 1 ∧ scanCount hasCenter (ttc env key) < env.ndofs key.1

omit [DecidableEq T] in
theorem runOther_spec (σ : Sched) (env : Env T V) (g : Groups T) (res : Results V) :
    (∀ r, runOther σ env g res = .ok r → (∀ kx ∈ g, ¬ badGroup env kx.1) ∧
      r = setAll (groupWrites (otherArr σ env) g) res) ∧
    (∀ e, runOther σ env g res = .error e → e = .noCenter ∧ ∃ kx ∈ g, badGroup env kx.1) := by
  induction g generalizing res with
  | nil =>
    constructor
    · intro r hr
      have : res = r := by simpa [runOther, pure, Except.pure] using hr
      subst this
      exact ⟨by simp, rfl⟩
    · intro e he
      simp [runOther, pure, Except.pure] at he
  | cons kx g ih =>
    rw [runOther, List.foldlM_cons, otherStep]
    by_cases hb : kx.1.2.natAbs = 1 ∧ scanCount hasCenter (ttc env kx.1) < env.ndofs kx.1.1
    · rw [if_pos hb]
      constructor
      · intro r hr; cases hr
      · intro e he
        cases he
        exact ⟨rfl, kx, List.mem_cons_self, hb⟩
    · rw [if_neg hb]
      have := ih (writeGroup (otherArr σ env kx.1) res kx.2)
      constructor
      · intro r hr
        obtain ⟨a, b⟩ := this.1 r hr
        constructor
        · intro kx' h
          rcases List.mem_cons.1 h with rfl | h
          · exact hb
          · exact a kx' h
        · rw [b, writeGroup_eq, groupWrites, groupWrites, List.flatMap_cons, setAll_append]
      · intro e he
        obtain ⟨a, kx', h, b⟩ := this.2 e he
        exact ⟨a, kx', List.mem_cons_of_mem _ h, b⟩

omit [DecidableEq T] in
theorem qbxNumbers_eq (σ : Sched) (hσ : ∀ {α : Type} (l : List α), (σ l).Perm l) (env : Env T V)
    (key : T × Int) : qbxNumbers σ env key = flagged hasCenter 0 (ttc env key) :=
  scan_spec hasCenter _ _ (hσ _)

omit [DecidableEq T] in
theorem ttc_centerOf (env : Env T V) (o : Out T) (i : Nat) (c : Nat) :
    centerOf env o i = some c ↔ (ttc env (o.target, o.limit.getD 0))[i]? = some (c : Int) := by
  rw [centerOf, ttc, List.getElem?_drop]
  cases (env.userTtc o.target (o.limit.getD 0))[env.ncenters + i]? with
  | none => simp
  | some z =>
    simp only [Option.some.injEq]
    split
    · rename_i h; constructor
      · intro h'; cases h'
      · intro h'; omega
    · rename_i h
      rw [Option.some.injEq]
      omega

omit [DecidableEq T] in
/-- the final array of an other target -/
theorem otherArr_eq (σ : Sched) (hσ : ∀ {α : Type} (l : List α), (σ l).Perm l) (env : Env T V)
    (o : Out T) (ho : env.isSelf o.target = false) :
    otherArr σ env (o.target, o.limit.getD 0) o.kernel
      = (List.range (env.ndofs o.target)).map (valueAt env o) := by
  rw [otherArr]
  simp only
  rw [qbxNumbers_eq σ hσ]
  have hst : subsetStores env (o.target, o.limit.getD 0) (flagged hasCenter 0 (ttc env (o.target, o.limit.getD 0)))
        (centerNumbers env (o.target, o.limit.getD 0) (flagged hasCenter 0 (ttc env (o.target, o.limit.getD 0))))
        o.kernel
      = (flagged hasCenter 0 (ttc env (o.target, o.limit.getD 0))).map fun i =>
          (i, env.subsetVal o.target (((ttc env (o.target, o.limit.getD 0)).getD i 0).toNat) o.kernel i) := by
    rw [subsetStores, centerNumbers]
    generalize flagged hasCenter 0 (ttc env (o.target, o.limit.getD 0)) = nums
    induction nums with
    | nil => rfl
    | cons a nums ih => rw [List.map_cons, List.zip_cons_cons, List.map_cons, List.map_cons, ih]
  have hkeys : (subsetStores env (o.target, o.limit.getD 0)
        (flagged hasCenter 0 (ttc env (o.target, o.limit.getD 0)))
        (centerNumbers env (o.target, o.limit.getD 0) (flagged hasCenter 0 (ttc env (o.target, o.limit.getD 0))))
        o.kernel).map Prod.fst = flagged hasCenter 0 (ttc env (o.target, o.limit.getD 0)) := by
    rw [hst, List.map_map]
    exact List.map_id _
  have hnd : ((subsetStores env (o.target, o.limit.getD 0)
        (flagged hasCenter 0 (ttc env (o.target, o.limit.getD 0)))
        (centerNumbers env (o.target, o.limit.getD 0) (flagged hasCenter 0 (ttc env (o.target, o.limit.getD 0))))
        o.kernel).map Prod.fst).Nodup := by
    rw [hkeys]
    exact (flagged_sorted hasCenter 0 _).imp (fun h => Nat.ne_of_lt h)
  rw [← List.filterMap_eq_map]
  apply List.filterMap_congr
  intro i _
  rw [runStores_perm _ _ _ hnd (hσ _)]
  simp only [Function.comp]
  rw [valueAt, ho]
  simp only [Bool.false_eq_true, if_false]
  cases hc : centerOf env o i with
  | some c =>
    have h1 := (ttc_centerOf env o i c).1 hc
    rw [runStores_mem _ _ i (env.subsetVal o.target c o.kernel i) hnd]
    rw [hst, List.mem_map]
    refine ⟨i, ?_, ?_⟩
    · rw [mem_flagged]
      exact ⟨Nat.zero_le _, c, by simpa using h1, by simp [hasCenter]⟩
    · simp [List.getD, h1]
  | none =>
    rw [runStores_skip]
    rw [hkeys, mem_flagged]
    rintro ⟨-, x, h1, h2⟩
    have h3 : 0 ≤ x := by simpa [hasCenter] using h2
    have : centerOf env o i = some x.toNat := by
      rw [ttc_centerOf]
      rw [Int.toNat_of_nonneg h3]
      simpa using h1
    rw [hc] at this
    cases this

omit [DecidableEq T] in
/-- the count is short exactly if some target has no center -/
theorem count_short (env : Env T V) (o : Out T)
    (hlen : (env.userTtc o.target (o.limit.getD 0)).length = env.ncenters + env.ndofs o.target) :
    scanCount hasCenter (ttc env (o.target, o.limit.getD 0)) < env.ndofs o.target
      ↔ ∃ i < env.ndofs o.target, centerOf env o i = none := by
  have hl : (ttc env (o.target, o.limit.getD 0)).length = env.ndofs o.target := by
    rw [ttc, List.length_drop]; simp only; omega
  have hc : ∀ i, i < env.ndofs o.target → (centerOf env o i = none ↔
      ∃ x, (ttc env (o.target, o.limit.getD 0))[i]? = some x ∧ hasCenter x = false) := by
    intro i hi
    have hx : (ttc env (o.target, o.limit.getD 0))[i]?
        = some ((ttc env (o.target, o.limit.getD 0))[i]'(by omega)) := List.getElem?_eq_getElem _
    constructor
    · intro h
      refine ⟨_, hx, ?_⟩
      by_contra hh
      have h3 : 0 ≤ (ttc env (o.target, o.limit.getD 0))[i]'(by omega) := by simpa [hasCenter] using hh
      have : centerOf env o i = some ((ttc env (o.target, o.limit.getD 0))[i]'(by omega)).toNat := by
        rw [ttc_centerOf, Int.toNat_of_nonneg h3, hx]
      rw [h] at this
      cases this
    · rintro ⟨x, h1, h2⟩
      cases h : centerOf env o i with
      | none => rfl
      | some c =>
        rw [ttc_centerOf, h1] at h
        injection h with h
        subst h
        simp [hasCenter] at h2
  rw [scanCount]
  constructor
  · intro h
    by_contra hh
    have hall : ∀ x ∈ ttc env (o.target, o.limit.getD 0), hasCenter x = true := by
      intro x hx
      obtain ⟨i, hi⟩ := List.mem_iff_getElem?.1 hx
      have hil : i < env.ndofs o.target := by
        rw [← hl]; exact (List.getElem?_eq_some_iff.1 hi).1
      by_contra hf
      exact hh ⟨i, hil, (hc i hil).2 ⟨x, hi, by simpa using hf⟩⟩
    rw [List.countP_eq_length.2 hall] at h
    omega
  · rintro ⟨i, hi, h⟩
    obtain ⟨x, h1, h2⟩ := (hc i hi).1 h
    rw [← hl]
    refine Nat.lt_of_le_of_ne List.countP_le_length ?_
    intro heq
    have := List.countP_eq_length.1 heq x (List.mem_of_getElem? h1)
    rw [this] at h2
    cases h2

/-! # C40 -/

/-- associations have one entry per center followed by one per target -/
def Sized (env : Env T V) (outs : List (Out T)) : Prop :=
  ∀ o ∈ outs, (env.userTtc o.target (o.limit.getD 0)).length = env.ncenters + env.ndofs o.target

omit [DecidableEq T] in
theorem indexed_mem (outs : List (Out T)) (x : Nat × Out T) :
    x ∈ (outs.zipIdx).map (fun p => (p.2, p.1)) ↔ outs[x.1]? = some x.2 := by
  rw [List.mem_map]
  constructor
  · rintro ⟨p, hp, rfl⟩
    rwa [List.mem_zipIdx_iff_getElem?] at hp
  · intro h
    exact ⟨(x.2, x.1), by rw [List.mem_zipIdx_iff_getElem?]; exact h, rfl⟩

omit [DecidableEq T] in
theorem badGroup_iff (env : Env T V) (x : Nat × Out T) (hs : env.isSelf x.2.target = false)
    (hlen : (env.userTtc x.2.target (x.2.limit.getD 0)).length = env.ncenters + env.ndofs x.2.target) :
    badGroup env (keyOf x) ↔ Unassociated env x.2 := by
  rw [badGroup, keyOf]
  simp only
  rw [count_short env x.2 hlen, Unassociated]
  constructor
  · rintro ⟨h1, h2⟩
    refine ⟨hs, ?_, h2⟩
    cases hl : x.2.limit with
    | none => rw [hl] at h1; simp at h1
    | some l =>
      rw [hl, Option.getD_some] at h1
      rcases Int.natAbs_eq l with h | h
      · left; rw [h, h1]; rfl
      · right; rw [h, h1]; rfl
  · rintro ⟨-, h1, h2⟩
    refine ⟨?_, h2⟩
    rcases h1 with h1 | h1 <;> rw [h1] <;> rfl

/-- C40: if direct evaluation succeeds, entry `i` of the result is output `i`'s name and the array of
its values: on self targets the expansion on the requested side at every node, on other targets the
value of the associated center's expansion, or plain quadrature where there is none; and it succeeds
only if no output demanded a center some target lacks -/
theorem C40_direct_values (σ : Sched) (hσ : ∀ {α : Type} (l : List α), (σ l).Perm l) (env : Env T V)
    (outs : List (Out T)) (hlen : Sized env outs) (r : Results V) (hr : exec σ env outs = .ok r) :
    r = outs.map (fun o => some (o.name, (List.range (env.ndofs o.target)).map (valueAt env o))) ∧
    (∀ o ∈ outs, ¬ BadSelf env o) ∧ (∀ o ∈ outs, ¬ Unassociated env o) := by
  rw [exec] at hr
  set xs := (outs.zipIdx).map (fun p => (p.2, p.1)) with hxs
  obtain ⟨hp1, hp2⟩ := partition_spec env xs ([], []) (by intro _ h; cases h) (by intro _ h; cases h)
  cases hg : partition env xs with
  | error e => rw [hg] at hr; cases hr
  | ok g =>
    rw [hg] at hr
    obtain ⟨a1, a2, a3, a4, a5⟩ := hp1 g hg
    simp only [List.flatMap_nil, List.nil_append] at a4 a5
    obtain ⟨b1, -⟩ := runOther_spec σ env g.2 (runSelf env g.1 (List.replicate outs.length none))
    obtain ⟨c1, c2⟩ := b1 r hr
    rw [runSelf, groupFold_eq, ← setAll_append, groupWrites_eq _ _ a2, groupWrites_eq _ _ a3] at c2
    have hmem1 : ∀ x ∈ g.1.flatMap Prod.snd, env.isSelf x.2.target = true := by
      intro x hx
      have := a4.mem_iff.1 hx
      exact (List.mem_filter.1 this).2
    have hmem2 : ∀ x ∈ g.2.flatMap Prod.snd, env.isSelf x.2.target = false := by
      intro x hx
      have := a5.mem_iff.1 hx
      simpa using (List.mem_filter.1 this).2
    have hv1 : (g.1.flatMap Prod.snd).map (fun x => (x.1, some (x.2.name, selfArr env (keyOf x) x.2.kernel)))
        = (g.1.flatMap Prod.snd).map (fun x => (x.1, some (x.2.name,
            (List.range (env.ndofs x.2.target)).map (valueAt env x.2)))) := by
      apply List.map_congr_left
      intro x hx
      rw [selfArr]
      have hs := hmem1 x hx
      simp only [keyOf]
      congr 3
      apply List.map_congr_left
      intro i _
      rw [valueAt, if_pos hs]
    have hv2 : (g.2.flatMap Prod.snd).map (fun x => (x.1, some (x.2.name, otherArr σ env (keyOf x) x.2.kernel)))
        = (g.2.flatMap Prod.snd).map (fun x => (x.1, some (x.2.name,
            (List.range (env.ndofs x.2.target)).map (valueAt env x.2)))) := by
      apply List.map_congr_left
      intro x hx
      rw [keyOf, otherArr_eq σ hσ env x.2 (hmem2 x hx)]
    rw [hv1, hv2, ← List.map_append] at c2
    have hall : (g.1.flatMap Prod.snd ++ g.2.flatMap Prod.snd).Perm xs := by
      refine (a4.append a5).trans ?_
      exact List.filter_append_perm _ _
    have hkeys : ((g.1.flatMap Prod.snd ++ g.2.flatMap Prod.snd).map (fun x => (x.1, some (x.2.name,
            (List.range (env.ndofs x.2.target)).map (valueAt env x.2))))).map Prod.fst
          |>.Nodup := by
      rw [List.map_map]
      refine (hall.map _).nodup_iff.2 ?_
      rw [hxs, List.map_map]
      have : ((Prod.fst ∘ fun x : Nat × Out T => (x.1, some (x.2.name,
            (List.range (env.ndofs x.2.target)).map (valueAt env x.2)))) ∘ fun p : Out T × Nat => (p.2, p.1))
          = Prod.snd := rfl
      rw [this, List.zipIdx_map_snd]
      exact List.nodup_range'
    refine ⟨?_, ?_, ?_⟩
    · apply List.ext_getElem?
      intro i
      by_cases hi : i < outs.length
      · rw [c2, setAll_mem _ _ i (some ((outs[i]).name,
            (List.range (env.ndofs (outs[i]).target)).map (valueAt env outs[i]))) hkeys]
        · simp [List.getElem?_eq_getElem hi]
        · rw [List.mem_map]
          refine ⟨(i, outs[i]), ?_, rfl⟩
          rw [hall.mem_iff, indexed_mem]
          exact List.getElem?_eq_getElem hi
        · simpa using hi
      · have h1 : r.length = outs.length := by
          rw [c2, setAll_length, List.length_replicate]
        rw [List.getElem?_eq_none (by omega), List.getElem?_eq_none (by simp; omega)]
    · intro o ho
      obtain ⟨i, hi⟩ := List.mem_iff_getElem?.1 ho
      exact a1 (i, o) ((indexed_mem outs (i, o)).2 hi)
    · intro o ho hu
      obtain ⟨i, hi⟩ := List.mem_iff_getElem?.1 ho
      have hx : (i, o) ∈ xs := (indexed_mem outs (i, o)).2 hi
      have hm : (i, o) ∈ g.2.flatMap Prod.snd := by
        rw [a5.mem_iff, List.mem_filter]
        exact ⟨hx, by simp [hu.1]⟩
      obtain ⟨kx, hkx, hin⟩ := List.mem_flatMap.1 hm
      have hk := (a3 kx hkx).2 _ hin
      refine c1 kx hkx ?_
      rw [← hk]
      exact (badGroup_iff env (i, o) hu.1 (hlen o ho)).2 hu

/-- C40: the errors.  A self target without a side trips an assertion; otherwise a ±1 request with an
unassociated target raises `RuntimeError`; otherwise evaluation succeeds -/
theorem C40_direct_errors (σ : Sched) (env : Env T V)
    (outs : List (Out T)) (hlen : Sized env outs) :
    (∀ e, exec σ env outs = .error e →
      (e = .assertion ∧ ∃ o ∈ outs, BadSelf env o) ∨
      (e = .noCenter ∧ (∀ o ∈ outs, ¬ BadSelf env o) ∧ ∃ o ∈ outs, Unassociated env o)) := by
  intro e he
  rw [exec] at he
  set xs := (outs.zipIdx).map (fun p => (p.2, p.1)) with hxs
  obtain ⟨hp1, hp2⟩ := partition_spec env xs ([], []) (by intro _ h; cases h) (by intro _ h; cases h)
  cases hg : partition env xs with
  | error e' =>
    rw [hg] at he
    cases he
    obtain ⟨h1, x, hx, hb⟩ := hp2 _ hg
    exact Or.inl ⟨h1, x.2, List.mem_of_getElem? ((indexed_mem outs x).1 hx), hb⟩
  | ok g =>
    rw [hg] at he
    obtain ⟨a1, a2, a3, a4, a5⟩ := hp1 g hg
    simp only [List.flatMap_nil, List.nil_append] at a4 a5
    obtain ⟨-, b2⟩ := runOther_spec σ env g.2 (runSelf env g.1 (List.replicate outs.length none))
    obtain ⟨c1, kx, hkx, hb⟩ := b2 e he
    refine Or.inr ⟨c1, ?_, ?_⟩
    · intro o ho
      obtain ⟨i, hi⟩ := List.mem_iff_getElem?.1 ho
      exact a1 (i, o) ((indexed_mem outs (i, o)).2 hi)
    · obtain ⟨hne, hk⟩ := a3 kx hkx
      obtain ⟨x, hx⟩ := List.exists_mem_of_ne_nil _ hne
      have hm : x ∈ g.2.flatMap Prod.snd := List.mem_flatMap.2 ⟨kx, hkx, hx⟩
      rw [a5.mem_iff, List.mem_filter] at hm
      have ho : x.2 ∈ outs := List.mem_of_getElem? ((indexed_mem outs x).1 hm.1)
      have hs : env.isSelf x.2.target = false := by simpa using hm.2
      refine ⟨x.2, ho, ?_⟩
      rw [← hk x hx] at hb
      exact (badGroup_iff env x hs (hlen _ ho)).1 hb

end

/-! ## an instance -/

/-- one source (target 0 is the source itself), target 1 has three points, the middle one without a
center -/
def exEnv : Env Nat String where
  isSelf t := t == 0
  ndofs t := if t == 0 then 2 else 3
  selfVal t s k i := s!"self{t},{s},{k},{i}"
  p2p t k i := s!"p2p{t},{k},{i}"
  ncenters := 2
  userTtc t _ := if t == 0 then [-1, -1, 0, 1] else [-1, -1, 1, -1, 0]
  subsetVal t c k i := s!"qbx{t},{c},{k},{i}"

def exOuts : List (Out Nat) := [⟨"a", 1, none, 0⟩, ⟨"b", 0, some 1, 0⟩, ⟨"c", 1, some 2, 1⟩, ⟨"d", 1, none, 1⟩]

example : Sized exEnv exOuts := by unfold Sized; decide +kernel

example : exec (fun l => l.reverse) exEnv exOuts = .ok [
    some ("a", ["qbx1,1,0,0", "p2p1,0,1", "qbx1,0,0,2"]),
    some ("b", ["self0,1,0,0", "self0,1,0,1"]),
    some ("c", ["qbx1,1,1,0", "p2p1,1,1", "qbx1,0,1,2"]),
    some ("d", ["qbx1,1,1,0", "p2p1,1,1", "qbx1,0,1,2"])] := by
  rfl

example : exec (fun l => l) exEnv [⟨"a", 1, some 1, 0⟩] = .error .noCenter := by rfl
example : exec (fun l => l) exEnv [⟨"a", 0, none, 0⟩] = .error .assertion := by rfl

end Verif.Direct
