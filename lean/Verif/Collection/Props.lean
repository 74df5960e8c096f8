import Verif.Collection.CacheProps

/-!
# C19, C20, C21: statements

A program is any list of operations (`Op`) run from the empty heap; every theorem is about
every world such a program can reach and every environment, i.e. every behaviour of the
refinement code.
-/

namespace Verif.Coll

open Verif.DofDesc (Stage Gran)

/-- worlds programs can reach; mappings have unique keys -/
def Reachable (e : Env) (w : World) : Prop :=
  ∃ os : List Op, (∀ o ∈ os, o.Ok) ∧ w = run e World.init os

theorem Reachable.inv {e : Env} {w : World} (h : Reachable e w) : w.Inv e := by
  obtain ⟨os, ho, rfl⟩ := h
  exact (run_spec e os _ (init_inv e) ho).1

/-- the discretization `get_discretization` returns in world `w` -/
def Returns (e : Env) (w : World) (i : Nat) (geo : GeoId) (s : Option Stage) (d : Nat) : Prop :=
  (step e w (.get i geo s)).1 = .ok (.discr d)

theorem get_of_answer {e : Env} {w : World} {i : Nat} {c : Coll} {geo s d}
    (h : w.heap[i]? = some c) (ha : answer e c geo s = some d) :
    step e w (.get i geo s) = (.ok (.discr d), w) := by
  simp only [step, h, getDiscr_of_answer e c w.calls geo s d ha]
  obtain ⟨hl, hc⟩ := List.getElem?_eq_some_iff.1 h
  congr
  rw [← hc]
  exact List.set_getElem_self hl

theorem returns_answer {e : Env} {w : World} (hw : w.Inv e) {i geo s d}
    (h : Returns e w i geo s d) :
    ∃ c, (step e w (.get i geo s)).2.heap[i]? = some c ∧ answer e c geo s = some d := by
  unfold Returns at h
  simp only [step] at h ⊢
  cases hc : w.heap[i]? with
  | none => rw [hc] at h; cases h
  | some c =>
    rw [hc] at h
    dsimp only at h ⊢
    obtain ⟨_, _, _, ok⟩ := getDiscr_spec e c (hw c (mem_heap hc)) w.calls geo s
    generalize getDiscr e c w.calls geo s = r at h ok
    obtain ⟨o, c', n'⟩ := r
    cases o with
    | error x => cases h
    | ok d' =>
      simp only [Except.ok.injEq, Res.discr.injEq] at h
      subst h
      obtain ⟨hl, _⟩ := List.getElem?_eq_some_iff.1 hc
      exact ⟨c', by simp [hl], ok d' rfl⟩

/-- C19: whatever a program did before and does between (with any collection), asking the
same collection again for the same geometry and stage returns the same object, and doing
so changes nothing, in particular runs no refinement. -/
theorem C19_stable (e : Env) (w : World) (hw : Reachable e w) (i : Nat) (geo : GeoId)
    (s : Option Stage) (d : Nat) (h : Returns e w i geo s d) (os : List Op)
    (ho : ∀ o ∈ os, o.Ok) :
    step e (run e (step e w (.get i geo s)).2 os) (.get i geo s) =
      (.ok (.discr d), run e (step e w (.get i geo s)).2 os) := by
  obtain ⟨c, hc, ha⟩ := returns_answer hw.inv h
  have h1 := step_spec e w hw.inv (.get i geo s) trivial
  obtain ⟨_, hx⟩ := run_spec e os _ h1.1 ho
  obtain ⟨c', hc', he⟩ := hx i c hc
  exact get_of_answer hc' (answer_mono he ha)

/-- C19: no stage means stage 1. -/
theorem C19_none (e : Env) (w : World) (i : Nat) (geo : GeoId) :
    step e w (.get i geo none) = step e w (.get i geo (some .stage1)) := rfl

/-- C19: the discretizations of two stages of one source are linked: a request for a
later stage never changes an earlier one, and conversely. -/
theorem C19_other_requests (e : Env) (w : World) (hw : Reachable e w) (i : Nat) (geo geo' : GeoId)
    (s s' : Option Stage) (d : Nat) (h : Returns e w i geo s d) :
    Returns e (step e (step e w (.get i geo s)).2 (.get i geo' s')).2 i geo s d := by
  have := C19_stable e w hw i geo s d h [.get i geo' s'] (by simp [Op.Ok])
  unfold Returns
  simp only [run] at this
  rw [this]

theorem connTail_err (e : Env) (c : Coll) (hc : c.Inv e) (lpot : Geo) (fd : Nat) (f t : DDesc)
    (hl : lookupD c.places f.geo = some lpot)
    (ht : ∀ g, lookupD c.places t.geo = some g → g.kind = .qbx → ∀ s, t.stage = some s →
      (c.discr t.geo s).isSome) (x : GErr) (h : connTail c lpot fd f t = .error x) :
    x = .value ∧ (f.geo ≠ t.geo ∨ f.gran ≠ .node ∨ t.gran ≠ .node ∨
      (f.stage ≠ t.stage ∧ (lpot.kind ≠ .qbx ∨ t.stage ≠ some .quadStage2))) := by
  unfold connTail at h
  by_cases h1 : f.geo ≠ t.geo
  · rw [if_pos h1] at h; cases h; exact ⟨rfl, Or.inl h1⟩
  rw [if_neg h1] at h
  have h1 : f.geo = t.geo := not_not.1 h1
  by_cases h2 : f.gran ≠ .node
  · rw [if_pos h2] at h; cases h; exact ⟨rfl, Or.inr (Or.inl h2)⟩
  rw [if_neg h2] at h
  have h2 : f.gran = .node := not_not.1 h2
  have hgran : ∀ xs : List Conn, (if f.gran ≠ t.gran then
        match t.gran with
        | .node => Except.ok (fd, xs)
        | .center => .error GErr.value
        | .element => .error GErr.value
      else .ok (fd, xs)) = .error x → x = .value ∧ t.gran ≠ .node := by
    intro xs h'
    rw [h2] at h'
    cases hg : t.gran <;> rw [hg] at h' <;> simp at h' <;> simp [h']
  by_cases h3 : f.stage = t.stage
  · rw [if_pos h3] at h
    obtain ⟨a, b⟩ := hgran _ h
    exact ⟨a, Or.inr (Or.inr (Or.inl b))⟩
  rw [if_neg h3] at h
  by_cases h4 : lpot.kind ≠ .qbx
  · rw [if_pos h4] at h; cases h; exact ⟨rfl, Or.inr (Or.inr (Or.inr ⟨h3, Or.inl h4⟩))⟩
  rw [if_neg h4] at h
  by_cases h5 : t.stage ≠ some .quadStage2
  · rw [if_pos h5] at h; cases h; exact ⟨rfl, Or.inr (Or.inr (Or.inr ⟨h3, Or.inr h5⟩))⟩
  rw [if_neg h5] at h
  have h4 : lpot.kind = .qbx := not_not.1 h4
  have h5 : t.stage = some .quadStage2 := not_not.1 h5
  have hs := ht lpot (h1 ▸ hl) h4 .quadStage2 h5
  obtain ⟨d3, hd3⟩ := Option.isSome_iff_exists.1 hs
  obtain ⟨g, d1, d2, k1, k2, k3, _, _, q1, q2, c1, c2, c3⟩ := connLoop_spec e c hc t.geo d3 hd3
  have : ∃ xs, connLoop c f.geo (stageNameIndex f.stage)
      (stageNameIndex t.stage - stageNameIndex f.stage) = .ok xs := by
    rw [h1, h5]
    cases hf : f.stage with
    | none =>
      exact ⟨[⟨k1, e.dens g, d1⟩, ⟨k2, d1, d2⟩, ⟨k3, d2, d3⟩],
        by simp [stageNameIndex, stageIndex, connLoop, stageOfIndex, c1, c2, c3]⟩
    | some s =>
      cases s with
      | stage1 => exact ⟨[⟨k2, d1, d2⟩, ⟨k3, d2, d3⟩], by simp [stageNameIndex, stageIndex, connLoop, stageOfIndex, c2, c3]⟩
      | stage2 => exact ⟨[⟨k3, d2, d3⟩], by simp [stageNameIndex, stageIndex, connLoop, stageOfIndex, c3]⟩
      | quadStage2 => exact ⟨[], by simp [stageNameIndex, stageIndex, connLoop]⟩
  obtain ⟨xs, hxs⟩ := this
  rw [hxs] at h
  obtain ⟨a, b⟩ := hgran _ h
  exact ⟨a, Or.inr (Or.inr (Or.inl b))⟩

theorem answer_cached {e : Env} {c : Coll} {geo : GeoId} {s : Option Stage} {d : Nat}
    (h : answer e c geo s = some d) :
    ∀ g, lookupD c.places geo = some g → g.kind = .qbx → ∀ s', s = some s' →
      (c.discr geo s').isSome := by
  intro g hg hk s' hs
  subst hs
  simp only [answer, hg, hk, Option.getD_some] at h
  simp [h]

theorem connection_err (e : Env) (c : Coll) (hc : c.Inv e) (n : Nat) (f t : DDesc) (x : GErr)
    (h : (connection e c n f t).1 = .error x) :
    x = .key ∨ x = .type ∨ x = .refine ∨ (x = .value ∧ (f.geo ≠ t.geo ∨ f.gran ≠ .node ∨
      t.gran ≠ .node ∨ (f.stage ≠ t.stage ∧
        ((∀ g, lookupD c.places f.geo = some g → g.kind ≠ .qbx) ∨ t.stage ≠ some .quadStage2)))) := by
  unfold connection at h
  cases hl : lookupD c.places f.geo with
  | none => rw [hl] at h; cases h; exact Or.inl rfl
  | some lpot =>
    rw [hl] at h
    dsimp only at h
    obtain ⟨i1, x1, er1, ok1⟩ := getDiscr_spec e c hc n f.geo f.stage
    generalize getDiscr e c n f.geo f.stage = r1 at h i1 x1 er1 ok1
    obtain ⟨o1, c1, n1⟩ := r1
    cases o1 with
    | error y =>
      dsimp only at h
      cases h
      rcases er1 _ rfl with rfl | rfl | rfl <;> simp
    | ok fd =>
      dsimp only at h i1 x1 er1 ok1
      obtain ⟨i2, x2, er2, ok2⟩ := getDiscr_spec e c1 i1 n1 t.geo t.stage
      generalize getDiscr e c1 n1 t.geo t.stage = r2 at h i2 x2 er2 ok2
      obtain ⟨o2, c2, n2⟩ := r2
      cases o2 with
      | error y =>
        dsimp only at h
        cases h
        rcases er2 _ rfl with rfl | rfl | rfl <;> simp
      | ok td =>
        dsimp only at h i2 x2 ok2
        have hp : lookupD c2.places f.geo = some lpot := by
          rw [x2.places, x1.places]; exact hl
        obtain ⟨a, b⟩ := connTail_err e c2 i2 lpot fd f t hp (answer_cached (ok2 td rfl)) x h
        refine Or.inr (Or.inr (Or.inr ⟨a, ?_⟩))
        rcases b with b | b | b | ⟨b1, b | b⟩
        · exact Or.inl b
        · exact Or.inr (Or.inl b)
        · exact Or.inr (Or.inr (Or.inl b))
        · refine Or.inr (Or.inr (Or.inr ⟨b1, Or.inl ?_⟩))
          intro g hg; cases hg; exact b
        · exact Or.inr (Or.inr (Or.inr ⟨b1, Or.inr b⟩))

/-- C19: in no reachable world can any operation run into the cache's "trying to
overwrite" error (nor does a missing cache entry escape as `KeyError`). -/
theorem C19_no_overwrite (e : Env) (w : World) (hw : Reachable e w) (o : Op) (ho : o.Ok) :
    (step e w o).1 ≠ .error .overwrite ∧ (step e w o).1 ≠ .error .cacheKey := by
  have hi := hw.inv
  have key : ∀ {α : Type} (r : Except GErr α),
      (∀ x, r = .error x → x ≠ .overwrite ∧ x ≠ .cacheKey) →
      r ≠ .error .overwrite ∧ r ≠ .error .cacheKey := by
    intro α r h
    refine ⟨fun hr => (h _ hr).1 rfl, fun hr => (h _ hr).2 rfl⟩
  have hpush : ∀ r : Except GErr Coll, (∀ x, r = .error x → x ≠ .overwrite ∧ x ≠ .cacheKey) →
      ∀ x, (w.push r).1 = .error x → x ≠ .overwrite ∧ x ≠ .cacheKey := by
    intro r h x hx
    cases r with
    | error y => cases hx; exact h _ rfl
    | ok c => cases hx
  have hcopy : ∀ (c : Coll) m x, copyColl e c m = .error x → x ≠ .overwrite ∧ x ≠ .cacheKey := by
    intro c m x hx
    obtain ⟨y, rfl⟩ := (copyColl_eq e c m).2.2 x hx
    simp
  apply key
  intro x hx
  cases o with
  | new a au =>
    refine hpush _ ?_ x hx
    intro y hy
    unfold newColl at hy
    split at hy <;> cases hy
    simp
  | get i geo s =>
    simp only [step] at hx
    cases h : w.heap[i]? with
    | none => rw [h] at hx; cases hx; simp
    | some c =>
      rw [h] at hx
      dsimp only at hx
      obtain ⟨_, _, er, _⟩ := getDiscr_spec e c (hi c (mem_heap h)) w.calls geo s
      generalize getDiscr e c w.calls geo s = r at er hx
      obtain ⟨o1, c1, n1⟩ := r
      cases o1 with
      | error y => cases hx; rcases er _ rfl with rfl | rfl | rfl <;> simp
      | ok d => cases hx
  | conn i f t =>
    simp only [step] at hx
    cases h : w.heap[i]? with
    | none => rw [h] at hx; cases hx; simp
    | some c =>
      rw [h] at hx
      dsimp only at hx
      have er := connection_err e c (hi c (mem_heap h)) w.calls f t
      generalize connection e c w.calls f t = r at er hx
      obtain ⟨o1, c1, n1⟩ := r
      cases o1 with
      | error y => cases hx; rcases er _ rfl with rfl | rfl | rfl | ⟨rfl, _⟩ <;> simp
      | ok d => cases hx
  | copy i =>
    simp only [step] at hx
    cases h : w.heap[i]? with
    | none => rw [h] at hx; cases hx; simp
    | some c => rw [h] at hx; exact hpush _ (hcopy c _) x hx
  | merge i j =>
    simp only [step] at hx
    cases h : w.heap[i]? with
    | none => rw [h] at hx; cases hx; simp
    | some c =>
      cases h' : w.heap[j]? with
      | none => rw [h, h'] at hx; cases hx; simp
      | some d => rw [h, h'] at hx; exact hpush _ (hcopy c _) x hx
  | mergeMap i m =>
    simp only [step] at hx
    cases h : w.heap[i]? with
    | none => rw [h] at hx; cases hx; simp
    | some c => rw [h] at hx; exact hpush _ (hcopy c _) x hx
  | add i m =>
    simp only [step] at hx
    cases h : w.heap[i]? with
    | none => rw [h] at hx; cases hx; simp
    | some c =>
      rw [h] at hx
      refine hpush _ ?_ x hx
      intro y hy
      unfold addGeometry at hy
      cases hk : addChecks c m with
      | error z =>
        rw [hk] at hy; cases hy
        rcases (addChecks_ok c m).2 _ hk with rfl | rfl <;> simp
      | ok u =>
        rw [hk] at hy
        dsimp only at hy
        cases hm : mergeColl e c m with
        | error z => rw [hm] at hy; cases hy; exact hcopy c _ _ hm
        | ok c' => rw [hm] at hy; cases hy
  | refine i s =>
    simp only [step] at hx
    cases h : w.heap[i]? with
    | none => rw [h] at hx; cases hx; simp
    | some c =>
      rw [h] at hx
      dsimp only at hx
      cases hcp : copyColl e c c.places with
      | error z => rw [hcp] at hx; cases hx; exact hcopy c _ _ hcp
      | ok c0 =>
        rw [hcp] at hx
        dsimp only at hx
        obtain ⟨_, _, er⟩ := refineLoop_spec e s c0.places c0
          (copyColl_inv e c c0 _ (hi c (mem_heap h)).keys hcp) w.calls
        generalize refineLoop e s c0.places c0 w.calls = r at er hx
        obtain ⟨o1, c1, n1⟩ := r
        cases o1 with
        | error y => cases hx; rcases er _ rfl with rfl | rfl | rfl <;> simp
        | ok u => cases hx
  | evalCache i k j v =>
    simp only [step] at hx
    cases h : w.heap[i]? with
    | none => rw [h] at hx; cases hx; simp
    | some c => rw [h] at hx; cases hx

/-! ## C20 -/

/-- the collection an operation may work on in place -/
def Op.target : Op → Option Nat
  | .get i _ _ => some i
  | .conn i _ _ => some i
  | .evalCache i _ _ _ => some i
  | _ => none

/-- C20: an operation on one collection leaves every other collection exactly as it was,
and `copy`, `merge`, `add_geometry_to_collection` and `refine_geometry_collection` leave
all existing collections, including their arguments, exactly as they were. -/
theorem C20_isolation (e : Env) (w : World) (o : Op) (j : Nat) (c : Coll)
    (hj : w.heap[j]? = some c) (ho : o.target ≠ some j) : (step e w o).2.heap[j]? = some c := by
  obtain ⟨hl, _⟩ := List.getElem?_eq_some_iff.1 hj
  have hpush : ∀ r : Except GErr Coll, (w.push r).2.heap[j]? = some c := by
    intro r
    cases r with
    | error x => exact hj
    | ok c' => simpa [World.push, List.getElem?_append_left hl] using hj
  have hset : ∀ (i : Nat) (c' : Coll), i ≠ j → (w.heap.set i c')[j]? = some c := by
    intro i c' hij
    rw [List.getElem?_set_ne hij]; exact hj
  cases o with
  | new a au => exact hpush _
  | get i geo s =>
    have hij : i ≠ j := fun h => ho (by rw [h]; rfl)
    simp only [step]
    split
    · exact hj
    · split <;> exact hset i _ hij
  | conn i f t =>
    have hij : i ≠ j := fun h => ho (by rw [h]; rfl)
    simp only [step]
    split
    · exact hj
    · split <;> exact hset i _ hij
  | copy i => simp only [step]; split; exacts [hj, hpush _]
  | merge i k => simp only [step]; split; exacts [hpush _, hj]
  | mergeMap i m => simp only [step]; split; exacts [hj, hpush _]
  | add i m => simp only [step]; split; exacts [hj, hpush _]
  | refine i s =>
    simp only [step]
    split
    · exact hj
    · split
      · exact hj
      · split
        · exact hj
        · simpa [List.getElem?_append_left hl] using hj
  | evalCache i k a v =>
    have hij : i ≠ j := fun h => ho (by rw [h]; rfl)
    simp only [step]
    split
    · exact hj
    · exact hset i _ hij

/-- C20: copying always works, gives a new object with the same places and defaults and
with empty caches. -/
theorem C20_copy (e : Env) (w : World) (hw : Reachable e w) (i : Nat) (c : Coll)
    (hi : w.heap[i]? = some c) :
    ∃ c', step e w (.copy i) = (.ok (.coll w.heap.length), ⟨w.heap ++ [c'], w.calls⟩) ∧
      c'.places = c.places ∧ c'.autoSource = c.autoSource ∧ c'.autoTarget = c.autoTarget ∧
      (∀ g s, c'.discr g s = none) ∧ (∀ g f s, c'.conn g f s = none) ∧
      (∀ k j, c'.extra k j = none) := by
  have hc := hw.inv c (mem_heap hi)
  refine ⟨Coll.fresh ⟨c.places, c.autoSource, c.autoTarget⟩, ?_, rfl, rfl, rfl,
    fun _ _ => rfl, fun _ _ _ => rfl, fun _ _ => rfl⟩
  simp only [step, hi, (copyColl_eq e c c.places).2.1 hc.wf, World.push]

/-- C20: a merged collection has the argument's places and, for names the argument does
not have, the ones of the collection; its caches are empty. -/
theorem C20_merge (e : Env) (w : World) (i : Nat) (c : Coll) (hi : w.heap[i]? = some c)
    (m : List (GeoId × Geo)) (hm : (m.map (·.1)).Nodup) (a : Nat)
    (h : (step e w (.mergeMap i m)).1 = .ok (.coll a)) :
    ∃ c', (step e w (.mergeMap i m)).2.heap[a]? = some c' ∧ w.heap.length = a ∧
      (∀ k, lookupD c'.places k = (lookupD m k).or (lookupD c.places k)) ∧
      c'.autoSource = c.autoSource ∧ c'.autoTarget = c.autoTarget ∧
      (∀ g s, c'.discr g s = none) ∧ (∀ g f s, c'.conn g f s = none) ∧
      (∀ k j, c'.extra k j = none) := by
  simp only [step, hi] at h ⊢
  cases hcp : mergeColl e c m with
  | error x => rw [hcp] at h; cases h
  | ok c' =>
    rw [hcp] at h
    cases h
    have := (copyColl_eq e c _).1 c' hcp
    subst this
    refine ⟨_, List.getElem?_concat_length, rfl, ?_, rfl, rfl, fun _ _ => rfl, fun _ _ _ => rfl,
      fun _ _ => rfl⟩
    intro k
    exact lookupD_foldl c.places m k hm

/-- C20: `merge` with another collection is `merge` with its places. -/
theorem C20_merge_coll (e : Env) (w : World) (i j : Nat) (d : Coll) (hj : w.heap[j]? = some d) :
    step e w (.merge i j) = step e w (.mergeMap i d.places) := by
  simp only [step, hj]
  cases w.heap[i]? <;> rfl

/-- C20: `add_geometry_to_collection` rejects a name that is already there with
`ValueError` (when it is the first offending entry) ... -/
theorem C20_add_existing (e : Env) (w : World) (i : Nat) (c : Coll) (hi : w.heap[i]? = some c)
    (m1 m2 : List (GeoId × Geo)) (k : GeoId) (g : Geo)
    (hm : ∀ p ∈ m1, lookupD c.places p.1 = none ∧ (p.2.kind = .target ∨ p.2.kind = .pointSource))
    (hk : lookupD c.places k ≠ none) :
    step e w (.add i (m1 ++ (k, g) :: m2)) = (.error .value, w) := by
  have : addChecks c (m1 ++ (k, g) :: m2) = .error .value := by
    induction m1 with
    | nil =>
      have : (lookupD c.places k).isSome := by
        cases h : lookupD c.places k with
        | none => exact absurd h hk
        | some _ => rfl
      simp [addChecks, this]
    | cons p m1 ih =>
      obtain ⟨a, b⟩ := p
      obtain ⟨h1, h2⟩ := hm (a, b) (by simp)
      simp only [List.cons_append, addChecks]
      simp only at h1 h2
      rw [if_neg (by simp [h1]), if_neg (by rcases h2 with h2 | h2 <;> simp [h2])]
      exact ih (fun p hp => hm p (by simp [hp]))
  simp only [step, hi, addGeometry, this, World.push]

/-- C20: a new geometry of any other kind than targets and point sources is a `TypeError`
(when it is the first offending entry) ... -/
theorem C20_add_type (e : Env) (w : World) (i : Nat) (c : Coll) (hi : w.heap[i]? = some c)
    (m1 m2 : List (GeoId × Geo)) (k : GeoId) (g : Geo)
    (hm : ∀ p ∈ m1, lookupD c.places p.1 = none ∧ (p.2.kind = .target ∨ p.2.kind = .pointSource))
    (hk : lookupD c.places k = none) (hg : g.kind ≠ .target) (hg' : g.kind ≠ .pointSource) :
    step e w (.add i (m1 ++ (k, g) :: m2)) = (.error .type, w) := by
  have : addChecks c (m1 ++ (k, g) :: m2) = .error .type := by
    induction m1 with
    | nil => simp [addChecks, hk, hg, hg']
    | cons p m1 ih =>
      obtain ⟨a, b⟩ := p
      obtain ⟨h1, h2⟩ := hm (a, b) (by simp)
      simp only [List.cons_append, addChecks]
      simp only at h1 h2
      rw [if_neg (by simp [h1]), if_neg (by rcases h2 with h2 | h2 <;> simp [h2])]
      exact ih (fun p hp => hm p (by simp [hp]))
  simp only [step, hi, addGeometry, this, World.push]

/-- C20: ... and otherwise, if it succeeds, every name of the old collection still stands
for the same geometry, the new names are there, and every discretization the old
collection has already computed is what the new one returns, without any work; the default
places, connections and cached common subexpressions are kept, too. -/
theorem C20_add (e : Env) (w : World) (hw : Reachable e w) (i : Nat) (c : Coll)
    (hi : w.heap[i]? = some c) (m : List (GeoId × Geo)) (hm : (m.map (·.1)).Nodup) (a : Nat)
    (h : (step e w (.add i m)).1 = .ok (.coll a)) :
    (∀ p ∈ m, lookupD c.places p.1 = none ∧ (p.2.kind = .target ∨ p.2.kind = .pointSource)) ∧
    ∃ c', (step e w (.add i m)).2.heap[a]? = some c' ∧ w.heap.length = a ∧
      (∀ k, lookupD c'.places k = (lookupD c.places k).or (lookupD m k)) ∧
      (∀ geo s d, step e w (.get i geo s) = (.ok (.discr d), w) →
        step e (step e w (.add i m)).2 (.get a geo s) =
          (.ok (.discr d), (step e w (.add i m)).2)) ∧
      c'.autoSource = c.autoSource ∧ c'.autoTarget = c.autoTarget ∧ c'.conn = c.conn ∧
      (∀ j, c'.extra .evaluation j = c.extra .evaluation j) := by
  have hc := hw.inv c (mem_heap hi)
  have hret : ∀ geo s d, step e w (.get i geo s) = (.ok (.discr d), w) → answer e c geo s = some d := by
    intro geo s d hst
    obtain ⟨c1, h1, h2⟩ := returns_answer hw.inv (by unfold Returns; rw [hst])
    rw [hst] at h1
    dsimp only at h1
    rw [hi] at h1; cases h1
    exact h2
  simp only [step, hi] at h
  cases ha : addGeometry e c m with
  | error x => rw [ha] at h; cases h
  | ok c' =>
    rw [ha] at h
    cases h
    have hst : (step e w (.add i m)).2 = ⟨w.heap ++ [c'], w.calls⟩ := by
      simp only [step, hi, ha, World.push]
    obtain ⟨_, hp, has, hat, hd, hcn, hex⟩ := addGeometry_spec e c hc m hm c' ha
    refine ⟨?_, c', by rw [hst]; simp, rfl, hp, ?_, has, hat, hcn, fun j => by simp [hex]⟩
    · apply (addChecks_ok c m).1.1
      unfold addGeometry at ha
      cases hk : addChecks c m with
      | error x => rw [hk] at ha; cases ha
      | ok u => rfl
    · intro geo s d hg
      have := hret geo s d hg
      refine get_of_answer (c := c') (by rw [hst]; simp) ?_
      unfold answer at this ⊢
      rw [hp]
      cases hl : lookupD c.places geo with
      | none => rw [hl] at this; cases this
      | some g =>
        rw [hl] at this
        dsimp only [Option.or] at this ⊢
        rw [hd]
        exact this

/-- C20: what is put in a cache of one collection is found there, and in no other place. -/
theorem C20_store (e : Env) (w : World) (i : Nat) (c : Coll) (hi : w.heap[i]? = some c)
    (k : CacheKey) (j v : Nat) :
    ∃ c', (step e w (.evalCache i k j v)).2 = ⟨w.heap.set i c', w.calls⟩ ∧
      c'.extra k j = some v ∧ (∀ k' j', (k', j') ≠ (k, j) → c'.extra k' j' = c.extra k' j') ∧
      c'.places = c.places ∧ c'.autoSource = c.autoSource ∧ c'.autoTarget = c.autoTarget ∧
      c'.discr = c.discr ∧ c'.conn = c.conn := by
  refine ⟨c.store k j v, by simp [step, hi], by simp [Coll.store], ?_, rfl, rfl, rfl, rfl, rfl⟩
  intro k' j' h
  simp only [Coll.store]
  rw [if_neg]
  rintro ⟨rfl, rfl⟩
  exact h rfl

/-! ## C21 -/

/-- C21: a connection request fails only because a name is unknown, a geometry has no
discretization, refinement raised, or - with `ValueError` - because the descriptors
are on different geometries, not both of node granularity, or differ in stage although
the source is not a QBX source or the target stage is not the quadrature one. -/
theorem C21_errors (e : Env) (w : World) (hw : Reachable e w) (i : Nat) (c : Coll)
    (hi : w.heap[i]? = some c) (f t : DDesc) (x : GErr)
    (h : (step e w (.conn i f t)).1 = .error x) :
    x = .key ∨ x = .type ∨ x = .refine ∨ (x = .value ∧ (f.geo ≠ t.geo ∨ f.gran ≠ .node ∨
      t.gran ≠ .node ∨ (f.stage ≠ t.stage ∧
        ((∀ g, lookupD c.places f.geo = some g → g.kind ≠ .qbx) ∨ t.stage ≠ some .quadStage2)))) := by
  have hc := hw.inv c (mem_heap hi)
  apply connection_err e c hc w.calls f t x
  simp only [step, hi] at h
  generalize connection e c w.calls f t = r at h
  obtain ⟨o, c', n'⟩ := r
  cases o with
  | error y => cases h; rfl
  | ok p => cases h

theorem connTail_ok (c : Coll) (lpot : Geo) (fd : Nat) (f t : DDesc) (st : Nat) (xs : List Conn)
    (h : connTail c lpot fd f t = .ok (st, xs)) :
    st = fd ∧ f.geo = t.geo ∧ f.gran = .node ∧ t.gran = .node ∧
    ((f.stage = t.stage ∧ xs = []) ∨ (lpot.kind = .qbx ∧ t.stage = some .quadStage2 ∧
      connLoop c f.geo (stageNameIndex f.stage)
        (stageNameIndex t.stage - stageNameIndex f.stage) = .ok xs)) := by
  unfold connTail at h
  by_cases h1 : f.geo ≠ t.geo
  · rw [if_pos h1] at h; cases h
  rw [if_neg h1] at h
  by_cases h2 : f.gran ≠ .node
  · rw [if_pos h2] at h; cases h
  rw [if_neg h2] at h
  have h1 : f.geo = t.geo := not_not.1 h1
  have h2 : f.gran = .node := not_not.1 h2
  have hgran : ∀ ys : List Conn, (if f.gran ≠ t.gran then
        match t.gran with
        | .node => Except.ok (fd, ys)
        | .center => .error GErr.value
        | .element => .error GErr.value
      else .ok (fd, ys)) = .ok (st, xs) → st = fd ∧ xs = ys ∧ t.gran = .node := by
    intro ys h'
    rw [h2] at h'
    cases hg : t.gran <;> rw [hg] at h' <;> simp at h'
    exact ⟨h'.1.symm, h'.2.symm, rfl⟩
  by_cases h3 : f.stage = t.stage
  · rw [if_pos h3] at h
    obtain ⟨a, b, g⟩ := hgran _ h
    exact ⟨a, h1, h2, g, Or.inl ⟨h3, b⟩⟩
  rw [if_neg h3] at h
  by_cases h4 : lpot.kind ≠ .qbx
  · rw [if_pos h4] at h; cases h
  rw [if_neg h4] at h
  by_cases h5 : t.stage ≠ some .quadStage2
  · rw [if_pos h5] at h; cases h
  rw [if_neg h5] at h
  cases hl : connLoop c f.geo (stageNameIndex f.stage)
      (stageNameIndex t.stage - stageNameIndex f.stage) with
  | error y => rw [hl] at h; cases h
  | ok ys =>
    rw [hl] at h
    obtain ⟨a, b, g⟩ := hgran _ h
    subst b
    exact ⟨a, h1, h2, g, Or.inr ⟨not_not.1 h4, not_not.1 h5, rfl⟩⟩

/-- C21: a connection that is returned leads from the discretization of `from` to the one
of `to` (both as `get_discretization` returns them in the same collection), through
connections each of which starts where the previous one ends.  Partial: an unspecified
stage on the `from` side is excluded unless both stages agree, see `C21_refuted`. -/
theorem C21_chain_partial (e : Env) (w : World) (hw : Reachable e w) (i : Nat) (f t : DDesc)
    (st : Nat) (xs : List Conn) (hf : f.stage ≠ none ∨ t.stage = none)
    (h : (step e w (.conn i f t)).1 = .ok (.conn st xs)) :
    ∃ b, step e (step e w (.conn i f t)).2 (.get i f.geo f.stage) =
        (.ok (.discr st), (step e w (.conn i f t)).2) ∧
      step e (step e w (.conn i f t)).2 (.get i t.geo t.stage) =
        (.ok (.discr b), (step e w (.conn i f t)).2) ∧
      Chain st xs b ∧ (f.stage = t.stage → xs = []) := by
  cases hi : w.heap[i]? with
  | none => simp only [step, hi] at h; cases h
  | some c =>
    have hc := hw.inv c (mem_heap hi)
    obtain ⟨hlen, _⟩ := List.getElem?_eq_some_iff.1 hi
    have hgoal : ∃ c' n' b, connection e c w.calls f t = (.ok (st, xs), c', n') ∧
        answer e c' f.geo f.stage = some st ∧ answer e c' t.geo t.stage = some b ∧
        Chain st xs b ∧ (f.stage = t.stage → xs = []) := by
      have h0 : (connection e c w.calls f t).1 = .ok (st, xs) := by
        simp only [step, hi] at h
        generalize connection e c w.calls f t = r at h
        obtain ⟨o, c', n'⟩ := r
        cases o with
        | error y => cases h
        | ok p => cases h; rfl
      clear h
      unfold connection at h0 ⊢
      cases hl : lookupD c.places f.geo with
      | none => rw [hl] at h0; cases h0
      | some lpot =>
        rw [hl] at h0
        dsimp only at h0 ⊢
        obtain ⟨i1, x1, _, ok1⟩ := getDiscr_spec e c hc w.calls f.geo f.stage
        generalize getDiscr e c w.calls f.geo f.stage = r1 at h0 i1 x1 ok1
        obtain ⟨o1, c1, n1⟩ := r1
        cases o1 with
        | error y => dsimp only at h0; cases h0
        | ok fd =>
          dsimp only at h0 i1 x1 ok1 ⊢
          obtain ⟨i2, x2, _, ok2⟩ := getDiscr_spec e c1 i1 n1 t.geo t.stage
          generalize getDiscr e c1 n1 t.geo t.stage = r2 at h0 i2 x2 ok2
          obtain ⟨o2, c2, n2⟩ := r2
          cases o2 with
          | error y => dsimp only at h0; cases h0
          | ok td =>
            dsimp only at h0 i2 x2 ok2 ⊢
            obtain ⟨rfl, hgeo, _, _, hcase⟩ := connTail_ok _ _ _ _ _ _ _ h0
            have ha1 := answer_mono x2 (ok1 st rfl)
            have ha2 := ok2 td rfl
            refine ⟨c2, n2, td, by rw [h0], ha1, ha2, ?_, ?_⟩
            · rcases hcase with ⟨hs, rfl⟩ | ⟨hk, hq, hlp⟩
              · rw [hgeo, hs, ha2] at ha1
                cases ha1; rfl
              · rcases hf with hf | hf
                swap
                · rw [hf] at hq; cases hq
                have hp : lookupD c2.places f.geo = some lpot := by
                  rw [x2.places, x1.places]; exact hl
                have hd3 : c2.discr f.geo .quadStage2 = some td := by
                  simpa [answer, ← hgeo, hp, hk, hq] using ha2
                obtain ⟨g, d1, d2, k1, k2, k3, _, _, q1, q2, c1', c2', c3'⟩ :=
                  connLoop_spec e c2 i2 f.geo td hd3
                have hfa : ∀ s, f.stage = some s → c2.discr f.geo s = some st := by
                  intro s hs
                  simpa [answer, hp, hk, hs] using ha1
                rw [hq] at hlp
                cases hfs : f.stage with
                | none => exact absurd hfs hf
                | some s =>
                  have hst := hfa s hfs
                  rw [hfs] at hlp
                  cases s with
                  | stage1 =>
                    rw [q1] at hst; cases hst
                    simp [stageNameIndex, stageIndex, connLoop, stageOfIndex, c2', c3'] at hlp
                    subst hlp; simp [Chain]
                  | stage2 =>
                    rw [q2] at hst; cases hst
                    simp [stageNameIndex, stageIndex, connLoop, stageOfIndex, c3'] at hlp
                    subst hlp; simp [Chain]
                  | quadStage2 =>
                    rw [hd3] at hst; cases hst
                    simp [stageNameIndex, stageIndex, connLoop] at hlp
                    subst hlp; simp [Chain]
            · intro hs
              rcases hcase with ⟨_, rfl⟩ | ⟨_, _, hlp⟩
              · rfl
              · rw [hs, Nat.sub_self] at hlp
                simp [connLoop] at hlp
                exact hlp
    obtain ⟨c', n', b, hcon, ha, hb, hch, hid⟩ := hgoal
    have hw' : (step e w (.conn i f t)).2 = ⟨w.heap.set i c', n'⟩ := by
      simp only [step, hi, hcon]
    have hget : (step e w (.conn i f t)).2.heap[i]? = some c' := by
      rw [hw']; simp [hlen]
    exact ⟨b, get_of_answer hget ha, get_of_answer hget hb, hch, hid⟩

/-! ## Examples -/

/-- an environment whose refinement always creates new objects -/
def exEnv : Env := ⟨fun _ => true, fun g => g.uid, fun n _ _ _ => some (100 + n, 200 + n)⟩

/-- example: a QBX source geometry -/
def exSrc : Geo := ⟨0, .qbx, 2⟩

/-- a program: one QBX source, ask for the quadrature stage -/
def exProg : List Op :=
  [.new (.mapping [(.str "q", exSrc)]) (.one (.str "q")), .get 0 (.str "q") (some .quadStage2)]

theorem exProg_reachable : Reachable exEnv (run exEnv World.init exProg) :=
  ⟨exProg, by simp [exProg, Op.Ok], rfl⟩

/-- C21 is false for an unspecified stage: the connection from the unspecified stage to
the quadrature stage claims to start at the stage-1 discretization (that is what
`get_discretization` returns for it) but its first link starts at the unrefined density
discretization. -/
theorem C21_refuted :
    ∃ (e : Env) (w : World), Reachable e w ∧ ∃ f t st xs,
      (step e w (.conn 0 f t)).1 = .ok (.conn st xs) ∧
      Returns e (step e w (.conn 0 f t)).2 0 f.geo f.stage st ∧ ∀ b, ¬ Chain st xs b := by
  refine ⟨exEnv, run exEnv World.init exProg, exProg_reachable,
    ⟨.str "q", none, .node⟩, ⟨.str "q", some .quadStage2, .node⟩, 100,
    [⟨200, 0, 100⟩, ⟨201, 100, 101⟩, ⟨202, 101, 102⟩], rfl, rfl, ?_⟩
  intro b h
  simp [Chain] at h

/-- non-vacuity of `C19_stable`, `C20_copy`, `C21_chain_partial` -/
example : Returns exEnv (run exEnv World.init exProg) 0 (.str "q") (some .stage2) 101 := rfl
example : (step exEnv (run exEnv World.init exProg) (.copy 0)).1 = .ok (.coll 1) := rfl
example : (step exEnv (run exEnv World.init exProg) (.add 0 [(.str "t", ⟨5, .target, 2⟩)])).1 =
    .ok (.coll 1) := rfl
example : (step exEnv (run exEnv World.init exProg)
    (.conn 0 ⟨.str "q", some .stage1, .node⟩ ⟨.str "q", some .quadStage2, .node⟩)).1 =
    .ok (.conn 100 [⟨201, 100, 101⟩, ⟨202, 101, 102⟩]) := rfl
/-- refining a copy later gives other objects than the original has -/
example : Returns exEnv (step exEnv (run exEnv World.init exProg) (.copy 0)).2 1 (.str "q")
    (some .stage2) 104 := rfl

end Verif.Coll
