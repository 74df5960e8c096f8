import Verif.Collection.Caches
import Mathlib.Tactic.Common

/-!
# Geometry collections, their caches, and connections (C19, C20, C21): properties
-/

set_option linter.dupNamespace false

namespace Verif.Coll

open Verif.DofDesc (Stage Gran)

/-! ## Invariant -/

/-- the stage a stage is refined from -/
def prev : Stage → Option Stage
  | .stage1 => none
  | .stage2 => some .stage1
  | .quadStage2 => some .stage2

/-- the discretization a stage is refined from -/
def prevDiscr (e : Env) (c : Coll) (geo : GeoId) : Stage → Option Nat
  | .stage1 => match lookupD c.places geo with
    | some g => if g.kind = .qbx then some (e.dens g) else none
    | none => none
  | .stage2 => c.discr geo .stage1
  | .quadStage2 => c.discr geo .stage2

/-- what holds for every collection a program can get hold of -/
structure Coll.Inv (e : Env) (c : Coll) : Prop where
  keys : (c.places.map (·.1)).Nodup
  wf : WellFormed e.valid c.places c.autoSource c.autoTarget
  cached : ∀ geo s d, c.discr geo s = some d →
    ∃ d0 u, prevDiscr e c geo s = some d0 ∧ c.conn geo (prev s) s = some ⟨u, d0, d⟩
  uncached : ∀ geo f s, c.discr geo s = none → c.conn geo f s = none

/-- `c'` is a later state of `c`: nothing is lost or changed -/
structure Ext (c c' : Coll) : Prop where
  places : c'.places = c.places
  src : c'.autoSource = c.autoSource
  tgt : c'.autoTarget = c.autoTarget
  discr : ∀ geo s d, c.discr geo s = some d → c'.discr geo s = some d
  conn : ∀ geo f s k, c.conn geo f s = some k → c'.conn geo f s = some k

theorem Ext.refl (c : Coll) : Ext c c := ⟨rfl, rfl, rfl, fun _ _ _ h => h, fun _ _ _ _ h => h⟩

theorem Ext.trans {a b c : Coll} (h : Ext a b) (h' : Ext b c) : Ext a c :=
  ⟨h'.places.trans h.places, h'.src.trans h.src, h'.tgt.trans h.tgt,
    fun g s d x => h'.discr g s d (h.discr g s d x),
    fun g f s k x => h'.conn g f s k (h.conn g f s k x)⟩

theorem prevDiscr_mono {e : Env} {c c' : Coll} (h : Ext c c') {geo s d}
    (hd : prevDiscr e c geo s = some d) : prevDiscr e c' geo s = some d := by
  cases s with
  | stage1 => simpa [prevDiscr, h.places] using hd
  | stage2 => exact h.discr _ _ _ hd
  | quadStage2 => exact h.discr _ _ _ hd

theorem addBoth_spec (c : Coll) (d : Nat) (k : Conn) (geo : GeoId) (f : Option Stage) (s : Stage)
    (h1 : c.discr geo s = none) (h2 : c.conn geo f s = none) :
    c.addBoth d k geo f s = (none,
      { c with
        discr := fun g' s' => if g' = geo ∧ s' = s then some d else c.discr g' s'
        conn := fun g' f' s' => if g' = geo ∧ f' = f ∧ s' = s then some k else c.conn g' f' s' }) := by
  simp [Coll.addBoth, Coll.addDiscr, Coll.addConn, h1, h2]

theorem stageBlock_spec (e : Env) (c : Coll) (hc : c.Inv e) (n : Nat) (geo : GeoId) (g : Geo)
    (s : Stage) (d0 : Nat) (hd : prevDiscr e c geo s = some d0) :
    ((stageBlock e geo g (prev s) s c n d0).2.1).Inv e ∧
    Ext c (stageBlock e geo g (prev s) s c n d0).2.1 ∧
    (∀ x, (stageBlock e geo g (prev s) s c n d0).1 = .error x → x = .refine) ∧
    (∀ d, (stageBlock e geo g (prev s) s c n d0).1 = .ok d →
      (stageBlock e geo g (prev s) s c n d0).2.1.discr geo s = some d) := by
  unfold stageBlock
  cases hb : c.discr geo s with
  | some d =>
    obtain ⟨d0', u, h1, h2⟩ := hc.cached geo s d hb
    have : c.getBoth geo (prev s) s = some (d, ⟨u, d0', d⟩) := by simp [Coll.getBoth, hb, h2]
    rw [this]
    refine ⟨hc, Ext.refl c, by simp, ?_⟩
    intro d' h'; cases h'; exact hb
  | none =>
    have hn := hc.uncached geo (prev s) s hb
    have : c.getBoth geo (prev s) s = none := by simp [Coll.getBoth, hb]
    rw [this]
    dsimp only
    cases ho : e.refine n g s d0 with
    | none => exact ⟨hc, Ext.refl c, by simp, by simp⟩
    | some p =>
      obtain ⟨d, u⟩ := p
      dsimp only
      rw [addBoth_spec c d _ geo _ s hb hn]
      dsimp only
      have hext : Ext c { c with
          discr := fun g' s' => if g' = geo ∧ s' = s then some d else c.discr g' s'
          conn := fun g' f' s' => if g' = geo ∧ f' = prev s ∧ s' = s then some ⟨u, d0, d⟩
            else c.conn g' f' s' } := by
        refine ⟨rfl, rfl, rfl, ?_, ?_⟩
        · intro g' s' d' h'
          dsimp only
          rw [if_neg]
          · exact h'
          · rintro ⟨rfl, rfl⟩; rw [hb] at h'; cases h'
        · intro g' f' s' k' h'
          dsimp only
          rw [if_neg]
          · exact h'
          · rintro ⟨rfl, rfl, rfl⟩; rw [hn] at h'; cases h'
      refine ⟨⟨hc.keys, hc.wf, ?_, ?_⟩, hext, by simp, ?_⟩
      · intro g' s' d' h'
        dsimp only at h' ⊢
        by_cases hg : g' = geo ∧ s' = s
        · obtain ⟨rfl, rfl⟩ := hg
          simp only [and_self, if_true, Option.some.injEq] at h'
          subst h'
          exact ⟨d0, u, prevDiscr_mono hext hd, by simp⟩
        · rw [if_neg hg] at h'
          obtain ⟨d1, u1, x1, x2⟩ := hc.cached g' s' d' h'
          refine ⟨d1, u1, prevDiscr_mono hext x1, ?_⟩
          rw [if_neg]
          · exact x2
          · rintro ⟨r1, _, r3⟩; exact hg ⟨r1, r3⟩
      · intro g' f' s' h'
        dsimp only at h' ⊢
        by_cases hg : g' = geo ∧ s' = s
        · rw [if_pos hg] at h'; cases h'
        · rw [if_neg hg] at h'
          rw [if_neg]
          · exact hc.uncached g' f' s' h'
          · rintro ⟨r1, _, r3⟩; exact hg ⟨r1, r3⟩
      · intro d' h'
        cases h'
        simp

theorem refineForGlobalQbx_spec (e : Env) (c : Coll) (hc : c.Inv e) (n : Nat) (geo : GeoId)
    (s : Stage) :
    ((refineForGlobalQbx e c n geo s).2.1).Inv e ∧
    Ext c (refineForGlobalQbx e c n geo s).2.1 ∧
    (∀ x, (refineForGlobalQbx e c n geo s).1 = .error x → x = .refine ∨ x = .key ∨ x = .type) ∧
    ((refineForGlobalQbx e c n geo s).1 = .ok () →
      ((refineForGlobalQbx e c n geo s).2.1.discr geo s).isSome) := by
  unfold refineForGlobalQbx
  cases hl : lookupD c.places geo with
  | none => exact ⟨hc, Ext.refl c, by simp, by simp⟩
  | some g =>
    dsimp only
    by_cases hk : g.kind = .qbx
    swap
    · rw [if_pos hk]; exact ⟨hc, Ext.refl c, by simp, by simp⟩
    rw [if_neg (by simpa using hk)]
    have hp1 : prevDiscr e c geo .stage1 = some (e.dens g) := by simp [prevDiscr, hl, hk]
    have h1 := stageBlock_spec e c hc n geo g .stage1 _ hp1
    simp only [prev] at h1
    generalize stageBlock e geo g none .stage1 c n (e.dens g) = r1 at h1
    obtain ⟨o1, c1, n1⟩ := r1
    obtain ⟨i1, x1, e1, d1⟩ := h1
    dsimp only at i1 x1 e1 d1
    cases o1 with
    | error y => exact ⟨i1, x1, fun x hx => Or.inl (by cases hx; exact e1 y rfl), by simp⟩
    | ok dd1 =>
      dsimp only
      have hd1 := d1 _ rfl
      by_cases hs2 : stageIndex s ≥ 2
      swap
      · rw [if_neg hs2]
        have : s = .stage1 := by cases s <;> simp_all [stageIndex]
        subst this
        exact ⟨i1, x1, by simp, fun _ => by simp [hd1]⟩
      rw [if_pos hs2]
      have h2 := stageBlock_spec e c1 i1 n1 geo g .stage2 dd1 hd1
      simp only [prev] at h2
      generalize stageBlock e geo g (some .stage1) .stage2 c1 n1 dd1 = r2 at h2
      obtain ⟨o2, c2, n2⟩ := r2
      obtain ⟨i2, x2, e2, d2⟩ := h2
      dsimp only at i2 x2 e2 d2
      cases o2 with
      | error y => exact ⟨i2, x1.trans x2, fun x hx => Or.inl (by cases hx; exact e2 y rfl), by simp⟩
      | ok dd2 =>
        dsimp only
        have hd2 := d2 _ rfl
        by_cases hs3 : stageIndex s ≥ 3
        swap
        · rw [if_neg hs3]
          have : s = .stage2 := by cases s <;> simp_all [stageIndex]
          subst this
          exact ⟨i2, x1.trans x2, by simp, fun _ => by simp [hd2]⟩
        rw [if_pos hs3]
        have : s = .quadStage2 := by cases s <;> simp_all [stageIndex]
        subst this
        have h3 := stageBlock_spec e c2 i2 n2 geo g .quadStage2 dd2 hd2
        simp only [prev] at h3
        generalize stageBlock e geo g (some .stage2) .quadStage2 c2 n2 dd2 = r3 at h3
        obtain ⟨o3, c3, n3⟩ := r3
        obtain ⟨i3, x3, e3, d3⟩ := h3
        dsimp only at i3 x3 e3 d3
        cases o3 with
        | error y =>
          exact ⟨i3, (x1.trans x2).trans x3, fun x hx => Or.inl (by cases hx; exact e3 y rfl), by simp⟩
        | ok dd3 => exact ⟨i3, (x1.trans x2).trans x3, by simp, fun _ => by simp [d3 _ rfl]⟩

theorem getQbx_spec (e : Env) (c : Coll) (hc : c.Inv e) (n : Nat) (geo : GeoId) (s : Stage) :
    ((getQbx e c n geo s).2.1).Inv e ∧ Ext c (getQbx e c n geo s).2.1 ∧
    (∀ x, (getQbx e c n geo s).1 = .error x → x = .refine ∨ x = .key ∨ x = .type) ∧
    (∀ d, (getQbx e c n geo s).1 = .ok d → (getQbx e c n geo s).2.1.discr geo s = some d) := by
  unfold getQbx
  cases hb : c.discr geo s with
  | some d => exact ⟨hc, Ext.refl c, by simp, by simp [hb]⟩
  | none =>
    dsimp only
    have h := refineForGlobalQbx_spec e c hc n geo s
    generalize refineForGlobalQbx e c n geo s = r at h
    obtain ⟨o, c', n'⟩ := r
    obtain ⟨i, x, er, ok⟩ := h
    dsimp only at i x er ok
    cases o with
    | error y => exact ⟨i, x, fun z hz => by cases hz; exact er y rfl, by simp⟩
    | ok u =>
      dsimp only
      have := ok rfl
      cases hd : c'.discr geo s with
      | none => rw [hd] at this; cases this
      | some d => exact ⟨i, x, by simp, by simp [hd]⟩

/-- what a collection answers without doing any work -/
def answer (e : Env) (c : Coll) (geo : GeoId) (s : Option Stage) : Option Nat :=
  match lookupD c.places geo with
  | none => none
  | some g => match g.kind with
    | .qbx => c.discr geo (s.getD .stage1)
    | .unregularized => some (e.dens g)
    | .discr => some (e.dens g)
    | _ => none

theorem getDiscr_of_answer (e : Env) (c : Coll) (n : Nat) (geo : GeoId) (s : Option Stage) (d : Nat)
    (h : answer e c geo s = some d) : getDiscr e c n geo s = (.ok d, c, n) := by
  unfold answer at h
  unfold getDiscr
  cases hl : lookupD c.places geo with
  | none => rw [hl] at h; cases h
  | some g =>
    rw [hl] at h
    dsimp only at h ⊢
    cases hk : g.kind <;> rw [hk] at h <;> dsimp only at h ⊢ <;>
      first | (cases h; done) | (cases h; rfl) | (simp [getQbx, h])

theorem answer_mono {e : Env} {c c' : Coll} (h : Ext c c') {geo s d}
    (hd : answer e c geo s = some d) : answer e c' geo s = some d := by
  unfold answer at hd ⊢
  rw [h.places]
  cases hl : lookupD c.places geo with
  | none => rw [hl] at hd; cases hd
  | some g =>
    rw [hl] at hd
    dsimp only at hd ⊢
    cases hk : g.kind <;> rw [hk] at hd <;> dsimp only at hd ⊢ <;>
      first | exact hd | exact h.discr _ _ _ hd

theorem getDiscr_spec (e : Env) (c : Coll) (hc : c.Inv e) (n : Nat) (geo : GeoId)
    (s : Option Stage) :
    ((getDiscr e c n geo s).2.1).Inv e ∧ Ext c (getDiscr e c n geo s).2.1 ∧
    (∀ x, (getDiscr e c n geo s).1 = .error x → x = .refine ∨ x = .key ∨ x = .type) ∧
    (∀ d, (getDiscr e c n geo s).1 = .ok d → answer e (getDiscr e c n geo s).2.1 geo s = some d) := by
  unfold getDiscr
  cases hl : lookupD c.places geo with
  | none => exact ⟨hc, Ext.refl c, by simp, by simp⟩
  | some g =>
    dsimp only
    cases hk : g.kind with
    | qbx =>
      obtain ⟨i, x, er, ok⟩ := getQbx_spec e c hc n geo (s.getD .stage1)
      refine ⟨i, x, er, ?_⟩
      intro d hd
      unfold answer
      rw [x.places, hl]
      dsimp only
      rw [hk]
      exact ok d hd
    | unregularized =>
      refine ⟨hc, Ext.refl c, by simp, ?_⟩
      intro d hd; cases hd; simp [answer, hl, hk]
    | discr =>
      refine ⟨hc, Ext.refl c, by simp, ?_⟩
      intro d hd; cases hd; simp [answer, hl, hk]
    | _ => exact ⟨hc, Ext.refl c, by simp, by simp⟩

/-! ## Connections -/

/-- the chain of `xs` leads from `a` to `b`: each connection starts where the previous one
ends -/
def Chain : Nat → List Conn → Nat → Prop
  | a, [], b => a = b
  | a, k :: ks, b => k.src = a ∧ Chain k.dst ks b

theorem connLoop_spec (e : Env) (c : Coll) (hc : c.Inv e) (geo : GeoId) (d3 : Nat)
    (h3 : c.discr geo .quadStage2 = some d3) :
    ∃ g d1 d2 k1 k2 k3, lookupD c.places geo = some g ∧ g.kind = .qbx ∧
      c.discr geo .stage1 = some d1 ∧ c.discr geo .stage2 = some d2 ∧
      c.conn geo none .stage1 = some ⟨k1, e.dens g, d1⟩ ∧
      c.conn geo (some .stage1) .stage2 = some ⟨k2, d1, d2⟩ ∧
      c.conn geo (some .stage2) .quadStage2 = some ⟨k3, d2, d3⟩ := by
  obtain ⟨d2, k3, p3, c3⟩ := hc.cached geo .quadStage2 d3 h3
  obtain ⟨d1, k2, p2, c2⟩ := hc.cached geo .stage2 d2 p3
  obtain ⟨d0, k1, p1, c1⟩ := hc.cached geo .stage1 d1 p2
  unfold prevDiscr at p1
  cases hl : lookupD c.places geo with
  | none => rw [hl] at p1; cases p1
  | some g =>
    rw [hl] at p1
    dsimp only at p1
    by_cases hk : g.kind = .qbx
    · rw [if_pos hk] at p1
      cases p1
      exact ⟨g, d1, d2, k1, k2, k3, rfl, hk, p2, p3, c1, c2, c3⟩
    · rw [if_neg hk] at p1; cases p1

theorem connection_inv (e : Env) (c : Coll) (hc : c.Inv e) (n : Nat) (f t : DDesc) :
    ((connection e c n f t).2.1).Inv e ∧ Ext c (connection e c n f t).2.1 := by
  unfold connection
  cases hl : lookupD c.places f.geo with
  | none => exact ⟨hc, Ext.refl c⟩
  | some g =>
    dsimp only
    obtain ⟨i1, x1, _, _⟩ := getDiscr_spec e c hc n f.geo f.stage
    generalize getDiscr e c n f.geo f.stage = r1 at i1 x1
    obtain ⟨o1, c1, n1⟩ := r1
    cases o1 with
    | error y => exact ⟨i1, x1⟩
    | ok d =>
      dsimp only at i1 x1 ⊢
      obtain ⟨i2, x2, _, _⟩ := getDiscr_spec e c1 i1 n1 t.geo t.stage
      generalize getDiscr e c1 n1 t.geo t.stage = r2 at i2 x2
      obtain ⟨o2, c2, n2⟩ := r2
      cases o2 with
      | error y => exact ⟨i2, x1.trans x2⟩
      | ok d' => exact ⟨i2, x1.trans x2⟩

/-! ## Worlds -/

theorem wf_mapping (e : Env) (m : List (GeoId × Geo)) (w : AutoArg) (b : Built)
    (h : construct e.valid (.mapping m) w = .ok b) :
    b = ⟨m, (prepareAutoWhere w).1, (prepareAutoWhere w).2⟩ ∧
    WellFormed e.valid m (prepareAutoWhere w).1 (prepareAutoWhere w).2 := by
  have hw := (C18_mapping e.valid m w).1 ⟨b, h⟩
  have := (validate_ok e.valid m (prepareAutoWhere w).1 (prepareAutoWhere w).2).1 hw
  simp only [construct, makeDict] at h
  rw [this] at h
  cases h
  exact ⟨rfl, hw⟩

theorem insertD_nodup {α : Type} (m : List (GeoId × α)) (k : GeoId) (v : α)
    (h : (m.map (·.1)).Nodup) : ((insertD m k v).map (·.1)).Nodup := by
  unfold insertD
  split
  · have : (m.map (fun p => if p.1 = k then (k, v) else p)).map (·.1) = m.map (·.1) := by
      rw [List.map_map]
      apply List.map_congr_left
      intro p _
      simp only [Function.comp]
      split <;> simp_all
    rw [this]; exact h
  · rename_i hk
    rw [List.map_append, List.nodup_append]
    refine ⟨h, by simp, ?_⟩
    intro a ha b hb hab
    simp only [List.map_cons, List.map_nil, List.mem_singleton] at hb
    subst hb
    subst hab
    exact hk (List.contains_iff_mem.2 ha)

theorem lookupD_map_replace {α : Type} (m : List (GeoId × α)) (k k' : GeoId) (v : α) :
    lookupD (m.map (fun p => if p.1 = k then (k, v) else p)) k' =
      if k' = k ∧ k ∈ m.map (·.1) then some v else lookupD m k' := by
  induction m with
  | nil => simp [lookupD]
  | cons p m ih =>
    obtain ⟨a, b⟩ := p
    by_cases hak : a = k
    · subst hak
      by_cases hk : k' = a
      · subst hk; simp [lookupD]
      · have : a ≠ k' := fun h => hk h.symm
        simp only [lookupD, List.map_cons, if_true, List.find?_cons, this,
          decide_false, hk, false_and, if_false] at ih ⊢
        exact ih
    · by_cases hk : k' = a
      · subst hk
        simp [lookupD, hak]
      · have h1 : a ≠ k' := fun h => hk h.symm
        have h2 : k ≠ a := fun h => hak h.symm
        simp only [lookupD, List.map_cons, hak, if_false, List.find?_cons, h1,
          decide_false, List.mem_cons, h2, false_or] at ih ⊢
        exact ih

theorem lookupD_append {α : Type} (m m' : List (GeoId × α)) (k : GeoId) :
    lookupD (m ++ m') k = (lookupD m k).or (lookupD m' k) := by
  simp only [lookupD, List.find?_append, Option.map_or]

theorem lookupD_none_of_notMem {α : Type} (m : List (GeoId × α)) (k : GeoId)
    (h : k ∉ m.map (·.1)) : lookupD m k = none := by
  have := (lookupD_isNone m k).2 (fun v hv => h (List.mem_map.2 ⟨_, hv, rfl⟩))
  simpa using this

theorem lookupD_insertD {α : Type} (m : List (GeoId × α)) (k k' : GeoId) (v : α) :
    lookupD (insertD m k v) k' = if k' = k then some v else lookupD m k' := by
  unfold insertD
  split
  · rename_i hk
    have hk := List.contains_iff_mem.1 hk
    rw [lookupD_map_replace]
    simp [hk]
  · rename_i hk
    have hk : k ∉ m.map (·.1) := fun h => hk (List.contains_iff_mem.2 h)
    rw [lookupD_append]
    by_cases h : k' = k
    · subst h
      rw [lookupD_none_of_notMem m _ hk]
      simp [lookupD]
    · have : ¬ k = k' := fun h' => h h'.symm
      simp [lookupD, h, this]

theorem foldl_insertD_nodup {α : Type} (m m' : List (GeoId × α)) (h : (m.map (·.1)).Nodup) :
    ((m'.foldl (fun acc p => insertD acc p.1 p.2) m).map (·.1)).Nodup := by
  induction m' generalizing m with
  | nil => exact h
  | cons p m' ih => exact ih _ (insertD_nodup m p.1 p.2 h)

theorem lookupD_foldl {α : Type} (m m' : List (GeoId × α)) (k : GeoId)
    (h : (m'.map (·.1)).Nodup) :
    lookupD (m'.foldl (fun acc p => insertD acc p.1 p.2) m) k = (lookupD m' k).or (lookupD m k) := by
  induction m' generalizing m with
  | nil => simp [lookupD]
  | cons p m' ih =>
    obtain ⟨a, b⟩ := p
    simp only [List.map_cons, List.nodup_cons] at h
    simp only [List.foldl_cons]
    rw [ih _ h.2, lookupD_insertD]
    by_cases hk : k = a
    · subst hk
      rw [lookupD_none_of_notMem m' _ h.1]
      simp [lookupD]
    · have : ¬ a = k := fun h' => hk h'.symm
      simp [lookupD, hk, this]

theorem fresh_inv (e : Env) (b : Built) (hk : (b.places.map (·.1)).Nodup)
    (hw : WellFormed e.valid b.places b.autoSource b.autoTarget) : (Coll.fresh b).Inv e :=
  ⟨hk, hw, by simp [Coll.fresh], by simp [Coll.fresh]⟩

/-- Python mappings have unique keys -/
def Op.Ok : Op → Prop
  | .new (.mapping m) _ => (m.map (·.1)).Nodup
  | .mergeMap _ m => (m.map (·.1)).Nodup
  | .add _ m => (m.map (·.1)).Nodup
  | _ => True

theorem newColl_inv (e : Env) (a : PlacesArg) (w : AutoArg) (c : Coll)
    (ha : ∀ m, a = .mapping m → (m.map (·.1)).Nodup) (h : newColl e a w = .ok c) : c.Inv e := by
  unfold newColl at h
  cases hb : construct e.valid a w with
  | error x => rw [hb] at h; cases h
  | ok b =>
    rw [hb] at h
    cases h
    unfold construct at hb
    cases hm : makeDict a (prepareAutoWhere w).1 (prepareAutoWhere w).2 with
    | error x => rw [hm] at hb; cases hb
    | ok p =>
      obtain ⟨m, s, t⟩ := p
      rw [hm] at hb
      dsimp only at hb
      obtain ⟨v1, v2⟩ := validate_ok e.valid m s t
      by_cases hw : WellFormed e.valid m s t
      · rw [v1 hw] at hb
        cases hb
        refine fresh_inv e _ ?_ hw
        show (m.map (·.1)).Nodup
        cases a with
        | mapping m' => cases hm; exact ha _ rfl
        | pair s' t' =>
          cases hm
          exact insertD_nodup _ _ _ (insertD_nodup [] _ _ (by simp))
        | single g =>
          simp only [makeDict] at hm
          split at hm <;> cases hm
          all_goals exact insertD_nodup _ _ _ (insertD_nodup [] _ _ (by simp))
      · obtain ⟨x, hx⟩ := v2 hw
        rw [hx] at hb; cases hb

theorem copyColl_eq (e : Env) (c : Coll) (m : List (GeoId × Geo)) :
    (∀ c', copyColl e c m = .ok c' → c' = Coll.fresh ⟨m, c.autoSource, c.autoTarget⟩) ∧
    (WellFormed e.valid m c.autoSource c.autoTarget →
      copyColl e c m = .ok (Coll.fresh ⟨m, c.autoSource, c.autoTarget⟩)) ∧
    (∀ x, copyColl e c m = .error x → ∃ y, x = .ctor y) := by
  unfold copyColl newColl
  refine ⟨?_, ?_, ?_⟩
  · intro c' h
    cases hb : construct e.valid (.mapping m) (.two c.autoSource c.autoTarget) with
    | error x => rw [hb] at h; cases h
    | ok b =>
      rw [hb] at h
      cases h
      rw [(wf_mapping e m _ b hb).1]; rfl
  · intro hw
    have := (validate_ok e.valid m c.autoSource c.autoTarget).1 hw
    simp only [construct, makeDict, prepareAutoWhere, this]
  · intro x h
    cases hb : construct e.valid (.mapping m) (.two c.autoSource c.autoTarget) with
    | error y => rw [hb] at h; cases h; exact ⟨y, rfl⟩
    | ok b => rw [hb] at h; cases h

theorem copyColl_inv (e : Env) (c c' : Coll) (m : List (GeoId × Geo))
    (hm : (m.map (·.1)).Nodup) (h : copyColl e c m = .ok c') : c'.Inv e :=
  newColl_inv e _ _ c' (by rintro m' h'; cases h'; exact hm) h

theorem addChecks_ok (c : Coll) (m : List (GeoId × Geo)) :
    (addChecks c m = .ok () ↔
      ∀ p ∈ m, lookupD c.places p.1 = none ∧ (p.2.kind = .target ∨ p.2.kind = .pointSource)) ∧
    (∀ x, addChecks c m = .error x → x = .value ∨ x = .type) := by
  induction m with
  | nil => simp [addChecks]
  | cons p m ih =>
    obtain ⟨k, g⟩ := p
    simp only [addChecks]
    by_cases h1 : (lookupD c.places k).isSome
    · rw [if_pos h1]
      refine ⟨⟨by simp, fun h => ?_⟩, by simp⟩
      have := (h (k, g) (by simp)).1
      simp only at this
      rw [this] at h1; cases h1
    · rw [if_neg h1]
      by_cases h2 : g.kind ≠ .target ∧ g.kind ≠ .pointSource
      · rw [if_pos h2]
        refine ⟨⟨by simp, fun h => ?_⟩, by simp⟩
        have := (h (k, g) (by simp)).2
        simp_all
      · rw [if_neg h2]
        refine ⟨?_, ih.2⟩
        rw [ih.1]
        have h1' : lookupD c.places k = none := by simpa using h1
        have h2' : g.kind = .target ∨ g.kind = .pointSource := by
          by_cases h : g.kind = .target
          · exact Or.inl h
          · right; by_contra h'; exact h2 ⟨h, h'⟩
        constructor
        · rintro h p (_ | ⟨_, hp⟩)
          · exact ⟨h1', h2'⟩
          · exact h p (by assumption)
        · intro h p hp; exact h p (by simp [hp])

theorem addGeometry_spec (e : Env) (c : Coll) (hc : c.Inv e) (m : List (GeoId × Geo))
    (hm : (m.map (·.1)).Nodup) (c' : Coll) (h : addGeometry e c m = .ok c') :
    c'.Inv e ∧ (∀ k, lookupD c'.places k = (lookupD c.places k).or (lookupD m k)) ∧
    c'.autoSource = c.autoSource ∧ c'.autoTarget = c.autoTarget ∧
    c'.discr = c.discr ∧ c'.conn = c.conn ∧
    (∀ k i, c'.extra k i = if k = .evaluation then c.extra k i else none) := by
  unfold addGeometry at h
  cases hk : addChecks c m with
  | error x => rw [hk] at h; cases h
  | ok u =>
    rw [hk] at h
    dsimp only at h
    have hchk := (addChecks_ok c m).1.1 hk
    unfold mergeColl at h
    generalize hM : m.foldl (fun acc p => insertD acc p.1 p.2) c.places = M at h
    have hMn : (M.map (·.1)).Nodup := hM ▸ foldl_insertD_nodup _ _ hc.keys
    have hMl : ∀ k, lookupD M k = (lookupD m k).or (lookupD c.places k) := by
      intro k; rw [← hM]; exact lookupD_foldl _ _ k hm
    cases hcp : copyColl e c M with
    | error x => rw [hcp] at h; cases h
    | ok c1 =>
      rw [hcp] at h
      have hi := copyColl_inv e c c1 M hMn hcp
      have hc1 := (copyColl_eq e c M).1 c1 hcp
      have hdis : ∀ k, lookupD M k = (lookupD c.places k).or (lookupD m k) := by
        intro k
        rw [hMl]
        cases h1 : lookupD m k with
        | none => simp
        | some g =>
          have : (k, g) ∈ m := by
            unfold lookupD at h1
            cases hf : m.find? (fun p => decide (p.1 = k)) with
            | none => rw [hf] at h1; cases h1
            | some p =>
              rw [hf] at h1
              have h2 := List.mem_of_find?_eq_some hf
              have h3 := List.find?_some hf
              obtain ⟨a, b⟩ := p
              simp only [decide_eq_true_eq] at h3
              simp only [Option.map_some, Option.some.injEq] at h1
              subst h1; subst h3; exact h2
          rw [(hchk _ this).1]
          rfl
      cases h
      subst hc1
      have hpl : (copyCaches c (Coll.fresh ⟨M, c.autoSource, c.autoTarget⟩)).places = M := rfl
      refine ⟨⟨hi.keys, hi.wf, ?_, ?_⟩, ?_, rfl, rfl, ?_, ?_, ?_⟩
      · intro geo s d hd
        have hd : c.discr geo s = some d := by simpa [copyCaches, Coll.fresh] using hd
        obtain ⟨d0, u, h1, h2⟩ := hc.cached geo s d hd
        refine ⟨d0, u, ?_, by simpa [copyCaches, Coll.fresh] using h2⟩
        cases s with
        | stage1 =>
          simp only [prevDiscr, hpl, hdis] at h1 ⊢
          cases hl : lookupD c.places geo with
          | none => rw [hl] at h1; cases h1
          | some g => rw [hl] at h1; exact h1
        | stage2 => simpa [copyCaches, Coll.fresh, prevDiscr] using h1
        | quadStage2 => simpa [copyCaches, Coll.fresh, prevDiscr] using h1
      · intro geo f s hd
        have hd : c.discr geo s = none := by simpa [copyCaches, Coll.fresh] using hd
        simpa [copyCaches, Coll.fresh] using hc.uncached geo f s hd
      · intro k; rw [hpl]; exact hdis k
      · funext g s; simp [copyCaches, Coll.fresh]
      · funext g f s; simp [copyCaches, Coll.fresh]
      · intro k i; simp [copyCaches, Coll.fresh]

theorem refineLoop_spec (e : Env) (s : Stage) (m : List (GeoId × Geo)) (c : Coll) (hc : c.Inv e)
    (n : Nat) :
    ((refineLoop e s m c n).2.1).Inv e ∧ Ext c (refineLoop e s m c n).2.1 ∧
    (∀ x, (refineLoop e s m c n).1 = .error x → x = .refine ∨ x = .key ∨ x = .type) := by
  induction m generalizing c n with
  | nil => exact ⟨hc, Ext.refl c, by simp [refineLoop]⟩
  | cons p m ih =>
    obtain ⟨k, g⟩ := p
    simp only [refineLoop]
    by_cases hk : g.kind ≠ .qbx
    · rw [if_pos hk]; exact ih c hc n
    · rw [if_neg hk]
      obtain ⟨i, x, er, _⟩ := refineForGlobalQbx_spec e c hc n k s
      generalize refineForGlobalQbx e c n k s = r at i x er
      obtain ⟨o, c', n'⟩ := r
      cases o with
      | error y => exact ⟨i, x, er⟩
      | ok u =>
        dsimp only at i x er ⊢
        obtain ⟨i', x', er'⟩ := ih c' i n'
        exact ⟨i', x.trans x', er'⟩

/-- every collection on the heap satisfies the invariant -/
def World.Inv (e : Env) (w : World) : Prop := ∀ c ∈ w.heap, c.Inv e

/-- later worlds: no collection disappears, none loses anything -/
def WExt (w w' : World) : Prop := ∀ (i : Nat) (c : Coll), w.heap[i]? = some c → ∃ c', w'.heap[i]? = some c' ∧ Ext c c'

theorem WExt.refl (w : World) : WExt w w := fun _ c h => ⟨c, h, Ext.refl c⟩

theorem WExt.trans {a b c : World} (h : WExt a b) (h' : WExt b c) : WExt a c := by
  intro i x hx
  obtain ⟨y, hy, e1⟩ := h i x hx
  obtain ⟨z, hz, e2⟩ := h' i y hy
  exact ⟨z, hz, e1.trans e2⟩

theorem wext_set (w : World) (i n : Nat) (c c' : Coll) (h : w.heap[i]? = some c) (hx : Ext c c') :
    WExt w ⟨w.heap.set i c', n⟩ := by
  intro j d hd
  by_cases hij : i = j
  · subst hij
    rw [h] at hd; cases hd
    obtain ⟨hl, _⟩ := List.getElem?_eq_some_iff.1 h
    exact ⟨c', by simp [hl], hx⟩
  · exact ⟨d, by simpa [List.getElem?_set, hij] using hd, Ext.refl d⟩

theorem inv_set {e : Env} {w : World} (hw : w.Inv e) (i n : Nat) (c' : Coll) (hc : c'.Inv e) :
    World.Inv e ⟨w.heap.set i c', n⟩ := by
  intro d hd
  rcases List.mem_or_eq_of_mem_set hd with h | rfl
  · exact hw d h
  · exact hc

theorem wext_push (w : World) (n : Nat) (c' : Coll) : WExt w ⟨w.heap ++ [c'], n⟩ := by
  intro j d hd
  obtain ⟨hl, _⟩ := List.getElem?_eq_some_iff.1 hd
  exact ⟨d, by simpa [List.getElem?_append_left hl] using hd, Ext.refl d⟩

theorem inv_push {e : Env} {w : World} (hw : w.Inv e) (n : Nat) (c' : Coll) (hc : c'.Inv e) :
    World.Inv e ⟨w.heap ++ [c'], n⟩ := by
  intro d hd
  rcases List.mem_append.1 hd with h | h
  · exact hw d h
  · simp only [List.mem_singleton] at h; subst h; exact hc

theorem push_spec {e : Env} {w : World} (hw : w.Inv e) (r : Except GErr Coll)
    (hr : ∀ c, r = .ok c → c.Inv e) : World.Inv e (w.push r).2 ∧ WExt w (w.push r).2 := by
  cases r with
  | error x => exact ⟨hw, WExt.refl w⟩
  | ok c => exact ⟨inv_push hw w.calls c (hr c rfl), wext_push w w.calls c⟩

theorem mem_heap {w : World} {i : Nat} {c : Coll} (h : w.heap[i]? = some c) : c ∈ w.heap :=
  List.mem_of_getElem? h

theorem step_spec (e : Env) (w : World) (hw : w.Inv e) (o : Op) (ho : o.Ok) :
    World.Inv e (step e w o).2 ∧ WExt w (step e w o).2 := by
  cases o with
  | new a au =>
    refine push_spec hw _ (fun c hc => newColl_inv e a au c ?_ hc)
    rintro m rfl; exact ho
  | get i geo s =>
    simp only [step]
    cases h : w.heap[i]? with
    | none => exact ⟨hw, WExt.refl w⟩
    | some c =>
      dsimp only
      obtain ⟨i1, x1, _, _⟩ := getDiscr_spec e c (hw c (mem_heap h)) w.calls geo s
      generalize getDiscr e c w.calls geo s = r at i1 x1
      obtain ⟨o1, c1, n1⟩ := r
      cases o1 <;> exact ⟨inv_set hw _ _ _ i1, wext_set w _ _ _ _ h x1⟩
  | conn i f t =>
    simp only [step]
    cases h : w.heap[i]? with
    | none => exact ⟨hw, WExt.refl w⟩
    | some c =>
      dsimp only
      obtain ⟨i1, x1⟩ := connection_inv e c (hw c (mem_heap h)) w.calls f t
      generalize connection e c w.calls f t = r at i1 x1
      obtain ⟨o1, c1, n1⟩ := r
      cases o1 <;> exact ⟨inv_set hw _ _ _ i1, wext_set w _ _ _ _ h x1⟩
  | copy i =>
    simp only [step]
    cases h : w.heap[i]? with
    | none => exact ⟨hw, WExt.refl w⟩
    | some c =>
      exact push_spec hw _ (fun c' hc' => copyColl_inv e c c' _ (hw c (mem_heap h)).keys hc')
  | merge i j =>
    simp only [step]
    cases h : w.heap[i]? with
    | none => exact ⟨hw, WExt.refl w⟩
    | some c => cases h' : w.heap[j]? with
      | none => exact ⟨hw, WExt.refl w⟩
      | some d =>
        exact push_spec hw _ (fun c' hc' => copyColl_inv e c c' _
          (foldl_insertD_nodup _ _ (hw c (mem_heap h)).keys) hc')
  | mergeMap i m =>
    simp only [step]
    cases h : w.heap[i]? with
    | none => exact ⟨hw, WExt.refl w⟩
    | some c =>
      exact push_spec hw _ (fun c' hc' => copyColl_inv e c c' _
          (foldl_insertD_nodup _ _ (hw c (mem_heap h)).keys) hc')
  | add i m =>
    simp only [step]
    cases h : w.heap[i]? with
    | none => exact ⟨hw, WExt.refl w⟩
    | some c =>
      exact push_spec hw _ (fun c' hc' => (addGeometry_spec e c (hw c (mem_heap h)) m ho c' hc').1)
  | refine i s =>
    simp only [step]
    cases h : w.heap[i]? with
    | none => exact ⟨hw, WExt.refl w⟩
    | some c =>
      dsimp only
      cases hcp : copyColl e c c.places with
      | error x => exact ⟨hw, WExt.refl w⟩
      | ok c0 =>
        dsimp only
        obtain ⟨i1, _, _⟩ := refineLoop_spec e s c0.places c0
          (copyColl_inv e c c0 _ (hw c (mem_heap h)).keys hcp) w.calls
        generalize refineLoop e s c0.places c0 w.calls = r at i1
        obtain ⟨o1, c1, n1⟩ := r
        cases o1 with
        | error x => exact ⟨hw, fun _ c h => ⟨c, h, Ext.refl c⟩⟩
        | ok u => exact ⟨inv_push hw _ _ i1, wext_push w _ _⟩
  | evalCache i k j v =>
    simp only [step]
    cases h : w.heap[i]? with
    | none => exact ⟨hw, WExt.refl w⟩
    | some c =>
      have hc := hw c (mem_heap h)
      refine ⟨inv_set hw i _ _ ⟨hc.keys, hc.wf, ?_, hc.uncached⟩, wext_set w _ _ _ _ h
        ⟨rfl, rfl, rfl, fun _ _ _ h => h, fun _ _ _ _ h => h⟩⟩
      intro geo s d hd
      obtain ⟨d0, u, h1, h2⟩ := hc.cached geo s d hd
      refine ⟨d0, u, ?_, h2⟩
      cases s <;> exact h1

theorem run_spec (e : Env) (os : List Op) (w : World) (hw : w.Inv e) (ho : ∀ o ∈ os, o.Ok) :
    World.Inv e (run e w os) ∧ WExt w (run e w os) := by
  induction os generalizing w with
  | nil => exact ⟨hw, WExt.refl w⟩
  | cons o os ih =>
    obtain ⟨h1, h2⟩ := step_spec e w hw o (ho o (by simp))
    obtain ⟨h3, h4⟩ := ih _ h1 (fun o' h' => ho o' (by simp [h']))
    exact ⟨h3, h2.trans h4⟩

theorem init_inv (e : Env) : World.init.Inv e := by
  intro c hc; cases hc

end Verif.Coll
