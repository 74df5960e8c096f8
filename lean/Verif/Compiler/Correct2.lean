import Verif.Compiler.Correct

/-! Correctness invariant of the compiler, part 2: the `map_...` methods. -/

namespace Verif.Compiler

variable {V : Type} {I : Interp V} {env : Ctx V} {G : String → Prop}

/-- value of an expression, with a default for undefined ones -/
def F (I : Interp V) (env : Ctx V) (e : Expr) : V := (den I env e).getD I.zero

theorem F_eq {e : Expr} {v : V} (h : den I env e = some v) : F I env e = v := by simp [F, h]

theorem denL_eq_map {l : List Expr} (h : ∀ e ∈ l, ∃ v, den I env e = some v) :
    denL I env l = some (l.map (F I env)) := by
  induction l with
  | nil => simp [denL]
  | cons e l ih =>
    obtain ⟨v, hv⟩ := h e (by simp)
    simp [denL, hv, ih (fun e he => h e (by simp [he])), F_eq hv]

/-- the action compiles its expression correctly -/
def ActOk (I : Interp V) (env : Ctx V) (G : String → Prop) (a : Act) : Prop :=
  (∃ v, den I env a.1 = some v) ∧ CompV I env G (F I env a.1) a.2

theorem ActOk.run {a : Act} (h : ActOk I env G a) : CompV I env G (F I env a.1) a.run := by
  obtain ⟨v, hv⟩ := h.1
  have := F_eq hv
  unfold Act.run
  exact compV_memoized (by rw [hv, this]) h.2

/-- proof device: `GoodV` for a list of compiled operands -/
structure GoodL (I : Interp V) (G : String → Prop) (code : List Stmt) (ρ : Ctx V) (vs : List V)
    (rs : List Expr) : Prop where
  raw : RawOkL G rs
  dep : ∀ d ∈ depsL rs, DepOk G code d
  val : denL I ρ rs = some vs

theorem GoodL.nil {code : List Stmt} {ρ : Ctx V} : GoodL I G code ρ [] [] :=
  ⟨by simp [RawOkL], by simp [depsL], by simp [denL]⟩

theorem GoodL.cons {code : List Stmt} {ρ : Ctx V} {v : V} {vs : List V} {r : Expr} {rs : List Expr}
    (h : GoodV I G code ρ v r) (hs : GoodL I G code ρ vs rs) :
    GoodL I G code ρ (v :: vs) (r :: rs) := by
  refine ⟨⟨h.raw, hs.raw⟩, ?_, by simp [denL, h.val, hs.val]⟩
  intro d hd
  simp only [depsL, List.mem_append] at hd
  rcases hd with hd | hd
  · exact h.dep d hd
  · exact hs.dep d hd

theorem GoodL.mono {code ext : List Stmt} {ρ ρ' : Ctx V} {vs : List V} {rs : List Expr}
    (h : GoodL I G code ρ vs rs) (hag : ∀ x, (¬ G x ∨ x ∈ assigned code) → ρ' x = ρ x) :
    GoodL I G (code ++ ext) ρ' vs rs := by
  refine ⟨h.raw, fun d hd => (h.dep d hd).mono, ?_⟩
  rw [denL_congr I (ρ' := ρ) rs, h.val]
  intro x hx
  obtain ⟨d, hd, rfl⟩ := List.mem_map.1 hx
  apply hag
  have := h.dep d hd
  unfold DepOk at this
  split at this
  · exact Or.inr this
  · exact Or.inl this

theorem GoodL.ext {st st' : St} {ρ ρ' : Ctx V} {vs : List V} {rs : List Expr}
    (h : GoodL I G st.code ρ vs rs) (he : Ext G st ρ st' ρ') : GoodL I G st'.code ρ' vs rs := by
  obtain ⟨e, h1, -⟩ := he.code
  rw [h1]; exact h.mono he.agree

theorem mapRec_ok : ∀ (as : List Act) (st : St) (ρ : Ctx V), (∀ a ∈ as, ActOk I env G a) →
    Inv I env G st ρ → ∃ rs st' ρ', mapRec as st = .ok (rs, st') ∧ Inv I env G st' ρ' ∧
      Ext G st ρ st' ρ' ∧ GoodL I G st'.code ρ' (as.map (fun a => F I env a.1)) rs
  | [], st, ρ, _, hinv => ⟨[], st, ρ, rfl, hinv, Ext.refl _ _, GoodL.nil⟩
  | a :: as, st, ρ, ha, hinv => by
    obtain ⟨r, st1, ρ1, h1, h2, h3, h4⟩ := (ha a (by simp)).run st ρ hinv
    obtain ⟨rs, st2, ρ2, h5, h6, h7, h8⟩ := mapRec_ok as st1 ρ1 (fun a h => ha a (by simp [h])) h2
    exact ⟨r :: rs, st2, ρ2, by simp [mapRec, h1, h5], h6, h3.trans h7, GoodL.cons (h4.ext h7) h8⟩

theorem mapAssign_ok (hG : ∀ i, G (plainName i)) : ∀ (as : List Act) (st : St) (ρ : Ctx V),
    (∀ a ∈ as, ActOk I env G a) →
    Inv I env G st ρ → ∃ rs st' ρ', mapAssign as st = .ok (rs, st') ∧ Inv I env G st' ρ' ∧
      Ext G st ρ st' ρ' ∧ GoodL I G st'.code ρ' (as.map (fun a => F I env a.1)) rs
  | [], st, ρ, _, hinv => ⟨[], st, ρ, rfl, hinv, Ext.refl _ _, GoodL.nil⟩
  | a :: as, st, ρ, ha, hinv => by
    obtain ⟨r, st1, ρ1, h1, h2, h3, h4⟩ := (ha a (by simp)).run st ρ hinv
    obtain ⟨ρ2, h5, h6, h7⟩ := assignNew_ok 0 none hG (by simp) h2 h4
    obtain ⟨rs, st3, ρ3, h8, h9, h10, h11⟩ :=
      mapAssign_ok hG as (assignNew 0 none r st1).2 ρ2 (fun a h => ha a (by simp [h])) h5
    exact ⟨_ :: rs, st3, ρ3, by simp [mapAssign, h1, h8], h9, (h3.trans h6).trans h10,
      GoodL.cons (h7.ext h10) h11⟩

theorem sumRest_ok (hI : ∀ v, I.add I.zero v = v) (hG : ∀ i, G (plainName i)) :
    ∀ (as : List Act) (v : V) (r : Expr) (st : St) (ρ : Ctx V), (∀ a ∈ as, ActOk I env G a) →
    Inv I env G st ρ → GoodV I G st.code ρ v r →
    ∃ r' st' ρ', sumRest r as st = .ok (r', st') ∧ Inv I env G st' ρ' ∧ Ext G st ρ st' ρ' ∧
      GoodV I G st'.code ρ' ((as.map (fun a => F I env a.1)).foldl I.add v) r'
  | [], v, r, st, ρ, _, hinv, hg => ⟨r, st, ρ, rfl, hinv, Ext.refl _ _, hg⟩
  | a :: as, v, r, st, ρ, ha, hinv, hg => by
    obtain ⟨r1, st1, ρ1, h1, h2, h3, h4⟩ := (ha a (by simp)).run st ρ hinv
    have hg1 := hg.ext h3
    have hsum : GoodV I G st1.code ρ1 (I.add v (F I env a.1)) (.sum [r, r1]) := by
      refine ⟨⟨hg1.raw, h4.raw, trivial⟩, ?_, ?_⟩
      · intro d hd
        simp only [deps, depsL, List.append_nil, List.mem_append] at hd
        rcases hd with hd | hd
        · exact hg1.dep d hd
        · exact h4.dep d hd
      · simp [den, denL, hg1.val, h4.val, hI]
    obtain ⟨ρ2, h5, h6, h7⟩ := assignNew_ok 0 none hG (by simp) h2 hsum
    obtain ⟨r', st', ρ', h8, h9, h10, h11⟩ := sumRest_ok hI hG as _ _ _ ρ2
      (fun a h => ha a (by simp [h])) h5 h7
    exact ⟨r', st', ρ', by simp [sumRest, h1, h8], h9, (h3.trans h6).trans h10, by simpa using h11⟩

theorem sumFold_ok (hI : ∀ v, I.add I.zero v = v) (hG : ∀ i, G (plainName i))
    (as : List Act) (hne : as ≠ []) (ha : ∀ a ∈ as, ActOk I env G a) :
    CompV I env G ((as.map (fun a => F I env a.1)).foldl I.add I.zero) (sumFold as) := by
  intro st ρ hinv
  cases as with
  | nil => exact absurd rfl hne
  | cons a as =>
    obtain ⟨r, st1, ρ1, h1, h2, h3, h4⟩ := (ha a (by simp)).run st ρ hinv
    obtain ⟨ρ2, h5, h6, h7⟩ := assignNew_ok 0 none hG (by simp) h2 h4
    obtain ⟨r', st', ρ', h8, h9, h10, h11⟩ := sumRest_ok hI hG as _ _ _ ρ2
      (fun a h => ha a (by simp [h])) h5 h7
    refine ⟨r', st', ρ', by simp [sumFold, h1, h8], h9, (h3.trans h6).trans h10, ?_⟩
    simpa [hI] using h11

theorem lastIdx_spec (k : String) : ∀ (l : List String) (i best : Nat) (full : List String),
    (∀ j, l[j]? = full[i + j]?) → (full[best]? = some k ∨ k ∈ l) →
    full[lastIdx k l i best]? = some k
  | [], i, best, full, _, h => by simpa [lastIdx] using h
  | x :: xs, i, best, full, hl, h => by
    unfold lastIdx
    apply lastIdx_spec k xs (i + 1)
    · intro j
      have := hl (j + 1)
      rw [List.getElem?_cons_succ] at this
      rw [this]; congr 1; omega
    · by_cases hx : x = k
      · left
        have := hl 0
        simp only [List.getElem?_cons_zero, Nat.add_zero] at this
        simp [hx, ← this]
      · simp only [hx, if_false]
        rcases h with h | h
        · exact Or.inl h
        · right
          rcases List.mem_cons.1 h with h | h
          · exact absurd h.symm hx
          · exact h

theorem tks_lookup {k : String} {tks : List String} (h : k ∈ tks) :
    tks[lastIdx k tks 0 0]? = some k :=
  lastIdx_spec k tks 0 0 tks (by simp) (Or.inr h)

theorem foldl_e2v_mem (zs : List (String × Expr)) : ∀ (m : List (Expr × Expr)) (p : Expr × Expr),
    p ∈ zs.foldl (fun m p => (p.2, Expr.nir p.1) :: m) m ↔
      p ∈ m ∨ ∃ q ∈ zs, p = (q.2, .nir q.1) := by
  induction zs with
  | nil => intro m p; simp
  | cons z zs ih =>
    intro m p
    rw [List.foldl_cons, ih]
    simp only [List.mem_cons]
    constructor
    · rintro ((h | h) | ⟨q, hq, h⟩)
      · exact Or.inr ⟨z, Or.inl rfl, h⟩
      · exact Or.inl h
      · exact Or.inr ⟨q, Or.inr hq, h⟩
    · rintro (h | ⟨q, hq | hq, h⟩)
      · exact Or.inl (Or.inr h)
      · subst hq; exact Or.inl (Or.inl h)
      · exact Or.inr ⟨q, hq, h⟩

theorem map_fst_zip_eq {α β : Type} : ∀ {l : List α} {m : List β}, l.length = m.length →
    (l.zip m).map Prod.fst = l
  | [], [], _ => rfl
  | _ :: l, _ :: m, h => by
    simp only [List.zip_cons_cons, List.map_cons]
    rw [map_fst_zip_eq (by simpa using h)]

theorem map_snd_zip_eq {α β : Type} : ∀ {l : List α} {m : List β}, l.length = m.length →
    (l.zip m).map Prod.snd = m
  | [], [], _ => rfl
  | _ :: l, _ :: m, h => by
    simp only [List.zip_cons_cons, List.map_cons]
    rw [map_snd_zip_eq (by simpa using h)]

theorem zip_map_fst_snd {α β γ : Type} (f : β → γ) : ∀ (l : List (α × β)),
    (l.map Prod.fst).zip (l.map (fun p => f p.2)) = l.map (fun p => (p.1, f p.2))
  | [] => rfl
  | p :: l => by simp [zip_map_fst_snd f l]

theorem zip_map_right {α β γ : Type} (f : β → γ) : ∀ (l : List α) (m : List β),
    l.zip (m.map f) = (l.zip m).map (fun p => (p.1, f p.2))
  | [], m => by simp
  | _ :: l, [] => by simp
  | a :: l, b :: m => by simp [zip_map_right f l m]

/-- look up the value of the first key (used to define the new valuation) -/
theorem update_zip {β : Type} (ρ : String → Option β) : ∀ (ns : List String) (vs : List β),
    ns.Nodup → ns.length = vs.length →
    ∃ ρ' : String → Option β, (∀ x, x ∉ ns → ρ' x = ρ x) ∧
      ∀ p ∈ ns.zip vs, ρ' p.1 = some p.2
  | [], [], _, _ => ⟨ρ, by simp⟩
  | n :: ns, v :: vs, hnd, hlen => by
    rw [List.nodup_cons] at hnd
    obtain ⟨ρ', h1, h2⟩ := update_zip ρ ns vs hnd.2 (by simpa using hlen)
    refine ⟨fun x => if x = n then some v else ρ' x, ?_, ?_⟩
    · intro x hx
      simp only [List.mem_cons, not_or] at hx
      simp [hx.1, h1 x hx.2]
    · intro p hp
      simp only [List.zip_cons_cons, List.mem_cons] at hp
      rcases hp with hp | hp
      · subst hp; simp
      · have : p.1 ≠ n := by
          rintro hh
          exact hnd.1 (hh ▸ (List.of_mem_zip (a := p.1) (b := p.2) hp).1)
        simp [this, h2 p hp]

/-- The potential computed for a group with the features of `intg g d k` is the
value of each member. -/
theorem pot_of_feat (hI : Lawful I) {c : Cfg} {g g' : IG} {d k d' k' : List Expr} {v : V}
    (hf : feat c (.intg g' d' k') = feat c (.intg g d k))
    (hd' : ∀ e ∈ d', ∃ v, den I env e = some v) (hk' : ∀ e ∈ k', ∃ v, den I env e = some v)
    (hv : den I env (.intg g' d' k') = some v)
    {ps : List (String × V)} (hps : ps.Perm ((g.sks.zip d).map (fun p => (p.1, F I env p.2)))) :
    I.pot g.src ps (g.kn.zip (k.map (F I env))) g'.tk g'.tgt g'.lim = some v := by
  simp only [feat, Feat.mk.injEq] at hf
  obtain ⟨h1, h2, -, h4⟩ := hf
  simp only [den, denL_eq_map hd', denL_eq_map hk'] at hv
  rw [← hv, h1]
  apply hI.pot_perm
  · refine hps.trans ?_
    rw [zip_map_right]
    apply List.Perm.map
    exact (sortKey_perm c.skKey _).symm.trans (h2 ▸ sortKey_perm c.skKey _)
  · rw [zip_map_right, zip_map_right]
    apply List.Perm.map
    exact (sortKey_perm Prod.fst _).symm.trans (h4 ▸ sortKey_perm Prod.fst _)

theorem intgBody_ok (hI : Lawful I) (hG : ∀ i, G (plainName i)) {c : Cfg} (hc : CfgOk c)
    {all : List Expr} {g : IG} {d k : List Expr} {dA kA : List Act}
    (hdA : dA.map Prod.fst = d) (hkA : kA.map Prod.fst = k)
    (hdOk : ∀ a ∈ dA, ActOk I env G a) (hkOk : ∀ a ∈ kA, ActOk I env G a)
    (hself : Expr.intg g d k ∈ all) (hlen : g.sks.length = d.length) (hne : g.sks ≠ [])
    (hall : ∀ o ∈ all, ∃ g' d' k', o = .intg g' d' k' ∧ g'.lim ≠ .avg ∧
      (∀ e ∈ d', ∃ v, den I env e = some v) ∧ (∀ e ∈ k', ∃ v, den I env e = some v) ∧
      ∃ v, den I env o = some v) :
    CompV I env G (F I env (.intg g d k)) (intgBody c all (.intg g d k) g dA kA) := by
  intro st ρ hinv
  obtain ⟨_, _, _, -, -, -, -, v0, hv0⟩ := hall _ hself
  unfold intgBody
  split
  · rename_i r hr
    obtain ⟨w, h1, h2⟩ := hinv.e2v _ (alookup_mem hr)
    simp only at h1
    rw [F_eq h1]
    exact ⟨r, st, ρ, rfl, hinv, Ext.refl _ _, h2⟩
  have hsperm : (sortedPairs c g dA).Perm (g.sks.zip dA) := sortKey_perm _ _
  generalize hsorted : sortedPairs c g dA = sorted at hsperm ⊢
  have hlenA : g.sks.length = dA.length := by rw [hlen, ← hdA, List.length_map]
  have hsne : sorted.isEmpty = false := by
    rw [List.isEmpty_eq_false_iff]
    intro h
    rw [h] at hsperm
    have := hsperm.length_eq
    simp only [List.length_nil, List.length_zip, ← hlenA, Nat.min_self] at this
    exact hne (List.length_eq_zero_iff.1 this.symm)
  rw [hsne]
  obtain ⟨dvars, st1, ρ1, h1, h2, h3, h4⟩ := mapAssign_ok hG (sorted.map Prod.snd) st ρ (by
    intro a ha
    obtain ⟨p, hp, rfl⟩ := List.mem_map.1 ha
    exact hdOk _ (List.of_mem_zip (a := p.1) (b := p.2) (hsperm.mem_iff.1 hp)).2) hinv
  rw [h1]
  have hgperm : (groupOf c all (.intg g d k)).Perm
      (all.filter (fun o => feat c o = feat c (.intg g d k))) := hc _
  generalize hgroup : groupOf c all (.intg g d k) = group at hgperm ⊢
  have hgmem : ∀ o, o ∈ group ↔ o ∈ all ∧ feat c o = feat c (.intg g d k) := by
    intro o; rw [hgperm.mem_iff]; simp
  have hselfg : Expr.intg g d k ∈ group := (hgmem _).2 ⟨hself, rfl⟩
  have hgne : group.isEmpty = false := by
    rw [List.isEmpty_eq_false_iff]; exact List.ne_nil_of_mem hselfg
  have hnoavg : (group.any (fun o => limOf o = .avg)) = false := by
    rw [List.any_eq_false]
    intro o ho
    obtain ⟨g', d', k', rfl, hl, -⟩ := hall o ((hgmem o).1 ho).1
    exact fun h => hl (of_decide_eq_true h)
  rw [hgne, hnoavg]
  simp only [Bool.false_eq_true, if_false]
  obtain ⟨fn1, fn2, fn3, fn4⟩ := freshNames_spec group.length st1.names
  generalize hfn : freshNames group.length st1.names = fn at fn1 fn2 fn3 fn4 ⊢
  have hinv2 : Inv I env G { st1 with names := fn.2 } ρ1 :=
    { h2 with
      gen := by
        intro n hn
        rcases (fn4 n).1 hn with h | h
        · exact h2.gen n h
        · obtain ⟨i, hi⟩ := (fn3 n h).2; rw [hi]; exact hG i
      asgNames := by
        intro n hn
        exact (fn4 n).2 (Or.inl (h2.asgNames n hn)) }
  have hext2 : Ext G st1 ρ1 { st1 with names := fn.2 } ρ1 :=
    ⟨fun _ _ => rfl, fun n hn => (fn4 n).2 (Or.inl hn), [], by simp, by simp [assigned]⟩
  obtain ⟨kvals, st3, ρ3, h5, h6, h7, h8⟩ := mapRec_ok kA { st1 with names := fn.2 } ρ1 hkOk hinv2
  rw [h5]
  simp only
  -- the reserved names are not assigned yet
  have hres : ∀ n ∈ fn.1, n ∉ assigned st3.code := by
    intro n hn hasg
    obtain ⟨ext, he1, he2⟩ := h7.code
    rw [he1, assigned_append] at hasg
    rcases List.mem_append.1 hasg with h | h
    · exact (fn3 n hn).1 (h2.asgNames n h)
    · exact he2 n h ((fn4 n).2 (Or.inr hn))
  have hfnG : ∀ n ∈ fn.1, G n := by
    intro n hn; obtain ⟨i, hi⟩ := (fn3 n hn).2; rw [hi]; exact hG i
  obtain ⟨ρ4, hρ4a, hρ4b⟩ := update_zip ρ3 fn.1 (group.map (F I env)) fn2 (by simp [fn1])
  have hag : ∀ x, (¬ G x ∨ x ∈ assigned st3.code) → ρ4 x = ρ3 x := by
    intro x hx
    apply hρ4a
    intro hmem
    rcases hx with hx | hx
    · exact hx (hfnG x hmem)
    · exact hres x hmem hx
  have hd3 : GoodL I G st3.code ρ3 _ dvars := (h4.ext hext2).ext h7
  have hd4 := hd3.mono (ext := []) hag
  have hk4 := h8.mono (ext := []) hag
  rw [List.append_nil] at hd4 hk4
  have hvals : ∀ p ∈ fn.1.zip group, ρ4 p.1 = some (F I env p.2) := by
    intro p hp
    have := hρ4b (p.1, F I env p.2) (by
      rw [zip_map_right]
      exact List.mem_map_of_mem (f := fun p : String × Expr => (p.1, F I env p.2)) hp)
    simpa using this
  have hgroupDen : ∀ o ∈ group, den I env o = some (F I env o) := by
    intro o ho
    obtain ⟨_, _, _, -, -, -, -, v, hv⟩ := hall o ((hgmem o).1 ho).1
    rw [hv, F_eq hv]
  have hassg : (Stmt.pot (mkOuts fn.1 group (groupTks c group)) (groupTks c group) g.kn kvals
      (sorted.map Prod.fst) dvars g.src (maxPrio c group)).assignees = fn.1 := by
    simp only [Stmt.assignees, mkOuts, List.map_map]
    have : (Out.name ∘ fun p : String × Expr =>
        ({ name := p.1, tkIdx := lastIdx (tkOf p.2) (groupTks c group) 0 0, tgt := tgtOf p.2,
           lim := limOf p.2 } : Out)) = Prod.fst := by funext p; rfl
    rw [this, map_fst_zip_eq fn1]
  have hsnoc := h6.snoc (ρ' := ρ4) (names := st3.names)
    (s := .pot (mkOuts fn.1 group (groupTks c group)) (groupTks c group) g.kn kvals
      (sorted.map Prod.fst) dvars g.src (maxPrio c group)) hag h6.gen
    (fun _ h => h)
    (by
      rw [hassg]
      intro n hn
      exact ⟨h7.names n ((fn4 n).2 (Or.inr hn)), hres n hn⟩)
    (by rw [hassg]; exact fn2)
    (by
      refine ⟨_, _, hd4.val, hk4.val, ?_⟩
      intro o ho
      simp only [mkOuts, List.mem_map] at ho
      obtain ⟨p, hp, rfl⟩ := ho
      have hpg : p.2 ∈ group := (List.of_mem_zip (a := p.1) (b := p.2) hp).2
      obtain ⟨hpall, hpf⟩ := (hgmem _).1 hpg
      obtain ⟨g', d', k', hpeq, -, hdd, hkd, v, hv⟩ := hall _ hpall
      refine ⟨tkOf p.2, F I env p.2, ?_, ?_, hvals p hp⟩
      · apply tks_lookup
        simp only [groupTks]
        exact List.mem_map_of_mem ((sortKey_perm _ _).mem_iff.2 hpg)
      · rw [hpeq] at hpf hv ⊢
        rw [F_eq hv]
        simp only [tkOf, tgtOf, limOf]
        have hkk : kA.map (fun a => F I env a.1) = k.map (F I env) := by
          rw [← hkA, List.map_map]; rfl
        rw [hkk]
        apply pot_of_feat hI hpf hdd hkd hv
        rw [List.map_map]
        have : ((fun a : Act => F I env a.1) ∘ Prod.snd : String × Act → V)
            = (fun p => (fun a : Act => F I env a.1) p.2) := rfl
        rw [this, zip_map_fst_snd (fun a : Act => F I env a.1) sorted]
        refine (hsperm.map _).trans ?_
        rw [← hdA, zip_map_right, List.map_map]
        exact List.Perm.refl _)
    ⟨hd3.raw, h8.raw⟩
    (by
      intro x hx
      simp only [rawDeps, List.mem_append] at hx
      rcases hx with hx | hx
      · exact hd3.dep x hx
      · exact h8.dep x hx)
  generalize hst4 : emitPot c g group fn.1 (sorted.map Prod.fst) dvars kvals st3 = st4
  have hcode4 : st4.code = st3.code ++ [.pot (mkOuts fn.1 group (groupTks c group)) (groupTks c group)
      g.kn kvals (sorted.map Prod.fst) dvars g.src (maxPrio c group)] := by
    rw [← hst4]; rfl
  have hnames4 : st4.names = st3.names := by rw [← hst4]; rfl
  have hmemo4 : st4.memo = st3.memo := by rw [← hst4]; rfl
  have he2v4 : st4.e2v = (fn.1.zip group).foldl (fun m p => (p.2, .nir p.1) :: m) st3.e2v := by
    rw [← hst4]; rfl
  have hnirGood : ∀ p ∈ fn.1.zip group, GoodV I G st4.code ρ4 (F I env p.2) (.nir p.1) := by
    intro p hp
    refine ⟨by simp [RawOk], ?_, by simpa [den] using hvals p hp⟩
    intro x hx
    simp only [deps, List.mem_singleton] at hx
    subst hx
    have hmem : p.1 ∈ fn.1 := (List.of_mem_zip (a := p.1) (b := p.2) hp).1
    simp only [DepOk, if_true, hcode4, assigned_append]
    apply List.mem_append_right
    simp only [assigned, List.flatMap_cons, List.flatMap_nil, List.append_nil]
    rw [hassg]; exact hmem
  have hinv4 : Inv I env G st4 ρ4 := by
    constructor
    · exact hsnoc.agree
    · rw [hnames4]; exact hsnoc.gen
    · rw [hnames4, hcode4]; exact hsnoc.asgNames
    · rw [hcode4]; exact hsnoc.asgNodup
    · rw [hcode4]; exact hsnoc.sat
    · rw [hcode4]; exact hsnoc.topo
    · rw [hmemo4, hcode4]; exact hsnoc.memo
    · intro p hp
      rw [he2v4] at hp
      rcases (foldl_e2v_mem _ _ _).1 hp with h | ⟨q, hq, rfl⟩
      · rw [hcode4]; exact hsnoc.e2v p h
      · have hqg : q.2 ∈ group := (List.of_mem_zip (a := q.1) (b := q.2) hq).2
        exact ⟨F I env q.2, hgroupDen _ hqg, hnirGood q hq⟩
  have hext3 : Ext G st ρ st3 ρ3 := (h3.trans hext2).trans h7
  have hext4 : Ext G st ρ st4 ρ4 := by
    obtain ⟨ext, he1, he2⟩ := hext3.code
    refine ⟨?_, ?_, ext ++ [_], by rw [hcode4, he1, List.append_assoc], ?_⟩
    · intro x hx
      rw [hag x, hext3.agree x hx]
      rcases hx with hx | hx
      · exact Or.inl hx
      · right; rw [he1, assigned_append]; exact List.mem_append_left _ hx
    · intro n hn; rw [hnames4]; exact hext3.names n hn
    · intro n hn
      rw [assigned_append] at hn
      rcases List.mem_append.1 hn with h | h
      · exact he2 n h
      · simp only [assigned, List.flatMap_cons, List.flatMap_nil, List.append_nil] at h
        rw [hassg] at h
        exact fun hh => (fn3 n h).1 (h3.names n hh)
  have hfound : ∃ r, alookup (.intg g d k) st4.e2v = some r := by
    obtain ⟨i, hi, hgi⟩ := List.mem_iff_getElem.1 hselfg
    have hin : i < fn.1.length := by rw [fn1]; exact hi
    apply alookup_isSome_of_mem (b := .nir fn.1[i])
    rw [he2v4, foldl_e2v_mem]
    right
    refine ⟨(fn.1[i], group[i]), ?_, by rw [hgi]⟩
    rw [List.mem_iff_getElem]
    exact ⟨i, by rw [List.length_zip]; exact Nat.lt_min.2 ⟨hin, hi⟩, by simp⟩
  obtain ⟨r, hr⟩ := hfound
  rw [hr]
  obtain ⟨w, hw1, hw2⟩ := hinv4.e2v _ (alookup_mem hr)
  simp only at hw1 hw2
  rw [F_eq hw1]
  exact ⟨r, st4, ρ4, rfl, hinv4, hext4, hw2⟩

/-! ### The main induction -/

theorem acts_fst (c : Cfg) (all : List Expr) : ∀ (l : List Expr), (acts c all l).map Prod.fst = l
  | [] => by simp [acts]
  | e :: l => by simp [acts, acts_fst c all l]

theorem mem_acts {c : Cfg} {all : List Expr} {a : Act} : ∀ {l : List Expr}, a ∈ acts c all l →
    a.1 ∈ l ∧ a.2 = compU c all a.1
  | [], h => by simp [acts] at h
  | e :: l, h => by
    simp only [acts, List.mem_cons] at h
    rcases h with h | h
    · subst h; simp
    · have := mem_acts h; exact ⟨List.mem_cons_of_mem _ this.1, this.2⟩

theorem map_F_acts (c : Cfg) (all : List Expr) (l : List Expr) :
    (acts c all l).map (fun a => F I env a.1) = l.map (F I env) := by
  conv => rhs; rw [← acts_fst c all l, List.map_map]
  rfl

section
variable {c : Cfg} {e0 : Expr}

/-- Assumptions about the whole expression. -/
structure Hyp (I : Interp V) (env : Ctx V) (c : Cfg) (e0 : Expr) : Prop where
  law : Lawful I
  cfg : CfgOk c
  wf : WF e0
  noClash : NoClash e0
  defined : AllDefined I env e0

/-- names that are not variables of `e0` -/
def NotVar (e0 : Expr) (x : String) : Prop := x ∉ varNames e0

theorem Hyp.plain (h : Hyp I env c e0) (i : Nat) : NotVar e0 (plainName i) :=
  fun hx => h.noClash _ hx (Or.inl ⟨i, rfl⟩)

theorem Hyp.pfx (h : Hyp I env c e0) {p : String} {sc : Scope} {ch : Expr}
    (hm : .cse (some p) sc ch ∈ subs e0) (i : Nat) : NotVar e0 (prefixName p i) := by
  intro hx
  apply h.noClash _ hx
  right
  refine ⟨p, sc, ch, hm, ?_⟩
  cases i with
  | zero => exact Or.inl rfl
  | succ i => exact Or.inr ⟨i + 2, rfl⟩

theorem Hyp.denF (h : Hyp I env c e0) {e : Expr} (he : e ∈ subs e0) :
    den I env e = some (F I env e) := by
  obtain ⟨v, hv⟩ := h.defined e he
  rw [hv, F_eq hv]

theorem Hyp.user (h : Hyp I env c e0) {e : Expr} (he : e ∈ subs e0) {d : Bool × String}
    (hd : d ∈ deps e) : d.1 = false ∧ ¬ NotVar e0 d.2 := by
  have hd0 := deps_of_subs e0 he hd
  exact ⟨deps_user h.wf hd0, fun hn => hn (List.mem_map_of_mem hd0)⟩

/-- user expressions without layer potentials compile to themselves -/
theorem Hyp.goodSelf (h : Hyp I env c e0) {e : Expr} (he : e ∈ subs e0) (ho : ops e = [])
    {st : St} {ρ : Ctx V} (hinv : Inv I env (NotVar e0) st ρ) :
    GoodV I (NotVar e0) st.code ρ (F I env e) e := by
  refine ⟨rawOk_of e ho ?_, ?_, ?_⟩
  · intro x hx
    obtain ⟨d, hd, rfl⟩ := List.mem_map.1 hx
    exact (h.user he hd).2
  · intro d hd
    have := h.user he hd
    simp [DepOk, this.1, this.2]
  · rw [← h.denF he]
    apply den_congr
    intro x hx
    obtain ⟨d, hd, rfl⟩ := List.mem_map.1 hx
    exact hinv.agree _ (h.user he hd).2

theorem Hyp.leaf (h : Hyp I env c e0) {e : Expr} (he : e ∈ subs e0) (ho : ops e = []) :
    CompV I env (NotVar e0) (F I env e) (fun st => .ok (e, st)) := by
  intro st ρ hinv
  exact ⟨e, st, ρ, rfl, hinv, Ext.refl _ _, h.goodSelf he ho hinv⟩

theorem Hyp.all (h : Hyp I env c e0) : ∀ o ∈ nub (ops e0), ∃ g' d' k', o = .intg g' d' k' ∧ g'.lim ≠ .avg ∧
      (∀ e ∈ d', ∃ v, den I env e = some v) ∧ (∀ e ∈ k', ∃ v, den I env e = some v) ∧
      ∃ v, den I env o = some v := by
  intro o ho
  obtain ⟨h1, h2⟩ := (mem_ops_iff e0).1 (mem_nub.1 ho)
  cases o with
  | intg g d k =>
    refine ⟨g, d, k, rfl, (h.wf _ h1).1, ?_, ?_, h.defined _ h1⟩
    · intro e he
      exact h.defined e (subs_trans e0 (t := .intg g d k)
        (by simp only [subs, List.mem_cons, List.mem_append]; exact Or.inr (Or.inl (mem_subsL.2 ⟨e, he, self_mem_subs e⟩))) h1)
    · intro e he
      exact h.defined e (subs_trans e0 (t := .intg g d k)
        (by simp only [subs, List.mem_cons, List.mem_append]; exact Or.inr (Or.inr (mem_subsL.2 ⟨e, he, self_mem_subs e⟩))) h1)
  | _ => simp [isIntG] at h2

theorem mem_subs_child {l : List Expr} {e : Expr} (he : e ∈ l) : e ∈ subsL l :=
  mem_subsL.2 ⟨e, he, self_mem_subs e⟩

mutual
theorem compU_ok (h : Hyp I env c e0) : ∀ (e : Expr), e ∈ subs e0 →
    CompV I env (NotVar e0) (F I env e) (compU c (nub (ops e0)) e)
  | .num n, he => by simpa [compU] using h.leaf he (by simp [ops])
  | .var x, he => by simpa [compU] using h.leaf he (by simp [ops])
  | .nir x, he => by simpa [compU] using h.leaf he (by simp [ops])
  | .sub x i, he => by simpa [compU] using h.leaf he (by simp [ops])
  | .op f l, he => by
    intro st ρ hinv
    have hl : ∀ e ∈ l, e ∈ subs e0 := fun e hel =>
      subs_trans e0 (t := .op f l) (by simp only [subs, List.mem_cons]; exact Or.inr (mem_subs_child hel)) he
    obtain ⟨rs, st', ρ', h1, h2, h3, h4⟩ := mapRec_ok _ st ρ (actsOk h l hl) hinv
    refine ⟨.op f rs, st', ρ', by simp [compU, h1], h2, h3, h4.raw, h4.dep, ?_⟩
    rw [map_F_acts] at h4
    have := h.denF he
    simp only [den, denL_eq_map (fun e hel => ⟨_, h.denF (hl e hel)⟩)] at this
    simpa [den, h4.val] using this
  | .ite a b d, he => by
    intro st ρ hinv
    have ha : a ∈ subs e0 := subs_trans e0 (t := .ite a b d) (by
      simp only [subs, List.mem_cons, List.mem_append]; exact Or.inr (Or.inl (Or.inl (self_mem_subs a)))) he
    have hb : b ∈ subs e0 := subs_trans e0 (t := .ite a b d) (by
      simp only [subs, List.mem_cons, List.mem_append]; exact Or.inr (Or.inl (Or.inr (self_mem_subs b)))) he
    have hd : d ∈ subs e0 := subs_trans e0 (t := .ite a b d) (by
      simp only [subs, List.mem_cons, List.mem_append]; exact Or.inr (Or.inr (self_mem_subs d))) he
    obtain ⟨ra, st1, ρ1, a1, a2, a3, a4⟩ := compV_memoized (h.denF ha) (compU_ok h a ha) st ρ hinv
    obtain ⟨rb, st2, ρ2, b1, b2, b3, b4⟩ := compV_memoized (h.denF hb) (compU_ok h b hb) st1 ρ1 a2
    obtain ⟨rd, st3, ρ3, d1, d2, d3, d4⟩ := compV_memoized (h.denF hd) (compU_ok h d hd) st2 ρ2 b2
    have a4' := (a4.ext b3).ext d3
    have b4' := b4.ext d3
    refine ⟨.ite ra rb rd, st3, ρ3, by simp [compU, a1, b1, d1], d2, (a3.trans b3).trans d3,
      ⟨a4'.raw, b4'.raw, d4.raw⟩, ?_, ?_⟩
    · intro x hx
      simp only [deps, List.mem_append] at hx
      rcases hx with (hx | hx) | hx
      · exact a4'.dep x hx
      · exact b4'.dep x hx
      · exact d4.dep x hx
    · have := h.denF he
      simp only [den, h.denF ha, h.denF hb, h.denF hd] at this
      simp only [den, a4'.val, b4'.val, d4.val]
      exact this
  | .sum l, he => by
    have hl : ∀ e ∈ l, e ∈ subs e0 := fun e hel =>
      subs_trans e0 (t := .sum l) (by simp only [subs, List.mem_cons]; exact Or.inr (mem_subs_child hel)) he
    have hne : acts c (nub (ops e0)) l ≠ [] := by
      have := h.wf _ he
      simp only [OkNode] at this
      intro hh
      apply this
      have := acts_fst c (nub (ops e0)) l
      rw [hh] at this
      simpa using this.symm
    have := sumFold_ok h.law.zero_add h.plain (acts c (nub (ops e0)) l) hne (actsOk h l hl)
    have hv := h.denF he
    simp only [den, denL_eq_map (fun e hel => ⟨_, h.denF (hl e hel)⟩), Option.map_some,
      Option.some.injEq] at hv
    rw [map_F_acts, hv] at this
    simpa [compU] using this
  | .arr l, he => by
    intro st ρ hinv
    have hl : ∀ e ∈ l, e ∈ subs e0 := fun e hel =>
      subs_trans e0 (t := .arr l) (by simp only [subs, List.mem_cons]; exact Or.inr (mem_subs_child hel)) he
    obtain ⟨rs, st', ρ', h1, h2, h3, h4⟩ := mapAssign_ok h.plain _ st ρ (actsOk h l hl) hinv
    refine ⟨.arr rs, st', ρ', by simp [compU, h1], h2, h3, h4.raw, h4.dep, ?_⟩
    rw [map_F_acts] at h4
    have := h.denF he
    simp only [den, denL_eq_map (fun e hel => ⟨_, h.denF (hl e hel)⟩)] at this
    simpa [den, h4.val] using this
  | .cse p sc ch, he => by
    intro st ρ hinv
    have hch : ch ∈ subs e0 := subs_trans e0 (t := .cse p sc ch) (by
      simp only [subs, List.mem_cons]; exact Or.inr (self_mem_subs ch)) he
    have hF : F I env (.cse p sc ch) = F I env ch := by simp [F, den]
    by_cases hsc : sc = .evaluation
    · simp only [compU]
      rw [if_neg (by simpa using hsc)]
      split
      · rename_i r hr
        obtain ⟨w, h1, h2⟩ := hinv.e2v _ (alookup_mem hr)
        simp only at h1
        rw [hF, F_eq h1]
        exact ⟨r, st, ρ, rfl, hinv, Ext.refl _ _, h2⟩
      · have hcomp : CompV I env (NotVar e0) (F I env ch)
            (fun st => if isIntG ch then compU c (nub (ops e0)) ch st
              else memoized ch (compU c (nub (ops e0)) ch) st) := by
          intro st ρ hinv
          by_cases hi : isIntG ch = true
          · simp only [hi, if_true]; exact compU_ok h ch hch st ρ hinv
          · simp only [hi]; exact compV_memoized (h.denF hch) (compU_ok h ch hch) st ρ hinv
        obtain ⟨r, st1, ρ1, h1, h2, h3, h4⟩ := hcomp st ρ hinv
        simp only at h1
        rw [h1]
        obtain ⟨ρ2, h5, h6, h7⟩ := assignNew_ok (c.prio (.cse p sc ch)) p h.plain (by
          intro q hq i
          subst hq
          exact h.pfx he i) h2 h4
        refine ⟨_, _, ρ2, rfl, ?_, ⟨(h3.trans h6).agree, (h3.trans h6).names, (h3.trans h6).code⟩, ?_⟩
        · exact { h5 with
            e2v := by
              intro q hq
              rcases List.mem_cons.1 hq with hq | hq
              · subst hq; exact ⟨_, h.denF hch, h7⟩
              · exact h5.e2v q hq }
        · rw [hF]; exact h7
    · have ho : ops ch = [] := h.wf _ he hsc
      have := h.leaf he (by simpa [ops] using ho) st ρ hinv
      simpa [compU, hsc] using this
  | .intg g d k, he => by
    have hd : ∀ e ∈ d, e ∈ subs e0 := fun e hel =>
      subs_trans e0 (t := .intg g d k) (by
        simp only [subs, List.mem_cons, List.mem_append]; exact Or.inr (Or.inl (mem_subs_child hel))) he
    have hk : ∀ e ∈ k, e ∈ subs e0 := fun e hel =>
      subs_trans e0 (t := .intg g d k) (by
        simp only [subs, List.mem_cons, List.mem_append]; exact Or.inr (Or.inr (mem_subs_child hel))) he
    have hok := h.wf _ he
    simp only [OkNode] at hok
    simp only [compU]
    apply intgBody_ok h.law h.plain h.cfg (acts_fst _ _ _) (acts_fst _ _ _) (actsOk h d hd) (actsOk h k hk)
      (mem_nub.2 ((mem_ops_iff e0).2 ⟨he, by simp [isIntG]⟩)) hok.2.2.1 hok.2.1 h.all
theorem actsOk (h : Hyp I env c e0) : ∀ (l : List Expr), (∀ e ∈ l, e ∈ subs e0) →
    ∀ a ∈ acts c (nub (ops e0)) l, ActOk I env (NotVar e0) a
  | [], _, a, ha => by simp [acts] at ha
  | e :: l, hl, a, ha => by
    simp only [acts, List.mem_cons] at ha
    rcases ha with ha | ha
    · subst ha
      exact ⟨⟨_, h.denF (hl e (by simp))⟩, compU_ok h e (hl e (by simp))⟩
    · exact actsOk h l (fun e he => hl e (by simp [he])) a ha
end

theorem init_inv : Inv I env (NotVar e0) St.init env where
  agree := fun _ _ => rfl
  gen := by simp [St.init]
  asgNames := by simp [St.init, assigned]
  asgNodup := by simp [St.init, assigned]
  sat := by simp [St.init]
  topo := by simp [St.init]
  memo := by simp [St.init]
  e2v := by simp [St.init]

/-- Result of compiling a whole expression. -/
theorem compile_inv (h : Hyp I env c e0) : ∃ r st ρ,
    memoized e0 (compU c (nub (ops e0)) e0) St.init = .ok (r, st) ∧
    Inv I env (NotVar e0) st ρ ∧ GoodV I (NotVar e0) st.code ρ (F I env e0) r := by
  obtain ⟨r, st, ρ, h1, h2, -, h4⟩ := compV_memoized (h.denF (self_mem_subs e0))
    (compU_ok h e0 (self_mem_subs e0)) St.init env init_inv
  exact ⟨r, st, ρ, h1, h2, h4⟩

end

end Verif.Compiler
