import Verif.Bind.Props

/-!
# C14 at the level of `bind`: what an unregularized source does to all other potentials
-/

namespace Verif.Bind

open Verif.Sym Verif.DofDesc

/-! ## Specification -/

/-- no limit from a side of the surface (`qbx_forced_limit = ±1`) is requested -/
def NoSide (g : IG) : Prop := g.lim ≠ .p1 ∧ g.lim ≠ .m1

mutual
/-- the expression with the requested limits of all layer potentials, at any depth, removed -/
def dropLim : SE → SE
  | .node (.intg g) cs => .node (.intg { g with lim := .none }) (dropLimL cs)
  | .node h cs => .node h (dropLimL cs)
/-- same for lists -/
def dropLimL : List SE → List SE
  | [] => []
  | c :: l => dropLim c :: dropLimL l
end

/-! ## Proofs -/

theorem unregPreL_spec (l : List SE)
    (ih : ∀ c ∈ l, (AllIntG NoSide c → unregPre c = .ok (dropLim c)) ∧
      (¬ AllIntG NoSide c → unregPre c = .error .value)) :
    (AllIntGL NoSide l → unregPreL l = .ok (dropLimL l)) ∧ (¬ AllIntGL NoSide l → unregPreL l = .error .value) := by
  induction l with
  | nil => simp [AllIntGL, unregPreL, dropLimL]
  | cons c l ihl =>
    obtain ⟨h1, h2⟩ := ih c (by simp)
    obtain ⟨h3, h4⟩ := ihl fun x hx => ih x (by simp [hx])
    by_cases hc : AllIntG NoSide c
    · by_cases hl : AllIntGL NoSide l
      · simp [AllIntGL, unregPreL, dropLimL, hc, hl, h1 hc, h3 hl]
      · simp [AllIntGL, unregPreL, hl, h1 hc, h4 hl]
    · simp [AllIntGL, unregPreL, hc, h2 hc]

/-- C14 (what happens instead): preprocessing for an unregularized source removes the requested
limits of *every* layer potential in the expression, whatever its source, and raises `ValueError`
exactly if some layer potential, at any depth and of any source, requests a limit from a side. -/
theorem C14_characterization : ∀ e, (AllIntG NoSide e → unregPre e = .ok (dropLim e)) ∧
    (¬ AllIntG NoSide e → unregPre e = .error .value) := by
  apply SE.ind
  intro h cs ih
  obtain ⟨h1, h2⟩ := unregPreL_spec cs ih
  cases h with
  | intg g =>
    by_cases hg : NoSide g
    · have hn : ¬ (g.lim = .p1 ∨ g.lim = .m1) := by
        rintro (h | h)
        · exact hg.1 h
        · exact hg.2 h
      by_cases hl : AllIntGL NoSide cs
      · refine ⟨fun _ => by simp only [unregPre, if_neg hn, h1 hl, dropLim], fun hc => absurd ?_ hc⟩
        exact ⟨(fun g' h' => by cases h'; exact hg), hl⟩
      · refine ⟨fun hc => absurd hc.2 hl, fun _ => by simp only [unregPre, if_neg hn, h2 hl]⟩
    · have hn : g.lim = .p1 ∨ g.lim = .m1 := by
        by_contra hh
        exact hg ⟨fun h => hh (.inl h), fun h => hh (.inr h)⟩
      exact ⟨fun hc => absurd (hc.1 g rfl) hg, fun _ => by simp only [unregPre, if_pos hn]⟩
  | _ =>
    by_cases hl : AllIntGL NoSide cs
    · refine ⟨fun _ => by simp only [unregPre, h1 hl, dropLim], fun hc => absurd ?_ hc⟩
      exact ⟨(fun g' h' => by cases h'), hl⟩
    · refine ⟨fun hc => absurd hc.2 hl, fun _ => by simp only [unregPre, h2 hl]⟩

theorem qbxPreL_noSide {n : Obj} (l : List SE)
    (ih : ∀ c ∈ l, ∀ c', qbxPre n c = .ok c' → AllIntG NoSide c' → AllIntG NoSide c) :
    ∀ l', qbxPreL n l = .ok l' → AllIntGL NoSide l' → AllIntGL NoSide l := by
  induction l with
  | nil => intro _ _ _; trivial
  | cons c l ihl =>
    intro l' h hl'
    simp only [qbxPreL] at h
    cases hc : qbxPre n c with
    | error x => rw [hc] at h; cases h
    | ok c' =>
      rw [hc] at h
      cases hl : qbxPreL n l with
      | error x => simp only [hl] at h; cases h
      | ok m =>
        simp only [hl, Except.ok.injEq] at h
        subst h
        exact ⟨ih c (by simp) c' hc hl'.1, ihl (fun x hx => ih x (by simp [hx])) m hl hl'.2⟩

theorem qbxPre_noSide (n : Obj) : ∀ e e', qbxPre n e = .ok e' → AllIntG NoSide e' → AllIntG NoSide e := by
  apply SE.ind
  intro h cs ih e' he hs
  cases h with
  | intg g =>
    simp only [qbxPre] at he
    by_cases hg : g.src.geometry ≠ n
    · rw [if_pos hg] at he
      cases he; exact hs
    · rw [if_neg hg] at he
      cases hl : qbxPreL n cs with
      | error x => simp only [hl] at he; cases he
      | ok cs' =>
        simp only [hl, qbxLimit] at he
        have key := qbxPreL_noSide cs ih cs' hl
        by_cases hon : isSelf g = true
        · rw [if_pos hon] at he
          cases hm : g.lim <;> simp only [hm] at he
          all_goals first
            | (cases he; done)
            | (have e1 : e' = .node (.intg g) cs' := by simpa using he.symm
               subst e1
               exact ⟨hs.1, key hs.2⟩)
            | skip
          cases he
          have := hs.2.2.1.2.1.1 _ rfl
          exact absurd rfl this.1
        · rw [if_neg hon] at he
          cases hm : g.lim <;> simp only [hm] at he
          all_goals first
            | (cases he; done)
            | (have e1 : e' = .node (.intg g) cs' := by simpa using he.symm
               subst e1
               exact ⟨hs.1, key hs.2⟩)
  | _ =>
    simp only [qbxPre] at he
    cases hl : qbxPreL n cs with
    | error x => simp only [hl] at he; cases he
    | ok cs' =>
      simp only [hl, Except.ok.injEq] at he
      subst he
      exact ⟨(fun g' h' => by cases h'), qbxPreL_noSide cs ih cs' hl hs.2⟩

theorem prepLoop_refuses : ∀ (pl : List (Obj × PlaceKind)) (e : SE), (∃ p ∈ pl, p.2 = .unregularized) →
    ¬ AllIntG NoSide e → ∃ x, prepLoop pl e = .error x
  | [], _, h, _ => by obtain ⟨p, hp, _⟩ := h; cases hp
  | (n, k) :: pl, e, h, he => by
    simp only [prepLoop]
    cases k with
    | unregularized => exact ⟨.value, by simp only [(C14_characterization e).2 he]⟩
    | qbx =>
      cases hq : qbxPre n e with
      | error x => exact ⟨x, by simp only [hq]⟩
      | ok e' =>
        simp only [hq]
        refine prepLoop_refuses pl e' ?_ fun h' => he (qbxPre_noSide n e e' hq h')
        obtain ⟨p, hp, hk⟩ := h
        rcases List.mem_cons.1 hp with rfl | hp
        · cases hk
        · exact ⟨p, hp, hk⟩
    | _ =>
      simp only
      refine prepLoop_refuses pl e ?_ he
      obtain ⟨p, hp, hk⟩ := h
      rcases List.mem_cons.1 hp with rfl | hp
      · cases hk
      · exact ⟨p, hp, hk⟩

/-- C14 (false at the level of `bind`): if the collection contains an unregularized source anywhere
among its places, binding any expression in which some layer potential, whatever its source,
requests a limit from a side of the surface raises an error. -/
theorem C14_bind_refuted {V : Type} (E : Enc) (c : Compiler.Cfg) (I : Compiler.Interp V)
    (pl : List (Obj × PlaceKind)) (S T : DD) (e : SE) (ctx : Compiler.Ctx V) (cc : Compiler.Cache V)
    (hu : ∃ p ∈ pl, p.2 = .unregularized) (hc : NoCollapse S e)
    (hs : ¬ AllIntG NoSide (placed S T false e)) :
    ∃ x, bindEval E c I pl S T e ctx cc = .error (.prepare x) := by
  obtain ⟨x, hx⟩ := prepLoop_refuses pl _ hu hs
  exact ⟨x, by simp only [bindEval, prepare, toTag_placed e hc, hx]⟩

/-- C14 (limits dropped): with only unregularized sources in the collection, preparing an expression
without side limits removes all requested limits before interpolation is inserted. -/
theorem C14_prepare (pl : List (Obj × PlaceKind)) (S T : DD) (e : SE)
    (hq : ∀ p ∈ pl, p.2 ≠ .qbx) (hu : ∃ p ∈ pl, p.2 = .unregularized) (hc : NoCollapse S e)
    (hs : AllIntG NoSide (placed S T false e)) :
    prepare pl S T e = interpPre pl false (dropLim (placed S T false e)) := by
  have idem : ∀ e, AllIntG (fun g => g.lim = .none) (dropLim e) := by
    apply SE.ind
    intro h cs ih
    have hl : AllIntGL (fun g => g.lim = .none) (dropLimL cs) := by
      clear * - ih
      induction cs with
      | nil => trivial
      | cons c l ihl => exact ⟨ih c (by simp), ihl fun x hx => ih x (by simp [hx])⟩
    cases h with
    | intg g => exact ⟨(fun g' h' => by cases h'; rfl), hl⟩
    | _ => exact ⟨(fun g' h' => by cases h'), hl⟩
  have stable : ∀ (pl : List (Obj × PlaceKind)) (e : SE), (∀ p ∈ pl, p.2 ≠ .qbx) →
      AllIntG (fun g => g.lim = .none) e → prepLoop pl e = .ok e := by
    intro pl
    induction pl with
    | nil => intro e _ _; rfl
    | cons p pl ih =>
      intro e hq he
      obtain ⟨n, k⟩ := p
      have hk := hq (n, k) (by simp)
      have hr := ih e (fun x hx => hq x (by simp [hx])) he
      cases k with
      | qbx => exact absurd rfl hk
      | unregularized => simp only [prepLoop, C14_unlimited_partial e he, hr]
      | _ => simp only [prepLoop, hr]
  have main : ∀ (pl : List (Obj × PlaceKind)) (e : SE), (∀ p ∈ pl, p.2 ≠ .qbx) → (∃ p ∈ pl, p.2 = .unregularized) →
      AllIntG NoSide e → prepLoop pl e = .ok (dropLim e) := by
    intro pl
    induction pl with
    | nil => intro e _ h _; obtain ⟨p, hp, _⟩ := h; cases hp
    | cons p pl ih =>
      intro e hq hu he
      obtain ⟨n, k⟩ := p
      have hk := hq (n, k) (by simp)
      have hr := fun x (hx : x ∈ pl) => hq x (by simp [hx])
      have tail : k ≠ .unregularized → ∃ p ∈ pl, p.2 = .unregularized := by
        intro hne
        obtain ⟨p, hp, hpk⟩ := hu
        rcases List.mem_cons.1 hp with rfl | hp
        · exact absurd hpk hne
        · exact ⟨p, hp, hpk⟩
      cases k with
      | qbx => exact absurd rfl hk
      | unregularized => simp only [prepLoop, (C14_characterization e).1 he, stable pl _ hr (idem e)]
      | _ => simp only [prepLoop, ih e hr (tail (by simp)) he]
  simp only [prepare, toTag_placed e hc, main pl _ hq hu hs]

/-- an on-surface potential of the QBX source `q` next to an unregularized source `u` -/
example : (∃ p ∈ [(Obj.ident "q", PlaceKind.qbx), (Obj.ident "u", PlaceKind.unregularized)], p.2 = .unregularized) ∧
    ¬ AllIntG NoSide (.node (.intg ⟨.base "G", ["G"], 1, .p1, ⟨.ident "q", none, .node⟩,
      ⟨.ident "q", none, .node⟩, []⟩) [.node (.var "sigma") []]) := by
  simp [AllIntG, NoSide]

end Verif.Bind
