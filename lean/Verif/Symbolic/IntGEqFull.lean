import Mathlib.Tactic.DeriveCountable
import Mathlib.Data.Countable.Basic
import Mathlib.Data.Rat.Encodable
import Mathlib.Logic.Equiv.List
import Verif.Symbolic.IntGEq

/-!
# What equality of expressions with layer potentials is (C17)

The exact relation `==` computes, with and without assumptions on the hash function.
-/

namespace Verif.Sym

open Verif.DofDesc

/-! ## Specification -/

/-- the fields of a node, except `qbx_forced_limit` -/
def noLim : Head → Head
  | .intg g => .intg { g with lim := .none }
  | h => h

/-- the limits `-1` and `-2` -/
def Confused (a b : Lim) : Prop := (a = .m1 ∨ a = .m2) ∧ (b = .m1 ∨ b = .m2)

/-- nodes with the same fields, where limits are the same or one is `-1` and the other `-2` -/
def HeadAlike (h h' : Head) : Prop :=
  h = h' ∨ ∃ g g', h = .intg g ∧ h' = .intg g' ∧ { g with lim := .none } = ({ g' with lim := .none } : IG) ∧
    Confused g.lim g'.lim

/-- the same expressions, except that limits `-1` and `-2` may stand for each other, at all depths -/
inductive Alike : SE → SE → Prop
  | node {h h' : Head} {cs cs' : List SE} (hh : HeadAlike h h') (hl : List.Forall₂ Alike cs cs') :
      Alike (.node h cs) (.node h' cs')

/-- the same expressions, except for limits -/
inductive SameButLimits : SE → SE → Prop
  | node {h h' : Head} {cs cs' : List SE} (hh : noLim h = noLim h') (hl : List.Forall₂ SameButLimits cs cs') :
      SameButLimits (.node h cs) (.node h' cs')

/-! ## Proofs -/

theorem headAlike_iff (h h' : Head) : HeadAlike h h' ↔ hashKey h = hashKey h' := by
  constructor
  · rintro (rfl | ⟨g, g', rfl, rfl, e, c, c'⟩)
    · rfl
    · obtain ⟨⟩ := g
      obtain ⟨⟩ := g'
      simp only [hashKey]
      rcases c with c | c <;> rcases c' with c' | c' <;> simp_all
  · intro e
    cases h with
    | intg g =>
      cases h' with
      | intg g' =>
        by_cases hgg : g = g'
        · exact .inl (by rw [hgg])
        · refine .inr ⟨g, g', rfl, rfl, ?_⟩
          obtain ⟨⟩ := g
          obtain ⟨⟩ := g'
          simp only [hashKey] at e
          unfold Confused
          split at e <;> split at e <;> simp_all
      | _ => simp [hashKey] at e
    | _ =>
      cases h' with
      | intg g' => simp [hashKey] at e
      | _ => exact .inl e

theorem alike_iff : ∀ a b, Alike a b ↔ blur a = blur b := by
  apply SE.ind (P := fun a => ∀ b, Alike a b ↔ blur a = blur b)
  intro h cs ih b
  cases b with
  | node h' cs' =>
    have hl : ∀ l l' : List SE, (∀ c ∈ l, c ∈ cs) → (List.Forall₂ Alike l l' ↔ blurL l = blurL l') := by
      intro l
      induction l with
      | nil => intro l' _; cases l' <;> simp [blurL]
      | cons c l ihl =>
        intro l' hs
        cases l' with
        | nil => simp [blurL]
        | cons c' l' =>
          simp only [blurL, List.cons.injEq, List.forall₂_cons, ih c (hs c (by simp)) c',
            ihl l' (fun c hc => hs c (by simp [hc]))]
    simp only [blur, SE.node.injEq, ← headAlike_iff, ← hl cs cs' (fun _ h => h)]
    constructor
    · rintro ⟨hh, hl⟩; exact ⟨hh, hl⟩
    · rintro ⟨hh, hl⟩; exact ⟨hh, hl⟩

theorem headEq_iff (h h' : Head) : headEq h h' = true ↔ noLim h = noLim h' := by
  cases h <;> cases h' <;> simp [headEq, noLim]

theorem pyEqL_iff (hc) : ∀ l l', pyEqL hc l l' = true ↔ List.Forall₂ (fun a b => pyEq hc a b = true) l l'
  | [], [] => by simp [pyEqL]
  | [], _ :: _ => by simp [pyEqL]
  | _ :: _, [] => by simp [pyEqL]
  | c :: l, c' :: l' => by simp [pyEqL, pyEqL_iff hc l l']

theorem pyEq_node (hc) (h h' : Head) (cs cs' : List SE) : pyEq hc (.node h cs) (.node h' cs') = true ↔
    pyHash hc (.node h cs) = pyHash hc (.node h' cs') ∧ noLim h = noLim h' ∧
      List.Forall₂ (fun a b => pyEq hc a b = true) cs cs' := by
  simp only [pyEq, Bool.and_eq_true, decide_eq_true_eq, headEq_iff, pyEqL_iff, and_assoc]

theorem pyEq_symm (hc) : ∀ a b, pyEq hc a b = true → pyEq hc b a = true := by
  apply SE.ind (P := fun a => ∀ b, pyEq hc a b = true → pyEq hc b a = true)
  intro h cs ih b hb
  cases b with
  | node h' cs' =>
    rw [pyEq_node] at hb ⊢
    refine ⟨hb.1.symm, hb.2.1.symm, ?_⟩
    have hl : ∀ l l' : List SE, (∀ c ∈ l, c ∈ cs) → List.Forall₂ (fun a b => pyEq hc a b = true) l l' →
        List.Forall₂ (fun a b => pyEq hc a b = true) l' l := by
      intro l l' hs hf
      induction hf with
      | nil => exact .nil
      | @cons c c' l l' h1 _ ih' =>
        exact .cons (ih c (hs c (by simp)) c' h1) (ih' fun c hc => hs c (by simp [hc]))
    exact hl cs cs' (fun _ h => h) hb.2.2

theorem pyEq_trans (hc) : ∀ a b c, pyEq hc a b = true → pyEq hc b c = true → pyEq hc a c = true := by
  apply SE.ind (P := fun a => ∀ b c, pyEq hc a b = true → pyEq hc b c = true → pyEq hc a c = true)
  intro h cs ih b d hb hd
  obtain ⟨h', cs'⟩ := b
  obtain ⟨h'', cs''⟩ := d
  rw [pyEq_node] at hb hd ⊢
  refine ⟨hb.1.trans hd.1, hb.2.1.trans hd.2.1, ?_⟩
  have hl : ∀ l l' l'' : List SE, (∀ c ∈ l, c ∈ cs) → List.Forall₂ (fun a b => pyEq hc a b = true) l l' →
      List.Forall₂ (fun a b => pyEq hc a b = true) l' l'' → List.Forall₂ (fun a b => pyEq hc a b = true) l l'' := by
    intro l l' l'' hs hf
    induction hf generalizing l'' with
    | nil => intro h; exact h
    | @cons c c' l l' h1 _ ih' =>
      intro h
      cases h with
      | @cons _ c'' _ l'' h2 h3 =>
        exact .cons (ih c (hs c (by simp)) c' c'' h1 h2) (ih' _ (fun c hc => hs c (by simp [hc])) h3)
  exact hl cs cs' cs'' (fun _ h => h) hb.2.2 hd.2.2

theorem pyEq_limits (hc) : ∀ a b, pyEq hc a b = true → SameButLimits a b := by
  apply SE.ind (P := fun a => ∀ b, pyEq hc a b = true → SameButLimits a b)
  intro h cs ih b hb
  cases b with
  | node h' cs' =>
    rw [pyEq_node] at hb
    refine .node hb.2.1 ?_
    have hl : ∀ l l' : List SE, (∀ c ∈ l, c ∈ cs) → List.Forall₂ (fun a b => pyEq hc a b = true) l l' →
        List.Forall₂ SameButLimits l l' := by
      intro l l' hs hf
      induction hf with
      | nil => exact .nil
      | @cons c c' l l' h1 _ ih' =>
        exact .cons (ih c (hs c (by simp)) c' h1) (ih' fun c hc => hs c (by simp [hc]))
    exact hl cs cs' (fun _ h => h) hb.2.2

/-- C17, what `==` is: without hash collisions two expressions compare equal exactly if they are the same up to
confusing the limits `-1` and `-2` (which the property excludes: `C17_refuted`). -/
theorem C17_exact (hc : Head → List Int → Int) (hn : NoCollision hc) (a b : SE) :
    pyEq hc a b = true ↔ Alike a b := by
  rw [pyEq_iff_blur hn, alike_iff]

/-- C17, whatever the hash function does: `==` is an equivalence relation, expressions that compare equal agree in
everything but limits, and the same expressions (also up to the limits `-1` and `-2`) always compare equal. -/
theorem C17_equivalence (hc : Head → List Int → Int) :
    Equivalence (fun a b : SE => pyEq hc a b = true) ∧
    (∀ a b, pyEq hc a b = true → SameButLimits a b) ∧ (∀ a b, Alike a b → pyEq hc a b = true) :=
  ⟨⟨fun a => (C17_hash hc a a).2, fun h => pyEq_symm hc _ _ h, fun h h' => pyEq_trans hc _ _ _ h h'⟩,
    pyEq_limits hc, fun a b h => pyEq_of_blur hc a b ((alike_iff a b).1 h)⟩

/-! ## Examples -/

instance : Countable Char :=
  Function.Injective.countable (f := Char.toNat) fun a b h => Char.toNat_inj.1 h

instance : Countable String :=
  Function.Injective.countable (f := String.toList) fun a b h => String.toList_inj.1 h

deriving instance Countable for Stage, Gran, Obj, DD, Lim, Kern, IG, PropKind, Head

/-- there are hash functions without collisions (so that `C17_exact` and `C17_equality_partial` are not void) -/
example : ∃ hc, NoCollision hc := by
  obtain ⟨f, hf⟩ := (inferInstance : Countable (Head × List Int)).exists_injective_nat'
  refine ⟨fun h l => (f (h, l) : Int), ?_⟩
  intro h l h' l' e
  have := hf (Int.ofNat_inj.1 e)
  exact ⟨(Prod.mk.inj this).1, (Prod.mk.inj this).2⟩

/-- two potentials that differ in the limits `1` and `-1` are different -/
example (hc) (hn : NoCollision hc) :
    pyEq hc (.node (.intg ⟨.base "G", ["G"], 1, .p1, exS, exS, []⟩) []) (.node (.intg ⟨.base "G", ["G"], 1, .m1, exS, exS, []⟩) [])
      = false := by
  have := C17_exact hc hn (.node (.intg ⟨.base "G", ["G"], 1, .p1, exS, exS, []⟩) [])
    (.node (.intg ⟨.base "G", ["G"], 1, .m1, exS, exS, []⟩) [])
  rw [alike_iff] at this
  rw [Bool.eq_false_iff, ne_eq, this]
  simp [blur, hashKey]

end Verif.Sym
