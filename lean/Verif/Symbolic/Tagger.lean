import Verif.Symbolic.Expr
import Mathlib.Data.List.Forall2
import Mathlib.Tactic.SplitIfs

/-!
# Location tagging (C11, C52)

Model of `LocationTagger` and `ToTargetTagger` (`pytential/symbolic/mappers.py:391-548`).
The CSE cache of `CSECachingMapperMixin` is not modelled (it only avoids recomputation:
the tagger's result for a CSE depends on the CSE alone).
-/

namespace Verif.Sym

open Verif.DofDesc

/-! ## Model -/

/-- `d.copy(geometry=o)` for a descriptor `o` (`dof_desc.py:192-208`): see
`copyGeo_eq`. -/
def copyGeo (d o : DD) : DD :=
  ⟨if o.geometry = .none then d.geometry else o.geometry, o.stage, d.gran⟩

/-- `copyGeo` is `DOFDescriptor.copy` of `Verif.DofDesc`. -/
theorem copyGeo_eq (d o : DD) : copy d o.obj .noArg .none = .ok (copyGeo d o) := by
  obtain ⟨g, s, r⟩ := o
  cases s <;> simp [copy, unwrapGeo, DD.obj, mk, stageObj, copyGeo]

/-- `LocationTagger._default_dofdesc` (`mappers.py:406-422`). -/
def defaultDD (S T d : DD) : DD :=
  if d.geometry = .none then
    if d.stage = none ∧ d.gran = .node then copyGeo d T else copyGeo d S
  else if d.geometry = .defaultSource then copyGeo d S
  else if d.geometry = .defaultTarget then copyGeo d T
  else d

/-- `if dd.geometry is None: dd = dd.copy(geometry=default)` (`mappers.py:466-472`,
`493-495`, `508-516`, `522-524`). -/
def fillDD (D d : DD) : DD := if d.geometry = .none then copyGeo d D else d

/-- New head computed by the methods of `LocationTagger`: `map_ones`, `map_q_weight`,
`map_node_coordinate_component`, `map_is_shape_class`, `map_num_reference_derivative`,
`map_elementwise_*`, `map_int_g`, `map_inverse`, `map_interpolation`,
`map_interleave` (`mappers.py:424-536`); all other heads are unchanged. -/
def retag (S T : DD) : Head → Head
  | .prop k dd => .prop k (defaultDD S T dd)
  | .nrd a dd => .nrd a (defaultDD S T dd)
  | .elwise k dd => .elwise k (defaultDD S T dd)
  | .intg g => .intg { g with src := fillDD S g.src, tgt := fillDD T g.tgt }
  | .inverse b v x dd => .inverse b v x (fillDD T dd)
  | .interp f t => .interp (fillDD S f) (fillDD S t)
  | .interleave f => .interleave (fillDD S f)
  | h => h

/-- `Interpolation(from_dd, to_dd, operand)` (`primitives.py:1472-1490`): `__new__`
returns the operand if the descriptors agree.  If that operand is itself an
`Interpolation`, Python then runs `__init__` on it, which overwrites its fields with
`(from_dd, to_dd, operand)`: the result contains itself, so it is not a finite
expression (`cyclic`). -/
def mkInterp (f t : DD) (o : SE) : Except Err SE :=
  if f = t then
    match o.head with
    | .interp _ _ => .error .cyclic
    | _ => .ok o
  else .ok (.node (.interp f t) [o])

/-- Rebuilding a node from a head and children; only `Interpolation` has a constructor
that may return something else. -/
def build : Head → List SE → Except Err SE
  | .interp f t, [o] => mkInterp f t o
  | h, cs => .ok (.node h cs)

mutual
/-- `LocationTagger.rec` (`mappers.py:391-536`) with defaults `S` (source), `T`
(target). -/
def locTag (S T : DD) : SE → Except Err SE
  | .node h cs => match locTagL S T cs with
    | .error x => .error x
    | .ok cs' => build (retag S T h) cs'
/-- `LocationTagger.rec` on all children -/
def locTagL (S T : DD) : List SE → Except Err (List SE)
  | [] => .ok []
  | c :: l => match locTag S T c with
    | .error x => .error x
    | .ok c' => match locTagL S T l with
      | .error x => .error x
      | .ok l' => .ok (c' :: l')
end

mutual
/-- `ToTargetTagger.rec` (`mappers.py:539-565`): like `LocationTagger`, except that
densities and kernel arguments of a layer potential are processed by
`LocationTagger(default_source=S, default_target=S)`. -/
def toTag (S T : DD) : SE → Except Err SE
  | .node (.intg g) cs => match locTagL S S cs with
    | .error x => .error x
    | .ok cs' => build (retag S T (.intg g)) cs'
  | .node h cs => match toTagL S T cs with
    | .error x => .error x
    | .ok cs' => build (retag S T h) cs'
/-- `ToTargetTagger.rec` on all children -/
def toTagL (S T : DD) : List SE → Except Err (List SE)
  | [] => .ok []
  | c :: l => match toTag S T c with
    | .error x => .error x
    | .ok c' => match toTagL S T l with
      | .error x => .error x
      | .ok l' => .ok (c' :: l')
end

/-! ## Specification -/

/-- What a descriptor describes: a location-dependent quantity (nodes, weights,
derivatives, elementwise reductions, ...), the source or target of a layer potential,
the location of a solve, or one end of an interpolation/interleaving. -/
inductive Role | quantity | source | target | solve | transfer
  deriving DecidableEq, Repr

/-- the descriptors of a single node with their roles -/
def headSlots : Head → List (Role × DD)
  | .prop _ dd | .nrd _ dd | .elwise _ dd => [(.quantity, dd)]
  | .intg g => [(.source, g.src), (.target, g.tgt)]
  | .inverse _ _ _ dd => [(.solve, dd)]
  | .interp f t => [(.transfer, f), (.transfer, t)]
  | .interleave f => [(.transfer, f)]
  | _ => []

/-- is this the head of a layer potential? -/
def isIntG : Head → Bool
  | .intg _ => true
  | _ => false

mutual
/-- All descriptors of an expression in prefix order, with their role and whether they
occur inside the density or arguments of a layer potential. -/
def slots (inside : Bool) : SE → List (Bool × Role × DD)
  | .node h cs => (headSlots h).map (fun p => (inside, p)) ++ slotsL (inside || isIntG h) cs
/-- descriptors of a list of expressions -/
def slotsL (inside : Bool) : List SE → List (Bool × Role × DD)
  | [] => []
  | c :: l => slots inside c ++ slotsL inside l
end

/-- a head with its descriptors blanked out -/
def eraseHead : Head → Head
  | .prop k _ => .prop k ⟨.none, none, .node⟩
  | .nrd a _ => .nrd a ⟨.none, none, .node⟩
  | .elwise k _ => .elwise k ⟨.none, none, .node⟩
  | .intg g => .intg { g with src := ⟨.none, none, .node⟩, tgt := ⟨.none, none, .node⟩ }
  | .inverse b v x _ => .inverse b v x ⟨.none, none, .node⟩
  | .interp _ _ => .interp ⟨.none, none, .node⟩ ⟨.none, none, .node⟩
  | .interleave _ => .interleave ⟨.none, none, .node⟩
  | h => h

mutual
/-- an expression with all descriptors blanked out: its shape -/
def shape : SE → SE
  | .node h cs => .node (eraseHead h) (shapeL cs)
/-- shapes of a list -/
def shapeL : List SE → List SE
  | [] => []
  | c :: l => shape c :: shapeL l
end

/-- a user-chosen geometry: given, and not one of the two symbolic defaults -/
def Explicit (d : DD) : Prop :=
  d.geometry ≠ .none ∧ d.geometry ≠ .defaultSource ∧ d.geometry ≠ .defaultTarget

/-- What tagging must do to a descriptor `d` of the given role and position, given the
default source `S` and target `T`; `d'` is the result.  Granularity never changes and
explicitly placed descriptors are untouched.  Inside layer potentials unplaced
descriptors go to the source.  Outside, sources and transfers go to the source,
targets and solves to the target, and quantities to the target unless a stage or a
granularity says they live on a source. -/
structure PlacedAs (S T : DD) (inside : Bool) (r : Role) (d d' : DD) : Prop where
  gran : d'.gran = d.gran
  explicit : Explicit d → d' = d
  inside_src : inside = true → d.geometry = .none → d'.geometry = S.geometry
  source : (r = .source ∨ r = .transfer) → d.geometry = .none → d'.geometry = S.geometry
  target : inside = false → (r = .target ∨ r = .solve) → d.geometry = .none →
    d'.geometry = T.geometry
  quantity : inside = false → r = .quantity → d.geometry = .none →
    d'.geometry = if d.stage = none ∧ d.gran = .node then T.geometry else S.geometry
  symSource : r = .quantity → d.geometry = .defaultSource → d'.geometry = S.geometry
  symTarget : r = .quantity → d.geometry = .defaultTarget →
    d'.geometry = if inside then S.geometry else T.geometry

/-- relation of two descriptor positions -/
def SlotOk (S T : DD) (a b : Bool × Role × DD) : Prop :=
  a.1 = b.1 ∧ a.2.1 = b.2.1 ∧ PlacedAs S T a.1 a.2.1 a.2.2 b.2.2

/-- no interpolation of the expression becomes trivial by placing both its ends -/
def NoCollapse (S : DD) (e : SE) : Prop :=
  ∀ f t cs, Sub e (.node (.interp f t) cs) → fillDD S f ≠ fillDD S t

/-! ## Proofs -/

theorem copyGeo_geo {d o : DD} (h : o.geometry ≠ .none) : (copyGeo d o).geometry = o.geometry := by
  simp [copyGeo, h]

theorem fillDD_spec {D d : DD} (hD : Explicit D) :
    (fillDD D d).gran = d.gran ∧ (d.geometry ≠ .none → fillDD D d = d) ∧
    (d.geometry = .none → (fillDD D d).geometry = D.geometry) ∧ (fillDD D d).geometry ≠ .none := by
  unfold fillDD
  split
  · rename_i h
    refine ⟨rfl, fun h' => absurd h h', fun _ => copyGeo_geo hD.1, ?_⟩
    rw [copyGeo_geo hD.1]; exact hD.1
  · rename_i h
    exact ⟨rfl, fun _ => rfl, fun h' => absurd h' h, h⟩

theorem defaultDD_explicit {S T d : DD} (h : Explicit d) : defaultDD S T d = d := by
  simp [defaultDD, h.1, h.2.1, h.2.2]

theorem defaultDD_isExplicit {S T d : DD} (hS : Explicit S) (hT : Explicit T) :
    Explicit (defaultDD S T d) := by
  have hc : ∀ o : DD, Explicit o → Explicit (copyGeo d o) := by
    intro o ho
    unfold Explicit at *
    rw [copyGeo_geo ho.1]; exact ho
  unfold defaultDD
  split
  · split
    · exact hc _ hT
    · exact hc _ hS
  · split
    · exact hc _ hS
    · split
      · exact hc _ hT
      · rename_i h1 h2 h3
        exact ⟨h1, h2, h3⟩

theorem defaultDD_placed {S T d : DD} (hS : Explicit S) (hT : Explicit T) (inside : Bool) :
    PlacedAs S T inside .quantity d (defaultDD S (if inside then S else T) d) := by
  have hg : ∀ o : DD, Explicit o → (copyGeo d o).geometry = o.geometry := fun o ho => copyGeo_geo ho.1
  refine ⟨?_, fun h => defaultDD_explicit h, ?_, by simp, by simp, ?_, ?_, ?_⟩
  · unfold defaultDD; split_ifs <;> simp [copyGeo]
  · intro hi hn
    subst hi
    simp [defaultDD, hn, hg S hS]
  · intro hi _ hn
    subst hi
    simp only [defaultDD, hn, if_true, Bool.false_eq_true, if_false]
    split_ifs
    · exact hg _ hT
    · exact hg _ hS
  · intro _ hn
    simp [defaultDD, hn, hg S hS]
  · intro _ hn
    cases inside <;> simp [defaultDD, hn, hg S hS, hg T hT]

theorem fill_placed_src {S T d : DD} (hS : Explicit S) (inside : Bool) (r : Role)
    (hr : r = .source ∨ r = .transfer) :
    PlacedAs S T inside r d (fillDD S d) := by
  obtain ⟨h1, h2, h3, h4⟩ := fillDD_spec (d := d) hS
  refine ⟨h1, fun h => h2 h.1, fun _ h => h3 h, fun _ h => h3 h, ?_, ?_, ?_, ?_⟩ <;>
    rcases hr with rfl | rfl <;> simp

theorem fill_placed_tgt {S T d : DD} (hS : Explicit S) (hT : Explicit T) (inside : Bool) (r : Role)
    (hr : r = .target ∨ r = .solve) :
    PlacedAs S T inside r d (fillDD (if inside then S else T) d) := by
  have hD : Explicit (if inside then S else T) := by cases inside <;> simp [hS, hT]
  obtain ⟨h1, h2, h3, h4⟩ := fillDD_spec (d := d) hD
  refine ⟨h1, fun h => h2 h.1, fun hi h => by rw [h3 h]; simp [hi], ?_,
    fun hi _ h => by rw [h3 h]; simp [hi], ?_, ?_, ?_⟩ <;>
    rcases hr with rfl | rfl <;> simp

theorem headSlots_ok {S T : DD} (hS : Explicit S) (hT : Explicit T) (inside : Bool) (h : Head) :
    List.Forall₂ (SlotOk S T) ((headSlots h).map (fun p => (inside, p)))
      ((headSlots (retag S (if inside then S else T) h)).map (fun p => (inside, p))) := by
  cases h <;> simp only [headSlots, retag, List.map_cons, List.map_nil] <;>
    (repeat' apply List.Forall₂.cons) <;> (try exact List.Forall₂.nil) <;>
    refine ⟨rfl, rfl, ?_⟩
  · exact defaultDD_placed hS hT _
  · exact defaultDD_placed hS hT _
  · exact defaultDD_placed hS hT _
  · exact fill_placed_src hS _ _ (by simp)
  · exact fill_placed_src hS _ _ (by simp)
  · exact fill_placed_src hS _ _ (by simp)
  · exact fill_placed_tgt hS hT _ _ (by simp)
  · exact fill_placed_src hS _ _ (by simp)
  · exact fill_placed_tgt hS hT _ _ (by simp)

theorem eraseHead_retag (S T : DD) (h : Head) : eraseHead (retag S T h) = eraseHead h := by
  cases h <;> rfl

theorem isIntG_retag (S T : DD) (h : Head) : isIntG (retag S T h) = isIntG h := by
  cases h <;> rfl

theorem NoCollapse.child {S : DD} {h cs c} (hn : NoCollapse S (.node h cs)) (hc : c ∈ cs) :
    NoCollapse S c := fun f t cs' hs => hn f t cs' (.child hc hs)

/-- with distinct ends the rebuilt node is a plain node -/
theorem build_retag {S T : DD} {h : Head}
    (hn : ∀ f t, h = .interp f t → fillDD S f ≠ fillDD S t) (cs' : List SE) :
    build (retag S T h) cs' = .ok (.node (retag S T h) cs') := by
  cases h with
  | interp f t =>
    have := hn f t rfl
    simp only [retag]
    match cs' with
    | [] => rfl
    | [o] => simp [build, mkInterp, this]
    | _ :: _ :: _ => rfl
  | _ => rfl

theorem forall₂_append {α β} {R : α → β → Prop} {a a' : List α} {b b' : List β}
    (h : List.Forall₂ R a b) (h' : List.Forall₂ R a' b') : List.Forall₂ R (a ++ a') (b ++ b') := by
  induction h with
  | nil => exact h'
  | cons h1 _ ih => exact .cons h1 ih

theorem locTag_ok {S T : DD} (hS : Explicit S) (hT : Explicit T) : ∀ e, NoCollapse S e →
    ∃ e', locTag S S e = .ok e' ∧ shape e' = shape e ∧
      List.Forall₂ (SlotOk S T) (slots true e) (slots true e') := by
  apply SE.ind
  intro h cs ih hn
  have hl : ∀ l : List SE, (∀ c ∈ l, c ∈ cs) → ∃ l', locTagL S S l = .ok l' ∧ shapeL l' = shapeL l ∧
      List.Forall₂ (SlotOk S T) (slotsL true l) (slotsL true l') := by
    intro l
    induction l with
    | nil => intro _; exact ⟨[], rfl, rfl, .nil⟩
    | cons c l ihl =>
      intro hs
      obtain ⟨l', h1, h2, h3⟩ := ihl (fun c hc => hs c (by simp [hc]))
      obtain ⟨c', k1, k2, k3⟩ := ih c (hs c (by simp)) (hn.child (hs c (by simp)))
      refine ⟨c' :: l', by simp [locTagL, h1, k1], by simp [shapeL, h2, k2], ?_⟩
      simp only [slotsL]
      exact forall₂_append k3 h3
  obtain ⟨cs', h1, h2, h3⟩ := hl cs (fun _ h => h)
  refine ⟨.node (retag S S h) cs', ?_, ?_, ?_⟩
  · simp only [locTag, h1]
    exact build_retag (fun f t hh => hn f t cs (hh ▸ .refl _)) _
  · simp [shape, h2, eraseHead_retag]
  · simp only [slots, Bool.true_or]
    exact forall₂_append (by simpa using headSlots_ok hS hT true h) h3

theorem toTag_ok {S T : DD} (hS : Explicit S) (hT : Explicit T) : ∀ e, NoCollapse S e →
    ∃ e', toTag S T e = .ok e' ∧ shape e' = shape e ∧
      List.Forall₂ (SlotOk S T) (slots false e) (slots false e') := by
  apply SE.ind
  intro h cs ih hn
  have hl : ∀ l : List SE, (∀ c ∈ l, c ∈ cs) → ∃ l', toTagL S T l = .ok l' ∧ shapeL l' = shapeL l ∧
      List.Forall₂ (SlotOk S T) (slotsL false l) (slotsL false l') := by
    intro l
    induction l with
    | nil => intro _; exact ⟨[], rfl, rfl, .nil⟩
    | cons c l ihl =>
      intro hs
      obtain ⟨l', h1, h2, h3⟩ := ihl (fun c hc => hs c (by simp [hc]))
      obtain ⟨c', k1, k2, k3⟩ := ih c (hs c (by simp)) (hn.child (hs c (by simp)))
      refine ⟨c' :: l', by simp [toTagL, h1, k1], by simp [shapeL, h2, k2], ?_⟩
      simp only [slotsL]
      exact forall₂_append k3 h3
  have hl' : ∀ l : List SE, (∀ c ∈ l, c ∈ cs) → ∃ l', locTagL S S l = .ok l' ∧ shapeL l' = shapeL l ∧
      List.Forall₂ (SlotOk S T) (slotsL true l) (slotsL true l') := by
    intro l
    induction l with
    | nil => intro _; exact ⟨[], rfl, rfl, .nil⟩
    | cons c l ihl =>
      intro hs
      obtain ⟨l', h1, h2, h3⟩ := ihl (fun c hc => hs c (by simp [hc]))
      obtain ⟨c', k1, k2, k3⟩ := locTag_ok hS hT c (hn.child (hs c (by simp)))
      refine ⟨c' :: l', by simp [locTagL, h1, k1], by simp [shapeL, h2, k2], ?_⟩
      simp only [slotsL]
      exact forall₂_append k3 h3
  have hb := fun cs' => build_retag (T := T) (fun f t (hh : h = _) => hn f t cs (hh ▸ .refl _)) cs'
  have hh := headSlots_ok hS hT false h
  simp only [Bool.false_eq_true, if_false] at hh
  by_cases hi : isIntG h = true
  · obtain ⟨cs', h1, h2, h3⟩ := hl' cs (fun _ h => h)
    refine ⟨.node (retag S T h) cs', ?_, by simp [shape, h2, eraseHead_retag], ?_⟩
    · cases h <;> simp only [isIntG, Bool.false_eq_true] at hi
      simp only [toTag, h1, hb]
    · simp only [slots, isIntG_retag, hi, Bool.or_true]
      exact forall₂_append hh h3
  · obtain ⟨cs', h1, h2, h3⟩ := hl cs (fun _ h => h)
    refine ⟨.node (retag S T h) cs', ?_, by simp [shape, h2, eraseHead_retag], ?_⟩
    · cases h <;> simp only [isIntG, not_true_eq_false] at hi <;> simp only [toTag, h1, hb]
    · simp only [slots, isIntG_retag, hi, Bool.or_false]
      exact forall₂_append hh h3

/-- C11 (what tagging does): for concrete defaults and an expression none of whose
interpolations becomes trivial, tagging succeeds, changes nothing but descriptors, and
every descriptor is treated as the specification `PlacedAs` demands. -/
theorem C11_tagging {S T : DD} (hS : Explicit S) (hT : Explicit T) (e : SE)
    (hn : NoCollapse S e) :
    ∃ e', toTag S T e = .ok e' ∧ shape e' = shape e ∧
      List.Forall₂ (SlotOk S T) (slots false e) (slots false e') := toTag_ok hS hT e hn

/-! ### Results of tagging are fixed -/

mutual
/-- every descriptor is final: heads are unchanged by tagging, and no interpolation is
trivial -/
def Final (S T : DD) : SE → Prop
  | .node h cs => retag S T h = h ∧ (∀ f t o, h = .interp f t → cs = [o] → f ≠ t) ∧
      FinalL S (if isIntG h then S else T) cs
/-- all children are final -/
def FinalL (S T : DD) : List SE → Prop
  | [] => True
  | c :: l => Final S T c ∧ FinalL S T l
end

theorem fill_fix {D d : DD} (hD : Explicit D) : fillDD D (fillDD D d) = fillDD D d := by
  obtain ⟨_, _, _, h4⟩ := fillDD_spec (d := d) hD
  exact (fillDD_spec hD).2.1 h4

theorem retag_idem {S T : DD} (hS : Explicit S) (hT : Explicit T) (h : Head) :
    retag S T (retag S T h) = retag S T h := by
  have hd : ∀ d, defaultDD S T (defaultDD S T d) = defaultDD S T d := fun d =>
    defaultDD_explicit (defaultDD_isExplicit hS hT)
  cases h <;> simp [retag, hd, fill_fix hS, fill_fix hT]

theorem build_final {S T : DD} (hS : Explicit S) (hT : Explicit T) {h : Head} {cs' : List SE} {e'}
    (hc : FinalL S (if isIntG h then S else T) cs') (hb : build (retag S T h) cs' = .ok e') :
    Final S T e' := by
  have key : ∀ hd, hd = retag S T h → (∀ f t o, hd = .interp f t → cs' = [o] → f ≠ t) →
      Final S T (.node hd cs') := by
    intro hd he hf
    refine ⟨by rw [he, retag_idem hS hT], hf, ?_⟩
    rw [he, isIntG_retag]; exact hc
  cases h with
  | interp f t =>
    simp only [isIntG, Bool.false_eq_true, if_false] at hc
    rcases cs' with _ | ⟨o, _ | ⟨b, l⟩⟩
    · simp only [retag, build, Except.ok.injEq] at hb
      subst hb
      exact key _ rfl (by simp)
    · simp only [retag, build, mkInterp] at hb
      split at hb
      · split at hb
        · cases hb
        · simp only [Except.ok.injEq] at hb; subst hb; exact hc.1
      · rename_i hne
        simp only [Except.ok.injEq] at hb; subst hb
        refine key _ rfl ?_
        intro f' t' o' hh _
        cases hh
        exact hne
    · simp only [retag, build, Except.ok.injEq] at hb
      subst hb
      exact key _ rfl (by simp)
  | _ =>
    simp only [retag, build, Except.ok.injEq] at hb
    subst hb
    exact key _ rfl (by simp)

theorem locTag_final {S T : DD} (hS : Explicit S) (hT : Explicit T) (hST : S = T) :
    ∀ e e', locTag S T e = .ok e' → Final S T e' := by
  apply SE.ind
  intro h cs ih e' he
  have hl : ∀ l l' : List SE, (∀ c ∈ l, c ∈ cs) → locTagL S T l = .ok l' → FinalL S T l' := by
    intro l
    induction l with
    | nil => intro l' _ h; simp only [locTagL, Except.ok.injEq] at h; subst h; trivial
    | cons c l ihl =>
      intro l' hs h
      simp only [locTagL] at h
      split at h
      · cases h
      · rename_i c' hc'
        split at h
        · cases h
        · rename_i l'' hl''
          simp only [Except.ok.injEq] at h; subst h
          exact ⟨ih c (hs c (by simp)) c' hc', ihl _ (fun c hc => hs c (by simp [hc])) hl''⟩
  simp only [locTag] at he
  split at he
  · cases he
  · rename_i cs' hcs
    refine build_final hS hT ?_ he
    have := hl cs cs' (fun _ h => h) hcs
    subst hST
    simpa using this

theorem locTagL_final {S : DD} (hS : Explicit S) :
    ∀ l l' : List SE, locTagL S S l = .ok l' → FinalL S S l' := by
  intro l
  induction l with
  | nil => intro l' h; simp only [locTagL, Except.ok.injEq] at h; subst h; trivial
  | cons c l ihl =>
    intro l' h
    simp only [locTagL] at h
    split at h
    · cases h
    · rename_i c' hc'
      split at h
      · cases h
      · rename_i l'' hl''
        simp only [Except.ok.injEq] at h; subst h
        exact ⟨locTag_final hS hS rfl c c' hc', ihl _ hl''⟩

theorem toTag_node {S T : DD} {h : Head} {cs : List SE} (hi : isIntG h = false) :
    toTag S T (.node h cs) = match toTagL S T cs with
      | .error x => .error x
      | .ok cs' => build (retag S T h) cs' := by
  cases h <;> simp_all [isIntG, toTag]

theorem toTag_final {S T : DD} (hS : Explicit S) (hT : Explicit T) :
    ∀ e e', toTag S T e = .ok e' → Final S T e' := by
  apply SE.ind
  intro h cs ih e' he
  have hl : ∀ l l' : List SE, (∀ c ∈ l, c ∈ cs) → toTagL S T l = .ok l' → FinalL S T l' := by
    intro l
    induction l with
    | nil => intro l' _ h; simp only [toTagL, Except.ok.injEq] at h; subst h; trivial
    | cons c l ihl =>
      intro l' hs h
      simp only [toTagL] at h
      split at h
      · cases h
      · rename_i c' hc'
        split at h
        · cases h
        · rename_i l'' hl''
          simp only [Except.ok.injEq] at h; subst h
          exact ⟨ih c (hs c (by simp)) c' hc', ihl _ (fun c hc => hs c (by simp [hc])) hl''⟩
  cases hi : isIntG h with
  | true =>
    cases h <;> simp only [isIntG, Bool.false_eq_true] at hi
    simp only [toTag] at he
    split at he
    · cases he
    · rename_i cs' hcs
      exact build_final hS hT (by simpa [isIntG] using locTagL_final hS cs cs' hcs) he
  | false =>
    rw [toTag_node hi] at he
    split at he
    · cases he
    · rename_i cs' hcs
      exact build_final hS hT (by simpa [hi] using hl cs cs' (fun _ h => h) hcs) he

theorem build_of_final {h : Head} {cs : List SE}
    (hf : ∀ f t o, h = .interp f t → cs = [o] → f ≠ t) : build h cs = .ok (.node h cs) := by
  cases h with
  | interp f t =>
    rcases cs with _ | ⟨o, _ | ⟨b, l⟩⟩
    · rfl
    · simp [build, mkInterp, hf f t o rfl rfl]
    · rfl
  | _ => rfl

theorem locTag_of_final {S : DD} : ∀ e, Final S S e → locTag S S e = .ok e := by
  apply SE.ind
  intro h cs ih hf
  simp only [Final, ite_self] at hf
  have hl : ∀ l : List SE, (∀ c ∈ l, c ∈ cs) → FinalL S S l → locTagL S S l = .ok l := by
    intro l
    induction l with
    | nil => intros; rfl
    | cons c l ihl =>
      intro hs h
      simp only [FinalL] at h
      simp [locTagL, ih c (hs c (by simp)) h.1, ihl (fun c hc => hs c (by simp [hc])) h.2]
  simp only [locTag, hl cs (fun _ h => h) hf.2.2, hf.1]
  exact build_of_final hf.2.1

theorem locTagL_of_final {S : DD} : ∀ l, FinalL S S l → locTagL S S l = .ok l
  | [], _ => rfl
  | c :: l, h => by
    simp only [FinalL] at h
    simp [locTagL, locTag_of_final c h.1, locTagL_of_final l h.2]

theorem toTag_of_final {S T : DD} : ∀ e, Final S T e → toTag S T e = .ok e := by
  apply SE.ind
  intro h cs ih hf
  simp only [Final] at hf
  have hl : ∀ l : List SE, (∀ c ∈ l, c ∈ cs) → FinalL S T l → toTagL S T l = .ok l := by
    intro l
    induction l with
    | nil => intros; rfl
    | cons c l ihl =>
      intro hs h
      simp only [FinalL] at h
      simp [toTagL, ih c (hs c (by simp)) h.1, ihl (fun c hc => hs c (by simp [hc])) h.2]
  obtain ⟨h1, h2, h3⟩ := hf
  cases hi : isIntG h with
  | true =>
    rw [hi, if_pos rfl] at h3
    have : toTag S T (.node h cs) = build (retag S T h) cs := by
      cases h <;> simp only [isIntG, Bool.false_eq_true] at hi
      simp only [toTag, locTagL_of_final cs h3]
    rw [this, h1]
    exact build_of_final h2
  | false =>
    rw [hi] at h3
    rw [toTag_node hi, hl cs (fun _ h => h) (by simpa using h3)]
    simp only [h1]
    exact build_of_final h2

/-- C11 (idempotence): tagging an already tagged expression changes nothing; no
hypothesis on the expression. -/
theorem C11_idempotent {S T : DD} (hS : Explicit S) (hT : Explicit T) (e e' : SE)
    (h : toTag S T e = .ok e') : toTag S T e' = .ok e' :=
  toTag_of_final e' (toTag_final hS hT e e' h)

mutual
theorem slots_of_final {S T : DD} (hS : Explicit S) (hT : Explicit T) (b : Bool) (T' : DD)
    (hT' : T' = if b then S else T) : ∀ e, Final S T' e →
    ∀ s ∈ slots b e, s.2.2.geometry ≠ .none ∧
      (s.2.1 = .quantity → Explicit s.2.2)
  | .node h cs, hf => by
    have hE : Explicit T' := by subst hT'; cases b <;> simp [hS, hT]
    simp only [Final] at hf
    obtain ⟨h1, _, h3⟩ := hf
    intro s hs
    simp only [slots, List.mem_append, List.mem_map] at hs
    rcases hs with ⟨p, hp, rfl⟩ | hs
    · rw [← h1] at hp
      cases h <;> simp only [headSlots, retag, List.mem_cons, List.not_mem_nil, or_false] at hp
      · subst hp; exact ⟨(defaultDD_isExplicit hS hE).1, fun _ => defaultDD_isExplicit hS hE⟩
      · subst hp; exact ⟨(defaultDD_isExplicit hS hE).1, fun _ => defaultDD_isExplicit hS hE⟩
      · subst hp; exact ⟨(defaultDD_isExplicit hS hE).1, fun _ => defaultDD_isExplicit hS hE⟩
      · rcases hp with rfl | rfl <;> exact ⟨(fillDD_spec hS).2.2.2, by simp⟩
      · subst hp; exact ⟨(fillDD_spec hS).2.2.2, by simp⟩
      · subst hp; exact ⟨(fillDD_spec hE).2.2.2, by simp⟩
      · rcases hp with rfl | rfl
        · exact ⟨(fillDD_spec hS).2.2.2, by simp⟩
        · exact ⟨(fillDD_spec hE).2.2.2, by simp⟩
    · refine slotsL_of_final hS hT (b || isIntG h) _ ?_ cs h3 s hs
      subst hT'
      cases b <;> cases isIntG h <;> simp
theorem slotsL_of_final {S T : DD} (hS : Explicit S) (hT : Explicit T) (b : Bool) (T' : DD)
    (hT' : T' = if b then S else T) : ∀ l, FinalL S T' l →
    ∀ s ∈ slotsL b l, s.2.2.geometry ≠ .none ∧
      (s.2.1 = .quantity → Explicit s.2.2)
  | [], _ => by simp [slotsL]
  | c :: l, hf => by
    simp only [FinalL] at hf
    intro s hs
    simp only [slotsL, List.mem_append] at hs
    rcases hs with hs | hs
    · exact slots_of_final hS hT b T' hT' c hf.1 s hs
    · exact slotsL_of_final hS hT b T' hT' l hf.2 s hs
end

/-- C11 (nothing unplaced): after tagging every descriptor has a geometry, and every
location-dependent quantity has a concrete one.  Partial: for layer potentials, solves
and interpolations the symbolic defaults `DEFAULT_SOURCE`/`DEFAULT_TARGET` are not
replaced (`C11_refuted`). -/
theorem C11_concrete_partial {S T : DD} (hS : Explicit S) (hT : Explicit T) (e e' : SE)
    (h : toTag S T e = .ok e') : ∀ s ∈ slots false e', s.2.2.geometry ≠ .none ∧
      (s.2.1 = .quantity → Explicit s.2.2) :=
  slots_of_final hS hT false T rfl e' (toTag_final hS hT e e' h)

/-- example defaults: source `"s"`, target `"t"` -/
def exS : DD := ⟨.ident "s", none, .node⟩
/-- example default target -/
def exT : DD := ⟨.ident "t", none, .node⟩
/-- no location -/
def exNo : DD := ⟨.none, none, .node⟩

/-- C11 is false for layer potentials placed at `DEFAULT_SOURCE`: tagging succeeds and
leaves the symbolic default in place. -/
theorem C11_refuted : ∃ S T : DD, Explicit S ∧ Explicit T ∧ ∃ e e', toTag S T e = .ok e' ∧
    ∃ s ∈ slots false e', s.2.1 = .source ∧ ¬ Explicit s.2.2 := by
  refine ⟨exS, exT, by simp [Explicit, exS], by simp [Explicit, exT],
    .node (.intg ⟨.base "G", ["G"], 1, .p1, ⟨.defaultSource, none, .node⟩, exNo, []⟩)
      [.node (.var "sigma") []], _, rfl, (false, .source, ⟨.defaultSource, none, .node⟩), ?_, rfl, ?_⟩
  · simp [slots, headSlots, retag, fillDD]
  · simp [Explicit]

/-- C11: tagging can also fail (the result would contain itself) when an interpolation
around an interpolation becomes trivial. -/
theorem C11_collapse_refuted : ∃ S T : DD, Explicit S ∧ Explicit T ∧ ∃ e,
    toTag S T e = .error .cyclic := by
  refine ⟨exS, exT, by simp [Explicit, exS], by simp [Explicit, exT],
    .node (.interp exNo exS) [.node (.interp exS exT) [.node (.var "x") []]], rfl⟩

/-! ## C52: stages of unplaced descriptors -/

/-- C52 (partial): tagging keeps the granularity of every descriptor and the stage of
every descriptor with an explicit geometry. -/
theorem C52_stage_partial {S T : DD} (hS : Explicit S) (hT : Explicit T) (e : SE)
    (hn : NoCollapse S e) :
    ∃ e', toTag S T e = .ok e' ∧
      List.Forall₂ (fun a b : Bool × Role × DD => b.2.2.gran = a.2.2.gran ∧
        (Explicit a.2.2 → b.2.2.stage = a.2.2.stage)) (slots false e) (slots false e') := by
  obtain ⟨e', h1, _, h3⟩ := toTag_ok hS hT e hn
  refine ⟨e', h1, h3.imp ?_⟩
  intro a b h
  exact ⟨h.2.2.gran, fun he => by rw [h.2.2.explicit he]⟩

/-- C52 is false: nodes requested on the quadrature stage without naming a geometry lose
the stage when they are placed on the default source. -/
theorem C52_refuted : ∃ S T : DD, Explicit S ∧ Explicit T ∧ ∃ e e' : SE,
    toTag S T e = .ok e' ∧
    slots false e = [(false, .quantity, ⟨.none, some .quadStage2, .node⟩)] ∧
    slots false e' = [(false, .quantity, ⟨.ident "s", none, .node⟩)] := by
  refine ⟨exS, exT, by simp [Explicit, exS], by simp [Explicit, exT],
    .node (.prop (.nodeCoord 0) ⟨.none, some .quadStage2, .node⟩) [], _, rfl, rfl, ?_⟩
  simp [slots, slotsL, headSlots, retag, defaultDD, copyGeo, exS]

/-! ## Non-vacuity -/

/-- `normal(t) * S[ nodes * K[sigma] at t ](s→?)`, with unplaced pieces at all levels -/
def exE : SE :=
  .node .prod [.node (.prop (.nodeCoord 0) exNo) [],
    .node (.intg ⟨.base "G", ["G"], 1, .none, exNo, exNo, ["k"]⟩)
      [.node .sum [.node (.prop .qweight exNo) [],
        .node (.intg ⟨.base "G", ["G"], 1, .p1, ⟨.ident "s2", some .stage1, .node⟩, exNo, []⟩)
          [.node (.interp ⟨.ident "s", none, .node⟩ ⟨.none, some .stage2, .node⟩)
            [.node (.elwise "max" ⟨.none, none, .element⟩) [.node (.var "sigma") []]]]],
       .node (.prop .ones ⟨.defaultTarget, none, .node⟩) []]]

example : toTag exS exT exE = .ok
  (.node .prod [.node (.prop (.nodeCoord 0) exT) [],
    .node (.intg ⟨.base "G", ["G"], 1, .none, exS, exT, ["k"]⟩)
      [.node .sum [.node (.prop .qweight exS) [],
        .node (.intg ⟨.base "G", ["G"], 1, .p1, ⟨.ident "s2", some .stage1, .node⟩, exS, []⟩)
          [.node (.elwise "max" ⟨.ident "s", none, .element⟩) [.node (.var "sigma") []]]],
       .node (.prop .ones exS) []]]) := by decide +kernel

/-- the hypotheses of `C11_tagging` hold for an expression with nested potentials and
unplaced descriptors -/
example : Explicit exS ∧ Explicit exT ∧ NoCollapse exS
    (.node (.intg ⟨.base "G", ["G"], 1, .none, exNo, exNo, []⟩)
      [.node (.interp exNo exT) [.node (.prop .qweight exNo) []]]) := by
  refine ⟨by simp [Explicit, exS], by simp [Explicit, exT], ?_⟩
  intro f t cs h
  cases h with
  | child hc hs =>
    simp only [List.mem_singleton] at hc
    subst hc
    cases hs with
    | refl => simp [fillDD, exNo, exT, exS, copyGeo]
    | child hc hs =>
      simp only [List.mem_singleton] at hc
      subst hc
      cases hs with
      | child hc hs => simp at hc

end Verif.Sym
