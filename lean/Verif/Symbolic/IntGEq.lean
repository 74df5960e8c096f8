import Verif.Symbolic.QBXPre

/-!
# Equality and hashing of expressions with layer potentials (C17)

Model of `IntG.__eq__` and `IntG.__hash__` (`pytential/symbolic/primitives.py:2084-2113`)
and of the generated `__eq__`/`__hash__` of the other expression classes (type and
fields; hash of the tuple of fields).

Simplification: the fields of heads (kernels, descriptors, names) are compared by
structural equality; kernel arguments are in the canonical order that
`hashable_kernel_args` produces.
-/

namespace Verif.Sym

open Verif.DofDesc

/-! ## Model -/

/-- What the hash of a head depends on.  CPython: `hash(-1) == hash(-2) == -2`, so the
limits `-1` and `-2` contribute the same (`primitives.py:2104-2113`). -/
def hashKey : Head → Head
  | .intg g => .intg (if g.lim = .m1 then { g with lim := .m2 } else g)
  | h => h

mutual
/-- `__hash__`, for an arbitrary way `hc` of combining the hashes of the components -/
def pyHash (hc : Head → List Int → Int) : SE → Int
  | .node h cs => hc (hashKey h) (pyHashL hc cs)
/-- hashes of components -/
def pyHashL (hc : Head → List Int → Int) : List SE → List Int
  | [] => []
  | c :: l => pyHash hc c :: pyHashL hc l
end

/-- comparison of the non-expression fields: `IntG.__eq__` compares everything except
`qbx_forced_limit` (`primitives.py:2093-2102`) -/
def headEq : Head → Head → Bool
  | .intg g, .intg g' => decide ({ g with lim := .none } = ({ g' with lim := .none } : IG))
  | h, h' => decide (h = h')

mutual
/-- `__eq__` (`primitives.py:2084-2102`): hashes first, then the fields -/
def pyEq (hc : Head → List Int → Int) : SE → SE → Bool
  | .node h cs, .node h' cs' =>
    decide (pyHash hc (.node h cs) = pyHash hc (.node h' cs')) && headEq h h' && pyEqL hc cs cs'
/-- componentwise -/
def pyEqL (hc : Head → List Int → Int) : List SE → List SE → Bool
  | [], [] => true
  | c :: l, c' :: l' => pyEq hc c c' && pyEqL hc l l'
  | _, _ => false
end

/-! ## Proofs -/

mutual
/-- the expression with every limit `-1` replaced by `-2` -/
def blur : SE → SE
  | .node h cs => .node (hashKey h) (blurL cs)
/-- on lists -/
def blurL : List SE → List SE
  | [] => []
  | c :: l => blur c :: blurL l
end

theorem blurL_eq : ∀ l, blurL l = l.map blur
  | [] => rfl
  | c :: l => by simp [blurL, blurL_eq l]

theorem pyHashL_eq (hc) : ∀ l, pyHashL hc l = l.map (pyHash hc)
  | [] => rfl
  | c :: l => by simp [pyHashL, pyHashL_eq hc l]

theorem pyHash_blur_congr (hc : Head → List Int → Int) : ∀ a b, blur a = blur b →
    pyHash hc a = pyHash hc b := by
  apply SE.ind (P := fun a => ∀ b, blur a = blur b → pyHash hc a = pyHash hc b)
  intro h cs ih b hb
  cases b with
  | node h' cs' =>
    simp only [blur, SE.node.injEq] at hb
    simp only [pyHash, hb.1]
    congr 1
    have : ∀ l l' : List SE, (∀ c ∈ l, c ∈ cs) → blurL l = blurL l' → pyHashL hc l = pyHashL hc l' := by
      intro l
      induction l with
      | nil => intro l' _ h; cases l' <;> simp_all [blurL, pyHashL]
      | cons c l ihl =>
        intro l' hs h
        cases l' with
        | nil => simp [blurL] at h
        | cons c' l' =>
          simp only [blurL, List.cons.injEq] at h
          simp only [pyHashL, ih c (hs c (by simp)) c' h.1, ihl l' (fun c hc => hs c (by simp [hc])) h.2]
    exact this cs cs' (fun _ h => h) hb.2

theorem headEq_of_key {h h' : Head} (e : hashKey h = hashKey h') : headEq h h' = true := by
  cases h <;> cases h' <;> simp_all [hashKey, headEq]
  rename_i g g'
  obtain ⟨⟩ := g
  obtain ⟨⟩ := g'
  split at e <;> split at e <;> simp_all

/-- hashing has no collisions -/
def NoCollision (hc : Head → List Int → Int) : Prop :=
  ∀ h l h' l', hc h l = hc h' l' → h = h' ∧ l = l'

theorem pyHash_inj {hc} (hn : NoCollision hc) : ∀ a b, pyHash hc a = pyHash hc b → blur a = blur b := by
  apply SE.ind (P := fun a => ∀ b, pyHash hc a = pyHash hc b → blur a = blur b)
  intro h cs ih b hb
  cases b with
  | node h' cs' =>
    simp only [pyHash] at hb
    obtain ⟨e1, e2⟩ := hn _ _ _ _ hb
    simp only [blur, SE.node.injEq]
    refine ⟨e1, ?_⟩
    have : ∀ l l' : List SE, (∀ c ∈ l, c ∈ cs) → pyHashL hc l = pyHashL hc l' → blurL l = blurL l' := by
      intro l
      induction l with
      | nil => intro l' _ h; cases l' <;> simp_all [blurL, pyHashL]
      | cons c l ihl =>
        intro l' hs h
        cases l' with
        | nil => simp [pyHashL] at h
        | cons c' l' =>
          simp only [pyHashL, List.cons.injEq] at h
          simp only [blurL, ih c (hs c (by simp)) c' h.1, ihl l' (fun c hc => hs c (by simp [hc])) h.2]
    exact this cs cs' (fun _ h => h) e2

theorem pyEq_of_blur (hc) : ∀ a b, blur a = blur b → pyEq hc a b = true := by
  apply SE.ind (P := fun a => ∀ b, blur a = blur b → pyEq hc a b = true)
  intro h cs ih b hb
  have hh := pyHash_blur_congr hc _ _ hb
  cases b with
  | node h' cs' =>
    simp only [blur, SE.node.injEq] at hb
    simp only [pyEq, hh, decide_true, headEq_of_key hb.1, Bool.true_and]
    have : ∀ l l' : List SE, (∀ c ∈ l, c ∈ cs) → blurL l = blurL l' → pyEqL hc l l' = true := by
      intro l
      induction l with
      | nil => intro l' _ h; cases l' <;> simp_all [blurL, pyEqL]
      | cons c l ihl =>
        intro l' hs h
        cases l' with
        | nil => simp [blurL] at h
        | cons c' l' =>
          simp only [blurL, List.cons.injEq] at h
          simp only [pyEqL, ih c (hs c (by simp)) c' h.1, ihl l' (fun c hc => hs c (by simp [hc])) h.2,
            Bool.and_self]
    exact this cs cs' (fun _ h => h) hb.2

theorem pyEq_hash {hc} {a b : SE} (h : pyEq hc a b = true) : pyHash hc a = pyHash hc b := by
  cases a; cases b
  simp only [pyEq, Bool.and_eq_true, decide_eq_true_eq] at h
  exact h.1.1

/-- without hash collisions, `==` is equality up to confusing the limits `-1` and `-2` -/
theorem pyEq_iff_blur {hc} (hn : NoCollision hc) (a b : SE) : pyEq hc a b = true ↔ blur a = blur b :=
  ⟨fun h => pyHash_inj hn a b (pyEq_hash h), pyEq_of_blur hc a b⟩

theorem blur_id : ∀ e, AllIntG (fun g => g.lim ≠ .m1) e → blur e = e := by
  apply SE.ind
  intro h cs ih he
  simp only [AllIntG] at he
  have hl : blurL cs = cs := by
    rw [blurL_eq]
    conv => rhs; rw [← List.map_id cs]
    exact List.map_congr_left fun c hc => ih c hc (allIntGL_iff.1 he.2 c hc)
  cases h with
  | intg g => simp [blur, hashKey, he.1 g rfl, hl]
  | _ => simp [blur, hashKey, hl]

theorem unblur : ∀ a b, AllIntG (fun g => g.lim ≠ .m2) a → AllIntG (fun g => g.lim ≠ .m2) b →
    blur a = blur b → a = b := by
  apply SE.ind (P := fun a => ∀ b, AllIntG (fun g => g.lim ≠ .m2) a →
    AllIntG (fun g => g.lim ≠ .m2) b → blur a = blur b → a = b)
  intro h cs ih b ha hb e
  cases b with
  | node h' cs' =>
    simp only [AllIntG] at ha hb
    simp only [blur, SE.node.injEq] at e
    have hl : ∀ l l' : List SE, (∀ c ∈ l, c ∈ cs) → (∀ c ∈ l', AllIntG (fun g => g.lim ≠ .m2) c) →
        blurL l = blurL l' → l = l' := by
      intro l
      induction l with
      | nil => intro l' _ _ h; cases l' <;> simp_all [blurL]
      | cons c l ihl =>
        intro l' hs hl' h
        cases l' with
        | nil => simp [blurL] at h
        | cons c' l' =>
          simp only [blurL, List.cons.injEq] at h
          rw [ih c (hs c (by simp)) c' (allIntGL_iff.1 ha.2 c (hs c (by simp))) (hl' c' (by simp)) h.1,
            ihl l' (fun c hc => hs c (by simp [hc])) (fun c hc => hl' c (by simp [hc])) h.2]
    rw [hl cs cs' (fun _ h => h) (allIntGL_iff.1 hb.2) e.2]
    congr 1
    have e1 := e.1
    have h1 := ha.1
    have h2 := hb.1
    clear e hl ih ha hb
    cases h with
    | intg g =>
      cases h' with
      | intg g' =>
        have k1 := h1 g rfl
        have k2 := h2 g' rfl
        obtain ⟨⟩ := g
        obtain ⟨⟩ := g'
        simp only [hashKey] at e1
        split at e1 <;> split at e1 <;> simp_all
      | _ => simp [hashKey] at e1
    | _ =>
      cases h' with
      | intg g' => simp [hashKey] at e1
      | _ => exact e1

/-- C17 (partial): without hash collisions, expressions in which no layer potential uses
the limit `-2` (or none uses `-1`) compare equal exactly when they are identical,
including all limits at all depths. -/
theorem C17_equality_partial (hc : Head → List Int → Int) (hn : NoCollision hc) (a b : SE)
    (h : (AllIntG (fun g => g.lim ≠ .m2) a ∧ AllIntG (fun g => g.lim ≠ .m2) b) ∨
      (AllIntG (fun g => g.lim ≠ .m1) a ∧ AllIntG (fun g => g.lim ≠ .m1) b)) :
    pyEq hc a b = true ↔ a = b := by
  rw [pyEq_iff_blur hn]
  constructor
  · intro e
    rcases h with h | h
    · exact unblur a b h.1 h.2 e
    · rw [blur_id a h.1, blur_id b h.2] at e; exact e
  · rintro rfl; rfl

/-- C17: equal expressions hash equal, and `==` is reflexive (no assumption on the
hash). -/
theorem C17_hash (hc : Head → List Int → Int) (a b : SE) :
    (pyEq hc a b = true → pyHash hc a = pyHash hc b) ∧ pyEq hc a a = true :=
  ⟨pyEq_hash, pyEq_of_blur hc a a rfl⟩

/-- C17 is false: whatever the hash function, the potentials with limits `-1` and `-2`
(same kernel, density, source, target) compare equal. -/
theorem C17_refuted (hc : Head → List Int → Int) : ∃ g g' : IG, g.lim = .m1 ∧ g'.lim = .m2 ∧
    pyEq hc (.node (.intg g) [.node (.var "sigma") []]) (.node (.intg g') [.node (.var "sigma") []]) = true := by
  refine ⟨⟨.base "G", ["G"], 1, .m1, exS, exS, []⟩, ⟨.base "G", ["G"], 1, .m2, exS, exS, []⟩, rfl, rfl, ?_⟩
  exact pyEq_of_blur hc _ _ (by simp [blur, hashKey])

end Verif.Sym
