import Verif.Compiler.Spec
import Std.Data.String.ToNat

/-! Helper lemmas: `get_var_name` returns fresh names. -/

namespace Verif.Compiler

theorem toString_inj {a b : Nat} (h : toString a = toString b) : a = b := by
  have h' : a.repr = b.repr := h
  have := congrArg String.toNat? h'
  rw [Nat.toNat?_repr, Nat.toNat?_repr] at this
  simpa using this

theorem append_left_cancel' {p a b : String} (h : p ++ a = p ++ b) : a = b := by
  have := congrArg String.toList h
  simp only [String.toList_append] at this
  exact String.toList_inj.1 (List.append_cancel_left this)

theorem plainName_inj {a b : Nat} (h : plainName a = plainName b) : a = b :=
  toString_inj (append_left_cancel' h)

theorem prefixName_inj {p : String} {a b : Nat} (h : prefixName p a = prefixName p b) :
    a = b := by
  have hlen : ∀ n : Nat, p ≠ p ++ "_" ++ toString n := by
    intro n hh
    have := congrArg (fun s => s.toList.length) hh
    simp [String.toList_append] at this
  cases a with
  | zero =>
    cases b with
    | zero => rfl
    | succ b => exact absurd h (hlen _)
  | succ a =>
    cases b with
    | zero => exact absurd h.symm (hlen _)
    | succ b =>
      have := toString_inj (append_left_cancel' h)
      omega

theorem firstUnused_spec (used : List String) (gen : Nat → String)
    (hinj : ∀ a b, gen a = gen b → a = b) :
    ∀ fuel i, (∀ j, j < i → gen j ∈ used) → used.length ≤ fuel + i →
      firstUnused used gen fuel i ∉ used ∧ ∃ k, firstUnused used gen fuel i = gen k := by
  intro fuel
  induction fuel with
  | zero =>
    intro i hlt hlen
    refine ⟨?_, i, rfl⟩
    unfold firstUnused
    intro hmem
    have hsub : ∀ x ∈ (List.range (i + 1)).map gen, x ∈ used := by
      intro x hx
      obtain ⟨j, hj, rfl⟩ := List.mem_map.1 hx
      rw [List.mem_range] at hj
      rcases Nat.lt_succ_iff_lt_or_eq.1 hj with h | h
      · exact hlt j h
      · rw [h]; exact hmem
    have hnd : ((List.range (i + 1)).map gen).Nodup := by
      rw [List.nodup_iff_pairwise_ne, List.pairwise_map]
      exact (List.nodup_range (n := i + 1)).imp (fun hne h => hne (hinj _ _ h))
    have := hnd.length_le_of_subset hsub
    simp at this
    omega
  | succ fuel ih =>
    intro i hlt hlen
    unfold firstUnused
    split
    · rename_i h; exact ⟨h, i, rfl⟩
    · rename_i h
      apply ih (i + 1)
      · intro j hj
        rcases Nat.lt_succ_iff_lt_or_eq.1 hj with h' | h'
        · exact hlt j h'
        · rw [h']; exact Decidable.not_not.1 h
      · omega

theorem varName_fresh (pfx : Option String) (used : List String) :
    varName pfx used ∉ used := by
  cases pfx with
  | none =>
    exact (firstUnused_spec used plainName (fun _ _ => plainName_inj) _ 0 (by simp)
      (Nat.le_refl _)).1
  | some p =>
    exact (firstUnused_spec used (prefixName p) (fun _ _ => prefixName_inj) _ 0 (by simp)
      (Nat.le_refl _)).1

theorem varName_none_form (used : List String) : ∃ i, varName none used = plainName i :=
  (firstUnused_spec used plainName (fun _ _ => plainName_inj) _ 0 (by simp) (Nat.le_refl _)).2

theorem varName_some_form (p : String) (used : List String) :
    ∃ i, varName (some p) used = prefixName p i :=
  (firstUnused_spec used (prefixName p) (fun _ _ => prefixName_inj) _ 0 (by simp)
    (Nat.le_refl _)).2

theorem freshNames_spec : ∀ (n : Nat) (used : List String),
    (freshNames n used).1.length = n ∧ (freshNames n used).1.Nodup ∧
    (∀ x ∈ (freshNames n used).1, x ∉ used ∧ ∃ i, x = plainName i) ∧
    (∀ x, x ∈ (freshNames n used).2 ↔ x ∈ used ∨ x ∈ (freshNames n used).1) := by
  intro n
  induction n with
  | zero => intro used; simp [freshNames]
  | succ n ih =>
    intro used
    obtain ⟨h1, h2, h3, h4⟩ := ih (varName none used :: used)
    simp only [freshNames, List.length_cons, List.nodup_cons, List.mem_cons]
    refine ⟨by omega, ⟨?_, h2⟩, ?_, ?_⟩
    · intro h; exact (h3 _ h).1 (by simp)
    · rintro x (h | h)
      · subst h; exact ⟨varName_fresh none used, varName_none_form used⟩
      · have := h3 x h
        exact ⟨fun hh => this.1 (List.mem_cons_of_mem _ hh), this.2⟩
    · intro x
      rw [h4, List.mem_cons]
      constructor
      · rintro ((h | h) | h)
        · exact Or.inr (Or.inl h)
        · exact Or.inl h
        · exact Or.inr (Or.inr h)
      · rintro (h | h | h)
        · exact Or.inl (Or.inr h)
        · exact Or.inl (Or.inl h)
        · exact Or.inr h

end Verif.Compiler
