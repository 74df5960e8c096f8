import Mathlib.Tactic.Common
import Verif.Compiler.Printing

/-!
# Printed nodes of expressions (C100)

Model of `StringifyMapper` (`pytential/symbolic/mappers.py:892-1013`): the texts of the node types of `pytential`, with the
texts of descriptors (`descText`, C100) and of operands as parameters.
-/

namespace Verif.Printing

/-- the three reductions -/
inductive Red | sum | min | max
  deriving DecidableEq, Repr

/-- values of `qbx_forced_limit`, printed with `{}` (`mappers.py:968-972`) -/
inductive ILim | none | avg | num (negative : Bool) (n : Nat)
  deriving DecidableEq, Repr

/-- node types of `pytential/symbolic/primitives.py` with the texts of their parts: `d`, `s`, `t` are texts of descriptors, `body`
texts of operands -/
inductive Node
  | ones (d : Txt)
  | inverse (body : Txt)
  | elwise (r : Red) (d body : Txt)
  | nodeRed (r : Red) (body : Txt)
  | coord (axis : Nat) (d : Txt)
  | refDeriv (axes : List (Nat × Nat)) (d body : Txt)
  | qWeight (d : Txt)
  | intG (s t : Txt) (lim : ILim) (body : Txt)
  | interp (s t body : Txt)
  | interleave (d body : Txt)
  | error (message : Txt)
  | isShape (d shape : Txt)
  deriving DecidableEq, Repr

/-- `%d` of a number that is not negative -/
def dec (n : Nat) : Txt := Nat.toDigits 10 n

/-- the names of the reductions (`mappers.py:910-932`) -/
def Red.name : Red → Txt
  | .sum => "Sum".toList
  | .min => "Min".toList
  | .max => "Max".toList

/-- `{}` of a limit (`mappers.py:971`) -/
def ILim.text : ILim → Txt
  | .none => "None".toList
  | .avg => "avg".toList
  | .num true n => '-' :: dec n
  | .num false n => dec n

/-- one axis of a reference derivative (`mappers.py:946-950`) -/
def axisText (a : Nat × Nat) : Txt :=
  if a.2 = 1 then "d/dr".toList ++ dec a.1 else "d/dr".toList ++ dec a.1 ++ ('^' :: dec a.2)

/-- `StringifyMapper` on the outermost level (`mappers.py:894-1013`; inside of products a reference derivative is put into
parentheses, `:957-960`).  `body` is `expression = rhs {extra variables}` for a solve (`:897-902`), kernel arguments, blank and kernel for a
layer potential (`:963-985`), and both operands for an interleaving (`:993-998`) -/
def nodeText : Node → Txt
  | .ones d => "Ones[".toList ++ (d ++ [']'])
  | .inverse b => "Solve(".toList ++ (b ++ [')'])
  | .elwise r d b => "Elwise".toList ++ (r.name ++ '[' :: (d ++ ']' :: '(' :: (b ++ [')'])))
  | .nodeRed r b => "Node".toList ++ (r.name ++ '(' :: (b ++ [')']))
  | .coord a d => 'x' :: (dec a ++ '[' :: (d ++ [']']))
  | .refDeriv ax d b => joinWith [' '] (ax.map axisText) ++ '[' :: (d ++ ']' :: ' ' :: b)
  | .qWeight d => "w_quad[".toList ++ (d ++ [']'])
  | .intG s t l b => "Int[".toList ++ (s ++ '-' :: '>' :: (t ++ ']' :: '@' :: '(' :: (l.text ++ ')' :: b)))
  | .interp s t b => "Interp[".toList ++ (s ++ '-' :: '>' :: (t ++ ']' :: '(' :: (b ++ [')'])))
  | .interleave d b => "Interleave[".toList ++ (d ++ ']' :: '(' :: (b ++ [')']))
  | .error m => "Error(".toList ++ (m ++ [')'])
  | .isShape d s => "IsShape[".toList ++ (d ++ ']' :: '(' :: (s ++ [')']))

/-- descriptors are printed without brackets and dashes, and a reference derivative has an axis -/
def Fine : Node → Prop
  | .ones d => ']' ∉ d
  | .inverse _ => True
  | .elwise _ d _ => ']' ∉ d
  | .nodeRed _ _ => True
  | .coord _ d => ']' ∉ d
  | .refDeriv ax d _ => ax ≠ [] ∧ ']' ∉ d
  | .qWeight d => ']' ∉ d
  | .intG s t _ _ => '-' ∉ s ∧ ']' ∉ t
  | .interp s t _ => '-' ∉ s ∧ ']' ∉ t
  | .interleave d _ => ']' ∉ d
  | .error _ => True
  | .isShape d _ => ']' ∉ d

theorem dec_inj {a b : Nat} (h : dec a = dec b) : a = b := by
  rw [← Nat.ofDigitChars_ten_toDigits (n := a), ← Nat.ofDigitChars_ten_toDigits (n := b)]
  exact congrArg (fun l => Nat.ofDigitChars 10 l 0) h

theorem dec_digit {n : Nat} {c : Char} (h : c ∈ dec n) : c.isDigit = true :=
  Nat.isDigit_of_mem_toDigits (by decide) (by decide) h

theorem dec_not {n : Nat} {c : Char} (hc : c.isDigit = false) : c ∉ dec n := fun h => by
  rw [dec_digit h] at hc; cases hc

theorem axisText_not {a : Nat × Nat} {c : Char} (h1 : c.isDigit = false) (h2 : c ∉ "d/dr^".toList) : c ∉ axisText a := by
  have h2' : c ≠ 'd' ∧ c ≠ '/' ∧ c ≠ 'r' ∧ c ≠ '^' := by
    have e : "d/dr^".toList = ['d', '/', 'd', 'r', '^'] := rfl
    rw [e] at h2
    simp only [List.mem_cons, List.not_mem_nil, or_false, not_or] at h2
    exact ⟨h2.1, h2.2.1, h2.2.2.2.1, h2.2.2.2.2⟩
  have e : "d/dr".toList = ['d', '/', 'd', 'r'] := rfl
  rw [axisText, e]
  split <;> simp [dec_not h1, h2']

theorem axisText_inj {a b : Nat × Nat} (h : axisText a = axisText b) : a = b := by
  have e : "d/dr".toList = ['d', '/', 'd', 'r'] := rfl
  have hc : ∀ n, '^' ∉ dec n := fun n => dec_not rfl
  obtain ⟨a1, a2⟩ := a
  obtain ⟨b1, b2⟩ := b
  rw [axisText, axisText, e] at h
  by_cases h1 : a2 = 1 <;> by_cases h2 : b2 = 1
  · simp only [h1, h2, if_true, List.cons_append, List.nil_append, List.cons.injEq, true_and] at h
    rw [h1, h2, dec_inj h]
  · simp only [h1, h2, if_true, if_false, List.cons_append, List.nil_append, List.cons.injEq, true_and] at h
    exact absurd (by rw [h]; simp) (hc a1)
  · simp only [h1, h2, if_true, if_false, List.cons_append, List.nil_append, List.cons.injEq, true_and] at h
    exact absurd (by rw [← h]; simp) (hc b1)
  · simp only [h1, h2, if_false, List.cons_append, List.nil_append, List.cons.injEq, true_and] at h
    obtain ⟨e1, e2⟩ := cut_unique (hc a1) (hc b1) h
    rw [dec_inj e1, dec_inj e2]

theorem axisText_head (a : Nat × Nat) : ∃ r, axisText a = 'd' :: r := by
  have e : "d/dr".toList = ['d', '/', 'd', 'r'] := rfl
  rw [axisText, e]
  split <;> exact ⟨_, rfl⟩

/-- parts without blanks are recovered from their list -/
theorem join_inj {l m : List Txt} (hl : ∀ x ∈ l, ' ' ∉ x) (hm : ∀ x ∈ m, ' ' ∉ x) (l0 : l ≠ []) (m0 : m ≠ [])
    (h : joinWith [' '] l = joinWith [' '] m) : l = m := by
  induction l generalizing m with
  | nil => exact absurd rfl l0
  | cons x r ih =>
    rw [List.forall_mem_cons] at hl
    cases m with
    | nil => exact absurd rfl m0
    | cons y s =>
      rw [List.forall_mem_cons] at hm
      by_cases hr : r = [] <;> by_cases hs : s = []
      · subst hr; subst hs
        exact congrArg (fun z => [z]) h
      · subst hr
        rw [joinWith_cons hs] at h
        exfalso; apply hl.1
        rw [show joinWith [' '] [x] = x from rfl] at h
        rw [h]; simp
      · subst hs
        rw [joinWith_cons hr] at h
        exfalso; apply hm.1
        rw [show joinWith [' '] [y] = y from rfl] at h
        rw [← h]; simp
      · rw [joinWith_cons hr, joinWith_cons hs] at h
        simp only [List.append_assoc, List.cons_append, List.nil_append] at h
        obtain ⟨e1, e2⟩ := cut_unique hl.1 hm.1 h
        rw [e1, ih hl.2 hm.2 hr hs e2]

theorem join_not {c : Char} (hc : c ≠ ' ') {l : List Txt} (h : ∀ x ∈ l, c ∉ x) : c ∉ joinWith [' '] l := by
  induction l with
  | nil => simp [joinWith]
  | cons x r ih =>
    rw [List.forall_mem_cons] at h
    by_cases hr : r = []
    · subst hr; exact h.1
    · rw [joinWith_cons hr]
      simp [h.1, ih h.2, hc]

theorem axes_inj {l m : List (Nat × Nat)} (l0 : l ≠ []) (m0 : m ≠ [])
    (h : joinWith [' '] (l.map axisText) = joinWith [' '] (m.map axisText)) : l = m := by
  have hb : ∀ l : List (Nat × Nat), ∀ x ∈ l.map axisText, ' ' ∉ x := by
    intro l x hx
    obtain ⟨a, -, rfl⟩ := List.mem_map.1 hx
    exact axisText_not rfl (by decide)
  exact List.map_injective_iff.2 (fun _ _ h => axisText_inj h)
    (join_inj (hb l) (hb m) (by simpa using l0) (by simpa using m0) h)

theorem axes_bracket (l : List (Nat × Nat)) : '[' ∉ joinWith [' '] (l.map axisText) := by
  refine join_not (by decide) ?_
  intro x hx
  obtain ⟨a, -, rfl⟩ := List.mem_map.1 hx
  exact axisText_not rfl (by decide)

theorem axes_head {l : List (Nat × Nat)} (h : l ≠ []) (r : Txt) : ∃ s, joinWith [' '] (l.map axisText) ++ r = 'd' :: s := by
  cases l with
  | nil => exact absurd rfl h
  | cons a l =>
    obtain ⟨t, ht⟩ := axisText_head a
    cases l with
    | nil => exact ⟨t ++ r, by simp [joinWith, ht]⟩
    | cons b l =>
      exact ⟨_, by rw [List.map_cons, joinWith_cons (by simp), ht]; rfl⟩

theorem name_inj {a b : Red} {r s : Txt} (h : a.name ++ r = b.name ++ s) : a = b ∧ r = s := by
  cases a <;> cases b <;> simp_all [Red.name]

theorem ilim_inj {a b : ILim} (h : a.text = b.text) : a = b := by
  have hN : ∀ n r, dec n ≠ 'N' :: r := fun n r e => dec_not (n := n) (c := 'N') rfl (by rw [e]; simp)
  have hA : ∀ n r, dec n ≠ 'a' :: r := fun n r e => dec_not (n := n) (c := 'a') rfl (by rw [e]; simp)
  have hM : ∀ n r, dec n ≠ '-' :: r := fun n r e => dec_not (n := n) (c := '-') rfl (by rw [e]; simp)
  have e1 : "None".toList = ['N', 'o', 'n', 'e'] := rfl
  have e2 : "avg".toList = ['a', 'v', 'g'] := rfl
  cases a with
  | none =>
    cases b with
    | none => rfl
    | avg => simp [ILim.text] at h
    | num s n => cases s <;> simp only [ILim.text, e1] at h
                 · exact absurd h.symm (hN _ _)
                 · simp at h
  | avg =>
    cases b with
    | none => simp [ILim.text] at h
    | avg => rfl
    | num s n => cases s <;> simp only [ILim.text, e2] at h
                 · exact absurd h.symm (hA _ _)
                 · simp at h
  | num t m =>
    cases b with
    | none => cases t <;> simp only [ILim.text, e1] at h
              · exact absurd h (hN _ _)
              · simp at h
    | avg => cases t <;> simp only [ILim.text, e2] at h
             · exact absurd h (hA _ _)
             · simp at h
    | num s n =>
      cases t <;> cases s <;> simp only [ILim.text] at h
      · rw [dec_inj h]
      · exact absurd h (hM _ _)
      · exact absurd h.symm (hM _ _)
      · simp only [List.cons.injEq, true_and] at h
        rw [dec_inj h]

theorem ilim_paren (l : ILim) : ')' ∉ l.text := by
  have e1 : "None".toList = ['N', 'o', 'n', 'e'] := rfl
  have e2 : "avg".toList = ['a', 'v', 'g'] := rfl
  cases l with
  | none => rw [ILim.text, e1]; decide
  | avg => rw [ILim.text, e2]; decide
  | num s n =>
    have := dec_not (n := n) (c := ')') rfl
    cases s <;> simp [ILim.text, this]

/-- the number of a constructor -/
def Node.kind : Node → Nat
  | .ones _ => 0
  | .inverse _ => 1
  | .elwise _ _ _ => 2
  | .nodeRed _ _ => 3
  | .coord _ _ => 4
  | .refDeriv _ _ _ => 5
  | .qWeight _ => 6
  | .intG _ _ _ _ => 7
  | .interp _ _ _ => 8
  | .interleave _ _ => 9
  | .error _ => 10
  | .isShape _ _ => 11

/-- the constructor read from the beginning of a text -/
def kindOf : Txt → Nat
  | 'O' :: _ => 0
  | 'S' :: _ => 1
  | 'E' :: 'l' :: _ => 2
  | 'N' :: _ => 3
  | 'x' :: _ => 4
  | 'd' :: _ => 5
  | 'w' :: _ => 6
  | 'I' :: 'n' :: 't' :: '[' :: _ => 7
  | 'I' :: 'n' :: 't' :: 'e' :: 'r' :: 'p' :: _ => 8
  | 'I' :: 'n' :: 't' :: 'e' :: 'r' :: 'l' :: _ => 9
  | 'E' :: 'r' :: _ => 10
  | 'I' :: 's' :: _ => 11
  | _ => 12

theorem kindOf_nodeText (a : Node) (h : Fine a) : kindOf (nodeText a) = a.kind := by
  cases a with
  | refDeriv ax d b =>
    obtain ⟨s, hs⟩ := axes_head h.1 ('[' :: (d ++ ']' :: ' ' :: b))
    rw [show nodeText (.refDeriv ax d b) = 'd' :: s from hs]
    rfl
  | _ => rfl

theorem cancel {p r s : Txt} (h : p ++ r = p ++ s) : r = s := List.append_cancel_left h

theorem chop {c : Char} {r s : Txt} (h : c :: r = c :: s) : r = s := (List.cons.inj h).2

theorem last_inj {c : Char} {r s : Txt} (h : r ++ [c] = s ++ [c]) : r = s := List.append_cancel_right h

/-- C100: the text of a node tells its type, its reduction, axes, limit, the texts of its descriptors, and the text
of its operands -/
theorem C100_nodes (a b : Node) (ha : Fine a) (hb : Fine b) : nodeText a = nodeText b ↔ a = b := by
  refine ⟨fun h => ?_, fun h => by rw [h]⟩
  have hd : ∀ n, '[' ∉ dec n := fun n => dec_not rfl
  have hk : a.kind = b.kind := by rw [← kindOf_nodeText a ha, ← kindOf_nodeText b hb, h]
  cases a with
  | ones d => cases b with
    | ones d' => rw [last_inj (cancel h)]
    | _ => simp [Node.kind] at hk
  | inverse d => cases b with
    | inverse d' => rw [last_inj (cancel h)]
    | _ => simp [Node.kind] at hk
  | elwise r d c => cases b with
    | elwise r' d' c' =>
      obtain ⟨e1, e2⟩ := name_inj (cancel h)
      obtain ⟨e3, e4⟩ := cut_unique ha hb (chop e2)
      rw [e1, e3, last_inj (chop e4)]
    | _ => simp [Node.kind] at hk
  | nodeRed r c => cases b with
    | nodeRed r' c' =>
      obtain ⟨e1, e2⟩ := name_inj (cancel h)
      rw [e1, last_inj (chop e2)]
    | _ => simp [Node.kind] at hk
  | coord x d => cases b with
    | coord x' d' =>
      obtain ⟨e1, e2⟩ := cut_unique (hd x) (hd x') (chop h)
      rw [dec_inj e1, last_inj e2]
    | _ => simp [Node.kind] at hk
  | refDeriv ax d c => cases b with
    | refDeriv ax' d' c' =>
      obtain ⟨e1, e2⟩ := cut_unique (axes_bracket ax) (axes_bracket ax') h
      obtain ⟨e3, e4⟩ := cut_unique ha.2 hb.2 e2
      rw [axes_inj ha.1 hb.1 e1, e3, chop e4]
    | _ => simp [Node.kind] at hk
  | qWeight d => cases b with
    | qWeight d' => rw [last_inj (cancel h)]
    | _ => simp [Node.kind] at hk
  | intG s t l c => cases b with
    | intG s' t' l' c' =>
      obtain ⟨e1, e2⟩ := cut_unique ha.1 hb.1 (cancel h)
      obtain ⟨e3, e4⟩ := cut_unique ha.2 hb.2 (chop e2)
      obtain ⟨e5, e6⟩ := cut_unique (ilim_paren l) (ilim_paren l') (chop (chop e4))
      rw [e1, e3, ilim_inj e5, e6]
    | _ => simp [Node.kind] at hk
  | interp s t c => cases b with
    | interp s' t' c' =>
      obtain ⟨e1, e2⟩ := cut_unique ha.1 hb.1 (cancel h)
      obtain ⟨e3, e4⟩ := cut_unique ha.2 hb.2 (chop e2)
      rw [e1, e3, last_inj (chop e4)]
    | _ => simp [Node.kind] at hk
  | interleave d c => cases b with
    | interleave d' c' =>
      obtain ⟨e3, e4⟩ := cut_unique ha hb (cancel h)
      rw [e3, last_inj (chop e4)]
    | _ => simp [Node.kind] at hk
  | error m => cases b with
    | error m' => rw [last_inj (cancel h)]
    | _ => simp [Node.kind] at hk
  | isShape d c => cases b with
    | isShape d' c' =>
      obtain ⟨e3, e4⟩ := cut_unique ha hb (cancel h)
      rw [e3, last_inj (chop e4)]
    | _ => simp [Node.kind] at hk

/-- a concrete case: a layer potential from the default source to the centers of the place `a` -/
example : Fine (.intG (descText ⟨.defaultSource, none, .node⟩) (descText ⟨.other ['a'], some .stage2, .center⟩) (.num true 1)
      " (sigma * Lap2D)".toList) ∧
    nodeText (.intG (descText ⟨.defaultSource, none, .node⟩) (descText ⟨.other ['a'], some .stage2, .center⟩) (.num true 1)
      " (sigma * Lap2D)".toList) = "Int[s->a/stage2/center]@(-1) (sigma * Lap2D)".toList := by
  exact ⟨⟨by decide, by decide⟩, by decide +kernel⟩

/-- and a second derivative -/
example : Fine (.refDeriv [(0, 1), (1, 2)] ['s'] ['u']) ∧
    nodeText (.refDeriv [(0, 1), (1, 2)] ['s'] ['u']) = "d/dr0 d/dr1^2[s] u".toList :=
  ⟨⟨by simp, by decide⟩, by decide +kernel⟩

end Verif.Printing
