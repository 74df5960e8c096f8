import Verif.Symbolic.Dispatch

/-!
# Drawing expressions as graphs (C86)

Model of `GraphvizMapper` (`pytential/symbolic/mappers.py:1027-1074`), which the other passes of C86 do not include.  `pymbolic`'s
base class (not in the repository) supplies the methods for its own nodes, which draw the node and its operands, and raises
`UnsupportedExpressionError` at nodes without method.
-/

namespace Verif.Dispatch.Graph

/-- `qbx_forced_limit` of a layer potential -/
inductive Lim | none | avg | number (n : Int)
deriving DecidableEq

/-- expressions: nodes with their operands (densities, then kernel arguments, for layer potentials, which also have a limit) -/
inductive GTree
  | mk (n : Node) (lim : Lim) (children : List GTree)

/-- what drawing raises -/
inductive DrawErr | unsupported (cls : String) | typeError
deriving DecidableEq

/-- methods of `GraphvizMapper` (`mappers.py:1031-1074`); the one for sums over nodes is misspelled (`mappers.py:1042`) -/
def graphM : List String :=
  ["map_ones", "map_map_node_sum", "map_node_coordinate_component", "map_num_reference_derivative",
    "map_parametrization_derivative", "map_q_weight", "map_int_g"]

/-- drawing a node itself: one line per node; the label of a layer potential formats the limit with `%d`
(`mappers.py:1059-1064`) -/
def drawNode (n : Node) (lim : Lim) : Except DrawErr (List String) :=
  if n = .pymbolic then .ok [n.cls]
  else if mapperMethod n.cls ∈ graphM then
    if n = .intG then
      match lim with
      | .number _ => .ok [n.cls]
      | _ => .error .typeError
    else .ok [n.cls]
  else .error (.unsupported n.cls)

/-- `map_pytential_leaf` (`mappers.py:1031-1038`, `:1052-1056`) does not descend -/
def isLeaf (n : Node) : Bool := n == .ones || n == .nodeCoordinateComponent || n == .numReferenceDerivative || n == .qWeight

mutual
/-- the lines `GraphvizMapper` writes for an expression, by class name (`mappers.py:1027-1074`).  Simplified: common
subexpressions are drawn once by pymbolic, here once per occurrence; arrows are left out. -/
def draw : GTree → Except DrawErr (List String)
  | .mk n lim cs =>
    match drawNode n lim with
    | .error e => .error e
    | .ok l =>
      if isLeaf n then .ok l else
      match drawAll cs with
      | .error e => .error e
      | .ok ls => .ok (l ++ ls)

/-- the operands in order -/
def drawAll : List GTree → Except DrawErr (List String)
  | [] => .ok []
  | t :: ts =>
    match draw t with
    | .error e => .error e
    | .ok l =>
      match drawAll ts with
      | .error e => .error e
      | .ok ls => .ok (l ++ ls)
end

/-! ### Specification -/

mutual
/-- `s` occurs in the expression outside of the operands of reference derivatives (the only leaves that have operands) -/
def Shown (s : Node × Lim) : GTree → Prop
  | .mk n lim cs => s = (n, lim) ∨ (n ≠ .numReferenceDerivative ∧ ShownAny s cs)

/-- occurs in one of the expressions -/
def ShownAny (s : Node × Lim) : List GTree → Prop
  | [] => False
  | t :: ts => Shown s t ∨ ShownAny s ts
end

mutual
/-- number of nodes outside of the operands of reference derivatives -/
def size : GTree → Nat
  | .mk n _ cs => 1 + if n = .numReferenceDerivative then 0 else sizeAll cs

/-- number of nodes of a list of expressions -/
def sizeAll : List GTree → Nat
  | [] => 0
  | t :: ts => size t + sizeAll ts
end

mutual
/-- the nodes that never have operands have none -/
def Arity : GTree → Prop
  | .mk n _ cs => (n = .ones ∨ n = .nodeCoordinateComponent ∨ n = .qWeight → cs = []) ∧ ArityAny cs

/-- the same for a list -/
def ArityAny : List GTree → Prop
  | [] => True
  | t :: ts => Arity t ∧ ArityAny ts
end

/-- nodes that can be drawn: those of `pymbolic`, ones, coordinates, weights, reference derivatives, and layer potentials with a
numeric limit -/
def Drawable (s : Node × Lim) : Prop :=
  s.1 = .pymbolic ∨ s.1 = .ones ∨ s.1 = .nodeCoordinateComponent ∨ s.1 = .qWeight ∨ s.1 = .numReferenceDerivative ∨
    (s.1 = .intG ∧ ∃ k, s.2 = .number k)

/-! ### Properties -/

theorem drawNode_ok (n : Node) (lim : Lim) : (∃ l, drawNode n lim = .ok l) ↔ Drawable (n, lim) := by
  constructor
  · rintro ⟨l, h⟩
    by_cases hp : n = .pymbolic
    · exact Or.inl hp
    · by_cases hm : mapperMethod n.cls ∈ graphM
      · have key : n = .ones ∨ n = .nodeCoordinateComponent ∨ n = .qWeight ∨ n = .numReferenceDerivative ∨ n = .intG := by
          revert hm hp; clear h; cases n <;> decide +kernel
        rcases key with rfl | rfl | rfl | rfl | rfl
        · exact Or.inr (Or.inl rfl)
        · exact Or.inr (Or.inr (Or.inl rfl))
        · exact Or.inr (Or.inr (Or.inr (Or.inl rfl)))
        · exact Or.inr (Or.inr (Or.inr (Or.inr (Or.inl rfl))))
        · refine Or.inr (Or.inr (Or.inr (Or.inr (Or.inr ⟨rfl, ?_⟩))))
          unfold drawNode at h
          rw [if_neg hp, if_pos hm, if_pos rfl] at h
          cases lim with
          | none => cases h
          | avg => cases h
          | number k => exact ⟨k, rfl⟩
      · unfold drawNode at h
        rw [if_neg hp, if_neg hm] at h
        cases h
  · intro h
    have m : ∀ n : Node, n ∈ [.ones, .nodeCoordinateComponent, .qWeight, .numReferenceDerivative, .intG] →
        mapperMethod n.cls ∈ graphM := by decide +kernel
    unfold Drawable at h
    rcases h with h | h | h | h | h | ⟨h, k, hk⟩ <;> simp only at h <;> subst h
    · exact ⟨_, by simp [drawNode]; rfl⟩
    · exact ⟨_, by simp [drawNode, m]; rfl⟩
    · exact ⟨_, by simp [drawNode, m]; rfl⟩
    · exact ⟨_, by simp [drawNode, m]; rfl⟩
    · exact ⟨_, by simp [drawNode, m]; rfl⟩
    · simp only at hk; subst hk; exact ⟨_, by simp [drawNode, m]; rfl⟩

theorem drawNode_len (n : Node) (lim : Lim) (l : List String) (h : drawNode n lim = .ok l) : l.length = 1 := by
  unfold drawNode at h
  split at h
  · cases h; rfl
  · split at h
    · split at h
      · split at h <;> cases h; rfl
      · cases h; rfl
    · cases h

theorem leaf_cases (n : Node) : isLeaf n = true ↔
    n = .ones ∨ n = .nodeCoordinateComponent ∨ n = .numReferenceDerivative ∨ n = .qWeight := by
  cases n <;> simp [isLeaf]

mutual
theorem draw_spec : ∀ t, Arity t → ((∃ l, draw t = .ok l) ↔ ∀ s, Shown s t → Drawable s) ∧
    ∀ l, draw t = .ok l → l.length = size t
  | .mk n lim cs, ha => by
    obtain ⟨ha1, ha2⟩ := ha
    obtain ⟨ih1, ih2⟩ := drawAll_spec cs ha2
    have hn := drawNode_ok n lim
    constructor
    · constructor
      · rintro ⟨l, h⟩ s hs
        rw [draw] at h
        cases hd : drawNode n lim with
        | error e => rw [hd] at h; cases h
        | ok l0 =>
          rw [hd] at h
          rw [Shown] at hs
          rcases hs with rfl | ⟨hne, hs⟩
          · exact hn.1 ⟨l0, hd⟩
          · by_cases hl : isLeaf n = true
            · have : cs = [] := by
                rcases (leaf_cases n).1 hl with rfl | rfl | rfl | rfl
                · exact ha1 (Or.inl rfl)
                · exact ha1 (Or.inr (Or.inl rfl))
                · exact absurd rfl hne
                · exact ha1 (Or.inr (Or.inr rfl))
              subst this
              rw [ShownAny] at hs; exact hs.elim
            · simp only [hl] at h
              cases hc : drawAll cs with
              | error e => rw [hc] at h; cases h
              | ok ls => exact ih1.1 ⟨ls, hc⟩ s hs
      · intro h
        obtain ⟨l0, hd⟩ := hn.2 (h (n, lim) (by rw [Shown]; exact Or.inl rfl))
        by_cases hl : isLeaf n = true
        · exact ⟨l0, by rw [draw, hd]; simp [hl]⟩
        · have hne : n ≠ .numReferenceDerivative := by
            rintro rfl; exact hl ((leaf_cases _).2 (Or.inr (Or.inr (Or.inl rfl))))
          obtain ⟨ls, hc⟩ := ih1.2 fun s hs => h s (by rw [Shown]; exact Or.inr ⟨hne, hs⟩)
          exact ⟨l0 ++ ls, by rw [draw, hd, hc]; simp [hl]⟩
    · intro l h
      rw [draw] at h
      cases hd : drawNode n lim with
      | error e => rw [hd] at h; cases h
      | ok l0 =>
        rw [hd] at h
        have h1 := drawNode_len n lim l0 hd
        by_cases hl : isLeaf n = true
        · simp only [hl, if_true, Except.ok.injEq] at h
          subst h
          rw [size, h1]
          split
          · rfl
          · rename_i hne
            have : cs = [] := by
              rcases (leaf_cases n).1 hl with rfl | rfl | rfl | rfl
              · exact ha1 (Or.inl rfl)
              · exact ha1 (Or.inr (Or.inl rfl))
              · exact absurd rfl hne
              · exact ha1 (Or.inr (Or.inr rfl))
            subst this
            rfl
        · have hne : n ≠ .numReferenceDerivative := by
            rintro rfl; exact hl ((leaf_cases _).2 (Or.inr (Or.inr (Or.inl rfl))))
          simp only [hl] at h
          cases hc : drawAll cs with
          | error e => rw [hc] at h; cases h
          | ok ls =>
            rw [hc] at h
            simp only [Bool.false_eq_true, if_false, Except.ok.injEq] at h
            subst h
            rw [List.length_append, h1, ih2 ls hc, size, if_neg hne]

theorem drawAll_spec : ∀ ts, ArityAny ts → ((∃ l, drawAll ts = .ok l) ↔ ∀ s, ShownAny s ts → Drawable s) ∧
    ∀ l, drawAll ts = .ok l → l.length = sizeAll ts
  | [], _ => ⟨⟨fun _ s hs => by rw [ShownAny] at hs; exact hs.elim, fun _ => ⟨[], rfl⟩⟩, fun l h => by
      rw [drawAll] at h; cases h; rfl⟩
  | t :: ts, ha => by
    obtain ⟨ha1, ha2⟩ := ha
    obtain ⟨a1, a2⟩ := draw_spec t ha1
    obtain ⟨b1, b2⟩ := drawAll_spec ts ha2
    constructor
    · constructor
      · rintro ⟨l, h⟩ s hs
        rw [drawAll] at h
        cases hd : draw t with
        | error e => rw [hd] at h; cases h
        | ok l0 =>
          rw [hd] at h
          cases hc : drawAll ts with
          | error e => rw [hc] at h; cases h
          | ok ls =>
            rw [ShownAny] at hs
            rcases hs with hs | hs
            · exact a1.1 ⟨l0, hd⟩ s hs
            · exact b1.1 ⟨ls, hc⟩ s hs
      · intro h
        obtain ⟨l0, hd⟩ := a1.2 fun s hs => h s (by rw [ShownAny]; exact Or.inl hs)
        obtain ⟨ls, hc⟩ := b1.2 fun s hs => h s (by rw [ShownAny]; exact Or.inr hs)
        exact ⟨l0 ++ ls, by rw [drawAll, hd, hc]⟩
    · intro l h
      rw [drawAll] at h
      cases hd : draw t with
      | error e => rw [hd] at h; cases h
      | ok l0 =>
        rw [hd] at h
        cases hc : drawAll ts with
        | error e => rw [hc] at h; cases h
        | ok ls =>
          rw [hc] at h
          cases h
          rw [List.length_append, a2 l0 hd, b2 ls hc, sizeAll]
end

/-- C86 (drawing): `GraphvizMapper` draws an expression exactly if all its nodes are of `pymbolic`, ones, coordinates, quadrature
weights, reference derivatives (whose operand is not looked at) or layer potentials with a numeric limit, and then writes one line
per node.  Partial: sums over nodes, maxima, minima, elementwise operations, interpolation and all other documented nodes cannot be
drawn, and layer potentials only with numeric limits (`C86_graph_refuted`). -/
theorem C86_graph_partial (t : GTree) (ha : Arity t) :
    ((∃ lines, draw t = .ok lines) ↔ ∀ n lim, Shown (n, lim) t →
      n = .pymbolic ∨ n = .ones ∨ n = .nodeCoordinateComponent ∨ n = .qWeight ∨ n = .numReferenceDerivative ∨
        (n = .intG ∧ ∃ k, lim = .number k)) ∧
    ∀ lines, draw t = .ok lines → lines.length = size t :=
  ⟨(draw_spec t ha).1.trans ⟨fun h n lim hs => h (n, lim) hs, fun h s hs => h s.1 s.2 hs⟩, (draw_spec t ha).2⟩

/-- **C86 is false for drawing**: the sum over nodes of anything is refused, because its method is misspelled; a layer potential with
the default limit of the double layer (`'avg'`) or without limit raises `TypeError`; the operand of a reference derivative is
not drawn. -/
theorem C86_graph_refuted (t : GTree) (ts : List GTree) (lim : Lim) :
    draw (.mk .nodeSum lim [t]) = .error (.unsupported "NodeSum") ∧
    (mapperMethod "NodeSum" = "map_node_sum" ∧ "map_node_sum" ∉ graphM) ∧
    draw (.mk .intG .avg ts) = .error .typeError ∧ draw (.mk .intG .none ts) = .error .typeError ∧
    draw (.mk .numReferenceDerivative lim [t]) = .ok ["NumReferenceDerivative"] := by
  have m : mapperMethod Node.nodeSum.cls ∉ graphM := by decide +kernel
  have i : mapperMethod Node.intG.cls ∈ graphM := by decide +kernel
  have r : mapperMethod Node.numReferenceDerivative.cls ∈ graphM := by decide +kernel
  refine ⟨?_, by decide +kernel, ?_, ?_, ?_⟩
  · rw [draw]; simp [drawNode, m]; rfl
  · rw [draw]; simp [drawNode, i]
  · rw [draw]; simp [drawNode, i]
  · rw [draw]; simp [drawNode, r, isLeaf]; rfl

/-- a single layer potential of coordinate times weight is drawn, with four lines -/
example : draw (.mk .intG (.number 1) [.mk .pymbolic .none [.mk .nodeCoordinateComponent .none [], .mk .qWeight .none []]])
    = .ok ["IntG", "Sum", "NodeCoordinateComponent", "QWeight"] := by decide +kernel

end Verif.Dispatch.Graph
