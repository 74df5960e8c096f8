import Verif.Symbolic.Derivative
import Mathlib.Algebra.BigOperators.Fin
import Mathlib.Algebra.Polynomial.Derivative

/-!
# Gradients and Laplacians of potentials (C16)

Model of `dd_axis`, `grad` and `laplace` (`pytential/symbolic/primitives.py:1810-1865`).
Simplification: pymbolic's `DerivativeBinder`, which resolves a product of a nabla component
`e_a` and a derivative source into `take_derivative(a, operand)` (`mappers.py:703-711`), is taken at
its documented effect; the geometric algebra of `nabla` (a vector whose components are the nabla
components) is written out.
-/

namespace Verif.Sym

open Verif.DofDesc

/-! ## Model -/

/-- `dd_axis(axis, ambient_dim, operand)` for a scalar operand (`primitives.py:1821-1830`): the unit
vector `e_axis` (whose construction raises `IndexError` if `axis` is out of range) times `nabla` -/
def ddAxis (axis n : Nat) (e : SE) : Except Err SE :=
  if axis < n then takeD axis e else .error .index

/-- `dd_axis` for an object array of operands (`primitives.py:1815-1819`) -/
def ddAxisL (axis n : Nat) (es : List SE) : Except Err (List SE) := allOk (es.map (ddAxis axis n))

/-- `grad(ambient_dim, operand)` (`primitives.py:1838-1855`) -/
def gradE (n : Nat) (e : SE) : Except Err (List SE) := allOk ((List.range n).map fun a => takeD a e)

/-- the components `nabla_a * d(grad_a)` of the inner product (`primitives.py:1862-1865`) -/
def lapTerms (n : Nat) (gs : List SE) : Except Err (List SE) :=
  allOk (((List.range n).zip gs).map fun p => takeD p.1 p.2)

/-- `laplace(ambient_dim, operand)` (`primitives.py:1858-1865`) -/
def laplaceE (n : Nat) (e : SE) : Except Err SE :=
  match gradE n e with
  | .error x => .error x
  | .ok gs => match lapTerms n gs with
    | .error x => .error x
    | .ok ts => .ok (.node .sum ts)

/-! ## Proofs -/

theorem allOk_forall₂ : ∀ (l : List (Except Err SE)) (m : List SE), allOk l = .ok m →
    List.Forall₂ (fun x a => x = .ok a) l m
  | [], m, h => by simp only [allOk, Except.ok.injEq] at h; subst h; exact .nil
  | .error x :: l, m, h => by simp [allOk] at h
  | .ok a :: l, m, h => by
    simp only [allOk] at h
    split at h
    · cases h
    · rename_i m' hm'
      cases h
      exact .cons rfl (allOk_forall₂ l m' hm')

theorem allOk_map {α : Type} (f : α → Except Err SE) : ∀ l : List α, (∀ a ∈ l, ∃ b, f a = .ok b) →
    ∃ m, allOk (l.map f) = .ok m
  | [], _ => ⟨[], rfl⟩
  | a :: l, h => by
    obtain ⟨b, hb⟩ := h a (by simp)
    obtain ⟨m, hm⟩ := allOk_map f l (fun c hc => h c (by simp [hc]))
    exact ⟨b :: m, by simp [allOk, hb, hm]⟩

theorem kind_unique {e : SE} {b b' : Bool} (h : Kind e b) (h' : Kind e b') : b = b' := by
  have h1 := varying_kind h
  rw [varying_kind h'] at h1
  simpa using h1.symm

theorem kind_list (h : Head) (hh : PlainHead h) (cs : List SE) (b : Bool)
    (h1 : ∀ c ∈ cs, ∃ b, Kind c b) (h2 : b = true ↔ ∃ c ∈ cs, Kind c true) : Kind (.node h cs) b := by
  classical
  have := Kind.op h cs (fun c => decide (Kind c true)) hh (by
    intro c hc
    obtain ⟨b, hb⟩ := h1 c hc
    cases b with
    | true => simp [hb]
    | false =>
      have : ¬ Kind c true := fun h => by cases kind_unique hb h
      simpa [this] using hb)
  have he : cs.any (fun c => decide (Kind c true)) = b := by
    rw [Bool.eq_iff_iff, h2]
    simp
  rwa [he] at this

/-- linear combinations have a kind -/
theorem linComb_kind {e : SE} (h : LinComb e) : ∃ b, Kind e b := by
  induction h with
  | num => exact ⟨_, .num _ _⟩
  | intg => exact ⟨_, .intg _ _⟩
  | sum cs _ ih =>
    classical
    exact ⟨decide (∃ c ∈ cs, Kind c true), kind_list .sum trivial cs _ ih (by simp)⟩
  | prodConst cs h =>
    exact ⟨false, kind_list .prod trivial cs _ (fun c hc => ⟨_, h c hc⟩) (by
      simp only [Bool.false_eq_true, false_iff, not_exists, not_and]
      intro c hc hk; cases kind_unique (h c hc) hk)⟩
  | prod a x b h hx _ _ =>
    refine ⟨true, kind_list .prod trivial _ _ ?_ ?_⟩
    · intro c hc
      simp only [List.mem_append, List.mem_cons] at hc h
      rcases hc with hc | rfl | hc
      · exact ⟨_, h c (Or.inl hc)⟩
      · exact ⟨_, hx⟩
      · exact ⟨_, h c (Or.inr hc)⟩
    · simp only [true_iff]
      exact ⟨x, by simp, hx⟩

/-- the derivative of a linear combination is one, and varies if the combination does -/
theorem linComb_deriv (axis : Nat) {e : SE} (h : LinComb e) :
    ∃ e', takeD axis e = .ok e' ∧ LinComb e' ∧ ∀ b, Kind e b → Kind e' b := by
  have hk' : ∀ l : List SE, (∀ c ∈ l, varying c = .ok false) →
      splitFactors (l.zip (takeDs axis l)) = .ok (l, []) := by
    intro l
    induction l with
    | nil => intro _; rfl
    | cons c l ih =>
      intro h
      simp [takeDs, splitFactors, h c (by simp), ih (fun c hc => h c (by simp [hc]))]
  have hk : ∀ l : List SE, (∀ c ∈ l, Kind c false) →
      splitFactors (l.zip (takeDs axis l)) = .ok (l, []) :=
    fun l h => hk' l fun c hc => varying_kind (h c hc)
  induction h with
  | num q cs => exact ⟨_, rfl, .num _ _, fun b hb => by rw [kind_unique hb (.num _ _)]; exact .num _ _⟩
  | intg g cs => exact ⟨_, rfl, .intg _ _, fun b hb => by rw [kind_unique hb (.intg _ _)]; exact .intg _ _⟩
  | sum cs hcs ih =>
    have : ∀ l : List SE, (∀ c ∈ l, c ∈ cs) → ∃ l', allOk (takeDs axis l) = .ok l' ∧
        List.Forall₂ (fun c c' => LinComb c' ∧ ∀ b, Kind c b → Kind c' b) l l' := by
      intro l
      induction l with
      | nil => intro _; exact ⟨[], rfl, .nil⟩
      | cons c l ihl =>
        intro hs
        obtain ⟨c', hc, hc1, hc2⟩ := ih c (hs c (by simp))
        obtain ⟨l', hl, hf⟩ := ihl (fun c hc => hs c (by simp [hc]))
        exact ⟨c' :: l', by simp [takeDs, hc, allOk, hl], .cons ⟨hc1, hc2⟩ hf⟩
    obtain ⟨l', hl, hf⟩ := this cs (fun _ h => h)
    have hmem : ∀ (l l' : List SE), List.Forall₂ (fun c c' => LinComb c' ∧ ∀ b, Kind c b → Kind c' b) l l' →
        (∀ c ∈ l', LinComb c) ∧ ((∀ c ∈ l, LinComb c) →
          ((∃ c ∈ l', Kind c true) ↔ ∃ c ∈ l, Kind c true)) := by
      intro l l' hf
      induction hf with
      | nil => simp
      | @cons c c' l l' h1 _ ih =>
        obtain ⟨i1, i2⟩ := ih
        refine ⟨?_, ?_⟩
        · intro d hd
          rcases List.mem_cons.1 hd with rfl | hd
          · exact h1.1
          · exact i1 d hd
        · intro hlc
          have hcc : Kind c' true ↔ Kind c true := by
            obtain ⟨b, hb⟩ := linComb_kind (hlc c (by simp))
            constructor
            · intro h
              rw [kind_unique h (h1.2 b hb)]; exact hb
            · exact h1.2 true
          simp only [List.mem_cons, exists_eq_or_imp, hcc, i2 (fun d hd => hlc d (by simp [hd]))]
    obtain ⟨m1, m2⟩ := hmem cs l' hf
    refine ⟨.node .sum l', by simp only [takeD, hl], .sum l' m1, ?_⟩
    intro b hb
    have hlc : LinComb (.node .sum cs) := .sum cs hcs
    refine kind_list .sum trivial l' b (fun c hc => linComb_kind (m1 c hc)) ?_
    rw [m2 hcs]
    have hb' := kind_list .sum trivial cs b (fun c hc => linComb_kind (hcs c hc))
    classical
    have h0 := kind_list .sum trivial cs (decide (∃ c ∈ cs, Kind c true))
      (fun c hc => linComb_kind (hcs c hc)) (by simp)
    rw [kind_unique hb h0]
    simp
  | prodConst cs h =>
    have hk0 : ∀ c ∈ cs ++ [SE.node (.num 0) []], Kind c false := by
      intro c hc
      rcases List.mem_append.1 hc with hc | hc
      · exact h c hc
      · rw [List.mem_singleton] at hc; subst hc; exact .num _ _
    have hkf : ∀ l : List SE, (∀ c ∈ l, Kind c false) → Kind (.node .prod l) false := by
      intro l hl
      refine kind_list .prod trivial l _ (fun c hc => ⟨_, hl c hc⟩) ?_
      simp only [Bool.false_eq_true, false_iff, not_exists, not_and]
      intro c hc hk; cases kind_unique (hl c hc) hk
    refine ⟨.node .prod (cs ++ [.node (.num 0) []]), by simp only [takeD, hk cs h, finishProduct],
      .prodConst _ hk0, ?_⟩
    intro b hb
    rw [kind_unique hb (hkf cs h)]
    exact hkf _ hk0
  | prod a x b h hx hlx ih =>
    obtain ⟨x', hx', hl', hkx⟩ := ih
    have : ∀ l : List SE, (∀ c ∈ l, Kind c false) →
        splitFactors ((l ++ x :: b).zip (takeDs axis (l ++ x :: b))) = .ok (l ++ b, [(x, .ok x')]) := by
      intro l
      induction l with
      | nil =>
        intro _
        simp [takeDs, splitFactors, varying_kind hx, hx', hk b (fun c hc => h c (by simp [hc]))]
      | cons c l ihl =>
        intro h'
        simp [takeDs, splitFactors, varying_kind (h' c (by simp)), ihl (fun c hc => h' c (by simp [hc]))]
    have hkt : ∀ (a b : List SE) (x : SE), (∀ c ∈ a ++ b, Kind c false) → Kind x true →
        Kind (.node .prod (a ++ x :: b)) true := by
      intro a b x h hx
      refine kind_list .prod trivial _ _ ?_ ?_
      · intro c hc
        simp only [List.mem_append, List.mem_cons] at hc h
        rcases hc with hc | rfl | hc
        · exact ⟨_, h c (Or.inl hc)⟩
        · exact ⟨_, hx⟩
        · exact ⟨_, h c (Or.inr hc)⟩
      · simp only [true_iff]
        exact ⟨x, by simp, hx⟩
    refine ⟨.node .prod ((a ++ b) ++ [x']), ?_, ?_, ?_⟩
    · simp only [takeD, this a (fun c hc => h c (by simp [hc])), finishProduct]
    · exact .prod (a ++ b) x' [] (by simpa using h) (hkx true hx) hl'
    · intro c hc
      rw [kind_unique hc (hkt a b x h hx)]
      exact hkt (a ++ b) [] x' (by simpa using h) (hkx true hx)

theorem gradE_spec {n : Nat} {e : SE} {gs : List SE} (h : gradE n e = .ok gs) :
    gs.length = n ∧ ∀ (a : Nat) (ha : a < gs.length), takeD a e = .ok gs[a] := by
  have hf := allOk_forall₂ _ _ h
  have hlen : gs.length = n := by
    have := hf.length_eq
    simpa using this.symm
  refine ⟨hlen, fun a ha => ?_⟩
  have := (List.forall₂_iff_get.1 hf).2 a (by simp; omega) ha
  simpa using this

section
variable {V : Type} [CommRing V] {I : Head → List V → V} {D : Nat → V → V} {K : V → Prop}

/-- C16 (gradients): if `grad` succeeds it has one component per axis, and the value of component `a`
is the derivative along axis `a` of the value of the operand. -/
theorem C16_grad (n : Nat) (hI : ∀ a < n, Interp I (D a) K a) (e : SE) (gs : List SE)
    (h : gradE n e = .ok gs) :
    evalL I gs = (List.range n).map fun a => D a (eval I e) := by
  obtain ⟨hl, hg⟩ := gradE_spec h
  rw [evalL_eq]
  apply List.ext_getElem
  · simp [hl]
  · intro a h1 h2
    simp only [List.length_map, List.length_range] at h1 h2
    simpa using C16_linear (hI a h2) e _ (hg a h1)

/-- C16 (Laplacians): if `laplace` succeeds its value is the sum of the second derivatives of the
value of the operand along all axes. -/
theorem C16_laplace (n : Nat) (hI : ∀ a < n, Interp I (D a) K a) (h0 : 0 < n) (e e' : SE)
    (h : laplaceE n e = .ok e') :
    eval I e' = ((List.range n).map fun a => D a (D a (eval I e))).sum := by
  unfold laplaceE at h
  split at h
  · cases h
  · rename_i gs hgs
    split at h
    · cases h
    · rename_i ts hts
      cases h
      obtain ⟨hl, hg⟩ := gradE_spec hgs
      have hf := allOk_forall₂ _ _ hts
      have hlen : ts.length = n := by
        have := hf.length_eq
        simp [hl] at this
        exact this.symm
      simp only [eval, (hI 0 h0).sum]
      congr 1
      rw [evalL_eq]
      apply List.ext_getElem
      · simp [hlen]
      · intro a h1 h2
        simp only [List.length_map, List.length_range] at h1 h2
        have ht := (List.forall₂_iff_get.1 hf).2 a (by simp [hl]; omega) h1
        simp only [List.get_eq_getElem, List.getElem_map, List.getElem_zip, List.getElem_range] at ht
        simp only [List.getElem_map, List.getElem_range]
        rw [C16_linear (hI a h2) _ _ ht, C16_linear (hI a h2) _ _ (hg a (by omega))]

/-- C16 (derivatives along an axis): `dd_axis` of an object array has the derivatives of the values
of the entries; an axis outside of the space is refused. -/
theorem C16_dd_axis (n axis : Nat) (hI : Interp I (D axis) K axis) (es es' : List SE)
    (h : ddAxisL axis n es = .ok es') :
    evalL I es' = es.map (fun e => D axis (eval I e)) ∧ (es ≠ [] → axis < n) := by
  have hf := allOk_forall₂ _ _ h
  have key : ∀ es es' : List SE, List.Forall₂ (fun x a => x = .ok a) (es.map (ddAxis axis n)) es' →
      evalL I es' = es.map (fun e => D axis (eval I e)) ∧ (es ≠ [] → axis < n) := by
    intro es
    induction es with
    | nil => intro es' h; simp at h; subst h; simp [evalL]
    | cons e es ih =>
      intro es' h
      cases h with
      | cons h1 h2 =>
        obtain ⟨i1, _⟩ := ih _ h2
        unfold ddAxis at h1
        split at h1
        · rename_i hax
          simp only [evalL, List.map_cons, i1, C16_linear hI e _ h1]
          exact ⟨trivial, fun _ => hax⟩
        · cases h1
  exact key es es' hf

end

/-- C16 (acceptance): every linear combination of layer potentials has a gradient, a Laplacian and,
along each axis of the space, a derivative, so these can be applied repeatedly.  Partial for the
same reason as `C16_accepts_partial`. -/
theorem C16_accepts_all_partial (n : Nat) (e : SE) (h : LinComb e) :
    (∃ gs, gradE n e = .ok gs ∧ ∀ g ∈ gs, LinComb g) ∧ (∃ e', laplaceE n e = .ok e' ∧ LinComb e') ∧
    ∀ axis < n, ∃ e', ddAxis axis n e = .ok e' ∧ LinComb e' := by
  obtain ⟨gs, hgs⟩ := allOk_map (fun a => takeD a e) (List.range n)
    (fun a _ => by obtain ⟨e', h1, _⟩ := linComb_deriv a h; exact ⟨e', h1⟩)
  have hg : gradE n e = .ok gs := hgs
  obtain ⟨hl, hga⟩ := gradE_spec hg
  have hlc : ∀ g ∈ gs, LinComb g := by
    intro g hgm
    obtain ⟨a, ha, rfl⟩ := List.getElem_of_mem hgm
    obtain ⟨e', h1, h2, _⟩ := linComb_deriv a h
    rw [hga a ha] at h1
    cases h1; exact h2
  refine ⟨⟨gs, hg, hlc⟩, ?_, ?_⟩
  · obtain ⟨ts, hts⟩ := allOk_map (fun p : Nat × SE => takeD p.1 p.2) ((List.range n).zip gs)
      (fun p hp => by
        obtain ⟨e', h1, _⟩ := linComb_deriv p.1 (hlc p.2 (List.of_mem_zip hp).2)
        exact ⟨e', h1⟩)
    refine ⟨.node .sum ts, by simp only [laplaceE, hg, lapTerms, hts], .sum ts ?_⟩
    intro t ht
    have hf := allOk_forall₂ _ _ hts
    have : ∀ (l : List (Nat × SE)) (ts : List SE), (∀ p ∈ l, LinComb p.2) →
        List.Forall₂ (fun x a => x = .ok a) (l.map fun p => takeD p.1 p.2) ts → ∀ t ∈ ts, LinComb t := by
      intro l
      induction l with
      | nil => intro ts _ h; simp at h; subst h; simp
      | cons p l ih =>
        intro ts hp h
        cases h with
        | cons h1 h2 =>
          obtain ⟨e', g1, g2, _⟩ := linComb_deriv p.1 (hp p (by simp))
          have := g1.symm.trans h1
          simp only [Except.ok.injEq] at this
          subst this
          intro t ht
          rcases List.mem_cons.1 ht with rfl | ht
          · exact g2
          · exact ih _ (fun q hq => hp q (by simp [hq])) h2 t ht
    exact this _ ts (fun p hp => hlc p.2 (List.of_mem_zip hp).2) hf t ht
  · intro axis hax
    obtain ⟨e', h1, h2, _⟩ := linComb_deriv axis h
    exact ⟨e', by simp [ddAxis, hax, h1], h2⟩

/-- potentials as polynomials in the sum of the coordinates: the kernel `x^3` and its derivatives -/
noncomputable def exKern : Kern → Polynomial ℚ
  | .base _ => Polynomial.X ^ 3
  | .axisDeriv _ k => Polynomial.derivative (exKern k)

/-- sums, products, numbers and potentials are what they are, anything else is `5` -/
noncomputable def exPoly : Head → List (Polynomial ℚ) → Polynomial ℚ
  | .sum, l => l.sum
  | .prod, l => l.prod
  | .num q, _ => Polynomial.C q
  | .intg g, _ => exKern g.tk
  | _, _ => Polynomial.C 5

theorem exPoly_interp (a : Nat) : Interp exPoly Polynomial.derivative
    (fun v => ∃ q, v = Polynomial.C q) a where
  sum := by simp [exPoly]
  prod := by simp [exPoly]
  zero := by simp [exPoly]
  num := by simp [exPoly]
  spatial x l := ⟨5, rfl⟩
  closed h l hi hl := by
    cases h with
    | sum =>
      simp only [exPoly]
      induction l with
      | nil => exact ⟨0, by simp⟩
      | cons v l ih =>
        obtain ⟨q, hq⟩ := hl v (by simp)
        obtain ⟨r, hr⟩ := ih (fun w hw => hl w (by simp [hw]))
        exact ⟨q + r, by simp [hq, hr]⟩
    | prod =>
      simp only [exPoly]
      induction l with
      | nil => exact ⟨1, by simp⟩
      | cons v l ih =>
        obtain ⟨q, hq⟩ := hl v (by simp)
        obtain ⟨r, hr⟩ := ih (fun w hw => hl w (by simp [hw]))
        exact ⟨q * r, by simp [hq, hr]⟩
    | num q => exact ⟨q, rfl⟩
    | intg g => cases hi
    | _ => exact ⟨5, rfl⟩
  add := by simp
  one := by simp
  lin k a hk := by obtain ⟨q, rfl⟩ := hk; simp
  deriv g l := by simp [exPoly, exKern]

/-- `3 + k S[sigma]` -/
def exLap : SE := .node .sum [.node (.num 3) [], .node .prod [.node (.spatialConst "k") [],
    .node (.intg ⟨.base "G", ["G"], 1, .p1, exS, exS, []⟩) [.node (.var "sigma") []]]]

/-- the hypotheses of `C16_grad` and `C16_laplace` are met in polynomials, where the Laplacian in two
dimensions of `3 + 5 (x+y)^3` is `60 (x+y)` -/
example : (∀ a < 2, Interp exPoly (fun v => Polynomial.derivative v) (fun v => ∃ q, v = Polynomial.C q) a) ∧
    ∃ e', laplaceE 2 exLap = .ok e' ∧ eval exPoly e' = 60 * Polynomial.X := by
  refine ⟨fun a _ => exPoly_interp a, ?_⟩
  obtain ⟨e', he⟩ : ∃ e', laplaceE 2 exLap = .ok e' := ⟨_, rfl⟩
  refine ⟨e', he, ?_⟩
  rw [C16_laplace (D := fun _ v => Polynomial.derivative v) 2 (fun a _ => exPoly_interp a) (by decide) _ _ he]
  simp [exLap, eval, evalL, exPoly, exKern, List.range_succ]
  have h5 : Polynomial.C (5 : ℚ) = 5 := map_ofNat Polynomial.C 5
  have h2 : Polynomial.C (2 : ℚ) = 2 := map_ofNat Polynomial.C 2
  rw [h5, h2]
  ring

end Verif.Sym
