import Verif.Symbolic.Tagger
import Mathlib.Algebra.Field.Rat
import Mathlib.Algebra.Order.Field.Rat
import Mathlib.Algebra.BigOperators.Group.List.Basic
import Mathlib.Algebra.BigOperators.Ring.List
import Mathlib.Tactic.Ring
import Mathlib.Data.Rat.Cast.Defs
import Mathlib.Tactic.NormNum

/-!
# Expressions for proxy interactions (C58)

Model of `prepare_proxy_expr` and its three mappers `IntGTermCollector`,
`KernelTransformationRemover`, `DOFDescriptorReplacer`
(`pytential/linalg/direct_solver_symbolic.py:76-270`).
-/

namespace Verif.Sym

open Verif.DofDesc

/-! ## Model -/

mutual
/-- `OperatorCollector` (`mappers.py:291-294`) finds something: a layer potential occurs -/
def hasIntG : SE → Bool
  | .node h cs => isIntG h || hasIntGL cs
/-- in one of the expressions -/
def hasIntGL : List SE → Bool
  | [] => false
  | c :: l => hasIntG c || hasIntGL l
end

/-- pymbolic's `is_constant`: a number -/
def isNumH : Head → Bool
  | .num _ => true
  | _ => false

/-- the number `q` -/
def num (q : Rat) : SE := .node (.num q) []

/-- is this the number `q`? -/
def isQ (q : Rat) : SE → Bool
  | .node (.num r) _ => decide (r = q)
  | _ => false

mutual
/-- terms collected by pymbolic's `flattened_sum`: nested sums are flattened, zeros dropped
(the order of the terms is not modelled) -/
def sflat : SE → List SE
  | .node .sum cs => sflatL cs
  | e => if isQ 0 e then [] else [e]
/-- see `sflat` -/
def sflatL : List SE → List SE
  | [] => []
  | c :: l => sflat c ++ sflatL l
end

/-- pymbolic's `flattened_sum` -/
def fsum (cs : List SE) : SE :=
  match sflatL cs with
  | [] => num 0
  | [e] => e
  | l => .node .sum l

mutual
/-- factors collected by pymbolic's `flattened_product`: nested products are flattened, ones
dropped, a zero makes the product zero (`none`) -/
def pflat : SE → Option (List SE)
  | .node .prod cs => pflatL cs
  | e => if isQ 0 e then none else if isQ 1 e then some [] else some [e]
/-- see `pflat` -/
def pflatL : List SE → Option (List SE)
  | [] => some []
  | c :: l => match pflat c with
    | none => none
    | some x => match pflatL l with
      | none => none
      | some y => some (x ++ y)
end

/-- pymbolic's `flattened_product` -/
def fprod (cs : List SE) : SE :=
  match pflatL cs with
  | none => num 0
  | some [] => num 1
  | some [e] => e
  | some l => .node .prod l

mutual
/-- `IntGTermCollector` (`direct_solver_symbolic.py:143-213`): sums keep the terms in which a
layer potential occurs, products the numbers and the one factor in which a layer potential
occurs, layer potentials stay as they are; everything else is rebuilt (`IdentityMapper`). -/
def collect : SE → Except Err SE
  | .node .sum cs => match collectL cs with
    | .error x => .error x
    | .ok cs' => .ok (fsum (cs'.filter hasIntG))
  | .node .prod cs => match collectP [] [] cs with
    | .error x => .error x
    | .ok (ns, gs) => .ok (fprod (ns ++ gs))
  | .node (.intg g) cs => .ok (.node (.intg g) cs)
  | .node h cs => match collectL cs with
    | .error x => .error x
    | .ok cs' => .ok (.node h cs')
/-- on all children -/
def collectL : List SE → Except Err (List SE)
  | [] => .ok []
  | c :: l => match collect c with
    | .error x => .error x
    | .ok c' => match collectL l with
      | .error x => .error x
      | .ok l' => .ok (c' :: l')
/-- the loop of `map_product` (`direct_solver_symbolic.py:193-206`): numbers and factors with
layer potentials so far -/
def collectP (ns gs : List SE) : List SE → Except Err (List SE × List SE)
  | [] => .ok (ns, gs)
  | c :: l =>
    if isNumH c.head then collectP (ns ++ [c]) gs l
    else match collect c with
      | .error x => .error x
      | .ok c' =>
        if hasIntG c' then (if gs.isEmpty then collectP ns (gs ++ [c']) l else .error .runtime)
        else collectP ns gs l
end

/-- what sumpy knows about kernels: removal of target and source transformations, names of
the arguments of source transformations -/
structure KOps where
  txr : Kern → Kern
  sxr : String → String
  srcArgs : String → List String

/-- new head of a layer potential (`direct_solver_symbolic.py:113-132`) -/
def stripIG (K : KOps) (g : IG) : IG :=
  { g with
    tk := K.txr g.tk
    sks := g.sks.map K.sxr
    kn := g.kn.filter (fun a => decide (a ∉ g.sks.flatMap K.srcArgs)) }

/-- are all kernels free of transformations (`direct_solver_symbolic.py:116-118`)? -/
def Untransformed (K : KOps) (g : IG) : Prop := K.txr g.tk = g.tk ∧ g.sks.map K.sxr = g.sks

instance (K : KOps) (g : IG) : Decidable (Untransformed K g) := by unfold Untransformed; infer_instance

/-- densities and the arguments that are kept (`direct_solver_symbolic.py:120-132`) -/
def stripArgs (K : KOps) (g : IG) (cs : List SE) : List SE :=
  cs.take g.nd ++ ((g.kn.zip (cs.drop g.nd)).filter
    (fun p => decide (p.1 ∉ g.sks.flatMap K.srcArgs))).map (·.2)

mutual
/-- `KernelTransformationRemover` (`direct_solver_symbolic.py:88-132`).  A layer potential
whose own kernels carry no transformation is returned as it is, without looking at its
densities. -/
def strip (K : KOps) : SE → SE
  | .node (.intg g) cs =>
    if Untransformed K g then .node (.intg g) cs
    else .node (.intg (stripIG K g)) (stripArgs K g (stripL K cs))
  | .node h cs => .node h (stripL K cs)
/-- on all children -/
def stripL (K : KOps) : List SE → List SE
  | [] => []
  | c :: l => strip K c :: stripL K l
end

/-- heads under `DOFDescriptorReplacer`/`_LocationReplacer`
(`direct_solver_symbolic.py:219-246`): `_default_dofdesc` is always the target, layer
potentials get source and target; the methods for solves, interpolations and interleaving
are `LocationTagger`'s (`mappers.py:483-522`) -/
def reHead (S T : DD) : Head → Head
  | .prop k _ => .prop k T
  | .nrd a _ => .nrd a T
  | .elwise k _ => .elwise k T
  | .intg g => .intg { g with src := S, tgt := T }
  | .inverse b v x dd => .inverse b v x (fillDD T dd)
  | .interp f t => .interp (fillDD S f) (fillDD S t)
  | .interleave f => .interleave (fillDD S f)
  | h => h

mutual
/-- `DOFDescriptorReplacer.rec` (`direct_solver_symbolic.py:219-270`).  `map_int_g` hands a
mapper for the densities to `_LocationReplacer.map_int_g`, which ignores its argument
`rec` and uses `self`. -/
def repl (S T : DD) : SE → Except Err SE
  | .node h cs => match replL S T cs with
    | .error x => .error x
    | .ok cs' => build (reHead S T h) cs'
/-- on all children -/
def replL (S T : DD) : List SE → Except Err (List SE)
  | [] => .ok []
  | c :: l => match repl S T c with
    | .error x => .error x
    | .ok c' => match replL S T l with
      | .error x => .error x
      | .ok l' => .ok (c' :: l')
end

/-- `prepare_proxy_expr` for one expression (`direct_solver_symbolic.py:66-84`) -/
def prepareProxy (K : KOps) (S T : DD) (e : SE) : Except Err SE :=
  match collect e with
  | .error x => .error x
  | .ok e' => repl S T (strip K e')

/-! ## Specification -/

section
variable {α : Type} [Field α]

/-- meanings of heads: sums, products and numbers mean what they should; everything else is
arbitrary -/
structure Meaning (α : Type) [Field α] where
  den : Head → List α → α
  sum : ∀ xs, den .sum xs = xs.sum
  prod : ∀ xs, den .prod xs = xs.prod
  num : ∀ q xs, den (.num q) xs = (q : α)

mutual
/-- value of an expression -/
def val (M : Meaning α) : SE → α
  | .node h cs => M.den h (valL M cs)
/-- values of a list -/
def valL (M : Meaning α) : List SE → List α
  | [] => []
  | c :: l => val M c :: valL M l
end

/-- the numbers among some factors -/
def numbers : List SE → List Rat
  | [] => []
  | .node (.num q) _ :: l => q :: numbers l
  | _ :: l => numbers l

/-- Terms of the documented form and the value of what should remain of them: nothing of a
term without layer potential, a layer potential itself, and of a product with one layer
potential the numbers times the layer potential. -/
inductive Term (M : Meaning α) : SE → α → Prop
  | free {e} : hasIntG e = false → Term M e 0
  | pot {g cs} : Term M (.node (.intg g) cs) (val M (.node (.intg g) cs))
  | scaled {pre post g cs} : (∀ f ∈ pre ++ post, hasIntG f = false) →
      Term M (.node .prod (pre ++ .node (.intg g) cs :: post))
        (((numbers (pre ++ post)).map (fun q : Rat => (q : α))).prod * val M (.node (.intg g) cs))

/-! ## Proofs -/

theorem valL_eq (M : Meaning α) (l : List SE) : valL M l = l.map (val M) := by
  induction l with
  | nil => rfl
  | cons c l ih => simp [valL, ih]

theorem hasIntGL_eq (l : List SE) : hasIntGL l = l.any hasIntG := by
  induction l with
  | nil => rfl
  | cons c l ih => simp [hasIntGL, ih]

theorem isQ_val (M : Meaning α) {q : Rat} {e : SE} (h : isQ q e = true) : val M e = (q : α) := by
  obtain ⟨hd, cs⟩ := e
  cases hd <;> simp [isQ] at h
  subst h
  simp [val, M.num]

theorem isQ_has {q : Rat} {e : SE} (h : isQ q e = true) (cs : hasIntGL e.children = false) : hasIntG e = false := by
  obtain ⟨hd, l⟩ := e
  cases hd <;> simp [isQ] at h
  simpa [hasIntG, isIntG, SE.children] using cs

theorem sflatL_append_val (M : Meaning α) (cs : List SE)
    (h : ∀ c ∈ cs, ((sflat c).map (val M)).sum = val M c) :
    ((sflatL cs).map (val M)).sum = (cs.map (val M)).sum := by
  induction cs with
  | nil => rfl
  | cons c l ih =>
    simp only [sflatL, List.map_append, List.sum_append, List.map_cons, List.sum_cons]
    rw [h c (by simp), ih (fun c hc => h c (by simp [hc]))]

theorem sflat_val (M : Meaning α) : ∀ e, ((sflat e).map (val M)).sum = val M e := by
  apply SE.ind
  intro h cs ih
  have other : ∀ e : SE, ((if isQ 0 e then [] else [e]).map (val M)).sum = val M e := by
    intro e
    split
    · rename_i h; rw [isQ_val M h]; simp
    · simp
  cases h <;> simp only [sflat] <;> try exact other _
  rw [sflatL_append_val M cs ih, val, M.sum, valL_eq]

theorem fsum_val (M : Meaning α) (cs : List SE) : val M (fsum cs) = (cs.map (val M)).sum := by
  rw [← sflatL_append_val M cs (fun c _ => sflat_val M c)]
  unfold fsum
  split
  · rename_i h; rw [h]; simp [num, val, M.num]
  · rename_i e h; rw [h]; simp
  · rw [val, M.sum, valL_eq]

theorem sflatL_mem {cs : List SE} {P : SE → Prop} (h : ∀ c ∈ cs, ∀ x ∈ sflat c, P x) :
    ∀ x ∈ sflatL cs, P x := by
  induction cs with
  | nil => simp [sflatL]
  | cons c l ih =>
    intro x hx
    simp only [sflatL, List.mem_append] at hx
    rcases hx with hx | hx
    · exact h c (by simp) x hx
    · exact ih (fun c hc => h c (by simp [hc])) x hx

theorem sflat_free : ∀ e, hasIntG e = false → ∀ x ∈ sflat e, hasIntG x = false := by
  apply SE.ind
  intro h cs ih he x hx
  have other : ∀ e : SE, hasIntG e = false → x ∈ (if isQ 0 e then [] else [e]) → hasIntG x = false := by
    intro e he hx
    split at hx
    · simp at hx
    · simp at hx; rw [hx]; exact he
  cases h <;> simp only [sflat] at hx <;> try exact other _ he hx
  refine sflatL_mem (P := fun x => hasIntG x = false) ?_ x hx
  intro c hc
  simp only [hasIntG, isIntG, Bool.false_or, hasIntGL_eq, List.any_eq_false] at he
  exact ih c hc (by simpa using he c hc)

theorem fsum_free {cs : List SE} (h : ∀ c ∈ cs, hasIntG c = false) : hasIntG (fsum cs) = false := by
  have := sflatL_mem (P := fun x => hasIntG x = false) (cs := cs) (fun c hc => sflat_free c (h c hc))
  unfold fsum
  split
  · rfl
  · rename_i e he; exact this e (by rw [he]; simp)
  · simp only [hasIntG, isIntG, Bool.false_or, hasIntGL_eq, List.any_eq_false]
    intro x hx; simp [this x hx]

/-- the value of flattened factors -/
def pval (M : Meaning α) : Option (List SE) → α
  | none => 0
  | some l => (l.map (val M)).prod

theorem pflatL_val (M : Meaning α) (cs : List SE)
    (h : ∀ c ∈ cs, pval M (pflat c) = val M c) :
    pval M (pflatL cs) = (cs.map (val M)).prod := by
  induction cs with
  | nil => simp [pflatL, pval]
  | cons c l ih =>
    have ih := ih (fun c hc => h c (by simp [hc]))
    have hc := h c (by simp)
    simp only [pflatL, List.map_cons, List.prod_cons]
    cases h1 : pflat c with
    | none => rw [h1] at hc; simp only [pval] at hc ⊢; rw [← hc]; simp
    | some x =>
      cases h2 : pflatL l with
      | none => rw [h2] at ih; simp only [pval] at ih ⊢; rw [← ih]; simp
      | some y =>
        rw [h1] at hc; rw [h2] at ih
        simp only [pval] at hc ih ⊢
        rw [← hc, ← ih]; simp

theorem pflat_val (M : Meaning α) : ∀ e, pval M (pflat e) = val M e := by
  apply SE.ind
  intro h cs ih
  have other : ∀ e : SE, pval M (if isQ 0 e then none else if isQ 1 e then some [] else some [e]) = val M e := by
    intro e
    split
    · rename_i h; rw [isQ_val M h]; simp [pval]
    · split
      · rename_i h; rw [isQ_val M h]; simp [pval]
      · simp [pval]
  cases h <;> simp only [pflat] <;> try exact other _
  rw [pflatL_val M cs ih, val, M.prod, valL_eq]

theorem fprod_val (M : Meaning α) (cs : List SE) : val M (fprod cs) = (cs.map (val M)).prod := by
  rw [← pflatL_val M cs (fun c _ => pflat_val M c)]
  unfold fprod
  split
  · rename_i h; rw [h]; simp [num, val, M.num, pval]
  · rename_i h; rw [h]; simp [num, val, M.num, pval]
  · rename_i e h; rw [h]; simp [pval]
  · rename_i l _ _ h; rw [h, val, M.prod, valL_eq]; rfl

theorem pflatL_mem {cs : List SE} {P : SE → Prop}
    (h : ∀ c ∈ cs, ∀ l, pflat c = some l → ∀ x ∈ l, P x) :
    ∀ l, pflatL cs = some l → ∀ x ∈ l, P x := by
  induction cs with
  | nil => intro l hl; simp [pflatL] at hl; subst hl; simp
  | cons c t ih =>
    intro l hl x hx
    simp only [pflatL] at hl
    cases h1 : pflat c with
    | none => rw [h1] at hl; cases hl
    | some a =>
      rw [h1] at hl
      cases h2 : pflatL t with
      | none => rw [h2] at hl; cases hl
      | some b =>
        rw [h2] at hl
        cases hl
        rcases List.mem_append.1 hx with hx | hx
        · exact h c (by simp) a h1 x hx
        · exact ih (fun c hc => h c (by simp [hc])) b h2 x hx

theorem pflat_free : ∀ e, hasIntG e = false → ∀ l, pflat e = some l → ∀ x ∈ l, hasIntG x = false := by
  apply SE.ind
  intro h cs ih he l hl
  have other : ∀ e : SE, hasIntG e = false →
      (if isQ 0 e then none else if isQ 1 e then some [] else some [e]) = some l →
      ∀ x ∈ l, hasIntG x = false := by
    intro e he hx
    split at hx
    · cases hx
    · split at hx <;> cases hx
      · simp
      · simpa using he
  cases h <;> simp only [pflat] at hl <;> try exact other _ he hl
  refine pflatL_mem (P := fun x => hasIntG x = false) ?_ l hl
  intro c hc
  simp only [hasIntG, isIntG, Bool.false_or, hasIntGL_eq, List.any_eq_false] at he
  exact ih c hc (by simpa using he c hc)

theorem fprod_free {cs : List SE} (h : ∀ c ∈ cs, hasIntG c = false) : hasIntG (fprod cs) = false := by
  have := fun l => pflatL_mem (P := fun x => hasIntG x = false) (cs := cs)
    (fun c hc => pflat_free c (h c hc)) l
  unfold fprod
  split
  · rfl
  · rfl
  · rename_i e he; exact this _ he e (by simp)
  · rename_i l _ _ he
    simp only [hasIntG, isIntG, Bool.false_or, hasIntGL_eq, List.any_eq_false]
    intro x hx; simp [this _ he x hx]

/-- expressions without layer potential stay so, and are accepted -/
theorem collect_free : ∀ e, hasIntG e = false → ∃ r, collect e = .ok r ∧ hasIntG r = false := by
  apply SE.ind
  intro h cs ih he
  simp only [hasIntG, Bool.or_eq_false_iff, hasIntGL_eq, List.any_eq_false] at he
  obtain ⟨h1, h2⟩ := he
  have hL : ∀ l : List SE, (∀ c ∈ l, c ∈ cs) → ∃ l', collectL l = .ok l' ∧ ∀ x ∈ l', hasIntG x = false := by
    intro l
    induction l with
    | nil => intro _; exact ⟨[], rfl, by simp⟩
    | cons c l ihl =>
      intro hs
      obtain ⟨l', k1, k2⟩ := ihl (fun c hc => hs c (by simp [hc]))
      obtain ⟨c', k3, k4⟩ := ih c (hs c (by simp)) (by simpa using h2 c (hs c (by simp)))
      refine ⟨c' :: l', by simp [collectL, k1, k3], ?_⟩
      intro x hx
      rcases List.mem_cons.1 hx with rfl | hx
      · exact k4
      · exact k2 x hx
  have hP : ∀ l : List SE, (∀ c ∈ l, c ∈ cs) → ∀ ns, (∀ x ∈ ns, hasIntG x = false) →
      ∃ ns', collectP ns [] l = .ok (ns', []) ∧ ∀ x ∈ ns', hasIntG x = false := by
    intro l
    induction l with
    | nil => intro _ ns hns; exact ⟨ns, rfl, hns⟩
    | cons c l ihl =>
      intro hs ns hns
      simp only [collectP]
      split
      · apply ihl (fun c hc => hs c (by simp [hc]))
        intro x hx
        rcases List.mem_append.1 hx with hx | hx
        · exact hns x hx
        · simp only [List.mem_singleton] at hx; subst hx
          simpa using h2 x (hs x (by simp))
      · obtain ⟨c', k3, k4⟩ := ih c (hs c (by simp)) (by simpa using h2 c (hs c (by simp)))
        simp only [k3, k4, Bool.false_eq_true, if_false]
        exact ihl (fun c hc => hs c (by simp [hc])) ns hns
  obtain ⟨cs', k1, k2⟩ := hL cs (fun _ h => h)
  have gen : ∀ hd, isIntG hd = false → ∃ r, Except.ok (ε := Err) (SE.node hd cs') = .ok r ∧ hasIntG r = false := by
    intro hd hh
    refine ⟨_, rfl, ?_⟩
    simp only [hasIntG, hh, Bool.false_or, hasIntGL_eq, List.any_eq_false]
    intro x hx; simp [k2 x hx]
  cases h <;> simp only [collect, k1] <;> try exact gen _ rfl
  · refine ⟨_, rfl, fsum_free ?_⟩
    intro c hc; exact k2 c (List.mem_filter.1 hc).1
  · obtain ⟨ns', k3, k4⟩ := hP cs (fun _ h => h) [] (by simp)
    rw [k3]
    exact ⟨_, rfl, fprod_free (by simpa using k4)⟩
  · simp [isIntG] at h1

/-- factors without layer potential: the numbers are collected, the rest is dropped -/
theorem collectP_free : ∀ (l post ns gs : List SE), (∀ c ∈ l, hasIntG c = false) →
    ∃ ms, collectP ns gs (l ++ post) = collectP (ns ++ ms) gs post ∧ (∀ x ∈ ms, hasIntG x = false) ∧
      ∀ (M : Meaning α), ms.map (val M) = (numbers l).map (fun q : Rat => (q : α))
  | [], post, ns, gs, _ => ⟨[], by simp, by simp, by simp [numbers]⟩
  | c :: l, post, ns, gs, h => by
    have hc := h c (by simp)
    by_cases hn : isNumH c.head = true
    · obtain ⟨ms, h1, h3, h2⟩ := collectP_free l post (ns ++ [c]) gs (fun c hc => h c (by simp [hc]))
      refine ⟨c :: ms, ?_, ?_, ?_⟩
      · simp only [List.cons_append, collectP, hn, if_true, h1]
        simp
      · intro x hx
        rcases List.mem_cons.1 hx with rfl | hx
        · exact hc
        · exact h3 x hx
      · intro M
        obtain ⟨hd, k⟩ := c
        cases hd <;> simp [SE.head, isNumH] at hn
        simp [numbers, h2 M, val, M.num]
    · obtain ⟨ms, h1, h3, h2⟩ := collectP_free l post ns gs (fun c hc => h c (by simp [hc]))
      obtain ⟨c', k1, k2⟩ := collect_free c hc
      refine ⟨ms, ?_, h3, ?_⟩
      · simp only [List.cons_append, collectP, hn, k1, k2, Bool.false_eq_true, if_false, h1]
      · intro M
        rw [h2 M]
        obtain ⟨hd, k⟩ := c
        cases hd <;> simp [SE.head, isNumH] at hn <;> simp [numbers]

/-- a term of the documented form: what is left of it, and its value -/
theorem collect_term (M : Meaning α) {e : SE} {x : α} (h : Term M e x) :
    ∃ r, collect e = .ok r ∧ (if hasIntG r then val M r else 0) = x := by
  cases h with
  | free h =>
    obtain ⟨r, h1, h2⟩ := collect_free e h
    exact ⟨r, h1, by simp [h2]⟩
  | @pot g cs => exact ⟨.node (.intg g) cs, by simp only [collect], by simp [hasIntG, isIntG]⟩
  | @scaled pre post g cs hf =>
    obtain ⟨ms, h1, h1f, h2⟩ := collectP_free (α := α) pre (.node (.intg g) cs :: post) [] []
      (fun c hc => hf c (by simp [hc]))
    obtain ⟨ms', h3, h3f, h4⟩ := collectP_free (α := α) post [] ([] ++ ms) [.node (.intg g) cs]
      (fun c hc => hf c (by simp [hc]))
    have hP : collectP [] [] (pre ++ .node (.intg g) cs :: post)
        = .ok (ms ++ ms', [.node (.intg g) cs]) := by
      rw [h1]
      simp only [collectP, SE.head, isNumH, Bool.false_eq_true, if_false, collect]
      simp only [hasIntG, isIntG, Bool.true_or, if_true, List.isEmpty_nil, List.nil_append]
      simp only [List.append_nil, List.nil_append] at h3
      rw [h3, collectP]
    refine ⟨fprod ((ms ++ ms') ++ [.node (.intg g) cs]), by simp only [collect, hP], ?_⟩
    have hn : numbers (pre ++ post) = numbers pre ++ numbers post := by
      clear hf h1 h2 hP
      induction pre with
      | nil => rfl
      | cons c l ih =>
        obtain ⟨hd, k⟩ := c
        cases hd <;> simp [numbers, ih]
    have hv : val M (fprod ((ms ++ ms') ++ [.node (.intg g) cs]))
        = ((numbers (pre ++ post)).map (fun q : Rat => (q : α))).prod * val M (.node (.intg g) cs) := by
      rw [fprod_val, hn]
      simp [h2 M, h4 M, mul_assoc]
    by_cases hi : hasIntG (fprod ((ms ++ ms') ++ [.node (.intg g) cs])) = true
    · rw [if_pos hi, hv]
    · rw [if_neg hi, ← hv]
      -- the layer potential got lost only because a factor is zero
      have hlast : pflat (.node (.intg g) cs) = some [.node (.intg g) cs] := by simp [pflat, isQ]
      have happ : ∀ l : List SE, pflatL (l ++ [.node (.intg g) cs])
          = (pflatL l).map (fun x => x ++ [.node (.intg g) cs]) := by
        intro l
        induction l with
        | nil => simp [pflatL, hlast]
        | cons c l ih =>
          simp only [List.cons_append, pflatL, ih]
          cases pflat c <;> simp
          cases pflatL l <;> simp
      rw [fprod, happ] at hi ⊢
      cases hp : pflatL (ms ++ ms') with
      | none => simp [num, val, M.num]
      | some l =>
        rw [hp] at hi
        exfalso
        apply hi
        simp only [Option.map_some]
        cases l with
        | nil => simp [hasIntG, isIntG]
        | cons a l =>
          cases l with
          | nil => simp [hasIntG, isIntG, hasIntGL]
          | cons b l =>
            simp [hasIntG, hasIntGL, hasIntGL_eq, isIntG]

/-! ## Properties -/

/-- C58: a sum of terms of the documented form — terms without layer potential, layer
potentials, products with one layer potential — is reduced to the sum of the layer
potentials with their constant factors. -/
theorem C58_terms (M : Meaning α) (ts : List SE) (xs : List α) (h : List.Forall₂ (Term M) ts xs) :
    ∃ r, collect (.node .sum ts) = .ok r ∧ val M r = xs.sum := by
  have key : ∃ l, collectL ts = .ok l ∧ ((l.filter hasIntG).map (val M)).sum = xs.sum := by
    induction h with
    | nil => exact ⟨[], rfl, rfl⟩
    | cons h1 _ ih =>
      obtain ⟨l, k1, k2⟩ := ih
      obtain ⟨r, k3, k4⟩ := collect_term M h1
      refine ⟨r :: l, by simp [collectL, k1, k3], ?_⟩
      rw [List.sum_cons, ← k2, ← k4]
      by_cases hr : hasIntG r = true <;> simp [hr]
  obtain ⟨l, k1, k2⟩ := key
  exact ⟨fsum (l.filter hasIntG), by simp only [collect, k1], by rw [fsum_val, k2]⟩

end

/-- C58: a product of two layer potentials is refused with `RuntimeError`, whatever the
other factors (without layer potentials) are. -/
theorem C58_product (pre mid post : List SE) (g g' : IG) (cs cs' : List SE)
    (h : ∀ f ∈ pre ++ mid, hasIntG f = false) :
    collect (.node .prod (pre ++ .node (.intg g) cs :: (mid ++ .node (.intg g') cs' :: post)))
      = .error .runtime := by
  obtain ⟨ms, h1, _, _⟩ := collectP_free (α := Rat) pre
    (.node (.intg g) cs :: (mid ++ .node (.intg g') cs' :: post)) [] [] (fun c hc => h c (by simp [hc]))
  obtain ⟨ms', h2, _, _⟩ := collectP_free (α := Rat) mid (.node (.intg g') cs' :: post) ([] ++ ms)
    [.node (.intg g) cs] (fun c hc => h c (by simp [hc]))
  have hi : ∀ g cs, hasIntG (.node (.intg g) cs) = true := fun g cs => by simp [hasIntG, isIntG]
  have : collectP [] [] (pre ++ .node (.intg g) cs :: (mid ++ .node (.intg g') cs' :: post))
      = .error .runtime := by
    rw [h1]
    simp only [List.nil_append] at h2 ⊢
    simp only [collectP, SE.head, isNumH, Bool.false_eq_true, if_false, collect, hi, if_true,
      List.isEmpty_nil, List.nil_append]
    rw [h2]
    simp only [collectP, SE.head, isNumH, Bool.false_eq_true, if_false, collect, hi, if_true,
      List.isEmpty_cons]
  simp only [collect, this]

/-- C58 is false for expressions that are not sums: a multiple of the density alone is not
removed, but turned into a constant, whose value is not the sum of the (no) layer
potentials. -/
theorem C58_refuted_terms : ∃ e r, hasIntG e = false ∧ collect e = .ok r ∧
    ∀ M : Meaning Rat, val M r = 1 / 2 := by
  refine ⟨.node .prod [num (1 / 2), .node (.var "sigma") []], num (1 / 2), by decide +kernel, by decide +kernel, ?_⟩
  intro M
  simp [num, val, M.num]

/-! ### What occurs in the results -/

/-- heads that `flattened_sum`/`flattened_product` may introduce -/
def arith : Head → Bool
  | .sum | .prod | .num _ => true
  | _ => false

theorem sub_node {h : Head} {cs : List SE} {x : SE} (hs : Sub (.node h cs) x) :
    x = .node h cs ∨ ∃ c ∈ cs, Sub c x := by
  cases hs with
  | refl => exact Or.inl rfl
  | child hc hs => exact Or.inr ⟨_, hc, hs⟩

theorem sflat_sub : ∀ e x y, x ∈ sflat e → Sub x y → Sub e y := by
  apply SE.ind
  intro h cs ih x y hx hs
  have other : ∀ e : SE, x ∈ (if isQ 0 e then [] else [e]) → Sub e y := by
    intro e hx
    split at hx
    · simp at hx
    · simp at hx; rw [← hx]; exact hs
  cases h <;> simp only [sflat] at hx <;> try exact other _ hx
  have : ∃ c ∈ cs, Sub c y :=
    sflatL_mem (P := fun x => Sub x y → ∃ c ∈ cs, Sub c y)
      (fun c hc x hx hs => ⟨c, hc, ih c hc x y hx hs⟩) x hx hs
  obtain ⟨c, hc, hs⟩ := this
  exact .child hc hs

theorem fsum_sub {cs : List SE} {h : Head} {ds : List SE} (ha : arith h = false)
    (hs : Sub (fsum cs) (.node h ds)) : ∃ c ∈ cs, Sub c (.node h ds) := by
  have hm : ∀ x ∈ sflatL cs, Sub x (.node h ds) → ∃ c ∈ cs, Sub c (.node h ds) :=
    sflatL_mem (P := fun x => Sub x (.node h ds) → ∃ c ∈ cs, Sub c (.node h ds))
      (fun c hc x hx hs => ⟨c, hc, sflat_sub c x _ hx hs⟩)
  unfold fsum at hs
  split at hs
  · rcases sub_node hs with h1 | ⟨c, hc, _⟩
    · cases h1; simp [arith] at ha
    · simp at hc
  · rename_i e he; exact hm e (by rw [he]; simp) hs
  · rcases sub_node hs with h1 | ⟨c, hc, hs⟩
    · cases h1; simp [arith] at ha
    · exact hm c hc hs

theorem pflat_sub : ∀ e l x y, pflat e = some l → x ∈ l → Sub x y → Sub e y := by
  apply SE.ind
  intro h cs ih l x y hl hx hs
  have other : ∀ e : SE, (if isQ 0 e then none else if isQ 1 e then some [] else some [e]) = some l →
      Sub e y := by
    intro e he
    split at he
    · cases he
    · split at he <;> cases he
      · simp at hx
      · simp at hx; rw [← hx]; exact hs
  cases h <;> simp only [pflat] at hl <;> try exact other _ hl
  have : ∃ c ∈ cs, Sub c y :=
    pflatL_mem (P := fun x => Sub x y → ∃ c ∈ cs, Sub c y)
      (fun c hc l hl x hx hs => ⟨c, hc, ih c hc l x y hl hx hs⟩) l hl x hx hs
  obtain ⟨c, hc, hs⟩ := this
  exact .child hc hs

theorem fprod_sub {cs : List SE} {h : Head} {ds : List SE} (ha : arith h = false)
    (hs : Sub (fprod cs) (.node h ds)) : ∃ c ∈ cs, Sub c (.node h ds) := by
  have hm := fun l => pflatL_mem (cs := cs) (P := fun x => Sub x (.node h ds) → ∃ c ∈ cs, Sub c (.node h ds))
      (fun c hc l hl x hx hs => ⟨c, hc, pflat_sub c l x _ hl hx hs⟩) l
  unfold fprod at hs
  split at hs
  · rcases sub_node hs with h1 | ⟨c, hc, _⟩
    · cases h1; simp [arith] at ha
    · simp at hc
  · rcases sub_node hs with h1 | ⟨c, hc, _⟩
    · cases h1; simp [arith] at ha
    · simp at hc
  · rename_i e he; exact hm _ he e (by simp) hs
  · rename_i l _ _ he
    rcases sub_node hs with h1 | ⟨c, hc, hs⟩
    · cases h1; simp [arith] at ha
    · exact hm _ he c hc hs

/-- whatever occurs in the collected expression occurs in the original one; layer potentials
with the same children -/
theorem collect_sub : ∀ e r, collect e = .ok r → ∀ h ds, arith h = false → Sub r (.node h ds) →
    ∃ ds', Sub e (.node h ds') ∧ (isIntG h = true → ds' = ds) := by
  apply SE.ind
  intro h cs ih r hr k ds ha hs
  have hL : ∀ l l' : List SE, (∀ c ∈ l, c ∈ cs) → collectL l = .ok l' → ∀ x ∈ l', Sub x (.node k ds) →
      ∃ ds', Sub (.node h cs) (.node k ds') ∧ (isIntG k = true → ds' = ds) := by
    intro l
    induction l with
    | nil => intro l' _ hl x hx; simp [collectL] at hl; subst hl; simp at hx
    | cons c l ihl =>
      intro l' hm hl x hx hsx
      simp only [collectL] at hl
      cases h1 : collect c with
      | error e => rw [h1] at hl; cases hl
      | ok c' =>
        rw [h1] at hl
        cases h2 : collectL l with
        | error e => rw [h2] at hl; cases hl
        | ok l2 =>
          rw [h2] at hl
          cases hl
          rcases List.mem_cons.1 hx with rfl | hx
          · obtain ⟨ds', k1, k2⟩ := ih c (hm c (by simp)) x h1 k ds ha hsx
            exact ⟨ds', .child (hm c (by simp)) k1, k2⟩
          · exact ihl l2 (fun c hc => hm c (by simp [hc])) h2 x hx hsx
  have hP : ∀ (l ns gs ns' gs' : List SE), (∀ c ∈ l, c ∈ cs) → collectP ns gs l = .ok (ns', gs') →
      (∀ x ∈ ns ++ gs, Sub x (.node k ds) → ∃ ds', Sub (.node h cs) (.node k ds') ∧ (isIntG k = true → ds' = ds)) →
      ∀ x ∈ ns' ++ gs', Sub x (.node k ds) →
        ∃ ds', Sub (.node h cs) (.node k ds') ∧ (isIntG k = true → ds' = ds) := by
    intro l
    induction l with
    | nil =>
      intro ns gs ns' gs' _ hl hacc x hx hsx
      simp only [collectP, Except.ok.injEq, Prod.mk.injEq] at hl
      obtain ⟨rfl, rfl⟩ := hl
      exact hacc x hx hsx
    | cons c l ihl =>
      intro ns gs ns' gs' hm hl hacc
      simp only [collectP] at hl
      split at hl
      · refine ihl _ _ _ _ (fun c hc => hm c (by simp [hc])) hl ?_
        intro x hx hsx
        simp only [List.mem_append, List.mem_singleton] at hx
        rcases hx with (hx | rfl) | hx
        · exact hacc x (by simp [hx]) hsx
        · exact ⟨ds, .child (hm x (by simp)) hsx, fun _ => rfl⟩
        · exact hacc x (by simp [hx]) hsx
      · split at hl
        · cases hl
        · rename_i c' hc'
          split at hl
          · split at hl
            · refine ihl _ _ _ _ (fun c hc => hm c (by simp [hc])) hl ?_
              intro x hx hsx
              simp only [List.mem_append, List.mem_singleton] at hx
              rcases hx with hx | hx | rfl
              · exact hacc x (by simp [hx]) hsx
              · exact hacc x (by simp [hx]) hsx
              · obtain ⟨ds', k1, k2⟩ := ih c (hm c (by simp)) x hc' k ds ha hsx
                exact ⟨ds', .child (hm c (by simp)) k1, k2⟩
            · cases hl
          · exact ihl _ _ _ _ (fun c hc => hm c (by simp [hc])) hl hacc
  have gen : ∀ l, collectL cs = .ok l → isIntG h = false → Sub (.node h l) (.node k ds) →
      ∃ ds', Sub (.node h cs) (.node k ds') ∧ (isIntG k = true → ds' = ds) := by
    intro l hl hi hs
    rcases sub_node hs with h1 | ⟨c, hc, hs⟩
    · cases h1
      exact ⟨cs, .refl _, by simp [hi]⟩
    · exact hL cs l (fun _ h => h) hl c hc hs
  have fin : ∀ hd, h = hd → isIntG hd = false → (match collectL cs with
      | .error x => Except.error x | .ok cs' => .ok (SE.node hd cs')) = Except.ok (ε := Err) r →
      ∃ ds', Sub (.node h cs) (.node k ds') ∧ (isIntG k = true → ds' = ds) := by
    intro hd he hi hr
    subst he
    split at hr
    · cases hr
    · rename_i l hl
      cases hr
      exact gen l hl hi hs
  cases h <;> simp only [collect] at hr <;> try exact fin _ rfl rfl hr
  · split at hr
    · cases hr
    · rename_i l hl
      cases hr
      obtain ⟨c, hc, hs⟩ := fsum_sub ha hs
      exact hL cs l (fun _ h => h) hl c (List.mem_filter.1 hc).1 hs
  · split at hr
    · cases hr
    · rename_i ns gs hl
      cases hr
      obtain ⟨c, hc, hs⟩ := fprod_sub ha hs
      exact hP cs [] [] ns gs (fun _ h => h) hl (by simp) c hc hs
  · cases hr
    exact ⟨ds, hs, fun _ => rfl⟩

/-- no layer potential occurs inside (the densities or arguments of) another one -/
def NoNest (e : SE) : Prop := ∀ g cs, Sub e (.node (.intg g) cs) → hasIntGL cs = false

/-- neither interpolations, interleaving nor solves occur -/
def NoTransfer (e : SE) : Prop := ∀ h cs, Sub e (.node h cs) →
  (∀ f t, h ≠ .interp f t) ∧ (∀ f, h ≠ .interleave f) ∧ (∀ b v x d, h ≠ .inverse b v x d)

theorem sub_has {e : SE} {g : IG} {cs : List SE} (hs : Sub e (.node (.intg g) cs)) : hasIntG e = true := by
  generalize hx : SE.node (.intg g) cs = x at hs
  induction hs with
  | refl e => subst hx; simp [hasIntG, isIntG]
  | child hc _ ih =>
    simp only [hasIntG, hasIntGL_eq, Bool.or_eq_true, List.any_eq_true]
    exact Or.inr ⟨_, hc, ih hx⟩

theorem stripL_eq (K : KOps) (l : List SE) : stripL K l = l.map (strip K) := by
  induction l with
  | nil => rfl
  | cons c l ih => simp [stripL, ih]

theorem stripArgs_mem {K : KOps} {g : IG} {cs : List SE} {x : SE} (hx : x ∈ stripArgs K g cs) : x ∈ cs := by
  simp only [stripArgs, List.mem_append, List.mem_map, List.mem_filter] at hx
  rcases hx with hx | ⟨p, ⟨hp, _⟩, rfl⟩
  · exact List.mem_of_mem_take hx
  · exact List.mem_of_mem_drop (List.of_mem_zip (a := p.1) (b := p.2) hp).2

/-- layer potentials of the stripped expression come from layer potentials of the original;
other heads occur in the original, too -/
theorem strip_sub (K : KOps) : ∀ e h ds, Sub (strip K e) (.node h ds) →
    ∃ h' ds', Sub e (.node h' ds') ∧ (h' = h ∨ ∃ g, h' = .intg g ∧ h = .intg (stripIG K g)) := by
  apply SE.ind
  intro hd cs ih h ds hs
  have hL : ∀ l : List SE, (∀ x ∈ l, x ∈ stripL K cs) → ∀ x ∈ l, Sub x (.node h ds) →
      ∃ h' ds', Sub (.node hd cs) (.node h' ds') ∧ (h' = h ∨ ∃ g, h' = .intg g ∧ h = .intg (stripIG K g)) := by
    intro l hl x hx hsx
    have := hl x hx
    rw [stripL_eq, List.mem_map] at this
    obtain ⟨c, hc, rfl⟩ := this
    obtain ⟨h', ds', k1, k2⟩ := ih c hc h ds hsx
    exact ⟨h', ds', .child hc k1, k2⟩
  have gen : Sub (.node hd (stripL K cs)) (.node h ds) →
      ∃ h' ds', Sub (.node hd cs) (.node h' ds') ∧ (h' = h ∨ ∃ g, h' = .intg g ∧ h = .intg (stripIG K g)) := by
    intro hs
    rcases sub_node hs with h1 | ⟨c, hc, hs⟩
    · cases h1
      exact ⟨_, _, .refl _, Or.inl rfl⟩
    · exact hL _ (fun _ h => h) c hc hs
  cases hd <;> simp only [strip] at hs <;> try exact gen hs
  rename_i g
  split at hs
  · exact ⟨h, ds, hs, Or.inl rfl⟩
  · rcases sub_node hs with h1 | ⟨c, hc, hs⟩
    · cases h1
      exact ⟨_, _, .refl _, Or.inr ⟨g, rfl, rfl⟩⟩
    · exact hL _ (fun x hx => stripArgs_mem hx) c hc hs

/-- C58: if no layer potential is nested in another one, all kernels of the result are free
of source and target transformations; source, target, limit and number of densities
are those of a layer potential of the original expression, and of its arguments exactly
those not belonging to source transformations remain.  Partial: see
`C58_refuted_kernels`. -/
theorem C58_kernels_partial (K : KOps) (ht : ∀ k, K.txr (K.txr k) = K.txr k)
    (hsx : ∀ k, K.sxr (K.sxr k) = K.sxr k) (e : SE) (hn : NoNest e) (g' : IG) (ds : List SE)
    (hs : Sub (strip K e) (.node (.intg g') ds)) :
    Untransformed K g' ∧ ∃ g cs, Sub e (.node (.intg g) cs) ∧ g'.tk = K.txr g.tk ∧
      g'.sks = g.sks.map K.sxr ∧ g'.nd = g.nd ∧ g'.lim = g.lim ∧ g'.src = g.src ∧ g'.tgt = g.tgt ∧
      (g' = g ∨ ∀ a, a ∈ g'.kn ↔ a ∈ g.kn ∧ ∀ s ∈ g.sks, a ∉ K.srcArgs s) := by
  have hun : ∀ g, Untransformed K (stripIG K g) := by
    intro g
    refine ⟨ht _, ?_⟩
    simp only [stripIG, List.map_map]
    apply List.map_congr_left
    intro a _; exact hsx a
  have hmain : ∀ e, NoNest e → ∀ g' ds, Sub (strip K e) (.node (.intg g') ds) →
      ∃ g cs, Sub e (.node (.intg g) cs) ∧ ((g' = g ∧ Untransformed K g) ∨ g' = stripIG K g) := by
    apply SE.ind
    intro hd cs ih hn g' ds hs
    have hL : ∀ c ∈ stripL K cs, Sub c (.node (.intg g') ds) →
        ∃ g ds', Sub (.node hd cs) (.node (.intg g) ds') ∧ ((g' = g ∧ Untransformed K g) ∨ g' = stripIG K g) := by
      intro x hx hsx
      rw [stripL_eq, List.mem_map] at hx
      obtain ⟨c, hc, rfl⟩ := hx
      obtain ⟨g, ds', k1, k2⟩ := ih c hc (fun g cs h => hn g cs (.child hc h)) g' ds hsx
      exact ⟨g, ds', .child hc k1, k2⟩
    have gen : isIntG hd = false → Sub (.node hd (stripL K cs)) (.node (.intg g') ds) →
        ∃ g ds', Sub (.node hd cs) (.node (.intg g) ds') ∧ ((g' = g ∧ Untransformed K g) ∨ g' = stripIG K g) := by
      intro hi hs
      rcases sub_node hs with h1 | ⟨c, hc, hs⟩
      · cases h1; simp [isIntG] at hi
      · exact hL c hc hs
    cases hd <;> simp only [strip] at hs <;> try exact gen rfl hs
    rename_i g
    split at hs
    · rename_i hu
      rcases sub_node hs with h1 | ⟨c, hc, hs⟩
      · cases h1
        exact ⟨_, _, .refl _, Or.inl ⟨rfl, hu⟩⟩
      · exfalso
        have := hn g cs (.refl _)
        rw [hasIntGL_eq, List.any_eq_false] at this
        exact this c hc (sub_has hs)
    · rcases sub_node hs with h1 | ⟨c, hc, hs⟩
      · cases h1
        exact ⟨_, _, .refl _, Or.inr rfl⟩
      · exact hL c (stripArgs_mem hc) hs
  obtain ⟨g, cs, h1, ⟨rfl, h2⟩ | rfl⟩ := hmain e hn g' ds hs
  · exact ⟨h2, g', cs, h1, h2.1.symm, h2.2.symm, rfl, rfl, rfl, rfl, Or.inl rfl⟩
  · refine ⟨hun g, g, cs, h1, rfl, rfl, rfl, rfl, rfl, rfl, Or.inr fun a => ?_⟩
    simp [stripIG, List.mem_filter]

/-- C58: expressions without transformed kernels are left alone. -/
theorem C58_kernels_identity (K : KOps) : ∀ e, (∀ g cs, Sub e (.node (.intg g) cs) → Untransformed K g) →
    strip K e = e := by
  apply SE.ind
  intro hd cs ih h
  have hL : stripL K cs = cs := by
    rw [stripL_eq]
    conv_rhs => rw [← List.map_id cs]
    apply List.map_congr_left
    intro c hc
    exact ih c hc (fun g cs hs => h g cs (.child hc hs))
  cases hd <;> simp only [strip, hL]
  rw [if_pos (h _ _ (.refl _))]

/-- the heads for which `repl` leaves nothing of the old location -/
def placed (S T : DD) (p : Role × DD) : Prop :=
  p = (.quantity, T) ∨ p = (.source, S) ∨ p = (.target, T)

/-- C58: without interpolations, interleaving and solves, replacing descriptors succeeds, changes
nothing else, and puts all layer potentials from the given source to the given target and
all other quantities on the given target.  Partial: see `C58_refuted_places`. -/
theorem C58_places_partial (S T : DD) : ∀ e, NoTransfer e → ∃ e', repl S T e = .ok e' ∧
    shape e' = shape e ∧ ∀ b inside, b ∈ slots inside e' → placed S T b.2 := by
  apply SE.ind
  intro h cs ih hn
  have hL : ∀ l : List SE, (∀ c ∈ l, c ∈ cs) → ∃ l', replL S T l = .ok l' ∧ shapeL l' = shapeL l ∧
      ∀ b inside, b ∈ slotsL inside l' → placed S T b.2 := by
    intro l
    induction l with
    | nil => intro _; exact ⟨[], rfl, rfl, by simp [slotsL]⟩
    | cons c l ihl =>
      intro hs
      obtain ⟨l', h1, h2, h3⟩ := ihl (fun c hc => hs c (by simp [hc]))
      obtain ⟨c', k1, k2, k3⟩ := ih c (hs c (by simp)) (fun h ds hh => hn h ds (.child (hs c (by simp)) hh))
      refine ⟨c' :: l', by simp [replL, h1, k1], by simp [shapeL, h2, k2], ?_⟩
      intro b inside hb
      simp only [slotsL, List.mem_append] at hb
      rcases hb with hb | hb
      · exact k3 b inside hb
      · exact h3 b inside hb
  obtain ⟨l, h1, h2, h3⟩ := hL cs (fun _ h => h)
  have hh := hn h cs (.refl _)
  refine ⟨.node (reHead S T h) l, ?_, ?_, ?_⟩
  · simp only [repl, h1]
    cases h <;> simp only [reHead, build]
    exact absurd rfl (hh.1 _ _)
  · cases h <;> simp [shape, reHead, eraseHead, h2]
  · intro b inside hb
    simp only [slots, List.mem_append, List.mem_map] at hb
    rcases hb with ⟨p, hp, rfl⟩ | hb
    · cases h <;> simp [reHead, headSlots] at hp <;> simp [placed]
      · exact Or.inl hp
      · exact Or.inl hp
      · exact Or.inl hp
      · exact absurd rfl (hh.1 _ _)
      · exact absurd rfl (hh.2.1 _)
      · exact absurd rfl (hh.2.2 _ _ _ _)
      · exact Or.inr hp
    · exact h3 b _ hb

/-- C58: altogether, if nothing is nested, interpolated or solved for, every layer potential of the
prepared expression has untransformed kernels, and goes from the given source to the
given target. -/
theorem C58_proxy_partial (K : KOps) (ht : ∀ k, K.txr (K.txr k) = K.txr k)
    (hsx : ∀ k, K.sxr (K.sxr k) = K.sxr k) (S T : DD) (e r : SE) (hn : NoNest e) (hm : NoTransfer e)
    (hr : collect e = .ok r) : ∃ e', prepareProxy K S T e = .ok e' ∧ shape e' = shape (strip K r) ∧
      (∀ b inside, b ∈ slots inside e' → placed S T b.2) ∧
      ∀ g ds, Sub (strip K r) (.node (.intg g) ds) → Untransformed K g := by
  have hm' : NoTransfer (strip K r) := by
    intro h cs hs
    obtain ⟨h', ds', k1, k2⟩ := strip_sub K r h cs hs
    by_cases ha : arith h' = true
    · rcases k2 with rfl | ⟨g, rfl, rfl⟩
      · cases h' <;> simp [arith] at ha <;> simp
      · simp
    · obtain ⟨ds2, k3, _⟩ := collect_sub e r hr h' ds' (by simpa using ha) k1
      have := hm h' ds2 k3
      rcases k2 with rfl | ⟨g, rfl, rfl⟩
      · exact this
      · simp
  have hn' : NoNest r := by
    intro g cs hs
    obtain ⟨ds, k1, k2⟩ := collect_sub e r hr (.intg g) cs rfl hs
    rw [k2 rfl] at k1
    exact hn g cs k1
  obtain ⟨e', h1, h2, h3⟩ := C58_places_partial S T (strip K r) hm'
  refine ⟨e', by simp [prepareProxy, hr, h1], h2, h3, ?_⟩
  intro g ds hs
  exact (C58_kernels_partial K ht hsx r hn' g ds hs).1

/-! ### Where it fails -/

/-- kernels of which one carries a transformation -/
def exK : KOps := ⟨fun k => match k with | .axisDeriv _ k => k | k => k,
  fun s => if s = "D" then "G" else s, fun s => if s = "D" then ["dsource_vec"] else []⟩

/-- a layer potential of one density without arguments -/
def exPot (sk : String) (d : SE) : SE :=
  .node (.intg ⟨.base "G", [sk], 1, .p1, ⟨.ident "s", none, .node⟩, ⟨.ident "s", none, .node⟩, []⟩) [d]

/-- C58 is false for nested layer potentials: the single layer potential of a double layer
potential keeps the transformed kernel inside. -/
theorem C58_refuted_kernels : ∃ e g ds, strip exK e = e ∧ Sub e (.node (.intg g) ds) ∧ ¬ Untransformed exK g := by
  refine ⟨exPot "G" (exPot "D" (.node (.var "sigma") [])), _, _, by decide +kernel,
    .child (List.mem_singleton.2 rfl) (.refl _), by decide +kernel⟩

/-- C58 is false for quantities in densities: they are put on the target, although layer
potentials take their densities on the source; and for interpolations, whose explicit
descriptors stay. -/
theorem C58_refuted_places : ∃ (S T d : DD) (e e' : SE), S ≠ T ∧
    repl S T (exPot "G" (.node (.prop (.nodeCoord 0) d) [])) = .ok e' ∧
    (true, Role.quantity, T) ∈ slots false e' ∧ e = .node (.interp d S) [.node (.var "x") []] ∧
    repl S T e = .ok e := by
  refine ⟨⟨.ident "src", none, .node⟩, ⟨.ident "tgt", none, .node⟩, ⟨.ident "s", none, .node⟩, _, _,
    by decide, rfl, ?_, rfl, by decide +kernel⟩
  simp [slots, slotsL, headSlots, reHead, isIntG]

/-- non-vacuity: half the density plus minus three times a double layer potential -/
example : ∃ (e r : SE), NoNest e ∧ NoTransfer e ∧ collect e = .ok r ∧
    (∀ M : Meaning Rat, List.Forall₂ (Term M) e.children
      [0, (([-3] : List Rat).map (fun q : Rat => (q : Rat))).prod * val M (exPot "D" (.node (.var "s") []))]) := by
  refine ⟨.node .sum [.node .prod [num (1 / 2), .node (.var "s") []],
    .node .prod [num (-3), exPot "D" (.node (.var "s") [])]], _, ?_, ?_, rfl, ?_⟩
  · intro g cs hs
    rcases sub_node hs with h | ⟨c, hc, hs⟩
    · cases h
    simp only [List.mem_cons, List.not_mem_nil, or_false] at hc
    rcases hc with rfl | rfl
    · have := sub_has hs
      exact absurd this (by decide +kernel)
    · rcases sub_node hs with h | ⟨c, hc, hs⟩
      · cases h
      simp only [List.mem_cons, List.not_mem_nil, or_false] at hc
      rcases hc with rfl | rfl
      · have := sub_has hs
        exact absurd this (by decide +kernel)
      · rcases sub_node hs with h | ⟨c, hc, hs⟩
        · cases h; rfl
        · simp only [List.mem_cons, List.not_mem_nil, or_false] at hc
          subst hc
          have := sub_has hs
          exact absurd this (by decide +kernel)
  · intro h cs hs
    have hall : ∀ e : SE, (∀ c ∈ e.children, ∀ h cs, Sub c (.node h cs) → (∀ f t, h ≠ .interp f t) ∧
        (∀ f, h ≠ .interleave f) ∧ (∀ b v x d, h ≠ .inverse b v x d)) →
        ((∀ f t, e.head ≠ .interp f t) ∧ (∀ f, e.head ≠ .interleave f) ∧
          (∀ b v x d, e.head ≠ .inverse b v x d)) → ∀ h cs, Sub e (.node h cs) →
        (∀ f t, h ≠ .interp f t) ∧ (∀ f, h ≠ .interleave f) ∧ (∀ b v x d, h ≠ .inverse b v x d) := by
      intro e hc he h cs hs
      obtain ⟨hd, l⟩ := e
      rcases sub_node hs with h1 | ⟨c, hm, hs⟩
      · cases h1; exact he
      · exact hc c hm h cs hs
    have hv : ∀ h cs, Sub (.node (.var "s") []) (.node h cs) → (∀ f t, h ≠ .interp f t) ∧
        (∀ f, h ≠ .interleave f) ∧ (∀ b v x d, h ≠ .inverse b v x d) :=
      hall _ (by simp [SE.children]) (by simp [SE.head])
    refine hall _ ?_ (by simp [SE.head]) h cs hs
    simp only [SE.children, List.mem_cons, List.not_mem_nil, or_false]
    rintro c (rfl | rfl)
    · refine hall _ ?_ (by simp [SE.head])
      simp only [SE.children, List.mem_cons, List.not_mem_nil, or_false]
      rintro c (rfl | rfl)
      · exact hall _ (by simp [SE.children, num]) (by simp [SE.head, num])
      · exact hv
    · refine hall _ ?_ (by simp [SE.head])
      simp only [SE.children, List.mem_cons, List.not_mem_nil, or_false]
      rintro c (rfl | rfl)
      · exact hall _ (by simp [SE.children, num]) (by simp [SE.head, num])
      · refine hall _ ?_ (by simp [SE.head, exPot])
        simp only [SE.children, exPot, List.mem_cons, List.not_mem_nil, or_false]
        rintro c rfl
        exact hv
  · intro M
    refine .cons (.free (by decide +kernel)) (.cons ?_ .nil)
    exact Term.scaled (pre := [num (-3)]) (post := []) (by simp [num, hasIntG, hasIntGL, isIntG])

end Verif.Sym
