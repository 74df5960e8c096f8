import Verif.Exec.Norms

/-!
# C65: integrals, means and norms
-/

namespace Verif.Norms

open Finset

/-! ## Specification -/

/-- an argument of `norm` made of fields that live in the array context `c`: one field, or
an object array of them -/
inductive Spec.IsField (c : Ctx) : Arg → List Dof → Prop
  | scal (x : Dof) : IsField c (.scal (.dof (some c) x)) [x]
  | vec (xs : List Dof) (h : xs ≠ []) : IsField c (.vec (xs.map (Val.dof (some c)))) xs

/-- the squared length of a vector field at a node -/
noncomputable def Spec.sq (xs : List Dof) (g i : Nat) : ℝ := (xs.map (fun x => ‖x g i‖ ^ 2)).sum

/-- a node of the discretization -/
def Spec.Node (d : Discr) (g i : Nat) : Prop := g < d.groups ∧ i < d.nodes g

/-- all quadrature weights (times area elements) are positive -/
def Spec.Positive (d : Discr) : Prop :=
  ∀ g i, Spec.Node d g i → 0 < d.area g i * d.wt g i

/-! ## The array context -/

/-- a context occurs somewhere in an argument -/
inductive Spec.Occurs (c : Ctx) : CArg → Prop
  | dof : Occurs c (.dof (some c))
  | obj (l : List CArg) (a : CArg) (h : a ∈ l) (ho : Occurs c a) : Occurs c (.obj l)

mutual
theorem occurs_of_mem (c : Ctx) : (a : CArg) → c ∈ a.ctxs → Spec.Occurs c a
  | .dof o, h => by
    cases o with
    | none => simp [CArg.ctxs] at h
    | some c' =>
      have : c = c' := by simpa [CArg.ctxs] using h
      subst this
      exact .dof
  | .obj l, h => by
    rw [CArg.ctxs] at h
    obtain ⟨a, ha, ho⟩ := occurs_of_memList c l h
    exact .obj l a ha ho
  | .other, h => by simp [CArg.ctxs] at h
theorem occurs_of_memList (c : Ctx) : (l : List CArg) → c ∈ ctxsList l →
    ∃ a ∈ l, Spec.Occurs c a
  | [], h => by simp [ctxsList] at h
  | a :: l, h => by
    rw [ctxsList, List.mem_append] at h
    rcases h with h | h
    · exact ⟨a, List.mem_cons_self, occurs_of_mem c a h⟩
    · obtain ⟨b, hb, ho⟩ := occurs_of_memList c l h
      exact ⟨b, List.mem_cons_of_mem _ hb, ho⟩
end

theorem mem_ctxsList (c : Ctx) (l : List CArg) :
    c ∈ ctxsList l ↔ ∃ a ∈ l, c ∈ a.ctxs := by
  induction l with
  | nil => simp [ctxsList]
  | cons a l ih => rw [ctxsList, List.mem_append, ih]; simp

theorem mem_of_occurs (c : Ctx) (a : CArg) (h : Spec.Occurs c a) : c ∈ a.ctxs := by
  induction h with
  | dof => simp [CArg.ctxs]
  | obj l a h _ ih => rw [CArg.ctxs]; exact (mem_ctxsList c l).2 ⟨a, h, ih⟩

theorem pickCtx_ok (l : List Ctx) (c : Ctx) :
    pickCtx l = .ok c ↔ c ∈ l ∧ (∀ d ∈ l, d = c) ∧ c.cl = true := by
  cases l with
  | nil => simp [pickCtx]
  | cons a l =>
    rw [pickCtx]
    by_cases h : l.all (fun d => decide (d = a)) = true
    · rw [if_pos h]
      have h' : ∀ d ∈ l, d = a := by simpa using h
      by_cases hc : a.cl = true
      · rw [if_pos hc]
        constructor
        · intro he
          have : a = c := by injection he
          subst this
          refine ⟨List.mem_cons_self, ?_, hc⟩
          intro d hd
          rcases List.mem_cons.1 hd with rfl | hd
          · rfl
          · exact h' d hd
        · rintro ⟨_, h2, _⟩
          rw [h2 a List.mem_cons_self]
      · rw [if_neg hc]
        constructor
        · intro he; cases he
        · rintro ⟨_, h2, h3⟩
          rw [← h2 a List.mem_cons_self] at h3
          exact absurd h3 hc
    · rw [if_neg h]
      constructor
      · intro he; cases he
      · rintro ⟨_, h2, _⟩
        refine absurd ?_ h
        have ha := h2 a List.mem_cons_self
        simp only [List.all_eq_true, decide_eq_true_eq]
        intro d hd
        rw [ha]
        exact h2 d (List.mem_cons_of_mem _ hd)

/-- **C65.**  An expression is evaluated in the array context `c` exactly when `c` is a
PyOpenCL context that was supplied or occurs, however deeply nested in object arrays, in
some argument, and no other context was supplied or occurs. -/
theorem C65_context (supplied : Option Ctx) (args : List CArg) (c : Ctx) :
    findCtx supplied args = .ok c ↔
      c.cl = true
      ∧ (supplied = some c ∨ ∃ a ∈ args, Spec.Occurs c a)
      ∧ (∀ c', supplied = some c' ∨ (∃ a ∈ args, Spec.Occurs c' a) → c' = c) := by
  have hocc : ∀ c', c' ∈ ctxsList args ↔ ∃ a ∈ args, Spec.Occurs c' a := by
    intro c'
    rw [mem_ctxsList]
    exact ⟨fun ⟨a, h, h'⟩ => ⟨a, h, occurs_of_mem c' a h'⟩,
      fun ⟨a, h, h'⟩ => ⟨a, h, mem_of_occurs c' a h'⟩⟩
  unfold findCtx
  cases supplied with
  | none =>
    simp only [suppliedCtxs, bind, Except.bind, List.nil_append]
    rw [pickCtx_ok, hocc]
    simp only [hocc, reduceCtorEq, false_or]
    exact ⟨fun ⟨h1, h2, h3⟩ => ⟨h3, h1, h2⟩, fun ⟨h1, h2, h3⟩ => ⟨h2, h3, h1⟩⟩
  | some s =>
    by_cases hs : s.cl = true
    · simp only [suppliedCtxs, if_pos hs, bind, Except.bind]
      rw [pickCtx_ok]
      simp only [List.singleton_append, List.mem_cons, hocc, Option.some.injEq]
      constructor
      · rintro ⟨h1, h2, h3⟩
        refine ⟨h3, ?_, ?_⟩
        · rcases h1 with h | h
          · exact Or.inl h.symm
          · exact Or.inr h
        · rintro c' (h | h)
          · exact h2 c' (Or.inl h.symm)
          · exact h2 c' (Or.inr h)
      · rintro ⟨h1, h2, h3⟩
        refine ⟨?_, ?_, h1⟩
        · rcases h2 with h | h
          · exact Or.inl h.symm
          · exact Or.inr h
        · rintro c' (h | h)
          · exact h3 c' (Or.inl h.symm)
          · exact h3 c' (Or.inr h)
    · simp only [suppliedCtxs, if_neg hs, bind, Except.bind]
      constructor
      · intro h; cases h
      · rintro ⟨h1, _, h3⟩
        rw [← h3 s (Or.inl rfl)] at h1
        exact absurd h1 hs

/-- **C65.**  Contexts that disagree are reported as such: with acceptable supplied context,
`ValueError` is raised exactly when two different contexts are present. -/
theorem C65_context_disagree (supplied : Option Ctx) (args : List CArg)
    (hs : ∀ c, supplied = some c → c.cl = true) :
    findCtx supplied args = .error .valueError ↔
      ∃ c c', c ≠ c' ∧ (supplied = some c ∨ ∃ a ∈ args, Spec.Occurs c a)
        ∧ (supplied = some c' ∨ ∃ a ∈ args, Spec.Occurs c' a) := by
  have hocc : ∀ c', c' ∈ ctxsList args ↔ ∃ a ∈ args, Spec.Occurs c' a := by
    intro c'
    rw [mem_ctxsList]
    exact ⟨fun ⟨a, h, h'⟩ => ⟨a, h, occurs_of_mem c' a h'⟩,
      fun ⟨a, h, h'⟩ => ⟨a, h, mem_of_occurs c' a h'⟩⟩
  have key : ∀ l : List Ctx, pickCtx l = .error .valueError ↔
      ∃ c c', c ≠ c' ∧ c ∈ l ∧ c' ∈ l := by
    intro l
    cases l with
    | nil => simp [pickCtx]
    | cons a l =>
      rw [pickCtx]
      by_cases h : l.all (fun d => decide (d = a)) = true
      · rw [if_pos h]
        have h' : ∀ d ∈ a :: l, d = a := by simpa using h
        constructor
        · intro he
          by_cases hc : a.cl = true
          · rw [if_pos hc] at he; cases he
          · rw [if_neg hc] at he; cases he
        · rintro ⟨c, c', hne, hc, hc'⟩
          exact absurd ((h' c hc).trans (h' c' hc').symm) hne
      · rw [if_neg h]
        constructor
        · intro _
          simp only [List.all_eq_true, decide_eq_true_eq, not_forall] at h
          obtain ⟨b, hb, hne⟩ := h
          exact ⟨b, a, hne, List.mem_cons_of_mem _ hb, List.mem_cons_self⟩
        · intro _; rfl
  unfold findCtx
  cases supplied with
  | none =>
    simp only [suppliedCtxs, bind, Except.bind, List.nil_append]
    rw [key]
    simp only [hocc, reduceCtorEq, false_or]
  | some s =>
    simp only [suppliedCtxs, if_pos (hs s rfl), bind, Except.bind]
    rw [key]
    simp only [List.singleton_append, List.mem_cons, hocc, Option.some.injEq]
    constructor
    · rintro ⟨c, c', hne, h1, h2⟩
      exact ⟨c, c', hne, h1.imp Eq.symm id, h2.imp Eq.symm id⟩
    · rintro ⟨c, c', hne, h1, h2⟩
      exact ⟨c, c', hne, h1.imp Eq.symm id, h2.imp Eq.symm id⟩

/-- two fields nested in object arrays, with different contexts -/
example : findCtx none [.obj [.dof (some ⟨1, true⟩), .obj [.dof (some ⟨2, true⟩)]]]
    = .error .valueError := by decide +kernel

example : findCtx (some ⟨1, true⟩) [.other, .obj [.dof none, .dof (some ⟨1, true⟩)]]
    = .ok ⟨1, true⟩ := by decide +kernel

/-! ## Integrals -/

/-- **C65.**  `integral` is the quadrature sum over all nodes of all element groups: weight
times area element times value. -/
theorem C65_integral (d : Discr) (c : Ctx) (hc : c.cl = true) (x : Dof) :
    integral d (.dof (some c) x) = .ok (∑ g ∈ range d.groups, ∑ i ∈ range (d.nodes g),
      (d.wt g i : ℂ) * d.area g i * x g i) := by
  have h : findCtx none [(Val.dof (some c) x).carg] = .ok c := by
    rw [C65_context]
    refine ⟨hc, Or.inr ⟨_, List.mem_singleton.2 rfl, .dof⟩, ?_⟩
    rintro c' (h | ⟨a, ha, ho⟩)
    · cases h
    · rw [List.mem_singleton] at ha
      subst ha
      cases ho
      rfl
  unfold integral
  rw [h]
  simp only [bind, Except.bind, pure, Except.pure]
  congr 1
  unfold integralOf nodeSum
  refine sum_congr rfl fun g _ => sum_congr rfl fun i _ => ?_
  simp only [Val.at]
  ring

/-- **C65.**  A number has no array context: its integral cannot be computed this way. -/
theorem C65_integral_number (d : Discr) (z : ℂ) :
    integral d (.num z) = .error .typeError := rfl

/-- **C65.**  Integrals are linear. -/
theorem C65_integral_linear (d : Discr) (a b : ℂ) (f h : Nat → Nat → ℂ) :
    integralOf d (fun g i => a * f g i + b * h g i)
      = a * integralOf d f + b * integralOf d h := by
  unfold integralOf nodeSum
  simp only [mul_sum, ← sum_add_distrib]
  exact sum_congr rfl fun g _ => sum_congr rfl fun i _ => by ring

/-- **C65.**  The mean of a constant is that constant, and subtracting the mean leaves a
field whose integral vanishes, unless the area is zero. -/
theorem C65_mean (d : Discr) (ha : areaOf d ≠ 0) :
    (∀ z, meanOf d (fun _ _ => z) = z)
    ∧ ∀ f, integralOf d (fun g i => f g i - meanOf d f) = 0 := by
  have hc : ∀ z, integralOf d (fun _ _ => z) = z * areaOf d := by
    intro z
    have := C65_integral_linear d z 0 (fun _ _ => 1) (fun _ _ => 1)
    simpa [areaOf] using this
  constructor
  · intro z
    unfold meanOf
    rw [hc]
    field_simp
  · intro f
    have := C65_integral_linear d 1 (-1) f (fun _ _ => meanOf d f)
    simp only [one_mul, neg_mul, ← sub_eq_add_neg] at this
    rw [this, hc]
    unfold meanOf
    field_simp
    ring

/-- **C65.**  The mean is the weighted average: it lies between bounds of a real field when
all weights are positive and there is a node. -/
theorem C65_mean_bounds (d : Discr) (hp : Spec.Positive d) (f : Nat → Nat → ℝ) (lo up : ℝ)
    (hn : ∃ g i, Spec.Node d g i)
    (hb : ∀ g i, Spec.Node d g i → lo ≤ f g i ∧ f g i ≤ up) :
    ∃ m : ℝ, meanOf d (fun g i => (f g i : ℂ)) = m ∧ lo ≤ m ∧ m ≤ up := by
  let W : Nat → Nat → ℝ := fun g i => d.area g i * d.wt g i
  have hnode : ∀ g ∈ range d.groups, ∀ i ∈ range (d.nodes g), Spec.Node d g i :=
    fun g hg i hi => ⟨mem_range.1 hg, mem_range.1 hi⟩
  have hA : 0 < nodeSum d W := by
    obtain ⟨g, i, hg, hi⟩ := hn
    unfold nodeSum
    have hi0 : ∀ g ∈ range d.groups, 0 ≤ ∑ i ∈ range (d.nodes g), W g i :=
      fun g hg => sum_nonneg fun i hi => (hp g i (hnode g hg i hi)).le
    refine lt_of_lt_of_le ?_ (single_le_sum hi0 (mem_range.2 hg))
    refine lt_of_lt_of_le (hp g i ⟨hg, hi⟩) ?_
    exact single_le_sum (f := fun i => W g i)
      (fun j hj => (hp g j (hnode g (mem_range.2 hg) j hj)).le) (mem_range.2 hi)
  have e1 : areaOf d = ((nodeSum d W : ℝ) : ℂ) := by
    simp only [areaOf, integralOf, nodeSum, W, mul_one]
    push_cast
    rfl
  have e2 : integralOf d (fun g i => (f g i : ℂ))
      = ((nodeSum d (fun g i => W g i * f g i) : ℝ) : ℂ) := by
    simp only [integralOf, nodeSum, W]
    push_cast
    rfl
  refine ⟨nodeSum d (fun g i => W g i * f g i) / nodeSum d W, ?_, ?_, ?_⟩
  · unfold meanOf
    rw [e1, e2]
    push_cast
    rfl
  · rw [le_div_iff₀ hA]
    unfold nodeSum
    simp only [mul_sum]
    refine sum_le_sum fun g hg => sum_le_sum fun i hi => ?_
    have := mul_le_mul_of_nonneg_left (hb g i (hnode g hg i hi)).1 (hp g i (hnode g hg i hi)).le
    rw [mul_comm lo]
    exact this
  · rw [div_le_iff₀ hA]
    unfold nodeSum
    simp only [mul_sum]
    refine sum_le_sum fun g hg => sum_le_sum fun i hi => ?_
    have := mul_le_mul_of_nonneg_left (hb g i (hnode g hg i hi)).2 (hp g i (hnode g hg i hi)).le
    rw [mul_comm up]
    exact this

/-! ## The 2-norm -/

theorem findCtx_field (c : Ctx) (hc : c.cl = true) (a : Arg) (xs : List Dof)
    (h : Spec.IsField c a xs) :
    ∃ y, prepare a = .ok y ∧ findCtx none [prepCArg y] = .ok c
      ∧ (∀ g i, norm2Integrand y.1 y.2 g i = Spec.sq xs g i) := by
  have hconj : ∀ (xs : List Dof) g i,
      (((xs.map (Val.dof (some c))).map
        (fun v => starRingEnd ℂ (v.at g i) * v.at g i)).sum).re = Spec.sq xs g i := by
    intro xs g i
    unfold Spec.sq
    induction xs with
    | nil => simp
    | cons x xs ih =>
      simp only [List.map_cons, List.sum_cons, Complex.add_re]
      rw [ih]
      congr 1
      simp only [Val.at]
      rw [Complex.conj_mul']
      norm_cast
  cases h with
  | scal x =>
    refine ⟨_, rfl, ?_, ?_⟩
    · rw [C65_context]
      refine ⟨hc, Or.inr ⟨_, List.mem_singleton.2 rfl, .dof⟩, ?_⟩
      rintro c' (h | ⟨a, ha, ho⟩)
      · cases h
      · rw [List.mem_singleton] at ha
        subst ha
        cases ho
        rfl
    · intro g i
      simp [norm2Integrand, Spec.sq, Val.at]
  | vec xs hne =>
    refine ⟨_, rfl, ?_, ?_⟩
    · rw [C65_context]
      obtain ⟨x, xs', rfl⟩ := List.exists_cons_of_ne_nil hne
      refine ⟨hc, Or.inr ⟨_, List.mem_singleton.2 rfl,
        .obj _ (.dof (some c)) (by simp [Val.carg]) .dof⟩, ?_⟩
      rintro c' (h | ⟨a, ha, ho⟩)
      · cases h
      · rw [List.mem_singleton] at ha
        subst ha
        cases ho with
        | obj _ b hb hob =>
          simp only [List.map_map, List.mem_map] at hb
          obtain ⟨y, _, rfl⟩ := hb
          simp only [Function.comp, Val.carg] at hob
          cases hob
          rfl
    · intro g i
      exact hconj xs g i

/-- **C65.**  The 2-norm of a field, or of a vector of fields, is the square root of the
quadrature sum of its squared pointwise length. -/
theorem C65_norm2 (d : Discr) (c : Ctx) (hc : c.cl = true) (a : Arg) (xs : List Dof)
    (h : Spec.IsField c a xs) :
    norm d a .two = .ok (Real.sqrt (∑ g ∈ range d.groups, ∑ i ∈ range (d.nodes g),
      d.area g i * d.wt g i * Spec.sq xs g i)) := by
  obtain ⟨y, h1, h2, h3⟩ := findCtx_field c hc a xs h
  unfold norm
  rw [h1]
  simp only [bind, Except.bind, pure, Except.pure]
  rw [h2]
  simp only [integralReal, nodeSum, h3]

/-- the triangle inequality for square roots, in the form that is kept by sums -/
def Tri (p a b : ℝ) : Prop := 0 ≤ a ∧ 0 ≤ b ∧ p ≤ a + b + 2 * (Real.sqrt a * Real.sqrt b)

theorem Tri.zero : Tri 0 0 0 := ⟨le_rfl, le_rfl, by simp⟩

theorem Tri.add {p a b q c d : ℝ} (h1 : Tri p a b) (h2 : Tri q c d) :
    Tri (p + q) (a + c) (b + d) := by
  obtain ⟨ha, hb, h1⟩ := h1
  obtain ⟨hc, hd, h2⟩ := h2
  refine ⟨add_nonneg ha hc, add_nonneg hb hd, ?_⟩
  have key : Real.sqrt a * Real.sqrt b + Real.sqrt c * Real.sqrt d
      ≤ Real.sqrt (a + c) * Real.sqrt (b + d) := by
    rw [← Real.sqrt_mul (add_nonneg ha hc)]
    apply Real.le_sqrt_of_sq_le
    have e1 := Real.mul_self_sqrt ha
    have e2 := Real.mul_self_sqrt hb
    have e3 := Real.mul_self_sqrt hc
    have e4 := Real.mul_self_sqrt hd
    generalize Real.sqrt a = A at *
    generalize Real.sqrt b = B at *
    generalize Real.sqrt c = C at *
    generalize Real.sqrt d = D at *
    subst e1 e2 e3 e4
    nlinarith [sq_nonneg (A * D - B * C)]
  linarith

theorem Tri.sum {ι : Type} (s : Finset ι) (p a b : ι → ℝ)
    (h : ∀ i ∈ s, Tri (p i) (a i) (b i)) :
    Tri (∑ i ∈ s, p i) (∑ i ∈ s, a i) (∑ i ∈ s, b i) := by
  classical
  induction s using Finset.induction_on with
  | empty => simpa using Tri.zero
  | insert i s hi ih =>
    rw [sum_insert hi, sum_insert hi, sum_insert hi]
    exact (h i (mem_insert_self i s)).add (ih fun j hj => h j (mem_insert_of_mem hj))

theorem Tri.smul {p a b w : ℝ} (hw : 0 ≤ w) (h : Tri p a b) : Tri (w * p) (w * a) (w * b) := by
  obtain ⟨ha, hb, h⟩ := h
  refine ⟨mul_nonneg hw ha, mul_nonneg hw hb, ?_⟩
  rw [Real.sqrt_mul hw, Real.sqrt_mul hw]
  have e := Real.mul_self_sqrt hw
  have := mul_le_mul_of_nonneg_left h hw
  have e' : Real.sqrt w * Real.sqrt a * (Real.sqrt w * Real.sqrt b)
      = w * (Real.sqrt a * Real.sqrt b) := by
    rw [mul_mul_mul_comm, e]
  rw [e']
  linarith

theorem Tri.norm (u v : ℂ) : Tri (‖u + v‖ ^ 2) (‖u‖ ^ 2) (‖v‖ ^ 2) := by
  refine ⟨sq_nonneg _, sq_nonneg _, ?_⟩
  rw [Real.sqrt_sq (norm_nonneg _), Real.sqrt_sq (norm_nonneg _)]
  have := norm_add_le u v
  nlinarith [norm_nonneg (u + v), norm_nonneg u, norm_nonneg v]

theorem Tri.sqrt {p a b : ℝ} (h : Tri p a b) : Real.sqrt p ≤ Real.sqrt a + Real.sqrt b := by
  obtain ⟨ha, hb, h⟩ := h
  apply Real.sqrt_le_iff.2
  refine ⟨add_nonneg (Real.sqrt_nonneg _) (Real.sqrt_nonneg _), ?_⟩
  have e1 := Real.mul_self_sqrt ha
  have e2 := Real.mul_self_sqrt hb
  nlinarith

theorem Tri.sq (xs ys : List Dof) (h : xs.length = ys.length) (g i : Nat) :
    Tri (Spec.sq (List.zipWith (fun x y => fun g i => x g i + y g i) xs ys) g i)
      (Spec.sq xs g i) (Spec.sq ys g i) := by
  unfold Spec.sq
  induction xs generalizing ys with
  | nil => cases ys with
    | nil => simpa using Tri.zero
    | cons _ _ => simp at h
  | cons x xs ih => cases ys with
    | nil => simp at h
    | cons y ys =>
      simp only [List.zipWith_cons_cons, List.map_cons, List.sum_cons]
      exact (Tri.norm _ _).add (ih ys (by simpa using h))

/-- **C65.**  Triangle inequality of the 2-norm, when no weight is negative. -/
theorem C65_norm2_triangle (d : Discr) (c : Ctx) (hc : c.cl = true) (a b s : Arg)
    (xs ys : List Dof) (hl : xs.length = ys.length)
    (ha : Spec.IsField c a xs) (hb : Spec.IsField c b ys)
    (hs : Spec.IsField c s (List.zipWith (fun x y => fun g i => x g i + y g i) xs ys))
    (hw : ∀ g i, Spec.Node d g i → 0 ≤ d.area g i * d.wt g i) :
    ∃ na nb ns, norm d a .two = .ok na ∧ norm d b .two = .ok nb ∧ norm d s .two = .ok ns
      ∧ ns ≤ na + nb := by
  refine ⟨_, _, _, C65_norm2 d c hc a xs ha, C65_norm2 d c hc b ys hb, C65_norm2 d c hc s _ hs,
    Tri.sqrt ?_⟩
  exact Tri.sum _ _ _ _ fun g hg => Tri.sum _ _ _ _ fun i hi =>
    (Tri.sq xs ys hl g i).smul (hw g i ⟨mem_range.1 hg, mem_range.1 hi⟩)

/-- **C65.**  Multiplying a field by a number multiplies its 2-norm by the absolute value. -/
theorem C65_norm2_scale (d : Discr) (c : Ctx) (hc : c.cl = true) (a b : Arg) (xs : List Dof)
    (z : ℂ) (ha : Spec.IsField c a xs)
    (hb : Spec.IsField c b (xs.map (fun x => fun g i => z * x g i))) :
    ∃ na, norm d a .two = .ok na ∧ norm d b .two = .ok (‖z‖ * na) := by
  refine ⟨_, C65_norm2 d c hc a xs ha, ?_⟩
  rw [C65_norm2 d c hc b _ hb]
  congr 1
  have hsq : ∀ g i, Spec.sq (xs.map (fun x => fun g i => z * x g i)) g i
      = ‖z‖ ^ 2 * Spec.sq xs g i := by
    intro g i
    unfold Spec.sq
    induction xs with
    | nil => simp
    | cons x xs ih =>
      have ih' : (List.map (fun x => ‖x g i‖ ^ 2)
          (List.map (fun x => fun g i => z * x g i) xs)).sum
          = ‖z‖ ^ 2 * (List.map (fun x : Dof => ‖x g i‖ ^ 2) xs).sum := by
        clear ih ha hb
        induction xs with
        | nil => simp
        | cons y ys ih =>
          simp only [List.map_cons, List.sum_cons, ih, norm_mul]
          ring
      simp only [List.map_cons, List.sum_cons, ih', norm_mul]
      ring
  have : ∀ Q : ℝ, ‖z‖ * Real.sqrt Q = Real.sqrt (‖z‖ ^ 2 * Q) := by
    intro Q
    rw [Real.sqrt_mul (sq_nonneg _), Real.sqrt_sq (norm_nonneg _)]
  rw [this]
  congr 1
  simp only [hsq, mul_sum]
  exact sum_congr rfl fun g _ => sum_congr rfl fun i _ => by ring

theorem sq_nonneg' (xs : List Dof) (g i : Nat) : 0 ≤ Spec.sq xs g i :=
  List.sum_nonneg (by
    intro y hy
    obtain ⟨x, _, rfl⟩ := List.mem_map.1 hy
    exact sq_nonneg _)

theorem sq_eq_zero' (xs : List Dof) (g i : Nat) :
    Spec.sq xs g i = 0 ↔ ∀ x ∈ xs, x g i = 0 := by
  induction xs with
  | nil => simp [Spec.sq]
  | cons x xs ih =>
    have h : Spec.sq (x :: xs) g i = ‖x g i‖ ^ 2 + Spec.sq xs g i := by simp [Spec.sq]
    rw [h, add_eq_zero_iff_of_nonneg (sq_nonneg _) (sq_nonneg' xs g i), ih]
    simp

/-- **C65.**  With positive weights, exactly the fields that vanish at every node have
2-norm zero; no norm is negative. -/
theorem C65_norm2_definite (d : Discr) (c : Ctx) (hc : c.cl = true) (a : Arg) (xs : List Dof)
    (ha : Spec.IsField c a xs) (hp : Spec.Positive d) :
    ∃ n, norm d a .two = .ok n ∧ 0 ≤ n
      ∧ (n = 0 ↔ ∀ x ∈ xs, ∀ g i, Spec.Node d g i → x g i = 0) := by
  refine ⟨_, C65_norm2 d c hc a xs ha, Real.sqrt_nonneg _, ?_⟩
  have h1 : ∀ g ∈ range d.groups, ∀ i ∈ range (d.nodes g),
      0 ≤ d.area g i * d.wt g i * Spec.sq xs g i := fun g hg i hi =>
    mul_nonneg (hp g i ⟨mem_range.1 hg, mem_range.1 hi⟩).le (sq_nonneg' xs g i)
  rw [Real.sqrt_eq_zero (sum_nonneg fun g hg => sum_nonneg (h1 g hg)),
    sum_eq_zero_iff_of_nonneg (fun g hg => sum_nonneg (h1 g hg))]
  constructor
  · intro h x hx g i hn
    have h2 := h g (mem_range.2 hn.1)
    rw [sum_eq_zero_iff_of_nonneg (h1 g (mem_range.2 hn.1))] at h2
    have h3 := h2 i (mem_range.2 hn.2)
    rcases mul_eq_zero.1 h3 with h4 | h4
    · exact absurd h4 (hp g i hn).ne'
    · exact (sq_eq_zero' xs g i).1 h4 x hx
  · intro h g hg
    refine sum_eq_zero fun i hi => ?_
    rw [(sq_eq_zero' xs g i).2 fun x hx => h x hx g i ⟨mem_range.1 hg, mem_range.1 hi⟩,
      mul_zero]

/-! ## The maximum norm -/

theorem mem_nodeList (d : Discr) (g i : Nat) : (g, i) ∈ nodeList d ↔ Spec.Node d g i := by
  unfold nodeList Spec.Node
  simp

theorem foldl_max (a : ℝ) (l : List ℝ) :
    (∀ x ∈ a :: l, x ≤ l.foldl max a) ∧ l.foldl max a ∈ a :: l := by
  induction l generalizing a with
  | nil => simp
  | cons b l ih =>
    obtain ⟨h1, h2⟩ := ih (max a b)
    rw [List.foldl_cons]
    constructor
    · intro x hx
      have hm := h1 (max a b) List.mem_cons_self
      rcases List.mem_cons.1 hx with rfl | hx
      · exact le_trans (le_max_left _ _) hm
      · rcases List.mem_cons.1 hx with rfl | hx
        · exact le_trans (le_max_right _ _) hm
        · exact h1 x (List.mem_cons_of_mem _ hx)
    · rcases List.mem_cons.1 h2 with h | h
      · rw [h]
        rcases max_choice a b with h | h <;> rw [h] <;> simp
      · exact List.mem_cons_of_mem _ (List.mem_cons_of_mem _ h)

theorem pyMax_fold (a : ℝ) (l : List ℝ) :
    l.foldl (fun b x => if decide (x > b) then x else b) a = l.foldl max a := by
  congr 1
  funext b x
  by_cases h : b < x
  · simp [h, max_eq_right h.le]
  · simp [h, max_eq_left (not_lt.1 h)]

theorem nodeMaxAbs_spec (d : Discr) (o : Option Ctx) (x : Dof) (hn : ∃ g i, Spec.Node d g i) :
    ∃ m, nodeMaxAbs d (.dof o x) = .ok m ∧ (∀ g i, Spec.Node d g i → ‖x g i‖ ≤ m)
      ∧ ∃ g i, Spec.Node d g i ∧ ‖x g i‖ = m := by
  obtain ⟨g0, i0, hn⟩ := hn
  simp only [nodeMaxAbs]
  cases hl : (nodeList d).map (fun n => ‖x n.1 n.2‖) with
  | nil =>
    have := (mem_nodeList d g0 i0).2 hn
    rw [List.map_eq_nil_iff] at hl
    rw [hl] at this
    cases this
  | cons a l =>
    obtain ⟨h1, h2⟩ := foldl_max a l
    rw [← hl] at h1 h2
    refine ⟨_, rfl, ?_, ?_⟩
    · intro g i h
      exact h1 _ (List.mem_map.2 ⟨(g, i), (mem_nodeList d g i).2 h, rfl⟩)
    · obtain ⟨⟨g, i⟩, h, he⟩ := List.mem_map.1 h2
      exact ⟨g, i, (mem_nodeList d g i).1 h, he⟩

theorem nodeMaxAbs_list (d : Discr) (c : Ctx) (hn : ∃ g i, Spec.Node d g i) (xs : List Dof) :
    ∃ ms, (xs.map (Val.dof (some c))).mapM (nodeMaxAbs d) = .ok ms
      ∧ ms.length = xs.length
      ∧ (∀ x ∈ xs, ∀ g i, Spec.Node d g i → ∃ m ∈ ms, ‖x g i‖ ≤ m)
      ∧ ∀ m ∈ ms, ∃ x ∈ xs, ∃ g i, Spec.Node d g i ∧ ‖x g i‖ = m := by
  induction xs with
  | nil => exact ⟨[], by simp [pure, Except.pure], rfl, by simp, by simp⟩
  | cons x xs ih =>
    obtain ⟨ms, h1, h2, h3, h4⟩ := ih
    obtain ⟨m, k1, k2, g, i, k3, k4⟩ := nodeMaxAbs_spec d (some c) x hn
    refine ⟨m :: ms, ?_, by simp [h2], ?_, ?_⟩
    · rw [List.map_cons, List.mapM_cons, k1, h1]
      rfl
    · intro y hy g i hgi
      rcases List.mem_cons.1 hy with rfl | hy
      · exact ⟨m, List.mem_cons_self, k2 g i hgi⟩
      · obtain ⟨m', hm', hle⟩ := h3 y hy g i hgi
        exact ⟨m', List.mem_cons_of_mem _ hm', hle⟩
    · intro m' hm'
      rcases List.mem_cons.1 hm' with rfl | hm'
      · exact ⟨x, List.mem_cons_self, g, i, k3, k4⟩
      · obtain ⟨y, hy, r⟩ := h4 m' hm'
        exact ⟨y, List.mem_cons_of_mem _ hy, r⟩

/-- **C65.**  The maximum norm of a field, or of a vector of fields, is the largest absolute
value of any component at any node.  Missing: vectors with components that are plain numbers
(`C65_inf_multivector_refuted`). -/
theorem C65_norm_inf_partial (d : Discr) (c : Ctx) (hc : c.cl = true) (a : Arg)
    (xs : List Dof) (h : Spec.IsField c a xs) (hn : ∃ g i, Spec.Node d g i) :
    ∃ m, norm d a .inf = .ok m ∧ (∀ x ∈ xs, ∀ g i, Spec.Node d g i → ‖x g i‖ ≤ m)
      ∧ ∃ x ∈ xs, ∃ g i, Spec.Node d g i ∧ ‖x g i‖ = m := by
  obtain ⟨y, h1, h2, _⟩ := findCtx_field c hc a xs h
  unfold norm
  rw [h1]
  simp only [bind, Except.bind]
  rw [h2]
  cases h with
  | scal x =>
    cases h1
    obtain ⟨m, k1, k2, k3⟩ := nodeMaxAbs_spec d (some c) x hn
    refine ⟨m, k1, ?_, x, List.mem_singleton.2 rfl, k3⟩
    intro x' hx'
    rw [List.mem_singleton] at hx'
    subst hx'
    exact k2
  | vec xs hne =>
    cases h1
    obtain ⟨ms, k1, k2, k3, k4⟩ := nodeMaxAbs_list d c hn xs
    simp only [normInf, bind, Except.bind]
    rw [k1]
    cases ms with
    | nil => exact absurd (List.length_eq_zero_iff.1 k2.symm) hne
    | cons b l =>
      simp only [pyMax]
      obtain ⟨f1, f2⟩ := foldl_max b l
      rw [pyMax_fold]
      refine ⟨_, rfl, ?_, ?_⟩
      · intro x hx g i hgi
        obtain ⟨m, hm, hle⟩ := k3 x hx g i hgi
        exact le_trans hle (f1 m hm)
      · exact k4 _ f2

/-- **C65.**  Triangle inequality, scaling and definiteness of the maximum norm. -/
theorem C65_norm_inf_laws (d : Discr) (c : Ctx) (hc : c.cl = true) (a b s t : Arg)
    (xs ys : List Dof) (z : ℂ) (hl : xs.length = ys.length)
    (ha : Spec.IsField c a xs) (hb : Spec.IsField c b ys)
    (hs : Spec.IsField c s (List.zipWith (fun x y => fun g i => x g i + y g i) xs ys))
    (ht : Spec.IsField c t (xs.map (fun x => fun g i => z * x g i)))
    (hn : ∃ g i, Spec.Node d g i) :
    ∃ na nb ns nt, norm d a .inf = .ok na ∧ norm d b .inf = .ok nb ∧ norm d s .inf = .ok ns
      ∧ norm d t .inf = .ok nt ∧ ns ≤ na + nb ∧ nt = ‖z‖ * na ∧ 0 ≤ na
      ∧ (na = 0 ↔ ∀ x ∈ xs, ∀ g i, Spec.Node d g i → x g i = 0) := by
  obtain ⟨na, a1, a2, x0, a3, ga, ia, a4, a5⟩ := C65_norm_inf_partial d c hc a xs ha hn
  obtain ⟨nb, b1, b2, b3⟩ := C65_norm_inf_partial d c hc b ys hb hn
  obtain ⟨ns, s1, s2, w, hw, gs, is, s4, s5⟩ := C65_norm_inf_partial d c hc s _ hs hn
  obtain ⟨nt, t1, t2, v, hv, gt, it, t4, t5⟩ := C65_norm_inf_partial d c hc t _ ht hn
  have h0 : 0 ≤ na := a5 ▸ norm_nonneg _
  refine ⟨na, nb, ns, nt, a1, b1, s1, t1, ?_, ?_, h0, ?_⟩
  · rw [← s5]
    obtain ⟨k, hk, rfl⟩ := List.getElem_of_mem hw
    rw [List.length_zipWith] at hk
    have hx : k < xs.length := by omega
    have hy : k < ys.length := by omega
    rw [List.getElem_zipWith]
    exact le_trans (norm_add_le _ _) (add_le_add
      (a2 _ (List.getElem_mem hx) gs is s4) (b2 _ (List.getElem_mem hy) gs is s4))
  · apply le_antisymm
    · rw [← t5]
      obtain ⟨x, hx, rfl⟩ := List.mem_map.1 hv
      simp only [norm_mul]
      exact mul_le_mul_of_nonneg_left (a2 x hx gt it t4) (norm_nonneg _)
    · have := t2 _ (List.mem_map.2 ⟨x0, a3, rfl⟩) ga ia a4
      simp only [norm_mul, a5] at this
      exact this
  · constructor
    · intro h x hx g i hgi
      have := a2 x hx g i hgi
      rw [h] at this
      exact norm_le_zero_iff.1 this
    · intro h
      rw [← a5, h x0 a3 ga ia a4, norm_zero]

/-- **C65.**  Any other order is refused with `ValueError`, for every field. -/
theorem C65_order (d : Discr) (a : Arg) : norm d a .other = .error .valueError := by
  unfold norm
  cases a with
  | scal v => rfl
  | vec vs => rfl
  | mv dim data =>
    simp only [prepare, asVector]
    split <;> rfl

/-! ## Multivectors -/

/-- **C65.**  A multivector is measured like the vector of its axis coefficients (zero where
there is none) in the 2-norm; one with a component of another grade is refused. -/
theorem C65_multivector (d : Discr) (dim : Nat) (data : List (Nat × Val)) (p : Order) :
    ((∀ q ∈ data, ∃ k, k < dim ∧ q.1 = 2 ^ k) →
      ∃ vs, vs.length = dim
        ∧ (∀ k v, k < dim → data.find? (fun q => q.1 == 2 ^ k) = some (2 ^ k, v)
            → vs[k]? = some v)
        ∧ (∀ k, k < dim → (∀ q ∈ data, q.1 ≠ 2 ^ k) → vs[k]? = some (.num 0))
        ∧ norm d (.mv dim data) p = norm d (.vec vs) p)
    ∧ ((∃ q ∈ data, ∀ k, k < dim → q.1 ≠ 2 ^ k) →
        norm d (.mv dim data) p = .error .valueError) := by
  constructor
  · intro h
    have hall : data.all (fun p => (List.range dim).any (fun k => p.1 == 2 ^ k)) = true := by
      simp only [List.all_eq_true, List.any_eq_true, List.mem_range, beq_iff_eq]
      exact h
    refine ⟨(List.range dim).map (fun k =>
      match data.find? (fun p => p.1 == 2 ^ k) with
      | some p => p.2
      | none => .num 0), by simp, ?_, ?_, ?_⟩
    · intro k v hk hf
      rw [List.getElem?_map, List.getElem?_range hk]
      simp only [Option.map_some, hf]
    · intro k hk hf
      rw [List.getElem?_map, List.getElem?_range hk]
      have : data.find? (fun q => q.1 == 2 ^ k) = none := by
        rw [List.find?_eq_none]
        intro q hq
        simpa using hf q hq
      simp only [Option.map_some, this]
    · unfold norm
      simp only [prepare, asVector, if_pos hall]
      rfl
  · rintro ⟨q, hq, hk⟩
    have hall : ¬ data.all (fun p => (List.range dim).any (fun k => p.1 == 2 ^ k)) = true := by
      simp only [List.all_eq_true, List.any_eq_true, List.mem_range, beq_iff_eq]
      intro h
      obtain ⟨k, h1, h2⟩ := h q hq
      exact hk k h1 h2
    unfold norm
    simp only [prepare, asVector, if_neg hall]
    rfl

/-- **C65 fails for multivectors without one of the components**: the missing component is
the number 0, over which no node maximum is taken, so the maximum norm raises
`AssertionError`, although the 2-norm of the same field exists. -/
theorem C65_inf_multivector_refuted (d : Discr) (x : Dof) (c : Ctx) (hc : c.cl = true)
    (hn : ∃ g i, Spec.Node d g i) :
    norm d (.mv 2 [(1, .dof (some c) x)]) .inf = .error .assertionError
    ∧ ∃ n, norm d (.mv 2 [(1, .dof (some c) x)]) .two = .ok n := by
  have hv : asVector 2 [(1, .dof (some c) x)] = .ok [.dof (some c) x, .num 0] := by
    simp only [asVector]
    rw [if_pos (by simp [List.range_succ])]
    rfl
  have hf : findCtx none [prepCArg (some [.dof (some c) x, .num 0], .num 0)] = .ok c := by
    simp [findCtx, suppliedCtxs, prepCArg, Val.carg, ctxsList, CArg.ctxs, pickCtx, hc, bind,
      Except.bind]
  unfold norm
  simp only [prepare, hv, bind, Except.bind, pure, Except.pure]
  simp only [hf]
  refine ⟨?_, _, rfl⟩
  obtain ⟨m, k1, _⟩ := nodeMaxAbs_spec d (some c) x hn
  simp only [normInf, List.mapM_cons, k1, bind, Except.bind]
  rfl

/-- Python's `max` over components is no help against NaN: whether it is noticed depends on
the order of the components (numbers with `none` for NaN, on which every comparison fails). -/
theorem C65_nan_order :
    let gt : Option Nat → Option Nat → Bool := fun x y =>
      match x, y with | some a, some b => decide (a > b) | _, _ => false
    pyMax gt [some 1, none] = .ok (some 1) ∧ pyMax gt [none, some 1] = .ok none := ⟨rfl, rfl⟩

/-! ## The hypotheses can be met -/

/-- two groups with two and one nodes, weights 1/2, area elements 2 -/
noncomputable def exD : Discr := ⟨2, fun g => 2 - g, fun _ _ => 2, fun _ _ => 1 / 2⟩

example : Spec.Positive exD := fun _ _ _ => by norm_num [exD]

example : ∃ g i, Spec.Node exD g i := ⟨1, 0, by decide, by decide⟩

example : areaOf exD ≠ 0 := by
  simp only [areaOf, integralOf, nodeSum, exD, sum_range_succ, sum_range_zero]
  norm_num

example : norm exD (.scal (.dof (some ⟨0, true⟩) (fun g i => g + i))) .two
    = .ok (Real.sqrt 2) := by
  rw [C65_norm2 exD ⟨0, true⟩ rfl _ _ (.scal _)]
  congr 2
  simp only [exD, Spec.sq, sum_range_succ, sum_range_zero]
  norm_num

end Verif.Norms
