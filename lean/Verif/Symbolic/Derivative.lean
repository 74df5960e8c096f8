import Verif.Symbolic.QBXPre
import Mathlib.Algebra.Ring.Basic
import Mathlib.Algebra.BigOperators.Group.List.Basic
import Mathlib.Tactic.Ring

/-!
# Symbolic target derivatives (C16)

Model of `_IsSptiallyVaryingMapper` and `DerivativeTaker`
(`pytential/symbolic/mappers.py:608-687`).  Simplification: `flattened_sum` and
`pytools.product` build a sum/product; their on-the-fly simplifications (dropping zeros
and ones, flattening) are not modelled.
-/

namespace Verif.Sym

open Verif.DofDesc

/-! ## Model -/

mutual
/-- `_IsSptiallyVaryingMapper` (`mappers.py:608-629` on `CombineMapper`, `220-262`):
constants and `SpatialConstant`s do not vary, variables and layer potentials do, nodes
with operands vary if an operand does; leaves for which `CombineMapper` has no method are
unsupported. -/
def varying : SE → Except Err Bool
  | .node h cs => match h with
    | .num _ => .ok false
    | .spatialConst _ => .ok false
    | .var _ => .ok true
    | .intg _ => .ok true
    | .prop _ _ => .error .noMethod
    | .err _ => .error .noMethod
    | _ => varyingAny cs
/-- `any(self.rec(c) for c in children)` -/
def varyingAny : List SE → Except Err Bool
  | [] => .ok false
  | c :: l => match varying c with
    | .error x => .error x
    | .ok true => .ok true
    | .ok false => varyingAny l
end

/-- the loop of `map_product` (`mappers.py:653-660`) that separates constant from
non-constant factors; here every factor comes with the result of differentiating it -/
def splitFactors : List (SE × Except Err SE) → Except Err (List SE × List (SE × Except Err SE))
  | [] => .ok ([], [])
  | (c, d) :: l => match varying c with
    | .error x => .error x
    | .ok b => match splitFactors l with
      | .error x => .error x
      | .ok (k, n) => if b then .ok (k, (c, d) :: n) else .ok (c :: k, n)

/-- rest of `map_product` (`mappers.py:653-677`): more than one non-constant factor is an
error; without any, the derivative of the constant `1` is used -/
def finishProduct : List SE × List (SE × Except Err SE) → Except Err SE
  | (k, []) => .ok (.node .prod (k ++ [.node (.num 0) []]))
  | (k, [(_, d)]) => match d with
    | .error x => .error x
    | .ok d' => .ok (.node .prod (k ++ [d']))
  | (_, _ :: _ :: _) => .error .product

/-- all results, or the first error -/
def allOk : List (Except Err SE) → Except Err (List SE)
  | [] => .ok []
  | .error x :: _ => .error x
  | .ok a :: l => match allOk l with
    | .error x => .error x
    | .ok m => .ok (a :: m)

mutual
/-- `DerivativeTaker(axis).rec` (`mappers.py:636-687`); node types without a method are
unsupported. -/
def takeD (axis : Nat) : SE → Except Err SE
  | .node h cs => match h with
    | .num _ => .ok (.node (.num 0) [])
    | .sum => match allOk (takeDs axis cs) with
      | .error x => .error x
      | .ok cs' => .ok (.node .sum cs')
    | .prod => match splitFactors (cs.zip (takeDs axis cs)) with
      | .error x => .error x
      | .ok p => finishProduct p
    | .intg g => .ok (.node (.intg { g with tk := .axisDeriv axis g.tk }) cs)
    | _ => .error .noMethod
/-- derivatives of all children -/
def takeDs (axis : Nat) : List SE → List (Except Err SE)
  | [] => []
  | c :: l => takeD axis c :: takeDs axis l
end

/-! ## Specification -/

mutual
/-- value of an expression for an interpretation `I` of all operations -/
def eval {V : Type} (I : Head → List V → V) : SE → V
  | .node h cs => I h (evalL I cs)
/-- values of a list -/
def evalL {V : Type} (I : Head → List V → V) : List SE → List V
  | [] => []
  | c :: l => eval I c :: evalL I l
end

/-- An interpretation in a ring of functions of the target point: sums and products are
sums and products, `D` is additive, kills `1`, and is linear over a set `K` of spatially
constant functions that contains numbers and `SpatialConstant`s and is closed under all
operations other than layer potentials; the potential with a differentiated target kernel
is the derivative of the potential. -/
structure Interp {V : Type} [CommRing V] (I : Head → List V → V) (D : V → V) (K : V → Prop)
    (axis : Nat) : Prop where
  sum : ∀ l, I .sum l = l.sum
  prod : ∀ l, I .prod l = l.prod
  zero : I (.num 0) [] = 0
  num : ∀ q, ∀ l, K (I (.num q) l)
  spatial : ∀ x, ∀ l, K (I (.spatialConst x) l)
  closed : ∀ h l, isIntG h = false → (∀ v ∈ l, K v) → K (I h l)
  add : ∀ a b, D (a + b) = D a + D b
  one : D 1 = 0
  lin : ∀ k a, K k → D (k * a) = k * D a
  deriv : ∀ g l, I (.intg { g with tk := .axisDeriv axis g.tk }) l = D (I (.intg g) l)

/-- operations on operands -/
def PlainHead : Head → Prop
  | .num _ | .spatialConst _ | .err _ | .var _ | .prop _ _ | .intg _ => False
  | _ => True

/-- does the value of an expression depend on the point?  (Independent of the model's
`varying`.)  Numbers and `SpatialConstant`s do not, variables and layer potentials do, and
an operation (not a discretization property) does if one of its operands does. -/
inductive Kind : SE → Bool → Prop
  | num (q cs) : Kind (.node (.num q) cs) false
  | spatialConst (x cs) : Kind (.node (.spatialConst x) cs) false
  | var (x cs) : Kind (.node (.var x) cs) true
  | intg (g cs) : Kind (.node (.intg g) cs) true
  | op (h : Head) (cs : List SE) (f : SE → Bool) : PlainHead h → (∀ c ∈ cs, Kind c (f c)) →
      Kind (.node h cs) (cs.any f)

/-! ## Proofs -/

theorem varyingAny_any (f : SE → Bool) : ∀ cs : List SE, (∀ c ∈ cs, varying c = .ok (f c)) →
    varyingAny cs = .ok (cs.any f)
  | [], _ => rfl
  | c :: cs, h => by
    simp only [varyingAny, h c (by simp), List.any_cons]
    cases f c with
    | true => simp
    | false => simpa using varyingAny_any f cs (fun d hd => h d (by simp [hd]))

/-- the mapper decides `Kind` -/
theorem varying_kind {e : SE} {b : Bool} (h : Kind e b) : varying e = .ok b := by
  induction h with
  | num => simp [varying]
  | spatialConst => simp [varying]
  | var => simp [varying]
  | intg => simp [varying]
  | op h cs f hh _ ih =>
    have := varyingAny_any f cs ih
    cases h <;> first | exact hh.elim | simpa only [varying] using this

theorem evalL_eq {V : Type} (I : Head → List V → V) : ∀ l, evalL I l = l.map (eval I)
  | [] => rfl
  | c :: l => by simp [evalL, evalL_eq I l]

theorem takeDs_eq (axis : Nat) : ∀ l, takeDs axis l = l.map (takeD axis)
  | [] => rfl
  | c :: l => by simp [takeDs, takeDs_eq axis l]

section
variable {V : Type} [CommRing V] {I : Head → List V → V} {D : V → V} {K : V → Prop} {axis : Nat}

theorem varying_const (hI : Interp I D K axis) : ∀ e, varying e = .ok false → K (eval I e) := by
  apply SE.ind
  intro h cs ih he
  have hl : ∀ l : List SE, (∀ c ∈ l, c ∈ cs) → varyingAny l = .ok false → ∀ v ∈ evalL I l, K v := by
    intro l
    induction l with
    | nil => intro _ _; simp [evalL]
    | cons c l ihl =>
      intro hs h
      simp only [varyingAny] at h
      split at h
      · cases h
      · cases h
      · rename_i hc
        intro v hv
        simp only [evalL, List.mem_cons] at hv
        rcases hv with rfl | hv
        · exact ih c (hs c (by simp)) hc
        · exact ihl (fun c hc => hs c (by simp [hc])) h v hv
  have hcl : isIntG h = false → varyingAny cs = .ok false → K (eval I (.node h cs)) := by
    intro hi hv
    simp only [eval]
    exact hI.closed h _ hi (hl cs (fun _ h => h) hv)
  cases h with
  | num q => exact hI.num q _
  | spatialConst x => exact hI.spatial x _
  | var x => simp [varying] at he
  | intg g => simp [varying] at he
  | prop k dd => simp [varying] at he
  | err x => simp [varying] at he
  | _ => exact hcl rfl (by simpa only [varying] using he)

theorem D_zero (hI : Interp I D K axis) : D 0 = 0 := by
  have := hI.add 0 0
  simpa using this

theorem D_prod_mul (hI : Interp I D K axis) : ∀ (k : List V) (a : V), (∀ v ∈ k, K v) →
    D (k.prod * a) = k.prod * D a
  | [], a, _ => by simp
  | v :: k, a, h => by
    rw [List.prod_cons, mul_assoc, hI.lin v _ (h v (by simp)),
      D_prod_mul hI k a (fun w hw => h w (by simp [hw])), mul_assoc]

theorem split_spec (hI : Interp I D K axis) : ∀ (l : List SE) (k : List SE) (n : List (SE × Except Err SE)),
    splitFactors (l.zip (l.map (takeD axis))) = .ok (k, n) →
    (∀ v ∈ evalL I k, K v) ∧ (∀ p ∈ n, p.1 ∈ l ∧ p.2 = takeD axis p.1) ∧
      (evalL I l).prod = (evalL I k).prod * (evalL I (n.map (·.1))).prod
  | [], k, n, h => by
    simp only [List.map_nil, List.zip_nil_left, splitFactors, Except.ok.injEq, Prod.mk.injEq] at h
    obtain ⟨rfl, rfl⟩ := h
    simp [evalL]
  | c :: l, k, n, h => by
    simp only [List.map_cons, List.zip_cons_cons, splitFactors] at h
    split at h
    · cases h
    · rename_i b hb
      split at h
      · cases h
      · rename_i k' n' hk
        obtain ⟨i1, i2, i3⟩ := split_spec hI l k' n' hk
        cases b with
        | true =>
          simp only [if_true, Except.ok.injEq, Prod.mk.injEq] at h
          obtain ⟨rfl, rfl⟩ := h
          refine ⟨i1, ?_, ?_⟩
          · intro p hp
            rcases List.mem_cons.1 hp with rfl | hp
            · exact ⟨by simp, rfl⟩
            · exact ⟨by simp [(i2 p hp).1], (i2 p hp).2⟩
          · simp only [evalL, List.map_cons, List.prod_cons, i3]
            ring
        | false =>
          simp only [Bool.false_eq_true, if_false, Except.ok.injEq, Prod.mk.injEq] at h
          obtain ⟨rfl, rfl⟩ := h
          refine ⟨?_, ?_, ?_⟩
          · intro v hv
            simp only [evalL, List.mem_cons] at hv
            rcases hv with rfl | hv
            · exact varying_const hI c hb
            · exact i1 v hv
          · intro p hp
            exact ⟨by simp [(i2 p hp).1], (i2 p hp).2⟩
          · simp only [evalL, List.prod_cons, i3]
            ring

/-- C16: if the symbolic derivative of an expression exists, its value is the derivative
of the expression's value: for every ring of functions, derivation and interpretation of
constants, variables, operations and layer potentials. -/
theorem C16_linear (hI : Interp I D K axis) : ∀ e e', takeD axis e = .ok e' →
    eval I e' = D (eval I e) := by
  apply SE.ind
  intro h cs ih e' he
  cases h with
  | num q =>
    simp only [takeD, Except.ok.injEq] at he
    subst he
    simp only [eval, evalL, hI.zero]
    have := hI.lin (I (.num q) (evalL I cs)) 1 (hI.num q _)
    rw [mul_one, hI.one, mul_zero] at this
    exact this.symm
  | intg g =>
    simp only [takeD, Except.ok.injEq] at he
    subst he
    simp only [eval, hI.deriv]
  | sum =>
    simp only [takeD] at he
    split at he
    · cases he
    · rename_i cs' hcs
      cases he
      simp only [eval, hI.sum]
      have : ∀ l l' : List SE, (∀ c ∈ l, c ∈ cs) → allOk (takeDs axis l) = .ok l' →
          (evalL I l').sum = D (evalL I l).sum := by
        intro l
        induction l with
        | nil =>
          intro l' _ h
          simp only [takeDs, allOk, Except.ok.injEq] at h
          subst h
          simp [evalL, D_zero hI]
        | cons c l ihl =>
          intro l' hs h
          simp only [takeDs] at h
          cases hc : takeD axis c with
          | error x => rw [hc] at h; simp [allOk] at h
          | ok c' =>
            rw [hc] at h
            simp only [allOk] at h
            split at h
            · cases h
            · rename_i m hm
              cases h
              simp only [evalL, List.sum_cons, hI.add, ih c (hs c (by simp)) c' hc,
                ihl m (fun c hc => hs c (by simp [hc])) hm]
      exact this cs cs' (fun _ h => h) hcs
  | prod =>
    simp only [takeD, takeDs_eq] at he
    split at he
    · cases he
    · rename_i p hp
      obtain ⟨k, n⟩ := p
      obtain ⟨i1, i2, i3⟩ := split_spec hI cs k n hp
      simp only [eval, hI.prod, i3]
      rcases n with _ | ⟨⟨c, d⟩, _ | ⟨a, n⟩⟩
      · simp only [finishProduct, Except.ok.injEq] at he
        subst he
        rw [D_prod_mul hI _ _ i1]
        simp [eval, hI.prod, evalL_eq, hI.zero, hI.one]
      · obtain ⟨hc, hd⟩ := i2 (c, d) (by simp)
        simp only at hc hd
        simp only [finishProduct] at he
        cases hd' : takeD axis c with
        | error x => rw [hd, hd'] at he; cases he
        | ok d' =>
          rw [hd, hd'] at he
          simp only [Except.ok.injEq] at he
          subst he
          rw [D_prod_mul hI _ _ i1]
          simp [eval, hI.prod, evalL_eq, ih c hc d' hd']
      · simp [finishProduct] at he
  | _ => simp [takeD] at he

end

/-- C16 (rejection): a product with more than one spatially varying factor (all factors
being supported) is rejected. -/
theorem C16_rejects (axis : Nat) (cs : List SE) (b : List Bool)
    (hk : List.Forall₂ Kind cs b) (h2 : 2 ≤ b.count true) :
    takeD axis (.node .prod cs) = .error .product := by
  have hv : List.Forall₂ (fun c b => varying c = .ok b) cs b := hk.imp fun _ _ h => varying_kind h
  have key : ∀ (l : List SE) (b : List Bool), List.Forall₂ (fun c b => varying c = .ok b) l b →
      ∃ k n, splitFactors (l.zip (takeDs axis l)) = .ok (k, n) ∧ n.length = b.count true := by
    intro l b h
    induction h with
    | nil => exact ⟨[], [], rfl, rfl⟩
    | cons hc _ ih =>
      rename_i c b0 l0 b1 _
      obtain ⟨k, n, h1, h2⟩ := ih
      cases b0 with
      | true => exact ⟨k, _, by simp [takeDs, splitFactors, hc, h1]; rfl, by simp [h2]⟩
      | false => exact ⟨_, n, by simp [takeDs, splitFactors, hc, h1]; rfl, by simp [h2]⟩
  obtain ⟨k, n, h1, h3⟩ := key cs b hv
  simp only [takeD, h1]
  rcases n with _ | ⟨a, _ | ⟨a', n⟩⟩
  · simp at h3; omega
  · simp at h3; omega
  · rfl

/-- linear combinations of layer potentials: numbers, potentials, sums, and products of
spatially constant factors with at most one linear combination -/
inductive LinComb : SE → Prop
  | num (q cs) : LinComb (.node (.num q) cs)
  | intg (g cs) : LinComb (.node (.intg g) cs)
  | sum (cs) : (∀ c ∈ cs, LinComb c) → LinComb (.node .sum cs)
  | prodConst (cs) : (∀ c ∈ cs, Kind c false) → LinComb (.node .prod cs)
  | prod (a : List SE) (x : SE) (b : List SE) : (∀ c ∈ a ++ b, Kind c false) →
      Kind x true → LinComb x → LinComb (.node .prod (a ++ x :: b))

/-- C16 (acceptance): every linear combination of layer potentials has a symbolic
derivative.  Partial: a `SpatialConstant` is accepted as a factor but not as a summand
(`C16_refuted`). -/
theorem C16_accepts_partial (axis : Nat) (e : SE) (h : LinComb e) : ∃ e', takeD axis e = .ok e' := by
  have hk' : ∀ l : List SE, (∀ c ∈ l, varying c = .ok false) →
      splitFactors (l.zip (takeDs axis l)) = .ok (l, []) := by
    intro l
    induction l with
    | nil => intro _; rfl
    | cons c l ih =>
      intro h
      simp [takeDs, splitFactors, h c (by simp), ih (fun c hc => h c (by simp [hc]))]
  have hk : ∀ l : List SE, (∀ c ∈ l, Kind c false) →
      splitFactors (l.zip (takeDs axis l)) = .ok (l, []) :=
    fun l h => hk' l fun c hc => varying_kind (h c hc)
  induction h with
  | num q cs => exact ⟨_, rfl⟩
  | intg g cs => exact ⟨_, rfl⟩
  | sum cs _ ih =>
    have : ∀ l : List SE, (∀ c ∈ l, c ∈ cs) → ∃ l', allOk (takeDs axis l) = .ok l' := by
      intro l
      induction l with
      | nil => intro _; exact ⟨[], rfl⟩
      | cons c l ihl =>
        intro hs
        obtain ⟨c', hc⟩ := ih c (hs c (by simp))
        obtain ⟨l', hl⟩ := ihl (fun c hc => hs c (by simp [hc]))
        exact ⟨c' :: l', by simp [takeDs, hc, allOk, hl]⟩
    obtain ⟨l', hl⟩ := this cs (fun _ h => h)
    exact ⟨_, by simp only [takeD, hl]; rfl⟩
  | prodConst cs h => exact ⟨_, by simp only [takeD, hk cs h, finishProduct]; rfl⟩
  | prod a x b h hx _ ih =>
    obtain ⟨x', hx'⟩ := ih
    have : ∀ l : List SE, (∀ c ∈ l, Kind c false) →
        splitFactors ((l ++ x :: b).zip (takeDs axis (l ++ x :: b))) = .ok (l ++ b, [(x, .ok x')]) := by
      intro l
      induction l with
      | nil =>
        intro _
        simp [takeDs, splitFactors, varying_kind hx, hx', hk b (fun c hc => h c (by simp [hc]))]
      | cons c l ihl =>
        intro h'
        simp [takeDs, splitFactors, varying_kind (h' c (by simp)), ihl (fun c hc => h' c (by simp [hc]))]
    exact ⟨_, by simp only [takeD, this a (fun c hc => h c (by simp [hc])), finishProduct]; rfl⟩

/-- C16 is false for spatial constants as summands: the derivative of `k + S[sigma]` with
`k` a `SpatialConstant` is refused, although the derivative of the product `k * S[sigma]`
is not. -/
theorem C16_refuted : ∃ k s : SE, Kind k false ∧
    takeD 0 (.node .sum [k, s]) = .error .noMethod ∧ ∃ e', takeD 0 (.node .prod [k, s]) = .ok e' := by
  refine ⟨.node (.spatialConst "k") [], .node (.intg ⟨.base "G", ["G"], 1, .p1, exS, exS, []⟩)
    [.node (.var "sigma") []], .spatialConst _ _, rfl, _, rfl⟩

/-- non-vacuity of `C16_accepts_partial` and `C16_rejects` -/
example : LinComb (.node .sum [.node (.num 3) [], .node .prod [.node (.spatialConst "k") [],
    .node (.intg ⟨.base "G", ["G"], 1, .p1, exS, exS, []⟩) [.node (.var "sigma") []]]]) := by
  refine .sum _ ?_
  intro c hc
  simp only [List.mem_cons, List.not_mem_nil, or_false] at hc
  rcases hc with rfl | rfl
  · exact .num _ _
  · exact .prod [.node (.spatialConst "k") []] _ [] (by simpa using Kind.spatialConst _ _) (.intg _ _) (.intg _ _)
example : List.Forall₂ Kind
    [.node (.var "x") [], .node (.num 2) [], .node (.op "sin") [.node (.var "y") []]] [true, false, true] :=
  .cons (.var _ _) (.cons (.num _ _) (.cons (.op (.op "sin") _ (fun _ => true) trivial
    (by simpa using Kind.var "y" [])) .nil))
/-- a product of numbers and a function of a spatial constant is differentiable -/
example : LinComb (.node .prod [.node (.num 2) [], .node (.op "sin") [.node (.spatialConst "k") []]]) := by
  refine .prodConst _ ?_
  intro c hc
  simp only [List.mem_cons, List.not_mem_nil, or_false] at hc
  rcases hc with rfl | rfl
  · exact .num _ _
  · exact .op (.op "sin") _ (fun _ => false) trivial (by simpa using Kind.spatialConst "k" [])

/-- non-vacuity of `Interp`: real polynomials are not needed; the zero derivation on the
integers, with everything constant, is an interpretation -/
example : Interp (V := Int) (fun h l => match h with
    | .sum => l.sum
    | .prod => l.prod
    | .num q => q.num
    | .intg g => match g.tk with | .base _ => 1 | .axisDeriv _ _ => 0
    | _ => 5) (fun _ => 0) (fun _ => True) 0 where
  sum := by simp
  prod := by simp
  zero := by simp
  num := by simp
  spatial := by simp
  closed := by simp
  add := by simp
  one := by simp
  lin := by simp
  deriv := by simp

end Verif.Sym
