import Verif.Bind.Nested
import Verif.Symbolic.Flatten
import Mathlib.Algebra.Ring.Basic
import Mathlib.Algebra.Ring.Int.Defs
import Mathlib.Algebra.BigOperators.Group.List.Basic
/-!
# Flattening does not change values (C95), and C76 with the flattening done by `bind`

`_prepare_expr` (`pytential/symbolic/execution.py:626-656`) flattens the expression before filling in locations.
-/
namespace Verif.Bind
open Verif.Sym
open Verif.DofDesc (DD Obj Stage)

variable {V : Type}

/-! ## Specification -/

/-- The interpretation of sums, products, `0`, `1`, quotients and powers in a commutative semiring (of functions on the places). -/
structure Arith [CommSemiring V] (E : Enc) (I : Compiler.Interp V) : Prop where
  add : ∀ a b, I.add a b = a + b
  zero : I.zero = 0
  num0 : I.op (E.head (.num 0)) [] = some 0
  num1 : I.op (E.head (.num 1)) [] = some 1
  prod : ∀ l, I.op (E.head .prod) l = some l.prod
  quot : ∀ a, I.op (E.head (.op "quotient")) [a, 1] = some a
  pow : ∀ a, I.op (E.head (.op "power")) [a, 1] = some a

/-- if `a` is a value, `b` is the same value -/
def Le (a b : Option V) : Prop := ∀ v, a = some v → b = some v

/-! ## Model -/

/-- `bind(places, expr)(**context)` as in `bindEval`, with the flattening at the beginning of `_prepare_expr`
(`execution.py:641`). -/
def bindFlat (E : Enc) (c : Compiler.Cfg) (I : Compiler.Interp V) (pl : List (Obj × PlaceKind)) (S T : DD) (e : SE)
    (ctx : Compiler.Ctx V) (cc : Compiler.Cache V) :=
  bindEval E c I pl S T (flat e) ctx cc

/-! ## Proofs -/

theorem Le.refl (a : Option V) : Le a a := fun _ h => h

theorem Le.trans {a b c : Option V} (h : Le a b) (h' : Le b c) : Le a c := fun v hv => h' v (h v hv)

theorem allSome_le {l l' : List (Option V)} (h : List.Forall₂ Le l l') : ∀ m, allSome l = some m → allSome l' = some m := by
  induction h with
  | nil => exact fun _ h => h
  | cons hx _ ih =>
    rename_i a b l l' _
    intro m hm
    cases a with
    | none => simp [allSome] at hm
    | some x =>
      cases hl : allSome l with
      | none => simp [allSome, hl] at hm
      | some m' =>
        simp only [allSome, hl, Option.some.injEq] at hm
        simp only [allSome, hx x rfl, ih m' hl, hm]

theorem forall₂_take {α β : Type} {R : α → β → Prop} {l : List α} {l' : List β} (h : List.Forall₂ R l l') (n : Nat) :
    List.Forall₂ R (l.take n) (l'.take n) := by
  induction h generalizing n with
  | nil => simp
  | cons hx _ ih => cases n with
    | zero => simp
    | succ n => exact .cons hx (ih n)

theorem forall₂_drop {α β : Type} {R : α → β → Prop} {l : List α} {l' : List β} (h : List.Forall₂ R l l') (n : Nat) :
    List.Forall₂ R (l.drop n) (l'.drop n) := by
  induction h generalizing n with
  | nil => simp
  | cons hx hl ih => cases n with
    | zero => exact .cons hx hl
    | succ n => exact ih n

/-- operations do not look at operands that have no value -/
theorem mean_le (E : Enc) (I : Compiler.Interp V) (ctx : Compiler.Ctx V) (h : Head) {l l' : List (Option V)}
    (hl : List.Forall₂ Le l l') : Le (mean E I ctx h l) (mean E I ctx h l') := by
  have gen : ∀ f : List V → Option V, Le ((allSome l).bind f) ((allSome l').bind f) := by
    intro f v hv
    cases hm : allSome l with
    | none => simp [hm] at hv
    | some m => rw [allSome_le hl m hm]; rw [hm] at hv; exact hv
  cases h with
  | var x => exact Le.refl _
  | sum =>
    intro v hv
    simp only [mean] at hv ⊢
    cases hm : allSome l with
    | none => simp [hm] at hv
    | some m => rw [allSome_le hl m hm]; rw [hm] at hv; exact hv
  | cse p s =>
    cases hl with
    | nil => exact Le.refl _
    | cons hx hr =>
      cases hr with
      | nil => simpa [mean] using hx
      | cons hy hr => simp only [mean]; exact gen _
  | intg g =>
    intro v hv
    simp only [mean] at hv ⊢
    cases h1 : allSome (l.take g.nd) with
    | none => simp [h1] at hv
    | some d =>
      cases h2 : allSome (l.drop g.nd) with
      | none => simp [h1, h2] at hv
      | some k =>
        rw [allSome_le (forall₂_take hl g.nd) d h1, allSome_le (forall₂_drop hl g.nd) k h2]
        simpa only [h1, h2] using hv
  | _ => simp only [mean]; exact gen _

section
variable [CommSemiring V] {E : Enc} {I : Compiler.Interp V} (ctx : Compiler.Ctx V)

/-- sum of values, if all of them exist -/
def osum (l : List (Option V)) : Option V := (allSome l).map List.sum

/-- product of values, if all of them exist -/
def oprod (l : List (Option V)) : Option V := (allSome l).map List.prod


theorem osum_cons (x : Option V) (l : List (Option V)) : osum (x :: l) = x.bind fun a => (osum l).map (a + ·) := by
  cases x with
  | none => simp [osum, allSome]
  | some a => cases h : allSome l <;> simp [osum, allSome, h]

theorem oprod_cons (x : Option V) (l : List (Option V)) : oprod (x :: l) = x.bind fun a => (oprod l).map (a * ·) := by
  cases x with
  | none => simp [oprod, allSome]
  | some a => cases h : allSome l <;> simp [oprod, allSome, h]

theorem osum_append (l m : List (Option V)) : osum (l ++ m) = (osum l).bind fun a => (osum m).map (a + ·) := by
  induction l with
  | nil => cases h : osum m <;> simp [osum, allSome] <;> simp_all [osum]
  | cons x l ih =>
    rw [List.cons_append, osum_cons, osum_cons, ih]
    cases x with
    | none => rfl
    | some a =>
      cases osum l with
      | none => rfl
      | some b => cases osum m <;> simp [add_assoc]

theorem oprod_append (l m : List (Option V)) : oprod (l ++ m) = (oprod l).bind fun a => (oprod m).map (a * ·) := by
  induction l with
  | nil => cases h : oprod m <;> simp [oprod, allSome] <;> simp_all [oprod]
  | cons x l ih =>
    rw [List.cons_append, oprod_cons, oprod_cons, ih]
    cases x with
    | none => rfl
    | some a =>
      cases oprod l with
      | none => rfl
      | some b => cases oprod m <;> simp [mul_assoc]

theorem osum_comm (l m : List (Option V)) : osum (l ++ m) = osum (m ++ l) := by
  rw [osum_append, osum_append]
  cases osum l <;> cases osum m <;> simp [add_comm]

theorem oprod_comm (l m : List (Option V)) : oprod (l ++ m) = oprod (m ++ l) := by
  rw [oprod_append, oprod_append]
  cases oprod l <;> cases oprod m <;> simp [mul_comm]

theorem mean_sum (hA : Arith E I) (l : List (Option V)) : mean E I ctx .sum l = osum l := by
  simp only [mean, osum]
  have : (fun l : List V => l.foldl I.add I.zero) = List.sum := by
    funext l
    rw [hA.zero]
    have : I.add = (· + ·) := by funext a b; exact hA.add a b
    rw [this, List.sum_eq_foldl]
  rw [this]

theorem mean_prod (hA : Arith E I) (l : List (Option V)) : mean E I ctx .prod l = oprod l := by
  simp only [mean, oprod]
  cases allSome l <;> simp [hA.prod]

/-- a way to give values to expressions in which sums are sums and products are products -/
structure ValOk (val : SE → Option V) : Prop where
  sum : ∀ cs, val (.node .sum cs) = osum (cs.map val)
  prod : ∀ cs, val (.node .prod cs) = oprod (cs.map val)
  zero : val (.node (.num 0) []) = some 0
  one : val (.node (.num 1) []) = some 1

theorem isZero_eq {x : SE} (h : isZero x = true) : x = .node (.num 0) [] := by
  cases x with
  | node hd cs => cases hd <;> cases cs <;> simp_all [isZero]

theorem isOne_eq {x : SE} (h : isOne x = true) : x = .node (.num 1) [] := by
  cases x with
  | node hd cs => cases hd <;> cases cs <;> simp_all [isOne]

variable {val : SE → Option V}

theorem sumLoop_val (hv : ValOk val) (q d : List SE) :
    osum ((sumLoop q d).map val) = osum ((d ++ q).map val) := by
  induction q, d using sumLoop.induct with
  | case1 d => rw [sumLoop_nil]; simp
  | case2 d x q hz ih =>
    rw [sumLoop_zero hz, ih, isZero_eq hz]
    simp only [List.map_append, List.map_cons]
    rw [osum_append, osum_append, osum_cons, hv.zero]
    cases osum (List.map val d) <;> cases osum (List.map val q) <;> simp [add_comm]
  | case3 d x q hz cs hs ih =>
    rw [sumLoop_sum hz hs, ih, sumArgs_some hs]
    simp only [List.map_append, List.map_cons]
    rw [osum_append, osum_append, osum_append, osum_cons, hv.sum]
    cases osum (List.map val d) <;> cases osum (List.map val q) <;> cases osum (List.map val cs) <;> simp [add_comm]
  | case4 d x q hz hs ih =>
    rw [sumLoop_other hz hs, ih]
    simp

theorem flatSum_val (hv : ValOk val) (ts : List SE) : val (flatSum ts) = osum (ts.map val) := by
  have h := sumLoop_val hv ts []
  simp only [List.nil_append] at h
  rw [← h]
  unfold flatSum
  match sumLoop ts [] with
  | [] => simp [mkSum, hv.zero, osum, allSome]
  | [x] => cases hx : val x <;> simp [mkSum, osum, allSome, hx]
  | a :: b :: l => simp only [mkSum, hv.sum]

theorem prodLoop_val (hv : ValOk val) (q d : List SE) :
    Le (oprod ((d ++ q).map val)) (val (mkProd (prodLoop q d))) := by
  induction q, d using prodLoop.induct with
  | case1 d =>
    rw [prodLoop_nil]
    match d with
    | [] => simp [mkProd, hv.one, oprod, allSome, Le]
    | [x] => cases hx : val x <;> simp [mkProd, oprod, allSome, hx, Le]
    | a :: b :: l => simp only [mkProd, hv.prod, List.append_nil]; exact Le.refl _
  | case2 d x q hz =>
    rw [prodLoop_zero hz, isZero_eq hz]
    simp only [List.map_append, List.map_cons, mkProd, hv.zero]
    rw [oprod_append, oprod_cons]
    cases oprod (List.map val d) <;> cases oprod (List.map val q) <;> simp [Le]
  | case3 d x q hz ho ih =>
    rw [prodLoop_one hz ho]
    refine Le.trans ?_ ih
    rw [isOne_eq ho]
    simp only [List.map_append, List.map_cons]
    rw [oprod_append, oprod_append, oprod_cons, hv.one]
    cases oprod (List.map val d) <;> cases oprod (List.map val q) <;> simp [Le]
  | case4 d x q hz ho cs hs ih =>
    rw [prodLoop_prod hz ho hs]
    refine Le.trans ?_ ih
    rw [prodArgs_some hs]
    simp only [List.map_append, List.map_cons]
    rw [oprod_append, oprod_append, oprod_append, oprod_cons, hv.prod]
    cases oprod (List.map val d) <;> cases oprod (List.map val q) <;> cases oprod (List.map val cs) <;> simp [Le, mul_comm]
  | case5 d x q hz ho hs ih =>
    rw [prodLoop_other hz ho hs]
    refine Le.trans ?_ ih
    simp [Le]

theorem flatProd_val (hv : ValOk val) (ts : List SE) : Le (oprod (ts.map val)) (val (flatProd ts)) := by
  have h := prodLoop_val hv ts []
  unfold flatProd
  simpa only [List.nil_append] using h

/-- sums and products of flattened operands -/
theorem flatSum_le (hv : ValOk val) {cs ds : List SE} (h : List.Forall₂ Le (cs.map val) (ds.map val)) :
    Le (val (.node .sum cs)) (val (flatSum ds)) := by
  rw [hv.sum, flatSum_val hv]
  intro v hs
  unfold osum at hs ⊢
  cases hm : allSome (cs.map val) with
  | none => simp [hm] at hs
  | some m => rw [allSome_le h m hm]; rw [hm] at hs; exact hs

theorem flatProd_le (hv : ValOk val) {cs ds : List SE} (h : List.Forall₂ Le (cs.map val) (ds.map val)) :
    Le (val (.node .prod cs)) (val (flatProd ds)) := by
  refine Le.trans ?_ (flatProd_val hv ds)
  rw [hv.prod]
  intro v hs
  unfold oprod at hs ⊢
  cases hm : allSome (cs.map val) with
  | none => simp [hm] at hs
  | some m => rw [allSome_le h m hm]; rw [hm] at hs; exact hs

theorem flatOp_le (hA : Arith E I) (hv : ValOk val) (f : String) (hop : ∀ cs, val (.node (.op f) cs) =
    mean E I ctx (.op f) (cs.map val)) {cs ds : List SE} (h : List.Forall₂ Le (cs.map val) (ds.map val)) :
    Le (val (.node (.op f) cs)) (val (flatOp f ds)) := by
  have h1 : Le (val (.node (.op f) cs)) (val (.node (.op f) ds)) := by
    rw [hop, hop]; exact mean_le E I ctx _ h
  refine Le.trans h1 ?_
  match ds with
  | [] => exact Le.refl _
  | [a] => exact Le.refl _
  | a :: b :: c :: l => exact Le.refl _
  | [a, b] =>
    simp only [flatOp]
    split
    · rename_i hc
      rw [hop, isOne_eq hc.2]
      simp only [List.map_cons, List.map_nil, hv.one, mean]
      cases ha : val a with
      | none => simp [allSome, Le]
      | some x =>
        rcases hc.1 with rfl | rfl
        · simp [allSome, Le, hA.quot]
        · simp [allSome, Le, hA.pow]
    · exact Le.refl _

omit [CommSemiring V] in
theorem potMean_le (g : IG) {l l' : List (Option V)} (hl : List.Forall₂ Le l l') :
    Le (potMean (mean E I ctx) g l) (potMean (mean E I ctx) g l') := by
  unfold potMean
  split
  · refine mean_le E I ctx _ (.cons (Le.refl _) (.cons ?_ .nil))
    exact mean_le E I ctx _ (.cons (mean_le E I ctx _ hl) (.cons (mean_le E I ctx _ hl) .nil))
  · exact mean_le E I ctx _ hl

omit [CommSemiring V] in
theorem forall₂_map_le {f g : SE → Option V} {cs : List SE} (h : ∀ c ∈ cs, Le (f c) (g c)) :
    List.Forall₂ Le (cs.map f) (cs.map g) := by
  induction cs with
  | nil => exact .nil
  | cons c cs ih => exact .cons (h c (by simp)) (ih (fun c hc => h c (by simp [hc])))

/-- values of expressions with their locations filled in -/
theorem value_flat (hA : Arith E I) (S T : DD) : ∀ e b,
    Le (value (mean E I ctx) (placed S T b e)) (value (mean E I ctx) (placed S T b (flat e))) := by
  apply SE.ind (P := fun e => ∀ b,
    Le (value (mean E I ctx) (placed S T b e)) (value (mean E I ctx) (placed S T b (flat e))))
  intro h cs ih b
  have hc : ∀ b', List.Forall₂ Le (cs.map fun c => value (mean E I ctx) (placed S T b' c))
      ((flatL cs).map fun c => value (mean E I ctx) (placed S T b' c)) := by
    intro b'
    rw [flatL_eq, List.map_map]
    exact forall₂_map_le fun c hc => ih c hc b'
  have hl : ∀ b', List.Forall₂ Le (valueL (mean E I ctx) (placedL S T b' cs))
      (valueL (mean E I ctx) (placedL S T b' (flatL cs))) := by
    intro b'
    simp only [placedL_eq, valueL_eq, List.map_map]
    exact hc b'
  have hv : ValOk (fun e => value (mean E I ctx) (placed S T b e)) := by
    constructor
    · intro cs; simp only [placed, retag, value, isIntG, Bool.or_false, placedL_eq, valueL_eq, List.map_map, mean_sum ctx hA]; rfl
    · intro cs; simp only [placed, retag, value, isIntG, Bool.or_false, placedL_eq, valueL_eq, List.map_map, mean_prod ctx hA]; rfl
    · simp [placed, placedL, retag, value, valueL, mean, allSome, hA.num0]
    · simp [placed, placedL, retag, value, valueL, mean, allSome, hA.num1]
  cases h with
  | sum => simp only [flat]; exact flatSum_le hv (hc b)
  | prod => simp only [flat]; exact flatProd_le hv (hc b)
  | op f =>
    simp only [flat]
    refine flatOp_le ctx hA hv f ?_ (hc b)
    intro cs; simp only [placed, retag, value, isIntG, Bool.or_false, placedL_eq, valueL_eq, List.map_map]; rfl
  | intg g =>
    simp only [flat, placed, retag, value_intg]
    exact potMean_le ctx _ (hl _)
  | _ =>
    simp only [flat, placed, retag, value]
    exact mean_le E I ctx _ (hl _)

/-- the same with node coordinates and derivatives on another stage -/
theorem value_stageTag_flat (hA : Arith E I) (S T : DD) (s : Stage) : ∀ e b,
    Le (value (mean E I ctx) (stageTag s (placed S T b e))) (value (mean E I ctx) (stageTag s (placed S T b (flat e)))) := by
  apply SE.ind (P := fun e => ∀ b,
    Le (value (mean E I ctx) (stageTag s (placed S T b e))) (value (mean E I ctx) (stageTag s (placed S T b (flat e)))))
  intro h cs ih b
  have hc : ∀ b', List.Forall₂ Le (cs.map fun c => value (mean E I ctx) (stageTag s (placed S T b' c)))
      ((flatL cs).map fun c => value (mean E I ctx) (stageTag s (placed S T b' c))) := by
    intro b'
    rw [flatL_eq, List.map_map]
    exact forall₂_map_le fun c hc => ih c hc b'
  have hl : ∀ b', List.Forall₂ Le (valueL (mean E I ctx) (stageTagL s (placedL S T b' cs)))
      (valueL (mean E I ctx) (stageTagL s (placedL S T b' (flatL cs)))) := by
    intro b'
    simp only [placedL_eq, stageTagL_eq, valueL_eq, List.map_map]
    exact hc b'
  have hl0 : ∀ b', List.Forall₂ Le (valueL (mean E I ctx) (placedL S T b' cs))
      (valueL (mean E I ctx) (placedL S T b' (flatL cs))) := by
    intro b'
    rw [flatL_eq]
    simp only [placedL_eq, valueL_eq, List.map_map]
    exact forall₂_map_le fun c _ => value_flat ctx hA S T c b'
  have hv : ValOk (fun e => value (mean E I ctx) (stageTag s (placed S T b e))) := by
    constructor
    · intro cs; simp only [placed, retag, stageTag, value, isIntG, Bool.or_false, placedL_eq, stageTagL_eq, valueL_eq, List.map_map, mean_sum ctx hA]; rfl
    · intro cs; simp only [placed, retag, stageTag, value, isIntG, Bool.or_false, placedL_eq, stageTagL_eq, valueL_eq, List.map_map, mean_prod ctx hA]; rfl
    · simp [placed, placedL, retag, stageTag, stageTagL, value, valueL, mean, allSome, hA.num0]
    · simp [placed, placedL, retag, stageTag, stageTagL, value, valueL, mean, allSome, hA.num1]
  cases h with
  | sum => simp only [flat]; exact flatSum_le hv (hc b)
  | prod => simp only [flat]; exact flatProd_le hv (hc b)
  | op f =>
    simp only [flat]
    refine flatOp_le ctx hA hv f ?_ (hc b)
    intro cs; simp only [placed, retag, stageTag, value, isIntG, Bool.or_false, placedL_eq, stageTagL_eq, valueL_eq, List.map_map]; rfl
  | intg g =>
    simp only [flat, placed, retag, stageTag, value_intg]
    exact potMean_le ctx _ (hl _)
  | prop k dd =>
    cases k with
    | nodeCoord a =>
      simp only [flat, placed, retag, stageTag]
      generalize (if b = true then S else T) = T'
      split <;> (simp only [value]; exact mean_le E I ctx _ (hl0 _))
    | _ => simp only [flat, placed, retag, stageTag, value]; exact mean_le E I ctx _ (hl _)
  | nrd a dd =>
    simp only [flat, placed, retag, stageTag]
    generalize (if b = true then S else T) = T'
    split
    · simp only [value]; exact mean_le E I ctx _ (hl0 _)
    · simp only [value]; exact mean_le E I ctx _ (hl _)
  | _ =>
    simp only [flat, placed, retag, stageTag, value]
    exact mean_le E I ctx _ (hl _)

/-- **C95** (values): flattening does not change the value of an expression: if the expression with its locations filled in has a
value, the flattened one has the same.  For every interpretation of the operations in which sums, products, `0`, `1`, `x/1` and `x**1`
are those of a commutative semiring. -/
theorem C95_value (hA : Arith E I) (S T : DD) (pl : List (Obj × PlaceKind)) : ∀ e b tg v,
    meaning (mean E I ctx) pl tg (placed S T b e) = some v → meaning (mean E I ctx) pl tg (placed S T b (flat e)) = some v := by
  apply SE.ind (P := fun e => ∀ b tg v,
    meaning (mean E I ctx) pl tg (placed S T b e) = some v → meaning (mean E I ctx) pl tg (placed S T b (flat e)) = some v)
  intro h cs ih b tg
  change Le _ _
  replace ih : ∀ c ∈ cs, ∀ b tg, Le (meaning (mean E I ctx) pl tg (placed S T b c))
    (meaning (mean E I ctx) pl tg (placed S T b (flat c))) := ih
  have hc : List.Forall₂ Le (cs.map fun c => meaning (mean E I ctx) pl tg (placed S T b c))
      ((flatL cs).map fun c => meaning (mean E I ctx) pl tg (placed S T b c)) := by
    rw [flatL_eq, List.map_map]
    exact forall₂_map_le fun c hc => ih c hc b tg
  have hl : ∀ b', List.Forall₂ Le (meaningL (mean E I ctx) pl tg (placedL S T b' cs))
      (meaningL (mean E I ctx) pl tg (placedL S T b' (flatL cs))) := by
    intro b'
    rw [flatL_eq]
    simp only [placedL_eq, meaningL_eq, List.map_map]
    exact forall₂_map_le fun c hc => ih c hc b' tg
  have hargs : ∀ (l : List SE) f1 f2 t n, (∀ c ∈ l, c ∈ cs) →
      List.Forall₂ Le (meaningArgs (mean E I ctx) pl tg f1 f2 t n (placedL S T true l))
        (meaningArgs (mean E I ctx) pl tg f1 f2 t n (placedL S T true (flatL l))) := by
    intro l
    induction l with
    | nil => intros; exact .nil
    | cons c l ihl =>
      intro f1 f2 t n hs
      simp only [flatL, placedL, meaningArgs]
      exact .cons (mean_le E I ctx _ (.cons (ih c (hs c (by simp)) _ _) .nil)) (ihl _ _ _ _ (fun c hc => hs c (by simp [hc])))
  have hvals : List.Forall₂ Le
      (valueL (mean E I ctx) (if tg = true then stageTagL .stage2 (placedL S T true cs) else placedL S T true cs))
      (valueL (mean E I ctx) (if tg = true then stageTagL .stage2 (placedL S T true (flatL cs)) else placedL S T true (flatL cs))) := by
    rw [flatL_eq]
    split
    · simp only [placedL_eq, stageTagL_eq, valueL_eq, List.map_map]
      exact forall₂_map_le fun c _ => value_stageTag_flat ctx hA S T _ c true
    · simp only [placedL_eq, valueL_eq, List.map_map]
      exact forall₂_map_le fun c _ => value_flat ctx hA S T c true
  have hv : ValOk (fun e => meaning (mean E I ctx) pl tg (placed S T b e)) := by
    constructor
    · intro cs; simp only [placed, retag, meaning, isIntG, Bool.or_false, placedL_eq, meaningL_eq, List.map_map, mean_sum ctx hA]; rfl
    · intro cs; simp only [placed, retag, meaning, isIntG, Bool.or_false, placedL_eq, meaningL_eq, List.map_map, mean_prod ctx hA]; rfl
    · simp [placed, placedL, retag, meaning, meaningL, mean, allSome, hA.num0]
    · simp [placed, placedL, retag, meaning, meaningL, mean, allSome, hA.num1]
  cases h with
  | sum => simp only [flat]; exact flatSum_le hv hc
  | prod => simp only [flat]; exact flatProd_le hv hc
  | op f =>
    simp only [flat]
    refine flatOp_le ctx hA hv f ?_ hc
    intro cs; simp only [placed, retag, meaning, isIntG, Bool.or_false, placedL_eq, meaningL_eq, List.map_map]; rfl
  | intg g =>
    simp only [flat, placed, retag, meaning, isIntG, Bool.or_true]
    generalize (if b = true then S else T) = T'
    split
    · exact potMean_le ctx _ (hargs cs _ _ _ _ (fun _ h => h))
    · exact potMean_le ctx _ hvals
  | nrd a dd =>
    have h1 := value_stageTag_flat ctx hA S T .stage2 (.node (.nrd a dd) cs) b
    have h2 := value_flat ctx hA S T (.node (.nrd a dd) cs) b
    simp only [flat, placed, retag] at h1 h2
    simp only [flat, placed, retag, meaning]
    generalize (if b = true then S else T) = T' at h1 h2 ⊢
    split
    · exact h1
    · split
      · exact mean_le E I ctx _ (.cons h1 .nil)
      · exact h2
  | prop k dd =>
    have h1 := value_stageTag_flat ctx hA S T .stage2 (.node (.prop k dd) cs) b
    have h2 := value_flat ctx hA S T (.node (.prop k dd) cs) b
    simp only [flat, placed, retag] at h1 h2
    simp only [flat, placed, retag, meaning]
    generalize (if b = true then S else T) = T' at h1 h2 ⊢
    split
    · exact h1
    · exact h2
  | _ =>
    simp only [flat, placed, retag, meaning]
    exact mean_le E I ctx _ (hl _)

end

/-! ### What flattening keeps -/

theorem keeps_child {h : Head} {cs : List SE} {c : SE} (hc : c ∈ cs) : Keeps (.node h cs) c :=
  ⟨fun _ hk => has_node.2 (Or.inr ⟨c, hc, hk⟩), fun hg => (good_node.1 hg).2 c hc, fun _ hq => (sealed_node.1 hq).2 c hc⟩

theorem flatSum_pres {P : SE → Prop} (hd : ∀ cs, P (.node .sum cs) → ∀ c ∈ cs, P c)
    (hu : ∀ l, l ≠ [] → (∀ c ∈ l, P c) → P (.node .sum l)) (h0 : P (.node (.num 0) [])) {l : List SE} (hl : ∀ x ∈ l, P x) :
    P (flatSum l) := by
  have h := sumLoop_all hd l [] hl (by simp)
  unfold flatSum
  generalize sumLoop l [] = m at h
  match m, h with
  | [], _ => exact h0
  | [x], h => exact h x (by simp)
  | x :: y :: m, h => exact hu _ (by simp) h

theorem flatProd_pres {P : SE → Prop} (hd : ∀ cs, P (.node .prod cs) → ∀ c ∈ cs, P c)
    (hu : ∀ l, (∀ c ∈ l, P c) → P (.node .prod l)) (h0 : ∀ q, P (.node (.num q) [])) {l : List SE} (hl : ∀ x ∈ l, P x) :
    P (flatProd l) := by
  have h := prodLoop_all hd l [] hl (by simp)
  unfold flatProd
  generalize prodLoop l [] = m at h
  match m, h with
  | none, _ => exact h0 0
  | some [], _ => exact h0 1
  | some [x], h => exact h _ rfl x (by simp)
  | some (x :: y :: m), h => exact hu _ (h _ rfl)

theorem flatOp_pres {P : SE → Prop} (f : String) (l : List SE) (hu : P (.node (.op f) l)) (hl : ∀ x ∈ l, P x) : P (flatOp f l) := by
  unfold flatOp
  split
  · split
    · exact hl _ (by simp)
    · exact hu
  · exact hu

theorem keeps_gather {e : SE} {h : Head} {l : List SE} (hk : key h = none) (hne : ∀ p s, h ≠ .cse p s) (hn : NodeOk h l)
    (hl : ∀ x ∈ l, Keeps e x) : Keeps e (.node h l) := by
  refine ⟨?_, ?_, ?_⟩
  · intro k hk'
    rcases has_node.1 hk' with h1 | ⟨c, hc, h1⟩
    · rw [hk] at h1; cases h1
    · exact (hl c hc).1 k h1
  · intro hg
    exact good_node.2 ⟨hn, fun c hc => (hl c hc).2 hg⟩
  · intro Q hq
    refine sealed_node.2 ⟨?_, fun c hc => (hl c hc).3 Q hq⟩
    rintro p s rfl
    exact absurd rfl (hne p s)

theorem flat_keeps : ∀ e, Keeps e (flat e) := by
  apply SE.ind (P := fun e => Keeps e (flat e))
  intro h cs ih
  have hx : ∀ x ∈ flatL cs, Keeps (.node h cs) x := by
    intro x hx
    rw [flatL_eq] at hx
    obtain ⟨c, hc, rfl⟩ := List.mem_map.1 hx
    exact (keeps_child hc).trans (ih c hc)
  have hm : List.Forall₂ Keeps cs (flatL cs) := by
    rw [flatL_eq]; exact keeps_map _ _ ih
  cases h with
  | sum =>
    exact flatSum_pres (P := Keeps (.node .sum cs)) (fun l hl c hc => hl.trans (keeps_child hc))
      (fun l hne hl => keeps_gather rfl (by intro p s h; cases h) hne hl)
      (keeps_gather rfl (by intro p s h; cases h) trivial (by simp)) hx
  | prod =>
    exact flatProd_pres (P := Keeps (.node .prod cs)) (fun l hl c hc => hl.trans (keeps_child hc))
      (fun l hl => keeps_gather rfl (by intro p s h; cases h) trivial hl)
      (fun q => keeps_gather rfl (by intro p s h; cases h) trivial (by simp)) hx
  | op f =>
    exact flatOp_pres (P := Keeps (.node (.op f) cs)) f _ (keeps_node (.same _) hm) hx
  | _ => exact keeps_node (.same _) hm

theorem avgSeen_flat (ns : List Obj) (S T : DD) : ∀ e (b : Bool) outer, AvgSeen ns outer (placed S T b e) →
    AvgSeen ns outer (placed S T b (flat e)) := by
  apply SE.ind (P := fun e => ∀ (b : Bool) outer, AvgSeen ns outer (placed S T b e) → AvgSeen ns outer (placed S T b (flat e)))
  intro h cs ih b outer ha
  have hl : ∀ (b' : Bool) o, AvgSeenL ns o (placedL S T b' cs) → AvgSeenL ns o (placedL S T b' (flatL cs)) := by
    intro b' o ho
    rw [placedL_eq] at ho ⊢
    rw [flatL_eq]
    rw [avgSeenL_iff] at ho ⊢
    intro x hx
    simp only [List.mem_map] at hx
    obtain ⟨_, ⟨c, hc, rfl⟩, rfl⟩ := hx
    exact ih c hc b' o (ho _ (List.mem_map.2 ⟨c, hc, rfl⟩))
  have hx : AvgSeenL ns outer (placedL S T b (flatL cs)) → ∀ x ∈ flatL cs, AvgSeen ns outer (placed S T b x) := by
    intro h x hx
    rw [placedL_eq, avgSeenL_iff] at h
    exact h _ (List.mem_map.2 ⟨x, hx, rfl⟩)
  have hin : ∀ l, AvgSeenL ns outer (placedL S T b l) ↔ ∀ x ∈ l, AvgSeen ns outer (placed S T b x) := by
    intro l
    rw [placedL_eq, avgSeenL_iff]
    simp
  cases h with
  | sum =>
    simp only [placed, retag, isIntG, Bool.or_false, AvgSeen] at ha
    refine flatSum_pres (P := fun x => AvgSeen ns outer (placed S T b x)) ?_ ?_ ?_ (hx (hl b outer ha))
    · intro l h
      simp only [placed, retag, isIntG, Bool.or_false, AvgSeen] at h
      exact (hin l).1 h
    · intro l _ h
      simp only [placed, retag, isIntG, Bool.or_false, AvgSeen]
      exact (hin l).2 h
    · simp [placed, retag, placedL, AvgSeen, AvgSeenL]
  | prod =>
    simp only [placed, retag, isIntG, Bool.or_false, AvgSeen] at ha
    refine flatProd_pres (P := fun x => AvgSeen ns outer (placed S T b x)) ?_ ?_ ?_ (hx (hl b outer ha))
    · intro l h
      simp only [placed, retag, isIntG, Bool.or_false, AvgSeen] at h
      exact (hin l).1 h
    · intro l h
      simp only [placed, retag, isIntG, Bool.or_false, AvgSeen]
      exact (hin l).2 h
    · intro q
      simp [placed, retag, placedL, AvgSeen, AvgSeenL]
  | op f =>
    simp only [placed, retag, isIntG, Bool.or_false, AvgSeen] at ha
    refine flatOp_pres (P := fun x => AvgSeen ns outer (placed S T b x)) f _ ?_ (hx (hl b outer ha))
    simp only [placed, retag, isIntG, Bool.or_false, AvgSeen]
    exact hl b outer ha
  | intg g =>
    simp only [flat, placed, retag, isIntG, Bool.or_true, AvgSeen] at ha ⊢
    exact ⟨ha.1, hl _ _ ha.2⟩
  | interp f t =>
    simp only [flat, placed, retag, isIntG, Bool.or_false, AvgSeen] at ha ⊢
    exact hl _ _ ha
  | _ =>
    simp only [flat, placed, retag, isIntG, Bool.or_false, AvgSeen] at ha ⊢
    exact hl _ _ ha

theorem allIntG_flat {P : IG → Prop} : ∀ e, AllIntG P e → AllIntG P (flat e) := by
  apply SE.ind (P := fun e => AllIntG P e → AllIntG P (flat e))
  intro h cs ih ha
  have hl : AllIntGL P (flatL cs) := by
    rw [flatL_eq, allIntGL_iff]
    intro x hx
    obtain ⟨c, hc, rfl⟩ := List.mem_map.1 hx
    exact ih c hc (allIntGL_iff.1 ha.2 c hc)
  have h0 : ∀ q, AllIntG P (.node (.num q) []) := fun q => ⟨(by intro g h; cases h), trivial⟩
  cases h with
  | sum =>
    exact flatSum_pres (P := AllIntG P) (fun l h => allIntGL_iff.1 h.2) (fun l _ h => ⟨(by intro g h; cases h), allIntGL_iff.2 h⟩)
      (h0 0) (allIntGL_iff.1 hl)
  | prod =>
    exact flatProd_pres (P := AllIntG P) (fun l h => allIntGL_iff.1 h.2) (fun l h => ⟨(by intro g h; cases h), allIntGL_iff.2 h⟩)
      h0 (allIntGL_iff.1 hl)
  | op f => exact flatOp_pres (P := AllIntG P) f _ ⟨(by intro g h; cases h), hl⟩ (allIntGL_iff.1 hl)
  | _ => exact ⟨ha.1, hl⟩

theorem unregOk_flat {pl : List (Obj × PlaceKind)} {e : SE} (h : UnregOk pl e) : UnregOk pl (flat e) :=
  h.imp id (allIntG_flat e)

/-- **C76** with flattening: if the expression with its locations filled in has a meaning, this is what `bind(places, expr)(**context)`
returns; what is returned is in all cases the meaning of the flattened expression.  (Only one direction for the expression itself: a
factor 0 makes `bind` drop the other factors, evaluable or not, see `C95_zero`.) -/
theorem C76_flatten [CommSemiring V] (E : Enc) (c : Compiler.Cfg) (I : Compiler.Interp V) (hA : Arith E I) (pl : List (Obj × PlaceKind)) (S T : DD)
    (e e' : SE) (ctx : Compiler.Ctx V) (cc : Compiler.Cache V) (hc : Compiler.CfgOk c) (hI : Compiler.Lawful I)
    (hid : ∀ d v, I.op (E.head (.interp d d)) [v] = some v) (hcc : Compiler.CacheValid I ctx cc) (hS : Explicit S)
    (hT : Explicit T) (hu : UnregOk pl e) (ha : AvgSeen (qbxNames pl) [] (placed S T false e)) (hg : Good e) (hn : NoClash e)
    (hok : prepare pl S T (flat e) = .ok e') :
    (∀ v, meaning (mean E I ctx) pl false (placed S T false e) = some v → bindFlat E c I pl S T e ctx cc = .ok v) ∧
      (∀ v, bindFlat E c I pl S T e ctx cc = .ok v ↔
        meaning (mean E I ctx) pl false (placed S T false (flat e)) = some v) := by
  have h := (C76_nested E c I pl S T (flat e) e' ctx cc hc hI hid hcc hS hT (unregOk_flat hu)
    (avgSeen_flat _ S T e false [] ha) ((flat_keeps e).2 hg) (noClash_keeps (flat_keeps e) hn) hok).1
  exact ⟨fun v hv => (h v).2 (C95_value ctx hA S T pl e false false v hv), h⟩

/-- **C95** (zero factors): a product with a factor that flattens to 0 is replaced by the number 0: evaluating it needs none of the
other factors, and gives what the number 0 evaluates to even if they refer to undefined variables or have illegal limits. -/
theorem C95_zero (E : Enc) (c : Compiler.Cfg) (I : Compiler.Interp V) (pl : List (Obj × PlaceKind)) (S T : DD) (cs : List SE)
    (ctx : Compiler.Ctx V) (cc : Compiler.Cache V) (hc : Compiler.CfgOk c) (hI : Compiler.Lawful I)
    (hcc : Compiler.CacheValid I ctx cc) (hS : Explicit S) (hT : Explicit T) (h : ∃ x ∈ cs, flat x = .node (.num 0) []) (v : V)
    (hv : I.op (E.head (.num 0)) [] = some v) :
    flat (.node .prod cs) = .node (.num 0) [] ∧ bindFlat E c I pl S T (.node .prod cs) ctx cc = .ok v := by
  have hf : flat (.node .prod cs) = .node (.num 0) [] := by
    obtain ⟨x, hx, h0⟩ := h
    have hq : ∃ y ∈ flatL cs, isZero y = true := by
      rw [flatL_eq]
      exact ⟨flat x, List.mem_map.2 ⟨x, hx, rfl⟩, by rw [h0]; rfl⟩
    simp only [flat, flatProd, prodLoop_none _ _ hq, mkProd]
  refine ⟨hf, ?_⟩
  unfold bindFlat
  rw [hf]
  have hu : UnregOk pl (.node (.num 0) []) := Or.inr ⟨(by intro g h; cases h), trivial⟩
  have hp : prepare pl S T (.node (.num 0) []) = .ok (.node (.num 0) []) := by
    have ht : toTag S T (.node (.num 0) []) = .ok (.node (.num 0) []) := rfl
    have hl := prepLoop_ok hu S T false
    have hpl : placed S T false (.node (.num 0) []) = .node (.num 0) [] := rfl
    rw [hpl] at hl
    have hs : AllSeen (fun g => g.src.geometry ∈ qbxNames pl → LimitOk g) [] (.node (.num 0) []) := by
      simp [AllSeen, AllSeenL]
    rw [(C12_exact (qbxNames pl) _).1 hs] at hl
    simp only [prepare, ht, hl]
    rfl
  refine ((C76_general E c I pl S T _ _ ctx cc hc hI hcc hS hT hu ?_ ?_ ?_ hp).1 v).2 ?_
  · simp [placed, placedL, retag, AvgSeen, AvgSeenL]
  · exact good_node.2 ⟨trivial, by simp⟩
  · intro x hx
    simp [has_node, key] at hx
  · simpa [placed, placedL, retag, squash, squashL, dropTrivial, meaning, meaningL, mean, allSome] using hv

/-! ### Non-vacuity -/

/-- names that tell 0, 1 and the other numbers apart -/
def exEncF : Enc := { exEnc with head := fun h => match h with
  | .num q => if q = 0 then "zero" else if q = 1 then "one" else "half"
  | .prod => "mul"
  | .interp _ _ => "interp"
  | .op f => f
  | _ => "coord" }

/-- integers with the usual arithmetic -/
def exIntF : Compiler.Interp Int := { exInt with op := fun f l => match f with
  | "zero" => some 0
  | "one" => some 1
  | "half" => some 2
  | "mul" => some l.prod
  | "interp" => l.head?
  | "quotient" => l.head?
  | "power" => l.head?
  | _ => some 10 }

theorem exIntF_lawful : Compiler.Lawful exIntF := ⟨exInt_lawful.zero_add, exInt_lawful.pot_perm⟩

theorem exArithF : Arith exEncF exIntF where
  add _ _ := rfl
  zero := rfl
  num0 := rfl
  num1 := rfl
  prod _ := rfl
  quot _ := rfl
  pow _ := rfl

/-- `(sigma + (0 + D(sigma))) * (1 * sigma) / 1` -/
def exFlatE : SE := .node (.op "quotient") [.node .prod
  [.node .sum [.node (.var "sigma") [], .node .sum [.node (.num 0) [],
    .node (.intg ⟨.base "D", ["G"], 1, .avg, ⟨.none, none, .node⟩, ⟨.none, none, .node⟩, []⟩) [.node (.var "sigma") []]]],
   .node .prod [.node (.num 1) [], .node (.var "sigma") []]], .node (.num 1) []]

example : flat exFlatE = .node .prod
  [.node .sum [.node (.var "sigma") [],
    .node (.intg ⟨.base "D", ["G"], 1, .avg, ⟨.none, none, .node⟩, ⟨.none, none, .node⟩, []⟩) [.node (.var "sigma") []]],
   .node (.var "sigma") []] := by decide +kernel

/-- its meaning -/
def exFlatVal : Int := (meaning (mean exEncF exIntF exInputs) exColl false (placed exD exD false exFlatE)).getD 0

example : exFlatVal ≠ 0 ∧ bindFlat exEncF Compiler.exCfg exIntF exColl exD exD exFlatE exInputs [] = .ok exFlatVal := by
  refine ⟨by decide +kernel, ?_⟩
  obtain ⟨e', he⟩ : ∃ e', prepare exColl exD exD (flat exFlatE) = .ok e' := by
    cases h : prepare exColl exD exD (flat exFlatE) with
    | ok e' => exact ⟨e', rfl⟩
    | error x =>
      have : ¬ (prepare exColl exD exD (flat exFlatE)).isOk = false := by decide +kernel
      rw [h] at this
      exact absurd rfl this
  refine (C76_flatten exEncF Compiler.exCfg exIntF exArithF exColl exD exD exFlatE e' exInputs [] Compiler.exCfg_ok
    exIntF_lawful (fun _ _ => rfl) (by intro k v h; cases h) (by simp [Explicit, exD]) (by simp [Explicit, exD])
    (Or.inl (fun p hp => by revert p; decide)) ?_ ?_ ?_ he).1 exFlatVal (by decide +kernel)
  · simp [exFlatE, placed, placedL, retag, AvgSeen, AvgSeenL, Seen, exD, fillDD, copyGeo, exColl, qbxNames]
  · simp [exFlatE, good_node, NodeOk]
  · intro x hx
    have hx : x = "sigma" := by simpa [exFlatE, has_node, key, eq_comm] using hx
    subst hx
    rintro (⟨i, hi⟩ | ⟨p, hp, _⟩)
    · exact Compiler.toString_nat_ne hi 's' (by decide +kernel) (by decide +kernel) (by decide +kernel)
    · simp [exFlatE, has_node, key] at hp

example : ∃ x ∈ [.node (.var "undefined") [], .node .sum []], flat x = .node (.num 0) [] :=
  ⟨.node .sum [], by simp, by decide +kernel⟩

end Verif.Bind
