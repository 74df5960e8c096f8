import Verif.Bind.Layer

/-!
# `build_matrix` and `bind` (C91)

`build_matrix(places, expr, x)` (`pytential/symbolic/execution.py:1001-1075`) and `bind(places, expr)(x=...)` start with the
same preparation (`_prepare_expr`, `execution.py:767-770`, `:1025`).  Here the whole of both is composed: the preparation
(C76), the matrix builder (C24, C88) on one side, compilation, execution and direct evaluation (C01, C40, C76, C90) on the
other.

Simplifications: those of C76, C88 and C90; one input, one output.  Kernel arguments are evaluated by
`bind(places, arg)(**context)` in the matrix builder (`matrix.py:84-108`) on arguments which are prepared already; here their
values are taken from the evaluation of the prepared expression in the context without the input.
-/

set_option linter.unusedSectionVars false

namespace Verif.BindLayer

open Verif.Sym Verif.DofDesc Verif.Bind
open Verif.QBXSetup (Kn Base SameBase)
open Verif.MatBuild (EV BV Arr interpEV refDEV mapEV opEV ofBV Frag IsZ PlainCtx)
open Verif.LayerMat (Scene Pot LE directPot buildMatrix evWith evAll toME AllPots OnSource GoodBatch)

variable {α P : Type} [Field α] [DecidableEq α]

/-! ## Model -/

/-- a prepared operation as the matrix builder sees it (`matrix.py:159-288`, `:397-518`), for the heads without recursion -/
def leaf (x y : String) : LE α (Args α) := if y = x then .dep else .var y

/-- the only operand of interpolations and CSEs -/
def single {β : Type} : List β → Option β
  | [a] => some a
  | _ => none

/-- `IntG` as the matrix builder sees it (`matrix.py:450-518`) -/
def potLE (C : Coding) (E : Enc) (g : IG) (args : List (EV α)) : Pot (Args α) :=
  ⟨g.sks.map C.kern, C.kern (E.kern g.tk), g.src, g.tgt, limInt (trLim g.lim), ↑(g.kn.zip args)⟩

/-- the two operands of quotients -/
def pair {β : Type} : List β → Option (β × β)
  | [a, b] => some (a, b)
  | _ => none

/-- the matrices which the discretizations provide: of interpolations (`matrix.py:422-446`) and of reference derivatives
along given axes (`:251-263`); and the elementwise functions of the array context (`:280-288`) by their names,
and the number of nodes and the node coordinates (`:265-270`) -/
structure Mats (α : Type) where
  interp : DD → DD → Arr α
  deriv : String → DD → Arr α
  fn : String → Option (α → α)
  coord : Nat → DD → Nat × (Nat → α)

section

variable (E : Enc) (I : Compiler.Interp (EV α)) (C : Coding) (R : Mats α) (x : String) (ctx : Compiler.Ctx (EV α))

mutual
/-- A prepared expression as the matrix builder sees it: `x` is the input, `R` has the matrices of interpolations and reference derivatives, and the elementwise functions, kernel
arguments are values (`matrix.py:84-108`).  `none`: operations outside of the model. -/
def toLE : SE → Option (LE α (Args α))
  | .node h cs => match h with
    | .var y => some (leaf x y)
    | .num q => some (.num (q : α))
    | .sum => (toLEs cs.length cs).map .sum
    | .prod => (toLEs cs.length cs).map .prod
    | .cse _ _ => (toLEs cs.length cs).bind single
    | .interp f t => ((toLEs cs.length cs).bind single).map (.interp (R.interp f t))
    | .nrd a d => ((toLEs cs.length cs).bind single).map (.refD (R.deriv a d))
    | .prop (.nodeCoord a) d => if cs = [] then some (.coord (R.coord a d).1 (R.coord a d).2) else none
    | .op f => if f = "quotient" then ((toLEs cs.length cs).bind pair).map (fun p => .quot p.1 p.2) else
      match R.fn f with
      | none => none
      | some g => ((toLEs cs.length cs).bind single).map (.call g)
    | .intg g => match toLEs g.nd cs, Compiler.denL I ctx (trL E (cs.drop g.nd)) with
      | some ds, some args => some (.pot (potLE C E g args) ds)
      | _, _ => none
    | _ => none
/-- the first `n` operands -/
def toLEs : Nat → List SE → Option (List (LE α (Args α)))
  | 0, _ => some []
  | _ + 1, [] => some []
  | n + 1, c :: l => match toLE c, toLEs n l with
    | some a, some m => some (a :: m)
    | _, _ => none
end

end

/-- values as the matrix builder stores them -/
def toBV : EV α → BV α
  | .sc a => .sc a
  | .ve n f => .ve n f

/-- the context of the matrix builder -/
def toCtx (ctx : Compiler.Ctx (EV α)) : String → Option (BV α) := fun y => (ctx y).map toBV

/-- `build_matrix(places, expr, x, context=ctx)` for an input with `n` DOFs (`execution.py:1001-1075`); `none`: an operation
outside of the model -/
def buildBound (E : Enc) (I : Compiler.Interp (EV α)) (Sc : Scene α P (Args α)) (C : Coding) (R : Mats α)
    (pl : List (Obj × PlaceKind)) (S T : DD) (e : SE) (x : String) (n : Nat) (ctx : Compiler.Ctx (EV α)) :
    Option (Except MatBuild.Err (Option (Arr α))) :=
  match prepare pl S T e with
  | .error _ => none
  | .ok e' => (toLE E I C R x ctx e').map (buildMatrix Sc n (toCtx ctx))

/-! ## Specification -/

/-- `bind(...)(x=v, **ctx)` -/
def withInput (ctx : Compiler.Ctx (EV α)) (x : String) (v : EV α) : Compiler.Ctx (EV α) :=
  fun y => if y = x then some v else ctx y

/-- the evaluator's arithmetic is that of arrays, wherever shapes fit; interpolations and reference derivatives are matrices, functions act on each
nodal value; the numbers `qs` are
themselves -/
structure Ops (E : Enc) (I : Compiler.Interp (EV α)) (R : Mats α) (qs : List ℚ) : Prop where
  zero : I.zero = .sc 0
  add : ∀ a b v, opEV (· + ·) a b = .ok v → I.add a b = v
  num : ∀ q ∈ qs, I.op (E.head (.num q)) [] = some (.sc (q : α))
  prod : ∀ (l : List (EV α)) v, l.foldlM (opEV (· * ·)) (.sc 1) = .ok v → I.op (E.head .prod) l = some v
  interp : ∀ f t u v, interpEV (R.interp f t) u = .ok v → I.op (E.head (.interp f t)) [u] = some v
  deriv : ∀ a d u v, refDEV (R.deriv a d) u = .ok v → I.op (E.head (.nrd a d)) [u] = some v
  quot : ∀ u v w, opEV (· / ·) u v = .ok w → I.op (E.head (.op "quotient")) [u, v] = some w
  coord : ∀ a d, I.op (E.head (.prop (.nodeCoord a) d)) [] = some (.ve (R.coord a d).1 (R.coord a d).2)
  call : ∀ f g u, f ≠ "quotient" → R.fn f = some g → I.op (E.head (.op f)) [u] = some (mapEV g u)

/-! ## The two evaluations -/

theorem ofBV_toBV (v : EV α) : ofBV (toBV v) = .ok v := by cases v <;> rfl

theorem plain_toCtx (ctx : Compiler.Ctx (EV α)) : PlainCtx (toCtx ctx) := by
  intro s v h
  simp only [toCtx, Option.map_eq_some_iff] at h
  obtain ⟨w, _, rfl⟩ := h
  cases w with
  | sc a => exact Or.inl ⟨a, rfl⟩
  | ve n f => exact Or.inr ⟨n, f, rfl⟩

theorem foldl_add {E : Enc} {I : Compiler.Interp (EV α)} {R : Mats α} {qs : List ℚ} (h : Ops E I R qs) :
    ∀ (l : List (EV α)) (a v : EV α), l.foldlM (opEV (· + ·)) a = .ok v → l.foldl I.add a = v
  | [], a, v, hv => by
    simp only [List.foldlM_nil, pure, Except.pure, Except.ok.injEq] at hv
    exact hv
  | b :: l, a, v, hv => by
    simp only [List.foldlM_cons, bind, Except.bind] at hv
    cases hb : opEV (· + ·) a b with
    | error e => rw [hb] at hv; cases hv
    | ok c =>
      rw [hb] at hv
      simp only [List.foldl_cons, h.add a b c hb]
      exact foldl_add h l c v hv

mutual
theorem den_mono (I : Compiler.Interp (EV α)) {ρ ρ' : Compiler.Ctx (EV α)} (h : ∀ y v, ρ y = some v → ρ' y = some v) :
    ∀ (e : Compiler.Expr) (v : EV α), Compiler.den I ρ e = some v → Compiler.den I ρ' e = some v
  | .num _, v, hv => hv
  | .var y, v, hv => h y v hv
  | .nir y, v, hv => h y v hv
  | .sub y i, v, hv => by
    simp only [Compiler.den] at hv ⊢
    cases hy : ρ y with
    | none => rw [hy] at hv; cases hv
    | some w => rw [hy] at hv; rw [h y w hy]; exact hv
  | .op f l, v, hv => by
    simp only [Compiler.den] at hv ⊢
    cases hl : Compiler.denL I ρ l with
    | none => rw [hl] at hv; cases hv
    | some w => rw [hl] at hv; rw [denL_mono I h l w hl]; exact hv
  | .ite c a b, v, hv => by
    simp only [Compiler.den] at hv ⊢
    cases hc : Compiler.den I ρ c with
    | none => rw [hc] at hv; cases hv
    | some w =>
      rw [hc] at hv
      rw [den_mono I h c w hc]
      simp only at hv ⊢
      by_cases ht : I.truthy w = true
      · rw [if_pos ht] at hv ⊢
        exact den_mono I h a v hv
      · rw [if_neg ht] at hv ⊢
        exact den_mono I h b v hv
  | .sum l, v, hv => by
    simp only [Compiler.den] at hv ⊢
    cases hl : Compiler.denL I ρ l with
    | none => rw [hl] at hv; cases hv
    | some w => rw [hl] at hv; rw [denL_mono I h l w hl]; exact hv
  | .arr l, v, hv => by
    simp only [Compiler.den] at hv ⊢
    cases hl : Compiler.denL I ρ l with
    | none => rw [hl] at hv; cases hv
    | some w => rw [hl] at hv; rw [denL_mono I h l w hl]; exact hv
  | .cse _ _ c, v, hv => by
    simp only [Compiler.den] at hv ⊢
    exact den_mono I h c v hv
  | .intg g d k, v, hv => by
    simp only [Compiler.den] at hv ⊢
    cases hl : Compiler.denL I ρ d with
    | none => rw [hl] at hv; cases hv
    | some w =>
      cases hk : Compiler.denL I ρ k with
      | none => rw [hl, hk] at hv; cases hv
      | some u =>
        rw [hl, hk] at hv
        rw [denL_mono I h d w hl, denL_mono I h k u hk]
        exact hv
theorem denL_mono (I : Compiler.Interp (EV α)) {ρ ρ' : Compiler.Ctx (EV α)} (h : ∀ y v, ρ y = some v → ρ' y = some v) :
    ∀ (l : List Compiler.Expr) (v : List (EV α)), Compiler.denL I ρ l = some v → Compiler.denL I ρ' l = some v
  | [], v, hv => hv
  | e :: l, v, hv => by
    simp only [Compiler.denL] at hv ⊢
    cases he : Compiler.den I ρ e with
    | none => rw [he] at hv; cases hv
    | some w =>
      cases hl : Compiler.denL I ρ l with
      | none => rw [he, hl] at hv; cases hv
      | some u =>
        rw [he, hl] at hv
        rw [den_mono I h e w he, denL_mono I h l u hl]
        exact hv
end

section

variable {E : Enc} {I : Compiler.Interp (EV α)} {C : Coding} {R : Mats α} {x : String} {ctx : Compiler.Ctx (EV α)}

theorem toLEs_length : ∀ (n : Nat) (cs : List SE) (ls : List (LE α (Args α))), toLEs E I C R x ctx n cs = some ls →
    ls.length = min n cs.length
  | 0, _, ls, h => by
    simp only [toLEs, Option.some.injEq] at h
    subst h
    simp
  | n + 1, [], ls, h => by
    simp only [toLEs, Option.some.injEq] at h
    subst h
    simp
  | n + 1, c :: l, ls, h => by
    simp only [toLEs] at h
    cases h1 : toLE E I C R x ctx c with
    | none => rw [h1] at h; cases h
    | some a =>
      cases h2 : toLEs E I C R x ctx n l with
      | none => rw [h1, h2] at h; cases h
      | some m =>
        rw [h1, h2] at h
        simp only [Option.some.injEq] at h
        subst h
        have := toLEs_length n l m h2
        simp only [List.length_cons]
        omega

theorem single_some {β : Type} {l : List β} {a : β} (h : single l = some a) : l = [a] := by
  match l, h with
  | [b], h => simp only [single, Option.some.injEq] at h; rw [h]
  | [], h => cases h
  | _ :: _ :: _, h => cases h

theorem toLEs_single (cs : List SE) (l : LE α (Args α)) (h : (toLEs E I C R x ctx cs.length cs).bind single = some l) :
    ∃ c, cs = [c] ∧ toLE E I C R x ctx c = some l := by
  cases h1 : toLEs E I C R x ctx cs.length cs with
  | none => rw [h1] at h; cases h
  | some ls =>
    rw [h1, Option.bind_some] at h
    have h2 := single_some h
    subst h2
    have h3 := toLEs_length _ _ _ h1
    simp only [List.length_cons, List.length_nil, min_self] at h3
    obtain ⟨c, rfl⟩ := List.length_eq_one_iff.1 h3.symm
    refine ⟨c, rfl, ?_⟩
    simp only [List.length_cons, List.length_nil, toLEs] at h1
    cases h4 : toLE E I C R x ctx c with
    | none => rw [h4] at h1; cases h1
    | some a =>
      rw [h4] at h1
      simp only [Option.some.injEq, List.cons.injEq, and_true] at h1
      rw [h1]

/-- layer potentials have a density for each source kernel, and places with names the evaluation understands -/
def PotOk (E : Enc) (C : Coding) (g : IG) (cs : List SE) : Prop :=
  g.sks.length = g.nd ∧ g.nd ≤ cs.length ∧ C.place (E.place g.src) = g.src ∧ C.place (E.place g.tgt) = g.tgt

theorem trL_drop (E : Enc) (n : Nat) (cs : List SE) : (trL E cs).drop n = trL E (cs.drop n) := by
  rw [trL_eq, trL_eq, List.map_drop]

theorem tr_sum (cs : List SE) : tr E (.node .sum cs) = .sum (trL E cs) := by simp only [tr]

theorem tr_prod (cs : List SE) : tr E (.node .prod cs) = .op (E.head .prod) (trL E cs) := by simp only [tr]

theorem tr_interp (f t : DD) (cs : List SE) : tr E (.node (.interp f t) cs) = .op (E.head (.interp f t)) (trL E cs) := by
  simp only [tr]

theorem tr_nrd (a : String) (d : DD) (cs : List SE) : tr E (.node (.nrd a d) cs) = .op (E.head (.nrd a d)) (trL E cs) := by
  simp only [tr]

theorem tr_op (f : String) (cs : List SE) : tr E (.node (.op f) cs) = .op (E.head (.op f)) (trL E cs) := by simp only [tr]

theorem pair_some {β : Type} {l : List β} {p : β × β} (h : pair l = some p) : l = [p.1, p.2] := by
  match l with
  | [] => cases h
  | [a] => cases h
  | [a, b] => cases h; rfl
  | _ :: _ :: _ :: _ => cases h

theorem tr_prop (k : PropKind) (d : DD) (cs : List SE) : tr E (.node (.prop k d) cs) = .op (E.head (.prop k d)) (trL E cs) := by
  simp only [tr]

theorem tr_num (q : ℚ) (cs : List SE) : tr E (.node (.num q) cs) = .op (E.head (.num q)) (trL E cs) := by simp only [tr]

theorem tr_cse (p : Option String) (s : String) (c : SE) : tr E (.node (.cse p s) [c]) = .cse p (trScope s) (tr E c) := by
  simp only [tr, trL, trCse]

theorem tr_intg (g : IG) (cs : List SE) :
    tr E (.node (.intg g) cs) = .intg (trG E g) ((trL E cs).take g.nd) ((trL E cs).drop g.nd) := by simp only [tr]

variable (Sc : Scene α P (Args α)) (σ : Direct.Sched) (n : Nat) (xs : Nat → α) {qs : List ℚ}

mutual
/-- what the recursive evaluation of the matrix builder's expression returns is the value of the prepared expression -/
theorem ev_den (hR : Ops E I R qs) (hx : ctx x = none) : ∀ (e : SE) (l : LE α (Args α)) (v : EV α),
    (∀ g cs, Sub e (.node (.intg g) cs) → PotOk E C g cs) → (∀ q cs, Sub e (.node (.num q) cs) → q ∈ qs ∧ cs = []) →
    toLE E (withScene I Sc σ C) C R x ctx e = some l →
    evWith (fun g => directPot Sc σ [g.tk] g) n xs (toCtx ctx) l = .ok v →
    Compiler.den (withScene I Sc σ C) (withInput ctx x (.ve n xs)) (tr E e) = some v
  | .node h cs, l, v, hq, hn, hl, hv => by
    have hqs : ∀ c ∈ cs, ∀ g cs, Sub c (.node (.intg g) cs) → PotOk E C g cs :=
      fun c hc g cs' hs => hq g cs' (Sub.child hc hs)
    have hns : ∀ c ∈ cs, ∀ q cs, Sub c (.node (.num q) cs) → q ∈ qs ∧ cs = [] :=
      fun c hc q cs' hs => hn q cs' (Sub.child hc hs)
    have hall : (trL E cs).take cs.length = trL E cs := by
      rw [List.take_of_length_le]
      rw [trL_eq, List.length_map]
    have hmono : ∀ y v, ctx y = some v → withInput ctx x (.ve n xs) y = some v := by
      intro y w hy
      unfold withInput
      rw [if_neg]
      · exact hy
      · rintro rfl
        rw [hx] at hy
        cases hy
    cases h with
    | var y =>
      simp only [toLE, Option.some.injEq] at hl
      subst hl
      simp only [tr, Compiler.den]
      unfold leaf at hv
      by_cases hy : y = x
      · rw [if_pos hy] at hv
        simp only [evWith, Except.ok.injEq] at hv
        unfold withInput
        rw [if_pos hy, hv]
      · rw [if_neg hy] at hv
        simp only [evWith, toCtx] at hv
        cases hc : ctx y with
        | none => rw [hc] at hv; cases hv
        | some w =>
          rw [hc] at hv
          simp only [Option.map_some, ofBV_toBV, Except.ok.injEq] at hv
          subst hv
          exact hmono y w hc
    | num q =>
      simp only [toLE, Option.some.injEq] at hl
      subst hl
      simp only [evWith, Except.ok.injEq] at hv
      subst hv
      rw [tr_num, (hn q cs (Sub.refl _)).2]
      exact hR.num q (hn q cs (Sub.refl _)).1
    | sum =>
      simp only [toLE, Option.map_eq_some_iff] at hl
      obtain ⟨ls, h1, rfl⟩ := hl
      simp only [evWith] at hv
      cases hu : evAll (fun g => directPot Sc σ [g.tk] g) n xs (toCtx ctx) ls with
      | error e => rw [hu] at hv; cases hv
      | ok us =>
        rw [hu] at hv
        have := evs_den hR hx cs.length cs ls us hqs hns h1 hu
        rw [hall] at this
        rw [tr_sum, Compiler.den, this, Option.map_some]
        have hz : (withScene I Sc σ C).zero = .sc 0 := hR.zero
        rw [hz]
        exact congrArg some (foldl_add hR us _ v hv)
    | prod =>
      simp only [toLE, Option.map_eq_some_iff] at hl
      obtain ⟨ls, h1, rfl⟩ := hl
      simp only [evWith] at hv
      cases hu : evAll (fun g => directPot Sc σ [g.tk] g) n xs (toCtx ctx) ls with
      | error e => rw [hu] at hv; cases hv
      | ok us =>
        rw [hu] at hv
        have := evs_den hR hx cs.length cs ls us hqs hns h1 hu
        rw [hall] at this
        rw [tr_prod, Compiler.den, this, Option.bind_some]
        exact hR.prod us v hv
    | cse p s =>
      simp only [toLE] at hl
      cases hc : toLEs E (withScene I Sc σ C) C R x ctx cs.length cs with
      | none => rw [hc] at hl; cases hl
      | some ls =>
        rw [hc, Option.bind_some] at hl
        have h2 := single_some hl
        subst h2
        have h3 := toLEs_length _ _ _ hc
        simp only [List.length_cons, List.length_nil, min_self] at h3
        have hu : evAll (fun g => directPot Sc σ [g.tk] g) n xs (toCtx ctx) [l] = .ok [v] := by
          simp only [evAll, hv]
        have := evs_den hR hx cs.length cs [l] [v] hqs hns hc hu
        rw [hall] at this
        obtain ⟨c, hcc⟩ := List.length_eq_one_iff.1 h3.symm
        rw [hcc] at this ⊢
        rw [tr_cse, Compiler.den]
        simp only [trL, Compiler.denL] at this
        cases hd : Compiler.den (withScene I Sc σ C) (withInput ctx x (.ve n xs)) (tr E c) with
        | none => rw [hd] at this; cases this
        | some w =>
          rw [hd] at this
          simp only [Option.some.injEq, List.cons.injEq, and_true] at this
          rw [this]
    | interp f t =>
      simp only [toLE, Option.map_eq_some_iff] at hl
      obtain ⟨l', hl, rfl⟩ := hl
      simp only [evWith] at hv
      cases hu' : evWith (fun g => directPot Sc σ [g.tk] g) n xs (toCtx ctx) l' with
      | error e => rw [hu'] at hv; cases hv
      | ok u =>
        rw [hu'] at hv
        simp only at hv
        cases hc : toLEs E (withScene I Sc σ C) C R x ctx cs.length cs with
        | none => rw [hc] at hl; cases hl
        | some ls =>
          rw [hc, Option.bind_some] at hl
          have h2 := single_some hl
          subst h2
          have hu : evAll (fun g => directPot Sc σ [g.tk] g) n xs (toCtx ctx) [l'] = .ok [u] := by
            simp only [evAll, hu']
          have := evs_den hR hx cs.length cs [l'] [u] hqs hns hc hu
          rw [hall] at this
          rw [tr_interp, Compiler.den, this, Option.bind_some]
          exact hR.interp f t u v hv
    | nrd a d =>
      simp only [toLE, Option.map_eq_some_iff] at hl
      obtain ⟨l', hl, rfl⟩ := hl
      simp only [evWith] at hv
      cases hu' : evWith (fun g => directPot Sc σ [g.tk] g) n xs (toCtx ctx) l' with
      | error e => rw [hu'] at hv; cases hv
      | ok u =>
        rw [hu'] at hv
        simp only at hv
        cases hc : toLEs E (withScene I Sc σ C) C R x ctx cs.length cs with
        | none => rw [hc] at hl; cases hl
        | some ls =>
          rw [hc, Option.bind_some] at hl
          have h2 := single_some hl
          subst h2
          have hu : evAll (fun g => directPot Sc σ [g.tk] g) n xs (toCtx ctx) [l'] = .ok [u] := by
            simp only [evAll, hu']
          have := evs_den hR hx cs.length cs [l'] [u] hqs hns hc hu
          rw [hall] at this
          rw [tr_nrd, Compiler.den, this, Option.bind_some]
          exact hR.deriv a d u v hv
    | prop k d =>
      cases k with
      | nodeCoord a =>
        simp only [toLE] at hl
        by_cases hcs : cs = []
        · rw [if_pos hcs, Option.some.injEq] at hl
          subst hl
          simp only [evWith, Except.ok.injEq] at hv
          subst hv
          rw [hcs, tr_prop]
          simp only [trL, Compiler.den, Compiler.denL, Option.bind_some]
          exact hR.coord a d
        · rw [if_neg hcs] at hl; cases hl
      | _ => simp [toLE] at hl
    | op f =>
      simp only [toLE] at hl
      by_cases hf : f = "quotient"
      · rw [if_pos hf, Option.map_eq_some_iff] at hl
        obtain ⟨⟨l1, l2⟩, hl, rfl⟩ := hl
        simp only [evWith] at hv
        cases hu1 : evWith (fun g => directPot Sc σ [g.tk] g) n xs (toCtx ctx) l1 with
        | error e => rw [hu1] at hv; cases hv
        | ok u1 =>
          rw [hu1] at hv
          simp only at hv
          cases hu2 : evWith (fun g => directPot Sc σ [g.tk] g) n xs (toCtx ctx) l2 with
          | error e => rw [hu2] at hv; cases hv
          | ok u2 =>
            rw [hu2] at hv
            simp only at hv
            cases hc : toLEs E (withScene I Sc σ C) C R x ctx cs.length cs with
            | none => rw [hc] at hl; cases hl
            | some ls =>
              rw [hc, Option.bind_some] at hl
              have h2 := pair_some hl
              subst h2
              have hu : evAll (fun g => directPot Sc σ [g.tk] g) n xs (toCtx ctx) [l1, l2] = .ok [u1, u2] := by
                simp only [evAll, hu1, hu2]
              have := evs_den hR hx cs.length cs [l1, l2] [u1, u2] hqs hns hc hu
              rw [hall] at this
              rw [tr_op, Compiler.den, this, Option.bind_some, hf]
              exact hR.quot u1 u2 v hv
      · rw [if_neg hf] at hl
        cases hg : R.fn f with
        | none => rw [hg] at hl; cases hl
        | some g =>
          rw [hg] at hl
          simp only [Option.map_eq_some_iff] at hl
          obtain ⟨l', hl, rfl⟩ := hl
          simp only [evWith] at hv
          cases hu' : evWith (fun g => directPot Sc σ [g.tk] g) n xs (toCtx ctx) l' with
          | error e => rw [hu'] at hv; cases hv
          | ok u =>
            rw [hu'] at hv
            simp only [Except.ok.injEq] at hv
            subst hv
            cases hc : toLEs E (withScene I Sc σ C) C R x ctx cs.length cs with
            | none => rw [hc] at hl; cases hl
            | some ls =>
              rw [hc, Option.bind_some] at hl
              have h2 := single_some hl
              subst h2
              have hu : evAll (fun g => directPot Sc σ [g.tk] g) n xs (toCtx ctx) [l'] = .ok [u] := by
                simp only [evAll, hu']
              have := evs_den hR hx cs.length cs [l'] [u] hqs hns hc hu
              rw [hall] at this
              rw [tr_op, Compiler.den, this, Option.bind_some]
              exact hR.call f g u hf hg
    | intg g =>
      obtain ⟨hk, hlen, hs, ht⟩ := hq g cs (Sub.refl _)
      simp only [toLE] at hl
      cases h1 : toLEs E (withScene I Sc σ C) C R x ctx g.nd cs with
      | none => rw [h1] at hl; cases hl
      | some ds =>
        cases h2 : Compiler.denL (withScene I Sc σ C) ctx (trL E (cs.drop g.nd)) with
        | none => rw [h1, h2] at hl; cases hl
        | some args =>
          rw [h1, h2] at hl
          simp only [Option.some.injEq] at hl
          subst hl
          simp only [evWith] at hv
          cases hu : evAll (fun g => directPot Sc σ [g.tk] g) n xs (toCtx ctx) ds with
          | error e => rw [hu] at hv; cases hv
          | ok us =>
            rw [hu] at hv
            simp only at hv
            have h3 := evs_den hR hx g.nd cs ds us hqs hns h1 hu
            have h4 := denL_mono (withScene I Sc σ C) hmono _ _ h2
            rw [tr_intg, Compiler.den, h3, trL_drop, h4]
            have hul : us.length = g.sks.length := by
              by_contra hne
              unfold directPot at hv
              rw [if_pos (by simpa [potLE] using hne)] at hv
              cases hv
            have e1 : (g.sks.zip us).map Prod.snd = us := List.map_snd_zip (by omega)
            have e2 : ((g.sks.zip us).map fun p => C.kern p.1) = g.sks.map C.kern := by
              have := congrArg (List.map C.kern) (List.map_fst_zip (l₁ := g.sks) (l₂ := us) (by omega))
              rw [List.map_map] at this
              exact this
            show scenePot Sc σ C (E.place g.src) (g.sks.zip us) (g.kn.zip args) (E.kern g.tk) (E.place g.tgt) (trLim g.lim)
              = some v
            unfold scenePot potOf
            rw [e1, e2, hs, ht]
            unfold potLE at hv
            simp only at hv
            rw [hv]
            rfl
    | _ => simp [toLE] at hl
/-- same for the first operands -/
theorem evs_den (hR : Ops E I R qs) (hx : ctx x = none) : ∀ (m : Nat) (cs : List SE) (ls : List (LE α (Args α)))
    (us : List (EV α)), (∀ c ∈ cs, ∀ g cs, Sub c (.node (.intg g) cs) → PotOk E C g cs) →
    (∀ c ∈ cs, ∀ q cs, Sub c (.node (.num q) cs) → q ∈ qs ∧ cs = []) →
    toLEs E (withScene I Sc σ C) C R x ctx m cs = some ls →
    evAll (fun g => directPot Sc σ [g.tk] g) n xs (toCtx ctx) ls = .ok us →
    Compiler.denL (withScene I Sc σ C) (withInput ctx x (.ve n xs)) ((trL E cs).take m) = some us
  | 0, _, ls, us, _, _, hl, hu => by
    simp only [toLEs, Option.some.injEq] at hl
    subst hl
    simp only [evAll, Except.ok.injEq] at hu
    subst hu
    rfl
  | m + 1, [], ls, us, _, _, hl, hu => by
    simp only [toLEs, Option.some.injEq] at hl
    subst hl
    simp only [evAll, Except.ok.injEq] at hu
    subst hu
    rfl
  | m + 1, c :: l, ls, us, hq, hn, hl, hu => by
    simp only [toLEs] at hl
    cases h1 : toLE E (withScene I Sc σ C) C R x ctx c with
    | none => rw [h1] at hl; cases hl
    | some a =>
      cases h2 : toLEs E (withScene I Sc σ C) C R x ctx m l with
      | none => rw [h1, h2] at hl; cases hl
      | some ms =>
        rw [h1, h2] at hl
        simp only [Option.some.injEq] at hl
        subst hl
        simp only [evAll] at hu
        cases h3 : evWith (fun g => directPot Sc σ [g.tk] g) n xs (toCtx ctx) a with
        | error e => rw [h3] at hu; cases hu
        | ok u =>
          rw [h3] at hu
          simp only at hu
          cases h4 : evAll (fun g => directPot Sc σ [g.tk] g) n xs (toCtx ctx) ms with
          | error e => rw [h4] at hu; cases hu
          | ok us' =>
            rw [h4] at hu
            simp only [Except.ok.injEq] at hu
            subst hu
            simp only [trL, List.take_succ_cons, Compiler.denL]
            rw [ev_den hR hx c a u (hq c List.mem_cons_self) (hn c List.mem_cons_self) h1 h3,
              evs_den hR hx m l ms us' (fun c hc => hq c (List.mem_cons_of_mem _ hc))
                (fun c hc => hn c (List.mem_cons_of_mem _ hc)) h2 h4]
end

end

/-! ## Theorems -/

theorem Ops.zero_add {E : Enc} {I : Compiler.Interp (EV α)} {R : Mats α} {qs : List ℚ} (h : Ops E I R qs) (v : EV α) :
    I.add I.zero v = v := by
  rw [h.zero]
  apply h.add
  cases v with
  | sc a => simp [opEV]
  | ve n f => simp [opEV]

theorem allIntG_sub {Q : IG → Prop} {e e' : SE} (h : AllIntG Q e) (hs : Sub e e') : AllIntG Q e' := by
  induction hs with
  | refl => exact h
  | child hc _ ih =>
    simp only [AllIntG] at h
    exact ih (allIntGL_iff.1 h.2 _ hc)

mutual
theorem allPots_mono {Q Q' : Pot (Args α) → Prop} (h : ∀ g, Q g → Q' g) : ∀ l : LE α (Args α), AllPots Q l → AllPots Q' l
  | .sum cs, hl => allPotsL_mono h cs hl
  | .prod cs, hl => allPotsL_mono h cs hl
  | .quot a b, hl => ⟨allPots_mono h a hl.1, allPots_mono h b hl.2⟩
  | .pow a _, hl => allPots_mono h a hl
  | .call _ a, hl => allPots_mono h a hl
  | .interp _ a, hl => allPots_mono h a hl
  | .refD _ a, hl => allPots_mono h a hl
  | .pot g ds, hl => ⟨h g hl.1, allPotsL_mono h ds hl.2⟩
  | .dep, _ => trivial
  | .otherDep _, _ => trivial
  | .var _, _ => trivial
  | .num _, _ => trivial
  | .coord _ _, _ => trivial
theorem allPotsL_mono {Q Q' : Pot (Args α) → Prop} (h : ∀ g, Q g → Q' g) : ∀ l : List (LE α (Args α)),
    LayerMat.AllPotsL Q l → LayerMat.AllPotsL Q' l
  | [], _ => trivial
  | c :: l, hl => ⟨allPots_mono h c hl.1, allPotsL_mono h l hl.2⟩
end

/-- **C91**: `build_matrix(places, expr, x)` times the values of `x` is `bind(places, expr)(x=...)`: if all layer potentials of
the prepared expression map from their source to itself and every operation succeeds, then for every input array the bound
expression returns the product of the matrix with it (zeros for the zero block), whatever the order of execution, the
caches and the generated names.  Partial: the restrictions of C76 (no clash of names, nested layer potentials on the same
source, ...) and of C24 and C88 (no powers of or quotients by the unknown, targets on the source). -/
theorem C91_matrix_partial (E : Enc) (c : Compiler.Cfg) (I : Compiler.Interp (EV α)) (Sc : Scene α P (Args α))
    (σ : Direct.Sched) (C : Coding) (R : Mats α) (qs : List ℚ) (pl : List (Obj × PlaceKind)) (S T : DD) (e e' : SE)
    (x : String) (n : Nat) (ctx : Compiler.Ctx (EV α)) (hc : Compiler.CfgOk c) (hR : Ops E I R qs) (hx : ctx x = none)
    (hu : UnregOk pl e) (hp : Plain pl S T e) (hg : Good e) (hn : NoClash e) (hok : prepare pl S T e = .ok e')
    (hcode : AllIntG (fun g => C.place (E.place g.src) = g.src ∧ C.place (E.place g.tgt) = g.tgt) e')
    (hnum : ∀ q cs, Sub e' (.node (.num q) cs) → q ∈ qs ∧ cs = [])
    (l : LE α (Args α)) (hl : toLE E (withScene I Sc σ C) C R x ctx e' = some l)
    (hpots : AllPots (fun g => OnSource Sc g ∧ ∃ b, SameBase b g.sks) l) (hf : Frag (toME Sc l)) (b : Option (Arr α))
    (hb : buildBound E (withScene I Sc σ C) Sc C R pl S T e x n ctx = some (.ok b)) (xs : Nat → α)
    (cc : Compiler.Cache (EV α)) (hcc : Compiler.CacheValid (withScene I Sc σ C) (withInput ctx x (.ve n xs)) cc)
    (hd : Compiler.AllDefined (withScene I Sc σ C) (withInput ctx x (.ve n xs)) (tr E e')) (v : EV α)
    (hv : evWith (fun g => directPot Sc σ [g.tk] g) n xs (toCtx ctx) l = .ok v) :
    bindEval E c (withScene I Sc σ C) pl S T e (withInput ctx x (.ve n xs)) cc = .ok v ∧
      match b with
      | none => IsZ v
      | some M => M.cols = n ∧ ∃ f, v = .ve M.rows f ∧ ∀ i < M.rows, f i = ∑ j ∈ Finset.range n, M.get i j * xs j := by
  obtain ⟨_, h2⟩ := prepare_inv hu hp hok
  have hk : Keeps e e' := ((placed_keeps S T e false).trans (expand_keeps _ _)).trans (interpPre_keeps pl _ _ _ h2)
  have hgood := hk.2 hg
  have hna : NoAvg e' := noAvg_interpPre pl _ (noAvg_expand _ _ hp.avg) _ _ h2
  have hpot : ∀ g cs, Sub e' (.node (.intg g) cs) → PotOk E C g cs := by
    intro g cs hs
    obtain ⟨_, h1, h3⟩ := hgood _ _ hs
    obtain ⟨h4, h5⟩ := (allIntG_sub hcode hs).1 g rfl
    exact ⟨h1, by omega, h4, h5⟩
  have hden := ev_den Sc σ n xs hR hx e' l v hpot hnum hl hv
  constructor
  · obtain ⟨w, ctx', cc', h3, h4, _⟩ := Compiler.C01_bound_eval c (withScene I Sc σ C) (tr E e') _ cc hc
      (withScene_lawful I Sc σ C hR.zero_add) (tr_wf E e' hgood hna) (tr_noClash E e' (noClash_keeps hk hn)) hd hcc
    rw [hden, Option.some.injEq] at h3
    subst h3
    simp only [bindEval, hok, h4]
  · have hb' : buildMatrix Sc n (toCtx ctx) l = .ok b := by
      simp only [buildBound, hok, hl, Option.map_some, Option.some.injEq] at hb
      exact hb
    have hfin := LayerMat.C88_matrix_partial Sc σ (fun g => [g.tk]) n (toCtx ctx) (plain_toCtx ctx) l
      (allPots_mono (fun g h => ⟨h.1, goodBatch_self g h.2⟩) l hpots) hf b hb' xs v hv
    cases b with
    | none => exact hfin
    | some M => exact hfin

/-! ### The hypotheses can be met -/

/-- arithmetic of arrays -/
def exI2 : Compiler.Interp (EV ℚ) where
  num n := .sc n
  sub v _ := some v
  op f l := match f with
    | "half" => some (.sc (1/2))
    | "mul" => (l.foldlM (opEV (· * ·)) (.sc 1)).toOption
    | "interp" => match l with
      | [u] => (interpEV ⟨2, 2, fun i j => if i = j then 1 else 0⟩ u).toOption
      | _ => none
    | "coord" => match l with
      | [u] => (refDEV ⟨2, 2, fun _ j => if j = 0 then -1 else 1⟩ u).toOption
      | [u, v] => (opEV (· / ·) u v).toOption
      | [] => some (.ve 2 fun i => i)
      | _ => none
    | _ => none
  truthy _ := true
  zero := .sc 0
  add a b := match opEV (· + ·) a b with
    | .ok v => v
    | .error _ => .sc 0
  arr _ := .sc 0
  pot _ _ _ _ _ _ := none

/-- interpolation between stages with the same nodes; differences of two nodes -/
def exR : Mats ℚ where
  interp _ _ := ⟨2, 2, fun i j => if i = j then 1 else 0⟩
  deriv _ _ := ⟨2, 2, fun _ j => if j = 0 then -1 else 1⟩
  fn _ := none
  coord _ _ := (2, fun i => i)

theorem exOps : Ops exEnc exI2 exR [1/2] where
  zero := rfl
  add := fun a b v h => by simp only [exI2, h]
  num := fun q hq => by
    rw [List.mem_singleton.1 hq]
    simp only [exEnc, exI2]
    norm_num
  prod := fun l v h => by
    show (l.foldlM (opEV (· * ·)) (.sc 1)).toOption = some v
    rw [h]
    rfl
  interp := fun f t u v h => by
    show (interpEV (exR.interp f t) u).toOption = some v
    rw [h]
    rfl
  deriv := fun a d u v h => by
    show (refDEV (exR.deriv a d) u).toOption = some v
    rw [h]
    rfl
  quot := fun u v w h => by
    show (opEV (· / ·) u v).toOption = some w
    rw [h]
    rfl
  coord := fun _ _ => rfl
  call := fun f g u _ h => by cases h

/-- `sigma/2 + S sigma` -/
def exOp : SE := .node .sum [.node .prod [.node (.num (1/2)) [], .node (.var "sigma") []],
  .node (.intg (exG .p1)) [.node (.var "sigma") []]]

/-- prepared -/
def exOp' : SE := .node .sum [.node .prod [.node (.num (1/2)) [], .node (.var "sigma") []],
  .node (.intg { exG .p1 with src := exD (some .quadStage2), tgt := exD (some .stage1) })
    [.node (.interp (exD (some .stage1)) (exD (some .quadStage2))) [.node (.var "sigma") []]]]

/-- as the matrix builder sees it -/
def exLE : LE ℚ (Args ℚ) := .sum [.prod [.num ((1/2 : ℚ) : ℚ), .dep],
  .pot ⟨[.base (.laplace 2)], .base (.laplace 2), exD (some .quadStage2), exD (some .stage1), some 1, ↑([] : List (String × EV ℚ))⟩
    [.interp (exR.interp (exD (some .stage1)) (exD (some .quadStage2))) .dep]]

theorem exOp_plain : Plain [(.ident "q", .qbx)] (exD none) (exD none) exOp := by
  refine ⟨?_, ?_, ?_⟩
  · intro f t cs hs
    exfalso
    have hi : ∀ f t cs e, Sub e (.node (.interp f t) cs) →
        e.head = .interp f t ∨ ∃ c ∈ e.children, Sub c (.node (.interp f t) cs) := by
      intro f t cs e h
      cases h with
      | refl => exact Or.inl rfl
      | child hc h => exact Or.inr ⟨_, hc, h⟩
    rcases hi f t cs _ hs with h | ⟨c, hc, h⟩
    · cases h
    · simp only [exOp, SE.children, List.mem_cons, List.not_mem_nil, or_false] at hc
      rcases hc with rfl | rfl
      · rcases hi f t cs _ h with h | ⟨c, hc, h⟩
        · cases h
        · simp only [SE.children, List.mem_cons, List.not_mem_nil, or_false] at hc
          rcases hc with rfl | rfl <;>
          · rcases hi f t cs _ h with h | ⟨c, hc, h⟩
            · cases h
            · cases hc
      · rcases hi f t cs _ h with h | ⟨c, hc, h⟩
        · cases h
        · simp only [SE.children, List.mem_cons, List.not_mem_nil, or_false] at hc
          subst hc
          rcases hi f t cs _ h with h | ⟨c, hc, h⟩
          · cases h
          · cases hc
  · simp [exOp, exG, placed, placedL, retag, HomNest, HomNestL, AllIntG, AllIntGL]
  · simp [exOp, exG, placedL, placed, retag, AllIntG, AllIntGL]

/-- the hypotheses of `C91_matrix_partial` are met -/
example : ∃ (M : Arr ℚ) (f : Nat → ℚ),
    buildBound exEnc (withScene exI2 exScene (fun l => l) exCoding) exScene exCoding exR [(.ident "q", .qbx)] (exD none)
        (exD none) exOp "sigma" 2 (fun _ => none) = some (.ok (some M)) ∧
      bindEval exEnc Compiler.exCfg (withScene exI2 exScene (fun l => l) exCoding) [(.ident "q", .qbx)] (exD none)
        (exD none) exOp (withInput (fun _ => none) "sigma" (.ve 2 fun i => i + 1)) [] = .ok (.ve 2 f) ∧
      M.get 0 0 = 1/2 + 1/2 * (-4 - 4) ∧ M.get 0 1 = 1/2 * (4/3 - (1/4) / (3/4)^2) ∧
      f 0 = M.get 0 0 * 1 + M.get 0 1 * 2 := by
  have hprep : prepare [(.ident "q", .qbx)] (exD none) (exD none) exOp = .ok exOp' := by rfl
  have hgood : Good exOp := by simp [exOp, exG, good_node, NodeOk]
  have hvar : ∀ x, Has (.var x) exOp → x = "sigma" := by
    intro x h
    simpa [exOp, exG, has_node, key, eq_comm] using h
  have hpfx : ∀ p, ¬ Has (.pfx p) exOp := by
    intro p h
    simp [exOp, exG, has_node, key] at h
  have hclash : NoClash exOp := by
    intro x hx hc
    have hx := hvar x hx
    subst hx
    rcases hc with ⟨i, hi⟩ | ⟨p, hp, _⟩
    · exact Compiler.toString_nat_ne hi 's' (by decide +kernel) (by decide +kernel) (by decide +kernel)
    · exact hpfx p hp
  have hl : toLE exEnc (withScene exI2 exScene (fun l => l) exCoding) exCoding exR "sigma" (fun _ => none) exOp' = some exLE := by
    rfl
  obtain ⟨M, hM⟩ : ∃ M, buildMatrix exScene 2 (toCtx fun _ => none) exLE = .ok (some M) := by
    have : (match buildMatrix exScene 2 (toCtx fun _ => none) exLE with
      | .ok (some _) => true
      | _ => false) = true := by decide +kernel
    obtain ⟨r, hr⟩ : ∃ r, r = buildMatrix exScene 2 (toCtx fun _ => none) exLE := ⟨_, rfl⟩
    rw [← hr] at this ⊢
    match r, this with
    | .ok (some M), _ => exact ⟨M, rfl⟩
  have hb : buildBound exEnc (withScene exI2 exScene (fun l => l) exCoding) exScene exCoding exR [(.ident "q", .qbx)] (exD none)
      (exD none) exOp "sigma" 2 (fun _ => none) = some (.ok (some M)) := by
    simp only [buildBound, hprep, hl, Option.map_some, hM]
  obtain ⟨v, hv⟩ : ∃ v, evWith (fun g => directPot exScene (fun l => l) [g.tk] g) 2 (fun i => (i : ℚ) + 1)
      (toCtx fun _ => none) exLE = .ok v := ⟨_, rfl⟩
  have hd : Compiler.AllDefined (withScene exI2 exScene (fun l => l) exCoding)
      (withInput (fun _ => none) "sigma" (.ve 2 fun i => i + 1)) (tr exEnc exOp') := by
    have : ∀ s ∈ Compiler.subs (tr exEnc exOp'), (Compiler.den (withScene exI2 exScene (fun l => l) exCoding)
        (withInput (fun _ => none) "sigma" (.ve 2 fun i => i + 1)) s).isSome = true := by decide +kernel
    intro s hs
    exact Option.isSome_iff_exists.1 (this s hs)
  have h := C91_matrix_partial exEnc Compiler.exCfg exI2 exScene (fun l => l) exCoding exR [1/2] [(.ident "q", .qbx)]
    (exD none) (exD none) exOp exOp' "sigma" 2 (fun _ => none) Compiler.exCfg_ok exOps rfl (Or.inl (by decide)) exOp_plain hgood
    hclash hprep (by simp [exOp', exG, AllIntG, AllIntGL]; decide) (by
      intro q cs hs
      have hi : ∀ q cs e, Sub e (.node (.num q) cs) → e = .node (.num q) cs ∨ ∃ c ∈ e.children, Sub c (.node (.num q) cs) := by
        intro f t e h
        cases h with
        | refl => exact Or.inl rfl
        | child hc h => exact Or.inr ⟨_, hc, h⟩
      rcases hi q cs _ hs with h | ⟨c, hc, h⟩
      · cases h
      · simp only [exOp', SE.children, List.mem_cons, List.not_mem_nil, or_false] at hc
        rcases hc with rfl | rfl
        · rcases hi q cs _ h with h | ⟨c, hc, h⟩
          · cases h
          · simp only [SE.children, List.mem_cons, List.not_mem_nil, or_false] at hc
            rcases hc with rfl | rfl
            · rcases hi q cs _ h with h | ⟨c, hc, h⟩
              · cases h
                simp
              · cases hc
            · rcases hi q cs _ h with h | ⟨c, hc, h⟩
              · cases h
              · cases hc
        · rcases hi q cs _ h with h | ⟨c, hc, h⟩
          · cases h
          · simp only [SE.children, List.mem_cons, List.not_mem_nil, or_false] at hc
            subst hc
            rcases hi q cs _ h with h | ⟨c, hc, h⟩
            · cases h
            · simp only [SE.children, List.mem_cons, List.not_mem_nil, or_false] at hc
              subst hc
              rcases hi q cs _ h with h | ⟨c, hc, h⟩
              · cases h
              · cases hc) exLE hl
    (by
      simp only [exLE, AllPots, LayerMat.AllPotsL]
      exact ⟨⟨trivial, trivial, trivial⟩, ⟨⟨⟨⟨0, rfl⟩, ⟨1, rfl, rfl, rfl⟩, 1, rfl, by decide⟩,
        ⟨.laplace 2, by simp, by simp [Kn.getBase]⟩⟩, trivial, trivial⟩, trivial⟩)
    (by
      show Frag (MatBuild.ME.sum [.prod [.num (1/2), .dep], .intG _ [.interp (exR.interp _ _) .dep]])
      simp only [Frag, MatBuild.FragL, and_true, true_and]
      intro i hi
      have : i = 0 ∨ i = 1 := by simp only [exR] at hi; omega
      rcases this with rfl | rfl <;> decide +kernel)
    (some M) hb (fun i => (i : ℚ) + 1) [] (by intro k v h; simp at h) hd v hv
  obtain ⟨h1, h2, f, rfl, h3⟩ := h
  have hrows : M.rows = 2 := by
    have : (match buildMatrix exScene 2 (toCtx fun _ => none) exLE with
      | .ok (some M) => M.rows
      | _ => 0) = 2 := by decide +kernel
    rw [hM] at this
    exact this
  have h00 : M.get 0 0 = 1/2 + 1/2 * (-4 - 4) := by
    have : (match buildMatrix exScene 2 (toCtx fun _ => none) exLE with
      | .ok (some M) => M.get 0 0
      | _ => 0) = 1/2 + 1/2 * (-4 - 4) := by decide +kernel
    rw [hM] at this
    exact this
  have h01 : M.get 0 1 = 1/2 * (4/3 - (1/4) / (3/4)^2) := by
    have : (match buildMatrix exScene 2 (toCtx fun _ => none) exLE with
      | .ok (some M) => M.get 0 1
      | _ => 0) = 1/2 * (4/3 - (1/4) / (3/4)^2) := by decide +kernel
    rw [hM] at this
    exact this
  refine ⟨M, f, hb, ?_, h00, h01, ?_⟩
  · rw [hrows] at h1
    exact h1
  · rw [h3 0 (by omega), Finset.sum_range_succ, Finset.sum_range_succ, Finset.sum_range_zero]
    norm_num

end Verif.BindLayer
