import Verif.Bind.Matrix
import Verif.Exec.MatTotal

/-!
# `build_matrix` and `bind` of visibly linear expressions (C91)

`Bind/Matrix.lean` assumes that the matrix can be built and that evaluation succeeds.  Here both are proved for expressions
that are visibly linear in the unknown.
-/

set_option linter.unusedSectionVars false

namespace Verif.BindLayer

open Verif.Sym Verif.DofDesc Verif.Bind
open Verif.QBXSetup (Kn Base SameBase)
open Verif.MatBuild (EV BV Arr interpEV mapEV opEV ofBV Frag IsZ PlainCtx)
open Verif.LayerMat (Scene Pot LE directPot buildMatrix evWith evAll toME AllPots OnSource GoodBatch LinE)

variable {α P : Type} [Field α] [DecidableEq α]

section

variable {E : Enc} {I : Compiler.Interp (EV α)} {C : Coding} {R : Mats α} {x : String} {ctx : Compiler.Ctx (EV α)}
variable (Sc : Scene α P (Args α)) (σ : Direct.Sched) (n : Nat) (xs : Nat → α) {qs : List ℚ}

/-- operands of an expression that has a value have values -/
theorem operand_ev : ∀ (m : Nat) (cs : List SE) (ls : List (LE α (Args α))) (us : List (EV α)),
    toLEs E (withScene I Sc σ C) C R x ctx m cs = some ls →
    evAll (fun g => directPot Sc σ [g.tk] g) n xs (toCtx ctx) ls = .ok us → ∀ c ∈ cs.take m,
    ∃ l v, toLE E (withScene I Sc σ C) C R x ctx c = some l ∧
      evWith (fun g => directPot Sc σ [g.tk] g) n xs (toCtx ctx) l = .ok v
  | 0, _, _, _, _, _, c, hc => by simp at hc
  | _ + 1, [], _, _, _, _, c, hc => by simp at hc
  | m + 1, d :: cs, ls, us, hl, hu, c, hc => by
    simp only [toLEs] at hl
    cases h1 : toLE E (withScene I Sc σ C) C R x ctx d with
    | none => rw [h1] at hl; cases hl
    | some a =>
      cases h2 : toLEs E (withScene I Sc σ C) C R x ctx m cs with
      | none => rw [h1, h2] at hl; cases hl
      | some ms =>
        rw [h1, h2] at hl
        simp only [Option.some.injEq] at hl
        subst hl
        simp only [evAll] at hu
        cases h3 : evWith (fun g => directPot Sc σ [g.tk] g) n xs (toCtx ctx) a with
        | error e => rw [h3] at hu; cases hu
        | ok u =>
          rw [h3] at hu
          simp only at hu
          cases h4 : evAll (fun g => directPot Sc σ [g.tk] g) n xs (toCtx ctx) ms with
          | error e => rw [h4] at hu; cases hu
          | ok us' =>
            rw [List.take_succ_cons] at hc
            rcases List.mem_cons.1 hc with rfl | hc
            · exact ⟨a, u, h1, h3⟩
            · exact operand_ev m cs ms us' h2 h4 c hc

/-- if the recursive evaluation succeeds and the kernel arguments have values, all sub-expressions have values -/
theorem ev_allDefined (hR : Ops E I R qs) (hx : ctx x = none) : ∀ (e : SE),
    (∀ g cs, Sub e (.node (.intg g) cs) → PotOk E C g cs) → (∀ q cs, Sub e (.node (.num q) cs) → q ∈ qs ∧ cs = []) →
    (∀ g cs, Sub e (.node (.intg g) cs) → ∀ a ∈ cs.drop g.nd, Compiler.AllDefined (withScene I Sc σ C) ctx (tr E a)) →
    ∀ (l : LE α (Args α)) (v : EV α), toLE E (withScene I Sc σ C) C R x ctx e = some l →
    evWith (fun g => directPot Sc σ [g.tk] g) n xs (toCtx ctx) l = .ok v →
    Compiler.AllDefined (withScene I Sc σ C) (withInput ctx x (.ve n xs)) (tr E e) := by
  apply SE.ind (P := fun e => (∀ g cs, Sub e (.node (.intg g) cs) → PotOk E C g cs) →
    (∀ q cs, Sub e (.node (.num q) cs) → q ∈ qs ∧ cs = []) →
    (∀ g cs, Sub e (.node (.intg g) cs) → ∀ a ∈ cs.drop g.nd, Compiler.AllDefined (withScene I Sc σ C) ctx (tr E a)) →
    ∀ (l : LE α (Args α)) (v : EV α), toLE E (withScene I Sc σ C) C R x ctx e = some l →
    evWith (fun g => directPot Sc σ [g.tk] g) n xs (toCtx ctx) l = .ok v →
    Compiler.AllDefined (withScene I Sc σ C) (withInput ctx x (.ve n xs)) (tr E e))
  intro h cs ih hq hn ha l v hl hv
  have hmono : ∀ y v, ctx y = some v → withInput ctx x (.ve n xs) y = some v := by
    intro y w hy
    unfold withInput
    rw [if_neg]
    · exact hy
    · rintro rfl
      rw [hx] at hy
      cases hy
  have hself := ev_den Sc σ n xs hR hx (.node h cs) l v hq hn hl hv
  have hchild : ∀ c ∈ cs, ∀ l v, toLE E (withScene I Sc σ C) C R x ctx c = some l →
      evWith (fun g => directPot Sc σ [g.tk] g) n xs (toCtx ctx) l = .ok v →
      ∀ s ∈ Compiler.subs (tr E c), ∃ v, Compiler.den (withScene I Sc σ C) (withInput ctx x (.ve n xs)) s = some v := by
    intro c hc l v hl hv
    exact ih c hc (fun g cs' hs => hq g cs' (Sub.child hc hs)) (fun q cs' hs => hn q cs' (Sub.child hc hs))
      (fun g cs' hs => ha g cs' (Sub.child hc hs)) l v hl hv
  have hall : ∀ ls us, toLEs E (withScene I Sc σ C) C R x ctx cs.length cs = some ls →
      evAll (fun g => directPot Sc σ [g.tk] g) n xs (toCtx ctx) ls = .ok us →
      ∀ s ∈ Compiler.subsL (trL E cs), ∃ v, Compiler.den (withScene I Sc σ C) (withInput ctx x (.ve n xs)) s = some v := by
    intro ls us h1 h2 s hs
    obtain ⟨t, ht, hs⟩ := (mem_subsL s _).1 hs
    rw [trL_eq] at ht
    obtain ⟨c, hc, rfl⟩ := List.mem_map.1 ht
    obtain ⟨l', v', h3, h4⟩ := operand_ev Sc σ n xs cs.length cs ls us h1 h2 c (by rwa [List.take_length])
    exact hchild c hc l' v' h3 h4 s hs
  have hsingle : ∀ l u, (toLEs E (withScene I Sc σ C) C R x ctx cs.length cs).bind single = some l →
      evWith (fun g => directPot Sc σ [g.tk] g) n xs (toCtx ctx) l = .ok u →
      ∀ s ∈ Compiler.subsL (trL E cs), ∃ v, Compiler.den (withScene I Sc σ C) (withInput ctx x (.ve n xs)) s = some v := by
    intro l u h1 h2
    cases h3 : toLEs E (withScene I Sc σ C) C R x ctx cs.length cs with
    | none => rw [h3] at h1; cases h1
    | some ls =>
      rw [h3, Option.bind_some] at h1
      have := single_some h1
      subst this
      exact hall [l] [u] h3 (by simp only [evAll, h2])
  cases h with
  | var y =>
    intro s hs
    simp only [tr, Compiler.subs, List.mem_singleton] at hs
    subst hs
    exact ⟨v, by simpa only [tr] using hself⟩
  | num q =>
    intro s hs
    rw [tr_num, (hn q cs (Sub.refl _)).2] at hs
    simp only [trL, Compiler.subs, Compiler.subsL, List.mem_singleton] at hs
    subst hs
    refine ⟨v, ?_⟩
    rw [tr_num, (hn q cs (Sub.refl _)).2] at hself
    exact hself
  | sum =>
    intro s hs
    rw [tr_sum] at hs hself
    rw [Compiler.subs] at hs
    rcases List.mem_cons.1 hs with rfl | hs
    · exact ⟨v, hself⟩
    · simp only [toLE, Option.map_eq_some_iff] at hl
      obtain ⟨ls, h1, rfl⟩ := hl
      simp only [evWith] at hv
      cases hu : evAll (fun g => directPot Sc σ [g.tk] g) n xs (toCtx ctx) ls with
      | error e => rw [hu] at hv; cases hv
      | ok us => exact hall ls us h1 hu s hs
  | prod =>
    intro s hs
    rw [tr_prod] at hs hself
    rw [Compiler.subs] at hs
    rcases List.mem_cons.1 hs with rfl | hs
    · exact ⟨v, hself⟩
    · simp only [toLE, Option.map_eq_some_iff] at hl
      obtain ⟨ls, h1, rfl⟩ := hl
      simp only [evWith] at hv
      cases hu : evAll (fun g => directPot Sc σ [g.tk] g) n xs (toCtx ctx) ls with
      | error e => rw [hu] at hv; cases hv
      | ok us => exact hall ls us h1 hu s hs
  | cse p sc =>
    intro s hs
    simp only [toLE] at hl
    obtain ⟨c, hcs, hcl⟩ := toLEs_single cs l hl
    subst hcs
    rw [tr_cse] at hs hself
    rw [Compiler.subs] at hs
    rcases List.mem_cons.1 hs with rfl | hs
    · exact ⟨v, hself⟩
    · exact hchild c (List.mem_singleton.2 rfl) l v hcl hv s hs
  | interp f t =>
    intro s hs
    rw [tr_interp] at hs hself
    rw [Compiler.subs] at hs
    rcases List.mem_cons.1 hs with rfl | hs
    · exact ⟨v, hself⟩
    · simp only [toLE, Option.map_eq_some_iff] at hl
      obtain ⟨l', h1, rfl⟩ := hl
      simp only [evWith] at hv
      cases hu : evWith (fun g => directPot Sc σ [g.tk] g) n xs (toCtx ctx) l' with
      | error e => rw [hu] at hv; cases hv
      | ok u => exact hsingle l' u h1 hu s hs
  | nrd a d =>
    intro s hs
    rw [tr_nrd] at hs hself
    rw [Compiler.subs] at hs
    rcases List.mem_cons.1 hs with rfl | hs
    · exact ⟨v, hself⟩
    · simp only [toLE, Option.map_eq_some_iff] at hl
      obtain ⟨l', h1, rfl⟩ := hl
      simp only [evWith] at hv
      cases hu : evWith (fun g => directPot Sc σ [g.tk] g) n xs (toCtx ctx) l' with
      | error e => rw [hu] at hv; cases hv
      | ok u => exact hsingle l' u h1 hu s hs
  | prop k d =>
    intro s hs
    cases k with
    | nodeCoord a =>
      rw [tr_prop] at hs hself
      rw [Compiler.subs] at hs
      simp only [toLE] at hl
      by_cases hcs : cs = []
      · rcases List.mem_cons.1 hs with rfl | hs
        · exact ⟨v, hself⟩
        · rw [hcs] at hs
          simp only [trL, Compiler.subsL, List.not_mem_nil] at hs
      · rw [if_neg hcs] at hl; cases hl
    | _ => simp [toLE] at hl
  | op f =>
    intro s hs
    rw [tr_op] at hs hself
    rw [Compiler.subs] at hs
    rcases List.mem_cons.1 hs with rfl | hs
    · exact ⟨v, hself⟩
    · simp only [toLE] at hl
      by_cases hq : f = "quotient"
      · rw [if_pos hq, Option.map_eq_some_iff] at hl
        obtain ⟨⟨l1, l2⟩, h1, rfl⟩ := hl
        simp only [evWith] at hv
        cases hu1 : evWith (fun g => directPot Sc σ [g.tk] g) n xs (toCtx ctx) l1 with
        | error e => rw [hu1] at hv; cases hv
        | ok u1 =>
          rw [hu1] at hv
          simp only at hv
          cases hu2 : evWith (fun g => directPot Sc σ [g.tk] g) n xs (toCtx ctx) l2 with
          | error e => rw [hu2] at hv; cases hv
          | ok u2 =>
            cases hc : toLEs E (withScene I Sc σ C) C R x ctx cs.length cs with
            | none => rw [hc] at h1; cases h1
            | some ls =>
              rw [hc, Option.bind_some] at h1
              have h2 := pair_some h1
              subst h2
              exact hall [l1, l2] [u1, u2] hc (by simp only [evAll, hu1, hu2]) s hs
      · rw [if_neg hq] at hl
        cases hg : R.fn f with
        | none => rw [hg] at hl; cases hl
        | some g =>
          rw [hg] at hl
          simp only [Option.map_eq_some_iff] at hl
          obtain ⟨l', h1, rfl⟩ := hl
          simp only [evWith] at hv
          cases hu : evWith (fun g => directPot Sc σ [g.tk] g) n xs (toCtx ctx) l' with
          | error e => rw [hu] at hv; cases hv
          | ok u => exact hsingle l' u h1 hu s hs
  | intg g =>
    intro s hs
    rw [tr_intg] at hs hself
    rw [Compiler.subs] at hs
    rcases List.mem_cons.1 hs with rfl | hs
    · exact ⟨v, hself⟩
    · rcases List.mem_append.1 hs with hs | hs
      · simp only [toLE] at hl
        cases h1 : toLEs E (withScene I Sc σ C) C R x ctx g.nd cs with
        | none => rw [h1] at hl; cases hl
        | some ds =>
          cases h2 : Compiler.denL (withScene I Sc σ C) ctx (trL E (cs.drop g.nd)) with
          | none => rw [h1, h2] at hl; cases hl
          | some args =>
            rw [h1, h2] at hl
            simp only [Option.some.injEq] at hl
            subst hl
            simp only [evWith] at hv
            cases hu : evAll (fun g => directPot Sc σ [g.tk] g) n xs (toCtx ctx) ds with
            | error e => rw [hu] at hv; cases hv
            | ok us =>
              obtain ⟨t, ht, hs⟩ := (mem_subsL s _).1 hs
              rw [trL_eq, ← List.map_take] at ht
              obtain ⟨c, hc, rfl⟩ := List.mem_map.1 ht
              obtain ⟨l', v', h3, h4⟩ := operand_ev Sc σ n xs g.nd cs ds us h1 hu c hc
              exact hchild c (List.mem_of_mem_take hc) l' v' h3 h4 s hs
      · rw [trL_drop] at hs
        obtain ⟨t, ht, hs⟩ := (mem_subsL s _).1 hs
        rw [trL_eq] at ht
        obtain ⟨c, hc, rfl⟩ := List.mem_map.1 ht
        obtain ⟨w, hw⟩ := ha g cs (Sub.refl _) c hc s hs
        exact ⟨w, den_mono _ hmono s w hw⟩
  | _ => simp [toLE] at hl

end

/-- **C91 for visibly linear expressions**: if the prepared expression is visibly linear in `x` (`LinE`: sums, products with
coefficients, which are made of numbers, arrays, node coordinates, derivatives of these, quotients and functions, interpolations and layer
potentials on their source of linear expressions) and its kernel arguments can be
evaluated, then `build_matrix(places, expr, x)` returns a matrix (or the zero block), `bind(places, expr)(x=xs)` succeeds for
every input, whatever is in the caches, and its value is the matrix times the input.  Partial: the restrictions of C76 on names
and nesting, potentials on their source. -/
theorem C91_linear_partial (E : Enc) (c : Compiler.Cfg) (I : Compiler.Interp (EV α)) (Sc : Scene α P (Args α))
    (σ : Direct.Sched) (C : Coding) (R : Mats α) (qs : List ℚ) (pl : List (Obj × PlaceKind)) (S T : DD) (e e' : SE)
    (x : String) (n m : Nat) (ctx : Compiler.Ctx (EV α)) (hc : Compiler.CfgOk c) (hR : Ops E I R qs) (hx : ctx x = none)
    (hu : UnregOk pl e) (hp : Plain pl S T e) (hg : Good e) (hn : NoClash e) (hok : prepare pl S T e = .ok e')
    (hcode : AllIntG (fun g => C.place (E.place g.src) = g.src ∧ C.place (E.place g.tgt) = g.tgt) e')
    (hnum : ∀ q cs, Sub e' (.node (.num q) cs) → q ∈ qs ∧ cs = [])
    (hargs : ∀ g cs, Sub e' (.node (.intg g) cs) → ∀ a ∈ cs.drop g.nd,
      Compiler.AllDefined (withScene I Sc σ C) ctx (tr E a))
    (l : LE α (Args α)) (hl : toLE E (withScene I Sc σ C) C R x ctx e' = some l)
    (hlin : LinE Sc (fun g => [g.tk]) n (toCtx ctx) m l) :
    ∃ b, buildBound E (withScene I Sc σ C) Sc C R pl S T e x n ctx = some (.ok b) ∧ ∀ (xs : Nat → α)
      (cc : Compiler.Cache (EV α)), Compiler.CacheValid (withScene I Sc σ C) (withInput ctx x (.ve n xs)) cc →
      ∃ f, bindEval E c (withScene I Sc σ C) pl S T e (withInput ctx x (.ve n xs)) cc = .ok (.ve m f) ∧
        match b with
        | none => ∀ i < m, f i = 0
        | some M => M.rows = m ∧ M.cols = n ∧ ∀ i < m, f i = ∑ j ∈ Finset.range n, M.get i j * xs j := by
  obtain ⟨b, hb, hall⟩ := LayerMat.C88_total Sc σ (fun g => [g.tk]) n (toCtx ctx) (plain_toCtx ctx) m l hlin
  refine ⟨b, by simp only [buildBound, hok, hl, Option.map_some, hb], fun xs cc hcc => ?_⟩
  obtain ⟨f, hf, hm⟩ := hall xs
  refine ⟨f, ?_, hm⟩
  obtain ⟨_, h2⟩ := prepare_inv hu hp hok
  have hk : Keeps e e' := ((placed_keeps S T e false).trans (expand_keeps _ _)).trans (interpPre_keeps pl _ _ _ h2)
  have hgood := hk.2 hg
  have hna : NoAvg e' := noAvg_interpPre pl _ (noAvg_expand _ _ hp.avg) _ _ h2
  have hpot : ∀ g cs, Sub e' (.node (.intg g) cs) → PotOk E C g cs := by
    intro g cs hs
    obtain ⟨_, h1, h3⟩ := hgood _ _ hs
    obtain ⟨h4, h5⟩ := (allIntG_sub hcode hs).1 g rfl
    exact ⟨h1, by omega, h4, h5⟩
  have hd := ev_allDefined Sc σ n xs hR hx e' hpot hnum hargs l _ hl hf
  have hden := ev_den Sc σ n xs hR hx e' l _ hpot hnum hl hf
  obtain ⟨w, ctx', cc', h3, h4, _⟩ := Compiler.C01_bound_eval c (withScene I Sc σ C) (tr E e') _ cc hc
    (withScene_lawful I Sc σ C hR.zero_add) (tr_wf E e' hgood hna) (tr_noClash E e' (noClash_keeps hk hn)) hd hcc
  rw [hden, Option.some.injEq] at h3
  subst h3
  simp only [bindEval, hok, h4]

/-- the hypotheses on the expression are met: `sigma/2 + S sigma` of `Bind/Matrix.lean` is visibly linear -/
example : toLE exEnc (withScene exI2 exScene (fun l => l) exCoding) exCoding exR "sigma" (fun _ => none) exOp' = some exLE ∧
    LinE exScene (fun g => [g.tk]) 2 (toCtx fun _ => none) 2 exLE := by
  refine ⟨rfl, ?_⟩
  refine .sum (by simp) ?_
  simp only [List.mem_cons, List.not_mem_nil, or_false]
  rintro c (rfl | rfl)
  · refine LinE.prod (pre := [.num _]) (post := []) ?_ .dep (by simp)
    simp only [List.mem_singleton]; rintro c rfl
    exact .sc (.num _)
  · have hon : OnSource exScene (⟨[.base (.laplace 2)], .base (.laplace 2), exD (some .quadStage2), exD (some .stage1), some 1,
        ↑([] : List (String × EV ℚ))⟩ : Pot (Args ℚ)) := ⟨⟨0, rfl⟩, ⟨1, rfl, rfl, rfl⟩, 1, rfl, by decide⟩
    refine LinE.pot hon
      ⟨⟨.laplace 2, by simp, by simp [Kn.getBase]⟩, by simp, by simp⟩ (by simp) ?_
    simp only [List.mem_singleton]; rintro c rfl
    refine LinE.interp (exR.interp (exD (some .stage1)) (exD (some .quadStage2))) ?_ .dep
    intro i hi
    have : i = 0 ∨ i = 1 := by simp only [exR] at hi; omega
    rcases this with rfl | rfl <;> decide +kernel

/-- a reference derivative as a coefficient: `∂₀ w · sigma` is visibly linear, and its block is the diagonal matrix of the
derivative -/
example : ∃ l, toLE exEnc (withScene exI2 exScene (fun l => l) exCoding) exCoding exR "sigma"
      (fun y => if y = "w" then some (.ve 2 fun i => (i : ℚ) ^ 2 + 3) else none)
      (.node .prod [.node (.nrd "0" (exD (some .stage1))) [.node (.var "w") []], .node (.var "sigma") []]) = some l ∧
    LinE exScene (fun g => [g.tk]) 2 (toCtx fun y => if y = "w" then some (.ve 2 fun i => (i : ℚ) ^ 2 + 3) else none) 2 l ∧
    ∃ M : Arr ℚ, buildMatrix exScene 2 (toCtx fun y => if y = "w" then some (.ve 2 fun i => (i : ℚ) ^ 2 + 3) else none) l
      = .ok (some M) ∧ M.get 0 0 = 1 ∧ M.get 0 1 = 0 ∧ M.get 1 1 = 1 := by
  refine ⟨.prod [.refD (exR.deriv "0" (exD (some .stage1))) (.var "w"), .dep], rfl, ?_, ?_⟩
  · refine LinE.prod (pre := [.refD _ _]) (post := []) ?_ .dep (by simp)
    simp only [List.mem_singleton]; rintro c rfl
    exact .vec (.refD _ rfl rfl)
  · refine ⟨⟨2, 2, _⟩, rfl, ?_, ?_, ?_⟩ <;> simp [exR, Finset.sum_range_succ]

/-- operations keep their names -/
def exEnc3 : Enc := { exEnc with head := fun h => match h with
  | .op f => f
  | .nrd _ _ => "nrd"
  | h => exEnc.head h }

/-- with squares, quotients and differences -/
def exI3 : Compiler.Interp (EV ℚ) := { exI2 with op := fun f l => match f with
  | "nrd" => exI2.op "coord" l
  | "quotient" => exI2.op "coord" l
  | "square" => match l with
    | [u] => some (mapEV (· ^ 2) u)
    | _ => none
  | f => exI2.op f l }

/-- with squares -/
def exR3 : Mats ℚ := { exR with fn := fun f => if f = "square" then some (· ^ 2) else none }

theorem exOps3 : Ops exEnc3 exI3 exR3 [1/2] where
  zero := rfl
  add := exOps.add
  num := exOps.num
  prod := exOps.prod
  interp := exOps.interp
  deriv := exOps.deriv
  quot := exOps.quot
  coord := exOps.coord
  call := fun f g u _ h => by
    by_cases hf : f = "square"
    · subst hf
      cases h
      rfl
    · simp only [exR3, if_neg hf] at h
      cases h

/-- a coefficient made of functions, quotients and derivatives, `(∂₀ w)² / w · sigma`: visibly linear -/
example : ∃ l, toLE exEnc3 (withScene exI3 exScene (fun l => l) exCoding) exCoding exR3 "sigma"
      (fun y => if y = "w" then some (.ve 2 fun i => (i : ℚ) ^ 2 + 3) else none)
      (.node .prod [.node (.op "quotient") [.node (.op "square") [.node (.nrd "0" (exD (some .stage1))) [.node (.var "w") []]],
        .node (.var "w") []], .node (.var "sigma") []]) = some l ∧
    LinE exScene (fun g => [g.tk]) 2 (toCtx fun y => if y = "w" then some (.ve 2 fun i => (i : ℚ) ^ 2 + 3) else none) 2 l ∧
    ∃ M : Arr ℚ, buildMatrix exScene 2 (toCtx fun y => if y = "w" then some (.ve 2 fun i => (i : ℚ) ^ 2 + 3) else none) l
      = .ok (some M) ∧ M.get 0 0 = 1/3 ∧ M.get 0 1 = 0 ∧ M.get 1 1 = 1/4 := by
  refine ⟨.prod [.quot (.call (· ^ 2) (.refD (exR3.deriv "0" (exD (some .stage1))) (.var "w"))) (.var "w"), .dep], rfl, ?_, ?_⟩
  · refine LinE.prod (pre := [.quot _ _]) (post := []) ?_ .dep (by simp)
    simp only [List.mem_singleton]; rintro c rfl
    exact .quot (.call _ (.vec (.refD _ rfl rfl))) (.vec (.var rfl))
  · refine ⟨⟨2, 2, _⟩, rfl, ?_, ?_, ?_⟩ <;> norm_num [exR3, exR, Finset.sum_range_succ]

/-- node coordinates and their derivatives as coefficients: `x₀ · (∂₀ x₀)² · sigma` is visibly linear -/
example : ∃ l, toLE exEnc3 (withScene exI3 exScene (fun l => l) exCoding) exCoding exR3 "sigma" (fun _ => none)
      (.node .prod [.node (.prop (.nodeCoord 0) (exD (some .stage1))) [],
        .node (.op "square") [.node (.nrd "0" (exD (some .stage1))) [.node (.prop (.nodeCoord 0) (exD (some .stage1))) []]],
        .node (.var "sigma") []]) = some l ∧
    LinE exScene (fun g => [g.tk]) 2 (toCtx fun _ => none) 2 l ∧
    ∃ M : Arr ℚ, buildMatrix exScene 2 (toCtx fun _ => none) l = .ok (some M) ∧
      M.get 0 0 = 0 ∧ M.get 0 1 = 0 ∧ M.get 1 0 = 0 ∧ M.get 1 1 = 1 := by
  refine ⟨.prod [.coord 2 fun i => (i : ℚ), .call (· ^ 2) (.refD (exR3.deriv "0" (exD (some .stage1))) (.coord 2 fun i => (i : ℚ))),
    .dep], rfl, ?_, ?_⟩
  · refine LinE.prod (pre := [.coord _ _, .call _ _]) (post := []) ?_ .dep (by simp)
    simp only [List.mem_cons, List.not_mem_nil, or_false]
    rintro c (rfl | rfl)
    · exact .vec .coord
    · exact .call _ (.vec (.refC _ _ rfl))
  · refine ⟨⟨2, 2, _⟩, rfl, ?_, ?_, ?_, ?_⟩ <;> norm_num [exR3, exR, Finset.sum_range_succ]

end Verif.BindLayer
