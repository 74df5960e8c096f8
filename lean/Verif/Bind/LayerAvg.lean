import Verif.Bind.LayerExact

/-!
# Averages of the two sides, exactly (C90, C94)

`LayerExact` for `qbx_forced_limit='avg'`: when a bound average raises, and what it returns otherwise.  No new model.
-/

set_option linter.unusedSectionVars false

namespace Verif.BindLayer

open Verif.Sym Verif.DofDesc Verif.Bind
open Verif.QBXSetup (Kn Base SameBase Expn Wrangler setup qbxClass)
open Verif.MatBuild (EV Arr interpEV)
open Verif.LayerMat (Scene Pot directPot densities strengths sumOver qbxSum plainSum dens1 OnSource GoodBatch)

variable {α P F : Type} [Field α] [DecidableEq α] [Field F] [LinearOrder F] [IsStrictOrderedRing F]
variable {E : Enc} {C : Coding} {pl : List (Obj × PlaceKind)} {S T : DD} {g : IG} {cs : List SE}
variable (c : Compiler.Cfg) (I : Compiler.Interp (EV α)) (Sc : Scene α P (Args α)) (σ : Direct.Sched) (A : Accel α F P)
  (ctx : Compiler.Ctx (EV α)) (cc : Compiler.Cache (EV α))

/-- the value of the layer potential `g` of the values `vs` with the limit `lim` -/
def sideValue (J : Compiler.Interp (EV α)) (E : Enc) (S T : DD) (g : IG) (vs : List (EV α)) (lim : Lim) : Option (EV α) :=
  J.pot (E.place (DDs (filled S T g).src .quadStage2)) (g.sks.zip (vs.take g.nd)) (g.kn.zip (vs.drop g.nd))
    (E.kern g.tk) (E.place (tgtStage (filled S T g)).tgt) (trLim lim)

/-- the value of a product of two factors, the second a sum of two terms -/
theorem den_half (J : Compiler.Interp (EV α)) (hJ : Compiler.Lawful J) (f : String) (A P M : Compiler.Expr) :
    Compiler.den J ctx (.op f [A, .sum [P, M]]) = (Compiler.den J ctx A).bind fun a => (Compiler.den J ctx P).bind fun p =>
      (Compiler.den J ctx M).bind fun m => J.op f [a, J.add p m] := by
  simp only [Compiler.den, Compiler.denL]
  cases Compiler.den J ctx A <;> cases Compiler.den J ctx P <;> cases Compiler.den J ctx M <;> simp [hJ.zero_add]

/-- a bound average returns exactly half the sum of the two sides, and raises if one of them, or the arithmetic, does -/
theorem bind_avg_exact (J : Compiler.Interp (EV α)) (hJ : Compiler.Lawful J) (h : Bindable E C pl S T g cs)
    (hc : Compiler.CfgOk c) (hcc : Compiler.CacheValid J ctx cc) (hlim : g.lim = .avg) (vs : List (EV α))
    (hv : Operands E J ctx pl S T (filled S T g).src g.nd cs vs) :
    (∀ v, bindEval E c J pl S T (.node (.intg g) cs) ctx cc = .ok v ↔
      ∃ half vp vm, J.op (E.head (.num (1/2))) [] = some half ∧ sideValue J E S T g vs .p1 = some vp ∧
        sideValue J E S T g vs .m1 = some vm ∧ J.op (E.head .prod) [half, J.add vp vm] = some v) ∧
    ((∃ x, bindEval E c J pl S T (.node (.intg g) cs) ctx cc = .error (.eval x)) ↔
      ∀ half vp vm, J.op (E.head (.num (1/2))) [] = some half → sideValue J E S T g vs .p1 = some vp →
        sideValue J E S T g vs .m1 = some vm → J.op (E.head .prod) [half, J.add vp vm] = none) := by
  obtain ⟨p', h1, h2⟩ := den_prepared ctx J g .p1 cs vs h.qbx h.gran hv
  obtain ⟨m', k1, k2⟩ := den_prepared ctx J g .m1 cs vs h.qbx h.gran hv
  have hin := (upsampled_true h.qbx).2
  have hpre : interpPre pl false (expand (qbxNames pl) (placed S T false (.node (.intg g) cs)))
      = .ok (.node .prod [.node (.num (1/2)) [], .node .sum [p', m']]) := by
    rw [placed_intg]
    simp only [expand]
    rw [if_pos ⟨hin, hlim⟩]
    have hp' : ∀ l l', interpPreL pl false l = .ok l' → interpPre pl false (.node .prod l) = .ok (.node .prod l') :=
      fun l l' hl => by simp only [interpPre, hl]
    have hs' : ∀ l l', interpPreL pl false l = .ok l' → interpPre pl false (.node .sum l) = .ok (.node .sum l') :=
      fun l l' hl => by simp only [interpPre, hl]
    have hn' : interpPre pl false (.node (.num (1/2)) []) = .ok (.node (.num (1/2)) []) := by
      simp only [interpPre, interpPreL]
    have ht' : ∀ a b a' b', interpPre pl false a = .ok a' → interpPre pl false b = .ok b' →
        interpPreL pl false [a, b] = .ok [a', b'] := fun a b a' b' ha hb => by simp only [interpPreL, ha, hb]
    exact hp' _ _ (ht' _ _ _ _ hn' (hs' _ _ (ht' _ _ _ _ h1 k1)))
  have hok : prepare pl S T (.node (.intg g) cs) = .ok (.node .prod [.node (.num (1/2)) [], .node .sum [p', m']]) := by
    rw [prepare_ok h.unreg h.plain h.limits, hpre]
  have hna : NoAvg (.node .prod [.node (.num (1/2)) [], .node .sum [p', m']]) :=
    noAvg_interpPre pl _ (noAvg_expand _ _ h.plain.avg) _ _ hpre
  have hmean : meaning (mean E J ctx) pl false (placed S T false (.node (.intg g) cs))
      = Compiler.den J ctx (tr E (.node .prod [.node (.num (1/2)) [], .node .sum [p', m']])) := by
    rw [← meaning_expand (mean E J ctx) pl (qbxNames pl), ← interpPre_value _ pl _ _ _ hpre, ← tr_den E J ctx _ hna]
  have hden : Compiler.den J ctx (tr E (.node .prod [.node (.num (1/2)) [], .node .sum [p', m']]))
      = (J.op (E.head (.num (1/2))) []).bind fun half => (sideValue J E S T g vs .p1).bind fun vp =>
        (sideValue J E S T g vs .m1).bind fun vm => J.op (E.head .prod) [half, J.add vp vm] := by
    have htr : tr E (.node .prod [.node (.num (1/2)) [], .node .sum [p', m']])
        = .op (E.head .prod) [.op (E.head (.num (1/2))) [], .sum [tr E p', tr E m']] := by simp only [tr, trL]
    have hh : Compiler.den J ctx (.op (E.head (.num (1/2))) []) = J.op (E.head (.num (1/2))) [] := by
      simp only [Compiler.den, Compiler.denL, Option.bind_some]
    rw [htr, den_half ctx J hJ, h2, k2, hh]
    rfl
  obtain ⟨j1, j2⟩ := C76_exact E c J pl S T _ _ ctx cc hc hJ hcc h.unreg h.plain h.good h.names hok
  rw [hmean, hden] at j2
  constructor
  · intro v
    rw [j1 v, hmean, hden]
    constructor
    · intro e
      obtain ⟨half, e1, e⟩ := Option.bind_eq_some_iff.1 e
      obtain ⟨vp, e2, e⟩ := Option.bind_eq_some_iff.1 e
      obtain ⟨vm, e3, e⟩ := Option.bind_eq_some_iff.1 e
      exact ⟨half, vp, vm, e1, e2, e3, e⟩
    · rintro ⟨half, vp, vm, e1, e2, e3, e⟩
      rw [e1, e2, e3]
      exact e
  · rw [j2]
    constructor
    · intro e half vp vm e1 e2 e3
      rw [e1, e2, e3] at e
      exact e
    · intro e
      cases e1 : J.op (E.head (.num (1/2))) [] with
      | none => rfl
      | some half =>
        cases e2 : sideValue J E S T g vs .p1 with
        | none => rfl
        | some vp =>
          cases e3 : sideValue J E S T g vs .m1 with
          | none => rfl
          | some vm => exact e half vp vm e1 e2 e3

/-- **C90**, `'avg'`, exactly: the result is `v` if and only if direct evaluation returns a value on either side and half their sum
is `v`; evaluation raises if and only if direct evaluation raises on one of the sides, or half the sum does not exist. -/
theorem C90_average_exact (h : Bindable E C pl S T g cs) (hc : Compiler.CfgOk c) (h0 : ∀ v, I.add I.zero v = v)
    (hcc : Compiler.CacheValid (withScene I Sc σ C) ctx cc) (hlim : g.lim = .avg) (vs : List (EV α))
    (hv : Operands E (withScene I Sc σ C) ctx pl S T (filled S T g).src g.nd cs vs) :
    (∀ v, bindEval E c (withScene I Sc σ C) pl S T (.node (.intg g) cs) ctx cc = .ok v ↔
      ∃ half vp vm, I.op (E.head (.num (1/2))) [] = some half ∧
        directPot Sc σ [C.kern (E.kern g.tk)] (evaluated C E (filled S T g) .p1 (vs.drop g.nd)) (vs.take g.nd) = .ok vp ∧
        directPot Sc σ [C.kern (E.kern g.tk)] (evaluated C E (filled S T g) .m1 (vs.drop g.nd)) (vs.take g.nd) = .ok vm ∧
        I.op (E.head .prod) [half, I.add vp vm] = some v) ∧
    ((∃ x, bindEval E c (withScene I Sc σ C) pl S T (.node (.intg g) cs) ctx cc = .error (.eval x)) ↔
      ∀ half vp vm, I.op (E.head (.num (1/2))) [] = some half →
        directPot Sc σ [C.kern (E.kern g.tk)] (evaluated C E (filled S T g) .p1 (vs.drop g.nd)) (vs.take g.nd) = .ok vp →
        directPot Sc σ [C.kern (E.kern g.tk)] (evaluated C E (filled S T g) .m1 (vs.drop g.nd)) (vs.take g.nd) = .ok vm →
        I.op (E.head .prod) [half, I.add vp vm] = none) := by
  have key : ∀ lim w, sideValue (withScene I Sc σ C) E S T g vs lim = some w ↔
      directPot Sc σ [C.kern (E.kern g.tk)] (evaluated C E (filled S T g) lim (vs.drop g.nd)) (vs.take g.nd) = .ok w := by
    intro lim w
    have hp : sideValue (withScene I Sc σ C) E S T g vs lim
        = (directPot Sc σ [C.kern (E.kern g.tk)] (evaluated C E (filled S T g) lim (vs.drop g.nd))
          (vs.take g.nd)).toOption := by
      refine scenePot_evaluated (E := E) Sc σ C (filled S T g) h.coded lim (vs.take g.nd) (vs.drop g.nd) ?_
      have := take_length h hv
      simpa [filled] using this
    rw [hp]
    cases directPot Sc σ [C.kern (E.kern g.tk)] (evaluated C E (filled S T g) lim (vs.drop g.nd)) (vs.take g.nd) <;>
      simp [Except.toOption]
  obtain ⟨k1, k2⟩ := bind_avg_exact c ctx cc (withScene I Sc σ C) (withScene_lawful I Sc σ C h0) h hc hcc hlim vs hv
  simp only [key] at k1 k2
  exact ⟨k1, k2⟩

/-- when the FMM evaluates a layer potential of densities of the right size -/
theorem fmmEval_isSome (hR : Runs Sc A) (h : Bindable E C pl S T g cs) (vs : List (EV α))
    (hl : (vs.take g.nd).length = (g.sks.map C.kern).length) (lim : Lim)
    (hd : ∀ u ∈ vs.take g.nd, ∃ f, u = EV.ve (Sc.ndofs (DDs (filled S T g).src .quadStage2)) f) :
    (∃ f, sideValue (withFmm I Sc A C) E S T g vs lim = some (.ve (Sc.ndofs (tgtStage (filled S T g)).tgt) f)) ∧
        ((∃ b, SameBase b (g.sks.map C.kern) ∧ b.invariant = true) ∧
          ∃ a, A.assoc (DDs (filled S T g).src .quadStage2) (tgtStage (filled S T g)).tgt ((limInt (trLim lim)).getD 0)
            = some a) ∨
      sideValue (withFmm I Sc A C) E S T g vs lim = none ∧
        ¬ ((∃ b, SameBase b (g.sks.map C.kern) ∧ b.invariant = true) ∧
          ∃ a, A.assoc (DDs (filled S T g).src .quadStage2) (tgtStage (filled S T g)).tgt ((limInt (trLim lim)).getD 0)
            = some a) := by
  have hp : sideValue (withFmm I Sc A C) E S T g vs lim
      = fmmEval Sc A (evaluated C E (filled S T g) lim (vs.drop g.nd)) (vs.take g.nd) := by
    refine fmmPot_evaluated Sc A (filled S T g) h.coded lim (vs.take g.nd) (vs.drop g.nd) ?_
    simpa [filled] using hl
  rw [hp]
  by_cases hb : ∃ b, SameBase b (g.sks.map C.kern) ∧ b.invariant = true
  · cases ha : A.assoc (DDs (filled S T g).src .quadStage2) (tgtStage (filled S T g)).tgt
        ((limInt (trLim lim)).getD 0) with
    | some a =>
      obtain ⟨b, hb', hi⟩ := hb
      obtain ⟨f, h1, -⟩ := fmmEval_vals hR (evaluated C E (filled S T g) lim (vs.drop g.nd)) (vs.take g.nd) hd b hb' hi
        a ha
      exact .inl ⟨⟨f, h1⟩, ⟨b, hb', hi⟩, a, rfl⟩
    | none =>
      refine .inr ⟨?_, by rintro ⟨-, a, h⟩; cases h⟩
      obtain ⟨b, hb', hi⟩ := hb
      unfold fmmEval
      have hd' : densities (Sc.ndofs (evaluated C E (filled S T g) lim (vs.drop g.nd)).src) (vs.take g.nd)
          = .ok ((vs.take g.nd).map dens1) := densities_all _ _ hd
      rw [hd']
      simp only
      have hq : qbxExpn Sc.order (setup (0 : α) Sc.factory "sumpy" none
          (evaluated C E (filled S T g) lim (vs.drop g.nd)).sks [(evaluated C E (filled S T g) lim (vs.drop g.nd)).tk]
          [] []) = some ⟨qbxClass Sc.factory b, b, Sc.order⟩ :=
        qbxExpn_ok (α := α) Sc.factory (g.sks.map C.kern) [C.kern (E.kern g.tk)] Sc.order b hb' hi
      rw [hq, Option.bind_some]
      have ha' : A.assoc (evaluated C E (filled S T g) lim (vs.drop g.nd)).src
          (evaluated C E (filled S T g) lim (vs.drop g.nd)).tgt
          ((evaluated C E (filled S T g) lim (vs.drop g.nd)).limit.getD 0) = none := ha
      unfold fmmRun
      rw [ha']
  · refine .inr ⟨?_, fun h => hb h.1⟩
    unfold fmmEval
    have hd' : densities (Sc.ndofs (evaluated C E (filled S T g) lim (vs.drop g.nd)).src) (vs.take g.nd)
        = .ok ((vs.take g.nd).map dens1) := densities_all _ _ hd
    rw [hd']
    simp only
    have hq : qbxExpn Sc.order (setup (0 : α) Sc.factory "sumpy" none
        (evaluated C E (filled S T g) lim (vs.drop g.nd)).sks [(evaluated C E (filled S T g) lim (vs.drop g.nd)).tk]
        [] []) = none := qbxExpn_none Sc.factory (g.sks.map C.kern) [C.kern (E.kern g.tk)] Sc.order hb
    rw [hq, Option.bind_none]

/-- **C94**, `'avg'`, exactly: with densities of the right size and array arithmetic, an average evaluated with the FMM raises if and
only if the source kernels have no common translation-invariant base kernel, or target association fails for one of the sides. -/
theorem C94_mean_refused (hR : Runs Sc A) (h : Bindable E C pl S T g cs) (hc : Compiler.CfgOk c)
    (h0 : ∀ v, I.add I.zero v = v) (har : Arith E I) (hcc : Compiler.CacheValid (withFmm I Sc A C) ctx cc)
    (hlim : g.lim = .avg) (vs : List (EV α))
    (hv : Operands E (withFmm I Sc A C) ctx pl S T (filled S T g).src g.nd cs vs)
    (hd : ∀ u ∈ vs.take g.nd, ∃ f, u = EV.ve (Sc.ndofs (DDs (filled S T g).src .quadStage2)) f) :
    (∃ x, bindEval E c (withFmm I Sc A C) pl S T (.node (.intg g) cs) ctx cc = .error (.eval x)) ↔
      ¬ ((∃ b, SameBase b (g.sks.map C.kern) ∧ b.invariant = true) ∧
        (∃ a, A.assoc (DDs (filled S T g).src .quadStage2) (tgtStage (filled S T g)).tgt 1 = some a) ∧
        ∃ a, A.assoc (DDs (filled S T g).src .quadStage2) (tgtStage (filled S T g)).tgt (-1) = some a) := by
  rw [(bind_avg_exact c ctx cc (withFmm I Sc A C) (withFmm_lawful hR I C h0) h hc hcc hlim vs hv).2]
  have hp := fmmEval_isSome I Sc A hR h vs (take_length h hv) .p1 hd
  have hm := fmmEval_isSome I Sc A hR h vs (take_length h hv) .m1 hd
  have e1 : (limInt (trLim .p1)).getD 0 = 1 := rfl
  have e2 : (limInt (trLim .m1)).getD 0 = -1 := rfl
  rw [e1] at hp
  rw [e2] at hm
  constructor
  · rintro hno ⟨hb, hap, ham⟩
    rcases hp with ⟨⟨fp, hp⟩, -⟩ | ⟨-, hp⟩
    · rcases hm with ⟨⟨fm, hm⟩, -⟩ | ⟨-, hm⟩
      · have := hno _ _ _ har.half hp hm
        have hadd : ∀ n f g, (withFmm I Sc A C).add (.ve n f) (.ve n g) = .ve n fun i => f i + g i := har.add
        rw [hadd] at this
        have hs := har.scale (1/2) (Sc.ndofs (tgtStage (filled S T g)).tgt) fun i => fp i + fm i
        exact absurd (hs.symm.trans this) (by simp)
      · exact hm ⟨hb, ham⟩
    · exact hp ⟨hb, hap⟩
  · intro hno half vp vm _ hvp hvm
    rcases hp with ⟨-, hb, hap⟩ | ⟨hp, -⟩
    · rcases hm with ⟨-, -, ham⟩ | ⟨hm, -⟩
      · exact absurd ⟨hb, hap, ham⟩ hno
      · rw [hm] at hvm
        cases hvm
    · rw [hp] at hvp
      cases hvp

/-- **C94**, the FMM and direct evaluation agree on the source for `'avg'`: if association picks for each node its own centers. -/
theorem C94_agree_mean (hR : Runs Sc A) (h : Bindable E C pl S T g cs) (hc : Compiler.CfgOk c)
    (h0 : ∀ v, I.add I.zero v = v) (har : Arith E I)
    (hcc : Compiler.CacheValid (withFmm I Sc A C) ctx cc) (cc' : Compiler.Cache (EV α))
    (hcc' : Compiler.CacheValid (withScene I Sc σ C) ctx cc') (hlim : g.lim = .avg) (vs : List (EV α))
    (hv : Operands E (withFmm I Sc A C) ctx pl S T (filled S T g).src g.nd cs vs)
    (hv' : Operands E (withScene I Sc σ C) ctx pl S T (filled S T g).src g.nd cs vs)
    (hd : ∀ u ∈ vs.take g.nd, ∃ f, u = EV.ve (Sc.ndofs (DDs (filled S T g).src .quadStage2)) f)
    (b : Base) (hb : SameBase b (g.sks.map C.kern)) (hi : b.invariant = true)
    (hon : OnSource Sc (evaluated C E (filled S T g) .p1 (vs.drop g.nd)))
    (hown : ∀ l : Int, l = 1 ∨ l = -1 →
      ∃ a, A.assoc (DDs (filled S T g).src .quadStage2) (tgtStage (filled S T g)).tgt l = some a ∧
        ∀ i < Sc.ndofs (tgtStage (filled S T g)).tgt, a.getD i 0 = (Paths.own l i : Int) ∧
          Sc.center (tgtStage (filled S T g)).tgt l i = Sc.qbxCenter (Paths.own l i) ∧
          Sc.radius (tgtStage (filled S T g)).tgt i = Sc.qbxRadius (Paths.own l i))
    (hx : Sc.expn ⟨qbxClass Sc.factory b, b, Sc.order⟩
      = Sc.expn (QBXSetup.directExpn Sc.factory b [C.kern (E.kern g.tk)] Sc.order)) :
    ∃ f f', bindEval E c (withFmm I Sc A C) pl S T (.node (.intg g) cs) ctx cc
        = .ok (.ve (Sc.ndofs (tgtStage (filled S T g)).tgt) f) ∧
      bindEval E c (withScene I Sc σ C) pl S T (.node (.intg g) cs) ctx cc'
        = .ok (.ve (Sc.ndofs (tgtStage (filled S T g)).tgt) f') ∧
      ∀ i < Sc.ndofs (tgtStage (filled S T g)).tgt, f i = f' i := by
  obtain ⟨ap, hap, hp⟩ := hown 1 (.inl rfl)
  obtain ⟨am, ham, hm⟩ := hown (-1) (.inr rfl)
  obtain ⟨f, h1, h2⟩ := C94_mean c I Sc A ctx cc hR h hc h0 har hcc hlim vs hv hd b hb hi ap am hap ham
  obtain ⟨f', k1, k2⟩ := C90_mean c I Sc σ ctx cc' h hc h0 har hcc' hlim vs hv' hd ⟨b, hb⟩ hon
  refine ⟨f, f', h1, k1, fun i hi => ?_⟩
  rw [h2 i hi, k2 i hi, (hp i hi).1, (hm i hi).1]
  have side : ∀ (lim : Lim) (l : Int), limInt (trLim lim) = some l →
      Sc.center (tgtStage (filled S T g)).tgt l i = Sc.qbxCenter (Paths.own l i) →
      Sc.radius (tgtStage (filled S T g)).tgt i = Sc.qbxRadius (Paths.own l i) →
      fmmValue Sc (evaluated C E (filled S T g) lim (vs.drop g.nd)) b (Paths.own l i : Int) ((vs.take g.nd).map dens1) i
        = qbxSum Sc (evaluated C E (filled S T g) lim (vs.drop g.nd)) l ((vs.take g.nd).map dens1) i := by
    intro lim l hl hcen hrad
    unfold fmmValue
    rw [if_neg (by omega)]
    unfold fmmSum qbxSum
    congr 1
    apply List.map_congr_left
    intro q hq
    have hqb : q.1.getBase = b := hb.2 q.1 (List.of_mem_zip hq).1
    simp only [evaluated, filled] at hcen hrad hx hqb ⊢
    rw [hqb, hcen, hrad, hx]
    rfl
  rw [side .p1 1 rfl (hp i hi).2.1 (hp i hi).2.2, side .m1 (-1) rfl (hm i hi).2.1 (hm i hi).2.2]

/-! ### The hypotheses can be met -/

/-- `exRuns` for both sides of the source -/
theorem exRunsBoth : ∃ A : Accel ℚ ℚ ℚ, A.src = exSource ∧ A.srcDist = (fun (p : ℚ) (j : Nat) => |p - (j : ℚ)|) ∧
    A.ctrDist = (fun p k => |p - (((k / 2 : Nat) : ℚ) + if k % 2 = 1 then 1/4 else -1/4)|) ∧ Runs exFScene A ∧
    A.assoc (exD (some .quadStage2)) (exD (some .stage1)) 1 ≠ none ∧
    A.assoc (exD (some .quadStage2)) (exD (some .stage1)) (-1) ≠ none := by
  obtain ⟨A, h1, h2, h3, h4, h5⟩ := runs_exist exFScene exSource (fun (p : ℚ) (j : Nat) => |p - (j : ℚ)|)
    (fun p k => |p - (((k / 2 : Nat) : ℚ) + if k % 2 = 1 then 1/4 else -1/4)|) (fun _ _ => by simp [exSource])
  have two : ∀ i : Nat, i < 2 → i = 0 ∨ i = 1 := fun i _ => by omega
  refine ⟨A, h1, h2, h3, h4, h5 _ _ _ ?_, h5 _ _ _ ?_⟩
  · intro i hi _
    rcases two i hi with rfl | rfl
    · exact ⟨1, by decide, by decide, by decide +kernel⟩
    · exact ⟨3, by decide, by decide, by decide +kernel⟩
  · intro i hi _
    rcases two i hi with rfl | rfl
    · exact ⟨0, by decide, by decide, by decide +kernel⟩
    · exact ⟨2, by decide, by decide, by decide +kernel⟩

/-- The average on the source: the FMM evaluates it without raising, and to the same entries as direct evaluation. -/
example : ∃ A : Accel ℚ ℚ ℚ, Runs exFScene A ∧ ∀ σ : Direct.Sched,
    (¬ ∃ x, bindEval exEnc Compiler.exCfg (withFmm exI exFScene A exCoding) [(.ident "q", .qbx)] (exD none) (exD none)
        (.node (.intg (exG .avg)) (vars ["sigma"])) exCtx [] = .error (.eval x)) ∧
    (∃ v, bindEval exEnc Compiler.exCfg (withScene exI exFScene σ exCoding) [(.ident "q", .qbx)] (exD none) (exD none)
        (.node (.intg (exG .avg)) (vars ["sigma"])) exCtx [] = .ok v) ∧
    ∃ f f', bindEval exEnc Compiler.exCfg (withFmm exI exFScene A exCoding) [(.ident "q", .qbx)] (exD none) (exD none)
        (.node (.intg (exG .avg)) (vars ["sigma"])) exCtx [] = .ok (.ve 2 f) ∧
      bindEval exEnc Compiler.exCfg (withScene exI exFScene σ exCoding) [(.ident "q", .qbx)] (exD none) (exD none)
        (.node (.intg (exG .avg)) (vars ["sigma"])) exCtx [] = .ok (.ve 2 f') ∧ ∀ i < 2, f i = f' i := by
  obtain ⟨A, h1, h2, h3, hR, hA, hA'⟩ := exRunsBoth
  refine ⟨A, hR, fun σ => ?_⟩
  have hv : Given exEnc exI exCtx (filled (exD none) (exD none) (exG .avg)).src 1 ["sigma"] [.ve 2 fun _ => 1] :=
    ⟨⟨_, rfl, rfl⟩, trivial⟩
  have hvF : Given exEnc (withFmm exI exFScene A exCoding) exCtx (filled (exD none) (exD none) (exG .avg)).src 1 ["sigma"]
      [.ve 2 fun _ => 1] := ⟨⟨_, rfl, rfl⟩, trivial⟩
  have hcc : ∀ I : Compiler.Interp (EV ℚ), Compiler.CacheValid I exCtx [] := fun I => by
    intro k v h
    simp at h
  have hd : ∀ u ∈ ([.ve 2 fun _ => 1] : List (EV ℚ)), ∃ f, u = EV.ve 2 f := by
    intro u hu
    rw [List.mem_singleton] at hu
    exact ⟨_, hu⟩
  have hb : SameBase (.laplace 2) [exCoding.kern "G"] := ⟨by simp, by simp [exCoding, Kn.getBase]⟩
  have hno : ∀ side : Int, ∀ i < 2, Paths.NoTie A.src exFScene.ncenters
      ⟨side, A.srcDist (exFScene.node (exD (some .stage1)) i), A.ctrDist (exFScene.node (exD (some .stage1)) i), [], [], []⟩ := by
    intro side i hi
    rw [h1, h2, h3]
    have : i = 0 ∨ i = 1 := by omega
    rcases this with rfl | rfl
    · exact exNoTie 0 (by simp) side
    · exact exNoTie 1 (by simp) side
  have hown : ∀ l : Int, l = 1 ∨ l = -1 → ∃ a, A.assoc (exD (some .quadStage2)) (exD (some .stage1)) l = some a ∧
      ∀ i < 2, a.getD i 0 = (Paths.own l i : Int) ∧
        exFScene.center (exD (some .stage1)) l i = exFScene.qbxCenter (Paths.own l i) ∧
        exFScene.radius (exD (some .stage1)) i = exFScene.qbxRadius (Paths.own l i) := by
    intro l hl
    rcases hl with rfl | rfl
    · obtain ⟨a, ha⟩ := Option.ne_none_iff_exists'.1 hA
      have hn := assoc_nearest hR (evaluated exCoding exEnc (filled (exD none) (exD none) (exG .p1)) .p1 []) a ha (hno 1)
      have hn2 : a = [1, 3] := by
        rw [hn]
        unfold nearest
        rw [h1, h2, h3]
        decide +kernel
      refine ⟨a, ha, fun i hi => ?_⟩
      have : i = 0 ∨ i = 1 := by omega
      rw [hn2]
      rcases this with rfl | rfl <;> exact ⟨rfl, by decide +kernel, rfl⟩
    · obtain ⟨a, ha⟩ := Option.ne_none_iff_exists'.1 hA'
      have hn := assoc_nearest hR (evaluated exCoding exEnc (filled (exD none) (exD none) (exG .m1)) .m1 []) a ha (hno (-1))
      have hn2 : a = [0, 2] := by
        rw [hn]
        unfold nearest
        rw [h1, h2, h3]
        decide +kernel
      refine ⟨a, ha, fun i hi => ?_⟩
      have : i = 0 ∨ i = 1 := by omega
      rw [hn2]
      rcases this with rfl | rfl <;> exact ⟨rfl, by decide +kernel, rfl⟩
  have hB : Bindable exEnc exCoding [(.ident "q", .qbx)] (exD none) (exD none) (exG .avg) (vars ["sigma"]) :=
    exBindable .avg (by simp)
  obtain ⟨f, f', k1, k2, k3⟩ := C94_agree_mean Compiler.exCfg exI exFScene σ A exCtx [] hR hB Compiler.exCfg_ok exZero
    exArith (hcc _) [] (hcc _) rfl [.ve 2 fun _ => 1] (operands_vars _ _ _ _ hvF)
    (operands_vars _ _ _ _ (given_scene _ _ _ _ hv)) hd (.laplace 2) hb rfl
    ⟨⟨0, rfl⟩, ⟨1, rfl, rfl, rfl⟩, 1, rfl, by decide⟩ hown rfl
  refine ⟨?_, ⟨_, k2⟩, f, f', k1, k2, k3⟩
  rw [C94_mean_refused Compiler.exCfg exI exFScene A exCtx [] hR hB Compiler.exCfg_ok exZero exArith (hcc _) rfl
    [.ve 2 fun _ => 1] (operands_vars _ _ _ _ hvF) hd, not_not]
  obtain ⟨a, ha, -⟩ := hown 1 (.inl rfl)
  obtain ⟨a', ha', -⟩ := hown (-1) (.inr rfl)
  exact ⟨⟨.laplace 2, hb, rfl⟩, ⟨a, ha⟩, a', ha'⟩

/-- a density of the wrong size makes the average raise -/
example (σ : Direct.Sched) : ∃ x, bindEval exEnc Compiler.exCfg (withScene exI1 exScene σ exCoding) [(.ident "q", .qbx)]
    (exD none) (exD none) (.node (.intg (exG .avg)) (vars ["sigma"]))
    (fun x => if x = "sigma" then some (.ve 3 fun _ => 1) else none) [] = .error (.eval x) := by
  have hv : Given exEnc exI1 (fun x => if x = "sigma" then some (.ve 3 fun _ => 1) else none)
      (filled (exD none) (exD none) (exG .avg)).src 1 ["sigma"] [.ve 3 fun _ => 1] := ⟨⟨_, rfl, rfl⟩, trivial⟩
  refine (C90_average_exact Compiler.exCfg exI1 exScene σ _ [] (exBindable .avg (by simp)) Compiler.exCfg_ok exZero
    (by intro k v h; simp at h) rfl [.ve 3 fun _ => 1]
    (operands_vars _ _ _ _ (given_scene _ _ _ _ hv))).2.2 ?_
  rintro half vp vm - h -
  cases h

end Verif.BindLayer
