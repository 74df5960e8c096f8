import Verif.Bind.Exact
import Verif.Bind.FmmLayer

/-!
# Exactly when evaluating a bound layer potential raises (C90, C94)

Consequences of C76_exact for `bind(places, IntG)(**inputs)`: it returns what evaluating the layer potential returns, and raises if that
raises.  No new model.
-/

set_option linter.unusedSectionVars false

namespace Verif.BindLayer

open Verif.Sym Verif.DofDesc Verif.Bind
open Verif.QBXSetup (Kn Base SameBase Expn Wrangler setup qbxClass)
open Verif.MatBuild (EV Arr interpEV)
open Verif.LayerMat (Scene Pot directPot densities strengths sumOver qbxSum plainSum dens1 OnSource GoodBatch)

variable {α P F : Type} [Field α] [DecidableEq α] [Field F] [LinearOrder F] [IsStrictOrderedRing F]
variable {E : Enc} {C : Coding} {pl : List (Obj × PlaceKind)} {S T : DD} {g : IG} {cs : List SE}
variable (c : Compiler.Cfg) (I : Compiler.Interp (EV α)) (Sc : Scene α P (Args α)) (σ : Direct.Sched) (A : Accel α F P)
  (ctx : Compiler.Ctx (EV α)) (cc : Compiler.Cache (EV α))

/-- one layer potential, prepared: its value is that of the layer potential of the values of its operands, or neither exists -/
theorem den_prepared (J : Compiler.Interp (EV α)) (g : IG) (lim : Lim) (cs : List SE) (vs : List (EV α))
    (hup : upsamples pl (filled S T g) = true) (hg : (filled S T g).src.gran ≠ .center)
    (hv : Operands E J ctx pl S T (filled S T g).src g.nd cs vs) :
    ∃ e', interpPre pl false (.node (.intg { filled S T g with lim := lim })
        (expandL (qbxNames pl) (placedL S T true cs))) = .ok e' ∧
      Compiler.den J ctx (tr E e') = J.pot (E.place (DDs (filled S T g).src .quadStage2)) (g.sks.zip (vs.take g.nd))
        (g.kn.zip (vs.drop g.nd)) (E.kern g.tk) (E.place (tgtStage (filled S T g)).tgt) (trLim lim) := by
  obtain ⟨cs', h1, h2, h3⟩ := operands_ok (filled S T g).src hg g.nd cs vs hv
  have ht : ∀ l, (tgtStage { filled S T g with lim := l }) = { tgtStage (filled S T g) with lim := l } := by
    intro l
    unfold tgtStage
    simp only
    split <;> rfl
  have htg : (tgtStage (filled S T g)).nd = g.nd ∧ (tgtStage (filled S T g)).sks = g.sks ∧
      (tgtStage (filled S T g)).kn = g.kn ∧ (tgtStage (filled S T g)).tk = g.tk := by
    unfold tgtStage
    split <;> exact ⟨rfl, rfl, rfl, rfl⟩
  have hup' : upsampled pl (tgtStage { filled S T g with lim := lim }) = .ok true :=
    (upsampled_true (g := { filled S T g with lim := lim }) hup).1
  refine ⟨.node (.intg { tgtStage { filled S T g with lim := lim } with src := DDs (filled S T g).src .quadStage2 }) cs',
    ?_, ?_⟩
  · simp only [interpPre]
    rw [hup']
    simp only
    have h1' := h1
    simp only [filled] at h1' ⊢
    rw [h1']
  · obtain ⟨a, b⟩ := denL_take J ctx g.nd _ _ h3
    rw [ht]
    simp only [tr, Compiler.den, htg.1, a, b, trG, htg.2.1, htg.2.2.1, htg.2.2.2]

/-- a bound layer potential returns exactly what evaluating the layer potential returns -/
theorem bind_exact (J : Compiler.Interp (EV α)) (hJ : Compiler.Lawful J) (h : Bindable E C pl S T g cs)
    (hc : Compiler.CfgOk c) (hcc : Compiler.CacheValid J ctx cc) (hlim : g.lim ≠ .avg) (vs : List (EV α))
    (hv : Operands E J ctx pl S T (filled S T g).src g.nd cs vs) :
    (∀ v, bindEval E c J pl S T (.node (.intg g) cs) ctx cc = .ok v ↔
      J.pot (E.place (DDs (filled S T g).src .quadStage2)) (g.sks.zip (vs.take g.nd)) (g.kn.zip (vs.drop g.nd))
        (E.kern g.tk) (E.place (tgtStage (filled S T g)).tgt) (trLim g.lim) = some v) ∧
    ((∃ x, bindEval E c J pl S T (.node (.intg g) cs) ctx cc = .error (.eval x)) ↔
      J.pot (E.place (DDs (filled S T g).src .quadStage2)) (g.sks.zip (vs.take g.nd)) (g.kn.zip (vs.drop g.nd))
        (E.kern g.tk) (E.place (tgtStage (filled S T g)).tgt) (trLim g.lim) = none) := by
  obtain ⟨e', h1, h2⟩ := den_prepared ctx J g g.lim cs vs h.qbx h.gran hv
  have hpre : interpPre pl false (expand (qbxNames pl) (placed S T false (.node (.intg g) cs))) = .ok e' := by
    rw [placed_intg]
    simp only [expand]
    rw [if_neg (by rintro ⟨_, h⟩; exact hlim h)]
    exact h1
  have hok : prepare pl S T (.node (.intg g) cs) = .ok e' := by rw [prepare_ok h.unreg h.plain h.limits, hpre]
  have hna : NoAvg e' := noAvg_interpPre pl _ (noAvg_expand _ _ h.plain.avg) _ _ hpre
  have hden : meaning (mean E J ctx) pl false (placed S T false (.node (.intg g) cs)) = Compiler.den J ctx (tr E e') := by
    rw [← meaning_expand (mean E J ctx) pl (qbxNames pl), ← interpPre_value _ pl _ _ _ hpre, ← tr_den E J ctx e' hna]
  obtain ⟨k1, k2⟩ := C76_exact E c J pl S T _ e' ctx cc hc hJ hcc h.unreg h.plain h.good h.names hok
  rw [hden, h2] at k2
  refine ⟨fun v => ?_, k2⟩
  rw [k1 v, hden, h2]

/-- **C90**, exactly: `bind(places, IntG)(**inputs)` returns `v` if and only if direct evaluation of the layer potential does, and
raises if and only if direct evaluation raises. -/
theorem C90_exact (h : Bindable E C pl S T g cs) (hc : Compiler.CfgOk c) (h0 : ∀ v, I.add I.zero v = v)
    (hcc : Compiler.CacheValid (withScene I Sc σ C) ctx cc) (hlim : g.lim ≠ .avg) (vs : List (EV α))
    (hv : Operands E (withScene I Sc σ C) ctx pl S T (filled S T g).src g.nd cs vs) :
    (∀ v, bindEval E c (withScene I Sc σ C) pl S T (.node (.intg g) cs) ctx cc = .ok v ↔
      directPot Sc σ [C.kern (E.kern g.tk)] (evaluated C E (filled S T g) g.lim (vs.drop g.nd)) (vs.take g.nd) = .ok v) ∧
    ((∃ x, bindEval E c (withScene I Sc σ C) pl S T (.node (.intg g) cs) ctx cc = .error (.eval x)) ↔
      ∃ x, directPot Sc σ [C.kern (E.kern g.tk)] (evaluated C E (filled S T g) g.lim (vs.drop g.nd)) (vs.take g.nd)
        = .error x) := by
  have hp : (withScene I Sc σ C).pot (E.place (DDs (filled S T g).src .quadStage2)) (g.sks.zip (vs.take g.nd))
      (g.kn.zip (vs.drop g.nd)) (E.kern g.tk) (E.place (tgtStage (filled S T g)).tgt) (trLim g.lim)
      = (directPot Sc σ [C.kern (E.kern g.tk)] (evaluated C E (filled S T g) g.lim (vs.drop g.nd))
        (vs.take g.nd)).toOption := by
    refine scenePot_evaluated (E := E) Sc σ C (filled S T g) h.coded g.lim (vs.take g.nd) (vs.drop g.nd) ?_
    have := take_length h hv
    simpa [filled] using this
  obtain ⟨k1, k2⟩ := bind_exact c ctx cc (withScene I Sc σ C) (withScene_lawful I Sc σ C h0) h hc hcc hlim vs hv
  rw [hp] at k2
  constructor
  · intro v
    rw [k1 v, hp]
    cases directPot Sc σ [C.kern (E.kern g.tk)] (evaluated C E (filled S T g) g.lim (vs.drop g.nd)) (vs.take g.nd) <;>
      simp [Except.toOption]
  · rw [k2]
    cases directPot Sc σ [C.kern (E.kern g.tk)] (evaluated C E (filled S T g) g.lim (vs.drop g.nd)) (vs.take g.nd) <;>
      simp [Except.toOption]

/-- **C90** for whole expressions: an expression with any number of layer potentials on a QBX source without acceleration, and any
other operations, evaluates to the value of the expression in which layer potentials have the values of direct evaluation, and raises if and
only if that has no value. -/
theorem C90_expression (e e' : SE) (hc : Compiler.CfgOk c) (h0 : ∀ v, I.add I.zero v = v)
    (hcc : Compiler.CacheValid (withScene I Sc σ C) ctx cc) (hu : UnregOk pl e) (hp : Plain pl S T e) (hg : Good e)
    (hn : Bind.NoClash e) (hok : prepare pl S T e = .ok e') :
    (∀ v, bindEval E c (withScene I Sc σ C) pl S T e ctx cc = .ok v ↔
      meaning (mean E (withScene I Sc σ C) ctx) pl false (placed S T false e) = some v) ∧
    ((∃ x, bindEval E c (withScene I Sc σ C) pl S T e ctx cc = .error (.eval x)) ↔
      meaning (mean E (withScene I Sc σ C) ctx) pl false (placed S T false e) = none) :=
  C76_exact E c (withScene I Sc σ C) pl S T e e' ctx cc hc (withScene_lawful I Sc σ C h0) hcc hu hp hg hn hok

/-- **C94**, exactly: with densities of the right size, evaluation with the FMM returns a value if and only if the source kernels
have a common base kernel that is translation invariant and target association succeeds; otherwise it raises. -/
theorem C94_refused (hR : Runs Sc A) (h : Bindable E C pl S T g cs) (hc : Compiler.CfgOk c)
    (h0 : ∀ v, I.add I.zero v = v) (hcc : Compiler.CacheValid (withFmm I Sc A C) ctx cc) (hlim : g.lim ≠ .avg)
    (vs : List (EV α)) (hv : Operands E (withFmm I Sc A C) ctx pl S T (filled S T g).src g.nd cs vs)
    (hd : ∀ u ∈ vs.take g.nd, ∃ f, u = EV.ve (Sc.ndofs (DDs (filled S T g).src .quadStage2)) f) :
    (∃ x, bindEval E c (withFmm I Sc A C) pl S T (.node (.intg g) cs) ctx cc = .error (.eval x)) ↔
      ¬ ((∃ b, SameBase b (g.sks.map C.kern) ∧ b.invariant = true) ∧
        ∃ a, A.assoc (DDs (filled S T g).src .quadStage2) (tgtStage (filled S T g)).tgt ((limInt (trLim g.lim)).getD 0)
          = some a) := by
  have hp : (withFmm I Sc A C).pot (E.place (DDs (filled S T g).src .quadStage2)) (g.sks.zip (vs.take g.nd))
      (g.kn.zip (vs.drop g.nd)) (E.kern g.tk) (E.place (tgtStage (filled S T g)).tgt) (trLim g.lim)
      = fmmEval Sc A (evaluated C E (filled S T g) g.lim (vs.drop g.nd)) (vs.take g.nd) := by
    refine fmmPot_evaluated Sc A (filled S T g) h.coded g.lim (vs.take g.nd) (vs.drop g.nd) ?_
    have := take_length h hv
    simpa [filled] using this
  rw [(bind_exact c ctx cc (withFmm I Sc A C) (withFmm_lawful hR I C h0) h hc hcc hlim vs hv).2, hp]
  constructor
  · rintro hnone ⟨⟨b, hb, hi⟩, a, ha⟩
    rw [fmmEval_ok hR (evaluated C E (filled S T g) g.lim (vs.drop g.nd)) (vs.take g.nd) hd b hb hi a ha] at hnone
    cases hnone
  · intro hno
    unfold fmmEval
    have hd' : densities (Sc.ndofs (evaluated C E (filled S T g) g.lim (vs.drop g.nd)).src) (vs.take g.nd)
        = .ok ((vs.take g.nd).map dens1) := densities_all _ _ hd
    rw [hd']
    simp only
    by_cases hb : ∃ b, SameBase b (g.sks.map C.kern) ∧ b.invariant = true
    · obtain ⟨b, hb, hi⟩ := hb
      have hq := qbxExpn_ok (α := α) Sc.factory (g.sks.map C.kern) [C.kern (E.kern g.tk)] Sc.order b hb hi
      have ha : A.assoc (DDs (filled S T g).src .quadStage2) (tgtStage (filled S T g)).tgt
          ((limInt (trLim g.lim)).getD 0) = none := by
        cases ha : A.assoc (DDs (filled S T g).src .quadStage2) (tgtStage (filled S T g)).tgt
            ((limInt (trLim g.lim)).getD 0) with
        | none => rfl
        | some a => exact absurd ⟨⟨b, hb, hi⟩, a, ha⟩ hno
      have hq' : qbxExpn Sc.order (setup (0 : α) Sc.factory "sumpy" none
          (evaluated C E (filled S T g) g.lim (vs.drop g.nd)).sks [(evaluated C E (filled S T g) g.lim (vs.drop g.nd)).tk]
          [] []) = some ⟨qbxClass Sc.factory b, b, Sc.order⟩ := hq
      rw [hq', Option.bind_some]
      have ha' : A.assoc (evaluated C E (filled S T g) g.lim (vs.drop g.nd)).src
          (evaluated C E (filled S T g) g.lim (vs.drop g.nd)).tgt
          ((evaluated C E (filled S T g) g.lim (vs.drop g.nd)).limit.getD 0) = none := ha
      unfold fmmRun
      rw [ha']
    · have hq' : qbxExpn Sc.order (setup (0 : α) Sc.factory "sumpy" none
          (evaluated C E (filled S T g) g.lim (vs.drop g.nd)).sks [(evaluated C E (filled S T g) g.lim (vs.drop g.nd)).tk]
          [] []) = none := qbxExpn_none Sc.factory (g.sks.map C.kern) [C.kern (E.kern g.tk)] Sc.order hb
      rw [hq', Option.bind_none]

/-! ### The hypotheses can be met -/

/-- with association and a common invariant base kernel, nothing is raised -/
example : ∃ A : Accel ℚ ℚ ℚ, Runs exFScene A ∧ ∃ v,
    bindEval exEnc Compiler.exCfg (withFmm exI exFScene A exCoding) [(.ident "q", .qbx)] (exD none) (exD none)
        (.node (.intg (exG .p1)) (vars ["sigma"])) exCtx [] = .ok v ∧
    ¬ ∃ x, bindEval exEnc Compiler.exCfg (withFmm exI exFScene A exCoding) [(.ident "q", .qbx)] (exD none) (exD none)
        (.node (.intg (exG .p1)) (vars ["sigma"])) exCtx [] = .error (.eval x) := by
  obtain ⟨A, h1, h2, h3, hR, hA, -⟩ := exRuns
  have hvF : Given exEnc (withFmm exI exFScene A exCoding) exCtx (filled (exD none) (exD none) (exG .p1)).src 1 ["sigma"]
      [.ve 2 fun _ => 1] := ⟨⟨_, rfl, rfl⟩, trivial⟩
  obtain ⟨a, ha⟩ := Option.ne_none_iff_exists'.1 hA
  have hb : SameBase (.laplace 2) [exCoding.kern "G"] := ⟨by simp, by simp [exCoding, Kn.getBase]⟩
  have hd : ∀ u ∈ ([.ve 2 fun _ => 1] : List (EV ℚ)), ∃ f, u = EV.ve 2 f := by
    intro u hu
    rw [List.mem_singleton] at hu
    exact ⟨_, hu⟩
  have hno : ¬ ∃ x, bindEval exEnc Compiler.exCfg (withFmm exI exFScene A exCoding) [(.ident "q", .qbx)] (exD none) (exD none)
        (.node (.intg (exG .p1)) (vars ["sigma"])) exCtx [] = .error (.eval x) := by
    rw [C94_refused Compiler.exCfg exI exFScene A exCtx [] hR (exBindable .p1 (by simp)) Compiler.exCfg_ok exZero
      (by intro k v h; simp at h) (by simp [exG]) [.ve 2 fun _ => 1] (operands_vars _ _ _ _ hvF) hd, not_not]
    exact ⟨⟨.laplace 2, hb, rfl⟩, a, ha⟩
  obtain ⟨f, k1, -⟩ := C94_potential Compiler.exCfg exI exFScene A exCtx [] hR (exBindable .p1 (by simp))
    Compiler.exCfg_ok exZero (by intro k v h; simp at h) (by simp [exG]) [.ve 2 fun _ => 1] (operands_vars _ _ _ _ hvF) hd
    (.laplace 2) hb rfl a ha
  exact ⟨A, hR, _, k1, hno⟩

/-- if association fails, evaluation raises -/
example : ∃ A : Accel ℚ ℚ ℚ, Runs exFScene A ∧
    ∃ x, bindEval exEnc Compiler.exCfg (withFmm exI exFScene A exCoding) [(.ident "q", .qbx)] (exD none) (exD none)
        (.node (.intg (exG .p1)) (vars ["sigma"])) exCtx [] = .error (.eval x) := by
  obtain ⟨A, h1, h2, h3, hR, hA, -⟩ := exRuns
  have hR' : Runs exFScene { A with assoc := fun _ _ _ => none } := ⟨hR.pos, hR.inspect, fun _ _ _ _ h => by cases h⟩
  refine ⟨{ A with assoc := fun _ _ _ => none }, hR', ?_⟩
  have hvF : Given exEnc (withFmm exI exFScene { A with assoc := fun _ _ _ => none } exCoding) exCtx
      (filled (exD none) (exD none) (exG .p1)).src 1 ["sigma"] [.ve 2 fun _ => 1] := ⟨⟨_, rfl, rfl⟩, trivial⟩
  refine (C94_refused Compiler.exCfg exI exFScene _ exCtx [] hR' (exBindable .p1 (by simp)) Compiler.exCfg_ok exZero
      (by intro k v h; simp at h) (by simp [exG]) [.ve 2 fun _ => 1] (operands_vars _ _ _ _ hvF) ?_).2 ?_
  · intro u hu
    have hu : u ∈ ([.ve 2 fun _ => 1] : List (EV ℚ)) := hu
    rw [List.mem_singleton] at hu
    exact ⟨_, hu⟩
  · rintro ⟨-, a, ha⟩
    cases ha

/-- like `exI`, with interpolation that does nothing -/
def exI1 : Compiler.Interp (EV ℚ) := { exI with op := fun f l => if f = "interp" then l.head? else exI.op f l }

/-- a density of the wrong size makes direct evaluation raise -/
example (σ : Direct.Sched) : ∃ x, bindEval exEnc Compiler.exCfg (withScene exI1 exScene σ exCoding) [(.ident "q", .qbx)]
    (exD none) (exD none) (.node (.intg (exG .p1)) (vars ["sigma"]))
    (fun x => if x = "sigma" then some (.ve 3 fun _ => 1) else none) [] = .error (.eval x) := by
  have hv : Given exEnc exI1 (fun x => if x = "sigma" then some (.ve 3 fun _ => 1) else none)
      (filled (exD none) (exD none) (exG .p1)).src 1 ["sigma"] [.ve 3 fun _ => 1] := ⟨⟨_, rfl, rfl⟩, trivial⟩
  exact (C90_exact Compiler.exCfg exI1 exScene σ _ [] (exBindable .p1 (by simp)) Compiler.exCfg_ok exZero
    (by intro k v h; simp at h) (by simp [exG]) [.ve 3 fun _ => 1]
    (operands_vars _ _ _ _ (given_scene _ _ _ _ hv))).2.2 ⟨_, rfl⟩

end Verif.BindLayer
