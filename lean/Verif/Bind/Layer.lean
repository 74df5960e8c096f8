import Verif.Bind.Props
import Verif.Exec.LayerMat
import Mathlib.Data.Multiset.Basic

/-!
# From `bind` to the QBX sum (C90)

`bind(places, IntG(...))(**inputs)` with everything filled in: the preparation, compilation and execution of C76, where
layer potentials are now evaluated by the model of direct evaluation (`exec_compute_potential_insn_direct`,
`pytential/qbx/__init__.py:866-1068`, C40, C79, C88) on the geometry of a scene.

Simplifications: those of C76 and of `Verif.Exec.LayerMat`.  A statement is executed output by output; by C88 (batches) this
makes no difference if either all target kernels of the statement have derivatives or none has (the only choice made for a
whole statement, C79).  The strings standing for kernels and places in the model of the compiler are decoded by
`Coding`.
-/

set_option linter.unusedSectionVars false

namespace Verif.BindLayer

open Verif.Sym Verif.DofDesc Verif.Bind
open Verif.QBXSetup (Kn Base SameBase commonBase commonBase_ok onSurface offSurface Expn directExpn)
open Verif.MatBuild (EV Arr interpEV)
open Verif.LayerMat (Scene Pot directPot densities strengths sumOver qbxSum plainSum dens1 OnSource GoodBatch)

variable {α P : Type} [Field α] [DecidableEq α]

/-- kernel arguments: names with values, in no particular order (a `dict`) -/
abbrev Args (α : Type) := Multiset (String × EV α)

/-! ## Model -/

/-- what the strings in the model of the compiler stand for -/
structure Coding where
  place : String → DD
  kern : String → Kn

/-- `qbx_forced_limit` as a number (`primitives.py:1923`); `'avg'` does not reach execution (`compiler.py:767-768`) -/
def limInt : Compiler.Lim → Option Int
  | .none => none
  | .m2 => some (-2)
  | .m1 => some (-1)
  | .p1 => some 1
  | .p2 => some 2
  | .avg => none

/-- the layer potential of a statement -/
def potOf (C : Coding) (src : String) (pairs : List (String × EV α)) (kargs : List (String × EV α)) (tk tgt : String)
    (lim : Compiler.Lim) : Pot (Args α) :=
  ⟨pairs.map fun p => C.kern p.1, C.kern tk, C.place src, C.place tgt, limInt lim, ↑kargs⟩

/-- `exec_compute_potential_insn` of a QBX source without acceleration (`qbx/__init__.py:534-554`, `:866-1068`) -/
def scenePot (Sc : Scene α P (Args α)) (σ : Direct.Sched) (C : Coding) (src : String) (pairs kargs : List (String × EV α))
    (tk tgt : String) (lim : Compiler.Lim) : Option (EV α) :=
  (directPot Sc σ [C.kern tk] (potOf C src pairs kargs tk tgt lim) (pairs.map Prod.snd)).toOption

/-- an evaluator whose layer potentials are those of the scene -/
def withScene (I : Compiler.Interp (EV α)) (Sc : Scene α P (Args α)) (σ : Direct.Sched) (C : Coding) :
    Compiler.Interp (EV α) :=
  { I with pot := scenePot Sc σ C }

/-! ## Direct evaluation does not depend on the order of the densities -/

theorem densities_all (n : Nat) : ∀ us : List (EV α), (∀ u ∈ us, ∃ f, u = .ve n f) → densities n us = .ok (us.map dens1)
  | [], _ => rfl
  | u :: us, h => by
    obtain ⟨f, rfl⟩ := h u List.mem_cons_self
    simp only [densities]
    rw [if_pos trivial, densities_all n us fun u hu => h u (List.mem_cons_of_mem _ hu)]
    rfl

theorem sumOver_perm (Sc : Scene α P (Args α)) (src : DD) (K : String → Kn) (f : Kn → P → α)
    {p p' : List (String × EV α)} (h : p.Perm p') :
    sumOver Sc src (p.map fun q => K q.1) (strengths Sc src ((p.map Prod.snd).map dens1)) f =
      sumOver Sc src (p'.map fun q => K q.1) (strengths Sc src ((p'.map Prod.snd).map dens1)) f := by
  have key : ∀ p : List (String × EV α),
      sumOver Sc src (p.map fun q => K q.1) (strengths Sc src ((p.map Prod.snd).map dens1)) f =
        (p.map fun q => ∑ j ∈ Finset.range (Sc.ndofs src), f (K q.1) (Sc.node src j) * (Sc.waa src j * dens1 q.2 j)).sum := by
    intro p
    unfold sumOver strengths
    rw [List.map_map, List.map_map, List.zip_map', List.map_map]
    rfl
  rw [key, key]
  exact (h.map _).sum_eq

theorem sameBase_perm {b : Base} {k k' : List Kn} (h : k.Perm k') (hb : SameBase b k) : SameBase b k' := by
  refine ⟨?_, fun x hx => hb.2 x (h.mem_iff.2 hx)⟩
  intro h0
  rw [h0] at h
  exact hb.1 h.eq_nil

theorem commonBase_perm {k k' : List Kn} (h : k.Perm k') : (commonBase k).toOption = (commonBase k').toOption := by
  cases hb : commonBase k with
  | ok b =>
    rw [(commonBase_ok k' b).2 (sameBase_perm h ((commonBase_ok k b).1 hb))]
  | error e =>
    cases hb' : commonBase k' with
    | ok b =>
      rw [(commonBase_ok k b).2 (sameBase_perm h.symm ((commonBase_ok k' b).1 hb'))] at hb
      cases hb
    | error e' => rfl

open Classical in
/-- what direct evaluation does, as an option -/
theorem scenePot_eq (Sc : Scene α P (Args α)) (σ : Direct.Sched) (C : Coding) (src : String)
    (pairs kargs : List (String × EV α)) (tk tgt : String) (lim : Compiler.Lim) :
    scenePot Sc σ C src pairs kargs tk tgt lim =
      if ∀ u ∈ pairs.map Prod.snd, ∃ f, u = EV.ve (Sc.ndofs (C.place src)) f then
        (commonBase (pairs.map fun p => C.kern p.1)).toOption.bind fun b =>
          (LayerMat.finish (Sc.ndofs (C.place tgt)) (Direct.exec σ
            (LayerMat.env Sc (directExpn Sc.factory b [C.kern tk] Sc.order) ⟨"VolumeTaylorLocalExpansion", b, Sc.order⟩
              [C.kern tk] (potOf C src pairs kargs tk tgt lim) ((pairs.map Prod.snd).map dens1))
            [LayerMat.outOf [C.kern tk] (potOf C src pairs kargs tk tgt lim)])).toOption
      else none := by
  unfold scenePot directPot
  rw [if_neg (by simp [potOf])]
  by_cases h : ∀ u ∈ pairs.map Prod.snd, ∃ f, u = EV.ve (Sc.ndofs (C.place src)) f
  · rw [if_pos h]
    have := densities_all _ _ h
    simp only [potOf] at this ⊢
    rw [this]
    simp only [onSurface, offSurface]
    cases commonBase (pairs.map fun p => C.kern p.1) <;> rfl
  · rw [if_neg h]
    cases hd : densities (Sc.ndofs (potOf C src pairs kargs tk tgt lim).src) (pairs.map Prod.snd) with
    | ok d => exact absurd (LayerMat.densities_ok _ _ _ hd).2 h
    | error e => rfl

theorem scenePot_perm (Sc : Scene α P (Args α)) (σ : Direct.Sched) (C : Coding) (src : String)
    {p p' k k' : List (String × EV α)} (tk tgt : String) (lim : Compiler.Lim) (hp : p.Perm p') (hk : k.Perm k') :
    scenePot Sc σ C src p k tk tgt lim = scenePot Sc σ C src p' k' tk tgt lim := by
  have hkk : (↑k : Args α) = ↑k' := Multiset.coe_eq_coe.2 hk
  rw [scenePot_eq, scenePot_eq]
  have h1 : (∀ u ∈ p.map Prod.snd, ∃ f, u = EV.ve (Sc.ndofs (C.place src)) f) ↔
      ∀ u ∈ p'.map Prod.snd, ∃ f, u = EV.ve (Sc.ndofs (C.place src)) f :=
    forall_congr' fun u => by rw [(hp.map Prod.snd).mem_iff]
  have henv : ∀ x y, LayerMat.env Sc x y [C.kern tk] (potOf C src p k tk tgt lim) ((p.map Prod.snd).map dens1) =
      LayerMat.env Sc x y [C.kern tk] (potOf C src p' k' tk tgt lim) ((p'.map Prod.snd).map dens1) := by
    intro x y
    unfold LayerMat.env
    congr 1
    · funext t side kk i
      simp only [potOf, hkk]
      exact sumOver_perm Sc _ C.kern _ hp
    · funext t kk i
      simp only [potOf, hkk]
      exact sumOver_perm Sc _ C.kern _ hp
    · funext t c kk i
      simp only [potOf, hkk]
      exact sumOver_perm Sc _ C.kern _ hp
  by_cases h : ∀ u ∈ p.map Prod.snd, ∃ f, u = EV.ve (Sc.ndofs (C.place src)) f
  · rw [if_pos h, if_pos (h1.1 h), commonBase_perm (hp.map fun q => C.kern q.1)]
    congr 1
    funext b
    rw [henv]
    rfl
  · rw [if_neg h, if_neg fun h' => h (h1.2 h')]

/-- such an evaluator has the laws the compiler relies on -/
theorem withScene_lawful (I : Compiler.Interp (EV α)) (Sc : Scene α P (Args α)) (σ : Direct.Sched) (C : Coding)
    (h0 : ∀ v, I.add I.zero v = v) : Compiler.Lawful (withScene I Sc σ C) where
  zero_add := h0
  pot_perm := fun src _ _ _ _ tk tgt lim hp hk => scenePot_perm Sc σ C src tk tgt lim hp hk

/-! ## Specification -/

section

variable (E : Enc) (I : Compiler.Interp (EV α)) (ctx : Compiler.Ctx (EV α)) (pl : List (Obj × PlaceKind)) (S T : DD)

/-- an operand of a layer potential has the value `v`: every operation in it succeeds; with `tg` it is evaluated on stage 2 -/
def HasValue (tg : Bool) (c : SE) (v : EV α) : Prop :=
  ∃ c', interpPre pl tg (expand (qbxNames pl) (placed S T true c)) = .ok c' ∧
    Compiler.AllDefined I ctx (tr E c') ∧ Compiler.den I ctx (tr E c') = some v

/-- the values of the operands on the quadrature stage: the first `n` operands (densities) are interpolated from stage 1, the
others (kernel arguments) from stage 2 -/
def Operands (d : DD) : Nat → List SE → List (EV α) → Prop
  | _, [], [] => True
  | n, c :: l, v :: vs =>
    (∃ u, HasValue E I ctx pl S T (n == 0) c u ∧
      I.op (E.head (.interp (DDs d (if n = 0 then .stage2 else .stage1)) (DDs d .quadStage2))) [u] = some v) ∧
    Operands d (n - 1) l vs
  | _, _, _ => False

end

/-- the layer potential with its places filled in -/
def filled (S T : DD) (g : IG) : IG := { g with src := fillDD S g.src, tgt := fillDD T g.tgt }

/-- The layer potential that is evaluated: from the quadrature stage of the source, with targets on stage 1 if no stage was
chosen, and values for the kernel arguments. -/
def evaluated (C : Coding) (E : Enc) (g : IG) (lim : Lim) (args : List (EV α)) : Pot (Args α) :=
  ⟨g.sks.map C.kern, C.kern (E.kern g.tk), DDs g.src .quadStage2, (tgtStage g).tgt, limInt (trLim lim), ↑(g.kn.zip args)⟩

/-- the evaluation understands the names of source and target -/
def Coded (E : Enc) (C : Coding) (g : IG) : Prop :=
  C.place (E.place (DDs g.src .quadStage2)) = DDs g.src .quadStage2 ∧
    C.place (E.place (tgtStage g).tgt) = (tgtStage g).tgt

/-- the center the target point `i` of a layer potential is associated with: entry `i` after the centers themselves -/
def centerAt (Sc : Scene α P (Args α)) (g : Pot (Args α)) (i : Nat) : Option Nat :=
  match (Sc.assoc g.tgt (g.limit.getD 0))[Sc.ncenters + i]? with
  | none => none
  | some c => if c < 0 then none else some c.toNat

/-- The sum of the volume expansions about center `k` of the source, at the target point `i`. -/
def centerSum (Sc : Scene α P (Args α)) (g : Pot (Args α)) (b : Base) (k : Nat) (dens : List (Nat → α)) (i : Nat) : α :=
  ((g.sks.zip dens).map fun p => ∑ j ∈ Finset.range (Sc.ndofs g.src),
    Sc.expn ⟨"VolumeTaylorLocalExpansion", b, Sc.order⟩ g.tk p.1 g.args (Sc.qbxCenter k) (Sc.qbxRadius k)
      (Sc.node g.tgt i) (Sc.node g.src j) * (Sc.waa g.src j * p.2 j)).sum

/-- the arithmetic of the elements `'avg'` needs: 1/2, numbers times arrays, sums of arrays -/
structure Arith (E : Enc) (I : Compiler.Interp (EV α)) : Prop where
  half : I.op (E.head (.num (1/2))) [] = some (.sc (1/2))
  scale : ∀ a n f, I.op (E.head .prod) [.sc a, .ve n f] = some (.ve n fun i => a * f i)
  add : ∀ n f g, I.add (.ve n f) (.ve n g) = .ve n fun i => f i + g i

/-! ## Preparation -/

theorem prepare_ok {pl : List (Obj × PlaceKind)} {S T : DD} {e : SE} (hu : UnregOk pl e) (hp : Plain pl S T e)
    (hok : AllIntG (OkOn (qbxNames pl)) (placed S T false e)) :
    prepare pl S T e = interpPre pl false (expand (qbxNames pl) (placed S T false e)) := by
  simp only [prepare, toTag_placed e hp.collapse, prepLoop_ok hu]
  rw [(prepQBX_spec (qbxNames pl) _ hp.nest).1 hok]

theorem interpolate_stage (c : SE) (d : DD) (s : Stage) (hs : s ≠ .quadStage2) (hg : d.gran ≠ .center) :
    interpolate c (DDs d s) (DDs d .quadStage2) = .ok (.node (.interp (DDs d s) (DDs d .quadStage2)) [c]) := by
  unfold interpolate
  rw [if_neg, if_neg]
  · exact hg
  · intro h
    have := congrArg DD.stage h
    simp only [DDs, Option.some.injEq] at this
    exact hs this

section

variable {E : Enc} {I : Compiler.Interp (EV α)} {ctx : Compiler.Ctx (EV α)} {pl : List (Obj × PlaceKind)} {S T : DD}

theorem operands_ok (d : DD) (hg : d.gran ≠ .center) : ∀ (n : Nat) (cs : List SE) (vs : List (EV α)),
    Operands E I ctx pl S T d n cs vs →
    ∃ cs', interpArgs pl false (DDs d .stage1) (DDs d .stage2) (DDs d .quadStage2) n
        (expandL (qbxNames pl) (placedL S T true cs)) = .ok cs' ∧
      (∀ s ∈ Compiler.subsL (trL E cs'), ∃ v, Compiler.den I ctx s = some v) ∧
      Compiler.denL I ctx (trL E cs') = some vs
  | n, [], [], _ => ⟨[], rfl, by simp [trL, Compiler.subsL], rfl⟩
  | n, c :: l, v :: vs, h => by
    obtain ⟨⟨u, ⟨c', hc, hd, hv⟩, hi⟩, hl⟩ := h
    obtain ⟨l', hl', hdl, hvl⟩ := operands_ok d hg (n - 1) l vs hl
    refine ⟨.node (.interp (DDs d (if n = 0 then .stage2 else .stage1)) (DDs d .quadStage2)) [c'] :: l', ?_, ?_, ?_⟩
    · simp only [placedL, expandL, interpArgs, Bool.false_or]
      rw [hc]
      simp only
      have hif : (if n = 0 then DDs d .stage2 else DDs d .stage1) = DDs d (if n = 0 then .stage2 else .stage1) := by
        split <;> rfl
      rw [hif, interpolate_stage c' d _ (by split <;> simp) hg]
      simp only
      rw [hl']
    · intro s hs
      simp only [trL, tr, Compiler.subsL, Compiler.subs, List.append_nil, List.mem_append, List.mem_cons] at hs
      rcases hs with (rfl | hs) | hs
      · refine ⟨v, ?_⟩
        simp only [Compiler.den, Compiler.denL, hv, Option.bind_some]
        exact hi
      · exact hd s hs
      · exact hdl s hs
    · simp only [trL, tr, Compiler.denL, Compiler.den, hv, Option.bind_some, hvl]
      rw [hi]
  | n, [], _ :: _, h => h.elim
  | n, _ :: _, [], h => h.elim

theorem operands_length (d : DD) : ∀ (n : Nat) (cs : List SE) (vs : List (EV α)),
    Operands E I ctx pl S T d n cs vs → cs.length = vs.length
  | _, [], [], _ => rfl
  | n, c :: l, v :: vs, h => by
    simp only [List.length_cons, Nat.add_right_cancel_iff]
    exact operands_length d (n - 1) l vs h.2
  | _, [], _ :: _, h => h.elim
  | _, _ :: _, [], h => h.elim

theorem denL_take (I : Compiler.Interp (EV α)) (ctx : Compiler.Ctx (EV α)) : ∀ (n : Nat) (l : List Compiler.Expr)
    (vs : List (EV α)), Compiler.denL I ctx l = some vs →
      Compiler.denL I ctx (l.take n) = some (vs.take n) ∧ Compiler.denL I ctx (l.drop n) = some (vs.drop n)
  | 0, l, vs, h => ⟨rfl, h⟩
  | n + 1, [], vs, h => by
    simp only [Compiler.denL, Option.some.injEq] at h
    subst h
    exact ⟨rfl, rfl⟩
  | n + 1, e :: l, vs, h => by
    simp only [Compiler.denL] at h
    cases h1 : Compiler.den I ctx e with
    | none => rw [h1] at h; cases h
    | some v =>
      cases h2 : Compiler.denL I ctx l with
      | none => rw [h1, h2] at h; cases h
      | some ws =>
        rw [h1, h2] at h
        simp only [Option.some.injEq] at h
        subst h
        obtain ⟨a, b⟩ := denL_take I ctx n l ws h2
        refine ⟨?_, b⟩
        simp only [List.take_succ_cons, Compiler.denL, h1, a]

theorem mem_subsL (s : Compiler.Expr) : ∀ l : List Compiler.Expr, s ∈ Compiler.subsL l ↔ ∃ e ∈ l, s ∈ Compiler.subs e
  | [] => by simp [Compiler.subsL]
  | e :: l => by
    rw [Compiler.subsL, List.mem_append, mem_subsL s l]
    simp

theorem mem_qbxNames {o : Obj} (h : getGeo pl o = .ok .qbx) : o ∈ qbxNames pl := by
  unfold getGeo at h
  cases hf : pl.find? (fun p => decide (p.1 = o)) with
  | none => rw [hf] at h; cases h
  | some p =>
    rw [hf] at h
    simp only [Except.ok.injEq] at h
    have h1 := List.find?_some hf
    simp only [decide_eq_true_eq] at h1
    exact List.mem_map.2 ⟨p, List.mem_filter.2 ⟨List.mem_of_find?_eq_some hf, by simp [h]⟩, h1⟩

theorem upsampled_true {g : IG} (h : upsamples pl g = true) :
    upsampled pl (tgtStage g) = .ok true ∧ g.src.geometry ∈ qbxNames pl := by
  simp only [upsamples, Bool.and_eq_true, decide_eq_true_eq] at h
  have hs : (tgtStage g).src = g.src := by unfold tgtStage; split <;> rfl
  constructor
  · unfold upsampled
    rw [hs, if_neg (by simp [h.1]), h.2]
    rfl
  · exact mem_qbxNames h.2

/-- the pairs of source kernels and densities are those of the layer potential -/
theorem scenePot_evaluated (Sc : Scene α P (Args α)) (σ : Direct.Sched) (C : Coding)
    (g : IG) (hE : Coded E C g) (lim : Lim) (ds args : List (EV α)) (hd : ds.length = g.sks.length) :
    scenePot Sc σ C (E.place (DDs g.src .quadStage2)) (g.sks.zip ds) (g.kn.zip args) (E.kern g.tk)
        (E.place (tgtStage g).tgt) (trLim lim) =
      (directPot Sc σ [C.kern (E.kern g.tk)] (evaluated C E g lim args) ds).toOption := by
  have h1 : (g.sks.zip ds).map Prod.snd = ds := List.map_snd_zip (by omega)
  have h2 : ((g.sks.zip ds).map fun p => C.kern p.1) = g.sks.map C.kern := by
    have := congrArg (List.map C.kern) (List.map_fst_zip (l₁ := g.sks) (l₂ := ds) (by omega))
    rw [List.map_map] at this
    exact this
  unfold scenePot potOf evaluated
  rw [h1, h2, hE.1, hE.2]

/-- one layer potential, prepared, for any way to evaluate layer potentials -/
theorem pot_prepared (J : Compiler.Interp (EV α)) (g : IG) (lim : Lim) (cs : List SE) (vs : List (EV α))
    (hup : upsamples pl (filled S T g) = true)
    (hg : (filled S T g).src.gran ≠ .center) (hk : g.sks.length = g.nd) (hlen : cs.length = g.nd + g.kn.length)
    (hv : Operands E J ctx pl S T (filled S T g).src g.nd cs vs) (v : EV α)
    (hpot : J.pot (E.place (DDs (filled S T g).src .quadStage2)) (g.sks.zip (vs.take g.nd)) (g.kn.zip (vs.drop g.nd))
      (E.kern g.tk) (E.place (tgtStage (filled S T g)).tgt) (trLim lim) = some v) :
    ∃ e', interpPre pl false (.node (.intg { filled S T g with lim := lim })
        (expandL (qbxNames pl) (placedL S T true cs))) = .ok e' ∧
      Compiler.AllDefined J ctx (tr E e') ∧
      Compiler.den J ctx (tr E e') = some v := by
  obtain ⟨cs', h1, h2, h3⟩ := operands_ok (filled S T g).src hg g.nd cs vs hv
  have hlv := operands_length _ _ _ _ hv
  have ht : ∀ l, (tgtStage { filled S T g with lim := l }) = { tgtStage (filled S T g) with lim := l } := by
    intro l
    unfold tgtStage
    simp only
    split <;> rfl
  have htg : (tgtStage (filled S T g)).nd = g.nd ∧ (tgtStage (filled S T g)).sks = g.sks ∧
      (tgtStage (filled S T g)).kn = g.kn ∧ (tgtStage (filled S T g)).tk = g.tk := by
    unfold tgtStage
    split <;> exact ⟨rfl, rfl, rfl, rfl⟩
  have hup' : upsampled pl (tgtStage { filled S T g with lim := lim }) = .ok true :=
    (upsampled_true (g := { filled S T g with lim := lim }) hup).1
  refine ⟨.node (.intg { tgtStage { filled S T g with lim := lim } with src := DDs (filled S T g).src .quadStage2 }) cs',
    ?_, ?_⟩
  · simp only [interpPre]
    rw [hup']
    simp only
    have : ({ filled S T g with lim := lim } : IG).nd = g.nd := rfl
    have h1' := h1
    simp only [filled] at h1' ⊢
    rw [h1']
  · have hden : Compiler.den J ctx (tr E (.node (.intg { tgtStage { filled S T g with lim := lim } with
        src := DDs (filled S T g).src .quadStage2 }) cs')) = some v := by
      obtain ⟨a, b⟩ := denL_take J ctx g.nd _ _ h3
      rw [ht]
      simp only [tr, Compiler.den, htg.1, a, b, trG, htg.2.1, htg.2.2.1, htg.2.2.2]
      exact hpot
    refine ⟨?_, hden⟩
    intro s hs
    rw [ht] at hden hs
    simp only [tr, Compiler.subs, List.mem_cons, List.mem_append] at hs hden
    rcases hs with rfl | hs | hs
    · exact ⟨v, hden⟩
    · obtain ⟨e, he, hse⟩ := (mem_subsL s _).1 hs
      exact h2 s ((mem_subsL s _).2 ⟨e, List.mem_of_mem_take he, hse⟩)
    · obtain ⟨e, he, hse⟩ := (mem_subsL s _).1 hs
      exact h2 s ((mem_subsL s _).2 ⟨e, List.mem_of_mem_drop he, hse⟩)

end

/-! ## Theorems -/

/-- What C90 assumes about a layer potential `IntG g cs` and a collection: no unregularized source (or no limit anywhere),
no two places to be merged (C11), nested layer potentials on the same source (C12), limits that fit the targets (otherwise
`bind` raises, C90_refused), well-formed nodes, no name clashes (C02), a QBX source without a chosen stage, and place names
the evaluation understands. -/
structure Bindable (E : Enc) (C : Coding) (pl : List (Obj × PlaceKind)) (S T : DD) (g : IG) (cs : List SE) : Prop where
  coded : Coded E C (filled S T g)
  unreg : UnregOk pl (.node (.intg g) cs)
  plain : Plain pl S T (.node (.intg g) cs)
  limits : AllIntG (fun g => g.src.geometry ∈ qbxNames pl → LimitOk g) (placed S T false (.node (.intg g) cs))
  good : Good (.node (.intg g) cs)
  names : NoClash (.node (.intg g) cs)
  qbx : upsamples pl (filled S T g) = true
  gran : (filled S T g).src.gran ≠ .center

section

variable {E : Enc} {C : Coding} {pl : List (Obj × PlaceKind)} {S T : DD} {g : IG} {cs : List SE}

theorem placed_intg : placed S T false (.node (.intg g) cs) = .node (.intg (filled S T g)) (placedL S T true cs) := by
  simp only [placed, retag, filled, isIntG, Bool.false_or]
  rfl

theorem Bindable.nodeOk (h : Bindable E C pl S T g cs) :
    g.sks ≠ [] ∧ g.sks.length = g.nd ∧ cs.length = g.nd + g.kn.length :=
  h.good _ _ (Sub.refl _)

theorem take_length (h : Bindable E C pl S T g cs) {I : Compiler.Interp (EV α)} {ctx : Compiler.Ctx (EV α)} {d : DD}
    {vs : List (EV α)} (hv : Operands E I ctx pl S T d g.nd cs vs) : (vs.take g.nd).length = (g.sks.map C.kern).length := by
  obtain ⟨_, hk, hlen⟩ := h.nodeOk
  have := operands_length _ _ _ _ hv
  rw [List.length_take, List.length_map]
  omega

/-- an expression all of whose prepared parts have values is evaluated -/
theorem eval_prepared (c : Compiler.Cfg) (I : Compiler.Interp (EV α)) (e e' : SE) (ctx : Compiler.Ctx (EV α))
    (cc : Compiler.Cache (EV α)) (hc : Compiler.CfgOk c) (hI : Compiler.Lawful I) (hcc : Compiler.CacheValid I ctx cc)
    (hu : UnregOk pl e) (hp : Plain pl S T e) (hg : Good e) (hn : NoClash e)
    (hl : AllIntG (fun g => g.src.geometry ∈ qbxNames pl → LimitOk g) (placed S T false e))
    (h2 : interpPre pl false (expand (qbxNames pl) (placed S T false e)) = .ok e')
    (hd : Compiler.AllDefined I ctx (tr E e')) (v : EV α) (hv : Compiler.den I ctx (tr E e') = some v) :
    bindEval E c I pl S T e ctx cc = .ok v := by
  have hok : prepare pl S T e = .ok e' := by rw [prepare_ok hu hp hl, h2]
  have hk : Keeps e e' := ((placed_keeps S T e false).trans (expand_keeps _ _)).trans
    (interpPre_keeps pl _ _ _ h2)
  have hna : NoAvg e' := noAvg_interpPre pl _ (noAvg_expand _ _ hp.avg) _ _ h2
  obtain ⟨w, ctx', cc', h3, h4, _⟩ := Compiler.C01_bound_eval c I (tr E e') ctx cc hc hI
    (tr_wf E e' (hk.2 hg) hna) (tr_noClash E e' (noClash_keeps hk hn)) hd hcc
  rw [hv, Option.some.injEq] at h3
  subst h3
  simp only [bindEval, hok, h4]

variable (c : Compiler.Cfg) (I : Compiler.Interp (EV α)) (Sc : Scene α P (Args α)) (σ : Direct.Sched)
  (ctx : Compiler.Ctx (EV α)) (cc : Compiler.Cache (EV α))

/-- a layer potential is evaluated by whatever evaluates layer potentials -/
theorem bind_pot (J : Compiler.Interp (EV α)) (hJ : Compiler.Lawful J) (h : Bindable E C pl S T g cs)
    (hc : Compiler.CfgOk c) (hcc : Compiler.CacheValid J ctx cc) (hlim : g.lim ≠ .avg) (vs : List (EV α))
    (hv : Operands E J ctx pl S T (filled S T g).src g.nd cs vs) (v : EV α)
    (hpot : J.pot (E.place (DDs (filled S T g).src .quadStage2)) (g.sks.zip (vs.take g.nd)) (g.kn.zip (vs.drop g.nd))
      (E.kern g.tk) (E.place (tgtStage (filled S T g)).tgt) (trLim g.lim) = some v) :
    bindEval E c J pl S T (.node (.intg g) cs) ctx cc = .ok v := by
  obtain ⟨_, hk, hlen⟩ := h.nodeOk
  obtain ⟨e', h1, h2, h3⟩ := pot_prepared J g g.lim cs vs h.qbx h.gran hk hlen hv v hpot
  refine eval_prepared c _ _ e' ctx cc hc hJ hcc h.unreg h.plain h.good h.names h.limits ?_ h2 v h3
  rw [placed_intg]
  simp only [expand]
  rw [if_neg (by rintro ⟨_, h⟩; exact hlim h)]
  exact h1

/-- and an average likewise -/
theorem bind_avg (J : Compiler.Interp (EV α)) (hJ : Compiler.Lawful J) (h : Bindable E C pl S T g cs)
    (hc : Compiler.CfgOk c) (hcc : Compiler.CacheValid J ctx cc) (hlim : g.lim = .avg) (vs : List (EV α))
    (hv : Operands E J ctx pl S T (filled S T g).src g.nd cs vs) (vp vm half v : EV α)
    (hp : J.pot (E.place (DDs (filled S T g).src .quadStage2)) (g.sks.zip (vs.take g.nd)) (g.kn.zip (vs.drop g.nd))
      (E.kern g.tk) (E.place (tgtStage (filled S T g)).tgt) (trLim .p1) = some vp)
    (hm : J.pot (E.place (DDs (filled S T g).src .quadStage2)) (g.sks.zip (vs.take g.nd)) (g.kn.zip (vs.drop g.nd))
      (E.kern g.tk) (E.place (tgtStage (filled S T g)).tgt) (trLim .m1) = some vm)
    (hh : J.op (E.head (.num (1/2))) [] = some half)
    (hprod : J.op (E.head .prod) [half, J.add vp vm] = some v) :
    bindEval E c J pl S T (.node (.intg g) cs) ctx cc = .ok v := by
  obtain ⟨_, hk, hlen⟩ := h.nodeOk
  obtain ⟨p', h1, h2, h3⟩ := pot_prepared J g .p1 cs vs h.qbx h.gran hk hlen hv vp hp
  obtain ⟨m', k1, k2, k3⟩ := pot_prepared J g .m1 cs vs h.qbx h.gran hk hlen hv vm hm
  have hin := (upsampled_true h.qbx).2
  have hden2 : Compiler.den J ctx (tr E (.node .sum [p', m'])) = some (J.add vp vm) := by
    simp only [tr, trL, Compiler.den, Compiler.denL, h3, k3, Option.map_some, List.foldl_cons, List.foldl_nil, hJ.zero_add]
  have hden1 : Compiler.den J ctx (tr E (.node (.num (1/2)) [])) = some half := by
    simp only [tr, trL, Compiler.den, Compiler.denL, Option.bind_some]
    exact hh
  have hden : Compiler.den J ctx
      (tr E (.node .prod [.node (.num (1/2)) [], .node .sum [p', m']])) = some v := by
    have htr : ∀ l, tr E (.node .prod l) = .op (E.head .prod) (trL E l) := fun l => by simp only [tr]
    rw [htr]
    simp only [trL, Compiler.den, Compiler.denL]
    rw [hden1, hden2]
    exact hprod
  refine eval_prepared c _ _ (.node .prod [.node (.num (1/2)) [], .node .sum [p', m']]) ctx cc hc
    hJ hcc h.unreg h.plain h.good h.names h.limits ?_ ?_ v hden
  · rw [placed_intg]
    simp only [expand]
    rw [if_pos ⟨hin, hlim⟩]
    have hp' : ∀ l l', interpPreL pl false l = .ok l' → interpPre pl false (.node .prod l) = .ok (.node .prod l') :=
      fun l l' hl => by simp only [interpPre, hl]
    have hs' : ∀ l l', interpPreL pl false l = .ok l' → interpPre pl false (.node .sum l) = .ok (.node .sum l') :=
      fun l l' hl => by simp only [interpPre, hl]
    have hn' : interpPre pl false (.node (.num (1/2)) []) = .ok (.node (.num (1/2)) []) := by
      simp only [interpPre, interpPreL]
    have ht' : ∀ a b a' b', interpPre pl false a = .ok a' → interpPre pl false b = .ok b' →
        interpPreL pl false [a, b] = .ok [a', b'] := fun a b a' b' ha hb => by simp only [interpPreL, ha, hb]
    exact hp' _ _ (ht' _ _ _ _ hn' (hs' _ _ (ht' _ _ _ _ h1 k1)))
  · intro s hs
    simp only [tr, trL, Compiler.subs, Compiler.subsL, List.append_nil, List.mem_cons, List.mem_append] at hs
    rcases hs with rfl | (rfl | hs) | (rfl | hs)
    · exact ⟨v, by simpa only [tr, trL] using hden⟩
    · exact ⟨half, by simpa only [tr, trL] using hden1⟩
    · cases hs
    · exact ⟨_, by simpa only [tr, trL] using hden2⟩
    · rcases hs with hs | hs
      · exact h2 s hs
      · exact k2 s hs

/-- **C90**: `bind(places, IntG)(**inputs)` returns what direct evaluation returns for the layer potential on the quadrature
stage of the source, with the densities interpolated there from stage 1 and the kernel arguments from stage 2 — whatever
the order in which the compiler and the evaluation do things, and whatever is in the caches. -/
theorem C90_potential (h : Bindable E C pl S T g cs) (hc : Compiler.CfgOk c) (h0 : ∀ v, I.add I.zero v = v)
    (hcc : Compiler.CacheValid (withScene I Sc σ C) ctx cc) (hlim : g.lim ≠ .avg) (vs : List (EV α))
    (hv : Operands E (withScene I Sc σ C) ctx pl S T (filled S T g).src g.nd cs vs) (v : EV α)
    (hpot : directPot Sc σ [C.kern (E.kern g.tk)] (evaluated C E (filled S T g) g.lim (vs.drop g.nd)) (vs.take g.nd) = .ok v) :
    bindEval E c (withScene I Sc σ C) pl S T (.node (.intg g) cs) ctx cc = .ok v := by
  refine bind_pot c ctx cc (withScene I Sc σ C) (withScene_lawful I Sc σ C h0) h hc hcc hlim vs hv v ?_
  refine (scenePot_evaluated (E := E) Sc σ C (filled S T g) h.coded g.lim (vs.take g.nd) (vs.drop g.nd) ?_).trans ?_
  · have := take_length h hv
    simpa [filled] using this
  · exact congrArg Except.toOption hpot

/-- **C90**: with `'avg'` the two one-sided limits are evaluated, added and halved. -/
theorem C90_average (h : Bindable E C pl S T g cs) (hc : Compiler.CfgOk c) (h0 : ∀ v, I.add I.zero v = v)
    (hcc : Compiler.CacheValid (withScene I Sc σ C) ctx cc) (hlim : g.lim = .avg) (vs : List (EV α))
    (hv : Operands E (withScene I Sc σ C) ctx pl S T (filled S T g).src g.nd cs vs) (vp vm half v : EV α)
    (hp : directPot Sc σ [C.kern (E.kern g.tk)] (evaluated C E (filled S T g) .p1 (vs.drop g.nd)) (vs.take g.nd) = .ok vp)
    (hm : directPot Sc σ [C.kern (E.kern g.tk)] (evaluated C E (filled S T g) .m1 (vs.drop g.nd)) (vs.take g.nd) = .ok vm)
    (hh : I.op (E.head (.num (1/2))) [] = some half)
    (hprod : I.op (E.head .prod) [half, I.add vp vm] = some v) :
    bindEval E c (withScene I Sc σ C) pl S T (.node (.intg g) cs) ctx cc = .ok v := by
  have key : ∀ lim w, directPot Sc σ [C.kern (E.kern g.tk)] (evaluated C E (filled S T g) lim (vs.drop g.nd))
      (vs.take g.nd) = .ok w → (withScene I Sc σ C).pot (E.place (DDs (filled S T g).src .quadStage2))
        (g.sks.zip (vs.take g.nd)) (g.kn.zip (vs.drop g.nd)) (E.kern g.tk) (E.place (tgtStage (filled S T g)).tgt)
        (trLim lim) = some w := by
    intro lim w hw
    refine (scenePot_evaluated (E := E) Sc σ C (filled S T g) h.coded lim (vs.take g.nd) (vs.drop g.nd) ?_).trans ?_
    · have := take_length h hv
      simpa [filled] using this
    · exact congrArg Except.toOption hw
  exact bind_avg c ctx cc (withScene I Sc σ C) (withScene_lawful I Sc σ C h0) h hc hcc hlim vs hv vp vm half v
    (key _ _ hp) (key _ _ hm) hh hprod

/-- **C90**: a limit that does not fit its target makes `bind` raise `ValueError`. -/
theorem C90_refused (hu : UnregOk pl (.node (.intg g) cs)) (hp : Plain pl S T (.node (.intg g) cs))
    (hq : upsamples pl (filled S T g) = true) (hbad : ¬ LimitOk (filled S T g)) :
    bindEval E c (withScene I Sc σ C) pl S T (.node (.intg g) cs) ctx cc = .error (.prepare .value) := by
  refine C76_limits E c _ pl S T _ ctx cc hu hp ?_
  rw [placed_intg]
  intro hall
  simp only [AllIntG] at hall
  exact hbad (hall.1 _ rfl (upsampled_true hq).2)

/-- direct evaluation away from the source -/
theorem directPot_off (g : Pot (Args α)) (hσ : ∀ {β : Type} (l : List β), (σ l).Perm l) (b : Base) (hb : SameBase b g.sks)
    (hoff : LayerMat.isSelf Sc g.src g.tgt = false) (hl : g.limit ≠ some 1 ∧ g.limit ≠ some (-1))
    (hsz : (Sc.assoc g.tgt (g.limit.getD 0)).length = Sc.ncenters + Sc.ndofs g.tgt) (us : List (EV α))
    (hlen : us.length = g.sks.length) (hd : ∀ u ∈ us, ∃ f, u = EV.ve (Sc.ndofs g.src) f) :
    ∃ f, directPot Sc σ [g.tk] g us = .ok (.ve (Sc.ndofs g.tgt) f) ∧ ∀ i < Sc.ndofs g.tgt,
      f i = match centerAt Sc g i with
        | some k => centerSum Sc g b k (us.map dens1) i
        | none => LayerMat.plainSum Sc g (us.map dens1) i := by
  have hcb := (commonBase_ok g.sks b).2 hb
  obtain ⟨x, hx⟩ : ∃ x, onSurface Sc.factory g.sks [g.tk] Sc.order = .ok x := by
    simp only [onSurface, hcb]
    exact ⟨_, rfl⟩
  have hy : offSurface g.sks Sc.order = .ok ⟨"VolumeTaylorLocalExpansion", b, Sc.order⟩ := by
    simp only [offSurface, hcb]
  set E := LayerMat.env Sc x ⟨"VolumeTaylorLocalExpansion", b, Sc.order⟩ [g.tk] g (us.map dens1) with hE
  have hsized : Direct.Sized E [LayerMat.outOf [g.tk] g] := by
    intro o ho
    rw [List.mem_singleton] at ho
    subst ho
    exact hsz
  have hself : E.isSelf (LayerMat.outOf [g.tk] g).target = false := hoff
  cases hr : Direct.exec σ E [LayerMat.outOf [g.tk] g] with
  | error e =>
    exfalso
    rcases Direct.C40_direct_errors σ E _ hsized e hr with ⟨_, o, ho, hbad⟩ | ⟨_, _, o, ho, hbad⟩
    · rw [List.mem_singleton] at ho
      subst ho
      rw [hbad.1] at hself
      cases hself
    · rw [List.mem_singleton] at ho
      subst ho
      rcases hbad.2.1 with h | h
      · exact hl.1 h
      · exact hl.2 h
  | ok r =>
    obtain ⟨h1, _, _⟩ := Direct.C40_direct_values σ hσ E _ hsized r hr
    refine ⟨fun i => ((List.range (Sc.ndofs g.tgt)).map (Direct.valueAt E (LayerMat.outOf [g.tk] g))).getD i 0, ?_, ?_⟩
    · simp only [directPot]
      rw [if_neg (by simpa using hlen), densities_all _ _ hd, hx, hy]
      simp only
      rw [hr, h1]
      rfl
    · intro i hi
      simp only [List.getD_eq_getElem?_getD, List.getElem?_map, List.getElem?_range hi, Option.map_some, Option.getD_some]
      unfold Direct.valueAt
      rw [hself]
      have hc : Direct.centerOf E (LayerMat.outOf [g.tk] g) i = centerAt Sc g i := rfl
      rw [hc]
      cases centerAt Sc g i with
      | none =>
        simp only [hE, LayerMat.env, LayerMat.outOf]
        rw [if_neg (by simp), LayerMat.strengths_zip, LayerMat.knl_idxOf [g.tk] g.tk (by simp)]
        rfl
      | some k =>
        simp only [hE, LayerMat.env, LayerMat.outOf]
        rw [if_neg (by simp), LayerMat.strengths_zip, LayerMat.knl_idxOf [g.tk] g.tk (by simp)]
        rfl

theorem goodBatch_self (g : Pot (Args α)) (h : ∃ b, SameBase b g.sks) : GoodBatch [g.tk] g :=
  ⟨h, by simp, by simp⟩

/-- **C90**, on the source itself: `bind(places, IntG)(**inputs)` is an array with one entry for each target node, entry `i`
being the QBX sum about the center of node `i` on the side of the limit: over source kernels and quadrature nodes, the
value at the node of the expansion of the kernel times quadrature weight, area element and interpolated density. -/
theorem C90_side (h : Bindable E C pl S T g cs) (hc : Compiler.CfgOk c) (h0 : ∀ v, I.add I.zero v = v)
    (hcc : Compiler.CacheValid (withScene I Sc σ C) ctx cc) (hlim : g.lim ≠ .avg) (vs : List (EV α))
    (hv : Operands E (withScene I Sc σ C) ctx pl S T (filled S T g).src g.nd cs vs)
    (hd : ∀ u ∈ vs.take g.nd, ∃ f, u = EV.ve (Sc.ndofs (DDs (filled S T g).src .quadStage2)) f)
    (hk : ∃ b, SameBase b (g.sks.map C.kern))
    (hon : OnSource Sc (evaluated C E (filled S T g) g.lim (vs.drop g.nd))) (l : Int) (hl : limInt (trLim g.lim) = some l) :
    ∃ f, bindEval E c (withScene I Sc σ C) pl S T (.node (.intg g) cs) ctx cc
        = .ok (.ve (Sc.ndofs (tgtStage (filled S T g)).tgt) f) ∧
      ∀ i < Sc.ndofs (tgtStage (filled S T g)).tgt,
        f i = qbxSum Sc (evaluated C E (filled S T g) g.lim (vs.drop g.nd)) l ((vs.take g.nd).map dens1) i := by
  obtain ⟨f, h1, h2⟩ := LayerMat.directPot_self Sc σ [C.kern (E.kern g.tk)]
    (evaluated C E (filled S T g) g.lim (vs.drop g.nd)) l hon hl (goodBatch_self _ hk) (vs.take g.nd) _
    (take_length h hv) (densities_all _ _ hd)
  exact ⟨f, C90_potential c I Sc σ ctx cc h hc h0 hcc hlim vs hv _ h1, h2⟩

/-- **C90**, `'avg'`: entry `i` is half the sum of the QBX sums of the two sides. -/
theorem C90_mean (h : Bindable E C pl S T g cs) (hc : Compiler.CfgOk c) (h0 : ∀ v, I.add I.zero v = v) (ha : Arith E I)
    (hcc : Compiler.CacheValid (withScene I Sc σ C) ctx cc) (hlim : g.lim = .avg) (vs : List (EV α))
    (hv : Operands E (withScene I Sc σ C) ctx pl S T (filled S T g).src g.nd cs vs)
    (hd : ∀ u ∈ vs.take g.nd, ∃ f, u = EV.ve (Sc.ndofs (DDs (filled S T g).src .quadStage2)) f)
    (hk : ∃ b, SameBase b (g.sks.map C.kern))
    (hon : OnSource Sc (evaluated C E (filled S T g) .p1 (vs.drop g.nd))) :
    ∃ f, bindEval E c (withScene I Sc σ C) pl S T (.node (.intg g) cs) ctx cc
        = .ok (.ve (Sc.ndofs (tgtStage (filled S T g)).tgt) f) ∧
      ∀ i < Sc.ndofs (tgtStage (filled S T g)).tgt, f i = 1 / 2 *
        (qbxSum Sc (evaluated C E (filled S T g) .p1 (vs.drop g.nd)) 1 ((vs.take g.nd).map dens1) i
          + qbxSum Sc (evaluated C E (filled S T g) .m1 (vs.drop g.nd)) (-1) ((vs.take g.nd).map dens1) i) := by
  have hon' : OnSource Sc (evaluated C E (filled S T g) .m1 (vs.drop g.nd)) :=
    ⟨hon.1, hon.2.1, -1, rfl, by decide⟩
  obtain ⟨fp, p1, p2⟩ := LayerMat.directPot_self Sc σ [C.kern (E.kern g.tk)]
    (evaluated C E (filled S T g) .p1 (vs.drop g.nd)) 1 hon rfl (goodBatch_self _ hk) (vs.take g.nd) _
    (take_length h hv) (densities_all _ _ hd)
  obtain ⟨fm, m1, m2⟩ := LayerMat.directPot_self Sc σ [C.kern (E.kern g.tk)]
    (evaluated C E (filled S T g) .m1 (vs.drop g.nd)) (-1) hon' rfl (goodBatch_self _ hk) (vs.take g.nd) _
    (take_length h hv) (densities_all _ _ hd)
  refine ⟨fun i => 1 / 2 * (fp i + fm i), ?_, ?_⟩
  · refine C90_average c I Sc σ ctx cc h hc h0 hcc hlim vs hv _ _ _ _ p1 m1 ha.half ?_
    simp only [evaluated]
    rw [ha.add, ha.scale]
  · intro i hi
    simp only
    rw [p2 i hi, m2 i hi]

/-- **C90**, other targets: entry `i` is the value of the expansions about the center of the source that point `i` is
associated with (C33), or plain quadrature if there is none. -/
theorem C90_elsewhere (h : Bindable E C pl S T g cs) (hc : Compiler.CfgOk c) (h0 : ∀ v, I.add I.zero v = v)
    (hσ : ∀ {β : Type} (l : List β), (σ l).Perm l)
    (hcc : Compiler.CacheValid (withScene I Sc σ C) ctx cc) (hlim : g.lim = .none ∨ g.lim = .p2 ∨ g.lim = .m2) (vs : List (EV α))
    (hv : Operands E (withScene I Sc σ C) ctx pl S T (filled S T g).src g.nd cs vs)
    (hd : ∀ u ∈ vs.take g.nd, ∃ f, u = EV.ve (Sc.ndofs (DDs (filled S T g).src .quadStage2)) f)
    (b : Base) (hb : SameBase b (g.sks.map C.kern))
    (hoff : LayerMat.isSelf Sc (DDs (filled S T g).src .quadStage2) (tgtStage (filled S T g)).tgt = false)
    (hsz : (Sc.assoc (tgtStage (filled S T g)).tgt ((limInt (trLim g.lim)).getD 0)).length
      = Sc.ncenters + Sc.ndofs (tgtStage (filled S T g)).tgt) :
    ∃ f, bindEval E c (withScene I Sc σ C) pl S T (.node (.intg g) cs) ctx cc
        = .ok (.ve (Sc.ndofs (tgtStage (filled S T g)).tgt) f) ∧
      ∀ i < Sc.ndofs (tgtStage (filled S T g)).tgt,
        f i = match centerAt Sc (evaluated C E (filled S T g) g.lim (vs.drop g.nd)) i with
          | some k => centerSum Sc (evaluated C E (filled S T g) g.lim (vs.drop g.nd)) b k ((vs.take g.nd).map dens1) i
          | none => plainSum Sc (evaluated C E (filled S T g) g.lim (vs.drop g.nd)) ((vs.take g.nd).map dens1) i := by
  obtain ⟨f, h1, h2⟩ := directPot_off Sc σ (evaluated C E (filled S T g) g.lim (vs.drop g.nd)) hσ b hb hoff
    (by rcases hlim with h | h | h <;> rw [h] <;> simp [evaluated, limInt, trLim]) hsz (vs.take g.nd) (take_length h hv) hd
  exact ⟨f, C90_potential c I Sc σ ctx cc h hc h0 hcc (by rcases hlim with h | h | h <;> rw [h] <;> simp) vs hv _ h1, h2⟩

/-! ### Variables as operands -/

/-- variables -/
def vars (xs : List String) : List SE := xs.map fun x => .node (.var x) []

/-- interpolated values of variables: the first `n` from stage 1, the others from stage 2 -/
def Given (E : Enc) (I : Compiler.Interp (EV α)) (ctx : Compiler.Ctx (EV α)) (d : DD) : Nat → List String → List (EV α) → Prop
  | _, [], [] => True
  | n, x :: l, v :: vs =>
    (∃ u, ctx x = some u ∧
      I.op (E.head (.interp (DDs d (if n = 0 then .stage2 else .stage1)) (DDs d .quadStage2))) [u] = some v) ∧
    Given E I ctx d (n - 1) l vs
  | _, _, _ => False

theorem operands_vars {I : Compiler.Interp (EV α)} {ctx : Compiler.Ctx (EV α)} (d : DD) :
    ∀ (n : Nat) (xs : List String) (vs : List (EV α)), Given E I ctx d n xs vs →
      Operands E I ctx pl S T d n (vars xs) vs
  | _, [], [], _ => trivial
  | n, x :: l, v :: vs, ⟨⟨u, h1, h2⟩, h3⟩ => by
    refine ⟨⟨u, ⟨.node (.var x) [], ?_, ?_, ?_⟩, h2⟩, operands_vars d (n - 1) l vs h3⟩
    · simp only [placed, placedL, retag, expand, expandL, interpPre, interpPreL]
    · intro s hs
      simp only [tr, Compiler.subs, List.mem_singleton] at hs
      subst hs
      exact ⟨u, h1⟩
    · simp only [tr, Compiler.den]
      exact h1
  | _, [], _ :: _, h => h.elim
  | _, _ :: _, [], h => h.elim

theorem sub_vars {xs : List String} {h' : Head} {l : List SE} (h : Sub (.node (.intg g) (vars xs)) (.node h' l)) :
    (h' = .intg g ∧ l = vars xs) ∨ ∃ x ∈ xs, h' = .var x ∧ l = [] := by
  cases h with
  | refl => exact Or.inl ⟨rfl, rfl⟩
  | child hc h =>
    simp only [vars, List.mem_map] at hc
    obtain ⟨x, hx, rfl⟩ := hc
    cases h with
    | refl => exact Or.inr ⟨x, hx, rfl, rfl⟩
    | child hc _ => cases hc

theorem allIntG_vars {Q : IG → Prop} {xs : List String} (b : Bool) : AllIntGL Q (placedL S T b (vars xs)) := by
  induction xs with
  | nil => exact trivial
  | cons x l ih =>
    refine ⟨⟨?_, trivial⟩, ih⟩
    intro g h
    simp only [retag] at h
    cases h

theorem homNest_vars {xs : List String} (b : Bool) : HomNestL (placedL S T b (vars xs)) := by
  induction xs with
  | nil => exact trivial
  | cons x l ih =>
    refine ⟨⟨?_, trivial⟩, ih⟩
    intro g h
    simp only [retag] at h
    cases h

/-- for variables as operands the assumptions are few: no unregularized source in the collection, a limit that fits the
target, as many densities as source kernels, a value for each kernel argument, no variable called `_expr<i>`, a QBX
source without a chosen stage -/
theorem bindable_vars {xs : List String} (hcode : Coded E C (filled S T g)) (hu : ∀ p ∈ pl, p.2 ≠ .unregularized)
    (hl : LimitOk (filled S T g)) (hs : g.sks ≠ []) (hk : g.sks.length = g.nd) (hlen : xs.length = g.nd + g.kn.length)
    (hn : ∀ x ∈ xs, ∀ i : Nat, x ≠ "_expr" ++ toString i) (hq : upsamples pl (filled S T g) = true)
    (hg : (filled S T g).src.gran ≠ .center) : Bindable E C pl S T g (vars xs) where
  coded := hcode
  unreg := Or.inl hu
  plain := by
    refine ⟨?_, ?_, ?_⟩
    · intro f t l h
      rcases sub_vars h with ⟨h, _⟩ | ⟨_, _, h, _⟩ <;> cases h
    · rw [placed_intg]
      exact ⟨fun _ _ => allIntG_vars true, homNest_vars true⟩
    · rw [placed_intg]
      refine ⟨?_, allIntG_vars true⟩
      intro g' h hnot
      cases h
      exact absurd (upsampled_true hq).2 hnot
  limits := by
    rw [placed_intg]
    refine ⟨?_, allIntG_vars true⟩
    intro g' h _
    cases h
    exact hl
  good := by
    intro h' l h
    rcases sub_vars h with ⟨rfl, rfl⟩ | ⟨x, _, rfl, rfl⟩
    · exact ⟨hs, hk, by simp only [vars, List.length_map]; exact hlen⟩
    · trivial
  names := by
    rintro x ⟨h', l, hsub, hkey⟩
    rintro (⟨i, hi⟩ | ⟨p, ⟨h'', l', hsub', hkey'⟩, _⟩)
    · rcases sub_vars hsub with ⟨rfl, _⟩ | ⟨y, hy, rfl, _⟩
      · simp only [key, Option.some.injEq] at hkey
        cases hkey
      · simp only [key, Option.some.injEq, Key.var.injEq] at hkey
        subst hkey
        exact hn y hy i hi
    · rcases sub_vars hsub' with ⟨rfl, _⟩ | ⟨y, hy, rfl, _⟩ <;> simp [key] at hkey'
  qbx := hq
  gran := hg

theorem given_scene {I : Compiler.Interp (EV α)} {Sc : Scene α P (Args α)} {σ : Direct.Sched} {ctx : Compiler.Ctx (EV α)}
    (d : DD) : ∀ (n : Nat) (xs : List String) (vs : List (EV α)), Given E I ctx d n xs vs →
      Given E (withScene I Sc σ C) ctx d n xs vs
  | _, [], [], _ => trivial
  | n, x :: l, v :: vs, ⟨h, h3⟩ => ⟨h, given_scene d (n - 1) l vs h3⟩
  | _, [], _ :: _, h => h.elim
  | _, _ :: _, [], h => h.elim

/-- **C90** for variables: `bind(places, IntG(kernels, sigma..., arg=var...))(sigma=..., ...)` on the source itself.  All
assumptions are about what the user passes: names and values of the variables, the limit, the collection. -/
theorem C90_variables {xs : List String} (hcode : Coded E C (filled S T g)) (hu : ∀ p ∈ pl, p.2 ≠ .unregularized)
    (hl : LimitOk (filled S T g)) (hs : g.sks ≠ []) (hk : g.sks.length = g.nd) (hlen : xs.length = g.nd + g.kn.length)
    (hn : ∀ x ∈ xs, ∀ i : Nat, x ≠ "_expr" ++ toString i) (hq : upsamples pl (filled S T g) = true)
    (hg : (filled S T g).src.gran ≠ .center) (hc : Compiler.CfgOk c) (h0 : ∀ v, I.add I.zero v = v)
    (hcc : Compiler.CacheValid (withScene I Sc σ C) ctx cc) (hlim : g.lim ≠ .avg) (vs : List (EV α))
    (hv : Given E I ctx (filled S T g).src g.nd xs vs)
    (hd : ∀ u ∈ vs.take g.nd, ∃ f, u = EV.ve (Sc.ndofs (DDs (filled S T g).src .quadStage2)) f)
    (hb : ∃ b, SameBase b (g.sks.map C.kern))
    (hon : OnSource Sc (evaluated C E (filled S T g) g.lim (vs.drop g.nd))) (l : Int) (hl' : limInt (trLim g.lim) = some l) :
    ∃ f, bindEval E c (withScene I Sc σ C) pl S T (.node (.intg g) (vars xs)) ctx cc
        = .ok (.ve (Sc.ndofs (tgtStage (filled S T g)).tgt) f) ∧
      ∀ i < Sc.ndofs (tgtStage (filled S T g)).tgt,
        f i = qbxSum Sc (evaluated C E (filled S T g) g.lim (vs.drop g.nd)) l ((vs.take g.nd).map dens1) i := by
  have hv' : Given E (withScene I Sc σ C) ctx (filled S T g).src g.nd xs vs := given_scene _ _ _ _ hv
  exact C90_side c I Sc σ ctx cc (bindable_vars hcode hu hl hs hk hlen hn hq hg) hc h0 hcc hlim vs
    (operands_vars _ _ _ _ hv') hd hb hon l hl'

end

/-! ### The hypotheses can be met -/

/-- names of operations, kernels and places -/
def exEnc : Enc where
  head h := match h with
    | .num _ => "half"
    | .prod => "mul"
    | .interp _ _ => "interp"
    | _ => "coord"
  kern k := match k with
    | .base s => s
    | _ => "other"
  place d := if d.geometry = .ident "t" then "t" else match d.stage with
    | some .quadStage2 => "quad"
    | _ => "stage1"

/-- the source `q` -/
def exD (s : Option Stage) : DD := ⟨.ident "q", s, .node⟩

/-- their meaning -/
def exCoding : Coding where
  place s := if s = "quad" then exD (some .quadStage2) else if s = "t" then ⟨.ident "t", some .stage1, .node⟩
    else exD (some .stage1)
  kern _ := .base (.laplace 2)

/-- arrays of numbers -/
def exI : Compiler.Interp (EV ℚ) where
  num n := .sc n
  sub v _ := some v
  op f l := match f, l with
    | "half", [] => some (.sc (1/2))
    | "mul", [.sc a, .ve n f] => some (.ve n fun i => a * f i)
    | "interp", [.ve _ f] => some (.ve 2 f)
    | _, _ => none
  truthy _ := true
  zero := .sc 0
  add a b := match a, b with
    | .sc x, b => if x = 0 then b else .sc 0
    | .ve n f, .ve _ g => .ve n fun i => f i + g i
    | a, _ => a
  arr _ := .sc 0
  pot _ _ _ _ _ _ := none

/-- two nodes 0 and 1 on a line, the centers of node `i` at `i ± 1/4`, weights 1/2; targets `t` at 2 and 3, the first of them
associated with a center at 3 -/
def exScene : Scene ℚ ℚ (Args ℚ) where
  discr := fun d => if d.stage = some .quadStage2 then some 0 else some 1
  target := fun d => if d.geometry = .ident "t" then some 2 else if d.stage = some .quadStage2 then some 0 else some 1
  ndofs := fun _ => 2
  node := fun d i => if d.geometry = .ident "t" then 2 + i else i
  waa := fun _ _ => 1/2
  center := fun _ l i => i + l * (1/4)
  radius := fun _ _ => 1/4
  factory := QBXSetup.exFactory
  order := 1
  expn := fun _ _ _ _ c _ t s => 1/(s - c) + (t - c)/(s - c)^2
  plain := fun _ _ _ t s => 1/(s - t)
  ncenters := 2
  qbxCenter := fun k => 3 * k
  qbxRadius := fun _ => 1/4
  assoc := fun _ _ => [-1, -1, 1, -1]

/-- the single layer potential of `sigma` -/
def exG (l : Lim) : IG := ⟨.base "G", ["G"], 1, l, ⟨.none, none, .node⟩, ⟨.none, none, .node⟩, []⟩

/-- `sigma` is 1 at both nodes -/
def exCtx : Compiler.Ctx (EV ℚ) := fun x => if x = "sigma" then some (.ve 2 fun _ => 1) else none

theorem exBindable (l : Lim) (h : l = .p1 ∨ l = .m1 ∨ l = .avg) :
    Bindable exEnc exCoding [(.ident "q", .qbx)] (exD none) (exD none) (exG l) (vars ["sigma"]) := by
  refine bindable_vars ?_ (by decide) ?_ (by simp [exG]) rfl rfl ?_ (by rcases h with rfl | rfl | rfl <;> decide)
    (by rcases h with rfl | rfl | rfl <;> decide)
  · rcases h with rfl | rfl | rfl <;> exact ⟨by decide, by decide⟩
  · rcases h with rfl | rfl | rfl <;> (unfold LimitOk; rw [if_pos (by decide)]; decide)
  · intro x hx i hi
    simp only [List.mem_singleton] at hx
    subst hx
    exact Compiler.toString_nat_ne hi 's' (by decide +kernel) (by decide +kernel) (by decide +kernel)

theorem exArith : Arith exEnc exI where
  half := rfl
  scale := fun _ _ _ => rfl
  add := fun _ _ _ => rfl

theorem exZero (v : EV ℚ) : exI.add exI.zero v = v := by simp [exI]

/-- `C90_variables` and `C90_mean` apply, with limits `+1` and `'avg'` -/
example (σ : Direct.Sched) :
    (∃ f, bindEval exEnc Compiler.exCfg (withScene exI exScene σ exCoding) [(.ident "q", .qbx)] (exD none) (exD none)
        (.node (.intg (exG .p1)) (vars ["sigma"])) exCtx [] = .ok (.ve 2 f) ∧
      f 0 = 1/2 * (-4 + -4) + 1/2 * (4/3 + (-1/4) / (3/4)^2)) ∧
    ∃ f, bindEval exEnc Compiler.exCfg (withScene exI exScene σ exCoding) [(.ident "q", .qbx)] (exD none) (exD none)
        (.node (.intg (exG .avg)) (vars ["sigma"])) exCtx [] = .ok (.ve 2 f) ∧
      f 0 = 1/2 * ((1/2 * (-4 + 4 * -1) + 1/2 * (4/3 + (-1/4) / (3/4)^2))
        + (1/2 * (4 + 4) + 1/2 * (4/5 + (1/4) / (5/4)^2))) := by
  have hv : ∀ l, Given exEnc exI exCtx (filled (exD none) (exD none) (exG l)).src 1 ["sigma"] [.ve 2 fun _ => 1] :=
    fun l => ⟨⟨_, rfl, rfl⟩, trivial⟩
  have hcc : ∀ S : Scene ℚ ℚ (Args ℚ), Compiler.CacheValid (withScene exI S σ exCoding) exCtx [] := fun S => by
    intro k v h
    simp at h
  have hd : ∀ u ∈ ([.ve 2 fun _ => 1] : List (EV ℚ)), ∃ f, u = EV.ve 2 f := by
    intro u hu
    rw [List.mem_singleton] at hu
    exact ⟨_, hu⟩
  have hb : ∃ b, SameBase b [exCoding.kern "G"] := ⟨.laplace 2, by simp, by simp [exCoding, Kn.getBase]⟩
  constructor
  · obtain ⟨f, h1, h2⟩ := C90_side Compiler.exCfg exI exScene σ exCtx [] (exBindable .p1 (by simp)) Compiler.exCfg_ok exZero
      (hcc _) (by simp [exG]) [.ve 2 fun _ => 1] (operands_vars _ _ _ _ (given_scene _ _ _ _ (hv .p1))) hd hb
      ⟨⟨0, rfl⟩, ⟨1, rfl, rfl, rfl⟩, 1, rfl, by decide⟩ 1 rfl
    refine ⟨f, h1, ?_⟩
    rw [h2 0 (by decide)]
    decide +kernel
  · obtain ⟨f, h1, h2⟩ := C90_mean Compiler.exCfg exI exScene σ exCtx [] (exBindable .avg (by simp)) Compiler.exCfg_ok exZero
      exArith (hcc _) rfl [.ve 2 fun _ => 1] (operands_vars _ _ _ _ (given_scene _ _ _ _ (hv .avg))) hd hb
      ⟨⟨0, rfl⟩, ⟨1, rfl, rfl, rfl⟩, 1, rfl, by decide⟩
    refine ⟨f, h1, ?_⟩
    rw [h2 0 (by decide)]
    decide +kernel

/-- `C90_elsewhere` applies to the targets `t` -/
example : ∃ f, bindEval exEnc Compiler.exCfg (withScene exI exScene (fun l => l) exCoding)
      [(.ident "q", .qbx), (.ident "t", .target)] (exD none) ⟨.ident "t", none, .node⟩
      (.node (.intg (exG .none)) (vars ["sigma"])) exCtx [] = .ok (.ve 2 f) ∧
    f 0 = 1/2 * (-1/3 - 1/9) + 1/2 * (-1/2 - 1/4) ∧ f 1 = 1/2 * (-1/3) + 1/2 * (-1/2) := by
  have hb : Bindable exEnc exCoding [(.ident "q", .qbx), (.ident "t", .target)] (exD none) ⟨.ident "t", none, .node⟩
      (exG .none) (vars ["sigma"]) := by
    refine bindable_vars ⟨by decide, by decide⟩ (by decide) ?_ (by simp [exG]) rfl rfl ?_ (by decide) (by decide)
    · unfold LimitOk
      rw [if_neg (by decide)]
      decide
    · intro x hx i hi
      simp only [List.mem_singleton] at hx
      subst hx
      exact Compiler.toString_nat_ne hi 's' (by decide +kernel) (by decide +kernel) (by decide +kernel)
  obtain ⟨f, h1, h2⟩ := C90_elsewhere Compiler.exCfg exI exScene (fun l => l) exCtx [] hb Compiler.exCfg_ok exZero
    (fun l => List.Perm.refl l) (by intro k v h; simp at h) (Or.inl rfl) [.ve 2 fun _ => 1]
    (operands_vars _ _ _ _ ⟨⟨_, rfl, rfl⟩, trivial⟩)
    (by intro u hu; rw [List.mem_singleton.1 hu]; exact ⟨_, rfl⟩) (.laplace 2)
    ⟨by simp [exG], by simp [exG, exCoding, Kn.getBase]⟩ rfl rfl
  exact ⟨f, h1, by rw [h2 0 (by decide)]; decide +kernel, by rw [h2 1 (by decide)]; decide +kernel⟩

end Verif.BindLayer
