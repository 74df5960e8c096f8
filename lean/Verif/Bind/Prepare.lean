import Verif.Bind.Flatten
/-!
# All steps of `_prepare_expr` (C76)

`_prepare_expr` (`pytential/symbolic/execution.py:627-657`) flattens, fills in the locations, binds derivatives, runs the
preprocessors of the places and inserts interpolations.  `Bind/Model.lean` leaves out the first and third step, `Bind/Flatten.lean`
the third; here all of them are put together.
-/

namespace Verif.Bind

open Verif.DofDesc Verif.Sym

variable {V : Type}

/-! ## Model -/

mutual
/-- `DerivativeBinder` (`mappers.py:703-710`) on expressions in which no unbound derivative is left (`Derivative.resolve` and all
functions that use it, `primitives.py:1804-1866`, bind theirs at once; what the binder does with them is the subject of
`Symbolic/Gradient.lean`): pymbolic's `DerivativeBinder.map_product` rebuilds products with `flattened_product`, everything else is
`IdentityMapper`. -/
def derivBind : SE → SE
  | .node h cs => match h with
    | .prod => flatProd (derivBindL cs)
    | h => .node h (derivBindL cs)
/-- on children -/
def derivBindL : List SE → List SE
  | [] => []
  | c :: l => derivBind c :: derivBindL l
end

/-- `_prepare_expr` (`execution.py:627-657`) -/
def prepareAll (pl : List (Obj × PlaceKind)) (S T : DD) (e : SE) : Except Sym.Err SE :=
  match toTag S T (flat e) with
  | .error x => .error x
  | .ok e1 => match prepLoop pl (derivBind e1) with
    | .error x => .error x
    | .ok e2 => interpPre pl false e2

/-- `bind(places, expr)(**context)` for a scalar expression (`execution.py:933-967`, `:856-896`) -/
def bindAll (E : Enc) (c : Compiler.Cfg) (I : Compiler.Interp V) (pl : List (Obj × PlaceKind)) (S T : DD) (e : SE)
    (ctx : Compiler.Ctx V) (cc : Compiler.Cache V) : Except BindErr V :=
  match prepareAll pl S T e with
  | .error x => .error (.prepare x)
  | .ok e' => match Compiler.evalBound c I (tr E e') ctx cc with
    | .error x => .error (.eval x)
    | .ok r => .ok r.1

/-! ## Proofs -/

theorem derivBindL_eq : ∀ l, derivBindL l = l.map derivBind
  | [] => rfl
  | c :: l => by simp [derivBindL, derivBindL_eq l]

theorem derivBind_node {h : Head} (hp : h ≠ .prod) (cs : List SE) : derivBind (.node h cs) = .node h (derivBindL cs) := by
  cases h <;> first | exact absurd rfl hp | rfl

theorem derivBind_keeps : ∀ e, Keeps e (derivBind e) := by
  apply SE.ind (P := fun e => Keeps e (derivBind e))
  intro h cs ih
  have hx : ∀ x ∈ derivBindL cs, Keeps (.node h cs) x := by
    intro x hx
    rw [derivBindL_eq] at hx
    obtain ⟨c, hc, rfl⟩ := List.mem_map.1 hx
    exact (keeps_child hc).trans (ih c hc)
  have hm : List.Forall₂ Keeps cs (derivBindL cs) := by
    rw [derivBindL_eq]; exact keeps_map _ _ ih
  by_cases hp : h = .prod
  · subst hp
    exact flatProd_pres (P := Keeps (.node .prod cs)) (fun l hl c hc => hl.trans (keeps_child hc))
      (fun l hl => keeps_gather rfl (by intro p s h; cases h) trivial hl)
      (fun q => keeps_gather rfl (by intro p s h; cases h) trivial (by simp)) hx
  · rw [derivBind_node hp]; exact keeps_node (.same _) hm

theorem avgSeen_deriv (ns : List Obj) : ∀ e outer, AvgSeen ns outer e → AvgSeen ns outer (derivBind e) := by
  apply SE.ind (P := fun e => ∀ outer, AvgSeen ns outer e → AvgSeen ns outer (derivBind e))
  intro h cs ih outer ha
  have hl : ∀ o, AvgSeenL ns o cs → AvgSeenL ns o (derivBindL cs) := by
    intro o ho
    rw [derivBindL_eq, avgSeenL_iff]
    intro x hx
    obtain ⟨c, hc, rfl⟩ := List.mem_map.1 hx
    exact ih c hc o (avgSeenL_iff.1 ho c hc)
  cases h with
  | prod =>
    simp only [AvgSeen] at ha
    refine flatProd_pres (P := AvgSeen ns outer) ?_ ?_ ?_ (avgSeenL_iff.1 (hl outer ha))
    · intro l h
      simp only [AvgSeen] at h
      exact avgSeenL_iff.1 h
    · intro l h
      simp only [AvgSeen]
      exact avgSeenL_iff.2 h
    · intro q
      simp [AvgSeen, AvgSeenL]
  | intg g =>
    simp only [derivBind, AvgSeen] at ha ⊢
    exact ⟨ha.1, hl _ ha.2⟩
  | _ =>
    simp only [derivBind, AvgSeen] at ha ⊢
    exact hl _ ha

theorem allIntG_deriv {P : IG → Prop} : ∀ e, AllIntG P e → AllIntG P (derivBind e) := by
  apply SE.ind (P := fun e => AllIntG P e → AllIntG P (derivBind e))
  intro h cs ih ha
  have hl : AllIntGL P (derivBindL cs) := by
    rw [derivBindL_eq, allIntGL_iff]
    intro x hx
    obtain ⟨c, hc, rfl⟩ := List.mem_map.1 hx
    exact ih c hc (allIntGL_iff.1 ha.2 c hc)
  by_cases hp : h = .prod
  · subst hp
    exact flatProd_pres (P := AllIntG P) (fun l h => allIntGL_iff.1 h.2) (fun l h => ⟨(by intro g h; cases h), allIntGL_iff.2 h⟩)
      (fun q => ⟨(by intro g h; cases h), trivial⟩) (allIntGL_iff.1 hl)
  · rw [derivBind_node hp]; exact ⟨ha.1, hl⟩

theorem unregOk_deriv {pl : List (Obj × PlaceKind)} {e : SE} (h : UnregOk pl e) : UnregOk pl (derivBind e) :=
  h.imp id (allIntG_deriv e)

theorem finalL_iff {S T : DD} : ∀ {l : List SE}, FinalL S T l ↔ ∀ c ∈ l, Final S T c
  | [] => by simp [FinalL]
  | c :: l => by simp [FinalL, finalL_iff]

theorem final_deriv {S : DD} : ∀ e T, Final S T e → Final S T (derivBind e) := by
  apply SE.ind (P := fun e => ∀ T, Final S T e → Final S T (derivBind e))
  intro h cs ih T hf
  have hl : ∀ T', FinalL S T' cs → FinalL S T' (derivBindL cs) := by
    intro T' ho
    rw [derivBindL_eq, finalL_iff]
    intro x hx
    obtain ⟨c, hc, rfl⟩ := List.mem_map.1 hx
    exact ih c hc T' (finalL_iff.1 ho c hc)
  by_cases hp : h = .prod
  · subst hp
    simp only [Final, isIntG] at hf
    refine flatProd_pres (P := Final S T) ?_ ?_ ?_ (finalL_iff.1 (hl T (by simpa using hf.2.2)))
    · intro l h
      simp only [Final, isIntG] at h
      exact finalL_iff.1 (by simpa using h.2.2)
    · intro l h
      simp only [Final, isIntG]
      exact ⟨rfl, (by intro f t o h; cases h), by simpa using finalL_iff.2 h⟩
    · intro q
      simp only [Final]
      exact ⟨rfl, (by intro f t o h; cases h), trivial⟩
  · rw [derivBind_node hp]
    simp only [Final] at hf ⊢
    refine ⟨hf.1, ?_, hl _ hf.2.2⟩
    rintro f t o rfl h1
    match cs, h1 with
    | [c], _ => exact hf.2.1 f t c rfl rfl

/-- with the tagged expression at hand, all that follows is `prepare` on the expression the derivative binder returns -/
theorem prepareAll_eq {pl : List (Obj × PlaceKind)} {S T : DD} {e e1 : SE} (hS : Explicit S) (hT : Explicit T)
    (h : toTag S T (flat e) = .ok e1) : prepareAll pl S T e = prepare pl S T (derivBind e1) := by
  have hf : toTag S T (derivBind e1) = .ok (derivBind e1) := toTag_of_final _ (final_deriv e1 T (toTag_final hS hT _ _ h))
  simp only [prepareAll, prepare, h, hf]
  cases prepLoop pl (derivBind e1) <;> rfl

theorem bindAll_eq {E : Enc} {c : Compiler.Cfg} {I : Compiler.Interp V} {pl : List (Obj × PlaceKind)} {S T : DD} {e e1 : SE}
    {ctx : Compiler.Ctx V} {cc : Compiler.Cache V} (hS : Explicit S) (hT : Explicit T)
    (h : toTag S T (flat e) = .ok e1) : bindAll E c I pl S T e ctx cc = bindEval E c I pl S T (derivBind e1) ctx cc := by
  simp only [bindAll, bindEval, prepareAll_eq hS hT h]
  cases prepare pl S T (derivBind e1) with
  | error x => rfl
  | ok e' =>
    simp only
    cases Compiler.evalBound c I (tr E e') ctx cc <;> rfl

section
variable [CommSemiring V] {E : Enc} {I : Compiler.Interp V} (ctx : Compiler.Ctx V)

theorem valOk_value (hA : Arith E I) : ValOk (fun e => value (mean E I ctx) e) := by
  constructor
  · intro cs; simp only [value, valueL_eq, mean_sum ctx hA]
  · intro cs; simp only [value, valueL_eq, mean_prod ctx hA]
  · simp [value, valueL, mean, allSome, hA.num0]
  · simp [value, valueL, mean, allSome, hA.num1]

theorem valOk_stageTag (hA : Arith E I) (s : Stage) : ValOk (fun e => value (mean E I ctx) (stageTag s e)) := by
  constructor
  · intro cs; simp only [stageTag, value, stageTagL_eq, valueL_eq, List.map_map, mean_sum ctx hA]; rfl
  · intro cs; simp only [stageTag, value, stageTagL_eq, valueL_eq, List.map_map, mean_prod ctx hA]; rfl
  · simp [stageTag, stageTagL, value, valueL, mean, allSome, hA.num0]
  · simp [stageTag, stageTagL, value, valueL, mean, allSome, hA.num1]

theorem valOk_meaning (hA : Arith E I) (pl : List (Obj × PlaceKind)) (tg : Bool) :
    ValOk (fun e => meaning (mean E I ctx) pl tg e) := by
  constructor
  · intro cs; simp only [meaning, meaningL_eq, mean_sum ctx hA]
  · intro cs; simp only [meaning, meaningL_eq, mean_prod ctx hA]
  · simp [meaning, meaningL, mean, allSome, hA.num0]
  · simp [meaning, meaningL, mean, allSome, hA.num1]

theorem value_deriv (hA : Arith E I) : ∀ e, Le (value (mean E I ctx) e) (value (mean E I ctx) (derivBind e)) := by
  apply SE.ind (P := fun e => Le (value (mean E I ctx) e) (value (mean E I ctx) (derivBind e)))
  intro h cs ih
  have hc : List.Forall₂ Le (cs.map fun c => value (mean E I ctx) c) ((derivBindL cs).map fun c => value (mean E I ctx) c) := by
    rw [derivBindL_eq, List.map_map]
    exact forall₂_map_le fun c hc => ih c hc
  have hl : List.Forall₂ Le (valueL (mean E I ctx) cs) (valueL (mean E I ctx) (derivBindL cs)) := by
    simp only [valueL_eq]
    exact hc
  cases h with
  | prod => exact flatProd_le (valOk_value ctx hA) hc
  | intg g =>
    simp only [derivBind, value_intg]
    exact potMean_le ctx _ hl
  | _ =>
    simp only [derivBind, value]
    exact mean_le E I ctx _ hl

theorem value_stageTag_deriv (hA : Arith E I) (s : Stage) : ∀ e,
    Le (value (mean E I ctx) (stageTag s e)) (value (mean E I ctx) (stageTag s (derivBind e))) := by
  apply SE.ind (P := fun e => Le (value (mean E I ctx) (stageTag s e)) (value (mean E I ctx) (stageTag s (derivBind e))))
  intro h cs ih
  have hc : List.Forall₂ Le (cs.map fun c => value (mean E I ctx) (stageTag s c))
      ((derivBindL cs).map fun c => value (mean E I ctx) (stageTag s c)) := by
    rw [derivBindL_eq, List.map_map]
    exact forall₂_map_le fun c hc => ih c hc
  have hl : List.Forall₂ Le (valueL (mean E I ctx) (stageTagL s cs)) (valueL (mean E I ctx) (stageTagL s (derivBindL cs))) := by
    simp only [stageTagL_eq, valueL_eq, List.map_map]
    exact hc
  have hl0 : List.Forall₂ Le (valueL (mean E I ctx) cs) (valueL (mean E I ctx) (derivBindL cs)) := by
    rw [derivBindL_eq]
    simp only [valueL_eq, List.map_map]
    exact forall₂_map_le fun c _ => value_deriv ctx hA c
  cases h with
  | prod => exact flatProd_le (valOk_stageTag ctx hA s) hc
  | intg g =>
    simp only [derivBind, stageTag, value_intg]
    exact potMean_le ctx _ hl
  | prop k dd =>
    cases k with
    | nodeCoord a =>
      simp only [derivBind, stageTag]
      split <;> (simp only [value]; exact mean_le E I ctx _ hl0)
    | _ =>
      simp only [derivBind, stageTag, value]
      first
        | exact mean_le E I ctx _ hl0
        | exact mean_le E I ctx _ hl
  | nrd a dd =>
    simp only [derivBind, stageTag]
    split
    · simp only [value]; exact mean_le E I ctx _ hl0
    · simp only [value]; exact mean_le E I ctx _ hl
  | _ =>
    simp only [derivBind, stageTag, value]
    exact mean_le E I ctx _ hl

theorem meaning_deriv (hA : Arith E I) (pl : List (Obj × PlaceKind)) : ∀ e tg,
    Le (meaning (mean E I ctx) pl tg e) (meaning (mean E I ctx) pl tg (derivBind e)) := by
  apply SE.ind (P := fun e => ∀ tg, Le (meaning (mean E I ctx) pl tg e) (meaning (mean E I ctx) pl tg (derivBind e)))
  intro h cs ih tg
  have hc : List.Forall₂ Le (cs.map fun c => meaning (mean E I ctx) pl tg c)
      ((derivBindL cs).map fun c => meaning (mean E I ctx) pl tg c) := by
    rw [derivBindL_eq, List.map_map]
    exact forall₂_map_le fun c hc => ih c hc tg
  have hl : List.Forall₂ Le (meaningL (mean E I ctx) pl tg cs) (meaningL (mean E I ctx) pl tg (derivBindL cs)) := by
    simp only [meaningL_eq]
    exact hc
  have hargs : ∀ (l : List SE) f1 f2 t n, (∀ c ∈ l, c ∈ cs) →
      List.Forall₂ Le (meaningArgs (mean E I ctx) pl tg f1 f2 t n l)
        (meaningArgs (mean E I ctx) pl tg f1 f2 t n (derivBindL l)) := by
    intro l
    induction l with
    | nil => intros; exact .nil
    | cons c l ihl =>
      intro f1 f2 t n hs
      simp only [derivBindL, meaningArgs]
      exact .cons (mean_le E I ctx _ (.cons (ih c (hs c (by simp)) _) .nil)) (ihl _ _ _ _ (fun c hc => hs c (by simp [hc])))
  have hvals : List.Forall₂ Le
      (valueL (mean E I ctx) (if tg = true then stageTagL .stage2 cs else cs))
      (valueL (mean E I ctx) (if tg = true then stageTagL .stage2 (derivBindL cs) else derivBindL cs)) := by
    rw [derivBindL_eq]
    split
    · simp only [stageTagL_eq, valueL_eq, List.map_map]
      exact forall₂_map_le fun c _ => value_stageTag_deriv ctx hA _ c
    · simp only [valueL_eq, List.map_map]
      exact forall₂_map_le fun c _ => value_deriv ctx hA c
  cases h with
  | prod => exact flatProd_le (valOk_meaning ctx hA pl tg) hc
  | intg g =>
    simp only [derivBind, meaning]
    split
    · exact potMean_le ctx _ (hargs cs _ _ _ _ (fun _ h => h))
    · exact potMean_le ctx _ hvals
  | nrd a dd =>
    have h1 := value_stageTag_deriv ctx hA .stage2 (.node (.nrd a dd) cs)
    have h2 := value_deriv ctx hA (.node (.nrd a dd) cs)
    simp only [derivBind] at h1 h2
    simp only [derivBind, meaning]
    split
    · exact h1
    · split
      · exact mean_le E I ctx _ (.cons h1 .nil)
      · exact h2
  | prop k dd =>
    have h1 := value_stageTag_deriv ctx hA .stage2 (.node (.prop k dd) cs)
    have h2 := value_deriv ctx hA (.node (.prop k dd) cs)
    simp only [derivBind] at h1 h2
    simp only [derivBind, meaning]
    split
    · exact h1
    · exact h2
  | _ =>
    simp only [derivBind, meaning]
    exact mean_le E I ctx _ hl

end

/-- **C76** for all steps of `_prepare_expr`: if the expression with its locations filled in has a meaning, and preparing it succeeds,
this is what `bind(places, expr)(**context)` returns. -/
theorem C76_all [CommSemiring V] (E : Enc) (c : Compiler.Cfg) (I : Compiler.Interp V) (hA : Arith E I) (pl : List (Obj × PlaceKind))
    (S T : DD) (e e' : SE) (ctx : Compiler.Ctx V) (cc : Compiler.Cache V) (hc : Compiler.CfgOk c) (hI : Compiler.Lawful I)
    (hid : ∀ d v, I.op (E.head (.interp d d)) [v] = some v) (hcc : Compiler.CacheValid I ctx cc) (hS : Explicit S)
    (hT : Explicit T) (hu : UnregOk pl e) (ha : AvgSeen (qbxNames pl) [] (placed S T false e)) (hg : Good e) (hn : NoClash e)
    (hok : prepareAll pl S T e = .ok e') (v : V) (hv : meaning (mean E I ctx) pl false (placed S T false e) = some v) :
    bindAll E c I pl S T e ctx cc = .ok v := by
  obtain ⟨e1, ht⟩ : ∃ e1, toTag S T (flat e) = .ok e1 := by
    cases ht : toTag S T (flat e) with
    | ok e1 => exact ⟨e1, rfl⟩
    | error x => simp only [prepareAll, ht] at hok; cases hok
  have hf : Final S T e1 := toTag_final hS hT _ _ ht
  have hp : placed S T false (derivBind e1) = derivBind e1 := placed_final _ false (final_deriv e1 T hf)
  have hs : e1 = squash (placed S T false (flat e)) := (((C11_exact S T (flat e)).1 e1).1 ht).2
  have hk : Keeps e (derivBind e1) := by
    refine Keeps.trans ?_ (derivBind_keeps e1)
    rw [hs]
    exact ((flat_keeps e).trans (placed_keeps S T _ false)).trans (squash_keeps _)
  rw [bindAll_eq hS hT ht]
  rw [prepareAll_eq hS hT ht] at hok
  refine ((C76_nested E c I pl S T (derivBind e1) e' ctx cc hc hI hid hcc hS hT ?_ ?_ (hk.2 hg) (noClash_keeps hk hn) hok).1 v).2 ?_
  · rw [hs]; exact unregOk_deriv (unregOk_squash (unregOk_flat hu))
  · rw [hp]
    refine avgSeen_deriv _ _ _ ?_
    rw [hs]
    exact avgSeen_squash _ _ _ (avgSeen_flat _ S T e false [] ha)
  · rw [hp]
    refine meaning_deriv ctx hA pl e1 false v ?_
    have hJ : ∀ d v, mean E I ctx (.interp d d) [v] = v := by
      intro d v
      cases v with
      | none => rfl
      | some w => exact hid d w
    rw [hs, meaning_squash (mean E I ctx) hJ]
    exact C95_value ctx hA S T pl e false false v hv

/-! ### When the derivative binder does nothing -/

/-- products are flat -/
def ProdFlat (e : SE) : Prop := ∀ cs, Sub e (.node .prod cs) → NodeFlat .prod cs

theorem flatNF_sub {e e' : SE} (hs : Sub e e') : FlatNF e → FlatNF e' := by
  induction hs with
  | refl => exact id
  | child hc _ ih =>
    intro hf
    exact ih (flatNFL_iff.1 hf.2 _ hc)

theorem derivBind_id : ∀ e, ProdFlat e → derivBind e = e := by
  apply SE.ind (P := fun e => ProdFlat e → derivBind e = e)
  intro h cs ih hf
  have hl : derivBindL cs = cs := by
    rw [derivBindL_eq]
    conv => rhs; rw [← List.map_id cs]
    exact List.map_congr_left fun c hm => ih c hm (fun ds hs => hf ds (.child hm hs))
  by_cases hp : h = .prod
  · subst hp
    have hh := hf cs (.refl _)
    simp only [NodeFlat] at hh
    simp only [derivBind, flatProd, hl, prodLoop_id cs [] hh.2, List.nil_append]
    match cs, hh.1 with
    | a :: b :: l, _ => rfl
  · rw [derivBind_node hp, hl]

theorem isZero_placed (S T : DD) (b : Bool) (e : SE) : isZero (placed S T b e) = isZero e := by
  cases e with
  | node h cs => cases h <;> cases cs <;> simp [placed, placedL, retag, isZero]

theorem isOne_placed (S T : DD) (b : Bool) (e : SE) : isOne (placed S T b e) = isOne e := by
  cases e with
  | node h cs => cases h <;> cases cs <;> simp [placed, placedL, retag, isOne]

theorem prodArgs_placed (S T : DD) (b : Bool) (e : SE) : prodArgs (placed S T b e) = none ↔ prodArgs e = none := by
  cases e with
  | node h cs => cases h <;> simp [placed, retag, prodArgs]

theorem prodFlat_placed {S T : DD} {e : SE} (b : Bool) (hf : FlatNF e) : ProdFlat (placed S T b e) := by
  intro cs hs
  obtain ⟨h, cs0, T', b', hs0, hh, rfl⟩ := sub_placed e b _ _ hs
  have hp : h = .prod := by
    cases h <;> simp only [retag] at hh <;> first | rfl | cases hh
  subst hp
  have h1 := (flatNF_sub hs0 hf).1
  simp only [NodeFlat] at h1 ⊢
  rw [placedL_eq]
  refine ⟨by simpa using h1.1, ?_⟩
  intro c hc
  obtain ⟨d, hd, rfl⟩ := List.mem_map.1 hc
  rw [isZero_placed, isOne_placed, prodArgs_placed]
  exact h1.2 d hd

/-- **C76**: unless filling in the locations makes both ends of an interpolation equal, binding derivatives changes nothing any more. -/
theorem C76_binder (S T : DD) (e e1 : SE) (h : toTag S T (flat e) = .ok e1)
    (hs : squash (placed S T false (flat e)) = placed S T false (flat e)) : derivBind e1 = e1 := by
  have : e1 = placed S T false (flat e) := by rw [(((C11_exact S T (flat e)).1 e1).1 h).2, hs]
  rw [this]
  exact derivBind_id _ (prodFlat_placed false (C95_normal e))

/-! ### Non-vacuity -/

/-- `D(sigma) * interp(q -> q, sigma * sigma)`, the interpolation without given start -/
def exDeriv : SE := .node .prod
  [.node (.intg ⟨.base "D", ["G"], 1, .avg, ⟨.none, none, .node⟩, ⟨.none, none, .node⟩, []⟩) [.node (.var "sigma") []],
   .node (.interp ⟨.none, none, .node⟩ exD) [.node .prod [.node (.var "sigma") [], .node (.var "sigma") []]]]

/-- the derivative binder merges the products -/
example : (match toTag exD exD (flat exDeriv) with
    | .ok e1 => decide (derivBind e1 ≠ e1 ∧ (derivBind e1).size = 5)
    | .error _ => false) = true := by decide +kernel

/-- its meaning -/
def exDerivVal : Int := (meaning (mean exEncF exIntF exInputs) exColl false (placed exD exD false exDeriv)).getD 0

example : exDerivVal ≠ 0 ∧ bindAll exEncF Compiler.exCfg exIntF exColl exD exD exDeriv exInputs [] = .ok exDerivVal := by
  refine ⟨by decide +kernel, ?_⟩
  obtain ⟨e', he⟩ : ∃ e', prepareAll exColl exD exD exDeriv = .ok e' := by
    cases h : prepareAll exColl exD exD exDeriv with
    | ok e' => exact ⟨e', rfl⟩
    | error x =>
      have : ¬ (prepareAll exColl exD exD exDeriv).isOk = false := by decide +kernel
      rw [h] at this
      exact absurd rfl this
  refine C76_all exEncF Compiler.exCfg exIntF exArithF exColl exD exD exDeriv e' exInputs [] Compiler.exCfg_ok
    exIntF_lawful (fun _ _ => rfl) (by intro k v h; cases h) (by simp [Explicit, exD]) (by simp [Explicit, exD])
    (Or.inl (fun p hp => by revert p; decide)) ?_ ?_ ?_ he exDerivVal (by decide +kernel)
  · simp [exDeriv, placed, placedL, retag, AvgSeen, AvgSeenL, Seen, exD, fillDD, copyGeo, exColl, qbxNames]
  · simp [exDeriv, good_node, NodeOk]
  · intro x hx
    have hx : x = "sigma" := by simpa [exDeriv, has_node, key, eq_comm] using hx
    subst hx
    rintro (⟨i, hi⟩ | ⟨p, hp, _⟩)
    · exact Compiler.toString_nat_ne hi 's' (by decide +kernel) (by decide +kernel) (by decide +kernel)
    · simp [exDeriv, has_node, key] at hp

end Verif.Bind
