import Verif.Bind.Props
import Verif.Compiler.Sound
/-!
# C76: exactly when `bind(places, expr)(**context)` returns a value
-/
namespace Verif.Bind
open Verif.Sym
open Verif.DofDesc (DD Obj)

variable {V : Type}

/-- no conditionals in a translated expression -/
theorem tr_noCond (E : Enc) (e : SE) : Compiler.NoCond (tr E e) := by
  intro c a b hm
  obtain ⟨e', -, h⟩ := tr_subs E e _ hm
  cases e' with
  | node hd cs =>
    simp only [tr] at h
    cases hd <;> simp only at h <;> try exact absurd h (by intro h; cases h)
    all_goals
      unfold trCse at h
      split at h <;> cases h

/-- **C76**, exactly: if the preparation succeeds, then `bind` followed by evaluation returns `v` if and only if `v` is the meaning
of the expression with its locations filled in, and raises if and only if that expression has no meaning (an operation in it raises,
or a variable is not given).  No operation is assumed to be total and no variable is assumed to be given. -/
theorem C76_exact (E : Enc) (c : Compiler.Cfg) (I : Compiler.Interp V) (pl : List (Obj × PlaceKind)) (S T : DD) (e e' : SE)
    (ctx : Compiler.Ctx V) (cc : Compiler.Cache V) (hc : Compiler.CfgOk c) (hI : Compiler.Lawful I)
    (hcc : Compiler.CacheValid I ctx cc) (hu : UnregOk pl e) (hp : Plain pl S T e) (hg : Good e) (hn : NoClash e)
    (hok : prepare pl S T e = .ok e') :
    (∀ v, bindEval E c I pl S T e ctx cc = .ok v ↔ meaning (mean E I ctx) pl false (placed S T false e) = some v) ∧
      ((∃ x, bindEval E c I pl S T e ctx cc = .error (.eval x)) ↔
        meaning (mean E I ctx) pl false (placed S T false e) = none) := by
  obtain ⟨_, h2⟩ := prepare_inv hu hp hok
  have hk : Keeps e e' := ((placed_keeps S T e false).trans (expand_keeps _ _)).trans (interpPre_keeps pl _ _ _ h2)
  have hna : NoAvg e' := noAvg_interpPre pl _ (noAvg_expand _ _ hp.avg) _ _ h2
  have hden : meaning (mean E I ctx) pl false (placed S T false e) = Compiler.den I ctx (tr E e') := by
    rw [← meaning_expand (mean E I ctx) pl (qbxNames pl), ← interpPre_value _ pl _ _ _ h2, ← tr_den E I ctx e' hna]
  obtain ⟨k1, k2⟩ := Compiler.C01_exact c I (tr E e') ctx cc hc hI (tr_wf E e' (hk.2 hg) hna)
    (tr_noClash E e' (noClash_keeps hk hn)) (tr_noCond E e') hcc
  rw [hden]
  constructor
  · intro v
    rw [← k1 v]
    simp only [bindEval, hok]
    cases hx : Compiler.evalBound c I (tr E e') ctx cc with
    | error x => simp
    | ok r =>
      obtain ⟨w, c1, cc1⟩ := r
      simp only [Except.ok.injEq, Prod.mk.injEq]
      exact ⟨fun h => ⟨c1, cc1, h, rfl, rfl⟩, fun ⟨_, _, h, _⟩ => h⟩
  · rw [← k2]
    simp only [bindEval, hok]
    cases hx : Compiler.evalBound c I (tr E e') ctx cc with
    | error x => simp
    | ok r => simp

/-- **C76**: without any assumption on the operations and the inputs, the outcome (the value, or that something is raised) does not
depend on the caches of the collection, on the order in which the compiler schedules statements or iterates over sets, or on the names
it generates. -/
theorem C76_schedule_any (E : Enc) (c c' : Compiler.Cfg) (I : Compiler.Interp V) (pl : List (Obj × PlaceKind)) (S T : DD) (e : SE)
    (ctx : Compiler.Ctx V) (cc cc' : Compiler.Cache V) (hc : Compiler.CfgOk c) (hc' : Compiler.CfgOk c') (hI : Compiler.Lawful I)
    (hcc : Compiler.CacheValid I ctx cc) (hcc' : Compiler.CacheValid I ctx cc') (hu : UnregOk pl e) (hp : Plain pl S T e)
    (hg : Good e) (hn : NoClash e) (v : V) :
    bindEval E c I pl S T e ctx cc = .ok v ↔ bindEval E c' I pl S T e ctx cc' = .ok v := by
  cases hok : prepare pl S T e with
  | error x => simp only [bindEval, hok]
  | ok e' =>
    rw [(C76_exact E c I pl S T e e' ctx cc hc hI hcc hu hp hg hn hok).1 v,
      (C76_exact E c' I pl S T e e' ctx cc' hc' hI hcc' hu hp hg hn hok).1 v]

/-! ### The hypotheses can be met -/

/-- with `sigma` given, and without it -/
example :
    bindEval exEnc Compiler.exCfg exInt exColl exD exD exBind exInputs [] = .ok 97 ∧
      ∃ x, bindEval exEnc Compiler.exCfg exInt exColl exD exD exBind (fun _ => none) [] = .error (.eval x) := by
  have hu : UnregOk exColl exBind := Or.inl (fun p hp => by revert p; decide)
  obtain ⟨e', he⟩ : ∃ e', prepare exColl exD exD exBind = .ok e' := ⟨_, rfl⟩
  exact ⟨((C76_exact exEnc Compiler.exCfg exInt exColl exD exD exBind e' exInputs [] Compiler.exCfg_ok exInt_lawful
      (by intro k v h; cases h) hu exBind_plain exBind_good exBind_noClash he).1 97).2 (by decide +kernel),
    (C76_exact exEnc Compiler.exCfg exInt exColl exD exD exBind e' (fun _ => none) [] Compiler.exCfg_ok exInt_lawful
      (by intro k v h; cases h) hu exBind_plain exBind_good exBind_noClash he).2.2 (by decide +kernel)⟩

end Verif.Bind
