import Verif.Bind.Linear
import Verif.Bind.Nested
/-!
# Superposition without assumptions on other evaluations (C87)

`Bind/Linear.lean` assumes that all operations are total and that nested layer potentials have the same source.  Here neither is
assumed: if two evaluations of a bound expression that is linear in the unknown succeed, so does the one for any linear combination,
with the linear combination of the results.
-/

namespace Verif.Bind

open Verif.DofDesc Verif.Sym

section
variable {K V : Type} [CommRing K] [AddCommGroup V] [Module K V]

/-- if `a` and `b` are values, `d` is `a + c b` -/
def R3 (c : K) (a b d : Option V) : Prop := ∀ v w, a = some v → b = some w → d = some (v + c • w)

theorem allSome_cons_inv {x : Option V} {l : List (Option V)} {m : List V} (h : allSome (x :: l) = some m) :
    ∃ v n, x = some v ∧ allSome l = some n ∧ m = v :: n := by
  simp only [allSome] at h
  match x, h1 : allSome l with
  | none, _ => simp [h1] at h
  | some v, none => simp [h1] at h
  | some v, some w =>
    rw [h1] at h
    exact ⟨v, w, rfl, rfl, (Option.some.inj h).symm⟩

/-- lists of values -/
theorem r3_list {c : K} {α : Type} (f g k : α → Option V) : ∀ (l : List α), (∀ t ∈ l, R3 c (f t) (g t) (k t)) →
    ∀ a b, allSome (l.map f) = some a → allSome (l.map g) = some b →
      a.length = l.length ∧ b.length = l.length ∧ allSome (l.map k) = some (List.zipWith (fun d e => d + c • e) a b)
  | [], _, a, b, ha, hb => by
    simp only [List.map_nil, allSome, Option.some.injEq] at ha hb
    subst ha hb
    exact ⟨rfl, rfl, rfl⟩
  | t :: l, h, a, b, ha, hb => by
    simp only [List.map_cons] at ha hb
    obtain ⟨v, n, h1, h2, rfl⟩ := allSome_cons_inv ha
    obtain ⟨w, m, h3, h4, rfl⟩ := allSome_cons_inv hb
    obtain ⟨h5, h6, h7⟩ := r3_list f g k l (fun t ht => h t (by simp [ht])) n m h2 h4
    refine ⟨by simp [h5], by simp [h6], ?_⟩
    simp only [List.map_cons, allSome, h t (by simp) v w h1 h3, h7, List.zipWith_cons_cons]

variable {E : Enc} {I : Compiler.Interp V} {L : String → Nat → Prop} {ctx : Compiler.Ctx V} {u : String}

theorem r3_sum (hl : LinLaws K E I L) {c : K} {α : Type} (f g k : α → Option V) (l : List α)
    (h : ∀ t ∈ l, R3 c (f t) (g t) (k t)) :
    R3 c (mean E I ctx .sum (l.map f)) (mean E I ctx .sum (l.map g)) (mean E I ctx .sum (l.map k)) := by
  intro v w hv hw
  simp only [mean] at hv hw ⊢
  cases ha : allSome (l.map f) with
  | none => simp [ha] at hv
  | some a =>
    cases hb : allSome (l.map g) with
    | none => simp [hb] at hw
    | some b =>
      obtain ⟨h1, h2, h3⟩ := r3_list f g k l h a b ha hb
      simp only [ha, hb, h3, Option.map, foldl_add hl, Option.some.injEq] at hv hw ⊢
      have := foldl_add_lin c a b (h1.trans h2.symm) 0 0
      rw [smul_zero, add_zero] at this
      rw [this, hv, hw]

theorem allSome_split {l m : List (Option V)} {n : List V} (h : allSome (l ++ m) = some n) :
    ∃ a b, allSome l = some a ∧ allSome m = some b ∧ n = a ++ b ∧ a.length = l.length := by
  induction l generalizing n with
  | nil => exact ⟨[], n, rfl, h, rfl, rfl⟩
  | cons x l ih =>
    obtain ⟨v, k, h1, h2, rfl⟩ := allSome_cons_inv h
    obtain ⟨a, b, h3, h4, rfl, h5⟩ := ih h2
    exact ⟨v :: a, b, by simp only [allSome, h1, h3], h4, rfl, by simp [h5]⟩

theorem mean_lin (h : Head) (hl : LinAt L h i) (env : Compiler.Ctx V) (vs : List (Option V)) :
    mean E I env h vs = (allSome vs).bind (I.op (E.head h)) := by
  cases h <;> first
    | exact hl.elim
    | simp only [mean]

/-- operations linear in one operand -/
theorem r3_op (hl : LinLaws K E I L) {c : K} (h : Head) (pre post : List (Option V)) (hi : LinAt L h pre.length)
    {a b d : Option V} (hr : R3 c a b d) :
    R3 c (mean E I ctx h (pre ++ a :: post)) (mean E I ctx h (pre ++ b :: post)) (mean E I ctx h (pre ++ d :: post)) := by
  intro v w hv hw
  rw [mean_lin h hi] at hv hw ⊢
  cases ha : allSome (pre ++ a :: post) with
  | none => simp [ha] at hv
  | some as =>
    cases hb : allSome (pre ++ b :: post) with
    | none => simp [hb] at hw
    | some bs =>
      obtain ⟨p1, q1, h1, h2, rfl, h3⟩ := allSome_split ha
      obtain ⟨p2, q2, h4, h5, rfl, h6⟩ := allSome_split hb
      obtain ⟨x, n, h7, h8, rfl⟩ := allSome_cons_inv h2
      obtain ⟨y, m, h9, h10, rfl⟩ := allSome_cons_inv h5
      rw [h1] at h4
      rw [h8] at h10
      cases h4; cases h10
      have hd : allSome (pre ++ d :: post) = some (p1 ++ (x + c • y) :: n) :=
        allSome_append _ _ _ _ h1 (by simp only [allSome, hr x y h7 h9, h8])
      rw [ha] at hv
      rw [hb] at hw
      rw [hd]
      exact hl.op h _ hi p1 n h3 c x y v w hv hw

/-- layer potentials -/
theorem r3_pot (hl : LinLaws K E I L) {c : K} (g : IG) {α : Type} (f1 f2 f3 : α → Option V) (ds : List α) (ks : List (Option V))
    (hd : ds.length = g.nd) (hs : g.sks.length = g.nd) (h : ∀ t ∈ ds, R3 c (f1 t) (f2 t) (f3 t)) :
    R3 c (mean E I ctx (.intg g) (ds.map f1 ++ ks)) (mean E I ctx (.intg g) (ds.map f2 ++ ks))
      (mean E I ctx (.intg g) (ds.map f3 ++ ks)) := by
  have ht : ∀ f : α → Option V, (ds.map f ++ ks).take g.nd = ds.map f := by
    intro f; rw [← hd, List.take_left' (by simp)]
  have hdr : ∀ f : α → Option V, (ds.map f ++ ks).drop g.nd = ks := by
    intro f; rw [← hd, List.drop_left' (by simp)]
  intro v w hv hw
  simp only [mean, ht, hdr] at hv hw ⊢
  cases ha : allSome (ds.map f1) with
  | none => simp [ha] at hv
  | some a =>
    cases hb : allSome (ds.map f2) with
    | none => simp [hb] at hw
    | some b =>
      obtain ⟨h1, h2, h3⟩ := r3_list f1 f2 f3 ds h a b ha hb
      cases hk : allSome ks with
      | none => simp [ha, hk] at hv
      | some k =>
        simp only [ha, hb, hk, h3] at hv hw ⊢
        exact hl.pot _ _ _ _ _ _ c a b v w (by omega) (by omega) hv hw

theorem r3_potMean (hl : LinLaws K E I L) {c : K} (g : IG) {α : Type} (f1 f2 f3 : α → Option V) (ds : List α)
    (ks : List (Option V)) (hd : ds.length = g.nd) (hs : g.sks.length = g.nd) (h : ∀ t ∈ ds, R3 c (f1 t) (f2 t) (f3 t)) :
    R3 c (potMean (mean E I ctx) g (ds.map f1 ++ ks)) (potMean (mean E I ctx) g (ds.map f2 ++ ks))
      (potMean (mean E I ctx) g (ds.map f3 ++ ks)) := by
  simp only [potMean]
  by_cases hg : g.lim = .avg
  · simp only [if_pos hg]
    have hp := r3_pot (ctx := ctx) (g := { g with lim := .p1 }) hl f1 f2 f3 ds ks hd hs h
    have hm := r3_pot (ctx := ctx) (g := { g with lim := .m1 }) hl f1 f2 f3 ds ks hd hs h
    have hsum := r3_sum (ctx := ctx) hl
      (fun b : Bool => if b then mean E I ctx (.intg { g with lim := .p1 }) (ds.map f1 ++ ks)
        else mean E I ctx (.intg { g with lim := .m1 }) (ds.map f1 ++ ks))
      (fun b : Bool => if b then mean E I ctx (.intg { g with lim := .p1 }) (ds.map f2 ++ ks)
        else mean E I ctx (.intg { g with lim := .m1 }) (ds.map f2 ++ ks))
      (fun b : Bool => if b then mean E I ctx (.intg { g with lim := .p1 }) (ds.map f3 ++ ks)
        else mean E I ctx (.intg { g with lim := .m1 }) (ds.map f3 ++ ks)) [true, false] (by
      intro t _
      cases t
      · exact hm
      · exact hp)
    exact r3_op hl .prod [mean E I ctx (.num (1/2)) []] [] trivial hsum
  · simp only [if_neg hg]
    exact r3_pot hl g f1 f2 f3 ds ks hd hs h

/-! ### Expressions -/

/-- what is free of `u` does not depend on its value -/
theorem value_free {e : SE} (hf : Free u e) (x : V) : value (mean E I (setVar ctx u x)) e = value (mean E I ctx) e :=
  value_agree (fun h hh => mean_agree x h hh) e hf

theorem meaning_free (pl : List (Obj × PlaceKind)) (tg : Bool) {e : SE} (hf : Free u e) (x : V) :
    meaning (mean E I (setVar ctx u x)) pl tg e = meaning (mean E I ctx) pl tg e :=
  meaning_agree (fun h hh => mean_agree x h hh) pl e hf tg

theorem potMean_set (x : V) (g : IG) (vs : List (Option V)) :
    potMean (mean E I (setVar ctx u x)) g vs = potMean (mean E I ctx) g vs :=
  potMean_agree (u := u) (fun h hh => mean_agree x h hh) g vs

theorem map_free {f g : SE → Option V} {l : List SE} (h : ∀ k ∈ l, f k = g k) : l.map f = l.map g := List.map_congr_left h

theorem value_r3 (hl : LinLaws K E I L) (x y : V) (c : K) {e : SE} (h : LinearIn L u e) :
    R3 c (value (mean E I (setVar ctx u x)) e) (value (mean E I (setVar ctx u y)) e)
      (value (mean E I (setVar ctx u (x + c • y))) e) := by
  induction h with
  | var cs =>
    intro v w hv hw
    simp only [value, mean, setVar, if_true, Option.some.injEq] at hv hw ⊢
    rw [hv, hw]
  | sum cs h ih =>
    simp only [value, valueL_eq, mean_agree (u := u) _ .sum (by simp)]
    exact r3_sum hl _ _ _ cs ih
  | cse p s e h ih => simpa only [value, valueL, mean] using ih
  | intg g ds ks hd hs h hk ih =>
    simp only [value_potMean, valueL_eq, List.map_append, potMean_set]
    have hv : ∀ z, ks.map (value (mean E I (setVar ctx u z))) = ks.map (value (mean E I ctx)) :=
      fun z => map_free fun k hk' => value_free (hk k hk') z
    simp only [hv]
    exact r3_potMean hl g _ _ _ ds _ hd hs ih
  | op hd pre e post hla h h1 h2 ih =>
    have hne : hd ≠ .var u := by rintro rfl; exact hla.elim
    have hval : ∀ z, value (mean E I (setVar ctx u z)) (.node hd (pre ++ e :: post))
        = mean E I ctx hd (pre.map (value (mean E I ctx)) ++ value (mean E I (setVar ctx u z)) e :: post.map (value (mean E I ctx))) := by
      intro z
      have ha : pre.map (value (mean E I (setVar ctx u z))) = pre.map (value (mean E I ctx)) :=
        map_free fun k hk' => value_free (h1 k hk') z
      have hb : post.map (value (mean E I (setVar ctx u z))) = post.map (value (mean E I ctx)) :=
        map_free fun k hk' => value_free (h2 k hk') z
      rw [← ha, ← hb, ← mean_agree (u := u) (ctx := ctx) z hd hne]
      cases hd <;> first
        | exact hla.elim
        | simp only [value, valueL_eq, List.map_append, List.map_cons]
    simp only [hval]
    exact r3_op hl hd _ _ (by rw [List.length_map]; exact hla) ih

theorem r3_fixed (hl : LinLaws K E I L) (x y : V) (c : K) (g : IG) (ds ks : List SE) (hd : ds.length = g.nd)
    (hs : g.sks.length = g.nd) (h : ∀ d ∈ ds, LinearIn L u d) (hk : ∀ k ∈ ks, Free u k) :
    R3 c (potMean (mean E I (setVar ctx u x)) g (valueL (mean E I (setVar ctx u x)) (ds ++ ks)))
      (potMean (mean E I (setVar ctx u y)) g (valueL (mean E I (setVar ctx u y)) (ds ++ ks)))
      (potMean (mean E I (setVar ctx u (x + c • y))) g (valueL (mean E I (setVar ctx u (x + c • y))) (ds ++ ks))) := by
  have hv : ∀ z, ks.map (value (mean E I (setVar ctx u z))) = ks.map (value (mean E I ctx)) :=
    fun z => map_free fun k hk' => value_free (hk k hk') z
  simp only [valueL_eq, List.map_append, potMean_set, hv]
  exact r3_potMean hl g _ _ _ ds _ hd hs (fun d hd' => value_r3 hl x y c (h d hd'))

theorem meaning_r3 (hl : LinLaws K E I L) (pl : List (Obj × PlaceKind)) (x y : V) (c : K) {e : SE} (h : LinearIn L u e) :
    ∀ tg, R3 c (meaning (mean E I (setVar ctx u x)) pl tg e) (meaning (mean E I (setVar ctx u y)) pl tg e)
      (meaning (mean E I (setVar ctx u (x + c • y))) pl tg e) := by
  induction h with
  | var cs =>
    intro tg v w hv hw
    simp only [meaning, mean, setVar, if_true, Option.some.injEq] at hv hw ⊢
    rw [hv, hw]
  | sum cs h ih =>
    intro tg
    simp only [meaning, meaningL_eq, mean_agree (u := u) _ .sum (by simp)]
    exact r3_sum hl _ _ _ cs (fun d hd => ih d hd tg)
  | cse p s e h ih => intro tg; simpa only [meaning, meaningL, mean] using ih tg
  | intg g ds ks hd hs h hk ih =>
    intro tg
    have hts : (tgtStage g).nd = g.nd ∧ (tgtStage g).sks = g.sks := by
      unfold tgtStage; split <;> exact ⟨rfl, rfl⟩
    by_cases hup : upsamples pl g = true
    · have hv : ∀ z, ks.map (fun k => mean E I (setVar ctx u z) (.interp (DDs g.src .stage2) (DDs g.src .quadStage2))
          [meaning (mean E I (setVar ctx u z)) pl true k]) = ks.map (fun k => mean E I ctx
          (.interp (DDs g.src .stage2) (DDs g.src .quadStage2)) [meaning (mean E I ctx) pl true k]) :=
        fun z => map_free fun k hk' => by rw [meaning_free pl true (hk k hk') z, mean_agree z _ (by simp)]
      simp only [meaning, if_pos hup, ← hd, meaningArgs_eq, potMean_set, hv]
      refine r3_potMean hl _ _ _ _ ds _ (by simpa only [hts.1] using hd) (by simp only [hts.1, hts.2]; exact hs) ?_
      intro d hd'
      simp only [mean_agree (u := u) _ (.interp (DDs g.src .stage1) (DDs g.src .quadStage2)) (by simp)]
      exact r3_op hl (.interp (DDs g.src .stage1) (DDs g.src .quadStage2)) [] [] rfl (ih d hd' tg)
    · simp only [meaning, if_neg hup]
      cases tg with
      | false => exact r3_fixed hl x y c _ ds ks (by rw [hts.1]; exact hd) (by rw [hts.1, hts.2]; exact hs) h hk
      | true =>
        simp only [if_true, stageTagL_eq, List.map_append]
        refine r3_fixed hl x y c _ _ _ (by rw [hts.1, List.length_map]; exact hd) (by rw [hts.1, hts.2]; exact hs) ?_ ?_
        · intro d hd
          obtain ⟨c', hc', rfl⟩ := List.mem_map.1 hd
          exact (h c' hc').stageTag _
        · intro k hk'
          obtain ⟨c', hc', rfl⟩ := List.mem_map.1 hk'
          exact Free.keeps (stageTag_keeps _ c') (hk c' hc')
  | op hd pre e post hla h h1 h2 ih =>
    intro tg
    have hne : hd ≠ .var u := by rintro rfl; exact hla.elim
    by_cases hn : ∃ a dd, hd = .nrd a dd
    · obtain ⟨a, dd, rfl⟩ := hn
      have hst := value_r3 (ctx := ctx) hl x y c (LinearIn.stageTag .stage2 (.op (.nrd a dd) pre e post hla h h1 h2))
      have hv := value_r3 (ctx := ctx) hl x y c (.op (.nrd a dd) pre e post hla h h1 h2)
      simp only [meaning]
      cases tg with
      | true => simpa only [if_true] using hst
      | false =>
        simp only [Bool.false_eq_true, if_false]
        by_cases hq : dd.stage = some .quadStage2 ∧ getGeo pl dd.geometry = .ok .qbx
        · simp only [if_pos hq, mean_agree (u := u) _ (.interp (DDs dd .stage2) dd) (by simp)]
          exact r3_op hl (.interp (DDs dd .stage2) dd) [] [] rfl hst
        · simp only [if_neg hq]
          exact hv
    · have hval : ∀ z, meaning (mean E I (setVar ctx u z)) pl tg (.node hd (pre ++ e :: post))
          = mean E I ctx hd (pre.map (meaning (mean E I ctx) pl tg) ++ meaning (mean E I (setVar ctx u z)) pl tg e ::
            post.map (meaning (mean E I ctx) pl tg)) := by
        intro z
        have ha : pre.map (meaning (mean E I (setVar ctx u z)) pl tg) = pre.map (meaning (mean E I ctx) pl tg) :=
          map_free fun k hk' => meaning_free pl tg (h1 k hk') z
        have hb : post.map (meaning (mean E I (setVar ctx u z)) pl tg) = post.map (meaning (mean E I ctx) pl tg) :=
          map_free fun k hk' => meaning_free pl tg (h2 k hk') z
        rw [← ha, ← hb, ← mean_agree (u := u) (ctx := ctx) z hd hne]
        cases hd <;> first
          | exact hla.elim
          | exact absurd ⟨_, _, rfl⟩ hn
          | simp only [meaning, meaningL_eq, List.map_append, List.map_cons]
      simp only [hval]
      exact r3_op hl hd _ _ (by rw [List.length_map]; exact hla) (ih tg)

theorem LinearIn.squash {e : SE} (h : LinearIn L u e) : LinearIn L u (squash e) := by
  induction h with
  | var cs => rw [squash_node _ _ rfl]; exact .var _
  | sum cs h ih =>
    rw [squash_node _ _ rfl]
    refine .sum _ ?_
    rw [squashL_eq]
    intro c hc
    obtain ⟨c', hc', rfl⟩ := List.mem_map.1 hc
    exact ih c' hc'
  | cse p s c h ih =>
    rw [squash_node _ _ rfl]
    exact .cse p _ _ ih
  | intg g ds ks hd hs h hk ih =>
    rw [squash_node _ _ rfl, squashL_eq, List.map_append]
    refine .intg _ _ _ (by simpa using hd) hs ?_ ?_
    · intro d hd
      obtain ⟨c', hc', rfl⟩ := List.mem_map.1 hd
      exact ih c' hc'
    · intro k hk'
      obtain ⟨c', hc', rfl⟩ := List.mem_map.1 hk'
      exact Free.keeps (squash_keeps c') (hk c' hc')
  | op hd pre c post hl h h1 h2 ih =>
    have hgen : LinearIn L u (.node hd (squashL (pre ++ c :: post))) := by
      simp only [squashL_eq, List.map_append, List.map_cons]
      refine .op _ _ _ _ (by rw [List.length_map]; exact hl) ih ?_ ?_
      · intro k hk'
        obtain ⟨c', hc', rfl⟩ := List.mem_map.1 hk'
        exact Free.keeps (squash_keeps c') (h1 c' hc')
      · intro k hk'
        obtain ⟨c', hc', rfl⟩ := List.mem_map.1 hk'
        exact Free.keeps (squash_keeps c') (h2 c' hc')
    by_cases hi : isInterp hd = true
    · cases hd <;> simp only [isInterp, Bool.false_eq_true] at hi
      rename_i f t
      obtain rfl : pre = [] := List.length_eq_zero_iff.1 hl
      simp only [Bind.squash, dropTrivial]
      simp only [List.nil_append, squashL] at hgen ⊢
      match post with
      | [] =>
        simp only [squashL] at hgen ⊢
        by_cases hft : f = t
        · subst hft; simpa [dropTrivial] using ih
        · simpa [dropTrivial, hft] using hgen
      | k :: post => simpa [dropTrivial, squashL] using hgen
    · rw [squash_node _ _ (by simpa using hi)]
      exact hgen

/-! ## Theorems -/

/-- **C87, superposition**: if evaluating a bound expression that is linear in `u` as written succeeds for `u = x` and for `u = y`, it
succeeds for `u = x + a y`, and returns the same combination of the results - whatever the caches, the schedule and the names chosen by
the compiler.  Layer potentials may be nested in any way (as in C76_general) and other evaluations may fail. -/
theorem C87_superposition (c : Compiler.Cfg) (pl : List (Obj × PlaceKind)) (S T : DD) (e e' : SE)
    (hc : Compiler.CfgOk c) (hI : Compiler.Lawful I) (hl : LinLaws K E I L) (hlin : LinearIn L u e) (hS : Explicit S)
    (hT : Explicit T) (hu : UnregOk pl e) (ha : AvgSeen (qbxNames pl) [] (placed S T false e)) (hg : Good e) (hn : NoClash e)
    (hok : prepare pl S T e = .ok e') (x y : V) (a : K) (cx cy cz : Compiler.Cache V)
    (hx : Compiler.CacheValid I (setVar ctx u x) cx) (hy : Compiler.CacheValid I (setVar ctx u y) cy)
    (hz : Compiler.CacheValid I (setVar ctx u (x + a • y)) cz) (v w : V)
    (hv : bindEval E c I pl S T e (setVar ctx u x) cx = .ok v) (hw : bindEval E c I pl S T e (setVar ctx u y) cy = .ok w) :
    bindEval E c I pl S T e (setVar ctx u (x + a • y)) cz = .ok (v + a • w) := by
  have h := fun z cc hcc => (C76_general E c I pl S T e e' (setVar ctx u z) cc hc hI hcc hS hT hu ha hg hn hok).1
  exact (h _ cz hz _).2 (meaning_r3 hl pl x y a ((hlin.placed S T false).squash) false v w ((h x cx hx v).1 hv) ((h y cy hy w).1 hw))

/-- **C87, linearity**: if evaluation succeeds for all values of the unknown, the bound expression is a linear operator `A`: whatever
the caches, evaluation returns `A x`, the meaning of the expression. -/
theorem C87_operator (c : Compiler.Cfg) (pl : List (Obj × PlaceKind)) (S T : DD) (e e' : SE)
    (hc : Compiler.CfgOk c) (hI : Compiler.Lawful I) (hl : LinLaws K E I L) (hlin : LinearIn L u e) (hS : Explicit S)
    (hT : Explicit T) (hu : UnregOk pl e) (ha : AvgSeen (qbxNames pl) [] (placed S T false e)) (hg : Good e) (hn : NoClash e)
    (hok : prepare pl S T e = .ok e') (hdef : ∀ x, ∃ v, bindEval E c I pl S T e (setVar ctx u x) [] = .ok v) :
    ∃ A : V →ₗ[K] V, ∀ x,
      meaning (mean E I (setVar ctx u x)) pl false (squash (placed S T false e)) = some (A x) ∧
      ∀ cc, Compiler.CacheValid I (setVar ctx u x) cc → bindEval E c I pl S T e (setVar ctx u x) cc = .ok (A x) := by
  have h := fun z cc hcc => (C76_general E c I pl S T e e' (setVar ctx u z) cc hc hI hcc hS hT hu ha hg hn hok).1
  have h0 : ∀ z, Compiler.CacheValid I (setVar ctx u z) [] := by intro z k v hk; cases hk
  have hm : LF K (fun x => meaning (mean E I (setVar ctx u x)) pl false (squash (placed S T false e))) := by
    constructor
    · intro x
      obtain ⟨v, hv⟩ := hdef x
      exact ⟨v, (h x [] (h0 x) v).1 hv⟩
    · intro x y a v w hv hw
      exact meaning_r3 hl pl x y a ((hlin.placed S T false).squash) false v w hv hw
  obtain ⟨A, hA⟩ := hm.map
  exact ⟨A, fun x => ⟨hA x, fun cc hcc => (h x cc hcc (A x)).2 (hA x)⟩⟩

/-- **C87, repeated evaluation** for all nestings of potentials, assuming of the operations only that evaluation succeeds.  Partial:
CSEs of scope `EXPRESSION` or `DISCRETIZATION` must not contain variables, see `C87_refuted`. -/
theorem C87_history_partial (c : Compiler.Cfg) (pl : List (Obj × PlaceKind)) (S T : DD) (e e' : SE)
    (hc : Compiler.CfgOk c) (hI : Compiler.Lawful I) (hl : LinLaws K E I L) (hlin : LinearIn L u e) (hS : Explicit S)
    (hT : Explicit T) (hu : UnregOk pl e) (ha : AvgSeen (qbxNames pl) [] (placed S T false e)) (hg : Good e) (hn : NoClash e)
    (hok : prepare pl S T e = .ok e') (hdef : ∀ x, ∃ v, bindEval E c I pl S T e (setVar ctx u x) [] = .ok v)
    (hcse : ∀ p s cs, Sub e (.node (.cse p s) cs) → s ≠ "pymbolic_eval" → ∀ k ∈ cs, ∀ x, Free x k)
    (s : Compiler.Caches V) (hs : Compiler.ClosedValid I s.places ∧ ∀ e, Compiler.ClosedValid I (s.bound e)) :
    ∃ A : V →ₗ[K] V, (∀ x, meaning (mean E I (setVar ctx u x)) pl false (squash (placed S T false e)) = some (A x)) ∧
      ∀ xs : List V, Compiler.calls c I (xs.map fun x => (tr E e', setVar ctx u x)) s = xs.map fun x => .ok (A x) := by
  obtain ⟨A, hA⟩ := C87_operator (ctx := ctx) c pl S T e e' hc hI hl hlin hS hT hu ha hg hn hok hdef
  refine ⟨A, fun x => (hA x).1, fun xs => ?_⟩
  obtain ⟨_, h2⟩ := prepare_seen hS hT hu hok
  have hk : Keeps e e' := (((placed_keeps S T e false).trans (squash_keeps _)).trans
    (expandR_keeps _ _ _)).trans (interpPre_keeps pl _ _ _ h2)
  have hna : NoAvg e' := noAvg_interpPre pl _ (noAvg_expandR _ _ _ (avgSeen_squash _ _ _ ha)) _ _ h2
  have hwf := tr_wf E e' (hk.2 hg) hna
  have hnc := tr_noClash E e' (noClash_keeps hk hn)
  have hden : ∀ x, Compiler.den I (setVar ctx u x) (tr E e') = some (A x) := by
    intro x
    rw [← (hA x).1, ← meaning_expandR (mean E I (setVar ctx u x)) pl (qbxNames pl) _ [], ← interpPre_value _ pl _ _ _ h2,
      ← tr_den E I (setVar ctx u x) e' hna]
  have hcl := tr_cachedClosed E e' (hk.3 _ (by
    rintro p s cs hsub hse c' hc' k ⟨x, rfl⟩
    exact hcse p s cs hsub hse c' hc' x))
  have hall := Compiler.C08_history_partial c I hc hI (xs.map fun x => (tr E e', setVar ctx u x)) s (by
    intro q hq
    obtain ⟨x, _, rfl⟩ := List.mem_map.1 hq
    exact ⟨hwf, hnc, Compiler.allDefined_of I _ _ (tr_noCond E e') _ (hden x), hcl⟩) hs.1 hs.2
  rw [List.forall₂_map_left_iff] at hall
  refine map_of_forall₂ (hall.imp ?_)
  rintro x r ⟨v, hv, hr⟩
  rw [hden] at hv
  rw [hr, Option.some.inj hv]

/-- **C87, solutions** for all nestings of potentials, assuming of the operations only that evaluation succeeds: a converged solve
with the bound expression as operator satisfies the equation up to the tolerance. -/
theorem C87_converged_partial {N : Type} [Field N] [LinearOrder N] (c : Compiler.Cfg) (pl : List (Obj × PlaceKind))
    (S T : DD) (e e' : SE) (hc : Compiler.CfgOk c) (hI : Compiler.Lawful I) (hl : LinLaws K E I L) (hlin : LinearIn L u e)
    (hS : Explicit S) (hT : Explicit T) (hu : UnregOk pl e) (ha : AvgSeen (qbxNames pl) [] (placed S T false e)) (hg : Good e)
    (hn : NoClash e) (hok : prepare pl S T e = .ok e')
    (hdef : ∀ x, ∃ v, bindEval E c I pl S T e (setVar ctx u x) [] = .ok v)
    (hcse : ∀ p s cs, Sub e (.node (.cse p s) cs) → s ≠ "pymbolic_eval" → ∀ k ∈ cs, ∀ x, Free x k)
    (s : Compiler.Caches V) (hs : Compiler.ClosedValid I s.places ∧ ∀ e, Compiler.ClosedValid I (s.bound e))
    (dot : V → V → K) (norm : V → N) (recip : N → K) :
    ∃ op : V → V,
      (∀ (xs : List V) (x : V),
        (Compiler.calls c I ((xs ++ [x]).map fun x => (tr E e', setVar ctx u x)) s).getLast? = some (.ok (op x))) ∧
      ∀ (p : Gmres.Params (Option N)) (b : V) (x0 : Option V) (r : Gmres.Result (Option V) (Option N)),
        (Gmres.gmres (Gmres.nanOps op dot norm recip) p (some b) (x0.map some)).ending = .returned r →
        r.success = true →
        ∃ x y, r.solution = some x ∧
          meaning (mean E I (setVar ctx u x)) pl false (squash (placed S T false e)) = some y ∧
          ((∃ t, p.tol = some t ∧ norm (b - y) < t * norm b) ∨ norm (b - y) = 0) := by
  obtain ⟨A, hA, hcalls⟩ := C87_history_partial (ctx := ctx) c pl S T e e' hc hI hl hlin hS hT hu ha hg hn hok hdef hcse s hs
  refine ⟨A, ?_, ?_⟩
  · intro xs x
    rw [hcalls, List.map_append, List.map_singleton, List.getLast?_concat]
  · intro p b x0 r h hsuc
    obtain ⟨x, h1, h2⟩ := Gmres.C27_breakdown A dot norm recip p b x0 r h hsuc
    exact ⟨x, A x, h1, hA x, h2⟩

end

theorem exNested_linear : LinearIn (fun _ _ => False) "sigma" exNested := by
  refine .sum _ ?_
  intro c hc
  simp only [List.mem_cons, List.not_mem_nil, or_false] at hc
  rcases hc with rfl | rfl
  · refine .intg _ [_] [] rfl rfl ?_ (by simp)
    intro d hd
    rw [List.mem_singleton] at hd
    subst hd
    refine .intg _ [_] [] rfl rfl ?_ (by simp)
    intro d hd
    rw [List.mem_singleton] at hd
    subst hd
    exact .var []
  · refine .intg _ [_] [] rfl rfl ?_ (by simp)
    intro d hd
    rw [List.mem_singleton] at hd
    subst hd
    exact .var []

theorem exNested_seen : AvgSeen (qbxNames exColl2) [] (placed exD exD false exNested) := by
  simp [exNested, placed, placedL, retag, AvgSeen, AvgSeenL, Seen, exD, fillDD, exColl2, qbxNames]

theorem exNested_good : Good exNested := by
  simp [exNested, good_node, NodeOk]

theorem exNested_noClash : NoClash exNested := by
  intro x hx hc
  have hx : x = "sigma" := by simpa [exNested, has_node, key, eq_comm] using hx
  subst hx
  rcases hc with ⟨i, hi⟩ | ⟨p, hp, -⟩
  · exact Compiler.toString_nat_ne hi 's' (by decide +kernel) (by decide +kernel) (by decide +kernel)
  · simp [exNested, has_node, key] at hp

theorem exNested_cse : ∀ p s cs, Sub exNested (.node (.cse p s) cs) → s ≠ "pymbolic_eval" → ∀ k ∈ cs, ∀ x, Free x k := by
  have : Sealed (fun _ => True) exNested := by
    simp [exNested, sealed_node]
  intro p s cs h1 h2 k hk x
  exact this p s cs h1 h2 k hk _ trivial

theorem exNested_defined (x : ℚ) :
    ∃ v, bindEval exEncL Compiler.exCfg exLin exColl2 exD exD exNested (setVar (fun _ => none) "sigma" x) [] = .ok v := by
  obtain ⟨e', he⟩ : ∃ e', prepare exColl2 exD exD exNested = .ok e' := ⟨_, rfl⟩
  obtain ⟨v, hv⟩ : ∃ v, meaning (mean exEncL exLin (setVar (fun _ => none) "sigma" x)) exColl2 false
      (squash (placed exD exD false exNested)) = some v := ⟨_, rfl⟩
  exact ⟨v, ((C76_general exEncL Compiler.exCfg exLin exColl2 exD exD exNested e' _ [] Compiler.exCfg_ok
    exLin_lawful (by intro k v h; cases h) (by simp [Explicit, exD]) (by simp [Explicit, exD])
    (Or.inl (fun p hp => by revert p; decide)) exNested_seen exNested_good exNested_noClash he).1 v).2 hv⟩

/-- the hypotheses are met by a potential on `q` of a potential on `p`, plus an `'avg'` potential, where `C87_solve_partial` does not
apply; the operator is multiplication by `9` -/
example : LinLaws ℚ exEncL exLin (fun _ _ => False) ∧ Compiler.Lawful exLin ∧
    LinearIn (fun _ _ => False) "sigma" exNested ∧ ¬ HomNest (placed exD exD false exNested) ∧ UnregOk exColl2 exNested ∧
    AvgSeen (qbxNames exColl2) [] (placed exD exD false exNested) ∧ Good exNested ∧ NoClash exNested ∧
    (∀ x, ∃ v, bindEval exEncL Compiler.exCfg exLin exColl2 exD exD exNested (setVar (fun _ => none) "sigma" x) [] = .ok v) ∧
    (∃ e', prepare exColl2 exD exD exNested = .ok e' ∧
      (Compiler.calls Compiler.exCfg exLin
        ([2, 5].map fun x => (tr exEncL e', setVar (fun _ => none) "sigma" x)) ⟨[], fun _ => []⟩).map
          (fun r => r.toOption) = [some 18, some 45]) ∧
    ∀ p s cs, Sub exNested (.node (.cse p s) cs) → s ≠ "pymbolic_eval" → ∀ k ∈ cs, ∀ x, Free x k :=
  ⟨exLin_laws, exLin_lawful, exNested_linear,
    by simp [exNested, placed, placedL, retag, HomNest, HomNestL, AllIntG, AllIntGL, exD, fillDD],
    Or.inl (fun p hp => by revert p; decide), exNested_seen, exNested_good,
    exNested_noClash, exNested_defined, ⟨_, rfl, by decide +kernel⟩, exNested_cse⟩

end Verif.Bind
