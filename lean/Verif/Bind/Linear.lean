import Verif.Bind.Props
import Verif.Linalg.GmresExact
import Verif.Exec.MatVec
import Mathlib.Algebra.Module.LinearMap.Defs
import Mathlib.Algebra.Module.Pi
import Mathlib.Tactic.Module
import Mathlib.Tactic.Abel

/-!
# Solving integral equations (C87)

`gmres(bind(places, expr).scipy_op(...), rhs)`: the composition of the models of `bind` and evaluation
(`Verif.Bind`, C76), of operator wrapping (`Verif.MatVec`, C22) and of `gmres` (`Verif.Gmres`, C27).  There is no new
model code here, only the specification of expressions linear in the unknown and the theorems.

Values are elements of one module over the scalars.  (Take for instance functions on all nodes of all discretizations;
numbers are constant functions.)
-/

namespace Verif.Bind

open Verif.Sym Verif.DofDesc

/-! ## Specification -/

/-- the inputs with the value `x` for `u`: `context = {**extra_args, arg_name: x}` (`execution.py:577-600`) -/
def setVar {V : Type} (ctx : Compiler.Ctx V) (u : String) (x : V) : Compiler.Ctx V :=
  fun y => if y = u then some x else ctx y

/-- the variable `u` does not occur in `e` -/
def Free (u : String) (e : SE) : Prop := ¬ Has (.var u) e

/-- operations that are linear in operand `i`: products in every factor, interpolation, reference derivatives and
interleaving in their only one, functions and elementwise reductions as `L` says (e.g. quotients in the first) -/
def LinAt (L : String → Nat → Prop) : Head → Nat → Prop
  | .prod, _ => True
  | .op f, i => L f i
  | .elwise k _, i => L k i
  | .interp _ _, i => i = 0
  | .nrd _ _, i => i = 0
  | .interleave _, i => i = 0
  | _, _ => False

/-- expressions that are linear in the unknown `u`, as written -/
inductive LinearIn (L : String → Nat → Prop) (u : String) : SE → Prop
  | var (cs : List SE) : LinearIn L u (.node (.var u) cs)
  | sum (cs : List SE) (h : ∀ c ∈ cs, LinearIn L u c) : LinearIn L u (.node .sum cs)
  | cse (p : Option String) (s : String) (c : SE) (h : LinearIn L u c) : LinearIn L u (.node (.cse p s) [c])
  | intg (g : IG) (ds ks : List SE) (hd : ds.length = g.nd) (hs : g.sks.length = g.nd)
      (h : ∀ d ∈ ds, LinearIn L u d) (hk : ∀ k ∈ ks, Free u k) : LinearIn L u (.node (.intg g) (ds ++ ks))
  | op (hd : Head) (pre : List SE) (c : SE) (post : List SE) (hl : LinAt L hd pre.length) (h : LinearIn L u c)
      (h1 : ∀ k ∈ pre, Free u k) (h2 : ∀ k ∈ post, Free u k) : LinearIn L u (.node hd (pre ++ c :: post))

/-- the elementary operations are linear where they should be: sums are sums, the operations in `LinAt` are linear in
that operand, whatever the others are, and layer potentials are linear in their densities, jointly -/
structure LinLaws (K : Type) {V : Type} [CommRing K] [AddCommGroup V] [Module K V] (E : Enc) (I : Compiler.Interp V)
    (L : String → Nat → Prop) : Prop where
  zero : I.zero = 0
  add : ∀ a b, I.add a b = a + b
  op : ∀ h i, LinAt L h i → ∀ pre post : List V, pre.length = i → ∀ (c : K) (x y p q : V),
    I.op (E.head h) (pre ++ x :: post) = some p → I.op (E.head h) (pre ++ y :: post) = some q →
    I.op (E.head h) (pre ++ (x + c • y) :: post) = some (p + c • q)
  pot : ∀ src (sks : List String) k tk tgt lim (c : K) (ds es : List V) (p q : V), ds.length = sks.length → es.length = sks.length →
    I.pot src (sks.zip ds) k tk tgt lim = some p → I.pot src (sks.zip es) k tk tgt lim = some q →
    I.pot src (sks.zip (List.zipWith (fun d e => d + c • e) ds es)) k tk tgt lim = some (p + c • q)

/-! ## Proofs -/

/-- functions of the unknown that always have a value, and are linear -/
def LF (K : Type) {V : Type} [CommRing K] [AddCommGroup V] [Module K V] (F : V → Option V) : Prop :=
  (∀ x, ∃ v, F x = some v) ∧ ∀ (x y : V) (c : K) v w, F x = some v → F y = some w → F (x + c • y) = some (v + c • w)

section
variable {K V : Type} [CommRing K] [AddCommGroup V] [Module K V]

theorem LF.map {F : V → Option V} (h : LF K F) : ∃ A : V →ₗ[K] V, ∀ x, F x = some (A x) := by
  choose f hf using h.1
  have hl : ∀ (x y : V) (c : K), f (x + c • y) = f x + c • f y := by
    intro x y c
    have := h.2 x y c _ _ (hf x) (hf y)
    rw [hf] at this
    exact Option.some.inj this
  have h0 : f 0 = 0 := by
    have := hl 0 0 (-1)
    rw [smul_zero, add_zero] at this
    rw [this]; simp
  refine ⟨{ toFun := f, map_add' := ?_, map_smul' := ?_ }, fun x => hf x⟩
  · intro x y
    have := hl x y 1
    rwa [one_smul, one_smul] at this
  · intro c x
    have := hl 0 x c
    rw [h0, zero_add, zero_add] at this
    exact this

theorem allSome_map (f : α → Option V) (g : α → V) (l : List α) (h : ∀ a ∈ l, f a = some (g a)) :
    allSome (l.map f) = some (l.map g) := by
  induction l with
  | nil => rfl
  | cons a l ih =>
    simp only [List.map_cons, allSome, h a (by simp), ih (fun b hb => h b (by simp [hb]))]

theorem allSome_somes (l : List V) : allSome (l.map some) = some l := by
  have := allSome_map some (fun a => a) l (fun a _ => rfl)
  simpa using this

theorem allSome_append (l m : List (Option V)) (a b : List V) (h : allSome l = some a) (h' : allSome m = some b) :
    allSome (l ++ m) = some (a ++ b) := by
  induction l generalizing a with
  | nil =>
    simp only [allSome, Option.some.injEq] at h
    subst h
    exact h'
  | cons x l ih =>
    simp only [allSome] at h
    match x, h1 : allSome l with
    | none, _ => simp [h1] at h
    | some v, none => simp [h1] at h
    | some v, some w =>
      rw [h1] at h
      simp only [Option.some.injEq] at h
      subst h
      simp only [List.cons_append, allSome, ih w h1]

/-- the values of linear functions at `x + c y` -/
theorem LF.lists {Fs : List (V → Option V)} (h : ∀ F ∈ Fs, LF K F) (x y : V) (c : K) :
    ∃ a b : List V, a.length = Fs.length ∧ b.length = Fs.length ∧ allSome (Fs.map (· x)) = some a ∧
      allSome (Fs.map (· y)) = some b ∧
      allSome (Fs.map (· (x + c • y))) = some (List.zipWith (fun d e => d + c • e) a b) := by
  induction Fs with
  | nil => exact ⟨[], [], rfl, rfl, rfl, rfl, rfl⟩
  | cons F Fs ih =>
    obtain ⟨a, b, h1, h2, h3, h4, h5⟩ := ih (fun G hG => h G (by simp [hG]))
    have hF := h F (by simp)
    obtain ⟨v, hv⟩ := hF.1 x
    obtain ⟨w, hw⟩ := hF.1 y
    refine ⟨v :: a, w :: b, by simp [h1], by simp [h2], ?_, ?_, ?_⟩
    · simp only [List.map_cons, allSome, hv, h3]
    · simp only [List.map_cons, allSome, hw, h4]
    · simp only [List.map_cons, allSome, hF.2 x y c v w hv hw, h5, List.zipWith_cons_cons]

theorem foldl_add_lin (c : K) : ∀ (a b : List V), a.length = b.length → ∀ s t : V,
    (List.zipWith (fun d e => d + c • e) a b).foldl (· + ·) (s + c • t)
      = a.foldl (· + ·) s + c • b.foldl (· + ·) t
  | [], [], _, s, t => rfl
  | x :: a, y :: b, h, s, t => by
    simp only [List.zipWith_cons_cons, List.foldl_cons]
    rw [← foldl_add_lin c a b (by simpa using h) (s + x) (t + y)]
    congr 1
    module

variable {E : Enc} {I : Compiler.Interp V} {L : String → Nat → Prop} {ctx : Compiler.Ctx V} {u : String}

theorem foldl_add (hl : LinLaws K E I L) (l : List V) : l.foldl I.add I.zero = l.foldl (· + ·) 0 := by
  rw [hl.zero]
  congr 1
  funext a b
  exact hl.add a b

theorem lf_sum (hl : LinLaws K E I L) (Fs : List (V → Option V)) (h : ∀ F ∈ Fs, LF K F) :
    LF K (fun x => mean E I (setVar ctx u x) .sum (Fs.map (· x))) := by
  constructor
  · intro x
    obtain ⟨a, b, h1, h2, h3, h4, h5⟩ := LF.lists h x x 0
    exact ⟨a.foldl I.add I.zero, by simp only [mean, h3, Option.map]⟩
  · intro x y c v w hv hw
    obtain ⟨a, b, h1, h2, h3, h4, h5⟩ := LF.lists h x y c
    simp only [mean, h3, h4, h5, Option.map, foldl_add hl, Option.some.injEq] at hv hw ⊢
    have := foldl_add_lin c a b (h1.trans h2.symm) 0 0
    rw [smul_zero, add_zero] at this
    rw [this, hv, hw]

/-- the value of an operation that is not special -/
theorem mean_op (h : Head) (hl : LinAt L h i) (env : Compiler.Ctx V) (vs : List V) :
    mean E I env h (vs.map some) = I.op (E.head h) vs := by
  cases h <;> first
    | exact hl.elim
    | simp only [mean, allSome_somes, Option.bind]

theorem lf_op (hl : LinLaws K E I L) (ht : ∀ f vs, ∃ v, I.op f vs = some v) (h : Head) (pre post : List V)
    (hi : LinAt L h pre.length) (F : V → Option V) (hF : LF K F) :
    LF K (fun x => mean E I (setVar ctx u x) h (pre.map some ++ F x :: post.map some)) := by
  have hm : ∀ env v, mean E I env h (pre.map some ++ some v :: post.map some)
      = I.op (E.head h) (pre ++ v :: post) := by
    intro env v
    rw [← mean_op h hi env (pre ++ v :: post)]
    simp
  constructor
  · intro x
    obtain ⟨v, hv⟩ := hF.1 x
    obtain ⟨w, hw⟩ := ht (E.head h) (pre ++ v :: post)
    exact ⟨w, by simp only [hv, hm, hw]⟩
  · intro x y c v w hv hw
    obtain ⟨a, ha⟩ := hF.1 x
    obtain ⟨b, hb⟩ := hF.1 y
    simp only [ha, hb, hm, hF.2 x y c a b ha hb] at hv hw ⊢
    exact hl.op h _ hi pre post rfl c a b v w hv hw

theorem lf_pot (hl : LinLaws K E I L) (ht : ∀ src p k tk tgt lim, ∃ v, I.pot src p k tk tgt lim = some v) (g : IG)
    (Ds : List (V → Option V)) (ks : List V) (hd : Ds.length = g.nd) (hs : g.sks.length = g.nd)
    (h : ∀ D ∈ Ds, LF K D) :
    LF K (fun x => mean E I (setVar ctx u x) (.intg g) (Ds.map (· x) ++ ks.map some)) := by
  have hm : ∀ env z d, allSome (Ds.map (· z)) = some d →
      mean E I env (.intg g) (Ds.map (· z) ++ ks.map some)
        = I.pot (E.place g.src) (g.sks.zip d) (g.kn.zip ks) (E.kern g.tk) (E.place g.tgt) (trLim g.lim) := by
    intro env z d hz
    have h1 : (Ds.map (· z) ++ ks.map some).take g.nd = Ds.map (· z) := by
      rw [← hd, List.take_left' (by simp)]
    have h2 : (Ds.map (· z) ++ ks.map some).drop g.nd = ks.map some := by
      rw [← hd, List.drop_left' (by simp)]
    simp only [mean, h1, h2, hz, allSome_somes]
  constructor
  · intro x
    obtain ⟨a, b, h1, h2, h3, h4, h5⟩ := LF.lists h x x 0
    obtain ⟨v, hv⟩ := ht (E.place g.src) (g.sks.zip a) (g.kn.zip ks) (E.kern g.tk) (E.place g.tgt) (trLim g.lim)
    exact ⟨v, by simp only [hm _ x a h3, hv]⟩
  · intro x y c v w hv hw
    obtain ⟨a, b, h1, h2, h3, h4, h5⟩ := LF.lists h x y c
    simp only [hm _ _ _ h3, hm _ _ _ h4] at hv hw
    simp only [hm _ _ _ h5]
    exact hl.pot _ _ _ _ _ _ c a b v w (by omega) (by omega) hv hw

theorem lf_cse {F : V → Option V} (hF : LF K F) (p : Option String) (s : String) :
    LF K (fun x => mean E I (setVar ctx u x) (.cse p s) [F x]) := by
  simpa only [mean] using hF

theorem lf_avg (hl : LinLaws K E I L) (ht : ∀ f vs, ∃ v, I.op f vs = some v) {F G : V → Option V} (hF : LF K F)
    (hG : LF K G) :
    LF K (fun x => mean E I (setVar ctx u x) .prod [mean E I (setVar ctx u x) (.num (1/2)) [],
      mean E I (setVar ctx u x) .sum [F x, G x]]) := by
  obtain ⟨w, hw⟩ := ht (E.head (.num (1/2))) []
  have h1 : ∀ env, mean E I env (.num (1/2)) [] = some w := by
    intro env; simp only [mean, allSome, Option.bind, hw]
  have h2 := lf_sum (ctx := ctx) (u := u) hl [F, G] (by simp [hF, hG])
  have h3 := lf_op (ctx := ctx) (u := u) hl ht .prod [w] [] trivial _ h2
  simpa only [h1, List.map_cons, List.map_nil, List.singleton_append] using h3

/-! ### Free expressions -/

theorem free_node {h : Head} {cs : List SE} :
    Free u (.node h cs) ↔ h ≠ .var u ∧ ∀ c ∈ cs, Free u c := by
  simp only [Free, has_node, not_or, not_exists, not_and]
  constructor
  · rintro ⟨h1, h2⟩
    exact ⟨fun h => h1 (by rw [h]; rfl), h2⟩
  · rintro ⟨h1, h2⟩
    refine ⟨fun hk => ?_, h2⟩
    cases h <;> simp only [key, Option.some.injEq, reduceCtorEq, Key.var.injEq] at hk
    · exact h1 (by rw [hk])
    · rename_i p s; cases p <;> simp [key] at hk

theorem Free.keeps {e e' : SE} (hk : Keeps e e') (h : Free u e) : Free u e' := fun h' => h (hk.1 _ h')

theorem mean_agree (x : V) (h : Head) (hne : h ≠ .var u) :
    mean E I (setVar ctx u x) h = mean E I ctx h := by
  funext vs
  cases h with
  | var y =>
    simp only [mean, setVar]
    rw [if_neg]
    intro hy; exact hne (by rw [hy])
  | cse p s => rcases vs with _ | ⟨a, _ | ⟨b, l⟩⟩ <;> rfl
  | _ => rfl

/-- interpretations which agree except for the variable `u` give the same value to expressions without it -/
theorem value_agree {W : Type} {J J' : Head → List W → W} (hJ : ∀ h, h ≠ .var u → J h = J' h) :
    ∀ e, Free u e → value J e = value J' e := by
  apply SE.ind
  intro h cs ih hf
  obtain ⟨h1, h2⟩ := free_node.1 hf
  have hc : valueL J cs = valueL J' cs := by
    rw [valueL_eq, valueL_eq]
    exact List.map_congr_left (fun c hc => ih c hc (h2 c hc))
  cases h <;> simp only [value, hc, hJ _ h1, hJ .prod (by simp), hJ .sum (by simp), hJ (.num (1/2)) (by simp)]
  rename_i g
  rw [hJ _ (by simp), hJ (.intg { g with lim := .m1 }) (by simp)]

theorem valueL_agree {W : Type} {J J' : Head → List W → W} (hJ : ∀ h, h ≠ .var u → J h = J' h) (cs : List SE)
    (h : ∀ c ∈ cs, Free u c) : valueL J cs = valueL J' cs := by
  rw [valueL_eq, valueL_eq]
  exact List.map_congr_left (fun c hc => value_agree hJ c (h c hc))

theorem potMean_agree {W : Type} {J J' : Head → List W → W} (hJ : ∀ h, h ≠ .var u → J h = J' h) (g : IG)
    (vs : List W) : potMean J g vs = potMean J' g vs := by
  simp only [potMean, hJ .prod (by simp), hJ .sum (by simp), hJ (.num (1/2)) (by simp)]
  rw [hJ (.intg _) (by simp), hJ (.intg { g with lim := .m1 }) (by simp), hJ (.intg g) (by simp)]

theorem meaningArgs_agree {W : Type} {J J' : Head → List W → W} (hJ : ∀ h, h ≠ .var u → J h = J' h)
    (pl : List (Obj × PlaceKind)) (tg : Bool) (f1 f2 t : DD) : ∀ (n : Nat) (cs : List SE),
    (∀ c ∈ cs, ∀ b, meaning J pl b c = meaning J' pl b c) →
    meaningArgs J pl tg f1 f2 t n cs = meaningArgs J' pl tg f1 f2 t n cs
  | _, [], _ => rfl
  | n, c :: l, h => by
    simp only [meaningArgs, h c (by simp), meaningArgs_agree hJ pl tg f1 f2 t (n - 1) l (fun c hc => h c (by simp [hc]))]
    rw [hJ (.interp _ _) (by simp)]

theorem meaning_agree {W : Type} {J J' : Head → List W → W} (hJ : ∀ h, h ≠ .var u → J h = J' h)
    (pl : List (Obj × PlaceKind)) : ∀ e, Free u e → ∀ tg, meaning J pl tg e = meaning J' pl tg e := by
  apply SE.ind
  intro h cs ih hf tg
  obtain ⟨h1, h2⟩ := free_node.1 hf
  have hc : meaningL J pl tg cs = meaningL J' pl tg cs := by
    rw [meaningL_eq, meaningL_eq]
    exact List.map_congr_left (fun c hc => ih c hc (h2 c hc) tg)
  have hst : value J (stageTag .stage2 (.node h cs)) = value J' (stageTag .stage2 (.node h cs)) :=
    value_agree hJ _ (Free.keeps (stageTag_keeps _ _) hf)
  have hv : value J (.node h cs) = value J' (.node h cs) := value_agree hJ _ hf
  cases h with
  | nrd a dd =>
    simp only [meaning, hst, hv]
    rw [hJ (.interp _ _) (by simp)]
  | prop k dd =>
    simp only [meaning]
    split
    · exact hst
    · exact hv
  | intg g =>
    simp only [meaning]
    split
    · rw [potMean_agree hJ, meaningArgs_agree hJ pl tg _ _ _ _ _ (fun c hc b => ih c hc (h2 c hc) b)]
    · rw [potMean_agree hJ]
      congr 1
      split
      · apply valueL_agree hJ
        rw [stageTagL_eq]
        intro c hc
        obtain ⟨c', hc', rfl⟩ := List.mem_map.1 hc
        exact Free.keeps (stageTag_keeps _ _) (h2 c' hc')
      · exact valueL_agree hJ cs h2
  | _ => simp only [meaning, hc, hJ _ h1]

/-! ### Total interpretations -/

theorem mean_total (ht : Total I env e) (h : Head) (hv : ∀ y, h = .var y → ∃ v, env y = some v)
    (vs : List (Option V)) (hs : ∀ x ∈ vs, ∃ v, x = some v) : ∃ v, mean E I env h vs = some v := by
  obtain ⟨m, hm⟩ := allSome_some vs hs
  cases h with
  | var y => exact hv y rfl
  | sum => exact ⟨m.foldl I.add I.zero, by simp only [mean, hm, Option.map]⟩
  | cse p s =>
    rcases vs with _ | ⟨a, _ | ⟨b, l⟩⟩
    · simp only [mean, allSome, Option.bind]; exact ht.op _ _
    · exact hs a (by simp)
    · simp only [mean, hm, Option.bind]; exact ht.op _ _
  | intg g =>
    obtain ⟨a, ha⟩ := allSome_some (vs.take g.nd) (fun x hx => hs x (List.mem_of_mem_take hx))
    obtain ⟨b, hb⟩ := allSome_some (vs.drop g.nd) (fun x hx => hs x (List.mem_of_mem_drop hx))
    simp only [mean, ha, hb]
    exact ht.pot _ _ _ _ _ _
  | _ => simp only [mean, hm, Option.bind]; exact ht.op _ _

theorem Total.child {h : Head} {cs : List SE} {env : Compiler.Ctx V} (ht : Total I env (.node h cs)) :
    ∀ c ∈ cs, Total I env c :=
  fun c hc => ⟨fun x hx => ht.var x (has_node.2 (Or.inr ⟨c, hc, hx⟩)), ht.op, ht.pot⟩

theorem Total.head {h : Head} {cs : List SE} {env : Compiler.Ctx V} (ht : Total I env (.node h cs)) :
    ∀ y, h = .var y → ∃ v, env y = some v :=
  fun y hy => ht.var y (has_node.2 (Or.inl (by rw [hy]; rfl)))

theorem potMean_total {env : Compiler.Ctx V} {e : SE} (ht : Total I env e) (g : IG)
    (vs : List (Option V)) (hs : ∀ x ∈ vs, ∃ v, x = some v) : ∃ v, potMean (mean E I env) g vs = some v := by
  have hp : ∀ g : IG, ∃ v, mean E I env (.intg g) vs = some v := fun g =>
    mean_total ht _ (by intro y h; cases h) vs hs
  simp only [potMean]
  split
  · refine mean_total ht _ (by intro y h; cases h) _ ?_
    intro x hx
    simp only [List.mem_cons, List.not_mem_nil, or_false] at hx
    rcases hx with rfl | rfl
    · exact mean_total ht _ (by intro y h; cases h) _ (by simp)
    · refine mean_total ht _ (by intro y h; cases h) _ ?_
      intro x hx
      simp only [List.mem_cons, List.not_mem_nil, or_false] at hx
      rcases hx with rfl | rfl <;> exact hp _
  · exact hp g

theorem value_potMean {W : Type} (J : Head → List W → W) (g : IG) (cs : List SE) :
    value J (.node (.intg g) cs) = potMean J g (valueL J cs) := by
  simp only [value, potMean]

theorem value_total {env : Compiler.Ctx V} : ∀ e, Total I env e → ∃ v, value (mean E I env) e = some v := by
  apply SE.ind
  intro h cs ih ht
  have hs : ∀ x ∈ valueL (mean E I env) cs, ∃ v, x = some v := by
    rw [valueL_eq]
    intro x hx
    obtain ⟨c, hc, rfl⟩ := List.mem_map.1 hx
    exact ih c hc (ht.child c hc)
  cases h with
  | intg g => rw [value_potMean]; exact potMean_total ht g _ hs
  | _ => simp only [value]; exact mean_total ht _ ht.head _ hs

theorem meaningArgs_eq {W : Type} (J : Head → List W → W) (pl : List (Obj × PlaceKind)) (tg : Bool) (f1 f2 t : DD) :
    ∀ (ds ks : List SE), meaningArgs J pl tg f1 f2 t ds.length (ds ++ ks)
      = ds.map (fun d => J (.interp f1 t) [meaning J pl tg d]) ++
        ks.map (fun k => J (.interp f2 t) [meaning J pl true k])
  | [], ks => by
    have : ∀ ks : List SE, meaningArgs J pl tg f1 f2 t 0 ks
        = ks.map (fun k => J (.interp f2 t) [meaning J pl true k]) := by
      intro ks
      induction ks with
      | nil => rfl
      | cons c l ih => simp [meaningArgs, ih]
    simpa using this ks
  | d :: ds, ks => by
    have := meaningArgs_eq J pl tg f1 f2 t ds ks
    simp only [List.length_cons, List.cons_append, meaningArgs, Nat.add_sub_cancel, this, List.map_cons]
    simp

theorem meaningArgs_total {env : Compiler.Ctx V} {e : SE} (ht : Total I env e) (pl : List (Obj × PlaceKind))
    (f1 f2 t : DD) : ∀ (cs : List SE), (∀ c ∈ cs, ∀ b, ∃ v, meaning (mean E I env) pl b c = some v) → ∀ tg n,
    ∀ x ∈ meaningArgs (mean E I env) pl tg f1 f2 t n cs, ∃ v, x = some v
  | [], _, _, _, x, hx => by simp [meaningArgs] at hx
  | c :: l, h, tg, n, x, hx => by
    simp only [meaningArgs, List.mem_cons] at hx
    rcases hx with rfl | hx
    · refine mean_total ht _ (by intro y h; cases h) _ ?_
      intro x hx
      simp only [List.mem_cons, List.not_mem_nil, or_false] at hx
      subst hx
      exact h c (by simp) _
    · exact meaningArgs_total ht pl f1 f2 t l (fun c hc => h c (by simp [hc])) tg _ x hx

theorem meaning_total {env : Compiler.Ctx V} (pl : List (Obj × PlaceKind)) : ∀ e, Total I env e → ∀ tg,
    ∃ v, meaning (mean E I env) pl tg e = some v := by
  apply SE.ind
  intro h cs ih ht tg
  have hs : ∀ x ∈ meaningL (mean E I env) pl tg cs, ∃ v, x = some v := by
    rw [meaningL_eq]
    intro x hx
    obtain ⟨c, hc, rfl⟩ := List.mem_map.1 hx
    exact ih c hc (ht.child c hc) tg
  have hst := fun s => value_total (E := E) (stageTag s (.node h cs)) (total_keeps (stageTag_keeps s _).1 ht)
  have hv := value_total (E := E) _ ht
  cases h with
  | nrd a dd =>
    simp only [meaning]
    split
    · exact hst _
    · split
      · obtain ⟨v, hv⟩ := hst .stage2
        exact mean_total ht _ (by intro y h; cases h) _ (by simp [hv])
      · exact hv
  | prop k dd =>
    simp only [meaning]
    split
    · exact hst _
    · exact hv
  | intg g =>
    simp only [meaning]
    split
    · exact potMean_total ht _ _ (meaningArgs_total ht pl _ _ _ cs (fun c hc b => ih c hc (ht.child c hc) b) _ _)
    · refine potMean_total ht _ _ ?_
      intro x hx
      rw [valueL_eq] at hx
      obtain ⟨c, hc, rfl⟩ := List.mem_map.1 hx
      split at hc
      · rw [stageTagL_eq] at hc
        obtain ⟨c', hc', rfl⟩ := List.mem_map.1 hc
        exact value_total _ (total_keeps (stageTag_keeps _ _).1 (ht.child c' hc'))
      · exact value_total _ (ht.child c hc)
  | _ => simp only [meaning]; exact mean_total ht _ ht.head _ hs

/-! ### Linear expressions -/

theorem linAt_retag (S T : DD) {h : Head} {i : Nat} (hl : LinAt L h i) : LinAt L (retag S T h) i := by
  cases h <;> first | exact hl | exact hl.elim

theorem LinearIn.placed (S T : DD) {e : SE} (h : LinearIn L u e) : ∀ b, LinearIn L u (placed S T b e) := by
  induction h with
  | var cs => intro b; simp only [Bind.placed, retag]; exact .var _
  | sum cs h ih =>
    intro b
    simp only [Bind.placed, retag]
    refine .sum _ ?_
    rw [placedL_eq]
    intro c hc
    obtain ⟨c', hc', rfl⟩ := List.mem_map.1 hc
    exact ih c' hc' _
  | cse p s c h ih =>
    intro b
    simp only [Bind.placed, retag, placedL]
    exact .cse p s _ (ih _)
  | intg g ds ks hd hs h hk ih =>
    intro b
    simp only [Bind.placed, retag, placedL_eq, List.map_append]
    refine .intg _ _ _ (by simpa using hd) hs ?_ ?_
    · intro d hd
      obtain ⟨c', hc', rfl⟩ := List.mem_map.1 hd
      exact ih c' hc' _
    · intro k hk'
      obtain ⟨c', hc', rfl⟩ := List.mem_map.1 hk'
      exact Free.keeps (placed_keeps S T c' _) (hk c' hc')
  | op hd pre c post hl h h1 h2 ih =>
    intro b
    simp only [Bind.placed, placedL_eq, List.map_append, List.map_cons]
    refine .op _ _ _ _ (by rw [List.length_map]; exact linAt_retag _ _ hl) (ih _) ?_ ?_
    · intro k hk'
      obtain ⟨c', hc', rfl⟩ := List.mem_map.1 hk'
      exact Free.keeps (placed_keeps S T c' _) (h1 c' hc')
    · intro k hk'
      obtain ⟨c', hc', rfl⟩ := List.mem_map.1 hk'
      exact Free.keeps (placed_keeps S T c' _) (h2 c' hc')

theorem LinearIn.stageTag (s : Stage) {e : SE} (h : LinearIn L u e) : LinearIn L u (stageTag s e) := by
  induction h with
  | var cs => simp only [Sym.stageTag]; exact .var _
  | sum cs h ih =>
    simp only [Sym.stageTag]
    refine .sum _ ?_
    rw [stageTagL_eq]
    intro c hc
    obtain ⟨c', hc', rfl⟩ := List.mem_map.1 hc
    exact ih c' hc'
  | cse p s c h ih =>
    simp only [Sym.stageTag, stageTagL]
    exact .cse p _ _ ih
  | intg g ds ks hd hs h hk ih =>
    simp only [Sym.stageTag, stageTagL_eq, List.map_append]
    refine .intg _ _ _ (by simpa using hd) hs ?_ ?_
    · intro d hd
      obtain ⟨c', hc', rfl⟩ := List.mem_map.1 hd
      exact ih c' hc'
    · intro k hk'
      obtain ⟨c', hc', rfl⟩ := List.mem_map.1 hk'
      exact Free.keeps (stageTag_keeps s c') (hk c' hc')
  | op hd pre c post hl h h1 h2 ih =>
    have hgen : ∀ hd', LinAt L hd' pre.length →
        LinearIn L u (.node hd' (stageTagL s (pre ++ c :: post))) := by
      intro hd' hl'
      simp only [stageTagL_eq, List.map_append, List.map_cons]
      refine .op _ _ _ _ (by rw [List.length_map]; exact hl') ih ?_ ?_
      · intro k hk'
        obtain ⟨c', hc', rfl⟩ := List.mem_map.1 hk'
        exact Free.keeps (stageTag_keeps s c') (h1 c' hc')
      · intro k hk'
        obtain ⟨c', hc', rfl⟩ := List.mem_map.1 hk'
        exact Free.keeps (stageTag_keeps s c') (h2 c' hc')
    cases hd <;> first
      | exact hl.elim
      | (simp only [Sym.stageTag]; exact hgen _ hl)
      | (simp only [Sym.stageTag]
         split
         · exact .op _ _ _ _ hl h h1 h2
         · exact hgen _ hl)

/-- what is free of `u` has a value that does not depend on it -/
theorem value_const {e : SE} (hf : Free u e) (ht : ∀ x, Total I (setVar ctx u x) e) :
    ∃ v, ∀ x, value (mean E I (setVar ctx u x)) e = some v := by
  obtain ⟨v, hv⟩ := value_total (E := E) e (ht 0)
  refine ⟨v, fun x => ?_⟩
  rw [value_agree (fun h hh => mean_agree x h hh) e hf, ← value_agree (fun h hh => mean_agree 0 h hh) e hf, hv]

theorem meaning_const (pl : List (Obj × PlaceKind)) (tg : Bool) {e : SE} (hf : Free u e)
    (ht : ∀ x, Total I (setVar ctx u x) e) : ∃ v, ∀ x, meaning (mean E I (setVar ctx u x)) pl tg e = some v := by
  obtain ⟨v, hv⟩ := meaning_total (E := E) pl e (ht 0) tg
  refine ⟨v, fun x => ?_⟩
  rw [meaning_agree (fun h hh => mean_agree x h hh) pl e hf, ← meaning_agree (fun h hh => mean_agree 0 h hh) pl e hf,
    hv]

theorem list_const {α : Type} (f : V → α → Option V) : ∀ (l : List α), (∀ k ∈ l, ∃ v, ∀ x, f x k = some v) →
    ∃ vs : List V, vs.length = l.length ∧ ∀ x, l.map (f x) = vs.map some
  | [], _ => ⟨[], rfl, fun _ => rfl⟩
  | k :: l, h => by
    obtain ⟨v, hv⟩ := h k (by simp)
    obtain ⟨vs, h1, h2⟩ := list_const f l (fun k hk => h k (by simp [hk]))
    exact ⟨v :: vs, by simp [h1], fun x => by simp [hv, h2]⟩

theorem lf_potMean (hl : LinLaws K E I L) (ht : Total I (setVar ctx u (0 : V)) e) (g : IG)
    (Ds : List (V → Option V)) (ks : List V) (hd : Ds.length = g.nd) (hs : g.sks.length = g.nd)
    (h : ∀ D ∈ Ds, LF K D) :
    LF K (fun x => potMean (mean E I (setVar ctx u x)) g (Ds.map (· x) ++ ks.map some)) := by
  simp only [potMean]
  by_cases hg : g.lim = .avg
  · simp only [if_pos hg]
    exact lf_avg hl ht.op (lf_pot (g := { g with lim := .p1 }) hl ht.pot Ds ks hd hs h)
      (lf_pot (g := { g with lim := .m1 }) hl ht.pot Ds ks hd hs h)
  · simp only [if_neg hg]
    exact lf_pot hl ht.pot g Ds ks hd hs h

theorem value_lin (hl : LinLaws K E I L) {e : SE} (h : LinearIn L u e) :
    (∀ x, Total I (setVar ctx u x) e) → LF K (fun x => value (mean E I (setVar ctx u x)) e) := by
  induction h with
  | var cs =>
    intro _
    simp only [value, mean, setVar, if_true]
    exact ⟨fun x => ⟨x, rfl⟩, fun x y c v w hv hw => by
      simp only [Option.some.injEq] at hv hw ⊢; rw [hv, hw]⟩
  | sum cs h ih =>
    intro ht
    simp only [value, valueL_eq]
    have := lf_sum (ctx := ctx) (u := u) hl (cs.map (fun c x => value (mean E I (setVar ctx u x)) c)) (by
      intro F hF
      obtain ⟨c, hc, rfl⟩ := List.mem_map.1 hF
      exact ih c hc (fun x => (ht x).child c hc))
    simpa only [List.map_map, Function.comp_def] using this
  | cse p s c h ih =>
    intro ht
    simp only [value, valueL]
    exact lf_cse (ih (fun x => (ht x).child c (by simp))) p s
  | intg g ds ks hd hs h hk ih =>
    intro ht
    simp only [value_potMean, valueL_eq, List.map_append]
    obtain ⟨vs, _, hvs⟩ := list_const (fun x k => value (mean E I (setVar ctx u x)) k) ks (fun k hk' =>
      value_const (hk k hk') (fun x => (ht x).child k (by simp [hk'])))
    have := lf_potMean (ctx := ctx) (u := u) hl (ht 0) g
      (ds.map (fun c x => value (mean E I (setVar ctx u x)) c)) vs (by simpa using hd) hs (by
      intro F hF
      obtain ⟨c, hc, rfl⟩ := List.mem_map.1 hF
      exact ih c hc (fun x => (ht x).child c (by simp [hc])))
    have hvs' : ∀ x, ks.map (value (mean E I (setVar ctx u x))) = vs.map some := hvs
    simp only [hvs']
    simpa only [List.map_map, Function.comp_def] using this
  | op hd pre c post hla h h1 h2 ih =>
    intro ht
    obtain ⟨as, ha1, ha2⟩ := list_const (fun x k => value (mean E I (setVar ctx u x)) k) pre (fun k hk' =>
      value_const (h1 k hk') (fun x => (ht x).child k (by simp [hk'])))
    obtain ⟨bs, _, hb2⟩ := list_const (fun x k => value (mean E I (setVar ctx u x)) k) post (fun k hk' =>
      value_const (h2 k hk') (fun x => (ht x).child k (by simp [hk'])))
    have := lf_op (ctx := ctx) (u := u) hl (ht 0).op hd as bs (by rw [ha1]; exact hla) _
      (ih (fun x => (ht x).child c (by simp)))
    have hval : ∀ x, value (mean E I (setVar ctx u x)) (.node hd (pre ++ c :: post))
        = mean E I (setVar ctx u x) hd (as.map some ++ value (mean E I (setVar ctx u x)) c :: bs.map some) := by
      intro x
      have ha3 : as.map some = pre.map (value (mean E I (setVar ctx u x))) := (ha2 x).symm
      have hb3 : bs.map some = post.map (value (mean E I (setVar ctx u x))) := (hb2 x).symm
      rw [ha3, hb3]
      cases hd <;> first
        | exact hla.elim
        | simp only [value, valueL_eq, List.map_append, List.map_cons]
    simpa only [hval] using this

theorem valueL_lin (hl : LinLaws K E I L) (ds : List SE) (h : ∀ d ∈ ds, LinearIn L u d)
    (ht : ∀ d ∈ ds, ∀ x, Total I (setVar ctx u x) d) :
    ∀ F ∈ ds.map (fun c x => value (mean E I (setVar ctx u x)) c), LF K F := by
  intro F hF
  obtain ⟨c, hc, rfl⟩ := List.mem_map.1 hF
  exact value_lin hl (h c hc) (ht c hc)

theorem Total.stageTag {env : Compiler.Ctx V} (s : Stage) {e : SE} (ht : Total I env e) :
    Total I env (stageTag s e) := total_keeps (stageTag_keeps s e).1 ht

/-- layer potentials whose source is not moved -/
theorem lf_fixed (hl : LinLaws K E I L) (g : IG) (ds ks : List SE) (hd : ds.length = g.nd) (hs : g.sks.length = g.nd)
    (h : ∀ d ∈ ds, LinearIn L u d) (hk : ∀ k ∈ ks, Free u k)
    (ht : ∀ d ∈ ds ++ ks, ∀ x, Total I (setVar ctx u x) d) (ht0 : Total I (setVar ctx u (0 : V)) e0) :
    LF K (fun x => potMean (mean E I (setVar ctx u x)) g (valueL (mean E I (setVar ctx u x)) (ds ++ ks))) := by
  simp only [valueL_eq, List.map_append]
  obtain ⟨vs, _, hvs⟩ := list_const (fun x k => value (mean E I (setVar ctx u x)) k) ks (fun k hk' =>
    value_const (hk k hk') (fun x => ht k (by simp [hk']) x))
  have := lf_potMean (ctx := ctx) (u := u) hl ht0 g
    (ds.map (fun c x => value (mean E I (setVar ctx u x)) c)) vs (by simpa using hd) hs
    (valueL_lin hl ds h (fun d hd => ht d (by simp [hd])))
  have hvs' : ∀ x, ks.map (value (mean E I (setVar ctx u x))) = vs.map some := hvs
  simp only [hvs']
  simpa only [List.map_map, Function.comp_def] using this

theorem meaning_lin (hl : LinLaws K E I L) (pl : List (Obj × PlaceKind)) {e : SE} (h : LinearIn L u e) :
    ∀ tg, (∀ x, Total I (setVar ctx u x) e) → LF K (fun x => meaning (mean E I (setVar ctx u x)) pl tg e) := by
  induction h with
  | var cs =>
    intro tg ht
    have := value_lin hl (.var (L := L) (u := u) cs) ht
    simpa only [meaning, value, mean] using this
  | sum cs h ih =>
    intro tg ht
    simp only [meaning, meaningL_eq]
    have := lf_sum (ctx := ctx) (u := u) hl (cs.map (fun c x => meaning (mean E I (setVar ctx u x)) pl tg c)) (by
      intro F hF
      obtain ⟨c, hc, rfl⟩ := List.mem_map.1 hF
      exact ih c hc tg (fun x => (ht x).child c hc))
    simpa only [List.map_map, Function.comp_def] using this
  | cse p s c h ih =>
    intro tg ht
    simp only [meaning, meaningL]
    exact lf_cse (ih tg (fun x => (ht x).child c (by simp))) p s
  | intg g ds ks hd hs h hk ih =>
    intro tg ht
    have hts : (tgtStage g).nd = g.nd ∧ (tgtStage g).sks = g.sks := by
      unfold tgtStage; split <;> exact ⟨rfl, rfl⟩
    by_cases hup : upsamples pl g = true
    · simp only [meaning, if_pos hup, ← hd, meaningArgs_eq]
      obtain ⟨vs, _, hvs⟩ := list_const (fun x k => mean E I (setVar ctx u x)
          (.interp (DDs g.src .stage2) (DDs g.src .quadStage2)) [meaning (mean E I (setVar ctx u x)) pl true k]) ks (by
        intro k hk'
        obtain ⟨v, hv⟩ := meaning_const (E := E) pl true (hk k hk') (fun x => (ht x).child k (by simp [hk']))
        obtain ⟨w, hw⟩ := mean_total (E := E) (ht 0) (.interp (DDs g.src .stage2) (DDs g.src .quadStage2))
          (by intro y h; cases h) [some v] (by simp)
        exact ⟨w, fun x => by simp only [hv]; exact hw⟩)
      have := lf_potMean (ctx := ctx) (u := u) hl (ht 0) { tgtStage g with src := DDs g.src .quadStage2 }
        (ds.map (fun c x => mean E I (setVar ctx u x) (.interp (DDs g.src .stage1) (DDs g.src .quadStage2))
          [meaning (mean E I (setVar ctx u x)) pl tg c])) vs (by simpa [hts.1] using hd)
        (by simp only [hts.1, hts.2]; exact hs) (by
        intro F hF
        obtain ⟨c, hc, rfl⟩ := List.mem_map.1 hF
        exact lf_op hl (ht 0).op (.interp (DDs g.src .stage1) (DDs g.src .quadStage2)) [] [] rfl _
          (ih c hc tg (fun x => (ht x).child c (by simp [hc]))))
      have hvs' : ∀ x, ks.map (fun k => mean E I (setVar ctx u x) (.interp (DDs g.src .stage2) (DDs g.src .quadStage2))
          [meaning (mean E I (setVar ctx u x)) pl true k]) = vs.map some := hvs
      simp only [hvs']
      simpa only [List.map_map, Function.comp_def] using this
    · simp only [meaning, if_neg hup]
      cases tg with
      | false =>
        exact lf_fixed hl _ ds ks (by rw [hts.1]; exact hd) (by rw [hts.1, hts.2]; exact hs) h hk
          (fun d hd x => (ht x).child d hd) (ht 0)
      | true =>
        simp only [if_true, stageTagL_eq, List.map_append]
        refine lf_fixed hl _ _ _ (by rw [hts.1, List.length_map]; exact hd) (by rw [hts.1, hts.2]; exact hs) ?_ ?_ ?_
          (ht 0)
        · intro d hd
          obtain ⟨c', hc', rfl⟩ := List.mem_map.1 hd
          exact (h c' hc').stageTag _
        · intro k hk'
          obtain ⟨c', hc', rfl⟩ := List.mem_map.1 hk'
          exact Free.keeps (stageTag_keeps _ c') (hk c' hc')
        · intro d hd x
          rw [← List.map_append] at hd
          obtain ⟨c', hc', rfl⟩ := List.mem_map.1 hd
          exact ((ht x).child c' hc').stageTag _
  | op hd pre c post hla h h1 h2 ih =>
    intro tg ht
    by_cases hn : ∃ a dd, hd = .nrd a dd
    · obtain ⟨a, dd, rfl⟩ := hn
      have hst := value_lin (ctx := ctx) hl (LinearIn.stageTag .stage2 (.op (.nrd a dd) pre c post hla h h1 h2))
        (fun x => (ht x).stageTag _)
      have hv := value_lin (ctx := ctx) hl (.op (.nrd a dd) pre c post hla h h1 h2) ht
      simp only [meaning]
      cases tg with
      | true => simpa only [if_true] using hst
      | false =>
        simp only [Bool.false_eq_true, if_false]
        by_cases hq : dd.stage = some .quadStage2 ∧ getGeo pl dd.geometry = .ok .qbx
        · simp only [if_pos hq]
          exact lf_op hl (ht 0).op (.interp (DDs dd .stage2) dd) [] [] rfl _ hst
        · simp only [if_neg hq]
          exact hv
    · obtain ⟨as, ha1, ha2⟩ := list_const (fun x k => meaning (mean E I (setVar ctx u x)) pl tg k) pre (fun k hk' =>
        meaning_const pl tg (h1 k hk') (fun x => (ht x).child k (by simp [hk'])))
      obtain ⟨bs, _, hb2⟩ := list_const (fun x k => meaning (mean E I (setVar ctx u x)) pl tg k) post (fun k hk' =>
        meaning_const pl tg (h2 k hk') (fun x => (ht x).child k (by simp [hk'])))
      have := lf_op (ctx := ctx) (u := u) hl (ht 0).op hd as bs (by rw [ha1]; exact hla) _
        (ih tg (fun x => (ht x).child c (by simp)))
      have hval : ∀ x, meaning (mean E I (setVar ctx u x)) pl tg (.node hd (pre ++ c :: post))
          = mean E I (setVar ctx u x) hd (as.map some ++ meaning (mean E I (setVar ctx u x)) pl tg c :: bs.map some) := by
        intro x
        have ha3 : as.map some = pre.map (meaning (mean E I (setVar ctx u x)) pl tg) := (ha2 x).symm
        have hb3 : bs.map some = post.map (meaning (mean E I (setVar ctx u x)) pl tg) := (hb2 x).symm
        rw [ha3, hb3]
        cases hd <;> first
          | exact hla.elim
          | exact absurd ⟨_, _, rfl⟩ hn
          | simp only [meaning, meaningL_eq, List.map_append, List.map_cons]
      simpa only [hval] using this

/-! ## Theorems -/

/-- **C87, linearity**: evaluating a bound expression that is linear in the unknown as written is a linear operation:
there is a linear map `A`, acting on the values of the unknown, such that `bind(places, expr)(**context, u=x)` returns
`A x`, the meaning of the expression (C76) - whatever the caches, the schedule and the names chosen by the compiler. -/
theorem C87_linear_partial (c : Compiler.Cfg) (pl : List (Obj × PlaceKind)) (S T : DD) (e e' : SE)
    (hc : Compiler.CfgOk c) (hI : Compiler.Lawful I) (hl : LinLaws K E I L) (hlin : LinearIn L u e)
    (hu : UnregOk pl e) (hp : Plain pl S T e) (hg : Good e) (hn : NoClash e)
    (ht : ∀ x, Total I (setVar ctx u x) e) (hok : prepare pl S T e = .ok e') :
    ∃ A : V →ₗ[K] V, ∀ x, meaning (mean E I (setVar ctx u x)) pl false (placed S T false e) = some (A x) ∧
      ∀ cc, Compiler.CacheValid I (setVar ctx u x) cc →
        bindEval E c I pl S T e (setVar ctx u x) cc = .ok (A x) := by
  have hm := meaning_lin (ctx := ctx) hl pl (hlin.placed S T false) false
    (fun x => total_keeps (placed_keeps S T e false).1 (ht x))
  obtain ⟨A, hA⟩ := hm.map
  refine ⟨A, fun x => ⟨hA x, fun cc hcc => ?_⟩⟩
  obtain ⟨v, h1, h2⟩ := C76_total_partial E c I pl S T e e' (setVar ctx u x) cc hc hI hcc hu hp hg hn (ht x) hok
  have := hA x
  rw [h1] at this
  rw [h2, Option.some.inj this]

theorem tr_cachedClosed (E : Enc) (e : SE) (h : Sealed (fun k => ∃ x, k = .var x) e) :
    Compiler.CachedClosed (tr E e) := by
  intro p sc ch hm hsc
  obtain ⟨e', h1, h2⟩ := tr_subs E e _ hm
  obtain ⟨s, cs, rfl⟩ := tr_cse E e' _ _ _ h2.symm
  simp only [tr] at h2
  match cs, h1, h2 with
  | [], _, h2 => simp [trL, trCse] at h2
  | [c'], h1, h2 =>
    simp only [trL, trCse, Compiler.Expr.cse.injEq] at h2
    obtain ⟨_, h3, h4⟩ := h2
    have hs : s ≠ "pymbolic_eval" := by
      rintro rfl
      exact hsc (by rw [h3]; rfl)
    have hno := h p s [c'] h1 hs c' (by simp)
    rw [h4]
    by_contra hne
    obtain ⟨x, hx⟩ := List.exists_mem_of_ne_nil _ hne
    obtain ⟨d, hd, rfl⟩ := List.mem_map.1 hx
    exact hno _ ⟨_, rfl⟩ (tr_deps E c' d hd)
  | a :: b :: l, _, h2 => simp [trL, trCse] at h2

theorem map_of_forall₂ {α β : Type} {l : List α} {m : List β} {f : α → β} (h : List.Forall₂ (fun a b => b = f a) l m) :
    m = l.map f := by
  induction h with
  | nil => rfl
  | cons h1 _ ih => simp [h1, ih]

/-- **C87, repeated evaluation**, as solvers do it: however often and with whatever values the bound expression is
called, each call returns the same linear operator applied to the value given.  Partial: CSEs of scope `EXPRESSION` or
`DISCRETIZATION` must not contain variables, see `C87_refuted`. -/
theorem C87_repeated_partial (c : Compiler.Cfg) (pl : List (Obj × PlaceKind)) (S T : DD) (e e' : SE)
    (hc : Compiler.CfgOk c) (hI : Compiler.Lawful I) (hl : LinLaws K E I L) (hlin : LinearIn L u e)
    (hu : UnregOk pl e) (hp : Plain pl S T e) (hg : Good e) (hn : NoClash e)
    (ht : ∀ x, Total I (setVar ctx u x) e) (hok : prepare pl S T e = .ok e')
    (hcse : ∀ p s cs, Sub e (.node (.cse p s) cs) → s ≠ "pymbolic_eval" → ∀ k ∈ cs, ∀ x, Free x k)
    (s : Compiler.Caches V) (hs : Compiler.ClosedValid I s.places ∧ ∀ e, Compiler.ClosedValid I (s.bound e)) :
    ∃ A : V →ₗ[K] V, (∀ x, meaning (mean E I (setVar ctx u x)) pl false (placed S T false e) = some (A x)) ∧
      ∀ xs : List V, Compiler.calls c I (xs.map fun x => (tr E e', setVar ctx u x)) s = xs.map fun x => .ok (A x) := by
  obtain ⟨A, hA⟩ := C87_linear_partial (ctx := ctx) c pl S T e e' hc hI hl hlin hu hp hg hn ht hok
  refine ⟨A, fun x => (hA x).1, fun xs => ?_⟩
  obtain ⟨h1, h2⟩ := prepare_inv hu hp hok
  have hk : Keeps e e' := ((placed_keeps S T e false).trans (expand_keeps _ _)).trans (interpPre_keeps pl _ _ _ h2)
  have hna : NoAvg e' := noAvg_interpPre pl _ (noAvg_expand _ _ hp.avg) _ _ h2
  have hwf := tr_wf E e' (hk.2 hg) hna
  have hnc := tr_noClash E e' (noClash_keeps hk hn)
  have hd : ∀ x, Compiler.AllDefined I (setVar ctx u x) (tr E e') := fun x =>
    allDefined_total E I _ e' hna (total_keeps hk.1 (ht x))
  have hcl := tr_cachedClosed E e' (hk.3 _ (by
    rintro p s cs hsub hse c' hc' k ⟨x, rfl⟩
    exact hcse p s cs hsub hse c' hc' x))
  have hden : ∀ x, Compiler.den I (setVar ctx u x) (tr E e') = some (A x) := by
    intro x
    obtain ⟨v, a, b, h3, h4, _⟩ := Compiler.C01_bound_eval c I (tr E e') (setVar ctx u x) [] hc hI hwf hnc (hd x)
      (by intro k v hk; cases hk)
    have h5 := (hA x).2 [] (by intro k v hk; cases hk)
    simp only [bindEval, hok, h4, Except.ok.injEq] at h5
    rw [h3, h5]
  have hall := Compiler.C08_history_partial c I hc hI (xs.map fun x => (tr E e', setVar ctx u x)) s (by
    intro q hq
    obtain ⟨x, _, rfl⟩ := List.mem_map.1 hq
    exact ⟨hwf, hnc, hd x, hcl⟩) hs.1 hs.2
  rw [List.forall₂_map_left_iff] at hall
  refine map_of_forall₂ (hall.imp ?_)
  rintro x r ⟨v, hv, hr⟩
  rw [hden] at hv
  rw [hr, Option.some.inj hv]

/-- **C87, solutions**: a bound expression linear in `u` is one and the same operator `op` in all calls; if `gmres`, given
this operator and the right-hand side `b`, reports success, then its solution `x` is a value (not NaN) with
`‖b - K x‖ < tol ‖b‖`, or `‖b - K x‖ = 0`, where `K x` is the meaning of the expression with `u = x`. -/
theorem C87_solve_partial {N : Type} [Field N] [LinearOrder N] (c : Compiler.Cfg) (pl : List (Obj × PlaceKind))
    (S T : DD) (e e' : SE) (hc : Compiler.CfgOk c) (hI : Compiler.Lawful I) (hl : LinLaws K E I L)
    (hlin : LinearIn L u e) (hu : UnregOk pl e) (hp : Plain pl S T e) (hg : Good e) (hn : NoClash e)
    (ht : ∀ x, Total I (setVar ctx u x) e) (hok : prepare pl S T e = .ok e')
    (hcse : ∀ p s cs, Sub e (.node (.cse p s) cs) → s ≠ "pymbolic_eval" → ∀ k ∈ cs, ∀ x, Free x k)
    (s : Compiler.Caches V) (hs : Compiler.ClosedValid I s.places ∧ ∀ e, Compiler.ClosedValid I (s.bound e))
    (dot : V → V → K) (norm : V → N) (recip : N → K) :
    ∃ op : V → V,
      (∀ (xs : List V) (x : V),
        (Compiler.calls c I ((xs ++ [x]).map fun x => (tr E e', setVar ctx u x)) s).getLast? = some (.ok (op x))) ∧
      ∀ (p : Gmres.Params (Option N)) (b : V) (x0 : Option V) (r : Gmres.Result (Option V) (Option N)),
        (Gmres.gmres (Gmres.nanOps op dot norm recip) p (some b) (x0.map some)).ending = .returned r →
        r.success = true →
        ∃ x y, r.solution = some x ∧
          meaning (mean E I (setVar ctx u x)) pl false (placed S T false e) = some y ∧
          ((∃ t, p.tol = some t ∧ norm (b - y) < t * norm b) ∨ norm (b - y) = 0) := by
  obtain ⟨A, hA, hcalls⟩ := C87_repeated_partial (ctx := ctx) c pl S T e e' hc hI hl hlin hu hp hg hn ht hok hcse s hs
  refine ⟨A, ?_, ?_⟩
  · intro xs x
    rw [hcalls, List.map_append, List.map_singleton, List.getLast?_concat]
  · intro p b x0 r h hsuc
    obtain ⟨x, h1, h2⟩ := Gmres.C27_breakdown A dot norm recip p b x0 r h hsuc
    exact ⟨x, A x, h1, hA x, h2⟩

end

/-! ### The hypotheses can be met, and are needed -/

/-- rationals as values: `1/2`, products, interpolation (here: times 3), coordinates (10), layer potentials proportional to
the sum of the densities, with different factors for the two sides -/
def exLin : Compiler.Interp ℚ where
  num n := n
  sub v i := some (v + i)
  op f l := some (match f with
    | "half" => 1 / 2
    | "mul" => l.prod
    | "interp" => 3 * l.headD 0
    | _ => 10)
  truthy v := decide (v ≠ 0)
  zero := 0
  add := (· + ·)
  arr l := l.sum
  pot _ ps ks _ _ lim := some ((if lim = .m1 then 3 else 1) * (ps.map (fun p => p.2)).sum * (1 + (ks.map Prod.snd).sum))

theorem exLin_lawful : Compiler.Lawful exLin where
  zero_add v := by simp [exLin]
  pot_perm src p p' k k' tk tgt lim h h' := by
    simp only [exLin]
    rw [(h.map (fun p => p.2)).sum_eq, (h'.map Prod.snd).sum_eq]

theorem zip_snd_sum : ∀ (sks : List String) (ds : List ℚ), ds.length = sks.length →
    ((sks.zip ds).map (fun p => p.2)).sum = ds.sum
  | [], [], _ => rfl
  | s :: sks, d :: ds, h => by
    simp only [List.zip_cons_cons, List.map_cons, List.sum_cons, zip_snd_sum sks ds (by simpa using h)]

theorem zipWith_lin_sum (c : ℚ) : ∀ (ds es : List ℚ), ds.length = es.length →
    (List.zipWith (fun d e => d + c • e) ds es).sum = ds.sum + c * es.sum
  | [], [], _ => by simp
  | d :: ds, e :: es, h => by
    have := zipWith_lin_sum c ds es (by simpa using h)
    simp only [List.zipWith_cons_cons, List.sum_cons, this]
    simp only [smul_eq_mul]
    ring

/-- names for operations; derivatives and interleaving are treated as interpolation -/
def exEncL : Enc where
  head h := match h with
    | .num _ => "half"
    | .prod => "mul"
    | .interp _ _ => "interp"
    | .nrd _ _ => "interp"
    | .interleave _ => "interp"
    | _ => "coord"
  kern := exEnc.kern
  place := exEnc.place

theorem exLin_mul (l : List ℚ) : exLin.op "mul" l = some l.prod := rfl

theorem exLin_interp (l : List ℚ) : exLin.op "interp" l = some (3 * l.headD 0) := rfl

theorem exLin_interp_lin (pre post : List ℚ) (c x y p q : ℚ) (hpre : pre.length = 0)
    (hp : exLin.op "interp" (pre ++ x :: post) = some p) (hq : exLin.op "interp" (pre ++ y :: post) = some q) :
    exLin.op "interp" (pre ++ (x + c • y) :: post) = some (p + c • q) := by
  obtain rfl : pre = [] := List.length_eq_zero_iff.1 hpre
  rw [exLin_interp, Option.some.injEq] at hp hq ⊢
  subst hp hq
  simp only [List.nil_append, List.headD_cons, smul_eq_mul]
  ring

theorem exLin_laws : LinLaws ℚ exEncL exLin (fun _ _ => False) where
  zero := rfl
  add _ _ := rfl
  op h i hl pre post hi c x y p q hp hq := by
    cases h with
    | prod =>
      have hm : exEncL.head .prod = "mul" := rfl
      rw [hm, exLin_mul, Option.some.injEq] at hp hq ⊢
      subst hp hq
      simp only [List.prod_append, List.prod_cons, smul_eq_mul]
      ring
    | interp f t => exact exLin_interp_lin pre post c x y p q (hi.trans hl) hp hq
    | nrd a d => exact exLin_interp_lin pre post c x y p q (hi.trans hl) hp hq
    | interleave f => exact exLin_interp_lin pre post c x y p q (hi.trans hl) hp hq
    | _ => exact hl.elim
  pot src sks k tk tgt lim c ds es p q hd he hp hq := by
    simp only [exLin, Option.some.injEq] at hp hq ⊢
    rw [zip_snd_sum _ _ (by rw [List.length_zipWith]; omega), zipWith_lin_sum c ds es (by omega)]
    rw [zip_snd_sum _ _ hd] at hp
    rw [zip_snd_sum _ _ he] at hq
    subst hp hq
    simp only [smul_eq_mul]; ring

theorem exBind_linear : LinearIn (fun _ _ => False) "sigma" exBind := by
  refine .sum _ ?_
  intro c hc
  simp only [List.mem_cons, List.not_mem_nil, or_false] at hc
  rcases hc with rfl | rfl
  · refine .cse _ _ _ ?_
    refine .intg _ [.node (.var "sigma") []] [.node (.prop (.nodeCoord 0) ⟨.none, none, .node⟩) []] rfl rfl ?_ ?_
    · intro d hd
      rw [List.mem_singleton] at hd
      subst hd
      exact .var []
    · intro k hk
      rw [List.mem_singleton] at hk
      subst hk
      simp [Free, has_node, key]
  · exact .var []

theorem exLin_total (x : ℚ) : Total exLin (setVar (fun _ => none) "sigma" x) exBind :=
  ⟨fun y hy => ⟨x, by simp [setVar, exBind_var hy]⟩, fun _ _ => ⟨_, rfl⟩, fun _ _ _ _ _ _ => ⟨_, rfl⟩⟩

theorem exBind_cse : ∀ p s cs, Sub exBind (.node (.cse p s) cs) → s ≠ "pymbolic_eval" → ∀ k ∈ cs, ∀ x, Free x k := by
  have : Sealed (fun _ => True) exBind := by
    simp [exBind, sealed_node]
  intro p s cs h1 h2 k hk x
  exact this p s cs h1 h2 k hk _ trivial

/-- the hypotheses of `C87_solve_partial` are met by `cse(D(sigma, arg=x_0; 'avg'), "u") + sigma`; its operator here is
multiplication by `187 = 1/2 (1 + 3) 3 (1 + 30) + 1` -/
example : LinLaws ℚ exEncL exLin (fun _ _ => False) ∧ Compiler.Lawful exLin ∧
    LinearIn (fun _ _ => False) "sigma" exBind ∧ UnregOk exColl exBind ∧ Plain exColl exD exD exBind ∧ Good exBind ∧
    NoClash exBind ∧ (∀ x, Total exLin (setVar (fun _ => none) "sigma" x) exBind) ∧
    (∃ e', prepare exColl exD exD exBind = .ok e' ∧
      (Compiler.calls Compiler.exCfg exLin
        ([2, 5].map fun x => (tr exEncL e', setVar (fun _ => none) "sigma" x)) ⟨[], fun _ => []⟩).map
          (fun r => r.toOption) = [some 374, some 935]) ∧
    ∀ p s cs, Sub exBind (.node (.cse p s) cs) → s ≠ "pymbolic_eval" → ∀ k ∈ cs, ∀ x, Free x k :=
  ⟨exLin_laws, exLin_lawful, exBind_linear, Or.inl (fun p hp => by revert p; decide), exBind_plain, exBind_good,
    exBind_noClash, exLin_total, ⟨_, rfl, by decide +kernel⟩, exBind_cse⟩

/-- `cse(1/2 * sigma)` with a scope that is cached beyond one evaluation -/
def exStale : SE := .node (.cse none "pymbolic_expr") [.node .prod [.node (.num (1/2)) [], .node (.var "sigma") []]]

/-- **C87 fails** for expressions with CSEs of scope `EXPRESSION` around the unknown, although they are linear: a solver which
calls the bound expression with `4` and then with `6` gets `2` both times. -/
theorem C87_refuted : LinearIn (fun _ _ => False) "sigma" exStale ∧
    ∃ e', prepare exColl exD exD exStale = .ok e' ∧
      (Compiler.calls Compiler.exCfg exLin
        ([4, 6].map fun x => (tr exEncL e', setVar (fun _ => none) "sigma" x)) ⟨[], fun _ => []⟩).map
          (fun r => r.toOption) = [some 2, some 2] ∧
      meaning (mean exEncL exLin (setVar (fun _ => none) "sigma" 6)) exColl false (placed exD exD false exStale)
        = some 3 := by
  refine ⟨.cse _ _ _ (.op .prod [.node (.num (1/2)) []] _ [] trivial (.var []) ?_ ?_), _, rfl, by decide +kernel,
    by decide +kernel⟩
  · intro k hk
    rw [List.mem_singleton] at hk
    subst hk
    simp [Free, has_node, key]
  · intro k hk; cases hk

/-- **C87, flat vectors** (also for systems): let `f` be a bound expression (scalar or an object array of expressions) that acts
on its unknowns as the linear map `A` when all degrees of freedom are listed in a row.  The operator made by `scipy_op` is `A`;
if `gmres` reports success for it, its flat solution unflattens to unknowns `x` for which evaluating the expression gives `y`
with `‖b - y‖ < tol ‖b‖`, or `‖b - y‖ = 0`. -/
theorem C87_flat {K N : Type} [CommRing K] [Field N] [LinearOrder N]
    (f : MatVec.Val K → Except MatVec.Err (MatVec.Val K)) (discrs : List MatVec.Discr) (hne : discrs ≠ []) (n : Nat)
    (hn : n = (MatVec.scipyOp f discrs).totalDofs) (A : (Fin n → K) →ₗ[K] (Fin n → K))
    (hf : ∀ v x, MatVec.Fits discrs x → MatVec.concat x = List.ofFn v →
      ∃ y, MatVec.Fits discrs y ∧ f x = .ok y ∧ MatVec.concat y = List.ofFn (A v))
    (dot : (Fin n → K) → (Fin n → K) → K) (norm : (Fin n → K) → N) (recip : N → K) :
    (∀ v : Fin n → K, (MatVec.scipyOp f discrs).matvec 0 (.flat (List.ofFn v)) = .ok (.flat (List.ofFn (A v)))) ∧
    ∀ (p : Gmres.Params (Option N)) (b : Fin n → K) (x0 : Option (Fin n → K))
      (r : Gmres.Result (Option (Fin n → K)) (Option N)),
      (Gmres.gmres (Gmres.nanOps A dot norm recip) p (some b) (x0.map some)).ending = .returned r → r.success = true →
      ∃ v w x y, r.solution = some v ∧ (MatVec.scipyOp f discrs).unflatten (List.ofFn v) = .ok x ∧
        f x = .ok y ∧ MatVec.concat y = List.ofFn w ∧
        ((∃ t, p.tol = some t ∧ norm (b - w) < t * norm b) ∨ norm (b - w) = 0) := by
  have hflat : ∀ v : Fin n → K, ∃ x, MatVec.Fits discrs x ∧ MatVec.concat x = List.ofFn v ∧
      (MatVec.scipyOp f discrs).unflatten (List.ofFn v) = .ok x := by
    intro v
    obtain ⟨x, h1, h2, h3⟩ := MatVec.C22_flat_roundtrip f discrs hne 0 (List.ofFn v) (by rw [List.length_ofFn, hn])
    have h4 := (MatVec.C22_roundtrip_partial f discrs 0 x h1).1
    rw [h3] at h4
    exact ⟨x, h1, (Except.ok.inj h4).symm, h2⟩
  constructor
  · intro v
    obtain ⟨x, h1, h2, _⟩ := hflat v
    obtain ⟨y, h4, h5, h6⟩ := hf v x h1 h2
    have := (MatVec.C22_matvec f discrs 0 x y h1 h4 h5).2
    rwa [h2, h6] at this
  · intro p b x0 r h hs
    obtain ⟨v, h1, h2⟩ := Gmres.C27_breakdown A dot norm recip p b x0 r h hs
    obtain ⟨x, h3, h4, h5⟩ := hflat v
    obtain ⟨y, _, h7, h8⟩ := hf v x h3 h4
    exact ⟨v, A v, x, y, h1, h5, h7, h8, h2⟩

/-- two unknowns each, all doubled -/
def exDouble : MatVec.Val ℚ → Except MatVec.Err (MatVec.Val ℚ)
  | .one x => .ok (.one (x.map (List.map (List.map (2 * ·)))))
  | .many _ => .error .value

theorem exDouble_shape : ∀ (d : MatVec.Discr) (x : MatVec.DOFArr ℚ), MatVec.HasShape d x →
    MatVec.HasShape d (x.map (List.map (List.map (2 * ·))))
  | [], [], _ => trivial
  | (ne, nd) :: d, g :: x, h => by
    refine ⟨by simpa using h.1, ?_, exDouble_shape d x h.2.2⟩
    intro el hel
    obtain ⟨el', h1, rfl⟩ := List.mem_map.1 hel
    simpa using h.2.1 el' h1

/-- the hypotheses of `C87_flat` are met -/
example : ∀ (v : Fin 6 → ℚ) x, MatVec.Fits [[(1, 2), (2, 2)]] x → MatVec.concat x = List.ofFn v →
    ∃ y, MatVec.Fits [[(1, 2), (2, 2)]] y ∧ exDouble x = .ok y ∧
      MatVec.concat y = List.ofFn (((2 : ℚ) • LinearMap.id : (Fin 6 → ℚ) →ₗ[ℚ] (Fin 6 → ℚ)) v) := by
  intro v x hx hc
  cases x with
  | many xs => simp [MatVec.Fits] at hx
  | one x =>
    obtain ⟨d, h1, h2⟩ := hx
    refine ⟨.one (x.map (List.map (List.map (2 * ·)))), ⟨d, h1, exDouble_shape d x h2⟩, rfl, ?_⟩
    have : MatVec.concat (.one (x.map (List.map (List.map (2 * ·))))) = (MatVec.concat (.one x)).map (2 * ·) := by
      simp only [MatVec.concat, MatVec.flattenD, List.map_flatten, List.map_map, Function.comp_def]
    rw [this, hc, List.map_ofFn]
    congr 1

end Verif.Bind
