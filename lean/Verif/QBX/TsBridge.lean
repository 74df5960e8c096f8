import Verif.QBX.TsEval
import Verif.QBX.FMMLib

/-!
# C83/C59: the parallel loop produces the stores the FMMLib backend's theorem assumes

`C59_fmmlib` takes the stores of target-specific QBX as a permutation of `tsStores` for kernels it
is given.  With the Laplace kernels' actual values, every execution of the loop leaves exactly these values.
-/

namespace Verif.Ts

open Fl Verif.FMM Verif.FMMLib

/-- The values of the Laplace kernels (C81) for the points of a call, as kernels of the FMMLib
model: `w` is the source weight, used as charge and as dipole strength (fmmlib.py:630-631). -/
noncomputable def lapKernels (A : TsArgs) : TsKernels ℂ ℂ where
  laplaceS := fun s c t w => w * (localExp A.order (A.sources s) (A.centers c) (A.targets t) : ℝ)
  laplaceD := fun s c t w => w * ((∑ m, A.dipvecAt s m *
    deriv (fun y => localExp A.order (Function.update (A.sources s) m y) (A.centers c) (A.targets t)) (A.sources s m) : ℝ) : ℂ)
  laplaceSp := fun s c t w m => w * ((deriv (fun y => localExp A.order (A.sources s) (A.centers c)
    (Function.update (A.targets t) (Fin.ofNat 3 m) y)) (A.targets t (Fin.ofNat 3 m)) : ℝ) : ℂ)
  helmholtzS := fun _ _ _ _ => 0
  helmholtzD := fun _ _ _ _ => 0
  helmholtzSp := fun _ _ _ _ _ => 0

/-- The arguments the wrangler passes for a traversal and its geometry data (fmmlib.py:600-633). -/
structure Passes (A : TsArgs) (ti : TreeIndep) (tr : Trav) (w : ℕ → ℂ) (g : Geo) : Prop where
  ifpot : A.ifpot = ti.outputs.any fun out => out.isNone
  ifgrad : A.ifgrad = ti.ifgrad
  ifcharge : A.ifcharge = !ti.sourceDeriv.isSome
  ifdipole : A.ifdipole = ti.sourceDeriv.isSome
  centers : A.qbxCenters = g.global
  box : A.centerToTargetBox = g.ctb
  targets : ∀ c ∈ g.global, A.targetsOf c = g.ctt c
  list1 : A.srcBoxStarts = tr.list1Starts ∧ A.srcBoxLists = tr.list1Lists
  sources : ∀ b, A.boxSrcStarts.getD b 0 = tr.srcStart b ∧ A.boxSrcCounts.getD b 0 = tr.srcCount b
  charge : A.charge = some w
  dipstr : A.dipstr = some w
  dipvec : ti.sourceDeriv.isSome = true → A.dipvec ≠ none

theorem sum_fst {α : Type} (l : List α) (f : α → ℂ × (ℕ → ℂ)) : (l.map f).sum.1 = (l.map fun a => (f a).1).sum := by
  induction l with
  | nil => rfl
  | cons a l ih => simp [ih]

theorem sum_snd {α : Type} (l : List α) (f : α → ℂ × (ℕ → ℂ)) (m : ℕ) :
    (l.map f).sum.2 m = (l.map fun a => (f a).2 m).sum := by
  induction l with
  | nil => rfl
  | cons a l ih => simp [ih]

theorem sum_flat {α β : Type} (l : List α) (f : α → List β) (h : β → ℂ) :
    ((l.flatMap f).map h).sum = (l.map fun a => ((f a).map h).sum).sum := by
  induction l with
  | nil => rfl
  | cons a l ih => simp [List.flatMap_cons, ih]

/-- C83 (as the FMMLib backend uses it): with the arguments the wrangler passes, in every execution the
arrays returned by the target-specific evaluation hold, for every pair in the list of stores
`C59_fmmlib` assumes (with the Laplace kernels' values), the potential and the gradient of that pair. -/
theorem C83_backend_partial (A : TsArgs) (hk : A.k = 0) (useTs : Option Bool) (ks : List Knl) (ti : TreeIndep)
    (hti : digest useTs ks = .ok ti) (hts : ti.usingTs = true) (tr : Trav) (w : ℕ → ℂ) (g : Geo)
    (hA : Passes A ti tr w g) (hnd : (g.global.flatMap g.ctt).Nodup)
    (hsep : ∀ c ∈ g.global, ∀ t ∈ g.ctt c, A.targets t ≠ A.centers c ∧
      ∀ s ∈ A.sourcesOf c, A.sources s ≠ A.centers c)
    (ho : A.ifgrad = true ∨ A.ifdipole = true → A.order < 64)
    (owner : ℕ → ℕ) (sched : List (ℕ × TsOp)) (hs : IsSchedule A owner sched) (o : TsOut) :
    ∃ o', evalTsLocals A sched o = .done o' ∧
      ∀ (t : ℕ) (v : ℂ × (ℕ → ℂ)),
        (t, v) ∈ tsStores (lapKernels A) (wranglerFlags ti true) tr w g.global g.ctb g.ctt →
        (A.ifpot = true → o'.pot t = fin v.1) ∧ (A.ifgrad = true → ∀ m : Fin 3, o'.grad t m = fin (v.2 m)) := by
  have hdg : ti.sourceDeriv.isSome = true → ti.ifgrad = false := fun h =>
    C59_ts_no_dipole_gradient useTs ks ti hti hts (by intro hn; rw [hn] at h; cases h)
  have hinv : A.invalid = false := by
    simp only [TsArgs.invalid, hA.charge, hA.dipstr, hA.ifdipole, hA.ifgrad, Option.isNone_some, Bool.and_false, Bool.false_or]
    cases hd : ti.sourceDeriv.isSome with
    | false => rfl
    | true =>
      rw [hdg hd]
      cases hv : A.dipvec with
      | none => exact absurd hv (hA.dipvec hd)
      | some _ => rfl
  have hq : A.ifcharge = true ∨ A.ifdipole = true := by
    rw [hA.ifcharge, hA.ifdipole]
    cases ti.sourceDeriv.isSome <;> simp
  have hflat : A.qbxCenters.flatMap A.targetsOf = g.global.flatMap g.ctt := by
    rw [hA.centers]
    exact List.flatMap_congr hA.targets
  obtain ⟨o', he, h1, _⟩ := C83_laplace_partial A hk hinv hq (by rw [hflat]; exact hnd)
    (fun c hc t ht => by
      rw [hA.centers] at hc
      exact hsep c hc t (by rw [← hA.targets c hc]; exact ht)) ho owner sched hs o
  refine ⟨o', he, ?_⟩
  intro t v hv
  rw [ts_mem] at hv
  obtain ⟨c, hc, ht, rfl⟩ := hv
  have hc' : c ∈ A.qbxCenters := by rw [hA.centers]; exact hc
  obtain ⟨hp, hg, _, _⟩ := h1 c hc' t (by rw [hA.targets c hc]; exact ht)
  obtain ⟨htc, hsc⟩ := hsep c hc t ht
  have hsrc : A.sourcesOf c = (kernelRow tr.list1Starts tr.list1Lists (g.ctb.getD c 0)).flatMap (kernelOwn tr) := by
    unfold TsArgs.sourcesOf
    rw [hA.list1.1, hA.list1.2, hA.box]
    refine List.flatMap_congr (fun b _ => ?_)
    rw [TsArgs.boxSources, (hA.sources b).1, (hA.sources b).2, kernelOwn]
  have hw : ∀ s, A.chargeAt s = w s ∧ A.dipstrAt s = w s := by
    intro s
    simp [TsArgs.chargeAt, TsArgs.dipstrAt, hA.charge, hA.dipstr]
  constructor
  · intro hpot
    rw [hp hpot, lapPot, hsrc, sum_flat, sum_fst]
    congr 3
    funext b
    rw [sum_fst]
    congr 2
    funext s
    rw [(hw s).1, (hw s).2, hA.ifcharge, hA.ifdipole, tsTerm]
    rw [hA.ifpot] at hpot
    simp only [wranglerFlags, tsFlags, hpot, lapKernels, Bool.true_and, Bool.not_true, Bool.false_and,
      Bool.false_eq_true, if_false, add_zero]
  · intro hgr m
    obtain ⟨D, hD, he'⟩ := hg hgr
    rw [he']
    have hDs : D m = ((A.sourcesOf c).map fun s => if A.ifcharge then A.chargeAt s *
        ((deriv (fun y => localExp A.order (A.sources s) (A.centers c) (Function.update (A.targets t) m y))
          (A.targets t m) : ℝ) : ℂ) else 0).sum := by
      refine (hD m).unique (hasDerivAt_listSum _ _ _ _ (fun s hs => ?_))
      obtain ⟨d, hd, _⟩ := C81_gradient_partial htc (hsc s hs) (fun _ => 0) 0 A.order (ho (Or.inl hgr))
      cases A.ifcharge with
      | false => simpa using hasDerivAt_const _ (0 : ℂ)
      | true =>
        simp only [if_true]
        rw [(hd m).deriv]
        exact (hd m).ofReal_comp.const_mul _
    have hm : Fin.ofNat 3 (m : ℕ) = m := by
      apply Fin.ext
      simp [Fin.ofNat, Nat.mod_eq_of_lt m.isLt]
    simp only [hDs]
    rw [hsrc, sum_flat, sum_snd]
    congr 3
    funext b
    rw [sum_snd]
    congr 2
    funext s
    rw [(hw s).1, hA.ifcharge, tsTerm]
    rw [hA.ifgrad] at hgr
    simp only [wranglerFlags, tsFlags, hgr, lapKernels, Bool.true_and, Bool.not_true, Bool.false_and,
      Bool.false_eq_true, if_false, add_zero, hm]

/-- The arguments of `exArgs` with the weights passed twice, as the wrangler does. -/
noncomputable def exPassed : TsArgs := { exArgs 0 with dipstr := some fun _ => 2 }

/-- A traversal with one box. -/
def exOneBox : Trav where
  own := fun _ => [0]
  srcStart := fun _ => 0
  srcCount := fun b => [1].getD b 0
  children := fun _ => []
  parent := fun _ => none
  nlevels := 1
  levelSize := fun _ => 1
  targetBoxes := [0]
  list1Starts := [0, 1]
  list1Lists := [0]
  list2 := fun _ => []
  list4 := fun _ => []
  list3 := []

/-- The hypotheses are met: a Laplace single layer and its `x`-derivative, two centers, two threads. -/
example (o : TsOut) : ∃ o', evalTsLocals exPassed exSched o = .done o' := by
  obtain ⟨ti, hti⟩ : ∃ ti, digest none [.laplace 3, .axisTarget 0 (.laplace 3)] = .ok ti := ⟨_, rfl⟩
  have hti' := hti
  cases hti'
  obtain ⟨o', h, _⟩ := C83_backend_partial exPassed rfl none _ _ hti rfl exOneBox (fun _ => 2)
    ⟨2, [], [], [0, 1], exPassed.targetsOf, [], [0, 0]⟩
    { ifpot := rfl, ifgrad := rfl, ifcharge := rfl, ifdipole := rfl, centers := rfl, box := rfl, targets := fun _ _ => rfl
      list1 := ⟨rfl, rfl⟩, sources := fun b => ⟨by cases b <;> rfl, rfl⟩, charge := rfl, dipstr := rfl
      dipvec := fun h => by cases h }
    (exArgs_nodup 0) (fun _ _ _ _ => ⟨ex_ne.1, fun _ _ => ex_ne.2⟩) (fun _ => by show 3 < 64; norm_num) id exSched
    (exSched_ok 0) o
  exact ⟨o', h⟩

end Verif.Ts
