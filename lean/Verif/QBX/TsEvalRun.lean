import Verif.QBX.TsEvalModel
import Mathlib.Data.List.Flatten

/-!
# Executions of the parallel loop of `eval_target_specific_qbx_locals`

Every interleaving of the threads stores, for each target, what the owning thread computes alone.
-/

namespace Verif.Ts

open Fl

theorem except_bind_ok {ε α β : Type} {x : Except ε α} {f : α → Except ε β} {b : β} :
    x.bind f = .ok b ↔ ∃ a, x = .ok a ∧ f a = .ok b := by
  cases x with
  | error e =>
    constructor
    · intro h; cases h
    · rintro ⟨a, h, _⟩; cases h
  | ok a =>
    constructor
    · intro h; exact ⟨a, rfl, h⟩
    · rintro ⟨a', h, h'⟩; cases h; exact h'

theorem foldlM_cons_ok {ε α β : Type} {f : β → α → Except ε β} {a : α} {l : List α} {b c : β} :
    (a :: l).foldlM f b = .ok c ↔ ∃ d, f b a = .ok d ∧ l.foldlM f d = .ok c := by
  rw [List.foldlM_cons]; exact except_bind_ok

theorem foldlM_append_ok {ε α β : Type} {f : β → α → Except ε β} {l l' : List α} {b c : β} :
    (l ++ l').foldlM f b = .ok c ↔ ∃ d, l.foldlM f b = .ok d ∧ l'.foldlM f d = .ok c := by
  rw [List.foldlM_append]; exact except_bind_ok

theorem foldlM_nil_ok {ε α β : Type} {f : β → α → Except ε β} {b c : β} :
    ([] : List α).foldlM f b = .ok c ↔ b = c := by
  rw [List.foldlM_nil]
  constructor
  · intro h; cases h; rfl
  · rintro rfl; rfl

/-- Operations of one thread in an execution. -/
def proj (tid : ℕ) (sched : List (ℕ × TsOp)) : List TsOp := (sched.filter fun e => e.1 == tid).map Prod.snd

theorem proj_cons_self (tid : ℕ) (op : TsOp) (l : List (ℕ × TsOp)) : proj tid ((tid, op) :: l) = op :: proj tid l := by
  simp [proj]

theorem proj_cons_ne {tid tid' : ℕ} (h : tid' ≠ tid) (op : TsOp) (l : List (ℕ × TsOp)) :
    proj tid ((tid', op) :: l) = proj tid l := by
  simp [proj, h]

theorem step_ok {A : TsArgs} {m m' : TsMem} {e : ℕ × TsOp} :
    tsStep A m e = .ok m' ↔ ∃ x, opLocal A (m.rows e.1) e.2 = .ok x ∧
      m' = ⟨Function.update m.rows e.1 x, opOut A (m.rows e.1) m.out e.2⟩ := by
  unfold tsStep
  cases h : opLocal A (m.rows e.1) e.2 with
  | error f =>
    constructor
    · intro h; cases h
    · rintro ⟨x, h, _⟩; cases h
  | ok x =>
    constructor
    · intro h; cases h; exact ⟨x, rfl, rfl⟩
    · rintro ⟨y, h, rfl⟩; cases h; rfl

/-- If every thread alone succeeds, so does every execution. -/
theorem run_exists (A : TsArgs) (sched : List (ℕ × TsOp)) : ∀ (m : TsMem),
    (∀ tid, ∃ x, (proj tid sched).foldlM (opLocal A) (m.rows tid) = .ok x) →
    ∃ m', sched.foldlM (tsStep A) m = .ok m' := by
  induction sched with
  | nil => intro m _; exact ⟨m, rfl⟩
  | cons e l ih =>
    intro m h
    obtain ⟨tid, op⟩ := e
    obtain ⟨x, hx⟩ := h tid
    rw [proj_cons_self, foldlM_cons_ok] at hx
    obtain ⟨y, hy, hx⟩ := hx
    have hs : tsStep A m (tid, op) = .ok ⟨Function.update m.rows tid y, opOut A (m.rows tid) m.out op⟩ :=
      step_ok.mpr ⟨y, hy, rfl⟩
    obtain ⟨m', hm'⟩ := ih ⟨Function.update m.rows tid y, opOut A (m.rows tid) m.out op⟩ (by
      intro tid'
      by_cases hne : tid' = tid
      · subst hne
        exact ⟨x, by simpa using hx⟩
      · obtain ⟨x', hx'⟩ := h tid'
        rw [proj_cons_ne (Ne.symm hne)] at hx'
        exact ⟨x', by simpa [Function.update_of_ne hne] using hx'⟩)
    exact ⟨m', foldlM_cons_ok.mpr ⟨_, hs, hm'⟩⟩

/-- Target stored by an operation. -/
def storeOf : TsOp → Option ℕ
  | .store t => some t
  | _ => none

/-- The stores of a thread running alone, with its row at that moment. -/
noncomputable def writes (A : TsArgs) : Tls → List TsOp → List (ℕ × Tls)
  | _, [] => []
  | x, op :: ops =>
    (match storeOf op with | some t => [(t, x)] | none => [])
      ++ (match opLocal A x op with | .ok y => writes A y ops | .error _ => [])

theorem writes_cons {A : TsArgs} {x y : Tls} {op : TsOp} (ops : List TsOp) (h : opLocal A x op = .ok y) :
    writes A x (op :: ops) = (match storeOf op with | some t => [(t, x)] | none => []) ++ writes A y ops := by
  rw [writes, h]

theorem writes_append {A : TsArgs} (l l' : List TsOp) : ∀ {x y : Tls}, l.foldlM (opLocal A) x = .ok y →
    writes A x (l ++ l') = writes A x l ++ writes A y l' := by
  induction l with
  | nil => intro x y h; rw [foldlM_nil_ok] at h; subst h; simp [writes]
  | cons op l ih =>
    intro x y h
    rw [foldlM_cons_ok] at h
    obtain ⟨d, hd, h⟩ := h
    rw [List.cons_append, writes_cons _ hd, writes_cons _ hd, ih h, List.append_assoc]

theorem writes_mem {A : TsArgs} (ops : List TsOp) : ∀ {x : Tls} {t : ℕ} {y : Tls}, (t, y) ∈ writes A x ops →
    t ∈ ops.filterMap storeOf := by
  induction ops with
  | nil => intro x t y h; simp [writes] at h
  | cons op ops ih =>
    intro x t y h
    rw [writes, List.mem_append] at h
    rcases h with h | h
    · cases ho : storeOf op with
      | none => rw [ho] at h; simp at h
      | some u =>
        rw [ho] at h
        simp only [List.mem_singleton, Prod.mk.injEq] at h
        rw [List.filterMap_cons, ho, h.1]
        exact List.mem_cons_self
    · cases hl : opLocal A x op with
      | error f => rw [hl] at h; simp at h
      | ok z =>
        rw [hl] at h
        have := ih h
        rw [List.filterMap_cons]
        cases storeOf op with
        | none => exact this
        | some u => exact List.mem_cons_of_mem _ this

theorem out_other {A : TsArgs} {x : Tls} {o : TsOut} {op : TsOp} {t : ℕ} (h : storeOf op ≠ some t) :
    (opOut A x o op).pot t = o.pot t ∧ (opOut A x o op).grad t = o.grad t := by
  cases op with
  | store u =>
    have : t ≠ u := fun hh => h (by rw [hh]; rfl)
    simp [opOut, storeTarget, this]
  | _ => exact ⟨rfl, rfl⟩

theorem out_store {A : TsArgs} {x : Tls} {o : TsOut} (t : ℕ) :
    (opOut A x o (.store t)).pot t = (if A.ifpot then x.result else o.pot t) ∧
    (opOut A x o (.store t)).grad t = (if A.ifgrad then x.resultGrad else o.grad t) := by
  simp [opOut, storeTarget]

/-- Entries no thread stores keep their values. -/
theorem run_untouched (A : TsArgs) (t : ℕ) (sched : List (ℕ × TsOp)) : ∀ {m m' : TsMem},
    sched.foldlM (tsStep A) m = .ok m' → (∀ tid, t ∉ (proj tid sched).filterMap storeOf) →
    m'.out.pot t = m.out.pot t ∧ m'.out.grad t = m.out.grad t := by
  induction sched with
  | nil => intro m m' h _; rw [foldlM_nil_ok] at h; subst h; exact ⟨rfl, rfl⟩
  | cons e l ih =>
    intro m m' h hno
    rw [foldlM_cons_ok] at h
    obtain ⟨d, hd, h⟩ := h
    obtain ⟨x, _, rfl⟩ := step_ok.mp hd
    obtain ⟨tid, op⟩ := e
    have hop : storeOf op ≠ some t := by
      intro ho
      apply hno tid
      rw [proj_cons_self, List.filterMap_cons, ho]
      exact List.mem_cons_self
    obtain ⟨h1, h2⟩ := ih h (by
      intro tid' hm
      apply hno tid'
      by_cases hne : tid = tid'
      · subst hne
        rw [proj_cons_self, List.filterMap_cons]
        cases storeOf op with
        | none => exact hm
        | some u => exact List.mem_cons_of_mem _ hm
      · rw [proj_cons_ne hne]; exact hm)
    obtain ⟨h3, h4⟩ := out_other (A := A) (x := m.rows tid) (o := m.out) hop
    exact ⟨h1.trans h3, h2.trans h4⟩

/-- An entry stored once, by thread `tid`, ends up with what that thread computes alone. -/
theorem run_stored (A : TsArgs) (t tid : ℕ) (sched : List (ℕ × TsOp)) : ∀ {m m' : TsMem},
    sched.foldlM (tsStep A) m = .ok m' → (∀ tid', tid' ≠ tid → t ∉ (proj tid' sched).filterMap storeOf) →
    ((proj tid sched).filterMap storeOf).Nodup →
    ∀ y, (t, y) ∈ writes A (m.rows tid) (proj tid sched) →
    m'.out.pot t = (if A.ifpot then y.result else m.out.pot t) ∧
    m'.out.grad t = (if A.ifgrad then y.resultGrad else m.out.grad t) := by
  induction sched with
  | nil => intro m m' _ _ _ y hy; simp [proj, writes] at hy
  | cons e l ih =>
    intro m m' h hother hnd y hy
    rw [foldlM_cons_ok] at h
    obtain ⟨d, hd, h⟩ := h
    obtain ⟨x, hx, rfl⟩ := step_ok.mp hd
    obtain ⟨tid', op⟩ := e
    have hother' : ∀ tid'', tid'' ≠ tid → t ∉ (proj tid'' l).filterMap storeOf := by
      intro tid'' hne hm
      apply hother tid'' hne
      by_cases h' : tid' = tid''
      · subst h'
        rw [proj_cons_self, List.filterMap_cons]
        cases storeOf op with
        | none => exact hm
        | some u => exact List.mem_cons_of_mem _ hm
      · rw [proj_cons_ne h']; exact hm
    by_cases hown : tid' = tid
    · subst hown
      rw [proj_cons_self] at hy hnd
      rw [writes_cons _ hx] at hy
      by_cases ho : storeOf op = some t
      · rw [List.filterMap_cons, ho] at hnd
        have hnt : t ∉ (proj tid' l).filterMap storeOf := (List.nodup_cons.mp hnd).1
        have hop : op = .store t := by
          cases op <;> simp [storeOf] at ho
          rw [ho]
        subst hop
        rw [ho] at hy
        have hyx : y = m.rows tid' := by
          rcases List.mem_append.mp hy with hy | hy
          · simpa using hy
          · exact absurd (writes_mem _ hy) hnt
        subst hyx
        obtain ⟨h1, h2⟩ := run_untouched A t l h (by
          intro tid''
          by_cases h' : tid'' = tid'
          · subst h'; exact hnt
          · exact hother' tid'' h')
        obtain ⟨h3, h4⟩ := out_store (A := A) (x := m.rows tid') (o := m.out) t
        exact ⟨h1.trans h3, h2.trans h4⟩
      · have hy' : (t, y) ∈ writes A x (proj tid' l) := by
          rcases List.mem_append.mp hy with hy | hy
          · exfalso
            cases hso : storeOf op with
            | none => rw [hso] at hy; simp at hy
            | some u =>
              rw [hso] at hy
              simp only [List.mem_singleton, Prod.mk.injEq] at hy
              exact ho (by rw [hso, hy.1])
          · exact hy
        have hnd' : ((proj tid' l).filterMap storeOf).Nodup := by
          rw [List.filterMap_cons] at hnd
          cases hso : storeOf op with
          | none => rw [hso] at hnd; exact hnd
          | some u => rw [hso] at hnd; exact (List.nodup_cons.mp hnd).2
        obtain ⟨h1, h2⟩ := ih h hother' hnd' y (by simpa using hy')
        obtain ⟨h3, h4⟩ := out_other (A := A) (x := m.rows tid') (o := m.out) ho
        simp only [h3, h4] at h1 h2
        exact ⟨h1, h2⟩
    · have ho : storeOf op ≠ some t := by
        intro ho
        apply hother tid' hown
        rw [proj_cons_self, List.filterMap_cons, ho]
        exact List.mem_cons_self
      rw [proj_cons_ne hown] at hy hnd
      obtain ⟨h1, h2⟩ := ih h hother' hnd y (by simpa [Function.update_of_ne (Ne.symm hown)] using hy)
      obtain ⟨h3, h4⟩ := out_other (A := A) (x := m.rows tid') (o := m.out) ho
      simp only [h3, h4] at h1 h2
      exact ⟨h1, h2⟩

/-! ## The programs -/

theorem stores_sourceOps (A : TsArgs) (c : ℕ) : (sourceOps A c).filterMap storeOf = [] := by
  rw [List.filterMap_eq_nil_iff]
  intro op h
  rw [sourceOps, List.mem_flatMap] at h
  obtain ⟨s, _, h⟩ := h
  simp only [List.mem_cons, List.not_mem_nil, or_false] at h
  rcases h with rfl | rfl <;> rfl

theorem stores_targetOps (A : TsArgs) (c t : ℕ) : (targetOps A c t).filterMap storeOf = [t] := by
  have : storeOf (.target t) = none := rfl
  rw [targetOps, List.filterMap_cons, this]
  simp only [List.filterMap_append, stores_sourceOps]
  rfl

theorem stores_flat {α : Type} (l : List α) (f : α → List TsOp) (g : α → List ℕ) (h : ∀ a, (f a).filterMap storeOf = g a) :
    (l.flatMap f).filterMap storeOf = l.flatMap g := by
  induction l with
  | nil => rfl
  | cons a l ih => rw [List.flatMap_cons, List.flatMap_cons, List.filterMap_append, h, ih]

theorem stores_centerOps (A : TsArgs) (c : ℕ) : (centerOps A c).filterMap storeOf = A.targetsOf c := by
  have : storeOf (.center c) = none := rfl
  rw [centerOps, List.filterMap_cons, this]
  simp only
  rw [stores_flat _ _ (fun t => [t]) (stores_targetOps A c)]
  simp

theorem stores_threadOps (A : TsArgs) (owner : ℕ → ℕ) (tid : ℕ) :
    (threadOps A owner tid).filterMap storeOf = (threadCenters A owner tid).flatMap A.targetsOf :=
  stores_flat _ _ _ (stores_centerOps A)

theorem threadCenters_sublist (A : TsArgs) (owner : ℕ → ℕ) (tid : ℕ) :
    (threadCenters A owner tid).Sublist A.qbxCenters := by
  have h : ((A.qbxCenters.zipIdx.filter fun ci => owner ci.2 == tid).map Prod.fst).Sublist
      (A.qbxCenters.zipIdx.map Prod.fst) := List.filter_sublist.map Prod.fst
  rw [List.zipIdx_map_fst] at h
  exact h

theorem mem_threadCenters {A : TsArgs} {owner : ℕ → ℕ} {tid c : ℕ} :
    c ∈ threadCenters A owner tid ↔ ∃ i : ℕ, A.qbxCenters[i]? = some c ∧ owner i = tid := by
  simp only [threadCenters, List.mem_map, List.mem_filter, List.mem_zipIdx_iff_getElem?, beq_iff_eq, Prod.exists,
    exists_and_right, exists_eq_right]

/-- A target that occurs once overall belongs to one loop iteration. -/
theorem flat_unique {α : Type} (l : List ℕ) (f : ℕ → List α) (hnd : (l.flatMap f).Nodup) :
    ∀ {i j c d : ℕ} {t : α}, l[i]? = some c → l[j]? = some d → t ∈ f c → t ∈ f d → i = j := by
  induction l with
  | nil => intro i j c d t h; simp at h
  | cons a l ih =>
    intro i j c d t hi hj hc hd
    rw [List.flatMap_cons, List.nodup_append] at hnd
    have hout : ∀ {j' d' : ℕ}, l[j']? = some d' → t ∈ f d' → t ∉ f a := by
      intro j' d' h h' ha
      exact hnd.2.2 t ha t (List.mem_flatMap.mpr ⟨d', List.mem_of_getElem? h, h'⟩) rfl
    cases i with
    | zero =>
      cases j with
      | zero => rfl
      | succ j =>
        simp only [List.getElem?_cons_zero, Option.some.injEq] at hi
        rw [List.getElem?_cons_succ] at hj
        exact absurd (hi ▸ hc) (hout hj hd)
    | succ i =>
      cases j with
      | zero =>
        simp only [List.getElem?_cons_zero, Option.some.injEq] at hj
        rw [List.getElem?_cons_succ] at hi
        exact absurd (hj ▸ hd) (hout hi hc)
      | succ j =>
        rw [List.getElem?_cons_succ] at hi hj
        rw [ih hnd.2.1 hi hj hc hd]

/-- What one thread computes for one target, from whatever is in its row. -/
def Computes (A : TsArgs) (P : ℕ → ℕ → Tls → Prop) (c t : ℕ) : Prop :=
  ∀ x : Tls, x.center = A.centers c → ∃ y : Tls,
    (TsOp.target t :: sourceOps A c).foldlM (opLocal A) x = .ok y ∧ y.center = A.centers c ∧ P c t y

theorem run_targets (A : TsArgs) (P : ℕ → ℕ → Tls → Prop) (c : ℕ) (ts : List ℕ) (h : ∀ t ∈ ts, Computes A P c t) :
    ∀ x : Tls, x.center = A.centers c → ∃ y : Tls,
      (ts.flatMap (targetOps A c)).foldlM (opLocal A) x = .ok y ∧
      ∀ t ∈ ts, ∃ z, (t, z) ∈ writes A x (ts.flatMap (targetOps A c)) ∧ P c t z := by
  induction ts with
  | nil => intro x _; exact ⟨x, rfl, by intro t ht; cases ht⟩
  | cons t ts ih =>
    intro x hx
    obtain ⟨y, hy, hyc, hP⟩ := h t List.mem_cons_self x hx
    obtain ⟨z, hz, hw⟩ := ih (fun u hu => h u (List.mem_cons_of_mem _ hu)) y hyc
    have hst : opLocal A y (.store t) = .ok y := rfl
    have hT : (targetOps A c t).foldlM (opLocal A) x = .ok y := by
      rw [targetOps, ← List.cons_append, foldlM_append_ok]
      exact ⟨y, hy, foldlM_cons_ok.mpr ⟨y, hst, foldlM_nil_ok.mpr rfl⟩⟩
    have hWt : (t, y) ∈ writes A x (targetOps A c t) := by
      rw [targetOps, ← List.cons_append, writes_append _ _ hy, List.mem_append]
      right
      rw [writes_cons _ hst]
      exact List.mem_append_left _ List.mem_cons_self
    refine ⟨z, ?_, ?_⟩
    · rw [List.flatMap_cons, foldlM_append_ok]
      exact ⟨y, hT, hz⟩
    · intro u hu
      rw [List.flatMap_cons, writes_append _ _ hT]
      rcases List.mem_cons.mp hu with rfl | hu
      · exact ⟨y, List.mem_append_left _ hWt, hP⟩
      · obtain ⟨w, hw, hPw⟩ := hw u hu
        exact ⟨w, List.mem_append_right _ hw, hPw⟩

theorem run_centers (A : TsArgs) (P : ℕ → ℕ → Tls → Prop) (cs : List ℕ)
    (h : ∀ c ∈ cs, ∀ t ∈ A.targetsOf c, Computes A P c t) :
    ∀ x : Tls, ∃ y : Tls, (cs.flatMap (centerOps A)).foldlM (opLocal A) x = .ok y ∧
      ∀ c ∈ cs, ∀ t ∈ A.targetsOf c, ∃ z, (t, z) ∈ writes A x (cs.flatMap (centerOps A)) ∧ P c t z := by
  induction cs with
  | nil => intro x; exact ⟨x, rfl, by intro c hc; cases hc⟩
  | cons c cs ih =>
    intro x
    have hc0 : opLocal A x (.center c) = .ok { x with jscale := fin 0, center := A.centers c } := rfl
    obtain ⟨y, hy, hw⟩ := run_targets A P c (A.targetsOf c) (h c List.mem_cons_self)
      { x with jscale := fin 0, center := A.centers c } rfl
    obtain ⟨z, hz, hw'⟩ := ih (fun d hd => h d (List.mem_cons_of_mem _ hd)) y
    have hC : (centerOps A c).foldlM (opLocal A) x = .ok y := foldlM_cons_ok.mpr ⟨_, hc0, hy⟩
    refine ⟨z, ?_, ?_⟩
    · rw [List.flatMap_cons, foldlM_append_ok]
      exact ⟨y, hC, hz⟩
    · intro d hd t ht
      rw [List.flatMap_cons, writes_append _ _ hC]
      rcases List.mem_cons.mp hd with rfl | hd
      · obtain ⟨w, hw, hPw⟩ := hw t ht
        refine ⟨w, List.mem_append_left _ ?_, hPw⟩
        rw [centerOps, writes_cons _ hc0]
        exact List.mem_append_right _ hw
      · obtain ⟨w, hw, hPw⟩ := hw' d hd t ht
        exact ⟨w, List.mem_append_right _ hw, hPw⟩

/-- Every execution of a call stores, for every target of every center, a value with the property
the computation of a single thread guarantees. -/
theorem eval_of_computes (A : TsArgs) (P : ℕ → ℕ → Tls → Prop) (owner : ℕ → ℕ) (sched : List (ℕ × TsOp))
    (hs : IsSchedule A owner sched) (hv : A.invalid = false) (hany : A.anyFlag = true)
    (hnd : (A.qbxCenters.flatMap A.targetsOf).Nodup)
    (h : ∀ c ∈ A.qbxCenters, ∀ t ∈ A.targetsOf c, Computes A P c t) (o : TsOut) :
    ∃ o', evalTsLocals A sched o = .done o' ∧
      (∀ c ∈ A.qbxCenters, ∀ t ∈ A.targetsOf c, ∃ y, P c t y ∧
        o'.pot t = (if A.ifpot then y.result else o.pot t) ∧
        o'.grad t = (if A.ifgrad then y.resultGrad else o.grad t)) ∧
      ∀ t, (∀ c ∈ A.qbxCenters, t ∉ A.targetsOf c) → o'.pot t = o.pot t ∧ o'.grad t = o.grad t := by
  unfold evalTsLocals
  rw [hv, hany]
  simp only [Bool.false_eq_true, if_false, Bool.not_true]
  by_cases hem : A.qbxCenters.isEmpty = true
  · rw [if_pos hem]
    rw [List.isEmpty_iff] at hem
    refine ⟨o, rfl, ?_, fun _ _ => ⟨rfl, rfl⟩⟩
    intro c hc
    rw [hem] at hc
    cases hc
  rw [if_neg hem]
  have hproj : ∀ tid, proj tid sched = threadOps A owner tid := hs
  have hthread : ∀ tid, _ := fun tid => run_centers A P (threadCenters A owner tid)
    (fun c hc => h c ((threadCenters_sublist A owner tid).subset hc)) Tls.init
  obtain ⟨m', hm'⟩ := run_exists A sched ⟨fun _ => Tls.init, o⟩ (by
    intro tid
    obtain ⟨y, hy, _⟩ := hthread tid
    exact ⟨y, by rw [hproj]; exact hy⟩)
  rw [hm']
  refine ⟨m'.out, rfl, ?_, ?_⟩
  · intro c hc t ht
    obtain ⟨i, hi⟩ := List.mem_iff_getElem?.mp hc
    obtain ⟨_, _, hw⟩ := hthread (owner i)
    obtain ⟨y, hy, hP⟩ := hw c (mem_threadCenters.mpr ⟨i, hi, rfl⟩) t ht
    refine ⟨y, hP, ?_⟩
    refine run_stored A t (owner i) sched hm' ?_ ?_ y (by rw [hproj]; exact hy)
    · intro tid' hne hm
      rw [hproj, stores_threadOps, List.mem_flatMap] at hm
      obtain ⟨d, hd, htd⟩ := hm
      obtain ⟨j, hj, hjo⟩ := mem_threadCenters.mp hd
      have := flat_unique A.qbxCenters A.targetsOf hnd hi hj ht htd
      exact hne (by rw [← hjo, this])
    · rw [hproj, stores_threadOps]
      exact ((threadCenters_sublist A owner (owner i)).flatMap A.targetsOf).nodup hnd
  · intro t hno
    refine run_untouched A t sched hm' ?_
    intro tid hm
    rw [hproj, stores_threadOps, List.mem_flatMap] at hm
    obtain ⟨d, hd, htd⟩ := hm
    exact hno d ((threadCenters_sublist A owner tid).subset hd) htd

end Verif.Ts
