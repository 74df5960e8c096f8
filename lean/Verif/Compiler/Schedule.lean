import Verif.Compiler.Spec

/-! Helper lemmas about the scheduler (`_get_next_step`, `_compute_schedule`). -/

namespace Verif.Compiler

theorem foldl_argmax_mem (xs : List (Nat × Int)) (x : Nat × Int) :
    xs.foldl argmaxStep x ∈ x :: xs := by
  induction xs generalizing x with
  | nil => simp
  | cons y ys ih =>
    rw [List.foldl_cons]
    have := ih (argmaxStep x y)
    rcases List.mem_cons.1 this with h | h
    · rw [h]; unfold argmaxStep; split <;> simp
    · simp [h]

theorem foldl_argmax_max (xs : List (Nat × Int)) (x : Nat × Int) :
    ∀ y ∈ x :: xs, y.2 ≤ (xs.foldl argmaxStep x).2 := by
  induction xs generalizing x with
  | nil => simp
  | cons z zs ih =>
    intro y hy
    rw [List.foldl_cons]
    have hstep : x.2 ≤ (argmaxStep x z).2 ∧ z.2 ≤ (argmaxStep x z).2 := by
      unfold argmaxStep; split <;> omega
    have hhead := ih (argmaxStep x z) (argmaxStep x z) (by simp)
    rcases List.mem_cons.1 hy with h | h
    · subst h; omega
    · rcases List.mem_cons.1 h with h | h
      · subst h; omega
      · exact ih _ y (List.mem_cons_of_mem _ h)

theorem argmax2_mem {l : List (Nat × Int)} {i : Nat} (h : argmax2 l = some i) :
    ∃ p, (i, p) ∈ l ∧ ∀ y ∈ l, y.2 ≤ p := by
  cases l with
  | nil => simp [argmax2] at h
  | cons x xs =>
    simp only [argmax2, Option.some.injEq] at h
    refine ⟨(xs.foldl argmaxStep x).2, ?_, foldl_argmax_max xs x⟩
    have := foldl_argmax_mem xs x
    rw [← h]; exact this

theorem argmax2_none {l : List (Nat × Int)} (h : argmax2 l = none) : l = [] := by
  cases l with
  | nil => rfl
  | cons x xs => simp [argmax2] at h

theorem mem_undone {stmts : List Stmt} {done : List Nat} {i : Nat} :
    i ∈ undone stmts done ↔ i < stmts.length ∧ i ∉ done := by
  simp [undone]

theorem mem_neededVars {stmts : List Stmt} {done : List Nat} {x : String} :
    x ∈ neededVars stmts done ↔
      ∃ i, (i < stmts.length ∧ i ∉ done) ∧ x ∈ depNamesAt stmts i := by
  simp [neededVars, mem_undone]

theorem mem_availableStmts {stmts : List Stmt} {avail : List String} {done : List Nat}
    {i : Nat} {p : Int} :
    (i, p) ∈ availableStmts stmts avail done ↔
      (i < stmts.length ∧ i ∉ done) ∧ (∀ x ∈ depNamesAt stmts i, x ∈ avail) ∧
        p = prioAt stmts i := by
  simp only [availableStmts, List.mem_map, List.mem_filter, mem_undone, List.all_eq_true,
    decide_eq_true_eq, Prod.mk.injEq]
  constructor
  · rintro ⟨a, ⟨h1, h2⟩, rfl, rfl⟩; exact ⟨h1, h2, rfl⟩
  · rintro ⟨h1, h2, rfl⟩; exact ⟨i, ⟨h1, h2⟩, rfl, rfl⟩

theorem nextStep_spec {stmts : List Stmt} {res avail : List String} {done : List Nat}
    {i : Nat} {d : List String} (h : nextStep stmts res avail done = some (i, d)) :
    i < stmts.length ∧ i ∉ done ∧ (∀ x ∈ depNamesAt stmts i, x ∈ avail) ∧
    (∀ x, x ∈ d ↔ x ∈ avail ∧ x ∉ neededVars stmts done ∧ x ∉ res) ∧
    (∀ j, j < stmts.length → j ∉ done → (∀ x ∈ depNamesAt stmts j, x ∈ avail) →
      prioAt stmts j ≤ prioAt stmts i) := by
  unfold nextStep at h
  split at h
  · simp at h
  · rename_i k hk
    simp only [Option.some.injEq, Prod.mk.injEq] at h
    obtain ⟨rfl, rfl⟩ := h
    obtain ⟨p, hp, hmax⟩ := argmax2_mem hk
    have hp' := mem_availableStmts.1 hp
    refine ⟨hp'.1.1, hp'.1.2, hp'.2.1, fun x => by simp [mem_nub], ?_⟩
    intro j h1 h2 h3
    have := hmax (j, prioAt stmts j) (mem_availableStmts.2 ⟨⟨h1, h2⟩, h3, rfl⟩)
    rw [hp'.2.2] at this
    exact this

theorem nextStep_none {stmts : List Stmt} {res avail : List String} {done : List Nat}
    (h : nextStep stmts res avail done = none) (i : Nat) (hi : i < stmts.length)
    (hd : i ∉ done) : ¬ (∀ x ∈ depNamesAt stmts i, x ∈ avail) := by
  intro hx
  unfold nextStep at h
  split at h
  · rename_i hk
    have h0 := argmax2_none hk
    have := (mem_availableStmts (p := prioAt stmts i)).2 ⟨⟨hi, hd⟩, hx, rfl⟩
    rw [h0] at this; simp at this
  · simp at h

/-- names assigned by a list of schedule steps -/
def assignedBy (stmts : List Stmt) (L : List (Nat × List String)) : List String :=
  L.flatMap (fun p => assigneesAt stmts p.1)

theorem scheduleLoop_spec (stmts : List Stmt) (res : List String) :
    ∀ (fuel : Nat) (avail : List String) (done : List Nat),
      ((scheduleLoop stmts res fuel avail done).map Prod.fst).Nodup ∧
      (∀ p ∈ scheduleLoop stmts res fuel avail done, p.1 < stmts.length ∧ p.1 ∉ done) ∧
      (∀ pre i d post, scheduleLoop stmts res fuel avail done = pre ++ (i, d) :: post →
        (∀ x ∈ depNamesAt stmts i, x ∈ avail ∨ x ∈ assignedBy stmts pre) ∧
        (∀ x ∈ d, (x ∈ avail ∨ x ∈ assignedBy stmts pre) ∧ x ∉ res ∧
          ∀ q ∈ (i, d) :: post, x ∉ depNamesAt stmts q.1)) := by
  intro fuel
  induction fuel with
  | zero => intro avail done; simp [scheduleLoop]
  | succ fuel ih =>
    intro avail done
    unfold scheduleLoop
    split
    · simp
    · rename_i i disc hstep
      obtain ⟨hi, hd, hdeps, hdisc, -⟩ := nextStep_spec hstep
      obtain ⟨ih1, ih2, ih3⟩ := ih (avail.filter (fun x => x ∉ disc) ++ assigneesAt stmts i) (i :: done)
      refine ⟨?_, ?_, ?_⟩
      · rw [List.map_cons, List.nodup_cons]
        refine ⟨?_, ih1⟩
        intro hmem
        obtain ⟨p, hp, hpi⟩ := List.mem_map.1 hmem
        have := (ih2 p hp).2
        simp only at hpi
        rw [hpi] at this
        simp at this
      · intro p hp
        rcases List.mem_cons.1 hp with h | h
        · subst h; exact ⟨hi, hd⟩
        · have := ih2 p h; exact ⟨this.1, fun hh => this.2 (List.mem_cons_of_mem _ hh)⟩
      · intro pre j d post heq
        cases pre with
        | nil =>
          simp only [List.nil_append, List.cons.injEq, Prod.mk.injEq] at heq
          obtain ⟨⟨rfl, rfl⟩, rfl⟩ := heq
          refine ⟨fun x hx => Or.inl (hdeps x hx), ?_⟩
          intro x hx
          have hx' := (hdisc x).1 hx
          refine ⟨Or.inl hx'.1, hx'.2.2, ?_⟩
          intro q hq hqx
          apply hx'.2.1
          rw [mem_neededVars]
          refine ⟨q.1, ?_, hqx⟩
          rcases List.mem_cons.1 hq with h | h
          · subst h; exact ⟨hi, hd⟩
          · have := ih2 q h; exact ⟨this.1, fun hh => this.2 (List.mem_cons_of_mem _ hh)⟩
        | cons a pre =>
          simp only [List.cons_append, List.cons.injEq] at heq
          obtain ⟨rfl, heq⟩ := heq
          obtain ⟨h1, h2⟩ := ih3 pre j d post heq
          have key : ∀ x, x ∈ avail.filter (fun x => x ∉ disc) ++ assigneesAt stmts i ∨
              x ∈ assignedBy stmts pre → x ∈ avail ∨ x ∈ assignedBy stmts ((i, disc) :: pre) := by
            intro x hx
            rcases hx with h | h
            · rcases List.mem_append.1 h with h | h
              · exact Or.inl (List.mem_filter.1 h).1
              · right; simp [assignedBy, h]
            · right; simp only [assignedBy, List.flatMap_cons, List.mem_append]; right; exact h
          exact ⟨fun x hx => key x (h1 x hx),
            fun x hx => ⟨key x (h2 x hx).1, (h2 x hx).2⟩⟩

/-- no later step with all its inputs there has a higher priority -/
theorem scheduleLoop_prio (stmts : List Stmt) (res : List String) :
    ∀ (fuel : Nat) (avail : List String) (done : List Nat) pre i d post,
      scheduleLoop stmts res fuel avail done = pre ++ (i, d) :: post →
      ∀ q ∈ post, (∀ x ∈ depNamesAt stmts q.1, x ∈ avail ∨ x ∈ assignedBy stmts pre) →
        prioAt stmts q.1 ≤ prioAt stmts i := by
  intro fuel
  induction fuel with
  | zero => intro avail done pre i d post h; simp [scheduleLoop] at h
  | succ fuel ih =>
    intro avail done pre i d post heq q hq hdq
    have hall := (scheduleLoop_spec stmts res (fuel + 1) avail done).2.1
    unfold scheduleLoop at heq
    split at heq
    · simp at heq
    · rename_i i0 disc hstep
      obtain ⟨hi, hd, hdeps, hdisc, hmax⟩ := nextStep_spec hstep
      obtain ⟨-, ih2, -⟩ := scheduleLoop_spec stmts res fuel
        (avail.filter (fun x => x ∉ disc) ++ assigneesAt stmts i0) (i0 :: done)
      cases pre with
      | nil =>
        simp only [List.nil_append, List.cons.injEq, Prod.mk.injEq] at heq
        obtain ⟨⟨rfl, rfl⟩, rfl⟩ := heq
        have hq' := ih2 q hq
        refine hmax q.1 hq'.1 (fun hh => hq'.2 (List.mem_cons_of_mem _ hh)) ?_
        intro x hx
        rcases hdq x hx with h | h
        · exact h
        · simp [assignedBy] at h
      | cons a pre =>
        simp only [List.cons_append, List.cons.injEq] at heq
        obtain ⟨rfl, heq⟩ := heq
        refine ih _ _ pre i d post heq q hq ?_
        intro x hx
        have hq' := ih2 q (by rw [heq]; simp [hq])
        have hnd : x ∉ disc := by
          intro hxd
          refine ((hdisc x).1 hxd).2.1 (mem_neededVars.2 ⟨q.1, ⟨hq'.1, ?_⟩, hx⟩)
          exact fun hh => hq'.2 (List.mem_cons_of_mem _ hh)
        rcases hdq x hx with h | h
        · left; simp [h, hnd]
        · simp only [assignedBy, List.flatMap_cons, List.mem_append] at h
          rcases h with h | h
          · left; simp [h]
          · right; exact h

/-- Statement `i`'s dependencies are inputs or assigned by an earlier statement. -/
def TopoOrdered (stmts : List Stmt) (inputs : List String) : Prop :=
  ∀ i, i < stmts.length → ∀ x ∈ depNamesAt stmts i,
    x ∈ inputs ∨ ∃ j, j < i ∧ x ∈ assigneesAt stmts j

theorem exists_min_undone (P : Nat → Prop) [DecidablePred P] (n : Nat)
    (h : ∃ i, i < n ∧ P i) : ∃ i, i < n ∧ P i ∧ ∀ j, j < i → ¬ P j := by
  obtain ⟨i, hi, hp⟩ := h
  induction i using Nat.strongRecOn with
  | ind i ih =>
    by_cases hj : ∃ j, j < i ∧ P j
    · obtain ⟨j, hji, hpj⟩ := hj
      exact ih j hji (by omega) hpj
    · exact ⟨i, hi, hp, fun j hji hpj => hj ⟨j, hji, hpj⟩⟩

theorem undone_cons_length {stmts : List Stmt} {done : List Nat} {i : Nat}
    (hi : i < stmts.length) (hd : i ∉ done) :
    (undone stmts (i :: done)).length < (undone stmts done).length := by
  have hsub : undone stmts (i :: done) = (undone stmts done).filter (fun j => j ≠ i) := by
    simp only [undone, List.filter_filter]
    apply List.filter_congr
    intro x _
    simp
  rw [hsub]
  have hmem : i ∈ undone stmts done := mem_undone.2 ⟨hi, hd⟩
  have := List.length_filter_lt_length_iff_exists (p := fun j => decide (j ≠ i)) (l := undone stmts done)
  apply this.2
  exact ⟨i, hmem, by simp⟩

theorem scheduleLoop_complete (stmts : List Stmt) (res inputs : List String)
    (htopo : TopoOrdered stmts inputs) :
    ∀ (fuel : Nat) (avail : List String) (done : List Nat),
      (undone stmts done).length < fuel →
      (∀ i, i < stmts.length → i ∉ done → ∀ x ∈ depNamesAt stmts i,
        (x ∈ inputs ∨ ∃ j ∈ done, x ∈ assigneesAt stmts j) → x ∈ avail) →
      ∀ i, i < stmts.length → i ∈ done ∨
        i ∈ (scheduleLoop stmts res fuel avail done).map Prod.fst := by
  intro fuel
  induction fuel with
  | zero => intro _ _ h; omega
  | succ fuel ih =>
    intro avail done hlen hA i hi
    by_cases hid : i ∈ done
    · exact Or.inl hid
    right
    unfold scheduleLoop
    split
    · rename_i hnone
      exfalso
      obtain ⟨k, hk, hkd, hmin⟩ :=
        exists_min_undone (fun i => i ∉ done) stmts.length ⟨i, hi, hid⟩
      refine nextStep_none hnone k hk hkd ?_
      intro x hx
      apply hA k hk hkd x hx
      rcases htopo k hk x hx with h | ⟨j, hj, hjx⟩
      · exact Or.inl h
      · refine Or.inr ⟨j, ?_, hjx⟩
        exact Decidable.not_not.1 (hmin j hj)
    · rename_i k disc hstep
      obtain ⟨hk, hkd, hdeps, hdisc, -⟩ := nextStep_spec hstep
      have hlt := undone_cons_length hk hkd
      have := ih (avail.filter (fun x => x ∉ disc) ++ assigneesAt stmts k) (k :: done)
        (by omega) ?_ i hi
      · rcases this with h | h
        · rcases List.mem_cons.1 h with h | h
          · subst h; simp
          · exact absurd h hid
        · simp only [List.map_cons]; exact List.mem_cons_of_mem _ h
      · intro i' hi' hid' x hx hor
        rw [List.mem_append]
        by_cases hxa : x ∈ assigneesAt stmts k
        · exact Or.inr hxa
        left
        have hid'' : i' ∉ done := fun h => hid' (List.mem_cons_of_mem _ h)
        have hav : x ∈ avail := by
          apply hA i' hi' hid'' x hx
          rcases hor with h | ⟨j, hj, hjx⟩
          · exact Or.inl h
          · rcases List.mem_cons.1 hj with h | h
            · subst h; exact absurd hjx hxa
            · exact Or.inr ⟨j, h, hjx⟩
        rw [List.mem_filter]
        refine ⟨hav, ?_⟩
        simp only [decide_eq_true_eq]
        intro hxd
        exact ((hdisc x).1 hxd).2.1 (mem_neededVars.2 ⟨i', ⟨hi', hid''⟩, hx⟩)

theorem undone_nil_length (stmts : List Stmt) : (undone stmts []).length ≤ stmts.length := by
  have := List.length_filter_le (fun i => decide (i ∉ ([] : List Nat))) (List.range stmts.length)
  simpa [undone] using this

end Verif.Compiler
