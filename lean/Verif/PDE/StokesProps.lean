import Verif.PDE.Stokes

/-!
# C61: Stokes potentials and operators
-/

namespace Verif.Stokes

open Verif.PDE (Side)

variable {K N : Type} [Field K]

/-! ## Specification -/

/-- The Stokeslet is symmetric in its two indices and the Stresslet in its three. -/
structure Symm (I : Interp K N) : Prop where
  sl : ∀ d i j, I.G (.stokeslet d i j) = I.G (.stokeslet d j i)
  dl12 : ∀ d i j k, I.G (.stresslet d i j k) = I.G (.stresslet d j i k)
  dl23 : ∀ d i j k, I.G (.stresslet d i j k) = I.G (.stresslet d i k j)

/-- sum over the axes -/
def sumAxes (dim : Nat) (f : Nat → K) : K := ((List.range dim).map f).sum

/-- component `c` of the Stokeslet potential of `σ` (with target derivatives `ds`):
`Σ_i S_{ci}[σ_i]` -/
def slSpec (I : Interp K N) (dim : Nat) (ds : List Nat) (σ : List (Val K N))
    (mu : Val K N) (lim : Lim) (c : Nat) (n : N) : K :=
  sumAxes dim (fun i => I.G (.stokeslet dim c i) ds lim (some mu) (σ.getD i (fun _ => 0)) n)

/-- component `c` of the Stresslet potential: `Σ_{ij} T_{cij}[n_i σ_j]` -/
def dlSpec (I : Interp K N) (dim : Nat) (ds : List Nat) (σ normal : List (Val K N))
    (mu : Val K N) (lim : Lim) (c : Nat) (n : N) : K :=
  sumAxes dim (fun i => sumAxes dim (fun j =>
    I.G (.stresslet dim c i j) ds lim (some mu)
      (fun m => normal.getD i (fun _ => 0) m * σ.getD j (fun _ => 0) m) n))

/-- pressure of the Stresslet potential: `2μ Σ_{ij} ∂_i ∂_j S[σ_i n_j]`, `S` the Laplace
single layer -/
def dlPressureSpec (I : Interp K N) (dim : Nat) (σ normal : List (Val K N))
    (mu : Val K N) (lim : Lim) (n : N) : K :=
  sumAxes dim (fun i => sumAxes dim (fun j => 2 * mu n *
    I.G (.laplace dim) [i, j] lim none
      (fun m => σ.getD i (fun _ => 0) m * normal.getD j (fun _ => 0) m) n))

/-! ## Loops -/

theorem foldlM_accum {ι : Type} (isFirst : ι → Bool) (term : ι → Py (Val K N))
    (f : ι → Val K N) (l : List ι) (hl : ∀ y ∈ l, isFirst y = false)
    (ht : ∀ y ∈ l, term y = .ok (f y)) (a : Val K N) :
    l.foldlM (fun acc i => do accum (isFirst i) acc (← term i)) (some a)
      = (.ok (some (fun n => a n + (l.map (fun y => f y n)).sum)) : Py _) := by
  induction l generalizing a with
  | nil => simp [pure, Except.pure]
  | cons x t ih =>
    rw [List.foldlM_cons, ht x (List.mem_cons_self ..)]
    simp only [bind, Except.bind]
    have hx := hl x (List.mem_cons_self ..)
    have hacc : accum (isFirst x) (some a) (f x) = .ok (some (vadd a (f x))) := by
      rw [hx]
      rfl
    simp only [hacc]
    have := ih (fun y hy => hl y (List.mem_cons_of_mem _ hy))
      (fun y hy => ht y (List.mem_cons_of_mem _ hy)) (vadd a (f x))
    simp only [bind, Except.bind] at this
    rw [this]
    congr 2
    funext n
    simp [vadd, add_assoc]

/-- an accumulation loop computes the sum of its terms -/
theorem accLoop_ok {ι : Type} (isFirst : ι → Bool) (term : ι → Py (Val K N))
    (f : ι → Val K N) (x : ι) (t : List ι) (hx : isFirst x = true)
    (hl : ∀ y ∈ t, isFirst y = false)
    (ht : ∀ y ∈ x :: t, term y = .ok (f y)) :
    accLoop (x :: t) isFirst term
      = .ok (fun n => ((x :: t).map (fun y => f y n)).sum) := by
  unfold accLoop
  have h0 := foldlM_accum isFirst term f t hl
    (fun y hy => ht y (List.mem_cons_of_mem _ hy)) (f x)
  rw [List.foldlM_cons, ht x (List.mem_cons_self ..)]
  simp only [bind, Except.bind, accum, hx, if_true] at h0 ⊢
  rw [h0]
  simp

theorem range_split (dim : Nat) (hd : dim = 2 ∨ dim = 3) :
    ∃ t, List.range dim = 0 :: t ∧ ∀ y ∈ t, decide (y < 1) = false := by
  rcases hd with rfl | rfl
  · exact ⟨[1], rfl, by decide⟩
  · exact ⟨[1, 2], rfl, by decide⟩

theorem pairs_split (dim : Nat) (hd : dim = 2 ∨ dim = 3) :
    ∃ t, pairs dim = (0, 0) :: t ∧ ∀ y ∈ t, decide (y.1 + y.2 < 1) = false := by
  rcases hd with rfl | rfl
  · exact ⟨[(0, 1), (1, 0), (1, 1)], rfl, by decide⟩
  · exact ⟨[(0, 1), (0, 2), (1, 0), (1, 1), (1, 2), (2, 0), (2, 1), (2, 2)], rfl, by decide⟩

theorem mem_pairs {dim : Nat} {p : Nat × Nat} (h : p ∈ pairs dim) :
    p.1 < dim ∧ p.2 < dim := by
  unfold pairs at h
  rw [List.mem_flatMap] at h
  obtain ⟨i, hi, h⟩ := h
  rw [List.mem_map] at h
  obtain ⟨j, hj, rfl⟩ := h
  exact ⟨List.mem_range.1 hi, List.mem_range.1 hj⟩

theorem sum_pairs (dim : Nat) (f : Nat → Nat → K) :
    ((pairs dim).map (fun p => f p.1 p.2)).sum
      = sumAxes dim (fun i => sumAxes dim (fun j => f i j)) := by
  unfold pairs sumAxes
  rw [List.map_flatMap]
  generalize hl : List.range dim = l
  have : ∀ l' : List Nat, (l'.flatMap (fun a =>
      (l.map (fun j => (a, j))).map (fun p => f p.1 p.2))).sum
      = (l'.map (fun i => (l.map (fun j => f i j)).sum)).sum := by
    intro l'
    induction l' with
    | nil => rfl
    | cons a t ih =>
      rw [List.flatMap_cons, List.sum_append, ih, List.map_cons, List.sum_cons]
      congr 1
      rw [List.map_map]
      rfl
  exact this l

theorem idx_ok {α : Type} (l : List α) (i : Nat) (d : α) (h : i < l.length) :
    idx l i = .ok (l.getD i d) := by
  unfold idx
  rw [List.getElem?_eq_getElem h]
  simp [List.getD, h]

theorem mapM_range_ok (dim : Nat) (f : Nat → Py (Val K N)) (g : Nat → Val K N)
    (h : ∀ i < dim, f i = .ok (g i)) :
    (List.range dim).mapM f = .ok ((List.range dim).map g) := by
  have : ∀ l : List Nat, (∀ i ∈ l, f i = .ok (g i)) → l.mapM f = .ok (l.map g) := by
    intro l
    induction l with
    | nil => intro _; rfl
    | cons a t ih =>
      intro hl
      rw [List.mapM_cons, hl a (List.mem_cons_self ..),
        ih (fun i hi => hl i (List.mem_cons_of_mem _ hi))]
      rfl
  exact this _ (fun i hi => h i (List.mem_range.1 hi))

/-! ## Kernel dictionaries -/

/-- the two indices in increasing order -/
def sort2 (i j : Nat) : Nat × Nat := if i ≤ j then (i, j) else (j, i)

/-- the three indices in increasing order -/
def sort3 (i j k : Nat) : Nat × Nat × Nat :=
  let (a, b) := sort2 i j
  if k ≤ a then (k, a, b) else if k ≤ b then (a, k, b) else (a, b, k)

theorem key_stokeslet (dim : Nat) (hd : dim = 2 ∨ dim = 3) (d : List (List Nat × SK))
    (h : stokesletDict dim = .ok d) (c i : Nat) (hc : c < dim) (hi : i < dim) :
    key d (bump (baseCount dim c) i)
      = .ok (.stokeslet dim (sort2 c i).1 (sort2 c i).2) := by
  rcases hd with rfl | rfl
  · cases h
    have : ∀ c, c < 2 → ∀ i, i < 2 → key
        [([2, 0], SK.stokeslet 2 0 0), ([1, 1], .stokeslet 2 0 1), ([0, 2], .stokeslet 2 1 1)]
        (bump (baseCount 2 c) i) = .ok (.stokeslet 2 (sort2 c i).1 (sort2 c i).2) := by
      decide
    exact this c hc i hi
  · cases h
    have : ∀ c, c < 3 → ∀ i, i < 3 → key
        [([2, 0, 0], SK.stokeslet 3 0 0), ([1, 1, 0], .stokeslet 3 0 1),
         ([1, 0, 1], .stokeslet 3 0 2), ([0, 2, 0], .stokeslet 3 1 1),
         ([0, 1, 1], .stokeslet 3 1 2), ([0, 0, 2], .stokeslet 3 2 2)]
        (bump (baseCount 3 c) i) = .ok (.stokeslet 3 (sort2 c i).1 (sort2 c i).2) := by
      decide
    exact this c hc i hi

theorem key_stresslet (dim : Nat) (hd : dim = 2 ∨ dim = 3) (d : List (List Nat × SK))
    (h : stressletDict dim = .ok d) (c i j : Nat) (hc : c < dim) (hi : i < dim)
    (hj : j < dim) :
    key d (bump (bump (baseCount dim c) i) j)
      = .ok (.stresslet dim (sort3 c i j).1 (sort3 c i j).2.1 (sort3 c i j).2.2) := by
  rcases hd with rfl | rfl
  · cases h
    have : ∀ c, c < 2 → ∀ i, i < 2 → ∀ j, j < 2 → key
        [([3, 0], SK.stresslet 2 0 0 0), ([2, 1], .stresslet 2 0 0 1),
         ([1, 2], .stresslet 2 0 1 1), ([0, 3], .stresslet 2 1 1 1)]
        (bump (bump (baseCount 2 c) i) j)
          = .ok (.stresslet 2 (sort3 c i j).1 (sort3 c i j).2.1 (sort3 c i j).2.2) := by
      decide +kernel
    exact this c hc i hi j hj
  · cases h
    have : ∀ c, c < 3 → ∀ i, i < 3 → ∀ j, j < 3 → key
        [([3, 0, 0], SK.stresslet 3 0 0 0), ([2, 1, 0], .stresslet 3 0 0 1),
         ([2, 0, 1], .stresslet 3 0 0 2), ([1, 2, 0], .stresslet 3 0 1 1),
         ([1, 1, 1], .stresslet 3 0 1 2), ([1, 0, 2], .stresslet 3 0 2 2),
         ([0, 3, 0], .stresslet 3 1 1 1), ([0, 2, 1], .stresslet 3 1 1 2),
         ([0, 1, 2], .stresslet 3 1 2 2), ([0, 0, 3], .stresslet 3 2 2 2)]
        (bump (bump (baseCount 3 c) i) j)
          = .ok (.stresslet 3 (sort3 c i j).1 (sort3 c i j).2.1 (sort3 c i j).2.2) := by
      decide +kernel
    exact this c hc i hi j hj

theorem sort2_G {I : Interp K N} (S : Symm I) (d i j : Nat) :
    I.G (.stokeslet d (sort2 i j).1 (sort2 i j).2) = I.G (.stokeslet d i j) := by
  unfold sort2
  split
  · rfl
  · exact S.sl d j i

theorem sort3_G {I : Interp K N} (S : Symm I) (d i j k : Nat) :
    I.G (.stresslet d (sort3 i j k).1 (sort3 i j k).2.1 (sort3 i j k).2.2)
      = I.G (.stresslet d i j k) := by
  unfold sort3 sort2
  split
  · rename_i a b heq
    by_cases hij : i ≤ j
    · rw [if_pos hij] at heq
      cases heq
      split
      · simp only
        rw [S.dl12 d k i j, S.dl23 d i k j]
      · split
        · simp only
          rw [S.dl23 d i k j]
        · rfl
    · rw [if_neg hij] at heq
      cases heq
      split
      · simp only
        rw [S.dl12 d k j i, S.dl23 d j k i, S.dl12 d j i k]
      · split
        · simp only
          rw [S.dl23 d j k i, S.dl12 d j i k]
        · simp only
          rw [S.dl12 d j i k]

theorem stokesletDict_ok (dim : Nat) (hd : dim = 2 ∨ dim = 3) :
    ∃ d, stokesletDict dim = .ok d := by
  rcases hd with rfl | rfl <;> exact ⟨_, rfl⟩

theorem stressletDict_ok (dim : Nat) (hd : dim = 2 ∨ dim = 3) :
    ∃ d, stressletDict dim = .ok d := by
  rcases hd with rfl | rfl <;> exact ⟨_, rfl⟩

/-! ## Potentials -/

/-- **C61.**  In two and three dimensions no key of the kernel dictionaries is ever
missing and `StokesletWrapper.apply` (and `apply_derivative`) is `Σ_i S_{ci}[σ_i]`. -/
theorem C61_stokeslet (I : Interp K N) (S : Symm I) (dim : Nat) (hd : dim = 2 ∨ dim = 3)
    (ds : List Nat) (σ : List (Val K N)) (mu : Val K N) (lim : Lim) (hσ : σ.length = dim) :
    stokesletApply I dim ds σ mu lim
      = .ok ((List.range dim).map (slSpec I dim ds σ mu lim)) := by
  obtain ⟨d, hdict⟩ := stokesletDict_ok dim hd
  unfold stokesletApply
  rw [hdict]
  simp only [bind, Except.bind]
  apply mapM_range_ok
  intro c hc
  obtain ⟨t, ht, hfirst⟩ := range_split dim hd
  unfold slComp
  rw [ht, accLoop_ok _ _
    (fun i => I.G (.stokeslet dim c i) ds lim (some mu) (σ.getD i (fun _ => 0))) 0 t rfl hfirst]
  · unfold slSpec sumAxes
    rw [ht]
  · intro i hi
    rw [← ht, List.mem_range] at hi
    rw [key_stokeslet dim hd d hdict c i hc hi, idx_ok σ i (fun _ => 0) (hσ ▸ hi)]
    simp only [bind, Except.bind, pure, Except.pure]
    rw [sort2_G S]

/-- **C61.**  The Stresslet potential is `Σ_{ij} T_{cij}[n_i σ_j]`. -/
theorem C61_stresslet (I : Interp K N) (S : Symm I) (dim : Nat) (hd : dim = 2 ∨ dim = 3)
    (ds : List Nat) (σ normal : List (Val K N)) (mu : Val K N) (lim : Lim)
    (hσ : σ.length = dim) (hn : normal.length = dim) :
    stressletApply I dim ds σ normal mu lim
      = .ok ((List.range dim).map (dlSpec I dim ds σ normal mu lim)) := by
  obtain ⟨d, hdict⟩ := stressletDict_ok dim hd
  unfold stressletApply
  rw [hdict]
  simp only [bind, Except.bind]
  apply mapM_range_ok
  intro c hc
  obtain ⟨t, ht, hfirst⟩ := pairs_split dim hd
  unfold dlComp
  rw [ht, accLoop_ok _ _
    (fun p => I.G (.stresslet dim c p.1 p.2) ds lim (some mu)
      (fun m => normal.getD p.1 (fun _ => 0) m * σ.getD p.2 (fun _ => 0) m))
    (0, 0) t rfl hfirst]
  · congr 1
    funext n
    rw [← ht]
    exact sum_pairs dim (fun i j => I.G (.stresslet dim c i j) ds lim (some mu)
      (fun m => normal.getD i (fun _ => 0) m * σ.getD j (fun _ => 0) m) n)
  · intro p hp
    rw [← ht] at hp
    obtain ⟨h1, h2⟩ := mem_pairs hp
    rw [key_stresslet dim hd d hdict c p.1 p.2 hc h1 h2,
      idx_ok normal p.1 (fun _ => 0) (hn ▸ h1), idx_ok σ p.2 (fun _ => 0) (hσ ▸ h2)]
    simp only [bind, Except.bind, pure, Except.pure]
    rw [sort3_G S]
    rfl

/-- **C61.**  Stress of the Stokeslet flow in direction `d`: `Σ_{ij} d_i T_{cij}[σ_j]`, the
direction applied at the targets. -/
theorem C61_stokeslet_stress (I : Interp K N) (S : Symm I) (dim : Nat)
    (hd : dim = 2 ∨ dim = 3) (σ dir : List (Val K N)) (mu : Val K N) (lim : Lim)
    (hσ : σ.length = dim) (hn : dir.length = dim) :
    stokesletStress I dim σ dir mu lim
      = .ok ((List.range dim).map (fun c n => sumAxes dim (fun i => sumAxes dim (fun j =>
          dir.getD i (fun _ => 0) n
            * I.G (.stresslet dim c i j) [] lim (some mu) (σ.getD j (fun _ => 0)) n)))) := by
  obtain ⟨d, hdict⟩ := stressletDict_ok dim hd
  obtain ⟨d', hdict'⟩ := stokesletDict_ok dim hd
  unfold stokesletStress
  rw [hdict, hdict']
  simp only [bind, Except.bind]
  apply mapM_range_ok
  intro c hc
  obtain ⟨t, ht, hfirst⟩ := pairs_split dim hd
  unfold slStressComp
  rw [ht, accLoop_ok _ _
    (fun p n => dir.getD p.1 (fun _ => 0) n
      * I.G (.stresslet dim c p.1 p.2) [] lim (some mu) (σ.getD p.2 (fun _ => 0)) n)
    (0, 0) t rfl hfirst]
  · congr 1
    funext n
    rw [← ht]
    exact sum_pairs dim (fun i j => dir.getD i (fun _ => 0) n
      * I.G (.stresslet dim c i j) [] lim (some mu) (σ.getD j (fun _ => 0)) n)
  · intro p hp
    rw [← ht] at hp
    obtain ⟨h1, h2⟩ := mem_pairs hp
    rw [key_stresslet dim hd d hdict c p.1 p.2 hc h1 h2,
      idx_ok dir p.1 (fun _ => 0) (hn ▸ h1), idx_ok σ p.2 (fun _ => 0) (hσ ▸ h2)]
    simp only [bind, Except.bind, pure, Except.pure]
    rw [sort3_G S]
    rfl

/-- **C61.**  Pressures: `Σ_i ∂_i S[σ_i]` for the Stokeslet. -/
theorem C61_stokeslet_pressure (I : Interp K N) (dim : Nat) (hd : dim = 2 ∨ dim = 3)
    (σ : List (Val K N)) (lim : Lim) (hσ : σ.length = dim) :
    stokesletPressure I dim σ lim
      = .ok (fun n => sumAxes dim (fun i =>
          I.G (.laplace dim) [i] lim none (σ.getD i (fun _ => 0)) n)) := by
  obtain ⟨d', hdict'⟩ := stokesletDict_ok dim hd
  unfold stokesletPressure
  rw [hdict']
  simp only [bind, Except.bind]
  obtain ⟨t, ht, hfirst⟩ := range_split dim hd
  have h := accLoop_ok (fun i => decide (i < 1))
    (fun i => do return I.G (.laplace dim) [i] lim none (← idx σ i))
    (fun i => I.G (.laplace dim) [i] lim none (σ.getD i (fun _ => 0))) 0 t rfl hfirst
    (by
      intro i hi
      rw [← ht, List.mem_range] at hi
      rw [idx_ok σ i (fun _ => 0) (hσ ▸ hi)]
      rfl)
  rw [← ht] at h
  exact h

/-- **C61.**  … and `2μ Σ_{ij} ∂_i ∂_j S[σ_i n_j]` for the Stresslet. -/
theorem C61_stresslet_pressure (I : Interp K N) (dim : Nat) (hd : dim = 2 ∨ dim = 3)
    (σ normal : List (Val K N)) (mu : Val K N) (lim : Lim)
    (hσ : σ.length = dim) (hn : normal.length = dim) :
    stressletPressure I dim σ normal mu lim
      = .ok (dlPressureSpec I dim σ normal mu lim) := by
  obtain ⟨d', hdict'⟩ := stressletDict_ok dim hd
  unfold stressletPressure
  rw [hdict']
  simp only [bind, Except.bind]
  obtain ⟨t, ht, hfirst⟩ := pairs_split dim hd
  have h := accLoop_ok (fun p : Nat × Nat => decide (p.1 + p.2 < 1))
    (fun p => do
      return vmul (fun n => 2 * mu n) (I.G (.laplace dim) [p.1, p.2] lim none
        (vmul (← idx σ p.1) (← idx normal p.2))))
    (fun p n => 2 * mu n * I.G (.laplace dim) [p.1, p.2] lim none
      (fun m => σ.getD p.1 (fun _ => 0) m * normal.getD p.2 (fun _ => 0) m) n)
    (0, 0) t rfl hfirst
    (by
      intro p hp
      rw [← ht] at hp
      obtain ⟨h1, h2⟩ := mem_pairs hp
      rw [idx_ok σ p.1 (fun _ => 0) (hσ ▸ h1), idx_ok normal p.2 (fun _ => 0) (hn ▸ h2)]
      rfl)
  rw [← ht] at h
  refine Eq.trans h ?_
  congr 1
  funext n
  exact sum_pairs dim (fun i j => 2 * mu n * I.G (.laplace dim) [i, j] lim none
      (fun m => σ.getD i (fun _ => 0) m * normal.getD j (fun _ => 0) m) n)

theorem mapM_range_ok' {α : Type} (dim : Nat) (f : Nat → Py α) (g : Nat → α)
    (h : ∀ i < dim, f i = .ok (g i)) :
    (List.range dim).mapM f = .ok ((List.range dim).map g) := by
  have : ∀ l : List Nat, (∀ i ∈ l, f i = .ok (g i)) → l.mapM f = .ok (l.map g) := by
    intro l
    induction l with
    | nil => intro _; rfl
    | cons a t ih =>
      intro hl
      rw [List.mapM_cons, hl a (List.mem_cons_self ..),
        ih (fun i hi => hl i (List.mem_cons_of_mem _ hi))]
      rfl
  exact this _ (fun i hi => h i (List.mem_range.1 hi))

/-- **C61.**  Stress of the Stresslet flow: `(-p δ_{cj} + μ (∂_j u_c + ∂_c u_j)) d_j` with
`u` its velocity and `p` its pressure. -/
theorem C61_stresslet_stress (I : Interp K N) (S : Symm I) (dim : Nat)
    (hd : dim = 2 ∨ dim = 3) (σ normal dir : List (Val K N)) (mu : Val K N) (lim : Lim)
    (hσ : σ.length = dim) (hn : normal.length = dim) (hdir : dir.length = dim) :
    stressletStress I dim σ normal dir mu lim
      = .ok ((List.range dim).map (fun c n =>
          - dlPressureSpec I dim σ normal mu lim n * dir.getD c (fun _ => 0) n
          + sumAxes dim (fun j => mu n
              * (dlSpec I dim [j] σ normal mu lim c n + dlSpec I dim [c] σ normal mu lim j n)
              * dir.getD j (fun _ => 0) n))) := by
  unfold stressletStress
  rw [mapM_range_ok' dim _ _
    (fun i _ => C61_stresslet I S dim hd [i] σ normal mu lim hσ hn)]
  simp only [bind, Except.bind]
  apply mapM_range_ok
  intro c hc
  rw [C61_stresslet_pressure I dim hd σ normal mu lim hσ hn]
  simp only
  unfold stressComp
  rw [idx_ok dir c (fun _ => 0) (hdir ▸ hc)]
  simp only [bind, Except.bind]
  have hloop : ∀ (l : List Nat) (_ : ∀ j ∈ l, j < dim) (a : Val K N),
      l.foldlM (stressStep ((List.range dim).map (fun i => (List.range dim).map
          (dlSpec I dim [i] σ normal mu lim))) dir mu c) a
      = (.ok (fun n => a n + (l.map (fun j => mu n
              * (dlSpec I dim [j] σ normal mu lim c n + dlSpec I dim [c] σ normal mu lim j n)
              * dir.getD j (fun _ => 0) n)).sum) : Py (Val K N)) := by
    intro l
    induction l with
    | nil => intro _ a; simp [pure, Except.pure]
    | cons j t ih =>
      intro hl a
      have hj := hl j (List.mem_cons_self ..)
      have e1 : idx ((List.range dim).map (fun i => (List.range dim).map
          (dlSpec I dim [i] σ normal mu lim))) j
          = .ok ((List.range dim).map (dlSpec I dim [j] σ normal mu lim)) := by
        rw [idx_ok _ j [] (by simpa using hj)]
        simp [List.getD, hj]
      have e2 : idx ((List.range dim).map (fun i => (List.range dim).map
          (dlSpec I dim [i] σ normal mu lim))) c
          = .ok ((List.range dim).map (dlSpec I dim [c] σ normal mu lim)) := by
        rw [idx_ok _ c [] (by simpa using hc)]
        simp [List.getD, hc]
      have e3 : idx ((List.range dim).map (dlSpec I dim [j] σ normal mu lim)) c
          = .ok (dlSpec I dim [j] σ normal mu lim c) := by
        rw [idx_ok _ c (fun _ => 0) (by simpa using hc)]
        simp [List.getD, hc]
      have e4 : idx ((List.range dim).map (dlSpec I dim [c] σ normal mu lim)) j
          = .ok (dlSpec I dim [c] σ normal mu lim j) := by
        rw [idx_ok _ j (fun _ => 0) (by simpa using hj)]
        simp [List.getD, hj]
      have hstep : stressStep ((List.range dim).map (fun i => (List.range dim).map
          (dlSpec I dim [i] σ normal mu lim))) dir mu c a j
          = .ok (vadd a (vmul (vmul (dir.getD j (fun _ => 0)) mu)
          (vadd (dlSpec I dim [j] σ normal mu lim c)
            (dlSpec I dim [c] σ normal mu lim j)))) := by
        unfold stressStep
        rw [idx_ok dir j (fun _ => 0) (hdir ▸ hj)]
        simp only [bind, Except.bind, e1, e2, e3, e4, pure, Except.pure]
      rw [List.foldlM_cons, hstep]
      refine (ih (fun y hy => hl y (List.mem_cons_of_mem _ hy)) _).trans ?_
      congr 1
      funext n
      simp only [vadd, vmul, List.map_cons, List.sum_cons]
      ring
  have := hloop (List.range dim) (fun j hj => List.mem_range.1 hj)
    (fun n => - dir.getD c (fun _ => 0) n * dlPressureSpec I dim σ normal mu lim n)
  rw [this]
  congr 1
  funext n
  unfold sumAxes
  ring

/-- **C61.**  Other dimensions are rejected by every entry point. -/
theorem C61_dimension (I : Interp K N) (dim : Nat) (hd : ¬ (dim = 2 ∨ dim = 3))
    (ds : List Nat) (σ normal : List (Val K N)) (mu : Val K N) (lim : Lim) :
    (∃ m, stokesletApply I dim ds σ mu lim = .error m)
    ∧ (∃ m, stressletApply I dim ds σ normal mu lim = .error m)
    ∧ (∃ m, stokesletPressure I dim σ lim = .error m)
    ∧ (∃ m, stokesletStress I dim σ normal mu lim = .error m)
    ∧ (∃ m, stressletPressure I dim σ normal mu lim = .error m) := by
  have h2 : dim ≠ 2 := fun h => hd (Or.inl h)
  have h3 : dim ≠ 3 := fun h => hd (Or.inr h)
  have a : stokesletDict dim = .error "unsupported dimension given to StokesletWrapper" := by
    unfold stokesletDict
    rw [if_neg h2, if_neg h3]
  have b : stressletDict dim = .error "unsupported dimension given to StressletWrapper" := by
    unfold stressletDict
    rw [if_neg h2, if_neg h3]
  have ha : ∀ {α : Type} (f : List (List Nat × SK) → Py α),
      (stokesletDict dim >>= f) = .error "unsupported dimension given to StokesletWrapper" := by
    intro α f
    rw [a]
    rfl
  have hb : ∀ {α : Type} (f : List (List Nat × SK) → Py α),
      (stressletDict dim >>= f) = .error "unsupported dimension given to StressletWrapper" := by
    intro α f
    rw [b]
    rfl
  exact ⟨⟨_, ha _⟩, ⟨_, hb _⟩, ⟨_, ha _⟩, ⟨_, ha _⟩, ⟨_, hb _⟩⟩

/-! ## Exterior operators -/

/-- The jump relation of the Stresslet potential across the surface with normal `normal`:
its exterior value is its average plus half the density. -/
def StressletJump (I : Interp K N) (dim : Nat) (normal : List (Val K N)) (mu : Val K N) :
    Prop :=
  ∀ (σ : List (Val K N)) (c : Nat) (n : N), σ.length = dim → c < dim →
    dlSpec I dim [] σ normal mu (.on .plus) c n
      = dlSpec I dim [] σ normal mu .avg c n + σ.getD c (fun _ => 0) n / 2

theorem zip_range {f : K → K → K} (dim : Nat) (a b : Nat → Val K N) :
    vzip f ((List.range dim).map a) ((List.range dim).map b)
      = (List.range dim).map (fun c n => f (a c n) (b c n)) := by
  unfold vzip
  rw [List.zipWith_map, List.zipWith_self]

theorem list_eq_range_map (σ : List (Val K N)) :
    σ = (List.range σ.length).map (fun c => σ.getD c (fun _ => 0)) := by
  apply List.ext_getElem
  · simp
  · intro i h1 h2
    simp [List.getD, h1]

/-- the Hebeker operator in components -/
theorem hebOp_eq (eta : K) (I : Interp K N) (S : Symm I) (σ normal : List (Val K N))
    (mu : Val K N) (lim : Lim) (hσ : σ.length = 3) (hn : normal.length = 3) :
    hebOp eta I σ normal mu lim = .ok ((List.range 3).map (fun c n =>
      dlSpec I 3 [] σ normal mu lim c n
        + eta * slSpec I 3 [] σ mu (slpLim lim) c n)) := by
  unfold hebOp
  rw [C61_stresslet I S 3 (Or.inr rfl) [] σ normal mu lim hσ hn,
    C61_stokeslet I S 3 (Or.inr rfl) [] σ mu _ hσ]
  simp only [bind, Except.bind, pure, Except.pure]
  rw [zip_range]

/-- **C61, Hebeker.**  `operator(σ)` is the boundary value of `velocity(σ)` from the
exterior; so a solution of `operator(σ) = prepare_rhs(b)` represents a flow with boundary
velocity `b`. -/
theorem C61_hebeker (h2 : (2 : K) ≠ 0) (eta : K) (I : Interp K N) (S : Symm I)
    (σ normal : List (Val K N)) (mu : Val K N) (hσ : σ.length = 3) (hn : normal.length = 3)
    (J : StressletJump I 3 normal mu) :
    ∃ v, hebVelocity eta I σ normal mu (.on .plus) = .ok v ∧ v.length = 3
      ∧ hebOperator eta I σ normal mu = .ok v := by
  have hv : hebVelocity eta I σ normal mu (.on .plus) = .ok ((List.range 3).map (fun c n =>
      - (dlSpec I 3 [] σ normal mu (.on .plus) c n
        + eta * slSpec I 3 [] σ mu (.on .plus) c n))) := by
    unfold hebVelocity
    rw [hebOp_eq eta I S σ normal mu _ hσ hn]
    simp only [bind, Except.bind, pure, Except.pure, slpLim]
    rw [List.map_map]
    rfl
  refine ⟨_, hv, by simp, ?_⟩
  unfold hebOperator
  rw [hebOp_eq eta I S σ normal mu .avg hσ hn]
  simp only [bind, Except.bind, pure, Except.pure, slpLim]
  congr 1
  have hσ' : halfMinus σ ((List.range 3).map (fun c n =>
      dlSpec I 3 [] σ normal mu .avg c n + eta * slSpec I 3 [] σ mu (.on .plus) c n))
      = (List.range 3).map (fun c n => - (1 / 2) * σ.getD c (fun _ => 0) n
        - (dlSpec I 3 [] σ normal mu .avg c n + eta * slSpec I 3 [] σ mu (.on .plus) c n)) := by
    unfold halfMinus
    have h0 := list_eq_range_map σ
    rw [hσ] at h0
    rw [← zip_range (f := fun s o => - (1 / 2) * s - o), ← h0]
  rw [hσ']
  apply List.map_congr_left
  intro c hc
  rw [List.mem_range] at hc
  funext n
  rw [J σ c n hσ hc]
  field_simp
  ring

/-- **C61, Hebeker.**  A solution represents the prescribed boundary velocity. -/
theorem C61_hebeker_solution (h2 : (2 : K) ≠ 0) (eta : K) (I : Interp K N) (S : Symm I)
    (σ normal b v : List (Val K N)) (mu : Val K N) (hσ : σ.length = 3)
    (hn : normal.length = 3) (J : StressletJump I 3 normal mu)
    (hsol : hebOperator eta I σ normal mu = .ok (hebPrepareRhs b))
    (hv : hebVelocity eta I σ normal mu (.on .plus) = .ok v) : v = b := by
  obtain ⟨v', h1, _, h3⟩ := C61_hebeker h2 eta I S σ normal mu hσ hn J
  rw [hv] at h1
  rw [hsol] at h3
  cases h1
  cases h3
  rfl

/-- the density without its mean -/
theorem meanless_length (I : Interp K N) (σ : List (Val K N)) :
    (meanless I σ).length = σ.length := by
  simp [meanless]

theorem hkOp_eq (h : HK K N) (I : Interp K N) (S : Symm I) (σ normal : List (Val K N))
    (mu : Val K N) (lim : Lim) (hσ : σ.length = 2) (hn : normal.length = 2) :
    h.op I σ normal mu lim = .ok ((List.range 2).map (fun c n =>
      dlSpec I 2 [] σ normal mu lim c n
        + h.eta * (h.alpha / (2 * I.pi) * I.integral (σ.getD c (fun _ => 0))
          - slSpec I 2 [] (meanless I σ) mu (slpLim lim) c n))) := by
  unfold HK.op
  rw [C61_stresslet I S 2 (Or.inl rfl) [] σ normal mu lim hσ hn,
    C61_stokeslet I S 2 (Or.inl rfl) [] (meanless I σ) mu _
      (by rw [meanless_length, hσ])]
  simp only [bind, Except.bind, pure, Except.pure]
  have hm : σ.map (fun s (_ : N) => h.alpha / (2 * I.pi) * I.integral s)
      = (List.range 2).map (fun c _ => h.alpha / (2 * I.pi)
          * I.integral (σ.getD c (fun _ => 0))) := by
    conv_lhs => rw [list_eq_range_map σ, hσ]
    rw [List.map_map]
    rfl
  rw [hm, zip_range, zip_range]

theorem hkFar_eq (h : HK K N) (I : Interp K N) (S : Symm I) (mu : Val K N) (lim : Lim)
    (ho : h.omega.length = 2) :
    h.farfield I mu lim = .ok ((List.range 2).map (fun c n =>
      slSpec I 2 [] (h.omega.map (fun w n => - w n / I.integral (fun _ => 1))) mu lim c n))
    := by
  unfold HK.farfield
  exact C61_stokeslet I S 2 (Or.inl rfl) [] _ mu lim (by simpa using ho)

/-- **C61, Hsiao–Kress.**  `operator(σ)` is the boundary value of `velocity(σ)` from the
exterior plus what `prepare_rhs` adds to the right-hand side; so a solution of
`operator(σ) = prepare_rhs(b)` represents a flow with boundary velocity `b`. -/
theorem C61_hsiao_kress (h2 : (2 : K) ≠ 0) (h : HK K N) (I : Interp K N) (S : Symm I)
    (σ normal : List (Val K N)) (mu : Val K N) (hσ : σ.length = 2) (hn : normal.length = 2)
    (ho : h.omega.length = 2) (J : StressletJump I 2 normal mu) :
    ∃ v o, h.velocity I σ normal mu (.on .plus) = .ok v ∧ v.length = 2
      ∧ h.operator I σ normal mu = .ok o ∧ h.prepareRhs I v mu = .ok o := by
  have hv : h.velocity I σ normal mu (.on .plus) = .ok ((List.range 2).map (fun c n =>
      - slSpec I 2 [] (h.omega.map (fun w n => - w n / I.integral (fun _ => 1))) mu
          (.on .plus) c n
      - (dlSpec I 2 [] σ normal mu (.on .plus) c n
        + h.eta * (h.alpha / (2 * I.pi) * I.integral (σ.getD c (fun _ => 0))
          - slSpec I 2 [] (meanless I σ) mu (.on .plus) c n)))) := by
    unfold HK.velocity
    rw [hkFar_eq h I S mu _ ho, hkOp_eq h I S σ normal mu _ hσ hn]
    simp only [bind, Except.bind, pure, Except.pure, slpLim]
    rw [zip_range]
  refine ⟨_, (List.range 2).map (fun c n => - (1 / 2) * σ.getD c (fun _ => 0) n
      - (dlSpec I 2 [] σ normal mu .avg c n
        + h.eta * (h.alpha / (2 * I.pi) * I.integral (σ.getD c (fun _ => 0))
          - slSpec I 2 [] (meanless I σ) mu (.on .plus) c n))), hv, by simp, ?_, ?_⟩
  · unfold HK.operator
    rw [hkOp_eq h I S σ normal mu _ hσ hn]
    simp only [bind, Except.bind, pure, Except.pure, slpLim]
    congr 1
    unfold halfMinus
    have h0 := list_eq_range_map σ
    rw [hσ] at h0
    rw [← zip_range (f := fun s o => - (1 / 2) * s - o), ← h0]
  · unfold HK.prepareRhs
    rw [hkFar_eq h I S mu _ ho]
    simp only [bind, Except.bind, pure, Except.pure]
    congr 1
    rw [zip_range]
    apply List.map_congr_left
    intro c hc
    rw [List.mem_range] at hc
    funext n
    rw [J σ c n hσ hc]
    field_simp
    ring

/-- **C61, Hsiao–Kress.**  The velocity at any limit, away from the surface or on it: minus
the single layer of `-omega` spread over the curve, minus the double layer of `σ`, minus
`eta` times (`alpha/2π ∫σ` minus the single layer of `σ` without its mean). -/
theorem C61_hsiao_kress_velocity (h : HK K N) (I : Interp K N) (S : Symm I)
    (σ normal : List (Val K N)) (mu : Val K N) (lim : Lim) (hσ : σ.length = 2)
    (hn : normal.length = 2) (ho : h.omega.length = 2) :
    h.velocity I σ normal mu lim = .ok ((List.range 2).map (fun c n =>
      - slSpec I 2 [] (h.omega.map (fun w n => - w n / I.integral (fun _ => 1))) mu lim c n
      - (dlSpec I 2 [] σ normal mu lim c n
        + h.eta * (h.alpha / (2 * I.pi) * I.integral (σ.getD c (fun _ => 0))
          - slSpec I 2 [] (σ.map (fun s m => s m - I.integral s / I.integral (fun _ => 1))) mu
              (match lim with | .avg => .on .plus | l => l) c n)))) := by
  unfold HK.velocity
  rw [hkFar_eq h I S mu _ ho, hkOp_eq h I S σ normal mu _ hσ hn]
  simp only [bind, Except.bind, pure, Except.pure]
  rw [zip_range]
  cases lim <;> rfl

/-- **C61, Hsiao–Kress, parameters.**  The constructor's `alpha` and `eta` enter the velocity of the operator as
documented, and leaving either out means 1. -/
theorem C61_hsiao_kress_parameters (omega : List (Val K N)) (alpha eta : Option K) (I : Interp K N) (S : Symm I)
    (σ normal : List (Val K N)) (mu : Val K N) (lim : Lim) (hσ : σ.length = 2)
    (hn : normal.length = 2) (ho : omega.length = 2) :
    (mkHK omega alpha eta).velocity I σ normal mu lim = .ok ((List.range 2).map (fun c n =>
      - slSpec I 2 [] (omega.map (fun w n => - w n / I.integral (fun _ => 1))) mu lim c n
      - (dlSpec I 2 [] σ normal mu lim c n
        + (match eta with | none => 1 | some b => b) *
          ((match alpha with | none => 1 | some a => a) / (2 * I.pi) * I.integral (σ.getD c (fun _ => 0))
          - slSpec I 2 [] (σ.map (fun s m => s m - I.integral s / I.integral (fun _ => 1))) mu
              (match lim with | .avg => .on .plus | l => l) c n)))) := by
  rw [C61_hsiao_kress_velocity (mkHK omega alpha eta) I S σ normal mu lim hσ hn ho]
  cases alpha <;> cases eta <;> rfl

/-- **C61, Hsiao–Kress.**  The density of the single layer part has mean zero, for any
linear integral that does not vanish on constants. -/
theorem C61_hsiao_kress_meanless (I : Interp K N) (σ : List (Val K N))
    (hadd : ∀ f g : Val K N, I.integral (fun n => f n - g n) = I.integral f - I.integral g)
    (hsmul : ∀ c : K, I.integral (fun _ => c) = c * I.integral (fun _ => 1))
    (h1 : I.integral (fun _ => 1) ≠ 0) :
    ∀ t ∈ meanless I σ, I.integral t = 0 := by
  intro t ht
  obtain ⟨s, _, rfl⟩ := List.mem_map.1 ht
  rw [hadd, hsmul]
  field_simp
  ring

/-- **C61, Hsiao–Kress.**  A solution represents the prescribed boundary velocity. -/
theorem C61_hsiao_kress_solution (h2 : (2 : K) ≠ 0) (h : HK K N) (I : Interp K N)
    (S : Symm I) (σ normal b v o : List (Val K N)) (mu : Val K N) (hσ : σ.length = 2)
    (hn : normal.length = 2) (ho : h.omega.length = 2) (hb : b.length = 2)
    (J : StressletJump I 2 normal mu)
    (hop : h.operator I σ normal mu = .ok o) (hsol : h.prepareRhs I b mu = .ok o)
    (hv : h.velocity I σ normal mu (.on .plus) = .ok v) : v = b := by
  obtain ⟨v', o', h1, hl, h3, h4⟩ := C61_hsiao_kress h2 h I S σ normal mu hσ hn ho J
  rw [hv] at h1
  rw [hop] at h3
  cases h1
  cases h3
  unfold HK.prepareRhs at hsol h4
  rw [hkFar_eq h I S mu _ ho] at hsol h4
  simp only [bind, Except.bind, pure, Except.pure] at hsol h4
  have he := (Except.ok.inj hsol).trans (Except.ok.inj h4).symm
  have hb0 := list_eq_range_map b
  have hv0 := list_eq_range_map v
  rw [hb] at hb0
  rw [hl] at hv0
  rw [hb0, hv0, zip_range, zip_range] at he
  rw [hb0, hv0]
  apply List.map_congr_left
  intro c hc
  have hc2 : c < 2 := List.mem_range.1 hc
  have := congrArg (fun l => l[c]?) he
  simp only [List.getElem?_map, List.getElem?_range hc2, Option.map_some,
    Option.some.injEq] at this
  funext n
  exact (add_right_cancel (congrFun this n)).symm

/-! ## The hypotheses can be met -/

/-- one node; a symmetric Stresslet whose potential is the density from outside and zero
on average, for the normal `(1, 0, 0)` -/
def exI : Interp ℚ Unit where
  G k _ lim _ f n :=
    match k, lim with
    | .stresslet _ i j k, .on .plus =>
      if (i = 0 ∧ j = k) ∨ (j = 0 ∧ i = k) ∨ (k = 0 ∧ i = j) then f n / 2 else 0
    | .stokeslet _ _ _, _ => 3 * f n
    | _, _ => 0
  integral f := f ()
  pi := 3

theorem exI_symm : Symm exI := by
  constructor
  · intro d i j
    rfl
  · intro d i j k
    funext ds lim mu f n
    rcases lim with (_ | _) | _ | _ | _ <;> simp only [exI]
    have : ((i = 0 ∧ j = k) ∨ (j = 0 ∧ i = k) ∨ (k = 0 ∧ i = j))
        ↔ ((j = 0 ∧ i = k) ∨ (i = 0 ∧ j = k) ∨ (k = 0 ∧ j = i)) := by
      constructor <;> (rintro (h | h | h) <;> simp_all)
    simp only [this]
  · intro d i j k
    funext ds lim mu f n
    rcases lim with (_ | _) | _ | _ | _ <;> simp only [exI]
    have : ((i = 0 ∧ j = k) ∨ (j = 0 ∧ i = k) ∨ (k = 0 ∧ i = j))
        ↔ ((i = 0 ∧ k = j) ∨ (k = 0 ∧ i = j) ∨ (j = 0 ∧ i = k)) := by
      constructor <;> (rintro (h | h | h) <;> simp_all)
    simp only [this]

theorem exI_jump3 : StressletJump exI 3 [fun _ => 1, fun _ => 0, fun _ => 0] (fun _ => 1) := by
  intro σ c n hσ hc
  match σ, hσ with
  | [a, b, d], _ =>
    have : c = 0 ∨ c = 1 ∨ c = 2 := by omega
    rcases this with rfl | rfl | rfl <;>
      simp [dlSpec, sumAxes, exI, List.range_succ]

theorem exI_jump2 : StressletJump exI 2 [fun _ => 1, fun _ => 0] (fun _ => 1) := by
  intro σ c n hσ hc
  match σ, hσ with
  | [a, b], _ =>
    have : c = 0 ∨ c = 1 := by omega
    rcases this with rfl | rfl <;>
      simp [dlSpec, sumAxes, exI, List.range_succ]

/-- the hypotheses of the Hebeker theorem are met, with a nonzero density -/
example : ∃ v, hebVelocity (3 / 4) exI [fun _ => 1, fun _ => 2, fun _ => 3]
    [fun _ => 1, fun _ => 0, fun _ => 0] (fun _ => 1) (.on .plus) = .ok v :=
  let ⟨v, h, _⟩ := C61_hebeker (by norm_num) (3 / 4) exI exI_symm
    [fun _ => 1, fun _ => 2, fun _ => 3] [fun _ => 1, fun _ => 0, fun _ => 0] (fun _ => 1)
    rfl rfl exI_jump3
  ⟨v, h⟩

/-- … and those of the Hsiao–Kress theorem -/
example : ∃ v o, (mkHK [fun _ => (1 : ℚ), fun _ => 0]).velocity exI
      [fun _ => 1, fun _ => 2] [fun _ => 1, fun _ => 0] (fun _ => 1) (.on .plus) = .ok v
    ∧ (mkHK [fun _ => (1 : ℚ), fun _ => 0]).prepareRhs exI v (fun _ => 1) = .ok o :=
  let ⟨v, o, h, _, _, h'⟩ := C61_hsiao_kress (by norm_num)
    (mkHK [fun _ => (1 : ℚ), fun _ => 0]) exI exI_symm
    [fun _ => 1, fun _ => 2] [fun _ => 1, fun _ => 0] (fun _ => 1) rfl rfl rfl exI_jump2
  ⟨v, o, h, h'⟩

end Verif.Stokes
