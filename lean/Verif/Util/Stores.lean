import Mathlib.Tactic.Common

/-!
# Unordered stores

Loopy/OpenCL kernels execute their stores in no particular order.  A kernel is modelled by the
list of its stores, executed in an arbitrary permutation.
-/

namespace Verif.Util

/-- memory after executing the stores in the given order -/
def runStores {κ β : Type} [DecidableEq κ] : List (κ × β) → (κ → Option β) → κ → Option β
  | [], buf => buf
  | (p, v) :: ws, buf => runStores ws (fun q => if q = p then some v else buf q)

theorem runStores_skip {κ β : Type} [DecidableEq κ] (ws : List (κ × β)) (buf : κ → Option β) (p : κ)
    (h : p ∉ ws.map Prod.fst) : runStores ws buf p = buf p := by
  induction ws generalizing buf with
  | nil => rfl
  | cons w ws ih =>
    obtain ⟨q, v⟩ := w
    simp only [List.map_cons, List.mem_cons, not_or] at h
    rw [runStores, ih _ h.2, if_neg h.1]

/-- if all stores to the same place store the same value, a place stored to has its value -/
theorem runStores_mem' {κ β : Type} [DecidableEq κ] (ws : List (κ × β)) (buf : κ → Option β) (p : κ)
    (v : β) (hfun : ∀ u, (p, u) ∈ ws → u = v) (h : (p, v) ∈ ws ∨ buf p = some v) :
    runStores ws buf p = some v := by
  induction ws generalizing buf with
  | nil =>
    rcases h with h | h
    · cases h
    · exact h
  | cons w ws ih =>
    obtain ⟨q, u⟩ := w
    rw [runStores]
    apply ih
    · intro u' hu'; exact hfun u' (List.mem_cons_of_mem _ hu')
    · by_cases hq : p = q
      · subst hq
        right
        rw [if_pos rfl, hfun u List.mem_cons_self]
      · rcases h with h | h
        · rcases List.mem_cons.1 h with h | h
          · injection h with h1 h2; exact absurd h1 hq
          · exact Or.inl h
        · right; rw [if_neg hq]; exact h

theorem runStores_mem {κ β : Type} [DecidableEq κ] (ws : List (κ × β)) (buf : κ → Option β) (p : κ)
    (v : β) (hnd : (ws.map Prod.fst).Nodup) (h : (p, v) ∈ ws) : runStores ws buf p = some v := by
  apply runStores_mem' ws buf p v ?_ (Or.inl h)
  intro u hu
  induction ws with
  | nil => cases h
  | cons w ws ih =>
    simp only [List.map_cons, List.nodup_cons] at hnd
    rcases List.mem_cons.1 h with h | h <;> rcases List.mem_cons.1 hu with hu | hu
    · rw [← h] at hu; injection hu
    · exact absurd (List.mem_map.2 ⟨(p, u), hu, by rw [← h]⟩) hnd.1
    · exact absurd (List.mem_map.2 ⟨(p, v), h, by rw [← hu]⟩) hnd.1
    · exact ih hnd.2 h hu

/-- any order of the stores gives the same memory -/
theorem runStores_perm {κ β : Type} [DecidableEq κ] (ws ws' : List (κ × β)) (buf : κ → Option β)
    (hnd : (ws'.map Prod.fst).Nodup) (hp : ws.Perm ws') (p : κ) :
    runStores ws buf p = runStores ws' buf p := by
  have hnd' : (ws.map Prod.fst).Nodup := (hp.map Prod.fst).nodup_iff.2 hnd
  by_cases h : p ∈ ws'.map Prod.fst
  · obtain ⟨⟨q, v⟩, hq, rfl⟩ := List.mem_map.1 h
    rw [runStores_mem ws' buf q v hnd hq, runStores_mem ws buf q v hnd' (hp.mem_iff.2 hq)]
  · rw [runStores_skip ws' buf p h, runStores_skip ws buf p]
    intro h'
    exact h ((hp.map Prod.fst).mem_iff.1 h')

end Verif.Util
