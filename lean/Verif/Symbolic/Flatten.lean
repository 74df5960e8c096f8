import Verif.Symbolic.QBXPre
/-!
# Flattening of sums and products (C95)

`_prepare_expr` begins with `componentwise(flatten, expr)` (`pytential/symbolic/execution.py:641`), where `flatten` is
`FlattenMapper().rec_arith` (`mappers.py:379-384`) and `FlattenMapper` combines pytential's `IdentityMapper` with pymbolic's
mapper of the same name: sums are rebuilt with `flattened_sum`, products with `flattened_product`, `x/1` and `x**1` become `x`.
These pymbolic functions are not part of the repository; they are modelled after their documented behaviour (trusted).
-/

namespace Verif.Sym

open Verif.DofDesc

/-! ## Model -/

mutual
/-- number of nodes (measure for the loops) -/
def SE.size : SE → Nat
  | .node _ cs => 1 + sizes cs
/-- same for lists -/
def sizes : List SE → Nat
  | [] => 0
  | c :: l => c.size + sizes l
end

theorem sizes_append : ∀ a b, sizes (a ++ b) = sizes a + sizes b
  | [], b => by simp [sizes]
  | c :: a, b => by simp [sizes, sizes_append a b]; omega

/-- pymbolic's `is_zero` on a constant -/
def isZero : SE → Bool
  | .node (.num q) [] => decide (q = 0)
  | _ => false

/-- `is_zero(x - 1)` on a constant -/
def isOne : SE → Bool
  | .node (.num q) [] => decide (q = 1)
  | _ => false

/-- the terms of a sum, if the expression is a sum -/
def sumArgs : SE → Option (List SE)
  | .node .sum cs => some cs
  | _ => none

/-- the factors of a product, if the expression is a product -/
def prodArgs : SE → Option (List SE)
  | .node .prod cs => some cs
  | _ => none

theorem sumArgs_some {x : SE} {cs : List SE} (h : sumArgs x = some cs) : x = .node .sum cs := by
  cases x with
  | node hd l => cases hd <;> simp_all [sumArgs]

theorem prodArgs_some {x : SE} {cs : List SE} (h : prodArgs x = some cs) : x = .node .prod cs := by
  cases x with
  | node hd l => cases hd <;> simp_all [prodArgs]

/-- Loop of pymbolic's `flattened_sum`: zeros are dropped, the terms of a sum are put at the end of the queue. -/
def sumLoop (queue done : List SE) : List SE :=
  match queue with
  | [] => done
  | x :: q =>
    if isZero x then sumLoop q done
    else match h : sumArgs x with
      | some cs => sumLoop (q ++ cs) done
      | none => sumLoop q (done ++ [x])
termination_by sizes queue
decreasing_by
  all_goals simp_wf
  · cases x with
    | node => simp only [sizes, SE.size]; omega
  · rw [sumArgs_some h, sizes_append]
    simp only [sizes, SE.size]
    omega
  · cases x with
    | node => simp only [sizes, SE.size]; omega

/-- what a list of remaining terms is turned into -/
def mkSum : List SE → SE
  | [] => .node (.num 0) []
  | [x] => x
  | l => .node .sum l

/-- pymbolic's `flattened_sum` -/
def flatSum (terms : List SE) : SE := mkSum (sumLoop terms [])

/-- Loop of pymbolic's `flattened_product`: `none` if a factor is zero; ones are dropped, the factors of a product are put at the
end of the queue. -/
def prodLoop (queue done : List SE) : Option (List SE) :=
  match queue with
  | [] => some done
  | x :: q =>
    if isZero x then none
    else if isOne x then prodLoop q done
    else match h : prodArgs x with
      | some cs => prodLoop (q ++ cs) done
      | none => prodLoop q (done ++ [x])
termination_by sizes queue
decreasing_by
  all_goals simp_wf
  · cases x with
    | node => simp only [sizes, SE.size]; omega
  · rw [prodArgs_some h, sizes_append]
    simp only [sizes, SE.size]
    omega
  · cases x with
    | node => simp only [sizes, SE.size]; omega

/-- what a list of remaining factors is turned into -/
def mkProd : Option (List SE) → SE
  | none => .node (.num 0) []
  | some [] => .node (.num 1) []
  | some [x] => x
  | some l => .node .prod l

/-- pymbolic's `flattened_product` -/
def flatProd (factors : List SE) : SE := mkProd (prodLoop factors [])

/-- `map_quotient` and `map_power` of pymbolic's `FlattenMapper`: `x/1` and `x**1` become `x` -/
def flatOp (f : String) : List SE → SE
  | [a, b] => if (f = "quotient" ∨ f = "power") ∧ isOne b then a else .node (.op f) [a, b]
  | cs => .node (.op f) cs

mutual
/-- `FlattenMapper().rec` (`mappers.py:379-384`, inheriting `IdentityMapper`, `mappers.py:103-200`). -/
def flat : SE → SE
  | .node h cs => match h with
    | .sum => flatSum (flatL cs)
    | .prod => flatProd (flatL cs)
    | .op f => flatOp f (flatL cs)
    | h => .node h (flatL cs)
/-- on children -/
def flatL : List SE → List SE
  | [] => []
  | c :: l => flat c :: flatL l
end

/-! ## Specification -/

/-- a node without obvious redundancy: a sum has at least two terms, none of them zero or a sum; a product at least two
factors, none of them zero, one or a product; nothing is divided by one or raised to the power one -/
def NodeFlat : Head → List SE → Prop
  | .sum, cs => 2 ≤ cs.length ∧ ∀ c ∈ cs, isZero c = false ∧ sumArgs c = none
  | .prod, cs => 2 ≤ cs.length ∧ ∀ c ∈ cs, isZero c = false ∧ isOne c = false ∧ prodArgs c = none
  | .op f, [_, b] => f = "quotient" ∨ f = "power" → isOne b = false
  | _, _ => True

mutual
/-- all nodes are without obvious redundancy -/
def FlatNF : SE → Prop
  | .node h cs => NodeFlat h cs ∧ FlatNFL cs
/-- same for lists -/
def FlatNFL : List SE → Prop
  | [] => True
  | c :: l => FlatNF c ∧ FlatNFL l
end

/-! ## Proofs -/

theorem flatNFL_iff : ∀ {l : List SE}, FlatNFL l ↔ ∀ c ∈ l, FlatNF c
  | [] => by simp [FlatNFL]
  | c :: l => by simp [FlatNFL, flatNFL_iff]

theorem flatL_eq : ∀ l, flatL l = l.map flat
  | [] => rfl
  | c :: l => by simp [flatL, flatL_eq l]

theorem sumLoop_zero {x : SE} {q d : List SE} (hz : isZero x = true) : sumLoop (x :: q) d = sumLoop q d := by
  rw [sumLoop, if_pos hz]

theorem sumLoop_sum {x : SE} {q d cs : List SE} (hz : ¬ isZero x = true) (hs : sumArgs x = some cs) :
    sumLoop (x :: q) d = sumLoop (q ++ cs) d := by
  rw [sumLoop, if_neg hz]
  split
  · rename_i cs' hs'; rw [hs'] at hs; cases hs; rfl
  · rename_i hs'; rw [hs'] at hs; cases hs

theorem sumLoop_other {x : SE} {q d : List SE} (hz : ¬ isZero x = true) (hs : sumArgs x = none) :
    sumLoop (x :: q) d = sumLoop q (d ++ [x]) := by
  rw [sumLoop, if_neg hz]
  split
  · rename_i cs' hs'; rw [hs'] at hs; cases hs
  · rfl

theorem sumLoop_nil (d : List SE) : sumLoop [] d = d := by rw [sumLoop]

theorem prodLoop_nil (d : List SE) : prodLoop [] d = some d := by rw [prodLoop]

theorem prodLoop_zero {x : SE} {q d : List SE} (hz : isZero x = true) : prodLoop (x :: q) d = none := by
  rw [prodLoop, if_pos hz]

theorem prodLoop_none (q d : List SE) (h : ∃ x ∈ q, isZero x = true) : prodLoop q d = none := by
  induction q, d using prodLoop.induct with
  | case1 d => obtain ⟨x, hx, _⟩ := h; cases hx
  | case2 d x q hz => exact prodLoop_zero hz
  | case3 d x q hz ho ih =>
    rw [prodLoop, if_neg hz, if_pos ho]
    obtain ⟨y, hy, h0⟩ := h
    rcases List.mem_cons.1 hy with rfl | hy
    · exact absurd h0 hz
    · exact ih ⟨y, hy, h0⟩
  | case4 d x q hz ho cs hs ih =>
    rw [prodLoop, if_neg hz, if_neg ho]
    obtain ⟨y, hy, h0⟩ := h
    have hq : ∃ y ∈ q ++ cs, isZero y = true := by
      rcases List.mem_cons.1 hy with rfl | hy
      · exact absurd h0 hz
      · exact ⟨y, by simp [hy], h0⟩
    split
    · rename_i cs' hs'; rw [hs'] at hs; cases hs; exact ih hq
    · rename_i hs'; rw [hs'] at hs; cases hs
  | case5 d x q hz ho hs ih =>
    rw [prodLoop, if_neg hz, if_neg ho]
    obtain ⟨y, hy, h0⟩ := h
    have hq : ∃ y ∈ q, isZero y = true := by
      rcases List.mem_cons.1 hy with rfl | hy
      · exact absurd h0 hz
      · exact ⟨y, hy, h0⟩
    split
    · rename_i cs' hs'; rw [hs'] at hs; cases hs
    · exact ih hq

theorem prodLoop_one {x : SE} {q d : List SE} (hz : ¬ isZero x = true) (ho : isOne x = true) :
    prodLoop (x :: q) d = prodLoop q d := by
  rw [prodLoop, if_neg hz, if_pos ho]

theorem prodLoop_prod {x : SE} {q d cs : List SE} (hz : ¬ isZero x = true) (ho : ¬ isOne x = true)
    (hs : prodArgs x = some cs) : prodLoop (x :: q) d = prodLoop (q ++ cs) d := by
  rw [prodLoop, if_neg hz, if_neg ho]
  split
  · rename_i cs' hs'; rw [hs'] at hs; cases hs; rfl
  · rename_i hs'; rw [hs'] at hs; cases hs

theorem prodLoop_other {x : SE} {q d : List SE} (hz : ¬ isZero x = true) (ho : ¬ isOne x = true)
    (hs : prodArgs x = none) : prodLoop (x :: q) d = prodLoop q (d ++ [x]) := by
  rw [prodLoop, if_neg hz, if_neg ho]
  split
  · rename_i cs' hs'; rw [hs'] at hs; cases hs
  · rfl

/-- every remaining term is a given one, or a term of a given sum, and so on -/
theorem sumLoop_all {P : SE → Prop} (hP : ∀ cs, P (.node .sum cs) → ∀ c ∈ cs, P c) (q d : List SE)
    (hq : ∀ x ∈ q, P x) (hd : ∀ x ∈ d, P x) : ∀ x ∈ sumLoop q d, P x := by
  induction q, d using sumLoop.induct with
  | case1 d => rw [sumLoop_nil]; exact hd
  | case2 d x q hz ih => rw [sumLoop_zero hz]; exact ih (fun y hy => hq y (by simp [hy])) hd
  | case3 d x q hz cs hs ih =>
    rw [sumLoop_sum hz hs]
    refine ih ?_ hd
    intro y hy
    rcases List.mem_append.1 hy with hy | hy
    · exact hq y (by simp [hy])
    · exact hP cs (by rw [← sumArgs_some hs]; exact hq x (by simp)) y hy
  | case4 d x q hz hs ih =>
    rw [sumLoop_other hz hs]
    refine ih (fun y hy => hq y (by simp [hy])) ?_
    intro y hy
    rcases List.mem_append.1 hy with hy | hy
    · exact hd y hy
    · simp only [List.mem_singleton] at hy; subst hy; exact hq y (by simp)

theorem sumLoop_clean (q d : List SE) (hd : ∀ x ∈ d, isZero x = false ∧ sumArgs x = none) :
    ∀ x ∈ sumLoop q d, isZero x = false ∧ sumArgs x = none := by
  induction q, d using sumLoop.induct with
  | case1 d => rw [sumLoop_nil]; exact hd
  | case2 d x q hz ih => rw [sumLoop_zero hz]; exact ih hd
  | case3 d x q hz cs hs ih => rw [sumLoop_sum hz hs]; exact ih hd
  | case4 d x q hz hs ih =>
    rw [sumLoop_other hz hs]
    refine ih ?_
    intro y hy
    rcases List.mem_append.1 hy with hy | hy
    · exact hd y hy
    · simp only [List.mem_singleton] at hy; subst hy; exact ⟨by simpa using hz, hs⟩

theorem sumLoop_id (q d : List SE) (hq : ∀ x ∈ q, isZero x = false ∧ sumArgs x = none) :
    sumLoop q d = d ++ q := by
  induction q generalizing d with
  | nil => rw [sumLoop_nil]; simp
  | cons x q ih =>
    have h := hq x (by simp)
    rw [sumLoop_other (by simp [h.1]) h.2, ih _ (fun y hy => hq y (by simp [hy]))]; simp

theorem prodLoop_all {P : SE → Prop} (hP : ∀ cs, P (.node .prod cs) → ∀ c ∈ cs, P c) (q d : List SE)
    (hq : ∀ x ∈ q, P x) (hd : ∀ x ∈ d, P x) : ∀ l, prodLoop q d = some l → ∀ x ∈ l, P x := by
  induction q, d using prodLoop.induct with
  | case1 d => intro l hl; rw [prodLoop_nil] at hl; cases hl; exact hd
  | case2 d x q hz => intro l hl; rw [prodLoop_zero hz] at hl; cases hl
  | case3 d x q hz ho ih =>
    rw [prodLoop_one hz ho]
    exact ih (fun y hy => hq y (by simp [hy])) hd
  | case4 d x q hz ho cs hs ih =>
    rw [prodLoop_prod hz ho hs]
    refine ih ?_ hd
    intro y hy
    rcases List.mem_append.1 hy with hy | hy
    · exact hq y (by simp [hy])
    · exact hP cs (by rw [← prodArgs_some hs]; exact hq x (by simp)) y hy
  | case5 d x q hz ho hs ih =>
    rw [prodLoop_other hz ho hs]
    refine ih (fun y hy => hq y (by simp [hy])) ?_
    intro y hy
    rcases List.mem_append.1 hy with hy | hy
    · exact hd y hy
    · simp only [List.mem_singleton] at hy; subst hy; exact hq y (by simp)

theorem prodLoop_clean (q d : List SE) (hd : ∀ x ∈ d, isZero x = false ∧ isOne x = false ∧ prodArgs x = none) :
    ∀ l, prodLoop q d = some l → ∀ x ∈ l, isZero x = false ∧ isOne x = false ∧ prodArgs x = none := by
  induction q, d using prodLoop.induct with
  | case1 d => intro l hl; rw [prodLoop_nil] at hl; cases hl; exact hd
  | case2 d x q hz => intro l hl; rw [prodLoop_zero hz] at hl; cases hl
  | case3 d x q hz ho ih => rw [prodLoop_one hz ho]; exact ih hd
  | case4 d x q hz ho cs hs ih => rw [prodLoop_prod hz ho hs]; exact ih hd
  | case5 d x q hz ho hs ih =>
    rw [prodLoop_other hz ho hs]
    refine ih ?_
    intro y hy
    rcases List.mem_append.1 hy with hy | hy
    · exact hd y hy
    · simp only [List.mem_singleton] at hy; subst hy; exact ⟨by simpa using hz, by simpa using ho, hs⟩

theorem prodLoop_id (q d : List SE) (hq : ∀ x ∈ q, isZero x = false ∧ isOne x = false ∧ prodArgs x = none) :
    prodLoop q d = some (d ++ q) := by
  induction q generalizing d with
  | nil => rw [prodLoop_nil]; simp
  | cons x q ih =>
    have h := hq x (by simp)
    rw [prodLoop_other (by simp [h.1]) (by simp [h.2.1]) h.2.2, ih _ (fun y hy => hq y (by simp [hy]))]; simp

/-- C95 (normal form): in a flattened expression no sum has a term that is zero or a sum, no product has a factor that is zero, one
or a product, sums and products have at least two operands, and nothing is divided by one or raised to the power one, at any depth. -/
theorem C95_normal : ∀ e, FlatNF (flat e) := by
  apply SE.ind
  intro h cs ih
  have hl : ∀ c ∈ flatL cs, FlatNF c := by
    rw [flatL_eq]
    intro c hc
    obtain ⟨d, hd, rfl⟩ := List.mem_map.1 hc
    exact ih d hd
  cases h with
  | sum =>
    simp only [flat, flatSum]
    have h1 := sumLoop_all (P := FlatNF) (fun cs h c hc => flatNFL_iff.1 h.2 c hc) (flatL cs) [] hl (by simp)
    have h2 := sumLoop_clean (flatL cs) [] (by simp)
    generalize sumLoop (flatL cs) [] = l at h1 h2
    match l with
    | [] => simp [mkSum, FlatNF, NodeFlat, FlatNFL]
    | [x] => exact h1 x (by simp)
    | a :: b :: l => exact ⟨⟨by simp, h2⟩, flatNFL_iff.2 h1⟩
  | prod =>
    simp only [flat, flatProd]
    have h1 := prodLoop_all (P := FlatNF) (fun cs h c hc => flatNFL_iff.1 h.2 c hc) (flatL cs) [] hl (by simp)
    have h2 := prodLoop_clean (flatL cs) [] (by simp)
    generalize prodLoop (flatL cs) [] = l at h1 h2
    match l with
    | none => simp [mkProd, FlatNF, NodeFlat, FlatNFL]
    | some [] => simp [mkProd, FlatNF, NodeFlat, FlatNFL]
    | some [x] => exact h1 _ rfl x (by simp)
    | some (a :: b :: l) => exact ⟨⟨by simp, h2 _ rfl⟩, flatNFL_iff.2 (h1 _ rfl)⟩
  | op f =>
    simp only [flat]
    generalize flatL cs = l at hl
    match l with
    | [] => simp [flatOp, FlatNF, NodeFlat, FlatNFL]
    | [a] => exact ⟨trivial, flatNFL_iff.2 hl⟩
    | [a, b] =>
      simp only [flatOp]
      split
      · exact hl a (by simp)
      · rename_i hn
        refine ⟨?_, flatNFL_iff.2 hl⟩
        intro hf
        simpa using fun hb => hn ⟨hf, hb⟩
    | a :: b :: c :: l => exact ⟨trivial, flatNFL_iff.2 hl⟩
  | _ => exact ⟨trivial, flatNFL_iff.2 hl⟩

/-- C95 (nothing else changes): an expression that is already in this form is returned unchanged. -/
theorem C95_unchanged : ∀ e, FlatNF e → flat e = e := by
  apply SE.ind
  intro h cs ih hn
  obtain ⟨hh, hc⟩ := hn
  have hl : flatL cs = cs := by
    rw [flatL_eq]
    conv => rhs; rw [← List.map_id cs]
    exact List.map_congr_left fun c hm => ih c hm (flatNFL_iff.1 hc c hm)
  cases h with
  | sum =>
    simp only [NodeFlat] at hh
    simp only [flat, flatSum, hl, sumLoop_id cs [] hh.2, List.nil_append]
    match cs, hh.1 with
    | a :: b :: l, _ => rfl
  | prod =>
    simp only [NodeFlat] at hh
    simp only [flat, flatProd, hl, prodLoop_id cs [] hh.2, List.nil_append]
    match cs, hh.1 with
    | a :: b :: l, _ => rfl
  | op f =>
    simp only [flat, hl]
    match cs with
    | [] => rfl
    | [a] => rfl
    | [a, b] =>
      simp only [flatOp]
      rw [if_neg]
      rintro ⟨hf, hb⟩
      have := hh hf
      rw [this] at hb; cases hb
    | a :: b :: c :: l => rfl
  | _ => simp only [flat, hl]

/-- C95 (idempotence): flattening twice is flattening once. -/
theorem C95_idempotent (e : SE) : flat (flat e) = flat e := C95_unchanged _ (C95_normal e)

/-- non-vacuity of `C95_unchanged`: `2*x + y/z` -/
example : FlatNF (.node .sum [.node .prod [.node (.num 2) [], .node (.var "x") []],
    .node (.op "quotient") [.node (.var "y") [], .node (.var "z") []]]) := by
  simp [FlatNF, FlatNFL, NodeFlat, isZero, isOne, sumArgs, prodArgs]

/-- `(x + (0 + y)) + 1*(1*z)` becomes `1*(1*z) → z` and `x + y` at the end: `z + x + y` -/
example : flat (.node .sum [.node .sum [.node (.var "x") [], .node .sum [.node (.num 0) [], .node (.var "y") []]],
    .node .prod [.node (.num 1) [], .node .prod [.node (.num 1) [], .node (.var "z") []]]]) =
    .node .sum [.node (.var "z") [], .node (.var "x") [], .node (.var "y") []] := by
  simp [flat, flatL, flatSum, flatProd, sumLoop, prodLoop, mkSum, mkProd, isZero, isOne, sumArgs, prodArgs]

end Verif.Sym
