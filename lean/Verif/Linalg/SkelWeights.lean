import Mathlib.Algebra.Order.Field.Rat
import Mathlib.Algebra.Order.BigOperators.Group.List
import Mathlib.Tactic.Linarith
import Mathlib.Tactic.FieldSimp
import Verif.Linalg.SkelError

/-!
# Skeletonization wranglers, weights and blocks (C71)

Model of `make_skeletonization_wrangler`, the four `evaluate_*_interaction` methods of `SkeletonizationWrangler`,
`_approximate_geometry_waa_magnitude`, `_apply_weights` and `skeletonize_by_proxy`
(`pytential/linalg/skeletonization.py:122-498`, `770-840`) and `_prepare_domains`
(`pytential/symbolic/execution.py:573-595`).

Symbolic expressions `E`, densities `I`, names of geometries with discretization stage `G` and cluster matrix builder
classes `B` are opaque.  Numbers are rationals, or `none` for NaN.
-/

namespace Verif.SkelWeights
open Verif.Offsets Verif.IndexList Verif.Skeleton Verif.SkelError

/-! ## construction -/

/-- what can be passed as `_weighted_proxy` -/
inductive WeightArg | none | bool (b : Bool) | tuple (bs : List Bool) | other

/-- `(weighted_sources, weighted_targets)` (`skeletonization.py:447-454`); unpacking a tuple of another length than two
raises `ValueError` as well -/
def weightFlags : WeightArg → Except SErr (Bool × Bool)
  | .none => .ok (true, true)
  | .bool b => .ok (b, b)
  | .tuple [s, t] => .ok (s, t)
  | .tuple _ => .error .value
  | .other => .error .value

/-- what can be passed as `domains` -/
inductive DomArg (G : Type) | none | one (g : G) | many (gs : List G)

/-- `_prepare_domains` (`execution.py:589-595`) -/
def prepareDomains {G : Type} (n : Nat) (dflt : G) : DomArg G → Except SErr (List G)
  | .none => .ok (List.replicate n dflt)
  | .one g => .ok (List.replicate n g)
  | .many gs => if gs.length = n then .ok gs else .error .assertion

/-- a single object or a sequence of them (`skeletonization.py:423-431`) -/
inductive OneOrMany (α : Type) | one (a : α) | many (as : List α)

/-- the members, as `for x in …` over the tuple made of them -/
def OneOrMany.toList {α : Type} : OneOrMany α → List α
  | .one a => [a]
  | .many as => as

/-- the expression rewriting of `direct_solver_symbolic.py:64-91` and the names of the two proxy geometries -/
structure Prep (E G : Type) where
  expr : G × G → E → E
  proxy : G × G → E → E
  pxySource : G
  pxyTarget : G

/-- `SkeletonizationWrangler` (`skeletonization.py:187-262`) -/
structure Config (E I G B : Type) where
  exprs : List E
  sourceProxyExprs : List E
  targetProxyExprs : List E
  inputs : List I
  domains : List G
  weightedSources : Bool
  weightedTargets : Bool
  neighborBuilder : B
  sourceProxyBuilder : B
  targetProxyBuilder : B

variable {E I G B : Type}

/-- `make_skeletonization_wrangler` (`skeletonization.py:402-498`); `auto` is the pair of default source and target
geometry -/
def makeWrangler (P : Prep E G) (p2p qbx : B) (exprs : OneOrMany E) (inputs : OneOrMany I) (domains : DomArg G)
    (auto : G × G) (w : WeightArg) (bSrc bTgt bNbr : Option B) : Except SErr (Config E I G B) := do
  let doms ← prepareDomains inputs.toList.length auto.1 domains
  let ws ← weightFlags w
  pure
    { exprs := exprs.toList.map (P.expr auto)
      sourceProxyExprs := (exprs.toList.map (P.expr auto)).map (P.proxy (auto.1, P.pxyTarget))
      targetProxyExprs := (exprs.toList.map (P.expr auto)).map (P.proxy (P.pxySource, auto.2))
      inputs := inputs.toList
      domains := doms
      weightedSources := ws.1
      weightedTargets := ws.2
      neighborBuilder := bNbr.getD qbx
      sourceProxyBuilder := bSrc.getD p2p
      targetProxyBuilder := bTgt.getD qbx }

/-! ## evaluation -/

/-- one use of a cluster matrix builder: `eval_mapper_cls(...)(expr)` (`skeletonization.py:295-310`).  `added` is the
geometry added to the collection for it, `excludeSelf` the keyword argument, if given -/
structure Call (E I G B : Type) where
  builder : B
  dep : I
  others : List I
  domain : G
  added : Option G
  index : TSList
  expr : E
  weighted : Bool
  excludeSelf : Option Bool

/-- `_evaluate_expr` (`skeletonization.py:284-310`) -/
def evaluateExpr (c : Config E I G B) (b : B) (added : Option G) (index : TSList) (e : E) (idomain : Nat)
    (weighted : Bool) (ex : Option Bool) : Except SErr (Call E I G B) := do
  let domain ← getAt c.domains idomain
  let dep ← getAt c.inputs idomain
  pure ⟨b, dep, c.inputs.take idomain ++ c.inputs.drop (idomain + 1), domain, added, index, e, weighted, ex⟩

/-- `evaluate_source_neighbor_interaction` (`skeletonization.py:314-329`) -/
def sourceNeighbor (c : Config E I G B) (clusters nbr : IList) (ibrow ibcol : Nat) : Except SErr (Call E I G B) := do
  let index ← lift (mkTS nbr clusters)
  let e ← getAt c.exprs ibrow
  evaluateExpr c c.neighborBuilder none index e ibcol c.weightedSources none

/-- `evaluate_target_neighbor_interaction` (`skeletonization.py:331-346`) -/
def targetNeighbor (c : Config E I G B) (clusters nbr : IList) (ibrow ibcol : Nat) : Except SErr (Call E I G B) := do
  let index ← lift (mkTS clusters nbr)
  let e ← getAt c.exprs ibrow
  evaluateExpr c c.neighborBuilder none index e ibcol c.weightedTargets none

/-- `evaluate_source_proxy_interaction` (`skeletonization.py:352-373`) -/
def sourceProxy (P : Prep E G) (c : Config E I G B) (clusters pxy : IList) (ibrow ibcol : Nat) :
    Except SErr (Call E I G B) := do
  let index ← lift (mkTS pxy clusters)
  let e ← getAt c.sourceProxyExprs ibrow
  evaluateExpr c c.sourceProxyBuilder (some P.pxyTarget) index e ibcol c.weightedSources (some false)

/-- the builder call of `evaluate_target_proxy_interaction` (`skeletonization.py:375-393`) -/
def targetProxy (P : Prep E G) (c : Config E I G B) (clusters pxy : IList) (ibrow ibcol : Nat) :
    Except SErr (Call E I G B) := do
  let index ← lift (mkTS clusters pxy)
  let e ← getAt c.targetProxyExprs ibrow
  evaluateExpr c c.targetProxyBuilder (some P.pxySource) index e ibcol false (some false)

/-! ## weights -/

/-- the kernel of `_approximate_geometry_waa_magnitude` (`skeletonization.py:121-168`) for one cluster: sum divided by
number, which is 0/0 for an empty cluster.  Reads outside of the weights, which are not checked, give zero here -/
def waaMean (waa : List ℚ) (l : IList) (i : Nat) : Option ℚ :=
  let c := slice l.indices (l.start i) (l.start (i + 1))
  if c.length = 0 then none else some ((c.map fun k => waa.getD k 0).sum / c.length)

/-- `x * w` where either may be NaN -/
def fmul : Option ℚ → Option ℚ → Option ℚ
  | some x, some w => some (x * w)
  | _, _ => none

/-- `result[istart:iend] = mat[istart:iend] * w` -/
def scaleRange (mat result : List (Option ℚ)) (a b : Nat) (w : Option ℚ) : List (Option ℚ) :=
  (List.range result.length).map fun p => if a ≤ p ∧ p < b then fmul (mat.getD p none) w else result.getD p none

/-- body of the loop of `_apply_weights` (`skeletonization.py:192-194`) -/
def weightStep (mat : List (Option ℚ)) (index : TSList) (w : Nat → Option ℚ) (result : List (Option ℚ)) (i : Nat) :
    Except SErr (List (Option ℚ)) :=
  match slice index.flatStarts i (i + 2) with
  | [a, b] => .ok (scaleRange mat result a b (w i))
  | _ => .error .value

/-- `_apply_weights` (`skeletonization.py:173-196`) -/
def applyWeights (waa : List ℚ) (mat : List (Option ℚ)) (index : TSList) (clusters : IList) :
    Except SErr (List (Option ℚ)) :=
  if index.targets.nclusters ≠ clusters.nclusters then .error .assertion
  else (List.range index.n).foldlM (weightStep mat index (waaMean waa clusters)) (List.replicate mat.length (some 0))

/-- all of `evaluate_target_proxy_interaction` (`skeletonization.py:375-398`): `run` evaluates a builder call, `waa`
gives the weights and area elements of a geometry -/
def targetProxyMat (P : Prep E G) (c : Config E I G B) (run : Call E I G B → List (Option ℚ)) (waa : G → List ℚ)
    (clusters pxy nbr : IList) (ibrow ibcol : Nat) : Except SErr (List (Option ℚ) × TSList) := do
  let call ← targetProxy P c clusters pxy ibrow ibcol
  if c.weightedTargets then do
    let m ← applyWeights (waa call.domain) (run call) call.index nbr
    pure (m, call.index)
  else pure (run call, call.index)

/-- the assertion that `hstack`ed proxy and neighbor interactions are finite (`skeletonization.py:650-654`), for the
proxy interactions -/
def checkFinite (m : List (Option ℚ)) : Except SErr Unit :=
  if m.all Option.isSome then .ok () else .error .assertion

/-! ## blocks -/

/-- one row of blocks -/
def rowBlocks {α : Type} (blk : Nat → Nat → Except SErr α) (i : Nat) : List Nat → Except SErr (List α)
  | [] => .ok []
  | j :: js => do
    let b ← blk i j
    let bs ← rowBlocks blk i js
    pure (b :: bs)

/-- the double loop of `skeletonize_by_proxy` (`skeletonization.py:770-829`) -/
def allBlocks {α : Type} (blk : Nat → Nat → Except SErr α) (ncols : Nat) : List Nat → Except SErr (List (List α))
  | [] => .ok []
  | i :: is => do
    let r ← rowBlocks blk i (List.range ncols)
    let rs ← allBlocks blk ncols is
    pure (r :: rs)

/-- `skeletonize_by_proxy` (`skeletonization.py:770-840`); `auto` is the default of the collection, which cannot be
overridden here, and `blk` skeletonizes one block -/
def skeletonizeByProxy {α : Type} (P : Prep E G) (p2p qbx : B) (exprs : OneOrMany E) (inputs : OneOrMany I)
    (domains : DomArg G) (auto : G × G) (blk : Config E I G B → Nat → Nat → Except SErr α) :
    Except SErr (List (List α)) := do
  let c ← makeWrangler P p2p qbx exprs inputs domains auto .none none none none
  allBlocks (blk c) c.inputs.length (List.range c.exprs.length)

/-- the geometry with whose points proxies and neighbors of the source and of the target clusters of block
`ibrow, ibcol` are found: the same for both (`skeletonization.py:613-617`, `583-587`) -/
def proxyGeometry (c : Config E I G B) (_ibrow ibcol : Nat) : Except SErr (G × G) := do
  let d ← getAt c.domains ibcol
  pure (d, d)

/-! ## theorems: construction -/

/-- **C71**: weighting is on for sources and targets unless a flag, or a pair of flags, says otherwise; anything else
raises `ValueError`. -/
theorem C71_flags (w : WeightArg) :
    (w = .none → weightFlags w = .ok (true, true)) ∧
    (∀ b, w = .bool b → weightFlags w = .ok (b, b)) ∧
    (∀ s t, w = .tuple [s, t] → weightFlags w = .ok (s, t)) ∧
    (∀ l, w = .tuple l → l.length ≠ 2 → weightFlags w = .error .value) ∧
    (w = .other → weightFlags w = .error .value) := by
  refine ⟨?_, ?_, ?_, ?_, ?_⟩
  · rintro rfl; rfl
  · rintro b rfl; rfl
  · rintro s t rfl; rfl
  · rintro l rfl hl
    match l with
    | [] => rfl
    | [_] => rfl
    | [_, _] => simp at hl
    | _ :: _ :: _ :: _ => rfl
  · rintro rfl; rfl

/-- **C71**: each density has a domain: the default source geometry if none is given, the one that is given, or the one
at the same place of the list; a list of another length is refused. -/
theorem C71_domains (n : Nat) (dflt : G) (d : DomArg G) :
    (∀ l, prepareDomains n dflt d = .ok l → l.length = n ∧
      (d = .none → ∀ g ∈ l, g = dflt) ∧ (∀ g, d = .one g → ∀ g' ∈ l, g' = g) ∧ (∀ gs, d = .many gs → l = gs)) ∧
    ((∃ e, prepareDomains n dflt d = .error e) ↔ ∃ gs, d = .many gs ∧ gs.length ≠ n) := by
  cases d with
  | none =>
    refine ⟨?_, ?_⟩
    · intro l h
      injection h with h
      subst h
      exact ⟨by simp, fun _ g hg => (List.mem_replicate.1 hg).2, (by intro g h; cases h), (by intro g h; cases h)⟩
    · constructor
      · rintro ⟨e, h⟩; cases h
      · rintro ⟨gs, h, -⟩; cases h
  | one g =>
    refine ⟨?_, ?_⟩
    · intro l h
      injection h with h
      subst h
      refine ⟨by simp, (by intro h; cases h), ?_, (by intro g h; cases h)⟩
      intro g' h g'' hg
      injection h with h
      exact (List.mem_replicate.1 hg).2.trans h
    · constructor
      · rintro ⟨e, h⟩; cases h
      · rintro ⟨gs, h, -⟩; cases h
  | many gs =>
    unfold prepareDomains
    by_cases hl : gs.length = n
    · simp only [if_pos hl]
      refine ⟨?_, ?_⟩
      · intro l h
        injection h with h
        subst h
        refine ⟨hl, (by intro h; cases h), (by intro g h; cases h), ?_⟩
        intro gs' h
        injection h
      · constructor
        · rintro ⟨e, h⟩; cases h
        · rintro ⟨gs', h, hne⟩
          injection h with h
          exact absurd (h ▸ hl) hne
    · simp only [if_neg hl]
      refine ⟨?_, ?_⟩
      · intro l h; cases h
      · exact ⟨fun _ => ⟨gs, rfl, hl⟩, fun _ => ⟨_, rfl⟩⟩

/-- **C71**: a wrangler has one prepared expression and one expression for each kind of proxies per expression given,
one domain per density, weights both sides by default, and evaluates neighbors with QBX, source proxies pointwise and
target proxies with QBX unless told otherwise. -/
theorem C71_make (P : Prep E G) (p2p qbx : B) (exprs : OneOrMany E) (inputs : OneOrMany I) (domains : DomArg G)
    (auto : G × G) (w : WeightArg) (bSrc bTgt bNbr : Option B) (c : Config E I G B)
    (h : makeWrangler P p2p qbx exprs inputs domains auto w bSrc bTgt bNbr = .ok c) :
    c.inputs = inputs.toList ∧ c.domains.length = c.inputs.length ∧
    c.exprs.length = exprs.toList.length ∧
    (∀ (i : Nat) (e : E), exprs.toList[i]? = some e → c.exprs[i]? = some (P.expr auto e) ∧
      c.sourceProxyExprs[i]? = some (P.proxy (auto.1, P.pxyTarget) (P.expr auto e)) ∧
      c.targetProxyExprs[i]? = some (P.proxy (P.pxySource, auto.2) (P.expr auto e))) ∧
    weightFlags w = .ok (c.weightedSources, c.weightedTargets) ∧
    prepareDomains inputs.toList.length auto.1 domains = .ok c.domains ∧
    (bNbr = none → c.neighborBuilder = qbx) ∧ (∀ b, bNbr = some b → c.neighborBuilder = b) ∧
    (bSrc = none → c.sourceProxyBuilder = p2p) ∧ (∀ b, bSrc = some b → c.sourceProxyBuilder = b) ∧
    (bTgt = none → c.targetProxyBuilder = qbx) ∧ (∀ b, bTgt = some b → c.targetProxyBuilder = b) := by
  unfold makeWrangler at h
  rw [bind_ok] at h
  obtain ⟨doms, h1, h⟩ := h
  rw [bind_ok] at h
  obtain ⟨ws, h2, h⟩ := h
  injection h with h
  subst h
  refine ⟨rfl, ?_, by simp, ?_, h2, h1, ?_, ?_, ?_, ?_, ?_, ?_⟩
  · exact ((C71_domains _ _ _).1 _ h1).1
  · intro i e he
    simp [he]
  all_goals first | (rintro rfl; rfl) | (rintro b rfl; rfl)

example : ∃ c : Config Nat Nat Nat Nat, makeWrangler ⟨fun _ e => e + 1, fun g e => e + 10 * g.1 + 100 * g.2, 8, 9⟩ 0 1 (.many [1, 2])
    (.one 5) .none (3, 4) (.tuple [true, false]) none none none = .ok c ∧ c.domains = [3] ∧ c.weightedTargets = false ∧
    c.targetProxyExprs = [482, 483] := ⟨_, rfl, rfl, rfl, rfl⟩

/-! ## theorems: evaluation -/

theorem getAt_ok {α : Type} {l : List α} {i : Nat} {a : α} : getAt l i = .ok a ↔ l[i]? = some a := by
  unfold getAt
  cases h : l[i]? with
  | none => simp
  | some b => simp

/-- what all four evaluations have in common: the density of the column and its domain, the other densities as such -/
def Evaluates (c : Config E I G B) (ibcol : Nat) (k : Call E I G B) : Prop :=
  c.inputs[ibcol]? = some k.dep ∧ c.domains[ibcol]? = some k.domain ∧ k.others = c.inputs.eraseIdx ibcol

theorem evaluateExpr_ok (c : Config E I G B) (b : B) (added : Option G) (index : TSList) (e : E) (idomain : Nat)
    (w : Bool) (ex : Option Bool) (k : Call E I G B) (h : evaluateExpr c b added index e idomain w ex = .ok k) :
    Evaluates c idomain k ∧ k.builder = b ∧ k.added = added ∧ k.index = index ∧ k.expr = e ∧ k.weighted = w ∧
      k.excludeSelf = ex := by
  unfold evaluateExpr at h
  rw [bind_ok] at h
  obtain ⟨d, h1, h⟩ := h
  rw [bind_ok] at h
  obtain ⟨dep, h2, h⟩ := h
  injection h with h
  subst h
  exact ⟨⟨getAt_ok.1 h2, getAt_ok.1 h1, (List.eraseIdx_eq_take_drop_succ _ _).symm⟩, rfl, rfl, rfl, rfl, rfl, rfl⟩

/-- **C71**: all four interactions of a block are evaluated for the density and the domain of its column, the other
densities being known to the builder as such.  Neighbor interactions come from the prepared expression of the row, proxy
interactions from the one for this side, with the proxies added to the collection and nothing excluded; source clusters
are the columns, target clusters the rows.  Builders apply weights as told, except that those of target proxies never
do. -/
theorem C71_calls (P : Prep E G) (c : Config E I G B) (clusters other : IList) (ibrow ibcol : Nat) (k : Call E I G B) :
    (sourceNeighbor c clusters other ibrow ibcol = .ok k → Evaluates c ibcol k ∧ c.exprs[ibrow]? = some k.expr ∧
      k.index = ⟨other, clusters⟩ ∧ k.builder = c.neighborBuilder ∧ k.weighted = c.weightedSources ∧ k.added = none ∧
      k.excludeSelf = none) ∧
    (targetNeighbor c clusters other ibrow ibcol = .ok k → Evaluates c ibcol k ∧ c.exprs[ibrow]? = some k.expr ∧
      k.index = ⟨clusters, other⟩ ∧ k.builder = c.neighborBuilder ∧ k.weighted = c.weightedTargets ∧ k.added = none ∧
      k.excludeSelf = none) ∧
    (sourceProxy P c clusters other ibrow ibcol = .ok k → Evaluates c ibcol k ∧ c.sourceProxyExprs[ibrow]? = some k.expr ∧
      k.index = ⟨other, clusters⟩ ∧ k.builder = c.sourceProxyBuilder ∧ k.weighted = c.weightedSources ∧
      k.added = some P.pxyTarget ∧ k.excludeSelf = some false) ∧
    (targetProxy P c clusters other ibrow ibcol = .ok k → Evaluates c ibcol k ∧ c.targetProxyExprs[ibrow]? = some k.expr ∧
      k.index = ⟨clusters, other⟩ ∧ k.builder = c.targetProxyBuilder ∧ k.weighted = false ∧
      k.added = some P.pxySource ∧ k.excludeSelf = some false) := by
  refine ⟨?_, ?_, ?_, ?_⟩
  · intro h
    unfold sourceNeighbor at h
    rw [bind_ok] at h
    obtain ⟨ix, h1, h⟩ := h
    rw [bind_ok] at h
    obtain ⟨e, h2, h⟩ := h
    obtain ⟨a1, a2, a3, a4, a5, a6, a7⟩ := evaluateExpr_ok _ _ _ _ _ _ _ _ _ h
    exact ⟨a1, a5 ▸ getAt_ok.1 h2, a4.trans (mkTS_inv _ _ _ (lift_ok.1 h1)).1, a2, a6, a3, a7⟩
  · intro h
    unfold targetNeighbor at h
    rw [bind_ok] at h
    obtain ⟨ix, h1, h⟩ := h
    rw [bind_ok] at h
    obtain ⟨e, h2, h⟩ := h
    obtain ⟨a1, a2, a3, a4, a5, a6, a7⟩ := evaluateExpr_ok _ _ _ _ _ _ _ _ _ h
    exact ⟨a1, a5 ▸ getAt_ok.1 h2, a4.trans (mkTS_inv _ _ _ (lift_ok.1 h1)).1, a2, a6, a3, a7⟩
  · intro h
    unfold sourceProxy at h
    rw [bind_ok] at h
    obtain ⟨ix, h1, h⟩ := h
    rw [bind_ok] at h
    obtain ⟨e, h2, h⟩ := h
    obtain ⟨a1, a2, a3, a4, a5, a6, a7⟩ := evaluateExpr_ok _ _ _ _ _ _ _ _ _ h
    exact ⟨a1, a5 ▸ getAt_ok.1 h2, a4.trans (mkTS_inv _ _ _ (lift_ok.1 h1)).1, a2, a6, a3, a7⟩
  · intro h
    unfold targetProxy at h
    rw [bind_ok] at h
    obtain ⟨ix, h1, h⟩ := h
    rw [bind_ok] at h
    obtain ⟨e, h2, h⟩ := h
    obtain ⟨a1, a2, a3, a4, a5, a6, a7⟩ := evaluateExpr_ok _ _ _ _ _ _ _ _ _ h
    exact ⟨a1, a5 ▸ getAt_ok.1 h2, a4.trans (mkTS_inv _ _ _ (lift_ok.1 h1)).1, a2, a6, a3, a7⟩

/-- **C71**: the four evaluations succeed for every row and column of the wrangler and as many clusters of proxies (or
neighbors) as there are clusters. -/
theorem C71_calls_succeed (P : Prep E G) (c : Config E I G B) (clusters other : IList) (ibrow ibcol : Nat)
    (hn : clusters.nclusters = other.nclusters) (hc : c.domains.length = c.inputs.length)
    (hs : c.sourceProxyExprs.length = c.exprs.length) (ht : c.targetProxyExprs.length = c.exprs.length)
    (hi : ibrow < c.exprs.length) (hj : ibcol < c.inputs.length) :
    (∃ k, sourceNeighbor c clusters other ibrow ibcol = .ok k) ∧ (∃ k, targetNeighbor c clusters other ibrow ibcol = .ok k) ∧
    (∃ k, sourceProxy P c clusters other ibrow ibcol = .ok k) ∧ (∃ k, targetProxy P c clusters other ibrow ibcol = .ok k) := by
  have m1 : lift (mkTS other clusters) = .ok ⟨other, clusters⟩ := by
    rw [lift_ok]; unfold mkTS; rw [if_neg (not_not.2 hn.symm)]
  have m2 : lift (mkTS clusters other) = .ok ⟨clusters, other⟩ := by
    rw [lift_ok]; unfold mkTS; rw [if_neg (not_not.2 hn)]
  have e1 := getAt_ok.2 (List.getElem?_eq_getElem hi)
  have e2 := getAt_ok.2 (List.getElem?_eq_getElem (hs.symm ▸ hi))
  have e3 := getAt_ok.2 (List.getElem?_eq_getElem (ht.symm ▸ hi))
  have d1 := getAt_ok.2 (List.getElem?_eq_getElem hj)
  have d2 := getAt_ok.2 (List.getElem?_eq_getElem (hc.symm ▸ hj))
  refine ⟨?_, ?_, ?_, ?_⟩
  · unfold sourceNeighbor evaluateExpr; rw [m1, e1, d1, d2]; exact ⟨_, rfl⟩
  · unfold targetNeighbor evaluateExpr; rw [m2, e1, d1, d2]; exact ⟨_, rfl⟩
  · unfold sourceProxy evaluateExpr; rw [m1, e2, d1, d2]; exact ⟨_, rfl⟩
  · unfold targetProxy evaluateExpr; rw [m2, e3, d1, d2]; exact ⟨_, rfl⟩

/-! ## theorems: weights -/

/-- **C71**: the weight of a cluster with points is the mean of the weights at its points; that of an empty cluster is
NaN. -/
theorem C71_mean (waa : List ℚ) (l : IList) (i : Nat) (c : List Nat) (hc : l.clusterIndices i = .ok c) :
    (c ≠ [] → ∃ w, waaMean waa l i = some w ∧ w * c.length = (c.map fun k => waa.getD k 0).sum) ∧
    (c = [] → waaMean waa l i = none) := by
  have he : c = slice l.indices (l.start i) (l.start (i + 1)) := by
    unfold IList.clusterIndices at hc
    split_ifs at hc
    injection hc with hc
    rw [← hc]
    simp
  unfold waaMean
  simp only [← he]
  constructor
  · intro hne
    have hl : c.length ≠ 0 := by
      intro h0
      exact hne (List.length_eq_zero_iff.1 h0)
    rw [if_neg hl]
    refine ⟨_, rfl, ?_⟩
    rw [div_mul_cancel₀]
    exact_mod_cast hl
  · rintro rfl
    rfl

theorem sum_between (f : Nat → ℚ) (c : List Nat) (a b : ℚ) (h : ∀ k ∈ c, a ≤ f k ∧ f k ≤ b) :
    a * c.length ≤ (c.map f).sum ∧ (c.map f).sum ≤ b * c.length := by
  induction c with
  | nil => simp
  | cons k c ih =>
    obtain ⟨h1, h2⟩ := ih fun k' hk' => h k' (List.mem_cons_of_mem _ hk')
    obtain ⟨h3, h4⟩ := h k List.mem_cons_self
    simp only [List.map_cons, List.sum_cons, List.length_cons, Nat.cast_add, Nat.cast_one]
    constructor <;> linarith

/-- **C71**: the weight of a cluster lies between bounds of the weights at its points; in particular it is positive if
they are, and equal to them if they are all equal. -/
theorem C71_mean_bounds (waa : List ℚ) (l : IList) (i : Nat) (c : List Nat) (hc : l.clusterIndices i = .ok c)
    (hne : c ≠ []) (a b : ℚ) (h : ∀ k ∈ c, a ≤ waa.getD k 0 ∧ waa.getD k 0 ≤ b) :
    ∃ w, waaMean waa l i = some w ∧ a ≤ w ∧ w ≤ b := by
  obtain ⟨w, hw, hs⟩ := (C71_mean waa l i c hc).1 hne
  obtain ⟨h1, h2⟩ := sum_between (fun k => waa.getD k 0) c a b h
  have hp : (0 : ℚ) < c.length := by
    have : 0 < c.length := List.length_pos_of_ne_nil hne
    exact_mod_cast this
  refine ⟨w, hw, ?_, ?_⟩
  · rw [← hs] at h1
    exact le_of_mul_le_mul_right h1 hp
  · rw [← hs] at h2
    exact le_of_mul_le_mul_right h2 hp

theorem flat_pair (m : TSList) (i : Nat) (hi : i < m.n) :
    slice m.flatStarts i (i + 2) = [off m.blockSize i, off m.blockSize (i + 1)] := by
  apply List.ext_getElem?
  intro j
  rw [slice_get?]
  match j with
  | 0 => rw [if_pos (by omega), Nat.add_zero, flatStarts_get m i (by omega)]; rfl
  | 1 => rw [if_pos (by omega), flatStarts_get m (i + 1) (by omega)]; rfl
  | j + 2 => rw [if_neg (by omega)]; rfl

theorem scaleRange_get (mat result : List (Option ℚ)) (a b : Nat) (w : Option ℚ) (p : Nat) (hp : p < result.length) :
    (scaleRange mat result a b w).getD p none = if a ≤ p ∧ p < b then fmul (mat.getD p none) w else result.getD p none := by
  unfold scaleRange
  rw [List.getD_eq_getElem?_getD, List.getElem?_map, List.getElem?_range hp]
  rfl

theorem scaleRange_length (mat result : List (Option ℚ)) (a b : Nat) (w : Option ℚ) :
    (scaleRange mat result a b w).length = result.length := by
  simp [scaleRange]

theorem weight_fold (mat : List (Option ℚ)) (m : TSList) (w : Nat → Option ℚ) (n : Nat) (hn : n ≤ m.n)
    (r₀ : List (Option ℚ)) :
    ∃ r, (List.range n).foldlM (weightStep mat m w) r₀ = .ok r ∧ r.length = r₀.length ∧
      (∀ i, i < n → ∀ p, off m.blockSize i ≤ p → p < off m.blockSize (i + 1) → p < r₀.length →
        r.getD p none = fmul (mat.getD p none) (w i)) ∧
      (∀ p, off m.blockSize n ≤ p → p < r₀.length → r.getD p none = r₀.getD p none) := by
  induction n with
  | zero => exact ⟨r₀, rfl, rfl, fun i hi => absurd hi (Nat.not_lt_zero _), fun _ _ _ => rfl⟩
  | succ n ih =>
    obtain ⟨r, h1, h2, h3, h4⟩ := ih (by omega)
    refine ⟨scaleRange mat r (off m.blockSize n) (off m.blockSize (n + 1)) (w n), ?_, ?_, ?_, ?_⟩
    · rw [List.range_succ, List.foldlM_append, h1]
      have : weightStep mat m w r n = .ok (scaleRange mat r (off m.blockSize n) (off m.blockSize (n + 1)) (w n)) := by
        unfold weightStep
        rw [flat_pair m n (by omega)]
      simp only [bind, Except.bind, List.foldlM_cons, List.foldlM_nil, this, pure, Except.pure]
    · rw [scaleRange_length, h2]
    · intro i hi p hp1 hp2 hp3
      rw [scaleRange_get _ _ _ _ _ _ (h2 ▸ hp3)]
      by_cases hin : i = n
      · subst hin
        rw [if_pos ⟨hp1, hp2⟩]
      · have hlt : i + 1 ≤ n := by omega
        have := off_mono m.blockSize hlt
        rw [if_neg (by omega)]
        exact h3 i (by omega) p hp1 hp2 hp3
    · intro p hp1 hp2
      rw [scaleRange_get _ _ _ _ _ _ (h2 ▸ hp2)]
      have := off_mono m.blockSize (show n ≤ n + 1 by omega)
      rw [if_neg (by omega)]
      exact h4 p (by omega) hp2

/-- **C71**: weighting multiplies every entry of the block of cluster `i`, and nothing else, by the weight of cluster `i`
of neighbors; it is refused if there are not as many of these as there are blocks. -/
theorem C71_weighted (waa : List ℚ) (mat : List (Option ℚ)) (m : TSList) (nbr : IList) :
    (m.targets.nclusters ≠ nbr.nclusters → applyWeights waa mat m nbr = .error .assertion) ∧
    (m.targets.nclusters = nbr.nclusters → mat.length = m.totalSize →
      ∃ r, applyWeights waa mat m nbr = .ok r ∧ r.length = mat.length ∧
        ∀ i, i < m.n → ∀ p, off m.blockSize i ≤ p → p < off m.blockSize (i + 1) →
          r.getD p none = (mat.getD p none).bind fun x => (waaMean waa nbr i).map fun w => x * w) := by
  have hf : ∀ a b : Option ℚ, fmul a b = a.bind fun x => b.map fun w => x * w := by
    intro a b; cases a <;> cases b <;> rfl
  simp only [← hf]
  constructor
  · intro h
    unfold applyWeights
    rw [if_pos h]
  · intro h hl
    obtain ⟨r, h1, h2, h3, -⟩ := weight_fold mat m (waaMean waa nbr) m.n (le_refl _) (List.replicate mat.length (some 0))
    refine ⟨r, ?_, ?_, ?_⟩
    · unfold applyWeights
      rw [if_neg (not_not.2 h)]
      exact h1
    · rw [h2, List.length_replicate]
    · intro i hi p hp1 hp2
      have hlt : p < off m.blockSize m.n := lt_of_lt_of_le hp2 (off_mono _ hi)
      refine h3 i hi p hp1 hp2 ?_
      rw [List.length_replicate, hl, totalSize_eq]
      exact hlt

/-- **C71**: finite target proxy interactions stay finite under weighting exactly if every cluster whose block has
entries has neighbors.

Partial: the full claim is that weighting does not make skeletonization fail, whatever the clusters; clusters without
neighbors refute it (`C71_empty_refuted`). -/
theorem C71_finite_partial (waa : List ℚ) (mat : List (Option ℚ)) (m : TSList) (nbr : IList)
    (hn : m.targets.nclusters = nbr.nclusters) (hl : mat.length = m.totalSize) (hf : checkFinite mat = .ok ()) :
    ∃ r, applyWeights waa mat m nbr = .ok r ∧
      (checkFinite r = .ok () ↔ ∀ i, i < m.n → m.blockSize i ≠ 0 → ∀ c, nbr.clusterIndices i = .ok c → c ≠ []) := by
  obtain ⟨r, h1, h2, h3⟩ := (C71_weighted waa mat m nbr).2 hn hl
  refine ⟨r, h1, ?_⟩
  have hall : ∀ x : List (Option ℚ), checkFinite x = .ok () ↔ ∀ p, p < x.length → (x.getD p none).isSome := by
    intro x
    unfold checkFinite
    have hx : x.all Option.isSome = true ↔ ∀ p, p < x.length → (x.getD p none).isSome := by
      rw [List.all_eq_true]
      constructor
      · intro h p hp
        rw [List.getD_eq_getElem?_getD, List.getElem?_eq_getElem hp, Option.getD_some]
        exact h _ (List.getElem_mem hp)
      · intro h y hy
        obtain ⟨p, hp, rfl⟩ := List.getElem_of_mem hy
        have := h p hp
        rwa [List.getD_eq_getElem?_getD, List.getElem?_eq_getElem hp, Option.getD_some] at this
    by_cases hb : x.all Option.isSome = true
    · rw [if_pos hb]; simp only [true_iff]; exact hx.1 hb
    · rw [if_neg hb]
      constructor
      · intro h; cases h
      · intro h; exact absurd (hx.2 h) hb
  have hin : ∀ i, i < m.n → ∃ c, nbr.clusterIndices i = .ok c := by
    intro i hi
    apply indices_of_lt
    rw [← hn]
    unfold TSList.n at hi
    omega
  rw [hall]
  constructor
  · intro h i hi hb c hc hce
    have hp2 : off m.blockSize i < off m.blockSize (i + 1) := by
      simp only [off]; omega
    have hp : off m.blockSize i < r.length := by
      rw [h2, hl, totalSize_eq]; exact lt_of_lt_of_le hp2 (off_mono _ hi)
    have := h _ hp
    rw [h3 i hi _ (le_refl _) hp2, (C71_mean waa nbr i c hc).2 hce] at this
    cases hg : mat.getD (off m.blockSize i) none <;> rw [hg] at this <;> exact absurd this (by simp [fmul])
  · intro h p hp
    rw [h2, hl, totalSize_eq] at hp
    obtain ⟨i, hi, hp1, hp2⟩ := off_exists _ hp
    obtain ⟨c, hc⟩ := hin i hi
    have hne := h i hi (by simp only [off] at hp2; omega) c hc
    obtain ⟨w, hw, -⟩ := (C71_mean waa nbr i c hc).1 hne
    rw [h3 i hi p hp1 hp2, hw]
    have hm := (hall mat).1 hf p (by rw [hl, totalSize_eq]; exact hp)
    cases hg : mat.getD p none with
    | none => rw [hg] at hm; cases hm
    | some x => rfl

/-- two clusters of one point each, whose proxy balls contain no other points: one proxy each, no neighbors -/
def farTgt : IList := ⟨[0, 1], [0, 1, 2]⟩
/-- example: no neighbors -/
def farNbr : IList := ⟨[], [0, 0, 0]⟩

/-- clusters with neighbors, to which `C71_finite_partial` applies and weighting succeeds -/
example : ∃ r, applyWeights [2, 4] [some 1, some 3] ⟨farTgt, farTgt⟩ ⟨[1, 0, 1], [0, 1, 3]⟩ = .ok r ∧
    checkFinite r = .ok () ∧ r = [some 4, some 9] := by
  refine ⟨[some 4, some 9], ?_, ?_, rfl⟩ <;> decide +kernel

/-- **C71** refuted: for two clusters so far from each other that neither has neighbors, finite interactions with their
proxies become NaN by weighting, and skeletonization fails with `AssertionError` (in `python -O`, hands NaN to the
decomposition). -/
theorem C71_empty_refuted :
    checkFinite [some 1, some 3] = .ok () ∧ (∃ r, applyWeights [2, 4] [some 1, some 3] ⟨farTgt, farTgt⟩ farNbr = .ok r ∧
      r = [none, none] ∧ checkFinite r = .error .assertion) := by
  refine ⟨rfl, [none, none], ?_, rfl, rfl⟩
  decide +kernel

/-- **C71**: target proxy interactions are those of the builder call, weighted by the means over the neighbors of the
weights of the domain of the column exactly if the wrangler says so. -/
theorem C71_target_proxy (P : Prep E G) (c : Config E I G B) (run : Call E I G B → List (Option ℚ)) (waa : G → List ℚ)
    (clusters pxy nbr : IList) (ibrow ibcol : Nat) (k : Call E I G B) (hk : targetProxy P c clusters pxy ibrow ibcol = .ok k) :
    (c.weightedTargets = false → targetProxyMat P c run waa clusters pxy nbr ibrow ibcol = .ok (run k, ⟨clusters, pxy⟩)) ∧
    (c.weightedTargets = true → clusters.nclusters = nbr.nclusters → (run k).length = (⟨clusters, pxy⟩ : TSList).totalSize →
      ∃ r, targetProxyMat P c run waa clusters pxy nbr ibrow ibcol = .ok (r, ⟨clusters, pxy⟩) ∧
        applyWeights (waa k.domain) (run k) ⟨clusters, pxy⟩ nbr = .ok r) := by
  obtain ⟨-, -, hix, -⟩ := (C71_calls P c clusters pxy ibrow ibcol k).2.2.2 hk
  constructor
  · intro hw
    unfold targetProxyMat
    rw [hk]
    simp only [bind, Except.bind, hw, hix]
    rfl
  · intro hw hn hl
    obtain ⟨r, h1, -⟩ := (C71_weighted (waa k.domain) (run k) ⟨clusters, pxy⟩ nbr).2 hn hl
    refine ⟨r, ?_, h1⟩
    unfold targetProxyMat
    rw [hk]
    simp only [bind, Except.bind, hw, hix, h1]
    rfl

/-! ## theorems: blocks -/

theorem rowBlocks_ok {α : Type} (blk : Nat → Nat → Except SErr α) (i : Nat) (js : List Nat) (r : List α)
    (h : rowBlocks blk i js = .ok r) : r.length = js.length ∧ ∀ (n : Nat) (j : Nat), js[n]? = some j → ∃ b, r[n]? = some b ∧ blk i j = .ok b := by
  induction js generalizing r with
  | nil => injection h with h; subst h; exact ⟨rfl, fun n j hj => by simp at hj⟩
  | cons j js ih =>
    unfold rowBlocks at h
    rw [bind_ok] at h
    obtain ⟨b, h1, h⟩ := h
    rw [bind_ok] at h
    obtain ⟨bs, h2, h⟩ := h
    injection h with h
    subst h
    obtain ⟨l1, l2⟩ := ih bs h2
    refine ⟨by simp [l1], ?_⟩
    intro n j' hn
    cases n with
    | zero =>
      simp only [List.getElem?_cons_zero, Option.some.injEq] at hn
      subst hn
      exact ⟨b, rfl, h1⟩
    | succ n => exact l2 n j' (by simpa using hn)

theorem allBlocks_ok {α : Type} (blk : Nat → Nat → Except SErr α) (nc : Nat) (is : List Nat) (r : List (List α))
    (h : allBlocks blk nc is = .ok r) : r.length = is.length ∧
      ∀ (n : Nat) (i : Nat), is[n]? = some i → ∃ row, r[n]? = some row ∧ rowBlocks blk i (List.range nc) = .ok row := by
  induction is generalizing r with
  | nil => injection h with h; subst h; exact ⟨rfl, fun n j hj => by simp at hj⟩
  | cons j js ih =>
    unfold allBlocks at h
    rw [bind_ok] at h
    obtain ⟨b, h1, h⟩ := h
    rw [bind_ok] at h
    obtain ⟨bs, h2, h⟩ := h
    injection h with h
    subst h
    obtain ⟨l1, l2⟩ := ih bs h2
    refine ⟨by simp [l1], ?_⟩
    intro n j' hn
    cases n with
    | zero =>
      simp only [List.getElem?_cons_zero, Option.some.injEq] at hn
      subst hn
      exact ⟨b, rfl, h1⟩
    | succ n => exact l2 n j' (by simpa using hn)

/-- **C71**: `skeletonize_by_proxy` returns an array with one row per expression and one column per density, whose entry
`i, j` is the skeletonization of block `i, j`, for one and the same wrangler with default weights and builders. -/
theorem C71_blocks {α : Type} (P : Prep E G) (p2p qbx : B) (exprs : OneOrMany E) (inputs : OneOrMany I)
    (domains : DomArg G) (auto : G × G) (blk : Config E I G B → Nat → Nat → Except SErr α) (r : List (List α))
    (h : skeletonizeByProxy P p2p qbx exprs inputs domains auto blk = .ok r) :
    ∃ c, makeWrangler P p2p qbx exprs inputs domains auto .none none none none = .ok c ∧
      r.length = exprs.toList.length ∧
      ∀ i, i < exprs.toList.length → ∃ row, r[i]? = some row ∧ row.length = inputs.toList.length ∧
        ∀ j, j < inputs.toList.length → ∃ b, row[j]? = some b ∧ blk c i j = .ok b := by
  unfold skeletonizeByProxy at h
  rw [bind_ok] at h
  obtain ⟨c, h1, h⟩ := h
  obtain ⟨q1, -, q3, -⟩ := C71_make P p2p qbx exprs inputs domains auto .none none none none c h1
  obtain ⟨l1, l2⟩ := allBlocks_ok _ _ _ _ h
  refine ⟨c, h1, by rw [l1, List.length_range, q3], ?_⟩
  intro i hi
  obtain ⟨row, r1, r2⟩ := l2 i i (by rw [List.getElem?_range (q3 ▸ hi)])
  obtain ⟨k1, k2⟩ := rowBlocks_ok _ _ _ _ r2
  refine ⟨row, r1, by rw [k1, List.length_range, q1], ?_⟩
  intro j hj
  exact k2 j j (by rw [List.getElem?_range (q1 ▸ hj)])

example : skeletonizeByProxy (⟨fun _ e => e, fun _ e => e, 8, 9⟩ : Prep Nat Nat) 0 1 (.many [1, 2]) (.many [5, 6, 7]) (.one 3)
    (3, 3) (fun c i j => .ok (c.inputs.getD j 0, i)) = .ok [[(5, 0), (6, 0), (7, 0)], [(5, 1), (6, 1), (7, 1)]] := rfl

/-- **C71**: the proxies around the source clusters of a block, and their neighbors, are found among the points of the
domain of its column, those of the target clusters as well; so both are found among the right points if the block has
this domain as its target.

Partial: for blocks whose target is another geometry the points of the wrong geometry are used
(`C71_geometry_refuted`). -/
theorem C71_geometry_partial (c : Config E I G B) (ibrow ibcol : Nat) (d target : G) (hd : c.domains[ibcol]? = some d) :
    ∃ gs gt, proxyGeometry c ibrow ibcol = .ok (gs, gt) ∧ gs = d ∧ (target = d → gt = target) := by
  refine ⟨d, d, ?_, rfl, fun h => h.symm⟩
  unfold proxyGeometry
  rw [getAt_ok.2 hd]
  rfl

/-- **C71** refuted: for the interaction of a source geometry 3 with a target geometry 4 (whether set as default or in
the expression), indices of target points select points of geometry 3 for proxies and neighbors. -/
theorem C71_geometry_refuted :
    ∃ c : Config Nat Nat Nat Nat, makeWrangler ⟨fun _ e => e, fun _ e => e, 8, 9⟩ 0 1 (.one 1) (.one 5) .none (3, 4) .none
      none none none = .ok c ∧ proxyGeometry c 0 0 = .ok (3, 3) := ⟨_, rfl, rfl⟩

end Verif.SkelWeights
