import Verif.Exec.ClusterMat
import Verif.Exec.MatTotal

/-!
# Cluster builders on expressions of layer potentials (C57, C88)

The four matrix builders of `pytential/symbolic/matrix.py` on the same expressions and scenes: what
`QBXClusterMatrixBuilder` returns is the response of direct evaluation to single densities, and
`P2PClusterMatrixBuilder` returns the entries of `P2PMatrixBuilder`.

Simplifications: those of `Verif.Exec.LayerMat` and `Verif.Exec.ClusterMat`; kernel arguments are not restricted to those of
the base kernel (`matrix.py:589-596`, `:812-819`): they only matter to what the kernel reads.
-/

set_option linter.unusedSectionVars false

namespace Verif.LayerMat

open Finset Verif.MatBuild Verif.ClusterMat Verif.QBXSetup
open Verif.DofDesc (DD)

variable {α P A : Type} [Field α] [DecidableEq α]

/-! # Model -/

mutual
/-- an expression with the matrices a builder uses for its layer potentials (one per source kernel); `none`: the
builder refuses, and the potential is replaced by one whose lists do not match, which also raises -/
def toCE (mats : Pot A → Option (List (Arr α))) : LE α A → ME α
  | .dep => .dep
  | .otherDep n => .otherDep n
  | .var s => .var s
  | .num a => .num a
  | .coord k f => .coord k f
  | .sum cs => .sum (toCEL mats cs)
  | .prod cs => .prod (toCEL mats cs)
  | .quot a b => .quot (toCE mats a) (toCE mats b)
  | .pow a k => .pow (toCE mats a) k
  | .call f a => .call f (toCE mats a)
  | .interp R a => .interp R (toCE mats a)
  | .refD R a => .refD R (toCE mats a)
  | .pot g ds => match mats g with
    | some Ms => .intG Ms (toCEL mats ds)
    | none => .intG [] [.num 0]
/-- same for lists -/
def toCEL (mats : Pot A → Option (List (Arr α))) : List (LE α A) → List (ME α)
  | [] => []
  | c :: cs => toCE mats c :: toCEL mats cs
end

/-- the matrices whose entries `QBXClusterMatrixBuilder.map_int_g` uses (`matrix.py:655-735`), with its refusals; see
`clusterVals` -/
def clusterMats (S : Scene α P A) (weighted : Bool) (g : Pot A) : Option (List (Arr α)) :=
  match S.discr g.src, S.target g.tgt, g.limit with
  | some a, some b, some l =>
    if weighted = true ∧ a ≠ b then none
    else if l = 0 then none
    else some (g.sks.map (lpMat S weighted g l))
  | _, _, _ => none

/-- `QBXClusterMatrixBuilder` (`matrix.py:628-735`) on an expression: one entry per pair of target and source index -/
def buildClusters (S : Scene α P A) (weighted : Bool) (pairs : List (Nat × Nat)) (ctx : String → Option (BV α))
    (e : LE α A) : Except Err (BV α) :=
  cbuild pairs ctx false (toCE (clusterMats S weighted) e)

/-- `P2PMatrixBuilder.map_int_g` (`matrix.py:553-621`): source and target have to be discretizations, sides do not
matter -/
def p2pMats (S : Scene α P A) (weighted excludeSelf : Bool) (g : Pot A) : Option (List (Arr α)) :=
  match S.discr g.src, S.discr g.tgt with
  | some _, some _ => some (g.sks.map (p2pMat S weighted excludeSelf g))
  | _, _ => none

/-- `P2PMatrixBuilder` on an expression -/
def buildP2P (S : Scene α P A) (weighted excludeSelf : Bool) (n : Nat) (ctx : String → Option (BV α)) (e : LE α A) :
    Except Err (BV α) :=
  build n ctx (toCE (p2pMats S weighted excludeSelf) e)

/-- `P2PClusterMatrixBuilder.map_int_g` (`matrix.py:769-845`): sources may also be point sources, `points` being the
descriptors `get_source_or_discretization` accepts apart from discretizations; these have no quadrature weights
(`:834`).  Targets may be target points.  `target_to_source` numbers the targets (`:821-824`), so that a pair of equal
indices is skipped if `excludeSelf`. -/
def p2pClusterMats (S : Scene α P A) (points : DD → Bool) (weighted excludeSelf : Bool) (g : Pot A) :
    Option (List (Arr α)) :=
  match S.discr g.src, S.target g.tgt with
  | some _, some _ => some (g.sks.map (p2pMat S weighted excludeSelf g))
  | none, some _ => if points g.src then some (g.sks.map (p2pMat S false excludeSelf g)) else none
  | _, _ => none

/-- `P2PClusterMatrixBuilder` on an expression -/
def buildP2PClusters (S : Scene α P A) (points : DD → Bool) (weighted excludeSelf : Bool) (pairs : List (Nat × Nat))
    (ctx : String → Option (BV α)) (e : LE α A) : Except Err (BV α) :=
  cbuild pairs ctx false (toCE (p2pClusterMats S points weighted excludeSelf) e)

/-! # Specification -/

/-- the density that is one at degree of freedom `j` and zero elsewhere -/
def unit (j : Nat) : Nat → α := fun i => if i = j then 1 else 0

/-- entry `k` of what a cluster builder returns: an array, or the number zero if there is nothing to add up -/
def entryAt : BV α → Nat → α
  | .sc a, _ => a
  | .ve _ g, k => g k
  | _, _ => 0

/-- one entry per pair, or the number zero -/
def Flat' (N : Nat) : BV α → Prop
  | .sc a => a = 0
  | .ve m _ => m = N
  | _ => False

/-! # Proofs -/

mutual
theorem toCE_congr {m m' : Pot A → Option (List (Arr α))} : ∀ e : LE α A, AllPots (fun g => m g = m' g) e →
    toCE m e = toCE m' e
  | .dep, _ => rfl
  | .otherDep _, _ => rfl
  | .var _, _ => rfl
  | .num _, _ => rfl
  | .coord _ _, _ => rfl
  | .sum cs, h => by simp only [toCE]; rw [toCEL_congr cs h]
  | .prod cs, h => by simp only [toCE]; rw [toCEL_congr cs h]
  | .quot a b, h => by simp only [toCE]; rw [toCE_congr a h.1, toCE_congr b h.2]
  | .pow a k, h => by simp only [toCE]; rw [toCE_congr a h]
  | .call f a, h => by simp only [toCE]; rw [toCE_congr a h]
  | .interp R a, h => by simp only [toCE]; rw [toCE_congr a h]
  | .refD R a, h => by simp only [toCE]; rw [toCE_congr a h]
  | .pot g ds, h => by
    simp only [AllPots] at h
    simp only [toCE]; rw [h.1, toCEL_congr ds h.2]
theorem toCEL_congr {m m' : Pot A → Option (List (Arr α))} : ∀ cs : List (LE α A), AllPotsL (fun g => m g = m' g) cs →
    toCEL m cs = toCEL m' cs
  | [], _ => rfl
  | c :: cs, h => by
    simp only [AllPotsL] at h
    simp only [toCEL]; rw [toCE_congr c h.1, toCEL_congr cs h.2]
end

mutual
theorem toCE_matPot (S : Scene α P A) : ∀ e : LE α A, toCE (matPot S true) e = toME S e
  | .dep => rfl
  | .otherDep _ => rfl
  | .var _ => rfl
  | .num _ => rfl
  | .coord _ _ => rfl
  | .sum cs => by simp only [toCE, toME]; rw [toCEL_matPot S cs]
  | .prod cs => by simp only [toCE, toME]; rw [toCEL_matPot S cs]
  | .quot a b => by simp only [toCE, toME]; rw [toCE_matPot S a, toCE_matPot S b]
  | .pow a k => by simp only [toCE, toME]; rw [toCE_matPot S a]
  | .call f a => by simp only [toCE, toME]; rw [toCE_matPot S a]
  | .interp R a => by simp only [toCE, toME]; rw [toCE_matPot S a]
  | .refD R a => by simp only [toCE, toME]; rw [toCE_matPot S a]
  | .pot g ds => by
    simp only [toCE, toME]
    cases matPot S true g with
    | none => rfl
    | some Ms => simp only; rw [toCEL_matPot S ds]
theorem toCEL_matPot (S : Scene α P A) : ∀ cs : List (LE α A), toCEL (matPot S true) cs = toMEL S cs
  | [] => rfl
  | c :: cs => by simp only [toCEL, toMEL]; rw [toCE_matPot S c, toCEL_matPot S cs]
end

mutual
theorem AllPots.imp {Q R : Pot A → Prop} (hQR : ∀ g, Q g → R g) : ∀ e : LE α A, AllPots Q e → AllPots R e
  | .dep, _ => trivial
  | .otherDep _, _ => trivial
  | .var _, _ => trivial
  | .num _, _ => trivial
  | .coord _ _, _ => trivial
  | .sum cs, h => AllPotsL.imp hQR cs h
  | .prod cs, h => AllPotsL.imp hQR cs h
  | .quot a b, h => ⟨AllPots.imp hQR a h.1, AllPots.imp hQR b h.2⟩
  | .pow a _, h => AllPots.imp hQR a h
  | .call _ a, h => AllPots.imp hQR a h
  | .interp _ a, h => AllPots.imp hQR a h
  | .refD _ a, h => AllPots.imp hQR a h
  | .pot g ds, h => ⟨hQR g h.1, AllPotsL.imp hQR ds h.2⟩
theorem AllPotsL.imp {Q R : Pot A → Prop} (hQR : ∀ g, Q g → R g) : ∀ cs : List (LE α A), AllPotsL Q cs → AllPotsL R cs
  | [], _ => trivial
  | c :: cs, h => ⟨AllPots.imp hQR c h.1, AllPotsL.imp hQR cs h.2⟩
end

/-- source and target of the potential are the same discretization, and it has a side -/
def SameDiscr (S : Scene α P A) (g : Pot A) : Prop :=
  (∃ a, S.discr g.src = some a ∧ S.discr g.tgt = some a ∧ S.target g.tgt = some a) ∧ ∃ l, g.limit = some l ∧ l ≠ 0

theorem clusterMats_same (S : Scene α P A) (g : Pot A) (h : SameDiscr S g) : clusterMats S true g = matPot S true g := by
  obtain ⟨⟨a, h1, h2, h3⟩, l, h4, h5⟩ := h
  simp only [clusterMats, matPot, h1, h2, h3, h4]
  simp [h5]

/-- the relation between the full and the cluster builder, on what the former returns -/
theorem cluster_entries (n : Nat) (pairs : List (Nat × Nat)) (ctx : String → Option (BV α)) (hctx : PlainCtx ctx)
    (hP : ∀ p ∈ pairs, p.2 < n) (e : ME α) (hf : Frag e) (b : Option (Arr α)) (hb : buildBlock n ctx e = .ok b)
    (w : BV α) (hw : cbuild pairs ctx false e = .ok w) :
    Flat' pairs.length w ∧ ∀ (k : Nat) p, pairs[k]? = some p → entryAt w k = match b with
      | none => 0
      | some M => M.get p.1 p.2 := by
  unfold buildBlock at hb
  cases hv : build n ctx e with
  | error y => rw [hv] at hb; cases hb
  | ok y =>
    rw [hv] at hb
    cases y with
    | ve m f => cases hb
    | oth m f => cases hb
    | sc a =>
      simp only at hb
      by_cases ha : a = 0
      · rw [if_pos ha] at hb
        cases hb
        have hP' : ∀ i < pairs.length, (at' pairs i).2 < n := by
          intro i hi
          simp only [at', List.getElem?_eq_getElem hi, Option.getD_some]
          exact hP _ (List.getElem_mem hi)
        have h := cbuild_rel n pairs ctx hctx hP' e false _ w hf hv hw
        cases w with
        | sc c => simp only [Rel] at h; subst h; subst ha; exact ⟨rfl, fun k p _ => rfl⟩
        | _ => simp [Rel] at h
      · rw [if_neg ha] at hb; cases hb
    | ma m k f =>
      cases hb
      rcases C57_entries_partial n pairs ctx hctx hP e hf m k f hv w hw with ⟨g, rfl, h⟩ | ⟨rfl, h⟩
      · exact ⟨rfl, fun i p hp => h i p hp⟩
      · exact ⟨rfl, fun i p hp => (h p (List.mem_of_getElem? hp)).symm⟩

theorem sum_unit (n j : Nat) (hj : j < n) (f : Nat → α) : ∑ i ∈ range n, f i * unit (α := α) j i = f j := by
  rw [Finset.sum_eq_single j]
  · simp [unit]
  · intro i _ hij; simp [unit, hij]
  · intro h; exact absurd (Finset.mem_range.2 hj) h

/-- **C88, cluster builders, end to end**: for a linear combination of the input and of layer potentials of it (`LC`, with
potentials that map a discretization to itself) `QBXClusterMatrixBuilder` succeeds and returns one entry per pair of
target and source index (or zero, if there are no terms): the value at the target node of the expression, evaluated
directly, for the density that is one at the source index and zero elsewhere. -/
theorem C88_cluster_total (S : Scene α P A) (σ : Direct.Sched) (tks : Pot A → List Kn) (n : Nat)
    (ctx : String → Option (BV α)) (hctx : PlainCtx ctx) (m : Nat) (e : LE α A) (h : LinE S tks n ctx m e)
    (hs : AllPots (SameDiscr S) e) (hl : LC (toME S e)) (pairs : List (Nat × Nat))
    (hpairs : ∀ p ∈ pairs, p.1 < m ∧ p.2 < n) :
    ∃ w, buildClusters S true pairs ctx e = .ok w ∧ Flat' pairs.length w ∧
      ∀ (k : Nat) p, pairs[k]? = some p →
        ∃ f, evWith (fun g => directPot S σ (tks g) g) n (unit p.2) ctx e = .ok (.ve m f) ∧ entryAt w k = f p.1 := by
  have hce : toCE (clusterMats S true) e = toME S e := by
    rw [← toCE_matPot]
    exact toCE_congr e (AllPots.imp (fun g => clusterMats_same S g) e hs)
  obtain ⟨b, hb, hall⟩ := C88_total S σ tks n ctx hctx m e h
  have hex : ∃ w, cbuild pairs ctx false (toME S e) = .ok w := by
    rcases C57_accepts pairs ctx (toME S e) hl with h | ⟨g, h⟩
    · exact ⟨_, h⟩
    · exact ⟨_, h⟩
  obtain ⟨w, hw⟩ := hex
  obtain ⟨h1, h2⟩ := cluster_entries n pairs ctx hctx (fun p hp => (hpairs p hp).2) _ (linA_frag (linE_linA h)) b hb w hw
  refine ⟨w, by rw [buildClusters, hce]; exact hw, h1, fun k p hp => ?_⟩
  obtain ⟨hp1, hp2⟩ := hpairs p (List.mem_of_getElem? hp)
  obtain ⟨f, hf, hM⟩ := hall (unit p.2)
  refine ⟨f, hf, ?_⟩
  have h2 := h2 k p hp
  cases b with
  | none => simp only at hM h2; rw [h2, hM p.1 hp1]
  | some M => simp only at hM h2; rw [h2, hM.2.2 p.1 hp1, sum_unit n p.2 hp2 (fun j => M.get p.1 j)]

/-- **C88, point-to-point cluster builders**: on an expression accepted by both, `P2PClusterMatrixBuilder` returns the
entries of the matrix of `P2PMatrixBuilder` built with the same options, at the pairs asked for (with the restriction
of C24 to the fragment `Frag`). -/
theorem C88_p2p_cluster_partial (S : Scene α P A) (points : DD → Bool) (weighted excludeSelf : Bool) (n : Nat)
    (ctx : String → Option (BV α)) (hctx : PlainCtx ctx) (e : LE α A)
    (hd : AllPots (fun g => (S.discr g.src).isSome = true ∧ (S.discr g.tgt).isSome = true ∧
      (S.target g.tgt).isSome = true) e)
    (hf : Frag (toCE (p2pMats S weighted excludeSelf) e)) (pairs : List (Nat × Nat)) (hpairs : ∀ p ∈ pairs, p.2 < n)
    (m k : Nat) (M : Nat → Nat → α) (hv : buildP2P S weighted excludeSelf n ctx e = .ok (.ma m k M)) (w : BV α)
    (hw : buildP2PClusters S points weighted excludeSelf pairs ctx e = .ok w) :
    Flat' pairs.length w ∧ ∀ (i : Nat) p, pairs[i]? = some p → entryAt w i = M p.1 p.2 := by
  have hce : toCE (p2pClusterMats S points weighted excludeSelf) e = toCE (p2pMats S weighted excludeSelf) e := by
    apply toCE_congr
    refine AllPots.imp ?_ e hd
    rintro g ⟨h2, h3, h4⟩
    obtain ⟨a, ha⟩ := Option.isSome_iff_exists.1 h2
    obtain ⟨b, hb⟩ := Option.isSome_iff_exists.1 h3
    obtain ⟨c, hc⟩ := Option.isSome_iff_exists.1 h4
    simp only [p2pClusterMats, p2pMats, ha, hb, hc]
  rw [buildP2PClusters, hce] at hw
  exact cluster_entries n pairs ctx hctx hpairs _ hf (some ⟨m, k, M⟩)
    (by rw [buildBlock]; rw [buildP2P] at hv; rw [hv]) w hw

/-- **C88, point-to-point entries**: for a potential of the input with one source kernel, from a discretization or from point
sources to a discretization or to target points, `P2PClusterMatrixBuilder` returns for each pair of indices the value of the
base kernel between the two points (zero for equal indices if these are excluded), times the quadrature weight of the
source if asked for and if the source is a discretization. -/
theorem C88_p2p_cluster_entries (S : Scene α P A) (points : DD → Bool) (weighted excludeSelf : Bool)
    (ctx : String → Option (BV α)) (g : Pot A) (sk : Kn) (hk : g.sks = [sk]) (hsrc : (S.discr g.src).isSome ∨ points g.src)
    (htgt : (S.target g.tgt).isSome) (pairs : List (Nat × Nat)) :
    ∃ w, buildP2PClusters S points weighted excludeSelf pairs ctx (.pot g [.dep]) = .ok w ∧ Flat' pairs.length w ∧
      ∀ (k : Nat) p, pairs[k]? = some p → entryAt w k =
        (if excludeSelf = true ∧ p.1 = p.2 then 0
          else S.plain (.base g.tk.getBase) (.base sk.getBase) g.args (S.node g.tgt p.1) (S.node g.src p.2)) *
        (if weighted = true ∧ (S.discr g.src).isSome = true then S.waa g.src p.2 else 1) := by
  obtain ⟨b, hb⟩ := Option.isSome_iff_exists.1 htgt
  have key : ∃ wt : Bool, (wt = true ↔ weighted = true ∧ (S.discr g.src).isSome = true) ∧
      p2pClusterMats S points weighted excludeSelf g = some [p2pMat S wt excludeSelf g sk] := by
    cases ha : S.discr g.src with
    | some a =>
      refine ⟨weighted, by simp, ?_⟩
      simp only [p2pClusterMats, ha, hb, hk, List.map_cons, List.map_nil]
    | none =>
      refine ⟨false, by simp, ?_⟩
      have hp : points g.src = true := by
        rcases hsrc with h | h
        · rw [ha] at h; cases h
        · exact h
      simp only [p2pClusterMats, ha, hb, hk, hp, if_true, List.map_cons, List.map_nil]
  obtain ⟨wt, hwt, hm⟩ := key
  have h1 : isZero (BV.sc (1 : α)) = false := by simp [isZero]
  refine ⟨.ve pairs.length fun k => 0 + (p2pMat S wt excludeSelf g sk).get (at' pairs k).1 (at' pairs k).2 * 1, ?_, rfl, ?_⟩
  · simp only [buildP2PClusters, toCE, hm, toCEL, cbuild, cIntG, depVal, if_true, h1, addBV, Bool.false_eq_true, if_false]
  · intro k p hp
    simp only [entryAt, at', hp, Option.getD_some, zero_add, mul_one, p2pMat]
    by_cases hw : wt = true
    · rw [if_pos hw, if_pos (hwt.1 hw)]
    · rw [if_neg hw, if_neg (fun h => hw (hwt.2 h))]

/-! # Examples -/

/-- the hypotheses of `C88_cluster_total` hold for half the input plus its layer potential -/
example : AllPots (SameDiscr exScene)
      (.sum [.prod [.num (1/2), .dep], .pot (exPot "a" (some 1)) [.dep]] : LE ℚ Unit) ∧
    LC (toME exScene (.sum [.prod [.num (1/2), .dep], .pot (exPot "a" (some 1)) [.dep]])) ∧
    (match buildClusters exScene true [(0, 0)] (fun _ => none)
        (.sum [.prod [.num (1/2), .dep], .pot (exPot "a" (some 1)) [.dep]]) with
      | .ok w => entryAt w 0
      | _ => 0) = 1/2 + (-4 - 4) / 2 := by
  refine ⟨?_, ?_, by decide +kernel⟩
  · simp only [AllPots, AllPotsL]
    exact ⟨⟨trivial, trivial, trivial⟩, ⟨⟨⟨0, rfl, rfl, rfl⟩, 1, rfl, by decide⟩, trivial, trivial⟩, trivial⟩
  · show LC (ME.sum [.prod [.num (1/2), .dep], .intG [_] [.dep]])
    simp only [LC, LCL, DensL, Dens, and_self, List.length_singleton]

/-- a point-to-point matrix and its cluster entries: the self interaction is left out, the other is not -/
example : (match buildP2PClusters exScene (fun _ => false) true true [(0, 0), (0, 0)] (fun _ => none)
        (.pot (exPot "b" none) [.dep]) with
      | .ok w => entryAt w 1
      | _ => 5) = 0 ∧
    (match buildP2PClusters exScene (fun _ => false) true false [(0, 0), (0, 0)] (fun _ => none)
        (.pot (exPot "b" none) [.dep]) with
      | .ok w => entryAt w 1
      | _ => 5) = -1/2 ∧
    (match buildP2P exScene true false 1 (fun _ => none) (.pot (exPot "b" none) [.dep]) with
      | .ok (.ma _ _ M) => M 0 0
      | _ => 5) = -1/2 := by
  refine ⟨by decide +kernel, by decide +kernel, by decide +kernel⟩

end Verif.LayerMat
