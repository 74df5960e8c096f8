import Verif.QBX.FMM
import Mathlib.Data.List.Nodup

/-!
# The FMMLib backend of the QBX FMM (C59)

Models `QBXFMMLibTreeIndependentDataForWrangler` and the QBX stages of `QBXFMMLibExpansionWrangler`
(`pytential/qbx/fmmlib.py:53-645`) and the loops of target-specific QBX
(`pytential/qbx/target_specific/impl.pyx:564-785`).

The Fortran routines (`formta`, `mploc`, `locloc`, `taeval`) and the target-specific kernels are parameters,
through the same operators as in `Verif.QBX.FMM`; the point FMM passes are those of `Verif.QBX.FMM`.  The values of
evaluation operators are pairs of a potential and a gradient.  Scalings (`rscale`, `radius`) and error codes of the
Fortran routines are not modelled.
-/

namespace Verif.FMMLib

open Verif.Util Verif.Offsets Verif.Geometry Verif.FMM

/-! ## digesting the kernels -/

/-- kernels as far as the digest looks at them; `other` is any other base kernel or wrapper -/
inductive Knl
  | laplace (dim : Nat)
  | helmholtz (dim : Nat) (kName : String)
  | other
  | dirSource (name : String) (inner : Knl)
  | axisTarget (axis : Nat) (inner : Knl)
  deriving DecidableEq, Repr

/-- `get_base_kernel` (sumpy) -/
def Knl.base : Knl → Knl
  | .dirSource _ k => k.base
  | .axisTarget _ k => k.base
  | k => k

/-- `isinstance(knl, LaplaceKernel | HelmholtzKernel)` together with a test of the dimension
(`fmmlib.py:138-139,146-147`) -/
def isBase (dims : List Nat) : Knl → Bool
  | .laplace d => dims.contains d
  | .helmholtz d _ => dims.contains d
  | _ => false

/-- `is_supported_helmknl` (`fmmlib.py:133-139`) -/
def supported : Knl → Bool
  | .dirSource _ k => isBase [2, 3] k
  | k => isBase [2, 3] k

/-- `is_supported_helmknl_for_tsqbx` (`fmmlib.py:141-148`) -/
def supportedTs : Knl → Bool
  | .dirSource _ k => isBase [3] k
  | .axisTarget _ k => isBase [3] k
  | k => isBase [3] k

/-- exceptions raised by the FMMLib wrangler -/
inductive Err | value | index | shape
  deriving DecidableEq, Repr

/-- `dir_vec_name` of the kernel without target derivative, if it is a source derivative (`fmmlib.py:99-101`) -/
def dirName : Knl → Option String
  | .dirSource n _ => some n
  | _ => none

/-- `helmholtz_k_name` of a base kernel (`fmmlib.py:103-106`) -/
def kNameOf : Knl → Option String
  | .helmholtz _ n => some n
  | _ => none

/-- the variables of the loop over the kernels (`fmmlib.py:70-78`) -/
structure Acc where
  ts : Bool
  ifgrad : Bool
  outputs : List (Option Nat)
  derivs : List (Option String)
  ks : List (Option String)

/-- appending one kernel's data (`fmmlib.py:87-106`); `inner` is the kernel without target derivative -/
def Acc.add (a : Acc) (ts : Bool) (axis : Option Nat) (inner k : Knl) : Acc :=
  { ts := ts, ifgrad := a.ifgrad || axis.isSome, outputs := a.outputs ++ [axis],
    derivs := a.derivs ++ [dirName inner], ks := a.ks ++ [kNameOf k.base] }

/-- `isinstance(out_knl, AxisTargetDerivative)`, with its attributes (`fmmlib.py:89-93`) -/
def targetPart : Knl → Option (Nat × Knl)
  | .axisTarget axis inner => some (axis, inner)
  | _ => none

/-- one round of the loop (`fmmlib.py:80-106`) -/
def digestStep (useTs : Option Bool) (a : Acc) (k : Knl) : Except Err Acc :=
  if supportedTs k = false ∧ useTs = some true then .error .value
  else if supported k then .ok (a.add (a.ts && supportedTs k) none k k)
  else match targetPart k with
    | some (axis, inner) =>
      if supported inner then .ok (a.add (a.ts && supportedTs k) (some axis) inner k) else .error .value
    | none => .error .value

/-- the loop (`fmmlib.py:80-106`) -/
def digestLoop (useTs : Option Bool) : List Knl → Acc → Except Err Acc
  | [], a => .ok a
  | k :: ks, a => match digestStep useTs a k with
    | .error e => .error e
    | .ok a' => digestLoop useTs ks a'

/-- `is_single_valued` (pytools) of a nonempty list -/
def singleValued (l : List (Option String)) : Bool := l.all fun x => x == l.headD none

/-- the attributes set by the constructor (`fmmlib.py:108-130`) -/
structure TreeIndep where
  usingTs : Bool
  ifgrad : Bool
  outputs : List (Option Nat)
  sourceDeriv : Option String
  kName : Option String
  deriving DecidableEq, Repr

/-- the constructor (`fmmlib.py:54-130`); `useTs` is `_use_target_specific_qbx` -/
def digest (useTs : Option Bool) (ks : List Knl) : Except Err TreeIndep :=
  if ks = [] then .error .index
  else match digestLoop useTs ks ⟨useTs != some false, false, [], [], []⟩ with
    | .error e => .error e
    | .ok a =>
      if singleValued a.derivs = false then .error .value
      else if singleValued a.ks = false then .error .value
      else .ok ⟨a.ts, a.ifgrad, a.outputs, a.derivs.headD none, a.ks.headD none⟩

/-! ### specification of the digest -/

/-- a Laplace or Helmholtz kernel of one of the given dimensions -/
def IsBase (dims : List Nat) (b : Knl) : Prop :=
  ∃ d ∈ dims, b = .laplace d ∨ ∃ n, b = .helmholtz d n

/-- a two- or three-dimensional Laplace or Helmholtz kernel or a directional source derivative of one -/
def Plain (k : Knl) : Prop := IsBase [2, 3] k ∨ ∃ n b, k = .dirSource n b ∧ IsBase [2, 3] b

/-- the kernels FMMLib handles: plain ones and their target derivatives -/
def Handled (k : Knl) : Prop := Plain k ∨ ∃ axis i, k = .axisTarget axis i ∧ Plain i

/-- the kernels target-specific QBX handles: three-dimensional with at most one derivative -/
def TsHandled (k : Knl) : Prop :=
  IsBase [3] k ∨ (∃ n b, k = .dirSource n b ∧ IsBase [3] b) ∨ ∃ a b, k = .axisTarget a b ∧ IsBase [3] b

/-- the direction of the target derivative -/
def axisOf : Knl → Option Nat
  | .axisTarget a _ => some a
  | _ => none

/-- the name of the source direction, below a target derivative if any -/
def sourceName : Knl → Option String
  | .axisTarget _ i => dirName i
  | k => dirName k

theorem isBase_iff (dims : List Nat) (k : Knl) : isBase dims k = true ↔ IsBase dims k := by
  cases k <;> simp [isBase, IsBase]

theorem supported_iff (k : Knl) : supported k = true ↔ Plain k := by
  cases k with
  | dirSource n b =>
    show isBase [2, 3] b = true ↔ _
    rw [isBase_iff]; simp [Plain, IsBase]
  | _ => simp [supported, Plain, IsBase, isBase]

theorem supportedTs_iff (k : Knl) : supportedTs k = true ↔ TsHandled k := by
  cases k with
  | dirSource n b =>
    show isBase [3] b = true ↔ _
    rw [isBase_iff]; simp [TsHandled, IsBase]
  | axisTarget n b =>
    show isBase [3] b = true ↔ _
    rw [isBase_iff]; simp [TsHandled, IsBase]
  | _ => simp [supportedTs, TsHandled, IsBase, isBase]

theorem plain_axis {k : Knl} (h : Plain k) : axisOf k = none ∧ sourceName k = dirName k := by
  cases k <;> simp_all [Plain, IsBase, axisOf, sourceName]

theorem digestStep_ok (useTs : Option Bool) (a : Acc) (k : Knl)
    (h : Handled k) (hts : useTs = some true → TsHandled k) :
    digestStep useTs a k = .ok ⟨a.ts && supportedTs k, a.ifgrad || (axisOf k).isSome,
      a.outputs ++ [axisOf k], a.derivs ++ [sourceName k], a.ks ++ [kNameOf k.base]⟩ := by
  have h1 : ¬ (supportedTs k = false ∧ useTs = some true) := by
    rintro ⟨h1, h2⟩
    have := (supportedTs_iff k).2 (hts h2)
    rw [h1] at this; cases this
  rw [digestStep, if_neg h1]
  rcases h with h | ⟨axis, i, rfl, h⟩
  · obtain ⟨ha, hs⟩ := plain_axis h
    rw [if_pos ((supported_iff k).2 h), ha, hs]
    rfl
  · have hk : ¬ (supported (.axisTarget axis i) = true) := by simp [supported, isBase]
    rw [if_neg hk]
    simp only [targetPart]
    rw [if_pos ((supported_iff i).2 h)]
    rfl

theorem digestStep_err (useTs : Option Bool) (a : Acc) (k : Knl)
    (h : ¬ (Handled k ∧ (useTs = some true → TsHandled k))) :
    digestStep useTs a k = .error .value := by
  rw [digestStep]
  by_cases h1 : supportedTs k = false ∧ useTs = some true
  · rw [if_pos h1]
  · rw [if_neg h1]
    have hh : ¬ Handled k := by
      intro hk
      apply h
      refine ⟨hk, fun hu => (supportedTs_iff k).1 ?_⟩
      by_contra hc
      exact h1 ⟨by simpa using hc, hu⟩
    have h2 : ¬ (supported k = true) := fun hs => hh (Or.inl ((supported_iff k).1 hs))
    rw [if_neg h2]
    cases k with
    | axisTarget axis i =>
      simp only [targetPart]
      rw [if_neg]
      intro hs
      exact hh (Or.inr ⟨axis, i, rfl, (supported_iff i).1 hs⟩)
    | _ => rfl

theorem digestLoop_spec (useTs : Option Bool) (ks : List Knl) (a : Acc) :
    ((∀ k ∈ ks, Handled k ∧ (useTs = some true → TsHandled k)) →
      digestLoop useTs ks a = .ok ⟨a.ts && ks.all supportedTs, a.ifgrad || ks.any (fun k => (axisOf k).isSome),
        a.outputs ++ ks.map axisOf, a.derivs ++ ks.map sourceName, a.ks ++ ks.map fun k => kNameOf k.base⟩) ∧
    (¬ (∀ k ∈ ks, Handled k ∧ (useTs = some true → TsHandled k)) →
      digestLoop useTs ks a = .error .value) := by
  induction ks generalizing a with
  | nil => simp [digestLoop]
  | cons k ks ih =>
    by_cases hk : Handled k ∧ (useTs = some true → TsHandled k)
    · rw [digestLoop, digestStep_ok useTs a k hk.1 hk.2]
      simp only
      constructor
      · intro h
        rw [(ih _).1 fun k' hk' => h k' (List.mem_cons_of_mem _ hk')]
        simp [Bool.and_assoc, Bool.or_assoc, List.append_assoc]
      · intro h
        apply (ih _).2
        intro h'
        apply h
        intro k' hk'
        rcases List.mem_cons.1 hk' with rfl | hk'
        · exact hk
        · exact h' k' hk'
    · rw [digestLoop, digestStep_err useTs a k hk]
      exact ⟨fun h => absurd (h k List.mem_cons_self) hk, fun _ => rfl⟩

theorem singleValued_iff (l : List (Option String)) (hl : l ≠ []) :
    singleValued l = true ↔ ∃ n, ∀ x ∈ l, x = n := by
  cases l with
  | nil => exact absurd rfl hl
  | cons y l =>
    simp only [singleValued, List.headD_cons, List.all_eq_true, beq_iff_eq]
    constructor
    · intro h; exact ⟨y, h⟩
    · rintro ⟨n, h⟩ x hx
      rw [h x hx, h y List.mem_cons_self]

/-- C59 (kernels): the backend accepts a nonempty list of kernels exactly if each is a 2D/3D Laplace or Helmholtz
kernel with at most a directional source derivative and at most one target derivative outside, all have the
same source direction and the same Helmholtz parameter, and, when target-specific QBX is demanded, each is handled by it;
otherwise it raises.  Accepted, it produces a gradient iff some kernel needs it, every kernel's own output, and uses
target-specific QBX exactly when it is not forbidden and all kernels can be handled. -/
theorem C59_digest (useTs : Option Bool) (ks : List Knl) :
    ((∃ ti, digest useTs ks = .ok ti) ↔
      ks ≠ [] ∧ (∀ k ∈ ks, Handled k) ∧ (∃ n, ∀ k ∈ ks, sourceName k = n) ∧
      (∃ n, ∀ k ∈ ks, kNameOf k.base = n) ∧ (useTs = some true → ∀ k ∈ ks, TsHandled k)) ∧
    (∀ ti, digest useTs ks = .ok ti →
      ti.outputs = ks.map axisOf ∧ (ti.ifgrad = true ↔ ∃ k ∈ ks, axisOf k ≠ none) ∧
      (ti.usingTs = true ↔ useTs ≠ some false ∧ ∀ k ∈ ks, TsHandled k) ∧
      (∀ k ∈ ks, sourceName k = ti.sourceDeriv) ∧ (∀ k ∈ ks, kNameOf k.base = ti.kName)) := by
  by_cases hne : ks = []
  · subst hne; simp [digest]
  obtain ⟨l1, l2⟩ := digestLoop_spec useTs ks ⟨useTs != some false, false, [], [], []⟩
  by_cases hall : ∀ k ∈ ks, Handled k ∧ (useTs = some true → TsHandled k)
  · have hd := l1 hall
    simp only [List.nil_append, Bool.false_or] at hd
    have hs1 := singleValued_iff (ks.map sourceName) (by simpa using hne)
    have hs2 := singleValued_iff (ks.map fun k => kNameOf k.base) (by simpa using hne)
    simp only [List.mem_map, forall_exists_index, and_imp, forall_apply_eq_imp_iff₂] at hs1 hs2
    have hdig : digest useTs ks = (if singleValued (ks.map sourceName) = false then .error .value
        else if singleValued (ks.map fun k => kNameOf k.base) = false then .error .value
        else .ok ⟨(useTs != some false) && ks.all supportedTs, ks.any (fun k => (axisOf k).isSome),
          ks.map axisOf, (ks.map sourceName).headD none, (ks.map fun k => kNameOf k.base).headD none⟩) := by
      rw [digest, if_neg hne, hd]
    by_cases h1 : singleValued (ks.map sourceName) = true
    · by_cases h2 : singleValued (ks.map fun k => kNameOf k.base) = true
      · rw [hdig, if_neg (by simp [h1]), if_neg (by simp [h2])]
        constructor
        · constructor
          · intro _
            exact ⟨hne, fun k hk => (hall k hk).1, hs1.1 h1, hs2.1 h2, fun hu k hk => (hall k hk).2 hu⟩
          · intro _; exact ⟨_, rfl⟩
        · intro ti hti
          injection hti with hti
          subst hti
          refine ⟨rfl, ?_, ?_, ?_, ?_⟩
          · simp [Option.isSome_iff_ne_none]
          · simp [supportedTs_iff]
          · obtain ⟨n, hn⟩ := hs1.1 h1
            cases ks with
            | nil => exact absurd rfl hne
            | cons k0 ks =>
              intro k hk
              simp only [List.map_cons, List.headD_cons]
              rw [hn k hk, hn k0 List.mem_cons_self]
          · obtain ⟨n, hn⟩ := hs2.1 h2
            cases ks with
            | nil => exact absurd rfl hne
            | cons k0 ks =>
              intro k hk
              simp only [List.map_cons, List.headD_cons]
              rw [hn k hk, hn k0 List.mem_cons_self]
      · rw [hdig, if_neg (by simp [h1]), if_pos (by simpa using h2)]
        refine ⟨⟨?_, ?_⟩, fun ti h => by cases h⟩
        · rintro ⟨ti, h⟩; cases h
        · rintro ⟨_, _, _, h, _⟩; exact absurd (hs2.2 h) h2
    · rw [hdig, if_pos (by simpa using h1)]
      refine ⟨⟨?_, ?_⟩, fun ti h => by cases h⟩
      · rintro ⟨ti, h⟩; cases h
      · rintro ⟨_, _, h, _⟩; exact absurd (hs1.2 h) h1
  · have hd := l2 hall
    have hdig : digest useTs ks = .error .value := by rw [digest, if_neg hne, hd]
    rw [hdig]
    refine ⟨⟨?_, ?_⟩, fun ti h => by cases h⟩
    · rintro ⟨ti, h⟩; cases h
    rintro ⟨_, h1, _, _, h2⟩
    exact absurd (fun k hk => ⟨h1 k hk, fun hu => h2 hu k hk⟩) hall

/-- C59 (no gradients of dipoles): when target-specific QBX is used with a source derivative, no gradient is
wanted, so `impl.pyx`'s "Does not support computing gradient of dipole sources" cannot be raised. -/
theorem C59_ts_no_dipole_gradient (useTs : Option Bool) (ks : List Knl) (ti : TreeIndep)
    (h : digest useTs ks = .ok ti) (hts : ti.usingTs = true) (hd : ti.sourceDeriv ≠ none) :
    ti.ifgrad = false := by
  obtain ⟨-, h2, h3, h4, -⟩ := (C59_digest useTs ks).2 ti h
  by_contra hg
  obtain ⟨k, hk, ha⟩ := h2.1 (by simpa using hg)
  have hh := (h3.1 hts).2 k hk
  have hs := h4 k hk
  cases k with
  | axisTarget a i =>
    rcases hh with ⟨d, _, hh | ⟨n, hh⟩⟩ | ⟨n, b, hh, -⟩ | ⟨a', b, hh, hb⟩
    · cases hh
    · cases hh
    · cases hh
    · injection hh with _ hh
      subst hh
      obtain ⟨d, _, rfl | ⟨n, rfl⟩⟩ := hb
      · exact hd hs.symm
      · exact hd hs.symm
  | _ => exact ha rfl

/-- the gradient of a single layer and its normal derivative are accepted, with target-specific QBX in 3D -/
example : digest none [.laplace 3, .axisTarget 0 (.laplace 3), .axisTarget 2 (.laplace 3)]
    = .ok ⟨true, true, [none, some 0, some 2], none, none⟩ := by decide

/-- the derivative of a Helmholtz double layer is accepted, but not with target-specific QBX -/
example : digest none [.dirSource "dsource_vec" (.helmholtz 3 "k"),
      .axisTarget 1 (.dirSource "dsource_vec" (.helmholtz 3 "k"))]
    = .ok ⟨false, true, [none, some 1], some "dsource_vec", some "k"⟩ ∧
    digest (some true) [.axisTarget 1 (.dirSource "dsource_vec" (.helmholtz 3 "k"))] = .error .value ∧
    digest none [.laplace 3, .helmholtz 3 "k"] = .error .value := by decide

/-! ## the QBX stages -/

section

variable {R Mp Lc Qx V : Type} [AddCommMonoid Mp] [AddCommMonoid Lc] [AddCommMonoid Qx] [AddCommMonoid V]

/-- `form_global_qbx_locals` (`fmmlib.py:295-343`): nothing when target-specific QBX does this part or there are no
centers, otherwise `formta_qbx` sums over list 1 of the box of each center in use -/
def formLocals (o : Ops R Mp Lc Qx (V × (Nat → V))) (tr : Trav) (w : Nat → R) (usingTs : Bool)
    (global ctb : List Nat) (c : Nat) : Qx :=
  if usingTs then 0
  else if global.length = 0 then 0
  else if global.contains c then
    ((kernelRow tr.list1Starts tr.list1Lists (ctb.getD c 0)).map fun b =>
      ((kernelOwn tr b).map fun s => o.p2q c s (w s)).sum).sum
  else 0

/-- NumPy indexing `l[j]`, negative indices counting from the end -/
def pyAt (l : List Nat) (j : Int) : Nat := if j < 0 then l.getD (l.length - (-j).toNat) 0 else l.getD j.toNat 0

/-- entry of `nsrc_boxes_per_gqbx_center` for the list position `j` of a center (`fmmlib.py:383-390`) -/
def nSrcBoxes (x : Ssn) (j : Int) : Nat := if j ≠ -1 then pyAt x.starts (j + 1) - pyAt x.starts j else 0

/-- `src_boxes_starts` (`fmmlib.py:393-395`) -/
def srcStarts (x : Ssn) (tbl : List Int) : List Nat := cumsumFrom 0 (tbl.map (nSrcBoxes x))

/-- the right-hand side of the slice assignment to `src_ibox` (`fmmlib.py:409-412`); for `j = -1` NumPy takes the last
entry of `starts` as start -/
def piece (x : Ssn) (j : Int) : List Nat := slice x.lists (pyAt x.starts j) (pyAt x.starts (j + 1))

/-- all slice assignments to `src_ibox` (`fmmlib.py:401-412`); lengths that differ raise -/
def srcIbox (x : Ssn) (tbl : List Int) : Except Err (List (Nat × Nat)) :=
  if tbl.zipIdx.all fun ji => (piece x ji.1).length ==
      (srcStarts x tbl).getD (ji.2 + 1) 0 - (srcStarts x tbl).getD ji.2 0 then
    .ok (tbl.zipIdx.flatMap fun ji => copyStores ((srcStarts x tbl).getD ji.2 0) (piece x ji.1))
  else .error .shape

/-- `mploc_imany` for the `i`-th center in use, `c` (`fmmlib.py:430-449`): sum over the boxes `src_ibox[starts[i]:starts[i+1]]`,
multipoles read through the view of the level -/
def mploc (o : Ops R Mp Lc Qx (V × (Nat → V))) (tr : Trav) (mp : Nat → Mp) (l : Nat) (ibox : Nat → Nat)
    (starts : List Nat) (i c : Nat) : Qx :=
  ((List.range' (starts.getD i 0) (starts.getD (i + 1) 0 - starts.getD i 0)).map fun j =>
    o.m2q c (ibox j) (mp (tr.levelStart l + (ibox j - tr.levelStart l)))).sum

/-- `qbx_exps[idx] += vals`: NumPy reads, adds, and stores (`fmmlib.py:454,549`) -/
def addAt (idx : List Nat) (vals : Nat → Nat → Qx) (q : Nat → Qx) (c : Nat) : Qx :=
  (runStores (idx.zipIdx.map fun ci => (ci.1, q ci.1 + vals ci.2 ci.1)) (fun c => some (q c)) c).getD 0

/-- one source level of `translate_box_multipoles_to_qbx_local` (`fmmlib.py:366-454`) -/
def m2qLevel (o : Ops R Mp Lc Qx (V × (Nat → V))) (tr : Trav) (mp : Nat → Mp) (global ctb : List Nat)
    (q : Nat → Qx) (xl : Ssn × Nat) : Except Err (Nat → Qx) :=
  match srcIbox xl.1 (global.map (centerLevelTable xl.1 ctb)) with
  | .error e => .error e
  | .ok ws =>
    .ok (addAt global (fun i c => mploc o tr mp xl.2 (fun j => (runStores ws (fun _ => none) j).getD 0)
      (srcStarts xl.1 (global.map (centerLevelTable xl.1 ctb))) i c) q)

/-- the loop over source levels -/
def m2qLoop (o : Ops R Mp Lc Qx (V × (Nat → V))) (tr : Trav) (mp : Nat → Mp) (global ctb : List Nat) :
    List (Ssn × Nat) → (Nat → Qx) → Except Err (Nat → Qx)
  | [], q => .ok q
  | xl :: ls, q => match m2qLevel o tr mp global ctb q xl with
    | .error e => .error e
    | .ok q' => m2qLoop o tr mp global ctb ls q'

/-- `translate_box_multipoles_to_qbx_local` (`fmmlib.py:351-456`) -/
def m2q (o : Ops R Mp Lc Qx (V × (Nat → V))) (tr : Trav) (mp : Nat → Mp) (global ctb : List Nat) :
    Except Err (Nat → Qx) :=
  if global.length = 0 then .ok fun _ => 0
  else m2qLoop o tr mp global ctb tr.list3.zipIdx fun _ => 0

/-- `qbx_center_to_box[c]` (`fmmlib.py:489`) -/
def centerBox (tr : Trav) (ctb : List Nat) (c : Nat) : Nat := tr.targetBoxes.getD (ctb.getD c 0) 0

/-- `curr_level_qbx_centers` (`fmmlib.py:503-509`) -/
def levelCenters (tr : Trav) (ncenters : Nat) (global ctb : List Nat) (l : Nat) : List Nat :=
  (List.range ncenters).filter fun c => global.contains c &&
    (decide (tr.levelStart l ≤ centerBox tr ctb c) && decide (centerBox tr ctb c < tr.levelStart l + tr.levelSize l))

/-- one level of `translate_box_local_to_qbx_local` (`fmmlib.py:494-549`) -/
def l2qLevel (o : Ops R Mp Lc Qx (V × (Nat → V))) (tr : Trav) (lc : Nat → Lc) (ncenters : Nat)
    (global ctb : List Nat) (q : Nat → Qx) (l : Nat) : Nat → Qx :=
  if (levelCenters tr ncenters global ctb l).length = 0 then q
  else addAt (levelCenters tr ncenters global ctb l) (fun _ c => o.l2q c (centerBox tr ctb c)
    (lc (tr.levelStart l + (centerBox tr ctb c - tr.levelStart l)))) q

/-- `translate_box_local_to_qbx_local` (`fmmlib.py:462-551`) -/
def l2q (o : Ops R Mp Lc Qx (V × (Nat → V))) (tr : Trav) (lc : Nat → Lc) (ncenters : Nat)
    (global ctb : List Nat) : Nat → Qx :=
  if global.length = 0 then fun _ => 0
  else (List.range tr.nlevels).foldl (fun q l => l2qLevel o tr lc ncenters global ctb q l) fun _ => 0

/-- what `add_potgrad_onto_output` adds to output `out` (`fmmlib.py:248-260`): the potential, or a component of the
gradient; the gradient is the number 0 when `ifgrad` is not set -/
def potgrad (ifgrad : Bool) (out : Option Nat) (pg : V × (Nat → V)) : V :=
  match out with
  | none => pg.1
  | some axis => if ifgrad then pg.2 axis else 0

/-- `eval_qbx_expansions` (`fmmlib.py:554-585`), the array of one output -/
def evalQbx (o : Ops R Mp Lc Qx (V × (Nat → V))) (ifgrad : Bool) (out : Option Nat) (global : List Nat)
    (ctt : Nat → List Nat) (q : Nat → Qx) : Nat → V :=
  (global.flatMap fun c => (ctt c).map fun t => (c, t)).foldl
    (fun acc ct t => if t = ct.2 then acc t + potgrad ifgrad out (o.q2p ct.1 ct.2 (q ct.1)) else acc t) fun _ => 0

/-- the kernels of target-specific QBX: contribution of source `s` through center `c` at target `t` -/
structure TsKernels (R V : Type) where
  laplaceS : Nat → Nat → Nat → R → V
  laplaceD : Nat → Nat → Nat → R → V
  laplaceSp : Nat → Nat → Nat → R → Nat → V
  helmholtzS : Nat → Nat → Nat → R → V
  helmholtzD : Nat → Nat → Nat → R → V
  helmholtzSp : Nat → Nat → Nat → R → Nat → V

/-- the flags (`impl.pyx:640-660`) -/
structure TsFlags where
  laplaceS : Bool
  laplaceSp : Bool
  laplaceD : Bool
  helmholtzS : Bool
  helmholtzSp : Bool
  helmholtzD : Bool

/-- `impl.pyx:640-660` -/
def tsFlags (ifpot ifgrad ifcharge ifdipole kZero : Bool) : TsFlags where
  laplaceS := kZero && ifpot && ifcharge
  laplaceD := kZero && ifpot && ifdipole
  laplaceSp := kZero && ifgrad && ifcharge
  helmholtzS := !kZero && ifpot && ifcharge
  helmholtzD := !kZero && ifpot && ifdipole
  helmholtzSp := !kZero && ifgrad && ifcharge

/-- terms added to `result` and `result_grad` for one source (`impl.pyx:736-781`) -/
def tsTerm (K : TsKernels R V) (f : TsFlags) (s c t : Nat) (w : R) : V × (Nat → V) :=
  ((if f.laplaceS then K.laplaceS s c t w else 0) + (if f.laplaceD then K.laplaceD s c t w else 0)
    + (if f.helmholtzS then K.helmholtzS s c t w else 0) + (if f.helmholtzD then K.helmholtzD s c t w else 0),
   fun m => (if f.laplaceSp then K.laplaceSp s c t w m else 0) + (if f.helmholtzSp then K.helmholtzSp s c t w m else 0))

/-- the stores of the parallel loop over the centers (`impl.pyx:693-785`), potential and gradient together -/
def tsStores (K : TsKernels R V) (f : TsFlags) (tr : Trav) (w : Nat → R) (global ctb : List Nat)
    (ctt : Nat → List Nat) : List (Nat × (V × (Nat → V))) :=
  global.flatMap fun c => (ctt c).map fun t =>
    (t, ((kernelRow tr.list1Starts tr.list1Lists (ctb.getD c 0)).map fun b =>
      ((kernelOwn tr b).map fun s => tsTerm K f s c t (w s)).sum).sum)

/-- `eval_target_specific_qbx_locals` (`fmmlib.py:588-638`, `impl.pyx:608-672`): `ws` are the stores of the loop in
the order they happen; gradients of dipoles raise -/
def evalTs (usingTs ifgrad : Bool) (dipole : Bool) (out : Option Nat) (ws : List (Nat × (V × (Nat → V)))) :
    Except Err (Nat → V) :=
  if usingTs = false then .ok fun _ => 0
  else if dipole && ifgrad then .error .value
  else .ok fun t => potgrad ifgrad out ((runStores ws (fun _ => some 0) t).getD 0)

/-- `drive_fmm` with this wrangler (`fmm.py:414-594`), one output -/
def driveOut (o : Ops R Mp Lc Qx (V × (Nat → V))) (ti : TreeIndep) (tr : Trav) (wt : Nat → R) (g : Geo)
    (tbox : Nat → Nat) (wsT : List (Nat × (V × (Nat → V)))) (out : Option Nat) : Except Err (List V) :=
  match m2q o tr (mpole o tr wt) g.global g.ctb with
  | .error e => .error e
  | .ok qm =>
    match evalTs ti.usingTs ti.ifgrad ti.sourceDeriv.isSome out wsT with
    | .error e => .error e
    | .ok ts =>
      .ok (g.sorted.map fun t =>
        (runStores (g.nonQbx.zip ((nonQbxPotentials o tr wt g.nonQbx tbox).map (potgrad ti.ifgrad out)))
            (fun _ => some 0) t).getD 0
          + (evalQbx o ti.ifgrad out g.global g.ctt (fun c => formLocals o tr wt ti.usingTs g.global g.ctb c + qm c
              + l2q o tr (loc o tr wt) g.ncenters g.global g.ctb c) t + ts t))

/-- `drive_fmm`, all outputs -/
def drive (o : Ops R Mp Lc Qx (V × (Nat → V))) (ti : TreeIndep) (tr : Trav) (wt : Nat → R) (g : Geo)
    (tbox : Nat → Nat) (wsT : List (Nat × (V × (Nat → V)))) : List (Except Err (List V)) :=
  ti.outputs.map (driveOut o ti tr wt g tbox wsT)

/-! ## lemmas -/

theorem addAt_spec (idx : List Nat) (hnd : idx.Nodup) (vals : Nat → Nat → Qx) (q : Nat → Qx) (c : Nat) :
    (∀ i : Nat, idx[i]? = some c → addAt idx vals q c = q c + vals i c) ∧ (c ∉ idx → addAt idx vals q c = q c) := by
  have hk : (idx.zipIdx.map fun ci => (ci.1, q ci.1 + vals ci.2 ci.1)).map Prod.fst = idx := by
    rw [List.map_map]
    exact List.zipIdx_map_fst 0 idx
  constructor
  · intro i hi
    rw [addAt, runStores_mem _ _ c (q c + vals i c) (by rw [hk]; exact hnd)]
    · rfl
    · rw [List.mem_map]
      refine ⟨(c, i), ?_, rfl⟩
      rw [List.mem_zipIdx_iff_getElem?]
      exact hi
  · intro hc
    rw [addAt, runStores_skip _ _ c (by rw [hk]; exact hc)]
    rfl

/-- positions the center table can hold -/
theorem table_cases (x : Ssn) (hx : SsnOK x) (ctb : List Nat) (c k : Nat) (hk : ctb.getD c 0 = k) :
    (centerLevelTable x ctb c = -1 ∧ x.of k = []) ∨
    ∃ j : Nat, j < x.nonempty.length ∧ centerLevelTable x ctb c = (j : Int) ∧ x.of k = x.nth j := by
  obtain ⟨t1, t2⟩ := centerLevelTable_spec x hx.nodup ctb c k hk
  obtain ⟨s1, s2⟩ := ssn_of_spec x hx.nodup k
  by_cases hin : k ∈ x.nonempty
  · obtain ⟨j, hj⟩ := List.mem_iff_getElem?.1 hin
    exact Or.inr ⟨j, (List.getElem?_eq_some_iff.1 hj).1, t1 j hj, s1 j hj⟩
  · exact Or.inl ⟨t2 hin, s2 hin⟩

theorem piece_spec (x : Ssn) (hx : SsnOK x) (ctb : List Nat) (c k : Nat) (hk : ctb.getD c 0 = k) :
    piece x (centerLevelTable x ctb c) = x.of k ∧
    (piece x (centerLevelTable x ctb c)).length = nSrcBoxes x (centerLevelTable x ctb c) := by
  rcases table_cases x hx ctb c k hk with ⟨h1, h2⟩ | ⟨j, hj, h1, h2⟩
  · rw [h1, h2]
    have : piece x (-1) = [] := by
      have h0 : pyAt x.starts (-1 + 1) = 0 := by
        show x.starts.getD 0 0 = 0
        exact hx.zero
      rw [piece, h0]
      simp [slice]
    rw [this]
    exact ⟨rfl, rfl⟩
  · rw [h1, h2]
    have e1 : pyAt x.starts (j : Int) = x.starts.getD j 0 := by
      rw [pyAt, if_neg (by omega), Int.toNat_natCast]
    have e2 : pyAt x.starts ((j : Int) + 1) = x.starts.getD (j + 1) 0 := by
      rw [pyAt, if_neg (by omega)]
      congr 1
    constructor
    · rw [piece, e1, e2]; rfl
    · rw [piece, nSrcBoxes, if_pos (by omega), e1, e2, slice_length _ _ _ (hx.le (j + 1) (by omega))]

theorem starts_get (x : Ssn) (tbl : List Int) (i : Nat) (hi : i ≤ tbl.length) :
    (srcStarts x tbl).getD i 0 = off (fun k => (tbl.map (nSrcBoxes x))[k]?.getD 0) i := by
  rw [srcStarts, List.getD, cumsumFrom_get 0 _ i (by simpa using hi), off_eq_sum _ i (by simpa using hi)]
  simp

theorem starts_diff (x : Ssn) (tbl : List Int) (i : Nat) (j : Int) (hi : tbl[i]? = some j) :
    (srcStarts x tbl).getD (i + 1) 0 = (srcStarts x tbl).getD i 0 + nSrcBoxes x j := by
  have hl := (List.getElem?_eq_some_iff.1 hi).1
  rw [starts_get x tbl i (by omega), starts_get x tbl (i + 1) (by omega), off]
  simp [hi]

theorem srcIbox_ok (x : Ssn) (tbl : List Int) (h : ∀ j ∈ tbl, (piece x j).length = nSrcBoxes x j) :
    ∃ ws, srcIbox x tbl = .ok ws ∧ ∀ (i : Nat) (j : Int), tbl[i]? = some j → ∀ (r b : Nat), (piece x j)[r]? = some b →
      runStores ws (fun _ => none) ((srcStarts x tbl).getD i 0 + r) = some b := by
  refine ⟨tbl.zipIdx.flatMap fun ji => copyStores ((srcStarts x tbl).getD ji.2 0) (piece x ji.1), ?_, ?_⟩
  · rw [srcIbox, if_pos]
    rw [List.all_eq_true]
    rintro ⟨j, i⟩ hji
    rw [List.mem_zipIdx_iff_getElem?] at hji
    simp only at hji ⊢
    rw [starts_diff x tbl i j hji, h j (List.mem_of_getElem? hji), beq_iff_eq]
    omega
  · intro i j hi r b hr
    have hmem : ∀ (p v : Nat), (p, v) ∈ (tbl.zipIdx.flatMap fun ji =>
        copyStores ((srcStarts x tbl).getD ji.2 0) (piece x ji.1)) ↔
        ∃ (i' : Nat) (j' : Int) (r' : Nat), tbl[i']? = some j' ∧ (piece x j')[r']? = some v ∧
          p = (srcStarts x tbl).getD i' 0 + r' := by
      intro p v
      rw [List.mem_flatMap]
      constructor
      · rintro ⟨⟨j', i'⟩, h1, h2⟩
        rw [List.mem_zipIdx_iff_getElem?] at h1
        simp only at h1 h2
        rw [copyStores_eq] at h2
        exact ⟨i', j', p - (srcStarts x tbl).getD i' 0, h1, h2.2, by omega⟩
      · rintro ⟨i', j', r', h1, h2, rfl⟩
        refine ⟨(j', i'), ?_, ?_⟩
        · rw [List.mem_zipIdx_iff_getElem?]; exact h1
        · simp only
          rw [copyStores_eq]
          exact ⟨by omega, by simpa using h2⟩
    apply runStores_mem'
    · intro u hu
      obtain ⟨i', j', r', h1, h2, h3⟩ := (hmem _ _).1 hu
      have hl := (List.getElem?_eq_some_iff.1 hi).1
      have hl' := (List.getElem?_eq_some_iff.1 h1).1
      have hr1 : r < nSrcBoxes x j := by
        rw [← h j (List.mem_of_getElem? hi)]; exact (List.getElem?_eq_some_iff.1 hr).1
      have hr2 : r' < nSrcBoxes x j' := by
        rw [← h j' (List.mem_of_getElem? h1)]; exact (List.getElem?_eq_some_iff.1 h2).1
      have d1 := starts_diff x tbl i j hi
      have d2 := starts_diff x tbl i' j' h1
      have : i = i' := by
        apply off_unique (fun k => (tbl.map (nSrcBoxes x))[k]?.getD 0) (p := (srcStarts x tbl).getD i 0 + r)
        · rw [← starts_get x tbl i (by omega)]; omega
        · rw [← starts_get x tbl (i + 1) (by omega)]; omega
        · rw [← starts_get x tbl i' (by omega)]; omega
        · rw [← starts_get x tbl (i' + 1) (by omega)]; omega
      subst this
      rw [hi] at h1
      injection h1 with h1
      subst h1
      have : r = r' := by omega
      subst this
      rw [hr] at h2
      injection h2 with h2
      exact h2.symm
    · left
      exact (hmem _ _).2 ⟨i, j, r, hi, hr, rfl⟩

theorem range'_map_piece (l : List Nat) (f : Nat → Nat) (a : Nat) (h : ∀ r b : Nat, l[r]? = some b → f (a + r) = b) :
    (List.range' a l.length).map f = l := by
  apply List.ext_getElem
  · simp
  · intro i h1 h2
    simp only [List.getElem_map, List.getElem_range']
    rw [Nat.one_mul]
    exact h i _ (List.getElem?_eq_getElem h2)

theorem m2qLevel_spec (o : Ops R Mp Lc Qx (V × (Nat → V))) (tr : Trav) (mp : Nat → Mp) (global ctb : List Nat)
    (hgn : global.Nodup) (x : Ssn) (hx : SsnOK x) (l : Nat) (q : Nat → Qx)
    (hlev : ∀ k, ∀ b ∈ x.of k, tr.levelStart l ≤ b) :
    ∃ q', m2qLevel o tr mp global ctb q (x, l) = .ok q' ∧
      ∀ c ∈ global, q' c = q c + ((x.of (ctb.getD c 0)).map fun b => o.m2q c b (mp b)).sum := by
  obtain ⟨ws, hws, hbox⟩ := srcIbox_ok x (global.map (centerLevelTable x ctb)) (by
    intro j hj
    obtain ⟨c, _, rfl⟩ := List.mem_map.1 hj
    exact (piece_spec x hx ctb c _ rfl).2)
  refine ⟨_, by rw [m2qLevel]; simp only [hws]; rfl, ?_⟩
  intro c hc
  obtain ⟨i, hi⟩ := List.mem_iff_getElem?.1 hc
  rw [(addAt_spec global hgn _ q c).1 i hi]
  congr 1
  have hti : (global.map (centerLevelTable x ctb))[i]? = some (centerLevelTable x ctb c) := by simp [hi]
  obtain ⟨p1, p2⟩ := piece_spec x hx ctb c _ rfl
  rw [mploc, starts_diff x _ i _ hti, Nat.add_sub_cancel_left, ← p2]
  have hm : (List.range' ((srcStarts x (global.map (centerLevelTable x ctb))).getD i 0)
      (piece x (centerLevelTable x ctb c)).length).map (fun j => (runStores ws (fun _ => none) j).getD 0)
      = piece x (centerLevelTable x ctb c) := by
    apply range'_map_piece
    intro r b hr
    rw [hbox i _ hti r b hr]
    rfl
  rw [← p1]
  conv => rhs; rw [← hm]
  rw [List.map_map]
  congr 1
  apply List.map_congr_left
  intro j hj
  have hb : (runStores ws (fun _ => none) j).getD 0 ∈ x.of (ctb.getD c 0) := by
    rw [← p1, ← hm]
    exact List.mem_map.2 ⟨j, hj, rfl⟩
  have := hlev _ _ hb
  simp only [Function.comp]
  congr 2
  omega

theorem m2qLoop_spec (o : Ops R Mp Lc Qx (V × (Nat → V))) (tr : Trav) (mp : Nat → Mp) (global ctb : List Nat)
    (hgn : global.Nodup) (ls : List (Ssn × Nat))
    (h : ∀ xl ∈ ls, SsnOK xl.1 ∧ ∀ k, ∀ b ∈ xl.1.of k, tr.levelStart xl.2 ≤ b) (q : Nat → Qx) :
    ∃ q', m2qLoop o tr mp global ctb ls q = .ok q' ∧
      ∀ c ∈ global, q' c = q c + (ls.map fun xl => ((xl.1.of (ctb.getD c 0)).map fun b => o.m2q c b (mp b)).sum).sum := by
  induction ls generalizing q with
  | nil => exact ⟨q, rfl, fun c _ => by simp⟩
  | cons xl ls ih =>
    obtain ⟨x, l⟩ := xl
    obtain ⟨h1, h2⟩ := h (x, l) List.mem_cons_self
    obtain ⟨q1, e1, s1⟩ := m2qLevel_spec o tr mp global ctb hgn x h1 l q h2
    obtain ⟨q2, e2, s2⟩ := ih (fun y hy => h y (List.mem_cons_of_mem _ hy)) q1
    refine ⟨q2, by rw [m2qLoop, e1]; exact e2, ?_⟩
    intro c hc
    rw [s2 c hc, s1 c hc]
    simp [add_assoc]

theorem m2q_spec (o : Ops R Mp Lc Qx (V × (Nat → V))) (tr : Trav) (mp : Nat → Mp) (global ctb : List Nat)
    (hgn : global.Nodup) (hok : ∀ x ∈ tr.list3, SsnOK x)
    (hlev : ∀ (l : Nat) (x : Ssn), tr.list3[l]? = some x → ∀ k, ∀ b ∈ x.of k, tr.levelStart l ≤ b) :
    ∃ q, m2q o tr mp global ctb = .ok q ∧ ∀ c ∈ global,
      q c = (tr.list3.map fun x => ((x.of (ctb.getD c 0)).map fun b => o.m2q c b (mp b)).sum).sum := by
  by_cases hg : global.length = 0
  · refine ⟨_, by rw [m2q, if_pos hg], ?_⟩
    intro c hc
    rw [List.length_eq_zero_iff.1 hg] at hc
    cases hc
  · obtain ⟨q, e, s⟩ := m2qLoop_spec o tr mp global ctb hgn tr.list3.zipIdx (by
      rintro ⟨x, l⟩ hx
      rw [List.mem_zipIdx_iff_getElem?] at hx
      exact ⟨hok x (List.mem_of_getElem? hx), hlev l x hx⟩) fun _ => 0
    refine ⟨q, by rw [m2q, if_neg hg]; exact e, ?_⟩
    intro c hc
    rw [s c hc, zero_add, zipIdx_map_fst' tr.list3 fun x => ((x.of (ctb.getD c 0)).map fun b => o.m2q c b (mp b)).sum]

theorem l2q_spec (o : Ops R Mp Lc Qx (V × (Nat → V))) (tr : Trav) (lc : Nat → Lc) (ncenters : Nat)
    (global ctb : List Nat) (c k B : Nat) (hc : c ∈ global) (hcn : c < ncenters)
    (hk : ctb.getD c 0 = k) (hB : tr.targetBoxes[k]? = some B) (hBl : B < tr.levelStart tr.nlevels) :
    l2q o tr lc ncenters global ctb c = o.l2q c B (lc B) := by
  obtain ⟨l0, hl0, h1, h2⟩ := off_exists tr.levelSize (n := tr.nlevels) (p := B) hBl
  have hBB : centerBox tr ctb c = B := by rw [centerBox, hk]; simp [List.getD, hB]
  have hg : global.length ≠ 0 := by
    intro h
    rw [List.length_eq_zero_iff.1 h] at hc
    cases hc
  rw [l2q, if_neg hg, foldl_add_spec _ (fun q l => l2qLevel o tr lc ncenters global ctb q l) c
    (fun l => if tr.levelStart l ≤ B ∧ B < tr.levelStart l + tr.levelSize l then o.l2q c B (lc B) else 0)]
  · rw [zero_add]
    apply sum_map_ite_single tr.nlevels l0 hl0
    · exact ⟨h1, h2⟩
    · rintro l ⟨h3, h4⟩
      exact off_unique tr.levelSize (p := B) h3 h4 h1 h2
  · intro l _ q
    have hnd : (levelCenters tr ncenters global ctb l).Nodup := List.nodup_range.filter _
    have hin : c ∈ levelCenters tr ncenters global ctb l ↔
        tr.levelStart l ≤ B ∧ B < tr.levelStart l + tr.levelSize l := by
      rw [levelCenters, List.mem_filter, hBB]
      simp [hcn, hc]
    rw [l2qLevel]
    by_cases hm : c ∈ levelCenters tr ncenters global ctb l
    · rw [if_neg (by intro h; rw [List.length_eq_zero_iff.1 h] at hm; cases hm), if_pos (hin.1 hm)]
      obtain ⟨i, hi⟩ := List.mem_iff_getElem?.1 hm
      rw [(addAt_spec _ hnd _ q c).1 i hi, hBB]
      have := (hin.1 hm).1
      congr 3
      omega
    · rw [if_neg (fun h => hm (hin.2 h)), add_zero]
      split
      · rfl
      · exact (addAt_spec _ hnd _ q c).2 hm

theorem potgrad_zero (g : Bool) (out : Option Nat) : potgrad g out (0 : V × (Nat → V)) = 0 := by
  cases out with
  | none => rfl
  | some a => simp [potgrad]

theorem potgrad_add (g : Bool) (out : Option Nat) (x y : V × (Nat → V)) :
    potgrad g out (x + y) = potgrad g out x + potgrad g out y := by
  cases out with
  | none => rfl
  | some a => cases g <;> simp [potgrad]

theorem potgrad_sum {X : Type} (g : Bool) (out : Option Nat) (l : List X) (f : X → V × (Nat → V)) :
    potgrad g out ((l.map f).sum) = (l.map fun x => potgrad g out (f x)).sum := by
  induction l with
  | nil => simp [potgrad_zero]
  | cons x l ih => simp [potgrad_add, ih]

/-- the potential, or the component of the gradient -/
def sel (out : Option Nat) (v : V × (Nat → V)) : V :=
  match out with
  | none => v.1
  | some a => v.2 a

theorem potgrad_sel (g : Bool) (out : Option Nat) (h : out ≠ none → g = true) (v : V × (Nat → V)) :
    potgrad g out v = sel out v := by
  cases out with
  | none => rfl
  | some a => rw [potgrad, if_pos (h (by simp))]; rfl

theorem sum_single {X A : Type} [AddCommMonoid A] (l : List X) (hl : l.Nodup) (p : X → Prop) [DecidablePred p] (f : X → A)
    (x : X) (hx : x ∈ l) (hp : ∀ y ∈ l, p y ↔ y = x) : (l.map fun y => if p y then f y else 0).sum = f x := by
  induction l with
  | nil => cases hx
  | cons a l ih =>
    rw [List.nodup_cons] at hl
    rw [List.map_cons, List.sum_cons]
    rcases List.mem_cons.1 hx with rfl | hx'
    · rw [if_pos ((hp x hx).2 rfl)]
      have : (l.map fun y => if p y then f y else 0) = l.map fun _ => (0 : A) := by
        apply List.map_congr_left
        intro y hy
        rw [if_neg]
        intro h
        have := (hp y (List.mem_cons_of_mem _ hy)).1 h
        exact hl.1 (this ▸ hy)
      rw [this]
      simp
    · rw [if_neg, zero_add]
      · exact ih hl.2 hx' fun y hy => hp y (List.mem_cons_of_mem _ hy)
      · intro h
        have := (hp a List.mem_cons_self).1 h
        exact hl.1 (this ▸ hx')

theorem evalQbx_eq (o : Ops R Mp Lc Qx (V × (Nat → V))) (ifgrad : Bool) (out : Option Nat) (global : List Nat)
    (ctt : Nat → List Nat) (q : Nat → Qx) (t : Nat) :
    evalQbx o ifgrad out global ctt q t = ((global.flatMap fun c => (ctt c).map fun t => (c, t)).map fun ct =>
      if t = ct.2 then potgrad ifgrad out (o.q2p ct.1 ct.2 (q ct.1)) else 0).sum := by
  rw [evalQbx, foldl_add_spec _ (fun (acc : Nat → V) (ct : Nat × Nat) (t : Nat) => if t = ct.2 then
    acc t + potgrad ifgrad out (o.q2p ct.1 ct.2 (q ct.1)) else acc t) t
    (fun ct => if t = ct.2 then potgrad ifgrad out (o.q2p ct.1 ct.2 (q ct.1)) else 0)]
  · rw [zero_add]
  · intro ct _ acc
    split <;> simp

theorem mem_pairs (global : List Nat) (ctt : Nat → List Nat) (c t : Nat) :
    (c, t) ∈ (global.flatMap fun c => (ctt c).map fun t => (c, t)) ↔ c ∈ global ∧ t ∈ ctt c := by
  rw [List.mem_flatMap]
  constructor
  · rintro ⟨c', h1, h2⟩
    obtain ⟨t', h3, h4⟩ := List.mem_map.1 h2
    injection h4 with h4 h5
    subst h4 h5
    exact ⟨h1, h3⟩
  · rintro ⟨h1, h2⟩
    exact ⟨c, h1, List.mem_map.2 ⟨t, h2, rfl⟩⟩

theorem nodup_pairs (global : List Nat) (ctt : Nat → List Nat) (h1 : global.Nodup) (h2 : ∀ c ∈ global, (ctt c).Nodup) :
    (global.flatMap fun c => (ctt c).map fun t => (c, t)).Nodup := by
  rw [List.nodup_flatMap]
  refine ⟨fun c hc => (h2 c hc).map fun a b h => by injection h, ?_⟩
  refine h1.imp ?_
  intro a b hab x ha hb
  obtain ⟨_, _, rfl⟩ := List.mem_map.1 ha
  obtain ⟨_, _, h⟩ := List.mem_map.1 hb
  injection h with h _
  exact hab h.symm

/-- the value at a target with the center `c`, and zero at targets of no center -/
theorem evalQbx_spec (o : Ops R Mp Lc Qx (V × (Nat → V))) (tr : Trav) (ifgrad : Bool) (out : Option Nat) (g : Geo)
    (hg : GeoOK g tr) (q : Nat → Qx) (u t : Nat) (hu : g.sorted[u]? = some t) :
    (∀ c : Nat, g.ttc[u]? = some (c : Int) →
      evalQbx o ifgrad out g.global g.ctt q t = potgrad ifgrad out (o.q2p c t (q c))) ∧
    ((∀ c : Nat, g.ttc[u]? ≠ some (c : Int)) → evalQbx o ifgrad out g.global g.ctt q t = 0) := by
  have hpair : ∀ c', (c', t) ∈ (g.global.flatMap fun c => (g.ctt c).map fun t => (c, t)) →
      g.ttc[u]? = some (c' : Int) := by
    intro c' h
    rw [mem_pairs] at h
    obtain ⟨u', hu', hcu'⟩ := (hg.ctt c' ((hg.global c').1 h.1).1 _).1 h.2
    have := perm_inj g.sorted hg.perm u u' _ hu hu'
    subst this
    exact hcu'
  constructor
  · intro c hc
    have hcl : c < g.ncenters := by have := (hg.range u _ hc).2; omega
    have hun : g.ncenters ≤ u := by
      by_contra hlt
      have h1 := hg.center u (by omega)
      rw [hc] at h1
      injection h1 with h1
      omega
    have hcg : c ∈ g.global := (hg.global c).2 ⟨hcl, u, hun, hc⟩
    rw [evalQbx_eq, sum_single _ (nodup_pairs _ _ hg.globalNodup fun c hc => hg.cttNodup c ((hg.global c).1 hc).1)
      (fun ct : Nat × Nat => t = ct.2) (fun ct => potgrad ifgrad out (o.q2p ct.1 ct.2 (q ct.1))) (c, t)]
    · rw [mem_pairs]
      exact ⟨hcg, (hg.ctt c hcl t).2 ⟨u, hu, hc⟩⟩
    · rintro ⟨c', t'⟩ hm
      constructor
      · intro h
        simp only at h
        subst h
        have := hpair c' hm
        rw [hc] at this
        injection this with this
        have : c = c' := by omega
        rw [this]
      · intro h
        injection h with _ h
        exact h.symm
  · intro hno
    rw [evalQbx_eq]
    have : ((g.global.flatMap fun c => (g.ctt c).map fun t => (c, t)).map fun ct =>
      if t = ct.2 then potgrad ifgrad out (o.q2p ct.1 ct.2 (q ct.1)) else 0)
      = (g.global.flatMap fun c => (g.ctt c).map fun t => (c, t)).map fun _ => (0 : V) := by
      apply List.map_congr_left
      rintro ⟨c', t'⟩ hm
      rw [if_neg]
      intro h
      simp only at h
      subst h
      exact hno c' (hpair c' hm)
    rw [this]
    simp

/-- the kernels of target-specific QBX give what forming an expansion at the center and evaluating it gives -/
structure TsExact (K : TsKernels R V) (kZero dipole : Bool) (o : Ops R Mp Lc Qx (V × (Nat → V))) : Prop where
  s : dipole = false → ∀ s c t w, (if kZero then K.laplaceS s c t w else K.helmholtzS s c t w)
    = (o.q2p c t (o.p2q c s w)).1
  sp : dipole = false → ∀ s c t w m, (if kZero then K.laplaceSp s c t w m else K.helmholtzSp s c t w m)
    = (o.q2p c t (o.p2q c s w)).2 m
  d : dipole = true → ∀ s c t w, (if kZero then K.laplaceD s c t w else K.helmholtzD s c t w)
    = (o.q2p c t (o.p2q c s w)).1

/-- the flags the wrangler passes (`fmmlib.py:600-604`) -/
def wranglerFlags (ti : TreeIndep) (kZero : Bool) : TsFlags :=
  tsFlags (ti.outputs.any fun out => out.isNone) ti.ifgrad (!ti.sourceDeriv.isSome) ti.sourceDeriv.isSome kZero

theorem tsTerm_spec (K : TsKernels R V) (kZero : Bool) (o : Ops R Mp Lc Qx (V × (Nat → V))) (ti : TreeIndep)
    (hK : TsExact K kZero ti.sourceDeriv.isSome o) (hd : ti.sourceDeriv.isSome = true → ti.ifgrad = false)
    (out : Option Nat) (hout : out ∈ ti.outputs) (hgr : out ≠ none → ti.ifgrad = true) (s c t : Nat) (w : R) :
    sel out (tsTerm K (wranglerFlags ti kZero) s c t w) = sel out (o.q2p c t (o.p2q c s w)) := by
  cases out with
  | none =>
    have hp : (ti.outputs.any fun out => out.isNone) = true := List.any_eq_true.2 ⟨none, hout, rfl⟩
    show (tsTerm K (wranglerFlags ti kZero) s c t w).1 = (o.q2p c t (o.p2q c s w)).1
    rw [tsTerm, wranglerFlags, hp]
    cases hdp : ti.sourceDeriv.isSome with
    | false =>
      rw [← hK.s hdp]
      cases kZero <;> simp [tsFlags]
    | true =>
      rw [← hK.d hdp]
      cases kZero <;> simp [tsFlags]
  | some a =>
    have hgr' := hgr (by simp)
    have hdp : ti.sourceDeriv.isSome = false := by
      cases h : ti.sourceDeriv.isSome with
      | false => rfl
      | true => rw [hd h] at hgr'; cases hgr'
    show (tsTerm K (wranglerFlags ti kZero) s c t w).2 a = (o.q2p c t (o.p2q c s w)).2 a
    rw [tsTerm, wranglerFlags, hgr', hdp, ← hK.sp hdp]
    cases kZero <;> simp [tsFlags]

theorem ts_mem (K : TsKernels R V) (f : TsFlags) (tr : Trav) (w : Nat → R) (global ctb : List Nat)
    (ctt : Nat → List Nat) (t : Nat) (v : V × (Nat → V)) :
    (t, v) ∈ tsStores K f tr w global ctb ctt ↔ ∃ c ∈ global, t ∈ ctt c ∧
      v = ((kernelRow tr.list1Starts tr.list1Lists (ctb.getD c 0)).map fun b =>
        ((kernelOwn tr b).map fun s => tsTerm K f s c t (w s)).sum).sum := by
  rw [tsStores, List.mem_flatMap]
  constructor
  · rintro ⟨c, h1, h2⟩
    obtain ⟨t', h3, h4⟩ := List.mem_map.1 h2
    injection h4 with h4 h5
    subst h4
    exact ⟨c, h1, h3, h5.symm⟩
  · rintro ⟨c, h1, h2, rfl⟩
    exact ⟨c, h1, List.mem_map.2 ⟨t, h2, rfl⟩⟩

/-- the result of target-specific QBX at a target of center `c`, and at targets of no center -/
theorem ts_spec (K : TsKernels R V) (f : TsFlags) (tr : Trav) (w : Nat → R) (g : Geo)
    (hg : GeoOK g tr) (ws : List (Nat × (V × (Nat → V)))) (hws : ws.Perm (tsStores K f tr w g.global g.ctb g.ctt))
    (u t : Nat) (hu : g.sorted[u]? = some t) :
    (∀ c : Nat, g.ttc[u]? = some (c : Int) → runStores ws (fun _ => some 0) t = some
      ((kernelRow tr.list1Starts tr.list1Lists (g.ctb.getD c 0)).map fun b =>
        ((kernelOwn tr b).map fun s => tsTerm K f s c t (w s)).sum).sum) ∧
    ((∀ c : Nat, g.ttc[u]? ≠ some (c : Int)) → runStores ws (fun _ => some 0) t = some 0) := by
  have hcen : ∀ c', c' ∈ g.global → t ∈ g.ctt c' → g.ttc[u]? = some (c' : Int) := by
    intro c' h1 h2
    obtain ⟨u', hu', hcu'⟩ := (hg.ctt c' ((hg.global c').1 h1).1 _).1 h2
    have := perm_inj g.sorted hg.perm u u' _ hu hu'
    subst this
    exact hcu'
  constructor
  · intro c hc
    have hcl : c < g.ncenters := by have := (hg.range u _ hc).2; omega
    have hun : g.ncenters ≤ u := by
      by_contra hlt
      have h1 := hg.center u (by omega)
      rw [hc] at h1
      injection h1 with h1
      omega
    have hcg : c ∈ g.global := (hg.global c).2 ⟨hcl, u, hun, hc⟩
    apply runStores_mem'
    · intro v hv
      rw [hws.mem_iff, ts_mem] at hv
      obtain ⟨c', h1, h2, h3⟩ := hv
      have := hcen c' h1 h2
      rw [hc] at this
      injection this with this
      have : c = c' := by omega
      subst this
      exact h3
    · left
      rw [hws.mem_iff, ts_mem]
      exact ⟨c, hcg, (hg.ctt c hcl t).2 ⟨u, hu, hc⟩, rfl⟩
  · intro hno
    rw [runStores_skip]
    intro hin
    obtain ⟨⟨t', v⟩, hm, rfl⟩ := List.mem_map.1 hin
    rw [hws.mem_iff, ts_mem] at hm
    obtain ⟨c', h1, h2, -⟩ := hm
    exact hno c' (hcen c' h1 h2)

/-- forming the expansion of a center from list 1, when target-specific QBX does not do it -/
theorem formLocals_spec (o : Ops R Mp Lc Qx (V × (Nat → V))) (tr : Trav) (w : Nat → R) (usingTs : Bool)
    (global ctb : List Nat) (c : Nat) (hc : c ∈ global) :
    formLocals o tr w usingTs global ctb c = if usingTs then 0 else
      ((kernelRow tr.list1Starts tr.list1Lists (ctb.getD c 0)).map fun b =>
        ((kernelOwn tr b).map fun s => o.p2q c s (w s)).sum).sum := by
  have hg : global.length ≠ 0 := by
    intro h
    rw [List.length_eq_zero_iff.1 h] at hc
    cases hc
  rw [formLocals]
  cases usingTs with
  | true => rfl
  | false =>
    simp only [Bool.false_eq_true, if_false]
    rw [if_neg hg, if_pos (by simpa using hc)]

/-- list 1, the multipoles of list 3 and the local expansion represent all sources -/
theorem all_sources (o : Ops R Mp Lc Qx (V × (Nat → V))) (val qval) (he : Exact o val qval) (tr : Trav) (ns : Nat)
    (hcov : Covers tr ns) (htr : TravOK tr) (w : Nat → R) (ctb : List Nat)
    (c k B : Nat) (hk : ctb.getD c 0 = k) (hB : tr.targetBoxes[k]? = some B) :
    ((kernelRow tr.list1Starts tr.list1Lists (ctb.getD c 0)).map fun b =>
        ((kernelOwn tr b).map fun s => o.p2q c s (w s)).sum).sum
      + (tr.list3.map fun x => ((x.of (ctb.getD c 0)).map fun b => o.m2q c b (mpole o tr w b)).sum).sum
      + o.l2q c B (loc o tr w B) = ((List.range ns).map fun s => o.p2q c s (w s)).sum := by
  have hlev := fun l x hx b hb => htr.level l x hx k b hb
  have hBl := htr.box B (List.mem_of_getElem? hB)
  have h := qbx_spec o val qval he tr ns hcov w [c] ctb (by simp) _ (List.Perm.refl _) htr c k B (by simp) hk hB
  rw [qbxExpansions, m2qbxl_spec o tr _ ctb htr.ssn c k hk hlev, l2qbxl_spec o tr _ ctb c k B hk hB hBl] at h
  rw [← h, hk]
  congr 2
  rw [runStores_mem _ _ c (((kernelRow tr.list1Starts tr.list1Lists k).map fun b =>
    ((kernelOwn tr b).map fun s => o.p2q c s (w s)).sum).sum)]
  · rfl
  · simp [p2qbxlStores]
  · rw [p2qbxlStores, List.map_singleton, hk]
    exact List.mem_singleton.2 rfl

theorem sel_add (out : Option Nat) (x y : V × (Nat → V)) : sel out (x + y) = sel out x + sel out y := by
  cases out <;> rfl

theorem sel_sum {X : Type} (out : Option Nat) (l : List X) (f : X → V × (Nat → V)) :
    sel out ((l.map f).sum) = (l.map fun x => sel out (f x)).sum := by
  induction l with
  | nil => cases out <;> rfl
  | cons x l ih => simp [sel_add, ih]

theorem driveOut_spec (o : Ops R Mp Lc Qx (V × (Nat → V))) (val qval) (he : Exact o val qval) (tr : Trav) (ns : Nat)
    (hcov : Covers tr ns) (htr : TravOK tr) (g : Geo) (hg : GeoOK g tr)
    (wt : Nat → R) (tbox : Nat → Nat)
    (htb : ∀ t < g.sorted.length, ∃ B, tr.targetBoxes[tbox t]? = some B)
    (ti : TreeIndep) (K : TsKernels R V) (kZero : Bool)
    (hK : ti.usingTs = true → TsExact K kZero ti.sourceDeriv.isSome o)
    (hd : ti.usingTs = true → ti.sourceDeriv.isSome = true → ti.ifgrad = false)
    (wsT : List (Nat × (V × (Nat → V))))
    (hT : wsT.Perm (tsStores K (wranglerFlags ti kZero) tr wt g.global g.ctb g.ctt))
    (out : Option Nat) (hout : out ∈ ti.outputs) (hgr : out ≠ none → ti.ifgrad = true) :
    ∃ res, driveOut o ti tr wt g tbox wsT out = .ok res ∧ res.length = g.sorted.length ∧
      ∀ u t : Nat, g.sorted[u]? = some t →
      (g.ncenters ≤ u → g.ttc[u]? = some (-1) →
        res[u]? = some (((List.range ns).map fun s => sel out (val s t (wt s))).sum)) ∧
      (∀ c : Nat, g.ttc[u]? = some (c : Int) →
        res[u]? = some (((List.range ns).map fun s => sel out (qval s c t (wt s))).sum)) := by
  obtain ⟨qm, hqm, hqs⟩ := m2q_spec o tr (mpole o tr wt) g.global g.ctb hg.globalNodup htr.ssn htr.level
  obtain ⟨ts, hts, htsv⟩ : ∃ ts, evalTs ti.usingTs ti.ifgrad ti.sourceDeriv.isSome out wsT = .ok ts ∧
      ∀ t, ts t = if ti.usingTs then sel out ((runStores wsT (fun _ => some 0) t).getD 0) else 0 := by
    cases hu : ti.usingTs with
    | false => exact ⟨fun _ => 0, by rw [evalTs, if_pos rfl], fun t => by simp⟩
    | true =>
      refine ⟨fun t => potgrad ti.ifgrad out ((runStores wsT (fun _ => some 0) t).getD 0), ?_, ?_⟩
      · rw [evalTs, if_neg (by simp), if_neg]
        intro h
        rw [Bool.and_eq_true] at h
        have := hd hu h.1
        rw [h.2] at this
        cases this
      · intro t
        simp only [if_true]
        exact potgrad_sel _ _ hgr _
  refine ⟨g.sorted.map fun t =>
        (runStores (g.nonQbx.zip ((nonQbxPotentials o tr wt g.nonQbx tbox).map (potgrad ti.ifgrad out)))
            (fun _ => some 0) t).getD 0
          + (evalQbx o ti.ifgrad out g.global g.ctt (fun c => formLocals o tr wt ti.usingTs g.global g.ctb c + qm c
              + l2q o tr (loc o tr wt) g.ncenters g.global g.ctb c) t + ts t), by simp only [driveOut, hqm, hts],
    by simp, ?_⟩
  intro u t hu
  have htl : t < g.sorted.length := by
    have := hg.perm.mem_iff.1 (List.mem_of_getElem? hu)
    simpa using this
  have hkN : (g.nonQbx.zip ((nonQbxPotentials o tr wt g.nonQbx tbox).map (potgrad ti.ifgrad out))).map Prod.fst
      = g.nonQbx := List.map_fst_zip (by simp [nonQbxPotentials])
  obtain ⟨e1, e2⟩ := evalQbx_spec o tr ti.ifgrad out g hg (fun c => formLocals o tr wt ti.usingTs g.global g.ctb c + qm c
              + l2q o tr (loc o tr wt) g.ncenters g.global g.ctb c) u t hu
  obtain ⟨t1, t2⟩ := ts_spec K (wranglerFlags ti kZero) tr wt g hg wsT hT u t hu
  rw [List.getElem?_map, hu]
  simp only [Option.map_some]
  constructor
  · intro huc hv
    have hno : ∀ c : Nat, g.ttc[u]? ≠ some (c : Int) := by
      intro c h
      rw [hv] at h
      injection h with h
      omega
    rw [e2 hno, htsv, t2 hno]
    have hz : (if ti.usingTs = true then sel out ((some (0 : V × (Nat → V))).getD 0) else 0) = 0 := by
      split
      · cases out <;> rfl
      · rfl
    rw [hz, add_zero, add_zero]
    congr 1
    rw [runStores_mem _ _ t (potgrad ti.ifgrad out
      (evalDirect o tr wt (tbox t) t + evalMultipoles o tr wt (tbox t) t + evalLocals o tr wt (tbox t) t))]
    · obtain ⟨B, hB⟩ := htb t htl
      rw [Option.getD_some, point_spec o val qval he tr ns hcov wt _ B t hB, potgrad_sel _ _ hgr, sel_sum]
    · rw [hkN]; exact hg.nonQbxNodup
    · have : t ∈ g.nonQbx := (hg.nonQbx t).2 ⟨u, huc, hu, hv⟩
      obtain ⟨i, hi⟩ := List.mem_iff_getElem?.1 this
      rw [List.mem_iff_getElem?]
      refine ⟨i, ?_⟩
      rw [List.getElem?_zip_eq_some]
      exact ⟨hi, by simp [nonQbxPotentials, hi]⟩
  · intro c hc
    have hcl : c < g.ncenters := by have := (hg.range u _ hc).2; omega
    have hun : g.ncenters ≤ u := by
      by_contra hlt
      have h1 := hg.center u (by omega)
      rw [hc] at h1
      injection h1 with h1
      omega
    have hcg : c ∈ g.global := (hg.global c).2 ⟨hcl, u, hun, hc⟩
    obtain ⟨k, B, hk, hB⟩ := hg.ctb c hcl
    have hk' : g.ctb.getD c 0 = k := by simp [List.getD, hk]
    rw [runStores_skip, e1 c hc, htsv, t1 c hc]
    · congr 1
      have hall := all_sources o val qval he tr ns hcov htr wt g.ctb c k B hk' hB
      have hqv : ((List.range ns).map fun s => sel out (qval s c t (wt s))).sum
          = sel out (o.q2p c t (((List.range ns).map fun s => o.p2q c s (wt s)).sum)) := by
        rw [sum_map_hom, sel_sum]
        congr 1
        apply List.map_congr_left
        intro s _
        rw [he.q2p]
      rw [hqv, ← hall, potgrad_sel _ _ hgr, formLocals_spec o tr wt _ _ _ c hcg, hqs c hcg,
        l2q_spec o tr _ g.ncenters g.global g.ctb c k B hcg hcl hk' hB (htr.box B (List.mem_of_getElem? hB))]
      cases hus : ti.usingTs with
      | false => simp
      | true =>
        have hterm : sel out (((kernelRow tr.list1Starts tr.list1Lists (g.ctb.getD c 0)).map fun b => ((kernelOwn tr b).map fun s =>
              tsTerm K (wranglerFlags ti kZero) s c t (wt s)).sum).sum)
            = sel out (o.q2p c t (((kernelRow tr.list1Starts tr.list1Lists (g.ctb.getD c 0)).map fun b => ((kernelOwn tr b).map fun s =>
              o.p2q c s (wt s)).sum).sum)) := by
          rw [sum_map_hom, sel_sum, sel_sum]
          congr 1
          apply List.map_congr_left
          intro b _
          rw [sum_map_hom, sel_sum, sel_sum]
          congr 1
          apply List.map_congr_left
          intro s _
          exact tsTerm_spec K kZero o ti (hK hus) (hd hus) out hout hgr s c t (wt s)
        simp only [if_true, Option.getD_some, zero_add]
        rw [hterm, map_add, map_add, map_add, sel_add, sel_add, sel_add]
        abel
    · rw [hkN, hg.nonQbx]
      rintro ⟨u', h1, h2, h3⟩
      have := perm_inj g.sorted hg.perm u u' _ hu h2
      subst this
      rw [hc] at h3
      injection h3 with h3
      omega

/-- C59: for every list of kernels `ks` the backend accepts (`hti`), with exact translation operators (values are the
potential and its gradient), exact target-specific kernels where these are used, and a traversal covering every source exactly
once for each target box, the driver with the FMMLib wrangler raises no error and returns one array per kernel, in the order of
the kernels; its entry for a target is, in user order, the sum over all sources -- through the target's
QBX center if it has one, directly otherwise -- of the potential, or of the component of the gradient the kernel asks for.  In particular
the results with and without target-specific QBX are equal.  The parallel loop over the centers stores in
arbitrary order. -/
theorem C59_fmmlib (o : Ops R Mp Lc Qx (V × (Nat → V))) (K : Nat → Nat → R → V × (Nat → V))
    (Q : Nat → Nat → Nat → R → V × (Nat → V))
    (useTs : Option Bool) (ks : List Knl) (ti : TreeIndep) (hti : digest useTs ks = .ok ti)
    (T : TsKernels R V) (kZero : Bool) (hT : ti.usingTs = true → TsExact T kZero ti.sourceDeriv.isSome o)
    (us : List Nat) (hus : us.Perm (List.range us.length)) (ut : Nat → Nat) (sorted : List Nat)
    (hut : ∀ u t : Nat, sorted[u]? = some t → ut t = u)
    (hsorted : sorted.Perm (List.range sorted.length))
    (he : Exact o (fun s t => K (us.getD s 0) (ut t)) (fun s c t => Q (us.getD s 0) c (ut t)))
    (tr : Trav) (hcov : Covers tr us.length) (htr : TravOK tr)
    (ncenters : Nat) (assoc : List Int) (hassoc : ∀ v ∈ assoc, -1 ≤ v ∧ v < (ncenters : Int))
    (hlen : sorted.length = ncenters + assoc.length)
    -- own target ranges of the boxes
    (boxes : List (Nat × Nat)) (hnd : tr.targetBoxes.Nodup)
    (htb : ∀ b ∈ tr.targetBoxes, b < boxes.length)
    (hown : ∀ (b s n : Nat), boxes[b]? = some (s, n) → 0 < n → b ∈ tr.targetBoxes)
    (hbcov : ∀ t < sorted.length, ∃ b s n : Nat, boxes[b]? = some (s, n) ∧ s ≤ t ∧ t < s + n)
    (huniq : ∀ (t b s n b' s' n' : Nat), boxes[b]? = some (s, n) → s ≤ t → t < s + n →
      boxes[b']? = some (s', n') → s' ≤ t → t < s' + n' → b = b')
    (hin : ∀ (b s n : Nat), boxes[b]? = some (s, n) → s + n ≤ sorted.length)
    (tbox : Nat → Nat)
    (htbox : ∀ t < sorted.length, ∃ B : Nat, tr.targetBoxes[tbox t]? = some B)
    -- the stores of the kernels, in the order they happen
    (ws1 : List (Nat × Int)) (hws1 : ws1.Perm (sorted.zip (userTtc ncenters assoc)))
    (ws2 : List (Nat × Nat))
    (hws2 : ws2.Perm (scanFrom (fun c : Int => decide (0 ≤ c)) 0 0 (scatter ws1 0 sorted.length)))
    (starts lists : List Nat)
    (hkv : KVSorted (filteredPairs (scatter ws1 0 sorted.length)
      (scanOut ws2 (scanCount (fun c : Int => decide (0 ≤ c)) (scatter ws1 0 sorted.length))))
      ncenters starts lists)
    (wsU : List (Nat × Bool)) (hwsU : wsU.Perm (usedStores assoc))
    (ws0 : List (Nat × Nat)) (hws0 : ws0.Perm (sorted.zip (List.range sorted.length)))
    (wsB : List (Nat × Nat))
    (hwsB : wsB.Perm (lookupStores ncenters (boxToTargetBox tr.targetBoxes boxes.length) boxes
      (scatter ws0 0 sorted.length)))
    (w : Nat → R)
    (g : Geo) (hg : g = ⟨ncenters, sorted, userTtc ncenters assoc, globalCenters ncenters wsU,
      fun c => slice lists (starts.getD c 0) (starts.getD (c + 1) 0),
      nonQbxTargets sorted (nonQbxFlags ncenters (userTtc ncenters assoc)), centerToTargetBox ncenters wsB⟩)
    (wsT : List (Nat × (V × (Nat → V))))
    (hwsT : wsT.Perm (tsStores T (wranglerFlags ti kZero) tr (fun s => w (us.getD s 0)) g.global g.ctb g.ctt)) :
    ∃ results : List (List V),
      drive o ti tr (fun s => w (us.getD s 0)) g tbox wsT = results.map Except.ok ∧ results.length = ks.length ∧
      ∀ (n : Nat) (k : Knl) (result : List V), ks[n]? = some k → results[n]? = some result →
        result.length = ncenters + assoc.length ∧
        ∀ i < assoc.length,
          (assoc[i]? = some (-1) → result[ncenters + i]?
            = some (((List.range us.length).map fun s => sel (axisOf k) (K s (ncenters + i) (w s))).sum)) ∧
          (∀ c : Nat, assoc[i]? = some (c : Int) → result[ncenters + i]?
            = some (((List.range us.length).map fun s => sel (axisOf k) (Q s c (ncenters + i) (w s))).sum)) := by
  have hgo := geo_ok tr sorted hsorted ncenters assoc hassoc hlen boxes hnd htb hown hbcov huniq hin ws1 hws1 ws2
    hws2 starts lists hkv wsU hwsU ws0 hws0 wsB hwsB
  rw [← hg] at hgo
  obtain ⟨hout, hgrad, -, -, -⟩ := (C59_digest useTs ks).2 ti hti
  have hone : ∀ k ∈ ks, ∃ res, driveOut o ti tr (fun s => w (us.getD s 0)) g tbox wsT (axisOf k) = .ok res ∧
      res.length = g.sorted.length ∧ ∀ u t : Nat, g.sorted[u]? = some t →
      (g.ncenters ≤ u → g.ttc[u]? = some (-1) → res[u]?
        = some (((List.range us.length).map fun s => sel (axisOf k) (K (us.getD s 0) (ut t) (w (us.getD s 0)))).sum)) ∧
      (∀ c : Nat, g.ttc[u]? = some (c : Int) → res[u]?
        = some (((List.range us.length).map fun s => sel (axisOf k) (Q (us.getD s 0) c (ut t) (w (us.getD s 0)))).sum)) := by
    intro k hk
    refine driveOut_spec o _ _ he tr us.length hcov htr g hgo (fun s => w (us.getD s 0)) tbox ?_ ti T kZero hT ?_ wsT
      hwsT (axisOf k) ?_ ?_
    · rw [hg]; exact htbox
    · intro h1 h2
      exact C59_ts_no_dipole_gradient useTs ks ti hti h1 (Option.isSome_iff_ne_none.1 h2)
    · rw [hout]; exact List.mem_map.2 ⟨k, hk, rfl⟩
    · intro h; exact hgrad.2 ⟨k, hk, h⟩
  -- collect the arrays
  obtain ⟨results, h1, h2⟩ : ∃ results : List (List V),
      (ks.map axisOf).map (driveOut o ti tr (fun s => w (us.getD s 0)) g tbox wsT) = results.map Except.ok ∧
      results.length = ks.length := by
    clear hti hout hgrad
    induction ks with
    | nil => exact ⟨[], rfl, rfl⟩
    | cons k ks ih =>
      obtain ⟨r, hr, -⟩ := hone k List.mem_cons_self
      obtain ⟨rs, e1, e2⟩ := ih fun k' hk' => hone k' (List.mem_cons_of_mem _ hk')
      exact ⟨r :: rs, by rw [List.map_cons, List.map_cons, hr, e1]; rfl, by simp [e2]⟩
  refine ⟨results, by rw [drive, hout]; exact h1, h2, ?_⟩
  intro n k result hk hres
  obtain ⟨res, e1, e2, e3⟩ := hone k (List.mem_of_getElem? hk)
  have : res = result := by
    have := congrArg (fun l => l[n]?) h1
    simp only [List.getElem?_map, hk, hres, Option.map_some] at this
    injection this with this
    rw [e1] at this
    injection this
  subst this
  subst hg
  simp only at e2 e3
  refine ⟨by rw [e2, hlen], ?_⟩
  intro i hi
  have hul : ncenters + i < sorted.length := by omega
  have hu : sorted[ncenters + i]? = some sorted[ncenters + i] := List.getElem?_eq_getElem hul
  obtain ⟨d2, d3⟩ := e3 (ncenters + i) _ hu
  have hget : (userTtc ncenters assoc)[ncenters + i]? = assoc[i]? := by
    rw [userTtc, List.getElem?_append_right (by simp)]
    simp
  rw [hut _ _ hu] at d2 d3
  constructor
  · intro hv
    rw [d2 (by omega) (by rw [hget]; exact hv)]
    congr 1
    exact sum_sources us hus fun s => sel (axisOf k) (K s (ncenters + i) (w s))
  · intro c hc
    rw [d3 c (by rw [hget]; exact hc)]
    congr 1
    exact sum_sources us hus fun s => sel (axisOf k) (Q s c (ncenters + i) (w s))

end

/-! ## an instance: the linear kernel of `Verif.QBX.FMM` with its derivative -/

/-- potential and derivative of an expansion at distance `d` -/
def exEval2 (d : Int) : Int × Int →+ Int × (Nat → Int) where
  toFun p := (exEval d p, fun _ => 2 * p.1)
  map_zero' := by ext <;> simp
  map_add' p q := by
    ext
    · simp
    · simp; ring

/-- the operators of `exOps`, with derivatives -/
def exOps2 (us : List Nat) (ut : Nat → Nat) : Ops Int (Int × Int) (Int × Int) (Int × Int) (Int × (Nat → Int)) where
  p2p s t w := (w * (exPos (us.getD s 0) + 2 * exPos (ut t)), fun _ => 2 * w)
  p2m := (exOps us ut).p2m
  m2m := (exOps us ut).m2m
  m2l := (exOps us ut).m2l
  p2l := (exOps us ut).p2l
  l2l := (exOps us ut).l2l
  m2p b t := exEval2 (100 * b + 2 * exPos (ut t))
  l2p b t := exEval2 (100 * b + 2 * exPos (ut t))
  p2q := (exOps us ut).p2q
  m2q := (exOps us ut).m2q
  l2q := (exOps us ut).l2q
  q2p c t := exEval2 (7 * c + 2 * exPos (ut t) + 1000)

/-- target-specific kernels for single layers, without expansions -/
def exTs (us : List Nat) (ut : Nat → Nat) : TsKernels Int Int where
  laplaceS s _ t w := w * (exPos (us.getD s 0) + 2 * exPos (ut t) + 1000)
  laplaceSp _ _ _ w _ := 2 * w
  laplaceD _ _ _ _ := 0
  helmholtzS _ _ _ _ := 0
  helmholtzD _ _ _ _ := 0
  helmholtzSp _ _ _ _ _ := 0

theorem exExact2 (us : List Nat) (ut : Nat → Nat) :
    Exact (exOps2 us ut) (fun s t w => (w * (exPos (us.getD s 0) + 2 * exPos (ut t)), fun _ => 2 * w))
      (fun s _ t w => (w * (exPos (us.getD s 0) + 2 * exPos (ut t) + 1000), fun _ => 2 * w)) where
  p2p s t w := rfl
  m2m := (exExact us ut).m2m
  m2l := (exExact us ut).m2l
  l2l := (exExact us ut).l2l
  m2p b t s w := by
    have := (exExact us ut).m2p b t s w
    exact Prod.ext this rfl
  l2p b t s w := by
    have := (exExact us ut).l2p b t s w
    exact Prod.ext this rfl
  m2q := (exExact us ut).m2q
  l2q := (exExact us ut).l2q
  q2p c t s w := by
    have := (exExact us ut).q2p c t s w
    exact Prod.ext this rfl

example (us : List Nat) (ut : Nat → Nat) : TsExact (exTs us ut) true false (exOps2 us ut) where
  s _ s c t w := by rw [(exExact2 us ut).q2p]; rfl
  sp _ s c t w m := by rw [(exExact2 us ut).q2p]; rfl
  d h := by cases h

/-- geometry of the example in `Verif.QBX.FMM` -/
def exGeo : Geo := ⟨1, [0, 1, 2, 3], [-1, -1, 0, -1], [0], fun _ => [2], [1, 3], [0]⟩

/-- weights in tree order -/
def exWt (s : Nat) : Int := ([1, 10, 100] : List Int).getD ([2, 0, 1].getD s 0) 0

/-- with and without target-specific QBX, the potential and its derivative -/
example (useTs : Bool) :
    ∃ ti, digest (some useTs) [.laplace 3, .axisTarget 0 (.laplace 3)] = .ok ti ∧ ti.usingTs = useTs ∧
    drive (exOps2 [2, 0, 1] id) ti exTrav exWt exGeo (fun t => if t ≤ 1 then 0 else 1)
      (tsStores (exTs [2, 0, 1] id) (wranglerFlags ti true) exTrav exWt exGeo.global exGeo.ctb exGeo.ctt)
    = [.ok [0,
       1 * (3 + 2 * 8) + 10 * (8 + 2 * 8) + 100 * (13 + 2 * 8),
       1 * (3 + 2 * 13 + 1000) + 10 * (8 + 2 * 13 + 1000) + 100 * (13 + 2 * 13 + 1000),
       1 * (3 + 2 * 18) + 10 * (8 + 2 * 18) + 100 * (13 + 2 * 18)],
       .ok [0, 222, 222, 222]] := by
  cases useTs
  · exact ⟨⟨false, true, [none, some 0], none, none⟩, by decide, rfl, by decide +kernel⟩
  · exact ⟨⟨true, true, [none, some 0], none, none⟩, by decide, rfl, by decide +kernel⟩

end Verif.FMMLib
