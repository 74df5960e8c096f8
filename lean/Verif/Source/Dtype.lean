import Verif.Util.Lists
import Mathlib.Tactic.Common

/-!
# The types in which potentials are computed (C64)

Models the choice of array types in `pytential/source.py` (`get_p2p` with its memoization in the array
context, `PointPotentialSource.complex_dtype`, `_entry_dtype`, `get_fmm_output_and_expansion_dtype`) and
in `pytential/qbx/__init__.py` (`get_lpot_applier`, `get_lpot_applier_on_tgt_subset` and the calls in
`exec_compute_potential_insn_fmm`).

A kernel is represented by whether it is complex-valued, together with an identifier.
-/

namespace Verif.Dtype

open Verif

/-- `real_dtype` of a geometry: numpy's single and double precision, or another floating point type -/
inductive RealT
  | f32 | f64 | other
deriving DecidableEq, Repr

/-- an array type: precision and whether entries are complex -/
structure Dt where
  prec : RealT
  complex : Bool
deriving DecidableEq, Repr

/-- exceptions -/
inductive Err
  | key | type | value
deriving DecidableEq, Repr

/-- `real_dtype` (`source.py:193-196,349-352`) -/
def realDtype (t : RealT) : Dt := ⟨t, false⟩

/-- `complex_dtype` (`source.py:209-215`): a dictionary with two entries. (For a layer potential source it
is that of the discretization, which behaves the same.) -/
def complexDtype : RealT → Except Err Dt
  | .f32 => .ok ⟨.f32, true⟩
  | .f64 => .ok ⟨.f64, true⟩
  | .other => .error .key

/-- a kernel: an identifier and `is_complex_valued` -/
structure Kernel where
  id : Nat
  isComplex : Bool
deriving DecidableEq, Repr

/-- the choice made in `get_p2p`, `get_lpot_applier` and `get_lpot_applier_on_tgt_subset`
(`source.py:117-120`, `qbx/__init__.py:816-819,834-837`): complex if any target kernel is -/
def kernelDtype (src : RealT) (tks : List Kernel) : Except Err Dt :=
  if tks.any Kernel.isComplex then complexDtype src else .ok (realDtype src)

/-- a `sumpy.p2p.P2P` object -/
structure P2P where
  targetKernels : List Kernel
  sourceKernels : Option (List Kernel)
  valueDtype : Dt
deriving DecidableEq, Repr

/-- the cache kept by `memoize_in(actx, (PotentialSource, "p2p"))`, keyed by the arguments of the inner
function: target and source kernels -/
abbrev P2PCache := List ((List Kernel × Option (List Kernel)) × P2P)

/-- the inner function of `get_p2p` (`source.py:115-124`); `self` is a captured variable -/
def makeP2P (src : RealT) (tks : List Kernel) (sks : Option (List Kernel)) : Except Err P2P :=
  (kernelDtype src tks).map fun d => ⟨tks, sks, d⟩

/-- `get_p2p` (`source.py:106-126`): look up, else compute and store; exceptions are not stored -/
def getP2P (cache : P2PCache) (src : RealT) (tks : List Kernel) (sks : Option (List Kernel)) :
    Except Err P2P × P2PCache :=
  match alookup (tks, sks) cache with
  | some r => (.ok r, cache)
  | none =>
    match makeP2P src tks sks with
    | .ok r => (.ok r, ((tks, sks), r) :: cache)
    | .error e => (.error e, cache)

/-- one call of `get_p2p` -/
structure Call where
  src : RealT
  tks : List Kernel
  sks : Option (List Kernel)
deriving DecidableEq, Repr

/-- the cache after a history of calls in one array context -/
def history : List Call → P2PCache
  | [] => []
  | c :: cs => (getP2P (history cs) c.src c.tks c.sks).2

/-- the same for `get_lpot_applier` (`qbx/__init__.py:812-828`), memoized per source object -/
def lpotDtype (src : RealT) (tks : List Kernel) : Except Err Dt := kernelDtype src tks

/-- what `_entry_dtype` (`source.py:294-311`) distinguishes: a `DOFArray`, an object array with
entries, a plain array, anything else -/
inductive Ary
  | dof (d : Dt)
  | obj (entries : List Ary)
  | flat (d : Dt)
  | other

/-- `pytools.single_valued`: `ValueError` for an empty iterable or differing values -/
def singleValued : List (Except Err Dt) → Except Err Dt
  | [] => .error .value
  | .error e :: _ => .error e
  | .ok d :: rest => go d rest
where
  go (d : Dt) : List (Except Err Dt) → Except Err Dt
    | [] => .ok d
    | .error e :: _ => .error e
    | .ok d' :: rest => if d' = d then go d rest else .error .value

mutual
/-- `_entry_dtype` (`source.py:294-311`) -/
def entryDtype : Ary → Except Err Dt
  | .dof d => .ok d
  | .obj l => singleValued (entryDtypes l)
  | .flat d => .ok d
  | .other => .error .type
/-- `_entry_dtype` of the entries of an object array -/
def entryDtypes : List Ary → List (Except Err Dt)
  | [] => []
  | a :: l => entryDtype a :: entryDtypes l
end

/-- `get_fmm_output_and_expansion_dtype` (`source.py:381-391`) -/
def fmmDtype (src : RealT) (kernels : List Kernel) (strengths : Ary) : Except Err Dt :=
  if kernels.any Kernel.isComplex then complexDtype src
  else
    match entryDtype strengths with
    | .error e => .error e
    | .ok d => if d.complex then complexDtype src else .ok (realDtype src)

/-- the calls in `exec_compute_potential_insn_fmm` (`qbx/__init__.py:732-734`,
`unregularized.py:261-263`): the first of the strengths only -/
def insnDtype (src : RealT) (kernels : List Kernel) (strengths : List Ary) : Except Err Dt :=
  match strengths with
  | [] => .error .key
  | s :: _ => fmmDtype src kernels s

/-! ## Specification -/

/-- an array (possibly nested) all of whose leaves have one type -/
inductive HasDtype : Ary → Dt → Prop
  | dof (d) : HasDtype (.dof d) d
  | flat (d) : HasDtype (.flat d) d
  | obj (l d) (hne : l ≠ []) (h : ∀ a ∈ l, HasDtype a d) : HasDtype (.obj l) d

/-- the type the values of a potential need: the precision of the geometry, complex if some kernel or
some density is -/
def Wanted (src : RealT) (kernels : List Kernel) (strengths : List Dt) (d : Dt) : Prop :=
  d.prec = src ∧ (d.complex = true ↔ (∃ k ∈ kernels, k.isComplex = true) ∨ ∃ s ∈ strengths, s.complex = true)

/-! ## Proofs -/

theorem complexDtype_ok (src : RealT) (h : src ≠ .other) : complexDtype src = .ok ⟨src, true⟩ := by
  cases src with
  | f32 => rfl
  | f64 => rfl
  | other => exact absurd rfl h

theorem any_iff (ks : List Kernel) :
    (ks.any Kernel.isComplex = true) ↔ ∃ k ∈ ks, k.isComplex = true := List.any_eq_true

/-- C64: a type chosen from the target kernels alone is right as long as the densities are real or some
target kernel is complex-valued. Missing: complex densities with real kernels
(`C64_direct_complex_density_refuted`). -/
theorem C64_direct_partial (src : RealT) (tks : List Kernel) (strengths : List Dt) (hsrc : src ≠ .other)
    (h : (∃ s ∈ strengths, s.complex = true) → ∃ k ∈ tks, k.isComplex = true) :
    ∃ d, lpotDtype src tks = .ok d ∧ Wanted src tks strengths d := by
  by_cases hk : tks.any Kernel.isComplex = true
  · refine ⟨⟨src, true⟩, ?_, rfl, ?_⟩
    · rw [lpotDtype, kernelDtype, if_pos hk, complexDtype_ok src hsrc]
    · exact ⟨fun _ => .inl ((any_iff tks).1 hk), fun _ => rfl⟩
  · refine ⟨⟨src, false⟩, ?_, rfl, ?_⟩
    · rw [lpotDtype, kernelDtype, if_neg hk]; rfl
    · constructor
      · intro h'; cases h'
      · rintro (h' | h')
        · exact absurd ((any_iff tks).2 h') hk
        · exact absurd ((any_iff tks).2 (h h')) hk

/-- C64, direct QBX evaluation: for a real kernel (such as Laplace's) and a complex density the result
array is real. -/
theorem C64_direct_complex_density_refuted :
    ∃ (src : RealT) (tks : List Kernel) (strengths : List Dt) (d : Dt), src ≠ .other ∧
      lpotDtype src tks = .ok d ∧ ¬ Wanted src tks strengths d := by
  refine ⟨.f64, [⟨0, false⟩], [⟨.f64, true⟩], ⟨.f64, false⟩, by decide, rfl, ?_⟩
  rintro ⟨_, h⟩
  have := h.2 (.inr ⟨⟨.f64, true⟩, by simp, rfl⟩)
  cases this

theorem go_ok (l : List (Except Err Dt)) (d d' : Dt) (h : singleValued.go d l = .ok d') :
    d' = d ∧ ∀ x ∈ l, x = .ok d := by
  induction l with
  | nil => rw [singleValued.go] at h; injection h with h; exact ⟨h.symm, by simp⟩
  | cons a l ih =>
    cases a with
    | error e => rw [singleValued.go] at h; cases h
    | ok b =>
      rw [singleValued.go] at h
      by_cases hb : b = d
      · rw [if_pos hb] at h
        obtain ⟨h1, h2⟩ := ih h
        refine ⟨h1, ?_⟩
        intro x hx
        rcases List.mem_cons.1 hx with rfl | hx
        · rw [hb]
        · exact h2 x hx
      · rw [if_neg hb] at h; cases h

theorem go_all (l : List (Except Err Dt)) (d : Dt) (h : ∀ x ∈ l, x = .ok d) :
    singleValued.go d l = .ok d := by
  induction l with
  | nil => rfl
  | cons a l ih =>
    have := h a List.mem_cons_self
    subst this
    rw [singleValued.go, if_pos rfl]
    exact ih fun x hx => h x (List.mem_cons_of_mem _ hx)

theorem singleValued_iff (l : List (Except Err Dt)) (d : Dt) :
    singleValued l = .ok d ↔ l ≠ [] ∧ ∀ x ∈ l, x = .ok d := by
  cases l with
  | nil =>
    constructor
    · intro h; rw [singleValued] at h; cases h
    · rintro ⟨h, _⟩; exact absurd rfl h
  | cons a l =>
    cases a with
    | error e =>
      constructor
      · intro h; rw [singleValued] at h; cases h
      · rintro ⟨_, h⟩; have := h _ List.mem_cons_self; cases this
    | ok b =>
      rw [singleValued]
      constructor
      · intro h
        obtain ⟨h1, h2⟩ := go_ok l b d h
        refine ⟨by simp, ?_⟩
        intro x hx
        rcases List.mem_cons.1 hx with rfl | hx
        · rw [h1]
        · rw [h1]; exact h2 x hx
      · rintro ⟨_, h⟩
        have hb := h _ List.mem_cons_self
        injection hb with hb
        subst hb
        exact go_all l b fun x hx => h x (List.mem_cons_of_mem _ hx)

theorem mem_entryDtypes (l : List Ary) (x : Except Err Dt) :
    x ∈ entryDtypes l ↔ ∃ a ∈ l, entryDtype a = x := by
  induction l with
  | nil => simp [entryDtypes]
  | cons a l ih => simp [entryDtypes, ih, eq_comm]

theorem entryDtypes_ne (l : List Ary) : entryDtypes l ≠ [] ↔ l ≠ [] := by
  cases l <;> simp [entryDtypes]

mutual
theorem entry_sound : ∀ (a : Ary) (d : Dt), entryDtype a = .ok d → HasDtype a d
  | .dof d', d, h => by rw [entryDtype] at h; injection h with h; subst h; exact .dof _
  | .flat d', d, h => by rw [entryDtype] at h; injection h with h; subst h; exact .flat _
  | .other, d, h => by rw [entryDtype] at h; cases h
  | .obj l, d, h => by
    rw [entryDtype, singleValued_iff] at h
    refine .obj l d ((entryDtypes_ne l).1 h.1) ?_
    exact entries_sound l d fun a ha => h.2 _ ((mem_entryDtypes l _).2 ⟨a, ha, rfl⟩)
theorem entries_sound : ∀ (l : List Ary) (d : Dt), (∀ a ∈ l, entryDtype a = .ok d) →
    ∀ a ∈ l, HasDtype a d
  | [], _, _, a, ha => by cases ha
  | b :: l, d, h, a, ha => by
    rcases List.mem_cons.1 ha with hab | ha
    · rw [hab]; exact entry_sound b d (h b List.mem_cons_self)
    · exact entries_sound l d (fun x hx => h x (List.mem_cons_of_mem _ hx)) a ha
end

theorem entry_complete (a : Ary) (d : Dt) (h : HasDtype a d) : entryDtype a = .ok d := by
  induction h with
  | dof d => rw [entryDtype]
  | flat d => rw [entryDtype]
  | obj l d hne _ ih =>
    rw [entryDtype, singleValued_iff]
    refine ⟨(entryDtypes_ne l).2 hne, ?_⟩
    intro x hx
    obtain ⟨a, ha, rfl⟩ := (mem_entryDtypes l x).1 hx
    exact ih a ha

/-- C64: the entry type of a value is found exactly when all arrays in it, however nested, have one and
the same type; that type is returned. -/
theorem C64_entry_dtype (a : Ary) (d : Dt) : entryDtype a = .ok d ↔ HasDtype a d :=
  ⟨entry_sound a d, entry_complete a d⟩

/-- C64: an FMM computes in the right type, provided no density is complex unless the first one is (or
some kernel is). Missing: instructions whose first density is real and another complex
(`C64_fmm_first_density_refuted`). -/
theorem C64_fmm_partial (src : RealT) (kernels : List Kernel) (strengths : List Ary)
    (dts : List Dt) (hsrc : src ≠ .other) (hne : strengths ≠ [])
    (hd : List.Forall₂ HasDtype strengths dts)
    (h : ∀ d0, dts.head? = some d0 → (∃ s ∈ dts, s.complex = true) →
      d0.complex = true ∨ ∃ k ∈ kernels, k.isComplex = true) :
    ∃ d, insnDtype src kernels strengths = .ok d ∧ Wanted src kernels dts d := by
  cases hd with
  | nil => exact absurd rfl hne
  | @cons s d0 ss ds hs hds =>
    have he := entry_complete s d0 hs
    have h0 := h d0 rfl
    by_cases hk : kernels.any Kernel.isComplex = true
    · refine ⟨⟨src, true⟩, ?_, rfl, ?_⟩
      · rw [insnDtype, fmmDtype, if_pos hk, complexDtype_ok src hsrc]
      · exact ⟨fun _ => .inl ((any_iff kernels).1 hk), fun _ => rfl⟩
    · by_cases hc : d0.complex = true
      · refine ⟨⟨src, true⟩, ?_, rfl, ?_⟩
        · rw [insnDtype, fmmDtype, if_neg hk, he]
          simp only [if_pos hc]
          rw [complexDtype_ok src hsrc]
        · exact ⟨fun _ => .inr ⟨d0, List.mem_cons_self, hc⟩, fun _ => rfl⟩
      · refine ⟨⟨src, false⟩, ?_, rfl, ?_⟩
        · rw [insnDtype, fmmDtype, if_neg hk, he]
          simp only [if_neg hc]
          rfl
        · constructor
          · intro h'; cases h'
          · rintro (h' | h')
            · exact absurd ((any_iff kernels).2 h') hk
            · rcases h0 h' with h'' | h''
              · exact absurd h'' hc
              · exact absurd ((any_iff kernels).2 h'') hk

/-- C64, FMM evaluation: with real kernels, a real first density and a complex second one, the output
type is real. -/
theorem C64_fmm_first_density_refuted :
    ∃ (src : RealT) (kernels : List Kernel) (strengths : List Ary) (dts : List Dt) (d : Dt),
      src ≠ .other ∧ List.Forall₂ HasDtype strengths dts ∧
      insnDtype src kernels strengths = .ok d ∧ ¬ Wanted src kernels dts d := by
  refine ⟨.f64, [⟨0, false⟩], [.dof ⟨.f64, false⟩, .dof ⟨.f64, true⟩], [⟨.f64, false⟩, ⟨.f64, true⟩],
    ⟨.f64, false⟩, by decide, ?_, rfl, ?_⟩
  · exact .cons (.dof _) (.cons (.dof _) .nil)
  · rintro ⟨_, h⟩
    have := h.2 (.inr ⟨⟨.f64, true⟩, by simp, rfl⟩)
    cases this

/-- what the cache of a history holds -/
theorem history_mem (cs : List Call) (k : List Kernel × Option (List Kernel)) (r : P2P)
    (h : (k, r) ∈ history cs) :
    ∃ c ∈ cs, (c.tks, c.sks) = k ∧ makeP2P c.src c.tks c.sks = .ok r := by
  induction cs with
  | nil => simp [history] at h
  | cons c cs ih =>
    rw [history, getP2P] at h
    cases hl : alookup (c.tks, c.sks) (history cs) with
    | some r' =>
      rw [hl] at h
      obtain ⟨c', hc', h'⟩ := ih h
      exact ⟨c', List.mem_cons_of_mem _ hc', h'⟩
    | none =>
      rw [hl] at h
      cases hm : makeP2P c.src c.tks c.sks with
      | ok r' =>
        simp only [hm] at h
        rcases List.mem_cons.1 h with h | h
        · injection h with h1 h2
          subst h1
          subst h2
          exact ⟨c, List.mem_cons_self, rfl, hm⟩
        · obtain ⟨c', hc', h'⟩ := ih h
          exact ⟨c', List.mem_cons_of_mem _ hc', h'⟩
      | error e =>
        simp only [hm] at h
        obtain ⟨c', hc', h'⟩ := ih h
        exact ⟨c', List.mem_cons_of_mem _ hc', h'⟩

theorem makeP2P_fields {src : RealT} {tks : List Kernel} {sks : Option (List Kernel)} {r : P2P}
    (h : makeP2P src tks sks = .ok r) :
    r.targetKernels = tks ∧ r.sourceKernels = sks ∧ kernelDtype src tks = .ok r.valueDtype := by
  rw [makeP2P] at h
  cases hk : kernelDtype src tks with
  | error e => rw [hk] at h; cases h
  | ok d =>
    rw [hk] at h
    have : (⟨tks, sks, d⟩ : P2P) = r := by injection h
    subst this
    exact ⟨rfl, rfl, rfl⟩

/-- C64: whatever was evaluated before in the array context, the evaluator of point-to-point
interactions has the kernels asked for. -/
theorem C64_p2p_kernels (cs : List Call) (c : Call) (r : P2P)
    (h : (getP2P (history cs) c.src c.tks c.sks).1 = .ok r) :
    r.targetKernels = c.tks ∧ r.sourceKernels = c.sks := by
  rw [getP2P] at h
  cases hl : alookup (c.tks, c.sks) (history cs) with
  | some r' =>
    rw [hl] at h
    injection h with h
    subst h
    obtain ⟨c', _, h1, h2⟩ := history_mem cs _ _ (alookup_mem hl)
    injection h1 with h3 h4
    obtain ⟨h5, h6, _⟩ := makeP2P_fields h2
    exact ⟨h5.trans h3, h6.trans h4⟩
  | none =>
    rw [hl] at h
    cases hm : makeP2P c.src c.tks c.sks with
    | error e => simp only [hm] at h; cases h
    | ok r' =>
      simp only [hm] at h
      injection h with h
      subst h
      exact ⟨(makeP2P_fields hm).1, (makeP2P_fields hm).2.1⟩

/-- C64: as long as all sources used in an array context have the same precision, the result type of a
point-to-point evaluation does not depend on what was evaluated before: it is the one this source would
choose itself. Missing: sources of different precision (`C64_p2p_history_refuted`). -/
theorem C64_p2p_history_partial (cs : List Call) (c : Call) (hsrc : c.src ≠ .other)
    (hsame : ∀ c' ∈ cs, c'.src = c.src) :
    ∃ r, (getP2P (history cs) c.src c.tks c.sks).1 = .ok r ∧ Wanted c.src c.tks [] r.valueDtype := by
  have hw : ∀ d, kernelDtype c.src c.tks = .ok d → Wanted c.src c.tks [] d := by
    intro d hd
    obtain ⟨d', h1, h2⟩ := C64_direct_partial c.src c.tks [] hsrc (by rintro ⟨s, hs, _⟩; cases hs)
    rw [lpotDtype, hd] at h1
    injection h1 with h1
    rw [h1]; exact h2
  rw [getP2P]
  cases hl : alookup (c.tks, c.sks) (history cs) with
  | some r =>
    refine ⟨r, rfl, ?_⟩
    obtain ⟨c', hc', h1, h2⟩ := history_mem cs _ _ (alookup_mem hl)
    injection h1 with h3 h4
    have h5 := (makeP2P_fields h2).2.2
    rw [hsame c' hc', h3] at h5
    exact hw _ h5
  | none =>
    obtain ⟨d, h1, h2⟩ := C64_direct_partial c.src c.tks [] hsrc (by rintro ⟨s, hs, _⟩; cases hs)
    rw [lpotDtype] at h1
    have hm : makeP2P c.src c.tks c.sks = .ok ⟨c.tks, c.sks, d⟩ := by rw [makeP2P, h1]; rfl
    simp only [hm]
    exact ⟨_, rfl, h2⟩

/-- C64, where history matters: after a double precision source, a single precision source evaluating the
same kernels gets the double precision evaluator (and the other way round). -/
theorem C64_p2p_history_refuted :
    ∃ (cs : List Call) (c : Call) (r : P2P), c.src ≠ .other ∧
      (getP2P (history cs) c.src c.tks c.sks).1 = .ok r ∧ ¬ Wanted c.src c.tks [] r.valueDtype ∧
      ∃ r', (getP2P (history []) c.src c.tks c.sks).1 = .ok r' ∧ Wanted c.src c.tks [] r'.valueDtype := by
  refine ⟨[⟨.f64, [⟨0, false⟩], none⟩], ⟨.f32, [⟨0, false⟩], none⟩, ⟨[⟨0, false⟩], none, ⟨.f64, false⟩⟩,
    by decide, by decide, ?_, ⟨[⟨0, false⟩], none, ⟨.f32, false⟩⟩, by decide, ?_⟩
  · rintro ⟨h, _⟩; cases h
  · refine ⟨rfl, ?_⟩
    constructor
    · intro h; cases h
    · rintro (⟨k, hk, h⟩ | ⟨s, hs, _⟩)
      · have : k = ⟨0, false⟩ := by simpa using hk
        subst this; cases h
      · cases hs

/-! ## Non-vacuity -/

example : entryDtype (.obj [.dof ⟨.f64, true⟩, .obj [.flat ⟨.f64, true⟩]]) = .ok ⟨.f64, true⟩ := by
  decide +kernel

example : entryDtype (.obj [.dof ⟨.f64, true⟩, .dof ⟨.f64, false⟩]) = .error .value := by decide +kernel

example : ∃ d, insnDtype .f32 [⟨1, false⟩] [.dof ⟨.f32, true⟩, .dof ⟨.f32, false⟩] = .ok d ∧
    Wanted .f32 [⟨1, false⟩] [⟨.f32, true⟩, ⟨.f32, false⟩] d :=
  C64_fmm_partial _ _ _ _ (by decide) (by simp) (.cons (.dof _) (.cons (.dof _) .nil))
    (by intro d0 h _; injection h with h; subst h; exact .inl rfl)

end Verif.Dtype
