import Mathlib.Tactic.Common
import Verif.Compiler.Props
import Verif.Symbolic.DofDesc

/-!
# Printed descriptors and programs (C100)

Model of `DOFDescriptor.__str__` (`pytential/symbolic/dof_desc.py:235-262`), `stringify_where`
(`mappers.py:888-889`), `Assign.__str__`, `ComputePotential.__str__` (`compiler.py:155-187`, `269-316`) and
`Code.__str__` (`compiler.py:420-427`).  Texts are lists of characters.  The texts of kernels (with the source
kernels put in the place of the base kernel) and of expressions are parameters.
-/

namespace Verif.Printing
open Verif.DofDesc (Stage Gran)
open Verif.Compiler

/-- a printed text -/
abbrev Txt := List Char

/-- `sep.join(parts)` -/
def joinWith (sep : Txt) : List Txt → Txt
  | [] => []
  | [x] => x
  | x :: y :: r => x ++ sep ++ joinWith sep (y :: r)

/-- `s.split("\n")` -/
def lines : Txt → List Txt
  | [] => [[]]
  | c :: r => if c = '\n' then [] :: lines r else
    match lines r with
    | [] => [[c]]
    | l :: ls => (c :: l) :: ls

/-! ## Descriptors -/

/-- what can be the geometry of a descriptor (`dof_desc.py:56-74`, `235-250`): nothing, one of the four classes
with a meaning, another class (with its `__name__`), or another object (with its `str`) -/
inductive Geo
  | none | unnamedSource | defaultSource | unnamedTarget | defaultTarget
  | cls (name : Txt)
  | other (text : Txt)
  deriving DecidableEq, Repr

/-- a descriptor (`dof_desc.py:188-190`) -/
structure Desc where
  geo : Geo
  stage : Option Stage
  gran : Gran
  deriving DecidableEq, Repr

/-- the first part of the text (`dof_desc.py:237-248`) -/
def geoText : Geo → Txt
  | .none => ['?']
  | .unnamedSource => ['s']
  | .defaultSource => ['s']
  | .unnamedTarget => ['t']
  | .defaultTarget => ['t']
  | .cls n => n
  | .other s => s

/-- the part for the stage, if any (`dof_desc.py:250-253`) -/
def stageText : Option Stage → List Txt
  | some .stage2 => ["stage2".toList]
  | some .quadStage2 => ["quads2".toList]
  | some .stage1 => []
  | .none => []

/-- the part for the granularity, if any (`dof_desc.py:255-258`) -/
def granText : Gran → List Txt
  | .center => ["center".toList]
  | .element => ["element".toList]
  | .node => []

/-- `DOFDescriptor.__str__` (`dof_desc.py:235-260`), `stringify_where` (`mappers.py:888-889`) -/
def descText (d : Desc) : Txt :=
  joinWith ['/'] (geoText d.geo :: (stageText d.stage ++ granText d.gran))

/-! ## Statements and programs -/

/-- `ValueError` -/
inductive PErr | value
  deriving DecidableEq, Repr

/-- `limit_str` (`compiler.py:285-296`); the remaining value is `"avg"` -/
def limText : Lim → Except PErr Txt
  | .p1 => .ok "[+] ".toList
  | .m1 => .ok "[-] ".toList
  | .p2 => .ok "[(+)] ".toList
  | .m2 => .ok "[(-)] ".toList
  | .none => .ok []
  | .avg => .error .value

/-- what is not modelled of the texts: `whereText` is the text of a descriptor (`descText`; descriptors are names
in the model of the compiler), `kernelText` the text of a target kernel with the source kernels in the place of
the base kernel (`compiler.py:298-306`), `exprText` the text of an expression (`StringifyMapper`) -/
structure Texts where
  whereText : String → Txt
  kernelText : List String → String → Txt
  exprText : Expr → Txt

/-- `tgt_str` (`compiler.py:280-283`) -/
def tgtText (T : Texts) (src : String) (o : Out) : Txt :=
  if o.tgt ≠ src then " @ ".toList ++ T.whereText o.tgt else []

/-- the line of one output (`compiler.py:279-309`), `kernel` being the text of its kernel -/
def outLine (T : Texts) (src : String) (kernel : Txt) (o : Out) : Except PErr Txt :=
  match limText o.lim with
  | .error e => .error e
  | .ok l => .ok (o.name.toList ++ tgtText T src o ++ " <- ".toList ++ l ++ kernel)

/-- the lines of the outputs (`compiler.py:278-309`); an index outside of the target kernels (`IndexError`, which
does not happen in compiled programs, C04) is printed as if the kernel had no text -/
def outLines (T : Texts) (src : String) (tks sks : List String) : List Out → Except PErr (List Txt)
  | [] => .ok []
  | o :: os =>
    match outLine T src (match tks[o.tkIdx]? with | some tk => T.kernelText sks tk | none => []) o with
    | .error e => .error e
    | .ok l => match outLines T src tks sks os with
      | .error e => .error e
      | .ok ls => .ok (l :: ls)

/-- `density{i}={density}` (`compiler.py:271-272`) -/
def densArgs (T : Texts) (i : Nat) : List Expr → List Txt
  | [] => []
  | d :: ds => ("density".toList ++ (toString i).toList ++ ['='] ++ T.exprText d) :: densArgs T (i + 1) ds

/-- the lines of the kernel arguments (`compiler.py:311-314`) -/
def kernelArgLines (T : Texts) : List (String × Expr) → List Txt
  | [] => []
  | (n, e) :: r =>
    (match lines (T.exprText e) with
      | [] => []
      | l :: ls => ("  ".toList ++ n.toList ++ " = ".toList ++ l) :: ls.map fun s => "  ".toList ++ s) ++
    kernelArgLines T r

/-- `Assign.__str__` for one name without comment, the only form made (`compiler.py:155-163`, `655-661`), and
`ComputePotential.__str__` (`compiler.py:269-317`) -/
def stmtText (T : Texts) : Stmt → Except PErr Txt
  | .assign n e _ => .ok (n.toList ++ " <- ".toList ++ T.exprText e)
  | .pot outs tks kn kv sks dens src _ =>
    match outLines T src tks sks outs with
    | .error e => .error e
    | .ok ls => .ok ("{ /* Pot(".toList ++
        joinWith ", ".toList (("source=".toList ++ T.whereText src) :: densArgs T 0 dens) ++
        ") */\n  ".toList ++ joinWith "\n  ".toList (ls ++ kernelArgLines T (kn.zip kv)) ++ "\n}".toList)

/-- the loop of `Code.__str__` (`compiler.py:422-424`) -/
def stmtLines (T : Texts) : List Stmt → Except PErr (List Txt)
  | [] => .ok []
  | s :: r => match stmtText T s with
    | .error e => .error e
    | .ok t => match stmtLines T r with
      | .error e => .error e
      | .ok ls => .ok (lines t ++ ls)

/-- `Code.__str__` (`compiler.py:416-427`) -/
def codeText (T : Texts) (c : Code) : Except PErr Txt :=
  match stmtLines T (c.schedule.map Prod.fst) with
  | .error e => .error e
  | .ok ls => .ok (joinWith ['\n'] (ls ++ ["RESULT: ".toList ++ T.exprText c.result]))

/-! ## Lemmas -/

theorem joinWith_cons {sep x : Txt} {l : List Txt} (h : l ≠ []) :
    joinWith sep (x :: l) = x ++ sep ++ joinWith sep l := by
  cases l with
  | nil => exact absurd rfl h
  | cons y r => rfl

theorem lines_ne_nil (s : Txt) : lines s ≠ [] := by
  cases s with
  | nil => simp [lines]
  | cons c r =>
    rw [lines]
    split
    · simp
    · split <;> simp

/-- splitting into lines and joining them again -/
theorem join_lines (s : Txt) : joinWith ['\n'] (lines s) = s := by
  induction s with
  | nil => rfl
  | cons c r ih =>
    rw [lines]
    split
    · rename_i h
      rw [joinWith_cons (lines_ne_nil r), ih, h]
      rfl
    · cases h : lines r with
      | nil => exact absurd h (lines_ne_nil r)
      | cons l ls =>
        rw [h] at ih
        cases ls with
        | nil => simpa [joinWith] using ih
        | cons y ys => simpa [joinWith] using ih

theorem joinWith_append {sep : Txt} {l m : List Txt} (hl : l ≠ []) (hm : m ≠ []) :
    joinWith sep (l ++ m) = joinWith sep l ++ sep ++ joinWith sep m := by
  induction l with
  | nil => exact absurd rfl hl
  | cons x r ih =>
    cases r with
    | nil => rw [List.singleton_append, joinWith_cons hm]; rfl
    | cons y s =>
      rw [List.cons_append, joinWith_cons (by simp), ih (by simp), joinWith_cons (l := y :: s) (by simp)]
      simp [List.append_assoc]

/-- two texts cut at the first occurrence of a character -/
theorem cut_unique {c : Char} {a b r s : Txt} (ha : c ∉ a) (hb : c ∉ b) (h : a ++ c :: r = b ++ c :: s) :
    a = b ∧ r = s := by
  induction a generalizing b with
  | nil =>
    cases b with
    | nil => simpa using h
    | cons y b =>
      simp only [List.nil_append, List.cons_append, List.cons.injEq] at h
      exact absurd (by rw [h.1]; simp) hb
  | cons x a ih =>
    cases b with
    | nil =>
      simp only [List.nil_append, List.cons_append, List.cons.injEq] at h
      exact absurd (by rw [← h.1]; simp) ha
    | cons y b =>
      simp only [List.cons_append, List.cons.injEq] at h
      obtain ⟨h1, h2⟩ := ih (fun hc => ha (by simp [hc])) (fun hc => hb (by simp [hc])) h.2
      exact ⟨by rw [h.1, h1], h2⟩

/-! ## C100 -/

/-- a geometry whose text can be recognized: not one of the internal classes for unnamed places, not a class, and
its text has no `/` and is not one of those with a meaning -/
def Plain : Geo → Prop
  | .none => True
  | .defaultSource => True
  | .defaultTarget => True
  | .other s => '/' ∉ s ∧ s ≠ ['?'] ∧ s ≠ ['s'] ∧ s ≠ ['t']
  | .unnamedSource => False
  | .unnamedTarget => False
  | .cls _ => False

/-- two stages a reader need not tell apart: no stage is stage 1 -/
def SameStage (a b : Option Stage) : Prop := a.getD .stage1 = b.getD .stage1

theorem geoText_plain {g : Geo} (h : Plain g) : '/' ∉ geoText g := by
  cases g <;> simp_all [Plain, geoText]

theorem geoText_inj {g g' : Geo} (h : Plain g) (h' : Plain g') (e : geoText g = geoText g') : g = g' := by
  cases g <;> cases g' <;> simp_all [Plain, geoText]

/-- the text after the geometry -/
theorem descText_eq (d : Desc) : ∃ r, descText d = geoText d.geo ++ r ∧
    (r = [] ∨ ∃ r', r = '/' :: r') ∧
    r = (stageText d.stage ++ granText d.gran).flatMap (fun t => '/' :: t) := by
  obtain ⟨g, st, gr⟩ := d
  refine ⟨_, ?_, ?_, rfl⟩
  · cases gr <;> rcases st with _ | (_ | _ | _) <;>
      simp [descText, joinWith, stageText, granText]
  · cases gr <;> rcases st with _ | (_ | _ | _) <;> simp [stageText, granText]

/-- C100: of descriptors on recognizable geometries, two are printed alike exactly if they have the same geometry,
the same granularity, and the same stage (none being stage 1) -/
theorem C100_descriptor_partial (d d' : Desc) (h : Plain d.geo) (h' : Plain d'.geo) :
    descText d = descText d' ↔ d.geo = d'.geo ∧ SameStage d.stage d'.stage ∧ d.gran = d'.gran := by
  constructor
  · intro e
    obtain ⟨r, e1, c1, f1⟩ := descText_eq d
    obtain ⟨s, e2, c2, f2⟩ := descText_eq d'
    rw [e1, e2] at e
    have key : geoText d.geo = geoText d'.geo ∧ r = s := by
      rcases c1 with rfl | ⟨r', rfl⟩ <;> rcases c2 with rfl | ⟨s', rfl⟩
      · simpa using e
      · exfalso
        apply geoText_plain h
        rw [List.append_nil] at e
        rw [e]; simp
      · exfalso
        apply geoText_plain h'
        rw [List.append_nil] at e
        rw [← e]; simp
      · obtain ⟨a, b⟩ := cut_unique (geoText_plain h) (geoText_plain h') e
        exact ⟨a, by rw [b]⟩
    obtain ⟨k1, k2⟩ := key
    refine ⟨geoText_inj h h' k1, ?_⟩
    rw [f1, f2] at k2
    obtain ⟨_, st, gr⟩ := d
    obtain ⟨_, st', gr'⟩ := d'
    cases gr <;> cases gr' <;> rcases st with _ | (_ | _ | _) <;> rcases st' with _ | (_ | _ | _) <;>
      simp_all [stageText, granText, SameStage]
  · rintro ⟨h1, h2, h3⟩
    have hs : stageText d.stage = stageText d'.stage := by
      revert h2
      rcases d.stage with _ | (_ | _ | _) <;> rcases d'.stage with _ | (_ | _ | _) <;>
        simp [SameStage, stageText]
    rw [descText, descText, h1, h3, hs]

/-- C100 is false of other geometries: a place called `s` is printed like the default source, the default target
like the target of places without names, and the place called `a/center` like the centers of the place `a` -/
theorem C100_descriptor_refuted :
    descText ⟨.other ['s'], none, .node⟩ = descText ⟨.defaultSource, none, .node⟩ ∧
    descText ⟨.unnamedTarget, none, .node⟩ = descText ⟨.defaultTarget, none, .node⟩ ∧
    descText ⟨.cls ['a'], none, .node⟩ = descText ⟨.other ['a'], none, .node⟩ ∧
    descText ⟨.other "a/center".toList, none, .node⟩ = descText ⟨.other ['a'], none, .center⟩ :=
  ⟨rfl, rfl, rfl, by decide⟩

example : descText ⟨.other ['a'], some .quadStage2, .center⟩ = "a/quads2/center".toList := by decide

/-- what a reader is told of a limit -/
theorem limText_inj {a b : Lim} {s t k l : Txt} (ha : limText a = .ok s) (hb : limText b = .ok t)
    (hk : k.head? ≠ some '[') (hl : l.head? ≠ some '[') (e : s ++ k = t ++ l) : a = b ∧ k = l := by
  cases a <;> cases b <;> simp only [limText, Except.ok.injEq, reduceCtorEq] at ha hb <;> subst ha <;> subst hb <;>
    first
    | exact ⟨rfl, by simpa using e⟩
    | (exfalso; revert e; simp; done)
    | (exfalso; apply hk; simp only [List.nil_append] at e; rw [e]; rfl)
    | (exfalso; apply hl; simp only [List.nil_append] at e; rw [← e]; rfl)

/-- C100: the line printed for an output tells its name, its target (nothing is printed if and only if it is the
source), its limit, and its kernel, provided names and targets are printed without blanks and the text of
a kernel does not begin with a bracket -/
theorem C100_line (T : Texts) (src : String) (o o' : Out) (k k' t t' : Txt)
    (h : outLine T src k o = .ok t) (h' : outLine T src k' o' = .ok t')
    (hn : ' ' ∉ o.name.toList) (hn' : ' ' ∉ o'.name.toList)
    (hw : ' ' ∉ T.whereText o.tgt) (hw' : ' ' ∉ T.whereText o'.tgt)
    (hk : k.head? ≠ some '[') (hk' : k'.head? ≠ some '[') :
    t = t' ↔ o.name = o'.name ∧ (o.tgt = src ↔ o'.tgt = src) ∧
      (o.tgt ≠ src → T.whereText o.tgt = T.whereText o'.tgt) ∧ o.lim = o'.lim ∧ k = k' := by
  cases hl : limText o.lim with
  | error e => simp [outLine, hl] at h
  | ok l =>
  cases hl' : limText o'.lim with
  | error e => simp [outLine, hl'] at h'
  | ok l' =>
  simp only [outLine, hl, Except.ok.injEq] at h
  simp only [outLine, hl', Except.ok.injEq] at h'
  subst h
  subst h'
  constructor
  · intro e
    by_cases c : o.tgt = src <;> by_cases c' : o'.tgt = src <;>
      simp only [tgtText, c, c', ne_eq, not_true, if_false, if_true, not_false_eq_true, List.append_assoc,
        List.nil_append] at e
    · have e1 := cut_unique (r := '<' :: '-' :: ' ' :: (l ++ k)) (s := '<' :: '-' :: ' ' :: (l' ++ k')) hn hn' e
      obtain ⟨n1, r1⟩ := e1
      simp only [List.cons.injEq, true_and] at r1
      obtain ⟨q1, q2⟩ := limText_inj hl hl' hk hk' r1
      exact ⟨String.toList_inj.1 n1, by simp [c, c'], by simp [c], q1, q2⟩
    · have e1 := cut_unique (r := '<' :: '-' :: ' ' :: (l ++ k))
        (s := '@' :: ' ' :: (T.whereText o'.tgt ++ ' ' :: '<' :: '-' :: ' ' :: (l' ++ k'))) hn hn' e
      simp at e1
    · have e1 := cut_unique (r := '@' :: ' ' :: (T.whereText o.tgt ++ ' ' :: '<' :: '-' :: ' ' :: (l ++ k)))
        (s := '<' :: '-' :: ' ' :: (l' ++ k')) hn hn' e
      simp at e1
    · have e1 := cut_unique (r := '@' :: ' ' :: (T.whereText o.tgt ++ ' ' :: '<' :: '-' :: ' ' :: (l ++ k)))
        (s := '@' :: ' ' :: (T.whereText o'.tgt ++ ' ' :: '<' :: '-' :: ' ' :: (l' ++ k'))) hn hn' e
      obtain ⟨n1, r1⟩ := e1
      simp only [List.cons.injEq, true_and] at r1
      obtain ⟨w1, r2⟩ := cut_unique hw hw' r1
      simp only [List.cons.injEq, true_and] at r2
      obtain ⟨q1, q2⟩ := limText_inj hl hl' hk hk' r2
      exact ⟨String.toList_inj.1 n1, by simp [c, c'], fun _ => w1, q1, q2⟩
  · rintro ⟨h1, h2, h3, h4, h5⟩
    rw [h4, hl'] at hl
    injection hl with hl
    have ht : tgtText T src o = tgtText T src o' := by
      by_cases c : o.tgt = src
      · have c' := h2.1 c
        simp [tgtText, c, c']
      · have c' : ¬ o'.tgt = src := fun x => c (h2.2 x)
        rw [tgtText, tgtText, if_pos c, if_pos c', h3 c]
    rw [h1, ht, h5, hl]

/-- a concrete case: two outputs that differ only in the side, at the source and elsewhere -/
example : ∃ T : Texts, ∃ k t t', k.head? ≠ some '[' ∧
    outLine T "s" k ⟨"p0", 0, "s", .p1⟩ = .ok t ∧ outLine T "s" k ⟨"p0", 0, "u", .m1⟩ = .ok t' ∧
    ' ' ∉ T.whereText "s" ∧ ' ' ∉ T.whereText "u" ∧
    t = "p0 <- [+] G".toList ∧ t' = "p0 @ u <- [-] G".toList :=
  ⟨⟨String.toList, fun _ _ => [], fun _ => []⟩, ['G'], _, _, by simp, rfl, rfl, by decide, by decide, by decide,
    by decide⟩

/-- the layer potentials of a statement that are averages of the two sides -/
def HasAvg : Stmt → Prop
  | .assign _ _ _ => False
  | .pot outs _ _ _ _ _ _ _ => ∃ o ∈ outs, o.lim = .avg

theorem outLines_ok (T : Texts) (src : String) (tks sks : List String) (outs : List Out) :
    (∃ ls, outLines T src tks sks outs = .ok ls) ↔ ∀ o ∈ outs, o.lim ≠ .avg := by
  induction outs with
  | nil => simp [outLines]
  | cons o os ih =>
    rw [List.forall_mem_cons, ← ih, outLines]
    generalize (match tks[o.tkIdx]? with | some tk => T.kernelText sks tk | none => []) = k
    rcases ho : o.lim <;> simp only [outLine, limText, ho]
    all_goals first
      | (simp; done)
      | (cases outLines T src tks sks os <;> simp)

theorem stmtText_ok (T : Texts) (s : Stmt) : (∃ t, stmtText T s = .ok t) ↔ ¬ HasAvg s := by
  cases s with
  | assign n e p => simp [stmtText, HasAvg]
  | pot outs tks kn kv sks dens src p =>
    have := outLines_ok T src tks sks outs
    rw [stmtText, HasAvg]
    cases h : outLines T src tks sks outs with
    | error e =>
      rw [h] at this
      simp only [reduceCtorEq, exists_false, false_iff] at this ⊢
      push Not at this
      simpa using this
    | ok ls =>
      rw [h] at this
      simp only [Except.ok.injEq, exists_eq', true_iff] at this ⊢
      rintro ⟨o, ho, h2⟩
      exact this o ho h2

/-- the printed statements of a program, one after the other -/
theorem stmtLines_ok (T : Texts) (ss : List Stmt) :
    (∃ ls, stmtLines T ss = .ok ls) ↔ ∀ s ∈ ss, ¬ HasAvg s := by
  induction ss with
  | nil => simp [stmtLines]
  | cons s r ih =>
    rw [List.forall_mem_cons, ← ih, ← stmtText_ok T, stmtLines]
    cases stmtText T s <;> cases stmtLines T r <;> simp

theorem stmtLines_spec (T : Texts) {ss : List Stmt} {ls : List Txt} (h : stmtLines T ss = .ok ls) (last : Txt) :
    ∃ ts, List.Forall₂ (fun s t => stmtText T s = .ok t) ss ts ∧
      joinWith ['\n'] (ls ++ [last]) = joinWith ['\n'] (ts ++ [last]) := by
  induction ss generalizing ls with
  | nil =>
    simp only [stmtLines, Except.ok.injEq] at h
    subst h
    exact ⟨[], .nil, rfl⟩
  | cons s r ih =>
    rw [stmtLines] at h
    cases h1 : stmtText T s with
    | error e => simp [h1] at h
    | ok t =>
      cases h2 : stmtLines T r with
      | error e => simp [h1, h2] at h
      | ok ls' =>
        simp only [h1, h2, Except.ok.injEq] at h
        subst h
        obtain ⟨ts, f, e⟩ := ih h2
        refine ⟨t :: ts, .cons h1 f, ?_⟩
        rw [List.append_assoc, joinWith_append (lines_ne_nil t) (by simp), join_lines, e, List.cons_append,
          joinWith_cons (by simp)]

/-- C100: a program is printed as its statements, each once, in the order of execution, and its result; printing
raises `ValueError` exactly if some layer potential is the average of the two sides -/
theorem C100_program (T : Texts) (c : Code) :
    ((∃ t, codeText T c = .ok t) ↔ ∀ s ∈ c.schedule.map Prod.fst, ¬ HasAvg s) ∧
    ∀ t, codeText T c = .ok t → ∃ ts,
      List.Forall₂ (fun p t => stmtText T p.1 = .ok t) c.schedule ts ∧
      t = joinWith ['\n'] (ts ++ ["RESULT: ".toList ++ T.exprText c.result]) := by
  constructor
  · rw [← stmtLines_ok T, codeText]
    cases stmtLines T (c.schedule.map Prod.fst) <;> simp
  · intro t h
    rw [codeText] at h
    cases hs : stmtLines T (c.schedule.map Prod.fst) with
    | error e => simp [hs] at h
    | ok ls =>
      simp only [hs, Except.ok.injEq] at h
      subst h
      obtain ⟨ts, f, e⟩ := stmtLines_spec T hs ("RESULT: ".toList ++ T.exprText c.result)
      exact ⟨ts, List.forall₂_map_left_iff.1 f, e⟩

/-- C100: in the printed program of an expression, a statement that uses a value comes after the statement that
computes it, and every statement the compiler made is printed once -/
theorem C100_compiled (T : Texts) (c : Cfg) (e : Expr) (hc : CfgOk c) (hwf : WF e) (hnc : NoClash e) :
    ∃ r stmts code, emitted c e = .ok (r, stmts) ∧ compile c e = .ok code ∧
      ∀ t, codeText T code = .ok t → ∃ order ts,
        order.Perm stmts ∧ List.Forall₂ (fun s t => stmtText T s = .ok t) order ts ∧
        t = joinWith ['\n'] (ts ++ ["RESULT: ".toList ++ T.exprText code.result]) ∧
        ∀ pre s post, order = pre ++ s :: post → ∀ x ∈ s.depNames,
          x ∈ code.inputs ∨ ∃ p ∈ pre, x ∈ p.assignees := by
  obtain ⟨r, stmts, code, h1, h2, h3, -, h5⟩ := C03_schedule c e hc hwf hnc
  refine ⟨r, stmts, code, h1, h2, fun t ht => ?_⟩
  obtain ⟨ts, f, rfl⟩ := (C100_program T code).2 t ht
  refine ⟨_, ts, h3, List.forall₂_map_left_iff.2 f, rfl, ?_⟩
  intro pre s post ho x hx
  obtain ⟨l1, l2, e1, e2, e3⟩ := List.map_eq_append_iff.1 ho
  obtain ⟨⟨s', d⟩, l3, rfl, rfl, rfl⟩ := List.map_eq_cons_iff.1 e3
  rcases (h5 l1 s' d l3 e1 x hx).1 with h | h
  · exact Or.inl h
  · refine Or.inr ?_
    obtain ⟨p, hp, hxp⟩ := h
    exact ⟨p.1, by rw [← e2]; exact List.mem_map.2 ⟨p, hp, rfl⟩, hxp⟩

/-- the hypotheses of `C100_compiled` hold of the example of C03 -/
example (T : Texts) : ∃ r stmts code, emitted exCfg exE = .ok (r, stmts) ∧ compile exCfg exE = .ok code ∧
    ∀ t, codeText T code = .ok t → ∃ order : List Stmt, order.Perm stmts :=
  let ⟨r, stmts, code, h1, h2, h3⟩ := C100_compiled T exCfg exE exCfg_ok exE_wf exE_noClash
  ⟨r, stmts, code, h1, h2, fun t ht => let ⟨o, _, h, _⟩ := h3 t ht; ⟨o, h⟩⟩

theorem densArgs_eq (T : Texts) (i : Nat) (dens : List Expr) :
    densArgs T i dens = dens.mapIdx fun j d =>
      "density".toList ++ (toString (i + j)).toList ++ ['='] ++ T.exprText d := by
  induction dens generalizing i with
  | nil => rfl
  | cons d ds ih =>
    rw [densArgs, ih, List.mapIdx_cons]
    simp [Nat.add_comm, Nat.add_left_comm]

theorem lines_of_not_mem {s : Txt} (h : '\n' ∉ s) : lines s = [s] := by
  induction s with
  | nil => rfl
  | cons c r ih =>
    simp only [List.mem_cons, not_or] at h
    rw [lines, if_neg (Ne.symm h.1), ih h.2]

theorem kernelArgLines_eq (T : Texts) (l : List (String × Expr)) (h : ∀ p ∈ l, '\n' ∉ T.exprText p.2) :
    kernelArgLines T l = l.map fun p => "  ".toList ++ p.1.toList ++ " = ".toList ++ T.exprText p.2 := by
  induction l with
  | nil => rfl
  | cons p r ih =>
    obtain ⟨n, e⟩ := p
    rw [List.forall_mem_cons] at h
    rw [kernelArgLines, ih h.2, lines_of_not_mem h.1]
    simp

theorem outLines_spec (T : Texts) {src : String} {tks sks : List String} {outs : List Out} {ls : List Txt}
    (h : outLines T src tks sks outs = .ok ls) (hi : ∀ o ∈ outs, o.tkIdx < tks.length) :
    List.Forall₂ (fun o l => ∃ tk, tks[o.tkIdx]? = some tk ∧ outLine T src (T.kernelText sks tk) o = .ok l) outs ls := by
  induction outs generalizing ls with
  | nil =>
    simp only [outLines, Except.ok.injEq] at h
    subst h
    exact .nil
  | cons o os ih =>
    rw [List.forall_mem_cons] at hi
    have ho := List.getElem?_eq_getElem hi.1
    rw [outLines, ho] at h
    cases h1 : outLine T src (T.kernelText sks tks[o.tkIdx]) o with
    | error e => simp [h1] at h
    | ok l =>
      cases h2 : outLines T src tks sks os with
      | error e => simp [h1, h2] at h
      | ok ls' =>
        simp only [h1, h2, Except.ok.injEq] at h
        subst h
        exact .cons ⟨_, ho, h1⟩ (ih h2 hi.2)

/-- joining with an indented line break is indenting and joining with a line break -/
theorem join_indent {ind : Txt} {l : List Txt} (h : l ≠ []) :
    ind ++ joinWith ('\n' :: ind) l = joinWith ['\n'] (l.map fun t => ind ++ t) := by
  induction l with
  | nil => exact absurd rfl h
  | cons x r ih =>
    cases r with
    | nil => rfl
    | cons y s =>
      rw [joinWith_cons (l := y :: s) (by simp), List.map_cons,
        joinWith_cons (l := (y :: s).map fun t => ind ++ t) (by simp), ← ih (by simp)]
      simp

/-- C100: the text of an assignment tells the name assigned, if it is without blanks, and the text of the
expression; and it is not the text of a layer potential, unless the name is a brace -/
theorem C100_assign (T : Texts) (n n' : String) (e e' : Expr) (p p' : Int) (hn : ' ' ∉ n.toList) (hn' : ' ' ∉ n'.toList) :
    (stmtText T (.assign n e p) = stmtText T (.assign n' e' p') ↔ n = n' ∧ T.exprText e = T.exprText e') ∧
    ∀ outs tks kn kv sks dens src q, n.toList ≠ ['{'] →
      stmtText T (.assign n e p) ≠ stmtText T (.pot outs tks kn kv sks dens src q) := by
  constructor
  · constructor
    · intro h
      simp only [stmtText, Except.ok.injEq, List.append_assoc] at h
      obtain ⟨h1, h2⟩ := cut_unique (r := '<' :: '-' :: ' ' :: T.exprText e)
        (s := '<' :: '-' :: ' ' :: T.exprText e') hn hn' h
      exact ⟨String.toList_inj.1 h1, by simpa using h2⟩
    · rintro ⟨rfl, h⟩
      simp only [stmtText, h]
  · intro outs tks kn kv sks dens src q hb h
    cases hs : outLines T src tks sks outs with
    | error x => simp [stmtText, hs] at h
    | ok ls =>
      simp only [stmtText, hs, Except.ok.injEq, List.append_assoc] at h
      exact hb (cut_unique (c := ' ') (a := n.toList) (b := ['{']) (r := '<' :: '-' :: ' ' :: T.exprText e)
        (s := '/' :: '*' :: ' ' :: 'P' :: 'o' :: 't' :: '(' :: _) hn (by decide) h).1

/-- C100: a layer potential statement is printed as a line with its source and its densities, numbered in their
order; then one line for each of its outputs, in their order; then one for each kernel argument with its name
(if its text has no line break), in their order; then a closing brace -/
theorem C100_potential (T : Texts) (outs : List Out) (tks kn : List String) (kv : List Expr) (sks : List String)
    (dens : List Expr) (src : String) (prio : Int) (t : Txt) (ho : outs ≠ [])
    (hi : ∀ o ∈ outs, o.tkIdx < tks.length) (hv : ∀ e ∈ kv, '\n' ∉ T.exprText e)
    (h : stmtText T (.pot outs tks kn kv sks dens src prio) = .ok t) :
    ∃ ls : List Txt,
      List.Forall₂ (fun o l => ∃ tk, tks[o.tkIdx]? = some tk ∧
        outLine T src (T.kernelText sks tk) o = .ok l) outs ls ∧
      t = joinWith ['\n']
        (("{ /* Pot(".toList ++ joinWith ", ".toList (("source=".toList ++ T.whereText src) ::
            dens.mapIdx fun i d => "density".toList ++ (toString i).toList ++ ['='] ++ T.exprText d) ++
            ") */".toList) ::
          (ls.map (fun l => "  ".toList ++ l) ++
            (kn.zip kv).map (fun p => "    ".toList ++ p.1.toList ++ " = ".toList ++ T.exprText p.2) ++ [['}']])) := by
  rw [stmtText] at h
  cases hs : outLines T src tks sks outs with
  | error e => simp [hs] at h
  | ok ls =>
    simp only [hs, Except.ok.injEq] at h
    have hf := outLines_spec T hs hi
    have hne : ls ≠ [] := by
      rintro rfl
      cases hf
      exact ho rfl
    refine ⟨ls, hf, ?_⟩
    rw [← h, densArgs_eq, kernelArgLines_eq T _ fun p hp => hv _ (List.of_mem_zip (a := p.1) (b := p.2) hp).2]
    have hc : ∀ a : Txt, ∀ b c : List Txt, b ≠ [] → joinWith ['\n'] (a :: (b ++ c ++ [['}']])) =
        a ++ ['\n'] ++ (joinWith ['\n'] (b ++ c) ++ ['\n'] ++ ['}']) := by
      intro a b c hb
      rw [joinWith_cons (by simp), joinWith_append (l := b ++ c) (by simp [hb]) (by simp)]
      rfl
    rw [hc _ _ _ (by simpa using hne)]
    have hj := join_indent (ind := "  ".toList) (l := ls ++ (kn.zip kv).map fun p =>
      "  ".toList ++ p.1.toList ++ " = ".toList ++ T.exprText p.2) (by simp [hne])
    rw [List.map_append, List.map_map] at hj
    have e : ((kn.zip kv).map fun p => "    ".toList ++ p.1.toList ++ " = ".toList ++ T.exprText p.2) =
        (kn.zip kv).map ((fun t => "  ".toList ++ t) ∘ fun p =>
          "  ".toList ++ p.1.toList ++ " = ".toList ++ T.exprText p.2) := by
      refine List.map_congr_left fun p _ => ?_
      simp
    rw [e, ← hj]
    simp [joinWith]

/-- a concrete case: a program of two statements -/
example : codeText ⟨String.toList, fun _ _ => ['G'], fun | .var x => x.toList | _ => ['?']⟩
    ⟨["x"], [(.pot [⟨"p", 0, "s", .p1⟩] ["k"] [] [] ["k"] [.var "x"] "s" 0, []), (.assign "y" (.var "p") 0, [])],
      .var "y"⟩ =
    .ok "{ /* Pot(source=s, density0=x) */\n  p <- [+] G\n}\ny <- p\nRESULT: y".toList := by rfl

/-- printing of a potential that is the average of the two sides fails -/
example : codeText ⟨String.toList, fun _ _ => [], fun _ => []⟩
    ⟨[], [(.pot [⟨"p0", 0, "s", .avg⟩] ["k"] [] [] ["k"] [.var "x"] "s" 0, [])], .var "p0"⟩ = .error .value := rfl

end Verif.Printing
