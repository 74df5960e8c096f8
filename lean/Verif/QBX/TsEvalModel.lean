import Verif.QBX.TsHelmModel
import Verif.QBX.FMM

/-!
# Model of `eval_target_specific_qbx_locals`

Models `pytential/qbx/target_specific/impl.pyx` lines 566-785: argument checks, flags, thread-local
buffers, the OpenMP-parallel loop over the QBX centers and the stores into `pot` and `grad`.

Threads share `pot` and `grad`; everything else is written only in the row `tid` of the
thread-local buffers.  The loop is modelled as programs of small operations, one program per thread,
executed in an arbitrary interleaving.

Simplifications: exact arithmetic (`TsModel.lean`); index arrays are lists, an index past the end
reads 0 (`boundscheck=False` makes it undefined); `int` does not overflow.
-/

namespace Verif.Ts

open Fl Verif.FMM

/-- The arguments of `eval_target_specific_qbx_locals` (impl.pyx:566-585), without the outputs. -/
structure TsArgs where
  ifpot : Bool
  ifgrad : Bool
  ifcharge : Bool
  ifdipole : Bool
  order : ℕ
  sources : ℕ → V3
  targets : ℕ → V3
  centers : ℕ → V3
  qbxCenters : List ℕ
  centerToTargetBox : List ℕ
  cttStarts : List ℕ
  cttLists : List ℕ
  srcBoxStarts : List ℕ
  srcBoxLists : List ℕ
  boxSrcStarts : List ℕ
  boxSrcCounts : List ℕ
  k : ℂ
  charge : Option (ℕ → ℂ)
  dipstr : Option (ℕ → ℂ)
  dipvec : Option (ℕ → V3)

/-- `helmholtz_k == 0` (impl.pyx:644). -/
noncomputable def TsArgs.kZero (A : TsArgs) : Bool := by
  classical exact decide (A.k = 0)

/-- The three argument checks (impl.pyx:628-639): true if a `ValueError` is raised. -/
def TsArgs.invalid (A : TsArgs) : Bool :=
  (A.ifcharge && A.charge.isNone) || (A.ifdipole && (A.dipstr.isNone || A.dipvec.isNone))
    || (A.ifdipole && A.ifgrad)

/-- `laplace_s`, `laplace_sp`, `laplace_d` (impl.pyx:641-650). -/
noncomputable def TsArgs.lapS (A : TsArgs) : Bool := A.kZero && (A.ifpot && A.ifcharge)
/-- see `lapS` (impl.pyx:649-650) -/
noncomputable def TsArgs.lapSp (A : TsArgs) : Bool := A.kZero && (A.ifgrad && A.ifcharge)
/-- see `lapS` (impl.pyx:647) -/
noncomputable def TsArgs.lapD (A : TsArgs) : Bool := A.kZero && (A.ifpot && A.ifdipole)
/-- `helmholtz_s` (impl.pyx:653-654). -/
noncomputable def TsArgs.helmS (A : TsArgs) : Bool := !A.kZero && (A.ifpot && A.ifcharge)
/-- `helmholtz_sp` (impl.pyx:657-658). -/
noncomputable def TsArgs.helmSp (A : TsArgs) : Bool := !A.kZero && (A.ifgrad && A.ifcharge)
/-- `helmholtz_d` (impl.pyx:655). -/
noncomputable def TsArgs.helmD (A : TsArgs) : Bool := !A.kZero && (A.ifpot && A.ifdipole)

/-- `any([...])` (impl.pyx:662-665). -/
noncomputable def TsArgs.anyFlag (A : TsArgs) : Bool :=
  A.lapS || (A.lapSp || (A.lapD || (A.helmS || (A.helmSp || A.helmD))))

/-- `charge[isrc]`; reading it when it is `None` is excluded by the checks (impl.pyx:628-630). -/
def TsArgs.chargeAt (A : TsArgs) (s : ℕ) : ℂ := (A.charge.getD fun _ => 0) s
/-- `dipstr[isrc]` (impl.pyx:632-634). -/
def TsArgs.dipstrAt (A : TsArgs) (s : ℕ) : ℂ := (A.dipstr.getD fun _ => 0) s
/-- `dipvec[:, isrc]` (impl.pyx:635-636). -/
def TsArgs.dipvecAt (A : TsArgs) (s : ℕ) : V3 := (A.dipvec.getD fun _ _ => 0) s

/-- The targets of a center: `itgt in range(itgt_start, itgt_end)` (impl.pyx:696-697, 704-706). -/
def TsArgs.targetsOf (A : TsArgs) (ctr : ℕ) : List ℕ := kernelRow A.cttStarts A.cttLists ctr

/-- The sources of a box: `isrc in range(isrc_start, isrc_end)` (impl.pyx:725-728). -/
def TsArgs.boxSources (A : TsArgs) (b : ℕ) : List ℕ :=
  List.range' (A.boxSrcStarts.getD b 0) (A.boxSrcCounts.getD b 0)

/-- The sources in the near field of a center, in the order of the two loops (impl.pyx:698, 720-728). -/
def TsArgs.sourcesOf (A : TsArgs) (ctr : ℕ) : List ℕ :=
  (kernelRow A.srcBoxStarts A.srcBoxLists (A.centerToTargetBox.getD ctr 0)).flatMap A.boxSources

/-- Row `tid` of the thread-local buffers and the private scalars `result`, `jscale`
(impl.pyx:618-622, 676-682). -/
structure Tls where
  source : V3
  target : V3
  center : V3
  dipole : V3
  resultGrad : Fin 3 → Fl ℂ
  jvals : Buf ℂ
  jderivs : Buf ℂ
  jscale : Fl ℝ
  result : Fl ℂ

/-- The freshly allocated buffers (impl.pyx:676-682). -/
def Tls.init : Tls where
  source := fun _ => 0
  target := fun _ => 0
  center := fun _ => 0
  dipole := fun _ => 0
  resultGrad := fun _ => fin 0
  jvals := fun _ => some (fin 0)
  jderivs := fun _ => some (fin 0)
  jscale := fin 0
  result := fin 0

/-- Operations of a thread. -/
inductive TsOp where
  /-- start of the body of the loop over the centers (impl.pyx:693-702) -/
  | center (ctr : ℕ)
  /-- start of the body of the loop over the targets (impl.pyx:704-718) -/
  | target (tgt : ℕ)
  /-- load a source and its dipole vector (impl.pyx:730-733) -/
  | load (src : ℕ)
  /-- evaluate the kernels for the loaded source (impl.pyx:740-777) -/
  | add (src : ℕ)
  /-- store the results for a target (impl.pyx:780-785) -/
  | store (tgt : ℕ)

/-- How a thread can fail: `abort()`, or undefined behaviour (a buffer overrun, a null pointer). -/
inductive TsFail where
  | abort
  | undefined

/-- Cells written by a call replace those of the buffer, the others stay (the arrays are reused
from target to target, impl.pyx:713-718). -/
def Buf.over {K : Type} (new old : Buf K) : Buf K := fun n => (new n).orElse fun _ => old n

/-- Effect of `ts_helmholtz_precompute` on the buffers (impl.pyx:713-718). -/
def afterPre (x : Tls) : Option PreOut → Except TsFail Tls
  | none => .error .undefined
  | some .abort => .error .abort
  | some (.ok jv jd js) =>
    .ok { x with jvals := jv.over x.jvals, jderivs := (jd.getD Buf.fresh).over x.jderivs, jscale := js }

/-- Whether the Bessel terms are needed (impl.pyx:713). -/
noncomputable def TsArgs.needPre (A : TsArgs) : Bool := A.helmS || (A.helmSp || A.helmD)

/-- Start of a target (impl.pyx:704-718). -/
noncomputable def beginTarget (A : TsArgs) (tgt : ℕ) (x : Tls) : Except TsFail Tls :=
  let y := { x with
    result := fin 0
    target := A.targets tgt
    resultGrad := if A.ifgrad then fun _ => fin 0 else x.resultGrad }
  if A.needPre then afterPre y (tsHelmholtzPrecompute y.center y.target A.order A.ifgrad A.k) else .ok y

/-- `result = result + kernel(...)` (impl.pyx:740-744, 752-756, 758-762, 771-775). -/
def addPot (x : Tls) : Option (Fl ℂ) → Except TsFail Tls
  | none => .error .undefined
  | some v => .ok { x with result := x.result + v }

/-- A gradient kernel updates `result_grad` (impl.pyx:746-750, 764-769). -/
def setGrad (x : Tls) : Option (Fin 3 → Fl ℂ) → Except TsFail Tls
  | none => .error .undefined
  | some g => .ok { x with resultGrad := g }

/-- `if flag: ...` around a kernel. -/
def onFlag (flag : Bool) (f : Tls → Except TsFail Tls) (x : Tls) : Except TsFail Tls :=
  if flag then f x else .ok x

/-- `if laplace_s` (impl.pyx:740-744). -/
noncomputable def doLapS (A : TsArgs) (src : ℕ) (x : Tls) : Except TsFail Tls :=
  addPot x (some (tsLaplaceS x.source x.center x.target (fin (A.chargeAt src)) A.order))
/-- `if laplace_sp` (impl.pyx:746-750). -/
noncomputable def doLapSp (A : TsArgs) (src : ℕ) (x : Tls) : Except TsFail Tls :=
  setGrad x (tsLaplaceSp x.resultGrad x.source x.center x.target (fin (A.chargeAt src)) A.order)
/-- `if laplace_d` (impl.pyx:752-756). -/
noncomputable def doLapD (A : TsArgs) (src : ℕ) (x : Tls) : Except TsFail Tls :=
  addPot x (tsLaplaceD x.source x.center x.target x.dipole (fin (A.dipstrAt src)) A.order)
/-- `if helmholtz_s` (impl.pyx:758-762). -/
noncomputable def doHelmS (A : TsArgs) (src : ℕ) (x : Tls) : Except TsFail Tls :=
  addPot x (tsHelmholtzS x.source x.center x.target (fin (A.chargeAt src)) A.order A.k x.jvals x.jscale)
/-- `if helmholtz_sp` (impl.pyx:764-769). -/
noncomputable def doHelmSp (A : TsArgs) (src : ℕ) (x : Tls) : Except TsFail Tls :=
  setGrad x (tsHelmholtzSp x.resultGrad x.source x.center x.target (fin (A.chargeAt src)) A.order A.k
    x.jvals x.jderivs x.jscale)
/-- `if helmholtz_d` (impl.pyx:771-775). -/
noncomputable def doHelmD (A : TsArgs) (src : ℕ) (x : Tls) : Except TsFail Tls :=
  addPot x (tsHelmholtzD x.source x.center x.target x.dipole (fin (A.dipstrAt src)) A.order A.k x.jvals x.jscale)

/-- All kernels for one source (impl.pyx:740-777). -/
noncomputable def addSource (A : TsArgs) (src : ℕ) (x : Tls) : Except TsFail Tls :=
  (onFlag A.lapS (doLapS A src) x).bind fun x =>
  (onFlag A.lapSp (doLapSp A src) x).bind fun x =>
  (onFlag A.lapD (doLapD A src) x).bind fun x =>
  (onFlag A.helmS (doHelmS A src) x).bind fun x =>
  (onFlag A.helmSp (doHelmSp A src) x).bind fun x =>
  onFlag A.helmD (doHelmD A src) x

/-- Effect of an operation on the thread's own row (impl.pyx:693-785). -/
noncomputable def opLocal (A : TsArgs) (x : Tls) : TsOp → Except TsFail Tls
  | .center ctr => .ok { x with jscale := fin 0, center := A.centers ctr }
  | .target tgt => beginTarget A tgt x
  | .load src => .ok { x with source := A.sources src, dipole := if A.ifdipole then A.dipvecAt src else x.dipole }
  | .add src => addSource A src x
  | .store _ => .ok x

/-- The output arrays. -/
structure TsOut where
  pot : ℕ → Fl ℂ
  grad : ℕ → Fin 3 → Fl ℂ

/-- Stores into the shared arrays (impl.pyx:780-785). -/
def storeTarget (A : TsArgs) (x : Tls) (tgt : ℕ) (o : TsOut) : TsOut where
  pot := fun t => if A.ifpot && t == tgt then x.result else o.pot t
  grad := fun t => if A.ifgrad && t == tgt then x.resultGrad else o.grad t

/-- Effect of an operation on the shared arrays (impl.pyx:780-785). -/
def opOut (A : TsArgs) (x : Tls) (o : TsOut) : TsOp → TsOut
  | .store tgt => storeTarget A x tgt o
  | _ => o

/-- Memory: one row per thread and the shared arrays. -/
structure TsMem where
  rows : ℕ → Tls
  out : TsOut

/-- One operation of thread `tid`. -/
noncomputable def tsStep (A : TsArgs) (m : TsMem) (e : ℕ × TsOp) : Except TsFail TsMem :=
  (opLocal A (m.rows e.1) e.2).map fun x =>
    ⟨Function.update m.rows e.1 x, opOut A (m.rows e.1) m.out e.2⟩

/-- The loop over the sources for one target (impl.pyx:720-777). -/
def sourceOps (A : TsArgs) (ctr : ℕ) : List TsOp :=
  (A.sourcesOf ctr).flatMap fun s => [.load s, .add s]

/-- The body of the loop over the targets (impl.pyx:704-785). -/
def targetOps (A : TsArgs) (ctr tgt : ℕ) : List TsOp :=
  .target tgt :: (sourceOps A ctr ++ [.store tgt])

/-- The body of the loop over the centers (impl.pyx:690-785). -/
def centerOps (A : TsArgs) (ctr : ℕ) : List TsOp :=
  .center ctr :: (A.targetsOf ctr).flatMap (targetOps A ctr)

/-- The centers a thread works on, in order: `owner` assigns loop iterations to threads
(`prange(..., schedule="static", chunksize=128)`, impl.pyx:690-692). -/
def threadCenters (A : TsArgs) (owner : ℕ → ℕ) (tid : ℕ) : List ℕ :=
  (A.qbxCenters.zipIdx.filter fun ci => owner ci.2 == tid).map Prod.fst

/-- The program of a thread. -/
def threadOps (A : TsArgs) (owner : ℕ → ℕ) (tid : ℕ) : List TsOp :=
  (threadCenters A owner tid).flatMap (centerOps A)

/-- `sched` is an execution of the parallel loop: it interleaves the programs of the threads. -/
def IsSchedule (A : TsArgs) (owner : ℕ → ℕ) (sched : List (ℕ × TsOp)) : Prop :=
  ∀ tid, (sched.filter fun e => e.1 == tid).map Prod.snd = threadOps A owner tid

/-- What a call can do. -/
inductive TsResult where
  /-- `ValueError` (impl.pyx:628-639) -/
  | valueError
  | fail (f : TsFail)
  | done (o : TsOut)

/-- Result of the parallel loop. -/
def loopResult : Except TsFail TsMem → TsResult
  | .error f => .fail f
  | .ok m => .done m.out

/-- `eval_target_specific_qbx_locals` (impl.pyx:566-785), with the loop executed as `sched`. -/
noncomputable def evalTsLocals (A : TsArgs) (sched : List (ℕ × TsOp)) (o : TsOut) : TsResult :=
  if A.invalid then .valueError
  else if !A.anyFlag then .done o
  else if A.qbxCenters.isEmpty then .done o
  else loopResult (sched.foldlM (tsStep A) ⟨fun _ => Tls.init, o⟩)

end Verif.Ts
