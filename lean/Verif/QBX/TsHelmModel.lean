import Verif.QBX.TsModel
import Mathlib.Analysis.SpecialFunctions.ExpDeriv
import Mathlib.Analysis.SpecialFunctions.Trigonometric.Deriv

/-!
# Model of the target-specific QBX kernels for Helmholtz

Models `pytential/qbx/target_specific/helmholtz_utils.c` (`jfuns3d_`, `h3d01_`, `h3dall_`) and
`pytential/qbx/target_specific/impl.pyx` lines 55-130 (the two wrappers) and 184-562
(`ts_helmholtz_precompute`, `ts_helmholtz_s`, `ts_helmholtz_sp`, `ts_helmholtz_d`).

Simplifications: those of `TsModel` (exact arithmetic with one non-finite value `bad`, partial
functions for arrays).  Double-precision overflow and underflow are not modelled.
-/

namespace Verif.Ts

open Fl

/-- C's unary minus (helmholtz_utils.c:274, 504). -/
def Fl.neg {K : Type} [Neg K] : Fl K → Fl K
  | fin a => fin (-a)
  | bad => bad

/-- `arr[i] = v` on an array of `size` cells (helmholtz_utils.c:175, 463): writing past the end is undefined. -/
def Buf.putN {K : Type} (size : ℕ) (b : Buf K) (i : ℕ) (v : Fl K) : Option (Buf K) :=
  if i < size then some (fun k => if k = i then some v else b k) else none

/-- `PADDING` (pytential/qbx/target_specific/impl.h, used at impl.pyx:681). -/
def padding : ℕ := 65

/-- `h3d01_` (helmholtz_utils.c:344-394). -/
noncomputable def h3d01 (z : ℂ) : Fl ℂ × Fl ℂ :=
  if ‖z‖ < 1 / 10 ^ 15 then (fin 0, fin 0) else
  let h0 := fin (Complex.exp (Complex.I * z)) / fin (Complex.I * z)
  (h0, h0 * (fin 1 / fin z - fin Complex.I))

/-- Body of the recurrence loop of `h3dall_` (helmholtz_utils.c:486-491). -/
noncomputable def h3dBody (size : ℕ) (zinv : Fl ℂ) (scal2 : Fl ℝ) (b : Buf ℂ) (i : ℕ) : Option (Buf ℂ) :=
  (b i).bind fun hi => (b (i - 1)).bind fun hp =>
  b.putN size (i + 1) (zinv * fin (2 * (i : ℂ) + 1) * hi - toC scal2 * hp)

/-- Body of the derivative loop of `h3dall_` (helmholtz_utils.c:505-511). -/
noncomputable def h3dDerBody (size : ℕ) (zinv : Fl ℂ) (scale : Fl ℝ) (hv : Buf ℂ) (d : Buf ℂ) (i : ℕ) :
    Option (Buf ℂ) :=
  (hv (i - 1)).bind fun hp => (hv i).bind fun hi =>
  d.putN size i (toC scale * hp - zinv * fin ((i : ℂ) + 1) * hi)

/-- Body of the zeroing loop of `h3dall_` (helmholtz_utils.c:460-467): both arrays are written,
whether or not derivatives were requested; `none` for `hder` is a `NULL` pointer. -/
def h3dZero (size : ℕ) (st : Buf ℂ × Option (Buf ℂ)) (i : ℕ) : Option (Buf ℂ × Option (Buf ℂ)) :=
  (st.1.putN size i (fin 0)).bind fun hv =>
  st.2.bind fun d => (d.putN size i (fin 0)).map fun d => (hv, some d)

/-- The derivative part of `h3dall_` (helmholtz_utils.c:502-512). -/
noncomputable def h3dDers (size nterms : ℕ) (z : ℂ) (scale : Fl ℝ) (hv d : Buf ℂ) : Option (Buf ℂ) :=
  (hv 1).bind fun h1 =>
  (d.putN size 0 (Fl.neg h1 / toC scale)).bind fun d =>
  (List.range' 1 nterms).foldlM (h3dDerBody size (fin 1 / fin z) scale hv) d

/-- `h3dall_` (helmholtz_utils.c:400-515) with both output arrays of `size` cells; `hder = none` is
a `NULL` pointer. -/
noncomputable def h3dall (size nterms : ℕ) (z : ℂ) (scale : Fl ℝ) (ifder : Bool) (hder : Option (Buf ℂ)) :
    Option (Buf ℂ × Option (Buf ℂ)) :=
  if ‖z‖ < 1 / 10 ^ 15 then
    (List.range' 0 (nterms + 1)).foldlM (h3dZero size) (Buf.fresh, hder)
  else
    (Buf.putN size Buf.fresh 0 (h3d01 z).1).bind fun hv =>
    (hv.putN size 1 ((h3d01 z).2 * toC scale)).bind fun hv =>
    ((List.range' 1 (nterms - 1)).foldlM (h3dBody size (toC scale / fin z) (scale * scale)) hv).bind fun hv =>
    if ifder then hder.bind fun d => (h3dDers size nterms z scale hv d).map fun d => (hv, some d)
    else some (hv, hder)

/-- Step 1 of `jfuns3d_` (helmholtz_utils.c:178-193): the upward recursion from `nterms`; the first
argument counts the remaining passes (`i = nterms..lwfjs`).  Returns the array and `ntop`
(`none` if the loop ran out). -/
noncomputable def jUp (size : ℕ) (z : ℂ) : ℕ → ℕ → Buf ℂ → Option (Buf ℂ × Option ℕ)
  | 0, _, b => some (b, none)
  | (f + 1), i, b =>
    match b i, b (i - 1) with
    | some (fin v), some (fin w) =>
      let ztmp := (2 * (i : ℂ) + 1) * (1 / z) * v - w
      (b.putN size (i + 1) (fin ztmp)).bind fun b =>
      if ztmp.re * ztmp.re + ztmp.im * ztmp.im > 10 ^ 40 then some (b, some (i + 1))
      else jUp size z f (i + 1) b
    | _, _ => none

/-- Step 2 of `jfuns3d_` (helmholtz_utils.c:211-227): the downward recursion; the argument is the
loop index `i` counted down from `ntop - 1` to 1 (pass `i + 1` is followed by pass `i`).
`sc` is the array `iscale`. -/
noncomputable def jDown (size : ℕ) (z : ℂ) : ℕ → Buf ℂ → (ℕ → Bool) → Option (Buf ℂ × (ℕ → Bool))
  | 0, b, sc => some (b, sc)
  | (i + 1), b, sc =>
    match b (i + 1), b (i + 2) with
    | some (fin v), some (fin w) =>
      let ztmp := (2 * ((i + 1 : ℕ) : ℂ) + 1) * (1 / z) * v - w
      (b.putN size i (fin ztmp)).bind fun b =>
      if ztmp.re * ztmp.re + ztmp.im * ztmp.im > 10 ^ 40 then
        (b.putN size (i + 1) (fin (v * (1 / 10 ^ 40)))).bind fun b =>
        (b.putN size i (fin (ztmp * (1 / 10 ^ 40)))).bind fun b =>
        jDown size z i b (fun l => if l = i + 1 then true else sc l)
      else jDown size z i b sc
    | _, _ => none

/-- `sctot` after pass `i` of step 3 of `jfuns3d_` (helmholtz_utils.c:235-244). -/
noncomputable def sctot (scalinv : Fl ℝ) (sc : ℕ → Bool) : ℕ → Fl ℝ
  | 0 => fin 1
  | (i + 1) => sctot scalinv sc i * scalinv * (if sc i then fin (1 / 10 ^ 40) else fin 1)

/-- Step 3 of `jfuns3d_` (helmholtz_utils.c:235-244); pass `i` touches cell `i` only. -/
noncomputable def jUnify (scalinv : Fl ℝ) (sc : ℕ → Bool) (ntop : ℕ) (b : Buf ℂ) : Buf ℂ := fun i =>
  if 1 ≤ i ∧ i ≤ ntop then (b i).map fun v => v * toC (sctot scalinv sc i) else b i

/-- `fj0` and `fj1` (helmholtz_utils.c:248-251). -/
noncomputable def fj01 (z : ℂ) : ℂ × ℂ :=
  (Complex.sin z * (1 / z), Complex.sin z * (1 / z) * (1 / z) - Complex.cos z * (1 / z))

/-- `zscale` (helmholtz_utils.c:253-259). -/
noncomputable def jNorm (z : ℂ) (scale : Fl ℝ) (b : Buf ℂ) : Option (Fl ℂ) :=
  if ‖(fj01 z).2‖ > ‖(fj01 z).1‖ then (b 1).map fun v => fin (fj01 z).2 / (v * toC scale)
  else (b 0).map fun v => fin (fj01 z).1 / v

/-- Multiplication of the cells through `n` by `zscale` (helmholtz_utils.c:263-267, and 272 for
the extra cell `nterms + 1` when derivatives are wanted). -/
noncomputable def jScale (zs : Fl ℂ) (n : ℕ) (b : Buf ℂ) : Buf ℂ := fun i =>
  if i ≤ n then (b i).map fun v => v * zs else b i

/-- Body of the derivative loop of `jfuns3d_` (helmholtz_utils.c:276-282). -/
noncomputable def jDerBody (size : ℕ) (scale scalinv : Fl ℝ) (fjs : Buf ℂ) (d : Buf ℂ) (i : ℕ) : Option (Buf ℂ) :=
  let dc1 := fin (i : ℝ) / (fin (2 * (i : ℝ) + 1))
  let dc2 := fin 1 - dc1
  (fjs (i - 1)).bind fun lo => (fjs (i + 1)).bind fun hi =>
  d.putN size i (toC (dc1 * scalinv) * lo - toC (dc2 * scale) * hi)

/-- The derivative part of `jfuns3d_` (helmholtz_utils.c:274-283). -/
noncomputable def jDers (size nterms : ℕ) (scale scalinv : Fl ℝ) (fjs : Buf ℂ) : Option (Buf ℂ) :=
  (fjs 1).bind fun f1 =>
  (Buf.putN size Buf.fresh 0 (Fl.neg f1 * toC scale)).bind fun d =>
  (List.range' 1 nterms).foldlM (jDerBody size scale scalinv fjs) d

/-- What `jfuns3d_` can do: return normally with `fjs` (and `fjder`), or set `ier = 8`. -/
inductive JOut where
  | ok (fjs : Buf ℂ) (fjder : Option (Buf ℂ))
  | ier8

/-- The branch of `jfuns3d_` for tiny arguments (helmholtz_utils.c:153-169); the loops
touch one cell per pass. -/
noncomputable def jTiny (size nterms : ℕ) (scale : Fl ℝ) (ifder : Bool) : Option JOut :=
  if size ≤ nterms then none else
  some (.ok (fun i => if i = 0 then some (fin 1) else if i ≤ nterms then some (fin 0) else none)
    (if ifder then
      some (fun i => if i = 1 then some (toC (fin 1 / (scale * fin 3))) else if i ≤ nterms then some (fin 0) else none)
     else none))

/-- The last part of `jfuns3d_` (helmholtz_utils.c:229-284): unify the scaling, normalize,
differentiate. -/
noncomputable def jFinish (size nterms : ℕ) (z : ℂ) (scale : Fl ℝ) (ifder : Bool) (ntop : ℕ)
    (b : Buf ℂ) (sc : ℕ → Bool) : Option JOut :=
  let scalinv := fin 1 / scale
  let b := jUnify scalinv sc ntop b
  (jNorm z scale b).bind fun zs =>
  if ifder then
    (jDers size nterms scale scalinv (jScale zs (nterms + 1) b)).map fun d =>
      .ok (jScale zs (nterms + 1) b) (some d)
  else some (.ok (jScale zs nterms b) none)

/-- `jfuns3d_` (helmholtz_utils.c:70-285) on arrays `fjs`, `fjder` of `size` cells and `iscale` of
`BUFSIZE` cells; `lwfjs = BUFSIZE` as in both callers (impl.pyx:81, 207).  `none`: undefined
behaviour.  The zeroing of `iscale[0..ntop]` (helmholtz_utils.c:204-207) overruns the array
iff `ntop ≥ BUFSIZE`.  `nterms ≥ 1` is required by the callers (`fjs[nterms - 1]`). -/
noncomputable def jfuns3d (size nterms : ℕ) (z : ℂ) (scale : Fl ℝ) (ifder : Bool) : Option JOut :=
  if ‖z‖ < 1 / 10 ^ 200 then jTiny size nterms scale ifder else
  (Buf.putN size Buf.fresh nterms (fin 1)).bind fun b =>
  (b.putN size (nterms - 1) (fin 0)).bind fun b =>
  (jUp size z (bufSize + 1 - nterms) nterms b).bind fun up =>
  match up.2 with
  | none => some .ier8
  | some ntop =>
    if bufSize ≤ ntop then none else
    (up.1.putN size ntop (fin 0)).bind fun b =>
    (b.putN size (ntop - 1) (fin 1)).bind fun b =>
    (jDown size z (ntop - 1) b (fun _ => false)).bind fun dn =>
    jFinish size nterms z scale ifder ntop dn.1 dn.2

/-- `jscale` / `hscale` (impl.pyx:203, 399, 463, 541). -/
noncomputable def helmScale (k : ℂ) (r : ℝ) : ℝ := if ‖k * (r : ℂ)‖ < 1 then ‖k * (r : ℂ)‖ else 1

/-- What `ts_helmholtz_precompute` can do: fill the two arrays, or `abort()`. -/
inductive PreOut where
  | ok (jvals : Buf ℂ) (jderivs : Option (Buf ℂ)) (jscale : Fl ℝ)
  | abort

/-- How `ts_helmholtz_precompute` treats `ier` (impl.pyx:212-215). -/
def preOut (jscale : Fl ℝ) : JOut → PreOut
  | .ok fjs fjder => .ok fjs fjder jscale
  | .ier8 => .abort

/-- `ts_helmholtz_precompute` (impl.pyx:184-215); the arrays have `BUFSIZE + PADDING` cells
(impl.pyx:681-682). -/
noncomputable def tsHelmholtzPrecompute (c t : V3) (order : ℕ) (ifder : Bool) (k : ℂ) : Option PreOut :=
  let js := fin (helmScale k (cdist t c))
  (jfuns3d (bufSize + padding) (max 1 order) (k * (cdist t c : ℂ)) js ifder).map (preOut js)

/-- Body of the loop of `ts_helmholtz_s` (impl.pyx:411-413). -/
noncomputable def helmSBody (jv hv : Buf ℂ) (lv : Buf ℝ) (q : Fl ℝ) (st : Fl ℂ × Fl ℝ) (n : ℕ) :
    Option (Fl ℂ × Fl ℝ) :=
  (jv n).bind fun j => (hv n).bind fun h => (lv n).bind fun l =>
  some (st.1 + toC (fin (2 * (n : ℝ) + 1) * st.2) * (j * h * toC l), st.2 * q)

/-- `ts_helmholtz_s` (impl.pyx:365-415). -/
noncomputable def tsHelmholtzS (s c t : V3) (charge : Fl ℂ) (order : ℕ) (k : ℂ) (jv : Buf ℂ) (js : Fl ℝ) :
    Option (Fl ℂ) :=
  let ca := cosAngle s c t
  (legvals ca order false).bind fun lb =>
  let hs := fin (helmScale k (cdist s c))
  (h3dall bufSize order (k * (cdist s c : ℂ)) hs false none).bind fun hb =>
  ((List.range' 0 (order + 1)).foldlM (helmSBody jv hb.1 lb.1 (js / hs)) (fin 0, fin 1)).map fun st =>
  fin Complex.I * fin k * charge * st.1

/-- Body of the loop of `ts_helmholtz_sp` (impl.pyx:479-485); the inner loop over `m` only touches
entry `m`. -/
noncomputable def helmSpBody (tmc smc : V3) (ca tc sc : Fl ℝ) (k : ℂ) (jv jd hv : Buf ℂ) (lv ld : Buf ℝ) (q : Fl ℝ)
    (st : (Fin 3 → Fl ℂ) × Fl ℝ) (n : ℕ) : Option ((Fin 3 → Fl ℂ) × Fl ℝ) :=
  (jv n).bind fun j => (jd n).bind fun j' => (hv n).bind fun h => (lv n).bind fun l => (ld n).bind fun l' =>
  some (fun m => st.1 m + toC (fin (2 * (n : ℝ) + 1) * st.2) * h / toC tc
      * (fin k * j' * toC l * toC (fin (tmc m))
        + toC (fin (smc m) / sc - ca * fin (tmc m) / tc) * j * toC l'),
    st.2 * q)

/-- `ts_helmholtz_sp` (impl.pyx:421-488): returns the updated `grad`. -/
noncomputable def tsHelmholtzSp (grad : Fin 3 → Fl ℂ) (s c t : V3) (charge : Fl ℂ) (order : ℕ) (k : ℂ)
    (jv jd : Buf ℂ) (js : Fl ℝ) : Option (Fin 3 → Fl ℂ) :=
  let ca := cosAngle s c t
  (legvals ca order true).bind fun lb => lb.2.bind fun ld =>
  let hs := fin (helmScale k (cdist s c))
  (h3dall bufSize order (k * (cdist s c : ℂ)) hs false none).bind fun hb =>
  ((List.range' 0 (order + 1)).foldlM
    (helmSpBody (fun m => t m - c m) (fun m => s m - c m) ca (fin (cdist t c)) (fin (cdist s c)) k jv jd hb.1
      lb.1 ld (js / hs)) (fun _ => fin 0, fin 1)).map fun st =>
  fun m => grad m + fin Complex.I * fin k * charge * st.1 m

/-- Body of the loop of `ts_helmholtz_d` (impl.pyx:552-558). -/
noncomputable def helmDBody (tmc smc : V3) (ca tc sc : Fl ℝ) (k : ℂ) (jv hv hd : Buf ℂ) (lv ld : Buf ℝ) (q : Fl ℝ)
    (st : (Fin 3 → Fl ℂ) × Fl ℝ) (n : ℕ) : Option ((Fin 3 → Fl ℂ) × Fl ℝ) :=
  (jv n).bind fun j => (hv n).bind fun h => (hd n).bind fun h' => (lv n).bind fun l => (ld n).bind fun l' =>
  some (fun m => st.1 m + toC (fin (2 * (n : ℝ) + 1) * st.2) * j / toC sc
      * (fin k * toC (fin (smc m)) * h' * toC l
        + toC (fin (tmc m) / tc - ca * fin (smc m) / sc) * h * toC l'),
    st.2 * q)

/-- `ts_helmholtz_d` (impl.pyx:494-563). -/
noncomputable def tsHelmholtzD (s c t dipole : V3) (dipstr : Fl ℂ) (order : ℕ) (k : ℂ) (jv : Buf ℂ) (js : Fl ℝ) :
    Option (Fl ℂ) :=
  let ca := cosAngle s c t
  (legvals ca order true).bind fun lb => lb.2.bind fun ld =>
  let hs := fin (helmScale k (cdist s c))
  (h3dall bufSize order (k * (cdist s c : ℂ)) hs true (some Buf.fresh)).bind fun hb => hb.2.bind fun hd =>
  ((List.range' 0 (order + 1)).foldlM
    (helmDBody (fun m => t m - c m) (fun m => s m - c m) ca (fin (cdist t c)) (fin (cdist s c)) k jv hb.1 hd
      lb.1 ld (js / hs)) (fun _ => fin 0, fin 1)).map fun st =>
  fin Complex.I * fin k * dipstr
    * (st.1 0 * toC (fin (dipole 0)) + st.1 1 * toC (fin (dipole 1)) + st.1 2 * toC (fin (dipole 2)))

end Verif.Ts
