import Verif.QBX.LegendreGen

/-!
# Model of the target-specific QBX kernels: arithmetic, buffers, `legvals`, Laplace

Models `pytential/qbx/target_specific/impl.pyx` lines 130-354 (`legvals`, `dist`,
`ts_laplace_s`, `ts_laplace_sp`, `ts_laplace_d`).

Simplifications: double precision is replaced by exact real/complex arithmetic, extended by one
value `bad` for "infinite or not a number" (the file is compiled with `cdivision=True`, line 2, so a
division by zero raises nothing and produces such a value; every later operation on it that
occurs in the modelled functions keeps it non-finite).  Fixed-size C stack arrays are partial
functions; a write past the end or a read of a cell that was never written makes the whole call
`none` (undefined behaviour in C).
-/

namespace Verif.Ts

/-- A C `double` (or `double complex`) up to rounding: a finite value, or something not finite
(`cdivision=True`, impl.pyx:2). -/
inductive Fl (K : Type) where
  | fin (v : K)
  | bad

namespace Fl

variable {K : Type}

/-- Lifts a binary operation: non-finite operands give a non-finite result. -/
def lift₂ {A B C : Type} (f : A → B → C) : Fl A → Fl B → Fl C
  | fin a, fin b => fin (f a b)
  | _, _ => bad

instance [Add K] : Add (Fl K) := ⟨lift₂ (· + ·)⟩
instance [Sub K] : Sub (Fl K) := ⟨lift₂ (· - ·)⟩
instance [Mul K] : Mul (Fl K) := ⟨lift₂ (· * ·)⟩

open Classical in
/-- C division with `cdivision=True` (impl.pyx:2): a zero divisor gives a non-finite value. -/
noncomputable def quot [Div K] [Zero K] : Fl K → Fl K → Fl K
  | fin a, fin b => if b = 0 then bad else fin (a / b)
  | _, _ => bad

noncomputable instance [Div K] [Zero K] : Div (Fl K) := ⟨quot⟩

@[simp] theorem fin_add [Add K] (a b : K) : (fin a + fin b : Fl K) = fin (a + b) := rfl
@[simp] theorem fin_sub [Sub K] (a b : K) : (fin a - fin b : Fl K) = fin (a - b) := rfl
@[simp] theorem fin_mul [Mul K] (a b : K) : (fin a * fin b : Fl K) = fin (a * b) := rfl
theorem fin_div [Div K] [Zero K] (a : K) {b : K} (h : b ≠ 0) : (fin a / fin b : Fl K) = fin (a / b) := by
  show quot (fin a) (fin b) = _
  simp [quot, h]
theorem fin_div_zero [Div K] [Zero K] (a : K) : (fin a / fin 0 : Fl K) = bad := by
  show quot (fin a) (fin 0) = _
  simp [quot]
@[simp] theorem bad_add [Add K] (a : Fl K) : (bad + a : Fl K) = bad := by cases a <;> rfl
@[simp] theorem add_bad [Add K] (a : Fl K) : (a + bad : Fl K) = bad := by cases a <;> rfl
@[simp] theorem bad_sub [Sub K] (a : Fl K) : (bad - a : Fl K) = bad := by cases a <;> rfl
@[simp] theorem sub_bad [Sub K] (a : Fl K) : (a - bad : Fl K) = bad := by cases a <;> rfl
@[simp] theorem bad_mul [Mul K] (a : Fl K) : (bad * a : Fl K) = bad := by cases a <;> rfl
@[simp] theorem mul_bad [Mul K] (a : Fl K) : (a * bad : Fl K) = bad := by cases a <;> rfl
@[simp] theorem bad_div [Div K] [Zero K] (a : Fl K) : (bad / a : Fl K) = bad := by cases a <;> rfl
@[simp] theorem div_bad [Div K] [Zero K] (a : Fl K) : (a / bad : Fl K) = bad := by cases a <;> rfl

/-- C's conversion of a `double` operand to `double complex`. -/
def toC : Fl ℝ → Fl ℂ
  | fin a => fin (a : ℂ)
  | bad => bad

@[simp] theorem toC_fin (a : ℝ) : toC (fin a) = fin (a : ℂ) := rfl
@[simp] theorem toC_bad : toC bad = bad := rfl

end Fl

open Fl

/-- A C stack array: cells not written yet hold nothing usable
(`double[BUFSIZE] lvals, lderivs`, impl.pyx:288). -/
abbrev Buf (K : Type) := ℕ → Option (Fl K)

/-- `BUFSIZE` (pytential/qbx/target_specific/impl.h, used at impl.pyx:288,333,380). -/
def bufSize : ℕ := 64

/-- A C stack array before any write (impl.pyx:288). -/
def Buf.fresh {K : Type} : Buf K := fun _ => none

/-- `arr[i] = v` on an array of `BUFSIZE` cells (impl.pyx:145-166): writing past the end is undefined. -/
def Buf.put {K : Type} (b : Buf K) (i : ℕ) (v : Fl K) : Option (Buf K) :=
  if i < bufSize then some (fun k => if k = i then some v else b k) else none

/-- Locals of `legvals` (impl.pyx:138-140) with the two output arrays; `ders = none` is a `NULL` pointer. -/
structure LegSt where
  vals : Buf ℝ
  ders : Option (Buf ℝ)
  p2 : Fl ℝ
  p1 : Fl ℝ
  d2 : Fl ℝ
  d1 : Fl ℝ

/-- `if derivs != NULL: derivs[i] = v` (impl.pyx:146-149, 155-156, 165-169). -/
def putDer (d : Option (Buf ℝ)) (i : ℕ) (v : Fl ℝ) : Option (Option (Buf ℝ)) :=
  match d with
  | none => some none
  | some b => (b.put i v).map some

/-- Body of the loop `for j in range(2, n + 1)` of `legvals` (impl.pyx:161-173). -/
noncomputable def legBody (x : Fl ℝ) (st : LegSt) (j : ℕ) : Option LegSt :=
  let pj := (fin (2 * (j : ℝ) - 1) * x * st.p1 - fin ((j : ℝ) - 1) * st.p2) / fin (j : ℝ)
  let derj := (fin (2 * (j : ℝ) - 1) * (st.p1 + x * st.d1) - fin ((j : ℝ) - 1) * st.d2) / fin (j : ℝ)
  (st.vals.put j pj).bind fun vals =>
  (putDer st.ders j derj).bind fun ders =>
  some ⟨vals, ders, st.p1, pj, st.d1, derj⟩

/-- `legvals(x, n, vals, derivs)` (impl.pyx:132-173); `wantDer = false` passes `NULL`.
Simplification: when `derivs` is `NULL` the C code leaves the derivative locals alone; the model
computes them and drops them. -/
noncomputable def legvals (x : Fl ℝ) (n : ℕ) (wantDer : Bool) : Option (Buf ℝ × Option (Buf ℝ)) :=
  (Buf.put Buf.fresh 0 (fin 1)).bind fun vals =>
  (putDer (if wantDer then some Buf.fresh else none) 0 (fin 0)).bind fun ders =>
  if n = 0 then some (vals, ders) else
  (vals.put 1 x).bind fun vals =>
  (putDer ders 1 (fin 1)).bind fun ders =>
  if n = 1 then some (vals, ders) else
  ((List.range' 2 (n - 1)).foldlM (legBody x) ⟨vals, ders, fin 1, x, fin 0, fin 1⟩).map
    fun st => (st.vals, st.ders)

/-- A point in space: the `double[3]` parameters (impl.pyx:223-225). -/
abbrev V3 := Fin 3 → ℝ

/-- `dist` (impl.pyx:176-181). -/
noncomputable def cdist (a b : V3) : ℝ :=
  Real.sqrt ((a 0 - b 0) * (a 0 - b 0) + (a 1 - b 1) * (a 1 - b 1) + (a 2 - b 2) * (a 2 - b 2))

/-- `cos_angle` (impl.pyx:239-243, 300, 345). -/
noncomputable def cosAngle (s c t : V3) : Fl ℝ :=
  fin ((t 0 - c 0) * (s 0 - c 0) + (t 1 - c 1) * (s 1 - c 1) + (t 2 - c 2) * (s 2 - c 2))
    / (fin (cdist t c) * fin (cdist s c))

/-- Locals of the loop of `ts_laplace_s` (impl.pyx:248-257). -/
structure LapSt where
  result : Fl ℝ
  r : Fl ℝ
  j : Fl ℝ
  p2 : Fl ℝ
  p1 : Fl ℝ

/-- Body of the loop of `ts_laplace_s` (impl.pyx:259-266). -/
noncomputable def lapSBody (ca tc sc : Fl ℝ) (st : LapSt) : LapSt :=
  let pj := ((fin 2 * st.j - fin 1) * ca * st.p1 - (st.j - fin 1) * st.p2) / st.j
  { result := st.result + pj * st.r
    r := st.r * (tc / sc)
    j := st.j + fin 1
    p2 := st.p1
    p1 := pj }

/-- `ts_laplace_s` (impl.pyx:222-268). -/
noncomputable def tsLaplaceS (s c t : V3) (charge : Fl ℂ) (order : ℕ) : Fl ℂ :=
  let tc := fin (cdist t c)
  let sc := fin (cdist s c)
  let ca := cosAngle s c t
  if order = 0 then charge / toC sc else
  charge * toC ((lapSBody ca tc sc)^[order - 1]
    { result := fin 1 / sc + (ca * tc) / (sc * sc)
      r := (tc * tc) / (sc * sc * sc)
      j := fin 2
      p2 := fin 1
      p1 := ca }).result

/-- Body of the loop of `ts_laplace_sp` (impl.pyx:306-311); the inner loop over `m` only touches
entry `m`, so the three entries are computed as one function. -/
noncomputable def lapSpBody (tmc smc : V3) (ca tc sc : Fl ℝ) (lv ld : Buf ℝ)
    (st : (Fin 3 → Fl ℝ) × Fl ℝ) (n : ℕ) : Option ((Fin 3 → Fl ℝ) × Fl ℝ) :=
  (lv n).bind fun l => (ld n).bind fun d =>
  some (fun m => st.1 m + st.2 * (fin (n : ℝ) * (fin (tmc m) / tc) * l
      + (fin (smc m) / sc - ca * fin (tmc m) / tc) * d),
    st.2 * (tc / sc))

/-- `ts_laplace_sp` (impl.pyx:274-314): returns the updated `grad`. -/
noncomputable def tsLaplaceSp (grad : Fin 3 → Fl ℂ) (s c t : V3) (charge : Fl ℂ) (order : ℕ) :
    Option (Fin 3 → Fl ℂ) :=
  let tc := fin (cdist t c)
  let sc := fin (cdist s c)
  let ca := cosAngle s c t
  (legvals ca order true).bind fun bufs => bufs.2.bind fun ld =>
  ((List.range' 1 order).foldlM
    (lapSpBody (fun m => t m - c m) (fun m => s m - c m) ca tc sc bufs.1 ld)
    (fun _ => fin 0, fin 1 / (sc * sc))).map fun st =>
  fun m => grad m + charge * toC (st.1 m)

/-- Body of the loop of `ts_laplace_d` (impl.pyx:351-356). -/
noncomputable def lapDBody (tmc smc : V3) (ca tc sc : Fl ℝ) (lv ld : Buf ℝ)
    (st : (Fin 3 → Fl ℝ) × Fl ℝ) (n : ℕ) : Option ((Fin 3 → Fl ℝ) × Fl ℝ) :=
  (lv n).bind fun l => (ld n).bind fun d =>
  some (fun m => st.1 m + st.2 * (fin (-((n : ℝ) + 1)) * (fin (smc m) / sc) * l
      + (fin (tmc m) / tc - ca * fin (smc m) / sc) * d),
    st.2 * (tc / sc))

/-- `ts_laplace_d` (impl.pyx:320-359). -/
noncomputable def tsLaplaceD (s c t dipole : V3) (dipstr : Fl ℂ) (order : ℕ) : Option (Fl ℂ) :=
  let tc := fin (cdist t c)
  let sc := fin (cdist s c)
  let ca := cosAngle s c t
  (legvals ca order true).bind fun bufs => bufs.2.bind fun ld =>
  ((List.range' 0 (order + 1)).foldlM
    (lapDBody (fun m => t m - c m) (fun m => s m - c m) ca tc sc bufs.1 ld)
    (fun _ => fin 0, fin 1 / (sc * sc))).map fun st =>
  dipstr * toC (fin (dipole 0) * st.1 0 + fin (dipole 1) * st.1 1 + fin (dipole 2) * st.1 2)

end Verif.Ts
