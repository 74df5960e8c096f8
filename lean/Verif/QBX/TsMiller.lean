import Verif.QBX.TsHelm
import Mathlib.Tactic.IntervalCases

/-!
# What the Bessel routine computes
-/

namespace Verif.Ts

open Fl Finset Filter Topology

/-- The three-term recurrence of the spherical Bessel functions on the indices `lo..hi`. -/
def Rec (z : ℂ) (lo hi : ℕ) (f : ℕ → ℂ) : Prop :=
  ∀ i, lo ≤ i → i < hi → f (i + 1) = (2 * (i : ℂ) + 1) / z * f i - f (i - 1)

theorem sphJ_Rec {z : ℂ} (hz : z ≠ 0) (hi : ℕ) : Rec z 1 hi (fun n => sphJ n z) := by
  intro i h1 _
  obtain ⟨n, rfl⟩ : ∃ n, i = n + 1 := ⟨i - 1, by omega⟩
  simp only [show n + 1 + 1 = n + 2 by rfl, sphJ_rec n hz, Nat.add_sub_cancel]
  push_cast
  ring

theorem Rec.lin {z : ℂ} {lo hi : ℕ} {f g : ℕ → ℂ} (hf : Rec z lo hi f) (hg : Rec z lo hi g) (a : ℂ) :
    Rec z lo hi (fun n => f n * a - g n) := by
  intro i h1 h2
  simp only [hf i h1 h2, hg i h1 h2]
  ring

/-- The Casoratian is constant. -/
theorem Rec.casorati {z : ℂ} {lo hi : ℕ} {f g : ℕ → ℂ} (hf : Rec z lo hi f) (hg : Rec z lo hi g) :
    ∀ i, lo ≤ i → i ≤ hi → f i * g (i - 1) - f (i - 1) * g i = f lo * g (lo - 1) - f (lo - 1) * g lo := by
  intro i h1 h2
  induction i, h1 using Nat.le_induction with
  | base => rfl
  | succ i h1 ih =>
    rw [← ih (by omega), Nat.add_sub_cancel, hf i h1 (by omega), hg i h1 (by omega)]
    ring

/-! ## Step 1 -/

/-- The upward recursion from `nt`: entry `m` is the value at index `nt - 1 + m`. -/
noncomputable def pseq (z : ℂ) (nt : ℕ) : ℕ → ℂ
  | 0 => 0
  | 1 => 1
  | (m + 2) => (2 * ((nt + m : ℕ) : ℂ) + 1) / z * pseq z nt (m + 1) - pseq z nt m

/-- The value of the upward recursion at index `i`. -/
noncomputable def pat (z : ℂ) (nt i : ℕ) : ℂ := pseq z nt (i + 1 - nt)

theorem pat_start (z : ℂ) (nt : ℕ) (h : 1 ≤ nt) : pat z nt (nt - 1) = 0 ∧ pat z nt nt = 1 := by
  unfold pat
  rw [show nt - 1 + 1 - nt = 0 by omega, show nt + 1 - nt = 1 by omega]
  exact ⟨rfl, rfl⟩

theorem pat_Rec (z : ℂ) (nt hi : ℕ) (h : 1 ≤ nt) : Rec z nt hi (pat z nt) := by
  intro i h1 _
  obtain ⟨m, rfl⟩ : ∃ m, i = nt + m := ⟨i - nt, by omega⟩
  unfold pat
  rw [show nt + m + 1 + 1 - nt = m + 2 by omega, show nt + m + 1 - nt = m + 1 by omega,
    show nt + m - 1 + 1 - nt = m by omega, pseq]

/-- `N` is the first index above `nt` at which the upward recursion exceeds `10^20`. -/
def IsTop (z : ℂ) (nt N : ℕ) : Prop :=
  nt < N ∧ 10 ^ 20 < ‖pat z nt N‖ ∧ ∀ l, nt < l → l < N → ‖pat z nt l‖ ≤ 10 ^ 20

theorem big_iff (v : ℂ) : v.re * v.re + v.im * v.im > 10 ^ 40 ↔ 10 ^ 20 < ‖v‖ := by
  have h : v.re * v.re + v.im * v.im = ‖v‖ ^ 2 := by
    rw [← Complex.normSq_eq_norm_sq, Complex.normSq_apply]
  rw [h, gt_iff_lt, show (10 : ℝ) ^ 40 = (10 ^ 20) ^ 2 by norm_num]
  exact pow_lt_pow_iff_left₀ (by positivity) (norm_nonneg v) two_ne_zero

theorem putN_some {K : Type} {size : ℕ} (b : Buf K) {i : ℕ} (v : Fl K) (h : i < size) :
    b.putN size i v = some (fun k => if k = i then some v else b k) := by
  unfold Buf.putN; rw [if_pos h]

theorem jUp_ok {size : ℕ} {z : ℂ} {nt : ℕ} (h1 : 1 ≤ nt) : ∀ f i (b : Buf ℂ), nt ≤ i → i + f < size →
    b i = some (fin (pat z nt i)) → b (i - 1) = some (fin (pat z nt (i - 1))) →
    (∀ l, nt < l → l ≤ i → ‖pat z nt l‖ ≤ 10 ^ 20) →
    ((∃ b', jUp size z f i b = some (b', none)) ∧ ∀ l, nt < l → l ≤ i + f → ‖pat z nt l‖ ≤ 10 ^ 20) ∨
    ∃ b' N, jUp size z f i b = some (b', some N) ∧ IsTop z nt N ∧ N ≤ i + f := by
  intro f
  induction f with
  | zero => intro i b hi _ _ _ hl; exact Or.inl ⟨⟨b, rfl⟩, fun l a c => hl l a (by omega)⟩
  | succ f ih =>
    intro i b hi hs hb hb' hl
    have hr : (2 * (i : ℂ) + 1) * (1 / z) * pat z nt i - pat z nt (i - 1) = pat z nt (i + 1) := by
      rw [pat_Rec z nt (i + 1) h1 i hi (by omega)]; ring
    have e : jUp size z (f + 1) i b
        = if 10 ^ 20 < ‖pat z nt (i + 1)‖ then
            some ((fun k => if k = i + 1 then some (fin (pat z nt (i + 1))) else b k), some (i + 1))
          else jUp size z f (i + 1) (fun k => if k = i + 1 then some (fin (pat z nt (i + 1))) else b k) := by
      simp only [jUp, hb, hb', hr, putN_some b _ (show i + 1 < size by omega), Option.bind_some]
      by_cases hbig : 10 ^ 20 < ‖pat z nt (i + 1)‖
      · rw [if_pos hbig, if_pos ((big_iff _).mpr hbig)]
      · rw [if_neg hbig, if_neg (fun h => hbig ((big_iff _).mp h))]
    by_cases hbig : 10 ^ 20 < ‖pat z nt (i + 1)‖
    · rw [if_pos hbig] at e
      exact Or.inr ⟨_, i + 1, e, ⟨by omega, hbig, fun l a c => hl l a (by omega)⟩, by omega⟩
    · rw [if_neg hbig] at e
      have := ih (i + 1) (fun k => if k = i + 1 then some (fin (pat z nt (i + 1))) else b k) (by omega) (by omega)
        (by simp) (by simp [hb]) (fun l a c => by
          by_cases hc : l = i + 1
          · rw [hc]; exact not_lt.mp hbig
          · exact hl l a (by omega))
      rw [e]
      rcases this with ⟨⟨b', h⟩, h'⟩ | ⟨b', N, h, h', h''⟩
      · exact Or.inl ⟨⟨b', h⟩, fun l a c => h' l a (by omega)⟩
      · exact Or.inr ⟨b', N, h, h', by omega⟩

theorem IsTop.unique {z : ℂ} {nt N M : ℕ} (h : IsTop z nt N) (h' : IsTop z nt M) : N = M := by
  rcases lt_trichotomy N M with hlt | he | hlt
  · exact absurd (h'.2.2 N h.1 hlt) (not_le.mpr h.2.1)
  · exact he
  · exact absurd (h.2.2 M h'.1 hlt) (not_le.mpr h'.2.1)

/-! ## Step 2 -/

/-- The downward recursion from `N`: entry `m` is the value at index `N - m`. -/
noncomputable def milT (z : ℂ) (N : ℕ) : ℕ → ℂ
  | 0 => 0
  | 1 => 1
  | (m + 2) => (2 * ((N - (m + 1) : ℕ) : ℂ) + 1) / z * milT z N (m + 1) - milT z N m

/-- The value of the downward recursion at index `i`. -/
noncomputable def mil (z : ℂ) (N i : ℕ) : ℂ := milT z N (N - i)

theorem mil_top (z : ℂ) (N : ℕ) (h : 1 ≤ N) : mil z N N = 0 ∧ mil z N (N - 1) = 1 := by
  unfold mil
  rw [Nat.sub_self, show N - (N - 1) = 1 by omega]
  exact ⟨rfl, rfl⟩

theorem mil_down (z : ℂ) (N i : ℕ) (h1 : 1 ≤ i) (h2 : i < N) :
    mil z N (i - 1) = (2 * (i : ℂ) + 1) / z * mil z N i - mil z N (i + 1) := by
  obtain ⟨m, hm⟩ : ∃ m, N = i + 1 + m := ⟨N - (i + 1), by omega⟩
  unfold mil
  rw [show N - (i - 1) = m + 2 by omega, show N - i = m + 1 by omega, show N - (i + 1) = m by omega, milT,
    show N - (m + 1) = i by omega]

theorem mil_Rec (z : ℂ) (N : ℕ) : Rec z 1 N (mil z N) := by
  intro i h1 h2
  rw [mil_down z N i h1 h2]; ring

/-- Number of rescalings at the indices `lo..hi-1`. -/
def cnt (sc : ℕ → Bool) (lo hi : ℕ) : ℕ := ((Ico lo hi).filter fun l => sc l = true).card

theorem cnt_split (sc : ℕ → Bool) {a b c : ℕ} (h1 : a ≤ b) (h2 : b ≤ c) : cnt sc a b + cnt sc b c = cnt sc a c := by
  unfold cnt
  rw [← Ico_union_Ico_eq_Ico h1 h2, filter_union, card_union_of_disjoint]
  exact disjoint_filter_filter (Ico_disjoint_Ico_consecutive a b c)

theorem cnt_one (sc : ℕ → Bool) (a : ℕ) : cnt sc a (a + 1) = if sc a then 1 else 0 := by
  unfold cnt
  rw [Nat.Ico_succ_singleton, filter_singleton]
  by_cases h : sc a = true
  · rw [if_pos h, if_pos h]; rfl
  · rw [if_neg h, if_neg h]; rfl

theorem cnt_congr (sc sc' : ℕ → Bool) {a b : ℕ} (h : ∀ l, a ≤ l → l < b → sc l = sc' l) : cnt sc a b = cnt sc' a b := by
  unfold cnt
  congr 1
  refine filter_congr fun l hl => ?_
  rw [mem_Ico] at hl
  rw [h l hl.1 hl.2]

/-- The rescaling factor. -/
noncomputable def usc : ℂ := 1 / 10 ^ 40

theorem usc_ne : usc ≠ 0 := by unfold usc; norm_num

theorem jDown_ok {size : ℕ} {z : ℂ} {N : ℕ} (hN : N < size) : ∀ i (b : Buf ℂ) sc, i + 1 ≤ N →
    (∀ j, i ≤ j → j ≤ N → b j = some (fin (mil z N j * usc ^ cnt sc j (N + 1)))) →
    (∀ l, l ≤ i → sc l = false) →
    ∃ b' sc', jDown size z i b sc = some (b', sc') ∧
      ∀ j, j ≤ N → b' j = some (fin (mil z N j * usc ^ cnt sc' j (N + 1))) := by
  intro i
  induction i with
  | zero => intro b sc _ hb _; exact ⟨b, sc, rfl, fun j hj => hb j (Nat.zero_le _) hj⟩
  | succ i ih =>
    intro b sc hi hb hsc
    have hb1 := hb (i + 1) le_rfl (by omega)
    have hb2 := hb (i + 2) (by omega) (by omega)
    have c1 : cnt sc (i + 1) (N + 1) = cnt sc (i + 2) (N + 1) := by
      rw [← cnt_split sc (show i + 1 ≤ i + 2 by omega) (show i + 2 ≤ N + 1 by omega), cnt_one, hsc (i + 1) le_rfl]
      simp
    have c0 : cnt sc i (N + 1) = cnt sc (i + 2) (N + 1) := by
      rw [← cnt_split sc (show i ≤ i + 1 by omega) (show i + 1 ≤ N + 1 by omega), cnt_one, hsc i (by omega), c1]
      simp
    obtain ⟨ex, hex⟩ : ∃ ex, ex = usc ^ cnt sc (i + 2) (N + 1) := ⟨_, rfl⟩
    rw [c1, ← hex] at hb1
    rw [← hex] at hb2
    have hr : (2 * ((i + 1 : ℕ) : ℂ) + 1) * (1 / z) * (mil z N (i + 1) * ex) - mil z N (i + 2) * ex
        = mil z N i * ex := by
      have := mil_down z N (i + 1) (by omega) (by omega)
      rw [Nat.add_sub_cancel] at this
      rw [this]; ring
    by_cases hbig : (mil z N i * ex).re * (mil z N i * ex).re + (mil z N i * ex).im * (mil z N i * ex).im > 10 ^ 40
    · obtain ⟨sc2, hsc2⟩ : ∃ sc2 : ℕ → Bool, sc2 = fun l => if l = i + 1 then true else sc l := ⟨_, rfl⟩
      obtain ⟨b2, hb2'⟩ : ∃ b2 : Buf ℂ, b2 = fun k => if k = i then some (fin (mil z N i * ex * (1 / 10 ^ 40)))
        else if k = i + 1 then some (fin (mil z N (i + 1) * ex * (1 / 10 ^ 40))) else if k = i then some (fin (mil z N i * ex)) else b k := ⟨_, rfl⟩
      have e : jDown size z (i + 1) b sc = jDown size z i b2 sc2 := by
        simp only [jDown, hb1, hb2, hr, putN_some _ _ (show i < size by omega), putN_some _ _ (show i + 1 < size by omega),
          Option.bind_some]
        rw [if_pos hbig, hb2', hsc2]
      rw [e]
      have hsame : ∀ l, i + 2 ≤ l → sc2 l = sc l := fun l hl => by rw [hsc2]; simp; omega
      have k2 : cnt sc2 (i + 2) (N + 1) = cnt sc (i + 2) (N + 1) := cnt_congr _ _ fun l h _ => hsame l h
      have k1 : cnt sc2 (i + 1) (N + 1) = cnt sc (i + 2) (N + 1) + 1 := by
        rw [← cnt_split sc2 (show i + 1 ≤ i + 2 by omega) (show i + 2 ≤ N + 1 by omega), cnt_one, k2, hsc2]
        simp; omega
      have k0 : cnt sc2 i (N + 1) = cnt sc (i + 2) (N + 1) + 1 := by
        rw [← cnt_split sc2 (show i ≤ i + 1 by omega) (show i + 1 ≤ N + 1 by omega), cnt_one, k1, hsc2]
        simp [hsc i (by omega)]
      refine ih b2 sc2 (by omega) (fun j hj1 hj2 => ?_) (fun l hl => ?_)
      · by_cases hj : j = i
        · rw [hj, k0, hb2']; simp only [if_true]
          rw [pow_succ usc, ← hex, usc, mul_assoc]
        · by_cases hj' : j = i + 1
          · rw [hj', k1, hb2']
            simp only [if_true, show ¬ (i + 1 = i) by omega, if_false]
            rw [pow_succ usc, ← hex, usc, mul_assoc]
          · have e1 : b2 j = b j := by rw [hb2']; simp [hj, hj']
            rw [e1, hb j (by omega) hj2, cnt_congr sc2 sc fun l h _ => hsame l (by omega)]
      · rw [hsc2]; simp only
        rw [if_neg (by omega)]; exact hsc l (by omega)
    · obtain ⟨b2, hb2'⟩ : ∃ b2 : Buf ℂ, b2 = fun k => if k = i then some (fin (mil z N i * ex)) else b k := ⟨_, rfl⟩
      have e : jDown size z (i + 1) b sc = jDown size z i b2 sc := by
        simp only [jDown, hb1, hb2, hr, putN_some _ _ (show i < size by omega), Option.bind_some]
        rw [if_neg hbig, hb2']
      rw [e]
      refine ih b2 sc (by omega) (fun j hj1 hj2 => ?_) (fun l hl => hsc l (by omega))
      by_cases hj : j = i
      · rw [hj, c0, hb2', ← hex]; simp only [if_true]
      · have e1 : b2 j = b j := by rw [hb2']; simp [hj]
        rw [e1, hb j (by omega) hj2]

/-! ## Step 3 and normalization -/

theorem sctot_eq {σ : ℝ} (hσ : σ ≠ 0) (sc : ℕ → Bool) (i : ℕ) :
    sctot (fin 1 / fin σ) sc i = fin ((1 / σ) ^ i * (1 / 10 ^ 40) ^ cnt sc 0 i) := by
  induction i with
  | zero => simp [sctot, cnt]
  | succ i ih =>
    rw [sctot, ih, fin_div _ hσ, ← cnt_split sc (Nat.zero_le i) (Nat.le_succ i), cnt_one]
    by_cases h : sc i = true
    · rw [if_pos h, if_pos h]
      simp only [fin_mul]
      congr 1
      rw [pow_succ, pow_succ]; ring
    · rw [if_neg h, if_neg h]
      simp only [fin_mul]
      congr 1
      rw [pow_succ, add_zero]; ring

theorem jUnify_eq {σ : ℝ} (hσ : σ ≠ 0) {z : ℂ} {N : ℕ} (b : Buf ℂ) (sc : ℕ → Bool)
    (hb : ∀ j, j ≤ N → b j = some (fin (mil z N j * usc ^ cnt sc j (N + 1)))) (i : ℕ) (hi : i ≤ N) :
    jUnify (fin 1 / fin σ) sc N b i = some (fin (mil z N i * usc ^ cnt sc 0 (N + 1) / (σ : ℂ) ^ i)) := by
  have hσc : (σ : ℂ) ≠ 0 := by exact_mod_cast hσ
  unfold jUnify
  by_cases h : 1 ≤ i
  · rw [if_pos ⟨h, hi⟩, hb i hi, sctot_eq hσ]
    simp only [Option.map_some, toC_fin, fin_mul]
    congr 2
    rw [← cnt_split sc (Nat.zero_le i) (show i ≤ N + 1 by omega), pow_add]
    push_cast
    unfold usc
    rw [div_pow 1 (σ : ℂ), one_pow]
    field_simp
  · rw [if_neg (fun hh => h hh.1), hb i hi, show i = 0 by omega, pow_zero, div_one]

theorem fj01_eq {z : ℂ} (hz : z ≠ 0) : fj01 z = (sphJ 0 z, sphJ 1 z) := by
  unfold fj01
  rw [sphJ_one hz, sphJ_zero]
  congr 1
  · ring
  · ring

/-- The index used for normalization: the larger of `j_0`, `j_1`. -/
noncomputable def normIx (z : ℂ) : ℕ := by
  classical exact if ‖sphJ 1 z‖ > ‖sphJ 0 z‖ then 1 else 0

theorem normIx_le (z : ℂ) : normIx z ≤ 1 := by
  unfold normIx; split <;> omega

/-- The values `jfuns3d_` computes (before scaling): the downward recursion, normalized to be
exact at index `normIx z`. -/
noncomputable def mval (z : ℂ) (N n : ℕ) : ℂ := mil z N n * (sphJ (normIx z) z / mil z N (normIx z))

theorem jNorm_eq {σ : ℝ} (hσ : σ ≠ 0) {z : ℂ} (hz : z ≠ 0) {N : ℕ} (hN : 1 ≤ N) (b : Buf ℂ) (c : ℂ) (hc : c ≠ 0)
    (hb : ∀ j, j ≤ N → b j = some (fin (mil z N j * c / (σ : ℂ) ^ j))) (hm : mil z N (normIx z) ≠ 0) :
    jNorm z (fin σ) b = some (fin (sphJ (normIx z) z / (mil z N (normIx z) * c))) := by
  have hσc : (σ : ℂ) ≠ 0 := by exact_mod_cast hσ
  unfold jNorm
  rw [fj01_eq hz]
  by_cases h : ‖sphJ 1 z‖ > ‖sphJ 0 z‖
  · have e : normIx z = 1 := by unfold normIx; rw [if_pos h]
    rw [e] at hm ⊢
    rw [if_pos h, hb 1 (by omega), Option.map_some, toC_fin, fin_mul, pow_one, div_mul_cancel₀ _ hσc,
      fin_div _ (mul_ne_zero hm hc)]
  · have e : normIx z = 0 := by unfold normIx; rw [if_neg h]
    rw [e] at hm ⊢
    rw [if_neg h, hb 0 (by omega), Option.map_some, pow_zero, div_one, fin_div _ (mul_ne_zero hm hc)]

theorem jScale_eq {σ : ℝ} {z : ℂ} {N : ℕ} (b : Buf ℂ) (c : ℂ) (hc : c ≠ 0) (n : ℕ)
    (hb : ∀ j, j ≤ N → b j = some (fin (mil z N j * c / (σ : ℂ) ^ j))) (i : ℕ) (hi : i ≤ n) (hi' : i ≤ N) :
    jScale (fin (sphJ (normIx z) z / (mil z N (normIx z) * c))) n b i = some (fin (mval z N i / (σ : ℂ) ^ i)) := by
  unfold jScale mval
  rw [if_pos hi, hb i hi', Option.map_some, fin_mul]
  congr 2
  by_cases hm : mil z N (normIx z) = 0
  · simp [hm]
  · field_simp

/-- The derivative values `jfuns3d_` computes from values `u`. -/
noncomputable def dval (u : ℕ → ℂ) (n : ℕ) : ℂ :=
  if n = 0 then -u 1 else ((n : ℂ) * u (n - 1) - ((n : ℂ) + 1) * u (n + 1)) / (2 * (n : ℂ) + 1)

/-- Scaled derivative values. -/
noncomputable def jdF (u : ℕ → ℂ) (σ : ℝ) (n : ℕ) : Fl ℂ := fin (dval u n / (σ : ℂ) ^ n)

theorem jDers_eq {size nterms : ℕ} (hn : nterms < size) {σ : ℝ} (hσ : σ ≠ 0) (u : ℕ → ℂ) (fjs : Buf ℂ)
    (h1 : 1 ≤ nterms) (hf : ∀ i, i ≤ nterms + 1 → fjs i = some (fin (u i / (σ : ℂ) ^ i))) :
    jDers size nterms (fin σ) (fin 1 / fin σ) fjs = some (filled (jdF u σ) (nterms + 1)) := by
  have hσc : (σ : ℂ) ≠ 0 := by exact_mod_cast hσ
  unfold jDers
  rw [hf 1 (by omega), Option.bind_some]
  have d0 : Buf.putN size Buf.fresh 0 (Fl.neg (fin (u 1 / (σ : ℂ) ^ 1)) * toC (fin σ)) = some (filled (jdF u σ) 1) := by
    rw [fresh_filledK (jdF u σ), ← filled_putN size (jdF u σ) 0 (by omega)]
    congr 1
    rw [neg_fin, toC_fin, fin_mul, jdF, dval, if_pos rfl]
    congr 1
    field_simp
  rw [d0, Option.bind_some]
  have hfold := fill_fold (jDerBody size (fin σ) (fin 1 / fin σ) fjs) (jdF u σ) 1 0 nterms
    (fun i hi1 hi2 => by
      obtain ⟨n, rfl⟩ : ∃ n, i = n + 1 := ⟨i - 1, by omega⟩
      have hne : (2 * ((n + 1 : ℕ) : ℝ) + 1) ≠ 0 := by positivity
      have hnc : (2 * ((n : ℂ) + 1) + 1) ≠ 0 := by
        have : ((2 * ((n : ℝ) + 1) + 1 : ℝ) : ℂ) ≠ 0 := by exact_mod_cast (by positivity : (2 * ((n : ℝ) + 1) + 1) ≠ 0)
        push_cast at this; exact this
      rw [jDerBody, Nat.add_sub_cancel, hf n (by omega), hf (n + 1 + 1) (by omega)]
      simp only [Option.bind_some, fin_div _ hne, fin_div _ hσ, fin_sub, fin_mul, toC_fin, add_zero]
      rw [← filled_putN size (jdF u σ) (n + 1) (by omega)]
      congr 2
      rw [dval, if_neg (by omega), Nat.add_sub_cancel]
      push_cast
      have e : (1 - ((n : ℂ) + 1) / (2 * ((n : ℂ) + 1) + 1)) = ((n : ℂ) + 1 + 1) / (2 * ((n : ℂ) + 1) + 1) := by
        rw [eq_div_iff hnc, sub_mul, div_mul_cancel₀ _ hnc]; ring
      rw [e]
      obtain ⟨q, hq⟩ : ∃ q : ℂ, q = 2 * ((n : ℂ) + 1) + 1 := ⟨_, rfl⟩
      rw [← hq] at hnc ⊢
      field_simp
      ring)
  rw [hfold]
  congr 2
  omega

/-! ## The routine -/

theorem tiny_ne {z : ℂ} (h : ¬ ‖z‖ < 1 / 10 ^ 200) : z ≠ 0 := by
  rintro rfl
  apply h
  rw [norm_zero]
  positivity

/-- The state after step 1. -/
theorem jfuns_up {size : ℕ} {nt : ℕ} (h1 : 1 ≤ nt) (hs : bufSize + 1 < size) (hnt : nt < size) (z : ℂ) :
    ∃ b0 : Buf ℂ, ((Buf.putN size Buf.fresh nt (fin 1)).bind fun b => (b.putN size (nt - 1) (fin 0))) = some b0 ∧
    (((∃ b', jUp size z (bufSize + 1 - nt) nt b0 = some (b', none)) ∧
        ∀ l, nt < l → l ≤ bufSize + 1 → ‖pat z nt l‖ ≤ 10 ^ 20) ∨
      ∃ b' N, jUp size z (bufSize + 1 - nt) nt b0 = some (b', some N) ∧ IsTop z nt N ∧ N ≤ bufSize + 1) := by
  obtain ⟨p0, p1⟩ := pat_start z nt h1
  refine ⟨fun k => if k = nt - 1 then some (fin 0) else if k = nt then some (fin 1) else none, ?_, ?_⟩
  · rw [putN_some _ _ hnt, Option.bind_some, putN_some _ _ (by omega)]
    rfl
  · by_cases hle : nt ≤ bufSize + 1
    · have h := jUp_ok (size := size) (z := z) h1 (bufSize + 1 - nt) nt
        (fun k => if k = nt - 1 then some (fin 0) else if k = nt then some (fin 1) else none) le_rfl (by omega)
        (by simp only [if_true]; rw [if_neg (by omega), p1]) (by simp [p0]) (fun l a c => by omega)
      rw [show nt + (bufSize + 1 - nt) = bufSize + 1 by omega] at h
      exact h
    · rw [show bufSize + 1 - nt = 0 by omega]
      exact Or.inl ⟨⟨_, rfl⟩, fun l a c => by omega⟩

/-- `jfuns3d_` gives up iff the upward recursion stays below its threshold through index 65. -/
theorem jfuns_ier {size : ℕ} {nt : ℕ} (h1 : 1 ≤ nt) (hs : bufSize + 1 < size) (hnt : nt < size) {z : ℂ}
    (hz : ¬ ‖z‖ < 1 / 10 ^ 200) (σ : Fl ℝ) (ifder : Bool)
    (hsm : ∀ l, nt < l → l ≤ bufSize + 1 → ‖pat z nt l‖ ≤ 10 ^ 20) :
    jfuns3d size nt z σ ifder = some .ier8 := by
  obtain ⟨b0, hb0, h⟩ := jfuns_up h1 hs hnt z
  unfold jfuns3d
  rw [if_neg hz]
  rw [Option.bind_eq_some_iff] at hb0
  obtain ⟨b1, e1, e2⟩ := hb0
  rw [e1, Option.bind_some, e2, Option.bind_some]
  rcases h with ⟨⟨b', h⟩, _⟩ | ⟨b', N, _, ht, hN⟩
  · rw [h, Option.bind_some]
  · exact absurd (hsm N ht.1 hN) (not_le.mpr ht.2.1)

/-- `jfuns3d_` overruns `iscale` iff the top index is 64 or 65. -/
theorem jfuns_overrun {size : ℕ} {nt : ℕ} (h1 : 1 ≤ nt) (hs : bufSize + 1 < size) (hnt : nt < size) {z : ℂ}
    (hz : ¬ ‖z‖ < 1 / 10 ^ 200) (σ : Fl ℝ) (ifder : Bool) {N : ℕ} (hT : IsTop z nt N) (hN : bufSize ≤ N)
    (hN' : N ≤ bufSize + 1) : jfuns3d size nt z σ ifder = none := by
  obtain ⟨b0, hb0, h⟩ := jfuns_up h1 hs hnt z
  unfold jfuns3d
  rw [if_neg hz]
  rw [Option.bind_eq_some_iff] at hb0
  obtain ⟨b1, e1, e2⟩ := hb0
  rw [e1, Option.bind_some, e2, Option.bind_some]
  rcases h with ⟨_, hsm⟩ | ⟨b', N', h, ht, _⟩
  · exact absurd (hsm N hT.1 hN') (not_le.mpr hT.2.1)
  · rw [h, Option.bind_some]
    simp only
    rw [← hT.unique ht, if_pos hN]

/-- The normal return of `jfuns3d_`. -/
theorem jfuns_ok {size : ℕ} {nt : ℕ} (h1 : 1 ≤ nt) (hs : bufSize + 1 < size) {z : ℂ}
    (hz : ¬ ‖z‖ < 1 / 10 ^ 200) {σ : ℝ} (hσ : σ ≠ 0) (ifder : Bool) {N : ℕ} (hT : IsTop z nt N) (hN : N < bufSize)
    (hm : mil z N (normIx z) ≠ 0) :
    ∃ fjs fjder, jfuns3d size nt z (fin σ) ifder = some (.ok fjs fjder) ∧
      (∀ n, n ≤ nt → fjs n = some (fin (mval z N n / (σ : ℂ) ^ n))) ∧
      (ifder = true → ∃ d, fjder = some d ∧ ∀ n, n ≤ nt → d n = some (fin (dval (mval z N) n / (σ : ℂ) ^ n))) := by
  have hz0 := tiny_ne hz
  have hb : bufSize = 64 := rfl
  have hNt := hT.1
  obtain ⟨b0, hb0, h⟩ := jfuns_up h1 hs (by omega) z
  rw [Option.bind_eq_some_iff] at hb0
  obtain ⟨b1, e1, e2⟩ := hb0
  rcases h with ⟨_, hsm⟩ | ⟨b', N', h, ht, _⟩
  · exact absurd (hsm N hT.1 (by omega)) (not_le.mpr hT.2.1)
  rw [← hT.unique ht] at h
  -- step 2
  obtain ⟨bd, hbd⟩ : ∃ bd : Buf ℂ, bd = fun k => if k = N - 1 then some (fin 1) else if k = N then some (fin 0) else b' k :=
    ⟨_, rfl⟩
  obtain ⟨t0, t1⟩ := mil_top z N (by omega)
  have c0 : ∀ a c, cnt (fun _ => false) a c = 0 := fun a c => by simp [cnt]
  obtain ⟨b2, sc, hd, hv⟩ := jDown_ok (size := size) (z := z) (N := N) (by omega) (N - 1) bd (fun _ => false) (by omega)
    (fun j hj1 hj2 => by
      rw [c0, pow_zero, mul_one]
      by_cases hj : j = N - 1
      · rw [hj, t1, hbd]; simp only [if_true]
      · rw [show j = N by omega, t0, hbd]; simp only [if_true]
        rw [if_neg (by omega)])
    (fun _ _ => rfl)
  obtain ⟨bu, hbu⟩ : ∃ bu, bu = jUnify (fin 1 / fin σ) sc N b2 := ⟨_, rfl⟩
  have hu : ∀ j, j ≤ N → bu j = some (fin (mil z N j * usc ^ cnt sc 0 (N + 1) / (σ : ℂ) ^ j)) := fun j hj => by
    rw [hbu]; exact jUnify_eq hσ b2 sc hv j hj
  have hc := pow_ne_zero (cnt sc 0 (N + 1)) usc_ne
  have hnrm := jNorm_eq hσ hz0 (by omega) bu _ hc hu hm
  have hfin : jfuns3d size nt z (fin σ) ifder = jFinish size nt z (fin σ) ifder N b2 sc := by
    unfold jfuns3d
    rw [if_neg hz, e1, Option.bind_some, e2, Option.bind_some, h, Option.bind_some]
    simp only
    rw [if_neg (by omega), putN_some _ _ (show N < size by omega), Option.bind_some,
      putN_some _ _ (show N - 1 < size by omega), Option.bind_some, ← hbd, hd, Option.bind_some]
  rw [hfin]
  unfold jFinish
  simp only
  rw [← hbu, hnrm, Option.bind_some]
  cases ifder with
  | false =>
    simp only [Bool.false_eq_true, if_false]
    exact ⟨_, _, rfl, fun n hn => jScale_eq bu _ hc nt hu n hn (by omega), by simp⟩
  | true =>
    simp only [if_true]
    rw [jDers_eq (by omega) hσ (mval z N) _ h1 (fun i hi => jScale_eq bu _ hc (nt + 1) hu i hi (by omega)),
      Option.map_some]
    refine ⟨_, _, rfl, fun n hn => jScale_eq bu _ hc (nt + 1) hu n (by omega) (by omega), fun _ => ⟨_, rfl, fun n hn => ?_⟩⟩
    rw [filled_ltK _ (by omega), jdF]

end Verif.Ts
