import Verif.Surface.Curvature
import Verif.QBX.Dofs

/-!
# Expansion radii and centers (C74)

Models `_mapping_max_stretch_factor`, `_expansion_radii_factor`, `_quad_resolution`, `expansion_radii`,
`_source_danger_zone_radii`, `_close_target_tunnel_radii`, `expansion_centers`, `interleaved_expansion_centers`,
`h_max`, `h_min`, `interpolate`, `interleave` (`pytential/symbolic/primitives.py:1236-1255`, `1306-1432`, `1509-1544`),
their evaluation (`pytential/symbolic/execution.py:295-315,349-364`) and the granularity rules of `connection_from_dds`
(`pytential/symbolic/dof_connection.py:223,258-267`).  Nodal quantities are the flattened lists of their values; what
interleaving does to flattened values is C41.  The stage is the same throughout.
-/

namespace Verif.Radii

open Verif.Frames Verif.Surface Verif.Dofs

/-- errors -/
inductive PErr where
  | valueError
  | notImplemented
  | typeError
  | runtimeError
  deriving DecidableEq, Repr

/-- element groups by shape: simplices, hypercubes, other shapes of modepy, other element groups -/
inductive El where
  | simplex
  | hypercube
  | otherShape
  | unsupported
  deriving DecidableEq, Repr

/-- granularities -/
inductive Gr where
  | node
  | center
  | element
  deriving DecidableEq, Repr

/-- a discretization: its element groups and, at each node, position, unit normal and the stretch factors of the element
map by both formulas (C56) -/
structure Discr (n : Nat) where
  groups : List El
  x : List (Vec n)
  normal : List (Vec n)
  simplexStretch : List ℝ
  hypercubeStretch : List ℝ

/-- `map_is_shape_class` (`execution.py:349-364`); `is_single_valued` of pytools refuses an empty sequence -/
def isShapeClass (cls : El) : List El → Except PErr Bool
  | [] => .error .valueError
  | g :: gs =>
    if gs.all (fun h => h == g) then
      if g = .unsupported then .error .typeError else .ok (g == cls)
    else .error .notImplemented

/-- evaluation of `_mapping_max_stretch_factor` (`primitives.py:1236-1255`): nested `If` -/
def mappingMaxStretch {n : Nat} (D : Discr n) : Except PErr (List ℝ) := do
  if ← isShapeClass .simplex D.groups then pure D.simplexStretch
  else if ← isShapeClass .hypercube D.groups then pure D.hypercubeStretch
  else .error .runtimeError

/-- `_expansion_radii_factor` (`primitives.py:1301-1308`) -/
noncomputable def radiiFactor (ambient : Nat) (dim : Option Nat) : ℝ :=
  let dim := dim.getD (ambient - 1)
  let fudge : ℝ := if dim = 2 then 1 / 2 else 1
  1 / 2 * fudge

/-- evaluation of `interpolate` (`primitives.py:1509-1523`) between descriptors that differ in granularity only:
the identity if they are equal; else `connection_from_dds` (`dof_connection.py:223,258-267`) refuses -/
def interpolate (v : List ℝ) (fromG toG : Gr) : Except PErr (List ℝ) :=
  if fromG = toG then .ok v
  else if toG = .center then .error .valueError
  else if fromG ≠ .node then .error .valueError
  else if toG = .element then .error .valueError
  else .ok v

/-- `interleave` (`primitives.py:1536-1544`), evaluated -/
def interleave {α : Type} (a b : List α) (fromG : Gr) : Except PErr (List α) :=
  if fromG ≠ .node then .error .valueError else .ok (alternate a b)

/-- `_quad_resolution` (`primitives.py:1309-1337`); `g0` is the granularity of the given descriptor -/
def quadResolution {n : Nat} (D : Discr n) (granularity : Option Gr) (g0 : Gr) : Except PErr (List ℝ) := do
  let stretch ← mappingMaxStretch D
  if granularity = some .center then
    let nodal ← interpolate stretch g0 .node
    interleave nodal nodal .node
  else interpolate stretch g0 (granularity.getD g0)

/-- `expansion_radii` (`primitives.py:1369-1379`) -/
noncomputable def expansionRadii {n : Nat} (D : Discr n) (dim : Option Nat) (granularity : Option Gr) (g0 : Gr) :
    Except PErr (List ℝ) := do
  let q ← quadResolution D granularity g0
  pure (q.map fun h => radiiFactor n dim * h)

/-- `_source_danger_zone_radii` (`primitives.py:1344-1358`) -/
noncomputable def sourceDangerZoneRadii {n : Nat} (D : Discr n) (dim : Option Nat) (granularity : Option Gr) (g0 : Gr) :
    Except PErr (List ℝ) := do
  let r ← expansionRadii D dim granularity g0
  pure (r.map fun x => 3 / 4 * x)

/-- `_close_target_tunnel_radii` (`primitives.py:1360-1366`) -/
noncomputable def closeTargetTunnelRadii {n : Nat} (D : Discr n) (dim : Option Nat) (granularity : Option Gr) (g0 : Gr) :
    Except PErr (List ℝ) := do
  let r ← expansionRadii D dim granularity g0
  pure (r.map fun x => 1 / 2 * x)

/-- `x + side * radii * normals`, node by node -/
noncomputable def centerList {n : Nat} (side : ℝ) : List (Vec n) → List ℝ → List (Vec n) → List (Vec n)
  | x :: xs, r :: rs, m :: ms => expansionCenter x side r m :: centerList side xs rs ms
  | _, _, _ => []

/-- `expansion_centers` (`primitives.py:1382-1396`): radii with node granularity -/
noncomputable def expansionCenters {n : Nat} (D : Discr n) (side : ℝ) (dim : Option Nat) (g0 : Gr) :
    Except PErr (List (Vec n)) := do
  let r ← expansionRadii D dim (some .node) g0
  pure (centerList side D.x r D.normal)

/-- `interleaved_expansion_centers` (`primitives.py:1399-1407`) -/
noncomputable def interleavedExpansionCenters {n : Nat} (D : Discr n) (dim : Option Nat) (g0 : Gr) :
    Except PErr (List (Vec n)) := do
  let cneg ← expansionCenters D (-1) dim g0
  let cpos ← expansionCenters D 1 dim g0
  interleave cneg cpos g0

/-- `h_max` (`primitives.py:1410-1420`); `none` without nodes -/
noncomputable def hMax {n : Nat} (D : Discr n) (g0 : Gr) : Except PErr (Option ℝ) := do
  let q ← quadResolution D none g0
  pure q.max?

/-- `h_min` (`primitives.py:1423-1433`); `none` without nodes -/
noncomputable def hMin {n : Nat} (D : Discr n) (g0 : Gr) : Except PErr (Option ℝ) := do
  let q ← quadResolution D none g0
  pure q.min?

/-! # Specification -/

/-- the discretization consists of groups of one supported shape, `h` are the stretch factors of that shape's formula, at
as many nodes as there are positions and unit normals -/
structure Supported {n : Nat} (D : Discr n) (h : List ℝ) : Prop where
  ne : D.groups ≠ []
  shape : (∀ g ∈ D.groups, g = .simplex) ∧ h = D.simplexStretch ∨ (∀ g ∈ D.groups, g = .hypercube) ∧ h = D.hypercubeStretch
  nonneg : ∀ x ∈ h, 0 ≤ x
  lenx : D.x.length = h.length
  lenn : D.normal.length = h.length
  unit : ∀ m ∈ D.normal, dot m m = 1

/-! # Properties -/

theorem all_eq (g : El) (gs : List El) : gs.all (fun h => h == g) = true ↔ ∀ h ∈ gs, h = g := by
  simp

theorem stretch_ok {n : Nat} (D : Discr n) (h : List ℝ) (hD : Supported D h) : mappingMaxStretch D = .ok h := by
  obtain ⟨groups, x, nrm, s1, s2⟩ := D
  obtain ⟨h1, h2, -, -, -, -⟩ := hD
  simp only at h1 h2
  cases groups with
  | nil => exact absurd rfl h1
  | cons g gs =>
    rcases h2 with ⟨h2, h3⟩ | ⟨h2, h3⟩
    · have hg : g = .simplex := h2 g (by simp)
      subst hg
      have : gs.all (fun h => h == El.simplex) = true := (all_eq _ _).2 fun e he => h2 e (by simp [he])
      simp only [mappingMaxStretch, isShapeClass, this, if_true, bind, Except.bind, pure, Except.pure, h3]
      simp
    · have hg : g = .hypercube := h2 g (by simp)
      subst hg
      have : gs.all (fun h => h == El.hypercube) = true := (all_eq _ _).2 fun e he => h2 e (by simp [he])
      simp only [mappingMaxStretch, isShapeClass, this, if_true, bind, Except.bind, pure, Except.pure, h3]
      simp

/-- **C74, shapes**: radii are refused for meshes that mix element types (`NotImplementedError`), for shapes other than
simplices and hypercubes (`RuntimeError`) and for other element groups (`TypeError`), whatever the granularity. -/
theorem C74_shapes {n : Nat} (D : Discr n) (dim : Option Nat) (granularity : Option Gr) (g0 : Gr) :
    ((∃ g ∈ D.groups, ∃ h ∈ D.groups, g ≠ h) → expansionRadii D dim granularity g0 = .error .notImplemented) ∧
    (D.groups ≠ [] → (∀ g ∈ D.groups, g = .otherShape) → expansionRadii D dim granularity g0 = .error .runtimeError) ∧
    (D.groups ≠ [] → (∀ g ∈ D.groups, g = .unsupported) → expansionRadii D dim granularity g0 = .error .typeError) := by
  obtain ⟨groups, x, nrm, s1, s2⟩ := D
  have hfail : ∀ e, mappingMaxStretch (⟨groups, x, nrm, s1, s2⟩ : Discr n) = .error e →
      expansionRadii (⟨groups, x, nrm, s1, s2⟩ : Discr n) dim granularity g0 = .error e := by
    intro e he
    simp [expansionRadii, quadResolution, he, bind, Except.bind]
  simp only
  refine ⟨?_, ?_, ?_⟩
  · rintro ⟨a, ha, b, hb, hab⟩
    apply hfail
    cases groups with
    | nil => simp at ha
    | cons g gs =>
      have : ¬ gs.all (fun h => h == g) = true := by
        rw [all_eq]
        intro hall
        have e1 : a = g := by rcases List.mem_cons.1 ha with h | h; exacts [h, hall a h]
        have e2 : b = g := by rcases List.mem_cons.1 hb with h | h; exacts [h, hall b h]
        exact hab (e1.trans e2.symm)
      simp only [mappingMaxStretch, isShapeClass, if_neg this, bind, Except.bind]
  · intro hne hall
    apply hfail
    cases groups with
    | nil => exact absurd rfl hne
    | cons g gs =>
      have hg : g = .otherShape := hall g (by simp)
      subst hg
      have : gs.all (fun h => h == El.otherShape) = true := (all_eq _ _).2 fun e he => hall e (by simp [he])
      simp only [mappingMaxStretch, isShapeClass, if_pos this, bind, Except.bind]
      simp
  · intro hne hall
    apply hfail
    cases groups with
    | nil => exact absurd rfl hne
    | cons g gs =>
      have hg : g = .unsupported := hall g (by simp)
      subst hg
      have : gs.all (fun h => h == El.unsupported) = true := (all_eq _ _).2 fun e he => hall e (by simp [he])
      simp only [mappingMaxStretch, isShapeClass, if_pos this, bind, Except.bind, if_true]

/-- **C74, radii**: the expansion radius at a node is one half (for surfaces: one quarter) of the stretch factor there, the
danger zone radius of a source is three quarters of it and the tunnel radius one half; with center granularity both
centers of a node get the radius of the node; element granularity is refused. -/
theorem C74_radii {n : Nat} (D : Discr n) (h : List ℝ) (hD : Supported D h) (dim : Option Nat) (c : ℝ)
    (hc : c = if dim.getD (n - 1) = 2 then 1 / 4 else 1 / 2) :
    (∀ granularity : Option Gr, granularity = none ∨ granularity = some .node →
      expansionRadii D dim granularity .node = .ok (h.map fun x => c * x) ∧
      sourceDangerZoneRadii D dim granularity .node = .ok (h.map fun x => 3 / 4 * (c * x)) ∧
      closeTargetTunnelRadii D dim granularity .node = .ok (h.map fun x => 1 / 2 * (c * x))) ∧
    (∃ r, expansionRadii D dim (some .center) .node = .ok r ∧ r.length = 2 * h.length ∧
      ∀ i : Nat, r[2 * i]? = (h[i]?).map (fun x => c * x) ∧ r[2 * i + 1]? = (h[i]?).map (fun x => c * x)) ∧
    expansionRadii D dim (some .element) .node = .error .valueError := by
  have hs := stretch_ok D h hD
  have hf : radiiFactor n dim = c := by
    simp only [radiiFactor, hc]
    split_ifs <;> norm_num
  have hq : ∀ granularity : Option Gr, granularity = none ∨ granularity = some .node →
      quadResolution D granularity .node = .ok h := by
    rintro g (rfl | rfl) <;> simp [quadResolution, hs, bind, Except.bind, interpolate]
  refine ⟨?_, ?_, ?_⟩
  · intro g hg
    simp [expansionRadii, sourceDangerZoneRadii, closeTargetTunnelRadii, hq g hg, bind, Except.bind, pure, Except.pure, hf]
    exact ⟨fun a _ => by ring, fun a _ => by ring⟩
  · refine ⟨(alternate h h).map fun x => c * x, ?_, ?_, ?_⟩
    · simp [expansionRadii, quadResolution, hs, bind, Except.bind, pure, Except.pure, interpolate, interleave, hf]
    · rw [List.length_map, (alternate_get h h rfl).1]
    · intro i
      rw [List.getElem?_map, List.getElem?_map, ((alternate_get h h rfl).2 i).1, ((alternate_get h h rfl).2 i).2]
      exact ⟨rfl, rfl⟩
  · simp [expansionRadii, quadResolution, hs, bind, Except.bind, interpolate]

theorem centerList_get {n : Nat} (side : ℝ) (xs : List (Vec n)) (rs : List ℝ) (ms : List (Vec n))
    (h1 : xs.length = rs.length) (h2 : ms.length = rs.length) :
    (centerList side xs rs ms).length = rs.length ∧
    ∀ (i : Nat) x r m, xs[i]? = some x → rs[i]? = some r → ms[i]? = some m →
      (centerList side xs rs ms)[i]? = some (expansionCenter x side r m) := by
  induction rs generalizing xs ms with
  | nil =>
    cases xs with
    | nil => simp [centerList]
    | cons => simp at h1
  | cons r rs ih =>
    cases xs with
    | nil => simp at h1
    | cons x xs =>
      cases ms with
      | nil => simp at h2
      | cons m ms =>
        obtain ⟨ih1, ih2⟩ := ih xs ms (by simpa using h1) (by simpa using h2)
        refine ⟨by simp [centerList, ih1], ?_⟩
        intro i y q l hy hq hl
        cases i with
        | zero =>
          simp at hy hq hl
          subst hy hq hl
          simp [centerList]
        | succ i =>
          simp at hy hq hl
          simp only [centerList, List.getElem?_cons_succ]
          exact ih2 i y q l hy hq hl

/-- **C74, centers**: there are two centers per node, the interior one first.  Center `k` lies at distance `r` from node
`k / 2`, along the normal on its side, where `r` is the `k`-th radius with center granularity and also the radius of the
node. -/
theorem C74_centers {n : Nat} (D : Discr n) (h : List ℝ) (hD : Supported D h) (dim : Option Nat) :
    ∃ cs rs, interleavedExpansionCenters D dim .node = .ok cs ∧ expansionRadii D dim (some .center) .node = .ok rs ∧
      cs.length = 2 * D.x.length ∧ rs.length = 2 * D.x.length ∧
      ∀ (k : Nat) c r, cs[k]? = some c → rs[k]? = some r →
        ∃ x m, D.x[k / 2]? = some x ∧ D.normal[k / 2]? = some m ∧ Frames.dist c x = r ∧
          dot (c - x) m = (if k % 2 = 0 then -r else r) := by
  obtain ⟨h1, ⟨rs, h2, h3, h4⟩, -⟩ := C74_radii D h hD dim _ rfl
  have hr := (h1 (some .node) (Or.inr rfl)).1
  generalize hcdef : (if dim.getD (n - 1) = 2 then (1 : ℝ) / 4 else 1 / 2) = c0 at *
  have hc0 : 0 ≤ c0 := by rw [← hcdef]; split_ifs <;> norm_num
  have hl1 : D.x.length = (h.map fun x => c0 * x).length := by rw [List.length_map]; exact hD.lenx
  have hl2 : D.normal.length = (h.map fun x => c0 * x).length := by rw [List.length_map]; exact hD.lenn
  obtain ⟨n1, n2⟩ := centerList_get (-1) D.x (h.map fun x => c0 * x) D.normal hl1 hl2
  obtain ⟨p1, p2⟩ := centerList_get 1 D.x (h.map fun x => c0 * x) D.normal hl1 hl2
  obtain ⟨a1, a2⟩ := alternate_get (centerList (-1) D.x (h.map fun x => c0 * x) D.normal)
    (centerList 1 D.x (h.map fun x => c0 * x) D.normal) (by rw [n1, p1])
  refine ⟨alternate (centerList (-1) D.x (h.map fun x => c0 * x) D.normal)
    (centerList 1 D.x (h.map fun x => c0 * x) D.normal), rs, ?_, h2, ?_, ?_, ?_⟩
  · simp [interleavedExpansionCenters, expansionCenters, hr, bind, Except.bind, pure, Except.pure, interleave]
  · rw [a1, n1, hl1]
  · rw [h3, hD.lenx]
  · intro k c r hc hrk
    have hk : k / 2 < h.length := by
      have : k < rs.length := by
        rcases Nat.lt_or_ge k rs.length with h | h
        · exact h
        · rw [List.getElem?_eq_none h] at hrk; cases hrk
      omega
    obtain ⟨x, hx⟩ : ∃ x, D.x[k / 2]? = some x := ⟨_, List.getElem?_eq_getElem (by rw [hD.lenx]; exact hk)⟩
    obtain ⟨m, hm⟩ : ∃ m, D.normal[k / 2]? = some m := ⟨_, List.getElem?_eq_getElem (by rw [hD.lenn]; exact hk)⟩
    obtain ⟨y, hy⟩ : ∃ y, h[k / 2]? = some y := ⟨_, List.getElem?_eq_getElem hk⟩
    have hym : y ∈ h := List.mem_of_getElem? hy
    have hry : (h.map fun x => c0 * x)[k / 2]? = some (c0 * y) := by rw [List.getElem?_map, hy]; rfl
    have hu : dot m m = 1 := hD.unit m (List.mem_of_getElem? hm)
    obtain ⟨e1, -⟩ := C55_expansion_centers x m (c0 * y) (mul_nonneg hc0 (hD.nonneg y hym)) hu
    refine ⟨x, m, hx, hm, ?_⟩
    rcases Nat.mod_two_eq_zero_or_one k with he | he
    · have hkk : k = 2 * (k / 2) := by omega
      rw [hkk, (h4 _).1, hy] at hrk
      rw [hkk, (a2 _).1, n2 _ x _ m hx hry hm] at hc
      simp at hrk hc
      subst hrk hc
      rw [if_pos he]
      obtain ⟨d1, d2⟩ := e1 (-1) (Or.inr rfl)
      exact ⟨d1, by rw [d2]; ring⟩
    · have hkk : k = 2 * (k / 2) + 1 := by omega
      rw [hkk, (h4 _).2, hy] at hrk
      rw [hkk, (a2 _).2, p2 _ x _ m hx hry hm] at hc
      simp at hrk hc
      subst hrk hc
      rw [if_neg (by omega)]
      obtain ⟨d1, d2⟩ := e1 1 (Or.inl rfl)
      exact ⟨d1, by rw [d2]; ring⟩

/-- **C74, mesh width**: `h_max` and `h_min` are the largest and smallest stretch factor, and bound the expansion radii. -/
theorem C74_mesh_width {n : Nat} (D : Discr n) (h : List ℝ) (hD : Supported D h) (hne : h ≠ []) (dim : Option Nat) :
    ∃ a b r, hMin D .node = .ok (some a) ∧ hMax D .node = .ok (some b) ∧ a ∈ h ∧ b ∈ h ∧ (∀ x ∈ h, a ≤ x ∧ x ≤ b) ∧
      expansionRadii D dim none .node = .ok r ∧
      ∀ x ∈ r, (if dim.getD (n - 1) = 2 then 1 / 4 else 1 / 2) * a ≤ x ∧
        x ≤ (if dim.getD (n - 1) = 2 then 1 / 4 else 1 / 2) * b := by
  have hs := stretch_ok D h hD
  have hq : quadResolution D none .node = .ok h := by simp [quadResolution, hs, bind, Except.bind, interpolate]
  obtain ⟨a, ha⟩ : ∃ a, h.min? = some a := by
    cases hm : h.min? with
    | none => rw [List.min?_eq_none_iff] at hm; exact absurd hm hne
    | some a => exact ⟨a, rfl⟩
  obtain ⟨b, hb⟩ : ∃ b, h.max? = some b := by
    cases hm : h.max? with
    | none => rw [List.max?_eq_none_iff] at hm; exact absurd hm hne
    | some b => exact ⟨b, rfl⟩
  have ha' := List.min?_eq_some_iff.1 ha
  have hb' := List.max?_eq_some_iff.1 hb
  obtain ⟨h1, -, -⟩ := C74_radii D h hD dim _ rfl
  refine ⟨a, b, _, ?_, ?_, ha'.1, hb'.1, fun x hx => ⟨ha'.2 x hx, hb'.2 x hx⟩, (h1 none (Or.inl rfl)).1, ?_⟩
  · simp [hMin, hq, bind, Except.bind, pure, Except.pure, ha]
  · simp [hMax, hq, bind, Except.bind, pure, Except.pure, hb]
  · intro x hx
    obtain ⟨y, hy, rfl⟩ := List.mem_map.1 hx
    have hc : (0 : ℝ) ≤ if dim.getD (n - 1) = 2 then 1 / 4 else 1 / 2 := by split_ifs <;> norm_num
    exact ⟨mul_le_mul_of_nonneg_left (ha'.2 y hy) hc, mul_le_mul_of_nonneg_left (hb'.2 y hy) hc⟩

/-- **C74, element size**: as documented, the resolution of a straight element with uniform parametrization is its length:
for a segment with ends `p`, `q` in any dimension, by both formulas. -/
theorem C74_segment (ambient : Nat) (p q : Nat → ℝ) :
    Surface.hypercubeStretch ambient 1 (fun r _ => (q r - p r) / 2)
      = .ok (√(∑ r ∈ Finset.range ambient, (q r - p r) ^ 2)) ∧
    Surface.simplexStretch ambient 1 (fun r _ => (q r - p r) / 2) (fun _ _ => 1)
      = .ok (√(∑ r ∈ Finset.range ambient, (q r - p r) ^ 2)) := by
  have key : ∀ J : Jac, (∀ r, J r 0 = (q r - p r) / 2) →
      IsMaxStretch ambient 1 J (√(∑ r ∈ Finset.range ambient, (q r - p r) ^ 2)) := by
    intro J hJ
    have him : ∀ v : Nat → ℝ, imageSq ambient 1 J v = (v 0 / 2) ^ 2 * ∑ r ∈ Finset.range ambient, (q r - p r) ^ 2 := by
      intro v
      simp only [imageSq, Finset.sum_range_one, hJ, Finset.mul_sum]
      exact Finset.sum_congr rfl fun r _ => by ring
    have heq : ∀ v : Nat → ℝ, 2 * √(imageSq ambient 1 J v)
        = √(∑ r ∈ Finset.range ambient, (q r - p r) ^ 2) * √(lenSq 1 v) := by
      intro v
      rw [him, lenSq, Finset.sum_range_one, Real.sqrt_mul (sq_nonneg _), Real.sqrt_sq_eq_abs, Real.sqrt_sq_eq_abs,
        abs_div, abs_of_pos (by norm_num : (0 : ℝ) < 2)]
      ring
    refine ⟨Real.sqrt_nonneg _, fun v => (heq v).le, fun _ => 1, ?_, heq _⟩
    simp [lenSq]
  constructor
  · obtain ⟨s, hs, hm⟩ := C56_hypercube_stretch ambient 1 (Or.inl rfl) (fun r _ => (q r - p r) / 2)
    rw [hs, Curvature.maxStretch_unique ambient ambient 1 _ _ s _ (fun _ => rfl) hm (key _ fun _ => rfl)]
  · obtain ⟨s, hs, hm⟩ := C56_simplex_stretch ambient 1 (Or.inl rfl) (fun r _ => (q r - p r) / 2) (fun _ _ => 1)
    rw [hs, Curvature.maxStretch_unique ambient ambient 1 _ _ s _ (fun _ => rfl) hm (key _ fun r => by simp [equiJac])]

/-- **C74**: descriptors that already have center granularity are not converted: without `granularity`, the nodal radii are
returned (half as many as there are centers); with it, the call is refused. -/
theorem C74_center_descriptor {n : Nat} (D : Discr n) (h : List ℝ) (hD : Supported D h) (dim : Option Nat) :
    (∃ r, expansionRadii D dim none .center = .ok r ∧ r.length = D.x.length) ∧
    expansionRadii D dim (some .center) .center = .error .valueError := by
  have hs := stretch_ok D h hD
  refine ⟨⟨h.map fun x => radiiFactor n dim * x, ?_, ?_⟩, ?_⟩
  · simp [expansionRadii, quadResolution, hs, bind, Except.bind, pure, Except.pure, interpolate]
  · rw [List.length_map, hD.lenx]
  · simp [expansionRadii, quadResolution, hs, bind, Except.bind, interpolate]

/-- two nodes on a line: the hypotheses above are met -/
example : Supported (⟨[.simplex], [![0, 0], ![1, 0]], [![0, -1], ![0, -1]], [1, 2], []⟩ : Discr 2) [1, 2] where
  ne := by simp
  shape := Or.inl ⟨by simp, rfl⟩
  nonneg := by simp
  lenx := rfl
  lenn := rfl
  unit := by simp [dot, Fin.sum_univ_two]

end Verif.Radii
