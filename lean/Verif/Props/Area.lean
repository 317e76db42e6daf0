import Mathlib.Algebra.BigOperators.Group.List.Basic
import Verif.Props.Split
import Verif.Props.Invert

/-! # C04 - C08: area, orientation, length, translation and scaling -/

namespace Cavc
open Scalar RealScalar Pline

/-! ## C05 -/

/-- Specification: `1/2 ∫ (x dy - y dx)` along a curve parametrised by `[0, 1]` (Green's formula for
the signed area swept about the origin; summed over a closed curve it is the enclosed signed area). -/
noncomputable def greenIntegral (γ : ℝ → V2 ℝ) : ℝ :=
  ∫ t in (0:ℝ)..1, ((γ t).x * deriv (fun t => (γ t).y) t - (γ t).y * deriv (fun t => (γ t).x) t) / 2

theorem greenIntegral_line (p q : V2 ℝ) :
    greenIntegral (linePoint p q) = (p.x * q.y - p.y * q.x) / 2 := by
  unfold greenIntegral
  have : ∀ t, ((linePoint p q t).x * deriv (fun t => (linePoint p q t).y) t
      - (linePoint p q t).y * deriv (fun t => (linePoint p q t).x) t) / 2
      = (p.x * q.y - p.y * q.x) / 2 := by
    intro t
    rw [(linePoint_hasDerivAt p q t).1.deriv, (linePoint_hasDerivAt p q t).2.deriv]
    simp only [linePoint]; ring
  simp [this]

theorem greenIntegral_arc (p q : V2 ℝ) (b : ℝ) (hb : b ≠ 0) :
    greenIntegral (arcPoint p q b) = (4 * Real.arctan b * arcRadius p q b ^ 2
      + (arcCenter p q b).x * (q.y - p.y) - (arcCenter p q b).y * (q.x - p.x)) / 2 := by
  unfold greenIntegral
  set c := arcCenter p q b with hc
  set θ := 4 * Real.arctan b with hθ
  have hx := fun t => (arcPoint_hasDerivAt p q b t).1
  have hy := fun t => (arcPoint_hasDerivAt p q b t).2
  have hint : ∀ t, ((arcPoint p q b t).x * deriv (fun t => (arcPoint p q b t).y) t
      - (arcPoint p q b t).y * deriv (fun t => (arcPoint p q b t).x) t) / 2
      = (θ * arcRadius p q b ^ 2 + c.x * (θ * ((arcPoint p q b t).x - c.x))
          - c.y * (-θ * ((arcPoint p q b t).y - c.y))) / 2 := by
    intro t
    rw [(hx t).deriv, (hy t).deriv, ← arcPoint_dist_sq p q b t hb]
    ring
  simp only [hint]
  have hF : ∀ t ∈ Set.uIcc (0:ℝ) 1, HasDerivAt (fun t => (θ * arcRadius p q b ^ 2 * t
      + c.x * (arcPoint p q b t).y - c.y * (arcPoint p q b t).x) / 2)
      ((θ * arcRadius p q b ^ 2 + c.x * (θ * ((arcPoint p q b t).x - c.x))
          - c.y * (-θ * ((arcPoint p q b t).y - c.y))) / 2) t := by
    intro t _
    have h1 : HasDerivAt (fun t : ℝ => θ * arcRadius p q b ^ 2 * t) (θ * arcRadius p q b ^ 2) t := by
      simpa using (hasDerivAt_id t).const_mul (θ * arcRadius p q b ^ 2)
    exact ((h1.add ((hy t).const_mul c.x)).sub ((hx t).const_mul c.y)).div_const 2
  have hcont : Continuous (fun t => (θ * arcRadius p q b ^ 2 + c.x * (θ * ((arcPoint p q b t).x - c.x))
          - c.y * (-θ * ((arcPoint p q b t).y - c.y))) / 2) := by
    have cx : Continuous (fun t => (arcPoint p q b t).x) :=
      continuous_iff_continuousAt.mpr fun t => (hx t).continuousAt
    have cy : Continuous (fun t => (arcPoint p q b t).y) :=
      continuous_iff_continuousAt.mpr fun t => (hy t).continuousAt
    fun_prop
  rw [intervalIntegral.integral_eq_sub_of_hasDerivAt hF (hcont.intervalIntegrable 0 1)]
  rw [arcPoint_one p q b hb, arcPoint_zero]
  ring

/-- twice the contribution of a segment to `area` -/
noncomputable def areaTerm (s : Vertex ℝ × Vertex ℝ) : ℝ :=
  s.1.x * s.2.y - s.1.y * s.2.x + if s.1.bulgeIsZero = true then 0 else doubleArcArea s.1 s.2

theorem areaStep_eq (acc : ℝ) (s : Vertex ℝ × Vertex ℝ) : areaStep acc s = acc + areaTerm s := by
  unfold areaStep areaTerm
  by_cases h : s.1.bulgeIsZero = true
  · simp only [h, Bool.not_true, Bool.false_eq_true, if_false, if_true]
    ring
  · simp only [Bool.not_eq_true] at h
    simp only [h, Bool.not_false, if_true, Bool.false_eq_true, if_false]
    ring

theorem foldl_add_eq_sum {α : Type} (f : α → ℝ) (g : ℝ → α → ℝ) (hg : ∀ a s, g a s = a + f s)
    (l : List α) (a : ℝ) : l.foldl g a = a + (l.map f).sum := by
  induction l generalizing a with
  | nil => simp
  | cons s l ih => simp [ih, hg]; ring

theorem area_eq (p : Pline ℝ) :
    p.area = if p.closed = true then (p.segs.map areaTerm).sum / 2 else 0 := by
  unfold area
  by_cases h : p.closed = true
  · simp only [h, Bool.not_true, Bool.false_eq_true, if_false, if_true, two_eq]
    rw [foldl_add_eq_sum areaTerm areaStep areaStep_eq]
    show (0 + _ : ℝ) / 2 = _
    rw [zero_add]
  · simp [h]

theorem doubleArcArea_eq (v1 v2 : Vertex ℝ) (hb : v1.bulge ≠ 0) :
    doubleArcArea v1 v2 = 4 * Real.arctan v1.bulge * arcRadius v1.pos v2.pos v1.bulge ^ 2
      - (1 + v1.bulge ^ 2) / (4 * v1.bulge) * ((v1.x - v2.x) ^ 2 + (v1.y - v2.y) ^ 2)
      + v1.bulge / 2 * ((v1.x - v2.x) ^ 2 + (v1.y - v2.y) ^ 2) := by
  have hlen : (v2.pos - v1.pos).length = edist v1.pos v2.pos := by
    rw [V2.length_eq, edist]; congr 1; simp; ring
  have hsq : edist v1.pos v2.pos ^ 2 = (v1.x - v2.x) ^ 2 + (v1.y - v2.y) ^ 2 := edist_sq _ _
  unfold doubleArcArea
  simp only [hlen, abs_eq, two_eq, four_eq, Vertex.bulgeIsNeg_eq, angleFromBulge, atan_eq]
  rw [← hsq]
  unfold arcRadius
  set L := edist v1.pos v2.pos
  rcases lt_or_gt_of_ne hb with h | h
  · have ha : |v1.bulge| = -v1.bulge := abs_of_neg h
    simp only [h, decide_true, if_true, ha, Real.arctan_neg]
    field_simp; ring
  · have ha : |v1.bulge| = v1.bulge := abs_of_pos h
    simp only [not_lt.mpr h.le, decide_false, Bool.false_eq_true, if_false, ha]
    field_simp; ring

/-- twice Green's integral of a segment is its contribution to `area`. -/
theorem areaTerm_eq_green (s : Vertex ℝ × Vertex ℝ) :
    areaTerm s = 2 * greenIntegral (segCurve s.1 s.2) := by
  unfold areaTerm
  by_cases h : IsLine s.1
  · have : segCurve s.1 s.2 = linePoint s.1.pos s.2.pos := funext (segCurve_line h)
    rw [if_pos (bulgeIsZero_true h), this, greenIntegral_line]
    simp only [Vertex.pos_x, Vertex.pos_y]; ring
  · have hb := bulge_ne_zero h
    have : segCurve s.1 s.2 = arcPoint s.1.pos s.2.pos s.1.bulge := funext (segCurve_arc h)
    rw [if_neg (by simp [bulgeIsZero_false h]), this, greenIntegral_arc _ _ _ hb,
      doubleArcArea_eq _ _ hb]
    simp only [arcCenter, Vertex.pos_x, Vertex.pos_y]
    field_simp
    ring

/-- **C05** For a closed polyline `area()` is `1/2 ∮ (x dy - y dx)` along its curve; for an open one
it is zero. No restriction on bulges or coordinates. -/
theorem C05_area (p : Pline ℝ) :
    (p.closed = true → p.area = (p.segs.map fun s => greenIntegral (segCurve s.1 s.2)).sum) ∧
    (p.closed = false → p.area = 0) := by
  constructor
  · intro h
    rw [area_eq, if_pos h]
    have : ∀ l : List (Vertex ℝ × Vertex ℝ), (l.map areaTerm).sum / 2
        = (l.map fun s => greenIntegral (segCurve s.1 s.2)).sum := by
      intro l
      induction l with
      | nil => simp
      | cons s l ih =>
        simp only [List.map_cons, List.sum_cons, ← ih, areaTerm_eq_green]; ring
    exact this _
  · intro h; rw [area_eq, if_neg (by simp [h])]

/-- The curve integrated in `C05_area` is closed: each segment starts where the previous one ends,
the last one ends where the first one starts. -/
theorem C05_curve_closed (p : Pline ℝ) (hc : p.closed = true) (i : Nat) (hi : i < p.segs.length) :
    ∃ s s', p.segs[i]? = some s ∧ p.segs[(i + 1) % p.segs.length]? = some s' ∧
      segCurve s.1 s.2 1 = segCurve s'.1 s'.2 0 := by
  rw [segs_length] at hi ⊢
  have hsc : p.segmentCount = p.verts.length := by
    unfold segmentCount vertexCount at *
    dsimp only at *
    split_ifs at * <;> first | rfl | omega
  have hm : (i + 1) % p.verts.length < p.verts.length := Nat.mod_lt _ (by omega)
  obtain ⟨a, b, ha, hb, hs⟩ := segs_getElem? p i hi
  obtain ⟨a', b', ha', hb', hs'⟩ := segs_getElem? p ((i + 1) % p.verts.length) (by omega)
  rw [hb] at ha'
  simp only [Option.some.injEq] at ha'
  refine ⟨_, _, hs, by rw [hsc]; exact hs', ?_⟩
  rw [(segCurve_ends a b).2, (segCurve_ends a' b').1, ha']

/-! ## C07 -/

/-- **C07** orientation is the sign of the enclosed signed area. -/
theorem C07_orientation (p : Pline ℝ) :
    (p.orientation = .open ↔ p.closed = false) ∧
    (p.orientation = .clockwise ↔ p.closed = true ∧
      (p.segs.map fun s => greenIntegral (segCurve s.1 s.2)).sum < 0) ∧
    (p.orientation = .counterClockwise ↔ p.closed = true ∧
      0 ≤ (p.segs.map fun s => greenIntegral (segCurve s.1 s.2)).sum) := by
  unfold orientation
  by_cases h : p.closed = true
  · rw [← (C05_area p).1 h]
    by_cases h2 : p.area < 0
    · have : Scalar.lt p.area 0 = true := (lt_iff _ _).mpr h2
      simp [h, this, h2]
    · have : Scalar.lt p.area 0 = false := by
        rw [Bool.eq_false_iff]; exact fun h' => h2 ((lt_iff _ _).mp h')
      simp [h, this, h2]
      exact not_lt.mp h2
  · simp [h]

/-! ## C04 -/

/-- `areaTerm` of a directed piece -/
noncomputable def pieceTerm (s : Piece ℝ) : ℝ :=
  areaTerm (⟨s.start.x, s.start.y, s.bulge⟩, ⟨s.stop.x, s.stop.y, 0⟩)

theorem pieceTerm_pieceOf (s : Vertex ℝ × Vertex ℝ) : pieceTerm (pieceOf s) = areaTerm s := rfl

theorem pieceTerm_flip (s : Piece ℝ) : pieceTerm s.flip = -pieceTerm s := by
  unfold pieceTerm areaTerm Piece.flip
  have hz : (⟨s.stop.x, s.stop.y, -s.bulge⟩ : Vertex ℝ).bulgeIsZero
      = (⟨s.start.x, s.start.y, s.bulge⟩ : Vertex ℝ).bulgeIsZero := by
    simp
  simp only [hz]
  by_cases h : (⟨s.start.x, s.start.y, s.bulge⟩ : Vertex ℝ).bulgeIsZero = true
  · simp only [h, if_true]; ring
  · have hb : s.bulge ≠ 0 := bulge_ne_zero (v1 := ⟨s.start.x, s.start.y, s.bulge⟩)
      (fun h' => h (bulgeIsZero_true h'))
    simp only [h, Bool.false_eq_true, if_false]
    rw [doubleArcArea_eq _ _ (by simpa using hb), doubleArcArea_eq _ _ hb]
    simp only [Vertex.pos]
    rw [arcRadius_swap, Real.arctan_neg]
    field_simp; ring

theorem area_eq_path (p : Pline ℝ) :
    p.area = if p.closed = true then (p.path.map pieceTerm).sum / 2 else 0 := by
  rw [area_eq, Pline.path, List.map_map]; rfl

theorem sum_reversePath (l : List (Piece ℝ)) :
    ((reversePath l).map pieceTerm).sum = -(l.map pieceTerm).sum := by
  unfold reversePath
  rw [List.map_reverse, List.sum_reverse]
  induction l with
  | nil => simp
  | cons a l ih => simp only [List.map_cons, List.sum_cons, ih, pieceTerm_flip]; ring

/-- **C04** `invert_direction_mut` negates the area and flips the orientation of a closed polyline
with non zero area. -/
theorem C04_invert_area (p : Pline ℝ) :
    ∃ q, p.invertDirectionMut = .ok q ∧ q.area = -p.area ∧
      (p.area ≠ 0 → p.orientation = .clockwise → q.orientation = .counterClockwise) ∧
      (p.area ≠ 0 → p.orientation = .counterClockwise → q.orientation = .clockwise) := by
  obtain ⟨q, hq, hc, hl, hp⟩ := C03_invert_path p
  have ha : q.area = -p.area := by
    rw [area_eq_path, area_eq_path, hc]
    by_cases h : p.closed = true
    · rw [if_pos h, if_pos h, hp, if_pos h]
      rw [((List.rotate_perm (reversePath p.path) 1).map pieceTerm).sum_eq, sum_reversePath]
      ring
    · rw [if_neg h, if_neg h, neg_zero]
  refine ⟨q, hq, ha, ?_, ?_⟩
  · intro hne ho
    have h1 := (C07_orientation p).2.1.mp ho
    rw [(C07_orientation q).2.2, hc, ← (C05_area q).1 (hc.trans h1.1), ha]
    rw [← (C05_area p).1 h1.1] at h1
    exact ⟨h1.1, by linarith [h1.2]⟩
  · intro hne ho
    have h1 := (C07_orientation p).2.2.mp ho
    rw [(C07_orientation q).2.1, hc, ← (C05_area q).1 (hc.trans h1.1), ha]
    rw [← (C05_area p).1 h1.1] at h1
    exact ⟨h1.1, by have := lt_of_le_of_ne h1.2 (Ne.symm hne); linarith⟩

theorem abs_deltaAngle_comm (a b : ℝ) : |deltaAngle a b| = |deltaAngle b a| := by
  obtain ⟨⟨k, hk⟩, h2, h3, -⟩ := C34_delta_angle a b
  have hle : |(-deltaAngle a b)| ≤ Real.pi := by rw [abs_neg, abs_le]; constructor <;> linarith
  have hc : AngleCongr a (b + -deltaAngle a b) := ⟨k, by linarith⟩
  rw [abs_deltaAngle_of_congr hc hle, abs_neg]

/-- `seg_length` of segments that are not tiny, as a function of the directed piece -/
noncomputable def pieceLen (s : Piece ℝ) : ℝ :=
  let v1 : Vertex ℝ := ⟨s.start.x, s.start.y, s.bulge⟩
  let v2 : Vertex ℝ := ⟨s.stop.x, s.stop.y, 0⟩
  if v1.bulgeIsZero = true then edist s.start s.stop
  else (segArcRadiusAndCenter v1 v2).1 * |deltaAngle (angle (segArcRadiusAndCenter v1 v2).2 s.start)
    (angle (segArcRadiusAndCenter v1 v2).2 s.stop)|

theorem segLength_eq_pieceLen (s : Vertex ℝ × Vertex ℝ) (h : ¬ s.1.pos.fuzzyEq s.2.pos = true) :
    segLength s.1 s.2 = pieceLen (pieceOf s) := by
  have h1 : ¬ s.1.fuzzyEq s.2 = true := by
    intro h'
    apply h
    rw [vertex_fuzzyEq_iff] at h'
    unfold V2.fuzzyEq
    rw [V2.fuzzyEqEps_iff]
    exact ⟨h'.1, h'.2.1⟩
  unfold segLength pieceLen
  rw [if_neg h1]
  show (if s.1.bulgeIsZero = true then _ else _) = (if s.1.bulgeIsZero = true then _ else _)
  congr 1
  rw [distSquared_eq]; rfl

theorem ne_of_not_fuzzyEq {a b : V2 ℝ} (h : ¬ a.fuzzyEq b = true) : a ≠ b := by
  intro he
  apply h
  unfold V2.fuzzyEq
  rw [V2.fuzzyEqEps_iff, he]
  simp

theorem pieceLen_flip (s : Piece ℝ) (h : s.start ≠ s.stop) : pieceLen s.flip = pieceLen s := by
  unfold pieceLen Piece.flip
  have hz : (⟨s.stop.x, s.stop.y, -s.bulge⟩ : Vertex ℝ).bulgeIsZero
      = (⟨s.start.x, s.start.y, s.bulge⟩ : Vertex ℝ).bulgeIsZero := by
    simp
  simp only [hz]
  by_cases hl : (⟨s.start.x, s.start.y, s.bulge⟩ : Vertex ℝ).bulgeIsZero = true
  · simp only [hl, if_true]; exact edist_comm _ _
  · have hb : s.bulge ≠ 0 := bulge_ne_zero (v1 := ⟨s.start.x, s.start.y, s.bulge⟩)
      (fun h' => hl (bulgeIsZero_true h'))
    simp only [hl, Bool.false_eq_true, if_false]
    rw [segArcRadiusAndCenter_eq _ _ (by simpa using hb) (by
        simp only [Vertex.pos]; exact fun he => h he.symm),
      segArcRadiusAndCenter_eq _ _ hb (by simp only [Vertex.pos]; exact h)]
    simp only [Vertex.pos]
    rw [arcRadius_swap, arcCenter_swap _ _ _ hb, abs_deltaAngle_comm]

theorem pathLength_eq_sum (p : Pline ℝ) :
    p.pathLength = (p.segs.map fun s => segLength s.1 s.2).sum := by
  unfold pathLength
  exact (foldl_add_eq_sum (fun s : Vertex ℝ × Vertex ℝ => segLength s.1 s.2) _
    (fun _ _ => rfl) p.segs 0).trans (zero_add _)

/-- **C04** `invert_direction_mut` keeps `path_length`, for polylines without coincident consecutive
vertexes (within the default epsilon, where `seg_length` looks at the *next* bulge too). -/
theorem C04_invert_length (p : Pline ℝ)
    (h : ∀ s ∈ p.segs, ¬ s.1.pos.fuzzyEq s.2.pos = true) :
    ∃ q, p.invertDirectionMut = .ok q ∧ q.pathLength = p.pathLength := by
  obtain ⟨q, hq, hc, hl, hp⟩ := C03_invert_path p
  refine ⟨q, hq, ?_⟩
  have hsum : ∀ r : Pline ℝ, (∀ s ∈ r.segs, ¬ s.1.pos.fuzzyEq s.2.pos = true) →
      r.pathLength = (r.path.map pieceLen).sum := by
    intro r hr
    rw [pathLength_eq_sum, Pline.path, List.map_map]
    congr 1
    exact List.map_congr_left fun s hs => segLength_eq_pieceLen s (hr s hs)
  have hmem : ∀ x ∈ q.path, ∃ y ∈ p.path, x = y.flip := by
    intro x hx
    have : x ∈ reversePath p.path := by
      rw [hp] at hx
      split_ifs at hx
      · exact (List.rotate_perm _ _).mem_iff.mp hx
      · exact hx
    unfold reversePath at this
    rw [List.mem_reverse, List.mem_map] at this
    obtain ⟨y, hy, rfl⟩ := this
    exact ⟨y, hy, rfl⟩
  have hq' : ∀ s ∈ q.segs, ¬ s.1.pos.fuzzyEq s.2.pos = true := by
    intro s hs
    obtain ⟨y, hy, he⟩ := hmem (pieceOf s) (List.mem_map_of_mem hs)
    obtain ⟨s', hs', rfl⟩ := List.mem_map.mp hy
    have := h s' hs'
    simp only [Piece.flip, pieceOf, Piece.mk.injEq] at he
    intro hf
    apply this
    unfold V2.fuzzyEq at hf ⊢
    rw [V2.fuzzyEqEps_iff] at hf ⊢
    have e1 : s.1.pos = s'.2.pos := he.1
    have e2 : s.2.pos = s'.1.pos := he.2.1
    rw [e1, e2] at hf
    rw [abs_sub_comm, abs_sub_comm (s'.1.pos.y)]
    exact hf
  rw [hsum q hq', hsum p h]
  have hflip : ∀ l : List (Piece ℝ), (∀ s ∈ l, s.start ≠ s.stop) →
      ((reversePath l).map pieceLen).sum = (l.map pieceLen).sum := by
    intro l hl
    unfold reversePath
    rw [List.map_reverse, List.sum_reverse, List.map_map]
    congr 1
    exact List.map_congr_left fun s hs => pieceLen_flip s (hl s hs)
  have hne : ∀ s ∈ p.path, s.start ≠ s.stop := by
    intro s hs
    obtain ⟨s', hs', rfl⟩ := List.mem_map.mp hs
    exact ne_of_not_fuzzyEq (h s' hs')
  rw [hp]
  split_ifs
  · rw [((List.rotate_perm (reversePath p.path) 1).map pieceLen).sum_eq, hflip _ hne]
  · exact hflip _ hne

/-! ## C08 -/

/-- **C08** `path_length` is the length of the curve, for polylines of lines and proper arcs whose
segments are not shorter than the default epsilon. -/
theorem C08_path_length (p : Pline ℝ) (h : ∀ s ∈ p.segs, IsLine s.1 ∨ ProperArc s.1 s.2)
    (hne : ∀ s ∈ p.segs, ¬ s.1.pos.fuzzyEq s.2.pos = true) :
    p.pathLength = (p.segs.map fun s => curveLength (segCurve s.1 s.2)).sum := by
  rw [pathLength_eq_sum]
  congr 1
  apply List.map_congr_left
  intro s hs
  apply C08_seg_length _ _ (h s hs)
  intro h'
  apply hne s hs
  unfold V2.fuzzyEq
  rw [V2.fuzzyEqEps_iff]
  exact ⟨h'.1, h'.2.1⟩

theorem segLength_nonneg (v1 v2 : Vertex ℝ) : 0 ≤ segLength v1 v2 := by
  unfold segLength
  split_ifs
  · exact le_refl _
  · exact Real.sqrt_nonneg _
  · apply mul_nonneg _ (abs_nonneg _)
    unfold segArcRadiusAndCenter
    simp only [abs_eq, four_eq, V2.length_eq]
    positivity

/-- **C08** `path_length` is never negative (any polyline) and is additive when an open polyline is
continued from its last vertex. -/
theorem C08_length_laws (l l' : List (Vertex ℝ)) (a : Vertex ℝ) (p : Pline ℝ) :
    0 ≤ p.pathLength ∧
    (⟨l ++ a :: l', false⟩ : Pline ℝ).pathLength
      = (⟨l ++ [a], false⟩ : Pline ℝ).pathLength + (⟨a :: l', false⟩ : Pline ℝ).pathLength := by
  constructor
  · rw [pathLength_eq_sum]
    apply List.sum_nonneg
    intro x hx
    obtain ⟨s, -, rfl⟩ := List.mem_map.mp hx
    exact segLength_nonneg _ _
  · have hs : ∀ l : List (Vertex ℝ), (⟨l, false⟩ : Pline ℝ).segs = pathSegs l := by
      intro l
      rcases l with _ | ⟨a, _ | ⟨b, r⟩⟩ <;> rfl
    have happ : ∀ (l l' : List (Vertex ℝ)) (a : Vertex ℝ),
        pathSegs (l ++ a :: l') = pathSegs (l ++ [a]) ++ pathSegs (a :: l') := by
      intro l
      induction l with
      | nil => intro l' a; simp [pathSegs]
      | cons b l ih =>
        intro l' a
        rcases l with _ | ⟨c, l⟩
        · simp [pathSegs]
        · have := ih l' a
          simp only [List.cons_append, pathSegs] at this ⊢
          rw [this]
    rw [pathLength_eq_sum, pathLength_eq_sum, pathLength_eq_sum, hs, hs, hs, happ, List.map_append,
      List.sum_append]

/-- Non-vacuity: a closed figure of a line and a half circle satisfies the hypotheses. -/
example : ∀ s ∈ (⟨[⟨0, 0, 1⟩, ⟨2, 0, 0⟩], true⟩ : Pline ℝ).segs,
    (IsLine s.1 ∨ ProperArc s.1 s.2) ∧ ¬ s.1.pos.fuzzyEq s.2.pos = true := by
  intro s hs
  simp only [segs, pathSegs, List.nil_append, List.cons_append, if_true,
    List.mem_cons, List.not_mem_nil, or_false] at hs
  have hl : ¬ IsLine (⟨0, 0, 1⟩ : Vertex ℝ) := by simp [IsLine]; norm_num
  unfold V2.fuzzyEq
  rw [V2.fuzzyEqEps_iff]
  rcases hs with rfl | rfl
  · exact ⟨Or.inr ⟨hl, by norm_num, by simp [V2.ext_iff']⟩, by norm_num⟩
  · exact ⟨Or.inl (by unfold IsLine; norm_num), by norm_num⟩

end Cavc
