import Verif.Lemmas.House
import Verif.Lemmas.OffsetSteady
import Verif.Lemmas.ChamferOffset

/-! # Example: the inner offset of the square with a half disc on top -/

set_option linter.unusedVariables false

namespace Cavc
open RealScalar Pline

/-- nothing is reported for two arcs around the same center with different radii -/
theorem concentric_none {v1 v2 u1 u2 : Vertex ℝ} {eps : ℝ} (he : 0 < eps) (hv : ProperArc v1 v2) (hu : ProperArc u1 u2)
    (hc : segCenter (v1, v2) = segCenter (u1, u2)) (hr : eps ≤ |segRadius (v1, v2) - segRadius (u1, u2)|) :
    plineSegIntr v1 v2 u1 u2 eps = .noIntersect := by
  unfold segCenter at hc
  unfold segRadius at hr
  dsimp only at hc hr
  unfold plineSegIntr
  rw [bulgeIsZero_false hv.notLine, bulgeIsZero_false hu.notLine, segArcRadiusAndCenter_eq v1 v2 (bulge_ne_zero hv.notLine) hv.ne,
    segArcRadiusAndCenter_eq u1 u2 (bulge_ne_zero hu.notLine) hu.ne]
  simp only [Bool.and_self, Bool.false_eq_true, if_false]
  have : circleCircleIntr (arcRadius v1.pos v2.pos v1.bulge) (arcCenter v1.pos v2.pos v1.bulge) (arcRadius u1.pos u2.pos u1.bulge) (arcCenter u1.pos u2.pos u1.bulge) eps = .noIntersect := by
    unfold circleCircleIntr
    rw [hc]
    have hd : (arcCenter u1.pos u2.pos u1.bulge - arcCenter u1.pos u2.pos u1.bulge).dot (arcCenter u1.pos u2.pos u1.bulge - arcCenter u1.pos u2.pos u1.bulge) = (0 : ℝ) := by
      simp [V2.dot]
    simp only [hd]
    simp [fuzzyEqEps_eq, fuzzyEqZeroEps_eq, he, not_lt.mpr hr]
  rw [this]

theorem ho_side (u : ℝ) : curveAt house 0 u = ⟨16 * u, 0⟩ ∧ curveAt house 1 u = ⟨16, 5 * u⟩ ∧
    curveAt house 2 u = ⟨8 + 8 * Real.cos (u * Real.pi), 5 + 8 * Real.sin (u * Real.pi)⟩ ∧ curveAt house 3 u = ⟨0, 5 - 5 * u⟩ := by
  have hn : 0 < house.verts.length := by decide
  simp only [curveAt_vtx hn, Nat.reduceAdd, ho_v0, ho_v1, ho_v2, ho_v3, ho_v4]
  refine ⟨?_, ?_, ?_, ?_⟩
  · rw [segCurve_line (box4_line _ _)]; simp only [linePoint, Vertex.pos, V2.mk.injEq]; constructor <;> ring
  · rw [segCurve_line (box4_line _ _)]; simp only [linePoint, Vertex.pos, V2.mk.injEq]; constructor <;> ring
  · rw [segCurve_arc (by unfold IsLine; norm_num)]
    unfold arcPoint
    have hc : arcCenter (⟨16, 5⟩ : V2 ℝ) ⟨0, 5⟩ 1 = ⟨8, 5⟩ := by unfold arcCenter; norm_num
    simp only [Vertex.pos, hc, Real.arctan_one, rotV, V2.mk.injEq]
    rw [show u * (4 * (Real.pi / 4)) = u * Real.pi by ring]
    constructor <;> ring
  · rw [segCurve_line (box4_line _ _)]; simp only [linePoint, Vertex.pos, V2.mk.injEq]; constructor <;> ring

theorem ho_rcurve (t : ℝ) : curveAt (rawWith house 3 hoIn) 0 t = ⟨3 + 10 * t, 3⟩ ∧ curveAt (rawWith house 3 hoIn) 1 t = ⟨13, 3 + 2 * t⟩ ∧
    curveAt (rawWith house 3 hoIn) 2 t = ⟨8 + 5 * Real.cos (t * Real.pi), 5 + 5 * Real.sin (t * Real.pi)⟩ ∧ curveAt (rawWith house 3 hoIn) 3 t = ⟨3, 5 - 2 * t⟩ := by
  have hn : 0 < (rawWith house 3 hoIn).verts.length := by rw [ho_rlen]; norm_num
  obtain ⟨v0, v1, v2, v3, v4, v5⟩ := ho_rvtx
  simp only [curveAt_vtx hn, Nat.reduceAdd, v0, v1, v2, v3, v4]
  refine ⟨?_, ?_, ?_, ?_⟩
  · rw [segCurve_line (box4_line _ _)]; simp only [linePoint, Vertex.pos, V2.mk.injEq]; constructor <;> ring
  · rw [segCurve_line (box4_line _ _)]; simp only [linePoint, Vertex.pos, V2.mk.injEq]; constructor <;> ring
  · rw [segCurve_arc (by unfold IsLine; norm_num)]
    unfold arcPoint
    have hc : arcCenter (⟨13, 5⟩ : V2 ℝ) ⟨3, 5⟩ 1 = ⟨8, 5⟩ := by unfold arcCenter; norm_num
    simp only [Vertex.pos, hc, Real.arctan_one, rotV, V2.mk.injEq]
    rw [show t * (4 * (Real.pi / 4)) = t * Real.pi by ring]
    constructor <;> ring
  · rw [segCurve_line (box4_line _ _)]; simp only [linePoint, Vertex.pos, V2.mk.injEq]; constructor <;> ring

theorem half_sin {t : ℝ} (t0 : 0 ≤ t) (t1 : t ≤ 1) : 0 ≤ Real.sin (t * Real.pi) :=
  Real.sin_nonneg_of_nonneg_of_le_pi (mul_nonneg t0 Real.pi_pos.le) (by nlinarith [Real.pi_pos])

theorem half_start {t : ℝ} (t0 : 0 ≤ t) (t1 : t ≤ 1) (h : Real.cos (t * Real.pi) = 1) : t = 0 := by
  have hpi := Real.pi_pos
  by_contra hne
  have ht : 0 < t := lt_of_le_of_ne t0 (Ne.symm hne)
  have := Real.cos_lt_cos_of_nonneg_of_le_pi (x := 0) (y := t * Real.pi) le_rfl (by nlinarith) (by positivity)
  rw [h, Real.cos_zero] at this
  exact lt_irrefl _ this

theorem half_stop {t : ℝ} (t0 : 0 ≤ t) (t1 : t ≤ 1) (h : Real.cos (t * Real.pi) = -1) : t = 1 := by
  have hpi := Real.pi_pos
  by_contra hne
  have ht : t < 1 := lt_of_le_of_ne t1 hne
  have := Real.cos_lt_cos_of_nonneg_of_le_pi (x := t * Real.pi) (y := Real.pi) (by positivity) le_rfl (by nlinarith)
  rw [h, Real.cos_pi] at this
  exact lt_irrefl _ this

theorem ho_crossing : SelfCrossing (rawWith house 3 hoIn) (1 / 100000) 1 [] := by
  refine ⟨by rw [ho_rlen]; norm_num, by simp, by simp, ?_, by simp [bothCuts], by simp [bothCuts], by simp [bothCuts], by simp, by simp [bothCuts]⟩
  intro i t j u hij hj t0 t1 u0 u1 h
  rw [ho_rlen] at hj ⊢
  obtain ⟨a0, a1, a2, a3⟩ := ho_rcurve t
  obtain ⟨b0, b1, b2, b3⟩ := ho_rcurve u
  have s1 := half_sin t0 t1
  have s2 := half_sin u0 u1
  have hi : i < 3 := by omega
  interval_cases i <;> interval_cases j <;> simp only [a0, a1, a2, a3, b0, b1, b2, b3, V2.mk.injEq] at h <;> obtain ⟨h1, h2⟩ := h <;> first
    | (exfalso; linarith)
    | (left; exact ⟨rfl, by linarith, by linarith⟩)
    | (left; exact ⟨rfl, by linarith, half_start u0 u1 (by linarith)⟩)
    | (left; exact ⟨rfl, half_stop t0 t1 (by linarith), by linarith⟩)
    | (right; left; exact ⟨rfl, rfl, by linarith, by linarith⟩)

/-- the points of the raw offset are well inside -/
theorem ho_inner {i : Nat} (hi : i < 4) {t : ℝ} (t0 : 0 ≤ t) (t1 : t ≤ 1) :
    3 ≤ (curveAt (rawWith house 3 hoIn) i t).x ∧ (curveAt (rawWith house 3 hoIn) i t).x ≤ 13 ∧ 3 ≤ (curveAt (rawWith house 3 hoIn) i t).y ∧
      ((curveAt (rawWith house 3 hoIn) i t).y ≤ 5 ∨ ((curveAt (rawWith house 3 hoIn) i t).x - 8) ^ 2 + ((curveAt (rawWith house 3 hoIn) i t).y - 5) ^ 2 = 25) := by
  obtain ⟨a0, a1, a2, a3⟩ := ho_rcurve t
  have s1 := half_sin t0 t1
  have c1 := Real.cos_le_one (t * Real.pi)
  have c2 := Real.neg_one_le_cos (t * Real.pi)
  have hsc := Real.sin_sq_add_cos_sq (t * Real.pi)
  interval_cases i <;> simp only [a0, a1, a2, a3] <;> refine ⟨by linarith, by linarith, by linarith, ?_⟩
  · left; norm_num
  · left; linarith
  · right; nlinarith
  · left; linarith

theorem ho_seg {s : Vertex ℝ × Vertex ℝ} (hs : s ∈ house.segs) : ∃ k < 4, s = (vtx house k, vtx house (k + 1)) := by
  rw [segs_range rfl (by decide)] at hs
  obtain ⟨k, hk, rfl⟩ := List.mem_map.mp hs
  exact ⟨k, List.mem_range.mp hk, rfl⟩

theorem ho_keeps {X : V2 ℝ} (h1 : 3 ≤ X.x) (h2 : X.x ≤ 13) (h3 : 3 ≤ X.y) (h4 : X.y ≤ 5 ∨ (X.x - 8) ^ 2 + (X.y - 5) ^ 2 = 25) : Keeps house |3| X := by
  have hn : 0 < house.verts.length := by decide
  rintro q ⟨s, hs, u, u0, u1, rfl⟩
  obtain ⟨k, hk, rfl⟩ := ho_seg hs
  rw [← curveAt_vtx hn, abs_of_pos (by norm_num : (0 : ℝ) < 3)]
  have hsq := edist_sq X (curveAt house k u)
  have hnn := edist_nonneg X (curveAt house k u)
  suffices h : 9 ≤ (X.x - (curveAt house k u).x) ^ 2 + (X.y - (curveAt house k u).y) ^ 2 by nlinarith
  obtain ⟨a0, a1, a2, a3⟩ := ho_side u
  have s1 := half_sin u0 u1
  have c1 := Real.cos_le_one (u * Real.pi)
  have c2 := Real.neg_one_le_cos (u * Real.pi)
  have hsc := Real.sin_sq_add_cos_sq (u * Real.pi)
  interval_cases k <;> simp only [a0, a1, a2, a3]
  · nlinarith [sq_nonneg (X.x - 16 * u)]
  · nlinarith [sq_nonneg (X.y - 5 * u)]
  · set c := Real.cos (u * Real.pi)
    set s := Real.sin (u * Real.pi)
    rcases h4 with h4 | h4
    · have e : (X.x - (8 + 8 * c)) ^ 2 + (X.y - (5 + 8 * s)) ^ 2 = (X.x - 8 - 5 * c) ^ 2 + (X.y - 5) ^ 2 + 16 * (s * (5 - X.y)) + 39 * (s ^ 2 + c ^ 2) + 25 * s ^ 2 - 6 * ((X.x - 8) * c) := by ring
      have h5 : (X.x - 8) * c ≤ 5 := by nlinarith
      have h6 : 0 ≤ s * (5 - X.y) := mul_nonneg s1 (by linarith)
      rw [e, hsc]
      nlinarith [sq_nonneg (X.x - 8 - 5 * c), sq_nonneg (X.y - 5), sq_nonneg s]
    · nlinarith [sq_nonneg (X.x - 8 - 5 * c), sq_nonneg (X.y - 5 - 5 * s)]
  · nlinarith [sq_nonneg (X.y - (5 - 5 * u))]

theorem ho_raw_keeps {i : Nat} (hi : i < 4) {t : ℝ} (t0 : 0 ≤ t) (t1 : t ≤ 1) : Keeps house |3| (curveAt (rawWith house 3 hoIn) i t) := by
  obtain ⟨h1, h2, h3, h4⟩ := ho_inner hi t0 t1
  exact ho_keeps h1 h2 h3 h4

theorem ho_changes : ChangesAtCrossings house (rawWith house 3 hoIn) |3| [] := by
  refine ⟨fun i t hi t0 t1 _ _ => ⟨1, one_pos, fun t' h0 h1 _ => ho_raw_keeps (by rwa [ho_rlen] at hi) h0 h1⟩, by simp [bothCuts]⟩

theorem ho_stretch {i : Nat} {lo hi : ℝ} (h : Stretch (rawWith house 3 hoIn) [] i lo hi) : i < 4 ∧ lo = 0 ∧ hi = 1 := by
  refine ⟨by have := h.range; rwa [ho_rlen] at this, ?_, ?_⟩
  · rcases h.start with h | h; exact h; simp [bothCuts] at h
  · rcases h.stop with h | h; exact h; simp [bothCuts] at h

theorem ho_readable_of {X : V2 ℝ} (h1 : 1 ≤ |X.x - 8| ∨ 1 ≤ |X.y - 5|) (h2 : X.y - 5 = 0 ∨ 1 ≤ |X.y - 5|) : Readable house (1 / 100000) X := by
  intro s hs hl c hc
  obtain ⟨k, hk, rfl⟩ := ho_seg hs
  have hk2 : k = 2 := by
    interval_cases k
    · exact absurd (box4_line _ _) hl
    · exact absurd (box4_line _ _) hl
    · rfl
    · exact absurd (box4_line _ _) hl
  subst hk2
  have hc' : c = ⟨8, 5⟩ := by rw [hc]; simp only [Nat.reduceAdd, ho_v2, ho_v3]; unfold arcCenter Vertex.pos; norm_num
  subst hc'
  refine ⟨?_, ?_⟩
  · rcases h1 with h | h
    · left; dsimp only; linarith
    · right; dsimp only; linarith
  · rintro e (rfl | rfl) <;> simp only [Nat.reduceAdd, ho_v2, ho_v3, Vertex.pos]
    · rw [show ((16 : ℝ) - 8) * (X.y - 5) - (5 - 5) * (X.x - 8) = 8 * (X.y - 5) by ring]
      rcases h2 with h | h
      · left; rw [h]; ring
      · right; rw [abs_mul, abs_of_pos (by norm_num : (0 : ℝ) < 8)]; linarith
    · rw [show ((0 : ℝ) - 8) * (X.y - 5) - (5 - 5) * (X.x - 8) = -(8 * (X.y - 5)) by ring]
      rcases h2 with h | h
      · left; rw [h]; ring
      · right; rw [abs_neg, abs_mul, abs_of_pos (by norm_num : (0 : ℝ) < 8)]; linarith

theorem ho_readable : ReadableTests house (rawWith house 3 hoIn) (1 / 100000) [] := by
  intro i lo hi h
  obtain ⟨hi4, rfl, rfl⟩ := ho_stretch h
  have hpi : (0 + 1 : ℝ) / 2 * Real.pi = Real.pi / 2 := by ring
  obtain ⟨a0, a1, a2, a3⟩ := ho_rcurve 0
  obtain ⟨b0, b1, b2, b3⟩ := ho_rcurve ((0 + 1) / 2)
  obtain ⟨c0, c1, c2, c3⟩ := ho_rcurve 1
  rw [hpi, Real.cos_pi_div_two, Real.sin_pi_div_two] at b2
  rw [zero_mul, Real.cos_zero, Real.sin_zero] at a2
  rw [one_mul, Real.cos_pi, Real.sin_pi] at c2
  interval_cases i <;> simp only [a0, a1, a2, a3, b0, b1, b2, b3, c0, c1, c2, c3] <;> refine ⟨?_, ?_, ?_⟩ <;> apply ho_readable_of <;> norm_num

/-! ## What the tests report -/

theorem half_arc {x y x' y' b' : ℝ} (h : y = y') (hx : x ≠ x') : ProperArc (⟨x, y, 1⟩ : Vertex ℝ) ⟨x', y', b'⟩ ∧
    segCenter ((⟨x, y, 1⟩, ⟨x', y', b'⟩) : Vertex ℝ × Vertex ℝ) = ⟨(x + x') / 2, y⟩ ∧ segRadius ((⟨x, y, 1⟩, ⟨x', y', b'⟩) : Vertex ℝ × Vertex ℝ) = |x - x'| / 2 := by
  refine ⟨⟨by unfold IsLine; norm_num, by norm_num, by simp [Vertex.pos, V2.ext_iff', hx]⟩, ?_, ?_⟩
  · subst h
    unfold segCenter arcCenter; simp [Vertex.pos]
  · unfold segRadius arcRadius
    rw [edist_eq_of_sq (r := |x - x'|) (abs_nonneg _) (by simp [Vertex.pos, h])]
    norm_num; ring

/-- bounds of the boxes of the raw offset -/
noncomputable def hoBoxes : Nat → AABB ℝ
  | 0 => ⟨3, 3, 13, 3⟩
  | 1 => ⟨13, 3, 13, 5⟩
  | 2 => ⟨3, 5, 13, 10⟩
  | _ => ⟨3, 3, 3, 5⟩

/-- bounds of the boxes of the sides -/
noncomputable def hoSides : Nat → AABB ℝ
  | 0 => ⟨0, 0, 16, 0⟩
  | 1 => ⟨16, 0, 16, 5⟩
  | 2 => ⟨0, 5, 16, 13⟩
  | _ => ⟨0, 0, 0, 5⟩

theorem ho_side_boxes (k : Nat) (hk : k < 4) : BoxIn (segBox (vtx house k, vtx house (k + 1))) (hoSides k) := by
  interval_cases k <;> simp only [Nat.reduceAdd, ho_v0, ho_v1, ho_v2, ho_v3, ho_v4]
  · rw [line_box]; norm_num [BoxIn, hoSides]
  · rw [line_box]; norm_num [BoxIn, hoSides]
  · unfold segBox segFastApproxBoundingBox
    rw [bulgeIsZero_false (by unfold IsLine; norm_num)]
    simp only [minMax_eq, RealScalar.min_eq, RealScalar.max_eq, RealScalar.two_eq, Bool.false_eq_true, if_false]
    norm_num [BoxIn, hoSides]
  · rw [line_box]; norm_num [BoxIn, hoSides]

theorem ho_raw_boxes (k : Nat) (hk : k < 4) : BoxIn (segBox (vtx (rawWith house 3 hoIn) k, vtx (rawWith house 3 hoIn) (k + 1))) (hoBoxes k) := by
  obtain ⟨v0, v1, v2, v3, v4, v5⟩ := ho_rvtx
  interval_cases k <;> simp only [Nat.reduceAdd, v0, v1, v2, v3, v4]
  · rw [line_box]; norm_num [BoxIn, hoBoxes]
  · rw [line_box]; norm_num [BoxIn, hoBoxes]
  · unfold segBox segFastApproxBoundingBox
    rw [bulgeIsZero_false (by unfold IsLine; norm_num)]
    simp only [minMax_eq, RealScalar.min_eq, RealScalar.max_eq, RealScalar.two_eq, Bool.false_eq_true, if_false]
    norm_num [BoxIn, hoBoxes]
  · rw [line_box]; norm_num [BoxIn, hoBoxes]

/-- the straight segments beside the half circle touch it -/
theorem ho_tangent {w a : Vertex ℝ × Vertex ℝ} {J : V2 ℝ} {x : ℝ} (hx : x = 3 ∨ x = 13) (ha : ProperArc a.1 a.2) (hc : segCenter a = ⟨8, 5⟩) (hr : segRadius a = 5)
    (hw : (w.1.pos = ⟨x, 5⟩ ∧ w.2.pos = ⟨x, 3⟩) ∨ (w.1.pos = ⟨x, 3⟩ ∧ w.2.pos = ⟨x, 5⟩)) (hJ : J = ⟨x, 5⟩) : TangentAt w a (1 / 100000) J := by
  subst hJ
  have hxx : ∀ s, (linePoint w.1.pos w.2.pos s).x = x := by
    intro s; unfold linePoint; rcases hw with ⟨h1, h2⟩ | ⟨h1, h2⟩ <;> rw [h1, h2] <;> dsimp only <;> ring
  have h5 : (x - 8) ^ 2 = 25 := by rcases hx with rfl | rfl <;> norm_num
  refine ⟨?_, ha, ?_, ?_, ?_, ?_⟩
  · rcases hw with ⟨h1, h2⟩ | ⟨h1, h2⟩ <;> rw [h1, h2] <;> norm_num [LineOk, Apart]
  · rw [hc, hr]; exact edist_eq_of_sq (by norm_num) (by dsimp only; rw [h5]; norm_num)
  · rcases hw with ⟨h1, h2⟩ | ⟨h1, h2⟩ <;> rw [h1, h2]
    · left; rfl
    · right; rfl
  · intro t hne
    rw [hc, hr]
    have hsq := edist_sq (linePoint w.1.pos w.2.pos t) ⟨8, 5⟩
    have hnn := edist_nonneg (linePoint w.1.pos w.2.pos t) ⟨8, 5⟩
    rw [hxx, h5] at hsq
    have hy : (linePoint w.1.pos w.2.pos t).y - 5 ≠ 0 := by
      intro h
      apply hne
      rw [V2.ext_iff']
      exact ⟨hxx t, by linarith⟩
    have := pow_pos (abs_pos.mpr hy) 2
    rw [sq_abs] at this
    dsimp only at hsq
    nlinarith
  · intro e hee hne
    have he : e = ⟨x, 3⟩ := by
      rcases hw with ⟨h1, h2⟩ | ⟨h1, h2⟩ <;> rw [h1, h2] at hee <;> rcases hee with h | h <;> first
        | exact h
        | exact absurd h hne
    rw [he, hc, hr, le_abs]
    left
    have hsq := edist_sq (⟨x, 3⟩ : V2 ℝ) ⟨8, 5⟩
    have hnn := edist_nonneg (⟨x, 3⟩ : V2 ℝ) ⟨8, 5⟩
    dsimp only at hsq
    rw [h5] at hsq
    nlinarith

theorem ho_finds : FindsSelf (rawWith house 3 hoIn) (1 / 100000) := by
  obtain ⟨v0, v1, v2, v3, v4, v5⟩ := ho_rvtx
  have harc := fun b' => half_arc (x := 13) (y := 5) (x' := 3) (y' := 5) (b' := b') rfl (by norm_num)
  norm_num at harc
  constructor
  · intro i hi
    rw [ho_rlen] at hi
    interval_cases i <;> simp only [Nat.reduceAdd, v0, v1, v2, v3, v4, v5]
    · refine finds_corner (by norm_num) (.lines (box4_line _ _) (box4_line _ _) (Or.inl ⟨⟨⟨13, 3⟩, ⟨1, by norm_num, le_rfl, ?_⟩, ⟨0, le_rfl, by norm_num, ?_⟩⟩, ?_⟩))
      · exact (segCurve_ends (⟨3, 3, 0⟩ : Vertex ℝ) ⟨13, 3, 0⟩).2.symm
      · exact (segCurve_ends (⟨13, 3, 0⟩ : Vertex ℝ) ⟨13, 5, 1⟩).1.symm
      · norm_num [dirCross, Vertex.pos, abs_of_pos]
    · exact corner_line_arc (by norm_num) (box4_line _ _) (ho_tangent (x := 13) (Or.inr rfl) (harc _).1 (harc _).2.1 (harc _).2.2 (Or.inr ⟨rfl, rfl⟩) rfl)
    · exact corner_arc_line (by norm_num) (box4_line _ _) (ho_tangent (x := 3) (Or.inl rfl) (harc _).1 (harc _).2.1 (harc _).2.2 (Or.inl ⟨rfl, rfl⟩) rfl)
    · refine finds_corner (by norm_num) (.lines (box4_line _ _) (box4_line _ _) (Or.inl ⟨⟨⟨3, 3⟩, ⟨1, by norm_num, le_rfl, ?_⟩, ⟨0, le_rfl, by norm_num, ?_⟩⟩, ?_⟩))
      · exact (segCurve_ends (⟨3, 5, 0⟩ : Vertex ℝ) ⟨3, 3, 0⟩).2.symm
      · exact (segCurve_ends (⟨3, 3, 0⟩ : Vertex ℝ) ⟨13, 3, 0⟩).1.symm
      · norm_num [dirCross, Vertex.pos, abs_of_pos]
  · intro i k hi hk hik h1 h2 hbox
    rw [ho_rlen] at hi hk h1 h2
    exfalso
    have hb := ho_raw_boxes
    have key := fun h => boxIn_apart (e := 1 / 100000) (hb k hk) (hb i hi) h
    unfold BoxesMeet at hbox
    rw [hbox] at key
    apply absurd key
    simp only [imp_false, not_not, Bool.true_eq_false]
    interval_cases i <;> interval_cases k <;> first
      | exact absurd rfl hik
      | exact absurd rfl h1
      | exact absurd rfl h2
      | norm_num [hoBoxes]

/-- the straight segments of the raw offset beside the half circle of the radius 8 are clear of it -/
theorem ho_beside {w a : Vertex ℝ × Vertex ℝ} {x : ℝ} (hx : x = 3 ∨ x = 13) (ha : ProperArc a.1 a.2) (hc : segCenter a = ⟨8, 5⟩) (hr : segRadius a = 8)
    (ha1 : a.1.pos = ⟨16, 5⟩) (ha2 : a.2.pos = ⟨0, 5⟩)
    (hw : (w.1.pos = ⟨x, 5⟩ ∧ w.2.pos = ⟨x, 3⟩) ∨ (w.1.pos = ⟨x, 3⟩ ∧ w.2.pos = ⟨x, 5⟩)) : ClearLineArc w a (1 / 100000) := by
  have h5 : (x - 8) ^ 2 = 25 := by rcases hx with rfl | rfl <;> norm_num
  have hend : ∀ y, y = 3 ∨ y = 5 → ClearOfArc a ⟨x, y⟩ (1 / 100000) := by
    intro y hy
    refine ⟨box4_sweep hc ?_ ?_, fun q hq => ?_⟩
    · rw [ha1]; rcases hy with rfl | rfl <;> norm_num
    · rw [ha2]; rcases hy with rfl | rfl <;> norm_num
    · have h8 := onSeg_circle ha hq
      rw [hc, hr] at h8
      have h8' : edist q ⟨8, 5⟩ = 8 := h8
      have htri := Cavc.edist_triangle q ⟨x, y⟩ ⟨8, 5⟩
      have hsq := edist_sq (⟨x, y⟩ : V2 ℝ) ⟨8, 5⟩
      have hnn := edist_nonneg (⟨x, y⟩ : V2 ℝ) ⟨8, 5⟩
      dsimp only at hsq
      rw [h5] at hsq
      rw [edist_comm q ⟨x, y⟩] at htri
      have : edist (⟨x, y⟩ : V2 ℝ) ⟨8, 5⟩ ≤ 6 := by
        rcases hy with rfl | rfl <;> nlinarith
      linarith
  have hlen : edist w.1.pos w.2.pos = 2 := by
    rcases hw with ⟨h1, h2⟩ | ⟨h1, h2⟩ <;> rw [h1, h2] <;> apply edist_eq_of_sq (by norm_num) <;> norm_num
  refine ⟨?_, ?_, Or.inr ?_, ?_⟩
  · rcases hw with ⟨h1, h2⟩ | ⟨h1, h2⟩ <;> rw [h1, h2] <;> norm_num [LineOk, Apart]
  · rcases hw with ⟨h1, h2⟩ | ⟨h1, h2⟩ <;> rw [h1, h2]
    · exact ⟨hend _ (Or.inr rfl), hend _ (Or.inl rfl)⟩
    · exact ⟨hend _ (Or.inl rfl), hend _ (Or.inr rfl)⟩
  · refine ⟨0, ?_⟩
    have e0 : linePoint w.1.pos w.2.pos 0 = w.1.pos := by rw [V2.ext_iff']; simp [linePoint]
    rw [e0, hc, hr]
    have hsq := edist_sq w.1.pos ⟨8, 5⟩
    have hnn := edist_nonneg w.1.pos ⟨8, 5⟩
    rcases hw with ⟨h1, -⟩ | ⟨h1, -⟩ <;> rw [h1] at hsq hnn ⊢ <;> dsimp only at hsq <;> rw [h5] at hsq <;> nlinarith
  · intro t ht hreach
    exfalso
    rw [hc, hr] at ht
    have hsq : edist (linePoint w.1.pos w.2.pos t) ⟨8, 5⟩ ^ 2 = 64 := by rw [show edist (linePoint w.1.pos w.2.pos t) ⟨8, 5⟩ = 8 from ht]; norm_num
    rw [edist_sq] at hsq
    unfold InReach at hreach
    rw [hlen] at hreach
    unfold linePoint at hsq
    obtain ⟨r1, r2⟩ := hreach
    rcases hw with ⟨h1, h2⟩ | ⟨h1, h2⟩ <;> rw [h1, h2] at hsq <;> dsimp only at hsq <;> nlinarith

theorem ho_tests : ClearTests house (rawWith house 3 hoIn) 3 (1 / 100000) (1 / 10000) [] := by
  have hn : 0 < (rawWith house 3 hoIn).verts.length := by rw [ho_rlen]; norm_num
  have hn4 : 0 < house.verts.length := by decide
  refine ⟨fun _ => Or.inl (ho_raw_keeps (by norm_num) le_rfl (by norm_num)), by simp [bothCuts], ?_⟩
  intro i lo hi x y hst hk hfull hcv
  obtain ⟨hi4, rfl, rfl⟩ := ho_stretch hst
  have hcv' : ∀ s, segCurve x y s = segCurve (vtx (rawWith house 3 hoIn) i) (vtx (rawWith house 3 hoIn) (i + 1)) s := by
    intro s
    rw [hcv s, ← curveAt_vtx hn]; congr 1; ring
  have hx : x.pos = (vtx (rawWith house 3 hoIn) i).pos := by
    have := hcv' 0
    rwa [(segCurve_ends _ _).1, (segCurve_ends _ _).1] at this
  have hy : y.pos = (vtx (rawWith house 3 hoIn) (i + 1)).pos := by
    have := hcv' 1
    rwa [(segCurve_ends _ _).2, (segCurve_ends _ _).2] at this
  have hne : x.pos ≠ y.pos := fuzzy_ne (by norm_num) hfull.apart
  obtain ⟨v0, v1, v2, v3, v4, v5⟩ := ho_rvtx
  -- no points in common
  have hapart : ∀ q, OnSeg x y q → ∀ k < 4, ¬ OnSeg (vtx house k) (vtx house (k + 1)) q := by
    rintro q ⟨t, t0, t1, rfl⟩ k hk' ⟨u, u0, u1, hu⟩
    rw [hcv', ← curveAt_vtx hn] at hu
    have h3 := ho_raw_keeps hi4 t0 t1 (curveAt (rawWith house 3 hoIn) i t) ⟨(vtx house k, vtx house (k + 1)), by
      rw [segs_range rfl (by decide)]
      exact List.mem_map.mpr ⟨k, List.mem_range.mpr hk', rfl⟩, u, u0, u1, hu⟩
    rw [edist_self] at h3
    norm_num at h3
  have hkind : (IsLine (vtx (rawWith house 3 hoIn) i) → IsLine x) ∧ (¬ IsLine (vtx (rawWith house 3 hoIn) i) → x.bulge = (vtx (rawWith house 3 hoIn) i).bulge) := by
    constructor
    · intro hl
      apply line_of_middle hne
      rw [hcv', segCurve_line hl, hx, hy]
    · intro hl
      exact same_bulge hx hy (by rw [← hx, ← hy]; exact hne) hl (hcv' _)
  have hbox : segBox (x, y) = segBox (vtx (rawWith house 3 hoIn) i, vtx (rawWith house 3 hoIn) (i + 1)) := by
    have hx' := hx
    have hy' := hy
    rw [V2.ext_iff'] at hx' hy'
    simp only [Vertex.pos] at hx' hy'
    unfold segBox segFastApproxBoundingBox
    by_cases hl : IsLine (vtx (rawWith house 3 hoIn) i)
    · rw [bulgeIsZero_true (hkind.1 hl), bulgeIsZero_true hl]
      simp only [if_true, hx'.1, hx'.2, hy'.1, hy'.2]
    · have hb := hkind.2 hl
      have hz : x.bulgeIsZero = (vtx (rawWith house 3 hoIn) i).bulgeIsZero := by unfold Vertex.bulgeIsZero; rw [hb]
      rw [hz, bulgeIsZero_false hl]
      simp only [Bool.false_eq_true, if_false, hx'.1, hx'.2, hy'.1, hy'.2, hb]
  intro s hs hov
  obtain ⟨k, hk4, rfl⟩ := ho_seg hs
  have hfe : (Scalar.fuzzyEps : ℝ) = 1 / 100000000 := by simp [Scalar.fuzzyEps]
  rw [hbox, hfe] at hov
  have key := fun h => boxIn_apart (e := 1 / 100000000) (ho_side_boxes k hk4) (ho_raw_boxes i hi4) h
  rw [hov] at key
  simp only [imp_false, Bool.true_eq_false] at key
  have hpa : ProperArc (vtx house 2) (vtx house 3) ∧ segCenter (vtx house 2, vtx house 3) = ⟨8, 5⟩ ∧ segRadius (vtx house 2, vtx house 3) = 8 := by
    rw [ho_v2, ho_v3]
    obtain ⟨h1, h2, h3⟩ := half_arc (x := 16) (y := 5) (x' := 0) (y' := 5) (b' := 0) rfl (by norm_num)
    refine ⟨h1, h2.trans (by norm_num), h3.trans (by norm_num)⟩
  have hk2 : k = 2 ∧ i ≠ 0 := by
    interval_cases i <;> interval_cases k <;> first
      | (exfalso; apply key; norm_num [hoBoxes, hoSides]; done)
      | exact ⟨rfl, by norm_num⟩
  obtain ⟨rfl, hi0⟩ := hk2
  have hi123 : i = 1 ∨ i = 2 ∨ i = 3 := by omega
  rcases hi123 with rfl | rfl | rfl
  · simp only [Nat.reduceAdd, v1, v2] at hx hy
    exact no_intersect (by norm_num) (.lineArc (hkind.1 (by rw [v1]; exact box4_line _ _)) hpa.1 (ho_beside (x := 13) (Or.inr rfl) hpa.1 hpa.2.1 hpa.2.2 rfl rfl (Or.inr ⟨hx, hy⟩)))
      (fun q h1 => hapart q h1 2 (by norm_num))
  · simp only [Nat.reduceAdd, v2, v3] at hx hy
    have hb := hkind.2 (by rw [v2]; unfold IsLine; norm_num)
    rw [v2] at hb
    obtain ⟨xx, xy, xb⟩ := x
    obtain ⟨yx, yy, yb⟩ := y
    rw [V2.ext_iff'] at hx hy
    simp only [Vertex.pos] at hx hy hb
    obtain ⟨hx1, hx2⟩ := hx
    obtain ⟨hy1, hy2⟩ := hy
    subst hx1; subst hx2; subst hy1; subst hy2; subst hb
    obtain ⟨h1, h2, h3⟩ := half_arc (x := 13) (y := 5) (x' := 3) (y' := 5) (b' := yb) rfl (by norm_num)
    refine concentric_none (by norm_num) h1 hpa.1 (h2.trans ?_) ?_
    · rw [hpa.2.1]; norm_num
    · rw [h3, hpa.2.2]; norm_num [le_abs]
  · simp only [Nat.reduceAdd, v3, v4] at hx hy
    exact no_intersect (by norm_num) (.lineArc (hkind.1 (by rw [v3]; exact box4_line _ _)) hpa.1 (ho_beside (x := 3) (Or.inl rfl) hpa.1 hpa.2.1 hpa.2.2 rfl rfl (Or.inl ⟨hx, hy⟩)))
      (fun q h1 => hapart q h1 2 (by norm_num))

/-! ## A second example -/

theorem chamfer_full : FullLoop chamfer (1 / 100000) := by
  refine ⟨rfl, by decide, fun i => ⟨Or.inl (chamfer_straight.line i), ?_⟩⟩
  have h5 : chamfer.verts.length = 5 := rfl
  have key : ∀ k < 5, (vtx chamfer k).pos.fuzzyEqEps (vtx chamfer (k + 1)).pos (1 / 100000) = false := by
    intro k hk
    obtain ⟨v0, v1, v2, v3, v4, v5, v6⟩ := chamfer_vtx
    interval_cases k <;> apply far_fuzzy <;> simp only [Nat.reduceAdd, v0, v1, v2, v3, v4, v5, Vertex.pos] <;> norm_num [abs_of_pos]
  induction i using Nat.strong_induction_on with
  | _ i ih =>
    rcases lt_or_ge i 5 with h | h
    · exact key i h
    · obtain ⟨j, rfl⟩ : ∃ j, i = j + 5 := ⟨i - 5, by omega⟩
      rw [show j + 5 + 1 = j + 1 + 5 by omega, ← h5, vtx_add, vtx_add]
      exact ih j (by omega)

end Cavc
