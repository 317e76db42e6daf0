import Verif.Lemmas.View
import Verif.Spec.View
import Verif.Spec.RatScalar
import Verif.Props.Closest

/-! # C56: validation of view data

`validate_for_source` answers whether view data fits a source polyline. -/

namespace Cavc
open Pline

set_option linter.unusedSectionVars false
variable {T : Type} [Scalar T]

/-- Specification: the point is within `1e-3` (each coordinate) of an end of the segment or of the point
of the segment that `seg_closest_point` finds. -/
def NearSourceSeg (v1 v2 : Vertex T) (pt : V2 T) : Prop :=
  pt.fuzzyEqEps v1.pos (Scalar.ofRatio 1 1000) = true ∨ pt.fuzzyEqEps v2.pos (Scalar.ofRatio 1 1000) = true ∨
    (segClosestPoint v1 v2 pt (Scalar.ofRatio 1 100000)).fuzzyEqEps pt (Scalar.ofRatio 1 1000) = true

/-- The requirements on view data, in the order they are tested.  `a b` are the ends of the first source
segment of the view, `e f` of the last one. -/
structure FitsSource (d : ViewData T) (src : Pline T) (a b e f : Vertex T) : Prop where
  segments : 2 ≤ src.verts.length
  offset : d.endIndexOffset ≤ src.verts.length
  start : NearSourceSeg a b d.updatedStart.pos
  stop : NearSourceSeg e f d.endPoint
  notOnVertex : d.endPoint.fuzzyEqEps e.pos (Scalar.ofRatio 1 100000) = false
  bulge : d.endIndexOffset = 0 →
    Scalar.fuzzyEqEps d.updatedEndBulge d.updatedStart.bulge (Scalar.ofRatio 1 100000) = true

theorem pointIsOnSegment_ok (src : Pline T) (i : Nat) (hi : i < src.verts.length) (pt : V2 T) {v1 v2 : Vertex T}
    (h1 : cycAt src i = some v1) (h2 : cycAt src (i + 1) = some v2) :
    ∃ r, ViewData.pointIsOnSegment src i pt = .ok r ∧ (r = true ↔ NearSourceSeg v1 v2 pt) := by
  have e1 : src.at i = .ok v1 := by
    apply at_ok
    rw [cycAt, Nat.mod_eq_of_lt hi] at h1
    exact h1
  have e2 : src.at (src.nextWrap i) = .ok v2 := by
    rw [nextWrap_eq src hi]
    exact at_ok h2
  unfold ViewData.pointIsOnSegment
  simp only [e1, e2, bind, Except.bind]
  unfold NearSourceSeg
  cases h : (pt.fuzzyEqEps v1.pos (Scalar.ofRatio 1 1000) || pt.fuzzyEqEps v2.pos (Scalar.ofRatio 1 1000)) with
  | true =>
    rw [Bool.or_eq_true] at h
    refine ⟨true, rfl, ?_⟩
    rcases h with h | h <;> simp [h]
  | false =>
    rw [Bool.or_eq_false_iff] at h
    exact ⟨_, rfl, by simp [h.1, h.2]⟩

/-- **C56** the verdict.  View data whose start index is in range is accepted exactly when it meets all
requirements, and any other verdict names a requirement that fails. -/
theorem C56_verdict (d : ViewData T) (src : Pline T) (hs : src.verts.length < 2 ∨ d.startIndex < src.verts.length) :
    ∃ r, d.validateForSource src = .ok r ∧
      (r = .sourceHasNoSegments ↔ src.verts.length < 2) ∧
      (r = .offsetOutOfRange ↔ 2 ≤ src.verts.length ∧ src.verts.length < d.endIndexOffset) ∧
      ∀ a b e f, cycAt src d.startIndex = some a → cycAt src (d.startIndex + 1) = some b →
        cycAt src (d.startIndex + d.endIndexOffset) = some e → cycAt src (d.startIndex + d.endIndexOffset + 1) = some f →
        (r = .isValid ↔ FitsSource d src a b e f) ∧
        (r = .updatedStartNotOnSegment → ¬ NearSourceSeg a b d.updatedStart.pos) ∧
        (r = .endPointNotOnSegment → ¬ NearSourceSeg e f d.endPoint) ∧
        (r = .endPointOnFinalOffsetVertex → d.endPoint.fuzzyEqEps e.pos (Scalar.ofRatio 1 100000) = true) ∧
        (r = .updatedBulgeDoesNotMatch → d.endIndexOffset = 0 ∧
          Scalar.fuzzyEqEps d.updatedEndBulge d.updatedStart.bulge (Scalar.ofRatio 1 100000) = false) := by
  unfold ViewData.validateForSource
  by_cases h2 : src.verts.length < 2
  · rw [if_pos (show src.vertexCount < 2 from h2)]
    refine ⟨_, rfl, by simp [h2], by simp; omega, fun a b e f _ _ _ _ => ⟨⟨by simp, fun h => ?_⟩, by simp, by simp, by simp, by simp⟩⟩
    have := h.segments; omega
  rw [if_neg (show ¬ src.vertexCount < 2 from h2)]
  have hs : d.startIndex < src.verts.length := by omega
  by_cases ho : d.endIndexOffset > src.verts.length
  · rw [if_pos (show d.endIndexOffset > src.vertexCount from ho)]
    refine ⟨_, rfl, by simp [h2], by simp; omega, fun a b e f _ _ _ _ => ⟨⟨by simp, fun h => ?_⟩, by simp, by simp, by simp, by simp⟩⟩
    have := h.offset; omega
  rw [if_neg (show ¬ d.endIndexOffset > src.vertexCount from ho)]
  have hpos : 0 < src.verts.length := by omega
  have get : ∀ i, ∃ v, cycAt src i = some v := fun i =>
    ⟨src.verts[i % src.verts.length]'(Nat.mod_lt _ hpos), by simp [cycAt, Nat.mod_lt _ hpos]⟩
  obtain ⟨a, ha⟩ := get d.startIndex
  obtain ⟨b, hb⟩ := get (d.startIndex + 1)
  obtain ⟨e, he⟩ := get (d.startIndex + d.endIndexOffset)
  obtain ⟨f, hf⟩ := get (d.startIndex + d.endIndexOffset + 1)
  obtain ⟨r1, hr1, hn1⟩ := pointIsOnSegment_ok src d.startIndex hs d.updatedStart.pos ha hb
  have hfw := fwdIndex_eq src hs (show d.endIndexOffset ≤ src.verts.length by omega)
  have hlt : (d.startIndex + d.endIndexOffset) % src.verts.length < src.verts.length := Nat.mod_lt _ hpos
  have he' : cycAt src ((d.startIndex + d.endIndexOffset) % src.verts.length) = some e := by
    rw [← he]; simp [cycAt]
  have hf' : cycAt src ((d.startIndex + d.endIndexOffset) % src.verts.length + 1) = some f := by
    rw [← hf]; simp [cycAt]
  obtain ⟨r2, hr2, hn2⟩ := pointIsOnSegment_ok src _ hlt d.endPoint he' hf'
  have hat : src.at ((d.startIndex + d.endIndexOffset) % src.verts.length) = .ok e := at_ok he
  have fin : ∀ r : ViewData.Validation, r ≠ .sourceHasNoSegments → r ≠ .offsetOutOfRange →
      ((r = .isValid ↔ FitsSource d src a b e f) ∧
        (r = .updatedStartNotOnSegment → ¬ NearSourceSeg a b d.updatedStart.pos) ∧
        (r = .endPointNotOnSegment → ¬ NearSourceSeg e f d.endPoint) ∧
        (r = .endPointOnFinalOffsetVertex → d.endPoint.fuzzyEqEps e.pos (Scalar.ofRatio 1 100000) = true) ∧
        (r = .updatedBulgeDoesNotMatch → d.endIndexOffset = 0 ∧
          Scalar.fuzzyEqEps d.updatedEndBulge d.updatedStart.bulge (Scalar.ofRatio 1 100000) = false)) →
      ∃ r', (Except.ok r : M ViewData.Validation) = .ok r' ∧ (r' = .sourceHasNoSegments ↔ src.verts.length < 2) ∧
      (r' = .offsetOutOfRange ↔ 2 ≤ src.verts.length ∧ src.verts.length < d.endIndexOffset) ∧
      ∀ a b e f, cycAt src d.startIndex = some a → cycAt src (d.startIndex + 1) = some b →
        cycAt src (d.startIndex + d.endIndexOffset) = some e → cycAt src (d.startIndex + d.endIndexOffset + 1) = some f →
        (r' = .isValid ↔ FitsSource d src a b e f) ∧
        (r' = .updatedStartNotOnSegment → ¬ NearSourceSeg a b d.updatedStart.pos) ∧
        (r' = .endPointNotOnSegment → ¬ NearSourceSeg e f d.endPoint) ∧
        (r' = .endPointOnFinalOffsetVertex → d.endPoint.fuzzyEqEps e.pos (Scalar.ofRatio 1 100000) = true) ∧
        (r' = .updatedBulgeDoesNotMatch → d.endIndexOffset = 0 ∧
          Scalar.fuzzyEqEps d.updatedEndBulge d.updatedStart.bulge (Scalar.ofRatio 1 100000) = false) := by
    intro r h1 h2' h3
    refine ⟨r, rfl, ⟨fun h => absurd h h1, fun h => absurd h h2⟩, ⟨fun h => absurd h h2', fun h => by omega⟩, ?_⟩
    intro a' b' e' f' ha' hb' he'' hf''
    rw [ha] at ha'; rw [hb] at hb'; rw [he] at he''; rw [hf] at hf''
    cases ha'; cases hb'; cases he''; cases hf''
    exact h3
  simp only [hr1, bind, Except.bind, hfw, hr2, hat]
  cases r1 with
  | false =>
    simp only [Bool.not_false, if_true]
    have : ¬ NearSourceSeg a b d.updatedStart.pos := fun h => by simpa using hn1.mpr h
    exact fin _ (by simp) (by simp) ⟨⟨by simp, fun h => absurd h.start this⟩, fun _ => this, by simp, by simp, by simp⟩
  | true =>
    simp only [Bool.not_true, Bool.false_eq_true, if_false]
    cases r2 with
    | false =>
      simp only [Bool.not_false, if_true]
      have : ¬ NearSourceSeg e f d.endPoint := fun h => by simpa using hn2.mpr h
      exact fin _ (by simp) (by simp) ⟨⟨by simp, fun h => absurd h.stop this⟩, by simp, fun _ => this, by simp, by simp⟩
    | true =>
      simp only [Bool.not_true, Bool.false_eq_true, if_false]
      cases h3 : d.endPoint.fuzzyEqEps e.pos (Scalar.ofRatio 1 100000) with
      | true =>
        simp only [if_true]
        exact fin _ (by simp) (by simp) ⟨⟨by simp, fun h => by simpa [h3] using h.notOnVertex⟩, by simp, by simp,
          fun _ => h3, by simp⟩
      | false =>
        simp only [Bool.false_eq_true, if_false]
        by_cases h0 : d.endIndexOffset = 0
        · rcases Bool.eq_false_or_eq_true (Scalar.fuzzyEqEps d.updatedEndBulge d.updatedStart.bulge (Scalar.ofRatio 1 100000))
            with h4 | h4
          · have hc : (decide (d.endIndexOffset = 0) && !Scalar.fuzzyEqEps d.updatedEndBulge d.updatedStart.bulge (Scalar.ofRatio 1 100000)) = false := by simp [h4]
            simp only [hc, Bool.false_eq_true, if_false]
            exact fin _ (by simp) (by simp) ⟨⟨fun _ => ⟨by omega, by omega, hn1.mp rfl, hn2.mp rfl, h3, fun _ => h4⟩, by simp⟩,
              by simp, by simp, by simp, by simp⟩
          · have hc : (decide (d.endIndexOffset = 0) && !Scalar.fuzzyEqEps d.updatedEndBulge d.updatedStart.bulge (Scalar.ofRatio 1 100000)) = true := by simp [h0, h4]
            simp only [hc, if_true]
            exact fin _ (by simp) (by simp) ⟨⟨by simp, fun h => by simpa [h4] using h.bulge h0⟩, by simp, by simp, by simp,
              fun _ => ⟨h0, h4⟩⟩
        · have hc : (decide (d.endIndexOffset = 0) && !Scalar.fuzzyEqEps d.updatedEndBulge d.updatedStart.bulge (Scalar.ofRatio 1 100000)) = false := by simp [h0]
          simp only [hc, Bool.false_eq_true, if_false]
          exact fin _ (by simp) (by simp) ⟨⟨fun _ => ⟨by omega, by omega, hn1.mp rfl, hn2.mp rfl, h3, fun h => absurd h h0⟩, by simp⟩,
              by simp, by simp, by simp, by simp⟩

/-- **C56** accepted view data can be viewed: every vertex of the view can be read. -/
theorem C56_accepted_reads (d : ViewData T) (src : Pline T) (h : d.validateForSource src = .ok .isValid) :
    ∃ q, d.toPline src = .ok q ∧ q.verts.length = d.endIndexOffset + 2 := by
  have hr : d.InRange src := by
    unfold ViewData.validateForSource at h
    split_ifs at h with h1 h2
    · cases h
    · cases h
    refine ⟨?_, by simpa [vertexCount] using h2⟩
    by_contra hc
    have e : src.at d.startIndex = .error .indexOutOfBounds := by
      unfold Pline.at
      have : src.get d.startIndex = none := by simp [Pline.get]; omega
      simp_all
    unfold ViewData.pointIsOnSegment at h
    simp only [e, bind, Except.bind] at h
    cases h
  obtain ⟨q, hq, -, hl, -⟩ := d.toPline_ok src hr
  exact ⟨q, hq, by rw [hl]⟩

/-- The closing segment of an open polyline does not exist, yet a view that runs along it is accepted. -/
theorem C56_open_wrap_witness :
    ViewData.validateForSource (⟨2, 0, ⟨3, 2, 0⟩, 0, ⟨1, 1⟩, false⟩ : ViewData Rat)
      ⟨[⟨0, 0, 0⟩, ⟨4, 0, 0⟩, ⟨4, 3, 0⟩], false⟩ = .ok .updatedStartNotOnSegment ∧
    ViewData.validateForSource (⟨2, 0, ⟨4, 3, 0⟩, 0, ⟨0, 0⟩, false⟩ : ViewData Rat)
      ⟨[⟨0, 0, 0⟩, ⟨4, 0, 0⟩, ⟨4, 3, 0⟩], false⟩ = .ok .isValid := by decide +kernel

open RealScalar in
/-- **C56** over the reals: a point within `9e-4` of the segment, line or arc, passes the test. -/
theorem C56_near_accepted (v1 v2 : Vertex ℝ) (h : IsLine v1 ∨ ProperArc v1 v2) (pt q : V2 ℝ) (hq : OnSeg v1 v2 q)
    (hd : edist pt q ≤ 9 / 10000) : NearSourceSeg v1 v2 pt := by
  have key : edist pt (segClosestPoint v1 v2 pt (1 / 100000)) < 1 / 1000 := by
    have h0 := edist_nonneg pt q
    have h1 := edist_nonneg pt (segClosestPoint v1 v2 pt (1 / 100000))
    rcases h with h | h
    · have := (C32_line v1 v2 h pt (1 / 100000)).2 q hq
      nlinarith
    · by_cases hfar : (1 / 100000 : ℝ) ≤ |pt.x - (arcCenter v1.pos v2.pos v1.bulge).x| ∨
          (1 / 100000 : ℝ) ≤ |pt.y - (arcCenter v1.pos v2.pos v1.bulge).y|
      · have := (C32_arc_partial v1 v2 h pt (1 / 100000) (by norm_num) hfar).1 q hq
        linarith
      · push Not at hfar
        have := (C32_arc_center v1 v2 h pt (1 / 100000) hfar.1 hfar.2).2 q hq
        linarith
  refine Or.inr (Or.inr ?_)
  have e1 : (Scalar.ofRatio 1 100000 : ℝ) = 1 / 100000 := by simp [Scalar.ofRatio]
  have e2 : (Scalar.ofRatio 1 1000 : ℝ) = 1 / 1000 := by simp [Scalar.ofRatio]
  rw [e1, e2, V2.fuzzyEqEps_iff]
  generalize segClosestPoint v1 v2 pt (1 / 100000) = c at key
  have hs : edist pt c ^ 2 < (1 / 1000) ^ 2 := by
    have := edist_nonneg pt c
    nlinarith
  rw [edist_sq] at hs
  exact ⟨abs_lt_of_sq_lt_sq (by nlinarith [sq_nonneg (pt.y - c.y)]) (by norm_num),
    abs_lt_of_sq_lt_sq (by nlinarith [sq_nonneg (pt.x - c.x)]) (by norm_num)⟩

open RealScalar in
/-- **C56** over the reals: a point that passes the test is within `1e-3` (each coordinate) of a point of the
segment.  For arcs this holds outside the tolerance band of `seg_closest_point` (see C32). -/
theorem C56_accepted_near (v1 v2 : Vertex ℝ) (pt : V2 ℝ)
    (h : IsLine v1 ∨ (ProperArc v1 v2 ∧ ∀ e, e = v1.pos ∨ e = v2.pos →
      ¬ (0 < |cross (arcCenter v1.pos v2.pos v1.bulge) e pt| ∧
         |cross (arcCenter v1.pos v2.pos v1.bulge) e pt| < 1 / 100000)))
    (hn : NearSourceSeg v1 v2 pt) : ∃ q, OnSeg v1 v2 q ∧ |pt.x - q.x| < 1 / 1000 ∧ |pt.y - q.y| < 1 / 1000 := by
  have e1 : (Scalar.ofRatio 1 100000 : ℝ) = 1 / 100000 := by simp [Scalar.ofRatio]
  have e2 : (Scalar.ofRatio 1 1000 : ℝ) = 1 / 1000 := by simp [Scalar.ofRatio]
  unfold NearSourceSeg at hn
  rw [e1, e2, V2.fuzzyEqEps_iff, V2.fuzzyEqEps_iff, V2.fuzzyEqEps_iff] at hn
  rcases hn with hn | hn | hn
  · exact ⟨_, ⟨0, le_refl _, zero_le_one, (segCurve_ends v1 v2).1.symm⟩, hn⟩
  · exact ⟨_, ⟨1, zero_le_one, le_refl _, (segCurve_ends v1 v2).2.symm⟩, hn⟩
  · refine ⟨segClosestPoint v1 v2 pt (1 / 100000), ?_, by rw [abs_sub_comm]; exact hn.1, by rw [abs_sub_comm]; exact hn.2⟩
    rcases h with h | ⟨h, hb⟩
    · exact (C32_line v1 v2 h pt (1 / 100000)).1
    · by_cases hfar : (1 / 100000 : ℝ) ≤ |pt.x - (arcCenter v1.pos v2.pos v1.bulge).x| ∨
          (1 / 100000 : ℝ) ≤ |pt.y - (arcCenter v1.pos v2.pos v1.bulge).y|
      · exact (C32_arc_partial v1 v2 h pt (1 / 100000) (by norm_num) hfar).2.2 hb
      · push Not at hfar
        exact (C32_arc_center v1 v2 h pt (1 / 100000) hfar.1 hfar.2).1

/-- A point near a half circle. -/
example : ProperArc (⟨1, 0, 1⟩ : Vertex ℝ) ⟨-1, 0, 0⟩ ∧ OnSeg (⟨1, 0, 1⟩ : Vertex ℝ) ⟨-1, 0, 0⟩ ⟨1, 0⟩ ∧
    edist (⟨1 + 1 / 10000, 0⟩ : V2 ℝ) ⟨1, 0⟩ ≤ 9 / 10000 := by
  refine ⟨⟨by norm_num [IsLine], by norm_num, by simp [Vertex.pos]; norm_num⟩,
    ⟨0, le_refl _, zero_le_one, (segCurve_ends ⟨1, 0, 1⟩ ⟨-1, 0, 0⟩).1.symm⟩, ?_⟩
  rw [edist_eq_of_sq (r := 1 / 10000) (by norm_num) (by norm_num)]
  norm_num

end Cavc
