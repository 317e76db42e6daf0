import Verif.Props.Area

/-! # C16: points by path length -/

set_option linter.unusedSectionVars false

namespace Cavc
open Scalar RealScalar Pline

/-- Length of the curve from its start up to the parameter `t`. -/
noncomputable def curveLengthTo (γ : ℝ → V2 ℝ) (t : ℝ) : ℝ :=
  ∫ s in (0 : ℝ)..t, Real.sqrt (deriv (fun s => (γ s).x) s ^ 2 + deriv (fun s => (γ s).y) s ^ 2)

theorem speed_line (p q : V2 ℝ) (s : ℝ) : Real.sqrt (deriv (fun s => (linePoint p q s).x) s ^ 2
    + deriv (fun s => (linePoint p q s).y) s ^ 2) = edist p q := by
  have h := linePoint_hasDerivAt p q s
  rw [h.1.deriv, h.2.deriv, edist]; congr 1; ring

theorem speed_arc (p q : V2 ℝ) (b : ℝ) (hb : b ≠ 0) (s : ℝ) :
    Real.sqrt (deriv (fun s => (arcPoint p q b s).x) s ^ 2
      + deriv (fun s => (arcPoint p q b s).y) s ^ 2) = arcRadius p q b * |4 * Real.arctan b| := by
  have hd := arcPoint_hasDerivAt p q b s
  rw [hd.1.deriv, hd.2.deriv]
  have h := arcPoint_dist_sq p q b s hb
  rw [show (-(4 * Real.arctan b) * ((arcPoint p q b s).y - (arcCenter p q b).y)) ^ 2 +
    (4 * Real.arctan b * ((arcPoint p q b s).x - (arcCenter p q b).x)) ^ 2
    = (arcRadius p q b * |4 * Real.arctan b|) ^ 2 by
      rw [mul_pow (arcRadius p q b), sq_abs, ← h]; ring]
  exact Real.sqrt_sq (mul_nonneg (arcRadius_nonneg p q b) (abs_nonneg _))

/-- Segments are travelled at constant speed. -/
theorem curveLengthTo_seg (v1 v2 : Vertex ℝ) (t : ℝ) :
    curveLengthTo (segCurve v1 v2) t = t * curveLength (segCurve v1 v2) := by
  by_cases hl : IsLine v1
  · have e : segCurve v1 v2 = linePoint v1.pos v2.pos := funext (segCurve_line hl)
    rw [e, curveLength_line]
    unfold curveLengthTo
    simp only [speed_line]; simp
  · have e : segCurve v1 v2 = arcPoint v1.pos v2.pos v1.bulge := funext (segCurve_arc hl)
    rw [e, curveLength_arc _ _ _ (bulge_ne_zero hl)]
    unfold curveLengthTo
    simp only [speed_arc _ _ _ (bulge_ne_zero hl)]; simp; ring

theorem pointAtSegParam_eq (v1 v2 : Vertex ℝ) (h : IsLine v1 ∨ ProperArc v1 v2) (t : ℝ) :
    pointAtSegParam v1 v2 t = segCurve v1 v2 t := by
  unfold pointAtSegParam
  by_cases hl : IsLine v1
  · rw [if_pos (bulgeIsZero_true hl), segCurve_line hl, V2.ext_iff']
    simp [linePoint]
  · rw [if_neg (by rw [bulgeIsZero_false hl]; simp), segCurve_arc hl]
    have hp : ProperArc v1 v2 := h.resolve_left hl
    rw [segArcRadiusAndCenter_eq v1 v2 (bulge_ne_zero hl) hp.ne]
    have := pointOnCircle_eq_arcPoint (p := v1.pos) (q := v2.pos) (bulge_ne_zero hl) t
    simp only [angleFromBulge, four_eq, atan_eq]
    rw [← this]; congr 1; ring

theorem findPointLoop_spec (target : ℝ) : ∀ (l : List (Vertex ℝ × Vertex ℝ)) (i : Nat) (acc : ℝ),
    acc < target →
    (target ≤ acc + (l.map fun s => segLength s.1 s.2).sum →
      ∃ j s, l[j]? = some s ∧ 0 < segLength s.1 s.2 ∧
        acc + ((l.take j).map fun s => segLength s.1 s.2).sum < target ∧
        target ≤ acc + ((l.take j).map fun s => segLength s.1 s.2).sum + segLength s.1 s.2 ∧
        findPointLoop target l i acc = .ok (i + j, pointAtSegParam s.1 s.2
          ((target - (acc + ((l.take j).map fun s => segLength s.1 s.2).sum))
            / segLength s.1 s.2))) ∧
    (acc + (l.map fun s => segLength s.1 s.2).sum < target →
      findPointLoop target l i acc = .error (acc + (l.map fun s => segLength s.1 s.2).sum))
  | [], i, acc, h => by
    refine ⟨fun h' => ?_, fun _ => ?_⟩
    · simp at h'; linarith
    · simp [findPointLoop]
  | (v1, v2) :: l, i, acc, h => by
    by_cases hlt : acc + segLength v1 v2 < target
    · have ih := findPointLoop_spec target l (i + 1) (acc + segLength v1 v2) hlt
      have e : findPointLoop target ((v1, v2) :: l) i acc
          = findPointLoop target l (i + 1) (acc + segLength v1 v2) := by
        simp [findPointLoop, hlt]
      rw [e]
      simp only [List.map_cons, List.sum_cons, ← add_assoc]
      refine ⟨fun h' => ?_, ih.2⟩
      obtain ⟨j, s, h1, h2, h3, h4, h5⟩ := ih.1 h'
      refine ⟨j + 1, s, by simpa using h1, h2, ?_, ?_, ?_⟩
      · simpa [← add_assoc] using h3
      · simpa [← add_assoc] using h4
      · rw [h5]; simp [← add_assoc]; omega
    · refine ⟨fun _ => ⟨0, (v1, v2), rfl, ?_, by simpa using h, ?_, ?_⟩, fun h' => ?_⟩
      · push Not at hlt
        show 0 < segLength v1 v2
        linarith
      · push Not at hlt
        simpa using hlt
      · simp [findPointLoop, hlt]
      · exfalso
        push Not at hlt
        have : 0 ≤ (l.map fun s => segLength s.1 s.2).sum := by
          apply List.sum_nonneg
          intro x hx
          obtain ⟨s, -, rfl⟩ := List.mem_map.mp hx
          exact segLength_nonneg _ _
        simp at h'
        linarith

/-- **C16** A target in `(0, path_length]` gives a segment and a point on it such that the length of
the curve up to the point is the target. -/
theorem C16_find_point (p : Pline ℝ) (h : ∀ s ∈ p.segs, IsLine s.1 ∨ ProperArc s.1 s.2)
    (hne : ∀ s ∈ p.segs, ¬ s.1.pos.fuzzyEq s.2.pos = true) (target : ℝ) (h0 : 0 < target)
    (hle : target ≤ (p.segs.map fun s => curveLength (segCurve s.1 s.2)).sum) :
    ∃ i s t, p.findPointAtPathLength target = .ok (.ok (i, segCurve s.1 s.2 t)) ∧
      p.segs[i]? = some s ∧ 0 ≤ t ∧ t ≤ 1 ∧
      ((p.segs.take i).map fun s => curveLength (segCurve s.1 s.2)).sum
        + curveLengthTo (segCurve s.1 s.2) t = target := by
  have hlen : ∀ s ∈ p.segs, segLength s.1 s.2 = curveLength (segCurve s.1 s.2) := by
    intro s hs
    apply C08_seg_length _ _ (h s hs)
    intro h'
    apply hne s hs
    unfold V2.fuzzyEq
    rw [V2.fuzzyEqEps_iff]
    exact ⟨h'.1, h'.2.1⟩
  have hsum : ∀ l : List (Vertex ℝ × Vertex ℝ), (∀ s ∈ l, s ∈ p.segs) → (l.map fun s => segLength s.1 s.2).sum
      = (l.map fun s => curveLength (segCurve s.1 s.2)).sum := by
    intro l hl
    congr 1
    exact List.map_congr_left fun s hs => hlen s (hl s hs)
  obtain ⟨j, s, h1, h2, h3, h4, h5⟩ := (findPointLoop_spec target p.segs 0 0 h0).1
    (by rw [zero_add, hsum _ (fun _ h => h)]; exact hle)
  have hs : s ∈ p.segs := List.mem_of_getElem? h1
  rw [hsum _ (fun s hs => List.mem_of_mem_take hs), zero_add] at h3 h4 h5
  rw [zero_add] at h5
  refine ⟨j, s, (target - ((p.segs.take j).map fun s => curveLength (segCurve s.1 s.2)).sum)
    / segLength s.1 s.2, ?_, h1, ?_, ?_, ?_⟩
  rotate_left
  · exact div_nonneg (by linarith) h2.le
  · exact (div_le_one h2).mpr (by linarith)
  · rw [curveLengthTo_seg, ← hlen s hs, div_mul_cancel₀ _ h2.ne']; ring
  · unfold findPointAtPathLength
    rw [if_neg (by simpa using h0), h5, pointAtSegParam_eq _ _ (h s hs)]

/-- **C16** A target beyond the length is answered with `path_length` as the error value. -/
theorem C16_beyond (p : Pline ℝ) (target : ℝ) (h0 : 0 < target) (hlt : p.pathLength < target) :
    p.findPointAtPathLength target = .ok (.error p.pathLength) := by
  unfold findPointAtPathLength
  rw [if_neg (by simpa using h0), (findPointLoop_spec target p.segs 0 0 h0).2]
  · rw [zero_add, pathLength_eq_sum]
  · rw [zero_add, ← pathLength_eq_sum]; exact hlt

/-- **C16** A target that is not positive gives the first vertex of a non-empty polyline. -/
theorem C16_not_positive (v : Vertex ℝ) (r : List (Vertex ℝ)) (c : Bool) (target : ℝ)
    (h0 : target ≤ 0) :
    (⟨v :: r, c⟩ : Pline ℝ).findPointAtPathLength target = .ok (.ok (0, v.pos)) := by
  simp [findPointAtPathLength, h0, Pline.at, bind, Except.bind]

/-- **C16** (finding) An empty polyline with a target that is not positive panics instead of
returning an error. -/
theorem C16_empty_witness (c : Bool) (target : ℝ) (h0 : target ≤ 0) :
    (⟨[], c⟩ : Pline ℝ).findPointAtPathLength target = .error .indexOutOfBounds := by
  simp [findPointAtPathLength, h0, Pline.at, bind, Except.bind]

/-- Non-vacuity: the open polyline (0,0), (1,0), (1,1) has length 2 and meets the hypotheses. -/
example : let p : Pline ℝ := ⟨[⟨0, 0, 0⟩, ⟨1, 0, 0⟩, ⟨1, 1, 0⟩], false⟩
    (∀ s ∈ p.segs, IsLine s.1 ∨ ProperArc s.1 s.2) ∧
    (∀ s ∈ p.segs, ¬ s.1.pos.fuzzyEq s.2.pos = true) ∧
    (3 / 2 : ℝ) ≤ (p.segs.map fun s => curveLength (segCurve s.1 s.2)).sum := by
  have hl : ∀ x y : ℝ, IsLine ⟨x, y, 0⟩ := by intro x y; simp [IsLine]
  refine ⟨?_, ?_, ?_⟩
  · intro s hs
    simp [segs, pathSegs] at hs
    rcases hs with rfl | rfl <;> exact Or.inl (hl _ _)
  · intro s hs
    simp [segs, pathSegs] at hs
    rcases hs with rfl | rfl <;> simp [V2.fuzzyEq, V2.fuzzyEqEps] <;> norm_num
  · simp only [segs, pathSegs, Bool.false_eq_true, if_false, List.map_cons, List.map_nil,
      List.sum_cons, List.sum_nil]
    rw [show segCurve (⟨0, 0, 0⟩ : Vertex ℝ) ⟨1, 0, 0⟩ = linePoint ⟨0, 0⟩ ⟨1, 0⟩ from
      funext (segCurve_line (hl _ _)),
      show segCurve (⟨1, 0, 0⟩ : Vertex ℝ) ⟨1, 1, 0⟩ = linePoint ⟨1, 0⟩ ⟨1, 1⟩ from
      funext (segCurve_line (hl _ _)), curveLength_line, curveLength_line]
    simp [edist]; norm_num

end Cavc
