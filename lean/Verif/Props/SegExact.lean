import Verif.Lemmas.ClearPairs

/-! # C27: exactness for segments that cross clearly or are clear of each other -/

set_option linter.unusedVariables false

namespace Cavc
open RealScalar

/-- **C27** For two segments, lines or arcs, that cross clearly or are clear of each other (`ClearPair`) no overlap is
reported, and the points reported are exactly the common points of the two curves, each once. -/
theorem C27_exact (v1 v2 u1 u2 : Vertex ℝ) (eps : ℝ) (he : 0 < eps) (h : ClearPair (v1, v2) (u1, u2) eps) :
    (plineSegIntr v1 v2 u1 u2 eps).overlap = none ∧ (plineSegIntr v1 v2 u1 u2 eps).isolated.Nodup ∧
    ∀ q, q ∈ (plineSegIntr v1 v2 u1 u2 eps).isolated ↔ OnSeg v1 v2 q ∧ OnSeg u1 u2 q := by
  obtain ⟨a, b, c⟩ := clear_pair he h
  exact ⟨a, b, c⟩

/-- **C27** Two points reported for a line and an arc are in the order of the second segment: on an arc by the distance
from its start. -/
theorem C27_order_arc (v1 v2 u1 u2 : Vertex ℝ) (eps : ℝ) (hv : IsLine v1) (hu : ¬ IsLine u1) (p q : V2 ℝ)
    (h : plineSegIntr v1 v2 u1 u2 eps = .twoIntersects p q) : edist u1.pos p ≤ edist u1.pos q := by
  have hI : plineSegIntr v1 v2 u1 u2 eps = processLineArcIntr false v1.pos v2.pos u1 u2 eps := by
    simp [plineSegIntr, bulgeIsZero_true hv, bulgeIsZero_false hu]
  rw [hI] at h
  have key : ∀ a b : V2 ℝ, (if (false || Scalar.lt (distSquared a u1.pos) (distSquared b u1.pos)) = true then
      PlineSegIntr.twoIntersects a b else .twoIntersects b a) = .twoIntersects p q → edist u1.pos p ≤ edist u1.pos q := by
    intro a b hab
    simp only [Bool.false_or, lt_eq, decide_eq_true_eq, distSquared_eq] at hab
    unfold edist
    apply Real.sqrt_le_sqrt
    split_ifs at hab with hc
    · injection hab with h1 h2
      subst h1 h2
      nlinarith
    · injection hab with h1 h2
      subst h1 h2
      nlinarith
  unfold processLineArcIntr at h
  dsimp only at h
  split at h
  · cases h
  · split_ifs at h <;> first | (cases h; done) | (split at h <;> cases h; done)
  · split at h
    · cases h
    · split_ifs at h <;> cases h
    · split_ifs at h <;> cases h
    · exact key _ _ h

/-- **C27** … and on a line by the fraction of the line. -/
theorem C27_order_line (v1 v2 u1 u2 : Vertex ℝ) (eps : ℝ) (he : 0 < eps) (hv : ProperArc v1 v2) (hu : IsLine u1)
    (hc : ClearLineArc (u1, u2) (v1, v2) eps) (p q : V2 ℝ)
    (h : plineSegIntr v1 v2 u1 u2 eps = .twoIntersects p q) :
    ∃ x y, x < y ∧ p = linePoint u1.pos u2.pos x ∧ q = linePoint u1.pos u2.pos y := by
  have hI : plineSegIntr v1 v2 u1 u2 eps = processLineArcIntr true u1.pos u2.pos v1 v2 eps := by
    simp [plineSegIntr, bulgeIsZero_true hu, bulgeIsZero_false hv.notLine]
  rw [hI] at h
  exact (lineArc_pair he hu hv hc true).2.2.2 p q rfl h

/-! ## The hypotheses are met -/

theorem upper_half : edist (⟨-5, 0⟩ : V2 ℝ) ⟨5, 0⟩ = 10 ∧ edist (⟨5, -6⟩ : V2 ℝ) ⟨-5, -6⟩ = 10 :=
  ⟨edist_eq_of_sq (by norm_num) (by norm_num), edist_eq_of_sq (by norm_num) (by norm_num)⟩

theorem halves_clear : ClearPair ((⟨-5, 0, 1⟩, ⟨5, 0, 1⟩) : Vertex ℝ × Vertex ℝ) (⟨5, -6, 1⟩, ⟨-5, -6, 1⟩) (1 / 1000) := by
  have nl : ∀ x y : ℝ, ¬ IsLine ⟨x, y, 1⟩ := by intro x y; unfold IsLine; norm_num
  have c1 : segCenter ((⟨-5, 0, 1⟩, ⟨5, 0, 1⟩) : Vertex ℝ × Vertex ℝ) = ⟨0, 0⟩ := by norm_num [segCenter, arcCenter, Vertex.pos]
  have c2 : segCenter ((⟨5, -6, 1⟩, ⟨-5, -6, 1⟩) : Vertex ℝ × Vertex ℝ) = ⟨0, -6⟩ := by norm_num [segCenter, arcCenter, Vertex.pos]
  have r1 : segRadius ((⟨-5, 0, 1⟩, ⟨5, 0, 1⟩) : Vertex ℝ × Vertex ℝ) = 5 := by
    norm_num [segRadius, arcRadius, Vertex.pos, upper_half.1]
  have r2 : segRadius ((⟨5, -6, 1⟩, ⟨-5, -6, 1⟩) : Vertex ℝ × Vertex ℝ) = 5 := by
    norm_num [segRadius, arcRadius, Vertex.pos, upper_half.2]
  have p1 : ProperArc (⟨-5, 0, 1⟩ : Vertex ℝ) ⟨5, 0, 1⟩ := ⟨nl _ _, by norm_num, by simp only [Vertex.pos, ne_eq, V2.ext_iff']; norm_num⟩
  have p2 : ProperArc (⟨5, -6, 1⟩ : Vertex ℝ) ⟨-5, -6, 1⟩ := ⟨nl _ _, by norm_num, by simp only [Vertex.pos, ne_eq, V2.ext_iff']; norm_num⟩
  have hd : edist (⟨0, 0⟩ : V2 ℝ) ⟨0, -6⟩ = 6 := edist_eq_of_sq (by norm_num) (by norm_num)
  have sw1 : ∀ pt : V2 ℝ, 1 ≤ |pt.y| → SweepClear (⟨-5, 0, 1⟩ : Vertex ℝ) ⟨5, 0, 1⟩ pt (1 / 1000) := by
    intro pt h e he
    rw [show arcCenter (Vertex.pos (⟨-5, 0, 1⟩ : Vertex ℝ)) (Vertex.pos ⟨5, 0, 1⟩) 1 = ⟨0, 0⟩ from c1]
    have : |cross (⟨0, 0⟩ : V2 ℝ) e pt| = 5 * |pt.y| := by
      rcases he with rfl | rfl <;> simp [cross, Vertex.pos, abs_mul]
    rw [this]
    rintro ⟨-, h2⟩
    linarith
  have sw2 : ∀ pt : V2 ℝ, 1 ≤ |pt.y + 6| → SweepClear (⟨5, -6, 1⟩ : Vertex ℝ) ⟨-5, -6, 1⟩ pt (1 / 1000) := by
    intro pt h e he
    rw [show arcCenter (Vertex.pos (⟨5, -6, 1⟩ : Vertex ℝ)) (Vertex.pos ⟨-5, -6, 1⟩) 1 = ⟨0, -6⟩ from c2]
    have : |cross (⟨0, -6⟩ : V2 ℝ) e pt| = 5 * |pt.y + 6| := by
      rcases he with rfl | rfl <;> simp [cross, Vertex.pos, abs_mul]
    rw [this]
    rintro ⟨-, h2⟩
    linarith
  have off : ∀ a b c : V2 ℝ, edist b c = 5 → 7 < edist a c → 1 / 1000 < edist a b := by
    intro a b c h1 h2
    have := edist_triangle a b c
    linarith
  have lt7 : ∀ a b : V2 ℝ, 49 < (a.x - b.x) ^ 2 + (a.y - b.y) ^ 2 → 7 < edist a b := by
    intro a b h
    exact Real.lt_sqrt_of_sq_lt (by linarith)
  refine .arcs p1 p2 ⟨?_, ⟨⟨sw1 _ ?_, ?_⟩, ⟨sw1 _ ?_, ?_⟩, ⟨sw2 _ ?_, ?_⟩, ⟨sw2 _ ?_, ?_⟩⟩, Or.inr (Or.inr ⟨⟨-4, -3⟩, ⟨4, -3⟩, ?_, ?_⟩), ?_⟩
  · rw [c1, c2, hd]; norm_num
  · norm_num [Vertex.pos]
  · intro q hq
    have h1 := onSeg_circle (a := (_, _)) p1 hq
    rw [c1, r1] at h1
    exact off _ _ _ h1 (lt7 _ _ (by norm_num [Vertex.pos]))
  · norm_num [Vertex.pos]
  · intro q hq
    have h1 := onSeg_circle (a := (_, _)) p1 hq
    rw [c1, r1] at h1
    exact off _ _ _ h1 (lt7 _ _ (by norm_num [Vertex.pos]))
  · norm_num [Vertex.pos]
  · intro q hq
    have h1 := onSeg_circle (a := (_, _)) p2 hq
    rw [c2, r2] at h1
    exact off _ _ _ h1 (lt7 _ _ (by norm_num [Vertex.pos]))
  · norm_num [Vertex.pos]
  · intro q hq
    have h1 := onSeg_circle (a := (_, _)) p2 hq
    rw [c2, r2] at h1
    exact off _ _ _ h1 (lt7 _ _ (by norm_num [Vertex.pos]))
  · norm_num [Apart]
  · rw [c1, c2, r1, r2]
    unfold OnCircle
    refine ⟨⟨?_, ?_⟩, ?_, ?_⟩ <;> exact edist_eq_of_sq (by norm_num) (by norm_num)
  · rw [c1, c2, r1, r2]
    intro q h1 h2
    unfold OnCircle at h1 h2
    have s1 := edist_sq q ⟨0, 0⟩
    have s2 := edist_sq q ⟨0, -6⟩
    rw [h1] at s1
    rw [h2] at s2
    simp only at s1 s2
    have hy : q.y = -3 := by nlinarith
    have hne : ∀ v : V2 ℝ, v.y ≠ -3 → q ≠ v := by rintro v hv rfl; exact hv hy
    exact ⟨⟨sw1 _ (by rw [hy]; norm_num), hne _ (by norm_num [Vertex.pos]), hne _ (by norm_num [Vertex.pos])⟩,
      ⟨sw2 _ (by rw [hy]; norm_num), hne _ (by norm_num [Vertex.pos]), hne _ (by norm_num [Vertex.pos])⟩⟩

/-- `C27_exact` applies to two half circles: the lower half of the circle around the origin and the upper half of the
circle around `(0, -6)`, both of radius 5. -/
example : ∀ q, q ∈ (plineSegIntr (T := ℝ) ⟨-5, 0, 1⟩ ⟨5, 0, 1⟩ ⟨5, -6, 1⟩ ⟨-5, -6, 1⟩ (1 / 1000)).isolated ↔
    OnSeg ⟨-5, 0, 1⟩ ⟨5, 0, 1⟩ q ∧ OnSeg ⟨5, -6, 1⟩ ⟨-5, -6, 1⟩ q :=
  (C27_exact _ _ _ _ _ (by norm_num) halves_clear).2.2

theorem chord_clear : ClearLineArc ((⟨-6, -3, 0⟩, ⟨6, -3, 0⟩) : Vertex ℝ × Vertex ℝ) (⟨-5, 0, 1⟩, ⟨5, 0, 1⟩) (1 / 1000) := by
  have nl : ∀ x y : ℝ, ¬ IsLine ⟨x, y, 1⟩ := by intro x y; unfold IsLine; norm_num
  have c1 : segCenter ((⟨-5, 0, 1⟩, ⟨5, 0, 1⟩) : Vertex ℝ × Vertex ℝ) = ⟨0, 0⟩ := by norm_num [segCenter, arcCenter, Vertex.pos]
  have r1 : segRadius ((⟨-5, 0, 1⟩, ⟨5, 0, 1⟩) : Vertex ℝ × Vertex ℝ) = 5 := by
    norm_num [segRadius, arcRadius, Vertex.pos, upper_half.1]
  have p1 : ProperArc (⟨-5, 0, 1⟩ : Vertex ℝ) ⟨5, 0, 1⟩ := ⟨nl _ _, by norm_num, by simp only [Vertex.pos, ne_eq, V2.ext_iff']; norm_num⟩
  have sw : ∀ pt : V2 ℝ, pt.y = -3 → SweepClear (⟨-5, 0, 1⟩ : Vertex ℝ) ⟨5, 0, 1⟩ pt (1 / 1000) := by
    intro pt h e he
    rw [show arcCenter (Vertex.pos (⟨-5, 0, 1⟩ : Vertex ℝ)) (Vertex.pos ⟨5, 0, 1⟩) 1 = ⟨0, 0⟩ from c1]
    have : |cross (⟨0, 0⟩ : V2 ℝ) e pt| = 5 * |pt.y| := by
      rcases he with rfl | rfl <;> simp [cross, Vertex.pos, abs_mul]
    rw [this, h]
    norm_num
  have hend : ∀ pt : V2 ℝ, pt.y = -3 → 36 ≤ pt.x ^ 2 → ClearOfArc ((⟨-5, 0, 1⟩, ⟨5, 0, 1⟩) : Vertex ℝ × Vertex ℝ) pt (1 / 1000) := by
    intro pt h1 h2
    refine ⟨sw _ h1, fun q hq => ?_⟩
    have h3 := onSeg_circle (a := (_, _)) p1 hq
    rw [c1, r1] at h3
    unfold OnCircle at h3
    have h4 := edist_triangle pt q ⟨0, 0⟩
    have h5 : 6 < edist pt ⟨0, 0⟩ := Real.lt_sqrt_of_sq_lt (by simp only [h1]; nlinarith)
    linarith
  have hy : ∀ t, (linePoint (⟨-6, -3⟩ : V2 ℝ) ⟨6, -3⟩ t).y = -3 := by intro t; simp [linePoint]
  refine ⟨⟨by norm_num [Apart, Vertex.pos], by norm_num [Vertex.pos]⟩, ⟨hend _ rfl (by norm_num [Vertex.pos]), hend _ rfl (by norm_num [Vertex.pos])⟩,
    Or.inr ⟨1 / 2, ?_⟩, ?_⟩
  · rw [c1, r1]
    have : edist (linePoint (⟨-6, -3⟩ : V2 ℝ) ⟨6, -3⟩ (1 / 2)) ⟨0, 0⟩ = 3 := edist_eq_of_sq (by norm_num) (by norm_num [linePoint])
    change edist (linePoint (⟨-6, -3⟩ : V2 ℝ) ⟨6, -3⟩ (1 / 2)) ⟨0, 0⟩ + 1 / 1000 ≤ 5
    rw [this]; norm_num
  · intro t ht _
    rw [c1, r1] at ht
    have h2 := edist_sq (linePoint (⟨-6, -3⟩ : V2 ℝ) ⟨6, -3⟩ t) ⟨0, 0⟩
    rw [show edist (linePoint (⟨-6, -3⟩ : V2 ℝ) ⟨6, -3⟩ t) ⟨0, 0⟩ = 5 from ht] at h2
    simp only [linePoint] at h2
    have h3 : (t - 1 / 6) * (t - 5 / 6) = 0 := by nlinarith
    have hne : ∀ v : V2 ℝ, v.y ≠ -3 → linePoint (⟨-6, -3⟩ : V2 ℝ) ⟨6, -3⟩ t ≠ v := by rintro v hv rfl; exact hv (hy t)
    refine ⟨?_, sw _ (hy t), hne _ (by norm_num [Vertex.pos]), hne _ (by norm_num [Vertex.pos])⟩
    rcases mul_eq_zero.mp h3 with h | h <;> constructor <;> linarith

theorem chord_points : ∀ x : ℝ, x = -4 ∨ x = 4 → OnSeg (⟨-6, -3, 0⟩ : Vertex ℝ) ⟨6, -3, 0⟩ ⟨x, -3⟩ ∧ OnSeg (⟨-5, 0, 1⟩ : Vertex ℝ) ⟨5, 0, 1⟩ ⟨x, -3⟩ := by
  have nl : ¬ IsLine (⟨-5, 0, 1⟩ : Vertex ℝ) := by unfold IsLine; norm_num
  have l0 : IsLine (⟨-6, -3, 0⟩ : Vertex ℝ) := by unfold IsLine; norm_num
  have p1 : ProperArc (⟨-5, 0, 1⟩ : Vertex ℝ) ⟨5, 0, 1⟩ := ⟨nl, by norm_num, by simp only [Vertex.pos, ne_eq, V2.ext_iff']; norm_num⟩
  have c1 : segCenter ((⟨-5, 0, 1⟩, ⟨5, 0, 1⟩) : Vertex ℝ × Vertex ℝ) = ⟨0, 0⟩ := by norm_num [segCenter, arcCenter, Vertex.pos]
  have r1 : segRadius ((⟨-5, 0, 1⟩, ⟨5, 0, 1⟩) : Vertex ℝ × Vertex ℝ) = 5 := by
    norm_num [segRadius, arcRadius, Vertex.pos, upper_half.1]
  intro x hx
  constructor
  · refine ⟨(x + 6) / 12, ?_, ?_, ?_⟩
    · rcases hx with rfl | rfl <;> norm_num
    · rcases hx with rfl | rfl <;> norm_num
    · rw [segCurve_line l0]
      simp only [linePoint, Vertex.pos, V2.ext_iff']
      constructor <;> ring
  · have hon : OnCircle (segCenter ((⟨-5, 0, 1⟩, ⟨5, 0, 1⟩) : Vertex ℝ × Vertex ℝ)) (segRadius ((⟨-5, 0, 1⟩, ⟨5, 0, 1⟩) : Vertex ℝ × Vertex ℝ)) ⟨x, -3⟩ := by
      rw [c1, r1]
      exact edist_eq_of_sq (by norm_num) (by rcases hx with rfl | rfl <;> norm_num)
    have hcl : ClearOfEnds ((⟨-5, 0, 1⟩, ⟨5, 0, 1⟩) : Vertex ℝ × Vertex ℝ) ⟨x, -3⟩ (1 / 1000) := by
      refine ⟨?_, ?_, ?_⟩
      · intro e he
        rw [show arcCenter (Vertex.pos (⟨-5, 0, 1⟩ : Vertex ℝ)) (Vertex.pos ⟨5, 0, 1⟩) 1 = ⟨0, 0⟩ from c1]
        rcases he with rfl | rfl <;> norm_num [cross, Vertex.pos]
      · simp only [Vertex.pos, ne_eq, V2.ext_iff']; norm_num
      · simp only [Vertex.pos, ne_eq, V2.ext_iff']; norm_num
    refine (sweep_on p1 (by norm_num : (0:ℝ) < 1 / 1000) hon hcl).mp ?_
    rw [c1]
    simp only [pointWithinArcSweep, isLeftOrCoincidentEps, isRightOrCoincidentEps, Vertex.bulgeIsNeg, perpDotTestValue, Vertex.pos]
    rcases hx with rfl | rfl <;> norm_num

/-- The hypotheses of `C27_order_arc` and `C27_order_line` are met: a line that crosses a half circle twice. -/
example : (∃ p q, plineSegIntr (T := ℝ) ⟨-6, -3, 0⟩ ⟨6, -3, 0⟩ ⟨-5, 0, 1⟩ ⟨5, 0, 1⟩ (1 / 1000) = .twoIntersects p q) ∧
    ∃ p q, plineSegIntr (T := ℝ) ⟨-5, 0, 1⟩ ⟨5, 0, 1⟩ ⟨-6, -3, 0⟩ ⟨6, -3, 0⟩ (1 / 1000) = .twoIntersects p q := by
  have nl : ¬ IsLine (⟨-5, 0, 1⟩ : Vertex ℝ) := by unfold IsLine; norm_num
  have l0 : IsLine (⟨-6, -3, 0⟩ : Vertex ℝ) := by unfold IsLine; norm_num
  have p1 : ProperArc (⟨-5, 0, 1⟩ : Vertex ℝ) ⟨5, 0, 1⟩ := ⟨nl, by norm_num, by simp only [Vertex.pos, ne_eq, V2.ext_iff']; norm_num⟩
  have key : ∀ r : PlineSegIntr ℝ, (⟨-4, -3⟩ : V2 ℝ) ∈ r.isolated → ⟨4, -3⟩ ∈ r.isolated → ∃ p q, r = .twoIntersects p q := by
    intro r h1 h2
    have hne : (⟨-4, -3⟩ : V2 ℝ) ≠ ⟨4, -3⟩ := by simp only [ne_eq, V2.ext_iff']; norm_num
    cases r with
    | twoIntersects p q => exact ⟨p, q, rfl⟩
    | oneIntersect p => simp only [PlineSegIntr.isolated, List.mem_singleton] at h1 h2; exact absurd (h1.trans h2.symm) hne
    | tangentIntersect p => simp only [PlineSegIntr.isolated, List.mem_singleton] at h1 h2; exact absurd (h1.trans h2.symm) hne
    | _ => cases h1
  obtain ⟨a1, a2⟩ := chord_points (-4) (Or.inl rfl)
  obtain ⟨b1, b2⟩ := chord_points 4 (Or.inr rfl)
  obtain ⟨-, -, h1⟩ := C27_exact _ _ _ _ _ (by norm_num) (.lineArc l0 p1 chord_clear)
  obtain ⟨-, -, h2⟩ := C27_exact _ _ _ _ _ (by norm_num) (.arcLine p1 l0 chord_clear)
  exact ⟨key _ ((h1 _).mpr ⟨a1, a2⟩) ((h1 _).mpr ⟨b1, b2⟩), key _ ((h2 _).mpr ⟨a2, a1⟩) ((h2 _).mpr ⟨b2, b1⟩)⟩

end Cavc
