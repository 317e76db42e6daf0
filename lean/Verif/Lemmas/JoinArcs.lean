import Verif.Props.RedundantLines
import Verif.Props.Split
import Verif.Lemmas.SubPath
import Verif.Spec.SimplifyArcs

/-! # Two arcs of one circle as one arc -/

namespace Cavc
open Scalar RealScalar Pline

theorem rotV_rotV (s t : ℝ) (v : V2 ℝ) : rotV s (rotV t v) = rotV (s + t) v := by
  rw [V2.ext_iff']
  simp only [rotV, Real.cos_add, Real.sin_add]
  constructor <;> ring

theorem arc_end_rot {p q : V2 ℝ} {b : ℝ} (hb : b ≠ 0) :
    (⟨q.x - (arcCenter p q b).x, q.y - (arcCenter p q b).y⟩ : V2 ℝ)
      = rotV (4 * Real.arctan b) ⟨p.x - (arcCenter p q b).x, p.y - (arcCenter p q b).y⟩ := by
  have h := arcPoint_one p q b hb
  rw [V2.ext_iff'] at h ⊢
  simp only [arcPoint, one_mul] at h
  constructor
  · simp only; linarith [h.1]
  · simp only; linarith [h.2]

section
variable {x y z : Vertex ℝ} {c : ℝ}

theorem OneArc.bulge_ne (h : OneArc x y z c) : c ≠ 0 := by
  rintro rfl
  have := h.sweep
  have ht := h.turn
  rw [Real.arctan_zero] at this
  have h1 : Real.arctan y.bulge = Real.arctan (-x.bulge) := by rw [Real.arctan_neg]; linarith
  have := Real.arctan_injective h1
  rw [this] at ht
  nlinarith [sq_nonneg x.bulge]

/-- Signs of the three bulges agree. -/
theorem OneArc.signs (h : OneArc x y z c) : (0 < x.bulge ∧ 0 < y.bulge ∧ 0 < c) ∨ (x.bulge < 0 ∧ y.bulge < 0 ∧ c < 0) := by
  have hs := h.sweep
  rcases pos_and_pos_or_neg_and_neg_of_mul_pos h.turn with ⟨h1, h2⟩ | ⟨h1, h2⟩
  · left
    refine ⟨h1, h2, ?_⟩
    have e1 := Real.arctan_pos.mpr h1
    have e2 := Real.arctan_pos.mpr h2
    exact Real.arctan_pos.mp (by linarith)
  · right
    refine ⟨h1, h2, ?_⟩
    have e1 := Real.arctan_lt_zero.mpr h1
    have e2 := Real.arctan_lt_zero.mpr h2
    exact Real.arctan_lt_zero.mp (by linarith)

theorem OneArc.abs_sweep (h : OneArc x y z c) :
    |4 * Real.arctan c| = |4 * Real.arctan x.bulge| + |4 * Real.arctan y.bulge| := by
  have hs := h.sweep
  rcases h.signs with ⟨h1, h2, h3⟩ | ⟨h1, h2, h3⟩
  · have e1 := Real.arctan_pos.mpr h1
    have e2 := Real.arctan_pos.mpr h2
    have e3 := Real.arctan_pos.mpr h3
    rw [abs_of_pos (by linarith), abs_of_pos (by linarith), abs_of_pos (by linarith)]
    exact hs
  · have e1 := Real.arctan_lt_zero.mpr h1
    have e2 := Real.arctan_lt_zero.mpr h2
    have e3 := Real.arctan_lt_zero.mpr h3
    rw [abs_of_neg (by linarith), abs_of_neg (by linarith), abs_of_neg (by linarith)]
    linarith

/-- The joined arc is not taken for a line. -/
theorem OneArc.notLine (h : OneArc x y z c) : ¬ IsLine (x.withBulge c) := by
  have hx := h.arc1
  have hs := h.abs_sweep
  unfold IsLine at *
  intro hc
  apply hx
  refine lt_of_le_of_lt ?_ hc
  show |x.bulge| ≤ |c|
  have key : ∀ b : ℝ, |4 * Real.arctan b| = 4 * Real.arctan |b| := by
    intro b
    rcases le_total 0 b with hb | hb
    · rw [abs_of_nonneg hb, abs_of_nonneg (by have := Real.arctan_nonneg.mpr hb; linarith)]
    · rw [abs_of_nonpos hb, Real.arctan_neg, abs_of_nonpos]
      · ring
      · have := Real.arctan_le_zero.mpr hb; linarith
  rw [key, key] at hs
  have h3 := abs_nonneg (4 * Real.arctan y.bulge)
  by_contra hlt
  push Not at hlt
  have := Real.arctan_strictMono hlt
  linarith

theorem OneArc.center_eq (h : OneArc x y z c) : segCenter (x.withBulge c, z) = segCenter (x, y) := by
  have hx := bulge_ne_zero h.arc1
  have hy := bulge_ne_zero h.arc2
  have e1 := arc_end_rot (p := x.pos) (q := y.pos) hx
  have e2 := arc_end_rot (p := y.pos) (q := z.pos) hy
  have hc : arcCenter y.pos z.pos y.bulge = arcCenter x.pos y.pos x.bulge := h.center.symm
  rw [hc, e1, rotV_rotV, add_comm, ← h.sweep] at e2
  show arcCenter x.pos z.pos c = arcCenter x.pos y.pos x.bulge
  apply arcCenter_of_rot h.bulge_ne
  · exact congrArg V2.x e2
  · exact congrArg V2.y e2

theorem OneArc.radius_eq (h : OneArc x y z c) : segRadius (x.withBulge c, z) = segRadius (x, y) := by
  have hx := bulge_ne_zero h.arc1
  have e1 := start_dist_sq x.pos y.pos x.bulge hx
  have e2 := start_dist_sq x.pos z.pos c h.bulge_ne
  have hc : arcCenter x.pos z.pos c = arcCenter x.pos y.pos x.bulge := h.center_eq
  rw [hc, e1] at e2
  exact (pow_left_inj₀ (arcRadius_nonneg _ _ _) (arcRadius_nonneg _ _ _) (by norm_num)).mp e2.symm

/-- The point of the circle of an arc after turning by an angle from its start. -/
noncomputable def turned (o p : V2 ℝ) (θ : ℝ) : V2 ℝ := ⟨o.x + (rotV θ ⟨p.x - o.x, p.y - o.y⟩).x, o.y + (rotV θ ⟨p.x - o.x, p.y - o.y⟩).y⟩

theorem arcPoint_turned (p q : V2 ℝ) (b t : ℝ) : arcPoint p q b t = turned (arcCenter p q b) p (t * (4 * Real.arctan b)) := rfl

theorem turned_turned (o p : V2 ℝ) (s t : ℝ) : turned o (turned o p s) t = turned o p (t + s) := by
  rw [V2.ext_iff']
  simp only [turned, add_sub_cancel_left, ← rotV_rotV]
  exact ⟨trivial, trivial⟩

/-- Both arcs together are the joined arc. -/
theorem OneArc.onSeg (h : OneArc x y z c) (pt : V2 ℝ) : OnSeg (x.withBulge c) z pt ↔ OnSeg x y pt ∨ OnSeg y z pt := by
  have hx := bulge_ne_zero h.arc1
  have hy := bulge_ne_zero h.arc2
  set A := 4 * Real.arctan x.bulge with hA
  set B := 4 * Real.arctan y.bulge with hB
  set o := arcCenter x.pos y.pos x.bulge with ho
  have hc : arcCenter y.pos z.pos y.bulge = o := h.center.symm
  have hc' : arcCenter x.pos z.pos c = o := h.center_eq
  have hyp : y.pos = turned o x.pos A := by
    have := arcPoint_one x.pos y.pos x.bulge hx
    rw [arcPoint_turned, one_mul] at this
    exact this.symm
  have f1 : ∀ t, segCurve x y t = turned o x.pos (t * A) := fun t => by rw [segCurve_arc h.arc1, arcPoint_turned]
  have f2 : ∀ t, segCurve y z t = turned o x.pos (t * B + A) := fun t => by
    rw [segCurve_arc h.arc2, arcPoint_turned, hc, ← turned_turned, ← hyp]
  have f3 : ∀ t, segCurve (x.withBulge c) z t = turned o x.pos (t * (A + B)) := fun t => by
    rw [segCurve_arc h.notLine, arcPoint_turned]
    show turned (arcCenter x.pos z.pos c) x.pos (t * (4 * Real.arctan c)) = _
    rw [hc', h.sweep]
  have hAB : (0 < A ∧ 0 < B) ∨ (A < 0 ∧ B < 0) := by
    rcases h.signs with ⟨h1, h2, _⟩ | ⟨h1, h2, _⟩
    · exact Or.inl ⟨by have := Real.arctan_pos.mpr h1; linarith, by have := Real.arctan_pos.mpr h2; linarith⟩
    · exact Or.inr ⟨by have := Real.arctan_lt_zero.mpr h1; linarith, by have := Real.arctan_lt_zero.mpr h2; linarith⟩
  have hS : A + B ≠ 0 := by rcases hAB with h | h <;> [exact (by linarith [h.1, h.2] : (0 : ℝ) < A + B).ne'; exact (by linarith [h.1, h.2] : A + B < 0).ne]
  have hA0 : A ≠ 0 := by rcases hAB with h | h <;> [exact h.1.ne'; exact h.1.ne]
  have hB0 : B ≠ 0 := by rcases hAB with h | h <;> [exact h.2.ne'; exact h.2.ne]
  -- the fraction of the first arc
  have hA1 : 0 < A / (A + B) := by
    rcases hAB with h | h
    · exact div_pos h.1 (by linarith [h.1, h.2])
    · exact div_pos_of_neg_of_neg h.1 (by linarith [h.1, h.2])
  have hB1 : 0 < B / (A + B) := by
    rcases hAB with h | h
    · exact div_pos h.2 (by linarith [h.1, h.2])
    · exact div_pos_of_neg_of_neg h.2 (by linarith [h.1, h.2])
  have hsum : A / (A + B) + B / (A + B) = 1 := by field_simp
  constructor
  · rintro ⟨t, t0, t1, rfl⟩
    rw [f3]
    by_cases ht : t ≤ A / (A + B)
    · left
      refine ⟨t / (A / (A + B)), by positivity, (div_le_one hA1).mpr ht, ?_⟩
      rw [f1]; congr 1; field_simp
    · right
      push Not at ht
      refine ⟨(t - A / (A + B)) / (B / (A + B)), div_nonneg (by linarith) hB1.le, (div_le_one hB1).mpr (by linarith), ?_⟩
      rw [f2]; congr 1; field_simp; ring
  · rintro (⟨t, t0, t1, rfl⟩ | ⟨t, t0, t1, rfl⟩)
    · refine ⟨t * (A / (A + B)), by positivity, by nlinarith, ?_⟩
      rw [f1, f3]; congr 1; field_simp
    · refine ⟨A / (A + B) + t * (B / (A + B)), by positivity, by nlinarith, ?_⟩
      rw [f2, f3]; congr 1; field_simp; ring

end

/-! ## Traced points -/

/-- points traced by a chain of segments -/
def OnPath (l : List (Vertex ℝ)) (pt : V2 ℝ) : Prop := ∃ s ∈ pathSegs l, OnSeg s.1 s.2 pt

theorem seg_meets_end (v w : Vertex ℝ) : OnSeg v w w.pos := ⟨1, by norm_num, le_rfl, (segCurve_ends v w).2.symm⟩

theorem onSeg_point {v w : Vertex ℝ} (h : v.pos = w.pos) {pt : V2 ℝ} : OnSeg v w pt ↔ pt = w.pos := by
  constructor
  · rintro ⟨t, _, _, rfl⟩
    by_cases hl : IsLine v
    · rw [segCurve_line hl, h, V2.ext_iff']; simp [linePoint]
    · rw [segCurve_arc hl, h, V2.ext_iff']; simp [arcPoint, arcCenter, rotV]
  · rintro rfl; exact seg_meets_end v w

theorem seg_congr_end {v w w' : Vertex ℝ} (h : w.pos = w'.pos) (pt : V2 ℝ) : OnSeg v w pt ↔ OnSeg v w' pt := by
  unfold OnSeg
  simp only [segCurve_congr (rfl : v.pos = v.pos) rfl h]

theorem onSeg_line {v w : Vertex ℝ} (h : IsLine v) (pt : V2 ℝ) : OnSeg v w pt ↔ OnLineSeg v.pos w.pos pt := by
  unfold OnSeg OnLineSeg
  simp only [segCurve_line h]

theorem onPath_replace (a b : List (Vertex ℝ)) (x x' y z : Vertex ℝ) (hx : x.pos = x'.pos) (pt : V2 ℝ)
    (h : OnSeg x' z pt ↔ OnSeg x y pt ∨ OnSeg y z pt) :
    OnPath (a ++ x :: y :: z :: b) pt ↔ OnPath (a ++ x' :: z :: b) pt := by
  have e1 : pathSegs (a ++ x :: y :: z :: b)
      = pathSegs (a ++ [x]) ++ (x, y) :: (y, z) :: pathSegs (z :: b) := by
    rw [pathSegs_append_cons]; rfl
  have e2 : pathSegs (a ++ x' :: z :: b) = pathSegs (a ++ [x']) ++ (x', z) :: pathSegs (z :: b) := by
    rw [pathSegs_append_cons]; rfl
  have e3 : (∃ s ∈ pathSegs (a ++ [x]), OnSeg s.1 s.2 pt) ↔ ∃ s ∈ pathSegs (a ++ [x']), OnSeg s.1 s.2 pt := by
    rcases List.eq_nil_or_concat a with rfl | ⟨a, w, rfl⟩
    · simp [pathSegs]
    · have f : ∀ u, pathSegs (a ++ [w] ++ [u]) = pathSegs (a ++ [w]) ++ [(w, u)] := by
        intro u
        rw [List.append_assoc, show [w] ++ [u] = w :: [u] from rfl, pathSegs_append_cons]; rfl
      simp only [List.concat_eq_append, f, List.mem_append, List.mem_singleton]
      constructor
      · rintro ⟨s, (h | rfl), hp⟩
        · exact ⟨s, Or.inl h, hp⟩
        · exact ⟨_, Or.inr rfl, (seg_congr_end hx pt).mp hp⟩
      · rintro ⟨s, (h | rfl), hp⟩
        · exact ⟨s, Or.inl h, hp⟩
        · exact ⟨_, Or.inr rfl, (seg_congr_end hx pt).mpr hp⟩
  unfold OnPath
  rw [e1, e2]
  simp only [List.mem_append, List.mem_cons]
  constructor
  · rintro ⟨s, (hs | rfl | rfl | hs), hp⟩
    · obtain ⟨s', h1, h2⟩ := e3.mp ⟨s, hs, hp⟩
      exact ⟨s', Or.inl h1, h2⟩
    · exact ⟨(x', z), Or.inr (Or.inl rfl), h.mpr (Or.inl hp)⟩
    · exact ⟨(x', z), Or.inr (Or.inl rfl), h.mpr (Or.inr hp)⟩
    · exact ⟨s, Or.inr (Or.inr hs), hp⟩
  · rintro ⟨s, (hs | rfl | hs), hp⟩
    · obtain ⟨s', h1, h2⟩ := e3.mpr ⟨s, hs, hp⟩
      exact ⟨s', Or.inl h1, h2⟩
    · rcases h.mp hp with h | h
      · exact ⟨(x, y), Or.inr (Or.inl rfl), h⟩
      · exact ⟨(y, z), Or.inr (Or.inr (Or.inl rfl)), h⟩
    · exact ⟨s, Or.inr (Or.inr (Or.inr hs)), hp⟩

/-- The specification keeps the traced points. -/
theorem Shortened.onPath {l l' : List (Vertex ℝ)} (h : Shortened l l') (pt : V2 ℝ) : OnPath l pt ↔ OnPath l' pt := by
  induction h with
  | refl => exact Iff.rfl
  | again a b x y z _ he ih =>
    rw [ih]
    apply onPath_replace _ _ _ _ _ _ rfl
    rw [onSeg_point he, seg_congr_end he]
    constructor
    · exact Or.inl
    · rintro (h | rfl)
      · exact h
      · exact seg_meets_end _ _
  | line a b x y z _ hx hy hon ih =>
    rw [ih]
    apply onPath_replace _ _ _ _ _ _ rfl
    rw [onSeg_line hx, onSeg_line hx, onSeg_line hy]
    exact onLineSeg_split hon
  | arc a b x y z c _ hc ih =>
    rw [ih]
    exact onPath_replace a b x (x.withBulge c) y z rfl pt (hc.onSeg pt)


/-! ## The code's test -/

theorem abs_four_arctan_le_iff (b : ℝ) : |4 * Real.arctan b| ≤ Real.pi ↔ |b| ≤ 1 := (C35_half_circle b).1.symm

/-- The test of the code whether two arcs can be joined. -/
theorem joinArcs_spec {eps : ℝ} (he : 0 < eps) {v1 v2 v3 : Vertex ℝ} (a1 : ¬ IsLine v1) (a2 : ¬ IsLine v2) (h1 : |v1.bulge| ≤ 1) (h2 : |v2.bulge| ≤ 1)
    (n1 : v1.pos ≠ v2.pos) (n2 : v2.pos ≠ v3.pos) (hs : (decide (0 < v1.bulge)) = decide (0 < v2.bulge))
    (hcirc : |segRadius (v1, v2) - segRadius (v2, v3)| < eps → |(segCenter (v1, v2)).x - (segCenter (v2, v3)).x| < eps →
      |(segCenter (v1, v2)).y - (segCenter (v2, v3)).y| < eps → segRadius (v1, v2) = segRadius (v2, v3) ∧ segCenter (v1, v2) = segCenter (v2, v3))
    (hsw : segRadius (v1, v2) = segRadius (v2, v3) → segCenter (v1, v2) = segCenter (v2, v3) →
      segRadius (v1, v2) * (|4 * Real.arctan v1.bulge| + |4 * Real.arctan v2.bulge|) < segRadius (v1, v2) * Real.pi + eps →
        |4 * Real.arctan v1.bulge| + |4 * Real.arctan v2.bulge| ≤ Real.pi) :
    (∃ b, joinArcsBulge eps (segRadius (v1, v2)) (segCenter (v1, v2)) (decide (0 < v1.bulge)) v1 v2 v3 = some b ∧ OneArc v1 v2 v3 b) ∨
    (joinArcsBulge eps (segRadius (v1, v2)) (segCenter (v1, v2)) (decide (0 < v1.bulge)) v1 v2 v3 = none ∧ ∀ b, ¬ OneArc v1 v2 v3 b) := by
  have b1 := bulge_ne_zero a1
  have b2 := bulge_ne_zero a2
  have hrc : segArcRadiusAndCenter v2 v3 = (segRadius (v2, v3), segCenter (v2, v3)) := segArcRadiusAndCenter_eq v2 v3 b2 n2
  have hturn : 0 < v1.bulge * v2.bulge := by
    rw [decide_eq_decide] at hs
    rcases lt_or_gt_of_ne b1 with h | h
    · have : ¬ 0 < v2.bulge := fun h' => absurd (hs.mpr h') (by linarith)
      exact mul_pos_of_neg_of_neg h (lt_of_le_of_ne (not_lt.mp this) b2)
    · exact mul_pos h (hs.mp h)
  unfold joinArcsBulge
  rw [hrc]
  simp only [fuzzyEqEps_eq, Bool.and_eq_true, decide_eq_true_eq, V2.fuzzyEqEps_iff, fuzzyLtEps_eq, abs_eq, pi_eq, two_eq]
  by_cases hclose : |segRadius (v1, v2) - segRadius (v2, v3)| < eps ∧ |(segCenter (v1, v2)).x - (segCenter (v2, v3)).x| < eps ∧
      |(segCenter (v1, v2)).y - (segCenter (v2, v3)).y| < eps
  · obtain ⟨hr, hc⟩ := hcirc hclose.1 hclose.2.1 hclose.2.2
    have d1 : |deltaAngle (angle (segCenter (v1, v2)) v1.pos) (angle (segCenter (v1, v2)) v2.pos)| = |4 * Real.arctan v1.bulge| :=
      abs_deltaAngle_of_congr (angle_arcEnd n1 b1) (abs_four_arctan_le h1)
    have d2 : |deltaAngle (angle (segCenter (v1, v2)) v2.pos) (angle (segCenter (v1, v2)) v3.pos)| = |4 * Real.arctan v2.bulge| := by
      rw [hc]; exact abs_deltaAngle_of_congr (angle_arcEnd n2 b2) (abs_four_arctan_le h2)
    rw [if_pos hclose, d1, d2, ← hr]
    rw [show (segRadius (v1, v2) + segRadius (v1, v2)) / 2 = segRadius (v1, v2) by ring]
    by_cases hlt : segRadius (v1, v2) * (|4 * Real.arctan v1.bulge| + |4 * Real.arctan v2.bulge|) < segRadius (v1, v2) * Real.pi + eps
    · left
      rw [if_pos hlt]
      have htot := hsw hr hc hlt
      have hpi := Real.pi_pos
      have p1 : 0 ≤ |4 * Real.arctan v1.bulge| := abs_nonneg _
      have p2 : 0 ≤ |4 * Real.arctan v2.bulge| := abs_nonneg _
      set S := |4 * Real.arctan v1.bulge| + |4 * Real.arctan v2.bulge| with hS
      have hat : Real.arctan (bulgeFromAngle S) = S / 4 := by
        show Real.arctan (Real.tan (S / four)) = S / 4
        rw [four_eq, Real.arctan_tan] <;> linarith
      refine ⟨_, rfl, a1, a2, hc, hr, hturn, ?_, ?_⟩
      · rcases lt_or_gt_of_ne b1 with h | h
        · have h' : v2.bulge < 0 := by
            by_contra hh
            push Not at hh
            nlinarith
          have e1 := Real.arctan_lt_zero.mpr h
          have e2 := Real.arctan_lt_zero.mpr h'
          rw [if_neg (by linarith), Real.arctan_neg, hat, hS, abs_of_neg (by linarith), abs_of_neg (by linarith)]
          ring
        · have h' : 0 < v2.bulge := (mul_pos_iff_of_pos_left h).mp hturn
          have e1 := Real.arctan_pos.mpr h
          have e2 := Real.arctan_pos.mpr h'
          rw [if_pos h, hat, hS, abs_of_pos (by linarith), abs_of_pos (by linarith)]
          ring
      · rw [← abs_four_arctan_le_iff]
        split_ifs
        · rw [hat, abs_of_nonneg (by linarith)]; linarith
        · rw [Real.arctan_neg, hat, show 4 * -(S / 4) = -S by ring, abs_neg, abs_of_nonneg (by linarith)]; exact htot
    · right
      rw [if_neg hlt]
      refine ⟨rfl, fun b hb => hlt ?_⟩
      rw [← hb.abs_sweep]
      have := (abs_four_arctan_le_iff b).mpr hb.half
      have hr0 : 0 ≤ segRadius (v1, v2) := arcRadius_nonneg _ _ _
      nlinarith [mul_le_mul_of_nonneg_left this hr0]
  · right
    rw [if_neg hclose]
    refine ⟨rfl, fun b hb => hclose ?_⟩
    rw [hb.radius, hb.center]
    simp [he]

end Cavc
