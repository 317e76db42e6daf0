import Verif.Lemmas.ArcBox
import Verif.Lemmas.Segs

/-! # C33, C17, C18: bounding boxes -/

set_option linter.unusedSectionVars false

namespace Cavc
open RealScalar Pline

/-- The point lies in the box. -/
def AABB.Contains (B : AABB ℝ) (pt : V2 ℝ) : Prop :=
  B.minX ≤ pt.x ∧ pt.x ≤ B.maxX ∧ B.minY ≤ pt.y ∧ pt.y ≤ B.maxY

/-- The point lies in the box enlarged by `tol` on every side. -/
def AABB.ContainsWithin (B : AABB ℝ) (tol : ℝ) (pt : V2 ℝ) : Prop :=
  B.minX - tol ≤ pt.x ∧ pt.x ≤ B.maxX + tol ∧ B.minY - tol ≤ pt.y ∧ pt.y ≤ B.maxY + tol

/-- Every side of the box is reached by some point of the set, up to `tol`. -/
def AABB.TouchedBy (B : AABB ℝ) (tol : ℝ) (S : V2 ℝ → Prop) : Prop :=
  (∃ pt, S pt ∧ pt.x ≤ B.minX + tol) ∧ (∃ pt, S pt ∧ B.maxX - tol ≤ pt.x) ∧
  (∃ pt, S pt ∧ pt.y ≤ B.minY + tol) ∧ (∃ pt, S pt ∧ B.maxY - tol ≤ pt.y)

open Classical in
/-- How much the box of a segment may be too large: the angle tolerance `1e-8` of the crossing test
moves a side by at most `radius * (1e-8)^2 / 2`; nothing for lines. -/
noncomputable def boxSlack (v1 v2 : Vertex ℝ) : ℝ :=
  if IsLine v1 then 0 else arcRadius v1.pos v2.pos v1.bulge * ((1 / 100000000) ^ 2 / 2)

theorem boxSlack_nonneg (v1 v2 : Vertex ℝ) : 0 ≤ boxSlack v1 v2 := by
  unfold boxSlack
  split_ifs
  · exact le_refl _
  · have := arcRadius_nonneg v1.pos v2.pos v1.bulge
    positivity

theorem minMax_eq (a b : ℝ) : minMax a b = (Min.min a b, Max.max a b) := by
  unfold minMax
  simp only [lt_eq, decide_eq_true_eq]
  split_ifs with h
  · rw [min_eq_left h.le, max_eq_right h.le]
  · push Not at h
    rw [min_eq_right h, max_eq_left h]

theorem line_between (a b : ℝ) {t : ℝ} (h0 : 0 ≤ t) (h1 : t ≤ 1) :
    Min.min a b ≤ a + t * (b - a) ∧ a + t * (b - a) ≤ Max.max a b := by
  rcases le_total a b with h | h
  · rw [min_eq_left h, max_eq_right h]
    constructor <;> nlinarith
  · rw [min_eq_right h, max_eq_left h]
    constructor <;> nlinarith

/-- the exact box of a proper arc with separated end points -/
theorem arcBox_spec (v1 v2 : Vertex ℝ) (h : ProperArc v1 v2) (hf : v1.pos.fuzzyEq v2.pos = false) :
    (∀ t, 0 ≤ t → t ≤ 1 → (arcSegBoundingBox v1 v2).Contains (arcPoint v1.pos v2.pos v1.bulge t)) ∧
    (arcSegBoundingBox v1 v2).TouchedBy (arcRadius v1.pos v2.pos v1.bulge * ((1 / 100000000) ^ 2 / 2))
      (fun pt => ∃ t, 0 ≤ t ∧ t ≤ 1 ∧ pt = arcPoint v1.pos v2.pos v1.bulge t) := by
  have hb := bulge_ne_zero h.notLine
  have hrc := segArcRadiusAndCenter_eq v1 v2 hb h.ne
  have hr := arcRadius_nonneg v1.pos v2.pos v1.bulge
  have hpol := fun t => arcPoint_polar (p := v1.pos) (q := v2.pos) hb t
  have hθ := abs_four_arctan_le h.half
  have hsw : deltaAngleSigned (angle (arcCenter v1.pos v2.pos v1.bulge) v1.pos)
      (angle (arcCenter v1.pos v2.pos v1.bulge) v2.pos) v1.bulgeIsNeg = 4 * Real.arctan v1.bulge := by
    apply deltaAngleSigned_of_congr (angle_arcEnd h.ne hb) hθ
    · intro hn
      have : v1.bulge < 0 := by simpa using hn
      have := Real.arctan_lt_zero.mpr this
      linarith
    · intro hn
      have : 0 ≤ v1.bulge := by simpa using hn
      have := Real.arctan_nonneg.mpr this
      linarith
  have hstart := hpol 0
  have hend := hpol 1
  rw [arcPoint_zero, zero_mul, add_zero, V2.ext_iff'] at hstart
  rw [arcPoint_one _ _ _ hb, one_mul, V2.ext_iff'] at hend
  have hx1 : v1.x = _ := hstart.1
  have hy1 : v1.y = _ := hstart.2
  have hx2 : v2.x = _ := hend.1
  have hy2 : v2.y = _ := hend.2
  unfold arcSegBoundingBox
  rw [hf]
  simp only [Bool.false_eq_true, if_false, hrc, hsw, pi_eq, ofRatio_eq, min_eq, max_eq]
  set A := angle (arcCenter v1.pos v2.pos v1.bulge) v1.pos with hA
  set θ := 4 * Real.arctan v1.bulge with hθd
  set r := arcRadius v1.pos v2.pos v1.bulge with hrd
  set c := arcCenter v1.pos v2.pos v1.bulge with hcd
  have i1 : ∀ x, Real.cos (x - Real.pi) = -Real.cos x := fun x => Real.cos_sub_pi x
  have i2 : ∀ x, Real.cos (x - ((3 : ℕ) : ℝ) / ((2 : ℕ) : ℝ) * Real.pi) = -Real.sin x := by
    intro x
    rw [show x - ((3 : ℕ) : ℝ) / ((2 : ℕ) : ℝ) * Real.pi = x - Real.pi / 2 - Real.pi by push_cast; ring,
      Real.cos_sub_pi, Real.cos_sub_pi_div_two]
  have i3 : ∀ x, Real.cos (x - 0) = Real.cos x := fun x => by rw [sub_zero]
  have i4 : ∀ x, Real.cos (x - ((1 : ℕ) : ℝ) / ((2 : ℕ) : ℝ) * Real.pi) = Real.sin x := by
    intro x
    rw [show x - ((1 : ℕ) : ℝ) / ((2 : ℕ) : ℝ) * Real.pi = x - Real.pi / 2 by push_cast; ring,
      Real.cos_sub_pi_div_two]
  have hb1 : ∀ x, Real.cos x ≤ 1 := Real.cos_le_one
  have hmul : ∀ {a b : ℝ}, a ≤ b → r * a ≤ r * b := fun h => mul_le_mul_of_nonneg_left h hr
  have hmax : ∀ a b : ℝ, r * max a b = max (r * a) (r * b) := fun a b => mul_max_of_nonneg _ _ hr
  constructor
  · intro t ht0 ht1
    rw [hpol t]
    unfold AABB.Contains
    dsimp only
    refine ⟨?_, ?_, ?_, ?_⟩
    · split_ifs with hc
      · have := hmul (Real.neg_one_le_cos (A + t * θ))
        linarith
      · have := crosses_false hθ (Bool.eq_false_iff.mpr hc) t ht0 ht1
        rw [i1, i1, i1] at this
        have := hmul this
        rw [hmax] at this
        rw [hx1, hx2]
        rcases le_max_iff.mp this with h | h
        · exact min_le_of_left_le (by linarith)
        · exact min_le_of_right_le (by linarith)
    · split_ifs with hc
      · have := hmul (Real.cos_le_one (A + t * θ))
        linarith
      · have := crosses_false hθ (Bool.eq_false_iff.mpr hc) t ht0 ht1
        rw [i3, i3, i3] at this
        have := hmul this
        rw [hmax] at this
        rw [hx1, hx2]
        rcases le_max_iff.mp this with h | h
        · exact le_max_of_le_left (by linarith)
        · exact le_max_of_le_right (by linarith)
    · split_ifs with hc
      · have := hmul (Real.neg_one_le_sin (A + t * θ))
        linarith
      · have := crosses_false hθ (Bool.eq_false_iff.mpr hc) t ht0 ht1
        rw [i2, i2, i2] at this
        have := hmul this
        rw [hmax] at this
        rw [hy1, hy2]
        rcases le_max_iff.mp this with h | h
        · exact min_le_of_left_le (by linarith)
        · exact min_le_of_right_le (by linarith)
    · split_ifs with hc
      · have := hmul (Real.sin_le_one (A + t * θ))
        linarith
      · have := crosses_false hθ (Bool.eq_false_iff.mpr hc) t ht0 ht1
        rw [i4, i4, i4] at this
        have := hmul this
        rw [hmax] at this
        rw [hy1, hy2]
        rcases le_max_iff.mp this with h | h
        · exact le_max_of_le_left (by linarith)
        · exact le_max_of_le_right (by linarith)
  · have hslack : 0 ≤ r * ((1 / 100000000) ^ 2 / 2) := by positivity
    have h1p : ∃ t, 0 ≤ t ∧ t ≤ 1 ∧ v1.pos = arcPoint v1.pos v2.pos v1.bulge t :=
      ⟨0, le_refl _, zero_le_one, (arcPoint_zero _ _ _).symm⟩
    have h2p : ∃ t, 0 ≤ t ∧ t ≤ 1 ∧ v2.pos = arcPoint v1.pos v2.pos v1.bulge t :=
      ⟨1, zero_le_one, le_refl _, (arcPoint_one _ _ _ hb).symm⟩
    unfold AABB.TouchedBy
    dsimp only
    refine ⟨?_, ?_, ?_, ?_⟩
    · split_ifs with hc
      · obtain ⟨s, hs0, hs1, hs⟩ := crosses_true hθ hc
        rw [i1] at hs
        have := hmul hs
        exact ⟨_, ⟨s, hs0, hs1, rfl⟩, by rw [hpol s]; dsimp only; linarith⟩
      · rcases min_choice v1.x v2.x with h | h
        · exact ⟨_, h1p, by rw [h]; simpa using hslack⟩
        · exact ⟨_, h2p, by rw [h]; simpa using hslack⟩
    · split_ifs with hc
      · obtain ⟨s, hs0, hs1, hs⟩ := crosses_true hθ hc
        rw [i3] at hs
        have := hmul hs
        exact ⟨_, ⟨s, hs0, hs1, rfl⟩, by rw [hpol s]; dsimp only; linarith⟩
      · rcases max_choice v1.x v2.x with h | h
        · exact ⟨_, h1p, by rw [h]; simpa using hslack⟩
        · exact ⟨_, h2p, by rw [h]; simpa using hslack⟩
    · split_ifs with hc
      · obtain ⟨s, hs0, hs1, hs⟩ := crosses_true hθ hc
        rw [i2] at hs
        have := hmul hs
        exact ⟨_, ⟨s, hs0, hs1, rfl⟩, by rw [hpol s]; dsimp only; linarith⟩
      · rcases min_choice v1.y v2.y with h | h
        · exact ⟨_, h1p, by rw [h]; simpa using hslack⟩
        · exact ⟨_, h2p, by rw [h]; simpa using hslack⟩
    · split_ifs with hc
      · obtain ⟨s, hs0, hs1, hs⟩ := crosses_true hθ hc
        rw [i4] at hs
        have := hmul hs
        exact ⟨_, ⟨s, hs0, hs1, rfl⟩, by rw [hpol s]; dsimp only; linarith⟩
      · rcases max_choice v1.y v2.y with h | h
        · exact ⟨_, h1p, by rw [h]; simpa using hslack⟩
        · exact ⟨_, h2p, by rw [h]; simpa using hslack⟩

/-- **C33** The exact box of a line segment, or of an arc of at most half a circle with separated end
points, contains every point of the segment and each side is touched (up to the angle tolerance of
the code for arcs). -/
theorem C33_exact_box (v1 v2 : Vertex ℝ)
    (h : IsLine v1 ∨ (ProperArc v1 v2 ∧ v1.pos.fuzzyEq v2.pos = false)) :
    (∀ pt, OnSeg v1 v2 pt → (segBoundingBox v1 v2).Contains pt) ∧
    (segBoundingBox v1 v2).TouchedBy (boxSlack v1 v2) (OnSeg v1 v2) := by
  rcases h with h | ⟨h, hf⟩
  · unfold segBoundingBox
    rw [bulgeIsZero_true h, if_pos rfl, minMax_eq, minMax_eq]
    constructor
    · rintro pt ⟨t, h0, h1, rfl⟩
      rw [segCurve_line h]
      have hx := line_between v1.x v2.x h0 h1
      have hy := line_between v1.y v2.y h0 h1
      exact ⟨hx.1, hx.2, hy.1, hy.2⟩
    · have e1 : OnSeg v1 v2 v1.pos := ⟨0, le_refl _, zero_le_one, (segCurve_ends v1 v2).1.symm⟩
      have e2 : OnSeg v1 v2 v2.pos := ⟨1, zero_le_one, le_refl _, (segCurve_ends v1 v2).2.symm⟩
      have hs : boxSlack v1 v2 = 0 := by unfold boxSlack; rw [if_pos h]
      rw [hs]
      unfold AABB.TouchedBy
      simp only [add_zero, sub_zero]
      refine ⟨?_, ?_, ?_, ?_⟩
      · rcases min_choice v1.x v2.x with h | h
        · exact ⟨_, e1, by rw [h]; exact le_refl _⟩
        · exact ⟨_, e2, by rw [h]; exact le_refl _⟩
      · rcases max_choice v1.x v2.x with h | h
        · exact ⟨_, e1, by rw [h]; exact le_refl _⟩
        · exact ⟨_, e2, by rw [h]; exact le_refl _⟩
      · rcases min_choice v1.y v2.y with h | h
        · exact ⟨_, e1, by rw [h]; exact le_refl _⟩
        · exact ⟨_, e2, by rw [h]; exact le_refl _⟩
      · rcases max_choice v1.y v2.y with h | h
        · exact ⟨_, e1, by rw [h]; exact le_refl _⟩
        · exact ⟨_, e2, by rw [h]; exact le_refl _⟩
  · unfold segBoundingBox
    rw [bulgeIsZero_false h.notLine]
    simp only [Bool.false_eq_true, if_false]
    have := arcBox_spec v1 v2 h hf
    have hs : boxSlack v1 v2 = arcRadius v1.pos v2.pos v1.bulge * ((1 / 100000000) ^ 2 / 2) := by
      unfold boxSlack; rw [if_neg h.notLine]
    rw [hs]
    have hset : OnSeg v1 v2 = fun pt => ∃ t, 0 ≤ t ∧ t ≤ 1 ∧ pt = arcPoint v1.pos v2.pos v1.bulge t := by
      funext pt
      unfold OnSeg
      simp only [segCurve_arc h.notLine]
    rw [hset]
    refine ⟨?_, this.2⟩
    rintro pt ⟨t, h0, h1, rfl⟩
    exact this.1 t h0 h1

/-- the rectangle over the chord -/
theorem fastBox_pos (p q : V2 ℝ) (b t : ℝ) (hb0 : 0 < b) (hb1 : b ≤ 1) (ht0 : 0 ≤ t) (ht1 : t ≤ 1) :
    ∃ u s, 0 ≤ u ∧ u ≤ 1 ∧ 0 ≤ s ∧ s ≤ 1 ∧
      arcPoint p q b t = ⟨p.x + u * (q.x - p.x) + s * (b * (q.y - p.y) / 2),
        p.y + u * (q.y - p.y) + s * (-b * (q.x - p.x) / 2)⟩ := by
  obtain ⟨h1, h2, h3, h4⟩ := chord_coords hb0 hb1 ht0 ht1
  refine ⟨_, _ / (b / 2), h1, h2, div_nonneg h3 (by positivity), (div_le_one (by positivity)).mpr h4, ?_⟩
  have := arcPoint_chord p q b t hb0.ne'
  dsimp only at this
  rw [this, V2.ext_iff']
  have hb : b ≠ 0 := hb0.ne'
  dsimp only
  constructor
  · congr 1
    field_simp
  · rw [sub_eq_add_neg]
    congr 1
    field_simp

theorem bilinear_between (a b o : ℝ) {u s : ℝ} (hu0 : 0 ≤ u) (hu1 : u ≤ 1) (hs0 : 0 ≤ s) (hs1 : s ≤ 1) :
    min (min a b) (min (a + o) (b + o)) ≤ a + u * (b - a) + s * o ∧
      a + u * (b - a) + s * o ≤ max (max a b) (max (a + o) (b + o)) := by
  have h := line_between a b hu0 hu1
  rw [min_add_add_right, max_add_add_right]
  rcases le_total 0 o with ho | ho
  · constructor
    · exact min_le_of_left_le (by nlinarith [h.1])
    · exact le_max_of_le_right (by nlinarith [h.2])
  · constructor
    · exact min_le_of_right_le (by nlinarith [h.1])
    · exact le_max_of_le_left (by nlinarith [h.2])

/-- **C33** The fast box contains every point of the segment, lines and arcs of at most half a
circle (also with coinciding end points). -/
theorem C33_fast_box (v1 v2 : Vertex ℝ) (h : IsLine v1 ∨ |v1.bulge| ≤ 1) (pt : V2 ℝ)
    (hpt : OnSeg v1 v2 pt) : (segFastApproxBoundingBox v1 v2).Contains pt := by
  obtain ⟨t, h0, h1, rfl⟩ := hpt
  unfold segFastApproxBoundingBox
  by_cases hl : IsLine v1
  · rw [bulgeIsZero_true hl, if_pos rfl, segCurve_line hl, minMax_eq, minMax_eq]
    have hx := line_between v1.x v2.x h0 h1
    have hy := line_between v1.y v2.y h0 h1
    exact ⟨hx.1, hx.2, hy.1, hy.2⟩
  · have hb := h.resolve_left hl
    rw [bulgeIsZero_false hl, segCurve_arc hl]
    simp only [Bool.false_eq_true, if_false, minMax_eq, two_eq, min_eq, max_eq]
    unfold AABB.Contains
    dsimp only
    rcases lt_or_gt_of_ne (bulge_ne_zero hl) with hn | hp
    · have hsw := arcPoint_swap v2.pos v1.pos (-v1.bulge) t (by linarith)
      rw [neg_neg] at hsw
      obtain ⟨u, s, hu0, hu1, hs0, hs1, e⟩ := fastBox_pos v2.pos v1.pos (-v1.bulge) (1 - t)
        (by linarith) (by rw [abs_of_neg hn] at hb; exact hb) (by linarith) (by linarith)
      rw [hsw, e]
      simp only [Vertex.pos_x, Vertex.pos_y]
      have bx := bilinear_between v2.x v1.x (v1.bulge * (v2.y - v1.y) / 2) hu0 hu1 hs0 hs1
      have bY := bilinear_between v2.y v1.y (-v1.bulge * (v2.x - v1.x) / 2) hu0 hu1 hs0 hs1
      rw [min_comm v2.x, min_comm (v2.x + _), max_comm v2.x, max_comm (v2.x + _)] at bx
      rw [min_comm v2.y, min_comm (v2.y + _), max_comm v2.y, max_comm (v2.y + _)] at bY
      rw [show -v1.bulge * (v1.y - v2.y) / 2 = v1.bulge * (v2.y - v1.y) / 2 by ring,
        show - -v1.bulge * (v1.x - v2.x) / 2 = -v1.bulge * (v2.x - v1.x) / 2 by ring]
      exact ⟨bx.1, bx.2, bY.1, bY.2⟩
    · obtain ⟨u, s, hu0, hu1, hs0, hs1, e⟩ := fastBox_pos v1.pos v2.pos v1.bulge t hp
        (by rw [abs_of_pos hp] at hb; exact hb) h0 h1
      rw [e]
      simp only [Vertex.pos_x, Vertex.pos_y]
      have bx := bilinear_between v1.x v2.x (v1.bulge * (v2.y - v1.y) / 2) hu0 hu1 hs0 hs1
      have bY := bilinear_between v1.y v2.y (-v1.bulge * (v2.x - v1.x) / 2) hu0 hu1 hs0 hs1
      exact ⟨bx.1, bx.2, bY.1, bY.2⟩

/-- **C33** The exact box is inside the fast one, up to the angle tolerance of the exact one. -/
theorem C33_exact_in_fast (v1 v2 : Vertex ℝ)
    (h : IsLine v1 ∨ (ProperArc v1 v2 ∧ v1.pos.fuzzyEq v2.pos = false)) (pt : V2 ℝ)
    (hpt : (segBoundingBox v1 v2).Contains pt) :
    (segFastApproxBoundingBox v1 v2).ContainsWithin (boxSlack v1 v2) pt := by
  have hf := C33_fast_box v1 v2 (h.imp_right fun h => h.1.half)
  obtain ⟨-, ⟨a, ha, ha'⟩, ⟨b, hb, hb'⟩, ⟨c, hc, hc'⟩, ⟨d, hd, hd'⟩⟩ := C33_exact_box v1 v2 h
  have := (hf a ha).1
  have := (hf b hb).2.1
  have := (hf c hc).2.2.1
  have := (hf d hd).2.2.2
  obtain ⟨h1, h2, h3, h4⟩ := hpt
  exact ⟨by linarith, by linarith, by linarith, by linarith⟩


/-- **C33** An arc whose end points coincide for the code gets a box of one point; the arc is within
`1.5e-8` of it. -/
theorem C33_tiny_arc (v1 v2 : Vertex ℝ) (hl : ¬ IsLine v1) (hb : |v1.bulge| ≤ 1)
    (hf : v1.pos.fuzzyEq v2.pos = true) (pt : V2 ℝ) (hpt : OnSeg v1 v2 pt) :
    segBoundingBox v1 v2 = ⟨v1.x, v1.y, v1.x, v1.y⟩ ∧
      (segBoundingBox v1 v2).ContainsWithin (3 / 200000000) pt := by
  have hbox : segBoundingBox v1 v2 = ⟨v1.x, v1.y, v1.x, v1.y⟩ := by
    unfold segBoundingBox arcSegBoundingBox
    rw [bulgeIsZero_false hl, hf]
    simp
  refine ⟨hbox, ?_⟩
  rw [hbox]
  have hfast := C33_fast_box v1 v2 (Or.inr hb) pt hpt
  have hd : |v1.x - v2.x| < 1 / 100000000 ∧ |v1.y - v2.y| < 1 / 100000000 :=
    (V2.fuzzyEqEps_iff _ _ _).mp hf
  obtain ⟨hdx, hdy⟩ := hd
  rw [abs_lt] at hdx hdy
  rw [abs_le] at hb
  unfold segFastApproxBoundingBox at hfast
  rw [bulgeIsZero_false hl] at hfast
  simp only [Bool.false_eq_true, if_false, minMax_eq, two_eq, min_eq, max_eq] at hfast
  obtain ⟨h1, h2, h3, h4⟩ := hfast
  have ex1 : -(1 / 200000000) ≤ v1.bulge * (v2.y - v1.y) / 2 := by nlinarith
  have ex2 : v1.bulge * (v2.y - v1.y) / 2 ≤ 1 / 200000000 := by nlinarith
  have ey1 : -(1 / 200000000) ≤ -v1.bulge * (v2.x - v1.x) / 2 := by nlinarith
  have ey2 : -v1.bulge * (v2.x - v1.x) / 2 ≤ 1 / 200000000 := by nlinarith
  unfold AABB.ContainsWithin
  dsimp only at h1 h2 h3 h4 ⊢
  simp only [min_le_iff, le_max_iff] at h1 h2 h3 h4
  refine ⟨?_, ?_, ?_, ?_⟩
  · rcases h1 with (h | h) | (h | h) <;> linarith
  · rcases h2 with (h | h) | (h | h) <;> linarith
  · rcases h3 with (h | h) | (h | h) <;> linarith
  · rcases h4 with (h | h) | (h | h) <;> linarith

/-- A half circle meets the hypotheses of the box theorems. -/
example : ProperArc ⟨0, 0, 1⟩ ⟨2, 0, 0⟩ ∧ (⟨0, 0, 1⟩ : Vertex ℝ).pos.fuzzyEq (⟨2, 0, 0⟩ : Vertex ℝ).pos = false := by
  constructor
  · exact ⟨by unfold IsLine; norm_num, by norm_num, by rw [Ne, V2.ext_iff']; simp [Vertex.pos]⟩
  · rw [Bool.eq_false_iff, Ne, V2.fuzzyEq, V2.fuzzyEqEps_iff]
    simp [Vertex.pos]
    norm_num

/-! ## C18 -/

/-- **C18** The approximate index of a polyline announces and holds one box per segment, and box `i`
contains every point of segment `i`. -/
theorem C18_approx_index (p : Pline ℝ) :
    p.approxAabbBoxes.1 = p.segmentCount ∧ p.approxAabbBoxes.2.length = p.segmentCount ∧
    ∀ (i : Nat) (s : Vertex ℝ × Vertex ℝ), p.segs[i]? = some s → (IsLine s.1 ∨ |s.1.bulge| ≤ 1) →
      ∃ B, p.approxAabbBoxes.2[i]? = some B ∧ ∀ pt, OnSeg s.1 s.2 pt → B.Contains pt := by
  have hlen := segs_length p
  unfold approxAabbBoxes segmentCount vertexCount at *
  dsimp only at *
  split_ifs at * with h2 hc
  · have : p.segs = [] := List.eq_nil_of_length_eq_zero hlen
    rw [this]; simp
  · refine ⟨rfl, by simpa using hlen, ?_⟩
    intro i s hs hb
    exact ⟨_, by simp [hs], fun pt hpt => C33_fast_box s.1 s.2 hb pt hpt⟩
  · refine ⟨rfl, by simpa using hlen, ?_⟩
    intro i s hs hb
    exact ⟨_, by simp [hs], fun pt hpt => C33_fast_box s.1 s.2 hb pt hpt⟩

/-- **C18** The exact index likewise. -/
theorem C18_exact_index (p : Pline ℝ) :
    p.aabbBoxes.1 = p.segmentCount ∧ p.aabbBoxes.2.length = p.segmentCount ∧
    ∀ (i : Nat) (s : Vertex ℝ × Vertex ℝ), p.segs[i]? = some s →
      (IsLine s.1 ∨ (ProperArc s.1 s.2 ∧ s.1.pos.fuzzyEq s.2.pos = false)) →
      ∃ B, p.aabbBoxes.2[i]? = some B ∧ (∀ pt, OnSeg s.1 s.2 pt → B.Contains pt) ∧
        B.TouchedBy (boxSlack s.1 s.2) (OnSeg s.1 s.2) := by
  have hlen := segs_length p
  unfold aabbBoxes segmentCount vertexCount at *
  dsimp only at *
  split_ifs at * with h2 hc
  · have : p.segs = [] := List.eq_nil_of_length_eq_zero hlen
    rw [this]; simp
  · refine ⟨rfl, by simpa using hlen, ?_⟩
    intro i s hs hb
    exact ⟨_, by simp [hs], C33_exact_box s.1 s.2 hb⟩
  · refine ⟨rfl, by simpa using hlen, ?_⟩
    intro i s hs hb
    exact ⟨_, by simp [hs], C33_exact_box s.1 s.2 hb⟩

/-! ## C17 -/

/-- union of two boxes by coordinates -/
theorem Contains_mono {B C : AABB ℝ} {pt : V2 ℝ} (h : B.Contains pt) (h1 : C.minX ≤ B.minX)
    (h2 : C.minY ≤ B.minY) (h3 : B.maxX ≤ C.maxX) (h4 : B.maxY ≤ C.maxY) : C.Contains pt := by
  obtain ⟨a, b, c, d⟩ := h
  exact ⟨by linarith, by linarith, by linarith, by linarith⟩

/-- one step of `extents`, as the union with the box of the segment -/
theorem extentsStep_eq (r : AABB ℝ) (s : Vertex ℝ × Vertex ℝ) (hr : r.Contains s.1.pos) :
    extentsStep r s = ⟨min r.minX (segBoundingBox s.1 s.2).minX, min r.minY (segBoundingBox s.1 s.2).minY,
      max r.maxX (segBoundingBox s.1 s.2).maxX, max r.maxY (segBoundingBox s.1 s.2).maxY⟩ := by
  obtain ⟨v1, v2⟩ := s
  obtain ⟨a, b, c, d⟩ := r
  obtain ⟨h1, h2, h3, h4⟩ := hr
  simp only [Vertex.pos_x, Vertex.pos_y] at h1 h2 h3 h4
  unfold extentsStep segBoundingBox
  dsimp only
  cases v1.bulgeIsZero with
  | false => simp
  | true =>
    simp only [if_true, minMax_eq]
    have key : ∀ lo hi x y : ℝ, lo ≤ x → x ≤ hi →
        (if y < lo then (y, hi) else if hi < y then (lo, y) else (lo, hi))
          = (min lo (min x y), max hi (max x y)) := by
      intro lo hi x y hx hy
      split_ifs with h1 h2
      · rw [min_eq_right (a := x) (by linarith), min_eq_right h1.le, max_eq_left (a := x) (by linarith),
          max_eq_left hy]
      · rw [min_eq_left (a := x) (by linarith), min_eq_left hx, max_eq_right (a := x) (by linarith),
          max_eq_right h2.le]
      · push Not at h1 h2
        rw [min_eq_left (le_min hx h1), max_eq_left (max_le hy h2)]
    have kx := key a c v1.x v2.x h1 h2
    have ky := key b d v1.y v2.y h3 h4
    simp only [lt_eq, gt_eq, decide_eq_true_eq]
    rw [Prod.ext_iff] at kx ky
    obtain ⟨kx1, kx2⟩ := kx
    obtain ⟨ky1, ky2⟩ := ky
    dsimp only at kx1 kx2 ky1 ky2
    rw [← kx1, ← kx2, ← ky1, ← ky2]
    split_ifs <;> first | rfl | (exfalso; simp_all; done)

/-- `OnSeg` at the ends -/
theorem onSeg_start (v1 v2 : Vertex ℝ) : OnSeg v1 v2 v1.pos :=
  ⟨0, le_refl _, zero_le_one, (segCurve_ends v1 v2).1.symm⟩
theorem onSeg_end (v1 v2 : Vertex ℝ) : OnSeg v1 v2 v2.pos :=
  ⟨1, zero_le_one, le_refl _, (segCurve_ends v1 v2).2.symm⟩

/-- segments whose box is exact: lines, and arcs of at most half a circle with separated ends -/
def BoxedSeg (s : Vertex ℝ × Vertex ℝ) : Prop :=
  IsLine s.1 ∨ (ProperArc s.1 s.2 ∧ s.1.pos.fuzzyEq s.2.pos = false)

theorem extents_fold : ∀ (l : List (Vertex ℝ)) (v : Vertex ℝ) (r : AABB ℝ), r.Contains v.pos →
    (∀ s ∈ pathSegs (v :: l), BoxedSeg s) →
    let B := (pathSegs (v :: l)).foldl extentsStep r
    (∀ pt, r.Contains pt → B.Contains pt) ∧
    (∀ s ∈ pathSegs (v :: l), ∀ pt, OnSeg s.1 s.2 pt → B.Contains pt) ∧
    (B.minX = r.minX ∨ ∃ s ∈ pathSegs (v :: l), B.minX = (segBoundingBox s.1 s.2).minX) ∧
    (B.maxX = r.maxX ∨ ∃ s ∈ pathSegs (v :: l), B.maxX = (segBoundingBox s.1 s.2).maxX) ∧
    (B.minY = r.minY ∨ ∃ s ∈ pathSegs (v :: l), B.minY = (segBoundingBox s.1 s.2).minY) ∧
    (B.maxY = r.maxY ∨ ∃ s ∈ pathSegs (v :: l), B.maxY = (segBoundingBox s.1 s.2).maxY)
  | [], v, r, _, _ => by simp [pathSegs]
  | w :: l, v, r, hr, hb => by
    intro B
    have hps : pathSegs (v :: w :: l) = (v, w) :: pathSegs (w :: l) := rfl
    rw [hps] at hb
    have hstep := extentsStep_eq r (v, w) hr
    have hbox := (C33_exact_box v w (hb (v, w) (by simp))).1
    have hsub : ∀ pt, r.Contains pt → (extentsStep r (v, w)).Contains pt := by
      intro pt h
      rw [hstep]
      exact Contains_mono h (min_le_left _ _) (min_le_left _ _) (le_max_left _ _) (le_max_left _ _)
    have hseg : ∀ pt, OnSeg v w pt → (extentsStep r (v, w)).Contains pt := by
      intro pt h
      rw [hstep]
      exact Contains_mono (hbox pt h) (min_le_right _ _) (min_le_right _ _) (le_max_right _ _)
        (le_max_right _ _)
    obtain ⟨i1, i2, i3, i4, i5, i6⟩ := extents_fold l w (extentsStep r (v, w)) (hseg _ (onSeg_end v w))
      (fun s hs => hb s (by simp [hs]))
    have hB : B = (pathSegs (w :: l)).foldl extentsStep (extentsStep r (v, w)) := by
      show (pathSegs (v :: w :: l)).foldl extentsStep r = _
      rw [hps]; rfl
    rw [hB, hps]
    refine ⟨fun pt h => i1 pt (hsub pt h), ?_, ?_, ?_, ?_, ?_⟩
    · intro s hs pt hpt
      rcases List.mem_cons.mp hs with rfl | hs
      · exact i1 pt (hseg pt hpt)
      · exact i2 s hs pt hpt
    · rcases i3 with h | ⟨s, hs, h⟩
      · rw [h, hstep]
        dsimp only
        rcases min_choice r.minX (segBoundingBox v w).minX with h' | h'
        · exact Or.inl h'
        · exact Or.inr ⟨(v, w), by simp, h'⟩
      · exact Or.inr ⟨s, by simp [hs], h⟩
    · rcases i4 with h | ⟨s, hs, h⟩
      · rw [h, hstep]
        dsimp only
        rcases max_choice r.maxX (segBoundingBox v w).maxX with h' | h'
        · exact Or.inl h'
        · exact Or.inr ⟨(v, w), by simp, h'⟩
      · exact Or.inr ⟨s, by simp [hs], h⟩
    · rcases i5 with h | ⟨s, hs, h⟩
      · rw [h, hstep]
        dsimp only
        rcases min_choice r.minY (segBoundingBox v w).minY with h' | h'
        · exact Or.inl h'
        · exact Or.inr ⟨(v, w), by simp, h'⟩
      · exact Or.inr ⟨s, by simp [hs], h⟩
    · rcases i6 with h | ⟨s, hs, h⟩
      · rw [h, hstep]
        dsimp only
        rcases max_choice r.maxY (segBoundingBox v w).maxY with h' | h'
        · exact Or.inl h'
        · exact Or.inr ⟨(v, w), by simp, h'⟩
      · exact Or.inr ⟨s, by simp [hs], h⟩

/-- **C17** `extents` is `None` exactly for a polyline without segments.  Otherwise the box contains
every point of the polyline and each side is touched by a point of the polyline (exactly, if all
segments are lines; up to the angle tolerance of the arc that sets the side otherwise). -/
theorem C17_extents (p : Pline ℝ) (h : ∀ s ∈ p.segs, BoxedSeg s) :
    ∃ r, p.extents = .ok r ∧ (r = none ↔ p.segmentCount = 0) ∧
      ∀ B, r = some B → (∀ pt, OnPline p pt → B.Contains pt) ∧
        (∃ s ∈ p.segs, ∃ pt, OnSeg s.1 s.2 pt ∧ pt.x ≤ B.minX + boxSlack s.1 s.2) ∧
        (∃ s ∈ p.segs, ∃ pt, OnSeg s.1 s.2 pt ∧ B.maxX - boxSlack s.1 s.2 ≤ pt.x) ∧
        (∃ s ∈ p.segs, ∃ pt, OnSeg s.1 s.2 pt ∧ pt.y ≤ B.minY + boxSlack s.1 s.2) ∧
        (∃ s ∈ p.segs, ∃ pt, OnSeg s.1 s.2 pt ∧ B.maxY - boxSlack s.1 s.2 ≤ pt.y) := by
  unfold extents
  by_cases h0 : p.segmentCount = 0
  · rw [if_pos h0]
    exact ⟨none, rfl, by simp [h0], fun B hB => by simp at hB⟩
  rw [if_neg h0]
  obtain ⟨a, b, ha, hb, hab⟩ := segs_getElem? p 0 (by omega)
  have hchain : ∃ l, p.loopVerts = a :: l ∧ p.segs = pathSegs (a :: l) := by
    rw [segs_eq]
    unfold loopVerts
    obtain ⟨r, hr⟩ : ∃ r, p.verts = a :: r := by
      cases hv : p.verts with
      | nil => rw [hv] at ha; simp at ha
      | cons c r => rw [hv] at ha; simp at ha; exact ⟨r, by rw [ha]⟩
    rw [hr]
    cases r with
    | nil =>
      exfalso
      apply h0
      unfold segmentCount vertexCount
      rw [hr]; rfl
    | cons b' r =>
      rw [if_neg (by simp)]
      split_ifs <;> exact ⟨_, rfl, rfl⟩
  obtain ⟨l, hl, hsegs⟩ := hchain
  rw [at_ok ha]
  simp only [bind, Except.bind]
  refine ⟨_, rfl, by simp [h0], ?_⟩
  intro B hB
  simp only [Option.some.injEq] at hB
  have hr : (⟨a.x, a.y, a.x, a.y⟩ : AABB ℝ).Contains a.pos :=
    ⟨le_refl _, le_refl _, le_refl _, le_refl _⟩
  have hmem : (a, b) ∈ p.segs := List.mem_of_getElem? hab
  rw [hsegs] at h hmem hB
  obtain ⟨i1, i2, i3, i4, i5, i6⟩ := extents_fold l a _ hr h
  rw [hB] at i1 i2 i3 i4 i5 i6
  rw [hsegs]
  have hs0 := boxSlack_nonneg a b
  refine ⟨?_, ?_, ?_, ?_, ?_⟩
  · rintro pt ⟨s, hs, hpt⟩
    rw [hsegs] at hs
    exact i2 s hs pt hpt
  · rcases i3 with h' | ⟨s, hs, h'⟩
    · exact ⟨_, hmem, _, onSeg_start a b, by rw [h']; simpa using hs0⟩
    · obtain ⟨-, ⟨pt, h1, h2⟩, -⟩ := C33_exact_box s.1 s.2 (h s hs)
      exact ⟨s, hs, pt, h1, by rw [h']; exact h2⟩
  · rcases i4 with h' | ⟨s, hs, h'⟩
    · exact ⟨_, hmem, _, onSeg_start a b, by rw [h']; simpa using hs0⟩
    · obtain ⟨-, -, ⟨pt, h1, h2⟩, -⟩ := C33_exact_box s.1 s.2 (h s hs)
      exact ⟨s, hs, pt, h1, by rw [h']; exact h2⟩
  · rcases i5 with h' | ⟨s, hs, h'⟩
    · exact ⟨_, hmem, _, onSeg_start a b, by rw [h']; simpa using hs0⟩
    · obtain ⟨-, -, -, ⟨pt, h1, h2⟩, -⟩ := C33_exact_box s.1 s.2 (h s hs)
      exact ⟨s, hs, pt, h1, by rw [h']; exact h2⟩
  · rcases i6 with h' | ⟨s, hs, h'⟩
    · exact ⟨_, hmem, _, onSeg_start a b, by rw [h']; simpa using hs0⟩
    · obtain ⟨-, -, -, -, ⟨pt, h1, h2⟩⟩ := C33_exact_box s.1 s.2 (h s hs)
      exact ⟨s, hs, pt, h1, by rw [h']; exact h2⟩

/-- A closed polyline of two half circle arcs and one with lines meet the hypotheses. -/
example : (∀ s ∈ (⟨[⟨0, 0, 1⟩, ⟨2, 0, 1⟩], true⟩ : Pline ℝ).segs, BoxedSeg s) ∧
    (⟨[⟨0, 0, 1⟩, ⟨2, 0, 1⟩], true⟩ : Pline ℝ).segmentCount ≠ 0 := by
  constructor
  · intro s hs
    simp [segs, pathSegs] at hs
    rcases hs with rfl | rfl
    · right
      refine ⟨⟨by unfold IsLine; norm_num, by norm_num, by rw [Ne, V2.ext_iff']; simp [Vertex.pos]⟩, ?_⟩
      rw [Bool.eq_false_iff, Ne, V2.fuzzyEq, V2.fuzzyEqEps_iff]
      simp [Vertex.pos]
      norm_num
    · right
      refine ⟨⟨by unfold IsLine; norm_num, by norm_num, by rw [Ne, V2.ext_iff']; simp [Vertex.pos]⟩, ?_⟩
      rw [Bool.eq_false_iff, Ne, V2.fuzzyEq, V2.fuzzyEqEps_iff]
      simp [Vertex.pos]
      norm_num
  · simp [segmentCount, vertexCount]

end Cavc
