import Verif.Lemmas.OffsetStraight

/-! # Distances at a corner -/

set_option linter.unusedVariables false

namespace Cavc

/-- how far `X` is ahead of `v` in the direction from `a` to `b` -/
noncomputable def fwd (a b v X : V2 ℝ) : ℝ := (X.x - v.x) * ((b.x - a.x) / edist a b) + (X.y - v.y) * ((b.y - a.y) / edist a b)

/-- how far `X` is to the left of `v`, seen in the direction from `a` to `b` -/
noncomputable def lft (a b v X : V2 ℝ) : ℝ := (X.y - v.y) * ((b.x - a.x) / edist a b) - (X.x - v.x) * ((b.y - a.y) / edist a b)

/-- every point of the straight segment from `a` to `b` is at least `r` away from `X` -/
def FarSide (r : ℝ) (X a b : V2 ℝ) : Prop := ∀ u, 0 ≤ u → u ≤ 1 → r ≤ edist X (linePoint a b u)

theorem fwd_lft_sq {a b : V2 ℝ} (h : a ≠ b) (v X : V2 ℝ) : fwd a b v X ^ 2 + lft a b v X ^ 2 = edist X v ^ 2 := by
  have := unit_sq h
  rw [edist_sq]
  unfold fwd lft
  linear_combination ((X.x - v.x) ^ 2 + (X.y - v.y) ^ 2) * this

theorem fwd_lft_ext {a b : V2 ℝ} (h : a ≠ b) {v X Y : V2 ℝ} (h1 : fwd a b v X = fwd a b v Y) (h2 : lft a b v X = lft a b v Y) : X = Y := by
  have hu := unit_sq h
  unfold fwd at h1
  unfold lft at h2
  set x := (b.x - a.x) / edist a b
  set y := (b.y - a.y) / edist a b
  rw [V2.ext_iff']
  constructor
  · linear_combination x * h1 - y * h2 + (Y.x - X.x) * hu
  · linear_combination y * h1 + x * h2 + (Y.y - X.y) * hu

theorem dir_eq {a b : V2 ℝ} (h : a ≠ b) : b.x - a.x = (b.x - a.x) / edist a b * edist a b ∧ b.y - a.y = (b.y - a.y) / edist a b * edist a b := by
  have := (edist_pos_sq h).1.ne'
  constructor <;> field_simp

theorem moved_frame {a b : V2 ℝ} (h : a ≠ b) (d u : ℝ) :
    fwd a b a (moved a b d u) = u * edist a b ∧ lft a b a (moved a b d u) = d ∧
    fwd a b b (moved a b d u) = -((1 - u) * edist a b) ∧ lft a b b (moved a b d u) = d := by
  have hu := unit_sq h
  obtain ⟨hx, hy⟩ := dir_eq h
  unfold fwd lft moved
  dsimp only
  set x := (b.x - a.x) / edist a b
  set y := (b.y - a.y) / edist a b
  refine ⟨?_, ?_, ?_, ?_⟩
  · linear_combination u * edist a b * hu + u * x * hx + u * y * hy
  · linear_combination d * hu + u * x * hy - u * y * hx
  · linear_combination (u - 1) * edist a b * hu + (u - 1) * x * hx + (u - 1) * y * hy
  · linear_combination d * hu + (u - 1) * x * hy - (u - 1) * y * hx

theorem moved_dist {a b : V2 ℝ} (h : a ≠ b) (d u : ℝ) : edist (moved a b d u) b ^ 2 = ((1 - u) * edist a b) ^ 2 + d ^ 2 := by
  obtain ⟨-, -, h1, h2⟩ := moved_frame h d u
  rw [← fwd_lft_sq h, h1, h2]; ring

/-- the frame of the next side -/
theorem frame_turn {a v b : V2 ℝ} (h1 : a ≠ v) (h2 : v ≠ b) (X : V2 ℝ) :
    fwd v b v X = turnCos a v b * fwd a v v X + turnSin a v b * lft a v v X ∧
    lft v b v X = -turnSin a v b * fwd a v v X + turnCos a v b * lft a v v X := by
  have hu := unit_sq h1
  unfold fwd lft turnSin turnCos
  set x1 := (v.x - a.x) / edist a v
  set y1 := (v.y - a.y) / edist a v
  set x2 := (b.x - v.x) / edist v b
  set y2 := (b.y - v.y) / edist v b
  constructor
  · linear_combination (-((X.x - v.x) * x2 + (X.y - v.y) * y2)) * hu
  · linear_combination (-((X.y - v.y) * x2 - (X.x - v.x) * y2)) * hu

theorem side_dist_start {a b : V2 ℝ} (h : a ≠ b) (X : V2 ℝ) (u : ℝ) :
    edist X (linePoint a b u) ^ 2 = edist X a ^ 2 - 2 * (u * edist a b) * fwd a b a X + (u * edist a b) ^ 2 := by
  have hu := unit_sq h
  obtain ⟨hx, hy⟩ := dir_eq h
  rw [edist_sq, edist_sq]
  unfold fwd linePoint
  dsimp only
  set x := (b.x - a.x) / edist a b
  set y := (b.y - a.y) / edist a b
  rw [hx, hy]
  linear_combination (u * edist a b) ^ 2 * hu

theorem side_dist_stop {a b : V2 ℝ} (h : a ≠ b) (X : V2 ℝ) (u : ℝ) :
    edist X (linePoint a b u) ^ 2 = edist X b ^ 2 + 2 * ((1 - u) * edist a b) * fwd a b b X + ((1 - u) * edist a b) ^ 2 := by
  have hu := unit_sq h
  obtain ⟨hx, hy⟩ := dir_eq h
  rw [edist_sq, edist_sq]
  unfold fwd linePoint
  dsimp only
  set x := (b.x - a.x) / edist a b
  set y := (b.y - a.y) / edist a b
  have ex : b.x = a.x + x * edist a b := by linarith
  have ey : b.y = a.y + y * edist a b := by linarith
  rw [ex, ey]
  linear_combination ((1 - u) * edist a b) ^ 2 * hu

theorem far_start {a b : V2 ℝ} (h : a ≠ b) {r : ℝ} (hr : 0 ≤ r) (X : V2 ℝ) :
    FarSide r X a b ↔ ∀ w, 0 ≤ w → w ≤ edist a b → r ^ 2 ≤ edist X a ^ 2 - 2 * w * fwd a b a X + w ^ 2 := by
  have hp := (edist_pos_sq h).1
  constructor
  · intro hf w h0 h1
    have := hf (w / edist a b) (by positivity) (by rw [div_le_one hp]; exact h1)
    have hsq := pow_le_pow_left₀ hr this 2
    rw [side_dist_start h] at hsq
    rwa [div_mul_cancel₀ _ hp.ne'] at hsq
  · intro hf u h0 h1
    have := hf (u * edist a b) (by positivity) (by nlinarith)
    rw [← side_dist_start h] at this
    exact (pow_le_pow_iff_left₀ hr (Real.sqrt_nonneg _) (by norm_num)).mp this

theorem far_stop {a b : V2 ℝ} (h : a ≠ b) {r : ℝ} (hr : 0 ≤ r) (X : V2 ℝ) :
    FarSide r X a b ↔ ∀ w, 0 ≤ w → w ≤ edist a b → r ^ 2 ≤ edist X b ^ 2 + 2 * w * fwd a b b X + w ^ 2 := by
  have hp := (edist_pos_sq h).1
  constructor
  · intro hf w h0 h1
    have := hf (1 - w / edist a b) (by rw [sub_nonneg, div_le_one hp]; exact h1) (by
      have : 0 ≤ w / edist a b := by positivity
      linarith)
    have hsq := pow_le_pow_left₀ hr this 2
    rw [side_dist_stop h] at hsq
    have e : (1 - (1 - w / edist a b)) * edist a b = w := by field_simp; ring
    rwa [e] at hsq
  · intro hf u h0 h1
    have := hf ((1 - u) * edist a b) (by have : 0 ≤ 1 - u := by linarith
                                         positivity) (by nlinarith)
    rw [← side_dist_stop h] at this
    exact (pow_le_pow_iff_left₀ hr (Real.sqrt_nonneg _) (by norm_num)).mp this

/-! ## Walking backwards -/

theorem linePoint_rev (a b : V2 ℝ) (u : ℝ) : linePoint b a (1 - u) = linePoint a b u := by
  rw [V2.ext_iff']; simp only [linePoint]; constructor <;> ring

theorem edist_rev (a b : V2 ℝ) : edist b a = edist a b := by
  unfold edist; congr 1; ring

theorem moved_rev (a b : V2 ℝ) (d u : ℝ) : moved b a (-d) (1 - u) = moved a b d u := by
  rw [V2.ext_iff']
  simp only [moved, edist_rev a b]
  constructor <;> ring

theorem farSide_rev {r : ℝ} {X a b : V2 ℝ} : FarSide r X b a ↔ FarSide r X a b := by
  constructor <;>
  · intro h u h0 h1
    have := h (1 - u) (by linarith) (by linarith)
    rwa [linePoint_rev] at this

theorem turnSin_rev (a v b : V2 ℝ) : turnSin b v a = -turnSin a v b := by
  unfold turnSin
  rw [edist_rev v b, edist_rev a v]
  ring

theorem turnCos_rev (a v b : V2 ℝ) : turnCos b v a = turnCos a v b := by
  unfold turnCos
  rw [edist_rev v b, edist_rev a v]
  ring

theorem setback_rev (a v b : V2 ℝ) (d : ℝ) : setback b v a (-d) = setback a v b d := by
  unfold setback
  rw [turnSin_rev, turnCos_rev]
  ring

/-! ## Corners -/

section
variable {a v b : V2 ℝ} {d : ℝ}

theorem setback_sign (h1 : a ≠ v) (h2 : v ≠ b) (hs : turnSin a v b ≠ 0) :
    (0 < setback a v b d ↔ 0 < d * turnSin a v b) ∧ (setback a v b d < 0 ↔ d * turnSin a v b < 0) := by
  have hc := turn_pos h1 h2 hs
  have e : setback a v b d = d * turnSin a v b / (1 + turnCos a v b) := by unfold setback; ring
  rw [e]
  constructor
  · rw [lt_div_iff₀ hc, zero_mul]
  · rw [div_lt_iff₀ hc, zero_mul]

theorem setback_mul (h1 : a ≠ v) (h2 : v ≠ b) (hs : turnSin a v b ≠ 0) : setback a v b d * (1 + turnCos a v b) = d * turnSin a v b := by
  have hc := (turn_pos h1 h2 hs).ne'
  unfold setback
  field_simp

/-- Points of the moved side behind the mitre are near the next side. -/
theorem mitre_in (h1 : a ≠ v) (h2 : v ≠ b) (hs : turnSin a v b ≠ 0) {u : ℝ} (hu : u ≤ 1) (hb : (1 - u) * edist a v < setback a v b d)
    (hL : setback a v b d ≤ edist v b) : ¬ FarSide |d| (moved a v d u) v b := by
  have p1 := (edist_pos_sq h1).1
  have p2 := (edist_pos_sq h2).1
  have hc := turn_pos h1 h2 hs
  have hq := turn_sq h1 h2
  have hm := setback_mul (d := d) h1 h2 hs
  obtain ⟨-, -, e1, e2⟩ := moved_frame h1 d u
  have hdist := moved_dist h1 d u
  obtain ⟨f1, -⟩ := frame_turn h1 h2 (moved a v d u)
  rw [e1, e2] at f1
  rw [far_start h2 (abs_nonneg d), hdist, f1, sq_abs]
  set s := turnSin a v b
  set c := turnCos a v b
  set m := setback a v b d
  set τ := (1 - u) * edist a v with hτ
  have ht : 0 ≤ τ := mul_nonneg (by linarith) p1.le
  have hφ : c * -τ + s * d = m + c * (m - τ) := by linear_combination -hm
  have hcm : c ≤ 1 := by nlinarith
  rw [hφ]
  push Not
  by_cases hcase : m + c * (m - τ) ≤ edist v b
  · refine ⟨m + c * (m - τ), by nlinarith, hcase, ?_⟩
    have : τ ^ 2 < (m + c * (m - τ)) ^ 2 := by
      apply pow_lt_pow_left₀ _ ht (by norm_num)
      nlinarith
    nlinarith
  · refine ⟨edist v b, p2.le, le_refl _, ?_⟩
    push Not at hcase
    have : τ ^ 2 < edist v b ^ 2 := pow_lt_pow_left₀ (by linarith) ht (by norm_num)
    nlinarith

/-- Points of the moved side before the mitre are not near the next side. -/
theorem mitre_out (h1 : a ≠ v) (h2 : v ≠ b) (hs : turnSin a v b ≠ 0) {u : ℝ} (hm0 : 0 ≤ setback a v b d) (hb : setback a v b d ≤ (1 - u) * edist a v) :
    FarSide |d| (moved a v d u) v b := by
  have hc := turn_pos h1 h2 hs
  have hq := turn_sq h1 h2
  have hm := setback_mul (d := d) h1 h2 hs
  obtain ⟨-, -, e1, e2⟩ := moved_frame h1 d u
  have hdist := moved_dist h1 d u
  obtain ⟨f1, -⟩ := frame_turn h1 h2 (moved a v d u)
  rw [e1, e2] at f1
  rw [far_start h2 (abs_nonneg d), hdist, f1, sq_abs]
  set s := turnSin a v b
  set c := turnCos a v b
  set m := setback a v b d
  set τ := (1 - u) * edist a v with hτ
  intro w _ _
  have key : d ^ 2 ≤ (s * τ + c * d) ^ 2 := by
    have e : s * m + c * d = d := by
      apply mul_right_cancel₀ hc.ne'
      linear_combination s * hm + d * hq
    have e2 : s * τ + c * d = d + s * (τ - m) := by linear_combination e
    have : 0 ≤ d * s := by nlinarith
    rw [e2]
    nlinarith [mul_nonneg this (sub_nonneg.mpr hb), sq_nonneg (s * (τ - m))]
  nlinarith [sq_nonneg (w - (c * -τ + s * d)), key]

/-- On the outer side of a turn the moved side is not near the next side. -/
theorem convex_out (h1 : a ≠ v) (h2 : v ≠ b) (hneg : d * turnSin a v b ≤ 0) {u : ℝ} (hu : u ≤ 1) : FarSide |d| (moved a v d u) v b := by
  have p1 := (edist_pos_sq h1).1
  have hq := turn_sq h1 h2
  obtain ⟨-, -, e1, e2⟩ := moved_frame h1 d u
  have hdist := moved_dist h1 d u
  obtain ⟨f1, -⟩ := frame_turn h1 h2 (moved a v d u)
  rw [e1, e2] at f1
  rw [far_start h2 (abs_nonneg d), hdist, f1, sq_abs]
  set s := turnSin a v b
  set c := turnCos a v b
  set τ := (1 - u) * edist a v with hτ
  have ht : 0 ≤ τ := mul_nonneg (by linarith) p1.le
  intro w hw _
  have h1c : -1 ≤ c := by nlinarith
  nlinarith [mul_nonneg (mul_nonneg hw ht) (by linarith : 0 ≤ 1 + c), sq_nonneg (w - τ), mul_nonneg hw (by linarith : 0 ≤ -(d * s))]

/-- The end of the moved side is near the next side, on the inner side of a turn. -/
theorem inner_end (h1 : a ≠ v) (h2 : v ≠ b) (hpos : 0 < d * turnSin a v b) : ¬ FarSide |d| (moved a v d 1) v b := by
  have p2 := (edist_pos_sq h2).1
  obtain ⟨-, -, e1, e2⟩ := moved_frame h1 d 1
  have hdist := moved_dist h1 d 1
  obtain ⟨f1, -⟩ := frame_turn h1 h2 (moved a v d 1)
  rw [e1, e2] at f1
  rw [far_start h2 (abs_nonneg d), hdist, f1, sq_abs]
  push Not
  have hm : 0 < min (edist v b) (d * turnSin a v b) := lt_min p2 hpos
  refine ⟨min (edist v b) (d * turnSin a v b), hm.le, min_le_left _ _, ?_⟩
  have := min_le_right (edist v b) (d * turnSin a v b)
  nlinarith

/-! ## The straight connection of a corner -/

theorem frame_line (a b v P Q : V2 ℝ) (t : ℝ) : fwd a b v (linePoint P Q t) = (1 - t) * fwd a b v P + t * fwd a b v Q ∧
    lft a b v (linePoint P Q t) = (1 - t) * lft a b v P + t * lft a b v Q := by
  unfold fwd lft linePoint
  constructor <;> (dsimp only; ring)

theorem next_start_frame (h1 : a ≠ v) (h2 : v ≠ b) (d : ℝ) : fwd a v v (moved v b d 0) = -(turnSin a v b * d) ∧ lft a v v (moved v b d 0) = turnCos a v b * d := by
  have hq := turn_sq h1 h2
  obtain ⟨e1, e2, -, -⟩ := moved_frame h2 d 0
  obtain ⟨f1, f2⟩ := frame_turn h1 h2 (moved v b d 0)
  rw [e1] at f1
  rw [e2] at f2
  set s := turnSin a v b
  set c := turnCos a v b
  set F := fwd a v v (moved v b d 0)
  set G := lft a v v (moved v b d 0)
  constructor
  · linear_combination (-F) * hq - c * f1 + s * f2
  · linear_combination (-G) * hq - s * f1 - c * f2

/-- No point of the straight connection of a corner keeps the distance to both sides. -/
theorem chord_near (h1 : a ≠ v) (h2 : v ≠ b) (hpos : 0 < d * turnSin a v b) {t : ℝ} (h0 : 0 ≤ t) (ht : t ≤ 1) :
    ¬ (FarSide |d| (linePoint (moved a v d 1) (moved v b d 0) t) a v ∧ FarSide |d| (linePoint (moved a v d 1) (moved v b d 0) t) v b) := by
  rintro ⟨k1, k2⟩
  rcases h0.eq_or_lt with rfl | h0
  · have e : linePoint (moved a v d 1) (moved v b d 0) 0 = moved a v d 1 := by rw [V2.ext_iff']; simp [linePoint]
    rw [e] at k2
    exact inner_end h1 h2 hpos k2
  rcases ht.eq_or_lt with rfl | ht
  · have e : linePoint (moved a v d 1) (moved v b d 0) 1 = moved v b d 0 := by rw [V2.ext_iff']; simp [linePoint]
    rw [e, ← farSide_rev, ← moved_rev, ← abs_neg, sub_zero] at k1
    exact inner_end h2.symm h1.symm (by rw [turnSin_rev]; linarith) k1
  have hd : d ≠ 0 := by rintro rfl; simp at hpos
  have hs : turnSin a v b ≠ 0 := by intro h; rw [h] at hpos; simp at hpos
  have hq := turn_sq h1 h2
  have hv := k2 0 le_rfl zero_le_one
  have e : linePoint v b 0 = v := by rw [V2.ext_iff']; simp [linePoint]
  rw [e] at hv
  have hsq := pow_le_pow_left₀ (abs_nonneg d) hv 2
  rw [← fwd_lft_sq h1, sq_abs] at hsq
  obtain ⟨-, -, e1, e2⟩ := moved_frame h1 d 1
  obtain ⟨g1, g2⟩ := next_start_frame h1 h2 d
  obtain ⟨l1, l2⟩ := frame_line a v v (moved a v d 1) (moved v b d 0) t
  rw [l1, l2, e1, e2, g1, g2] at hsq
  have hd2 : 0 < d ^ 2 := by positivity
  have hs2 : 0 < turnSin a v b ^ 2 := by positivity
  have hc1 : turnCos a v b < 1 := by nlinarith
  have hprod : 0 < t * (1 - t) * (1 - turnCos a v b) := mul_pos (mul_pos h0 (by linarith)) (by linarith)
  have : d ^ 2 * (1 - 2 * (t * (1 - t) * (1 - turnCos a v b))) =
      ((1 - t) * -((1 - 1) * edist a v) + t * -(turnSin a v b * d)) ^ 2 + ((1 - t) * d + t * (turnCos a v b * d)) ^ 2 := by
    linear_combination (-(t ^ 2 * d ^ 2)) * hq
  rw [← this] at hsq
  nlinarith

/-! ## The arc of a corner -/

theorem cornerArc_frame (h1 : a ≠ v) (d t : ℝ) : fwd a v v (cornerArc a v b d t) = -(d * Real.sin (t * (2 * halfTurn a v b))) ∧
    lft a v v (cornerArc a v b d t) = d * Real.cos (t * (2 * halfTurn a v b)) := by
  have hu := unit_sq h1
  unfold fwd lft cornerArc rotV moved
  dsimp only
  set x := (v.x - a.x) / edist a v
  set y := (v.y - a.y) / edist a v
  set S := Real.sin (t * (2 * halfTurn a v b))
  set C := Real.cos (t * (2 * halfTurn a v b))
  constructor
  · linear_combination (-(d * S)) * hu
  · linear_combination (d * C) * hu

theorem cornerArc_next (h1 : a ≠ v) (h2 : v ≠ b) (hs : turnSin a v b ≠ 0) (d t : ℝ) :
    fwd v b v (cornerArc a v b d t) = d * Real.sin (2 * halfTurn a v b - t * (2 * halfTurn a v b)) := by
  obtain ⟨hc, hsn⟩ := halfTurn_cos_sin h1 h2 hs
  rw [(frame_turn h1 h2 _).1, (cornerArc_frame h1 d t).1, (cornerArc_frame h1 d t).2, Real.sin_sub, hc, hsn]
  ring

theorem cornerArc_dist (h1 : a ≠ v) (d t : ℝ) : edist (cornerArc a v b d t) v = |d| := by
  obtain ⟨e1, e2⟩ := cornerArc_frame (b := b) h1 d t
  have := fwd_lft_sq h1 v (cornerArc a v b d t)
  rw [e1, e2] at this
  have hsq : edist (cornerArc a v b d t) v ^ 2 = |d| ^ 2 := by
    rw [sq_abs]
    linear_combination -this + d ^ 2 * Real.sin_sq_add_cos_sq (t * (2 * halfTurn a v b))
  exact (pow_left_inj₀ (edist_nonneg _ _) (abs_nonneg d) (by norm_num)).mp hsq

theorem turn_sign (h1 : a ≠ v) (h2 : v ≠ b) (hneg : d * turnSin a v b < 0) :
    (0 < d ∧ halfTurn a v b < 0) ∨ (d < 0 ∧ 0 < halfTurn a v b) := by
  have hs : turnSin a v b ≠ 0 := by intro h; rw [h] at hneg; simp at hneg
  have hsb := (setback_sign (d := d) h1 h2 hs).2.mpr hneg
  obtain ⟨s1, s2⟩ := halfTurn_sign (a := a) (v := v) (b := b) d
  rcases lt_trichotomy d 0 with h | h | h
  · exact Or.inr ⟨h, s1 hsb h⟩
  · rw [h] at hneg; simp at hneg
  · exact Or.inl ⟨h, s2 hsb h⟩

/-- The arc is in the cone between the two sides. -/
theorem arc_cone (h1 : a ≠ v) (h2 : v ≠ b) (hneg : d * turnSin a v b < 0) {t : ℝ} (h0 : 0 ≤ t) (ht : t ≤ 1) :
    0 ≤ fwd a v v (cornerArc a v b d t) ∧ fwd v b v (cornerArc a v b d t) ≤ 0 := by
  have hs : turnSin a v b ≠ 0 := by intro h; rw [h] at hneg; simp at hneg
  obtain ⟨b1, b2⟩ := halfTurn_bounds a v b
  rw [(cornerArc_frame h1 d t).1, cornerArc_next h1 h2 hs]
  rcases turn_sign h1 h2 hneg with ⟨hd, hh⟩ | ⟨hd, hh⟩
  · have k1 : Real.sin (t * (2 * halfTurn a v b)) ≤ 0 := Real.sin_nonpos_of_nonpos_of_neg_pi_le (by nlinarith) (by nlinarith)
    have k2 : Real.sin (2 * halfTurn a v b - t * (2 * halfTurn a v b)) ≤ 0 :=
      Real.sin_nonpos_of_nonpos_of_neg_pi_le (by nlinarith) (by nlinarith)
    constructor <;> nlinarith
  · have k1 : 0 ≤ Real.sin (t * (2 * halfTurn a v b)) := Real.sin_nonneg_of_nonneg_of_le_pi (by nlinarith) (by nlinarith)
    have k2 : 0 ≤ Real.sin (2 * halfTurn a v b - t * (2 * halfTurn a v b)) :=
      Real.sin_nonneg_of_nonneg_of_le_pi (by nlinarith) (by nlinarith)
    constructor <;> nlinarith

/-- Every point of the circle in that cone is on the arc. -/
theorem cone_arc (h1 : a ≠ v) (h2 : v ≠ b) (hneg : d * turnSin a v b < 0) {X : V2 ℝ} (hX : edist X v = |d|) (k1 : 0 ≤ fwd a v v X)
    (k2 : fwd v b v X ≤ 0) : ∃ t, 0 ≤ t ∧ t ≤ 1 ∧ X = cornerArc a v b d t := by
  have hs : turnSin a v b ≠ 0 := by intro h; rw [h] at hneg; simp at hneg
  have hd : d ≠ 0 := by rintro rfl; simp at hneg
  obtain ⟨b1, b2⟩ := halfTurn_bounds a v b
  obtain ⟨hc, hsn⟩ := halfTurn_cos_sin h1 h2 hs
  have hsq := fwd_lft_sq h1 v X
  rw [hX, sq_abs] at hsq
  obtain ⟨f1, -⟩ := frame_turn h1 h2 X
  rw [f1, ← hc, ← hsn] at k2
  set F := fwd a v v X with hF
  set G := lft a v v X with hG
  have hg2 : (G / d) ^ 2 ≤ 1 := by
    rw [div_pow, div_le_one (by positivity)]
    nlinarith [sq_nonneg F]
  have hg := abs_le.mp ((sq_le_one_iff_abs_le_one _).mp hg2)
  set φ := Real.arccos (G / d) with hφ
  have c1 : Real.cos φ = G / d := Real.cos_arccos hg.1 hg.2
  have p0 : 0 ≤ φ := Real.arccos_nonneg _
  have p1 : φ ≤ Real.pi := Real.arccos_le_pi _
  have s0 : 0 ≤ Real.sin φ := Real.sin_nonneg_of_nonneg_of_le_pi p0 p1
  have ssq : (d * Real.sin φ) ^ 2 = F ^ 2 := by
    have := Real.sin_sq_add_cos_sq φ
    rw [c1] at this
    have hdd : d ^ 2 * (G / d) ^ 2 = G ^ 2 := by field_simp
    linear_combination d ^ 2 * this - hsq - hdd
  have hG' : G = d * Real.cos φ := by rw [c1]; field_simp
  rcases turn_sign h1 h2 hneg with ⟨hd, hh⟩ | ⟨hd, hh⟩
  · have hF' : F = d * Real.sin φ := ((pow_left_inj₀ (by positivity) k1 (by norm_num)).mp ssq).symm
    have k2' : d * Real.sin (2 * halfTurn a v b + φ) ≤ 0 := by
      rw [Real.sin_add]
      rw [hF', hG'] at k2
      linarith
    have hle : 2 * halfTurn a v b + φ ≤ 0 := by
      by_contra hc'
      push Not at hc'
      have : 0 < Real.sin (2 * halfTurn a v b + φ) := Real.sin_pos_of_pos_of_lt_pi hc' (by linarith)
      nlinarith
    refine ⟨-φ / (2 * halfTurn a v b), ?_, ?_, ?_⟩
    · exact div_nonneg_of_nonpos (by linarith) (by linarith)
    · rw [div_le_one_of_neg (by linarith)]; linarith
    · apply fwd_lft_ext h1 (v := v)
      · rw [(cornerArc_frame h1 d _).1, div_mul_cancel₀ _ (by linarith), Real.sin_neg, ← hF, hF']; ring
      · rw [(cornerArc_frame h1 d _).2, div_mul_cancel₀ _ (by linarith), Real.cos_neg, ← hG, hG']
  · have hF' : F = -(d * Real.sin φ) := by
      refine ((pow_left_inj₀ (by nlinarith) k1 (by norm_num : (2 : ℕ) ≠ 0)).mp ?_).symm
      rw [neg_sq, ssq]
    have k2' : d * Real.sin (2 * halfTurn a v b - φ) ≤ 0 := by
      rw [Real.sin_sub]
      rw [hF', hG'] at k2
      linarith
    have hle : φ ≤ 2 * halfTurn a v b := by
      by_contra hc'
      push Not at hc'
      have : Real.sin (2 * halfTurn a v b - φ) < 0 := Real.sin_neg_of_neg_of_neg_pi_lt (by linarith) (by linarith)
      nlinarith
    refine ⟨φ / (2 * halfTurn a v b), by positivity, ?_, ?_⟩
    · rw [div_le_one (by linarith)]; exact hle
    · apply fwd_lft_ext h1 (v := v)
      · rw [(cornerArc_frame h1 d _).1, div_mul_cancel₀ _ (by linarith), ← hF, hF']
      · rw [(cornerArc_frame h1 d _).2, div_mul_cancel₀ _ (by linarith), ← hG, hG']

theorem cone_far (h1 : a ≠ v) (h2 : v ≠ b) {r : ℝ} (hr : 0 ≤ r) {X : V2 ℝ} (hX : edist X v = r) (k1 : 0 ≤ fwd a v v X) (k2 : fwd v b v X ≤ 0) :
    FarSide r X a v ∧ FarSide r X v b := by
  rw [far_stop h1 hr, far_start h2 hr, hX]
  constructor
  · intro w h0 _; nlinarith
  · intro w h0 _; nlinarith

theorem far_cone_start (h2 : v ≠ b) {r : ℝ} (hr : 0 ≤ r) {X : V2 ℝ} (hX : edist X v = r) (hf : FarSide r X v b) : fwd v b v X ≤ 0 := by
  have p2 := (edist_pos_sq h2).1
  rw [far_start h2 hr, hX] at hf
  by_contra hc
  push Not at hc
  have hm : 0 < min (edist v b) (fwd v b v X) := lt_min p2 hc
  have := hf _ hm.le (min_le_left _ _)
  have h' := min_le_right (edist v b) (fwd v b v X)
  nlinarith

theorem far_cone_stop (h1 : a ≠ v) {r : ℝ} (hr : 0 ≤ r) {X : V2 ℝ} (hX : edist X v = r) (hf : FarSide r X a v) : 0 ≤ fwd a v v X := by
  have p2 := (edist_pos_sq h1).1
  rw [far_stop h1 hr, hX] at hf
  by_contra hc
  push Not at hc
  have hm : 0 < min (edist a v) (-fwd a v v X) := lt_min p2 (by linarith)
  have := hf _ hm.le (min_le_left _ _)
  have h' := min_le_right (edist a v) (-fwd a v v X)
  nlinarith

end

/-- A point at distance exactly `r` from a segment is beside it or around one of its ends. -/
theorem foot {a b X : V2 ℝ} (h : a ≠ b) {r : ℝ} (hr : 0 < r) (hf : FarSide r X a b) {u : ℝ} (h0 : 0 ≤ u) (h1 : u ≤ 1)
    (hu : edist X (linePoint a b u) = r) :
    (X = moved a b r u ∨ X = moved a b (-r) u) ∨ edist X b = r ∨ edist X a = r := by
  have hp := (edist_pos_sq h).1
  rcases h0.eq_or_lt with rfl | h0
  · right; right
    have e : linePoint a b 0 = a := by rw [V2.ext_iff']; simp [linePoint]
    rwa [e] at hu
  rcases h1.eq_or_lt with rfl | h1
  · right; left
    have e : linePoint a b 1 = b := by rw [V2.ext_iff']; simp [linePoint]
    rwa [e] at hu
  left
  have hsq := side_dist_start h X u
  rw [hu] at hsq
  rw [far_start h hr.le] at hf
  have hF : fwd a b a X = u * edist a b := by
    have w0 : 0 < u * edist a b := by positivity
    have w1 : u * edist a b < edist a b := by nlinarith
    rcases lt_trichotomy (fwd a b a X) (u * edist a b) with hlt | heq | hgt
    · exfalso
      have hm := le_max_left 0 (fwd a b a X)
      have hm2 := le_max_right 0 (fwd a b a X)
      have hm3 : max 0 (fwd a b a X) < u * edist a b := max_lt w0 hlt
      have := hf (max 0 (fwd a b a X)) hm (by linarith)
      nlinarith
    · exact heq
    · exfalso
      have hm := min_le_left (edist a b) (fwd a b a X)
      have hm2 := min_le_right (edist a b) (fwd a b a X)
      have hm3 : u * edist a b < min (edist a b) (fwd a b a X) := lt_min w1 hgt
      have := hf (min (edist a b) (fwd a b a X)) (by linarith) hm
      nlinarith
  have hn := fwd_lft_sq h a X
  have hl : lft a b a X ^ 2 = r ^ 2 := by rw [hF] at hsq hn; nlinarith
  rcases sq_eq_sq_iff_eq_or_eq_neg.mp hl with hl | hl
  · left
    exact fwd_lft_ext h (by rw [(moved_frame h r u).1, hF]) (by rw [(moved_frame h r u).2.1, hl])
  · right
    exact fwd_lft_ext h (by rw [(moved_frame h (-r) u).1, hF]) (by rw [(moved_frame h (-r) u).2.1, hl])

end Cavc
