import Verif.Lemmas.Turning
import Verif.Lemmas.ArcAngle
import Verif.Props.Segment

/-! # The turn of one segment about a point -/

namespace Cavc
open Real

/-- every position on the chord side of a counter clockwise arc is right of the chord -/
theorem arc_right {P Q : V2 ℝ} {b : ℝ} (hb : 0 < b) (hb1 : b ≤ 1) {t : ℝ} (h0 : 0 ≤ t) (h1 : t ≤ 1) :
    (Q.x - P.x) * ((arcPoint P Q b t).y - P.y) - (Q.y - P.y) * ((arcPoint P Q b t).x - P.x) ≤ 0 := by
  have hQ := arcPoint_one P Q b hb.ne'
  have hs : 0 < 4 * arctan b := by have := arctan_pos.mpr hb; linarith
  have hs' : 4 * arctan b ≤ π := by
    have := abs_four_arctan_le (b := b) (by rw [abs_of_pos hb]; exact hb1)
    exact (abs_le.mp this).2
  obtain ⟨σ, eσ⟩ : ∃ σ, σ = 4 * arctan b := ⟨_, rfl⟩
  rw [V2.ext_iff'] at hQ
  simp only [arcPoint, rotV, one_mul] at hQ ⊢
  rw [← eσ] at hQ hs hs' ⊢
  obtain ⟨ex, hex⟩ : ∃ e, e = P.x - (arcCenter P Q b).x := ⟨_, rfl⟩
  obtain ⟨ey, hey⟩ : ∃ e, e = P.y - (arcCenter P Q b).y := ⟨_, rfl⟩
  rw [← hex, ← hey] at hQ ⊢
  obtain ⟨τ, hτ⟩ : ∃ τ, τ = t * σ := ⟨_, rfl⟩
  rw [← hτ]
  have t0 : 0 ≤ τ := by rw [hτ]; positivity
  have t1 : τ ≤ σ := by rw [hτ]; nlinarith
  have e1 : Q.x - P.x = ex * cos σ - ey * sin σ - ex := by rw [← hQ.1, hex]; ring
  have e2 : Q.y - P.y = ex * sin σ + ey * cos σ - ey := by rw [← hQ.2, hey]; ring
  have e3 : (arcCenter P Q b).y + (ex * sin τ + ey * cos τ) - P.y = ex * sin τ + ey * cos τ - ey := by rw [hey]; ring
  have e4 : (arcCenter P Q b).x + (ex * cos τ - ey * sin τ) - P.x = ex * cos τ - ey * sin τ - ex := by rw [hex]; ring
  rw [e1, e2, e3, e4]
  have key : (ex * cos σ - ey * sin σ - ex) * (ex * sin τ + ey * cos τ - ey) -
      (ex * sin σ + ey * cos σ - ey) * (ex * cos τ - ey * sin τ - ex)
      = (ex ^ 2 + ey ^ 2) * (sin τ * cos σ - cos τ * sin σ + sin σ - sin τ) := by ring
  rw [key]
  have id : sin τ * cos σ - cos τ * sin σ + sin σ - sin τ ≤ 0 := by
    obtain ⟨u, hu⟩ : ∃ u, u = τ / 2 := ⟨_, rfl⟩
    obtain ⟨v, hv⟩ : ∃ v, v = (σ - τ) / 2 := ⟨_, rfl⟩
    have eτ : τ = 2 * u := by rw [hu]; ring
    have eσ' : σ = 2 * u + 2 * v := by rw [hu, hv]; ring
    have cu : cos (2 * u) = 1 - 2 * sin u ^ 2 := by rw [cos_two_mul, cos_sq']; ring
    have cv : cos (2 * v) = 1 - 2 * sin v ^ 2 := by rw [cos_two_mul, cos_sq']; ring
    have e : sin τ * cos σ - cos τ * sin σ = - sin (2 * v) := by
      rw [← sin_sub, ← sin_neg]; congr 1; rw [eτ, eσ']; ring
    rw [e, eσ', eτ, sin_add, cu, cv, sin_two_mul, sin_two_mul]
    have hsu : 0 ≤ sin u := sin_nonneg_of_nonneg_of_le_pi (by linarith) (by linarith)
    have hsv : 0 ≤ sin v := sin_nonneg_of_nonneg_of_le_pi (by linarith) (by linarith)
    have hsw : 0 ≤ sin (u + v) := sin_nonneg_of_nonneg_of_le_pi (by linarith) (by linarith)
    rw [sin_add] at hsw
    have := mul_nonneg (mul_nonneg hsu hsv) hsw
    linarith
  exact mul_nonpos_of_nonneg_of_nonpos (by positivity) id

/-- contribution of a counter clockwise arc in terms of its end points and center relative to the
point; `cr` the cross product of the end points -/
noncomputable def ccwTable (x0 y0 x1 y1 : ℝ) (left inC : Prop) : ℤ :=
  open Classical in
  if y0 ≤ 0 then
    if 0 < y1 then (if left then 1 else if inC then 1 else 0)
    else if ¬ left ∧ x1 < 0 ∧ 0 < x0 ∧ inC then 1 else 0
  else if y1 ≤ 0 then (if ¬ left then (if ¬ inC then -1 else 0) else 0)
  else if ¬ left ∧ x0 < 0 ∧ 0 < x1 ∧ inC then 1 else 0

/-- seen from a point of the circular segment the chord is under an obtuse angle -/
theorem chord_obtuse {x0 y0 x1 y1 cx cy k : ℝ} (hk : 0 ≤ k) (ex : cx = (x0 + x1) / 2 - k * (y1 - y0))
    (ey : cy = (y0 + y1) / 2 + k * (x1 - x0)) (hin : cx ^ 2 + cy ^ 2 < (x0 - cx) ^ 2 + (y0 - cy) ^ 2)
    (hcr : x0 * y1 - x1 * y0 ≤ 0) : x0 * x1 + y0 * y1 < 0 := by
  have h2 : (x0 - cx) ^ 2 + (y0 - cy) ^ 2 = (x1 - cx) ^ 2 + (y1 - cy) ^ 2 := by rw [ex, ey]; ring
  have hsum : 0 < x0 ^ 2 + y0 ^ 2 + x1 ^ 2 + y1 ^ 2 - 2 * ((x0 + x1) * cx + (y0 + y1) * cy) := by
    nlinarith
  have e : x0 ^ 2 + y0 ^ 2 + x1 ^ 2 + y1 ^ 2 - 2 * ((x0 + x1) * cx + (y0 + y1) * cy)
      = -2 * (x0 * x1 + y0 * y1) + 4 * (k * (x0 * y1 - x1 * y0)) := by rw [ex, ey]; ring
  have := mul_nonpos_of_nonneg_of_nonpos hk hcr
  linarith

theorem turn_int {θ0 θ1 a0 a1 x0 y0 x1 y1 : ℝ} (d0 : Dir θ0 x0 y0) (d1 : Dir θ1 x1 y1) (e0 : Dir a0 x0 y0)
    (e1 : Dir a1 x1 y1) : ∃ w : ℤ, θ1 - θ0 = a1 - a0 + 2 * π * w := by
  obtain ⟨k, hk⟩ := dir_congr d0 e0
  obtain ⟨m, hm⟩ := dir_congr d1 e1
  refine ⟨m - k, ?_⟩
  rw [hk, hm]; push_cast; ring

theorem arcPoint_continuous (P Q : V2 ℝ) (b : ℝ) :
    Continuous (fun t => (arcPoint P Q b t).x) ∧ Continuous (fun t => (arcPoint P Q b t).y) := by
  simp only [arcPoint, rotV]
  constructor <;> fun_prop

theorem linePoint_continuous (P Q : V2 ℝ) :
    Continuous (fun t => (linePoint P Q t).x) ∧ Continuous (fun t => (linePoint P Q t).y) := by
  simp only [linePoint]
  constructor <;> fun_prop

open Classical in
/-- the turn of a counter clockwise arc -/
theorem arc_turn {P Q : V2 ℝ} {b : ℝ} (hne : P ≠ Q) (hb : 0 < b) (hb1 : b ≤ 1) (pt : V2 ℝ)
    (hoff : ∀ t, 0 ≤ t → t ≤ 1 → pt ≠ arcPoint P Q b t) :
    ∃ θ, FollowsAngle (arcPoint P Q b) pt 0 1 θ ∧ ∀ a0 a1, Dir a0 (P.x - pt.x) (P.y - pt.y) →
      0 < a0 → a0 ≤ 2 * π → Dir a1 (Q.x - pt.x) (Q.y - pt.y) → 0 < a1 → a1 ≤ 2 * π →
      θ 1 - θ 0 = a1 - a0 + 2 * π * (ccwTable (P.x - pt.x) (P.y - pt.y) (Q.x - pt.x) (Q.y - pt.y)
        (0 < (P.x - pt.x) * (Q.y - pt.y) - (Q.x - pt.x) * (P.y - pt.y))
        (((arcCenter P Q b).x - pt.x) ^ 2 + ((arcCenter P Q b).y - pt.y) ^ 2 < arcRadius P Q b ^ 2) : ℤ) := by
  have hcx : ContinuousOn (fun t => (arcPoint P Q b t).x - pt.x) (Set.Icc 0 1) :=
    ((arcPoint_continuous P Q b).1.sub continuous_const).continuousOn
  have hcy : ContinuousOn (fun t => (arcPoint P Q b t).y - pt.y) (Set.Icc 0 1) :=
    ((arcPoint_continuous P Q b).2.sub continuous_const).continuousOn
  have hz0 := arcPoint_zero P Q b
  have hz1 := arcPoint_one P Q b hb.ne'
  have hr := arcRadius_pos hne hb.ne'
  -- small turns
  have small : ∀ ux uy : ℝ, (∀ t ∈ Set.Icc (0 : ℝ) 1, 0 < ux * ((arcPoint P Q b t).x - pt.x) + uy * ((arcPoint P Q b t).y - pt.y)) →
      ∃ θ, FollowsAngle (arcPoint P Q b) pt 0 1 θ ∧ ∀ a0 a1, Dir a0 (P.x - pt.x) (P.y - pt.y) →
      0 < a0 → a0 ≤ 2 * π → Dir a1 (Q.x - pt.x) (Q.y - pt.y) → 0 < a1 → a1 ≤ 2 * π →
      θ 1 - θ 0 = a1 - a0 + 2 * π * ((if P.y - pt.y ≤ 0 then (if 0 < Q.y - pt.y ∧ 0 < (P.x - pt.x) * (Q.y - pt.y) - (Q.x - pt.x) * (P.y - pt.y) then 1 else 0)
      else if Q.y - pt.y ≤ 0 ∧ ¬ 0 < (P.x - pt.x) * (Q.y - pt.y) - (Q.x - pt.x) * (P.y - pt.y) then -1 else 0 : ℤ) : ℤ) := by
    intro ux uy hu
    obtain ⟨θ, c, d, l, u⟩ := halfplane_angle ux uy _ _ hcx hcy hu
    refine ⟨θ, ⟨c, d⟩, ?_⟩
    intro a0 a1 e0 h0 h0' e1 h1 h1'
    have d0 := d 0 (by simp)
    have d1 := d 1 (by simp)
    rw [hz0] at d0
    rw [hz1] at d1
    obtain ⟨w, hw⟩ := turn_int d0 d1 e0 e1
    have := small_turn e0 e1 h0 h0' h1 h1' hw l u
    rw [hw, this]
  by_cases hleft : 0 < (P.x - pt.x) * (Q.y - pt.y) - (Q.x - pt.x) * (P.y - pt.y)
  · obtain ⟨θ, h1, h2⟩ := small (Q.y - P.y) (-(Q.x - P.x)) (by
      intro t ht
      have := arc_right hb hb1 ht.1 ht.2 (P := P) (Q := Q)
      nlinarith)
    refine ⟨θ, h1, ?_⟩
    intro a0 a1 e0 h0 h0' e1 h1 h1'
    rw [h2 a0 a1 e0 h0 h0' e1 h1 h1']
    congr 2
    simp [ccwTable, hleft]
  · by_cases hin : ((arcCenter P Q b).x - pt.x) ^ 2 + ((arcCenter P Q b).y - pt.y) ^ 2 < arcRadius P Q b ^ 2
    · -- inside the circle
      have hs : 0 < 4 * arctan b := by have := arctan_pos.mpr hb; linarith
      have hs' : 4 * arctan b ≤ π := by
        have := abs_four_arctan_le (b := b) (by rw [abs_of_pos hb]; exact hb1)
        exact (abs_le.mp this).2
      have hp := pi_pos
      have hst := start_dist_sq P Q b hb.ne'
      have hpos2 : 0 < arcRadius P Q b ^ 2 := by positivity
      obtain ⟨φ₀, ⟨ρ, hρ, ex, ey⟩, -, -⟩ := dir_exists (x := P.x - (arcCenter P Q b).x) (y := P.y - (arcCenter P Q b).y) (by
        by_contra hn
        push Not at hn
        rw [hn.1, hn.2] at hst
        simp at hst; linarith)
      have hρr : ρ = arcRadius P Q b := by
        rw [ex, ey] at hst
        have : ρ ^ 2 = arcRadius P Q b ^ 2 := by rw [← hst]; linear_combination (-ρ ^ 2) * (sin_sq_add_cos_sq φ₀)
        exact (pow_left_inj₀ hρ.le hr.le two_ne_zero).mp this
      rw [hρr] at ex ey
      obtain ⟨θ, c, d, l, u⟩ := disk_angle ((arcCenter P Q b).x - pt.x) ((arcCenter P Q b).y - pt.y) (arcRadius P Q b) φ₀
        (4 * arctan b) hr hin hs (by linarith)
      have d' : ∀ t ∈ Set.Icc (0 : ℝ) 1, Dir (θ t) ((arcPoint P Q b t).x - pt.x) ((arcPoint P Q b t).y - pt.y) := by
        intro t ht
        have := d t ht
        rw [cos_add, sin_add] at this
        convert this using 1
        · simp only [arcPoint, rotV, ex, ey]; ring
        · simp only [arcPoint, rotV, ex, ey]; ring
      refine ⟨θ, ⟨c, d'⟩, ?_⟩
      intro a0 a1 e0 h0 h0' e1 h1 h1'
      have d0 := d' 0 (by simp)
      have d1 := d' 1 (by simp)
      rw [hz0] at d0
      rw [hz1] at d1
      obtain ⟨w, hw⟩ := turn_int d0 d1 e0 e1
      have hbig : π ≤ θ 1 - θ 0 := by
        by_contra hn
        push Not at hn
        obtain ⟨k, hk, hcr, -⟩ := dir_cross d0 d1
        have := mul_pos hk (sin_pos_of_pos_of_lt_pi l hn)
        rw [← hcr] at this
        exact hleft this
      have hdot := chord_obtuse (x0 := P.x - pt.x) (y0 := P.y - pt.y) (x1 := Q.x - pt.x) (y1 := Q.y - pt.y)
        (cx := (arcCenter P Q b).x - pt.x) (cy := (arcCenter P Q b).y - pt.y) (k := (1 - b ^ 2) / (4 * b))
        (div_nonneg (by nlinarith) (by positivity)) (by simp only [arcCenter]; ring) (by simp only [arcCenter]; ring)
        (by
          rw [← hst] at hin
          have e1 : P.x - pt.x - ((arcCenter P Q b).x - pt.x) = P.x - (arcCenter P Q b).x := by ring
          have e2 : P.y - pt.y - ((arcCenter P Q b).y - pt.y) = P.y - (arcCenter P Q b).y := by ring
          rw [e1, e2]; exact hin) (not_lt.mp hleft)
      have := big_turn e0 e1 h0 h0' h1 h1' hw hbig u hdot
      rw [hw, this]
      congr 2
      simp [ccwTable, hleft, hin]
    · obtain ⟨θ, h1, h2⟩ := small ((arcCenter P Q b).x - pt.x) ((arcCenter P Q b).y - pt.y) (by
        intro t ht
        have hd := arcPoint_dist_sq P Q b t hb.ne'
        have hne := hoff t ht.1 ht.2
        push Not at hin
        rw [Ne, V2.ext_iff'] at hne
        have hpos : 0 < ((arcPoint P Q b t).x - pt.x) ^ 2 + ((arcPoint P Q b t).y - pt.y) ^ 2 := by
          by_contra hn
          push Not at hn
          apply hne
          constructor <;> nlinarith [sq_nonneg ((arcPoint P Q b t).x - pt.x), sq_nonneg ((arcPoint P Q b t).y - pt.y)]
        nlinarith)
      refine ⟨θ, h1, ?_⟩
      intro a0 a1 e0 h0 h0' e1 h1 h1'
      rw [h2 a0 a1 e0 h0 h0' e1 h1 h1']
      congr 2
      simp [ccwTable, hleft, hin]

theorem line_turn (P Q pt : V2 ℝ) (hoff : ∀ t, 0 ≤ t → t ≤ 1 → pt ≠ linePoint P Q t) :
    ∃ θ, FollowsAngle (linePoint P Q) pt 0 1 θ ∧ ∀ a0 a1, Dir a0 (P.x - pt.x) (P.y - pt.y) →
      0 < a0 → a0 ≤ 2 * π → Dir a1 (Q.x - pt.x) (Q.y - pt.y) → 0 < a1 → a1 ≤ 2 * π →
      θ 1 - θ 0 = a1 - a0 + 2 * π * ((if P.y - pt.y ≤ 0 then (if 0 < Q.y - pt.y ∧ 0 < (P.x - pt.x) * (Q.y - pt.y) - (Q.x - pt.x) * (P.y - pt.y) then 1 else 0)
      else if Q.y - pt.y ≤ 0 ∧ ¬ 0 < (P.x - pt.x) * (Q.y - pt.y) - (Q.x - pt.x) * (P.y - pt.y) then -1 else 0 : ℤ) : ℤ) := by
  have hcx : ContinuousOn (fun t => (linePoint P Q t).x - pt.x) (Set.Icc 0 1) :=
    ((linePoint_continuous P Q).1.sub continuous_const).continuousOn
  have hcy : ContinuousOn (fun t => (linePoint P Q t).y - pt.y) (Set.Icc 0 1) :=
    ((linePoint_continuous P Q).2.sub continuous_const).continuousOn
  have hz0 : linePoint P Q 0 = P := by rw [V2.ext_iff']; simp [linePoint]
  have hz1 : linePoint P Q 1 = Q := by rw [V2.ext_iff']; simp [linePoint]
  have hu : ∃ ux uy : ℝ, ∀ t ∈ Set.Icc (0 : ℝ) 1, 0 < ux * ((linePoint P Q t).x - pt.x) + uy * ((linePoint P Q t).y - pt.y) := by
    obtain ⟨x0, hx0⟩ : ∃ v, v = P.x - pt.x := ⟨_, rfl⟩
    obtain ⟨y0, hy0⟩ : ∃ v, v = P.y - pt.y := ⟨_, rfl⟩
    obtain ⟨x1, hx1⟩ : ∃ v, v = Q.x - pt.x := ⟨_, rfl⟩
    obtain ⟨y1, hy1⟩ : ∃ v, v = Q.y - pt.y := ⟨_, rfl⟩
    have hx : ∀ t, (linePoint P Q t).x - pt.x = x0 + t * (x1 - x0) := by
      intro t; simp only [linePoint, hx0, hx1]; ring
    have hy : ∀ t, (linePoint P Q t).y - pt.y = y0 + t * (y1 - y0) := by
      intro t; simp only [linePoint, hy0, hy1]; ring
    have off : ∀ t, 0 ≤ t → t ≤ 1 → ¬ (x0 + t * (x1 - x0) = 0 ∧ y0 + t * (y1 - y0) = 0) := by
      intro t h0 h1 h
      apply hoff t h0 h1
      rw [← hx, ← hy] at h
      rw [V2.ext_iff']
      constructor <;> linarith [h.1, h.2]
    simp only [hx, hy]
    rcases lt_trichotomy (x0 * y1 - x1 * y0) 0 with h | h | h
    · exact ⟨-(y1 - y0), x1 - x0, fun t _ => by nlinarith⟩
    · have hp0 : 0 < x0 ^ 2 + y0 ^ 2 := by
        by_contra hn
        push Not at hn
        exact off 0 le_rfl zero_le_one (by constructor <;> nlinarith [sq_nonneg x0, sq_nonneg y0])
      have hdot : 0 < x0 * x1 + y0 * y1 := by
        by_contra hn
        push Not at hn
        obtain ⟨N, hN⟩ : ∃ N, N = x0 ^ 2 + y0 ^ 2 := ⟨_, rfl⟩
        obtain ⟨D, hD⟩ : ∃ D, D = x0 * x1 + y0 * y1 := ⟨_, rfl⟩
        rw [← hN] at hp0
        rw [← hD] at hn
        have hND : 0 < N - D := by linarith
        refine off (N / (N - D)) (by positivity) (by rw [div_le_one hND]; linarith) ⟨?_, ?_⟩
        · have : (N - D) * (x0 + N / (N - D) * (x1 - x0)) = 0 := by
            field_simp
            rw [hN, hD]
            linear_combination (-y0) * h
          exact (mul_eq_zero.mp this).resolve_left hND.ne'
        · have : (N - D) * (y0 + N / (N - D) * (y1 - y0)) = 0 := by
            field_simp
            rw [hN, hD]
            linear_combination x0 * h
          exact (mul_eq_zero.mp this).resolve_left hND.ne'
      refine ⟨x0, y0, fun t ht => ?_⟩
      have e : x0 * (x0 + t * (x1 - x0)) + y0 * (y0 + t * (y1 - y0)) = (1 - t) * (x0 ^ 2 + y0 ^ 2) + t * (x0 * x1 + y0 * y1) := by ring
      rw [e]
      rcases eq_or_lt_of_le ht.1 with h0 | h0
      · rw [← h0]; linarith
      · have := mul_pos h0 hdot
        have := mul_nonneg (sub_nonneg.mpr ht.2) hp0.le
        linarith
    · exact ⟨y1 - y0, -(x1 - x0), fun t _ => by nlinarith⟩
  obtain ⟨ux, uy, hu⟩ := hu
  obtain ⟨θ, c, d, l, u⟩ := halfplane_angle ux uy _ _ hcx hcy hu
  refine ⟨θ, ⟨c, d⟩, ?_⟩
  intro a0 a1 e0 h0 h0' e1 h1 h1'
  have d0 := d 0 (by simp)
  have d1 := d 1 (by simp)
  rw [hz0] at d0
  rw [hz1] at d1
  obtain ⟨w, hw⟩ := turn_int d0 d1 e0 e1
  have := small_turn e0 e1 h0 h0' h1 h1' hw l u
  rw [hw, this]

theorem lineWinding_eq (v1 v2 : Vertex ℝ) (pt : V2 ℝ) :
    Pline.lineWinding v1 v2 pt = (if v1.y - pt.y ≤ 0 then (if 0 < v2.y - pt.y ∧ 0 < (v1.x - pt.x) * (v2.y - pt.y) - (v2.x - pt.x) * (v1.y - pt.y) then 1 else 0)
      else if v2.y - pt.y ≤ 0 ∧ ¬ 0 < (v1.x - pt.x) * (v2.y - pt.y) - (v2.x - pt.x) * (v1.y - pt.y) then -1 else 0) := by
  have e : perpDotTestValue v1.pos v2.pos pt = (v1.x - pt.x) * (v2.y - pt.y) - (v2.x - pt.x) * (v1.y - pt.y) := by
    simp only [perpDotTestValue, Vertex.pos_x, Vertex.pos_y]; ring
  simp [Pline.lineWinding, isLeft, e, sub_nonpos, sub_pos]

open Classical in
theorem arcWinding_ccw (v1 v2 : Vertex ℝ) (hb : 0 < v1.bulge) (hne : v1.pos ≠ v2.pos) (pt : V2 ℝ) :
    Pline.arcWinding v1 v2 pt = ccwTable (v1.x - pt.x) (v1.y - pt.y) (v2.x - pt.x) (v2.y - pt.y)
        (0 < (v1.x - pt.x) * (v2.y - pt.y) - (v2.x - pt.x) * (v1.y - pt.y))
        (((arcCenter v1.pos v2.pos v1.bulge).x - pt.x) ^ 2 + ((arcCenter v1.pos v2.pos v1.bulge).y - pt.y) ^ 2
          < arcRadius v1.pos v2.pos v1.bulge ^ 2) := by
  have e : perpDotTestValue v1.pos v2.pos pt = (v1.x - pt.x) * (v2.y - pt.y) - (v2.x - pt.x) * (v1.y - pt.y) := by
    simp only [perpDotTestValue, Vertex.pos_x, Vertex.pos_y]; ring
  simp only [Pline.arcWinding, isLeft, e, segArcRadiusAndCenter_eq v1 v2 hb.ne' hne, distSquared_eq, ccwTable]
  simp only [RealScalar.le_eq, RealScalar.gt_eq, RealScalar.lt_eq, Vertex.bulgeIsPos_eq, hb, decide_true, if_true,
    sub_nonpos, sub_pos, ← pow_two, sub_neg]
  split_ifs <;> simp_all

open Classical in
theorem arcWinding_cw (v1 v2 : Vertex ℝ) (hb : v1.bulge < 0) (hne : v1.pos ≠ v2.pos) (pt : V2 ℝ) :
    Pline.arcWinding v1 v2 pt = - ccwTable (v2.x - pt.x) (v2.y - pt.y) (v1.x - pt.x) (v1.y - pt.y)
        (0 < (v2.x - pt.x) * (v1.y - pt.y) - (v1.x - pt.x) * (v2.y - pt.y))
        (((arcCenter v2.pos v1.pos (-v1.bulge)).x - pt.x) ^ 2 + ((arcCenter v2.pos v1.pos (-v1.bulge)).y - pt.y) ^ 2
          < arcRadius v2.pos v1.pos (-v1.bulge) ^ 2) := by
  have e : perpDotTestValue v1.pos v2.pos pt = -((v2.x - pt.x) * (v1.y - pt.y) - (v1.x - pt.x) * (v2.y - pt.y)) := by
    simp only [perpDotTestValue, Vertex.pos_x, Vertex.pos_y]; ring
  rw [arcCenter_swap _ _ _ hb.ne, arcRadius_swap]
  simp only [Pline.arcWinding, isLeftOrEqual, e, segArcRadiusAndCenter_eq v1 v2 hb.ne hne, distSquared_eq, ccwTable]
  simp only [RealScalar.le_eq, RealScalar.gt_eq, RealScalar.ge_eq, RealScalar.lt_eq, Vertex.bulgeIsPos_eq, not_lt.mpr hb.le, decide_false, if_false,
    sub_nonpos, sub_pos, ← pow_two, sub_neg, Bool.false_eq_true]
  split_ifs <;> simp_all <;> linarith

end Cavc
