import Verif.Lemmas.ArcAngle
import Verif.Props.Segment

/-! # Extreme points of arcs (helper lemmas) -/

namespace Cavc
open RealScalar

/-- On `[0, 2π]` the cosine is largest at an end of any subinterval. -/
theorem cos_le_max {a b x : ℝ} (ha : 0 ≤ a) (hax : a ≤ x) (hxb : x ≤ b) (hb : b ≤ 2 * Real.pi) :
    Real.cos x ≤ max (Real.cos a) (Real.cos b) := by
  rcases le_total x Real.pi with h | h
  · exact le_max_of_le_left (Real.cos_le_cos_of_nonneg_of_le_pi ha h hax)
  · apply le_max_of_le_right
    rw [← Real.cos_two_pi_sub x, ← Real.cos_two_pi_sub b]
    exact Real.cos_le_cos_of_nonneg_of_le_pi (by linarith) (by linarith) (by linarith)

theorem cos_congr {a b : ℝ} (h : AngleCongr a b) : Real.cos a = Real.cos b := by
  obtain ⟨k, rfl⟩ := h
  exact Real.cos_add_int_mul_two_pi b k

theorem sin_congr {a b : ℝ} (h : AngleCongr a b) : Real.sin a = Real.sin b := by
  obtain ⟨k, rfl⟩ := h
  exact Real.sin_add_int_mul_two_pi b k

theorem normalizeRadians_self {w : ℝ} (h0 : 0 ≤ w) (h1 : w ≤ 2 * Real.pi) : normalizeRadians w = w := by
  rw [normalizeRadians_eq, if_pos ⟨h0, h1⟩]

theorem between_eq (lo w m : ℝ) (h0 : 0 ≤ w) (h1 : w ≤ Real.pi) :
    angleIsBetweenEps m lo (lo + w) (1 / 100000000)
      = decide (normalizeRadians (m - lo) < w + 1 / 100000000) := by
  have hpi := Real.pi_pos
  unfold angleIsBetweenEps
  rw [show lo + w - lo = w by ring, normalizeRadians_self h0 (by linarith)]
  simp

theorem between_false {lo w m : ℝ} (h0 : 0 ≤ w) (h1 : w ≤ Real.pi)
    (h : angleIsBetweenEps m lo (lo + w) (1 / 100000000) = false) (u : ℝ) (hu0 : 0 ≤ u) (hu1 : u ≤ w) :
    Real.cos (lo + u - m) ≤ max (Real.cos (lo - m)) (Real.cos (lo + w - m)) := by
  rw [between_eq lo w m h0 h1, decide_eq_false_iff_not, not_lt] at h
  obtain ⟨⟨k, hk⟩, hn0, hn1, -⟩ := C34_normalize_radians (m - lo)
  set mid := normalizeRadians (m - lo)
  have e : ∀ y, Real.cos (lo + y - m) = Real.cos (2 * Real.pi - mid + y) := by
    intro y
    apply cos_congr
    exact ⟨k - 1, by push_cast; linarith⟩
  have e0 : Real.cos (lo - m) = Real.cos (2 * Real.pi - mid) := by
    have := e 0; simpa using this
  rw [e u, e w, e0]
  exact cos_le_max (by linarith) (by linarith) (by linarith) (by linarith)

theorem between_true {lo w m : ℝ} (h0 : 0 ≤ w) (h1 : w ≤ Real.pi)
    (h : angleIsBetweenEps m lo (lo + w) (1 / 100000000) = true) :
    ∃ u, 0 ≤ u ∧ u ≤ w ∧ 1 - (1 / 100000000) ^ 2 / 2 ≤ Real.cos (lo + u - m) := by
  rw [between_eq lo w m h0 h1, decide_eq_true_eq] at h
  obtain ⟨⟨k, hk⟩, hn0, hn1, -⟩ := C34_normalize_radians (m - lo)
  set mid := normalizeRadians (m - lo)
  have e : ∀ y, Real.cos (lo + y - m) = Real.cos (y - mid) := by
    intro y
    apply cos_congr
    exact ⟨k, by linarith⟩
  rcases le_total mid w with hm | hm
  · refine ⟨mid, hn0, hm, ?_⟩
    rw [e, sub_self, Real.cos_zero]
    norm_num
  · refine ⟨w, h0, le_refl _, ?_⟩
    rw [e]
    have := Real.one_sub_sq_div_two_le_cos (x := w - mid)
    have h2 : (w - mid) ^ 2 ≤ (1 / 100000000) ^ 2 := by
      rw [sq_le_sq, abs_of_nonpos (by linarith), abs_of_pos (by norm_num)]
      linarith
    linarith

/-- no crossing: the extreme is at an end of the arc -/
theorem crosses_false {A θ m : ℝ} (hθ : |θ| ≤ Real.pi) (h : angleIsWithinSweep m A θ = false) (s : ℝ)
    (hs0 : 0 ≤ s) (hs1 : s ≤ 1) :
    Real.cos (A + s * θ - m) ≤ max (Real.cos (A - m)) (Real.cos (A + θ - m)) := by
  unfold angleIsWithinSweep angleIsWithinSweepEps at h
  rw [abs_le] at hθ
  simp only [lt_eq, decide_eq_true_eq, fuzzyEps_eq] at h
  by_cases hneg : θ < 0
  · rw [if_pos hneg] at h
    have h' : angleIsBetweenEps m (A + θ) (A + θ + (-θ)) (1 / 100000000) = false := by
      rw [show A + θ + (-θ) = A by ring]; exact h
    have := between_false (by linarith) (by linarith) h' ((1 - s) * (-θ))
      (mul_nonneg (by linarith) (by linarith)) (by nlinarith)
    rw [show A + θ + (1 - s) * -θ - m = A + s * θ - m by ring,
      show A + θ + -θ - m = A - m by ring, max_comm] at this
    exact this
  · rw [if_neg hneg] at h
    push Not at hneg
    exact between_false hneg hθ.2 h (s * θ) (by positivity) (by nlinarith)

/-- crossing: some point of the arc is extreme, up to the angle tolerance -/
theorem crosses_true {A θ m : ℝ} (hθ : |θ| ≤ Real.pi) (h : angleIsWithinSweep m A θ = true) :
    ∃ s, 0 ≤ s ∧ s ≤ 1 ∧ 1 - (1 / 100000000) ^ 2 / 2 ≤ Real.cos (A + s * θ - m) := by
  unfold angleIsWithinSweep angleIsWithinSweepEps at h
  rw [abs_le] at hθ
  simp only [lt_eq, decide_eq_true_eq, fuzzyEps_eq] at h
  by_cases hneg : θ < 0
  · rw [if_pos hneg] at h
    have h' : angleIsBetweenEps m (A + θ) (A + θ + (-θ)) (1 / 100000000) = true := by
      rw [show A + θ + (-θ) = A by ring]; exact h
    obtain ⟨u, hu0, hu1, hc⟩ := between_true (by linarith) (by linarith) h'
    refine ⟨1 - u / (-θ), ?_, ?_, ?_⟩
    · rw [sub_nonneg, div_le_one (by linarith)]; exact hu1
    · have : 0 ≤ u / (-θ) := div_nonneg hu0 (by linarith)
      linarith
    · have e : A + (1 - u / (-θ)) * θ - m = A + θ + u - m := by
        have hne : θ ≠ 0 := hneg.ne
        field_simp; ring
      rw [e]; exact hc
  · rw [if_neg hneg] at h
    push Not at hneg
    obtain ⟨u, hu0, hu1, hc⟩ := between_true hneg hθ.2 h
    rcases hneg.eq_or_lt with h0 | hpos
    · refine ⟨0, le_refl _, zero_le_one, ?_⟩
      rw [← h0] at hu1 ⊢
      have : u = 0 := le_antisymm hu1 hu0
      rw [this] at hc
      simpa using hc
    · refine ⟨u / θ, by positivity, (div_le_one hpos).mpr hu1, ?_⟩
      rw [div_mul_cancel₀ _ hpos.ne']; exact hc

/-- polar form of the arc points -/
theorem arcPoint_polar {p q : V2 ℝ} {b : ℝ} (hb : b ≠ 0) (t : ℝ) :
    arcPoint p q b t = ⟨(arcCenter p q b).x + arcRadius p q b
        * Real.cos (angle (arcCenter p q b) p + t * (4 * Real.arctan b)),
      (arcCenter p q b).y + arcRadius p q b
        * Real.sin (angle (arcCenter p q b) p + t * (4 * Real.arctan b))⟩ := by
  rw [← pointOnCircle_eq_arcPoint hb t]; rfl

/-! ## Position relative to the chord -/

/-- An arc point in the frame of the chord: along the chord and to its right. -/
theorem arcPoint_chord (p q : V2 ℝ) (b t : ℝ) (hb : b ≠ 0) :
    let ψ := 2 * Real.arctan b
    let φ := t * ψ
    let u := Real.sin φ * Real.cos (ψ - φ) / Real.sin ψ
    let w := Real.sin φ * Real.sin (ψ - φ) / Real.sin ψ
    arcPoint p q b t = ⟨p.x + u * (q.x - p.x) + w * (q.y - p.y), p.y + u * (q.y - p.y) - w * (q.x - p.x)⟩ := by
  intro ψ φ u w
  have h1 : (1 : ℝ) + b ^ 2 ≠ 0 := by positivity
  have hs : Real.sin ψ = 2 * b / (1 + b ^ 2) := sin_two_arctan b
  have hc : Real.cos ψ = (1 - b ^ 2) / (1 + b ^ 2) := cos_two_arctan b
  have hs0 : Real.sin ψ ≠ 0 := by rw [hs]; positivity
  have hk : (1 - b ^ 2) / (4 * b) = Real.cos ψ / (2 * Real.sin ψ) := by
    rw [hs, hc]; field_simp; ring
  have h2 : t * (4 * Real.arctan b) = 2 * φ := by simp only [φ, ψ]; ring
  have hsc := Real.sin_sq_add_cos_sq φ
  rw [V2.ext_iff']
  simp only [arcPoint, rotV, arcCenter, hk, h2, u, w, Real.cos_two_mul, Real.sin_two_mul, Real.cos_sub,
    Real.sin_sub]
  generalize Real.sin φ = sφ at *
  generalize Real.cos φ = cφ at *
  generalize Real.sin ψ = sψ at *
  generalize Real.cos ψ = cψ at *
  have hsc' : cφ ^ 2 = 1 - sφ ^ 2 := by linarith
  constructor
  · field_simp
    rw [hsc']
    ring
  · field_simp
    rw [hsc']
    ring

/-- For a positive bulge of at most 1 the coordinates are within the rectangle over the chord. -/
theorem chord_coords {b t : ℝ} (hb0 : 0 < b) (hb1 : b ≤ 1) (ht0 : 0 ≤ t) (ht1 : t ≤ 1) :
    let ψ := 2 * Real.arctan b
    let φ := t * ψ
    0 ≤ Real.sin φ * Real.cos (ψ - φ) / Real.sin ψ ∧ Real.sin φ * Real.cos (ψ - φ) / Real.sin ψ ≤ 1 ∧
    0 ≤ Real.sin φ * Real.sin (ψ - φ) / Real.sin ψ ∧ Real.sin φ * Real.sin (ψ - φ) / Real.sin ψ ≤ b / 2 := by
  intro ψ φ
  have hpi := Real.pi_pos
  have hψ0 : 0 < ψ := by
    have := Real.arctan_pos.mpr hb0
    simp only [ψ]; linarith
  have hψ1 : ψ ≤ Real.pi / 2 := by
    have : Real.arctan b ≤ Real.arctan 1 := Real.arctan_strictMono.monotone hb1
    rw [Real.arctan_one] at this
    simp only [ψ]; linarith
  have hφ0 : 0 ≤ φ := by simp only [φ]; positivity
  have hφ1 : φ ≤ ψ := by simp only [φ]; nlinarith
  have hs : 0 < Real.sin ψ := Real.sin_pos_of_pos_of_lt_pi hψ0 (by linarith)
  have hsφ : 0 ≤ Real.sin φ := Real.sin_nonneg_of_nonneg_of_le_pi hφ0 (by linarith)
  have hsd : 0 ≤ Real.sin (ψ - φ) := Real.sin_nonneg_of_nonneg_of_le_pi (by linarith) (by linarith)
  have hcd : 0 ≤ Real.cos (ψ - φ) := Real.cos_nonneg_of_neg_pi_div_two_le_of_le (by linarith) (by linarith)
  have h1b : (1 : ℝ) + b ^ 2 ≠ 0 := by positivity
  refine ⟨by positivity, ?_, by positivity, ?_⟩
  · rw [div_le_one hs]
    have e : Real.sin ψ - Real.sin φ * Real.cos (ψ - φ) = Real.cos φ * Real.sin (ψ - φ) := by
      have : Real.sin ψ = Real.sin (φ + (ψ - φ)) := by congr 1; ring
      rw [this, Real.sin_add]; ring_nf
    have hcφ : 0 ≤ Real.cos φ := Real.cos_nonneg_of_neg_pi_div_two_le_of_le (by linarith) (by linarith)
    have := mul_nonneg hcφ hsd
    linarith
  · rw [div_le_iff₀ hs]
    have e : 2 * (Real.sin φ * Real.sin (ψ - φ)) = Real.cos (2 * φ - ψ) - Real.cos ψ := by
      have e1 : Real.cos (2 * φ - ψ) = Real.cos (φ - (ψ - φ)) := by congr 1; ring
      have e2 : Real.cos ψ = Real.cos (φ + (ψ - φ)) := by congr 1; ring
      rw [e1, e2, Real.cos_sub, Real.cos_add]; ring
    have hle := Real.cos_le_one (2 * φ - ψ)
    have hc : Real.cos ψ = (1 - b ^ 2) / (1 + b ^ 2) := cos_two_arctan b
    have hsn : Real.sin ψ = 2 * b / (1 + b ^ 2) := sin_two_arctan b
    have : 1 - Real.cos ψ = b * Real.sin ψ := by
      rw [hc, hsn]; field_simp; ring
    linarith

end Cavc
