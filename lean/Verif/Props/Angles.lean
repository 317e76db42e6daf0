import Verif.Spec.RealScalar

/-! # C34, C35, C36: angles, bulges and fuzzy comparisons -/

namespace Cavc
open Scalar RealScalar

/-- Specification: two angles are congruent modulo a full turn. -/
def AngleCongr (a b : ℝ) : Prop := ∃ k : ℤ, a = b + k * (2 * Real.pi)

theorem AngleCongr.refl (a : ℝ) : AngleCongr a a := ⟨0, by simp⟩
theorem AngleCongr.symm {a b : ℝ} : AngleCongr a b → AngleCongr b a
  | ⟨k, h⟩ => ⟨-k, by push_cast; linarith⟩
theorem AngleCongr.trans {a b c : ℝ} : AngleCongr a b → AngleCongr b c → AngleCongr a c
  | ⟨k, h⟩, ⟨m, h'⟩ => ⟨k + m, by push_cast; linarith⟩
theorem AngleCongr.add {a b c d : ℝ} : AngleCongr a b → AngleCongr c d → AngleCongr (a + c) (b + d)
  | ⟨k, h⟩, ⟨m, h'⟩ => ⟨k + m, by push_cast; linarith⟩
theorem AngleCongr.sub {a b c d : ℝ} : AngleCongr a b → AngleCongr c d → AngleCongr (a - c) (b - d)
  | ⟨k, h⟩, ⟨m, h'⟩ => ⟨k - m, by push_cast; linarith⟩

theorem AngleCongr.eq_of_lt {a b : ℝ} (h : AngleCongr a b) (hlt : |a - b| < 2 * Real.pi) : a = b := by
  obtain ⟨k, hk⟩ := h
  have hpi := Real.pi_pos
  rw [hk, add_sub_cancel_left, abs_mul, abs_of_pos (by positivity : (0:ℝ) < 2 * Real.pi)] at hlt
  have : |(k : ℝ)| < 1 := by
    by_contra hc
    push Not at hc
    nlinarith
  have hk0 : k = 0 := by
    have : |k| < 1 := by exact_mod_cast this
    exact Int.abs_lt_one_iff.mp this
  simp [hk, hk0]

/-- The values of `normalize_radians` in closed form. -/
theorem normalizeRadians_eq (a : ℝ) : normalizeRadians a =
    if 0 ≤ a ∧ a ≤ 2 * Real.pi then a else a - (⌊a / (2 * Real.pi)⌋ : ℝ) * (2 * Real.pi) := by
  unfold normalizeRadians
  simp only [ge_eq, le_eq, tau_eq, floor_eq, Bool.and_eq_true, decide_eq_true_eq]

theorem floor_mod_range (a : ℝ) : 0 ≤ a - (⌊a / (2 * Real.pi)⌋ : ℝ) * (2 * Real.pi) ∧
    a - (⌊a / (2 * Real.pi)⌋ : ℝ) * (2 * Real.pi) < 2 * Real.pi := by
  have hpi : 0 < 2 * Real.pi := by have := Real.pi_pos; positivity
  have h1 := Int.floor_le (a / (2 * Real.pi))
  have h2 := Int.lt_floor_add_one (a / (2 * Real.pi))
  have h3 : a = a / (2 * Real.pi) * (2 * Real.pi) := by field_simp
  constructor
  · have := mul_le_mul_of_nonneg_right h1 hpi.le
    linarith
  · have := mul_lt_mul_of_pos_right h2 hpi
    linarith

/-- **C34** `normalize_radians` gives a congruent angle in `[0, 2π]`; it is below `2π` for every
input except `2π` itself. -/
theorem C34_normalize_radians (a : ℝ) :
    AngleCongr (normalizeRadians a) a ∧ 0 ≤ normalizeRadians a ∧
      normalizeRadians a ≤ 2 * Real.pi ∧ (a ≠ 2 * Real.pi → normalizeRadians a < 2 * Real.pi) := by
  rw [normalizeRadians_eq]
  split_ifs with h
  · exact ⟨.refl a, h.1, h.2, fun h' => lt_of_le_of_ne h.2 h'⟩
  · have := floor_mod_range a
    exact ⟨⟨-⌊a / (2 * Real.pi)⌋, by push_cast; ring⟩, this.1, this.2.le, fun _ => this.2⟩

theorem deltaAngle_eq (a b : ℝ) : deltaAngle a b =
    if Real.pi < normalizeRadians (b - a) then normalizeRadians (b - a) - 2 * Real.pi
    else normalizeRadians (b - a) := by
  unfold deltaAngle
  simp only [gt_eq, pi_eq, tau_eq, decide_eq_true_eq]

/-- **C34** `delta_angle(a, b)` is the representative of `b - a` modulo a full turn that lies in
`(-π, π]`, and it is the only one. -/
theorem C34_delta_angle (a b : ℝ) :
    AngleCongr (deltaAngle a b) (b - a) ∧ -Real.pi < deltaAngle a b ∧ deltaAngle a b ≤ Real.pi ∧
      ∀ d, AngleCongr d (b - a) → -Real.pi < d → d ≤ Real.pi → d = deltaAngle a b := by
  obtain ⟨h1, h2, h3, -⟩ := C34_normalize_radians (b - a)
  have hpi := Real.pi_pos
  have hc : AngleCongr (deltaAngle a b) (b - a) := by
    rw [deltaAngle_eq]
    split_ifs
    · obtain ⟨k, hk⟩ := h1
      exact ⟨k - 1, by push_cast; linarith⟩
    · exact h1
  have hl : -Real.pi < deltaAngle a b := by rw [deltaAngle_eq]; split_ifs <;> linarith
  have hu : deltaAngle a b ≤ Real.pi := by rw [deltaAngle_eq]; split_ifs <;> linarith
  refine ⟨hc, hl, hu, fun d hd hdl hdu => ?_⟩
  apply (hd.trans hc.symm).eq_of_lt
  rw [abs_lt]; constructor <;> linarith

/-- **C34** `delta_angle_signed` has the magnitude of `delta_angle` and the requested sign. -/
theorem C34_delta_angle_signed (a b : ℝ) (neg : Bool) :
    |deltaAngleSigned a b neg| = |deltaAngle a b| ∧
      (neg = true → deltaAngleSigned a b neg ≤ 0) ∧
      (neg = false → 0 ≤ deltaAngleSigned a b neg) := by
  unfold deltaAngleSigned
  cases neg <;> simp [abs_eq]

/-- Specification: `test` is inside the counter clockwise sweep from `start` to `stop`, the sweep
extended at its end by `eps`: some `s ≥ 0` turned from `start` reaches `test` before the first
arrival at `stop` plus `eps`. -/
def CcwBetween (test start stop eps : ℝ) : Prop :=
  ∃ s w, 0 ≤ s ∧ s < 2 * Real.pi ∧ AngleCongr (start + s) test ∧
    0 ≤ w ∧ w < 2 * Real.pi ∧ AngleCongr (start + w) stop ∧ s < w + eps

/-- **C34** `angle_is_between_eps` decides membership in the counter clockwise sweep, provided that
no difference is exactly one full turn. -/
theorem C34_angle_is_between (test start stop eps : ℝ) (h1 : test - start ≠ 2 * Real.pi)
    (h2 : stop - start ≠ 2 * Real.pi) :
    angleIsBetweenEps test start stop eps = true ↔ CcwBetween test start stop eps := by
  have hb : angleIsBetweenEps test start stop eps = true ↔
      normalizeRadians (test - start) < normalizeRadians (stop - start) + eps := by
    unfold angleIsBetweenEps
    simp only [lt_eq, decide_eq_true_eq]
  rw [hb]
  obtain ⟨a1, a2, -, a4⟩ := C34_normalize_radians (test - start)
  obtain ⟨b1, b2, -, b4⟩ := C34_normalize_radians (stop - start)
  have a4 := a4 h1
  have b4 := b4 h2
  constructor
  · intro h
    refine ⟨normalizeRadians (test - start), normalizeRadians (stop - start), a2, a4, ?_, b2, b4,
      ?_, h⟩
    · obtain ⟨k, hk⟩ := a1; exact ⟨k, by linarith⟩
    · obtain ⟨k, hk⟩ := b1; exact ⟨k, by linarith⟩
  · rintro ⟨s, w, hs1, hs2, hs3, hw1, hw2, hw3, h⟩
    have e1 : normalizeRadians (test - start) = s := by
      apply AngleCongr.eq_of_lt
      · obtain ⟨k, hk⟩ := a1; obtain ⟨m, hm⟩ := hs3
        exact ⟨k - m, by push_cast; linarith⟩
      · rw [abs_lt]; constructor <;> linarith
    have e2 : normalizeRadians (stop - start) = w := by
      apply AngleCongr.eq_of_lt
      · obtain ⟨k, hk⟩ := b1; obtain ⟨m, hm⟩ := hw3
        exact ⟨k - m, by push_cast; linarith⟩
      · rw [abs_lt]; constructor <;> linarith
    rw [e1, e2]; exact h

/-- **C34** `angle_is_within_sweep_eps`: a negative sweep is the counter clockwise sweep from its
end back to its start. -/
theorem C34_angle_is_within_sweep (test start sweep eps : ℝ)
    (h0 : sweep ≠ 2 * Real.pi) (h0' : sweep ≠ -(2 * Real.pi))
    (h1 : test - start ≠ 2 * Real.pi) (h2 : test - (start + sweep) ≠ 2 * Real.pi) :
    angleIsWithinSweepEps test start sweep eps = true ↔
      if sweep < 0 then CcwBetween test (start + sweep) start eps
      else CcwBetween test start (start + sweep) eps := by
  unfold angleIsWithinSweepEps
  have : (Scalar.lt sweep 0 = true) ↔ sweep < 0 := lt_iff sweep 0
  by_cases hs : sweep < 0
  · rw [if_pos hs]
    simp only [this.mpr hs, if_true]
    exact C34_angle_is_between _ _ _ _ h2 (by
      show start - (start + sweep) ≠ _
      intro h; apply h0'; linarith)
  · have hf : Scalar.lt sweep 0 = false := by
      rw [Bool.eq_false_iff]; intro h; exact hs (this.mp h)
    rw [if_neg hs, hf]
    exact C34_angle_is_between _ _ _ _ h1 (by
      show start + sweep - start ≠ _
      intro h; apply h0; linarith)

/-- The guard of `C34_angle_is_between` is needed: at exactly one full turn the code answers
`false` although the tested angle is the start of the sweep. -/
theorem C34_full_turn_witness :
    angleIsBetweenEps (2 * Real.pi) 0 Real.pi (1 / 100000000) = false ∧
      CcwBetween (2 * Real.pi) 0 Real.pi (1 / 100000000) := by
  have hpi := Real.pi_pos
  have hpi3 := Real.two_le_pi
  constructor
  · rw [Bool.eq_false_iff]
    intro h
    have : normalizeRadians (2 * Real.pi - 0) < normalizeRadians (Real.pi - 0) + 1 / 100000000 := by
      unfold angleIsBetweenEps at h
      simp only [lt_eq, decide_eq_true_eq] at h; exact h
    rw [normalizeRadians_eq, normalizeRadians_eq, if_pos (by constructor <;> linarith),
      if_pos (by constructor <;> linarith)] at this
    linarith
  · exact ⟨0, Real.pi, le_refl _, by linarith, ⟨-1, by push_cast; ring⟩, hpi.le, by linarith,
      ⟨0, by simp⟩, by linarith⟩

/-! ## C35 -/

/-- **C35** `angle_from_bulge` and `bulge_from_angle` are inverse to each other. -/
theorem C35_inverse :
    (∀ b : ℝ, bulgeFromAngle (angleFromBulge b) = b) ∧
    (∀ a : ℝ, -(2 * Real.pi) < a → a < 2 * Real.pi → angleFromBulge (bulgeFromAngle a) = a) := by
  constructor
  · intro b
    show Real.tan (4 * Real.arctan b / 4) = b
    rw [mul_div_cancel_left₀ _ (by norm_num : (4:ℝ) ≠ 0), Real.tan_arctan]
  · intro a h1 h2
    show 4 * Real.arctan (Real.tan (a / 4)) = a
    rw [Real.arctan_tan (by linarith) (by linarith)]; ring

/-- **C35** both conversions are odd. -/
theorem C35_odd (x : ℝ) : angleFromBulge (-x) = -angleFromBulge x ∧
    bulgeFromAngle (-x) = -bulgeFromAngle x := by
  constructor
  · show 4 * Real.arctan (-x) = -(4 * Real.arctan x)
    rw [Real.arctan_neg]; ring
  · show Real.tan (-x / 4) = -Real.tan (x / 4)
    rw [neg_div, Real.tan_neg]

/-- **C35** at most half a circle exactly for bulges of magnitude at most one; the sweep is always
less than a full turn and has the sign of the bulge. -/
theorem C35_half_circle (b : ℝ) :
    (|b| ≤ 1 ↔ |angleFromBulge b| ≤ Real.pi) ∧ |angleFromBulge b| < 2 * Real.pi ∧
    (0 < b ↔ 0 < angleFromBulge b) ∧ (b < 0 ↔ angleFromBulge b < 0) := by
  have he : angleFromBulge b = 4 * Real.arctan b := rfl
  rw [he]
  have h1 := Real.arctan_lt_pi_div_two b
  have h2 := Real.neg_pi_div_two_lt_arctan b
  refine ⟨?_, ?_, ?_, ?_⟩
  · have e1 : Real.arctan 1 = Real.pi / 4 := Real.arctan_one
    have e2 : Real.arctan (-1) = -(Real.pi / 4) := by rw [Real.arctan_neg, e1]
    rw [abs_le, abs_le]
    constructor
    · rintro ⟨ha, hb⟩
      have := Real.arctan_strictMono.monotone ha
      have := Real.arctan_strictMono.monotone hb
      constructor <;> linarith
    · rintro ⟨ha, hb⟩
      constructor
      · rw [← Real.arctan_strictMono.le_iff_le]; linarith
      · rw [← Real.arctan_strictMono.le_iff_le]; linarith
  · rw [abs_lt]; constructor <;> linarith
  · constructor
    · intro h; have := Real.arctan_strictMono h; rw [Real.arctan_zero] at this; linarith
    · intro h; rw [← Real.arctan_strictMono.lt_iff_lt, Real.arctan_zero]; linarith
  · constructor
    · intro h; have := Real.arctan_strictMono h; rw [Real.arctan_zero] at this; linarith
    · intro h; rw [← Real.arctan_strictMono.lt_iff_lt, Real.arctan_zero]; linarith

/-! ## C36 -/

/-- **C36** laws of fuzzy equality. -/
theorem C36_fuzzy_eq (a b c e e' : ℝ) :
    (Scalar.fuzzyEqEps a b e = true ↔ |a - b| < e) ∧
    (0 < e → Scalar.fuzzyEqEps a a e = true) ∧
    Scalar.fuzzyEqEps a b e = Scalar.fuzzyEqEps b a e ∧
    (e ≤ e' → Scalar.fuzzyEqEps a b e = true → Scalar.fuzzyEqEps a b e' = true) ∧
    (Scalar.fuzzyEqEps a b e = true → Scalar.fuzzyEqEps b c e' = true →
      Scalar.fuzzyEqEps a c (e + e') = true) ∧
    Scalar.fuzzyEqZeroEps a e = Scalar.fuzzyEqEps a 0 e := by
  simp only [fuzzyEqEps_eq, fuzzyEqZeroEps_eq, decide_eq_true_eq]
  refine ⟨trivial, ?_, ?_, ?_, ?_, ?_⟩
  · intro h; simpa using h
  · rw [abs_sub_comm]
  · intro h1 h2; linarith
  · intro h1 h2
    have := abs_sub_le a b c
    exact lt_of_le_of_lt this (by linarith)
  · rw [sub_zero]

/-- **C36** fuzzy order: exact comparison implies the fuzzy one, one of both always holds, and both
hold exactly within the tolerance. -/
theorem C36_fuzzy_ord (a b e : ℝ) (he : 0 < e) :
    (a ≤ b → Scalar.fuzzyLtEps a b e = true) ∧ (b ≤ a → Scalar.fuzzyGtEps a b e = true) ∧
    (Scalar.fuzzyLtEps a b e = true ∨ Scalar.fuzzyGtEps a b e = true) ∧
    ((Scalar.fuzzyLtEps a b e = true ∧ Scalar.fuzzyGtEps a b e = true) ↔
      Scalar.fuzzyEqEps a b e = true) ∧
    (Scalar.fuzzyLtEps a b e = Scalar.fuzzyGtEps b a e) := by
  simp only [fuzzyEqEps_eq, fuzzyLtEps_eq, fuzzyGtEps_eq, decide_eq_true_eq]
  refine ⟨fun h => by linarith, fun h => by linarith, ?_, ?_, trivial⟩
  · rcases le_total a b with h | h
    · left; linarith
    · right; linarith
  · rw [abs_lt]
    constructor
    · rintro ⟨h1, h2⟩; constructor <;> linarith
    · rintro ⟨h1, h2⟩; constructor <;> linarith

/-- **C36** range test. -/
theorem C36_fuzzy_in_range (a lo hi e : ℝ) (he : 0 < e) :
    (lo ≤ a → a ≤ hi → Scalar.fuzzyInRangeEps a lo hi e = true) ∧
    (Scalar.fuzzyInRangeEps a lo hi e = true ↔ lo - e < a ∧ a < hi + e) := by
  simp only [fuzzyInRangeEps_eq, decide_eq_true_eq]
  refine ⟨fun h1 h2 => ⟨by linarith, by linarith⟩, ?_⟩
  constructor <;> rintro ⟨h1, h2⟩ <;> constructor <;> linarith

/-! Non-vacuity -/
example : deltaAngle 0 (3 * Real.pi / 2) = -(Real.pi / 2) := by
  have hpi := Real.pi_pos
  symm
  exact (C34_delta_angle 0 (3 * Real.pi / 2)).2.2.2 _ ⟨-1, by push_cast; ring⟩
    (by linarith) (by linarith)
example : angleFromBulge (1 : ℝ) = Real.pi := by
  show 4 * Real.arctan 1 = Real.pi
  rw [Real.arctan_one]; ring
example : (Real.pi / 2 : ℝ) - 0 ≠ 2 * Real.pi ∧ (Real.pi : ℝ) - 0 ≠ 2 * Real.pi := by
  have := Real.pi_pos
  constructor <;> intro h <;> linarith

end Cavc
