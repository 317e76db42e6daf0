import Verif.Props.Transform
import Mathlib.Analysis.SpecialFunctions.Trigonometric.Inverse

/-! # C15: arcs to approximating lines -/

set_option linter.unusedSectionVars false

namespace Cavc
open Scalar RealScalar Pline

/-! ## Chords of a circle -/

theorem sin_le_sin_of_abs {φ h : ℝ} (h1 : |φ| ≤ |h|) (h2 : |h| ≤ Real.pi / 2) :
    |Real.sin φ| ≤ |Real.sin h| := by
  have e : ∀ x : ℝ, |x| ≤ Real.pi / 2 → |Real.sin x| = Real.sin |x| := by
    intro x hx
    rcases abs_cases x with ⟨h, h0⟩ | ⟨h, h0⟩
    · rw [h, abs_of_nonneg]
      exact Real.sin_nonneg_of_nonneg_of_le_pi h0 (by rw [h] at hx; linarith [Real.pi_pos])
    · rw [h, Real.sin_neg, abs_of_nonpos]
      have := Real.sin_nonneg_of_nonneg_of_le_pi (x := -x) (by linarith)
        (by rw [h] at hx; linarith [Real.pi_pos])
      rw [Real.sin_neg] at this; linarith
  rw [e φ (h1.trans h2), e h h2]
  exact Real.sin_le_sin_of_le_of_le_pi_div_two (by linarith [abs_nonneg φ, Real.pi_pos]) h2 h1

theorem cos_abs_ge {φ h : ℝ} (h1 : |φ| ≤ |h|) (h2 : |h| ≤ Real.pi / 2) :
    Real.cos h ≤ Real.cos φ := by
  rw [← Real.cos_abs h, ← Real.cos_abs φ]
  exact Real.cos_le_cos_of_nonneg_of_le_pi (abs_nonneg _) (by linarith [Real.pi_pos]) h1

/-- the point of the chord with the same coordinate along the chord as the circle point `m + φ` -/
theorem chord_foot (r : ℝ) (hr : 0 ≤ r) (c : V2 ℝ) (m h φ l : ℝ) (hl : (2 * l - 1) * Real.sin h = Real.sin φ)
    (h1 : |φ| ≤ |h|) (h2 : |h| ≤ Real.pi / 2) :
    edist (pointOnCircle r c (m + φ))
      (linePoint (pointOnCircle r c (m - h)) (pointOnCircle r c (m + h)) l)
      ≤ r * (1 - Real.cos h) := by
  have hc := cos_abs_ge h1 h2
  have : edist (pointOnCircle r c (m + φ))
      (linePoint (pointOnCircle r c (m - h)) (pointOnCircle r c (m + h)) l)
      = r * (Real.cos φ - Real.cos h) := by
    apply edist_eq_of_sq (mul_nonneg hr (by linarith))
    simp only [pointOnCircle, linePoint, cos_eq, sin_eq, Real.cos_add, Real.sin_add, Real.cos_sub,
      Real.sin_sub, ← hl]
    have hm := Real.sin_sq_add_cos_sq m
    set C := Real.cos m
    set S := Real.sin m
    set ch := Real.cos h
    set sh := Real.sin h
    set cp := Real.cos φ
    have : ∀ x y : ℝ, x = r * (cp - ch) * C → y = r * (cp - ch) * S →
        x ^ 2 + y ^ 2 = (r * (cp - ch)) ^ 2 := by
      intro x y hx hy
      rw [hx, hy]
      have : (r * (cp - ch) * C) ^ 2 + (r * (cp - ch) * S) ^ 2
        = (r * (cp - ch)) ^ 2 * (S ^ 2 + C ^ 2) := by ring
      rw [this, hm, mul_one]
    apply this <;> ring
  rw [this]
  have := Real.cos_le_one φ
  nlinarith

/-- Every point of a circular arc of at most half a circle is within the sagitta of its chord. -/
theorem arc_near_chord (r : ℝ) (hr : 0 ≤ r) (c : V2 ℝ) (α δ s : ℝ) (hδ : |δ| ≤ Real.pi) (h0 : 0 ≤ s)
    (h1 : s ≤ 1) : ∃ l, 0 ≤ l ∧ l ≤ 1 ∧
      edist (pointOnCircle r c (α + s * δ))
        (linePoint (pointOnCircle r c α) (pointOnCircle r c (α + δ)) l)
        ≤ r * (1 - Real.cos (δ / 2)) := by
  have hφ : |(s - 1 / 2) * δ| ≤ |δ / 2| := by
    rw [abs_mul, abs_div, abs_two]
    have : |s - 1 / 2| ≤ 1 / 2 := by rw [abs_le]; constructor <;> linarith
    nlinarith [abs_nonneg δ]
  have hh : |δ / 2| ≤ Real.pi / 2 := by rw [abs_div, abs_two]; linarith
  by_cases hs : Real.sin (δ / 2) = 0
  · have := sin_le_sin_of_abs hφ hh
    rw [hs, abs_zero] at this
    have hz : Real.sin ((s - 1 / 2) * δ) = 0 := abs_nonpos_iff.mp this
    refine ⟨0, le_refl _, zero_le_one, ?_⟩
    have := chord_foot r hr c (α + δ / 2) (δ / 2) ((s - 1 / 2) * δ) 0 (by rw [hs, hz]; ring) hφ hh
    convert this using 3 <;> ring_nf
  · have hb := sin_le_sin_of_abs hφ hh
    set q := Real.sin ((s - 1 / 2) * δ) / Real.sin (δ / 2) with hq
    have hq1 : |q| ≤ 1 := by
      rw [hq, abs_div]; exact div_le_one_of_le₀ hb (abs_nonneg _)
    rw [abs_le] at hq1
    refine ⟨(q + 1) / 2, by linarith, by linarith, ?_⟩
    have := chord_foot r hr c (α + δ / 2) (δ / 2) ((s - 1 / 2) * δ) ((q + 1) / 2)
      (by rw [show 2 * ((q + 1) / 2) - 1 = q by ring, hq]; field_simp) hφ hh
    convert this using 3 <;> ring_nf

/-- Every point of the chord is within the sagitta of the arc. -/
theorem chord_near_arc (r : ℝ) (hr : 0 ≤ r) (c : V2 ℝ) (α δ l : ℝ) (hδ : |δ| ≤ Real.pi) (h0 : 0 ≤ l)
    (h1 : l ≤ 1) : ∃ s, 0 ≤ s ∧ s ≤ 1 ∧
      edist (pointOnCircle r c (α + s * δ))
        (linePoint (pointOnCircle r c α) (pointOnCircle r c (α + δ)) l)
        ≤ r * (1 - Real.cos (δ / 2)) := by
  have hh : |δ / 2| ≤ Real.pi / 2 := by rw [abs_div, abs_two]; linarith
  by_cases hz : δ = 0
  · refine ⟨0, le_refl _, zero_le_one, ?_⟩
    subst hz
    have := chord_foot r hr c α 0 0 l (by simp) (le_refl _) (by simpa using hh)
    simpa using this
  set x := (2 * l - 1) * Real.sin (δ / 2) with hx
  have hl : |2 * l - 1| ≤ 1 := by rw [abs_le]; constructor <;> linarith
  have hxs : |x| ≤ |Real.sin (δ / 2)| := by
    rw [hx, abs_mul]; nlinarith [abs_nonneg (Real.sin (δ / 2))]
  have hx1 : |x| ≤ 1 := hxs.trans (Real.abs_sin_le_one _)
  rw [abs_le] at hx1
  set φ := Real.arcsin x with hφd
  have hsin : Real.sin φ = x := Real.sin_arcsin hx1.1 hx1.2
  have hφ : |φ| ≤ |δ / 2| := by
    have e1 : |φ| = Real.arcsin |x| := by
      rcases abs_cases x with ⟨h, h0⟩ | ⟨h, h0⟩
      · rw [h, hφd, abs_of_nonneg (Real.arcsin_nonneg.mpr h0)]
      · rw [h, Real.arcsin_neg, hφd, abs_of_nonpos (Real.arcsin_nonpos.mpr h0.le)]
    have e2 : Real.arcsin |Real.sin (δ / 2)| = |δ / 2| := by
      rcases abs_cases (δ / 2) with ⟨h, h0⟩ | ⟨h, h0⟩
      · rw [h] at hh ⊢
        rw [abs_of_nonneg (Real.sin_nonneg_of_nonneg_of_le_pi h0 (by linarith [Real.pi_pos])),
          Real.arcsin_sin (by linarith [Real.pi_pos]) hh]
      · rw [h] at hh ⊢
        have : Real.sin (δ / 2) ≤ 0 :=
          Real.sin_nonpos_of_nonpos_of_neg_pi_le h0.le (by linarith [Real.pi_pos])
        rw [abs_of_nonpos this, ← Real.sin_neg, Real.arcsin_sin (by linarith [Real.pi_pos]) hh]
    rw [e1, ← e2]
    exact Real.monotone_arcsin hxs
  have hq : |φ / δ| ≤ 1 / 2 := by
    have hδp := abs_pos.mpr hz
    rw [abs_div, div_le_iff₀ hδp]
    rw [abs_div, abs_two] at hφ; linarith
  rw [abs_le] at hq
  refine ⟨φ / δ + 1 / 2, by linarith, by linarith, ?_⟩
  have := chord_foot r hr c (α + δ / 2) (δ / 2) φ l (by rw [hsin]) hφ hh
  convert this using 3
  · field_simp; ring_nf
  · ring_nf
  · ring_nf

/-! ## One segment -/

/-- The curve `γ` cut into `n` equal parts deviates from its chords by at most `tol`, in both
directions. -/
def ChordsWithin (γ : ℝ → V2 ℝ) (n : Nat) (tol : ℝ) : Prop :=
  ∀ i < n, ∀ u, 0 ≤ u → u ≤ 1 →
    (∃ l, 0 ≤ l ∧ l ≤ 1 ∧ edist (γ ((i + u) / n)) (linePoint (γ (i / n)) (γ ((i + 1) / n)) l) ≤ tol) ∧
    (∃ s, 0 ≤ s ∧ s ≤ 1 ∧ edist (γ ((i + s) / n)) (linePoint (γ (i / n)) (γ ((i + 1) / n)) u) ≤ tol)

theorem chordsWithin_arc {p q : V2 ℝ} {b : ℝ} (hb : b ≠ 0) (n : Nat) (hn : 1 ≤ n)
    (hδ : |4 * Real.arctan b / n| ≤ Real.pi) {tol : ℝ}
    (ht : arcRadius p q b * (1 - Real.cos (4 * Real.arctan b / n / 2)) ≤ tol) :
    ChordsWithin (arcPoint p q b) n tol := by
  intro i _ u h0 h1
  have hn0 : (n : ℝ) ≠ 0 := by positivity
  have e : ∀ x : ℝ, arcPoint p q b ((i + x) / n) = pointOnCircle (arcRadius p q b) (arcCenter p q b)
      (angle (arcCenter p q b) p + i / n * (4 * Real.arctan b) + x * (4 * Real.arctan b / n)) := by
    intro x
    rw [← pointOnCircle_eq_arcPoint hb]; congr 1; field_simp; ring
  have e0 : arcPoint p q b (i / n) = pointOnCircle (arcRadius p q b) (arcCenter p q b)
      (angle (arcCenter p q b) p + i / n * (4 * Real.arctan b)) := by
    have := e 0; simpa using this
  have e1 : arcPoint p q b ((i + 1) / n) = pointOnCircle (arcRadius p q b) (arcCenter p q b)
      (angle (arcCenter p q b) p + i / n * (4 * Real.arctan b) + 4 * Real.arctan b / n) := by
    have := e 1; simpa using this
  constructor
  · obtain ⟨l, h2, h3, h4⟩ := arc_near_chord (arcRadius p q b) (arcRadius_nonneg p q b)
      (arcCenter p q b) (angle (arcCenter p q b) p + i / n * (4 * Real.arctan b)) _ u hδ h0 h1
    exact ⟨l, h2, h3, by rw [e, e0, e1]; exact h4.trans ht⟩
  · obtain ⟨l, h2, h3, h4⟩ := chord_near_arc (arcRadius p q b) (arcRadius_nonneg p q b)
      (arcCenter p q b) (angle (arcCenter p q b) p + i / n * (4 * Real.arctan b)) _ u hδ h0 h1
    exact ⟨l, h2, h3, by rw [e, e0, e1]; exact h4.trans ht⟩

theorem edist_self (p : V2 ℝ) : edist p p = 0 := by simp [edist]

theorem option_mapM_some {α β : Type} {f : α → Option β} {g : α → β} :
    ∀ {l : List α}, (∀ a ∈ l, f a = some (g a)) → l.mapM f = some (l.map g)
  | [], _ => rfl
  | a :: l, h => by
    rw [List.mapM_cons, h a (by simp), option_mapM_some (fun b hb => h b (by simp [hb]))]
    rfl

/-- what the code emits for one segment -/
theorem approxLinesOfSeg_spec (err : ℝ) (he : 0 < err) (s : Vertex ℝ × Vertex ℝ)
    (h : IsLine s.1 ∨ ProperArc s.1 s.2) (l : List (Vertex ℝ))
    (hl : approxLinesOfSeg err s = some l) :
    ∃ n : Nat, 1 ≤ n ∧ l.map Vertex.pos = (List.range n).map (fun i : Nat => segCurve s.1 s.2 (i / n)) ∧
      (∀ v ∈ l, IsLine v) ∧ (IsLine s.1 → n = 1) ∧
      ChordsWithin (segCurve s.1 s.2) n (err + 1 / 100000000) := by
  obtain ⟨v1, v2⟩ := s
  dsimp only at h hl ⊢
  unfold approxLinesOfSeg at hl
  dsimp only at hl
  by_cases hline : IsLine v1
  · rw [if_pos (bulgeIsZero_true hline)] at hl
    injection hl with hl
    subst hl
    refine ⟨1, le_refl _, ?_, by simpa using hline, fun _ => rfl, ?_⟩
    · simp [(segCurve_ends v1 v2).1]
    · intro i hi u h0 h1
      have : i = 0 := by omega
      subst this
      have e : segCurve v1 v2 = linePoint v1.pos v2.pos := funext (segCurve_line hline)
      have hz : ∀ x, linePoint (segCurve v1 v2 ((0 : ℕ) / (1 : ℕ)))
          (segCurve v1 v2 (((0 : ℕ) + 1) / (1 : ℕ))) x = segCurve v1 v2 (((0 : ℕ) + x) / (1 : ℕ)) := by
        intro x
        rw [e]; simp [linePoint]
      refine ⟨⟨u, h0, h1, ?_⟩, ⟨u, h0, h1, ?_⟩⟩ <;> rw [hz, edist_self] <;> positivity
  · have hp : ProperArc v1 v2 := h.resolve_left hline
    have hb := bulge_ne_zero hline
    have hpi := abs_four_arctan_le hp.half
    have hrp := arcRadius_pos hp.ne hb
    have e : segCurve v1 v2 = arcPoint v1.pos v2.pos v1.bulge := funext (segCurve_arc hline)
    have hz0 : IsLine (⟨v1.x, v1.y, 0⟩ : Vertex ℝ) := by simp [IsLine]
    rw [if_neg (by rw [bulgeIsZero_false hline]; simp),
      segArcRadiusAndCenter_eq v1 v2 hb hp.ne] at hl
    dsimp only at hl
    set r := arcRadius v1.pos v2.pos v1.bulge with hr
    set c := arcCenter v1.pos v2.pos v1.bulge with hc
    by_cases hsmall : fuzzyLt r err = true
    · rw [if_pos hsmall] at hl
      injection hl with hl
      subst hl
      simp at hsmall
      refine ⟨1, le_refl _, ?_, by simpa using hz0, fun h' => absurd h' hline, ?_⟩
      · have := (segCurve_ends v1 v2).1
        simp only [List.range_one, List.map_cons, List.map_nil, Nat.cast_zero, zero_div, this]; rfl
      · rw [e]
        apply chordsWithin_arc hb 1 (le_refl _) (by simpa using hpi)
        have h0 : 0 ≤ Real.cos (4 * Real.arctan v1.bulge / (1 : ℕ) / 2) := by
          rw [abs_le] at hpi
          apply Real.cos_nonneg_of_neg_pi_div_two_le_of_le <;> simp <;> linarith
        have : r * (1 - Real.cos (4 * Real.arctan v1.bulge / (1 : ℕ) / 2)) ≤ r := by nlinarith
        rw [← hr]; norm_num at hsmall this ⊢; linarith
    · rw [if_neg hsmall] at hl
      simp at hsmall
      have hang := abs_deltaAngle_of_congr (angle_arcEnd hp.ne hb) hpi
      rw [← hc] at hang
      have hx0 : 0 < 1 - err / r := by
        have : err / r < 1 := by rw [div_lt_one hrp]; norm_num at hsmall; linarith
        linarith
      have hx1 : 1 - err / r < 1 := by
        have : 0 < err / r := div_pos he hrp
        linarith
      have hac : 0 < Real.arccos (1 - err / r) := Real.arccos_pos.mpr hx1
      have hac2 : Real.arccos (1 - err / r) ≤ Real.pi / 2 := Real.arccos_le_pi_div_two.mpr hx0.le
      simp only [RealScalar.abs_eq, RealScalar.acos_eq, two_eq, ceil_eq, hang, abs_of_pos he,
        abs_of_pos hac] at hl
      set sub := 2 * Real.arccos (1 - err / r) with hsub
      set θ := |4 * Real.arctan v1.bulge| with hθ
      have hsubp : 0 < sub := by positivity
      have hθp : 0 < θ := by
        rw [hθ, abs_pos]
        have : Real.arctan v1.bulge ≠ 0 := by rwa [Ne, Real.arctan_eq_zero_iff]
        positivity
      have hq : 0 < θ / sub := div_pos hθp hsubp
      have hceil : 0 < ⌈θ / sub⌉ := Int.ceil_pos.mpr hq
      obtain ⟨n, hn⟩ := Int.eq_ofNat_of_zero_le hceil.le
      have hn1 : 1 ≤ n := by omega
      have hnR : ((⌈θ / sub⌉ : ℤ) : ℝ) = n := by rw [hn]; simp
      have hge : θ / sub ≤ n := by rw [← hnR]; exact Int.le_ceil _
      simp only [hnR, ofUsize_eq, Option.map_some] at hl
      have hn0 : (n : ℝ) ≠ 0 := by positivity
      have hoff : (if v1.bulgeIsNeg = true then -θ / (n : ℝ) else θ / n) = 4 * Real.arctan v1.bulge / n := by
        by_cases hneg : v1.bulge < 0
        · have : 4 * Real.arctan v1.bulge < 0 := by
            have := Real.arctan_lt_zero.mpr hneg; linarith
          simp [hneg, hθ, abs_of_neg this]
        · have : 0 ≤ 4 * Real.arctan v1.bulge := by
            have := Real.arctan_nonneg.mpr (not_lt.mp hneg); linarith
          rw [if_neg (by simpa using hneg), hθ, abs_of_nonneg this]
      rw [hoff] at hl
      cases hu : toUsize (n : ℝ) with
      | none => rw [hu] at hl; simp at hl
      | some m =>
        rw [hu] at hl
        dsimp only at hl
        have hm : m = n := by
          simp only [toUsize] at hu
          split_ifs at hu
          injection hu with hu
          rw [← hu]; simp
        subst hm
        rw [option_mapM_some (g := fun i : Nat =>
          (⟨(segCurve v1 v2 (i / m)).x, (segCurve v1 v2 (i / m)).y, 0⟩ : Vertex ℝ))] at hl
        · simp only [Option.map_some, Option.some.injEq] at hl
          subst hl
          refine ⟨m, hn1, ?_, ?_, fun h' => absurd h' hline, ?_⟩
          · obtain ⟨k, rfl⟩ : ∃ k, m = k + 1 := ⟨m - 1, by omega⟩
            rw [List.range_eq_range', List.range'_succ]
            simp only [List.map_cons, List.map_map, Nat.cast_zero, zero_div,
              (segCurve_ends v1 v2).1, Nat.add_sub_cancel, zero_add]
            rfl
          · intro v hv
            simp only [List.mem_cons, List.mem_map] at hv
            rcases hv with rfl | ⟨i, -, rfl⟩
            · exact hz0
            · simp [IsLine]
          · rw [e]
            have hδ : |4 * Real.arctan v1.bulge / m| ≤ sub := by
              rw [abs_div, Nat.abs_cast, ← hθ, div_le_iff₀ (by positivity)]
              rw [div_le_iff₀ hsubp] at hge; linarith
            apply chordsWithin_arc hb m hn1 (hδ.trans (by linarith))
            have : Real.cos (Real.arccos (1 - err / r)) ≤ Real.cos (4 * Real.arctan v1.bulge / m / 2) := by
              rw [← Real.cos_abs (4 * Real.arctan v1.bulge / m / 2)]
              apply Real.cos_le_cos_of_nonneg_of_le_pi (abs_nonneg _) (by linarith [Real.pi_pos])
              rw [abs_div, abs_two]; linarith
            rw [Real.cos_arccos (by linarith) hx1.le] at this
            have h3 : r * (1 - Real.cos (4 * Real.arctan v1.bulge / m / 2)) ≤ r * (err / r) :=
              mul_le_mul_of_nonneg_left (by linarith) hrp.le
            rw [mul_div_cancel₀ _ hrp.ne'] at h3
            norm_num at h3 ⊢; linarith
        · intro i _
          have h4 := pointOnCircle_eq_arcPoint (p := v1.pos) (q := v2.pos) hb ((i : ℝ) / m)
          rw [← hr, ← hc] at h4
          rw [e, ← h4]
          congr 1
          have : (i : ℝ) * (4 * Real.arctan v1.bulge / m) + angle c v1.pos
            = angle c v1.pos + i / m * (4 * Real.arctan v1.bulge) := by ring
          rw [this]

/-! ## The whole polyline -/

theorem pathSegs_append_cons {α : Type} : ∀ (l l' : List α) (a : α),
    pathSegs (l ++ a :: l') = pathSegs (l ++ [a]) ++ pathSegs (a :: l')
  | [], l', a => by simp [pathSegs]
  | [x], l', a => by simp [pathSegs]
  | x :: y :: l, l', a => by
    have := pathSegs_append_cons (y :: l) l' a
    simp only [List.cons_append] at this ⊢
    simp only [pathSegs, this, List.cons_append]

theorem option_mapM_eq_some {α β : Type} {f : α → Option β} :
    ∀ {l : List α} {r : List β}, l.mapM f = some r → l.length = r.length ∧
      ∀ (i : Nat) a b, l[i]? = some a → r[i]? = some b → f a = some b
  | [], r, h => by
    have : r = [] := by simpa using h.symm
    subst this; simp
  | a :: l, r, h => by
    rw [List.mapM_cons] at h
    cases hb : f a with
    | none => rw [hb] at h; simp at h
    | some b =>
      cases hr : l.mapM f with
      | none => rw [hb, hr] at h; simp at h
      | some r' =>
        rw [hb, hr] at h
        have : r = b :: r' := by simpa using h.symm
        subst this
        obtain ⟨h1, h2⟩ := option_mapM_eq_some hr
        refine ⟨by simp [h1], ?_⟩
        rintro (_ | i) x y hx hy
        · simp at hx hy; rw [← hx, ← hy, hb]
        · simp at hx hy; exact h2 i x y hx hy

/-- The pieces of one source segment: its curve cut at `i / n`. -/
noncomputable def cutChords (s : Vertex ℝ × Vertex ℝ) (n : Nat) : List (V2 ℝ × V2 ℝ) :=
  (List.range n).map fun i : Nat => (segCurve s.1 s.2 (i / n), segCurve s.1 s.2 ((i + 1) / n))

theorem pathSegs_range (g : Nat → V2 ℝ) (n : Nat) :
    pathSegs ((List.range n).map g ++ [g n]) = (List.range n).map fun i => (g i, g (i + 1)) := by
  rw [show (List.range n).map g ++ [g n] = (List.range (n + 1)).map g by
    rw [List.range_succ, List.map_append]; rfl]
  induction n with
  | zero => rfl
  | succ n ih =>
    rw [List.range_succ, List.map_append, List.map_singleton]
    conv_lhs => rw [List.range_succ, List.map_append, List.map_singleton, List.append_assoc]
    rw [List.singleton_append, pathSegs_append_cons, ← List.map_singleton, ← List.map_append,
      ← List.range_succ, ih, List.range_succ]
    simp [pathSegs]

theorem cutChords_eq (s : Vertex ℝ × Vertex ℝ) (n : Nat) (hn : 1 ≤ n) :
    pathSegs ((List.range n).map (fun i : Nat => segCurve s.1 s.2 (i / n)) ++ [s.2.pos])
      = cutChords s n := by
  have h0 : (n : ℝ) ≠ 0 := by positivity
  have := pathSegs_range (fun i : Nat => segCurve s.1 s.2 (i / n)) n
  rw [div_self h0, (segCurve_ends s.1 s.2).2] at this
  rw [cutChords, this]
  simp

/-- the positions emitted along a vertex chain -/
theorem chain_chords (cut : Vertex ℝ × Vertex ℝ → Nat) : ∀ (l : List (Vertex ℝ)) (last : Vertex ℝ),
    (∀ s ∈ pathSegs (l ++ [last]), 1 ≤ cut s) →
    pathSegs (((pathSegs (l ++ [last])).map fun s =>
        (List.range (cut s)).map (fun i : Nat => segCurve s.1 s.2 (i / cut s))).flatten ++ [last.pos])
      = ((pathSegs (l ++ [last])).map fun s => cutChords s (cut s)).flatten
  | [], last, _ => rfl
  | [a], last, h => by
    simp only [List.cons_append, List.nil_append, pathSegs, List.map_cons, List.map_nil,
      List.flatten_cons, List.flatten_nil, List.append_nil]
    exact cutChords_eq (a, last) _ (h _ (by simp [pathSegs]))
  | a :: b :: l, last, h => by
    have hab := h (a, b) (by simp [pathSegs])
    have ih := chain_chords cut (b :: l) last (fun s hs => h s (by
      simp only [List.cons_append, pathSegs, List.mem_cons] at hs ⊢; exact Or.inr hs))
    have e : pathSegs (a :: b :: l ++ [last]) = (a, b) :: pathSegs (b :: l ++ [last]) := by
      simp [pathSegs]
    rw [e, List.map_cons, List.flatten_cons, List.map_cons, List.flatten_cons, ← ih,
      ← cutChords_eq _ _ hab, List.append_assoc]
    -- the tail starts at the position of `b`
    have htail : ∃ t, ((pathSegs (b :: l ++ [last])).map fun s =>
        (List.range (cut s)).map (fun i : Nat => segCurve s.1 s.2 (i / cut s))).flatten ++ [last.pos]
        = b.pos :: t := by
      obtain ⟨c, t', hc⟩ : ∃ c t', l ++ [last] = c :: t' := by
        cases l with
        | nil => exact ⟨last, [], rfl⟩
        | cons c t => exact ⟨c, t ++ [last], rfl⟩
      have hbc := h (b, c) (by simp [pathSegs, hc])
      obtain ⟨k, hk⟩ : ∃ k, cut (b, c) = k + 1 := ⟨cut (b, c) - 1, by omega⟩
      simp only [List.cons_append, hc, pathSegs, List.map_cons, List.flatten_cons, hk,
        List.range_succ_eq_map, Nat.cast_zero, zero_div, (segCurve_ends b c).1]
      exact ⟨_, rfl⟩
    obtain ⟨t, ht⟩ := htail
    rw [ht, pathSegs_append_cons]

/-- **C15** The result of `arcs_to_approx_lines`: same closed flag; only line segments; its vertexes
are, for each source segment in order, the points at equal parameter steps of the segment's curve
(one point, the start, for a line segment), followed by the last vertex when open. -/
theorem C15_approx_lines (p q : Pline ℝ) (err : ℝ) (he : 0 < err) (h2 : 2 ≤ p.verts.length)
    (h : ∀ s ∈ p.segs, IsLine s.1 ∨ ProperArc s.1 s.2)
    (hq : p.arcsToApproxLines err = .ok (some q)) :
    q.closed = p.closed ∧ (∀ s ∈ q.segs, IsLine s.1) ∧
    ∃ cut : Vertex ℝ × Vertex ℝ → Nat, (∀ s ∈ p.segs, 1 ≤ cut s) ∧
      (∀ s ∈ p.segs, IsLine s.1 → cut s = 1) ∧
      q.verts.map Vertex.pos = (p.segs.map fun s =>
        (List.range (cut s)).map (fun i : Nat => segCurve s.1 s.2 (i / cut s))).flatten
          ++ (if p.closed then [] else (p.verts.getLast?.map Vertex.pos).toList) ∧
      q.segs.map (fun s => (s.1.pos, s.2.pos))
        = (p.segs.map fun s => cutChords s (cut s)).flatten ∧
      ∀ s ∈ p.segs, ChordsWithin (segCurve s.1 s.2) (cut s) (err + 1 / 100000000) := by
  unfold arcsToApproxLines at hq
  rw [if_neg (by simp [isEmpty, vertexCount]; intro h0; simp [h0] at h2)] at hq
  cases hm : p.segs.mapM (approxLinesOfSeg err) with
  | none => rw [hm] at hq; simp at hq
  | some ls =>
    rw [hm] at hq
    dsimp only at hq
    obtain ⟨hlen, hget⟩ := option_mapM_eq_some hm
    -- the cut count of a segment
    classical
    have hex : ∀ s, ∃ n : Nat, s ∈ p.segs → ∀ l, approxLinesOfSeg err s = some l → 1 ≤ n ∧
        l.map Vertex.pos = (List.range n).map (fun i : Nat => segCurve s.1 s.2 (i / n)) ∧
        (∀ v ∈ l, IsLine v) ∧ (IsLine s.1 → n = 1) ∧
        ChordsWithin (segCurve s.1 s.2) n (err + 1 / 100000000) := by
      intro s
      by_cases hs : s ∈ p.segs
      · cases hl : approxLinesOfSeg err s with
        | none => exact ⟨0, fun _ l hl' => by simp at hl'⟩
        | some l =>
          obtain ⟨n, hn⟩ := approxLinesOfSeg_spec err he s (h s hs) l hl
          exact ⟨n, fun _ l' hl' => by injection hl' with hl'; rw [← hl']; exact hn⟩
      · exact ⟨0, fun hs' => absurd hs' hs⟩
    choose cut hcut using hex
    have hsome : ∀ s ∈ p.segs, ∃ l, approxLinesOfSeg err s = some l := by
      intro s hs
      obtain ⟨i, hi⟩ := List.getElem?_of_mem hs
      have hi' : i < ls.length := by
        rw [← hlen]; exact (List.getElem?_eq_some_iff.mp hi).1
      exact ⟨_, hget i s _ hi (List.getElem?_eq_getElem hi')⟩
    have hcut' : ∀ s ∈ p.segs, 1 ≤ cut s ∧ (IsLine s.1 → cut s = 1) ∧
        ChordsWithin (segCurve s.1 s.2) (cut s) (err + 1 / 100000000) := by
      intro s hs
      obtain ⟨l, hl⟩ := hsome s hs
      have := hcut s hs l hl
      exact ⟨this.1, this.2.2.2.1, this.2.2.2.2⟩
    have hpos : ls.map (List.map Vertex.pos) = p.segs.map fun s =>
        (List.range (cut s)).map (fun i : Nat => segCurve s.1 s.2 (i / cut s)) := by
      apply List.ext_getElem?
      intro i
      rw [List.getElem?_map, List.getElem?_map]
      by_cases hi : i < ls.length
      · have hi' : i < p.segs.length := by omega
        rw [List.getElem?_eq_getElem hi, List.getElem?_eq_getElem hi']
        have := hget i _ _ (List.getElem?_eq_getElem hi') (List.getElem?_eq_getElem hi)
        simp only [Option.map_some]
        rw [(hcut _ (List.getElem_mem hi') _ this).2.1]
      · rw [List.getElem?_eq_none (by omega), List.getElem?_eq_none (by omega)]; rfl
    have hflat : ls.flatten.map Vertex.pos = (p.segs.map fun s =>
        (List.range (cut s)).map (fun i : Nat => segCurve s.1 s.2 (i / cut s))).flatten := by
      rw [List.map_flatten, hpos]
    have hline : ∀ v ∈ ls.flatten, IsLine v := by
      intro v hv
      obtain ⟨l, hl, hv⟩ := List.mem_flatten.mp hv
      obtain ⟨i, hi⟩ := List.getElem?_of_mem hl
      have hi' : i < p.segs.length := by
        rw [hlen]; exact (List.getElem?_eq_some_iff.mp hi).1
      have := hget i _ _ (List.getElem?_eq_getElem hi') hi
      exact (hcut _ (List.getElem_mem hi') _ this).2.2.1 v hv
    have hfl : 1 ≤ p.segs.length ∧ (p.closed = true → 2 ≤ p.segs.length) := by
      rw [segs_length]; unfold segmentCount vertexCount
      dsimp only
      rw [if_neg (by omega)]
      split_ifs with hc <;> simp [hc] <;> omega
    have hflen : p.segs.length ≤ ls.flatten.length := by
      have e1 : ls.flatten.length = (ls.flatten.map Vertex.pos).length := List.length_map _ |>.symm
      rw [e1, hflat, List.length_flatten, List.map_map]
      have hle : ∀ l : List (Vertex ℝ × Vertex ℝ), (∀ s ∈ l, 1 ≤ cut s) → l.length ≤
          (l.map (List.length ∘ fun s => (List.range (cut s)).map
            (fun i : Nat => segCurve s.1 s.2 (i / cut s)))).sum := by
        intro l hl
        induction l with
        | nil => simp
        | cons a l ih =>
          have h1 := hl a (by simp)
          have h2 := ih (fun s hs => hl s (by simp [hs]))
          simp only [List.map_cons, List.sum_cons, List.length_cons, Function.comp_apply,
            List.length_map, List.length_range] at h2 ⊢
          omega
      exact hle _ fun s hs => (hcut' s hs).1
    -- the vertex chain whose pairs are the source segments
    obtain ⟨l0, last, hchain, hlast⟩ : ∃ l0 last, p.loopVerts = l0 ++ [last] ∧
        (if p.closed then p.verts.head? else p.verts.getLast?) = some last := by
      unfold loopVerts
      rw [if_neg (by omega)]
      by_cases hc : p.closed = true
      · rw [if_pos hc, if_pos hc]
        cases hv : p.verts with
        | nil => simp [hv] at h2
        | cons v r => exact ⟨v :: r, v, by simp, by simp⟩
      · rw [if_neg hc, if_neg hc]
        rcases List.eq_nil_or_concat p.verts with h0 | ⟨l, a, h0⟩
        · simp [h0] at h2
        · rw [h0, List.concat_eq_append]; exact ⟨l, a, rfl, by simp⟩
    have hchords := chain_chords cut l0 last (by
      intro s hs; rw [← hchain, ← segs_eq] at hs; exact (hcut' s hs).1)
    rw [← hchain, ← segs_eq, ← hflat] at hchords
    by_cases hc : p.closed = true
    · rw [if_neg (by simp [hc])] at hq
      simp only [Except.ok.injEq, Option.some.injEq] at hq
      subst hq
      have hlen2 : ¬ ls.flatten.length < 2 := by have := hfl.2 hc; omega
      refine ⟨rfl, ?_, cut, fun s hs => (hcut' s hs).1, fun s hs => (hcut' s hs).2.1, ?_, ?_,
        fun s hs => (hcut' s hs).2.2⟩
      · intro s hs
        obtain ⟨i, hi⟩ := List.getElem?_of_mem hs
        obtain ⟨a, b, h1, -, h3⟩ := segs_getElem? (⟨ls.flatten, p.closed⟩ : Pline ℝ) i (by
          rw [← segs_length]; exact (List.getElem?_eq_some_iff.mp hi).1)
        rw [h3] at hi
        injection hi with hi
        rw [← hi]
        exact hline a (List.mem_of_getElem? h1)
      · rw [if_pos hc, List.append_nil]; exact hflat
      · rw [← hchords, segs_eq]
        unfold loopVerts
        rw [if_neg hlen2, if_pos hc, ← pathSegs_map]
        congr 1
        rw [List.map_append]
        congr 1
        rw [if_pos hc] at hlast
        -- first emitted vertex
        cases hv : p.verts with
        | nil => simp [hv] at h2
        | cons v r =>
          rw [hv] at hlast
          simp only [List.head?_cons, Option.some.injEq] at hlast
          subst hlast
          have hs0 : ∃ b r', p.segs = (v, b) :: r' := by
            cases r with
            | nil => simp [hv] at h2
            | cons b r => exact ⟨b, pathSegs (b :: r ++ [v]), by simp [segs, hv, hc, pathSegs]⟩
          obtain ⟨b, r', hs0⟩ := hs0
          have h1 := (hcut' (v, b) (by simp [hs0])).1
          obtain ⟨k, hk⟩ : ∃ k, cut (v, b) = k + 1 := ⟨cut (v, b) - 1, by omega⟩
          show List.map Vertex.pos (ls.flatten.take 1) = [v.pos]
          rw [List.map_take, hflat, hs0]
          simp only [List.map_cons, List.flatten_cons, hk, List.range_succ_eq_map, Nat.cast_zero,
            zero_div, (segCurve_ends v b).1, List.cons_append]
          rfl
    · rw [if_neg hc] at hlast
      rw [if_pos (by simpa using hc)] at hq
      have hl : p.last = some last := hlast
      rw [hl] at hq
      simp only [unwrap, bind, Except.bind, Except.ok.injEq, Option.some.injEq] at hq
      subst hq
      refine ⟨rfl, ?_, cut, fun s hs => (hcut' s hs).1, fun s hs => (hcut' s hs).2.1, ?_, ?_,
        fun s hs => (hcut' s hs).2.2⟩
      · intro s hs
        obtain ⟨i, hi⟩ := List.getElem?_of_mem hs
        have hi' : i < (⟨ls.flatten ++ [last], p.closed⟩ : Pline ℝ).segmentCount := by
          rw [← segs_length]; exact (List.getElem?_eq_some_iff.mp hi).1
        obtain ⟨a, b, h1, -, h3⟩ := segs_getElem? _ i hi'
        rw [h3] at hi
        injection hi with hi
        rw [← hi]
        unfold segmentCount vertexCount at hi'
        have hi'' : i < ls.flatten.length := by
          simp only [hc, Bool.false_eq_true, if_false] at hi'
          rw [List.length_append, List.length_singleton] at hi'
          split_ifs at hi' <;> omega
        have h1 : (ls.flatten ++ [last])[i]? = some a := h1
        rw [List.getElem?_append_left hi''] at h1
        exact hline a (List.mem_of_getElem? h1)
      · rw [if_neg hc, hlast]
        show (ls.flatten ++ [last]).map Vertex.pos = _
        rw [List.map_append, hflat]; rfl
      · rw [← hchords, segs_eq]
        unfold loopVerts
        rw [if_neg (by
          show ¬ (ls.flatten ++ [last]).length < 2
          rw [List.length_append, List.length_singleton]; omega), if_neg hc, ← pathSegs_map]
        show pathSegs ((ls.flatten ++ [last]).map Vertex.pos) = _
        rw [List.map_append]; rfl

/-- **C15** Approximation error: every point of the source is within `error_distance` (plus the
default epsilon) of the result and every point of the result is as near to the source. -/
theorem C15_error (p q : Pline ℝ) (err : ℝ) (he : 0 < err) (h2 : 2 ≤ p.verts.length)
    (h : ∀ s ∈ p.segs, IsLine s.1 ∨ ProperArc s.1 s.2)
    (hq : p.arcsToApproxLines err = .ok (some q)) :
    (∀ a, OnPline p a → ∃ b, OnPline q b ∧ edist a b ≤ err + 1 / 100000000) ∧
    (∀ b, OnPline q b → ∃ a, OnPline p a ∧ edist a b ≤ err + 1 / 100000000) := by
  obtain ⟨-, hline, cut, h1, -, -, hsegs, hchord⟩ := C15_approx_lines p q err he h2 h hq
  constructor
  · rintro a ⟨s, hs, t, h0, ht1, rfl⟩
    have hn := h1 s hs
    have hn0 : (0 : ℝ) < cut s := by exact_mod_cast hn
    -- the part that contains the parameter
    obtain ⟨i, hi, hu0, hu1⟩ : ∃ i : Nat, i < cut s ∧ 0 ≤ t * cut s - i ∧ t * cut s - i ≤ 1 := by
      by_cases ht : t = 1
      · refine ⟨cut s - 1, by omega, ?_, ?_⟩ <;> subst ht <;> push_cast [Nat.cast_sub hn] <;> linarith
      · have hx : 0 ≤ t * cut s := mul_nonneg h0 hn0.le
        refine ⟨⌊t * cut s⌋₊, ?_, ?_, ?_⟩
        · rw [Nat.floor_lt hx]
          have : t < 1 := lt_of_le_of_ne ht1 ht
          nlinarith
        · linarith [Nat.floor_le hx]
        · linarith [Nat.lt_floor_add_one (t * cut s)]
    obtain ⟨l, hl0, hl1, hd⟩ := (hchord s hs i hi _ hu0 hu1).1
    have hmem : (segCurve s.1 s.2 (i / cut s), segCurve s.1 s.2 ((i + 1) / cut s))
        ∈ q.segs.map (fun s => (s.1.pos, s.2.pos)) := by
      rw [hsegs, List.mem_flatten]
      refine ⟨_, List.mem_map.mpr ⟨s, hs, rfl⟩, ?_⟩
      exact List.mem_map.mpr ⟨i, List.mem_range.mpr hi, rfl⟩
    obtain ⟨s', hs', he'⟩ := List.mem_map.mp hmem
    simp only [Prod.mk.injEq] at he'
    refine ⟨_, ⟨s', hs', l, hl0, hl1, rfl⟩, ?_⟩
    rw [segCurve_line (hline s' hs')]
    rw [← he'.1, ← he'.2, show ((i : ℝ) + (t * cut s - i)) / cut s = t by field_simp; ring] at hd
    exact hd
  · rintro b ⟨s', hs', u, h0, hu1, rfl⟩
    have hmem : (s'.1.pos, s'.2.pos) ∈ (p.segs.map fun s => cutChords s (cut s)).flatten := by
      rw [← hsegs]; exact List.mem_map.mpr ⟨s', hs', rfl⟩
    obtain ⟨l, hl, hmem⟩ := List.mem_flatten.mp hmem
    obtain ⟨s, hs, rfl⟩ := List.mem_map.mp hl
    obtain ⟨i, hi, he'⟩ := List.mem_map.mp hmem
    simp only [Prod.mk.injEq] at he'
    have hi := List.mem_range.mp hi
    obtain ⟨v, hv0, hv1, hd⟩ := (hchord s hs i hi u h0 hu1).2
    have hn0 : (0 : ℝ) < cut s := by exact_mod_cast h1 s hs
    have hi' : (i : ℝ) + 1 ≤ cut s := by exact_mod_cast hi
    refine ⟨_, ⟨s, hs, (i + v) / cut s, by positivity, ?_, rfl⟩, ?_⟩
    · rw [div_le_one hn0]; linarith
    · rw [segCurve_line (hline s' hs')]
      rw [he'.1, he'.2] at hd
      exact hd

/-- **C15** It only fails when an arc would need `2^64` or more pieces, and it never panics. -/
theorem C15_total (p : Pline ℝ) (err : ℝ) (he : 0 < err)
    (h : ∀ s ∈ p.segs, IsLine s.1 ∨ (ProperArc s.1 s.2 ∧
      |4 * Real.arctan s.1.bulge| / (2 * Real.arccos (1 - err / arcRadius s.1.pos s.2.pos s.1.bulge))
        < 2 ^ 64 - 1)) :
    ∃ q, p.arcsToApproxLines err = .ok (some q) := by
  have hex : ∀ s ∈ p.segs, ∃ l, approxLinesOfSeg err s = some l := by
    intro s hs
    obtain ⟨v1, v2⟩ := s
    unfold approxLinesOfSeg
    dsimp only
    by_cases hline : IsLine v1
    · rw [if_pos (bulgeIsZero_true hline)]; exact ⟨_, rfl⟩
    · obtain ⟨hp, hlt⟩ := (h _ hs).resolve_left hline
      dsimp only at hp hlt
      have hb := bulge_ne_zero hline
      have hpi := abs_four_arctan_le hp.half
      have hang := abs_deltaAngle_of_congr (angle_arcEnd hp.ne hb) hpi
      rw [if_neg (by rw [bulgeIsZero_false hline]; simp),
        segArcRadiusAndCenter_eq v1 v2 hb hp.ne]
      dsimp only
      split
      · exact ⟨_, rfl⟩
      · simp only [RealScalar.abs_eq, RealScalar.acos_eq, two_eq, ceil_eq, hang, abs_of_pos he,
          abs_of_nonneg (Real.arccos_nonneg _), ofUsize_eq, Option.map_some]
        set x := |4 * Real.arctan v1.bulge|
          / (2 * Real.arccos (1 - err / arcRadius v1.pos v2.pos v1.bulge)) with hx
        have hx0 : 0 ≤ x := div_nonneg (abs_nonneg _) (by have := Real.arccos_nonneg (1 - err / arcRadius v1.pos v2.pos v1.bulge); positivity)
        have hc0 : (0 : ℝ) ≤ ⌈x⌉ := by exact_mod_cast Int.ceil_nonneg hx0
        have hc1 : (⌈x⌉ : ℝ) < 2 ^ 64 := by linarith [Int.ceil_lt_add_one x]
        have hu : toUsize ((⌈x⌉ : ℤ) : ℝ) = some ⌊((⌈x⌉ : ℤ) : ℝ)⌋₊ := by
          simp only [toUsize]
          rw [if_neg]
          push Not
          exact ⟨by linarith, hc1⟩
        rw [hu]
        dsimp only
        rw [option_mapM_some (fun _ _ => rfl)]
        exact ⟨_, rfl⟩
  unfold arcsToApproxLines
  split
  · exact ⟨_, rfl⟩
  · rename_i hne
    have hm : ∃ ls, p.segs.mapM (approxLinesOfSeg err) = some ls := by
      classical
      refine ⟨_, option_mapM_some (g := fun s => (approxLinesOfSeg err s).getD []) ?_⟩
      intro s hs
      obtain ⟨l, hl⟩ := hex s hs
      rw [hl]; rfl
    obtain ⟨ls, hls⟩ := hm
    rw [hls]
    dsimp only
    split
    · have : p.verts ≠ [] := by
        intro h0; simp [isEmpty, vertexCount, h0] at hne
      have hl : p.last = some (p.verts.getLast this) := List.getLast?_eq_some_getLast this
      rw [hl]
      exact ⟨_, rfl⟩
    · exact ⟨_, rfl⟩

/-- **C15** (finding) A closed polyline with a single vertex loses it. -/
theorem C15_single_closed_witness (v : Vertex ℝ) (err : ℝ) :
    (⟨[v], true⟩ : Pline ℝ).arcsToApproxLines err = .ok (some ⟨[], true⟩) := by
  simp [arcsToApproxLines, isEmpty, vertexCount, segs]

/-- Non-vacuity: a closed circle of two half circle arcs of radius 1 meets the hypotheses of
`C15_total` with error distance 1/2, hence those of the other theorems. -/
example : let p : Pline ℝ := ⟨[⟨0, 0, 1⟩, ⟨2, 0, 1⟩], true⟩
    2 ≤ p.verts.length ∧ (∀ s ∈ p.segs, ProperArc s.1 s.2) ∧
      ∃ q, p.arcsToApproxLines (1 / 2) = .ok (some q) := by
  have hs : ∀ s ∈ (⟨[⟨0, 0, 1⟩, ⟨2, 0, 1⟩], true⟩ : Pline ℝ).segs, ProperArc s.1 s.2 := by
    intro s hs
    simp [segs, pathSegs] at hs
    rcases hs with rfl | rfl
    · refine ⟨?_, by norm_num, ?_⟩
      · simp [IsLine]; norm_num
      · simp [V2.ext_iff']
    · refine ⟨?_, by norm_num, ?_⟩
      · simp [IsLine]; norm_num
      · simp [V2.ext_iff']
  refine ⟨by simp, hs, C15_total _ _ (by norm_num) ?_⟩
  intro s hs'
  refine Or.inr ⟨hs s hs', ?_⟩
  have hr : arcRadius s.1.pos s.2.pos s.1.bulge = 1 ∧ s.1.bulge = 1 := by
    simp [segs, pathSegs] at hs'
    rcases hs' with rfl | rfl <;>
    · simp only [arcRadius, edist, Vertex.pos]
      norm_num
      rw [show (4 : ℝ) = 2 ^ 2 by norm_num, Real.sqrt_sq (by norm_num)]; norm_num
  rw [hr.1, hr.2, Real.arctan_one,
    show (1 : ℝ) - 1 / 2 / 1 = 1 / 2 by norm_num,
    show Real.arccos (1 / 2) = Real.pi / 3 by
      rw [← Real.cos_pi_div_three, Real.arccos_cos] <;> linarith [Real.pi_pos]]
  have hpi := Real.pi_pos
  rw [show 4 * (Real.pi / 4) = Real.pi by ring, abs_of_pos hpi,
    show Real.pi / (2 * (Real.pi / 3)) = 3 / 2 by field_simp]
  norm_num

end Cavc
