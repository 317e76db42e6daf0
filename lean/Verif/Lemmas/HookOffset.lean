import Verif.Lemmas.Hook
import Verif.Lemmas.OpenFound
import Verif.Lemmas.HouseOffset

/-! # Example: the parallel offset of the hook -/

set_option linter.unusedVariables false

namespace Cavc
open RealScalar Pline

/-! ## Straight segments and circles -/

/-- a segment whose line clearly misses the circle -/
theorem circle_far {s : Vertex ℝ × Vertex ℝ} {ct : V2 ℝ} {r eps : ℝ} (he : 0 < eps) (hr : 0 ≤ r) (hl : IsLine s.1) (hw : LineOk s.1.pos s.2.pos eps)
    (h : ∀ t, r + 2 * eps < edist (linePoint s.1.pos s.2.pos t) ct) : FindsCircle s ct r eps := by
  have spec := C25_line_circle s.1.pos s.2.pos r ct eps hr he hw.1 hw.2
  constructor
  · intro q hq
    exfalso
    cases hq with
    | line t _ ht =>
      cases hI : lineCircleIntr s.1.pos s.2.pos r ct eps with
      | noIntersect => rw [hI] at ht; simp [LineCircleIntr.params] at ht
      | tangentIntersect t0 =>
        rw [hI] at spec
        have := (abs_lt.mp spec.1).2
        linarith [h t0]
      | twoIntersects t0 t1 =>
        rw [hI] at spec
        have := (abs_le.mp (spec.2 t0 (Or.inl rfl))).2
        linarith [h t0]
    | arc hz => rw [bulgeIsZero_true hl] at hz; cases hz
  · rintro q ⟨t, t0, t1, rfl⟩ hd
    exfalso
    rw [segCurve_line hl] at hd
    linarith [h t]

/-- a segment whose line touches the circle, or clearly cuts it -/
theorem circle_meets {s : Vertex ℝ × Vertex ℝ} {ct : V2 ℝ} {r eps : ℝ} (he : 0 < eps) (hr : 0 ≤ r) (hl : IsLine s.1) (hw : LineOk s.1.pos s.2.pos eps)
    (h : (∃ t, edist (linePoint s.1.pos s.2.pos t) ct = r ∧ ∀ t', t' ≠ t → r < edist (linePoint s.1.pos s.2.pos t') ct) ∨
      ∃ t, edist (linePoint s.1.pos s.2.pos t) ct + eps ≤ r)
    (hz : ∀ t, 0 ≤ t → t ≤ 1 → edist (linePoint s.1.pos s.2.pos t) ct = r → t = 0 ∨ eps < t) : FindsCircle s ct r eps := by
  have spec := C25_line_circle s.1.pos s.2.pos r ct eps hr he hw.1 hw.2
  have key : ∀ t, t ∈ (lineCircleIntr s.1.pos s.2.pos r ct eps).params ↔ edist (linePoint s.1.pos s.2.pos t) ct = r := by
    intro t
    cases hI : lineCircleIntr s.1.pos s.2.pos r ct eps with
    | noIntersect =>
      rw [hI] at spec
      have spec : ∀ t, r + eps < edist (linePoint s.1.pos s.2.pos t) ct := spec
      refine ⟨fun h => by simp [LineCircleIntr.params] at h, fun h => ?_⟩
      linarith [spec t]
    | tangentIntersect t0 =>
      rw [hI] at spec
      obtain ⟨a, b⟩ := spec
      rcases h with ⟨x, hx, hx'⟩ | ⟨x, hx⟩
      · have e : t0 = x := by
          by_contra hne
          have := hx' t0 hne
          linarith [b x]
        subst e
        simp only [LineCircleIntr.params, List.mem_singleton]
        constructor
        · rintro rfl; exact hx
        · intro ht
          by_contra hne
          linarith [hx' t hne]
      · exfalso
        have := (abs_lt.mp a).1
        linarith [b x]
    | twoIntersects t0 t1 =>
      rw [hI] at spec
      obtain ⟨a, -⟩ := spec
      have hex : ∃ t, edist (linePoint s.1.pos s.2.pos t) ct < r + eps := by
        rcases h with ⟨x, hx, -⟩ | ⟨x, hx⟩
        · exact ⟨x, by linarith⟩
        · exact ⟨x, by linarith⟩
      have := (a hex).2 t
      unfold OnCircle at this
      rw [this]
      simp [LineCircleIntr.params]
  have hne : s.1.pos ≠ s.2.pos := apart_ne he hw.1
  constructor
  · intro q hq
    cases hq with
    | line t _ ht h0 h1 h2 h3 =>
      rw [pointFromParametric_line] at h3
      simp only [lt_eq, gt_eq, decide_eq_false_iff_not, not_lt, decide_eq_true_eq] at h0 h1 h2
      refine ⟨⟨t, h0, h1, by rw [segCurve_line hl]; exact h3⟩, by rw [h3]; exact (key t).mp ht, ?_⟩
      intro e
      have h4 := edist_linePoint s.1.pos s.2.pos t 0
      have e0 : linePoint s.1.pos s.2.pos 0 = s.1.pos := by rw [V2.ext_iff']; simp [linePoint]
      rw [e0, ← h3, e, edist_self] at h4
      have h5 := edist_pos hne
      have ht0 : t = 0 := by
        rcases mul_eq_zero.mp h4.symm with h | h
        · simpa using h
        · linarith
      rw [ht0] at h2
      simp at h2
      linarith
    | arc hz => rw [bulgeIsZero_true hl] at hz; cases hz
  · rintro q ⟨t, t0, t1, rfl⟩ hd hq
    rw [segCurve_line hl] at hd hq ⊢
    have hgt : eps < t := by
      rcases hz t t0 t1 hd with rfl | h
      · exfalso
        have e0 : linePoint s.1.pos s.2.pos 0 = s.1.pos := by rw [V2.ext_iff']; simp [linePoint]
        rw [e0] at hq
        exact (fuzzy_ne he hq) rfl
      · exact h
    refine .line t (bulgeIsZero_true hl) ((key t).mpr hd) ?_ ?_ ?_ (pointFromParametric_line _ _ _).symm
    · simpa using t0
    · simpa using t1
    · simp only [gt_eq, decide_eq_true_eq]
      calc eps < t := hgt
        _ ≤ _ := le_abs_self t

/-! ## The curves -/

theorem hkR_len : hkR.verts.length = 5 := rfl

theorem hkR_curve (t : ℝ) : curveAt hkR 0 t = ⟨75 * t, 25⟩ ∧ curveAt hkR 1 t = ⟨75, 25 + 50 * t⟩ ∧ curveAt hkR 2 t = ⟨75 - 10 * t, 75⟩ ∧ curveAt hkR 3 t = ⟨65, 75 - 35 * t⟩ := by
  obtain ⟨v0, v1, v2, v3, v4⟩ := hkR_vtx
  have hn : 0 < hkR.verts.length := by decide
  simp only [curveAt_vtx hn, Nat.reduceAdd, v0, v1, v2, v3, v4, segCurve_line (box4_line _ _), linePoint, Vertex.pos, V2.mk.injEq]
  refine ⟨⟨?_, ?_⟩, ⟨?_, ?_⟩, ⟨?_, ?_⟩, ?_, ?_⟩ <;> ring

theorem hk_curve (t : ℝ) : curveAt hook 0 t = ⟨100 * t, 0⟩ ∧ curveAt hook 1 t = ⟨100, 100 * t⟩ ∧ curveAt hook 2 t = ⟨100 - 60 * t, 100⟩ ∧ curveAt hook 3 t = ⟨40, 100 - 60 * t⟩ := by
  obtain ⟨v0, v1, v2, v3, v4⟩ := hk_vtx
  have hn : 0 < hook.verts.length := by decide
  simp only [curveAt_vtx hn, Nat.reduceAdd, v0, v1, v2, v3, v4, segCurve_line (box4_line _ _), linePoint, Vertex.pos, V2.mk.injEq]
  refine ⟨⟨?_, ?_⟩, ⟨?_, ?_⟩, ⟨?_, ?_⟩, ?_, ?_⟩ <;> ring

theorem path_seg {p : Pline ℝ} {eps : ℝ} (h : FullPath p eps) {s : Vertex ℝ × Vertex ℝ} (hs : s ∈ p.segs) : ∃ k, k + 1 < p.verts.length ∧ s = (vtx p k, vtx p (k + 1)) := by
  obtain ⟨k, hk, e⟩ := List.getElem_of_mem hs
  exact ⟨k, (path_segs h.open h.two s k).mp (by rw [List.getElem?_eq_getElem hk, e])⟩

theorem hk_on (k : Nat) (hk : k < 4) {u : ℝ} (u0 : 0 ≤ u) (u1 : u ≤ 1) : OnPline hook (curveAt hook k u) :=
  ⟨_, List.mem_of_getElem? ((path_segs rfl (by decide) _ k).mpr ⟨by rw [hk_len5]; omega, rfl⟩), u, u0, u1, curveAt_vtx (by decide) _ _⟩

/-- the two cuts, at (20, 25) and (60, 25) -/
noncomputable def hkCuts : List Cut := [(0, 20 / 75), (0, 60 / 75)]

theorem hk_cut {i : Nat} {t : ℝ} : (i, t) ∈ hkCuts ↔ i = 0 ∧ (t = 20 / 75 ∨ t = 60 / 75) := by
  simp only [hkCuts, List.mem_cons, Prod.mk.injEq, List.not_mem_nil, or_false]
  tauto

/-- where the raw offset keeps the distance -/
theorem hk_keeps {i : Nat} (hi : i < 4) {t : ℝ} (t0 : 0 ≤ t) (t1 : t ≤ 1) : Keeps hook |25| (curveAt hkR i t) ↔ i ≠ 0 ∨ t ≤ 20 / 75 ∨ 60 / 75 ≤ t := by
  rw [abs_of_pos (by norm_num : (0 : ℝ) < 25)]
  have hn : 0 < hook.verts.length := by decide
  obtain ⟨r0, r1, r2, r3⟩ := hkR_curve t
  constructor
  · intro h
    by_contra hcon
    push Not at hcon
    obtain ⟨rfl, h1, h2⟩ := hcon
    have := h _ (hk_on 3 (by norm_num) zero_le_one le_rfl)
    rw [(hk_curve 1).2.2.2, r0] at this
    have hsq := edist_sq (⟨75 * t, 25⟩ : V2 ℝ) ⟨40, 100 - 60 * 1⟩
    dsimp only at hsq
    nlinarith
  · rintro h q ⟨s, hs, u, u0, u1, rfl⟩
    obtain ⟨k, hk, rfl⟩ := path_seg hk_full hs
    rw [hk_len5] at hk
    have hk4 : k < 4 := by omega
    rw [← curveAt_vtx hn]
    have hsq := edist_sq (curveAt hkR i t) (curveAt hook k u)
    have hnn := edist_nonneg (curveAt hkR i t) (curveAt hook k u)
    suffices h : 625 ≤ ((curveAt hkR i t).x - (curveAt hook k u).x) ^ 2 + ((curveAt hkR i t).y - (curveAt hook k u).y) ^ 2 by nlinarith
    clear hsq hnn
    obtain ⟨c0, c1, c2, c3⟩ := hk_curve u
    interval_cases i <;> interval_cases k <;> simp only [r0, r1, r2, r3, c0, c1, c2, c3]
    case «0».«3» =>
      have h75 : (75 * t - 40) ^ 2 ≥ 400 := by
        rcases h with h | h | h
        · exact absurd rfl h
        · nlinarith
        · nlinarith
      nlinarith
    all_goals
      first
        | nlinarith [sq_nonneg (75 * t - 100 * u)]
        | nlinarith [sq_nonneg (25 + 50 * t - 100 * u)]
        | nlinarith [sq_nonneg (75 - 10 * t - (100 - 60 * u))]
        | nlinarith [sq_nonneg (75 - 35 * t - (100 - 60 * u))]
        | nlinarith

/-! ## Boxes -/

theorem arc_box_len {x y x' y' b' l : ℝ} (hx : |x' - x| ≤ l) (hy : |y' - y| ≤ l) :
    BoxIn (segBox ((⟨x, y, qb⟩, ⟨x', y', b'⟩) : Vertex ℝ × Vertex ℝ)) ⟨min x x' - l / 4, min y y' - l / 4, max x x' + l / 4, max y y' + l / 4⟩ := by
  obtain ⟨b1, b2⟩ := qb_bounds
  unfold segBox segFastApproxBoundingBox
  rw [bulgeIsZero_false (qb_arc x y)]
  simp only [minMax_eq, RealScalar.min_eq, RealScalar.max_eq, RealScalar.two_eq, Bool.false_eq_true, if_false]
  have l0 : 0 ≤ l := le_trans (abs_nonneg _) hx
  rw [abs_le] at hx hy
  have m1 := min_le_left x x'
  have m2 := min_le_right x x'
  have m3 := min_le_left y y'
  have m4 := min_le_right y y'
  have m5 := le_max_left x x'
  have m6 := le_max_right x x'
  have m7 := le_max_left y y'
  have m8 := le_max_right y y'
  have q1 : qb * (l - (x' - x)) ≤ 1 / 2 * (l - (x' - x)) := mul_le_mul_of_nonneg_right b2.le (by linarith)
  have q2 : qb * (l + (x' - x)) ≤ 1 / 2 * (l + (x' - x)) := mul_le_mul_of_nonneg_right b2.le (by linarith)
  have q3 : qb * (l - (y' - y)) ≤ 1 / 2 * (l - (y' - y)) := mul_le_mul_of_nonneg_right b2.le (by linarith)
  have q4 : qb * (l + (y' - y)) ≤ 1 / 2 * (l + (y' - y)) := mul_le_mul_of_nonneg_right b2.le (by linarith)
  have p1 : 0 ≤ qb * (l - (x' - x)) := mul_nonneg qb_pos.le (by linarith)
  have p2 : 0 ≤ qb * (l + (x' - x)) := mul_nonneg qb_pos.le (by linarith)
  have p3 : 0 ≤ qb * (l - (y' - y)) := mul_nonneg qb_pos.le (by linarith)
  have p4 : 0 ≤ qb * (l + (y' - y)) := mul_nonneg qb_pos.le (by linarith)
  have hl : qb * l ≤ 1 / 2 * l := mul_le_mul_of_nonneg_right b2.le l0
  unfold BoxIn
  dsimp only
  refine ⟨le_min (by linarith) (le_min ?_ ?_), le_min (by linarith) (le_min ?_ ?_), max_le (by linarith) (max_le ?_ ?_), max_le (by linarith) (max_le ?_ ?_)⟩ <;> nlinarith

/-- bounds of the boxes of the raw offset -/
noncomputable def hkRTable : Nat → AABB ℝ
  | 0 => ⟨0, 25, 75, 25⟩
  | 1 => ⟨75, 25, 75, 75⟩
  | 2 => ⟨65, 75, 75, 75⟩
  | _ => ⟨65, 40, 65, 75⟩

/-- bounds of the boxes of the raw offset to the other side -/
noncomputable def hkDTable : Nat → AABB ℝ
  | 0 => ⟨0, -25, 100, -25⟩
  | 1 => ⟨375 / 4, -125 / 4, 525 / 4, 25 / 4⟩
  | 2 => ⟨125, 0, 125, 100⟩
  | 3 => ⟨375 / 4, 375 / 4, 525 / 4, 525 / 4⟩
  | 4 => ⟨40, 125, 100, 125⟩
  | 5 => ⟨35 / 4, 375 / 4, 185 / 4, 525 / 4⟩
  | _ => ⟨15, 40, 15, 100⟩

/-- bounds of the boxes of the hook -/
noncomputable def hkTable : Nat → AABB ℝ
  | 0 => ⟨0, 0, 100, 0⟩
  | 1 => ⟨100, 0, 100, 100⟩
  | 2 => ⟨40, 100, 100, 100⟩
  | _ => ⟨40, 40, 40, 100⟩

theorem hkR_boxes (k : Nat) (hk : k < 4) : BoxIn (segBox (vtx hkR k, vtx hkR (k + 1))) (hkRTable k) := by
  obtain ⟨v0, v1, v2, v3, v4⟩ := hkR_vtx
  interval_cases k <;> simp only [Nat.reduceAdd, v0, v1, v2, v3, v4] <;> rw [line_box] <;> norm_num [BoxIn, hkRTable]

theorem hk_boxes (k : Nat) (hk : k < 4) : BoxIn (segBox (vtx hook k, vtx hook (k + 1))) (hkTable k) := by
  obtain ⟨v0, v1, v2, v3, v4⟩ := hk_vtx
  interval_cases k <;> simp only [Nat.reduceAdd, v0, v1, v2, v3, v4] <;> rw [line_box] <;> norm_num [BoxIn, hkTable]

theorem hkD_boxes (k : Nat) (hk : k < 7) : BoxIn (segBox (vtx hkD k, vtx hkD (k + 1))) (hkDTable k) := by
  obtain ⟨v0, v1, v2, v3, v4, v5, v6, v7⟩ := hkD_vtx
  have key : ∀ {b c c' : AABB ℝ}, BoxIn b c → c = c' → BoxIn b c' := fun h e => e ▸ h
  interval_cases k <;> simp only [Nat.reduceAdd, v0, v1, v2, v3, v4, v5, v6, v7] <;> first
    | (rw [line_box]; norm_num [BoxIn, hkDTable]; done)
    | (refine key (arc_box_len (l := 25) ?_ ?_) ?_
       · norm_num
       · norm_num
       · norm_num [hkDTable])

/-- the boxes of the two raw offsets do not meet -/
theorem hk_apart (i k : Nat) (hi : i < 4) (hk : k < 7) : (hkRTable i).maxX + 1 < (hkDTable k).minX ∨ (hkRTable i).maxY + 1 < (hkDTable k).minY ∨
    (hkDTable k).maxX + 1 < (hkRTable i).minX ∨ (hkDTable k).maxY + 1 < (hkRTable i).minY := by
  interval_cases i <;> interval_cases k <;> norm_num [hkRTable, hkDTable]

theorem hk_no_common (i : Nat) (hi : i < 4) {t : ℝ} (t0 : 0 ≤ t) (t1 : t ≤ 1) : ¬ OnPline hkD (curveAt hkR i t) := by
  rintro ⟨s, hs, hX⟩
  obtain ⟨k, hk, rfl⟩ := path_seg hkD_full hs
  have hk7 : k < 7 := by have : k + 1 < 8 := hk; omega
  have a := C33_fast_box _ _ (path_shape hkD_full hk) _ hX
  have b := C33_fast_box (vtx hkR i) (vtx hkR (i + 1)) (path_shape hkR_full (by rw [hkR_len]; omega)) (curveAt hkR i t) ⟨t, t0, t1, curveAt_vtx (by decide) _ _⟩
  obtain ⟨a1, a2, a3, a4⟩ := a
  obtain ⟨b1, b2, b3, b4⟩ := b
  obtain ⟨c1, c2, c3, c4⟩ := hkR_boxes i hi
  obtain ⟨d1, d2, d3, d4⟩ := hkD_boxes k hk7
  unfold segBox at c1 c2 c3 c4 d1 d2 d3 d4
  rcases hk_apart i k hi hk7 with h | h | h | h <;> linarith

/-! ## The conditions -/

theorem hk_isEnd {v : Vertex ℝ} : IsEnd hook v ↔ v = ⟨0, 0, 0⟩ ∨ v = ⟨40, 40, 0⟩ := by
  unfold IsEnd hook
  simp [eq_comm]

theorem hk_cuts : OpenCuts hook hkR hkD |25| (1 / 100000) 1 hkCuts := by
  have hcv := hkR_curve
  have hn : 0 < hkR.verts.length := by decide
  have e25 : |(25 : ℝ)| = 25 := abs_of_pos (by norm_num)
  have hc1 : curveAt hkR 0 (20 / 75) = ⟨20, 25⟩ := by rw [(hcv _).1]; norm_num
  have hc2 : curveAt hkR 0 (60 / 75) = ⟨60, 25⟩ := by rw [(hcv _).1]; norm_num
  have hc0 : curveAt hkR 0 0 = ⟨0, 25⟩ := by rw [(hcv _).1]; norm_num
  have hcl : curveAt hkR (hkR.verts.length - 2) 1 = ⟨65, 40⟩ := by
    show curveAt hkR 3 1 = _
    rw [(hcv _).2.2.2]; norm_num
  have hall : ∀ {P : Cut → Prop}, P (0, 20 / 75) → P (0, 60 / 75) → ∀ c ∈ hkCuts, P c := by
    intro P h1 h2 c hc
    obtain ⟨i, t⟩ := c
    obtain ⟨rfl, rfl | rfl⟩ := hk_cut.mp hc
    · exact h1
    · exact h2
  have hcirc : ∀ v, IsEnd hook v → ∀ i t, i + 1 < hkR.verts.length → 0 ≤ t → t ≤ 1 → edist (curveAt hkR i t) v.pos = 25 →
      (i, t) ∈ hkCuts ∨ (i = 0 ∧ t = 0) ∨ (i + 2 = hkR.verts.length ∧ t = 1) := by
    intro v hv i t hi t0 t1 hd
    rw [hkR_len] at hi ⊢
    have hi4 : i < 4 := by omega
    have hsq := edist_sq (curveAt hkR i t) v.pos
    rw [hd] at hsq
    rw [hk_cut]
    obtain ⟨r0, r1, r2, r3⟩ := hcv t
    rcases hk_isEnd.mp hv with rfl | rfl <;> interval_cases i <;> simp only [r0, r1, r2, r3, Vertex.pos] at hsq
    · right; left; exact ⟨rfl, by nlinarith⟩
    · exfalso; nlinarith
    · exfalso; nlinarith
    · exfalso; nlinarith
    · left
      refine ⟨rfl, ?_⟩
      have : (t - 20 / 75) * (t - 60 / 75) = 0 := by nlinarith
      rcases mul_eq_zero.mp this with h | h
      · left; linarith
      · right; linarith
    · exfalso; nlinarith
    · exfalso; nlinarith
    · right; right; exact ⟨rfl, by nlinarith⟩
  refine ⟨hall (Or.inr (Or.inr ⟨⟨40, 40, 0⟩, hk_isEnd.mpr (Or.inr rfl), ?_⟩)) (Or.inr (Or.inr ⟨⟨40, 40, 0⟩, hk_isEnd.mpr (Or.inr rfl), ?_⟩)), ?_, ?_, ?_, ?_, ?_, ?_, ?_, ?_, ?_, ?_, ?_, ?_⟩
  · rw [e25, hc1]; apply edist_lit <;> norm_num [Vertex.pos]
  · rw [e25, hc2]; apply edist_lit <;> norm_num [Vertex.pos]
  · intro i t j u hij hj t0 t1 u0 u1 h
    rw [hkR_len] at hj
    have hj4 : j < 4 := by omega
    have hi3 : i < 3 := by omega
    left
    obtain ⟨a0, a1, a2, a3⟩ := hcv t
    obtain ⟨b0, b1, b2, b3⟩ := hcv u
    interval_cases i <;> interval_cases j <;> simp only [a0, a1, a2, a3, b0, b1, b2, b3, V2.mk.injEq] at h <;> obtain ⟨h1, h2⟩ := h <;> first
      | (exfalso; linarith)
      | (exact ⟨rfl, by linarith, by linarith⟩)
  · intro i t hi t0 t1 h
    exact absurd h (hk_no_common i (by rw [hkR_len] at hi; omega) t0 t1)
  · rw [e25]; exact hcirc
  · refine ⟨⟨40, 40, 0⟩, rfl, ?_⟩
    rw [hcl, e25]; apply edist_lit <;> norm_num [Vertex.pos]
  · exact hall (by decide) (by decide)
  · obtain ⟨v0, v1, -⟩ := hkR_vtx
    have hl : IsLine (vtx hkR 0) := box4_line _ _
    refine hall ⟨by norm_num, by norm_num, FarApart.fuzzy ?_, FarApart.fuzzy ?_, Or.inl hl, Or.inl hl⟩ ⟨by norm_num, by norm_num, FarApart.fuzzy ?_, FarApart.fuzzy ?_, Or.inl hl, Or.inl hl⟩ <;> dsimp only
    · rw [← curveAt_vtx hn, hc1, v0]; left; norm_num [Vertex.pos]
    · rw [← curveAt_vtx hn, hc1, v1]; left; norm_num [Vertex.pos]
    · rw [← curveAt_vtx hn, hc2, v0]; left; norm_num [Vertex.pos]
    · rw [← curveAt_vtx hn, hc2, v1]; left; norm_num [Vertex.pos]
  · refine hall ?_ ?_ <;> dsimp only <;> simp only [hc1, hc2] <;> intro v hv <;> simp only [hkD, List.mem_cons, List.not_mem_nil, or_false] at hv <;>
      rcases hv with rfl | rfl | rfl | rfl | rfl | rfl | rfl | rfl <;> apply FarApart.fuzzy <;> unfold FarApart Vertex.pos <;> norm_num [abs_of_pos, abs_of_neg]
  · refine hall (hall (Or.inl rfl) (Or.inr ?_)) (hall (Or.inr ?_) (Or.inl rfl)) <;> dsimp only <;> rw [hc1, hc2] <;> left <;> norm_num
  · refine hall ?_ ?_ <;> dsimp only <;> simp only [hc0, hc1, hc2] <;> left <;> norm_num
  · refine hall ?_ ?_ <;> dsimp only <;> simp only [hcl, hc1, hc2] <;> left <;> norm_num [abs_of_neg]
  · rw [hcl, hc0]; left; norm_num
  · exact hall (fun c' _ _ _ => Or.inl (box4_line _ _)) (fun c' _ _ _ => Or.inl (box4_line _ _))

theorem hk_finds : FindsPath hkR (1 / 100000) := by
  obtain ⟨v0, v1, v2, v3, v4⟩ := hkR_vtx
  have hl : ∀ i, i < 5 → IsLine (vtx hkR i) := fun i hi => by interval_cases i <;> exact box4_line _ _
  constructor
  · intro i hi
    rw [hkR_len] at hi
    have hi3 : i < 3 := by omega
    refine finds_corner (by norm_num) (.lines (hl i (by omega)) (hl (i + 1) (by omega)) (Or.inl ⟨⟨(vtx hkR (i + 1)).pos,
      ⟨1, by norm_num, le_rfl, (segCurve_ends _ _).2.symm⟩, ⟨0, le_rfl, by norm_num, (segCurve_ends _ _).1.symm⟩⟩, ?_⟩))
    interval_cases i <;> simp only [Nat.reduceAdd, v0, v1, v2, v3, v4] <;> unfold dirCross Vertex.pos <;> norm_num [abs_of_pos, abs_of_neg]
  · intro i k hi hk hik h1 h2 hbox
    rw [hkR_len] at hi hk
    exfalso
    have hi4 : i < 4 := by omega
    have hk4 : k < 4 := by omega
    have key := fun h => boxIn_apart (e := 1 / 100000) (hkR_boxes k hk4) (hkR_boxes i hi4) h
    unfold BoxesMeet at hbox
    rw [hbox] at key
    apply absurd key
    simp only [imp_false, not_not, Bool.true_eq_false]
    interval_cases i <;> interval_cases k <;> first
      | exact absurd rfl hik
      | exact absurd rfl h1
      | exact absurd rfl h2
      | norm_num [hkRTable]

theorem hk_pairs : FindsPairs hkR hkD (1 / 100000) := by
  intro s1 h1 s2 h2 hbox
  obtain ⟨i, hi, rfl⟩ := path_seg hkR_full h1
  obtain ⟨k, hk, rfl⟩ := path_seg hkD_full h2
  have hi4 : i < 4 := by have : i + 1 < 5 := hi; omega
  have hk7 : k < 7 := by have : k + 1 < 8 := hk; omega
  exfalso
  unfold BoxesMeet at hbox
  first
    | (have key := boxIn_apart (e := 1 / 100000) (hkD_boxes k hk7) (hkR_boxes i hi4) (by
        rcases hk_apart i k hi4 hk7 with h | h | h | h
        · right; right; left; linarith
        · right; right; right; linarith
        · left; linarith
        · right; left; linarith)
       rw [hbox] at key; cases key)
    | (have key := boxIn_apart (e := 1 / 100000) (hkR_boxes i hi4) (hkD_boxes k hk7) (by
        rcases hk_apart i k hi4 hk7 with h | h | h | h
        · left; linarith
        · right; left; linarith
        · right; right; left; linarith
        · right; right; right; linarith)
       rw [hbox] at key; cases key)

theorem hk_circles (v : Vertex ℝ) (hv : IsEnd hook v) (s : Vertex ℝ × Vertex ℝ) (hs : s ∈ hkR.segs) : FindsCircle s v.pos |25| (1 / 100000) := by
  obtain ⟨v0, v1, v2, v3, v4⟩ := hkR_vtx
  obtain ⟨i, hi, rfl⟩ := path_seg hkR_full hs
  have hi4 : i < 4 := by have : i + 1 < 5 := hi; omega
  rw [abs_of_pos (by norm_num : (0 : ℝ) < 25)]
  have hcv : ∀ t, linePoint (vtx hkR i).pos (vtx hkR (i + 1)).pos t = curveAt hkR i t := by
    intro t
    rw [curveAt_vtx (by decide), segCurve_line]
    interval_cases i <;> exact box4_line _ _
  have hl : IsLine (vtx hkR i) := by interval_cases i <;> exact box4_line _ _
  have hw : LineOk (vtx hkR i).pos (vtx hkR (i + 1)).pos (1 / 100000) := by
    interval_cases i <;> simp only [Nat.reduceAdd, v0, v1, v2, v3, v4, Vertex.pos] <;> norm_num [LineOk, Apart, abs_of_neg]
  have far : (∀ t, 700 ≤ ((curveAt hkR i t).x - v.x) ^ 2 + ((curveAt hkR i t).y - v.y) ^ 2) → FindsCircle (vtx hkR i, vtx hkR (i + 1)) v.pos 25 (1 / 100000) := by
    intro h
    refine circle_far (by norm_num) (by norm_num) hl hw (fun t => ?_)
    dsimp only
    rw [hcv t]
    have hsq := edist_sq (curveAt hkR i t) v.pos
    have hnn := edist_nonneg (curveAt hkR i t) v.pos
    have := h t
    unfold Vertex.pos at hsq hnn ⊢
    dsimp only at hsq
    nlinarith
  have touch : ∀ t, ((curveAt hkR i t).x - v.x) ^ 2 + ((curveAt hkR i t).y - v.y) ^ 2 = 625 → (t = 0 ∨ t = 1) →
      (∀ t', t' ≠ t → 625 < ((curveAt hkR i t').x - v.x) ^ 2 + ((curveAt hkR i t').y - v.y) ^ 2) → FindsCircle (vtx hkR i, vtx hkR (i + 1)) v.pos 25 (1 / 100000) := by
    intro t ht ht01 ho
    have hgt : ∀ t', t' ≠ t → 25 < edist (curveAt hkR i t') v.pos := by
      intro t' hne
      have hsq := edist_sq (curveAt hkR i t') v.pos
      have hnn := edist_nonneg (curveAt hkR i t') v.pos
      have := ho t' hne
      unfold Vertex.pos at hsq hnn ⊢
      dsimp only at hsq
      nlinarith
    refine circle_meets (by norm_num) (by norm_num) hl hw (Or.inl ⟨t, ?_, fun t' hne => ?_⟩) (fun t' _ _ h => ?_)
    · dsimp only
      rw [hcv]
      exact edist_eq_of_sq (by norm_num) (by unfold Vertex.pos; dsimp only; rw [ht]; norm_num)
    · dsimp only
      rw [hcv]; exact hgt t' hne
    · dsimp only at h
      rw [hcv] at h
      have e : t' = t := by
        by_contra hne
        linarith [hgt t' hne]
      subst e
      rcases ht01 with rfl | rfl
      · left; rfl
      · right; norm_num
  have hR := hkR_curve
  rcases hk_isEnd.mp hv with rfl | rfl
  · interval_cases i
    · refine touch 0 ?_ (Or.inl rfl) (fun t' hne => ?_)
      · rw [(hR _).1]; norm_num
      · rw [(hR _).1]; dsimp only
        have := pow_pos (abs_pos.mpr hne) 2
        rw [sq_abs] at this
        nlinarith
    · apply far; intro t; rw [(hR t).2.1]; dsimp only; nlinarith [sq_nonneg (25 + 50 * t)]
    · apply far; intro t; rw [(hR t).2.2.1]; dsimp only; nlinarith [sq_nonneg (75 - 10 * t)]
    · apply far; intro t; rw [(hR t).2.2.2]; dsimp only; nlinarith [sq_nonneg (75 - 35 * t)]
  · interval_cases i
    · refine circle_meets (by norm_num) (by norm_num) hl hw (Or.inr ⟨40 / 75, ?_⟩) (fun t t0 t1 h => Or.inr ?_)
      · dsimp only
        rw [hcv, (hR _).1, show edist (⟨75 * (40 / 75), 25⟩ : V2 ℝ) (Vertex.pos ⟨40, 40, 0⟩) = 15 from by apply edist_lit <;> norm_num [Vertex.pos]]
        norm_num
      · dsimp only at h
        rw [hcv, (hR _).1] at h
        have hsq := edist_sq (⟨75 * t, 25⟩ : V2 ℝ) (Vertex.pos ⟨40, 40, 0⟩)
        rw [h] at hsq
        simp only [Vertex.pos] at hsq
        by_contra hcon
        push Not at hcon
        nlinarith
    · apply far; intro t; rw [(hR t).2.1]; dsimp only; nlinarith [sq_nonneg (25 + 50 * t - 40)]
    · apply far; intro t; rw [(hR t).2.2.1]; dsimp only; nlinarith [sq_nonneg (75 - 10 * t - 40)]
    · refine touch 1 ?_ (Or.inr rfl) (fun t' hne => ?_)
      · rw [(hR _).2.2.2]; norm_num
      · rw [(hR _).2.2.2]; dsimp only
        have := pow_pos (abs_pos.mpr (sub_ne_zero.mpr hne)) 2
        rw [sq_abs] at this
        nlinarith

theorem hk_changes : ChangesAtCuts hook hkR |25| hkCuts := by
  constructor
  · intro i t hi t0 t1 hc hk
    have hi4 : i < 4 := by rw [hkR_len] at hi; omega
    rw [hk_keeps hi4 t0 t1] at hk
    by_cases h0 : i = 0
    · subst h0
      have hne : t ≠ 20 / 75 ∧ t ≠ 60 / 75 := ⟨fun h => hc (hk_cut.mpr ⟨rfl, Or.inl h⟩), fun h => hc (hk_cut.mpr ⟨rfl, Or.inr h⟩)⟩
      rcases hk with h | h | h
      · exact absurd rfl h
      · have := lt_of_le_of_ne h hne.1
        refine ⟨20 / 75 - t, by linarith, fun t' t0' t1' hd => (hk_keeps hi4 t0' t1').mpr (Or.inr (Or.inl ?_))⟩
        linarith [(abs_lt.mp hd).2]
      · have := lt_of_le_of_ne h (Ne.symm hne.2)
        refine ⟨t - 60 / 75, by linarith, fun t' t0' t1' hd => (hk_keeps hi4 t0' t1').mpr (Or.inr (Or.inr ?_))⟩
        linarith [(abs_lt.mp hd).1]
    · exact ⟨1, one_pos, fun t' t0' t1' _ => (hk_keeps hi4 t0' t1').mpr (Or.inl h0)⟩
  · rintro ⟨i, t⟩ hc -
    refine ⟨(i, t), hc, rfl, ?_⟩
    obtain ⟨rfl, rfl | rfl⟩ := hk_cut.mp hc
    · refine ⟨-1, Or.inr rfl, 20 / 75, by norm_num, fun s s0 s1 => (hk_keeps (by norm_num) (by dsimp only; linarith) (by dsimp only; linarith)).mpr (Or.inr (Or.inl ?_))⟩
      dsimp only; linarith
    · refine ⟨1, Or.inl rfl, 15 / 75, by norm_num, fun s s0 s1 => (hk_keeps (by norm_num) (by dsimp only; linarith) (by dsimp only; linarith)).mpr (Or.inr (Or.inr ?_))⟩
      dsimp only; linarith

theorem hk_tests : OpenTests hook hkR 25 (1 / 100000) (1 / 10000) hkCuts := by
  have hn : 0 < hkR.verts.length := by decide
  have hline : ∀ i, i < 4 → IsLine (vtx hkR i) := fun i hi => by interval_cases i <;> exact box4_line _ _
  have hread : ∀ X, Readable hook (1 / 100000) X := by
    intro X s hs hl
    obtain ⟨k, hk, rfl⟩ := path_seg hk_full hs
    exact absurd (hk_line k (by rw [hk_len5] at hk; omega)) hl
  refine ⟨?_, ?_, fun i lo hi h => ⟨hread _, hread _, hread _⟩⟩
  · intro i lo hi hst hcut
    have hi0 : i = 0 ∧ (lo = 0 ∨ lo = 20 / 75 ∨ lo = 60 / 75) := by
      rcases hcut with h | ⟨h1, h2⟩
      · obtain ⟨h1, h2⟩ := hk_cut.mp h
        exact ⟨h1, Or.inr h2⟩
      · exact ⟨h1, Or.inl h2⟩
    obtain ⟨rfl, hlo⟩ := hi0
    have hin1 : ¬ (lo < 20 / 75 ∧ 20 / 75 < hi) := fun h => hst.inside _ h.1 h.2 (hk_cut.mpr ⟨rfl, Or.inl rfl⟩)
    have hin2 : ¬ (lo < 60 / 75 ∧ 60 / 75 < hi) := fun h => hst.inside _ h.1 h.2 (hk_cut.mpr ⟨rfl, Or.inr rfl⟩)
    have hhi : hi = 1 ∨ hi = 20 / 75 ∨ hi = 60 / 75 := by
      rcases hst.stop with h | h
      · exact Or.inl h
      · exact Or.inr (hk_cut.mp h).2
    have hlt := hst.lt
    rcases hlo with rfl | rfl | rfl
    · left
      have : hi ≤ 20 / 75 := by
        by_contra hcon
        push Not at hcon
        exact hin1 ⟨by norm_num, hcon⟩
      exact (hk_keeps (by norm_num) (by linarith) (by linarith)).mpr (Or.inr (Or.inl (by linarith)))
    · right
      have : hi = 60 / 75 := by
        rcases hhi with rfl | rfl | rfl
        · exact absurd ⟨by norm_num, by norm_num⟩ hin2
        · exact absurd hlt (lt_irrefl _)
        · rfl
      subst this
      refine ⟨_, hk_on 3 (by norm_num) zero_le_one le_rfl, ?_⟩
      rw [edist_sq, (hkR_curve _).1, (hk_curve 1).2.2.2, abs_of_pos (by norm_num : (0 : ℝ) < 25)]
      norm_num
    · left
      have := hst.one
      exact (hk_keeps (by norm_num) (by linarith) (by linarith)).mpr (Or.inr (Or.inr (by linarith)))
  · intro i lo hi x y hst hk hfull hcv
    have hi4 : i < 4 := by have := hst.range; rw [hkR_len] at this; omega
    have hx : x.pos = curveAt hkR i lo := by
      have := hcv 0
      rw [(segCurve_ends x y).1] at this
      rw [this]; congr 1; ring
    have hy : y.pos = curveAt hkR i hi := by
      have := hcv 1
      rw [(segCurve_ends x y).2] at this
      rw [this]; congr 1; ring
    have hne : x.pos ≠ y.pos := fuzzy_ne (by norm_num) hfull.apart
    have hl : IsLine x := by
      apply line_of_middle hne
      rw [hcv, hx, hy, curveAt_vtx hn, curveAt_vtx hn, curveAt_vtx hn, segCurve_line (hline i hi4), segCurve_line (hline i hi4),
        segCurve_line (hline i hi4)]
      unfold linePoint
      dsimp only
      rw [V2.mk.injEq]
      constructor <;> ring
    have hbox : BoxIn (segBox (x, y)) (hkRTable i) := by
      obtain ⟨xx, xy, xb⟩ := x
      obtain ⟨yx, yy, yb⟩ := y
      have h0 := hst.zero
      have h1 := hst.one
      have h2 := hst.lt
      obtain ⟨a0, a1, a2, a3⟩ := hkR_curve lo
      obtain ⟨b0, b1, b2, b3⟩ := hkR_curve hi
      unfold segBox segFastApproxBoundingBox
      rw [bulgeIsZero_true hl]
      simp only [if_true, minMax_eq]
      unfold BoxIn
      dsimp only
      interval_cases i <;> simp only [a0, a1, a2, a3, b0, b1, b2, b3, Vertex.pos, V2.mk.injEq] at hx hy <;> obtain ⟨rfl, rfl⟩ := hx <;> obtain ⟨rfl, rfl⟩ := hy <;>
        simp only [hkRTable] <;> refine ⟨le_min ?_ ?_, le_min ?_ ?_, max_le ?_ ?_, max_le ?_ ?_⟩ <;> linarith
    intro s hs hov
    exfalso
    obtain ⟨k, hk', rfl⟩ := path_seg hk_full hs
    have hk4 : k < 4 := by rw [hk_len5] at hk'; omega
    have hfe : (Scalar.fuzzyEps : ℝ) = 1 / 100000000 := by simp [Scalar.fuzzyEps]
    rw [hfe] at hov
    have key := fun h => boxIn_apart (e := 1 / 100000000) (hk_boxes k hk4) hbox h
    rw [hov] at key
    simp only [imp_false, Bool.true_eq_false] at key
    interval_cases i <;> interval_cases k <;> apply key <;> norm_num [hkRTable, hkTable]

end Cavc
