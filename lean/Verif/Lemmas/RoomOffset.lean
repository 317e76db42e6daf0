import Verif.Lemmas.Room
import Verif.Lemmas.CoilCorners

/-! # Example: the parallel offset of the room with the narrow passage -/

set_option linter.unusedVariables false

namespace Cavc
open RealScalar Pline

/-! ## Arcs that turn to the right -/

theorem narc_box_len {x y x' y' b' l : ℝ} (hx : |x' - x| ≤ l) (hy : |y' - y| ≤ l) :
    BoxIn (segBox ((⟨x, y, -qb⟩, ⟨x', y', b'⟩) : Vertex ℝ × Vertex ℝ)) ⟨min x x' - l / 4, min y y' - l / 4, max x x' + l / 4, max y y' + l / 4⟩ := by
  obtain ⟨b1, b2⟩ := qb_bounds
  unfold segBox segFastApproxBoundingBox
  rw [bulgeIsZero_false (nqb_arc x y)]
  simp only [minMax_eq, RealScalar.min_eq, RealScalar.max_eq, RealScalar.two_eq, Bool.false_eq_true, if_false]
  have l0 : 0 ≤ l := le_trans (abs_nonneg _) hx
  rw [abs_le] at hx hy
  have m1 := min_le_left x x'
  have m2 := min_le_right x x'
  have m3 := min_le_left y y'
  have m4 := min_le_right y y'
  have m5 := le_max_left x x'
  have m6 := le_max_right x x'
  have m7 := le_max_left y y'
  have m8 := le_max_right y y'
  have q1 : qb * (l - (x' - x)) ≤ 1 / 2 * (l - (x' - x)) := mul_le_mul_of_nonneg_right b2.le (by linarith)
  have q2 : qb * (l + (x' - x)) ≤ 1 / 2 * (l + (x' - x)) := mul_le_mul_of_nonneg_right b2.le (by linarith)
  have q3 : qb * (l - (y' - y)) ≤ 1 / 2 * (l - (y' - y)) := mul_le_mul_of_nonneg_right b2.le (by linarith)
  have q4 : qb * (l + (y' - y)) ≤ 1 / 2 * (l + (y' - y)) := mul_le_mul_of_nonneg_right b2.le (by linarith)
  have p1 : 0 ≤ qb * (l - (x' - x)) := mul_nonneg qb_pos.le (by linarith)
  have p2 : 0 ≤ qb * (l + (x' - x)) := mul_nonneg qb_pos.le (by linarith)
  have p3 : 0 ≤ qb * (l - (y' - y)) := mul_nonneg qb_pos.le (by linarith)
  have p4 : 0 ≤ qb * (l + (y' - y)) := mul_nonneg qb_pos.le (by linarith)
  have hl : qb * l ≤ 1 / 2 * l := mul_le_mul_of_nonneg_right b2.le l0
  unfold BoxIn
  dsimp only
  refine ⟨le_min (by linarith) (le_min ?_ ?_), le_min (by linarith) (le_min ?_ ?_), max_le (by linarith) (max_le ?_ ?_), max_le (by linarith) (max_le ?_ ?_)⟩ <;> nlinarith

/-- the circle of an arc to the right around `c` -/
theorem nquarter {c p q : V2 ℝ} (hc : q.x - c.x = p.y - c.y ∧ q.y - c.y = -(p.x - c.x)) (h1 : (p.x - c.x) ^ 2 + (p.y - c.y) ^ 2 = 10 ^ 2) (b : ℝ) :
    segCenter (⟨p.x, p.y, -qb⟩, ⟨q.x, q.y, b⟩) = c ∧ segRadius (⟨p.x, p.y, -qb⟩, ⟨q.x, q.y, b⟩) = 10 ∧ ProperArc (⟨p.x, p.y, -qb⟩ : Vertex ℝ) ⟨q.x, q.y, b⟩ := by
  have hcen : segCenter (⟨p.x, p.y, -qb⟩, ⟨q.x, q.y, b⟩) = c := by
    have hr : (1 - (-qb) ^ 2) / (4 * -qb) = -(1 / 2) := by rw [← qb_ratio, neg_sq, mul_neg, div_neg]
    unfold segCenter arcCenter
    simp only [Vertex.pos, hr]
    rw [V2.ext_iff']
    constructor <;> dsimp only <;> linarith [hc.1, hc.2]
  have hne : (p.x, p.y) ≠ (q.x, q.y) := by
    intro h
    rw [Prod.mk.injEq] at h
    obtain ⟨e1, e2⟩ := hc
    rw [← h.1] at e1
    rw [← h.2] at e2
    nlinarith
  have hp : ProperArc (⟨p.x, p.y, -qb⟩ : Vertex ℝ) ⟨q.x, q.y, b⟩ := by
    refine ⟨nqb_arc _ _, ?_, ?_⟩
    · rw [abs_neg, abs_of_pos qb_pos]; linarith [qb_bounds.2]
    · intro h; apply hne
      rw [V2.ext_iff'] at h
      rw [Prod.mk.injEq]; exact h
  refine ⟨hcen, ?_, hp⟩
  have h0 : OnSeg (⟨p.x, p.y, -qb⟩ : Vertex ℝ) ⟨q.x, q.y, b⟩ ⟨p.x, p.y⟩ := ⟨0, le_rfl, by norm_num, (segCurve_ends (⟨p.x, p.y, -qb⟩ : Vertex ℝ) ⟨q.x, q.y, b⟩).1.symm⟩
  have h2 := onSeg_circle (a := (⟨p.x, p.y, -qb⟩, ⟨q.x, q.y, b⟩)) hp h0
  rw [hcen] at h2
  rw [← show edist (⟨p.x, p.y⟩ : V2 ℝ) c = segRadius (⟨p.x, p.y, -qb⟩, ⟨q.x, q.y, b⟩) from h2]
  exact edist_eq_of_sq (by norm_num) h1

/-- a long line that touches the circle of the radius 10 in the end `J` -/
theorem long_tangent {w a : Vertex ℝ × Vertex ℝ} {c J : V2 ℝ} (ha : ProperArc a.1 a.2) (hc : segCenter a = c) (hr : segRadius a = 10)
    (hJ : J = w.1.pos ∨ J = w.2.pos) (hJc : (J.x - c.x) ^ 2 + (J.y - c.y) ^ 2 = 10 ^ 2)
    (hline : LineOk w.1.pos w.2.pos (1 / 100000)) (hlen : 40 ^ 2 ≤ (w.2.pos.x - w.1.pos.x) ^ 2 + (w.2.pos.y - w.1.pos.y) ^ 2)
    (hort : (w.2.pos.x - w.1.pos.x) * (J.x - c.x) + (w.2.pos.y - w.1.pos.y) * (J.y - c.y) = 0) : TangentAt w a (1 / 100000) J := by
  have hd : ∀ t, edist (linePoint w.1.pos w.2.pos t) c ^ 2 = 10 ^ 2 + edist (linePoint w.1.pos w.2.pos t) J ^ 2 := by
    intro t
    rw [edist_sq, edist_sq]
    unfold linePoint
    dsimp only
    rcases hJ with h | h <;> rw [h] at hJc hort ⊢
    · linear_combination hJc + 2 * t * hort
    · linear_combination hJc + 2 * (t - 1) * hort
  have hnn := fun t => edist_nonneg (linePoint w.1.pos w.2.pos t) c
  refine ⟨hline, ha, ?_, hJ, ?_, ?_⟩
  · rw [hc, hr]
    exact edist_eq_of_sq (by norm_num) hJc
  · intro t hne
    rw [hc, hr]
    have h1 : 0 < edist (linePoint w.1.pos w.2.pos t) J := by
      rcases (edist_nonneg (linePoint w.1.pos w.2.pos t) J).lt_or_eq with h | h
      · exact h
      · exact absurd (edist_zero h.symm.le) hne
    nlinarith [hd t, hnn t]
  · intro e hee hne
    rw [hc, hr]
    obtain ⟨t, rfl⟩ : ∃ t, e = linePoint w.1.pos w.2.pos t := by
      rcases hee with e | e
      · exact ⟨0, by rw [e]; simp [linePoint, Vertex.pos]⟩
      · exact ⟨1, by rw [e]; simp [linePoint, Vertex.pos]⟩
    have h16 : 40 ^ 2 ≤ edist (linePoint w.1.pos w.2.pos t) J ^ 2 := by
      rw [edist_sq]
      refine hlen.trans (le_of_eq ?_)
      rcases hJ with h | h <;> rcases hee with e | e <;> rw [e] at hne ⊢ <;> rw [h] at hne ⊢ <;> first
        | exact absurd rfl hne
        | ring
    have h17 := hd t
    rw [le_abs]
    left
    nlinarith [hnn t]

/-! ## Where the distance is kept -/

/-- the crossings, at (130, 10) and (70, 10) -/
noncomputable def rmE : List (Cut × Cut) := [((0, 2 / 3), (3, 16 / 17)), ((0, 1 / 3), (7, 1 / 17))]

theorem rm_cut {i : Nat} {t : ℝ} : (i, t) ∈ bothCuts rmE ↔ (i = 0 ∧ (t = 1 / 3 ∨ t = 2 / 3)) ∨ (i = 3 ∧ t = 16 / 17) ∨ (i = 7 ∧ t = 1 / 17) := by
  simp only [bothCuts, rmE, List.map_cons, List.map_nil, List.cons_append, List.nil_append, List.mem_cons, Prod.mk.injEq, List.not_mem_nil, or_false]
  tauto

theorem rm_pair {c : Cut × Cut} : c ∈ rmE ↔ c = ((0, 2 / 3), (3, 16 / 17)) ∨ c = ((0, 1 / 3), (7, 1 / 17)) := by
  simp only [rmE, List.mem_cons, List.not_mem_nil, or_false]

theorem sq_of_far {a b : ℝ} (h : 10 ≤ a ∨ a ≤ -10 ∨ 10 ≤ b ∨ b ≤ -10) : 100 ≤ a ^ 2 + b ^ 2 := by
  rcases h with h | h | h | h <;> nlinarith [sq_nonneg a, sq_nonneg b]

theorem rm_near {X : V2 ℝ} {k : Nat} {u : ℝ} (hk : k < 8) (u0 : 0 ≤ u) (u1 : u ≤ 1)
    (h : (X.x - (curveAt room k u).x) ^ 2 + (X.y - (curveAt room k u).y) ^ 2 < 100) : ¬ Keeps room |10| X := by
  intro hk'
  have := hk' _ (on_curve (p := room) rfl (by decide) (k := k) hk u0 u1)
  have hsq := edist_sq X (curveAt room k u)
  rw [abs_of_pos (by norm_num : (0 : ℝ) < 10)] at this
  nlinarith

/-- where the raw offset keeps the distance -/
theorem rm_keeps {i : Nat} (hi : i < 10) {t : ℝ} (t0 : 0 ≤ t) (t1 : t ≤ 1) :
    Keeps room |10| (curveAt rmR i t) ↔ (i = 0 → t ≤ 1 / 3 ∨ 2 / 3 ≤ t) ∧ (i = 3 → t ≤ 16 / 17) ∧ (i = 7 → 1 / 17 ≤ t) ∧ i ≠ 4 ∧ i ≠ 5 ∧ i ≠ 6 := by
  have hn : 0 < room.verts.length := by decide
  obtain ⟨r0, r1, r2, r3, r5, r7, r8, r9⟩ := rmR_curve t
  obtain ⟨r4, r6⟩ := rmR_arcs t
  obtain ⟨s0, q0, s1, q1⟩ := q_bounds t0 t1
  constructor
  · intro h
    refine ⟨?_, ?_, ?_, ?_, ?_, ?_⟩
    · rintro rfl
      by_contra hcon
      push Not at hcon
      obtain ⟨h1, h2⟩ := hcon
      by_cases g1 : 10 + 180 * t < 90
      · refine rm_near (k := 5) (u := 1 / 19) (by norm_num) (by norm_num) (by norm_num) ?_ h
        rw [r0, (rm_curve _).2.2.2.2.2.1]; dsimp only; nlinarith
      · by_cases g2 : 110 < 10 + 180 * t
        · refine rm_near (k := 3) (u := 18 / 19) (by norm_num) (by norm_num) (by norm_num) ?_ h
          rw [r0, (rm_curve _).2.2.2.1]; dsimp only; nlinarith
        · refine rm_near (k := 4) (u := (110 - 180 * t) / 40) (by norm_num) (by linarith) (by linarith) ?_ h
          rw [r0, (rm_curve _).2.2.2.2.1]; dsimp only; ring_nf; norm_num
    · rintro rfl
      by_contra hcon
      push Not at hcon
      refine rm_near (k := 0) (u := 130 / 200) (by norm_num) (by norm_num) (by norm_num) ?_ h
      rw [r3, (rm_curve _).1]; dsimp only; nlinarith
    · rintro rfl
      by_contra hcon
      push Not at hcon
      refine rm_near (k := 0) (u := 70 / 200) (by norm_num) (by norm_num) (by norm_num) ?_ h
      rw [r7, (rm_curve _).1]; dsimp only; nlinarith
    · rintro rfl
      refine rm_near (k := 0) (u := (120 + 10 * qc t) / 200) (by norm_num) (by linarith) (by linarith) ?_ h
      rw [r4, (rm_curve _).1]; dsimp only; nlinarith
    · rintro rfl
      refine rm_near (k := 0) (u := (120 - 40 * t) / 200) (by norm_num) (by linarith) (by linarith) ?_ h
      rw [r5, (rm_curve _).1]; dsimp only; ring_nf; norm_num
    · rintro rfl
      refine rm_near (k := 0) (u := (80 - 10 * qs t) / 200) (by norm_num) (by linarith) (by linarith) ?_ h
      rw [r6, (rm_curve _).1]; dsimp only; nlinarith
  · rintro ⟨h0, h3, h7, n4, n5, n6⟩ q ⟨s, hs, u, u0, u1, rfl⟩
    rw [abs_of_pos (by norm_num : (0 : ℝ) < 10)]
    obtain ⟨k, hk, rfl⟩ := loop_seg rfl (by decide) hs
    rw [rm_len] at hk
    rw [← curveAt_vtx hn]
    have hsq := edist_sq (curveAt rmR i t) (curveAt room k u)
    have hnn := edist_nonneg (curveAt rmR i t) (curveAt room k u)
    suffices h : 100 ≤ ((curveAt rmR i t).x - (curveAt room k u).x) ^ 2 + ((curveAt rmR i t).y - (curveAt room k u).y) ^ 2 by nlinarith
    clear hsq hnn
    obtain ⟨c0, c1, c2, c3, c4, c5, c6, c7⟩ := rm_curve u
    apply sq_of_far
    interval_cases i
    case «4» => exact absurd rfl n4
    case «5» => exact absurd rfl n5
    case «6» => exact absurd rfl n6
    case «0» =>
      clear h3 h7
      have h := h0 rfl
      clear h0
      rcases h with h | h <;> interval_cases k <;> simp only [r0, r1, r2, r3, r5, r7, r8, r9, c0, c1, c2, c3, c4, c5, c6, c7] <;> first
        | (left; linarith)
        | (right; left; linarith)
        | (right; right; left; linarith)
        | (right; right; right; linarith)
    case «3» =>
      have h := h3 rfl
      clear h0 h3 h7
      interval_cases k <;> simp only [r0, r1, r2, r3, r5, r7, r8, r9, c0, c1, c2, c3, c4, c5, c6, c7] <;> first
        | (left; linarith)
        | (right; left; linarith)
        | (right; right; left; linarith)
        | (right; right; right; linarith)
    case «7» =>
      have h := h7 rfl
      clear h0 h3 h7
      interval_cases k <;> simp only [r0, r1, r2, r3, r5, r7, r8, r9, c0, c1, c2, c3, c4, c5, c6, c7] <;> first
        | (left; linarith)
        | (right; left; linarith)
        | (right; right; left; linarith)
        | (right; right; right; linarith)
    all_goals
      clear h0 h3 h7
      interval_cases k <;> simp only [r0, r1, r2, r3, r5, r7, r8, r9, c0, c1, c2, c3, c4, c5, c6, c7] <;> first
        | (left; linarith)
        | (right; left; linarith)
        | (right; right; left; linarith)
        | (right; right; right; linarith)

/-! ## Boxes -/

/-- bounds of the boxes of the raw offset -/
noncomputable def rmRTable : Nat → AABB ℝ
  | 0 => ⟨10, 10, 190, 10⟩
  | 1 => ⟨190, 10, 190, 90⟩
  | 2 => ⟨130, 90, 190, 90⟩
  | 3 => ⟨130, 5, 130, 90⟩
  | 4 => ⟨235 / 2, -15 / 2, 265 / 2, 15 / 2⟩
  | 5 => ⟨80, -5, 120, -5⟩
  | 6 => ⟨135 / 2, -15 / 2, 165 / 2, 15 / 2⟩
  | 7 => ⟨70, 5, 70, 90⟩
  | 8 => ⟨10, 90, 70, 90⟩
  | _ => ⟨10, 10, 10, 90⟩

/-- bounds of the boxes of the room -/
noncomputable def rmTable : Nat → AABB ℝ
  | 0 => ⟨0, 0, 200, 0⟩
  | 1 => ⟨200, 0, 200, 100⟩
  | 2 => ⟨120, 100, 200, 100⟩
  | 3 => ⟨120, 5, 120, 100⟩
  | 4 => ⟨80, 5, 120, 5⟩
  | 5 => ⟨80, 5, 80, 100⟩
  | 6 => ⟨0, 100, 80, 100⟩
  | _ => ⟨0, 0, 0, 100⟩

/-- bounds of the boxes of the raw offset to the other side -/
noncomputable def rmDTable : Nat → AABB ℝ
  | 0 => ⟨0, -10, 200, -10⟩
  | 1 => ⟨395 / 2, -25 / 2, 425 / 2, 5 / 2⟩
  | 2 => ⟨210, 0, 210, 100⟩
  | 3 => ⟨395 / 2, 195 / 2, 425 / 2, 225 / 2⟩
  | 4 => ⟨120, 110, 200, 110⟩
  | 5 => ⟨215 / 2, 195 / 2, 245 / 2, 225 / 2⟩
  | 6 => ⟨110, 15, 110, 100⟩
  | 7 => ⟨90, 15, 110, 15⟩
  | 8 => ⟨90, 15, 90, 100⟩
  | 9 => ⟨155 / 2, 195 / 2, 185 / 2, 225 / 2⟩
  | 10 => ⟨0, 110, 80, 110⟩
  | 11 => ⟨-25 / 2, 195 / 2, 5 / 2, 225 / 2⟩
  | 12 => ⟨-10, 0, -10, 100⟩
  | _ => ⟨-25 / 2, -25 / 2, 5 / 2, 5 / 2⟩

theorem rm_boxes (k : Nat) (hk : k < 8) : BoxIn (segBox (vtx room k, vtx room (k + 1))) (rmTable k) := by
  obtain ⟨v0, v1, v2, v3, v4, v5, v6, v7, v8, v9⟩ := rm_vtx
  interval_cases k <;> simp only [Nat.reduceAdd, v0, v1, v2, v3, v4, v5, v6, v7, v8, v9] <;> rw [line_box] <;> norm_num [BoxIn, rmTable]

theorem rmR_boxes (k : Nat) (hk : k < 10) : BoxIn (segBox (vtx rmR k, vtx rmR (k + 1))) (rmRTable k) := by
  obtain ⟨v0, v1, v2, v3, v4, v5, v6, v7, v8, v9, v10, v11⟩ := rmR_vtx
  have key : ∀ {b c c' : AABB ℝ}, BoxIn b c → c = c' → BoxIn b c' := fun h e => e ▸ h
  interval_cases k <;> simp only [Nat.reduceAdd, v0, v1, v2, v3, v4, v5, v6, v7, v8, v9, v10, v11] <;> first
    | (rw [line_box]; norm_num [BoxIn, rmRTable]; done)
    | (refine key (narc_box_len (l := 10) ?_ ?_) ?_
       · norm_num
       · norm_num
       · norm_num [rmRTable])

theorem rmD_boxes (k : Nat) (hk : k < 14) : BoxIn (segBox (vtx rmD k, vtx rmD (k + 1))) (rmDTable k) := by
  obtain ⟨v0, v1, v2, v3, v4, v5, v6, v7, v8, v9, v10, v11, v12, v13, v14, v15⟩ := rmD_vtx
  have key : ∀ {b c c' : AABB ℝ}, BoxIn b c → c = c' → BoxIn b c' := fun h e => e ▸ h
  interval_cases k <;> simp only [Nat.reduceAdd, v0, v1, v2, v3, v4, v5, v6, v7, v8, v9, v10, v11, v12, v13, v14, v15] <;> first
    | (rw [line_box]; norm_num [BoxIn, rmDTable]; done)
    | (refine key (arc_box_len (l := 10) ?_ ?_) ?_
       · norm_num
       · norm_num
       · norm_num [rmDTable])

/-- the boxes of the two raw offsets do not meet -/
theorem rm_apart (i k : Nat) (hi : i < 10) (hk : k < 14) :
    (rmRTable i).maxX + 1 < (rmDTable k).minX ∨ (rmRTable i).maxY + 1 < (rmDTable k).minY ∨
    (rmDTable k).maxX + 1 < (rmRTable i).minX ∨ (rmDTable k).maxY + 1 < (rmRTable i).minY := by
  interval_cases i <;> interval_cases k <;> norm_num [rmRTable, rmDTable]

theorem rm_common (i : Nat) (hi : i < 10) {t : ℝ} (t0 : 0 ≤ t) (t1 : t ≤ 1) : ¬ OnPline rmD (curveAt rmR i t) := by
  rintro ⟨s, hs, hX⟩
  obtain ⟨k, hk, rfl⟩ := loop_seg rfl (by rw [rmD_len]; norm_num) hs
  rw [rmD_len] at hk
  have a := C33_fast_box _ _ (loop_shape rmD_full k) _ hX
  have b := C33_fast_box (vtx rmR i) (vtx rmR (i + 1)) (loop_shape rmR_full i) (curveAt rmR i t) ⟨t, t0, t1, curveAt_vtx (by rw [rmR_len]; norm_num) _ _⟩
  obtain ⟨a1, a2, a3, a4⟩ := a
  obtain ⟨b1, b2, b3, b4⟩ := b
  obtain ⟨c1, c2, c3, c4⟩ := rmR_boxes i hi
  obtain ⟨d1, d2, d3, d4⟩ := rmD_boxes k hk
  unfold segBox at c1 c2 c3 c4 d1 d2 d3 d4
  rcases rm_apart i k hi hk with h | h | h | h <;> linarith

/-! ## The conditions -/

theorem rm_cut_pts : curveAt rmR 0 (2 / 3) = ⟨130, 10⟩ ∧ curveAt rmR 0 (1 / 3) = ⟨70, 10⟩ ∧ curveAt rmR 3 (16 / 17) = ⟨130, 10⟩ ∧ curveAt rmR 7 (1 / 17) = ⟨70, 10⟩ := by
  have h := rmR_curve
  refine ⟨(h _).1.trans ?_, (h _).1.trans ?_, (h _).2.2.2.1.trans ?_, (h _).2.2.2.2.2.1.trans ?_⟩ <;> norm_num

theorem rm_all {P : Cut → Prop} (h1 : P (0, 2 / 3)) (h2 : P (0, 1 / 3)) (h3 : P (3, 16 / 17)) (h4 : P (7, 1 / 17)) : ∀ c ∈ bothCuts rmE, P c := by
  rintro ⟨i, t⟩ hc
  rcases rm_cut.mp hc with ⟨rfl, rfl | rfl⟩ | ⟨rfl, rfl⟩ | ⟨rfl, rfl⟩ <;> assumption

theorem rm_passes : ∀ i t j u, i < j → j < rmR.verts.length → 0 ≤ t → t ≤ 1 → 0 ≤ u → u ≤ 1 → curveAt rmR i t = curveAt rmR j u →
    (j = i + 1 ∧ t = 1 ∧ u = 0) ∨ (i = 0 ∧ j + 1 = rmR.verts.length ∧ t = 0 ∧ u = 1) ∨ ((i, t), (j, u)) ∈ rmE := by
  intro i t j u hij hj t0 t1 u0 u1 h
  rw [rmR_len] at hj ⊢
  have hi : i < 9 := by omega
  rw [rm_pair]
  obtain ⟨a0, a1, a2, a3, a5, a7, a8, a9⟩ := rmR_curve t
  obtain ⟨b0, b1, b2, b3, b5, b7, b8, b9⟩ := rmR_curve u
  obtain ⟨a4, a6⟩ := rmR_arcs t
  obtain ⟨b4, b6⟩ := rmR_arcs u
  obtain ⟨s0, c0, s1, c1⟩ := q_bounds t0 t1
  obtain ⟨s0', c0', s1', c1'⟩ := q_bounds u0 u1
  have z1 := fun h => qs_zero t0 t1 h
  have z2 := fun h => qc_zero t0 t1 h
  have z3 := fun h => qs_zero u0 u1 h
  have z4 := fun h => qc_zero u0 u1 h
  interval_cases i <;> interval_cases j <;> simp only [a0, a1, a2, a3, a4, a5, a6, a7, a8, a9, b0, b1, b2, b3, b4, b5, b6, b7, b8, b9, V2.mk.injEq] at h <;> obtain ⟨h1, h2⟩ := h <;> first
    | (exfalso; linarith)
    | (left; exact ⟨rfl, by linarith, by linarith⟩)
    | (left; exact ⟨rfl, by linarith, z3 (by linarith)⟩)
    | (left; exact ⟨rfl, z2 (by linarith), by linarith⟩)
    | (right; left; exact ⟨rfl, rfl, by linarith, by linarith⟩)
    | (right; right; left; exact Prod.ext (Prod.ext rfl (by dsimp only; linarith)) (Prod.ext rfl (by dsimp only; linarith)))
    | (right; right; right; exact Prod.ext (Prod.ext rfl (by dsimp only; linarith)) (Prod.ext rfl (by dsimp only; linarith)))

theorem rm_cutOk : ∀ c ∈ bothCuts rmE, CutOk rmR (1 / 100000) c := by
  have hn : 0 < rmR.verts.length := by rw [rmR_len]; norm_num
  obtain ⟨e1, e2, e3, e4⟩ := rm_cut_pts
  obtain ⟨v0, v1, v2, v3, v4, v5, v6, v7, v8, v9, v10, v11⟩ := rmR_vtx
  refine rm_all ?_ ?_ ?_ ?_ <;> refine ⟨by norm_num, by norm_num, FarApart.fuzzy ?_, FarApart.fuzzy ?_, Or.inl (box4_line _ _), Or.inl (box4_line _ _)⟩ <;>
    dsimp only <;> rw [← curveAt_vtx hn] <;> simp only [e1, e2, e3, e4, Nat.reduceAdd, v0, v1, v2, v3, v4, v5, v6, v7, v8, v9, v10, v11, Vertex.pos] <;> unfold FarApart <;> norm_num [abs_of_pos, abs_of_neg]

theorem rm_crossing : SelfCrossing rmR (1 / 100000) 1 rmE := by
  obtain ⟨e1, e2, e3, e4⟩ := rm_cut_pts
  refine ⟨by rw [rmR_len]; norm_num, ?_, ?_, rm_passes, ?_, rm_all (by decide) (by decide) (by decide) (by decide), rm_cutOk, ?_,
    rm_all (fun _ _ _ _ => Or.inl (box4_line _ _)) (fun _ _ _ _ => Or.inl (box4_line _ _)) (fun _ _ _ _ => Or.inl (box4_line _ _)) (fun _ _ _ _ => Or.inl (box4_line _ _))⟩
  · intro c hc
    rcases rm_pair.mp hc with rfl | rfl <;> dsimp only
    · rw [e1, e3]
    · rw [e2, e4]
  · intro c hc
    rcases rm_pair.mp hc with rfl | rfl <;> norm_num
  · simp only [bothCuts, rmE, List.map_cons, List.map_nil, List.cons_append, List.nil_append, List.nodup_cons, List.mem_cons, Prod.mk.injEq, List.not_mem_nil, or_false]
    norm_num
  · intro c hc c' hc' hne
    rcases rm_pair.mp hc with rfl | rfl <;> rcases rm_pair.mp hc' with rfl | rfl <;> first
      | exact absurd rfl hne
      | (dsimp only; simp only [e1, e2]; unfold FarApart; norm_num [abs_of_pos, abs_of_neg])

theorem rm_cuts : SelfCuts rmR rmD (1 / 100000) 1 (bothCuts rmE) := by
  obtain ⟨e1, e2, e3, e4⟩ := rm_cut_pts
  have m1 : ((0, 2 / 3) : Cut) ∈ bothCuts rmE := rm_cut.mpr (Or.inl ⟨rfl, Or.inr rfl⟩)
  have m2 : ((0, 1 / 3) : Cut) ∈ bothCuts rmE := rm_cut.mpr (Or.inl ⟨rfl, Or.inl rfl⟩)
  have m3 : ((3, 16 / 17) : Cut) ∈ bothCuts rmE := rm_cut.mpr (Or.inr (Or.inl ⟨rfl, rfl⟩))
  have m4 : ((7, 1 / 17) : Cut) ∈ bothCuts rmE := rm_cut.mpr (Or.inr (Or.inr ⟨rfl, rfl⟩))
  refine ⟨by rw [rmR_len]; norm_num, rm_all (Or.inl ⟨_, m3, by decide, ?_⟩) (Or.inl ⟨_, m4, by decide, ?_⟩) (Or.inl ⟨_, m1, by decide, ?_⟩) (Or.inl ⟨_, m2, by decide, ?_⟩), ?_, ?_,
    rm_all (by decide) (by decide) (by decide) (by decide), rm_cutOk, ?_, ?_, rm_crossing.long, ?_⟩
  · dsimp only; rw [e1, e3]
  · dsimp only; rw [e2, e4]
  · dsimp only; rw [e1, e3]
  · dsimp only; rw [e2, e4]
  · intro i t j u hij hj t0 t1 u0 u1 h
    rcases rm_passes i t j u hij hj t0 t1 u0 u1 h with h | h | h
    · exact Or.inl h
    · exact Or.inr (Or.inl h)
    · refine Or.inr (Or.inr ?_)
      unfold bothCuts
      exact ⟨List.mem_append_left _ (List.mem_map.mpr ⟨_, h, rfl⟩), List.mem_append_right _ (List.mem_map.mpr ⟨_, h, rfl⟩)⟩
  · intro i t hi t0 t1 h
    exact absurd h (rm_common i hi t0 t1)
  · refine rm_all ?_ ?_ ?_ ?_ <;> dsimp only <;> simp only [e1, e2, e3, e4] <;> intro v hv <;> simp only [rmD, List.mem_cons, List.not_mem_nil, or_false] at hv <;>
      rcases hv with rfl | rfl | rfl | rfl | rfl | rfl | rfl | rfl | rfl | rfl | rfl | rfl | rfl | rfl <;> apply FarApart.fuzzy <;> unfold FarApart Vertex.pos <;> norm_num [abs_of_pos, abs_of_neg]
  · refine rm_all ?_ ?_ ?_ ?_ <;> refine rm_all ?_ ?_ ?_ ?_ <;> dsimp only <;> simp only [e1, e2, e3, e4] <;> first
      | exact Or.inl rfl
      | exact Or.inl trivial
      | (right; unfold FarApart; norm_num [abs_of_pos, abs_of_neg])
  · refine rm_all ⟨_, m3, ?_⟩ ⟨_, m3, ?_⟩ ⟨_, m1, ?_⟩ ⟨_, m1, ?_⟩ <;> simp

theorem rm_finds : FindsSelf rmR (1 / 100000) := by
  have hn : 0 < rmR.verts.length := by rw [rmR_len]; norm_num
  obtain ⟨v0, v1, v2, v3, v4, v5, v6, v7, v8, v9, v10, v11⟩ := rmR_vtx
  obtain ⟨e1, e2, e3, e4⟩ := rm_cut_pts
  have q4 := nquarter (c := ⟨120, 5⟩) (p := ⟨130, 5⟩) (q := ⟨120, -5⟩) (by norm_num) (by norm_num)
  have q6 := nquarter (c := ⟨80, 5⟩) (p := ⟨80, -5⟩) (q := ⟨70, 5⟩) (by norm_num) (by norm_num)
  dsimp only at q4 q6
  have hlines : ∀ i, IsLine (vtx rmR i) → IsLine (vtx rmR (i + 1)) → 1 / 100000 ≤ |dirCross (vtx rmR i).pos (vtx rmR (i + 1)).pos (vtx rmR (i + 1)).pos (vtx rmR (i + 2)).pos| →
      FindsCorner (vtx rmR i, vtx rmR (i + 1)) (vtx rmR (i + 1), vtx rmR (i + 2)) (1 / 100000) := fun i h1 h2 h3 =>
    finds_corner (by norm_num) (.lines h1 h2 (Or.inl ⟨⟨(vtx rmR (i + 1)).pos, ⟨1, by norm_num, le_rfl, (segCurve_ends _ _).2.symm⟩, ⟨0, le_rfl, by norm_num, (segCurve_ends _ _).1.symm⟩⟩, h3⟩))
  constructor
  · intro i hi
    rw [rmR_len] at hi
    interval_cases i
    case «3» =>
      simp only [Nat.reduceAdd, v0, v1, v2, v3, v4, v5, v6, v7, v8, v9, v10, v11]
      exact corner_line_arc (by norm_num) (box4_line _ _) (long_tangent (q4 _).2.2 (q4 _).1 (q4 _).2.1 (Or.inr rfl) (by norm_num [Vertex.pos])
        (by norm_num [LineOk, Apart, Vertex.pos]) (by norm_num [Vertex.pos]) (by norm_num [Vertex.pos]))
    case «4» =>
      simp only [Nat.reduceAdd, v0, v1, v2, v3, v4, v5, v6, v7, v8, v9, v10, v11]
      exact corner_arc_line (by norm_num) (box4_line _ _) (long_tangent (q4 _).2.2 (q4 _).1 (q4 _).2.1 (Or.inl rfl) (by norm_num [Vertex.pos])
        (by norm_num [LineOk, Apart, Vertex.pos]) (by norm_num [Vertex.pos]) (by norm_num [Vertex.pos]))
    case «5» =>
      simp only [Nat.reduceAdd, v0, v1, v2, v3, v4, v5, v6, v7, v8, v9, v10, v11]
      exact corner_line_arc (by norm_num) (box4_line _ _) (long_tangent (q6 _).2.2 (q6 _).1 (q6 _).2.1 (Or.inr rfl) (by norm_num [Vertex.pos])
        (by norm_num [LineOk, Apart, Vertex.pos]) (by norm_num [Vertex.pos]) (by norm_num [Vertex.pos]))
    case «6» =>
      simp only [Nat.reduceAdd, v0, v1, v2, v3, v4, v5, v6, v7, v8, v9, v10, v11]
      exact corner_arc_line (by norm_num) (box4_line _ _) (long_tangent (q6 _).2.2 (q6 _).1 (q6 _).2.1 (Or.inl rfl) (by norm_num [Vertex.pos])
        (by norm_num [LineOk, Apart, Vertex.pos]) (by norm_num [Vertex.pos]) (by norm_num [Vertex.pos]))
    all_goals
      apply hlines _ (box4_line _ _) (box4_line _ _)
      simp only [Nat.reduceAdd, v0, v1, v2, v3, v4, v5, v6, v7, v8, v9, v10, v11]; unfold dirCross Vertex.pos; norm_num [abs_of_pos, abs_of_neg]
  · intro i k hi hk hik h1 h2 hbox
    rw [rmR_len] at hi hk h1 h2
    have key : (i = 0 ∧ k = 3) ∨ (i = 3 ∧ k = 0) ∨ (i = 0 ∧ k = 7) ∨ (i = 7 ∧ k = 0) := by
      have key := fun h => boxIn_apart (e := 1 / 100000) (rmR_boxes k hk) (rmR_boxes i hi) h
      unfold BoxesMeet at hbox
      rw [hbox] at key
      simp only [imp_false, Bool.true_eq_false] at key
      by_contra hcon
      apply key
      interval_cases i <;> interval_cases k <;> first
        | exact absurd rfl hik
        | exact absurd rfl h1
        | exact absurd rfl h2
        | (exact absurd (by decide) hcon)
        | norm_num [rmRTable]
    have p1 : OnSeg (vtx rmR 0) (vtx rmR 1) ⟨130, 10⟩ ∧ OnSeg (vtx rmR 3) (vtx rmR 4) ⟨130, 10⟩ :=
      ⟨⟨2 / 3, by norm_num, by norm_num, by rw [← e1, curveAt_vtx hn]⟩, ⟨16 / 17, by norm_num, by norm_num, by rw [← e3, curveAt_vtx hn]⟩⟩
    have p2 : OnSeg (vtx rmR 0) (vtx rmR 1) ⟨70, 10⟩ ∧ OnSeg (vtx rmR 7) (vtx rmR 8) ⟨70, 10⟩ :=
      ⟨⟨1 / 3, by norm_num, by norm_num, by rw [← e2, curveAt_vtx hn]⟩, ⟨1 / 17, by norm_num, by norm_num, by rw [← e4, curveAt_vtx hn]⟩⟩
    rcases key with ⟨rfl, rfl⟩ | ⟨rfl, rfl⟩ | ⟨rfl, rfl⟩ | ⟨rfl, rfl⟩
    · refine finds_pair (by norm_num) (.lines (box4_line _ _) (box4_line _ _) (Or.inl ⟨⟨⟨130, 10⟩, p1.1, p1.2⟩, ?_⟩))
      simp only [Nat.reduceAdd, v0, v1, v2, v3, v4, v5, v6, v7, v8, v9, v10, v11]; unfold dirCross Vertex.pos; norm_num [abs_of_pos, abs_of_neg]
    · refine finds_pair (by norm_num) (.lines (box4_line _ _) (box4_line _ _) (Or.inl ⟨⟨⟨130, 10⟩, p1.2, p1.1⟩, ?_⟩))
      simp only [Nat.reduceAdd, v0, v1, v2, v3, v4, v5, v6, v7, v8, v9, v10, v11]; unfold dirCross Vertex.pos; norm_num [abs_of_pos, abs_of_neg]
    · refine finds_pair (by norm_num) (.lines (box4_line _ _) (box4_line _ _) (Or.inl ⟨⟨⟨70, 10⟩, p2.1, p2.2⟩, ?_⟩))
      simp only [Nat.reduceAdd, v0, v1, v2, v3, v4, v5, v6, v7, v8, v9, v10, v11]; unfold dirCross Vertex.pos; norm_num [abs_of_pos, abs_of_neg]
    · refine finds_pair (by norm_num) (.lines (box4_line _ _) (box4_line _ _) (Or.inl ⟨⟨⟨70, 10⟩, p2.2, p2.1⟩, ?_⟩))
      simp only [Nat.reduceAdd, v0, v1, v2, v3, v4, v5, v6, v7, v8, v9, v10, v11]; unfold dirCross Vertex.pos; norm_num [abs_of_pos, abs_of_neg]

theorem rm_pairs : FindsPairs rmR rmD (1 / 100000) := by
  intro s1 h1 s2 h2 hbox
  obtain ⟨i, hi, rfl⟩ := loop_seg rfl (by rw [rmR_len]; norm_num) h1
  obtain ⟨k, hk, rfl⟩ := loop_seg rfl (by rw [rmD_len]; norm_num) h2
  rw [rmR_len] at hi
  rw [rmD_len] at hk
  exfalso
  unfold BoxesMeet at hbox
  have hap := rm_apart i k hi hk
  first
    | (have key := boxIn_apart (e := 1 / 100000) (rmD_boxes k hk) (rmR_boxes i hi) (by
        rcases hap with h | h | h | h
        · right; right; left; linarith
        · right; right; right; linarith
        · left; linarith
        · right; left; linarith)
       rw [hbox] at key; cases key)
    | (have key := boxIn_apart (e := 1 / 100000) (rmR_boxes i hi) (rmD_boxes k hk) (by
        rcases hap with h | h | h | h
        · left; linarith
        · right; left; linarith
        · right; right; left; linarith
        · right; right; right; linarith)
       rw [hbox] at key; cases key)

theorem rm_read (X : V2 ℝ) : Readable room (1 / 100000) X := by
  intro s hs hl
  obtain ⟨k, hk, rfl⟩ := loop_seg rfl (by decide) hs
  exact absurd (rm_straight.line k) hl

theorem rm_tests : SelfTests room rmR 10 (1 / 100000) (1 / 10000) (bothCuts rmE) := by
  have hn : 0 < rmR.verts.length := by rw [rmR_len]; norm_num
  refine ⟨fun h => by simp [bothCuts, rmE] at h, ?_, ?_, fun i lo hi h => ⟨rm_read _, rm_read _, rm_read _⟩⟩
  · intro i lo hi hst hcut
    have hlt := hst.lt
    have h1 := hst.one
    have hin : ∀ t, (i, t) ∈ bothCuts rmE → lo < t → hi ≤ t := fun t h h2 => by
      by_contra hcon
      push Not at hcon
      exact hst.inside t h2 hcon h
    have hend := hst.stop
    rw [rm_cut] at hend
    rcases rm_cut.mp hcut with ⟨rfl, rfl | rfl⟩ | ⟨rfl, rfl⟩ | ⟨rfl, rfl⟩
    · right
      have h := hin (2 / 3) (rm_cut.mpr (Or.inl ⟨rfl, Or.inr rfl⟩)) (by norm_num)
      have hhi : hi = 2 / 3 := by
        rcases hend with rfl | ⟨-, rfl | rfl⟩ | ⟨h, -⟩ | ⟨h, -⟩
        · norm_num at h
        · exact absurd hlt (lt_irrefl _)
        · rfl
        · cases h
        · cases h
      subst hhi
      refine ⟨_, on_curve (p := room) rfl (by decide) (k := 4) (by decide) (u := 1 / 2) (by norm_num) (by norm_num), ?_⟩
      rw [edist_sq, (rmR_curve _).1, (rm_curve _).2.2.2.2.1, abs_of_pos (by norm_num : (0 : ℝ) < 10)]
      norm_num
    · left
      exact (rm_keeps (by norm_num) (by linarith) (by linarith)).mpr ⟨fun _ => Or.inr (by linarith), by simp, by simp, by norm_num, by norm_num, by norm_num⟩
    · right
      have hhi : hi = 1 := by
        rcases hend with rfl | ⟨h, -⟩ | ⟨-, rfl⟩ | ⟨h, -⟩
        · rfl
        · cases h
        · exact absurd hlt (lt_irrefl _)
        · cases h
      subst hhi
      refine ⟨_, on_curve (p := room) rfl (by decide) (k := 0) (by decide) (u := 130 / 200) (by norm_num) (by norm_num), ?_⟩
      rw [edist_sq, (rmR_curve _).2.2.2.1, (rm_curve _).1, abs_of_pos (by norm_num : (0 : ℝ) < 10)]
      norm_num
    · left
      exact (rm_keeps (by norm_num) (by linarith) (by linarith)).mpr ⟨by simp, by simp, fun _ => by linarith, by norm_num, by norm_num, by norm_num⟩
  · intro i lo hi x y hst hk hfull hcv
    have hi10 : i < 10 := hst.range
    have h0 := hst.zero
    have h1 := hst.one
    have h2 := hst.lt
    have hkp := fun t a b => (rm_keeps hi10 (by linarith) (by linarith)).mp (hk t a b)
    obtain ⟨-, -, -, n4, n5, n6⟩ := hkp lo le_rfl h2.le
    have hline : IsLine (vtx rmR i) := by
      interval_cases i <;> first
        | exact absurd rfl n4
        | exact absurd rfl n6
        | exact box4_line _ _
    have hx : x.pos = curveAt rmR i lo := by
      have := hcv 0
      rw [(segCurve_ends x y).1] at this
      rw [this]; congr 1; ring
    have hy : y.pos = curveAt rmR i hi := by
      have := hcv 1
      rw [(segCurve_ends x y).2] at this
      rw [this]; congr 1; ring
    have hne : x.pos ≠ y.pos := fuzzy_ne (by norm_num) hfull.apart
    have hl : IsLine x := by
      apply line_of_middle hne
      rw [hcv, hx, hy, curveAt_vtx hn, curveAt_vtx hn, curveAt_vtx hn, segCurve_line hline, segCurve_line hline, segCurve_line hline]
      unfold linePoint
      dsimp only
      rw [V2.mk.injEq]
      constructor <;> ring
    have k0 : i = 0 → hi ≤ 1 / 3 ∨ 2 / 3 ≤ lo := fun h => one_side (by norm_num) h2.le (fun t a b => (hkp t a b).1 h)
    have k3 : i = 3 → hi ≤ 16 / 17 := fun h => (hkp hi h2.le le_rfl).2.1 h
    have k7 : i = 7 → 1 / 17 ≤ lo := fun h => (hkp lo le_rfl h2.le).2.2.1 h
    clear hk hkp
    intro s hs hov
    exfalso
    obtain ⟨k, hk', rfl⟩ := loop_seg rfl (by decide) hs
    rw [rm_len] at hk'
    have hfe : (Scalar.fuzzyEps : ℝ) = 1 / 100000000 := by simp [Scalar.fuzzyEps]
    rw [hfe] at hov
    obtain ⟨xx, xy, xb⟩ := x
    obtain ⟨yx, yy, yb⟩ := y
    have hbox : ∀ B : AABB ℝ, (B.minX ≤ xx ∧ B.minX ≤ yx) → (B.minY ≤ xy ∧ B.minY ≤ yy) → (xx ≤ B.maxX ∧ yx ≤ B.maxX) → (xy ≤ B.maxY ∧ yy ≤ B.maxY) →
        BoxIn (segBox (⟨xx, xy, xb⟩, ⟨yx, yy, yb⟩)) B := by
      rintro B ⟨a1, a2⟩ ⟨a3, a4⟩ ⟨a5, a6⟩ ⟨a7, a8⟩
      unfold segBox segFastApproxBoundingBox
      rw [bulgeIsZero_true hl]
      simp only [if_true, minMax_eq]
      exact ⟨le_min a1 a2, le_min a3 a4, max_le a5 a6, max_le a7 a8⟩
    have fin : ∀ B : AABB ℝ, (B.minX ≤ xx ∧ B.minX ≤ yx) → (B.minY ≤ xy ∧ B.minY ≤ yy) → (xx ≤ B.maxX ∧ yx ≤ B.maxX) → (xy ≤ B.maxY ∧ yy ≤ B.maxY) →
        ((rmTable k).maxX + 1 / 100000000 < B.minX ∨ (rmTable k).maxY + 1 / 100000000 < B.minY ∨ B.maxX + 1 / 100000000 < (rmTable k).minX ∨ B.maxY + 1 / 100000000 < (rmTable k).minY) → False := by
      intro B a1 a2 a3 a4 h
      have := boxIn_apart (rm_boxes k hk') (hbox B a1 a2 a3 a4) h
      rw [hov] at this
      cases this
    clear hov hbox hfull hcv hl hne hline
    obtain ⟨a0, a1, a2, a3, a5, a7, a8, a9⟩ := rmR_curve lo
    obtain ⟨b0, b1, b2, b3, b5, b7, b8, b9⟩ := rmR_curve hi
    interval_cases i
    case «4» => exact absurd rfl n4
    case «5» => exact absurd rfl n5
    case «6» => exact absurd rfl n6
    all_goals simp only [a0, a1, a2, a3, a5, a7, a8, a9, b0, b1, b2, b3, b5, b7, b8, b9, Vertex.pos, V2.mk.injEq] at hx hy <;> obtain ⟨rfl, rfl⟩ := hx <;> obtain ⟨rfl, rfl⟩ := hy
    case «0» =>
      rcases k0 rfl with h | h
      · refine fin ⟨10, 10, 70, 10⟩ ⟨?_, ?_⟩ ⟨?_, ?_⟩ ⟨?_, ?_⟩ ⟨?_, ?_⟩ ?_ <;> try (dsimp only; linarith)
        interval_cases k <;> norm_num [rmTable]
      · refine fin ⟨130, 10, 190, 10⟩ ⟨?_, ?_⟩ ⟨?_, ?_⟩ ⟨?_, ?_⟩ ⟨?_, ?_⟩ ?_ <;> try (dsimp only; linarith)
        interval_cases k <;> norm_num [rmTable]
    case «3» =>
      have h := k3 rfl
      refine fin ⟨130, 10, 130, 90⟩ ⟨?_, ?_⟩ ⟨?_, ?_⟩ ⟨?_, ?_⟩ ⟨?_, ?_⟩ ?_ <;> try (dsimp only; linarith)
      interval_cases k <;> norm_num [rmTable]
    case «7» =>
      have h := k7 rfl
      refine fin ⟨70, 10, 70, 90⟩ ⟨?_, ?_⟩ ⟨?_, ?_⟩ ⟨?_, ?_⟩ ⟨?_, ?_⟩ ?_ <;> try (dsimp only; linarith)
      interval_cases k <;> norm_num [rmTable]

    case «1» =>
      refine fin (rmRTable 1) ⟨?_, ?_⟩ ⟨?_, ?_⟩ ⟨?_, ?_⟩ ⟨?_, ?_⟩ ?_ <;> try (simp only [rmRTable]; linarith)
      interval_cases k <;> norm_num [rmTable, rmRTable]
    case «2» =>
      refine fin (rmRTable 2) ⟨?_, ?_⟩ ⟨?_, ?_⟩ ⟨?_, ?_⟩ ⟨?_, ?_⟩ ?_ <;> try (simp only [rmRTable]; linarith)
      interval_cases k <;> norm_num [rmTable, rmRTable]
    case «8» =>
      refine fin (rmRTable 8) ⟨?_, ?_⟩ ⟨?_, ?_⟩ ⟨?_, ?_⟩ ⟨?_, ?_⟩ ?_ <;> try (simp only [rmRTable]; linarith)
      interval_cases k <;> norm_num [rmTable, rmRTable]
    case «9» =>
      refine fin (rmRTable 9) ⟨?_, ?_⟩ ⟨?_, ?_⟩ ⟨?_, ?_⟩ ⟨?_, ?_⟩ ?_ <;> try (simp only [rmRTable]; linarith)
      interval_cases k <;> norm_num [rmTable, rmRTable]

theorem rm_stretch {i : Nat} {lo hi : ℝ} (h : Stretch rmR rmE i lo hi) : SelfStretch rmR (bothCuts rmE) i lo hi :=
  ⟨h.range, h.zero, h.lt, h.one, h.start, h.stop, h.inside⟩

theorem rm_clearTests : ClearTests room rmR 10 (1 / 100000) (1 / 10000) rmE :=
  ⟨fun h => by simp [rmE] at h, fun i lo hi h => rm_tests.middle i lo hi (rm_stretch h), fun i lo hi x y h => rm_tests.clear i lo hi x y (rm_stretch h)⟩

theorem rm_readable : ReadableTests room rmR (1 / 100000) rmE := fun i lo hi h => ⟨rm_read _, rm_read _, rm_read _⟩

/-! ## The corners and the angles -/

theorem rm_clearOffset_in : ClearOffset room 10 (straightCorner room 10) (1 / 100000) :=
  straight_clear rm_straight rm_full (by norm_num) (rm_clear 10 (Or.inl rfl)) (rm_forward 10 (Or.inl rfl)) (by rw [rm_raw_in]; exact rmR_full) (by rw [rm_raw_in]; exact rm_first_in)

theorem rm_clearOffset_out : ClearOffset room (-10) (straightCorner room (-10)) (1 / 100000) :=
  straight_clear rm_straight rm_full (by norm_num) (rm_clear (-10) (Or.inr rfl)) (rm_forward (-10) (Or.inr rfl)) (by rw [rm_raw_out]; exact rmD_full) (by rw [rm_raw_out]; exact rm_first_out)

theorem rm_clean_in : CleanCorners room 10 (straightCorner room 10) := straight_clean rm_straight (by norm_num) (by norm_num) rm_clearOffset_in.corners

theorem rm_clean_out : CleanCorners room (-10) (straightCorner room (-10)) := straight_clean rm_straight (by norm_num) (by norm_num) rm_clearOffset_out.corners

theorem rm_free : FreeCuts room 10 (straightCorner room 10) := straight_free rm_straight (by norm_num) (by norm_num) rm_clearOffset_in.corners

theorem rm_slopes (t : ℝ) : HasDerivAt (fun s => (curveAt rmR 0 s).x) 180 t ∧ HasDerivAt (fun s => (curveAt rmR 0 s).y) 0 t ∧
    HasDerivAt (fun s => (curveAt rmR 3 s).x) 0 t ∧ HasDerivAt (fun s => (curveAt rmR 3 s).y) (-85) t ∧
    HasDerivAt (fun s => (curveAt rmR 7 s).x) 0 t ∧ HasDerivAt (fun s => (curveAt rmR 7 s).y) 85 t := by
  simp only [fun s => (rmR_curve s).1, fun s => (rmR_curve s).2.2.2.1, fun s => (rmR_curve s).2.2.2.2.2.1]
  refine ⟨lin_deriv _ _ _, hasDerivAt_const _ _, hasDerivAt_const _ _, ?_, hasDerivAt_const _ _, lin_deriv _ _ _⟩
  simpa [sub_eq_add_neg] using lin_deriv 90 (-85) t

theorem rm_angle : CrossAtAngle rmR rmE := by
  intro e he a b a' b' h1 h2 h3 h4
  rcases rm_pair.mp he with rfl | rfl
  · rw [h1.unique (rm_slopes _).1, h2.unique (rm_slopes _).2.1, h3.unique (rm_slopes _).2.2.1, h4.unique (rm_slopes _).2.2.2.1]; norm_num
  · rw [h1.unique (rm_slopes _).1, h2.unique (rm_slopes _).2.1, h3.unique (rm_slopes _).2.2.2.2.1, h4.unique (rm_slopes _).2.2.2.2.2]; norm_num

theorem rm_kinds : ∀ a ∈ bothCuts rmE, LoopCutKind rmR rmD (bothCuts rmE) a := by
  obtain ⟨e1, e2, e3, e4⟩ := rm_cut_pts
  have m1 : ((0, 2 / 3) : Cut) ∈ bothCuts rmE := rm_cut.mpr (Or.inl ⟨rfl, Or.inr rfl⟩)
  have m2 : ((0, 1 / 3) : Cut) ∈ bothCuts rmE := rm_cut.mpr (Or.inl ⟨rfl, Or.inl rfl⟩)
  have m3 : ((3, 16 / 17) : Cut) ∈ bothCuts rmE := rm_cut.mpr (Or.inr (Or.inl ⟨rfl, rfl⟩))
  have m4 : ((7, 1 / 17) : Cut) ∈ bothCuts rmE := rm_cut.mpr (Or.inr (Or.inr ⟨rfl, rfl⟩))
  refine rm_all (.self _ m3 (by decide) (by dsimp only; rw [e1, e3]) ?_ ?_ (rm_common _ (by norm_num) (by norm_num) (by norm_num)))
    (.self _ m4 (by decide) (by dsimp only; rw [e2, e4]) ?_ ?_ (rm_common _ (by norm_num) (by norm_num) (by norm_num)))
    (.self _ m1 (by decide) (by dsimp only; rw [e1, e3]) ?_ ?_ (rm_common _ (by norm_num) (by norm_num) (by norm_num)))
    (.self _ m2 (by decide) (by dsimp only; rw [e2, e4]) ?_ ?_ (rm_common _ (by norm_num) (by norm_num) (by norm_num)))
  · refine rm_all ?_ ?_ ?_ ?_ <;> dsimp only <;> simp only [e1, e2, e3, e4, V2.mk.injEq] <;> norm_num
  · intro a b a' b' h1 h2 h3 h4
    rw [h1.unique (rm_slopes _).1, h2.unique (rm_slopes _).2.1, h3.unique (rm_slopes _).2.2.1, h4.unique (rm_slopes _).2.2.2.1]; norm_num
  · refine rm_all ?_ ?_ ?_ ?_ <;> dsimp only <;> simp only [e1, e2, e3, e4, V2.mk.injEq] <;> norm_num
  · intro a b a' b' h1 h2 h3 h4
    rw [h1.unique (rm_slopes _).1, h2.unique (rm_slopes _).2.1, h3.unique (rm_slopes _).2.2.2.2.1, h4.unique (rm_slopes _).2.2.2.2.2]; norm_num
  · refine rm_all ?_ ?_ ?_ ?_ <;> dsimp only <;> simp only [e1, e2, e3, e4, V2.mk.injEq] <;> norm_num
  · intro a b a' b' h1 h2 h3 h4
    rw [h1.unique (rm_slopes _).2.2.1, h2.unique (rm_slopes _).2.2.2.1, h3.unique (rm_slopes _).1, h4.unique (rm_slopes _).2.1]; norm_num
  · refine rm_all ?_ ?_ ?_ ?_ <;> dsimp only <;> simp only [e1, e2, e3, e4, V2.mk.injEq] <;> norm_num
  · intro a b a' b' h1 h2 h3 h4
    rw [h1.unique (rm_slopes _).2.2.2.2.1, h2.unique (rm_slopes _).2.2.2.2.2, h3.unique (rm_slopes _).1, h4.unique (rm_slopes _).2.1]; norm_num

end Cavc
