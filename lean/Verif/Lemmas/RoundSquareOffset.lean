import Verif.Lemmas.RoundSquare

/-! # Example: the offset of the square to the outside -/

set_option linter.unusedVariables false

namespace Cavc
open Pline

/-- the points of the raw offset are outside of the square -/
theorem box4_outside {i : Nat} (hi : i < 8) {t : ℝ} (t0 : 0 ≤ t) (t1 : t ≤ 1) (h1 : 0 ≤ (curveAt (rawLoop box4 (-1)) i t).x) (h2 : (curveAt (rawLoop box4 (-1)) i t).x ≤ 4)
    (h3 : 0 ≤ (curveAt (rawLoop box4 (-1)) i t).y) (h4 : (curveAt (rawLoop box4 (-1)) i t).y ≤ 4) : False := by
  obtain ⟨a0, a1, a2, a3, a4, a5, a6, a7⟩ := box4_curve t
  obtain ⟨s0, c0, s1, c1⟩ := q_bounds t0 t1
  have hsc := qs_qc t
  interval_cases i <;> simp only [a0, a1, a2, a3, a4, a5, a6, a7] at h1 h2 h3 h4 <;> first | linarith | nlinarith

theorem box4_one_sided : OneSided box4 (-1) := by
  rintro X ⟨hX, hX'⟩
  have hn : 0 < (rawLoop box4 (-1)).verts.length := by rw [box4_len8]; norm_num
  have hraw := C42_raw_straight box4_straight (by norm_num : (-1 : ℝ) ≠ 0) (by norm_num : (0 : ℝ) < 1 / 100000) box4_clear box4_raw_full box4_first
  obtain ⟨⟨s, hs, t, t0, t1, hXt⟩, hk⟩ := (C60_raw_points box4_straight (by norm_num) (by norm_num) box4_clear box4_raw_full box4_first hraw X).mp hX
  rw [segs_range box4_raw_full.closed box4_raw_full.two] at hs
  obtain ⟨i, hi, rfl⟩ := List.mem_map.mp hs
  rw [← curveAt_vtx hn] at hXt
  rw [List.mem_range, box4_len8] at hi
  have hout := box4_outside hi t0 t1
  rw [← hXt] at hout
  obtain ⟨p0, p1, p2, p3, p4, p5⟩ := box4_pos
  obtain ⟨l0, l1, l2, l3, l4⟩ := box4_len
  unfold sideLen at l0 l1 l2 l3 l4
  simp only [Nat.reduceAdd, p0, p1, p2, p3, p4, p5] at l0 l1 l2 l3 l4
  rw [neg_neg] at hX'
  obtain ⟨-, ⟨k, u, u0, u1, hu⟩ | ⟨k, u, hneg, -, -, hu⟩⟩ := hX'
  · have e : sidePt box4 1 k u = sidePt box4 1 (k % 4) u := by
      unfold sidePt
      have h : k % box4.verts.length = (k % 4) % box4.verts.length := (Nat.mod_mod _ _).symm
      have h0 := cornerPos_congr h 0
      simp only [Nat.add_zero] at h0
      rw [h0, cornerPos_congr h 1]
    rw [e] at hu
    revert hu
    refine lt_four (P := fun k => X = sidePt box4 1 k u → False) ?_ ?_ ?_ ?_ k <;> intro hu <;>
      simp only [sidePt, moved, Nat.reduceAdd, p0, p1, p2, p3, p4, p5, l0, l1, l2, l3, l4] at hu <;> rw [hu] at hout <;> dsimp only at hout <;>
      exact hout (by linarith) (by linarith) (by linarith) (by linarith)
  · rw [box4_setback] at hneg; linarith

theorem box4_side (u : ℝ) : curveAt box4 0 u = ⟨4 * u, 0⟩ ∧ curveAt box4 1 u = ⟨4, 4 * u⟩ ∧ curveAt box4 2 u = ⟨4 - 4 * u, 4⟩ ∧ curveAt box4 3 u = ⟨0, 4 - 4 * u⟩ := by
  obtain ⟨p0, p1, p2, p3, p4, p5⟩ := box4_pos
  simp only [straight_curve box4_straight, Nat.reduceAdd, p0, p1, p2, p3, p4, p5, linePoint, V2.mk.injEq]
  refine ⟨⟨?_, ?_⟩, ⟨?_, ?_⟩, ⟨?_, ?_⟩, ?_, ?_⟩ <;> ring

/-- the points of the square -/
theorem box4_inside {k : Nat} (hk : k < 4) {u : ℝ} (u0 : 0 ≤ u) (u1 : u ≤ 1) : 0 ≤ (curveAt box4 k u).x ∧ (curveAt box4 k u).x ≤ 4 ∧
    0 ≤ (curveAt box4 k u).y ∧ (curveAt box4 k u).y ≤ 4 := by
  obtain ⟨a0, a1, a2, a3⟩ := box4_side u
  interval_cases k <;> simp only [a0, a1, a2, a3] <;> refine ⟨?_, ?_, ?_, ?_⟩ <;> linarith

/-- the middle of an arc -/
theorem arcPoint_half (p q : V2 ℝ) {b : ℝ} (hb : b ≠ 0) :
    arcPoint p q b (1 / 2) = ⟨(p.x + q.x) / 2 + b / 2 * (q.y - p.y), (p.y + q.y) / 2 - b / 2 * (q.x - p.x)⟩ := by
  have h1 : (1 + b ^ 2) ≠ 0 := by positivity
  unfold arcPoint arcCenter rotV
  have e : 1 / 2 * (4 * Real.arctan b) = 2 * Real.arctan b := by ring
  simp only [e, cos_two_arctan, sin_two_arctan, V2.mk.injEq]
  constructor <;> field_simp <;> ring

/-- an arc has only one bulge -/
theorem same_bulge {x y v w : Vertex ℝ} (hx : x.pos = v.pos) (hy : y.pos = w.pos) (hne : v.pos ≠ w.pos) (hv : ¬ IsLine v)
    (h : segCurve x y (1 / 2) = segCurve v w (1 / 2)) : x.bulge = v.bulge := by
  have hvb := bulge_ne_zero hv
  have hl : ¬ IsLine x := by
    intro hl
    rw [segCurve_line hl, hx, hy] at h
    exact hv (line_of_middle hne h.symm)
  rw [segCurve_arc hl, segCurve_arc hv, hx, hy, arcPoint_half _ _ (bulge_ne_zero hl), arcPoint_half _ _ hvb, V2.mk.injEq] at h
  obtain ⟨h1, h2⟩ := h
  by_contra hb
  apply hne
  have hb' : x.bulge - v.bulge ≠ 0 := sub_ne_zero.mpr hb
  have e1 : (x.bulge - v.bulge) * (w.pos.y - v.pos.y) = 0 := by linarith
  have e2 : (x.bulge - v.bulge) * (w.pos.x - v.pos.x) = 0 := by linarith
  rw [V2.ext_iff']
  exact ⟨by linarith [(mul_eq_zero.mp e2).resolve_left hb'], by linarith [(mul_eq_zero.mp e1).resolve_left hb']⟩

/-- a side that ends in the center of the quarter circle and is as long as four radii -/
theorem box4_spoke {w a : Vertex ℝ × Vertex ℝ} {c f : V2 ℝ} (hw : IsLine w.1) (ha : ProperArc a.1 a.2) (hc : segCenter a = c) (hr : segRadius a = 1)
    (hcf : (w.1.pos = c ∧ w.2.pos = f) ∨ (w.1.pos = f ∧ w.2.pos = c)) (hline : LineOk w.1.pos w.2.pos (1 / 100000))
    (hlen : (f.x - c.x) ^ 2 + (f.y - c.y) ^ 2 = 16) (hf : SweepClear a.1 a.2 f (1 / 100000))
    (hz : ClearOfEnds a ⟨c.x + (f.x - c.x) / 4, c.y + (f.y - c.y) / 4⟩ (1 / 100000)) : ClearLineArc w a (1 / 100000) := by
  have hcirc : ∀ q, OnSeg a.1 a.2 q → edist c q = 1 := by
    intro q hq
    have := onSeg_circle ha hq
    rw [hc, hr] at this
    rw [edist_comm]; exact this
  have ec : ClearOfArc a c (1 / 100000) := by
    refine ⟨?_, fun q hq => by rw [hcirc q hq]; norm_num⟩
    intro e he
    have : cross (arcCenter a.1.pos a.2.pos a.1.bulge) e c = 0 := by
      rw [← hc]; unfold cross segCenter; ring
    rw [this]; simp
  have dcf : edist c f = 4 := by rw [edist_comm]; exact edist_eq_of_sq (by norm_num) (by rw [hlen]; norm_num)
  have ef : ClearOfArc a f (1 / 100000) := by
    refine ⟨hf, fun q hq => ?_⟩
    have h1 := hcirc q hq
    have h2 := Cavc.edist_triangle c q f
    rw [dcf, h1, edist_comm q f] at h2
    linarith
  refine ⟨hline, ?_, Or.inr ?_, ?_⟩
  · rcases hcf with ⟨h1, h2⟩ | ⟨h1, h2⟩ <;> rw [h1, h2]
    · exact ⟨ec, ef⟩
    · exact ⟨ef, ec⟩
  · rcases hcf with ⟨h1, h2⟩ | ⟨h1, h2⟩ <;> rw [h1, h2, hc, hr]
    · refine ⟨0, ?_⟩
      have : linePoint c f 0 = c := by simp [linePoint]
      rw [this, edist_self]; norm_num
    · refine ⟨1, ?_⟩
      have : linePoint f c 1 = c := by simp [linePoint]
      rw [this, edist_self]; norm_num
  · intro t ht hreach
    rw [hc, hr] at ht
    have hsq : edist (linePoint w.1.pos w.2.pos t) c ^ 2 = 1 := by rw [show edist (linePoint w.1.pos w.2.pos t) c = 1 from ht]; norm_num
    rw [edist_sq] at hsq
    unfold InReach at hreach
    rcases hcf with ⟨h1, h2⟩ | ⟨h1, h2⟩
    · rw [h1, h2] at hsq hreach ⊢
      rw [dcf] at hreach
      unfold linePoint at hsq
      dsimp only at hsq
      have h16 : (4 * t - 1) * (4 * t + 1) = 0 := by linear_combination hsq - t ^ 2 * hlen
      have ht4 : t = 1 / 4 := by
        rcases mul_eq_zero.mp h16 with h | h
        · linarith
        · exfalso; nlinarith [hreach.1]
      subst ht4
      refine ⟨by norm_num, ?_⟩
      have : linePoint c f (1 / 4) = ⟨c.x + (f.x - c.x) / 4, c.y + (f.y - c.y) / 4⟩ := by
        unfold linePoint; rw [V2.mk.injEq]; constructor <;> ring
      rw [this]; exact hz
    · rw [h1, h2] at hsq hreach ⊢
      rw [edist_comm, dcf] at hreach
      unfold linePoint at hsq
      dsimp only at hsq
      have h16 : (4 * t - 3) * (4 * t - 5) = 0 := by linear_combination hsq - (t - 1) ^ 2 * hlen
      have ht4 : t = 3 / 4 := by
        rcases mul_eq_zero.mp h16 with h | h
        · linarith
        · exfalso; nlinarith [hreach.2]
      subst ht4
      refine ⟨by norm_num, ?_⟩
      have : linePoint f c (3 / 4) = ⟨c.x + (f.x - c.x) / 4, c.y + (f.y - c.y) / 4⟩ := by
        unfold linePoint; rw [V2.mk.injEq]; constructor <;> ring
      rw [this]; exact hz

/-- a point that is exactly in line with the ends, or clearly not -/
theorem box4_sweep {a : Vertex ℝ × Vertex ℝ} {c pt : V2 ℝ} (hc : segCenter a = c)
    (h1 : (a.1.pos.x - c.x) * (pt.y - c.y) - (a.1.pos.y - c.y) * (pt.x - c.x) = 0 ∨ 1 ≤ |(a.1.pos.x - c.x) * (pt.y - c.y) - (a.1.pos.y - c.y) * (pt.x - c.x)|)
    (h2 : (a.2.pos.x - c.x) * (pt.y - c.y) - (a.2.pos.y - c.y) * (pt.x - c.x) = 0 ∨ 1 ≤ |(a.2.pos.x - c.x) * (pt.y - c.y) - (a.2.pos.y - c.y) * (pt.x - c.x)|) :
    SweepClear a.1 a.2 pt (1 / 100000) := by
  intro e he
  have hc' : arcCenter a.1.pos a.2.pos a.1.bulge = c := hc
  have hx : cross c e pt = (e.x - c.x) * (pt.y - c.y) - (e.y - c.y) * (pt.x - c.x) := by unfold cross; ring
  rw [hc', hx]
  rintro ⟨g1, g2⟩
  rcases he with rfl | rfl
  · rcases h1 with h | h
    · rw [h, abs_zero] at g1; exact lt_irrefl _ g1
    · linarith
  · rcases h2 with h | h
    · rw [h, abs_zero] at g1; exact lt_irrefl _ g1
    · linarith

/-- nothing is reported for a clear pair without common points -/
theorem no_intersect {v1 v2 u1 u2 : Vertex ℝ} {eps : ℝ} (he : 0 < eps) (h : ClearPair (v1, v2) (u1, u2) eps) (hd : ∀ q, OnSeg v1 v2 q → ¬ OnSeg u1 u2 q) :
    plineSegIntr v1 v2 u1 u2 eps = .noIntersect := by
  obtain ⟨a, b, c⟩ := C27_exact v1 v2 u1 u2 eps he h
  have hno : ∀ q, q ∉ (plineSegIntr v1 v2 u1 u2 eps).isolated := fun q hq => hd q ((c q).mp hq).1 ((c q).mp hq).2
  cases hres : plineSegIntr v1 v2 u1 u2 eps <;> rw [hres] at a hno <;> simp [PlineSegIntr.overlap, PlineSegIntr.isolated] at a hno ⊢
  exact (hno _).1 rfl

theorem box4_seg {s : Vertex ℝ × Vertex ℝ} (hs : s ∈ box4.segs) : ∃ k < 4, s = (vtx box4 k, vtx box4 (k + 1)) := by
  rw [segs_range rfl (by decide)] at hs
  obtain ⟨k, hk, rfl⟩ := List.mem_map.mp hs
  exact ⟨k, List.mem_range.mp hk, rfl⟩

/-- bounds of the boxes of the sides of the square -/
noncomputable def sideTable : Nat → AABB ℝ
  | 0 => ⟨0, 0, 4, 0⟩
  | 1 => ⟨4, 0, 4, 4⟩
  | 2 => ⟨0, 4, 4, 4⟩
  | _ => ⟨0, 0, 0, 4⟩

theorem box4_side_boxes (k : Nat) (hk : k < 4) : BoxIn (segBox (vtx box4 k, vtx box4 (k + 1))) (sideTable k) := by
  obtain ⟨v0, v1, v2, v3, v4, v5⟩ := box4_vtx
  interval_cases k <;> simp only [Nat.reduceAdd, v0, v1, v2, v3, v4] <;> (rw [line_box]; norm_num [BoxIn, sideTable])

theorem box4_tests : ClearTests box4 (rawLoop box4 (-1)) (-1) (1 / 100000) (1 / 10000) [] := by
  have hn : 0 < (rawLoop box4 (-1)).verts.length := by rw [box4_len8]; norm_num
  have hn4 : 0 < box4.verts.length := by decide
  refine ⟨fun _ => Or.inl ?_, by simp [bothCuts], ?_⟩
  · rintro q ⟨s, hs, u, u0, u1, rfl⟩
    obtain ⟨k, hk, rfl⟩ := box4_seg hs
    rw [← curveAt_vtx hn4, (box4_curve 0).1]
    obtain ⟨-, -, h3, -⟩ := box4_inside hk u0 u1
    have hsq := edist_sq (⟨4 * 0, -1⟩ : V2 ℝ) (curveAt box4 k u)
    dsimp only at hsq
    have hnn := edist_nonneg (⟨4 * 0, -1⟩ : V2 ℝ) (curveAt box4 k u)
    rw [abs_neg, abs_one]
    nlinarith [sq_nonneg (4 * 0 - (curveAt box4 k u).x)]
  · intro i lo hi x y hst hk hfull hcv
    have hi8 : i < 8 := by have := hst.range; rwa [box4_len8] at this
    obtain rfl : lo = 0 := by rcases hst.start with h | h; exact h; simp [bothCuts] at h
    obtain rfl : hi = 1 := by rcases hst.stop with h | h; exact h; simp [bothCuts] at h
    have hcv' : ∀ s, segCurve x y s = segCurve (vtx (rawLoop box4 (-1)) i) (vtx (rawLoop box4 (-1)) (i + 1)) s := by
      intro s
      rw [hcv s, ← curveAt_vtx hn]; congr 1; ring
    have hx : x.pos = (vtx (rawLoop box4 (-1)) i).pos := by
      have := hcv' 0
      rwa [(segCurve_ends _ _).1, (segCurve_ends _ _).1] at this
    have hy : y.pos = (vtx (rawLoop box4 (-1)) (i + 1)).pos := by
      have := hcv' 1
      rwa [(segCurve_ends _ _).2, (segCurve_ends _ _).2] at this
    have hne : x.pos ≠ y.pos := fuzzy_ne (by norm_num) hfull.apart
    obtain ⟨v0, v1, v2, v3, v4, v5, v6, v7, v8, v9⟩ := box4_raw_vtx
    obtain ⟨w0, w1, w2, w3, w4, w5⟩ := box4_vtx
    have hapart : ∀ q, OnSeg x y q → ∀ k < 4, ¬ OnSeg (vtx box4 k) (vtx box4 (k + 1)) q := by
      rintro q ⟨t, t0, t1, rfl⟩ k hk ⟨u, u0, u1, hu⟩
      rw [← curveAt_vtx hn4] at hu
      rw [hcv', ← curveAt_vtx hn] at hu
      obtain ⟨a1, a2, a3, a4⟩ := box4_inside hk u0 u1
      rw [← hu] at a1 a2 a3 a4
      exact box4_outside hi8 t0 t1 a1 a2 a3 a4
    by_cases hl : IsLine (vtx (rawLoop box4 (-1)) i)
    · have hxl : IsLine x := by
        apply line_of_middle hne
        rw [hcv', segCurve_line hl, hx, hy]
      intro s hs hov
      exfalso
      obtain ⟨k, hk4, rfl⟩ := box4_seg hs
      have hbox : segBox (x, y) = segBox (vtx (rawLoop box4 (-1)) i, vtx (rawLoop box4 (-1)) (i + 1)) := by
        unfold segBox segFastApproxBoundingBox
        rw [bulgeIsZero_true hxl, bulgeIsZero_true hl]
        rw [V2.ext_iff'] at hx hy
        simp only [Vertex.pos] at hx hy
        simp only [if_true, hx.1, hx.2, hy.1, hy.2]
      have hfe : (Scalar.fuzzyEps : ℝ) = 1 / 100000000 := by simp [Scalar.fuzzyEps]
      rw [hbox, hfe] at hov
      have key := fun h => boxIn_apart (e := 1 / 100000000) (box4_side_boxes k hk4) (box4_boxes i hi8) h
      rw [hov] at key
      apply absurd key
      simp only [imp_false, not_not, Bool.true_eq_false]
      interval_cases i <;> first
        | (exfalso; simp only [v1, v3, v5, v7] at hl; exact qb_arc _ _ hl)
        | (interval_cases k <;> norm_num [boxTable, sideTable])
    · have hb := same_bulge hx hy (by rw [← hx, ← hy]; exact hne) hl (hcv' _)
      intro s hs hov
      obtain ⟨k, hk4, rfl⟩ := box4_seg hs
      apply no_intersect (by norm_num) ?_ (fun q h1 => hapart q h1 k hk4)
      have hq1 := fun b => quarter (c := ⟨4, 0⟩) (p := ⟨4, -1⟩) (q := ⟨5, 0⟩) (m := ⟨0, 0, 0⟩) (b := b) (by norm_num) (by norm_num)
      have hq3 := fun b => quarter (c := ⟨4, 4⟩) (p := ⟨5, 4⟩) (q := ⟨4, 5⟩) (m := ⟨0, 0, 0⟩) (b := b) (by norm_num) (by norm_num)
      have hq5 := fun b => quarter (c := ⟨0, 4⟩) (p := ⟨0, 5⟩) (q := ⟨-1, 4⟩) (m := ⟨0, 0, 0⟩) (b := b) (by norm_num) (by norm_num)
      have hq7 := fun b => quarter (c := ⟨0, 0⟩) (p := ⟨-1, 0⟩) (q := ⟨0, -1⟩) (m := ⟨0, 0, 0⟩) (b := b) (by norm_num) (by norm_num)
      dsimp only at hq1 hq3 hq5 hq7
      have hbox : BoxIn (segBox (x, y)) (boxTable i) := by
        have h := box4_boxes i hi8
        have e : segBox (x, y) = segBox (vtx (rawLoop box4 (-1)) i, vtx (rawLoop box4 (-1)) (i + 1)) := by
          unfold segBox segFastApproxBoundingBox
          have hz : x.bulgeIsZero = (vtx (rawLoop box4 (-1)) i).bulgeIsZero := by unfold Vertex.bulgeIsZero; rw [hb]
          rw [hz, bulgeIsZero_false hl]
          rw [V2.ext_iff'] at hx hy
          simp only [Vertex.pos] at hx hy
          simp only [Bool.false_eq_true, if_false, hx.1, hx.2, hy.1, hy.2, hb]
        rw [e]; exact h
      have hfe : (Scalar.fuzzyEps : ℝ) = 1 / 100000000 := by simp [Scalar.fuzzyEps]
      rw [hfe] at hov
      have key := fun h => boxIn_apart (e := 1 / 100000000) (box4_side_boxes k hk4) hbox h
      rw [hov] at key
      simp only [imp_false, Bool.true_eq_false] at key
      obtain ⟨xx, xy, xb⟩ := x
      obtain ⟨yx, yy, yb⟩ := y
      rw [V2.ext_iff'] at hx hy
      simp only [Vertex.pos] at hx hy hb
      obtain ⟨hx1, hx2⟩ := hx
      obtain ⟨hy1, hy2⟩ := hy
      clear hov hbox hapart hs hcv hcv' hfull hne hk
      interval_cases i <;> simp only [Nat.reduceAdd, v0, v1, v2, v3, v4, v5, v6, v7, v8] at hx1 hx2 hy1 hy2 hb hl <;> first
        | (exfalso; exact hl (box4_line _ _))
        | (subst hx1; subst hx2; subst hy1; subst hy2; subst hb
           interval_cases k <;> first
            | (exfalso; apply key; norm_num [boxTable, sideTable]; done)
            | skip)
      all_goals simp only [Nat.reduceAdd, w0, w1, w2, w3, w4]
      · exact ClearPair.arcLine (hq1 _).2.2 (box4_line _ _) (box4_spoke (f := ⟨0, 0⟩) (box4_line _ _) (hq1 _).2.2 (hq1 _).1 (hq1 _).2.1 (Or.inr ⟨rfl, rfl⟩) (by norm_num [LineOk, Apart, Vertex.pos])
          (by norm_num) (box4_sweep (hq1 _).1 (by norm_num [Vertex.pos]) (by norm_num [Vertex.pos]))
          ⟨box4_sweep (hq1 _).1 (by norm_num [Vertex.pos]) (by norm_num [Vertex.pos]), by norm_num [Vertex.pos, V2.ext_iff'], by norm_num [Vertex.pos, V2.ext_iff']⟩)
      · exact ClearPair.arcLine (hq1 _).2.2 (box4_line _ _) (box4_spoke (f := ⟨4, 4⟩) (box4_line _ _) (hq1 _).2.2 (hq1 _).1 (hq1 _).2.1 (Or.inl ⟨rfl, rfl⟩) (by norm_num [LineOk, Apart, Vertex.pos])
          (by norm_num) (box4_sweep (hq1 _).1 (by norm_num [Vertex.pos]) (by norm_num [Vertex.pos]))
          ⟨box4_sweep (hq1 _).1 (by norm_num [Vertex.pos]) (by norm_num [Vertex.pos]), by norm_num [Vertex.pos, V2.ext_iff'], by norm_num [Vertex.pos, V2.ext_iff']⟩)
      · exact ClearPair.arcLine (hq3 _).2.2 (box4_line _ _) (box4_spoke (f := ⟨4, 0⟩) (box4_line _ _) (hq3 _).2.2 (hq3 _).1 (hq3 _).2.1 (Or.inr ⟨rfl, rfl⟩) (by norm_num [LineOk, Apart, Vertex.pos])
          (by norm_num) (box4_sweep (hq3 _).1 (by norm_num [Vertex.pos]) (by norm_num [Vertex.pos]))
          ⟨box4_sweep (hq3 _).1 (by norm_num [Vertex.pos]) (by norm_num [Vertex.pos]), by norm_num [Vertex.pos, V2.ext_iff'], by norm_num [Vertex.pos, V2.ext_iff']⟩)
      · exact ClearPair.arcLine (hq3 _).2.2 (box4_line _ _) (box4_spoke (f := ⟨0, 4⟩) (box4_line _ _) (hq3 _).2.2 (hq3 _).1 (hq3 _).2.1 (Or.inl ⟨rfl, rfl⟩) (by norm_num [LineOk, Apart, Vertex.pos])
          (by norm_num) (box4_sweep (hq3 _).1 (by norm_num [Vertex.pos]) (by norm_num [Vertex.pos]))
          ⟨box4_sweep (hq3 _).1 (by norm_num [Vertex.pos]) (by norm_num [Vertex.pos]), by norm_num [Vertex.pos, V2.ext_iff'], by norm_num [Vertex.pos, V2.ext_iff']⟩)
      · exact ClearPair.arcLine (hq5 _).2.2 (box4_line _ _) (box4_spoke (f := ⟨4, 4⟩) (box4_line _ _) (hq5 _).2.2 (hq5 _).1 (hq5 _).2.1 (Or.inr ⟨rfl, rfl⟩) (by norm_num [LineOk, Apart, Vertex.pos])
          (by norm_num) (box4_sweep (hq5 _).1 (by norm_num [Vertex.pos]) (by norm_num [Vertex.pos]))
          ⟨box4_sweep (hq5 _).1 (by norm_num [Vertex.pos]) (by norm_num [Vertex.pos]), by norm_num [Vertex.pos, V2.ext_iff'], by norm_num [Vertex.pos, V2.ext_iff']⟩)
      · exact ClearPair.arcLine (hq5 _).2.2 (box4_line _ _) (box4_spoke (f := ⟨0, 0⟩) (box4_line _ _) (hq5 _).2.2 (hq5 _).1 (hq5 _).2.1 (Or.inl ⟨rfl, rfl⟩) (by norm_num [LineOk, Apart, Vertex.pos])
          (by norm_num) (box4_sweep (hq5 _).1 (by norm_num [Vertex.pos]) (by norm_num [Vertex.pos]))
          ⟨box4_sweep (hq5 _).1 (by norm_num [Vertex.pos]) (by norm_num [Vertex.pos]), by norm_num [Vertex.pos, V2.ext_iff'], by norm_num [Vertex.pos, V2.ext_iff']⟩)
      · exact ClearPair.arcLine (hq7 _).2.2 (box4_line _ _) (box4_spoke (f := ⟨4, 0⟩) (box4_line _ _) (hq7 _).2.2 (hq7 _).1 (hq7 _).2.1 (Or.inl ⟨rfl, rfl⟩) (by norm_num [LineOk, Apart, Vertex.pos])
          (by norm_num) (box4_sweep (hq7 _).1 (by norm_num [Vertex.pos]) (by norm_num [Vertex.pos]))
          ⟨box4_sweep (hq7 _).1 (by norm_num [Vertex.pos]) (by norm_num [Vertex.pos]), by norm_num [Vertex.pos, V2.ext_iff'], by norm_num [Vertex.pos, V2.ext_iff']⟩)
      · exact ClearPair.arcLine (hq7 _).2.2 (box4_line _ _) (box4_spoke (f := ⟨0, 4⟩) (box4_line _ _) (hq7 _).2.2 (hq7 _).1 (hq7 _).2.1 (Or.inr ⟨rfl, rfl⟩) (by norm_num [LineOk, Apart, Vertex.pos])
          (by norm_num) (box4_sweep (hq7 _).1 (by norm_num [Vertex.pos]) (by norm_num [Vertex.pos]))
          ⟨box4_sweep (hq7 _).1 (by norm_num [Vertex.pos]) (by norm_num [Vertex.pos]), by norm_num [Vertex.pos, V2.ext_iff'], by norm_num [Vertex.pos, V2.ext_iff']⟩)

end Cavc
