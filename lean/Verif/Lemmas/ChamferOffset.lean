import Verif.Lemmas.Chamfer
import Verif.Lemmas.OffsetCurve
import Verif.Props.SegExact

/-! # Example: the offset of the square with the chamfer -/

set_option linter.unusedVariables false

namespace Cavc
open Pline

/-- the only crossing of the raw offset, at (27, 27) -/
noncomputable def chamferCross : List (Cut × Cut) := [((1, 9 / 10), (3, 1 / 13))]

theorem chamfer_len5 : (rawLoop chamfer 9).verts.length = 5 := by rw [chamfer_raw]; rfl

theorem chamfer_curve (t : ℝ) : curveAt (rawLoop chamfer 9) 0 t = ⟨9 + 18 * t, 9⟩ ∧ curveAt (rawLoop chamfer 9) 1 t = ⟨27, 9 + 20 * t⟩ ∧
    curveAt (rawLoop chamfer 9) 2 t = ⟨27 + 3 / 2 * t, 29 - 2 * t⟩ ∧ curveAt (rawLoop chamfer 9) 3 t = ⟨57 / 2 - 39 / 2 * t, 27⟩ ∧
    curveAt (rawLoop chamfer 9) 4 t = ⟨9, 27 - 18 * t⟩ := by
  obtain ⟨v0, v1, v2, v3, v4, v5⟩ := chamfer_raw_vtx
  have hn : 0 < (rawLoop chamfer 9).verts.length := by rw [chamfer_len5]; norm_num
  have hl : ∀ x y : ℝ, IsLine (⟨x, y, 0⟩ : Vertex ℝ) := fun x y => by unfold IsLine; norm_num
  simp only [curveAt_vtx hn, Nat.reduceAdd, v0, v1, v2, v3, v4, v5, segCurve_line (hl _ _), linePoint, Vertex.pos, V2.mk.injEq]
  refine ⟨⟨?_, ?_⟩, ⟨?_, ?_⟩, ⟨?_, ?_⟩, ⟨?_, ?_⟩, ?_, ?_⟩ <;> ring

theorem chamfer_line (k : Nat) (hk : k < 5) : IsLine (vtx (rawLoop chamfer 9) k) := by
  obtain ⟨v0, v1, v2, v3, v4, v5⟩ := chamfer_raw_vtx
  interval_cases k <;> simp only [v0, v1, v2, v3, v4] <;> (unfold IsLine; norm_num)

theorem chamfer_crossing : SelfCrossing (rawLoop chamfer 9) (1 / 100000) 1 chamferCross := by
  obtain ⟨v0, v1, v2, v3, v4, v5⟩ := chamfer_raw_vtx
  have hn : 0 < (rawLoop chamfer 9).verts.length := by rw [chamfer_len5]; norm_num
  have hcv := chamfer_curve
  refine ⟨by rw [chamfer_len5]; norm_num, ?_, ?_, ?_, ?_, ?_, ?_, ?_, ?_⟩
  · intro c hc
    simp only [chamferCross, List.mem_singleton] at hc
    subst hc
    rw [(hcv _).2.1, (hcv _).2.2.2.1]
    norm_num
  · intro c hc
    simp only [chamferCross, List.mem_singleton] at hc
    subst hc
    norm_num
  · intro i t j u hij hj t0 t1 u0 u1 h
    rw [chamfer_len5] at hj ⊢
    obtain ⟨a0, a1, a2, a3, a4⟩ := hcv t
    obtain ⟨b0, b1, b2, b3, b4⟩ := hcv u
    have hi : i < 4 := by omega
    interval_cases i <;> interval_cases j <;> simp only [a0, a1, a2, a3, a4, b0, b1, b2, b3, b4, V2.mk.injEq] at h <;> obtain ⟨h1, h2⟩ := h
    · left; exact ⟨rfl, by linarith, by linarith⟩
    · exfalso; linarith
    · exfalso; linarith
    · right; left; exact ⟨rfl, rfl, by linarith, by linarith⟩
    · left; exact ⟨rfl, by linarith, by linarith⟩
    · right; right
      have e1 : t = 9 / 10 := by linarith
      have e2 : u = 1 / 13 := by linarith
      rw [e1, e2]; simp [chamferCross]
    · exfalso; linarith
    · left; exact ⟨rfl, by linarith, by linarith⟩
    · exfalso; linarith
    · left; exact ⟨rfl, by linarith, by linarith⟩
  · simp [bothCuts, chamferCross]
  · intro c hc
    rw [chamfer_len5]
    simp only [bothCuts, chamferCross, List.map_cons, List.map_nil, List.cons_append, List.nil_append, List.mem_cons, List.not_mem_nil, or_false] at hc
    rcases hc with rfl | rfl <;> norm_num
  · intro c hc
    simp only [bothCuts, chamferCross, List.map_cons, List.map_nil, List.cons_append, List.nil_append, List.mem_cons, List.not_mem_nil, or_false] at hc
    rcases hc with rfl | rfl
    · refine ⟨by norm_num, by norm_num, FarApart.fuzzy ?_, FarApart.fuzzy ?_, Or.inl (chamfer_line 1 (by norm_num)), Or.inl (chamfer_line 1 (by norm_num))⟩
      · dsimp only
        rw [← curveAt_vtx hn, (hcv _).2.1, v1]
        right; norm_num [Vertex.pos, abs_of_pos, abs_of_neg]
      · dsimp only
        rw [← curveAt_vtx hn, (hcv _).2.1]
        simp only [Nat.reduceAdd, v2]
        right; norm_num [Vertex.pos, abs_of_pos, abs_of_neg]
    · refine ⟨by norm_num, by norm_num, FarApart.fuzzy ?_, FarApart.fuzzy ?_, Or.inl (chamfer_line 3 (by norm_num)), Or.inl (chamfer_line 3 (by norm_num))⟩
      · dsimp only
        rw [← curveAt_vtx hn, (hcv _).2.2.2.1, v3]
        left; norm_num [Vertex.pos, abs_of_pos, abs_of_neg]
      · dsimp only
        rw [← curveAt_vtx hn, (hcv _).2.2.2.1]
        simp only [Nat.reduceAdd, v4]
        left; norm_num [Vertex.pos, abs_of_pos, abs_of_neg]
  · intro c hc c' hc' hne
    simp only [chamferCross, List.mem_singleton] at hc hc'
    subst hc; subst hc'
    exact absurd rfl hne
  · intro c hc c' hc' h1 h2
    simp only [bothCuts, chamferCross, List.map_cons, List.map_nil, List.cons_append, List.nil_append, List.mem_cons, List.not_mem_nil, or_false] at hc
    rcases hc with rfl | rfl
    · exact Or.inl (chamfer_line 1 (by norm_num))
    · exact Or.inl (chamfer_line 3 (by norm_num))

theorem finds_corner {s1 s2 : Vertex ℝ × Vertex ℝ} {eps : ℝ} (he : 0 < eps) (h : ClearPair s1 s2 eps) : FindsCorner s1 s2 eps := by
  obtain ⟨a, b, c⟩ := C27_exact s1.1 s1.2 s2.1 s2.2 eps he h
  exact ⟨a, b.filter _, fun q _ => c q⟩

theorem finds_pair {s1 s2 : Vertex ℝ × Vertex ℝ} {eps : ℝ} (he : 0 < eps) (h : ClearPair s1 s2 eps) : FindsPair s1 s2 eps := by
  obtain ⟨a, b, c⟩ := C27_exact s1.1 s1.2 s2.1 s2.2 eps he h
  exact ⟨a, b, c⟩


theorem chamfer_finds : FindsSelf (rawLoop chamfer 9) (1 / 100000) := by
  obtain ⟨v0, v1, v2, v3, v4, v5⟩ := chamfer_raw_vtx
  have v6 : vtx (rawLoop chamfer 9) 6 = ⟨27, 9, 0⟩ := by rw [chamfer_raw]; rfl
  have hl : ∀ x y : ℝ, IsLine (⟨x, y, 0⟩ : Vertex ℝ) := fun x y => by unfold IsLine; norm_num
  constructor
  · intro i hi
    rw [chamfer_len5] at hi
    refine finds_corner (by norm_num) (ClearPair.lines (chamfer_line i hi) ?_ (Or.inl ⟨⟨(vtx (rawLoop chamfer 9) (i + 1)).pos,
      ⟨1, by norm_num, le_rfl, (segCurve_ends _ _).2.symm⟩, ⟨0, le_rfl, by norm_num, (segCurve_ends _ _).1.symm⟩⟩, ?_⟩))
    · interval_cases i <;> simp only [Nat.reduceAdd, v1, v2, v3, v4, v5] <;> exact hl _ _
    · interval_cases i <;> simp only [Nat.reduceAdd, v0, v1, v2, v3, v4, v5, v6] <;> unfold dirCross Vertex.pos <;> norm_num [abs_of_pos, abs_of_neg]
  · intro i k hi hk hik h1 h2 hbox
    rw [chamfer_len5] at hi hk h1 h2
    have key : (i = 1 ∧ k = 3) ∨ (i = 3 ∧ k = 1) := by
      unfold BoxesMeet segBox at hbox
      by_contra hcon
      interval_cases i <;> interval_cases k <;> first
        | (exact absurd rfl hik)
        | (exact absurd rfl h1)
        | (exact absurd rfl h2)
        | (exact hcon (Or.inl ⟨rfl, rfl⟩))
        | (exact hcon (Or.inr ⟨rfl, rfl⟩))
        | (simp only [Nat.reduceAdd, v0, v1, v2, v3, v4, v5, segFastApproxBoundingBox, bulgeIsZero_true (hl _ _)] at hbox
           norm_num [AABB.overlaps, AABB.grow, minMax] at hbox)
    have hpt : OnSeg (vtx (rawLoop chamfer 9) 1) (vtx (rawLoop chamfer 9) 2) ⟨27, 27⟩ ∧ OnSeg (vtx (rawLoop chamfer 9) 3) (vtx (rawLoop chamfer 9) 4) ⟨27, 27⟩ := by
      have hn : 0 < (rawLoop chamfer 9).verts.length := by rw [chamfer_len5]; norm_num
      refine ⟨⟨9 / 10, by norm_num, by norm_num, ?_⟩, ⟨1 / 13, by norm_num, by norm_num, ?_⟩⟩
      · have := (chamfer_curve (9 / 10)).2.1
        rw [curveAt_vtx hn] at this
        rw [this]; norm_num
      · have := (chamfer_curve (1 / 13)).2.2.2.1
        rw [curveAt_vtx hn] at this
        rw [this]; norm_num
    rcases key with ⟨rfl, rfl⟩ | ⟨rfl, rfl⟩
    · refine finds_pair (by norm_num) (ClearPair.lines (chamfer_line 1 (by norm_num)) (chamfer_line 3 (by norm_num)) (Or.inl ⟨⟨⟨27, 27⟩, hpt.1, hpt.2⟩, ?_⟩))
      simp only [Nat.reduceAdd, v0, v1, v2, v3, v4, v5, v6]; unfold dirCross Vertex.pos; norm_num [abs_of_pos, abs_of_neg]
    · refine finds_pair (by norm_num) (ClearPair.lines (chamfer_line 3 (by norm_num)) (chamfer_line 1 (by norm_num)) (Or.inl ⟨⟨⟨27, 27⟩, hpt.2, hpt.1⟩, ?_⟩))
      simp only [Nat.reduceAdd, v0, v1, v2, v3, v4, v5, v6]; unfold dirCross Vertex.pos; norm_num [abs_of_pos, abs_of_neg]


/-! ## Tests -/

/-- the points of the chamfered square, side by side -/
theorem chamfer_side (u : ℝ) : curveAt chamfer 0 u = ⟨36 * u, 0⟩ ∧ curveAt chamfer 1 u = ⟨36, 32 * u⟩ ∧ curveAt chamfer 2 u = ⟨36 - 3 * u, 32 + 4 * u⟩ ∧
    curveAt chamfer 3 u = ⟨33 - 33 * u, 36⟩ ∧ curveAt chamfer 4 u = ⟨0, 36 - 36 * u⟩ := by
  obtain ⟨p0, p1, p2, p3, p4, p5, p6⟩ := chamfer_pos
  simp only [straight_curve chamfer_straight, Nat.reduceAdd, p0, p1, p2, p3, p4, p5, linePoint, V2.mk.injEq]
  refine ⟨⟨?_, ?_⟩, ⟨?_, ?_⟩, ⟨?_, ?_⟩, ⟨?_, ?_⟩, ?_, ?_⟩ <;> ring

theorem chamfer_on (k : Nat) (hk : k < 5) {u : ℝ} (u0 : 0 ≤ u) (u1 : u ≤ 1) : OnPline chamfer (curveAt chamfer k u) := by
  have hn : 0 < chamfer.verts.length := by decide
  refine ⟨(vtx chamfer k, vtx chamfer (k + 1)), ?_, u, u0, u1, ?_⟩
  · rw [segs_range rfl (by decide)]
    exact List.mem_map.mpr ⟨k, List.mem_range.mpr hk, rfl⟩
  · rw [← curveAt_vtx hn]

theorem chamfer_near {X : V2 ℝ} (hk : Keeps chamfer |9| X) (k : Nat) (hk5 : k < 5) {u : ℝ} (u0 : 0 ≤ u) (u1 : u ≤ 1) :
    81 ≤ (X.x - (curveAt chamfer k u).x) ^ 2 + (X.y - (curveAt chamfer k u).y) ^ 2 := by
  have h := hk _ (chamfer_on k hk5 u0 u1)
  rw [abs_of_pos (by norm_num : (0 : ℝ) < 9)] at h
  have h2 := edist_sq X (curveAt chamfer k u)
  nlinarith

/-- Points of the raw offset that keep the distance are in the inner square. -/
theorem chamfer_inner {i : Nat} (hi : i < 5) {t : ℝ} (t0 : 0 ≤ t) (t1 : t ≤ 1) (hk : Keeps chamfer |9| (curveAt (rawLoop chamfer 9) i t)) :
    9 ≤ (curveAt (rawLoop chamfer 9) i t).x ∧ (curveAt (rawLoop chamfer 9) i t).x ≤ 27 ∧ 9 ≤ (curveAt (rawLoop chamfer 9) i t).y ∧
      (curveAt (rawLoop chamfer 9) i t).y ≤ 27 := by
  obtain ⟨a0, a1, a2, a3, a4⟩ := chamfer_curve t
  have hside := chamfer_side
  interval_cases i
  · rw [a0]; exact ⟨by dsimp only; linarith, by dsimp only; linarith, by norm_num, by norm_num⟩
  · rw [a1] at hk ⊢
    have := chamfer_near hk 3 (by norm_num) (u := 6 / 33) (by norm_num) (by norm_num)
    rw [(hside _).2.2.2.1] at this
    dsimp only at this ⊢
    exact ⟨by norm_num, by norm_num, by linarith, by nlinarith⟩
  · exfalso
    rw [a2] at hk
    have h1 := chamfer_near hk 3 (by norm_num) (u := (6 - 3 / 2 * t) / 33) (by linarith) (by linarith)
    rw [(hside _).2.2.2.1] at h1
    have h2 := chamfer_near hk 1 (by norm_num) (u := (29 - 2 * t) / 32) (by linarith) (by linarith)
    rw [(hside _).2.1] at h2
    dsimp only at h1 h2
    have e1 : 27 + 3 / 2 * t - (33 - 33 * ((6 - 3 / 2 * t) / 33)) = 0 := by ring
    have e2 : 29 - 2 * t - 32 * ((29 - 2 * t) / 32) = 0 := by ring
    rw [e1] at h1
    rw [e2] at h2
    nlinarith
  · rw [a3] at hk ⊢
    have := chamfer_near hk 1 (by norm_num) (u := 27 / 32) (by norm_num) (by norm_num)
    rw [(hside _).2.1] at this
    dsimp only at this ⊢
    exact ⟨by linarith, by nlinarith, by norm_num, by norm_num⟩
  · rw [a4]; exact ⟨by norm_num, by norm_num, by dsimp only; linarith, by dsimp only; linarith⟩

theorem chamfer_one_sided : OneSided chamfer 9 := by
  rintro X ⟨hX, hX'⟩
  have hn : 0 < (rawLoop chamfer 9).verts.length := by rw [chamfer_len5]; norm_num
  have hraw := C42_raw_straight chamfer_straight (by norm_num : (9 : ℝ) ≠ 0) (by norm_num : (0 : ℝ) < 1 / 100000) chamfer_clear chamfer_raw_full chamfer_first
  obtain ⟨⟨s, hs, t, t0, t1, hXt⟩, hk⟩ := (C60_raw_points chamfer_straight (by norm_num) (by norm_num) chamfer_clear chamfer_raw_full chamfer_first hraw X).mp hX
  rw [segs_range chamfer_raw_full.closed chamfer_raw_full.two] at hs
  obtain ⟨i, hi, rfl⟩ := List.mem_map.mp hs
  rw [← curveAt_vtx hn] at hXt
  rw [List.mem_range, chamfer_len5] at hi
  obtain ⟨x0, x1, y0, y1⟩ := chamfer_inner hi t0 t1 (hXt ▸ hk)
  rw [← hXt] at x0 x1 y0 y1
  obtain ⟨p0, p1, p2, p3, p4, p5, p6⟩ := chamfer_pos
  obtain ⟨l0, l1, l2, l3, l4, l5⟩ := chamfer_len
  unfold sideLen at l0 l1 l2 l3 l4 l5
  simp only [Nat.reduceAdd, p0, p1, p2, p3, p4, p5, p6] at l0 l1 l2 l3 l4 l5
  obtain ⟨-, ⟨k, u, u0, u1, hu⟩ | ⟨k, u, -, -, -, hu⟩⟩ := hX'
  · have e : sidePt chamfer (-9) k u = sidePt chamfer (-9) (k % 5) u := by
      unfold sidePt
      have h : k % chamfer.verts.length = (k % 5) % chamfer.verts.length := (Nat.mod_mod _ _).symm
      have h0 := cornerPos_congr h 0
      simp only [Nat.add_zero] at h0
      rw [h0, cornerPos_congr h 1]
    rw [e] at hu
    revert hu
    refine lt_five (P := fun k => X = sidePt chamfer (-9) k u → False) ?_ ?_ ?_ ?_ ?_ k <;> intro hu <;>
      simp only [sidePt, moved, Nat.reduceAdd, p0, p1, p2, p3, p4, p5, l0, l1, l2, l3, l4] at hu <;> rw [hu] at x0 x1 y0 y1 <;> dsimp only at x0 x1 y0 y1 <;> linarith
  · have hd : edist X (cornerPos chamfer (k + 1)) = 9 := by
      rw [hu, cornerArc_dist (show cornerPos chamfer k ≠ cornerPos chamfer (k + 1) from chamfer_straight.apart k), abs_neg, abs_of_pos (by norm_num : (0 : ℝ) < 9)]
    have h81 : (X.x - (cornerPos chamfer (k + 1)).x) ^ 2 + (X.y - (cornerPos chamfer (k + 1)).y) ^ 2 = 81 := by
      rw [← edist_sq, hd]; norm_num
    have e : cornerPos chamfer (k + 1) = cornerPos chamfer (k % 5 + 1) := cornerPos_congr (p := chamfer) (Nat.mod_mod k 5).symm 1
    rw [e] at h81
    revert h81
    refine lt_five (P := fun k => (X.x - (cornerPos chamfer (k + 1)).x) ^ 2 + (X.y - (cornerPos chamfer (k + 1)).y) ^ 2 = 81 → False) ?_ ?_ ?_ ?_ ?_ k <;>
      intro h81 <;> simp only [Nat.reduceAdd, p1, p2, p3, p4, p5] at h81 <;> nlinarith

/-- a segment whose middle is the middle of its chord is straight -/
theorem line_of_middle {x y : Vertex ℝ} (hne : x.pos ≠ y.pos) (h : segCurve x y (1 / 2) = linePoint x.pos y.pos (1 / 2)) : IsLine x := by
  by_contra hl
  have hb := bulge_ne_zero hl
  have h0 := arcPoint_edist x.pos y.pos x.bulge 0 hb
  have h1 := arcPoint_edist x.pos y.pos x.bulge 1 hb
  have h2 := arcPoint_edist x.pos y.pos x.bulge (1 / 2) hb
  rw [← segCurve_arc hl] at h0 h1 h2
  rw [(segCurve_ends x y).1] at h0
  rw [(segCurve_ends x y).2] at h1
  rw [h] at h2
  set c := arcCenter x.pos y.pos x.bulge
  have s0 := edist_sq x.pos c
  have s1 := edist_sq y.pos c
  have s2 := edist_sq (linePoint x.pos y.pos (1 / 2)) c
  rw [h0] at s0
  rw [h1] at s1
  rw [h2] at s2
  unfold linePoint at s2
  dsimp only at s2
  apply hne
  have key : (x.pos.x - y.pos.x) ^ 2 + (x.pos.y - y.pos.y) ^ 2 = 0 := by nlinarith
  have a1 : x.pos.x - y.pos.x = 0 := by nlinarith [sq_nonneg (x.pos.x - y.pos.x), sq_nonneg (x.pos.y - y.pos.y)]
  have a2 : x.pos.y - y.pos.y = 0 := by nlinarith [sq_nonneg (x.pos.x - y.pos.x), sq_nonneg (x.pos.y - y.pos.y)]
  rw [V2.ext_iff']
  exact ⟨by linarith, by linarith⟩

theorem chamfer_cut {i : Nat} {t : ℝ} : (i, t) ∈ bothCuts chamferCross ↔ (i = 1 ∧ t = 9 / 10) ∨ (i = 3 ∧ t = 1 / 13) := by
  simp [bothCuts, chamferCross]

theorem chamfer_tests : ClearTests chamfer (rawLoop chamfer 9) 9 (1 / 100000) (1 / 10000) chamferCross := by
  have hn : 0 < (rawLoop chamfer 9).verts.length := by rw [chamfer_len5]; norm_num
  have hside := chamfer_side
  refine ⟨by simp [chamferCross], ?_, ?_⟩
  · intro i lo hi hst hcut
    rcases chamfer_cut.mp hcut with ⟨rfl, rfl⟩ | ⟨rfl, rfl⟩
    · have hhi : hi = 1 := by
        rcases hst.stop with h | h
        · exact h
        · rcases chamfer_cut.mp h with ⟨-, h⟩ | ⟨h, -⟩
          · have := hst.lt; linarith
          · norm_num at h
      subst hhi
      right
      refine ⟨_, chamfer_on 3 (by norm_num) (u := 6 / 33) (by norm_num) (by norm_num), ?_⟩
      rw [edist_sq, (hside _).2.2.2.1, (chamfer_curve _).2.1, abs_of_pos (by norm_num : (0 : ℝ) < 9)]
      norm_num
    · have hhi : hi = 1 := by
        rcases hst.stop with h | h
        · exact h
        · rcases chamfer_cut.mp h with ⟨h, -⟩ | ⟨-, h⟩
          · norm_num at h
          · have := hst.lt; linarith
      subst hhi
      left
      rw [(chamfer_curve _).2.2.2.1]
      rintro q ⟨s, hs, u, u0, u1, rfl⟩
      rw [segs_range rfl (by decide)] at hs
      obtain ⟨k, hk, rfl⟩ := List.mem_map.mp hs
      have hk5 : k < 5 := List.mem_range.mp hk
      rw [← curveAt_vtx (by decide : 0 < chamfer.verts.length), abs_of_pos (by norm_num : (0 : ℝ) < 9)]
      have hsq := edist_sq (⟨57 / 2 - 39 / 2 * ((1 / 13 + 1) / 2), 27⟩ : V2 ℝ) (curveAt chamfer k u)
      have hnn := edist_nonneg (⟨57 / 2 - 39 / 2 * ((1 / 13 + 1) / 2), 27⟩ : V2 ℝ) (curveAt chamfer k u)
      obtain ⟨c0, c1, c2, c3, c4⟩ := hside u
      by_contra hlt
      push Not at hlt
      have hlt2 : edist (⟨57 / 2 - 39 / 2 * ((1 / 13 + 1) / 2), 27⟩ : V2 ℝ) (curveAt chamfer k u) ^ 2 < 81 := by nlinarith
      rw [hsq] at hlt2
      interval_cases k
      · rw [c0] at hlt2; dsimp only at hlt2; nlinarith
      · rw [c1] at hlt2; dsimp only at hlt2; nlinarith
      · rw [c2] at hlt2; dsimp only at hlt2; nlinarith
      · rw [c3] at hlt2; dsimp only at hlt2; nlinarith
      · rw [c4] at hlt2; dsimp only at hlt2; nlinarith
  · intro i lo hi x y hst hk hfull hcv
    have hi5 : i < 5 := by have := hst.range; rwa [chamfer_len5] at this
    have hx : x.pos = curveAt (rawLoop chamfer 9) i lo := by
      have := hcv 0
      rw [(segCurve_ends x y).1] at this
      rw [this]; congr 1; ring
    have hy : y.pos = curveAt (rawLoop chamfer 9) i hi := by
      have := hcv 1
      rw [(segCurve_ends x y).2] at this
      rw [this]; congr 1; ring
    have hne : x.pos ≠ y.pos := fuzzy_ne (by norm_num) hfull.apart
    have hl : IsLine x := by
      apply line_of_middle hne
      rw [hcv, hx, hy, curveAt_vtx hn, curveAt_vtx hn, curveAt_vtx hn, segCurve_line (chamfer_line i hi5), segCurve_line (chamfer_line i hi5),
        segCurve_line (chamfer_line i hi5)]
      unfold linePoint
      dsimp only
      rw [V2.mk.injEq]
      constructor <;> ring
    obtain ⟨a1, a2, a3, a4⟩ := chamfer_inner hi5 hst.zero (hst.lt.le.trans hst.one) (hk lo le_rfl hst.lt.le)
    obtain ⟨b1, b2, b3, b4⟩ := chamfer_inner hi5 (hst.zero.trans hst.lt.le) hst.one (hk hi hst.lt.le le_rfl)
    rw [← hx] at a1 a2 a3 a4
    rw [← hy] at b1 b2 b3 b4
    unfold Vertex.pos at a1 a2 a3 a4 b1 b2 b3 b4
    dsimp only at a1 a2 a3 a4 b1 b2 b3 b4
    intro s hs hov
    exfalso
    rw [segs_range rfl (by decide)] at hs
    obtain ⟨k, hk, rfl⟩ := List.mem_map.mp hs
    have hk5 : k < 5 := List.mem_range.mp hk
    obtain ⟨v0, v1, v2, v3, v4, v5, -⟩ := chamfer_vtx
    have hls := chamfer_straight.line k
    unfold segBox segFastApproxBoundingBox at hov
    rw [bulgeIsZero_true hl, bulgeIsZero_true hls] at hov
    simp only [if_true, AABB.overlaps, AABB.grow, minMax_eq, RealScalar.lt_eq, RealScalar.gt_eq, Bool.not_eq_true', Bool.or_eq_false_iff, decide_eq_false_iff_not, not_lt] at hov
    obtain ⟨⟨⟨o1, o2⟩, o3⟩, o4⟩ := hov
    have m1 := le_min a1 b1
    have m2 := max_le a2 b2
    have m3 := le_min a3 b3
    have m4 := max_le a4 b4
    have hfe : (Scalar.fuzzyEps : ℝ) = 1 / 100000000 := by simp [Scalar.fuzzyEps]
    rw [hfe] at o1 o2 o3 o4
    interval_cases k <;> simp only [Nat.reduceAdd, v0, v1, v2, v3, v4, v5] at o1 o2 o3 o4 <;> norm_num at o1 o2 o3 o4 <;> first
      | linarith
      | (rcases o1 with o1 | o1 <;> linarith)
      | (rcases o2 with o2 | o2 <;> linarith)
      | (rcases o3 with o3 | o3 <;> linarith)
      | (rcases o4 with o4 | o4 <;> linarith)

end Cavc
