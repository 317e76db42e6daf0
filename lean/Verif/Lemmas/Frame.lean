import Verif.Lemmas.IsletSingle

/-! # Example: a square that is offset to the inside, to the square `box4` -/

set_option linter.unusedVariables false

namespace Cavc
open Pline RealScalar

/-- A square with sides of length 6 around `box4` -/
def box6 : Pline ℝ := ⟨[⟨-1, -1, 0⟩, ⟨5, -1, 0⟩, ⟨5, 5, 0⟩, ⟨-1, 5, 0⟩], true⟩

theorem box6_vtx : vtx box6 0 = ⟨-1, -1, 0⟩ ∧ vtx box6 1 = ⟨5, -1, 0⟩ ∧ vtx box6 2 = ⟨5, 5, 0⟩ ∧ vtx box6 3 = ⟨-1, 5, 0⟩ ∧
    vtx box6 4 = ⟨-1, -1, 0⟩ ∧ vtx box6 5 = ⟨5, -1, 0⟩ := ⟨rfl, rfl, rfl, rfl, rfl, rfl⟩

theorem box6_pos : cornerPos box6 0 = ⟨-1, -1⟩ ∧ cornerPos box6 1 = ⟨5, -1⟩ ∧ cornerPos box6 2 = ⟨5, 5⟩ ∧ cornerPos box6 3 = ⟨-1, 5⟩ ∧
    cornerPos box6 4 = ⟨-1, -1⟩ ∧ cornerPos box6 5 = ⟨5, -1⟩ := ⟨rfl, rfl, rfl, rfl, rfl, rfl⟩

theorem box6_len : sideLen box6 0 = 6 ∧ sideLen box6 1 = 6 ∧ sideLen box6 2 = 6 ∧ sideLen box6 3 = 6 ∧ sideLen box6 4 = 6 := by
  obtain ⟨p0, p1, p2, p3, p4, p5⟩ := box6_pos
  unfold sideLen
  simp only [Nat.reduceAdd, p0, p1, p2, p3, p4, p5]
  refine ⟨?_, ?_, ?_, ?_, ?_⟩ <;> apply edist_lit <;> norm_num

theorem box6_straight : StraightLoop box6 := by
  obtain ⟨v0, v1, v2, v3, v4, v5⟩ := box6_vtx
  refine ⟨rfl, by decide, fun i => ?_, fun i => ?_⟩
  · rw [← vtx_mod]
    refine lt_four (P := fun k => IsLine (vtx box6 k)) ?_ ?_ ?_ ?_ i <;>
      simp only [v0, v1, v2, v3] <;> (unfold IsLine; norm_num)
  · rw [← vtx_mod, ← vtx_mod_succ]
    refine lt_four (P := fun k => (vtx box6 k).pos ≠ (vtx box6 (k + 1)).pos) ?_ ?_ ?_ ?_ i <;>
      simp only [Nat.reduceAdd, v0, v1, v2, v3, v4, Vertex.pos, ne_eq, V2.ext_iff'] <;> norm_num

theorem box6_turn (k : Nat) (hk : k < 4) : turnSin (cornerPos box6 k) (cornerPos box6 (k + 1)) (cornerPos box6 (k + 2)) = 1 ∧
    turnCos (cornerPos box6 k) (cornerPos box6 (k + 1)) (cornerPos box6 (k + 2)) = 0 := by
  obtain ⟨p0, p1, p2, p3, p4, p5⟩ := box6_pos
  obtain ⟨l0, l1, l2, l3, l4⟩ := box6_len
  unfold sideLen at l0 l1 l2 l3 l4
  simp only [Nat.reduceAdd, p0, p1, p2, p3, p4, p5] at l0 l1 l2 l3 l4
  unfold turnSin turnCos
  interval_cases k <;> simp only [Nat.reduceAdd, p0, p1, p2, p3, p4, p5, l0, l1, l2, l3, l4] <;> norm_num

theorem box6_setback (d : ℝ) (k : Nat) : setbackAt box6 d k = d := by
  rw [← setbackAt_congr (p := box6) (m := k % 4) (k := k) (Nat.mod_mod _ _)]
  obtain ⟨h1, h2⟩ := box6_turn (k % 4) (Nat.mod_lt _ (by norm_num))
  unfold setbackAt setback
  rw [h1, h2]; norm_num

theorem box6_side_len (k : Nat) : sideLen box6 k = 6 := by
  obtain ⟨l0, l1, l2, l3, l4⟩ := box6_len
  rw [← sideLen_congr (p := box6) (m := k % 4) (k := k) (Nat.mod_mod _ _)]
  exact lt_four (P := fun k => sideLen box6 k = 6) l0 l1 l2 l3 k

theorem box6_mitred (k : Nat) : Mitred box6 1 k := by
  unfold Mitred
  rw [box6_setback, box6_side_len, box6_side_len]
  norm_num

theorem box6_clear (k : Nat) : ClearTurn box6 1 (1 / 100000) k := by
  obtain ⟨p0, p1, p2, p3, p4, p5⟩ := box6_pos
  apply clearTurn_congr (m := k % 4) (p := box6) (Nat.mod_mod _ _)
  refine lt_four (P := fun k => ClearTurn box6 1 (1 / 100000) k) ?_ ?_ ?_ ?_ k <;>
  · refine ⟨?_, Or.inr (Or.inl ?_), ?_⟩
    · simp only [Nat.reduceAdd, p0, p1, p2, p3, p4, p5]; norm_num [abs_of_pos, abs_of_neg]
    · rw [box6_setback, box6_side_len, box6_side_len]; norm_num
    · rw [box6_setback]; intro h; norm_num at h

theorem box6_raw : rawLoop box6 1 = box4 := by
  obtain ⟨p0, p1, p2, p3, p4, p5⟩ := box6_pos
  obtain ⟨l0, l1, l2, l3, l4⟩ := box6_len
  have hparts : loopParts box6 1 = [.side 0, .side 1, .side 2, .side 3] := by
    unfold loopParts
    simp only [box6_mitred, if_true]
    rfl
  have hs : ∀ k, sideStart box6 1 k = 1 / 6 := by
    intro k
    unfold sideStart
    rw [if_pos (box6_mitred _), box6_setback, box6_side_len]
  unfold sideLen at l0 l1 l2 l3 l4
  simp only [Nat.reduceAdd, p0, p1, p2, p3, p4] at l0 l1 l2 l3 l4
  unfold rawLoop
  rw [hparts]
  simp only [List.map_cons, List.map_nil, RawPart.start, sidePt, hs, moved, Vertex.ofV2, Nat.reduceAdd, p0, p1, p2, p3, p4, l0, l1, l2, l3]
  norm_num [box4]

theorem box6_full : FullLoop box6 (1 / 100000) := by
  obtain ⟨v0, v1, v2, v3, v4, v5⟩ := box6_vtx
  refine ⟨rfl, by decide, fun i => ?_⟩
  rw [← vtx_mod, ← vtx_mod_succ]
  refine lt_four (P := fun k => FullSeg (vtx box6 k) (vtx box6 (k + 1)) (1 / 100000)) ?_ ?_ ?_ ?_ i <;> simp only [Nat.reduceAdd, v0, v1, v2, v3, v4] <;>
    exact ⟨Or.inl (box4_line _ _), FarApart.fuzzy (by unfold FarApart Vertex.pos; norm_num [abs_of_pos, abs_of_neg])⟩

theorem box6_first : (sidePt box6 1 0 0).fuzzyEqEps (vtx (rawLoop box6 1) 1).pos (1 / 100000) = false := by
  have l0 := box6_len.1
  unfold sideLen at l0
  rw [box6_raw, box4_vtx.2.1]
  apply FarApart.fuzzy
  unfold FarApart sidePt moved
  rw [l0, box6_pos.1, box6_pos.2.1]
  norm_num [Vertex.pos, abs_of_pos, abs_of_neg]

theorem box6_in : createRawOffsetPolyline box6 1 (1 / 100000) = .ok box4 := by
  rw [← box6_raw]
  exact C42_raw_straight box6_straight (by norm_num) (by norm_num) box6_clear (by rw [box6_raw]; exact b4_square) box6_first

theorem box6_clearOffset : ClearOffset box6 1 (straightCorner box6 1) (1 / 100000) := by
  refine straight_clear box6_straight box6_full (by norm_num) box6_clear (fun j => ?_) (by rw [box6_raw]; exact b4_square) box6_first
  unfold sideStart sideEnd
  rw [if_pos (box6_mitred _), if_pos (box6_mitred _), box6_setback, box6_setback, box6_side_len]
  norm_num

theorem box6_side (u : ℝ) : curveAt box6 0 u = ⟨-1 + 6 * u, -1⟩ ∧ curveAt box6 1 u = ⟨5, -1 + 6 * u⟩ ∧ curveAt box6 2 u = ⟨5 - 6 * u, 5⟩ ∧ curveAt box6 3 u = ⟨-1, 5 - 6 * u⟩ := by
  obtain ⟨p0, p1, p2, p3, p4, p5⟩ := box6_pos
  simp only [straight_curve box6_straight, Nat.reduceAdd, p0, p1, p2, p3, p4, p5, linePoint, V2.mk.injEq]
  refine ⟨⟨?_, ?_⟩, ⟨?_, ?_⟩, ⟨?_, ?_⟩, ?_, ?_⟩ <;> ring

theorem box6_simple : SimpleLoop box6 := by
  intro i j hi hj t u t0 t1 u0 u1 h
  obtain ⟨a0, a1, a2, a3⟩ := box6_side t
  obtain ⟨b0, b1, b2, b3⟩ := box6_side u
  change i < 4 at hi
  change j < 4 at hj
  interval_cases i <;> interval_cases j <;> simp only [a0, a1, a2, a3, b0, b1, b2, b3, V2.ext_iff'] at h <;> obtain ⟨h1, h2⟩ := h <;>
    first
    | exact ⟨rfl, by linarith⟩
    | (exfalso; linarith)

theorem box6_seg {s : Vertex ℝ × Vertex ℝ} (hs : s ∈ box6.segs) : ∃ k < 4, s = (vtx box6 k, vtx box6 (k + 1)) := by
  rw [segs_range rfl (by decide)] at hs
  obtain ⟨j, hj, rfl⟩ := List.mem_map.mp hs
  exact ⟨j, List.mem_range.mp hj, rfl⟩

theorem box6_lines : ∀ s ∈ box6.segs, IsLine s.1 := by
  intro s hs
  obtain ⟨j, hj, rfl⟩ := box6_seg hs
  exact box6_straight.line j

theorem box6_keeps {X : V2 ℝ} (h1 : 0 ≤ X.x) (h2 : X.x ≤ 4) (h3 : 0 ≤ X.y) (h4 : X.y ≤ 4) : Keeps box6 1 X := by
  rintro q ⟨s, hs, u, u0, u1, rfl⟩
  obtain ⟨j, hj, rfl⟩ := box6_seg hs
  rw [← curveAt_vtx (by decide)]
  obtain ⟨a0, a1, a2, a3⟩ := box6_side u
  have hsq := edist_sq X (curveAt box6 j u)
  have hnn := edist_nonneg X (curveAt box6 j u)
  by_contra hlt
  push Not at hlt
  have hlt2 : edist X (curveAt box6 j u) ^ 2 < 1 := by nlinarith
  rw [hsq] at hlt2
  interval_cases j
  · rw [a0] at hlt2; dsimp only at hlt2; nlinarith [sq_nonneg (X.x - (-1 + 6 * u))]
  · rw [a1] at hlt2; dsimp only at hlt2; nlinarith [sq_nonneg (X.y - (-1 + 6 * u))]
  · rw [a2] at hlt2; dsimp only at hlt2; nlinarith [sq_nonneg (X.x - (5 - 6 * u))]
  · rw [a3] at hlt2; dsimp only at hlt2; nlinarith [sq_nonneg (X.y - (5 - 6 * u))]

theorem box6_stays {i : Nat} (hi : i < 4) {t : ℝ} (t0 : 0 ≤ t) (t1 : t ≤ 1) : Keeps box6 1 (curveAt box4 i t) := by
  obtain ⟨h1, h2, h3, h4⟩ := box4_inside hi t0 t1
  exact box6_keeps h1 h2 h3 h4

theorem box4_plain_crossing : SelfCrossing box4 (1 / 100000) 1 [] := by
  refine ⟨by decide, by simp, by simp, ?_, by simp [bothCuts], by simp [bothCuts], by simp [bothCuts], by simp, by simp [bothCuts]⟩
  intro i t j u hij hj t0 t1 u0 u1 h
  have hlen : box4.verts.length = 4 := rfl
  rw [hlen] at hj ⊢
  obtain ⟨a0, a1, a2, a3⟩ := box4_side t
  obtain ⟨b0, b1, b2, b3⟩ := box4_side u
  have hi : i < 3 := by omega
  interval_cases i <;> interval_cases j <;> simp only [a0, a1, a2, a3, b0, b1, b2, b3, V2.mk.injEq] at h <;> obtain ⟨h1, h2⟩ := h <;>
    first
    | (exfalso; linarith)
    | (left; exact ⟨rfl, by linarith, by linarith⟩)
    | (right; left; exact ⟨rfl, rfl, by linarith, by linarith⟩)

theorem box4_plain_finds : FindsSelf box4 (1 / 100000) := by
  obtain ⟨v0, v1, v2, v3, v4, v5⟩ := box4_vtx
  have hlen : box4.verts.length = 4 := rfl
  constructor
  · intro i hi
    rw [hlen] at hi
    refine finds_corner (by norm_num) (ClearPair.lines (box4_straight.line i) (box4_straight.line (i + 1)) (Or.inl ⟨⟨(vtx box4 (i + 1)).pos,
      ⟨1, by norm_num, le_rfl, (segCurve_ends _ _).2.symm⟩, ⟨0, le_rfl, by norm_num, (segCurve_ends _ _).1.symm⟩⟩, ?_⟩))
    interval_cases i <;> simp only [Nat.reduceAdd, v0, v1, v2, v3, v4, v5] <;> unfold dirCross Vertex.pos <;> norm_num [abs_of_pos, abs_of_neg]
  · intro i j hi hj hij h1 h2 hbox
    rw [hlen] at hi hj h1 h2
    exfalso
    have key := fun h => boxIn_apart (e := 1 / 100000) (box4_side_boxes j hj) (box4_side_boxes i hi) h
    unfold BoxesMeet at hbox
    rw [hbox] at key
    apply absurd key
    simp only [imp_false, not_not, Bool.true_eq_false]
    interval_cases i <;> interval_cases j <;> first
      | exact absurd rfl hij
      | exact absurd rfl h1
      | exact absurd rfl h2
      | (simp only [sideTable]; norm_num)

theorem box6_tests : ClearTests box6 box4 1 (1 / 100000) (1 / 10000) [] := by
  have hn : 0 < box4.verts.length := by decide
  obtain ⟨v0, v1, v2, v3, v4, v5⟩ := box4_vtx
  obtain ⟨w0, w1, w2, w3, w4, w5⟩ := box6_vtx
  refine ⟨fun _ => Or.inl (by rw [abs_one]; exact box6_stays (by norm_num) le_rfl zero_le_one), by simp [bothCuts], ?_⟩
  intro i lo hi x y hst hkp hfull hcv
  have hi4 : i < 4 := hst.range
  obtain rfl : lo = 0 := by rcases hst.start with h | h; exact h; simp [bothCuts] at h
  obtain rfl : hi = 1 := by rcases hst.stop with h | h; exact h; simp [bothCuts] at h
  have hcv' : ∀ s, segCurve x y s = segCurve (vtx box4 i) (vtx box4 (i + 1)) s := by
    intro s
    rw [hcv s, ← curveAt_vtx hn]; congr 1; ring
  have hx : x.pos = (vtx box4 i).pos := by
    have := hcv' 0
    rwa [(segCurve_ends _ _).1, (segCurve_ends _ _).1] at this
  have hy : y.pos = (vtx box4 (i + 1)).pos := by
    have := hcv' 1
    rwa [(segCurve_ends _ _).2, (segCurve_ends _ _).2] at this
  have hne : x.pos ≠ y.pos := fuzzy_ne (by norm_num) hfull.apart
  have hl : IsLine (vtx box4 i) := box4_straight.line i
  have hxl : IsLine x := by
    apply line_of_middle hne
    rw [hcv', segCurve_line hl, hx, hy]
  intro s hs _
  obtain ⟨j, hj4, rfl⟩ := box6_seg hs
  have hfar : ∀ a b, OnSeg x y a → OnSeg (vtx box6 j) (vtx box6 (j + 1)) b → 1 ≤ edist a b := by
    rintro a b ⟨t, t0, t1, rfl⟩ hb
    rw [hcv', ← curveAt_vtx hn]
    exact box6_stays hi4 t0 t1 b ⟨_, hs, hb⟩
  refine no_intersect (by norm_num) (.lines hxl (box6_straight.line j) (Or.inr ⟨?_, fun a b ha hb => lt_of_lt_of_le (by norm_num) (hfar a b ha hb)⟩)) fun q h1 h2 => ?_
  · simp only
    rw [hx, hy]
    unfold LinesResolved
    interval_cases i <;> interval_cases j <;> simp only [Nat.reduceAdd, v0, v1, v2, v3, v4, w0, w1, w2, w3, w4] <;> unfold dirCross Apart Vertex.pos <;> norm_num [abs_of_pos, abs_of_neg, edist]
  · have := hfar q q h1 h2
    rw [edist_self] at this
    linarith

theorem box6_clearly : ClearlyOffset box6 1 (1 / 100000) (1 / 10000) (1 / 10000) := by
  have e : rawWith box6 1 (straightCorner box6 1) = box4 := by rw [straight_raw box6_straight, box6_raw]
  have h := box6_clearOffset
  refine ⟨straightCorner box6 1, 1, [], h, straight_clean box6_straight (by norm_num) (by norm_num) h.corners, straight_free box6_straight (by norm_num) (by norm_num) h.corners,
    by rw [e]; exact box4_plain_crossing, by simp [CrossAtAngle], by rw [e]; exact box4_plain_finds, by rw [e]; exact box6_tests,
    fun i lo hi _ => ⟨lines_readable box6_lines _ _, lines_readable box6_lines _ _, lines_readable box6_lines _ _⟩, by norm_num, by norm_num⟩

theorem box6_offset (env : Env ℝ) (henv : env.Lawful) (idx : Index ℝ) (hidx : idx.Serves box6) :
    parallelOffset env box6 1 ⟨some idx, false, 1 / 100000, 1 / 10000, 1 / 10000⟩ = .ok [box4] := by
  refine offset_whole env henv box6 1 ⟨some idx, false, 1 / 100000, 1 / 10000, 1 / 10000⟩ (by simpa using hidx) rfl (by norm_num) rfl (by decide) box4 box6_in
    b4_square 1 box4_plain_crossing box4_plain_finds ?_ (by norm_num)
  refine keeps_clear_segs (fun s hs => Or.inl (box6_lines s hs)) (by norm_num) (by norm_num) (by norm_num) (lines_readable box6_lines _ _) ?_
  rw [abs_one, box4_vtx.1]
  exact box6_keeps (by norm_num [Vertex.pos]) (by norm_num [Vertex.pos]) (by norm_num [Vertex.pos]) (by norm_num [Vertex.pos])

theorem box6_area : box6.area = 36 := by
  obtain ⟨v0, v1, v2, v3, v4, v5⟩ := box6_vtx
  have hlen : box6.verts.length = 4 := rfl
  rw [area_eq, if_pos (show box6.closed = true from rfl), segs_range rfl (by decide)]
  rw [hlen]
  simp only [List.range, List.range.loop, List.map_cons, List.map_nil, List.sum_cons, List.sum_nil, areaTerm, Nat.reduceAdd, v0, v1, v2, v3, v4, bulgeIsZero_true (box4_line _ _), if_true]
  norm_num

end Cavc
