import Verif.Lemmas.HookOffset
import Verif.Props.OffsetStraight

/-! # Example: a closed polyline that winds twice and crosses itself, with its raw offsets to both sides -/

set_option linter.unusedVariables false

namespace Cavc
open RealScalar Pline

/-- A closed polyline of eight straight segments that turns to the left at every corner and crosses itself once. -/
def coil : Pline ℝ := ⟨[⟨0, 0, 0⟩, ⟨30, 0, 0⟩, ⟨30, 30, 0⟩, ⟨10, 30, 0⟩, ⟨10, 10, 0⟩, ⟨40, 10, 0⟩, ⟨40, 40, 0⟩, ⟨0, 40, 0⟩], true⟩

/-- the raw offset by 2 to the left -/
def clR : Pline ℝ := ⟨[⟨2, 2, 0⟩, ⟨28, 2, 0⟩, ⟨28, 28, 0⟩, ⟨12, 28, 0⟩, ⟨12, 12, 0⟩, ⟨38, 12, 0⟩, ⟨38, 38, 0⟩, ⟨2, 38, 0⟩], true⟩

/-- the raw offset by 2 to the right -/
noncomputable def clD : Pline ℝ :=
  ⟨[⟨0, -2, 0⟩, ⟨30, -2, qb⟩, ⟨32, 0, 0⟩, ⟨32, 30, qb⟩, ⟨30, 32, 0⟩, ⟨10, 32, qb⟩, ⟨8, 30, 0⟩, ⟨8, 10, qb⟩, ⟨10, 8, 0⟩, ⟨40, 8, qb⟩, ⟨42, 10, 0⟩, ⟨42, 40, qb⟩, ⟨40, 42, 0⟩, ⟨0, 42, qb⟩, ⟨-2, 40, 0⟩, ⟨-2, 0, qb⟩], true⟩

theorem cl_len : coil.verts.length = 8 := rfl

theorem cl_vtx : vtx coil 0 = ⟨0, 0, 0⟩ ∧ vtx coil 1 = ⟨30, 0, 0⟩ ∧ vtx coil 2 = ⟨30, 30, 0⟩ ∧ vtx coil 3 = ⟨10, 30, 0⟩ ∧ vtx coil 4 = ⟨10, 10, 0⟩ ∧ vtx coil 5 = ⟨40, 10, 0⟩ ∧ vtx coil 6 = ⟨40, 40, 0⟩ ∧ vtx coil 7 = ⟨0, 40, 0⟩ ∧ vtx coil 8 = ⟨0, 0, 0⟩ ∧ vtx coil 9 = ⟨30, 0, 0⟩ := ⟨rfl, rfl, rfl, rfl, rfl, rfl, rfl, rfl, rfl, rfl⟩

theorem clR_vtx : vtx clR 0 = ⟨2, 2, 0⟩ ∧ vtx clR 1 = ⟨28, 2, 0⟩ ∧ vtx clR 2 = ⟨28, 28, 0⟩ ∧ vtx clR 3 = ⟨12, 28, 0⟩ ∧ vtx clR 4 = ⟨12, 12, 0⟩ ∧ vtx clR 5 = ⟨38, 12, 0⟩ ∧ vtx clR 6 = ⟨38, 38, 0⟩ ∧ vtx clR 7 = ⟨2, 38, 0⟩ ∧ vtx clR 8 = ⟨2, 2, 0⟩ ∧ vtx clR 9 = ⟨28, 2, 0⟩ := ⟨rfl, rfl, rfl, rfl, rfl, rfl, rfl, rfl, rfl, rfl⟩

theorem clD_vtx : vtx clD 0 = ⟨0, -2, 0⟩ ∧ vtx clD 1 = ⟨30, -2, qb⟩ ∧ vtx clD 2 = ⟨32, 0, 0⟩ ∧ vtx clD 3 = ⟨32, 30, qb⟩ ∧ vtx clD 4 = ⟨30, 32, 0⟩ ∧ vtx clD 5 = ⟨10, 32, qb⟩ ∧ vtx clD 6 = ⟨8, 30, 0⟩ ∧ vtx clD 7 = ⟨8, 10, qb⟩ ∧ vtx clD 8 = ⟨10, 8, 0⟩ ∧ vtx clD 9 = ⟨40, 8, qb⟩ ∧ vtx clD 10 = ⟨42, 10, 0⟩ ∧ vtx clD 11 = ⟨42, 40, qb⟩ ∧ vtx clD 12 = ⟨40, 42, 0⟩ ∧ vtx clD 13 = ⟨0, 42, qb⟩ ∧ vtx clD 14 = ⟨-2, 40, 0⟩ ∧ vtx clD 15 = ⟨-2, 0, qb⟩ ∧ vtx clD 16 = ⟨0, -2, 0⟩ := ⟨rfl, rfl, rfl, rfl, rfl, rfl, rfl, rfl, rfl, rfl, rfl, rfl, rfl, rfl, rfl, rfl, rfl⟩

theorem cl_pos : cornerPos coil 0 = ⟨0, 0⟩ ∧ cornerPos coil 1 = ⟨30, 0⟩ ∧ cornerPos coil 2 = ⟨30, 30⟩ ∧ cornerPos coil 3 = ⟨10, 30⟩ ∧ cornerPos coil 4 = ⟨10, 10⟩ ∧ cornerPos coil 5 = ⟨40, 10⟩ ∧ cornerPos coil 6 = ⟨40, 40⟩ ∧ cornerPos coil 7 = ⟨0, 40⟩ ∧ cornerPos coil 8 = ⟨0, 0⟩ ∧ cornerPos coil 9 = ⟨30, 0⟩ := ⟨rfl, rfl, rfl, rfl, rfl, rfl, rfl, rfl, rfl, rfl⟩

theorem cl_sides : sideLen coil 0 = 30 ∧ sideLen coil 1 = 30 ∧ sideLen coil 2 = 20 ∧ sideLen coil 3 = 20 ∧ sideLen coil 4 = 30 ∧ sideLen coil 5 = 30 ∧ sideLen coil 6 = 40 ∧ sideLen coil 7 = 40 ∧ sideLen coil 8 = 30 := by
  obtain ⟨p0, p1, p2, p3, p4, p5, p6, p7, p8, p9⟩ := cl_pos
  unfold sideLen
  simp only [Nat.reduceAdd, p0, p1, p2, p3, p4, p5, p6, p7, p8, p9]
  refine ⟨?_, ?_, ?_, ?_, ?_, ?_, ?_, ?_, ?_⟩ <;> apply edist_lit <;> norm_num

theorem cl_turn (k : Nat) (hk : k < 8) : turnSin (cornerPos coil k) (cornerPos coil (k + 1)) (cornerPos coil (k + 2)) = 1 ∧
    turnCos (cornerPos coil k) (cornerPos coil (k + 1)) (cornerPos coil (k + 2)) = 0 := by
  obtain ⟨p0, p1, p2, p3, p4, p5, p6, p7, p8, p9⟩ := cl_pos
  obtain ⟨l0, l1, l2, l3, l4, l5, l6, l7, l8⟩ := cl_sides
  unfold sideLen at l0 l1 l2 l3 l4 l5 l6 l7 l8
  simp only [Nat.reduceAdd, p0, p1, p2, p3, p4, p5, p6, p7, p8, p9] at l0 l1 l2 l3 l4 l5 l6 l7 l8
  unfold turnSin turnCos
  interval_cases k <;> simp only [Nat.reduceAdd, p0, p1, p2, p3, p4, p5, p6, p7, p8, p9, l0, l1, l2, l3, l4, l5, l6, l7, l8] <;> norm_num

theorem cl_half (k : Nat) (hk : k < 8) : halfTurn (cornerPos coil k) (cornerPos coil (k + 1)) (cornerPos coil (k + 2)) = Real.pi / 4 := by
  obtain ⟨h1, h2⟩ := cl_turn k hk
  unfold halfTurn
  rw [h1, h2]; norm_num [Real.arctan_one]

theorem cl_setback (d : ℝ) (k : Nat) : setbackAt coil d k = d := by
  rw [← setbackAt_congr (p := coil) (m := k % 8) (k := k) (Nat.mod_mod _ _)]
  obtain ⟨h1, h2⟩ := cl_turn (k % 8) (Nat.mod_lt _ (by norm_num))
  unfold setbackAt setback
  rw [h1, h2]; norm_num

theorem cl_eight {P : Nat → Prop} (h : ∀ k < 8, P k) (k : Nat) : P (k % 8) := h _ (Nat.mod_lt _ (by norm_num))

theorem cl_straight : StraightLoop coil := by
  obtain ⟨v0, v1, v2, v3, v4, v5, v6, v7, v8, v9⟩ := cl_vtx
  refine ⟨rfl, by decide, fun i => ?_, fun i => ?_⟩
  · rw [← vtx_mod]
    refine cl_eight (P := fun k => IsLine (vtx coil k)) (fun k hk => ?_) i
    interval_cases k <;> exact box4_line _ _
  · rw [← vtx_mod, ← vtx_mod_succ]
    refine cl_eight (P := fun k => (vtx coil k).pos ≠ (vtx coil (k + 1)).pos) (fun k hk => ?_) i
    interval_cases k <;> simp only [Nat.reduceAdd, v0, v1, v2, v3, v4, v5, v6, v7, v8, v9, Vertex.pos, ne_eq, V2.ext_iff'] <;> norm_num

theorem cl_side_min (k : Nat) : 20 ≤ sideLen coil k := by
  obtain ⟨l0, l1, l2, l3, l4, l5, l6, l7, l8⟩ := cl_sides
  rw [← sideLen_congr (p := coil) (m := k % 8) (k := k) (Nat.mod_mod _ _)]
  refine cl_eight (P := fun k => 20 ≤ sideLen coil k) (fun k hk => ?_) k
  interval_cases k <;> simp only [l0, l1, l2, l3, l4, l5, l6, l7, l8] <;> norm_num

theorem cl_clear_in (k : Nat) : ClearTurn coil 2 (1 / 100000) k := by
  obtain ⟨p0, p1, p2, p3, p4, p5, p6, p7, p8, p9⟩ := cl_pos
  apply clearTurn_congr (m := k % 8) (p := coil) (Nat.mod_mod _ _)
  refine cl_eight (P := fun k => ClearTurn coil 2 (1 / 100000) k) (fun k hk => ⟨?_, Or.inr (Or.inl ?_), ?_⟩) k
  · interval_cases k <;> simp only [Nat.reduceAdd, p0, p1, p2, p3, p4, p5, p6, p7, p8, p9] <;> norm_num [abs_of_pos, abs_of_neg]
  · rw [cl_setback]
    have := cl_side_min k
    have := cl_side_min (k + 1)
    exact ⟨by norm_num, by linarith, by linarith⟩
  · intro h
    rw [cl_setback] at h; norm_num at h

theorem cl_clear_out (k : Nat) : ClearTurn coil (-2) (1 / 100000) k := by
  obtain ⟨p0, p1, p2, p3, p4, p5, p6, p7, p8, p9⟩ := cl_pos
  apply clearTurn_congr (m := k % 8) (p := coil) (Nat.mod_mod _ _)
  refine cl_eight (P := fun k => ClearTurn coil (-2) (1 / 100000) k) (fun k hk => ⟨?_, Or.inl ?_, ?_⟩) k
  · interval_cases k <;> simp only [Nat.reduceAdd, p0, p1, p2, p3, p4, p5, p6, p7, p8, p9] <;> norm_num [abs_of_pos, abs_of_neg]
  · rw [cl_setback]; norm_num
  · intro h
    rw [cl_half k hk]
    change _ ≤ |qb|
    rw [abs_of_pos qb_pos]
    linarith [qb_bounds.1]

theorem cl_mitred (k : Nat) : Mitred coil 2 k := by
  unfold Mitred
  rw [cl_setback]
  have := cl_side_min k
  have := cl_side_min (k + 1)
  exact ⟨by norm_num, by linarith, by linarith⟩

theorem cl_not_mitred (k : Nat) : ¬ Mitred coil (-2) k := by
  unfold Mitred
  rw [cl_setback]
  norm_num

theorem cl_raw_in : rawLoop coil 2 = clR := by
  obtain ⟨p0, p1, p2, p3, p4, p5, p6, p7, p8, p9⟩ := cl_pos
  obtain ⟨l0, l1, l2, l3, l4, l5, l6, l7, l8⟩ := cl_sides
  have hparts : loopParts coil 2 = [.side 0, .side 1, .side 2, .side 3, .side 4, .side 5, .side 6, .side 7] := by
    unfold loopParts
    simp only [cl_mitred, if_true]
    rfl
  have hs : ∀ k, sideStart coil 2 k = 2 / sideLen coil k := by
    intro k
    unfold sideStart
    rw [if_pos (cl_mitred _), cl_setback]
  unfold sideLen at l0 l1 l2 l3 l4 l5 l6 l7 l8 hs
  simp only [Nat.reduceAdd, p0, p1, p2, p3, p4, p5, p6, p7, p8, p9] at l0 l1 l2 l3 l4 l5 l6 l7 l8
  unfold rawLoop
  rw [hparts]
  simp only [List.map_cons, List.map_nil, RawPart.start, sidePt, hs, moved, Vertex.ofV2, Nat.reduceAdd, p0, p1, p2, p3, p4, p5, p6, p7, p8, p9, l0, l1, l2, l3, l4, l5, l6, l7, l8]
  norm_num [clR]

theorem cl_raw_out : rawLoop coil (-2) = clD := by
  obtain ⟨p0, p1, p2, p3, p4, p5, p6, p7, p8, p9⟩ := cl_pos
  obtain ⟨l0, l1, l2, l3, l4, l5, l6, l7, l8⟩ := cl_sides
  have hh := cl_half
  have hparts : loopParts coil (-2) = [.side 0, .corner 0, .side 1, .corner 1, .side 2, .corner 2, .side 3, .corner 3, .side 4, .corner 4, .side 5, .corner 5, .side 6, .corner 6, .side 7, .corner 7] := by
    unfold loopParts
    simp only [cl_not_mitred, if_false]
    rfl
  have hs : ∀ k, sideStart coil (-2) k = 0 := by
    intro k
    unfold sideStart
    rw [if_neg (cl_not_mitred _)]
  have hqb : Real.tan (Real.pi / 4 / 2) = qb := rfl
  have hst : (-2 : ℝ) < 0 := by norm_num
  unfold sideLen at l0 l1 l2 l3 l4 l5 l6 l7 l8
  simp only [Nat.reduceAdd, p0, p1, p2, p3, p4, p5, p6, p7, p8, p9] at l0 l1 l2 l3 l4 l5 l6 l7 l8
  unfold rawLoop
  rw [hparts]
  simp only [List.map_cons, List.map_nil, RawPart.start, hs, cl_setback, if_pos hst, hh 0 (by norm_num), hh 1 (by norm_num), hh 2 (by norm_num), hh 3 (by norm_num), hh 4 (by norm_num), hh 5 (by norm_num), hh 6 (by norm_num), hh 7 (by norm_num), hqb]
  simp only [sidePt, moved, Vertex.ofV2, Nat.reduceAdd, p0, p1, p2, p3, p4, p5, p6, p7, p8, p9, l0, l1, l2, l3, l4, l5, l6, l7, l8]
  norm_num [clD]

theorem clR_full : FullLoop clR (1 / 100000) := by
  obtain ⟨v0, v1, v2, v3, v4, v5, v6, v7, v8, v9⟩ := clR_vtx
  refine ⟨rfl, by decide, fun i => ?_⟩
  rw [← vtx_mod, ← vtx_mod_succ]
  refine cl_eight (P := fun k => FullSeg (vtx clR k) (vtx clR (k + 1)) (1 / 100000)) (fun k hk => ?_) i
  interval_cases k <;> simp only [Nat.reduceAdd, v0, v1, v2, v3, v4, v5, v6, v7, v8, v9] <;>
    exact ⟨Or.inl (box4_line _ _), FarApart.fuzzy (by unfold FarApart Vertex.pos; norm_num [abs_of_pos, abs_of_neg])⟩

theorem cl_full : FullLoop coil (1 / 100000) := by
  obtain ⟨v0, v1, v2, v3, v4, v5, v6, v7, v8, v9⟩ := cl_vtx
  refine ⟨rfl, by decide, fun i => ?_⟩
  rw [← vtx_mod, ← vtx_mod_succ]
  refine cl_eight (P := fun k => FullSeg (vtx coil k) (vtx coil (k + 1)) (1 / 100000)) (fun k hk => ?_) i
  interval_cases k <;> simp only [Nat.reduceAdd, v0, v1, v2, v3, v4, v5, v6, v7, v8, v9] <;>
    exact ⟨Or.inl (box4_line _ _), FarApart.fuzzy (by unfold FarApart Vertex.pos; norm_num [abs_of_pos, abs_of_neg])⟩

theorem clD_full : FullLoop clD (1 / 100000) := by
  obtain ⟨v0, v1, v2, v3, v4, v5, v6, v7, v8, v9, v10, v11, v12, v13, v14, v15, v16⟩ := clD_vtx
  refine ⟨rfl, show 2 ≤ 16 by norm_num, fun i => ?_⟩
  rw [← vtx_mod, ← vtx_mod_succ]
  have hk : i % clD.verts.length < 16 := Nat.mod_lt _ (by norm_num [clD])
  generalize i % clD.verts.length = k at hk
  interval_cases k <;> simp only [Nat.reduceAdd, v0, v1, v2, v3, v4, v5, v6, v7, v8, v9, v10, v11, v12, v13, v14, v15, v16] <;>
    refine ⟨?_, FarApart.fuzzy (by unfold FarApart Vertex.pos; norm_num [abs_of_pos, abs_of_neg])⟩ <;> first
      | exact Or.inl (box4_line _ _)
      | (right; refine ⟨qb_arc _ _, ?_⟩; rw [abs_of_pos qb_pos]; linarith [qb_bounds.2])

theorem cl_in : createRawOffsetPolyline coil 2 (1 / 100000) = .ok clR := by
  rw [← cl_raw_in]
  refine C42_raw_straight cl_straight (by norm_num) (by norm_num) cl_clear_in (by rw [cl_raw_in]; exact clR_full) ?_
  obtain ⟨p0, p1, p2, p3, p4, p5, p6, p7, p8, p9⟩ := cl_pos
  obtain ⟨l0, l1, l2, l3, l4, l5, l6, l7, l8⟩ := cl_sides
  unfold sideLen at l0
  simp only [Nat.reduceAdd, p0, p1] at l0
  rw [cl_raw_in, clR_vtx.2.1]
  apply FarApart.fuzzy
  unfold FarApart sidePt moved
  simp only [Nat.reduceAdd, p0, p1, l0, Vertex.pos]
  norm_num [abs_of_pos, abs_of_neg]

theorem cl_out : createRawOffsetPolyline coil (-2) (1 / 100000) = .ok clD := by
  rw [← cl_raw_out]
  refine C42_raw_straight cl_straight (by norm_num) (by norm_num) cl_clear_out (by rw [cl_raw_out]; exact clD_full) ?_
  obtain ⟨p0, p1, p2, p3, p4, p5, p6, p7, p8, p9⟩ := cl_pos
  obtain ⟨l0, l1, l2, l3, l4, l5, l6, l7, l8⟩ := cl_sides
  unfold sideLen at l0
  simp only [Nat.reduceAdd, p0, p1] at l0
  rw [cl_raw_out, clD_vtx.2.1]
  apply FarApart.fuzzy
  unfold FarApart sidePt moved
  simp only [Nat.reduceAdd, p0, p1, l0, Vertex.pos]
  norm_num [abs_of_pos, abs_of_neg]

theorem cl_curve (t : ℝ) : curveAt coil 0 t = ⟨0 + 30 * t, 0⟩ ∧ curveAt coil 1 t = ⟨30, 0 + 30 * t⟩ ∧ curveAt coil 2 t = ⟨30 - 20 * t, 30⟩ ∧ curveAt coil 3 t = ⟨10, 30 - 20 * t⟩ ∧ curveAt coil 4 t = ⟨10 + 30 * t, 10⟩ ∧ curveAt coil 5 t = ⟨40, 10 + 30 * t⟩ ∧ curveAt coil 6 t = ⟨40 - 40 * t, 40⟩ ∧ curveAt coil 7 t = ⟨0, 40 - 40 * t⟩ := by
  obtain ⟨v0, v1, v2, v3, v4, v5, v6, v7, v8, v9⟩ := cl_vtx
  have hn : 0 < coil.verts.length := by decide
  simp only [curveAt_vtx hn, Nat.reduceAdd, v0, v1, v2, v3, v4, v5, v6, v7, v8, v9, segCurve_line (box4_line _ _), linePoint, Vertex.pos, V2.mk.injEq]
  refine ⟨⟨?_, ?_⟩, ⟨?_, ?_⟩, ⟨?_, ?_⟩, ⟨?_, ?_⟩, ⟨?_, ?_⟩, ⟨?_, ?_⟩, ⟨?_, ?_⟩, ⟨?_, ?_⟩⟩ <;> ring

theorem clR_curve (t : ℝ) : curveAt clR 0 t = ⟨2 + 26 * t, 2⟩ ∧ curveAt clR 1 t = ⟨28, 2 + 26 * t⟩ ∧ curveAt clR 2 t = ⟨28 - 16 * t, 28⟩ ∧ curveAt clR 3 t = ⟨12, 28 - 16 * t⟩ ∧ curveAt clR 4 t = ⟨12 + 26 * t, 12⟩ ∧ curveAt clR 5 t = ⟨38, 12 + 26 * t⟩ ∧ curveAt clR 6 t = ⟨38 - 36 * t, 38⟩ ∧ curveAt clR 7 t = ⟨2, 38 - 36 * t⟩ := by
  obtain ⟨v0, v1, v2, v3, v4, v5, v6, v7, v8, v9⟩ := clR_vtx
  have hn : 0 < clR.verts.length := by decide
  simp only [curveAt_vtx hn, Nat.reduceAdd, v0, v1, v2, v3, v4, v5, v6, v7, v8, v9, segCurve_line (box4_line _ _), linePoint, Vertex.pos, V2.mk.injEq]
  refine ⟨⟨?_, ?_⟩, ⟨?_, ?_⟩, ⟨?_, ?_⟩, ⟨?_, ?_⟩, ⟨?_, ?_⟩, ⟨?_, ?_⟩, ⟨?_, ?_⟩, ⟨?_, ?_⟩⟩ <;> ring

end Cavc
