import Verif.Lemmas.BoxSelf
import Verif.Spec.Simple

/-! # Example: a room with a narrow passage, with its raw offsets to both sides -/

set_option linter.unusedVariables false

namespace Cavc
open RealScalar Pline

/-- A closed polyline around a room: a wall from the top to the passage at the bottom divides it. -/
def room : Pline ℝ := ⟨[⟨0, 0, 0⟩, ⟨200, 0, 0⟩, ⟨200, 100, 0⟩, ⟨120, 100, 0⟩, ⟨120, 5, 0⟩, ⟨80, 5, 0⟩, ⟨80, 100, 0⟩, ⟨0, 100, 0⟩], true⟩

/-- the raw offset by 10 to the left: it crosses itself at both ends of the passage -/
noncomputable def rmR : Pline ℝ :=
  ⟨[⟨10, 10, 0⟩, ⟨190, 10, 0⟩, ⟨190, 90, 0⟩, ⟨130, 90, 0⟩, ⟨130, 5, -qb⟩, ⟨120, -5, 0⟩, ⟨80, -5, -qb⟩, ⟨70, 5, 0⟩, ⟨70, 90, 0⟩, ⟨10, 90, 0⟩], true⟩

/-- the raw offset by 10 to the right -/
noncomputable def rmD : Pline ℝ :=
  ⟨[⟨0, -10, 0⟩, ⟨200, -10, qb⟩, ⟨210, 0, 0⟩, ⟨210, 100, qb⟩, ⟨200, 110, 0⟩, ⟨120, 110, qb⟩, ⟨110, 100, 0⟩, ⟨110, 15, 0⟩, ⟨90, 15, 0⟩, ⟨90, 100, qb⟩, ⟨80, 110, 0⟩, ⟨0, 110, qb⟩, ⟨-10, 100, 0⟩, ⟨-10, 0, qb⟩], true⟩

theorem rm_len : room.verts.length = 8 := rfl
theorem rmR_len : rmR.verts.length = 10 := rfl
theorem rmD_len : rmD.verts.length = 14 := rfl

theorem rm_vtx : vtx room 0 = ⟨0, 0, 0⟩ ∧ vtx room 1 = ⟨200, 0, 0⟩ ∧ vtx room 2 = ⟨200, 100, 0⟩ ∧ vtx room 3 = ⟨120, 100, 0⟩ ∧ vtx room 4 = ⟨120, 5, 0⟩ ∧ vtx room 5 = ⟨80, 5, 0⟩ ∧ vtx room 6 = ⟨80, 100, 0⟩ ∧ vtx room 7 = ⟨0, 100, 0⟩ ∧ vtx room 8 = ⟨0, 0, 0⟩ ∧ vtx room 9 = ⟨200, 0, 0⟩ := ⟨rfl, rfl, rfl, rfl, rfl, rfl, rfl, rfl, rfl, rfl⟩

theorem rmR_vtx : vtx rmR 0 = ⟨10, 10, 0⟩ ∧ vtx rmR 1 = ⟨190, 10, 0⟩ ∧ vtx rmR 2 = ⟨190, 90, 0⟩ ∧ vtx rmR 3 = ⟨130, 90, 0⟩ ∧ vtx rmR 4 = ⟨130, 5, -qb⟩ ∧ vtx rmR 5 = ⟨120, -5, 0⟩ ∧ vtx rmR 6 = ⟨80, -5, -qb⟩ ∧ vtx rmR 7 = ⟨70, 5, 0⟩ ∧ vtx rmR 8 = ⟨70, 90, 0⟩ ∧ vtx rmR 9 = ⟨10, 90, 0⟩ ∧ vtx rmR 10 = ⟨10, 10, 0⟩ ∧ vtx rmR 11 = ⟨190, 10, 0⟩ := ⟨rfl, rfl, rfl, rfl, rfl, rfl, rfl, rfl, rfl, rfl, rfl, rfl⟩

theorem rmD_vtx : vtx rmD 0 = ⟨0, -10, 0⟩ ∧ vtx rmD 1 = ⟨200, -10, qb⟩ ∧ vtx rmD 2 = ⟨210, 0, 0⟩ ∧ vtx rmD 3 = ⟨210, 100, qb⟩ ∧ vtx rmD 4 = ⟨200, 110, 0⟩ ∧ vtx rmD 5 = ⟨120, 110, qb⟩ ∧ vtx rmD 6 = ⟨110, 100, 0⟩ ∧ vtx rmD 7 = ⟨110, 15, 0⟩ ∧ vtx rmD 8 = ⟨90, 15, 0⟩ ∧ vtx rmD 9 = ⟨90, 100, qb⟩ ∧ vtx rmD 10 = ⟨80, 110, 0⟩ ∧ vtx rmD 11 = ⟨0, 110, qb⟩ ∧ vtx rmD 12 = ⟨-10, 100, 0⟩ ∧ vtx rmD 13 = ⟨-10, 0, qb⟩ ∧ vtx rmD 14 = ⟨0, -10, 0⟩ ∧ vtx rmD 15 = ⟨200, -10, qb⟩ := ⟨rfl, rfl, rfl, rfl, rfl, rfl, rfl, rfl, rfl, rfl, rfl, rfl, rfl, rfl, rfl, rfl⟩

theorem rm_pos : cornerPos room 0 = ⟨0, 0⟩ ∧ cornerPos room 1 = ⟨200, 0⟩ ∧ cornerPos room 2 = ⟨200, 100⟩ ∧ cornerPos room 3 = ⟨120, 100⟩ ∧ cornerPos room 4 = ⟨120, 5⟩ ∧ cornerPos room 5 = ⟨80, 5⟩ ∧ cornerPos room 6 = ⟨80, 100⟩ ∧ cornerPos room 7 = ⟨0, 100⟩ ∧ cornerPos room 8 = ⟨0, 0⟩ ∧ cornerPos room 9 = ⟨200, 0⟩ := ⟨rfl, rfl, rfl, rfl, rfl, rfl, rfl, rfl, rfl, rfl⟩

theorem rm_sides : sideLen room 0 = 200 ∧ sideLen room 1 = 100 ∧ sideLen room 2 = 80 ∧ sideLen room 3 = 95 ∧ sideLen room 4 = 40 ∧ sideLen room 5 = 95 ∧ sideLen room 6 = 80 ∧ sideLen room 7 = 100 ∧ sideLen room 8 = 200 := by
  obtain ⟨p0, p1, p2, p3, p4, p5, p6, p7, p8, p9⟩ := rm_pos
  unfold sideLen
  simp only [Nat.reduceAdd, p0, p1, p2, p3, p4, p5, p6, p7, p8, p9]
  refine ⟨?_, ?_, ?_, ?_, ?_, ?_, ?_, ?_, ?_⟩ <;> apply edist_lit <;> norm_num

/-- the direction of the turn after side `k` -/
def rmSign (k : Nat) : ℝ := if k = 3 ∨ k = 4 then -1 else 1

theorem rm_turn (k : Nat) (hk : k < 8) : turnSin (cornerPos room k) (cornerPos room (k + 1)) (cornerPos room (k + 2)) = rmSign k ∧
    turnCos (cornerPos room k) (cornerPos room (k + 1)) (cornerPos room (k + 2)) = 0 := by
  obtain ⟨p0, p1, p2, p3, p4, p5, p6, p7, p8, p9⟩ := rm_pos
  obtain ⟨l0, l1, l2, l3, l4, l5, l6, l7, l8⟩ := rm_sides
  unfold sideLen at l0 l1 l2 l3 l4 l5 l6 l7 l8
  simp only [Nat.reduceAdd, p0, p1, p2, p3, p4, p5, p6, p7, p8, p9] at l0 l1 l2 l3 l4 l5 l6 l7 l8
  unfold turnSin turnCos
  interval_cases k <;> simp only [Nat.reduceAdd, p0, p1, p2, p3, p4, p5, p6, p7, p8, p9, l0, l1, l2, l3, l4, l5, l6, l7, l8] <;> norm_num [rmSign]

theorem rm_half (k : Nat) (hk : k < 8) : halfTurn (cornerPos room k) (cornerPos room (k + 1)) (cornerPos room (k + 2)) = rmSign k * (Real.pi / 4) := by
  obtain ⟨h1, h2⟩ := rm_turn k hk
  unfold halfTurn
  rw [h1, h2]
  unfold rmSign
  split_ifs <;> norm_num [Real.arctan_one, Real.arctan_neg]

theorem rm_setback (d : ℝ) (k : Nat) : setbackAt room d k = d * rmSign (k % 8) := by
  rw [← setbackAt_congr (p := room) (m := k % 8) (k := k) (Nat.mod_mod _ _)]
  obtain ⟨h1, h2⟩ := rm_turn (k % 8) (Nat.mod_lt _ (by norm_num))
  unfold setbackAt setback
  rw [h1, h2]; norm_num

theorem rm_straight : StraightLoop room := by
  obtain ⟨v0, v1, v2, v3, v4, v5, v6, v7, v8, v9⟩ := rm_vtx
  refine ⟨rfl, by decide, fun i => ?_, fun i => ?_⟩
  · rw [← vtx_mod]
    refine cl_eight (P := fun k => IsLine (vtx room k)) (fun k hk => ?_) i
    interval_cases k <;> exact box4_line _ _
  · rw [← vtx_mod, ← vtx_mod_succ]
    refine cl_eight (P := fun k => (vtx room k).pos ≠ (vtx room (k + 1)).pos) (fun k hk => ?_) i
    interval_cases k <;> simp only [Nat.reduceAdd, v0, v1, v2, v3, v4, v5, v6, v7, v8, v9, Vertex.pos, ne_eq, V2.ext_iff'] <;> norm_num

theorem rm_side_min (k : Nat) : 40 ≤ sideLen room k := by
  obtain ⟨l0, l1, l2, l3, l4, l5, l6, l7, l8⟩ := rm_sides
  rw [← sideLen_congr (p := room) (m := k % 8) (k := k) (Nat.mod_mod _ _)]
  refine cl_eight (P := fun k => 40 ≤ sideLen room k) (fun k hk => ?_) k
  interval_cases k <;> simp only [l0, l1, l2, l3, l4, l5, l6, l7, l8] <;> norm_num

theorem rm_tan (k : Nat) : 1 / 100000000 ≤ |Real.tan (rmSign k * (Real.pi / 4) / 2)| := by
  have h : |Real.tan (rmSign k * (Real.pi / 4) / 2)| = qb := by
    unfold rmSign
    split_ifs
    · rw [show (-1 : ℝ) * (Real.pi / 4) / 2 = -(Real.pi / 4 / 2) by ring, Real.tan_neg, abs_neg]; exact abs_of_pos qb_pos
    · rw [one_mul]; exact abs_of_pos qb_pos
  rw [h]
  linarith [qb_bounds.1]

theorem rm_clear (d : ℝ) (hd : d = 10 ∨ d = -10) (k : Nat) : ClearTurn room d (1 / 100000) k := by
  obtain ⟨p0, p1, p2, p3, p4, p5, p6, p7, p8, p9⟩ := rm_pos
  apply clearTurn_congr (m := k % 8) (p := room) (Nat.mod_mod _ _)
  refine cl_eight (P := fun k => ClearTurn room d (1 / 100000) k) (fun k hk => ⟨?_, ?_, ?_⟩) k
  · interval_cases k <;> simp only [Nat.reduceAdd, p0, p1, p2, p3, p4, p5, p6, p7, p8, p9] <;> norm_num [abs_of_pos, abs_of_neg]
  · rw [rm_setback, Nat.mod_eq_of_lt hk]
    have := rm_side_min k
    have := rm_side_min (k + 1)
    unfold rmSign
    rcases hd with rfl | rfl <;> split_ifs
    · left; norm_num
    · right; left; exact ⟨by norm_num, by linarith, by linarith⟩
    · right; left; exact ⟨by norm_num, by linarith, by linarith⟩
    · left; norm_num
  · intro h
    rw [rm_half k hk]
    exact rm_tan k

theorem rm_mitred_in (k : Nat) : Mitred room 10 k ↔ ¬ (k % 8 = 3 ∨ k % 8 = 4) := by
  unfold Mitred
  rw [rm_setback]
  have := rm_side_min k
  have := rm_side_min (k + 1)
  unfold rmSign
  split_ifs with h
  · simp only [h, not_true_eq_false, iff_false]; norm_num
  · simp only [h, not_false_eq_true, iff_true]; exact ⟨by norm_num, by linarith, by linarith⟩

theorem rm_mitred_out (k : Nat) : Mitred room (-10) k ↔ k % 8 = 3 ∨ k % 8 = 4 := by
  unfold Mitred
  rw [rm_setback]
  have := rm_side_min k
  have := rm_side_min (k + 1)
  unfold rmSign
  split_ifs with h
  · simp only [h, iff_true]; exact ⟨by norm_num, by linarith, by linarith⟩
  · simp only [h, iff_false]; norm_num

theorem rm_forward (d : ℝ) (hd : d = 10 ∨ d = -10) (k : Nat) : sideStart room d k < sideEnd room d k := by
  have h := rm_side_min k
  have h2 : 10 / sideLen room k ≤ 10 / 40 := by gcongr
  have hs : sideStart room d k ≤ 10 / 40 := by
    unfold sideStart
    split_ifs with hm
    · refine le_trans ?_ h2
      gcongr
      rw [rm_setback]; unfold rmSign
      rcases hd with rfl | rfl <;> split_ifs <;> norm_num
    · norm_num
  have he : 1 - 10 / 40 ≤ sideEnd room d k := by
    unfold sideEnd
    split_ifs with hm
    · have : setbackAt room d k / sideLen room k ≤ 10 / sideLen room k := by
        gcongr
        rw [rm_setback]; unfold rmSign
        rcases hd with rfl | rfl <;> split_ifs <;> norm_num
      linarith
    · norm_num
  linarith

theorem rm_start_in : sideStart room 10 0 = 10 / 200 ∧ sideStart room 10 1 = 10 / 100 ∧ sideStart room 10 2 = 10 / 80 ∧ sideStart room 10 3 = 10 / 95 ∧ sideStart room 10 4 = 0 ∧ sideStart room 10 5 = 0 ∧ sideStart room 10 6 = 10 / 80 ∧ sideStart room 10 7 = 10 / 100 := by
  obtain ⟨l0, l1, l2, l3, l4, l5, l6, l7, l8⟩ := rm_sides
  unfold sideStart
  simp only [rm_mitred_in, rm_setback, rm_len, Nat.reduceAdd, Nat.reduceSub, Nat.reduceMod, l0, l1, l2, l3, l4, l5, l6, l7, l8]
  norm_num [rmSign]

theorem rm_parts_in : loopParts room 10 = [.side 0, .side 1, .side 2, .side 3, .corner 3, .side 4, .corner 4, .side 5, .side 6, .side 7] := by
  unfold loopParts
  simp only [rm_mitred_in, rm_len, List.range_succ, List.range_zero, List.flatMap_append, List.flatMap_cons, List.flatMap_nil, List.nil_append, Nat.reduceMod]
  norm_num

theorem rm_raw_in : rawLoop room 10 = rmR := by
  obtain ⟨p0, p1, p2, p3, p4, p5, p6, p7, p8, p9⟩ := rm_pos
  obtain ⟨l0, l1, l2, l3, l4, l5, l6, l7, l8⟩ := rm_sides
  obtain ⟨s0, s1, s2, s3, s4, s5, s6, s7⟩ := rm_start_in
  have hh := rm_half
  have hqb : Real.tan (Real.pi / 4 / 2) = qb := rfl
  have hqb' : Real.tan (-(Real.pi / 4) / 2) = -qb := by rw [neg_div, Real.tan_neg]; rfl
  unfold sideLen at l0 l1 l2 l3 l4 l5 l6 l7 l8
  simp only [Nat.reduceAdd, p0, p1, p2, p3, p4, p5, p6, p7, p8, p9] at l0 l1 l2 l3 l4 l5 l6 l7 l8
  unfold rawLoop
  rw [rm_parts_in]
  simp only [List.map_cons, List.map_nil, RawPart.start, rm_setback, Nat.reduceMod, s0, s1, s2, s3, s4, s5, s6, s7, hh 0 (by norm_num), hh 1 (by norm_num), hh 2 (by norm_num), hh 3 (by norm_num), hh 4 (by norm_num), hh 5 (by norm_num), hh 6 (by norm_num), hh 7 (by norm_num)]
  have g3 : rmSign 3 = -1 := by norm_num [rmSign]
  have g4 : rmSign 4 = -1 := by norm_num [rmSign]
  have g0 : rmSign 0 = 1 := by norm_num [rmSign]
  have g1 : rmSign 1 = 1 := by norm_num [rmSign]
  have g2 : rmSign 2 = 1 := by norm_num [rmSign]
  have g5 : rmSign 5 = 1 := by norm_num [rmSign]
  have g6 : rmSign 6 = 1 := by norm_num [rmSign]
  have g7 : rmSign 7 = 1 := by norm_num [rmSign]
  simp only [g0, g1, g2, g3, g4, g5, g6, g7, one_mul, neg_one_mul, hqb, hqb', mul_one, mul_neg, neg_neg,
    sidePt, moved, Vertex.ofV2, Nat.reduceAdd, p0, p1, p2, p3, p4, p5, p6, p7, p8, p9, l0, l1, l2, l3, l4, l5, l6, l7, l8]
  norm_num [rmR]

theorem rm_start_out : sideStart room (-10) 0 = 0 ∧ sideStart room (-10) 1 = 0 ∧ sideStart room (-10) 2 = 0 ∧ sideStart room (-10) 3 = 0 ∧ sideStart room (-10) 4 = 10 / 40 ∧ sideStart room (-10) 5 = 10 / 95 ∧ sideStart room (-10) 6 = 0 ∧ sideStart room (-10) 7 = 0 := by
  obtain ⟨l0, l1, l2, l3, l4, l5, l6, l7, l8⟩ := rm_sides
  unfold sideStart
  simp only [rm_mitred_out, rm_setback, rm_len, Nat.reduceAdd, Nat.reduceSub, Nat.reduceMod, l0, l1, l2, l3, l4, l5, l6, l7, l8]
  norm_num [rmSign]

theorem rm_parts_out : loopParts room (-10) = [.side 0, .corner 0, .side 1, .corner 1, .side 2, .corner 2, .side 3, .side 4, .side 5, .corner 5, .side 6, .corner 6, .side 7, .corner 7] := by
  unfold loopParts
  simp only [rm_mitred_out, rm_len, List.range_succ, List.range_zero, List.flatMap_append, List.flatMap_cons, List.flatMap_nil, List.nil_append, Nat.reduceMod]
  norm_num

theorem rm_raw_out : rawLoop room (-10) = rmD := by
  obtain ⟨p0, p1, p2, p3, p4, p5, p6, p7, p8, p9⟩ := rm_pos
  obtain ⟨l0, l1, l2, l3, l4, l5, l6, l7, l8⟩ := rm_sides
  obtain ⟨s0, s1, s2, s3, s4, s5, s6, s7⟩ := rm_start_out
  have hh := rm_half
  have hqb : Real.tan (Real.pi / 4 / 2) = qb := rfl
  have hqb' : Real.tan (-(Real.pi / 4) / 2) = -qb := by rw [neg_div, Real.tan_neg]; rfl
  unfold sideLen at l0 l1 l2 l3 l4 l5 l6 l7 l8
  simp only [Nat.reduceAdd, p0, p1, p2, p3, p4, p5, p6, p7, p8, p9] at l0 l1 l2 l3 l4 l5 l6 l7 l8
  unfold rawLoop
  rw [rm_parts_out]
  simp only [List.map_cons, List.map_nil, RawPart.start, rm_setback, Nat.reduceMod, s0, s1, s2, s3, s4, s5, s6, s7, hh 0 (by norm_num), hh 1 (by norm_num), hh 2 (by norm_num), hh 3 (by norm_num), hh 4 (by norm_num), hh 5 (by norm_num), hh 6 (by norm_num), hh 7 (by norm_num)]
  have g3 : rmSign 3 = -1 := by norm_num [rmSign]
  have g4 : rmSign 4 = -1 := by norm_num [rmSign]
  have g0 : rmSign 0 = 1 := by norm_num [rmSign]
  have g1 : rmSign 1 = 1 := by norm_num [rmSign]
  have g2 : rmSign 2 = 1 := by norm_num [rmSign]
  have g5 : rmSign 5 = 1 := by norm_num [rmSign]
  have g6 : rmSign 6 = 1 := by norm_num [rmSign]
  have g7 : rmSign 7 = 1 := by norm_num [rmSign]
  simp only [g0, g1, g2, g3, g4, g5, g6, g7, one_mul, neg_one_mul, hqb, hqb', mul_one, mul_neg, neg_neg,
    sidePt, moved, Vertex.ofV2, Nat.reduceAdd, p0, p1, p2, p3, p4, p5, p6, p7, p8, p9, l0, l1, l2, l3, l4, l5, l6, l7, l8]
  norm_num [rmD]

theorem nqb_arc (x y : ℝ) : ¬ IsLine (⟨x, y, -qb⟩ : Vertex ℝ) := by
  have h := qb_arc x y
  unfold IsLine at h ⊢
  simpa using h

theorem rm_full : FullLoop room (1 / 100000) := by
  obtain ⟨v0, v1, v2, v3, v4, v5, v6, v7, v8, v9⟩ := rm_vtx
  refine ⟨rfl, show 2 ≤ 8 by norm_num, fun i => ?_⟩
  rw [← vtx_mod, ← vtx_mod_succ]
  have hk : i % room.verts.length < 8 := Nat.mod_lt _ (by norm_num [room])
  generalize i % room.verts.length = k at hk
  interval_cases k <;> simp only [Nat.reduceAdd, v0, v1, v2, v3, v4, v5, v6, v7, v8, v9] <;>
    refine ⟨?_, FarApart.fuzzy (by unfold FarApart Vertex.pos; norm_num [abs_of_pos, abs_of_neg])⟩ <;> first
      | exact Or.inl (box4_line _ _)
      | (right; refine ⟨qb_arc _ _, ?_⟩; rw [abs_of_pos qb_pos]; linarith [qb_bounds.2])
      | (right; refine ⟨nqb_arc _ _, ?_⟩; rw [abs_neg, abs_of_pos qb_pos]; linarith [qb_bounds.2])

theorem rmR_full : FullLoop rmR (1 / 100000) := by
  obtain ⟨v0, v1, v2, v3, v4, v5, v6, v7, v8, v9, v10, v11⟩ := rmR_vtx
  refine ⟨rfl, show 2 ≤ 10 by norm_num, fun i => ?_⟩
  rw [← vtx_mod, ← vtx_mod_succ]
  have hk : i % rmR.verts.length < 10 := Nat.mod_lt _ (by norm_num [rmR])
  generalize i % rmR.verts.length = k at hk
  interval_cases k <;> simp only [Nat.reduceAdd, v0, v1, v2, v3, v4, v5, v6, v7, v8, v9, v10, v11] <;>
    refine ⟨?_, FarApart.fuzzy (by unfold FarApart Vertex.pos; norm_num [abs_of_pos, abs_of_neg])⟩ <;> first
      | exact Or.inl (box4_line _ _)
      | (right; refine ⟨qb_arc _ _, ?_⟩; rw [abs_of_pos qb_pos]; linarith [qb_bounds.2])
      | (right; refine ⟨nqb_arc _ _, ?_⟩; rw [abs_neg, abs_of_pos qb_pos]; linarith [qb_bounds.2])

theorem rmD_full : FullLoop rmD (1 / 100000) := by
  obtain ⟨v0, v1, v2, v3, v4, v5, v6, v7, v8, v9, v10, v11, v12, v13, v14, v15⟩ := rmD_vtx
  refine ⟨rfl, show 2 ≤ 14 by norm_num, fun i => ?_⟩
  rw [← vtx_mod, ← vtx_mod_succ]
  have hk : i % rmD.verts.length < 14 := Nat.mod_lt _ (by norm_num [rmD])
  generalize i % rmD.verts.length = k at hk
  interval_cases k <;> simp only [Nat.reduceAdd, v0, v1, v2, v3, v4, v5, v6, v7, v8, v9, v10, v11, v12, v13, v14, v15] <;>
    refine ⟨?_, FarApart.fuzzy (by unfold FarApart Vertex.pos; norm_num [abs_of_pos, abs_of_neg])⟩ <;> first
      | exact Or.inl (box4_line _ _)
      | (right; refine ⟨qb_arc _ _, ?_⟩; rw [abs_of_pos qb_pos]; linarith [qb_bounds.2])
      | (right; refine ⟨nqb_arc _ _, ?_⟩; rw [abs_neg, abs_of_pos qb_pos]; linarith [qb_bounds.2])

theorem rm_first (d : ℝ) (v : Vertex ℝ) (h : FarApart (1 / 100000) ⟨0, d⟩ v.pos) : (sidePt room d 0 0).fuzzyEqEps v.pos (1 / 100000) = false := by
  have l0 := rm_sides.1
  unfold sideLen at l0
  apply FarApart.fuzzy
  convert h using 1
  unfold sidePt moved
  rw [l0, rm_pos.1, rm_pos.2.1]
  norm_num

theorem rm_first_in : (sidePt room 10 0 0).fuzzyEqEps (vtx rmR 1).pos (1 / 100000) = false := by
  apply rm_first
  rw [rmR_vtx.2.1]
  unfold FarApart Vertex.pos; norm_num [abs_of_pos, abs_of_neg]

theorem rm_first_out : (sidePt room (-10) 0 0).fuzzyEqEps (vtx rmD 1).pos (1 / 100000) = false := by
  apply rm_first
  rw [rmD_vtx.2.1]
  unfold FarApart Vertex.pos; norm_num [abs_of_pos, abs_of_neg]

theorem rm_curve (t : ℝ) : curveAt room 0 t = ⟨0 + 200 * t, 0⟩ ∧ curveAt room 1 t = ⟨200, 0 + 100 * t⟩ ∧ curveAt room 2 t = ⟨200 - 80 * t, 100⟩ ∧ curveAt room 3 t = ⟨120, 100 - 95 * t⟩ ∧ curveAt room 4 t = ⟨120 - 40 * t, 5⟩ ∧ curveAt room 5 t = ⟨80, 5 + 95 * t⟩ ∧ curveAt room 6 t = ⟨80 - 80 * t, 100⟩ ∧ curveAt room 7 t = ⟨0, 100 - 100 * t⟩ := by
  obtain ⟨v0, v1, v2, v3, v4, v5, v6, v7, v8, v9⟩ := rm_vtx
  have hn : 0 < room.verts.length := by decide
  simp only [curveAt_vtx hn, Nat.reduceAdd, v0, v1, v2, v3, v4, v5, v6, v7, v8, v9, segCurve_line (box4_line _ _), linePoint, Vertex.pos, V2.mk.injEq]
  refine ⟨⟨?_, ?_⟩, ⟨?_, ?_⟩, ⟨?_, ?_⟩, ⟨?_, ?_⟩, ⟨?_, ?_⟩, ⟨?_, ?_⟩, ⟨?_, ?_⟩, ⟨?_, ?_⟩⟩ <;> ring

theorem rmR_curve (t : ℝ) : curveAt rmR 0 t = ⟨10 + 180 * t, 10⟩ ∧ curveAt rmR 1 t = ⟨190, 10 + 80 * t⟩ ∧ curveAt rmR 2 t = ⟨190 - 60 * t, 90⟩ ∧ curveAt rmR 3 t = ⟨130, 90 - 85 * t⟩ ∧ curveAt rmR 5 t = ⟨120 - 40 * t, -5⟩ ∧ curveAt rmR 7 t = ⟨70, 5 + 85 * t⟩ ∧ curveAt rmR 8 t = ⟨70 - 60 * t, 90⟩ ∧ curveAt rmR 9 t = ⟨10, 90 - 80 * t⟩ := by
  obtain ⟨v0, v1, v2, v3, v4, v5, v6, v7, v8, v9, v10, v11⟩ := rmR_vtx
  have hn : 0 < rmR.verts.length := by rw [rmR_len]; norm_num
  simp only [curveAt_vtx hn, Nat.reduceAdd, v0, v1, v2, v3, v4, v5, v6, v7, v8, v9, v10, v11, segCurve_line (box4_line _ _), linePoint, Vertex.pos, V2.mk.injEq]
  refine ⟨⟨?_, ?_⟩, ⟨?_, ?_⟩, ⟨?_, ?_⟩, ⟨?_, ?_⟩, ⟨?_, ?_⟩, ⟨?_, ?_⟩, ⟨?_, ?_⟩, ⟨?_, ?_⟩⟩ <;> ring

theorem rmR_arcs (t : ℝ) : curveAt rmR 4 t = ⟨120 + 10 * qc t, 5 - 10 * qs t⟩ ∧ curveAt rmR 6 t = ⟨80 - 10 * qs t, 5 - 10 * qc t⟩ := by
  obtain ⟨p0, p1, p2, p3, p4, p5, p6, p7, p8, p9⟩ := rm_pos
  obtain ⟨l0, l1, l2, l3, l4, l5, l6, l7, l8⟩ := rm_sides
  unfold sideLen at l0 l1 l2 l3 l4 l5 l6 l7 l8
  simp only [Nat.reduceAdd, p0, p1, p2, p3, p4, p5, p6, p7, p8, p9] at l0 l1 l2 l3 l4 l5 l6 l7 l8
  have hcv : ∀ (j : Nat) (q : RawPart), (loopParts room 10)[j]? = some q → curveAt (rawLoop room 10) j t = q.curve room 10 t := fun j q h =>
    rawLoop_curve rm_straight (by norm_num) (by norm_num : (0 : ℝ) < 1 / 100000) (rm_clear 10 (Or.inl rfl)) h t
  rw [rm_parts_in, rm_raw_in] at hcv
  have e1 : Real.sin (t * (2 * (-1 * (Real.pi / 4)))) = -qs t := by
    rw [show t * (2 * (-1 * (Real.pi / 4))) = -(t * (2 * (Real.pi / 4))) by ring, Real.sin_neg]; rfl
  have e2 : Real.cos (t * (2 * (-1 * (Real.pi / 4)))) = qc t := by
    rw [show t * (2 * (-1 * (Real.pi / 4))) = -(t * (2 * (Real.pi / 4))) by ring, Real.cos_neg]; rfl
  have g3 : rmSign 3 = -1 := by norm_num [rmSign]
  have g4 : rmSign 4 = -1 := by norm_num [rmSign]
  rw [hcv 4 _ rfl, hcv 6 _ rfl]
  have hneg : (10 : ℝ) * -1 < 0 := by norm_num
  have h3 := rm_half 3 (by norm_num)
  have h4 := rm_half 4 (by norm_num)
  simp only [Nat.reduceAdd, p0, p1, p2, p3, p4, p5, p6, p7, p8, p9, g3, g4] at h3 h4
  simp only [RawPart.curve, moved, cornerArc, rotV, rm_setback, Nat.reduceMod, g3, g4, if_pos hneg, Nat.reduceAdd, p0, p1, p2, p3, p4, p5, p6, p7, p8, p9, l0, l1, l2, l3, l4, l5, l6, l7, l8, h3, h4, e1, e2, V2.mk.injEq]
  refine ⟨⟨?_, ?_⟩, ?_, ?_⟩ <;> ring

theorem room_simple : SimpleLoop room := by
  intro i j hi hj t u t0 t1 u0 u1 h
  rw [rm_len] at hi hj
  obtain ⟨a0, a1, a2, a3, a4, a5, a6, a7⟩ := rm_curve t
  obtain ⟨b0, b1, b2, b3, b4, b5, b6, b7⟩ := rm_curve u
  interval_cases i <;> interval_cases j <;> simp only [a0, a1, a2, a3, a4, a5, a6, a7, b0, b1, b2, b3, b4, b5, b6, b7, V2.mk.injEq] at h <;> obtain ⟨h1, h2⟩ := h <;> first
    | (exfalso; linarith)
    | (refine ⟨rfl, ?_⟩; linarith)

end Cavc
