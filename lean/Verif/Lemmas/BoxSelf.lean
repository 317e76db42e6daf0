import Verif.Lemmas.StraightCorner
import Verif.Lemmas.CoilOffset
import Verif.Props.OffsetCurve
import Verif.Lemmas.OffsetSteady

/-! # Example: the coil and a square with the option for polylines that cross themselves -/

set_option linter.unusedVariables false

namespace Cavc
open RealScalar Pline

/-! ## The corners of the coil -/

theorem cl_forward_in (k : Nat) : sideStart coil 2 k < sideEnd coil 2 k := by
  unfold sideStart sideEnd
  rw [if_pos (cl_mitred _), if_pos (cl_mitred _), cl_setback, cl_setback]
  have h := cl_side_min k
  have h2 : 2 / sideLen coil k ≤ 2 / 20 := by gcongr
  linarith

theorem cl_forward_out (k : Nat) : sideStart coil (-2) k < sideEnd coil (-2) k := by
  unfold sideStart sideEnd
  rw [if_neg (cl_not_mitred _), if_neg (cl_not_mitred _)]
  norm_num

theorem cl_first (d : ℝ) (v : Vertex ℝ) (h : FarApart (1 / 100000) ⟨0, d⟩ v.pos) : (sidePt coil d 0 0).fuzzyEqEps v.pos (1 / 100000) = false := by
  have l0 := cl_sides.1
  unfold sideLen at l0
  apply FarApart.fuzzy
  convert h using 1
  unfold sidePt moved
  rw [l0, cl_pos.1, cl_pos.2.1]
  norm_num

theorem cl_clearOffset_in : ClearOffset coil 2 (straightCorner coil 2) (1 / 100000) := by
  refine straight_clear cl_straight cl_full (by norm_num) cl_clear_in cl_forward_in (by rw [cl_raw_in]; exact clR_full) ?_
  apply cl_first
  rw [cl_raw_in, clR_vtx.2.1]
  unfold FarApart Vertex.pos; norm_num [abs_of_pos, abs_of_neg]

theorem cl_clearOffset_out : ClearOffset coil (-2) (straightCorner coil (-2)) (1 / 100000) := by
  refine straight_clear cl_straight cl_full (by norm_num) cl_clear_out cl_forward_out (by rw [cl_raw_out]; exact clD_full) ?_
  apply cl_first
  rw [cl_raw_out, clD_vtx.2.1]
  unfold FarApart Vertex.pos; norm_num [abs_of_pos, abs_of_neg]

/-! ## The square -/

/-- the raw offset of the square to the inside -/
def box4In : Pline ℝ := ⟨[⟨1, 1, 0⟩, ⟨3, 1, 0⟩, ⟨3, 3, 0⟩, ⟨1, 3, 0⟩], true⟩

theorem b4_vtx : vtx box4In 0 = ⟨1, 1, 0⟩ ∧ vtx box4In 1 = ⟨3, 1, 0⟩ ∧ vtx box4In 2 = ⟨3, 3, 0⟩ ∧ vtx box4In 3 = ⟨1, 3, 0⟩ ∧ vtx box4In 4 = ⟨1, 1, 0⟩ := ⟨rfl, rfl, rfl, rfl, rfl⟩

theorem b4_side_len (k : Nat) : sideLen box4 k = 4 := by
  obtain ⟨l0, l1, l2, l3, l4⟩ := box4_len
  rw [← sideLen_congr (p := box4) (m := k % 4) (k := k) (Nat.mod_mod _ _)]
  exact lt_four (P := fun k => sideLen box4 k = 4) l0 l1 l2 l3 k

theorem b4_mitred (k : Nat) : Mitred box4 1 k := by
  unfold Mitred
  rw [box4_setback, b4_side_len, b4_side_len]
  norm_num

theorem b4_clear_in (k : Nat) : ClearTurn box4 1 (1 / 100000) k := by
  refine ⟨(box4_clear k).cross, Or.inr (Or.inl ?_), ?_⟩
  · rw [box4_setback, b4_side_len, b4_side_len]; norm_num
  · rw [box4_setback]; intro h; norm_num at h

theorem b4_raw : rawLoop box4 1 = box4In := by
  obtain ⟨p0, p1, p2, p3, p4, p5⟩ := box4_pos
  obtain ⟨l0, l1, l2, l3, l4⟩ := box4_len
  have hparts : loopParts box4 1 = [.side 0, .side 1, .side 2, .side 3] := by
    unfold loopParts
    simp only [b4_mitred, if_true]
    rfl
  have hs : ∀ k, sideStart box4 1 k = 1 / 4 := by
    intro k
    unfold sideStart
    rw [if_pos (b4_mitred _), box4_setback, b4_side_len]
  unfold sideLen at l0 l1 l2 l3 l4
  simp only [Nat.reduceAdd, p0, p1, p2, p3, p4] at l0 l1 l2 l3 l4
  unfold rawLoop
  rw [hparts]
  simp only [List.map_cons, List.map_nil, RawPart.start, sidePt, hs, moved, Vertex.ofV2, Nat.reduceAdd, p0, p1, p2, p3, p4, l0, l1, l2, l3]
  norm_num [box4In]

theorem b4_full : FullLoop box4In (1 / 100000) := by
  obtain ⟨v0, v1, v2, v3, v4⟩ := b4_vtx
  refine ⟨rfl, by decide, fun i => ?_⟩
  rw [← vtx_mod, ← vtx_mod_succ]
  refine lt_four (P := fun k => FullSeg (vtx box4In k) (vtx box4In (k + 1)) (1 / 100000)) ?_ ?_ ?_ ?_ i <;> simp only [Nat.reduceAdd, v0, v1, v2, v3, v4] <;>
    exact ⟨Or.inl (box4_line _ _), FarApart.fuzzy (by unfold FarApart Vertex.pos; norm_num [abs_of_pos, abs_of_neg])⟩

theorem b4_in : createRawOffsetPolyline box4 1 (1 / 100000) = .ok box4In := by
  rw [← b4_raw]
  refine C42_raw_straight box4_straight (by norm_num) (by norm_num) b4_clear_in (by rw [b4_raw]; exact b4_full) ?_
  have l0 := box4_len.1
  unfold sideLen at l0
  rw [b4_raw, b4_vtx.2.1]
  apply FarApart.fuzzy
  unfold FarApart sidePt moved
  rw [l0, box4_pos.1, box4_pos.2.1]
  norm_num [Vertex.pos, abs_of_pos, abs_of_neg]

theorem b4_square : FullLoop box4 (1 / 100000) := by
  obtain ⟨v0, v1, v2, v3, v4, v5⟩ := box4_vtx
  refine ⟨rfl, by decide, fun i => ?_⟩
  rw [← vtx_mod, ← vtx_mod_succ]
  refine lt_four (P := fun k => FullSeg (vtx box4 k) (vtx box4 (k + 1)) (1 / 100000)) ?_ ?_ ?_ ?_ i <;> simp only [Nat.reduceAdd, v0, v1, v2, v3, v4] <;>
    exact ⟨Or.inl (box4_line _ _), FarApart.fuzzy (by unfold FarApart Vertex.pos; norm_num [abs_of_pos, abs_of_neg])⟩

/-- bounds of the boxes of the inner square -/
noncomputable def b4Table : Nat → AABB ℝ
  | 0 => ⟨1, 1, 3, 1⟩
  | 1 => ⟨3, 1, 3, 3⟩
  | 2 => ⟨1, 3, 3, 3⟩
  | _ => ⟨1, 1, 1, 3⟩

theorem b4_boxes (k : Nat) (hk : k < 4) : BoxIn (segBox (vtx box4In k, vtx box4In (k + 1))) (b4Table k) := by
  obtain ⟨v0, v1, v2, v3, v4⟩ := b4_vtx
  interval_cases k <;> simp only [Nat.reduceAdd, v0, v1, v2, v3, v4] <;> rw [line_box] <;> norm_num [BoxIn, b4Table]

theorem b4_apart (i k : Nat) (hi : i < 8) (hk : k < 4) : (boxTable i).maxX + 1 / 10 < (b4Table k).minX ∨ (boxTable i).maxY + 1 / 10 < (b4Table k).minY ∨
    (b4Table k).maxX + 1 / 10 < (boxTable i).minX ∨ (b4Table k).maxY + 1 / 10 < (boxTable i).minY := by
  interval_cases i <;> interval_cases k <;> norm_num [boxTable, b4Table]

theorem b4_cuts : SelfCuts (rawLoop box4 (-1)) box4In (1 / 100000) 1 [] := by
  refine ⟨box4_crossing.three, by simp, fun i t j u hij hj t0 t1 u0 u1 h => ?_, fun i t hi t0 t1 h => ?_, by simp, by simp, by simp, by simp, by simp, by simp⟩
  · rcases box4_crossing.all i t j u hij hj t0 t1 u0 u1 h with h | h | h
    · exact Or.inl h
    · exact Or.inr (Or.inl h)
    · cases h
  · exfalso
    rw [box4_len8] at hi
    obtain ⟨s, hs, hX⟩ := h
    obtain ⟨k, hk, rfl⟩ := loop_seg rfl (by decide) hs
    have a := C33_fast_box _ _ (loop_shape b4_full k) _ hX
    have b := C33_fast_box (vtx (rawLoop box4 (-1)) i) (vtx (rawLoop box4 (-1)) (i + 1)) (loop_shape box4_raw_full i) (curveAt (rawLoop box4 (-1)) i t)
      ⟨t, t0, t1, curveAt_vtx (by rw [box4_len8]; norm_num) _ _⟩
    obtain ⟨a1, a2, a3, a4⟩ := a
    obtain ⟨b1, b2, b3, b4⟩ := b
    obtain ⟨c1, c2, c3, c4⟩ := box4_boxes i hi
    obtain ⟨d1, d2, d3, d4⟩ := b4_boxes k hk
    unfold segBox at c1 c2 c3 c4 d1 d2 d3 d4
    rcases b4_apart i k hi hk with h | h | h | h <;> linarith

theorem b4_pairs : FindsPairs (rawLoop box4 (-1)) box4In (1 / 100000) := by
  intro s1 h1 s2 h2 hbox
  obtain ⟨i, hi, rfl⟩ := loop_seg rfl (by rw [box4_len8]; norm_num) h1
  obtain ⟨k, hk, rfl⟩ := loop_seg rfl (by decide) h2
  rw [box4_len8] at hi
  exfalso
  unfold BoxesMeet at hbox
  first
    | (have key := boxIn_apart (e := 1 / 100000) (b4_boxes k hk) (box4_boxes i hi) (by
        rcases b4_apart i k hi hk with h | h | h | h
        · right; right; left; linarith
        · right; right; right; linarith
        · left; linarith
        · right; left; linarith)
       rw [hbox] at key; cases key)
    | (have key := boxIn_apart (e := 1 / 100000) (box4_boxes i hi) (b4_boxes k hk) (by
        rcases b4_apart i k hi hk with h | h | h | h
        · left; linarith
        · right; left; linarith
        · right; right; left; linarith
        · right; right; right; linarith)
       rw [hbox] at key; cases key)

theorem b4_lines : ∀ s ∈ box4.segs, IsLine s.1 := by
  intro s hs
  obtain ⟨k, hk, rfl⟩ := loop_seg rfl (by decide) hs
  exact box4_straight.line k

theorem b4_read (X : V2 ℝ) : Readable box4 (1 / 100000) X := fun s hs hl => absurd (b4_lines s hs) hl

theorem b4_crossings : ChangesAtCrossings box4 (rawLoop box4 (-1)) |-1| [] :=
  ⟨fun i t hi t0 t1 hcut hk => keep_local box4_straight (by norm_num) (by norm_num) box4_clear box4_crossing box4_one_sided hi t0 t1 hk hcut,
    fun c hc hk => branch box4_straight (by norm_num) (by norm_num) box4_clear box4_crossing box4_one_sided hc hk⟩

theorem b4_changes : SelfChanges box4 (rawLoop box4 (-1)) |-1| [] := by
  refine ⟨fun i t hi t0 t1 hcut hk => ?_, by simp⟩
  exact b4_crossings.steady i t hi t0 t1 (by simp [bothCuts]) hk

theorem b4_tests : SelfTests box4 (rawLoop box4 (-1)) (-1) (1 / 100000) (1 / 10000) [] := by
  refine ⟨fun _ => box4_tests.whole rfl, by simp, fun i lo hi x y hst => ?_, fun i lo hi h => ⟨b4_read _, b4_read _, b4_read _⟩⟩
  exact box4_tests.clear i lo hi x y ⟨hst.range, hst.zero, hst.lt, hst.one, Or.inl (by simpa using hst.start), Or.inl (by simpa using hst.stop), by simp [bothCuts]⟩

end Cavc
