import Verif.Lemmas.OpenRaw
import Verif.Lemmas.RoundSquare

/-! # Example: an open polyline like a hook, and its raw offsets to both sides -/

set_option linter.unusedVariables false

namespace Cavc
open RealScalar Pline

/-- An open polyline of four straight segments, whose end is near to its first segment. -/
def hook : Pline ℝ := ⟨[⟨0, 0, 0⟩, ⟨100, 0, 0⟩, ⟨100, 100, 0⟩, ⟨40, 100, 0⟩, ⟨40, 40, 0⟩], false⟩

theorem hk_len5 : hook.verts.length = 5 := rfl

theorem hk_vtx : vtx hook 0 = ⟨0, 0, 0⟩ ∧ vtx hook 1 = ⟨100, 0, 0⟩ ∧ vtx hook 2 = ⟨100, 100, 0⟩ ∧ vtx hook 3 = ⟨40, 100, 0⟩ ∧ vtx hook 4 = ⟨40, 40, 0⟩ :=
  ⟨rfl, rfl, rfl, rfl, rfl⟩

theorem hk_pos : cornerPos hook 0 = ⟨0, 0⟩ ∧ cornerPos hook 1 = ⟨100, 0⟩ ∧ cornerPos hook 2 = ⟨100, 100⟩ ∧ cornerPos hook 3 = ⟨40, 100⟩ ∧ cornerPos hook 4 = ⟨40, 40⟩ :=
  ⟨rfl, rfl, rfl, rfl, rfl⟩

theorem hk_line (k : Nat) (hk : k < 5) : IsLine (vtx hook k) := by interval_cases k <;> exact box4_line _ _

theorem hk_sides : sideLen hook 0 = 100 ∧ sideLen hook 1 = 100 ∧ sideLen hook 2 = 60 ∧ sideLen hook 3 = 60 := by
  obtain ⟨p0, p1, p2, p3, p4⟩ := hk_pos
  unfold sideLen
  simp only [Nat.reduceAdd, p0, p1, p2, p3, p4]
  refine ⟨?_, ?_, ?_, ?_⟩ <;> apply edist_lit <;> norm_num

theorem hk_turn (k : Nat) (hk : k < 3) : turnSin (cornerPos hook k) (cornerPos hook (k + 1)) (cornerPos hook (k + 2)) = 1 ∧
    turnCos (cornerPos hook k) (cornerPos hook (k + 1)) (cornerPos hook (k + 2)) = 0 := by
  obtain ⟨p0, p1, p2, p3, p4⟩ := hk_pos
  obtain ⟨l0, l1, l2, l3⟩ := hk_sides
  unfold sideLen at l0 l1 l2 l3
  simp only [Nat.reduceAdd, p0, p1, p2, p3, p4] at l0 l1 l2 l3
  unfold turnSin turnCos
  interval_cases k <;> simp only [Nat.reduceAdd, p0, p1, p2, p3, p4, l0, l1, l2, l3] <;> norm_num

theorem hk_half (k : Nat) (hk : k < 3) : halfTurn (cornerPos hook k) (cornerPos hook (k + 1)) (cornerPos hook (k + 2)) = Real.pi / 4 := by
  obtain ⟨h1, h2⟩ := hk_turn k hk
  unfold halfTurn
  rw [h1, h2]; norm_num [Real.arctan_one]

theorem hk_setback (d : ℝ) (k : Nat) (hk : k < 3) : setbackAt hook d k = d := by
  obtain ⟨h1, h2⟩ := hk_turn k hk
  unfold setbackAt setback
  rw [h1, h2]; norm_num

theorem hk_full : FullPath hook (1 / 100000) := by
  refine ⟨rfl, by decide, fun i hi => ⟨Or.inl (hk_line i (by rw [hk_len5] at hi; omega)), FarApart.fuzzy ?_⟩⟩
  obtain ⟨v0, v1, v2, v3, v4⟩ := hk_vtx
  rw [hk_len5] at hi
  have hi4 : i < 4 := by omega
  interval_cases i <;> simp only [Nat.reduceAdd, v0, v1, v2, v3, v4] <;> unfold FarApart Vertex.pos <;> norm_num [abs_of_pos, abs_of_neg]

/-- the corners of the offset to the inside -/
noncomputable def hkIn (k : Nat) : Corner := .cut (1 - setbackAt hook 25 k / sideLen hook k) (setbackAt hook 25 k / sideLen hook (k + 1))

/-- the corners of the offset to the outside -/
noncomputable def hkOut (k : Nat) : Corner := .link (Real.tan (halfTurn (cornerPos hook k) (cornerPos hook (k + 1)) (cornerPos hook (k + 2)) / 2))

theorem hk_in_mitred (k : Nat) (hk : k < 3) : Mitred hook 25 k := by
  obtain ⟨l0, l1, l2, l3⟩ := hk_sides
  unfold Mitred
  rw [hk_setback 25 k hk]
  interval_cases k <;> simp only [Nat.reduceAdd, l0, l1, l2, l3] <;> norm_num

theorem hk_in_clear (k : Nat) (hk : k < 3) : ClearTurn hook 25 (1 / 100000) k := by
  obtain ⟨p0, p1, p2, p3, p4⟩ := hk_pos
  refine ⟨?_, Or.inr (Or.inl (hk_in_mitred k hk)), ?_⟩
  · interval_cases k <;> simp only [Nat.reduceAdd, p0, p1, p2, p3, p4] <;> norm_num [abs_of_pos, abs_of_neg]
  · intro h
    rw [hk_setback 25 k hk] at h; norm_num at h

theorem hk_out_clear (k : Nat) (hk : k < 3) : ClearTurn hook (-25) (1 / 100000) k := by
  obtain ⟨p0, p1, p2, p3, p4⟩ := hk_pos
  refine ⟨?_, Or.inl ?_, ?_⟩
  · interval_cases k <;> simp only [Nat.reduceAdd, p0, p1, p2, p3, p4] <;> norm_num [abs_of_pos, abs_of_neg]
  · rw [hk_setback (-25) k hk]; norm_num
  · intro h
    rw [hk_half k hk]
    change _ ≤ |qb|
    rw [abs_of_pos qb_pos]
    linarith [qb_bounds.1]

theorem hk_par (d : ℝ) (k : Nat) (hk : k < 4) : parAt hook d k = (Vertex.ofV2 (moved (cornerPos hook k) (cornerPos hook (k + 1)) d 0) 0, Vertex.ofV2 (moved (cornerPos hook k) (cornerPos hook (k + 1)) d 1) 0) :=
  par_line (hk_line k (by omega))

theorem hk_parts (d : ℝ) : parAt hook d 0 = (⟨0, d, 0⟩, ⟨100, d, 0⟩) ∧ parAt hook d 1 = (⟨100 - d, 0, 0⟩, ⟨100 - d, 100, 0⟩) ∧
    parAt hook d 2 = (⟨100, 100 - d, 0⟩, ⟨40, 100 - d, 0⟩) ∧ parAt hook d 3 = (⟨40 + d, 100, 0⟩, ⟨40 + d, 40, 0⟩) := by
  obtain ⟨p0, p1, p2, p3, p4⟩ := hk_pos
  obtain ⟨l0, l1, l2, l3⟩ := hk_sides
  unfold sideLen at l0 l1 l2 l3
  simp only [Nat.reduceAdd, p0, p1, p2, p3, p4] at l0 l1 l2 l3
  rw [hk_par d 0 (by norm_num), hk_par d 1 (by norm_num), hk_par d 2 (by norm_num), hk_par d 3 (by norm_num)]
  simp only [Nat.reduceAdd, p0, p1, p2, p3, p4, moved, Vertex.ofV2, l0, l1, l2, l3, Prod.mk.injEq, Vertex.mk.injEq]
  norm_num [sub_eq_add_neg]

theorem hk_curves (d t : ℝ) : segCurve (parAt hook d 0).1 (parAt hook d 0).2 t = ⟨100 * t, d⟩ ∧ segCurve (parAt hook d 1).1 (parAt hook d 1).2 t = ⟨100 - d, 100 * t⟩ ∧
    segCurve (parAt hook d 2).1 (parAt hook d 2).2 t = ⟨100 - 60 * t, 100 - d⟩ ∧ segCurve (parAt hook d 3).1 (parAt hook d 3).2 t = ⟨40 + d, 100 - 60 * t⟩ := by
  obtain ⟨q0, q1, q2, q3⟩ := hk_parts d
  rw [q0, q1, q2, q3]
  simp only [segCurve_line (box4_line _ _), linePoint, Vertex.pos, V2.mk.injEq]
  refine ⟨⟨?_, ?_⟩, ⟨?_, ?_⟩, ⟨?_, ?_⟩, ?_, ?_⟩ <;> ring

theorem hk_bulge (d : ℝ) (k : Nat) (hk : k < 4) : (parAt hook d k).1.bulge = 0 := by rw [hk_par d k hk]; rfl

theorem hk_pv (d lo hi : ℝ) (k : Nat) (hk : k < 4) : partVertex (parAt hook d k) lo hi = Vertex.ofV2 (segCurve (parAt hook d k).1 (parAt hook d k).2 lo) 0 := by
  unfold partVertex
  rw [hk_bulge d k hk]; simp

/-- the raw offset to the inside -/
def hkR : Pline ℝ := ⟨[⟨0, 25, 0⟩, ⟨75, 25, 0⟩, ⟨75, 75, 0⟩, ⟨65, 75, 0⟩, ⟨65, 40, 0⟩], false⟩

/-- the raw offset to the outside -/
noncomputable def hkD : Pline ℝ :=
  ⟨[⟨0, -25, 0⟩, ⟨100, -25, qb⟩, ⟨125, 0, 0⟩, ⟨125, 100, qb⟩, ⟨100, 125, 0⟩, ⟨40, 125, qb⟩, ⟨15, 100, 0⟩, ⟨15, 40, 0⟩], false⟩

theorem hkR_vtx : vtx hkR 0 = ⟨0, 25, 0⟩ ∧ vtx hkR 1 = ⟨75, 25, 0⟩ ∧ vtx hkR 2 = ⟨75, 75, 0⟩ ∧ vtx hkR 3 = ⟨65, 75, 0⟩ ∧ vtx hkR 4 = ⟨65, 40, 0⟩ :=
  ⟨rfl, rfl, rfl, rfl, rfl⟩

theorem hkD_vtx : vtx hkD 0 = ⟨0, -25, 0⟩ ∧ vtx hkD 1 = ⟨100, -25, qb⟩ ∧ vtx hkD 2 = ⟨125, 0, 0⟩ ∧ vtx hkD 3 = ⟨125, 100, qb⟩ ∧ vtx hkD 4 = ⟨100, 125, 0⟩ ∧
    vtx hkD 5 = ⟨40, 125, qb⟩ ∧ vtx hkD 6 = ⟨15, 100, 0⟩ ∧ vtx hkD 7 = ⟨15, 40, 0⟩ := ⟨rfl, rfl, rfl, rfl, rfl, rfl, rfl, rfl⟩

theorem hkR_full : FullPath hkR (1 / 100000) := by
  obtain ⟨v0, v1, v2, v3, v4⟩ := hkR_vtx
  refine ⟨rfl, by decide, fun i hi => ?_⟩
  have hi4 : i < 4 := by have : i + 1 < 5 := hi; omega
  interval_cases i <;> simp only [Nat.reduceAdd, v0, v1, v2, v3, v4] <;>
    exact ⟨Or.inl (box4_line _ _), FarApart.fuzzy (by unfold FarApart Vertex.pos; norm_num [abs_of_pos, abs_of_neg])⟩

theorem hkD_full : FullPath hkD (1 / 100000) := by
  obtain ⟨v0, v1, v2, v3, v4, v5, v6, v7⟩ := hkD_vtx
  refine ⟨rfl, show 2 ≤ 8 by norm_num, fun i hi => ?_⟩
  have hi4 : i < 7 := by have : i + 1 < 8 := hi; omega
  interval_cases i <;> simp only [Nat.reduceAdd, v0, v1, v2, v3, v4, v5, v6, v7] <;>
    refine ⟨?_, FarApart.fuzzy (by unfold FarApart Vertex.pos; norm_num [abs_of_pos, abs_of_neg])⟩ <;> first
      | exact Or.inl (box4_line _ _)
      | (right; refine ⟨qb_arc _ _, ?_⟩; rw [abs_of_pos qb_pos]; linarith [qb_bounds.2])

theorem hk_in_raw : rawPath hook 25 hkIn = hkR := by
  obtain ⟨l0, l1, l2, l3⟩ := hk_sides
  have hc := hk_curves 25
  have q3 := (hk_parts 25).2.2.2
  have hr : List.range 4 = [0, 1, 2, 3] := rfl
  unfold rawPath
  rw [hk_len5]
  simp only [Nat.reduceSub, hr, List.flatMap_cons, List.flatMap_nil, pathLink, hk_len5, hkIn]
  simp only [Nat.reduceAdd, Nat.reduceLT, if_true, if_false]
  rw [hk_pv _ _ _ 0 (by norm_num), hk_pv _ _ _ 1 (by norm_num), hk_pv _ _ _ 2 (by norm_num), hk_pv _ _ _ 3 (by norm_num), (hc _).1, (hc _).2.1, (hc _).2.2.1, (hc _).2.2.2, q3]
  simp only [pathEnter, Nat.reduceSub, hkIn, Corner.start, Nat.reduceAdd, hk_setback 25 0 (by norm_num), hk_setback 25 1 (by norm_num), hk_setback 25 2 (by norm_num), l1, l2, l3]
  norm_num [Vertex.ofV2, hkR]

theorem hk_out_raw : rawPath hook (-25) hkOut = hkD := by
  obtain ⟨l0, l1, l2, l3⟩ := hk_sides
  have hc := hk_curves (-25)
  obtain ⟨q0, q1, q2, q3⟩ := hk_parts (-25)
  have hr : List.range 4 = [0, 1, 2, 3] := rfl
  have hqb : Real.tan (Real.pi / 4 / 2) = qb := rfl
  unfold rawPath
  rw [hk_len5]
  simp only [Nat.reduceSub, hr, List.flatMap_cons, List.flatMap_nil, pathLink, hk_len5, hkOut]
  simp only [Nat.reduceAdd, Nat.reduceLT, if_true, if_false]
  rw [hk_half 0 (by norm_num), hk_half 1 (by norm_num), hk_half 2 (by norm_num), hqb]
  rw [hk_pv _ _ _ 0 (by norm_num), hk_pv _ _ _ 1 (by norm_num), hk_pv _ _ _ 2 (by norm_num), hk_pv _ _ _ 3 (by norm_num), (hc _).1, (hc _).2.1, (hc _).2.2.1, (hc _).2.2.2, q0, q1, q2, q3]
  simp only [pathEnter, Nat.reduceSub, hkOut, Corner.start, Nat.reduceAdd]
  norm_num [Vertex.ofV2, Vertex.pos, hkD]

theorem hk_in_clearPath : ClearPath hook 25 hkIn (1 / 100000) := by
  obtain ⟨l0, l1, l2, l3⟩ := hk_sides
  refine ⟨hk_full, by norm_num, fun k hk => Or.inl (hk_line k (by rw [hk_len5] at hk; omega)), fun k hk => ?_, fun k hk => ?_, fun k hk => Or.inl ?_, fun k hk h => ?_, ?_⟩
  · rw [hk_len5] at hk
    exact .mitre (hk_line k (by omega)) (hk_line (k + 1) (by omega)) (hk_in_clear k (by omega)) (hk_in_mitred k (by omega))
  · rw [hk_len5] at hk
    have hk4 : k < 4 := by omega
    unfold pathEnter pathLeave hkIn
    interval_cases k <;> simp [Corner.start, Corner.stop, hk_len5, hk_setback, l0, l1, l2, l3] <;> norm_num
  · rw [hk_len5] at hk
    unfold IsLine; rw [hk_bulge 25 k (by omega)]; norm_num
  · exact absurd (hk_line k (by rw [hk_len5] at hk; omega)) h
  · rw [hk_in_raw]; exact hkR_full

theorem hk_out_clearPath : ClearPath hook (-25) hkOut (1 / 100000) := by
  refine ⟨hk_full, by norm_num, fun k hk => Or.inl (hk_line k (by rw [hk_len5] at hk; omega)), fun k hk => ?_, fun k hk => ?_, fun k hk => Or.inl ?_, fun k hk h => ?_, ?_⟩
  · rw [hk_len5] at hk
    exact .round (hk_line k (by omega)) (hk_line (k + 1) (by omega)) (hk_out_clear k (by omega)) (by rw [hk_setback _ k (by omega)]; norm_num)
  · unfold pathEnter pathLeave hkOut
    split_ifs <;> simp [Corner.start, Corner.stop]
  · rw [hk_len5] at hk
    unfold IsLine; rw [hk_bulge (-25) k (by omega)]; norm_num
  · exact absurd (hk_line k (by rw [hk_len5] at hk; omega)) h
  · rw [hk_out_raw]; exact hkD_full

end Cavc
