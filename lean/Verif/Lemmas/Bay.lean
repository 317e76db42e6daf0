import Verif.Lemmas.ChamferOffset
import Verif.Lemmas.RoundSquareOffset
import Verif.Lemmas.OffsetWhole

/-! # Example: a clockwise triangle with sides 45, 60 and 75, offset by 1 to the inside -/

set_option linter.unusedVariables false

namespace Cavc
open Pline RealScalar

/-- A right-angled triangle, clockwise. -/
def bay : Pline ℝ := ⟨[⟨-30, -15, 0⟩, ⟨-30, 30, 0⟩, ⟨30, -15, 0⟩], true⟩

/-- Its offset by 1 to the inside -/
def bayIn : Pline ℝ := ⟨[⟨-29, -14, 0⟩, ⟨-29, 28, 0⟩, ⟨27, -14, 0⟩], true⟩

theorem bay_vtx : vtx bay 0 = ⟨-30, -15, 0⟩ ∧ vtx bay 1 = ⟨-30, 30, 0⟩ ∧ vtx bay 2 = ⟨30, -15, 0⟩ ∧ vtx bay 3 = ⟨-30, -15, 0⟩ ∧ vtx bay 4 = ⟨-30, 30, 0⟩ :=
  ⟨rfl, rfl, rfl, rfl, rfl⟩

theorem bay_pos : cornerPos bay 0 = ⟨-30, -15⟩ ∧ cornerPos bay 1 = ⟨-30, 30⟩ ∧ cornerPos bay 2 = ⟨30, -15⟩ ∧ cornerPos bay 3 = ⟨-30, -15⟩ ∧ cornerPos bay 4 = ⟨-30, 30⟩ :=
  ⟨rfl, rfl, rfl, rfl, rfl⟩

theorem bay_len : sideLen bay 0 = 45 ∧ sideLen bay 1 = 75 ∧ sideLen bay 2 = 60 ∧ sideLen bay 3 = 45 := by
  obtain ⟨p0, p1, p2, p3, p4⟩ := bay_pos
  unfold sideLen
  simp only [Nat.reduceAdd, p0, p1, p2, p3, p4]
  refine ⟨?_, ?_, ?_, ?_⟩ <;> apply edist_lit <;> norm_num

theorem bay_setback : setbackAt bay (-1) 0 = 2 ∧ setbackAt bay (-1) 1 = 3 ∧ setbackAt bay (-1) 2 = 1 := by
  obtain ⟨p0, p1, p2, p3, p4⟩ := bay_pos
  obtain ⟨l0, l1, l2, l3⟩ := bay_len
  unfold sideLen at l0 l1 l2 l3
  simp only [Nat.reduceAdd, p0, p1, p2, p3, p4] at l0 l1 l2 l3
  unfold setbackAt setback turnSin turnCos
  simp only [Nat.reduceAdd, p0, p1, p2, p3, p4, l0, l1, l2, l3]
  norm_num

theorem lt_three {P : Nat → Prop} (h0 : P 0) (h1 : P 1) (h2 : P 2) (k : Nat) : P (k % 3) := by
  have : k % 3 < 3 := Nat.mod_lt _ (by norm_num)
  interval_cases k % 3 <;> assumption

theorem bay_straight : StraightLoop bay := by
  obtain ⟨v0, v1, v2, v3, v4⟩ := bay_vtx
  refine ⟨rfl, by decide, fun i => ?_, fun i => ?_⟩
  · rw [← vtx_mod]
    refine lt_three (P := fun k => IsLine (vtx bay k)) ?_ ?_ ?_ i <;> simp only [v0, v1, v2] <;> (unfold IsLine; norm_num)
  · rw [← vtx_mod, ← vtx_mod_succ]
    refine lt_three (P := fun k => (vtx bay k).pos ≠ (vtx bay (k + 1)).pos) ?_ ?_ ?_ i <;>
      simp only [Nat.reduceAdd, v0, v1, v2, v3, Vertex.pos, ne_eq, V2.ext_iff'] <;> norm_num

theorem bay_clear (k : Nat) : ClearTurn bay (-1) (1 / 100000) k := by
  obtain ⟨p0, p1, p2, p3, p4⟩ := bay_pos
  obtain ⟨l0, l1, l2, l3⟩ := bay_len
  obtain ⟨s0, s1, s2⟩ := bay_setback
  apply clearTurn_congr (m := k % 3) (p := bay) (Nat.mod_mod _ _)
  refine lt_three (P := fun k => ClearTurn bay (-1) (1 / 100000) k) ?_ ?_ ?_ k <;>
  · refine ⟨?_, ?_, ?_⟩
    · simp only [Nat.reduceAdd, p0, p1, p2, p3, p4]; norm_num [abs_of_pos, abs_of_neg]
    · right; left
      simp only [Nat.reduceAdd, s0, s1, s2, l0, l1, l2, l3]; norm_num
    · intro h
      simp only [s0, s1, s2] at h; norm_num at h

theorem bay_mitred (k : Nat) : Mitred bay (-1) k := by
  obtain ⟨l0, l1, l2, l3⟩ := bay_len
  obtain ⟨s0, s1, s2⟩ := bay_setback
  rw [← mitred_mod bay_straight (by norm_num : (-1 : ℝ) ≠ 0) (by norm_num : (0 : ℝ) < 1 / 100000) bay_clear]
  refine lt_three (P := fun k => Mitred bay (-1) k) ?_ ?_ ?_ k <;>
  · unfold Mitred
    simp only [Nat.reduceAdd, s0, s1, s2, l0, l1, l2, l3]; norm_num

theorem bay_raw : rawLoop bay (-1) = bayIn := by
  obtain ⟨p0, p1, p2, p3, p4⟩ := bay_pos
  obtain ⟨l0, l1, l2, l3⟩ := bay_len
  obtain ⟨s0, s1, s2⟩ := bay_setback
  have hparts : loopParts bay (-1) = [.side 0, .side 1, .side 2] := by
    unfold loopParts
    simp only [bay_mitred, if_true]
    rfl
  have hs : ∀ k, sideStart bay (-1) k = setbackAt bay (-1) (k + 2) / sideLen bay k := by
    intro k
    unfold sideStart
    rw [if_pos (bay_mitred _)]
    rfl
  have e3 : setbackAt bay (-1) 3 = 2 := (setbackAt_congr (p := bay) (m := 3) (k := 0) rfl (-1)).trans s0
  have e4 : setbackAt bay (-1) 4 = 3 := (setbackAt_congr (p := bay) (m := 4) (k := 1) rfl (-1)).trans s1
  unfold sideLen at l0 l1 l2 l3 hs
  simp only [Nat.reduceAdd, p0, p1, p2, p3, p4] at l0 l1 l2 l3
  unfold rawLoop
  rw [hparts]
  simp only [List.map_cons, List.map_nil, RawPart.start, sidePt, hs, moved, Vertex.ofV2, Nat.reduceAdd, s2, e3, e4, p0, p1, p2, p3, p4, l0, l1, l2, l3, bayIn]
  norm_num

theorem bayIn_vtx : vtx bayIn 0 = ⟨-29, -14, 0⟩ ∧ vtx bayIn 1 = ⟨-29, 28, 0⟩ ∧ vtx bayIn 2 = ⟨27, -14, 0⟩ ∧ vtx bayIn 3 = ⟨-29, -14, 0⟩ ∧ vtx bayIn 4 = ⟨-29, 28, 0⟩ :=
  ⟨rfl, rfl, rfl, rfl, rfl⟩

theorem bayIn_full : FullLoop bayIn (1 / 100000) := by
  obtain ⟨v0, v1, v2, v3, v4⟩ := bayIn_vtx
  refine ⟨rfl, by decide, fun i => ?_⟩
  rw [← vtx_mod, ← vtx_mod_succ]
  refine lt_three (P := fun k => FullSeg (vtx bayIn k) (vtx bayIn (k + 1)) (1 / 100000)) ?_ ?_ ?_ i <;>
  · simp only [Nat.reduceAdd, v0, v1, v2, v3]
    refine ⟨Or.inl (by unfold IsLine; norm_num), FarApart.fuzzy ?_⟩
    unfold FarApart Vertex.pos
    norm_num [abs_of_pos, abs_of_neg]

theorem bay_first : (sidePt bay (-1) 0 0).fuzzyEqEps (vtx (rawLoop bay (-1)) 1).pos (1 / 100000) = false := by
  obtain ⟨v0, v1, v2, v3, v4⟩ := bayIn_vtx
  obtain ⟨p0, p1, p2, p3, p4⟩ := bay_pos
  obtain ⟨l0, l1, l2, l3⟩ := bay_len
  unfold sideLen at l0
  simp only [Nat.reduceAdd, p0, p1] at l0
  apply FarApart.fuzzy
  rw [bay_raw]
  unfold FarApart sidePt moved
  simp only [Nat.reduceAdd, p0, p1, l0, v1, Vertex.pos]
  norm_num [abs_of_pos, abs_of_neg]

theorem bay_in : createRawOffsetPolyline bay (-1) (1 / 100000) = .ok bayIn := by
  rw [← bay_raw]
  exact C42_raw_straight bay_straight (by norm_num) (by norm_num) bay_clear (by rw [bay_raw]; exact bayIn_full) bay_first

theorem bayIn_curve (t : ℝ) : curveAt bayIn 0 t = ⟨-29, -14 + 42 * t⟩ ∧ curveAt bayIn 1 t = ⟨-29 + 56 * t, 28 - 42 * t⟩ ∧ curveAt bayIn 2 t = ⟨27 - 56 * t, -14⟩ := by
  obtain ⟨v0, v1, v2, v3, v4⟩ := bayIn_vtx
  have hn : 0 < bayIn.verts.length := by decide
  simp only [curveAt_vtx hn, Nat.reduceAdd, v0, v1, v2, v3, segCurve_line (box4_line _ _), linePoint, Vertex.pos, V2.mk.injEq]
  refine ⟨⟨?_, ?_⟩, ⟨?_, ?_⟩, ?_, ?_⟩ <;> ring

theorem bay_curve (t : ℝ) : curveAt bay 0 t = ⟨-30, -15 + 45 * t⟩ ∧ curveAt bay 1 t = ⟨-30 + 60 * t, 30 - 45 * t⟩ ∧ curveAt bay 2 t = ⟨30 - 60 * t, -15⟩ := by
  obtain ⟨v0, v1, v2, v3, v4⟩ := bay_vtx
  have hn : 0 < bay.verts.length := by decide
  simp only [curveAt_vtx hn, Nat.reduceAdd, v0, v1, v2, v3, segCurve_line (box4_line _ _), linePoint, Vertex.pos, V2.mk.injEq]
  refine ⟨⟨?_, ?_⟩, ⟨?_, ?_⟩, ?_, ?_⟩ <;> ring

theorem bayIn_crossing : SelfCrossing bayIn (1 / 100000) 1 [] := by
  refine ⟨by decide, by simp, by simp, ?_, by simp [bothCuts], by simp [bothCuts], by simp [bothCuts], by simp, by simp [bothCuts]⟩
  intro i t j u hij hj t0 t1 u0 u1 h
  have hlen : bayIn.verts.length = 3 := rfl
  rw [hlen] at hj ⊢
  obtain ⟨a0, a1, a2⟩ := bayIn_curve t
  obtain ⟨b0, b1, b2⟩ := bayIn_curve u
  have hi : i < 2 := by omega
  interval_cases i <;> interval_cases j <;> simp only [a0, a1, a2, b0, b1, b2, V2.mk.injEq] at h <;> obtain ⟨h1, h2⟩ := h
  · left; exact ⟨rfl, by linarith, by linarith⟩
  · right; left; exact ⟨rfl, rfl, by linarith, by linarith⟩
  · left; exact ⟨rfl, by linarith, by linarith⟩

theorem bayIn_finds : FindsSelf bayIn (1 / 100000) := by
  obtain ⟨v0, v1, v2, v3, v4⟩ := bayIn_vtx
  have hlen : bayIn.verts.length = 3 := rfl
  constructor
  · intro i hi
    rw [hlen] at hi
    refine finds_corner (by norm_num) (ClearPair.lines ?_ ?_ (Or.inl ⟨⟨(vtx bayIn (i + 1)).pos,
      ⟨1, by norm_num, le_rfl, (segCurve_ends _ _).2.symm⟩, ⟨0, le_rfl, by norm_num, (segCurve_ends _ _).1.symm⟩⟩, ?_⟩))
    · interval_cases i <;> simp only [v0, v1, v2, v3, v4] <;> exact box4_line _ _
    · interval_cases i <;> simp only [Nat.reduceAdd, v1, v2, v3, v4] <;> exact box4_line _ _
    · interval_cases i <;> simp only [Nat.reduceAdd, v0, v1, v2, v3, v4] <;> unfold dirCross Vertex.pos <;> norm_num [abs_of_pos, abs_of_neg]
  · intro i k hi hk hik h1 h2 hbox
    rw [hlen] at hi hk h1 h2
    interval_cases i <;> interval_cases k <;> simp_all

theorem bay_seg {s : Vertex ℝ × Vertex ℝ} (hs : s ∈ bay.segs) : ∃ k < 3, s = (vtx bay k, vtx bay (k + 1)) := by
  rw [segs_range rfl (by decide)] at hs
  obtain ⟨k, hk, rfl⟩ := List.mem_map.mp hs
  exact ⟨k, List.mem_range.mp hk, rfl⟩

theorem bay_lines : ∀ s ∈ bay.segs, IsLine s.1 := by
  intro s hs
  obtain ⟨k, hk, rfl⟩ := bay_seg hs
  exact bay_straight.line k

theorem box4_lines : ∀ s ∈ box4.segs, IsLine s.1 := by
  intro s hs
  obtain ⟨k, hk, rfl⟩ := box4_seg hs
  exact box4_straight.line k

theorem lines_readable {p : Pline ℝ} (h : ∀ s ∈ p.segs, IsLine s.1) (eps : ℝ) (X : V2 ℝ) : Readable p eps X := fun s hs hl => absurd (h s hs) hl

/-- points at distance 1 from the long side and further from the others -/
theorem bay_keeps {X : V2 ℝ} (h1 : -29 ≤ X.x) (h2 : -14 ≤ X.y) (h3 : 3 * X.x + 4 * X.y ≤ 25) : Keeps bay 1 X := by
  rintro q ⟨s, hs, u, u0, u1, rfl⟩
  obtain ⟨k, hk, rfl⟩ := bay_seg hs
  rw [← curveAt_vtx (by decide)]
  obtain ⟨a0, a1, a2⟩ := bay_curve u
  have hsq := edist_sq X (curveAt bay k u)
  have hnn := edist_nonneg X (curveAt bay k u)
  by_contra hlt
  push Not at hlt
  have hlt2 : edist X (curveAt bay k u) ^ 2 < 1 := by nlinarith
  rw [hsq] at hlt2
  interval_cases k
  · rw [a0] at hlt2; dsimp only at hlt2; nlinarith [sq_nonneg (X.y - (-15 + 45 * u))]
  · rw [a1] at hlt2
    dsimp only at hlt2
    -- (3 a + 4 b)² ≤ 25 (a² + b²)
    have : 5 ≤ 3 * ((-30 + 60 * u) - X.x) + 4 * ((30 - 45 * u) - X.y) := by linarith
    nlinarith [sq_nonneg (4 * ((-30 + 60 * u) - X.x) - 3 * ((30 - 45 * u) - X.y))]
  · rw [a2] at hlt2; dsimp only at hlt2; nlinarith [sq_nonneg (X.x - (30 - 60 * u))]

theorem bay_clear_first : PointClear bay (-1) (1 / 100000) (1 / 10000) (vtx bayIn 0).pos := by
  refine keeps_clear_segs (fun s hs => Or.inl (bay_lines s hs)) (by norm_num) (by norm_num) (by norm_num) (lines_readable bay_lines _ _) ?_
  rw [abs_neg, abs_one, bayIn_vtx.1]
  exact bay_keeps (by norm_num [Vertex.pos]) (by norm_num [Vertex.pos]) (by norm_num [Vertex.pos])

theorem box4_clear_first : PointClear box4 (-1) (1 / 100000) (1 / 10000) (vtx (rawLoop box4 (-1)) 0).pos := by
  refine keeps_clear_segs (fun s hs => Or.inl (box4_lines s hs)) (by norm_num) (by norm_num) (by norm_num) (lines_readable box4_lines _ _) ?_
  rw [box4_raw_vtx.1]
  rintro q ⟨s, hs, u, u0, u1, rfl⟩
  obtain ⟨k, hk, rfl⟩ := box4_seg hs
  rw [← curveAt_vtx (by decide)]
  obtain ⟨-, -, h3, -⟩ := box4_inside hk u0 u1
  have hsq := edist_sq (⟨0, -1⟩ : V2 ℝ) (curveAt box4 k u)
  dsimp only at hsq
  have hnn := edist_nonneg (⟨0, -1⟩ : V2 ℝ) (curveAt box4 k u)
  rw [abs_neg, abs_one]
  show 1 ≤ edist (⟨0, -1⟩ : V2 ℝ) (curveAt box4 k u)
  nlinarith [sq_nonneg (0 - (curveAt box4 k u).x)]

theorem bay_offset (env : Env ℝ) (henv : env.Lawful) (idx : Index ℝ) (hidx : idx.Serves bay) :
    parallelOffset env bay (-1) ⟨some idx, false, 1 / 100000, 1 / 10000, 1 / 10000⟩ = .ok [bayIn] :=
  offset_whole env henv bay (-1) ⟨some idx, false, 1 / 100000, 1 / 10000, 1 / 10000⟩ (by simpa using hidx) rfl (by norm_num) rfl (by decide) bayIn bay_in
    bayIn_full 1 bayIn_crossing bayIn_finds bay_clear_first (by norm_num)

theorem box4_offset (env : Env ℝ) (henv : env.Lawful) (idx : Index ℝ) (hidx : idx.Serves box4) :
    parallelOffset env box4 (-1) ⟨some idx, false, 1 / 100000, 1 / 10000, 1 / 10000⟩ = .ok [rawLoop box4 (-1)] :=
  offset_whole env henv box4 (-1) ⟨some idx, false, 1 / 100000, 1 / 10000, 1 / 10000⟩ (by simpa using hidx) rfl (by norm_num) rfl (by decide) _
    (C42_raw_straight box4_straight (by norm_num) (by norm_num) box4_clear box4_raw_full box4_first)
    box4_raw_full 1 box4_crossing box4_finds box4_clear_first (by norm_num)

end Cavc
