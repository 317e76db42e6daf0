import Verif.Lemmas.OffsetKeep
import Verif.Lemmas.CutTable

/-! # Example: a square of width 36 with a small chamfer, offset by 9 to the inside

The chamfer has length 5, and its mitres take 3 and 4.5 of it: the moved chamfer runs backwards, and the raw offset crosses
itself. -/

namespace Cavc
open Pline

/-- A square with a chamfer. -/
def chamfer : Pline ℝ := ⟨[⟨0, 0, 0⟩, ⟨36, 0, 0⟩, ⟨36, 32, 0⟩, ⟨33, 36, 0⟩, ⟨0, 36, 0⟩], true⟩

theorem chamfer_vtx : vtx chamfer 0 = ⟨0, 0, 0⟩ ∧ vtx chamfer 1 = ⟨36, 0, 0⟩ ∧ vtx chamfer 2 = ⟨36, 32, 0⟩ ∧ vtx chamfer 3 = ⟨33, 36, 0⟩ ∧
    vtx chamfer 4 = ⟨0, 36, 0⟩ ∧ vtx chamfer 5 = ⟨0, 0, 0⟩ ∧ vtx chamfer 6 = ⟨36, 0, 0⟩ := ⟨rfl, rfl, rfl, rfl, rfl, rfl, rfl⟩

theorem chamfer_pos : cornerPos chamfer 0 = ⟨0, 0⟩ ∧ cornerPos chamfer 1 = ⟨36, 0⟩ ∧ cornerPos chamfer 2 = ⟨36, 32⟩ ∧ cornerPos chamfer 3 = ⟨33, 36⟩ ∧
    cornerPos chamfer 4 = ⟨0, 36⟩ ∧ cornerPos chamfer 5 = ⟨0, 0⟩ ∧ cornerPos chamfer 6 = ⟨36, 0⟩ := ⟨rfl, rfl, rfl, rfl, rfl, rfl, rfl⟩

theorem edist_lit (a b : V2 ℝ) (r : ℝ) (hr : 0 ≤ r) (h : (b.x - a.x) ^ 2 + (b.y - a.y) ^ 2 = r ^ 2) : edist a b = r := by
  have h1 := edist_sq a b
  have h2 := edist_nonneg a b
  have h3 : edist a b ^ 2 = r ^ 2 := by rw [h1, ← h]; ring
  exact (pow_left_inj₀ h2 hr two_ne_zero).mp h3

theorem chamfer_len : sideLen chamfer 0 = 36 ∧ sideLen chamfer 1 = 32 ∧ sideLen chamfer 2 = 5 ∧ sideLen chamfer 3 = 33 ∧ sideLen chamfer 4 = 36 ∧
    sideLen chamfer 5 = 36 := by
  obtain ⟨p0, p1, p2, p3, p4, p5, p6⟩ := chamfer_pos
  unfold sideLen
  simp only [Nat.reduceAdd, p0, p1, p2, p3, p4, p5, p6]
  refine ⟨?_, ?_, ?_, ?_, ?_, ?_⟩ <;> apply edist_lit <;> norm_num

theorem chamfer_setback : setbackAt chamfer 9 0 = 9 ∧ setbackAt chamfer 9 1 = 3 ∧ setbackAt chamfer 9 2 = 9 / 2 ∧ setbackAt chamfer 9 3 = 9 ∧
    setbackAt chamfer 9 4 = 9 := by
  obtain ⟨p0, p1, p2, p3, p4, p5, p6⟩ := chamfer_pos
  obtain ⟨l0, l1, l2, l3, l4, l5⟩ := chamfer_len
  unfold sideLen at l0 l1 l2 l3 l4 l5
  simp only [Nat.reduceAdd, p0, p1, p2, p3, p4, p5, p6] at l0 l1 l2 l3 l4 l5
  unfold setbackAt setback turnSin turnCos
  simp only [Nat.reduceAdd, p0, p1, p2, p3, p4, p5, p6, l0, l1, l2, l3, l4, l5]
  norm_num

theorem lt_five {P : Nat → Prop} (h0 : P 0) (h1 : P 1) (h2 : P 2) (h3 : P 3) (h4 : P 4) (k : Nat) : P (k % 5) := by
  have : k % 5 < 5 := Nat.mod_lt _ (by norm_num)
  interval_cases k % 5 <;> assumption

theorem chamfer_straight : StraightLoop chamfer := by
  obtain ⟨v0, v1, v2, v3, v4, v5, v6⟩ := chamfer_vtx
  refine ⟨rfl, by decide, fun i => ?_, fun i => ?_⟩
  · rw [← vtx_mod]
    refine lt_five (P := fun k => IsLine (vtx chamfer k)) ?_ ?_ ?_ ?_ ?_ i <;>
      simp only [v0, v1, v2, v3, v4] <;> (unfold IsLine; norm_num)
  · rw [← vtx_mod, ← vtx_mod_succ]
    refine lt_five (P := fun k => (vtx chamfer k).pos ≠ (vtx chamfer (k + 1)).pos) ?_ ?_ ?_ ?_ ?_ i <;>
      simp only [Nat.reduceAdd, v0, v1, v2, v3, v4, v5, Vertex.pos, ne_eq, V2.ext_iff'] <;> norm_num

theorem setbackAt_congr {p : Pline ℝ} {m k : Nat} (h : m % p.verts.length = k % p.verts.length) (d : ℝ) : setbackAt p d m = setbackAt p d k := by
  unfold setbackAt
  have := cornerPos_congr h 0
  simp only [Nat.add_zero] at this
  rw [cornerPos_congr h 1, cornerPos_congr h 2, this]

theorem sideLen_congr {p : Pline ℝ} {m k : Nat} (h : m % p.verts.length = k % p.verts.length) : sideLen p m = sideLen p k := by
  unfold sideLen
  have := cornerPos_congr h 0
  simp only [Nat.add_zero] at this
  rw [cornerPos_congr h 1, this]

theorem clearTurn_congr {p : Pline ℝ} {m k : Nat} (h : m % p.verts.length = k % p.verts.length) {d eps : ℝ} (hc : ClearTurn p d eps m) : ClearTurn p d eps k := by
  have e0 := cornerPos_congr h 0
  simp only [Nat.add_zero] at e0
  have e1 := cornerPos_congr h 1
  have e2 := cornerPos_congr h 2
  have es := setbackAt_congr h d
  have el := sideLen_congr h
  have el' : sideLen p (m + 1) = sideLen p (k + 1) := sideLen_congr (by rw [Nat.add_mod, h, ← Nat.add_mod])
  obtain ⟨h1, h2, h3⟩ := hc
  rw [e0, e1, e2] at h1 h3
  rw [es] at h2 h3
  rw [el, el'] at h2
  exact ⟨h1, h2, h3⟩

theorem chamfer_clear (k : Nat) : ClearTurn chamfer 9 (1 / 100000) k := by
  obtain ⟨p0, p1, p2, p3, p4, p5, p6⟩ := chamfer_pos
  obtain ⟨l0, l1, l2, l3, l4, l5⟩ := chamfer_len
  obtain ⟨s0, s1, s2, s3, s4⟩ := chamfer_setback
  apply clearTurn_congr (m := k % 5) (p := chamfer) (Nat.mod_mod _ _)
  refine lt_five (P := fun k => ClearTurn chamfer 9 (1 / 100000) k) ?_ ?_ ?_ ?_ ?_ k <;>
  · refine ⟨?_, ?_, ?_⟩
    · simp only [Nat.reduceAdd, p0, p1, p2, p3, p4, p5, p6]; norm_num [abs_of_pos, abs_of_neg]
    · right; left
      simp only [Nat.reduceAdd, s0, s1, s2, s3, s4, l0, l1, l2, l3, l4, l5]; norm_num
    · intro h
      simp only [s0, s1, s2, s3, s4] at h; norm_num at h

theorem chamfer_mitred (k : Nat) : Mitred chamfer 9 k := by
  obtain ⟨l0, l1, l2, l3, l4, l5⟩ := chamfer_len
  obtain ⟨s0, s1, s2, s3, s4⟩ := chamfer_setback
  rw [← mitred_mod chamfer_straight (by norm_num : (9 : ℝ) ≠ 0) (by norm_num : (0 : ℝ) < 1 / 100000) chamfer_clear]
  refine lt_five (P := fun k => Mitred chamfer 9 k) ?_ ?_ ?_ ?_ ?_ k <;>
  · unfold Mitred
    simp only [Nat.reduceAdd, s0, s1, s2, s3, s4, l0, l1, l2, l3, l4, l5]; norm_num

theorem chamfer_raw : rawLoop chamfer 9 = ⟨[⟨9, 9, 0⟩, ⟨27, 9, 0⟩, ⟨27, 29, 0⟩, ⟨57 / 2, 27, 0⟩, ⟨9, 27, 0⟩], true⟩ := by
  obtain ⟨p0, p1, p2, p3, p4, p5, p6⟩ := chamfer_pos
  obtain ⟨l0, l1, l2, l3, l4, l5⟩ := chamfer_len
  obtain ⟨s0, s1, s2, s3, s4⟩ := chamfer_setback
  have hparts : loopParts chamfer 9 = [.side 0, .side 1, .side 2, .side 3, .side 4] := by
    unfold loopParts
    simp only [chamfer_mitred, if_true]
    rfl
  have hs : ∀ k, sideStart chamfer 9 k = setbackAt chamfer 9 (k + 4) / sideLen chamfer k := by
    intro k
    unfold sideStart
    rw [if_pos (chamfer_mitred _)]
    rfl
  have e5 : setbackAt chamfer 9 5 = 9 := (setbackAt_congr (p := chamfer) (m := 5) (k := 0) rfl 9).trans s0
  have e6 : setbackAt chamfer 9 6 = 3 := (setbackAt_congr (p := chamfer) (m := 6) (k := 1) rfl 9).trans s1
  have e7 : setbackAt chamfer 9 7 = 9 / 2 := (setbackAt_congr (p := chamfer) (m := 7) (k := 2) rfl 9).trans s2
  have e8 : setbackAt chamfer 9 8 = 9 := (setbackAt_congr (p := chamfer) (m := 8) (k := 3) rfl 9).trans s3
  unfold sideLen at l0 l1 l2 l3 l4 l5 hs
  simp only [Nat.reduceAdd, p0, p1, p2, p3, p4, p5, p6] at l0 l1 l2 l3 l4 l5
  unfold rawLoop
  rw [hparts]
  simp only [List.map_cons, List.map_nil, RawPart.start, sidePt, hs, moved, Vertex.ofV2, Nat.reduceAdd, s4, e5, e6, e7, e8, p0, p1, p2, p3, p4, p5, p6, l0, l1, l2, l3, l4, l5]
  norm_num

theorem chamfer_raw_vtx : vtx (rawLoop chamfer 9) 0 = ⟨9, 9, 0⟩ ∧ vtx (rawLoop chamfer 9) 1 = ⟨27, 9, 0⟩ ∧ vtx (rawLoop chamfer 9) 2 = ⟨27, 29, 0⟩ ∧
    vtx (rawLoop chamfer 9) 3 = ⟨57 / 2, 27, 0⟩ ∧ vtx (rawLoop chamfer 9) 4 = ⟨9, 27, 0⟩ ∧ vtx (rawLoop chamfer 9) 5 = ⟨9, 9, 0⟩ := by
  rw [chamfer_raw]
  exact ⟨rfl, rfl, rfl, rfl, rfl, rfl⟩

theorem chamfer_raw_full : FullLoop (rawLoop chamfer 9) (1 / 100000) := by
  obtain ⟨v0, v1, v2, v3, v4, v5⟩ := chamfer_raw_vtx
  have hlen : (rawLoop chamfer 9).verts.length = 5 := by rw [chamfer_raw]; rfl
  refine ⟨rfl, by rw [hlen]; norm_num, fun i => ?_⟩
  rw [← vtx_mod, ← vtx_mod_succ, hlen]
  refine lt_five (P := fun k => FullSeg (vtx (rawLoop chamfer 9) k) (vtx (rawLoop chamfer 9) (k + 1)) (1 / 100000)) ?_ ?_ ?_ ?_ ?_ i <;>
  · simp only [Nat.reduceAdd, v0, v1, v2, v3, v4, v5]
    refine ⟨Or.inl (by unfold IsLine; norm_num), FarApart.fuzzy ?_⟩
    unfold FarApart Vertex.pos
    norm_num [abs_of_pos, abs_of_neg]

theorem chamfer_first : (sidePt chamfer 9 0 0).fuzzyEqEps (vtx (rawLoop chamfer 9) 1).pos (1 / 100000) = false := by
  obtain ⟨v0, v1, v2, v3, v4, v5⟩ := chamfer_raw_vtx
  obtain ⟨p0, p1, p2, p3, p4, p5, p6⟩ := chamfer_pos
  obtain ⟨l0, l1, l2, l3, l4, l5⟩ := chamfer_len
  unfold sideLen at l0
  simp only [Nat.reduceAdd, p0, p1] at l0
  apply FarApart.fuzzy
  unfold FarApart sidePt moved
  simp only [Nat.reduceAdd, p0, p1, l0, v1, Vertex.pos]
  norm_num [abs_of_pos, abs_of_neg]

end Cavc
