import Verif.Lemmas.OpenRaw
import Verif.Lemmas.HalfDisc

/-! # Example: the raw offset of a line and a half circle that are not closed -/

set_option linter.unusedVariables false

namespace Cavc
open RealScalar Pline

/-- what happens at a corner depends only on its two segments -/
theorem clearCorner_congr {p p' : Pline ℝ} {d eps : ℝ} {k : Nat} (h0 : vtx p k = vtx p' k) (h1 : vtx p (k + 1) = vtx p' (k + 1)) (h2 : vtx p (k + 2) = vtx p' (k + 2))
    {c : Corner} (h : ClearCorner p d eps k c) : ClearCorner p' d eps k c := by
  have a0 : parAt p d k = parAt p' d k := by unfold parAt; rw [h0, h1]
  have a1 : parAt p d (k + 1) = parAt p' d (k + 1) := by unfold parAt; rw [h1, show k + 1 + 1 = k + 2 by omega, h2]
  have b0 : parCurve p d k = parCurve p' d k := by unfold parCurve; rw [a0]
  have b1 : parCurve p d (k + 1) = parCurve p' d (k + 1) := by unfold parCurve; rw [a1]
  have e0 : cornerPos p k = cornerPos p' k := congrArg Vertex.pos h0
  have e1 : cornerPos p (k + 1) = cornerPos p' (k + 1) := congrArg Vertex.pos h1
  have e2 : cornerPos p (k + 2) = cornerPos p' (k + 2) := congrArg Vertex.pos h2
  have s0 : sideLen p k = sideLen p' k := by unfold sideLen; rw [e0, e1]
  have s1 : sideLen p (k + 1) = sideLen p' (k + 1) := by unfold sideLen; rw [e1, show k + 1 + 1 = k + 2 by omega, e2]
  have t0 : setbackAt p d k = setbackAt p' d k := by unfold setbackAt; rw [e0, e1, e2]
  have hm : Mitred p d k ↔ Mitred p' d k := by unfold Mitred; rw [s0, s1, t0]
  have ht : ClearTurn p d eps k → ClearTurn p' d eps k := fun h => by
    obtain ⟨x, y, z⟩ := h
    rw [e0, e1, e2] at x
    rw [s0, s1, t0] at y
    rw [e0, e1, e2, t0] at z
    exact ⟨x, y, z⟩
  cases h with
  | mitre q1 q2 h g =>
    rw [t0, s0, s1]
    exact .mitre (h0 ▸ q1) (h1 ▸ q2) (ht h) (hm.mp g)
  | round q1 q2 h g =>
    rw [e0, e1, e2]
    exact .round (h0 ▸ q1) (h1 ▸ q2) (ht h) (t0 ▸ g)
  | chord q1 q2 h g hs => exact .chord (h0 ▸ q1) (h1 ▸ q2) (ht h) (fun x => g (hm.mpr x)) (t0 ▸ hs)
  | lineArcCut t u q1 q2 hw hn x1 x2 x3 x4 meet =>
    rw [h0] at q1; rw [h1] at q2
    rw [a0] at hw; rw [a0, a1, e1] at hn; rw [b0, b1] at meet
    exact .lineArcCut t u q1 q2 hw hn x1 x2 x3 x4 meet
  | lineArcRound b q1 q2 hw hn hb =>
    rw [h0] at q1; rw [h1] at q2
    rw [a0] at hw; rw [a0, a1, e1, b0] at hn; rw [a0, a1, e1] at hb
    exact .lineArcRound b q1 q2 hw hn hb
  | lineArcChord t q1 q2 hw hn h =>
    rw [h0] at q1; rw [h1] at q2
    rw [a0] at hw; rw [a0, a1, e1] at hn; rw [a1, b0] at h
    exact .lineArcChord t q1 q2 hw hn h
  | arcLineCut t u q1 q2 hw hn x1 x2 x3 x4 meet =>
    rw [h0] at q1; rw [h1] at q2
    rw [a1] at hw; rw [a0, a1, e1] at hn; rw [b0, b1] at meet
    exact .arcLineCut t u q1 q2 hw hn x1 x2 x3 x4 meet
  | arcLineRound b q1 q2 hw hn hb =>
    rw [h0] at q1; rw [h1] at q2
    rw [a1] at hw; rw [a0, a1, e1, b1] at hn; rw [a0, a1, e1] at hb
    exact .arcLineRound b q1 q2 hw hn hb
  | arcsCut t u q1 q2 hn x1 x2 x3 x4 meet =>
    rw [h0] at q1; rw [h1] at q2
    rw [a0, a1, e1, b0] at hn; rw [b0, b1] at meet
    exact .arcsCut t u q1 q2 hn x1 x2 x3 x4 meet
  | arcsRound b q1 q2 hn hb =>
    rw [h0] at q1; rw [h1] at q2
    rw [a0, a1, e1] at hn hb
    exact .arcsRound b q1 q2 hn hb
  | arcsSame q1 q2 hc hr he =>
    rw [h0] at q1; rw [h1] at q2
    rw [a0, a1] at hc hr he
    exact .arcsSame q1 q2 hc hr he

/-- A line and a half circle back to its start, as an open polyline. -/
def halfBow : Pline ℝ := ⟨[⟨0, 0, 0⟩, ⟨16, 0, 1⟩, ⟨0, 0, 0⟩], false⟩

theorem hb_vtx (k : Nat) (hk : k < 3) : vtx halfBow k = vtx halfDisc k := by interval_cases k <;> rfl

theorem hb_par (d : ℝ) (k : Nat) (hk : k < 2) : parAt halfBow d k = parAt halfDisc d k := by
  unfold parAt; rw [hb_vtx k (by omega), hb_vtx (k + 1) (by omega)]

noncomputable def hbBulge : ℝ := Real.tan ((1 - hdCut) * (Real.pi / 4))

theorem hb_bounds : 0 < hbBulge ∧ 1 / 100000000 ≤ |hbBulge| ∧ |hbBulge| ≤ 1 := by
  obtain ⟨c0, c1⟩ := hdCut_range
  have hpi := Real.pi_pos
  have h0 : 0 < hbBulge := Real.tan_pos_of_pos_of_lt_pi_div_two (by apply mul_pos <;> linarith) (by nlinarith)
  have h8 : Real.tan (Real.pi / 8) < hbBulge := Real.tan_lt_tan_of_nonneg_of_lt_pi_div_two (by positivity) (by nlinarith) (by nlinarith)
  have h1 : hbBulge < 1 := by
    rw [← Real.tan_pi_div_four]
    exact Real.tan_lt_tan_of_nonneg_of_lt_pi_div_two (by apply mul_nonneg <;> linarith) (by linarith) (by nlinarith)
  have hle : Real.pi / 8 < Real.tan (Real.pi / 8) := Real.lt_tan (by positivity) (by linarith)
  have h3 := Real.pi_gt_three
  rw [abs_of_pos h0]
  exact ⟨h0, by linarith, h1.le⟩

theorem hb_raw : rawPath halfBow 3 hdIn = ⟨[⟨0, 3, 0⟩, ⟨12, 3, hbBulge⟩, ⟨3, 0, 0⟩], false⟩ := by
  have hv : (rawPath halfBow 3 hdIn).verts = [partVertex (parAt halfBow 3 0) 0 (3 / 4), partVertex (parAt halfBow 3 1) hdCut 1, (parAt halfBow 3 1).2] := rfl
  have e : rawPath halfBow 3 hdIn = ⟨(rawPath halfBow 3 hdIn).verts, false⟩ := rfl
  rw [e, hv, hb_par 3 0 (by norm_num), hb_par 3 1 (by norm_num)]
  have h0 := hd_curve0 3 0
  have h1 := hd_curve1 3 hdCut
  unfold parCurve at h0 h1
  unfold partVertex
  rw [h0, h1, hdCut_cos, hdCut_sin, hd_par0, hd_par1]
  dsimp only
  rw [Real.arctan_one, Real.arctan_zero]
  norm_num [Vertex.ofV2, hbBulge]

theorem hb_clear : ClearPath halfBow 3 hdIn (1 / 100000) := by
  obtain ⟨c0, c1⟩ := hdCut_range
  obtain ⟨b0, b1, b2⟩ := hb_bounds
  have hlen : halfBow.verts.length = 3 := rfl
  have hpi := Real.pi_pos
  refine ⟨⟨rfl, by decide, fun i hi => ?_⟩, by norm_num, fun k hk => ?_, fun k hk => ?_, fun k hk => ?_, fun k hk => ?_, fun k hk h => ?_, ?_⟩
  · rw [hlen] at hi
    have := hd_full.full i
    rwa [← hb_vtx i (by omega), ← hb_vtx (i + 1) (by omega)] at this
  · rw [hlen] at hk
    have := hdIn_clear.radius k
    rwa [← hb_vtx k (by omega), ← hb_vtx (k + 1) (by omega)] at this
  · rw [hlen] at hk
    have := hdIn_clear.corners k (show k < 2 by omega)
    exact clearCorner_congr (hb_vtx k (by omega)).symm (hb_vtx (k + 1) (by omega)).symm (hb_vtx (k + 2) (by omega)).symm this
  · rw [hlen] at hk
    have hk2 : k < 2 := by omega
    interval_cases k
    · show (0 : ℝ) < 3 / 4; norm_num
    · show hdCut < 1; linarith
  · rw [hlen] at hk
    have hk2 : k < 2 := by omega
    rw [hb_par 3 k hk2]
    interval_cases k
    · left; rw [hd_par0]; unfold IsLine; norm_num
    · right
      rw [hd_par1]
      show _ ≤ |Real.tan ((1 - hdCut) * Real.arctan 1)|
      rw [Real.arctan_one]; exact b1
  · rw [hlen] at hk
    have hk0 : k = 0 := by omega
    subst hk0
    exact absurd hd_line h
  · rw [hb_raw]
    have v0 : vtx ⟨[⟨0, 3, 0⟩, ⟨12, 3, hbBulge⟩, ⟨3, 0, 0⟩], false⟩ 0 = ⟨0, 3, 0⟩ := rfl
    have v1 : vtx ⟨[⟨0, 3, 0⟩, ⟨12, 3, hbBulge⟩, ⟨3, 0, 0⟩], false⟩ 1 = ⟨12, 3, hbBulge⟩ := rfl
    have v2 : vtx ⟨[⟨0, 3, 0⟩, ⟨12, 3, hbBulge⟩, ⟨3, 0, 0⟩], false⟩ 2 = ⟨3, 0, 0⟩ := rfl
    refine ⟨rfl, by norm_num, fun i hi => ?_⟩
    have hi2 : i < 2 := by have : i + 1 < 3 := hi; omega
    interval_cases i <;> simp only [Nat.reduceAdd, v0, v1, v2]
    · exact ⟨Or.inl (by unfold IsLine; norm_num), FarApart.fuzzy (by unfold FarApart Vertex.pos; norm_num [abs_of_pos, abs_of_neg])⟩
    · exact ⟨Or.inr ⟨by unfold IsLine; exact not_lt.mpr b1, b2⟩, FarApart.fuzzy (by unfold FarApart Vertex.pos; norm_num [abs_of_pos, abs_of_neg])⟩

end Cavc
