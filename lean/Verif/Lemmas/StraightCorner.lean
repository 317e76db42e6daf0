import Verif.Lemmas.House
import Verif.Props.OffsetArcs
import Verif.Props.OffsetStraight

/-! # The corners of straight polylines, as corners of polylines of lines and arcs -/

set_option linter.unusedVariables false

namespace Cavc
open RealScalar Pline

variable {p : Pline ℝ} {d eps : ℝ}

open Classical in
/-- What happens at the corner after segment `k` of a straight polyline. -/
noncomputable def straightCorner (p : Pline ℝ) (d : ℝ) (k : Nat) : Corner :=
  if Mitred p d k then .cut (1 - setbackAt p d k / sideLen p k) (setbackAt p d k / sideLen p (k + 1))
  else if setbackAt p d k < 0 then .link (Real.tan (halfTurn (cornerPos p k) (cornerPos p (k + 1)) (cornerPos p (k + 2)) / 2))
  else .link 0

theorem straightCorner_mod (hn : 0 < p.verts.length) (k : Nat) : straightCorner p d (k % p.verts.length) = straightCorner p d k := by
  unfold straightCorner
  have h1 : ∀ j, cornerPos p (k % p.verts.length + j) = cornerPos p (k + j) := fun j => cornerPos_congr (p := p) (m := k % p.verts.length) (k := k) (Nat.mod_mod _ _) j
  have h2 : ∀ j, sideLen p (k % p.verts.length + j) = sideLen p (k + j) := fun j => sideLen_congr (by rw [Nat.mod_add_mod])
  have h3 := h1 0
  have h4 := h2 0
  simp only [Nat.add_zero] at h3 h4
  have h5 := setbackAt_congr (p := p) (d := d) (m := k % p.verts.length) (k := k) (Nat.mod_mod _ _)
  have h6 : Mitred p d (k % p.verts.length) = Mitred p d k := by unfold Mitred; rw [h5, h4, h2 1]
  simp only [h1, h2, h3, h4, h5]
  by_cases h : Mitred p d k
  · rw [if_pos h, if_pos (h6 ▸ h)]
  · rw [if_neg h, if_neg (h6 ▸ h)]

theorem straight_enter (hn : 0 < p.verts.length) {k : Nat} : enterAt p (straightCorner p d) k = sideStart p d k := by
  unfold enterAt sideStart
  rw [straightCorner_mod hn]
  unfold straightCorner
  have e : sideLen p (k + p.verts.length - 1 + 1) = sideLen p k := sideLen_congr (by
    rw [show k + p.verts.length - 1 + 1 = k + p.verts.length from by omega, Nat.add_mod_right])
  split_ifs
  · simp only [Corner.start, e]
  · rfl
  · rfl

theorem straight_leave (hn : 0 < p.verts.length) {k : Nat} : leaveAt p (straightCorner p d) k = sideEnd p d k := by
  unfold leaveAt sideEnd
  rw [straightCorner_mod hn]
  unfold straightCorner
  split_ifs <;> rfl

theorem par_point (hl : IsLine (vtx p k)) (t : ℝ) : segCurve (parAt p d k).1 (parAt p d k).2 t = sidePt p d k t := by
  rw [par_line hl]
  dsimp only [Vertex.ofV2]
  rw [segCurve_line (box4_line _ _)]
  unfold sidePt moved linePoint Vertex.pos
  dsimp only
  rw [V2.mk.injEq]
  constructor <;> ring

theorem straight_raw (hp : StraightLoop p) : rawWith p d (straightCorner p d) = rawLoop p d := by
  have hn : 0 < p.verts.length := by have := hp.two; omega
  unfold rawWith rawLoop loopParts
  rw [List.map_flatMap]
  congr 1
  refine List.flatMap_congr fun k hk => ?_
  have hv : partVertex (parAt p d k) (enterAt p (straightCorner p d) k) (leaveAt p (straightCorner p d) k) = RawPart.start p d (.side k) := by
    unfold partVertex RawPart.start
    rw [par_point (hp.line k), straight_enter hn, par_line (hp.line k)]
    simp [Vertex.ofV2]
  have hl : (parAt p d k).2.pos = sidePt p d k 1 := by rw [par_line (hp.line k)]; rfl
  rw [hv]
  unfold linkVertex
  rw [straightCorner_mod hn]
  unfold straightCorner
  split_ifs with h1 h2
  · rfl
  · simp only [List.map_cons, List.map_nil, RawPart.start, if_pos h2, hl]
  · simp only [List.map_cons, List.map_nil, RawPart.start, if_neg h2, hl]

/-- A straight polyline with clear corners and with sides that are not used up is one of those with clear corners. -/
theorem straight_clear (hp : StraightLoop p) (hf : FullLoop p eps) (hd : d ≠ 0) (hc : ∀ k, ClearTurn p d eps k)
    (hw : ∀ k, sideStart p d k < sideEnd p d k) (hfull : FullLoop (rawLoop p d) eps)
    (h0 : (sidePt p d 0 0).fuzzyEqEps (vtx (rawLoop p d) 1).pos eps = false) : ClearOffset p d (straightCorner p d) eps := by
  have hn : 0 < p.verts.length := by have := hp.two; omega
  refine ⟨hf, hd, fun k => Or.inl (hp.line k), fun k hk => ?_, fun k => ?_, fun k => Or.inl ?_, fun k h => absurd (hp.line k) h, ?_, ?_⟩
  · unfold straightCorner
    split_ifs with h1 h2
    · exact .mitre (hp.line k) (hp.line (k + 1)) (hc k) h1
    · exact .round (hp.line k) (hp.line (k + 1)) (hc k) h2
    · exact .chord (hp.line k) (hp.line (k + 1)) (hc k) h1 (not_lt.mp h2)
  · rw [straight_enter hn, straight_leave hn]; exact hw k
  · rw [par_line (hp.line k)]; exact box4_line _ _
  · rw [straight_raw hp]; exact hfull
  · rw [straight_raw hp, par_line (hp.line 0)]; exact h0

end Cavc
