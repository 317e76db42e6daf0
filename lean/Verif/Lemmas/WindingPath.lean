import Verif.Lemmas.WindingRegion
import Verif.Props.Split
import Verif.Props.Transform

/-! # The winding number under reversal, division and movement of segments -/

set_option linter.unusedSectionVars false

namespace Cavc
open Real Pline

/-- What a segment adds to the winding number, from any continuous angle along it. -/
theorem segWinding_turn {v1 v2 : Vertex ℝ} (h : IsLine v1 ∨ ProperArc v1 v2) {pt : V2 ℝ} (hoff : ¬ OnSeg v1 v2 pt)
    {θ : ℝ → ℝ} (hθ : FollowsAngle (segCurve v1 v2) pt 0 1 θ) {a0 a1 : ℝ}
    (d0 : Dir a0 (v1.x - pt.x) (v1.y - pt.y)) (b0 : 0 < a0) (c0 : a0 ≤ 2 * π)
    (d1 : Dir a1 (v2.x - pt.x) (v2.y - pt.y)) (b1 : 0 < a1) (c1 : a1 ≤ 2 * π) :
    θ 1 - θ 0 = a1 - a0 + 2 * π * (segWinding pt (v1, v2) : ℤ) := by
  obtain ⟨ψ, hψ, h1⟩ := seg_turn v1 v2 h pt hoff
  rw [← h1 a0 a1 d0 b0 c0 d1 b1 c1]
  exact angle_change_unique zero_le_one hθ.1 hψ.1 hθ.2 hψ.2

theorem end_dirs {v1 v2 : Vertex ℝ} {pt : V2 ℝ} (hoff : ¬ OnSeg v1 v2 pt) :
    (∃ a, Dir a (v1.x - pt.x) (v1.y - pt.y) ∧ 0 < a ∧ a ≤ 2 * π) ∧
    (∃ a, Dir a (v2.x - pt.x) (v2.y - pt.y) ∧ 0 < a ∧ a ≤ 2 * π) := by
  constructor
  · apply dir_exists
    by_contra hcon
    push Not at hcon
    refine hoff ⟨0, le_rfl, zero_le_one, ?_⟩
    rw [(segCurve_ends v1 v2).1, V2.ext_iff']
    exact ⟨by simp [Vertex.pos]; linarith [hcon.1], by simp [Vertex.pos]; linarith [hcon.2]⟩
  · apply dir_exists
    by_contra hcon
    push Not at hcon
    refine hoff ⟨1, zero_le_one, le_rfl, ?_⟩
    rw [(segCurve_ends v1 v2).2, V2.ext_iff']
    exact ⟨by simp [Vertex.pos]; linarith [hcon.1], by simp [Vertex.pos]; linarith [hcon.2]⟩

theorem two_pi_cancel {a b : ℤ} (h : 2 * π * (a : ℝ) = 2 * π * b) : a = b := by
  have hp := pi_pos
  have : (a : ℝ) = b := by
    have h2 : (2 * π) ≠ 0 := by positivity
    exact mul_left_cancel₀ h2 h
  exact_mod_cast this

/-- the winding of a piece of a path -/
noncomputable def pieceWinding (pt : V2 ℝ) (s : Piece ℝ) : ℤ :=
  segWinding pt (⟨s.start.x, s.start.y, s.bulge⟩, ⟨s.stop.x, s.stop.y, 0⟩)

theorem pieceWinding_of (pt : V2 ℝ) (s : Vertex ℝ × Vertex ℝ) : pieceWinding pt (pieceOf s) = segWinding pt s := rfl

theorem segCurve_bulge2 (v1 v2 : Vertex ℝ) (b : ℝ) (t : ℝ) : segCurve v1 ⟨v2.x, v2.y, b⟩ t = segCurve v1 v2 t := rfl

theorem segCurve_flip (v1 v2 : Vertex ℝ) (h : IsLine v1 ∨ ProperArc v1 v2) (b t : ℝ) :
    segCurve ⟨v2.x, v2.y, -v1.bulge⟩ ⟨v1.x, v1.y, b⟩ t = segCurve v1 v2 (1 - t) := by
  by_cases hl : IsLine v1
  · have hl' : IsLine (⟨v2.x, v2.y, -v1.bulge⟩ : Vertex ℝ) := by
      unfold IsLine at *; simpa using hl
    rw [segCurve_line hl', segCurve_line hl, V2.ext_iff']
    simp only [linePoint, Vertex.pos]
    constructor <;> ring
  · have hl' : ¬ IsLine (⟨v2.x, v2.y, -v1.bulge⟩ : Vertex ℝ) := by
      unfold IsLine at *; simpa using hl
    rw [segCurve_arc hl', segCurve_arc hl]
    exact arcPoint_swap _ _ _ t (bulge_ne_zero hl)

theorem flip_proper {v1 v2 : Vertex ℝ} (h : IsLine v1 ∨ ProperArc v1 v2) (b : ℝ) :
    IsLine (⟨v2.x, v2.y, -v1.bulge⟩ : Vertex ℝ) ∨ ProperArc (⟨v2.x, v2.y, -v1.bulge⟩ : Vertex ℝ) ⟨v1.x, v1.y, b⟩ := by
  rcases h with h | h
  · left; unfold IsLine at *; simpa using h
  · right
    refine ⟨?_, ?_, ?_⟩
    · have := h.notLine; unfold IsLine at *; simpa using this
    · simpa using h.half
    · exact fun e => h.ne e.symm

/-- A segment travelled backwards turns by the opposite. -/
theorem segWinding_flip {v1 v2 : Vertex ℝ} (h : IsLine v1 ∨ ProperArc v1 v2) {pt : V2 ℝ} (hoff : ¬ OnSeg v1 v2 pt) (b : ℝ) :
    segWinding pt (⟨v2.x, v2.y, -v1.bulge⟩, ⟨v1.x, v1.y, b⟩) = -segWinding pt (v1, v2) := by
  obtain ⟨⟨a0, d0, b0, c0⟩, ⟨a1, d1, b1, c1⟩⟩ := end_dirs hoff
  obtain ⟨θ, hθ, -⟩ := seg_turn v1 v2 h pt hoff
  have e1 := segWinding_turn h hoff hθ d0 b0 c0 d1 b1 c1
  have hoff' : ¬ OnSeg (⟨v2.x, v2.y, -v1.bulge⟩ : Vertex ℝ) ⟨v1.x, v1.y, b⟩ pt := by
    rintro ⟨t, h0, h1, e⟩
    rw [segCurve_flip v1 v2 h] at e
    exact hoff ⟨1 - t, by linarith, by linarith, e⟩
  have hθ' : FollowsAngle (segCurve (⟨v2.x, v2.y, -v1.bulge⟩ : Vertex ℝ) ⟨v1.x, v1.y, b⟩) pt 0 1 (fun t => θ (1 - t)) := by
    constructor
    · refine hθ.1.comp (continuousOn_const.sub continuousOn_id) ?_
      intro t ht
      exact ⟨by simp; exact ht.2, by simp; exact ht.1⟩
    · intro t ht
      rw [segCurve_flip v1 v2 h]
      exact hθ.2 (1 - t) ⟨by linarith [ht.2], by linarith [ht.1]⟩
  have e2 := segWinding_turn (flip_proper h b) hoff' hθ' d1 b1 c1 d0 b0 c0
  simp only [sub_self, sub_zero] at e2
  apply two_pi_cancel
  push_cast
  linarith

/-- A segment divided in two turns by the sum. -/
theorem segWinding_split {v1 m v2 u : Vertex ℝ} (h : IsLine v1 ∨ ProperArc v1 v2)
    (h1 : IsLine u ∨ ProperArc u m) (h2 : IsLine m ∨ ProperArc m v2) {t : ℝ} (ht0 : 0 ≤ t) (ht1 : t ≤ 1)
    (e1 : ∀ s, segCurve u m s = segCurve v1 v2 (t * s)) (e2 : ∀ s, segCurve m v2 s = segCurve v1 v2 (t + (1 - t) * s))
    {pt : V2 ℝ} (hoff : ¬ OnSeg v1 v2 pt) :
    segWinding pt (u, m) + segWinding pt (m, v2) = segWinding pt (v1, v2) := by
  have o1 : ¬ OnSeg u m pt := by
    rintro ⟨s, s0, s1, e⟩
    rw [e1] at e
    exact hoff ⟨t * s, by positivity, by nlinarith, e⟩
  have o2 : ¬ OnSeg m v2 pt := by
    rintro ⟨s, s0, s1, e⟩
    rw [e2] at e
    exact hoff ⟨t + (1 - t) * s, by nlinarith, by nlinarith, e⟩
  have hu : u.pos = v1.pos := by
    rw [← (segCurve_ends u m).1, ← (segCurve_ends v1 v2).1, e1, mul_zero]
  have hux : u.x = v1.x := congrArg V2.x hu
  have huy : u.y = v1.y := congrArg V2.y hu
  obtain ⟨⟨a0, d0, b0, c0⟩, ⟨a1, d1, b1, c1⟩⟩ := end_dirs hoff
  obtain ⟨-, ⟨am, dm, bm, cm⟩⟩ := end_dirs o1
  obtain ⟨θ, hθ, -⟩ := seg_turn v1 v2 h pt hoff
  have f0 := segWinding_turn h hoff hθ d0 b0 c0 d1 b1 c1
  have g1 : FollowsAngle (segCurve u m) pt 0 1 (fun s => θ (t * s)) := by
    constructor
    · refine hθ.1.comp (continuousOn_const.mul continuousOn_id) ?_
      intro s hs
      exact ⟨mul_nonneg ht0 hs.1, by have := hs.1; have := hs.2; show t * s ≤ 1; nlinarith⟩
    · intro s hs
      rw [e1]
      exact hθ.2 _ ⟨mul_nonneg ht0 hs.1, by have := hs.1; have := hs.2; nlinarith⟩
  have g2 : FollowsAngle (segCurve m v2) pt 0 1 (fun s => θ (t + (1 - t) * s)) := by
    constructor
    · refine hθ.1.comp (continuousOn_const.add (continuousOn_const.mul continuousOn_id)) ?_
      intro s hs
      have := hs.1; have := hs.2
      exact ⟨by show 0 ≤ t + (1 - t) * s; nlinarith, by show t + (1 - t) * s ≤ 1; nlinarith⟩
    · intro s hs
      rw [e2]
      have := hs.1; have := hs.2
      exact hθ.2 _ ⟨by nlinarith, by nlinarith⟩
  have f1 := segWinding_turn h1 o1 g1 (by rw [hux, huy]; exact d0) b0 c0 dm bm cm
  have f2 := segWinding_turn h2 o2 g2 dm bm cm d1 b1 c1
  simp only [mul_zero, mul_one, add_zero] at f1 f2
  rw [show t + (1 - t) = 1 by ring] at f2
  apply two_pi_cancel
  push_cast
  linarith

/-- the sum over the segments -/
theorem windingNumber_sum (p : Pline ℝ) (hc : p.closed = true) (h2 : 2 ≤ p.verts.length) (pt : V2 ℝ) :
    p.windingNumber pt = (p.path.map (pieceWinding pt)).sum := by
  unfold windingNumber vertexCount
  rw [if_neg (by simp [hc]; omega), foldl_sum, zero_add]
  unfold Pline.path
  rw [List.map_map]
  rfl

end Cavc
