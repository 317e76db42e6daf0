import Verif.Spec.OffsetOpenCurve
import Verif.Lemmas.ParallelCurve
import Verif.Lemmas.HookOffset

/-! # The raw offset of an open polyline with clean corners, and the parallel curve -/

set_option linter.unusedVariables false

namespace Cavc
open RealScalar Pline

section
variable {p : Pline ℝ} {d eps : ℝ} {c : Nat → Corner}

theorem SegOk.segShape (he : 0 < eps) {k : Nat} (h : SegOk p d eps k) : SegShape (vtx p k) (vtx p (k + 1)) := by
  have hne := h.ne he
  refine ⟨?_, hne⟩
  rcases h.full.shape with h | ⟨h1, h2⟩
  · exact Or.inl h
  · exact Or.inr ⟨h1, h2, hne⟩

/-- the link at an outer corner is the arc around it -/
theorem round_link_open (he : 0 < eps) {k : Nat} (h1 : SegOk p d eps k) (h2 : SegOk p d eps (k + 1)) (hs : cornerSin p k ≠ 0)
    (hb : 1 / 100000000 ≤ |Real.tan (cornerHalf p k / 2)|) (t : ℝ) :
    segCurve (Vertex.ofV2 (parCurve p d k 1) (Real.tan (cornerHalf p k / 2))) (Vertex.ofV2 (parCurve p d (k + 1) 0) 0) t = roundArc p d k t := by
  have hnl : ¬ IsLine (Vertex.ofV2 (parCurve p d k 1) (Real.tan (cornerHalf p k / 2))) := by
    unfold IsLine
    simp only [Vertex.ofV2]
    linarith
  have s1 := h1.segShape he
  have s2 := h2.segShape he
  have ha : arriveFrom p k ≠ cornerPos p (k + 1) := by
    intro h
    have := arrive_sq (p := p) k
    rw [h, edist_same] at this
    exact s1.len.ne this
  have hdp : cornerPos p (k + 1) ≠ departTo p k := by
    intro h
    have := depart_sq (p := p) k
    rw [← h, edist_same] at this
    exact s2.len.ne this
  have pa : parCurve p d k 1 = moved (arriveFrom p k) (cornerPos p (k + 1)) d 1 := by
    have e : parCurve p d k 1 = ⟨(segAt p k 1).x - d * ((dirAt p k 1).y / sideLen p k), (segAt p k 1).y + d * ((dirAt p k 1).x / sideLen p k)⟩ := par_eq s1 d 1
    rw [e, segAt_one]
    unfold moved
    rw [arrive_sq]
    simp only [arriveFrom]
    rw [V2.ext_iff']
    constructor <;> dsimp only <;> ring
  have pd : parCurve p d (k + 1) 0 = moved (cornerPos p (k + 1)) (departTo p k) d 0 := by
    have e : parCurve p d (k + 1) 0 = ⟨(segAt p (k + 1) 0).x - d * ((dirAt p (k + 1) 0).y / sideLen p (k + 1)),
      (segAt p (k + 1) 0).y + d * ((dirAt p (k + 1) 0).x / sideLen p (k + 1))⟩ := par_eq s2 d 0
    rw [e, segAt_zero]
    unfold moved
    rw [depart_sq]
    simp only [departTo]
    rw [V2.ext_iff']
    constructor <;> dsimp only <;> ring
  rw [segCurve_arc hnl]
  obtain ⟨b1, b2⟩ := halfTurn_bounds (arriveFrom p k) (cornerPos p (k + 1)) (departTo p k)
  have hH : cornerHalf p k = halfTurn (arriveFrom p k) (cornerPos p (k + 1)) (departTo p k) := rfl
  rw [← hH] at b1 b2
  set H := cornerHalf p k
  have hat : 4 * Real.arctan (Real.tan (H / 2)) = 2 * H := by
    rw [Real.arctan_tan (by linarith) (by linarith)]; ring
  have hb0 : Real.tan (H / 2) ≠ 0 := by
    intro h0
    rw [h0, abs_zero] at hb
    norm_num at hb
  have hrot := corner_rot ha hdp hs d
  rw [V2.ext_iff', ← pa, ← pd, ← hH] at hrot
  have hcen : arcCenter (parCurve p d k 1) (parCurve p d (k + 1) 0) (Real.tan (H / 2)) = cornerPos p (k + 1) :=
    arcCenter_of_rot hb0 (by rw [hat]; exact hrot.1) (by rw [hat]; exact hrot.2)
  show arcPoint (parCurve p d k 1) (parCurve p d (k + 1) 0) (Real.tan (H / 2)) t = _
  unfold arcPoint roundArc cornerArc
  rw [hcen, hat, ← pa, ← hH]

/-- With clean corners, the parallel curve is what keeps the distance along the raw offset. -/
theorem path_parallel (he : 0 < eps) (h : ClearPath p d c eps) (hC : CleanPath p d c) (X : V2 ℝ) :
    OnPline (rawPath p d c) X ∧ Keeps p |d| X ↔ ParallelPathPt p d X := by
  rw [path_points he h]
  have ne0 : ∀ {k}, d * cornerSin p k < 0 → cornerSin p k ≠ 0 := fun hs e => by rw [e, mul_zero] at hs; exact lt_irrefl _ hs
  constructor
  · rintro ⟨⟨k, hk, t, h1, h2, rfl⟩ | ⟨k, hk, b, hb, t, t0, t1, rfl⟩, hX⟩
    · exact ⟨hX, Or.inl ⟨k, t, hk, (h.bounds he hk).1.trans h1, h2.trans (h.bounds he hk).2, rfl⟩⟩
    · refine ⟨hX, Or.inr ?_⟩
      have := hC k hk
      rw [hb] at this
      cases this with
      | round side bent => exact ⟨k, t, hk, side, t0, t1, round_link_open he (h.ok (by omega)) (h.ok (by omega)) (ne0 side) bent t⟩
      | lost _ side near => exact absurd hX (near _ ⟨t, t0, t1, rfl⟩)
  · rintro ⟨hX, ⟨k, u, hk, u0, u1, rfl⟩ | ⟨k, t, hk, side, t0, t1, rfl⟩⟩
    · refine ⟨Or.inl ⟨k, hk, u, ?_, ?_, rfl⟩, hX⟩
      · unfold pathEnter
        split_ifs with hk0
        · exact u0
        · obtain ⟨j, rfl⟩ : ∃ j, k = j + 1 := ⟨k - 1, by omega⟩
          have hcor := hC j (by omega)
          rw [Nat.add_sub_cancel]
          cases hcj : c j with
          | link b => exact u0
          | cut t v =>
            rw [hcj] at hcor
            cases hcor with
            | cut _ _ side stop start =>
              by_contra hlt
              exact start u u0 (not_le.mp hlt) hX
      · unfold pathLeave
        split_ifs with hk2
        · have hcor := hC k hk2
          cases hcj : c k with
          | link b => exact u1
          | cut t v =>
            rw [hcj] at hcor
            cases hcor with
            | cut _ _ side stop start =>
              by_contra hlt
              exact stop u (not_le.mp hlt) u1 hX
        · exact u1
    · refine ⟨Or.inr ⟨k, hk, ?_⟩, hX⟩
      have hcor := hC k hk
      generalize hcc : c k = cc at hcor
      cases hcor with
      | cut _ _ side' _ _ => exact absurd side (not_lt.mpr side')
      | lost _ side' _ => exact absurd side (not_lt.mpr side')
      | round _ bent => exact ⟨_, rfl, t, t0, t1, (round_link_open he (h.ok (by omega)) (h.ok (by omega)) (ne0 side) bent t).symm⟩

end

/-! ## The hook -/

theorem hk_cornerSin (k : Nat) (hk : k < 3) : cornerSin hook k = 1 := by
  have h := (hk_turn k hk).1
  have ha : arriveFrom hook k = cornerPos hook k := by
    unfold arriveFrom segDir
    rw [if_pos (hk_line k (by omega)), V2.ext_iff']
    simp [cornerPos, Vertex.pos]
  have hd : departTo hook k = cornerPos hook (k + 2) := by
    unfold departTo segDir
    rw [if_pos (hk_line (k + 1) (by omega)), V2.ext_iff']
    simp [cornerPos, Vertex.pos]
  unfold cornerSin
  rw [ha, hd, h]

theorem hk_in_clean : CleanPath hook 25 hkIn := by
  intro k hk
  rw [hk_len5] at hk
  have hk3 : k < 3 := by omega
  obtain ⟨l0, l1, l2, l3⟩ := hk_sides
  have near : ∀ {X : V2 ℝ} (j : Nat) (u : ℝ), j < 4 → 0 ≤ u → u ≤ 1 → edist X (curveAt hook j u) < 25 → ¬ Keeps hook |25| X := by
    intro X j u hj u0 u1 hlt hX
    have := hX _ (hk_on j hj u0 u1)
    rw [abs_of_pos (by norm_num)] at this
    linarith
  have ed : ∀ {x y x' y' : ℝ}, (x - x') ^ 2 + (y - y') ^ 2 < 625 → edist (⟨x, y⟩ : V2 ℝ) ⟨x', y'⟩ < 25 := by
    intro x y x' y' hlt
    have h2 := edist_sq (⟨x, y⟩ : V2 ℝ) ⟨x', y'⟩
    dsimp only at h2
    nlinarith [edist_nonneg (⟨x, y⟩ : V2 ℝ) ⟨x', y'⟩]
  unfold hkIn
  refine .cut _ _ (by rw [hk_cornerSin k hk3]; norm_num) (fun s h1 h2 => ?_) (fun s h1 h2 => ?_)
  all_goals rw [hk_setback 25 k hk3] at *
  · show ¬ Keeps hook |25| (segCurve (parAt hook 25 k).1 (parAt hook 25 k).2 s)
    obtain ⟨c0, c1, c2, c3⟩ := hk_curves 25 s
    obtain rfl | rfl | rfl : k = 0 ∨ k = 1 ∨ k = 2 := by omega
    · rw [l0] at h1
      rw [c0]
      refine near 1 (1 / 4) (by norm_num) (by norm_num) (by norm_num) ?_
      rw [(hk_curve _).2.1]
      exact ed (by nlinarith)
    · rw [l1] at h1
      rw [c1]
      refine near 2 (25 / 60) (by norm_num) (by norm_num) (by norm_num) ?_
      rw [(hk_curve _).2.2.1]
      exact ed (by nlinarith)
    · rw [l2] at h1
      rw [c2]
      refine near 3 (25 / 60) (by norm_num) (by norm_num) (by norm_num) ?_
      rw [(hk_curve _).2.2.2]
      exact ed (by nlinarith)
  · show ¬ Keeps hook |25| (segCurve (parAt hook 25 (k + 1)).1 (parAt hook 25 (k + 1)).2 s)
    obtain ⟨c0, c1, c2, c3⟩ := hk_curves 25 s
    obtain rfl | rfl | rfl : k = 0 ∨ k = 1 ∨ k = 2 := by omega
    · rw [l1] at h2
      rw [c1]
      refine near 0 (3 / 4) (by norm_num) (by norm_num) (by norm_num) ?_
      rw [(hk_curve _).1]
      exact ed (by nlinarith)
    · rw [l2] at h2
      rw [c2]
      refine near 1 (3 / 4) (by norm_num) (by norm_num) (by norm_num) ?_
      rw [(hk_curve _).2.1]
      exact ed (by nlinarith)
    · rw [l3] at h2
      rw [c3]
      refine near 2 (35 / 60) (by norm_num) (by norm_num) (by norm_num) ?_
      rw [(hk_curve _).2.2.1]
      exact ed (by nlinarith)

end Cavc
