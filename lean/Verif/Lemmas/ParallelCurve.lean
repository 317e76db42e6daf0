import Verif.Lemmas.CornerFrame
import Verif.Lemmas.OffsetArcsJoin

/-! # The raw offset with clean corners, and the parallel curve -/

set_option linter.unusedVariables false
set_option linter.unusedSectionVars false

namespace Cavc
open RealScalar Pline

theorem vtx_mod_add (p : Pline ℝ) (i j : Nat) : vtx p (i % p.verts.length + j) = vtx p (i + j) := by
  unfold vtx cycAt; rw [Nat.mod_add_mod]

section
variable (p : Pline ℝ) (d : ℝ) (k : Nat)

theorem parCurve_mod : parCurve p d (k % p.verts.length) = parCurve p d k := by
  unfold parCurve parAt; rw [vtx_mod, vtx_mod_succ]

theorem parCurve_mod_succ : parCurve p d (k % p.verts.length + 1) = parCurve p d (k + 1) := by
  unfold parCurve parAt; rw [vtx_mod_succ, Nat.add_assoc, vtx_mod_add]

theorem corner_mod : cornerPos p (k % p.verts.length + 1) = cornerPos p (k + 1) ∧ arriveFrom p (k % p.verts.length) = arriveFrom p k ∧
    departTo p (k % p.verts.length) = departTo p k := by
  unfold arriveFrom departTo cornerPos
  rw [vtx_mod, vtx_mod_succ, vtx_mod_add p k 2]
  exact ⟨rfl, rfl, rfl⟩

theorem cornerSin_mod : cornerSin p (k % p.verts.length) = cornerSin p k := by
  obtain ⟨h1, h2, h3⟩ := corner_mod p k
  unfold cornerSin; rw [h1, h2, h3]

theorem cornerCos_mod : cornerCos p (k % p.verts.length) = cornerCos p k := by
  obtain ⟨h1, h2, h3⟩ := corner_mod p k
  unfold cornerCos; rw [h1, h2, h3]

theorem roundArc_mod : roundArc p d (k % p.verts.length) = roundArc p d k := by
  obtain ⟨h1, h2, h3⟩ := corner_mod p k
  funext t
  unfold roundArc; rw [h1, h2, h3]

end

section
variable {p : Pline ℝ} {d eps : ℝ} {c : Nat → Corner}

/-- the link at an outer corner is the arc around it -/
theorem round_link (hp : FullLoop p eps) (he : 0 < eps) {k : Nat} (hs : cornerSin p k ≠ 0) (hb : 1 / 100000000 ≤ |Real.tan (cornerHalf p k / 2)|) (t : ℝ) :
    segCurve (Vertex.ofV2 (parCurve p d k 1) (Real.tan (cornerHalf p k / 2))) (Vertex.ofV2 (parCurve p d (k + 1) 0) 0) t = roundArc p d k t := by
  have hnl : ¬ IsLine (Vertex.ofV2 (parCurve p d k 1) (Real.tan (cornerHalf p k / 2))) := by
    unfold IsLine
    simp only [Vertex.ofV2]
    linarith
  rw [segCurve_arc hnl]
  obtain ⟨b1, b2⟩ := halfTurn_bounds (arriveFrom p k) (cornerPos p (k + 1)) (departTo p k)
  have hH : cornerHalf p k = halfTurn (arriveFrom p k) (cornerPos p (k + 1)) (departTo p k) := rfl
  rw [← hH] at b1 b2
  set H := cornerHalf p k
  have hat : 4 * Real.arctan (Real.tan (H / 2)) = 2 * H := by
    rw [Real.arctan_tan (by linarith) (by linarith)]; ring
  have hb0 : Real.tan (H / 2) ≠ 0 := by
    intro h0
    rw [h0, abs_zero] at hb
    norm_num at hb
  have hrot := corner_rot (arrive_ne hp he k) (depart_ne hp he k) hs d
  rw [V2.ext_iff', ← par_arrive hp he, ← par_depart hp he, ← hH] at hrot
  have hcen : arcCenter (parCurve p d k 1) (parCurve p d (k + 1) 0) (Real.tan (H / 2)) = cornerPos p (k + 1) :=
    arcCenter_of_rot hb0 (by rw [hat]; exact hrot.1) (by rw [hat]; exact hrot.2)
  show arcPoint (parCurve p d k 1) (parCurve p d (k + 1) 0) (Real.tan (H / 2)) t = _
  unfold arcPoint roundArc cornerArc
  rw [hcen, hat, ← par_arrive hp he, ← hH]

/-- With clean corners, the parallel curve is what keeps the distance along the raw offset. -/
theorem raw_parallel (he : 0 < eps) (h : ClearOffset p d c eps) (hC : CleanCorners p d c) (X : V2 ℝ) :
    OnPline (rawWith p d c) X ∧ Keeps p |d| X ↔ ParallelPt p d X := by
  have hp := h.loop
  have hr := run_facts he h
  have hn : 0 < p.verts.length := by have := hp.two; omega
  rw [raw_points hr]
  constructor
  · rintro ⟨⟨k, hk, t, h1, h2, rfl⟩ | ⟨k, hk, b, hb, t, t0, t1, rfl⟩, hX⟩
    · exact ⟨hX, Or.inl ⟨k, t, (hr.lo0 k).trans h1, h2.trans (hr.hi1 k), rfl⟩⟩
    · refine ⟨hX, Or.inr ?_⟩
      have := hC k hk
      rw [hb] at this
      cases this with
      | round side bent => exact ⟨k, t, side, t0, t1, round_link hp he (by rintro e; rw [e, mul_zero] at side; exact lt_irrefl _ side) bent t⟩
      | lost _ side near => exact absurd hX (near _ ⟨t, t0, t1, rfl⟩)
  · rintro ⟨hX, ⟨k, u, u0, u1, rfl⟩ | ⟨k, t, side, t0, t1, rfl⟩⟩
    · refine ⟨Or.inl ⟨k % p.verts.length, Nat.mod_lt _ hn, u, ?_, ?_, by rw [parCurve_mod]⟩, hX⟩
      · have hj := Nat.mod_lt (k % p.verts.length + p.verts.length - 1) hn
        have hcor := hC _ hj
        unfold enterAt
        have hsucc : parCurve p d ((k % p.verts.length + p.verts.length - 1) % p.verts.length + 1) = parCurve p d k := by
          rw [parCurve_mod_succ, ← parCurve_mod, Nat.sub_add_cancel (by omega), Nat.add_mod_right, Nat.mod_mod, parCurve_mod]
        generalize (k % p.verts.length + p.verts.length - 1) % p.verts.length = j at hj hcor hsucc
        cases hcj : c j with
        | link b => exact u0
        | cut t v =>
          rw [hcj] at hcor
          cases hcor with
          | cut _ _ side stop start =>
            by_contra hlt
            have := start u u0 (not_le.mp hlt)
            rw [hsucc] at this
            exact this hX
      · have hj := Nat.mod_lt k hn
        have hcor := hC _ hj
        unfold leaveAt
        rw [Nat.mod_mod]
        cases hcj : c (k % p.verts.length) with
        | link b => exact u1
        | cut t v =>
          rw [hcj] at hcor
          cases hcor with
          | cut _ _ side stop start =>
            by_contra hlt
            have := stop u (not_le.mp hlt) u1
            rw [parCurve_mod] at this
            exact this hX
    · refine ⟨Or.inr ⟨k % p.verts.length, Nat.mod_lt _ hn, ?_⟩, hX⟩
      have hcor := hC _ (Nat.mod_lt k hn)
      rw [← cornerSin_mod] at side
      rw [← roundArc_mod] at hX ⊢
      generalize k % p.verts.length = j at hcor side hX
      generalize hcc : c j = cc at hcor
      cases hcor with
      | cut _ _ side' _ _ => exact absurd side (not_lt.mpr side')
      | lost _ side' _ => exact absurd side (not_lt.mpr side')
      | round _ bent =>
        exact ⟨_, rfl, t, t0, t1, (round_link hp he (by rintro e; rw [e, mul_zero] at side; exact lt_irrefl _ side) bent t).symm⟩

end

end Cavc
