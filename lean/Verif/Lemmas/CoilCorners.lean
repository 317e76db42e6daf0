import Verif.Lemmas.BoxSelf
import Verif.Lemmas.SelfKeeps
import Verif.Lemmas.StraightClean

/-! # Example: the corners of the coil, and what crosses its raw offset -/

set_option linter.unusedVariables false

namespace Cavc
open RealScalar Pline

theorem cl_clean_in : CleanCorners coil 2 (straightCorner coil 2) := straight_clean cl_straight (by norm_num) (by norm_num) cl_clearOffset_in.corners

theorem cl_clean_out : CleanCorners coil (-2) (straightCorner coil (-2)) := straight_clean cl_straight (by norm_num) (by norm_num) cl_clearOffset_out.corners

theorem cl_free : FreeCuts coil 2 (straightCorner coil 2) := straight_free cl_straight (by norm_num) (by norm_num) cl_clearOffset_in.corners

theorem lin_deriv (a b t : ℝ) : HasDerivAt (fun s : ℝ => a + b * s) b t := by
  simpa using ((hasDerivAt_id t).const_mul b).const_add a

theorem cl_kinds : ∀ a ∈ clCuts, LoopCutKind clR clD clCuts a := by
  obtain ⟨e1, e2, e3, e4⟩ := cl_cut_pts
  have m2 : ((1, 10 / 26) : Cut) ∈ clCuts := cl_cut.mpr (Or.inl ⟨rfl, Or.inr rfl⟩)
  have m3 : ((4, 16 / 26) : Cut) ∈ clCuts := cl_cut.mpr (Or.inr ⟨rfl, Or.inl rfl⟩)
  have dx1 : ∀ t : ℝ, HasDerivAt (fun s => (curveAt clR 1 s).x) 0 t := fun t => by
    simp only [fun s => (clR_curve s).2.1]; exact hasDerivAt_const t 28
  have dy1 : ∀ t : ℝ, HasDerivAt (fun s => (curveAt clR 1 s).y) 26 t := fun t => by
    simp only [fun s => (clR_curve s).2.1]; exact lin_deriv 2 26 t
  have dx4 : ∀ t : ℝ, HasDerivAt (fun s => (curveAt clR 4 s).x) 26 t := fun t => by
    simp only [fun s => (clR_curve s).2.2.2.2.1]; exact lin_deriv 12 26 t
  have dy4 : ∀ t : ℝ, HasDerivAt (fun s => (curveAt clR 4 s).y) 0 t := fun t => by
    simp only [fun s => (clR_curve s).2.2.2.2.1]; exact hasDerivAt_const t 12
  have dx8 : ∀ t : ℝ, HasDerivAt (fun s => (curveAt clD 8 s).x) 30 t := fun t => by
    simp only [fun s => (clD_curve s).1]; exact lin_deriv 10 30 t
  have dy8 : ∀ t : ℝ, HasDerivAt (fun s => (curveAt clD 8 s).y) 0 t := fun t => by
    simp only [fun s => (clD_curve s).1]; exact hasDerivAt_const t 8
  have dx2 : ∀ t : ℝ, HasDerivAt (fun s => (curveAt clD 2 s).x) 0 t := fun t => by
    simp only [fun s => (clD_curve s).2]; exact hasDerivAt_const t 32
  have dy2 : ∀ t : ℝ, HasDerivAt (fun s => (curveAt clD 2 s).y) 30 t := fun t => by
    simp only [fun s => (clD_curve s).2]; simpa using lin_deriv 0 30 t
  -- no other segment of the other raw offset passes these points
  have hany : ∀ i, i < 8 → ∀ t, 0 ≤ t → t ≤ 1 → ∀ j u, j < clD.verts.length → 0 ≤ u → u ≤ 1 → curveAt clD j u = curveAt clR i t → (i = 1 ∧ j = 8) ∨ (i = 4 ∧ j = 2) := by
    intro i hi t t0 t1 j u hj u0 u1 h
    rw [clD_len] at hj
    rcases cl_apart i j hi hj with ⟨rfl, rfl⟩ | ⟨rfl, rfl⟩ | h'
    · exact Or.inl ⟨rfl, rfl⟩
    · exact Or.inr ⟨rfl, rfl⟩
    · exfalso
      have a := C33_fast_box _ _ (loop_shape clD_full j) (curveAt clD j u) ⟨u, u0, u1, curveAt_vtx (by rw [clD_len]; norm_num) _ _⟩
      have b := C33_fast_box (vtx clR i) (vtx clR (i + 1)) (loop_shape clR_full i) (curveAt clR i t) ⟨t, t0, t1, curveAt_vtx (by decide) _ _⟩
      rw [h] at a
      obtain ⟨a1, a2, a3, a4⟩ := a
      obtain ⟨b1, b2, b3, b4⟩ := b
      obtain ⟨c1, c2, c3, c4⟩ := clR_boxes i hi
      obtain ⟨d1, d2, d3, d4⟩ := clD_boxes j hj
      unfold segBox at c1 c2 c3 c4 d1 d2 d3 d4
      rcases h' with h' | h' | h' | h' <;> linarith
  refine cl_all (.dual 8 (18 / 30) (by rw [clD_len]; norm_num) (by norm_num) ?_ ?_ ?_ ?_) (.self _ m3 (by decide) (by dsimp only; rw [e2, e3]) ?_ ?_ ?_)
    (.self _ m2 (by decide) (by dsimp only; rw [e2, e3]) ?_ ?_ ?_) (.dual 2 (12 / 30) (by rw [clD_len]; norm_num) (by norm_num) ?_ ?_ ?_ ?_)
  · dsimp only; rw [e1, (clD_curve _).1]; norm_num
  · intro j u hj u0 u1 h
    rcases hany 1 (by norm_num) _ (by norm_num) (by norm_num) j u hj u0 u1 h with ⟨-, h⟩ | ⟨h, -⟩
    · exact h
    · norm_num at h
  · intro a b a' b' h1 h2 h3 h4
    rw [h1.unique (dx1 _), h2.unique (dy1 _), h3.unique (dx8 _), h4.unique (dy8 _)]; norm_num
  · refine cl_all ?_ ?_ ?_ ?_ <;> dsimp only <;> simp only [e1, e2, e3, e4, V2.mk.injEq] <;> norm_num
  · refine cl_all ?_ ?_ ?_ ?_ <;> dsimp only <;> simp only [e1, e2, e3, e4, V2.mk.injEq] <;> norm_num
  · intro a b a' b' h1 h2 h3 h4
    rw [h1.unique (dx1 _), h2.unique (dy1 _), h3.unique (dx4 _), h4.unique (dy4 _)]; norm_num
  · intro h
    rcases cl_common 1 (by norm_num) (by norm_num) (by norm_num) h with ⟨-, h⟩ | ⟨h, -⟩ <;> norm_num at h
  · refine cl_all ?_ ?_ ?_ ?_ <;> dsimp only <;> simp only [e1, e2, e3, e4, V2.mk.injEq] <;> norm_num
  · intro a b a' b' h1 h2 h3 h4
    rw [h1.unique (dx4 _), h2.unique (dy4 _), h3.unique (dx1 _), h4.unique (dy1 _)]; norm_num
  · intro h
    rcases cl_common 4 (by norm_num) (by norm_num) (by norm_num) h with ⟨h, -⟩ | ⟨-, h⟩ <;> norm_num at h
  · dsimp only; rw [e4, (clD_curve _).2]; norm_num
  · intro j u hj u0 u1 h
    rcases hany 4 (by norm_num) _ (by norm_num) (by norm_num) j u hj u0 u1 h with ⟨h, -⟩ | ⟨-, h⟩
    · norm_num at h
    · exact h
  · intro a b a' b' h1 h2 h3 h4
    rw [h1.unique (dx4 _), h2.unique (dy4 _), h3.unique (dx2 _), h4.unique (dy2 _)]; norm_num
  · refine cl_all ?_ ?_ ?_ ?_ <;> dsimp only <;> simp only [e1, e2, e3, e4, V2.mk.injEq] <;> norm_num

end Cavc
