import Verif.Props.Boxes
import Verif.Props.Options

/-! # C58: the extents read from an index made by the C interface -/

namespace Cavc
open Pline

/-- the fold of `extents` is the union of the boxes -/
theorem extents_union : ∀ (l : List (Vertex ℝ)) (v : Vertex ℝ) (r : AABB ℝ), r.Contains v.pos →
    (∀ s ∈ pathSegs (v :: l), BoxedSeg s) →
    (pathSegs (v :: l)).foldl extentsStep r =
      ((pathSegs (v :: l)).map fun s => segBoundingBox s.1 s.2).foldl AABB.union r
  | [], _, _, _, _ => rfl
  | w :: l, v, r, hr, hb => by
    have hps : pathSegs (v :: w :: l) = (v, w) :: pathSegs (w :: l) := rfl
    rw [hps] at hb ⊢
    have hbox := (C33_exact_box v w (hb (v, w) (by simp))).1
    have hstep : extentsStep r (v, w) = AABB.union r (segBoundingBox v w) := extentsStep_eq r (v, w) hr
    rw [List.foldl_cons, List.map_cons, List.foldl_cons, ← hstep]
    refine extents_union l w _ ?_ (fun s hs => hb s (List.mem_cons_of_mem _ hs))
    rw [hstep]
    exact Contains_mono (hbox _ (onSeg_end v w)) (min_le_right _ _) (min_le_right _ _) (le_max_right _ _)
      (le_max_right _ _)

theorem extents_bounds (p : Pline ℝ) (h : ∀ s ∈ p.segs, BoxedSeg s) : p.extents = .ok (boundsOf p.aabbBoxes.2) := by
  unfold extents aabbBoxes
  have hlen := segs_length p
  match hv : p.verts with
  | [] => simp [segmentCount, vertexCount, hv, boundsOf]
  | [a] => simp [segmentCount, vertexCount, hv, boundsOf]
  | a :: b :: r =>
    have h0 : p.segmentCount ≠ 0 := by
      unfold segmentCount vertexCount; rw [hv]; simp
      split_ifs <;> simp
    obtain ⟨l, hs⟩ : ∃ l, p.segs = pathSegs (a :: b :: l) := by
      unfold Pline.segs; rw [hv]; dsimp only
      split_ifs
      · exact ⟨r ++ [a], rfl⟩
      · exact ⟨r, rfl⟩
    have hps : pathSegs (a :: b :: l) = (a, b) :: pathSegs (b :: l) := rfl
    have h2 : ¬ p.vertexCount < 2 := by unfold vertexCount; rw [hv]; simp
    rw [if_neg h0]
    simp only [if_neg h2]
    rw [at_ok (v := a) (by rw [hv]; rfl)]
    simp only [bind, Except.bind]
    have hr : (⟨a.x, a.y, a.x, a.y⟩ : AABB ℝ).Contains a.pos :=
      ⟨le_refl _, le_refl _, le_refl _, le_refl _⟩
    rw [hs] at h ⊢
    rw [extents_union (b :: l) a _ hr h, hps]
    have hab := (C33_exact_box a b (h (a, b) (by rw [hps]; simp))).1 _ (onSeg_start a b)
    obtain ⟨q1, q2, q3, q4⟩ := hab
    have hu : AABB.union ⟨a.x, a.y, a.x, a.y⟩ (segBoundingBox a b) = segBoundingBox a b := by
      show (⟨min a.x _, min a.y _, max a.x _, max a.y _⟩ : AABB ℝ) = _
      rw [min_eq_right (by exact q1), min_eq_right (by exact q3), max_eq_right (by exact q2), max_eq_right (by exact q4)]
    simp only [List.map_cons, List.foldl_cons, boundsOf, hu]

/-- **C58** the extents read from the exact index made by the C interface are the extents of the
polyline: the very box that `extents` returns, or none when the polyline has no segment. -/
theorem C58_exact_index (env : Env ℝ) (h : Heap ℝ) (hk : h.Ok) (p : Ptr) (pl : Pline ℝ)
    (hp : h.plineAt p = some (pl.verts, pl.closed)) (hb : ∀ s ∈ pl.segs, BoxedSeg s) :
    ∃ h' i r, exec env h (.createAabbIndex p) = some (h', 0, some (.ptr i)) ∧ pl.extents = .ok r ∧
      exec env h' (.aabbIndexGetExtents i) = some (h', 0, some (.boxOrNaN r)) := by
  have hne := pline_ne hk hp
  have hc : h.cells p = some (.pline pl) := pline_cell hp
  have hi0 : h.next ≠ 0 := Nat.pos_iff_ne_zero.mp hk.1
  refine ⟨(h.alloc (.aabbindex pl.aabbBoxes.2)).2, h.next, _, ?_, extents_bounds pl hb, ?_⟩
  · simp only [exec, plineCreateAabbIndex, withPline, if_neg hne, hc]
    rfl
  · have hci : (h.alloc (.aabbindex pl.aabbBoxes.2)).2.cells h.next = some (.aabbindex pl.aabbBoxes.2) := by
      simp [Heap.alloc]
    simp only [exec, aabbIndexGetExtents, if_neg hi0, hci]
    rfl

/-- A heap with one polyline, made of an arc and its chord. -/
example : ∃ h : Heap ℝ, h.Ok ∧ h.plineAt 1 = some ([⟨2, 0, 2 / 5⟩, ⟨0, 2, 0⟩], true) ∧
    ∀ s ∈ (⟨[⟨2, 0, 2 / 5⟩, ⟨0, 2, 0⟩], true⟩ : Pline ℝ).segs, BoxedSeg s := by
  refine ⟨⟨fun p => if p = 1 then some (.pline ⟨[⟨2, 0, 2 / 5⟩, ⟨0, 2, 0⟩], true⟩) else none, 2⟩,
    ⟨by decide, rfl, fun p hp => if_neg (by rintro rfl; exact absurd hp (by decide))⟩, rfl, ?_⟩
  intro s hs
  simp only [Pline.segs, if_true, List.cons_append, List.nil_append, pathSegs, List.mem_cons, List.not_mem_nil, or_false] at hs
  rcases hs with rfl | rfl
  · refine Or.inr ⟨⟨by norm_num [IsLine], by norm_num [abs_of_pos], ?_⟩, ?_⟩
    · simp [Vertex.pos]
    · simp [V2.fuzzyEq, V2.fuzzyEqEps, Scalar.fuzzyEqEps, Vertex.pos]
      norm_num
  · exact Or.inl (by norm_num [IsLine])

end Cavc
