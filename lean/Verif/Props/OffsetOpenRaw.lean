import Verif.Lemmas.Hook
import Verif.Lemmas.HalfDiscOpen

/-! # C69: the raw offset of open polylines of lines and arcs

The specification is in `Verif/Spec/OffsetOpenRaw.lean`. -/

namespace Cavc
open RealScalar Pline

section
variable {p : Pline ℝ} {d eps : ℝ} {c : Nat → Corner}

/-- **C69** The raw offset of an open polyline of lines and arcs is the chain of the parallel segments, cut or linked at every corner as
the specification says; it starts with the start of the first parallel segment, and ends with the end of the last one. -/
theorem C69_raw (he : 0 < eps) (h : ClearPath p d c eps) : createRawOffsetPolyline p d eps = .ok (rawPath p d c) := raw_clear_open he h

/-- **C69** The points of the raw offset are the points of what is left of the parallel segments and the points of the links. -/
theorem C69_points {R : Pline ℝ} (he : 0 < eps) (h : ClearPath p d c eps) (hR : createRawOffsetPolyline p d eps = .ok R) :
    R.closed = false ∧ ∀ X, OnPline R X ↔
      (∃ k, k + 1 < p.verts.length ∧ ∃ t, pathEnter c k ≤ t ∧ t ≤ pathLeave p c k ∧ X = parCurve p d k t) ∨
      ∃ k, k + 2 < p.verts.length ∧ ∃ b, c k = .link b ∧ OnSeg (Vertex.ofV2 (parCurve p d k 1) b) (Vertex.ofV2 (parCurve p d (k + 1) 0) 0) X := by
  rw [raw_clear_open he h] at hR
  cases hR
  exact ⟨rfl, path_points he h⟩

/-- **C69** The parallel segments are the segments of the polyline moved to the left. -/
theorem C69_parallel (he : 0 < eps) (h : ClearPath p d c eps) {k : Nat} (hk : k + 1 < p.verts.length) (t : ℝ) :
    MovedLeft (segCurve (vtx p k) (vtx p (k + 1))) d t (parCurve p d k t) := par_moved_seg he (h.ok hk) t

/-- **C69** Every point of the raw offset is at most the offset away from the polyline. -/
theorem C69_near {R : Pline ℝ} (he : 0 < eps) (h : ClearPath p d c eps) (hR : createRawOffsetPolyline p d eps = .ok R) {X : V2 ℝ} (hX : OnPline R X) :
    ∃ Y, OnPline p Y ∧ edist X Y ≤ |d| := by
  rw [raw_clear_open he h] at hR
  cases hR
  exact path_within he h hX

end

/-- The hook, offset to the inside by 25: all corners are cut. -/
example : createRawOffsetPolyline hook 25 (1 / 100000) = .ok ⟨[⟨0, 25, 0⟩, ⟨75, 25, 0⟩, ⟨75, 75, 0⟩, ⟨65, 75, 0⟩, ⟨65, 40, 0⟩], false⟩ :=
  (C69_raw (by norm_num) hk_in_clearPath).trans (by rw [hk_in_raw]; rfl)

/-- The same to the outside: all corners are rounded. -/
example : createRawOffsetPolyline hook (-25) (1 / 100000) =
    .ok ⟨[⟨0, -25, 0⟩, ⟨100, -25, qb⟩, ⟨125, 0, 0⟩, ⟨125, 100, qb⟩, ⟨100, 125, 0⟩, ⟨40, 125, qb⟩, ⟨15, 100, 0⟩, ⟨15, 40, 0⟩], false⟩ :=
  (C69_raw (by norm_num) hk_out_clearPath).trans (by rw [hk_out_raw]; rfl)

/-- A line and a half circle, offset to the inside by 3. -/
example : createRawOffsetPolyline halfBow 3 (1 / 100000) = .ok ⟨[⟨0, 3, 0⟩, ⟨12, 3, hbBulge⟩, ⟨3, 0, 0⟩], false⟩ :=
  (C69_raw (by norm_num) hb_clear).trans (by rw [hb_raw])

example {X : V2 ℝ} (h : OnPline ⟨[⟨0, 3, 0⟩, ⟨12, 3, hbBulge⟩, ⟨3, 0, 0⟩], false⟩ X) : ∃ Y, OnPline halfBow Y ∧ edist X Y ≤ |3| :=
  C69_near (by norm_num) hb_clear ((C69_raw (by norm_num) hb_clear).trans (by rw [hb_raw])) h

end Cavc
