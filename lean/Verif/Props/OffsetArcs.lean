import Verif.Lemmas.HalfDisc

/-! # C65: the raw offset of closed polylines of lines and arcs

The specification is in `Verif/Spec/OffsetArcs.lean`. -/

namespace Cavc
open RealScalar Pline

section
variable {p : Pline ℝ} {d eps : ℝ} {c : Nat → Corner}

/-- **C65** The raw offset of a closed polyline of lines and arcs is the chain of the parallel segments, cut or linked at every
corner as the specification says. -/
theorem C65_raw (he : 0 < eps) (h : ClearOffset p d c eps) : createRawOffsetPolyline p d eps = .ok (rawWith p d c) := raw_clear he h

/-- **C65** The points of the raw offset are the points of what is left of the parallel segments and the points of the links. -/
theorem C65_points {R : Pline ℝ} (he : 0 < eps) (h : ClearOffset p d c eps) (hR : createRawOffsetPolyline p d eps = .ok R) :
    R.closed = true ∧ ∀ X, OnPline R X ↔
      (∃ k < p.verts.length, ∃ t, enterAt p c k ≤ t ∧ t ≤ leaveAt p c k ∧ X = parCurve p d k t) ∨
      ∃ k < p.verts.length, ∃ b, c k = .link b ∧ OnSeg (Vertex.ofV2 (parCurve p d k 1) b) (Vertex.ofV2 (parCurve p d (k + 1) 0) 0) X := by
  rw [raw_clear he h] at hR
  cases hR
  exact ⟨rfl, raw_points (run_facts he h)⟩

/-- **C65** The parallel segments are the segments of the polyline moved to the left. -/
theorem C65_parallel (he : 0 < eps) (h : ClearOffset p d c eps) (k : Nat) (t : ℝ) :
    MovedLeft (segCurve (vtx p k) (vtx p (k + 1))) d t (parCurve p d k t) := par_moved he h k t

/-- **C65** Every point of the raw offset is at most the offset away from the polyline. -/
theorem C65_near {R : Pline ℝ} (he : 0 < eps) (h : ClearOffset p d c eps) (hR : createRawOffsetPolyline p d eps = .ok R) {X : V2 ℝ} (hX : OnPline R X) :
    ∃ Y, OnPline p Y ∧ edist X Y ≤ |d| := by
  rw [raw_clear he h] at hR
  cases hR
  exact raw_within he h hX

end

/-- The half disc with the radius 8, offset to the inside by 3: both corners are cut. -/
example : createRawOffsetPolyline halfDisc 3 (1 / 100000) = .ok ⟨[⟨4, 3, 0⟩, ⟨12, 3, 1 / 2⟩], true⟩ :=
  (C65_raw (by norm_num) hdIn_clear).trans (by rw [hdIn_raw])

/-- The same to the outside: both corners are rounded. -/
example : createRawOffsetPolyline halfDisc (-3) (1 / 100000) =
    .ok ⟨[⟨0, -3, 0⟩, ⟨16, -3, Real.tan (Real.pi / 8)⟩, ⟨19, 0, 1⟩, ⟨-3, 0, Real.tan (Real.pi / 8)⟩], true⟩ :=
  (C65_raw (by norm_num) hdOut_clear).trans (by rw [hdOut_raw])

example {X : V2 ℝ} (h : OnPline ⟨[⟨4, 3, 0⟩, ⟨12, 3, 1 / 2⟩], true⟩ X) : ∃ Y, OnPline halfDisc Y ∧ edist X Y ≤ |3| :=
  C65_near (by norm_num) hdIn_clear ((C65_raw (by norm_num) hdIn_clear).trans (by rw [hdIn_raw])) h

end Cavc
