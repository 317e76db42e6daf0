import Verif.Lemmas.Chamfer

/-! # Property theorems: the raw offset of closed polylines of straight segments (C42, C60) -/

namespace Cavc
open Pline

/-- C42: the raw offset polyline of a closed polyline of straight segments is the loop of the moved sides, which are cut at
their common point, joined by an arc around the corner, or joined by a straight line. -/
theorem C42_raw_straight {p : Pline ℝ} {d eps : ℝ} (hp : StraightLoop p) (hd : d ≠ 0) (he : 0 < eps) (hc : ∀ k, ClearTurn p d eps k)
    (hfull : FullLoop (rawLoop p d) eps) (h0 : (sidePt p d 0 0).fuzzyEqEps (vtx (rawLoop p d) 1).pos eps = false) :
    createRawOffsetPolyline p d eps = .ok (rawLoop p d) := raw_straight hp hd he hc hfull h0

/-- The hypotheses are met by a square with a chamfer; its raw offset crosses itself. -/
example : createRawOffsetPolyline chamfer 9 (1 / 100000) = .ok ⟨[⟨9, 9, 0⟩, ⟨27, 9, 0⟩, ⟨27, 29, 0⟩, ⟨57 / 2, 27, 0⟩, ⟨9, 27, 0⟩], true⟩ :=
  (C42_raw_straight chamfer_straight (by norm_num) (by norm_num) chamfer_clear chamfer_raw_full chamfer_first).trans (by rw [chamfer_raw])

/-- a point of the raw offset is on one of its parts -/
theorem on_rawLoop {p : Pline ℝ} {d eps : ℝ} (hp : StraightLoop p) (hd : d ≠ 0) (he : 0 < eps) (hc : ∀ k, ClearTurn p d eps k)
    (h2 : 2 ≤ (rawLoop p d).verts.length) (X : V2 ℝ) :
    OnPline (rawLoop p d) X ↔ ∃ q ∈ loopParts p d, ∃ t, 0 ≤ t ∧ t ≤ 1 ∧ X = q.curve p d t := by
  have hn : 0 < (rawLoop p d).verts.length := by omega
  have key : ∀ j q t, (loopParts p d)[j]? = some q → segCurve (vtx (rawLoop p d) j) (vtx (rawLoop p d) (j + 1)) t = q.curve p d t := by
    intro j q t hq
    rw [← curveAt_vtx hn]
    exact rawLoop_curve hp hd he hc hq t
  constructor
  · rintro ⟨s, hs, t, h0, h1, rfl⟩
    rw [segs_range rfl h2] at hs
    obtain ⟨j, hj, rfl⟩ := List.mem_map.mp hs
    have hj' : j < (loopParts p d).length := by
      have := List.mem_range.mp hj
      rwa [rawLoop_length] at this
    exact ⟨_, List.getElem_mem hj', t, h0, h1, key j _ t (List.getElem?_eq_getElem hj')⟩
  · rintro ⟨q, hq, t, h0, h1, rfl⟩
    obtain ⟨j, hj, rfl⟩ := List.getElem_of_mem hq
    refine ⟨(vtx (rawLoop p d) j, vtx (rawLoop p d) (j + 1)), ?_, t, h0, h1, (key j _ t (List.getElem?_eq_getElem hj)).symm⟩
    rw [segs_range rfl h2]
    exact List.mem_map.mpr ⟨j, by rw [List.mem_range, rawLoop_length]; exact hj, rfl⟩

/-- C60: the points of the raw offset polyline at which the distance to the input is kept are exactly the points of the
parallel curve: nothing is missing before invalid parts are removed, and nothing outside of the parallel curve keeps the
distance. -/
theorem C60_raw_points {p raw : Pline ℝ} {d eps : ℝ} (hp : StraightLoop p) (hd : d ≠ 0) (he : 0 < eps) (hc : ∀ k, ClearTurn p d eps k)
    (hfull : FullLoop (rawLoop p d) eps) (h0 : (sidePt p d 0 0).fuzzyEqEps (vtx (rawLoop p d) 1).pos eps = false)
    (hraw : createRawOffsetPolyline p d eps = .ok raw) (X : V2 ℝ) : OffsetPt p d X ↔ OnPline raw X ∧ Keeps p |d| X := by
  rw [raw_straight hp hd he hc hfull h0] at hraw
  cases hraw
  rw [on_rawLoop hp hd he hc hfull.two]
  constructor
  · intro h
    exact ⟨offset_part hp hd he hc h, h.keeps⟩
  · rintro ⟨⟨q, hq, t, h0, h1, rfl⟩, hk⟩
    refine part_offset hp hd he hc (fun k e => ?_) h0 h1 hk
    subst e
    rcases mem_parts hq with ⟨k', -, e⟩ | ⟨k', -, hm, e⟩
    · cases e
    · cases e; exact hm

/-- The hypotheses are met by the square with the chamfer. -/
example (X : V2 ℝ) : OffsetPt chamfer 9 X ↔
    OnPline ⟨[⟨9, 9, 0⟩, ⟨27, 9, 0⟩, ⟨27, 29, 0⟩, ⟨57 / 2, 27, 0⟩, ⟨9, 27, 0⟩], true⟩ X ∧ Keeps chamfer |9| X :=
  C60_raw_points chamfer_straight (by norm_num) (by norm_num) chamfer_clear chamfer_raw_full chamfer_first
    ((C42_raw_straight chamfer_straight (by norm_num) (by norm_num) chamfer_clear chamfer_raw_full chamfer_first).trans (by rw [chamfer_raw])) X

end Cavc
