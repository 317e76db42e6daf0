import Verif.Lemmas.LoopPass
import Verif.Lemmas.RegionValues
import Verif.Props.OffsetSelfClosed

/-! # C70: what the results enclose with the option for self-intersections -/

set_option linter.unusedVariables false

namespace Cavc
open RealScalar Pline

/-- the results: what they pass -/
theorem self_passed (env : Env ℝ) (henv : env.Lawful) (p : Pline ℝ) (d : ℝ) (opts : OffsetOptions ℝ)
    (hidx : ∀ idx, opts.aabbIndex = some idx → idx.Serves p) (hself : opts.handleSelfIntersects = true) (he : 0 < opts.posEqualEps) (hs : SimpleLoop p)
    (c c' : Nat → Corner) (h : ClearOffset p d c opts.posEqualEps) (h' : ClearOffset p (-d) c' opts.posEqualEps)
    (hcc : CleanCorners p d c) (hcc' : CleanCorners p (-d) c') (hf : FreeCuts p d c)
    (gap : ℝ) (C : List Cut) (hC : SelfCuts (rawWith p d c) (rawWith p (-d) c') opts.posEqualEps gap C)
    (hA : ∀ a ∈ C, Keeps p |d| (curveAt (rawWith p d c) a.1 a.2) → LoopCutKind (rawWith p d c) (rawWith p (-d) c') C a)
    (hF : FindsSelf (rawWith p d c) opts.posEqualEps) (hFD : FindsPairs (rawWith p d c) (rawWith p (-d) c') opts.posEqualEps)
    (ht : 0 < opts.offsetDistEps) (hD : opts.offsetDistEps ≤ |d|)
    (hT : SelfTests p (rawWith p d c) d opts.posEqualEps opts.offsetDistEps C)
    (hg : opts.posEqualEps ≤ gap) (hj0 : 0 < opts.sliceJoinEps) (hj : 2 * opts.sliceJoinEps ≤ gap) :
    ∃ rs, parallelOffset env p d opts = .ok rs ∧ (∀ r ∈ rs, Loop r) ∧ PassedOn p (rawWith p d c) |d| (C.map fun c => (c, c)) rs ∧
      ∀ X, (∃ r ∈ rs, OnPline r X) ↔ ParallelPt p d X := by
  have hDs : ∀ s ∈ (rawWith p (-d) c').segs, IsLine s.1 ∨ |s.1.bulge| ≤ 1 := by
    intro s hs
    obtain ⟨k, hk, rfl⟩ := loop_seg h'.full.closed h'.full.two hs
    exact loop_shape h'.full k
  have hn : 0 < (rawWith p d c).verts.length := by have := h.full.two; omega
  obtain ⟨rs', hrs', hcl, hpts⟩ := C70_closed_simple env henv p d opts hidx hself he hs c c' h h' hcc hcc' hf gap C hC hA hF hFD ht hD hT hg hj0 hj
  obtain ⟨rs, hrs, -, hbig⟩ := C43_parallel_offset env henv p d opts hidx
  obtain ⟨raw, hraw', -, hof⟩ := hbig h.loop.two
  rw [C65_raw he h] at hraw'
  injection hraw' with hraw'
  subst hraw'
  obtain ⟨-, -, es, ss, hof⟩ := hof (by intro h; rw [h] at hn; simp at hn)
  obtain ⟨D, di, hd', hdi, hes⟩ := hof.dual (by rintro ⟨-, h⟩; rw [hself] at h; cases h)
  rw [C65_raw he h'] at hd'
  injection hd' with hd'
  subst hd'
  have heq : rs = rs' := by rw [hrs] at hrs'; exact Except.ok.inj hrs'
  subst heq
  exact ⟨rs, hrs, full_loops he hcl, result_pass_loop h.loop he ht hD h.full hC (Both.loop_changes he h hcc h' hcc' hC hf hA)
    hT hg hj hj0.le (found_loop env henv he h.loop.closed h.full hC hF hFD hDs hdi hes) hof.slices hof.joined, hpts⟩

open Classical in
/-- **C70** With the option, the results for a closed polyline of lines and arcs that does not touch itself enclose the right region.  The polyline
has winding number `σ` (1 or -1) inside and 0 outside.  For an offset to the inside, the sum of the winding numbers of the results is `σ` at the points inside
the polyline that are at least the offset away from it, and 0 at all other points.  For an offset to the outside, it is 0 at the points outside the
polyline that are at least the offset away from it, and `σ` at all other points.  (Points on the results themselves are left out there; they are inside
or outside the polyline, depending on the side of the offset.) -/
theorem C70_region (env : Env ℝ) (henv : env.Lawful) (p : Pline ℝ) (d : ℝ) (opts : OffsetOptions ℝ)
    (hidx : ∀ idx, opts.aabbIndex = some idx → idx.Serves p) (hself : opts.handleSelfIntersects = true) (he : 0 < opts.posEqualEps) (hs : SimpleLoop p)
    (c c' : Nat → Corner) (h : ClearOffset p d c opts.posEqualEps) (h' : ClearOffset p (-d) c' opts.posEqualEps)
    (hcc : CleanCorners p d c) (hcc' : CleanCorners p (-d) c') (hf : FreeCuts p d c)
    (gap : ℝ) (C : List Cut) (hC : SelfCuts (rawWith p d c) (rawWith p (-d) c') opts.posEqualEps gap C)
    (hA : ∀ a ∈ C, Keeps p |d| (curveAt (rawWith p d c) a.1 a.2) → LoopCutKind (rawWith p d c) (rawWith p (-d) c') C a)
    (hF : FindsSelf (rawWith p d c) opts.posEqualEps) (hFD : FindsPairs (rawWith p d c) (rawWith p (-d) c') opts.posEqualEps)
    (ht : 0 < opts.offsetDistEps) (hD : opts.offsetDistEps ≤ |d|)
    (hT : SelfTests p (rawWith p d c) d opts.posEqualEps opts.offsetDistEps C)
    (hg : opts.posEqualEps ≤ gap) (hj0 : 0 < opts.sliceJoinEps) (hj : 2 * opts.sliceJoinEps ≤ gap) :
    ∃ rs, parallelOffset env p d opts = .ok rs ∧ ∃ σ : ℤ, (σ = 1 ∨ σ = -1) ∧
      (∀ X, ¬ OnPline p X → p.windingNumber X = 0 ∨ p.windingNumber X = σ) ∧
      (∀ r ∈ rs, ∀ X, OnPline r X → ¬ OnPline p X ∧ p.windingNumber X = if 0 < d * σ then σ else 0) ∧
      (0 < d * σ → ∀ Y, (∀ r ∈ rs, ¬ OnPline r Y) →
        (rs.map fun r => r.windingNumber Y).sum = if p.windingNumber Y = σ ∧ Keeps p |d| Y then σ else 0) ∧
      (d * σ < 0 → ∀ Y, (∀ r ∈ rs, ¬ OnPline r Y) →
        (rs.map fun r => r.windingNumber Y).sum = if p.windingNumber Y = 0 ∧ Keeps p |d| Y then 0 else σ) := by
  obtain ⟨rs, hrs, hl, hpass, hcurve⟩ := self_passed env henv p d opts hidx hself he hs c c' h h' hcc hcc' hf gap C hC hA hF hFD ht hD hT hg hj0 hj
  exact ⟨rs, hrs, region_values he h hcc hs hf.turn h.moves hl hpass hcurve⟩

/-- **C70** With the option, an offset to the inside has no results if and only if no point inside the polyline is that far away from it; an offset to the
outside always has results. -/
theorem C70_empty (env : Env ℝ) (henv : env.Lawful) (p : Pline ℝ) (d : ℝ) (opts : OffsetOptions ℝ)
    (hidx : ∀ idx, opts.aabbIndex = some idx → idx.Serves p) (hself : opts.handleSelfIntersects = true) (he : 0 < opts.posEqualEps) (hs : SimpleLoop p)
    (c c' : Nat → Corner) (h : ClearOffset p d c opts.posEqualEps) (h' : ClearOffset p (-d) c' opts.posEqualEps)
    (hcc : CleanCorners p d c) (hcc' : CleanCorners p (-d) c') (hf : FreeCuts p d c)
    (gap : ℝ) (C : List Cut) (hC : SelfCuts (rawWith p d c) (rawWith p (-d) c') opts.posEqualEps gap C)
    (hA : ∀ a ∈ C, Keeps p |d| (curveAt (rawWith p d c) a.1 a.2) → LoopCutKind (rawWith p d c) (rawWith p (-d) c') C a)
    (hF : FindsSelf (rawWith p d c) opts.posEqualEps) (hFD : FindsPairs (rawWith p d c) (rawWith p (-d) c') opts.posEqualEps)
    (ht : 0 < opts.offsetDistEps) (hD : opts.offsetDistEps ≤ |d|)
    (hT : SelfTests p (rawWith p d c) d opts.posEqualEps opts.offsetDistEps C)
    (hg : opts.posEqualEps ≤ gap) (hj0 : 0 < opts.sliceJoinEps) (hj : 2 * opts.sliceJoinEps ≤ gap) :
    ∃ rs, parallelOffset env p d opts = .ok rs ∧ ∃ σ : ℤ, (σ = 1 ∨ σ = -1) ∧
      (∀ X, ¬ OnPline p X → p.windingNumber X = 0 ∨ p.windingNumber X = σ) ∧
      (0 < d * σ → (rs = [] ↔ ∀ Y, p.windingNumber Y = σ → ¬ Keeps p |d| Y)) ∧ (d * σ < 0 → rs ≠ []) := by
  obtain ⟨rs, hrs, hl, hpass, hcurve⟩ := self_passed env henv p d opts hidx hself he hs c c' h h' hcc hcc' hf gap C hC hA hF hFD ht hD hT hg hj0 hj
  exact ⟨rs, hrs, region_empty he h hcc hs hf.turn h.moves hl hpass hcurve⟩

/-- **C70** With the option, the areas of the results of an offset to the inside add up to the area of the region of the points inside that are at least the
offset away; those of an offset to the outside add up to the area of the region of all points but those outside that are at least the offset away.  (With the
sign of the direction of the polyline.) -/
theorem C70_area (env : Env ℝ) (henv : env.Lawful) (p : Pline ℝ) (d : ℝ) (opts : OffsetOptions ℝ)
    (hidx : ∀ idx, opts.aabbIndex = some idx → idx.Serves p) (hself : opts.handleSelfIntersects = true) (he : 0 < opts.posEqualEps) (hs : SimpleLoop p)
    (c c' : Nat → Corner) (h : ClearOffset p d c opts.posEqualEps) (h' : ClearOffset p (-d) c' opts.posEqualEps)
    (hcc : CleanCorners p d c) (hcc' : CleanCorners p (-d) c') (hf : FreeCuts p d c)
    (gap : ℝ) (C : List Cut) (hC : SelfCuts (rawWith p d c) (rawWith p (-d) c') opts.posEqualEps gap C)
    (hA : ∀ a ∈ C, Keeps p |d| (curveAt (rawWith p d c) a.1 a.2) → LoopCutKind (rawWith p d c) (rawWith p (-d) c') C a)
    (hF : FindsSelf (rawWith p d c) opts.posEqualEps) (hFD : FindsPairs (rawWith p d c) (rawWith p (-d) c') opts.posEqualEps)
    (ht : 0 < opts.offsetDistEps) (hD : opts.offsetDistEps ≤ |d|)
    (hT : SelfTests p (rawWith p d c) d opts.posEqualEps opts.offsetDistEps C)
    (hg : opts.posEqualEps ≤ gap) (hj0 : 0 < opts.sliceJoinEps) (hj : 2 * opts.sliceJoinEps ≤ gap) :
    ∃ rs, parallelOffset env p d opts = .ok rs ∧
      (0 < d * turnOf p.orientation →
        (rs.map Pline.area).sum = turnOf p.orientation * planeArea {z | p.windingNumber ⟨z.1, z.2⟩ ≠ 0 ∧ Keeps p |d| ⟨z.1, z.2⟩}) ∧
      (d * turnOf p.orientation < 0 →
        (rs.map Pline.area).sum = turnOf p.orientation * planeArea {z | ¬ (p.windingNumber ⟨z.1, z.2⟩ = 0 ∧ Keeps p |d| ⟨z.1, z.2⟩)}) := by
  obtain ⟨rs, hrs, hl, hpass, hcurve⟩ := self_passed env henv p d opts hidx hself he hs c c' h h' hcc hcc' hf gap C hC hA hF hFD ht hD hT hg hj0 hj
  exact ⟨rs, hrs, region_area he h hcc hs hf.turn h.moves hl hpass hcurve⟩

/-! Non-vacuity -/

theorem b4_both : ClearOffset box4 (-1) (straightCorner box4 (-1)) (1 / 100000) ∧ ClearOffset box4 (-(-1)) (straightCorner box4 (-(-1))) (1 / 100000) := by
  have e : rawLoop box4 (-(-1)) = box4In := by rw [neg_neg]; exact b4_raw
  have hfirst : (sidePt box4 (-(-1)) 0 0).fuzzyEqEps (vtx box4In 1).pos (1 / 100000) = false := by
    have l0 := box4_len.1
    unfold sideLen at l0
    rw [neg_neg, b4_vtx.2.1]
    apply FarApart.fuzzy
    unfold FarApart sidePt moved
    rw [l0, box4_pos.1, box4_pos.2.1]
    norm_num [Vertex.pos, abs_of_pos, abs_of_neg]
  constructor
  · refine straight_clear box4_straight b4_square (by norm_num) box4_clear (fun k => ?_) box4_raw_full box4_first
    unfold sideStart sideEnd
    rw [if_neg (box4_not_mitred _), if_neg (box4_not_mitred _)]
    norm_num
  · refine straight_clear box4_straight b4_square (by norm_num) (by rw [neg_neg]; exact b4_clear_in) (fun k => ?_) (by rw [e]; exact b4_full) (by rw [e]; exact hfirst)
    rw [neg_neg]
    unfold sideStart sideEnd
    rw [if_pos (b4_mitred _), if_pos (b4_mitred _), box4_setback, box4_setback, b4_side_len]
    norm_num

open Classical in
/-- All hypotheses are met by a square, offset to the outside. -/
example (env : Env ℝ) (henv : env.Lawful) : ∃ rs, parallelOffset env box4 (-1) ⟨none, true, 1 / 100000, 1 / 10000, 1 / 10000⟩ = .ok rs ∧ ∃ σ : ℤ, (σ = 1 ∨ σ = -1) ∧
    (∀ X, ¬ OnPline box4 X → box4.windingNumber X = 0 ∨ box4.windingNumber X = σ) ∧
    (∀ r ∈ rs, ∀ X, OnPline r X → ¬ OnPline box4 X ∧ box4.windingNumber X = if 0 < (-1 : ℝ) * σ then σ else 0) ∧
    (0 < (-1 : ℝ) * σ → ∀ Y, (∀ r ∈ rs, ¬ OnPline r Y) →
      (rs.map fun r => r.windingNumber Y).sum = if box4.windingNumber Y = σ ∧ Keeps box4 |-1| Y then σ else 0) ∧
    ((-1 : ℝ) * σ < 0 → ∀ Y, (∀ r ∈ rs, ¬ OnPline r Y) →
      (rs.map fun r => r.windingNumber Y).sum = if box4.windingNumber Y = 0 ∧ Keeps box4 |-1| Y then 0 else σ) := by
  have e1 : rawWith box4 (-1) (straightCorner box4 (-1)) = rawLoop box4 (-1) := straight_raw box4_straight
  have e2 : rawWith box4 (-(-1)) (straightCorner box4 (-(-1))) = box4In := by rw [straight_raw box4_straight, neg_neg]; exact b4_raw
  obtain ⟨h, h'⟩ := b4_both
  exact C70_region env henv box4 (-1) ⟨none, true, 1 / 100000, 1 / 10000, 1 / 10000⟩ (by simp) rfl (by norm_num) box4_simple _ _ h h'
    (straight_clean box4_straight (by norm_num) (by norm_num) h.corners) (straight_clean box4_straight (by norm_num) (by norm_num) h'.corners)
    (straight_free box4_straight (by norm_num) (by norm_num) h.corners) 1 [] (by rw [e1, e2]; exact b4_cuts) (by simp) (by rw [e1]; exact box4_finds)
    (by rw [e1, e2]; exact b4_pairs) (by norm_num) (by norm_num [abs_of_pos]) (by rw [e1]; exact b4_tests) (by norm_num) (by norm_num) (by norm_num)

/-- It has results, -/
example (env : Env ℝ) (henv : env.Lawful) : ∃ rs, parallelOffset env box4 (-1) ⟨none, true, 1 / 100000, 1 / 10000, 1 / 10000⟩ = .ok rs ∧ ∃ σ : ℤ, (σ = 1 ∨ σ = -1) ∧
    (∀ X, ¬ OnPline box4 X → box4.windingNumber X = 0 ∨ box4.windingNumber X = σ) ∧
    (0 < (-1 : ℝ) * σ → (rs = [] ↔ ∀ Y, box4.windingNumber Y = σ → ¬ Keeps box4 |-1| Y)) ∧ ((-1 : ℝ) * σ < 0 → rs ≠ []) := by
  have e1 : rawWith box4 (-1) (straightCorner box4 (-1)) = rawLoop box4 (-1) := straight_raw box4_straight
  have e2 : rawWith box4 (-(-1)) (straightCorner box4 (-(-1))) = box4In := by rw [straight_raw box4_straight, neg_neg]; exact b4_raw
  obtain ⟨h, h'⟩ := b4_both
  exact C70_empty env henv box4 (-1) ⟨none, true, 1 / 100000, 1 / 10000, 1 / 10000⟩ (by simp) rfl (by norm_num) box4_simple _ _ h h'
    (straight_clean box4_straight (by norm_num) (by norm_num) h.corners) (straight_clean box4_straight (by norm_num) (by norm_num) h'.corners)
    (straight_free box4_straight (by norm_num) (by norm_num) h.corners) 1 [] (by rw [e1, e2]; exact b4_cuts) (by simp) (by rw [e1]; exact box4_finds)
    (by rw [e1, e2]; exact b4_pairs) (by norm_num) (by norm_num [abs_of_pos]) (by rw [e1]; exact b4_tests) (by norm_num) (by norm_num) (by norm_num)

/-- of that area. -/
example (env : Env ℝ) (henv : env.Lawful) : ∃ rs, parallelOffset env box4 (-1) ⟨none, true, 1 / 100000, 1 / 10000, 1 / 10000⟩ = .ok rs ∧
    (0 < (-1 : ℝ) * turnOf box4.orientation →
      (rs.map Pline.area).sum = turnOf box4.orientation * planeArea {z | box4.windingNumber ⟨z.1, z.2⟩ ≠ 0 ∧ Keeps box4 |-1| ⟨z.1, z.2⟩}) ∧
    ((-1 : ℝ) * turnOf box4.orientation < 0 →
      (rs.map Pline.area).sum = turnOf box4.orientation * planeArea {z | ¬ (box4.windingNumber ⟨z.1, z.2⟩ = 0 ∧ Keeps box4 |-1| ⟨z.1, z.2⟩)}) := by
  have e1 : rawWith box4 (-1) (straightCorner box4 (-1)) = rawLoop box4 (-1) := straight_raw box4_straight
  have e2 : rawWith box4 (-(-1)) (straightCorner box4 (-(-1))) = box4In := by rw [straight_raw box4_straight, neg_neg]; exact b4_raw
  obtain ⟨h, h'⟩ := b4_both
  exact C70_area env henv box4 (-1) ⟨none, true, 1 / 100000, 1 / 10000, 1 / 10000⟩ (by simp) rfl (by norm_num) box4_simple _ _ h h'
    (straight_clean box4_straight (by norm_num) (by norm_num) h.corners) (straight_clean box4_straight (by norm_num) (by norm_num) h'.corners)
    (straight_free box4_straight (by norm_num) (by norm_num) h.corners) 1 [] (by rw [e1, e2]; exact b4_cuts) (by simp) (by rw [e1]; exact box4_finds)
    (by rw [e1, e2]; exact b4_pairs) (by norm_num) (by norm_num [abs_of_pos]) (by rw [e1]; exact b4_tests) (by norm_num) (by norm_num) (by norm_num)

end Cavc
