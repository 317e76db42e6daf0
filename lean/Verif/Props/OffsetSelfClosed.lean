import Verif.Lemmas.LoopClosed
import Verif.Lemmas.SidedArcs
import Verif.Props.OffsetSelf
import Verif.Props.SimpleLoop

/-! # C70: with the option for self-intersections, the results for a closed polyline are closed where the two parallel curves do not meet -/

set_option linter.unusedVariables false

namespace Cavc
open Pline

/-- **C70** With the option `handle_self_intersects`, all results for a closed polyline are closed polylines without segments of no length, and make up
exactly the parallel curve, if the parallel curves on the two sides have no point in common. -/
theorem C70_closed (env : Env ℝ) (henv : env.Lawful) (p : Pline ℝ) (d : ℝ) (opts : OffsetOptions ℝ)
    (hidx : ∀ idx, opts.aabbIndex = some idx → idx.Serves p) (hself : opts.handleSelfIntersects = true) (he : 0 < opts.posEqualEps)
    (c c' : Nat → Corner) (h : ClearOffset p d c opts.posEqualEps) (h' : ClearOffset p (-d) c' opts.posEqualEps)
    (hcc : CleanCorners p d c) (hcc' : CleanCorners p (-d) c') (hf : FreeCuts p d c) (hos : OneSidedCurve p d)
    (gap : ℝ) (C : List Cut) (hC : SelfCuts (rawWith p d c) (rawWith p (-d) c') opts.posEqualEps gap C)
    (hA : ∀ a ∈ C, Keeps p |d| (curveAt (rawWith p d c) a.1 a.2) → LoopCutKind (rawWith p d c) (rawWith p (-d) c') C a)
    (hF : FindsSelf (rawWith p d c) opts.posEqualEps) (hFD : FindsPairs (rawWith p d c) (rawWith p (-d) c') opts.posEqualEps)
    (ht : 0 < opts.offsetDistEps) (hD : opts.offsetDistEps ≤ |d|)
    (hT : SelfTests p (rawWith p d c) d opts.posEqualEps opts.offsetDistEps C)
    (hg : opts.posEqualEps ≤ gap) (hj0 : 0 < opts.sliceJoinEps) (hj : 2 * opts.sliceJoinEps ≤ gap) :
    ∃ rs, parallelOffset env p d opts = .ok rs ∧
      (∀ r ∈ rs, r.closed = true ∧ 2 ≤ r.verts.length ∧ ∀ s ∈ r.segs, FullSeg s.1 s.2 opts.posEqualEps) ∧
      ∀ X, (∃ r ∈ rs, OnPline r X) ↔ ParallelPt p d X := by
  have hDs : ∀ s ∈ (rawWith p (-d) c').segs, IsLine s.1 ∨ |s.1.bulge| ≤ 1 := by
    intro s hs
    obtain ⟨k, hk, rfl⟩ := loop_seg h'.full.closed h'.full.two hs
    exact loop_shape h'.full k
  have hn : 0 < (rawWith p d c).verts.length := by have := h.full.two; omega
  have hone : ∀ X, OnPline (rawWith p d c) X → Keeps p |d| X → ¬ OnPline (rawWith p (-d) c') X := fun X h1 h2 h3 =>
    hos X ⟨(raw_parallel he h hcc X).mp ⟨h1, h2⟩, (raw_parallel he h' hcc' X).mp ⟨h3, by rwa [abs_neg]⟩⟩
  obtain ⟨rs', hrs', hpts⟩ := C70_parallel_exact env henv p d opts hidx hself he c c' h h' hcc hcc' hf gap C hC hA hF hFD ht hD hT hg hj0.le hj
  obtain ⟨rs, hrs, -, hbig⟩ := C43_parallel_offset env henv p d opts hidx
  obtain ⟨raw, hraw', -, hof⟩ := hbig h.loop.two
  rw [C65_raw he h] at hraw'
  injection hraw' with hraw'
  subst hraw'
  obtain ⟨-, -, es, ss, hof⟩ := hof (by intro h; rw [h] at hn; simp at hn)
  obtain ⟨D, di, hd', hdi, hes⟩ := hof.dual (by rintro ⟨-, h⟩; rw [hself] at h; cases h)
  rw [C65_raw he h'] at hd'
  injection hd' with hd'
  subst hd'
  have heq : rs = rs' := by rw [hrs] at hrs'; exact Except.ok.inj hrs'
  subst heq
  exact ⟨rs, hrs, result_closed_loop h.loop he ht hD h.full hC.inside (Both.loop_changes he h hcc h' hcc' hC hf hA)
    (Both.loop_flow he h hcc h' hcc' hC hf hA hone) hT hg hj hj0 (found_loop env henv he h.loop.closed h.full hC hF hFD hDs hdi hes) hof.slices hof.joined, hpts⟩

/-- **C70** For simple polylines nothing has to be assumed of the other side: with the option all results are closed and make up the parallel curve. -/
theorem C70_closed_simple (env : Env ℝ) (henv : env.Lawful) (p : Pline ℝ) (d : ℝ) (opts : OffsetOptions ℝ)
    (hidx : ∀ idx, opts.aabbIndex = some idx → idx.Serves p) (hself : opts.handleSelfIntersects = true) (he : 0 < opts.posEqualEps) (hs : SimpleLoop p)
    (c c' : Nat → Corner) (h : ClearOffset p d c opts.posEqualEps) (h' : ClearOffset p (-d) c' opts.posEqualEps)
    (hcc : CleanCorners p d c) (hcc' : CleanCorners p (-d) c') (hf : FreeCuts p d c)
    (gap : ℝ) (C : List Cut) (hC : SelfCuts (rawWith p d c) (rawWith p (-d) c') opts.posEqualEps gap C)
    (hA : ∀ a ∈ C, Keeps p |d| (curveAt (rawWith p d c) a.1 a.2) → LoopCutKind (rawWith p d c) (rawWith p (-d) c') C a)
    (hF : FindsSelf (rawWith p d c) opts.posEqualEps) (hFD : FindsPairs (rawWith p d c) (rawWith p (-d) c') opts.posEqualEps)
    (ht : 0 < opts.offsetDistEps) (hD : opts.offsetDistEps ≤ |d|)
    (hT : SelfTests p (rawWith p d c) d opts.posEqualEps opts.offsetDistEps C)
    (hg : opts.posEqualEps ≤ gap) (hj0 : 0 < opts.sliceJoinEps) (hj : 2 * opts.sliceJoinEps ≤ gap) :
    ∃ rs, parallelOffset env p d opts = .ok rs ∧
      (∀ r ∈ rs, r.closed = true ∧ 2 ≤ r.verts.length ∧ ∀ s ∈ r.segs, FullSeg s.1 s.2 opts.posEqualEps) ∧
      ∀ X, (∃ r ∈ rs, OnPline r X) ↔ ParallelPt p d X :=
  C70_closed env henv p d opts hidx hself he c c' h h' hcc hcc' hf (one_sided_any h.loop he hs hf.turn h.moves) gap C hC hA hF hFD ht hD hT hg hj0 hj

/-- **C70** For straight polylines nothing has to be assumed of the corners but that they are clear. -/
theorem C70_closed_straight (env : Env ℝ) (henv : env.Lawful) (p : Pline ℝ) (d : ℝ) (opts : OffsetOptions ℝ)
    (hidx : ∀ idx, opts.aabbIndex = some idx → idx.Serves p) (hself : opts.handleSelfIntersects = true) (he : 0 < opts.posEqualEps)
    (hp : StraightLoop p) (hs : SimpleLoop p) (hfp : FullLoop p opts.posEqualEps) (hd : d ≠ 0)
    (hc : ∀ k, ClearTurn p d opts.posEqualEps k) (hc' : ∀ k, ClearTurn p (-d) opts.posEqualEps k)
    (hw : ∀ k, sideStart p d k < sideEnd p d k) (hw' : ∀ k, sideStart p (-d) k < sideEnd p (-d) k)
    (hf : FullLoop (rawLoop p d) opts.posEqualEps) (hf' : FullLoop (rawLoop p (-d)) opts.posEqualEps)
    (h0 : (sidePt p d 0 0).fuzzyEqEps (vtx (rawLoop p d) 1).pos opts.posEqualEps = false)
    (h0' : (sidePt p (-d) 0 0).fuzzyEqEps (vtx (rawLoop p (-d)) 1).pos opts.posEqualEps = false)
    (gap : ℝ) (C : List Cut) (hC : SelfCuts (rawLoop p d) (rawLoop p (-d)) opts.posEqualEps gap C)
    (hA : ∀ a ∈ C, Keeps p |d| (curveAt (rawLoop p d) a.1 a.2) → LoopCutKind (rawLoop p d) (rawLoop p (-d)) C a)
    (hF : FindsSelf (rawLoop p d) opts.posEqualEps) (hFD : FindsPairs (rawLoop p d) (rawLoop p (-d)) opts.posEqualEps)
    (ht : 0 < opts.offsetDistEps) (hD : opts.offsetDistEps ≤ |d|)
    (hT : SelfTests p (rawLoop p d) d opts.posEqualEps opts.offsetDistEps C)
    (hg : opts.posEqualEps ≤ gap) (hj0 : 0 < opts.sliceJoinEps) (hj : 2 * opts.sliceJoinEps ≤ gap) :
    ∃ rs, parallelOffset env p d opts = .ok rs ∧
      (∀ r ∈ rs, r.closed = true ∧ 2 ≤ r.verts.length ∧ ∀ s ∈ r.segs, FullSeg s.1 s.2 opts.posEqualEps) ∧
      ∀ X, (∃ r ∈ rs, OnPline r X) ↔ OffsetPt p d X := by
  have hd' : -d ≠ 0 := neg_ne_zero.mpr hd
  have e1 : rawWith p d (straightCorner p d) = rawLoop p d := straight_raw hp
  have e2 : rawWith p (-d) (straightCorner p (-d)) = rawLoop p (-d) := straight_raw hp
  have h := straight_clear hp hfp hd hc hw hf h0
  have h' := straight_clear hp hfp hd' hc' hw' hf' h0'
  have hcc := straight_clean hp hd he h.corners
  obtain ⟨rs, hrs, hcl, hpts⟩ := C70_closed_simple env henv p d opts hidx hself he hs _ _ h h' hcc (straight_clean hp hd' he h'.corners) (straight_free hp hd he h.corners)
    gap C (by rw [e1, e2]; exact hC) (by rw [e1, e2]; exact hA) (by rw [e1]; exact hF) (by rw [e1, e2]; exact hFD) ht hD (by rw [e1]; exact hT) hg hj0 hj
  refine ⟨rs, hrs, hcl, fun X => (hpts X).trans ?_⟩
  rw [← raw_parallel he h hcc X, C60_raw_points hp hd he hc hf h0 (C42_raw_straight hp hd he hc hf h0) X, e1]

/-! Non-vacuity -/

/-- All hypotheses are met by a square, offset to the outside. -/
example (env : Env ℝ) (henv : env.Lawful) : ∃ rs, parallelOffset env box4 (-1) ⟨none, true, 1 / 100000, 1 / 10000, 1 / 10000⟩ = .ok rs ∧
    (∀ r ∈ rs, r.closed = true ∧ 2 ≤ r.verts.length ∧ ∀ s ∈ r.segs, FullSeg s.1 s.2 (1 / 100000)) ∧ ∀ X, (∃ r ∈ rs, OnPline r X) ↔ OffsetPt box4 (-1) X := by
  have e : rawLoop box4 (-(-1)) = box4In := by rw [neg_neg]; exact b4_raw
  have hfirst : (sidePt box4 (-(-1)) 0 0).fuzzyEqEps (vtx box4In 1).pos (1 / 100000) = false := by
    have l0 := box4_len.1
    unfold sideLen at l0
    rw [neg_neg, b4_vtx.2.1]
    apply FarApart.fuzzy
    unfold FarApart sidePt moved
    rw [l0, box4_pos.1, box4_pos.2.1]
    norm_num [Vertex.pos, abs_of_pos, abs_of_neg]
  refine C70_closed_straight env henv box4 (-1) ⟨none, true, 1 / 100000, 1 / 10000, 1 / 10000⟩ (by simp) rfl (by norm_num) box4_straight box4_simple b4_square (by norm_num)
    box4_clear (by rw [neg_neg]; exact b4_clear_in) (fun k => ?_) (fun k => ?_) box4_raw_full (by rw [e]; exact b4_full) box4_first (by rw [e]; exact hfirst)
    1 [] (by rw [e]; exact b4_cuts) (by simp) box4_finds (by rw [e]; exact b4_pairs) (by norm_num) (by norm_num [abs_of_pos]) b4_tests (by norm_num) (by norm_num) (by norm_num)
  · unfold sideStart sideEnd
    rw [if_neg (box4_not_mitred _), if_neg (box4_not_mitred _)]
    norm_num
  · rw [neg_neg]
    unfold sideStart sideEnd
    rw [if_pos (b4_mitred _), if_pos (b4_mitred _), box4_setback, box4_setback, b4_side_len]
    norm_num

end Cavc
