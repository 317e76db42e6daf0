import Verif.Lemmas.OpenCurve
import Verif.Lemmas.HookCross
import Verif.Lemmas.StraightClean

/-! # C68: the parallel offset of open polylines -/

set_option linter.unusedVariables false

namespace Cavc
open Pline

/-- **C68** The results of `parallel_offset` for an open polyline of lines and arcs are the raw offset without the points that are too
near to the polyline: a point is on a result if and only if it is on the raw offset and no point of the polyline is nearer than the
offset. The raw offset is cut where it crosses itself, the raw offset of the other side, and the circles around the two ends. -/
theorem C68_offset_open (env : Env ℝ) (henv : env.Lawful) (p : Pline ℝ) (d : ℝ) (opts : OffsetOptions ℝ)
    (hidx : ∀ idx, opts.aabbIndex = some idx → idx.Serves p) (he : 0 < opts.posEqualEps) (hp : FullPath p opts.posEqualEps)
    (R : Pline ℝ) (hraw : createRawOffsetPolyline p d opts.posEqualEps = .ok R) (hf : FullPath R opts.posEqualEps)
    (D : Pline ℝ) (hdual : createRawOffsetPolyline p (-d) opts.posEqualEps = .ok D) (hDs : ∀ s ∈ D.segs, IsLine s.1 ∨ |s.1.bulge| ≤ 1)
    (gap : ℝ) (C : List Cut) (hC : OpenCuts p R D |d| opts.posEqualEps gap C)
    (hF : FindsPath R opts.posEqualEps) (hFD : FindsPairs R D opts.posEqualEps)
    (hFc : ∀ v, IsEnd p v → ∀ s ∈ R.segs, FindsCircle s v.pos |d| opts.posEqualEps)
    (hK : ChangesAtCuts p R |d| C) (ht : 0 < opts.offsetDistEps) (hD : opts.offsetDistEps ≤ |d|)
    (hT : OpenTests p R d opts.posEqualEps opts.offsetDistEps C)
    (hg : opts.posEqualEps ≤ gap) (hj0 : 0 ≤ opts.sliceJoinEps) (hj : 2 * opts.sliceJoinEps ≤ gap) :
    ∃ rs, parallelOffset env p d opts = .ok rs ∧ ∀ X, (∃ r ∈ rs, OnPline r X) ↔ OnPline R X ∧ Keeps p |d| X := by
  have hn : 0 < R.verts.length := by have := hf.two; omega
  obtain ⟨rs, hrs, -, hbig⟩ := C43_parallel_offset env henv p d opts hidx
  obtain ⟨raw, hraw', -, hof⟩ := hbig hp.two
  rw [hraw] at hraw'
  injection hraw' with hraw'
  subst hraw'
  obtain ⟨-, -, es, ss, hof⟩ := hof (by intro h; rw [h] at hn; simp at hn)
  obtain ⟨D', di, hd', hdi, hes⟩ := hof.dual (by rintro ⟨h, -⟩; rw [hp.open] at h; cases h)
  rw [hdual] at hd'
  injection hd' with hd'
  subst hd'
  exact ⟨rs, hrs, result_points_open hp he ht hD hf hC.inside hK hT hg hj hj0
    (found_open env henv he hp hf hC hg hF hFD hDs hFc hdi hes) hof.slices hof.joined⟩

/-- **C68** The same with the raw offsets spelled out: the points of the results are the points of the parallel segments and of the
links at the corners from which no point of the polyline is nearer than the offset; and from each of them some point of the
polyline is exactly the offset away. -/
theorem C68_offset_parallel (env : Env ℝ) (henv : env.Lawful) (p : Pline ℝ) (d : ℝ) (opts : OffsetOptions ℝ)
    (hidx : ∀ idx, opts.aabbIndex = some idx → idx.Serves p) (he : 0 < opts.posEqualEps)
    (c c' : Nat → Corner) (hR : ClearPath p d c opts.posEqualEps) (hR' : ClearPath p (-d) c' opts.posEqualEps)
    (gap : ℝ) (C : List Cut) (hC : OpenCuts p (rawPath p d c) (rawPath p (-d) c') |d| opts.posEqualEps gap C)
    (hF : FindsPath (rawPath p d c) opts.posEqualEps) (hFD : FindsPairs (rawPath p d c) (rawPath p (-d) c') opts.posEqualEps)
    (hFc : ∀ v, IsEnd p v → ∀ s ∈ (rawPath p d c).segs, FindsCircle s v.pos |d| opts.posEqualEps)
    (hK : ChangesAtCuts p (rawPath p d c) |d| C) (ht : 0 < opts.offsetDistEps) (hD : opts.offsetDistEps ≤ |d|)
    (hT : OpenTests p (rawPath p d c) d opts.posEqualEps opts.offsetDistEps C)
    (hg : opts.posEqualEps ≤ gap) (hj0 : 0 ≤ opts.sliceJoinEps) (hj : 2 * opts.sliceJoinEps ≤ gap) :
    ∃ rs, parallelOffset env p d opts = .ok rs ∧ ∀ X,
      ((∃ r ∈ rs, OnPline r X) ↔
        ((∃ k, k + 1 < p.verts.length ∧ ∃ t, pathEnter c k ≤ t ∧ t ≤ pathLeave p c k ∧ X = parCurve p d k t) ∨
          ∃ k, k + 2 < p.verts.length ∧ ∃ b, c k = .link b ∧ OnSeg (Vertex.ofV2 (parCurve p d k 1) b) (Vertex.ofV2 (parCurve p d (k + 1) 0) 0) X) ∧
        Keeps p |d| X) ∧
      ((∃ r ∈ rs, OnPline r X) → Keeps p |d| X ∧ ∃ Y, OnPline p Y ∧ edist X Y = |d|) := by
  have hDs : ∀ s ∈ (rawPath p (-d) c').segs, IsLine s.1 ∨ |s.1.bulge| ≤ 1 := by
    intro s hs
    obtain ⟨k, hk, rfl⟩ := path_seg hR'.full hs
    exact path_shape hR'.full hk
  obtain ⟨rs, hrs, hX⟩ := C68_offset_open env henv p d opts hidx he hR.path (rawPath p d c) (raw_clear_open he hR) hR.full
    (rawPath p (-d) c') (raw_clear_open he hR') hDs gap C hC hF hFD hFc hK ht hD hT hg hj0 hj
  refine ⟨rs, hrs, fun X => ⟨?_, fun h => ?_⟩⟩
  · rw [hX X, path_points he hR]
  · obtain ⟨h1, h2⟩ := (hX X).mp h
    obtain ⟨Y, hY, hd⟩ := path_within he hR h1
    exact ⟨h2, Y, hY, le_antisymm hd (h2 Y hY)⟩

/-- **C68** If what is done at the corners is in accordance with the distances, then the results make up exactly the parallel curve of the
open polyline: the points at the distance `|d|` beside a segment, on the side of `d`, or around an inner vertex, on the outer side of
the turn, with no point of the polyline nearer than that.  Nothing is missing, and nothing is added, in particular not around the ends. -/
theorem C68_parallel_curve (env : Env ℝ) (henv : env.Lawful) (p : Pline ℝ) (d : ℝ) (opts : OffsetOptions ℝ)
    (hidx : ∀ idx, opts.aabbIndex = some idx → idx.Serves p) (he : 0 < opts.posEqualEps)
    (c c' : Nat → Corner) (hR : ClearPath p d c opts.posEqualEps) (hR' : ClearPath p (-d) c' opts.posEqualEps) (hcc : CleanPath p d c)
    (gap : ℝ) (C : List Cut) (hC : OpenCuts p (rawPath p d c) (rawPath p (-d) c') |d| opts.posEqualEps gap C)
    (hF : FindsPath (rawPath p d c) opts.posEqualEps) (hFD : FindsPairs (rawPath p d c) (rawPath p (-d) c') opts.posEqualEps)
    (hFc : ∀ v, IsEnd p v → ∀ s ∈ (rawPath p d c).segs, FindsCircle s v.pos |d| opts.posEqualEps)
    (hK : ChangesAtCuts p (rawPath p d c) |d| C) (ht : 0 < opts.offsetDistEps) (hD : opts.offsetDistEps ≤ |d|)
    (hT : OpenTests p (rawPath p d c) d opts.posEqualEps opts.offsetDistEps C)
    (hg : opts.posEqualEps ≤ gap) (hj0 : 0 ≤ opts.sliceJoinEps) (hj : 2 * opts.sliceJoinEps ≤ gap) :
    ∃ rs, parallelOffset env p d opts = .ok rs ∧ ∀ X, (∃ r ∈ rs, OnPline r X) ↔ ParallelPathPt p d X := by
  have hDs : ∀ s ∈ (rawPath p (-d) c').segs, IsLine s.1 ∨ |s.1.bulge| ≤ 1 := by
    intro s hs
    obtain ⟨k, hk, rfl⟩ := path_seg hR'.full hs
    exact path_shape hR'.full hk
  obtain ⟨rs, hrs, hX⟩ := C68_offset_open env henv p d opts hidx he hR.path (rawPath p d c) (raw_clear_open he hR) hR.full
    (rawPath p (-d) c') (raw_clear_open he hR') hDs gap C hC hF hFD hFc hK ht hD hT hg hj0 hj
  exact ⟨rs, hrs, fun X => (hX X).trans (path_parallel he hR hcc X)⟩

/-- All hypotheses are met by the hook, offset to the inside by 25. -/
example (env : Env ℝ) (henv : env.Lawful) : ∃ rs, parallelOffset env hook 25 ⟨none, false, 1 / 100000, 1 / 10000, 1 / 10000⟩ = .ok rs ∧
    ∀ X, (∃ r ∈ rs, OnPline r X) ↔ ParallelPathPt hook 25 X :=
  C68_parallel_curve env henv hook 25 ⟨none, false, 1 / 100000, 1 / 10000, 1 / 10000⟩ (by simp) (by norm_num) hkIn hkOut hk_in_clearPath hk_out_clearPath
    hk_in_clean 1 hkCuts (by rw [hk_in_raw, hk_out_raw]; exact hk_cuts) (by rw [hk_in_raw]; exact hk_finds) (by rw [hk_in_raw, hk_out_raw]; exact hk_pairs)
    (by rw [hk_in_raw]; exact hk_circles) (by rw [hk_in_raw]; exact hk_changes) (by norm_num) (by norm_num) (by rw [hk_in_raw]; exact hk_tests)
    (by norm_num) (by norm_num) (by norm_num)

/-- **C68** The same without any assumption on where along the raw offset the distance is kept: it is enough that the raw offsets of
both sides are in accordance with the distances at the corners, that at each cut only one other curve is met, at an angle, and that
the ends of the raw offset are not at the distance of the opposite ends of the polyline. -/
theorem C68_parallel_exact (env : Env ℝ) (henv : env.Lawful) (p : Pline ℝ) (d : ℝ) (opts : OffsetOptions ℝ)
    (hidx : ∀ idx, opts.aabbIndex = some idx → idx.Serves p) (he : 0 < opts.posEqualEps)
    (c c' : Nat → Corner) (hR : ClearPath p d c opts.posEqualEps) (hR' : ClearPath p (-d) c' opts.posEqualEps)
    (hcc : CleanPath p d c) (hcc' : CleanPath p (-d) c') (hfree : FreePath p d c)
    (gap : ℝ) (C : List Cut) (hC : OpenCuts p (rawPath p d c) (rawPath p (-d) c') |d| opts.posEqualEps gap C)
    (hends : EndsFree p (rawPath p d c) |d|)
    (hkind : ∀ a ∈ C, Keeps p |d| (curveAt (rawPath p d c) a.1 a.2) → CutKind p (rawPath p d c) (rawPath p (-d) c') |d| C a)
    (hF : FindsPath (rawPath p d c) opts.posEqualEps) (hFD : FindsPairs (rawPath p d c) (rawPath p (-d) c') opts.posEqualEps)
    (hFc : ∀ v, IsEnd p v → ∀ s ∈ (rawPath p d c).segs, FindsCircle s v.pos |d| opts.posEqualEps)
    (ht : 0 < opts.offsetDistEps) (hD : opts.offsetDistEps ≤ |d|)
    (hT : OpenTests p (rawPath p d c) d opts.posEqualEps opts.offsetDistEps C)
    (hg : opts.posEqualEps ≤ gap) (hj0 : 0 ≤ opts.sliceJoinEps) (hj : 2 * opts.sliceJoinEps ≤ gap) :
    ∃ rs, parallelOffset env p d opts = .ok rs ∧ ∀ X, (∃ r ∈ rs, OnPline r X) ↔ ParallelPathPt p d X :=
  C68_parallel_curve env henv p d opts hidx he c c' hR hR' hcc gap C hC hF hFD hFc (Path.path_changes he hR hcc hR' hcc' hC hfree hends hkind)
    ht hD hT hg hj0 hj

/-- All hypotheses are met by the hook, offset to the inside by 25: the circle around its end crosses the raw offset at both cuts. -/
example (env : Env ℝ) (henv : env.Lawful) : ∃ rs, parallelOffset env hook 25 ⟨none, false, 1 / 100000, 1 / 10000, 1 / 10000⟩ = .ok rs ∧
    ∀ X, (∃ r ∈ rs, OnPline r X) ↔ ParallelPathPt hook 25 X :=
  C68_parallel_exact env henv hook 25 ⟨none, false, 1 / 100000, 1 / 10000, 1 / 10000⟩ (by simp) (by norm_num) hkIn hkOut hk_in_clearPath hk_out_clearPath
    hk_in_clean hk_out_clean hk_in_free 1 hkCuts (by rw [hk_in_raw, hk_out_raw]; exact hk_cuts) (by rw [hk_in_raw]; exact hk_ends)
    (by rw [hk_in_raw, hk_out_raw]; exact fun a ha _ => hk_kinds a ha) (by rw [hk_in_raw]; exact hk_finds) (by rw [hk_in_raw, hk_out_raw]; exact hk_pairs)
    (by rw [hk_in_raw]; exact hk_circles) (by norm_num) (by norm_num) (by rw [hk_in_raw]; exact hk_tests)
    (by norm_num) (by norm_num) (by norm_num)

/-- **C68** For open polylines of straight segments nothing has to be assumed of the distances at the corners. -/
theorem C68_parallel_straight (env : Env ℝ) (henv : env.Lawful) (p : Pline ℝ) (d : ℝ) (opts : OffsetOptions ℝ)
    (hidx : ∀ idx, opts.aabbIndex = some idx → idx.Serves p) (he : 0 < opts.posEqualEps) (hl : ∀ k, k + 1 < p.verts.length → IsLine (vtx p k))
    (c c' : Nat → Corner) (hR : ClearPath p d c opts.posEqualEps) (hR' : ClearPath p (-d) c' opts.posEqualEps)
    (gap : ℝ) (C : List Cut) (hC : OpenCuts p (rawPath p d c) (rawPath p (-d) c') |d| opts.posEqualEps gap C)
    (hends : EndsFree p (rawPath p d c) |d|)
    (hkind : ∀ a ∈ C, Keeps p |d| (curveAt (rawPath p d c) a.1 a.2) → CutKind p (rawPath p d c) (rawPath p (-d) c') |d| C a)
    (hF : FindsPath (rawPath p d c) opts.posEqualEps) (hFD : FindsPairs (rawPath p d c) (rawPath p (-d) c') opts.posEqualEps)
    (hFc : ∀ v, IsEnd p v → ∀ s ∈ (rawPath p d c).segs, FindsCircle s v.pos |d| opts.posEqualEps)
    (ht : 0 < opts.offsetDistEps) (hD : opts.offsetDistEps ≤ |d|)
    (hT : OpenTests p (rawPath p d c) d opts.posEqualEps opts.offsetDistEps C)
    (hg : opts.posEqualEps ≤ gap) (hj0 : 0 ≤ opts.sliceJoinEps) (hj : 2 * opts.sliceJoinEps ≤ gap) :
    ∃ rs, parallelOffset env p d opts = .ok rs ∧ ∀ X, (∃ r ∈ rs, OnPline r X) ↔ ParallelPathPt p d X :=
  C68_parallel_exact env henv p d opts hidx he c c' hR hR' (straight_path_clean hR.path hl hR.moves he hR.corners)
    (straight_path_clean hR.path hl hR'.moves he hR'.corners) (straight_path_free hR.path hl hR.moves he hR.corners)
    gap C hC hends hkind hF hFD hFc ht hD hT hg hj0 hj

/-- The hook consists of straight segments. -/
example (env : Env ℝ) (henv : env.Lawful) : ∃ rs, parallelOffset env hook 25 ⟨none, false, 1 / 100000, 1 / 10000, 1 / 10000⟩ = .ok rs ∧
    ∀ X, (∃ r ∈ rs, OnPline r X) ↔ ParallelPathPt hook 25 X :=
  C68_parallel_straight env henv hook 25 ⟨none, false, 1 / 100000, 1 / 10000, 1 / 10000⟩ (by simp) (by norm_num)
    (fun k hk => by have hk' : k + 1 < 5 := hk; have : k < 4 := by omega
                    interval_cases k <;> exact box4_line _ _) hkIn hkOut hk_in_clearPath hk_out_clearPath
    1 hkCuts (by rw [hk_in_raw, hk_out_raw]; exact hk_cuts) (by rw [hk_in_raw]; exact hk_ends)
    (by rw [hk_in_raw, hk_out_raw]; exact fun a ha _ => hk_kinds a ha) (by rw [hk_in_raw]; exact hk_finds) (by rw [hk_in_raw, hk_out_raw]; exact hk_pairs)
    (by rw [hk_in_raw]; exact hk_circles) (by norm_num) (by norm_num) (by rw [hk_in_raw]; exact hk_tests)
    (by norm_num) (by norm_num) (by norm_num)

/-- The hook, offset to the inside by 25: the raw offset is cut twice by the circle around the end of the hook, and the part between
the cuts is left out. -/
example (env : Env ℝ) (henv : env.Lawful) : ∃ rs, parallelOffset env hook 25 ⟨none, false, 1 / 100000, 1 / 10000, 1 / 10000⟩ = .ok rs ∧
    ∀ X, (∃ r ∈ rs, OnPline r X) ↔ ∃ i < 4, ∃ t, 0 ≤ t ∧ t ≤ 1 ∧ X = curveAt hkR i t ∧ (i ≠ 0 ∨ t ≤ 20 / 75 ∨ 60 / 75 ≤ t) := by
  obtain ⟨rs, hrs, h⟩ := C68_offset_open env henv hook 25 ⟨none, false, 1 / 100000, 1 / 10000, 1 / 10000⟩ (by simp) (by norm_num) hk_full
    hkR (by rw [← hk_in_raw]; exact raw_clear_open (by norm_num) hk_in_clearPath) hkR_full
    hkD (by rw [← hk_out_raw]; exact raw_clear_open (by norm_num) hk_out_clearPath)
    (fun s hs => by obtain ⟨k, hk, rfl⟩ := path_seg hkD_full hs; exact path_shape hkD_full hk)
    1 hkCuts hk_cuts hk_finds hk_pairs hk_circles hk_changes (by norm_num) (by norm_num) hk_tests (by norm_num) (by norm_num) (by norm_num)
  refine ⟨rs, hrs, fun X => (h X).trans ?_⟩
  constructor
  · rintro ⟨⟨s, hs, t, t0, t1, rfl⟩, hk⟩
    obtain ⟨i, hi, rfl⟩ := path_seg hkR_full hs
    have hi4 : i < 4 := by have : i + 1 < 5 := hi; omega
    rw [← curveAt_vtx (by decide)] at hk ⊢
    exact ⟨i, hi4, t, t0, t1, rfl, (hk_keeps hi4 t0 t1).mp hk⟩
  · rintro ⟨i, hi, t, t0, t1, rfl, hk⟩
    exact ⟨⟨_, List.mem_of_getElem? ((path_segs rfl (by decide) _ i).mpr ⟨by rw [hkR_len]; omega, rfl⟩), t, t0, t1, curveAt_vtx (by decide) _ _⟩,
      (hk_keeps hi t0 t1).mpr hk⟩

end Cavc
