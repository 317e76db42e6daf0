import Verif.Lemmas.BoxSelf
import Verif.Lemmas.CoilCorners
import Verif.Props.OffsetAny

/-! # C70: the parallel offset of closed polylines with the option for self-intersections -/

set_option linter.unusedVariables false

namespace Cavc
open Pline

/-- **C70** With the option `handle_self_intersects`, the results of `parallel_offset` for a closed polyline of lines and arcs are the raw
offset without the points that are too near to the polyline, whether or not the polyline crosses itself: a point is on a result if
and only if it is on the raw offset and no point of the polyline is nearer than the offset. -/
theorem C70_offset_self (env : Env ℝ) (henv : env.Lawful) (p : Pline ℝ) (d : ℝ) (opts : OffsetOptions ℝ)
    (hidx : ∀ idx, opts.aabbIndex = some idx → idx.Serves p) (hself : opts.handleSelfIntersects = true)
    (he : 0 < opts.posEqualEps) (hp : FullLoop p opts.posEqualEps)
    (R : Pline ℝ) (hraw : createRawOffsetPolyline p d opts.posEqualEps = .ok R) (hf : FullLoop R opts.posEqualEps)
    (D : Pline ℝ) (hdual : createRawOffsetPolyline p (-d) opts.posEqualEps = .ok D) (hDs : ∀ s ∈ D.segs, IsLine s.1 ∨ |s.1.bulge| ≤ 1)
    (gap : ℝ) (C : List Cut) (hC : SelfCuts R D opts.posEqualEps gap C)
    (hF : FindsSelf R opts.posEqualEps) (hFD : FindsPairs R D opts.posEqualEps)
    (hK : SelfChanges p R |d| C) (ht : 0 < opts.offsetDistEps) (hD : opts.offsetDistEps ≤ |d|)
    (hT : SelfTests p R d opts.posEqualEps opts.offsetDistEps C)
    (hg : opts.posEqualEps ≤ gap) (hj0 : 0 ≤ opts.sliceJoinEps) (hj : 2 * opts.sliceJoinEps ≤ gap) :
    ∃ rs, parallelOffset env p d opts = .ok rs ∧ ∀ X, (∃ r ∈ rs, OnPline r X) ↔ OnPline R X ∧ Keeps p |d| X := by
  have hn : 0 < R.verts.length := by have := hf.two; omega
  obtain ⟨rs, hrs, -, hbig⟩ := C43_parallel_offset env henv p d opts hidx
  obtain ⟨raw, hraw', -, hof⟩ := hbig hp.two
  rw [hraw] at hraw'
  injection hraw' with hraw'
  subst hraw'
  obtain ⟨-, -, es, ss, hof⟩ := hof (by intro h; rw [h] at hn; simp at hn)
  obtain ⟨D', di, hd', hdi, hes⟩ := hof.dual (by rintro ⟨-, h⟩; rw [hself] at h; cases h)
  rw [hdual] at hd'
  injection hd' with hd'
  subst hd'
  exact ⟨rs, hrs, result_points_loop hp he ht hD hf hC.inside hK hT hg hj hj0
    (found_loop env henv he hp.closed hf hC hF hFD hDs hdi hes) hof.slices hof.joined⟩

/-- **C70** The same with the raw offsets spelled out: what is left of the parallel segments and the links at the corners.  All points
of the results have exactly the offset as distance from the polyline. -/
theorem C70_offset_parallel (env : Env ℝ) (henv : env.Lawful) (p : Pline ℝ) (d : ℝ) (opts : OffsetOptions ℝ)
    (hidx : ∀ idx, opts.aabbIndex = some idx → idx.Serves p) (hself : opts.handleSelfIntersects = true) (he : 0 < opts.posEqualEps)
    (c c' : Nat → Corner) (h : ClearOffset p d c opts.posEqualEps) (h' : ClearOffset p (-d) c' opts.posEqualEps)
    (gap : ℝ) (C : List Cut) (hC : SelfCuts (rawWith p d c) (rawWith p (-d) c') opts.posEqualEps gap C)
    (hF : FindsSelf (rawWith p d c) opts.posEqualEps) (hFD : FindsPairs (rawWith p d c) (rawWith p (-d) c') opts.posEqualEps)
    (hK : SelfChanges p (rawWith p d c) |d| C) (ht : 0 < opts.offsetDistEps) (hD : opts.offsetDistEps ≤ |d|)
    (hT : SelfTests p (rawWith p d c) d opts.posEqualEps opts.offsetDistEps C)
    (hg : opts.posEqualEps ≤ gap) (hj0 : 0 ≤ opts.sliceJoinEps) (hj : 2 * opts.sliceJoinEps ≤ gap) :
    ∃ rs, parallelOffset env p d opts = .ok rs ∧
      (∀ X, (∃ r ∈ rs, OnPline r X) ↔ Keeps p |d| X ∧
        ((∃ k < p.verts.length, ∃ t, enterAt p c k ≤ t ∧ t ≤ leaveAt p c k ∧ X = parCurve p d k t) ∨
          ∃ k < p.verts.length, ∃ b, c k = .link b ∧ OnSeg (Vertex.ofV2 (parCurve p d k 1) b) (Vertex.ofV2 (parCurve p d (k + 1) 0) 0) X)) ∧
      ∀ r ∈ rs, ∀ X, OnPline r X → (∀ q, OnPline p q → |d| ≤ edist X q) ∧ ∃ q, OnPline p q ∧ edist X q = |d| := by
  have hraw := C65_raw he h
  have hDs : ∀ s ∈ (rawWith p (-d) c').segs, IsLine s.1 ∨ |s.1.bulge| ≤ 1 := by
    intro s hs
    obtain ⟨k, hk, rfl⟩ := loop_seg h'.full.closed h'.full.two hs
    exact loop_shape h'.full k
  obtain ⟨rs, hrs, hpts⟩ := C70_offset_self env henv p d opts hidx hself he h.loop _ hraw h.full _ (C65_raw he h') hDs gap C hC hF hFD hK ht hD hT hg hj0 hj
  refine ⟨rs, hrs, fun X => ?_, fun r hr X hX => ?_⟩
  · rw [hpts, (C65_points he h hraw).2 X, and_comm]
  · obtain ⟨h1, h2⟩ := (hpts X).mp ⟨r, hr, hX⟩
    obtain ⟨q, hq, hqd⟩ := C65_near he h hraw h1
    exact ⟨h2, q, hq, le_antisymm hqd (h2 q hq)⟩

/-- **C70** Where both settings of the option work, they give results with the same points: the option changes how the raw offset is
cut, not what is left of it. -/
theorem C70_agree (env : Env ℝ) (henv : env.Lawful) (p : Pline ℝ) (d : ℝ) (opts : OffsetOptions ℝ)
    (hidx : ∀ idx, opts.aabbIndex = some idx → idx.Serves p) (he : 0 < opts.posEqualEps) (hp : FullLoop p opts.posEqualEps)
    (R : Pline ℝ) (hraw : createRawOffsetPolyline p d opts.posEqualEps = .ok R) (hf : FullLoop R opts.posEqualEps)
    (D : Pline ℝ) (hdual : createRawOffsetPolyline p (-d) opts.posEqualEps = .ok D) (hDs : ∀ s ∈ D.segs, IsLine s.1 ∨ |s.1.bulge| ≤ 1)
    (gap : ℝ) (hg : opts.posEqualEps ≤ gap) (hj0 : 0 ≤ opts.sliceJoinEps) (hj : 2 * opts.sliceJoinEps ≤ gap)
    (ht : 0 < opts.offsetDistEps) (hD : opts.offsetDistEps ≤ |d|) (hF : FindsSelf R opts.posEqualEps)
    (E : List (Cut × Cut)) (hE : SelfCrossing R opts.posEqualEps gap E) (hKE : ChangesAtCrossings p R |d| E)
    (hTE : ClearTests p R d opts.posEqualEps opts.offsetDistEps E) (hWE : ReadableTests p R opts.posEqualEps E)
    (C : List Cut) (hC : SelfCuts R D opts.posEqualEps gap C) (hFD : FindsPairs R D opts.posEqualEps)
    (hK : SelfChanges p R |d| C) (hT : SelfTests p R d opts.posEqualEps opts.offsetDistEps C) :
    ∃ rs rs', parallelOffset env p d { opts with handleSelfIntersects := false } = .ok rs ∧
      parallelOffset env p d { opts with handleSelfIntersects := true } = .ok rs' ∧
      ∀ X, (∃ r ∈ rs, OnPline r X) ↔ ∃ r ∈ rs', OnPline r X := by
  obtain ⟨rs, h1, h2⟩ := C66_offset_curve env henv p d { opts with handleSelfIntersects := false } hidx rfl he hp R hraw hf gap E hE hF hKE ht hD hTE hWE hg hj0 hj
  obtain ⟨rs', h1', h2'⟩ := C70_offset_self env henv p d { opts with handleSelfIntersects := true } hidx rfl he hp R hraw hf D hdual hDs gap C hC hF hFD hK ht hD hT hg hj0 hj
  exact ⟨rs, rs', h1, h1', fun X => (h2 X).trans (h2' X).symm⟩

/-- **C70** The same from the geometry alone: the results make up exactly the parallel curve.  It is not assumed where along the raw offset
the distance is kept.  It is enough that what is done at the corners is in accordance with the distances, on both sides, that next to a cut
the two parallel segments keep the distance from each other's segment, and that the raw offset is crossed at angles: at each cut that keeps
the distance by one other pass of itself, or by one pass of the raw offset of the other side. -/
theorem C70_parallel_exact (env : Env ℝ) (henv : env.Lawful) (p : Pline ℝ) (d : ℝ) (opts : OffsetOptions ℝ)
    (hidx : ∀ idx, opts.aabbIndex = some idx → idx.Serves p) (hself : opts.handleSelfIntersects = true) (he : 0 < opts.posEqualEps)
    (c c' : Nat → Corner) (h : ClearOffset p d c opts.posEqualEps) (h' : ClearOffset p (-d) c' opts.posEqualEps)
    (hcc : CleanCorners p d c) (hcc' : CleanCorners p (-d) c') (hf : FreeCuts p d c)
    (gap : ℝ) (C : List Cut) (hC : SelfCuts (rawWith p d c) (rawWith p (-d) c') opts.posEqualEps gap C)
    (hA : ∀ a ∈ C, Keeps p |d| (curveAt (rawWith p d c) a.1 a.2) → LoopCutKind (rawWith p d c) (rawWith p (-d) c') C a)
    (hF : FindsSelf (rawWith p d c) opts.posEqualEps) (hFD : FindsPairs (rawWith p d c) (rawWith p (-d) c') opts.posEqualEps)
    (ht : 0 < opts.offsetDistEps) (hD : opts.offsetDistEps ≤ |d|)
    (hT : SelfTests p (rawWith p d c) d opts.posEqualEps opts.offsetDistEps C)
    (hg : opts.posEqualEps ≤ gap) (hj0 : 0 ≤ opts.sliceJoinEps) (hj : 2 * opts.sliceJoinEps ≤ gap) :
    ∃ rs, parallelOffset env p d opts = .ok rs ∧ ∀ X, (∃ r ∈ rs, OnPline r X) ↔ ParallelPt p d X := by
  have hDs : ∀ s ∈ (rawWith p (-d) c').segs, IsLine s.1 ∨ |s.1.bulge| ≤ 1 := by
    intro s hs
    obtain ⟨k, hk, rfl⟩ := loop_seg h'.full.closed h'.full.two hs
    exact loop_shape h'.full k
  obtain ⟨rs, hrs, hpts⟩ := C70_offset_self env henv p d opts hidx hself he h.loop _ (C65_raw he h) h.full _ (C65_raw he h') hDs gap C hC hF hFD
    (Both.loop_changes he h hcc h' hcc' hC hf hA) ht hD hT hg hj0 hj
  exact ⟨rs, hrs, fun X => (hpts X).trans (raw_parallel he h hcc X)⟩

/-- **C70** For straight closed polylines nothing has to be assumed of the corners but that they are clear: the results are the points beside a
side, on the side of the offset, or around an outer corner, with no point of the polyline nearer than the offset, also if the polyline
crosses itself. -/
theorem C70_parallel_straight (env : Env ℝ) (henv : env.Lawful) (p : Pline ℝ) (d : ℝ) (opts : OffsetOptions ℝ)
    (hidx : ∀ idx, opts.aabbIndex = some idx → idx.Serves p) (hself : opts.handleSelfIntersects = true) (he : 0 < opts.posEqualEps)
    (hp : StraightLoop p) (hfp : FullLoop p opts.posEqualEps) (hd : d ≠ 0)
    (hc : ∀ k, ClearTurn p d opts.posEqualEps k) (hc' : ∀ k, ClearTurn p (-d) opts.posEqualEps k)
    (hw : ∀ k, sideStart p d k < sideEnd p d k) (hw' : ∀ k, sideStart p (-d) k < sideEnd p (-d) k)
    (hf : FullLoop (rawLoop p d) opts.posEqualEps) (hf' : FullLoop (rawLoop p (-d)) opts.posEqualEps)
    (h0 : (sidePt p d 0 0).fuzzyEqEps (vtx (rawLoop p d) 1).pos opts.posEqualEps = false)
    (h0' : (sidePt p (-d) 0 0).fuzzyEqEps (vtx (rawLoop p (-d)) 1).pos opts.posEqualEps = false)
    (gap : ℝ) (C : List Cut) (hC : SelfCuts (rawLoop p d) (rawLoop p (-d)) opts.posEqualEps gap C)
    (hA : ∀ a ∈ C, Keeps p |d| (curveAt (rawLoop p d) a.1 a.2) → LoopCutKind (rawLoop p d) (rawLoop p (-d)) C a)
    (hF : FindsSelf (rawLoop p d) opts.posEqualEps) (hFD : FindsPairs (rawLoop p d) (rawLoop p (-d)) opts.posEqualEps)
    (ht : 0 < opts.offsetDistEps) (hD : opts.offsetDistEps ≤ |d|)
    (hT : SelfTests p (rawLoop p d) d opts.posEqualEps opts.offsetDistEps C)
    (hg : opts.posEqualEps ≤ gap) (hj0 : 0 ≤ opts.sliceJoinEps) (hj : 2 * opts.sliceJoinEps ≤ gap) :
    ∃ rs, parallelOffset env p d opts = .ok rs ∧ ∀ X, (∃ r ∈ rs, OnPline r X) ↔ OffsetPt p d X := by
  have hd' : -d ≠ 0 := neg_ne_zero.mpr hd
  have e1 : rawWith p d (straightCorner p d) = rawLoop p d := straight_raw hp
  have e2 : rawWith p (-d) (straightCorner p (-d)) = rawLoop p (-d) := straight_raw hp
  have h := straight_clear hp hfp hd hc hw hf h0
  have h' := straight_clear hp hfp hd' hc' hw' hf' h0'
  have hcc := straight_clean hp hd he h.corners
  obtain ⟨rs, hrs, hpts⟩ := C70_parallel_exact env henv p d opts hidx hself he _ _ h h' hcc (straight_clean hp hd' he h'.corners) (straight_free hp hd he h.corners)
    gap C (by rw [e1, e2]; exact hC) (by rw [e1, e2]; exact hA) (by rw [e1]; exact hF) (by rw [e1, e2]; exact hFD) ht hD (by rw [e1]; exact hT) hg hj0 hj
  refine ⟨rs, hrs, fun X => (hpts X).trans ?_⟩
  rw [← raw_parallel he h hcc X, C60_raw_points hp hd he hc hf h0 (C42_raw_straight hp hd he hc hf h0) X, e1]

/-! Non-vacuity -/

/-- All hypotheses are met by the coil, which crosses itself.  At two of the cuts its raw offset crosses itself, at the other two it is crossed by
the raw offset of the other side. -/
example (env : Env ℝ) (henv : env.Lawful) : ∃ rs, parallelOffset env coil 2 ⟨none, true, 1 / 100000, 1 / 10000, 1 / 10000⟩ = .ok rs ∧
    ∀ X, (∃ r ∈ rs, OnPline r X) ↔ ParallelPt coil 2 X := by
  have e1 : rawWith coil 2 (straightCorner coil 2) = clR := (straight_raw cl_straight).trans cl_raw_in
  have e2 : rawWith coil (-2) (straightCorner coil (-2)) = clD := (straight_raw cl_straight).trans cl_raw_out
  exact C70_parallel_exact env henv coil 2 ⟨none, true, 1 / 100000, 1 / 10000, 1 / 10000⟩ (by simp) rfl (by norm_num)
    (straightCorner coil 2) (straightCorner coil (-2)) cl_clearOffset_in cl_clearOffset_out cl_clean_in cl_clean_out cl_free
    1 clCuts (by rw [e1, e2]; exact cl_cuts) (by rw [e1, e2]; exact fun a ha _ => cl_kinds a ha) (by rw [e1]; exact cl_finds) (by rw [e1, e2]; exact cl_pairs)
    (by norm_num) (by norm_num [abs_of_pos]) (by rw [e1]; exact cl_tests) (by norm_num) (by norm_num) (by norm_num)

/-- The coil meets the hypotheses for straight polylines. -/
example (env : Env ℝ) (henv : env.Lawful) : ∃ rs, parallelOffset env coil 2 ⟨none, true, 1 / 100000, 1 / 10000, 1 / 10000⟩ = .ok rs ∧
    ∀ X, (∃ r ∈ rs, OnPline r X) ↔ OffsetPt coil 2 X := by
  refine C70_parallel_straight env henv coil 2 ⟨none, true, 1 / 100000, 1 / 10000, 1 / 10000⟩ (by simp) rfl (by norm_num)
    cl_straight cl_full (by norm_num) cl_clear_in cl_clear_out cl_forward_in cl_forward_out (by rw [cl_raw_in]; exact clR_full) (by rw [cl_raw_out]; exact clD_full)
    (cl_first _ _ ?_) (cl_first _ _ ?_) 1 clCuts (by rw [cl_raw_in, cl_raw_out]; exact cl_cuts) (by rw [cl_raw_in, cl_raw_out]; exact fun a ha _ => cl_kinds a ha)
    (by rw [cl_raw_in]; exact cl_finds) (by rw [cl_raw_in, cl_raw_out]; exact cl_pairs)
    (by norm_num) (by norm_num [abs_of_pos]) (by rw [cl_raw_in]; exact cl_tests) (by norm_num) (by norm_num) (by norm_num)
  · rw [cl_raw_in, clR_vtx.2.1]; unfold FarApart Vertex.pos; norm_num [abs_of_pos, abs_of_neg]
  · rw [cl_raw_out, clD_vtx.2.1]; unfold FarApart Vertex.pos; norm_num [abs_of_pos, abs_of_neg]

/-- The hypotheses are met by the coil, a closed polyline that crosses itself.  Its raw offset passes the point (28, 12) twice and meets the raw offset of
the other side in (28, 8) and (32, 12); the two parts between these points are left out. -/
example (env : Env ℝ) (henv : env.Lawful) : ∃ rs, parallelOffset env coil 2 ⟨none, true, 1 / 100000, 1 / 10000, 1 / 10000⟩ = .ok rs ∧
    ∀ X, (∃ r ∈ rs, OnPline r X) ↔ ∃ i < 8, ∃ t, 0 ≤ t ∧ t ≤ 1 ∧ X = curveAt clR i t ∧
      (i = 1 → t ≤ 6 / 26 ∨ 10 / 26 ≤ t) ∧ (i = 4 → t ≤ 16 / 26 ∨ 20 / 26 ≤ t) := by
  obtain ⟨rs, hrs, h⟩ := C70_offset_self env henv coil 2 ⟨none, true, 1 / 100000, 1 / 10000, 1 / 10000⟩ (by simp) rfl (by norm_num) cl_full
    clR cl_in clR_full clD cl_out
    (fun s hs => by obtain ⟨k, hk, rfl⟩ := loop_seg rfl (by rw [clD_len]; norm_num) hs; exact loop_shape clD_full k)
    1 clCuts cl_cuts cl_finds cl_pairs cl_changes (by norm_num) (by norm_num [abs_of_pos]) cl_tests (by norm_num) (by norm_num) (by norm_num)
  refine ⟨rs, hrs, fun X => (h X).trans ?_⟩
  constructor
  · rintro ⟨⟨s, hs, t, t0, t1, rfl⟩, hk⟩
    obtain ⟨i, hi, rfl⟩ := loop_seg rfl (by decide) hs
    rw [← curveAt_vtx (by decide)] at hk ⊢
    exact ⟨i, hi, t, t0, t1, rfl, (cl_keeps hi t0 t1).mp hk⟩
  · rintro ⟨i, hi, t, t0, t1, rfl, hk⟩
    exact ⟨on_curve rfl (by decide) hi t0 t1, (cl_keeps hi t0 t1).mpr hk⟩

/-- The raw offsets of the coil are the polylines with the corners of the second theorem, and all its hypotheses are met: all points of the
results have exactly the distance 2 from the coil. -/
example (env : Env ℝ) (henv : env.Lawful) : ∃ rs, parallelOffset env coil 2 ⟨none, true, 1 / 100000, 1 / 10000, 1 / 10000⟩ = .ok rs ∧
    ∀ r ∈ rs, ∀ X, OnPline r X → (∀ q, OnPline coil q → |2| ≤ edist X q) ∧ ∃ q, OnPline coil q ∧ edist X q = |2| := by
  have e1 : rawWith coil 2 (straightCorner coil 2) = clR := (straight_raw cl_straight).trans cl_raw_in
  have e2 : rawWith coil (-2) (straightCorner coil (-2)) = clD := (straight_raw cl_straight).trans cl_raw_out
  obtain ⟨rs, h1, -, h2⟩ := C70_offset_parallel env henv coil 2 ⟨none, true, 1 / 100000, 1 / 10000, 1 / 10000⟩ (by simp) rfl (by norm_num)
    (straightCorner coil 2) (straightCorner coil (-2)) cl_clearOffset_in cl_clearOffset_out 1 clCuts (by rw [e1, e2]; exact cl_cuts)
    (by rw [e1]; exact cl_finds) (by rw [e1, e2]; exact cl_pairs) (by rw [e1]; exact cl_changes) (by norm_num) (by norm_num [abs_of_pos])
    (by rw [e1]; exact cl_tests) (by norm_num) (by norm_num) (by norm_num)
  exact ⟨rs, h1, h2⟩

/-- A square, offset to the outside: both settings of the option give results with the same points. -/
example (env : Env ℝ) (henv : env.Lawful) : ∃ rs rs', parallelOffset env box4 (-1) ⟨none, false, 1 / 100000, 1 / 10000, 1 / 10000⟩ = .ok rs ∧
    parallelOffset env box4 (-1) ⟨none, true, 1 / 100000, 1 / 10000, 1 / 10000⟩ = .ok rs' ∧ ∀ X, (∃ r ∈ rs, OnPline r X) ↔ ∃ r ∈ rs', OnPline r X :=
  C70_agree env henv box4 (-1) ⟨none, false, 1 / 100000, 1 / 10000, 1 / 10000⟩ (by simp) (by norm_num) b4_square (rawLoop box4 (-1))
    (C42_raw_straight box4_straight (by norm_num) (by norm_num) box4_clear box4_raw_full box4_first) box4_raw_full box4In
    (by rw [neg_neg]; exact b4_in)
    (fun s hs => by obtain ⟨k, hk, rfl⟩ := loop_seg rfl (by decide) hs; exact loop_shape b4_full k)
    1 (by norm_num) (by norm_num) (by norm_num) (by norm_num) (by norm_num [abs_of_pos]) box4_finds
    [] box4_crossing b4_crossings box4_tests (fun i lo hi h => ⟨b4_read _, b4_read _, b4_read _⟩)
    [] b4_cuts b4_pairs b4_changes b4_tests

end Cavc
