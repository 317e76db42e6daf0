import Verif.Lemmas.OffsetSteady
import Verif.Props.OffsetCurve
import Verif.Props.OffsetArcs
import Verif.Lemmas.HouseOffset

/-! # C66: the parallel offset of closed polylines of lines and arcs -/

set_option linter.unusedVariables false

namespace Cavc
open Pline

/-- **C66** The results of `parallel_offset` for a closed polyline of lines and arcs are the raw offset without the points that are too near
to the polyline: a point is on a result if and only if it is on the raw offset and no point of the polyline is nearer than the
offset. -/
theorem C66_offset_curve (env : Env ℝ) (henv : env.Lawful) (p : Pline ℝ) (d : ℝ) (opts : OffsetOptions ℝ)
    (hidx : ∀ idx, opts.aabbIndex = some idx → idx.Serves p) (hself : opts.handleSelfIntersects = false)
    (he : 0 < opts.posEqualEps) (hp : FullLoop p opts.posEqualEps) (R : Pline ℝ) (hraw : createRawOffsetPolyline p d opts.posEqualEps = .ok R)
    (hf : FullLoop R opts.posEqualEps)
    (gap : ℝ) (E : List (Cut × Cut)) (hE : SelfCrossing R opts.posEqualEps gap E) (hF : FindsSelf R opts.posEqualEps)
    (hC : ChangesAtCrossings p R |d| E) (ht : 0 < opts.offsetDistEps) (hD : opts.offsetDistEps ≤ |d|)
    (hT : ClearTests p R d opts.posEqualEps opts.offsetDistEps E) (hW : ReadableTests p R opts.posEqualEps E)
    (hg : opts.posEqualEps ≤ gap) (hj0 : 0 ≤ opts.sliceJoinEps) (hj : 2 * opts.sliceJoinEps ≤ gap) :
    ∃ rs, parallelOffset env p d opts = .ok rs ∧ ∀ X, (∃ r ∈ rs, OnPline r X) ↔ OnPline R X ∧ Keeps p |d| X := by
  have hn : 0 < R.verts.length := by have := hf.two; omega
  obtain ⟨rs, hrs, -, hbig⟩ := C43_parallel_offset env henv p d opts hidx
  obtain ⟨raw, hraw', -, hof⟩ := hbig hp.two
  rw [hraw] at hraw'
  injection hraw' with hraw'
  subst hraw'
  obtain ⟨-, -, es, ss, hof⟩ := hof (by intro h; rw [h] at hn; simp at hn)
  obtain ⟨hA, hB⟩ := result_points_any hp he ht hD hf hE hF hC hT hW hg hj hj0 (hof.single hp.closed hself) hof.slices hof.joined
  refine ⟨rs, hrs, fun X => ⟨fun ⟨r, hr, hX⟩ => hA r hr X hX, fun hX => ?_⟩⟩
  obtain ⟨⟨s, hs, t, t0, t1, hXt⟩, hk⟩ := hX
  rw [segs_range hf.closed hf.two] at hs
  obtain ⟨i, hi, rfl⟩ := List.mem_map.mp hs
  rw [← curveAt_vtx hn] at hXt
  subst hXt
  by_cases hcut : (i, t) ∈ bothCuts E
  · -- a crossing: the limit of a branch
    by_contra hon
    obtain ⟨δ, hδ, h1⟩ := far_from_segs (rs.flatMap Pline.segs) (by
      intro s hs h
      obtain ⟨r, hr, hsr⟩ := List.mem_flatMap.mp hs
      exact hon ⟨r, hr, s, hsr, h⟩)
    obtain ⟨c, hc', hcX, σ, hσ, δ₁, hδ₁, hbr⟩ := hC.leave _ hcut hk
    dsimp only at hcX
    obtain ⟨δ₂, hδ₂, hoff⟩ := far_cuts c (bothCuts E)
    have hcont := edist_continuous (curveAt_continuous hn c.1) (const_continuous (curveAt R c.1 c.2))
    obtain ⟨δ₃, hδ₃, hball⟩ := Metric.continuous_iff.mp hcont c.2 δ hδ
    have c0 := (hE.ok _ hc').pos
    have c1 := (hE.ok _ hc').lt
    obtain ⟨s, hs0, hs⟩ := exists_between (lt_min (lt_min hδ₁ hδ₂) (lt_min hδ₃ (lt_min c0 (sub_pos.mpr c1))))
    obtain ⟨l1, l2⟩ := lt_min_iff.mp hs
    obtain ⟨l1, l3⟩ := lt_min_iff.mp l1
    obtain ⟨l2, l4⟩ := lt_min_iff.mp l2
    obtain ⟨l4, l5⟩ := lt_min_iff.mp l4
    have habs : |c.2 + σ * s - c.2| = s := by
      rw [add_sub_cancel_left]
      rcases hσ with rfl | rfl
      · rw [one_mul, abs_of_pos hs0]
      · rw [neg_one_mul, abs_neg, abs_of_pos hs0]
    have hnc : (c.1, c.2 + σ * s) ∉ bothCuts E := fun h => by
      have := hoff _ h rfl (by intro h; dsimp only at h; rw [h, sub_self, abs_zero] at habs; linarith)
      rw [habs] at this
      linarith
    obtain ⟨r, hr, s', hs', hon'⟩ := hB c.1 (c.2 + σ * s) (hE.range _ hc') (by rcases hσ with rfl | rfl <;> linarith) (by rcases hσ with rfl | rfl <;> linarith) hnc (hbr s hs0 l1)
    have hd1 := h1 s' (List.mem_flatMap.mpr ⟨r, hr, hs'⟩) _ hon'
    have hd2 := hball (c.2 + σ * s) (by rw [Real.dist_eq, habs]; exact l2)
    have hz : edist (curveAt R c.1 c.2) (curveAt R c.1 c.2) = 0 := by unfold edist; simp
    rw [hz, Real.dist_eq, sub_zero, abs_of_nonneg (edist_nonneg _ _), edist_comm, hcX] at hd2
    linarith
  · exact hB i t (List.mem_range.mp hi) t0 t1 hcut hk

/-- **C66** The same with the raw offset spelled out: what is left of the parallel segments and the links at the corners.  All points of
the results have exactly the offset as distance from the polyline. -/
theorem C66_offset_parallel (env : Env ℝ) (henv : env.Lawful) (p : Pline ℝ) (d : ℝ) (opts : OffsetOptions ℝ)
    (hidx : ∀ idx, opts.aabbIndex = some idx → idx.Serves p) (hself : opts.handleSelfIntersects = false)
    (he : 0 < opts.posEqualEps) (c : Nat → Corner) (h : ClearOffset p d c opts.posEqualEps)
    (gap : ℝ) (E : List (Cut × Cut)) (hE : SelfCrossing (rawWith p d c) opts.posEqualEps gap E) (hF : FindsSelf (rawWith p d c) opts.posEqualEps)
    (hC : ChangesAtCrossings p (rawWith p d c) |d| E) (ht : 0 < opts.offsetDistEps) (hD : opts.offsetDistEps ≤ |d|)
    (hT : ClearTests p (rawWith p d c) d opts.posEqualEps opts.offsetDistEps E) (hW : ReadableTests p (rawWith p d c) opts.posEqualEps E)
    (hg : opts.posEqualEps ≤ gap) (hj0 : 0 ≤ opts.sliceJoinEps) (hj : 2 * opts.sliceJoinEps ≤ gap) :
    ∃ rs, parallelOffset env p d opts = .ok rs ∧
      (∀ X, (∃ r ∈ rs, OnPline r X) ↔ Keeps p |d| X ∧
        ((∃ k < p.verts.length, ∃ t, enterAt p c k ≤ t ∧ t ≤ leaveAt p c k ∧ X = parCurve p d k t) ∨
          ∃ k < p.verts.length, ∃ b, c k = .link b ∧ OnSeg (Vertex.ofV2 (parCurve p d k 1) b) (Vertex.ofV2 (parCurve p d (k + 1) 0) 0) X)) ∧
      ∀ r ∈ rs, ∀ X, OnPline r X → (∀ q, OnPline p q → |d| ≤ edist X q) ∧ ∃ q, OnPline p q ∧ edist X q = |d| := by
  have hraw := C65_raw he h
  obtain ⟨rs, hrs, hpts⟩ := C66_offset_curve env henv p d opts hidx hself he h.loop _ hraw h.full gap E hE hF hC ht hD hT hW hg hj0 hj
  refine ⟨rs, hrs, fun X => ?_, fun r hr X hX => ?_⟩
  · rw [hpts, (C65_points he h hraw).2 X, and_comm]
  · obtain ⟨h1, h2⟩ := (hpts X).mp ⟨r, hr, hX⟩
    obtain ⟨q, hq, hqd⟩ := C65_near he h hraw h1
    exact ⟨h2, q, hq, le_antisymm hqd (h2 q hq)⟩

/-! Non-vacuity -/

/-- The raw offset: a rectangle with a half disc of the radius 8 on top, offset by 3 to the inside. -/
example : createRawOffsetPolyline house 3 (1 / 100000) = .ok ⟨[⟨3, 3, 0⟩, ⟨13, 3, 0⟩, ⟨13, 5, 1⟩, ⟨3, 5, 0⟩], true⟩ :=
  (C65_raw (by norm_num) hoIn_clear).trans (by rw [ho_raw])

/-- All hypotheses are met by this polyline, which has straight segments and an arc. -/
example : ∃ rs, parallelOffset (Env.plain : Env ℝ) house 3 ⟨none, false, 1 / 100000, 1 / 10000, 1 / 10000⟩ = .ok rs ∧
    (∀ X, (∃ r ∈ rs, OnPline r X) ↔ OnPline ⟨[⟨3, 3, 0⟩, ⟨13, 3, 0⟩, ⟨13, 5, 1⟩, ⟨3, 5, 0⟩], true⟩ X ∧ Keeps house |3| X) := by
  rw [← ho_raw]
  exact C66_offset_curve _ Env.plain_lawful house 3 ⟨none, false, 1 / 100000, 1 / 10000, 1 / 10000⟩ (by simp) rfl (by norm_num) ho_full _
    (C65_raw (by norm_num) hoIn_clear) ho_rfull 1 [] ho_crossing ho_finds ho_changes (by norm_num) (by norm_num [abs_of_pos]) ho_tests ho_readable
    (by norm_num) (by norm_num) (by norm_num)

example : ∃ rs, parallelOffset (Env.plain : Env ℝ) house 3 ⟨none, false, 1 / 100000, 1 / 10000, 1 / 10000⟩ = .ok rs ∧
    ∀ r ∈ rs, ∀ X, OnPline r X → (∀ q, OnPline house q → |3| ≤ edist X q) ∧ ∃ q, OnPline house q ∧ edist X q = |3| := by
  obtain ⟨rs, h1, -, h2⟩ := C66_offset_parallel _ Env.plain_lawful house 3 ⟨none, false, 1 / 100000, 1 / 10000, 1 / 10000⟩ (by simp) rfl (by norm_num) hoIn hoIn_clear
    1 [] ho_crossing ho_finds ho_changes (by norm_num) (by norm_num [abs_of_pos]) ho_tests ho_readable (by norm_num) (by norm_num) (by norm_num)
  exact ⟨rs, h1, h2⟩

/-- They are also met by a polyline whose raw offset crosses itself. -/
example : chamferCross ≠ [] ∧ ∃ rs, parallelOffset (Env.plain : Env ℝ) chamfer 9 ⟨none, false, 1 / 100000, 1 / 10000, 1 / 10000⟩ = .ok rs ∧
    (∀ X, (∃ r ∈ rs, OnPline r X) ↔ OnPline (rawLoop chamfer 9) X ∧ Keeps chamfer |9| X) := by
  refine ⟨by simp [chamferCross], ?_⟩
  have hlines : ∀ s ∈ chamfer.segs, IsLine s.1 := by
    intro s hs
    rw [segs_range rfl (by decide)] at hs
    obtain ⟨k, hk, rfl⟩ := List.mem_map.mp hs
    exact chamfer_straight.line k
  exact C66_offset_curve _ Env.plain_lawful chamfer 9 ⟨none, false, 1 / 100000, 1 / 10000, 1 / 10000⟩ (by simp) rfl (by norm_num) chamfer_full _
    (C42_raw_straight chamfer_straight (by norm_num) (by norm_num) chamfer_clear chamfer_raw_full chamfer_first) chamfer_raw_full 1 chamferCross chamfer_crossing chamfer_finds
    ⟨fun i t hi t0 t1 hcut hk => keep_local chamfer_straight (by norm_num) (by norm_num) chamfer_clear chamfer_crossing chamfer_one_sided hi t0 t1 hk hcut,
      fun c hc hk => branch chamfer_straight (by norm_num) (by norm_num) chamfer_clear chamfer_crossing chamfer_one_sided hc hk⟩
    (by norm_num) (by norm_num [abs_of_pos]) chamfer_tests
    (fun i lo hi h => ⟨fun s hs hl => absurd (hlines s hs) hl, fun s hs hl => absurd (hlines s hs) hl, fun s hs hl => absurd (hlines s hs) hl⟩)
    (by norm_num) (by norm_num) (by norm_num)

end Cavc
