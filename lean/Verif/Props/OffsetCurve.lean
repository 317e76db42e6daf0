import Verif.Lemmas.OffsetCurve
import Verif.Lemmas.OffsetBranch
import Verif.Lemmas.ChamferOffset
import Verif.Lemmas.RoundSquareOffset
import Verif.Spec.PlainEnv

/-! # C60: the parallel offset of straight closed polylines is the parallel curve -/

set_option linter.unusedVariables false

namespace Cavc
open Pline

theorem far_from_segs {X : V2 ℝ} : ∀ l : List (Vertex ℝ × Vertex ℝ), (∀ s ∈ l, ¬ OnSeg s.1 s.2 X) → ∃ δ > 0, ∀ s ∈ l, ∀ Y, OnSeg s.1 s.2 Y → δ ≤ edist X Y
  | [], _ => ⟨1, one_pos, by simp⟩
  | s :: l, h => by
    obtain ⟨δ, hδ, h1⟩ := far_from_segs l fun s hs => h s (by simp [hs])
    obtain ⟨u, ⟨u0, u1⟩, hmin⟩ := isCompact_Icc.exists_isMinOn (s := Set.Icc (0 : ℝ) 1) ⟨0, by simp⟩
      (edist_continuous (const_continuous X) (segCurve_continuous s.1 s.2)).continuousOn
    have hpos : 0 < edist X (segCurve s.1 s.2 u) := edist_pos fun e => h s (by simp) ⟨u, u0, u1, e⟩
    refine ⟨min δ (edist X (segCurve s.1 s.2 u)), lt_min hδ hpos, fun s' hs' Y hY => ?_⟩
    rcases List.mem_cons.mp hs' with rfl | hs'
    · obtain ⟨t, t0, t1, rfl⟩ := hY
      exact (min_le_right _ _).trans (hmin ⟨t0, t1⟩)
    · exact (min_le_left _ _).trans (h1 s' hs' Y hY)

theorem far_cuts (c : Cut) : ∀ l : List Cut, ∃ δ > 0, ∀ c' ∈ l, c'.1 = c.1 → c'.2 ≠ c.2 → δ ≤ |c'.2 - c.2|
  | [] => ⟨1, one_pos, by simp⟩
  | a :: l => by
    obtain ⟨δ, hδ, h⟩ := far_cuts c l
    by_cases ha : a.2 = c.2
    · refine ⟨δ, hδ, fun c' hc' h1 hne => ?_⟩
      rcases List.mem_cons.mp hc' with rfl | hc'
      · exact absurd ha hne
      · exact h c' hc' h1 hne
    · refine ⟨min δ |a.2 - c.2|, lt_min hδ (abs_pos.mpr (sub_ne_zero.mpr ha)), fun c' hc' h1 hne => ?_⟩
      rcases List.mem_cons.mp hc' with rfl | hc'
      · exact min_le_right _ _
      · exact (min_le_left _ _).trans (h c' hc' h1 hne)

/-- **C60** The results of `parallel_offset` for a closed polyline of straight segments are the exact parallel curve: a point is on a
result if and only if it is a point of the parallel curve. -/
theorem C60_offset_curve (env : Env ℝ) (henv : env.Lawful) (p : Pline ℝ) (d : ℝ) (opts : OffsetOptions ℝ)
    (hidx : ∀ idx, opts.aabbIndex = some idx → idx.Serves p) (hself : opts.handleSelfIntersects = false)
    (hp : StraightLoop p) (hd : d ≠ 0) (he : 0 < opts.posEqualEps) (hc : ∀ k, ClearTurn p d opts.posEqualEps k)
    (hf : FullLoop (rawLoop p d) opts.posEqualEps) (h0 : (sidePt p d 0 0).fuzzyEqEps (vtx (rawLoop p d) 1).pos opts.posEqualEps = false)
    (gap : ℝ) (E : List (Cut × Cut)) (hE : SelfCrossing (rawLoop p d) opts.posEqualEps gap E) (hF : FindsSelf (rawLoop p d) opts.posEqualEps)
    (hos : OneSided p d) (ht : 0 < opts.offsetDistEps) (hD : opts.offsetDistEps ≤ |d|)
    (hT : ClearTests p (rawLoop p d) d opts.posEqualEps opts.offsetDistEps E)
    (hg : opts.posEqualEps ≤ gap) (hj0 : 0 ≤ opts.sliceJoinEps) (hj : 2 * opts.sliceJoinEps ≤ gap) :
    ∃ rs, parallelOffset env p d opts = .ok rs ∧ ∀ X, (∃ r ∈ rs, OnPline r X) ↔ OffsetPt p d X := by
  have hraw := C42_raw_straight hp hd he hc hf h0
  have hn : 0 < (rawLoop p d).verts.length := by have := hf.two; omega
  have hpts := C60_raw_points hp hd he hc hf h0 hraw
  obtain ⟨rs, hrs, -, hbig⟩ := C43_parallel_offset env henv p d opts hidx
  obtain ⟨raw, hraw', -, hof⟩ := hbig hp.two
  rw [hraw] at hraw'
  injection hraw' with hraw'
  subst hraw'
  obtain ⟨-, -, es, ss, hof⟩ := hof (by intro h; rw [h] at hn; simp at hn)
  obtain ⟨hA, hB⟩ := result_points hp hd he hc ht hD hf hE hF hos hT hg hj hj0 (hof.single hp.closed hself) hof.slices hof.joined
  refine ⟨rs, hrs, fun X => ⟨fun ⟨r, hr, hX⟩ => (hpts X).mpr (hA r hr X hX), fun hX => ?_⟩⟩
  obtain ⟨⟨s, hs, t, t0, t1, hXt⟩, hk⟩ := (hpts X).mp hX
  rw [segs_range hf.closed hf.two] at hs
  obtain ⟨i, hi, rfl⟩ := List.mem_map.mp hs
  rw [← curveAt_vtx hn] at hXt
  subst hXt
  by_cases hcut : (i, t) ∈ bothCuts E
  · -- a crossing: the limit of a branch
    by_contra hon
    obtain ⟨δ, hδ, h1⟩ := far_from_segs (rs.flatMap Pline.segs) (by
      intro s hs h
      obtain ⟨r, hr, hsr⟩ := List.mem_flatMap.mp hs
      exact hon ⟨r, hr, s, hsr, h⟩)
    obtain ⟨c, hc', hcX, σ, hσ, δ₁, hδ₁, hbr⟩ := branch hp hd he hc hE hos hcut hk
    dsimp only at hcX
    obtain ⟨δ₂, hδ₂, hoff⟩ := far_cuts c (bothCuts E)
    have hcont := edist_continuous (curveAt_continuous hn c.1) (const_continuous (curveAt (rawLoop p d) c.1 c.2))
    obtain ⟨δ₃, hδ₃, hball⟩ := Metric.continuous_iff.mp hcont c.2 δ hδ
    have c0 := (hE.ok _ hc').pos
    have c1 := (hE.ok _ hc').lt
    obtain ⟨s, hs0, hs⟩ := exists_between (lt_min (lt_min hδ₁ hδ₂) (lt_min hδ₃ (lt_min c0 (sub_pos.mpr c1))))
    obtain ⟨l1, l2⟩ := lt_min_iff.mp hs
    obtain ⟨l1, l3⟩ := lt_min_iff.mp l1
    obtain ⟨l2, l4⟩ := lt_min_iff.mp l2
    obtain ⟨l4, l5⟩ := lt_min_iff.mp l4
    have habs : |c.2 + σ * s - c.2| = s := by
      rw [add_sub_cancel_left]
      rcases hσ with rfl | rfl
      · rw [one_mul, abs_of_pos hs0]
      · rw [neg_one_mul, abs_neg, abs_of_pos hs0]
    have hnc : (c.1, c.2 + σ * s) ∉ bothCuts E := fun h => by
      have := hoff _ h rfl (by intro h; dsimp only at h; rw [h, sub_self, abs_zero] at habs; linarith)
      rw [habs] at this
      linarith
    obtain ⟨r, hr, s', hs', hon'⟩ := hB c.1 (c.2 + σ * s) (hE.range _ hc') (by rcases hσ with rfl | rfl <;> linarith) (by rcases hσ with rfl | rfl <;> linarith) hnc (hbr s hs0 l1)
    have hd1 := h1 s' (List.mem_flatMap.mpr ⟨r, hr, hs'⟩) _ hon'
    have hd2 := hball (c.2 + σ * s) (by rw [Real.dist_eq, habs]; exact l2)
    have hz : edist (curveAt (rawLoop p d) c.1 c.2) (curveAt (rawLoop p d) c.1 c.2) = 0 := by unfold edist; simp
    rw [hz, Real.dist_eq, sub_zero, abs_of_nonneg (edist_nonneg _ _), edist_comm, hcX] at hd2
    linarith
  · exact hB i t (List.mem_range.mp hi) t0 t1 hcut hk

/-- The hypotheses are met by the square with the chamfer, whose raw offset crosses itself.  So its offset is the parallel
curve. -/
example : ∃ rs, parallelOffset (Env.plain : Env ℝ) chamfer 9 ⟨none, false, 1 / 100000, 1 / 10000, 1 / 10000⟩ = .ok rs ∧
    ∀ X, (∃ r ∈ rs, OnPline r X) ↔ OffsetPt chamfer 9 X :=
  C60_offset_curve _ Env.plain_lawful chamfer 9 ⟨none, false, 1 / 100000, 1 / 10000, 1 / 10000⟩ (by simp) rfl chamfer_straight (by norm_num) (by norm_num)
    chamfer_clear chamfer_raw_full chamfer_first 1 chamferCross chamfer_crossing chamfer_finds chamfer_one_sided (by norm_num)
    (by norm_num [abs_of_pos]) chamfer_tests (by norm_num) (by norm_num) (by norm_num)

/-- A raw offset with arcs: a square, offset to the outside, with a quarter circle (bulge tan (π / 8)) at every corner. -/
example : createRawOffsetPolyline box4 (-1) (1 / 100000) =
    .ok ⟨[⟨0, -1, 0⟩, ⟨4, -1, qb⟩, ⟨5, 0, 0⟩, ⟨5, 4, qb⟩, ⟨4, 5, 0⟩, ⟨0, 5, qb⟩, ⟨-1, 4, 0⟩, ⟨-1, 0, qb⟩], true⟩ :=
  (C42_raw_straight box4_straight (by norm_num) (by norm_num) box4_clear box4_raw_full box4_first).trans (by rw [box4_raw])

/-- The hypotheses are met by this square too: its offset to the outside is the parallel curve, with the quarter circles. -/
example : ∃ rs, parallelOffset (Env.plain : Env ℝ) box4 (-1) ⟨none, false, 1 / 100000, 1 / 10000, 1 / 10000⟩ = .ok rs ∧
    ∀ X, (∃ r ∈ rs, OnPline r X) ↔ OffsetPt box4 (-1) X :=
  C60_offset_curve _ Env.plain_lawful box4 (-1) ⟨none, false, 1 / 100000, 1 / 10000, 1 / 10000⟩ (by simp) rfl box4_straight (by norm_num) (by norm_num)
    box4_clear box4_raw_full box4_first 1 [] box4_crossing box4_finds box4_one_sided (by norm_num)
    (by norm_num [abs_of_pos]) box4_tests (by norm_num) (by norm_num) (by norm_num)

end Cavc
