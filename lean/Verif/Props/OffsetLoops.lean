import Verif.Lemmas.OffsetClosed
import Verif.Props.OffsetCurve

/-! # C61: the parallel offset of straight closed polylines consists of closed polylines -/

set_option linter.unusedVariables false

namespace Cavc
open Pline

/-- **C61** All results of `parallel_offset` for a closed polyline of straight segments are closed polylines of at least two segments, each of
positive length. -/
theorem C61_offset_closed (env : Env ℝ) (henv : env.Lawful) (p : Pline ℝ) (d : ℝ) (opts : OffsetOptions ℝ)
    (hidx : ∀ idx, opts.aabbIndex = some idx → idx.Serves p) (hself : opts.handleSelfIntersects = false)
    (hp : StraightLoop p) (hd : d ≠ 0) (he : 0 < opts.posEqualEps) (hc : ∀ k, ClearTurn p d opts.posEqualEps k)
    (hf : FullLoop (rawLoop p d) opts.posEqualEps) (h0 : (sidePt p d 0 0).fuzzyEqEps (vtx (rawLoop p d) 1).pos opts.posEqualEps = false)
    (gap : ℝ) (E : List (Cut × Cut)) (hE : SelfCrossing (rawLoop p d) opts.posEqualEps gap E) (hF : FindsSelf (rawLoop p d) opts.posEqualEps)
    (hos : OneSided p d) (ht : 0 < opts.offsetDistEps) (hD : opts.offsetDistEps ≤ |d|)
    (hT : ClearTests p (rawLoop p d) d opts.posEqualEps opts.offsetDistEps E)
    (hg : opts.posEqualEps ≤ gap) (hj0 : 0 < opts.sliceJoinEps) (hj : 2 * opts.sliceJoinEps ≤ gap) :
    ∃ rs, parallelOffset env p d opts = .ok rs ∧
      ∀ r ∈ rs, r.closed = true ∧ 2 ≤ r.verts.length ∧ ∀ s ∈ r.segs, FullSeg s.1 s.2 opts.posEqualEps := by
  have hraw := C42_raw_straight hp hd he hc hf h0
  have hn : 0 < (rawLoop p d).verts.length := by have := hf.two; omega
  obtain ⟨rs, hrs, -, hbig⟩ := C43_parallel_offset env henv p d opts hidx
  obtain ⟨raw, hraw', -, hof⟩ := hbig hp.two
  rw [hraw] at hraw'
  injection hraw' with hraw'
  subst hraw'
  obtain ⟨-, -, es, ss, hof⟩ := hof (by intro h; rw [h] at hn; simp at hn)
  exact ⟨rs, hrs, result_closed hp hd he hc ht hD hf hE hF hos hT hg hj hj0 (hof.single hp.closed hself) hof.slices hof.joined⟩

/-- The hypotheses are met by the square with the chamfer: its raw offset crosses itself and is cut into pieces, and what remains is
stitched to closed polylines. -/
example : ∃ rs, parallelOffset (Env.plain : Env ℝ) chamfer 9 ⟨none, false, 1 / 100000, 1 / 10000, 1 / 10000⟩ = .ok rs ∧
    ∀ r ∈ rs, r.closed = true ∧ 2 ≤ r.verts.length ∧ ∀ s ∈ r.segs, FullSeg s.1 s.2 (1 / 100000) :=
  C61_offset_closed _ Env.plain_lawful chamfer 9 ⟨none, false, 1 / 100000, 1 / 10000, 1 / 10000⟩ (by simp) rfl chamfer_straight (by norm_num) (by norm_num)
    chamfer_clear chamfer_raw_full chamfer_first 1 chamferCross chamfer_crossing chamfer_finds chamfer_one_sided (by norm_num)
    (by norm_num [abs_of_pos]) chamfer_tests (by norm_num) (by norm_num) (by norm_num)

/-- They are met by a square that is offset to the outside as well, where the result has arcs. -/
example : ∃ rs, parallelOffset (Env.plain : Env ℝ) box4 (-1) ⟨none, false, 1 / 100000, 1 / 10000, 1 / 10000⟩ = .ok rs ∧
    ∀ r ∈ rs, r.closed = true ∧ 2 ≤ r.verts.length ∧ ∀ s ∈ r.segs, FullSeg s.1 s.2 (1 / 100000) :=
  C61_offset_closed _ Env.plain_lawful box4 (-1) ⟨none, false, 1 / 100000, 1 / 10000, 1 / 10000⟩ (by simp) rfl box4_straight (by norm_num) (by norm_num)
    box4_clear box4_raw_full box4_first 1 [] box4_crossing box4_finds box4_one_sided (by norm_num)
    (by norm_num [abs_of_pos]) box4_tests (by norm_num) (by norm_num) (by norm_num)

end Cavc
