import Verif.Lemmas.RawFlow
import Verif.Props.ParallelCurve

/-! # C61: the parallel offset of closed polylines of lines and arcs consists of closed polylines -/

set_option linter.unusedVariables false

namespace Cavc
open RealScalar Pline

/-- **C61** The hypotheses of `C66_parallel_exact` are enough for lines and arcs: all results of `parallel_offset` for a closed polyline are
closed polylines of at least two segments, each of positive length, and together they are the parallel curve. -/
theorem C61_offset_closed_arcs (env : Env ℝ) (henv : env.Lawful) (p : Pline ℝ) (d : ℝ) (opts : OffsetOptions ℝ)
    (hidx : ∀ idx, opts.aabbIndex = some idx → idx.Serves p) (hself : opts.handleSelfIntersects = false)
    (he : 0 < opts.posEqualEps) (c : Nat → Corner) (h : ClearOffset p d c opts.posEqualEps) (hcc : CleanCorners p d c)
    (hf : FreeCuts p d c) (hos : OneSidedCurve p d)
    (gap : ℝ) (E : List (Cut × Cut)) (hE : SelfCrossing (rawWith p d c) opts.posEqualEps gap E) (hA : CrossAtAngle (rawWith p d c) E)
    (hF : FindsSelf (rawWith p d c) opts.posEqualEps) (ht : 0 < opts.offsetDistEps) (hD : opts.offsetDistEps ≤ |d|)
    (hT : ClearTests p (rawWith p d c) d opts.posEqualEps opts.offsetDistEps E) (hW : ReadableTests p (rawWith p d c) opts.posEqualEps E)
    (hg : opts.posEqualEps ≤ gap) (hj0 : 0 < opts.sliceJoinEps) (hj : 2 * opts.sliceJoinEps ≤ gap) :
    ∃ rs, parallelOffset env p d opts = .ok rs ∧
      (∀ r ∈ rs, r.closed = true ∧ 2 ≤ r.verts.length ∧ ∀ s ∈ r.segs, FullSeg s.1 s.2 opts.posEqualEps) ∧
      ∀ X, (∃ r ∈ rs, OnPline r X) ↔ ParallelPt p d X := by
  have hC := raw_changes he h hcc hE hf hos hA
  have hfl := raw_flow he h hcc hE hf hos hA
  have hraw := C65_raw he h
  have hn : 0 < (rawWith p d c).verts.length := by have := h.full.two; omega
  obtain ⟨rs', hrs', hpts⟩ := C66_parallel_exact env henv p d opts hidx hself he c h hcc hf hos gap E hE hA hF ht hD hT hW hg hj0.le hj
  obtain ⟨rs, hrs, -, hbig⟩ := C43_parallel_offset env henv p d opts hidx
  obtain ⟨raw, hraw', -, hof⟩ := hbig h.loop.two
  rw [hraw] at hraw'
  injection hraw' with hraw'
  subst hraw'
  obtain ⟨-, -, es, ss, hof⟩ := hof (by intro h; rw [h] at hn; simp at hn)
  have heq : rs = rs' := by rw [hrs] at hrs'; exact Except.ok.inj hrs'
  subst heq
  exact ⟨rs, hrs, result_closed_any h.loop he ht hD h.full hE hF hC hfl hT hW hg hj hj0 (hof.single h.loop.closed hself) hof.slices hof.joined, hpts⟩

/-- All hypotheses are met by the rectangle with a half disc on top, offset by 3 to the inside. -/
example : ∃ rs, parallelOffset (Env.plain : Env ℝ) house 3 ⟨none, false, 1 / 100000, 1 / 10000, 1 / 10000⟩ = .ok rs ∧
    (∀ r ∈ rs, r.closed = true ∧ 2 ≤ r.verts.length ∧ ∀ s ∈ r.segs, FullSeg s.1 s.2 (1 / 100000)) ∧ ∀ X, (∃ r ∈ rs, OnPline r X) ↔ ParallelPt house 3 X :=
  C61_offset_closed_arcs _ Env.plain_lawful house 3 ⟨none, false, 1 / 100000, 1 / 10000, 1 / 10000⟩ (by simp) rfl (by norm_num) hoIn hoIn_clear hoIn_clean
    hoIn_free ho_one_sided 1 [] ho_crossing (by intro e he; simp at he) ho_finds (by norm_num) (by norm_num [abs_of_pos]) ho_tests ho_readable
    (by norm_num) (by norm_num) (by norm_num)

end Cavc
