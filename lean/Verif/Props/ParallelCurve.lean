import Verif.Props.OffsetAny
import Verif.Lemmas.HouseSides

/-! # C66: the parallel offset is the exact parallel curve -/

set_option linter.unusedVariables false

namespace Cavc
open RealScalar Pline

/-- **C66** If what is done at the corners is in accordance with the distances, then the results of the parallel offset make up exactly
the parallel curve: the points at the distance `|d|` beside a segment, on the side of `d`, or around a corner, on the outer side of the turn,
with no point of the polyline nearer than that.  Nothing is missing and nothing is added. -/
theorem C66_parallel_curve (env : Env ℝ) (henv : env.Lawful) (p : Pline ℝ) (d : ℝ) (opts : OffsetOptions ℝ)
    (hidx : ∀ idx, opts.aabbIndex = some idx → idx.Serves p) (hself : opts.handleSelfIntersects = false)
    (he : 0 < opts.posEqualEps) (c : Nat → Corner) (h : ClearOffset p d c opts.posEqualEps) (hcc : CleanCorners p d c)
    (gap : ℝ) (E : List (Cut × Cut)) (hE : SelfCrossing (rawWith p d c) opts.posEqualEps gap E) (hF : FindsSelf (rawWith p d c) opts.posEqualEps)
    (hC : ChangesAtCrossings p (rawWith p d c) |d| E) (ht : 0 < opts.offsetDistEps) (hD : opts.offsetDistEps ≤ |d|)
    (hT : ClearTests p (rawWith p d c) d opts.posEqualEps opts.offsetDistEps E) (hW : ReadableTests p (rawWith p d c) opts.posEqualEps E)
    (hg : opts.posEqualEps ≤ gap) (hj0 : 0 ≤ opts.sliceJoinEps) (hj : 2 * opts.sliceJoinEps ≤ gap) :
    ∃ rs, parallelOffset env p d opts = .ok rs ∧ ∀ X, (∃ r ∈ rs, OnPline r X) ↔ ParallelPt p d X := by
  obtain ⟨rs, hrs, hpts⟩ := C66_offset_curve env henv p d opts hidx hself he h.loop _ (C65_raw he h) h.full gap E hE hF hC ht hD hT hW hg hj0 hj
  exact ⟨rs, hrs, fun X => (hpts X).trans (raw_parallel he h hcc X)⟩

/-- All hypotheses are met by the rectangle with a half disc on top, offset by 3 to the inside. -/
example : ∃ rs, parallelOffset (Env.plain : Env ℝ) house 3 ⟨none, false, 1 / 100000, 1 / 10000, 1 / 10000⟩ = .ok rs ∧
    ∀ X, (∃ r ∈ rs, OnPline r X) ↔ ParallelPt house 3 X :=
  C66_parallel_curve _ Env.plain_lawful house 3 ⟨none, false, 1 / 100000, 1 / 10000, 1 / 10000⟩ (by simp) rfl (by norm_num) hoIn hoIn_clear hoIn_clean
    1 [] ho_crossing ho_finds ho_changes (by norm_num) (by norm_num [abs_of_pos]) ho_tests ho_readable (by norm_num) (by norm_num) (by norm_num)

/-- **C66** The same from the geometry alone.  It is not assumed where along the raw offset the distance is kept: it is enough that no
point is on the parallel curves of both sides, that next to a cut the two parallel segments keep the distance from each other's
segment, and that the raw offset crosses itself at angles. -/
theorem C66_parallel_exact (env : Env ℝ) (henv : env.Lawful) (p : Pline ℝ) (d : ℝ) (opts : OffsetOptions ℝ)
    (hidx : ∀ idx, opts.aabbIndex = some idx → idx.Serves p) (hself : opts.handleSelfIntersects = false)
    (he : 0 < opts.posEqualEps) (c : Nat → Corner) (h : ClearOffset p d c opts.posEqualEps) (hcc : CleanCorners p d c)
    (hf : FreeCuts p d c) (hos : OneSidedCurve p d)
    (gap : ℝ) (E : List (Cut × Cut)) (hE : SelfCrossing (rawWith p d c) opts.posEqualEps gap E) (hA : CrossAtAngle (rawWith p d c) E)
    (hF : FindsSelf (rawWith p d c) opts.posEqualEps) (ht : 0 < opts.offsetDistEps) (hD : opts.offsetDistEps ≤ |d|)
    (hT : ClearTests p (rawWith p d c) d opts.posEqualEps opts.offsetDistEps E) (hW : ReadableTests p (rawWith p d c) opts.posEqualEps E)
    (hg : opts.posEqualEps ≤ gap) (hj0 : 0 ≤ opts.sliceJoinEps) (hj : 2 * opts.sliceJoinEps ≤ gap) :
    ∃ rs, parallelOffset env p d opts = .ok rs ∧ ∀ X, (∃ r ∈ rs, OnPline r X) ↔ ParallelPt p d X :=
  C66_parallel_curve env henv p d opts hidx hself he c h hcc gap E hE hF (raw_changes he h hcc hE hf hos hA) ht hD hT hW hg hj0 hj

/-- All hypotheses are met by the rectangle with a half disc on top, offset by 3 to the inside. -/
example : ∃ rs, parallelOffset (Env.plain : Env ℝ) house 3 ⟨none, false, 1 / 100000, 1 / 10000, 1 / 10000⟩ = .ok rs ∧
    ∀ X, (∃ r ∈ rs, OnPline r X) ↔ ParallelPt house 3 X :=
  C66_parallel_exact _ Env.plain_lawful house 3 ⟨none, false, 1 / 100000, 1 / 10000, 1 / 10000⟩ (by simp) rfl (by norm_num) hoIn hoIn_clear hoIn_clean
    hoIn_free ho_one_sided 1 [] ho_crossing (by intro e he; simp at he) ho_finds (by norm_num) (by norm_num [abs_of_pos]) ho_tests ho_readable
    (by norm_num) (by norm_num) (by norm_num)

end Cavc
