import Verif.Lemmas.RoomOffset
import Verif.Props.OffsetRegionArcs
import Verif.Props.OffsetSelfRegion

/-! # C70: the option for self-intersections does not change the offsets of polylines that do not touch themselves

The example beside the theorems is a room with a passage that is too narrow for the offset: the raw offset crosses itself at both ends of the passage, and
two separate loops remain.  It also meets the hypotheses of the theorems of C61, C63, C64, C66 and C70 for raw offsets that cross themselves. -/

set_option linter.unusedVariables false

namespace Cavc
open RealScalar Pline

/-- **C70** For a closed polyline that does not touch itself, the results with the option and without it have the same points, the sums of their winding
numbers agree at all other points, and the sums of their areas agree. -/
theorem C70_option_same (env env' : Env ℝ) (henv : env.Lawful) (henv' : env'.Lawful) (p : Pline ℝ) (d : ℝ) (opts : OffsetOptions ℝ)
    (hidx : ∀ idx, opts.aabbIndex = some idx → idx.Serves p) (he : 0 < opts.posEqualEps) (hs : SimpleLoop p)
    (c c' : Nat → Corner) (h : ClearOffset p d c opts.posEqualEps) (h' : ClearOffset p (-d) c' opts.posEqualEps)
    (hcc : CleanCorners p d c) (hcc' : CleanCorners p (-d) c') (hf : FreeCuts p d c) (gap : ℝ)
    (E : List (Cut × Cut)) (hE : SelfCrossing (rawWith p d c) opts.posEqualEps gap E) (hA : CrossAtAngle (rawWith p d c) E)
    (hT : ClearTests p (rawWith p d c) d opts.posEqualEps opts.offsetDistEps E) (hW : ReadableTests p (rawWith p d c) opts.posEqualEps E)
    (C : List Cut) (hC : SelfCuts (rawWith p d c) (rawWith p (-d) c') opts.posEqualEps gap C)
    (hA' : ∀ a ∈ C, Keeps p |d| (curveAt (rawWith p d c) a.1 a.2) → LoopCutKind (rawWith p d c) (rawWith p (-d) c') C a)
    (hT' : SelfTests p (rawWith p d c) d opts.posEqualEps opts.offsetDistEps C)
    (hF : FindsSelf (rawWith p d c) opts.posEqualEps) (hFD : FindsPairs (rawWith p d c) (rawWith p (-d) c') opts.posEqualEps)
    (ht : 0 < opts.offsetDistEps) (hD : opts.offsetDistEps ≤ |d|)
    (hg : opts.posEqualEps ≤ gap) (hj0 : 0 < opts.sliceJoinEps) (hj : 2 * opts.sliceJoinEps ≤ gap) :
    ∃ rs rs', parallelOffset env p d { opts with handleSelfIntersects := false } = .ok rs ∧
      parallelOffset env' p d { opts with handleSelfIntersects := true } = .ok rs' ∧
      (∀ X, (∃ r ∈ rs, OnPline r X) ↔ ∃ r ∈ rs', OnPline r X) ∧
      (∀ Y, (∀ r ∈ rs, ¬ OnPline r Y) → (rs.map fun r => r.windingNumber Y).sum = (rs'.map fun r => r.windingNumber Y).sum) ∧
      (rs.map Pline.area).sum = (rs'.map Pline.area).sum := by
  have hd := h.moves
  obtain ⟨rs, hrs, hl, hpass, hcurve⟩ := arcs_passed env henv p d { opts with handleSelfIntersects := false } hidx rfl hs hd he c h hcc hf gap E hE hA hF ht hD hT hW hg hj0 hj
  obtain ⟨rs', hrs', hl', hpass', hcurve'⟩ := self_passed env' henv' p d { opts with handleSelfIntersects := true } hidx rfl he hs c c' h h' hcc hcc' hf gap C hC hA' hF hFD ht hD hT' hg hj0 hj
  refine ⟨rs, rs', hrs, hrs', fun X => (hcurve X).trans (hcurve' X).symm, fun Y hY => ?_, ?_⟩
  all_goals
    have n : d * (turnOf p.orientation : ℝ) ≠ 0 := mul_ne_zero hd (by exact_mod_cast turn_closed h.loop.closed)
  · have hY' : ∀ r ∈ rs', ¬ OnPline r Y := fun r hr hon => by
      obtain ⟨r', h1, h2⟩ := (hcurve Y).mpr ((hcurve' Y).mp ⟨r, hr, hon⟩)
      exact hY r' h1 h2
    obtain ⟨a1, a2⟩ := region_oriented he h hcc hs hf.turn hd hl hpass hcurve
    obtain ⟨b1, b2⟩ := region_oriented he h hcc hs hf.turn hd hl' hpass' hcurve'
    rcases lt_or_gt_of_ne n with hn | hn
    · rcases a2 hn Y hY with ⟨e, g⟩ | ⟨e, g⟩ <;> rcases b2 hn Y hY' with ⟨e', g'⟩ | ⟨e', g'⟩ <;> first
        | exact e.trans e'.symm
        | exact absurd g g'
        | exact absurd g' g
    · rcases a1 hn Y hY with ⟨e, g⟩ | ⟨e, g⟩ <;> rcases b1 hn Y hY' with ⟨e', g'⟩ | ⟨e', g'⟩ <;> first
        | exact e.trans e'.symm
        | exact absurd g g'
        | exact absurd g' g
  · obtain ⟨a1, a2⟩ := region_area he h hcc hs hf.turn hd hl hpass hcurve
    obtain ⟨b1, b2⟩ := region_area he h hcc hs hf.turn hd hl' hpass' hcurve'
    rcases lt_or_gt_of_ne n with hn | hn
    · rw [a2 hn, b2 hn]
    · rw [a1 hn, b1 hn]

/-! Non-vacuity -/

theorem rm_rawWith_in : rawWith room 10 (straightCorner room 10) = rmR := (straight_raw rm_straight).trans rm_raw_in

theorem rm_rawWith_out : rawWith room (-10) (straightCorner room (-10)) = rmD := (straight_raw rm_straight).trans rm_raw_out

/-- All hypotheses are met by the room. -/
example (env env' : Env ℝ) (henv : env.Lawful) (henv' : env'.Lawful) :
    ∃ rs rs', parallelOffset env room 10 ⟨none, false, 1 / 100000, 1 / 10000, 1 / 10000⟩ = .ok rs ∧
      parallelOffset env' room 10 ⟨none, true, 1 / 100000, 1 / 10000, 1 / 10000⟩ = .ok rs' ∧
      (∀ X, (∃ r ∈ rs, OnPline r X) ↔ ∃ r ∈ rs', OnPline r X) ∧
      (∀ Y, (∀ r ∈ rs, ¬ OnPline r Y) → (rs.map fun r => r.windingNumber Y).sum = (rs'.map fun r => r.windingNumber Y).sum) ∧
      (rs.map Pline.area).sum = (rs'.map Pline.area).sum :=
  C70_option_same env env' henv henv' room 10 ⟨none, true, 1 / 100000, 1 / 10000, 1 / 10000⟩ (by simp) (by norm_num) room_simple _ _ rm_clearOffset_in rm_clearOffset_out
    rm_clean_in rm_clean_out rm_free 1 rmE (by rw [rm_rawWith_in]; exact rm_crossing) (by rw [rm_rawWith_in]; exact rm_angle)
    (by rw [rm_rawWith_in]; exact rm_clearTests) (by rw [rm_rawWith_in]; exact rm_readable)
    (bothCuts rmE) (by rw [rm_rawWith_in, rm_rawWith_out]; exact rm_cuts) (by rw [rm_rawWith_in, rm_rawWith_out]; exact fun a ha _ => rm_kinds a ha)
    (by rw [rm_rawWith_in]; exact rm_tests) (by rw [rm_rawWith_in]; exact rm_finds) (by rw [rm_rawWith_in, rm_rawWith_out]; exact rm_pairs)
    (by norm_num) (by norm_num [abs_of_pos]) (by norm_num) (by norm_num) (by norm_num)

/-- The hypotheses of `C66_parallel_simple`, `C61_offset_closed_arcs` and `C66_parallel_exact`, with two crossings of the raw offset. -/
example (env : Env ℝ) (henv : env.Lawful) :
    ∃ rs, parallelOffset env room 10 ⟨none, false, 1 / 100000, 1 / 10000, 1 / 10000⟩ = .ok rs ∧
      (∀ r ∈ rs, r.closed = true ∧ 2 ≤ r.verts.length ∧ ∀ s ∈ r.segs, FullSeg s.1 s.2 (1 / 100000)) ∧
      ∀ X, (∃ r ∈ rs, OnPline r X) ↔ ParallelPt room 10 X :=
  C66_parallel_simple env henv room 10 ⟨none, false, 1 / 100000, 1 / 10000, 1 / 10000⟩ (by simp) rfl room_simple (by norm_num) (by norm_num) _ rm_clearOffset_in
    rm_clean_in rm_free 1 rmE (by rw [rm_rawWith_in]; exact rm_crossing) (by rw [rm_rawWith_in]; exact rm_angle) (by rw [rm_rawWith_in]; exact rm_finds)
    (by norm_num) (by norm_num [abs_of_pos]) (by rw [rm_rawWith_in]; exact rm_clearTests) (by rw [rm_rawWith_in]; exact rm_readable)
    (by norm_num) (by norm_num) (by norm_num)

/-- The hypotheses of `C63_offset_empty_arcs`, which are those of the other theorems on regions and areas without the option. -/
example (env : Env ℝ) (henv : env.Lawful) :
    ∃ rs, parallelOffset env room 10 ⟨none, false, 1 / 100000, 1 / 10000, 1 / 10000⟩ = .ok rs ∧ ∃ σ : ℤ, (σ = 1 ∨ σ = -1) ∧
      (∀ X, ¬ OnPline room X → room.windingNumber X = 0 ∨ room.windingNumber X = σ) ∧
      (0 < (10 : ℝ) * σ → (rs = [] ↔ ∀ Y, room.windingNumber Y = σ → ¬ Keeps room |10| Y)) ∧ ((10 : ℝ) * σ < 0 → rs ≠ []) :=
  C63_offset_empty_arcs env henv room 10 ⟨none, false, 1 / 100000, 1 / 10000, 1 / 10000⟩ (by simp) rfl room_simple (by norm_num) (by norm_num) _ rm_clearOffset_in
    rm_clean_in rm_free 1 rmE (by rw [rm_rawWith_in]; exact rm_crossing) (by rw [rm_rawWith_in]; exact rm_angle) (by rw [rm_rawWith_in]; exact rm_finds)
    (by norm_num) (by norm_num [abs_of_pos]) (by rw [rm_rawWith_in]; exact rm_clearTests) (by rw [rm_rawWith_in]; exact rm_readable)
    (by norm_num) (by norm_num) (by norm_num)

/-- The hypotheses of `C70_closed_straight`, with cuts. -/
example (env : Env ℝ) (henv : env.Lawful) : ∃ rs, parallelOffset env room 10 ⟨none, true, 1 / 100000, 1 / 10000, 1 / 10000⟩ = .ok rs ∧
    (∀ r ∈ rs, r.closed = true ∧ 2 ≤ r.verts.length ∧ ∀ s ∈ r.segs, FullSeg s.1 s.2 (1 / 100000)) ∧ ∀ X, (∃ r ∈ rs, OnPline r X) ↔ OffsetPt room 10 X :=
  C70_closed_straight env henv room 10 ⟨none, true, 1 / 100000, 1 / 10000, 1 / 10000⟩ (by simp) rfl (by norm_num) rm_straight room_simple rm_full (by norm_num)
    (rm_clear 10 (Or.inl rfl)) (rm_clear (-10) (Or.inr rfl)) (rm_forward 10 (Or.inl rfl)) (rm_forward (-10) (Or.inr rfl)) (by rw [rm_raw_in]; exact rmR_full)
    (by rw [rm_raw_out]; exact rmD_full) (by rw [rm_raw_in]; exact rm_first_in) (by rw [rm_raw_out]; exact rm_first_out)
    1 (bothCuts rmE) (by rw [rm_raw_in, rm_raw_out]; exact rm_cuts) (by rw [rm_raw_in, rm_raw_out]; exact fun a ha _ => rm_kinds a ha)
    (by rw [rm_raw_in]; exact rm_finds) (by rw [rm_raw_in, rm_raw_out]; exact rm_pairs) (by norm_num) (by norm_num [abs_of_pos])
    (by rw [rm_raw_in]; exact rm_tests) (by norm_num) (by norm_num) (by norm_num)

/-- The hypotheses of `C70_area`, which are those of the other theorems on regions with the option. -/
example (env : Env ℝ) (henv : env.Lawful) : ∃ rs, parallelOffset env room 10 ⟨none, true, 1 / 100000, 1 / 10000, 1 / 10000⟩ = .ok rs ∧
    (0 < (10 : ℝ) * turnOf room.orientation →
      (rs.map Pline.area).sum = turnOf room.orientation * planeArea {z | room.windingNumber ⟨z.1, z.2⟩ ≠ 0 ∧ Keeps room |10| ⟨z.1, z.2⟩}) ∧
    ((10 : ℝ) * turnOf room.orientation < 0 →
      (rs.map Pline.area).sum = turnOf room.orientation * planeArea {z | ¬ (room.windingNumber ⟨z.1, z.2⟩ = 0 ∧ Keeps room |10| ⟨z.1, z.2⟩)}) :=
  C70_area env henv room 10 ⟨none, true, 1 / 100000, 1 / 10000, 1 / 10000⟩ (by simp) rfl (by norm_num) room_simple _ _ rm_clearOffset_in rm_clearOffset_out
    rm_clean_in rm_clean_out rm_free 1 (bothCuts rmE) (by rw [rm_rawWith_in, rm_rawWith_out]; exact rm_cuts)
    (by rw [rm_rawWith_in, rm_rawWith_out]; exact fun a ha _ => rm_kinds a ha) (by rw [rm_rawWith_in]; exact rm_finds)
    (by rw [rm_rawWith_in, rm_rawWith_out]; exact rm_pairs) (by norm_num) (by norm_num [abs_of_pos]) (by rw [rm_rawWith_in]; exact rm_tests)
    (by norm_num) (by norm_num) (by norm_num)

end Cavc
