import Verif.Lemmas.ResultSimple
import Verif.Props.ShapeRegion
import Verif.Props.OffsetTurn
import Verif.Props.OffsetRoom

/-! # C75: the results of the parallel offset touch neither themselves nor each other -/

set_option linter.unusedVariables false

namespace Cavc
open Pline RealScalar

/-- **C75** The results of `parallel_offset` for a closed polyline of lines and arcs that does not touch itself do not touch themselves, and no two of them have a
common point; the raw offset may cross itself any number of times.  So every result can be offset again. -/
theorem C75_offset_simple (env : Env ℝ) (henv : env.Lawful) (p : Pline ℝ) (d : ℝ) (opts : OffsetOptions ℝ)
    (hidx : ∀ idx, opts.aabbIndex = some idx → idx.Serves p) (hself : opts.handleSelfIntersects = false)
    (hs : SimpleLoop p) (hd : d ≠ 0) (he : 0 < opts.posEqualEps) (c : Nat → Corner) (h : ClearOffset p d c opts.posEqualEps) (hcc : CleanCorners p d c)
    (hf : FreeCuts p d c)
    (gap : ℝ) (E : List (Cut × Cut)) (hE : SelfCrossing (rawWith p d c) opts.posEqualEps gap E) (hA : CrossAtAngle (rawWith p d c) E)
    (hF : FindsSelf (rawWith p d c) opts.posEqualEps) (ht : 0 < opts.offsetDistEps) (hD : opts.offsetDistEps ≤ |d|)
    (hT : ClearTests p (rawWith p d c) d opts.posEqualEps opts.offsetDistEps E) (hW : ReadableTests p (rawWith p d c) opts.posEqualEps E)
    (hg : opts.posEqualEps ≤ gap) (hj0 : 0 < opts.sliceJoinEps) (hj : 2 * opts.sliceJoinEps ≤ gap) :
    ∃ rs, parallelOffset env p d opts = .ok rs ∧ (∀ r ∈ rs, Loop r ∧ SimpleLoop r) ∧ rs.Pairwise fun r r' => ∀ X, OnPline r X → ¬ OnPline r' X := by
  have hp := h.loop
  have hos := one_sided_any hp he hs hf.turn hd
  obtain ⟨rs0, hrs0, hcl, hcurve⟩ := C66_parallel_simple env henv p d opts hidx hself hs hd he c h hcc hf gap E hE hA hF ht hD hT hW hg hj0 hj
  have hC := raw_changes he h hcc hE hf hos hA
  have hraw := C65_raw he h
  have hn : 0 < (rawWith p d c).verts.length := by have := h.full.two; omega
  obtain ⟨rs, hrs, -, hbig⟩ := C43_parallel_offset env henv p d opts hidx
  obtain ⟨raw, hraw', -, hof⟩ := hbig h.loop.two
  rw [hraw] at hraw'
  injection hraw' with hraw'
  subst hraw'
  obtain ⟨-, -, es, ss, hof⟩ := hof (by intro h; rw [h] at hn; simp at hn)
  have heq : rs = rs0 := by rw [hrs] at hrs0; exact Except.ok.inj hrs0
  subst heq
  have hparts := result_parts_any hp he ht hD h.full hE hF hC hT hW hg hj hj0.le (hof.single hp.closed hself) hof.slices hof.joined
  have hpass := result_pass_any hp he ht hD h.full hE hF hC hT hW hg hj hj0.le (hof.single hp.closed hself) hof.slices hof.joined
  obtain ⟨h1, h2⟩ := results_simple he h hcc hE hA (fun r hr => ⟨(hcl r hr).1, (hcl r hr).2.1⟩) hpass (fun r hr X hX => ((hcurve X).mp ⟨r, hr, hX⟩).keeps) hparts
  exact ⟨rs, hrs, fun r hr => ⟨full_loops he hcl r hr, h1 r hr⟩, h2⟩

/-- **C75** Consequences for every single result: it winds at most once around every point, its `area` is up to the sign the area of the region it encloses, and this is not
zero.  Offsets to the inside have the orientation of the polyline. -/
theorem C75_offset_each (env : Env ℝ) (henv : env.Lawful) (p : Pline ℝ) (d : ℝ) (opts : OffsetOptions ℝ)
    (hidx : ∀ idx, opts.aabbIndex = some idx → idx.Serves p) (hself : opts.handleSelfIntersects = false)
    (hs : SimpleLoop p) (hd : d ≠ 0) (he : 0 < opts.posEqualEps) (c : Nat → Corner) (h : ClearOffset p d c opts.posEqualEps) (hcc : CleanCorners p d c)
    (hf : FreeCuts p d c)
    (gap : ℝ) (E : List (Cut × Cut)) (hE : SelfCrossing (rawWith p d c) opts.posEqualEps gap E) (hA : CrossAtAngle (rawWith p d c) E)
    (hF : FindsSelf (rawWith p d c) opts.posEqualEps) (ht : 0 < opts.offsetDistEps) (hD : opts.offsetDistEps ≤ |d|)
    (hT : ClearTests p (rawWith p d c) d opts.posEqualEps opts.offsetDistEps E) (hW : ReadableTests p (rawWith p d c) opts.posEqualEps E)
    (hg : opts.posEqualEps ≤ gap) (hj0 : 0 < opts.sliceJoinEps) (hj : 2 * opts.sliceJoinEps ≤ gap) :
    ∃ rs, parallelOffset env p d opts = .ok rs ∧
      (∀ r ∈ rs, (∀ X, ¬ OnPline r X → r.windingNumber X = 0 ∨ r.windingNumber X = turnOf r.orientation) ∧ r.area ≠ 0 ∧ |r.area| = planeArea (within r)) ∧
      (0 < d * turnOf p.orientation → ∀ r ∈ rs, r.orientation = p.orientation) := by
  obtain ⟨rs, hrs, h1, -⟩ := C75_offset_simple env henv p d opts hidx hself hs hd he c h hcc hf gap E hE hA hF ht hD hT hW hg hj0 hj
  have hpl := h.loop.loop he
  obtain ⟨σ, hσ, hv, -, -⟩ := C62_simple_winding p hpl hs
  have htl : TurnsLike p σ := ⟨hσ, hv⟩
  have ho := turn_orientation hpl hs htl
  obtain ⟨rs', hrs', ha⟩ := C74_offset_curve env henv p d opts hidx hself hs hd he c h hcc hf gap E hE hA hF ht hD hT hW hg hj0 hj σ htl
  have heq : rs' = rs := by rw [hrs] at hrs'; exact (Except.ok.inj hrs').symm
  subst heq
  refine ⟨rs', hrs, fun r hr => ?_, fun hpos r hr => ?_⟩
  · obtain ⟨w, -, k1, k2, -⟩ := C64_simple r (h1 r hr).1 (h1 r hr).2
    exact ⟨w, k1, k2⟩
  · rw [ho] at hpos
    exact C74_inward_orientation p hpl hs d σ htl hpos rs' ha (fun r hr => (h1 r hr).1) (fun r hr => (h1 r hr).2) r hr

/-! Non-vacuity: the room, whose raw offset crosses itself at both ends of the passage. -/

example (env : Env ℝ) (henv : env.Lawful) :
    ∃ rs, parallelOffset env room 10 ⟨none, false, 1 / 100000, 1 / 10000, 1 / 10000⟩ = .ok rs ∧
      (∀ r ∈ rs, Loop r ∧ SimpleLoop r) ∧ rs.Pairwise fun r r' => ∀ X, OnPline r X → ¬ OnPline r' X :=
  C75_offset_simple env henv room 10 ⟨none, false, 1 / 100000, 1 / 10000, 1 / 10000⟩ (by simp) rfl room_simple (by norm_num) (by norm_num) _ rm_clearOffset_in
    rm_clean_in rm_free 1 rmE (by rw [rm_rawWith_in]; exact rm_crossing) (by rw [rm_rawWith_in]; exact rm_angle) (by rw [rm_rawWith_in]; exact rm_finds)
    (by norm_num) (by norm_num [abs_of_pos]) (by rw [rm_rawWith_in]; exact rm_clearTests) (by rw [rm_rawWith_in]; exact rm_readable)
    (by norm_num) (by norm_num) (by norm_num)

example (env : Env ℝ) (henv : env.Lawful) :
    ∃ rs, parallelOffset env room 10 ⟨none, false, 1 / 100000, 1 / 10000, 1 / 10000⟩ = .ok rs ∧
      (∀ r ∈ rs, (∀ X, ¬ OnPline r X → r.windingNumber X = 0 ∨ r.windingNumber X = turnOf r.orientation) ∧ r.area ≠ 0 ∧ |r.area| = planeArea (within r)) ∧
      (0 < (10 : ℝ) * turnOf room.orientation → ∀ r ∈ rs, r.orientation = room.orientation) :=
  C75_offset_each env henv room 10 ⟨none, false, 1 / 100000, 1 / 10000, 1 / 10000⟩ (by simp) rfl room_simple (by norm_num) (by norm_num) _ rm_clearOffset_in
    rm_clean_in rm_free 1 rmE (by rw [rm_rawWith_in]; exact rm_crossing) (by rw [rm_rawWith_in]; exact rm_angle) (by rw [rm_rawWith_in]; exact rm_finds)
    (by norm_num) (by norm_num [abs_of_pos]) (by rw [rm_rawWith_in]; exact rm_clearTests) (by rw [rm_rawWith_in]; exact rm_readable)
    (by norm_num) (by norm_num) (by norm_num)

end Cavc
