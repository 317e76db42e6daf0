import Verif.Lemmas.OffsetRegionArcs
import Verif.Lemmas.RegionValues
import Verif.Props.ParallelLoops

/-! # C63: the region enclosed by the results of `parallel_offset` for closed polylines of lines and arcs -/

set_option linter.unusedVariables false

namespace Cavc
open RealScalar Pline

/-- **C66** For a closed polyline of lines and arcs that does not touch itself, the parallel curves on its two sides have no point in common; so
nothing needs to be assumed about that: the results of `parallel_offset` are closed polylines, and together they are the parallel curve. -/
theorem C66_parallel_simple (env : Env ℝ) (henv : env.Lawful) (p : Pline ℝ) (d : ℝ) (opts : OffsetOptions ℝ)
    (hidx : ∀ idx, opts.aabbIndex = some idx → idx.Serves p) (hself : opts.handleSelfIntersects = false)
    (hs : SimpleLoop p) (hd : d ≠ 0) (he : 0 < opts.posEqualEps) (c : Nat → Corner) (h : ClearOffset p d c opts.posEqualEps) (hcc : CleanCorners p d c)
    (hf : FreeCuts p d c)
    (gap : ℝ) (E : List (Cut × Cut)) (hE : SelfCrossing (rawWith p d c) opts.posEqualEps gap E) (hA : CrossAtAngle (rawWith p d c) E)
    (hF : FindsSelf (rawWith p d c) opts.posEqualEps) (ht : 0 < opts.offsetDistEps) (hD : opts.offsetDistEps ≤ |d|)
    (hT : ClearTests p (rawWith p d c) d opts.posEqualEps opts.offsetDistEps E) (hW : ReadableTests p (rawWith p d c) opts.posEqualEps E)
    (hg : opts.posEqualEps ≤ gap) (hj0 : 0 < opts.sliceJoinEps) (hj : 2 * opts.sliceJoinEps ≤ gap) :
    ∃ rs, parallelOffset env p d opts = .ok rs ∧
      (∀ r ∈ rs, r.closed = true ∧ 2 ≤ r.verts.length ∧ ∀ s ∈ r.segs, FullSeg s.1 s.2 opts.posEqualEps) ∧
      ∀ X, (∃ r ∈ rs, OnPline r X) ↔ ParallelPt p d X :=
  C61_offset_closed_arcs env henv p d opts hidx hself he c h hcc hf (one_sided_any h.loop he hs hf.turn hd) gap E hE hA hF ht hD hT hW hg hj0 hj

/-- the results: what they pass -/
theorem arcs_passed (env : Env ℝ) (henv : env.Lawful) (p : Pline ℝ) (d : ℝ) (opts : OffsetOptions ℝ)
    (hidx : ∀ idx, opts.aabbIndex = some idx → idx.Serves p) (hself : opts.handleSelfIntersects = false)
    (hs : SimpleLoop p) (hd : d ≠ 0) (he : 0 < opts.posEqualEps) (c : Nat → Corner) (h : ClearOffset p d c opts.posEqualEps) (hcc : CleanCorners p d c)
    (hf : FreeCuts p d c)
    (gap : ℝ) (E : List (Cut × Cut)) (hE : SelfCrossing (rawWith p d c) opts.posEqualEps gap E) (hA : CrossAtAngle (rawWith p d c) E)
    (hF : FindsSelf (rawWith p d c) opts.posEqualEps) (ht : 0 < opts.offsetDistEps) (hD : opts.offsetDistEps ≤ |d|)
    (hT : ClearTests p (rawWith p d c) d opts.posEqualEps opts.offsetDistEps E) (hW : ReadableTests p (rawWith p d c) opts.posEqualEps E)
    (hg : opts.posEqualEps ≤ gap) (hj0 : 0 < opts.sliceJoinEps) (hj : 2 * opts.sliceJoinEps ≤ gap) :
    ∃ rs, parallelOffset env p d opts = .ok rs ∧ (∀ r ∈ rs, Loop r) ∧ PassedOn p (rawWith p d c) |d| E rs ∧ ∀ X, (∃ r ∈ rs, OnPline r X) ↔ ParallelPt p d X := by
  have hp := h.loop
  have hpl := hp.loop he
  have hos := one_sided_any hp he hs hf.turn hd
  have hr : 0 < |d| := abs_pos.mpr hd
  obtain ⟨rs0, hrs0, hcl, hcurve⟩ := C66_parallel_simple env henv p d opts hidx hself hs hd he c h hcc hf gap E hE hA hF ht hD hT hW hg hj0 hj
  have hpass : PassedOn p (rawWith p d c) |d| E rs0 := by
    have hC := raw_changes he h hcc hE hf hos hA
    have hraw := C65_raw he h
    have hn : 0 < (rawWith p d c).verts.length := by have := h.full.two; omega
    obtain ⟨rs, hrs, -, hbig⟩ := C43_parallel_offset env henv p d opts hidx
    obtain ⟨raw, hraw', -, hof⟩ := hbig h.loop.two
    rw [hraw] at hraw'
    injection hraw' with hraw'
    subst hraw'
    obtain ⟨-, -, es, ss, hof⟩ := hof (by intro h; rw [h] at hn; simp at hn)
    have heq : rs = rs0 := by rw [hrs] at hrs0; exact Except.ok.inj hrs0
    subst heq
    exact result_pass_any hp he ht hD h.full hE hF hC hT hW hg hj hj0.le (hof.single hp.closed hself) hof.slices hof.joined
  exact ⟨rs0, hrs0, full_loops he hcl, hpass, hcurve⟩

open Classical in
/-- **C63** The results of `parallel_offset` for a closed polyline of lines and arcs that does not touch itself enclose the right region.  The polyline
has winding number `σ` (1 or -1) inside and 0 outside.  For an offset to the inside, the sum of the winding numbers of the results is `σ` at the points inside
the polyline that are at least the offset away from it, and 0 at all other points.  For an offset to the outside, it is 0 at the points outside the
polyline that are at least the offset away from it, and `σ` at all other points.  (Points on the results themselves are left out there; they are inside
or outside the polyline, depending on the side of the offset.) -/
theorem C63_offset_region_arcs (env : Env ℝ) (henv : env.Lawful) (p : Pline ℝ) (d : ℝ) (opts : OffsetOptions ℝ)
    (hidx : ∀ idx, opts.aabbIndex = some idx → idx.Serves p) (hself : opts.handleSelfIntersects = false)
    (hs : SimpleLoop p) (hd : d ≠ 0) (he : 0 < opts.posEqualEps) (c : Nat → Corner) (h : ClearOffset p d c opts.posEqualEps) (hcc : CleanCorners p d c)
    (hf : FreeCuts p d c)
    (gap : ℝ) (E : List (Cut × Cut)) (hE : SelfCrossing (rawWith p d c) opts.posEqualEps gap E) (hA : CrossAtAngle (rawWith p d c) E)
    (hF : FindsSelf (rawWith p d c) opts.posEqualEps) (ht : 0 < opts.offsetDistEps) (hD : opts.offsetDistEps ≤ |d|)
    (hT : ClearTests p (rawWith p d c) d opts.posEqualEps opts.offsetDistEps E) (hW : ReadableTests p (rawWith p d c) opts.posEqualEps E)
    (hg : opts.posEqualEps ≤ gap) (hj0 : 0 < opts.sliceJoinEps) (hj : 2 * opts.sliceJoinEps ≤ gap) :
    ∃ rs, parallelOffset env p d opts = .ok rs ∧ ∃ σ : ℤ, (σ = 1 ∨ σ = -1) ∧
      (∀ X, ¬ OnPline p X → p.windingNumber X = 0 ∨ p.windingNumber X = σ) ∧
      (∀ r ∈ rs, ∀ X, OnPline r X → ¬ OnPline p X ∧ p.windingNumber X = if 0 < d * σ then σ else 0) ∧
      (0 < d * σ → ∀ Y, (∀ r ∈ rs, ¬ OnPline r Y) →
        (rs.map fun r => r.windingNumber Y).sum = if p.windingNumber Y = σ ∧ Keeps p |d| Y then σ else 0) ∧
      (d * σ < 0 → ∀ Y, (∀ r ∈ rs, ¬ OnPline r Y) →
        (rs.map fun r => r.windingNumber Y).sum = if p.windingNumber Y = 0 ∧ Keeps p |d| Y then 0 else σ) := by
  obtain ⟨rs, hrs, hl, hpass, hcurve⟩ := arcs_passed env henv p d opts hidx hself hs hd he c h hcc hf gap E hE hA hF ht hD hT hW hg hj0 hj
  exact ⟨rs, hrs, region_values he h hcc hs hf.turn hd hl hpass hcurve⟩

/-- **C63** An offset to the inside has no results if and only if no point inside the polyline is that far away from it; an offset to the outside always
has results. -/
theorem C63_offset_empty_arcs (env : Env ℝ) (henv : env.Lawful) (p : Pline ℝ) (d : ℝ) (opts : OffsetOptions ℝ)
    (hidx : ∀ idx, opts.aabbIndex = some idx → idx.Serves p) (hself : opts.handleSelfIntersects = false)
    (hs : SimpleLoop p) (hd : d ≠ 0) (he : 0 < opts.posEqualEps) (c : Nat → Corner) (h : ClearOffset p d c opts.posEqualEps) (hcc : CleanCorners p d c)
    (hf : FreeCuts p d c)
    (gap : ℝ) (E : List (Cut × Cut)) (hE : SelfCrossing (rawWith p d c) opts.posEqualEps gap E) (hA : CrossAtAngle (rawWith p d c) E)
    (hF : FindsSelf (rawWith p d c) opts.posEqualEps) (ht : 0 < opts.offsetDistEps) (hD : opts.offsetDistEps ≤ |d|)
    (hT : ClearTests p (rawWith p d c) d opts.posEqualEps opts.offsetDistEps E) (hW : ReadableTests p (rawWith p d c) opts.posEqualEps E)
    (hg : opts.posEqualEps ≤ gap) (hj0 : 0 < opts.sliceJoinEps) (hj : 2 * opts.sliceJoinEps ≤ gap) :
    ∃ rs, parallelOffset env p d opts = .ok rs ∧ ∃ σ : ℤ, (σ = 1 ∨ σ = -1) ∧
      (∀ X, ¬ OnPline p X → p.windingNumber X = 0 ∨ p.windingNumber X = σ) ∧
      (0 < d * σ → (rs = [] ↔ ∀ Y, p.windingNumber Y = σ → ¬ Keeps p |d| Y)) ∧ (d * σ < 0 → rs ≠ []) := by
  obtain ⟨rs, hrs, hl, hpass, hcurve⟩ := arcs_passed env henv p d opts hidx hself hs hd he c h hcc hf gap E hE hA hF ht hD hT hW hg hj0 hj
  exact ⟨rs, hrs, region_empty he h hcc hs hf.turn hd hl hpass hcurve⟩

/-- **C63** The same as `C63_offset_region_arcs`, in terms of the direction that `orientation` reports: an offset to the left of a counter clockwise polyline,
or to the right of a clockwise one, encloses the points inside that are at least the offset away; an offset to the other side encloses all points but those
outside that are at least the offset away. -/
theorem C63_offset_oriented_arcs (env : Env ℝ) (henv : env.Lawful) (p : Pline ℝ) (d : ℝ) (opts : OffsetOptions ℝ)
    (hidx : ∀ idx, opts.aabbIndex = some idx → idx.Serves p) (hself : opts.handleSelfIntersects = false)
    (hs : SimpleLoop p) (hd : d ≠ 0) (he : 0 < opts.posEqualEps) (c : Nat → Corner) (h : ClearOffset p d c opts.posEqualEps) (hcc : CleanCorners p d c)
    (hf : FreeCuts p d c)
    (gap : ℝ) (E : List (Cut × Cut)) (hE : SelfCrossing (rawWith p d c) opts.posEqualEps gap E) (hA : CrossAtAngle (rawWith p d c) E)
    (hF : FindsSelf (rawWith p d c) opts.posEqualEps) (ht : 0 < opts.offsetDistEps) (hD : opts.offsetDistEps ≤ |d|)
    (hT : ClearTests p (rawWith p d c) d opts.posEqualEps opts.offsetDistEps E) (hW : ReadableTests p (rawWith p d c) opts.posEqualEps E)
    (hg : opts.posEqualEps ≤ gap) (hj0 : 0 < opts.sliceJoinEps) (hj : 2 * opts.sliceJoinEps ≤ gap) :
    ∃ rs, parallelOffset env p d opts = .ok rs ∧
      (0 < d * turnOf p.orientation → ∀ Y, (∀ r ∈ rs, ¬ OnPline r Y) →
        ((rs.map fun r => r.windingNumber Y).sum = turnOf p.orientation ∧ p.windingNumber Y = turnOf p.orientation ∧ Keeps p |d| Y) ∨
        ((rs.map fun r => r.windingNumber Y).sum = 0 ∧ ¬ (p.windingNumber Y = turnOf p.orientation ∧ Keeps p |d| Y))) ∧
      (d * turnOf p.orientation < 0 → ∀ Y, (∀ r ∈ rs, ¬ OnPline r Y) →
        ((rs.map fun r => r.windingNumber Y).sum = 0 ∧ p.windingNumber Y = 0 ∧ Keeps p |d| Y) ∨
        ((rs.map fun r => r.windingNumber Y).sum = turnOf p.orientation ∧ ¬ (p.windingNumber Y = 0 ∧ Keeps p |d| Y))) := by
  obtain ⟨rs, hrs, hl, hpass, hcurve⟩ := arcs_passed env henv p d opts hidx hself hs hd he c h hcc hf gap E hE hA hF ht hD hT hW hg hj0 hj
  exact ⟨rs, hrs, region_oriented he h hcc hs hf.turn hd hl hpass hcurve⟩

/-- **C64** The areas of the results of an offset to the inside add up to the area of the region of the points inside that are at least the offset away; those
of an offset to the outside add up to the area of the region of all points but those outside that are at least the offset away.  (With the sign of
the direction of the polyline.) -/
theorem C64_offset_area_arcs (env : Env ℝ) (henv : env.Lawful) (p : Pline ℝ) (d : ℝ) (opts : OffsetOptions ℝ)
    (hidx : ∀ idx, opts.aabbIndex = some idx → idx.Serves p) (hself : opts.handleSelfIntersects = false)
    (hs : SimpleLoop p) (hd : d ≠ 0) (he : 0 < opts.posEqualEps) (c : Nat → Corner) (h : ClearOffset p d c opts.posEqualEps) (hcc : CleanCorners p d c)
    (hf : FreeCuts p d c)
    (gap : ℝ) (E : List (Cut × Cut)) (hE : SelfCrossing (rawWith p d c) opts.posEqualEps gap E) (hA : CrossAtAngle (rawWith p d c) E)
    (hF : FindsSelf (rawWith p d c) opts.posEqualEps) (ht : 0 < opts.offsetDistEps) (hD : opts.offsetDistEps ≤ |d|)
    (hT : ClearTests p (rawWith p d c) d opts.posEqualEps opts.offsetDistEps E) (hW : ReadableTests p (rawWith p d c) opts.posEqualEps E)
    (hg : opts.posEqualEps ≤ gap) (hj0 : 0 < opts.sliceJoinEps) (hj : 2 * opts.sliceJoinEps ≤ gap) :
    ∃ rs, parallelOffset env p d opts = .ok rs ∧
      (0 < d * turnOf p.orientation →
        (rs.map Pline.area).sum = turnOf p.orientation * planeArea {z | p.windingNumber ⟨z.1, z.2⟩ ≠ 0 ∧ Keeps p |d| ⟨z.1, z.2⟩}) ∧
      (d * turnOf p.orientation < 0 →
        (rs.map Pline.area).sum = turnOf p.orientation * planeArea {z | ¬ (p.windingNumber ⟨z.1, z.2⟩ = 0 ∧ Keeps p |d| ⟨z.1, z.2⟩)}) := by
  obtain ⟨rs, hrs, hl, hpass, hcurve⟩ := arcs_passed env henv p d opts hidx hself hs hd he c h hcc hf gap E hE hA hF ht hD hT hW hg hj0 hj
  exact ⟨rs, hrs, region_area he h hcc hs hf.turn hd hl hpass hcurve⟩

/-- The rectangle with a half disc on top does not touch itself. -/
theorem house_simple : SimpleLoop house := by
  have hp := Real.pi_pos
  intro i j hi hj t u t0 t1 u0 u1 h
  obtain ⟨a0, a1, a2, a3⟩ := ho_side t
  obtain ⟨b0, b1, b2, b3⟩ := ho_side u
  have s1 := half_sin t0 t1.le
  have s2 := half_sin u0 u1.le
  change i < 4 at hi
  change j < 4 at hj
  interval_cases i <;> interval_cases j <;> simp only [a0, a1, a2, a3, b0, b1, b2, b3, V2.ext_iff'] at h <;> obtain ⟨h1, h2⟩ := h
  all_goals first
    | exact ⟨rfl, by linarith⟩
    | (exfalso; linarith)
    | skip
  · refine ⟨rfl, ?_⟩
    have := Real.injOn_cos (x₁ := t * Real.pi) (x₂ := u * Real.pi) ⟨by positivity, by nlinarith⟩ ⟨by positivity, by nlinarith⟩ (by linarith)
    exact mul_right_cancel₀ hp.ne' this
  · have := half_stop t0 t1.le (by linarith)
    linarith
  · have := half_stop u0 u1.le (by linarith)
    linarith

open Classical in
/-- All hypotheses are met by the rectangle with a half disc on top, offset by 3 to the inside. -/
example :
    ∃ rs, parallelOffset (Env.plain : Env ℝ) house 3 ⟨none, false, 1 / 100000, 1 / 10000, 1 / 10000⟩ = .ok rs ∧ ∃ σ : ℤ, (σ = 1 ∨ σ = -1) ∧
      (∀ X, ¬ OnPline house X → house.windingNumber X = 0 ∨ house.windingNumber X = σ) ∧
      (∀ r ∈ rs, ∀ X, OnPline r X → ¬ OnPline house X ∧ house.windingNumber X = if 0 < (3 : ℝ) * σ then σ else 0) ∧
      (0 < (3 : ℝ) * σ → ∀ Y, (∀ r ∈ rs, ¬ OnPline r Y) →
        (rs.map fun r => r.windingNumber Y).sum = if house.windingNumber Y = σ ∧ Keeps house |3| Y then σ else 0) ∧
      ((3 : ℝ) * σ < 0 → ∀ Y, (∀ r ∈ rs, ¬ OnPline r Y) →
        (rs.map fun r => r.windingNumber Y).sum = if house.windingNumber Y = 0 ∧ Keeps house |3| Y then 0 else σ) :=
  C63_offset_region_arcs _ Env.plain_lawful house 3 ⟨none, false, 1 / 100000, 1 / 10000, 1 / 10000⟩ (by simp) rfl house_simple (by norm_num) (by norm_num) hoIn hoIn_clear hoIn_clean
    hoIn_free 1 [] ho_crossing (by intro e he; simp at he) ho_finds (by norm_num) (by norm_num [abs_of_pos]) ho_tests ho_readable
    (by norm_num) (by norm_num) (by norm_num)

/-- The same for the corollary about empty results. -/
example :
    ∃ rs, parallelOffset (Env.plain : Env ℝ) house 3 ⟨none, false, 1 / 100000, 1 / 10000, 1 / 10000⟩ = .ok rs ∧ ∃ σ : ℤ, (σ = 1 ∨ σ = -1) ∧
      (∀ X, ¬ OnPline house X → house.windingNumber X = 0 ∨ house.windingNumber X = σ) ∧
      (0 < (3 : ℝ) * σ → (rs = [] ↔ ∀ Y, house.windingNumber Y = σ → ¬ Keeps house |3| Y)) ∧ ((3 : ℝ) * σ < 0 → rs ≠ []) :=
  C63_offset_empty_arcs _ Env.plain_lawful house 3 ⟨none, false, 1 / 100000, 1 / 10000, 1 / 10000⟩ (by simp) rfl house_simple (by norm_num) (by norm_num) hoIn hoIn_clear hoIn_clean
    hoIn_free 1 [] ho_crossing (by intro e he; simp at he) ho_finds (by norm_num) (by norm_num [abs_of_pos]) ho_tests ho_readable
    (by norm_num) (by norm_num) (by norm_num)

/-- The same for the direction. -/
example :
    ∃ rs, parallelOffset (Env.plain : Env ℝ) house 3 ⟨none, false, 1 / 100000, 1 / 10000, 1 / 10000⟩ = .ok rs ∧
      (0 < (3 : ℝ) * turnOf house.orientation → ∀ Y, (∀ r ∈ rs, ¬ OnPline r Y) →
        ((rs.map fun r => r.windingNumber Y).sum = turnOf house.orientation ∧ house.windingNumber Y = turnOf house.orientation ∧ Keeps house |3| Y) ∨
        ((rs.map fun r => r.windingNumber Y).sum = 0 ∧ ¬ (house.windingNumber Y = turnOf house.orientation ∧ Keeps house |3| Y))) ∧
      ((3 : ℝ) * turnOf house.orientation < 0 → ∀ Y, (∀ r ∈ rs, ¬ OnPline r Y) →
        ((rs.map fun r => r.windingNumber Y).sum = 0 ∧ house.windingNumber Y = 0 ∧ Keeps house |3| Y) ∨
        ((rs.map fun r => r.windingNumber Y).sum = turnOf house.orientation ∧ ¬ (house.windingNumber Y = 0 ∧ Keeps house |3| Y))) :=
  C63_offset_oriented_arcs _ Env.plain_lawful house 3 ⟨none, false, 1 / 100000, 1 / 10000, 1 / 10000⟩ (by simp) rfl house_simple (by norm_num) (by norm_num) hoIn hoIn_clear hoIn_clean
    hoIn_free 1 [] ho_crossing (by intro e he; simp at he) ho_finds (by norm_num) (by norm_num [abs_of_pos]) ho_tests ho_readable
    (by norm_num) (by norm_num) (by norm_num)

/-- The same for the areas. -/
example :
    ∃ rs, parallelOffset (Env.plain : Env ℝ) house 3 ⟨none, false, 1 / 100000, 1 / 10000, 1 / 10000⟩ = .ok rs ∧
      (0 < (3 : ℝ) * turnOf house.orientation →
        (rs.map Pline.area).sum = turnOf house.orientation * planeArea {z | house.windingNumber ⟨z.1, z.2⟩ ≠ 0 ∧ Keeps house |3| ⟨z.1, z.2⟩}) ∧
      ((3 : ℝ) * turnOf house.orientation < 0 →
        (rs.map Pline.area).sum = turnOf house.orientation * planeArea {z | ¬ (house.windingNumber ⟨z.1, z.2⟩ = 0 ∧ Keeps house |3| ⟨z.1, z.2⟩)}) :=
  C64_offset_area_arcs _ Env.plain_lawful house 3 ⟨none, false, 1 / 100000, 1 / 10000, 1 / 10000⟩ (by simp) rfl house_simple (by norm_num) (by norm_num) hoIn hoIn_clear hoIn_clean
    hoIn_free 1 [] ho_crossing (by intro e he; simp at he) ho_finds (by norm_num) (by norm_num [abs_of_pos]) ho_tests ho_readable
    (by norm_num) (by norm_num) (by norm_num)

end Cavc
