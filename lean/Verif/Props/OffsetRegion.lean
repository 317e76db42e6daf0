import Verif.Lemmas.OffsetRegion
import Verif.Props.OffsetLoops
import Verif.Props.SimpleLoop

/-! # C63: the region enclosed by the results of `parallel_offset` -/

set_option linter.unusedVariables false

namespace Cavc
open Pline

theorem keeps_off {p : Pline ℝ} {D : ℝ} (hD : 0 < D) {Y : V2 ℝ} (h : Keeps p D Y) : ¬ OnPline p Y := fun hon => by
  have := h Y hon
  rw [edist_self] at this
  linarith

open Classical in
/-- **C63** The results of `parallel_offset` for a closed polyline of straight segments that does not touch itself enclose the right region.  The polyline
has winding number `σ` (1 or -1) inside and 0 outside.  For an offset to the inside, the sum of the winding numbers of the results is `σ` at the points inside
the polyline that are at least the offset away from it, and 0 at all other points.  For an offset to the outside, it is 0 at the points outside the
polyline that are at least the offset away from it, and `σ` at all other points.  (Points on the results themselves are left out there; they are inside
or outside the polyline, depending on the side of the offset.) -/
theorem C63_offset_region (env : Env ℝ) (henv : env.Lawful) (p : Pline ℝ) (d : ℝ) (opts : OffsetOptions ℝ)
    (hidx : ∀ idx, opts.aabbIndex = some idx → idx.Serves p) (hself : opts.handleSelfIntersects = false)
    (hp : StraightLoop p) (hs : SimpleLoop p) (hd : d ≠ 0) (he : 0 < opts.posEqualEps) (hc : ∀ k, ClearTurn p d opts.posEqualEps k)
    (hf : FullLoop (rawLoop p d) opts.posEqualEps) (h0 : (sidePt p d 0 0).fuzzyEqEps (vtx (rawLoop p d) 1).pos opts.posEqualEps = false)
    (gap : ℝ) (E : List (Cut × Cut)) (hE : SelfCrossing (rawLoop p d) opts.posEqualEps gap E) (hF : FindsSelf (rawLoop p d) opts.posEqualEps)
    (ht : 0 < opts.offsetDistEps) (hD : opts.offsetDistEps ≤ |d|)
    (hT : ClearTests p (rawLoop p d) d opts.posEqualEps opts.offsetDistEps E)
    (hg : opts.posEqualEps ≤ gap) (hj0 : 0 < opts.sliceJoinEps) (hj : 2 * opts.sliceJoinEps ≤ gap) :
    ∃ rs, parallelOffset env p d opts = .ok rs ∧ ∃ σ : ℤ, (σ = 1 ∨ σ = -1) ∧
      (∀ X, ¬ OnPline p X → p.windingNumber X = 0 ∨ p.windingNumber X = σ) ∧
      (∀ r ∈ rs, ∀ X, OnPline r X → ¬ OnPline p X ∧ p.windingNumber X = if 0 < d * σ then σ else 0) ∧
      (0 < d * σ → ∀ Y, (∀ r ∈ rs, ¬ OnPline r Y) →
        (rs.map fun r => r.windingNumber Y).sum = if p.windingNumber Y = σ ∧ Keeps p |d| Y then σ else 0) ∧
      (d * σ < 0 → ∀ Y, (∀ r ∈ rs, ¬ OnPline r Y) →
        (rs.map fun r => r.windingNumber Y).sum = if p.windingNumber Y = 0 ∧ Keeps p |d| Y then 0 else σ) := by
  have hos := one_sided p hp hs hd
  have hpl := straight_loop hp
  have hr : 0 < |d| := abs_pos.mpr hd
  have hraw := C42_raw_straight hp hd he hc hf h0
  have hn : 0 < (rawLoop p d).verts.length := by have := hf.two; omega
  obtain ⟨rs0, hrs0, hcurve⟩ := C60_offset_curve env henv p d opts hidx hself hp hd he hc hf h0 gap E hE hF hos ht hD hT hg hj0.le hj
  obtain ⟨rs, hrs, -, hbig⟩ := C43_parallel_offset env henv p d opts hidx
  obtain ⟨raw, hraw', -, hof⟩ := hbig hp.two
  rw [hrs0] at hrs
  injection hrs with hrs
  subst hrs
  rw [hraw] at hraw'
  injection hraw' with hraw'
  subst hraw'
  obtain ⟨-, -, es, ss, hof⟩ := hof (by intro h; rw [h] at hn; simp at hn)
  have hcl := result_closed hp hd he hc ht hD hf hE hF hos hT hg hj hj0 (hof.single hp.closed hself) hof.slices hof.joined
  have hl : ∀ r ∈ rs0, Loop r := by
    intro r hr
    obtain ⟨c1, c2, c3⟩ := hcl r hr
    refine ⟨c1, c2, fun s hs => ?_⟩
    rcases (c3 s hs).shape with h | ⟨h1, h2⟩
    · exact Or.inl h
    · exact Or.inr ⟨h1, h2, fuzzy_ne he (c3 s hs).apart⟩
  have hpass : Passed p d E rs0 := fun j t hjn t0 t1 hcut hk =>
    result_pass hp hd he hc ht hD hf hE hF hos hT hg hj hj0.le (hof.single hp.closed hself) hof.slices hof.joined hjn t0 t1 hcut hk
  obtain ⟨a, ha01, ha, htwo⟩ := two_values hp hs
  obtain ⟨w0, hW⟩ := region_value hp hd he hc hs hf hl hpass hcurve ha
  refine ⟨rs0, hrs0, ?_⟩
  -- a point far away
  obtain ⟨x, hx⟩ := right_of (ps := p :: rs0) (by
    intro r hr
    rcases List.mem_cons.mp hr with rfl | hr
    · exact hpl
    · exact hl r hr)
  set Y0 : V2 ℝ := ⟨x + |d|, 0⟩ with hY0
  have hlt : ∀ r ∈ p :: rs0, ∀ z ∈ trace r, z.1 < Y0.x := fun r hr z hz => by
    have := hx r hr z hz
    rw [hY0]
    dsimp only
    linarith
  have off0 : ∀ r ∈ p :: rs0, ¬ OnPline r Y0 := fun r hr hon => absurd (hlt r hr (Y0.x, Y0.y) hon) (lt_irrefl _)
  have hp0 : wnAt p Y0 = 0 := right_zero hpl (hlt p (by simp))
  have hall0 : allW rs0 Y0 = 0 := by
    unfold allW
    rw [List.sum_eq_zero]
    intro w hw
    obtain ⟨r, hr, rfl⟩ := List.mem_map.mp hw
    exact right_zero (hl r hr) (hlt r (by simp [hr]))
  have hk0 : Keeps p |d| Y0 := by
    intro q hq
    have h1 := hx p (by simp) (q.x, q.y) hq
    unfold edist
    apply Real.le_sqrt_of_sq_le
    have h2 : |d| ≤ Y0.x - q.x := by rw [hY0]; dsimp only at h1 ⊢; linarith
    nlinarith [sq_nonneg (Y0.y - q.y)]
  obtain ⟨f1, f2⟩ := hW Y0 (fun r hr => off0 r (by simp [hr]))
  have f1 := f1 (off0 p (by simp)) hk0
  have f2 := fun h => f2 (Or.inr (Or.inr h))
  rw [hp0, hall0] at f1 f2
  have hsum : ∀ Y, (rs0.map fun r => r.windingNumber Y).sum = allW rs0 Y := fun Y => rfl
  have hwn : ∀ Y, p.windingNumber Y = wnAt p Y := fun Y => rfl
  have hcond : ∀ (Y : V2 ℝ) (v w1 w2 : ℤ), (v = if 0 < d then a else a - 1) → w1 = w0 + (if 0 < d then 1 else -1) → w2 = w0 → (∀ r ∈ rs0, ¬ OnPline r Y) →
      allW rs0 Y = if wnAt p Y = v ∧ Keeps p |d| Y then w1 else w2 := by
    intro Y v w1 w2 hv h1 h2 hY
    obtain ⟨g1, g2⟩ := hW Y hY
    rw [← hv, ← h1] at g1
    rw [← hv, ← h2] at g2
    by_cases hh : wnAt p Y = v ∧ Keeps p |d| Y
    · rw [if_pos hh]
      exact g1 (keeps_off hr hh.2) hh.2 hh.1
    · rw [if_neg hh]
      apply g2
      by_cases hk : Keeps p |d| Y
      · exact Or.inr (Or.inr fun hv' => hh ⟨hv', hk⟩)
      · exact Or.inr (Or.inl hk)
  have hon : ∀ r ∈ rs0, ∀ X, OnPline r X → ¬ OnPline p X ∧ wnAt p X = if 0 < d then a else a - 1 := fun r hr' X hX => by
    have := (hcurve X).mp ⟨r, hr', hX⟩
    exact ⟨keeps_off hr this.keeps, sided_val hp hs ha hd this⟩
  rcases ha01 with rfl | rfl
  · refine ⟨-1, Or.inr rfl, fun X hX => ?_, fun r hr' X hX => ?_, fun hdσ Y hY => ?_, fun hdσ Y hY => ?_⟩
    · have := htwo X hX
      rw [hwn]
      simpa using this
    · obtain ⟨o1, o2⟩ := hon r hr' X hX
      refine ⟨o1, ?_⟩
      rw [hwn, o2]
      rcases lt_or_gt_of_ne hd with h | h
      · rw [if_neg (by linarith), if_pos (by push_cast; linarith)]; norm_num
      · rw [if_pos h, if_neg (by push_cast; linarith)]
    · have hneg : ¬ 0 < d := by push_cast at hdσ; linarith
      simp only [hneg, if_false] at f2
      rw [hsum, hwn]
      have := f2 (by norm_num)
      exact hcond Y _ _ _ (by rw [if_neg hneg]; norm_num) (by rw [if_neg hneg, ← this]; norm_num) this hY
    · have hpos : 0 < d := by push_cast at hdσ; linarith
      simp only [hpos, if_true] at f1
      rw [hsum, hwn]
      have := f1 trivial
      exact hcond Y _ _ _ (by rw [if_pos hpos]) (by rw [if_pos hpos]; exact this) (by omega) hY
  · refine ⟨1, Or.inl rfl, fun X hX => ?_, fun r hr' X hX => ?_, fun hdσ Y hY => ?_, fun hdσ Y hY => ?_⟩
    · have := htwo X hX
      rw [hwn]
      simpa [or_comm] using this
    · obtain ⟨o1, o2⟩ := hon r hr' X hX
      refine ⟨o1, ?_⟩
      rw [hwn, o2]
      rcases lt_or_gt_of_ne hd with h | h
      · rw [if_neg (by linarith), if_neg (by push_cast; linarith)]; norm_num
      · rw [if_pos h, if_pos (by push_cast; linarith)]
    · have hpos : 0 < d := by push_cast at hdσ; linarith
      simp only [hpos, if_true] at f2
      rw [hsum, hwn]
      have := f2 (by norm_num)
      exact hcond Y _ _ _ (by rw [if_pos hpos]) (by rw [if_pos hpos, ← this]; norm_num) this hY
    · have hneg : ¬ 0 < d := by push_cast at hdσ; linarith
      simp only [hneg, if_false] at f1
      rw [hsum, hwn]
      have := f1 (by norm_num)
      exact hcond Y _ _ _ (by rw [if_neg hneg]; norm_num) (by rw [if_neg hneg]; exact this) (by omega) hY

/-- **C63** An offset to the inside has no results if and only if no point inside the polyline is that far away from it; an offset to the outside always
has results. -/
theorem C63_offset_empty (env : Env ℝ) (henv : env.Lawful) (p : Pline ℝ) (d : ℝ) (opts : OffsetOptions ℝ)
    (hidx : ∀ idx, opts.aabbIndex = some idx → idx.Serves p) (hself : opts.handleSelfIntersects = false)
    (hp : StraightLoop p) (hs : SimpleLoop p) (hd : d ≠ 0) (he : 0 < opts.posEqualEps) (hc : ∀ k, ClearTurn p d opts.posEqualEps k)
    (hf : FullLoop (rawLoop p d) opts.posEqualEps) (h0 : (sidePt p d 0 0).fuzzyEqEps (vtx (rawLoop p d) 1).pos opts.posEqualEps = false)
    (gap : ℝ) (E : List (Cut × Cut)) (hE : SelfCrossing (rawLoop p d) opts.posEqualEps gap E) (hF : FindsSelf (rawLoop p d) opts.posEqualEps)
    (ht : 0 < opts.offsetDistEps) (hD : opts.offsetDistEps ≤ |d|)
    (hT : ClearTests p (rawLoop p d) d opts.posEqualEps opts.offsetDistEps E)
    (hg : opts.posEqualEps ≤ gap) (hj0 : 0 < opts.sliceJoinEps) (hj : 2 * opts.sliceJoinEps ≤ gap) :
    ∃ rs, parallelOffset env p d opts = .ok rs ∧ ∃ σ : ℤ, (σ = 1 ∨ σ = -1) ∧
      (∀ X, ¬ OnPline p X → p.windingNumber X = 0 ∨ p.windingNumber X = σ) ∧
      (0 < d * σ → (rs = [] ↔ ∀ Y, p.windingNumber Y = σ → ¬ Keeps p |d| Y)) ∧ (d * σ < 0 → rs ≠ []) := by
  obtain ⟨rs, hrs, σ, hσ, hp2, hon, hin, hout⟩ := C63_offset_region env henv p d opts hidx hself hp hs hd he hc hf h0 gap E hE hF ht hD hT hg hj0 hj
  obtain ⟨rs', hrs', hcl⟩ := C61_offset_closed env henv p d opts hidx hself hp hd he hc hf h0 gap E hE hF (one_sided p hp hs hd) ht hD hT hg hj0 hj
  obtain ⟨rs'', hrs'', hcurve⟩ := C60_offset_curve env henv p d opts hidx hself hp hd he hc hf h0 gap E hE hF (one_sided p hp hs hd) ht hD hT hg hj0.le hj
  rw [hrs] at hrs' hrs''
  injection hrs' with hrs'
  injection hrs'' with hrs''
  subst hrs'
  subst hrs''
  have hσ0 : σ ≠ 0 := by rcases hσ with rfl | rfl <;> norm_num
  refine ⟨rs, hrs, σ, hσ, hp2, fun hpos => ⟨fun hnil Y hY hk => ?_, fun hno => ?_⟩, fun hneg hnil => ?_⟩
  · have := hin hpos Y (by rw [hnil]; simp)
    rw [hnil, if_pos ⟨hY, hk⟩] at this
    exact hσ0 (by simpa using this.symm)
  · by_contra hne
    obtain ⟨r, hr⟩ := List.exists_mem_of_ne_nil rs hne
    obtain ⟨c1, c2, -⟩ := hcl r hr
    obtain ⟨s, hs'⟩ : ∃ s, s ∈ r.segs := by
      rw [segs_range c1 c2]
      exact ⟨_, List.mem_map.mpr ⟨0, List.mem_range.mpr (by omega), rfl⟩⟩
    have hX : OnPline r (segCurve s.1 s.2 0) := ⟨s, hs', 0, le_rfl, zero_le_one, rfl⟩
    obtain ⟨-, hw⟩ := hon r hr _ hX
    rw [if_pos hpos] at hw
    exact hno _ hw ((hcurve _).mp ⟨r, hr, hX⟩).keeps
  · -- near the polyline
    obtain ⟨z, hz⟩ := trace_nonempty (straight_loop hp)
    have := hout hneg ⟨z.1, z.2⟩ (by rw [hnil]; simp)
    rw [hnil, if_neg (fun h => keeps_off (abs_pos.mpr hd) h.2 hz)] at this
    exact hσ0 (by simpa using this.symm)

open Classical in
/-- The hypotheses are met by the square with the chamfer, offset to the inside: the raw offset crosses itself and a part of it is dropped. -/
example : ∃ rs, parallelOffset (Env.plain : Env ℝ) chamfer 9 ⟨none, false, 1 / 100000, 1 / 10000, 1 / 10000⟩ = .ok rs ∧ ∃ σ : ℤ, (σ = 1 ∨ σ = -1) ∧
      (∀ X, ¬ OnPline chamfer X → chamfer.windingNumber X = 0 ∨ chamfer.windingNumber X = σ) ∧
      (∀ r ∈ rs, ∀ X, OnPline r X → ¬ OnPline chamfer X ∧ chamfer.windingNumber X = if 0 < (9 : ℝ) * σ then σ else 0) ∧
      (0 < (9 : ℝ) * σ → ∀ Y, (∀ r ∈ rs, ¬ OnPline r Y) →
        (rs.map fun r => r.windingNumber Y).sum = if chamfer.windingNumber Y = σ ∧ Keeps chamfer |9| Y then σ else 0) ∧
      ((9 : ℝ) * σ < 0 → ∀ Y, (∀ r ∈ rs, ¬ OnPline r Y) →
        (rs.map fun r => r.windingNumber Y).sum = if chamfer.windingNumber Y = 0 ∧ Keeps chamfer |9| Y then 0 else σ) :=
  C63_offset_region _ Env.plain_lawful chamfer 9 ⟨none, false, 1 / 100000, 1 / 10000, 1 / 10000⟩ (by simp) rfl chamfer_straight chamfer_simple (by norm_num)
    (by norm_num) chamfer_clear chamfer_raw_full chamfer_first 1 chamferCross chamfer_crossing chamfer_finds (by norm_num)
    (by norm_num [abs_of_pos]) chamfer_tests (by norm_num) (by norm_num) (by norm_num)

open Classical in
/-- They are met by a square that is offset to the outside, where the result has arcs. -/
example : ∃ rs, parallelOffset (Env.plain : Env ℝ) box4 (-1) ⟨none, false, 1 / 100000, 1 / 10000, 1 / 10000⟩ = .ok rs ∧ ∃ σ : ℤ, (σ = 1 ∨ σ = -1) ∧
      (∀ X, ¬ OnPline box4 X → box4.windingNumber X = 0 ∨ box4.windingNumber X = σ) ∧
      (∀ r ∈ rs, ∀ X, OnPline r X → ¬ OnPline box4 X ∧ box4.windingNumber X = if 0 < (-1 : ℝ) * σ then σ else 0) ∧
      (0 < (-1 : ℝ) * σ → ∀ Y, (∀ r ∈ rs, ¬ OnPline r Y) →
        (rs.map fun r => r.windingNumber Y).sum = if box4.windingNumber Y = σ ∧ Keeps box4 |-1| Y then σ else 0) ∧
      ((-1 : ℝ) * σ < 0 → ∀ Y, (∀ r ∈ rs, ¬ OnPline r Y) →
        (rs.map fun r => r.windingNumber Y).sum = if box4.windingNumber Y = 0 ∧ Keeps box4 |-1| Y then 0 else σ) :=
  C63_offset_region _ Env.plain_lawful box4 (-1) ⟨none, false, 1 / 100000, 1 / 10000, 1 / 10000⟩ (by simp) rfl box4_straight box4_simple (by norm_num)
    (by norm_num) box4_clear box4_raw_full box4_first 1 [] box4_crossing box4_finds (by norm_num)
    (by norm_num [abs_of_pos]) box4_tests (by norm_num) (by norm_num) (by norm_num)

/-- The corollary for the same square. -/
example : ∃ rs, parallelOffset (Env.plain : Env ℝ) box4 (-1) ⟨none, false, 1 / 100000, 1 / 10000, 1 / 10000⟩ = .ok rs ∧ ∃ σ : ℤ, (σ = 1 ∨ σ = -1) ∧
      (∀ X, ¬ OnPline box4 X → box4.windingNumber X = 0 ∨ box4.windingNumber X = σ) ∧
      (0 < (-1 : ℝ) * σ → (rs = [] ↔ ∀ Y, box4.windingNumber Y = σ → ¬ Keeps box4 |-1| Y)) ∧ ((-1 : ℝ) * σ < 0 → rs ≠ []) :=
  C63_offset_empty _ Env.plain_lawful box4 (-1) ⟨none, false, 1 / 100000, 1 / 10000, 1 / 10000⟩ (by simp) rfl box4_straight box4_simple (by norm_num)
    (by norm_num) box4_clear box4_raw_full box4_first 1 [] box4_crossing box4_finds (by norm_num)
    (by norm_num [abs_of_pos]) box4_tests (by norm_num) (by norm_num) (by norm_num)

end Cavc
