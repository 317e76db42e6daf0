import Verif.Props.OffsetSame
import Verif.Props.OffsetBack

/-! # C83: a shape of one polyline is offset like the polyline -/

set_option linter.unusedVariables false

namespace Cavc
open Pline RealScalar

/-- the shape of one simple closed polyline is sound -/
theorem from_one (env : Env ℝ) (henv : env.Lawful) {p : Pline ℝ} (hl : Loop p) (hs : SimpleLoop p) :
    ∃ s, Shape.fromPlines env [p] = .ok s ∧ s.loops.map IndexedPline.pline = [p] ∧ SoundShape s (if turnOf p.orientation = 1 then 0 else -1) := by
  obtain ⟨s, e, hw, h1, h2⟩ := C45_from_plines env henv [p]
  have htl := simple_turns hl hs
  have hn : decide (2 ≤ p.verts.length) = true := decide_eq_true hl.two
  have ho : p.orientation = if Scalar.lt p.area 0 then .clockwise else .counterClockwise := by
    unfold Pline.orientation
    rw [hl.closed]
    cases Scalar.lt p.area 0 <;> rfl
  have hloops : s.loops.map IndexedPline.pline = [p] := by
    unfold Shape.loops
    rw [List.map_append, h1, h2]
    simp only [List.filter, hn, hl.closed, Bool.true_and]
    cases Scalar.lt p.area 0 <;> rfl
  obtain ⟨ip, hip, hp⟩ := List.map_eq_singleton_iff.mp hloops
  have one : ∀ {P : IndexedPline ℝ → Prop}, P ip → ∀ jp ∈ s.loops, P jp := by
    intro P hP jp hjp
    rw [hip, List.mem_singleton] at hjp
    exact hjp ▸ hP
  refine ⟨s, e, hloops, fun jp hjp => (hw.ready jp hjp).serves, one (by rw [hp]; exact hl), one (by rw [hp]; exact hs), ?_, ?_, ?_, ?_⟩
  · intro i j a b hi hj hne
    rw [hip] at hi hj
    rcases i with _ | i <;> rcases j with _ | j <;> simp at hi hj hne
  · intro X hX
    have hsum : s.windingNumber X = p.windingNumber X := by
      unfold Shape.windingNumber
      rw [hip]
      simp [hp]
    have hoff := hX ip (by rw [hip]; simp)
    rw [hp] at hoff
    rw [hsum]
    rcases htl.1 with t | t <;> rcases htl.2 X hoff with w | w <;> simp only [t] at w ⊢ <;> rw [w] <;> norm_num
  · intro jp hjp
    have hm : jp.pline ∈ s.ccw.map IndexedPline.pline := List.mem_map.mpr ⟨jp, hjp, rfl⟩
    rw [h1, List.mem_filter] at hm
    obtain ⟨hm, hf⟩ := hm
    rw [List.mem_singleton] at hm
    rw [hm] at hf ⊢
    rw [ho]
    cases hlt : Scalar.lt p.area 0
    · rfl
    · rw [hlt] at hf; simp at hf
  · intro jp hjp
    have hm : jp.pline ∈ s.cw.map IndexedPline.pline := List.mem_map.mpr ⟨jp, hjp, rfl⟩
    rw [h2, List.mem_filter] at hm
    obtain ⟨hm, hf⟩ := hm
    rw [List.mem_singleton] at hm
    rw [hm] at hf ⊢
    rw [ho]
    cases hlt : Scalar.lt p.area 0
    · rw [hlt, hl.closed] at hf; simp at hf
    · rfl

/-- **C83** The offset of the shape made of one closed polyline is the offset of the polyline: both consist of the same points, wind equally often around every point off them, and their areas add up to the same. -/
theorem C83_shape_of_one (env : Env ℝ) (henv : env.Lawful) (p : Pline ℝ) (hs : SimpleLoop p) (d : ℝ) (o : OffsetOptions ℝ) (oS : ShapeOffsetOptions ℝ)
    (hidx : ∀ idx, o.aabbIndex = some idx → idx.Serves p) (hself : o.handleSelfIntersects = false) (he : 0 < o.posEqualEps) (ht : 0 < o.offsetDistEps) (hD : o.offsetDistEps ≤ |d|) (hj0 : 0 < o.sliceJoinEps)
    (he' : 0 < oS.posEqualEps) (ht' : 0 < oS.offsetDistEps) (hD' : oS.offsetDistEps ≤ |d|) (hj0' : 0 < oS.sliceJoinEps)
    (hc : ClearlyOffset p d o.posEqualEps o.sliceJoinEps o.offsetDistEps) (hc' : ∀ s, Shape.fromPlines env [p] = .ok s → ClearShape env s d oS) :
    ∃ s s' rs, Shape.fromPlines env [p] = .ok s ∧ s.parallelOffset env d oS = .ok s' ∧ parallelOffset env p d o = .ok rs ∧
      (∀ X, (∃ ip ∈ s'.loops, OnPline ip.pline X) ↔ ∃ r ∈ rs, OnPline r X) ∧
      (∀ Y, (∀ r ∈ rs, ¬ OnPline r Y) → s'.windingNumber Y = (rs.map fun r => r.windingNumber Y).sum) ∧
      (s'.loops.map fun ip => ip.pline.area).sum = (rs.map Pline.area).sum := by
  obtain ⟨rs, e, hl, htl, x⟩ := single_exact_side env henv p d o hidx hself he ht hD hj0 hs hc
  obtain ⟨s, es, hloops, hsound⟩ := from_one env henv (x.inputs p (by simp)) hs
  obtain ⟨s', e', k', x'⟩ := sound_exact env henv s d oS he' ht' hD' hj0' _ hsound (hc' s es)
  have hd : d ≠ 0 := by intro h; rw [h, abs_zero] at hD; linarith
  rw [hloops] at x'
  have x'' : ExactAt [p] (s'.loops.map IndexedPline.pline) |d| (if 0 < d * turnOf p.orientation then turnOf p.orientation else 0) (if 0 < d * turnOf p.orientation then 0 else turnOf p.orientation) := by
    rcases htl.1 with t | t <;> rw [t] at x' ⊢
    · by_cases h : 0 < d
      · simpa [h] using x'
      · simpa [h] using x'
    · by_cases h : 0 < d
      · have : ¬ d < 0 := by linarith
        simpa [h, this] using x'
      · have : d < 0 := lt_of_le_of_ne (not_lt.mp h) hd
        simpa [h, this] using x'
  obtain ⟨p1, p2⟩ := x''.same x
  have w : ∀ Y, (∀ r ∈ rs, ¬ OnPline r Y) → s'.windingNumber Y = (rs.map fun r => r.windingNumber Y).sum := fun Y hY => by
    rw [shape_sum]
    exact p2 Y hY
  refine ⟨s, s', rs, es, e', e, fun X => by simpa using p1 X, w, ?_⟩
  rw [(shape_area_integral s' k'.loop).2, list_area_integral _ hl]
  refine MeasureTheory.integral_congr_ae ?_
  filter_upwards [trace_ae rs] with z hz
  rw [w _ hz]
  rfl

/-- The hypotheses of C83_shape_of_one hold for triangles of any size. -/
theorem wedge_of_one (env : Env ℝ) (henv : env.Lawful) {k d : ℝ} (hd : 1 ≤ d) (hk : d + 1 ≤ k) :
    ∃ s s' rs, Shape.fromPlines env [wedge k] = .ok s ∧ s.parallelOffset env (-d) isletOpts = .ok s' ∧ parallelOffset env (wedge k) (-d) ⟨none, false, 1 / 100000, 1 / 10000, 1 / 10000⟩ = .ok rs ∧
      (s'.loops.map fun ip => ip.pline.area).sum = (rs.map Pline.area).sum := by
  have habs : |-d| = d := by rw [abs_neg, abs_of_pos (by linarith)]
  obtain ⟨s, s', rs, a, b, c, -, -, e⟩ := C83_shape_of_one env henv (wedge k) (wedge_simple (by linarith)) (-d) ⟨none, false, 1 / 100000, 1 / 10000, 1 / 10000⟩ isletOpts (by simp) rfl (by norm_num) (by norm_num)
    (by rw [habs]; norm_num; linarith) (by norm_num) (by norm_num [isletOpts]) (by norm_num [isletOpts]) (by rw [habs]; norm_num [isletOpts]; linarith) (by norm_num [isletOpts]) (wedge_clearly hd hk)
    (fun s hs => by
      obtain ⟨t, ip, ht, hw⟩ := wedge_shape env henv (k := k) (by linarith)
      rw [ht] at hs
      rw [← Except.ok.inj hs]
      exact wedge_clearShape hd hk env henv hw)
  exact ⟨s, s', rs, a, b, c, e⟩

theorem gib_area (k : ℝ) : (gib k).area = 6 * k ^ 2 := by
  obtain ⟨w0, w1, w2, w3, w4⟩ := gib_vtx k
  have hlen : (gib k).verts.length = 3 := rfl
  rw [area_eq, if_pos (show (gib k).closed = true from rfl), segs_range rfl (by rw [hlen]; norm_num)]
  rw [hlen]
  simp only [List.range, List.range.loop, List.map_cons, List.map_nil, List.sum_cons, List.sum_nil, areaTerm, Nat.reduceAdd, w0, w1, w2, w3, bulgeIsZero_true (box4_line _ _), if_true]
  ring

theorem gib_offset {k d : ℝ} (hd : 1 ≤ d) (hk : d + 1 ≤ k) (env : Env ℝ) (henv : env.Lawful) (idx : Index ℝ) (hidx : idx.Serves (gib k)) :
    parallelOffset env (gib k) d ⟨some idx, false, 1 / 100000, 1 / 10000, 1 / 10000⟩ = .ok [gib (k - d)] := by
  have hr : createRawOffsetPolyline (gib k) d (1 / 100000) = .ok (gib (k - d)) := by
    rw [← gib_raw hd hk]
    exact C42_raw_straight (gib_straight hd hk) (by linarith) (by norm_num) (gib_clear hd hk) (by rw [gib_raw hd hk]; exact gib_full (by linarith)) (gib_first hd hk)
  refine offset_whole env henv (gib k) d ⟨some idx, false, 1 / 100000, 1 / 10000, 1 / 10000⟩ (by intro i hi; rw [← Option.some.inj hi]; exact hidx) rfl (by norm_num) rfl (by show 2 ≤ 3; decide) (gib (k - d)) hr
    (gib_full (by linarith)) 1 (gib_crossing (by linarith)) (gib_finds (by linarith)) ?_ (by norm_num)
  have habs : |d| = d := abs_of_pos (by linarith)
  refine keeps_clear_segs (fun s hs => Or.inl (gib_lines k s hs)) (by norm_num) (by norm_num) (by rw [habs]; norm_num; linarith) (lines_readable (gib_lines k) _ _) ?_
  rw [habs, (gib_vtx (k - d)).1]
  exact gib_keeps hd (by dsimp only [Vertex.pos]; linarith) (by dsimp only [Vertex.pos]; linarith) (by dsimp only [Vertex.pos]; linarith)

/-- The hypotheses of C83_shape_of_one also hold for triangles of any size in the opposite direction. -/
theorem gib_of_one (env : Env ℝ) (henv : env.Lawful) {k d : ℝ} (hd : 1 ≤ d) (hk : d + 1 ≤ k) :
    ∃ s s' rs, Shape.fromPlines env [gib k] = .ok s ∧ s.parallelOffset env d isletOpts = .ok s' ∧ parallelOffset env (gib k) d ⟨none, false, 1 / 100000, 1 / 10000, 1 / 10000⟩ = .ok rs ∧
      (s'.loops.map fun ip => ip.pline.area).sum = (rs.map Pline.area).sum := by
  have habs : |d| = d := abs_of_pos (by linarith)
  have h0 : 0 < (gib k).area := by rw [gib_area]; nlinarith
  have h1 : 0 < (gib (k - d)).area := by rw [gib_area]; nlinarith
  obtain ⟨s, s', rs, a, b, c, -, -, e⟩ := C83_shape_of_one env henv (gib k) (gib_simple (by linarith)) d ⟨none, false, 1 / 100000, 1 / 10000, 1 / 10000⟩ isletOpts (by simp) rfl (by norm_num) (by norm_num)
    (by rw [habs]; norm_num; linarith) (by norm_num) (by norm_num [isletOpts]) (by norm_num [isletOpts]) (by rw [habs]; norm_num [isletOpts]; linarith) (by norm_num [isletOpts]) (gib_clearly hd hk)
    (fun s hs => by
      obtain ⟨t, ip, ht, hw⟩ := one_exists env henv h0 rfl (by show 2 ≤ 3; decide)
      rw [ht] at hs
      rw [← Except.ok.inj hs]
      exact one_clear h1 (by show 2 ≤ 3; decide) rfl (fun env henv => gib_offset hd hk env henv) (gib_clearly hd hk) env henv hw)
  exact ⟨s, s', rs, a, b, c, e⟩

end Cavc
