import Verif.Spec.ShapeSingle
import Verif.Props.OffsetSelfRegion
import Verif.Lemmas.IsletRegion

/-! # The single offsets of island and bay are clear of the tolerances -/

set_option linter.unusedVariables false

namespace Cavc
open RealScalar Pline

theorem bay_full : FullLoop bay (1 / 100000) := by
  obtain ⟨v0, v1, v2, v3, v4⟩ := bay_vtx
  refine ⟨rfl, by decide, fun i => ?_⟩
  rw [← vtx_mod, ← vtx_mod_succ]
  refine lt_three (P := fun k => FullSeg (vtx bay k) (vtx bay (k + 1)) (1 / 100000)) ?_ ?_ ?_ i <;> simp only [Nat.reduceAdd, v0, v1, v2, v3] <;>
  · refine ⟨Or.inl (box4_line _ _), ?_⟩
    apply FarApart.fuzzy
    unfold FarApart
    norm_num [Vertex.pos, abs_of_pos, abs_of_neg]

theorem bay_clearOffset : ClearOffset bay (-1) (straightCorner bay (-1)) (1 / 100000) := by
  obtain ⟨l0, l1, l2, l3⟩ := bay_len
  obtain ⟨s0, s1, s2⟩ := bay_setback
  refine straight_clear bay_straight bay_full (by norm_num) bay_clear (fun k => ?_) (by rw [bay_raw]; exact bayIn_full) bay_first
  have hlen : ∀ k, sideLen bay k = sideLen bay (k % 3) := by
    intro k
    have h : k % 3 % bay.verts.length = k % bay.verts.length := Nat.mod_mod _ _
    unfold sideLen
    rw [cornerPos_congr h 1, ← cornerPos_mod bay k, ← cornerPos_mod bay (k % 3), h]
  have hset : ∀ k, setbackAt bay (-1) k = setbackAt bay (-1) (k % 3) := by
    intro k
    have h : k % 3 % bay.verts.length = k % bay.verts.length := Nat.mod_mod _ _
    unfold setbackAt
    rw [cornerPos_congr h 1, cornerPos_congr h 2, ← cornerPos_mod bay k, ← cornerPos_mod bay (k % 3), h]
  unfold sideStart sideEnd
  rw [if_pos (bay_mitred _), if_pos (bay_mitred _), hlen k, hset k, hset (k + bay.verts.length - 1)]
  have e : (k + bay.verts.length - 1) % 3 = (k % 3 + 2) % 3 := by
    have : bay.verts.length = 3 := rfl
    omega
  rw [e]
  refine lt_three (P := fun k => setbackAt bay (-1) ((k + 2) % 3) / sideLen bay k < 1 - setbackAt bay (-1) k / sideLen bay k) ?_ ?_ ?_ k <;>
    norm_num [s0, s1, s2, l0, l1, l2]

/-- points of the offset of the bay keep the distance -/
theorem bayIn_stays {i : Nat} (hi : i < 3) {t : ℝ} (t0 : 0 ≤ t) (t1 : t ≤ 1) : Keeps bay 1 (curveAt bayIn i t) := by
  obtain ⟨c0, c1, c2⟩ := bayIn_curve t
  interval_cases i
  · rw [c0]; exact bay_keeps (by simp) (by dsimp only; linarith) (by dsimp only; linarith)
  · rw [c1]; exact bay_keeps (by dsimp only; linarith) (by dsimp only; linarith) (by dsimp only; linarith)
  · rw [c2]; exact bay_keeps (by dsimp only; linarith) (by simp) (by dsimp only; linarith)

theorem bay_tests : ClearTests bay bayIn (-1) (1 / 100000) (1 / 10000) [] := by
  have hn : 0 < bayIn.verts.length := by decide
  have habs : |(-1 : ℝ)| = 1 := by norm_num
  obtain ⟨v0, v1, v2, v3, v4⟩ := bayIn_vtx
  obtain ⟨w0, w1, w2, w3, w4⟩ := bay_vtx
  refine ⟨fun _ => Or.inl (by rw [habs]; exact bayIn_stays (by norm_num) le_rfl zero_le_one), by simp [bothCuts], ?_⟩
  intro i lo hi x y hst hk hfull hcv
  have hi3 : i < 3 := hst.range
  obtain rfl : lo = 0 := by rcases hst.start with h | h; exact h; simp [bothCuts] at h
  obtain rfl : hi = 1 := by rcases hst.stop with h | h; exact h; simp [bothCuts] at h
  have hcv' : ∀ s, segCurve x y s = segCurve (vtx bayIn i) (vtx bayIn (i + 1)) s := by
    intro s
    rw [hcv s, ← curveAt_vtx hn]; congr 1; ring
  have hx : x.pos = (vtx bayIn i).pos := by
    have := hcv' 0
    rwa [(segCurve_ends _ _).1, (segCurve_ends _ _).1] at this
  have hy : y.pos = (vtx bayIn (i + 1)).pos := by
    have := hcv' 1
    rwa [(segCurve_ends _ _).2, (segCurve_ends _ _).2] at this
  have hne : x.pos ≠ y.pos := fuzzy_ne (by norm_num) hfull.apart
  have hl : IsLine (vtx bayIn i) := by interval_cases i <;> simp only [v0, v1, v2] <;> exact box4_line _ _
  have hxl : IsLine x := by
    apply line_of_middle hne
    rw [hcv', segCurve_line hl, hx, hy]
  intro s hs _
  obtain ⟨k, hk3, rfl⟩ := bay_seg hs
  have hfar : ∀ a b, OnSeg x y a → OnSeg (vtx bay k) (vtx bay (k + 1)) b → 1 ≤ edist a b := by
    rintro a b ⟨t, t0, t1, rfl⟩ hb
    rw [hcv', ← curveAt_vtx hn]
    exact bayIn_stays hi3 t0 t1 b ⟨_, hs, hb⟩
  refine no_intersect (by norm_num) (.lines hxl (bay_straight.line k) (Or.inr ⟨?_, fun a b ha hb => lt_of_lt_of_le (by norm_num) (hfar a b ha hb)⟩)) fun q h1 h2 => ?_
  · simp only
    rw [hx, hy]
    unfold LinesResolved
    interval_cases i <;> interval_cases k <;> simp only [Nat.reduceAdd, v0, v1, v2, v3, w0, w1, w2, w3] <;> unfold dirCross Apart Vertex.pos <;> norm_num [abs_of_pos, abs_of_neg, edist]
  · have := hfar q q h1 h2
    rw [edist_self] at this
    linarith

theorem bay_clearly : ClearlyOffset bay (-1) (1 / 100000) (1 / 10000) (1 / 10000) := by
  have e : rawWith bay (-1) (straightCorner bay (-1)) = bayIn := by rw [straight_raw bay_straight, bay_raw]
  have h := bay_clearOffset
  refine ⟨straightCorner bay (-1), 1, [], h, straight_clean bay_straight (by norm_num) (by norm_num) h.corners, straight_free bay_straight (by norm_num) (by norm_num) h.corners,
    by rw [e]; exact bayIn_crossing, by simp [CrossAtAngle], by rw [e]; exact bayIn_finds, by rw [e]; exact bay_tests,
    fun i lo hi _ => ⟨lines_readable bay_lines _ _, lines_readable bay_lines _ _, lines_readable bay_lines _ _⟩, by norm_num, by norm_num⟩

theorem box4_clearly : ClearlyOffset box4 (-1) (1 / 100000) (1 / 10000) (1 / 10000) := by
  have e : rawWith box4 (-1) (straightCorner box4 (-1)) = rawLoop box4 (-1) := straight_raw box4_straight
  have h := b4_both.1
  refine ⟨straightCorner box4 (-1), 1, [], h, straight_clean box4_straight (by norm_num) (by norm_num) h.corners, straight_free box4_straight (by norm_num) (by norm_num) h.corners,
    by rw [e]; exact box4_crossing, by simp [CrossAtAngle], by rw [e]; exact box4_finds, by rw [e]; exact box4_tests,
    fun i lo hi _ => ⟨lines_readable box4_lines _ _, lines_readable box4_lines _ _, lines_readable box4_lines _ _⟩, by norm_num, by norm_num⟩

end Cavc
