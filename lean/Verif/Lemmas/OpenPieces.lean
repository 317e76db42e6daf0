import Verif.Spec.OffsetOpen
import Verif.Lemmas.OffsetResult

/-! # Slices of an open polyline -/

set_option linter.unusedVariables false

namespace Cavc
open Real RealScalar Pline

theorem line_bulge_curve {v w a : Vertex ℝ} (hv : IsLine v) (ha : IsLine a) (hp : a.pos = v.pos) (s : ℝ) : segCurve a w s = segCurve v w s := by
  rw [segCurve_line ha, segCurve_line hv, hp]

theorem fuzzy_self {eps : ℝ} (he : 0 < eps) (a : V2 ℝ) : a.fuzzyEqEps a eps = true := fuzzy_refl _ he

/-- Dividing a segment at its start leaves all of it. -/
theorem base_zero {v w : Vertex ℝ} {eps : ℝ} (he : 0 < eps) (h : FullSeg v w eps) :
    Base v w eps 0 (segSplitAtPoint v w (segCurve v w 0) eps).splitVertex := by
  have h0 : segCurve v w 0 = v.pos := (segCurve_ends v w).1
  rw [h0]
  by_cases hl : IsLine v
  · have e : (segSplitAtPoint v w v.pos eps).splitVertex = ⟨v.pos.x, v.pos.y, 0⟩ := by
      unfold segSplitAtPoint; rw [bulgeIsZero_true hl]; simp
    have hl0 : IsLine (⟨v.pos.x, v.pos.y, 0⟩ : Vertex ℝ) := by unfold IsLine; norm_num
    rw [e]
    refine ⟨by rw [h0]; rfl, ⟨Or.inl hl0, h.apart⟩, fun _ => hl0, fun hn => absurd hl hn, fun s => ?_⟩
    rw [line_bulge_curve hl hl0 rfl]
    congr 1; ring
  · have e : (segSplitAtPoint v w v.pos eps).splitVertex = ⟨v.pos.x, v.pos.y, v.bulge⟩ := by
      unfold segSplitAtPoint; rw [bulgeIsZero_false hl, fuzzy_self he]; simp
    rw [e]
    refine ⟨by rw [h0]; rfl, full_congr h rfl rfl rfl, fun h => absurd h hl, fun _ => ⟨hl, by ring⟩, fun s => ?_⟩
    rw [segCurve_congr (a' := v) (b' := w) rfl rfl rfl]
    congr 1; ring

/-- A start of a slice on a segment: the start of the segment or inside. -/
theorem from_base {v w : Vertex ℝ} {eps t : ℝ} (he : 0 < eps) (h : FullSeg v w eps) (ht : t = 0 ∨ InnerCut v w eps t) :
    Base v w eps t (segSplitAtPoint v w (segCurve v w t) eps).splitVertex := by
  rcases ht with rfl | ht
  · exact base_zero he h
  · exact ht.base he h

theorem split_at_end {b w : Vertex ℝ} {eps : ℝ} (he : 0 < eps) (h : FullSeg b w eps) : (segSplitAtPoint b w w.pos eps).updatedStart = b := by
  unfold segSplitAtPoint
  rw [h.apart, fuzzy_self he]
  by_cases hl : IsLine b
  · rw [bulgeIsZero_true hl]; simp
  · rw [bulgeIsZero_false hl]; simp

/-- The first part of a segment. -/
theorem stop_first {v w : Vertex ℝ} {eps u : ℝ} (he : 0 < eps) (h : FullSeg v w eps) (hu : u = 1 ∨ InnerCut v w eps u) (z : Vertex ℝ)
    (hz : z.pos = segCurve v w u) : PartSeg v w eps 0 u (segSplitAtPoint v w (segCurve v w u) eps).updatedStart z := by
  rcases hu with rfl | hu
  · have h1 : segCurve v w 1 = w.pos := (segCurve_ends v w).2
    rw [h1] at hz ⊢
    rw [split_at_end he h]
    refine PartSeg.congr (a := v) (z := w) ⟨h, fun s => by congr 1; ring⟩ rfl rfl hz.symm
  · exact hu.first he h z hz

/-- The next part of a segment. -/
theorem stop_step {v w b : Vertex ℝ} {eps t u : ℝ} (hb : Base v w eps t b) (he : 0 < eps) (ht : t < u) (hu : u = 1 ∨ InnerCut v w eps u)
    (hne : (segCurve v w t).fuzzyEqEps (segCurve v w u) eps = false) (hlong : u = 1 ∨ LongPart v t u) (z : Vertex ℝ) (hz : z.pos = segCurve v w u) :
    PartSeg v w eps t u (segSplitAtPoint b w (segCurve v w u) eps).updatedStart z := by
  rcases hu with rfl | hu
  · have h1 : segCurve v w 1 = w.pos := (segCurve_ends v w).2
    rw [h1] at hz ⊢
    rw [split_at_end he hb.full]
    exact hb.rest.congr rfl rfl hz.symm
  · obtain ⟨h, -⟩ := hb.step he ht hu hne (hlong.resolve_left hu.lt.ne)
    exact h.congr rfl rfl (by rw [h.stop, hz])

section
variable {R : Pline ℝ} {eps gap : ℝ}

/-- the slice from one place of an open polyline to a later one -/
theorem open_slice (he : 0 < eps) (hf : FullPath R eps) {a b : Cut} (ha : a.2 = 0 ∨ CutOk R eps a) (hb : b.2 = 1 ∨ CutOk R eps b)
    (hbi : b.1 + 1 < R.verts.length) (h : (a.1 = b.1 ∧ a.2 < b.2 ∧ (curveAt R a.1 a.2).fuzzyEqEps (curveAt R b.1 b.2) eps = false ∧ (b.2 = 1 ∨ LongPart (vtx R a.1) a.2 b.2)) ∨
      a.1 < b.1) :
    ∃ s vs, ViewData.fromSlicePoints R (curveAt R a.1 a.2) a.1 (curveAt R b.1 b.2) b.1 eps = .ok (some s) ∧
      GoodSlice R eps s (a, b) vs := by
  have hn : 0 < R.verts.length := by omega
  obtain ⟨i, t⟩ := a
  obtain ⟨j, u⟩ := b
  dsimp only at ha hb hbi h ⊢
  unfold CutOk at ha hb
  dsimp only at ha hb
  have hij : i ≤ j := by rcases h with h | h <;> omega
  have hfi := hf.full i (by omega)
  have hfj := hf.full j hbi
  have hbase := from_base he hfi ha
  have e1 := at_vtx (p := R) (i := i) (by omega)
  have e2 : R.at (R.nextWrap i) = .ok (vtx R (i + 1)) := by
    rw [nextWrap_eq R (by omega), at_vtx (Nat.mod_lt _ hn), vtx_mod]
  have f1 := at_vtx (p := R) (i := j) (by omega)
  have f2 : R.at (R.nextWrap j) = .ok (vtx R (j + 1)) := by
    rw [nextWrap_eq R (by omega), at_vtx (Nat.mod_lt _ hn), vtx_mod]
  have hcv := curveAt_vtx hn i t
  have hcu := curveAt_vtx hn j u
  have hnf : ¬ (vtx R (i + 1)).pos.fuzzyEqEps (curveAt R i t) eps = true := by
    rw [hcv, fuzzy_comm]
    rcases ha with rfl | ha
    · rw [(segCurve_ends _ _).1]; simp [hfi.apart]
    · simp [ha.stop]
  have hfd : R.fwdDist i j = j - i := by
    unfold fwdDist vertexCount
    rw [if_pos hij]
  unfold ViewData.fromSlicePoints
  simp only [bind, Except.bind, hfd, hf.open, Bool.and_false, Bool.false_and, Bool.false_eq_true, if_false, e1, e2, if_neg hnf, ite_self]
  rcases h with ⟨rfl, htu, hne, hlong⟩ | hij'
  · rw [hcv, hcu] at hne
    have hpart := stop_step hbase he htu hb hne hlong ⟨(curveAt R i u).x, (curveAt R i u).y, 0⟩ (by rw [hcu]; rfl)
    rw [← hcv, ← hcu] at hpart
    have hap := hpart.full.apart
    have hst' := hpart.start
    simp only [Nat.sub_self, if_true]
    set r := (segSplitAtPoint (segSplitAtPoint (vtx R i) (vtx R (i + 1)) (curveAt R i t) eps).splitVertex (vtx R (i + 1)) (curveAt R i u) eps).updatedStart with hr
    have hap' : (r.pos.fuzzyEqEps (curveAt R i u) eps) = false := hap
    obtain ⟨vs, h1, h2⟩ := view_along_path hn ⟨i, 0, r, r.bulge, curveAt R i u, false⟩ ⟨by show i < _; omega, by simp⟩ rfl t u
      (fun j h1 h2 => by simp at h2) (fun _ => hpart) (fun h => by simp at h) (fun h => by simp at h)
    unfold ViewData.createOnSingleSegment
    simp only [hap', Bool.false_eq_true, if_false]
    refine ⟨_, vs, rfl, ⟨h1, h2, ?_, rfl⟩⟩
    rw [hst', hcv]
  · have h0 : ¬ (j - i = 0) := by omega
    have hnj : ¬ (curveAt R j u).fuzzyEqEps (vtx R j).pos eps = true := by
      rw [hcu]
      rcases hb with rfl | hb
      · rw [(segCurve_ends _ _).2, fuzzy_comm]; simp [hfj.apart]
      · simp [hb.start]
    simp only [if_neg h0]
    unfold ViewData.create
    rw [if_neg h0, f1]
    simp only [bind, Except.bind, if_neg hnj, f2]
    rw [← hcv] at hbase
    obtain ⟨vs, h1, h2⟩ := view_along_path hn
      ⟨i, j - i, (segSplitAtPoint (vtx R i) (vtx R (i + 1)) (curveAt R i t) eps).splitVertex,
        (segSplitAtPoint (vtx R j) (vtx R (j + 1)) (curveAt R j u) eps).updatedStart.bulge, curveAt R j u, false⟩
      ⟨by show i < _; omega, by show j - i ≤ _; omega⟩ rfl t u (fun k h1 h2 => hf.full _ (by dsimp only at h2 ⊢; omega))
      (fun h => by simp at h; omega) (fun _ => hbase.rest) (fun _ => by
        dsimp only
        rw [Nat.add_sub_cancel' hij]
        have hf1 := stop_first he hfj hb ⟨(curveAt R j u).x, (curveAt R j u).y, 0⟩ (by rw [← hcu]; rfl)
        rw [← hcu] at hf1
        exact hf1.congr (by rw [hf1.start, (segCurve_ends _ _).1]; rfl) rfl rfl)
    dsimp only at h2
    rw [Nat.add_sub_cancel' hij] at h2
    exact ⟨_, vs, rfl, h1, h2, by show Vertex.pos _ = _; rw [hbase.pos, hcv], rfl⟩

theorem split_pos (v w : Vertex ℝ) (q : V2 ℝ) : (segSplitAtPoint v w q eps).updatedStart.pos = v.pos ∨ (segSplitAtPoint v w q eps).updatedStart.pos = q := by
  unfold segSplitAtPoint
  split
  · exact Or.inl rfl
  split
  · exact Or.inr rfl
  split
  · exact Or.inl rfl
  · exact Or.inl rfl

/-- no slice is left from a place to the same place -/
theorem open_slice_same (he : 0 < eps) (hf : FullPath R eps) {a : Cut} (ha : a.1 + 1 < R.verts.length) (h0 : a.2 = 0 ∨ a.2 = 1 ∨ CutOk R eps a) :
    ViewData.fromSlicePoints R (curveAt R a.1 a.2) a.1 (curveAt R a.1 a.2) a.1 eps = .ok none := by
  have hn : 0 < R.verts.length := by omega
  have e1 := at_vtx (p := R) (i := a.1) (by omega)
  have e2 : R.at (R.nextWrap a.1) = .ok (vtx R (a.1 + 1)) := by
    rw [nextWrap_eq R (by omega), at_vtx (Nat.mod_lt _ hn), vtx_mod]
  have hfd : R.fwdDist a.1 a.1 = 0 := by unfold fwdDist; simp
  unfold ViewData.fromSlicePoints
  simp only [hf.open, Bool.not_false, ge_iff_le, le_refl, decide_true, Bool.and_self, if_true, bind, Except.bind, hfd, Bool.and_false, Bool.false_and,
    Bool.false_eq_true, if_false, e1, e2]
  unfold ViewData.createOnSingleSegment
  rw [if_pos]
  have hpos : (segSplitAtPoint (vtx R a.1) (vtx R (a.1 + 1)) (curveAt R a.1 a.2) eps).splitVertex.pos = curveAt R a.1 a.2 := by
    unfold segSplitAtPoint
    split
    · rfl
    split
    · rfl
    split
    · rename_i h
      rw [curveAt_vtx hn] at h ⊢
      rcases h0 with h0 | h0 | h0
      · rw [h0, (segCurve_ends _ _).1, fuzzy_comm, (hf.full a.1 ha).apart] at h; cases h
      · rw [h0, (segCurve_ends _ _).2]; rfl
      · unfold CutOk at h0
        have := h0.stop
        rw [fuzzy_comm, this] at h; cases h
    · rfl
  rcases split_pos (eps := eps) (segSplitAtPoint (vtx R a.1) (vtx R (a.1 + 1)) (curveAt R a.1 a.2) eps).splitVertex (vtx R (a.1 + 1)) (curveAt R a.1 a.2) with h | h
  · rw [h, hpos]; exact fuzzy_self he _
  · rw [h]; exact fuzzy_self he _

/-- no slice is left from the end of the last segment to the last vertex -/
theorem open_slice_last (he : 0 < eps) (hf : FullPath R eps) :
    ViewData.fromSlicePoints R (curveAt R (R.verts.length - 2) 1) (R.verts.length - 2) (curveAt R (R.verts.length - 1) 0) (R.verts.length - 1) eps = .ok none := by
  have h2 := hf.two
  have hn : 0 < R.verts.length := by omega
  have p1 : curveAt R (R.verts.length - 2) 1 = (vtx R (R.verts.length - 1)).pos := by
    rw [curveAt_vtx hn, (segCurve_ends _ _).2, show R.verts.length - 2 + 1 = R.verts.length - 1 by omega]
  have p2 : curveAt R (R.verts.length - 1) 0 = (vtx R (R.verts.length - 1)).pos := by
    rw [curveAt_vtx hn, (segCurve_ends _ _).1]
  have hw : R.nextWrap (R.verts.length - 2) = R.verts.length - 1 := by
    rw [nextWrap_eq R (by omega), show R.verts.length - 2 + 1 = R.verts.length - 1 by omega, Nat.mod_eq_of_lt (by omega)]
  have e0 := at_vtx (p := R) (i := R.verts.length - 1) (by omega)
  have e2 : R.at (R.nextWrap (R.verts.length - 1)) = .ok (vtx R (R.verts.length - 1 + 1)) := by
    rw [nextWrap_eq R (by omega), at_vtx (Nat.mod_lt _ hn), vtx_mod]
  have hfd : R.fwdDist (R.verts.length - 1) (R.verts.length - 1) = 0 := by unfold fwdDist; simp
  rw [p1, p2]
  unfold ViewData.fromSlicePoints
  have hge : decide (R.verts.length - 2 ≥ R.verts.length - 1) = false := by simp; omega
  simp only [hge, Bool.and_false, Bool.false_eq_true, if_false, hw, e0, bind, Except.bind, fuzzy_self he, if_true, hf.open, hfd, e2, Bool.false_and]
  unfold ViewData.createOnSingleSegment
  rw [if_pos]
  rcases split_pos (eps := eps) (vtx R (R.verts.length - 1)) (vtx R (R.verts.length - 1 + 1)) (vtx R (R.verts.length - 1)).pos with h | h <;>
  · rw [h]; exact fuzzy_self he _

end
end Cavc
