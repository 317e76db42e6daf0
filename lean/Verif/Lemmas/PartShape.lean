import Verif.Spec.Crossing
import Verif.Lemmas.SubPath

/-! # Shape of the parts of a divided segment -/

namespace Cavc
open Real RealScalar Pline

/-- `b` continues the segment from `v` to `w` after the fraction `t`. -/
structure Base (v w : Vertex ℝ) (eps t : ℝ) (b : Vertex ℝ) : Prop where
  pos : b.pos = segCurve v w t
  full : FullSeg b w eps
  line : IsLine v → IsLine b
  arc : ¬ IsLine v → ¬ IsLine b ∧ arctan b.bulge = (1 - t) * arctan v.bulge
  along : ∀ s, segCurve b w s = segCurve v w (t + (1 - t) * s)

/-- A part of a segment, between two fractions, as a segment of its own. -/
structure PartSeg (v w : Vertex ℝ) (eps t u : ℝ) (a z : Vertex ℝ) : Prop where
  full : FullSeg a z eps
  along : ∀ s, segCurve a z s = segCurve v w (t + (u - t) * s)

theorem PartSeg.start {v w a z : Vertex ℝ} {eps t u : ℝ} (h : PartSeg v w eps t u a z) : a.pos = segCurve v w t := by
  have := h.along 0
  rw [(segCurve_ends a z).1] at this
  rw [this]; congr 1; ring

theorem PartSeg.stop {v w a z : Vertex ℝ} {eps t u : ℝ} (h : PartSeg v w eps t u a z) : z.pos = segCurve v w u := by
  have := h.along 1
  rw [(segCurve_ends a z).2] at this
  rw [this]; congr 1; ring

theorem full_congr {a a' z z' : Vertex ℝ} {eps : ℝ} (h : FullSeg a z eps) (h1 : a.pos = a'.pos) (hb : a.bulge = a'.bulge) (h2 : z.pos = z'.pos) :
    FullSeg a' z' eps := by
  obtain ⟨hs, ha⟩ := h
  refine ⟨?_, by rw [← h1, ← h2]; exact ha⟩
  unfold IsLine at *
  rw [← hb]; exact hs

theorem PartSeg.congr {v w a z a' z' : Vertex ℝ} {eps t u : ℝ} (h : PartSeg v w eps t u a z) (h1 : a.pos = a'.pos) (hb : a.bulge = a'.bulge)
    (h2 : z.pos = z'.pos) : PartSeg v w eps t u a' z' :=
  ⟨full_congr h.full h1 hb h2, fun s => by rw [← h.along s]; exact (segCurve_congr h1 hb h2 s).symm⟩

theorem line_shape {v w : Vertex ℝ} {p : V2 ℝ} {eps : ℝ} (hl : IsLine v) : (segSplitAtPoint v w p eps).updatedStart = v ∧
    IsLine (segSplitAtPoint v w p eps).splitVertex := by
  unfold segSplitAtPoint
  rw [bulgeIsZero_true hl]
  refine ⟨by simp, ?_⟩
  unfold IsLine; norm_num

theorem first_shape (v w : Vertex ℝ) (eps : ℝ) (he : 0 < eps) (h : FullSeg v w eps) (t : ℝ) (ht0 : 0 < t) (ht1 : t < 1)
    (hv : (segCurve v w t).fuzzyEqEps v.pos eps = false) (hw : (segCurve v w t).fuzzyEqEps w.pos eps = false)
    (hlong : LongPart v 0 t) (z : Vertex ℝ) (hz : z.pos = segCurve v w t) :
    PartSeg v w eps 0 t (segSplitAtPoint v w (segCurve v w t) eps).updatedStart z := by
  obtain ⟨hp, htr⟩ := split_first v w eps he h t ht0 ht1 hv hw hlong
  refine ⟨⟨?_, ?_⟩, fun s => by rw [htr z hz]; congr 1; ring⟩
  · by_cases hl : IsLine v
    · left; rw [(line_shape hl).1]; exact hl
    · right
      have ha : ProperArc v w := (h.proper he).resolve_left hl
      have hc := C28_split_arc v w ha t eps ht0 ht1 (by simp [h.apart]) (by rw [fuzzy_comm]; simp [hv]) (by rw [fuzzy_comm]; simp [hw])
      dsimp only at hc
      obtain ⟨q1, q2, q3, q4, -⟩ := hc 0
      have e1 : arctan (segSplitAtPoint v w (segCurve v w t) eps).updatedStart.bulge = t * arctan v.bulge := by
        change 4 * arctan _ = t * (4 * arctan v.bulge) at q4
        linarith
      refine ⟨?_, arctan_part_small ha.half ht0.le ht1.le e1⟩
      unfold IsLine
      rw [← tan_arctan (segSplitAtPoint v w (segCurve v w t) eps).updatedStart.bulge, e1]
      have := hlong.resolve_left hl
      rw [sub_zero] at this
      exact not_lt.mpr this
  · rw [hp, hz, fuzzy_comm]; exact hv

theorem InnerCut.base {v w : Vertex ℝ} {eps t : ℝ} (c : InnerCut v w eps t) (he : 0 < eps) (h : FullSeg v w eps) :
    Base v w eps t (segSplitAtPoint v w (segCurve v w t) eps).splitVertex := by
  obtain ⟨a, b, c', d, e⟩ := split_second v w eps he h t c.pos c.lt c.start c.stop c.after
  exact ⟨a, b, c', d, e⟩

theorem InnerCut.first {v w : Vertex ℝ} {eps t : ℝ} (c : InnerCut v w eps t) (he : 0 < eps) (h : FullSeg v w eps) (z : Vertex ℝ)
    (hz : z.pos = segCurve v w t) : PartSeg v w eps 0 t (segSplitAtPoint v w (segCurve v w t) eps).updatedStart z :=
  first_shape v w eps he h t c.pos c.lt c.start c.stop c.before z hz

theorem Base.rest {v w b : Vertex ℝ} {eps t : ℝ} (h : Base v w eps t b) : PartSeg v w eps t 1 b w := ⟨h.full, h.along⟩

/-- Dividing what is left of a segment at a later fraction. -/
theorem Base.step {v w b : Vertex ℝ} {eps t u : ℝ} (h : Base v w eps t b) (he : 0 < eps) (ht : t < u) (c : InnerCut v w eps u)
    (hne : (segCurve v w t).fuzzyEqEps (segCurve v w u) eps = false) (hlong : LongPart v t u) :
    let r := segSplitAtPoint b w (segCurve v w u) eps
    PartSeg v w eps t u r.updatedStart r.splitVertex ∧ Base v w eps u r.splitVertex := by
  intro r
  have ht1 : t < 1 := ht.trans c.lt
  have h1t : 0 < 1 - t := by linarith
  have hx0 : 0 < (u - t) / (1 - t) := by apply div_pos <;> linarith
  have hx1 : (u - t) / (1 - t) < 1 := by rw [div_lt_one h1t]; linarith [c.lt]
  have ef : t + (1 - t) * ((u - t) / (1 - t)) = u := by field_simp; ring
  have hpt : segCurve b w ((u - t) / (1 - t)) = segCurve v w u := by rw [h.along, ef]
  have hs : (segCurve b w ((u - t) / (1 - t))).fuzzyEqEps b.pos eps = false := by rw [hpt, h.pos, fuzzy_comm]; exact hne
  have hw : (segCurve b w ((u - t) / (1 - t))).fuzzyEqEps w.pos eps = false := by rw [hpt]; exact c.stop
  have hl1 : LongPart b 0 ((u - t) / (1 - t)) := by
    by_cases hl : IsLine v
    · exact Or.inl (h.line hl)
    · refine Or.inr ?_
      rw [(h.arc hl).2]
      have := hlong.resolve_left hl
      rw [show ((u - t) / (1 - t) - 0) * ((1 - t) * arctan v.bulge) = (u - t) * arctan v.bulge by field_simp; ring]
      exact this
  have hl2 : LongPart b ((u - t) / (1 - t)) 1 := by
    by_cases hl : IsLine v
    · exact Or.inl (h.line hl)
    · refine Or.inr ?_
      rw [(h.arc hl).2]
      have := c.after.resolve_left hl
      rw [show (1 - (u - t) / (1 - t)) * ((1 - t) * arctan v.bulge) = (1 - u) * arctan v.bulge by field_simp; ring]
      exact this
  have a1 := fun z hz => first_shape b w eps he h.full _ hx0 hx1 hs hw hl1 z hz
  obtain ⟨b1, b2, b3, b4, b5⟩ := split_second b w eps he h.full _ hx0 hx1 hs hw hl2
  rw [hpt] at a1 b1 b2 b3 b4 b5
  have a1' := a1 r.splitVertex b1
  refine ⟨⟨a1'.full, fun s => ?_⟩, ⟨b1, b2, fun hl => b3 (h.line hl), fun hl => ?_, fun s => ?_⟩⟩
  · rw [a1'.along, h.along]
    congr 1
    field_simp
    ring
  · obtain ⟨q1, q2⟩ := h.arc hl
    obtain ⟨q3, q4⟩ := b4 q1
    refine ⟨q3, ?_⟩
    rw [q4, q2]
    field_simp
    ring
  · rw [b5, h.along]
    congr 1
    field_simp
    ring

end Cavc
