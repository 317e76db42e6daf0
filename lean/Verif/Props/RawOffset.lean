import Verif.Props.Segment
import Verif.Props.Offset

/-! # C42: raw offset segments -/

set_option linter.unusedSectionVars false
set_option linter.unusedVariables false

namespace Cavc
open RealScalar

/-- `q` is the point `γ t` moved by `offset` at a right angle to the left of the direction in which the
curve `γ` runs at `t`. -/
def MovedLeft (γ : ℝ → V2 ℝ) (offset t : ℝ) (q : V2 ℝ) : Prop :=
  ∃ dx dy, HasDerivAt (fun t => (γ t).x) dx t ∧ HasDerivAt (fun t => (γ t).y) dy t ∧ 0 < dx ^ 2 + dy ^ 2 ∧
    q.x = (γ t).x + offset * (-dy / Real.sqrt (dx ^ 2 + dy ^ 2)) ∧ q.y = (γ t).y + offset * (dx / Real.sqrt (dx ^ 2 + dy ^ 2))

/-- A moved point has the offset as distance. -/
theorem MovedLeft.edist {γ : ℝ → V2 ℝ} {offset t : ℝ} {q : V2 ℝ} (h : MovedLeft γ offset t q) : edist q (γ t) = |offset| := by
  obtain ⟨dx, dy, -, -, hpos, h1, h2⟩ := h
  unfold Cavc.edist
  rw [h1, h2, ← Real.sqrt_sq_eq_abs]
  congr 1
  have hs : Real.sqrt (dx ^ 2 + dy ^ 2) ^ 2 = dx ^ 2 + dy ^ 2 := Real.sq_sqrt hpos.le
  have hne : Real.sqrt (dx ^ 2 + dy ^ 2) ≠ 0 := (Real.sqrt_pos.mpr hpos).ne'
  field_simp
  rw [hs]
  ring

theorem rawLine_spec (offset : ℝ) (v1 v2 : Vertex ℝ) (hl : IsLine v1) (hne : v1.pos ≠ v2.pos) (t : ℝ) :
    MovedLeft (segCurve v1 v2) offset t (segCurve (rawLineSeg offset v1 v2).v1 (rawLineSeg offset v1 v2).v2 t) := by
  have hd := linePoint_hasDerivAt v1.pos v2.pos t
  have hpos : 0 < (v2.x - v1.x) ^ 2 + (v2.y - v1.y) ^ 2 := by
    have := edist_pos hne
    have h2 := edist_sq v1.pos v2.pos
    simp only [Vertex.pos_x, Vertex.pos_y] at h2
    nlinarith [sq_pos_of_pos this]
  refine ⟨v2.x - v1.x, v2.y - v1.y, ?_, ?_, hpos, ?_⟩
  · simp only [segCurve_line hl]; exact hd.1
  · simp only [segCurve_line hl]; exact hd.2
  · have hl' : IsLine (rawLineSeg offset v1 v2).v1 := by
      unfold IsLine rawLineSeg Vertex.ofV2
      norm_num
    rw [segCurve_line hl', segCurve_line hl]
    have hlen : ((v2.pos - v1.pos).perp).length = Real.sqrt ((v2.x - v1.x) ^ 2 + (v2.y - v1.y) ^ 2) := by
      rw [V2.length_eq]
      congr 1
      simp [V2.perp]
      ring
    have hoff : ((v2.pos - v1.pos).unitPerp).scale offset
        = ⟨offset * (-(v2.y - v1.y) / Real.sqrt ((v2.x - v1.x) ^ 2 + (v2.y - v1.y) ^ 2)), offset * ((v2.x - v1.x) / Real.sqrt ((v2.x - v1.x) ^ 2 + (v2.y - v1.y) ^ 2))⟩ := by
      unfold V2.unitPerp V2.normalize
      rw [hlen, V2.ext_iff']
      simp only [V2.scale, V2.perp, V2.sub_x, V2.sub_y, Vertex.pos_x, Vertex.pos_y]
      constructor <;> ring
    simp only [rawLineSeg, hoff, Vertex.ofV2, linePoint, V2.add_x, V2.add_y, Vertex.pos_x, Vertex.pos_y]
    constructor <;> ring

/-- Scaling both ends of an arc about its center scales the arc. -/
theorem arc_homothety (p q : V2 ℝ) (b k : ℝ) (hb : b ≠ 0) :
    let c := arcCenter p q b
    let p' : V2 ℝ := ⟨c.x + k * (p.x - c.x), c.y + k * (p.y - c.y)⟩
    let q' : V2 ℝ := ⟨c.x + k * (q.x - c.x), c.y + k * (q.y - c.y)⟩
    arcCenter p' q' b = c ∧ ∀ t, arcPoint p' q' b t = ⟨c.x + k * ((arcPoint p q b t).x - c.x), c.y + k * ((arcPoint p q b t).y - c.y)⟩ := by
  intro c p' q'
  have hc : arcCenter p' q' b = c := by
    have hcx : c.x = (p.x + q.x) / 2 - (1 - b ^ 2) / (4 * b) * (q.y - p.y) := rfl
    have hcy : c.y = (p.y + q.y) / 2 + (1 - b ^ 2) / (4 * b) * (q.x - p.x) := rfl
    rw [V2.ext_iff']
    generalize (1 - b ^ 2) / (4 * b) = m at hcx hcy
    constructor
    · show (c.x + k * (p.x - c.x) + (c.x + k * (q.x - c.x))) / 2 - (1 - b ^ 2) / (4 * b) * (c.y + k * (q.y - c.y) - (c.y + k * (p.y - c.y))) = c.x
      have hcx : c.x = (p.x + q.x) / 2 - (1 - b ^ 2) / (4 * b) * (q.y - p.y) := rfl
      linear_combination (-k) * hcx
    · show (c.y + k * (p.y - c.y) + (c.y + k * (q.y - c.y))) / 2 + (1 - b ^ 2) / (4 * b) * (c.x + k * (q.x - c.x) - (c.x + k * (p.x - c.x))) = c.y
      have hcy : c.y = (p.y + q.y) / 2 + (1 - b ^ 2) / (4 * b) * (q.x - p.x) := rfl
      linear_combination (-k) * hcy
  refine ⟨hc, ?_⟩
  intro t
  rw [V2.ext_iff']
  simp only [arcPoint, hc, rotV]
  show c.x + ((c.x + k * (p.x - c.x) - c.x) * _ - (c.y + k * (p.y - c.y) - c.y) * _) = _ ∧
    c.y + ((c.x + k * (p.x - c.x) - c.x) * _ + (c.y + k * (p.y - c.y) - c.y) * _) = _
  constructor <;> ring

/-- The signed change of the radius. -/
noncomputable def radiusChange (offset : ℝ) (v1 : Vertex ℝ) : ℝ := if v1.bulge < 0 then offset else -offset

theorem rawArc_ends (offset : ℝ) (v1 v2 : Vertex ℝ) (hb : v1.bulge ≠ 0) (hne : v1.pos ≠ v2.pos) :
    let c := arcCenter v1.pos v2.pos v1.bulge
    let r := arcRadius v1.pos v2.pos v1.bulge
    let k := (r + radiusChange offset v1) / r
    rawArcSeg offset v1 v2 = ⟨⟨c.x + k * (v1.x - c.x), c.y + k * (v1.y - c.y), if r + radiusChange offset v1 < 1 / 100000000 then 0 else v1.bulge⟩,
      ⟨c.x + k * (v2.x - c.x), c.y + k * (v2.y - c.y), v2.bulge⟩, v2.pos, decide (r + radiusChange offset v1 < 1 / 100000000)⟩ := by
  intro c r k
  have hr : 0 < r := arcRadius_pos hne hb
  have h1 : edist v1.pos c = r := by
    have := arcPoint_edist v1.pos v2.pos v1.bulge 0 hb
    rwa [arcPoint_zero] at this
  have h2 : edist v2.pos c = r := by
    have := arcPoint_edist v1.pos v2.pos v1.bulge 1 hb
    rwa [arcPoint_one _ _ _ hb] at this
  have l1 : (v1.pos - c).length = r := by rw [V2.length_eq, ← h1]; unfold edist; congr 1
  have l2 : (v2.pos - c).length = r := by rw [V2.length_eq, ← h2]; unfold edist; congr 1
  unfold rawArcSeg
  rw [segArcRadiusAndCenter_eq v1 v2 hb hne]
  have hk : k = 1 + radiusChange offset v1 / r := by
    show (r + radiusChange offset v1) / r = _
    field_simp
  have hoffs : (if v1.bulgeIsNeg then offset else -offset) = radiusChange offset v1 := by
    unfold radiusChange
    by_cases h : v1.bulge < 0 <;> simp [h]
  simp only [hoffs, V2.normalize]
  show RawSeg.mk (Vertex.ofV2 (((v1.pos - c).scale (1 / (v1.pos - c).length)).scale (radiusChange offset v1) + v1.pos) _)
    (Vertex.ofV2 (((v2.pos - c).scale (1 / (v2.pos - c).length)).scale (radiusChange offset v1) + v2.pos) _) _ _ = _
  rw [l1, l2]
  have e : ∀ v : V2 ℝ, ((v - c).scale (1 / r)).scale (radiusChange offset v1) + v = ⟨c.x + k * (v.x - c.x), c.y + k * (v.y - c.y)⟩ := by
    intro v
    rw [V2.ext_iff', hk]
    simp only [V2.scale, V2.add_x, V2.add_y, V2.sub_x, V2.sub_y]
    constructor <;> ring
  rw [e, e]
  simp only [Vertex.ofV2, fuzzyLt_eq, Vertex.pos_x, Vertex.pos_y, zero_add, decide_eq_true_eq]
  rfl

theorem rawArc_spec (offset : ℝ) (v1 v2 : Vertex ℝ) (hl : ¬ IsLine v1) (hne : v1.pos ≠ v2.pos) (t : ℝ) :
    let c := arcCenter v1.pos v2.pos v1.bulge
    let r := arcRadius v1.pos v2.pos v1.bulge
    let k := (r + radiusChange offset v1) / r
    MovedLeft (segCurve v1 v2) offset t ⟨c.x + k * ((segCurve v1 v2 t).x - c.x), c.y + k * ((segCurve v1 v2 t).y - c.y)⟩ := by
  intro c r k
  have hb := bulge_ne_zero hl
  have hr : 0 < r := arcRadius_pos hne hb
  have hd := arcPoint_hasDerivAt v1.pos v2.pos v1.bulge t
  have hsq := arcPoint_dist_sq v1.pos v2.pos v1.bulge t hb
  have hsgn := C35_half_circle v1.bulge
  have he : angleFromBulge v1.bulge = 4 * Real.arctan v1.bulge := rfl
  rw [he] at hsgn
  have hfun : segCurve v1 v2 = arcPoint v1.pos v2.pos v1.bulge := funext (segCurve_arc hl)
  rw [hfun]
  generalize hq : arcPoint v1.pos v2.pos v1.bulge t = q
  rw [hq] at hd hsq
  set θ := 4 * Real.arctan v1.bulge
  have hsq' : (q.x - c.x) ^ 2 + (q.y - c.y) ^ 2 = r ^ 2 := hsq
  have hθ : θ ≠ 0 := by
    rcases lt_or_gt_of_ne hb with h | h
    · exact (hsgn.2.2.2.mp h).ne
    · exact (hsgn.2.2.1.mp h).ne'
  have hsum : (-θ * (q.y - c.y)) ^ 2 + (θ * (q.x - c.x)) ^ 2 = (θ * r) ^ 2 := by
    rw [mul_pow θ r, ← hsq']; ring
  refine ⟨-θ * (q.y - c.y), θ * (q.x - c.x), hd.1, hd.2, ?_, ?_⟩
  · rw [hsum]
    exact sq_pos_of_ne_zero (mul_ne_zero hθ hr.ne')
  · rw [hsum, Real.sqrt_sq_eq_abs, abs_mul, abs_of_pos hr, hq]
    have hk : k = 1 + radiusChange offset v1 / r := by
      show (r + radiusChange offset v1) / r = _
      field_simp
    rw [hk]
    unfold radiusChange
    rcases lt_or_gt_of_ne hb with h | h
    · have hneg := hsgn.2.2.2.mp h
      rw [abs_of_neg hneg, if_pos h]
      constructor <;> field_simp <;> ring
    · have hpos := hsgn.2.2.1.mp h
      rw [abs_of_pos hpos, if_neg (not_lt.mpr h.le)]
      constructor <;> field_simp <;> ring

/-- **C42** The raw offset segments are in one to one order with the segments of the polyline.  Each
one is its segment moved to the left by the offset, point by point: at each parameter, the point of the
offset segment is the point of the segment moved by the offset at a right angle to the direction of
the segment.  The exceptions are arcs whose radius would become less than `1e-8`: these are collapsed to
a straight segment, between the moved ends of the arc. -/
theorem C42_raw_segs (p : Pline ℝ) (offset : ℝ) :
    (createUntrimmedRawOffsetSegs p offset).length = p.segmentCount ∧
    ∀ (i : Nat) (s : Vertex ℝ × Vertex ℝ), p.segs[i]? = some s → s.1.pos ≠ s.2.pos →
      ∃ r, (createUntrimmedRawOffsetSegs p offset)[i]? = some r ∧ r.origV2Pos = s.2.pos ∧
        (r.collapsedArc = true ↔ ¬ IsLine s.1 ∧ arcRadius s.1.pos s.2.pos s.1.bulge + (if s.1.bulge < 0 then offset else -offset) < 1 / 100000000) ∧
        (r.collapsedArc = false → ∀ t, MovedLeft (segCurve s.1 s.2) offset t (segCurve r.v1 r.v2 t)) ∧
        (r.collapsedArc = true → IsLine r.v1 ∧ MovedLeft (segCurve s.1 s.2) offset 0 r.v1.pos ∧
          MovedLeft (segCurve s.1 s.2) offset 1 r.v2.pos) := by
  refine ⟨by unfold createUntrimmedRawOffsetSegs; rw [List.length_map, Pline.segs_length], ?_⟩
  intro i s hs hne
  refine ⟨rawSeg offset s, by unfold createUntrimmedRawOffsetSegs; rw [List.getElem?_map, hs]; rfl, ?_⟩
  unfold rawSeg
  by_cases hl : IsLine s.1
  · rw [bulgeIsZero_true hl, if_pos rfl]
    have hc : (rawLineSeg offset s.1 s.2).collapsedArc = false := rfl
    refine ⟨rfl, ?_, fun _ t => rawLine_spec offset s.1 s.2 hl hne t, ?_⟩
    · rw [hc]; simp [hl]
    · rw [hc]; simp
  · rw [bulgeIsZero_false hl, if_neg (by simp)]
    have hb := bulge_ne_zero hl
    have hends := rawArc_ends offset s.1 s.2 hb hne
    have hmoved := rawArc_spec offset s.1 s.2 hl hne
    have hom := arc_homothety s.1.pos s.2.pos s.1.bulge
      ((arcRadius s.1.pos s.2.pos s.1.bulge + radiusChange offset s.1) / arcRadius s.1.pos s.2.pos s.1.bulge) hb
    dsimp only at hends hmoved hom
    rw [hends]
    refine ⟨rfl, ?_, ?_, ?_⟩
    · simp only [decide_eq_true_eq, hl, not_false_eq_true, true_and]
      rfl
    · intro hc t
      have hc' := of_decide_eq_false hc
      dsimp only
      rw [if_neg hc']
      refine Eq.mpr ?_ (hmoved t)
      congr 1
      rw [segCurve_arc hl]
      refine Eq.trans (segCurve_arc ?_ t) (hom.2 t)
      exact hl
    · intro hc
      have hc' := of_decide_eq_true hc
      dsimp only
      rw [if_pos hc']
      refine ⟨by unfold IsLine; norm_num, ?_, ?_⟩
      · have h := hmoved 0
        rw [segCurve_arc hl] at h
        rw [arcPoint_zero] at h
        exact h
      · have h := hmoved 1
        rw [segCurve_arc hl] at h
        rw [arcPoint_one _ _ _ hb] at h
        exact h

/-- **C42** Every point of a raw offset segment that is not a collapsed arc has the offset as distance
to the point of the segment with the same parameter. -/
theorem C42_distance (p : Pline ℝ) (offset : ℝ) (i : Nat) (s : Vertex ℝ × Vertex ℝ) (r : RawSeg ℝ) (hs : p.segs[i]? = some s)
    (hr : (createUntrimmedRawOffsetSegs p offset)[i]? = some r) (hne : s.1.pos ≠ s.2.pos) (hc : r.collapsedArc = false) (t : ℝ) :
    edist (segCurve r.v1 r.v2 t) (segCurve s.1 s.2 t) = |offset| := by
  obtain ⟨r', hr', -, -, h, -⟩ := (C42_raw_segs p offset).2 i s hs hne
  rw [hr] at hr'
  cases hr'
  exact (h hc t).edist

/-- **C42** The parallel offset of a polyline without segments is empty. -/
theorem C42_trivial {T : Type} [Scalar T] (env : Env T) (p : Pline T) (h : p.verts.length < 2) (offset : T) (o : OffsetOptions T) :
    parallelOffset env p offset o = .ok [] := by
  unfold parallelOffset Pline.vertexCount
  rw [if_pos h]

/-- A half circle and a line, each of length two or more; offset 3 collapses the half circle, whose
radius is 2, and offset -3 does not. -/
example : let p : Pline ℝ := ⟨[⟨0, 0, 1⟩, ⟨4, 0, 0⟩, ⟨4, 4, 0⟩], false⟩
    p.segs[0]? = some (⟨0, 0, 1⟩, ⟨4, 0, 0⟩) ∧ (⟨0, 0, 1⟩ : Vertex ℝ).pos ≠ (⟨4, 0, 0⟩ : Vertex ℝ).pos ∧
    p.segs[1]? = some (⟨4, 0, 0⟩, ⟨4, 4, 0⟩) ∧ (⟨4, 0, 0⟩ : Vertex ℝ).pos ≠ (⟨4, 4, 0⟩ : Vertex ℝ).pos ∧
    (∃ r, (createUntrimmedRawOffsetSegs p 3)[0]? = some r ∧ r.collapsedArc = true) ∧
    (∃ r, (createUntrimmedRawOffsetSegs p (-3))[0]? = some r ∧ r.collapsedArc = false) := by
  intro p
  have h1 : (⟨0, 0, 1⟩ : Vertex ℝ).pos ≠ (⟨4, 0, 0⟩ : Vertex ℝ).pos := by
    simp [V2.ext_iff']
  have hr : arcRadius (⟨0, 0, 1⟩ : Vertex ℝ).pos (⟨4, 0, 0⟩ : Vertex ℝ).pos 1 = 2 := by
    unfold arcRadius edist
    simp only [Vertex.pos_x, Vertex.pos_y]
    rw [show ((0:ℝ) - 4) ^ 2 + (0 - 0) ^ 2 = 4 ^ 2 by norm_num, Real.sqrt_sq (by norm_num)]
    norm_num
  refine ⟨rfl, h1, rfl, by simp [V2.ext_iff'], ?_, ?_⟩
  · obtain ⟨r, h2, -, h3, -⟩ := (C42_raw_segs p 3).2 0 (⟨0, 0, 1⟩, ⟨4, 0, 0⟩) rfl h1
    refine ⟨r, h2, h3.mpr ⟨by simp [IsLine]; norm_num, ?_⟩⟩
    rw [hr]
    norm_num
  · obtain ⟨r, h2, -, h3, -⟩ := (C42_raw_segs p (-3)).2 0 (⟨0, 0, 1⟩, ⟨4, 0, 0⟩) rfl h1
    refine ⟨r, h2, ?_⟩
    rw [← Bool.not_eq_true, h3, hr]
    norm_num

end Cavc
