import Verif.Spec.SubPath
import Verif.Props.Split
import Verif.Props.View

/-! # Views that trace a part of their source -/

namespace Cavc
open Real RealScalar Pline

theorem fuzzy_comm (a b : V2 ℝ) (eps : ℝ) : a.fuzzyEqEps b eps = b.fuzzyEqEps a eps := by
  rw [Bool.eq_iff_iff, V2.fuzzyEqEps_iff, V2.fuzzyEqEps_iff, abs_sub_comm, abs_sub_comm a.y]

theorem fuzzy_refl (a : V2 ℝ) {eps : ℝ} (h : 0 < eps) : a.fuzzyEqEps a eps = true := by
  rw [V2.fuzzyEqEps_iff]; simp [h]

theorem fuzzy_ne {a b : V2 ℝ} {eps : ℝ} (h : 0 < eps) (hn : a.fuzzyEqEps b eps = false) : a ≠ b := by
  rintro rfl; rw [fuzzy_refl a h] at hn; cases hn

theorem FullSeg.proper {v w : Vertex ℝ} {eps : ℝ} (h : FullSeg v w eps) (he : 0 < eps) : IsLine v ∨ ProperArc v w := by
  rcases h.shape with hl | ⟨h1, h2⟩
  · exact Or.inl hl
  · exact Or.inr ⟨h1, h2, fuzzy_ne he h.apart⟩

theorem arctan_part_small {b x u : ℝ} (hb : |b| ≤ 1) (h0 : 0 ≤ u) (h1 : u ≤ 1) (hx : arctan x = u * arctan b) : |x| ≤ 1 := by
  have hv1 := abs_le.mp hb
  have a1 : arctan b ≤ arctan 1 := arctan_strictMono.monotone hv1.2
  have a2 : arctan (-1) ≤ arctan b := arctan_strictMono.monotone hv1.1
  rw [arctan_neg] at a2
  have hp : 0 < arctan 1 := by rw [arctan_one]; positivity
  rw [abs_le]
  constructor
  · rw [← arctan_strictMono.le_iff_le, hx, arctan_neg]; nlinarith
  · rw [← arctan_strictMono.le_iff_le, hx]; nlinarith

/-- The first part of a divided segment. -/
theorem split_first (v w : Vertex ℝ) (eps : ℝ) (he : 0 < eps) (h : FullSeg v w eps) (t : ℝ) (ht0 : 0 < t) (ht1 : t < 1)
    (hv : (segCurve v w t).fuzzyEqEps v.pos eps = false) (hw : (segCurve v w t).fuzzyEqEps w.pos eps = false)
    (hlong : LongPart v 0 t) :
    (segSplitAtPoint v w (segCurve v w t) eps).updatedStart.pos = v.pos ∧
      ∀ z : Vertex ℝ, z.pos = segCurve v w t → ∀ s,
        segCurve (segSplitAtPoint v w (segCurve v w t) eps).updatedStart z s = segCurve v w (t * s) := by
  have key : ∀ (r z' z : Vertex ℝ) s, z'.pos = z.pos → segCurve r z s = segCurve r z' s := by
    intro r z' z s hz
    have hx : z.x = z'.x := congrArg V2.x hz.symm
    have hy : z.y = z'.y := congrArg V2.y hz.symm
    unfold segCurve
    rw [hx, hy]
  by_cases hl : IsLine v
  · have hc := C28_split_line v w hl t eps
    dsimp only at hc
    have hc0 := hc 0
    refine ⟨hc0.1, fun z hz s => ?_⟩
    rw [key _ (segSplitAtPoint v w (segCurve v w t) eps).splitVertex z s (by rw [hz]; exact hc0.2.1)]
    exact (hc s).2.2.2.2.1
  · have ha : ProperArc v w := (h.proper he).resolve_left hl
    have hc := C28_split_arc v w ha t eps ht0 ht1 (by simp [h.apart]) (by rw [fuzzy_comm]; simp [hv]) (by rw [fuzzy_comm]; simp [hw])
    dsimp only at hc
    obtain ⟨q1, q2, q3, q4, -⟩ := hc 0
    refine ⟨q1, fun z hz s => ?_⟩
    have e1 : arctan (segSplitAtPoint v w (segCurve v w t) eps).updatedStart.bulge = t * arctan v.bulge := by
      change 4 * arctan _ = t * (4 * arctan v.bulge) at q4
      linarith
    have n1 : ¬ IsLine (segSplitAtPoint v w (segCurve v w t) eps).updatedStart := by
      unfold IsLine
      rw [← tan_arctan (segSplitAtPoint v w (segCurve v w t) eps).updatedStart.bulge, e1]
      have := hlong.resolve_left hl
      rw [sub_zero] at this
      exact not_lt.mpr this
    rw [segCurve_arc n1, q1, hz]
    exact (hc s).2.2.2.2.1

/-- The second part of a divided segment. -/
theorem split_second (v w : Vertex ℝ) (eps : ℝ) (he : 0 < eps) (h : FullSeg v w eps) (t : ℝ) (ht0 : 0 < t) (ht1 : t < 1)
    (hv : (segCurve v w t).fuzzyEqEps v.pos eps = false) (hw : (segCurve v w t).fuzzyEqEps w.pos eps = false)
    (hlong : LongPart v t 1) :
    let b := (segSplitAtPoint v w (segCurve v w t) eps).splitVertex
    b.pos = segCurve v w t ∧ FullSeg b w eps ∧ (IsLine v → IsLine b) ∧ (¬ IsLine v → ¬ IsLine b ∧ arctan b.bulge = (1 - t) * arctan v.bulge) ∧
      ∀ s, segCurve b w s = segCurve v w (t + (1 - t) * s) := by
  intro b
  by_cases hl : IsLine v
  · have hc := C28_split_line v w hl t eps
    dsimp only at hc
    have hc0 := hc 0
    exact ⟨hc0.2.1, ⟨Or.inl hc0.2.2.2.1, by rw [hc0.2.1]; exact hw⟩, fun _ => hc0.2.2.2.1, fun hn => absurd hl hn, fun s => (hc s).2.2.2.2.2⟩
  · have ha : ProperArc v w := (h.proper he).resolve_left hl
    have hc := C28_split_arc v w ha t eps ht0 ht1 (by simp [h.apart]) (by rw [fuzzy_comm]; simp [hv]) (by rw [fuzzy_comm]; simp [hw])
    dsimp only at hc
    obtain ⟨q1, q2, q3, q4, -⟩ := hc 0
    change b.pos = _ at q2
    have e2 : arctan b.bulge = (1 - t) * arctan v.bulge := by
      change 4 * arctan _ = t * (4 * arctan v.bulge) at q4
      change 4 * arctan _ + 4 * arctan b.bulge = 4 * arctan v.bulge at q3
      linarith
    have n2 : ¬ IsLine b := by
      unfold IsLine
      rw [← tan_arctan b.bulge, e2]
      exact not_lt.mpr (hlong.resolve_left hl)
    refine ⟨q2, ⟨Or.inr ⟨n2, arctan_part_small ha.half (by linarith) (by linarith) e2⟩, by rw [q2]; exact hw⟩,
      fun hl' => absurd hl' hl, fun _ => ⟨n2, e2⟩, fun s => ?_⟩
    rw [segCurve_arc n2, q2]
    exact (hc s).2.2.2.2.2

theorem segCurve_congr {a a' b b' : Vertex ℝ} (h1 : a.pos = a'.pos) (hb : a.bulge = a'.bulge) (h2 : b.pos = b'.pos) (s : ℝ) :
    segCurve a b s = segCurve a' b' s := by
  have hx : a.x = a'.x := congrArg V2.x h1
  have hy : a.y = a'.y := congrArg V2.y h1
  have gx : b.x = b'.x := congrArg V2.x h2
  have gy : b.y = b'.y := congrArg V2.y h2
  unfold segCurve IsLine
  rw [hx, hy, hb, gx, gy]

theorem segCurve_line_congr {a a' b b' : Vertex ℝ} (h1 : a.pos = a'.pos) (hb : IsLine a) (hb' : IsLine a') (h2 : b.pos = b'.pos) (s : ℝ) :
    segCurve a b s = segCurve a' b' s := by
  rw [segCurve_line hb, segCurve_line hb', h1, h2]

/-- The vertex a slice starts with: it continues the segment from the cut on. -/
theorem start_base (v w : Vertex ℝ) (eps : ℝ) (he : 0 < eps) (h : FullSeg v w eps) (t : ℝ) (hc : CleanCut v w t eps) (ht1 : t < 1)
    (hlong : LongPart v t 1) :
    let b := (segSplitAtPoint v w (segCurve v w t) eps).splitVertex
    b.pos = segCurve v w t ∧ FullSeg b w eps ∧ (IsLine v → IsLine b) ∧ (¬ IsLine v → ¬ IsLine b ∧ arctan b.bulge = (1 - t) * arctan v.bulge) ∧
      ∀ s, segCurve b w s = segCurve v w (t + (1 - t) * s) := by
  rcases hc with rfl | rfl | ⟨h0, -, h2, h3⟩
  · rw [(segCurve_ends v w).1]
    intro b
    by_cases hl : IsLine v
    · have hb : b = ⟨v.x, v.y, 0⟩ := by
        show (segSplitAtPoint v w v.pos eps).splitVertex = _
        unfold segSplitAtPoint
        rw [bulgeIsZero_true hl]; simp [Vertex.pos]
      have hbl : IsLine b := by rw [hb]; unfold IsLine; norm_num
      have hp : b.pos = v.pos := by rw [hb]; rfl
      refine ⟨hp, ⟨Or.inl hbl, by rw [hp]; exact h.apart⟩, fun _ => hbl, fun hn => absurd hl hn, fun s => ?_⟩
      rw [segCurve_line_congr hp hbl hl rfl]
      congr 1; ring
    · have hb : b = v := by
        have := (C28_split_ends v w hl v.pos eps).1 (Or.inr (fuzzy_refl _ he))
        show (segSplitAtPoint v w v.pos eps).splitVertex = _
        rw [this]
        rfl
      rw [hb]
      refine ⟨rfl, h, fun hl' => absurd hl' hl, fun _ => ⟨hl, by ring⟩, fun s => ?_⟩
      congr 1; ring
  · exact absurd ht1 (lt_irrefl _)
  · exact split_second v w eps he h t h0 ht1 h2 h3 hlong

/-- The vertex a slice within one segment starts with. -/
theorem single_base (v w b : Vertex ℝ) (eps : ℝ) (he : 0 < eps) (t u : ℝ) (ht0 : 0 ≤ t) (ht1 : t < 1) (hu : t < u) (hu1 : u ≤ 1)
    (hb : b.pos = segCurve v w t) (hfull : FullSeg b w eps) (hbl : IsLine v → IsLine b)
    (hba : ¬ IsLine v → ¬ IsLine b ∧ arctan b.bulge = (1 - t) * arctan v.bulge)
    (htr : ∀ s, segCurve b w s = segCurve v w (t + (1 - t) * s))
    (hc : u = 1 ∨ (segCurve v w u).fuzzyEqEps w.pos eps = false) (hne : (segCurve v w t).fuzzyEqEps (segCurve v w u) eps = false)
    (hlong : LongPart v t u) :
    let a := (segSplitAtPoint b w (segCurve v w u) eps).updatedStart
    a.pos = segCurve v w t ∧ ∀ z : Vertex ℝ, z.pos = segCurve v w u → ∀ s, segCurve a z s = segCurve v w (t + (u - t) * s) := by
  rcases eq_or_lt_of_le hu1 with rfl | hlt
  · rw [(segCurve_ends v w).2]
    intro a
    have ha : a = b := by
      show (segSplitAtPoint b w w.pos eps).updatedStart = b
      by_cases hl : IsLine b
      · unfold segSplitAtPoint
        rw [bulgeIsZero_true hl]; simp
      · rw [(C28_split_ends b w hl w.pos eps).2 (by simp [hfull.apart]) (by simp [hfull.apart]) (fuzzy_refl _ he)]
    rw [ha]
    exact ⟨hb, fun z hz s => by rw [segCurve_congr rfl rfl hz, htr]⟩
  · intro a
    have h1t : 0 < 1 - t := by linarith
    have ef : t + (1 - t) * ((u - t) / (1 - t)) = u := by field_simp; ring
    have hpt : segCurve b w ((u - t) / (1 - t)) = segCurve v w u := by rw [htr, ef]
    have hcw := hc.resolve_left (ne_of_lt hlt)
    have hs := split_first b w eps he hfull ((u - t) / (1 - t)) (by apply div_pos <;> linarith)
      (by rw [div_lt_one h1t]; linarith) (by rw [hpt, hb, fuzzy_comm]; exact hne) (by rw [hpt]; exact hcw) ?_
    · rw [hpt] at hs
      refine ⟨by rw [← hb]; exact hs.1, fun z hz s => ?_⟩
      rw [hs.2 z hz s, htr]
      congr 1
      field_simp
    · by_cases hl : IsLine v
      · exact Or.inl (hbl hl)
      · refine Or.inr ?_
        rw [(hba hl).2]
        have := hlong.resolve_left hl
        rw [show ((u - t) / (1 - t) - 0) * ((1 - t) * arctan v.bulge) = (u - t) * arctan v.bulge by field_simp; ring]
        exact this

/-- The last segment of a slice that passes at least one vertex. -/
theorem end_bulge (v w : Vertex ℝ) (eps : ℝ) (he : 0 < eps) (h : FullSeg v w eps) (u : ℝ) (hc : CleanCut v w u eps) (hu : 0 < u)
    (hlong : LongPart v 0 u) (z : Vertex ℝ) (hz : z.pos = segCurve v w u) (s : ℝ) :
    segCurve ⟨v.x, v.y, (segSplitAtPoint v w (segCurve v w u) eps).updatedStart.bulge⟩ z s = segCurve v w (u * s) := by
  rcases hc with rfl | rfl | ⟨-, h1, h2, h3⟩
  · exact absurd hu (lt_irrefl _)
  · rw [(segCurve_ends v w).2] at *
    have ha : (segSplitAtPoint v w w.pos eps).updatedStart = v := by
      by_cases hl : IsLine v
      · unfold segSplitAtPoint
        rw [bulgeIsZero_true hl]; simp
      · rw [(C28_split_ends v w hl w.pos eps).2 (by simp [h.apart]) (by simp [h.apart]) (fuzzy_refl _ he)]
    rw [ha, one_mul]
    exact segCurve_congr rfl rfl hz s
  · obtain ⟨e1, e2⟩ := split_first v w eps he h u hu h1 h2 h3 hlong
    rw [← e2 z hz s]
    exact segCurve_congr (a := ⟨v.x, v.y, (segSplitAtPoint v w (segCurve v w u) eps).updatedStart.bulge⟩) e1.symm rfl rfl s

theorem dist_from_start (v w : Vertex ℝ) (h : IsLine v ∨ ProperArc v w) (hne : v.pos ≠ w.pos) {t u : ℝ} (ht : 0 ≤ t) (htu : t < u) (hu : u ≤ 1) :
    distSquared v.pos (segCurve v w t) < distSquared v.pos (segCurve v w u) := by
  simp only [distSquared_eq]
  by_cases hl : IsLine v
  · rw [segCurve_line hl, segCurve_line hl]
    simp only [linePoint]
    have hd : 0 < (w.pos.x - v.pos.x) ^ 2 + (w.pos.y - v.pos.y) ^ 2 := by
      rcases (not_and_or.mp (fun hh => hne (V2.ext_iff'.mpr hh))) with hx | hy
      · have := sq_pos_of_ne_zero (sub_ne_zero.mpr (Ne.symm hx)); positivity
      · have := sq_pos_of_ne_zero (sub_ne_zero.mpr (Ne.symm hy)); positivity
    have : t ^ 2 < u ^ 2 := by nlinarith
    nlinarith
  · have ha := h.resolve_left hl
    have hb := bulge_ne_zero hl
    rw [segCurve_arc hl, segCurve_arc hl]
    have hθ := abs_four_arctan_le ha.half
    have hθ0 : 4 * arctan v.bulge ≠ 0 := by
      intro h0
      apply hb
      have : arctan v.bulge = 0 := by linarith
      rwa [arctan_eq_zero_iff] at this
    set θ := 4 * arctan v.bulge with hθd
    set c := arcCenter v.pos v.pos v.bulge
    have hr := start_dist_sq v.pos w.pos v.bulge hb
    have hrp := arcRadius_pos hne hb
    have cosl : cos (u * θ) < cos (t * θ) := by
      rw [← cos_abs (u * θ), ← cos_abs (t * θ), abs_mul u, abs_mul t, abs_of_nonneg ht, abs_of_nonneg (by linarith : (0:ℝ) ≤ u)]
      have hp : 0 < |θ| := abs_pos.mpr hθ0
      apply cos_lt_cos_of_nonneg_of_le_pi
      · positivity
      · nlinarith
      · nlinarith
    have dist : ∀ x, (v.pos.x - (arcPoint v.pos w.pos v.bulge x).x) ^ 2 + (v.pos.y - (arcPoint v.pos w.pos v.bulge x).y) ^ 2
        = arcRadius v.pos w.pos v.bulge ^ 2 * (2 - 2 * cos (x * θ)) := by
      intro x
      simp only [arcPoint, rotV, ← hθd]
      have hsc := sin_sq_add_cos_sq (x * θ)
      rw [← hr]
      generalize (arcCenter v.pos w.pos v.bulge).x = cx
      generalize (arcCenter v.pos w.pos v.bulge).y = cy
      linear_combination ((v.pos.x - cx) ^ 2 + (v.pos.y - cy) ^ 2) * hsc
    rw [dist, dist]
    have : 0 < arcRadius v.pos w.pos v.bulge ^ 2 := by positivity
    nlinarith

/-- Reading view data gives a polyline that traces a part of the source as soon as its first and its last
segment do. -/
theorem view_traces (src : Pline ℝ) (d : ViewData ℝ) (hr : d.InRange src) (hi : d.inverted = false) (t u : ℝ)
    (hone : d.endIndexOffset = 0 → ∀ z : Vertex ℝ, z.pos = d.endPoint → ∀ x,
      segCurve d.updatedStart z x = curveAt src d.startIndex (t + (u - t) * x))
    (hfirst : 1 ≤ d.endIndexOffset → ∀ w, cycAt src (d.startIndex + 1) = some w → ∀ x,
      segCurve d.updatedStart w x = curveAt src d.startIndex (t + (1 - t) * x))
    (hlast : 1 ≤ d.endIndexOffset → ∀ v, cycAt src (d.startIndex + d.endIndexOffset) = some v → ∀ z : Vertex ℝ, z.pos = d.endPoint → ∀ x,
      segCurve ⟨v.x, v.y, d.updatedEndBulge⟩ z x = curveAt src (d.startIndex + d.endIndexOffset) (u * x)) :
    ∃ q, d.toPline src = .ok q ∧ q.closed = false ∧ TracesPart src q d.startIndex d.endIndexOffset t u := by
  obtain ⟨q, hq, hqc, hs⟩ := C19_view_slice d src hr hi
  refine ⟨q, hq, hqc, ?_⟩
  generalize d.endIndexOffset = k at *
  generalize d.startIndex = s at *
  have hcnt : q.segmentCount = k + 1 := by
    unfold segmentCount vertexCount
    dsimp only
    rw [hs.count, hqc]
    simp
  refine ⟨by rw [segs_length, hcnt], ?_⟩
  intro j a b hj x
  have hjk : j < k + 1 := by
    rw [← hcnt, ← segs_length]
    exact (List.getElem?_eq_some_iff.mp hj).1
  obtain ⟨a', b', ha, hb, hab⟩ := segs_getElem? q j (by rw [hcnt]; exact hjk)
  rw [hj] at hab
  cases hab
  rw [hs.count, Nat.mod_eq_of_lt (by omega)] at hb
  have hnext : ∀ i, 1 ≤ i → i ≤ k → ∀ c, q.verts[i]? = some c → ∃ w, cycAt src (s + i) = some w ∧ c.pos = w.pos ∧ (i < k → c = w) ∧
      (i = k → c = ⟨w.x, w.y, d.updatedEndBulge⟩) := by
    intro i h1 h2 c hc
    rcases Nat.lt_or_ge i k with hlt | hge
    · rw [hs.interior i h1 hlt] at hc
      exact ⟨c, hc, rfl, fun _ => rfl, fun h => by omega⟩
    · have : i = k := by omega
      subst this
      rw [hs.final h1] at hc
      obtain ⟨w, hw, rfl⟩ := Option.map_eq_some_iff.mp hc
      exact ⟨w, hw, rfl, fun h => by omega, fun _ => rfl⟩
  by_cases hj0 : j = 0
  · subst hj0
    rw [hs.first] at ha
    cases ha
    simp only [Nat.add_zero, if_true]
    by_cases hk : k = 0
    · subst hk
      rw [hs.last] at hb
      cases hb
      simp only [if_true]
      exact hone rfl _ rfl x
    · rw [if_neg (Ne.symm hk)]
      obtain ⟨w, hw, hp, -⟩ := hnext 1 le_rfl (by omega) b hb
      rw [segCurve_congr rfl rfl hp]
      exact hfirst (by omega) w hw x
  · simp only [if_neg hj0, zero_add, sub_zero]
    obtain ⟨v, hv, -, hv1, hv2⟩ := hnext j (by omega) (by omega) a ha
    by_cases hk : j = k
    · subst hk
      rw [hs.last] at hb
      cases hb
      simp only [if_true]
      rw [hv2 rfl]
      exact hlast (by omega) v hv _ rfl x
    · rw [if_neg hk, one_mul]
      obtain ⟨w, hw, hp, -⟩ := hnext (j + 1) (by omega) (by omega) b hb
      rw [segCurve_congr rfl rfl hp, hv1 (by omega)]
      unfold curveAt
      rw [hv, show s + j + 1 = s + (j + 1) by omega, hw]

end Cavc
