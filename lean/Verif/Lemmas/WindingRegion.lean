import Verif.Props.Winding
import Verif.Spec.Region
import Mathlib.Topology.Connected.LocallyConnected
import Mathlib.Topology.Connected.PathConnected
import Mathlib.Analysis.Normed.Module.Convex

/-! # The winding number and connected sets -/

set_option linter.unusedSectionVars false

namespace Cavc
open Real Pline

/-- the curve in the plane -/
noncomputable def planeCurve (p : Pline ℝ) (t : ℝ) : ℝ × ℝ := ((plineCurve p t).x, (plineCurve p t).y)

/-- the winding number on the plane -/
noncomputable def wn (p : Pline ℝ) (z : ℝ × ℝ) : ℤ := p.windingNumber ⟨z.1, z.2⟩

theorem Loop.proper {p : Pline ℝ} (h : Loop p) : ∀ s ∈ p.segs, IsLine s.1 ∨ ProperArc s.1 s.2 := by
  intro s hs
  rcases h.segs s hs with h | ⟨h1, h2, h3⟩
  · exact Or.inl h
  · exact Or.inr ⟨h1, h2, h3⟩

theorem segCurve_continuous (v1 v2 : Vertex ℝ) :
    Continuous (fun t => ((segCurve v1 v2 t).x, (segCurve v1 v2 t).y)) := by
  by_cases h : IsLine v1
  · have hf : segCurve v1 v2 = linePoint v1.pos v2.pos := funext (segCurve_line h)
    rw [hf]
    exact (linePoint_continuous _ _).1.prodMk (linePoint_continuous _ _).2
  · have hf : segCurve v1 v2 = arcPoint v1.pos v2.pos v1.bulge := funext (segCurve_arc h)
    rw [hf]
    exact (arcPoint_continuous _ _ _).1.prodMk (arcPoint_continuous _ _ _).2

theorem Loop.segmentCount {p : Pline ℝ} (h : Loop p) : p.segmentCount = p.verts.length := by
  unfold Pline.segmentCount vertexCount; dsimp only; rw [if_neg (by have := h.two; omega), if_pos h.closed]

theorem planeCurve_continuousOn {p : Pline ℝ} (h : Loop p) :
    ContinuousOn (planeCurve p) (Set.Icc 0 (p.segmentCount : ℝ)) := by
  have key : ∀ k : ℕ, k ≤ p.segs.length → ContinuousOn (planeCurve p) (Set.Icc 0 (k : ℝ)) := by
    intro k
    induction k with
    | zero => intro _; simp [continuousOn_singleton]
    | succ k ih =>
      intro hk
      push_cast
      rw [← Set.Icc_union_Icc_eq_Icc (Nat.cast_nonneg k) (by linarith : (k : ℝ) ≤ k + 1)]
      refine ContinuousOn.union_of_isClosed (ih (by omega)) ?_ isClosed_Icc isClosed_Icc
      obtain ⟨s, hs⟩ : ∃ s, p.segs[k]? = some s := ⟨p.segs[k], List.getElem?_eq_getElem (by omega)⟩
      have hc : Continuous (fun t : ℝ => ((segCurve s.1 s.2 (t - k)).x, (segCurve s.1 s.2 (t - k)).y)) :=
        (segCurve_continuous s.1 s.2).comp (continuous_id.sub continuous_const)
      refine hc.continuousOn.congr ?_
      intro t ht
      unfold planeCurve
      rw [plineCurve_seg p h.closed h.two k s hs t ht.1 ht.2]
  have := key p.segs.length le_rfl
  rwa [segs_length] at this

theorem trace_eq {p : Pline ℝ} (h : Loop p) : trace p = planeCurve p '' Set.Icc 0 (p.segmentCount : ℝ) := by
  ext z
  constructor
  · rintro ⟨s, hs, t, h0, h1, e⟩
    obtain ⟨i, hi, hs'⟩ := List.getElem_of_mem hs
    have hs'' : p.segs[i]? = some s := by rw [List.getElem?_eq_getElem hi, hs']
    have hi' : (i : ℝ) + 1 ≤ p.segmentCount := by
      rw [← segs_length]; exact_mod_cast hi
    refine ⟨i + t, ⟨by positivity, by linarith⟩, ?_⟩
    unfold planeCurve
    rw [plineCurve_seg p h.closed h.two i s hs'' _ (by linarith) (by linarith)]
    rw [show (i : ℝ) + t - i = t by ring, ← e]
  · rintro ⟨t, ⟨h0, h1⟩, rfl⟩
    have hpos : 0 < p.segmentCount := by rw [h.segmentCount]; have := h.two; omega
    -- the segment of `t`
    obtain ⟨i, hi, hi0, hi1⟩ : ∃ i : ℕ, i < p.segmentCount ∧ (i : ℝ) ≤ t ∧ t ≤ i + 1 := by
      by_cases hlt : t < p.segmentCount
      · refine ⟨⌊t⌋₊, (Nat.floor_lt h0).mpr hlt, Nat.floor_le h0, (Nat.lt_floor_add_one t).le⟩
      · refine ⟨p.segmentCount - 1, by omega, ?_, ?_⟩
        · rw [Nat.cast_sub hpos]; push_cast; linarith
        · rw [Nat.cast_sub hpos]; push_cast; linarith
    obtain ⟨s, hs⟩ : ∃ s, p.segs[i]? = some s := ⟨p.segs[i]'(by rw [segs_length]; omega), List.getElem?_eq_getElem (by rw [segs_length]; omega)⟩
    refine ⟨s, List.mem_of_getElem? hs, t - i, by linarith, by linarith, ?_⟩
    unfold planeCurve
    rw [plineCurve_seg p h.closed h.two i s hs t hi0 hi1]

theorem trace_isCompact {p : Pline ℝ} (h : Loop p) : IsCompact (trace p) := by
  rw [trace_eq h]
  exact isCompact_Icc.image_of_continuousOn (planeCurve_continuousOn h)

theorem trace_isPreconnected {p : Pline ℝ} (h : Loop p) : IsPreconnected (trace p) := by
  rw [trace_eq h]
  exact isPreconnected_Icc.image _ (planeCurve_continuousOn h)

theorem trace_nonempty {p : Pline ℝ} (h : Loop p) : (trace p).Nonempty := by
  rw [trace_eq h]
  exact ⟨_, 0, ⟨le_rfl, Nat.cast_nonneg _⟩, rfl⟩

/-- A continuous angle up to less than a quarter turn gives the same winding number. -/
theorem wn_of_frame {p : Pline ℝ} (h : Loop p) {z : ℝ × ℝ} (hz : z ∉ trace p) (φ : ℝ → ℝ) (k : ℤ)
    (hφ : ContinuousOn φ (Set.Icc 0 (p.segmentCount : ℝ))) (he : φ p.segmentCount - φ 0 = 2 * π * k)
    (hpos : ∀ t ∈ Set.Icc 0 (p.segmentCount : ℝ), 0 < ((planeCurve p t).1 - z.1) * cos (φ t) + ((planeCurve p t).2 - z.2) * sin (φ t)) :
    wn p z = k := by
  have hc := planeCurve_continuousOn h
  obtain ⟨θ, h1, h2, h3⟩ := frame_angle φ (fun t => (planeCurve p t).1 - z.1) (fun t => (planeCurve p t).2 - z.2) _ hφ
    ((continuous_fst.comp_continuousOn hc).sub continuousOn_const)
    ((continuous_snd.comp_continuousOn hc).sub continuousOn_const) hpos
  have hw := (C14_winding_number p h.closed h.two h.proper ⟨z.1, z.2⟩ hz).2 θ ⟨h1, h2⟩
  change _ = 2 * π * ((wn p z : ℤ) : ℝ) at hw
  have e1 := h3 p.segmentCount
  have e0 := h3 0
  have a1 := neg_pi_div_two_lt_arctan ((((planeCurve p p.segmentCount).2 - z.2) * cos (φ p.segmentCount) - ((planeCurve p p.segmentCount).1 - z.1) * sin (φ p.segmentCount)) / (((planeCurve p p.segmentCount).1 - z.1) * cos (φ p.segmentCount) + ((planeCurve p p.segmentCount).2 - z.2) * sin (φ p.segmentCount)))
  have a2 := arctan_lt_pi_div_two ((((planeCurve p p.segmentCount).2 - z.2) * cos (φ p.segmentCount) - ((planeCurve p p.segmentCount).1 - z.1) * sin (φ p.segmentCount)) / (((planeCurve p p.segmentCount).1 - z.1) * cos (φ p.segmentCount) + ((planeCurve p p.segmentCount).2 - z.2) * sin (φ p.segmentCount)))
  have b1 := neg_pi_div_two_lt_arctan ((((planeCurve p 0).2 - z.2) * cos (φ 0) - ((planeCurve p 0).1 - z.1) * sin (φ 0)) / (((planeCurve p 0).1 - z.1) * cos (φ 0) + ((planeCurve p 0).2 - z.2) * sin (φ 0)))
  have b2 := arctan_lt_pi_div_two ((((planeCurve p 0).2 - z.2) * cos (φ 0) - ((planeCurve p 0).1 - z.1) * sin (φ 0)) / (((planeCurve p 0).1 - z.1) * cos (φ 0) + ((planeCurve p 0).2 - z.2) * sin (φ 0)))
  have hp := pi_pos
  rw [e1, e0] at hw
  apply int_eq <;> linarith

/-- The winding number is locally constant. -/
theorem wn_locally {p : Pline ℝ} (h : Loop p) {z : ℝ × ℝ} (hz : z ∉ trace p) :
    ∃ δ > 0, ∀ w ∈ Metric.ball z δ, w ∉ trace p ∧ wn p w = wn p z := by
  obtain ⟨ε, hε, hball⟩ := Metric.isOpen_iff.mp (trace_isCompact h).isClosed.isOpen_compl z hz
  refine ⟨ε / 2, by positivity, ?_⟩
  intro w hw
  have hw' : w ∉ trace p := hball (Metric.ball_subset_ball (by linarith) hw)
  refine ⟨hw', ?_⟩
  obtain ⟨⟨θ, hθ⟩, hall⟩ := C14_winding_number p h.closed h.two h.proper ⟨z.1, z.2⟩ hz
  refine wn_of_frame h hw' θ (wn p z) hθ.1 (hall θ hθ) ?_
  intro t ht
  obtain ⟨ρ, hρ, ex, ey⟩ := hθ.2 t ht
  have hx : (planeCurve p t).1 - w.1 = ρ * cos (θ t) + (z.1 - w.1) := by
    change (plineCurve p t).x - w.1 = _
    simp only at ex
    linarith
  have hy : (planeCurve p t).2 - w.2 = ρ * sin (θ t) + (z.2 - w.2) := by
    change (plineCurve p t).y - w.2 = _
    simp only at ey
    linarith
  rw [hx, hy]
  -- the curve is at distance at least `ε` in the maximum norm
  have hfar : ε ≤ ρ := by
    by_contra hlt
    push Not at hlt
    have hmem : planeCurve p t ∈ trace p := by rw [trace_eq h]; exact ⟨t, ht, rfl⟩
    refine hball (a := planeCurve p t) ?_ hmem
    rw [Metric.mem_ball, Prod.dist_eq, max_lt_iff, Real.dist_eq, Real.dist_eq]
    have ex' : (planeCurve p t).1 - z.1 = ρ * cos (θ t) := ex
    have ey' : (planeCurve p t).2 - z.2 = ρ * sin (θ t) := ey
    rw [ex', ey', abs_mul, abs_mul, abs_of_pos hρ]
    exact ⟨lt_of_le_of_lt (mul_le_of_le_one_right hρ.le (abs_cos_le_one _)) hlt,
      lt_of_le_of_lt (mul_le_of_le_one_right hρ.le (abs_sin_le_one _)) hlt⟩
  rw [Metric.mem_ball, Prod.dist_eq, max_lt_iff, Real.dist_eq, Real.dist_eq, abs_lt, abs_lt] at hw
  have hsc := sin_sq_add_cos_sq (θ t)
  have k1 : |(z.1 - w.1) * cos (θ t)| < ε / 2 ∨ (z.1 - w.1) * cos (θ t) = 0 := by
    by_cases h0 : cos (θ t) = 0
    · right; rw [h0, mul_zero]
    · left
      rw [abs_mul]
      have := abs_cos_le_one (θ t)
      have h1 : |z.1 - w.1| < ε / 2 := by rw [abs_lt]; constructor <;> linarith [hw.1.1, hw.1.2]
      nlinarith [abs_nonneg (z.1 - w.1), abs_pos.mpr h0]
  have k2 : |(z.2 - w.2) * sin (θ t)| < ε / 2 ∨ (z.2 - w.2) * sin (θ t) = 0 := by
    by_cases h0 : sin (θ t) = 0
    · right; rw [h0, mul_zero]
    · left
      rw [abs_mul]
      have := abs_sin_le_one (θ t)
      have h1 : |z.2 - w.2| < ε / 2 := by rw [abs_lt]; constructor <;> linarith [hw.2.1, hw.2.2]
      nlinarith [abs_nonneg (z.2 - w.2), abs_pos.mpr h0]
  have m1 : -(ε / 2) < (z.1 - w.1) * cos (θ t) := by
    rcases k1 with k | k
    · exact (abs_lt.mp k).1
    · rw [k]; linarith
  have m2 : -(ε / 2) < (z.2 - w.2) * sin (θ t) := by
    rcases k2 with k | k
    · exact (abs_lt.mp k).1
    · rw [k]; linarith
  nlinarith

/-- The winding number is the same for all points of a connected set that avoids the polyline. -/
theorem wn_const {p : Pline ℝ} (h : Loop p) {s : Set (ℝ × ℝ)} (hs : IsPreconnected s)
    (hd : Disjoint s (trace p)) {x y : ℝ × ℝ} (hx : x ∈ s) (hy : y ∈ s) : wn p x = wn p y := by
  refine hs.constant (f := wn p) ?_ hx hy
  intro z hz
  have hz' : z ∉ trace p := fun hm => Set.disjoint_left.mp hd hz hm
  obtain ⟨δ, hδ, hb⟩ := wn_locally h hz'
  have : ContinuousAt (wn p) z := by
    refine (continuousAt_const (y := wn p z)).congr ?_
    filter_upwards [Metric.ball_mem_nhds z hδ] with w hw
    exact (hb w hw).2.symm
  exact this.continuousWithinAt

/-- The winding number is 0 if a line separates the point from the polyline. -/
theorem wn_halfplane {p : Pline ℝ} (h : Loop p) {z : ℝ × ℝ} (α : ℝ)
    (hp : ∀ y ∈ trace p, 0 < (y.1 - z.1) * cos α + (y.2 - z.2) * sin α) : wn p z = 0 := by
  have hz : z ∉ trace p := by
    intro hz
    have := hp z hz
    simp at this
  refine wn_of_frame h hz (fun _ => α) 0 continuousOn_const (by simp) ?_
  intro t ht
  exact hp _ (by rw [trace_eq h]; exact ⟨t, ht, rfl⟩)

/-- the points inside by winding number, together with the polyline -/
def filled (p : Pline ℝ) : Set (ℝ × ℝ) := trace p ∪ {z | z ∉ trace p ∧ wn p z ≠ 0}

theorem filled_isPreconnected {p : Pline ℝ} (h : Loop p) : IsPreconnected (filled p) := by
  obtain ⟨k0, hk0⟩ := trace_nonempty h
  refine isPreconnected_of_forall k0 ?_
  intro x hx
  rcases hx with hx | ⟨hx, hw⟩
  · exact ⟨trace p, Set.subset_union_left, hk0, hx, trace_isPreconnected h⟩
  have hopen : IsOpen (trace p)ᶜ := (trace_isCompact h).isClosed.isOpen_compl
  obtain ⟨C, hC⟩ : ∃ C, C = connectedComponentIn (trace p)ᶜ x := ⟨_, rfl⟩
  have hCo : IsOpen C := hC ▸ hopen.connectedComponentIn
  have hCc : IsPreconnected C := hC ▸ isPreconnected_connectedComponentIn
  have hxC : x ∈ C := hC ▸ mem_connectedComponentIn hx
  have hCs : C ⊆ (trace p)ᶜ := hC ▸ connectedComponentIn_subset _ _
  -- the closure of the component meets the polyline
  have hmeet : (closure C ∩ trace p).Nonempty := by
    by_contra hne
    rw [Set.not_nonempty_iff_eq_empty] at hne
    have hsub : closure C ⊆ (trace p)ᶜ := by
      intro y hy hyt
      have : y ∈ closure C ∩ trace p := ⟨hy, hyt⟩
      rw [hne] at this
      exact this
    have hcl : closure C ⊆ C := by
      conv_rhs => rw [hC]
      exact hCc.closure.subset_connectedComponentIn (subset_closure hxC) hsub
    have hclosed : IsClosed C := isClosed_of_closure_subset hcl
    have huniv : C = Set.univ := IsClopen.eq_univ ⟨hclosed, hCo⟩ ⟨x, hxC⟩
    exact hCs (huniv ▸ Set.mem_univ k0) hk0
  obtain ⟨k, hk, hkt⟩ := hmeet
  have h1 : IsPreconnected (insert k C) :=
    hCc.subset_closure (Set.subset_insert _ _) (Set.insert_subset hk subset_closure)
  refine ⟨insert k C ∪ trace p, ?_, Or.inr hk0, Or.inl (Or.inr hxC), ?_⟩
  · rintro y (hy | hy)
    · rcases hy with rfl | hy
      · exact Or.inl hkt
      · refine Or.inr ⟨hCs hy, ?_⟩
        have : wn p y = wn p x := wn_const h hCc (Set.disjoint_left.mpr fun z hz hzt => hCs hz hzt) hy hxC
        show wn p y ≠ 0
        rw [this]; exact hw
    · exact Or.inl hy
  · exact IsPreconnected.union k (Set.mem_insert _ _) hkt h1 (trace_isPreconnected h)

/-- A polyline whose points have winding number 0 in another one has the same winding number in all
of the other one's inside. -/
theorem wn_filled {p q : Pline ℝ} (hp : Loop p) (hq : Loop q) (hd : Disjoint (trace p) (trace q))
    (h0 : ∀ y ∈ trace q, wn p y = 0) {x y : ℝ × ℝ} (hx : x ∈ filled p) (hy : y ∈ filled p) : wn q x = wn q y := by
  refine wn_const hq (filled_isPreconnected hp) ?_ hx hy
  rw [Set.disjoint_left]
  rintro z (hz | ⟨-, hz⟩) hzq
  · exact Set.disjoint_left.mp hd hz hzq
  · exact hz (h0 z hzq)

/-- the right end of the other polyline is not beyond a point: winding number 0 -/
theorem wn_right_end {q : Pline ℝ} (hq : Loop q) {z : ℝ × ℝ} (hz : z ∉ trace q) (hr : ∀ y ∈ trace q, y.1 ≤ z.1) :
    wn q z = 0 := by
  have hseg : IsPreconnected (segment ℝ z (z.1 + 1, z.2)) := (convex_segment _ _).isPreconnected
  have hfar : wn q (z.1 + 1, z.2) = 0 := by
    refine wn_halfplane hq π ?_
    intro y hy
    have := hr y hy
    simp
    linarith
  rw [← hfar]
  refine wn_const hq hseg ?_ (left_mem_segment ℝ _ _) (right_mem_segment ℝ _ _)
  rw [Set.disjoint_left]
  rintro y hy hyq
  obtain ⟨a, b, ha, hb, hab, rfl⟩ := hy
  have h1 := hr _ hyq
  simp only [Prod.fst_add, Prod.smul_fst, smul_eq_mul] at h1
  have hb0 : b = 0 := by
    have ha' : a = 1 - b := by linarith
    rw [ha'] at h1
    nlinarith
  subst hb0
  have ha1 : a = 1 := by linarith
  subst ha1
  apply hz
  have e : (1 : ℝ) • z + (0 : ℝ) • ((z.1 + 1, z.2) : ℝ × ℝ) = z := by simp
  rwa [e] at hyq

/-- Two loops without common point are not inside each other. -/
theorem not_mutual {p q : Pline ℝ} (hp : Loop p) (hq : Loop q) (hd : Disjoint (trace p) (trace q)) :
    (∀ z ∈ trace p, wn q z = 0) ∨ (∀ z ∈ trace q, wn p z = 0) := by
  obtain ⟨a, ha, hma⟩ := (trace_isCompact hp).exists_isMaxOn (trace_nonempty hp) continuous_fst.continuousOn
  obtain ⟨b, hb, hmb⟩ := (trace_isCompact hq).exists_isMaxOn (trace_nonempty hq) continuous_fst.continuousOn
  rcases le_total b.1 a.1 with hle | hle
  · left
    have h0 := wn_right_end hq (Set.disjoint_left.mp hd ha) (fun y hy => le_trans (hmb hy) hle)
    intro z hz
    rw [← h0]
    exact wn_const hq (trace_isPreconnected hp) hd hz ha
  · right
    have h0 := wn_right_end hp (Set.disjoint_right.mp hd hb) (fun y hy => le_trans (hma hy) hle)
    intro z hz
    rw [← h0]
    exact wn_const hp (trace_isPreconnected hq) hd.symm hz hb

end Cavc
