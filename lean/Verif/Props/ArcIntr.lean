import Verif.Props.SegIntr

/-! # C27: intersects of two arcs -/

set_option linter.unusedSectionVars false

namespace Cavc
open RealScalar

/-! ## Arcs of different circles -/

theorem tryAdd_good {P : V2 ℝ → Prop} {slots : Option (V2 ℝ) × Option (V2 ℝ)} {x : V2 ℝ} {eps : ℝ}
    (h1 : ∀ p, slots.1 = some p → P p) (h2 : ∀ p, slots.2 = some p → P p) (hx : P x) :
    (∀ p, (tryAddEndPointIntr slots x eps).1 = some p → P p) ∧
    (∀ p, (tryAddEndPointIntr slots x eps).2 = some p → P p) := by
  obtain ⟨a, b⟩ := slots
  unfold tryAddEndPointIntr
  cases a with
  | none => exact ⟨fun p hp => by cases hp; exact hx, h2⟩
  | some a =>
    dsimp only
    split_ifs
    · exact ⟨h1, h2⟩
    · cases b with
      | none => exact ⟨h1, fun p hp => by cases hp; exact hx⟩
      | some b => exact ⟨h1, h2⟩

theorem arcArcTwo_points {P : V2 ℝ → Prop} {on1 on2 both : V2 ℝ → Bool} {v1 v2 u1 u2 : Vertex ℝ} {p q : V2 ℝ} {eps : ℝ}
    (h1 : on1 u1.pos = true → P u1.pos) (h2 : on1 u2.pos = true → P u2.pos)
    (h3 : on2 v1.pos = true → P v1.pos) (h4 : on2 v2.pos = true → P v2.pos)
    (hp : both p = true → P p) (hq : both q = true → P q) :
    ∀ x ∈ (arcArcTwoIntr on1 on2 both v1 v2 u1 u2 p q eps).points, P x := by
  have step : ∀ (slots : Option (V2 ℝ) × Option (V2 ℝ)) (b : Bool) (x : V2 ℝ), (b = true → P x) →
      ((∀ y, slots.1 = some y → P y) ∧ (∀ y, slots.2 = some y → P y)) →
      ((∀ y, (if b then tryAddEndPointIntr slots x eps else slots).1 = some y → P y) ∧
       (∀ y, (if b then tryAddEndPointIntr slots x eps else slots).2 = some y → P y)) := by
    intro slots b x hb hs
    cases b
    · exact hs
    · exact tryAdd_good hs.1 hs.2 (hb rfl)
  have s0 : (∀ y, ((none, none) : Option (V2 ℝ) × Option (V2 ℝ)).1 = some y → P y) ∧
      (∀ y, ((none, none) : Option (V2 ℝ) × Option (V2 ℝ)).2 = some y → P y) := ⟨by simp, by simp⟩
  have s := step _ _ _ h4 (step _ _ _ h3 (step _ _ _ h2 (step _ _ _ h1 s0)))
  unfold arcArcTwoIntr
  dsimp only
  generalize (if on2 v2.pos = true then tryAddEndPointIntr _ v2.pos eps else _) = slots at s ⊢
  obtain ⟨a, b⟩ := slots
  obtain ⟨sa, sb⟩ := s
  have two : ∀ {x y : V2 ℝ}, P x → P y → ∀ z ∈ (PlineSegIntr.twoIntersects x y).points, P z := by
    intro x y hx hy z hz
    simp only [PlineSegIntr.points, List.mem_cons, List.not_mem_nil, or_false] at hz
    rcases hz with rfl | rfl
    · exact hx
    · exact hy
  have one : ∀ {x : V2 ℝ}, P x → ∀ z ∈ (PlineSegIntr.oneIntersect x).points, P z := by
    intro x hx z hz
    simp only [PlineSegIntr.points, List.mem_singleton] at hz
    rw [hz]; exact hx
  have non : ∀ z ∈ (PlineSegIntr.noIntersect (T := ℝ)).points, P z := by
    intro z hz; simp [PlineSegIntr.points] at hz
  cases hbp : both p <;> cases hbq : both q <;> rcases a with _ | a <;> rcases b with _ | b <;>
    simp only [Bool.and_self, Bool.and_false, Bool.and_true, Bool.false_eq_true, if_true, if_false]
  · exact non
  · exact one (sb _ rfl)
  · exact one (sa _ rfl)
  · exact two (sa _ rfl) (sb _ rfl)
  · exact one (hq hbq)
  · exact one (sb _ rfl)
  · exact one (sa _ rfl)
  · exact two (sa _ rfl) (sb _ rfl)
  · exact one (hp hbp)
  · exact one (sb _ rfl)
  · exact one (sa _ rfl)
  · exact two (sa _ rfl) (sb _ rfl)
  · exact two (hp hbp) (hq hbq)
  · split_ifs
    · exact two (sb _ rfl) (hq hbq)
    · exact two (hp hbp) (sb _ rfl)
  · split_ifs
    · exact two (sa _ rfl) (hq hbq)
    · exact two (hp hbp) (sa _ rfl)
  · split_ifs
    · exact two (sa _ rfl) (sb _ rfl)
    · exact two (sb _ rfl) (sa _ rfl)

/-- **C27** (arcs of different circles, neither circle inside the other) Every reported point that
is clear of the sweep tolerance bands is within `eps` of both arcs. -/
theorem C27_arcs (v1 v2 u1 u2 : Vertex ℝ) (eps : ℝ) (heps : 0 < eps) (hv : ProperArc v1 v2) (hu : ProperArc u1 u2)
    (hd : eps ≤ edist (arcCenter v1.pos v2.pos v1.bulge) (arcCenter u1.pos u2.pos u1.bulge))
    (hn : |arcRadius v1.pos v2.pos v1.bulge - arcRadius u1.pos u2.pos u1.bulge|
      ≤ edist (arcCenter v1.pos v2.pos v1.bulge) (arcCenter u1.pos u2.pos u1.bulge)) (pt : V2 ℝ)
    (hpt : pt ∈ (plineSegIntr v1 v2 u1 u2 eps).points)
    (hcv : SweepClear v1 v2 pt eps) (hcu : SweepClear u1 u2 pt eps) :
    NearSeg v1 v2 pt eps ∧ NearSeg u1 u2 pt eps := by
  have hbv := bulge_ne_zero hv.notLine
  have hbu := bulge_ne_zero hu.notLine
  unfold plineSegIntr at hpt
  simp only [bulgeIsZero_false hv.notLine, bulgeIsZero_false hu.notLine, Bool.and_self, Bool.false_eq_true, if_false,
    segArcRadiusAndCenter_eq v1 v2 hbv hv.ne, segArcRadiusAndCenter_eq u1 u2 hbu hu.ne] at hpt
  set c1 := arcCenter v1.pos v2.pos v1.bulge with hc1
  set c2 := arcCenter u1.pos u2.pos u1.bulge with hc2
  set r1 := arcRadius v1.pos v2.pos v1.bulge with hr1
  set r2 := arcRadius u1.pos u2.pos u1.bulge with hr2
  have hr1n : 0 ≤ r1 := arcRadius_nonneg _ _ _
  have hr2n : 0 ≤ r2 := arcRadius_nonneg _ _ _
  let P : V2 ℝ → Prop := fun x => SweepClear v1 v2 x eps → SweepClear u1 u2 x eps → NearSeg v1 v2 x eps ∧ NearSeg u1 u2 x eps
  have hu1 : pointLiesOnArc r1 c1 v1 v2 eps u1.pos = true → P u1.pos := by
    intro h hcv hcu
    rw [liesOnArc_iff] at h
    exact ⟨near_of_sweep hv heps h.1 hcv h.2.le, NearSeg.of_on (onSeg_first _ _) heps.le⟩
  have hu2 : pointLiesOnArc r1 c1 v1 v2 eps u2.pos = true → P u2.pos := by
    intro h hcv hcu
    rw [liesOnArc_iff] at h
    exact ⟨near_of_sweep hv heps h.1 hcv h.2.le, NearSeg.of_on (onSeg_second _ _) heps.le⟩
  have hv1 : pointLiesOnArc r2 c2 u1 u2 eps v1.pos = true → P v1.pos := by
    intro h hcv hcu
    rw [liesOnArc_iff] at h
    exact ⟨NearSeg.of_on (onSeg_first _ _) heps.le, near_of_sweep hu heps h.1 hcu h.2.le⟩
  have hv2 : pointLiesOnArc r2 c2 u1 u2 eps v2.pos = true → P v2.pos := by
    intro h hcv hcu
    rw [liesOnArc_iff] at h
    exact ⟨NearSeg.of_on (onSeg_second _ _) heps.le, near_of_sweep hu heps h.1 hcu h.2.le⟩
  have hboth : ∀ x, |edist x c1 - r1| ≤ eps → |edist x c2 - r2| ≤ eps →
      (pointWithinArcSweep c1 v1.pos v2.pos v1.bulgeIsNeg x eps && pointWithinArcSweep c2 u1.pos u2.pos u1.bulgeIsNeg x eps) = true → P x := by
    intro x h1 h2 h3 hcv hcu
    rw [Bool.and_eq_true] at h3
    exact ⟨near_of_sweep hv heps h3.1 hcv h1, near_of_sweep hu heps h3.2 hcu h2⟩
  have hC := C26_common_points r1 c1 r2 c2 eps hr1n hr2n heps
  suffices hP : P pt from hP hcv hcu
  cases hres : circleCircleIntr r1 c1 r2 c2 eps with
  | noIntersect => rw [hres] at hpt; simp [PlineSegIntr.points] at hpt
  | overlapping => rw [hres] at hC; dsimp only at hC; linarith [hC.1]
  | tangentIntersect p =>
    rw [hres] at hpt
    dsimp only at hpt
    have ht := (C26_tangent_partial r1 c1 r2 c2 eps hr1n hr2n heps p hres).1 hn
    split_ifs at hpt with h1 h2 h3 h4 h5 <;> simp only [PlineSegIntr.points, List.mem_singleton, List.not_mem_nil] at hpt
    · rw [hpt]; exact hu1 h1
    · rw [hpt]; exact hu2 h2
    · rw [hpt]; exact hv1 h3
    · rw [hpt]; exact hv2 h4
    · rw [hpt]; exact hboth p ht.1 ht.2 h5
  | twoIntersects p q =>
    rw [hres] at hpt hC
    dsimp only at hpt hC
    have hp := (hC.2 p).mpr (Or.inl rfl)
    have hq := (hC.2 q).mpr (Or.inr rfl)
    have hz : ∀ {a b : ℝ}, a = b → |a - b| ≤ eps := by
      rintro a b rfl; rw [sub_self, abs_zero]; exact heps.le
    exact arcArcTwo_points (P := P) hu1 hu2 hv1 hv2 (hboth p (hz hp.1) (hz hp.2)) (hboth q (hz hq.1) (hz hq.2)) pt hpt

end Cavc
