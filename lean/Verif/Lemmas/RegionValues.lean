import Verif.Lemmas.OffsetRegionArcs
import Verif.Props.AreaRegion

/-! # What closed polylines enclose that make up the parallel curve -/

set_option linter.unusedVariables false
set_option linter.unusedSectionVars false

namespace Cavc
open RealScalar Pline

theorem full_loops {eps : ℝ} (he : 0 < eps) {rs : List (Pline ℝ)} (hcl : ∀ r ∈ rs, r.closed = true ∧ 2 ≤ r.verts.length ∧ ∀ s ∈ r.segs, FullSeg s.1 s.2 eps) : ∀ r ∈ rs, Loop r := by
  intro r hr
  obtain ⟨c1, c2, c3⟩ := hcl r hr
  refine ⟨c1, c2, fun s hs => ?_⟩
  rcases (c3 s hs).shape with h | ⟨h1, h2⟩
  · exact Or.inl h
  · exact Or.inr ⟨h1, h2, fuzzy_ne he (c3 s hs).apart⟩

section
variable {p : Pline ℝ} {d : ℝ} {c : Nat → Corner} {eps : ℝ} (he : 0 < eps) (h : ClearOffset p d c eps) (hcc : CleanCorners p d c)
  (hs : SimpleLoop p) (hturn : ∀ k < p.verts.length, cornerSin p k = 0 → 0 < cornerCos p k) (hd : d ≠ 0)
  {E : List (Cut × Cut)} {rs : List (Pline ℝ)} (hl : ∀ r ∈ rs, Loop r) (hpass : PassedOn p (rawWith p d c) |d| E rs)
  (hcurve : ∀ X, (∃ r ∈ rs, OnPline r X) ↔ ParallelPt p d X)
include he h hcc hs hturn hd hl hpass hcurve

open Classical in
theorem region_values : ∃ σ : ℤ, (σ = 1 ∨ σ = -1) ∧
      (∀ X, ¬ OnPline p X → p.windingNumber X = 0 ∨ p.windingNumber X = σ) ∧
      (∀ r ∈ rs, ∀ X, OnPline r X → ¬ OnPline p X ∧ p.windingNumber X = if 0 < d * σ then σ else 0) ∧
      (0 < d * σ → ∀ Y, (∀ r ∈ rs, ¬ OnPline r Y) →
        (rs.map fun r => r.windingNumber Y).sum = if p.windingNumber Y = σ ∧ Keeps p |d| Y then σ else 0) ∧
      (d * σ < 0 → ∀ Y, (∀ r ∈ rs, ¬ OnPline r Y) →
        (rs.map fun r => r.windingNumber Y).sum = if p.windingNumber Y = 0 ∧ Keeps p |d| Y then 0 else σ) := by
  have hp := h.loop
  have hpl := hp.loop he
  have hr : 0 < |d| := abs_pos.mpr hd
  obtain ⟨w, hw01, hw, htwo'⟩ := two_numbers hpl hs
  obtain ⟨w0, hW'⟩ := region_any he h hcc hs hturn hw hl hpass hcurve hd
  obtain ⟨a, ha⟩ : ∃ a, a = w + 1 := ⟨_, rfl⟩
  have hav : (w + if 0 < d then 1 else 0) = if 0 < d then a else a - 1 := by subst ha; split_ifs <;> ring
  rw [hav] at hW'
  have ha01 : a = 0 ∨ a = 1 := by rcases hw01 with rfl | rfl <;> simp [ha]
  have htwo : ∀ X, ¬ OnPline p X → wnAt p X = a ∨ wnAt p X = a - 1 := fun X hX => by
    have : wnAt p X = w ∨ wnAt p X = w + 1 := htwo' _ hX
    subst ha
    rcases this with h | h
    · right; omega
    · left; exact h
  -- a point far away
  obtain ⟨x, hx⟩ := right_of (ps := p :: rs) (by
    intro r hr
    rcases List.mem_cons.mp hr with rfl | hr
    · exact hpl
    · exact hl r hr)
  set Y0 : V2 ℝ := ⟨x + |d|, 0⟩ with hY0
  have hlt : ∀ r ∈ p :: rs, ∀ z ∈ trace r, z.1 < Y0.x := fun r hr z hz => by
    have := hx r hr z hz
    rw [hY0]
    dsimp only
    linarith
  have off0 : ∀ r ∈ p :: rs, ¬ OnPline r Y0 := fun r hr hon => absurd (hlt r hr (Y0.x, Y0.y) hon) (lt_irrefl _)
  have hp0 : wnAt p Y0 = 0 := right_zero hpl (hlt p (by simp))
  have hall0 : allW rs Y0 = 0 := by
    unfold allW
    rw [List.sum_eq_zero]
    intro w hw
    obtain ⟨r, hr, rfl⟩ := List.mem_map.mp hw
    exact right_zero (hl r hr) (hlt r (by simp [hr]))
  have hk0 : Keeps p |d| Y0 := by
    intro q hq
    have h1 := hx p (by simp) (q.x, q.y) hq
    unfold edist
    apply Real.le_sqrt_of_sq_le
    have h2 : |d| ≤ Y0.x - q.x := by rw [hY0]; dsimp only at h1 ⊢; linarith
    nlinarith [sq_nonneg (Y0.y - q.y)]
  obtain ⟨f1, f2⟩ := hW' Y0 (fun r hr => off0 r (by simp [hr]))
  have f1 := f1 (off0 p (by simp)) hk0
  have f2 := fun h => f2 (Or.inr (Or.inr h))
  rw [hp0, hall0] at f1 f2
  have hsum : ∀ Y, (rs.map fun r => r.windingNumber Y).sum = allW rs Y := fun Y => rfl
  have hwn : ∀ Y, p.windingNumber Y = wnAt p Y := fun Y => rfl
  have hcond : ∀ (Y : V2 ℝ) (v w1 w2 : ℤ), (v = if 0 < d then a else a - 1) → w1 = w0 + (if 0 < d then 1 else -1) → w2 = w0 → (∀ r ∈ rs, ¬ OnPline r Y) →
      allW rs Y = if wnAt p Y = v ∧ Keeps p |d| Y then w1 else w2 := by
    intro Y v w1 w2 hv h1 h2 hY
    obtain ⟨g1, g2⟩ := hW' Y hY
    rw [← hv, ← h1] at g1
    rw [← hv, ← h2] at g2
    by_cases hh : wnAt p Y = v ∧ Keeps p |d| Y
    · rw [if_pos hh]
      exact g1 (keeps_off hr hh.2) hh.2 hh.1
    · rw [if_neg hh]
      apply g2
      by_cases hk : Keeps p |d| Y
      · exact Or.inr (Or.inr fun hv' => hh ⟨hv', hk⟩)
      · exact Or.inr (Or.inl hk)
  have hon : ∀ r ∈ rs, ∀ X, OnPline r X → ¬ OnPline p X ∧ wnAt p X = if 0 < d then a else a - 1 := fun r hr' X hX => by
    have := (hcurve X).mp ⟨r, hr', hX⟩
    exact ⟨keeps_off hr this.keeps, by rw [← hav]; exact sided_val_any hp he hs hw hturn hd this⟩
  rcases ha01 with rfl | rfl
  · refine ⟨-1, Or.inr rfl, fun X hX => ?_, fun r hr' X hX => ?_, fun hdσ Y hY => ?_, fun hdσ Y hY => ?_⟩
    · have := htwo X hX
      rw [hwn]
      simpa using this
    · obtain ⟨o1, o2⟩ := hon r hr' X hX
      refine ⟨o1, ?_⟩
      rw [hwn, o2]
      rcases lt_or_gt_of_ne hd with h | h
      · rw [if_neg (by linarith), if_pos (by push_cast; linarith)]; norm_num
      · rw [if_pos h, if_neg (by push_cast; linarith)]
    · have hneg : ¬ 0 < d := by push_cast at hdσ; linarith
      simp only [hneg, if_false] at f2
      rw [hsum, hwn]
      have := f2 (by norm_num)
      exact hcond Y _ _ _ (by rw [if_neg hneg]; norm_num) (by rw [if_neg hneg, ← this]; norm_num) this hY
    · have hpos : 0 < d := by push_cast at hdσ; linarith
      simp only [hpos, if_true] at f1
      rw [hsum, hwn]
      have := f1 trivial
      exact hcond Y _ _ _ (by rw [if_pos hpos]) (by rw [if_pos hpos]; exact this) (by omega) hY
  · refine ⟨1, Or.inl rfl, fun X hX => ?_, fun r hr' X hX => ?_, fun hdσ Y hY => ?_, fun hdσ Y hY => ?_⟩
    · have := htwo X hX
      rw [hwn]
      simpa [or_comm] using this
    · obtain ⟨o1, o2⟩ := hon r hr' X hX
      refine ⟨o1, ?_⟩
      rw [hwn, o2]
      rcases lt_or_gt_of_ne hd with h | h
      · rw [if_neg (by linarith), if_neg (by push_cast; linarith)]; norm_num
      · rw [if_pos h, if_pos (by push_cast; linarith)]
    · have hpos : 0 < d := by push_cast at hdσ; linarith
      simp only [hpos, if_true] at f2
      rw [hsum, hwn]
      have := f2 (by norm_num)
      exact hcond Y _ _ _ (by rw [if_pos hpos]) (by rw [if_pos hpos, ← this]; norm_num) this hY
    · have hneg : ¬ 0 < d := by push_cast at hdσ; linarith
      simp only [hneg, if_false] at f1
      rw [hsum, hwn]
      have := f1 (by norm_num)
      exact hcond Y _ _ _ (by rw [if_neg hneg]; norm_num) (by rw [if_neg hneg]; exact this) (by omega) hY

theorem region_empty : ∃ σ : ℤ, (σ = 1 ∨ σ = -1) ∧
      (∀ X, ¬ OnPline p X → p.windingNumber X = 0 ∨ p.windingNumber X = σ) ∧
      (0 < d * σ → (rs = [] ↔ ∀ Y, p.windingNumber Y = σ → ¬ Keeps p |d| Y)) ∧ (d * σ < 0 → rs ≠ []) := by
  obtain ⟨σ, hσ, hp2, hon, hin, hout⟩ := region_values he h hcc hs hturn hd hl hpass hcurve
  have hσ0 : σ ≠ 0 := by rcases hσ with rfl | rfl <;> norm_num
  refine ⟨σ, hσ, hp2, fun hpos => ⟨fun hnil Y hY hk => ?_, fun hno => ?_⟩, fun hneg hnil => ?_⟩
  · have := hin hpos Y (by rw [hnil]; simp)
    rw [hnil, if_pos ⟨hY, hk⟩] at this
    exact hσ0 (by simpa using this.symm)
  · by_contra hne
    obtain ⟨r, hr⟩ := List.exists_mem_of_ne_nil rs hne
    obtain ⟨c1, c2, -⟩ := hl r hr
    obtain ⟨s, hs'⟩ : ∃ s, s ∈ r.segs := by
      rw [segs_range c1 c2]
      exact ⟨_, List.mem_map.mpr ⟨0, List.mem_range.mpr (by omega), rfl⟩⟩
    have hX : OnPline r (segCurve s.1 s.2 0) := ⟨s, hs', 0, le_rfl, zero_le_one, rfl⟩
    obtain ⟨-, hw⟩ := hon r hr _ hX
    rw [if_pos hpos] at hw
    exact hno _ hw ((hcurve _).mp ⟨r, hr, hX⟩).keeps
  · -- near the polyline
    obtain ⟨z, hz⟩ := trace_nonempty (h.loop.loop he)
    have := hout hneg ⟨z.1, z.2⟩ (by rw [hnil]; simp)
    rw [hnil, if_neg (fun h' => keeps_off (abs_pos.mpr hd) h'.2 hz)] at this
    exact hσ0 (by simpa using this.symm)

theorem region_oriented :
      (0 < d * turnOf p.orientation → ∀ Y, (∀ r ∈ rs, ¬ OnPline r Y) →
        ((rs.map fun r => r.windingNumber Y).sum = turnOf p.orientation ∧ p.windingNumber Y = turnOf p.orientation ∧ Keeps p |d| Y) ∨
        ((rs.map fun r => r.windingNumber Y).sum = 0 ∧ ¬ (p.windingNumber Y = turnOf p.orientation ∧ Keeps p |d| Y))) ∧
      (d * turnOf p.orientation < 0 → ∀ Y, (∀ r ∈ rs, ¬ OnPline r Y) →
        ((rs.map fun r => r.windingNumber Y).sum = 0 ∧ p.windingNumber Y = 0 ∧ Keeps p |d| Y) ∨
        ((rs.map fun r => r.windingNumber Y).sum = turnOf p.orientation ∧ ¬ (p.windingNumber Y = 0 ∧ Keeps p |d| Y))) := by
  obtain ⟨σ, hσ, hv, -, h1, h2⟩ := region_values he h hcc hs hturn hd hl hpass hcurve
  have hor : turnOf p.orientation = σ := by
    obtain ⟨σ', hσ', -, -, X, hX, hw⟩ := C62_simple_winding p (h.loop.loop he) hs
    refine (C64_orientation p (h.loop.loop he) σ hσ hv ⟨X, hX, ?_⟩).1
    rcases hv X hX with h | h
    · rw [hw] at h
      rcases hσ' with rfl | rfl <;> norm_num at h
    · exact h
  rw [hor]
  refine ⟨fun hpos Y hY => ?_, fun hneg Y hY => ?_⟩
  · have := h1 hpos Y hY
    by_cases hk : p.windingNumber Y = σ ∧ Keeps p |d| Y
    · rw [if_pos hk] at this
      exact Or.inl ⟨this, hk⟩
    · rw [if_neg hk] at this
      exact Or.inr ⟨this, hk⟩
  · have := h2 hneg Y hY
    by_cases hk : p.windingNumber Y = 0 ∧ Keeps p |d| Y
    · rw [if_pos hk] at this
      exact Or.inl ⟨this, hk⟩
    · rw [if_neg hk] at this
      exact Or.inr ⟨this, hk⟩

theorem region_area :
      (0 < d * turnOf p.orientation →
        (rs.map Pline.area).sum = turnOf p.orientation * planeArea {z | p.windingNumber ⟨z.1, z.2⟩ ≠ 0 ∧ Keeps p |d| ⟨z.1, z.2⟩}) ∧
      (d * turnOf p.orientation < 0 →
        (rs.map Pline.area).sum = turnOf p.orientation * planeArea {z | ¬ (p.windingNumber ⟨z.1, z.2⟩ = 0 ∧ Keeps p |d| ⟨z.1, z.2⟩)}) := by
  obtain ⟨h1, h2⟩ := region_oriented he h hcc hs hturn hd hl hpass hcurve
  have hw := (C64_simple p (h.loop.loop he) hs).1
  have n : (turnOf p.orientation : ℝ) ≠ 0 := by exact_mod_cast turn_closed h.loop.closed
  obtain ⟨hi, hint⟩ := sum_integrals (ps := rs) fun r hr => C64_area_winding r (hl r hr)
  refine ⟨fun hpos => ?_, fun hneg => ?_⟩
  · rw [← hint]
    refine (indicator_area hi n ?_).2.2
    filter_upwards [trace_ae (p :: rs)] with z hz
    have hzp : ¬ OnPline p ⟨z.1, z.2⟩ := hz p (by simp)
    rcases h1 hpos ⟨z.1, z.2⟩ (fun r hr => hz r (by simp [hr])) with ⟨e, a, b⟩ | ⟨e, a⟩
    · rw [e, Set.indicator_of_mem]
      exact ⟨by rw [a]; exact_mod_cast n, b⟩
    · rw [e, Set.indicator_of_notMem, Int.cast_zero]
      rintro ⟨c, k⟩
      exact a ⟨(hw _ hzp).resolve_left c, k⟩
  · rw [← hint]
    refine (indicator_area hi n ?_).2.2
    filter_upwards [trace_ae rs] with z hz
    rcases h2 hneg ⟨z.1, z.2⟩ (fun r hr => hz r hr) with ⟨e, a, b⟩ | ⟨e, a⟩
    · rw [e, Set.indicator_of_notMem, Int.cast_zero]
      exact fun h => h ⟨a, b⟩
    · rw [e, Set.indicator_of_mem]
      exact a

end
end Cavc
