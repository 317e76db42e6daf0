import Verif.Lemmas.ShapeCross
import Verif.Props.AreaRegion

/-! # Offsets to the inside keep the orientation -/

set_option linter.unusedVariables false

namespace Cavc
open RealScalar Pline Filter Topology

/-- The foot point of a closed curve that runs beside `p` is on the side of the curve that is on the right for positive distances and on the left for negative ones. -/
theorem foot_number {p r : Pline ℝ} (hr : Loop r) (hrs : SimpleLoop r) {d : ℝ} (hd : d ≠ 0) (hkeep : ∀ X, OnPline r X → Keeps p |d| X) {w : ℤ}
    {k : Nat} {t : ℝ} (hk : k < r.verts.length) (hw : SidesAt r k w (sgPt r k t)) (hb : RunsBeside p d r k t) :
    ∃ F, OnPline p F ∧ wn r (F.x, F.y) = if 0 < d then w else w + 1 := by
  have hn : 0 < r.verts.length := by omega
  obtain ⟨F, a, b, m, hF, e, dx, dy, hm, ex, ey⟩ := hb
  refine ⟨F, hF, ?_⟩
  have ecurve : ∀ s, curveAt r k s = segCurve (sg r k).1 (sg r k).2 s := fun s => curveAt_vtx hn k s
  set X := curveAt r k t with hX
  have hZ : sgPt r k t = (X.x, X.y) := by rw [hX, ecurve]; rfl
  have hmd : 0 < m * |d| := mul_pos hm (abs_pos.mpr hd)
  have key : ∀ u, 0 < u → u < m * |d| → wn r ((linePoint F X (1 - u / (m * |d|))).x, (linePoint F X (1 - u / (m * |d|))).y) = wn r (F.x, F.y) := by
    intro u u0 u1
    have q0 : 0 < u / (m * |d|) := div_pos u0 hmd
    have q1 : u / (m * |d|) < 1 := (div_lt_one hmd).mpr u1
    have h0 : linePoint F X 0 = F := by simp [linePoint]
    have := allW_path (rs := [r]) (by simpa using hr) (γ := linePoint F X) (a := 0) (b := 1 - u / (m * |d|)) (line_continuous F X).continuousOn (fun s hs q hq hon => by
      rw [List.mem_singleton] at hq
      subst hq
      rw [Set.uIcc_of_le (by linarith)] at hs
      have h1 := hkeep _ hon F hF
      rw [linePoint_dist, edist_comm, e, abs_of_nonneg hs.1] at h1
      have : 0 < |d| := abs_pos.mpr hd
      nlinarith [hs.2])
    rw [h0] at this
    simpa [allW, wnAt] using this.symm
  obtain ⟨g1, g2⟩ := side_normal (sg_proper hr hk) (sg_ne hr hrs hk) t (by simpa only [ecurve] using dx) (by simpa only [ecurve] using dy)
  rw [← ecurve, ← hX] at g1 g2
  rw [hZ] at hw
  have c1 : Tendsto (fun u : ℝ => (X.x - u * b, X.y + u * a)) (𝓝[>] 0) (𝓝 (X.x, X.y)) := by
    have : ContinuousAt (fun u : ℝ => (X.x - u * b, X.y + u * a)) 0 := by fun_prop
    have h := this.tendsto.mono_left (nhdsWithin_le_nhds (s := Set.Ioi (0 : ℝ)))
    simpa using h
  have c2 : Tendsto (fun u : ℝ => (X.x + u * b, X.y - u * a)) (𝓝[>] 0) (𝓝 (X.x, X.y)) := by
    have : ContinuousAt (fun u : ℝ => (X.x + u * b, X.y - u * a)) 0 := by fun_prop
    have h := this.tendsto.mono_left (nhdsWithin_le_nhds (s := Set.Ioi (0 : ℝ)))
    simpa using h
  have hsmall : ∀ᶠ u in 𝓝[>] (0 : ℝ), 0 < u ∧ u < m * |d| := Ioo_mem_nhdsGT hmd
  rcases lt_or_gt_of_ne hd with h | h
  · obtain ⟨u, ⟨⟨u0, u1⟩, hs⟩, hv⟩ := ((hsmall.and g1).and (c1.eventually hw)).exists
    have e1 : linePoint F X (1 - u / (m * |d|)) = ⟨X.x - u * b, X.y + u * a⟩ := by
      have hne : d ≠ 0 := hd
      rw [abs_of_neg h, V2.ext_iff']
      unfold linePoint
      constructor
      · have : F.x = X.x + m * d * b := by linarith
        simp only [this]
        field_simp
        ring
      · have : F.y = X.y - m * d * a := by linarith
        simp only [this]
        field_simp
        ring
    rw [← key u u0 u1, e1, if_neg (not_lt.mpr h.le), (hv (ne_of_gt hs)).2, if_pos hs]
  · obtain ⟨u, ⟨⟨u0, u1⟩, hs⟩, hv⟩ := ((hsmall.and g2).and (c2.eventually hw)).exists
    have e1 : linePoint F X (1 - u / (m * |d|)) = ⟨X.x + u * b, X.y - u * a⟩ := by
      have hne : d ≠ 0 := hd
      rw [abs_of_pos h, V2.ext_iff']
      unfold linePoint
      constructor
      · have : F.x = X.x + m * d * b := by linarith
        simp only [this]
        field_simp
        ring
      · have : F.y = X.y - m * d * a := by linarith
        simp only [this]
        field_simp
        ring
    rw [← key u u0 u1, e1, if_pos h, (hv (ne_of_lt hs)).2, if_neg (not_lt.mpr (le_of_lt hs)), add_zero]

/-- A closed curve without crossings that runs beside `p` inside of it turns like `p`. -/
theorem inward_turn {p r : Pline ℝ} (hp : Loop p) (hr : Loop r) (hrs : SimpleLoop r) {d : ℝ} {σ : ℤ} (hσ : σ = 1 ∨ σ = -1) (hin : 0 < d * σ)
    (hpts : ∀ X, OnPline r X → Keeps p |d| X ∧ p.windingNumber X = σ) {k : Nat} {t : ℝ} (hk : k < r.verts.length) (t0 : 0 < t) (t1 : t < 1)
    (hb : RunsBeside p d r k t) : TurnsLike r σ := by
  have hd : d ≠ 0 := by rintro rfl; simp at hin
  obtain ⟨w, hw, hv, htwo⟩ := two_numbers hr hrs
  obtain ⟨F, hF, e⟩ := foot_number hr hrs hd (fun X hX => (hpts X hX).1) hk (hv k hk t t0 t1) hb
  have hoff : ∀ z ∈ trace p, z ∉ trace r := by
    intro z hz hz'
    have := (hpts _ hz').1 _ hz
    rw [edist_self] at this
    exact absurd this (not_le.mpr (abs_pos.mpr hd))
  have hzero : (if 0 < d then w else w + 1) = 0 := by
    by_contra hne
    have hall : ∀ z ∈ trace p, wn r z ≠ 0 := by
      intro z hz
      rw [wn_const hr (trace_isPreconnected hp) (Set.disjoint_left.mpr hoff) hz (show (F.x, F.y) ∈ trace p from hF), e]
      exact hne
    obtain ⟨y, hy, hmax⟩ := (trace_isCompact hr).exists_isMaxOn (trace_nonempty hr) continuous_fst.continuousOn
    have hleft : ∀ z ∈ trace p, z.1 < y.1 := by
      by_contra hc
      push Not at hc
      obtain ⟨z, hz, hle⟩ := hc
      exact hall z hz (wn_right_end hr (hoff z hz) fun x hx => (hmax hx).trans hle)
    have h1 := right_zero hp (X := ⟨y.1, y.2⟩) hleft
    have h2 := (hpts _ hy).2
    change p.windingNumber ⟨y.1, y.2⟩ = 0 at h1
    rw [h1] at h2
    rcases hσ with rfl | rfl <;> simp at h2
  refine ⟨hσ, fun X hX => ?_⟩
  have := htwo (X.x, X.y) hX
  change r.windingNumber X = w ∨ r.windingNumber X = w + 1 at this
  rcases hσ with rfl | rfl
  · rw [if_pos (by simpa using hin)] at hzero
    omega
  · rw [if_neg (by simp at hin; linarith)] at hzero
    omega

end Cavc
