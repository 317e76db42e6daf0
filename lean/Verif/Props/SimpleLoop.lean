import Verif.Lemmas.SimpleLoop
import Verif.Lemmas.SimpleArcs
import Verif.Props.RegionArcs
import Verif.Lemmas.ChamferOffset
import Verif.Lemmas.RoundSquareOffset

/-! # C62: winding numbers of closed polylines that do not touch themselves -/

set_option linter.unusedVariables false

namespace Cavc
open Pline Filter Topology

/-- **C62** A closed polyline of lines and of arcs of at most half a circle that does not touch itself has only two winding numbers: 0 at the points outside,
and at all points inside the same one of 1 and -1.  Both occur. -/
theorem C62_simple_winding (p : Pline ℝ) (hp : Loop p) (hs : SimpleLoop p) :
    ∃ σ : ℤ, (σ = 1 ∨ σ = -1) ∧ (∀ X, ¬ OnPline p X → p.windingNumber X = 0 ∨ p.windingNumber X = σ) ∧
      (∃ X, ¬ OnPline p X ∧ p.windingNumber X = 0) ∧ ∃ X, ¬ OnPline p X ∧ p.windingNumber X = σ := by
  obtain ⟨w, hw, hv, htwo⟩ := two_numbers hp hs
  have hi : 0 < p.verts.length := by have := hp.two; omega
  have hside := hv 0 hi (1 / 2) (by norm_num) (by norm_num)
  obtain ⟨a, b, -, hx, hy, -⟩ := seg_tangent (sg_proper hp hi) (sg_ne hp hs hi) (1 / 2)
  obtain ⟨X, Y, ox, ex, oy, ey⟩ := both_sides hp hs hi hx hy hside
  rcases hw with rfl | rfl
  · refine ⟨1, Or.inl rfl, fun X hX => ?_, ⟨⟨Y.1, Y.2⟩, oy, ey⟩, ⟨⟨X.1, X.2⟩, ox, by simpa using ex⟩⟩
    have := htwo (X.x, X.y) hX
    change p.windingNumber X = _ ∨ p.windingNumber X = _ at this
    simpa using this
  · refine ⟨-1, Or.inr rfl, fun X hX => ?_, ⟨⟨X.1, X.2⟩, ox, by simpa using ex⟩, ⟨⟨Y.1, Y.2⟩, oy, ey⟩⟩
    have := htwo (X.x, X.y) hX
    change p.windingNumber X = _ ∨ p.windingNumber X = _ at this
    rw [or_comm]
    simpa using this

/-- **C62** Its inside is on the same side everywhere: at every point inside a segment, a little to the left of the polyline the winding number is `w + 1`
and a little to the right it is `w`, with the same `w`, one of 0 and -1, for all points of all segments.  (`(a, b)` is the direction of the polyline at the
point, so `(-b, a)` leads to its left.) -/
theorem C62_same_side (p : Pline ℝ) (hp : Loop p) (hs : SimpleLoop p) : ∃ w : ℤ, (w = 0 ∨ w = -1) ∧
    ∀ i < p.verts.length, ∀ t : ℝ, 0 < t → t < 1 → ∀ a b : ℝ, HasDerivAt (fun t => (curveAt p i t).x) a t → HasDerivAt (fun t => (curveAt p i t).y) b t →
      (a ≠ 0 ∨ b ≠ 0) ∧ ∀ᶠ h in 𝓝[>] (0 : ℝ),
        (let X : V2 ℝ := ⟨(curveAt p i t).x - h * b, (curveAt p i t).y + h * a⟩; ¬ OnPline p X ∧ p.windingNumber X = w + 1) ∧
        (let X : V2 ℝ := ⟨(curveAt p i t).x + h * b, (curveAt p i t).y - h * a⟩; ¬ OnPline p X ∧ p.windingNumber X = w) := by
  obtain ⟨w, hw, hv, -⟩ := two_numbers hp hs
  refine ⟨w, hw, fun i hi t t0 t1 a b hx hy => ?_⟩
  have hn : 0 < p.verts.length := by omega
  simp only [curveAt_vtx hn] at hx hy ⊢
  refine ⟨?_, sides_normal hp hs hi hx hy (hv i hi t t0 t1)⟩
  obtain ⟨a', b', hab, hx', hy', -⟩ := seg_tangent (sg_proper hp hi) (sg_ne hp hs hi) t
  rw [hx.unique hx', hy.unique hy']
  exact hab

/-- **C62** Of a point that has its nearest point of the polyline on its right and a point that has it on its left, just one is inside: the winding
number of the former is larger by one.  (The first is on the left of a side or an outer corner of the polyline, with no point of the polyline nearer than
that, the second on the right.) -/
theorem C62_inside_one_side (p : Pline ℝ) (hp : StraightLoop p) (hs : SimpleLoop p) {d e : ℝ} (hd : 0 < d) (he : 0 < e) {X Y : V2 ℝ}
    (hX : OffsetPt p d X) (hY : OffsetPt p (-e) Y) : p.windingNumber X = p.windingNumber Y + 1 := by
  obtain ⟨a, ha, hv, -⟩ := two_values hp hs
  have h1 := sided_val hp hs hv hd.ne' hX
  have h2 := sided_val hp hs hv (by linarith : -e ≠ 0) hY
  rw [if_pos hd] at h1
  rw [if_neg (by linarith)] at h2
  change p.windingNumber _ = _ at h1 h2
  rw [h1, h2]; ring

/-- The parallel curves of the two sides have no common points. -/
theorem one_sided (p : Pline ℝ) (hp : StraightLoop p) (hs : SimpleLoop p) {d : ℝ} (hd : d ≠ 0) : OneSided p d := by
  rintro X ⟨h1, h2⟩
  rcases lt_or_gt_of_ne hd with h | h
  · have := C62_inside_one_side p hp hs (d := -d) (e := -d) (by linarith) (by linarith) h2 (by rwa [neg_neg])
    omega
  · have := C62_inside_one_side p hp hs h h h1 h2
    omega

/-- The square does not touch itself. -/
theorem box4_simple : SimpleLoop box4 := by
  intro i j hi hj t u t0 t1 u0 u1 h
  obtain ⟨a0, a1, a2, a3⟩ := box4_side t
  obtain ⟨b0, b1, b2, b3⟩ := box4_side u
  change i < 4 at hi
  change j < 4 at hj
  interval_cases i <;> interval_cases j <;> simp only [a0, a1, a2, a3, b0, b1, b2, b3, V2.ext_iff'] at h <;> obtain ⟨h1, h2⟩ := h <;>
    first
    | exact ⟨rfl, by linarith⟩
    | (exfalso; linarith)

/-- The square with the chamfer does not touch itself. -/
theorem chamfer_simple : SimpleLoop chamfer := by
  intro i j hi hj t u t0 t1 u0 u1 h
  obtain ⟨a0, a1, a2, a3, a4⟩ := chamfer_side t
  obtain ⟨b0, b1, b2, b3, b4⟩ := chamfer_side u
  change i < 5 at hi
  change j < 5 at hj
  interval_cases i <;> interval_cases j <;> simp only [a0, a1, a2, a3, a4, b0, b1, b2, b3, b4, V2.ext_iff'] at h <;> obtain ⟨h1, h2⟩ := h <;>
    first
    | exact ⟨rfl, by linarith⟩
    | (exfalso; linarith)

/-- The hypotheses are met by a square. -/
example : ∃ σ : ℤ, (σ = 1 ∨ σ = -1) ∧ ∀ X, ¬ OnPline box4 X → box4.windingNumber X = 0 ∨ box4.windingNumber X = σ := by
  obtain ⟨σ, h1, h2, -⟩ := C62_simple_winding box4 (straight_loop box4_straight) box4_simple
  exact ⟨σ, h1, h2⟩

/-- The disc, made of two half circles, does not touch itself. -/
theorem disc_simple : SimpleLoop disc := by
  have hp := Real.pi_pos
  have key : ∀ t u : ℝ, 0 ≤ t → t < 1 → 0 ≤ u → u < 1 → Real.cos (t * Real.pi) = Real.cos (u * Real.pi) → t = u := by
    intro t u t0 t1 u0 u1 h
    have := Real.injOn_cos (x₁ := t * Real.pi) (x₂ := u * Real.pi) ⟨by positivity, by nlinarith⟩ ⟨by positivity, by nlinarith⟩ h
    exact mul_right_cancel₀ hp.ne' this
  have opp : ∀ t u : ℝ, 0 ≤ t → t < 1 → 0 ≤ u → u < 1 → Real.cos (t * Real.pi) = -Real.cos (u * Real.pi) → Real.sin (t * Real.pi) = -Real.sin (u * Real.pi) → False := by
    intro t u t0 t1 u0 u1 h1 h2
    have s1 : 0 ≤ Real.sin (t * Real.pi) := Real.sin_nonneg_of_nonneg_of_le_pi (by positivity) (by nlinarith)
    have s2 : 0 ≤ Real.sin (u * Real.pi) := Real.sin_nonneg_of_nonneg_of_le_pi (by positivity) (by nlinarith)
    have z : ∀ x : ℝ, 0 ≤ x → x < 1 → Real.sin (x * Real.pi) = 0 → x = 0 := by
      intro x x0 x1 hx
      by_contra hne
      have : 0 < x := lt_of_le_of_ne x0 (Ne.symm hne)
      have := Real.sin_pos_of_pos_of_lt_pi (x := x * Real.pi) (by positivity) (by nlinarith)
      linarith
    have e1 := z t t0 t1 (by linarith)
    have e2 := z u u0 u1 (by linarith)
    rw [e1, e2, zero_mul, Real.cos_zero] at h1
    norm_num at h1
  intro i j hi hj t u t0 t1 u0 u1 h
  obtain ⟨a0, a1⟩ := disc_curve t
  obtain ⟨b0, b1⟩ := disc_curve u
  change i < 2 at hi
  change j < 2 at hj
  interval_cases i <;> interval_cases j <;> simp only [a0, a1, b0, b1, V2.ext_iff'] at h <;> obtain ⟨h1, h2⟩ := h
  · exact ⟨rfl, key t u t0 t1 u0 u1 (by linarith)⟩
  · exact (opp t u t0 t1 u0 u1 (by linarith) (by linarith)).elim
  · exact (opp t u t0 t1 u0 u1 (by linarith) (by linarith)).elim
  · exact ⟨rfl, key t u t0 t1 u0 u1 (by linarith)⟩

/-- And by a disc made of two arcs. -/
example : ∃ σ : ℤ, (σ = 1 ∨ σ = -1) ∧ ∀ X, ¬ OnPline disc X → disc.windingNumber X = 0 ∨ disc.windingNumber X = σ := by
  obtain ⟨σ, h1, h2, -⟩ := C62_simple_winding disc (disc_full.loop (by norm_num)) disc_simple
  exact ⟨σ, h1, h2⟩

end Cavc
