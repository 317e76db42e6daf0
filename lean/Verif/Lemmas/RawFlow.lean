import Verif.Lemmas.RawKeeps
import Verif.Lemmas.AnyClosed

/-! # At a crossing of the raw offset, what keeps the distance leads from one pass to the other -/

set_option linter.unusedVariables false
set_option linter.unusedSectionVars false

namespace Cavc
open RealScalar Pline Filter Topology

/-- The point has a nearest point on the polyline, at the right (left) of a pass in the direction `(a, b)`, for positive (negative) `d`. -/
def HasFoot (p : Pline ℝ) (d : ℝ) (X : V2 ℝ) (a b : ℝ) : Prop :=
  ∃ (F : V2 ℝ) (l : ℝ), OnPline p F ∧ 0 < l ∧ edist X F = |d| ∧ X.x - F.x = -(l * d * b) ∧ X.y - F.y = l * d * a

/-- a parallel segment runs in the direction of the segment -/
theorem par_deriv {v w : Vertex ℝ} {d : ℝ} (h : SegShape v w) (hr : IsLine v ∨ 0 < offRadius v w d) (t : ℝ) : ∃ l > 0,
    HasDerivAt (fun t => (segCurve (parSeg v w d).1 (parSeg v w d).2 t).x) (l * (segDir v w t).x) t ∧
    HasDerivAt (fun t => (segCurve (parSeg v w d).1 (parSeg v w d).2 t).y) (l * (segDir v w t).y) t := by
  obtain ⟨l, hl, h1, h2⟩ := seg_deriv h t
  by_cases hv : IsLine v
  · refine ⟨l, hl, ?_, ?_⟩
    · have e : (fun t => (segCurve (parSeg v w d).1 (parSeg v w d).2 t).x) = fun t => (segCurve v w t).x - d * ((w.y - v.y) / edist v.pos w.pos) := by
        funext t; rw [par_eq h]; simp only [segDir, if_pos hv]
      rw [e]; exact h1.sub_const _
    · have e : (fun t => (segCurve (parSeg v w d).1 (parSeg v w d).2 t).y) = fun t => (segCurve v w t).y + d * ((w.x - v.x) / edist v.pos w.pos) := by
        funext t; rw [par_eq h]; simp only [segDir, if_pos hv]
      rw [e]; exact h2.add_const _
  · have hb := bulge_ne_zero hv
    have hr0 := arcRadius_pos h.ne hb
    have hr1 := hr.resolve_left hv
    simp only [segCurve_arc hv] at h1 h2
    refine ⟨offRadius v w d / arcRadius v.pos w.pos v.bulge * l, mul_pos (div_pos hr1 hr0) hl, ?_, ?_⟩
    · simp only [par_arc h hv]
      exact (((h1.sub_const _).const_mul _).const_add _).congr_deriv (by ring)
    · simp only [par_arc h hv]
      exact (((h2.sub_const _).const_mul _).const_add _).congr_deriv (by ring)

/-- the arc around a corner turns around it -/
theorem cornerArc_deriv (a v b : V2 ℝ) (d t : ℝ) :
    HasDerivAt (fun t => (cornerArc a v b d t).x) (-(2 * halfTurn a v b) * ((cornerArc a v b d t).y - v.y)) t ∧
    HasDerivAt (fun t => (cornerArc a v b d t).y) (2 * halfTurn a v b * ((cornerArc a v b d t).x - v.x)) t := by
  unfold cornerArc rotV
  dsimp only
  set A := (moved a v d 1).x - v.x
  set B := (moved a v d 1).y - v.y
  set θ := 2 * halfTurn a v b
  have hm : HasDerivAt (fun t : ℝ => t * θ) θ t := by simpa using (hasDerivAt_id t).mul_const θ
  have hc := hm.cos
  have hs := hm.sin
  constructor
  · refine ((((hc.const_mul A).sub (hs.const_mul B)).const_add v.x).congr_deriv (by ring)).congr_of_eventuallyEq ?_
    exact Eventually.of_forall fun t => by simp
  · refine ((((hs.const_mul A).add (hc.const_mul B)).const_add v.y).congr_deriv (by ring)).congr_of_eventuallyEq ?_
    exact Eventually.of_forall fun t => by simp

/-- on one side of a pass with a foot, the distance is not kept -/
theorem foot_side {p : Pline ℝ} {d : ℝ} (hd : d ≠ 0) {f : ℝ → V2 ℝ} {a b a' b' t σ : ℝ} (h1 : HasDerivAt (fun s => (f s).x) a t) (h2 : HasDerivAt (fun s => (f s).y) b t)
    (hF : HasFoot p d (f t) a' b') (hk : ∃ δ > 0, ∀ s, 0 < s → s < δ → Keeps p |d| (f (t + σ * s))) : σ * (d * (a * b' - b * a')) ≤ 0 := by
  obtain ⟨F, l, hon, hl, hdist, e1, e2⟩ := hF
  obtain ⟨δ, hδ, hk⟩ := hk
  by_contra hneg
  push Not at hneg
  have g := dist_deriv h1 h2 F
  have hline : HasDerivAt (fun s : ℝ => t + σ * s) σ 0 := by
    simpa using ((hasDerivAt_id (0 : ℝ)).const_mul σ).const_add t
  have g' := (HasDerivAt.comp (h := fun s : ℝ => t + σ * s) (h₂ := fun s => (F.x - (f s).x) ^ 2 + (F.y - (f s).y) ^ 2) (0 : ℝ) (by simpa using g) hline).const_sub (d ^ 2)
  have z : d ^ 2 - ((fun s => (F.x - (f s).x) ^ 2 + (F.y - (f s).y) ^ 2) ∘ fun s : ℝ => t + σ * s) 0 = 0 := by
    have := edist_sq (f t) F
    rw [hdist, sq_abs] at this
    simp only [Function.comp, mul_zero, add_zero]
    linarith
  have pos := pos_after g' z (by
    rw [show F.x - (f t).x = l * d * b' by linarith, show F.y - (f t).y = -(l * d * a') by linarith]
    have := mul_pos hl hneg
    linarith)
  obtain ⟨ε, hε, hball⟩ := mem_nhdsGT_iff_exists_Ioo_subset.mp pos
  obtain ⟨s, s0, s1⟩ := exists_between (lt_min hδ hε)
  obtain ⟨s1, s2⟩ := lt_min_iff.mp s1
  have h3 : 0 < d ^ 2 - ((F.x - (f (t + σ * s)).x) ^ 2 + (F.y - (f (t + σ * s)).y) ^ 2) := hball ⟨s0, s2⟩
  have h4 := (sq_le_edist (abs_nonneg d)).mp (hk s s0 s1 F hon)
  rw [sq_abs] at h4
  linarith

section
variable {p : Pline ℝ} {d : ℝ} {c : Nat → Corner} {eps : ℝ} (he : 0 < eps) (h : ClearOffset p d c eps) (hC : CleanCorners p d c)
include he h hC

/-- what keeps the distance has a foot -/
theorem raw_foot {j : Nat} (hj : j < (arcParts p c).length) {t : ℝ} (t0 : 0 ≤ t) (t1 : t ≤ 1) (hX : Keeps p |d| (curveAt (rawWith p d c) j t)) :
    ∃ a b, HasDerivAt (fun s => (curveAt (rawWith p d c) j s).x) a t ∧ HasDerivAt (fun s => (curveAt (rawWith p d c) j s).y) b t ∧
      HasFoot p d (curveAt (rawWith p d c) j t) a b := by
  obtain ⟨q, hq⟩ : ∃ q, (arcParts p c)[j]? = some q := ⟨_, List.getElem?_eq_getElem hj⟩
  cases q with
  | side m =>
    have hR := run_facts he h
    have hcv := arcPart_curve hR hq
    have hsh := shapeAt h.loop he m
    simp only [hcv, arcCurve]
    have hlt := h.forward m
    have hlo := hR.lo0 m
    have hhi := hR.hi1 m
    set A := enterAt p c m
    set B := leaveAt p c m
    set u := A + (B - A) * t with hu
    have u0 : 0 ≤ u := by have := mul_nonneg (sub_nonneg.mpr hlt.le) t0; linarith
    have u1 : u ≤ 1 := by have := mul_nonneg (sub_nonneg.mpr hlt.le) (sub_nonneg.mpr t1); linarith
    obtain ⟨l, hl, g1, g2⟩ := par_deriv (d := d) hsh ((h.radius m).imp id fun h => lt_of_lt_of_le (by norm_num) h) u
    have hline : HasDerivAt (fun s : ℝ => A + (B - A) * s) (B - A) t := by
      simpa using ((hasDerivAt_id t).const_mul (B - A)).const_add A
    have d1 := HasDerivAt.comp (h := fun s : ℝ => A + (B - A) * s) (h₂ := fun s => (segCurve (parSeg (vtx p m) (vtx p (m + 1)) d).1 (parSeg (vtx p m) (vtx p (m + 1)) d).2 s).x) t g1 hline
    have d2 := HasDerivAt.comp (h := fun s : ℝ => A + (B - A) * s) (h₂ := fun s => (segCurve (parSeg (vtx p m) (vtx p (m + 1)) d).1 (parSeg (vtx p m) (vtx p (m + 1)) d).2 s).y) t g2 hline
    refine ⟨_, _, d1, d2, segCurve (vtx p m) (vtx p (m + 1)) u, 1 / (l * (B - A) * edist (vtx p m).pos (vtx p (m + 1)).pos), side_on h.loop m u0 u1, ?_, ?_, ?_, ?_⟩
    · have := hsh.len
      have := sub_pos.mpr hlt
      positivity
    · have hsq := segDir_sq (vtx p m) (vtx p (m + 1)) u
      have hL := hsh.len
      have := edist_sq (parCurve p d m u) (segCurve (vtx p m) (vtx p (m + 1)) u)
      unfold parCurve parAt at this ⊢
      rw [par_eq hsh] at this ⊢
      refine (pow_left_inj₀ (edist_nonneg _ _) (abs_nonneg d) (n := 2) (by norm_num)).mp ?_
      rw [this, sq_abs]
      dsimp only
      have e : ((segDir (vtx p m) (vtx p (m + 1)) u).x ^ 2 + (segDir (vtx p m) (vtx p (m + 1)) u).y ^ 2) / edist (vtx p m).pos (vtx p (m + 1)).pos ^ 2 = 1 := by
        rw [hsq]; exact div_self (by positivity)
      linear_combination d ^ 2 * e
    · have hL := hsh.len.ne'
      have := (sub_pos.mpr hlt).ne'
      unfold parCurve parAt
      rw [par_eq hsh]
      field_simp
      ring
    · have hL := hsh.len.ne'
      have := (sub_pos.mpr hlt).ne'
      unfold parCurve parAt
      rw [par_eq hsh]
      field_simp
      ring
  | corner k =>
    obtain ⟨hk, hs, -, hcv⟩ := kept_round he h hC hq t0 t1 hX
    simp only [hcv]
    obtain ⟨g1, g2⟩ := cornerArc_deriv (arriveFrom p k) (cornerPos p (k + 1)) (departTo p k) d t
    have hsign : d * halfTurn (arriveFrom p k) (cornerPos p (k + 1)) (departTo p k) < 0 := by
      rcases turn_sign (arrive_ne h.loop he k) (depart_ne h.loop he k) hs with ⟨x, y⟩ | ⟨x, y⟩
      · exact mul_neg_of_pos_of_neg x y
      · exact mul_neg_of_neg_of_pos x y
    set θ := halfTurn (arriveFrom p k) (cornerPos p (k + 1)) (departTo p k) with hθ
    have hd : d ≠ 0 := h.moves
    have hθ0 : θ ≠ 0 := by rintro e; rw [e, mul_zero] at hsign; exact lt_irrefl _ hsign
    refine ⟨_, _, g1, g2, cornerPos p (k + 1), -1 / (2 * (d * θ)), ?_, ?_, cornerArc_dist (arrive_ne h.loop he k) d t, ?_, ?_⟩
    · exact vtx_on h.loop (k + 1)
    · exact div_pos_of_neg_of_neg (by norm_num) (by linarith)
    · unfold roundArc; field_simp
    · unfold roundArc; field_simp

variable {gap : ℝ} {E : List (Cut × Cut)} (hE : SelfCrossing (rawWith p d c) eps gap E) (hF : FreeCuts p d c) (hos : OneSidedCurve p d)
include hE hF hos

/-- Beside a kept crossing, the distance is kept exactly on one side of each pass, and from there it is kept along the other pass. -/
theorem raw_flow (hA : CrossAtAngle (rawWith p d c) E) : BranchesLeadOn p (rawWith p d c) |d| E := by
  rintro ⟨⟨i, t⟩, j, t'⟩ hx hk
  dsimp only at hk ⊢
  left
  have hXX : curveAt (rawWith p d c) i t = curveAt (rawWith p d c) j t' := hE.on _ hx
  have hk' : Keeps p |d| (curveAt (rawWith p d c) j t') := hXX ▸ hk
  have hi : i < (arcParts p c).length := by rw [← arcParts_length (d := d)]; exact hE.range _ (cut_mem (Or.inl hx))
  have hj : j < (arcParts p c).length := by rw [← arcParts_length (d := d)]; exact hE.range _ (cut_mem (Or.inr hx))
  have hok := hE.ok _ (cut_mem (Or.inl hx))
  have hok' := hE.ok _ (cut_mem (Or.inr hx))
  obtain ⟨a, b, f1, f2, hf⟩ := raw_foot he h hC hi hok.pos.le hok.lt.le hk
  obtain ⟨a', b', g1, g2, hg⟩ := raw_foot he h hC hj hok'.pos.le hok'.lt.le hk'
  have hang : d * (a * b' - b * a') ≠ 0 := mul_ne_zero h.moves (hA _ hx _ _ _ _ f1 f2 g1 g2)
  have k1 : ∀ σ : ℝ, BesideKept p (rawWith p d c) |d| σ (i, t) → σ * (d * (a * b' - b * a')) ≤ 0 := fun σ hσ =>
    foot_side h.moves f1 f2 (hXX ▸ hg) hσ
  have k2 : ∀ σ : ℝ, BesideKept p (rawWith p d c) |d| σ (j, t') → 0 ≤ σ * (d * (a * b' - b * a')) := fun σ hσ => by
    have := foot_side h.moves g1 g2 (hXX ▸ hf) hσ
    linarith
  obtain ⟨σ, hσ, l1⟩ := raw_leave he h hC hE hF hos hA (Or.inl hx) hk
  obtain ⟨τ, hτ, l2⟩ := raw_leave he h hC hE hF hos hA (Or.inr hx) hk'
  have m1 : BesideKept p (rawWith p d c) |d| σ (i, t) := l1
  have m2 : BesideKept p (rawWith p d c) |d| τ (j, t') := l2
  have n1 := k1 σ m1
  have n2 := k2 τ m2
  rcases lt_or_gt_of_ne hang with hs | hs
  · have e1 : σ = 1 := hσ.resolve_right (by rintro rfl; linarith)
    have e2 : τ = -1 := hτ.resolve_left (by rintro rfl; linarith)
    subst e1; subst e2
    exact ⟨⟨fun _ => m2, fun _ => m1⟩, ⟨fun x => by have := k1 _ x; linarith, fun x => by have := k2 _ x; linarith⟩⟩
  · have e1 : σ = -1 := hσ.resolve_left (by rintro rfl; linarith)
    have e2 : τ = 1 := hτ.resolve_right (by rintro rfl; linarith)
    subst e1; subst e2
    exact ⟨⟨fun x => by have := k1 _ x; linarith, fun x => by have := k2 _ x; linarith⟩, ⟨fun _ => m2, fun _ => m1⟩⟩

end

end Cavc
