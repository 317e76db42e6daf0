import Verif.Lemmas.OffsetBranch
import Mathlib.Analysis.Calculus.DerivativeTest
import Mathlib.Analysis.SpecialFunctions.Trigonometric.Deriv

/-! # At a crossing of the raw offset, as many branches that keep the distance lead in as lead out -/

set_option linter.unusedVariables false
set_option linter.unusedSectionVars false

namespace Cavc
open Pline

theorem sign_near {G : ℝ → ℝ} {β : ℝ} (hd : HasDerivAt G β 0) (h0 : G 0 = 0) (hβ : 0 < β) : ∃ δ > 0, ∀ h, 0 < h → h < δ → 0 < G h ∧ G (-h) < 0 := by
  have := eventually_nhdsWithin_sign_eq_of_deriv_pos (f := G) (x₀ := 0) (by rw [hd.deriv]; exact hβ) h0
  obtain ⟨δ, hδ, h⟩ := Metric.eventually_nhds_iff.mp this
  refine ⟨δ, hδ, fun x x0 x1 => ?_⟩
  have k1 := h (y := x) (by rw [Real.dist_eq, sub_zero, abs_of_pos x0]; exact x1)
  have k2 := h (y := -x) (by rw [Real.dist_eq, sub_zero, abs_neg, abs_of_pos x0]; exact x1)
  rw [sub_zero, sign_pos x0, sign_eq_one_iff] at k1
  rw [sub_zero, sign_neg (by linarith : -x < 0), sign_eq_neg_one_iff] at k2
  exact ⟨k1, k2⟩

theorem sign_near_neg {G : ℝ → ℝ} {β : ℝ} (hd : HasDerivAt G β 0) (h0 : G 0 = 0) (hβ : β < 0) : ∃ δ > 0, ∀ h, 0 < h → h < δ → G h < 0 ∧ 0 < G (-h) := by
  obtain ⟨δ, hδ, h⟩ := sign_near (G := fun x => -G x) hd.neg (by simp [h0]) (neg_pos.mpr hβ)
  refine ⟨δ, hδ, fun x x0 x1 => ?_⟩
  have := h x x0 x1
  constructor <;> linarith [this.1, this.2]

theorem trig_deriv (A B θ : ℝ) : HasDerivAt (fun h => A * (Real.cos (h * θ) - 1) + B * Real.sin (h * θ)) (B * θ) 0 := by
  have h1 : HasDerivAt (fun h : ℝ => h * θ) θ 0 := by simpa using (hasDerivAt_id (0 : ℝ)).mul_const θ
  have h2 := ((h1.cos.sub_const 1).const_mul A).add (h1.sin.const_mul B)
  have e : A * (-Real.sin (0 * θ) * θ) + B * (Real.cos (0 * θ) * θ) = B * θ := by simp
  rw [e] at h2
  exact h2

theorem quad_deriv (A B : ℝ) : HasDerivAt (fun h => A * h ^ 2 + B * h) B 0 := by
  have h2 := (((hasDerivAt_id (0 : ℝ)).pow 2).const_mul A).add ((hasDerivAt_id (0 : ℝ)).const_mul B)
  have e : A * ((2 : ℕ) * (id 0 : ℝ) ^ (2 - 1) * 1) + B * 1 = B := by simp
  rw [e] at h2
  exact h2

/-- What the two gains at a common point of two parts do: one grows where the other falls, or both are even. -/
def Turns (G G' : ℝ → ℝ) : Prop :=
  (∃ δ > 0, ∀ h, 0 < h → h < δ → (0 < G h ∧ G (-h) < 0) ∧ G' h < 0 ∧ 0 < G' (-h)) ∨
  (∃ δ > 0, ∀ h, 0 < h → h < δ → (G h < 0 ∧ 0 < G (-h)) ∧ 0 < G' h ∧ G' (-h) < 0) ∨
  ∀ h, G (-h) = G h ∧ G' (-h) = G' h

theorem Turns.swap {G G' : ℝ → ℝ} (h : Turns G G') : Turns G' G := by
  rcases h with ⟨δ, hδ, h⟩ | ⟨δ, hδ, h⟩ | h
  · exact Or.inr (Or.inl ⟨δ, hδ, fun x x0 x1 => ⟨(h x x0 x1).2, (h x x0 x1).1⟩⟩)
  · exact Or.inl ⟨δ, hδ, fun x x0 x1 => ⟨(h x x0 x1).2, (h x x0 x1).1⟩⟩
  · exact Or.inr (Or.inr fun x => ⟨(h x).2, (h x).1⟩)

theorem turns_of_deriv {G G' : ℝ → ℝ} {β β' : ℝ} (hd : HasDerivAt G β 0) (hd' : HasDerivAt G' β' 0) (h0 : G 0 = 0) (h0' : G' 0 = 0)
    (h : (0 < β ∧ β' < 0) ∨ (β < 0 ∧ 0 < β')) : Turns G G' := by
  rcases h with ⟨h1, h2⟩ | ⟨h1, h2⟩
  · obtain ⟨δ, hδ, k⟩ := sign_near hd h0 h1
    obtain ⟨δ', hδ', k'⟩ := sign_near_neg hd' h0' h2
    exact Or.inl ⟨min δ δ', lt_min hδ hδ', fun x x0 x1 => ⟨k x x0 (lt_min_iff.mp x1).1, k' x x0 (lt_min_iff.mp x1).2⟩⟩
  · obtain ⟨δ, hδ, k⟩ := sign_near_neg hd h0 h1
    obtain ⟨δ', hδ', k'⟩ := sign_near hd' h0' h2
    exact Or.inr (Or.inl ⟨min δ δ', lt_min hδ hδ', fun x x0 x1 => ⟨k x x0 (lt_min_iff.mp x1).1, k' x x0 (lt_min_iff.mp x1).2⟩⟩)

/-- direction of a side -/
noncomputable def dirOf (p : Pline ℝ) (k : Nat) : V2 ℝ :=
  ⟨((cornerPos p (k + 1)).x - (cornerPos p k).x) / edist (cornerPos p k) (cornerPos p (k + 1)),
   ((cornerPos p (k + 1)).y - (cornerPos p k).y) / edist (cornerPos p k) (cornerPos p (k + 1))⟩

section
variable {p : Pline ℝ} {d eps : ℝ} (hp : StraightLoop p) (hd : d ≠ 0) (he : 0 < eps) (hc : ∀ k, ClearTurn p d eps k)
include hp hd he hc

theorem dir_sq (k : Nat) : (dirOf p k).x ^ 2 + (dirOf p k).y ^ 2 = 1 := by
  have := unit_sq (corner_apart hp k)
  unfold dirOf
  linarith

theorem side_move (k : Nat) (t h : ℝ) : (RawPart.side k).curve p d (t + h) =
    ⟨((RawPart.side k).curve p d t).x + h * ((sideEnd p d k - sideStart p d k) * sideLen p k) * (dirOf p k).x,
     ((RawPart.side k).curve p d t).y + h * ((sideEnd p d k - sideStart p d k) * sideLen p k) * (dirOf p k).y⟩ := by
  obtain ⟨hx, hy⟩ := dir_eq (corner_apart hp k)
  unfold RawPart.curve sidePt moved dirOf sideLen
  dsimp only
  rw [V2.ext_iff']
  dsimp only
  constructor
  · linear_combination (h * (sideEnd p d k - sideStart p d k)) * hx
  · linear_combination (h * (sideEnd p d k - sideStart p d k)) * hy

theorem side_gain_diff {k : Nat} {X : V2 ℝ} (hX : (RawPart.side k).gain p d X = 0) (Y : V2 ℝ) :
    (RawPart.side k).gain p d Y = d * ((Y.y - X.y) * (dirOf p k).x - (Y.x - X.x) * (dirOf p k).y) := by
  unfold RawPart.gain lft at hX ⊢
  unfold dirOf
  dsimp only at hX ⊢
  linear_combination hX

theorem corner_gain_diff {k : Nat} {X : V2 ℝ} (hX : (RawPart.corner k).gain p d X = 0) (Y : V2 ℝ) :
    (RawPart.corner k).gain p d Y = (Y.x - X.x) ^ 2 + (Y.y - X.y) ^ 2 + 2 * ((Y.x - X.x) * (X.x - (cornerPos p (k + 1)).x) + (Y.y - X.y) * (X.y - (cornerPos p (k + 1)).y)) := by
  unfold RawPart.gain at hX ⊢
  dsimp only at hX ⊢
  rw [edist_sq] at hX ⊢
  linear_combination hX

theorem corner_move {k : Nat} (hn : setbackAt p d k < 0) (t h : ℝ) : (RawPart.corner k).curve p d (t + h) =
    ⟨(cornerPos p (k + 1)).x + (rotV (h * (2 * halfTurn (cornerPos p k) (cornerPos p (k + 1)) (cornerPos p (k + 2))))
        ⟨((RawPart.corner k).curve p d t).x - (cornerPos p (k + 1)).x, ((RawPart.corner k).curve p d t).y - (cornerPos p (k + 1)).y⟩).x,
     (cornerPos p (k + 1)).y + (rotV (h * (2 * halfTurn (cornerPos p k) (cornerPos p (k + 1)) (cornerPos p (k + 2))))
        ⟨((RawPart.corner k).curve p d t).x - (cornerPos p (k + 1)).x, ((RawPart.corner k).curve p d t).y - (cornerPos p (k + 1)).y⟩).y⟩ := by
  rw [corner_curve hp hd he hc hn, corner_curve hp hd he hc hn]
  unfold cornerArc
  rw [add_mul, rotV_shift hp hd he hc]
  dsimp only
  congr 3 <;> (congr 1; ring)

theorem side_side {k k' : Nat} {t t' : ℝ} (hX : (RawPart.side k).curve p d t = (RawPart.side k').curve p d t')
    (g : (RawPart.side k).gain p d ((RawPart.side k).curve p d t) = 0) (g' : (RawPart.side k').gain p d ((RawPart.side k').curve p d t') = 0)
    (hs : sideStart p d k < sideEnd p d k) (hs' : sideStart p d k' < sideEnd p d k') :
    Turns (fun h => (RawPart.side k').gain p d ((RawPart.side k).curve p d (t + h))) (fun h => (RawPart.side k).gain p d ((RawPart.side k').curve p d (t' + h))) := by
  have hα := mul_pos (sub_pos.mpr hs) (sideLen_pos hp hd he hc k)
  have hα' := mul_pos (sub_pos.mpr hs') (sideLen_pos hp hd he hc k')
  have e1 : ∀ h, (RawPart.side k').gain p d ((RawPart.side k).curve p d (t + h)) =
      h * (((sideEnd p d k - sideStart p d k) * sideLen p k) * (d * ((dirOf p k).y * (dirOf p k').x - (dirOf p k).x * (dirOf p k').y))) := by
    intro h
    rw [side_gain_diff hp hd he hc g', ← hX, side_move hp hd he hc]
    dsimp only; ring
  have e2 : ∀ h, (RawPart.side k).gain p d ((RawPart.side k').curve p d (t' + h)) =
      -(h * (((sideEnd p d k' - sideStart p d k') * sideLen p k') * (d * ((dirOf p k).y * (dirOf p k').x - (dirOf p k).x * (dirOf p k').y)))) := by
    intro h
    rw [side_gain_diff hp hd he hc g, hX, side_move hp hd he hc]
    dsimp only; ring
  simp only [e1, e2]
  set γ := d * ((dirOf p k).y * (dirOf p k').x - (dirOf p k).x * (dirOf p k').y)
  set α := (sideEnd p d k - sideStart p d k) * sideLen p k
  set α' := (sideEnd p d k' - sideStart p d k') * sideLen p k'
  rcases lt_trichotomy γ 0 with h | h | h
  · refine Or.inr (Or.inl ⟨1, one_pos, fun x x0 _ => ?_⟩)
    have h1 := mul_pos x0 (mul_pos hα (neg_pos.mpr h))
    have h2 := mul_pos x0 (mul_pos hα' (neg_pos.mpr h))
    refine ⟨⟨?_, ?_⟩, ?_, ?_⟩ <;> linarith
  · refine Or.inr (Or.inr fun x => ?_)
    rw [h]; simp
  · refine Or.inl ⟨1, one_pos, fun x x0 _ => ?_⟩
    have h1 := mul_pos x0 (mul_pos hα h)
    have h2 := mul_pos x0 (mul_pos hα' h)
    refine ⟨⟨?_, ?_⟩, ?_, ?_⟩ <;> linarith

/-- the angle of an arc has the sign opposite to the offset -/
theorem arc_angle {k : Nat} (hneg : d * turnSin (cornerPos p k) (cornerPos p (k + 1)) (cornerPos p (k + 2)) < 0) :
    d * (2 * halfTurn (cornerPos p k) (cornerPos p (k + 1)) (cornerPos p (k + 2))) < 0 := by
  rcases turn_sign (a := cornerPos p k) (v := cornerPos p (k + 1)) (b := cornerPos p (k + 2)) (corner_apart hp k) (corner_apart hp (k + 1)) hneg with ⟨h1, h2⟩ | ⟨h1, h2⟩ <;> nlinarith

theorem side_corner {k k' : Nat} {t t' : ℝ} (hX : (RawPart.side k).curve p d t = (RawPart.corner k').curve p d t')
    (g : (RawPart.side k).gain p d ((RawPart.side k).curve p d t) = 0) (g' : (RawPart.corner k').gain p d ((RawPart.corner k').curve p d t') = 0)
    (hs : sideStart p d k < sideEnd p d k) (hn : setbackAt p d k' < 0)
    (hneg : d * turnSin (cornerPos p k') (cornerPos p (k' + 1)) (cornerPos p (k' + 2)) < 0) :
    Turns (fun h => (RawPart.corner k').gain p d ((RawPart.side k).curve p d (t + h))) (fun h => (RawPart.side k).gain p d ((RawPart.corner k').curve p d (t' + h))) := by
  have hα := mul_pos (sub_pos.mpr hs) (sideLen_pos hp hd he hc k)
  have hθ := arc_angle hp hd he hc hneg
  set X := (RawPart.corner k').curve p d t' with hXd
  set v := cornerPos p (k' + 1) with hv
  set θ := 2 * halfTurn (cornerPos p k') (cornerPos p (k' + 1)) (cornerPos p (k' + 2)) with hθd
  set α := (sideEnd p d k - sideStart p d k) * sideLen p k with hαd
  set σ := (dirOf p k).x * (X.x - v.x) + (dirOf p k).y * (X.y - v.y) with hσ
  have e1 : ∀ h, (RawPart.corner k').gain p d ((RawPart.side k).curve p d (t + h)) = α ^ 2 * h ^ 2 + 2 * α * σ * h := by
    intro h
    rw [corner_gain_diff hp hd he hc g', side_move hp hd he hc, hX]
    dsimp only
    linear_combination (h ^ 2 * α ^ 2) * dir_sq hp hd he hc k
  have e2 : ∀ h, (RawPart.side k).gain p d ((RawPart.corner k').curve p d (t' + h)) =
      d * ((dirOf p k).x * (X.y - v.y) - (dirOf p k).y * (X.x - v.x)) * (Real.cos (h * θ) - 1) + d * σ * Real.sin (h * θ) := by
    intro h
    rw [side_gain_diff hp hd he hc g, hX, corner_move hp hd he hc hn]
    unfold rotV
    dsimp only
    rw [← hXd, ← hv, ← hθd]
    ring
  simp only [e1, e2]
  rcases lt_trichotomy σ 0 with h | h | h
  · refine turns_of_deriv (quad_deriv _ _) (trig_deriv _ _ _) (by simp) (by simp) (Or.inr ⟨by nlinarith, ?_⟩)
    have := mul_pos_of_neg_of_neg hθ h
    linarith
  · refine Or.inr (Or.inr fun x => ?_)
    rw [h]
    simp
  · refine turns_of_deriv (quad_deriv _ _) (trig_deriv _ _ _) (by simp) (by simp) (Or.inl ⟨by positivity, ?_⟩)
    have := mul_neg_of_neg_of_pos hθ h
    linarith

theorem corner_corner {k k' : Nat} {t t' : ℝ} (hX : (RawPart.corner k).curve p d t = (RawPart.corner k').curve p d t')
    (g : (RawPart.corner k).gain p d ((RawPart.corner k).curve p d t) = 0) (g' : (RawPart.corner k').gain p d ((RawPart.corner k').curve p d t') = 0)
    (hn : setbackAt p d k < 0) (hneg : d * turnSin (cornerPos p k) (cornerPos p (k + 1)) (cornerPos p (k + 2)) < 0)
    (hn' : setbackAt p d k' < 0) (hneg' : d * turnSin (cornerPos p k') (cornerPos p (k' + 1)) (cornerPos p (k' + 2)) < 0) :
    Turns (fun h => (RawPart.corner k').gain p d ((RawPart.corner k).curve p d (t + h))) (fun h => (RawPart.corner k).gain p d ((RawPart.corner k').curve p d (t' + h))) := by
  have hθ := arc_angle hp hd he hc hneg
  have hθ' := arc_angle hp hd he hc hneg'
  have m1 := corner_move hp hd he hc hn t
  have m2 := corner_move hp hd he hc hn' t'
  rw [hX] at m1 g
  set X := (RawPart.corner k').curve p d t' with hXd
  set v := cornerPos p (k + 1) with hv
  set v' := cornerPos p (k' + 1) with hv'
  set θ := 2 * halfTurn (cornerPos p k) v (cornerPos p (k + 2)) with hθd
  set θ' := 2 * halfTurn (cornerPos p k') v' (cornerPos p (k' + 2)) with hθd'
  set C := 2 * ((X.x - v.x) * (X.y - v'.y) - (X.y - v.y) * (X.x - v'.x)) with hC
  have q1 : (X.x - v.x) ^ 2 + (X.y - v.y) ^ 2 = d ^ 2 := by
    unfold RawPart.gain at g
    dsimp only at g
    rw [edist_sq, ← hv] at g
    linarith
  have q2 : (X.x - v'.x) ^ 2 + (X.y - v'.y) ^ 2 = d ^ 2 := by
    unfold RawPart.gain at g'
    dsimp only at g'
    rw [edist_sq, ← hv'] at g'
    linarith
  have e1 : ∀ h, (RawPart.corner k').gain p d ((RawPart.corner k).curve p d (t + h)) =
      (2 * ((X.x - v.x) * (X.x - v'.x) + (X.y - v.y) * (X.y - v'.y)) - 2 * d ^ 2) * (Real.cos (h * θ) - 1) + C * Real.sin (h * θ) := by
    intro h
    rw [corner_gain_diff hp hd he hc g', m1]
    unfold rotV
    dsimp only
    rw [← hv', hC]
    have := Real.sin_sq_add_cos_sq (h * θ)
    linear_combination ((X.x - v.x) ^ 2 + (X.y - v.y) ^ 2) * this + (2 - 2 * Real.cos (h * θ)) * q1
  have e2 : ∀ h, (RawPart.corner k).gain p d ((RawPart.corner k').curve p d (t' + h)) =
      (2 * ((X.x - v.x) * (X.x - v'.x) + (X.y - v.y) * (X.y - v'.y)) - 2 * d ^ 2) * (Real.cos (h * θ') - 1) + (-C) * Real.sin (h * θ') := by
    intro h
    rw [corner_gain_diff hp hd he hc g, m2]
    unfold rotV
    dsimp only
    rw [← hv, hC]
    have := Real.sin_sq_add_cos_sq (h * θ')
    linear_combination ((X.x - v'.x) ^ 2 + (X.y - v'.y) ^ 2) * this + (2 - 2 * Real.cos (h * θ')) * q2
  simp only [e1, e2]
  have hsg : 0 < θ * θ' := by
    have h1 := mul_pos_of_neg_of_neg hθ hθ'
    have h2 : 0 < d ^ 2 * (θ * θ') := by linarith
    exact (pos_iff_pos_of_mul_pos h2).mp (by positivity)
  rcases lt_trichotomy (C * θ) 0 with h | h | h
  · refine turns_of_deriv (trig_deriv _ _ _) (trig_deriv _ _ _) (by simp) (by simp) (Or.inr ⟨h, ?_⟩)
    by_contra hcon
    push Not at hcon
    nlinarith
  · have hC0 : C = 0 := by
      rcases mul_eq_zero.mp h with h | h
      · exact h
      · rw [h] at hsg; simp at hsg
    refine Or.inr (Or.inr fun x => ?_)
    rw [hC0]
    simp
  · refine turns_of_deriv (trig_deriv _ _ _) (trig_deriv _ _ _) (by simp) (by simp) (Or.inl ⟨h, ?_⟩)
    by_contra hcon
    push Not at hcon
    nlinarith

theorem lft_le {a b : V2 ℝ} (h : a ≠ b) (v X Y : V2 ℝ) : |lft a b v X - lft a b v Y| ≤ edist X Y := by
  have h1 := fwd_lft_sq h Y X
  have e : lft a b v X - lft a b v Y = lft a b Y X := by unfold lft; ring
  rw [e]
  apply abs_le_of_sq_le_sq _ (edist_nonneg _ _)
  nlinarith [sq_nonneg (fwd a b Y X)]

/-- Near a point of a part, the distance is not kept on the near side. -/
theorem gain_near {q : RawPart} (hq : ∀ k, q = .corner k → ¬ Mitred p d k) (hqs : ∀ k, q = .side k → sideStart p d k < sideEnd p d k) {t : ℝ} (h0 : 0 < t) (h1 : t < 1) :
    ∃ ε > 0, ∀ Y, edist (q.curve p d t) Y < ε → q.gain p d Y < 0 → ¬ Keeps p |d| Y := by
  cases q with
  | side k =>
    have hs := hqs k rfl
    have hl := sideLen_pos hp hd he hc k
    have hap := corner_apart hp k
    obtain ⟨s0, s1⟩ := sideStart_range hp hd he hc k
    obtain ⟨e0, e1⟩ := sideEnd_range hp hd he hc k
    set u := sideStart p d k + t * (sideEnd p d k - sideStart p d k) with hu
    have hu0 : 0 < u := by nlinarith
    have hu1 : u < 1 := by nlinarith
    have hX : (RawPart.side k).curve p d t = moved (cornerPos p k) (cornerPos p (k + 1)) d u := rfl
    obtain ⟨f1, f2, -, -⟩ := moved_frame hap d u
    rw [← hX] at f1 f2
    have hd' : 0 < |d| := abs_pos.mpr hd
    have hl' : 0 < edist (cornerPos p k) (cornerPos p (k + 1)) := hl
    set L := edist (cornerPos p k) (cornerPos p (k + 1)) with hL
    refine ⟨min |d| (min (u * L) ((1 - u) * L)), lt_min hd' (lt_min (by positivity) (mul_pos (by linarith) hl')), fun Y hY hg hk => ?_⟩
    obtain ⟨y1, y2⟩ := lt_min_iff.mp hY
    obtain ⟨y2, y3⟩ := lt_min_iff.mp y2
    have l1 := abs_le.mp (fwd_le hap (cornerPos p k) ((RawPart.side k).curve p d t) Y)
    have l2 := lft_le hp hd he hc hap (cornerPos p k) ((RawPart.side k).curve p d t) Y
    rw [f1] at l1
    rw [f2] at l2
    have hfar := (keeps_far hp).mp hk k
    set f := fwd (cornerPos p k) (cornerPos p (k + 1)) (cornerPos p k) Y with hf
    set l := lft (cornerPos p k) (cornerPos p (k + 1)) (cornerPos p k) Y with hlf
    have hf0 : 0 ≤ f := by linarith
    have hf1 : f ≤ L := by linarith
    unfold FarAt at hfar
    rw [far_start hap (abs_nonneg d)] at hfar
    have := hfar f hf0 hf1
    rw [← fwd_lft_sq hap (cornerPos p k) Y, sq_abs] at this
    have hg' : d * l - d ^ 2 < 0 := hg
    have hb : (d - l) ^ 2 < d ^ 2 := by
      have := lt_of_le_of_lt l2 y1
      exact sq_lt_sq.mpr this
    have k1 : d ^ 2 ≤ l ^ 2 := by rw [← hf, ← hlf] at this; nlinarith
    nlinarith
  | corner k =>
    refine ⟨1, one_pos, fun Y _ hg hk => ?_⟩
    have hfar := (keeps_far hp).mp hk k 1 zero_le_one le_rfl
    have e : linePoint (cornerPos p k) (cornerPos p (k + 1)) 1 = cornerPos p (k + 1) := by rw [V2.ext_iff']; simp [linePoint]
    rw [e] at hfar
    have hg' : edist Y (cornerPos p (k + 1)) ^ 2 - d ^ 2 < 0 := hg
    have := sq_le_sq' (by linarith [abs_nonneg d, edist_nonneg Y (cornerPos p (k + 1))]) hfar
    rw [sq_abs] at this
    linarith

/-- the part of a segment of positive length runs forward -/
theorem part_forward (hf : FullLoop (rawLoop p d) eps) {j : Nat} {q : RawPart} (hqj : (loopParts p d)[j]? = some q) {t : ℝ} (h0 : 0 ≤ t) (h1 : t ≤ 1)
    (hk : Keeps p |d| (q.curve p d t)) : ∀ k, q = .side k → sideStart p d k < sideEnd p d k := by
  rintro k rfl
  have h2 := side_param hp hd he hc h0 h1 hk le_rfl zero_le_one
  refine lt_of_le_of_ne (by linarith [h2.1, h2.2]) fun hs => ?_
  have hn : 0 < (rawLoop p d).verts.length := by have := hf.two; omega
  have hcv := fun s => rawLoop_curve hp hd he hc hqj s
  have e : curveAt (rawLoop p d) j 0 = curveAt (rawLoop p d) j 1 := by
    rw [hcv, hcv]
    unfold RawPart.curve
    dsimp only
    rw [hs, sub_self, mul_zero, mul_zero]
  rw [curveAt_vtx hn, curveAt_vtx hn, (segCurve_ends _ _).1, (segCurve_ends _ _).2] at e
  have := (hf.full j).apart
  rw [e] at this
  have h3 := fuzzy_refl (vtx (rawLoop p d) (j + 1)).pos he
  rw [h3] at this
  exact absurd this (by simp)

/-- A branch at a crossing keeps the distance if and only if it is on the far side of the other part. -/
theorem branch_iff {gap : ℝ} {E : List (Cut × Cut)} (hf : FullLoop (rawLoop p d) eps) (hE : SelfCrossing (rawLoop p d) eps gap E) (hos : OneSided p d) {j j' : Nat} {t t' : ℝ}
    (hx : ((j, t), (j', t')) ∈ E ∨ ((j', t'), (j, t)) ∈ E) (hk : Keeps p |d| (curveAt (rawLoop p d) j t)) {q q' : RawPart}
    (hqj : (loopParts p d)[j]? = some q) (hqj' : (loopParts p d)[j']? = some q') {σ : ℝ} (hσ : σ = 1 ∨ σ = -1) :
    (∃ δ > 0, ∀ s, 0 < s → s < δ → Keeps p |d| (curveAt (rawLoop p d) j (t + σ * s))) ↔
      ∃ δ > 0, ∀ s, 0 < s → s < δ → 0 ≤ q'.gain p d (q.curve p d (t + σ * s)) := by
  refine ⟨fun ⟨δ, hδ, h⟩ => ?_, fun ⟨δ, hδ, h⟩ => keep_branch hp hd he hc hE hos hx hk hqj hqj' hσ hδ h⟩
  have hj : j < (rawLoop p d).verts.length := hE.range _ (cut_mem hx)
  have hn : 0 < (rawLoop p d).verts.length := by omega
  have hqm' : q' ∈ loopParts p d := List.mem_of_getElem? hqj'
  have hcv := fun s => rawLoop_curve hp hd he hc hqj s
  have hcv' := fun s => rawLoop_curve hp hd he hc hqj' s
  have hXX : curveAt (rawLoop p d) j t = curveAt (rawLoop p d) j' t' := by
    rcases hx with h | h
    · exact hE.on _ h
    · exact (hE.on _ h).symm
  obtain ⟨ht0', ht1'⟩ : 0 < t' ∧ t' < 1 := ⟨(hE.ok _ (cut_mem hx.symm)).pos, (hE.ok _ (cut_mem hx.symm)).lt⟩
  have hkq' : Keeps p |d| (q'.curve p d t') := by rw [← hcv', ← hXX]; exact hk
  obtain ⟨ε, hε, hnear⟩ := gain_near hp hd he hc (part_not_mitred hqm') (part_forward hp hd he hc hf hqj' ht0'.le ht1'.le hkq') ht0' ht1'
  have hcont := edist_continuous (curveAt_continuous hn j) (const_continuous (curveAt (rawLoop p d) j t))
  have hz : edist (curveAt (rawLoop p d) j t) (curveAt (rawLoop p d) j t) = 0 := by unfold edist; simp
  obtain ⟨δ₁, hδ₁, hball⟩ := Metric.continuous_iff.mp hcont t ε hε
  refine ⟨min δ δ₁, lt_min hδ hδ₁, fun s s0 s1 => ?_⟩
  obtain ⟨s1, s2⟩ := lt_min_iff.mp s1
  by_contra hneg
  push Not at hneg
  have habs : |t + σ * s - t| = s := by
    rw [add_sub_cancel_left]
    rcases hσ with rfl | rfl
    · rw [one_mul, abs_of_pos s0]
    · rw [neg_one_mul, abs_neg, abs_of_pos s0]
  have h1 := hball (t + σ * s) (by rw [Real.dist_eq, habs]; exact s2)
  rw [hz, Real.dist_eq, sub_zero, abs_of_nonneg (edist_nonneg _ _), edist_comm, hXX, hcv', hcv] at h1
  exact hnear _ h1 hneg (by rw [← hcv]; exact h s s0 s1)

/-- the raw offset keeps the distance just after (`σ = 1`) or just before (`σ = -1`) a cut -/
def KeptBeside (p : Pline ℝ) (d σ : ℝ) (c : Cut) : Prop := ∃ δ > 0, ∀ s, 0 < s → s < δ → Keeps p |d| (curveAt (rawLoop p d) c.1 (c.2 + σ * s))

/-- The branches at a crossing: those kept lead from one pass to the other, or stay on their pass. -/
theorem flow {gap : ℝ} {E : List (Cut × Cut)} (hf : FullLoop (rawLoop p d) eps) (hE : SelfCrossing (rawLoop p d) eps gap E) (hos : OneSided p d) {c c' : Cut}
    (hx : (c, c') ∈ E ∨ (c', c) ∈ E) (hk : Keeps p |d| (curveAt (rawLoop p d) c.1 c.2)) :
    ((KeptBeside p d 1 c ↔ KeptBeside p d (-1) c') ∧ (KeptBeside p d (-1) c ↔ KeptBeside p d 1 c')) ∨
    ((KeptBeside p d 1 c ↔ KeptBeside p d (-1) c) ∧ (KeptBeside p d 1 c' ↔ KeptBeside p d (-1) c')) := by
  obtain ⟨j, t⟩ := c
  obtain ⟨j', t'⟩ := c'
  dsimp only at hk
  have hj : j < (loopParts p d).length := by rw [← rawLoop_length]; exact hE.range _ (cut_mem hx)
  have hj' : j' < (loopParts p d).length := by rw [← rawLoop_length]; exact hE.range _ (cut_mem hx.symm)
  obtain ⟨q, hqj⟩ : ∃ q, (loopParts p d)[j]? = some q := ⟨_, List.getElem?_eq_getElem hj⟩
  obtain ⟨q', hqj'⟩ : ∃ q, (loopParts p d)[j']? = some q := ⟨_, List.getElem?_eq_getElem hj'⟩
  have hcv := fun s => rawLoop_curve hp hd he hc hqj s
  have hcv' := fun s => rawLoop_curve hp hd he hc hqj' s
  have hXX : curveAt (rawLoop p d) j t = curveAt (rawLoop p d) j' t' := by
    rcases hx with h | h
    · exact hE.on _ h
    · exact (hE.on _ h).symm
  obtain ⟨ht0, ht1⟩ : 0 < t ∧ t < 1 := ⟨(hE.ok _ (cut_mem hx)).pos, (hE.ok _ (cut_mem hx)).lt⟩
  obtain ⟨ht0', ht1'⟩ : 0 < t' ∧ t' < 1 := ⟨(hE.ok _ (cut_mem hx.symm)).pos, (hE.ok _ (cut_mem hx.symm)).lt⟩
  have hk' : Keeps p |d| (curveAt (rawLoop p d) j' t') := hXX ▸ hk
  have b := fun σ hσ => branch_iff hp hd he hc hf hE hos hx hk hqj hqj' (σ := σ) hσ
  have b' := fun σ hσ => branch_iff hp hd he hc hf hE hos hx.symm hk' hqj' hqj (σ := σ) hσ
  have hnm := part_not_mitred (List.mem_of_getElem? hqj)
  have hnm' := part_not_mitred (List.mem_of_getElem? hqj')
  rw [hcv] at hk
  rw [hcv'] at hk'
  rw [hcv, hcv'] at hXX
  have g := gain_zero hp hd he hc hnm ht0.le ht1.le hk
  have g' := gain_zero hp hd he hc hnm' ht0'.le ht1'.le hk'
  have fw := part_forward hp hd he hc hf hqj ht0.le ht1.le hk
  have fw' := part_forward hp hd he hc hf hqj' ht0'.le ht1'.le hk'
  have hturn : Turns (fun h => q'.gain p d (q.curve p d (t + h))) (fun h => q.gain p d (q'.curve p d (t' + h))) := by
    cases q with
    | side k =>
      cases q' with
      | side k' => exact side_side hp hd he hc hXX g g' (fw k rfl) (fw' k' rfl)
      | corner k' =>
        obtain ⟨hn, hneg⟩ := corner_kind hp hd he hc (hnm' k' rfl) ht0'.le ht1'.le hk'
        exact side_corner hp hd he hc hXX g g' (fw k rfl) hn hneg
    | corner k =>
      obtain ⟨hn, hneg⟩ := corner_kind hp hd he hc (hnm k rfl) ht0.le ht1.le hk
      cases q' with
      | side k' => exact (side_corner hp hd he hc hXX.symm g' g (fw' k' rfl) hn hneg).swap
      | corner k' =>
        obtain ⟨hn', hneg'⟩ := corner_kind hp hd he hc (hnm' k' rfl) ht0'.le ht1'.le hk'
        exact corner_corner hp hd he hc hXX g g' hn hneg hn' hneg'
  have k1 : KeptBeside p d 1 (j, t) ↔ _ := b 1 (Or.inl rfl)
  have k2 : KeptBeside p d (-1) (j, t) ↔ _ := b (-1) (Or.inr rfl)
  have k3 : KeptBeside p d 1 (j', t') ↔ _ := b' 1 (Or.inl rfl)
  have k4 : KeptBeside p d (-1) (j', t') ↔ _ := b' (-1) (Or.inr rfl)
  simp only [one_mul, neg_one_mul] at k1 k2 k3 k4
  -- a sign that holds close by decides
  have yes : ∀ {G : ℝ → ℝ} {δ : ℝ}, 0 < δ → (∀ h, 0 < h → h < δ → 0 < G h) → ∃ δ > 0, ∀ s, 0 < s → s < δ → 0 ≤ G s :=
    fun hδ h => ⟨_, hδ, fun s s0 s1 => (h s s0 s1).le⟩
  have no : ∀ {G : ℝ → ℝ} {δ : ℝ}, 0 < δ → (∀ h, 0 < h → h < δ → G h < 0) → ¬ ∃ δ > 0, ∀ s, 0 < s → s < δ → 0 ≤ G s := by
    rintro G δ hδ h ⟨δ', hδ', h'⟩
    obtain ⟨s, s0, s1⟩ := exists_between (lt_min hδ hδ')
    have := h s s0 (lt_min_iff.mp s1).1
    have := h' s s0 (lt_min_iff.mp s1).2
    linarith
  rcases hturn with ⟨δ, hδ, h⟩ | ⟨δ, hδ, h⟩ | h
  · left
    have y1 := k1.mpr (yes hδ fun x x0 x1 => (h x x0 x1).1.1)
    have n2 := mt k2.mp (no hδ fun x x0 x1 => (h x x0 x1).1.2)
    have n3 := mt k3.mp (no hδ fun x x0 x1 => (h x x0 x1).2.1)
    have y4 := k4.mpr (yes hδ fun x x0 x1 => (h x x0 x1).2.2)
    exact ⟨⟨fun _ => y4, fun _ => y1⟩, ⟨fun h => absurd h n2, fun h => absurd h n3⟩⟩
  · left
    have n1 := mt k1.mp (no hδ fun x x0 x1 => (h x x0 x1).1.1)
    have y2 := k2.mpr (yes hδ fun x x0 x1 => (h x x0 x1).1.2)
    have y3 := k3.mpr (yes hδ fun x x0 x1 => (h x x0 x1).2.1)
    have n4 := mt k4.mp (no hδ fun x x0 x1 => (h x x0 x1).2.2)
    exact ⟨⟨fun h => absurd h n1, fun h => absurd h n4⟩, ⟨fun _ => y3, fun _ => y2⟩⟩
  · right
    have e1 := fun s => (h s).1
    have e2 := fun s => (h s).2
    dsimp only at e1 e2
    rw [k1, k2, k3, k4]
    simp only [e1, e2, and_self]

end

end Cavc
