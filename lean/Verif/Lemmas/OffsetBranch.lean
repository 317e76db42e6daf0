import Verif.Lemmas.OffsetLocal
import Verif.Lemmas.SelfCuts

/-! # At a crossing that keeps the distance, one of the four branches of the raw offset keeps the distance -/

set_option linter.unusedVariables false
set_option linter.unusedSectionVars false

namespace Cavc
open Pline

theorem fwd_le {a b : V2 ℝ} (h : a ≠ b) (v X Y : V2 ℝ) : |fwd a b v X - fwd a b v Y| ≤ edist X Y := by
  have h1 := fwd_lft_sq h Y X
  have e : fwd a b v X - fwd a b v Y = fwd a b Y X := by unfold fwd; ring
  rw [e]
  apply abs_le_of_sq_le_sq _ (edist_nonneg _ _)
  nlinarith [sq_nonneg (lft a b Y X)]

theorem arc_cone_lt {a v b : V2 ℝ} {d : ℝ} (h1 : a ≠ v) (h2 : v ≠ b) (hneg : d * turnSin a v b < 0) {t : ℝ} (h0 : 0 < t) (ht : t < 1) :
    0 < fwd a v v (cornerArc a v b d t) ∧ fwd v b v (cornerArc a v b d t) < 0 := by
  have hs : turnSin a v b ≠ 0 := by intro h; rw [h] at hneg; simp at hneg
  obtain ⟨b1, b2⟩ := halfTurn_bounds a v b
  rw [(cornerArc_frame h1 d t).1, cornerArc_next h1 h2 hs]
  rcases turn_sign h1 h2 hneg with ⟨hd, hh⟩ | ⟨hd, hh⟩
  · have k1 : Real.sin (t * (2 * halfTurn a v b)) < 0 := Real.sin_neg_of_neg_of_neg_pi_lt (by nlinarith) (by nlinarith)
    have k2 : Real.sin (2 * halfTurn a v b - t * (2 * halfTurn a v b)) < 0 :=
      Real.sin_neg_of_neg_of_neg_pi_lt (by nlinarith) (by nlinarith)
    constructor <;> nlinarith
  · have k1 : 0 < Real.sin (t * (2 * halfTurn a v b)) := Real.sin_pos_of_pos_of_lt_pi (by nlinarith) (by nlinarith)
    have k2 : 0 < Real.sin (2 * halfTurn a v b - t * (2 * halfTurn a v b)) :=
      Real.sin_pos_of_pos_of_lt_pi (by nlinarith) (by nlinarith)
    constructor <;> nlinarith

/-- positive on the far side of the line or of the circle to which a part of the raw offset belongs -/
noncomputable def RawPart.gain (p : Pline ℝ) (d : ℝ) : RawPart → V2 ℝ → ℝ
  | .side k, X => d * lft (cornerPos p k) (cornerPos p (k + 1)) (cornerPos p k) X - d ^ 2
  | .corner k, X => edist X (cornerPos p (k + 1)) ^ 2 - d ^ 2

section
variable {p : Pline ℝ} {d eps : ℝ} (hp : StraightLoop p) (hd : d ≠ 0) (he : 0 < eps) (hc : ∀ k, ClearTurn p d eps k)
include hp

theorem corner_apart (k : Nat) : cornerPos p k ≠ cornerPos p (k + 1) := hp.apart k

include hd he hc

theorem corner_curve {k : Nat} (hn : setbackAt p d k < 0) (t : ℝ) :
    (RawPart.corner k).curve p d t = cornerArc (cornerPos p k) (cornerPos p (k + 1)) (cornerPos p (k + 2)) d t := by
  unfold RawPart.curve; simp only [hn, if_true]

theorem gain_zero {q : RawPart} (hq : ∀ k, q = .corner k → ¬ Mitred p d k) {t : ℝ} (h0 : 0 ≤ t) (h1 : t ≤ 1) (hk : Keeps p |d| (q.curve p d t)) :
    q.gain p d (q.curve p d t) = 0 := by
  cases q with
  | side k =>
    unfold RawPart.gain RawPart.curve sidePt
    dsimp only
    rw [(moved_frame (corner_apart hp k) d _).2.1]; ring
  | corner k =>
    obtain ⟨hn, -⟩ := corner_kind hp hd he hc (hq k rfl) h0 h1 hk
    rw [corner_curve hp hd he hc hn]
    unfold RawPart.gain
    dsimp only
    rw [cornerArc_dist (corner_apart hp k), sq_abs, sub_self]

/-- Near a point of a part, the distance to the sides of the part is kept on the far side. -/
theorem gain_far {q : RawPart} (hq : ∀ k, q = .corner k → ¬ Mitred p d k) {t : ℝ} (h0 : 0 < t) (h1 : t < 1) (hk : Keeps p |d| (q.curve p d t)) :
    ∃ ε > 0, ∀ Y, edist (q.curve p d t) Y < ε → 0 ≤ q.gain p d Y → ∀ m, q.Own p m → FarAt p |d| Y m := by
  cases q with
  | side k =>
    refine ⟨1, one_pos, fun Y _ hg m hm => ?_⟩
    rw [farAt_congr hm]
    unfold FarAt
    rw [far_start (corner_apart hp k) (abs_nonneg d)]
    intro w _ _
    have := fwd_lft_sq (corner_apart hp k) (cornerPos p k) Y
    unfold RawPart.gain at hg
    dsimp only at hg
    change fwd (cornerPos p k) (cornerPos p (k + 1)) _ _ ^ 2 + lft (cornerPos p k) (cornerPos p (k + 1)) _ _ ^ 2 = _ at this
    rw [← this, sq_abs]
    nlinarith [sq_nonneg (lft (cornerPos p k) (cornerPos p (k + 1)) (cornerPos p k) Y - d), sq_nonneg (fwd (cornerPos p k) (cornerPos p (k + 1)) (cornerPos p k) Y - w)]
  | corner k =>
    obtain ⟨hn, hneg⟩ := corner_kind hp hd he hc (hq k rfl) h0.le h1.le hk
    obtain ⟨c1, c2⟩ := arc_cone_lt (a := cornerPos p k) (v := cornerPos p (k + 1)) (b := cornerPos p (k + 2)) (corner_apart hp k) (corner_apart hp (k + 1)) hneg h0 h1
    rw [← corner_curve hp hd he hc hn] at c1 c2
    refine ⟨_, lt_min c1 (neg_pos.mpr c2), fun Y hY hg m hm => ?_⟩
    obtain ⟨y1, y2⟩ := lt_min_iff.mp hY
    have l1 := abs_le.mp (fwd_le (corner_apart hp k) (cornerPos p (k + 1)) ((RawPart.corner k).curve p d t) Y)
    have l2 := abs_le.mp (fwd_le (corner_apart hp (k + 1)) (cornerPos p (k + 1)) ((RawPart.corner k).curve p d t) Y)
    change _ ≤ fwd (cornerPos p k) (cornerPos p (k + 1)) _ _ - fwd (cornerPos p k) (cornerPos p (k + 1)) _ _ ∧ fwd (cornerPos p k) (cornerPos p (k + 1)) _ _ - fwd (cornerPos p k) (cornerPos p (k + 1)) _ _ ≤ _ at l1
    change _ ≤ fwd (cornerPos p (k + 1)) (cornerPos p (k + 2)) _ _ - fwd (cornerPos p (k + 1)) (cornerPos p (k + 2)) _ _ ∧ fwd (cornerPos p (k + 1)) (cornerPos p (k + 2)) _ _ - fwd (cornerPos p (k + 1)) (cornerPos p (k + 2)) _ _ ≤ _ at l2
    obtain ⟨f1, f2⟩ := cone_far (a := cornerPos p k) (v := cornerPos p (k + 1)) (b := cornerPos p (k + 2)) (corner_apart hp k) (corner_apart hp (k + 1)) (edist_nonneg Y _)
      rfl (by linarith) (by linarith)
    unfold RawPart.gain at hg
    dsimp only at hg
    have hr : |d| ≤ edist Y (cornerPos p (k + 1)) := abs_le_of_sq_le_sq (by linarith) (edist_nonneg _ _)
    rcases hm with hm | hm
    · rw [farAt_congr hm]; exact fun u u0 u1 => hr.trans (f1 u u0 u1)
    · rw [farAt_congr hm]; exact fun u u0 u1 => hr.trans (f2 u u0 u1)

theorem side_line (k : Nat) (t h : ℝ) : ∃ w : V2 ℝ, ∀ h, (RawPart.side k).curve p d (t + h) = ⟨((RawPart.side k).curve p d t).x + h * w.x, ((RawPart.side k).curve p d t).y + h * w.y⟩ := by
  refine ⟨⟨(sideEnd p d k - sideStart p d k) * ((cornerPos p (k + 1)).x - (cornerPos p k).x), (sideEnd p d k - sideStart p d k) * ((cornerPos p (k + 1)).y - (cornerPos p k).y)⟩, fun h => ?_⟩
  unfold RawPart.curve sidePt moved
  dsimp only
  rw [V2.ext_iff']
  dsimp only
  constructor <;> ring

/-- a sign that does not decrease a quantity -/
theorem pick_sign (B : ℝ) : ∃ σ : ℝ, (σ = 1 ∨ σ = -1) ∧ 0 ≤ σ * B := by
  rcases le_total 0 B with h | h
  · exact ⟨1, Or.inl rfl, by linarith⟩
  · exact ⟨-1, Or.inr rfl, by linarith⟩

/-- Along a straight part through a point of another part, one direction leads to the far side of the other part. -/
theorem side_gain (k : Nat) (t : ℝ) (q : RawPart) (hX : q.gain p d ((RawPart.side k).curve p d t) = 0) :
    ∃ σ : ℝ, (σ = 1 ∨ σ = -1) ∧ ∀ s, 0 < s → 0 ≤ q.gain p d ((RawPart.side k).curve p d (t + σ * s)) := by
  obtain ⟨w, hw⟩ := side_line hp hd he hc k t 0
  set X := (RawPart.side k).curve p d t with hXd
  cases q with
  | side k' =>
    obtain ⟨σ, hσ, hs⟩ := pick_sign hp hd he hc (d * (w.y * (((cornerPos p (k' + 1)).x - (cornerPos p k').x) / edist (cornerPos p k') (cornerPos p (k' + 1))) -
      w.x * (((cornerPos p (k' + 1)).y - (cornerPos p k').y) / edist (cornerPos p k') (cornerPos p (k' + 1)))))
    refine ⟨σ, hσ, fun s hs0 => ?_⟩
    rw [hw]
    unfold RawPart.gain lft at hX ⊢
    dsimp only at hX ⊢
    have := mul_nonneg hs hs0.le
    linarith
  | corner k' =>
    obtain ⟨σ, hσ, hs⟩ := pick_sign hp hd he hc (w.x * (X.x - (cornerPos p (k' + 1)).x) + w.y * (X.y - (cornerPos p (k' + 1)).y))
    refine ⟨σ, hσ, fun s hs0 => ?_⟩
    rw [hw]
    unfold RawPart.gain at hX ⊢
    dsimp only at hX ⊢
    rw [edist_sq] at hX ⊢
    dsimp only
    have := mul_nonneg hs hs0.le
    nlinarith [sq_nonneg (σ * s * w.x), sq_nonneg (σ * s * w.y)]

theorem rotV_shift (x y : ℝ) (v : V2 ℝ) : rotV (x + y) v = rotV y (rotV x v) := by
  rw [V2.ext_iff']
  unfold rotV
  dsimp only
  rw [Real.cos_add, Real.sin_add]
  constructor <;> ring

/-- the same along an arc through a point of another arc -/
theorem corner_gain {k k' : Nat} (hn : setbackAt p d k < 0) (t : ℝ) (hX : (RawPart.corner k').gain p d ((RawPart.corner k).curve p d t) = 0) :
    ∃ σ : ℝ, (σ = 1 ∨ σ = -1) ∧ ∃ δ > 0, ∀ s, 0 < s → s < δ → 0 ≤ (RawPart.corner k').gain p d ((RawPart.corner k).curve p d (t + σ * s)) := by
  set v := cornerPos p (k + 1) with hv
  set v' := cornerPos p (k' + 1) with hv'
  set θ := 2 * halfTurn (cornerPos p k) (cornerPos p (k + 1)) (cornerPos p (k + 2)) with hθ
  obtain ⟨b1, b2⟩ := halfTurn_bounds (cornerPos p k) (cornerPos p (k + 1)) (cornerPos p (k + 2))
  rw [← hθ] at b1 b2
  set X := (RawPart.corner k).curve p d t with hXd
  have hdist : edist X v ^ 2 = d ^ 2 := by
    rw [hXd, corner_curve hp hd he hc hn, cornerArc_dist (corner_apart hp k), sq_abs]
  have hmove : ∀ h, (RawPart.corner k).curve p d (t + h) = ⟨v.x + (rotV (h * θ) ⟨X.x - v.x, X.y - v.y⟩).x, v.y + (rotV (h * θ) ⟨X.x - v.x, X.y - v.y⟩).y⟩ := by
    intro h
    rw [hXd, corner_curve hp hd he hc hn, corner_curve hp hd he hc hn]
    unfold cornerArc
    rw [← hθ, add_mul, rotV_shift hp hd he hc]
    dsimp only
    simp only [← hv]
    congr 3 <;> (congr 1; ring)
  obtain ⟨σ, hσ, hs⟩ := pick_sign hp hd he hc (θ * (-(((v'.y - v.y) * (X.x - v.x)) - ((v'.x - v.x) * (X.y - v.y)))))
  refine ⟨σ, hσ, 1, one_pos, fun s hs0 hs1 => ?_⟩
  rw [hmove]
  unfold RawPart.gain at hX ⊢
  dsimp only at hX ⊢
  rw [← hv'] at hX ⊢
  rw [edist_sq] at hX hdist ⊢
  unfold rotV
  dsimp only
  set φ := σ * s * θ with hφ
  have hcs := Real.sin_sq_add_cos_sq φ
  have hc1 := Real.cos_le_one φ
  -- the sine has the sign of the angle
  have hsin : 0 ≤ Real.sin φ * (-(((v'.y - v.y) * (X.x - v.x)) - ((v'.x - v.x) * (X.y - v.y)))) := by
    have hb : |φ| < Real.pi := by
      rw [hφ, abs_mul, abs_mul, abs_of_pos hs0]
      have hσ1 : |σ| = 1 := by rcases hσ with rfl | rfl <;> simp
      have := abs_lt.mpr ⟨b1, b2⟩
      rw [hσ1, one_mul]
      nlinarith [abs_nonneg θ]
    obtain ⟨p1, p2⟩ := abs_lt.mp hb
    have hm := mul_nonneg hs hs0.le
    set C := -(((v'.y - v.y) * (X.x - v.x)) - ((v'.x - v.x) * (X.y - v.y))) with hC
    have hφC : 0 ≤ φ * C := by rw [hφ]; linarith
    rcases lt_trichotomy φ 0 with h | h | h
    · have := Real.sin_neg_of_neg_of_neg_pi_lt h p1
      have : C ≤ 0 := by by_contra hh; push Not at hh; nlinarith
      nlinarith
    · rw [h]; simp
    · have := Real.sin_pos_of_pos_of_lt_pi h p2
      have : 0 ≤ C := by by_contra hh; push Not at hh; nlinarith
      nlinarith
  nlinarith [sq_nonneg (v'.x - v.x), sq_nonneg (v'.y - v.y)]

/-- From a common point of two parts, one direction on one of them leads to the far side of the other. -/
theorem leave {q q' : RawPart} (hq : ∀ k, q = .corner k → ¬ Mitred p d k) (hq' : ∀ k, q' = .corner k → ¬ Mitred p d k) {t t' : ℝ} (h0 : 0 < t) (h1 : t < 1)
    (h0' : 0 < t') (h1' : t' < 1) (hX : q.curve p d t = q'.curve p d t') (hk : Keeps p |d| (q.curve p d t)) :
    (∃ σ : ℝ, (σ = 1 ∨ σ = -1) ∧ ∃ δ > 0, ∀ s, 0 < s → s < δ → 0 ≤ q'.gain p d (q.curve p d (t + σ * s))) ∨
    ∃ σ : ℝ, (σ = 1 ∨ σ = -1) ∧ ∃ δ > 0, ∀ s, 0 < s → s < δ → 0 ≤ q.gain p d (q'.curve p d (t' + σ * s)) := by
  have hk' : Keeps p |d| (q'.curve p d t') := hX ▸ hk
  have g := gain_zero hp hd he hc hq h0.le h1.le hk
  have g' := gain_zero hp hd he hc hq' h0'.le h1'.le hk'
  cases q with
  | side k =>
    obtain ⟨σ, hσ, h⟩ := side_gain hp hd he hc k t q' (by rw [hX]; exact g')
    exact Or.inl ⟨σ, hσ, 1, one_pos, fun s hs _ => h s hs⟩
  | corner k =>
    cases q' with
    | side k' =>
      obtain ⟨σ, hσ, h⟩ := side_gain hp hd he hc k' t' (.corner k) (by rw [← hX]; exact g)
      exact Or.inr ⟨σ, hσ, 1, one_pos, fun s hs _ => h s hs⟩
    | corner k' =>
      obtain ⟨hn, -⟩ := corner_kind hp hd he hc (hq k rfl) h0.le h1.le hk
      exact Or.inl (corner_gain hp hd he hc hn t (by rw [hX]; exact g'))

/-- A direction from a crossing to the far side of the other part keeps the distance. -/
theorem keep_branch {gap : ℝ} {E : List (Cut × Cut)} (hE : SelfCrossing (rawLoop p d) eps gap E) (hos : OneSided p d) {j j' : Nat} {t t' : ℝ}
    (hx : ((j, t), (j', t')) ∈ E ∨ ((j', t'), (j, t)) ∈ E) (hk : Keeps p |d| (curveAt (rawLoop p d) j t)) {q q' : RawPart}
    (hqj : (loopParts p d)[j]? = some q) (hqj' : (loopParts p d)[j']? = some q') {σ δ : ℝ} (hσ : σ = 1 ∨ σ = -1) (hδ : 0 < δ)
    (hg : ∀ s, 0 < s → s < δ → 0 ≤ q'.gain p d (q.curve p d (t + σ * s))) :
    ∃ δ > 0, ∀ s, 0 < s → s < δ → Keeps p |d| (curveAt (rawLoop p d) j (t + σ * s)) := by
  have hj : j < (rawLoop p d).verts.length := hE.range _ (cut_mem hx)
  have hn : 0 < (rawLoop p d).verts.length := by omega
  have hnp : 0 < p.verts.length := by have := hp.two; omega
  have hqm : q ∈ loopParts p d := List.mem_of_getElem? hqj
  have hqm' : q' ∈ loopParts p d := List.mem_of_getElem? hqj'
  have hcv := fun s => rawLoop_curve hp hd he hc hqj s
  have hcv' := fun s => rawLoop_curve hp hd he hc hqj' s
  have hXX : curveAt (rawLoop p d) j t = curveAt (rawLoop p d) j' t' := by
    rcases hx with h | h
    · exact hE.on _ h
    · exact (hE.on _ h).symm
  obtain ⟨ht0, ht1⟩ : 0 < t ∧ t < 1 := ⟨(hE.ok _ (cut_mem hx)).pos, (hE.ok _ (cut_mem hx)).lt⟩
  obtain ⟨ht0', ht1'⟩ : 0 < t' ∧ t' < 1 := ⟨(hE.ok _ (cut_mem hx.symm)).pos, (hE.ok _ (cut_mem hx.symm)).lt⟩
  have hkq : Keeps p |d| (q.curve p d t) := by rw [← hcv]; exact hk
  have hkq' : Keeps p |d| (q'.curve p d t') := by rw [← hcv', ← hXX]; exact hk
  have hoff : OffsetPt p d (curveAt (rawLoop p d) j t) := by
    rw [hcv]
    exact part_offset hp hd he hc (part_not_mitred hqm) ht0.le ht1.le hkq
  have hfar := (keeps_far hp).mp hk
  obtain ⟨ε, hε, hown'⟩ := gain_far hp hd he hc (part_not_mitred hqm') ht0' ht1' hkq'
  -- close to the crossing
  have hcont := edist_continuous (curveAt_continuous hn j) (const_continuous (curveAt (rawLoop p d) j t))
  have hz : edist (curveAt (rawLoop p d) j t) (curveAt (rawLoop p d) j t) = 0 := by unfold edist; simp
  obtain ⟨δ₁, hδ₁, hball⟩ := Metric.continuous_iff.mp hcont t ε hε
  have key : ∀ m, ∃ δ' > 0, ∀ x, |x - t| < δ' → (0 ≤ x → x ≤ 1 → 0 ≤ q'.gain p d (q.curve p d x) → FarAt p |d| (curveAt (rawLoop p d) j x) m) := by
    intro m
    by_cases hne : ∀ u, 0 ≤ u → u ≤ 1 → edist (curveAt (rawLoop p d) j t) (linePoint (cornerPos p m) (cornerPos p (m + 1)) u) ≠ |d|
    · obtain ⟨δ, hδ, h⟩ := far_while hn j (hfar m) hne
      exact ⟨δ, hδ, fun t' ht' _ _ _ => h t' ht'⟩
    · refine ⟨δ₁, hδ₁, fun x hx1 hx0' hx1' hgx => ?_⟩
      push Not at hne
      obtain ⟨u, hu0, hu1, hu⟩ := hne
      rcases near_part hp hd he hc hk hu0 hu1 hu with ⟨q'', hq'', ho, u', hu0', hu1', hX⟩ | h
      · obtain ⟨i, hi, hqe⟩ := List.getElem_of_mem hq''
        have hqi : (loopParts p d)[i]? = some q'' := by rw [List.getElem?_eq_getElem hi, hqe]
        have hXi : curveAt (rawLoop p d) j t = curveAt (rawLoop p d) i u' := by rw [hX, rawLoop_curve hp hd he hc hqi]
        have hcase : i = j ∨ i = j' := by
          rcases Nat.lt_trichotomy j i with hlt | heq | hlt
          · rcases hE.all j t i u' hlt (by rw [rawLoop_length]; exact hi) ht0.le ht1.le hu0' hu1' hXi with ⟨e1, e2, e3⟩ | ⟨e1, e2, e3, e4⟩ | h
            · linarith
            · linarith
            · exact Or.inr (congrArg Prod.fst (partner_unique hE.nodup (Or.inl h) hx))
          · exact Or.inl heq.symm
          · rcases hE.all i u' j t hlt hj hu0' hu1' ht0.le ht1.le hXi.symm with ⟨e1, e2, e3⟩ | ⟨e1, e2, e3, e4⟩ | h
            · linarith
            · linarith
            · exact Or.inr (congrArg Prod.fst (partner_unique hE.nodup (Or.inr h) hx))
        rcases hcase with rfl | rfl
        · rw [hqi] at hqj
          injection hqj with hqj
          subst hqj
          rw [hcv]
          exact own_far hp hd he hc (part_not_mitred hqm) ho ht0.le ht1.le hkq hx0' hx1'
        · rw [hqi] at hqj'
          injection hqj' with hqj'
          subst hqj'
          rw [hcv]
          refine hown' _ ?_ hgx m ho
          have h1 := hball x (by rw [Real.dist_eq]; exact hx1)
          rw [hz, Real.dist_eq, sub_zero, abs_of_nonneg (edist_nonneg _ _), edist_comm, hXX, hcv', hcv] at h1
          exact h1
      · exact absurd ⟨hoff, h⟩ (hos _)
  obtain ⟨δ', hδ', h⟩ := finite_while key p.verts.length
  refine ⟨min (min δ δ') (min t (1 - t)), lt_min (lt_min hδ hδ') (lt_min ht0 (by linarith)), fun s hs0 hs => ?_⟩
  obtain ⟨hs1, hs2⟩ := lt_min_iff.mp hs
  obtain ⟨hs1, hs3⟩ := lt_min_iff.mp hs1
  obtain ⟨hs2, hs4⟩ := lt_min_iff.mp hs2
  have habs : |t + σ * s - t| = s := by
    rw [add_sub_cancel_left]
    rcases hσ with rfl | rfl
    · rw [one_mul, abs_of_pos hs0]
    · rw [neg_one_mul, abs_neg, abs_of_pos hs0]
  have hin : 0 ≤ t + σ * s ∧ t + σ * s ≤ 1 := by
    rcases hσ with rfl | rfl <;> constructor <;> linarith
  rw [keeps_far hp]
  intro m
  rw [← farAt_congr (Nat.mod_mod m p.verts.length)]
  exact h _ (by rw [habs]; exact hs3) _ (Nat.mod_lt _ hnp) hin.1 hin.2 (hg s hs0 hs1)

/-- At a crossing that keeps the distance, one of the four branches keeps the distance for a while. -/
theorem branch {gap : ℝ} {E : List (Cut × Cut)} (hE : SelfCrossing (rawLoop p d) eps gap E) (hos : OneSided p d) {c : Cut} (hcut : c ∈ bothCuts E)
    (hk : Keeps p |d| (curveAt (rawLoop p d) c.1 c.2)) :
    ∃ c' ∈ bothCuts E, curveAt (rawLoop p d) c'.1 c'.2 = curveAt (rawLoop p d) c.1 c.2 ∧ ∃ σ : ℝ, (σ = 1 ∨ σ = -1) ∧ ∃ δ > 0, ∀ s, 0 < s → s < δ →
      Keeps p |d| (curveAt (rawLoop p d) c'.1 (c'.2 + σ * s)) := by
  obtain ⟨c', hx⟩ : ∃ c', (c, c') ∈ E ∨ (c', c) ∈ E := by
    rcases List.mem_append.mp hcut with h | h
    · obtain ⟨e, he, rfl⟩ := List.mem_map.mp h
      exact ⟨e.2, Or.inl he⟩
    · obtain ⟨e, he, rfl⟩ := List.mem_map.mp h
      exact ⟨e.1, Or.inr he⟩
  obtain ⟨j, t⟩ := c
  obtain ⟨j', t'⟩ := c'
  have hj : j < (loopParts p d).length := by rw [← rawLoop_length]; exact hE.range _ (cut_mem hx)
  have hj' : j' < (loopParts p d).length := by rw [← rawLoop_length]; exact hE.range _ (cut_mem hx.symm)
  have hqj : (loopParts p d)[j]? = some (loopParts p d)[j] := List.getElem?_eq_getElem hj
  have hqj' : (loopParts p d)[j']? = some (loopParts p d)[j'] := List.getElem?_eq_getElem hj'
  have hcv := fun s => rawLoop_curve hp hd he hc hqj s
  have hcv' := fun s => rawLoop_curve hp hd he hc hqj' s
  have hXX : curveAt (rawLoop p d) j t = curveAt (rawLoop p d) j' t' := by
    rcases hx with h | h
    · exact hE.on _ h
    · exact (hE.on _ h).symm
  dsimp only at hk
  rcases leave hp hd he hc (part_not_mitred (List.getElem_mem hj)) (part_not_mitred (List.getElem_mem hj')) (hE.ok _ (cut_mem hx)).pos (hE.ok _ (cut_mem hx)).lt
      (hE.ok _ (cut_mem hx.symm)).pos (hE.ok _ (cut_mem hx.symm)).lt (by rw [← hcv, ← hcv']; exact hXX) (by rw [← hcv]; exact hk) with
    ⟨σ, hσ, δ, hδ, h⟩ | ⟨σ, hσ, δ, hδ, h⟩
  · exact ⟨_, cut_mem hx, rfl, σ, hσ, keep_branch hp hd he hc hE hos hx hk hqj hqj' hσ hδ h⟩
  · exact ⟨_, cut_mem hx.symm, hXX.symm, σ, hσ, keep_branch hp hd he hc hE hos hx.symm (hXX ▸ hk) hqj' hqj hσ hδ h⟩

end

end Cavc
