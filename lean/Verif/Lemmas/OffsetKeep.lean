import Verif.Lemmas.OffsetParts

/-! # Which points of the raw offset of straight segments keep the distance -/

set_option linter.unusedVariables false
set_option linter.unusedSectionVars false

namespace Cavc
open Pline

section
variable {a v b : V2 ℝ} {d : ℝ}

theorem mitre_in_rev (h1 : a ≠ v) (h2 : v ≠ b) (hs : turnSin a v b ≠ 0) {u : ℝ} (hu : 0 ≤ u) (hb : u * edist v b < setback a v b d)
    (hL : setback a v b d ≤ edist a v) : ¬ FarSide |d| (moved v b d u) a v := by
  rw [← farSide_rev, ← moved_rev, ← abs_neg]
  refine mitre_in h2.symm h1.symm (by rw [turnSin_rev]; simpa using hs) (by linarith) ?_ ?_
  · rw [setback_rev, edist_rev]
    have : (1 - (1 - u)) = u := by ring
    rwa [this]
  · rwa [setback_rev, edist_rev]

theorem mitre_out_rev (h1 : a ≠ v) (h2 : v ≠ b) (hs : turnSin a v b ≠ 0) {u : ℝ} (hm0 : 0 ≤ setback a v b d) (hb : setback a v b d ≤ u * edist v b) :
    FarSide |d| (moved v b d u) a v := by
  rw [← farSide_rev, ← moved_rev, ← abs_neg]
  refine mitre_out h2.symm h1.symm (by rw [turnSin_rev]; simpa using hs) (by rwa [setback_rev]) ?_
  rw [setback_rev, edist_rev]
  have : (1 - (1 - u)) = u := by ring
  rwa [this]

theorem convex_out_rev (h1 : a ≠ v) (h2 : v ≠ b) (hneg : d * turnSin a v b ≤ 0) {u : ℝ} (hu : 0 ≤ u) : FarSide |d| (moved v b d u) a v := by
  rw [← farSide_rev, ← moved_rev, ← abs_neg]
  exact convex_out h2.symm h1.symm (by rw [turnSin_rev]; linarith) (by linarith)

/-- a moved side keeps the distance to its own side -/
theorem own_out (h : a ≠ b) (u : ℝ) : FarSide |d| (moved a b d u) a b := by
  rw [far_start h (abs_nonneg d)]
  intro w _ _
  obtain ⟨e1, e2, -, -⟩ := moved_frame h d u
  have := fwd_lft_sq h a (moved a b d u)
  rw [e1, e2] at this
  rw [sq_abs, e1, ← this]
  nlinarith [sq_nonneg (u * edist a b - w)]

end

/-- the point keeps the distance to side `m` -/
def FarAt (p : Pline ℝ) (r : ℝ) (X : V2 ℝ) (m : Nat) : Prop := FarSide r X (cornerPos p m) (cornerPos p (m + 1))

theorem cornerPos_mod (p : Pline ℝ) (k : Nat) : cornerPos p (k % p.verts.length) = cornerPos p k := by
  unfold cornerPos; rw [vtx_mod]

theorem cornerPos_congr {p : Pline ℝ} {m k : Nat} (h : m % p.verts.length = k % p.verts.length) (i : Nat) : cornerPos p (m + i) = cornerPos p (k + i) := by
  rw [← cornerPos_mod, ← cornerPos_mod p (k + i), Nat.add_mod, h, ← Nat.add_mod]

theorem farAt_congr {p : Pline ℝ} {r : ℝ} {X : V2 ℝ} {m k : Nat} (h : m % p.verts.length = k % p.verts.length) : FarAt p r X m ↔ FarAt p r X k := by
  unfold FarAt
  rw [cornerPos_congr h 1]
  have := cornerPos_congr h 0
  simp only [Nat.add_zero] at this
  rw [this]

/-- the sides to which a part belongs -/
def RawPart.Own (p : Pline ℝ) : RawPart → Nat → Prop
  | .side k, m => m % p.verts.length = k % p.verts.length
  | .corner k, m => m % p.verts.length = k % p.verts.length ∨ m % p.verts.length = (k + 1) % p.verts.length

section
variable {p : Pline ℝ} {d eps : ℝ} (hp : StraightLoop p) (hd : d ≠ 0) (he : 0 < eps) (hc : ∀ k, ClearTurn p d eps k)
include hp

theorem straight_curve (m : Nat) (u : ℝ) : curveAt p m u = linePoint (cornerPos p m) (cornerPos p (m + 1)) u := by
  have h2 := hp.two
  rw [curveAt_vtx (by omega), segCurve_line (hp.line m)]
  rfl

theorem keeps_far {r : ℝ} {X : V2 ℝ} : Keeps p r X ↔ ∀ m, FarAt p r X m := by
  have h2 := hp.two
  constructor
  · intro h m u h0 h1
    rw [← straight_curve hp]
    apply h
    refine ⟨(vtx p (m % p.verts.length), vtx p (m % p.verts.length + 1)), ?_, u, h0, h1, ?_⟩
    · rw [segs_range hp.closed hp.two]
      exact List.mem_map.mpr ⟨_, by simpa using Nat.mod_lt _ (by omega), rfl⟩
    · rw [curveAt_vtx (by omega), vtx_mod, vtx_mod_succ]
  · rintro h q ⟨s, hs, u, h0, h1, rfl⟩
    rw [segs_range hp.closed hp.two] at hs
    obtain ⟨m, -, rfl⟩ := List.mem_map.mp hs
    have := h m u h0 h1
    rw [← straight_curve hp, curveAt_vtx (by omega)] at this
    exact this

theorem corner_back (k : Nat) : cornerPos p (k + p.verts.length - 1 + 1) = cornerPos p k ∧ cornerPos p (k + p.verts.length - 1 + 2) = cornerPos p (k + 1) := by
  have h2 := hp.two
  rw [show k + p.verts.length - 1 + 1 = k + p.verts.length by omega, show k + p.verts.length - 1 + 2 = k + 1 + p.verts.length by omega, cornerPos_add, cornerPos_add]
  exact ⟨rfl, rfl⟩

include hd he hc

theorem sideStart_range (k : Nat) : 0 ≤ sideStart p d k ∧ sideStart p d k ≤ 1 := by
  unfold sideStart
  split_ifs with hm
  · have hl := sideLen_pos hp hd he hc k
    obtain ⟨h0, -, h2⟩ := hm
    have e : sideLen p (k + p.verts.length - 1 + 1) = sideLen p k := by
      unfold sideLen
      rw [(corner_back hp k).1, (corner_back hp k).2]
    rw [e] at h2
    exact ⟨div_nonneg h0 hl.le, by rw [div_le_one hl]; exact h2⟩
  · norm_num

theorem sideEnd_range (k : Nat) : 0 ≤ sideEnd p d k ∧ sideEnd p d k ≤ 1 := by
  unfold sideEnd
  split_ifs with hm
  · have hl := sideLen_pos hp hd he hc k
    obtain ⟨h0, h1, -⟩ := hm
    have k1 : 0 ≤ setbackAt p d k / sideLen p k := div_nonneg h0 hl.le
    have k2 : setbackAt p d k / sideLen p k ≤ 1 := by rw [div_le_one hl]; exact h1
    constructor <;> linarith
  · norm_num

/-- A point beside a side that keeps the distance is on the part of the raw offset beside that side. -/
theorem side_range {k : Nat} {u : ℝ} (h0 : 0 ≤ u) (h1 : u ≤ 1) (hk : Keeps p |d| (sidePt p d k u)) : sideStart p d k ≤ u ∧ u ≤ sideEnd p d k := by
  rw [keeps_far hp] at hk
  have hl := sideLen_pos hp hd he hc k
  constructor
  · unfold sideStart
    split_ifs with hm
    · by_contra hlt
      push Not at hlt
      rw [lt_div_iff₀ hl] at hlt
      have hs := turn_ne hp hd he hc (k + p.verts.length - 1)
      obtain ⟨m0, m1, m2⟩ := hm
      have hf := hk (k + p.verts.length - 1)
      unfold FarAt at hf
      have h1' := hp.apart (k + p.verts.length - 1)
      have h2' := hp.apart (k + p.verts.length - 1 + 1)
      obtain ⟨e1, e2⟩ := corner_back hp k
      unfold setbackAt sideLen at *
      change cornerPos p (k + p.verts.length - 1) ≠ cornerPos p (k + p.verts.length - 1 + 1) at h1'
      change cornerPos p (k + p.verts.length - 1 + 1) ≠ cornerPos p (k + p.verts.length - 1 + 2) at h2'
      rw [e1] at h1'
      rw [e1, e2] at h2' hs hlt
      rw [e1] at hf m1
      rw [e2] at m1
      exact mitre_in_rev h1' h2' hs h0 hlt m1 hf
    · exact h0
  · unfold sideEnd
    split_ifs with hm
    · by_contra hlt
      push Not at hlt
      have hs := turn_ne hp hd he hc k
      obtain ⟨m0, m1, m2⟩ := hm
      have hf := hk (k + 1)
      refine mitre_in (a := cornerPos p k) (v := cornerPos p (k + 1)) (b := cornerPos p (k + 2)) (hp.apart k) (hp.apart (k + 1)) hs h1 ?_ m2 hf
      have : 1 - u < setbackAt p d k / sideLen p k := by linarith
      rwa [lt_div_iff₀ hl] at this
    · exact h1

/-- no point of a straight connection keeps the distance -/
theorem corner_kind {k : Nat} (hm : ¬ Mitred p d k) {t : ℝ} (h0 : 0 ≤ t) (h1 : t ≤ 1) (hk : Keeps p |d| ((RawPart.corner k).curve p d t)) :
    setbackAt p d k < 0 ∧ d * turnSin (cornerPos p k) (cornerPos p (k + 1)) (cornerPos p (k + 2)) < 0 := by
  have hs := turn_ne hp hd he hc k
  have hsg := setback_sign (a := cornerPos p k) (v := cornerPos p (k + 1)) (b := cornerPos p (k + 2)) (d := d) (hp.apart k) (hp.apart (k + 1)) hs
  have hneg : setbackAt p d k < 0 := by
    by_contra hn
    have hpos : 0 < setbackAt p d k := lt_of_le_of_ne (not_lt.mp hn) (setback_ne hp hd he hc k).symm
    rw [keeps_far hp] at hk
    have := chord_near (a := cornerPos p k) (v := cornerPos p (k + 1)) (b := cornerPos p (k + 2)) (hp.apart k) (hp.apart (k + 1)) (hsg.1.mp hpos) h0 h1
    unfold RawPart.curve at hk
    simp only [hn, if_false] at hk
    exact this ⟨hk k, hk (k + 1)⟩
  exact ⟨hneg, hsg.2.mp hneg⟩

/-- A part with a point that keeps the distance keeps the distance to its own sides. -/
theorem own_far {q : RawPart} (hq : ∀ k, q = .corner k → ¬ Mitred p d k) {m : Nat} (ho : q.Own p m) {t₀ : ℝ} (h0 : 0 ≤ t₀) (h1 : t₀ ≤ 1) (hk : Keeps p |d| (q.curve p d t₀))
    {t : ℝ} (ht0 : 0 ≤ t) (ht1 : t ≤ 1) : FarAt p |d| (q.curve p d t) m := by
  cases q with
  | side k =>
    rw [farAt_congr ho]
    exact own_out (hp.apart k) _
  | corner k =>
    obtain ⟨hn, hneg⟩ := corner_kind hp hd he hc (hq k rfl) h0 h1 hk
    have e : (RawPart.corner k).curve p d t = cornerArc (cornerPos p k) (cornerPos p (k + 1)) (cornerPos p (k + 2)) d t := by
      unfold RawPart.curve; simp only [hn, if_true]
    rw [e]
    obtain ⟨c1, c2⟩ := arc_cone (a := cornerPos p k) (v := cornerPos p (k + 1)) (b := cornerPos p (k + 2)) (hp.apart k) (hp.apart (k + 1)) hneg ht0 ht1
    obtain ⟨f1, f2⟩ := cone_far (a := cornerPos p k) (v := cornerPos p (k + 1)) (b := cornerPos p (k + 2)) (hp.apart k) (hp.apart (k + 1)) (abs_nonneg d)
      (cornerArc_dist (hp.apart k) d t) c1 c2
    rcases ho with ho | ho
    · rw [farAt_congr ho]; exact f1
    · rw [farAt_congr ho]; exact f2

theorem side_param {k : Nat} {t₀ : ℝ} (h0 : 0 ≤ t₀) (h1 : t₀ ≤ 1) (hk : Keeps p |d| ((RawPart.side k).curve p d t₀)) {t : ℝ} (ht0 : 0 ≤ t) (ht1 : t ≤ 1) :
    sideStart p d k ≤ sideStart p d k + t * (sideEnd p d k - sideStart p d k) ∧ sideStart p d k + t * (sideEnd p d k - sideStart p d k) ≤ sideEnd p d k := by
  obtain ⟨s0, s1⟩ := sideStart_range hp hd he hc k
  obtain ⟨e0, e1⟩ := sideEnd_range hp hd he hc k
  obtain ⟨r1, r2⟩ := side_range hp hd he hc (by nlinarith) (by nlinarith) hk
  constructor <;> nlinarith

/-- Neighbouring parts whose common point keeps the distance keep the distance to the sides of each other. -/
theorem adj_far {q : RawPart} (hq : ∀ k, q = .corner k → ¬ Mitred p d k) {X : V2 ℝ} (hX : X = q.curve p d 1) (hX' : X = (q.succ p d).curve p d 0)
    (hk : Keeps p |d| X) {m : Nat} {t : ℝ} (ht0 : 0 ≤ t) (ht1 : t ≤ 1) :
    ((q.succ p d).Own p m → FarAt p |d| (q.curve p d t) m) ∧ (q.Own p m → FarAt p |d| ((q.succ p d).curve p d t) m) := by
  have hk1 : Keeps p |d| (q.curve p d 1) := hX ▸ hk
  have hk2 : Keeps p |d| ((q.succ p d).curve p d 0) := hX' ▸ hk
  cases q with
  | side k =>
    have hl := sideLen_pos hp hd he hc k
    obtain ⟨r1, r2⟩ := side_param hp hd he hc zero_le_one le_rfl hk1 ht0 ht1
    have hu : sideStart p d k + t * (sideEnd p d k - sideStart p d k) ≤ 1 := le_trans r2 (sideEnd_range hp hd he hc k).2
    by_cases hm : Mitred p d k
    · have es : (RawPart.side k).succ p d = .side (k + 1) := by simp [RawPart.succ, hm]
      rw [es] at hk2 ⊢
      have hs := turn_ne hp hd he hc k
      have hl' := sideLen_pos hp hd he hc (k + 1)
      obtain ⟨r3, r4⟩ := side_param hp hd he hc le_rfl zero_le_one hk2 ht0 ht1
      refine ⟨fun ho => ?_, fun ho => ?_⟩
      · rw [farAt_congr ho]
        refine mitre_out (a := cornerPos p k) (v := cornerPos p (k + 1)) (b := cornerPos p (k + 2)) (hp.apart k) (hp.apart (k + 1)) hs hm.1 ?_
        have : sideEnd p d k = 1 - setbackAt p d k / sideLen p k := by unfold sideEnd; rw [if_pos hm]
        rw [this] at r2
        have h' : setbackAt p d k / sideLen p k ≤ 1 - (sideStart p d k + t * (1 - setbackAt p d k / sideLen p k - sideStart p d k)) := by linarith
        rw [div_le_iff₀ hl] at h'
        rw [this]
        exact h'
      · rw [farAt_congr ho]
        refine mitre_out_rev (a := cornerPos p k) (v := cornerPos p (k + 1)) (b := cornerPos p (k + 2)) (hp.apart k) (hp.apart (k + 1)) hs hm.1 ?_
        have : sideStart p d (k + 1) = setbackAt p d k / sideLen p (k + 1) := by
          classical
          rw [sideStart_succ, if_pos hm]
        have h' := r3
        conv_lhs at h' => rw [this]
        rw [div_le_iff₀ hl'] at h'
        exact h'
    · have es : (RawPart.side k).succ p d = .corner k := by simp [RawPart.succ, hm]
      rw [es] at hk2 ⊢
      obtain ⟨hn, hneg⟩ := corner_kind hp hd he hc hm le_rfl zero_le_one hk2
      refine ⟨fun ho => ?_, fun ho => ?_⟩
      · rcases ho with ho | ho
        · exact own_far (q := .side k) hp hd he hc (fun k h => by cases h) ho zero_le_one le_rfl hk1 ht0 ht1
        · rw [farAt_congr ho]
          exact convex_out (a := cornerPos p k) (v := cornerPos p (k + 1)) (b := cornerPos p (k + 2)) (hp.apart k) (hp.apart (k + 1)) hneg.le hu
      · exact own_far (q := .corner k) hp hd he hc (fun k' h => by cases h; exact hm) (Or.inl ho) le_rfl zero_le_one hk2 ht0 ht1
  | corner k =>
    have hm := hq k rfl
    have es : (RawPart.corner k).succ p d = .side (k + 1) := rfl
    rw [es] at hk2 ⊢
    obtain ⟨hn, hneg⟩ := corner_kind hp hd he hc hm zero_le_one le_rfl hk1
    obtain ⟨r3, r4⟩ := side_param hp hd he hc le_rfl zero_le_one hk2 ht0 ht1
    refine ⟨fun ho => ?_, fun ho => ?_⟩
    · exact own_far (q := .corner k) hp hd he hc (fun k' h => by cases h; exact hm) (Or.inr ho) zero_le_one le_rfl hk1 ht0 ht1
    · rcases ho with ho | ho
      · rw [farAt_congr ho]
        exact convex_out_rev (a := cornerPos p k) (v := cornerPos p (k + 1)) (b := cornerPos p (k + 2)) (hp.apart k) (hp.apart (k + 1)) hneg.le
          (le_trans (sideStart_range hp hd he hc (k + 1)).1 r3)
      · exact own_far (q := .side (k + 1)) hp hd he hc (fun k h => by cases h) ho le_rfl zero_le_one hk2 ht0 ht1

/-- A point of a part that keeps the distance belongs to the exact parallel curve. -/
theorem part_offset {q : RawPart} (hq : ∀ k, q = .corner k → ¬ Mitred p d k) {t : ℝ} (h0 : 0 ≤ t) (h1 : t ≤ 1) (hk : Keeps p |d| (q.curve p d t)) :
    OffsetPt p d (q.curve p d t) := by
  refine ⟨hk, ?_⟩
  cases q with
  | side k =>
    obtain ⟨s0, s1⟩ := sideStart_range hp hd he hc k
    obtain ⟨e0, e1⟩ := sideEnd_range hp hd he hc k
    exact Or.inl ⟨k, _, by nlinarith, by nlinarith, rfl⟩
  | corner k =>
    obtain ⟨hn, hneg⟩ := corner_kind hp hd he hc (hq k rfl) h0 h1 hk
    refine Or.inr ⟨k, t, hn, h0, h1, ?_⟩
    unfold RawPart.curve
    simp only [hn, if_true]

theorem mod_lt_n (k : Nat) : k % p.verts.length < p.verts.length := Nat.mod_lt _ (by have := hp.two; omega)

theorem mitred_mod (k : Nat) : Mitred p d (k % p.verts.length) ↔ Mitred p d k := by
  have h : k % p.verts.length % p.verts.length = k % p.verts.length := Nat.mod_mod _ _
  unfold Mitred setbackAt sideLen
  rw [cornerPos_congr h 1, cornerPos_congr h 2, cornerPos_mod]

/-- beside a side -/
theorem beside_part {k : Nat} {u : ℝ} (h0 : 0 ≤ u) (h1 : u ≤ 1) (hk : Keeps p |d| (sidePt p d k u)) :
    ∃ q ∈ loopParts p d, q.Own p k ∧ ∃ t, 0 ≤ t ∧ t ≤ 1 ∧ sidePt p d k u = q.curve p d t := by
  have h : k % p.verts.length % p.verts.length = k % p.verts.length := Nat.mod_mod _ _
  have e : sidePt p d k u = sidePt p d (k % p.verts.length) u := by
    unfold sidePt
    rw [cornerPos_congr h 1, cornerPos_mod]
  rw [e] at hk ⊢
  obtain ⟨r1, r2⟩ := side_range hp hd he hc h0 h1 hk
  refine ⟨.side (k % p.verts.length), side_mem (mod_lt_n hp hd he hc k), h.symm, ?_⟩
  rcases r1.eq_or_lt with r1 | r1
  · refine ⟨0, le_rfl, zero_le_one, ?_⟩
    unfold RawPart.curve
    dsimp only
    rw [r1]; simp
  · have hpos : 0 < sideEnd p d (k % p.verts.length) - sideStart p d (k % p.verts.length) := by linarith
    refine ⟨(u - sideStart p d (k % p.verts.length)) / (sideEnd p d (k % p.verts.length) - sideStart p d (k % p.verts.length)),
      div_nonneg (by linarith) hpos.le, by rw [div_le_one hpos]; linarith, ?_⟩
    unfold RawPart.curve
    dsimp only
    rw [div_mul_cancel₀ _ hpos.ne']
    congr 1; ring

/-- around a corner -/
theorem around_part {k : Nat} {t : ℝ} (hn : setbackAt p d k < 0) (h0 : 0 ≤ t) (h1 : t ≤ 1) :
    ∃ q ∈ loopParts p d, q.Own p k ∧ q.Own p (k + 1) ∧ cornerArc (cornerPos p k) (cornerPos p (k + 1)) (cornerPos p (k + 2)) d t = q.curve p d t := by
  have h : k % p.verts.length % p.verts.length = k % p.verts.length := Nat.mod_mod _ _
  have hm : ¬ Mitred p d (k % p.verts.length) := by
    rw [mitred_mod hp hd he hc]
    rintro ⟨h, -⟩
    linarith
  have hn' : setbackAt p d (k % p.verts.length) < 0 := by
    unfold setbackAt at *
    rwa [cornerPos_congr h 1, cornerPos_congr h 2, cornerPos_mod]
  refine ⟨.corner (k % p.verts.length), corner_mem (mod_lt_n hp hd he hc k) hm, Or.inl h.symm, Or.inr ?_, ?_⟩
  · rw [Nat.mod_add_mod]
  · unfold RawPart.curve
    simp only [hn', if_true]
    rw [cornerPos_congr h 1, cornerPos_congr h 2, cornerPos_mod]

/-- Every point of the exact parallel curve is on a part of the raw offset. -/
theorem offset_part {X : V2 ℝ} (h : OffsetPt p d X) : ∃ q ∈ loopParts p d, ∃ t, 0 ≤ t ∧ t ≤ 1 ∧ X = q.curve p d t := by
  obtain ⟨hk, ⟨k, u, h0, h1, rfl⟩ | ⟨k, t, hn, h0, h1, rfl⟩⟩ := h
  · obtain ⟨q, hq, -, t, ht⟩ := beside_part hp hd he hc h0 h1 hk
    exact ⟨q, hq, t, ht⟩
  · obtain ⟨q, hq, -, -, e⟩ := around_part hp hd he hc hn h0 h1
    exact ⟨q, hq, t, h0, h1, e⟩

/-- A point that keeps the distance and is at that distance from a side is on a part of the raw offset that belongs to that
side, or belongs to the parallel curve on the other side. -/
theorem near_part {X : V2 ℝ} (hk : Keeps p |d| X) {m : Nat} {u : ℝ} (h0 : 0 ≤ u) (h1 : u ≤ 1)
    (hu : edist X (linePoint (cornerPos p m) (cornerPos p (m + 1)) u) = |d|) :
    (∃ q ∈ loopParts p d, q.Own p m ∧ ∃ t, 0 ≤ t ∧ t ≤ 1 ∧ X = q.curve p d t) ∨ OffsetPt p (-d) X := by
  have hr : 0 < |d| := abs_pos.mpr hd
  have hk' := (keeps_far hp).mp hk
  have hround : ∀ k, edist X (cornerPos p (k + 1)) = |d| →
      (∃ q ∈ loopParts p d, q.Own p k ∧ q.Own p (k + 1) ∧ ∃ t, 0 ≤ t ∧ t ≤ 1 ∧ X = q.curve p d t) ∨ OffsetPt p (-d) X := by
    intro k hX
    have c1 := far_cone_stop (hp.apart k) hr.le hX (hk' k)
    have c2 := far_cone_start (hp.apart (k + 1)) hr.le hX (hk' (k + 1))
    have hs := turn_ne hp hd he hc k
    have hsg := fun e => setback_sign (a := cornerPos p k) (v := cornerPos p (k + 1)) (b := cornerPos p (k + 2)) (d := e) (hp.apart k) (hp.apart (k + 1)) hs
    rcases lt_or_gt_of_ne (mul_ne_zero hd hs) with hneg | hpos
    · left
      obtain ⟨t, t0, t1, e⟩ := cone_arc (a := cornerPos p k) (v := cornerPos p (k + 1)) (b := cornerPos p (k + 2)) (d := d) (hp.apart k) (hp.apart (k + 1)) hneg hX c1 c2
      obtain ⟨q, hq, o1, o2, e'⟩ := around_part hp hd he hc ((hsg d).2.mpr hneg) t0 t1
      exact ⟨q, hq, o1, o2, t, t0, t1, by rw [e, e']⟩
    · right
      have hneg : -d * turnSin (cornerPos p k) (cornerPos p (k + 1)) (cornerPos p (k + 2)) < 0 := by linarith
      obtain ⟨t, t0, t1, e⟩ := cone_arc (a := cornerPos p k) (v := cornerPos p (k + 1)) (b := cornerPos p (k + 2)) (d := -d) (hp.apart k) (hp.apart (k + 1)) hneg
        (by rw [abs_neg]; exact hX) c1 c2
      exact ⟨by rw [abs_neg]; exact hk, Or.inr ⟨k, t, (hsg (-d)).2.mpr hneg, t0, t1, e⟩⟩
  rcases foot (hp.apart m) hr (hk' m) h0 h1 hu with hb | hb | hb
  · have hb' : X = sidePt p d m u ∨ X = sidePt p (-d) m u := by
      rcases abs_choice d with h | h
      · rw [h] at hb; exact hb
      · rw [h, neg_neg] at hb; exact hb.symm
    rcases hb' with rfl | rfl
    · left
      exact beside_part hp hd he hc h0 h1 hk
    · right
      exact ⟨by rw [abs_neg]; exact hk, Or.inl ⟨m, u, h0, h1, rfl⟩⟩
  · rcases hround m hb with ⟨q, hq, o1, -, ht⟩ | h
    · exact Or.inl ⟨q, hq, o1, ht⟩
    · exact Or.inr h
  · have e1 := (corner_back hp m).1
    rcases hround (m + p.verts.length - 1) (by rw [e1]; exact hb) with ⟨q, hq, -, o2, ht⟩ | h
    · refine Or.inl ⟨q, hq, ?_, ht⟩
      have h2 := hp.two
      have hmod : (m + p.verts.length - 1 + 1) % p.verts.length = m % p.verts.length := by
        rw [show m + p.verts.length - 1 + 1 = m + p.verts.length by omega, Nat.add_mod_right]
      cases q with
      | side k =>
        change m % p.verts.length = k % p.verts.length
        rw [← hmod]; exact o2
      | corner k =>
        change m % p.verts.length = k % p.verts.length ∨ m % p.verts.length = (k + 1) % p.verts.length
        rw [← hmod]; exact o2
    · exact Or.inr h

end

end Cavc
