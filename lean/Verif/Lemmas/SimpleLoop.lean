import Verif.Spec.Simple
import Verif.Lemmas.OffsetBranch
import Verif.Lemmas.OffsetKeepPieces
import Verif.Lemmas.Jump
import Verif.Props.Closest

/-! # Closed polylines of straight segments that do not touch themselves: the two sides -/

set_option linter.unusedVariables false
set_option linter.unusedSectionVars false

namespace Cavc
open Pline

/-! ## Distances of curves without common points -/

theorem curve_margin {f : ℝ → V2 ℝ} (hf : Continuous fun t => ((f t).x, (f t).y)) (u1 u2 : ℝ) (a b : V2 ℝ)
    (h : ∀ u, u1 ≤ u → u ≤ u2 → ∀ w, 0 ≤ w → w ≤ 1 → f u ≠ linePoint a b w) :
    ∃ ε > 0, ∀ u, u1 ≤ u → u ≤ u2 → ∀ w, 0 ≤ w → w ≤ 1 → ε ≤ edist (f u) (linePoint a b w) := by
  by_cases hne : u1 ≤ u2
  · have hcont : Continuous fun x : ℝ × ℝ => edist (f x.1) (linePoint a b x.2) := by
      have h1 := hf.comp continuous_fst (X := ℝ × ℝ)
      have h2 := (line_continuous a b).comp continuous_snd (X := ℝ × ℝ)
      have a1 := (continuous_fst.comp h1).sub (continuous_fst.comp h2)
      have a2 := (continuous_snd.comp h1).sub (continuous_snd.comp h2)
      unfold edist
      exact ((a1.pow 2).add (a2.pow 2)).sqrt
    obtain ⟨⟨u, w⟩, ⟨⟨hu0, hu1⟩, ⟨hw0, hw1⟩⟩, hmin⟩ := (isCompact_Icc.prod isCompact_Icc).exists_isMinOn (s := Set.Icc u1 u2 ×ˢ Set.Icc (0 : ℝ) 1)
      ⟨(u1, 0), ⟨le_rfl, hne⟩, by simp⟩ hcont.continuousOn
    refine ⟨_, edist_pos (h u hu0 hu1 w hw0 hw1), fun u' a1 a2 w' b1 b2 => ?_⟩
    exact hmin (show (u', w') ∈ Set.Icc u1 u2 ×ˢ Set.Icc (0 : ℝ) 1 from ⟨⟨a1, a2⟩, ⟨b1, b2⟩⟩)
  · exact ⟨1, one_pos, fun u a1 a2 => absurd (a1.trans a2) hne⟩

theorem sides_margin (p : Pline ℝ) {f : ℝ → V2 ℝ} (hf : Continuous fun t => ((f t).x, (f t).y)) (u1 u2 : ℝ) (N : Nat → Prop)
    (h : ∀ m, N m → ∀ u, u1 ≤ u → u ≤ u2 → ∀ w, 0 ≤ w → w ≤ 1 → f u ≠ linePoint (cornerPos p m) (cornerPos p (m + 1)) w) : ∀ n : Nat,
    ∃ ε > 0, ∀ m < n, N m → ∀ u, u1 ≤ u → u ≤ u2 → FarAt p ε (f u) m
  | 0 => ⟨1, one_pos, fun m hm => by omega⟩
  | n + 1 => by
    obtain ⟨ε, hε, h1⟩ := sides_margin p hf u1 u2 N h n
    by_cases hN : N n
    · obtain ⟨ε', hε', h2⟩ := curve_margin hf u1 u2 _ _ (h n hN)
      refine ⟨min ε ε', lt_min hε hε', fun m hm hNm u a1 a2 w w0 w1 => ?_⟩
      rcases Nat.lt_succ_iff_lt_or_eq.mp hm with hm | rfl
      · exact (min_le_left _ _).trans (h1 m hm hNm u a1 a2 w w0 w1)
      · exact (min_le_right _ _).trans (h2 u a1 a2 w w0 w1)
    · refine ⟨ε, hε, fun m hm hNm => ?_⟩
      rcases Nat.lt_succ_iff_lt_or_eq.mp hm with hm | rfl
      · exact h1 m hm hNm
      · exact absurd hNm hN

/-- a list in which no two entries have a property, split at the one that has it -/
theorem split_unique {α : Type} {P : α → Prop} {L : List α} (h : L.Pairwise fun a b => ¬ (P a ∧ P b)) {s : α} (hs : s ∈ L) (hP : P s) :
    ∃ L1 L2, L = L1 ++ s :: L2 ∧ ∀ e ∈ L1 ++ L2, ¬ P e := by
  obtain ⟨L1, L2, rfl⟩ := List.append_of_mem hs
  refine ⟨L1, L2, rfl, fun e he hPe => ?_⟩
  obtain ⟨-, h2, h3⟩ := List.pairwise_append.mp h
  rcases List.mem_append.mp he with he | he
  · exact h3 e he s (by simp) ⟨hPe, hP⟩
  · exact (List.pairwise_cons.mp h2).1 e he ⟨hP, hPe⟩

/-- the winding number of a point -/
noncomputable def wnAt (p : Pline ℝ) (X : V2 ℝ) : ℤ := wn p (X.x, X.y)

/-- The winding number does not change along a curve off the polyline. -/
theorem wn_path {p : Pline ℝ} (hl : Loop p) {γ : ℝ → V2 ℝ} {a b : ℝ} (hab : a ≤ b) (hγ : ContinuousOn (fun t => ((γ t).x, (γ t).y)) (Set.Icc a b))
    (hoff : ∀ t, a ≤ t → t ≤ b → ¬ OnPline p (γ t)) : wnAt p (γ a) = wnAt p (γ b) := by
  have hpre := (isPreconnected_Icc (a := a) (b := b)).image _ hγ
  refine wn_const hl hpre ?_ (Set.mem_image_of_mem _ ⟨le_rfl, hab⟩) (Set.mem_image_of_mem _ ⟨hab, le_rfl⟩)
  rw [Set.disjoint_left]
  rintro _ ⟨t, ⟨h0, h1⟩, rfl⟩ hz
  exact hoff t h0 h1 hz

theorem moved_zero (a b : V2 ℝ) (u : ℝ) : moved a b 0 u = linePoint a b u := by simp [moved, linePoint]

theorem moved_along {a b : V2 ℝ} (h : a ≠ b) (d e u : ℝ) : edist (moved a b d u) (moved a b e u) = |d - e| := by
  have hpos := edist_pos h
  have h2 : edist a b ^ 2 = (b.x - a.x) ^ 2 + (b.y - a.y) ^ 2 := by unfold edist; rw [Real.sq_sqrt (by positivity)]; ring
  rw [← Real.sqrt_sq_eq_abs, edist.eq_1 (moved a b d u)]
  congr 1
  simp only [moved]
  have hne : edist a b ≠ 0 := hpos.ne'
  field_simp
  linear_combination -(d - e) ^ 2 * h2

theorem moved_near {a b : V2 ℝ} (h : a ≠ b) (d u : ℝ) : edist (moved a b d u) (linePoint a b u) = |d| := by
  rw [← moved_zero, moved_along h, sub_zero]

theorem moved_continuous (a b : V2 ℝ) (d : ℝ) : Continuous fun u => ((moved a b d u).x, (moved a b d u).y) := by
  unfold moved; dsimp only; fun_prop

theorem moved_continuous' (a b : V2 ℝ) (u : ℝ) : Continuous fun d => ((moved a b d u).x, (moved a b d u).y) := by
  unfold moved; dsimp only; fun_prop

theorem cornerArc_continuous (a v b : V2 ℝ) (d : ℝ) : Continuous fun t => ((cornerArc a v b d t).x, (cornerArc a v b d t).y) := by
  unfold cornerArc rotV; dsimp only; fun_prop

theorem cornerArc_continuous' (a v b : V2 ℝ) (t : ℝ) : Continuous fun d => ((cornerArc a v b d t).x, (cornerArc a v b d t).y) := by
  unfold cornerArc rotV moved; dsimp only; fun_prop

theorem cornerArc_zero (a v b : V2 ℝ) (d : ℝ) : cornerArc a v b d 0 = moved a v d 1 := by
  unfold cornerArc rotV; simp

theorem cornerArc_one {a v b : V2 ℝ} (h1 : a ≠ v) (h2 : v ≠ b) (hc : turnSin a v b = 0 → turnCos a v b = 1) (d : ℝ) : cornerArc a v b d 1 = moved v b d 0 := by
  obtain ⟨e1, e2⟩ := cornerArc_frame (b := b) h1 d 1
  obtain ⟨f1, f2⟩ := next_start_frame h1 h2 d
  have hpos : -1 < turnCos a v b := by
    have hq := turn_sq h1 h2
    by_cases hs : turnSin a v b = 0
    · rw [hc hs]; norm_num
    · have : 0 < turnSin a v b ^ 2 := by positivity
      nlinarith [sq_nonneg (turnCos a v b + 1)]
  have hq := turn_sq h1 h2
  have hθ : Real.sin (2 * halfTurn a v b) = turnSin a v b ∧ Real.cos (2 * halfTurn a v b) = turnCos a v b := by
    have hne : (1 + turnCos a v b) ≠ 0 := by linarith
    have hk : 1 + (turnSin a v b / (1 + turnCos a v b)) ^ 2 = 2 / (1 + turnCos a v b) := by
      field_simp
      linear_combination hq
    have hd : (0 : ℝ) < 2 / (1 + turnCos a v b) := by apply div_pos <;> linarith
    unfold halfTurn
    rw [Real.sin_two_mul, Real.cos_two_mul, Real.sin_arctan, Real.cos_arctan, hk]
    have hsq : √(2 / (1 + turnCos a v b)) ^ 2 = 2 / (1 + turnCos a v b) := Real.sq_sqrt hd.le
    have hsp : √(2 / (1 + turnCos a v b)) ≠ 0 := (Real.sqrt_pos.mpr hd).ne'
    constructor
    · have : 2 * (turnSin a v b / (1 + turnCos a v b) / √(2 / (1 + turnCos a v b))) * (1 / √(2 / (1 + turnCos a v b))) =
          2 * (turnSin a v b / (1 + turnCos a v b)) / √(2 / (1 + turnCos a v b)) ^ 2 := by field_simp
      rw [this, hsq]; field_simp
    · rw [div_pow, hsq]; field_simp; ring
  refine fwd_lft_ext h1 ?_ ?_ (v := v)
  · rw [e1, f1, one_mul, hθ.1]; ring
  · rw [e2, f2, one_mul, hθ.2]; ring

theorem cornerArc_along {a v b : V2 ℝ} (h1 : a ≠ v) (d e t : ℝ) : edist (cornerArc a v b d t) (cornerArc a v b e t) = |d - e| := by
  have hpos := edist_pos h1
  have h2 : edist a v ^ 2 = (v.x - a.x) ^ 2 + (v.y - a.y) ^ 2 := by unfold edist; rw [Real.sq_sqrt (by positivity)]; ring
  have hne : edist a v ≠ 0 := hpos.ne'
  rw [← Real.sqrt_sq_eq_abs, edist.eq_1 (cornerArc a v b d t)]
  congr 1
  simp only [cornerArc, rotV, moved]
  have hsc := Real.sin_sq_add_cos_sq (t * (2 * halfTurn a v b))
  generalize Real.sin (t * (2 * halfTurn a v b)) = S at *
  generalize Real.cos (t * (2 * halfTurn a v b)) = C at *
  field_simp
  linear_combination -(d - e) ^ 2 * h2 + (d - e) ^ 2 * ((v.x - a.x) ^ 2 + (v.y - a.y) ^ 2) * hsc

theorem inner_end_rev {a v b : V2 ℝ} {d : ℝ} (h1 : a ≠ v) (h2 : v ≠ b) (hpos : 0 < d * turnSin a v b) : ¬ FarSide |d| (moved v b d 0) a v := by
  rw [← farSide_rev, ← moved_rev, ← abs_neg, sub_zero]
  exact inner_end h2.symm h1.symm (by rw [turnSin_rev]; linarith)

theorem far_shift {p : Pline ℝ} {ε c : ℝ} {X F : V2 ℝ} {m : Nat} (h : FarAt p ε F m) (hX : edist X F ≤ c) : FarAt p (ε - c) X m := by
  intro u u0 u1
  have := h u u0 u1
  have := edist_triangle F X (linePoint (cornerPos p m) (cornerPos p (m + 1)) u)
  rw [edist_comm F X] at this
  linarith

section
variable {p : Pline ℝ} (hp : StraightLoop p)
include hp

theorem straight_loop : Loop p := by
  refine ⟨hp.closed, hp.two, fun s hs => ?_⟩
  rw [segs_range hp.closed hp.two] at hs
  obtain ⟨i, -, rfl⟩ := List.mem_map.mp hs
  exact Or.inl (hp.line i)

theorem off_far {X : V2 ℝ} (h : ∀ m, m < p.verts.length → ∃ r > 0, FarAt p r X m) : ¬ OnPline p X := by
  have h2 := hp.two
  rintro ⟨s, hs, u, u0, u1, hX⟩
  rw [segs_range hp.closed hp.two] at hs
  obtain ⟨i, hi, rfl⟩ := List.mem_map.mp hs
  obtain ⟨r, hr, hf⟩ := h i (List.mem_range.mp hi)
  have := hf u u0 u1
  dsimp only at hX
  rw [← curveAt_vtx (by omega), straight_curve hp] at hX
  rw [← hX, edist.eq_1] at this
  simp at this
  linarith

/-- The points on the way from a point that keeps a distance to a point at that distance are off the polyline. -/
theorem ray_off {γ : ℝ → V2 ℝ} {r : ℝ} (hγ : ∀ h, 0 < h → h ≤ r → edist (γ h) (γ r) ≤ r - h) (hk : Keeps p r (γ r)) : ∀ h, 0 < h → h ≤ r → ¬ OnPline p (γ h) := by
  intro h h0 h1 hon
  have a1 := hk _ hon
  have a2 := hγ h h0 h1
  rw [edist_comm] at a2
  linarith

variable (hs : SimpleLoop p)
include hs

theorem simple_mod {i j : Nat} {t u : ℝ} (t0 : 0 ≤ t) (t1 : t < 1) (u0 : 0 ≤ u) (u1 : u < 1)
    (h : linePoint (cornerPos p i) (cornerPos p (i + 1)) t = linePoint (cornerPos p j) (cornerPos p (j + 1)) u) : i % p.verts.length = j % p.verts.length ∧ t = u := by
  have h2 := hp.two
  have hn : 0 < p.verts.length := by omega
  rw [← straight_curve hp, ← straight_curve hp, ← curveAt_wrap hn i, ← curveAt_wrap hn j] at h
  exact hs _ _ (Nat.mod_lt _ hn) (Nat.mod_lt _ hn) t u t0 t1 u0 u1 h

theorem line_one (a b c : V2 ℝ) : linePoint a b 1 = linePoint b c 0 := by simp [linePoint]

theorem simple_side {k m : Nat} {u w : ℝ} (u0 : 0 < u) (u1 : u < 1) (w0 : 0 ≤ w) (w1 : w ≤ 1)
    (h : linePoint (cornerPos p k) (cornerPos p (k + 1)) u = linePoint (cornerPos p m) (cornerPos p (m + 1)) w) : m % p.verts.length = k % p.verts.length := by
  rcases lt_or_eq_of_le w1 with w1 | rfl
  · exact (simple_mod hp hs u0.le u1 w0 w1 h).1.symm
  · rw [line_one hp hs _ _ (cornerPos p (m + 1 + 1))] at h
    have := (simple_mod hp hs u0.le u1 le_rfl one_pos h).2
    linarith

theorem simple_corner {k m : Nat} {w : ℝ} (w0 : 0 ≤ w) (w1 : w ≤ 1) (h : cornerPos p (k + 1) = linePoint (cornerPos p m) (cornerPos p (m + 1)) w) :
    m % p.verts.length = k % p.verts.length ∨ m % p.verts.length = (k + 1) % p.verts.length := by
  have hz : cornerPos p (k + 1) = linePoint (cornerPos p (k + 1)) (cornerPos p (k + 1 + 1)) 0 := by simp [linePoint]
  rw [hz] at h
  rcases lt_or_eq_of_le w1 with w1 | rfl
  · exact Or.inr (simple_mod hp hs le_rfl one_pos w0 w1 h).1.symm
  · rw [line_one hp hs _ _ (cornerPos p (m + 1 + 1))] at h
    exact Or.inl (Nat.ModEq.add_right_cancel' 1 (simple_mod hp hs le_rfl one_pos le_rfl one_pos h).1.symm)

theorem no_spike (k : Nat) (h0 : turnSin (cornerPos p k) (cornerPos p (k + 1)) (cornerPos p (k + 2)) = 0) :
    turnCos (cornerPos p k) (cornerPos p (k + 1)) (cornerPos p (k + 2)) = 1 := by
  have h1 := corner_apart hp k
  have h2 : cornerPos p (k + 1) ≠ cornerPos p (k + 2) := corner_apart hp (k + 1)
  set a := cornerPos p k
  set v := cornerPos p (k + 1) with hv
  set b := cornerPos p (k + 2) with hb
  have hq := turn_sq h1 h2
  rw [h0] at hq
  have hcases : turnCos a v b = 1 ∨ turnCos a v b = -1 := by
    have : (turnCos a v b - 1) * (turnCos a v b + 1) = 0 := by linear_combination hq
    rcases mul_eq_zero.mp this with h | h
    · left; linarith
    · right; linarith
  rcases hcases with h | hc
  · exact h
  · exfalso
    have p1 := edist_pos h1
    have p2 := edist_pos h2
    obtain ⟨e, e0, e12⟩ := exists_between (lt_min p1 p2)
    obtain ⟨e1, e2⟩ := lt_min_iff.mp e12
    have hX : linePoint a v (1 - e / edist a v) = linePoint v b (e / edist v b) := by
      rw [← moved_zero, ← moved_zero]
      obtain ⟨-, -, f1, f2⟩ := moved_frame h1 0 (1 - e / edist a v)
      obtain ⟨g1, g2, -, -⟩ := moved_frame h2 0 (e / edist v b)
      obtain ⟨t1, t2⟩ := frame_turn h1 h2 (moved v b 0 (e / edist v b))
      rw [g1, h0, hc] at t1
      rw [g2, h0, hc] at t2
      rw [div_mul_cancel₀ _ p2.ne'] at t1
      refine fwd_lft_ext h1 (v := v) ?_ ?_
      · rw [f1]
        have : (1 - (1 - e / edist a v)) * edist a v = e := by field_simp; ring
        rw [this]; linarith
      · rw [f2]; linarith
    have n2 := hp.two
    have := (simple_mod hp hs (i := k) (j := k + 1) (by rw [sub_nonneg, div_le_one p1]; exact e1.le) (by have := div_pos e0 p1; linarith) (by positivity)
      (by rw [div_lt_one p2]; exact e2) hX).1
    have hn0 : (0 : Nat) ≡ 1 [MOD p.verts.length] := Nat.ModEq.add_left_cancel' k this
    unfold Nat.ModEq at hn0
    rw [Nat.zero_mod, Nat.mod_eq_of_lt (by omega)] at hn0
    omega

/-- beside the inner part of a side -/
theorem side_off (k : Nat) {u1 u2 : ℝ} (h1 : 0 < u1) (h2 : u2 < 1) :
    ∃ ε > 0, ∀ h, h ≠ 0 → |h| < ε → ∀ u, u1 ≤ u → u ≤ u2 → ¬ OnPline p (sidePt p h k u) := by
  obtain ⟨ε, hε, hm⟩ := sides_margin p (line_continuous (cornerPos p k) (cornerPos p (k + 1))) u1 u2 (fun m => m % p.verts.length ≠ k % p.verts.length)
    (fun m hm u a1 a2 w w0 w1 h => hm (simple_side hp hs (by linarith) (by linarith) w0 w1 h)) p.verts.length
  refine ⟨ε, hε, fun h h0 hlt u a1 a2 => off_far hp fun m hml => ?_⟩
  by_cases hmk : m % p.verts.length = k % p.verts.length
  · exact ⟨|h|, abs_pos.mpr h0, (farAt_congr hmk).mpr (own_out (corner_apart hp k) u)⟩
  · exact ⟨ε - |h|, by linarith, far_shift (hm m hml hmk u a1 a2) (moved_near (corner_apart hp k) h u).le⟩

/-- around a corner, on the outer side -/
theorem corner_off (k : Nat) :
    ∃ ε > 0, ∀ h, h ≠ 0 → |h| < ε → h * turnSin (cornerPos p k) (cornerPos p (k + 1)) (cornerPos p (k + 2)) ≤ 0 →
      (∀ u, 1 / 2 ≤ u → u ≤ 1 → ¬ OnPline p (sidePt p h k u)) ∧
      (∀ t, 0 ≤ t → t ≤ 1 → ¬ OnPline p (cornerArc (cornerPos p k) (cornerPos p (k + 1)) (cornerPos p (k + 2)) h t)) ∧
      (∀ u, 0 ≤ u → u ≤ 1 / 2 → ¬ OnPline p (sidePt p h (k + 1) u)) := by
  have h1 := corner_apart hp k
  have h2 : cornerPos p (k + 1) ≠ cornerPos p (k + 2) := corner_apart hp (k + 1)
  set N : Nat → Prop := fun m => m % p.verts.length ≠ k % p.verts.length ∧ m % p.verts.length ≠ (k + 1) % p.verts.length with hN
  have hcn : ∀ m, N m → ∀ w, 0 ≤ w → w ≤ 1 → cornerPos p (k + 1) ≠ linePoint (cornerPos p m) (cornerPos p (m + 1)) w := by
    intro m hm w w0 w1 h
    rcases simple_corner hp hs w0 w1 h with h | h
    · exact hm.1 h
    · exact hm.2 h
  obtain ⟨ε, hε, hm⟩ := sides_margin p (line_continuous (cornerPos p k) (cornerPos p (k + 1))) (1 / 2) 1 N
    (fun m hm u a1 a2 w w0 w1 h => by
      rcases lt_or_eq_of_le a2 with a2 | rfl
      · exact hm.1 (simple_side hp hs (by linarith) (by linarith) w0 w1 h)
      · exact hcn m hm w w0 w1 (by rw [← h]; simp [linePoint])) p.verts.length
  obtain ⟨ε', hε', hm'⟩ := sides_margin p (line_continuous (cornerPos p (k + 1)) (cornerPos p (k + 2))) 0 (1 / 2) N
    (fun m hm u a1 a2 w w0 w1 h => by
      rcases lt_or_eq_of_le a1 with a1 | rfl
      · exact hm.2 (simple_side hp hs (k := k + 1) (by linarith) (by linarith) w0 w1 h)
      · exact hcn m hm w w0 w1 (by rw [← h]; simp [linePoint])) p.verts.length
  refine ⟨min ε ε', lt_min hε hε', fun h h0 hlt hsg => ?_⟩
  obtain ⟨l1, l2⟩ := lt_min_iff.mp hlt
  have hpos := abs_pos.mpr h0
  refine ⟨fun u a1 a2 => off_far hp fun m hml => ?_, fun t t0 t1 => off_far hp fun m hml => ?_, fun u a1 a2 => off_far hp fun m hml => ?_⟩
  · by_cases hmk : m % p.verts.length = k % p.verts.length
    · exact ⟨|h|, hpos, (farAt_congr hmk).mpr (own_out h1 u)⟩
    · by_cases hmk' : m % p.verts.length = (k + 1) % p.verts.length
      · exact ⟨|h|, hpos, (farAt_congr hmk').mpr (convex_out h1 h2 hsg a2)⟩
      · exact ⟨ε - |h|, by linarith, far_shift (hm m hml ⟨hmk, hmk'⟩ u a1 a2) (moved_near h1 h u).le⟩
  · have hcone : 0 ≤ fwd (cornerPos p k) (cornerPos p (k + 1)) (cornerPos p (k + 1)) (cornerArc (cornerPos p k) (cornerPos p (k + 1)) (cornerPos p (k + 2)) h t) ∧
        fwd (cornerPos p (k + 1)) (cornerPos p (k + 2)) (cornerPos p (k + 1)) (cornerArc (cornerPos p k) (cornerPos p (k + 1)) (cornerPos p (k + 2)) h t) ≤ 0 := by
      rcases lt_or_eq_of_le hsg with hsg | hsg
      · exact arc_cone h1 h2 hsg t0 t1
      · have hz : turnSin (cornerPos p k) (cornerPos p (k + 1)) (cornerPos p (k + 2)) = 0 := (mul_eq_zero.mp hsg).resolve_left h0
        have hht : halfTurn (cornerPos p k) (cornerPos p (k + 1)) (cornerPos p (k + 2)) = 0 := by unfold halfTurn; rw [hz]; simp
        obtain ⟨e1, e2⟩ := cornerArc_frame (b := cornerPos p (k + 2)) h1 h t
        rw [hht] at e1 e2
        simp only [mul_zero, Real.sin_zero, neg_zero] at e1
        rw [(frame_turn h1 h2 _).1, hz, e1]
        simp
    obtain ⟨f1, f2⟩ := cone_far h1 h2 (abs_nonneg h) (cornerArc_dist (b := cornerPos p (k + 2)) h1 h t) hcone.1 hcone.2
    by_cases hmk : m % p.verts.length = k % p.verts.length
    · exact ⟨|h|, hpos, (farAt_congr hmk).mpr f1⟩
    · by_cases hmk' : m % p.verts.length = (k + 1) % p.verts.length
      · exact ⟨|h|, hpos, (farAt_congr hmk').mpr f2⟩
      · have hone : linePoint (cornerPos p k) (cornerPos p (k + 1)) 1 = cornerPos p (k + 1) := by simp [linePoint]
        have := hm m hml ⟨hmk, hmk'⟩ 1 (by norm_num) le_rfl
        rw [hone] at this
        exact ⟨ε - |h|, by linarith, far_shift this (cornerArc_dist h1 h t).le⟩
  · by_cases hmk : m % p.verts.length = k % p.verts.length
    · exact ⟨|h|, hpos, (farAt_congr hmk).mpr (convex_out_rev h1 h2 hsg a1)⟩
    · by_cases hmk' : m % p.verts.length = (k + 1) % p.verts.length
      · exact ⟨|h|, hpos, (farAt_congr hmk').mpr (own_out h2 u)⟩
      · exact ⟨ε' - |h|, by linarith, far_shift (hm' m hml ⟨hmk, hmk'⟩ u a1 a2) (moved_near h2 h u).le⟩

/-- Across the inner part of a side, the winding number is larger by one on the left. -/
theorem side_jump (k : Nat) {u : ℝ} (u0 : 0 < u) (u1 : u < 1) :
    ∃ δ > 0, ∀ h, 0 < h → h < δ → wnAt p (sidePt p h k u) = wnAt p (sidePt p (-h) k u) + 1 := by
  have n2 := hp.two
  have hn : 0 < p.verts.length := by omega
  have hl := straight_loop hp
  have hsegs := segs_range hp.closed hp.two
  set s : Vertex ℝ × Vertex ℝ := (vtx p (k % p.verts.length), vtx p (k % p.verts.length + 1)) with hsdef
  have hcurve : ∀ i t, segCurve (vtx p i) (vtx p (i + 1)) t = linePoint (cornerPos p i) (cornerPos p (i + 1)) t := fun i t => by
    rw [← curveAt_vtx hn, straight_curve hp]
  have hk1 : cornerPos p (k % p.verts.length) = cornerPos p k ∧ cornerPos p (k % p.verts.length + 1) = cornerPos p (k + 1) :=
    ⟨cornerPos_mod p k, cornerPos_congr (Nat.mod_mod _ _) 1⟩
  have hsc : ∀ t, segCurve s.1 s.2 t = linePoint (cornerPos p k) (cornerPos p (k + 1)) t := fun t => by
    rw [hsdef]; dsimp only; rw [hcurve, hk1.1, hk1.2]
  set Z := linePoint (cornerPos p k) (cornerPos p (k + 1)) u with hZ
  have honly : ∀ i < p.verts.length, (Z.x, Z.y) ∈ segTrace (vtx p i, vtx p (i + 1)) → i = k % p.verts.length := by
    rintro i hi ⟨w, w0, w1, hw⟩
    dsimp only at hw
    rw [hcurve] at hw
    have := simple_side hp hs u0 u1 w0 w1 hw
    rwa [Nat.mod_eq_of_lt hi] at this
  have hpw : p.segs.Pairwise fun a b => ¬ ((Z.x, Z.y) ∈ segTrace a ∧ (Z.x, Z.y) ∈ segTrace b) := by
    rw [hsegs, List.pairwise_map]
    refine List.Pairwise.imp_of_mem ?_ (List.nodup_range (n := p.verts.length))
    intro i j hi hj hij ⟨a, b⟩
    exact hij ((honly i (List.mem_range.mp hi) a).trans (honly j (List.mem_range.mp hj) b).symm)
  have hon : (Z.x, Z.y) ∈ segTrace s := ⟨u, u0.le, u1.le, (hsc u).symm⟩
  obtain ⟨L1, L2, hL, hoff⟩ := split_unique hpw (s := s) (by rw [hsegs]; exact List.mem_map.mpr ⟨_, List.mem_range.mpr (Nat.mod_lt _ hn), rfl⟩) hon
  have hd := line_deriv (cornerPos p k) (cornerPos p (k + 1)) u
  have hlen := edist_pos (corner_apart hp k)
  obtain ⟨δ, hδ, hj⟩ := jump (L1 := L1) (L2 := L2) (s := s) (by rw [← hL]; exact fun e he => hl.proper e he) (by rw [← hL]; exact segs_perm hl) u0 u1
    (a := (cornerPos p (k + 1)).x - (cornerPos p k).x) (b := (cornerPos p (k + 1)).y - (cornerPos p k).y) (by
      by_contra hcon
      push Not at hcon
      apply corner_apart hp k
      have a1 := hcon.1; have a2 := hcon.2
      exact (V2.ext_iff').mpr ⟨by linarith, by linarith⟩)
    (by simp only [hsc]; exact hd.1) (by simp only [hsc]; exact hd.2) (by rw [hsc]; exact hoff)
  refine ⟨δ * edist (cornerPos p k) (cornerPos p (k + 1)), by positivity, fun h h0 hlt => ?_⟩
  have := hj (h / edist (cornerPos p k) (cornerPos p (k + 1))) (by positivity) (by rwa [div_lt_iff₀ hlen])
  rw [← hL, ← wn_segs hl, ← wn_segs hl, hsc] at this
  unfold wnAt
  have e1 : ((sidePt p h k u).x, (sidePt p h k u).y) = (Z.x - h / edist (cornerPos p k) (cornerPos p (k + 1)) * ((cornerPos p (k + 1)).y - (cornerPos p k).y),
      Z.y + h / edist (cornerPos p k) (cornerPos p (k + 1)) * ((cornerPos p (k + 1)).x - (cornerPos p k).x)) := by
    rw [hZ]; simp only [sidePt, moved, linePoint]
    refine Prod.ext ?_ ?_ <;> dsimp only <;> ring
  have e2 : ((sidePt p (-h) k u).x, (sidePt p (-h) k u).y) = (Z.x + h / edist (cornerPos p k) (cornerPos p (k + 1)) * ((cornerPos p (k + 1)).y - (cornerPos p k).y),
      Z.y - h / edist (cornerPos p k) (cornerPos p (k + 1)) * ((cornerPos p (k + 1)).x - (cornerPos p k).x)) := by
    rw [hZ]; simp only [sidePt, moved, linePoint]
    refine Prod.ext ?_ ?_ <;> dsimp only <;> ring
  rw [e1, e2]
  exact this

omit hp hs in
/-- close to side `k`, the winding number is `a` on the left and `a - 1` on the right -/
def SideVal (p : Pline ℝ) (a : ℤ) (k : Nat) : Prop :=
  ∀ u, 0 < u → u < 1 → ∃ ε > 0, ∀ h, 0 < h → h < ε → wnAt p (sidePt p h k u) = a ∧ wnAt p (sidePt p (-h) k u) = a - 1

theorem side_sign (k : Nat) {u : ℝ} (u0 : 0 < u) (u1 : u < 1) :
    ∃ a : ℤ, ∃ ε > 0, ∀ h, 0 < h → h < ε → wnAt p (sidePt p h k u) = a ∧ wnAt p (sidePt p (-h) k u) = a - 1 := by
  have hl := straight_loop hp
  obtain ⟨ε₁, hε₁, h1⟩ := side_off hp hs k u0 u1
  obtain ⟨ε₂, hε₂, h2⟩ := side_jump hp hs k u0 u1
  obtain ⟨h', h0', hlt'⟩ := exists_between (lt_min hε₁ hε₂)
  have hpath : ∀ x y, 0 < x → x ≤ y → y < min ε₁ ε₂ → wnAt p (sidePt p x k u) = wnAt p (sidePt p y k u) := by
    intro x y x0 xy yl
    refine wn_path hl xy (moved_continuous' _ _ u).continuousOn fun h a1 a2 => ?_
    exact h1 h (by linarith) (by rw [abs_of_pos (by linarith)]; exact lt_of_le_of_lt a2 (lt_of_lt_of_le yl (min_le_left _ _))) u le_rfl le_rfl
  refine ⟨wnAt p (sidePt p h' k u), min ε₁ ε₂, lt_min hε₁ hε₂, fun h h0 hlt => ?_⟩
  have e1 : wnAt p (sidePt p h k u) = wnAt p (sidePt p h' k u) := by
    rcases le_total h h' with hh | hh
    · exact hpath h h' h0 hh hlt'
    · exact (hpath h' h h0' hh hlt).symm
  have e2 := h2 h h0 (lt_of_lt_of_le hlt (min_le_right _ _))
  exact ⟨e1, by rw [← e1, e2]; ring⟩

theorem side_val (k : Nat) : ∃ a, SideVal p a k := by
  have hl := straight_loop hp
  obtain ⟨a, ε, hε, ha⟩ := side_sign hp hs k (u := 1 / 2) (by norm_num) (by norm_num)
  refine ⟨a, fun u u0 u1 => ?_⟩
  obtain ⟨a', ε', hε', ha'⟩ := side_sign hp hs k u0 u1
  obtain ⟨ε₁, hε₁, h1⟩ := side_off hp hs k (u1 := min u (1 / 2)) (u2 := max u (1 / 2)) (lt_min u0 (by norm_num)) (max_lt u1 (by norm_num))
  obtain ⟨h, h0, hlt⟩ := exists_between (lt_min (lt_min hε hε') hε₁)
  obtain ⟨l1, l2⟩ := lt_min_iff.mp hlt
  obtain ⟨l1, l3⟩ := lt_min_iff.mp l1
  have hpath : wnAt p (sidePt p h k (min u (1 / 2))) = wnAt p (sidePt p h k (max u (1 / 2))) :=
    wn_path hl min_le_max (moved_continuous _ _ h).continuousOn fun t a1 a2 => h1 h h0.ne' (by rwa [abs_of_pos h0]) t a1 a2
  have e : wnAt p (sidePt p h k u) = wnAt p (sidePt p h k (1 / 2)) := by
    rcases le_total u (1 / 2) with hu | hu
    · rwa [min_eq_left hu, max_eq_right hu] at hpath
    · rw [min_eq_right hu, max_eq_left hu] at hpath; exact hpath.symm
  have haa : a' = a := by rw [← (ha' h h0 l3).1, e, (ha h h0 l1).1]
  subst haa
  exact ⟨ε', hε', ha'⟩

theorem corner_val {a b : ℤ} {k : Nat} (ha : SideVal p a k) (hb : SideVal p b (k + 1)) :
    b = a ∧ ∃ ε > 0, ∀ h, h ≠ 0 → |h| < ε → h * turnSin (cornerPos p k) (cornerPos p (k + 1)) (cornerPos p (k + 2)) ≤ 0 → ∀ t, 0 ≤ t → t ≤ 1 →
      wnAt p (cornerArc (cornerPos p k) (cornerPos p (k + 1)) (cornerPos p (k + 2)) h t) = if 0 < h then a else a - 1 := by
  have hl := straight_loop hp
  have h1 := corner_apart hp k
  have h2 : cornerPos p (k + 1) ≠ cornerPos p (k + 2) := corner_apart hp (k + 1)
  obtain ⟨ε₀, hε₀, hoff⟩ := corner_off hp hs k
  obtain ⟨ε₁, hε₁, hva⟩ := ha (1 / 2) (by norm_num) (by norm_num)
  obtain ⟨ε₂, hε₂, hvb⟩ := hb (1 / 2) (by norm_num) (by norm_num)
  have hval : ∀ {c : ℤ} {j : Nat} {ε : ℝ}, (∀ h, 0 < h → h < ε → wnAt p (sidePt p h j (1 / 2)) = c ∧ wnAt p (sidePt p (-h) j (1 / 2)) = c - 1) →
      ∀ h, h ≠ 0 → |h| < ε → wnAt p (sidePt p h j (1 / 2)) = if 0 < h then c else c - 1 := by
    intro c j ε hv h h0 hlt
    rcases lt_or_gt_of_ne h0 with hn | hpos
    · rw [abs_of_neg hn] at hlt
      have := (hv (-h) (by linarith) hlt).2
      rw [neg_neg] at this
      rw [if_neg (by linarith), this]
    · rw [abs_of_pos hpos] at hlt
      rw [if_pos hpos, (hv h hpos hlt).1]
  have hε : 0 < min ε₀ (min ε₁ ε₂) := lt_min hε₀ (lt_min hε₁ hε₂)
  have main : ∀ h, h ≠ 0 → |h| < min ε₀ (min ε₁ ε₂) → h * turnSin (cornerPos p k) (cornerPos p (k + 1)) (cornerPos p (k + 2)) ≤ 0 →
      (∀ t, 0 ≤ t → t ≤ 1 → wnAt p (cornerArc (cornerPos p k) (cornerPos p (k + 1)) (cornerPos p (k + 2)) h t) = if 0 < h then a else a - 1) ∧
      (if 0 < h then a else a - 1) = if 0 < h then b else b - 1 := by
    intro h h0 hlt hsg
    obtain ⟨l0, l1⟩ := lt_min_iff.mp hlt
    obtain ⟨l1, l2⟩ := lt_min_iff.mp l1
    obtain ⟨o1, o2, o3⟩ := hoff h h0 l0 hsg
    have e1 : wnAt p (sidePt p h k (1 / 2)) = wnAt p (sidePt p h k 1) := wn_path hl (by norm_num) (moved_continuous _ _ h).continuousOn o1
    have e2 : sidePt p h k 1 = cornerArc (cornerPos p k) (cornerPos p (k + 1)) (cornerPos p (k + 2)) h 0 := (cornerArc_zero _ _ _ h).symm
    have e3 : ∀ t, 0 ≤ t → t ≤ 1 → wnAt p (cornerArc (cornerPos p k) (cornerPos p (k + 1)) (cornerPos p (k + 2)) h 0) =
        wnAt p (cornerArc (cornerPos p k) (cornerPos p (k + 1)) (cornerPos p (k + 2)) h t) := fun t t0 t1 =>
      wn_path hl t0 (cornerArc_continuous _ _ _ h).continuousOn fun x x0 x1 => o2 x x0 (x1.trans t1)
    have e4 : cornerArc (cornerPos p k) (cornerPos p (k + 1)) (cornerPos p (k + 2)) h 1 = sidePt p h (k + 1) 0 := cornerArc_one h1 h2 (no_spike hp hs k) h
    have e5 : wnAt p (sidePt p h (k + 1) 0) = wnAt p (sidePt p h (k + 1) (1 / 2)) := wn_path hl (by norm_num) (moved_continuous _ _ h).continuousOn o3
    have v1 := hval hva h h0 l1
    have v2 := hval hvb h h0 l2
    refine ⟨fun t t0 t1 => ?_, ?_⟩
    · rw [← e3 t t0 t1, ← e2, ← e1, v1]
    · rw [← v1, ← v2, e1, e2, e3 1 zero_le_one le_rfl, e4, e5]
  refine ⟨?_, _, hε, fun h h0 hlt hsg => (main h h0 hlt hsg).1⟩
  obtain ⟨h, h0, hlt⟩ := exists_between hε
  rcases le_total (turnSin (cornerPos p k) (cornerPos p (k + 1)) (cornerPos p (k + 2))) 0 with hsg | hsg
  · have := (main h h0.ne' (by rwa [abs_of_pos h0]) (mul_nonpos_of_nonneg_of_nonpos h0.le hsg)).2
    rw [if_pos h0, if_pos h0] at this
    exact this.symm
  · have := (main (-h) (by linarith) (by rwa [abs_neg, abs_of_pos h0]) (by nlinarith)).2
    rw [if_neg (by linarith), if_neg (by linarith)] at this
    linarith

theorem all_val : ∃ a, ∀ k, SideVal p a k := by
  obtain ⟨a, ha⟩ := side_val hp hs 0
  refine ⟨a, fun k => ?_⟩
  induction k with
  | zero => exact ha
  | succ k ih =>
    obtain ⟨b, hb⟩ := side_val hp hs (k + 1)
    have := (corner_val hp hs ih hb).1
    subst this
    exact hb

/-- On each side of the polyline, the winding number is the same at all points that see a point of the polyline straight on. -/
theorem sided_val {a : ℤ} (ha : ∀ k, SideVal p a k) {d : ℝ} (hd : d ≠ 0) {X : V2 ℝ} (hX : OffsetPt p d X) : wnAt p X = if 0 < d then a else a - 1 := by
  have hl := straight_loop hp
  have n2 := hp.two
  have hr : 0 < |d| := abs_pos.mpr hd
  -- the sign of the side
  obtain ⟨σ, hσ, hdσ, hσd⟩ : ∃ σ : ℝ, (σ = 1 ∨ σ = -1) ∧ d = σ * |d| ∧ (0 < d ↔ 0 < σ) := by
    rcases lt_or_gt_of_ne hd with h | h
    · exact ⟨-1, Or.inr rfl, by rw [abs_of_neg h]; ring, ⟨fun h' => by linarith, fun h' => by linarith⟩⟩
    · exact ⟨1, Or.inl rfl, by rw [abs_of_pos h]; ring, ⟨fun _ => one_pos, fun _ => h⟩⟩
  have habs : ∀ h : ℝ, 0 < h → |σ * h| = h := fun h h0 => by rcases hσ with rfl | rfl <;> simp [abs_of_pos h0]
  have hpm : ∀ h : ℝ, 0 < h → (0 < σ * h ↔ 0 < d) := fun h h0 => by
    rw [hσd]
    exact ⟨fun h1 => pos_of_mul_pos_left h1 h0.le, fun h1 => mul_pos h1 h0⟩
  have hne : ∀ h : ℝ, 0 < h → σ * h ≠ 0 := fun h h0 => by rcases hσ with rfl | rfl <;> simp [h0.ne']
  have hdiff : ∀ h : ℝ, h ≤ |d| → abs (σ * h - σ * |d|) = |d| - h := fun h h1 => by
    rw [← mul_sub, abs_mul, show |σ| = 1 by rcases hσ with rfl | rfl <;> simp, one_mul, abs_of_nonpos (by linarith)]; ring
  -- around a corner
  have around : ∀ k t, 0 ≤ t → t ≤ 1 → d * turnSin (cornerPos p k) (cornerPos p (k + 1)) (cornerPos p (k + 2)) ≤ 0 →
      X = cornerArc (cornerPos p k) (cornerPos p (k + 1)) (cornerPos p (k + 2)) d t → wnAt p X = if 0 < d then a else a - 1 := by
    intro k t t0 t1 hsg hXc
    obtain ⟨-, ε, hε, hv⟩ := corner_val hp hs (ha k) (ha (k + 1))
    obtain ⟨h, h0, hlt⟩ := exists_between (lt_min hε hr)
    obtain ⟨l1, l2⟩ := lt_min_iff.mp hlt
    have hray := ray_off hp (γ := fun h => cornerArc (cornerPos p k) (cornerPos p (k + 1)) (cornerPos p (k + 2)) (σ * h) t) (r := |d|)
      (fun h h0 h1 => by rw [cornerArc_along (corner_apart hp k), hdiff h h1]) (by rw [← hdσ, ← hXc]; exact hX.keeps)
    have hcont : Continuous fun h => ((cornerArc (cornerPos p k) (cornerPos p (k + 1)) (cornerPos p (k + 2)) (σ * h) t).x,
        (cornerArc (cornerPos p k) (cornerPos p (k + 1)) (cornerPos p (k + 2)) (σ * h) t).y) :=
      (cornerArc_continuous' _ _ _ t).comp (continuous_const.mul continuous_id)
    have e1 := wn_path hl (γ := fun h => cornerArc (cornerPos p k) (cornerPos p (k + 1)) (cornerPos p (k + 2)) (σ * h) t) l2.le hcont.continuousOn
      (fun x x0 x1 => hray x (by linarith) x1)
    rw [← hdσ, ← hXc] at e1
    rw [← e1, hv (σ * h) (hne h h0) (by rwa [habs h h0]) (by
      have : d * turnSin (cornerPos p k) (cornerPos p (k + 1)) (cornerPos p (k + 2)) = |d| * (σ * turnSin (cornerPos p k) (cornerPos p (k + 1)) (cornerPos p (k + 2))) := by
        conv_lhs => rw [hdσ]
        ring
      rw [this] at hsg
      have h3 : σ * turnSin (cornerPos p k) (cornerPos p (k + 1)) (cornerPos p (k + 2)) ≤ 0 := by
        by_contra hc
        push Not at hc
        have := mul_pos hr hc
        linarith
      nlinarith) t t0 t1]
    simp only [hpm h h0]
  rcases hX.place with ⟨k, u, u0, u1, hXs⟩ | ⟨k, t, hneg, t0, t1, hXc⟩
  · have hfar := (keeps_far hp).mp hX.keeps
    rcases lt_or_eq_of_le u1 with u1 | rfl
    · rcases lt_or_eq_of_le u0 with u0 | rfl
      · obtain ⟨ε, hε, hv⟩ := ha k u u0 u1
        obtain ⟨h, h0, hlt⟩ := exists_between (lt_min hε hr)
        obtain ⟨l1, l2⟩ := lt_min_iff.mp hlt
        have hray := ray_off hp (γ := fun h => sidePt p (σ * h) k u) (r := |d|)
          (fun h h0 h1 => by unfold sidePt; rw [moved_along (corner_apart hp k), hdiff h h1]) (by rw [← hdσ, ← hXs]; exact hX.keeps)
        have hcont : Continuous fun h => ((sidePt p (σ * h) k u).x, (sidePt p (σ * h) k u).y) :=
          (moved_continuous' _ _ u).comp (continuous_const.mul continuous_id)
        have e1 := wn_path hl (γ := fun h => sidePt p (σ * h) k u) l2.le hcont.continuousOn (fun x x0 x1 => hray x (by linarith) x1)
        rw [← hdσ, ← hXs] at e1
        rw [← e1]
        obtain ⟨v1, v2⟩ := hv h h0 l1
        rcases hσ with rfl | rfl
        · rw [one_mul, v1, if_pos (hσd.mpr one_pos)]
        · rw [neg_one_mul, v2, if_neg (fun h => by have := hσd.mp h; linarith)]
      · obtain ⟨b1, b2⟩ := corner_back hp k
        have hap : cornerPos p (k + p.verts.length - 1) ≠ cornerPos p (k + p.verts.length - 1 + 1) := corner_apart hp _
        have hap2 : cornerPos p (k + p.verts.length - 1 + 1) ≠ cornerPos p (k + p.verts.length - 1 + 2) := corner_apart hp _
        have hXm : X = moved (cornerPos p (k + p.verts.length - 1 + 1)) (cornerPos p (k + p.verts.length - 1 + 2)) d 0 := by rw [hXs, b1, b2]; rfl
        by_cases hsg : d * turnSin (cornerPos p (k + p.verts.length - 1)) (cornerPos p (k + p.verts.length - 1 + 1)) (cornerPos p (k + p.verts.length - 1 + 2)) ≤ 0
        · refine around _ 1 zero_le_one le_rfl hsg ?_
          rw [cornerArc_one hap hap2 (no_spike hp hs _), hXm]
        · exfalso
          push Not at hsg
          refine inner_end_rev hap hap2 hsg ?_
          rw [← hXm]
          exact hfar _
    · by_cases hsg : d * turnSin (cornerPos p k) (cornerPos p (k + 1)) (cornerPos p (k + 2)) ≤ 0
      · exact around k 0 le_rfl zero_le_one hsg (by rw [cornerArc_zero, hXs]; rfl)
      · exfalso
        push Not at hsg
        refine inner_end (corner_apart hp k) (corner_apart hp (k + 1)) hsg ?_
        have := hfar (k + 1)
        rw [hXs] at this
        exact this
  · refine around k t t0 t1 ?_ hXc
    by_cases hz : turnSin (cornerPos p k) (cornerPos p (k + 1)) (cornerPos p (k + 2)) = 0
    · rw [hz, mul_zero]
    · exact ((setback_sign (corner_apart hp k) (corner_apart hp (k + 1)) hz).2.mp hneg).le

/-- A point at exactly a distance from the polyline is on a parallel curve, and it sees a point inside of a side or a corner on its outer side. -/
theorem placed {r : ℝ} (hr : 0 < r) {X : V2 ℝ} (hk : Keeps p r X) {m : Nat} {u : ℝ} (u0 : 0 ≤ u) (u1 : u ≤ 1)
    (hu : edist X (linePoint (cornerPos p m) (cornerPos p (m + 1)) u) = r) :
    (0 < u ∧ u < 1 ∧ (X = sidePt p r m u ∨ X = sidePt p (-r) m u)) ∨
    ∃ k, linePoint (cornerPos p m) (cornerPos p (m + 1)) u = cornerPos p (k + 1) ∧ ∃ d, (d = r ∨ d = -r) ∧
      d * turnSin (cornerPos p k) (cornerPos p (k + 1)) (cornerPos p (k + 2)) ≤ 0 ∧
      ∃ t, 0 ≤ t ∧ t ≤ 1 ∧ X = cornerArc (cornerPos p k) (cornerPos p (k + 1)) (cornerPos p (k + 2)) d t := by
  have n2 := hp.two
  have hfar := (keeps_far hp).mp hk
  have corner : ∀ k, edist X (cornerPos p (k + 1)) = r → ∃ d, (d = r ∨ d = -r) ∧
      d * turnSin (cornerPos p k) (cornerPos p (k + 1)) (cornerPos p (k + 2)) ≤ 0 ∧
      ∃ t, 0 ≤ t ∧ t ≤ 1 ∧ X = cornerArc (cornerPos p k) (cornerPos p (k + 1)) (cornerPos p (k + 2)) d t := by
    intro k hX
    have h1 := corner_apart hp k
    have h2 : cornerPos p (k + 1) ≠ cornerPos p (k + 2) := corner_apart hp (k + 1)
    have c1 := far_cone_stop h1 hr.le hX (hfar k)
    have c2 := far_cone_start h2 hr.le hX (hfar (k + 1))
    rcases lt_trichotomy (turnSin (cornerPos p k) (cornerPos p (k + 1)) (cornerPos p (k + 2))) 0 with hs' | hs' | hs'
    · have hneg : r * turnSin (cornerPos p k) (cornerPos p (k + 1)) (cornerPos p (k + 2)) < 0 := by nlinarith
      exact ⟨r, Or.inl rfl, hneg.le, cone_arc h1 h2 hneg (by rw [hX, abs_of_pos hr]) c1 c2⟩
    · have hcos := no_spike hp hs k hs'
      obtain ⟨f1, f2⟩ := frame_turn h1 h2 X
      rw [hs', hcos] at f1
      have hf0 : fwd (cornerPos p k) (cornerPos p (k + 1)) (cornerPos p (k + 1)) X = 0 := by linarith
      have hsq := fwd_lft_sq h1 (cornerPos p (k + 1)) X
      rw [hf0, hX] at hsq
      have hl : lft (cornerPos p k) (cornerPos p (k + 1)) (cornerPos p (k + 1)) X = r ∨ lft (cornerPos p k) (cornerPos p (k + 1)) (cornerPos p (k + 1)) X = -r :=
        sq_eq_sq_iff_eq_or_eq_neg.mp (by linarith)
      refine ⟨lft (cornerPos p k) (cornerPos p (k + 1)) (cornerPos p (k + 1)) X, hl, by rw [hs', mul_zero], 0, le_rfl, zero_le_one, ?_⟩
      rw [cornerArc_zero]
      obtain ⟨-, -, g1, g2⟩ := moved_frame h1 (lft (cornerPos p k) (cornerPos p (k + 1)) (cornerPos p (k + 1)) X) 1
      exact fwd_lft_ext h1 (v := cornerPos p (k + 1)) (by rw [g1, hf0]; ring) (by rw [g2])
    · have hneg : -r * turnSin (cornerPos p k) (cornerPos p (k + 1)) (cornerPos p (k + 2)) < 0 := by nlinarith
      exact ⟨-r, Or.inr rfl, hneg.le, cone_arc h1 h2 hneg (by rw [hX, abs_neg, abs_of_pos hr]) c1 c2⟩
  rcases lt_or_eq_of_le u1 with u1 | rfl
  · rcases lt_or_eq_of_le u0 with u0 | rfl
    · left
      refine ⟨u0, u1, ?_⟩
      have h1 := corner_apart hp m
      have hlen := edist_pos h1
      -- the foot inside the side is the foot on the line
      have hf := (far_start h1 hr.le X).mp (hfar m)
      have e := side_dist_start h1 X u
      rw [hu] at e
      set L := edist (cornerPos p m) (cornerPos p (m + 1))
      set F := fwd (cornerPos p m) (cornerPos p (m + 1)) (cornerPos p m) X
      have hF : F = u * L := by
        by_contra hne
        have key : ∀ w, 0 ≤ w → w ≤ L → 0 ≤ (w - u * L) * (w + u * L - 2 * F) := fun w w0 w1 => by
          have := hf w w0 w1
          nlinarith
        rcases lt_or_gt_of_ne hne with h | h
        · obtain ⟨w, w0, w1⟩ := exists_between (max_lt (show 2 * F - u * L < u * L by linarith) (show 0 < u * L by positivity))
          obtain ⟨w0, w2⟩ := max_lt_iff.mp w0
          have := key w w2.le (by nlinarith)
          nlinarith
        · obtain ⟨w, w0, w1⟩ := exists_between (lt_min (show u * L < 2 * F - u * L by linarith) (show u * L < L by nlinarith))
          obtain ⟨w1, w2⟩ := lt_min_iff.mp w1
          have := key w (by nlinarith) w2.le
          nlinarith
      have hsq := fwd_lft_sq h1 (cornerPos p m) X
      have hl2 : lft (cornerPos p m) (cornerPos p (m + 1)) (cornerPos p m) X ^ 2 = r ^ 2 := by
        change F ^ 2 + _ = _ at hsq
        rw [hF] at hsq e
        nlinarith
      rcases sq_eq_sq_iff_eq_or_eq_neg.mp hl2 with hl | hl
      · left
        obtain ⟨g1, g2, -, -⟩ := moved_frame h1 r u
        exact fwd_lft_ext h1 (v := cornerPos p m) (hF.trans g1.symm) (by unfold sidePt; rw [g2, hl])
      · right
        obtain ⟨g1, g2, -, -⟩ := moved_frame h1 (-r) u
        exact fwd_lft_ext h1 (v := cornerPos p m) (hF.trans g1.symm) (by unfold sidePt; rw [g2, hl])
    · right
      have hz : linePoint (cornerPos p m) (cornerPos p (m + 1)) 0 = cornerPos p (m + p.verts.length - 1 + 1) := by
        rw [(corner_back hp m).1]; simp [linePoint]
      exact ⟨m + p.verts.length - 1, hz, corner _ (by rw [← hz, hu])⟩
  · right
    have hz : linePoint (cornerPos p m) (cornerPos p (m + 1)) 1 = cornerPos p (m + 1) := by simp [linePoint]
    exact ⟨m, hz, corner _ (by rw [← hz, hu])⟩

theorem placed_offset {r : ℝ} (hr : 0 < r) {X : V2 ℝ} (hk : Keeps p r X) {m : Nat} {u : ℝ} (u0 : 0 ≤ u) (u1 : u ≤ 1)
    (hu : edist X (linePoint (cornerPos p m) (cornerPos p (m + 1)) u) = r) : OffsetPt p r X ∨ OffsetPt p (-r) X := by
  have habs : |r| = r := abs_of_pos hr
  have habs' : |-r| = r := by rw [abs_neg, habs]
  rcases placed hp hs hr hk u0 u1 hu with ⟨a0, a1, h | h⟩ | ⟨k, -, d, hd, hsg, t, t0, t1, hX⟩
  · exact Or.inl ⟨by rwa [habs], Or.inl ⟨m, u, u0, u1, h⟩⟩
  · exact Or.inr ⟨by rwa [habs'], Or.inl ⟨m, u, u0, u1, h⟩⟩
  · have hplace : Beside p d X ∨ Around p d X := by
      by_cases hz : turnSin (cornerPos p k) (cornerPos p (k + 1)) (cornerPos p (k + 2)) = 0
      · left
        refine ⟨k, 1, zero_le_one, le_rfl, ?_⟩
        have hht : halfTurn (cornerPos p k) (cornerPos p (k + 1)) (cornerPos p (k + 2)) = 0 := by unfold halfTurn; rw [hz]; simp
        rw [hX]
        unfold sidePt
        rw [← cornerArc_zero _ _ (cornerPos p (k + 2))]
        unfold cornerArc
        rw [hht]
        simp
      · right
        refine ⟨k, t, ?_, t0, t1, hX⟩
        have hd0 : d ≠ 0 := by rcases hd with rfl | rfl <;> simp [hr.ne']
        exact (setback_sign (corner_apart hp k) (corner_apart hp (k + 1)) hz).2.mpr (lt_of_le_of_ne hsg (mul_ne_zero hd0 hz))
    rcases hd with rfl | rfl
    · exact Or.inl ⟨by rwa [habs], hplace⟩
    · exact Or.inr ⟨by rwa [habs'], hplace⟩

omit hs in
/-- every point off the polyline has a nearest point on it -/
theorem nearest {X : V2 ℝ} (hX : ¬ OnPline p X) : ∃ r > 0, Keeps p r X ∧ ∃ m u, 0 ≤ u ∧ u ≤ 1 ∧ edist X (linePoint (cornerPos p m) (cornerPos p (m + 1)) u) = r := by
  have n2 := hp.two
  have hl := straight_loop hp
  have hcont : Continuous fun z : ℝ × ℝ => edist X ⟨z.1, z.2⟩ := by unfold edist; fun_prop
  obtain ⟨z, hz, hmin⟩ := (trace_isCompact hl).exists_isMinOn (trace_nonempty hl) hcont.continuousOn
  refine ⟨edist X ⟨z.1, z.2⟩, edist_pos fun h => hX (by rw [h]; exact hz), fun q hq => ?_, ?_⟩
  · exact hmin (show (q.x, q.y) ∈ trace p from hq)
  · obtain ⟨s, hs, u, u0, u1, hz⟩ := hz
    rw [segs_range hp.closed hp.two] at hs
    obtain ⟨i, hi, rfl⟩ := List.mem_map.mp hs
    dsimp only at hz
    rw [← curveAt_vtx (by omega), straight_curve hp] at hz
    exact ⟨i, u, u0, u1, by rw [← hz]⟩

/-- The two values of the winding number. -/
theorem two_values : ∃ a : ℤ, (a = 0 ∨ a = 1) ∧ (∀ k, SideVal p a k) ∧ (∀ X, ¬ OnPline p X → wnAt p X = a ∨ wnAt p X = a - 1) := by
  have hl := straight_loop hp
  obtain ⟨a, ha⟩ := all_val hp hs
  have htwo : ∀ X, ¬ OnPline p X → wnAt p X = a ∨ wnAt p X = a - 1 := by
    intro X hX
    obtain ⟨r, hr, hk, m, u, u0, u1, hu⟩ := nearest hp hX
    rcases placed_offset hp hs hr hk u0 u1 hu with h | h
    · left; rw [sided_val hp hs ha hr.ne' h, if_pos hr]
    · right; rw [sided_val hp hs ha (by linarith) h, if_neg (by linarith)]
  refine ⟨a, ?_, ha, htwo⟩
  -- a point beyond the right end
  obtain ⟨z, hz, hmax⟩ := (trace_isCompact hl).exists_isMaxOn (trace_nonempty hl) continuous_fst.continuousOn
  have hoff : ¬ OnPline p ⟨z.1 + 1, z.2⟩ := fun h => by
    have := hmax (show (z.1 + 1, z.2) ∈ trace p from h)
    simp only [Set.mem_setOf_eq] at this
    linarith
  have h0 : wnAt p ⟨z.1 + 1, z.2⟩ = 0 := wn_right_end hl (z := (z.1 + 1, z.2)) hoff fun y hy => by
    have := hmax hy
    simp only [Set.mem_setOf_eq] at this
    dsimp only
    linarith
  rcases htwo _ hoff with h | h <;> rw [h0] at h <;> omega

end
end Cavc
