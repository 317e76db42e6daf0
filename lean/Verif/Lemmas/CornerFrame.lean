import Verif.Lemmas.FootLocal
import Verif.Lemmas.OffsetBranch

/-! # Corners of polylines of lines and arcs, and the nearest points of a polyline -/

set_option linter.unusedVariables false
set_option linter.unusedSectionVars false

namespace Cavc
open Pline

section
variable {p : Pline ℝ} {eps : ℝ} (hp : FullLoop p eps) (he : 0 < eps)

/-- direction of segment `k` -/
noncomputable abbrev dirAt (p : Pline ℝ) (k : Nat) (u : ℝ) : V2 ℝ := segDir (vtx p k) (vtx p (k + 1)) u

/-- curve of segment `k` -/
noncomputable abbrev segAt (p : Pline ℝ) (k : Nat) (u : ℝ) : V2 ℝ := segCurve (vtx p k) (vtx p (k + 1)) u

theorem segAt_zero (k : Nat) : segAt p k 0 = cornerPos p k := (segCurve_ends _ _).1

theorem segAt_one (k : Nat) : segAt p k 1 = cornerPos p (k + 1) := (segCurve_ends _ _).2

include hp he

theorem shapeAt (k : Nat) : SegShape (vtx p k) (vtx p (k + 1)) := by
  have hne := loop_ne he hp k
  refine ⟨?_, hne⟩
  rcases (hp.full k).shape with h | ⟨h1, h2⟩
  · exact Or.inl h
  · exact Or.inr ⟨h1, h2, hne⟩

theorem len_pos (k : Nat) : 0 < sideLen p k := (shapeAt hp he k).len

theorem parCurve_eq (d : ℝ) (k : Nat) (t : ℝ) : parCurve p d k t =
    ⟨(segAt p k t).x - d * ((dirAt p k t).y / sideLen p k), (segAt p k t).y + d * ((dirAt p k t).x / sideLen p k)⟩ := par_eq (shapeAt hp he k) d t

theorem start_ray (k : Nat) : ∃ l > 0, Ray (segAt p k) (cornerPos p k) ⟨l * (dirAt p k 0).x, l * (dirAt p k 0).y⟩ := by
  obtain ⟨l, hl, h1, h2⟩ := seg_deriv (shapeAt hp he k) 0
  exact ⟨l, hl, segAt_zero k, h1, h2⟩

theorem stop_ray (k : Nat) : ∃ l > 0, Ray (fun s => segAt p k (1 - s)) (cornerPos p (k + 1)) ⟨-l * (dirAt p k 1).x, -l * (dirAt p k 1).y⟩ := by
  obtain ⟨l, hl, h1, h2⟩ := seg_deriv (shapeAt hp he k) 1
  have hs : HasDerivAt (fun s : ℝ => 1 - s) (-1) 0 := by simpa using (hasDerivAt_id (0 : ℝ)).const_sub 1
  refine ⟨l, hl, ?_, ?_, ?_⟩
  · show segAt p k (1 - 0) = _
    rw [sub_zero, segAt_one]
  · have := HasDerivAt.comp (h := fun s : ℝ => 1 - s) (h₂ := fun t => (segAt p k t).x) 0 (by rw [sub_zero]; exact h1) hs
    refine this.congr_deriv ?_
    dsimp only; ring
  · have := HasDerivAt.comp (h := fun s : ℝ => 1 - s) (h₂ := fun t => (segAt p k t).y) 0 (by rw [sub_zero]; exact h2) hs
    refine this.congr_deriv ?_
    dsimp only; ring

/-! ## The frame of a corner -/

omit hp he in
theorem arrive_sq (k : Nat) : edist (arriveFrom p k) (cornerPos p (k + 1)) = sideLen p k := by
  have := segDir_sq (vtx p k) (vtx p (k + 1)) 1
  have h2 : edist (arriveFrom p k) (cornerPos p (k + 1)) ^ 2 = sideLen p k ^ 2 := by
    rw [edist_sq]
    simp only [arriveFrom]
    rw [show sideLen p k = edist (vtx p k).pos (vtx p (k + 1)).pos from rfl, ← this]
    ring
  exact (pow_left_inj₀ (edist_nonneg _ _) (edist_nonneg _ _) (by norm_num)).mp h2

omit hp he in
theorem depart_sq (k : Nat) : edist (cornerPos p (k + 1)) (departTo p k) = sideLen p (k + 1) := by
  have := segDir_sq (vtx p (k + 1)) (vtx p (k + 2)) 0
  have h2 : edist (cornerPos p (k + 1)) (departTo p k) ^ 2 = sideLen p (k + 1) ^ 2 := by
    rw [edist_sq]
    simp only [departTo]
    rw [show sideLen p (k + 1) = edist (vtx p (k + 1)).pos (vtx p (k + 2)).pos from rfl, ← this]
    ring
  exact (pow_left_inj₀ (edist_nonneg _ _) (edist_nonneg _ _) (by norm_num)).mp h2

omit hp he in
theorem edist_same (A : V2 ℝ) : edist A A = 0 := by unfold edist; simp

theorem arrive_ne (k : Nat) : arriveFrom p k ≠ cornerPos p (k + 1) := by
  intro h
  have := arrive_sq (p := p) k
  rw [h, edist_same] at this
  exact (len_pos hp he k).ne this

theorem depart_ne (k : Nat) : cornerPos p (k + 1) ≠ departTo p k := by
  intro h
  have := depart_sq (p := p) k
  rw [← h, edist_same] at this
  exact (len_pos hp he (k + 1)).ne this

omit hp he in
theorem fwd_arrive (k : Nat) (X : V2 ℝ) : fwd (arriveFrom p k) (cornerPos p (k + 1)) (cornerPos p (k + 1)) X =
    ((X.x - (cornerPos p (k + 1)).x) * (dirAt p k 1).x + (X.y - (cornerPos p (k + 1)).y) * (dirAt p k 1).y) / sideLen p k := by
  unfold fwd
  rw [arrive_sq]
  simp only [arriveFrom]
  ring

omit hp he in
theorem fwd_depart (k : Nat) (X : V2 ℝ) : fwd (cornerPos p (k + 1)) (departTo p k) (cornerPos p (k + 1)) X =
    ((X.x - (cornerPos p (k + 1)).x) * (dirAt p (k + 1) 0).x + (X.y - (cornerPos p (k + 1)).y) * (dirAt p (k + 1) 0).y) / sideLen p (k + 1) := by
  unfold fwd
  rw [depart_sq]
  simp only [departTo]
  ring

theorem par_arrive (d : ℝ) (k : Nat) : parCurve p d k 1 = moved (arriveFrom p k) (cornerPos p (k + 1)) d 1 := by
  rw [parCurve_eq hp he, segAt_one]
  unfold moved
  rw [arrive_sq]
  simp only [arriveFrom]
  rw [V2.ext_iff']
  constructor <;> dsimp only <;> ring

theorem par_depart (d : ℝ) (k : Nat) : parCurve p d (k + 1) 0 = moved (cornerPos p (k + 1)) (departTo p k) d 0 := by
  rw [parCurve_eq hp he, segAt_zero]
  unfold moved
  rw [depart_sq]
  simp only [departTo]
  rw [V2.ext_iff']
  constructor <;> dsimp only <;> ring

/-! ## Nearest points -/

omit hp he in
/-- a vector of the length `|d|` at a right angle to a direction -/
theorem perp_two {x y a b L d : ℝ} (hL : 0 < L) (hab : a ^ 2 + b ^ 2 = L ^ 2) (hlen : x ^ 2 + y ^ 2 = d ^ 2) (h : x * a + y * b = 0) :
    (x = -(d * (b / L)) ∧ y = d * (a / L)) ∨ (x = d * (b / L) ∧ y = -(d * (a / L))) := by
  have h2 : (y * a - x * b) ^ 2 = (d * L) ^ 2 := by
    rw [mul_pow, ← hab, ← hlen]
    linear_combination (-(x * a + y * b)) * h
  rcases sq_eq_sq_iff_eq_or_eq_neg.mp h2 with h' | h'
  · left
    constructor
    · have : x * L ^ 2 = -(d * b * L) := by rw [← hab]; linear_combination a * h - b * h'
      field_simp
      have : x * L * L = -(d * b) * L := by linarith
      linarith [mul_right_cancel₀ hL.ne' this]
    · have : y * L ^ 2 = d * a * L := by rw [← hab]; linear_combination b * h + a * h'
      field_simp
      have : y * L * L = d * a * L := by linarith
      linarith [mul_right_cancel₀ hL.ne' this]
  · right
    constructor
    · have : x * L ^ 2 = d * b * L := by rw [← hab]; linear_combination a * h - b * h'
      field_simp
      have : x * L * L = d * b * L := by linarith
      linarith [mul_right_cancel₀ hL.ne' this]
    · have : y * L ^ 2 = -(d * a * L) := by rw [← hab]; linear_combination b * h + a * h'
      field_simp
      have : y * L * L = -(d * a) * L := by linarith
      linarith [mul_right_cancel₀ hL.ne' this]

/-- A point at a right angle beside a segment is on one of its parallels. -/
theorem perp_par {d : ℝ} {m : Nat} {u : ℝ} {X : V2 ℝ} (hX : edist X (segAt p m u) = |d|)
    (h : (X.x - (segAt p m u).x) * (dirAt p m u).x + (X.y - (segAt p m u).y) * (dirAt p m u).y = 0) : X = parCurve p d m u ∨ X = parCurve p (-d) m u := by
  have hL := len_pos hp he m
  have hab := segDir_sq (vtx p m) (vtx p (m + 1)) u
  have hlen : (X.x - (segAt p m u).x) ^ 2 + (X.y - (segAt p m u).y) ^ 2 = d ^ 2 := by rw [← edist_sq, hX, sq_abs]
  rcases perp_two (L := sideLen p m) hL hab hlen h with ⟨h1, h2⟩ | ⟨h1, h2⟩
  · left
    rw [parCurve_eq hp he, V2.ext_iff']
    exact ⟨by dsimp only; linarith, by dsimp only; linarith⟩
  · right
    rw [parCurve_eq hp he, V2.ext_iff']
    exact ⟨by dsimp only; linarith, by dsimp only; linarith⟩

theorem keeps_seg {r : ℝ} {X : V2 ℝ} (hk : Keeps p r X) (m : Nat) : ∀ u, 0 ≤ u → u ≤ 1 → r ≤ edist X (segAt p m u) :=
  fun u h0 h1 => hk _ (side_on hp m h0 h1)

/-- a nearest point inside a segment -/
theorem foot_mid {d : ℝ} {X : V2 ℝ} (hk : Keeps p |d| X) {m : Nat} {u : ℝ} (h0 : 0 < u) (h1 : u < 1) (hu : edist X (segAt p m u) = |d|) :
    X = parCurve p d m u ∨ X = parCurve p (-d) m u := by
  obtain ⟨l, hl, d1, d2⟩ := seg_deriv (shapeAt hp he m) u
  have := foot_inside d1 d2 h0 h1 (abs_nonneg d) (keeps_seg hp he hk m) hu
  refine perp_par hp he hu ?_
  have h' : l * ((X.x - (segAt p m u).x) * (dirAt p m u).x + (X.y - (segAt p m u).y) * (dirAt p m u).y) = 0 := by linarith
  exact (mul_eq_zero.mp h').resolve_left hl.ne'

/-- a nearest point at a corner: the point is in the cone between the two segments -/
theorem foot_cone {r : ℝ} {X : V2 ℝ} (hr : 0 ≤ r) (hk : Keeps p r X) (k : Nat) (hu : edist X (cornerPos p (k + 1)) = r) :
    0 ≤ fwd (arriveFrom p k) (cornerPos p (k + 1)) (cornerPos p (k + 1)) X ∧ fwd (cornerPos p (k + 1)) (departTo p k) (cornerPos p (k + 1)) X ≤ 0 := by
  rw [fwd_arrive, fwd_depart]
  constructor
  · obtain ⟨l, hl, hray⟩ := stop_ray hp he k
    have := foot_start hray hr (fun s h0 h1 => keeps_seg hp he hk k (1 - s) (by linarith) (by linarith)) hu
    dsimp only at this
    apply div_nonneg _ (len_pos hp he k).le
    nlinarith
  · obtain ⟨l, hl, hray⟩ := start_ray hp he (k + 1)
    have := foot_start hray hr (keeps_seg hp he hk (k + 1)) hu
    dsimp only at this
    apply div_nonpos_of_nonpos_of_nonneg _ (len_pos hp he (k + 1)).le
    nlinarith

/-- At a corner without a turn the directions agree. -/
theorem no_turn {k : Nat} (hs : cornerSin p k = 0) (hc : 0 < cornerCos p k) (X : V2 ℝ) :
    fwd (cornerPos p (k + 1)) (departTo p k) (cornerPos p (k + 1)) X = cornerCos p k * fwd (arriveFrom p k) (cornerPos p (k + 1)) (cornerPos p (k + 1)) X := by
  rw [(frame_turn (arrive_ne hp he k) (depart_ne hp he k) X).1]
  have hs' : turnSin (arriveFrom p k) (cornerPos p (k + 1)) (departTo p k) = 0 := hs
  rw [hs']
  unfold cornerCos
  ring

/-- Where a point that keeps the distance and has a nearest point at a corner can be. -/
theorem corner_place {d : ℝ} {X : V2 ℝ} (hk : Keeps p |d| X) {k : Nat} (ht : cornerSin p k = 0 → 0 < cornerCos p k) (hu : edist X (cornerPos p (k + 1)) = |d|) :
    (X = parCurve p d k 1 ∨ X = parCurve p (-d) k 1) ∨ (d * cornerSin p k < 0 ∧ ∃ t, 0 ≤ t ∧ t ≤ 1 ∧ X = roundArc p d k t) ∨ AroundVertex p (-d) X := by
  obtain ⟨k1, k2⟩ := foot_cone hp he (abs_nonneg d) hk k hu
  by_cases hz : fwd (arriveFrom p k) (cornerPos p (k + 1)) (cornerPos p (k + 1)) X = 0
  · left
    refine perp_par hp he (by rw [segAt_one]; exact hu) ?_
    rw [fwd_arrive, div_eq_zero_iff] at hz
    rw [segAt_one]
    exact hz.resolve_right (len_pos hp he k).ne'
  · right
    rcases lt_trichotomy (d * cornerSin p k) 0 with h | h | h
    · exact Or.inl ⟨h, cone_arc (arrive_ne hp he k) (depart_ne hp he k) h hu k1 k2⟩
    · exfalso
      rcases mul_eq_zero.mp h with h | h
      · rw [h, abs_zero] at hu
        have : X = cornerPos p (k + 1) := by
          have h2 := edist_sq X (cornerPos p (k + 1))
          rw [hu] at h2
          rw [V2.ext_iff']
          constructor <;> nlinarith [sq_nonneg (X.x - (cornerPos p (k + 1)).x), sq_nonneg (X.y - (cornerPos p (k + 1)).y)]
        apply hz
        rw [this]; unfold fwd; simp
      · have hc := ht h
        rw [no_turn hp he h hc] at k2
        exact hz (le_antisymm (by by_contra hh; push Not at hh; nlinarith) k1)
    · right
      obtain ⟨t, h0, h1, e⟩ := cone_arc (d := -d) (arrive_ne hp he k) (depart_ne hp he k) (by
        have : turnSin (arriveFrom p k) (cornerPos p (k + 1)) (departTo p k) = cornerSin p k := rfl
        rw [this]; linarith) (by rw [abs_neg]; exact hu) k1 k2
      exact ⟨k, t, by linarith, h0, h1, e⟩

end

end Cavc
