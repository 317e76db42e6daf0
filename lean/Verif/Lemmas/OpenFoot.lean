import Verif.Lemmas.OpenParts

/-! # Near a point of the parallel curve of an open polyline: when the distance is kept

As for closed polylines, but the segments end at the ends of the polyline. -/

set_option linter.unusedVariables false
set_option linter.unusedSectionVars false

namespace Cavc.Path
open RealScalar Pline Filter Topology

section
variable {p : Pline ℝ} {eps : ℝ} (hp : FullPath p eps) (he : 0 < eps)
include hp he

theorem shapeAt {k : Nat} (hk : k + 1 < p.verts.length) : SegShape (vtx p k) (vtx p (k + 1)) := by
  have hne := fuzzy_ne he (hp.full k hk).apart
  refine ⟨?_, hne⟩
  rcases (hp.full k hk).shape with h | ⟨h1, h2⟩
  · exact Or.inl h
  · exact Or.inr ⟨h1, h2, hne⟩

theorem len_pos {k : Nat} (hk : k + 1 < p.verts.length) : 0 < sideLen p k := (shapeAt hp he hk).len

theorem parCurve_eq {k : Nat} (hk : k + 1 < p.verts.length) (d : ℝ) (t : ℝ) : parCurve p d k t =
    ⟨(segAt p k t).x - d * ((dirAt p k t).y / sideLen p k), (segAt p k t).y + d * ((dirAt p k t).x / sideLen p k)⟩ := par_eq (shapeAt hp he hk) d t

theorem start_ray {k : Nat} (hk : k + 1 < p.verts.length) : ∃ l > 0, Ray (segAt p k) (cornerPos p k) ⟨l * (dirAt p k 0).x, l * (dirAt p k 0).y⟩ := by
  obtain ⟨l, hl, h1, h2⟩ := seg_deriv (shapeAt hp he hk) 0
  exact ⟨l, hl, segAt_zero k, h1, h2⟩

theorem stop_ray {k : Nat} (hk : k + 1 < p.verts.length) : ∃ l > 0, Ray (fun s => segAt p k (1 - s)) (cornerPos p (k + 1)) ⟨-l * (dirAt p k 1).x, -l * (dirAt p k 1).y⟩ := by
  obtain ⟨l, hl, h1, h2⟩ := seg_deriv (shapeAt hp he hk) 1
  have hs : HasDerivAt (fun s : ℝ => 1 - s) (-1) 0 := by simpa using (hasDerivAt_id (0 : ℝ)).const_sub 1
  refine ⟨l, hl, ?_, ?_, ?_⟩
  · show segAt p k (1 - 0) = _
    rw [sub_zero, segAt_one]
  · have := HasDerivAt.comp (h := fun s : ℝ => 1 - s) (h₂ := fun t => (segAt p k t).x) 0 (by rw [sub_zero]; exact h1) hs
    refine this.congr_deriv ?_
    dsimp only; ring
  · have := HasDerivAt.comp (h := fun s : ℝ => 1 - s) (h₂ := fun t => (segAt p k t).y) 0 (by rw [sub_zero]; exact h2) hs
    refine this.congr_deriv ?_
    dsimp only; ring

theorem arrive_ne {k : Nat} (hk : k + 1 < p.verts.length) : arriveFrom p k ≠ cornerPos p (k + 1) := by
  intro h
  have := arrive_sq (p := p) k
  rw [h, edist_same] at this
  exact (len_pos hp he hk).ne this

theorem depart_ne {k : Nat} (hk : k + 2 < p.verts.length) : cornerPos p (k + 1) ≠ departTo p k := by
  intro h
  have := depart_sq (p := p) k
  rw [← h, edist_same] at this
  exact (len_pos hp he (k := k + 1) (by omega)).ne this

/-- A point at a right angle beside a segment is on one of its parallels. -/
theorem perp_par {d : ℝ} {m : Nat} (hm : m + 1 < p.verts.length) {u : ℝ} {X : V2 ℝ} (hX : edist X (segAt p m u) = |d|)
    (h : (X.x - (segAt p m u).x) * (dirAt p m u).x + (X.y - (segAt p m u).y) * (dirAt p m u).y = 0) : X = parCurve p d m u ∨ X = parCurve p (-d) m u := by
  have hL := len_pos hp he hm
  have hab := segDir_sq (vtx p m) (vtx p (m + 1)) u
  have hlen : (X.x - (segAt p m u).x) ^ 2 + (X.y - (segAt p m u).y) ^ 2 = d ^ 2 := by rw [← edist_sq, hX, sq_abs]
  rcases perp_two (L := sideLen p m) hL hab hlen h with ⟨h1, h2⟩ | ⟨h1, h2⟩
  · left
    rw [parCurve_eq hp he hm, V2.ext_iff']
    exact ⟨by dsimp only; linarith, by dsimp only; linarith⟩
  · right
    rw [parCurve_eq hp he hm, V2.ext_iff']
    exact ⟨by dsimp only; linarith, by dsimp only; linarith⟩

theorem keeps_seg {r : ℝ} {X : V2 ℝ} (hk : Keeps p r X) {m : Nat} (hm : m + 1 < p.verts.length) : ∀ u, 0 ≤ u → u ≤ 1 → r ≤ edist X (segAt p m u) :=
  fun u h0 h1 => hk _ ⟨_, List.mem_of_getElem? ((path_segs hp.open hp.two _ m).mpr ⟨hm, rfl⟩), u, h0, h1, rfl⟩

/-- a nearest point inside a segment -/
theorem foot_mid {d : ℝ} {X : V2 ℝ} (hk : Keeps p |d| X) {m : Nat} (hm : m + 1 < p.verts.length) {u : ℝ} (h0 : 0 < u) (h1 : u < 1) (hu : edist X (segAt p m u) = |d|) :
    X = parCurve p d m u ∨ X = parCurve p (-d) m u := by
  obtain ⟨l, hl, d1, d2⟩ := seg_deriv (shapeAt hp he hm) u
  have := foot_inside d1 d2 h0 h1 (abs_nonneg d) (keeps_seg hp he hk hm) hu
  refine perp_par hp he hm hu ?_
  have h' : l * ((X.x - (segAt p m u).x) * (dirAt p m u).x + (X.y - (segAt p m u).y) * (dirAt p m u).y) = 0 := by linarith
  exact (mul_eq_zero.mp h').resolve_left hl.ne'

/-- a nearest point at a corner: the point is in the cone between the two segments -/
theorem foot_cone {r : ℝ} {X : V2 ℝ} (hr : 0 ≤ r) (hk : Keeps p r X) {k : Nat} (hk2 : k + 2 < p.verts.length) (hu : edist X (cornerPos p (k + 1)) = r) :
    0 ≤ fwd (arriveFrom p k) (cornerPos p (k + 1)) (cornerPos p (k + 1)) X ∧ fwd (cornerPos p (k + 1)) (departTo p k) (cornerPos p (k + 1)) X ≤ 0 := by
  rw [fwd_arrive, fwd_depart]
  constructor
  · obtain ⟨l, hl, hray⟩ := stop_ray hp he (k := k) (by omega)
    have := foot_start hray hr (fun s h0 h1 => keeps_seg hp he hk (m := k) (by omega) (1 - s) (by linarith) (by linarith)) hu
    dsimp only at this
    apply div_nonneg _ (len_pos hp he (k := k) (by omega)).le
    nlinarith
  · obtain ⟨l, hl, hray⟩ := start_ray hp he (k := k + 1) (by omega)
    have := foot_start hray hr (keeps_seg hp he hk (m := k + 1) (by omega)) hu
    dsimp only at this
    apply div_nonpos_of_nonpos_of_nonneg _ (len_pos hp he (k := k + 1) (by omega)).le
    nlinarith

/-- At a corner without a turn the directions agree. -/
theorem no_turn {k : Nat} (hk2 : k + 2 < p.verts.length) (hs : cornerSin p k = 0) (hc : 0 < cornerCos p k) (X : V2 ℝ) :
    fwd (cornerPos p (k + 1)) (departTo p k) (cornerPos p (k + 1)) X = cornerCos p k * fwd (arriveFrom p k) (cornerPos p (k + 1)) (cornerPos p (k + 1)) X := by
  rw [(frame_turn (arrive_ne hp he (k := k) (by omega)) (depart_ne hp he hk2) X).1]
  have hs' : turnSin (arriveFrom p k) (cornerPos p (k + 1)) (departTo p k) = 0 := hs
  rw [hs']
  unfold cornerCos
  ring

/-- Where a point that keeps the distance and has a nearest point at a corner can be. -/
theorem corner_place {d : ℝ} {X : V2 ℝ} (hk : Keeps p |d| X) {k : Nat} (hk2 : k + 2 < p.verts.length) (ht : cornerSin p k = 0 → 0 < cornerCos p k) (hu : edist X (cornerPos p (k + 1)) = |d|) :
    ∃ e, (e = d ∨ e = -d) ∧ (X = parCurve p e k 1 ∨ (e * cornerSin p k < 0 ∧ ∃ t, 0 ≤ t ∧ t ≤ 1 ∧ X = roundArc p e k t)) := by
  obtain ⟨k1, k2⟩ := foot_cone hp he (abs_nonneg d) hk hk2 hu
  by_cases hz : fwd (arriveFrom p k) (cornerPos p (k + 1)) (cornerPos p (k + 1)) X = 0
  · have := perp_par hp he (m := k) (by omega) (d := d) (u := 1) (X := X) (by rw [segAt_one]; exact hu) (by
      rw [fwd_arrive, div_eq_zero_iff] at hz
      rw [segAt_one]
      exact hz.resolve_right (len_pos hp he (k := k) (by omega)).ne')
    rcases this with h | h
    · exact ⟨d, Or.inl rfl, Or.inl h⟩
    · exact ⟨-d, Or.inr rfl, Or.inl h⟩
  · rcases lt_trichotomy (d * cornerSin p k) 0 with h | h | h
    · exact ⟨d, Or.inl rfl, Or.inr ⟨h, cone_arc (arrive_ne hp he (k := k) (by omega)) (depart_ne hp he hk2) h hu k1 k2⟩⟩
    · exfalso
      rcases mul_eq_zero.mp h with h | h
      · rw [h, abs_zero] at hu
        have : X = cornerPos p (k + 1) := by
          have h2 := edist_sq X (cornerPos p (k + 1))
          rw [hu] at h2
          rw [V2.ext_iff']
          constructor <;> nlinarith [sq_nonneg (X.x - (cornerPos p (k + 1)).x), sq_nonneg (X.y - (cornerPos p (k + 1)).y)]
        apply hz
        rw [this]; unfold fwd; simp
      · have hc := ht h
        rw [no_turn hp he hk2 h hc] at k2
        exact hz (le_antisymm (by by_contra hh; push Not at hh; nlinarith) k1)
    · refine ⟨-d, Or.inr rfl, Or.inr ⟨by linarith, cone_arc (d := -d) (arrive_ne hp he (k := k) (by omega)) (depart_ne hp he hk2) (by
        have : turnSin (arriveFrom p k) (cornerPos p (k + 1)) (departTo p k) = cornerSin p k := rfl
        rw [this]; linarith) (by rw [abs_neg]; exact hu) k1 k2⟩⟩

end

section
variable {p : Pline ℝ} {eps d : ℝ} (hp : FullPath p eps) (he : 0 < eps) (hd : d ≠ 0) {X : V2 ℝ} {F : Filter ℝ} {Y : ℝ → V2 ℝ}
  (hYx : Tendsto (fun τ => (Y τ).x) F (𝓝 X.x)) (hYy : Tendsto (fun τ => (Y τ).y) F (𝓝 X.y))
include hp he

theorem round_dist {k : Nat} (hk : k + 1 < p.verts.length) {Z : V2 ℝ} (h : OnRound p d k Z) : edist Z (cornerPos p (k + 1)) = |d| := by
  obtain ⟨s, -, -, rfl⟩ := h
  exact cornerArc_dist (arrive_ne hp he hk) d s

include hd hYx hYy

/-- the end of a segment, seen from the arc around it -/
theorem stop_round {k : Nat} (hk2 : k + 2 < p.verts.length) (hX : Keeps p |d| X) (hXk : X = parCurve p d k 1) (hs : d * cornerSin p k < 0)
    (h' : ∀ᶠ τ in F, OnRound p d k (Y τ)) : ∃ δ > 0, ∀ᶠ τ in F, ∀ u, 1 - δ < u → u ≤ 1 → |d| ≤ edist (Y τ) (segAt p k u) := by
  have hL := len_pos hp he (k := k) (by omega)
  obtain ⟨l, hl, hray⟩ := stop_ray hp he (k := k) (by omega)
  have hdir := segDir_sq (vtx p k) (vtx p (k + 1)) 1
  have hLL : edist (vtx p k).pos (vtx p (k + 1)).pos = sideLen p k := rfl
  rw [hLL] at hdir
  have hsq : (dirAt p k 1).x ^ 2 + (dirAt p k 1).y ^ 2 = sideLen p k ^ 2 := hdir
  have hXe := hXk
  rw [parCurve_eq hp he (by omega), segAt_one] at hXe
  have hm : (-d / (l * sideLen p k)) ^ 2 * ((-l * (dirAt p k 1).x) ^ 2 + (-l * (dirAt p k 1).y) ^ 2) = |d| ^ 2 := by
    rw [show (-l * (dirAt p k 1).x) ^ 2 + (-l * (dirAt p k 1).y) ^ 2 = l ^ 2 * ((dirAt p k 1).x ^ 2 + (dirAt p k 1).y ^ 2) by ring, hsq, sq_abs]
    field_simp
  obtain ⟨δ, hδ, hfar⟩ := far_circle hray (by
      dsimp only
      rw [show (-l * (dirAt p k 1).x) ^ 2 + (-l * (dirAt p k 1).y) ^ 2 = l ^ 2 * ((dirAt p k 1).x ^ 2 + (dirAt p k 1).y ^ 2) by ring, hsq]
      positivity) (abs_pos.mpr hd) hm (fun s s0 s1 => by
      have := keeps_seg hp he hX (m := k) (by omega) (1 - s) (by linarith) (by linarith)
      convert this using 2
      rw [hXe, V2.ext_iff']
      dsimp only
      constructor <;> field_simp <;> ring)
  refine ⟨δ, hδ, ?_⟩
  have hcont : Tendsto (fun τ => d * (((Y τ).y - (cornerPos p (k + 1)).y) * (dirAt p k 1).x - ((Y τ).x - (cornerPos p (k + 1)).x) * (dirAt p k 1).y)) F
      (𝓝 (d * ((X.y - (cornerPos p (k + 1)).y) * (dirAt p k 1).x - (X.x - (cornerPos p (k + 1)).x) * (dirAt p k 1).y))) :=
    (((hYy.sub_const _).mul_const _).sub ((hYx.sub_const _).mul_const _)).const_mul d
  have hval : 0 < d * ((X.y - (cornerPos p (k + 1)).y) * (dirAt p k 1).x - (X.x - (cornerPos p (k + 1)).x) * (dirAt p k 1).y) := by
    have : d * ((X.y - (cornerPos p (k + 1)).y) * (dirAt p k 1).x - (X.x - (cornerPos p (k + 1)).x) * (dirAt p k 1).y) = d ^ 2 * sideLen p k := by
      rw [hXe]
      dsimp only
      have : d * (((cornerPos p (k + 1)).y + d * ((dirAt p k 1).x / sideLen p k) - (cornerPos p (k + 1)).y) * (dirAt p k 1).x -
        ((cornerPos p (k + 1)).x - d * ((dirAt p k 1).y / sideLen p k) - (cornerPos p (k + 1)).x) * (dirAt p k 1).y) =
          d ^ 2 * (((dirAt p k 1).x ^ 2 + (dirAt p k 1).y ^ 2) / sideLen p k) := by ring
      rw [this, hsq]
      field_simp
    rw [this]
    positivity
  filter_upwards [h', hcont.eventually (lt_mem_nhds hval)] with τ hτ hτ2 u h0 h1
  obtain ⟨s, s0, s1, hZ⟩ := hτ
  have hcone := (arc_cone (arrive_ne hp he (k := k) (by omega)) (depart_ne hp he (k := k) (by omega)) hs s0 s1).1
  have hcone' : 0 ≤ fwd (arriveFrom p k) (cornerPos p (k + 1)) (cornerPos p (k + 1)) (Y τ) := by rw [hZ]; exact hcone
  rw [fwd_arrive, div_nonneg_iff] at hcone'
  have hc2 : 0 ≤ ((Y τ).x - (cornerPos p (k + 1)).x) * (dirAt p k 1).x + ((Y τ).y - (cornerPos p (k + 1)).y) * (dirAt p k 1).y := by
    rcases hcone' with h | h
    · exact h.1
    · linarith [h.2]
  have := hfar (Y τ) (round_dist hp he (k := k) (by omega) ⟨s, s0, s1, hZ⟩) (by dsimp only; nlinarith) (by
    dsimp only
    have e : -d / (l * sideLen p k) * (((Y τ).y - (cornerPos p (k + 1)).y) * (-l * (dirAt p k 1).x) - ((Y τ).x - (cornerPos p (k + 1)).x) * (-l * (dirAt p k 1).y)) =
        d * (((Y τ).y - (cornerPos p (k + 1)).y) * (dirAt p k 1).x - ((Y τ).x - (cornerPos p (k + 1)).x) * (dirAt p k 1).y) / sideLen p k := by
      field_simp
      ring
    rw [e]
    exact div_nonneg hτ2.le hL.le) (1 - u) (by linarith) (by linarith)
  rwa [show 1 - (1 - u) = u by ring] at this

/-- the start of a segment, seen from the arc around it -/
theorem start_round {k : Nat} (hk2 : k + 2 < p.verts.length) (hX : Keeps p |d| X) (hXk : X = parCurve p d (k + 1) 0) (hs : d * cornerSin p k < 0)
    (h' : ∀ᶠ τ in F, OnRound p d k (Y τ)) : ∃ δ > 0, ∀ᶠ τ in F, ∀ u, 0 ≤ u → u < δ → |d| ≤ edist (Y τ) (segAt p (k + 1) u) := by
  have hL := len_pos hp he (k := k + 1) (by omega)
  obtain ⟨l, hl, hray⟩ := start_ray hp he (k := k + 1) (by omega)
  have hdir := segDir_sq (vtx p (k + 1)) (vtx p (k + 1 + 1)) 0
  have hLL : edist (vtx p (k + 1)).pos (vtx p (k + 1 + 1)).pos = sideLen p (k + 1) := rfl
  rw [hLL] at hdir
  have hsq : (dirAt p (k + 1) 0).x ^ 2 + (dirAt p (k + 1) 0).y ^ 2 = sideLen p (k + 1) ^ 2 := hdir
  have hXe := hXk
  rw [parCurve_eq hp he (by omega), segAt_zero] at hXe
  have hm : (d / (l * sideLen p (k + 1))) ^ 2 * ((l * (dirAt p (k + 1) 0).x) ^ 2 + (l * (dirAt p (k + 1) 0).y) ^ 2) = |d| ^ 2 := by
    rw [show (l * (dirAt p (k + 1) 0).x) ^ 2 + (l * (dirAt p (k + 1) 0).y) ^ 2 = l ^ 2 * ((dirAt p (k + 1) 0).x ^ 2 + (dirAt p (k + 1) 0).y ^ 2) by ring, hsq, sq_abs]
    field_simp
  obtain ⟨δ, hδ, hfar⟩ := far_circle hray (by
      dsimp only
      rw [show (l * (dirAt p (k + 1) 0).x) ^ 2 + (l * (dirAt p (k + 1) 0).y) ^ 2 = l ^ 2 * ((dirAt p (k + 1) 0).x ^ 2 + (dirAt p (k + 1) 0).y ^ 2) by ring, hsq]
      positivity) (abs_pos.mpr hd) hm (fun s s0 s1 => by
      have := keeps_seg hp he hX (m := k + 1) (by omega) s s0 s1
      convert this using 2
      rw [hXe, V2.ext_iff']
      dsimp only
      constructor <;> field_simp)
  refine ⟨δ, hδ, ?_⟩
  have hcont : Tendsto (fun τ => d * (((Y τ).y - (cornerPos p (k + 1)).y) * (dirAt p (k + 1) 0).x - ((Y τ).x - (cornerPos p (k + 1)).x) * (dirAt p (k + 1) 0).y)) F
      (𝓝 (d * ((X.y - (cornerPos p (k + 1)).y) * (dirAt p (k + 1) 0).x - (X.x - (cornerPos p (k + 1)).x) * (dirAt p (k + 1) 0).y))) :=
    (((hYy.sub_const _).mul_const _).sub ((hYx.sub_const _).mul_const _)).const_mul d
  have hval : 0 < d * ((X.y - (cornerPos p (k + 1)).y) * (dirAt p (k + 1) 0).x - (X.x - (cornerPos p (k + 1)).x) * (dirAt p (k + 1) 0).y) := by
    have : d * ((X.y - (cornerPos p (k + 1)).y) * (dirAt p (k + 1) 0).x - (X.x - (cornerPos p (k + 1)).x) * (dirAt p (k + 1) 0).y) = d ^ 2 * sideLen p (k + 1) := by
      rw [hXe]
      dsimp only
      have : d * (((cornerPos p (k + 1)).y + d * ((dirAt p (k + 1) 0).x / sideLen p (k + 1)) - (cornerPos p (k + 1)).y) * (dirAt p (k + 1) 0).x -
        ((cornerPos p (k + 1)).x - d * ((dirAt p (k + 1) 0).y / sideLen p (k + 1)) - (cornerPos p (k + 1)).x) * (dirAt p (k + 1) 0).y) =
          d ^ 2 * (((dirAt p (k + 1) 0).x ^ 2 + (dirAt p (k + 1) 0).y ^ 2) / sideLen p (k + 1)) := by ring
      rw [this, hsq]
      field_simp
    rw [this]
    positivity
  filter_upwards [h', hcont.eventually (lt_mem_nhds hval)] with τ hτ hτ2 u h0 h1
  obtain ⟨s, s0, s1, hZ⟩ := hτ
  have hcone := (arc_cone (arrive_ne hp he (k := k) (by omega)) (depart_ne hp he (k := k) (by omega)) hs s0 s1).2
  have hcone' : fwd (cornerPos p (k + 1)) (departTo p k) (cornerPos p (k + 1)) (Y τ) ≤ 0 := by rw [hZ]; exact hcone
  rw [fwd_depart] at hcone'
  have hc2 : ((Y τ).x - (cornerPos p (k + 1)).x) * (dirAt p (k + 1) 0).x + ((Y τ).y - (cornerPos p (k + 1)).y) * (dirAt p (k + 1) 0).y ≤ 0 := by
    rcases div_nonpos_iff.mp hcone' with h | h
    · linarith [h.2]
    · exact h.1
  exact hfar (Y τ) (round_dist hp he (k := k) (by omega) ⟨s, s0, s1, hZ⟩) (by dsimp only; nlinarith) (by
    dsimp only
    have e : d / (l * sideLen p (k + 1)) * (((Y τ).y - (cornerPos p (k + 1)).y) * (l * (dirAt p (k + 1) 0).x) - ((Y τ).x - (cornerPos p (k + 1)).x) * (l * (dirAt p (k + 1) 0).y)) =
        d * (((Y τ).y - (cornerPos p (k + 1)).y) * (dirAt p (k + 1) 0).x - ((Y τ).x - (cornerPos p (k + 1)).x) * (dirAt p (k + 1) 0).y) / sideLen p (k + 1) := by
      field_simp
    rw [e]
    exact div_nonneg hτ2.le hL.le) u h0 h1

end

section
variable {p : Pline ℝ} {eps d : ℝ} (hp : FullPath p eps) (he : 0 < eps) (hd : d ≠ 0)
  (ht : ∀ k, k + 2 < p.verts.length → cornerSin p k = 0 → 0 < cornerCos p k) {X : V2 ℝ} (hX : Keeps p |d| X) {F : Filter ℝ} {Y : ℝ → V2 ℝ}
  (hYx : Tendsto (fun τ => (Y τ).x) F (𝓝 X.x)) (hYy : Tendsto (fun τ => (Y τ).y) F (𝓝 X.y))
  (H1 : ∀ e, (e = d ∨ e = -d) → ∀ m u, m + 1 < p.verts.length → 0 ≤ u → u ≤ 1 → X = parCurve p e m u → (∀ᶠ τ in F, FarSeg p |d| (Y τ) m) ∨
    (u = 1 ∧ m + 2 < p.verts.length ∧ e * cornerSin p m < 0 ∧ ∀ᶠ τ in F, OnRound p e m (Y τ)) ∨
    (u = 0 ∧ ∃ k, m = k + 1 ∧ e * cornerSin p k < 0 ∧ ∀ᶠ τ in F, OnRound p e k (Y τ)))
  (H2 : ∀ e, (e = d ∨ e = -d) → ∀ k s, k + 2 < p.verts.length → e * cornerSin p k < 0 → 0 ≤ s → s ≤ 1 → X = roundArc p e k s →
    ∀ᶠ τ in F, |d| ≤ edist (Y τ) (cornerPos p (k + 1)))
  (H3 : ∀ k, k = 0 ∨ k + 1 = p.verts.length → edist X (cornerPos p k) = |d| → ∀ᶠ τ in F, |d| ≤ edist (Y τ) (cornerPos p k))

theorem abs_side {e : ℝ} (h : e = d ∨ e = -d) : |e| = |d| := by
  rcases h with rfl | rfl
  · rfl
  · exact abs_neg d

include hp he

/-- a point at a right angle beside a segment, with the side -/
theorem perp_side {m : Nat} (hm : m + 1 < p.verts.length) {u : ℝ} (hu : edist X (segAt p m u) = |d|)
    (h : (X.x - (segAt p m u).x) * (dirAt p m u).x + (X.y - (segAt p m u).y) * (dirAt p m u).y = 0) : ∃ e, (e = d ∨ e = -d) ∧ X = parCurve p e m u := by
  rcases perp_par hp he hm hu h with h | h
  · exact ⟨d, Or.inl rfl, h⟩
  · exact ⟨-d, Or.inr rfl, h⟩

include hX ht H1 H2

/-- a corner that is a nearest point stays far enough away -/
theorem corner_stays (k : Nat) (hk2 : k + 2 < p.verts.length) (hu : edist X (cornerPos p (k + 1)) = |d|) : ∀ᶠ τ in F, |d| ≤ edist (Y τ) (cornerPos p (k + 1)) := by
  obtain ⟨e, hside, h | ⟨hs, t, t0, t1, h⟩⟩ := corner_place hp he hX hk2 (ht k hk2) hu
  · rcases H1 e hside k 1 (by omega) zero_le_one le_rfl h with h' | ⟨-, -, -, h'⟩ | ⟨h', -⟩
    · exact h'.mono fun τ hτ => hτ _ (onSeg_end _ _)
    · exact h'.mono fun τ hτ => by rw [← abs_side hside]; exact (round_dist hp he (k := k) (by omega) hτ).ge
    · norm_num at h'
  · exact H2 e hside k t hk2 hs t0 t1 h

include hd hYx hYy

/-- the end of a segment -/
theorem stop_stays (k : Nat) (hk2 : k + 2 < p.verts.length) (hu : edist X (cornerPos p (k + 1)) = |d|) :
    ∃ δ > 0, ∀ᶠ τ in F, ∀ u, 1 - δ < u → u ≤ 1 → |d| ≤ edist (Y τ) (segAt p k u) := by
  have hL := len_pos hp he (k := k) (by omega)
  obtain ⟨l, hl, hray⟩ := stop_ray hp he (k := k) (by omega)
  obtain ⟨c1, -⟩ := foot_cone hp he (abs_nonneg d) hX hk2 hu
  have hfw := fwd_arrive (p := p) k X
  rcases c1.eq_or_lt with hz | hpos
  · have hperp : (X.x - (segAt p k 1).x) * (dirAt p k 1).x + (X.y - (segAt p k 1).y) * (dirAt p k 1).y = 0 := by
      rw [segAt_one]
      rw [hfw, eq_comm, div_eq_zero_iff] at hz
      exact hz.resolve_right hL.ne'
    obtain ⟨e, hside, hXk⟩ := perp_side hp he (d := d) (m := k) (by omega) (by rw [segAt_one]; exact hu) hperp
    rcases H1 e hside k 1 (by omega) zero_le_one le_rfl hXk with h' | ⟨-, -, hs, h'⟩ | ⟨h', -⟩
    · exact ⟨1, one_pos, h'.mono fun τ hτ u h0 h1 => hτ _ ⟨u, by linarith, h1, rfl⟩⟩
    · rw [← abs_side hside] at hX ⊢
      exact stop_round hp he (by rw [← abs_pos, abs_side hside]; exact abs_pos.mpr hd) hYx hYy hk2 hX hXk hs h'
    · norm_num at h'
  · have hpos' : 0 < (X.x - (cornerPos p (k + 1)).x) * (dirAt p k 1).x + (X.y - (cornerPos p (k + 1)).y) * (dirAt p k 1).y := by
      rw [hfw] at hpos
      exact (div_pos_iff_of_pos_right hL).mp hpos
    obtain ⟨δ, hδ, haway⟩ := leads_away (X := X) hray (by dsimp only; nlinarith)
    refine ⟨δ, hδ, ?_⟩
    filter_upwards [near_eventually hYx hYy hδ, corner_stays hp he ht hX H1 H2 k hk2 hu] with τ h1 h2 u u0 u1
    have := haway (Y τ) h1 (1 - u) (by linarith) (by linarith)
    rw [show 1 - (1 - u) = u by ring] at this
    linarith

/-- the start of a segment -/
theorem start_stays (k : Nat) (hk2 : k + 2 < p.verts.length) (hu : edist X (cornerPos p (k + 1)) = |d|) :
    ∃ δ > 0, ∀ᶠ τ in F, ∀ u, 0 ≤ u → u < δ → |d| ≤ edist (Y τ) (segAt p (k + 1) u) := by
  have hL := len_pos hp he (k := k + 1) (by omega)
  obtain ⟨l, hl, hray⟩ := start_ray hp he (k := k + 1) (by omega)
  obtain ⟨-, c1⟩ := foot_cone hp he (abs_nonneg d) hX hk2 hu
  have hfw := fwd_depart (p := p) k X
  rcases c1.eq_or_lt with hz | hneg
  · have hperp : (X.x - (segAt p (k + 1) 0).x) * (dirAt p (k + 1) 0).x + (X.y - (segAt p (k + 1) 0).y) * (dirAt p (k + 1) 0).y = 0 := by
      rw [segAt_zero]
      rw [hfw, div_eq_zero_iff] at hz
      exact hz.resolve_right hL.ne'
    obtain ⟨e, hside, hXk⟩ := perp_side hp he (d := d) (m := k + 1) (by omega) (by rw [segAt_zero]; exact hu) hperp
    rcases H1 e hside (k + 1) 0 (by omega) le_rfl zero_le_one hXk with h' | ⟨h', -⟩ | ⟨-, k', hkk, hs, h'⟩
    · exact ⟨1, one_pos, h'.mono fun τ hτ u h0 h1 => hτ _ ⟨u, h0, h1.le, rfl⟩⟩
    · norm_num at h'
    · obtain rfl : k = k' := by omega
      rw [← abs_side hside] at hX ⊢
      exact start_round hp he (by rw [← abs_pos, abs_side hside]; exact abs_pos.mpr hd) hYx hYy hk2 hX hXk hs h'
  · have hneg' : (X.x - (cornerPos p (k + 1)).x) * (dirAt p (k + 1) 0).x + (X.y - (cornerPos p (k + 1)).y) * (dirAt p (k + 1) 0).y < 0 := by
      rw [hfw] at hneg
      by_contra h
      exact absurd hneg (not_lt.mpr (div_nonneg (not_lt.mp h) hL.le))
    obtain ⟨δ, hδ, haway⟩ := leads_away (X := X) hray (by dsimp only; nlinarith)
    refine ⟨δ, hδ, ?_⟩
    filter_upwards [near_eventually hYx hYy hδ, corner_stays hp he ht hX H1 H2 k hk2 hu] with τ h1 h2 u u0 u1
    have := haway (Y τ) h1 u u0 u1
    linarith

/-- the start of the first segment -/
theorem first_stays (hu : edist X (cornerPos p 0) = |d|) (H3 : ∀ᶠ τ in F, |d| ≤ edist (Y τ) (cornerPos p 0)) :
    ∃ δ > 0, ∀ᶠ τ in F, ∀ u, 0 ≤ u → u < δ → |d| ≤ edist (Y τ) (segAt p 0 u) := by
  have hn : 0 + 1 < p.verts.length := by have := hp.two; omega
  obtain ⟨l, hl, hray⟩ := start_ray hp he hn
  have hc := foot_start hray (abs_nonneg d) (keeps_seg hp he hX hn) hu
  dsimp only at hc
  have hc' : (X.x - (cornerPos p 0).x) * (dirAt p 0 0).x + (X.y - (cornerPos p 0).y) * (dirAt p 0 0).y ≤ 0 := by
    by_contra h
    push Not at h
    have := mul_pos hl h
    linarith
  rcases hc'.eq_or_lt with hz | hneg
  · obtain ⟨e, hside, hXk⟩ := perp_side hp he (d := d) hn (by rw [segAt_zero]; exact hu) (by rw [segAt_zero]; exact hz)
    rcases H1 e hside 0 0 hn le_rfl zero_le_one hXk with h' | ⟨h', -⟩ | ⟨-, k, hk, -⟩
    · exact ⟨1, one_pos, h'.mono fun τ hτ u h0 h1 => hτ _ ⟨u, h0, h1.le, rfl⟩⟩
    · norm_num at h'
    · omega
  · obtain ⟨δ, hδ, haway⟩ := leads_away (X := X) hray (by dsimp only; nlinarith)
    refine ⟨δ, hδ, ?_⟩
    filter_upwards [near_eventually hYx hYy hδ, H3] with τ h1 h2 u u0 u1
    have := haway (Y τ) h1 u u0 u1
    linarith

/-- the end of the last segment -/
theorem last_stays {k : Nat} (hk : k + 2 = p.verts.length) (hu : edist X (cornerPos p (k + 1)) = |d|) (H3 : ∀ᶠ τ in F, |d| ≤ edist (Y τ) (cornerPos p (k + 1))) :
    ∃ δ > 0, ∀ᶠ τ in F, ∀ u, 1 - δ < u → u ≤ 1 → |d| ≤ edist (Y τ) (segAt p k u) := by
  have hn : k + 1 < p.verts.length := by omega
  obtain ⟨l, hl, hray⟩ := stop_ray hp he hn
  have hc := foot_start hray (abs_nonneg d) (fun s h0 h1 => keeps_seg hp he hX hn (1 - s) (by linarith) (by linarith)) hu
  dsimp only at hc
  have hc' : 0 ≤ (X.x - (cornerPos p (k + 1)).x) * (dirAt p k 1).x + (X.y - (cornerPos p (k + 1)).y) * (dirAt p k 1).y := by
    by_contra h
    push Not at h
    have := mul_pos_of_neg_of_neg (neg_lt_zero.mpr hl) h
    linarith
  rcases hc'.eq_or_lt with hz | hpos
  · obtain ⟨e, hside, hXk⟩ := perp_side hp he (d := d) hn (by rw [segAt_one]; exact hu) (by rw [segAt_one]; exact hz.symm)
    rcases H1 e hside k 1 hn zero_le_one le_rfl hXk with h' | ⟨-, h', -⟩ | ⟨h', -⟩
    · exact ⟨1, one_pos, h'.mono fun τ hτ u h0 h1 => hτ _ ⟨u, by linarith, h1, rfl⟩⟩
    · omega
    · norm_num at h'
  · obtain ⟨δ, hδ, haway⟩ := leads_away (X := X) hray (by dsimp only; nlinarith)
    refine ⟨δ, hδ, ?_⟩
    filter_upwards [near_eventually hYx hYy hδ, H3] with τ h1 h2 u u0 u1
    have := haway (Y τ) h1 (1 - u) (by linarith) (by linarith)
    rw [show 1 - (1 - u) = u by ring] at this
    linarith

include H3

/-- a whole segment -/
theorem segment_stays {m : Nat} (hm : m + 1 < p.verts.length) : ∀ᶠ τ in F, ∀ u ∈ Set.Icc (0 : ℝ) 1, |d| ≤ edist (Y τ) (segAt p m u) := by
  refine IsCompact.induction_on (p := fun s => ∀ᶠ τ in F, ∀ u ∈ s, |d| ≤ edist (Y τ) (segAt p m u)) (isCompact_Icc (a := (0 : ℝ)) (b := 1)) (by simp) ?_ ?_ ?_
  · intro s t hst h
    exact h.mono fun τ hτ u hu => hτ u (hst hu)
  · intro s t h1 h2
    filter_upwards [h1, h2] with τ k1 k2 u hu
    rcases hu with hu | hu
    · exact k1 u hu
    · exact k2 u hu
  · rintro u ⟨u0, u1⟩
    have hge := keeps_seg hp he hX hm u u0 u1
    rcases hge.eq_or_lt with heq | hlt
    · rcases u0.eq_or_lt with rfl | u0'
      · have hst : ∃ δ > 0, ∀ᶠ τ in F, ∀ u, 0 ≤ u → u < δ → |d| ≤ edist (Y τ) (segAt p m u) := by
          rw [segAt_zero] at heq
          cases m with
          | zero => exact first_stays hp he hd ht hX hYx hYy H1 H2 heq.symm (H3 0 (Or.inl rfl) heq.symm)
          | succ k => exact start_stays hp he hd ht hX hYx hYy H1 H2 k (by omega) heq.symm
        obtain ⟨δ, hδ, hs⟩ := hst
        refine ⟨{u | u < δ} ∩ Set.Icc 0 1, inter_mem_nhdsWithin' ?_, ?_⟩
        · exact gt_mem_nhds hδ
        · filter_upwards [hs] with τ hτ u hu
          exact hτ u hu.2.1 hu.1
      · rcases u1.eq_or_lt with rfl | u1'
        · have hst : ∃ δ > 0, ∀ᶠ τ in F, ∀ u, 1 - δ < u → u ≤ 1 → |d| ≤ edist (Y τ) (segAt p m u) := by
            rw [segAt_one] at heq
            rcases Nat.lt_or_ge (m + 2) p.verts.length with h2 | h2
            · exact stop_stays hp he hd ht hX hYx hYy H1 H2 m h2 heq.symm
            · exact last_stays hp he hd ht hX hYx hYy H1 H2 (by omega) heq.symm (H3 _ (Or.inr (by omega)) heq.symm)
          obtain ⟨δ, hδ, hs⟩ := hst
          refine ⟨{u | 1 - δ < u} ∩ Set.Icc 0 1, inter_mem_nhdsWithin' ?_, ?_⟩
          · exact lt_mem_nhds (by linarith)
          · filter_upwards [hs] with τ hτ u hu
            exact hτ u hu.1 hu.2.2
        · refine ⟨Set.Icc 0 1, self_mem_nhdsWithin, ?_⟩
          obtain ⟨e, hside, hXm⟩ : ∃ e, (e = d ∨ e = -d) ∧ X = parCurve p e m u := by
            rcases foot_mid hp he hX hm u0' u1' heq.symm with h | h
            · exact ⟨d, Or.inl rfl, h⟩
            · exact ⟨-d, Or.inr rfl, h⟩
          rcases H1 e hside m u hm u0 u1 hXm with h | ⟨h, -⟩ | ⟨h, -⟩
          · exact h.mono fun τ hτ u hu => hτ _ ⟨u, hu.1, hu.2, rfl⟩
          · exact absurd h u1'.ne
          · exact absurd h u0'.ne'
    · set r := edist X (segAt p m u) - |d| with hedef
      have he2 : 0 < r / 2 := by rw [hedef]; linarith
      have hcont : Continuous fun s => edist (segAt p m u) (segAt p m s) :=
        edist_continuous (f := fun _ => segAt p m u) continuous_const (segCurve_continuous _ _)
      refine ⟨{s | edist (segAt p m u) (segAt p m s) < r / 2}, mem_nhdsWithin_of_mem_nhds (hcont.continuousAt.eventually (gt_mem_nhds (by simp only [edist_same]; exact he2))), ?_⟩
      filter_upwards [near_eventually hYx hYy he2] with τ hτ s hs
      have t1 := edist_triangle X (Y τ) (segAt p m u)
      have t2 := edist_triangle (Y τ) (segAt p m s) (segAt p m u)
      rw [edist_comm (segAt p m s)] at t2
      rw [edist_comm X (Y τ)] at t1
      have hs' : edist (segAt p m u) (segAt p m s) < r / 2 := hs
      linarith

/-- Near a point of the parallel curve the distance is kept, if what carries the point stays far enough away. -/
theorem keeps_near : ∀ᶠ τ in F, Keeps p |d| (Y τ) := by
  have h : ∀ᶠ τ in F, ∀ m ∈ Finset.range (p.verts.length - 1), ∀ u ∈ Set.Icc (0 : ℝ) 1, |d| ≤ edist (Y τ) (segAt p m u) :=
    (Finset.eventually_all _).mpr fun m hm => segment_stays hp he hd ht hX hYx hYy H1 H2 H3 (by have := Finset.mem_range.mp hm; omega)
  filter_upwards [h] with τ hτ q hq
  obtain ⟨s, hs, u, u0, u1, rfl⟩ := hq
  obtain ⟨m, hm, rfl⟩ := path_seg hp hs
  exact hτ m (Finset.mem_range.mpr (by omega)) u ⟨u0, u1⟩

end

end Cavc.Path
