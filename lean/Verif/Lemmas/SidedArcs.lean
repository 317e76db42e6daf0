import Verif.Lemmas.ParallelCurve
import Verif.Lemmas.SimpleArcs
import Verif.Lemmas.RawKeeps

/-! # On which side of a closed polyline its parallel curves are -/

set_option linter.unusedVariables false
set_option linter.unusedSectionVars false

namespace Cavc
open RealScalar Pline Filter Topology

theorem sup_edist (X Y : V2 ℝ) : dist (X.x, X.y) (Y.x, Y.y) ≤ edist X Y := by
  have h := edist_sq X Y
  have e0 := edist_nonneg X Y
  rw [Prod.dist_eq, max_le_iff]
  simp only [Real.dist_eq]
  exact ⟨abs_le_of_sq_le_sq (by nlinarith [sq_nonneg (X.y - Y.y)]) e0, abs_le_of_sq_le_sq (by nlinarith [sq_nonneg (X.x - Y.x)]) e0⟩

/-- A point of a parallel is on the side of the parallel. -/
theorem par_side {v w : Vertex ℝ} {e : ℝ} (h : SegShape v w) (he : e ≠ 0) (hr : IsLine v ∨ |e| < arcRadius v.pos w.pos v.bulge) (t : ℝ) :
    0 < e * sideOf (v, w) ((segCurve (parSeg v w e).1 (parSeg v w e).2 t).x, (segCurve (parSeg v w e).1 (parSeg v w e).2 t).y) := by
  have hee : 0 < e ^ 2 := by positivity
  unfold sideOf
  by_cases hl : IsLine v
  · rw [if_pos hl, par_eq h, segCurve_line hl, segDir, if_pos hl]
    have hL := h.len
    have hsq := edist_sq v.pos w.pos
    set L := edist v.pos w.pos
    simp only [Vertex.pos_x, Vertex.pos_y] at hsq
    unfold linePoint
    simp only [Vertex.pos_x, Vertex.pos_y]
    have : e * ((w.x - v.x) * (v.y + t * (w.y - v.y) + e * ((w.x - v.x) / L) - v.y) - (w.y - v.y) * (v.x + t * (w.x - v.x) - e * ((w.y - v.y) / L) - v.x)) = e ^ 2 * L := by
      field_simp
      linear_combination (-e) * hsq
    rw [this]
    positivity
  · have hb := bulge_ne_zero hl
    have hr' := hr.resolve_left hl
    have hr0 := arcRadius_pos h.ne hb
    rw [if_neg hl, par_arc h hl]
    have hd := arcPoint_dist_sq v.pos w.pos v.bulge t hb
    set R := arcRadius v.pos w.pos v.bulge
    set C := arcCenter v.pos w.pos v.bulge
    set A := arcPoint v.pos w.pos v.bulge t
    dsimp only
    have e1 : (C.x + offRadius v w e / R * (A.x - C.x) - C.x) ^ 2 + (C.y + offRadius v w e / R * (A.y - C.y) - C.y) ^ 2 = offRadius v w e ^ 2 := by
      have : (C.x + offRadius v w e / R * (A.x - C.x) - C.x) ^ 2 + (C.y + offRadius v w e / R * (A.y - C.y) - C.y) ^ 2 =
          (offRadius v w e / R) ^ 2 * ((A.x - C.x) ^ 2 + (A.y - C.y) ^ 2) := by ring
      rw [this, hd]
      field_simp
    rw [e1]
    obtain ⟨a1, a2⟩ := abs_lt.mp hr'
    unfold offRadius
    change 0 < e * (2 * Real.arctan v.bulge * (R ^ 2 - (R + if v.bulge < 0 then e else -e) ^ 2))
    rcases lt_or_gt_of_ne hb with hneg | hpos
    · rw [if_pos hneg]
      have ha : 0 < -Real.arctan v.bulge := by have := Real.arctan_lt_zero.mpr hneg; linarith
      have : e * (2 * Real.arctan v.bulge * (R ^ 2 - (R + e) ^ 2)) = 2 * (-Real.arctan v.bulge) * e ^ 2 * (2 * R + e) := by ring
      rw [this]
      have : 0 < 2 * R + e := by linarith
      positivity
    · rw [if_neg (by linarith)]
      have ha : 0 < Real.arctan v.bulge := Real.arctan_pos.mpr hpos
      have : e * (2 * Real.arctan v.bulge * (R ^ 2 - (R + -e) ^ 2)) = 2 * Real.arctan v.bulge * e ^ 2 * (2 * R - e) := by ring
      rw [this]
      have : 0 < 2 * R - e := by linarith
      positivity

/-- Along the direction of the end of a segment, a parallel is ahead or behind just like the segment. -/
theorem par_ahead {v w : Vertex ℝ} {e : ℝ} (h : SegShape v w) (he : e ≠ 0) (hr : IsLine v ∨ |e| < arcRadius v.pos w.pos v.bulge) : ∃ ρ > 0, ∀ t,
    ((segCurve (parSeg v w e).1 (parSeg v w e).2 t).x - w.x) * (segDir v w 1).x + ((segCurve (parSeg v w e).1 (parSeg v w e).2 t).y - w.y) * (segDir v w 1).y =
      ρ * (((segCurve v w t).x - w.x) * (segDir v w 1).x + ((segCurve v w t).y - w.y) * (segDir v w 1).y) := by
  have hL := h.len
  by_cases hl : IsLine v
  · refine ⟨1, one_pos, fun t => ?_⟩
    rw [par_eq h]
    simp only [segDir, if_pos hl]
    ring
  · have hb := bulge_ne_zero hl
    have hr' := hr.resolve_left hl
    have hr0 := arcRadius_pos h.ne hb
    obtain ⟨a1, a2⟩ := abs_lt.mp hr'
    have e1 := par_arc h hl e 1
    rw [par_eq h] at e1
    have hend : arcPoint v.pos w.pos v.bulge 1 = w.pos := by rw [← segCurve_arc hl]; exact (segCurve_ends v w).2
    rw [(segCurve_ends v w).2, hend, V2.ext_iff'] at e1
    obtain ⟨x1, y1⟩ := e1
    dsimp only at x1 y1
    set ρ := offRadius v w e / arcRadius v.pos w.pos v.bulge with hρ
    set C := arcCenter v.pos w.pos v.bulge
    set D := segDir v w 1
    set L := edist v.pos w.pos
    have hρ0 : 0 < ρ := by
      rw [hρ]
      refine div_pos ?_ hr0
      unfold offRadius
      split_ifs <;> linarith
    have hρ1 : ρ - 1 ≠ 0 := by
      rw [hρ]
      unfold offRadius
      rw [add_div, div_self hr0.ne', add_sub_cancel_left]
      refine div_ne_zero ?_ hr0.ne'
      split_ifs
      · exact he
      · exact neg_ne_zero.mpr he
    simp only [Vertex.pos_x, Vertex.pos_y] at x1 y1
    have hperp : (w.x - C.x) * D.x + (w.y - C.y) * D.y = 0 := by
      have : (ρ - 1) * ((w.x - C.x) * D.x + (w.y - C.y) * D.y) = 0 := by
        field_simp at x1 y1
        have : L * ((ρ - 1) * ((w.x - C.x) * D.x + (w.y - C.y) * D.y)) = 0 := by linear_combination (-D.x) * x1 - D.y * y1
        exact (mul_eq_zero.mp this).resolve_left hL.ne'
      exact (mul_eq_zero.mp this).resolve_left hρ1
    refine ⟨ρ, hρ0, fun t => ?_⟩
    rw [par_arc h hl, segCurve_arc hl]
    dsimp only
    linear_combination (ρ - 1) * hperp

/-- A curve that starts in a direction is ahead for a while, seen along a direction at less than a right angle to it. -/
theorem Ray.ahead {f : ℝ → V2 ℝ} {V D W : V2 ℝ} (h : Ray f V D) (hW : 0 < D.x * W.x + D.y * W.y) :
    ∃ ε > 0, ∀ u, 0 < u → u < ε → 0 < ((f u).x - V.x) * W.x + ((f u).y - V.y) * W.y := by
  have hd := ((h.dx.sub_const V.x).mul_const W.x).add ((h.dy.sub_const V.y).mul_const W.y)
  have := pos_after hd (by rw [Pi.add_apply, h.start]; ring) hW
  obtain ⟨ε, hε, hb⟩ := mem_nhdsGT_iff_exists_Ioo_subset.mp this
  exact ⟨ε, hε, fun u u0 u1 => hb ⟨u0, u1⟩⟩

section
variable {p : Pline ℝ} {eps : ℝ} (hp : FullLoop p eps) (he : 0 < eps)
include hp he

theorem cornerSin_eq (k : Nat) : cornerSin p k = ((dirAt p k 1).x * (dirAt p (k + 1) 0).y - (dirAt p k 1).y * (dirAt p (k + 1) 0).x) / (sideLen p k * sideLen p (k + 1)) := by
  unfold cornerSin turnSin
  rw [arrive_sq, depart_sq]
  have h1 := (len_pos hp he k).ne'
  have h2 := (len_pos hp he (k + 1)).ne'
  simp only [arriveFrom, departTo]
  field_simp
  ring

theorem cornerCos_eq (k : Nat) : cornerCos p k = ((dirAt p k 1).x * (dirAt p (k + 1) 0).x + (dirAt p k 1).y * (dirAt p (k + 1) 0).y) / (sideLen p k * sideLen p (k + 1)) := by
  unfold cornerCos turnCos
  rw [arrive_sq, depart_sq]
  have h1 := (len_pos hp he k).ne'
  have h2 := (len_pos hp he (k + 1)).ne'
  simp only [arriveFrom, departTo]
  field_simp
  ring

theorem dir_pos (k : Nat) (u : ℝ) : 0 < (dirAt p k u).x * (dirAt p k u).x + (dirAt p k u).y * (dirAt p k u).y := by
  have h := segDir_sq (vtx p k) (vtx p (k + 1)) u
  have := len_pos hp he k
  have h2 : 0 < edist (vtx p k).pos (vtx p (k + 1)).pos ^ 2 := by
    have : 0 < edist (vtx p k).pos (vtx p (k + 1)).pos := this
    positivity
  nlinarith

end

section
variable {p : Pline ℝ} {eps : ℝ} (hp : FullLoop p eps) (he : 0 < eps) (hs : SimpleLoop p)
include hp he hs

/-- near a corner there are only points of the two segments that meet there, and only near the corner -/
theorem near_vertex {k : Nat} (hk : k < p.verts.length) {ε : ℝ} (hε : 0 < ε) :
    ∀ᶠ z in 𝓝 ((cornerPos p (k + 1)).x, (cornerPos p (k + 1)).y), z ∈ trace p →
      (∃ u, 1 - ε < u ∧ u ≤ 1 ∧ z = ((segAt p k u).x, (segAt p k u).y)) ∨ ∃ u, 0 ≤ u ∧ u < ε ∧ z = ((segAt p (k + 1) u).x, (segAt p (k + 1) u).y) := by
  have hl := hp.loop he
  have hn : 0 < p.verts.length := by omega
  set V := cornerPos p (k + 1) with hV
  set k' := (k + 1) % p.verts.length with hk'
  have hk'n : k' < p.verts.length := Nat.mod_lt _ hn
  have hV0 : sgPt p k' 0 = (V.x, V.y) := by
    unfold sgPt
    rw [(segCurve_ends _ _).1, hV, hk', vtx_mod]
    rfl
  have key : ∀ m ∈ Finset.range p.verts.length, ∀ᶠ z in 𝓝 (V.x, V.y), ∀ u, 0 ≤ u → u ≤ 1 → z = sgPt p m u → (m = k ∧ 1 - ε < u) ∨ (m = k' ∧ u < ε) := by
    intro m hm
    have hmn := Finset.mem_range.mp hm
    set K : Set ℝ := {u | 0 ≤ u ∧ u ≤ 1 ∧ (m = k → u ≤ 1 - ε) ∧ (m = k' → ε ≤ u)} with hK
    have hclosed : IsClosed K := by
      have e : K = Set.Icc 0 1 ∩ ({u | m = k → u ≤ 1 - ε} ∩ {u | m = k' → ε ≤ u}) := by
        ext u; simp only [hK, Set.mem_setOf_eq, Set.mem_inter_iff, Set.mem_Icc, and_assoc]
      rw [e]
      refine isClosed_Icc.inter (IsClosed.inter ?_ ?_)
      · by_cases h : m = k
        · simp only [h, forall_const]; exact isClosed_Iic
        · simp only [h, false_implies, Set.setOf_true]; exact isClosed_univ
      · by_cases h : m = k'
        · simp only [h, forall_const]; exact isClosed_Ici
        · simp only [h, false_implies, Set.setOf_true]; exact isClosed_univ
    have hcomp : IsCompact K := isCompact_Icc.of_isClosed_subset hclosed fun u hu => ⟨hu.1, hu.2.1⟩
    have himg : IsClosed (sgPt p m '' K) := (hcomp.image (sgPt_cont hl m)).isClosed
    have hnot : (V.x, V.y) ∉ sgPt p m '' K := by
      rintro ⟨u, ⟨u0, u1, h1, h2⟩, hu⟩
      rw [← hV0] at hu
      rcases simple_vertex hl hs hk'n hmn u0 u1 hu.symm with ⟨rfl, rfl⟩ | ⟨h, rfl⟩
      · have := h2 rfl; linarith
      · have hmk : m = k := by
          have := same_of_succ (h.trans hk')
          rwa [Nat.mod_eq_of_lt hmn, Nat.mod_eq_of_lt hk] at this
        have := h1 hmk
        linarith
    filter_upwards [himg.isOpen_compl.mem_nhds hnot] with z hz u u0 u1 hu
    by_contra hcon
    push Not at hcon
    exact hz ⟨u, ⟨u0, u1, fun h => by by_contra hc; push Not at hc; exact absurd (hcon.1 h) (not_le.mpr hc), fun h => hcon.2 h⟩, hu.symm⟩
  filter_upwards [(Filter.eventually_all_finset _).mpr key] with z hz hzt
  obtain ⟨m, hm, u, u0, u1, hu⟩ := (loop_trace hl z).mp hzt
  rcases hz m (Finset.mem_range.mpr hm) u u0 u1 hu with ⟨rfl, h⟩ | ⟨rfl, h⟩
  · exact Or.inl ⟨u, h, u1, hu⟩
  · refine Or.inr ⟨u, u0, h, ?_⟩
    rw [hu]
    unfold sgPt segAt
    rw [hk', vtx_mod, vtx_mod_add p (k + 1) 1]

/-- Near a corner, the cone between the right angles to the two segments is free. -/
theorem cone_free {k : Nat} (hk : k < p.verts.length) :
    ∀ᶠ z in 𝓝 ((cornerPos p (k + 1)).x, (cornerPos p (k + 1)).y), z ≠ ((cornerPos p (k + 1)).x, (cornerPos p (k + 1)).y) →
      0 ≤ (z.1 - (cornerPos p (k + 1)).x) * (dirAt p k 1).x + (z.2 - (cornerPos p (k + 1)).y) * (dirAt p k 1).y →
      (z.1 - (cornerPos p (k + 1)).x) * (dirAt p (k + 1) 0).x + (z.2 - (cornerPos p (k + 1)).y) * (dirAt p (k + 1) 0).y ≤ 0 → z ∉ trace p := by
  obtain ⟨l1, hl1, r1⟩ := stop_ray hp he k
  obtain ⟨l2, hl2, r2⟩ := start_ray hp he (k + 1)
  have p1 := dir_pos hp he k 1
  have p2 := dir_pos hp he (k + 1) 0
  obtain ⟨ε1, hε1, a1⟩ := r1.ahead (W := ⟨-(dirAt p k 1).x, -(dirAt p k 1).y⟩) (by dsimp only; nlinarith)
  obtain ⟨ε2, hε2, a2⟩ := r2.ahead (W := dirAt p (k + 1) 0) (by dsimp only; nlinarith)
  filter_upwards [near_vertex hp he hs hk (lt_min hε1 hε2)] with z hz hne c1 c2 hzt
  rcases hz hzt with ⟨u, u0, u1, rfl⟩ | ⟨u, u0, u1, rfl⟩
  · rcases lt_or_eq_of_le u1 with u1 | rfl
    · have := a1 (1 - u) (by linarith) (by have := min_le_left ε1 ε2; linarith)
      dsimp only at this c1
      rw [sub_sub_cancel] at this
      linarith
    · apply hne; rw [segAt_one]
  · rcases lt_or_eq_of_le u0 with u0 | rfl
    · have := a2 u u0 (lt_of_lt_of_le u1 (min_le_right _ _))
      dsimp only at this c2
      linarith
    · apply hne; rw [segAt_zero]

/-- Near a corner and behind it, the outer side of the first segment is free. -/
theorem quarter_free {k : Nat} (hk : k < p.verts.length) {σ : ℝ} (hσ : σ = 1 ∨ σ = -1)
    (hout : σ * cornerSin p k < 0 ∨ (cornerSin p k = 0 ∧ 0 < cornerCos p k)) :
    ∀ᶠ z in 𝓝 ((cornerPos p (k + 1)).x, (cornerPos p (k + 1)).y), 0 < σ * sideOf (sg p k) z →
      (z.1 - (cornerPos p (k + 1)).x) * (dirAt p k 1).x + (z.2 - (cornerPos p (k + 1)).y) * (dirAt p k 1).y ≤ 0 → z ∉ trace p := by
  have hl := hp.loop he
  have h1 := len_pos hp he k
  have h2 := len_pos hp he (k + 1)
  have hkk : ∀ u, sideOf (sg p k) ((segAt p k u).x, (segAt p k u).y) = 0 := fun u => sideOf_curve (sg_proper hl hk) u
  obtain ⟨l2, hl2, r2⟩ := start_ray hp he (k + 1)
  -- the start of the next segment is on the other side, or ahead
  obtain ⟨ε, hε, hnext⟩ : ∃ ε > 0, ∀ u, 0 < u → u < ε → σ * sideOf (sg p k) ((segAt p (k + 1) u).x, (segAt p (k + 1) u).y) < 0 ∨
      0 < ((segAt p (k + 1) u).x - (cornerPos p (k + 1)).x) * (dirAt p k 1).x + ((segAt p (k + 1) u).y - (cornerPos p (k + 1)).y) * (dirAt p k 1).y := by
    rcases hout with hneg | ⟨-, hcos⟩
    · obtain ⟨a, b, -, hx, hy, hd, -⟩ := seg_tangent (sg_proper hl hk) (sg_ne hl hs hk) 1
      obtain ⟨l, hl0, g1, g2⟩ := seg_deriv (shapeAt hp he k) 1
      obtain rfl := hx.unique g1
      obtain rfl := hy.unique g2
      have hend : segCurve (sg p k).1 (sg p k).2 1 = cornerPos p (k + 1) := segAt_one k
      have hdd := (hd (fun u => (segAt p (k + 1) u).x) (fun u => (segAt p (k + 1) u).y) _ _ 0 r2.dx r2.dy (by rw [hend, segAt_zero]) (by rw [hend, segAt_zero])).const_mul (-σ)
      rw [cornerSin_eq hp he, mul_div_assoc', div_neg_iff] at hneg
      have hneg' : σ * ((dirAt p k 1).x * (dirAt p (k + 1) 0).y - (dirAt p k 1).y * (dirAt p (k + 1) 0).x) < 0 := by
        rcases hneg with ⟨-, h⟩ | ⟨h, -⟩
        · exact absurd h (not_lt.mpr (by positivity))
        · exact h
      have := pos_after hdd (by
        have h0 : sideOf (sg p k) ((segAt p (k + 1) 0).x, (segAt p (k + 1) 0).y) = 0 := by rw [segAt_zero, ← segAt_one]; exact hkk 1
        rw [h0, mul_zero]) (by
        dsimp only
        have : 0 < l * l2 := mul_pos hl0 hl2
        have e : -σ * (l * (dirAt p k 1).x * (l2 * (dirAt p (k + 1) 0).y) - l * (dirAt p k 1).y * (l2 * (dirAt p (k + 1) 0).x)) =
          l * l2 * -(σ * ((dirAt p k 1).x * (dirAt p (k + 1) 0).y - (dirAt p k 1).y * (dirAt p (k + 1) 0).x)) := by ring
        change 0 < -σ * (l * (dirAt p k 1).x * (l2 * (dirAt p (k + 1) 0).y) - l * (dirAt p k 1).y * (l2 * (dirAt p (k + 1) 0).x))
        rw [e]
        exact mul_pos this (by linarith))
      obtain ⟨ε, hε, hb⟩ := mem_nhdsGT_iff_exists_Ioo_subset.mp this
      refine ⟨ε, hε, fun u u0 u1 => Or.inl ?_⟩
      have : 0 < -σ * sideOf (sg p k) ((segAt p (k + 1) u).x, (segAt p (k + 1) u).y) := hb ⟨u0, u1⟩
      linarith
    · rw [cornerCos_eq hp he] at hcos
      have hcos' := (div_pos_iff_of_pos_right (mul_pos h1 h2)).mp hcos
      obtain ⟨ε, hε, ha⟩ := r2.ahead (W := dirAt p k 1) (by dsimp only; nlinarith)
      exact ⟨ε, hε, fun u u0 u1 => Or.inr (ha u u0 u1)⟩
  filter_upwards [near_vertex hp he hs hk hε] with z hz c1 c2 hzt
  rcases hz hzt with ⟨u, u0, u1, rfl⟩ | ⟨u, u0, u1, rfl⟩
  · rw [hkk, mul_zero] at c1
    exact lt_irrefl _ c1
  · rcases lt_or_eq_of_le u0 with u0 | rfl
    · rcases hnext u u0 u1 with h | h
      · linarith
      · dsimp only at c2; linarith
    · rw [segAt_zero, ← segAt_one, hkk, mul_zero] at c1
      exact lt_irrefl _ c1

/-- small enough for the parallels of a segment -/
theorem radius_pos (k : Nat) : ∃ R > 0, ∀ e : ℝ, |e| < R → IsLine (vtx p k) ∨ |e| < arcRadius (vtx p k).pos (vtx p (k + 1)).pos (vtx p k).bulge := by
  by_cases hl : IsLine (vtx p k)
  · exact ⟨1, one_pos, fun e _ => Or.inl hl⟩
  · exact ⟨_, arcRadius_pos (shapeAt hp he k).ne (bulge_ne_zero hl), fun e h => Or.inr h⟩

omit hs in
theorem parCurve_cont (e : ℝ) (k : Nat) : Continuous fun t => ((parCurve p e k t).x, (parCurve p e k t).y) := segCurve_continuous _ _

omit hs in
theorem parCurve_cont' (k : Nat) (t : ℝ) : Continuous fun e => ((parCurve p e k t).x, (parCurve p e k t).y) := by
  simp only [parCurve_eq hp he]
  fun_prop

variable {w : ℤ} (hw : ∀ i < p.verts.length, ∀ t, 0 < t → t < 1 → SidesAt p i w (sgPt p i t))
include hw

/-- A little off a point inside a segment. -/
theorem inner_side {k : Nat} (hk : k < p.verts.length) {t : ℝ} (t0 : 0 < t) (t1 : t < 1) {σ : ℝ} (hσ : σ = 1 ∨ σ = -1) :
    ∀ᶠ h in 𝓝[>] (0 : ℝ), wnAt p (parCurve p (σ * h) k t) = w + if 0 < σ then 1 else 0 := by
  obtain ⟨R, hR, hr⟩ := radius_pos hp he hs k
  have hz : parCurve p (σ * 0) k t = segAt p k t := by
    rw [parCurve_eq hp he, mul_zero]; simp
  have hc : Continuous fun h : ℝ => ((parCurve p (σ * h) k t).x, (parCurve p (σ * h) k t).y) := (parCurve_cont' hp he k t).comp (continuous_const.mul continuous_id)
  have ht : Tendsto (fun h : ℝ => ((parCurve p (σ * h) k t).x, (parCurve p (σ * h) k t).y)) (𝓝[>] 0) (𝓝 (sgPt p k t)) := by
    have := hc.tendsto 0
    simp only [hz] at this
    exact this.mono_left nhdsWithin_le_nhds
  filter_upwards [ht.eventually (hw k hk t t0 t1), Ioo_mem_nhdsGT hR] with h hh ⟨h0, h1⟩
  have hne : σ * h ≠ 0 := by rcases hσ with rfl | rfl <;> simp [h0.ne']
  have hs := par_side (shapeAt hp he k) hne (hr _ (by rcases hσ with rfl | rfl <;> simpa [abs_of_pos h0] using h1)) t
  change 0 < σ * h * sideOf (sg p k) ((parCurve p (σ * h) k t).x, (parCurve p (σ * h) k t).y) at hs
  have hs' : 0 < σ * sideOf (sg p k) ((parCurve p (σ * h) k t).x, (parCurve p (σ * h) k t).y) := by
    by_contra hcon
    push Not at hcon
    nlinarith
  have := (hh (by intro e; rw [e, mul_zero] at hs'; exact lt_irrefl _ hs')).2
  change wn p _ = _
  rw [this]
  congr 1
  rcases hσ with rfl | rfl
  · rw [if_pos (by linarith), if_pos one_pos]
  · rw [if_neg (by linarith), if_neg (by norm_num)]

/-- A little off a corner, on the outer side of its turn. -/
theorem corner_side {k : Nat} (hk : k < p.verts.length) {σ : ℝ} (hσ : σ = 1 ∨ σ = -1)
    (hout : σ * cornerSin p k < 0 ∨ (cornerSin p k = 0 ∧ 0 < cornerCos p k)) :
    ∀ᶠ h in 𝓝[>] (0 : ℝ), ∀ t, 0 ≤ t → t ≤ 1 → (t = 0 ∨ σ * cornerSin p k < 0) → wnAt p (roundArc p (σ * h) k t) = w + if 0 < σ then 1 else 0 := by
  have hl := hp.loop he
  obtain ⟨R, hR, hr⟩ := radius_pos hp he hs k
  set V := cornerPos p (k + 1) with hV
  obtain ⟨δ, hδ, hball⟩ := Metric.eventually_nhds_iff.mp ((cone_free hp he hs hk).and (quarter_free hp he hs hk hσ hout))
  -- a part of the segment before the corner
  obtain ⟨l1, hl1, r1⟩ := stop_ray hp he k
  have p1 := dir_pos hp he k 1
  obtain ⟨ε1, hε1, a1⟩ := r1.ahead (W := ⟨-(dirAt p k 1).x, -(dirAt p k 1).y⟩) (by dsimp only; nlinarith)
  have hcont : ContinuousAt (fun s => edist (segAt p k s) V) 1 := by
    have h1 : Continuous fun s => ((segAt p k s).x, (segAt p k s).y) := segCurve_continuous _ _
    unfold edist
    exact ((((continuous_fst.comp h1).sub continuous_const).pow 2).add (((continuous_snd.comp h1).sub continuous_const).pow 2)).sqrt.continuousAt
  obtain ⟨ε2, hε2, a2⟩ := Metric.eventually_nhds_iff.mp (hcont.eventually (gt_mem_nhds (show edist (segAt p k 1) V < δ / 2 by rw [segAt_one, edist_self]; linarith)))
  obtain ⟨x, x0, x1⟩ := exists_between (lt_min (lt_min hε1 hε2) one_pos)
  obtain ⟨x1, x2⟩ := lt_min_iff.mp x1
  obtain ⟨x1, x3⟩ := lt_min_iff.mp x1
  have habs : ∀ h : ℝ, 0 < h → |σ * h| = h := fun h h0 => by rcases hσ with rfl | rfl <;> simp [abs_of_pos h0]
  have hne : ∀ h : ℝ, 0 < h → σ * h ≠ 0 := fun h h0 => by rcases hσ with rfl | rfl <;> simp [h0.ne']
  -- the strip is free
  have strip : ∀ s h, 1 - x ≤ s → s ≤ 1 → 0 < h → h < R → h < δ / 2 → ¬ OnPline p (parCurve p (σ * h) k s) := by
    intro s h s0 s1 h0 h1 h2
    have hd : dist ((parCurve p (σ * h) k s).x, (parCurve p (σ * h) k s).y) (V.x, V.y) < δ := by
      refine lt_of_le_of_lt (sup_edist _ _) ?_
      have e1 : edist (parCurve p (σ * h) k s) (segAt p k s) = h := by
        have hsq := edist_sq (parCurve p (σ * h) k s) (segAt p k s)
        rw [parCurve_eq hp he] at hsq ⊢
        have hL := len_pos hp he k
        have hdir : (dirAt p k s).x ^ 2 + (dirAt p k s).y ^ 2 = sideLen p k ^ 2 := segDir_sq _ _ _
        have hσ2 : σ ^ 2 = 1 := by rcases hσ with rfl | rfl <;> norm_num
        refine (pow_left_inj₀ (edist_nonneg _ _) h0.le (n := 2) (by norm_num)).mp ?_
        rw [hsq]
        dsimp only
        have : ((dirAt p k s).x ^ 2 + (dirAt p k s).y ^ 2) / sideLen p k ^ 2 = 1 := by rw [hdir]; exact div_self (by positivity)
        linear_combination (σ * h) ^ 2 * this + h ^ 2 * hσ2
      have e2 := a2 (show dist s 1 < ε2 by rw [Real.dist_eq, abs_of_nonpos (by linarith)]; linarith)
      have := edist_triangle (parCurve p (σ * h) k s) (segAt p k s) V
      linarith
    have hr' := hr (σ * h) (by rw [habs h h0]; exact h1)
    have hsd := par_side (shapeAt hp he k) (hne h h0) hr' s
    change 0 < σ * h * sideOf (sg p k) ((parCurve p (σ * h) k s).x, (parCurve p (σ * h) k s).y) at hsd
    obtain ⟨ρ, hρ, hah⟩ := par_ahead (shapeAt hp he k) (hne h h0) hr'
    refine (hball hd).2 ?_ ?_
    · by_contra hcon
      push Not at hcon
      nlinarith
    · have h3 := hah s
      change ((parCurve p (σ * h) k s).x - V.x) * (dirAt p k 1).x + ((parCurve p (σ * h) k s).y - V.y) * (dirAt p k 1).y =
        ρ * (((segAt p k s).x - V.x) * (dirAt p k 1).x + ((segAt p k s).y - V.y) * (dirAt p k 1).y) at h3
      dsimp only
      rw [h3]
      rcases lt_or_eq_of_le s1 with s1 | rfl
      · have := a1 (1 - s) (by linarith) (by linarith)
        dsimp only at this
        rw [sub_sub_cancel] at this
        exact mul_nonpos_of_nonneg_of_nonpos hρ.le (by linarith)
      · rw [segAt_one]; simp [hV]
  have hev := inner_side hp he hs hw hk (t := 1 - x) (by linarith) (by linarith) hσ
  obtain ⟨ε3, hε3, a3⟩ := mem_nhdsGT_iff_exists_Ioo_subset.mp hev
  filter_upwards [Ioo_mem_nhdsGT hR, Ioo_mem_nhdsGT (show 0 < δ / 2 by linarith)] with h ⟨h0, h1⟩ ⟨_, h2⟩ t t0 t1 hto
  obtain ⟨y, y0, y1⟩ := exists_between (lt_min h0 hε3)
  obtain ⟨y1, y2⟩ := lt_min_iff.mp y1
  have e1 : wnAt p (parCurve p (σ * y) k (1 - x)) = w + if 0 < σ then 1 else 0 := a3 ⟨y0, y2⟩
  have e2 : wnAt p (parCurve p (σ * y) k (1 - x)) = wnAt p (parCurve p (σ * h) k (1 - x)) :=
    wn_path hl (γ := fun z => parCurve p (σ * z) k (1 - x)) y1.le ((parCurve_cont' hp he k _).comp (continuous_const.mul continuous_id)).continuousOn
      fun z z0 z1 => strip (1 - x) z le_rfl (by linarith) (by linarith) (by linarith) (by linarith)
  have e3 : wnAt p (parCurve p (σ * h) k (1 - x)) = wnAt p (parCurve p (σ * h) k 1) :=
    wn_path hl (γ := fun s => parCurve p (σ * h) k s) (by linarith) (parCurve_cont hp he _ k).continuousOn fun s s0 s1 => strip s h s0 s1 h0 h1 h2
  have e4 : parCurve p (σ * h) k 1 = roundArc p (σ * h) k 0 := by
    unfold roundArc
    rw [cornerArc_zero, par_arrive hp he]
  rw [← e1, e2, e3, e4]
  rcases hto with rfl | hneg
  · rfl
  · have hneg' : σ * h * turnSin (arriveFrom p k) (cornerPos p (k + 1)) (departTo p k) < 0 := by
      have : σ * h * turnSin (arriveFrom p k) (cornerPos p (k + 1)) (departTo p k) = h * (σ * cornerSin p k) := by unfold cornerSin; ring
      rw [this]
      exact mul_neg_of_pos_of_neg h0 hneg
    refine (wn_path hl (γ := fun s => roundArc p (σ * h) k s) t0 (cornerArc_continuous _ _ _ _).continuousOn fun s s0 s1 => ?_).symm
    have hdist : edist (roundArc p (σ * h) k s) V = h := by
      exact (cornerArc_dist (arrive_ne hp he k) _ s).trans (habs h h0)
    obtain ⟨c1, c2⟩ := arc_cone (arrive_ne hp he k) (depart_ne hp he k) hneg' s0 (s1.trans t1)
    rw [fwd_arrive] at c1
    rw [fwd_depart] at c2
    refine (hball (lt_of_le_of_lt (sup_edist (roundArc p (σ * h) k s) V) (by rw [hdist]; linarith))).1 ?_ ?_ ?_
    · intro e
      have : roundArc p (σ * h) k s = V := by rw [V2.ext_iff']; exact ⟨congrArg Prod.fst e, congrArg Prod.snd e⟩
      rw [this, edist_self] at hdist
      linarith
    · by_contra hcon
      push Not at hcon
      exact absurd c1 (not_le.mpr (div_neg_of_neg_of_pos hcon (len_pos hp he k)))
    · by_contra hcon
      push Not at hcon
      exact absurd c2 (not_le.mpr (div_pos hcon (len_pos hp he (k + 1))))

omit hs hw in
theorem par_along (d e : ℝ) (k : Nat) (t : ℝ) : edist (parCurve p d k t) (parCurve p e k t) = |d - e| := by
  have hL := len_pos hp he k
  have hdir : (dirAt p k t).x ^ 2 + (dirAt p k t).y ^ 2 = sideLen p k ^ 2 := segDir_sq _ _ _
  have : ((dirAt p k t).x ^ 2 + (dirAt p k t).y ^ 2) / sideLen p k ^ 2 = 1 := by rw [hdir]; exact div_self (by positivity)
  rw [← Real.sqrt_sq_eq_abs, edist.eq_1]
  congr 1
  rw [parCurve_eq hp he, parCurve_eq hp he]
  dsimp only
  linear_combination (d - e) ^ 2 * this

omit hp he hs hw in
theorem off_of_ray {γ : ℝ → V2 ℝ} {r : ℝ} (hγ : ∀ h, 0 < h → h ≤ r → edist (γ r) (γ h) = r - h) (hk : Keeps p r (γ r)) {h : ℝ} (h0 : 0 < h) (h1 : h ≤ r) :
    ¬ OnPline p (γ h) := by
  intro hon
  have := hk _ hon
  rw [hγ h h0 h1] at this
  linarith

/-- On each side of a simple polyline, the winding number is the same at all points of the parallel curve. -/
theorem sided_val_any (hturn : ∀ k < p.verts.length, cornerSin p k = 0 → 0 < cornerCos p k) {d : ℝ} (hd : d ≠ 0) {X : V2 ℝ} (hX : ParallelPt p d X) :
    wnAt p X = w + if 0 < d then 1 else 0 := by
  have hl := hp.loop he
  have hn : 0 < p.verts.length := by have := hp.two; omega
  have hr : 0 < |d| := abs_pos.mpr hd
  obtain ⟨σ, hσ, hdσ, hσd⟩ : ∃ σ : ℝ, (σ = 1 ∨ σ = -1) ∧ d = σ * |d| ∧ (0 < d ↔ 0 < σ) := by
    rcases lt_or_gt_of_ne hd with h | h
    · exact ⟨-1, Or.inr rfl, by rw [abs_of_neg h]; ring, ⟨fun h' => by linarith, fun h' => by linarith⟩⟩
    · exact ⟨1, Or.inl rfl, by rw [abs_of_pos h]; ring, ⟨fun _ => one_pos, fun _ => h⟩⟩
  have hdiff : ∀ h : ℝ, h ≤ |d| → abs (σ * |d| - σ * h) = |d| - h := fun h h1 => by
    rw [← mul_sub, abs_mul, show |σ| = 1 by rcases hσ with rfl | rfl <;> simp, one_mul, abs_of_nonneg (by linarith)]
  have hif : (w + if 0 < d then 1 else 0) = w + if 0 < σ then 1 else 0 := by simp only [hσd]
  rw [hif]
  -- around a corner
  have around : ∀ k < p.verts.length, ∀ t, 0 ≤ t → t ≤ 1 → (t = 0 ∧ d * cornerSin p k ≤ 0 ∨ d * cornerSin p k < 0) → X = roundArc p d k t → wnAt p X = w + if 0 < σ then 1 else 0 := by
    intro k hk t t0 t1 hsg hXc
    have hsin : d * cornerSin p k = |d| * (σ * cornerSin p k) := by
      conv_lhs => rw [hdσ]
      ring
    have hneg : d * cornerSin p k < 0 → σ * cornerSin p k < 0 := fun h => by
      rw [hsin] at h
      exact (pos_iff_neg_of_mul_neg h).mp hr
    have hout : σ * cornerSin p k < 0 ∨ (cornerSin p k = 0 ∧ 0 < cornerCos p k) := by
      rcases hsg with ⟨-, h⟩ | h
      · rcases lt_or_eq_of_le h with h | h
        · exact Or.inl (hneg h)
        · have := (mul_eq_zero.mp h).resolve_left hd
          exact Or.inr ⟨this, hturn k hk this⟩
      · exact Or.inl (hneg h)
    obtain ⟨ε, hε, hv⟩ := mem_nhdsGT_iff_exists_Ioo_subset.mp (corner_side hp he hs hw hk hσ hout)
    obtain ⟨h, h0, hlt⟩ := exists_between (lt_min hε hr)
    obtain ⟨l1, l2⟩ := lt_min_iff.mp hlt
    have hcont : Continuous fun h => ((roundArc p (σ * h) k t).x, (roundArc p (σ * h) k t).y) :=
      (cornerArc_continuous' _ _ _ t).comp (continuous_const.mul continuous_id)
    have e1 := wn_path hl (γ := fun h => roundArc p (σ * h) k t) l2.le hcont.continuousOn (fun x x0 x1 =>
      off_of_ray (γ := fun h => roundArc p (σ * h) k t) (r := |d|) (fun h h0 h1 => by unfold roundArc; rw [cornerArc_along (arrive_ne hp he k), hdiff h h1])
        (by rw [← hdσ, ← hXc]; exact hX.keeps) (lt_of_lt_of_le h0 x0) x1)
    rw [← hdσ, ← hXc] at e1
    rw [← e1]
    exact hv ⟨h0, l1⟩ t t0 t1 (hsg.imp (fun h => h.1) hneg)
  rcases hX.place with ⟨k, u, u0, u1, hXs⟩ | ⟨k, t, hneg, t0, t1, hXc⟩
  · rcases lt_or_eq_of_le u1 with u1 | rfl
    · rcases lt_or_eq_of_le u0 with u0 | rfl
      · rw [← parCurve_mod] at hXs
        obtain ⟨ε, hε, hv⟩ := mem_nhdsGT_iff_exists_Ioo_subset.mp (inner_side hp he hs hw (Nat.mod_lt k hn) u0 u1 hσ)
        obtain ⟨h, h0, hlt⟩ := exists_between (lt_min hε hr)
        obtain ⟨l1, l2⟩ := lt_min_iff.mp hlt
        have e1 := wn_path hl (γ := fun h => parCurve p (σ * h) (k % p.verts.length) u) l2.le ((parCurve_cont' hp he _ u).comp (continuous_const.mul continuous_id)).continuousOn
          (fun x x0 x1 => off_of_ray (γ := fun h => parCurve p (σ * h) (k % p.verts.length) u) (r := |d|)
            (fun h h0 h1 => by rw [par_along hp he, hdiff h h1]) (by rw [← hdσ, ← hXs]; exact hX.keeps) (lt_of_lt_of_le h0 x0) x1)
        rw [← hdσ, ← hXs] at e1
        rw [← e1]
        exact hv ⟨h0, l1⟩
      · -- the start of a segment
        obtain ⟨j, hj, hjk⟩ : ∃ j < p.verts.length, parCurve p d (j + 1) = parCurve p d k := by
          refine ⟨(k % p.verts.length + p.verts.length - 1) % p.verts.length, Nat.mod_lt _ hn, ?_⟩
          rw [parCurve_mod_succ, ← parCurve_mod, Nat.sub_add_cancel (by omega), Nat.add_mod_right, Nat.mod_mod, parCurve_mod]
        rw [← hjk, par_depart hp he] at hXs
        have hdist : edist X (cornerPos p (j + 1)) = |d| := by
          rw [hXs, ← par_depart hp he]
          have := par_along hp he d 0 (j + 1) 0
          rw [parCurve_eq hp he 0, zero_mul, zero_mul, sub_zero, add_zero, segAt_zero, sub_zero] at this
          exact this
        obtain ⟨k1, -⟩ := foot_cone hp he (abs_nonneg d) hX.keeps j hdist
        rw [hXs, (next_start_frame (arrive_ne hp he j) (depart_ne hp he j) d).1] at k1
        have hle : d * cornerSin p j ≤ 0 := by unfold cornerSin; linarith
        rcases lt_or_eq_of_le hle with hlt | h0
        · refine around j hj 1 zero_le_one le_rfl (Or.inr hlt) ?_
          unfold roundArc
          rw [cornerArc_one (arrive_ne hp he j) (depart_ne hp he j) (fun h => ?_), hXs]
          exfalso
          have h' : cornerSin p j = 0 := h
          rw [h', mul_zero] at hlt
          exact lt_irrefl _ hlt
        · have hz := (mul_eq_zero.mp h0).resolve_left hd
          refine around j hj 0 le_rfl zero_le_one (Or.inl ⟨rfl, hle⟩) ?_
          unfold roundArc
          rw [cornerArc_zero, hXs]
          have hc := hturn j hj hz
          have hq := turn_sq (arrive_ne hp he j) (depart_ne hp he j)
          obtain ⟨f1, f2⟩ := next_start_frame (arrive_ne hp he j) (depart_ne hp he j) d
          have hz' : turnSin (arriveFrom p j) (cornerPos p (j + 1)) (departTo p j) = 0 := hz
          have hc' : turnCos (arriveFrom p j) (cornerPos p (j + 1)) (departTo p j) = 1 := by
            rw [hz'] at hq
            change 0 < turnCos (arriveFrom p j) (cornerPos p (j + 1)) (departTo p j) at hc
            nlinarith
          obtain ⟨-, -, g1, g2⟩ := moved_frame (arrive_ne hp he j) d 1
          refine fwd_lft_ext (v := cornerPos p (j + 1)) (arrive_ne hp he j) ?_ ?_
          · rw [f1, hz', g1]; ring
          · rw [f2, hc', g2]; ring
    · -- the end of a segment
      rw [← parCurve_mod] at hXs
      have hj := Nat.mod_lt k hn
      generalize k % p.verts.length = j at hj hXs
      have hdist : edist X (cornerPos p (j + 1)) = |d| := by
        have := par_along hp he d 0 j 1
        rw [parCurve_eq hp he 0, zero_mul, zero_mul, sub_zero, add_zero, segAt_one, sub_zero] at this
        rw [hXs]
        exact this
      obtain ⟨-, k2⟩ := foot_cone hp he (abs_nonneg d) hX.keeps j hdist
      obtain ⟨-, -, g1, g2⟩ := moved_frame (arrive_ne hp he j) d 1
      rw [(frame_turn (arrive_ne hp he j) (depart_ne hp he j) X).1, hXs, par_arrive hp he, g1, g2] at k2
      refine around j hj 0 le_rfl zero_le_one (Or.inl ⟨rfl, ?_⟩) ?_
      · unfold cornerSin; linarith
      · unfold roundArc
        rw [cornerArc_zero, hXs, par_arrive hp he]
  · exact around (k % p.verts.length) (Nat.mod_lt k hn) t t0 t1 (Or.inr (by rw [cornerSin_mod]; exact hneg)) (by rw [roundArc_mod]; exact hXc)

omit hw in
/-- The parallel curves on the two sides of a simple polyline have no point in common. -/
theorem one_sided_any (hturn : ∀ k < p.verts.length, cornerSin p k = 0 → 0 < cornerCos p k) {d : ℝ} (hd : d ≠ 0) : OneSidedCurve p d := by
  obtain ⟨w, -, hw, -⟩ := two_numbers (hp.loop he) hs
  rintro X ⟨h1, h2⟩
  have e1 := sided_val_any hp he hs hw hturn hd h1
  have e2 := sided_val_any hp he hs hw hturn (neg_ne_zero.mpr hd) h2
  rw [e1] at e2
  rcases lt_or_gt_of_ne hd with h | h
  · rw [if_neg (by linarith), if_pos (by linarith)] at e2; omega
  · rw [if_pos h, if_neg (by linarith)] at e2; omega

omit hs hw in
/-- A point that keeps the distance and has a point of the polyline at that distance is on one of the two parallel curves. -/
theorem placed_any (hturn : ∀ k < p.verts.length, cornerSin p k = 0 → 0 < cornerCos p k) {d : ℝ} {X F : V2 ℝ} (hX : Keeps p |d| X) (hF : OnPline p F)
    (hXF : edist X F = |d|) : ParallelPt p d X ∨ ParallelPt p (-d) X := by
  have hn : 0 < p.verts.length := by have := hp.two; omega
  have hX' : Keeps p |-d| X := by rwa [abs_neg]
  have corner : ∀ k < p.verts.length, edist X (cornerPos p (k + 1)) = |d| → ParallelPt p d X ∨ ParallelPt p (-d) X := by
    intro k hk hu
    rcases corner_place hp he hX (hturn k hk) hu with (h | h) | ⟨h1, t, t0, t1, h⟩ | h
    · exact Or.inl ⟨hX, Or.inl ⟨k, 1, zero_le_one, le_rfl, h⟩⟩
    · exact Or.inr ⟨hX', Or.inl ⟨k, 1, zero_le_one, le_rfl, h⟩⟩
    · exact Or.inl ⟨hX, Or.inr ⟨k, t, h1, t0, t1, h⟩⟩
    · exact Or.inr ⟨hX', Or.inr h⟩
  obtain ⟨s, hsm, u, u0, u1, rfl⟩ := hF
  rw [segs_range hp.closed hp.two] at hsm
  obtain ⟨k, hk, rfl⟩ := List.mem_map.mp hsm
  rw [List.mem_range] at hk
  change edist X (segAt p k u) = |d| at hXF
  rcases lt_or_eq_of_le u1 with u1 | rfl
  · rcases lt_or_eq_of_le u0 with u0 | rfl
    · rcases foot_mid hp he hX u0 u1 hXF with h | h
      · exact Or.inl ⟨hX, Or.inl ⟨k, u, u0.le, u1.le, h⟩⟩
      · exact Or.inr ⟨hX', Or.inl ⟨k, u, u0.le, u1.le, h⟩⟩
    · rw [segAt_zero] at hXF
      refine corner ((k + p.verts.length - 1) % p.verts.length) (Nat.mod_lt _ hn) ?_
      rw [(corner_mod p _).1, Nat.sub_add_cancel (by omega), ← cornerPos_mod, Nat.add_mod_right, cornerPos_mod]
      exact hXF
  · rw [segAt_one] at hXF
    exact corner k hk hXF

end

end Cavc
