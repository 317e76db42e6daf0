import Verif.Lemmas.Sides
import Verif.Lemmas.SimpleLoop
import Verif.Lemmas.OffsetKeepPieces
import Verif.Lemmas.OffsetRegion

/-! # The two winding numbers of a closed polyline of lines and arcs that does not touch itself -/

set_option linter.unusedVariables false

namespace Cavc
open Real Pline Filter Topology

/-! ## signs next to a zero -/

theorem pos_after {f : ℝ → ℝ} {c x : ℝ} (h : HasDerivAt f c x) (h0 : f x = 0) (hc : 0 < c) : ∀ᶠ u in 𝓝[>] x, 0 < f u := by
  have ht := (hasDerivAt_iff_tendsto_slope.mp h).eventually_const_lt hc
  have : ∀ᶠ u in 𝓝[>] x, 0 < slope f x u := ht.filter_mono (nhdsWithin_mono x fun u hu => ne_of_gt hu)
  filter_upwards [this, self_mem_nhdsWithin] with u hu hux
  rw [slope_def_field, h0, sub_zero] at hu
  have : 0 < u - x := sub_pos.mpr hux
  exact (div_pos_iff_of_pos_right this).mp hu

theorem pos_before {f : ℝ → ℝ} {c x : ℝ} (h : HasDerivAt f c x) (h0 : f x = 0) (hc : c < 0) : ∀ᶠ u in 𝓝[<] x, 0 < f u := by
  have ht := (hasDerivAt_iff_tendsto_slope.mp h).eventually_lt_const hc
  have : ∀ᶠ u in 𝓝[<] x, slope f x u < 0 := ht.filter_mono (nhdsWithin_mono x fun u hu => ne_of_lt hu)
  filter_upwards [this, self_mem_nhdsWithin] with u hu hux
  rw [slope_def_field, h0, sub_zero] at hu
  have : u - x < 0 := sub_neg.mpr hux
  by_contra hn
  push Not at hn
  exact absurd hu (not_lt.mpr (div_nonneg_of_nonpos hn this.le))

/-- Moving off a segment to its left makes the sign positive, to its right negative. -/
theorem side_normal {s : Vertex ℝ × Vertex ℝ} (h : Proper s) (hne : s.1.pos ≠ s.2.pos) (t : ℝ) {a b : ℝ}
    (hx : HasDerivAt (fun t => (segCurve s.1 s.2 t).x) a t) (hy : HasDerivAt (fun t => (segCurve s.1 s.2 t).y) b t) :
    (∀ᶠ u in 𝓝[>] (0 : ℝ), 0 < sideOf s ((segCurve s.1 s.2 t).x - u * b, (segCurve s.1 s.2 t).y + u * a)) ∧
    ∀ᶠ u in 𝓝[>] (0 : ℝ), sideOf s ((segCurve s.1 s.2 t).x + u * b, (segCurve s.1 s.2 t).y - u * a) < 0 := by
  obtain ⟨a', b', hab, hx', hy', hd, -⟩ := seg_tangent h hne t
  obtain rfl := hx.unique hx'
  obtain rfl := hy.unique hy'
  have hpos : 0 < a * a + b * b := by
    rcases hab with g | g
    · have := mul_self_pos.mpr g; nlinarith [mul_self_nonneg b]
    · have := mul_self_pos.mpr g; nlinarith [mul_self_nonneg a]
  have hz := sideOf_curve h t
  constructor
  · have d1 : HasDerivAt (fun u : ℝ => (segCurve s.1 s.2 t).x - u * b) (-b) 0 :=
      (((hasDerivAt_id (0 : ℝ)).mul_const b).const_sub _).congr_deriv (by ring)
    have d2 : HasDerivAt (fun u : ℝ => (segCurve s.1 s.2 t).y + u * a) a 0 :=
      (((hasDerivAt_id (0 : ℝ)).mul_const a).const_add _).congr_deriv (by ring)
    exact pos_after (hd _ _ _ _ 0 d1 d2 (by ring) (by ring)) (by simpa using hz) (by linarith)
  · have d1 : HasDerivAt (fun u : ℝ => (segCurve s.1 s.2 t).x + u * b) b 0 :=
      (((hasDerivAt_id (0 : ℝ)).mul_const b).const_add _).congr_deriv (by ring)
    have d2 : HasDerivAt (fun u : ℝ => (segCurve s.1 s.2 t).y - u * a) (-a) 0 :=
      (((hasDerivAt_id (0 : ℝ)).mul_const a).const_sub _).congr_deriv (by ring)
    have := pos_after (hd _ _ _ _ 0 d1 d2 (by ring) (by ring)).neg (by simpa using hz) (by linarith : 0 < -(a * -a - b * b))
    filter_upwards [this] with u hu
    simpa using hu

/-- Near every point there are points on one of the two sides. -/
theorem side_dense {s : Vertex ℝ × Vertex ℝ} (h : Proper s) (hne : s.1.pos ≠ s.2.pos) (z : ℝ × ℝ) : ∃ᶠ y in 𝓝 z, sideOf s y ≠ 0 := by
  by_cases hz : sideOf s z ≠ 0
  · intro hn
    exact hn.self_of_nhds hz
  push Not at hz
  have key : ∃ c d A B : ℝ, (A ≠ 0 ∨ B ≠ 0) ∧ ∀ u : ℝ, sideOf s (z.1 + u * c, z.2 + u * d) = A * u ^ 2 + B * u := by
    unfold sideOf at hz ⊢
    by_cases hl : IsLine s.1
    · simp only [if_pos hl] at hz ⊢
      refine ⟨-(s.2.y - s.1.y), s.2.x - s.1.x, 0, (s.2.x - s.1.x) ^ 2 + (s.2.y - s.1.y) ^ 2, Or.inr ?_, ?_⟩
      · intro h0
        apply hne
        rw [V2.ext_iff']
        simp only [Vertex.pos_x, Vertex.pos_y]
        constructor <;> nlinarith [sq_nonneg (s.2.x - s.1.x), sq_nonneg (s.2.y - s.1.y)]
      · intro u
        linear_combination hz
    · simp only [if_neg hl] at hz ⊢
      refine ⟨1, 0, -(2 * arctan s.1.bulge), -(4 * arctan s.1.bulge * (z.1 - (arcCenter s.1.pos s.2.pos s.1.bulge).x)), Or.inl ?_, ?_⟩
      · have := bulge_ne_zero hl
        have : arctan s.1.bulge ≠ 0 := by rwa [Ne, arctan_eq_zero_iff]
        simpa using this
      · intro u
        linear_combination hz
  obtain ⟨c, d, A, B, hAB, hf⟩ := key
  have hev : ∀ᶠ u in 𝓝[≠] (0 : ℝ), sideOf s (z.1 + u * c, z.2 + u * d) ≠ 0 := by
    by_cases hB : B = 0
    · filter_upwards [self_mem_nhdsWithin] with u hu
      have hA : A ≠ 0 := by tauto
      rw [hf, hB, zero_mul, add_zero]
      exact mul_ne_zero hA (pow_ne_zero 2 hu)
    · have hc : ContinuousAt (fun u : ℝ => A * u + B) 0 := by fun_prop
      have h0 : ∀ᶠ u in 𝓝 (0 : ℝ), A * u + B ≠ 0 := hc.eventually_ne (by simpa using hB)
      filter_upwards [self_mem_nhdsWithin, h0.filter_mono nhdsWithin_le_nhds] with u hu hu'
      rw [hf, show A * u ^ 2 + B * u = u * (A * u + B) by ring]
      exact mul_ne_zero hu hu'
  have ht : Tendsto (fun u : ℝ => (z.1 + u * c, z.2 + u * d)) (𝓝[≠] 0) (𝓝 z) := by
    have : ContinuousAt (fun u : ℝ => (z.1 + u * c, z.2 + u * d)) 0 := by fun_prop
    have h := this.tendsto
    simp only [zero_mul, add_zero] at h
    exact h.mono_left nhdsWithin_le_nhds
  exact ht.frequently hev.frequently

section
variable {p : Pline ℝ}

/-- the segment at an index -/
noncomputable def sg (p : Pline ℝ) (i : Nat) : Vertex ℝ × Vertex ℝ := (vtx p i, vtx p (i + 1))

/-- a point of it -/
noncomputable def sgPt (p : Pline ℝ) (i : Nat) (t : ℝ) : ℝ × ℝ := ((segCurve (vtx p i) (vtx p (i + 1)) t).x, (segCurve (vtx p i) (vtx p (i + 1)) t).y)

open Classical in
/-- near a point, the winding numbers on the two sides of a segment are `w` and `w + 1` -/
def SidesAt (p : Pline ℝ) (i : Nat) (w : ℤ) (Z : ℝ × ℝ) : Prop :=
  ∀ᶠ z in 𝓝 Z, sideOf (sg p i) z ≠ 0 → z ∉ trace p ∧ wn p z = w + if 0 < sideOf (sg p i) z then 1 else 0

variable (hp : Loop p)
include hp

theorem loop_trace (z : ℝ × ℝ) : z ∈ trace p ↔ ∃ i < p.verts.length, ∃ t, 0 ≤ t ∧ t ≤ 1 ∧ z = sgPt p i t := by
  rw [trace_iff, segs_range hp.closed hp.two]
  simp only [List.mem_map, List.mem_range]
  constructor
  · rintro ⟨s, ⟨i, hi, rfl⟩, t, h0, h1, e⟩
    exact ⟨i, hi, t, h0, h1, Prod.ext (congrArg V2.x e) (congrArg V2.y e)⟩
  · rintro ⟨i, hi, t, h0, h1, rfl⟩
    exact ⟨_, ⟨i, hi, rfl⟩, t, h0, h1, rfl⟩

theorem sg_mem {i : Nat} (hi : i < p.verts.length) : sg p i ∈ p.segs := by
  rw [segs_range hp.closed hp.two]
  exact List.mem_map.mpr ⟨i, List.mem_range.mpr hi, rfl⟩

theorem sg_proper {i : Nat} (hi : i < p.verts.length) : Proper (sg p i) := hp.proper _ (sg_mem hp hi)

theorem sgPt_cont (i : Nat) : Continuous (sgPt p i) := segCurve_continuous _ _

variable (hs : SimpleLoop p)
include hs

theorem simple_inner {i m : Nat} (hi : i < p.verts.length) (hm : m < p.verts.length) {t u : ℝ} (t0 : 0 < t) (t1 : t < 1) (u0 : 0 ≤ u) (u1 : u ≤ 1)
    (h : sgPt p i t = sgPt p m u) : i = m ∧ t = u := by
  have hn : 0 < p.verts.length := by omega
  have h' : curveAt p i t = curveAt p m u := by
    rw [curveAt_vtx hn, curveAt_vtx hn, V2.ext_iff']
    exact ⟨congrArg Prod.fst h, congrArg Prod.snd h⟩
  rcases lt_or_eq_of_le u1 with u1 | rfl
  · exact hs i m hi hm t u t0.le t1 u0 u1 h'
  · rw [curveAt_join hn, ← curveAt_wrap hn (m + 1)] at h'
    have := (hs i _ hi (Nat.mod_lt _ hn) t 0 t0.le t1 le_rfl one_pos h').2
    linarith

theorem simple_vertex {i m : Nat} (hi : i < p.verts.length) (hm : m < p.verts.length) {u : ℝ} (u0 : 0 ≤ u) (u1 : u ≤ 1)
    (h : sgPt p i 0 = sgPt p m u) : (m = i ∧ u = 0) ∨ ((m + 1) % p.verts.length = i ∧ u = 1) := by
  have hn : 0 < p.verts.length := by omega
  have h' : curveAt p i 0 = curveAt p m u := by
    rw [curveAt_vtx hn, curveAt_vtx hn, V2.ext_iff']
    exact ⟨congrArg Prod.fst h, congrArg Prod.snd h⟩
  rcases lt_or_eq_of_le u1 with u1 | rfl
  · have := hs i m hi hm 0 u le_rfl one_pos u0 u1 h'
    exact Or.inl ⟨this.1.symm, this.2.symm⟩
  · rw [curveAt_join hn, ← curveAt_wrap hn (m + 1)] at h'
    have := (hs i _ hi (Nat.mod_lt _ hn) 0 0 le_rfl one_pos le_rfl one_pos h').1
    exact Or.inr ⟨this.symm, rfl⟩

theorem sg_ne {i : Nat} (hi : i < p.verts.length) : (sg p i).1.pos ≠ (sg p i).2.pos := by
  intro e
  have h2 := hp.two
  have h0 : sgPt p i 0 = sgPt p i 1 := by
    unfold sgPt
    rw [(segCurve_ends _ _).1, (segCurve_ends _ _).2]
    change (sg p i).1.pos = (sg p i).2.pos at e
    change ((sg p i).1.pos.x, (sg p i).1.pos.y) = ((sg p i).2.pos.x, (sg p i).2.pos.y)
    rw [e]
  rcases simple_vertex hp hs hi hi zero_le_one le_rfl h0 with ⟨-, h⟩ | ⟨h, -⟩
  · norm_num at h
  · by_cases hl : i + 1 < p.verts.length
    · rw [Nat.mod_eq_of_lt hl] at h; omega
    · have : i + 1 = p.verts.length := by omega
      rw [this, Nat.mod_self] at h; omega

theorem sides_local {i : Nat} (hi : i < p.verts.length) {t : ℝ} (t0 : 0 < t) (t1 : t < 1) : ∃ w, SidesAt p i w (sgPt p i t) := by
  obtain ⟨L1, L2, hL⟩ := List.append_of_mem (List.mem_range.mpr hi)
  have hsegs : p.segs = L1.map (sg p) ++ sg p i :: L2.map (sg p) := by
    rw [segs_range hp.closed hp.two, hL, List.map_append, List.map_cons]
    rfl
  have hnd := List.nodup_range (n := p.verts.length)
  rw [hL] at hnd
  obtain ⟨-, hnd2, hnd3⟩ := List.nodup_append.mp hnd
  have hoff : ∀ e ∈ L1.map (sg p) ++ L2.map (sg p), sgPt p i t ∉ segTrace e := by
    intro e he hon
    rw [← List.map_append] at he
    obtain ⟨m, hm, rfl⟩ := List.mem_map.mp he
    have hmn : m < p.verts.length := by
      have : m ∈ List.range p.verts.length := by
        rw [hL]
        rcases List.mem_append.mp hm with g | g <;> simp [g]
      exact List.mem_range.mp this
    have hne : m ≠ i := by
      rcases List.mem_append.mp hm with g | g
      · exact hnd3 m g i (by simp)
      · rintro rfl
        exact (List.nodup_cons.mp hnd2).1 g
    obtain ⟨u, u0, u1, e⟩ := hon
    exact hne (simple_inner hp hs hi hmn t0 t1 u0 u1 (Prod.ext (congrArg V2.x e) (congrArg V2.y e))).1.symm
  obtain ⟨w, hw⟩ := two_sides (s := sg p i) (L1 := L1.map (sg p)) (L2 := L2.map (sg p)) (by rw [← hsegs]; exact hp.proper) (by rw [← hsegs]; exact segs_perm hp)
    (sg_ne hp hs hi) t0 t1 hoff
  refine ⟨w, ?_⟩
  unfold SidesAt
  filter_upwards [hw] with z hz hside
  obtain ⟨h1, h2⟩ := hz hside
  rw [← hsegs] at h1 h2
  refine ⟨?_, by rw [wn_segs hp, h2]⟩
  rw [trace_iff]
  rintro ⟨s, hs', hon⟩
  exact h1 s hs' hon

theorem sides_unique {i : Nat} (hi : i < p.verts.length) {t : ℝ} {w w' : ℤ} (h : SidesAt p i w (sgPt p i t)) (h' : SidesAt p i w' (sgPt p i t)) : w = w' := by
  obtain ⟨z, hz, h1, h2⟩ := ((side_dense (sg_proper hp hi) (sg_ne hp hs hi) (sgPt p i t)).and_eventually (h.and h')).exists
  have e1 := (h1 hz).2
  have e2 := (h2 hz).2
  rw [e1] at e2
  exact add_right_cancel e2

theorem sides_segment {i : Nat} (hi : i < p.verts.length) : ∃ w, ∀ t, 0 < t → t < 1 → SidesAt p i w (sgPt p i t) := by
  have hloc : ∀ t : ℝ, ∃ w, 0 < t → t < 1 → SidesAt p i w (sgPt p i t) := by
    intro t
    by_cases h : 0 < t ∧ t < 1
    · obtain ⟨w, hw⟩ := sides_local hp hs hi h.1 h.2
      exact ⟨w, fun _ _ => hw⟩
    · exact ⟨0, fun h0 h1 => absurd ⟨h0, h1⟩ h⟩
  choose g hg using hloc
  have hconst : ContinuousOn g (Set.Ioo 0 1) := by
    rintro t ⟨t0, t1⟩
    have h1 : ∀ᶠ z in 𝓝 (sgPt p i t), SidesAt p i (g t) z := eventually_eventually_nhds.mpr (hg t t0 t1)
    have h2 : ∀ᶠ u in 𝓝 t, SidesAt p i (g t) (sgPt p i u) := (sgPt_cont hp i).continuousAt.eventually h1
    have h3 : ∀ᶠ u in 𝓝[Set.Ioo 0 1] t, g t = g u := by
      filter_upwards [h2.filter_mono nhdsWithin_le_nhds, self_mem_nhdsWithin] with u hu hu'
      exact sides_unique hp hs hi hu (hg u hu'.1 hu'.2)
    exact (continuousWithinAt_const (b := g t)).congr_of_eventuallyEq (h3.mono fun u hu => hu.symm) rfl
  refine ⟨g (1 / 2), fun t t0 t1 => ?_⟩
  have := isPreconnected_Ioo.constant hconst (x := t) (y := 1 / 2) ⟨t0, t1⟩ ⟨by norm_num, by norm_num⟩
  rw [← this]
  exact hg t t0 t1

/-- Near a point inside a segment all points off the polyline have one of the two numbers. -/
theorem near_inner {i : Nat} (hi : i < p.verts.length) {w : ℤ} {Z : ℝ × ℝ} (h : SidesAt p i w Z) : ∀ᶠ z in 𝓝 Z, z ∉ trace p → wn p z = w ∨ wn p z = w + 1 := by
  have h1 : ∀ᶠ z in 𝓝 Z, SidesAt p i w z := eventually_eventually_nhds.mpr h
  filter_upwards [h1] with z hz hoff
  obtain ⟨δ, hδ, hb⟩ := wn_locally hp hoff
  obtain ⟨y, hy, h2, h3⟩ := ((side_dense (sg_proper hp hi) (sg_ne hp hs hi) z).and_eventually (hz.and (Metric.ball_mem_nhds z hδ))).exists
  have e := (h2 hy).2
  rw [(hb y h3).2] at e
  rw [e]
  split_ifs
  · exact Or.inr rfl
  · left; ring

end

/-! ## corners -/

/-- the circle around a point -/
noncomputable def circ (C : ℝ × ℝ) (r φ : ℝ) : ℝ × ℝ := (C.1 + r * cos φ, C.2 + r * sin φ)

theorem circ_cont (C : ℝ × ℝ) (r : ℝ) : Continuous (circ C r) := by unfold circ; fun_prop

theorem circ_deriv (C : ℝ × ℝ) (r φ : ℝ) : HasDerivAt (fun u => (circ C r u).1) (-((circ C r φ).2 - C.2)) φ ∧
    HasDerivAt (fun u => (circ C r u).2) ((circ C r φ).1 - C.1) φ := by
  unfold circ
  dsimp only
  exact ⟨(((hasDerivAt_cos φ).const_mul r).const_add _).congr_deriv (by ring), (((hasDerivAt_sin φ).const_mul r).const_add _).congr_deriv (by ring)⟩

theorem circ_sq (C : ℝ × ℝ) (r φ : ℝ) : ((circ C r φ).1 - C.1) ^ 2 + ((circ C r φ).2 - C.2) ^ 2 = r ^ 2 := by
  unfold circ
  linear_combination r ^ 2 * sin_sq_add_cos_sq φ

theorem circ_inj {C : ℝ × ℝ} {r α φ : ℝ} (hr : 0 < r) (h : circ C r φ = circ C r α) (h1 : α - 2 * π < φ) (h2 : φ < α + 2 * π) : φ = α := by
  have e1 := congrArg Prod.fst h
  have e2 := congrArg Prod.snd h
  unfold circ at e1 e2
  dsimp only at e1 e2
  have c1 : cos φ = cos α := mul_left_cancel₀ hr.ne' (by linarith)
  have c2 : sin φ = sin α := mul_left_cancel₀ hr.ne' (by linarith)
  have : cos (φ - α) = 1 := by
    rw [cos_sub, c1, c2]
    linarith [sin_sq_add_cos_sq α, sq (sin α), sq (cos α)]
  have := (cos_eq_one_iff_of_lt_of_lt (x := φ - α) (by linarith) (by linarith)).mp this
  linarith

theorem circ_turn (C : ℝ × ℝ) (r φ : ℝ) : circ C r (φ + 2 * π) = circ C r φ := by
  unfold circ; rw [cos_add_two_pi, sin_add_two_pi]

theorem circ_exists {C z : ℝ × ℝ} {r : ℝ} (hr : 0 < r) (h : (z.1 - C.1) ^ 2 + (z.2 - C.2) ^ 2 = r ^ 2) : ∃ φ, 0 < φ ∧ φ ≤ 2 * π ∧ z = circ C r φ := by
  have hne : z.1 - C.1 ≠ 0 ∨ z.2 - C.2 ≠ 0 := by
    by_contra hn
    push Not at hn
    rw [hn.1, hn.2] at h
    nlinarith
  obtain ⟨φ, ⟨ρ, hρ, e1, e2⟩, h0, h1⟩ := dir_exists hne
  have : ρ = r := by
    rw [e1, e2] at h
    have : ρ ^ 2 = r ^ 2 := by linear_combination h - ρ ^ 2 * sin_sq_add_cos_sq φ
    nlinarith [sq_nonneg (ρ - r), mul_pos hρ hr]
  subst this
  exact ⟨φ, h0, h1, Prod.ext (by unfold circ; dsimp only; linarith) (by unfold circ; dsimp only; linarith)⟩

theorem circ_near (C : ℝ × ℝ) {r φ : ℝ} (hr : 0 ≤ r) : dist (circ C r φ) C ≤ r := by
  rw [Prod.dist_eq, Real.dist_eq, Real.dist_eq]
  unfold circ
  dsimp only
  rw [show C.1 + r * cos φ - C.1 = r * cos φ by ring, show C.2 + r * sin φ - C.2 = r * sin φ by ring, abs_mul, abs_mul, abs_of_nonneg hr]
  refine max_le ?_ ?_
  · nlinarith [abs_cos_le_one φ]
  · nlinarith [abs_sin_le_one φ]

section
variable {p : Pline ℝ} (hp : Loop p) (hs : SimpleLoop p)

/-- square of the distance from a point, along a segment -/
noncomputable def sqDist (p : Pline ℝ) (i : Nat) (C : ℝ × ℝ) (t : ℝ) : ℝ := ((sgPt p i t).1 - C.1) ^ 2 + ((sgPt p i t).2 - C.2) ^ 2

include hp hs

theorem sqDist_deriv {i : Nat} (hi : i < p.verts.length) (t : ℝ) (C : ℝ × ℝ) : ∃ a b : ℝ,
    HasDerivAt (sqDist p i C) (2 * (a * ((sgPt p i t).1 - C.1) + b * ((sgPt p i t).2 - C.2))) t ∧
    (∀ (X Y : ℝ → ℝ) (c e τ : ℝ), HasDerivAt X c τ → HasDerivAt Y e τ → (X τ, Y τ) = sgPt p i t →
      HasDerivAt (fun u => sideOf (sg p i) (X u, Y u)) (a * e - b * c) τ) ∧
    (0 < t → t < 1 → 0 < a * ((sgPt p i t).1 - (sgPt p i 0).1) + b * ((sgPt p i t).2 - (sgPt p i 0).2)) ∧
    (0 < t → t < 1 → a * ((sgPt p i t).1 - (sgPt p i 1).1) + b * ((sgPt p i t).2 - (sgPt p i 1).2) < 0) := by
  obtain ⟨a, b, -, hx, hy, hd, h1, h2⟩ := seg_tangent (sg_proper hp hi) (sg_ne hp hs hi) t
  refine ⟨a, b, ?_, ?_, ?_, ?_⟩
  · have g1 := (hx.sub_const C.1).pow 2
    have g2 := (hy.sub_const C.2).pow 2
    refine (g1.add g2).congr_deriv ?_
    simp only [sgPt, sg]
    push_cast
    ring
  · intro X Y c e τ dX dY h
    exact hd X Y c e τ dX dY (congrArg Prod.fst h) (congrArg Prod.snd h)
  · intro t0 t1
    have := h1 t0 t1
    unfold sgPt
    rw [(segCurve_ends _ _).1]
    exact this
  · intro t0 t1
    have := h2 t0 t1
    unfold sgPt
    rw [(segCurve_ends _ _).2]
    exact this

theorem sqDist_mono {i : Nat} (hi : i < p.verts.length) : StrictMonoOn (sqDist p i (sgPt p i 0)) (Set.Icc 0 1) := by
  refine strictMonoOn_of_deriv_pos (convex_Icc 0 1) ?_ ?_
  · intro t _
    obtain ⟨a, b, h, -⟩ := sqDist_deriv hp hs hi t (sgPt p i 0)
    exact h.continuousAt.continuousWithinAt
  · intro t ht
    rw [interior_Icc] at ht
    obtain ⟨a, b, h, -, h1, -⟩ := sqDist_deriv hp hs hi t (sgPt p i 0)
    rw [h.deriv]
    have := h1 ht.1 ht.2
    linarith

theorem sqDist_anti {i : Nat} (hi : i < p.verts.length) : StrictAntiOn (sqDist p i (sgPt p i 1)) (Set.Icc 0 1) := by
  refine strictAntiOn_of_deriv_neg (convex_Icc 0 1) ?_ ?_
  · intro t _
    obtain ⟨a, b, h, -⟩ := sqDist_deriv hp hs hi t (sgPt p i 1)
    exact h.continuousAt.continuousWithinAt
  · intro t ht
    rw [interior_Icc] at ht
    obtain ⟨a, b, h, -, -, h1⟩ := sqDist_deriv hp hs hi t (sgPt p i 1)
    rw [h.deriv]
    have := h1 ht.1 ht.2
    linarith

omit hs in
theorem sgPt_join (i : Nat) : sgPt p i 1 = sgPt p ((i + 1) % p.verts.length) 0 := by
  unfold sgPt
  rw [vtx_mod_succ, vtx_mod, (segCurve_ends _ _).1, (segCurve_ends _ _).2]

/-- A small circle around a corner meets the polyline in just two points, one on either of the two segments at the corner. -/
theorem corner_circle {i : Nat} (hi : i < p.verts.length) : ∃ r₀ > 0, ∀ r, 0 < r → r < r₀ → ∃ α β tO tI : ℝ, 0 < α ∧ α ≤ 2 * π ∧ α < β ∧ β < α + 2 * π ∧
    0 < tO ∧ tO < 1 ∧ 0 < tI ∧ tI < 1 ∧ circ (sgPt p i 1) r α = sgPt p ((i + 1) % p.verts.length) tO ∧ circ (sgPt p i 1) r β = sgPt p i tI ∧
    ∀ φ, circ (sgPt p i 1) r φ ∈ trace p → α < φ → φ < α + 2 * π → φ = β := by
  have h2 := hp.two
  have hn : 0 < p.verts.length := by omega
  set j := (i + 1) % p.verts.length with hj
  have hjn : j < p.verts.length := Nat.mod_lt _ hn
  have hij : i ≠ j := by
    intro e
    by_cases hl : i + 1 < p.verts.length
    · rw [hj, Nat.mod_eq_of_lt hl] at e; omega
    · have : i + 1 = p.verts.length := by omega
      rw [hj, this, Nat.mod_self] at e; omega
  set C := sgPt p i 1 with hC
  have hCj : C = sgPt p j 0 := sgPt_join hp i
  have hoth : ∀ᶠ z in 𝓝 C, ∀ m ∈ {m | m < p.verts.length ∧ m ≠ i ∧ m ≠ j}, z ∉ segTrace (sg p m) := by
    rw [eventually_all_finite ((Set.finite_lt_nat p.verts.length).subset fun m hm => hm.1)]
    rintro m ⟨hm, hmi, hmj⟩
    refine (segTrace_isCompact (sg p m)).isClosed.isOpen_compl.mem_nhds ?_
    rintro ⟨u, u0, u1, e⟩
    have e' : sgPt p j 0 = sgPt p m u := by rw [← hCj]; exact Prod.ext (congrArg V2.x e) (congrArg V2.y e)
    rcases simple_vertex hp hs hjn hm u0 u1 e' with ⟨h, -⟩ | ⟨h, -⟩
    · exact hmj h
    · apply hmi
      have : (m + 1) % p.verts.length = (i + 1) % p.verts.length := h.trans hj
      have := Nat.ModEq.add_right_cancel' 1 (show m + 1 ≡ i + 1 [MOD p.verts.length] from this)
      unfold Nat.ModEq at this
      rwa [Nat.mod_eq_of_lt hm, Nat.mod_eq_of_lt hi] at this
  obtain ⟨δ, hδ, hball⟩ := Metric.eventually_nhds_iff_ball.mp hoth
  have mO := sqDist_mono hp hs hjn
  have mI := sqDist_anti hp hs hi
  rw [← hCj] at mO
  rw [← hC] at mI
  have zO : sqDist p j C 0 = 0 := by unfold sqDist; rw [← hCj]; ring
  have zI : sqDist p i C 1 = 0 := by unfold sqDist; rw [← hC]; ring
  have pO : 0 < sqDist p j C 1 := by
    have := mO ⟨le_rfl, zero_le_one⟩ ⟨zero_le_one, le_rfl⟩ one_pos
    rwa [zO] at this
  have pI : 0 < sqDist p i C 0 := by
    have := mI ⟨le_rfl, zero_le_one⟩ ⟨zero_le_one, le_rfl⟩ one_pos
    rwa [zI] at this
  have cO : ContinuousOn (sqDist p j C) (Set.Icc 0 1) := by
    intro t _
    obtain ⟨a, b, h, -⟩ := sqDist_deriv hp hs hjn t C
    exact h.continuousAt.continuousWithinAt
  have cI : ContinuousOn (sqDist p i C) (Set.Icc 0 1) := by
    intro t _
    obtain ⟨a, b, h, -⟩ := sqDist_deriv hp hs hi t C
    exact h.continuousAt.continuousWithinAt
  refine ⟨min δ (min (sqrt (sqDist p j C 1)) (sqrt (sqDist p i C 0))), lt_min hδ (lt_min (sqrt_pos.mpr pO) (sqrt_pos.mpr pI)), ?_⟩
  intro r hr hlt
  obtain ⟨l1, l2⟩ := lt_min_iff.mp hlt
  obtain ⟨l2, l3⟩ := lt_min_iff.mp l2
  rw [lt_sqrt hr.le] at l2 l3
  have hr2 : 0 < r ^ 2 := by positivity
  obtain ⟨tO, ⟨tO0, tO1⟩, htO⟩ := intermediate_value_Ioo zero_le_one cO (show r ^ 2 ∈ Set.Ioo (sqDist p j C 0) (sqDist p j C 1) from ⟨by rwa [zO], l2⟩)
  obtain ⟨tI, ⟨tI0, tI1⟩, htI⟩ := intermediate_value_Ioo' zero_le_one cI (show r ^ 2 ∈ Set.Ioo (sqDist p i C 1) (sqDist p i C 0) from ⟨by rwa [zI], l3⟩)
  obtain ⟨α, α0, α1, hα⟩ := circ_exists (C := C) hr htO
  obtain ⟨β', β0, β1, hβ'⟩ := circ_exists (C := C) hr htI
  have hπ := pi_pos
  obtain ⟨β, hβ, hαβ, hβα⟩ : ∃ β, sgPt p i tI = circ C r β ∧ α < β ∧ β < α + 2 * π := by
    rcases lt_trichotomy α β' with h | h | h
    · exact ⟨β', hβ', h, by linarith⟩
    · exfalso
      rw [← h, ← hα] at hβ'
      exact hij (simple_inner hp hs hi hjn tI0 tI1 tO0.le tO1.le hβ').1
    · exact ⟨β' + 2 * π, by rw [circ_turn]; exact hβ', by linarith, by linarith⟩
  refine ⟨α, β, tO, tI, α0, α1, hαβ, hβα, tO0, tO1, tI0, tI1, hα.symm, hβ.symm, ?_⟩
  intro φ hon h1 h2
  obtain ⟨m, hm, t, t0, t1, e⟩ := (loop_trace hp _).mp hon
  have hsq := circ_sq C r φ
  by_cases hmj : m = j
  · subst hmj
    have : t = tO := mO.injOn ⟨t0, t1⟩ ⟨tO0.le, tO1.le⟩ (by rw [htO, ← hsq, e]; rfl)
    rw [this, hα] at e
    have := circ_inj hr e (by linarith) h2
    linarith
  · by_cases hmi : m = i
    · subst hmi
      have : t = tI := mI.injOn ⟨t0, t1⟩ ⟨tI0.le, tI1.le⟩ (by rw [htI, ← hsq, e]; rfl)
      rw [this, hβ] at e
      exact circ_inj hr e (by linarith) (by linarith)
    · exfalso
      refine hball (circ C r φ) ?_ m ⟨hm, hmi, hmj⟩ ?_
      · rw [Metric.mem_ball]
        exact lt_of_le_of_lt (circ_near C hr.le) l1
      · exact ⟨t, t0, t1, V2.ext_iff'.mpr ⟨congrArg Prod.fst e, congrArg Prod.snd e⟩⟩

/-- along the circle the winding number does not change between the two points -/
theorem circ_const {C : ℝ × ℝ} {r a b : ℝ} (h : ∀ φ, a < φ → φ < b → circ C r φ ∉ trace p) {φ ψ : ℝ} (h1 : a < φ) (h2 : φ < b) (h3 : a < ψ) (h4 : ψ < b) :
    wn p (circ C r φ) = wn p (circ C r ψ) := by
  refine wn_const hp ((isPreconnected_Ioo (a := a) (b := b)).image _ (circ_cont C r).continuousOn) ?_ (Set.mem_image_of_mem _ ⟨h1, h2⟩) (Set.mem_image_of_mem _ ⟨h3, h4⟩)
  rw [Set.disjoint_left]
  rintro _ ⟨t, ⟨t0, t1⟩, rfl⟩
  exact h t t0 t1

/-- On both sides of a corner the numbers are the same. -/
theorem corner_same {i : Nat} (hi : i < p.verts.length) {w w' : ℤ} (h : ∀ t, 0 < t → t < 1 → SidesAt p i w (sgPt p i t))
    (h' : ∀ t, 0 < t → t < 1 → SidesAt p ((i + 1) % p.verts.length) w' (sgPt p ((i + 1) % p.verts.length) t)) : w = w' := by
  have hn : 0 < p.verts.length := by omega
  obtain ⟨r₀, hr₀, hc⟩ := corner_circle hp hs hi
  obtain ⟨α, β, tO, tI, -, -, hαβ, hβα, tO0, tO1, tI0, tI1, hα, hβ, huniq⟩ := hc (r₀ / 2) (by linarith) (by linarith)
  have hjn : (i + 1) % p.verts.length < p.verts.length := Nat.mod_lt _ hn
  have hjoin : sgPt p i 1 = _ := sgPt_join hp i
  set j := (i + 1) % p.verts.length with hj
  set C := sgPt p i 1 with hC
  set r := r₀ / 2 with hr
  have hoff : ∀ φ, α < φ → φ < β → circ C r φ ∉ trace p := fun φ h1 h2 hon => by
    have := huniq φ hon h1 (by linarith)
    linarith
  -- leaving
  have evO : ∀ᶠ φ in 𝓝[>] α, wn p (circ C r φ) = w' + 1 := by
    obtain ⟨a, b, -, hd, hpos, -⟩ := sqDist_deriv hp hs hjn tO C
    obtain ⟨d1, d2⟩ := circ_deriv C r α
    have hder := hd _ _ _ _ α d1 d2 hα
    have h0 : 0 < a * ((circ C r α).1 - C.1) - b * -((circ C r α).2 - C.2) := by
      have := hpos tO0 tO1
      rw [← hjoin, ← hα] at this
      linarith
    have hz : sideOf (sg p j) ((circ C r α).1, (circ C r α).2) = 0 := by
      have := sideOf_curve (sg_proper hp hjn) tO
      rw [show ((circ C r α).1, (circ C r α).2) = sgPt p j tO from hα]
      exact this
    have g1 := pos_after hder hz h0
    have g2 : ∀ᶠ φ in 𝓝 α, _ := (circ_cont C r).continuousAt.eventually (by rw [hα]; exact h' tO tO0 tO1 : SidesAt p j w' (circ C r α))
    filter_upwards [g1, g2.filter_mono nhdsWithin_le_nhds] with φ k1 k2
    have := (k2 k1.ne').2
    rw [if_pos (show 0 < sideOf (sg p j) (circ C r φ) from k1)] at this
    exact this
  have evI : ∀ᶠ φ in 𝓝[<] β, wn p (circ C r φ) = w + 1 := by
    obtain ⟨a, b, -, hd, -, hneg⟩ := sqDist_deriv hp hs hi tI C
    obtain ⟨d1, d2⟩ := circ_deriv C r β
    have hder := hd _ _ _ _ β d1 d2 hβ
    have h0 : a * ((circ C r β).1 - C.1) - b * -((circ C r β).2 - C.2) < 0 := by
      have := hneg tI0 tI1
      rw [← hC, ← hβ] at this
      linarith
    have hz : sideOf (sg p i) ((circ C r β).1, (circ C r β).2) = 0 := by
      have := sideOf_curve (sg_proper hp hi) tI
      rw [show ((circ C r β).1, (circ C r β).2) = sgPt p i tI from hβ]
      exact this
    have g1 := pos_before hder hz h0
    have g2 : ∀ᶠ φ in 𝓝 β, _ := (circ_cont C r).continuousAt.eventually (by rw [hβ]; exact h tI tI0 tI1 : SidesAt p i w (circ C r β))
    filter_upwards [g1, g2.filter_mono nhdsWithin_le_nhds] with φ k1 k2
    have := (k2 k1.ne').2
    rw [if_pos (show 0 < sideOf (sg p i) (circ C r φ) from k1)] at this
    exact this
  obtain ⟨φ, e1, f1, f2⟩ := (evO.and (Ioo_mem_nhdsGT hαβ)).exists
  obtain ⟨ψ, e2, f3, f4⟩ := (evI.and (Ioo_mem_nhdsLT hαβ)).exists
  have := circ_const hp hs hoff f1 f2 f3 f4
  rw [e1, e2] at this
  linarith

theorem sides_all : ∃ w, ∀ i < p.verts.length, ∀ t, 0 < t → t < 1 → SidesAt p i w (sgPt p i t) := by
  have h2 := hp.two
  obtain ⟨w, hw⟩ := sides_segment hp hs (i := 0) (by omega)
  refine ⟨w, fun i => ?_⟩
  induction i with
  | zero => exact fun _ => hw
  | succ i ih =>
    intro hi
    obtain ⟨w', hw'⟩ := sides_segment hp hs hi
    have hm : (i + 1) % p.verts.length = i + 1 := Nat.mod_eq_of_lt hi
    have := corner_same hp hs (i := i) (by omega) (ih (by omega)) (by rw [hm]; exact hw')
    rw [this]
    exact hw'

/-- Near every point of the polyline the winding number is one of two. -/
theorem near_any {w : ℤ} (hw : ∀ i < p.verts.length, ∀ t, 0 < t → t < 1 → SidesAt p i w (sgPt p i t)) {Z : ℝ × ℝ} (hZ : Z ∈ trace p) :
    ∀ᶠ z in 𝓝 Z, z ∉ trace p → wn p z = w ∨ wn p z = w + 1 := by
  have h2 := hp.two
  have hn : 0 < p.verts.length := by omega
  -- at the end of a segment
  have hcorner : ∀ i < p.verts.length, ∀ᶠ z in 𝓝 (sgPt p i 1), z ∉ trace p → wn p z = w ∨ wn p z = w + 1 := by
    intro i hi
    obtain ⟨r₀, hr₀, hc⟩ := corner_circle hp hs hi
    have hjn : (i + 1) % p.verts.length < p.verts.length := Nat.mod_lt _ hn
    set j := (i + 1) % p.verts.length with hj
    set C := sgPt p i 1 with hC
    have hcont : ContinuousAt (fun z : ℝ × ℝ => (z.1 - C.1) ^ 2 + (z.2 - C.2) ^ 2) C := by fun_prop
    have hsm : ∀ᶠ z : ℝ × ℝ in 𝓝 C, (z.1 - C.1) ^ 2 + (z.2 - C.2) ^ 2 < r₀ ^ 2 := hcont.eventually_lt_const (by simp; positivity)
    filter_upwards [hsm] with z hz hoff
    have hzC : z ≠ C := by
      rintro rfl
      exact hoff ((loop_trace hp _).mpr ⟨i, hi, 1, zero_le_one, le_rfl, rfl⟩)
    have hpos : 0 < (z.1 - C.1) ^ 2 + (z.2 - C.2) ^ 2 := by
      by_contra hneg
      apply hzC
      have s1 := sq_nonneg (z.1 - C.1)
      have s2 := sq_nonneg (z.2 - C.2)
      have q1 : (z.1 - C.1) ^ 2 = 0 := by linarith
      have q2 : (z.2 - C.2) ^ 2 = 0 := by linarith
      exact Prod.ext (by linarith [pow_eq_zero_iff (two_ne_zero) |>.mp q1]) (by linarith [pow_eq_zero_iff (two_ne_zero) |>.mp q2])
    set r := sqrt ((z.1 - C.1) ^ 2 + (z.2 - C.2) ^ 2) with hr
    have hr0 : 0 < r := sqrt_pos.mpr hpos
    have hrr : r < r₀ := by rw [hr, sqrt_lt' hr₀]; exact hz
    obtain ⟨α, β, tO, tI, α0, α1, hαβ, hβα, tO0, tO1, tI0, tI1, hα, hβ, huniq⟩ := hc r hr0 hrr
    obtain ⟨φ₀, φ0, φ1, hφ₀⟩ := circ_exists (C := C) (z := z) hr0 (by rw [hr, sq_sqrt hpos.le])
    have hπ := pi_pos
    have hαon : circ C r α ∈ trace p := by rw [hα]; exact (loop_trace hp _).mpr ⟨j, hjn, tO, tO0.le, tO1.le, rfl⟩
    have hβon : circ C r β ∈ trace p := by rw [hβ]; exact (loop_trace hp _).mpr ⟨i, hi, tI, tI0.le, tI1.le, rfl⟩
    obtain ⟨φ, hφ, f1, f2⟩ : ∃ φ, z = circ C r φ ∧ α < φ ∧ φ < α + 2 * π := by
      rcases lt_trichotomy α φ₀ with h | h | h
      · exact ⟨φ₀, hφ₀, h, by linarith⟩
      · rw [h, ← hφ₀] at hαon; exact absurd hαon hoff
      · exact ⟨φ₀ + 2 * π, by rw [circ_turn]; exact hφ₀, by linarith, by linarith⟩
    have nearO : ∀ᶠ ψ in 𝓝 α, circ C r ψ ∉ trace p → wn p (circ C r ψ) = w ∨ wn p (circ C r ψ) = w + 1 :=
      (circ_cont C r).continuousAt.eventually (by rw [hα]; exact near_inner hp hs hjn (hw j hjn tO tO0 tO1))
    have nearI : ∀ᶠ ψ in 𝓝 β, circ C r ψ ∉ trace p → wn p (circ C r ψ) = w ∨ wn p (circ C r ψ) = w + 1 :=
      (circ_cont C r).continuousAt.eventually (by rw [hβ]; exact near_inner hp hs hi (hw i hi tI tI0 tI1))
    rcases lt_trichotomy φ β with h | h | h
    · have hoff' : ∀ ψ, α < ψ → ψ < β → circ C r ψ ∉ trace p := fun ψ k1 k2 hon => by
        have := huniq ψ hon k1 (by linarith); linarith
      obtain ⟨ψ, k, k1, k2⟩ := ((nearO.filter_mono nhdsWithin_le_nhds).and (Ioo_mem_nhdsGT hαβ)).exists
      rw [hφ, circ_const hp hs hoff' f1 h k1 k2]
      exact k (hoff' ψ k1 k2)
    · rw [← h, ← hφ] at hβon; exact absurd hβon hoff
    · have hoff' : ∀ ψ, β < ψ → ψ < α + 2 * π → circ C r ψ ∉ trace p := fun ψ k1 k2 hon => by
        have := huniq ψ hon (by linarith) k2; linarith
      obtain ⟨ψ, k, k1, k2⟩ := ((nearI.filter_mono nhdsWithin_le_nhds).and (Ioo_mem_nhdsGT hβα)).exists
      rw [hφ, circ_const hp hs hoff' h f2 k1 k2]
      exact k (hoff' ψ k1 k2)
  obtain ⟨i, hi, t, t0, t1, rfl⟩ := (loop_trace hp _).mp hZ
  rcases lt_or_eq_of_le t1 with t1 | rfl
  · rcases lt_or_eq_of_le t0 with t0 | rfl
    · exact near_inner hp hs hi (hw i hi t t0 t1)
    · obtain ⟨k, hk, hki⟩ : ∃ k < p.verts.length, (k + 1) % p.verts.length = i := by
        rcases Nat.eq_zero_or_pos i with rfl | h
        · exact ⟨p.verts.length - 1, by omega, by rw [Nat.sub_add_cancel (by omega), Nat.mod_self]⟩
        · exact ⟨i - 1, by omega, by rw [Nat.sub_add_cancel h, Nat.mod_eq_of_lt hi]⟩
      have := hcorner k hk
      rw [sgPt_join hp, hki] at this
      exact this
  · exact hcorner i hi

/-- Everywhere off the polyline the winding number is one of two. -/
theorem two_everywhere {w : ℤ} (hw : ∀ i < p.verts.length, ∀ t, 0 < t → t < 1 → SidesAt p i w (sgPt p i t)) {z : ℝ × ℝ} (hz : z ∉ trace p) :
    wn p z = w ∨ wn p z = w + 1 := by
  obtain ⟨Q, hQ⟩ := trace_nonempty hp
  set f : ℝ → ℝ × ℝ := fun u => (z.1 + u * (Q.1 - z.1), z.2 + u * (Q.2 - z.2)) with hf
  have hfc : Continuous f := by rw [hf]; fun_prop
  have hf0 : f 0 = z := by simp [hf]
  have hf1 : f 1 = Q := by simp [hf]
  have hcl : IsCompact (Set.Icc 0 1 ∩ f ⁻¹' trace p) := isCompact_Icc.inter_right ((trace_isCompact hp).isClosed.preimage hfc)
  obtain ⟨u, ⟨⟨u0, u1⟩, hu⟩, hmin⟩ := hcl.exists_isLeast ⟨1, ⟨zero_le_one, le_rfl⟩, by rw [Set.mem_preimage, hf1]; exact hQ⟩
  have u0 : 0 < u := by
    rcases lt_or_eq_of_le u0 with h | h
    · exact h
    · rw [← h, Set.mem_preimage, hf0] at hu; exact absurd hu hz
  have hoff : ∀ v, 0 ≤ v → v < u → f v ∉ trace p := fun v v0 v1 hon => by
    have := hmin ⟨⟨v0, by linarith⟩, hon⟩
    linarith
  have hev : ∀ᶠ v in 𝓝 u, f v ∉ trace p → wn p (f v) = w ∨ wn p (f v) = w + 1 := hfc.continuousAt.eventually (near_any hp hs hw hu)
  obtain ⟨v, hv, v0, v1⟩ := ((hev.filter_mono nhdsWithin_le_nhds).and (Ioo_mem_nhdsLT u0)).exists
  have hc : wn p z = wn p (f v) := by
    rw [← hf0]
    refine wn_const hp ((isPreconnected_Ico (a := 0) (b := u)).image _ hfc.continuousOn) ?_ (Set.mem_image_of_mem _ ⟨le_rfl, u0⟩) (Set.mem_image_of_mem _ ⟨v0.le, v1⟩)
    rw [Set.disjoint_left]
    rintro _ ⟨t, ⟨t0, t1⟩, rfl⟩
    exact hoff t t0 t1
  rw [hc]
  exact hv (hoff v v0.le v1)

/-- **The two winding numbers** of a closed polyline that does not touch itself. -/
theorem two_numbers : ∃ w : ℤ, (w = 0 ∨ w = -1) ∧ (∀ i < p.verts.length, ∀ t, 0 < t → t < 1 → SidesAt p i w (sgPt p i t)) ∧
    ∀ z, z ∉ trace p → wn p z = w ∨ wn p z = w + 1 := by
  obtain ⟨w, hw⟩ := sides_all hp hs
  refine ⟨w, ?_, hw, fun z hz => two_everywhere hp hs hw hz⟩
  obtain ⟨x, hx⟩ := right_of (ps := [p]) (by simpa using hp)
  have h0 := right_zero hp (X := ⟨x, 0⟩) fun z hz => hx p (by simp) z hz
  have := two_everywhere hp hs hw (z := (x, 0)) fun hon => absurd (hx p (by simp) _ hon) (lt_irrefl _)
  change wn p (x, 0) = 0 at h0
  rw [h0] at this
  rcases this with h | h
  · exact Or.inl h.symm
  · exact Or.inr (by linarith)

/-- A little to the left and a little to the right of a point inside a segment. -/
theorem sides_normal {i : Nat} (hi : i < p.verts.length) {t a b : ℝ} {w : ℤ} (hx : HasDerivAt (fun t => (segCurve (vtx p i) (vtx p (i + 1)) t).x) a t)
    (hy : HasDerivAt (fun t => (segCurve (vtx p i) (vtx p (i + 1)) t).y) b t) (h : SidesAt p i w (sgPt p i t)) : ∀ᶠ u in 𝓝[>] (0 : ℝ),
      (¬ OnPline p ⟨(segCurve (vtx p i) (vtx p (i + 1)) t).x - u * b, (segCurve (vtx p i) (vtx p (i + 1)) t).y + u * a⟩ ∧
        p.windingNumber ⟨(segCurve (vtx p i) (vtx p (i + 1)) t).x - u * b, (segCurve (vtx p i) (vtx p (i + 1)) t).y + u * a⟩ = w + 1) ∧
      (¬ OnPline p ⟨(segCurve (vtx p i) (vtx p (i + 1)) t).x + u * b, (segCurve (vtx p i) (vtx p (i + 1)) t).y - u * a⟩ ∧
        p.windingNumber ⟨(segCurve (vtx p i) (vtx p (i + 1)) t).x + u * b, (segCurve (vtx p i) (vtx p (i + 1)) t).y - u * a⟩ = w) := by
  obtain ⟨g1, g2⟩ : (∀ᶠ u in 𝓝[>] (0 : ℝ), 0 < sideOf (sg p i) ((segCurve (vtx p i) (vtx p (i + 1)) t).x - u * b, (segCurve (vtx p i) (vtx p (i + 1)) t).y + u * a)) ∧
      ∀ᶠ u in 𝓝[>] (0 : ℝ), sideOf (sg p i) ((segCurve (vtx p i) (vtx p (i + 1)) t).x + u * b, (segCurve (vtx p i) (vtx p (i + 1)) t).y - u * a) < 0 :=
    side_normal (sg_proper hp hi) (sg_ne hp hs hi) t hx hy
  have c1 : Tendsto (fun u : ℝ => ((segCurve (vtx p i) (vtx p (i + 1)) t).x - u * b, (segCurve (vtx p i) (vtx p (i + 1)) t).y + u * a)) (𝓝[>] 0) (𝓝 (sgPt p i t)) := by
    have : ContinuousAt (fun u : ℝ => ((segCurve (vtx p i) (vtx p (i + 1)) t).x - u * b, (segCurve (vtx p i) (vtx p (i + 1)) t).y + u * a)) 0 := by fun_prop
    have h := this.tendsto
    simp only [zero_mul, add_zero, sub_zero] at h
    exact h.mono_left nhdsWithin_le_nhds
  have c2 : Tendsto (fun u : ℝ => ((segCurve (vtx p i) (vtx p (i + 1)) t).x + u * b, (segCurve (vtx p i) (vtx p (i + 1)) t).y - u * a)) (𝓝[>] 0) (𝓝 (sgPt p i t)) := by
    have : ContinuousAt (fun u : ℝ => ((segCurve (vtx p i) (vtx p (i + 1)) t).x + u * b, (segCurve (vtx p i) (vtx p (i + 1)) t).y - u * a)) 0 := by fun_prop
    have h := this.tendsto
    simp only [zero_mul, add_zero, sub_zero] at h
    exact h.mono_left nhdsWithin_le_nhds
  filter_upwards [g1, g2, c1.eventually h, c2.eventually h] with u k1 k2 k3 k4
  obtain ⟨o1, e1⟩ := k3 (ne_of_gt k1)
  obtain ⟨o2, e2⟩ := k4 (ne_of_lt k2)
  rw [if_pos k1] at e1
  rw [if_neg (not_lt.mpr (le_of_lt k2)), add_zero] at e2
  exact ⟨⟨o1, e1⟩, o2, e2⟩

theorem both_sides {i : Nat} (hi : i < p.verts.length) {t a b : ℝ} {w : ℤ} (hx : HasDerivAt (fun t => (segCurve (sg p i).1 (sg p i).2 t).x) a t)
    (hy : HasDerivAt (fun t => (segCurve (sg p i).1 (sg p i).2 t).y) b t) (h : SidesAt p i w (sgPt p i t)) : ∃ X Y : ℝ × ℝ,
      ¬ OnPline p ⟨X.1, X.2⟩ ∧ p.windingNumber ⟨X.1, X.2⟩ = w + 1 ∧ ¬ OnPline p ⟨Y.1, Y.2⟩ ∧ p.windingNumber ⟨Y.1, Y.2⟩ = w := by
  obtain ⟨u, ⟨h1, h2⟩, h3, h4⟩ := (sides_normal hp hs hi hx hy h).exists
  exact ⟨(_, _), (_, _), h1, h2, h3, h4⟩

end

end Cavc
