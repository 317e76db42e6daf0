import Verif.Lemmas.OffsetArcsJoin
import Verif.Lemmas.OffsetParts

/-! # The points of the raw offset of a polyline with arcs, and their distance from the polyline -/

set_option linter.unusedVariables false

namespace Cavc
open RealScalar Pline

/-! ## Links stay within the disc around the corner -/

theorem chord_within {V P Q : V2 ℝ} {r t : ℝ} (hr : 0 ≤ r) (hP : edist P V ≤ r) (hQ : edist Q V ≤ r) (h0 : 0 ≤ t) (h1 : t ≤ 1) : edist (linePoint P Q t) V ≤ r := by
  have e1 := edist_sq P V
  have e2 := edist_sq Q V
  have e3 := edist_sq (linePoint P Q t) V
  have l1 : edist P V ^ 2 ≤ r ^ 2 := pow_le_pow_left₀ (edist_nonneg _ _) hP 2
  have l2 : edist Q V ^ 2 ≤ r ^ 2 := pow_le_pow_left₀ (edist_nonneg _ _) hQ 2
  have key : edist (linePoint P Q t) V ^ 2 = (1 - t) * edist P V ^ 2 + t * edist Q V ^ 2 - t * (1 - t) * ((P.x - Q.x) ^ 2 + (P.y - Q.y) ^ 2) := by
    rw [e1, e2, e3]; unfold linePoint; ring
  have n1 : 0 ≤ t * (1 - t) * ((P.x - Q.x) ^ 2 + (P.y - Q.y) ^ 2) := mul_nonneg (mul_nonneg h0 (by linarith)) (by positivity)
  have n2 := mul_le_mul_of_nonneg_left l1 (show 0 ≤ 1 - t by linarith)
  have n3 := mul_le_mul_of_nonneg_left l2 h0
  exact abs_le_of_sq_le_sq' (by nlinarith) hr |>.2

theorem rot_len {θ : ℝ} {u v : V2 ℝ} (hx : v.x = (rotV θ u).x) (hy : v.y = (rotV θ u).y) : v.x ^ 2 + v.y ^ 2 = u.x ^ 2 + u.y ^ 2 := by
  rw [hx, hy]
  simp only [rotV]
  linear_combination (u.x ^ 2 + u.y ^ 2) * Real.sin_sq_add_cos_sq θ

theorem tan_quarter {θ : ℝ} (hθ : |θ| ≤ Real.pi) : 4 * Real.arctan (Real.tan (θ / 4)) = θ := by
  have := Real.pi_pos
  obtain ⟨h1, h2⟩ := abs_le.mp hθ
  rw [Real.arctan_tan (by linarith) (by linarith)]
  ring

theorem arc_within {V P Q : V2 ℝ} {θ b t : ℝ} (hx : Q.x - V.x = (rotV θ ⟨P.x - V.x, P.y - V.y⟩).x) (hy : Q.y - V.y = (rotV θ ⟨P.x - V.x, P.y - V.y⟩).y)
    (hθ : |θ| ≤ Real.pi) (hb : b = Real.tan (θ / 4) ∨ b = -Real.tan (θ / 4)) (hb0 : b ≠ 0) (h0 : 0 ≤ t) (h1 : t ≤ 1) : edist (arcPoint P Q b t) V ≤ edist P V := by
  rcases hb with hb | hb
  · have e : θ = 4 * Real.arctan b := by rw [hb, tan_quarter hθ]
    have hc : arcCenter P Q b = V := by
      rw [e] at hx hy
      exact arcCenter_of_rot hb0 hx hy
    rw [← hc, arcPoint_edist P Q b t hb0]
    have := arcPoint_edist P Q b 0 hb0
    rw [show arcPoint P Q b 0 = P from by
      rw [V2.ext_iff']; unfold arcPoint; simp [rotV]] at this
    exact this.ge
  · have e : 4 * Real.arctan b = -θ := by rw [hb, Real.arctan_neg, mul_neg, tan_quarter hθ]
    set W : V2 ℝ := ⟨P.x + Q.x - V.x, P.y + Q.y - V.y⟩ with hW
    have hs := Real.sin_sq_add_cos_sq θ
    simp only [rotV] at hx hy
    have hc : arcCenter P Q b = W := by
      refine arcCenter_of_rot hb0 ?_ ?_
      · rw [e]
        simp only [rotV, hW, Real.cos_neg, Real.sin_neg]
        have : P.x - (P.x + Q.x - V.x) = -(Q.x - V.x) := by ring
        rw [this, show P.y - (P.y + Q.y - V.y) = -(Q.y - V.y) from by ring, hx, hy]
        linear_combination (P.x - V.x) * hs
      · rw [e]
        simp only [rotV, hW, Real.cos_neg, Real.sin_neg]
        have : P.x - (P.x + Q.x - V.x) = -(Q.x - V.x) := by ring
        rw [this, show P.y - (P.y + Q.y - V.y) = -(Q.y - V.y) from by ring, hx, hy]
        linear_combination (P.y - V.y) * hs
    have hX : arcPoint P Q b t = ⟨W.x + (rotV (t * -θ) ⟨P.x - W.x, P.y - W.y⟩).x, W.y + (rotV (t * -θ) ⟨P.x - W.x, P.y - W.y⟩).y⟩ := by
      unfold arcPoint
      rw [hc, e]
    have hsq : edist (arcPoint P Q b t) V ^ 2 = edist P V ^ 2 * (3 + 2 * Real.cos θ - 2 * Real.cos ((1 - t) * θ) - 2 * Real.cos (t * θ)) := by
      have c1 : Real.cos ((1 - t) * θ) = Real.cos θ * Real.cos (t * θ) + Real.sin θ * Real.sin (t * θ) := by
        rw [show (1 - t) * θ = θ - t * θ from by ring, Real.cos_sub]
      have hs' := Real.sin_sq_add_cos_sq (t * θ)
      rw [edist_sq, edist_sq, hX, c1]
      simp only [rotV, hW, mul_neg, Real.cos_neg, Real.sin_neg]
      obtain ⟨x, px⟩ : ∃ x, P.x = V.x + x := ⟨P.x - V.x, by ring⟩
      obtain ⟨y, py⟩ : ∃ y, P.y = V.y + y := ⟨P.y - V.y, by ring⟩
      have qx : Q.x = V.x + (x * Real.cos θ - y * Real.sin θ) := by rw [px, py] at hx; linarith
      have qy : Q.y = V.y + (x * Real.sin θ + y * Real.cos θ) := by rw [px, py] at hy; linarith
      rw [qx, qy, px, py]
      generalize Real.cos θ = C at *
      generalize Real.sin θ = S at *
      generalize Real.cos (t * θ) = c at *
      generalize Real.sin (t * θ) = s at *
      linear_combination (x ^ 2 + y ^ 2) * (1 + s ^ 2 + c ^ 2 - 2 * c) * hs + (x ^ 2 + y ^ 2) * hs'
    have hle : 3 + 2 * Real.cos θ - 2 * Real.cos ((1 - t) * θ) - 2 * Real.cos (t * θ) ≤ 1 := by
      have a1 : Real.cos θ = 2 * Real.cos (θ / 2) ^ 2 - 1 := by rw [← Real.cos_two_mul]; congr 1; ring
      have a2 : Real.cos ((1 - t) * θ) + Real.cos (t * θ) = 2 * Real.cos (θ / 2) * Real.cos ((1 - 2 * t) * (θ / 2)) := by
        rw [Real.cos_add_cos]; congr 2; congr 1 <;> ring
        congr 1; ring
      have pp := Real.pi_pos
      obtain ⟨b1, b2⟩ := abs_le.mp hθ
      have a3 : 0 ≤ Real.cos (θ / 2) := Real.cos_nonneg_of_neg_pi_div_two_le_of_le (by linarith) (by linarith)
      have a4 : Real.cos (θ / 2) ≤ Real.cos ((1 - 2 * t) * (θ / 2)) := by
        rw [← Real.cos_abs (θ / 2), ← Real.cos_abs ((1 - 2 * t) * (θ / 2))]
        apply Real.cos_le_cos_of_nonneg_of_le_pi (abs_nonneg _)
        · rw [abs_div]; rw [abs_of_pos (by norm_num : (0 : ℝ) < 2)]; linarith
        · rw [abs_mul]
          have : |1 - 2 * t| ≤ 1 := abs_le.mpr ⟨by linarith, by linarith⟩
          nlinarith [abs_nonneg (θ / 2)]
      nlinarith
    have : edist (arcPoint P Q b t) V ^ 2 ≤ edist P V ^ 2 := by
      rw [hsq]
      nlinarith [sq_nonneg (edist P V)]
    exact abs_le_of_sq_le_sq' this (edist_nonneg _ _) |>.2

/-! ## The points of the raw offset -/

theorem flat_path {α : Type} (V : Nat → α) (C : Nat → List α) (s : α × α) : ∀ n : Nat,
    s ∈ pathSegs ((List.range n).flatMap (fun k => V k :: C k) ++ [V n]) ↔ ∃ k < n, s ∈ pathSegs (V k :: C k ++ [V (k + 1)])
  | 0 => by simp [pathSegs]
  | n + 1 => by
    have e : (List.range (n + 1)).flatMap (fun k => V k :: C k) ++ [V (n + 1)] = (List.range n).flatMap (fun k => V k :: C k) ++ V n :: (C n ++ [V (n + 1)]) := by
      rw [List.range_succ, List.flatMap_append]; simp
    rw [e, pathSegs_join, List.mem_append, flat_path V C s n]
    constructor
    · rintro (⟨k, hk, h⟩ | h)
      · exact ⟨k, by omega, h⟩
      · exact ⟨n, by omega, h⟩
    · rintro ⟨k, hk, h⟩
      by_cases e : k = n
      · subst e; exact Or.inr h
      · exact Or.inl ⟨k, by omega, h⟩

section
variable {p : Pline ℝ} {d eps : ℝ} {c : Nat → Corner}

theorem raw_segs (hn : 0 < p.verts.length) (hf : FullLoop (rawWith p d c) eps) (s : Vertex ℝ × Vertex ℝ) :
    s ∈ (rawWith p d c).segs ↔ ∃ k < p.verts.length, s ∈ pathSegs (partAt p d c k :: linkVertex p d c k ++ [partAt p d c (k + 1)]) := by
  have h0 : partAt p d c p.verts.length = partAt p d c 0 := by have := partAt_add p d c hn 0; rwa [Nat.zero_add] at this
  obtain ⟨l, hl⟩ : ∃ l, (rawWith p d c).verts = partAt p d c 0 :: l := by
    rw [raw_verts]
    obtain ⟨m, hm⟩ : ∃ m, p.verts.length = m + 1 := ⟨p.verts.length - 1, by omega⟩
    rw [hm, List.range_succ_eq_map, List.flatMap_cons]
    exact ⟨_, rfl⟩
  have h2 := hf.two
  have hsg : (rawWith p d c).segs = pathSegs ((rawWith p d c).verts ++ [partAt p d c 0]) := by
    unfold Pline.segs
    cases l with
    | nil => rw [hl] at h2; simp at h2
    | cons w l => simp [hl, hf.closed]
  rw [hsg, raw_verts, ← h0]
  exact flat_path (partAt p d c) (linkVertex p d c) s p.verts.length

theorem onSeg_congr {a b b' : Vertex ℝ} {X : V2 ℝ} (h : b.pos = b'.pos) : OnSeg a b X ↔ OnSeg a b' X := by
  unfold OnSeg
  simp only [segCurve_congr (a := a) (a' := a) rfl rfl h]

theorem part_on (h : RunFacts p d eps c) {k : Nat} {z : Vertex ℝ} (hz : z.pos = segCurve (parAt p d k).1 (parAt p d k).2 (leaveAt p c k)) (X : V2 ℝ) :
    OnSeg (partAt p d c k) z X ↔ ∃ t, enterAt p c k ≤ t ∧ t ≤ leaveAt p c k ∧ X = parCurve p d k t := by
  have hlt := h.lt k
  have hcv := fun x => part_curve (h.seg k) (h.lo0 k) hlt (h.hi1 k) (h.long k) hz x
  constructor
  · rintro ⟨x, x0, x1, e⟩
    refine ⟨enterAt p c k + (leaveAt p c k - enterAt p c k) * x, ?_, ?_, ?_⟩
    · nlinarith
    · nlinarith
    · rw [e]; exact hcv x
  · rintro ⟨t, t0, t1, e⟩
    have hpos : 0 < leaveAt p c k - enterAt p c k := by linarith
    refine ⟨(t - enterAt p c k) / (leaveAt p c k - enterAt p c k), div_nonneg (by linarith) hpos.le, (div_le_one hpos).mpr (by linarith), ?_⟩
    rw [e]
    refine Eq.trans ?_ (hcv _).symm
    unfold parCurve
    congr 1
    field_simp
    ring

/-- The points of the raw offset: what is left of the parallel segments, and the links. -/
theorem raw_points (h : RunFacts p d eps c) (X : V2 ℝ) :
    OnPline (rawWith p d c) X ↔ (∃ k < p.verts.length, ∃ t, enterAt p c k ≤ t ∧ t ≤ leaveAt p c k ∧ X = parCurve p d k t) ∨
      ∃ k < p.verts.length, ∃ b, c k = .link b ∧ OnSeg (Vertex.ofV2 (parCurve p d k 1) b) (Vertex.ofV2 (parCurve p d (k + 1) 0) 0) X := by
  have hn : 0 < p.verts.length := by have := h.two; omega
  have hE : ∀ k, parCurve p d k 1 = (parAt p d k).2.pos := fun k => (segCurve_ends _ _).2
  have hlink : ∀ k < p.verts.length, ∀ b, c k = .link b → (partAt p d c (k + 1)).pos = parCurve p d (k + 1) 0 := by
    intro k hk b hb
    rw [partAt, partVertex_pos, enterAt_succ p c hk, hb]
    rfl
  unfold OnPline
  constructor
  · rintro ⟨s, hs, hX⟩
    obtain ⟨k, hk, hs⟩ := (raw_segs hn h.full s).mp hs
    obtain ⟨w, l, e, hw⟩ := next_pos h hk
    cases hc : c k with
    | cut t u =>
      rw [linkVertex_eq p d c hk, hc] at hs e
      simp only [List.nil_append, List.cons.injEq, List.cons_append] at e hs
      obtain ⟨rfl, rfl⟩ := e
      simp only [pathSegs, List.mem_singleton] at hs
      subst hs
      exact Or.inl ⟨k, hk, (part_on h hw X).mp hX⟩
    | link b =>
      rw [linkVertex_eq p d c hk, hc] at hs e
      simp only [List.nil_append, List.cons.injEq, List.cons_append] at e hs
      obtain ⟨rfl, rfl⟩ := e
      simp only [pathSegs, List.mem_cons, List.not_mem_nil, or_false] at hs
      rcases hs with rfl | rfl
      · exact Or.inl ⟨k, hk, (part_on h hw X).mp hX⟩
      · refine Or.inr ⟨k, hk, b, hc, ?_⟩
        rw [hE k]
        exact (onSeg_congr (hlink k hk b hc)).mp hX
  · rintro (⟨k, hk, hX⟩ | ⟨k, hk, b, hc, hX⟩)
    · obtain ⟨w, l, e, hw⟩ := next_pos h hk
      refine ⟨(partAt p d c k, w), (raw_segs hn h.full _).mpr ⟨k, hk, ?_⟩, (part_on h hw X).mpr hX⟩
      rw [List.cons_append, e]
      simp [pathSegs]
    · refine ⟨(Vertex.ofV2 (parAt p d k).2.pos b, partAt p d c (k + 1)), (raw_segs hn h.full _).mpr ⟨k, hk, ?_⟩, ?_⟩
      · rw [linkVertex_eq p d c hk, hc]
        simp [pathSegs]
      · rw [hE k] at hX
        exact (onSeg_congr (hlink k hk b hc)).mpr hX

/-! ## The distance -/

/-- The parallel segments are the segments moved to the left. -/
theorem par_moved_seg (he : 0 < eps) {k : Nat} (h : SegOk p d eps k) (t : ℝ) : MovedLeft (segCurve (vtx p k) (vtx p (k + 1))) d t (parCurve p d k t) := by
  have hne := h.ne he
  have hr := rawSeg_par d hne h.radius
  have hs : (⟨[vtx p k, vtx p (k + 1)], false⟩ : Pline ℝ).segs = [(vtx p k, vtx p (k + 1))] := rfl
  obtain ⟨r, hr', -, -, hm, -⟩ := (C42_raw_segs ⟨[vtx p k, vtx p (k + 1)], false⟩ d).2 0 (vtx p k, vtx p (k + 1)) (by rw [hs]; rfl) hne
  unfold createUntrimmedRawOffsetSegs at hr'
  rw [hs, List.map_cons, hr] at hr'
  simp only [List.getElem?_cons_zero, Option.some.injEq] at hr'
  subst hr'
  exact hm rfl t

theorem par_moved (he : 0 < eps) (h : ClearOffset p d c eps) (k : Nat) (t : ℝ) : MovedLeft (segCurve (vtx p k) (vtx p (k + 1))) d t (parCurve p d k t) :=
  par_moved_seg he (h.ok k) t

theorem vtx_on (hp : FullLoop p eps) (k : Nat) : OnPline p (cornerPos p k) := by
  have hn : 0 < p.verts.length := by have := hp.two; omega
  refine ⟨(vtx p (k % p.verts.length), vtx p (k % p.verts.length + 1)), ?_, 0, le_refl _, zero_le_one, ?_⟩
  · rw [segs_range hp.closed hp.two]
    exact List.mem_map.mpr ⟨k % p.verts.length, List.mem_range.mpr (Nat.mod_lt _ hn), rfl⟩
  · rw [(segCurve_ends _ _).1, vtx_mod]
    rfl

theorem side_on (hp : FullLoop p eps) (k : Nat) {t : ℝ} (h0 : 0 ≤ t) (h1 : t ≤ 1) : OnPline p (segCurve (vtx p k) (vtx p (k + 1)) t) := by
  have hn : 0 < p.verts.length := by have := hp.two; omega
  refine ⟨(vtx p (k % p.verts.length), vtx p (k % p.verts.length + 1)), ?_, t, h0, h1, ?_⟩
  · rw [segs_range hp.closed hp.two]
    exact List.mem_map.mpr ⟨k % p.verts.length, List.mem_range.mpr (Nat.mod_lt _ hn), rfl⟩
  · rw [vtx_mod, vtx_mod_succ]

theorem link_within_seg (he : 0 < eps) {k : Nat} (q0 : SegOk p d eps k) (q1 : SegOk p d eps (k + 1)) {b : ℝ} (hC : ClearCorner p d eps k (.link b)) {X : V2 ℝ}
    (hX : OnSeg (Vertex.ofV2 (parCurve p d k 1) b) (Vertex.ofV2 (parCurve p d (k + 1) 0) 0) X) : edist X (cornerPos p (k + 1)) ≤ |d| := by
  have hP : edist (parCurve p d k 1) (cornerPos p (k + 1)) = |d| := by
    have := (par_moved_seg he q0 1).edist
    rwa [(segCurve_ends _ _).2] at this
  have hQ : edist (parCurve p d (k + 1) 0) (cornerPos p (k + 1)) = |d| := by
    have := (par_moved_seg he q1 0).edist
    rwa [(segCurve_ends _ _).1] at this
  obtain ⟨t, t0, t1, rfl⟩ := hX
  by_cases hl : IsLine (Vertex.ofV2 (parCurve p d k 1) b)
  · rw [segCurve_line hl]
    exact chord_within (abs_nonneg d) hP.le hQ.le t0 t1
  · have hb0 : b ≠ 0 := by rintro rfl; apply hl; unfold IsLine Vertex.ofV2; norm_num
    rw [segCurve_arc hl]
    have hround : ∀ {θ : ℝ}, |θ| ≤ Real.pi → (parCurve p d (k + 1) 0).x - (cornerPos p (k + 1)).x = (rotV θ ⟨(parCurve p d k 1).x - (cornerPos p (k + 1)).x, (parCurve p d k 1).y - (cornerPos p (k + 1)).y⟩).x →
        (parCurve p d (k + 1) 0).y - (cornerPos p (k + 1)).y = (rotV θ ⟨(parCurve p d k 1).x - (cornerPos p (k + 1)).x, (parCurve p d k 1).y - (cornerPos p (k + 1)).y⟩).y →
        (b = Real.tan (θ / 4) ∨ b = -Real.tan (θ / 4)) → edist (arcPoint (parCurve p d k 1) (parCurve p d (k + 1) 0) b t) (cornerPos p (k + 1)) ≤ |d| := by
      intro θ hθ hx hy hbb
      rw [← hP]
      exact arc_within hx hy hθ hbb hb0 t0 t1
    have hR : Round (cornerPos p (k + 1)) (parAt p d k).2.pos (parAt p d (k + 1)).1.pos d b → edist (arcPoint (parCurve p d k 1) (parCurve p d (k + 1) 0) b t) (cornerPos p (k + 1)) ≤ |d| := by
      rintro ⟨θ, hθ, hx, hy, hbb⟩
      rw [← show parCurve p d k 1 = (parAt p d k).2.pos from (segCurve_ends _ _).2, ← show parCurve p d (k + 1) 0 = (parAt p d (k + 1)).1.pos from (segCurve_ends _ _).1] at hx hy
      refine hround hθ hx hy ?_
      have ha : Real.tan (|θ| / 4) = Real.tan (θ / 4) ∨ Real.tan (|θ| / 4) = -Real.tan (θ / 4) := by
        rcases abs_choice θ with e | e
        · left; rw [e]
        · right; rw [e, neg_div, Real.tan_neg]
      split_ifs at hbb
      · rcases ha with e | e
        · left; rw [hbb, e]
        · right; rw [hbb, e]
      · rcases ha with e | e
        · right; rw [hbb, e]
        · left; rw [hbb, e, neg_neg]
    cases hC with
    | round h1 h2 ht hm =>
      have hs := clear_turn_ne he q0 q1 ht
      have hrot := corner_rot (q0.ne he) (q1.ne he) hs d
      rw [V2.ext_iff'] at hrot
      obtain ⟨b1, b2⟩ := halfTurn_bounds (cornerPos p k) (cornerPos p (k + 1)) (cornerPos p (k + 2))
      refine hround (θ := 2 * halfTurn (cornerPos p k) (cornerPos p (k + 1)) (cornerPos p (k + 2))) (abs_le.mpr ⟨b1.le, b2.le⟩) ?_ ?_ (Or.inl ?_)
      · rw [curve_moved h1, curve_moved h2]; exact hrot.1
      · rw [curve_moved h1, curve_moved h2]; exact hrot.2
      · congr 1; ring
    | chord => exact absurd rfl hb0
    | lineArcRound _ _ _ _ _ hr => exact hR hr
    | lineArcChord => exact absurd rfl hb0
    | arcLineRound _ _ _ _ _ hr => exact hR hr
    | arcsRound _ _ _ _ hr => exact hR hr

theorem link_within (he : 0 < eps) (h : ClearOffset p d c eps) {k : Nat} (hk : k < p.verts.length) {b : ℝ} (hb : c k = .link b) {X : V2 ℝ}
    (hX : OnSeg (Vertex.ofV2 (parCurve p d k 1) b) (Vertex.ofV2 (parCurve p d (k + 1) 0) 0) X) : edist X (cornerPos p (k + 1)) ≤ |d| :=
  link_within_seg he (h.ok k) (h.ok (k + 1)) (hb ▸ h.corners k hk) hX

theorem raw_within (he : 0 < eps) (h : ClearOffset p d c eps) {X : V2 ℝ} (hX : OnPline (rawWith p d c) X) : ∃ Y, OnPline p Y ∧ edist X Y ≤ |d| := by
  have hf := run_facts he h
  rcases (raw_points hf X).mp hX with ⟨k, hk, t, t0, t1, rfl⟩ | ⟨k, hk, b, hb, hX⟩
  · exact ⟨_, side_on h.loop k (le_trans (hf.lo0 k) t0) (le_trans t1 (hf.hi1 k)), (par_moved he h k t).edist.le⟩
  · exact ⟨_, vtx_on h.loop (k + 1), link_within he h hk hb hX⟩

end

end Cavc
