import Verif.Lemmas.OffsetArcsNear

/-! # Example: a half disc -/

namespace Cavc
open RealScalar Pline

/-- the upper half of a disc with the radius 8 around (8, 0) -/
noncomputable def halfDisc : Pline ℝ := ⟨[⟨0, 0, 0⟩, ⟨16, 0, 1⟩], true⟩

theorem two_cases {P : Nat → Prop} (h : ∀ k, P k → P (k + 2)) (h0 : P 0) (h1 : P 1) : ∀ k, P k
  | 0 => h0
  | 1 => h1
  | k + 2 => h k (two_cases h h0 h1 k)

theorem hd_v0 : vtx halfDisc 0 = ⟨0, 0, 0⟩ := rfl
theorem hd_v1 : vtx halfDisc 1 = ⟨16, 0, 1⟩ := rfl
theorem hd_v2 : vtx halfDisc 2 = ⟨0, 0, 0⟩ := rfl

theorem hd_add (k : Nat) : vtx halfDisc (k + 2) = vtx halfDisc k := vtx_add halfDisc k

theorem far_fuzzy {a b : V2 ℝ} {eps : ℝ} (h : eps ≤ |a.x - b.x| ∨ eps ≤ |a.y - b.y|) : a.fuzzyEqEps b eps = false := by
  rw [apart_iff]; exact h

theorem hd_line : IsLine (vtx halfDisc 0) := by rw [hd_v0]; unfold IsLine; norm_num
theorem hd_arc : ¬ IsLine (vtx halfDisc 1) := by rw [hd_v1]; unfold IsLine; norm_num

theorem hd_full : FullLoop halfDisc (1 / 100000) := by
  refine ⟨rfl, le_refl _, two_cases (fun k h => ?_) ⟨Or.inl hd_line, ?_⟩ ⟨Or.inr ⟨hd_arc, ?_⟩, ?_⟩⟩
  · rw [show k + 2 + 1 = k + 1 + 2 by omega, hd_add, hd_add]; exact h
  · rw [hd_v0, hd_v1]; apply far_fuzzy; left; simp only [Vertex.pos]; norm_num
  · rw [hd_v1]; norm_num
  · rw [hd_v1, hd_v2]; apply far_fuzzy; left; simp only [Vertex.pos]; norm_num

theorem hd_par0 (d : ℝ) : parAt halfDisc d 0 = (⟨0, d, 0⟩, ⟨16, d, 0⟩) := by
  have he : edist (⟨0, 0⟩ : V2 ℝ) ⟨16, 0⟩ = 16 := by
    unfold edist
    rw [show ((0 : ℝ) - 16) ^ 2 + (0 - 0) ^ 2 = 16 ^ 2 by norm_num, Real.sqrt_sq (by norm_num)]
  rw [par_line hd_line]
  unfold cornerPos
  rw [hd_v0, hd_v1]
  unfold moved Vertex.pos Vertex.ofV2
  simp only [he]
  norm_num

theorem hd_radius : arcRadius (⟨16, 0⟩ : V2 ℝ) ⟨0, 0⟩ 1 = 8 := by
  unfold arcRadius edist
  rw [show ((16 : ℝ) - 0) ^ 2 + (0 - 0) ^ 2 = 16 ^ 2 by norm_num, Real.sqrt_sq (by norm_num)]
  norm_num

theorem hd_par1 (d : ℝ) : parAt halfDisc d 1 = (⟨16 - d, 0, 1⟩, ⟨d, 0, 0⟩) := by
  unfold parAt parSeg
  rw [if_neg hd_arc, hd_v1, hd_v2]
  unfold offRadius Vertex.pos
  simp only [hd_radius]
  norm_num [arcCenter]
  ring

theorem hd_curve0 (d t : ℝ) : parCurve halfDisc d 0 t = ⟨16 * t, d⟩ := by
  unfold parCurve
  rw [hd_par0, segCurve_line (by unfold IsLine; norm_num)]
  unfold linePoint Vertex.pos
  rw [V2.ext_iff']
  constructor <;> simp <;> ring

theorem hd_curve1 (d t : ℝ) : parCurve halfDisc d 1 t = ⟨8 + (8 - d) * Real.cos (t * Real.pi), (8 - d) * Real.sin (t * Real.pi)⟩ := by
  unfold parCurve
  rw [hd_par1, segCurve_arc (by unfold IsLine; norm_num)]
  unfold arcPoint arcCenter Vertex.pos rotV
  rw [V2.ext_iff', Real.arctan_one, show 4 * (Real.pi / 4) = Real.pi by ring]
  constructor
  · show (16 - d + d) / 2 - (1 - (1 : ℝ) ^ 2) / (4 * 1) * (0 - 0) + _ = _
    norm_num
    ring_nf
    simp
  · norm_num
    ring_nf
    simp

theorem hd_center (d : ℝ) : segCenter (parAt halfDisc d 1) = ⟨8, 0⟩ := by
  rw [hd_par1]
  unfold segCenter arcCenter Vertex.pos
  rw [V2.ext_iff']
  constructor <;> norm_num

theorem hd_rad {d : ℝ} (h : d ≤ 8) : segRadius (parAt halfDisc d 1) = 8 - d := by
  rw [hd_par1]
  unfold segRadius arcRadius edist Vertex.pos
  rw [show (16 - d - d) ^ 2 + ((0 : ℝ) - 0) ^ 2 = (16 - 2 * d) ^ 2 by ring, Real.sqrt_sq (by linarith)]
  norm_num
  ring

theorem hd_dist (d s : ℝ) (V : V2 ℝ) : edist (linePoint (parAt halfDisc d 0).1.pos (parAt halfDisc d 0).2.pos s) V = Real.sqrt ((16 * s - V.x) ^ 2 + (d - V.y) ^ 2) := by
  rw [hd_par0]
  unfold edist linePoint Vertex.pos
  congr 1
  simp only []
  ring

theorem hd_on {d : ℝ} (h : d ≤ 8) (s : ℝ) : OnCircle (segCenter (parAt halfDisc d 1)) (segRadius (parAt halfDisc d 1)) (linePoint (parAt halfDisc d 0).1.pos (parAt halfDisc d 0).2.pos s) ↔
    (16 * s - 8) ^ 2 + d ^ 2 = (8 - d) ^ 2 := by
  unfold OnCircle
  rw [hd_dist, hd_center, hd_rad h]
  have hn : 0 ≤ (16 * s - 8) ^ 2 + (d - 0) ^ 2 := by positivity
  constructor
  · intro e
    have := congrArg (· ^ 2) e
    simp only [Real.sq_sqrt hn] at this
    linarith
  · intro e
    show Real.sqrt ((16 * s - 8) ^ 2 + (d - 0) ^ 2) = _
    rw [sub_zero, e, Real.sqrt_sq (by linarith)]

theorem hd_lineOk (d : ℝ) : LineOk (parAt halfDisc d 0).1.pos (parAt halfDisc d 0).2.pos (1 / 100000) := by
  rw [hd_par0]
  unfold LineOk Apart Vertex.pos
  norm_num

/-! ## Inwards -/

/-- half of the angle between the axis and the corner of the result, as a part of the half circle -/
noncomputable def hdCut : ℝ := 2 * Real.arctan (1 / 3) / Real.pi

theorem hdCut_angle : hdCut * Real.pi = 2 * Real.arctan (1 / 3) := by
  unfold hdCut; field_simp

theorem hdCut_cos : Real.cos (hdCut * Real.pi) = 4 / 5 := by rw [hdCut_angle, cos_two_arctan]; norm_num
theorem hdCut_sin : Real.sin (hdCut * Real.pi) = 3 / 5 := by rw [hdCut_angle, sin_two_arctan]; norm_num

theorem hdCut_range : 0 < hdCut ∧ hdCut < 1 / 2 := by
  have h0 : 0 < Real.arctan (1 / 3) := Real.arctan_pos.mpr (by norm_num)
  have h1 : Real.arctan (1 / 3) < Real.pi / 4 := by rw [← Real.arctan_one]; exact Real.arctan_strictMono (by norm_num)
  have := Real.pi_pos
  unfold hdCut
  constructor
  · positivity
  · rw [div_lt_iff₀ this]; linarith

noncomputable def hdIn (k : Nat) : Corner := if k = 0 then .cut (3 / 4) hdCut else .cut (1 - hdCut) (1 / 4)

theorem hdIn_enter0 : enterAt halfDisc hdIn 0 = 1 / 4 := rfl
theorem hdIn_leave0 : leaveAt halfDisc hdIn 0 = 3 / 4 := rfl
theorem hdIn_enter1 : enterAt halfDisc hdIn 1 = hdCut := rfl
theorem hdIn_leave1 : leaveAt halfDisc hdIn 1 = 1 - hdCut := rfl

theorem hdIn_raw : rawWith halfDisc 3 hdIn = ⟨[⟨4, 3, 0⟩, ⟨12, 3, 1 / 2⟩], true⟩ := by
  have hv : (rawWith halfDisc 3 hdIn).verts = [partVertex (parAt halfDisc 3 0) (1 / 4) (3 / 4), partVertex (parAt halfDisc 3 1) hdCut (1 - hdCut)] := rfl
  have e : rawWith halfDisc 3 hdIn = ⟨(rawWith halfDisc 3 hdIn).verts, true⟩ := rfl
  rw [e, hv]
  unfold partVertex
  have c0 := hd_curve0 3 (1 / 4)
  have c1 := hd_curve1 3 hdCut
  unfold parCurve at c0 c1
  rw [c0, c1, hdCut_cos, hdCut_sin, hd_par0, hd_par1]
  simp only [Real.arctan_zero, mul_zero, Real.tan_zero, Real.arctan_one]
  have ht : Real.tan ((1 - hdCut - hdCut) * (Real.pi / 4)) = 1 / 2 := by
    have ha : (1 - hdCut - hdCut) * (Real.pi / 4) = Real.arctan (1 / 2) := by
      have h2 : (1 - hdCut - hdCut) * (Real.pi / 4) = Real.pi / 4 - Real.arctan (1 / 3) := by
        have := hdCut_angle; linear_combination (-1 / 2) * this
      have h3 := Real.arctan_add (x := 1 / 2) (y := 1 / 3) (by norm_num)
      norm_num at h3
      rw [h2]
      norm_num
      linarith
    rw [ha, Real.tan_arctan]
  rw [ht]
  unfold Vertex.ofV2
  norm_num

theorem hdIn_clear : ClearOffset halfDisc 3 hdIn (1 / 100000) := by
  obtain ⟨c0, c1⟩ := hdCut_range
  have hlen : halfDisc.verts.length = 2 := rfl
  have e0 : ∀ k, enterAt halfDisc hdIn (k + 2) = enterAt halfDisc hdIn k := enterAt_add halfDisc hdIn (by rw [hlen]; norm_num)
  have l0 : ∀ k, leaveAt halfDisc hdIn (k + 2) = leaveAt halfDisc hdIn k := leaveAt_add halfDisc hdIn
  have p0 : ∀ k, parAt halfDisc 3 (k + 2) = parAt halfDisc 3 k := parAt_add halfDisc 3
  have hmeet : parCurve halfDisc 3 0 (3 / 4) = parCurve halfDisc 3 1 hdCut := by
    rw [hd_curve0, hd_curve1, hdCut_cos, hdCut_sin]; norm_num
  have hmeet' : parCurve halfDisc 3 1 (1 - hdCut) = parCurve halfDisc 3 2 (1 / 4) := by
    have : parCurve halfDisc 3 2 (1 / 4) = parCurve halfDisc 3 0 (1 / 4) := by unfold parCurve; rw [p0 0]
    rw [this, hd_curve0, hd_curve1, show (1 - hdCut) * Real.pi = Real.pi - hdCut * Real.pi by ring, Real.cos_pi_sub, Real.sin_pi_sub, hdCut_cos, hdCut_sin]
    norm_num
  have hdeep : ∃ s, edist (linePoint (parAt halfDisc 3 0).1.pos (parAt halfDisc 3 0).2.pos s) (segCenter (parAt halfDisc 3 1)) + 1 / 100000 ≤ segRadius (parAt halfDisc 3 1) := by
    refine ⟨1 / 2, ?_⟩
    rw [hd_dist, hd_center, hd_rad (by norm_num), show (16 * (1 / 2) - (8 : ℝ)) ^ 2 + (3 - 0) ^ 2 = 3 ^ 2 by norm_num, Real.sqrt_sq (by norm_num)]
    norm_num
  have hroots : ∀ s, OnCircle (segCenter (parAt halfDisc 3 1)) (segRadius (parAt halfDisc 3 1)) (linePoint (parAt halfDisc 3 0).1.pos (parAt halfDisc 3 0).2.pos s) → s = 3 / 4 ∨ s = 1 / 4 := by
    intro s hs
    rw [hd_on (by norm_num)] at hs
    have : (s - 3 / 4) * (s - 1 / 4) = 0 := by linarith
    rcases mul_eq_zero.mp this with h | h
    · left; linarith
    · right; linarith
  refine ⟨hd_full, by norm_num, two_cases (fun k h => ?_) (Or.inl hd_line) (Or.inr ?_), ?_, two_cases (fun k h => ?_) ?_ ?_, two_cases (fun k h => ?_) ?_ ?_,
    two_cases (fun k h => ?_) ?_ ?_, ?_, ?_⟩
  · rw [show k + 2 + 1 = k + 1 + 2 by omega, hd_add, hd_add]; exact h
  · rw [hd_v1, hd_v2]; unfold offRadius Vertex.pos; simp only [hd_radius]; norm_num
  · intro k hk
    have hk : k < 2 := hk
    interval_cases k
    · refine .lineArcCut (3 / 4) hdCut hd_line hd_arc (hd_lineOk 3) (.two ((hd_on (by norm_num) _).mpr (by norm_num)) hdeep ?_) (by norm_num) (by norm_num) c0.le (by linarith) hmeet
      intro s hs hon
      rcases hroots s hon with rfl | rfl
      · exact absurd rfl hs
      · rw [hd_dist, hd_dist]
        apply Real.sqrt_lt_sqrt (by positivity)
        unfold cornerPos
        rw [hd_v1]
        norm_num [Vertex.pos]
    · have p2 : parAt halfDisc 3 (1 + 1) = parAt halfDisc 3 0 := p0 0
      refine .arcLineCut (1 - hdCut) (1 / 4) hd_arc (by rw [hd_v2]; exact hd_line) (by rw [p2]; exact hd_lineOk 3) ?_ (by linarith) (by linarith) (by norm_num) (by norm_num) hmeet'
      rw [p2]
      refine .two ((hd_on (by norm_num) _).mpr (by norm_num)) hdeep ?_
      intro s hs hon
      rcases hroots s hon with rfl | rfl
      · rw [hd_dist, hd_dist]
        apply Real.sqrt_lt_sqrt (by positivity)
        unfold cornerPos
        rw [hd_v2]
        norm_num [Vertex.pos]
      · exact absurd rfl hs
  · rw [e0, l0]; exact h
  · rw [hdIn_enter0, hdIn_leave0]; norm_num
  · rw [hdIn_enter1, hdIn_leave1]; linarith
  · rw [e0, l0, p0]; exact h
  · left; rw [hd_par0]; unfold IsLine; norm_num
  · right
    rw [hd_par1, hdIn_enter1, hdIn_leave1]
    have := congrArg Pline.verts hdIn_raw
    have hv : (rawWith halfDisc 3 hdIn).verts = [partVertex (parAt halfDisc 3 0) (1 / 4) (3 / 4), partVertex (parAt halfDisc 3 1) hdCut (1 - hdCut)] := rfl
    rw [hv] at this
    simp only [List.cons.injEq] at this
    have hb := congrArg Vertex.bulge this.2.1
    rw [hd_par1] at hb
    have hb' : Real.tan ((1 - hdCut - hdCut) * Real.arctan 1) = 1 / 2 := hb
    simp only [hb']
    norm_num
  · intro hl
    have := h (by rwa [hd_add] at hl)
    unfold parCurve at *
    rw [e0, p0]; exact this
  · intro h; exact absurd hd_line h
  · intro _
    rw [hdIn_enter1, hd_curve1, hdCut_cos, hdCut_sin, hd_par1]
    constructor <;> apply far_fuzzy <;> left <;> norm_num [Vertex.pos]
  · rw [hdIn_raw]
    have v0 : vtx (⟨[⟨4, 3, 0⟩, ⟨12, 3, 1 / 2⟩], true⟩ : Pline ℝ) 0 = ⟨4, 3, 0⟩ := rfl
    have v1 : vtx (⟨[⟨4, 3, 0⟩, ⟨12, 3, 1 / 2⟩], true⟩ : Pline ℝ) 1 = ⟨12, 3, 1 / 2⟩ := rfl
    have v2 : vtx (⟨[⟨4, 3, 0⟩, ⟨12, 3, 1 / 2⟩], true⟩ : Pline ℝ) 2 = ⟨4, 3, 0⟩ := rfl
    have va : ∀ k, vtx (⟨[⟨4, 3, 0⟩, ⟨12, 3, 1 / 2⟩], true⟩ : Pline ℝ) (k + 2) = vtx ⟨[⟨4, 3, 0⟩, ⟨12, 3, 1 / 2⟩], true⟩ k := fun k => vtx_add _ k
    refine ⟨rfl, le_refl _, two_cases (fun k h => ?_) ⟨Or.inl ?_, ?_⟩ ⟨Or.inr ⟨?_, ?_⟩, ?_⟩⟩
    · rw [show k + 2 + 1 = k + 1 + 2 by omega, va, va]; exact h
    · rw [v0]; unfold IsLine; norm_num
    · rw [v0, v1]; apply far_fuzzy; left; norm_num [Vertex.pos]
    · rw [v1]; unfold IsLine; norm_num [abs_of_pos]
    · rw [v1]; norm_num [abs_of_pos]
    · rw [v1, v2]; apply far_fuzzy; left; norm_num [Vertex.pos]
  · rw [hdIn_raw, hd_par0]
    have v1 : vtx (⟨[⟨4, 3, 0⟩, ⟨12, 3, 1 / 2⟩], true⟩ : Pline ℝ) 1 = ⟨12, 3, 1 / 2⟩ := rfl
    rw [v1]
    apply far_fuzzy; left; norm_num [Vertex.pos]

/-! ## Outwards -/

noncomputable def hdOut (_ : Nat) : Corner := .link (Real.tan (Real.pi / 8))

theorem hdOut_enter (k : Nat) : enterAt halfDisc hdOut k = 0 := rfl
theorem hdOut_leave (k : Nat) : leaveAt halfDisc hdOut k = 1 := rfl

theorem hdOut_raw : rawWith halfDisc (-3) hdOut = ⟨[⟨0, -3, 0⟩, ⟨16, -3, Real.tan (Real.pi / 8)⟩, ⟨19, 0, 1⟩, ⟨-3, 0, Real.tan (Real.pi / 8)⟩], true⟩ := by
  have hv : (rawWith halfDisc (-3) hdOut).verts = [partVertex (parAt halfDisc (-3) 0) 0 1, Vertex.ofV2 (parAt halfDisc (-3) 0).2.pos (Real.tan (Real.pi / 8)),
    partVertex (parAt halfDisc (-3) 1) 0 1, Vertex.ofV2 (parAt halfDisc (-3) 1).2.pos (Real.tan (Real.pi / 8))] := rfl
  have e : rawWith halfDisc (-3) hdOut = ⟨(rawWith halfDisc (-3) hdOut).verts, true⟩ := rfl
  rw [e, hv, partVertex_full, partVertex_full, hd_par0, hd_par1]
  unfold Vertex.ofV2 Vertex.pos
  norm_num

theorem eighth : 0 < Real.tan (Real.pi / 8) ∧ Real.tan (Real.pi / 8) ≤ 1 := by
  have := Real.pi_pos
  constructor
  · exact Real.tan_pos_of_pos_of_lt_pi_div_two (by linarith) (by linarith)
  · rw [← Real.tan_pi_div_four]
    exact (Real.tan_lt_tan_of_nonneg_of_lt_pi_div_two (by linarith) (by linarith) (by linarith)).le

theorem root_112 : 10 < Real.sqrt 112 ∧ Real.sqrt 112 < 11 ∧ Real.sqrt 112 ^ 2 = 112 :=
  ⟨by rw [Real.lt_sqrt (by norm_num)]; norm_num, by rw [Real.sqrt_lt' (by norm_num)]; norm_num, Real.sq_sqrt (by norm_num)⟩

theorem hdOut_clear : ClearOffset halfDisc (-3) hdOut (1 / 100000) := by
  obtain ⟨r0, r1, r2⟩ := root_112
  have hlen : halfDisc.verts.length = 2 := rfl
  have p0 : ∀ k, parAt halfDisc (-3) (k + 2) = parAt halfDisc (-3) k := parAt_add halfDisc (-3)
  have hdeep : ∃ s, edist (linePoint (parAt halfDisc (-3) 0).1.pos (parAt halfDisc (-3) 0).2.pos s) (segCenter (parAt halfDisc (-3) 1)) + 1 / 100000 ≤ segRadius (parAt halfDisc (-3) 1) := by
    refine ⟨1 / 2, ?_⟩
    rw [hd_dist, hd_center, hd_rad (by norm_num), show (16 * (1 / 2) - (8 : ℝ)) ^ 2 + (-3 - 0) ^ 2 = 3 ^ 2 by norm_num, Real.sqrt_sq (by norm_num)]
    norm_num
  have hroots : ∀ s, OnCircle (segCenter (parAt halfDisc (-3) 1)) (segRadius (parAt halfDisc (-3) 1)) (linePoint (parAt halfDisc (-3) 0).1.pos (parAt halfDisc (-3) 0).2.pos s) →
      s = (8 + Real.sqrt 112) / 16 ∨ s = (8 - Real.sqrt 112) / 16 := by
    intro s hs
    rw [hd_on (by norm_num)] at hs
    have : (s - (8 + Real.sqrt 112) / 16) * (s - (8 - Real.sqrt 112) / 16) = 0 := by linarith
    rcases mul_eq_zero.mp this with h | h
    · left; linarith
    · right; linarith
  have hround : ∀ {V P Q : V2 ℝ}, Q.x - V.x = -(P.y - V.y) → Q.y - V.y = P.x - V.x → Round V P Q (-3) (Real.tan (Real.pi / 8)) := by
    intro V P Q h1 h2
    refine ⟨Real.pi / 2, ?_, ?_, ?_, ?_⟩
    · rw [abs_of_pos (by positivity)]; linarith [Real.pi_pos]
    · simp only [rotV, Real.cos_pi_div_two, Real.sin_pi_div_two]; linarith
    · simp only [rotV, Real.cos_pi_div_two, Real.sin_pi_div_two]; linarith
    · rw [if_pos (by norm_num), abs_of_pos (by positivity)]
      congr 1; ring
  refine ⟨hd_full, by norm_num, two_cases (fun k h => ?_) (Or.inl hd_line) (Or.inr ?_), ?_, fun k => ?_, fun k => ?_, two_cases (fun k h => ?_) ?_ ?_, ?_, ?_⟩
  · rw [show k + 2 + 1 = k + 1 + 2 by omega, hd_add, hd_add]; exact h
  · rw [hd_v1, hd_v2]; unfold offRadius Vertex.pos; simp only [hd_radius]; norm_num
  · intro k hk
    have hk : k < 2 := hk
    interval_cases k
    · refine .lineArcRound _ hd_line hd_arc (hd_lineOk _) (Or.inr ⟨(8 + Real.sqrt 112) / 16, .two ((hd_on (by norm_num) _).mpr ?_) hdeep ?_, by linarith, ?_, ?_⟩) ?_
      · linarith
      · intro s hs hon
        rcases hroots s hon with rfl | rfl
        · exact absurd rfl hs
        · rw [hd_dist, hd_dist]
          apply Real.sqrt_lt_sqrt (by positivity)
          unfold cornerPos
          rw [hd_v1]
          norm_num [Vertex.pos]
          nlinarith
      · intro x hx
        rintro ⟨-, h2⟩
        have hc := hd_center (-3)
        unfold segCenter at hc
        rw [hc, hd_curve0] at h2
        rw [hd_par1] at hx
        revert h2
        rcases hx with rfl | rfl <;> norm_num [cross, Vertex.pos, abs_of_pos, abs_of_neg]
      · rintro ⟨t, t0, t1, e⟩
        change parCurve halfDisc (-3) 0 _ = parCurve halfDisc (-3) 1 t at e
        rw [hd_curve0, hd_curve1, V2.ext_iff'] at e
        have hs : 0 ≤ Real.sin (t * Real.pi) := Real.sin_nonneg_of_nonneg_of_le_pi (by have := Real.pi_pos; positivity) (by have := Real.pi_pos; nlinarith)
        have := e.2
        simp only at this
        nlinarith
      · apply hround <;> (rw [hd_par0, hd_par1]; unfold cornerPos; rw [hd_v1]; norm_num [Vertex.pos])
    · have p2 : parAt halfDisc (-3) (1 + 1) = parAt halfDisc (-3) 0 := p0 0
      refine .arcLineRound _ hd_arc (by rw [hd_v2]; exact hd_line) (by rw [p2]; exact hd_lineOk _) (Or.inr ⟨(8 - Real.sqrt 112) / 16, ?_, Or.inl (by linarith)⟩) ?_
      · rw [p2]
        refine .two ((hd_on (by norm_num) _).mpr (by linarith)) hdeep ?_
        intro s hs hon
        rcases hroots s hon with rfl | rfl
        · rw [hd_dist, hd_dist]
          apply Real.sqrt_lt_sqrt (by positivity)
          unfold cornerPos
          rw [hd_v2]
          norm_num [Vertex.pos]
          nlinarith
        · exact absurd rfl hs
      · rw [p2]
        apply hround <;> (rw [hd_par0, hd_par1]; unfold cornerPos; rw [hd_v2]; norm_num [Vertex.pos])
  · rw [hdOut_enter, hdOut_leave]; norm_num
  · rw [hdOut_enter, hdOut_leave]
    revert k
    refine two_cases (fun k h => ?_) ?_ ?_
    · rw [p0]; exact h
    · left; rw [hd_par0]; unfold IsLine; norm_num
    · right; rw [hd_par1]
      norm_num [Real.tan_arctan]
  · intro hl
    have := h (by rwa [hd_add] at hl)
    unfold parCurve at *
    rw [p0]; exact this
  · intro h; exact absurd hd_line h
  · intro _
    rw [hdOut_enter, hd_curve1, hd_par1]
    constructor <;> apply far_fuzzy <;> left <;> norm_num [Vertex.pos]
  · rw [hdOut_raw]
    set R : Pline ℝ := ⟨[⟨0, -3, 0⟩, ⟨16, -3, Real.tan (Real.pi / 8)⟩, ⟨19, 0, 1⟩, ⟨-3, 0, Real.tan (Real.pi / 8)⟩], true⟩ with hR
    obtain ⟨g0, g1⟩ := eighth
    have hsh : ∀ x y, IsLine ⟨x, y, Real.tan (Real.pi / 8)⟩ ∨ (¬ IsLine ⟨x, y, Real.tan (Real.pi / 8)⟩ ∧ |Real.tan (Real.pi / 8)| ≤ 1) := by
      intro x y
      by_cases h : IsLine ⟨x, y, Real.tan (Real.pi / 8)⟩
      · exact Or.inl h
      · exact Or.inr ⟨h, by rw [abs_of_pos g0]; exact g1⟩
    have v0 : vtx R 0 = ⟨0, -3, 0⟩ := rfl
    have v1 : vtx R 1 = ⟨16, -3, Real.tan (Real.pi / 8)⟩ := rfl
    have v2 : vtx R 2 = ⟨19, 0, 1⟩ := rfl
    have v3 : vtx R 3 = ⟨-3, 0, Real.tan (Real.pi / 8)⟩ := rfl
    have va : ∀ k, vtx R (k + 4) = vtx R k := fun k => vtx_add _ k
    have v4 : vtx R 4 = ⟨0, -3, 0⟩ := (va 0).trans v0
    have h4 : ∀ k, FullSeg (vtx R k) (vtx R (k + 1)) (1 / 100000) → FullSeg (vtx R (k + 4)) (vtx R (k + 4 + 1)) (1 / 100000) := by
      intro k h
      rw [show k + 4 + 1 = k + 1 + 4 by omega, va, va]; exact h
    have hall : ∀ k, FullSeg (vtx R k) (vtx R (k + 1)) (1 / 100000) := by
      intro k
      induction k using Nat.strong_induction_on with
      | _ k ih =>
        by_cases h : k < 4
        · interval_cases k
          · refine ⟨Or.inl ?_, ?_⟩
            · rw [v0]; unfold IsLine; norm_num
            · rw [v0, v1]; apply far_fuzzy; left; norm_num [Vertex.pos]
          · refine ⟨by rw [v1]; exact hsh _ _, ?_⟩
            rw [v1, v2]; apply far_fuzzy; left; norm_num [Vertex.pos]
          · refine ⟨Or.inr ?_, ?_⟩
            · rw [v2]; unfold IsLine; norm_num
            · rw [v2, v3]; apply far_fuzzy; left; norm_num [Vertex.pos]
          · refine ⟨by rw [v3]; exact hsh _ _, ?_⟩
            rw [v3, v4]; apply far_fuzzy; left; norm_num [Vertex.pos]
        · obtain ⟨j, rfl⟩ : ∃ j, k = j + 4 := ⟨k - 4, by omega⟩
          exact h4 j (ih j (by omega))
    exact ⟨rfl, by show 2 ≤ 4; norm_num, hall⟩
  · rw [hdOut_raw, hd_par0]
    have v1 : vtx (⟨[⟨0, -3, 0⟩, ⟨16, -3, Real.tan (Real.pi / 8)⟩, ⟨19, 0, 1⟩, ⟨-3, 0, Real.tan (Real.pi / 8)⟩], true⟩ : Pline ℝ) 1 = ⟨16, -3, Real.tan (Real.pi / 8)⟩ := rfl
    rw [v1]
    apply far_fuzzy; left; norm_num [Vertex.pos]

end Cavc
