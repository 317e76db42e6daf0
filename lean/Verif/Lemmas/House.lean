import Verif.Lemmas.HalfDisc
import Verif.Lemmas.RoundSquareOffset

/-! # Example: a square with a half disc on top -/

set_option linter.unusedVariables false

namespace Cavc
open RealScalar Pline

/-- a rectangle with a half disc of the radius 8 around (8, 5) on top -/
noncomputable def house : Pline ℝ := ⟨[⟨0, 0, 0⟩, ⟨16, 0, 0⟩, ⟨16, 5, 1⟩, ⟨0, 5, 0⟩], true⟩

theorem ho_v0 : vtx house 0 = ⟨0, 0, 0⟩ := rfl
theorem ho_v1 : vtx house 1 = ⟨16, 0, 0⟩ := rfl
theorem ho_v2 : vtx house 2 = ⟨16, 5, 1⟩ := rfl
theorem ho_v3 : vtx house 3 = ⟨0, 5, 0⟩ := rfl
theorem ho_v4 : vtx house 4 = ⟨0, 0, 0⟩ := rfl
theorem ho_v5 : vtx house 5 = ⟨16, 0, 0⟩ := rfl

theorem ho_add (k : Nat) : vtx house (k + 4) = vtx house k := vtx_add house k

theorem four_cases {P : Nat → Prop} (h : ∀ k, P k → P (k + 4)) (h0 : P 0) (h1 : P 1) (h2 : P 2) (h3 : P 3) : ∀ k, P k
  | 0 => h0
  | 1 => h1
  | 2 => h2
  | 3 => h3
  | k + 4 => h k (four_cases h h0 h1 h2 h3 k)

theorem ho_arc : ¬ IsLine (vtx house 2) := by rw [ho_v2]; unfold IsLine; norm_num

theorem ho_full : FullLoop house (1 / 100000) := by
  refine ⟨rfl, by show 2 ≤ 4; norm_num, four_cases (fun k h => ?_) ⟨Or.inl (box4_line _ _), ?_⟩ ⟨Or.inl (box4_line _ _), ?_⟩ ⟨Or.inr ⟨ho_arc, ?_⟩, ?_⟩ ⟨Or.inl (box4_line _ _), ?_⟩⟩
  · rw [show k + 4 + 1 = k + 1 + 4 by omega, ho_add, ho_add]; exact h
  · rw [ho_v0, ho_v1]; apply far_fuzzy; left; simp only [Vertex.pos]; norm_num
  · rw [ho_v1, ho_v2]; apply far_fuzzy; right; simp only [Vertex.pos]; norm_num
  · rw [ho_v2]; norm_num
  · rw [ho_v2, ho_v3]; apply far_fuzzy; left; simp only [Vertex.pos]; norm_num
  · rw [ho_v3, ho_v4]; apply far_fuzzy; right; simp only [Vertex.pos]; norm_num

theorem ho_pos : cornerPos house 0 = ⟨0, 0⟩ ∧ cornerPos house 1 = ⟨16, 0⟩ ∧ cornerPos house 2 = ⟨16, 5⟩ ∧ cornerPos house 3 = ⟨0, 5⟩ ∧ cornerPos house 4 = ⟨0, 0⟩ ∧
    cornerPos house 5 = ⟨16, 0⟩ := ⟨rfl, rfl, rfl, rfl, rfl, rfl⟩

theorem ho_len : sideLen house 0 = 16 ∧ sideLen house 1 = 5 ∧ sideLen house 3 = 5 ∧ sideLen house 4 = 16 := by
  obtain ⟨p0, p1, p2, p3, p4, p5⟩ := ho_pos
  unfold sideLen
  simp only [Nat.reduceAdd, p0, p1, p2, p3, p4, p5]
  refine ⟨?_, ?_, ?_, ?_⟩ <;> apply edist_lit <;> norm_num

theorem ho_par0 : parAt house 3 0 = (⟨0, 3, 0⟩, ⟨16, 3, 0⟩) := by
  obtain ⟨p0, p1, p2, p3, p4, p5⟩ := ho_pos
  obtain ⟨l0, l1, l3, l4⟩ := ho_len
  unfold sideLen at l0
  rw [par_line (box4_line _ _)]
  unfold moved
  rw [l0, p0, p1]
  norm_num [Vertex.ofV2]

theorem ho_par1 : parAt house 3 1 = (⟨13, 0, 0⟩, ⟨13, 5, 0⟩) := by
  obtain ⟨p0, p1, p2, p3, p4, p5⟩ := ho_pos
  obtain ⟨l0, l1, l3, l4⟩ := ho_len
  unfold sideLen at l1
  rw [par_line (box4_line _ _)]
  unfold moved
  rw [l1, p1, p2]
  norm_num [Vertex.ofV2]

theorem ho_radius : arcRadius (⟨16, 5⟩ : V2 ℝ) ⟨0, 5⟩ 1 = 8 := by
  unfold arcRadius
  rw [edist_lit _ _ 16 (by norm_num) (by norm_num)]
  norm_num

theorem ho_par2 : parAt house 3 2 = (⟨13, 5, 1⟩, ⟨3, 5, 0⟩) := by
  unfold parAt parSeg
  rw [if_neg ho_arc, ho_v2, ho_v3]
  unfold offRadius Vertex.pos
  simp only [ho_radius]
  norm_num [arcCenter]

theorem ho_par3 : parAt house 3 3 = (⟨3, 5, 0⟩, ⟨3, 0, 0⟩) := by
  obtain ⟨p0, p1, p2, p3, p4, p5⟩ := ho_pos
  obtain ⟨l0, l1, l3, l4⟩ := ho_len
  unfold sideLen at l3
  rw [par_line (box4_line _ _)]
  unfold moved
  rw [l3, p3, p4]
  norm_num [Vertex.ofV2]

theorem ho_turn : turnSin (cornerPos house 0) (cornerPos house 1) (cornerPos house 2) = 1 ∧ turnCos (cornerPos house 0) (cornerPos house 1) (cornerPos house 2) = 0 ∧
    turnSin (cornerPos house 3) (cornerPos house 4) (cornerPos house 5) = 1 ∧ turnCos (cornerPos house 3) (cornerPos house 4) (cornerPos house 5) = 0 := by
  obtain ⟨p0, p1, p2, p3, p4, p5⟩ := ho_pos
  obtain ⟨l0, l1, l3, l4⟩ := ho_len
  unfold sideLen at l0 l1 l3 l4
  simp only [Nat.reduceAdd] at l0 l1 l3 l4
  unfold turnSin turnCos
  rw [l0, l1, l3, l4, p0, p1, p2, p3, p4, p5]
  norm_num

theorem ho_setback : setbackAt house 3 0 = 3 ∧ setbackAt house 3 3 = 3 := by
  obtain ⟨h1, h2, h3, h4⟩ := ho_turn
  unfold setbackAt setback
  simp only [Nat.reduceAdd]
  rw [h1, h2, h3, h4]; norm_num

theorem ho_clearTurn : ClearTurn house 3 (1 / 100000) 0 ∧ ClearTurn house 3 (1 / 100000) 3 := by
  obtain ⟨p0, p1, p2, p3, p4, p5⟩ := ho_pos
  obtain ⟨l0, l1, l3, l4⟩ := ho_len
  obtain ⟨s0, s3⟩ := ho_setback
  constructor <;> refine ⟨?_, Or.inr (Or.inl ?_), fun h => ?_⟩
  · simp only [Nat.reduceAdd, p0, p1, p2]; norm_num
  · rw [s0, l0, l1]; norm_num
  · rw [s0] at h; norm_num at h
  · simp only [Nat.reduceAdd, p3, p4, p5]; norm_num [abs_of_pos]
  · rw [s3, l3, l4]; norm_num
  · rw [s3] at h; norm_num at h

/-- the corners of the offset by 3 to the inside -/
noncomputable def hoIn : Nat → Corner
  | 0 => .cut (13 / 16) (3 / 5)
  | 3 => .cut (2 / 5) (3 / 16)
  | _ => .cut 1 0

theorem ho_enter : enterAt house hoIn 0 = 3 / 16 ∧ enterAt house hoIn 1 = 3 / 5 ∧ enterAt house hoIn 2 = 0 ∧ enterAt house hoIn 3 = 0 := ⟨rfl, rfl, rfl, rfl⟩
theorem ho_leave : leaveAt house hoIn 0 = 13 / 16 ∧ leaveAt house hoIn 1 = 1 ∧ leaveAt house hoIn 2 = 1 ∧ leaveAt house hoIn 3 = 2 / 5 := ⟨rfl, rfl, rfl, rfl⟩

theorem ho_curve (t : ℝ) : parCurve house 3 0 t = ⟨16 * t, 3⟩ ∧ parCurve house 3 1 t = ⟨13, 5 * t⟩ ∧
    parCurve house 3 2 t = ⟨8 + 5 * Real.cos (t * Real.pi), 5 + 5 * Real.sin (t * Real.pi)⟩ ∧ parCurve house 3 3 t = ⟨3, 5 - 5 * t⟩ := by
  unfold parCurve
  rw [ho_par0, ho_par1, ho_par2, ho_par3]
  refine ⟨?_, ?_, ?_, ?_⟩
  · rw [segCurve_line (box4_line _ _)]; simp only [linePoint, Vertex.pos, V2.mk.injEq]; constructor <;> ring
  · rw [segCurve_line (box4_line _ _)]; simp only [linePoint, Vertex.pos, V2.mk.injEq]; constructor <;> ring
  · rw [segCurve_arc (by unfold IsLine; norm_num)]
    unfold arcPoint
    have hc : arcCenter (⟨13, 5⟩ : V2 ℝ) ⟨3, 5⟩ 1 = ⟨8, 5⟩ := by unfold arcCenter; norm_num
    simp only [Vertex.pos, hc, Real.arctan_one, rotV, V2.mk.injEq]
    rw [show t * (4 * (Real.pi / 4)) = t * Real.pi by ring]
    constructor <;> ring
  · rw [segCurve_line (box4_line _ _)]; simp only [linePoint, Vertex.pos, V2.mk.injEq]; constructor <;> ring

theorem ho_raw : rawWith house 3 hoIn = ⟨[⟨3, 3, 0⟩, ⟨13, 3, 0⟩, ⟨13, 5, 1⟩, ⟨3, 5, 0⟩], true⟩ := by
  have hv : (rawWith house 3 hoIn).verts = [partVertex (parAt house 3 0) (3 / 16) (13 / 16), partVertex (parAt house 3 1) (3 / 5) 1,
    partVertex (parAt house 3 2) 0 1, partVertex (parAt house 3 3) 0 (2 / 5)] := rfl
  have e : rawWith house 3 hoIn = ⟨(rawWith house 3 hoIn).verts, true⟩ := rfl
  rw [e, hv]
  unfold partVertex
  have c0 := (ho_curve (3 / 16)).1
  have c1 := (ho_curve (3 / 5)).2.1
  have c2 := (ho_curve 0).2.2.1
  have c3 := (ho_curve 0).2.2.2
  unfold parCurve at c0 c1 c2 c3
  rw [c0, c1, c2, c3, ho_par0, ho_par1, ho_par2, ho_par3]
  simp only [Real.arctan_zero, mul_zero, Real.tan_zero, sub_zero, one_mul, Real.tan_arctan, Vertex.ofV2]
  norm_num

theorem ho_center : segCenter (parAt house 3 2) = ⟨8, 5⟩ := by
  rw [ho_par2]; unfold segCenter arcCenter; norm_num [Vertex.pos]

theorem ho_rad : segRadius (parAt house 3 2) = 5 := by
  rw [ho_par2]
  unfold segRadius arcRadius
  rw [edist_lit _ _ 10 (by norm_num) (by norm_num [Vertex.pos])]
  norm_num

theorem ho_rvtx : vtx (rawWith house 3 hoIn) 0 = ⟨3, 3, 0⟩ ∧ vtx (rawWith house 3 hoIn) 1 = ⟨13, 3, 0⟩ ∧ vtx (rawWith house 3 hoIn) 2 = ⟨13, 5, 1⟩ ∧
    vtx (rawWith house 3 hoIn) 3 = ⟨3, 5, 0⟩ ∧ vtx (rawWith house 3 hoIn) 4 = ⟨3, 3, 0⟩ ∧ vtx (rawWith house 3 hoIn) 5 = ⟨13, 3, 0⟩ := by
  rw [ho_raw]; exact ⟨rfl, rfl, rfl, rfl, rfl, rfl⟩

theorem ho_rlen : (rawWith house 3 hoIn).verts.length = 4 := by rw [ho_raw]; rfl

theorem ho_rfull : FullLoop (rawWith house 3 hoIn) (1 / 100000) := by
  obtain ⟨v0, v1, v2, v3, v4, v5⟩ := ho_rvtx
  have va : ∀ k, vtx (rawWith house 3 hoIn) (k + 4) = vtx (rawWith house 3 hoIn) k := fun k => by
    have := vtx_add (rawWith house 3 hoIn) k
    rwa [ho_rlen] at this
  refine ⟨rfl, by rw [ho_rlen]; norm_num, four_cases (fun k h => ?_) ⟨Or.inl ?_, ?_⟩ ⟨Or.inl ?_, ?_⟩ ⟨Or.inr ⟨?_, ?_⟩, ?_⟩ ⟨Or.inl ?_, ?_⟩⟩
  · rw [show k + 4 + 1 = k + 1 + 4 by omega, va, va]; exact h
  · rw [v0]; exact box4_line _ _
  · rw [v0, v1]; apply far_fuzzy; left; simp only [Vertex.pos]; norm_num
  · rw [v1]; exact box4_line _ _
  · rw [v1, v2]; apply far_fuzzy; right; simp only [Vertex.pos]; norm_num
  · rw [v2]; unfold IsLine; norm_num
  · rw [v2]; norm_num
  · rw [v2, v3]; apply far_fuzzy; left; simp only [Vertex.pos]; norm_num
  · rw [v3]; exact box4_line _ _
  · rw [v3, v4]; apply far_fuzzy; right; simp only [Vertex.pos]; norm_num

theorem ho_touch {w : Vertex ℝ × Vertex ℝ} {x : ℝ} (hx : x = 3 ∨ x = 13) (h1 : w.1.pos.x = x) (h2 : w.2.pos.x = x) {t : ℝ} (ht : (linePoint w.1.pos w.2.pos t).y = 5) (V : V2 ℝ) :
    NearestOnLine w (parAt house 3 2) V (1 / 100000) t := by
  have hxx : ∀ s, (linePoint w.1.pos w.2.pos s).x = x := by
    intro s; unfold linePoint; dsimp only; rw [h1, h2]; ring
  refine .touch ?_ ?_
  · rw [ho_center, ho_rad]
    refine edist_eq_of_sq (by norm_num) ?_
    rw [hxx, ht]
    rcases hx with rfl | rfl <;> norm_num
  · intro s
    rw [ho_center, ho_rad]
    have := edist_sq (linePoint w.1.pos w.2.pos s) ⟨8, 5⟩
    rw [hxx] at this
    have hn := edist_nonneg (linePoint w.1.pos w.2.pos s) ⟨8, 5⟩
    rcases hx with rfl | rfl <;> dsimp only at this <;> nlinarith [sq_nonneg ((linePoint w.1.pos w.2.pos s).y - 5)]

theorem hoIn_clear : ClearOffset house 3 hoIn (1 / 100000) := by
  obtain ⟨e0, e1, e2, e3⟩ := ho_enter
  obtain ⟨l0, l1, l2, l3⟩ := ho_leave
  obtain ⟨s0, s3⟩ := ho_setback
  obtain ⟨n0, n1, n3, n4⟩ := ho_len
  have ea : ∀ k, enterAt house hoIn (k + 4) = enterAt house hoIn k := enterAt_add house hoIn (by show 0 < 4; norm_num)
  have la : ∀ k, leaveAt house hoIn (k + 4) = leaveAt house hoIn k := leaveAt_add house hoIn
  have pa : ∀ k, parAt house 3 (k + 4) = parAt house 3 k := parAt_add house 3
  have z0 := (ho_curve 0)
  have z1 := (ho_curve 1)
  refine ⟨ho_full, by norm_num, four_cases (fun k h => ?_) (Or.inl (box4_line _ _)) (Or.inl (box4_line _ _)) (Or.inr ?_) (Or.inl (box4_line _ _)), ?_, four_cases (fun k h => ?_) ?_ ?_ ?_ ?_, four_cases (fun k h => ?_) ?_ ?_ ?_ ?_,
    four_cases (fun k h => ?_) ?_ ?_ ?_ ?_, ho_rfull, ?_⟩
  · rw [show k + 4 + 1 = k + 1 + 4 by omega, ho_add, ho_add]; exact h
  · rw [ho_v2, ho_v3]; unfold offRadius Vertex.pos; simp only [ho_radius]; norm_num
  · intro k hk
    have hk : k < 4 := hk
    interval_cases k
    · have := ClearCorner.mitre (p := house) (d := 3) (eps := 1 / 100000) (k := 0) (box4_line _ _) (box4_line _ _) ho_clearTurn.1 (by unfold Mitred; rw [s0, n0, n1]; norm_num)
      rw [s0, n0, n1] at this
      norm_num at this ⊢
      exact this
    · refine .lineArcCut 1 0 (box4_line _ _) ho_arc (by rw [ho_par1]; norm_num [LineOk, Apart, Vertex.pos]) ?_ (by norm_num) le_rfl le_rfl (by norm_num) ?_
      · exact ho_touch (Or.inr rfl) (by rw [ho_par1]; rfl) (by rw [ho_par1]; rfl) (by rw [ho_par1]; norm_num [linePoint, Vertex.pos]) _
      · rw [z1.2.1, (ho_curve 0).2.2.1]; norm_num
    · refine .arcLineCut 1 0 ho_arc (box4_line _ _) (by rw [ho_par3]; norm_num [LineOk, Apart, Vertex.pos]) ?_ (by norm_num) le_rfl le_rfl (by norm_num) ?_
      · exact ho_touch (Or.inl rfl) (by rw [ho_par3]; rfl) (by rw [ho_par3]; rfl) (by rw [ho_par3]; norm_num [linePoint, Vertex.pos]) _
      · rw [z1.2.2.1, (ho_curve 0).2.2.2]; norm_num
    · have := ClearCorner.mitre (p := house) (d := 3) (eps := 1 / 100000) (k := 3) (box4_line _ _) (box4_line _ _) ho_clearTurn.2 (by unfold Mitred; rw [s3, n3, n4]; norm_num)
      rw [s3, n3, n4] at this
      norm_num at this ⊢
      exact this
  · rw [ea, la]; exact h
  · rw [e0, l0]; norm_num
  · rw [e1, l1]; norm_num
  · rw [e2, l2]; norm_num
  · rw [e3, l3]; norm_num
  · rw [ea, la, pa]; exact h
  · left; rw [ho_par0]; exact box4_line _ _
  · left; rw [ho_par1]; exact box4_line _ _
  · right; rw [ho_par2, e2, l2]; norm_num [Real.tan_arctan]
  · left; rw [ho_par3]; exact box4_line _ _
  · intro hl
    have := h (by rwa [ho_add] at hl)
    unfold parCurve at *
    rw [ea, pa]; exact this
  · intro h; exact absurd (box4_line _ _) h
  · intro h; exact absurd (box4_line _ _) h
  · intro _
    rw [e2, (ho_curve 0).2.2.1, ho_par2]
    constructor <;> apply far_fuzzy <;> left <;> norm_num [Vertex.pos]
  · intro h; exact absurd (box4_line _ _) h
  · rw [ho_par0, ho_rvtx.2.1]
    apply far_fuzzy; left; norm_num [Vertex.pos]

end Cavc
