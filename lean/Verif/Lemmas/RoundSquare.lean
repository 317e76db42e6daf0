import Verif.Lemmas.ChamferOffset
import Verif.Lemmas.TangentJoint

/-! # Example: a square, offset by 1 to the outside

The raw offset has an arc of a quarter circle at every corner, and does not cross itself. -/

set_option linter.unusedVariables false

namespace Cavc
open Pline

/-- A square. -/
def box4 : Pline ℝ := ⟨[⟨0, 0, 0⟩, ⟨4, 0, 0⟩, ⟨4, 4, 0⟩, ⟨0, 4, 0⟩], true⟩

/-- Bulge of a quarter circle -/
noncomputable def qb : ℝ := Real.tan (Real.pi / 4 / 2)

theorem qb_pos : 0 < qb := Real.tan_pos_of_pos_of_lt_pi_div_two (by positivity) (by linarith [Real.pi_pos])

theorem qb_eq : qb ^ 2 = 1 - 2 * qb := by
  have h := Real.tan_two_mul (x := Real.pi / 4 / 2)
  rw [show 2 * (Real.pi / 4 / 2) = Real.pi / 4 by ring, Real.tan_pi_div_four] at h
  change 1 = 2 * qb / (1 - qb ^ 2) at h
  by_cases h0 : 1 - qb ^ 2 = 0
  · rw [h0] at h; norm_num at h
  · field_simp at h; linarith

theorem qb_bounds : 2 / 5 < qb ∧ qb < 1 / 2 := by
  have h1 := qb_pos
  have h2 := qb_eq
  constructor <;> nlinarith

theorem qb_ratio : (1 - qb ^ 2) / (4 * qb) = 1 / 2 := by
  have h1 := qb_pos
  rw [qb_eq]; field_simp; ring

theorem qb_arc (x y : ℝ) : ¬ IsLine (⟨x, y, qb⟩ : Vertex ℝ) := by
  unfold IsLine
  have := qb_bounds
  rw [abs_of_pos qb_pos]
  norm_num
  linarith

theorem box4_vtx : vtx box4 0 = ⟨0, 0, 0⟩ ∧ vtx box4 1 = ⟨4, 0, 0⟩ ∧ vtx box4 2 = ⟨4, 4, 0⟩ ∧ vtx box4 3 = ⟨0, 4, 0⟩ ∧
    vtx box4 4 = ⟨0, 0, 0⟩ ∧ vtx box4 5 = ⟨4, 0, 0⟩ := ⟨rfl, rfl, rfl, rfl, rfl, rfl⟩

theorem box4_pos : cornerPos box4 0 = ⟨0, 0⟩ ∧ cornerPos box4 1 = ⟨4, 0⟩ ∧ cornerPos box4 2 = ⟨4, 4⟩ ∧ cornerPos box4 3 = ⟨0, 4⟩ ∧
    cornerPos box4 4 = ⟨0, 0⟩ ∧ cornerPos box4 5 = ⟨4, 0⟩ := ⟨rfl, rfl, rfl, rfl, rfl, rfl⟩

theorem box4_len : sideLen box4 0 = 4 ∧ sideLen box4 1 = 4 ∧ sideLen box4 2 = 4 ∧ sideLen box4 3 = 4 ∧ sideLen box4 4 = 4 := by
  obtain ⟨p0, p1, p2, p3, p4, p5⟩ := box4_pos
  unfold sideLen
  simp only [Nat.reduceAdd, p0, p1, p2, p3, p4, p5]
  refine ⟨?_, ?_, ?_, ?_, ?_⟩ <;> apply edist_lit <;> norm_num

theorem lt_four {P : Nat → Prop} (h0 : P 0) (h1 : P 1) (h2 : P 2) (h3 : P 3) (k : Nat) : P (k % 4) := by
  have : k % 4 < 4 := Nat.mod_lt _ (by norm_num)
  interval_cases k % 4 <;> assumption

theorem box4_straight : StraightLoop box4 := by
  obtain ⟨v0, v1, v2, v3, v4, v5⟩ := box4_vtx
  refine ⟨rfl, by decide, fun i => ?_, fun i => ?_⟩
  · rw [← vtx_mod]
    refine lt_four (P := fun k => IsLine (vtx box4 k)) ?_ ?_ ?_ ?_ i <;>
      simp only [v0, v1, v2, v3] <;> (unfold IsLine; norm_num)
  · rw [← vtx_mod, ← vtx_mod_succ]
    refine lt_four (P := fun k => (vtx box4 k).pos ≠ (vtx box4 (k + 1)).pos) ?_ ?_ ?_ ?_ i <;>
      simp only [Nat.reduceAdd, v0, v1, v2, v3, v4, Vertex.pos, ne_eq, V2.ext_iff'] <;> norm_num

/-- every corner is a right turn by a quarter -/
theorem box4_turn (k : Nat) (hk : k < 4) : turnSin (cornerPos box4 k) (cornerPos box4 (k + 1)) (cornerPos box4 (k + 2)) = 1 ∧
    turnCos (cornerPos box4 k) (cornerPos box4 (k + 1)) (cornerPos box4 (k + 2)) = 0 := by
  obtain ⟨p0, p1, p2, p3, p4, p5⟩ := box4_pos
  obtain ⟨l0, l1, l2, l3, l4⟩ := box4_len
  unfold sideLen at l0 l1 l2 l3 l4
  simp only [Nat.reduceAdd, p0, p1, p2, p3, p4, p5] at l0 l1 l2 l3 l4
  unfold turnSin turnCos
  interval_cases k <;> simp only [Nat.reduceAdd, p0, p1, p2, p3, p4, p5, l0, l1, l2, l3, l4] <;> norm_num

theorem box4_half (k : Nat) (hk : k < 4) : halfTurn (cornerPos box4 k) (cornerPos box4 (k + 1)) (cornerPos box4 (k + 2)) = Real.pi / 4 := by
  obtain ⟨h1, h2⟩ := box4_turn k hk
  unfold halfTurn
  rw [h1, h2]; norm_num [Real.arctan_one]

theorem box4_setback (d : ℝ) (k : Nat) : setbackAt box4 d k = d := by
  rw [← setbackAt_congr (p := box4) (m := k % 4) (k := k) (Nat.mod_mod _ _)]
  obtain ⟨h1, h2⟩ := box4_turn (k % 4) (Nat.mod_lt _ (by norm_num))
  unfold setbackAt setback
  rw [h1, h2]; norm_num

theorem box4_clear (k : Nat) : ClearTurn box4 (-1) (1 / 100000) k := by
  obtain ⟨p0, p1, p2, p3, p4, p5⟩ := box4_pos
  apply clearTurn_congr (m := k % 4) (p := box4) (Nat.mod_mod _ _)
  refine lt_four (P := fun k => ClearTurn box4 (-1) (1 / 100000) k) ?_ ?_ ?_ ?_ k <;>
  · refine ⟨?_, ?_, ?_⟩
    · simp only [Nat.reduceAdd, p0, p1, p2, p3, p4, p5]; norm_num [abs_of_pos, abs_of_neg]
    · left; rw [box4_setback]; norm_num
    · intro h
      rw [box4_half _ (by norm_num)]
      change _ ≤ |qb|
      rw [abs_of_pos qb_pos]
      linarith [qb_bounds.1]

theorem box4_not_mitred (k : Nat) : ¬ Mitred box4 (-1) k := by
  unfold Mitred
  rw [box4_setback]; norm_num

theorem box4_parts : loopParts box4 (-1) = [.side 0, .corner 0, .side 1, .corner 1, .side 2, .corner 2, .side 3, .corner 3] := by
  unfold loopParts
  simp only [box4_not_mitred, if_false]
  rfl

theorem box4_raw : rawLoop box4 (-1) = ⟨[⟨0, -1, 0⟩, ⟨4, -1, qb⟩, ⟨5, 0, 0⟩, ⟨5, 4, qb⟩, ⟨4, 5, 0⟩, ⟨0, 5, qb⟩, ⟨-1, 4, 0⟩, ⟨-1, 0, qb⟩], true⟩ := by
  obtain ⟨p0, p1, p2, p3, p4, p5⟩ := box4_pos
  obtain ⟨l0, l1, l2, l3, l4⟩ := box4_len
  have hs : ∀ k, sideStart box4 (-1) k = 0 := by
    intro k
    unfold sideStart
    rw [if_neg (box4_not_mitred _)]
  have h0 := box4_half 0 (by norm_num)
  have h1 := box4_half 1 (by norm_num)
  have h2 := box4_half 2 (by norm_num)
  have h3 := box4_half 3 (by norm_num)
  unfold sideLen at l0 l1 l2 l3 l4
  simp only [Nat.reduceAdd, p0, p1, p2, p3, p4, p5] at l0 l1 l2 l3 l4 h0 h1 h2 h3
  unfold rawLoop
  rw [box4_parts]
  have hqb : Real.tan (Real.pi / 4 / 2) = qb := rfl
  simp only [List.map_cons, List.map_nil, RawPart.start, sidePt, hs, moved, Vertex.ofV2, Nat.reduceAdd, box4_setback, p0, p1, p2, p3, p4, p5, l0, l1, l2, l3, l4, h0, h1, h2, h3, hqb]
  norm_num

theorem box4_raw_vtx : vtx (rawLoop box4 (-1)) 0 = ⟨0, -1, 0⟩ ∧ vtx (rawLoop box4 (-1)) 1 = ⟨4, -1, qb⟩ ∧ vtx (rawLoop box4 (-1)) 2 = ⟨5, 0, 0⟩ ∧
    vtx (rawLoop box4 (-1)) 3 = ⟨5, 4, qb⟩ ∧ vtx (rawLoop box4 (-1)) 4 = ⟨4, 5, 0⟩ ∧ vtx (rawLoop box4 (-1)) 5 = ⟨0, 5, qb⟩ ∧
    vtx (rawLoop box4 (-1)) 6 = ⟨-1, 4, 0⟩ ∧ vtx (rawLoop box4 (-1)) 7 = ⟨-1, 0, qb⟩ ∧ vtx (rawLoop box4 (-1)) 8 = ⟨0, -1, 0⟩ ∧
    vtx (rawLoop box4 (-1)) 9 = ⟨4, -1, qb⟩ := by
  rw [box4_raw]
  exact ⟨rfl, rfl, rfl, rfl, rfl, rfl, rfl, rfl, rfl, rfl⟩

theorem box4_len8 : (rawLoop box4 (-1)).verts.length = 8 := by rw [box4_raw]; rfl

theorem lt_eight {P : Nat → Prop} (h : ∀ k < 8, P k) (k : Nat) : P (k % 8) := h _ (Nat.mod_lt _ (by norm_num))

theorem box4_raw_full : FullLoop (rawLoop box4 (-1)) (1 / 100000) := by
  obtain ⟨v0, v1, v2, v3, v4, v5, v6, v7, v8, v9⟩ := box4_raw_vtx
  have hlen := box4_len8
  refine ⟨rfl, by rw [hlen]; norm_num, fun i => ?_⟩
  rw [← vtx_mod, ← vtx_mod_succ, hlen]
  refine lt_eight (P := fun k => FullSeg (vtx (rawLoop box4 (-1)) k) (vtx (rawLoop box4 (-1)) (k + 1)) (1 / 100000)) (fun k hk => ?_) i
  interval_cases k <;>
  · simp only [Nat.reduceAdd, v0, v1, v2, v3, v4, v5, v6, v7, v8]
    refine ⟨?_, FarApart.fuzzy ?_⟩
    · first
        | (left; unfold IsLine; norm_num; done)
        | (right; refine ⟨qb_arc _ _, ?_⟩; rw [abs_of_pos qb_pos]; linarith [qb_bounds.2])
    · unfold FarApart Vertex.pos
      norm_num [abs_of_pos, abs_of_neg]

theorem box4_first : (sidePt box4 (-1) 0 0).fuzzyEqEps (vtx (rawLoop box4 (-1)) 1).pos (1 / 100000) = false := by
  obtain ⟨v0, v1, -⟩ := box4_raw_vtx
  obtain ⟨p0, p1, -⟩ := box4_pos
  obtain ⟨l0, -⟩ := box4_len
  unfold sideLen at l0
  simp only [Nat.reduceAdd, p0, p1] at l0
  apply FarApart.fuzzy
  unfold FarApart sidePt moved
  simp only [Nat.reduceAdd, p0, p1, l0, v1, Vertex.pos]
  norm_num [abs_of_pos, abs_of_neg]

/-! ## The curve -/

/-- sine and cosine on the way along a quarter circle -/
noncomputable def qs (t : ℝ) : ℝ := Real.sin (t * (2 * (Real.pi / 4)))
noncomputable def qc (t : ℝ) : ℝ := Real.cos (t * (2 * (Real.pi / 4)))

theorem qs_qc (t : ℝ) : qs t ^ 2 + qc t ^ 2 = 1 := Real.sin_sq_add_cos_sq _

theorem q_bounds {t : ℝ} (t0 : 0 ≤ t) (t1 : t ≤ 1) : 0 ≤ qs t ∧ 0 ≤ qc t ∧ qs t ≤ 1 ∧ qc t ≤ 1 := by
  have hpi := Real.pi_pos
  refine ⟨Real.sin_nonneg_of_nonneg_of_le_pi (by positivity) (by nlinarith), Real.cos_nonneg_of_neg_pi_div_two_le_of_le (by nlinarith) (by nlinarith),
    Real.sin_le_one _, Real.cos_le_one _⟩

theorem qs_zero {t : ℝ} (t0 : 0 ≤ t) (t1 : t ≤ 1) (h : qs t = 0) : t = 0 := by
  have hpi := Real.pi_pos
  by_contra hne
  have : 0 < t := lt_of_le_of_ne t0 (Ne.symm hne)
  have := Real.sin_pos_of_pos_of_lt_pi (x := t * (2 * (Real.pi / 4))) (by positivity) (by nlinarith)
  unfold qs at h
  linarith

theorem qc_zero {t : ℝ} (t0 : 0 ≤ t) (t1 : t ≤ 1) (h : qc t = 0) : t = 1 := by
  have hpi := Real.pi_pos
  by_contra hne
  have : t < 1 := lt_of_le_of_ne t1 hne
  have := Real.cos_pos_of_mem_Ioo (x := t * (2 * (Real.pi / 4))) ⟨by nlinarith, by nlinarith⟩
  unfold qc at h
  linarith

theorem box4_curve (t : ℝ) : curveAt (rawLoop box4 (-1)) 0 t = ⟨4 * t, -1⟩ ∧ curveAt (rawLoop box4 (-1)) 1 t = ⟨4 + qs t, -qc t⟩ ∧
    curveAt (rawLoop box4 (-1)) 2 t = ⟨5, 4 * t⟩ ∧ curveAt (rawLoop box4 (-1)) 3 t = ⟨4 + qc t, 4 + qs t⟩ ∧
    curveAt (rawLoop box4 (-1)) 4 t = ⟨4 - 4 * t, 5⟩ ∧ curveAt (rawLoop box4 (-1)) 5 t = ⟨-qs t, 4 + qc t⟩ ∧
    curveAt (rawLoop box4 (-1)) 6 t = ⟨-1, 4 - 4 * t⟩ ∧ curveAt (rawLoop box4 (-1)) 7 t = ⟨-qc t, -qs t⟩ := by
  obtain ⟨p0, p1, p2, p3, p4, p5⟩ := box4_pos
  obtain ⟨l0, l1, l2, l3, l4⟩ := box4_len
  have hs : ∀ k, sideStart box4 (-1) k = 0 := by
    intro k
    unfold sideStart
    rw [if_neg (box4_not_mitred _)]
  have hend : ∀ k, sideEnd box4 (-1) k = 1 := by
    intro k
    unfold sideEnd
    rw [if_neg (box4_not_mitred _)]
  have hcv : ∀ (j : Nat) (q : RawPart), (loopParts box4 (-1))[j]? = some q → curveAt (rawLoop box4 (-1)) j t = q.curve box4 (-1) t := fun j q h =>
    rawLoop_curve box4_straight (by norm_num) (by norm_num : (0 : ℝ) < 1 / 100000) box4_clear h t
  have h0 := box4_half 0 (by norm_num)
  have h1 := box4_half 1 (by norm_num)
  have h2 := box4_half 2 (by norm_num)
  have h3 := box4_half 3 (by norm_num)
  unfold sideLen at l0 l1 l2 l3 l4
  simp only [Nat.reduceAdd, p0, p1, p2, p3, p4, p5] at l0 l1 l2 l3 l4 h0 h1 h2 h3
  rw [box4_parts] at hcv
  have e1 : Real.sin (t * (2 * (Real.pi / 4))) = qs t := rfl
  have e2 : Real.cos (t * (2 * (Real.pi / 4))) = qc t := rfl
  rw [hcv 0 _ rfl, hcv 1 _ rfl, hcv 2 _ rfl, hcv 3 _ rfl, hcv 4 _ rfl, hcv 5 _ rfl, hcv 6 _ rfl, hcv 7 _ rfl]
  simp only [RawPart.curve, sidePt, moved, cornerArc, rotV, hs, hend, box4_setback, Nat.reduceAdd, p0, p1, p2, p3, p4, p5, l0, l1, l2, l3, l4, h0, h1, h2, h3, e1, e2,
    show ((-1 : ℝ) < 0) = True by norm_num, if_true, V2.mk.injEq]
  refine ⟨⟨?_, ?_⟩, ⟨?_, ?_⟩, ⟨?_, ?_⟩, ⟨?_, ?_⟩, ⟨?_, ?_⟩, ⟨?_, ?_⟩, ⟨?_, ?_⟩, ?_, ?_⟩ <;> ring

theorem box4_crossing : SelfCrossing (rawLoop box4 (-1)) (1 / 100000) 1 [] := by
  have hcv := box4_curve
  refine ⟨by rw [box4_len8]; norm_num, by simp, by simp, ?_, by simp [bothCuts], by simp [bothCuts], by simp [bothCuts], by simp, by simp [bothCuts]⟩
  intro i t j u hij hj t0 t1 u0 u1 h
  rw [box4_len8] at hj ⊢
  obtain ⟨a0, a1, a2, a3, a4, a5, a6, a7⟩ := hcv t
  obtain ⟨b0, b1, b2, b3, b4, b5, b6, b7⟩ := hcv u
  obtain ⟨s0, c0, s1, c1⟩ := q_bounds t0 t1
  obtain ⟨s0', c0', s1', c1'⟩ := q_bounds u0 u1
  have hsc := qs_qc t
  have hsc' := qs_qc u
  have z1 := fun h => qs_zero t0 t1 h
  have z2 := fun h => qc_zero t0 t1 h
  have z3 := fun h => qs_zero u0 u1 h
  have z4 := fun h => qc_zero u0 u1 h
  have hi : i < 7 := by omega
  interval_cases i <;> interval_cases j <;> simp only [a0, a1, a2, a3, a4, a5, a6, a7, b0, b1, b2, b3, b4, b5, b6, b7, V2.mk.injEq] at h <;> obtain ⟨h1, h2⟩ := h <;> first
    | (exfalso; linarith)
    | (exfalso; nlinarith)
    | (left; exact ⟨rfl, by linarith, z3 (by nlinarith)⟩)
    | (left; exact ⟨rfl, z2 (by nlinarith), by linarith⟩)
    | (right; left; exact ⟨rfl, rfl, by nlinarith, z4 (by nlinarith)⟩)

theorem box4_line (x y : ℝ) : IsLine (⟨x, y, 0⟩ : Vertex ℝ) := by unfold IsLine; norm_num

/-- the circle of the arc around `c`: the chord is seen from `c` under a right angle -/
theorem quarter {c p q : V2 ℝ} {m : Vertex ℝ} (hc : q.x - c.x = -(p.y - c.y) ∧ q.y - c.y = p.x - c.x) (h1 : (p.x - c.x) ^ 2 + (p.y - c.y) ^ 2 = 1) {b : ℝ} :
    segCenter (⟨p.x, p.y, qb⟩, ⟨q.x, q.y, b⟩) = c ∧ segRadius (⟨p.x, p.y, qb⟩, ⟨q.x, q.y, b⟩) = 1 ∧ ProperArc (⟨p.x, p.y, qb⟩ : Vertex ℝ) ⟨q.x, q.y, b⟩ := by
  have hcen : segCenter (⟨p.x, p.y, qb⟩, ⟨q.x, q.y, b⟩) = c := by
    unfold segCenter arcCenter
    simp only [Vertex.pos, qb_ratio]
    rw [V2.ext_iff']
    constructor <;> dsimp only <;> linarith [hc.1, hc.2]
  have hne : (p.x, p.y) ≠ (q.x, q.y) := by
    intro h
    rw [Prod.mk.injEq] at h
    obtain ⟨e1, e2⟩ := hc
    rw [← h.1] at e1
    rw [← h.2] at e2
    nlinarith
  have hp : ProperArc (⟨p.x, p.y, qb⟩ : Vertex ℝ) ⟨q.x, q.y, b⟩ := by
    refine ⟨qb_arc _ _, ?_, ?_⟩
    · rw [abs_of_pos qb_pos]; linarith [qb_bounds.2]
    · intro h; apply hne
      rw [V2.ext_iff'] at h
      rw [Prod.mk.injEq]; exact h
  refine ⟨hcen, ?_, hp⟩
  have h0 : OnSeg (⟨p.x, p.y, qb⟩ : Vertex ℝ) ⟨q.x, q.y, b⟩ ⟨p.x, p.y⟩ := ⟨0, le_rfl, by norm_num, (segCurve_ends (⟨p.x, p.y, qb⟩ : Vertex ℝ) ⟨q.x, q.y, b⟩).1.symm⟩
  have h2 := onSeg_circle (a := (⟨p.x, p.y, qb⟩, ⟨q.x, q.y, b⟩)) hp h0
  rw [hcen] at h2
  rw [← show edist (⟨p.x, p.y⟩ : V2 ℝ) c = segRadius (⟨p.x, p.y, qb⟩, ⟨q.x, q.y, b⟩) from h2]
  apply edist_eq_of_sq (by norm_num)
  rw [h1]; norm_num

/-- a line that touches the circle in the end `J`, with length 4 -/
theorem box4_tangent {w a : Vertex ℝ × Vertex ℝ} {c J : V2 ℝ} (ha : ProperArc a.1 a.2) (hc : segCenter a = c) (hr : segRadius a = 1)
    (hJ : J = w.1.pos ∨ J = w.2.pos) (hJc : (J.x - c.x) ^ 2 + (J.y - c.y) ^ 2 = 1)
    (hline : LineOk w.1.pos w.2.pos (1 / 100000)) (hlen : (w.2.pos.x - w.1.pos.x) ^ 2 + (w.2.pos.y - w.1.pos.y) ^ 2 = 16)
    (hort : (w.2.pos.x - w.1.pos.x) * (J.x - c.x) + (w.2.pos.y - w.1.pos.y) * (J.y - c.y) = 0) : TangentAt w a (1 / 100000) J := by
  have hd : ∀ t, edist (linePoint w.1.pos w.2.pos t) c ^ 2 = 1 + edist (linePoint w.1.pos w.2.pos t) J ^ 2 := by
    intro t
    rw [edist_sq, edist_sq]
    unfold linePoint
    dsimp only
    rcases hJ with h | h <;> rw [h] at hJc hort ⊢
    · linear_combination hJc + 2 * t * hort
    · linear_combination hJc + 2 * (t - 1) * hort
  have hnn := fun t => edist_nonneg (linePoint w.1.pos w.2.pos t) c
  refine ⟨hline, ha, ?_, hJ, ?_, ?_⟩
  · rw [hc, hr]
    exact edist_eq_of_sq (by norm_num) (by rw [hJc]; norm_num)
  · intro t hne
    rw [hc, hr]
    have h1 : 0 < edist (linePoint w.1.pos w.2.pos t) J := by
      rcases (edist_nonneg (linePoint w.1.pos w.2.pos t) J).lt_or_eq with h | h
      · exact h
      · exact absurd (edist_zero h.symm.le) hne
    nlinarith [hd t, hnn t]
  · intro e hee hne
    rw [hc, hr]
    obtain ⟨t, rfl⟩ : ∃ t, e = linePoint w.1.pos w.2.pos t := by
      rcases hee with e | e
      · exact ⟨0, by rw [e]; simp [linePoint, Vertex.pos]⟩
      · exact ⟨1, by rw [e]; simp [linePoint, Vertex.pos]⟩
    have h16 : edist (linePoint w.1.pos w.2.pos t) J ^ 2 = 16 := by
      rw [edist_sq, ← hlen]
      rcases hJ with h | h <;> rcases hee with e | e <;> rw [e] at hne ⊢ <;> rw [h] at hne ⊢ <;> first
        | exact absurd rfl hne
        | ring
    have h17 := hd t
    rw [h16] at h17
    rw [le_abs]
    left
    nlinarith [hnn t]

/-- the box is inside these bounds -/
def BoxIn (b c : AABB ℝ) : Prop := c.minX ≤ b.minX ∧ c.minY ≤ b.minY ∧ b.maxX ≤ c.maxX ∧ b.maxY ≤ c.maxY

theorem boxIn_apart {b c b' c' : AABB ℝ} {e : ℝ} (h : BoxIn b c) (h' : BoxIn b' c')
    (hd : c.maxX + e < c'.minX ∨ c.maxY + e < c'.minY ∨ c'.maxX + e < c.minX ∨ c'.maxY + e < c.minY) : b.overlaps (b'.grow e) = false := by
  obtain ⟨h1, h2, h3, h4⟩ := h
  obtain ⟨g1, g2, g3, g4⟩ := h'
  rw [← Bool.not_eq_true]
  intro ho
  simp only [AABB.overlaps, AABB.grow, RealScalar.lt_eq, RealScalar.gt_eq, Bool.not_eq_true', Bool.or_eq_false_iff, decide_eq_false_iff_not, not_lt] at ho
  obtain ⟨⟨⟨o1, o2⟩, o3⟩, o4⟩ := ho
  rcases hd with hd | hd | hd | hd <;> linarith

theorem line_box (x y x' y' b' : ℝ) : segBox ((⟨x, y, 0⟩, ⟨x', y', b'⟩) : Vertex ℝ × Vertex ℝ) = ⟨min x x', min y y', max x x', max y y'⟩ := by
  unfold segBox segFastApproxBoundingBox
  rw [bulgeIsZero_true (box4_line x y)]
  simp [minMax_eq]

theorem arc_box {x y x' y' b' : ℝ} (hx : |x' - x| ≤ 1) (hy : |y' - y| ≤ 1) :
    BoxIn (segBox ((⟨x, y, qb⟩, ⟨x', y', b'⟩) : Vertex ℝ × Vertex ℝ)) ⟨min x x' - 1 / 4, min y y' - 1 / 4, max x x' + 1 / 4, max y y' + 1 / 4⟩ := by
  obtain ⟨b1, b2⟩ := qb_bounds
  unfold segBox segFastApproxBoundingBox
  rw [bulgeIsZero_false (qb_arc x y)]
  simp only [minMax_eq, RealScalar.min_eq, RealScalar.max_eq, RealScalar.two_eq, Bool.false_eq_true, if_false]
  rw [abs_le] at hx hy
  have m1 := min_le_left x x'
  have m2 := min_le_right x x'
  have m3 := min_le_left y y'
  have m4 := min_le_right y y'
  have m5 := le_max_left x x'
  have m6 := le_max_right x x'
  have m7 := le_max_left y y'
  have m8 := le_max_right y y'
  unfold BoxIn
  dsimp only
  refine ⟨le_min (by linarith) (le_min ?_ ?_), le_min (by linarith) (le_min ?_ ?_), max_le (by linarith) (max_le ?_ ?_), max_le (by linarith) (max_le ?_ ?_)⟩ <;> nlinarith

/-- bounds of the boxes of the segments -/
noncomputable def boxTable : Nat → AABB ℝ
  | 0 => ⟨0, -1, 4, -1⟩
  | 1 => ⟨15 / 4, -5 / 4, 21 / 4, 1 / 4⟩
  | 2 => ⟨5, 0, 5, 4⟩
  | 3 => ⟨15 / 4, 15 / 4, 21 / 4, 21 / 4⟩
  | 4 => ⟨0, 5, 4, 5⟩
  | 5 => ⟨-5 / 4, 15 / 4, 1 / 4, 21 / 4⟩
  | 6 => ⟨-1, 0, -1, 4⟩
  | _ => ⟨-5 / 4, -5 / 4, 1 / 4, 1 / 4⟩

theorem box4_boxes (k : Nat) (hk : k < 8) : BoxIn (segBox (vtx (rawLoop box4 (-1)) k, vtx (rawLoop box4 (-1)) (k + 1))) (boxTable k) := by
  obtain ⟨v0, v1, v2, v3, v4, v5, v6, v7, v8, v9⟩ := box4_raw_vtx
  have key : ∀ {b c c' : AABB ℝ}, BoxIn b c → c = c' → BoxIn b c' := fun h e => e ▸ h
  interval_cases k <;> simp only [Nat.reduceAdd, v0, v1, v2, v3, v4, v5, v6, v7, v8] <;> first
    | (rw [line_box]; norm_num [BoxIn, boxTable]; done)
    | (refine key (arc_box ?_ ?_) ?_
       · norm_num
       · norm_num
       · norm_num [boxTable])

theorem box4_finds : FindsSelf (rawLoop box4 (-1)) (1 / 100000) := by
  obtain ⟨v0, v1, v2, v3, v4, v5, v6, v7, v8, v9⟩ := box4_raw_vtx
  have hq1 := fun b => quarter (c := ⟨4, 0⟩) (p := ⟨4, -1⟩) (q := ⟨5, 0⟩) (m := ⟨0, 0, 0⟩) (b := b) (by norm_num) (by norm_num)
  have hq3 := fun b => quarter (c := ⟨4, 4⟩) (p := ⟨5, 4⟩) (q := ⟨4, 5⟩) (m := ⟨0, 0, 0⟩) (b := b) (by norm_num) (by norm_num)
  have hq5 := fun b => quarter (c := ⟨0, 4⟩) (p := ⟨0, 5⟩) (q := ⟨-1, 4⟩) (m := ⟨0, 0, 0⟩) (b := b) (by norm_num) (by norm_num)
  have hq7 := fun b => quarter (c := ⟨0, 0⟩) (p := ⟨-1, 0⟩) (q := ⟨0, -1⟩) (m := ⟨0, 0, 0⟩) (b := b) (by norm_num) (by norm_num)
  dsimp only at hq1 hq3 hq5 hq7
  constructor
  · intro i hi
    rw [box4_len8] at hi
    interval_cases i <;> simp only [Nat.reduceAdd, v0, v1, v2, v3, v4, v5, v6, v7, v8, v9]
    · exact corner_line_arc (by norm_num) (box4_line _ _) (box4_tangent (hq1 _).2.2 (hq1 _).1 (hq1 _).2.1 (Or.inr rfl) (by norm_num [Vertex.pos])
        (by norm_num [LineOk, Apart, Vertex.pos]) (by norm_num [Vertex.pos]) (by norm_num [Vertex.pos]))
    · exact corner_arc_line (by norm_num) (box4_line _ _) (box4_tangent (hq1 _).2.2 (hq1 _).1 (hq1 _).2.1 (Or.inl rfl) (by norm_num [Vertex.pos])
        (by norm_num [LineOk, Apart, Vertex.pos]) (by norm_num [Vertex.pos]) (by norm_num [Vertex.pos]))
    · exact corner_line_arc (by norm_num) (box4_line _ _) (box4_tangent (hq3 _).2.2 (hq3 _).1 (hq3 _).2.1 (Or.inr rfl) (by norm_num [Vertex.pos])
        (by norm_num [LineOk, Apart, Vertex.pos]) (by norm_num [Vertex.pos]) (by norm_num [Vertex.pos]))
    · exact corner_arc_line (by norm_num) (box4_line _ _) (box4_tangent (hq3 _).2.2 (hq3 _).1 (hq3 _).2.1 (Or.inl rfl) (by norm_num [Vertex.pos])
        (by norm_num [LineOk, Apart, Vertex.pos]) (by norm_num [Vertex.pos]) (by norm_num [Vertex.pos]))
    · exact corner_line_arc (by norm_num) (box4_line _ _) (box4_tangent (hq5 _).2.2 (hq5 _).1 (hq5 _).2.1 (Or.inr rfl) (by norm_num [Vertex.pos])
        (by norm_num [LineOk, Apart, Vertex.pos]) (by norm_num [Vertex.pos]) (by norm_num [Vertex.pos]))
    · exact corner_arc_line (by norm_num) (box4_line _ _) (box4_tangent (hq5 _).2.2 (hq5 _).1 (hq5 _).2.1 (Or.inl rfl) (by norm_num [Vertex.pos])
        (by norm_num [LineOk, Apart, Vertex.pos]) (by norm_num [Vertex.pos]) (by norm_num [Vertex.pos]))
    · exact corner_line_arc (by norm_num) (box4_line _ _) (box4_tangent (hq7 _).2.2 (hq7 _).1 (hq7 _).2.1 (Or.inr rfl) (by norm_num [Vertex.pos])
        (by norm_num [LineOk, Apart, Vertex.pos]) (by norm_num [Vertex.pos]) (by norm_num [Vertex.pos]))
    · exact corner_arc_line (by norm_num) (box4_line _ _) (box4_tangent (hq7 _).2.2 (hq7 _).1 (hq7 _).2.1 (Or.inl rfl) (by norm_num [Vertex.pos])
        (by norm_num [LineOk, Apart, Vertex.pos]) (by norm_num [Vertex.pos]) (by norm_num [Vertex.pos]))
  · intro i k hi hk hik h1 h2 hbox
    rw [box4_len8] at hi hk h1 h2
    exfalso
    have hb := box4_boxes
    have key := fun h => boxIn_apart (e := 1 / 100000) (hb k hk) (hb i hi) h
    unfold BoxesMeet at hbox
    rw [hbox] at key
    apply absurd key
    simp only [imp_false, not_not, Bool.true_eq_false]
    interval_cases i <;> interval_cases k <;> first
      | exact absurd rfl hik
      | exact absurd rfl h1
      | exact absurd rfl h2
      | norm_num [boxTable]

end Cavc
