import Verif.Lemmas.IsletSingle

/-! # Example: clockwise triangles with sides 3 k, 4 k and 5 k, offset to the inside -/

set_option linter.unusedVariables false

namespace Cavc
open Pline RealScalar

/-- A right-angled triangle, clockwise; the inscribed circle has the radius `k` and the center 0. -/
def wedge (k : ℝ) : Pline ℝ := ⟨[⟨-k, -k, 0⟩, ⟨-k, 2 * k, 0⟩, ⟨3 * k, -k, 0⟩], true⟩

theorem wedge_vtx (k : ℝ) : vtx (wedge k) 0 = ⟨-k, -k, 0⟩ ∧ vtx (wedge k) 1 = ⟨-k, 2 * k, 0⟩ ∧ vtx (wedge k) 2 = ⟨3 * k, -k, 0⟩ ∧ vtx (wedge k) 3 = ⟨-k, -k, 0⟩ ∧ vtx (wedge k) 4 = ⟨-k, 2 * k, 0⟩ := by
  have hl : (wedge k).verts.length = 3 := rfl
  unfold vtx cycAt
  rw [hl]
  exact ⟨rfl, rfl, rfl, rfl, rfl⟩

theorem wedge_pos (k : ℝ) : cornerPos (wedge k) 0 = ⟨-k, -k⟩ ∧ cornerPos (wedge k) 1 = ⟨-k, 2 * k⟩ ∧ cornerPos (wedge k) 2 = ⟨3 * k, -k⟩ ∧ cornerPos (wedge k) 3 = ⟨-k, -k⟩ ∧
    cornerPos (wedge k) 4 = ⟨-k, 2 * k⟩ := by
  obtain ⟨v0, v1, v2, v3, v4⟩ := wedge_vtx k
  unfold cornerPos
  rw [v0, v1, v2, v3, v4]
  exact ⟨rfl, rfl, rfl, rfl, rfl⟩

section
variable {k d : ℝ} (hd : 1 ≤ d) (hk : d + 1 ≤ k)
include hd hk

theorem wedge_len : sideLen (wedge k) 0 = 3 * k ∧ sideLen (wedge k) 1 = 5 * k ∧ sideLen (wedge k) 2 = 4 * k ∧ sideLen (wedge k) 3 = 3 * k := by
  obtain ⟨p0, p1, p2, p3, p4⟩ := wedge_pos k
  unfold sideLen
  simp only [Nat.reduceAdd, p0, p1, p2, p3, p4]
  refine ⟨?_, ?_, ?_, ?_⟩ <;> refine edist_eq_of_sq (by linarith) ?_ <;> dsimp only <;> ring

theorem wedge_setback : setbackAt (wedge k) (-d) 0 = 2 * d ∧ setbackAt (wedge k) (-d) 1 = 3 * d ∧ setbackAt (wedge k) (-d) 2 = d := by
  obtain ⟨p0, p1, p2, p3, p4⟩ := wedge_pos k
  obtain ⟨l0, l1, l2, l3⟩ := wedge_len hd hk
  have hk0 : k ≠ 0 := by intro h; linarith
  unfold sideLen at l0 l1 l2 l3
  simp only [Nat.reduceAdd, p0, p1, p2, p3, p4] at l0 l1 l2 l3
  unfold setbackAt setback turnSin turnCos
  simp only [Nat.reduceAdd, p0, p1, p2, p3, p4, l0, l1, l2, l3]
  refine ⟨?_, ?_, ?_⟩
  · field_simp; ring_nf; try norm_num
  · field_simp; ring_nf; try norm_num
  · field_simp; ring_nf; try norm_num

theorem wedge_straight : StraightLoop (wedge k) := by
  obtain ⟨v0, v1, v2, v3, v4⟩ := wedge_vtx k
  refine ⟨rfl, by show 2 ≤ 3; decide, fun i => ?_, fun i => ?_⟩
  · rw [← vtx_mod]
    refine lt_three (P := fun j => IsLine (vtx (wedge k) j)) ?_ ?_ ?_ i <;> simp only [v0, v1, v2] <;> exact box4_line _ _
  · rw [← vtx_mod, ← vtx_mod_succ]
    refine lt_three (P := fun j => (vtx (wedge k) j).pos ≠ (vtx (wedge k) (j + 1)).pos) ?_ ?_ ?_ i <;>
      simp only [Nat.reduceAdd, v0, v1, v2, v3, Vertex.pos, ne_eq, V2.ext_iff'] <;> rintro ⟨h1, h2⟩ <;> linarith

theorem wedge_clear (j : Nat) : ClearTurn (wedge k) (-d) (1 / 100000) j := by
  obtain ⟨p0, p1, p2, p3, p4⟩ := wedge_pos k
  obtain ⟨l0, l1, l2, l3⟩ := wedge_len hd hk
  obtain ⟨s0, s1, s2⟩ := wedge_setback hd hk
  apply clearTurn_congr (m := j % 3) (p := wedge k) (Nat.mod_mod _ _)
  refine lt_three (P := fun j => ClearTurn (wedge k) (-d) (1 / 100000) j) ?_ ?_ ?_ j <;>
  · refine ⟨?_, ?_, ?_⟩
    · simp only [Nat.reduceAdd, p0, p1, p2, p3, p4]
      rw [le_abs]
      right
      nlinarith
    · right; left
      simp only [Nat.reduceAdd, s0, s1, s2, l0, l1, l2, l3]
      refine ⟨?_, ?_, ?_⟩ <;> linarith
    · intro h
      simp only [s0, s1, s2] at h
      linarith

theorem wedge_mitred (j : Nat) : Mitred (wedge k) (-d) j := by
  obtain ⟨l0, l1, l2, l3⟩ := wedge_len hd hk
  obtain ⟨s0, s1, s2⟩ := wedge_setback hd hk
  rw [← mitred_mod (wedge_straight hd hk) (by linarith : -d ≠ 0) (by norm_num : (0 : ℝ) < 1 / 100000) (wedge_clear hd hk)]
  refine lt_three (P := fun j => Mitred (wedge k) (-d) j) ?_ ?_ ?_ j <;>
  · unfold Mitred
    simp only [Nat.reduceAdd, s0, s1, s2, l0, l1, l2, l3]
    refine ⟨?_, ?_, ?_⟩ <;> linarith

theorem wedge_raw : rawLoop (wedge k) (-d) = wedge (k - d) := by
  obtain ⟨p0, p1, p2, p3, p4⟩ := wedge_pos k
  obtain ⟨l0, l1, l2, l3⟩ := wedge_len hd hk
  obtain ⟨s0, s1, s2⟩ := wedge_setback hd hk
  have hk0 : k ≠ 0 := by intro h; linarith
  have hparts : loopParts (wedge k) (-d) = [.side 0, .side 1, .side 2] := by
    unfold loopParts
    simp only [wedge_mitred hd hk, if_true]
    rfl
  have hs : ∀ j, sideStart (wedge k) (-d) j = setbackAt (wedge k) (-d) (j + 2) / sideLen (wedge k) j := by
    intro j
    unfold sideStart
    rw [if_pos (wedge_mitred hd hk _)]
    rfl
  have hlen : (wedge k).verts.length = 3 := rfl
  have e3 : setbackAt (wedge k) (-d) 3 = 2 * d := (setbackAt_congr (p := wedge k) (m := 3) (k := 0) (by rw [hlen]) (-d)).trans s0
  have e4 : setbackAt (wedge k) (-d) 4 = 3 * d := (setbackAt_congr (p := wedge k) (m := 4) (k := 1) (by rw [hlen]) (-d)).trans s1
  unfold sideLen at l0 l1 l2 l3 hs
  simp only [Nat.reduceAdd, p0, p1, p2, p3, p4] at l0 l1 l2 l3
  have er : wedge (k - d) = ⟨[⟨-(k - d), -(k - d), 0⟩, ⟨-(k - d), 2 * (k - d), 0⟩, ⟨3 * (k - d), -(k - d), 0⟩], true⟩ := rfl
  unfold rawLoop
  rw [hparts, er]
  simp only [List.map_cons, List.map_nil, RawPart.start, sidePt, hs, moved, Vertex.ofV2, Nat.reduceAdd, s2, e3, e4, p0, p1, p2, p3, p4, l0, l1, l2, l3,
    Pline.mk.injEq, List.cons.injEq, Vertex.mk.injEq, and_true]
  refine ⟨⟨?_, ?_⟩, ⟨?_, ?_⟩, ?_, ?_⟩ <;> field_simp <;> ring

end

theorem wedge_full {k : ℝ} (hk : 1 ≤ k) : FullLoop (wedge k) (1 / 100000) := by
  obtain ⟨v0, v1, v2, v3, v4⟩ := wedge_vtx k
  refine ⟨rfl, by show 2 ≤ 3; decide, fun i => ?_⟩
  rw [← vtx_mod, ← vtx_mod_succ]
  refine lt_three (P := fun j => FullSeg (vtx (wedge k) j) (vtx (wedge k) (j + 1)) (1 / 100000)) ?_ ?_ ?_ i
  · simp only [Nat.reduceAdd, v0, v1, v2, v3]
    refine ⟨Or.inl (box4_line _ _), FarApart.fuzzy ?_⟩
    unfold FarApart Vertex.pos
    right
    rw [lt_abs]; right; dsimp only; linarith
  · simp only [Nat.reduceAdd, v0, v1, v2, v3]
    refine ⟨Or.inl (box4_line _ _), FarApart.fuzzy ?_⟩
    unfold FarApart Vertex.pos
    left
    rw [lt_abs]; right; dsimp only; linarith
  · simp only [Nat.reduceAdd, v0, v1, v2, v3]
    refine ⟨Or.inl (box4_line _ _), FarApart.fuzzy ?_⟩
    unfold FarApart Vertex.pos
    left
    rw [lt_abs]; left; dsimp only; linarith

theorem wedge_curve (k t : ℝ) : curveAt (wedge k) 0 t = ⟨-k, -k + 3 * k * t⟩ ∧ curveAt (wedge k) 1 t = ⟨-k + 4 * k * t, 2 * k - 3 * k * t⟩ ∧ curveAt (wedge k) 2 t = ⟨3 * k - 4 * k * t, -k⟩ := by
  obtain ⟨v0, v1, v2, v3, v4⟩ := wedge_vtx k
  have hn : 0 < (wedge k).verts.length := by show 0 < 3; decide
  simp only [curveAt_vtx hn, Nat.reduceAdd, v0, v1, v2, v3, segCurve_line (box4_line _ _), linePoint, Vertex.pos, V2.mk.injEq]
  refine ⟨⟨?_, ?_⟩, ⟨?_, ?_⟩, ?_, ?_⟩ <;> ring

theorem wedge_crossing {k : ℝ} (hk : 1 ≤ k) : SelfCrossing (wedge k) (1 / 100000) 1 [] := by
  refine ⟨by show 3 ≤ 3; decide, by simp, by simp, ?_, by simp [bothCuts], by simp [bothCuts], by simp [bothCuts], by simp, by simp [bothCuts]⟩
  intro i t j u hij hj t0 t1 u0 u1 h
  have hlen : (wedge k).verts.length = 3 := rfl
  rw [hlen] at hj ⊢
  obtain ⟨a0, a1, a2⟩ := wedge_curve k t
  obtain ⟨b0, b1, b2⟩ := wedge_curve k u
  have hi : i < 2 := by omega
  have k0 : 0 < k := by linarith
  have z : ∀ x : ℝ, k * x = 0 → x = 0 := fun x hx => (mul_eq_zero.mp hx).resolve_left k0.ne'
  interval_cases i <;> interval_cases j <;> simp only [a0, a1, a2, b0, b1, b2, V2.mk.injEq] at h <;> obtain ⟨h1, h2⟩ := h
  · left
    have e := z u (by linarith)
    subst e
    exact ⟨rfl, by have := z (t - 1) (by linarith); linarith, rfl⟩
  · right; left
    exact ⟨rfl, rfl, z t (by linarith), by have := z (u - 1) (by linarith); linarith⟩
  · left
    have e := z (t - 1) (by linarith)
    exact ⟨rfl, by linarith, z u (by nlinarith)⟩

theorem wedge_finds {k : ℝ} (hk : 1 ≤ k) : FindsSelf (wedge k) (1 / 100000) := by
  obtain ⟨v0, v1, v2, v3, v4⟩ := wedge_vtx k
  have hlen : (wedge k).verts.length = 3 := rfl
  constructor
  · intro i hi
    rw [hlen] at hi
    refine finds_corner (by norm_num) (ClearPair.lines ?_ ?_ (Or.inl ⟨⟨(vtx (wedge k) (i + 1)).pos,
      ⟨1, by norm_num, le_rfl, (segCurve_ends _ _).2.symm⟩, ⟨0, le_rfl, by norm_num, (segCurve_ends _ _).1.symm⟩⟩, ?_⟩))
    · interval_cases i <;> simp only [v0, v1, v2, v3, v4] <;> exact box4_line _ _
    · interval_cases i <;> simp only [Nat.reduceAdd, v1, v2, v3, v4] <;> exact box4_line _ _
    · interval_cases i <;> simp only [Nat.reduceAdd, v0, v1, v2, v3, v4] <;> unfold dirCross Vertex.pos <;> dsimp only <;> first
        | (rw [lt_abs]; right; nlinarith) | (rw [le_abs]; right; nlinarith) | (rw [lt_abs]; left; nlinarith) | (rw [le_abs]; left; nlinarith)
  · intro i j hi hj hij h1 h2 hbox
    rw [hlen] at hi hj h1 h2
    interval_cases i <;> interval_cases j <;> simp_all

theorem wedge_seg {k : ℝ} {s : Vertex ℝ × Vertex ℝ} (hs : s ∈ (wedge k).segs) : ∃ j < 3, s = (vtx (wedge k) j, vtx (wedge k) (j + 1)) := by
  rw [segs_range rfl (by show 2 ≤ 3; decide)] at hs
  obtain ⟨j, hj, rfl⟩ := List.mem_map.mp hs
  exact ⟨j, List.mem_range.mp hj, rfl⟩

theorem wedge_lines (k : ℝ) : ∀ s ∈ (wedge k).segs, IsLine s.1 := by
  intro s hs
  obtain ⟨j, hj, rfl⟩ := wedge_seg hs
  obtain ⟨v0, v1, v2, v3, v4⟩ := wedge_vtx k
  interval_cases j <;> simp only [v0, v1, v2] <;> exact box4_line _ _

/-- points further than `d` from all sides -/
theorem wedge_keeps {k d : ℝ} (hd : 1 ≤ d) {X : V2 ℝ} (h1 : -k + d ≤ X.x) (h2 : -k + d ≤ X.y) (h3 : 3 * X.x + 4 * X.y ≤ 5 * k - 5 * d) : Keeps (wedge k) d X := by
  rintro q ⟨s, hs, u, u0, u1, rfl⟩
  obtain ⟨j, hj, rfl⟩ := wedge_seg hs
  rw [← curveAt_vtx (by show 0 < 3; decide)]
  obtain ⟨a0, a1, a2⟩ := wedge_curve k u
  have hsq := edist_sq X (curveAt (wedge k) j u)
  have hnn := edist_nonneg X (curveAt (wedge k) j u)
  by_contra hlt
  push Not at hlt
  have hlt2 : edist X (curveAt (wedge k) j u) ^ 2 < d ^ 2 := by nlinarith
  rw [hsq] at hlt2
  interval_cases j
  · rw [a0] at hlt2; dsimp only at hlt2
    have : d ^ 2 ≤ (X.x - -k) ^ 2 := by nlinarith
    nlinarith [sq_nonneg (X.y - (-k + 3 * k * u))]
  · rw [a1] at hlt2
    dsimp only at hlt2
    have h : 5 * d ≤ 3 * ((-k + 4 * k * u) - X.x) + 4 * ((2 * k - 3 * k * u) - X.y) := by linarith
    have : (5 * d) ^ 2 ≤ (3 * ((-k + 4 * k * u) - X.x) + 4 * ((2 * k - 3 * k * u) - X.y)) ^ 2 := by
      apply pow_le_pow_left₀ (by linarith) h
    nlinarith [sq_nonneg (4 * ((-k + 4 * k * u) - X.x) - 3 * ((2 * k - 3 * k * u) - X.y))]
  · rw [a2] at hlt2; dsimp only at hlt2
    have : d ^ 2 ≤ (X.y - -k) ^ 2 := by nlinarith
    nlinarith [sq_nonneg (X.x - (3 * k - 4 * k * u))]

section
variable {k d : ℝ} (hd : 1 ≤ d) (hk : d + 1 ≤ k)
include hd hk

theorem wedge_first : (sidePt (wedge k) (-d) 0 0).fuzzyEqEps (vtx (rawLoop (wedge k) (-d)) 1).pos (1 / 100000) = false := by
  obtain ⟨v0, v1, v2, v3, v4⟩ := wedge_vtx (k - d)
  obtain ⟨p0, p1, p2, p3, p4⟩ := wedge_pos k
  obtain ⟨l0, l1, l2, l3⟩ := wedge_len hd hk
  have hk0 : k ≠ 0 := by intro h; linarith
  unfold sideLen at l0
  simp only [Nat.reduceAdd, p0, p1] at l0
  apply FarApart.fuzzy
  rw [wedge_raw hd hk]
  unfold FarApart sidePt moved
  simp only [Nat.reduceAdd, p0, p1, l0, v1, Vertex.pos]
  right
  rw [lt_abs]; right
  have : -k - -k = 0 := by ring
  rw [this]
  simp only [zero_mul, zero_div, mul_zero, add_zero]
  linarith

theorem wedge_clearOffset : ClearOffset (wedge k) (-d) (straightCorner (wedge k) (-d)) (1 / 100000) := by
  obtain ⟨l0, l1, l2, l3⟩ := wedge_len hd hk
  obtain ⟨s0, s1, s2⟩ := wedge_setback hd hk
  refine straight_clear (wedge_straight hd hk) (wedge_full (by linarith)) (by linarith) (wedge_clear hd hk) (fun j => ?_)
    (by rw [wedge_raw hd hk]; exact wedge_full (by linarith)) (wedge_first hd hk)
  have hl : (wedge k).verts.length = 3 := rfl
  have hlen : ∀ j, sideLen (wedge k) j = sideLen (wedge k) (j % 3) := by
    intro j
    have h : j % 3 % (wedge k).verts.length = j % (wedge k).verts.length := Nat.mod_mod _ _
    unfold sideLen
    rw [cornerPos_congr h 1, ← cornerPos_mod (wedge k) j, ← cornerPos_mod (wedge k) (j % 3), h]
  have hset : ∀ j, setbackAt (wedge k) (-d) j = setbackAt (wedge k) (-d) (j % 3) := by
    intro j
    have h : j % 3 % (wedge k).verts.length = j % (wedge k).verts.length := Nat.mod_mod _ _
    unfold setbackAt
    rw [cornerPos_congr h 1, cornerPos_congr h 2, ← cornerPos_mod (wedge k) j, ← cornerPos_mod (wedge k) (j % 3), h]
  unfold sideStart sideEnd
  rw [if_pos (wedge_mitred hd hk _), if_pos (wedge_mitred hd hk _), hlen j, hset j, hset (j + (wedge k).verts.length - 1)]
  have e : (j + (wedge k).verts.length - 1) % 3 = (j % 3 + 2) % 3 := by omega
  rw [e]
  have k0 : 0 < k := by linarith
  refine lt_three (P := fun j => setbackAt (wedge k) (-d) ((j + 2) % 3) / sideLen (wedge k) j < 1 - setbackAt (wedge k) (-d) j / sideLen (wedge k) j) ?_ ?_ ?_ j <;>
    norm_num only [s0, s1, s2, l0, l1, l2] <;> rw [div_lt_iff₀ (by linarith), sub_mul, div_mul_cancel₀ _ (by intro h; linarith)] <;> linarith

theorem wedge_stays {i : Nat} (hi : i < 3) {t : ℝ} (t0 : 0 ≤ t) (t1 : t ≤ 1) : Keeps (wedge k) d (curveAt (wedge (k - d)) i t) := by
  obtain ⟨c0, c1, c2⟩ := wedge_curve (k - d) t
  have m : 0 ≤ k - d := by linarith
  have a : 0 ≤ (k - d) * t := mul_nonneg m t0
  have b : (k - d) * t ≤ k - d := by nlinarith
  interval_cases i
  · rw [c0]; exact wedge_keeps hd (by dsimp only; linarith) (by dsimp only; linarith) (by dsimp only; linarith)
  · rw [c1]; exact wedge_keeps hd (by dsimp only; linarith) (by dsimp only; linarith) (by dsimp only; linarith)
  · rw [c2]; exact wedge_keeps hd (by dsimp only; linarith) (by dsimp only; linarith) (by dsimp only; linarith)

theorem wedge_tests : ClearTests (wedge k) (wedge (k - d)) (-d) (1 / 100000) (1 / 10000) [] := by
  have hn : 0 < (wedge (k - d)).verts.length := by show 0 < 3; decide
  have habs : |-d| = d := by rw [abs_neg, abs_of_pos (by linarith)]
  obtain ⟨v0, v1, v2, v3, v4⟩ := wedge_vtx (k - d)
  obtain ⟨w0, w1, w2, w3, w4⟩ := wedge_vtx k
  refine ⟨fun _ => Or.inl (by rw [habs]; exact wedge_stays hd hk (by norm_num) le_rfl zero_le_one), by simp [bothCuts], ?_⟩
  intro i lo hi x y hst hkp hfull hcv
  have hi3 : i < 3 := hst.range
  obtain rfl : lo = 0 := by rcases hst.start with h | h; exact h; simp [bothCuts] at h
  obtain rfl : hi = 1 := by rcases hst.stop with h | h; exact h; simp [bothCuts] at h
  have hcv' : ∀ s, segCurve x y s = segCurve (vtx (wedge (k - d)) i) (vtx (wedge (k - d)) (i + 1)) s := by
    intro s
    rw [hcv s, ← curveAt_vtx hn]; congr 1; ring
  have hx : x.pos = (vtx (wedge (k - d)) i).pos := by
    have := hcv' 0
    rwa [(segCurve_ends _ _).1, (segCurve_ends _ _).1] at this
  have hy : y.pos = (vtx (wedge (k - d)) (i + 1)).pos := by
    have := hcv' 1
    rwa [(segCurve_ends _ _).2, (segCurve_ends _ _).2] at this
  have hne : x.pos ≠ y.pos := fuzzy_ne (by norm_num) hfull.apart
  have hl : IsLine (vtx (wedge (k - d)) i) := by interval_cases i <;> simp only [v0, v1, v2] <;> exact box4_line _ _
  have hxl : IsLine x := by
    apply line_of_middle hne
    rw [hcv', segCurve_line hl, hx, hy]
  intro s hs _
  obtain ⟨j, hj3, rfl⟩ := wedge_seg hs
  have hfar : ∀ a b, OnSeg x y a → OnSeg (vtx (wedge k) j) (vtx (wedge k) (j + 1)) b → d ≤ edist a b := by
    rintro a b ⟨t, t0, t1, rfl⟩ hb
    rw [hcv', ← curveAt_vtx hn]
    exact wedge_stays hd hk hi3 t0 t1 b ⟨_, hs, hb⟩
  refine no_intersect (by norm_num) (.lines hxl ((wedge_straight hd hk).line j) (Or.inr ⟨?_, fun a b ha hb => lt_of_lt_of_le (by norm_num; linarith) (hfar a b ha hb)⟩)) fun q h1 h2 => ?_
  · simp only
    rw [hx, hy]
    have m1 : 1 ≤ k - d := by linarith
    have m2 : 1 ≤ k := by linarith
    have m3 : 1 ≤ (k - d) * k := by nlinarith
    have m4 : 1 ≤ k * d := by nlinarith
    unfold LinesResolved
    interval_cases i <;> interval_cases j <;> simp only [Nat.reduceAdd, v0, v1, v2, v3, w0, w1, w2, w3] <;> unfold dirCross Apart Vertex.pos <;> dsimp only <;> first
      | (left; rw [le_abs]; left; nlinarith)
      | (left; rw [le_abs]; right; nlinarith)
      | skip
    · right
      exact ⟨by ring, Or.inr (by rw [le_abs]; right; linarith), Or.inr (by rw [le_abs]; right; linarith), Or.inr (by rw [le_abs]; right; nlinarith)⟩
    · right
      exact ⟨by ring, Or.inl (by rw [le_abs]; right; linarith), Or.inl (by rw [le_abs]; right; linarith), Or.inr (by rw [le_abs]; right; nlinarith)⟩
    · right
      exact ⟨by ring, Or.inl (by rw [le_abs]; left; linarith), Or.inl (by rw [le_abs]; left; linarith), Or.inr (by rw [le_abs]; right; nlinarith)⟩
  · have := hfar q q h1 h2
    rw [edist_self] at this
    linarith

theorem wedge_clearly : ClearlyOffset (wedge k) (-d) (1 / 100000) (1 / 10000) (1 / 10000) := by
  have e : rawWith (wedge k) (-d) (straightCorner (wedge k) (-d)) = wedge (k - d) := by rw [straight_raw (wedge_straight hd hk), wedge_raw hd hk]
  have h := wedge_clearOffset hd hk
  refine ⟨straightCorner (wedge k) (-d), 1, [], h, straight_clean (wedge_straight hd hk) (by linarith) (by norm_num) h.corners, straight_free (wedge_straight hd hk) (by linarith) (by norm_num) h.corners,
    by rw [e]; exact wedge_crossing (by linarith), by simp [CrossAtAngle], by rw [e]; exact wedge_finds (by linarith), by rw [e]; exact wedge_tests hd hk,
    fun i lo hi _ => ⟨lines_readable (wedge_lines k) _ _, lines_readable (wedge_lines k) _ _, lines_readable (wedge_lines k) _ _⟩, by norm_num, by norm_num⟩

end

end Cavc
