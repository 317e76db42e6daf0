import Verif.Lemmas.Wedge

/-! # Example: the triangles of `Lemmas/Wedge` in the opposite direction -/

set_option linter.unusedVariables false

namespace Cavc
open Pline RealScalar

/-- The same triangle, counter-clockwise. -/
def gib (k : ℝ) : Pline ℝ := ⟨[⟨3 * k, -k, 0⟩, ⟨-k, 2 * k, 0⟩, ⟨-k, -k, 0⟩], true⟩

theorem gib_vtx (k : ℝ) : vtx (gib k) 0 = ⟨3 * k, -k, 0⟩ ∧ vtx (gib k) 1 = ⟨-k, 2 * k, 0⟩ ∧ vtx (gib k) 2 = ⟨-k, -k, 0⟩ ∧ vtx (gib k) 3 = ⟨3 * k, -k, 0⟩ ∧ vtx (gib k) 4 = ⟨-k, 2 * k, 0⟩ := by
  have hl : (gib k).verts.length = 3 := rfl
  unfold vtx cycAt
  rw [hl]
  exact ⟨rfl, rfl, rfl, rfl, rfl⟩

theorem gib_pos (k : ℝ) : cornerPos (gib k) 0 = ⟨3 * k, -k⟩ ∧ cornerPos (gib k) 1 = ⟨-k, 2 * k⟩ ∧ cornerPos (gib k) 2 = ⟨-k, -k⟩ ∧ cornerPos (gib k) 3 = ⟨3 * k, -k⟩ ∧
    cornerPos (gib k) 4 = ⟨-k, 2 * k⟩ := by
  obtain ⟨v0, v1, v2, v3, v4⟩ := gib_vtx k
  unfold cornerPos
  rw [v0, v1, v2, v3, v4]
  exact ⟨rfl, rfl, rfl, rfl, rfl⟩

section
variable {k d : ℝ} (hd : 1 ≤ d) (hk : d + 1 ≤ k)
include hd hk

theorem gib_len : sideLen (gib k) 0 = 5 * k ∧ sideLen (gib k) 1 = 3 * k ∧ sideLen (gib k) 2 = 4 * k ∧ sideLen (gib k) 3 = 5 * k := by
  obtain ⟨p0, p1, p2, p3, p4⟩ := gib_pos k
  unfold sideLen
  simp only [Nat.reduceAdd, p0, p1, p2, p3, p4]
  refine ⟨?_, ?_, ?_, ?_⟩ <;> refine edist_eq_of_sq (by linarith) ?_ <;> dsimp only <;> ring

theorem gib_setback : setbackAt (gib k) d 0 = 2 * d ∧ setbackAt (gib k) d 1 = d ∧ setbackAt (gib k) d 2 = 3 * d := by
  obtain ⟨p0, p1, p2, p3, p4⟩ := gib_pos k
  obtain ⟨l0, l1, l2, l3⟩ := gib_len hd hk
  have hk0 : k ≠ 0 := by intro h; linarith
  unfold sideLen at l0 l1 l2 l3
  simp only [Nat.reduceAdd, p0, p1, p2, p3, p4] at l0 l1 l2 l3
  unfold setbackAt setback turnSin turnCos
  simp only [Nat.reduceAdd, p0, p1, p2, p3, p4, l0, l1, l2, l3]
  refine ⟨?_, ?_, ?_⟩
  · field_simp; ring_nf; try norm_num
  · field_simp; ring_nf; try norm_num
  · field_simp; ring_nf; try norm_num

theorem gib_straight : StraightLoop (gib k) := by
  obtain ⟨v0, v1, v2, v3, v4⟩ := gib_vtx k
  refine ⟨rfl, by show 2 ≤ 3; decide, fun i => ?_, fun i => ?_⟩
  · rw [← vtx_mod]
    refine lt_three (P := fun j => IsLine (vtx (gib k) j)) ?_ ?_ ?_ i <;> simp only [v0, v1, v2] <;> exact box4_line _ _
  · rw [← vtx_mod, ← vtx_mod_succ]
    refine lt_three (P := fun j => (vtx (gib k) j).pos ≠ (vtx (gib k) (j + 1)).pos) ?_ ?_ ?_ i <;>
      simp only [Nat.reduceAdd, v0, v1, v2, v3, Vertex.pos, ne_eq, V2.ext_iff'] <;> rintro ⟨h1, h2⟩ <;> linarith

theorem gib_clear (j : Nat) : ClearTurn (gib k) d (1 / 100000) j := by
  obtain ⟨p0, p1, p2, p3, p4⟩ := gib_pos k
  obtain ⟨l0, l1, l2, l3⟩ := gib_len hd hk
  obtain ⟨s0, s1, s2⟩ := gib_setback hd hk
  apply clearTurn_congr (m := j % 3) (p := gib k) (Nat.mod_mod _ _)
  refine lt_three (P := fun j => ClearTurn (gib k) d (1 / 100000) j) ?_ ?_ ?_ j <;>
  · refine ⟨?_, ?_, ?_⟩
    · simp only [Nat.reduceAdd, p0, p1, p2, p3, p4]
      rw [le_abs]
      left
      nlinarith
    · right; left
      simp only [Nat.reduceAdd, s0, s1, s2, l0, l1, l2, l3]
      refine ⟨?_, ?_, ?_⟩ <;> linarith
    · intro h
      simp only [s0, s1, s2] at h
      linarith

theorem gib_mitred (j : Nat) : Mitred (gib k) d j := by
  obtain ⟨l0, l1, l2, l3⟩ := gib_len hd hk
  obtain ⟨s0, s1, s2⟩ := gib_setback hd hk
  rw [← mitred_mod (gib_straight hd hk) (by linarith : d ≠ 0) (by norm_num : (0 : ℝ) < 1 / 100000) (gib_clear hd hk)]
  refine lt_three (P := fun j => Mitred (gib k) d j) ?_ ?_ ?_ j <;>
  · unfold Mitred
    simp only [Nat.reduceAdd, s0, s1, s2, l0, l1, l2, l3]
    refine ⟨?_, ?_, ?_⟩ <;> linarith

theorem gib_raw : rawLoop (gib k) d = gib (k - d) := by
  obtain ⟨p0, p1, p2, p3, p4⟩ := gib_pos k
  obtain ⟨l0, l1, l2, l3⟩ := gib_len hd hk
  obtain ⟨s0, s1, s2⟩ := gib_setback hd hk
  have hk0 : k ≠ 0 := by intro h; linarith
  have hparts : loopParts (gib k) d = [.side 0, .side 1, .side 2] := by
    unfold loopParts
    simp only [gib_mitred hd hk, if_true]
    rfl
  have hs : ∀ j, sideStart (gib k) d j = setbackAt (gib k) d (j + 2) / sideLen (gib k) j := by
    intro j
    unfold sideStart
    rw [if_pos (gib_mitred hd hk _)]
    rfl
  have hlen : (gib k).verts.length = 3 := rfl
  have e3 : setbackAt (gib k) d 3 = 2 * d := (setbackAt_congr (p := gib k) (m := 3) (k := 0) (by rw [hlen]) d).trans s0
  have e4 : setbackAt (gib k) d 4 = d := (setbackAt_congr (p := gib k) (m := 4) (k := 1) (by rw [hlen]) d).trans s1
  unfold sideLen at l0 l1 l2 l3 hs
  simp only [Nat.reduceAdd, p0, p1, p2, p3, p4] at l0 l1 l2 l3
  have er : gib (k - d) = ⟨[⟨3 * (k - d), -(k - d), 0⟩, ⟨-(k - d), 2 * (k - d), 0⟩, ⟨-(k - d), -(k - d), 0⟩], true⟩ := rfl
  unfold rawLoop
  rw [hparts, er]
  simp only [List.map_cons, List.map_nil, RawPart.start, sidePt, hs, moved, Vertex.ofV2, Nat.reduceAdd, s2, e3, e4, p0, p1, p2, p3, p4, l0, l1, l2, l3,
    Pline.mk.injEq, List.cons.injEq, Vertex.mk.injEq, and_true]
  refine ⟨⟨?_, ?_⟩, ⟨?_, ?_⟩, ?_, ?_⟩ <;> field_simp <;> ring

end

theorem gib_full {k : ℝ} (hk : 1 ≤ k) : FullLoop (gib k) (1 / 100000) := by
  obtain ⟨v0, v1, v2, v3, v4⟩ := gib_vtx k
  refine ⟨rfl, by show 2 ≤ 3; decide, fun i => ?_⟩
  rw [← vtx_mod, ← vtx_mod_succ]
  refine lt_three (P := fun j => FullSeg (vtx (gib k) j) (vtx (gib k) (j + 1)) (1 / 100000)) ?_ ?_ ?_ i
  · simp only [Nat.reduceAdd, v0, v1, v2, v3]
    refine ⟨Or.inl (box4_line _ _), FarApart.fuzzy ?_⟩
    unfold FarApart Vertex.pos
    first
      | (left; rw [lt_abs]; left; dsimp only; linarith)
      | (left; rw [lt_abs]; right; dsimp only; linarith)
      | (right; rw [lt_abs]; left; dsimp only; linarith)
      | (right; rw [lt_abs]; right; dsimp only; linarith)
  · simp only [Nat.reduceAdd, v0, v1, v2, v3]
    refine ⟨Or.inl (box4_line _ _), FarApart.fuzzy ?_⟩
    unfold FarApart Vertex.pos
    first
      | (left; rw [lt_abs]; left; dsimp only; linarith)
      | (left; rw [lt_abs]; right; dsimp only; linarith)
      | (right; rw [lt_abs]; left; dsimp only; linarith)
      | (right; rw [lt_abs]; right; dsimp only; linarith)
  · simp only [Nat.reduceAdd, v0, v1, v2, v3]
    refine ⟨Or.inl (box4_line _ _), FarApart.fuzzy ?_⟩
    unfold FarApart Vertex.pos
    first
      | (left; rw [lt_abs]; left; dsimp only; linarith)
      | (left; rw [lt_abs]; right; dsimp only; linarith)
      | (right; rw [lt_abs]; left; dsimp only; linarith)
      | (right; rw [lt_abs]; right; dsimp only; linarith)

theorem gib_curve (k t : ℝ) : curveAt (gib k) 0 t = ⟨3 * k - 4 * k * t, -k + 3 * k * t⟩ ∧ curveAt (gib k) 1 t = ⟨-k, 2 * k - 3 * k * t⟩ ∧ curveAt (gib k) 2 t = ⟨-k + 4 * k * t, -k⟩ := by
  obtain ⟨v0, v1, v2, v3, v4⟩ := gib_vtx k
  have hn : 0 < (gib k).verts.length := by show 0 < 3; decide
  simp only [curveAt_vtx hn, Nat.reduceAdd, v0, v1, v2, v3, segCurve_line (box4_line _ _), linePoint, Vertex.pos, V2.mk.injEq]
  refine ⟨⟨?_, ?_⟩, ⟨?_, ?_⟩, ?_, ?_⟩ <;> ring

theorem gib_crossing {k : ℝ} (hk : 1 ≤ k) : SelfCrossing (gib k) (1 / 100000) 1 [] := by
  refine ⟨by show 3 ≤ 3; decide, by simp, by simp, ?_, by simp [bothCuts], by simp [bothCuts], by simp [bothCuts], by simp, by simp [bothCuts]⟩
  intro i t j u hij hj t0 t1 u0 u1 h
  have hlen : (gib k).verts.length = 3 := rfl
  rw [hlen] at hj ⊢
  obtain ⟨a0, a1, a2⟩ := gib_curve k t
  obtain ⟨b0, b1, b2⟩ := gib_curve k u
  have hi : i < 2 := by omega
  have k0 : 0 < k := by linarith
  have z : ∀ x : ℝ, k * x = 0 → x = 0 := fun x hx => (mul_eq_zero.mp hx).resolve_left k0.ne'
  interval_cases i <;> interval_cases j <;> simp only [a0, a1, a2, b0, b1, b2, V2.mk.injEq] at h <;> obtain ⟨h1, h2⟩ := h
  · left
    have e := z u (by linarith)
    subst e
    exact ⟨rfl, by have := z (t - 1) (by linarith); linarith, rfl⟩
  · right; left
    exact ⟨rfl, rfl, z t (by linarith), by have := z (u - 1) (by linarith); linarith⟩
  · left
    have e := z (t - 1) (by linarith)
    exact ⟨rfl, by linarith, z u (by nlinarith)⟩

theorem gib_finds {k : ℝ} (hk : 1 ≤ k) : FindsSelf (gib k) (1 / 100000) := by
  obtain ⟨v0, v1, v2, v3, v4⟩ := gib_vtx k
  have hlen : (gib k).verts.length = 3 := rfl
  constructor
  · intro i hi
    rw [hlen] at hi
    refine finds_corner (by norm_num) (ClearPair.lines ?_ ?_ (Or.inl ⟨⟨(vtx (gib k) (i + 1)).pos,
      ⟨1, by norm_num, le_rfl, (segCurve_ends _ _).2.symm⟩, ⟨0, le_rfl, by norm_num, (segCurve_ends _ _).1.symm⟩⟩, ?_⟩))
    · interval_cases i <;> simp only [v0, v1, v2, v3, v4] <;> exact box4_line _ _
    · interval_cases i <;> simp only [Nat.reduceAdd, v1, v2, v3, v4] <;> exact box4_line _ _
    · interval_cases i <;> simp only [Nat.reduceAdd, v0, v1, v2, v3, v4] <;> unfold dirCross Vertex.pos <;> dsimp only <;> first
        | (rw [lt_abs]; right; nlinarith) | (rw [le_abs]; right; nlinarith) | (rw [lt_abs]; left; nlinarith) | (rw [le_abs]; left; nlinarith)
  · intro i j hi hj hij h1 h2 hbox
    rw [hlen] at hi hj h1 h2
    interval_cases i <;> interval_cases j <;> simp_all

theorem gib_seg {k : ℝ} {s : Vertex ℝ × Vertex ℝ} (hs : s ∈ (gib k).segs) : ∃ j < 3, s = (vtx (gib k) j, vtx (gib k) (j + 1)) := by
  rw [segs_range rfl (by show 2 ≤ 3; decide)] at hs
  obtain ⟨j, hj, rfl⟩ := List.mem_map.mp hs
  exact ⟨j, List.mem_range.mp hj, rfl⟩

theorem gib_lines (k : ℝ) : ∀ s ∈ (gib k).segs, IsLine s.1 := by
  intro s hs
  obtain ⟨j, hj, rfl⟩ := gib_seg hs
  obtain ⟨v0, v1, v2, v3, v4⟩ := gib_vtx k
  interval_cases j <;> simp only [v0, v1, v2] <;> exact box4_line _ _

/-- points further than `d` from all sides -/
theorem gib_keeps {k d : ℝ} (hd : 1 ≤ d) {X : V2 ℝ} (h1 : -k + d ≤ X.x) (h2 : -k + d ≤ X.y) (h3 : 3 * X.x + 4 * X.y ≤ 5 * k - 5 * d) : Keeps (gib k) d X := by
  rintro q ⟨s, hs, u, u0, u1, rfl⟩
  obtain ⟨j, hj, rfl⟩ := gib_seg hs
  rw [← curveAt_vtx (by show 0 < 3; decide)]
  obtain ⟨a0, a1, a2⟩ := gib_curve k u
  have hsq := edist_sq X (curveAt (gib k) j u)
  have hnn := edist_nonneg X (curveAt (gib k) j u)
  by_contra hlt
  push Not at hlt
  have hlt2 : edist X (curveAt (gib k) j u) ^ 2 < d ^ 2 := by nlinarith
  rw [hsq] at hlt2
  interval_cases j
  · rw [a0] at hlt2
    dsimp only at hlt2
    have h : 5 * d ≤ 3 * ((3 * k - 4 * k * u) - X.x) + 4 * ((-k + 3 * k * u) - X.y) := by linarith
    have : (5 * d) ^ 2 ≤ (3 * ((3 * k - 4 * k * u) - X.x) + 4 * ((-k + 3 * k * u) - X.y)) ^ 2 := by
      apply pow_le_pow_left₀ (by linarith) h
    nlinarith [sq_nonneg (4 * ((3 * k - 4 * k * u) - X.x) - 3 * ((-k + 3 * k * u) - X.y))]
  · rw [a1] at hlt2; dsimp only at hlt2
    have : d ^ 2 ≤ (X.x - -k) ^ 2 := by nlinarith
    nlinarith [sq_nonneg (X.y - (2 * k - 3 * k * u))]
  · rw [a2] at hlt2; dsimp only at hlt2
    have : d ^ 2 ≤ (X.y - -k) ^ 2 := by nlinarith
    nlinarith [sq_nonneg (X.x - (-k + 4 * k * u))]

section
variable {k d : ℝ} (hd : 1 ≤ d) (hk : d + 1 ≤ k)
include hd hk

theorem gib_first : (sidePt (gib k) d 0 0).fuzzyEqEps (vtx (rawLoop (gib k) d) 1).pos (1 / 100000) = false := by
  obtain ⟨v0, v1, v2, v3, v4⟩ := gib_vtx (k - d)
  obtain ⟨p0, p1, p2, p3, p4⟩ := gib_pos k
  obtain ⟨l0, l1, l2, l3⟩ := gib_len hd hk
  have hk0 : k ≠ 0 := by intro h; linarith
  unfold sideLen at l0
  simp only [Nat.reduceAdd, p0, p1] at l0
  apply FarApart.fuzzy
  rw [gib_raw hd hk]
  unfold FarApart sidePt moved
  simp only [Nat.reduceAdd, p0, p1, l0, v1, Vertex.pos]
  left
  rw [lt_abs]; left
  field_simp
  nlinarith

theorem gib_clearOffset : ClearOffset (gib k) d (straightCorner (gib k) d) (1 / 100000) := by
  obtain ⟨l0, l1, l2, l3⟩ := gib_len hd hk
  obtain ⟨s0, s1, s2⟩ := gib_setback hd hk
  refine straight_clear (gib_straight hd hk) (gib_full (by linarith)) (by linarith) (gib_clear hd hk) (fun j => ?_)
    (by rw [gib_raw hd hk]; exact gib_full (by linarith)) (gib_first hd hk)
  have hl : (gib k).verts.length = 3 := rfl
  have hlen : ∀ j, sideLen (gib k) j = sideLen (gib k) (j % 3) := by
    intro j
    have h : j % 3 % (gib k).verts.length = j % (gib k).verts.length := Nat.mod_mod _ _
    unfold sideLen
    rw [cornerPos_congr h 1, ← cornerPos_mod (gib k) j, ← cornerPos_mod (gib k) (j % 3), h]
  have hset : ∀ j, setbackAt (gib k) d j = setbackAt (gib k) d (j % 3) := by
    intro j
    have h : j % 3 % (gib k).verts.length = j % (gib k).verts.length := Nat.mod_mod _ _
    unfold setbackAt
    rw [cornerPos_congr h 1, cornerPos_congr h 2, ← cornerPos_mod (gib k) j, ← cornerPos_mod (gib k) (j % 3), h]
  unfold sideStart sideEnd
  rw [if_pos (gib_mitred hd hk _), if_pos (gib_mitred hd hk _), hlen j, hset j, hset (j + (gib k).verts.length - 1)]
  have e : (j + (gib k).verts.length - 1) % 3 = (j % 3 + 2) % 3 := by omega
  rw [e]
  have k0 : 0 < k := by linarith
  refine lt_three (P := fun j => setbackAt (gib k) d ((j + 2) % 3) / sideLen (gib k) j < 1 - setbackAt (gib k) d j / sideLen (gib k) j) ?_ ?_ ?_ j <;>
    norm_num only [s0, s1, s2, l0, l1, l2] <;> rw [div_lt_iff₀ (by linarith), sub_mul, div_mul_cancel₀ _ (by intro h; linarith)] <;> linarith

theorem gib_stays {i : Nat} (hi : i < 3) {t : ℝ} (t0 : 0 ≤ t) (t1 : t ≤ 1) : Keeps (gib k) d (curveAt (gib (k - d)) i t) := by
  obtain ⟨c0, c1, c2⟩ := gib_curve (k - d) t
  have m : 0 ≤ k - d := by linarith
  have a : 0 ≤ (k - d) * t := mul_nonneg m t0
  have b : (k - d) * t ≤ k - d := by nlinarith
  interval_cases i
  · rw [c0]; exact gib_keeps hd (by dsimp only; linarith) (by dsimp only; linarith) (by dsimp only; linarith)
  · rw [c1]; exact gib_keeps hd (by dsimp only; linarith) (by dsimp only; linarith) (by dsimp only; linarith)
  · rw [c2]; exact gib_keeps hd (by dsimp only; linarith) (by dsimp only; linarith) (by dsimp only; linarith)

theorem gib_tests : ClearTests (gib k) (gib (k - d)) d (1 / 100000) (1 / 10000) [] := by
  have hn : 0 < (gib (k - d)).verts.length := by show 0 < 3; decide
  have habs : |d| = d := abs_of_pos (by linarith)
  obtain ⟨v0, v1, v2, v3, v4⟩ := gib_vtx (k - d)
  obtain ⟨w0, w1, w2, w3, w4⟩ := gib_vtx k
  refine ⟨fun _ => Or.inl (by rw [habs]; exact gib_stays hd hk (by norm_num) le_rfl zero_le_one), by simp [bothCuts], ?_⟩
  intro i lo hi x y hst hkp hfull hcv
  have hi3 : i < 3 := hst.range
  obtain rfl : lo = 0 := by rcases hst.start with h | h; exact h; simp [bothCuts] at h
  obtain rfl : hi = 1 := by rcases hst.stop with h | h; exact h; simp [bothCuts] at h
  have hcv' : ∀ s, segCurve x y s = segCurve (vtx (gib (k - d)) i) (vtx (gib (k - d)) (i + 1)) s := by
    intro s
    rw [hcv s, ← curveAt_vtx hn]; congr 1; ring
  have hx : x.pos = (vtx (gib (k - d)) i).pos := by
    have := hcv' 0
    rwa [(segCurve_ends _ _).1, (segCurve_ends _ _).1] at this
  have hy : y.pos = (vtx (gib (k - d)) (i + 1)).pos := by
    have := hcv' 1
    rwa [(segCurve_ends _ _).2, (segCurve_ends _ _).2] at this
  have hne : x.pos ≠ y.pos := fuzzy_ne (by norm_num) hfull.apart
  have hl : IsLine (vtx (gib (k - d)) i) := by interval_cases i <;> simp only [v0, v1, v2] <;> exact box4_line _ _
  have hxl : IsLine x := by
    apply line_of_middle hne
    rw [hcv', segCurve_line hl, hx, hy]
  intro s hs _
  obtain ⟨j, hj3, rfl⟩ := gib_seg hs
  have hfar : ∀ a b, OnSeg x y a → OnSeg (vtx (gib k) j) (vtx (gib k) (j + 1)) b → d ≤ edist a b := by
    rintro a b ⟨t, t0, t1, rfl⟩ hb
    rw [hcv', ← curveAt_vtx hn]
    exact gib_stays hd hk hi3 t0 t1 b ⟨_, hs, hb⟩
  refine no_intersect (by norm_num) (.lines hxl ((gib_straight hd hk).line j) (Or.inr ⟨?_, fun a b ha hb => lt_of_lt_of_le (by norm_num; linarith) (hfar a b ha hb)⟩)) fun q h1 h2 => ?_
  · simp only
    rw [hx, hy]
    have m1 : 1 ≤ k - d := by linarith
    have m2 : 1 ≤ k := by linarith
    have m3 : 1 ≤ (k - d) * k := by nlinarith
    have m4 : 1 ≤ k * d := by nlinarith
    unfold LinesResolved
    interval_cases i <;> interval_cases j <;> simp only [Nat.reduceAdd, v0, v1, v2, v3, w0, w1, w2, w3] <;> unfold dirCross Apart Vertex.pos <;> dsimp only <;> first
      | (left; rw [le_abs]; left; nlinarith)
      | (left; rw [le_abs]; right; nlinarith)
      | skip
    all_goals
      right
      refine ⟨by ring, ?_, ?_, ?_⟩ <;> first
        | (left; rw [le_abs]; left; nlinarith)
        | (left; rw [le_abs]; right; nlinarith)
        | (right; rw [le_abs]; left; nlinarith)
        | (right; rw [le_abs]; right; nlinarith)
  · have := hfar q q h1 h2
    rw [edist_self] at this
    linarith

theorem gib_clearly : ClearlyOffset (gib k) d (1 / 100000) (1 / 10000) (1 / 10000) := by
  have e : rawWith (gib k) d (straightCorner (gib k) d) = gib (k - d) := by rw [straight_raw (gib_straight hd hk), gib_raw hd hk]
  have h := gib_clearOffset hd hk
  refine ⟨straightCorner (gib k) d, 1, [], h, straight_clean (gib_straight hd hk) (by linarith) (by norm_num) h.corners, straight_free (gib_straight hd hk) (by linarith) (by norm_num) h.corners,
    by rw [e]; exact gib_crossing (by linarith), by simp [CrossAtAngle], by rw [e]; exact gib_finds (by linarith), by rw [e]; exact gib_tests hd hk,
    fun i lo hi _ => ⟨lines_readable (gib_lines k) _ _, lines_readable (gib_lines k) _ _, lines_readable (gib_lines k) _ _⟩, by norm_num, by norm_num⟩

end

end Cavc
