import Verif.Lemmas.AnyRegion

/-! # The sum of the winding numbers of the results of the parallel offset of closed polylines of lines and arcs -/

set_option linter.unusedVariables false
set_option linter.unusedSectionVars false

namespace Cavc
open RealScalar Pline Filter Topology

theorem linePoint_end (a b : V2 ℝ) (t : ℝ) : edist (linePoint a b t) b = |1 - t| * edist a b := by
  unfold edist linePoint
  rw [← Real.sqrt_sq_eq_abs, ← Real.sqrt_mul (sq_nonneg _)]
  congr 1
  ring

/-- the points on the way to a nearest point -/
theorem ray_keeps {p : Pline ℝ} {Y F : V2 ℝ} {r s : ℝ} (hk : Keeps p r Y) (hF : edist Y F = r) (s1 : s ≤ 1) : Keeps p (s * r) (linePoint F Y s) := by
  intro q hq
  have h1 := hk q hq
  have h2 := edist_triangle Y (linePoint F Y s) q
  rw [edist_comm Y (linePoint F Y s), linePoint_end, abs_of_nonneg (by linarith), edist_comm F Y, hF] at h2
  linarith

theorem edist_lt_of {X Y : V2 ℝ} {ε : ℝ} (h : dist (X.x, X.y) (Y.x, Y.y) < ε) : edist X Y < 2 * ε := by
  have hε : 0 < ε := lt_of_le_of_lt dist_nonneg h
  rw [Prod.dist_eq, max_lt_iff, Real.dist_eq, Real.dist_eq, abs_lt, abs_lt] at h
  obtain ⟨⟨a1, a2⟩, b1, b2⟩ := h
  dsimp only at *
  unfold edist
  rw [Real.sqrt_lt' (by linarith)]
  nlinarith

section
variable {p : Pline ℝ} {d : ℝ} {c : Nat → Corner} {eps : ℝ} (he : 0 < eps) (h : ClearOffset p d c eps) (hC : CleanCorners p d c)
include he h

theorem parallel_reach {X : V2 ℝ} (hX : ParallelPt p d X) : ∃ q, OnPline p q ∧ edist X q ≤ |d| := by
  have hp := h.loop
  rcases hX.place with ⟨k, u, u0, u1, rfl⟩ | ⟨k, t, -, -, -, rfl⟩
  · refine ⟨segAt p k u, side_on hp k u0 u1, ?_⟩
    have := par_along hp he d 0 k u
    rw [parCurve_eq hp he 0, zero_mul, zero_mul, sub_zero, add_zero, sub_zero] at this
    exact this.le
  · exact ⟨cornerPos p (k + 1), vtx_on hp (k + 1), (cornerArc_dist (arrive_ne hp he k) d t).le⟩

include hC
variable (hs : SimpleLoop p) (hturn : ∀ k < p.verts.length, cornerSin p k = 0 → 0 < cornerCos p k)
variable {w : ℤ} (hw : ∀ i < p.verts.length, ∀ t, 0 < t → t < 1 → SidesAt p i w (sgPt p i t))
variable {E : List (Cut × Cut)} {rs : List (Pline ℝ)} (hl : ∀ r ∈ rs, Loop r) (hpass : PassedOn p (rawWith p d c) |d| E rs)
  (hcurve : ∀ X, (∃ r ∈ rs, OnPline r X) ↔ ParallelPt p d X) (hd : d ≠ 0)
include hs hturn hw hd

/-- on the side of the offset, a point at the distance of the offset is on the parallel curve -/
theorem on_side {Z F : V2 ℝ} (hk : Keeps p |d| Z) (hF : OnPline p F) (hZ : edist Z F = |d|) (hval : wnAt p Z = w + if 0 < d then 1 else 0) : ParallelPt p d Z := by
  rcases placed_any h.loop he hturn hk hF hZ with hP | hP
  · exact hP
  · exfalso
    have := sided_val_any h.loop he hs hw hturn (neg_ne_zero.mpr hd) hP
    rw [hval] at this
    rcases lt_or_gt_of_ne hd with h | h
    · rw [if_neg (by linarith), if_pos (by linarith)] at this; omega
    · rw [if_pos h, if_neg (by linarith)] at this; omega

include hl hpass hcurve

theorem good_value {w0 : ℤ} (hw0 : ∀ Y q, OnPline p q → edist Y q < |d| → allW rs Y = w0) {Y F : V2 ℝ} {r : ℝ} (hr : |d| < r) (hF : OnPline p F) (hYF : edist Y F = r) (hk : Keeps p r Y)
    (hval : wnAt p Y = w + if 0 < d then 1 else 0)
    (hv : ∀ j < (rawWith p d c).verts.length, linePoint F Y (|d| / r) ≠ cornerPos (rawWith p d c) j)
    (hx : ∀ x ∈ bothCuts E, linePoint F Y (|d| / r) ≠ curveAt (rawWith p d c) x.1 x.2) : allW rs Y = w0 + if 0 < d then 1 else -1 := by
  have hp := h.loop
  have hpl := hp.loop he
  have hD : 0 < |d| := abs_pos.mpr hd
  have hr0 : 0 < r := by linarith
  have hRn : 0 < (rawWith p d c).verts.length := by have := h.full.two; omega
  set s := |d| / r with hsdef
  have s0 : 0 < s := by positivity
  have s1 : s < 1 := (div_lt_one hr0).mpr hr
  have hsr : s * r = |d| := by rw [hsdef]; field_simp
  set Z := linePoint F Y s with hZ
  have hp1 : linePoint F Y 1 = Y := by simp [linePoint]
  have hZk : Keeps p |d| Z := by rw [← hsr]; exact ray_keeps hk hYF s1.le
  have hdF : ∀ τ, 0 ≤ τ → edist (linePoint F Y τ) F = τ * r := fun τ τ0 => by rw [linePoint_dist, abs_of_nonneg τ0, edist_comm F Y, hYF]
  have hZF : edist Z F = |d| := by rw [hdF s s0.le, hsr]
  have hZv : wnAt p Z = w + if 0 < d then 1 else 0 := by
    rw [← hval, ← hp1]
    refine wn_path hpl s1.le (line_continuous F Y).continuousOn fun τ τ0 τ1 hon => ?_
    have := ray_keeps hk hYF τ1 _ hon
    rw [edist_self] at this
    nlinarith
  have hZp : ParallelPt p d Z := on_side he h hC hs hturn hw hd hZk hF hZF hZv
  obtain ⟨e, hem, t, t0, t1, het⟩ := ((raw_parallel he h hC Z).mpr hZp).1
  rw [segs_range h.full.closed h.full.two] at hem
  obtain ⟨j, hj, rfl⟩ := List.mem_map.mp hem
  rw [List.mem_range] at hj
  have hjZ : Z = curveAt (rawWith p d c) j t := by rw [curveAt_vtx hRn]; exact het
  have t0' : 0 < t := lt_of_le_of_ne t0 fun ht => by
    subst ht
    refine hv j hj ?_
    rw [hjZ, curveAt_vtx hRn, (segCurve_ends _ _).1]; rfl
  have t1' : t < 1 := lt_of_le_of_ne t1 fun ht => by
    subst ht
    refine hv ((j + 1) % (rawWith p d c).verts.length) (Nat.mod_lt _ hRn) ?_
    rw [hjZ, curveAt_vtx hRn, (segCurve_ends _ _).2, cornerPos_mod]; rfl
  have hcut : (j, t) ∉ bothCuts E := fun hm => hx _ hm hjZ
  obtain ⟨a, b, dx, dy, G, l, hG, hl0, hdG, e1, e2⟩ := raw_foot he h hC (by rw [← arcParts_length (d := d)]; exact hj) t0 t1 (by rw [← hjZ]; exact hZk)
  rw [← hjZ] at hdG e1 e2
  have hGF : G = F := unique_foot s0 s1 hZ (by rw [hYF]; exact hk G hG) (by rw [hdG, hZF])
  subst hGF
  have hab : a ≠ 0 ∨ b ≠ 0 := by
    by_contra hcon
    push Not at hcon
    rw [hcon.1, mul_zero] at e2
    rw [hcon.2, mul_zero] at e1
    have := edist_sq Z G
    rw [hZF, e1, e2] at this
    nlinarith
  obtain ⟨δ, hδ, hjump⟩ := pass_jump_any hl hpass hj t0' t1' hcut (by rw [← hjZ]; exact hZk) hab dx dy
  rw [← hjZ] at hjump
  obtain ⟨k, k0, k1⟩ := exists_between (lt_min hδ (lt_min (mul_pos hl0 hD) (mul_pos (mul_pos hl0 hD) (show 0 < 1 / s - 1 by rw [sub_pos, lt_div_iff₀ s0]; linarith))))
  obtain ⟨k1, k2⟩ := lt_min_iff.mp k1
  obtain ⟨k2, k3⟩ := lt_min_iff.mp k2
  set κ := k / (l * |d|) with hκ
  have hld : 0 < l * |d| := mul_pos hl0 hD
  have κ0 : 0 < κ := by positivity
  have κ1 : κ < 1 := (div_lt_one hld).mpr k2
  have κ2 : s * (1 + κ) < 1 := by
    have : κ < 1 / s - 1 := by rw [hκ, div_lt_iff₀ hld]; linarith
    have := mul_lt_mul_of_pos_left this s0
    rw [mul_sub, mul_one_div_cancel s0.ne'] at this
    linarith
  have zx : Z.x - G.x = s * (Y.x - G.x) := by rw [hZ]; simp only [linePoint]; ring
  have zy : Z.y - G.y = s * (Y.y - G.y) := by rw [hZ]; simp only [linePoint]; ring
  have hkl : k = κ * (l * |d|) := by rw [hκ]; field_simp
  have hinner : allW rs (linePoint G Y (s * (1 - κ))) = w0 := by
    refine hw0 _ G hF ?_
    rw [hdF _ (mul_nonneg s0.le (by linarith))]
    nlinarith
  have houter : allW rs (linePoint G Y (s * (1 + κ))) = allW rs Y := by
    have := allW_path hl (γ := linePoint G Y) (a := s * (1 + κ)) (b := 1) (line_continuous G Y).continuousOn (fun τ hτ r' hr' hon => by
      rw [Set.uIcc_of_le κ2.le] at hτ
      obtain ⟨q, hq, hle⟩ := parallel_reach he h ((hcurve _).mp ⟨r', hr', hon⟩)
      have h3 := ray_keeps hk hYF hτ.2 q hq
      have h4 := mul_le_mul_of_nonneg_right hτ.1 hr0.le
      nlinarith [mul_pos (mul_pos s0 κ0) hr0])
    rw [hp1] at this
    exact this
  have hj2 := hjump k k0 k1
  rcases lt_or_gt_of_ne hd with hneg | hpos
  · have p1 : (⟨Z.x - k * b, Z.y + k * a⟩ : V2 ℝ) = linePoint G Y (s * (1 - κ)) := by
      rw [abs_of_neg hneg] at hkl
      rw [V2.ext_iff']
      simp only [linePoint]
      constructor
      · linear_combination (1 - κ) * zx + κ * e1 - b * hkl
      · linear_combination (1 - κ) * zy + κ * e2 + a * hkl
    have p2 : (⟨Z.x + k * b, Z.y - k * a⟩ : V2 ℝ) = linePoint G Y (s * (1 + κ)) := by
      rw [abs_of_neg hneg] at hkl
      rw [V2.ext_iff']
      simp only [linePoint]
      constructor
      · linear_combination (1 + κ) * zx - κ * e1 + b * hkl
      · linear_combination (1 + κ) * zy - κ * e2 - a * hkl
    rw [p1, p2, hinner, houter] at hj2
    rw [if_neg (by linarith)]
    omega
  · have p1 : (⟨Z.x - k * b, Z.y + k * a⟩ : V2 ℝ) = linePoint G Y (s * (1 + κ)) := by
      rw [abs_of_pos hpos] at hkl
      rw [V2.ext_iff']
      simp only [linePoint]
      constructor
      · linear_combination (1 + κ) * zx - κ * e1 - b * hkl
      · linear_combination (1 + κ) * zy - κ * e2 + a * hkl
    have p2 : (⟨Z.x + k * b, Z.y - k * a⟩ : V2 ℝ) = linePoint G Y (s * (1 - κ)) := by
      rw [abs_of_pos hpos] at hkl
      rw [V2.ext_iff']
      simp only [linePoint]
      constructor
      · linear_combination (1 - κ) * zx + κ * e1 + b * hkl
      · linear_combination (1 - κ) * zy + κ * e2 - a * hkl
    rw [p1, p2, hinner, houter] at hj2
    rw [if_pos hpos]
    exact hj2

omit he h hC hs hturn hw hl hpass hcurve in
/-- The points on the way from which to a nearest point there is a given point, at the distance `|d|`, are on a line. -/
theorem bad_line (b : V2 ℝ) : ∃ l : ℝ × ℝ × ℝ, (l.1 ≠ 0 ∨ l.2.1 ≠ 0) ∧ ∀ (Y F : V2 ℝ) (r : ℝ), |d| < r → OnPline p F → edist Y F = r → Keeps p r Y → b = linePoint F Y (|d| / r) →
    l.1 * Y.x + l.2.1 * Y.y = l.2.2 := by
  have hD : 0 < |d| := abs_pos.mpr hd
  by_cases hex : ∃ (Y F : V2 ℝ) (r : ℝ), |d| < r ∧ OnPline p F ∧ edist Y F = r ∧ Keeps p r Y ∧ b = linePoint F Y (|d| / r)
  · obtain ⟨Y1, F1, r1, a1, a2, a3, a4, a5⟩ := hex
    have hb : ∀ (Y F : V2 ℝ) (r : ℝ), |d| < r → edist Y F = r → b = linePoint F Y (|d| / r) → edist b F = |d| := fun Y F r c1 c2 c3 => by
      have : 0 < r := by linarith
      rw [c3, linePoint_dist, abs_of_nonneg (by positivity), edist_comm, c2]; field_simp
    have hb1 := hb Y1 F1 r1 a1 a3 a5
    refine ⟨(-(b.y - F1.y), b.x - F1.x, -(b.y - F1.y) * F1.x + (b.x - F1.x) * F1.y), ?_, fun Y F r c1 c2 c3 c4 c5 => ?_⟩
    · by_contra hcon
      push Not at hcon
      dsimp only at hcon
      have := edist_sq b F1
      rw [hb1, hcon.2, show b.y - F1.y = 0 by linarith [hcon.1]] at this
      nlinarith
    · have r0 : 0 < r := by linarith
      have hFF : F1 = F := unique_foot (s := |d| / r) (by positivity) ((div_lt_one r0).mpr c1) c5 (by rw [c3]; exact c4 F1 a2) (by rw [hb1, hb Y F r c1 c3 c5])
      subst hFF
      have bx : b.x - F1.x = |d| / r * (Y.x - F1.x) := by rw [c5]; simp only [linePoint]; ring
      have by' : b.y - F1.y = |d| / r * (Y.y - F1.y) := by rw [c5]; simp only [linePoint]; ring
      dsimp only
      rw [bx, by']
      ring
  · refine ⟨(1, 0, 0), Or.inl one_ne_zero, fun Y F r c1 c2 c3 c4 c5 => ?_⟩
    exact absurd ⟨Y, F, r, c1, c2, c3, c4, c5⟩ hex

/-- The sum of the winding numbers of the results. -/
theorem region_any : ∃ w0, ∀ Y, (∀ r ∈ rs, ¬ OnPline r Y) →
      (¬ OnPline p Y → Keeps p |d| Y → (wnAt p Y = w + if 0 < d then 1 else 0) → allW rs Y = w0 + if 0 < d then 1 else -1) ∧
      ((OnPline p Y ∨ ¬ Keeps p |d| Y ∨ wnAt p Y ≠ w + if 0 < d then 1 else 0) → allW rs Y = w0) := by
  have hp := h.loop
  have hpl := hp.loop he
  have hD : 0 < |d| := abs_pos.mpr hd
  obtain ⟨w0, hw0⟩ := tube_const hpl hl hD (fun r hr X hX => ((hcurve X).mp ⟨r, hr, hX⟩).keeps)
  refine ⟨w0, fun Y hY => ⟨fun hon hkd hval => ?_, fun hcond => ?_⟩⟩
  · obtain ⟨r, hr0, F, hF, hYF, hk⟩ := nearest_any hpl hon
    have hle : |d| ≤ r := by rw [← hYF]; exact hkd F hF
    rcases lt_or_eq_of_le hle with hlt | heq
    · -- all points near by
      have near : ∀ X, edist X Y < r - |d| → ∀ q, OnPline p q → |d| < edist X q := fun X hX q hq => by
        have h1 := hk q hq
        have h2 := edist_triangle Y X q
        rw [edist_comm] at hX
        linarith
      have off : ∀ X, edist X Y < r - |d| → ¬ OnPline p X ∧ ∀ r' ∈ rs, ¬ OnPline r' X := fun X hX => by
        refine ⟨fun hon' => ?_, fun r' hr' hon' => ?_⟩
        · have := near X hX X hon'
          rw [edist_self] at this
          linarith
        · obtain ⟨q, hq, hle⟩ := parallel_reach he h ((hcurve _).mp ⟨r', hr', hon'⟩)
          have := near X hX q hq
          linarith
      choose line hline using fun b : V2 ℝ => bad_line (p := p) (d := d) hd b
      set B : List (V2 ℝ) := (List.range (rawWith p d c).verts.length).map (cornerPos (rawWith p d c)) ++ (bothCuts E).map fun x => curveAt (rawWith p d c) x.1 x.2 with hB
      obtain ⟨z, hz1, hz2⟩ := off_lines (B.map line) (fun l hl => by obtain ⟨b, -, rfl⟩ := List.mem_map.mp hl; exact (hline b).1) (Y.x, Y.y) ((r - |d|) / 2) (by linarith)
      set Y' : V2 ℝ := ⟨z.1, z.2⟩ with hY'
      have hYY : edist Y' Y < r - |d| := by
        have := edist_lt_of (X := Y') (Y := Y) (show dist (Y'.x, Y'.y) (Y.x, Y.y) < (r - |d|) / 2 from hz1)
        linarith
      have hway : ∀ t, 0 ≤ t → t ≤ 1 → edist (linePoint Y Y' t) Y < r - |d| := fun t t0 t1 => by
        rw [linePoint_dist, abs_of_nonneg t0, edist_comm]
        have := edist_nonneg Y' Y
        nlinarith
      have q0 : linePoint Y Y' 0 = Y := by simp [linePoint]
      have q1 : linePoint Y Y' 1 = Y' := by simp [linePoint]
      have g1 := allW_path hl (γ := linePoint Y Y') (a := 0) (b := 1) (line_continuous Y Y').continuousOn (fun t ht r' hr' => by
        rw [Set.uIcc_of_le zero_le_one] at ht
        exact (off _ (hway t ht.1 ht.2)).2 r' hr')
      have g2 := wn_path hpl (γ := linePoint Y Y') zero_le_one (line_continuous Y Y').continuousOn (fun t t0 t1 => (off _ (hway t t0 t1)).1)
      rw [q0, q1] at g1 g2
      rw [g1]
      rw [g2] at hval
      obtain ⟨r', hr0', F', hF', hYF', hk'⟩ := nearest_any hpl (off Y' hYY).1
      have hlt' : |d| < r' := by rw [← hYF']; exact near Y' hYY F' hF'
      have hnot : ∀ b ∈ B, linePoint F' Y' (|d| / r') ≠ b := fun b hb heq =>
        hz2 (line b) (List.mem_map.mpr ⟨b, hb, rfl⟩) ((hline b).2 Y' F' r' hlt' hF' hYF' hk' heq.symm)
      refine good_value he h hC hs hturn hw hl hpass hcurve hd hw0 hlt' hF' hYF' hk' hval (fun j hj => hnot _ ?_) (fun x hx => hnot _ ?_)
      · exact List.mem_append_left _ (List.mem_map.mpr ⟨j, List.mem_range.mpr hj, rfl⟩)
      · exact List.mem_append_right _ (List.mem_map.mpr ⟨x, hx, rfl⟩)
    · exfalso
      obtain ⟨r', hr', hon'⟩ := (hcurve Y).mpr (on_side he h hC hs hturn hw hd hkd hF (hYF.trans heq.symm) hval)
      exact hY r' hr' hon'
  · by_cases hon : OnPline p Y
    · exact hw0 Y Y hon (by rw [edist_self]; exact hD)
    · rcases hcond with h' | h' | h'
      · exact absurd h' hon
      · unfold Keeps at h'
        push Not at h'
        obtain ⟨q, hq, hlt⟩ := h'
        exact hw0 Y q hq hlt
      · obtain ⟨r, hr0, F, hF, hYF, hk⟩ := nearest_any hpl hon
        have hp1 : linePoint F Y 1 = Y := by simp [linePoint]
        have hwn : ∀ s, 0 < s → s ≤ 1 → wnAt p (linePoint F Y s) = wnAt p Y := by
          intro s s0 s1
          have := wn_path hpl (γ := linePoint F Y) s1 (line_continuous F Y).continuousOn (fun t t0 t1 hon' => by
            have := ray_keeps hk hYF t1 _ hon'
            rw [edist_self] at this
            have := mul_pos (lt_of_lt_of_le s0 t0) hr0
            linarith)
          rw [hp1] at this
          exact this
        obtain ⟨s, s0, s1, hclose⟩ : ∃ s, 0 < s ∧ s ≤ 1 ∧ s * r < |d| := by
          by_cases hrd : r < |d|
          · exact ⟨1, one_pos, le_rfl, by linarith⟩
          · push Not at hrd
            refine ⟨|d| / (2 * r), by positivity, ?_, ?_⟩
            · rw [div_le_one (by linarith)]; linarith
            · have : |d| / (2 * r) * r = |d| / 2 := by field_simp
              rw [this]; linarith
        have e1 := allW_path hl (γ := linePoint F Y) (a := s) (b := 1) (line_continuous F Y).continuousOn (fun x hx r' hr' hon' => by
          rw [Set.uIcc_of_le s1] at hx
          have h1 := sided_val_any hp he hs hw hturn hd ((hcurve _).mp ⟨r', hr', hon'⟩)
          rw [hwn x (by linarith [hx.1]) hx.2] at h1
          exact h' h1)
        rw [hp1] at e1
        rw [← e1]
        refine hw0 _ F hF ?_
        rw [linePoint_dist, abs_of_pos s0, edist_comm, hYF]
        exact hclose

end
end Cavc
