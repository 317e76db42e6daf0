import Verif.Spec.ShapeCross
import Verif.Lemmas.ShapeFollows

/-! # Where the offset loops of a shape cross at an angle, the distance from the other polylines is given up or regained -/

set_option linter.unusedVariables false
set_option linter.unusedSectionVars false

namespace Cavc
open RealScalar Pline Filter Topology

theorem loopsOf_split {loops : List (OffsetLoop ℝ)} {i : Nat} {l : OffsetLoop ℝ} (hi : loops[i]? = some l) : ∃ P Q, loopsOf loops l.parent = P ++ l.ip.pline :: Q ∧
    ∀ q ∈ P ++ Q, ∃ (i' : Nat) (m : OffsetLoop ℝ), i' ≠ i ∧ loops[i']? = some m ∧ m.parent = l.parent ∧ m.ip.pline = q := by
  obtain ⟨hil, rfl⟩ := List.getElem?_eq_some_iff.mp hi
  have hsplit : loops = loops.take i ++ loops[i] :: loops.drop (i + 1) := by simp
  refine ⟨loopsOf (loops.take i) loops[i].parent, loopsOf (loops.drop (i + 1)) loops[i].parent, ?_, ?_⟩
  · have key : ∀ j, loops[i].parent = j → loopsOf loops j = loopsOf (loops.take i) j ++ loops[i].ip.pline :: loopsOf (loops.drop (i + 1)) j := by
      intro j hj
      unfold loopsOf
      conv_lhs => rw [hsplit]
      rw [List.filter_append, List.filter_cons_of_pos (by simp [hj]), List.map_append, List.map_cons]
    exact key _ rfl
  · intro q hq
    rcases List.mem_append.mp hq with hq | hq
    · obtain ⟨m, hm, rfl⟩ := List.mem_map.mp hq
      obtain ⟨hm, e⟩ := List.mem_filter.mp hm
      obtain ⟨i', hi', rfl⟩ := List.getElem_of_mem hm
      rw [List.length_take] at hi'
      exact ⟨i', _, by omega, by rw [List.getElem_take]; exact List.getElem?_eq_getElem _, by simpa using e, rfl⟩
    · obtain ⟨m, hm, rfl⟩ := List.mem_map.mp hq
      obtain ⟨hm, e⟩ := List.mem_filter.mp hm
      obtain ⟨i', hi', rfl⟩ := List.getElem_of_mem hm
      exact ⟨i + 1 + i', _, by omega, by rw [List.getElem_drop]; exact List.getElem?_eq_getElem _, by simpa using e, rfl⟩

section
variable {inputs : List (IndexedPline ℝ)} {loops : List (OffsetLoop ℝ)} {d eps gap : ℝ} {C : Nat → List Cut} {σ : Nat → ℤ}

theorem loopsOf_mem {j : Nat} {l : OffsetLoop ℝ} (hl : l ∈ loops) (hj : l.parent = j) : l.ip.pline ∈ loopsOf loops j :=
  List.mem_map.mpr ⟨_, List.mem_filter.mpr ⟨hl, by simp [hj]⟩, rfl⟩

theorem mem_loopsOf {j : Nat} {r : Pline ℝ} (hr : r ∈ loopsOf loops j) : ∃ l ∈ loops, l.parent = j ∧ l.ip.pline = r := by
  obtain ⟨l, hl, rfl⟩ := List.mem_map.mp hr
  obtain ⟨hl, e⟩ := List.mem_filter.mp hl
  exact ⟨l, hl, by simpa using e, rfl⟩

/-- the offset loops of one polyline follow it -/
theorem alone_follows (he : 0 < eps) (hd : d ≠ 0) {p : Pline ℝ} (hp : Loop p) (hs : SimpleLoop p) {j : Nat} {s : ℤ} (hσ : TurnsLike p s)
    (hal : Alongside p d s (loopsOf loops j)) (hf : ∀ l ∈ loops, FullLoop l.ip.pline eps) (hls : ∀ l ∈ loops, SimpleLoop l.ip.pline)
    (hC : ShapeCuts loops eps gap C) : ∃ w : ℤ, (if 0 < d * s then s else 0) = w + (if 0 < d then 1 else 0) ∧
    FollowsAll [p] (loopsOf loops j) |d| (if 0 < d then w else w + 1) (if 0 < d then 1 else -1) (specialPts loops C) := by
  obtain ⟨w, -, hw, htwo⟩ := two_numbers hp hs
  have hw0 := hw 0 (by have := hp.two; omega) (1 / 2) (by norm_num) (by norm_num)
  have hside := turns_side hp hs hσ hw0 hd
  have hone : ∀ X, allW [p] X = p.windingNumber X := fun X => by simp [allW, wnAt, wn]
  have hRS : ∀ r ∈ loopsOf loops j, Loop r := by
    intro r hr
    obtain ⟨l, hl, -, rfl⟩ := mem_loopsOf hr
    exact (hf l hl).loop he
  refine ⟨w, hside, abs_pos.mpr hd, by split_ifs <;> simp, by simpa using hp, ?_, fun X hX => ?_, hRS, fun X => ?_, fun X hX hB => ?_, ?_⟩
  · intro a ha b hb hne
    rw [List.mem_singleton] at ha hb
    exact absurd (ha.trans hb.symm) hne
  · have := htwo (X.x, X.y) (hX p (by simp))
    change p.windingNumber X = w ∨ p.windingNumber X = w + 1 at this
    rw [hone]
    split_ifs <;> omega
  · rw [hal.points X, hone, hside]
    simp only [List.mem_singleton, forall_eq, exists_eq_left]
    have : (if 0 < d then w else w + 1) + (if 0 < d then 1 else -1) = w + if 0 < d then 1 else 0 := by split_ifs <;> ring
    rw [this]
  · obtain ⟨r, hr, hon⟩ := hX
    obtain ⟨l, hl, rfl, rfl⟩ := mem_loopsOf hr
    obtain ⟨i, hi, rfl⟩ := List.getElem_of_mem hl
    have hi' := List.getElem?_eq_getElem hi
    set l := loops[i] with hldef
    have hfl := hf l hl
    have hn : 0 < l.ip.pline.verts.length := by have := hfl.two; omega
    obtain ⟨k, t, hkn, t0, t1, rfl⟩ := (loop_on hfl X).mp hon
    have t0 : 0 < t := by
      refine lt_of_le_of_ne t0 ?_
      rintro rfl
      exact hB (corner_special hl hn k)
    have t1 : t < 1 := by
      refine lt_of_le_of_ne t1 ?_
      rintro rfl
      rw [curveAt_join hn] at hB
      exact hB (corner_special hl hn (k + 1))
    have hcut : (k, t) ∉ C i := fun h => hB (cut_special hi' h)
    obtain ⟨F, a', b', m, hF, e, dx, dy, hm, ex, ey⟩ := hal.along _ hr k t hkn t0 t1
    have hab : a' ≠ 0 ∨ b' ≠ 0 := by
      by_contra h
      push Not at h
      have : edist (curveAt l.ip.pline k t) F = 0 := by
        unfold edist
        rw [ex, ey, h.1, h.2]
        simp
      rw [e] at this
      exact hd (abs_eq_zero.mp this)
    obtain ⟨P, Q, hPQ, hoth⟩ := loopsOf_split hi'
    obtain ⟨L1, L2, hL⟩ := List.append_of_mem (List.mem_range.mpr hkn)
    have hsegs : l.ip.pline.segs = L1.map (sg l.ip.pline) ++ sg l.ip.pline k :: L2.map (sg l.ip.pline) := by
      rw [segs_range hfl.closed hfl.two, hL, List.map_append, List.map_cons]
      rfl
    have hnd := List.nodup_range (n := l.ip.pline.verts.length)
    rw [hL] at hnd
    have hnd := List.nodup_append.mp hnd
    have hperm : ((loopsOf loops l.parent).flatMap fun r => r.segs.map strip).Perm
        (((P.flatMap fun r => r.segs.map strip) ++ (L1.map (sg l.ip.pline)).map strip) ++ strip (sg l.ip.pline k) ::
          ((L2.map (sg l.ip.pline)).map strip ++ Q.flatMap fun r => r.segs.map strip)) := by
      rw [hPQ, List.flatMap_append, List.flatMap_cons, hsegs]
      simp
    have hoff : ∀ e' ∈ ((P.flatMap fun r => r.segs.map strip) ++ (L1.map (sg l.ip.pline)).map strip) ++
          ((L2.map (sg l.ip.pline)).map strip ++ Q.flatMap fun r => r.segs.map strip),
        ((curveAt l.ip.pline k t).x, (curveAt l.ip.pline k t).y) ∉ segTrace e' := by
      intro e' he' hon
      have hcase : (∃ q ∈ P ++ Q, ∃ s ∈ q.segs, strip s = e') ∨ ∃ k' ∈ L1 ++ L2, strip (sg l.ip.pline k') = e' := by
        rw [List.mem_append, List.mem_append, List.mem_append, List.mem_flatMap, List.mem_flatMap] at he'
        rcases he' with (⟨q, hq, h⟩ | h) | (h | ⟨q, hq, h⟩)
        · obtain ⟨s, hs, rfl⟩ := List.mem_map.mp h
          exact Or.inl ⟨q, by simp [hq], s, hs, rfl⟩
        · rw [List.map_map] at h
          obtain ⟨k', hk', rfl⟩ := List.mem_map.mp h
          exact Or.inr ⟨k', by simp [hk'], rfl⟩
        · rw [List.map_map] at h
          obtain ⟨k', hk', rfl⟩ := List.mem_map.mp h
          exact Or.inr ⟨k', by simp [hk'], rfl⟩
        · obtain ⟨s, hs, rfl⟩ := List.mem_map.mp h
          exact Or.inl ⟨q, by simp [hq], s, hs, rfl⟩
      rcases hcase with ⟨q, hq, s', hs', rfl⟩ | ⟨k', hk', rfl⟩
      · obtain ⟨i', m', hne, hm', -, rfl⟩ := hoth q hq
        exact hcut (hC.all i l hi' i' m' hm' hne k t hkn t0.le t1.le ⟨s', hs', hon⟩)
      · have hk'n : k' < l.ip.pline.verts.length := by
          rw [← List.mem_range, hL]
          rcases List.mem_append.mp hk' with h | h <;> simp [h]
        have hne : k' ≠ k := by
          rintro rfl
          rcases List.mem_append.mp hk' with h | h
          · exact hnd.2.2 k' h k' (by simp) rfl
          · exact (List.nodup_cons.mp hnd.2.1).1 h
        obtain ⟨u, u0, u1, hu⟩ := hon
        refine hne (simple_once hn (hls l hl) hkn t0 t1 k' u hk'n u0 u1 ?_).1
        rw [curveAt_vtx hn k' u]
        exact hu.symm
    obtain ⟨δ, hδ, hjump⟩ := path_jump (R := l.ip.pline) (j := k) (t := t) (lo := 0) (hi := 1) hRS hperm hoff t0 t1 (fun s => by
      rw [strip_curve, curveAt_vtx hn]; simp [sg]) hab dx dy
    refine ⟨p, by simp, F, hF, e, δ / (m * |d|), by positivity, fun κ κ0 κ1 => ?_⟩
    have hmd : 0 < m * |d| := mul_pos hm (abs_pos.mpr hd)
    rw [lt_div_iff₀ hmd] at κ1
    have := hjump (κ * (m * |d|)) (by positivity) κ1
    rcases lt_or_gt_of_ne hd with h | h
    · rw [abs_of_neg h] at this
      have e1 : linePoint F (curveAt l.ip.pline k t) (1 + κ) = ⟨(curveAt l.ip.pline k t).x + κ * (m * -d) * b', (curveAt l.ip.pline k t).y - κ * (m * -d) * a'⟩ := by
        unfold linePoint
        congr 1
        · linear_combination κ * ex
        · linear_combination κ * ey
      have e2 : linePoint F (curveAt l.ip.pline k t) (1 - κ) = ⟨(curveAt l.ip.pline k t).x - κ * (m * -d) * b', (curveAt l.ip.pline k t).y + κ * (m * -d) * a'⟩ := by
        unfold linePoint
        congr 1
        · linear_combination -κ * ex
        · linear_combination -κ * ey
      rw [e1, e2, this, if_neg (not_lt.mpr h.le)]
      ring
    · rw [abs_of_pos h] at this
      have e1 : linePoint F (curveAt l.ip.pline k t) (1 + κ) = ⟨(curveAt l.ip.pline k t).x - κ * (m * d) * b', (curveAt l.ip.pline k t).y + κ * (m * d) * a'⟩ := by
        unfold linePoint
        congr 1
        · linear_combination κ * ex
        · linear_combination κ * ey
      have e2 : linePoint F (curveAt l.ip.pline k t) (1 - κ) = ⟨(curveAt l.ip.pline k t).x + κ * (m * d) * b', (curveAt l.ip.pline k t).y - κ * (m * d) * a'⟩ := by
        unfold linePoint
        congr 1
        · linear_combination -κ * ex
        · linear_combination -κ * ey
      rw [e1, e2, this, if_pos h]
  · intro X hX a ha b hb hne
    rw [List.mem_singleton] at ha hb
    exact absurd (ha.trans hb.symm) hne

/-- Near a point of an offset loop, the polyline it comes from is far enough away on one side of the loop only: on the left for positive offsets. -/
theorem alone_sides (he : 0 < eps) (hd : d ≠ 0) {p : Pline ℝ} (hp : Loop p) (hs : SimpleLoop p) {j : Nat} {m : OffsetLoop ℝ} (hj : loops[j]? = some m) {s : ℤ} (hσ : TurnsLike p s)
    (hal : Alongside p d s (loopsOf loops m.parent)) (hf : ∀ l ∈ loops, FullLoop l.ip.pline eps) (hls : ∀ l ∈ loops, SimpleLoop l.ip.pline)
    (hC : ShapeCuts loops eps gap C) {k : Nat} {t : ℝ} (hk : k < m.ip.pline.verts.length) (t0 : 0 < t) (t1 : t < 1)
    (hoth : ∀ (i : Nat) (l : OffsetLoop ℝ), i ≠ j → loops[i]? = some l → l.parent = m.parent → ¬ OnPline l.ip.pline (curveAt m.ip.pline k t)) :
    ∀ᶠ z : ℝ × ℝ in 𝓝 (sgPt m.ip.pline k t), sideOf (sg m.ip.pline k) z ≠ 0 → (Keeps p |d| ⟨z.1, z.2⟩ ↔ (0 < d ↔ 0 < sideOf (sg m.ip.pline k) z)) := by
  classical
  have hm := List.mem_of_getElem? hj
  have hfl := hf m hm
  have hlm := hfl.loop he
  have hn : 0 < m.ip.pline.verts.length := by have := hfl.two; omega
  obtain ⟨w, hside, hfol⟩ := alone_follows (C := C) he hd hp hs hσ hal hf hls hC
  set Z := sgPt m.ip.pline k t with hZ
  have hZc : (⟨Z.1, Z.2⟩ : V2 ℝ) = curveAt m.ip.pline k t := by rw [curveAt_vtx hn]; rfl
  obtain ⟨wm, hwm⟩ := sides_local hlm (hls m hm) hk t0 t1
  obtain ⟨P, Q, hPQ, hPQo⟩ := loopsOf_split hj
  have hother : ∀ᶠ z in 𝓝 Z, ∀ q ∈ P ++ Q, z ∉ trace q ∧ wn q z = wn q Z := by
    refine (eventually_all_finite (List.finite_toSet (P ++ Q))).mpr fun q hq => ?_
    obtain ⟨i', l', hne, hl', hpar, rfl⟩ := hPQo q hq
    obtain ⟨δ, hδ, hb⟩ := wn_locally ((hf l' (List.mem_of_getElem? hl')).loop he) (z := Z) (by
      intro hon
      refine hoth i' l' hne hl' hpar ?_
      rw [← hZc]
      exact hon)
    filter_upwards [Metric.ball_mem_nhds Z hδ] with z hz
    exact hb z hz
  obtain ⟨hkZ, -, hwZ⟩ := (hal.points ⟨Z.1, Z.2⟩).mp ⟨_, loopsOf_mem hm rfl, by
    rw [hZc]; exact (loop_on hfl _).mpr ⟨k, t, hk, t0.le, t1.le, rfl⟩⟩
  have hpZ : Z ∉ trace p := by
    intro hon
    have := hkZ _ hon
    rw [edist_self] at this
    exact absurd this (not_le.mpr (abs_pos.mpr hd))
  have hinp : ∀ᶠ z in 𝓝 Z, wn p z = wn p Z := by
    obtain ⟨δ, hδ, hb⟩ := wn_locally hp hpZ
    filter_upwards [Metric.ball_mem_nhds Z hδ] with z hz
    exact (hb z hz).2
  set K := allW (P ++ Q) ⟨Z.1, Z.2⟩ with hK
  have hev : ∀ᶠ z in 𝓝 Z, sideOf (sg m.ip.pline k) z ≠ 0 → (K + wm + if 0 < sideOf (sg m.ip.pline k) z then 1 else 0) =
      if Keeps p |d| ⟨z.1, z.2⟩ then w + (if 0 < d then 1 else 0) else if 0 < d then w else w + 1 := by
    filter_upwards [hwm, hother, hinp] with z h1 h2 h3 hz
    obtain ⟨o1, e1⟩ := h1 hz
    have hreg := hfol.region ⟨z.1, z.2⟩ fun r hr hon => by
      rw [hPQ, List.mem_append, List.mem_cons] at hr
      rcases hr with hr | rfl | hr
      · exact (h2 r (by simp [hr])).1 hon
      · exact o1 hon
      · exact (h2 r (by simp [hr])).1 hon
    have e2 : allW (P ++ Q) ⟨z.1, z.2⟩ = K := sum_const fun q hq => (h2 q hq).2
    have e3 : allW [p] ⟨z.1, z.2⟩ = w + if 0 < d then 1 else 0 := by
      rw [← hside, ← hwZ]
      have : allW [p] ⟨z.1, z.2⟩ = wn p z := by simp [allW, wnAt]
      rw [this, h3]
      rfl
    have e4 : wnAt m.ip.pline ⟨z.1, z.2⟩ = wn m.ip.pline z := rfl
    rw [hPQ, allW_split, e2, e4, e1, e3] at hreg
    simp only [List.mem_singleton, forall_eq] at hreg
    rw [← hreg]
    ring
  obtain ⟨⟨a, b⟩, hder⟩ := segCurve_deriv (sg m.ip.pline k) t
  obtain ⟨g1, g2⟩ := side_normal (sg_proper hlm hk) (sg_ne hlm (hls m hm) hk) t hder.fst hder.snd
  have c1 : Tendsto (fun u : ℝ => (Z.1 - u * b, Z.2 + u * a)) (𝓝[>] 0) (𝓝 Z) := by
    have : ContinuousAt (fun u : ℝ => (Z.1 - u * b, Z.2 + u * a)) 0 := by fun_prop
    have h := this.tendsto.mono_left (nhdsWithin_le_nhds (s := Set.Ioi (0 : ℝ)))
    simpa using h
  have c2 : Tendsto (fun u : ℝ => (Z.1 + u * b, Z.2 - u * a)) (𝓝[>] 0) (𝓝 Z) := by
    have : ContinuousAt (fun u : ℝ => (Z.1 + u * b, Z.2 - u * a)) 0 := by fun_prop
    have h := this.tendsto.mono_left (nhdsWithin_le_nhds (s := Set.Ioi (0 : ℝ)))
    simpa using h
  obtain ⟨u1, hu1, hv1⟩ := (g1.and (c1.eventually hev)).exists
  obtain ⟨u2, hu2, hv2⟩ := (g2.and (c2.eventually hev)).exists
  change 0 < sideOf (sg m.ip.pline k) (Z.1 - u1 * b, Z.2 + u1 * a) at hu1
  change sideOf (sg m.ip.pline k) (Z.1 + u2 * b, Z.2 - u2 * a) < 0 at hu2
  have k1 := hv1 (ne_of_gt hu1)
  have k2 := hv2 (ne_of_lt hu2)
  rw [if_pos hu1] at k1
  rw [if_neg (not_lt.mpr (le_of_lt hu2))] at k2
  have hKw : K + wm = w := by
    split_ifs at k1 k2 <;> omega
  filter_upwards [hev] with z hz hne
  have := hz hne
  rw [hKw] at this
  split_ifs at this <;> first | omega | tauto

/-- along a curve that crosses an offset loop at an angle -/
theorem cross_sides (he : 0 < eps) (hd : d ≠ 0) {p : Pline ℝ} (hp : Loop p) (hs : SimpleLoop p) {j : Nat} {m : OffsetLoop ℝ} (hj : loops[j]? = some m) {s : ℤ} (hσ : TurnsLike p s)
    (hal : Alongside p d s (loopsOf loops m.parent)) (hf : ∀ l ∈ loops, FullLoop l.ip.pline eps) (hls : ∀ l ∈ loops, SimpleLoop l.ip.pline)
    (hC : ShapeCuts loops eps gap C) {k : Nat} {t : ℝ} (hk : k < m.ip.pline.verts.length) (t0 : 0 < t) (t1 : t < 1)
    (hoth : ∀ (i : Nat) (l : OffsetLoop ℝ), i ≠ j → loops[i]? = some l → l.parent = m.parent → ¬ OnPline l.ip.pline (curveAt m.ip.pline k t))
    {γ : ℝ → V2 ℝ} {τ a b a' b' : ℝ} (hγ : γ τ = curveAt m.ip.pline k t) (dx : HasDerivAt (fun s => (γ s).x) a τ) (dy : HasDerivAt (fun s => (γ s).y) b τ)
    (dx' : HasDerivAt (fun s => (curveAt m.ip.pline k s).x) a' t) (dy' : HasDerivAt (fun s => (curveAt m.ip.pline k s).y) b' t) (hχ : a' * b - b' * a ≠ 0) :
    (∀ᶠ u in 𝓝[>] τ, (Keeps p |d| (γ u) ↔ (0 < d ↔ 0 < a' * b - b' * a))) ∧ ∀ᶠ u in 𝓝[<] τ, (Keeps p |d| (γ u) ↔ (0 < d ↔ a' * b - b' * a < 0)) := by
  have hm := List.mem_of_getElem? hj
  have hfl := hf m hm
  have hlm := hfl.loop he
  have hn : 0 < m.ip.pline.verts.length := by have := hfl.two; omega
  have hev := alone_sides he hd hp hs hj hσ hal hf hls hC hk t0 t1 hoth
  obtain ⟨a2, b2, -, hx2, hy2, hd2, -⟩ := seg_tangent (sg_proper hlm hk) (sg_ne hlm (hls m hm) hk) t
  have ecurve : ∀ s, curveAt m.ip.pline k s = segCurve (sg m.ip.pline k).1 (sg m.ip.pline k).2 s := fun s => curveAt_vtx hn k s
  simp only [ecurve] at dx' dy' hγ
  obtain rfl := dx'.unique hx2
  obtain rfl := dy'.unique hy2
  have hder := hd2 _ _ _ _ τ dx dy (by rw [hγ]) (by rw [hγ])
  have hz0 : sideOf (sg m.ip.pline k) ((γ τ).x, (γ τ).y) = 0 := by rw [hγ]; exact sideOf_curve (sg_proper hlm hk) t
  have hcont : Tendsto (fun u => ((γ u).x, (γ u).y)) (𝓝 τ) (𝓝 (sgPt m.ip.pline k t)) := by
    have : ContinuousAt (fun u => ((γ u).x, (γ u).y)) τ := dx.continuousAt.prodMk dy.continuousAt
    have h := this.tendsto
    rw [hγ] at h
    exact h
  have e1 := (hcont.mono_left (nhdsWithin_le_nhds (s := Set.Ioi τ))).eventually hev
  have e2 := (hcont.mono_left (nhdsWithin_le_nhds (s := Set.Iio τ))).eventually hev
  rcases lt_or_gt_of_ne hχ with h | h
  · have f1 := pos_after hder.neg (by simpa using hz0) (by linarith)
    have f2 := pos_before hder hz0 h
    constructor
    · filter_upwards [e1, f1] with u hu hv
      have hv : sideOf (sg m.ip.pline k) ((γ u).x, (γ u).y) < 0 := by simpa using hv
      have := hu (ne_of_lt hv)
      rw [this]
      simp [not_lt.mpr hv.le, not_lt.mpr h.le]
    · filter_upwards [e2, f2] with u hu hv
      have := hu (ne_of_gt hv)
      rw [this]
      simp [hv, h]
  · have f1 := pos_after hder hz0 h
    have f2 := pos_before hder.neg (by simpa using hz0) (by linarith)
    constructor
    · filter_upwards [e1, f1] with u hu hv
      have := hu (ne_of_gt hv)
      rw [this]
      simp [hv, h]
    · filter_upwards [e2, f2] with u hu hv
      have hv : sideOf (sg m.ip.pline k) ((γ u).x, (γ u).y) < 0 := by simpa using hv
      have := hu (ne_of_lt hv)
      rw [this]
      simp [not_lt.mpr hv.le, not_lt.mpr h.le]

end

end Cavc
