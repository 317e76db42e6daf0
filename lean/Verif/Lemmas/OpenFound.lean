import Verif.Lemmas.OpenResult
import Verif.Props.Offset

/-! # The cut points found for the raw offset of an open polyline -/

set_option linter.unusedVariables false

namespace Cavc
open Pline RealScalar

section
variable {p R D : Pline ℝ} {d eps gap : ℝ} {C : List Cut}

theorem path_count (hf : FullPath R eps) : R.segmentCount = R.verts.length - 1 := by
  have := hf.two
  unfold segmentCount vertexCount; dsimp only; rw [hf.open]; simp; omega

theorem path_onSeg (hf : FullPath R eps) (j : Nat) (q : V2 ℝ) :
    OnSeg (vtx R j) (vtx R (j + 1)) q ↔ ∃ t, 0 ≤ t ∧ t ≤ 1 ∧ q = curveAt R j t := by
  have hn : 0 < R.verts.length := by have := hf.two; omega
  unfold OnSeg
  simp only [curveAt_vtx hn]

theorem path_following (hf : FullPath R eps) {i : Nat} (hi : i + 1 < R.verts.length) : R.following i = i + 1 := by
  unfold following; exact Nat.mod_eq_of_lt hi

theorem path_shape (hf : FullPath R eps) {j : Nat} (hj : j + 1 < R.verts.length) : IsLine (vtx R j) ∨ |(vtx R j).bulge| ≤ 1 :=
  (hf.full j hj).shape.imp id fun h => h.2

theorem mem_basic_reports {r : PlineSegIntr ℝ} {i k : Nat} {l l' : V2 ℝ → Bool} {b : BasicIntr ℝ} :
    Intr.basic b ∈ r.reports i k l l' ↔ b.startIndex1 = i ∧ b.startIndex2 = k ∧ b.point ∈ r.isolated ∧ l b.point = false := by
  unfold PlineSegIntr.reports
  rw [List.mem_append, List.mem_map]
  constructor
  · rintro (⟨q, hq, e⟩ | h)
    · cases e
      rw [List.mem_filter] at hq
      exact ⟨rfl, rfl, hq.1, by simpa using hq.2⟩
    · exfalso
      split at h
      · split at h
        · cases h
        · simp at h
      · cases h
  · rintro ⟨rfl, rfl, h1, h2⟩
    exact Or.inl ⟨b.point, List.mem_filter.mpr ⟨h1, by simpa using h2⟩, by cases b; rfl⟩

theorem mem_corner (hf : FullPath R eps) {i : Nat} (b : BasicIntr ℝ) : Intr.basic b ∈ R.cornerReports eps i →
    i + 2 < R.verts.length ∧ b.startIndex1 = i ∧ b.startIndex2 = i + 1 ∧ b.point.fuzzyEqEps (vtx R (i + 1)).pos eps = false ∧
    b.point ∈ (plineSegIntr (vtx R i) (vtx R (i + 1)) (vtx R (i + 1)) (vtx R (i + 2)) eps).isolated := by
  intro h
  unfold cornerReports at h
  split at h
  · rename_i s t h1 h2
    obtain ⟨l1, rfl⟩ := (path_segs hf.open hf.two _ _).mp h1
    rw [path_following hf l1] at h h2
    obtain ⟨l2, rfl⟩ := (path_segs hf.open hf.two _ _).mp h2
    dsimp only at h
    rw [if_neg (by rw [(hf.full i l1).apart]; simp)] at h
    obtain ⟨e1, e2, e3, e4⟩ := mem_basic_reports.mp h
    exact ⟨l2, e1, e2, e4, e3⟩
  · cases h

theorem report_corner (hf : FullPath R eps) {i : Nat} (hi : i + 2 < R.verts.length) {q : V2 ℝ} (h1 : q.fuzzyEqEps (vtx R (i + 1)).pos eps = false)
    (h2 : q ∈ (plineSegIntr (vtx R i) (vtx R (i + 1)) (vtx R (i + 1)) (vtx R (i + 2)) eps).isolated) :
    Intr.basic ⟨i, i + 1, q⟩ ∈ R.cornerReports eps i := by
  unfold cornerReports
  rw [path_following hf (by omega), (path_segs hf.open hf.two _ i).mpr ⟨by omega, rfl⟩, (path_segs hf.open hf.two _ (i + 1)).mpr ⟨by omega, rfl⟩]
  dsimp only
  rw [if_neg (by rw [(hf.full i (by omega)).apart]; simp)]
  exact mem_basic_reports.mpr ⟨rfl, rfl, h2, h1⟩

theorem path_local (hf : FullPath R eps) : R.localReports eps = R.corners.flatMap (R.cornerReports eps) := by
  unfold localReports
  split
  · rename_i h _
    rw [hf.open] at h; cases h
  · rfl

theorem path_corner {i : Nat} (hf : FullPath R eps) (hi : i + 2 < R.verts.length) : i ∈ R.corners := by
  unfold corners
  rw [List.mem_filter, List.mem_range, path_count hf]
  refine ⟨by omega, ?_⟩
  rw [decide_eq_true_eq]
  right
  rw [path_count hf]; omega

/-- the points of the self intersects -/
theorem self_sound (he : 0 < eps) (hf : FullPath R eps) (hC : OpenCuts p R D |d| eps gap C) (hF : FindsPath R eps) {pairs : List (Nat × Nat)}
    (hP : R.Examined eps pairs) {x : Nat × V2 ℝ} (h : SelfCutOf R eps pairs x) : ∃ c ∈ C, cutPt R c = x := by
  have hn : 0 < R.verts.length := by have := hf.two; omega
  have hend : ∀ j, curveAt R j 1 = (vtx R (j + 1)).pos := fun j => by rw [curveAt_vtx hn]; exact (segCurve_ends _ _).2
  -- two passes
  have two : ∀ i k q, i < k → k + 1 < R.verts.length → OnSeg (vtx R i) (vtx R (i + 1)) q → OnSeg (vtx R k) (vtx R (k + 1)) q →
      (k = i + 1 → q.fuzzyEqEps (vtx R (i + 1)).pos eps = false) → ∀ m, m = i ∨ m = k → ∃ c ∈ C, cutPt R c = (m, q) := by
    intro i k q hik hk o1 o2 hq m hm
    obtain ⟨t, t0, t1, rfl⟩ := (path_onSeg hf i q).mp o1
    obtain ⟨u, u0, u1, e⟩ := (path_onSeg hf k _).mp o2
    rcases hC.self i t k u hik hk t0 t1 u0 u1 e with ⟨h1, h2, -⟩ | ⟨h1, h2⟩
    · have := hq h1
      rw [h2, hend i, fuzzy_refl _ he] at this
      cases this
    · rcases hm with rfl | rfl
      · exact ⟨_, h1, rfl⟩
      · exact ⟨_, h2, by unfold cutPt; rw [e]⟩
  obtain ⟨b, hb, e1, e2⟩ := h
  obtain ⟨m, q⟩ := x
  dsimp only at e1 e2
  subst e1
  unfold visitReports at hb
  simp only at hb
  rw [path_local hf, List.mem_append, List.mem_flatMap, List.mem_flatMap] at hb
  rcases hb with ⟨i, -, hb⟩ | ⟨ik, hik, hb⟩
  · obtain ⟨l, s1, s2, f, hm⟩ := mem_corner hf b hb
    obtain ⟨o1, o2⟩ := ((hF.corner i l).points _ f).mp hm
    rw [s1, s2] at e2
    exact two i (i + 1) _ (by omega) (by omega) o1 o2 (fun _ => f) m e2
  · obtain ⟨i, k⟩ := ik
    obtain ⟨⟨-, -, h3, h4, h5, -⟩, s, t, hs, ht, hbm⟩ := hP.sound i k hik
    obtain ⟨li, rfl⟩ := (path_segs hf.open hf.two _ _).mp hs
    obtain ⟨lk, rfl⟩ := (path_segs hf.open hf.two _ _).mp ht
    rw [path_following hf li] at h4
    rw [path_following hf lk] at h5
    unfold pairReports at hb
    dsimp only at hb
    rw [hs, ht] at hb
    obtain ⟨s1, s2, hm, -⟩ := mem_basic_reports.mp hb
    obtain ⟨o1, o2⟩ := ((hF.pair i k li lk h3 h4 h5 hbm).points _).mp hm
    rw [s1, s2] at e2
    rcases Nat.lt_or_gt_of_ne h3 with hlt | hlt
    · exact two i k _ hlt lk o1 o2 (fun h => absurd h.symm h4) m e2
    · exact two k i _ hlt li o2 o1 (fun h => absurd h.symm h5) m e2.symm

theorem self_complete (he : 0 < eps) (hf : FullPath R eps) (hC : OpenCuts p R D |d| eps gap C) (hF : FindsPath R eps) {pairs : List (Nat × Nat)}
    (hP : R.Examined eps pairs) {c c' : Cut} (hc : c ∈ C) (hc' : c' ∈ C) (hne : c'.1 ≠ c.1) (hcc : curveAt R c'.1 c'.2 = curveAt R c.1 c.2) :
    SelfCutOf R eps pairs (cutPt R c) := by
  have hn : 0 < R.verts.length := by have := hf.two; omega
  have on : ∀ c ∈ C, OnSeg (vtx R c.1) (vtx R (c.1 + 1)) (curveAt R c.1 c.2) := fun c hc =>
    (path_onSeg hf _ _).mpr ⟨c.2, (hC.ok c hc).pos.le, (hC.ok c hc).lt.le, rfl⟩
  have stop : ∀ c ∈ C, (curveAt R c.1 c.2).fuzzyEqEps (vtx R (c.1 + 1)).pos eps = false := by
    intro c hc
    have := (hC.ok c hc).stop
    rwa [← curveAt_vtx hn] at this
  have corner : ∀ a ∈ C, ∀ b ∈ C, b.1 = a.1 + 1 → curveAt R a.1 a.2 = curveAt R b.1 b.2 →
      Intr.basic ⟨a.1, a.1 + 1, curveAt R a.1 a.2⟩ ∈ R.visitReports eps pairs .all := by
    intro a ha b hb e e'
    have l : a.1 + 2 < R.verts.length := by have := hC.range b hb; omega
    have o2 := on b hb
    rw [← e', e] at o2
    unfold visitReports
    simp only
    rw [path_local hf, List.mem_append, List.mem_flatMap]
    exact Or.inl ⟨a.1, path_corner hf l, report_corner hf l (stop a ha) (((hF.corner a.1 l).points _ (stop a ha)).mpr ⟨on a ha, o2⟩)⟩
  have pair : ∀ a ∈ C, ∀ b ∈ C, (a.1, b.1) ∈ pairs → curveAt R a.1 a.2 = curveAt R b.1 b.2 →
      Intr.basic ⟨a.1, b.1, curveAt R a.1 a.2⟩ ∈ R.visitReports eps pairs .all := by
    intro a ha b hb hab e'
    have o2 := on b hb
    rw [← e'] at o2
    obtain ⟨⟨-, -, h3, h4, h5, -⟩, s, t, hs, ht, hbm⟩ := hP.sound _ _ hab
    obtain ⟨li, rfl⟩ := (path_segs hf.open hf.two _ _).mp hs
    obtain ⟨lk, rfl⟩ := (path_segs hf.open hf.two _ _).mp ht
    rw [path_following hf li] at h4
    rw [path_following hf lk] at h5
    unfold visitReports
    simp only
    rw [List.mem_append, List.mem_flatMap]
    refine Or.inr ⟨_, hab, ?_⟩
    unfold pairReports
    dsimp only
    rw [hs, ht]
    refine mem_basic_reports.mpr ⟨rfl, rfl, ((hF.pair _ _ li lk h3 h4 h5 hbm).points _).mpr ⟨on a ha, o2⟩, ?_⟩
    have := stop a ha
    rw [fuzzy_comm] at this
    simp [this]
  by_cases a1 : c.1 + 1 = c'.1
  · exact ⟨_, corner c hc c' hc' a1.symm hcc.symm, rfl, Or.inl rfl⟩
  by_cases a2 : c'.1 + 1 = c.1
  · exact ⟨_, corner c' hc' c hc a2.symm hcc, hcc.symm, Or.inr a2.symm⟩
  have r1 := hC.range c hc
  have r2 := hC.range c' hc'
  have hna : R.NonAdjacent c.1 c'.1 := by
    refine ⟨by rw [path_count hf]; omega, by rw [path_count hf]; omega, hne.symm, ?_, ?_, ?_⟩
    · rwa [path_following hf r1]
    · rwa [path_following hf r2]
    · rw [path_following hf r1, path_following hf r2]; omega
  have o2 := on c' hc'
  rw [hcc] at o2
  have hb : BoxesMeet (vtx R c'.1, vtx R (c'.1 + 1)) (vtx R c.1, vtx R (c.1 + 1)) eps :=
    C37_boxes _ _ eps he.le (path_shape hf r2) (path_shape hf r1) _ o2 (on c hc)
  rcases hP.complete c.1 c'.1 _ _ hna ((path_segs hf.open hf.two _ _).mpr ⟨r1, rfl⟩) ((path_segs hf.open hf.two _ _).mpr ⟨r2, rfl⟩) hb with h | h
  · exact ⟨_, pair c hc c' hc' h hcc.symm, rfl, Or.inl rfl⟩
  · exact ⟨_, pair c' hc' c hc h hcc, hcc.symm, Or.inr rfl⟩

theorem seg_end_mem {q : Pline ℝ} {s : Vertex ℝ × Vertex ℝ} (h : s ∈ q.segs) : s.2 ∈ q.verts := by
  obtain ⟨k, hk, e⟩ := List.getElem_of_mem h
  obtain ⟨a, b, ha, hb, hab⟩ := segs_getElem? q k (by rw [← q.segs_length]; exact hk)
  rw [List.getElem?_eq_getElem hk, e] at hab
  cases hab
  exact List.mem_of_getElem? hb

/-- a point at the distance `r` of the center of a circle is in its box -/
theorem circle_box {s : Vertex ℝ × Vertex ℝ} {q center : V2 ℝ} {r : ℝ} (hs : IsLine s.1 ∨ |s.1.bulge| ≤ 1) (hq : OnSeg s.1 s.2 q) (hr : edist q center = r) :
    (segBox s).overlaps ⟨center.x - r, center.y - r, center.x + r, center.y + r⟩ = true := by
  have a := C33_fast_box s.1 s.2 hs q hq
  unfold AABB.Contains at a
  obtain ⟨a1, a2, a3, a4⟩ := a
  have hx : |q.x - center.x| ≤ r := by
    rw [← hr]; unfold edist
    rw [← Real.sqrt_sq_eq_abs]
    exact Real.sqrt_le_sqrt (by nlinarith [sq_nonneg (q.y - center.y)])
  have hy : |q.y - center.y| ≤ r := by
    rw [← hr]; unfold edist
    rw [← Real.sqrt_sq_eq_abs]
    exact Real.sqrt_le_sqrt (by nlinarith [sq_nonneg (q.x - center.x)])
  rw [abs_le] at hx hy
  unfold segBox
  simp only [AABB.overlaps, lt_eq, gt_eq, Bool.not_eq_true', Bool.or_eq_false_iff, decide_eq_false_iff_not, not_lt]
  refine ⟨⟨⟨?_, ?_⟩, ?_⟩, ?_⟩ <;> linarith [hx.1, hx.2, hy.1, hy.2]

/-- What the cut points are. -/
theorem found_open (env : Env ℝ) (henv : env.Lawful) (he : 0 < eps) (hp : FullPath p eps) (hf : FullPath R eps) (hC : OpenCuts p R D |d| eps gap C)
    (hg : eps ≤ gap)
    (hF : FindsPath R eps) (hFD : FindsPairs R D eps) (hDs : ∀ s ∈ D.segs, IsLine s.1 ∨ |s.1.bulge| ≤ 1)
    (hFc : ∀ v, IsEnd p v → ∀ s ∈ R.segs, FindsCircle s v.pos |d| eps) {di : IntrCollection ℝ}
    (hdi : findIntersects env R D (some (R.approxIndex env)) eps = .ok di) {es : List (Nat × V2 ℝ)} (hes : CutsDual p R d eps di.basic es) (x : Nat × V2 ℝ) :
    x ∈ es ↔ (∃ c ∈ C, cutPt R c = x) ∨ x = cutPt R (lastCut R) := by
  have hn : 0 < R.verts.length := by have := hf.two; omega
  have h2 := hf.two
  obtain ⟨pairs, hP, hes⟩ := hes
  obtain ⟨r, hr, ho, hb⟩ := C37_result env R D (some (R.approxIndex env)) eps (approxIndex_serves env henv R)
  rw [hdi] at hr
  cases hr
  have hov : di.overlapping = [] := by
    rw [List.eq_nil_iff_forall_not_mem]
    intro q hq
    obtain ⟨s1, s2, h1, h2, hm, h3⟩ := (ho q).mp hq
    rw [(hFD s1 (List.mem_of_getElem? h1) s2 (List.mem_of_getElem? h2) hm).overlap] at h3
    cases h3
  have on : ∀ c ∈ C, OnSeg (vtx R c.1) (vtx R (c.1 + 1)) (curveAt R c.1 c.2) := fun c hc =>
    (path_onSeg hf _ _).mpr ⟨c.2, (hC.ok c hc).pos.le, (hC.ok c hc).lt.le, rfl⟩
  have circ : ∀ v, IsEnd p v → ∀ i q, i + 1 < R.verts.length → OnSeg (vtx R i) (vtx R (i + 1)) q → edist q v.pos = |d| →
      q.fuzzyEqEps (vtx R i).pos eps = false → CircleCutOf R v.pos |d| eps (i, q) := by
    intro v hv i q hi ho hd hq
    have hs := (path_segs hf.open hf.two _ i).mpr ⟨hi, rfl⟩
    exact ⟨_, hs, circle_box (path_shape hf hi) ho hd, (hFc v hv _ (List.mem_of_getElem? hs)).complete q ho hd hq⟩
  rw [hes]
  constructor
  · rintro (h | ⟨b, hbm, rfl⟩ | ⟨-, v, hv, s, hs, -, hcut⟩)
    · exact Or.inl (self_sound he hf hC hF hP h)
    · obtain ⟨s1, s2, h1, h2, hm, h3, -⟩ := (hb b).mp hbm
      obtain ⟨q1, q2⟩ := ((hFD s1 (List.mem_of_getElem? h1) s2 (List.mem_of_getElem? h2) hm).points _).mp h3
      obtain ⟨l1, rfl⟩ := (path_segs hf.open hf.two _ _).mp h1
      obtain ⟨t, t0, t1, e⟩ := (path_onSeg hf _ _).mp q1
      refine Or.inl ⟨_, hC.other _ t l1 t0 t1 ?_, ?_⟩
      · rw [← e]; exact ⟨s2, List.mem_of_getElem? h2, q2⟩
      · unfold cutPt; rw [e]
    · obtain ⟨i, q⟩ := x
      dsimp only at hs hcut
      have hcut : CircleCut s v.pos |d| eps q := hcut
      obtain ⟨o, e, ne⟩ := (hFc v hv s (List.mem_of_getElem? hs)).sound q hcut
      obtain ⟨l1, rfl⟩ := (path_segs hf.open hf.two _ _).mp hs
      obtain ⟨t, t0, t1, rfl⟩ := (path_onSeg hf _ _).mp o
      rcases hC.circles v hv i t l1 t0 t1 e with h | ⟨rfl, rfl⟩ | ⟨h, rfl⟩
      · exact Or.inl ⟨_, h, rfl⟩
      · exfalso; apply ne
        rw [curveAt_vtx hn]
        exact (segCurve_ends _ _).1
      · right
        unfold cutPt lastCut
        rw [show R.verts.length - 2 = i by omega]
  · rintro (⟨c, hc, rfl⟩ | rfl)
    · rcases hC.on c hc with ⟨c', hc', hne, hcc⟩ | hD | ⟨v, hv, hd⟩
      · exact Or.inl (self_complete he hf hC hF hP hc hc' hne hcc)
      · right; left
        obtain ⟨s2, hs2, o2⟩ := hD
        obtain ⟨k, hk, e⟩ := List.getElem_of_mem hs2
        have g2 : D.segs[k]? = some s2 := by rw [List.getElem?_eq_getElem hk, e]
        have g1 := (path_segs hf.open hf.two _ c.1).mpr ⟨hC.range c hc, rfl⟩
        have hm : BoxesMeet (vtx R c.1, vtx R (c.1 + 1)) s2 eps :=
          C37_boxes _ _ eps he.le (path_shape hf (hC.range c hc)) (hDs s2 hs2) _ (on c hc) o2
        refine ⟨⟨c.1, k, curveAt R c.1 c.2⟩, (hb _).mpr ⟨_, _, g1, g2, hm, ?_, ?_, ?_, ?_, ?_⟩, rfl⟩
        · exact ((hFD _ (List.mem_of_getElem? g1) _ hs2 hm).points _).mpr ⟨on c hc, o2⟩
        · rintro ⟨hfz, -⟩
          have := (hC.ok c hc).stop
          rw [← curveAt_vtx hn, fuzzy_comm] at this
          dsimp only at hfz
          rw [this] at hfz
          cases hfz
        · rintro ⟨hfz, -⟩
          have := hC.clear c hc s2.2 (seg_end_mem hs2)
          rw [fuzzy_comm] at this
          dsimp only at hfz
          rw [this] at hfz
          cases hfz
        · rintro ⟨-, q, hq, -⟩
          unfold IntrCollection.overlapsOn1 at hq
          rw [hov] at hq
          cases hq
        · rintro ⟨-, q, hq, -⟩
          unfold IntrCollection.overlapsOn2 at hq
          rw [hov] at hq
          cases hq
      · refine Or.inr (Or.inr ⟨hp.open, v, hv, ?_⟩)
        have := (hC.ok c hc).start
        rw [← curveAt_vtx hn] at this
        exact circ v hv c.1 _ (hC.range c hc) (on c hc) hd this
    · obtain ⟨v, hv, hd⟩ := hC.last
      refine Or.inr (Or.inr ⟨hp.open, v, Or.inr hv, ?_⟩)
      have l : R.verts.length - 2 + 1 < R.verts.length := by omega
      refine circ v (Or.inr hv) _ _ l ((path_onSeg hf _ _).mpr ⟨1, by norm_num, le_refl _, rfl⟩) hd ?_
      unfold lastCut
      dsimp only
      rw [curveAt_vtx hn, (segCurve_ends _ _).2, fuzzy_comm]
      exact (hf.full _ l).apart
end

end Cavc
