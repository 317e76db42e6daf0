import Verif.Lemmas.LoopResult
import Verif.Lemmas.OpenFound

/-! # The cut points found for the raw offset of a closed polyline and the raw offset of the other side -/

set_option linter.unusedVariables false

namespace Cavc
open Pline RealScalar

section
variable {p R D : Pline ℝ} {d eps gap : ℝ} {C : List Cut}

theorem loop_onSeg (hf : FullLoop R eps) (j : Nat) (q : V2 ℝ) :
    OnSeg (vtx R j) (vtx R (j + 1)) q ↔ ∃ t, 0 ≤ t ∧ t ≤ 1 ∧ q = curveAt R j t := by
  have hn : 0 < R.verts.length := by have := hf.two; omega
  unfold OnSeg
  simp only [curveAt_vtx hn]

theorem loop_shape (hf : FullLoop R eps) (j : Nat) : IsLine (vtx R j) ∨ |(vtx R j).bulge| ≤ 1 :=
  (hf.full j).shape.imp id fun h => h.2

theorem loop_local (hf : FullLoop R eps) (h3 : 3 ≤ R.verts.length) : R.localReports eps = (List.range R.verts.length).flatMap (R.cornerReports eps) := by
  unfold localReports
  split
  · rename_i a b h1 h2
    rw [h2] at h3
    simp at h3
  · unfold corners
    rw [seg_count hf, List.filter_eq_self.mpr]
    intro i _
    simp [Continues, hf.closed]

theorem mem_corner_loop (hf : FullLoop R eps) {i : Nat} (hi : i < R.verts.length) (b : BasicIntr ℝ) : Intr.basic b ∈ R.cornerReports eps i ↔
    b.startIndex1 = i ∧ b.startIndex2 = (i + 1) % R.verts.length ∧ b.point.fuzzyEqEps (vtx R (i + 1)).pos eps = false ∧
    b.point ∈ (plineSegIntr (vtx R i) (vtx R (i + 1)) (vtx R (i + 1)) (vtx R (i + 2)) eps).isolated := by
  have hn : 0 < R.verts.length := by omega
  unfold cornerReports following
  rw [(seg_vtx hf.closed hf.two i _).mpr ⟨hi, rfl⟩, (seg_vtx hf.closed hf.two ((i + 1) % R.verts.length) _).mpr ⟨Nat.mod_lt _ hn, rfl⟩]
  dsimp only
  rw [if_neg (by rw [(hf.full i).apart]; simp), mem_basic_reports, vtx_mod, vtx_mod_succ]
  constructor
  · rintro ⟨h1, h2, h3, h4⟩
    exact ⟨h1, h2, h4, h3⟩
  · rintro ⟨h1, h2, h3, h4⟩
    exact ⟨h1, h2, h4, h3⟩

/-- the points of the self intersects -/
theorem self_sound_loop (he : 0 < eps) (hf : FullLoop R eps) (hC : SelfCuts R D eps gap C) (hF : FindsSelf R eps) {pairs : List (Nat × Nat)}
    (hP : R.Examined eps pairs) {x : Nat × V2 ℝ} (h : SelfCutOf R eps pairs x) : ∃ c ∈ C, cutPt R c = x := by
  have h3 := hC.three
  have hn : 0 < R.verts.length := by omega
  have hend : ∀ j, curveAt R j 1 = (vtx R (j + 1)).pos := fun j => by rw [curveAt_vtx hn]; exact (segCurve_ends _ _).2
  -- two passes
  have two : ∀ i k q, i < R.verts.length → k < R.verts.length → i ≠ k → OnSeg (vtx R i) (vtx R (i + 1)) q → OnSeg (vtx R k) (vtx R (k + 1)) q →
      ((i + 1) % R.verts.length = k → q.fuzzyEqEps (vtx R (i + 1)).pos eps = false) →
      ((k + 1) % R.verts.length = i → q.fuzzyEqEps (vtx R (k + 1)).pos eps = false) → ∀ m, m = i ∨ m = k → ∃ c ∈ C, cutPt R c = (m, q) := by
    have half : ∀ i k q, i < k → k < R.verts.length → OnSeg (vtx R i) (vtx R (i + 1)) q → OnSeg (vtx R k) (vtx R (k + 1)) q →
      ((i + 1) % R.verts.length = k → q.fuzzyEqEps (vtx R (i + 1)).pos eps = false) →
      ((k + 1) % R.verts.length = i → q.fuzzyEqEps (vtx R (k + 1)).pos eps = false) → ∀ m, m = i ∨ m = k → ∃ c ∈ C, cutPt R c = (m, q) := by
      intro i k q hik hk o1 o2 hq hq' m hm
      obtain ⟨t, t0, t1, rfl⟩ := (loop_onSeg hf i q).mp o1
      obtain ⟨u, u0, u1, e⟩ := (loop_onSeg hf k _).mp o2
      rcases hC.self i t k u hik hk t0 t1 u0 u1 e with ⟨h1, h2, -⟩ | ⟨h1, h2, -, h4⟩ | ⟨h1, h2⟩
      · have := hq (by rw [h1]; exact Nat.mod_eq_of_lt (by omega))
        rw [h2, hend i, fuzzy_refl _ he] at this
        cases this
      · have := hq' (by rw [h2, h1]; exact Nat.mod_self _)
        rw [e, h4, hend k, fuzzy_refl _ he] at this
        cases this
      · rcases hm with rfl | rfl
        · exact ⟨_, h1, rfl⟩
        · exact ⟨_, h2, by unfold cutPt; rw [e]⟩
    intro i k q hi hk hne o1 o2 hq hq' m hm
    rcases Nat.lt_or_gt_of_ne hne with hlt | hlt
    · exact half i k q hlt hk o1 o2 hq hq' m hm
    · exact half k i q hlt hi o2 o1 hq' hq m hm.symm
  obtain ⟨b, hb, e1, e2⟩ := h
  obtain ⟨m, q⟩ := x
  dsimp only at e1 e2
  subst e1
  unfold visitReports at hb
  simp only at hb
  rw [loop_local hf h3, List.mem_append, List.mem_flatMap, List.mem_flatMap] at hb
  rcases hb with ⟨i, hi, hb⟩ | ⟨ik, hik, hb⟩
  · rw [List.mem_range] at hi
    obtain ⟨s1, s2, f, hm⟩ := (mem_corner_loop hf hi b).mp hb
    obtain ⟨o1, o2⟩ := ((hF.corner i hi).points _ f).mp hm
    rw [s1, s2] at e2
    dsimp only at o1 o2
    have hne : i ≠ (i + 1) % R.verts.length := by
      intro h
      rcases Nat.lt_or_ge (i + 1) R.verts.length with h' | h'
      · rw [Nat.mod_eq_of_lt h'] at h; omega
      · rw [show i + 1 = R.verts.length by omega, Nat.mod_self] at h; omega
    refine two i ((i + 1) % R.verts.length) _ hi (Nat.mod_lt _ hn) hne o1 ?_ (fun _ => f) ?_ m e2
    · rw [vtx_mod, vtx_mod_succ]; exact o2
    · intro h
      exfalso
      rw [Nat.mod_add_mod] at h
      rcases Nat.lt_or_ge (i + 1 + 1) R.verts.length with h' | h'
      · rw [Nat.mod_eq_of_lt h'] at h; omega
      · rw [Nat.mod_eq_sub_mod h', Nat.mod_eq_of_lt (by omega)] at h; omega
  · obtain ⟨i, k⟩ := ik
    obtain ⟨⟨li, lk, h3, h4, h5, -⟩, s, t, hs, ht, hbm⟩ := hP.sound i k hik
    rw [seg_count hf] at li lk
    obtain ⟨-, rfl⟩ := (seg_vtx hf.closed hf.two _ _).mp hs
    obtain ⟨-, rfl⟩ := (seg_vtx hf.closed hf.two _ _).mp ht
    unfold following at h4 h5
    unfold pairReports at hb
    dsimp only at hb
    rw [hs, ht] at hb
    obtain ⟨s1, s2, hm, -⟩ := mem_basic_reports.mp hb
    obtain ⟨o1, o2⟩ := ((hF.pair i k li lk h3 h4 h5 hbm).points _).mp hm
    rw [s1, s2] at e2
    exact two i k _ li lk h3 o1 o2 (fun h => absurd h h4) (fun h => absurd h h5) m e2

theorem self_complete_loop (he : 0 < eps) (hf : FullLoop R eps) (hC : SelfCuts R D eps gap C) (hF : FindsSelf R eps) {pairs : List (Nat × Nat)}
    (hP : R.Examined eps pairs) {c c' : Cut} (hc : c ∈ C) (hc' : c' ∈ C) (hne : c'.1 ≠ c.1) (hcc : curveAt R c'.1 c'.2 = curveAt R c.1 c.2) :
    SelfCutOf R eps pairs (cutPt R c) := by
  have h3 := hC.three
  have hn : 0 < R.verts.length := by omega
  have on : ∀ c ∈ C, OnSeg (vtx R c.1) (vtx R (c.1 + 1)) (curveAt R c.1 c.2) := fun c hc =>
    (loop_onSeg hf _ _).mpr ⟨c.2, (hC.ok c hc).pos.le, (hC.ok c hc).lt.le, rfl⟩
  have stop : ∀ c ∈ C, (curveAt R c.1 c.2).fuzzyEqEps (vtx R (c.1 + 1)).pos eps = false := by
    intro c hc
    have := (hC.ok c hc).stop
    rwa [← curveAt_vtx hn] at this
  have corner : ∀ a ∈ C, ∀ b ∈ C, (a.1 + 1) % R.verts.length = b.1 → curveAt R a.1 a.2 = curveAt R b.1 b.2 →
      Intr.basic ⟨a.1, b.1, curveAt R a.1 a.2⟩ ∈ R.visitReports eps pairs .all := by
    intro a ha b hb e e'
    have l := hC.range a ha
    have o2 := on b hb
    rw [← e', ← e, vtx_mod, vtx_mod_succ] at o2
    unfold visitReports
    simp only
    rw [loop_local hf h3, List.mem_append, List.mem_flatMap]
    refine Or.inl ⟨a.1, List.mem_range.mpr l, (mem_corner_loop hf l _).mpr ⟨rfl, e.symm, stop a ha, ?_⟩⟩
    exact ((hF.corner a.1 l).points _ (stop a ha)).mpr ⟨on a ha, o2⟩
  have pair : ∀ a ∈ C, ∀ b ∈ C, (a.1, b.1) ∈ pairs → curveAt R a.1 a.2 = curveAt R b.1 b.2 →
      Intr.basic ⟨a.1, b.1, curveAt R a.1 a.2⟩ ∈ R.visitReports eps pairs .all := by
    intro a ha b hb hab e'
    have o2 := on b hb
    rw [← e'] at o2
    obtain ⟨⟨li, lk, h3, h4, h5, -⟩, s, t, hs, ht, hbm⟩ := hP.sound _ _ hab
    rw [seg_count hf] at li lk
    obtain ⟨-, rfl⟩ := (seg_vtx hf.closed hf.two _ _).mp hs
    obtain ⟨-, rfl⟩ := (seg_vtx hf.closed hf.two _ _).mp ht
    unfold following at h4 h5
    unfold visitReports
    simp only
    rw [List.mem_append, List.mem_flatMap]
    refine Or.inr ⟨_, hab, ?_⟩
    unfold pairReports
    dsimp only
    rw [hs, ht]
    refine mem_basic_reports.mpr ⟨rfl, rfl, ((hF.pair _ _ li lk h3 h4 h5 hbm).points _).mpr ⟨on a ha, o2⟩, ?_⟩
    have := stop a ha
    rw [fuzzy_comm] at this
    simp [this]
  by_cases a1 : (c.1 + 1) % R.verts.length = c'.1
  · exact ⟨_, corner c hc c' hc' a1 hcc.symm, rfl, Or.inl rfl⟩
  by_cases a2 : (c'.1 + 1) % R.verts.length = c.1
  · exact ⟨_, corner c' hc' c hc a2 hcc, hcc.symm, Or.inr rfl⟩
  have r1 := hC.range c hc
  have r2 := hC.range c' hc'
  have hna : R.NonAdjacent c.1 c'.1 := by
    refine ⟨by rw [seg_count hf]; omega, by rw [seg_count hf]; omega, hne.symm, a1, a2, ?_⟩
    unfold following
    intro h
    have h1 : (c.1 + 1) % R.verts.length = (c'.1 + 1) % R.verts.length := h
    have : c.1 % R.verts.length = c'.1 % R.verts.length := Nat.ModEq.add_right_cancel' 1 h1
    rw [Nat.mod_eq_of_lt r1, Nat.mod_eq_of_lt r2] at this
    exact hne this.symm
  have o2 := on c' hc'
  rw [hcc] at o2
  have hb : BoxesMeet (vtx R c'.1, vtx R (c'.1 + 1)) (vtx R c.1, vtx R (c.1 + 1)) eps :=
    C37_boxes _ _ eps he.le (loop_shape hf _) (loop_shape hf _) _ o2 (on c hc)
  rcases hP.complete c.1 c'.1 _ _ hna ((seg_vtx hf.closed hf.two _ _).mpr ⟨r1, rfl⟩) ((seg_vtx hf.closed hf.two _ _).mpr ⟨r2, rfl⟩) hb with h | h
  · exact ⟨_, pair c hc c' hc' h hcc.symm, rfl, Or.inl rfl⟩
  · exact ⟨_, pair c' hc' c hc h hcc, hcc.symm, Or.inr rfl⟩

/-- What the cut points are. -/
theorem found_loop (env : Env ℝ) (henv : env.Lawful) (he : 0 < eps) (hp : p.closed = true) (hf : FullLoop R eps) (hC : SelfCuts R D eps gap C)
    (hF : FindsSelf R eps) (hFD : FindsPairs R D eps) (hDs : ∀ s ∈ D.segs, IsLine s.1 ∨ |s.1.bulge| ≤ 1) {di : IntrCollection ℝ}
    (hdi : findIntersects env R D (some (R.approxIndex env)) eps = .ok di) {es : List (Nat × V2 ℝ)} (hes : CutsDual p R d eps di.basic es) (x : Nat × V2 ℝ) :
    x ∈ es ↔ ∃ c ∈ C, cutPt R c = x := by
  have h3 := hC.three
  have hn : 0 < R.verts.length := by omega
  obtain ⟨pairs, hP, hes⟩ := hes
  obtain ⟨r, hr, ho, hb⟩ := C37_result env R D (some (R.approxIndex env)) eps (approxIndex_serves env henv R)
  rw [hdi] at hr
  cases hr
  have hov : di.overlapping = [] := by
    rw [List.eq_nil_iff_forall_not_mem]
    intro q hq
    obtain ⟨s1, s2, h1, h2, hm, h3⟩ := (ho q).mp hq
    rw [(hFD s1 (List.mem_of_getElem? h1) s2 (List.mem_of_getElem? h2) hm).overlap] at h3
    cases h3
  have on : ∀ c ∈ C, OnSeg (vtx R c.1) (vtx R (c.1 + 1)) (curveAt R c.1 c.2) := fun c hc =>
    (loop_onSeg hf _ _).mpr ⟨c.2, (hC.ok c hc).pos.le, (hC.ok c hc).lt.le, rfl⟩
  rw [hes]
  constructor
  · rintro (h | ⟨b, hbm, rfl⟩ | ⟨h, -⟩)
    · exact self_sound_loop he hf hC hF hP h
    · obtain ⟨s1, s2, h1, h2, hm, h3, -⟩ := (hb b).mp hbm
      obtain ⟨q1, q2⟩ := ((hFD s1 (List.mem_of_getElem? h1) s2 (List.mem_of_getElem? h2) hm).points _).mp h3
      obtain ⟨l1, rfl⟩ := (seg_vtx hf.closed hf.two _ _).mp h1
      obtain ⟨t, t0, t1, e⟩ := (loop_onSeg hf _ _).mp q1
      refine ⟨_, hC.other _ t l1 t0 t1 ?_, ?_⟩
      · rw [← e]; exact ⟨s2, List.mem_of_getElem? h2, q2⟩
      · unfold cutPt; rw [e]
    · rw [hp] at h; cases h
  · rintro ⟨c, hc, rfl⟩
    rcases hC.on c hc with ⟨c', hc', hne, hcc⟩ | hD
    · exact Or.inl (self_complete_loop he hf hC hF hP hc hc' hne hcc)
    · right; left
      obtain ⟨s2, hs2, o2⟩ := hD
      obtain ⟨k, hk, e⟩ := List.getElem_of_mem hs2
      have g2 : D.segs[k]? = some s2 := by rw [List.getElem?_eq_getElem hk, e]
      have g1 := (seg_vtx hf.closed hf.two c.1 _).mpr ⟨hC.range c hc, rfl⟩
      have hm : BoxesMeet (vtx R c.1, vtx R (c.1 + 1)) s2 eps :=
        C37_boxes _ _ eps he.le (loop_shape hf _) (hDs s2 hs2) _ (on c hc) o2
      refine ⟨⟨c.1, k, curveAt R c.1 c.2⟩, (hb _).mpr ⟨_, _, g1, g2, hm, ?_, ?_, ?_, ?_, ?_⟩, rfl⟩
      · exact ((hFD _ (List.mem_of_getElem? g1) _ hs2 hm).points _).mpr ⟨on c hc, o2⟩
      · rintro ⟨hfz, -⟩
        have := (hC.ok c hc).stop
        rw [← curveAt_vtx hn, fuzzy_comm] at this
        dsimp only at hfz
        rw [this] at hfz
        cases hfz
      · rintro ⟨hfz, -⟩
        have := hC.clear c hc s2.2 (seg_end_mem hs2)
        rw [fuzzy_comm] at this
        dsimp only at hfz
        rw [this] at hfz
        cases hfz
      · rintro ⟨-, q, hq, -⟩
        unfold IntrCollection.overlapsOn1 at hq
        rw [hov] at hq
        cases hq
      · rintro ⟨-, q, hq, -⟩
        unfold IntrCollection.overlapsOn2 at hq
        rw [hov] at hq
        cases hq

end
end Cavc
