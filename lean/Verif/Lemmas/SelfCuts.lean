import Verif.Lemmas.FindCrossing
import Verif.Spec.SelfCrossing
import Verif.Spec.Offset

/-! # The cut points found for a closed polyline that crosses itself cleanly -/

set_option linter.unusedVariables false
set_option linter.unusedSectionVars false

namespace Cavc
open Pline

section
variable {R : Pline ℝ} {eps gap : ℝ} {E : List (Cut × Cut)}

/-- the point of a cut with its segment -/
noncomputable def cutPt (R : Pline ℝ) (c : Cut) : Nat × V2 ℝ := (c.1, curveAt R c.1 c.2)

/-- a segment passes a point only once -/
theorem curve_inj (he : 0 < eps) (hf : FullLoop R eps) {i : Nat} {t u : ℝ} (t0 : 0 ≤ t) (t1 : t ≤ 1) (u0 : 0 ≤ u) (u1 : u ≤ 1)
    (h : curveAt R i t = curveAt R i u) : t = u := by
  have hn : 0 < R.verts.length := by have := hf.two; omega
  rw [curveAt_vtx hn, curveAt_vtx hn] at h
  have hp := (hf.full i).proper he
  have hne := fuzzy_ne he (hf.full i).apart
  rcases lt_trichotomy t u with hlt | hlt | hlt
  · have := dist_from_start _ _ hp hne t0 hlt u1
    rw [h] at this
    exact absurd this (lt_irrefl _)
  · exact hlt
  · have := dist_from_start _ _ hp hne u0 hlt t1
    rw [h] at this
    exact absurd this (lt_irrefl _)

/-- crossing of two segments, in either order -/
def CrossAt (R : Pline ℝ) (E : List (Cut × Cut)) (i k : Nat) (q : V2 ℝ) : Prop :=
  ∃ t u, (((i, t), (k, u)) ∈ E ∨ ((k, u), (i, t)) ∈ E) ∧ q = curveAt R i t ∧ q = curveAt R k u

theorem CrossAt.symm {i k : Nat} {q : V2 ℝ} (h : CrossAt R E i k q) : CrossAt R E k i q := by
  obtain ⟨t, u, h1, h2, h3⟩ := h
  exact ⟨u, t, h1.symm, h3, h2⟩

theorem cut_mem {a b : Cut} (h : (a, b) ∈ E ∨ (b, a) ∈ E) : a ∈ bothCuts E := by
  unfold bothCuts
  rw [List.mem_append, List.mem_map, List.mem_map]
  rcases h with h | h
  · exact Or.inl ⟨_, h, rfl⟩
  · exact Or.inr ⟨_, h, rfl⟩

/-- each cut belongs to one crossing -/
theorem partner_unique (hE : (bothCuts E).Nodup) {a b b' : Cut} (h : (a, b) ∈ E ∨ (b, a) ∈ E) (h' : (a, b') ∈ E ∨ (b', a) ∈ E) : b = b' := by
  unfold bothCuts at hE
  rw [List.nodup_append] at hE
  obtain ⟨h1, h2, h3⟩ := hE
  rcases h with h | h <;> rcases h' with h' | h'
  · exact congrArg Prod.snd (List.inj_on_of_nodup_map h1 h h' rfl)
  · exact absurd rfl (h3 _ (List.mem_map.mpr ⟨_, h, rfl⟩) _ (List.mem_map.mpr ⟨_, h', rfl⟩))
  · exact absurd rfl (h3 _ (List.mem_map.mpr ⟨_, h', rfl⟩) _ (List.mem_map.mpr ⟨_, h, rfl⟩))
  · exact congrArg Prod.fst (List.inj_on_of_nodup_map h2 h h' rfl)

theorem cross_unique (he : 0 < eps) (hf : FullLoop R eps) (hE : SelfCrossing R eps gap E) {i k k' : Nat} {q : V2 ℝ} (h : CrossAt R E i k q)
    (h' : CrossAt R E i k' q) : k = k' := by
  obtain ⟨t, u, h1, h2, h3⟩ := h
  obtain ⟨t', u', h1', h2', h3'⟩ := h'
  have c := hE.ok _ (cut_mem h1)
  have c' := hE.ok _ (cut_mem h1')
  have : t = t' := curve_inj he hf c.pos.le c.lt.le c'.pos.le c'.lt.le (h2.symm.trans h2')
  subst this
  exact congrArg Prod.fst (partner_unique hE.nodup h1 h1')

theorem cross_ne (hE : SelfCrossing R eps gap E) {i k : Nat} {q : V2 ℝ} (h : CrossAt R E i k q) : i ≠ k := by
  obtain ⟨t, u, h1, -, -⟩ := h
  rcases h1 with h1 | h1
  · have := hE.order _ h1; dsimp only at this; omega
  · have := hE.order _ h1; dsimp only at this; omega

/-- points reported for a pair of segments -/
noncomputable def ptsOf (R : Pline ℝ) (eps : ℝ) (i k : Nat) : List (V2 ℝ) :=
  (plineSegIntr (vtx R i) (vtx R (i + 1)) (vtx R k) (vtx R (k + 1)) eps).isolated.filter fun q =>
    if k = (i + 1) % R.verts.length then !q.fuzzyEqEps (vtx R (i + 1)).pos eps
    else !((vtx R (i + 1)).pos.fuzzyEqEps q eps && (vtx R (k + 1)).pos.fuzzyEqEps q eps)

/-- the pairs of segments that are compared -/
noncomputable def sources (R : Pline ℝ) (pairs : List (Nat × Nat)) : List (Nat × Nat) :=
  ((List.range R.verts.length).map fun i => (i, (i + 1) % R.verts.length)) ++ pairs

theorem seg_count (hf : FullLoop R eps) : R.segmentCount = R.verts.length := by
  have := hf.two
  unfold segmentCount vertexCount; dsimp only; rw [hf.closed]; simp; omega

section
variable (he : 0 < eps) (hf : FullLoop R eps) (hE : SelfCrossing R eps gap E) (hF : FindsSelf R eps) {pairs : List (Nat × Nat)} (hP : R.Examined eps pairs)
include he hf hE hF hP

theorem pair_bounds {i k : Nat} (h : (i, k) ∈ pairs) : i < R.verts.length ∧ k < R.verts.length ∧ i ≠ k ∧ (i + 1) % R.verts.length ≠ k ∧
    (k + 1) % R.verts.length ≠ i ∧ FindsPair (vtx R i, vtx R (i + 1)) (vtx R k, vtx R (k + 1)) eps := by
  obtain ⟨⟨h1, h2, h3, h4, h5, -⟩, s, t, hs, ht, hb⟩ := hP.sound i k h
  rw [seg_count hf] at h1 h2
  obtain ⟨-, rfl⟩ := (seg_vtx hf.closed hf.two _ _).mp hs
  obtain ⟨-, rfl⟩ := (seg_vtx hf.closed hf.two _ _).mp ht
  exact ⟨h1, h2, h3, h4, h5, hF.pair i k h1 h2 h3 h4 h5 hb⟩

theorem reports_eq : (R.visitReports eps pairs .all).flatMap Intr.cutPoints =
    (sources R pairs).flatMap fun ik => (ptsOf R eps ik.1 ik.2).flatMap fun q => [(ik.1, q), (ik.2, q)] := by
  have hn : 0 < R.verts.length := by have := hf.two; omega
  have h3 := hE.three
  have hloc : R.localReports eps = (List.range R.verts.length).flatMap (R.cornerReports eps) := by
    unfold localReports
    split
    · rename_i a b h1 h2
      rw [h2] at h3
      simp at h3
    · unfold corners
      rw [seg_count hf, List.filter_eq_self.mpr]
      intro i _
      simp [Continues, hf.closed]
  have key : ∀ (r : PlineSegIntr ℝ) (i k : Nat) (l l' : V2 ℝ → Bool), r.overlap = none →
      (r.reports i k l l').flatMap Intr.cutPoints = (r.isolated.filter fun q => !l q).flatMap fun q => [(i, q), (k, q)] := by
    intro r i k l l' ho
    unfold PlineSegIntr.reports
    rw [ho, List.append_nil, List.flatMap_map]
    rfl
  unfold visitReports sources
  simp only
  rw [hloc, List.flatMap_append, List.flatMap_append, List.flatMap_assoc, List.flatMap_assoc, List.flatMap_map]
  congr 1
  · refine List.flatMap_congr fun i hi => ?_
    rw [List.mem_range] at hi
    unfold cornerReports following
    have s1 := (seg_vtx hf.closed hf.two i _).mpr ⟨hi, rfl⟩
    have s2 := (seg_vtx hf.closed hf.two ((i + 1) % R.verts.length) _).mpr ⟨Nat.mod_lt _ hn, rfl⟩
    rw [s1, s2]
    dsimp only
    rw [if_neg (by rw [(hf.full i).apart]; simp)]
    have hc := hF.corner i hi
    rw [key]
    · unfold ptsOf
      simp only [if_true]
    · have := hc.overlap
      dsimp only at this
      rw [vtx_mod, vtx_mod_succ]
      exact this
  · refine List.flatMap_congr fun ik hik => ?_
    obtain ⟨i, k⟩ := ik
    obtain ⟨b1, b2, b3, b4, b5, fp⟩ := pair_bounds he hf hE hF hP hik
    unfold pairReports
    have s1 := (seg_vtx hf.closed hf.two i _).mpr ⟨b1, rfl⟩
    have s2 := (seg_vtx hf.closed hf.two k _).mpr ⟨b2, rfl⟩
    dsimp only
    rw [s1, s2]
    dsimp only
    rw [key _ _ _ _ _ fp.overlap]
    unfold ptsOf
    simp only [if_neg (Ne.symm b4)]

theorem source_pts {i k : Nat} (h : (i, k) ∈ sources R pairs) : (ptsOf R eps i k).Nodup ∧ ∀ q, q ∈ ptsOf R eps i k ↔ CrossAt R E i k q := by
  have hn : 0 < R.verts.length := by have := hf.two; omega
  have h3 := hE.three
  have hon : ∀ (j : Nat) (q : V2 ℝ), OnSeg (vtx R j) (vtx R (j + 1)) q ↔ ∃ t, 0 ≤ t ∧ t ≤ 1 ∧ q = curveAt R j t := by
    intro j q
    unfold OnSeg
    simp only [curveAt_vtx hn]
  have hend : ∀ j, curveAt R j 1 = (vtx R (j + 1)).pos := fun j => by rw [curveAt_vtx hn]; exact (segCurve_ends _ _).2
  -- crossings are on both segments and clear of their ends
  have hcr : ∀ i k q, CrossAt R E i k q → OnSeg (vtx R i) (vtx R (i + 1)) q ∧ OnSeg (vtx R k) (vtx R (k + 1)) q ∧
      q.fuzzyEqEps (vtx R (i + 1)).pos eps = false := by
    rintro i k q ⟨t, u, h1, h2, h3⟩
    have c := hE.ok _ (cut_mem h1)
    have c' := hE.ok _ (cut_mem h1.symm)
    refine ⟨(hon i q).mpr ⟨t, c.pos.le, c.lt.le, h2⟩, (hon k q).mpr ⟨u, c'.pos.le, c'.lt.le, h3⟩, ?_⟩
    have := c.stop
    rw [← curveAt_vtx hn] at this
    rw [h2]; exact this
  rcases List.mem_append.mp h with h | h
  · obtain ⟨j, hj, e⟩ := List.mem_map.mp h
    rw [List.mem_range] at hj
    simp only [Prod.mk.injEq] at e
    obtain ⟨rfl, rfl⟩ := e
    have hc := hF.corner j hj
    have e1 : ptsOf R eps j ((j + 1) % R.verts.length) =
        (plineSegIntr (vtx R j) (vtx R (j + 1)) (vtx R (j + 1)) (vtx R (j + 2)) eps).isolated.filter fun q => !q.fuzzyEqEps (vtx R (j + 1)).pos eps := by
      unfold ptsOf
      simp only [if_true]
      rw [vtx_mod, vtx_mod_succ]
    rw [e1]
    refine ⟨hc.nodup, fun q => ?_⟩
    rw [List.mem_filter]
    constructor
    · rintro ⟨h1, h2⟩
      have h2 : q.fuzzyEqEps (vtx R (j + 1)).pos eps = false := by simpa using h2
      obtain ⟨o1, o2⟩ := (hc.points q h2).mp h1
      dsimp only at o1 o2
      obtain ⟨t, t0, t1, rfl⟩ := (hon j q).mp o1
      rw [show j + 2 = (j + 1) + 1 from rfl] at o2
      obtain ⟨u, u0, u1, e⟩ := (hon (j + 1) _).mp o2
      have ht1 : t ≠ 1 := by
        rintro rfl
        rw [hend j, fuzzy_refl _ he] at h2
        cases h2
      rw [← curveAt_cyc hn (j + 1)] at e
      by_cases hw : j + 1 < R.verts.length
      · rw [Nat.mod_eq_of_lt hw] at e ⊢
        rcases hE.all j t (j + 1) u (by omega) hw t0 t1 u0 u1 e with h | h | h
        · exact absurd h.2.1 ht1
        · omega
        · exact ⟨t, u, Or.inl h, rfl, e⟩
      · have hw' : (j + 1) % R.verts.length = 0 := by rw [show j + 1 = R.verts.length by omega]; exact Nat.mod_self _
        rw [hw'] at e ⊢
        rcases hE.all 0 u j t (by omega) hj u0 u1 t0 t1 e.symm with h | h | h
        · omega
        · exact absurd h.2.2.2 ht1
        · exact ⟨t, u, Or.inr h, rfl, e⟩
    · intro h
      obtain ⟨h1, h2, h3⟩ := hcr _ _ _ h
      rw [vtx_mod, vtx_mod_succ] at h2
      exact ⟨(hc.points q h3).mpr ⟨h1, h2⟩, by simp [h3]⟩
  · obtain ⟨b1, b2, b3, b4, b5, fp⟩ := pair_bounds he hf hE hF hP h
    unfold ptsOf
    simp only [if_neg (Ne.symm b4)]
    refine ⟨fp.nodup.filter _, fun q => ?_⟩
    rw [List.mem_filter]
    constructor
    · rintro ⟨h1, h2⟩
      obtain ⟨o1, o2⟩ := (fp.points q).mp h1
      dsimp only at o1 o2
      obtain ⟨t, t0, t1, rfl⟩ := (hon i q).mp o1
      obtain ⟨u, u0, u1, e⟩ := (hon k _).mp o2
      rcases Nat.lt_or_gt_of_ne b3 with hlt | hlt
      · rcases hE.all i t k u hlt b2 t0 t1 u0 u1 e with h | h | h
        · exact absurd (by rw [← h.1, Nat.mod_eq_of_lt b2]) b4
        · exact absurd (by rw [h.2.1, h.1, Nat.mod_self]) b5
        · exact ⟨t, u, Or.inl h, rfl, e⟩
      · rcases hE.all k u i t hlt b1 u0 u1 t0 t1 e.symm with h | h | h
        · exact absurd (by rw [← h.1, Nat.mod_eq_of_lt b1]) b5
        · exact absurd (by rw [h.2.1, h.1, Nat.mod_self]) b4
        · exact ⟨t, u, Or.inr h, rfl, e⟩
    · intro h
      obtain ⟨h1, h2, h3⟩ := hcr _ _ _ h
      refine ⟨(fp.points q).mpr ⟨h1, h2⟩, ?_⟩
      rw [fuzzy_comm] at h3
      simp [h3]

theorem source_all {i k : Nat} {q : V2 ℝ} (h : CrossAt R E i k q) : (i, k) ∈ sources R pairs ∨ (k, i) ∈ sources R pairs := by
  have hn : 0 < R.verts.length := by have := hf.two; omega
  have h3 := hE.three
  have corner : ∀ j < R.verts.length, (j, (j + 1) % R.verts.length) ∈ sources R pairs := fun j hj =>
    List.mem_append.mpr (Or.inl (List.mem_map.mpr ⟨j, List.mem_range.mpr hj, rfl⟩))
  have hne := cross_ne hE h
  obtain ⟨t, u, h1, h2, h4⟩ := h
  have r1 := hE.range _ (cut_mem h1)
  have r2 := hE.range _ (cut_mem h1.symm)
  have c := hE.ok _ (cut_mem h1)
  have c' := hE.ok _ (cut_mem h1.symm)
  dsimp only at r1 r2
  by_cases a1 : (i + 1) % R.verts.length = k
  · left; rw [← a1]; exact corner i r1
  by_cases a2 : (k + 1) % R.verts.length = i
  · right; rw [← a2]; exact corner k r2
  have hna : R.NonAdjacent i k := by
    refine ⟨by rw [seg_count hf]; exact r1, by rw [seg_count hf]; exact r2, hne, a1, a2, ?_⟩
    unfold following
    intro e
    apply hne
    by_cases e1 : i + 1 < R.verts.length
    · rw [Nat.mod_eq_of_lt e1] at e
      by_cases e2 : k + 1 < R.verts.length
      · rw [Nat.mod_eq_of_lt e2] at e; omega
      · rw [show k + 1 = R.verts.length by omega, Nat.mod_self] at e; omega
    · rw [show i + 1 = R.verts.length by omega, Nat.mod_self] at e
      by_cases e2 : k + 1 < R.verts.length
      · rw [Nat.mod_eq_of_lt e2] at e; omega
      · omega
  have s1 := (seg_vtx hf.closed hf.two i _).mpr ⟨r1, rfl⟩
  have s2 := (seg_vtx hf.closed hf.two k _).mpr ⟨r2, rfl⟩
  have sh : ∀ j, IsLine (vtx R j) ∨ |(vtx R j).bulge| ≤ 1 := fun j => (hf.full j).shape.imp id fun h => h.2
  have hb : BoxesMeet (vtx R k, vtx R (k + 1)) (vtx R i, vtx R (i + 1)) eps :=
    C37_boxes _ _ eps he.le (sh k) (sh i) q ⟨u, c'.pos.le, c'.lt.le, by rw [h4, curveAt_vtx hn]⟩ ⟨t, c.pos.le, c.lt.le, by rw [h2, curveAt_vtx hn]⟩
  exact (hP.complete i k _ _ hna s1 s2 hb).imp (fun h => List.mem_append.mpr (Or.inr h)) fun h => List.mem_append.mpr (Or.inr h)

theorem sources_nodup : (sources R pairs).Nodup ∧ ∀ i k, (i, k) ∈ sources R pairs → (k, i) ∉ sources R pairs := by
  have hn : 0 < R.verts.length := by have := hf.two; omega
  have h3 := hE.three
  have hcor : ∀ i k, (i, k) ∈ (List.range R.verts.length).map (fun i => (i, (i + 1) % R.verts.length)) → k = (i + 1) % R.verts.length ∧ i < R.verts.length := by
    intro i k h
    obtain ⟨j, hj, e⟩ := List.mem_map.mp h
    rw [List.mem_range] at hj
    simp only [Prod.mk.injEq] at e
    obtain ⟨rfl, rfl⟩ := e
    exact ⟨rfl, hj⟩
  constructor
  · unfold sources
    rw [List.nodup_append]
    refine ⟨List.nodup_range.map fun a b h => congrArg Prod.fst h, hP.nodup, ?_⟩
    rintro ⟨i, k⟩ h1 ⟨i', k'⟩ h2 e
    cases e
    obtain ⟨-, -, -, b4, -⟩ := pair_bounds he hf hE hF hP h2
    exact b4 (hcor i k h1).1.symm
  · intro i k h h'
    rcases List.mem_append.mp h with h | h <;> rcases List.mem_append.mp h' with h' | h'
    · obtain ⟨e1, l1⟩ := hcor _ _ h
      obtain ⟨e2, l2⟩ := hcor _ _ h'
      by_cases e : i + 1 < R.verts.length
      · rw [Nat.mod_eq_of_lt e] at e1
        subst e1
        by_cases e' : i + 1 + 1 < R.verts.length
        · rw [Nat.mod_eq_of_lt e'] at e2; omega
        · rw [show i + 1 + 1 = R.verts.length by omega, Nat.mod_self] at e2; omega
      · rw [show i + 1 = R.verts.length by omega, Nat.mod_self] at e1
        subst e1
        rw [Nat.mod_eq_of_lt (by omega)] at e2; omega
    · obtain ⟨-, -, -, -, b5, -⟩ := pair_bounds he hf hE hF hP h'
      exact b5 (hcor _ _ h).1.symm
    · obtain ⟨-, -, -, -, b5, -⟩ := pair_bounds he hf hE hF hP h
      exact b5 (hcor _ _ h').1.symm
    · exact hP.oneOrder _ _ h h'

theorem mem_cross (x : Nat × V2 ℝ) : x ∈ (bothCuts E).map (cutPt R) ↔ ∃ k, CrossAt R E x.1 k x.2 := by
  rw [List.mem_map]
  constructor
  · rintro ⟨c, hc, rfl⟩
    unfold bothCuts at hc
    rw [List.mem_append, List.mem_map, List.mem_map] at hc
    rcases hc with ⟨e, he', rfl⟩ | ⟨e, he', rfl⟩
    · exact ⟨e.2.1, e.1.2, e.2.2, Or.inl he', rfl, hE.on e he'⟩
    · exact ⟨e.1.1, e.2.2, e.1.2, Or.inr he', rfl, (hE.on e he').symm⟩
  · rintro ⟨k, t, u, h1, h2, -⟩
    exact ⟨(x.1, t), cut_mem h1, by unfold cutPt; rw [← h2]⟩

/-- The cut points are the crossings, on each of their two segments. -/
theorem self_cuts : ((R.visitReports eps pairs .all).flatMap Intr.cutPoints).Perm ((bothCuts E).map (cutPt R)) := by
  rw [reports_eq he hf hE hF hP]
  obtain ⟨hnd, hone⟩ := sources_nodup he hf hE hF hP
  rw [List.perm_ext_iff_of_nodup]
  · intro x
    rw [mem_cross he hf hE hF hP, List.mem_flatMap]
    constructor
    · rintro ⟨⟨i, k⟩, hik, hx⟩
      rw [List.mem_flatMap] at hx
      obtain ⟨q, hq, hx⟩ := hx
      have hc := ((source_pts he hf hE hF hP hik).2 q).mp hq
      simp only [List.mem_cons, List.not_mem_nil, or_false] at hx
      rcases hx with rfl | rfl
      · exact ⟨k, hc⟩
      · exact ⟨i, hc.symm⟩
    · rintro ⟨k, hc⟩
      rcases source_all he hf hE hF hP hc with h | h
      · exact ⟨(x.1, k), h, List.mem_flatMap.mpr ⟨x.2, ((source_pts he hf hE hF hP h).2 _).mpr hc, by simp⟩⟩
      · exact ⟨(k, x.1), h, List.mem_flatMap.mpr ⟨x.2, ((source_pts he hf hE hF hP h).2 _).mpr hc.symm, by simp⟩⟩
  · rw [List.nodup_flatMap]
    constructor
    · rintro ⟨i, k⟩ hik
      obtain ⟨hnp, hpts⟩ := source_pts he hf hE hF hP hik
      rw [List.nodup_flatMap]
      constructor
      · intro q hq
        have := cross_ne hE ((hpts q).mp hq)
        simp [this]
      · refine hnp.imp fun {a b} hab => ?_
        rw [Function.onFun, List.disjoint_left]
        intro x hx hx'
        simp only [List.mem_cons, List.not_mem_nil, or_false] at hx hx'
        apply hab
        rcases hx with rfl | rfl <;> rcases hx' with h | h <;> exact congrArg Prod.snd h
    · refine hnd.imp_of_mem fun {a b} ha hb hab => ?_
      rw [Function.onFun, List.disjoint_left]
      intro x hx hx'
      obtain ⟨i, k⟩ := a
      obtain ⟨i', k'⟩ := b
      rw [List.mem_flatMap] at hx hx'
      obtain ⟨q, hq, hx⟩ := hx
      obtain ⟨q', hq', hx'⟩ := hx'
      have hc := ((source_pts he hf hE hF hP ha).2 q).mp hq
      have hc' := ((source_pts he hf hE hF hP hb).2 q').mp hq'
      simp only [List.mem_cons, List.not_mem_nil, or_false] at hx hx'
      rcases hx with rfl | rfl <;> rcases hx' with h | h
      · simp only [Prod.mk.injEq] at h
        obtain ⟨rfl, rfl⟩ := h
        have := cross_unique he hf hE hc hc'
        exact hab (by rw [this])
      · simp only [Prod.mk.injEq] at h
        obtain ⟨rfl, rfl⟩ := h
        have := cross_unique he hf hE hc hc'.symm
        subst this
        exact hone _ _ ha hb
      · simp only [Prod.mk.injEq] at h
        obtain ⟨rfl, rfl⟩ := h
        have := cross_unique he hf hE hc.symm hc'
        subst this
        exact hone _ _ ha hb
      · simp only [Prod.mk.injEq] at h
        obtain ⟨rfl, rfl⟩ := h
        have := cross_unique he hf hE hc.symm hc'.symm
        exact hab (by rw [this])
  · refine List.Nodup.map_on ?_ hE.nodup
    rintro ⟨i, t⟩ h ⟨i', t'⟩ h' e
    unfold cutPt at e
    simp only [Prod.mk.injEq] at e
    obtain ⟨rfl, e⟩ := e
    have c := hE.ok _ h
    have c' := hE.ok _ h'
    have : t = t' := curve_inj he hf c.pos.le c.lt.le c'.pos.le c'.lt.le e
    rw [this]

end
end
end Cavc
