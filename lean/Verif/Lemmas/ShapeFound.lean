import Verif.Lemmas.ShapeLoop
import Verif.Lemmas.LoopFound
import Verif.Props.ShapeReal

/-! # The cut points found between the offset loops of a shape -/

set_option linter.unusedVariables false
set_option linter.unusedSectionVars false

namespace Cavc
open Pline RealScalar

section
variable {R Q : Pline ℝ} {eps gap : ℝ}

/-- The intersects found between two loops are exactly their common points. -/
theorem pair_found (env : Env ℝ) (he : 0 < eps) (hR : FullLoop R eps) (hQ : FullLoop Q eps) (hF : FindsPairs R Q eps) {idx : Index ℝ} (hidx : idx.Serves R)
    (hcR : ∀ k t, k < R.verts.length → 0 ≤ t → t ≤ 1 → OnPline Q (curveAt R k t) → CutOk R eps (k, t))
    (hcQ : ∀ k t, k < Q.verts.length → 0 ≤ t → t ≤ 1 → OnPline R (curveAt Q k t) → CutOk Q eps (k, t)) :
    ∃ r, findIntersects env R Q (some idx) eps = .ok r ∧ r.overlapping = [] ∧ ∀ b : BasicIntr ℝ, b ∈ r.basic ↔
      b.startIndex1 < R.verts.length ∧ b.startIndex2 < Q.verts.length ∧ (∃ t, 0 ≤ t ∧ t ≤ 1 ∧ b.point = curveAt R b.startIndex1 t) ∧
        ∃ u, 0 ≤ u ∧ u ≤ 1 ∧ b.point = curveAt Q b.startIndex2 u := by
  have hn : 0 < R.verts.length := by have := hR.two; omega
  have hn' : 0 < Q.verts.length := by have := hQ.two; omega
  obtain ⟨r, hr, ho, hb⟩ := C37_result env R Q (some idx) eps hidx
  have hov : r.overlapping = [] := by
    rw [List.eq_nil_iff_forall_not_mem]
    intro q hq
    obtain ⟨s1, s2, h1, h2, hm, h3⟩ := (ho q).mp hq
    rw [(hF s1 (List.mem_of_getElem? h1) s2 (List.mem_of_getElem? h2) hm).overlap] at h3
    cases h3
  refine ⟨r, hr, hov, fun b => (hb b).trans ?_⟩
  constructor
  · rintro ⟨s1, s2, h1, h2, hm, h3, -⟩
    obtain ⟨q1, q2⟩ := ((hF s1 (List.mem_of_getElem? h1) s2 (List.mem_of_getElem? h2) hm).points _).mp h3
    obtain ⟨l1, rfl⟩ := (seg_vtx hR.closed hR.two _ _).mp h1
    obtain ⟨l2, rfl⟩ := (seg_vtx hQ.closed hQ.two _ _).mp h2
    exact ⟨l1, l2, (loop_onSeg hR _ _).mp q1, (loop_onSeg hQ _ _).mp q2⟩
  · rintro ⟨l1, l2, ⟨t, t0, t1, e1⟩, u, u0, u1, e2⟩
    have g1 := (seg_vtx hR.closed hR.two b.startIndex1 _).mpr ⟨l1, rfl⟩
    have g2 := (seg_vtx hQ.closed hQ.two b.startIndex2 _).mpr ⟨l2, rfl⟩
    have o1 := (loop_onSeg hR b.startIndex1 b.point).mpr ⟨t, t0, t1, e1⟩
    have o2 := (loop_onSeg hQ b.startIndex2 b.point).mpr ⟨u, u0, u1, e2⟩
    have hm : BoxesMeet (vtx R b.startIndex1, vtx R (b.startIndex1 + 1)) (vtx Q b.startIndex2, vtx Q (b.startIndex2 + 1)) eps :=
      C37_boxes _ _ eps he.le (loop_shape hR _) (loop_shape hQ _) _ o1 o2
    refine ⟨_, _, g1, g2, hm, ((hF _ (List.mem_of_getElem? g1) _ (List.mem_of_getElem? g2) hm).points _).mpr ⟨o1, o2⟩, ?_, ?_, ?_, ?_⟩
    · rintro ⟨hfz, -⟩
      have := (hcR _ t l1 t0 t1 (by rw [← e1]; exact ⟨_, List.mem_of_getElem? g2, o2⟩)).stop
      dsimp only at this hfz
      rw [← curveAt_vtx hn, ← e1, fuzzy_comm] at this
      rw [this] at hfz
      cases hfz
    · rintro ⟨hfz, -⟩
      have := (hcQ _ u l2 u0 u1 (by rw [← e2]; exact ⟨_, List.mem_of_getElem? g1, o1⟩)).stop
      dsimp only at this hfz
      rw [← curveAt_vtx hn', ← e2, fuzzy_comm] at this
      rw [this] at hfz
      cases hfz
    · rintro ⟨-, q, hq, -⟩
      unfold IntrCollection.overlapsOn1 at hq
      rw [hov] at hq
      cases hq
    · rintro ⟨-, q, hq, -⟩
      unfold IntrCollection.overlapsOn2 at hq
      rw [hov] at hq
      cases hq

/-- the box around a loop -/
theorem loopBox_contains (hR : FullLoop R eps) : ∃ b, R.loopBox = some b ∧ ∀ X, OnPline R X → b.Contains X := by
  have h2 := hR.two
  have hne : R.segs.map segBox ≠ [] := by
    have := (seg_vtx hR.closed hR.two 0 _).mpr ⟨by omega, rfl⟩
    have := List.mem_of_getElem? this
    intro h
    rw [List.map_eq_nil_iff] at h
    rw [h] at this
    cases this
  obtain ⟨b, hb⟩ : ∃ b, boundsOf (R.segs.map segBox) = some b := by
    cases hs : R.segs.map segBox with
    | nil => exact absurd hs hne
    | cons a l => exact ⟨_, rfl⟩
  refine ⟨b, hb, ?_⟩
  rintro X ⟨s, hs, hX⟩
  obtain ⟨k, hk, e⟩ := List.getElem_of_mem hs
  obtain ⟨-, rfl⟩ := (seg_vtx hR.closed hR.two k _).mp (by rw [List.getElem?_eq_getElem hk, e])
  exact boundsOf_contains _ b (segBox _) X hb (List.mem_map.mpr ⟨_, hs, rfl⟩) (C33_fast_box _ _ (loop_shape hR k) X hX)

end

/-- The cut points found on an offset loop are its cuts. -/
theorem shape_found (env : Env ℝ) {loops : List (OffsetLoop ℝ)} {eps gap : ℝ} {C : Nat → List Cut} (he : 0 < eps)
    (hserve : ∀ l ∈ loops, l.ip.index.Serves l.ip.pline) (hf : ∀ l ∈ loops, FullLoop l.ip.pline eps) (hC : ShapeCuts loops eps gap C) (hF : ShapeFinds loops eps)
    {sets : List (SlicePointSet ℝ)} (hsets : LoopCuts env loops eps sets) {i : Nat} {l : OffsetLoop ℝ} (hi : loops[i]? = some l) (x : Nat × V2 ℝ) :
    x ∈ cutsOfLoop sets i ↔ ∃ c ∈ C i, cutPt l.ip.pline c = x := by
  have key : ∀ (a b : Nat) (la lb : OffsetLoop ℝ), a < b → loops[a]? = some la → loops[b]? = some lb → ∃ r, findIntersects env la.ip.pline lb.ip.pline (some la.ip.index) eps = .ok r ∧ r.overlapping = [] ∧
      ∀ q : BasicIntr ℝ, q ∈ r.basic ↔ q.startIndex1 < la.ip.pline.verts.length ∧ q.startIndex2 < lb.ip.pline.verts.length ∧
        (∃ t, 0 ≤ t ∧ t ≤ 1 ∧ q.point = curveAt la.ip.pline q.startIndex1 t) ∧ ∃ u, 0 ≤ u ∧ u ≤ 1 ∧ q.point = curveAt lb.ip.pline q.startIndex2 u := by
    intro a b la lb hab ha hb
    have ma := List.mem_of_getElem? ha
    have mb := List.mem_of_getElem? hb
    refine pair_found env he (hf la ma) (hf lb mb) (hF a la ha b lb hb hab) (hserve la ma) ?_ ?_
    · intro k t hk t0 t1 h
      exact hC.ok a la ha _ (hC.all a la ha b lb hb (by omega) k t hk t0 t1 h)
    · intro k t hk t0 t1 h
      exact hC.ok b lb hb _ (hC.all b lb hb a la ha (by omega) k t hk t0 t1 h)
  have hlm := List.mem_of_getElem? hi
  have hcp : ∀ r : IntrCollection ℝ, r.overlapping = [] → r.cutPoints = r.basic := by
    intro r h
    unfold IntrCollection.cutPoints
    rw [h]; simp
  unfold cutsOfLoop
  rw [List.mem_flatMap]
  constructor
  · rintro ⟨y, hy, hx⟩
    obtain ⟨hlt, la, lb, b1, b2, r, ha, hb, -, -, -, hr, hpts, -⟩ := hsets.sound y hy
    obtain ⟨r', hr', hov, hbas⟩ := key _ _ la lb hlt ha hb
    rw [hr] at hr'
    cases hr'
    rw [hpts, hcp r hov] at hx
    split_ifs at hx with h1 h2
    · obtain ⟨q, hq, rfl⟩ := List.mem_map.mp hx
      subst h1
      rw [hi] at ha
      cases ha
      obtain ⟨q1, q2, ⟨t, t0, t1, e1⟩, u, u0, u1, e2⟩ := (hbas q).mp hq
      refine ⟨(q.startIndex1, t), hC.all _ l hi _ lb hb (by omega) _ t q1 t0 t1 ?_, ?_⟩
      · rw [← e1, e2]
        exact (loop_on (hf lb (List.mem_of_getElem? hb)) _).mpr ⟨_, u, q2, u0, u1, rfl⟩
      · unfold cutPt; rw [e1]
    · obtain ⟨q, hq, rfl⟩ := List.mem_map.mp hx
      subst h2
      rw [hi] at hb
      cases hb
      obtain ⟨q1, q2, ⟨t, t0, t1, e1⟩, u, u0, u1, e2⟩ := (hbas q).mp hq
      refine ⟨(q.startIndex2, u), hC.all _ l hi _ la ha (by omega) _ u q2 u0 u1 ?_, ?_⟩
      · rw [← e2, e1]
        exact (loop_on (hf la (List.mem_of_getElem? ha)) _).mpr ⟨_, t, q1, t0, t1, rfl⟩
      · unfold cutPt; rw [e2]
    · cases hx
  · rintro ⟨c, hc, rfl⟩
    obtain ⟨j, m, hji, hj, hon⟩ := hC.on i l hi c hc
    have hmm := List.mem_of_getElem? hj
    have hc0 := (hC.ok i l hi c hc).pos
    have hc1 := (hC.ok i l hi c hc).lt
    have hcr := hC.range i l hi c hc
    have hon' : OnPline l.ip.pline (curveAt l.ip.pline c.1 c.2) := (loop_on (hf l hlm) _).mpr ⟨_, _, hcr, hc0.le, hc1.le, rfl⟩
    obtain ⟨bl, hbl, cl⟩ := loopBox_contains (hf l hlm)
    obtain ⟨bm, hbm, cm⟩ := loopBox_contains (hf m hmm)
    obtain ⟨k, u, hk, u0, u1, e⟩ := (loop_on (hf m hmm) _).mp hon
    rcases Nat.lt_or_gt_of_ne hji with hlt | hlt
    · obtain ⟨r, hr, hov, hbas⟩ := key j i m l hlt hj hi
      have hq : (⟨k, c.1, curveAt l.ip.pline c.1 c.2⟩ : BasicIntr ℝ) ∈ r.basic := (hbas _).mpr ⟨hk, hcr, ⟨u, u0, u1, e⟩, c.2, hc0.le, hc1.le, rfl⟩
      obtain ⟨y, hy, y1, y2⟩ := hsets.complete j i _ hlt ⟨m, l, bm, bl, r, hj, hi, hbm, hbl, overlaps_of_contains _ _ _ (cl _ hon') (cm _ hon), hr, rfl, by
        rw [hcp r hov]; exact List.ne_nil_of_mem hq⟩
      obtain ⟨-, la, lb, b1, b2, r', ha, hb, -, -, -, hr', hpts, -⟩ := hsets.sound y hy
      rw [y1, hj] at ha
      rw [y2, hi] at hb
      cases ha; cases hb
      rw [hr] at hr'
      cases hr'
      refine ⟨y, hy, ?_⟩
      rw [if_neg (by omega), if_pos y2, hpts, hcp r hov]
      exact List.mem_map.mpr ⟨_, hq, rfl⟩
    · obtain ⟨r, hr, hov, hbas⟩ := key i j l m hlt hi hj
      have hq : (⟨c.1, k, curveAt l.ip.pline c.1 c.2⟩ : BasicIntr ℝ) ∈ r.basic := (hbas _).mpr ⟨hcr, hk, ⟨c.2, hc0.le, hc1.le, rfl⟩, u, u0, u1, e⟩
      obtain ⟨y, hy, y1, y2⟩ := hsets.complete i j _ hlt ⟨l, m, bl, bm, r, hi, hj, hbl, hbm, overlaps_of_contains _ _ _ (cm _ hon) (cl _ hon'), hr, rfl, by
        rw [hcp r hov]; exact List.ne_nil_of_mem hq⟩
      obtain ⟨-, la, lb, b1, b2, r', ha, hb, -, -, -, hr', hpts, -⟩ := hsets.sound y hy
      rw [y1, hi] at ha
      rw [y2, hj] at hb
      cases ha; cases hb
      rw [hr] at hr'
      cases hr'
      refine ⟨y, hy, ?_⟩
      rw [if_pos y1, hpts, hcp r hov]
      exact List.mem_map.mpr ⟨_, hq, rfl⟩

end Cavc
