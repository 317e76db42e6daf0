import Verif.Props.FindIntr
import Verif.Props.SegIntrMore
import Verif.Props.Boxes
import Verif.Spec.PlainEnv

/-! # C37 over the reals: no crossing is lost away from the vertexes -/

set_option linter.unusedSectionVars false

namespace Cavc
open RealScalar

/-- **C37** The search by boxes skips no pair of segments that share a point. -/
theorem C37_boxes (s1 s2 : Vertex ℝ × Vertex ℝ) (eps : ℝ) (heps : 0 ≤ eps) (h1 : IsLine s1.1 ∨ |s1.1.bulge| ≤ 1)
    (h2 : IsLine s2.1 ∨ |s2.1.bulge| ≤ 1) (q : V2 ℝ) (hq1 : OnSeg s1.1 s1.2 q) (hq2 : OnSeg s2.1 s2.2 q) : BoxesMeet s1 s2 eps := by
  have a := C33_fast_box s1.1 s1.2 h1 q hq1
  have b := C33_fast_box s2.1 s2.2 h2 q hq2
  unfold BoxesMeet segBox
  unfold AABB.Contains at a b
  obtain ⟨a1, a2, a3, a4⟩ := a
  obtain ⟨b1, b2, b3, b4⟩ := b
  simp only [AABB.overlaps, AABB.grow, lt_eq, gt_eq, Bool.not_eq_true', Bool.or_eq_false_iff, decide_eq_false_iff_not, not_lt]
  refine ⟨⟨⟨?_, ?_⟩, ?_⟩, ?_⟩ <;> linarith

/-- **C37** (crossing lines) Where two straight segments of the polylines cross at a resolvable angle, at a
point that is not within `eps` of a vertex of the two segments, exactly that point is reported for the two segments. -/
theorem C37_crossing (env : Env ℝ) (p1 p2 : Pline ℝ) (o : Option (Index ℝ)) (eps : ℝ) (heps : 0 < eps)
    (hidx : (o.getD (p1.approxIndex env)).Serves p1) (i1 i2 : Nat) (s1 s2 : Vertex ℝ × Vertex ℝ)
    (h1 : p1.segs[i1]? = some s1) (h2 : p2.segs[i2]? = some s2) (l1 : IsLine s1.1) (l2 : IsLine s2.1)
    (hres : eps ≤ |dirCross s1.1.pos s1.2.pos s2.1.pos s2.2.pos|) (q : V2 ℝ) (hq1 : OnSeg s1.1 s1.2 q) (hq2 : OnSeg s2.1 s2.2 q)
    (hfar : ∀ v, v = s1.1 ∨ v = s1.2 ∨ v = s2.1 ∨ v = s2.2 → eps ≤ |v.x - q.x| ∨ eps ≤ |v.y - q.y|) :
    ∃ r, findIntersects env p1 p2 o eps = .ok r ∧
      (∀ pt, ⟨i1, i2, pt⟩ ∈ r.basic ↔ pt = q) ∧ ∀ a b, ⟨i1, i2, a, b⟩ ∉ r.overlapping := by
  obtain ⟨r, hr, ho, hb⟩ := C37_result env p1 p2 o eps hidx
  have hI := C27_lines_complete s1.1 s1.2 s2.1 s2.2 eps heps l1 l2 hres q hq1 hq2
  have hm := C37_boxes s1 s2 eps heps.le (Or.inl l1) (Or.inl l2) q hq1 hq2
  have far1 : ∀ v, v = s1.1 ∨ v = s1.2 ∨ v = s2.1 ∨ v = s2.2 → ¬ (v.pos.fuzzyEqEps q eps = true) := by
    intro v hv hf
    rw [V2.fuzzyEqEps_iff] at hf
    rcases hfar v hv with h | h
    · exact absurd hf.1 (not_lt.mpr h)
    · exact absurd hf.2 (not_lt.mpr h)
  have far2 : ∀ v, v = s1.1 ∨ v = s1.2 ∨ v = s2.1 ∨ v = s2.2 → ¬ (q.fuzzyEqEps v.pos eps = true) := by
    intro v hv hf
    rw [V2.fuzzyEqEps_iff] at hf
    rcases hfar v hv with h | h
    · rw [abs_sub_comm] at h; exact absurd hf.1 (not_lt.mpr h)
    · rw [abs_sub_comm] at h; exact absurd hf.2 (not_lt.mpr h)
  refine ⟨r, hr, ?_, ?_⟩
  · intro pt
    rw [hb]
    constructor
    · rintro ⟨t1, t2, g1, g2, -, hpt, -⟩
      dsimp only at g1 g2 hpt
      rw [h1] at g1; rw [h2] at g2
      cases g1; cases g2
      rw [hI] at hpt
      simpa [PlineSegIntr.isolated] using hpt
    · rintro rfl
      refine ⟨s1, s2, h1, h2, hm, by rw [hI]; simp [PlineSegIntr.isolated], ?_, ?_, ?_, ?_⟩
      · exact fun h => far1 _ (by tauto) h.1
      · exact fun h => far1 _ (by tauto) h.1
      · exact fun h => far2 _ (by tauto) h.1
      · exact fun h => far2 _ (by tauto) h.1
  · intro a b hab
    obtain ⟨t1, t2, g1, g2, -, hov⟩ := (ho _).mp hab
    dsimp only at g1 g2 hov
    rw [h1] at g1; rw [h2] at g2
    cases g1; cases g2
    rw [hI] at hov
    simp [PlineSegIntr.overlap] at hov

/-- The hypotheses of `C37_crossing` are met by two crossing diagonals. -/
example : ∃ r, findIntersects Env.plain (⟨[⟨0, 0, 0⟩, ⟨2, 2, 0⟩, ⟨5, 2, 0⟩], false⟩ : Pline ℝ) ⟨[⟨0, 2, 0⟩, ⟨2, 0, 0⟩], false⟩ none (1 / 100000) = .ok r ∧
      (∀ pt, ⟨0, 0, pt⟩ ∈ r.basic ↔ pt = ⟨1, 1⟩) ∧ ∀ a b, ⟨0, 0, a, b⟩ ∉ r.overlapping := by
  refine C37_crossing Env.plain _ _ none _ (by norm_num) (C37_own_index _ Env.plain_lawful _) 0 0 (⟨0, 0, 0⟩, ⟨2, 2, 0⟩) (⟨0, 2, 0⟩, ⟨2, 0, 0⟩)
    rfl rfl ?_ ?_ ?_ ⟨1, 1⟩ ?_ ?_ ?_
  · unfold IsLine; norm_num
  · unfold IsLine; norm_num
  · norm_num [dirCross, Vertex.pos]
  · refine ⟨1 / 2, by norm_num, by norm_num, ?_⟩
    rw [segCurve_line (by unfold IsLine; norm_num)]
    norm_num [linePoint]
  · refine ⟨1 / 2, by norm_num, by norm_num, ?_⟩
    rw [segCurve_line (by unfold IsLine; norm_num)]
    norm_num [linePoint]
  · rintro v (rfl | rfl | rfl | rfl) <;> norm_num

/-- **C37** (disagreement) A crossing within `eps` of a vertex can be lost: the first polyline crosses the
segment of the second one `1/200000` before its corner and leaves the corner parallel to that segment, and nothing is reported. -/
theorem C37_lost_crossing_witness :
    let p1 : Pline ℝ := ⟨[⟨-4, 0, 0⟩, ⟨0, 0, 0⟩, ⟨3, 4, 0⟩], false⟩
    let p2 : Pline ℝ := ⟨[⟨-3 - 1 / 200000, -4, 0⟩, ⟨3 - 1 / 200000, 4, 0⟩], false⟩
    (OnPline p1 ⟨-1 / 200000, 0⟩ ∧ OnPline p2 ⟨-1 / 200000, 0⟩) ∧
    (0 < dirCross ⟨-3 - 1 / 200000, -4⟩ ⟨3 - 1 / 200000, 4⟩ ⟨-3 - 1 / 200000, -4⟩ ⟨-4, 0⟩ ∧
      dirCross ⟨-3 - 1 / 200000, -4⟩ ⟨3 - 1 / 200000, 4⟩ ⟨-3 - 1 / 200000, -4⟩ ⟨3, 4⟩ < 0) ∧
    findIntersects Env.plain p1 p2 none (1 / 100000) = .ok ⟨[], []⟩ := by
  intro p1 p2
  have hl : ∀ x y : ℝ, IsLine ⟨x, y, 0⟩ := by intro x y; unfold IsLine; norm_num
  have hs1 : p1.segs = [(⟨-4, 0, 0⟩, ⟨0, 0, 0⟩), (⟨0, 0, 0⟩, ⟨3, 4, 0⟩)] := rfl
  have hs2 : p2.segs = [(⟨-3 - 1 / 200000, -4, 0⟩, ⟨3 - 1 / 200000, 4, 0⟩)] := rfl
  have on1 : OnSeg (⟨-4, 0, 0⟩ : Vertex ℝ) ⟨0, 0, 0⟩ ⟨-1 / 200000, 0⟩ := by
    refine ⟨1 - 1 / 800000, by norm_num, by norm_num, ?_⟩
    rw [segCurve_line (hl _ _)]
    norm_num [linePoint]
  have on2 : OnSeg (⟨-3 - 1 / 200000, -4, 0⟩ : Vertex ℝ) ⟨3 - 1 / 200000, 4, 0⟩ ⟨-1 / 200000, 0⟩ := by
    refine ⟨1 / 2, by norm_num, by norm_num, ?_⟩
    rw [segCurve_line (hl _ _)]
    norm_num [linePoint]
  have I1 : plineSegIntr (⟨-4, 0, 0⟩ : Vertex ℝ) ⟨0, 0, 0⟩ ⟨-3 - 1 / 200000, -4, 0⟩ ⟨3 - 1 / 200000, 4, 0⟩ (1 / 100000)
      = .oneIntersect ⟨-1 / 200000, 0⟩ :=
    C27_lines_complete _ _ _ _ _ (by norm_num) (hl _ _) (hl _ _) (by norm_num [dirCross, Vertex.pos]) _ on1 on2
  have I2 : plineSegIntr (⟨0, 0, 0⟩ : Vertex ℝ) ⟨3, 4, 0⟩ ⟨-3 - 1 / 200000, -4, 0⟩ ⟨3 - 1 / 200000, 4, 0⟩ (1 / 100000)
      = .noIntersect := by
    unfold plineSegIntr
    simp only [bulgeIsZero_true (hl _ _), Bool.and_self, if_true]
    rw [(C24_apart _ _ _ _ _ (by norm_num [dirCross, Vertex.pos]) (by norm_num [dirCross, Vertex.pos])).1]
  refine ⟨⟨⟨_, by rw [hs1]; exact List.mem_cons_self, on1⟩, ⟨_, by rw [hs2]; exact List.mem_cons_self, on2⟩⟩, by norm_num [dirCross], ?_⟩
  obtain ⟨r, hr, ho, hb⟩ := C37_result Env.plain p1 p2 none (1 / 100000) (C37_own_index _ Env.plain_lawful _)
  have key : ∀ (i1 i2 : Nat) (s1 s2 : Vertex ℝ × Vertex ℝ), p1.segs[i1]? = some s1 → p2.segs[i2]? = some s2 →
      (i1 = 0 ∧ s1 = (⟨-4, 0, 0⟩, ⟨0, 0, 0⟩) ∧ plineSegIntr s1.1 s1.2 s2.1 s2.2 (1 / 100000) = .oneIntersect ⟨-1 / 200000, 0⟩) ∨
      plineSegIntr s1.1 s1.2 s2.1 s2.2 (1 / 100000) = .noIntersect := by
    intro i1 i2 s1 s2 h1 h2
    rw [hs1] at h1
    rw [hs2] at h2
    have e2 : s2 = (⟨-3 - 1 / 200000, -4, 0⟩, ⟨3 - 1 / 200000, 4, 0⟩) := by
      rcases i2 with _ | i2
      · simpa using h2.symm
      · simp at h2
    subst e2
    rcases i1 with _ | _ | i1
    · have e1 : s1 = (⟨-4, 0, 0⟩, ⟨0, 0, 0⟩) := by simpa using h1.symm
      subst e1
      exact Or.inl ⟨rfl, rfl, I1⟩
    · have e1 : s1 = (⟨0, 0, 0⟩, ⟨3, 4, 0⟩) := by simpa using h1.symm
      subst e1
      exact Or.inr I2
    · simp at h1
  have hb0 : r.basic = [] := by
    rw [List.eq_nil_iff_forall_not_mem]
    intro b hbm
    obtain ⟨s1, s2, h1, h2, -, hpt, hj, -⟩ := (hb b).mp hbm
    rcases key _ _ s1 s2 h1 h2 with ⟨hi, rfl, hI⟩ | hI
    · rw [hI] at hpt
      have hpt : b.point = ⟨-1 / 200000, 0⟩ := by simpa [PlineSegIntr.isolated] using hpt
      apply hj
      rw [hpt, hi]
      refine ⟨?_, Or.inr ?_⟩
      · rw [V2.fuzzyEqEps_iff]; norm_num [Vertex.pos, abs_of_pos]
      · show 0 + 1 < 2; norm_num
    · rw [hI] at hpt; simp [PlineSegIntr.isolated] at hpt
  have ho0 : r.overlapping = [] := by
    rw [List.eq_nil_iff_forall_not_mem]
    intro b hbm
    obtain ⟨s1, s2, h1, h2, -, hov⟩ := (ho b).mp hbm
    rcases key _ _ s1 s2 h1 h2 with ⟨-, -, hI⟩ | hI <;> (rw [hI] at hov; simp [PlineSegIntr.overlap] at hov)
  rw [hr]
  cases r
  simp only at hb0 ho0
  rw [hb0, ho0]

end Cavc
