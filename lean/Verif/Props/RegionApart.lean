import Verif.Props.RegionBool
import Verif.Props.Region
import Verif.Props.RegionExample

/-! # C39: boolean operations on polylines that are clear of each other, in terms of the geometry only -/

set_option linter.unusedVariables false

namespace Cavc
open Pline

/-- Nothing is found for polylines without a common point. -/
theorem finds_nothing (env : Env ℝ) (p1 p2 : Pline ℝ) (o : Option (Index ℝ)) (eps : ℝ) (hidx : (o.getD (p1.approxIndex env)).Serves p1)
    (hp : FindsPairs p1 p2 eps) (hd : ∀ x, ¬ (OnPline p1 x ∧ OnPline p2 x)) : findIntersects env p1 p2 o eps = .ok ⟨[], []⟩ := by
  obtain ⟨r, hr, ho, hb⟩ := C37_result env p1 p2 o eps hidx
  have e1 : r.overlapping = [] := by
    rw [List.eq_nil_iff_forall_not_mem]
    intro q hq
    obtain ⟨s1, s2, h1, h2, hm, h3⟩ := (ho q).mp hq
    rw [(hp s1 (List.mem_of_getElem? h1) s2 (List.mem_of_getElem? h2) hm).overlap] at h3
    cases h3
  have e2 : r.basic = [] := by
    rw [List.eq_nil_iff_forall_not_mem]
    intro q hq
    obtain ⟨s1, s2, h1, h2, hm, h3, -⟩ := (hb q).mp hq
    have m1 := List.mem_of_getElem? h1
    have m2 := List.mem_of_getElem? h2
    obtain ⟨o1, o2⟩ := ((hp s1 m1 s2 m2 hm).points q.point).mp h3
    exact hd q.point ⟨⟨s1, m1, o1⟩, ⟨s2, m2, o2⟩⟩
  rw [hr]
  cases r
  simp only at e1 e2
  rw [e1, e2]

/-- **C39** Two closed polylines without a common point, every two segments of which whose boxes meet are clear of each other: the operation
succeeds, it reports that the first is inside the second, the second inside the first, or neither, exactly as it is, and the result bounds
exactly the set operation. Being inside is having a winding number other than 0. -/
theorem C39_clear (env : Env ℝ) (henv : env.Lawful) (p1 p2 : Pline ℝ) (eps : ℝ) (he : 0 < eps) (h1 : Loop p1) (h2 : Loop p2)
    (hd : ∀ x, ¬ (OnPline p1 x ∧ OnPline p2 x)) (hp : ∀ a ∈ p1.segs, ∀ b ∈ p2.segs, BoxesMeet a b eps → ClearPair a b eps) (op : BooleanOp) :
    ∃ r, polylineBoolean env p1 p2 op none eps = .ok r ∧
      ((r.info = .pline1InsidePline2 ∧ ∀ x, OnPline p1 x → p2.windingNumber x ≠ 0) ∨
       (r.info = .pline2InsidePline1 ∧ ∀ x, OnPline p2 x → p1.windingNumber x ≠ 0) ∨
       (r.info = .disjoint ∧ (∀ x, OnPline p1 x → p2.windingNumber x = 0) ∧ ∀ x, OnPline p2 x → p1.windingNumber x = 0)) ∧
      ∀ x, ¬ OnPline p1 x → ¬ OnPline p2 x →
        (((∃ q ∈ r.posPlines, q.pline.windingNumber x ≠ 0) ∧ ¬ ∃ q ∈ r.negPlines, q.pline.windingNumber x ≠ 0) ↔
          op.holds (p1.windingNumber x ≠ 0) (p2.windingNumber x ≠ 0)) := by
  have hidx := C37_own_index env henv p1
  have hno := finds_nothing env p1 p2 none eps hidx (fun a ha b hb hm => clear_pair he (hp a ha b hb hm)) hd
  obtain ⟨r, a, b, hr, ha, hb, f1, f2, f3⟩ := C39_info env henv TotalCmp.real p1 p2 op none eps hidx ⟨h1.two, h1.closed⟩ ⟨h2.two, h2.closed⟩ hno
  have hdis : Disjoint (trace p1) (trace p2) := Set.disjoint_left.mpr fun z hz1 hz2 => hd _ ⟨hz1, hz2⟩
  have c1 : ∀ x, OnPline p1 x → p2.windingNumber x = p2.windingNumber a.pos := fun x hx =>
    wn_const h2 (trace_isPreconnected h1) hdis (show ((x.x, x.y) : ℝ × ℝ) ∈ trace p1 from hx) (first_on p1 h1 a ha)
  have c2 : ∀ x, OnPline p2 x → p1.windingNumber x = p1.windingNumber b.pos := fun x hx =>
    wn_const h1 (trace_isPreconnected h2) hdis.symm (show ((x.x, x.y) : ℝ × ℝ) ∈ trace p2 from hx) (first_on p2 h2 b hb)
  have hinfo : (r.info = .pline1InsidePline2 ∧ ∀ x, OnPline p1 x → p2.windingNumber x ≠ 0) ∨
       (r.info = .pline2InsidePline1 ∧ ∀ x, OnPline p2 x → p1.windingNumber x ≠ 0) ∨
       (r.info = .disjoint ∧ (∀ x, OnPline p1 x → p2.windingNumber x = 0) ∧ ∀ x, OnPline p2 x → p1.windingNumber x = 0) := by
    by_cases g1 : p2.windingNumber a.pos = 0
    · by_cases g2 : p1.windingNumber b.pos = 0
      · exact Or.inr (Or.inr ⟨f3 g1 g2, fun x hx => (c1 x hx).trans g1, fun x hx => (c2 x hx).trans g2⟩)
      · exact Or.inr (Or.inl ⟨f2 g1 g2, fun x hx => by rw [c2 x hx]; exact g2⟩)
    · exact Or.inl ⟨f1 g1, fun x hx => by rw [c1 x hx]; exact g1⟩
  refine ⟨r, hr, hinfo, fun x hx1 hx2 => ?_⟩
  refine C39_apart env henv p1 p2 op none eps hidx h1 h2 hd r hr ?_ ?_ x hx1 hx2 <;>
    rcases hinfo with ⟨h, -⟩ | ⟨h, -⟩ | ⟨h, -⟩ <;> rw [h] <;> decide

/-! ## The hypotheses are met -/

theorem wedge_segs : (⟨[⟨0, 0, 0⟩, ⟨10, 0, 0⟩, ⟨0, 10, 0⟩], true⟩ : Pline ℝ).segs =
    [(⟨0, 0, 0⟩, ⟨10, 0, 0⟩), (⟨10, 0, 0⟩, ⟨0, 10, 0⟩), (⟨0, 10, 0⟩, ⟨0, 0, 0⟩)] := rfl

theorem wedge_apart (x y : V2 ℝ) (hx : OnPline (⟨[⟨0, 0, 0⟩, ⟨10, 0, 0⟩, ⟨0, 10, 0⟩], true⟩ : Pline ℝ) x) (hy : OnPline (squareOf 6 8) y) :
    8 * (1 / 1000 : ℝ) < edist x y := by
  obtain ⟨s, hs, t, t0, t1, rfl⟩ := hx
  rw [wedge_segs] at hs
  have h6 : 6 ≤ y.x ∧ 6 ≤ y.y := by
    rcases (squareOf_on 6 8 (by norm_num) y).mp hy with ⟨h1, h2, h3 | h3⟩ | ⟨h1, h2, h3 | h3⟩ <;> constructor <;> linarith
  have hsum : (segCurve s.1 s.2 t).x + (segCurve s.1 s.2 t).y ≤ 10 := by
    simp only [List.mem_cons, List.not_mem_nil, or_false] at hs
    rcases hs with rfl | rfl | rfl <;> simp only [segCurve_line (isLine_zero _ _), linePoint, Vertex.pos] <;> linarith
  unfold edist
  apply Real.lt_sqrt_of_sq_lt
  nlinarith [sq_nonneg (((segCurve s.1 s.2 t).x - y.x) - ((segCurve s.1 s.2 t).y - y.y)),
    sq_nonneg (((segCurve s.1 s.2 t).x - y.x) + ((segCurve s.1 s.2 t).y - y.y) + 2)]

/-- A triangle and a square in front of its long side, whose boxes meet. -/
example (op : BooleanOp) :
    let p1 : Pline ℝ := ⟨[⟨0, 0, 0⟩, ⟨10, 0, 0⟩, ⟨0, 10, 0⟩], true⟩
    let p2 : Pline ℝ := squareOf 6 8
    BoxesMeet (⟨10, 0, 0⟩, ⟨0, 10, 0⟩) (⟨6, 6, 0⟩, ⟨8, 6, 0⟩) (1 / 1000 : ℝ) ∧
    ∃ r, polylineBoolean Env.plain p1 p2 op none (1 / 1000) = .ok r ∧
      ((r.info = .pline1InsidePline2 ∧ ∀ x, OnPline p1 x → p2.windingNumber x ≠ 0) ∨
       (r.info = .pline2InsidePline1 ∧ ∀ x, OnPline p2 x → p1.windingNumber x ≠ 0) ∨
       (r.info = .disjoint ∧ (∀ x, OnPline p1 x → p2.windingNumber x = 0) ∧ ∀ x, OnPline p2 x → p1.windingNumber x = 0)) ∧
      ∀ x, ¬ OnPline p1 x → ¬ OnPline p2 x →
        (((∃ q ∈ r.posPlines, q.pline.windingNumber x ≠ 0) ∧ ¬ ∃ q ∈ r.negPlines, q.pline.windingNumber x ≠ 0) ↔
          op.holds (p1.windingNumber x ≠ 0) (p2.windingNumber x ≠ 0)) := by
  intro p1 p2
  have hbz : ∀ x y : ℝ, (⟨x, y, 0⟩ : Vertex ℝ).bulgeIsZero = true := fun x y => bulgeIsZero_true (isLine_zero x y)
  have hl : ∀ s ∈ p1.segs, IsLine s.1 := by
    intro s hs
    rw [wedge_segs] at hs
    simp only [List.mem_cons, List.not_mem_nil, or_false] at hs
    rcases hs with rfl | rfl | rfl <;> exact isLine_zero _ _
  refine ⟨?_, C39_clear Env.plain Env.plain_lawful p1 p2 _ (by norm_num) ⟨rfl, by simp [p1], fun s hs => Or.inl (hl s hs)⟩ (square_loop 6 8) ?_ ?_ op⟩
  · simp [BoxesMeet, segBox, segFastApproxBoundingBox, hbz, AABB.overlaps, AABB.grow, minMax]
    norm_num
  · rintro x ⟨h1, h2⟩
    have := wedge_apart x x h1 h2
    simp [edist] at this
    norm_num at this
  · intro a ha b hb _
    refine .lines (hl a ha) (squareOf_lines 6 8 b hb) (Or.inr ⟨?_, fun x y hx hy => wedge_apart x y ⟨a, ha, hx⟩ ⟨b, hb, hy⟩⟩)
    rw [wedge_segs] at ha
    rw [squareOf_segs] at hb
    simp only [List.mem_cons, List.not_mem_nil, or_false] at ha hb
    rcases ha with rfl | rfl | rfl <;> rcases hb with rfl | rfl | rfl | rfl <;>
      norm_num [LinesResolved, Vertex.pos, dirCross, Apart]

end Cavc
