import Verif.Props.RegionBool
import Verif.Spec.PlainEnv

/-! # C59: the hypotheses are met by two overlapping squares -/

set_option linter.unusedVariables false

namespace Cavc
open Pline RealScalar

/-- the square between two corners on the diagonal, counter clockwise -/
noncomputable def squareOf (a b : ℝ) : Pline ℝ := ⟨[⟨a, a, 0⟩, ⟨b, a, 0⟩, ⟨b, b, 0⟩, ⟨a, b, 0⟩], true⟩

theorem squareOf_segs (a b : ℝ) : (squareOf a b).segs =
    [(⟨a, a, 0⟩, ⟨b, a, 0⟩), (⟨b, a, 0⟩, ⟨b, b, 0⟩), (⟨b, b, 0⟩, ⟨a, b, 0⟩), (⟨a, b, 0⟩, ⟨a, a, 0⟩)] := rfl

theorem isLine_zero (x y : ℝ) : IsLine ⟨x, y, 0⟩ := by unfold IsLine; norm_num

theorem squareOf_lines (a b : ℝ) : ∀ s ∈ (squareOf a b).segs, IsLine s.1 := by rw [squareOf_segs]; simp [isLine_zero]

theorem squareOf_on (a b : ℝ) (hab : a < b) (pt : V2 ℝ) : OnPline (squareOf a b) pt ↔
    (a ≤ pt.x ∧ pt.x ≤ b ∧ (pt.y = a ∨ pt.y = b)) ∨ (a ≤ pt.y ∧ pt.y ≤ b ∧ (pt.x = a ∨ pt.x = b)) := by
  have hd : 0 < b - a := by linarith
  unfold OnPline
  rw [squareOf_segs]
  simp only [List.mem_cons, List.not_mem_nil, or_false, exists_eq_or_imp, exists_eq_left, OnSeg, segCurve_line (isLine_zero _ _), linePoint,
    V2.ext_iff', Vertex.pos]
  constructor
  · rintro (⟨t, h0, h1, ex, ey⟩ | ⟨t, h0, h1, ex, ey⟩ | ⟨t, h0, h1, ex, ey⟩ | ⟨t, h0, h1, ex, ey⟩)
    · exact Or.inl ⟨by nlinarith, by nlinarith, Or.inl (by linarith)⟩
    · exact Or.inr ⟨by nlinarith, by nlinarith, Or.inr (by linarith)⟩
    · exact Or.inl ⟨by nlinarith, by nlinarith, Or.inr (by linarith)⟩
    · exact Or.inr ⟨by nlinarith, by nlinarith, Or.inl (by linarith)⟩
  · have key : ∀ x, a ≤ x → x ≤ b → ∃ t, 0 ≤ t ∧ t ≤ 1 ∧ x = a + t * (b - a) := fun x h0 h1 =>
      ⟨(x - a) / (b - a), div_nonneg (by linarith) hd.le, (div_le_one hd).mpr (by linarith), by field_simp; ring⟩
    rintro (⟨h0, h1, e | e⟩ | ⟨h0, h1, e | e⟩)
    · obtain ⟨t, t0, t1, et⟩ := key _ h0 h1
      exact Or.inl ⟨t, t0, t1, by linarith, by linarith⟩
    · obtain ⟨t, t0, t1, et⟩ := key _ h0 h1
      exact Or.inr (Or.inr (Or.inl ⟨1 - t, by linarith, by linarith, by linarith, by linarith⟩))
    · obtain ⟨t, t0, t1, et⟩ := key _ h0 h1
      exact Or.inr (Or.inr (Or.inr ⟨1 - t, by linarith, by linarith, by linarith, by linarith⟩))
    · obtain ⟨t, t0, t1, et⟩ := key _ h0 h1
      exact Or.inr (Or.inl ⟨t, t0, t1, by linarith, by linarith⟩)

theorem squareOf_orientation (a b : ℝ) (hab : a < b) : (squareOf a b).orientation = .counterClockwise := by
  have : ¬ ((squareOf a b).area < 0) := by
    unfold area
    rw [squareOf_segs]
    simp [squareOf, areaStep, bulgeIsZero_true (isLine_zero _ _)]
    have h2 : (2 : ℝ) > 0 := by norm_num
    apply div_nonneg _ h2.le
    nlinarith [sq_nonneg (b - a)]
  unfold orientation
  rw [show (squareOf a b).closed = true from rfl]
  simp [this]

theorem squareOf_winds (a b : ℝ) (hab : a < b) : WindsOnce (squareOf a b) := by
  intro pt hoff
  rw [squareOf_on a b hab] at hoff
  rw [squareOf_orientation a b hab]
  unfold windingNumber
  rw [squareOf_segs]
  simp [squareOf, vertexCount, segWinding, bulgeIsZero_true (isLine_zero _ _), lineWinding, isLeft, turnOf, perpDotTestValue, Vertex.pos]
  rcases lt_or_ge pt.y a with h | h
  · have h' : pt.y < b := by linarith
    simp [not_le.mpr h, not_le.mpr h', h, h']
  rcases le_or_gt b pt.y with h' | h'
  · simp [h, h', not_lt.mpr h, not_lt.mpr h']
  simp [h, h', not_lt.mpr h, not_le.mpr h', hab.not_ge]
  split_ifs with c1 c2 c2
  · simp
  · simp
  · exfalso
    nlinarith
  · simp

theorem squareOf_vtx (a b : ℝ) : vtx (squareOf a b) 0 = ⟨a, a, 0⟩ ∧ vtx (squareOf a b) 1 = ⟨b, a, 0⟩ ∧ vtx (squareOf a b) 2 = ⟨b, b, 0⟩ ∧
    vtx (squareOf a b) 3 = ⟨a, b, 0⟩ ∧ vtx (squareOf a b) 4 = ⟨a, a, 0⟩ := ⟨rfl, rfl, rfl, rfl, vtx_add (squareOf a b) 0⟩

theorem squareOf_curve (a b t : ℝ) : curveAt (squareOf a b) 0 t = ⟨a + t * (b - a), a⟩ ∧ curveAt (squareOf a b) 1 t = ⟨b, a + t * (b - a)⟩ ∧
    curveAt (squareOf a b) 2 t = ⟨b + t * (a - b), b⟩ ∧ curveAt (squareOf a b) 3 t = ⟨a, b + t * (a - b)⟩ := by
  have hn : 0 < (squareOf a b).verts.length := by simp [squareOf]
  obtain ⟨v0, v1, v2, v3, v4⟩ := squareOf_vtx a b
  refine ⟨?_, ?_, ?_, ?_⟩ <;> rw [curveAt_vtx hn] <;>
    simp only [v0, v1, v2, v3, v4, Nat.reduceAdd, segCurve_line (isLine_zero _ _), linePoint, Vertex.pos, V2.ext_iff'] <;> constructor <;> first | trivial | ring

theorem squareOf_full (a b eps : ℝ) (h : eps ≤ b - a) (hab : a < b) : FullLoop (squareOf a b) eps := by
  have hn : (squareOf a b).verts.length = 4 := rfl
  obtain ⟨v0, v1, v2, v3, v4⟩ := squareOf_vtx a b
  have e1 : |a - b| = b - a := by rw [abs_sub_comm, abs_of_pos (by linarith)]
  have e2 : |b - a| = b - a := abs_of_pos (by linarith)
  refine ⟨rfl, by rw [hn]; omega, ?_⟩
  intro i
  have hi : ∀ j, vtx (squareOf a b) j = vtx (squareOf a b) (j % 4) := fun j => (vtx_mod _ j).symm
  have hcase : i % 4 = 0 ∨ i % 4 = 1 ∨ i % 4 = 2 ∨ i % 4 = 3 := by omega
  have far : ∀ u v : V2 ℝ, (eps ≤ |u.x - v.x| ∨ eps ≤ |u.y - v.y|) → u.fuzzyEqEps v eps = false := by
    intro u v huv
    rw [← Bool.not_eq_true, V2.fuzzyEqEps_iff]
    rintro ⟨c, d⟩
    rcases huv with g | g <;> linarith
  rw [hi i, hi (i + 1)]
  rcases hcase with g | g | g | g
  · rw [show (i + 1) % 4 = 1 by omega, g, v0, v1]
    exact ⟨Or.inl (isLine_zero _ _), far _ _ (Or.inl (by simp [Vertex.pos, e1, e2, h]))⟩
  · rw [show (i + 1) % 4 = 2 by omega, g, v1, v2]
    exact ⟨Or.inl (isLine_zero _ _), far _ _ (Or.inr (by simp [Vertex.pos, e1, e2, h]))⟩
  · rw [show (i + 1) % 4 = 3 by omega, g, v2, v3]
    exact ⟨Or.inl (isLine_zero _ _), far _ _ (Or.inl (by simp [Vertex.pos, e1, e2, h]))⟩
  · rw [show (i + 1) % 4 = 0 by omega, g, v3, v0]
    exact ⟨Or.inl (isLine_zero _ _), far _ _ (Or.inr (by simp [Vertex.pos, e1, e2, h]))⟩

theorem squares_cuts1 : GoodCuts (squareOf 0 4) (1 / 1000) [(1, 1 / 2), (2, 1 / 2)] := by
  obtain ⟨v0, v1, v2, v3, v4⟩ := squareOf_vtx 0 4
  have fz : ∀ u v : V2 ℝ, (1 ≤ |u.x - v.x| ∨ 1 ≤ |u.y - v.y|) → u.fuzzyEqEps v (1 / 1000 : ℝ) = false := by
    intro u v huv
    rw [← Bool.not_eq_true, V2.fuzzyEqEps_iff]
    rintro ⟨c, d⟩
    rcases huv with g | g <;> linarith
  refine ⟨by simp, ?_, ?_, ?_, ?_⟩
  · intro c hc
    simp only [List.mem_cons, List.not_mem_nil, or_false] at hc
    rcases hc with rfl | rfl <;> simp [squareOf]
  · intro c hc
    simp only [List.mem_cons, List.not_mem_nil, or_false] at hc
    rcases hc with rfl | rfl
    · unfold CutOk
      simp only [Nat.reduceAdd, v1, v2]
      refine ⟨by norm_num, by norm_num, fz _ _ ?_, fz _ _ ?_, Or.inl (isLine_zero _ _), Or.inl (isLine_zero _ _)⟩ <;>
        norm_num [segCurve_line (isLine_zero _ _), linePoint, Vertex.pos]
    · unfold CutOk
      simp only [Nat.reduceAdd, v2, v3]
      refine ⟨by norm_num, by norm_num, fz _ _ ?_, fz _ _ ?_, Or.inl (isLine_zero _ _), Or.inl (isLine_zero _ _)⟩ <;>
        norm_num [segCurve_line (isLine_zero _ _), linePoint, Vertex.pos]
  · intro c hc c' hc' hne
    simp only [List.mem_cons, List.not_mem_nil, or_false] at hc hc'
    rcases hc with rfl | rfl <;> rcases hc' with rfl | rfl <;>
      first
        | exact absurd rfl hne
        | (simp only [(squareOf_curve 0 4 _).2.1, (squareOf_curve 0 4 _).2.2.1, FarApart]; left; norm_num)
  · intro c hc c' hc' h1 h2
    simp only [List.mem_cons, List.not_mem_nil, or_false] at hc
    rcases hc with rfl | rfl
    · simp only [v1]; exact Or.inl (isLine_zero _ _)
    · simp only [v2]; exact Or.inl (isLine_zero _ _)

theorem squares_cuts2 : GoodCuts (squareOf 2 6) (1 / 1000) [(0, 1 / 2), (3, 1 / 2)] := by
  obtain ⟨v0, v1, v2, v3, v4⟩ := squareOf_vtx 2 6
  have fz : ∀ u v : V2 ℝ, (1 ≤ |u.x - v.x| ∨ 1 ≤ |u.y - v.y|) → u.fuzzyEqEps v (1 / 1000 : ℝ) = false := by
    intro u v huv
    rw [← Bool.not_eq_true, V2.fuzzyEqEps_iff]
    rintro ⟨c, d⟩
    rcases huv with g | g <;> linarith
  refine ⟨by simp, ?_, ?_, ?_, ?_⟩
  · intro c hc
    simp only [List.mem_cons, List.not_mem_nil, or_false] at hc
    rcases hc with rfl | rfl <;> simp [squareOf]
  · intro c hc
    simp only [List.mem_cons, List.not_mem_nil, or_false] at hc
    rcases hc with rfl | rfl
    · unfold CutOk
      simp only [Nat.reduceAdd, v0, v1]
      refine ⟨by norm_num, by norm_num, fz _ _ ?_, fz _ _ ?_, Or.inl (isLine_zero _ _), Or.inl (isLine_zero _ _)⟩ <;>
        norm_num [segCurve_line (isLine_zero _ _), linePoint, Vertex.pos]
    · unfold CutOk
      simp only [Nat.reduceAdd, v3, v4]
      refine ⟨by norm_num, by norm_num, fz _ _ ?_, fz _ _ ?_, Or.inl (isLine_zero _ _), Or.inl (isLine_zero _ _)⟩ <;>
        norm_num [segCurve_line (isLine_zero _ _), linePoint, Vertex.pos]
  · intro c hc c' hc' hne
    simp only [List.mem_cons, List.not_mem_nil, or_false] at hc hc'
    rcases hc with rfl | rfl <;> rcases hc' with rfl | rfl <;>
      first
        | exact absurd rfl hne
        | (simp only [(squareOf_curve 2 6 _).1, (squareOf_curve 2 6 _).2.2.2, FarApart]; left; norm_num)
  · intro c hc c' hc' h1 h2
    simp only [List.mem_cons, List.not_mem_nil, or_false] at hc
    rcases hc with rfl | rfl
    · simp only [v0]; exact Or.inl (isLine_zero _ _)
    · simp only [v3]; exact Or.inl (isLine_zero _ _)

theorem squares_cross : CleanCrossing (squareOf 0 4) (squareOf 2 6) (1 / 1000) [((1, 1 / 2), (0, 1 / 2)), ((2, 1 / 2), (3, 1 / 2))] := by
  refine ⟨?_, ?_, squares_cuts1, squares_cuts2⟩
  · intro c hc
    simp only [List.mem_cons, List.not_mem_nil, or_false] at hc
    rcases hc with rfl | rfl
    · simp only [(squareOf_curve 0 4 _).2.1, (squareOf_curve 2 6 _).1, V2.ext_iff']; norm_num
    · simp only [(squareOf_curve 0 4 _).2.2.1, (squareOf_curve 2 6 _).2.2.2, V2.ext_iff']; norm_num
  · intro i t j u hi h0 h1 hj h2 h3 e
    have hi' : i < 4 := hi
    have hj' : j < 4 := hj
    interval_cases i <;> interval_cases j <;>
      simp only [(squareOf_curve 0 4 _).1, (squareOf_curve 0 4 _).2.1, (squareOf_curve 0 4 _).2.2.1, (squareOf_curve 0 4 _).2.2.2,
        (squareOf_curve 2 6 _).1, (squareOf_curve 2 6 _).2.1, (squareOf_curve 2 6 _).2.2.1, (squareOf_curve 2 6 _).2.2.2, V2.ext_iff'] at e <;>
      obtain ⟨e1, e2⟩ := e <;>
      first
        | (exfalso; linarith)
        | (have ht : t = 1 / 2 := by linarith
           have hu : u = 1 / 2 := by linarith
           subst ht hu
           simp)

theorem squares_clear : ∀ a ∈ (squareOf 0 4).segs, ∀ b ∈ (squareOf 2 6).segs, ClearLines a b (1 / 1000) := by
  have far : ∀ x y : V2 ℝ, (1 ≤ |x.x - y.x| ∨ 1 ≤ |x.y - y.y|) → 8 * (1 / 1000 : ℝ) < edist x y := by
    intro x y h
    unfold edist
    apply Real.lt_sqrt_of_sq_lt
    rcases h with h | h <;> nlinarith [sq_abs (x.x - y.x), sq_abs (x.y - y.y), sq_nonneg (x.x - y.x), sq_nonneg (x.y - y.y)]
  rw [squareOf_segs, squareOf_segs]
  intro a ha b hb
  simp only [List.mem_cons, List.not_mem_nil, or_false] at ha hb
  rcases ha with rfl | rfl | rfl | rfl <;> rcases hb with rfl | rfl | rfl | rfl <;>
    first
      | (refine Or.inl ⟨⟨⟨4, 2⟩, ⟨1 / 2, by norm_num, by norm_num, ?_⟩, ⟨1 / 2, by norm_num, by norm_num, ?_⟩⟩, ?_⟩ <;>
          norm_num [segCurve_line (isLine_zero _ _), linePoint, Vertex.pos, dirCross]; done)
      | (refine Or.inl ⟨⟨⟨2, 4⟩, ⟨1 / 2, by norm_num, by norm_num, ?_⟩, ⟨1 / 2, by norm_num, by norm_num, ?_⟩⟩, ?_⟩ <;>
          norm_num [segCurve_line (isLine_zero _ _), linePoint, Vertex.pos, dirCross]; done)
      | (refine Or.inr ⟨by norm_num [LinesResolved, Vertex.pos, dirCross, Apart], ?_⟩
         rintro x y ⟨t, t0, t1, rfl⟩ ⟨u, u0, u1, rfl⟩
         apply far
         simp only [segCurve_line (isLine_zero _ _), linePoint, Vertex.pos, le_abs]
         first
           | (left; left; linarith)
           | (left; right; linarith)
           | (right; left; linarith)
           | (right; right; linarith))

/-- The hypotheses of `C59_clear` are met by two squares that overlap. -/
example (op : BooleanOp) : ∃ r, polylineBoolean Env.plain (squareOf 0 4) (squareOf 2 6) op none (1 / 1000) = .ok r ∧ r.info = .intersected ∧
      (∀ x ∈ r.posPlines ++ r.negPlines, x.pline.closed = true ∧ 2 ≤ x.pline.verts.length ∧
        ∀ z, OnPline x.pline z → OnPline (squareOf 0 4) z ∨ OnPline (squareOf 2 6) z) ∧
      ∀ z, ¬ OnPline (squareOf 0 4) z → ¬ OnPline (squareOf 2 6) z →
        let total := ((r.posPlines ++ r.negPlines).map fun x => x.pline.windingNumber z).sum
        (total = 0 ∨ total = 1 ∨ total = -1) ∧ (total ≠ 0 ↔ op.holds ((squareOf 0 4).windingNumber z ≠ 0) ((squareOf 2 6).windingNumber z ≠ 0)) :=
  C59_clear Env.plain Env.plain_lawful _ _ _ (by norm_num) (squareOf_full 0 4 _ (by norm_num) (by norm_num)) (squareOf_full 2 6 _ (by norm_num) (by norm_num))
    (squareOf_winds 0 4 (by norm_num)) (squareOf_winds 2 6 (by norm_num)) _ squares_cross (by simp)
    (fun a ha b hb _ => .lines (squareOf_lines 0 4 a ha) (squareOf_lines 2 6 b hb) (squares_clear a ha b hb)) op

end Cavc
