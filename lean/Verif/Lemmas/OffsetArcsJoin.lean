import Verif.Lemmas.OffsetArcsHits
import Verif.Lemmas.OffsetArcsRun

/-! # The joins of the raw offset at clear corners -/

set_option linter.unusedVariables false

namespace Cavc
open RealScalar Pline

/-! ## Parallel segments -/

theorem parSeg_line {v w : Vertex ℝ} {d : ℝ} (h : IsLine v) : parSeg v w d = (Vertex.ofV2 (moved v.pos w.pos d 0) 0, Vertex.ofV2 (moved v.pos w.pos d 1) 0) := by
  unfold parSeg; rw [if_pos h]

theorem parSeg_bulge {v w : Vertex ℝ} {d : ℝ} (h : ¬ IsLine v) : (parSeg v w d).1.bulge = v.bulge := by
  unfold parSeg; rw [if_neg h]

theorem parSeg_proper {v w : Vertex ℝ} {d : ℝ} (h : ProperArc v w) (hr : 0 < offRadius v w d) : ProperArc (parSeg v w d).1 (parSeg v w d).2 := by
  have hb := bulge_ne_zero h.notLine
  have hr0 := arcRadius_pos h.ne hb
  have hk : 0 < offRadius v w d / arcRadius v.pos w.pos v.bulge := div_pos hr hr0
  have e := parSeg_bulge (w := w) (d := d) h.notLine
  refine ⟨?_, ?_, ?_⟩
  · have := h.notLine
    unfold IsLine at this ⊢
    rwa [e]
  · rw [e]; exact h.half
  · intro hE
    apply h.ne
    unfold parSeg at hE
    rw [if_neg h.notLine] at hE
    rw [V2.ext_iff'] at hE ⊢
    simp only [Vertex.pos] at hE hk ⊢
    constructor
    · linarith [mul_left_cancel₀ hk.ne' (add_left_cancel hE.1)]
    · linarith [mul_left_cancel₀ hk.ne' (add_left_cancel hE.2)]

theorem arc_end_ne {v w : Vertex ℝ} (h : ProperArc v w) : w.pos ≠ arcCenter v.pos w.pos v.bulge := by
  intro hE
  have hb := bulge_ne_zero h.notLine
  have e := arcPoint_edist v.pos w.pos v.bulge 1 hb
  rw [arcPoint_one _ _ _ hb] at e
  have hr := arcRadius_pos h.ne hb
  rw [← e, ← hE, edist_self] at hr
  exact lt_irrefl _ hr

/-- The end of the parallel segment is not the corner. -/
theorem parSeg_end_ne {v w : Vertex ℝ} {d : ℝ} (hd : d ≠ 0) (h : IsLine v ∨ ProperArc v w) (hne : v.pos ≠ w.pos) : (parSeg v w d).2.pos ≠ w.pos := by
  rcases h with h | h
  · rw [parSeg_line h]
    intro h
    rw [V2.ext_iff'] at h
    simp only [moved, ofV2_pos] at h
    have e1 := unit_sq hne
    have hx : d * ((w.pos.y - v.pos.y) / edist v.pos w.pos) = 0 := by linarith [h.1]
    have hy : d * ((w.pos.x - v.pos.x) / edist v.pos w.pos) = 0 := by linarith [h.2]
    rcases mul_eq_zero.mp hx with h' | h'
    · exact hd h'
    rcases mul_eq_zero.mp hy with h'' | h''
    · exact hd h''
    rw [h', h''] at e1
    norm_num at e1
  · intro hE
    unfold parSeg at hE
    rw [if_neg h.notLine, V2.ext_iff'] at hE
    simp only [Vertex.pos] at hE
    have hr0 := arcRadius_pos h.ne (bulge_ne_zero h.notLine)
    have hk : offRadius v w d / arcRadius v.pos w.pos v.bulge - 1 ≠ 0 := by
      intro h0
      have : offRadius v w d = arcRadius v.pos w.pos v.bulge := by
        have h1 : offRadius v w d / arcRadius v.pos w.pos v.bulge = 1 := by linarith
        rw [div_eq_one_iff_eq hr0.ne'] at h1
        exact h1
      unfold offRadius at this
      split_ifs at this
      · exact hd (by linarith)
      · exact hd (by linarith)
    apply arc_end_ne h
    rw [V2.ext_iff']
    simp only [Vertex.pos] at *
    constructor
    · have : (offRadius v w d / arcRadius ⟨v.x, v.y⟩ ⟨w.x, w.y⟩ v.bulge - 1) * (w.x - (arcCenter ⟨v.x, v.y⟩ ⟨w.x, w.y⟩ v.bulge).x) = 0 := by linarith [hE.1]
      linarith [(mul_eq_zero.mp this).resolve_left hk]
    · have : (offRadius v w d / arcRadius ⟨v.x, v.y⟩ ⟨w.x, w.y⟩ v.bulge - 1) * (w.y - (arcCenter ⟨v.x, v.y⟩ ⟨w.x, w.y⟩ v.bulge).y) = 0 := by linarith [hE.2]
      linarith [(mul_eq_zero.mp this).resolve_left hk]

/-! ## Links -/

theorem ofV2_eta (v : Vertex ℝ) : Vertex.ofV2 v.pos v.bulge = v := rfl

theorem connect_round {s1 s2 : RawSeg ℝ} {d b eps : ℝ} (hR : Round s1.origV2Pos s1.v2.pos s2.v1.pos d b) (hne : s1.v2.pos ≠ s1.origV2Pos) (r : Pline ℝ) :
    connectUsingArc s1 s2 (decide (d < 0)) r eps = .ok ⟨appendVertexes eps r.verts [Vertex.ofV2 s1.v2.pos b, s2.v1], r.closed⟩ := by
  obtain ⟨θ, hθ, hx, hy, hb⟩ := hR
  have hcg := angle_rot hne hx hy
  have habs := abs_deltaAngle_of_congr hcg hθ
  have hbb : bulgeForConnection s1.origV2Pos s1.v2.pos s2.v1.pos (decide (d < 0)) = b := by
    unfold bulgeForConnection deltaAngleSigned
    rw [hb]
    by_cases hd : d < 0
    · rw [decide_eq_true hd, if_pos hd]
      simp only [Bool.not_true, Bool.false_eq_true, if_false, abs_eq, habs]
      rfl
    · rw [decide_eq_false hd, if_neg hd]
      simp only [Bool.not_false, if_true, abs_eq, habs]
      show Real.tan (-|θ| / 4) = _
      rw [neg_div, Real.tan_neg]
  unfold connectUsingArc
  simp only [Pline.addOrReplace, addOrReplaceVertex_eq, bind, Except.bind]
  rw [hbb, ofV2_eta]
  rfl

/-! ## Appending -/

theorem append_apart {L : List (Vertex ℝ)} {l v : Vertex ℝ} {eps : ℝ} (h : l.pos.fuzzyEqEps v.pos eps = false) : appendVertex eps (L ++ [l]) v = L ++ [l, v] := by
  unfold appendVertex
  rw [List.getLast?_concat]
  dsimp only
  rw [h, if_neg (by simp)]
  simp

/-! ## Joins -/

section
variable {s1 s2 : RawSeg ℝ} {d eps : ℝ}

theorem sign_pos (v : Vertex ℝ) : v.bulgeIsPos = decide (0 < v.bulge) := Vertex.bulgeIsPos_eq v

/-- The vertex with which the rest of an arc starts -/
theorem rest_vertex (h2 : ProperArc s2.v1 s2.v2) {u : ℝ} (u0 : 0 ≤ u) (u1 : u < 1) (r : Pline ℝ) (eps : ℝ) :
    (if (Scalar.gt (deltaAngle (angle (segCenter (s2.v1, s2.v2)) (segCurve s2.v1 s2.v2 u)) (angle (segCenter (s2.v1, s2.v2)) s2.v2.pos)) 0 == s2.v1.bulgeIsPos) = true
      then r.addOrReplace (segCurve s2.v1 s2.v2 u) (bulgeFromAngle (deltaAngle (angle (segCenter (s2.v1, s2.v2)) (segCurve s2.v1 s2.v2 u)) (angle (segCenter (s2.v1, s2.v2)) s2.v2.pos))) eps
      else r.addOrReplace (segCurve s2.v1 s2.v2 u) s2.v1.bulge eps) = .ok ⟨appendVertex eps r.verts (partVertex (s2.v1, s2.v2) u 1), r.closed⟩ := by
  have key := bulge_part (s := (s2.v1, s2.v2)) h2 (lo := u) (hi := 1) (old := s2.v1.bulge) u0 u1 le_rfl (fun _ _ => rfl) Iff.rfl
  have e1 : segCurve s2.v1 s2.v2 1 = s2.v2.pos := by
    rw [segCurve_arc h2.notLine, arcPoint_one _ _ _ (bulge_ne_zero h2.notLine)]
  dsimp only at key
  rw [e1] at key
  rw [sign_pos]
  unfold Pline.addOrReplace
  simp only [addOrReplaceVertex_eq]
  unfold partVertex
  rw [← key]
  dsimp only
  split_ifs <;> rfl

/-! ### A line, then an arc -/

theorem lineArc_pick (h1 : s1.v1.bulge = 0) (h2 : ProperArc s2.v1 s2.v2) (ccw : Bool) (r : Pline ℝ) :
    joinSegPair ccw eps s1 s2 r = pickLine (s1.v1, s1.v2) (segRadius (s2.v1, s2.v2)) (segCenter (s2.v1, s2.v2)) s1.origV2Pos eps (connectUsingArc s1 s2 ccw r eps)
      (lineArcProcess s1 s2 ccw eps (segCenter (s2.v1, s2.v2)) r) := by
  have z1 : s1.v1.bulgeIsZero = true := bulgeIsZero_true (by unfold IsLine; rw [h1]; norm_num)
  have z2 : s2.v1.bulgeIsZero = false := bulgeIsZero_false h2.notLine
  unfold joinSegPair
  rw [z1, z2]
  dsimp only
  unfold lineArcJoin
  rw [segArcRadiusAndCenter_eq _ _ (bulge_ne_zero h2.notLine) h2.ne]
  unfold pickLine segRadius segCenter
  dsimp only
  cases lineCircleIntr s1.v1.pos s1.v2.pos (arcRadius s2.v1.pos s2.v2.pos s2.v1.bulge) (arcCenter s2.v1.pos s2.v2.pos s2.v1.bulge) eps <;> rfl

theorem not_false {t : ℝ} (h0 : 0 ≤ t) (h1 : t ≤ 1) : isFalseIntersect t = false := by
  unfold isFalseIntersect
  simp only [lt_eq, gt_eq, Bool.or_eq_false_iff, decide_eq_false_iff_not, not_lt]
  exact ⟨h0, h1⟩

theorem joins_lineArcCut (he : 0 < eps) (h1 : s1.v1.bulge = 0) (h2 : ProperArc s2.v1 s2.v2) (hw : LineOk s1.v1.pos s1.v2.pos eps) {t u : ℝ}
    (hn : NearestOnLine (s1.v1, s1.v2) (s2.v1, s2.v2) s1.origV2Pos eps t) (t0 : 0 ≤ t) (t1 : t ≤ 1) (u0 : 0 ≤ u) (u1 : u < 1)
    (meet : segCurve s1.v1 s1.v2 t = segCurve s2.v1 s2.v2 u) (ccw : Bool) : Joins ccw eps s1 s2 (.cut t u) := by
  intro L lo cl l0 hlt hl hroom hap
  have hL : IsLine s1.v1 := by unfold IsLine; rw [h1]; norm_num
  rw [lineArc_pick h1 h2, pickLine_near h2 he hw hn, ← segCurve_line hL, meet]
  unfold lineArcProcess
  have hsw := on_sweep (a := (s2.v1, s2.v2)) h2 he u0 u1.le
  dsimp only at hsw ⊢
  rw [not_false t0 t1, hsw, if_pos (by simp), rest_vertex h2 u0 u1]
  rw [append_apart (by rw [partVertex_pos, partVertex_pos]; dsimp only; rw [← meet]; exact hap), partVertex_line (s := (s1.v1, s1.v2)) h1, partVertex_line (s := (s1.v1, s1.v2)) h1]

theorem joins_lineArcRound (he : 0 < eps) (h1 : s1.v1.bulge = 0) (h2 : ProperArc s2.v1 s2.v2) (hw : LineOk s1.v1.pos s1.v2.pos eps) (hne : s1.v2.pos ≠ s1.origV2Pos) {b : ℝ}
    (hn : FarLine (s1.v1, s1.v2) (s2.v1, s2.v2) eps ∨ ∃ t, NearestOnLine (s1.v1, s1.v2) (s2.v1, s2.v2) s1.origV2Pos eps t ∧
        1 < t ∧ OffArc (s2.v1, s2.v2) (segCurve s1.v1 s1.v2 t) eps)
    (hb : Round s1.origV2Pos s1.v2.pos s2.v1.pos d b) : Joins (decide (d < 0)) eps s1 s2 (.link b) := by
  intro r
  have hL : IsLine s1.v1 := by unfold IsLine; rw [h1]; norm_num
  rw [lineArc_pick h1 h2]
  rcases hn with hn | ⟨t, hn, ht, ho⟩
  · rw [pickLine_far h2 he hw hn, connect_round hb hne]
  · rw [pickLine_near h2 he hw hn]
    rw [segCurve_line hL] at ho
    have hon : OnCircle (segCenter (s2.v1, s2.v2)) (segRadius (s2.v1, s2.v2)) (linePoint s1.v1.pos s1.v2.pos t) := by
      rcases hn with ⟨on, _⟩ | ⟨on, _, _⟩ <;> exact on
    have hsw := off_sweep (a := (s2.v1, s2.v2)) h2 he hon ho
    unfold lineArcProcess
    dsimp only at hsw ⊢
    rw [hsw, if_neg (by simp), if_pos (by simpa using ht), connect_round hb hne]

theorem joins_lineArcChord (he : 0 < eps) (h1 : s1.v1.bulge = 0) (h2 : ProperArc s2.v1 s2.v2) (hw : LineOk s1.v1.pos s1.v2.pos eps) (hco : s1.collapsedArc = false) {t : ℝ}
    (hn : NearestOnLine (s1.v1, s1.v2) (s2.v1, s2.v2) s1.origV2Pos eps t)
    (ht : t < 0 ∨ (0 ≤ t ∧ t ≤ 1 ∧ OffArc (s2.v1, s2.v2) (segCurve s1.v1 s1.v2 t) eps) ∨ (1 < t ∧ OnSeg s2.v1 s2.v2 (segCurve s1.v1 s1.v2 t))) (ccw : Bool) :
    Joins ccw eps s1 s2 (.link 0) := by
  intro r
  have hL : IsLine s1.v1 := by unfold IsLine; rw [h1]; norm_num
  rw [lineArc_pick h1 h2, pickLine_near h2 he hw hn]
  have hon : OnCircle (segCenter (s2.v1, s2.v2)) (segRadius (s2.v1, s2.v2)) (linePoint s1.v1.pos s1.v2.pos t) := by
    rcases hn with ⟨on, _⟩ | ⟨on, _, _⟩ <;> exact on
  rw [segCurve_line hL] at ht
  unfold lineArcProcess
  dsimp only
  have g : ((!isFalseIntersect t) && pointWithinArcSweep (segCenter (s2.v1, s2.v2)) s2.v1.pos s2.v2.pos s2.v1.bulgeIsNeg (linePoint s1.v1.pos s1.v2.pos t) eps) = false ∧
      (Scalar.gt t 1 && !pointWithinArcSweep (segCenter (s2.v1, s2.v2)) s2.v1.pos s2.v2.pos s2.v1.bulgeIsNeg (linePoint s1.v1.pos s1.v2.pos t) eps) = false := by
    rcases ht with ht | ⟨t0, t1, ho⟩ | ⟨ht, ho⟩
    · constructor
      · simp [isFalseIntersect, ht]
      · have : ¬ 1 < t := by linarith
        simp [this]
    · have hsw := off_sweep (a := (s2.v1, s2.v2)) h2 he hon ho
      constructor
      · dsimp only at hsw; rw [hsw]; simp
      · have : ¬ 1 < t := by linarith
        simp [this]
    · obtain ⟨u, u0, u1, hu⟩ := ho
      have hsw := on_sweep (a := (s2.v1, s2.v2)) h2 he u0 u1
      dsimp only at hsw
      rw [show segCurve s2.v1 s2.v2 u = linePoint s1.v1.pos s1.v2.pos t from hu.symm] at hsw
      constructor
      · simp [isFalseIntersect, ht]
      · rw [hsw]; simp
  rw [g.1, g.2, hco]
  simp only [Bool.false_eq_true, if_false, Pline.addOrReplace, addOrReplaceVertex_eq, bind, Except.bind]
  rfl

/-! ### An arc, then a line -/

theorem arcLine_pick (h1 : ProperArc s1.v1 s1.v2) (h2 : s2.v1.bulge = 0) (hco : s2.collapsedArc = false) (ccw : Bool) (r : Pline ℝ) :
    joinSegPair ccw eps s1 s2 r = pickLine (s2.v1, s2.v2) (segRadius (s1.v1, s1.v2)) (segCenter (s1.v1, s1.v2)) s1.origV2Pos eps (connectUsingArc s1 s2 ccw r eps)
      (arcLineProcess s1 s2 ccw eps (segCenter (s1.v1, s1.v2)) r) := by
  have z2 : s2.v1.bulgeIsZero = true := bulgeIsZero_true (by unfold IsLine; rw [h2]; norm_num)
  have z1 : s1.v1.bulgeIsZero = false := bulgeIsZero_false h1.notLine
  unfold joinSegPair
  rw [z1, z2]
  dsimp only
  unfold arcLineJoin
  rw [segArcRadiusAndCenter_eq _ _ (bulge_ne_zero h1.notLine) h1.ne, hco]
  unfold pickLine segRadius segCenter
  dsimp only
  cases lineCircleIntr s2.v1.pos s2.v2.pos (arcRadius s1.v1.pos s1.v2.pos s1.v1.bulge) (arcCenter s1.v1.pos s1.v2.pos s1.v1.bulge) eps <;> rfl

theorem joins_arcLineCut (he : 0 < eps) (h1 : ProperArc s1.v1 s1.v2) (h2 : s2.v1.bulge = 0) (hco : s2.collapsedArc = false) (hw : LineOk s2.v1.pos s2.v2.pos eps) {t u : ℝ}
    (hn : NearestOnLine (s2.v1, s2.v2) (s1.v1, s1.v2) s1.origV2Pos eps u) (t0 : 0 < t) (t1 : t ≤ 1) (u0 : 0 ≤ u) (u1 : u ≤ 1)
    (meet : segCurve s1.v1 s1.v2 t = segCurve s2.v1 s2.v2 u) (ccw : Bool) : Joins ccw eps s1 s2 (.cut t u) := by
  intro L lo cl l0 hlt hl hroom hap
  have hL : IsLine s2.v1 := by unfold IsLine; rw [h2]; norm_num
  rw [arcLine_pick h1 h2 hco, pickLine_near h1 he hw hn, ← segCurve_line hL, ← meet]
  unfold arcLineProcess
  have hsw := on_sweep (a := (s1.v1, s1.v2)) h1 he t0.le t1
  dsimp only at hsw ⊢
  rw [not_false u0 u1, hsw, if_pos (by simp), trim_part h1 l0 hlt t1 hl (hroom h1.notLine)]
  simp only [bind, Except.bind, Pline.addOrReplace, addOrReplaceVertex_eq]
  rw [append_apart (by rw [partVertex_pos, ofV2_pos]; exact hap), partVertex_line (s := (s2.v1, s2.v2)) h2, ← meet]

theorem joins_arcLineRound (he : 0 < eps) (h1 : ProperArc s1.v1 s1.v2) (h2 : s2.v1.bulge = 0) (hco : s2.collapsedArc = false) (hw : LineOk s2.v1.pos s2.v2.pos eps)
    (hne : s1.v2.pos ≠ s1.origV2Pos) {b : ℝ}
    (hn : FarLine (s2.v1, s2.v2) (s1.v1, s1.v2) eps ∨ ∃ u, NearestOnLine (s2.v1, s2.v2) (s1.v1, s1.v2) s1.origV2Pos eps u ∧
        (u < 0 ∨ 1 < u ∨ OffArc (s1.v1, s1.v2) (segCurve s2.v1 s2.v2 u) eps))
    (hb : Round s1.origV2Pos s1.v2.pos s2.v1.pos d b) : Joins (decide (d < 0)) eps s1 s2 (.link b) := by
  intro r
  have hL : IsLine s2.v1 := by unfold IsLine; rw [h2]; norm_num
  rw [arcLine_pick h1 h2 hco]
  rcases hn with hn | ⟨u, hn, hu⟩
  · rw [pickLine_far h1 he hw hn, connect_round hb hne]
  · rw [pickLine_near h1 he hw hn]
    rw [segCurve_line hL] at hu
    have hon : OnCircle (segCenter (s1.v1, s1.v2)) (segRadius (s1.v1, s1.v2)) (linePoint s2.v1.pos s2.v2.pos u) := by
      rcases hn with ⟨on, _⟩ | ⟨on, _, _⟩ <;> exact on
    unfold arcLineProcess
    dsimp only
    rw [if_neg ?_, connect_round hb hne]
    rcases hu with hu | hu | ho
    · simp [isFalseIntersect, hu]
    · simp [isFalseIntersect, hu]
    · have hsw := off_sweep (a := (s1.v1, s1.v2)) h1 he hon ho
      dsimp only at hsw
      rw [hsw]; simp

/-! ### Two arcs -/

/-- Both sweep tests -/
noncomputable def bothSweeps (s1 s2 : RawSeg ℝ) (eps : ℝ) (X : V2 ℝ) : Bool :=
  pointWithinArcSweep (segCenter (s1.v1, s1.v2)) s1.v1.pos s1.v2.pos s1.v1.bulgeIsNeg X eps &&
    pointWithinArcSweep (segCenter (s2.v1, s2.v2)) s2.v1.pos s2.v2.pos s2.v1.bulgeIsNeg X eps

theorem arcs_pick (h1 : ProperArc s1.v1 s1.v2) (h2 : ProperArc s2.v1 s2.v2) (ccw : Bool) (r : Pline ℝ) :
    joinSegPair ccw eps s1 s2 r = pickArcs (segRadius (s1.v1, s1.v2)) (segCenter (s1.v1, s1.v2)) (segRadius (s2.v1, s2.v2)) (segCenter (s2.v1, s2.v2)) s1.origV2Pos eps
      (connectUsingArc s1 s2 ccw r eps) (r.addOrReplaceVertex s2.v1 eps) (bothSweeps s1 s2 eps)
      (arcArcProcess s1 s2 ccw eps (segCenter (s1.v1, s1.v2)) (segCenter (s2.v1, s2.v2)) r) := by
  have z2 : s2.v1.bulgeIsZero = false := bulgeIsZero_false h2.notLine
  have z1 : s1.v1.bulgeIsZero = false := bulgeIsZero_false h1.notLine
  unfold joinSegPair
  rw [z1, z2]
  dsimp only
  unfold arcArcJoin
  rw [segArcRadiusAndCenter_eq _ _ (bulge_ne_zero h1.notLine) h1.ne, segArcRadiusAndCenter_eq _ _ (bulge_ne_zero h2.notLine) h2.ne]
  unfold pickArcs bothSweeps segRadius segCenter
  dsimp only
  cases circleCircleIntr (arcRadius s1.v1.pos s1.v2.pos s1.v1.bulge) (arcCenter s1.v1.pos s1.v2.pos s1.v1.bulge) (arcRadius s2.v1.pos s2.v2.pos s2.v1.bulge)
    (arcCenter s2.v1.pos s2.v2.pos s2.v1.bulge) eps <;> rfl

theorem both_off (he : 0 < eps) (h1 : ProperArc s1.v1 s1.v2) (h2 : ProperArc s2.v1 s2.v2) (Y : V2 ℝ) (hY : OnBoth (s1.v1, s1.v2) (s2.v1, s2.v2) Y)
    (ho : OffArc (s1.v1, s1.v2) Y eps ∨ OffArc (s2.v1, s2.v2) Y eps) : bothSweeps s1 s2 eps Y = false := by
  unfold bothSweeps
  rcases ho with ho | ho
  · have := off_sweep (a := (s1.v1, s1.v2)) h1 he hY.1 ho
    dsimp only at this
    rw [this]; simp
  · have := off_sweep (a := (s2.v1, s2.v2)) h2 he hY.2 ho
    dsimp only at this
    rw [this]; simp

theorem near_both {a b : Vertex ℝ × Vertex ℝ} {V X : V2 ℝ} (h : NearestOnArcs a b V eps X) : OnBoth a b X := by
  rcases h with ⟨on, _⟩ | ⟨_, on, _⟩ | ⟨_, on, _⟩ <;> exact on

theorem joins_arcsCut (he : 0 < eps) (h1 : ProperArc s1.v1 s1.v2) (h2 : ProperArc s2.v1 s2.v2) {t u : ℝ}
    (hn : NearestOnArcs (s1.v1, s1.v2) (s2.v1, s2.v2) s1.origV2Pos eps (segCurve s1.v1 s1.v2 t)) (t0 : 0 < t) (t1 : t ≤ 1) (u0 : 0 ≤ u) (u1 : u < 1)
    (meet : segCurve s1.v1 s1.v2 t = segCurve s2.v1 s2.v2 u) (ccw : Bool) : Joins ccw eps s1 s2 (.cut t u) := by
  intro L lo cl l0 hlt hl hroom hap
  rw [arcs_pick h1 h2, pickArcs_near he hn _ _ _ _ (fun P Q => rfl) (both_off he h1 h2)]
  have hs1 := on_sweep (a := (s1.v1, s1.v2)) h1 he t0.le t1
  have hs2 := on_sweep (a := (s2.v1, s2.v2)) h2 he u0 u1.le
  dsimp only at hs1 hs2
  rw [← meet] at hs2
  have hb : bothSweeps s1 s2 eps (segCurve s1.v1 s1.v2 t) = true := by unfold bothSweeps; rw [hs1, hs2]; rfl
  rw [hb]
  unfold arcArcProcess
  rw [if_neg (by simp), trim_part h1 l0 hlt t1 hl (hroom h1.notLine)]
  simp only [bind, Except.bind]
  rw [meet, rest_vertex h2 u0 u1]
  rw [append_apart (by rw [partVertex_pos, partVertex_pos]; dsimp only; rw [← meet]; exact hap)]

theorem joins_arcsRound (he : 0 < eps) (h1 : ProperArc s1.v1 s1.v2) (h2 : ProperArc s2.v1 s2.v2) (hne : s1.v2.pos ≠ s1.origV2Pos) {b : ℝ}
    (hn : FarArcs (s1.v1, s1.v2) (s2.v1, s2.v2) eps ∨ ∃ X, NearestOnArcs (s1.v1, s1.v2) (s2.v1, s2.v2) s1.origV2Pos eps X ∧
        (OffArc (s1.v1, s1.v2) X eps ∨ OffArc (s2.v1, s2.v2) X eps))
    (hb : Round s1.origV2Pos s1.v2.pos s2.v1.pos d b) : Joins (decide (d < 0)) eps s1 s2 (.link b) := by
  intro r
  rw [arcs_pick h1 h2]
  rcases hn with hn | ⟨X, hn, ho⟩
  · unfold pickArcs
    rw [circles_far_all hn]
    exact connect_round hb hne r
  · rw [pickArcs_near he hn _ _ _ _ (fun P Q => rfl) (both_off he h1 h2), both_off he h1 h2 X (near_both hn) ho]
    exact connect_round hb hne r

theorem joins_arcsSame (he : 0 < eps) (h1 : ProperArc s1.v1 s1.v2) (h2 : ProperArc s2.v1 s2.v2) (hc : segCenter (s1.v1, s1.v2) = segCenter (s2.v1, s2.v2))
    (hr : segRadius (s1.v1, s1.v2) = segRadius (s2.v1, s2.v2)) (hE : s1.v2.pos = s2.v1.pos) (ccw : Bool) : Joins ccw eps s1 s2 (.cut 1 0) := by
  intro L lo cl l0 hlt hl hroom hap
  rw [arcs_pick h1 h2]
  unfold pickArcs
  rw [hc, hr, circles_same he]
  dsimp only
  have e1 : segCurve s1.v1 s1.v2 1 = s2.v1.pos := by
    rw [segCurve_arc h1.notLine, arcPoint_one _ _ _ (bulge_ne_zero h1.notLine), hE]
  rw [addOrReplaceVertex_eq, append_apart (by rw [partVertex_pos]; dsimp only; rw [← e1]; exact hap), partVertex_full (s2.v1, s2.v2)]

end

/-! ## The corners of a polyline -/

section
variable {p : Pline ℝ} {d eps : ℝ} {c : Nat → Corner}

theorem par_line {k : Nat} (h : IsLine (vtx p k)) : parAt p d k = (Vertex.ofV2 (moved (cornerPos p k) (cornerPos p (k + 1)) d 0) 0, Vertex.ofV2 (moved (cornerPos p k) (cornerPos p (k + 1)) d 1) 0) :=
  parSeg_line h

/-- segment `k` is a full one, and its parallel arc is not collapsed -/
structure SegOk (p : Pline ℝ) (d eps : ℝ) (k : Nat) : Prop where
  full : FullSeg (vtx p k) (vtx p (k + 1)) eps
  radius : IsLine (vtx p k) ∨ 1 / 100000000 ≤ offRadius (vtx p k) (vtx p (k + 1)) d

theorem SegOk.ne (he : 0 < eps) {k : Nat} (h : SegOk p d eps k) : (vtx p k).pos ≠ (vtx p (k + 1)).pos := by
  intro e
  have := h.full.apart
  rw [e, fuzzy_refl _ he] at this
  exact absurd this (by simp)

theorem loop_ne (he : 0 < eps) (hp : FullLoop p eps) (k : Nat) : (vtx p k).pos ≠ (vtx p (k + 1)).pos := by
  intro h
  have := (hp.full k).apart
  rw [h, fuzzy_refl _ he] at this
  exact absurd this (by simp)

theorem SegOk.proper (he : 0 < eps) {k : Nat} (hk : SegOk p d eps k) (h : ¬ IsLine (vtx p k)) : ProperArc (vtx p k) (vtx p (k + 1)) :=
  ⟨h, (hk.full.shape.resolve_left h).2, hk.ne he⟩

theorem par_proper (he : 0 < eps) {k : Nat} (hk : SegOk p d eps k) (h : ¬ IsLine (vtx p k)) : ProperArc (parAt p d k).1 (parAt p d k).2 :=
  parSeg_proper (hk.proper he h) (by have := hk.radius.resolve_left h; linarith)

theorem par_end_ne (he : 0 < eps) (hd : d ≠ 0) {k : Nat} (hk : SegOk p d eps k) : (parAt p d k).2.pos ≠ cornerPos p (k + 1) := by
  apply parSeg_end_ne hd _ (hk.ne he)
  by_cases h : IsLine (vtx p k)
  · exact Or.inl h
  · exact Or.inr (hk.proper he h)

theorem rawPar_moved {k : Nat} (h : IsLine (vtx p k)) : rawPar p d k = movedSeg (cornerPos p k) (cornerPos p (k + 1)) d := by
  unfold rawPar movedSeg; rw [par_line h]

theorem curve_moved {k : Nat} (h : IsLine (vtx p k)) (t : ℝ) : parCurve p d k t = moved (cornerPos p k) (cornerPos p (k + 1)) d t := by
  unfold parCurve
  rw [par_line h, segCurve_line (by unfold IsLine Vertex.ofV2; norm_num)]
  exact moved_line _ _ _ _

theorem clear_turn_ne (he : 0 < eps) {k : Nat} (q0 : SegOk p d eps k) (q1 : SegOk p d eps (k + 1)) (h : ClearTurn p d eps k) : turnSin (cornerPos p k) (cornerPos p (k + 1)) (cornerPos p (k + 2)) ≠ 0 := by
  intro h0
  have hc := h.cross
  have : eps ≤ |dirCross (cornerPos p k) (cornerPos p (k + 1)) (cornerPos p (k + 1)) (cornerPos p (k + 2))| := hc
  have ts := turnSin_cross (a := cornerPos p k) (v := cornerPos p (k + 1)) (b := cornerPos p (k + 2)) (q0.ne he) (q1.ne he)
  rw [ts, h0, zero_mul, abs_zero] at this
  linarith

/-- At a corner between two lines. -/
theorem lines_join (he : 0 < eps) (hd : d ≠ 0) {k : Nat} (q0 : SegOk p d eps k) (q1 : SegOk p d eps (k + 1)) (h1 : IsLine (vtx p k)) (h2 : IsLine (vtx p (k + 1))) (h : ClearTurn p d eps k) (r : Pline ℝ) :
    joinSegPair (decide (d < 0)) eps (rawPar p d k) (rawPar p d (k + 1)) r =
      .ok ⟨appendVertexes eps r.verts (cornerVerts (cornerPos p k) (cornerPos p (k + 1)) (cornerPos p (k + 2)) d), r.closed⟩ := by
  rw [rawPar_moved h1, rawPar_moved h2]
  exact corner_join (q0.ne he) (q1.ne he) hd he h.cross h.kind r

theorem corner_joins (he : 0 < eps) (hd : d ≠ 0) {k : Nat} (q0 : SegOk p d eps k) (q1 : SegOk p d eps (k + 1)) {c : Corner}
    (h : ClearCorner p d eps k c) : Joins (decide (d < 0)) eps (rawPar p d k) (rawPar p d (k + 1)) c := by
  have lb : ∀ {j}, IsLine (vtx p j) → (parAt p d j).1.bulge = 0 := fun hj => by rw [par_line hj]; rfl
  have hne := par_end_ne he hd q0
  cases h with
  | mitre h1 h2 h hm =>
    intro L lo cl l0 hlt hl hroom hap
    have hz := par_line (d := d) h1
    rw [lines_join he hd q0 q1 h1 h2 h]
    unfold cornerVerts
    have hm' : 0 ≤ setback (cornerPos p k) (cornerPos p (k + 1)) (cornerPos p (k + 2)) d ∧ setback (cornerPos p k) (cornerPos p (k + 1)) (cornerPos p (k + 2)) d ≤ edist (cornerPos p k) (cornerPos p (k + 1)) ∧
      setback (cornerPos p k) (cornerPos p (k + 1)) (cornerPos p (k + 2)) d ≤ edist (cornerPos p (k + 1)) (cornerPos p (k + 2)) := hm
    rw [if_pos hm']
    have e2 := curve_moved (d := d) h2 (setbackAt p d k / sideLen p (k + 1))
    have e1 := curve_moved (d := d) h1 (1 - setbackAt p d k / sideLen p k)
    have em := mitre_point (q0.ne he) (q1.ne he) (clear_turn_ne he q0 q1 h) d
    have hv : Vertex.ofV2 (moved (cornerPos p (k + 1)) (cornerPos p (k + 2)) d (setback (cornerPos p k) (cornerPos p (k + 1)) (cornerPos p (k + 2)) d / edist (cornerPos p (k + 1)) (cornerPos p (k + 2)))) 0 =
        partVertex (parAt p d (k + 1)) (setbackAt p d k / sideLen p (k + 1)) 1 := by
      rw [partVertex_line (lb h2)]
      show _ = Vertex.ofV2 (parCurve p d (k + 1) _) 0
      rw [e2]
      rfl
    rw [hv]
    simp only [appendVertexes, List.foldl_cons, List.foldl_nil]
    have hl1 : partVertex ((rawPar p d k).v1, (rawPar p d k).v2) lo 1 = partVertex ((rawPar p d k).v1, (rawPar p d k).v2) lo (1 - setbackAt p d k / sideLen p k) := by
      rw [partVertex_line (s := ((rawPar p d k).v1, (rawPar p d k).v2)) (lb h1), partVertex_line (s := ((rawPar p d k).v1, (rawPar p d k).v2)) (lb h1)]
    rw [hl1, append_apart]
    · rfl
    · rw [partVertex_pos, partVertex_pos]
      have : segCurve (parAt p d (k + 1)).1 (parAt p d (k + 1)).2 (setbackAt p d k / sideLen p (k + 1)) = segCurve (rawPar p d k).v1 (rawPar p d k).v2 (1 - setbackAt p d k / sideLen p k) := by
        show parCurve p d (k + 1) _ = parCurve p d k _
        rw [e1, e2]
        exact em.symm
      rw [this]
      exact hap
  | round h1 h2 h hm =>
    intro r
    rw [lines_join he hd q0 q1 h1 h2 h]
    unfold cornerVerts
    have hn : setback (cornerPos p k) (cornerPos p (k + 1)) (cornerPos p (k + 2)) d < 0 := hm
    rw [if_neg (fun h => absurd h.1 (not_le.mpr hn)), if_pos hn]
    show _ = Except.ok (⟨appendVertexes eps r.verts [Vertex.ofV2 (parAt p d k).2.pos _, (parAt p d (k + 1)).1], r.closed⟩ : Pline ℝ)
    rw [par_line h1, par_line h2]
    rfl
  | chord h1 h2 h hm hs =>
    intro r
    rw [lines_join he hd q0 q1 h1 h2 h]
    unfold cornerVerts
    have hn : ¬ setback (cornerPos p k) (cornerPos p (k + 1)) (cornerPos p (k + 2)) d < 0 := not_lt.mpr hs
    have hm' : ¬ (0 ≤ setback (cornerPos p k) (cornerPos p (k + 1)) (cornerPos p (k + 2)) d ∧ setback (cornerPos p k) (cornerPos p (k + 1)) (cornerPos p (k + 2)) d ≤ edist (cornerPos p k) (cornerPos p (k + 1)) ∧
      setback (cornerPos p k) (cornerPos p (k + 1)) (cornerPos p (k + 2)) d ≤ edist (cornerPos p (k + 1)) (cornerPos p (k + 2))) := hm
    rw [if_neg hm', if_neg hn]
    show _ = Except.ok (⟨appendVertexes eps r.verts [Vertex.ofV2 (parAt p d k).2.pos _, (parAt p d (k + 1)).1], r.closed⟩ : Pline ℝ)
    rw [par_line h1, par_line h2]
    rfl
  | lineArcCut t u h1 h2 hw hn t0 t1 u0 u1 meet =>
    exact joins_lineArcCut (s1 := rawPar p d k) (s2 := rawPar p d (k + 1)) he (lb h1) (par_proper he q1 h2) hw hn t0 t1 u0 u1 meet _
  | lineArcRound b h1 h2 hw hn hb =>
    exact joins_lineArcRound (s1 := rawPar p d k) (s2 := rawPar p d (k + 1)) he (lb h1) (par_proper he q1 h2) hw hne hn hb
  | lineArcChord t h1 h2 hw hn ht =>
    exact joins_lineArcChord (s1 := rawPar p d k) (s2 := rawPar p d (k + 1)) he (lb h1) (par_proper he q1 h2) hw rfl hn ht _
  | arcLineCut t u h1 h2 hw hn t0 t1 u0 u1 meet =>
    exact joins_arcLineCut (s1 := rawPar p d k) (s2 := rawPar p d (k + 1)) he (par_proper he q0 h1) (lb h2) rfl hw hn t0 t1 u0 u1 meet _
  | arcLineRound b h1 h2 hw hn hb =>
    exact joins_arcLineRound (s1 := rawPar p d k) (s2 := rawPar p d (k + 1)) he (par_proper he q0 h1) (lb h2) rfl hw hne hn hb
  | arcsCut t u h1 h2 hn t0 t1 u0 u1 meet =>
    exact joins_arcsCut (s1 := rawPar p d k) (s2 := rawPar p d (k + 1)) he (par_proper he q0 h1) (par_proper he q1 h2) hn t0 t1 u0 u1 meet _
  | arcsRound b h1 h2 hn hb =>
    exact joins_arcsRound (s1 := rawPar p d k) (s2 := rawPar p d (k + 1)) he (par_proper he q0 h1) (par_proper he q1 h2) hne hn hb
  | arcsSame h1 h2 hc hrr hE =>
    exact joins_arcsSame (s1 := rawPar p d k) (s2 := rawPar p d (k + 1)) he (par_proper he q0 h1) (par_proper he q1 h2) hc hrr hE _

theorem corner_bounds (he : 0 < eps) {k : Nat} (q0 : SegOk p d eps k) (q1 : SegOk p d eps (k + 1)) {c : Corner} (h : ClearCorner p d eps k c) : c.stop ≤ 1 ∧ 0 ≤ c.start := by
  have pos0 : 0 < sideLen p k := edist_pos (q0.ne he)
  have pos1 : 0 < sideLen p (k + 1) := edist_pos (q1.ne he)
  cases h with
  | mitre h1 h2 h hm =>
    have := div_nonneg hm.1 pos0.le
    exact ⟨by show 1 - _ ≤ 1; linarith, div_nonneg hm.1 pos1.le⟩
  | lineArcCut t u h1 h2 hw hn t0 t1 u0 u1 meet => exact ⟨t1, u0⟩
  | arcLineCut t u h1 h2 hw hn t0 t1 u0 u1 meet => exact ⟨t1, u0⟩
  | arcsCut t u h1 h2 hn t0 t1 u0 u1 meet => exact ⟨t1, u0⟩
  | _ => exact ⟨le_rfl, le_rfl⟩

theorem corner_meet (he : 0 < eps) {k : Nat} (q0 : SegOk p d eps k) (q1 : SegOk p d eps (k + 1)) {t u : ℝ}
    (h : ClearCorner p d eps k (.cut t u)) : parCurve p d k t = parCurve p d (k + 1) u := by
  cases h with
  | mitre h1 h2 h hm =>
    rw [curve_moved h1, curve_moved h2]
    exact mitre_point (q0.ne he) (q1.ne he) (clear_turn_ne he q0 q1 h) d
  | lineArcCut _ _ _ _ _ _ _ _ _ _ meet => exact meet
  | arcLineCut _ _ _ _ _ _ _ _ _ _ meet => exact meet
  | arcsCut _ _ _ _ _ _ _ _ _ meet => exact meet
  | arcsSame h1 h2 hc hrr hE =>
    unfold parCurve
    have w1 := par_proper he q0 h1
    have w2 := par_proper he q1 h2
    rw [segCurve_arc w1.notLine, segCurve_arc w2.notLine, arcPoint_one _ _ _ (bulge_ne_zero w1.notLine), arcPoint_zero]
    exact hE

theorem ClearOffset.ok (h : ClearOffset p d c eps) (k : Nat) : SegOk p d eps k := ⟨h.loop.full k, h.radius k⟩

theorem run_facts (he : 0 < eps) (h : ClearOffset p d c eps) : RunFacts p d eps c := by
  have hn : 0 < p.verts.length := by have := h.loop.two; omega
  refine ⟨h.loop.two, fun k => ?_, fun k hk => corner_joins he h.moves (h.ok k) (h.ok (k + 1)) (h.corners k hk), fun k hk t u hc => ?_, fun k => ?_, h.forward, fun k => ?_, h.long, fun k hk => ?_, h.full, h.first, he⟩
  · by_cases hl : IsLine (vtx p k)
    · left; rw [par_line hl]; rfl
    · exact Or.inr (par_proper he (h.ok k) hl)
  · have hx := h.corners k hk
    rw [hc] at hx
    exact corner_meet he (h.ok k) (h.ok (k + 1)) hx
  · exact (corner_bounds he (h.ok _) (h.ok _) (h.corners _ (Nat.mod_lt _ hn))).2
  · exact (corner_bounds he (h.ok _) (h.ok _) (h.corners _ (Nat.mod_lt _ hn))).1
  · apply h.room
    intro hl
    apply hk
    rw [par_line hl]
    unfold IsLine Vertex.ofV2; norm_num

/-- The raw offset of a polyline with clear corners. -/
theorem raw_clear (he : 0 < eps) (h : ClearOffset p d c eps) : createRawOffsetPolyline p d eps = .ok (rawWith p d c) := by
  refine raw_run (run_facts he h) h.loop.closed fun k => ?_
  rw [rawSeg_par d (loop_ne he h.loop k) (h.radius k)]
  rfl

end

end Cavc
