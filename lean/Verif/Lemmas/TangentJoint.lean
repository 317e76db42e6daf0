import Verif.Lemmas.ClearPairs
import Verif.Spec.SelfCrossing

/-! # A straight segment that continues an arc in the direction of its tangent

At such a joint the code reports nothing but the common vertex. -/

set_option linter.unusedVariables false

namespace Cavc
open RealScalar

/-- Line `w` touches the circle of the arc `a` in the end `J` of `w`, and the other end of `w` is not near the circle. -/
structure TangentAt (w a : Vertex ℝ × Vertex ℝ) (eps : ℝ) (J : V2 ℝ) : Prop where
  line : LineOk w.1.pos w.2.pos eps
  arc : ProperArc a.1 a.2
  joint : OnCircle (segCenter a) (segRadius a) J
  end_ : J = w.1.pos ∨ J = w.2.pos
  touch : ∀ t, linePoint w.1.pos w.2.pos t ≠ J → segRadius a < edist (linePoint w.1.pos w.2.pos t) (segCenter a)
  far : ∀ e, e = w.1.pos ∨ e = w.2.pos → e ≠ J → eps ≤ |edist e (segCenter a) - segRadius a|

theorem tangent_points {w a : Vertex ℝ × Vertex ℝ} {eps : ℝ} {J : V2 ℝ} (he : 0 < eps) (h : TangentAt w a eps J) (uIsLine : Bool) :
    (processLineArcIntr uIsLine w.1.pos w.2.pos a.1 a.2 eps).overlap = none ∧
    ∀ q ∈ (processLineArcIntr uIsLine w.1.pos w.2.pos a.1 a.2 eps).isolated, q = J := by
  have ha := h.arc
  have hb := bulge_ne_zero ha.notLine
  obtain ⟨tJ, htJ⟩ : ∃ t, linePoint w.1.pos w.2.pos t = J := by
    rcases h.end_ with e | e
    · exact ⟨0, by rw [e]; simp [linePoint, Vertex.pos]⟩
    · exact ⟨1, by rw [e]; simp [linePoint, Vertex.pos]⟩
  have hC := C25_line_circle w.1.pos w.2.pos (segRadius a) (segCenter a) eps (arcRadius_nonneg _ _ _) he h.line.1 h.line.2
  have hinj : ∀ t u, linePoint w.1.pos w.2.pos t = linePoint w.1.pos w.2.pos u → t = u := by
    intro t u e
    have := edist_linePoint w.1.pos w.2.pos t u
    rw [e, edist_self] at this
    rcases mul_eq_zero.mp this.symm with h0 | h0
    · exact sub_eq_zero.mp (abs_eq_zero.mp h0)
    · exact absurd (edist_zero h0.le) (apart_ne he h.line.1)
  have hend : ∀ e, (e = w.1.pos ∨ e = w.2.pos) → pointLiesOnArc (segRadius a) (segCenter a) a.1 a.2 eps e = true → e = J := by
    intro e hee hon
    by_contra hne
    rw [liesOnArc_iff] at hon
    exact absurd hon.2 (not_lt.mpr (h.far e hee hne))
  unfold processLineArcIntr
  rw [segArcRadiusAndCenter_eq a.1 a.2 hb ha.ne]
  simp only [length_edist, show arcRadius a.1.pos a.2.pos a.1.bulge = segRadius a from rfl, show arcCenter a.1.pos a.2.pos a.1.bulge = segCenter a from rfl]
  cases hres : lineCircleIntr w.1.pos w.2.pos (segRadius a) (segCenter a) eps with
  | noIntersect => simp [PlineSegIntr.overlap, PlineSegIntr.isolated]
  | tangentIntersect t =>
    rw [hres] at hC
    have ht : linePoint w.1.pos w.2.pos t = J := by
      by_contra hne
      have h1 := h.touch t hne
      have h2 := hC.2 tJ
      rw [htJ] at h2
      have h3 : edist J (segCenter a) = segRadius a := h.joint
      linarith
    dsimp only
    split_ifs with h1 h2
    · simp only [PlineSegIntr.overlap, PlineSegIntr.isolated, List.mem_singleton, true_and, forall_eq]
      exact hend _ (Or.inl rfl) h1
    · simp only [PlineSegIntr.overlap, PlineSegIntr.isolated, List.mem_singleton, true_and, forall_eq]
      exact hend _ (Or.inr rfl) h2
    · simp [PlineSegIntr.overlap, PlineSegIntr.isolated]
    · simp only [PlineSegIntr.overlap, PlineSegIntr.isolated, List.mem_singleton, true_and, forall_eq]
      rw [pointFromParametric_eq]; exact ht
    · simp [PlineSegIntr.overlap, PlineSegIntr.isolated]
  | twoIntersects t0 t1 =>
    exfalso
    rw [hres] at hC
    have h3 : edist J (segCenter a) = segRadius a := h.joint
    obtain ⟨hlt, hall⟩ := hC.1 ⟨tJ, by rw [htJ, h3]; linarith⟩
    have key : ∀ t, t = t0 ∨ t = t1 → t = tJ := by
      intro t ht
      have hon := (hall t).mpr ht
      by_contra hne
      have h1 := h.touch t (fun e => hne (hinj _ _ (e.trans htJ.symm)))
      rw [show edist (linePoint w.1.pos w.2.pos t) (segCenter a) = segRadius a from hon] at h1
      exact absurd h1 (lt_irrefl _)
    rw [key t0 (Or.inl rfl), key t1 (Or.inr rfl)] at hlt
    exact absurd hlt (lt_irrefl _)

theorem tangent_common {w a : Vertex ℝ × Vertex ℝ} {eps : ℝ} {J : V2 ℝ} (hw : IsLine w.1) (h : TangentAt w a eps J) {q : V2 ℝ}
    (h1 : OnSeg w.1 w.2 q) (h2 : OnSeg a.1 a.2 q) : q = J := by
  obtain ⟨t, -, -, rfl⟩ := h1
  rw [segCurve_line hw] at h2 ⊢
  by_contra hne
  have h3 := h.touch t hne
  rw [show edist (linePoint w.1.pos w.2.pos t) (segCenter a) = segRadius a from onSeg_circle h.arc h2] at h3
  exact absurd h3 (lt_irrefl _)

theorem findsCorner_of {s1 s2 : Vertex ℝ × Vertex ℝ} {eps : ℝ} (he : 0 < eps)
    (h1 : (plineSegIntr s1.1 s1.2 s2.1 s2.2 eps).overlap = none) (h2 : ∀ q ∈ (plineSegIntr s1.1 s1.2 s2.1 s2.2 eps).isolated, q = s1.2.pos)
    (h3 : ∀ q, OnSeg s1.1 s1.2 q → OnSeg s2.1 s2.2 q → q = s1.2.pos) : FindsCorner s1 s2 eps := by
  have hf := fuzzy_refl s1.2.pos he
  refine ⟨h1, ?_, ?_⟩
  · rw [List.filter_eq_nil_iff.mpr]
    · exact List.nodup_nil
    · intro q hq
      rw [h2 q hq, hf]; simp
  · intro q hq
    constructor
    · intro h; rw [h2 q h, hf] at hq; exact absurd hq (by simp)
    · rintro ⟨a, b⟩; rw [h3 q a b, hf] at hq; exact absurd hq (by simp)

/-- a straight segment followed by an arc that starts in its direction -/
theorem corner_line_arc {w a : Vertex ℝ × Vertex ℝ} {eps : ℝ} (he : 0 < eps) (hw : IsLine w.1) (h : TangentAt w a eps w.2.pos) : FindsCorner w a eps := by
  have hb : a.1.bulgeIsZero = false := bulgeIsZero_false h.arc.notLine
  have e : plineSegIntr w.1 w.2 a.1 a.2 eps = processLineArcIntr false w.1.pos w.2.pos a.1 a.2 eps := by
    unfold plineSegIntr
    simp [bulgeIsZero_true hw, hb]
  obtain ⟨h1, h2⟩ := tangent_points he h false
  rw [← e] at h1 h2
  exact findsCorner_of he h1 h2 (fun q a b => tangent_common hw h a b)

/-- an arc followed by a straight segment in the direction of its end -/
theorem corner_arc_line {w a : Vertex ℝ × Vertex ℝ} {eps : ℝ} (he : 0 < eps) (hw : IsLine w.1) (h : TangentAt w a eps a.2.pos) : FindsCorner a w eps := by
  have hb : a.1.bulgeIsZero = false := bulgeIsZero_false h.arc.notLine
  have e : plineSegIntr a.1 a.2 w.1 w.2 eps = processLineArcIntr true w.1.pos w.2.pos a.1 a.2 eps := by
    unfold plineSegIntr
    simp [bulgeIsZero_true hw, hb]
  obtain ⟨h1, h2⟩ := tangent_points he h true
  rw [← e] at h1 h2
  exact findsCorner_of he h1 h2 (fun q a b => tangent_common hw h b a)

end Cavc
