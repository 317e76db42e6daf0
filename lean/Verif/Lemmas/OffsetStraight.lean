import Verif.Spec.OffsetStraight
import Verif.Props.LineLine
import Verif.Props.RawOffset
import Verif.Lemmas.CutPieces
import Verif.Lemmas.ArcAngle
import Verif.Props.BooleanStitch

/-! # The corners of the raw offset of straight segments -/

set_option linter.unusedSectionVars false
set_option linter.unusedVariables false

namespace Cavc
open RealScalar

/-- `edist` of distinct points, with its square -/
theorem edist_pos_sq {a b : V2 ℝ} (h : a ≠ b) : 0 < edist a b ∧ edist a b ^ 2 = (b.x - a.x) ^ 2 + (b.y - a.y) ^ 2 := by
  refine ⟨edist_pos h, ?_⟩
  rw [edist_sq]; ring

theorem unit_sq {a b : V2 ℝ} (h : a ≠ b) : ((b.x - a.x) / edist a b) ^ 2 + ((b.y - a.y) / edist a b) ^ 2 = 1 := by
  obtain ⟨h1, h2⟩ := edist_pos_sq h
  rw [div_pow, div_pow, ← add_div, ← h2]
  exact div_self (pow_ne_zero 2 h1.ne')

theorem turn_sq {a v b : V2 ℝ} (h1 : a ≠ v) (h2 : v ≠ b) : turnSin a v b ^ 2 + turnCos a v b ^ 2 = 1 := by
  have e1 := unit_sq h1
  have e2 := unit_sq h2
  unfold turnSin turnCos
  linear_combination e1 * (((b.x - v.x) / edist v b) ^ 2 + ((b.y - v.y) / edist v b) ^ 2) + e2

theorem turn_pos {a v b : V2 ℝ} (h1 : a ≠ v) (h2 : v ≠ b) (hs : turnSin a v b ≠ 0) : 0 < 1 + turnCos a v b := by
  have h := turn_sq h1 h2
  have : 0 < turnSin a v b ^ 2 := by positivity
  nlinarith

theorem turnSin_cross {a v b : V2 ℝ} (h1 : a ≠ v) (h2 : v ≠ b) : dirCross a v v b = turnSin a v b * (edist a v * edist v b) := by
  have p1 := (edist_pos_sq h1).1.ne'
  have p2 := (edist_pos_sq h2).1.ne'
  unfold dirCross turnSin
  field_simp

/-- The two moved sides meet in the mitre point. -/
theorem mitre_point {a v b : V2 ℝ} (h1 : a ≠ v) (h2 : v ≠ b) (hs : turnSin a v b ≠ 0) (d : ℝ) :
    moved a v d (1 - setback a v b d / edist a v) = moved v b d (setback a v b d / edist v b) := by
  have p1 := (edist_pos_sq h1).1.ne'
  have p2 := (edist_pos_sq h2).1.ne'
  have e1 := unit_sq h1
  have e2 := unit_sq h2
  have hc := (turn_pos h1 h2 hs).ne'
  set x1 := (v.x - a.x) / edist a v with hx1
  set y1 := (v.y - a.y) / edist a v with hy1
  set x2 := (b.x - v.x) / edist v b with hx2
  set y2 := (b.y - v.y) / edist v b with hy2
  have hsn : turnSin a v b = x1 * y2 - y1 * x2 := rfl
  have hcs : turnCos a v b = x1 * x2 + y1 * y2 := rfl
  have vx : v.x - a.x = x1 * edist a v := by rw [hx1]; field_simp
  have vy : v.y - a.y = y1 * edist a v := by rw [hy1]; field_simp
  have wx : b.x - v.x = x2 * edist v b := by rw [hx2]; field_simp
  have wy : b.y - v.y = y2 * edist v b := by rw [hy2]; field_simp
  set m := turnSin a v b / (1 + turnCos a v b) with hm
  have hm' : m * (1 + (x1 * x2 + y1 * y2)) = x1 * y2 - y1 * x2 := by
    rw [hm, ← hcs, ← hsn]; field_simp
  have hst : setback a v b d = d * m := rfl
  rw [hcs] at hc
  have k1 : -y1 - m * x1 = -y2 + m * x2 := by
    apply mul_right_cancel₀ hc
    linear_combination (-(x1 + x2)) * hm' + (-y2) * e1 + y1 * e2
  have k2 : x1 - m * y1 = x2 + m * y2 := by
    apply mul_right_cancel₀ hc
    linear_combination (-(y1 + y2)) * hm' + x2 * e1 + (-x1) * e2
  rw [V2.ext_iff']
  simp only [moved]
  rw [← hx1, ← hy1, ← hx2, ← hy2, hst, vx, vy, wx, wy]
  constructor
  · have : d * m / edist v b * (x2 * edist v b) = d * m * x2 := by field_simp
    have h' : (1 - d * m / edist a v) * (x1 * edist a v) = x1 * edist a v - d * m * x1 := by field_simp
    rw [this, h']
    linear_combination d * k1 - vx
  · have : d * m / edist v b * (y2 * edist v b) = d * m * y2 := by field_simp
    have h' : (1 - d * m / edist a v) * (y1 * edist a v) = y1 * edist a v - d * m * y1 := by field_simp
    rw [this, h']
    linear_combination d * k2 - vy

/-- a moved side is the straight line between its ends -/
theorem moved_line (a b : V2 ℝ) (d u : ℝ) : linePoint (moved a b d 0) (moved a b d 1) u = moved a b d u := by
  rw [V2.ext_iff']
  simp only [moved, linePoint]
  constructor <;> ring

theorem rawLineSeg_moved (d : ℝ) (v w : Vertex ℝ) :
    rawLineSeg d v w = ⟨Vertex.ofV2 (moved v.pos w.pos d 0) 0, Vertex.ofV2 (moved v.pos w.pos d 1) 0, w.pos, false⟩ := by
  have hlen : ((w.pos - v.pos).perp).length = edist v.pos w.pos := by
    rw [V2.length_eq, edist]
    congr 1
    simp [V2.perp]
    ring
  have hoff : ((w.pos - v.pos).unitPerp).scale d
      = ⟨-(d * ((w.y - v.y) / edist v.pos w.pos)), d * ((w.x - v.x) / edist v.pos w.pos)⟩ := by
    unfold V2.unitPerp V2.normalize
    rw [hlen, V2.ext_iff']
    simp only [V2.scale, V2.perp, V2.sub_x, V2.sub_y, Vertex.pos_x, Vertex.pos_y]
    constructor <;> ring
  have e1 : v.pos + ((w.pos - v.pos).unitPerp).scale d = moved v.pos w.pos d 0 := by
    rw [hoff, V2.ext_iff']
    simp only [moved, V2.add_x, V2.add_y, Vertex.pos_x, Vertex.pos_y]
    constructor <;> ring
  have e2 : w.pos + ((w.pos - v.pos).unitPerp).scale d = moved v.pos w.pos d 1 := by
    rw [hoff, V2.ext_iff']
    simp only [moved, V2.add_x, V2.add_y, Vertex.pos_x, Vertex.pos_y]
    constructor <;> ring
  unfold rawLineSeg
  dsimp only
  rw [e1, e2]

theorem moved_cross (a v b : V2 ℝ) (d : ℝ) :
    dirCross (moved a v d 0) (moved a v d 1) (moved v b d 0) (moved v b d 1) = dirCross a v v b := by
  unfold dirCross moved
  ring

theorem moved_len (a b : V2 ℝ) (d : ℝ) : edist (moved a b d 0) (moved a b d 1) = edist a b := by
  unfold edist moved
  congr 1
  ring

/-- What the intersect test says of two moved sides. -/
theorem corner_intr {a v b : V2 ℝ} (h1 : a ≠ v) (h2 : v ≠ b) {d eps : ℝ} (he : 0 < eps) (hc : eps ≤ |dirCross a v v b|) :
    let τ := setback a v b d
    (-eps < τ ∧ τ < edist a v + eps ∧ τ < edist v b + eps →
      lineLineIntr (moved a v d 0) (moved a v d 1) (moved v b d 0) (moved v b d 1) eps = .trueIntersect (1 - τ / edist a v) (τ / edist v b)) ∧
    (¬ (-eps < τ ∧ τ < edist a v + eps ∧ τ < edist v b + eps) →
      lineLineIntr (moved a v d 0) (moved a v d 1) (moved v b d 0) (moved v b d 1) eps = .falseIntersect (1 - τ / edist a v) (τ / edist v b)) := by
  intro τ
  have p1 := (edist_pos_sq h1).1
  have p2 := (edist_pos_sq h2).1
  have hs : turnSin a v b ≠ 0 := by
    intro h0
    rw [turnSin_cross h1 h2, h0, zero_mul, abs_zero] at hc
    linarith
  obtain ⟨t, s, hu, ht, hf⟩ := C24_crossing (moved a v d 0) (moved a v d 1) (moved v b d 0) (moved v b d 1) eps he (by rw [moved_cross]; exact hc)
  obtain ⟨rfl, rfl⟩ := (hu (1 - τ / edist a v) (τ / edist v b)).mp (by rw [moved_line, moved_line]; exact mitre_point h1 h2 hs d)
  have key : (InReach (moved a v d 0) (moved a v d 1) (1 - τ / edist a v) eps ∧ InReach (moved v b d 0) (moved v b d 1) (τ / edist v b) eps) ↔
      (-eps < τ ∧ τ < edist a v + eps ∧ τ < edist v b + eps) := by
    unfold InReach
    rw [moved_len, moved_len]
    have e1 : (1 - τ / edist a v) * edist a v = edist a v - τ := by field_simp
    have e2 : τ / edist v b * edist v b = τ := by field_simp
    rw [e1, e2]
    constructor
    · rintro ⟨⟨x1, x2⟩, x3, x4⟩
      exact ⟨by linarith, by linarith, by linarith⟩
    · rintro ⟨x1, x2, x3⟩
      exact ⟨⟨by linarith, by linarith⟩, by linarith, by linarith⟩
  rw [key] at ht hf
  exact ⟨ht, hf⟩

/-! ## The turn as an angle -/

theorem halfTurn_cos_sin {a v b : V2 ℝ} (h1 : a ≠ v) (h2 : v ≠ b) (hs : turnSin a v b ≠ 0) :
    Real.cos (2 * halfTurn a v b) = turnCos a v b ∧ Real.sin (2 * halfTurn a v b) = turnSin a v b := by
  have hc := turn_pos h1 h2 hs
  have hq := turn_sq h1 h2
  unfold halfTurn
  rw [cos_two_arctan, sin_two_arctan]
  set s := turnSin a v b
  set c := turnCos a v b
  have hd : 1 + (s / (1 + c)) ^ 2 = 2 / (1 + c) := by
    field_simp
    linear_combination hq
  rw [hd]
  constructor
  · field_simp
    linear_combination -hq
  · field_simp

theorem halfTurn_bounds (a v b : V2 ℝ) : -Real.pi < 2 * halfTurn a v b ∧ 2 * halfTurn a v b < Real.pi := by
  have h1 := Real.arctan_lt_pi_div_two (turnSin a v b / (1 + turnCos a v b))
  have h2 := Real.neg_pi_div_two_lt_arctan (turnSin a v b / (1 + turnCos a v b))
  unfold halfTurn
  constructor <;> linarith

/-- The turn goes to the outer side where the setback is negative. -/
theorem halfTurn_sign {a v b : V2 ℝ} (d : ℝ) :
    (setback a v b d < 0 → d < 0 → 0 < halfTurn a v b) ∧ (setback a v b d < 0 → 0 < d → halfTurn a v b < 0) := by
  unfold setback halfTurn
  constructor
  · intro h hd
    have : 0 < turnSin a v b / (1 + turnCos a v b) := by nlinarith
    simpa using Real.arctan_strictMono this
  · intro h hd
    have : turnSin a v b / (1 + turnCos a v b) < 0 := by nlinarith
    simpa using Real.arctan_strictMono this

/-- Around the corner the moved end of the first side turns to the moved start of the second. -/
theorem corner_rot {a v b : V2 ℝ} (h1 : a ≠ v) (h2 : v ≠ b) (hs : turnSin a v b ≠ 0) (d : ℝ) :
    (⟨(moved v b d 0).x - v.x, (moved v b d 0).y - v.y⟩ : V2 ℝ) =
      rotV (2 * halfTurn a v b) ⟨(moved a v d 1).x - v.x, (moved a v d 1).y - v.y⟩ := by
  obtain ⟨hc, hsn⟩ := halfTurn_cos_sin h1 h2 hs
  have e1 := unit_sq h1
  rw [V2.ext_iff']
  simp only [rotV, hc, hsn, moved]
  unfold turnSin turnCos
  set x1 := (v.x - a.x) / edist a v
  set y1 := (v.y - a.y) / edist a v
  set x2 := (b.x - v.x) / edist v b
  set y2 := (b.y - v.y) / edist v b
  constructor
  · linear_combination d * y2 * e1
  · linear_combination (-d * x2) * e1

/-- The bulge computed for a corner. -/
theorem corner_bulge {a v b : V2 ℝ} (h1 : a ≠ v) (h2 : v ≠ b) (hs : turnSin a v b ≠ 0) {d : ℝ} (hd : d ≠ 0) (hneg : setback a v b d < 0) :
    bulgeForConnection v (moved a v d 1) (moved v b d 0) (decide (d < 0)) = Real.tan (halfTurn a v b / 2) := by
  have hrot := corner_rot h1 h2 hs d
  rw [V2.ext_iff'] at hrot
  have hne : moved a v d 1 ≠ v := by
    intro h
    rw [V2.ext_iff'] at h
    simp only [moved] at h
    have e1 := unit_sq h1
    have hx : d * ((v.y - a.y) / edist a v) = 0 := by linarith [h.1]
    have hy : d * ((v.x - a.x) / edist a v) = 0 := by linarith [h.2]
    rcases mul_eq_zero.mp hx with h' | h'
    · exact hd h'
    rcases mul_eq_zero.mp hy with h'' | h''
    · exact hd h''
    rw [h', h''] at e1
    norm_num at e1
  have hcg := angle_rot (c := v) (p := moved a v d 1) (q := moved v b d 0) hne hrot.1 hrot.2
  obtain ⟨b1, b2⟩ := halfTurn_bounds a v b
  obtain ⟨s1, s2⟩ := halfTurn_sign (a := a) (v := v) (b := b) d
  unfold bulgeForConnection
  rw [deltaAngleSigned_of_congr hcg (abs_le.mpr ⟨b1.le, b2.le⟩)]
  · show Real.tan (2 * halfTurn a v b / 4) = _
    congr 1; ring
  · intro h
    have : ¬ d < 0 := by simpa using h
    have := s2 hneg (lt_of_le_of_ne (not_lt.mp this) (Ne.symm hd))
    linarith
  · intro h
    have : d < 0 := by simpa using h
    have := s1 hneg this
    linarith

/-! ## Joining two moved sides -/

open Classical in
/-- The vertexes that the corner at `v` adds. -/
noncomputable def cornerVerts (a v b : V2 ℝ) (d : ℝ) : List (Vertex ℝ) :=
  if 0 ≤ setback a v b d ∧ setback a v b d ≤ edist a v ∧ setback a v b d ≤ edist v b then
    [Vertex.ofV2 (moved v b d (setback a v b d / edist v b)) 0]
  else [Vertex.ofV2 (moved a v d 1) (if setback a v b d < 0 then Real.tan (halfTurn a v b / 2) else 0), Vertex.ofV2 (moved v b d 0) 0]

/-- The moved side -/
noncomputable def movedSeg (a b : V2 ℝ) (d : ℝ) : RawSeg ℝ := ⟨Vertex.ofV2 (moved a b d 0) 0, Vertex.ofV2 (moved a b d 1) 0, b, false⟩

theorem ofV2_pos (q : V2 ℝ) (b : ℝ) : (Vertex.ofV2 q b).pos = q := rfl

theorem pointFromParametric_line (p q : V2 ℝ) (t : ℝ) : pointFromParametric p q t = linePoint p q t := by
  rw [V2.ext_iff']
  unfold pointFromParametric linePoint
  constructor <;> simp

theorem corner_join {a v b : V2 ℝ} (h1 : a ≠ v) (h2 : v ≠ b) {d eps : ℝ} (hd : d ≠ 0) (he : 0 < eps) (hc : eps ≤ |dirCross a v v b|)
    (hk : setback a v b d ≤ -eps ∨ (0 ≤ setback a v b d ∧ setback a v b d ≤ edist a v ∧ setback a v b d ≤ edist v b) ∨
      edist a v + eps ≤ setback a v b d ∨ edist v b + eps ≤ setback a v b d) (r : Pline ℝ) :
    joinSegPair (decide (d < 0)) eps (movedSeg a v d) (movedSeg v b d) r = .ok ⟨appendVertexes eps r.verts (cornerVerts a v b d), r.closed⟩ := by
  have p1 := (edist_pos_sq h1).1
  have p2 := (edist_pos_sq h2).1
  have hs : turnSin a v b ≠ 0 := by
    intro h0
    rw [turnSin_cross h1 h2, h0, zero_mul, abs_zero] at hc
    linarith
  obtain ⟨ht, hf⟩ := corner_intr (d := d) h1 h2 he hc
  have z1 : (movedSeg a v d).v1.bulgeIsZero = true := by simp [movedSeg, Vertex.ofV2]
  have z2 : (movedSeg v b d).v1.bulgeIsZero = true := by simp [movedSeg, Vertex.ofV2]
  unfold joinSegPair
  rw [z1, z2]
  dsimp only
  unfold lineLineJoin
  rw [if_neg (by simp [movedSeg])]
  have hI : lineLineIntr (movedSeg a v d).v1.pos (movedSeg a v d).v2.pos (movedSeg v b d).v1.pos (movedSeg v b d).v2.pos eps =
    lineLineIntr (moved a v d 0) (moved a v d 1) (moved v b d 0) (moved v b d 1) eps := rfl
  unfold cornerVerts
  by_cases hm : 0 ≤ setback a v b d ∧ setback a v b d ≤ edist a v ∧ setback a v b d ≤ edist v b
  · rw [if_pos hm, hI, ht ⟨by linarith, by linarith, by linarith⟩]
    dsimp only
    unfold Pline.addOrReplace
    rw [addOrReplaceVertex_eq]
    simp only [appendVertexes, List.foldl_cons, List.foldl_nil]
    rw [pointFromParametric_line, ← mitre_point h1 h2 hs d]
    show Except.ok _ = Except.ok _
    congr 4
    exact moved_line a v d _
  · rw [if_neg hm, hI, hf (by
      rintro ⟨x1, x2, x3⟩
      rcases hk with h | h | h | h
      · linarith
      · exact hm h
      · linarith
      · linarith)]
    dsimp only
    by_cases hneg : setback a v b d < 0
    · have t1 : (1 : ℝ) < 1 - setback a v b d / edist a v := by
        have := div_neg_of_neg_of_pos hneg p1
        linarith
      have t2 : setback a v b d / edist v b < 0 := div_neg_of_neg_of_pos hneg p2
      rw [if_pos (by simp [isFalseIntersect, t1, t2]), if_pos hneg]
      unfold connectUsingArc
      simp only [Pline.addOrReplace, addOrReplaceVertex_eq, bind, Except.bind]
      show Except.ok _ = Except.ok _
      have hb := corner_bulge h1 h2 hs hd hneg
      simp only [movedSeg, ofV2_pos, appendVertexes, List.foldl_cons, List.foldl_nil]
      rw [hb]
      rfl
    · have t1 : ¬ (1 : ℝ) < 1 - setback a v b d / edist a v := by
        have := div_nonneg (not_lt.mp hneg) p1.le
        linarith
      rw [if_neg (by simp only [gt_eq, Bool.and_eq_true, decide_eq_true_eq]; exact fun h => t1 h.1), if_neg hneg]
      simp only [Pline.addOrReplace, addOrReplaceVertex_eq, bind, Except.bind]
      show Except.ok _ = Except.ok _
      simp only [movedSeg, ofV2_pos, appendVertexes, List.foldl_cons, List.foldl_nil]
      rfl

end Cavc
