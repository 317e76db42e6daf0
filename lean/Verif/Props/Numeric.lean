import Verif.Model.Numeric
import Verif.Model.Pline
import Verif.Props.Angles
import Verif.Lemmas.Arc

/-! # C55: numeric helpers: roots of a quadratic, rotations, side tests, comparisons -/

namespace Cavc
open RealScalar

set_option linter.unusedSectionVars false

/-- The first root computed is never zero unless `b` and `c` both are, so the second division is by a
number other than zero exactly under that guard. -/
theorem C55_quadratic_divisor (a b c s : ℝ) (ha : a ≠ 0) (hs : 0 ≤ s) (hd : s ^ 2 = b ^ 2 - 4 * a * c) :
    (quadraticSolutions a b c s).1 = 0 ↔ b = 0 ∧ c = 0 := by
  have h2a : 2 * a ≠ 0 := mul_ne_zero two_ne_zero ha
  unfold quadraticSolutions
  simp only [lt_eq, two_eq, decide_eq_true_eq]
  constructor
  · intro h
    have hb : b = 0 := by
      split_ifs at h with hb
      · rw [div_eq_zero_iff] at h
        rcases h with h | h
        · linarith
        · exact absurd h h2a
      · rw [div_eq_zero_iff] at h
        push Not at hb
        rcases h with h | h
        · linarith
        · exact absurd h h2a
    subst hb
    have h0 : s = 0 := by
      simp only [lt_irrefl, if_false, neg_zero, zero_sub] at h
      rw [div_eq_zero_iff] at h
      rcases h with h | h
      · linarith
      · exact absurd h h2a
    subst h0
    have : a * c = 0 := by nlinarith
    exact ⟨rfl, (mul_eq_zero.mp this).resolve_left ha⟩
  · rintro ⟨rfl, rfl⟩
    have : s = 0 := by
      have : s ^ 2 = 0 := by rw [hd]; ring
      exact pow_eq_zero_iff (two_ne_zero) |>.mp this
    subst this
    simp

/-- **C55** `quadratic_solutions`: given a square root of the discriminant, the two numbers returned are
exactly the roots of `a x² + b x + c`, unless `b` and `c` are both zero. -/
theorem C55_quadratic (a b c s : ℝ) (ha : a ≠ 0) (hs : 0 ≤ s) (hd : s ^ 2 = b ^ 2 - 4 * a * c)
    (hbc : b ≠ 0 ∨ c ≠ 0) (x : ℝ) :
    a * x ^ 2 + b * x + c = 0 ↔ x = (quadraticSolutions a b c s).1 ∨ x = (quadraticSolutions a b c s).2 := by
  have hne : (quadraticSolutions a b c s).1 ≠ 0 := by
    rw [Ne, C55_quadratic_divisor a b c s ha hs hd]
    rintro ⟨rfl, rfl⟩
    simp at hbc
  have e2 : (quadraticSolutions a b c s).2 = (c / a) / (quadraticSolutions a b c s).1 := rfl
  have hroot : a * (quadraticSolutions a b c s).1 ^ 2 + b * (quadraticSolutions a b c s).1 + c = 0 := by
    unfold quadraticSolutions
    simp only [lt_eq, two_eq, decide_eq_true_eq]
    split_ifs
    · field_simp
      nlinarith
    · field_simp
      nlinarith
  rw [e2]
  generalize (quadraticSolutions a b c s).1 = r at *
  have hf : a * x ^ 2 + b * x + c = a * (x - r) * (x - c / a / r) := by
    have hb : b = -(c + a * r ^ 2) / r := by field_simp; linarith
    rw [hb]
    field_simp
    ring
  rw [hf]
  constructor
  · intro h
    rcases mul_eq_zero.mp h with h | h
    · rcases mul_eq_zero.mp h with h | h
      · exact absurd h ha
      · left; linarith
    · right; linarith
  · rintro (rfl | rfl) <;> simp

/-- `x² - 3 x + 2` with roots 1 and 2. -/
example : (1:ℝ) ≠ 0 ∧ (0:ℝ) ≤ 1 ∧ (1:ℝ) ^ 2 = (-3) ^ 2 - 4 * 1 * 2 ∧ quadraticSolutions (1:ℝ) (-3) 2 1 = (2, 1) := by
  refine ⟨by norm_num, by norm_num, by norm_num, ?_⟩
  unfold quadraticSolutions
  norm_num

/-- **C55** `rotate_about`: the point turned by the angle about the origin given: distances are kept, the
origin is fixed, and in polar coordinates about the origin the angle is added. -/
theorem C55_rotate (o : V2 ℝ) (ang : ℝ) :
    (∀ a b : V2 ℝ, edist (a.rotateAbout o ang) (b.rotateAbout o ang) = edist a b) ∧
    o.rotateAbout o ang = o ∧
    (∀ r t : ℝ, V2.rotateAbout ⟨o.x + r * Real.cos t, o.y + r * Real.sin t⟩ o ang =
      ⟨o.x + r * Real.cos (t + ang), o.y + r * Real.sin (t + ang)⟩) ∧
    (∀ (a : V2 ℝ) (ang' : ℝ), (a.rotateAbout o ang).rotateAbout o ang' = a.rotateAbout o (ang + ang')) ∧
    ∀ a : V2 ℝ, a.rotateAbout o 0 = a := by
  have hx : ∀ (a : V2 ℝ) (t : ℝ), (a.rotateAbout o t).x = (a.x - o.x) * Real.cos t - (a.y - o.y) * Real.sin t + o.x :=
    fun _ _ => rfl
  have hy : ∀ (a : V2 ℝ) (t : ℝ), (a.rotateAbout o t).y = (a.x - o.x) * Real.sin t + (a.y - o.y) * Real.cos t + o.y :=
    fun _ _ => rfl
  refine ⟨fun a b => ?_, ?_, fun r t => ?_, fun a t => ?_, fun a => ?_⟩
  · unfold edist
    congr 1
    rw [hx, hx, hy, hy]
    linear_combination ((a.x - b.x) ^ 2 + (a.y - b.y) ^ 2) * Real.sin_sq_add_cos_sq ang
  · rw [V2.ext_iff', hx, hy]; simp
  · rw [V2.ext_iff', hx, hy]
    simp only
    rw [Real.cos_add, Real.sin_add]
    constructor <;> ring
  · rw [V2.ext_iff']
    simp only [hx, hy, Real.cos_add, Real.sin_add]
    constructor <;> ring
  · rw [V2.ext_iff', hx, hy]; simp

/-- **C55** side tests: write the point as `p0 + s d + h n` with `d` the direction `p1 - p0` and `n` the
direction turned a quarter to the left.  Then left means `h > 0`, and the tolerant tests allow the area
`h |d|²` to be negative (positive) by less than `eps`. -/
theorem C55_sides (p0 p1 : V2 ℝ) (hne : p0 ≠ p1) (s h eps : ℝ) (q : V2 ℝ)
    (hq : q = ⟨p0.x + s * (p1.x - p0.x) - h * (p1.y - p0.y), p0.y + s * (p1.y - p0.y) + h * (p1.x - p0.x)⟩) :
    (isLeft p0 p1 q = true ↔ 0 < h) ∧ (isLeftOrEqual p0 p1 q = true ↔ 0 ≤ h) ∧
    (isLeftOrCoincidentEps p0 p1 q eps = true ↔ -eps < h * edist p0 p1 ^ 2) ∧
    (isRightOrCoincidentEps p0 p1 q eps = true ↔ h * edist p0 p1 ^ 2 < eps) ∧
    (isLeftOrCoincident p0 p1 q = true ↔ -(1 / 100000000) < h * edist p0 p1 ^ 2) ∧
    (isRightOrCoincident p0 p1 q = true ↔ h * edist p0 p1 ^ 2 < 1 / 100000000) := by
  have hv : perpDotTestValue p0 p1 q = h * edist p0 p1 ^ 2 := by
    rw [edist_sq, hq]
    unfold perpDotTestValue
    simp only
    ring
  have hp : 0 < edist p0 p1 ^ 2 := by have := edist_pos hne; positivity
  have e : (Scalar.fuzzyEps : ℝ) = 1 / 100000000 := rfl
  unfold isLeft isLeftOrEqual isLeftOrCoincident isRightOrCoincident isLeftOrCoincidentEps isRightOrCoincidentEps
  simp only [hv, gt_eq, ge_eq, lt_eq, decide_eq_true_eq, e, and_true]
  exact ⟨mul_pos_iff_of_pos_right hp, mul_nonneg_iff_of_pos_right hp⟩

/-- Every point of the plane has such coordinates, here for the line from the origin to `(2, 0)`. -/
example (q : V2 ℝ) : q = ⟨(0:ℝ) + q.x / 2 * (2 - 0) - q.y / 2 * (0 - 0), 0 + q.x / 2 * (0 - 0) + q.y / 2 * (2 - 0)⟩ := by
  rw [V2.ext_iff']; constructor <;> simp

variable {T : Type} [Scalar T]

/-- **C55** the functions without an epsilon use `fuzzy_epsilon`, which is `1e-8`. -/
theorem C55_default_epsilon (a b c : ℝ) :
    (Scalar.fuzzyInRange a b c = true ↔ b - 1 / 100000000 < a ∧ a < c + 1 / 100000000) ∧
    (Scalar.fuzzyGt a b = true ↔ b - 1 / 100000000 < a) ∧ (Scalar.fuzzyLt a b = true ↔ a < b + 1 / 100000000) ∧
    (Scalar.fuzzyEq a b = true ↔ |a - b| < 1 / 100000000) ∧ (Scalar.fuzzyEqZero a = true ↔ |a| < 1 / 100000000) ∧
    (a - b ≠ 2 * Real.pi → c - b ≠ 2 * Real.pi → (angleIsBetween a b c = true ↔ CcwBetween a b c (1 / 100000000))) ∧
    (∀ v u : Vertex ℝ, v.fuzzyEq u = true ↔
      |v.x - u.x| < 1 / 100000000 ∧ |v.y - u.y| < 1 / 100000000 ∧ |v.bulge - u.bulge| < 1 / 100000000) ∧
    ∀ p q : V2 ℝ, p.fuzzyEq q = true ↔ |p.x - q.x| < 1 / 100000000 ∧ |p.y - q.y| < 1 / 100000000 := by
  have e : (Scalar.fuzzyEps : ℝ) = 1 / 100000000 := rfl
  refine ⟨?_, ?_, ?_, ?_, ?_, fun h1 h2 => ?_, fun v u => ?_, fun p q => ?_⟩
  · unfold Scalar.fuzzyInRange
    rw [(C36_fuzzy_in_range a b c _ (by rw [e]; norm_num)).2, e]
  · unfold Scalar.fuzzyGt
    rw [fuzzyGtEps_eq, decide_eq_true_eq, e, sub_lt_iff_lt_add]
  · unfold Scalar.fuzzyLt
    rw [fuzzyLtEps_eq, decide_eq_true_eq, e]
  · unfold Scalar.fuzzyEq
    rw [fuzzyEqEps_eq, decide_eq_true_eq, e]
  · unfold Scalar.fuzzyEqZero
    rw [fuzzyEqZeroEps_eq, decide_eq_true_eq, e]
  · unfold angleIsBetween
    rw [C34_angle_is_between a b c _ h1 h2, e]
  · simp only [Vertex.fuzzyEq, Vertex.fuzzyEqEps, fuzzyEqEps_eq, Bool.and_eq_true, decide_eq_true_eq, e, and_assoc]
  · simp only [V2.fuzzyEq, V2.fuzzyEqEps, fuzzyEqEps_eq, Bool.and_eq_true, decide_eq_true_eq, e]

/-- **C55** a vertex is built from a slice of exactly three numbers, in the order `x`, `y`, `bulge`. -/
theorem C55_from_slice (l : List T) (v : Vertex T) :
    Vertex.fromSlice l = some v ↔ l = [v.x, v.y, v.bulge] := by
  match l with
  | [] | [_] | [_, _] | _ :: _ :: _ :: _ :: _ => simp [Vertex.fromSlice]
  | [x, y, b] =>
    cases v
    simp [Vertex.fromSlice]

/-- **C55** polylines are equal within an epsilon when both are closed or both open, the counts agree and
each number of each vertex is within the epsilon of the number at the same place. -/
theorem C55_pline_fuzzy_eq (p q : Pline ℝ) (eps : ℝ) :
    p.fuzzyEqEps q eps = true ↔ p.closed = q.closed ∧
      List.Forall₂ (fun v u : Vertex ℝ => |v.x - u.x| < eps ∧ |v.y - u.y| < eps ∧ |v.bulge - u.bulge| < eps)
        p.verts q.verts := by
  obtain ⟨vs, c⟩ := p
  obtain ⟨us, d⟩ := q
  simp only [Pline.fuzzyEqEps, Pline.vertexCount, Bool.and_eq_true, beq_iff_eq, List.forall₂_iff_zip, List.all_eq_true,
    Vertex.fuzzyEqEps, fuzzyEqEps_eq, decide_eq_true_eq, and_assoc, Prod.forall]

/-- Two polylines that differ by less than a hundredth. -/
example : (⟨[⟨0, 0, 0⟩, ⟨1, 2, 1⟩], true⟩ : Pline ℝ).fuzzyEqEps ⟨[⟨1 / 200, 0, 0⟩, ⟨1, 2, 1⟩], true⟩ (1 / 100) = true := by
  rw [C55_pline_fuzzy_eq]
  refine ⟨rfl, .cons ?_ (.cons ?_ .nil)⟩ <;> norm_num [abs_lt]

end Cavc
