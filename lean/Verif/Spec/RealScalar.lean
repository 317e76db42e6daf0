import Mathlib.Analysis.SpecialFunctions.Complex.Arg
import Mathlib.Analysis.SpecialFunctions.Trigonometric.Arctan
import Mathlib.Analysis.SpecialFunctions.Trigonometric.Inverse
import Mathlib.Tactic.Ring
import Mathlib.Tactic.Linarith
import Mathlib.Tactic.FieldSimp
import Mathlib.Tactic.Positivity
import Mathlib.Tactic.NormNum
import Verif.Model.Ffi

/-! # Exact real arithmetic as a `Scalar`

The instance under which the geometric theorems are proved.  It idealises `f64`: no rounding, no
NaN, no infinities.  `atan2 y x` is `Complex.arg (x + i y)` (in `(-π, π]`, `atan2 0 0 = 0`, as for
IEEE up to the sign of zero).  `x / 0 = 0` and `sqrt` of a negative number is `0` are Lean's
conventions; the theorems carry hypotheses that exclude these cases wherever the code would produce
NaN or an infinity. -/

namespace Cavc

open Classical in
/-- Real number semantics of the operations (`core/traits/real.rs:5-43`, `fuzzy_eq.rs:24-38`). -/
noncomputable instance instScalarReal : Scalar ℝ where
  lt a b := decide (a < b)
  le a b := decide (a ≤ b)
  abs a := |a|
  sqrt := Real.sqrt
  floor a := (⌊a⌋ : ℝ)
  ceil a := (⌈a⌉ : ℝ)
  sin := Real.sin
  cos := Real.cos
  tan := Real.tan
  atan := Real.arctan
  atan2 y x := Complex.arg ⟨x, y⟩
  acos := Real.arccos
  min := Min.min
  max := Max.max
  pi := Real.pi
  tau := 2 * Real.pi
  two := 2
  four := 4
  ofRatio n d := (n : ℝ) / d
  fuzzyEps := 1 / 100000000
  ltMax _ := true
  maxValue := 0
  toUsize x := if x ≤ -1 ∨ 2 ^ 64 ≤ x then none else some ⌊x⌋₊
  ofUsize n := some n
  totalCmp a b := if a < b then .lt else if a = b then .eq else .gt

namespace RealScalar

theorem lt_iff (a b : ℝ) : Scalar.lt a b = true ↔ a < b := by simp [Scalar.lt]
theorem le_iff (a b : ℝ) : Scalar.le a b = true ↔ a ≤ b := by simp [Scalar.le]
@[simp] theorem lt_eq (a b : ℝ) : (Scalar.lt a b) = decide (a < b) := by
  rw [Bool.eq_iff_iff]; simp [lt_iff]
@[simp] theorem le_eq (a b : ℝ) : (Scalar.le a b) = decide (a ≤ b) := by
  rw [Bool.eq_iff_iff]; simp [le_iff]
@[simp] theorem gt_eq (a b : ℝ) : (Scalar.gt a b) = decide (b < a) := by simp [Scalar.gt]
@[simp] theorem ge_eq (a b : ℝ) : (Scalar.ge a b) = decide (b ≤ a) := by simp [Scalar.ge]
@[simp] theorem abs_eq (a : ℝ) : Scalar.abs a = |a| := rfl
@[simp] theorem sqrt_eq (a : ℝ) : Scalar.sqrt a = Real.sqrt a := rfl
@[simp] theorem floor_eq (a : ℝ) : Scalar.floor a = (⌊a⌋ : ℝ) := rfl
@[simp] theorem ceil_eq (a : ℝ) : Scalar.ceil a = (⌈a⌉ : ℝ) := rfl
@[simp] theorem sin_eq (a : ℝ) : Scalar.sin a = Real.sin a := rfl
@[simp] theorem cos_eq (a : ℝ) : Scalar.cos a = Real.cos a := rfl
@[simp] theorem tan_eq (a : ℝ) : Scalar.tan a = Real.tan a := rfl
@[simp] theorem atan_eq (a : ℝ) : Scalar.atan a = Real.arctan a := rfl
@[simp] theorem atan2_eq (y x : ℝ) : Scalar.atan2 y x = Complex.arg ⟨x, y⟩ := rfl
@[simp] theorem acos_eq (a : ℝ) : Scalar.acos a = Real.arccos a := rfl
@[simp] theorem min_eq (a b : ℝ) : Scalar.min a b = Min.min a b := rfl
@[simp] theorem max_eq (a b : ℝ) : Scalar.max a b = Max.max a b := rfl
@[simp] theorem pi_eq : (Scalar.pi : ℝ) = Real.pi := rfl
@[simp] theorem tau_eq : (Scalar.tau : ℝ) = 2 * Real.pi := rfl
@[simp] theorem two_eq : (Scalar.two : ℝ) = 2 := rfl
@[simp] theorem four_eq : (Scalar.four : ℝ) = 4 := rfl
@[simp] theorem ofRatio_eq (n d : Nat) : (Scalar.ofRatio n d : ℝ) = (n : ℝ) / d := rfl
@[simp] theorem fuzzyEps_eq : (Scalar.fuzzyEps : ℝ) = 1 / 100000000 := rfl
@[simp] theorem ltMax_eq (a : ℝ) : Scalar.ltMax a = true := rfl
@[simp] theorem ofUsize_eq (n : Nat) : (Scalar.ofUsize n : Option ℝ) = some (n : ℝ) := rfl

@[simp] theorem fuzzyEqEps_eq (a b e : ℝ) : Scalar.fuzzyEqEps a b e = decide (|a - b| < e) := by
  simp [Scalar.fuzzyEqEps]
@[simp] theorem fuzzyEqZeroEps_eq (a e : ℝ) : Scalar.fuzzyEqZeroEps a e = decide (|a| < e) := by
  simp [Scalar.fuzzyEqZeroEps]
@[simp] theorem fuzzyEq_eq (a b : ℝ) :
    Scalar.fuzzyEq a b = decide (|a - b| < 1 / 100000000) := by simp [Scalar.fuzzyEq]
@[simp] theorem fuzzyEqZero_eq (a : ℝ) :
    Scalar.fuzzyEqZero a = decide (|a| < 1 / 100000000) := by simp [Scalar.fuzzyEqZero]
@[simp] theorem fuzzyGtEps_eq (a b e : ℝ) : Scalar.fuzzyGtEps a b e = decide (b < a + e) := by
  simp [Scalar.fuzzyGtEps]
@[simp] theorem fuzzyLtEps_eq (a b e : ℝ) : Scalar.fuzzyLtEps a b e = decide (a < b + e) := by
  simp [Scalar.fuzzyLtEps]
@[simp] theorem fuzzyLt_eq (a b : ℝ) :
    Scalar.fuzzyLt a b = decide (a < b + 1 / 100000000) := by simp [Scalar.fuzzyLt]
@[simp] theorem fuzzyGt_eq (a b : ℝ) :
    Scalar.fuzzyGt a b = decide (b < a + 1 / 100000000) := by simp [Scalar.fuzzyGt]
@[simp] theorem fuzzyInRangeEps_eq (a lo hi e : ℝ) :
    Scalar.fuzzyInRangeEps a lo hi e = decide (lo < a + e ∧ a < hi + e) := by
  rw [Bool.eq_iff_iff]; simp [Scalar.fuzzyInRangeEps]

end RealScalar

namespace V2
@[simp] theorem add_x (a b : V2 ℝ) : (a + b).x = a.x + b.x := rfl
@[simp] theorem add_y (a b : V2 ℝ) : (a + b).y = a.y + b.y := rfl
@[simp] theorem sub_x (a b : V2 ℝ) : (a - b).x = a.x - b.x := rfl
@[simp] theorem sub_y (a b : V2 ℝ) : (a - b).y = a.y - b.y := rfl
@[simp] theorem neg_x (a : V2 ℝ) : (-a).x = -a.x := rfl
@[simp] theorem neg_y (a : V2 ℝ) : (-a).y = -a.y := rfl
@[simp] theorem scale_x (a : V2 ℝ) (k : ℝ) : (a.scale k).x = k * a.x := rfl
@[simp] theorem scale_y (a : V2 ℝ) (k : ℝ) : (a.scale k).y = k * a.y := rfl
theorem dot_eq (a b : V2 ℝ) : a.dot b = a.x * b.x + a.y * b.y := rfl
theorem perpDot_eq (a b : V2 ℝ) : a.perpDot b = a.x * b.y - a.y * b.x := rfl
theorem lengthSquared_eq (a : V2 ℝ) : a.lengthSquared = a.x ^ 2 + a.y ^ 2 := by
  show a.x * a.x + a.y * a.y = _; ring
theorem length_eq (a : V2 ℝ) : a.length = Real.sqrt (a.x ^ 2 + a.y ^ 2) := by
  show Real.sqrt (a.x * a.x + a.y * a.y) = _
  congr 1; ring
theorem fuzzyEqEps_iff (a b : V2 ℝ) (e : ℝ) :
    a.fuzzyEqEps b e = true ↔ |a.x - b.x| < e ∧ |a.y - b.y| < e := by simp [V2.fuzzyEqEps]
theorem ext_iff' {a b : V2 ℝ} : a = b ↔ a.x = b.x ∧ a.y = b.y := by
  cases a; cases b; simp
end V2

namespace Vertex
@[simp] theorem pos_x (v : Vertex ℝ) : v.pos.x = v.x := rfl
@[simp] theorem pos_y (v : Vertex ℝ) : v.pos.y = v.y := rfl
@[simp] theorem bulgeIsZero_eq (v : Vertex ℝ) :
    v.bulgeIsZero = decide (|v.bulge| < 1 / 100000000) := by simp [bulgeIsZero]
@[simp] theorem bulgeIsPos_eq (v : Vertex ℝ) : v.bulgeIsPos = decide (0 < v.bulge) := by
  simp [bulgeIsPos]
@[simp] theorem bulgeIsNeg_eq (v : Vertex ℝ) : v.bulgeIsNeg = decide (v.bulge < 0) := by
  simp [bulgeIsNeg]
end Vertex

theorem distSquared_eq (a b : V2 ℝ) : distSquared a b = (a.x - b.x) ^ 2 + (a.y - b.y) ^ 2 := by
  show (a.x - b.x) * (a.x - b.x) + (a.y - b.y) * (a.y - b.y) = _; ring

end Cavc
