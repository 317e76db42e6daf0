import Verif.Model.Pline

/-! # Rational scalars

A computable instance with exact field operations and comparisons.  It is only used to evaluate
concrete witnesses.  The square root is exact for squares of rationals and rounds other values down,
trigonometric functions are placeholders: a witness must not depend on them (lines only, with rational
lengths). -/

namespace Cavc

/-- Integer square root by bisection: the largest `r` with `lo ≤ r < hi` and `r * r ≤ n`. -/
def sqrtBisect (n : Nat) : Nat → Nat → Nat → Nat
  | 0, lo, _ => lo
  | fuel + 1, lo, hi =>
    let mid := (lo + hi) / 2
    if mid * mid ≤ n then sqrtBisect n fuel mid hi else sqrtBisect n fuel lo mid

/-- Integer square root, rounding down. -/
def natSqrt (n : Nat) : Nat := sqrtBisect n (n.log2 + 2) 0 (n + 1)

instance instScalarRat : Scalar Rat where
  lt a b := decide (a < b)
  le a b := decide (a ≤ b)
  abs a := if a < 0 then -a else a
  sqrt a := if a < 0 then 0 else (natSqrt a.num.toNat : Rat) / (natSqrt a.den : Rat)
  floor a := a.floor
  ceil a := a.ceil
  sin a := a
  cos a := a
  tan a := a
  atan a := a
  atan2 a _ := a
  acos a := a
  min a b := if a ≤ b then a else b
  max a b := if a ≤ b then b else a
  pi := 3
  tau := 6
  two := 2
  four := 4
  ofRatio n d := (n : Rat) / (d : Rat)
  fuzzyEps := 1 / 100000000
  ltMax _ := true
  maxValue := 0
  toUsize a := if 0 ≤ a then some a.floor.toNat else none
  ofUsize n := some n
  totalCmp a b := if a < b then .lt else if a = b then .eq else .gt

/-- Equality of possibly panicking results is decidable. -/
instance instDecEqM {α : Type} [DecidableEq α] : DecidableEq (M α)
  | .ok a, .ok b => if h : a = b then isTrue (by rw [h]) else isFalse (fun h' => h (by simpa using h'))
  | .error a, .error b =>
    if h : a = b then isTrue (by rw [h]) else isFalse (fun h' => h (by simpa using h'))
  | .ok _, .error _ => isFalse (by simp)
  | .error _, .ok _ => isFalse (by simp)

end Cavc
