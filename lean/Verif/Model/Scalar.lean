/-!
# Scalars: the operations of the `Real` trait

The crate is generic over `T: Real`.  `Scalar` lists the operations the code uses.  It carries no
laws: a theorem proved for an arbitrary `Scalar` holds for IEEE floats (NaN and infinities
included), for exact reals, and for anything else.
-/

namespace Cavc

/-- Operations of the numeric type.
Models `cavalier_contours/src/core/traits/real.rs:5-43`, `fuzzy_eq.rs:24-38` (the epsilon), and the
`num_traits::real::Real` methods the code calls.
* `lt`/`le` are Rust's `<`/`<=` (`a > b` is `lt b a`).
* `ofRatio n d` is the literal `T::from(n/d)`.
* `ltMax x` is `x < max_value()`, `maxValue` is `max_value()`.
* `toUsize`/`ofUsize` are `ToPrimitive::to_usize` / `NumCast::from`.
* `totalCmp` is `IndexableNum::total_cmp`. -/
class Scalar (T : Type) extends Add T, Sub T, Mul T, Div T, Neg T, Zero T, One T where
  lt : T → T → Bool
  le : T → T → Bool
  abs : T → T
  sqrt : T → T
  floor : T → T
  ceil : T → T
  sin : T → T
  cos : T → T
  tan : T → T
  atan : T → T
  atan2 : T → T → T
  acos : T → T
  min : T → T → T
  max : T → T → T
  pi : T
  tau : T
  two : T
  four : T
  ofRatio : Nat → Nat → T
  fuzzyEps : T
  ltMax : T → Bool
  maxValue : T
  toUsize : T → Option Nat
  ofUsize : Nat → Option T
  totalCmp : T → T → Ordering

namespace Scalar
variable {T : Type} [Scalar T]

/-- Rust `a >= b`. -/
def ge (a b : T) : Bool := le b a
/-- Rust `a > b`. -/
def gt (a b : T) : Bool := lt b a

/-- `FuzzyEq::fuzzy_eq_eps`, `core/traits/fuzzy_eq.rs:31-33`. -/
def fuzzyEqEps (a b eps : T) : Bool := lt (abs (a - b)) eps
/-- `FuzzyEq::fuzzy_eq_zero_eps`, `core/traits/fuzzy_eq.rs:34-37`. -/
def fuzzyEqZeroEps (a eps : T) : Bool := lt (abs a) eps
/-- `FuzzyEq::fuzzy_eq`, `core/traits/fuzzy_eq.rs:11-13`. -/
def fuzzyEq (a b : T) : Bool := fuzzyEqEps a b fuzzyEps
/-- `FuzzyEq::fuzzy_eq_zero`, `core/traits/fuzzy_eq.rs:18-20`. -/
def fuzzyEqZero (a : T) : Bool := fuzzyEqZeroEps a fuzzyEps
/-- `FuzzyOrd::fuzzy_gt_eps`, `core/traits/fuzzy_ord.rs:49-51`: `self + eps > other`. -/
def fuzzyGtEps (a b eps : T) : Bool := gt (a + eps) b
/-- `FuzzyOrd::fuzzy_lt_eps`, `core/traits/fuzzy_ord.rs:53-55`: `self < other + eps`. -/
def fuzzyLtEps (a b eps : T) : Bool := lt a (b + eps)
/-- `FuzzyOrd::fuzzy_lt`, `core/traits/fuzzy_ord.rs:13-16`. -/
def fuzzyLt (a b : T) : Bool := fuzzyLtEps a b fuzzyEps
/-- `FuzzyOrd::fuzzy_gt`, `core/traits/fuzzy_ord.rs:6-9`. -/
def fuzzyGt (a b : T) : Bool := fuzzyGtEps a b fuzzyEps
/-- `FuzzyOrd::fuzzy_in_range_eps`, `core/traits/fuzzy_ord.rs:31-33`. -/
def fuzzyInRangeEps (a lo hi eps : T) : Bool := fuzzyGtEps a lo eps && fuzzyLtEps a hi eps

end Scalar
end Cavc
