import Verif.Spec.Curve

/-! # Specification of vertex removal on straight paths -/

namespace Cavc

/-- The point lies on the straight segment from `a` to `b`. -/
def OnLineSeg (a b pt : V2 ℝ) : Prop := ∃ t, 0 ≤ t ∧ t ≤ 1 ∧ pt = linePoint a b t

/-- `l'` arises from the point list `l` by deleting, one after the other, points that lie on the
straight segment between their two neighbours (this includes repeated points).  The first and last
point stay. -/
inductive Straightened : List (V2 ℝ) → List (V2 ℝ) → Prop
  | refl (l) : Straightened l l
  | drop (l a b x y z) : Straightened l (a ++ x :: y :: z :: b) → OnLineSeg x z y →
      Straightened l (a ++ x :: z :: b)

/-- No interior point lies on the straight segment between its neighbours. -/
def NoStraight (l : List (V2 ℝ)) : Prop :=
  ∀ a b x y z, l = a ++ x :: y :: z :: b → ¬ OnLineSeg x z y

/-- The same for a closed point list: the start may be deleted too, if it lies on the segment from
the last to the second point. -/
def LoopStraightened (P Q : List (V2 ℝ)) : Prop :=
  ∃ L, Straightened (P ++ P.take 1) (L ++ L.take 1) ∧
    (Q = L ∨ ∃ x y M z, L = x :: y :: M ++ [z] ∧ OnLineSeg z y x ∧ Q = z :: y :: M)

/-- The epsilon is below the resolution of the polyline: near positions are equal, nearly collinear
triples are collinear and nearly non-opposed directions are non-opposed. -/
structure Resolves (eps : ℝ) (vs : List (Vertex ℝ)) : Prop where
  pos : 0 < eps
  near : ∀ a ∈ vs, ∀ b ∈ vs, |a.x - b.x| < eps → |a.y - b.y| < eps → a.x = b.x ∧ a.y = b.y
  cross : ∀ a ∈ vs, ∀ b ∈ vs, ∀ c ∈ vs,
    |a.x * (b.y - c.y) + b.x * (c.y - a.y) + c.x * (a.y - b.y)| < eps →
      a.x * (b.y - c.y) + b.x * (c.y - a.y) + c.x * (a.y - b.y) = 0
  dir : ∀ a ∈ vs, ∀ b ∈ vs, ∀ c ∈ vs,
    -eps < (c.x - b.x) * (b.x - a.x) + (c.y - b.y) * (b.y - a.y) →
      0 ≤ (c.x - b.x) * (b.x - a.x) + (c.y - b.y) * (b.y - a.y)

end Cavc
