import Verif.Spec.Boolean

/-! # Specification of the order in which boolean operations join slices -/

namespace Cavc
variable {T : Type} [Scalar T]

/-- What a slice goes along: the first polyline or the second, and whether it is an overlap. -/
structure SliceKind where
  first : Bool
  overlap : Bool
deriving DecidableEq, Repr

/-- The kind of slice number `i` when there are `n1` pieces of the first polyline, `n2` of the second,
and `m` overlaps, listed in the direction of the first polyline and then of the second. -/
def kindAt (n1 n2 m i : Nat) : SliceKind :=
  if i < n1 then ⟨true, false⟩
  else if i < n1 + n2 then ⟨false, false⟩
  else if i < n1 + n2 + m then ⟨true, true⟩
  else ⟨false, true⟩

/-- How far behind a slice of kind `b` comes when a slice of kind `a` is to be continued. A piece of
the other polyline is always first. A pass that keeps the same side of both polylines then takes a
piece of the same polyline, and an overlap last. A pass that keeps different sides makes no further
difference. -/
def joinRank (pass : Bool × Bool) (a b : SliceKind) : Nat :=
  if b.overlap = false ∧ b.first ≠ a.first then 0
  else if pass.1 = pass.2 then (if b.overlap then 2 else 1)
  else 1

/-- A pass that keeps different sides of the polylines does not join an overlap to an overlap. -/
def mayJoin (pass : Bool × Bool) (a b : SliceKind) : Prop := pass.1 ≠ pass.2 → ¬ (a.overlap = true ∧ b.overlap = true)

/-- Slice number `i` can be joined after slice number `k` of the chain `path`, whose slices have the vertexes
`vss`: it starts near where the chain up to there ends, and it is the first slice of the chain or a
slice that is neither among `before` nor in the chain up to there. -/
def Possible (slices : List (BoolSlice T)) (eps : T) (before path : List Nat) (vss : List (List (Vertex T))) (k i : Nat) : Prop :=
  ∃ t l, slices[i]? = some t ∧ (chainVertexes eps (vss.take (k + 1))).getLast? = some l ∧ Near eps l.pos t.startPoint ∧
    (path.head? = some i ∨ (i ∉ before ∧ i ∉ path.take (k + 1)))

/-- `c` is possible after slice number `k` of the chain, which is `a`; it may be joined to `a`, and none
that may be joined to `a` comes before it. -/
def Best (slices : List (BoolSlice T)) (eps : T) (may : Nat → Nat → Prop) (rank : Nat → Nat → Nat) (before path : List Nat)
    (vss : List (List (Vertex T))) (k a c : Nat) : Prop :=
  Possible slices eps before path vss k c ∧ may a c ∧
    ∀ i, Possible slices eps before path vss k i → may a i → rank a c ≤ rank a i

/-- How a round goes that uses the slices `used`: each joint is the best possible, and at the end it is best
to join the first slice again (then this is the result, unless it has less than three vertexes), or no
slice may be joined (then there is no result). -/
def Joints (slices : List (BoolSlice T)) (p1 p2 : Pline T) (eps : T) (may : Nat → Nat → Prop) (rank : Nat → Nat → Nat)
    (before used : List Nat) (r : Option (BooleanResultPline T)) : Prop :=
  ∃ vss first last, List.Forall₂ (fun i vs => ∃ s, slices[i]? = some s ∧ s.Reads p1 p2 vs) used vss ∧
    used.head? = some first ∧ used.getLast? = some last ∧
    (∀ k a c, used[k]? = some a → used[k + 1]? = some c → Best slices eps may rank before used vss k a c) ∧
    match r with
    | some x => Best slices eps may rank before used vss (used.length - 1) last first ∧ Stitched slices p1 p2 eps used x
    | none => (Best slices eps may rank before used vss (used.length - 1) last first ∧ (chainVertexes eps vss).length < 3) ∨
        ∀ i, Possible slices eps before used vss (used.length - 1) i → ¬ may last i

/-- Rounds of stitching, one after the other. Each starts with the first slice that is not used yet. -/
def Rounds (slices : List (BoolSlice T)) (p1 p2 : Pline T) (eps : T) (may : Nat → Nat → Prop) (rank : Nat → Nat → Nat) :
    List Nat → List (List Nat × Option (BooleanResultPline T)) → Prop
  | _, [] => True
  | before, (used, r) :: rest =>
    (∃ first, used.head? = some first ∧ first ∉ before ∧ ∀ j < first, j ∈ before) ∧
    Joints slices p1 p2 eps may rank before used r ∧ Rounds slices p1 p2 eps may rank (before ++ used) rest

/-- The polylines `rs` are assembled in rounds from slices: kept pieces of the first polyline, then of
the second, and each overlap once in the direction of the first polyline and once in the direction of
the second. Every slice is used exactly once. -/
def AssembledBy (p1 p2 : Pline T) (b : BoolProc T) (eps : T) (pass : Bool × Bool) (rs : List (BooleanResultPline T)) : Prop :=
  ∃ pieces1 pieces2 slices rounds,
    (∀ s ∈ pieces1 ++ pieces2, Kept p1 p2 b eps pass s) ∧
    (∀ s ∈ pieces1, s.sourceIsPline1 = true) ∧ (∀ s ∈ pieces2, s.sourceIsPline1 = false) ∧
    slices = pieces1 ++ pieces2 ++ b.overlappingSlices.map (fun o => BoolSlice.fromOverlapping o o.opposingDirections) ++
      b.overlappingSlices.map (fun o => BoolSlice.fromOverlapping o false) ∧
    rs = rounds.filterMap Prod.snd ∧ (rounds.map Prod.fst).flatten.Perm (List.range slices.length) ∧
    let kind := kindAt pieces1.length pieces2.length b.overlappingSlices.length
    Rounds slices p1 p2 eps (fun a c => mayJoin pass (kind a) (kind c)) (fun a c => joinRank pass (kind a) (kind c)) [] rounds

end Cavc
