import Verif.Model.FfiOptions
import Verif.Lemmas.Options
import Verif.Props.FfiHistory
import Verif.Spec.RealScalar
import Verif.Spec.RatScalar
import Verif.Spec.PlainEnv

/-! # C58: default options and the option structs of the C interface -/

namespace Cavc
open Pline

set_option linter.unusedSectionVars false
variable {T : Type} [Scalar T]

/-- **C58** the values of the default options. -/
theorem C58_defaults :
    ((OffsetOptions.default : OffsetOptions ℝ).aabbIndex.isNone ∧ (OffsetOptions.default : OffsetOptions ℝ).handleSelfIntersects = false ∧
      (OffsetOptions.default : OffsetOptions ℝ).posEqualEps = 1 / 100000 ∧
      (OffsetOptions.default : OffsetOptions ℝ).sliceJoinEps = 1 / 10000 ∧
      (OffsetOptions.default : OffsetOptions ℝ).offsetDistEps = 1 / 10000) ∧
    ((BooleanOptions.default : BooleanOptions ℝ).aabbIndex1.isNone ∧
      (BooleanOptions.default : BooleanOptions ℝ).posEqualEps = 1 / 100000) ∧
    ((ShapeOffsetOptions.default : ShapeOffsetOptions ℝ).posEqualEps = 1 / 100000 ∧
      (ShapeOffsetOptions.default : ShapeOffsetOptions ℝ).offsetDistEps = 1 / 10000 ∧
      (ShapeOffsetOptions.default : ShapeOffsetOptions ℝ).sliceJoinEps = 1 / 10000) := by
  simp [OffsetOptions.default, BooleanOptions.default, ShapeOffsetOptions.default, Scalar.ofRatio]

/-- **C58** the functions without options are the functions with options, called with no index (so they
build their own) and the default tolerances. -/
theorem C58_without_options (env : Env ℝ) (p q : Pline ℝ) (offset : ℝ) (op : BooleanOp) :
    p.parallelOffset env offset = Cavc.parallelOffset env p offset ⟨none, false, 1 / 100000, 1 / 10000, 1 / 10000⟩ ∧
    p.boolean env q op = polylineBoolean env p q op none (1 / 100000) ∧
    p.findIntersects env q = Cavc.findIntersects env p q none (1 / 100000) ∧
    ∀ {S C : Type} [ControlFlow C] (vis : Visitor ℝ S C) (s : S),
      p.visitSelfIntersects env vis s = p.visitSelfIntersectsOpt env vis s none (1 / 100000) .all := by
  have e1 : (Scalar.ofRatio 1 100000 : ℝ) = 1 / 100000 := by simp [Scalar.ofRatio]
  have e2 : (Scalar.ofRatio 1 10000 : ℝ) = 1 / 10000 := by simp [Scalar.ofRatio]
  refine ⟨?_, ?_, ?_, ?_⟩
  · unfold Pline.parallelOffset OffsetOptions.default; rw [e1, e2]
  · unfold Pline.boolean BooleanOptions.default; rw [e1]
  · unfold Pline.findIntersects findIntersectsDefaultEps; rw [e1]
  · intro S C _ vis s
    unfold Pline.visitSelfIntersects selfIntersectDefaultEps; rw [e1]

/-- **C58** passing a null option pointer and passing a struct filled in by the init function are the same
call, on every heap.  The init functions answer 0 and write exactly when the pointer is not null. -/
theorem C58_init_is_null (env : Env T) (h : Heap T) :
    (∃ o, offsetOptionsInit (T := T) false = (0, some o) ∧
      ∀ p offset, cParallelOffset env h p offset (some o) = cParallelOffset env h p offset none) ∧
    (∃ o, booleanOptionsInit (T := T) false = (0, some o) ∧
      ∀ p q operation, cBoolean env h p q operation (some o) = cBoolean env h p q operation none) ∧
    offsetOptionsInit (T := T) true = (1, none) ∧ booleanOptionsInit (T := T) true = (1, none) := by
  refine ⟨⟨_, rfl, fun p offset => ?_⟩, ⟨_, rfl, fun p q op => ?_⟩, rfl, rfl⟩
  · unfold cParallelOffset
    split_ifs
    · rfl
    · rfl
  · unfold cBoolean
    split_ifs
    · rfl
    · rfl
    · rfl

/-- **C58** a null polyline is answered with code 1 and an unknown operation with code 2 before the options
are looked at, so even with a dangling index pointer. -/
theorem C58_checked_first (env : Env T) (h : Heap T) (offset : T) (o : Option (COffsetOptions T)) (b : Option (CBooleanOptions T))
    (p q : Ptr) (operation : Nat) :
    cParallelOffset env h 0 offset o = some (h, 1, none) ∧
    (p = 0 ∨ q = 0 → cBoolean env h p q operation b = some (h, 1, none)) ∧
    (p ≠ 0 → q ≠ 0 → 4 ≤ operation → cBoolean env h p q operation b = some (h, 2, none)) := by
  refine ⟨rfl, fun hpq => if_pos hpq, fun hp hq ho => ?_⟩
  have : booleanOpFromU32 operation = none := by
    unfold booleanOpFromU32
    match operation, ho with
    | n + 4, _ => rfl
  unfold cBoolean
  rw [if_neg (by simp [hp, hq]), if_pos this]

/-- **C58** each field reaches the operation: the tolerances as given, any non-zero byte as true, a null
index pointer as no index and a pointer to a live index as that index. -/
theorem C58_fields (env : Env T) (h : Heap T) (p : Ptr) (hp : p ≠ 0) (offset eps join dist : T) (flag : Nat) :
    cParallelOffset env h p offset (some ⟨0, eps, join, dist, flag⟩) =
      plineParallelOffset env h p offset ⟨none, decide (flag ≠ 0), eps, join, dist⟩ ∧
    (∀ i boxes, i ≠ 0 → h.cells i = some (.aabbindex boxes) →
      cParallelOffset env h p offset (some ⟨i, eps, join, dist, flag⟩) =
        plineParallelOffset env h p offset ⟨some (env.build boxes), decide (flag ≠ 0), eps, join, dist⟩) ∧
    ∀ q operation, q ≠ 0 → operation < 4 →
      cBoolean env h p q operation (some ⟨0, eps⟩) = plineBoolean env h p q operation none eps ∧
      ∀ i boxes, i ≠ 0 → h.cells i = some (.aabbindex boxes) →
        cBoolean env h p q operation (some ⟨i, eps⟩) = plineBoolean env h p q operation (some (env.build boxes)) eps := by
  have hb : (flag != 0) = decide (flag ≠ 0) := by
    by_cases hf : flag = 0 <;> simp [hf]
  refine ⟨?_, fun i boxes hi hc => ?_, fun q op hq ho => ?_⟩
  · unfold cParallelOffset
    rw [if_neg hp]
    simp only [COffsetOptions.toInternal, readIndex, if_true, Option.map_some, hb]
  · unfold cParallelOffset
    rw [if_neg hp]
    simp only [COffsetOptions.toInternal, readIndex, if_neg hi, hc, Option.map_some, hb]
  · have hop : booleanOpFromU32 op ≠ none := by
      match op, ho with
      | 0, _ => simp [booleanOpFromU32]
      | 1, _ => simp [booleanOpFromU32]
      | 2, _ => simp [booleanOpFromU32]
      | 3, _ => simp [booleanOpFromU32]
    refine ⟨?_, fun i boxes hi hc => ?_⟩
    · unfold cBoolean
      rw [if_neg (by simp [hp, hq]), if_neg hop]
      simp only [CBooleanOptions.toInternal, readIndex, if_true, Option.map_some]
    · unfold cBoolean
      rw [if_neg (by simp [hp, hq]), if_neg hop]
      simp only [CBooleanOptions.toInternal, readIndex, if_neg hi, hc, Option.map_some]

/-- **C58** the index option only replaces the index the operation would build: with the index of the
polyline itself the result is the one without index. -/
theorem C58_same_offset (env : Env T) (p : Pline T) (offset : T) (hs : Bool) (e j d : T) :
    Cavc.parallelOffset env p offset ⟨some (env.build p.approxAabbBoxes.2), hs, e, j, d⟩ =
      Cavc.parallelOffset env p offset ⟨none, hs, e, j, d⟩ := by
  unfold Cavc.parallelOffset
  simp only [Option.getD_some, Option.getD_none, Pline.approxIndex,
    stitch_no_index env _ _ _ _ (some (env.build p.approxAabbBoxes.2)) none hs e j d]
  rfl

/-- **C58** giving the operations the index made from the same polyline changes nothing: a polyline is
offset, and combined with another one, with the same outcome as without an index. -/
theorem C58_own_index (env : Env T) (h : Heap T) (hk : h.Ok) (p : Ptr) (pl : Pline T) (hp : h.plineAt p = some (pl.verts, pl.closed)) :
    ∃ h' i, exec env h (.createApproxAabbIndex p) = some (h', 0, some (.ptr i)) ∧
      (∀ offset eps join dist flag, cParallelOffset env h' p offset (some ⟨i, eps, join, dist, flag⟩) =
        cParallelOffset env h' p offset (some ⟨0, eps, join, dist, flag⟩)) ∧
      ∀ q operation eps, cBoolean env h' p q operation (some ⟨i, eps⟩) = cBoolean env h' p q operation (some ⟨0, eps⟩) := by
  have hne := pline_ne hk hp
  have hc : h.cells p = some (.pline pl) := pline_cell hp
  refine ⟨(h.alloc (.aabbindex pl.approxAabbBoxes.2)).2, h.next, ?_, ?_, ?_⟩
  · simp only [exec, plineCreateApproxAabbIndex, withPline, if_neg hne, hc]
    rfl
  all_goals
    have hi0 : h.next ≠ 0 := Nat.pos_iff_ne_zero.mp hk.1
    have hpn : p ≠ h.next := by
      intro e
      have := hk.2.2 h.next le_rfl
      rw [← e, hc] at this
      cases this
    have hcp : (h.alloc (.aabbindex pl.approxAabbBoxes.2)).2.cells p = some (.pline pl) := by
      simp [Heap.alloc, hpn, hc]
    have hci : (h.alloc (.aabbindex pl.approxAabbBoxes.2)).2.cells h.next = some (.aabbindex pl.approxAabbBoxes.2) := by
      simp [Heap.alloc]
    generalize (h.alloc (.aabbindex pl.approxAabbBoxes.2)).2 = h' at hcp hci
  · intro offset eps join dist flag
    obtain ⟨e1, e2, -⟩ := C58_fields env h' p hne offset eps join dist flag
    rw [e1, e2 h.next _ hi0 hci]
    unfold plineParallelOffset withPline
    simp only [if_neg hne, hcp, C58_same_offset]
  · intro q op eps
    by_cases hq : q = 0
    · rw [((C58_checked_first env h' eps none _ p q op).2.1 (Or.inr hq)), ((C58_checked_first env h' eps none _ p q op).2.1 (Or.inr hq))]
    by_cases ho : op < 4
    · obtain ⟨-, -, e⟩ := C58_fields env h' p hne eps eps eps eps 0
      obtain ⟨e1, e2⟩ := e q op hq ho
      rw [e1, e2 h.next _ hi0 hci]
      unfold plineBoolean withPline
      simp only [if_neg hne, hcp]
      rfl
    · rw [((C58_checked_first env h' eps none _ p q op).2.2 hne hq (by omega)), ((C58_checked_first env h' eps none _ p q op).2.2 hne hq (by omega))]

/-- A heap with one polyline and the index made for it. -/
example : ∃ h : Heap Rat, h.Ok ∧ h.plineAt 1 = some ([⟨0, 0, 0⟩, ⟨4, 0, 0⟩, ⟨4, 4, 0⟩], true) :=
  ⟨⟨fun p => if p = 1 then some (.pline ⟨[⟨0, 0, 0⟩, ⟨4, 0, 0⟩, ⟨4, 4, 0⟩], true⟩) else none, 2⟩,
    ⟨by decide, rfl, fun p hp => if_neg (by rintro rfl; exact absurd hp (by decide))⟩, rfl⟩

end Cavc
