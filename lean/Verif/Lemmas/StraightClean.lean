import Verif.Lemmas.StraightCorner
import Verif.Lemmas.OffsetKeep
import Verif.Spec.OffsetCorners
import Verif.Spec.OffsetOpenCross
import Verif.Lemmas.LoopResult
import Verif.Lemmas.OpenResult

/-! # Corners between straight segments are in accordance with the distances -/

set_option linter.unusedVariables false

namespace Cavc
open RealScalar Pline

section
variable {p : Pline ℝ} {d eps : ℝ} {k : Nat} (l1 : IsLine (vtx p k)) (l2 : IsLine (vtx p (k + 1)))

theorem joint_corner (l1 : IsLine (vtx p k)) (l2 : IsLine (vtx p (k + 1))) : cornerSin p k = turnSin (cornerPos p k) (cornerPos p (k + 1)) (cornerPos p (k + 2)) ∧
    cornerHalf p k = halfTurn (cornerPos p k) (cornerPos p (k + 1)) (cornerPos p (k + 2)) := by
  have e1 : arriveFrom p k = cornerPos p k := by
    unfold arriveFrom segDir cornerPos Vertex.pos
    rw [if_pos l1]
    simp only [V2.ext_iff']
    constructor <;> ring
  have e2 : departTo p k = cornerPos p (k + 2) := by
    unfold departTo segDir cornerPos Vertex.pos
    rw [if_pos l2]
    simp only [V2.ext_iff']
    constructor <;> ring
  unfold cornerSin cornerHalf
  rw [e1, e2]
  exact ⟨rfl, rfl⟩

theorem joint_par (l1 : IsLine (vtx p k)) (t : ℝ) : parCurve p d k t = sidePt p d k t := par_point l1 t

theorem joint_far (l1 : IsLine (vtx p k)) {r : ℝ} {X : V2 ℝ} : FarSeg p r X k ↔ FarAt p r X k := by
  unfold FarSeg FarAt FarSide
  constructor
  · intro h u u0 u1
    refine h _ ⟨u, u0, u1, ?_⟩
    rw [segCurve_line l1]; rfl
  · rintro h q ⟨u, u0, u1, rfl⟩
    rw [segCurve_line l1]
    exact h u u0 u1

section
variable (a1 : cornerPos p k ≠ cornerPos p (k + 1)) (a2 : cornerPos p (k + 1) ≠ cornerPos p (k + 2)) (hd : d ≠ 0) (he : 0 < eps)
include l1 l2 a1 a2 hd he

theorem joint_turn (h : ClearTurn p d eps k) : turnSin (cornerPos p k) (cornerPos p (k + 1)) (cornerPos p (k + 2)) ≠ 0 ∧ setbackAt p d k ≠ 0 := by
  have hs : turnSin (cornerPos p k) (cornerPos p (k + 1)) (cornerPos p (k + 2)) ≠ 0 := by
    intro h0
    have hx := h.cross
    have := turnSin_cross a1 a2
    rw [h0, zero_mul] at this
    unfold dirCross at this
    rw [this, abs_zero] at hx
    linarith
  refine ⟨hs, fun h0 => ?_⟩
  have := setback_mul (d := d) a1 a2 hs
  unfold setbackAt at h0
  rw [h0, zero_mul] at this
  exact mul_ne_zero hd hs this.symm

/-- What is done at a corner between straight segments is in accordance with the distances. -/
theorem joint_clean {c : Corner} (hon : ∀ X, Keeps p |d| X → FarSeg p |d| X k ∧ FarSeg p |d| X (k + 1)) (hc : ClearCorner p d eps k c) : CleanCorner p d k c := by
  obtain ⟨e1, e2⟩ := joint_corner l1 l2
  have s1 : 0 < sideLen p k := (edist_pos_sq a1).1
  have s2 : 0 < sideLen p (k + 1) := (edist_pos_sq a2).1
  have hon' : ∀ X, Keeps p |d| X → FarAt p |d| X k ∧ FarAt p |d| X (k + 1) := fun X hX => ⟨(joint_far l1).mp (hon X hX).1, (joint_far l2).mp (hon X hX).2⟩
  cases hc with
  | mitre _ _ h hm =>
    obtain ⟨hs, hne⟩ := joint_turn l1 l2 a1 a2 hd he h
    refine .cut _ _ ?_ (fun s g1 g2 hk => ?_) (fun s g1 g2 hk => ?_)
    · rw [e1]; exact ((setback_sign a1 a2 hs).1.mp (lt_of_le_of_ne hm.1 hne.symm)).le
    · rw [joint_par l1] at hk
      refine mitre_in a1 a2 hs g2 ?_ hm.2.2 (hon' _ hk).2
      have : 1 - s < setbackAt p d k / sideLen p k := by linarith
      rwa [lt_div_iff₀ s1] at this
    · rw [joint_par l2] at hk
      refine mitre_in_rev a1 a2 hs g1 ?_ hm.2.1 (hon' _ hk).1
      rwa [lt_div_iff₀ s2] at g2
  | round _ _ h hm =>
    obtain ⟨hs, hne⟩ := joint_turn l1 l2 a1 a2 hd he h
    rw [← e2]
    exact .round (by rw [e1]; exact (setback_sign a1 a2 hs).2.mp hm) (by rw [e2]; exact h.round hm)
  | chord _ _ h hm hs0 =>
    obtain ⟨hs, hne⟩ := joint_turn l1 l2 a1 a2 hd he h
    have hpos := (setback_sign a1 a2 hs).1.mp (lt_of_le_of_ne hs0 hne.symm)
    refine .lost 0 (by rw [e1]; exact hpos.le) (fun X hX hk => ?_)
    obtain ⟨t, t0, t1, rfl⟩ := hX
    have hl : IsLine (Vertex.ofV2 (parCurve p d k 1) 0) := box4_line _ _
    rw [segCurve_line hl, joint_par l1, joint_par l2] at hk
    exact chord_near a1 a2 hpos t0 t1 (hon' _ hk)
  | lineArcCut _ _ _ h2 => exact absurd l2 h2
  | lineArcRound _ _ h2 => exact absurd l2 h2
  | lineArcChord _ _ h2 => exact absurd l2 h2
  | arcLineCut _ _ h1 => exact absurd l1 h1
  | arcLineRound _ h1 => exact absurd l1 h1
  | arcsCut _ _ h1 => exact absurd l1 h1
  | arcsRound _ h1 => exact absurd l1 h1
  | arcsSame h1 => exact absurd l1 h1

/-- Next to a cut the moved sides keep the distance from each other's side. -/
theorem joint_free {t u : ℝ} (hc : ClearCorner p d eps k (.cut t u)) :
    (∀ s ≤ t, FarSeg p |d| (parCurve p d k s) (k + 1)) ∧ ∀ s, u ≤ s → FarSeg p |d| (parCurve p d (k + 1) s) k := by
  have s1 : 0 < sideLen p k := (edist_pos_sq a1).1
  have s2 : 0 < sideLen p (k + 1) := (edist_pos_sq a2).1
  cases hc with
  | mitre _ _ h hm =>
    obtain ⟨hs, hne⟩ := joint_turn l1 l2 a1 a2 hd he h
    constructor
    · intro s hst
      rw [joint_far l2, joint_par l1]
      refine mitre_out a1 a2 hs hm.1 ?_
      have : setbackAt p d k / sideLen p k ≤ 1 - s := by linarith
      rwa [div_le_iff₀ s1] at this
    · intro s hsu
      rw [joint_far l1, joint_par l2]
      refine mitre_out_rev a1 a2 hs hm.1 ?_
      rwa [div_le_iff₀ s2] at hsu
  | lineArcCut _ _ _ h2 => exact absurd l2 h2
  | arcLineCut _ _ h1 => exact absurd l1 h1
  | arcsCut _ _ h1 => exact absurd l1 h1
  | arcsSame h1 => exact absurd l1 h1

/-- The polyline turns there. -/
theorem joint_turns {c : Corner} (hc : ClearCorner p d eps k c) : cornerSin p k ≠ 0 := by
  rw [(joint_corner l1 l2).1]
  cases hc with
  | mitre _ _ h _ => exact (joint_turn l1 l2 a1 a2 hd he h).1
  | round _ _ h _ => exact (joint_turn l1 l2 a1 a2 hd he h).1
  | chord _ _ h _ _ => exact (joint_turn l1 l2 a1 a2 hd he h).1
  | lineArcCut _ _ _ h2 => exact absurd l2 h2
  | lineArcRound _ _ h2 => exact absurd l2 h2
  | lineArcChord _ _ h2 => exact absurd l2 h2
  | arcLineCut _ _ h1 => exact absurd l1 h1
  | arcLineRound _ h1 => exact absurd l1 h1
  | arcsCut _ _ h1 => exact absurd l1 h1
  | arcsRound _ h1 => exact absurd l1 h1
  | arcsSame h1 => exact absurd l1 h1

end

end

/-! ## Straight closed polylines -/

section
variable {p : Pline ℝ} {d eps : ℝ} {c : Nat → Corner} (hp : StraightLoop p) (hd : d ≠ 0) (he : 0 < eps)
include hp hd he

theorem straight_keeps {k : Nat} {r : ℝ} {X : V2 ℝ} (h : Keeps p r X) : FarSeg p r X k := (joint_far (hp.line k)).mpr ((keeps_far hp).mp h k)

/-- What is done at the corners is in accordance with the distances. -/
theorem straight_clean (hc : ∀ k < p.verts.length, ClearCorner p d eps k (c k)) : CleanCorners p d c := fun k hk =>
  joint_clean (hp.line k) (hp.line (k + 1)) (hp.apart k) (hp.apart (k + 1)) hd he (fun X hX => ⟨straight_keeps hp hd he hX, straight_keeps hp hd he hX⟩) (hc k hk)

/-- Next to a cut the moved sides keep the distance from each other's side. -/
theorem straight_free (hc : ∀ k < p.verts.length, ClearCorner p d eps k (c k)) : FreeCuts p d c := by
  have key : ∀ k < p.verts.length, ∀ t u, c k = .cut t u → _ := fun k hk t u h =>
    joint_free (hp.line k) (hp.line (k + 1)) (hp.apart k) (hp.apart (k + 1)) hd he (h ▸ hc k hk)
  exact ⟨fun k hk t u h => ⟨1, one_pos, fun s _ h2 => (key k hk t u h).1 s h2⟩, fun k hk t u h => ⟨1, one_pos, fun s h1 _ => (key k hk t u h).2 s h1⟩,
    fun k hk h => absurd h (joint_turns (hp.line k) (hp.line (k + 1)) (hp.apart k) (hp.apart (k + 1)) hd he (hc k hk))⟩

end

/-! ## Straight open polylines -/

section
variable {p : Pline ℝ} {d eps : ℝ} {c : Nat → Corner} (hp : FullPath p eps) (hl : ∀ k, k + 1 < p.verts.length → IsLine (vtx p k)) (hd : d ≠ 0) (he : 0 < eps)
include hp hl hd he

theorem straight_path_apart {k : Nat} (hk : k + 1 < p.verts.length) : cornerPos p k ≠ cornerPos p (k + 1) := fuzzy_ne he (hp.full k hk).apart

theorem straight_path_keeps {k : Nat} (hk : k + 1 < p.verts.length) {r : ℝ} {X : V2 ℝ} (h : Keeps p r X) : FarSeg p r X k := by
  rintro q ⟨u, u0, u1, rfl⟩
  refine h _ ((open_on hp _).mpr ⟨k, u, hk, u0, u1, ?_⟩)
  rw [curveAt_vtx (by omega)]

theorem straight_path_clean (hc : ∀ k, k + 2 < p.verts.length → ClearCorner p d eps k (c k)) : CleanPath p d c := fun k hk =>
  joint_clean (hl k (by omega)) (hl (k + 1) (by omega)) (straight_path_apart hp hl hd he (by omega)) (straight_path_apart hp hl hd he (k := k + 1) (by omega)) hd he
    (fun X hX => ⟨straight_path_keeps hp hl hd he (by omega) hX, straight_path_keeps hp hl hd he (by omega) hX⟩) (hc k hk)

theorem straight_path_free (hc : ∀ k, k + 2 < p.verts.length → ClearCorner p d eps k (c k)) : FreePath p d c := by
  have key : ∀ k, k + 2 < p.verts.length → ∀ t u, c k = .cut t u → _ := fun k hk t u h =>
    joint_free (hl k (by omega)) (hl (k + 1) (by omega)) (straight_path_apart hp hl hd he (by omega)) (straight_path_apart hp hl hd he (k := k + 1) (by omega)) hd he (h ▸ hc k hk)
  exact ⟨fun k hk t u h => ⟨1, one_pos, fun s _ h2 => (key k hk t u h).1 s h2⟩, fun k hk t u h => ⟨1, one_pos, fun s h1 _ => (key k hk t u h).2 s h1⟩,
    fun k hk h => absurd h (joint_turns (hl k (by omega)) (hl (k + 1) (by omega)) (straight_path_apart hp hl hd he (by omega))
      (straight_path_apart hp hl hd he (k := k + 1) (by omega)) hd he (hc k hk))⟩

end

end Cavc
