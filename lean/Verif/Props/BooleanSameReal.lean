import Verif.Lemmas.SameRun
import Verif.Lemmas.BoxSelf

/-! # C71: a boolean operation of a closed polyline and the same curve -/

namespace Cavc
open RealScalar

variable {p1 p2 : Pline ℝ} {eps : ℝ}

/-- Two closed polylines with the same segments, in any order and any directions, are taken for the same curve: union and
intersection give the second, the differences give nothing. -/
theorem C71_same (env : Env ℝ) (henv : env.Lawful) (p1 p2 : Pline ℝ) (op : BooleanOp) (o : Option (Index ℝ)) (eps : ℝ) (he : 0 < eps)
    (hidx : (o.getD (p1.approxIndex env)).Serves p1) (h1 : p1.BooleanInput) (f2 : FullLoop p2 eps)
    (hs : SameCurve p1 p2) (hn : NoPartialOverlap p1 p2 eps) :
    ∃ r, polylineBoolean env p1 p2 op o eps = .ok r ∧ SameAnswer p2 op r := by
  obtain ⟨found, sorted, gs, hf, hp, hb, hg, hyes, -⟩ :=
    C71_overlapping_partial env henv TotalCmp.real p1 p2 op o eps hidx h1 ⟨f2.two, f2.closed⟩
  exact hyes (same_one_loop env he f2 o hidx hs hn found hf sorted hp hb gs hg)

theorem same_onSeg {s t : Vertex ℝ × Vertex ℝ} (ht : IsLine t.1 ∨ ProperArc t.1 t.2) (h : SamePiece (pieceOf s) (pieceOf t)) (x : V2 ℝ) :
    OnSeg s.1 s.2 x ↔ OnSeg t.1 t.2 x := by
  obtain ⟨⟨a, b, c⟩, ⟨d, e, f⟩⟩ := s
  obtain ⟨⟨a', b', c'⟩, ⟨d', e', f'⟩⟩ := t
  rcases h with h | h
  · simp only [pieceOf, Piece.mk.injEq, V2.mk.injEq] at h
    obtain ⟨⟨rfl, rfl⟩, ⟨rfl, rfl⟩, rfl⟩ := h
    exact Iff.rfl
  · simp only [pieceOf, Piece.flip, Piece.mk.injEq, V2.mk.injEq] at h
    obtain ⟨⟨rfl, rfl⟩, ⟨rfl, rfl⟩, rfl⟩ := h
    unfold OnSeg
    have key := fun u => segCurve_flip _ _ ht f u
    constructor
    · rintro ⟨u, u0, u1, e⟩
      exact ⟨1 - u, by linarith, by linarith, e.trans (key u)⟩
    · rintro ⟨u, u0, u1, e⟩
      refine ⟨1 - u, by linarith, by linarith, e.trans ?_⟩
      have := key (1 - u)
      rw [sub_sub_cancel] at this
      exact this.symm

theorem same_parity {s : Vertex ℝ × Vertex ℝ} {a : Piece ℝ} (ht : IsLine s.1 ∨ ProperArc s.1 s.2) (h : SamePiece a (pieceOf s)) {x : V2 ℝ}
    (hx : ¬ OnSeg s.1 s.2 x) : (pieceWinding x a - pieceWinding x (pieceOf s)) % 2 = 0 := by
  rcases h with rfl | rfl
  · simp
  · have : pieceWinding x (pieceOf s).flip = -pieceWinding x (pieceOf s) := segWinding_flip ht hx 0
    rw [this]
    omega

/-- The winding numbers of the same curve differ by an even number. -/
theorem same_winding (l1 : Loop p1) (l2 : Loop p2) (hs : SameCurve p1 p2) {x : V2 ℝ} (hx : ¬ OnPline p2 x) :
    (p1.windingNumber x - p2.windingNumber x) % 2 = 0 := by
  obtain ⟨l, hp, hf⟩ := hs
  rw [windingNumber_sum p1 l1.closed l1.two, windingNumber_sum p2 l2.closed l2.two, ← (hp.map _).sum_eq]
  have hall : ∀ a b, b ∈ p2.path → SamePiece a b → (pieceWinding x a - pieceWinding x b) % 2 = 0 := by
    intro a b hb hab
    obtain ⟨s, hs, rfl⟩ := List.mem_map.mp hb
    exact same_parity (l2.proper s hs) hab fun h => hx ⟨s, hs, h⟩
  clear hp hx
  generalize p2.path = m at hf hall
  induction hf with
  | nil => simp
  | cons h _ ih =>
    have e1 := hall _ _ (by simp) h
    have e2 := ih fun a b hb => hall a b (by simp [hb])
    simp only [List.map_cons, List.sum_cons]
    omega

/-- For closed polylines that do not touch themselves and have the same segments, in any order and any directions, the region of
the result is the set operation applied to the regions of the inputs, which are the same. -/
theorem C71_region (env : Env ℝ) (henv : env.Lawful) (p1 p2 : Pline ℝ) (op : BooleanOp) (o : Option (Index ℝ)) (eps : ℝ) (he : 0 < eps)
    (hidx : (o.getD (p1.approxIndex env)).Serves p1) (l1 : Loop p1) (f2 : FullLoop p2 eps) (s1 : SimpleLoop p1) (s2 : SimpleLoop p2)
    (hs : SameCurve p1 p2) (hn : NoPartialOverlap p1 p2 eps) :
    ∃ r, polylineBoolean env p1 p2 op o eps = .ok r ∧ r.info = .overlapping ∧ ∀ x, ¬ OnPline p2 x →
      (p1.windingNumber x ≠ 0 ↔ p2.windingNumber x ≠ 0) ∧
      (((∃ q ∈ r.posPlines, q.pline.windingNumber x ≠ 0) ∧ ¬ ∃ q ∈ r.negPlines, q.pline.windingNumber x ≠ 0) ↔
        op.holds (p1.windingNumber x ≠ 0) (p2.windingNumber x ≠ 0)) := by
  have l2 := f2.loop he
  obtain ⟨r, hr, ha⟩ := C71_same env henv p1 p2 op o eps he hidx ⟨l1.two, l1.closed⟩ f2 hs hn
  have hon : ∀ x, OnPline p1 x → OnPline p2 x := by
    rintro x ⟨s, hsm, hx⟩
    obtain ⟨l, hp, hf⟩ := hs
    have : pieceOf s ∈ l := hp.mem_iff.mpr (List.mem_map.mpr ⟨s, hsm, rfl⟩)
    obtain ⟨b, hb, hab⟩ := forall2_mem_left hf this
    obtain ⟨t, ht, rfl⟩ := List.mem_map.mp hb
    exact ⟨t, ht, (same_onSeg (l2.proper t ht) hab x).mp hx⟩
  obtain ⟨σ1, e1, w1, -⟩ := C62_simple_winding p1 l1 s1
  obtain ⟨σ2, e2, w2, -⟩ := C62_simple_winding p2 l2 s2
  refine ⟨r, hr, ha.1, fun x hx => ?_⟩
  have hw : p1.windingNumber x ≠ 0 ↔ p2.windingNumber x ≠ 0 := by
    have h1 := w1 x fun h => hx (hon x h)
    have h2 := w2 x hx
    have h3 := same_winding l1 l2 hs hx
    omega
  refine ⟨hw, ?_⟩
  obtain ⟨-, hneg, hpos⟩ := ha
  have hq : (∃ q ∈ r.posPlines, q.pline.windingNumber x ≠ 0) ↔ ∃ q ∈ r.posPlines.map (·.pline), q.windingNumber x ≠ 0 := by
    simp
  rw [hq, hpos, hneg, hw]
  cases op <;> simp [BooleanOp.holds]

/-! ## The hypotheses are met -/

/-- lines that are not parallel do not overlap -/
theorem no_overlap_cross {s t : Vertex ℝ × Vertex ℝ} {eps : ℝ} (h1 : IsLine s.1) (h2 : IsLine t.1)
    (h : eps ≤ |dirCross s.1.pos s.2.pos t.1.pos t.2.pos|) : (plineSegIntr s.1 s.2 t.1 t.2 eps).overlap = none := by
  have hz : Scalar.fuzzyEqZeroEps ((s.2.pos - s.1.pos).perpDot (t.2.pos - t.1.pos)) eps = false := by
    rw [fuzzyEqZeroEps_eq, decide_eq_false_iff_not, not_lt]
    exact h
  unfold plineSegIntr
  simp only [bulgeIsZero_true h1, bulgeIsZero_true h2, Bool.and_self, if_true]
  have hne : ∀ a b, lineLineIntr s.1.pos s.2.pos t.1.pos t.2.pos eps ≠ .overlapping a b := by
    intro a b hc
    unfold lineLineIntr at hc
    simp only [hz, Bool.not_false, if_true] at hc
    split at hc <;> cases hc
  cases hr : lineLineIntr s.1.pos s.2.pos t.1.pos t.2.pos eps with
  | noIntersect => rfl
  | falseIntersect a b => rfl
  | trueIntersect a b => rfl
  | overlapping a b => exact absurd hr (hne a b)

/-- parallel lines that are apart do not overlap -/
theorem no_overlap_apart {s t : Vertex ℝ × Vertex ℝ} {eps : ℝ} (h1 : IsLine s.1) (h2 : IsLine t.1)
    (h : |dirCross s.1.pos s.2.pos t.1.pos t.2.pos| < eps) (hw : eps ≤ |dirCross t.1.pos t.2.pos t.1.pos s.1.pos|) :
    (plineSegIntr s.1 s.2 t.1 t.2 eps).overlap = none := by
  unfold plineSegIntr
  simp only [bulgeIsZero_true h1, bulgeIsZero_true h2, Bool.and_self, if_true]
  rw [(C24_apart _ _ _ _ eps h (Or.inr hw)).1]
  rfl

/-- a line and an arc do not overlap -/
theorem no_overlap_mixed {s t : Vertex ℝ × Vertex ℝ} {eps : ℝ} (h : IsLine s.1 ↔ ¬ IsLine t.1) : (plineSegIntr s.1 s.2 t.1 t.2 eps).overlap = none := by
  have key : ∀ (b : Bool) (x y : V2 ℝ) (v w : Vertex ℝ), (processLineArcIntr b x y v w eps).overlap = none := by
    intro b x y v w
    unfold processLineArcIntr
    dsimp only
    repeat' split
    all_goals rfl
  unfold plineSegIntr
  by_cases h1 : IsLine s.1
  · simp only [bulgeIsZero_true h1, bulgeIsZero_false (h.mp h1), Bool.and_false, if_true, Bool.false_eq_true, if_false]
    exact key _ _ _ _ _
  · have h2 : IsLine t.1 := by_contra fun hc => h1 (h.mpr hc)
    simp only [bulgeIsZero_false h1, bulgeIsZero_true h2, Bool.and_true, if_true, Bool.false_eq_true, if_false]
    exact key _ _ _ _ _

/-- half a disc, and the same in the opposite direction -/
noncomputable def dShape : Pline ℝ := ⟨[⟨0, 0, 1⟩, ⟨4, 0, 0⟩], true⟩
noncomputable def dBack : Pline ℝ := ⟨[⟨4, 0, -1⟩, ⟨0, 0, 0⟩], true⟩

example : FullLoop dShape (1 / 1000) ∧ dBack.BooleanInput ∧ SameCurve dBack dShape ∧ NoPartialOverlap dBack dShape (1 / 1000) ∧
    ∃ r, polylineBoolean Env.plain dBack dShape .and none (1 / 1000) = .ok r ∧ SameAnswer dShape .and r := by
  have v : vtx dShape 0 = ⟨0, 0, 1⟩ ∧ vtx dShape 1 = ⟨4, 0, 0⟩ := ⟨rfl, rfl⟩
  have arc1 : ¬ IsLine (⟨0, 0, 1⟩ : Vertex ℝ) := by unfold IsLine; norm_num
  have arc2 : ¬ IsLine (⟨4, 0, -1⟩ : Vertex ℝ) := by unfold IsLine; norm_num
  have hf : FullLoop dShape (1 / 1000) := by
    refine ⟨rfl, by decide, fun i => ?_⟩
    rw [← vtx_mod dShape i, ← vtx_mod dShape (i + 1)]
    have : i % 2 = 0 ∨ i % 2 = 1 := by omega
    have hl : dShape.verts.length = 2 := rfl
    rw [hl]
    rcases this with h | h
    · rw [h, show (i + 1) % 2 = 1 by omega, v.1, v.2]
      exact ⟨Or.inr ⟨arc1, by norm_num⟩, (apart_iff _ _ _).mpr (Or.inl (by norm_num [Vertex.pos]))⟩
    · rw [h, show (i + 1) % 2 = 0 by omega, v.1, v.2]
      exact ⟨Or.inl (box4_line _ _), (apart_iff _ _ _).mpr (Or.inl (by norm_num [Vertex.pos]))⟩
  have hb : dBack.BooleanInput := ⟨by decide, rfl⟩
  have hp1 : dBack.path = [⟨⟨4, 0⟩, ⟨0, 0⟩, -1⟩, ⟨⟨0, 0⟩, ⟨4, 0⟩, 0⟩] := rfl
  have hp2 : dShape.path = [⟨⟨0, 0⟩, ⟨4, 0⟩, 1⟩, ⟨⟨4, 0⟩, ⟨0, 0⟩, 0⟩] := rfl
  have hs : SameCurve dBack dShape := by
    refine ⟨dBack.path, List.Perm.refl _, ?_⟩
    rw [hp1, hp2]
    exact .cons (Or.inr (by simp [Piece.flip])) (.cons (Or.inr (by simp [Piece.flip])) .nil)
  have hn : NoPartialOverlap dBack dShape (1 / 1000) := by
    refine ⟨?_, ?_⟩
    · have e1 : dBack.segs = [(⟨4, 0, -1⟩, ⟨0, 0, 0⟩), (⟨0, 0, 0⟩, ⟨4, 0, -1⟩)] := rfl
      have e2 : dShape.segs = [(⟨0, 0, 1⟩, ⟨4, 0, 0⟩), (⟨4, 0, 0⟩, ⟨0, 0, 1⟩)] := rfl
      rw [e1, e2]
      intro s hs t ht hne
      simp only [List.mem_cons, List.not_mem_nil, or_false] at hs ht
      rcases hs with rfl | rfl <;> rcases ht with rfl | rfl
      · exact absurd (Or.inr (by simp [pieceOf, Piece.flip])) hne
      · exact no_overlap_mixed ⟨fun h => absurd h arc2, fun h => absurd (box4_line _ _) h⟩
      · exact no_overlap_mixed ⟨fun _ => arc1, fun _ => box4_line _ _⟩
      · exact absurd (Or.inr (by simp [pieceOf, Piece.flip])) hne
    · rw [hp1]
      simp [SamePiece, Piece.flip]
  exact ⟨hf, hb, hs, hn, C71_same Env.plain Env.plain_lawful _ _ .and none _ (by norm_num) (C37_own_index _ Env.plain_lawful _) hb hf hs hn⟩

/-- A square and itself. -/
example : ∃ r, polylineBoolean Env.plain box4 box4 .xor none (1 / 100000) = .ok r ∧ r.info = .overlapping ∧ ∀ x, ¬ OnPline box4 x →
      (box4.windingNumber x ≠ 0 ↔ box4.windingNumber x ≠ 0) ∧
      (((∃ q ∈ r.posPlines, q.pline.windingNumber x ≠ 0) ∧ ¬ ∃ q ∈ r.negPlines, q.pline.windingNumber x ≠ 0) ↔
        BooleanOp.xor.holds (box4.windingNumber x ≠ 0) (box4.windingNumber x ≠ 0)) := by
  have hs : SameCurve box4 box4 := ⟨box4.path, List.Perm.refl _, List.forall₂_same.mpr fun _ _ => Or.inl rfl⟩
  have hn : NoPartialOverlap box4 box4 (1 / 100000) := by
    have e1 : box4.segs = [(⟨0, 0, 0⟩, ⟨4, 0, 0⟩), (⟨4, 0, 0⟩, ⟨4, 4, 0⟩), (⟨4, 4, 0⟩, ⟨0, 4, 0⟩), (⟨0, 4, 0⟩, ⟨0, 0, 0⟩)] := rfl
    refine ⟨?_, ?_⟩
    · rw [e1]
      intro s hs t ht hne
      simp only [List.mem_cons, List.not_mem_nil, or_false] at hs ht
      rcases hs with rfl | rfl | rfl | rfl <;> rcases ht with rfl | rfl | rfl | rfl <;>
        first
        | exact absurd (Or.inl rfl) hne
        | (refine no_overlap_cross (box4_line _ _) (box4_line _ _) ?_; norm_num [dirCross, Vertex.pos]; done)
        | (refine no_overlap_apart (box4_line _ _) (box4_line _ _) ?_ ?_ <;> norm_num [dirCross, Vertex.pos]; done)
    · unfold Pline.path
      rw [e1]
      simp [SamePiece, Piece.flip, pieceOf]
  exact C71_region Env.plain Env.plain_lawful _ _ .xor none _ (by norm_num) (C37_own_index _ Env.plain_lawful _)
    (b4_square.loop (by norm_num)) b4_square box4_simple box4_simple hs hn

end Cavc
