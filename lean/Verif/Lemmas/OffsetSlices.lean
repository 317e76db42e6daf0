import Verif.Spec.Offset
import Verif.Lemmas.BoolSlices
import Verif.Props.View
import Verif.Props.FindIntr
import Verif.Props.SelfIntr

/-! # Cutting the raw offset polyline into slices -/

set_option linter.unusedSectionVars false
set_option linter.unusedVariables false

namespace Cavc
open Scalar Pline
variable {T : Type} [Scalar T]

theorem seg_of_query {idx : Index T} {p : Pline T} (hidx : idx.Serves p) {q : AABB T} :
    (∀ i ∈ idx.query q, ∃ s, p.segs[i]? = some s ∧ (segBox s).overlaps q = true) ∧
    ∀ i s, p.segs[i]? = some s → (segBox s).overlaps q = true → i ∈ idx.query q := by
  constructor
  · intro i hi
    obtain ⟨b, hb, hov⟩ := (hidx.mem_query _ _).mp hi
    rw [List.getElem?_map, Option.map_eq_some_iff] at hb
    obtain ⟨s, hs, rfl⟩ := hb
    exact ⟨s, hs, hov⟩
  · intro i s hs hov
    exact (hidx.mem_query _ _).mpr ⟨segBox s, by rw [List.getElem?_map, hs]; rfl, hov⟩

theorem pointValidLoop_spec (p : Pline T) (md : T) (pt : V2 T) (eps : T) (is : List Nat)
    (h : ∀ i ∈ is, ∃ s, p.segs[i]? = some s) :
    ∃ b, pointValidLoop p md pt eps is = .ok b ∧ (b = true ↔ ∀ i ∈ is, ∀ s, p.segs[i]? = some s →
      gt (distSquared (segClosestPoint s.1 s.2 pt eps) pt) md = true) := by
  induction is with
  | nil => exact ⟨true, rfl, by simp⟩
  | cons i is ih =>
    obtain ⟨s, hs⟩ := h i (by simp)
    obtain ⟨h1, h2, -⟩ := seg_at p hs
    obtain ⟨b, hb, hiff⟩ := ih (fun j hj => h j (by simp [hj]))
    unfold pointValidLoop
    simp only [h1, h2, bind, Except.bind]
    by_cases hg : gt (distSquared (segClosestPoint s.1 s.2 pt eps) pt) md = true
    · rw [if_pos hg]
      refine ⟨b, hb, ?_⟩
      rw [hiff]
      constructor
      · intro h j hj s' hs'
        rcases List.mem_cons.mp hj with rfl | hj
        · rw [hs] at hs'; cases hs'; exact hg
        · exact h j hj s' hs'
      · intro h j hj s' hs'
        exact h j (by simp [hj]) s' hs'
    · rw [if_neg hg]
      refine ⟨false, rfl, ?_⟩
      simp only [Bool.false_eq_true, false_iff]
      intro h
      exact hg (h i (by simp) s hs)

theorem pointValid_spec (p : Pline T) (offset : T) (idx : Index T) (hidx : idx.Serves p) (pt : V2 T) (eps tol : T) :
    ∃ b, pointValidForOffset p offset idx pt eps tol = .ok b ∧ (b = true ↔ PointClear p offset eps tol pt) := by
  obtain ⟨hq1, hq2⟩ := seg_of_query hidx (q := ⟨pt.x - (Scalar.abs offset - tol), pt.y - (Scalar.abs offset - tol),
      pt.x + (Scalar.abs offset - tol), pt.y + (Scalar.abs offset - tol)⟩)
  obtain ⟨b, hb, hiff⟩ := pointValidLoop_spec p ((Scalar.abs offset - tol) * (Scalar.abs offset - tol)) pt eps
    (idx.query ⟨pt.x - (Scalar.abs offset - tol), pt.y - (Scalar.abs offset - tol),
      pt.x + (Scalar.abs offset - tol), pt.y + (Scalar.abs offset - tol)⟩)
    (fun i hi => by obtain ⟨s, hs, -⟩ := hq1 i hi; exact ⟨s, hs⟩)
  refine ⟨b, hb, hiff.trans ?_⟩
  constructor
  · intro h s hs hov
    obtain ⟨i, hi⟩ := List.getElem?_of_mem hs
    exact h i (hq2 i s hi hov) s hi
  · intro h i hi s hs
    obtain ⟨s', hs', hov⟩ := hq1 i hi
    rw [hs] at hs'
    cases hs'
    exact h s (List.mem_of_getElem? hs) hov

theorem intersectsLoop_spec (p : Pline T) (eps : T) (v1 v2 : Vertex T) (is : List Nat)
    (h : ∀ i ∈ is, ∃ s, p.segs[i]? = some s) :
    ∃ b, intersectsOriginalLoop p eps v1 v2 is = .ok b ∧ (b = false ↔ ∀ i ∈ is, ∀ s, p.segs[i]? = some s →
      plineSegIntr v1 v2 s.1 s.2 eps = .noIntersect) := by
  induction is with
  | nil => exact ⟨false, rfl, by simp⟩
  | cons i is ih =>
    obtain ⟨s, hs⟩ := h i (by simp)
    obtain ⟨h1, h2, -⟩ := seg_at p hs
    obtain ⟨b, hb, hiff⟩ := ih (fun j hj => h j (by simp [hj]))
    unfold intersectsOriginalLoop
    simp only [h1, h2, bind, Except.bind]
    by_cases hg : plineSegIntr v1 v2 s.1 s.2 eps = .noIntersect
    · simp only [hg]
      refine ⟨b, hb, ?_⟩
      rw [hiff]
      constructor
      · intro h j hj s' hs'
        rcases List.mem_cons.mp hj with rfl | hj
        · rw [hs] at hs'; cases hs'; exact hg
        · exact h j hj s' hs'
      · intro h j hj s' hs'
        exact h j (by simp [hj]) s' hs'
    · have this : (match plineSegIntr v1 v2 s.1 s.2 eps with
          | .noIntersect => intersectsOriginalLoop p eps v1 v2 is
          | _ => .ok true) = .ok true := by
        split
        · contradiction
        · rfl
      refine ⟨true, this, ?_⟩
      simp only [Bool.true_eq_false, false_iff]
      intro h
      exact hg (h i (by simp) s hs)

theorem intersectsOriginal_spec (p : Pline T) (idx : Index T) (hidx : idx.Serves p) (eps : T) (v1 v2 : Vertex T) :
    ∃ b, intersectsOriginal p idx eps v1 v2 = .ok b ∧ (b = false ↔ SegClear p eps v1 v2) := by
  obtain ⟨hq1, hq2⟩ := seg_of_query hidx (q := (segBox (v1, v2)).grow fuzzyEps)
  obtain ⟨b, hb, hiff⟩ := intersectsLoop_spec p eps v1 v2 (idx.query ((segBox (v1, v2)).grow fuzzyEps))
    (fun i hi => by obtain ⟨s, hs, -⟩ := hq1 i hi; exact ⟨s, hs⟩)
  refine ⟨b, hb, hiff.trans ?_⟩
  constructor
  · intro h s hs hov
    obtain ⟨i, hi⟩ := List.getElem?_of_mem hs
    exact h i (hq2 i s hi hov) s hi
  · intro h i hi s hs
    obtain ⟨s', hs', hov⟩ := hq1 i hi
    rw [hs] at hs'
    cases hs'
    exact h s (List.mem_of_getElem? hs) hov

/-- the tests used by a slice check, as propositions -/
structure TestsAs (valid : V2 T → M Bool) (intersects : Vertex T → Vertex T → M Bool) (PV : V2 T → Prop)
    (PI : Vertex T → Vertex T → Prop) : Prop where
  point : ∀ pt, ∃ b, valid pt = .ok b ∧ (b = true ↔ PV pt)
  seg : ∀ v1 v2, ∃ b, intersects v1 v2 = .ok b ∧ (b = false ↔ PI v1 v2)

theorem sliceSegsValid_spec {valid : V2 T → M Bool} {intersects : Vertex T → Vertex T → M Bool} {PV : V2 T → Prop}
    {PI : Vertex T → Vertex T → Prop} (ht : TestsAs valid intersects PV PI) (l : List (Vertex T × Vertex T)) :
    ∃ b, sliceSegsValid valid intersects l = .ok b ∧ (b = true ↔ ∀ s ∈ l, PV s.1.pos ∧ PI s.1 s.2) := by
  induction l with
  | nil => exact ⟨true, rfl, by simp⟩
  | cons s l ih =>
    obtain ⟨v1, v2⟩ := s
    obtain ⟨b1, h1, i1⟩ := ht.point v1.pos
    obtain ⟨b2, h2, i2⟩ := ht.seg v1 v2
    obtain ⟨b, hb, hiff⟩ := ih
    unfold sliceSegsValid
    simp only [h1, h2, bind, Except.bind, hb]
    cases b1 with
    | false =>
      refine ⟨false, by simp, ?_⟩
      have : ¬ PV v1.pos := fun h => by simpa using i1.mpr h
      simp [this]
    | true =>
      have hv : PV v1.pos := i1.mp rfl
      cases b2 with
      | true =>
        refine ⟨false, by simp, ?_⟩
        have : ¬ PI v1 v2 := fun h => by simpa using i2.mpr h
        simp [this]
      | false =>
        refine ⟨b, by simp, ?_⟩
        rw [hiff]
        simp [hv, i2.mp rfl]

theorem segMidpoint_pos (v1 v2 v2' : Vertex T) (h : v2.pos = v2'.pos) : segMidpoint v1 v2 = segMidpoint v1 v2' := by
  obtain ⟨x, y, b⟩ := v2
  obtain ⟨x', y', b'⟩ := v2'
  simp only [Vertex.pos, V2.mk.injEq] at h
  obtain ⟨rfl, rfl⟩ := h
  rfl

theorem open_segs (q : Pline T) (hc : q.closed = false) {i : Nat} {s : Vertex T × Vertex T} :
    q.segs[i]? = some s ↔ q.verts[i]? = some s.1 ∧ q.verts[i + 1]? = some s.2 := by
  have hcount : q.segmentCount = q.verts.length - 1 := by
    unfold segmentCount vertexCount
    simp only [hc, Bool.false_eq_true, if_false]
    split_ifs <;> omega
  constructor
  · intro h
    have hi : i < q.segmentCount := by
      rw [← segs_length]; exact (List.getElem?_eq_some_iff.mp h).1
    obtain ⟨a, b, ha, hb, hp⟩ := segs_getElem? q i hi
    rw [Nat.mod_eq_of_lt (by omega)] at hb
    rw [h] at hp
    cases hp
    exact ⟨ha, hb⟩
  · rintro ⟨h1, h2⟩
    have hlt := (List.getElem?_eq_some_iff.mp h2).1
    obtain ⟨a, b, ha, hb, hp⟩ := segs_getElem? q i (by omega)
    rw [Nat.mod_eq_of_lt (by omega)] at hb
    rw [h1] at ha; rw [h2] at hb
    cases ha; cases hb
    exact hp

/-- what the check of a slice means -/
def SliceOK (PV : V2 T → Prop) (PI : Vertex T → Vertex T → Prop) (raw : Pline T) (s : ViewData T) : Prop :=
  ∃ vs, s.Reads raw vs ∧ (∀ v ∈ vs, PV v.pos) ∧
    ∀ i a b, vs[i]? = some a → vs[i + 1]? = some b → PI a b ∧ (i = 0 ∨ i + 2 = vs.length → PV (segMidpoint a b))

theorem sliceIsValid_spec {valid : V2 T → M Bool} {intersects : Vertex T → Vertex T → M Bool} {PV : V2 T → Prop}
    {PI : Vertex T → Vertex T → Prop} (ht : TestsAs valid intersects PV PI) (raw : Pline T) (s : ViewData T)
    (hr : s.InRange raw) (hinv : s.inverted = false) :
    ∃ b, sliceIsValid raw valid intersects s = .ok b ∧ (b = true ↔ SliceOK PV PI raw s) := by
  obtain ⟨q, hq, hqc, hsl⟩ := s.forward_slice raw hr hinv
  obtain ⟨vs, c⟩ := q
  simp only at hqc hsl
  subst hqc
  have hlen := hsl.count
  have hreads : s.Reads raw vs := ⟨hq, by rintro rfl; simp at hlen⟩
  have hOK : SliceOK PV PI raw s ↔ (∀ v ∈ vs, PV v.pos) ∧
    ∀ i a b, vs[i]? = some a → vs[i + 1]? = some b → PI a b ∧ (i = 0 ∨ i + 2 = vs.length → PV (segMidpoint a b)) := by
    constructor
    · rintro ⟨vs', hr', h⟩
      have := hr'.1
      rw [hq] at this
      simp only [Except.ok.injEq, Pline.mk.injEq, and_true] at this
      subst this
      exact h
    · intro h
      exact ⟨vs, hreads, h⟩
  rw [hOK]
  unfold sliceIsValid
  by_cases h0 : s.endIndexOffset = 0
  · rw [if_pos h0]
    have hf := hsl.first
    have hl := hsl.last
    rw [h0] at hlen hl
    have hvs : vs = [s.updatedStart, ⟨s.endPoint.x, s.endPoint.y, 0⟩] := by
      match vs, hlen with
      | [a, b], _ => simp_all
    subst hvs
    obtain ⟨b1, h1, i1⟩ := ht.point s.updatedStart.pos
    obtain ⟨b2, h2, i2⟩ := ht.point (Vertex.ofV2 s.endPoint 0).pos
    obtain ⟨b3, h3, i3⟩ := ht.point (segMidpoint s.updatedStart (Vertex.ofV2 s.endPoint 0))
    obtain ⟨b4, h4, i4⟩ := ht.seg s.updatedStart (Vertex.ofV2 s.endPoint 0)
    simp only [h1, h2, h3, h4, bind, Except.bind]
    have key : ((∀ v ∈ [s.updatedStart, ⟨s.endPoint.x, s.endPoint.y, 0⟩], PV v.pos) ∧
        ∀ i a b, [s.updatedStart, ⟨s.endPoint.x, s.endPoint.y, 0⟩][i]? = some a →
          [s.updatedStart, (⟨s.endPoint.x, s.endPoint.y, 0⟩ : Vertex T)][i + 1]? = some b →
          PI a b ∧ (i = 0 ∨ i + 2 = [s.updatedStart, (⟨s.endPoint.x, s.endPoint.y, 0⟩ : Vertex T)].length → PV (segMidpoint a b))) ↔
        b1 = true ∧ b2 = true ∧ b3 = true ∧ b4 = false := by
      rw [i1, i2, i3, i4]
      constructor
      · rintro ⟨ha, hb⟩
        obtain ⟨hb1, hb2⟩ := hb 0 _ _ rfl rfl
        exact ⟨ha _ (by simp), ha (Vertex.ofV2 s.endPoint 0) (by simp [Vertex.ofV2]), hb2 (Or.inl rfl), hb1⟩
      · rintro ⟨ha, hb, hc, hd⟩
        constructor
        · intro v hv
          simp only [List.mem_cons, List.not_mem_nil, or_false] at hv
          rcases hv with rfl | rfl
          · exact ha
          · exact hb
        · intro i a b hia hib
          match i with
          | 0 =>
            simp only [List.getElem?_cons_zero, List.getElem?_cons_succ, Option.some.injEq, Nat.zero_add] at hia hib
            subst hia hib
            exact ⟨hd, fun _ => hc⟩
          | i + 1 => simp at hib
    rw [key]
    cases b1 <;> cases b2 <;> cases b3 <;> cases b4 <;> simp
  · rw [if_neg h0]
    have hn0 : 0 < raw.verts.length := by have := hr.start; omega
    have hnw := nextWrap_lt raw hr.start
    have hfi := fwdIndex_lt raw hr.start hr.offset
    obtain ⟨b3, h3, i3⟩ := sliceSegsValid_spec ht (⟨vs, false⟩ : Pline T).segs
    obtain ⟨b1, h1, i1⟩ := ht.point (segMidpoint s.updatedStart raw.verts[raw.nextWrap s.startIndex])
    obtain ⟨b2, h2, i2⟩ := ht.point (segMidpoint ((raw.verts[raw.fwdIndex s.startIndex s.endIndexOffset]).withBulge s.updatedEndBulge) (Vertex.ofV2 s.endPoint 0))
    obtain ⟨b4, h4, i4⟩ := ht.point s.endPoint
    simp only [at_lt hnw, at_lt hfi, h1, h2, hq, h3, h4, bind, Except.bind]
    have hlast : vs[s.endIndexOffset + 1]? = some (Vertex.ofV2 s.endPoint 0) := hsl.last
    have hfinal : vs[s.endIndexOffset]? = some ((raw.verts[raw.fwdIndex s.startIndex s.endIndexOffset]).withBulge s.updatedEndBulge) := by
      rw [hsl.final (by omega), ViewData.cycAt_some raw hn0]
      simp only [fwdIndex_eq raw hr.start hr.offset, Option.map_some, Vertex.withBulge]
    have hsecond : ∃ w, vs[1]? = some w ∧ w.pos = (raw.verts[raw.nextWrap s.startIndex]).pos := by
      by_cases h1 : s.endIndexOffset = 1
      · refine ⟨_, h1 ▸ hsl.final (by omega) |>.trans (by rw [ViewData.cycAt_some raw hn0]; rfl), ?_⟩
        simp only [nextWrap_eq raw hr.start]
        rfl
      · refine ⟨raw.verts[raw.nextWrap s.startIndex], ?_, rfl⟩
        rw [hsl.interior 1 le_rfl (by omega), ViewData.cycAt_some raw hn0]
        simp only [nextWrap_eq raw hr.start]
    obtain ⟨w, hw, hwp⟩ := hsecond
    rw [segMidpoint_pos _ _ w hwp.symm] at i1
    have key : ((∀ v ∈ vs, PV v.pos) ∧ ∀ i a b, vs[i]? = some a → vs[i + 1]? = some b →
        PI a b ∧ (i = 0 ∨ i + 2 = vs.length → PV (segMidpoint a b))) ↔ b1 = true ∧ b2 = true ∧ b3 = true ∧ b4 = true := by
      rw [i1, i2, i3, i4]
      constructor
      · rintro ⟨ha, hb⟩
        refine ⟨(hb 0 _ _ hsl.first hw).2 (Or.inl rfl), (hb _ _ _ hfinal hlast).2 (Or.inr hlen.symm), ?_, ha _ (List.mem_of_getElem? hlast)⟩
        intro sg hsg
        obtain ⟨i, hi⟩ := List.getElem?_of_mem hsg
        obtain ⟨e1, e2⟩ := (open_segs _ rfl).mp hi
        exact ⟨ha _ (List.mem_of_getElem? e1), (hb i _ _ e1 e2).1⟩
      · rintro ⟨ha, hb, hc, hd⟩
        have hseg : ∀ i a b, vs[i]? = some a → vs[i + 1]? = some b → PV a.pos ∧ PI a b := by
          intro i a b hia hib
          exact hc (a, b) (List.mem_of_getElem? ((open_segs (⟨vs, false⟩ : Pline T) rfl (s := (a, b))).mpr ⟨hia, hib⟩))
        constructor
        · intro v hv
          obtain ⟨i, hi⟩ := List.getElem?_of_mem hv
          have hil := (List.getElem?_eq_some_iff.mp hi).1
          by_cases hlt : i + 1 < vs.length
          · exact (hseg i v vs[i + 1] hi (List.getElem?_eq_getElem hlt)).1
          · have : i = s.endIndexOffset + 1 := by omega
            rw [this, hlast] at hi
            cases hi
            exact hd
        · intro i a b hia hib
          refine ⟨(hseg i a b hia hib).2, ?_⟩
          rintro (hi | hi)
          · subst hi
            rw [hsl.first] at hia
            rw [hw] at hib
            cases hia; cases hib
            exact ha
          · have : i = s.endIndexOffset := by omega
            subst this
            rw [hfinal] at hia
            rw [hlast] at hib
            cases hia; cases hib
            exact hb
    rw [key]
    cases b1 <;> cases b2 <;> cases b3 <;> cases b4 <;> simp

end Cavc
