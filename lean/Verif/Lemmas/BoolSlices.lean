import Verif.Spec.Stitch
import Verif.Spec.Overlap
import Verif.Props.View

/-! Lemmas about cutting a polyline at its intersects. -/

set_option linter.unusedSectionVars false
set_option linter.unusedVariables false

namespace Cavc
open Scalar Pline
variable {T : Type} [Scalar T]

theorem mapGet_mem {α : Type} {k : Nat} {m : List (Nat × List α)} {v : List α} (h : mapGet k m = some v) : (k, v) ∈ m := by
  induction m with
  | nil => simp [mapGet] at h
  | cons e m ih =>
    obtain ⟨k', vs⟩ := e
    unfold mapGet at h
    split at h
    · rename_i hk
      subst hk
      cases h
      simp
    · exact List.mem_cons_of_mem _ (ih h)

theorem mapGet_of_mem {α : Type} {k : Nat} {m : List (Nat × List α)} {v : List α} (h : (k, v) ∈ m) : ∃ w, mapGet k m = some w := by
  induction m with
  | nil => simp at h
  | cons e m ih =>
    obtain ⟨k', vs⟩ := e
    unfold mapGet
    split
    · exact ⟨_, rfl⟩
    · rename_i hk
      rcases List.mem_cons.mp h with h | h
      · cases h; exact absurd rfl hk
      · exact ih h

/-- the pairs stored in a map -/
def mapPairs {α : Type} (m : List (Nat × List α)) : List (Nat × α) := m.flatMap fun e => e.2.map fun v => (e.1, v)

theorem mem_mapPairs {α : Type} {m : List (Nat × List α)} {x : Nat × α} :
    x ∈ mapPairs m ↔ ∃ e ∈ m, e.1 = x.1 ∧ x.2 ∈ e.2 := by
  unfold mapPairs
  simp only [List.mem_flatMap, List.mem_map]
  constructor
  · rintro ⟨e, he, v, hv, rfl⟩
    exact ⟨e, he, rfl, hv⟩
  · rintro ⟨e, he, h1, h2⟩
    exact ⟨e, he, x.2, h2, by rw [h1]⟩

theorem mapPush_pairs {α : Type} (k : Nat) (v : α) (m : List (Nat × List α)) :
    (∀ x, x ∈ mapPairs (mapPush k v m) ↔ x = (k, v) ∨ x ∈ mapPairs m) ∧
    ((∀ e ∈ m, e.2 ≠ []) → ∀ e ∈ mapPush k v m, e.2 ≠ []) := by
  induction m with
  | nil => simp [mapPush, mapPairs]
  | cons e m ih =>
    obtain ⟨k', vs⟩ := e
    unfold mapPush
    split
    · constructor
      · intro x; simp [mapPairs]
      · intro h e he
        rcases List.mem_cons.mp he with rfl | he
        · simp
        · exact h e he
    · split
      · rename_i hk
        subst hk
        constructor
        · intro x
          simp only [mapPairs, List.flatMap_cons, List.map_append, List.mem_append, List.mem_map, List.map_cons, List.map_nil,
            List.mem_singleton]
          rw [or_assoc, or_left_comm]
        · intro h e he
          rcases List.mem_cons.mp he with rfl | he
          · simp
          · exact h e (by simp [he])
      · constructor
        · intro x
          have := ih.1 x
          simp only [mapPairs, List.flatMap_cons, List.mem_append] at this ⊢
          rw [this]; tauto
        · intro h e he
          rcases List.mem_cons.mp he with rfl | he
          · exact h _ (by simp)
          · exact ih.2 (fun e he => h e (by simp [he])) e he

theorem foldl_mapPush {α : Type} (es : List (Nat × α)) (m : List (Nat × List α)) :
    (∀ x, x ∈ mapPairs (es.foldl (fun m e => mapPush e.1 e.2 m) m) ↔ x ∈ es ∨ x ∈ mapPairs m) ∧
    ((∀ e ∈ m, e.2 ≠ []) → ∀ e ∈ es.foldl (fun m e => mapPush e.1 e.2 m) m, e.2 ≠ []) := by
  induction es generalizing m with
  | nil => simp
  | cons e es ih =>
    rw [List.foldl_cons]
    obtain ⟨h1, h2⟩ := ih (mapPush e.1 e.2 m)
    obtain ⟨h3, h4⟩ := mapPush_pairs e.1 e.2 m
    refine ⟨fun x => ?_, fun h => h2 (h4 h)⟩
    rw [h1, h3]
    simp only [List.mem_cons]
    tauto

/-- mapM of functions that succeed, with a relation -/
theorem mapM_rel {α β : Type} {f : α → M β} {R : α → β → Prop} : ∀ {l : List α}, (∀ a ∈ l, ∃ b, f a = .ok b ∧ R a b) →
    ∃ bs, l.mapM f = .ok bs ∧ List.Forall₂ R l bs
  | [], _ => ⟨[], rfl, List.Forall₂.nil⟩
  | a :: l, h => by
    obtain ⟨b, hb, hr⟩ := h a (by simp)
    obtain ⟨bs, hbs, hrs⟩ := mapM_rel (l := l) (fun x hx => h x (by simp [hx]))
    refine ⟨b :: bs, ?_, List.Forall₂.cons hr hrs⟩
    rw [List.mapM_cons, hb, hbs]; rfl

theorem forall2_mem_right {α β : Type} {R : α → β → Prop} {l : List α} {l' : List β} (h : List.Forall₂ R l l') {b : β} (hb : b ∈ l') :
    ∃ a ∈ l, R a b := by
  induction h with
  | nil => simp at hb
  | cons h _ ih =>
    rcases List.mem_cons.mp hb with rfl | hb
    · exact ⟨_, by simp, h⟩
    · obtain ⟨a, ha, hr⟩ := ih hb
      exact ⟨a, by simp [ha], hr⟩

theorem forall2_mem_left {α β : Type} {R : α → β → Prop} {l : List α} {l' : List β} (h : List.Forall₂ R l l') {a : α} (ha : a ∈ l) :
    ∃ b ∈ l', R a b := by
  induction h with
  | nil => simp at ha
  | cons h _ ih =>
    rcases List.mem_cons.mp ha with rfl | ha
    · exact ⟨_, by simp, h⟩
    · obtain ⟨b, hb, hr⟩ := ih ha
      exact ⟨b, by simp [hb], hr⟩

/-- indexes of the data of a boolean operation are within the polyline -/
structure ProcInRange (n : Nat) (b : BoolProc T) (useSecond : Bool) : Prop where
  basics : ∀ i ∈ b.intersects, (if useSecond then i.startIndex2 else i.startIndex1) < n
  starts : ∀ s ∈ b.overlappingSlices, (if useSecond then s.startIndexes.2 else s.startIndexes.1) < n
  ends : ∀ s ∈ b.overlappingSlices, (if useSecond then s.endIndexes.2 else s.endIndexes.1) < n

theorem adjustIndex_ok (p : Pline T) (eps : T) {i : Nat} (hi : i < p.verts.length) (pt : V2 T) :
    ∃ j, adjustIndex p eps i pt = .ok j ∧ j < p.verts.length := by
  unfold adjustIndex
  simp only [bind, Except.bind, at_lt (nextWrap_lt p hi)]
  refine ⟨_, rfl, ?_⟩
  split
  · exact nextWrap_lt p hi
  · exact hi

theorem sliceEntries_ok (p : Pline T) (b : BoolProc T) (useSecond : Bool) (eps : T) (hb : ProcInRange p.verts.length b useSecond) :
    ∃ es, sliceEntries p b useSecond eps = .ok es ∧ ∀ e ∈ es, e.1 < p.verts.length ∧ e.2.pos ∈ b.cutPoints ∧
      (e.2.isStartOfOverlap = false → e.2.pos ∈ b.leavePoints useSecond) := by
  unfold sliceEntries
  obtain ⟨ovs, hovs, hrel⟩ := mapM_rel (f := overlapEntries p eps useSecond) (l := b.overlappingSlices)
    (R := fun s es => ∀ e ∈ es, e.1 < p.verts.length ∧ (e.2.pos = s.viewData.updatedStart.pos ∨ e.2.pos = s.viewData.endPoint) ∧
      (e.2.isStartOfOverlap = false → e.2.pos =
        if useSecond = false ∧ s.opposingDirections = true then s.viewData.updatedStart.pos else s.viewData.endPoint)) (by
      intro s hs
      unfold overlapEntries
      obtain ⟨j1, h1, h2⟩ := adjustIndex_ok p eps (hb.starts s hs) s.viewData.updatedStart.pos
      obtain ⟨j2, h3, h4⟩ := adjustIndex_ok p eps (hb.ends s hs) s.viewData.endPoint
      simp only [bind, Except.bind, h1, h3]
      refine ⟨_, rfl, ?_⟩
      intro e he
      simp only [List.mem_cons, List.not_mem_nil, or_false] at he
      rcases he with rfl | rfl
      · refine ⟨h2, Or.inl rfl, fun h => ?_⟩
        rw [if_pos (by simpa using h)]
      · refine ⟨h4, Or.inr rfl, fun h => ?_⟩
        rw [if_neg (by simp at h; intro hc; rw [hc.1, hc.2] at h; simp at h)])
  simp only [bind, Except.bind, hovs]
  refine ⟨_, rfl, ?_⟩
  intro e he
  unfold BoolProc.cutPoints
  rw [List.mem_append] at he
  rcases he with he | he
  · rw [List.mem_map] at he
    obtain ⟨i, hi, rfl⟩ := he
    refine ⟨hb.basics i hi, ?_, fun _ => ?_⟩
    · exact List.mem_append_left _ (List.mem_map.mpr ⟨i, hi, rfl⟩)
    · exact List.mem_append_left _ (List.mem_map.mpr ⟨i, hi, rfl⟩)
  · rw [List.mem_flatten] at he
    obtain ⟨l, hl, he⟩ := he
    obtain ⟨s, hs, hr⟩ := forall2_mem_right hrel hl
    refine ⟨(hr e he).1, List.mem_append_right _ ?_, fun h => List.mem_append_right _ ?_⟩
    · rw [List.mem_flatMap]
      exact ⟨s, hs, by have := (hr e he).2.1; simpa using this⟩
    · rw [List.mem_map]
      exact ⟨s, hs, ((hr e he).2.2 h).symm⟩

/-- The points at which the polyline is cut, by segment. -/
structure LookupOf (p : Pline T) (es : List (Nat × SlicePoint T)) (lookup : List (Nat × List (SlicePoint T))) : Prop where
  pairs : ∀ x, x ∈ mapPairs lookup ↔ x ∈ es
  nonempty : ∀ e ∈ lookup, e.2 ≠ []

theorem sliceLookup_ok (env : Env T) (henv : env.Lawful) (p : Pline T) (b : BoolProc T) (useSecond : Bool) (eps : T)
    (hb : ProcInRange p.verts.length b useSecond) :
    ∃ es lookup, sliceLookup env p b useSecond eps = .ok lookup ∧ LookupOf p es lookup ∧
      sliceEntries p b useSecond eps = .ok es ∧
      ∀ e ∈ es, e.1 < p.verts.length ∧ e.2.pos ∈ b.cutPoints ∧
        (e.2.isStartOfOverlap = false → e.2.pos ∈ b.leavePoints useSecond) := by
  obtain ⟨es, hes, hall⟩ := sliceEntries_ok p b useSecond eps hb
  unfold sliceLookup
  simp only [bind, Except.bind, hes]
  obtain ⟨h1, h2⟩ := foldl_mapPush es ([] : List (Nat × List (SlicePoint T)))
  have h2 := h2 (by simp)
  have h1 : ∀ x, x ∈ mapPairs (es.foldl (fun m e => mapPush e.1 e.2 m) []) ↔ x ∈ es := by
    intro x; rw [h1]; simp [mapPairs]
  generalize es.foldl (fun m e => mapPush e.1 e.2 m) [] = m at h1 h2
  obtain ⟨lookup, hl, hrel⟩ := mapM_rel (f := sortSlicePoints env p) (l := m) (R := fun e e' => e'.1 = e.1 ∧ e'.2.Perm e.2) (by
    intro e he
    have hlt : e.1 < p.verts.length := by
      obtain ⟨v, hv⟩ := List.exists_mem_of_ne_nil _ (h2 e he)
      exact (hall (e.1, v) ((h1 _).mp (mem_mapPairs.mpr ⟨e, he, rfl, hv⟩))).1
    unfold sortSlicePoints
    simp only [bind, Except.bind, at_lt hlt]
    exact ⟨_, rfl, rfl, henv.sort_perm _ _⟩)
  refine ⟨es, lookup, hl, ⟨?_, ?_⟩, rfl, hall⟩
  · intro x
    rw [← h1 x, mem_mapPairs, mem_mapPairs]
    constructor
    · rintro ⟨e, he, h3, h4⟩
      obtain ⟨e', he', h5, h6⟩ := forall2_mem_right hrel he
      exact ⟨e', he', by rw [← h5, h3], h6.mem_iff.mp h4⟩
    · rintro ⟨e, he, h3, h4⟩
      obtain ⟨e', he', h5, h6⟩ := forall2_mem_left hrel he
      exact ⟨e', he', by rw [h5, h3], h6.mem_iff.mpr h4⟩
  · intro e he
    obtain ⟨e', he', h5, h6⟩ := forall2_mem_right hrel he
    intro h0
    rw [h0] at h6
    exact h2 e' he' h6.symm.eq_nil

theorem updatedStart_split (v1 v2 : Vertex T) (pt : V2 T) (eps : T) :
    (segSplitAtPoint v1 v2 pt eps).updatedStart.pos = v1.pos ∨
      (segSplitAtPoint v1 v2 pt eps).updatedStart.pos = (segSplitAtPoint v1 v2 pt eps).splitVertex.pos := by
  unfold segSplitAtPoint
  split
  · exact Or.inl rfl
  · split
    · exact Or.inr rfl
    · split
      · exact Or.inl rfl
      · exact Or.inl rfl

/-- The slices between consecutive cut points on one segment. -/
theorem sameSeg_piece (p : Pline T) (useSecond : Bool) (pred : V2 T → Bool) (eps : T) (pts starts : List (Nat × V2 T)) (i : Nat)
    (hi : i < p.verts.length) (w : Vertex T) (hw : cycAt p (i + 1) = some w) :
    ∀ (rest : List (SlicePoint T)) (pv : Vertex T) (prev : SlicePoint T), CutAt p eps pts i pv.pos →
      (prev.isStartOfOverlap = false → CutAt p eps starts i pv.pos) →
      (∀ c ∈ rest, (i, c.pos) ∈ pts ∧ (c.isStartOfOverlap = false → (i, c.pos) ∈ starts)) →
      ∀ s ∈ sameSegSlices useSecond pred eps i w pv prev rest,
        IsPiece p eps pts pred s ∧ s.sourceIsPline1 = !useSecond ∧ s.overlapping = false ∧ StartsAt p eps starts s
  | [], _, _, _, _, _ => by simp [sameSegSlices]
  | cur :: rest, pv, prev, hpv, hps, hrest => by
    have hcur : CutAt p eps pts i cur.pos := ⟨(i, cur.pos), (hrest cur (by simp)).1, rfl, Or.inl rfl⟩
    have hsplit : CutAt p eps pts i (segSplitAtPoint pv w cur.pos eps).splitVertex.pos := by
      rcases splitVertex_pos pv w cur.pos eps with h | ⟨h1, h2⟩
      · rw [h]; exact hcur
      · exact ⟨(i, cur.pos), (hrest cur (by simp)).1, rfl, Or.inr ⟨w, hw, h1, h2⟩⟩
    have hsplits : cur.isStartOfOverlap = false → CutAt p eps starts i (segSplitAtPoint pv w cur.pos eps).splitVertex.pos := by
      intro hf
      rcases splitVertex_pos pv w cur.pos eps with h | ⟨h1, h2⟩
      · rw [h]; exact ⟨(i, cur.pos), (hrest cur (by simp)).2 hf, rfl, Or.inl rfl⟩
      · exact ⟨(i, cur.pos), (hrest cur (by simp)).2 hf, rfl, Or.inr ⟨w, hw, h1, h2⟩⟩
    have hstart : CutAt p eps pts i (segSplitAtPoint pv w cur.pos eps).updatedStart.pos := by
      rcases updatedStart_pos pv w cur.pos eps with h | h <;> rw [h]
      · exact hpv
      · exact hcur
    have ih := sameSeg_piece p useSecond pred eps pts starts i hi w hw rest (segSplitAtPoint pv w cur.pos eps).splitVertex cur hsplit hsplits
      (fun c hc => hrest c (by simp [hc]))
    intro s hs
    unfold sameSegSlices at hs
    dsimp only at hs
    split at hs
    · exact ih s hs
    · rename_i hprev
      split at hs
      · exact ih s hs
      · rename_i hself
        split at hs
        · exact ih s hs
        · rename_i htest
          cases hcr : ViewData.createOnSingleSegment i (segSplitAtPoint pv w cur.pos eps).updatedStart
              (segSplitAtPoint pv w cur.pos eps).splitVertex.pos eps with
          | none => rw [hcr] at hs; exact ih s hs
          | some d =>
            rw [hcr] at hs
            rcases List.mem_cons.mp hs with rfl | hs
            · unfold ViewData.createOnSingleSegment at hcr
              split at hcr
              · cases hcr
              · cases hcr
                have htest' : pred (segMidpoint (segSplitAtPoint pv w cur.pos eps).updatedStart
                    (segSplitAtPoint pv w cur.pos eps).splitVertex) = true := by simpa using htest
                refine ⟨⟨⟨hi, Nat.zero_le _⟩, rfl, hstart, ⟨0, Nat.zero_le _, ?_, ?_, Or.inl rfl⟩,
                  ⟨(segSplitAtPoint pv w cur.pos eps).splitVertex, htest', Or.inl rfl⟩⟩, rfl, rfl, ?_⟩
                · show CutAt p eps pts ((i + 0) % _) _
                  rw [Nat.add_zero, Nat.mod_eq_of_lt hi]
                  exact hsplit
                · intro t h1 h2; omega
                · intro hn
                  show CutAt p eps starts i (segSplitAtPoint pv w cur.pos eps).updatedStart.pos
                  rcases updatedStart_split pv w cur.pos eps with h | h
                  · rw [h]; exact hps (by simpa using hprev)
                  · rw [← h] at hself; exact absurd hn hself
            · exact ih s hs

/-- The search for the next cut point. -/
theorem nextSlice_piece (p : Pline T) (lookup : List (Nat × List (SlicePoint T))) (es : List (Nat × SlicePoint T))
    (hlk : LookupOf p es lookup) (hlt : ∀ e ∈ es, e.1 < p.verts.length) (useSecond : Bool) (pred : V2 T → Bool) (eps : T) (i : Nat)
    (hi : i < p.verts.length) (hmem : ∃ v, (i, v) ∈ lookup) (sv : Vertex T) (hsv : CutAt p eps (es.map fun e => (e.1, e.2.pos)) i sv.pos)
    (starts : List (Nat × V2 T)) (hss : CutAt p eps starts i sv.pos) :
    ∀ (fuel lc index : Nat), lc + fuel = p.verts.length + 1 → index = (i + (lc + 1)) % p.verts.length → lc < p.verts.length →
      (∀ t, 1 ≤ t → t ≤ lc → ∀ e ∈ es, e.1 ≠ (i + t) % p.verts.length) →
      ∃ ss, nextSliceLoop p lookup useSecond pred eps i sv fuel lc index = .ok ss ∧
        ∀ s ∈ ss, IsPiece p eps (es.map fun e => (e.1, e.2.pos)) pred s ∧ s.sourceIsPline1 = !useSecond ∧ s.overlapping = false ∧
          StartsAt p eps starts s := by
  intro fuel
  induction fuel with
  | zero => intro lc index h1 h2 h3; omega
  | succ fuel ih =>
    intro lc index hf hindex hlc hbetween
    have hidx : index < p.verts.length := by rw [hindex]; exact Nat.mod_lt _ (by omega)
    cases hg : mapGet index lookup with
    | some nextList =>
      have hm := mapGet_mem hg
      have hne := hlk.nonempty _ hm
      simp only [nextSliceLoop, hg]
      match nextList, hne with
      | x :: xs, _ =>
        simp only [bind, Except.bind]
        obtain ⟨d, hd, hr, hinv, hst, hus, hep, -, hse⟩ := create_spec p i index hi hidx sv x.pos eps (lc + 1) (by omega) (by omega)
          hindex.symm
        have hds : d.startIndex < p.verts.length := by rw [hst]; exact hi
        simp only [hd, BoolSlice.fromOpen, at_lt (nextWrap_lt p hds)]
        refine ⟨_, rfl, ?_⟩
        intro s hs
        by_cases htest : pred (segMidpoint d.updatedStart (p.verts[p.nextWrap d.startIndex]'(nextWrap_lt p hds))) = true
        · simp only [htest, if_true] at hs
          rw [List.mem_singleton] at hs
          subst hs
          have hx : (index, x) ∈ es := (hlk.pairs _).mp (mem_mapPairs.mpr ⟨_, hm, rfl, by simp⟩)
          refine ⟨⟨⟨hr.start, hr.offset⟩, rfl, ?_, ⟨lc + 1, by omega, ?_, ?_, ?_⟩, ⟨_, htest, Or.inr ?_⟩⟩, rfl, rfl, ?_⟩
          · show CutAt p eps _ d.startIndex d.updatedStart.pos
            rw [hst, hus]; exact hsv
          · show CutAt p eps _ ((d.startIndex + (lc + 1)) % _) d.endPoint
            rw [hst, hep, ← hindex]
            exact ⟨(index, x.pos), List.mem_map.mpr ⟨_, hx, rfl⟩, rfl, Or.inl rfl⟩
          · intro t h1 h2 a ha
            rw [List.mem_map] at ha
            obtain ⟨e, he, rfl⟩ := ha
            show e.1 ≠ (d.startIndex + t) % _
            rw [hst]
            exact hbetween t h1 (by omega) e he
          · show d.endIndexOffset = lc + 1 ∨ d.endIndexOffset + 1 = lc + 1 ∧
              ∃ v, cycAt p (d.startIndex + (lc + 1)) = some v ∧ d.endPoint.fuzzyEqEps v.pos eps = true
            rw [hst, hep]
            have hcv : cycAt p (i + (lc + 1)) = some p.verts[index] := by
              rw [ViewData.cycAt_some p (by omega)]
              simp only [← hindex]
            clear hse
            unfold ViewData.create at hd
            rw [if_neg (by omega)] at hd
            simp only [bind, Except.bind, at_lt hidx, at_lt (nextWrap_lt p hidx), at_lt (prevWrap_lt p hidx)] at hd
            split at hd
            · rename_i hfe
              right
              have : d.endIndexOffset = lc + 1 - 1 := by
                split at hd <;> (cases hd; rfl)
              exact ⟨by omega, _, hcv, hfe⟩
            · cases hd
              exact Or.inl rfl
          · show cycAt p (d.startIndex + 1) = some _
            rw [ViewData.cycAt_some p (by omega)]
            simp only [nextWrap_eq p hds]
          · intro _
            show CutAt p eps starts d.startIndex d.updatedStart.pos
            rw [hst, hus]; exact hss
        · simp only [htest, if_false] at hs
          simp at hs
    | none =>
      simp only [nextSliceLoop, hg]
      have hno : ∀ e ∈ es, e.1 ≠ index := by
        rintro e he rfl
        obtain ⟨e', he', h1, -⟩ := mem_mapPairs.mp ((hlk.pairs e).mpr he)
        have h2 : (e.1, e'.2) ∈ lookup := by rw [← h1]; exact he'
        obtain ⟨w, hw⟩ := mapGet_of_mem h2
        rw [hg] at hw
        cases hw
      have hlc' : lc + 1 < p.verts.length := by
        by_contra hcon
        have : lc + 1 = p.verts.length := by omega
        rw [this, Nat.add_mod_right, Nat.mod_eq_of_lt hi] at hindex
        obtain ⟨v, hv⟩ := hmem
        obtain ⟨w, hw⟩ := mapGet_of_mem hv
        rw [hindex, hw] at hg
        cases hg
      apply ih (lc + 1) (p.nextWrap index) (by omega) _ hlc'
      · intro t h1 h2 e he
        rcases Nat.lt_or_eq_of_le h2 with h | h
        · exact hbetween t h1 (by omega) e he
        · rw [h, ← hindex]; exact hno e he
      · rw [nextWrap_eq p hidx, hindex, Nat.mod_add_mod]; rfl

/-- Cutting a polyline at the intersects never panics; every slice is a piece between consecutive
cut points that passes the test. -/
theorem sliceAtIntersects_ok (env : Env T) (henv : env.Lawful) (p : Pline T) (b : BoolProc T) (useSecond : Bool) (pred : V2 T → Bool)
    (eps : T) (hb : ProcInRange p.verts.length b useSecond) :
    ∃ ss es, sliceAtIntersects env p b useSecond pred eps = .ok ss ∧ sliceEntries p b useSecond eps = .ok es ∧
      (∀ e ∈ es, e.1 < p.verts.length ∧ e.2.pos ∈ b.cutPoints ∧ (e.2.isStartOfOverlap = false → e.2.pos ∈ b.leavePoints useSecond)) ∧
      ∀ s ∈ ss, IsPiece p eps (es.map fun e => (e.1, e.2.pos)) pred s ∧ s.sourceIsPline1 = !useSecond ∧ s.overlapping = false ∧
        StartsAt p eps ((es.filter fun e => !e.2.isStartOfOverlap).map fun e => (e.1, e.2.pos)) s := by
  obtain ⟨es, lookup, hl, hlk, hes, hall⟩ := sliceLookup_ok env henv p b useSecond eps hb
  unfold sliceAtIntersects
  simp only [bind, Except.bind, hl]
  obtain ⟨sss, hs, hrel⟩ := mapM_rel (f := segSlices p lookup useSecond pred eps) (l := lookup)
    (R := fun _ ss => ∀ s ∈ ss, IsPiece p eps (es.map fun e => (e.1, e.2.pos)) pred s ∧ s.sourceIsPline1 = !useSecond ∧ s.overlapping = false ∧
      StartsAt p eps ((es.filter fun e => !e.2.isStartOfOverlap).map fun e => (e.1, e.2.pos)) s) (by
      intro e he
      have hpts : ∀ v ∈ e.2, (e.1, v.pos) ∈ es.map fun e => (e.1, e.2.pos) := by
        intro v hv
        exact List.mem_map.mpr ⟨(e.1, v), (hlk.pairs _).mp (mem_mapPairs.mpr ⟨e, he, rfl, hv⟩), rfl⟩
      have hpts' : ∀ v ∈ e.2, v.isStartOfOverlap = false →
          (e.1, v.pos) ∈ (es.filter fun e => !e.2.isStartOfOverlap).map fun e => (e.1, e.2.pos) := by
        intro v hv hf
        exact List.mem_map.mpr ⟨(e.1, v), List.mem_filter.mpr
          ⟨(hlk.pairs _).mp (mem_mapPairs.mpr ⟨e, he, rfl, hv⟩), by simp [hf]⟩, rfl⟩
      have hne := hlk.nonempty e he
      have hlt : e.1 < p.verts.length := by
        obtain ⟨v, hv⟩ := List.exists_mem_of_ne_nil _ hne
        exact (hall (e.1, v) ((hlk.pairs _).mp (mem_mapPairs.mpr ⟨e, he, rfl, hv⟩))).1
      have hw : cycAt p (e.1 + 1) = some (p.verts[p.nextWrap e.1]'(nextWrap_lt p hlt)) := by
        rw [ViewData.cycAt_some p (by omega)]
        simp only [nextWrap_eq p hlt]
      have hcut : ∀ v ∈ e.2, ∀ a : Vertex T, CutAt p eps (es.map fun e => (e.1, e.2.pos)) e.1
          (segSplitAtPoint a (p.verts[p.nextWrap e.1]'(nextWrap_lt p hlt)) v.pos eps).splitVertex.pos := by
        intro v hv a
        rcases splitVertex_pos a (p.verts[p.nextWrap e.1]'(nextWrap_lt p hlt)) v.pos eps with h | ⟨h1, h2⟩
        · exact ⟨_, hpts v hv, rfl, Or.inl h⟩
        · exact ⟨_, hpts v hv, rfl, Or.inr ⟨_, hw, h1, h2⟩⟩
      have hcut' : ∀ v ∈ e.2, v.isStartOfOverlap = false → ∀ a : Vertex T,
          CutAt p eps ((es.filter fun e => !e.2.isStartOfOverlap).map fun e => (e.1, e.2.pos)) e.1
          (segSplitAtPoint a (p.verts[p.nextWrap e.1]'(nextWrap_lt p hlt)) v.pos eps).splitVertex.pos := by
        intro v hv hf a
        rcases splitVertex_pos a (p.verts[p.nextWrap e.1]'(nextWrap_lt p hlt)) v.pos eps with h | ⟨h1, h2⟩
        · exact ⟨_, hpts' v hv hf, rfl, Or.inl h⟩
        · exact ⟨_, hpts' v hv hf, rfl, Or.inr ⟨_, hw, h1, h2⟩⟩
      obtain ⟨k, vs⟩ := e
      match vs, hne with
      | first :: rest, _ =>
        unfold segSlices
        simp only [bind, Except.bind, at_lt hlt, at_lt (nextWrap_lt p hlt)]
        have hsame := sameSeg_piece p useSecond pred eps (es.map fun e => (e.1, e.2.pos))
          ((es.filter fun e => !e.2.isStartOfOverlap).map fun e => (e.1, e.2.pos)) k hlt _ hw rest
          (segSplitAtPoint p.verts[k] (p.verts[p.nextWrap k]'(nextWrap_lt p hlt)) first.pos eps).splitVertex first
          (hcut first (by simp) _) (fun h => hcut' first (by simp) h _)
          (fun c hc => ⟨hpts c (by simp [hc]), hpts' c (by simp [hc])⟩)
        split
        · exact ⟨_, rfl, hsame⟩
        · rename_i hlast
          obtain ⟨ss, e1, h1⟩ := nextSlice_piece p lookup es hlk (fun e he => (hall e he).1) useSecond pred eps k hlt ⟨_, he⟩
            (segSplitAtPoint p.verts[k] (p.verts[p.nextWrap k]'(nextWrap_lt p hlt)) ((first :: rest).getLast (by simp)).pos eps).splitVertex
            (hcut _ (List.getLast_mem _) _) _ (hcut' _ (List.getLast_mem _) (by simpa using hlast) _) (p.vertexCount + 1) 0 (p.nextWrap k) (by simp [vertexCount]) (by rw [nextWrap_eq p hlt])
            (by omega) (by intro t h1 h2; omega)
          simp only [e1]
          refine ⟨_, rfl, ?_⟩
          intro s hs
          rcases List.mem_append.mp hs with hs | hs
          · exact hsame s hs
          · exact h1 s hs)
  simp only [hs]
  refine ⟨_, es, rfl, hes, hall, ?_⟩
  intro s hs
  rw [List.mem_flatten] at hs
  obtain ⟨l, hl, hs⟩ := hs
  obtain ⟨_, _, hr⟩ := forall2_mem_right hrel hl
  exact hr s hs

end Cavc
