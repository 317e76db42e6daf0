import Verif.Spec.StitchOrder
import Verif.Lemmas.BoolSlices
import Verif.Lemmas.StitchRounds
import Verif.Props.OverlapJoin

/-! # C39, C40, C41: boolean operations -/

set_option linter.unusedSectionVars false
set_option linter.unusedVariables false

namespace Cavc
open Scalar Pline
variable {T : Type} [Scalar T]

theorem getVertex_cases (d : ViewData T) (src : Pline T) {i : Nat} (h : i < d.vertexCount) :
    (∃ v, d.at src i = .ok v) ∨ d.at src i = .error .indexOutOfBounds := by
  have hat : ∀ j, (∃ v, src.at j = .ok v) ∨ src.at j = .error .indexOutOfBounds := by
    intro j
    by_cases hj : j < src.verts.length
    · exact Or.inl ⟨_, at_lt hj⟩
    · right
      unfold Pline.at
      rw [List.getElem?_eq_none (by omega)]
  unfold ViewData.vertexCount at h
  unfold ViewData.at ViewData.getVertex ViewData.vertexCount
  rw [if_neg (by omega)]
  split_ifs with hi a b c e a b c e
  · exact Or.inl ⟨_, rfl⟩
  · rcases hat (src.nextWrap (src.fwdIndex d.startIndex (d.endIndexOffset - i))) with ⟨v, hv⟩ | hv <;>
      rcases hat (src.fwdIndex d.startIndex (d.endIndexOffset - i)) with ⟨w, hw⟩ | hw <;>
      simp only [hv, hw, bind, Except.bind, unwrap]
    · exact Or.inl ⟨_, rfl⟩
    all_goals exact Or.inr trivial
  · rcases hat (src.fwdIndex d.startIndex (d.endIndexOffset - i + 1)) with ⟨w, hw⟩ | hw <;>
      simp only [hw, bind, Except.bind, unwrap]
    · exact Or.inl ⟨_, rfl⟩
    · exact Or.inr trivial
  · exact Or.inl ⟨_, rfl⟩
  · omega
  · exact Or.inl ⟨_, rfl⟩
  · rcases hat (src.fwdIndex d.startIndex i) with ⟨w, hw⟩ | hw <;>
      simp only [hw, bind, Except.bind, unwrap]
    · exact Or.inl ⟨_, rfl⟩
    · exact Or.inr trivial
  · rcases hat (src.fwdIndex d.startIndex d.endIndexOffset) with ⟨w, hw⟩ | hw <;>
      simp only [hw, bind, Except.bind, unwrap]
    · exact Or.inl ⟨_, rfl⟩
    · exact Or.inr trivial
  · exact Or.inl ⟨_, rfl⟩
  · omega

theorem mapM_cases {α β : Type} {f : α → M β} : ∀ {l : List α},
    (∀ a ∈ l, (∃ b, f a = .ok b) ∨ f a = .error .indexOutOfBounds) →
    (∃ bs, l.mapM f = .ok bs ∧ bs.length = l.length) ∨ l.mapM f = .error .indexOutOfBounds
  | [], _ => Or.inl ⟨[], rfl, rfl⟩
  | a :: l, h => by
    rw [List.mapM_cons]
    rcases h a (by simp) with ⟨b, hb⟩ | hb
    · rcases mapM_cases (l := l) (fun x hx => h x (by simp [hx])) with ⟨bs, hbs, hlen⟩ | hbs
      · left
        exact ⟨b :: bs, by rw [hb, hbs]; rfl, by simp [hlen]⟩
      · right; rw [hb, hbs]; rfl
    · right; rw [hb]; rfl

theorem slice_cases (s : BoolSlice T) (p1 p2 : Pline T) : (∃ vs, s.Reads p1 p2 vs) ∨ s.Unreadable p1 p2 := by
  unfold BoolSlice.Reads BoolSlice.Unreadable BoolSlice.toPline ViewData.toPline
  rcases mapM_cases (f := fun i => s.viewData.at (if s.sourceIsPline1 then p1 else p2) i) (l := List.range s.viewData.vertexCount)
    (fun i hi => getVertex_cases _ _ (by simpa using hi)) with ⟨vs, hvs, hlen⟩ | h
  · left
    refine ⟨vs, ?_, ?_⟩
    · simp only [hvs, bind, Except.bind]
    · rintro rfl
      simp [ViewData.vertexCount] at hlen
  · right
    simp only [h, bind, Except.bind]

theorem slice_reads (s : BoolSlice T) (p1 p2 : Pline T) (h : s.viewData.InRange (if s.sourceIsPline1 then p1 else p2)) :
    ∃ vs, s.Reads p1 p2 vs := by
  obtain ⟨q, hq, hc, hl, -⟩ := ViewData.toPline_ok s.viewData _ h
  refine ⟨q.verts, ?_, ?_⟩
  · unfold BoolSlice.toPline
    rw [hq, ← hc]
  · intro h0
    rw [h0] at hl
    simp at hl

/-- everything the later steps need from the first step -/
structure ProcOk (p1 p2 : Pline T) (b : BoolProc T) : Prop where
  first : ProcInRange p1.verts.length b false
  second : ProcInRange p2.verts.length b true

theorem joined_indexes (env : Env T) (henv : env.Lawful) (hc : TotalCmp T) (l : List (OverlapIntr T)) (p1 p2 : Pline T) (eps : T)
    (hl : ∀ o ∈ l, o.InRange p1 p2) (hd : l.Nodup) :
    ∃ result, sortAndJoin env l p1 p2 eps = .ok result ∧ ∀ s ∈ result,
      s.startIndexes.1 < p1.verts.length ∧ s.startIndexes.2 < p2.verts.length ∧
      s.endIndexes.1 < p1.verts.length ∧ s.endIndexes.2 < p2.verts.length := by
  obtain ⟨sorted, gs, slices, result, e, hp, hsort, hruns, hs, hj⟩ := C49_join env henv hc l p1 p2 eps hl
  refine ⟨result, e, ?_⟩
  have hone : ∀ s ∈ slices, s.InRange p1 p2 := by
    intro s hs'
    obtain ⟨g, hg, a, z, h⟩ := forall2_mem_right hs hs'
    have hsub : g.Sublist sorted := by
      rw [← hruns.flatten]
      exact List.sublist_flatten_of_mem hg
    exact (slice_range h (fun o ho => hl o (hp.mem_iff.mp (hsub.subset ho))) (hsort.sublist hsub)
      ((hp.nodup_iff.mpr hd).sublist hsub)).1
  rcases hj with ⟨f, m, lst, es, hmeet, j, er, j1, j2, -⟩ | ⟨er, -⟩
  · subst er
    intro s hs'
    rcases List.mem_cons.mp hs' with rfl | hs'
    · have h1 := hone f (by rw [es]; simp)
      have h2 := hone lst (by rw [es]; simp)
      rw [j1, j2]
      exact ⟨h2.1, h2.2.1, h1.2.2.1, h1.2.2.2.1⟩
    · have h := hone s (by rw [es]; simp [hs'])
      exact ⟨h.1, h.2.1, h.2.2.1, h.2.2.2.1⟩
  · subst er
    intro s hs'
    have h := hone s hs'
    exact ⟨h.1, h.2.1, h.2.2.1, h.2.2.2.1⟩

theorem process_ok (env : Env T) (henv : env.Lawful) (hc : TotalCmp T) (p1 p2 : Pline T) (idx1 : Index T) (eps : T)
    (hidx : idx1.Serves p1) :
    ∃ r b, findIntersects env p1 p2 (some idx1) eps = .ok r ∧ processForBoolean env p1 p2 idx1 eps = .ok b ∧ ProcOk p1 p2 b ∧
      b.intersects = r.basic ∧ b.orientation2 = p2.orientation ∧ (r.overlapping = [] ↔ b.overlappingSlices = []) ∧
      (NoEarlyReturn p2 eps r.overlapping → ∀ s ∈ b.overlappingSlices, s.InRange p1 p2) := by
  obtain ⟨dup1, dup2, e, -, -⟩ := findIntersects_eq env p1 p2 (some idx1) eps _ hidx rfl
  obtain ⟨r, hr⟩ : ∃ r, findIntersects env p1 p2 (some idx1) eps = .ok r := ⟨_, e⟩
  obtain ⟨h1, h2, h3⟩ := find_overlaps_range env p1 p2 (some idx1) eps hidx r hr
  obtain ⟨ov, hov, h4⟩ := joined_indexes env henv hc r.overlapping p1 p2 eps h1 h2
  unfold processForBoolean
  simp only [bind, Except.bind, hr, hov]
  refine ⟨r, _, rfl, rfl, ⟨⟨?_, ?_, ?_⟩, ⟨?_, ?_, ?_⟩⟩, rfl, rfl, ?_, ?_⟩
  · exact fun i hi => (h3 i hi).1
  · exact fun s hs => (h4 s hs).1
  · exact fun s hs => (h4 s hs).2.2.1
  · exact fun i hi => (h3 i hi).2
  · exact fun s hs => (h4 s hs).2.1
  · exact fun s hs => (h4 s hs).2.2.2
  · show r.overlapping = [] ↔ ov = []
    obtain ⟨sorted, gs, slices, result, e, hp, hsort, hruns, hs, hj⟩ := C49_join env henv hc r.overlapping p1 p2 eps h1
    rw [hov] at e
    cases e
    have e1 : r.overlapping = [] ↔ sorted = [] := by
      constructor
      · intro h; rw [h] at hp; exact hp.eq_nil
      · intro h; rw [h] at hp; exact hp.symm.eq_nil
    have e2 : sorted = [] ↔ gs = [] := by
      constructor
      · intro h
        have := hruns.flatten
        rw [h] at this
        cases gs with
        | nil => rfl
        | cons g gs =>
          rw [List.flatten_cons, List.append_eq_nil_iff] at this
          exact absurd this.1 (hruns.nonempty g (by simp))
      · intro h
        have := hruns.flatten
        rw [h] at this
        exact this.symm
    have e3 : gs = [] ↔ slices = [] := by
      cases hs with
      | nil => simp
      | cons _ _ => simp
    have e4 : slices = [] ↔ ov = [] := by
      rcases hj with ⟨f, m, lst, es, hmeet, j, er, -⟩ | ⟨er, -⟩
      · rw [es, er]; simp
      · rw [er]
    rw [e1, e2, e3, e4]
  · intro hn
    obtain ⟨ov', hov', h5⟩ := C49_range env henv hc r.overlapping p1 p2 eps h1 h2 hn
    rw [hov] at hov'
    cases hov'
    exact h5

theorem IsPiece.congr {p : Pline T} {eps : T} {pts : List (Nat × V2 T)} {t t' : V2 T → Bool} {s : BoolSlice T} (h : IsPiece p eps pts t s)
    (htt : ∀ x, t x = t' x) : IsPiece p eps pts t' s := by
  have : t = t' := funext htt
  rw [← this]; exact h

/-- Pruning. -/
theorem prune_ok (env : Env T) (henv : env.Lawful) (p1 p2 : Pline T) (b : BoolProc T) (pass : Bool × Bool) (pred1 pred2 : V2 T → Bool)
    (h1 : ∀ pt, pred1 pt = ((p2.windingNumber pt != 0) == pass.1)) (h2 : ∀ pt, pred2 pt = ((p1.windingNumber pt != 0) == pass.2))
    (setOpposing : Bool) (hso : setOpposing = (pass.1 != pass.2)) (eps : T) (hb : ProcOk p1 p2 b) :
    ∃ ps pieces1 pieces2, pruneSlices env p1 p2 b pred1 pred2 setOpposing eps = .ok ps ∧ (∀ s ∈ pieces1 ++ pieces2, Kept p1 p2 b eps pass s) ∧
      (∀ s ∈ pieces1, s.sourceIsPline1 = true) ∧ (∀ s ∈ pieces2, s.sourceIsPline1 = false) ∧
      (ps.startOf2 = pieces1.length ∧ ps.startOf1Overlap = pieces1.length + pieces2.length ∧
        ps.startOf2Overlap = pieces1.length + pieces2.length + b.overlappingSlices.length) ∧
      ps.slices = pieces1 ++ pieces2 ++ b.overlappingSlices.map (fun o => BoolSlice.fromOverlapping o o.opposingDirections) ++
        b.overlappingSlices.map (fun o => BoolSlice.fromOverlapping o false) ∧
      ((∀ o ∈ b.overlappingSlices, o.InRange p1 p2) → ∀ s ∈ ps.slices, ∃ vs, s.Reads p1 p2 vs) := by
  obtain ⟨s1, es1, e1, -, hp1, hs1⟩ := sliceAtIntersects_ok env henv p1 b false pred1 eps hb.first
  obtain ⟨s2, es2, e2, -, hp2, hs2⟩ := sliceAtIntersects_ok env henv p2 b true pred2 eps hb.second
  unfold pruneSlices
  simp only [bind, Except.bind, e1, e2]
  have hpts : ∀ (es : List (Nat × SlicePoint T)) (sec : Bool), (∀ e ∈ es, e.1 < (if sec then p2 else p1).verts.length ∧ e.2.pos ∈ b.cutPoints ∧
      (e.2.isStartOfOverlap = false → e.2.pos ∈ b.leavePoints sec)) →
      (∀ a ∈ es.map fun e => (e.1, e.2.pos), a.2 ∈ b.cutPoints) ∧
      ∀ a ∈ (es.filter fun e => !e.2.isStartOfOverlap).map fun e => (e.1, e.2.pos),
        (a ∈ es.map fun e => (e.1, e.2.pos)) ∧ a.2 ∈ b.leavePoints sec := by
    intro es sec h
    constructor
    · intro a ha
      rw [List.mem_map] at ha
      obtain ⟨e, he, rfl⟩ := ha
      exact (h e he).2.1
    · intro a ha
      rw [List.mem_map] at ha
      obtain ⟨e, he, rfl⟩ := ha
      rw [List.mem_filter] at he
      exact ⟨List.mem_map.mpr ⟨e, he.1, rfl⟩, (h e he.1).2.2 (by simpa using he.2)⟩
  have hk1 : ∀ s ∈ s1, Kept p1 p2 b eps pass { s with viewData := { s.viewData with inverted := ((pass.1 != pass.2) != b.opposingDirections) } } := by
    intro s hs
    obtain ⟨a1, a2, a3, a4⟩ := hs1 s hs
    obtain ⟨q1, q2⟩ := hpts es1 false (by simpa using hp1)
    exact Kept.first q1 (a1.congr h1) (by simpa using a2) a3 q2 a4
  have hsame : ∀ s ∈ s1, ({ s with viewData := { s.viewData with inverted := false } } : BoolSlice T) = s := by
    intro s hs
    have hinv := (hs1 s hs).1.forward
    obtain ⟨⟨a, b, c, d, e, f⟩, g, h⟩ := s
    simp only at hinv
    subst hinv
    rfl
  have hr1 : ∀ s ∈ s1, ∀ inv : Bool, ∃ vs, BoolSlice.Reads { s with viewData := { s.viewData with inverted := inv } } p1 p2 vs := by
    intro s hs inv
    obtain ⟨a1, a2, a3, -⟩ := hs1 s hs
    apply slice_reads
    have : s.sourceIsPline1 = true := by simpa using a2
    rw [if_pos (by exact this)]
    exact ⟨a1.range.start, a1.range.offset⟩
  refine ⟨_, if setOpposing != b.opposingDirections then s1.map BoolSlice.setInverted else s1, s2, rfl, ?_, ?_, ?_, ?_, rfl, ?_⟩
  rotate_left
  · intro s hs
    split at hs
    · rw [List.mem_map] at hs
      obtain ⟨s', hs', rfl⟩ := hs
      have := (hs1 s' hs').2.1
      simpa [BoolSlice.setInverted] using this
    · simpa using (hs1 s hs).2.1
  · intro s hs
    simpa using (hs2 s hs).2.1
  · have hl : (if setOpposing != b.opposingDirections then s1.map BoolSlice.setInverted else s1).length = s1.length := by
      split <;> simp
    rw [hl]
    exact ⟨rfl, rfl, by simp⟩
  rotate_left
  · intro s hs
    simp only [List.mem_append] at hs
    rcases hs with hs | hs
    · split at hs
      · rename_i hc
        rw [List.mem_map] at hs
        obtain ⟨s', hs', rfl⟩ := hs
        have := hk1 s' hs'
        rw [← hso, hc] at this
        exact this
      · rename_i hc
        have := hk1 s hs
        rw [← hso, Bool.eq_false_iff.mpr hc, hsame s hs] at this
        exact this
    · obtain ⟨a1, a2, a3, a4⟩ := hs2 s hs
      obtain ⟨q1, q2⟩ := hpts es2 true (by simpa using hp2)
      exact Kept.second q1 (a1.congr h2) (by simpa using a2) a3 q2 a4
  · intro hov s hs
    have hro : ∀ o ∈ b.overlappingSlices, ∀ inv : Bool, ∃ vs, (BoolSlice.fromOverlapping o inv).Reads p1 p2 vs := by
      intro o ho inv
      apply slice_reads
      exact ⟨(hov o ho).2.1, (hov o ho).2.2.2.2⟩
    simp only [List.mem_append] at hs
    rcases hs with ((hs | hs) | hs) | hs
    · split at hs
      · rw [List.mem_map] at hs
        obtain ⟨s', hs', rfl⟩ := hs
        exact hr1 s' hs' true
      · rw [← hsame s hs]
        exact hr1 s hs false
    · obtain ⟨a1, a2, a3, -⟩ := hs2 s hs
      apply slice_reads
      have : s.sourceIsPline1 = false := by simpa using a2
      rw [this]
      exact a1.range
    · rw [List.mem_map] at hs
      obtain ⟨o, ho, rfl⟩ := hs
      exact hro o ho _
    · rw [List.mem_map] at hs
      obtain ⟨o, ho, rfl⟩ := hs
      exact hro o ho _

/-- One pass: prune, then stitch. -/
def PassOk (p1 p2 : Pline T) (b : BoolProc T) (eps : T) (pass : Bool × Bool) (m : M (List (BooleanResultPline T))) : Prop :=
  (m = .error .indexOutOfBounds ∧ ¬ ∀ o ∈ b.overlappingSlices, o.InRange p1 p2) ∨ ∃ rs, m = .ok rs ∧ AssembledBy p1 p2 b eps pass rs

theorem runOrAnd_ok (env : Env T) (henv : env.Lawful) (p1 p2 : Pline T) (b : BoolProc T) (pass : Bool × Bool) (pred1 pred2 : V2 T → Bool)
    (h1 : ∀ pt, pred1 pt = ((p2.windingNumber pt != 0) == pass.1)) (h2 : ∀ pt, pred2 pt = ((p1.windingNumber pt != 0) == pass.2))
    (eps : T) (hpass : pass.1 = pass.2) (hb : ProcOk p1 p2 b) : PassOk p1 p2 b eps pass (runOrAnd env p1 p2 b pred1 pred2 eps) := by
  obtain ⟨ps, pieces1, pieces2, e, hk, hf1, hf2, ⟨hn1, hn2, hn3⟩, hsl, hr⟩ := prune_ok env henv p1 p2 b pass pred1 pred2 h1 h2 false (by simp [hpass]) eps hb
  unfold runOrAnd
  simp only [bind, Except.bind, e]
  rcases stitchSlices_spec env henv ps.slices p1 p2 _ eps (fun s _ => slice_cases s p1 p2)
    (orAndSelector_sane ps.startOf2 ps.startOf1Overlap ps.startOf2Overlap) with ⟨h, s, hs, hbad⟩ | ⟨rs, useds, h, h3, h4⟩
  · left
    refine ⟨h, fun hov => ?_⟩
    obtain ⟨vs, hvs, -⟩ := hr hov s hs
    unfold BoolSlice.Unreadable at hbad
    rw [hbad] at hvs
    cases hvs
  · rw [hn1, hn2, hn3] at h ⊢
    obtain ⟨rounds, r1, r2, r3⟩ := stitchSlices_rounds env henv ps.slices p1 p2 _ eps _ _ (fun s _ => slice_cases s p1 p2)
      (orAnd_follows pieces1.length pieces2.length b.overlappingSlices.length pass hpass) rs h
    exact Or.inr ⟨rs, h, pieces1, pieces2, ps.slices, rounds, hk, hf1, hf2, hsl, r1, r2, r3⟩

theorem runNotXor_ok (env : Env T) (henv : env.Lawful) (p1 p2 : Pline T) (b : BoolProc T) (pass : Bool × Bool) (pred1 pred2 : V2 T → Bool)
    (h1 : ∀ pt, pred1 pt = ((p2.windingNumber pt != 0) == pass.1)) (h2 : ∀ pt, pred2 pt = ((p1.windingNumber pt != 0) == pass.2))
    (eps : T) (hpass : pass.1 ≠ pass.2) (hb : ProcOk p1 p2 b) : PassOk p1 p2 b eps pass (runNotXor env p1 p2 b pred1 pred2 eps) := by
  obtain ⟨ps, pieces1, pieces2, e, hk, hf1, hf2, ⟨hn1, hn2, hn3⟩, hsl, hr⟩ := prune_ok env henv p1 p2 b pass pred1 pred2 h1 h2 true (by simp [hpass]) eps hb
  unfold runNotXor
  simp only [bind, Except.bind, e]
  rcases stitchSlices_spec env henv ps.slices p1 p2 _ eps (fun s _ => slice_cases s p1 p2)
    (notXorSelector_sane ps.startOf2 ps.startOf1Overlap ps.startOf2Overlap) with ⟨h, s, hs, hbad⟩ | ⟨rs, useds, h, h3, h4⟩
  · left
    refine ⟨h, fun hov => ?_⟩
    obtain ⟨vs, hvs, -⟩ := hr hov s hs
    unfold BoolSlice.Unreadable at hbad
    rw [hbad] at hvs
    cases hvs
  · rw [hn1, hn2, hn3] at h ⊢
    obtain ⟨rounds, r1, r2, r3⟩ := stitchSlices_rounds env henv ps.slices p1 p2 _ eps _ _ (fun s _ => slice_cases s p1 p2)
      (notXor_follows pieces1.length pieces2.length b.overlappingSlices.length pass hpass) rs h
    exact Or.inr ⟨rs, h, pieces1, pieces2, ps.slices, rounds, hk, hf1, hf2, hsl, r1, r2, r3⟩

theorem find_some (env : Env T) (p1 p2 : Pline T) (o : Option (Index T)) (eps : T) :
    findIntersects env p1 p2 (some (o.getD (p1.approxIndex env))) eps = findIntersects env p1 p2 o eps := by
  unfold findIntersects
  rfl

/-- the answer when the polylines coincide -/
def wholeOverlap (p2 : Pline T) : BooleanOp → BooleanResult T
  | .or => .fromWhole [p2] [] .overlapping
  | .and => .fromWhole [p2] [] .overlapping
  | .not => .empty .overlapping
  | .xor => .empty .overlapping

/-- the answer when there are no intersects -/
def apart (p1 p2 : Pline T) : BooleanOp → Bool → Bool → BooleanResult T
  | .or, true, _ => .fromWhole [p2] [] .pline1InsidePline2
  | .or, false, true => .fromWhole [p1] [] .pline2InsidePline1
  | .or, false, false => .fromWhole [p1, p2] [] .disjoint
  | .and, true, _ => .fromWhole [p1] [] .pline1InsidePline2
  | .and, false, true => .fromWhole [p2] [] .pline2InsidePline1
  | .and, false, false => .empty .disjoint
  | .not, true, _ => .empty .pline1InsidePline2
  | .not, false, true => .fromWhole [p1] [p2] .pline2InsidePline1
  | .not, false, false => .fromWhole [p1] [] .disjoint
  | .xor, true, _ => .fromWhole [p2] [p1] .pline1InsidePline2
  | .xor, false, true => .fromWhole [p1] [p2] .pline2InsidePline1
  | .xor, false, false => .fromWhole [p1, p2] [] .disjoint

/-- the answer when there are intersects -/
def CrossedOk (p1 p2 : Pline T) (b : BoolProc T) (eps : T) (op : BooleanOp) (m : M (BooleanResult T)) : Prop :=
  (m = .error .indexOutOfBounds ∧ ¬ ∀ o ∈ b.overlappingSlices, o.InRange p1 p2) ∨
  ∃ r rss, m = .ok r ∧ r.info = .intersected ∧ List.Forall₂ (AssembledBy p1 p2 b eps) op.passes rss ∧
    (r.posPlines ++ r.negPlines).Perm rss.flatten ∧ (op ≠ .or → r.negPlines = []) ∧
    (op = .or → (∀ q ∈ r.posPlines, q.pline.orientation = b.orientation2) ∧ ∀ q ∈ r.negPlines, q.pline.orientation ≠ b.orientation2)

theorem boolean_cases (env : Env T) (henv : env.Lawful) (hc : TotalCmp T) (p1 p2 : Pline T) (op : BooleanOp) (o : Option (Index T)) (eps : T)
    (hidx : (o.getD (p1.approxIndex env)).Serves p1) (h1 : p1.BooleanInput) (h2 : p2.BooleanInput) :
    ∃ r b a0 b0, findIntersects env p1 p2 o eps = .ok r ∧ processForBoolean env p1 p2 (o.getD (p1.approxIndex env)) eps = .ok b ∧
      b.intersects = r.basic ∧ b.orientation2 = p2.orientation ∧ (r.overlapping = [] ↔ b.overlappingSlices = []) ∧
      (NoEarlyReturn p2 eps r.overlapping → ∀ s ∈ b.overlappingSlices, s.InRange p1 p2) ∧
      p1.verts[0]? = some a0 ∧ p2.verts[0]? = some b0 ∧
      ((b.completelyOverlapping = true ∧ polylineBoolean env p1 p2 op o eps = .ok (wholeOverlap p2 op)) ∨
       (b.completelyOverlapping = false ∧ b.anyIntersects = false ∧
          polylineBoolean env p1 p2 op o eps = .ok (apart p1 p2 op (pointIn p2 a0.pos) (pointIn p1 b0.pos))) ∨
       (b.completelyOverlapping = false ∧ b.anyIntersects = true ∧ CrossedOk p1 p2 b eps op (polylineBoolean env p1 p2 op o eps))) := by
  obtain ⟨r, b, hr, hb, hok, hi, ho, hov, hn⟩ := process_ok env henv hc p1 p2 _ eps hidx
  rw [find_some] at hr
  have hv1 : 0 < p1.verts.length := by have := h1.1; omega
  have hv2 : 0 < p2.verts.length := by have := h2.1; omega
  refine ⟨r, b, p1.verts[0], p2.verts[0], hr, hb, hi, ho, hov, hn, List.getElem?_eq_getElem hv1, List.getElem?_eq_getElem hv2, ?_⟩
  have hguard : (p1.vertexCount < 2 || !p1.closed || p2.vertexCount < 2 || !p2.closed) = false := by
    have a1 := h1.1
    have a2 := h2.1
    simp only [vertexCount, h1.2, h2.2, Bool.not_true, Bool.or_false, Bool.or_eq_false_iff, decide_eq_false_iff_not]
    exact ⟨decide_eq_false (Nat.not_lt.mpr a1), decide_eq_false (Nat.not_lt.mpr a2)⟩
  unfold polylineBoolean
  simp only [hguard, Bool.false_eq_true, if_false, bind, Except.bind, hb, at_lt hv1, at_lt hv2]
  cases hco : b.completelyOverlapping with
  | true =>
    left
    refine ⟨rfl, ?_⟩
    cases op <;> simp [wholeOverlap]
  | false =>
    right
    cases han : b.anyIntersects with
    | false =>
      left
      refine ⟨rfl, rfl, ?_⟩
      cases op <;> cases pointIn p2 (p1.verts[0]).pos <;> cases pointIn p1 (p2.verts[0]).pos <;> simp [apart]
    | true =>
      right
      refine ⟨rfl, rfl, ?_⟩
      have np : ∀ (x : Bool), (!x) = (x == false) := by decide
      have pp : ∀ (x : Bool), x = (x == true) := by decide
      cases op with
      | or =>
        simp only [Bool.false_eq_true, if_false, Bool.not_true]
        rcases runOrAnd_ok env henv p1 p2 b (false, false) (fun pt => !pointIn p2 pt) (fun pt => !pointIn p1 pt)
          (fun pt => np _) (fun pt => np _) eps (by decide) hok with ⟨e, hbad⟩ | ⟨rs, e, has⟩
        · left; simp only [e]; exact ⟨trivial, hbad⟩
        · right
          simp only [e]
          refine ⟨_, [rs], rfl, rfl, List.Forall₂.cons has List.Forall₂.nil, ?_, by simp, fun _ => ⟨?_, ?_⟩⟩
          · simp only [List.flatten_cons, List.flatten_nil, List.append_nil]
            exact List.filter_append_perm (fun r : BooleanResultPline T => r.pline.orientation == b.orientation2) rs
          · intro q hq
            simpa using (List.mem_filter.mp hq).2
          · intro q hq
            simpa using (List.mem_filter.mp hq).2
      | and =>
        simp only [Bool.false_eq_true, if_false, Bool.not_true]
        rcases runOrAnd_ok env henv p1 p2 b (true, true) (pointIn p2) (pointIn p1)
          (fun pt => pp _) (fun pt => pp _) eps (by decide) hok with ⟨e, hbad⟩ | ⟨rs, e, has⟩
        · left; simp only [e]; exact ⟨trivial, hbad⟩
        · right
          simp only [e]
          exact ⟨_, [rs], rfl, rfl, List.Forall₂.cons has List.Forall₂.nil, by simp, fun _ => rfl, by simp⟩
      | not =>
        simp only [Bool.false_eq_true, if_false, Bool.not_true]
        rcases runNotXor_ok env henv p1 p2 b (false, true) (fun pt => !pointIn p2 pt) (pointIn p1)
          (fun pt => np _) (fun pt => pp _) eps (by decide) hok with ⟨e, hbad⟩ | ⟨rs, e, has⟩
        · left; simp only [e]; exact ⟨trivial, hbad⟩
        · right
          simp only [e]
          exact ⟨_, [rs], rfl, rfl, List.Forall₂.cons has List.Forall₂.nil, by simp, fun _ => rfl, by simp⟩
      | xor =>
        simp only [Bool.false_eq_true, if_false, Bool.not_true]
        rcases runNotXor_ok env henv p1 p2 b (false, true) (fun pt => !pointIn p2 pt) (pointIn p1)
          (fun pt => np _) (fun pt => pp _) eps (by decide) hok with ⟨e, hbad⟩ | ⟨rs, e, has⟩
        · left; simp only [e]; exact ⟨trivial, hbad⟩
        · rcases runNotXor_ok env henv p1 p2 b (true, false) (pointIn p2) (fun pt => !pointIn p1 pt)
            (fun pt => pp _) (fun pt => np _) eps (by decide) hok with ⟨e', hbad⟩ | ⟨rs', e', has'⟩
          · left; simp only [e, e']; exact ⟨trivial, hbad⟩
          · right
            simp only [e, e']
            exact ⟨_, [rs, rs'], rfl, rfl, List.Forall₂.cons has (List.Forall₂.cons has' List.Forall₂.nil), by simp, fun _ => rfl, by simp⟩

theorem wholeOverlap_info (p2 : Pline T) (op : BooleanOp) : (wholeOverlap p2 op).info = .overlapping := by
  cases op <;> rfl

theorem apart_info (p1 p2 : Pline T) (op : BooleanOp) (x y : Bool) :
    (apart p1 p2 op x y).info = if x then .pline1InsidePline2 else if y then .pline2InsidePline1 else .disjoint := by
  cases op <;> cases x <;> cases y <;> rfl

theorem boolean_invalid (env : Env T) (p1 p2 : Pline T) (op : BooleanOp) (o : Option (Index T)) (eps : T)
    (hin : ¬ (p1.BooleanInput ∧ p2.BooleanInput)) : polylineBoolean env p1 p2 op o eps = .ok ⟨[], [], .invalidInput⟩ := by
  unfold polylineBoolean
  have : (p1.vertexCount < 2 || !p1.closed || p2.vertexCount < 2 || !p2.closed) = true := by
    by_contra hcon
    apply hin
    simp only [Bool.not_eq_true, Bool.or_eq_false_iff, decide_eq_false_iff_not, Bool.not_eq_false', vertexCount] at hcon
    exact ⟨⟨Nat.not_lt.mp (of_decide_eq_false hcon.1.1.1), hcon.1.1.2⟩, ⟨Nat.not_lt.mp (of_decide_eq_false hcon.1.2), hcon.2⟩⟩
  simp only [this, if_true]
  rfl

/-! ## C41: no panics -/

/-- As long as the overlaps do not lead back to a point passed before (which needs an input that
touches itself), a boolean operation always returns.  Without that hypothesis see
`C41_only_reading` and `C41_panic_witness`. -/
theorem C41_returns_partial (env : Env T) (henv : env.Lawful) (hc : TotalCmp T) (p1 p2 : Pline T) (op : BooleanOp) (o : Option (Index T))
    (eps : T) (hidx : (o.getD (p1.approxIndex env)).Serves p1)
    (hn : ∀ r, findIntersects env p1 p2 o eps = .ok r → NoEarlyReturn p2 eps r.overlapping) :
    ∃ r, polylineBoolean env p1 p2 op o eps = .ok r := by
  by_cases hin : p1.BooleanInput ∧ p2.BooleanInput
  · obtain ⟨r, b, a0, b0, hr, -, -, -, -, hrange, -, -, h⟩ := boolean_cases env henv hc p1 p2 op o eps hidx hin.1 hin.2
    rcases h with ⟨-, h⟩ | ⟨-, -, h⟩ | ⟨-, -, h⟩
    · exact ⟨_, h⟩
    · exact ⟨_, h⟩
    · rcases h with ⟨-, hbad⟩ | ⟨r', -, h, -⟩
      · exact absurd (hrange (hn r hr)) hbad
      · exact ⟨_, h⟩
  · exact ⟨_, boolean_invalid env p1 p2 op o eps hin⟩

/-- For all inputs: a boolean operation returns, or reading an overlap slice of the second polyline
panics.  In particular no loop runs out of its bound. -/
theorem C41_only_reading (env : Env T) (henv : env.Lawful) (hc : TotalCmp T) (p1 p2 : Pline T) (op : BooleanOp) (o : Option (Index T))
    (eps : T) (hidx : (o.getD (p1.approxIndex env)).Serves p1) :
    (∃ r, polylineBoolean env p1 p2 op o eps = .ok r) ∨ polylineBoolean env p1 p2 op o eps = .error .indexOutOfBounds := by
  by_cases hin : p1.BooleanInput ∧ p2.BooleanInput
  · obtain ⟨r, b, a0, b0, hr, -, -, -, -, hrange, -, -, h⟩ := boolean_cases env henv hc p1 p2 op o eps hidx hin.1 hin.2
    rcases h with ⟨-, h⟩ | ⟨-, -, h⟩ | ⟨-, -, h⟩
    · exact Or.inl ⟨_, h⟩
    · exact Or.inl ⟨_, h⟩
    · rcases h with ⟨h, -⟩ | ⟨r', -, h, -⟩
      · exact Or.inr h
      · exact Or.inl ⟨_, h⟩
  · left
    exact ⟨_, boolean_invalid env p1 p2 op o eps hin⟩

/-- Two closed polylines, each touching itself at the origin: every boolean operation panics. -/
theorem C41_panic_witness :
    let p1 : Pline Rat := ⟨[⟨0, 0, 0⟩, ⟨2, 0, 0⟩, ⟨2, 1, 0⟩, ⟨3, 1, 0⟩, ⟨3, 4, 0⟩, ⟨0, 4, 0⟩, ⟨0, 0, 0⟩, ⟨-4, 0, 0⟩, ⟨0, -3, 0⟩], true⟩
    let p2 : Pline Rat := ⟨[⟨0, 0, 0⟩, ⟨2, 0, 0⟩, ⟨2, 1, 0⟩, ⟨3, 1, 0⟩, ⟨3, 4, 0⟩, ⟨0, 0, 0⟩, ⟨-4, 0, 0⟩, ⟨0, -3, 0⟩], true⟩
    ∀ op, polylineBoolean Env.plain p1 p2 op none (1 / 100000) = .error .indexOutOfBounds := by
  intro p1 p2 op
  cases op <;> decide +kernel

/-! ## C67: which slices are joined -/

/-- Which slices are joined in the result of a boolean operation of intersecting inputs. Going on from a
slice of one polyline, a piece of the other polyline that starts there is taken first. For a union or
an intersection a piece of the same polyline comes next and an overlap last. For a difference and a
symmetric difference anything comes next, but an overlap is never joined to an overlap. Every slice is
used exactly once; slices are only left out of the result if their chain cannot be continued, or
closes with less than three vertexes. -/
theorem C67_joints (env : Env T) (henv : env.Lawful) (hc : TotalCmp T) (p1 p2 : Pline T) (op : BooleanOp) (o : Option (Index T))
    (eps : T) (hidx : (o.getD (p1.approxIndex env)).Serves p1) (r : BooleanResult T) (hr : polylineBoolean env p1 p2 op o eps = .ok r)
    (hinfo : r.info = .intersected) :
    ∃ b rss, processForBoolean env p1 p2 (o.getD (p1.approxIndex env)) eps = .ok b ∧
      List.Forall₂ (AssembledBy p1 p2 b eps) op.passes rss ∧
      (r.posPlines ++ r.negPlines).Perm rss.flatten ∧ (op ≠ .or → r.negPlines = []) ∧
      (op = .or → (∀ q ∈ r.posPlines, q.pline.orientation = p2.orientation) ∧ ∀ q ∈ r.negPlines, q.pline.orientation ≠ p2.orientation) := by
  by_cases hin : p1.BooleanInput ∧ p2.BooleanInput
  · obtain ⟨r', b, a0, b0, -, hb, -, ho, -, -, -, -, h⟩ := boolean_cases env henv hc p1 p2 op o eps hidx hin.1 hin.2
    rw [hr] at h
    rcases h with ⟨-, h⟩ | ⟨-, -, h⟩ | ⟨-, -, h⟩
    · cases h
      rw [wholeOverlap_info] at hinfo
      cases hinfo
    · cases h
      rw [apart_info] at hinfo
      split at hinfo
      · cases hinfo
      · split at hinfo <;> cases hinfo
    · rcases h with ⟨h, -⟩ | ⟨r', rss, h, -, h1, h2, h3, h4⟩
      · cases h
      · cases h
        rw [ho] at h4
        exact ⟨b, rss, hb, h1, h2, h3, h4⟩
  · rw [boolean_invalid env p1 p2 op o eps hin] at hr
    cases hr
    cases hinfo

theorem Rounds.stitched {slices : List (BoolSlice T)} {p1 p2 : Pline T} {eps : T} {may : Nat → Nat → Prop} {rank : Nat → Nat → Nat} :
    ∀ (rounds : List (List Nat × Option (BooleanResultPline T))) (before : List Nat), Rounds slices p1 p2 eps may rank before rounds →
      ∃ useds : List (List Nat), List.Forall₂ (Stitched slices p1 p2 eps) useds (rounds.filterMap Prod.snd) ∧
        useds.flatten.Sublist (rounds.map Prod.fst).flatten
  | [], _, _ => ⟨[], List.Forall₂.nil, by simp⟩
  | (used, r) :: rest, before, ⟨_, hj, hrest⟩ => by
    obtain ⟨useds, h1, h2⟩ := Rounds.stitched rest _ hrest
    cases r with
    | none => exact ⟨useds, h1, h2.trans (List.sublist_append_right _ _)⟩
    | some x =>
      obtain ⟨vss, f, l, -, -, -, -, -, hst⟩ := hj
      exact ⟨used :: useds, List.Forall₂.cons hst h1, (List.Sublist.refl used).append h2⟩

theorem AssembledBy.assembledFrom {p1 p2 : Pline T} {b : BoolProc T} {eps : T} {pass : Bool × Bool} {rs : List (BooleanResultPline T)}
    (h : AssembledBy p1 p2 b eps pass rs) : AssembledFrom p1 p2 b eps pass rs := by
  obtain ⟨pieces1, pieces2, slices, rounds, hk, -, -, hsl, hrs, hperm, hr⟩ := h
  obtain ⟨useds, h1, h2⟩ := Rounds.stitched rounds [] hr
  rw [← hrs] at h1
  exact ⟨pieces1 ++ pieces2, slices, useds, hk, hsl, h1, h2.nodup (hperm.nodup_iff.mpr List.nodup_range)⟩

/-! ## C40: what the results are made of -/

/-- The polylines in the result of a boolean operation of intersecting inputs are closed chains of
at least two vertexes, each the concatenation of its subslices end to start; the slices of a pass
are the pieces between consecutive cut points that are on the side asked for, and the overlaps, and
none is used twice. -/
theorem C40_assembled (env : Env T) (henv : env.Lawful) (hc : TotalCmp T) (p1 p2 : Pline T) (op : BooleanOp) (o : Option (Index T))
    (eps : T) (hidx : (o.getD (p1.approxIndex env)).Serves p1) (r : BooleanResult T) (hr : polylineBoolean env p1 p2 op o eps = .ok r)
    (hinfo : r.info = .intersected) :
    ∃ b rss, processForBoolean env p1 p2 (o.getD (p1.approxIndex env)) eps = .ok b ∧
      List.Forall₂ (AssembledFrom p1 p2 b eps) op.passes rss ∧
      (r.posPlines ++ r.negPlines).Perm rss.flatten ∧ (op ≠ .or → r.negPlines = []) ∧
      (op = .or → (∀ q ∈ r.posPlines, q.pline.orientation = p2.orientation) ∧ ∀ q ∈ r.negPlines, q.pline.orientation ≠ p2.orientation) := by
  obtain ⟨b, rss, h1, h2, h3⟩ := C67_joints env henv hc p1 p2 op o eps hidx r hr hinfo
  exact ⟨b, rss, h1, h2.imp fun _ _ h => h.assembledFrom, h3⟩

/-! ## C39: input validation and inputs without intersects -/

/-- The result says invalid input exactly if an input is open or has less than two vertexes; then
it has no polylines. -/
theorem C39_invalid (env : Env T) (henv : env.Lawful) (hc : TotalCmp T) (p1 p2 : Pline T) (op : BooleanOp) (o : Option (Index T))
    (eps : T) (hidx : (o.getD (p1.approxIndex env)).Serves p1) :
    (¬ (p1.BooleanInput ∧ p2.BooleanInput) → polylineBoolean env p1 p2 op o eps = .ok ⟨[], [], .invalidInput⟩) ∧
    (p1.BooleanInput ∧ p2.BooleanInput → ∀ r, polylineBoolean env p1 p2 op o eps = .ok r → r.info ≠ .invalidInput) := by
  constructor
  · intro hin
    exact boolean_invalid env p1 p2 op o eps hin
  · intro hin r hr hinfo
    obtain ⟨r', b, a0, b0, -, hb, -, ho, -, -, -, -, h⟩ := boolean_cases env henv hc p1 p2 op o eps hidx hin.1 hin.2
    rw [hr] at h
    rcases h with ⟨-, h⟩ | ⟨-, -, h⟩ | ⟨-, -, h⟩
    · cases h
      rw [wholeOverlap_info] at hinfo
      cases hinfo
    · cases h
      rw [apart_info] at hinfo
      split at hinfo
      · cases hinfo
      · split at hinfo <;> cases hinfo
    · rcases h with ⟨h, -⟩ | ⟨r', rss, h, hi, -⟩
      · cases h
      · cases h
        rw [hi] at hinfo
        cases hinfo

/-- With no intersects the information of the result is decided by the first vertex of each input:
the first polyline is reported inside if its first vertex has winding number other than 0 in the
second; else the second inside if its first vertex has winding number other than 0 in the first;
else they are disjoint. -/
theorem C39_info (env : Env T) (henv : env.Lawful) (hc : TotalCmp T) (p1 p2 : Pline T) (op : BooleanOp) (o : Option (Index T))
    (eps : T) (hidx : (o.getD (p1.approxIndex env)).Serves p1) (h1 : p1.BooleanInput) (h2 : p2.BooleanInput)
    (hno : findIntersects env p1 p2 o eps = .ok ⟨[], []⟩) :
    ∃ r a b, polylineBoolean env p1 p2 op o eps = .ok r ∧ p1.verts[0]? = some a ∧ p2.verts[0]? = some b ∧
      (p2.windingNumber a.pos ≠ 0 → r.info = .pline1InsidePline2) ∧
      (p2.windingNumber a.pos = 0 → p1.windingNumber b.pos ≠ 0 → r.info = .pline2InsidePline1) ∧
      (p2.windingNumber a.pos = 0 → p1.windingNumber b.pos = 0 → r.info = .disjoint) := by
  obtain ⟨r, b, a0, b0, hr, hb, hi, ho, hov, -, ha, hb0, h⟩ := boolean_cases env henv hc p1 p2 op o eps hidx h1 h2
  rw [hno] at hr
  cases hr
  have hov' : b.overlappingSlices = [] := hov.mp rfl
  have h3 : b.completelyOverlapping = false := by simp [BoolProc.completelyOverlapping, hov']
  have h4 : b.anyIntersects = false := by simp [BoolProc.anyIntersects, hov', hi]
  rw [h3, h4] at h
  rcases h with ⟨h, -⟩ | ⟨-, -, h⟩ | ⟨-, h, -⟩
  · cases h
  · refine ⟨_, a0, b0, h, ha, hb0, ?_, ?_, ?_⟩
    · intro hw
      have : pointIn p2 a0.pos = true := by simp [pointIn, hw]
      rw [this]
      cases op <;> rfl
    · intro hw hw'
      have e1 : pointIn p2 a0.pos = false := by simp [pointIn, hw]
      have e2 : pointIn p1 b0.pos = true := by simp [pointIn, hw']
      rw [e1, e2]
      cases op <;> rfl
    · intro hw hw'
      have e1 : pointIn p2 a0.pos = false := by simp [pointIn, hw]
      have e2 : pointIn p1 b0.pos = false := by simp [pointIn, hw']
      rw [e1, e2]
      cases op <;> rfl
  · cases h

/-- Whenever the result is made of whole inputs, and what it says about how the regions of the
inputs lie is true, the region of the result (in a positive and in no negative polyline) is the set
operation applied to the regions of the inputs. -/
theorem C39_regions (env : Env T) (henv : env.Lawful) (hc : TotalCmp T) (p1 p2 : Pline T) (op : BooleanOp) (o : Option (Index T))
    (eps : T) (hidx : (o.getD (p1.approxIndex env)).Serves p1) (h1 : p1.BooleanInput) (h2 : p2.BooleanInput)
    (r : BooleanResult T) (hr : polylineBoolean env p1 p2 op o eps = .ok r) (hinfo : r.info ≠ .intersected)
    {α : Type} (region : Pline T → α → Prop)
    (t1 : r.info = .pline1InsidePline2 → ∀ x, region p1 x → region p2 x)
    (t2 : r.info = .pline2InsidePline1 → ∀ x, region p2 x → region p1 x)
    (t3 : r.info = .disjoint → ∀ x, ¬ (region p1 x ∧ region p2 x))
    (t4 : r.info = .overlapping → ∀ x, region p1 x ↔ region p2 x) (x : α) :
    ((∃ q ∈ r.posPlines, region q.pline x) ∧ ¬ ∃ q ∈ r.negPlines, region q.pline x) ↔ op.holds (region p1 x) (region p2 x) := by
  obtain ⟨r', b, a0, b0, -, hb, -, ho, -, -, -, -, h⟩ := boolean_cases env henv hc p1 p2 op o eps hidx h1 h2
  rw [hr] at h
  rcases h with ⟨-, h⟩ | ⟨-, -, h⟩ | ⟨-, -, h⟩
  · cases h
    have := t4 (by cases op <;> rfl) x
    cases op <;> simp [wholeOverlap, BooleanResult.fromWhole, BooleanResult.empty, BooleanOp.holds] <;> tauto
  · cases h
    cases hp1 : pointIn p2 a0.pos with
    | true =>
      rw [hp1] at t1
      have := t1 (by cases op <;> rfl) x
      cases op <;> simp [apart, BooleanResult.fromWhole, BooleanResult.empty, BooleanOp.holds] <;> tauto
    | false =>
      cases hp2 : pointIn p1 b0.pos with
      | true =>
        rw [hp1, hp2] at t2
        have := t2 (by cases op <;> rfl) x
        cases op <;> simp [apart, BooleanResult.fromWhole, BooleanResult.empty, BooleanOp.holds] <;> tauto
      | false =>
        rw [hp1, hp2] at t3
        have := t3 (by cases op <;> rfl) x
        cases op <;> simp [apart, BooleanResult.fromWhole, BooleanResult.empty, BooleanOp.holds] <;> tauto
  · rcases h with ⟨h, -⟩ | ⟨r', rss, h, hi, -⟩
    · cases h
    · cases h
      exact absurd hi hinfo

/-! ## The hypotheses are met

A square and a polygon that crosses it once and shares part of an edge with it. -/

example :
    let p1 : Pline Rat := ⟨[⟨0, 0, 0⟩, ⟨4, 0, 0⟩, ⟨4, 4, 0⟩, ⟨0, 4, 0⟩], true⟩
    let p2 : Pline Rat := ⟨[⟨2, -1, 0⟩, ⟨6, -1, 0⟩, ⟨6, 2, 0⟩, ⟨4, 2, 0⟩, ⟨4, 3, 0⟩, ⟨2, 3, 0⟩], true⟩
    (Env.plain (T := Rat)).Lawful ∧ TotalCmp Rat ∧ ((none : Option (Index Rat)).getD (p1.approxIndex Env.plain)).Serves p1 ∧
    p1.BooleanInput ∧ p2.BooleanInput ∧
    findIntersects Env.plain p1 p2 none (1 / 100000) = .ok ⟨[⟨0, 5, ⟨2, 0⟩⟩], [⟨1, 3, ⟨4, 2⟩, ⟨4, 3⟩⟩]⟩ ∧
    NoEarlyReturn p2 (1 / 100000) [⟨1, 3, ⟨4, 2⟩, ⟨4, 3⟩⟩] ∧
    (polylineBoolean Env.plain p1 p2 .xor none (1 / 100000)).map (fun r => (r.info, r.posPlines.map (·.pline), r.negPlines.map (·.pline))) =
      .ok (.intersected, [⟨[⟨2, 0, 0⟩, ⟨0, 0, 0⟩, ⟨0, 4, 0⟩, ⟨4, 4, 0⟩, ⟨4, 3, 0⟩, ⟨2, 3, 0⟩], true⟩,
        ⟨[⟨4, 2, 0⟩, ⟨4, 0, 0⟩, ⟨2, 0, 0⟩, ⟨2, -1, 0⟩, ⟨6, -1, 0⟩, ⟨6, 2, 0⟩], true⟩], []) :=
  ⟨Env.plain_lawful, TotalCmp.rat, C37_own_index _ Env.plain_lawful _, by unfold Pline.BooleanInput; decide, by unfold Pline.BooleanInput; decide,
    by decide +kernel, by unfold NoEarlyReturn; decide +kernel, by decide +kernel⟩

/-- The same square and polygon, with the polygon in the opposite direction: the overlap is opposing,
the square goes on from its point (4, 3), the polygon from its point (4, 2). -/
example :
    let p1 : Pline Rat := ⟨[⟨0, 0, 0⟩, ⟨4, 0, 0⟩, ⟨4, 4, 0⟩, ⟨0, 4, 0⟩], true⟩
    let p2 : Pline Rat := ⟨[⟨2, 3, 0⟩, ⟨4, 3, 0⟩, ⟨4, 2, 0⟩, ⟨6, 2, 0⟩, ⟨6, -1, 0⟩, ⟨2, -1, 0⟩], true⟩
    findIntersects Env.plain p1 p2 none (1 / 100000) = .ok ⟨[⟨0, 5, ⟨2, 0⟩⟩], [⟨1, 1, ⟨4, 3⟩, ⟨4, 2⟩⟩]⟩ ∧
    (processForBoolean Env.plain p1 p2 (p1.approxIndex Env.plain) (1 / 100000)).map
      (fun b => (b.opposingDirections, b.leavePoints false, b.leavePoints true)) =
        .ok (true, [⟨2, 0⟩, ⟨4, 3⟩], [⟨2, 0⟩, ⟨4, 2⟩]) ∧
    (polylineBoolean Env.plain p1 p2 .or none (1 / 100000)).map (fun r => (r.info, r.posPlines.map (·.pline), r.negPlines.map (·.pline))) =
      .ok (.intersected, [⟨[⟨2, 0, 0⟩, ⟨0, 0, 0⟩, ⟨0, 4, 0⟩, ⟨4, 4, 0⟩, ⟨4, 3, 0⟩, ⟨4, 2, 0⟩, ⟨6, 2, 0⟩, ⟨6, -1, 0⟩, ⟨2, -1, 0⟩], true⟩], []) := by
  decide +kernel

/-- A square inside another: no intersects, and what the result says is true of the squares. -/
example :
    let p1 : Pline Rat := ⟨[⟨1, 1, 0⟩, ⟨2, 1, 0⟩, ⟨2, 2, 0⟩, ⟨1, 2, 0⟩], true⟩
    let p2 : Pline Rat := ⟨[⟨0, 0, 0⟩, ⟨4, 0, 0⟩, ⟨4, 4, 0⟩, ⟨0, 4, 0⟩], true⟩
    findIntersects Env.plain p1 p2 none (1 / 100000) = .ok ⟨[], []⟩ ∧ p2.windingNumber ⟨1, 1⟩ ≠ 0 ∧
    (polylineBoolean Env.plain p1 p2 .xor none (1 / 100000)).map (fun r => (r.info, r.posPlines.map (·.pline), r.negPlines.map (·.pline))) =
      .ok (.pline1InsidePline2, [p2], [p1]) := by
  decide +kernel

/-- Two equal squares are reported as overlapping. -/
example :
    let p : Pline Rat := ⟨[⟨1, 1, 0⟩, ⟨2, 1, 0⟩, ⟨2, 2, 0⟩, ⟨1, 2, 0⟩], true⟩
    (polylineBoolean Env.plain p p .and none (1 / 100000)).map (fun r => (r.info, r.posPlines.map (·.pline), r.negPlines.map (·.pline))) =
      .ok (.overlapping, [p], []) := by
  decide +kernel

/-- The union and the difference of the square and the polygon above: the subslices by polyline and
whether they are overlaps. The overlap is part of the union, where no piece starts at its start, and
not of the difference, where a piece of the polygon starts there and comes first. -/
example :
    let p1 : Pline Rat := ⟨[⟨0, 0, 0⟩, ⟨4, 0, 0⟩, ⟨4, 4, 0⟩, ⟨0, 4, 0⟩], true⟩
    let p2 : Pline Rat := ⟨[⟨2, -1, 0⟩, ⟨6, -1, 0⟩, ⟨6, 2, 0⟩, ⟨4, 2, 0⟩, ⟨4, 3, 0⟩, ⟨2, 3, 0⟩], true⟩
    let kinds := fun r : BooleanResult Rat => (r.info, r.posPlines.map fun q => q.subslices.map fun s => (s.sourceIsPline1, s.overlapping))
    (polylineBoolean Env.plain p1 p2 .or none (1 / 100000)).map kinds =
      .ok (.intersected, [[(true, false), (false, false), (false, true)]]) ∧
    (polylineBoolean Env.plain p1 p2 .not none (1 / 100000)).map kinds =
      .ok (.intersected, [[(true, false), (false, false)]]) := by
  decide +kernel

end Cavc
