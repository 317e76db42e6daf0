import Verif.Lemmas.OffsetStraight
import Verif.Lemmas.StitchAll
import Verif.Lemmas.ShapeStitch

/-! # The raw offset of a closed polyline of straight segments -/

set_option linter.unusedSectionVars false
set_option linter.unusedVariables false

namespace Cavc
open RealScalar Pline

/-! ## Going once around -/

theorem cornerPos_add (p : Pline ℝ) (k : Nat) : cornerPos p (k + p.verts.length) = cornerPos p k := by
  unfold cornerPos; rw [vtx_add]

theorem cornerPos_add1 (p : Pline ℝ) (k : Nat) : cornerPos p (k + p.verts.length + 1) = cornerPos p (k + 1) := by
  rw [show k + p.verts.length + 1 = (k + 1) + p.verts.length by omega, cornerPos_add]

theorem cornerPos_add2 (p : Pline ℝ) (k : Nat) : cornerPos p (k + p.verts.length + 2) = cornerPos p (k + 2) := by
  rw [show k + p.verts.length + 2 = (k + 2) + p.verts.length by omega, cornerPos_add]

theorem sideLen_add (p : Pline ℝ) (k : Nat) : sideLen p (k + p.verts.length) = sideLen p k := by
  unfold sideLen; rw [cornerPos_add, cornerPos_add1]

theorem setbackAt_add (p : Pline ℝ) (d : ℝ) (k : Nat) : setbackAt p d (k + p.verts.length) = setbackAt p d k := by
  unfold setbackAt; rw [cornerPos_add, cornerPos_add1, cornerPos_add2]

theorem mitred_add (p : Pline ℝ) (d : ℝ) (k : Nat) : Mitred p d (k + p.verts.length) ↔ Mitred p d k := by
  unfold Mitred
  rw [setbackAt_add, sideLen_add, show k + p.verts.length + 1 = (k + 1) + p.verts.length by omega, sideLen_add]

theorem sidePt_add (p : Pline ℝ) (d : ℝ) (k : Nat) (u : ℝ) : sidePt p d (k + p.verts.length) u = sidePt p d k u := by
  unfold sidePt; rw [cornerPos_add, cornerPos_add1]

theorem sideStart_succ (p : Pline ℝ) (d : ℝ) (k : Nat) [Decidable (Mitred p d k)] :
    sideStart p d (k + 1) = if Mitred p d k then setbackAt p d k / sideLen p (k + 1) else 0 := by
  unfold sideStart
  rw [show k + 1 + p.verts.length - 1 = k + p.verts.length by omega, setbackAt_add]
  by_cases h : Mitred p d k
  · rw [if_pos ((mitred_add p d k).mpr h), if_pos h]
  · rw [if_neg (fun h' => h ((mitred_add p d k).mp h')), if_neg h]

theorem sideStart_add (p : Pline ℝ) (d : ℝ) (hn : 0 < p.verts.length) (k : Nat) : sideStart p d (k + p.verts.length) = sideStart p d k := by
  unfold sideStart
  have e : k + p.verts.length + p.verts.length - 1 = (k + p.verts.length - 1) + p.verts.length := by omega
  rw [e, setbackAt_add, sideLen_add]
  by_cases h : Mitred p d (k + p.verts.length - 1)
  · rw [if_pos h, if_pos ((mitred_add p d _).mpr h)]
  · rw [if_neg h, if_neg (fun h' => h ((mitred_add p d _).mp h'))]

theorem start_side_add (p : Pline ℝ) (d : ℝ) (hn : 0 < p.verts.length) (k : Nat) :
    (RawPart.side (k + p.verts.length)).start p d = (RawPart.side k).start p d := by
  simp only [RawPart.start, sidePt_add, sideStart_add p d hn]

/-! ## The vertexes of the corners -/

open Classical in
/-- the vertex of an arc or straight connection -/
noncomputable def linkVerts (p : Pline ℝ) (d : ℝ) (k : Nat) : List (Vertex ℝ) :=
  if Mitred p d k then [] else [(RawPart.corner k).start p d]

theorem cornerVerts_eq (p : Pline ℝ) (d : ℝ) (k : Nat) :
    cornerVerts (cornerPos p k) (cornerPos p (k + 1)) (cornerPos p (k + 2)) d = linkVerts p d k ++ [(RawPart.side (k + 1)).start p d] := by
  classical
  unfold cornerVerts linkVerts
  simp only [RawPart.start, sideStart_succ]
  by_cases h : Mitred p d k
  · rw [if_pos h, if_pos h]; exact if_pos h
  · rw [if_neg h, if_neg h]; exact if_neg h

theorem rotate_flatMap {α : Type} (S : Nat → α) (C : Nat → List α) : ∀ m, S 0 :: (List.range m).flatMap (fun k => C k ++ [S (k + 1)]) =
    (List.range m).flatMap (fun k => S k :: C k) ++ [S m]
  | 0 => by simp
  | m + 1 => by
    rw [List.range_succ, List.flatMap_append, List.flatMap_append, ← List.cons_append, rotate_flatMap S C m]
    simp

theorem rawLoop_verts (p : Pline ℝ) (d : ℝ) : (rawLoop p d).verts =
    (List.range p.verts.length).flatMap (fun k => (RawPart.side k).start p d :: linkVerts p d k) := by
  classical
  unfold rawLoop loopParts
  simp only [List.map_flatMap]
  congr 1
  funext k
  unfold linkVerts
  by_cases h : Mitred p d k
  · simp [h]
  · simp [h]

/-- the loop, returned to its start -/
theorem rawLoop_path (p : Pline ℝ) (d : ℝ) (hn : 0 < p.verts.length) : (rawLoop p d).verts ++ [(RawPart.side 0).start p d] =
    (RawPart.side 0).start p d :: (List.range p.verts.length).flatMap
      (fun k => cornerVerts (cornerPos p k) (cornerPos p (k + 1)) (cornerPos p (k + 2)) d) := by
  simp only [cornerVerts_eq]
  rw [rotate_flatMap (fun k => (RawPart.side k).start p d) (linkVerts p d), rawLoop_verts]
  congr 2
  have := start_side_add p d hn 0
  rw [Nat.zero_add] at this
  exact this.symm

/-! ## The run -/

theorem joinPairs_moved {p : Pline ℝ} {d eps : ℝ} (hp : StraightLoop p) (hd : d ≠ 0) (he : 0 < eps) (hc : ∀ k, ClearTurn p d eps k) :
    ∀ (ks : List Nat) (r : Pline ℝ), joinPairs (decide (d < 0)) eps
      (ks.map fun k => (movedSeg (cornerPos p k) (cornerPos p (k + 1)) d, movedSeg (cornerPos p (k + 1)) (cornerPos p (k + 2)) d)) r =
      .ok ⟨appendVertexes eps r.verts (ks.flatMap fun k => cornerVerts (cornerPos p k) (cornerPos p (k + 1)) (cornerPos p (k + 2)) d), r.closed⟩
  | [], r => by simp [joinPairs, appendVertexes]
  | k :: ks, r => by
    simp only [List.map_cons, joinPairs, List.flatMap_cons]
    rw [corner_join (a := cornerPos p k) (v := cornerPos p (k + 1)) (b := cornerPos p (k + 2)) (hp.apart k) (hp.apart (k + 1)) hd he (hc k).cross (hc k).kind]
    simp only [bind, Except.bind]
    rw [joinPairs_moved hp hd he hc ks]
    simp only [appendVertexes, List.foldl_append]

theorem untrimmed_moved {p : Pline ℝ} (hp : StraightLoop p) (d : ℝ) :
    createUntrimmedRawOffsetSegs p d = (List.range p.verts.length).map fun k => movedSeg (cornerPos p k) (cornerPos p (k + 1)) d := by
  unfold createUntrimmedRawOffsetSegs
  rw [segs_range hp.closed hp.two, List.map_map]
  apply List.map_congr_left
  intro k _
  have hz : (vtx p k).bulgeIsZero = true := by
    have := hp.line k
    unfold IsLine at this
    simpa using this
  simp only [Function.comp, rawSeg, hz, if_true]
  exact rawLineSeg_moved d _ _

theorem pathSegs_prefix {α : Type} : ∀ (l r : List α), ∀ s ∈ pathSegs l, s ∈ pathSegs (l ++ r)
  | [], _, s, h => by simp [pathSegs] at h
  | [_], _, s, h => by simp [pathSegs] at h
  | a :: b :: l, r, s, h => by
    simp only [pathSegs, List.cons_append, List.mem_cons] at h ⊢
    rcases h with h | h
    · exact Or.inl h
    · exact Or.inr (pathSegs_prefix (b :: l) r s h)

theorem pathSegs_suffix {α : Type} : ∀ (l r : List α), ∀ s ∈ pathSegs r, s ∈ pathSegs (l ++ r)
  | [], _, s, h => by simpa using h
  | [a], [], s, h => by simp [pathSegs] at h
  | [a], b :: r, s, h => by simp [pathSegs] at h ⊢; exact Or.inr h
  | a :: b :: l, r, s, h => by
    have := pathSegs_suffix (b :: l) r s h
    simp only [pathSegs, List.cons_append, List.mem_cons] at this ⊢
    exact Or.inr this

theorem loop_segs {q : Pline ℝ} {eps : ℝ} (hq : FullLoop q eps) {v : Vertex ℝ} {l : List (Vertex ℝ)} (hv : q.verts = v :: l) :
    ∀ s ∈ pathSegs (q.verts ++ [v]), s.1.pos.fuzzyEqEps s.2.pos eps = false := by
  intro s hs
  have h2 := hq.two
  have hsg : q.segs = pathSegs (q.verts ++ [v]) := by
    unfold Pline.segs
    cases l with
    | nil => rw [hv] at h2; simp at h2
    | cons w l => simp [hv, hq.closed]
  rw [← hsg, segs_range hq.closed hq.two] at hs
  obtain ⟨i, _, rfl⟩ := List.mem_map.mp hs
  exact (hq.full i).apart

theorem close_run {ccw : Bool} {eps : ℝ} {sl s0 : RawSeg ℝ} {v w l S : Vertex ℝ} {A A' L B : List (Vertex ℝ)} (hl : A = L ++ [l])
    (hv : v.bulge = 0) (hS : S.bulge = 0) (hw : S.pos.fuzzyEqEps w.pos eps = false) (hA' : A = w :: A') (he : 0 < eps)
    (hcl : joinSegPair ccw eps sl s0 ⟨[l], false⟩ = .ok ⟨l :: (B ++ [S]), false⟩) :
    rawClose ccw eps sl s0 false ⟨v :: A, true⟩ = .ok ⟨S :: (A ++ B), true⟩ := by
  have h1 : (⟨v :: A, true⟩ : Pline ℝ).last = some l := by
    unfold Pline.last
    rw [hl, ← List.cons_append]
    exact List.getLast?_concat
  have h2 : (⟨v :: A, true⟩ : Pline ℝ).setLast l = .ok ⟨v :: A, true⟩ := by
    unfold Pline.setLast Pline.setVertex
    rw [if_neg (by simp), if_pos (by simp)]
    subst hl
    simp
  have h3 : (⟨l :: (B ++ [S]), false⟩ : Pline ℝ).at 0 = .ok l := rfl
  have h4 : rawUpdateFirst ⟨v :: A ++ (B ++ [S]), true⟩ ⟨l :: (B ++ [S]), false⟩ = .ok ⟨S :: A ++ (B ++ [S]), true⟩ := by
    unfold rawUpdateFirst
    have e1 : (⟨l :: (B ++ [S]), false⟩ : Pline ℝ).last = some S := by
      unfold Pline.last; rw [← List.cons_append]; exact List.getLast?_concat
    have e2 : (⟨v :: A ++ (B ++ [S]), true⟩ : Pline ℝ).at 0 = .ok v := rfl
    rw [e1, e2]
    simp only [bind, Except.bind, unwrap]
    rw [if_pos (by simp [hv])]
    unfold Pline.setVertex
    rw [if_pos (by simp)]
    simp only [List.cons_append, List.set_cons_zero]
    have : Vertex.ofV2 S.pos v.bulge = S := by rw [hv, ← hS]; rfl
    rw [this]
  have h5 : rawFinalPrune eps ⟨S :: A ++ (B ++ [S]), true⟩ = .ok ⟨S :: (A ++ B), true⟩ := by
    unfold rawFinalPrune
    have e1 : (⟨S :: A ++ (B ++ [S]), true⟩ : Pline ℝ).last = some S := by
      unfold Pline.last; rw [← List.append_assoc]; exact List.getLast?_concat
    have e2 : (⟨S :: A ++ (B ++ [S]), true⟩ : Pline ℝ).at 0 = .ok S := rfl
    have e3 : (⟨S :: A ++ (B ++ [S]), true⟩ : Pline ℝ).removeLast = .ok (S, ⟨S :: (A ++ B), true⟩) := by
      unfold Pline.removeLast Pline.remove
      rw [if_neg (by simp)]
      have hx : (S :: A ++ (B ++ [S])) = (S :: (A ++ B)) ++ [S] := by simp
      simp only [hx]
      have hy : ((S :: (A ++ B)) ++ [S])[((S :: (A ++ B)) ++ [S]).length - 1]? = some S := by
        rw [List.length_append]; simp
      rw [hy]
      simp only
      rw [List.length_append, List.eraseIdx_append_of_length_le (by simp)]
      simp
    have e4 : (⟨S :: (A ++ B), true⟩ : Pline ℝ).at 0 = .ok S := rfl
    have e5 : (⟨S :: (A ++ B), true⟩ : Pline ℝ).at 1 = .ok w := by rw [hA']; rfl
    rw [if_pos (by simp [vertexCount, hA']), e1, e2]
    simp only [bind, Except.bind, unwrap]
    rw [if_pos (fuzzy_refl _ he), e3]
    simp only
    rw [if_pos (by simp [vertexCount, hA']), e4, e5]
    simp only
    rw [if_neg (by rw [hw]; simp)]
  unfold rawClose
  rw [h1]
  simp only [bind, Except.bind, unwrap, hcl, h3, h2, Pline.extendVertexes, List.drop_succ_cons, List.drop_zero, Bool.not_false, if_true]
  rw [h4]
  exact h5

/-- The raw offset that the code makes of a closed polyline of straight segments is the loop of the specification. -/
theorem raw_straight {p : Pline ℝ} {d eps : ℝ} (hp : StraightLoop p) (hd : d ≠ 0) (he : 0 < eps) (hc : ∀ k, ClearTurn p d eps k)
    (hfull : FullLoop (rawLoop p d) eps) (h0 : (sidePt p d 0 0).fuzzyEqEps (vtx (rawLoop p d) 1).pos eps = false) :
    createRawOffsetPolyline p d eps = .ok (rawLoop p d) := by
  obtain ⟨m, hm⟩ : ∃ m, p.verts.length = m + 2 := ⟨p.verts.length - 2, by have := hp.two; omega⟩
  set K := fun k => cornerVerts (cornerPos p k) (cornerPos p (k + 1)) (cornerPos p (k + 2)) d with hK
  set M := fun k => movedSeg (cornerPos p k) (cornerPos p (k + 1)) d with hM
  set S := (RawPart.side 0).start p d with hS
  set A := (List.range (m + 1)).flatMap K with hA
  obtain ⟨B, hB⟩ : ∃ B, K (m + 1) = B ++ [S] := by
    refine ⟨linkVerts p d (m + 1), ?_⟩
    rw [hK]
    simp only
    rw [cornerVerts_eq, hS]
    congr 2
    have := start_side_add p d (by omega) 0
    rw [Nat.zero_add, hm] at this
    exact this
  have hpath := rawLoop_path p d (by omega)
  rw [hm, List.range_succ, List.flatMap_append, ← hS] at hpath
  simp only [List.flatMap_cons, List.flatMap_nil, List.append_nil] at hpath
  change (rawLoop p d).verts ++ [S] = S :: (A ++ K (m + 1)) at hpath
  have hverts : (rawLoop p d).verts = S :: (A ++ B) := by
    rw [hB] at hpath
    have : (rawLoop p d).verts ++ [S] = (S :: (A ++ B)) ++ [S] := by simpa using hpath
    exact List.append_cancel_right this
  obtain ⟨w, A', hA'⟩ : ∃ w A', A = w :: A' := by
    have : K 0 ≠ [] := by rw [hK]; simp only; rw [cornerVerts_eq]; simp
    rw [hA, List.range_succ_eq_map, List.flatMap_cons]
    cases hk : K 0 with
    | nil => exact absurd hk this
    | cons w l => exact ⟨w, _, rfl⟩
  have hw : (vtx (rawLoop p d) 1) = w := by
    have := vtx_at (p := rawLoop p d) (i := 1) (by rw [hverts, hA']; simp)
    rw [hverts, hA'] at this
    simpa using this.symm
  have hsegs := loop_segs hfull hverts
  rw [hpath] at hsegs
  have hfirst : (M 0).v1 = Vertex.ofV2 (sidePt p d 0 0) 0 := rfl
  have hplainA : ∀ L, (∀ s ∈ pathSegs L, s ∈ pathSegs (A ++ K (m + 1))) → L.head? = some w →
      ∀ s ∈ pathSegs ((M 0).v1 :: L), s.1.pos.fuzzyEqEps s.2.pos eps = false := by
    intro L hL hh s hs
    cases L with
    | nil => simp at hh
    | cons x l =>
      simp only [List.head?_cons, Option.some.injEq] at hh
      subst hh
      simp only [pathSegs, List.mem_cons] at hs
      rcases hs with rfl | hs
      · rw [← hw]; exact h0
      · apply hsegs
        have := hL s hs
        exact pathSegs_suffix [S] _ s this
  have hK0 : appendVertexes eps [(M 0).v1] (K 0) = (M 0).v1 :: K 0 := by
    have hk0 : K 0 = [] ∨ (K 0).head? = some w := by
      cases hk : K 0 with
      | nil => exact Or.inl rfl
      | cons x l =>
        right
        rw [hA, List.range_succ_eq_map, List.flatMap_cons, hk] at hA'
        simp only [List.cons_append, List.cons.injEq] at hA'
        simp [hA'.1]
    rcases hk0 with h | h
    · rw [h]; simp [appendVertexes]
    · have := appendVertexes_plain eps (K 0) [(M 0).v1] (hplainA (K 0) (fun s hs => by
        rw [hA, List.range_succ_eq_map, List.flatMap_cons, List.append_assoc]
        exact pathSegs_prefix _ _ s hs) h)
      simpa using this
  have hKA : appendVertexes eps [(M 0).v1] A = (M 0).v1 :: A := by
    have := appendVertexes_plain eps A [(M 0).v1] (hplainA A (fun s hs => pathSegs_prefix _ _ s hs) (by rw [hA']; rfl))
    simpa using this
  have hunt := untrimmed_moved hp d
  rw [hm, List.range_succ_eq_map, List.map_cons, List.map_map] at hunt
  change createUntrimmedRawOffsetSegs p d = M 0 :: (List.range (m + 1)).map (fun k => M (k + 1)) at hunt
  have hzip : (M 0 :: (List.range (m + 1)).map (fun k => M (k + 1))).zip ((List.range (m + 1)).map (fun k => M (k + 1))) =
      (List.range (m + 1)).map (fun k => (M k, M (k + 1))) := by
    apply List.ext_getElem?
    intro i
    by_cases hi : i < m + 1
    · cases i with
      | zero => simp [List.getElem?_zip_eq_some, hi]
      | succ i => simp [List.getElem?_zip_eq_some, hi]
    · rw [List.getElem?_eq_none (by simp; omega), List.getElem?_eq_none (by simp; omega)]
  have hlast : ∀ h, (M 0 :: (List.range (m + 1)).map (fun k => M (k + 1))).getLast h = M (m + 1) := by
    intro h
    simp only [List.range_succ, List.map_append, List.map_singleton]
    rw [List.getLast_cons (by simp), List.getLast_append_singleton]
  unfold createRawOffsetPolyline
  rw [if_neg (by unfold vertexCount; omega), hunt]
  dsimp only
  rw [if_neg (by simp [hM, movedSeg]), hzip, hlast]
  have hj := joinPairs_moved hp hd he hc
  have ht1 : ((List.range (m + 1)).map (fun k => (M k, M (k + 1)))).take 1 = [0].map (fun k => (M k, M (k + 1))) := by
    rw [List.range_succ_eq_map]; rfl
  have hd1 : ((List.range (m + 1)).map (fun k => (M k, M (k + 1)))).drop 1 = ((List.range m).map Nat.succ).map (fun k => (M k, M (k + 1))) := by
    rw [List.range_succ_eq_map]; rfl
  rw [ht1, hd1]
  have hccw : (Scalar.lt d 0 : Bool) = decide (d < 0) := by simp
  rw [hccw, hj [0], hp.closed]
  simp only [bind, Except.bind, List.flatMap_cons, List.flatMap_nil, List.append_nil]
  have hall : joinPairs (decide (d < 0)) eps (((List.range m).map Nat.succ).map (fun k => (M k, M (k + 1))))
      ⟨appendVertexes eps [(M 0).v1] (K 0), true⟩ = .ok ⟨(M 0).v1 :: A, true⟩ := by
    refine (hj _ _).trans ?_
    have : appendVertexes eps (appendVertexes eps [(M 0).v1] (K 0)) (((List.range m).map Nat.succ).flatMap K) = (M 0).v1 :: A := by
      rw [← hKA, hA, List.range_succ_eq_map, List.flatMap_cons]
      unfold appendVertexes
      rw [List.foldl_append]
    exact congrArg (fun l => Except.ok (⟨l, true⟩ : Pline ℝ)) this
  have hKe : cornerVerts (cornerPos p 0) (cornerPos p (0 + 1)) (cornerPos p (0 + 2)) d = K 0 := rfl
  rw [hKe, hall]
  simp only [hK0]
  have hK0ne : K 0 ≠ [] := by rw [hK]; simp only; rw [cornerVerts_eq]; simp
  rw [if_pos (by simp [vertexCount, hA'])]
  have hfr : ((⟨(M 0).v1 :: K 0, true⟩ : Pline ℝ).vertexCount == 1) = false := by
    simp [vertexCount, hK0ne]
  rw [hfr]
  obtain ⟨L, l, hl⟩ : ∃ L l, A = L ++ [l] := by
    rcases List.eq_nil_or_concat A with h | ⟨L, l, h⟩
    · rw [hA'] at h; simp at h
    · exact ⟨L, l, by rw [h, List.concat_eq_append]⟩
  have hclose : joinSegPair (decide (d < 0)) eps (M (m + 1)) (M 0) ⟨[l], false⟩ = .ok ⟨l :: (B ++ [S]), false⟩ := by
    have e1 : M 0 = movedSeg (cornerPos p (m + 1 + 1)) (cornerPos p (m + 1 + 2)) d := by
      have := cornerPos_add p 0
      have h1 := cornerPos_add p 1
      rw [Nat.zero_add, hm] at this
      rw [hm, show 1 + (m + 2) = m + 1 + 2 by omega] at h1
      rw [hM, show m + 1 + 1 = m + 2 by omega]
      simp only
      rw [this, h1]
    rw [e1]
    refine (corner_join (a := cornerPos p (m + 1)) (v := cornerPos p (m + 1 + 1)) (b := cornerPos p (m + 1 + 2))
      (hp.apart _) (hp.apart _) hd he (hc _).cross (hc _).kind _).trans ?_
    have := appendVertexes_plain eps (B ++ [S]) [l] (fun s hs => by
      apply hsegs
      rw [hl, hB]
      have := pathSegs_suffix (S :: L) _ s hs
      simpa using this)
    have h' : appendVertexes eps [l] (K (m + 1)) = l :: (B ++ [S]) := by rw [hB, this]; rfl
    exact congrArg (fun l => Except.ok (⟨l, false⟩ : Pline ℝ)) h'
  have hrc := close_run (v := (M 0).v1) hl (by rfl) (by rfl) (show S.pos.fuzzyEqEps w.pos eps = false by
      have := (hfull.full 0).apart
      rw [hw] at this
      have h0' := vtx_at (p := rawLoop p d) (i := 0) (by rw [hverts]; simp)
      rw [hverts] at h0'
      simp only [List.getElem?_cons_zero, Option.some.injEq] at h0'
      rw [h0']; exact this) hA' he hclose
  rw [hrc]
  dsimp only
  rw [if_neg (by simp [vertexCount, hA'])]
  have : rawLoop p d = ⟨(rawLoop p d).verts, true⟩ := rfl
  rw [this, hverts]

end Cavc
