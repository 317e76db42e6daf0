import Verif.Model.Offset
import Verif.Props.BooleanStitch

/-! # Creating the raw offset polyline never panics -/

set_option linter.unusedSectionVars false
set_option linter.unusedVariables false

namespace Cavc
open Scalar Pline
variable {T : Type} [Scalar T]

/-- a step of building a polyline went well -/
def Grown (c : Bool) (x : M (Pline T)) : Prop := ∃ q, x = .ok q ∧ q.verts ≠ [] ∧ q.closed = c

theorem Grown.bind {c : Bool} {x : M (Pline T)} {f : Pline T → M (Pline T)} (h : Grown c x)
    (hf : ∀ q : Pline T, q.verts ≠ [] → q.closed = c → Grown c (f q)) : Grown c (x >>= f) := by
  obtain ⟨q, rfl, hq, hc⟩ := h
  exact hf q hq hc

theorem Grown.ok {c : Bool} {q : Pline T} (h : q.verts ≠ []) (hc : q.closed = c) : Grown c (.ok q) := ⟨q, rfl, h, hc⟩

theorem grown_addV (p : Pline T) (v : Vertex T) (eps : T) : Grown p.closed (p.addOrReplaceVertex v eps) :=
  ⟨_, addOrReplaceVertex_eq p v eps, appendVertex_ne _ _ _, rfl⟩

theorem grown_add (p : Pline T) (pos : V2 T) (b eps : T) : Grown p.closed (p.addOrReplace pos b eps) := grown_addV _ _ _

theorem grown_add2 (p : Pline T) (pos pos' : V2 T) (b b' eps : T) :
    Grown p.closed (do let r ← p.addOrReplace pos b eps; r.addOrReplace pos' b' eps) :=
  (grown_add p pos b eps).bind fun q _ hc => hc ▸ grown_add q _ _ _

theorem grown_setLast (p : Pline T) (h : p.verts ≠ []) (v : Vertex T) : Grown p.closed (p.setLast v) := by
  have hpos : 0 < p.verts.length := List.length_pos_iff.mpr h
  unfold setLast setVertex
  rw [if_neg (by omega), if_pos (by omega)]
  exact ⟨_, rfl, by simpa using h, rfl⟩

theorem last_ok (p : Pline T) (h : p.verts ≠ []) : ∃ l, unwrap p.last = .ok l ∧ p.verts.getLast? = some l :=
  ⟨p.verts.getLast h, by simp [Pline.last, List.getLast?_eq_getLast_of_ne_nil h, unwrap], List.getLast?_eq_getLast_of_ne_nil h⟩

theorem grown_connect (s1 s2 : RawSeg T) (ccw : Bool) (p : Pline T) (eps : T) : Grown p.closed (connectUsingArc s1 s2 ccw p eps) :=
  grown_add2 _ _ _ _ _ _

theorem grown_trim (v2 : Vertex T) (eps : T) (c i : V2 T) (p : Pline T) (h : p.verts ≠ []) : Grown p.closed (trimPrevArc v2 eps c i p) := by
  obtain ⟨l, hl, -⟩ := last_ok p h
  unfold trimPrevArc
  simp only [hl, bind, Except.bind]
  split
  · split
    · exact grown_setLast p h _
    · exact Grown.ok h rfl
  · exact Grown.ok h rfl

theorem grown_lineLine (s1 s2 : RawSeg T) (ccw : Bool) (eps : T) (p : Pline T) : Grown p.closed (lineLineJoin s1 s2 ccw eps p) := by
  unfold lineLineJoin
  split
  · exact grown_connect _ _ _ _ _
  · split
    · exact grown_add2 _ _ _ _ _ _
    · exact grown_add _ _ _ _
    · exact grown_add _ _ _ _
    · split
      · exact grown_connect _ _ _ _ _
      · exact grown_add2 _ _ _ _ _ _

theorem grown_lineArcProcess (s1 s2 : RawSeg T) (ccw : Bool) (eps : T) (c : V2 T) (p : Pline T) (t : T) (i : V2 T) :
    Grown p.closed (lineArcProcess s1 s2 ccw eps c p t i) := by
  unfold lineArcProcess
  dsimp only
  split
  · split <;> exact grown_add _ _ _ _
  · split
    · exact grown_connect _ _ _ _ _
    · split
      · exact grown_connect _ _ _ _ _
      · exact (grown_add p _ _ _).bind fun q _ hc => hc ▸ grown_addV q _ _

theorem grown_lineArc (s1 s2 : RawSeg T) (ccw : Bool) (eps : T) (p : Pline T) : Grown p.closed (lineArcJoin s1 s2 ccw eps p) := by
  unfold lineArcJoin
  dsimp only
  split
  · exact grown_connect _ _ _ _ _
  · exact grown_lineArcProcess _ _ _ _ _ _ _ _
  · split <;> exact grown_lineArcProcess _ _ _ _ _ _ _ _

theorem grown_arcLineProcess (s1 s2 : RawSeg T) (ccw : Bool) (eps : T) (c : V2 T) (p : Pline T) (h : p.verts ≠ []) (t : T) (i : V2 T) :
    Grown p.closed (arcLineProcess s1 s2 ccw eps c p t i) := by
  unfold arcLineProcess
  dsimp only
  split
  · exact (grown_trim _ _ _ _ p h).bind fun q _ hc => hc ▸ grown_add q _ _ _
  · exact grown_connect _ _ _ _ _

theorem grown_arcLine (s1 s2 : RawSeg T) (ccw : Bool) (eps : T) (p : Pline T) (h : p.verts ≠ []) :
    Grown p.closed (arcLineJoin s1 s2 ccw eps p) := by
  unfold arcLineJoin
  dsimp only
  split
  · exact grown_connect _ _ _ _ _
  · exact grown_arcLineProcess _ _ _ _ _ _ h _ _
  · split <;> split <;> exact grown_arcLineProcess _ _ _ _ _ _ h _ _

theorem grown_arcArcProcess (s1 s2 : RawSeg T) (ccw : Bool) (eps : T) (c1 c2 : V2 T) (p : Pline T) (h : p.verts ≠ []) (i : V2 T) (b : Bool) :
    Grown p.closed (arcArcProcess s1 s2 ccw eps c1 c2 p i b) := by
  unfold arcArcProcess
  split
  · exact grown_connect _ _ _ _ _
  · refine (grown_trim _ _ _ _ p h).bind fun q _ hc => ?_
    dsimp only
    split <;> exact hc ▸ grown_add q _ _ _

theorem grown_arcArc (s1 s2 : RawSeg T) (ccw : Bool) (eps : T) (p : Pline T) (h : p.verts ≠ []) :
    Grown p.closed (arcArcJoin s1 s2 ccw eps p) := by
  unfold arcArcJoin
  dsimp only
  split
  · exact grown_connect _ _ _ _ _
  · exact grown_arcArcProcess _ _ _ _ _ _ _ h _ _
  · split
    · split <;> exact grown_arcArcProcess _ _ _ _ _ _ _ h _ _
    · split <;> exact grown_arcArcProcess _ _ _ _ _ _ _ h _ _
  · exact grown_addV _ _ _

theorem grown_join (ccw : Bool) (eps : T) (s1 s2 : RawSeg T) (p : Pline T) (h : p.verts ≠ []) : Grown p.closed (joinSegPair ccw eps s1 s2 p) := by
  unfold joinSegPair
  split
  · exact grown_lineLine _ _ _ _ _
  · exact grown_lineArc _ _ _ _ _
  · exact grown_arcLine _ _ _ _ _ h
  · exact grown_arcArc _ _ _ _ _ h

theorem grown_joins (ccw : Bool) (eps : T) (l : List (RawSeg T × RawSeg T)) (p : Pline T) (h : p.verts ≠ []) :
    Grown p.closed (joinPairs ccw eps l p) := by
  induction l generalizing p with
  | nil => exact Grown.ok h rfl
  | cons a l ih =>
    obtain ⟨s1, s2⟩ := a
    unfold joinPairs
    exact (grown_join ccw eps s1 s2 p h).bind fun q hq hc => hc ▸ ih q hq

theorem grown_setVertex (p : Pline T) {i : Nat} (h : i < p.verts.length) (v : Vertex T) : Grown p.closed (p.setVertex i v) := by
  unfold setVertex
  rw [if_pos h]
  refine ⟨_, rfl, ?_, rfl⟩
  rw [← List.length_pos_iff]
  simp
  omega

theorem grown_updateFirst (p closing : Pline T) (h : p.verts ≠ []) (hc : closing.verts ≠ []) : Grown p.closed (rawUpdateFirst p closing) := by
  obtain ⟨l, hl, -⟩ := last_ok closing hc
  have hpos : 0 < p.verts.length := List.length_pos_iff.mpr h
  unfold rawUpdateFirst
  simp only [hl, at_lt hpos, bind, Except.bind]
  split
  · exact grown_setVertex p hpos _
  · split
    · rename_i h1
      have h1' : 1 < p.verts.length := h1
      simp only [at_lt h1']
      split <;> exact grown_setVertex p hpos _
    · exact Grown.ok h rfl

theorem grown_pruneFirst (eps : T) (q : Pline T) (h : q.verts ≠ []) :
    Grown q.closed (if q.vertexCount > 1 then (do
      let a ← q.at 0
      let b ← q.at 1
      if a.pos.fuzzyEqEps b.pos eps = true then (do let r ← q.remove 0; .ok r.2) else .ok q) else .ok q) := by
  have hqpos : 0 < q.verts.length := List.length_pos_iff.mpr h
  split
  · rename_i h2
    have h2' : 1 < q.verts.length := h2
    simp only [at_lt hqpos, at_lt h2', bind, Except.bind]
    split
    · unfold remove
      rw [List.getElem?_eq_getElem hqpos]
      refine ⟨_, rfl, ?_, rfl⟩
      rw [← List.length_pos_iff]
      simp only [List.length_eraseIdx, hqpos, if_true]
      omega
    · exact Grown.ok h rfl
  · exact Grown.ok h rfl

theorem grown_finalPrune (eps : T) (p : Pline T) (h : p.verts ≠ []) : Grown p.closed (rawFinalPrune eps p) := by
  obtain ⟨l, hl, -⟩ := last_ok p h
  have hpos : 0 < p.verts.length := List.length_pos_iff.mpr h
  unfold rawFinalPrune
  split
  · rename_i h1
    have h1' : 1 < p.verts.length := h1
    simp only [hl, at_lt hpos]
    simp only [bind, Except.bind]
    split
    · obtain ⟨v, hv⟩ := removeLast_eq p h
      rw [hv]
      have hne : (⟨p.verts.dropLast, p.closed⟩ : Pline T).verts ≠ [] := by
        rw [← List.length_pos_iff]
        simp
        omega
      exact grown_pruneFirst eps ⟨p.verts.dropLast, p.closed⟩ hne
    · have := grown_pruneFirst eps p h
      rw [if_pos h1] at this
      exact this
  · exact Grown.ok h rfl

theorem grown_close (ccw : Bool) (eps : T) (sl s0 : RawSeg T) (b : Bool) (p : Pline T) (h : p.verts ≠ []) :
    Grown p.closed (rawClose ccw eps sl s0 b p) := by
  obtain ⟨l, hl, -⟩ := last_ok p h
  obtain ⟨cl, hcl, hcl1, -⟩ := grown_join ccw eps sl s0 ⟨[l], false⟩ (by simp)
  have hclpos : 0 < cl.verts.length := List.length_pos_iff.mpr hcl1
  obtain ⟨q, hq, hq1, hq2⟩ := grown_setLast p h cl.verts[0]
  have he : (q.extendVertexes (cl.verts.drop 1)).verts ≠ [] := by
    unfold extendVertexes
    simp [hq1]
  unfold rawClose
  simp only [hl, hcl, at_lt hclpos, hq, bind, Except.bind]
  cases b with
  | true =>
    simp only [Bool.not_true, Bool.false_eq_true, if_false]
    have := grown_finalPrune eps (q.extendVertexes (cl.verts.drop 1)) he
    rwa [show (q.extendVertexes (cl.verts.drop 1)).closed = p.closed from hq2] at this
  | false =>
    simp only [Bool.not_false, if_true]
    obtain ⟨r, hr, hr1, hr2⟩ := grown_updateFirst _ cl he hcl1
    rw [hr]
    have := grown_finalPrune eps r hr1
    rwa [hr2, show (q.extendVertexes (cl.verts.drop 1)).closed = p.closed from hq2] at this

/-- Creating the raw offset polyline does not panic; the result is empty or it has at least two
vertexes and is closed just as the input is. -/
theorem rawOffset_ok (p : Pline T) (offset eps : T) :
    ∃ q, createRawOffsetPolyline p offset eps = .ok q ∧ (q.verts = [] ∨ (2 ≤ q.verts.length ∧ q.closed = p.closed)) := by
  unfold createRawOffsetPolyline
  split
  · exact ⟨_, rfl, Or.inl rfl⟩
  · split
    · exact ⟨_, rfl, Or.inl rfl⟩
    · rename_i s0 rest hs
      split
      · exact ⟨_, rfl, Or.inl rfl⟩
      · dsimp only
        obtain ⟨q1, hq1, hn1, hc1⟩ := grown_joins (lt offset 0) eps (((s0 :: rest).zip rest).take 1) ⟨[s0.v1], p.closed⟩ (by simp)
        obtain ⟨q2, hq2, hn2, hc2⟩ := grown_joins (lt offset 0) eps (((s0 :: rest).zip rest).drop 1) q1 hn1
        have hcl : q2.closed = p.closed := by rw [hc2, hc1]
        have fin : ∀ q3 : Pline T, q3.verts ≠ [] → q3.closed = p.closed →
            ∃ q, (.ok (if (q3.vertexCount == 1) = true then q3.clear else q3) : M (Pline T)) = .ok q ∧
              (q.verts = [] ∨ (2 ≤ q.verts.length ∧ q.closed = p.closed)) := by
          intro q3 hn3 hc3
          refine ⟨_, rfl, ?_⟩
          have hpos : 0 < q3.verts.length := List.length_pos_iff.mpr hn3
          split
          · exact Or.inl rfl
          · rename_i h1
            right
            refine ⟨?_, hc3⟩
            have : q3.verts.length ≠ 1 := by simpa [vertexCount] using h1
            omega
        simp only [hq1, hq2, bind, Except.bind]
        split
        · obtain ⟨q3, hq3, hn3, hc3⟩ := grown_close (lt offset 0) eps ((s0 :: rest).getLast (by simp)) s0 (q1.vertexCount == 1) q2 hn2
          rw [hq3]
          exact fin q3 hn3 (hc3.trans hcl)
        · obtain ⟨q3, hq3, hn3, hc3⟩ := grown_addV q2 ((s0 :: rest).getLast (by simp)).v2 eps
          rw [hq3]
          exact fin q3 hn3 (hc3.trans hcl)

end Cavc
