import Verif.Props.View

/-! # C12: rotate_start -/

set_option linter.unusedSectionVars false

namespace Cavc
open Scalar Pline
variable {T : Type} [Scalar T]

theorem wrapping_eq_rotate (p : Pline T) {i : Nat} (hi : i < p.verts.length) :
    p.wrappingVertexesStartingAt i = p.verts.rotate i := by
  unfold wrappingVertexesStartingAt vertexCount
  rw [List.rotate_eq_drop_append_take (by omega), List.take_of_length_le (by simp)]

/-- The path of a closed polyline with rotated vertexes is the rotated path. -/
theorem path_rotate (vs : List (Vertex T)) (h2 : 2 ≤ vs.length) (i : Nat) :
    (⟨vs.rotate i, true⟩ : Pline T).path = (⟨vs, true⟩ : Pline T).path.rotate i := by
  have hsc : ∀ us : List (Vertex T), us.length = vs.length →
      (⟨us, true⟩ : Pline T).segmentCount = vs.length := by
    intro us hu
    unfold segmentCount vertexCount; simp only [hu, if_true]
    rw [if_neg (by omega)]
  have hlr : (vs.rotate i).length = vs.length := List.length_rotate ..
  apply List.ext_getElem?
  intro j
  by_cases hj : j < vs.length
  · have hpl : (⟨vs, true⟩ : Pline T).path.length = vs.length := by
      rw [path_length_eq, hsc vs rfl]
    rw [List.getElem?_rotate (by rw [hpl]; exact hj), hpl]
    have hjl : j < (vs.rotate i).length := by rw [hlr]; exact hj
    have hm : (j + i) % vs.length < vs.length := Nat.mod_lt _ (by omega)
    rw [path_getElem ⟨vs.rotate i, true⟩ j (by rw [hsc _ hlr]; exact hj) hjl
        (Nat.mod_lt _ (by show 0 < (vs.rotate i).length; omega)),
      path_getElem ⟨vs, true⟩ ((j + i) % vs.length) (by rw [hsc _ rfl]; exact hm) hm
        (Nat.mod_lt _ (by show 0 < vs.length; omega))]
    simp only [List.getElem_rotate, hlr, Nat.mod_add_mod]
    have e : (j + 1 + i) % vs.length = (j + i + 1) % vs.length := by
      congr 1; omega
    simp only [e]
  · rw [List.getElem?_eq_none (by rw [path_length_eq, hsc _ hlr]; omega),
      List.getElem?_eq_none (by rw [List.length_rotate, path_length_eq, hsc _ rfl]; omega)]

/-- **C12** `rotate_start` never panics; `None` exactly for open polylines, fewer than two vertexes
or an index out of range. -/
theorem C12_none (p : Pline T) (i : Nat) (pt : V2 T) (eps : T) :
    ∃ r, p.rotateStart i pt eps = .ok r ∧
      (r = none ↔ (p.closed = false ∨ p.verts.length < 2 ∨ p.verts.length ≤ i)) ∧
      ∀ q, r = some q → q.closed = true := by
  unfold rotateStart vertexCount
  dsimp only
  by_cases hcond : (!p.closed || decide (p.verts.length < 2) || decide (i > p.verts.length - 1)) = true
  · rw [if_pos hcond]
    refine ⟨none, rfl, ?_, fun q h => by simp at h⟩
    simp only [Bool.or_eq_true, Bool.not_eq_true', decide_eq_true_eq] at hcond
    simp only [true_iff]
    rcases hcond with (h | h) | h
    · exact Or.inl h
    · exact Or.inr (Or.inl h)
    · right; right; omega
  · rw [if_neg hcond]
    simp only [Bool.or_eq_true, Bool.not_eq_true', decide_eq_true_eq, not_or, Bool.not_eq_false] at hcond
    obtain ⟨⟨hc, h2⟩, hi⟩ := hcond
    have hi' : i < p.verts.length := by omega
    have hno : ¬ (p.closed = false ∨ p.verts.length < 2 ∨ p.verts.length ≤ i) := by
      rintro (h | h | h)
      · rw [hc] at h; cases h
      · omega
      · omega
    simp only [at_lt hi', at_lt (nextWrap_lt p hi'), bind, Except.bind]
    split_ifs with ha hb
    · exact ⟨_, rfl, by simpa using hno, fun q h => by simp at h; rw [← h]⟩
    · exact ⟨_, rfl, by simpa using hno, fun q h => by simp at h; rw [← h]⟩
    · unfold setLast
      rw [if_neg (by simp), setVertex_lt (by simp)]
      exact ⟨_, rfl, by simpa using hno, fun q h => by simp at h; rw [← h]⟩

/-- **C12** When the point is on a vertex (the start or the end of the given segment), the path of
the result is the source path rotated to that vertex. -/
theorem C12_at_vertex (p : Pline T) (hc : p.closed = true) (h2 : 2 ≤ p.verts.length) (i : Nat)
    (v w : Vertex T) (hv : p.verts[i]? = some v) (hw : cycAt p (i + 1) = some w) (pt : V2 T) (eps : T) :
    (v.pos.fuzzyEqEps pt eps = true →
      ∃ q, p.rotateStart i pt eps = .ok (some q) ∧ q.closed = true ∧
        q.verts.head? = some v ∧ q.path = p.path.rotate i) ∧
    (v.pos.fuzzyEqEps pt eps = false → pt.fuzzyEqEps w.pos eps = true →
      ∃ q, p.rotateStart i pt eps = .ok (some q) ∧ q.closed = true ∧
        q.verts.head? = some w ∧ q.path = p.path.rotate (i + 1)) := by
  obtain ⟨hi, hv'⟩ := List.getElem?_eq_some_iff.mp hv
  obtain ⟨vs, c⟩ := p
  simp only at hc
  subst hc
  have hn := nextWrap_lt (⟨vs, true⟩ : Pline T) hi
  have hnx := nextWrap_eq (⟨vs, true⟩ : Pline T) hi
  simp only at hi hv' h2 hn hnx
  have hw' : vs[(⟨vs, true⟩ : Pline T).nextWrap i] = w := by
    unfold cycAt at hw
    simp only at hw
    obtain ⟨_, h⟩ := List.getElem?_eq_some_iff.mp hw
    simp only [hnx]; exact h
  have hat : (⟨vs, true⟩ : Pline T).at i = .ok v := at_ok hv
  have hat' : (⟨vs, true⟩ : Pline T).at ((⟨vs, true⟩ : Pline T).nextWrap i) = .ok w := by
    rw [at_lt hn]; simp only [hw']
  unfold rotateStart vertexCount
  dsimp only
  rw [if_neg (by simp; omega)]
  simp only [hat, hat', bind, Except.bind]
  constructor
  · intro h
    rw [if_pos h]
    refine ⟨_, rfl, rfl, ?_, ?_⟩
    · show (wrappingVertexesStartingAt (⟨vs, true⟩ : Pline T) i).head? = _
      rw [wrapping_eq_rotate _ hi, List.head?_eq_getElem?, List.getElem?_rotate (by show 0 < vs.length; omega),
        Nat.zero_add, Nat.mod_eq_of_lt hi]
      exact hv
    · rw [wrapping_eq_rotate _ hi]; exact path_rotate vs h2 i
  · intro h h'
    rw [if_neg (by simp [h]), if_pos h']
    refine ⟨_, rfl, rfl, ?_, ?_⟩
    · show (wrappingVertexesStartingAt (⟨vs, true⟩ : Pline T) _).head? = _
      rw [wrapping_eq_rotate _ hn, List.head?_eq_getElem?, List.getElem?_rotate (by show 0 < vs.length; omega),
        Nat.zero_add, hnx, Nat.mod_mod]
      exact hw
    · rw [wrapping_eq_rotate _ hn, hnx, List.rotate_mod]
      exact path_rotate vs h2 (i + 1)

/-- **C12** When the point is on neither vertex, the result starts at the split vertex; its path is
the source path rotated to the next vertex, where the segment with the point is cut in two as given
by `seg_split_at_point`: the second part comes first and the first part last. -/
theorem C12_split (p : Pline T) (hc : p.closed = true) (h2 : 2 ≤ p.verts.length) (i : Nat)
    (v w : Vertex T) (hv : p.verts[i]? = some v) (hw : cycAt p (i + 1) = some w) (pt : V2 T) (eps : T)
    (hvp : v.pos.fuzzyEqEps pt eps = false) (hpw : pt.fuzzyEqEps w.pos eps = false) :
    ∃ q, p.rotateStart i pt eps = .ok (some q) ∧ q.closed = true ∧
      q.verts = (segSplitAtPoint v w pt eps).splitVertex ::
        ((p.verts.rotate (i + 1)).dropLast ++ [(segSplitAtPoint v w pt eps).updatedStart]) ∧
      (p.verts.rotate (i + 1)).getLast? = some v ∧
      q.verts.length = p.verts.length + 1 := by
  obtain ⟨hi, hv'⟩ := List.getElem?_eq_some_iff.mp hv
  obtain ⟨vs, c⟩ := p
  simp only at hc
  subst hc
  have hn := nextWrap_lt (⟨vs, true⟩ : Pline T) hi
  have hnx := nextWrap_eq (⟨vs, true⟩ : Pline T) hi
  simp only at hi hv' h2 hn hnx
  have hw' : vs[(⟨vs, true⟩ : Pline T).nextWrap i] = w := by
    unfold cycAt at hw
    simp only at hw
    obtain ⟨_, h⟩ := List.getElem?_eq_some_iff.mp hw
    simp only [hnx]; exact h
  have hat : (⟨vs, true⟩ : Pline T).at i = .ok v := at_ok hv
  have hat' : (⟨vs, true⟩ : Pline T).at ((⟨vs, true⟩ : Pline T).nextWrap i) = .ok w := by
    rw [at_lt hn]; simp only [hw']
  unfold rotateStart vertexCount
  dsimp only
  rw [if_neg (by simp; omega)]
  simp only [hat, hat', bind, Except.bind]
  rw [if_neg (by simp [hvp]), if_neg (by simp [hpw]), wrapping_eq_rotate _ hn, hnx, List.rotate_mod]
  have hrl : (vs.rotate (i + 1)).length = vs.length := List.length_rotate ..
  have hlast : (vs.rotate (i + 1)).getLast? = some v := by
    rw [List.getLast?_eq_getElem?, hrl, List.getElem?_rotate (by omega)]
    have : (vs.length - 1 + (i + 1)) % vs.length = i := by
      rw [show vs.length - 1 + (i + 1) = i + vs.length by omega, mod_self_add hi]
    rw [this]; exact hv
  obtain ⟨ini, l, hini⟩ := (List.eq_nil_or_concat (vs.rotate (i + 1))).resolve_left (by
    intro h; rw [h] at hrl; simp at hrl; omega)
  rw [List.concat_eq_append] at hini
  unfold setLast
  rw [if_neg (by simp), setVertex_lt (by simp)]
  refine ⟨_, rfl, rfl, ?_, hlast, ?_⟩
  · simp only [hini]
    simp
  · simp [hrl]

/-- Non-vacuity for C12: the point is inside a segment. -/
example : exSquare.rotateStart 1 ⟨2, 1⟩ (1 / 1000) =
    .ok (some ⟨[⟨2, 1, 0⟩, ⟨2, 2, 0⟩, ⟨0, 2, 0⟩, ⟨0, 0, 0⟩, ⟨2, 0, 0⟩], true⟩) ∧
    exSquare.verts[1]? = some ⟨2, 0, 0⟩ ∧ cycAt exSquare 2 = some ⟨2, 2, 0⟩ := by decide +kernel

end Cavc
