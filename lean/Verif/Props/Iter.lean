import Verif.Model.Iter
import Verif.Props.Indexing
import Verif.Spec.RatScalar

/-! # C52 editing calls, C53 iterators -/

set_option linter.unusedSectionVars false

namespace Cavc
open Scalar Pline
variable {T : Type} [Scalar T]

/-- Specification of an editing call by what can be observed afterwards: the vertex returned, the
number of vertexes, the vertex at every index and the closed flag.  `none` when the call panics. -/
structure Observed (T : Type) where
  returned : Option (Vertex T)
  count : Nat
  vertexAt : Nat → Option (Vertex T)
  closed : Bool

/-- What each call must do to a polyline of `n` vertexes `f 0, …, f (n - 1)` with closed flag `c`. -/
def editSpec (n : Nat) (f : Nat → Option (Vertex T)) (c : Bool) : Edit T → Option (Observed T)
  | .set i v => if i < n then some ⟨none, n, fun j => if j = i then some v else f j, c⟩ else none
  | .setLast v => if 0 < n then some ⟨none, n, fun j => if j + 1 = n then some v else f j, c⟩ else none
  | .insert i v => if i ≤ n then
      some ⟨none, n + 1, fun j => if j < i then f j else if j = i then some v else f (j - 1), c⟩ else none
  | .remove i => if i < n then some ⟨f i, n - 1, fun j => if j < i then f j else f (j + 1), c⟩ else none
  | .removeLast => if 0 < n then some ⟨f (n - 1), n - 1, fun j => if j + 1 < n then f j else none, c⟩ else none
  | .clear => some ⟨none, 0, fun _ => none, c⟩
  | .add v => some ⟨none, n + 1, fun j => if j = n then some v else f j, c⟩
  | .extend o => some ⟨none, n + o.vertexCount, fun j => if j < n then f j else o.get (j - n), c⟩
  | .setIsClosed c' => some ⟨none, n, f, c'⟩

/-- the observations of a result -/
def observe (r : M (Option (Vertex T) × Pline T)) : Option (Observed T) :=
  match r with
  | .ok (v, q) => some ⟨v, q.vertexCount, q.get, q.closed⟩
  | .error _ => none

/-- **C52** Every editing call on every polyline does what its documentation says: it panics exactly
for an index out of range (or the last vertex of an empty polyline), and otherwise the returned
vertex, the count, the vertex at every index and the closed flag are as specified. -/
theorem C52_edit (p : Pline T) (e : Edit T) :
    observe (p.edit e) = editSpec p.vertexCount p.get p.closed e := by
  cases e with
  | set i v =>
    unfold Pline.edit setVertex editSpec vertexCount
    by_cases h : i < p.verts.length
    · simp only [h, if_true, bind, Except.bind, observe, vertexCount, List.length_set, Option.some.injEq, Observed.mk.injEq, true_and, and_true]
      funext j
      unfold Pline.get
      simp only [List.getElem?_set]
      by_cases hj : i = j
      · subst hj; simp [h]
      · simp [hj, Ne.symm hj]
    · simp [h, bind, Except.bind, observe]
  | setLast v =>
    unfold Pline.edit setLast setVertex editSpec vertexCount
    by_cases h : p.verts.length = 0
    · simp [h, bind, Except.bind, observe]
    · have h1 : p.verts.length - 1 < p.verts.length := by omega
      have h0 : 0 < p.verts.length := by omega
      simp only [h, h1, h0, if_true, if_false, bind, Except.bind, observe, vertexCount, List.length_set, Option.some.injEq, Observed.mk.injEq, true_and, and_true]
      funext j
      unfold Pline.get
      simp only [List.getElem?_set]
      by_cases hj : p.verts.length - 1 = j
      · subst hj
        rw [if_pos rfl, if_pos h1, if_pos (by omega)]
      · rw [if_neg hj, if_neg (by omega)]
  | insert i v =>
    unfold Pline.edit insertVertex editSpec vertexCount
    by_cases h : i ≤ p.verts.length
    · simp only [h, if_true, bind, Except.bind, observe, vertexCount, List.length_insertIdx, Option.some.injEq, Observed.mk.injEq, true_and, and_true]
      funext j
      unfold Pline.get
      rw [List.getElem?_insertIdx]
      by_cases hj : j < i
      · simp [hj]
      · by_cases hji : j = i
        · subst hji; simp [h]
        · simp [hj, hji]
    · simp [h, bind, Except.bind, observe]
  | remove i =>
    unfold Pline.edit remove editSpec vertexCount
    by_cases h : i < p.verts.length
    · simp only [List.getElem?_eq_getElem h, h, if_true, bind, Except.bind, observe, vertexCount, List.length_eraseIdx, Option.some.injEq, Observed.mk.injEq, and_true, true_and, Pline.get]
      funext j
      simp only [Pline.get]
      rw [List.getElem?_eraseIdx]
    · simp [List.getElem?_eq_none (Nat.not_lt.mp h), h, bind, Except.bind, observe]
  | removeLast =>
    unfold Pline.edit removeLast remove editSpec vertexCount
    by_cases h : p.verts.length = 0
    · simp [h, bind, Except.bind, observe]
    · have h1 : p.verts.length - 1 < p.verts.length := by omega
      have h0 : 0 < p.verts.length := by omega
      simp only [List.getElem?_eq_getElem h1, h, h0, h1, if_true, if_false, bind, Except.bind, observe, vertexCount, List.length_eraseIdx, Option.some.injEq, Observed.mk.injEq, and_true, true_and, Pline.get]
      funext j
      simp only [Pline.get]
      rw [List.getElem?_eraseIdx]
      by_cases hj : j + 1 < p.verts.length
      · rw [if_pos (by omega), if_pos hj]
      · rw [if_neg (by omega), if_neg hj, List.getElem?_eq_none (by omega)]
  | clear => 
    simp only [Pline.edit, clear, observe, editSpec, vertexCount, List.length_nil, Option.some.injEq, Observed.mk.injEq, true_and, and_true]
    funext j
    simp [Pline.get]
  | add v =>
    simp only [Pline.edit, addVertex, observe, editSpec, vertexCount, List.length_append, List.length_singleton, Option.some.injEq, Observed.mk.injEq, true_and, and_true]
    funext j
    unfold Pline.get
    change _ = if j = p.verts.length then some v else p.verts[j]?
    by_cases hj : j < p.verts.length
    · rw [List.getElem?_append_left hj, if_neg (by omega)]
    · rw [List.getElem?_append_right (by omega)]
      by_cases hjn : j = p.verts.length
      · subst hjn; simp
      · rw [if_neg hjn, List.getElem?_eq_none (by simp; omega), List.getElem?_eq_none (by omega)]
  | extend o =>
    simp only [Pline.edit, extendVertexes, observe, editSpec, vertexCount, List.length_append, Option.some.injEq, Observed.mk.injEq, true_and, and_true]
    funext j
    unfold Pline.get
    change _ = if j < p.verts.length then p.verts[j]? else o.verts[j - p.verts.length]?
    by_cases hj : j < p.verts.length
    · rw [List.getElem?_append_left hj, if_pos hj]
    · rw [List.getElem?_append_right (by omega), if_neg hj]
  | setIsClosed c => rfl

/-- A client pulling from both ends of a list of remaining items. -/
def dequeRun {α : Type} : List α → List Bool → List (Option α × Nat)
  | _, [] => []
  | l, true :: calls => (l.head?, l.tail.length) :: dequeRun l.tail calls
  | l, false :: calls => (l.getLast?, l.dropLast.length) :: dequeRun l.dropLast calls

theorem vertexIter_run (p : Pline T) : ∀ (calls : List Bool) (a b : Nat), a ≤ b → b ≤ p.verts.length →
    VertexIter.run p ⟨a, b⟩ calls = .ok (dequeRun ((p.verts.take b).drop a) calls)
  | [], _, _, _, _ => rfl
  | true :: calls, a, b, hab, hb => by
    unfold VertexIter.run dequeRun VertexIter.next VertexIter.sizeHint
    by_cases h : a = b
    · subst h
      have hnil : (p.verts.take a).drop a = [] := by simp
      rw [hnil]
      simp only [if_true, bind, Except.bind]
      rw [if_neg (by omega)]
      have ih := vertexIter_run p calls a a (Nat.le_refl _) hb
      rw [hnil] at ih
      simp [ih]
    · have hlt : a < b := by omega
      have hcons : (p.verts.take b).drop a = p.verts[a] :: (p.verts.take b).drop (a + 1) := by
        rw [List.drop_eq_getElem_cons (by simp; omega)]
        simp
      simp only [if_true, h, if_false, bind, Except.bind]
      rw [if_neg (by omega)]
      have ih := vertexIter_run p calls (a + 1) b hlt hb
      rw [hcons]
      simp only [ih, List.head?_cons, List.tail_cons, List.length_drop, List.length_take, Pline.get]
      rw [List.getElem?_eq_getElem (by omega), Nat.min_eq_left hb]
  | false :: calls, a, b, hab, hb => by
    unfold VertexIter.run dequeRun VertexIter.nextBack VertexIter.sizeHint
    by_cases h : a = b
    · subst h
      have hnil : (p.verts.take a).drop a = [] := by simp
      rw [hnil]
      simp only [if_true, Bool.false_eq_true, if_false, bind, Except.bind]
      rw [if_neg (by omega)]
      have ih := vertexIter_run p calls a a (Nat.le_refl _) hb
      rw [hnil] at ih
      simp [ih]
    · have hlt : a < b := by omega
      have hsnoc : (p.verts.take b).drop a = (p.verts.take (b - 1)).drop a ++ [p.verts[b - 1]] := by
        have : p.verts.take b = p.verts.take (b - 1) ++ [p.verts[b - 1]] := by
          have := List.take_succ_eq_append_getElem (i := b - 1) (l := p.verts) (by omega)
          rwa [show b - 1 + 1 = b by omega] at this
        rw [this, List.drop_append_of_le_length (by simp; omega)]
      have h0 : b ≠ 0 := by omega
      simp only [if_true, Bool.false_eq_true, h, h0, if_false, bind, Except.bind]
      rw [if_neg (by omega)]
      have ih := vertexIter_run p calls a (b - 1) (by omega) (by omega)
      rw [hsnoc]
      simp only [ih, List.getLast?_concat, List.dropLast_concat, List.length_drop, List.length_take, Pline.get]
      rw [List.getElem?_eq_getElem (by omega), Nat.min_eq_left (by omega)]

/-- **C53** `iter_vertexes`: for every polyline and every interleaving of `next` and `next_back`, the
answers and the remaining sizes are those of taking from the two ends of the vertex list; in
particular every vertex is given exactly once, and nothing panics. -/
theorem C53_vertex_iter (p : Pline T) (calls : List Bool) :
    VertexIter.run p (VertexIter.new p) calls = .ok (dequeRun p.verts calls) := by
  have := vertexIter_run p calls 0 p.verts.length (Nat.zero_le _) (Nat.le_refl _)
  simpa [VertexIter.new, vertexCount] using this

/-- The answers of an iterator over a list that is asked `k` times. -/
def takeRun {α : Type} : List α → Nat → List (Option α × Nat)
  | _, 0 => []
  | l, k + 1 => (l.head?, l.tail.length) :: takeRun l.tail k

theorem segIter_run_done (p : Pline T) (hc : p.closed = true ∨ p.verts.length < 2) (pos : Nat) : ∀ k,
    SegIter.run p ⟨pos, true⟩ k = .ok (takeRun [] k)
  | 0 => rfl
  | k + 1 => by
    unfold SegIter.run takeRun SegIter.next SegIter.sizeHint
    simp [bind, Except.bind, segIter_run_done p hc pos k]

theorem segIter_run (p : Pline T) (h2 : 2 ≤ p.verts.length) : ∀ (k pos : Nat), pos < p.verts.length →
    SegIter.run p ⟨pos, false⟩ k = .ok (takeRun (p.segs.drop pos) k)
  | 0, _, _ => rfl
  | k + 1, pos, hpos => by
    have hlen : p.segs.length = if p.closed then p.verts.length else p.verts.length - 1 := by
      rw [segs_length]; unfold segmentCount vertexCount; dsimp only; rw [if_neg (by omega)]
    unfold SegIter.run takeRun SegIter.next
    dsimp only
    unfold vertexCount
    simp only [Bool.false_eq_true, if_false]
    by_cases hp : pos = p.verts.length - 1
    · rw [if_pos hp]
      by_cases hc : p.closed = true
      · rw [if_pos hc] at hlen ⊢
        obtain ⟨a, b, ha, hb, hs⟩ := segs_getElem? p pos (by rw [← segs_length]; omega)
        rw [show (pos + 1) % p.verts.length = 0 by rw [hp, Nat.sub_add_cancel (by omega), Nat.mod_self]] at hb
        have hdrop : p.segs.drop pos = [(a, b)] := by
          rw [List.drop_eq_getElem_cons (by omega)]
          rw [List.getElem?_eq_getElem (by omega)] at hs
          rw [Option.some.inj hs, List.drop_eq_nil_of_le (by omega)]
        rw [← hp]
        simp only [at_ok ha, at_ok hb, bind, Except.bind, SegIter.sizeHint, if_true, segIter_run_done p (Or.inl hc), hdrop]
        rfl
      · rw [if_neg hc] at hlen ⊢
        have hdrop : p.segs.drop pos = [] := List.drop_eq_nil_of_le (by omega)
        have ih := segIter_run p h2 k pos hpos
        rw [hdrop] at ih ⊢
        have hh : SegIter.sizeHint p ⟨pos, false⟩ = .ok 0 := by
          unfold SegIter.sizeHint
          rw [if_neg (by simp), if_neg hc]
          dsimp only
          unfold vertexCount
          rw [if_neg (by omega), show p.verts.length - pos - 1 = 0 by omega]
        simp only [bind, Except.bind, hh, ih]
        rfl
    · rw [if_neg hp]
      have hlt : pos + 1 < p.verts.length := by omega
      obtain ⟨a, b, ha, hb, hs⟩ := segs_getElem? p pos (by rw [← segs_length, hlen]; split <;> omega)
      rw [Nat.mod_eq_of_lt hlt] at hb
      have hl' : pos < p.segs.length := by rw [hlen]; split <;> omega
      have hdrop : p.segs.drop pos = (a, b) :: p.segs.drop (pos + 1) := by
        rw [List.drop_eq_getElem_cons hl']
        rw [List.getElem?_eq_getElem hl'] at hs
        rw [Option.some.inj hs]
      have ih := segIter_run p h2 k (pos + 1) hlt
      rw [hdrop]
      have hh : SegIter.sizeHint p ⟨pos + 1, false⟩ = .ok (p.segs.length - (pos + 1)) := by
        unfold SegIter.sizeHint
        rw [if_neg (by simp)]
        dsimp only
        unfold vertexCount
        by_cases hc : p.closed = true
        · rw [if_pos hc] at hlen
          rw [if_pos hc, if_neg (by omega), hlen]
        · rw [if_neg hc] at hlen
          rw [if_neg hc, if_neg (by omega), hlen, show p.verts.length - (pos + 1) - 1 = p.verts.length - 1 - (pos + 1) by omega]
      simp only [at_ok ha, at_ok hb, bind, Except.bind, hh, ih,
        List.head?_cons, List.tail_cons, List.length_drop]

/-- **C53** `iter_segments`: however often `next` is called, also after the end, it gives the segments
in order and then nothing, the size hint is always the number of segments still to come, and nothing
panics. -/
theorem C53_segment_iter (p : Pline T) (k : Nat) :
    SegIter.run p (SegIter.new p) k = .ok (takeRun p.segs k) := by
  unfold SegIter.new vertexCount
  by_cases h : p.verts.length < 2
  · have hnil : p.segs = [] := by
      rw [← List.length_eq_zero_iff, segs_length]; simp [segmentCount, vertexCount, h]
    rw [decide_eq_true h, hnil]
    exact segIter_run_done p (Or.inr h) 0 k
  · rw [decide_eq_false h]
    have := segIter_run p (by omega) k 0 (by omega)
    simpa using this

/-- **C53** The same for `iter_segment_indexes`. -/
theorem C53_index_iter (p : Pline T) (k : Nat) :
    SegIdxIter.run (SegIdxIter.new p.vertexCount p.closed) k =
      takeRun ((List.range (specSegCount p.verts.length p.closed)).map (fun i => (i, (i + 1) % p.verts.length))) k := by
  have step : ∀ it : SegIdxIter, it.remaining ≠ 0 → ∃ x it', it.next = (some x, it') ∧ it'.remaining + 1 = it.remaining := by
    intro it h
    unfold SegIdxIter.next
    rw [if_neg h]
    dsimp only
    split
    · exact ⟨_, _, rfl, by dsimp only; omega⟩
    · exact ⟨_, _, rfl, by dsimp only; omega⟩
  have len : ∀ (n : Nat) (it : SegIdxIter), it.remaining = n → (SegIdxIter.collect (it.remaining + 1) it).length = n := by
    intro n
    induction n with
    | zero =>
      intro it h
      rw [h]
      simp [SegIdxIter.collect, SegIdxIter.next, h]
    | succ n ih =>
      intro it h
      obtain ⟨x, it', e, hr⟩ := step it (by omega)
      unfold SegIdxIter.collect
      rw [e]
      simp only [List.length_cons]
      rw [← hr, ih it' (by omega)]
  have key : ∀ (k : Nat) (it : SegIdxIter), SegIdxIter.run it k = takeRun (SegIdxIter.collect (it.remaining + 1) it) k := by
    intro k
    induction k with
    | zero => intro it; rfl
    | succ k ih =>
      intro it
      unfold SegIdxIter.run takeRun
      rw [ih]
      by_cases h : it.remaining = 0
      · have hn : it.next = (none, it) := by unfold SegIdxIter.next; rw [if_pos h]
        rw [hn, h]
        simp [SegIdxIter.collect, hn, SegIdxIter.sizeHint, h]
      · obtain ⟨x, it', e, hr⟩ := step it h
        have hcol : SegIdxIter.collect (it.remaining + 1) it = x :: SegIdxIter.collect (it'.remaining + 1) it' := by
          conv => lhs; unfold SegIdxIter.collect
          rw [e]
          simp only [hr]
        rw [hcol, e]
        simp only [List.head?_cons, List.tail_cons, SegIdxIter.sizeHint, len it'.remaining it' rfl]
  have hl : p.segIndexes = (List.range (specSegCount p.verts.length p.closed)).map (fun i => (i, (i + 1) % p.verts.length)) := by
    obtain ⟨h1, h2, _⟩ := C01_iter_segment_indexes p
    apply List.ext_getElem?
    intro i
    by_cases hi : i < p.segIndexes.length
    · rw [h2 i hi, List.getElem?_map, List.getElem?_range (by omega)]; rfl
    · rw [List.getElem?_eq_none (by omega), List.getElem?_eq_none (by simp; omega)]
  rw [← hl]
  exact key k _

/-- Inserting at the end of an open polyline, removing from its front, and one index too far. -/
example : observe (Pline.edit (⟨[⟨0, 0, 0⟩, ⟨1, 0, 0⟩], false⟩ : Pline Rat) (.insert 2 ⟨5, 5, 1⟩)) ≠ none ∧
    observe (Pline.edit (⟨[⟨0, 0, 0⟩, ⟨1, 0, 0⟩], false⟩ : Pline Rat) (.insert 3 ⟨5, 5, 1⟩)) = none ∧
    (observe (Pline.edit (⟨[⟨0, 0, 0⟩, ⟨1, 0, 0⟩], false⟩ : Pline Rat) (.remove 0))).bind (·.returned) = some ⟨0, 0, 0⟩ := by
  simp only [C52_edit]
  refine ⟨by simp [editSpec, vertexCount], by simp [editSpec, vertexCount], by simp [editSpec, vertexCount, Pline.get]⟩

/-- Vertexes taken alternately from both ends of a triangle, and twice past the end. -/
example : VertexIter.run (⟨[⟨0, 0, 0⟩, ⟨1, 0, 0⟩, ⟨0, 1, 0⟩], true⟩ : Pline Rat) ⟨0, 3⟩ [true, false, true, true, false]
    = .ok [(some ⟨0, 0, 0⟩, 2), (some ⟨0, 1, 0⟩, 1), (some ⟨1, 0, 0⟩, 0), (none, 0), (none, 0)] := by decide +kernel

end Cavc
