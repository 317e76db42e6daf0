import Mathlib.Data.List.Basic
import Verif.Model.Pline

/-! Lemmas about segment lists and iterators (helpers for `Props`). -/

set_option linter.unusedSectionVars false

namespace Cavc
open Scalar
variable {T : Type} [Scalar T]

namespace Pline

theorem pathSegs_length {α : Type} : ∀ l : List α, (pathSegs l).length = l.length - 1
  | [] => rfl
  | [_] => rfl
  | a :: b :: r => by
    have := pathSegs_length (b :: r)
    simp [pathSegs] at *
    omega

theorem pathSegs_getElem? {α : Type} : ∀ (l : List α) (i : Nat),
    (pathSegs l)[i]? = match l[i]?, l[i+1]? with
      | some a, some b => some (a, b)
      | _, _ => none
  | [], i => by simp [pathSegs]
  | [a], i => by cases i <;> simp [pathSegs]
  | a :: b :: r, 0 => by simp [pathSegs]
  | a :: b :: r, i + 1 => by
    have := pathSegs_getElem? (b :: r) i
    simpa [pathSegs] using this

/-- vertices followed around once: the vertex list whose consecutive pairs are the segments -/
def loopVerts (p : Pline T) : List (Vertex T) :=
  if p.verts.length < 2 then [] else
  if p.closed then p.verts ++ p.verts.take 1 else p.verts

theorem segs_eq (p : Pline T) : p.segs = pathSegs p.loopVerts := by
  unfold segs loopVerts
  rcases h : p.verts with _ | ⟨a, _ | ⟨b, r⟩⟩
  · rfl
  · rfl
  · have h2 : ¬ (a :: b :: r).length < 2 := by simp
    rw [if_neg h2]
    by_cases hc : p.closed <;> simp [hc]

theorem segs_length (p : Pline T) : p.segs.length = p.segmentCount := by
  rw [segs_eq, pathSegs_length]
  unfold loopVerts segmentCount vertexCount
  dsimp only
  split_ifs <;> simp_all
  omega

theorem segs_getElem? (p : Pline T) (i : Nat) (hi : i < p.segmentCount) :
    ∃ a b, p.verts[i]? = some a ∧ p.verts[(i + 1) % p.verts.length]? = some b ∧
      p.segs[i]? = some (a, b) := by
  rw [segs_eq, pathSegs_getElem?]
  unfold segmentCount vertexCount at hi
  unfold loopVerts
  dsimp only at hi
  split_ifs at hi with h1 h2
  · omega
  · rw [if_neg h1, if_pos h2]
    have hi' : i < p.verts.length := hi
    by_cases hl : i + 1 = p.verts.length
    · refine ⟨p.verts[i], p.verts[0], by simp, ?_, ?_⟩
      · rw [hl, Nat.mod_self]; simp; 
      · rw [List.getElem?_append_left hi', List.getElem?_append_right (by omega)]
        simp [hl]
        have : p.verts ≠ [] := by intro h; simp [h] at h1
        have h0 : 0 < p.verts.length := by omega
        simp [h0, hi']
    · refine ⟨p.verts[i], p.verts[i+1], by simp, ?_, ?_⟩
      · rw [Nat.mod_eq_of_lt (by omega)]; simp
      · rw [List.getElem?_append_left hi', List.getElem?_append_left (by omega)]
        simp [hi', show i + 1 < p.verts.length by omega]
  · rw [if_neg h1, if_neg h2]
    refine ⟨p.verts[i], p.verts[i+1], by simp, ?_, ?_⟩
    · rw [Nat.mod_eq_of_lt (by omega)]; simp
    · simp [show i < p.verts.length by omega, show i + 1 < p.verts.length by omega]

theorem at_ok {p : Pline T} {i : Nat} {v : Vertex T} (h : p.verts[i]? = some v) :
    p.at i = .ok v := by simp [«at», h]

theorem at_lt {p : Pline T} {i : Nat} (h : i < p.verts.length) : p.at i = .ok p.verts[i] :=
  at_ok (by simp)

theorem collect_exhausted (p : Pline T) (fuel pos : Nat) :
    SegIter.collect p (fuel + 1) ⟨pos, true⟩ = .ok (some []) := by
  simp [SegIter.collect, SegIter.next, bind, Except.bind]

theorem collect_from (p : Pline T) (h2 : 2 ≤ p.verts.length) :
    ∀ (d fuel k : Nat), p.segmentCount - k = d → k ≤ p.verts.length - 1 → d < fuel →
      SegIter.collect p fuel ⟨k, false⟩ = .ok (some (p.segs.drop k)) := by
  intro d
  induction d with
  | zero =>
    intro fuel k hd hk hf
    obtain ⟨fuel, rfl⟩ : ∃ f, fuel = f + 1 := ⟨fuel - 1, by omega⟩
    have hdrop : p.segs.drop k = [] := by
      rw [List.drop_eq_nil_iff, segs_length]; omega
    unfold segmentCount vertexCount at hd
    dsimp only at hd
    rw [if_neg (by omega)] at hd
    by_cases hc : p.closed
    · simp [hc] at hd; omega
    · simp [hc] at hd
      have : k = p.verts.length - 1 := by omega
      simp [SegIter.collect, SegIter.next, vertexCount, this, hc, bind, Except.bind]
      rw [List.drop_eq_nil_iff] at hdrop
      omega
  | succ d ih =>
    intro fuel k hd hk hf
    obtain ⟨fuel, rfl⟩ : ∃ f, fuel = f + 1 := ⟨fuel - 1, by omega⟩
    have hk' : k < p.segmentCount := by omega
    obtain ⟨a, b, ha, hb, hs⟩ := segs_getElem? p k hk'
    have hdrop : p.segs.drop k = (a, b) :: p.segs.drop (k + 1) := by
      rw [List.drop_eq_getElem?_toList_append, hs]; rfl
    by_cases hl : k = p.verts.length - 1
    · have hc : p.closed := by
        by_contra hc
        unfold segmentCount vertexCount at hk'
        dsimp only at hk'
        rw [if_neg (by omega)] at hk'
        simp [hc] at hk'
        omega
      have hl' : k + 1 = p.verts.length := by omega
      rw [hl', Nat.mod_self] at hb
      have hsc : p.segmentCount = p.verts.length := by
        unfold segmentCount vertexCount; dsimp only; rw [if_neg (by omega), if_pos hc]
      have : p.segs.drop (k + 1) = [] := by
        rw [List.drop_eq_nil_iff, segs_length]; omega
      obtain ⟨fuel, rfl⟩ : ∃ f, fuel = f + 1 := ⟨fuel - 1, by omega⟩
      rw [hdrop, this]
      subst hl
      rw [SegIter.collect]
      simp only [SegIter.next, vertexCount, hc, at_ok ha, at_ok hb, bind, Except.bind]
      simp [collect_exhausted]
    · have hk1 : k + 1 < p.verts.length := by omega
      rw [Nat.mod_eq_of_lt hk1] at hb
      have := ih fuel (k + 1) (by omega) (by omega) (by omega)
      rw [hdrop, SegIter.collect]
      simp [SegIter.next, vertexCount, hl, at_ok ha, at_ok hb, this, bind, Except.bind]

theorem segIdx_collect_closed : ∀ (r fuel k : Nat), r ≤ fuel →
    SegIdxIter.collect (fuel + 1) ⟨k, r + 1, true⟩
      = (List.range r).map (fun j => (k + j, k + j + 1)) ++ [(k + r, 0)] := by
  intro r
  induction r with
  | zero =>
    intro fuel k _
    cases fuel <;> simp [SegIdxIter.collect, SegIdxIter.next]
  | succ r ih =>
    intro fuel k h
    obtain ⟨fuel, rfl⟩ : ∃ f, fuel = f + 1 := ⟨fuel - 1, by omega⟩
    rw [SegIdxIter.collect]
    simp [SegIdxIter.next, ih fuel (k + 1) (by omega), List.range_succ_eq_map, Nat.add_assoc,
      Nat.add_comm 1]

theorem segIdx_collect_open : ∀ (r fuel k : Nat), r ≤ fuel →
    SegIdxIter.collect (fuel + 1) ⟨k, r, false⟩
      = (List.range r).map (fun j => (k + j, k + j + 1)) := by
  intro r
  induction r with
  | zero => intro fuel k _; simp [SegIdxIter.collect, SegIdxIter.next]
  | succ r ih =>
    intro fuel k h
    obtain ⟨fuel, rfl⟩ : ∃ f, fuel = f + 1 := ⟨fuel - 1, by omega⟩
    rw [SegIdxIter.collect]
    simp [SegIdxIter.next, ih fuel (k + 1) (by omega), List.range_succ_eq_map, Nat.add_assoc,
      Nat.add_comm 1]

theorem segIndexes_eq (p : Pline T) :
    p.segIndexes = (List.range p.segmentCount).map (fun i => (i, (i + 1) % p.verts.length)) := by
  unfold segIndexes SegIdxIter.new segmentCount vertexCount
  dsimp only
  by_cases h2 : p.verts.length < 2
  · simp [h2, SegIdxIter.collect, SegIdxIter.next]
  · rw [if_neg h2]
    by_cases hc : p.closed
    · obtain ⟨n, hn⟩ : ∃ n, p.verts.length = n + 1 := ⟨p.verts.length - 1, by omega⟩
      simp only [hc, if_true, hn]
      rw [segIdx_collect_closed n (n + 1) 0 (by omega), List.range_succ, List.map_append]
      simp
      intro a ha
      rw [Nat.mod_eq_of_lt (by omega)]
    · simp only [hc]
      simp only [Bool.not_eq_true] at hc
      simp only [Bool.false_eq_true, if_false]
      rw [segIdx_collect_open _ _ 0 (by omega)]
      simp
      intro a ha
      rw [Nat.mod_eq_of_lt (by omega)]

end Pline
end Cavc
