import Verif.Lemmas.Segs

/-! # C01, C02: segment iteration and wrapping indexes -/

set_option linter.unusedSectionVars false

namespace Cavc
open Scalar
variable {T : Type} [Scalar T]
open Pline

/-- Specification: number of segments of a polyline with `n` vertices. -/
def specSegCount (n : Nat) (closed : Bool) : Nat :=
  if n < 2 then 0 else if closed then n else n - 1

/-- **C01** `iter_segments()`: running the iterator (with any sufficient number of `next` calls)
ends normally with `segment_count()` items, item `i` being `(at(i), at((i+1) mod n))`. -/
theorem C01_iter_segments (p : Pline T) :
    p.segmentCount = specSegCount p.verts.length p.closed ∧
    ∃ items, (∀ fuel, p.segmentCount < fuel →
        SegIter.collect p fuel (SegIter.new p) = .ok (some items)) ∧
      items = p.segs ∧
      items.length = specSegCount p.verts.length p.closed ∧
      ∀ i, i < items.length → ∃ a b, p.verts[i]? = some a ∧
        p.verts[(i + 1) % p.verts.length]? = some b ∧ items[i]? = some (a, b) := by
  have hc : p.segmentCount = specSegCount p.verts.length p.closed := rfl
  refine ⟨hc, p.segs, ?_, rfl, by rw [segs_length, hc], ?_⟩
  · intro fuel hf
    unfold SegIter.new vertexCount
    by_cases h2 : p.verts.length < 2
    · obtain ⟨fuel, rfl⟩ : ∃ f, fuel = f + 1 := ⟨fuel - 1, by omega⟩
      have : p.segs = [] := by
        rw [← List.length_eq_zero_iff, segs_length, hc]; simp [specSegCount, h2]
      simp [h2, collect_exhausted, this]
    · have := collect_from p (by omega) _ fuel 0 rfl (by omega) (by omega)
      simpa [h2] using this
  · intro i hi
    exact segs_getElem? p i (by rwa [← segs_length])

/-- **C01** `iter_segment_indexes()`: item `i` is `(i, (i+1) mod n)`, there are `segment_count()`
items and all indexes are in range. -/
theorem C01_iter_segment_indexes (p : Pline T) :
    p.segIndexes.length = specSegCount p.verts.length p.closed ∧
    (∀ i, i < p.segIndexes.length → p.segIndexes[i]? = some (i, (i + 1) % p.verts.length)) ∧
    ∀ ij ∈ p.segIndexes, ij.1 < p.verts.length ∧ ij.2 < p.verts.length := by
  have hc : p.segmentCount = specSegCount p.verts.length p.closed := rfl
  have hle : p.segmentCount ≤ p.verts.length := by rw [hc]; unfold specSegCount; split_ifs <;> omega
  rw [segIndexes_eq]
  refine ⟨by simp [hc], ?_, ?_⟩
  · intro i hi
    simp at hi
    simp [hi]
  · intro ij h
    simp only [List.mem_map, List.mem_range] at h
    obtain ⟨i, hi, rfl⟩ := h
    exact ⟨by omega, Nat.mod_lt _ (by omega)⟩

/-- **C02** next/prev are in range, mutually inverse and cyclic successor/predecessor. -/
theorem C02_next_prev (p : Pline T) (i : Nat) (hi : i < p.verts.length) :
    p.nextWrap i = (i + 1) % p.verts.length ∧
    p.prevWrap i = (i + (p.verts.length - 1)) % p.verts.length ∧
    p.nextWrap i < p.verts.length ∧ p.prevWrap i < p.verts.length ∧
    p.prevWrap (p.nextWrap i) = i ∧ p.nextWrap (p.prevWrap i) = i := by
  unfold nextWrap prevWrap vertexCount
  dsimp only
  refine ⟨?_, ?_, ?_, ?_, ?_, ?_⟩
  · split_ifs with h
    · rw [show i + 1 = p.verts.length by omega, Nat.mod_self]
    · rw [Nat.mod_eq_of_lt (by omega)]
  · split_ifs with h
    · subst h; rw [Nat.mod_eq_of_lt (by omega)]; omega
    · rw [show i + (p.verts.length - 1) = (i - 1) + p.verts.length by omega, Nat.add_mod_right,
        Nat.mod_eq_of_lt (by omega)]
  · split_ifs <;> omega
  · split_ifs <;> omega
  · by_cases h : i + 1 ≥ p.verts.length
    · simp only [if_pos h, if_true]; omega
    · simp only [if_neg h, Nat.add_one_ne_zero, if_false]; omega
  · by_cases h : i = 0
    · simp only [if_pos h]; rw [if_pos (by omega)]; omega
    · simp only [if_neg h]; rw [if_neg (by omega)]; omega

/-- **C02** `fwd_wrapping_index(i,k) = (i+k) mod n` for `k ≤ n`. -/
theorem C02_fwd_index (p : Pline T) (i k : Nat) (hi : i < p.verts.length)
    (hk : k ≤ p.verts.length) : p.fwdIndex i k = (i + k) % p.verts.length := by
  unfold fwdIndex vertexCount
  dsimp only
  split_ifs with h
  · rw [Nat.mod_eq_of_lt h]
  · rw [Nat.mod_eq_sub_mod (by omega), Nat.mod_eq_of_lt (by omega)]

/-- **C02** `fwd_wrapping_dist(i,j)` is the unique `d < n` with `(i + d) mod n = j`. -/
theorem C02_fwd_dist (p : Pline T) (i j : Nat) (hi : i < p.verts.length) (hj : j < p.verts.length) :
    p.fwdDist i j < p.verts.length ∧ (i + p.fwdDist i j) % p.verts.length = j ∧
    p.fwdIndex i (p.fwdDist i j) = j ∧
    ∀ d, d < p.verts.length → (i + d) % p.verts.length = j → d = p.fwdDist i j := by
  have h1 : p.fwdDist i j < p.verts.length := by
    unfold fwdDist vertexCount; split_ifs <;> omega
  have h2 : (i + p.fwdDist i j) % p.verts.length = j := by
    unfold fwdDist vertexCount
    split_ifs
    · rw [Nat.mod_eq_of_lt (by omega)]; omega
    · rw [show i + (p.verts.length - i + j) = j + p.verts.length by omega, Nat.add_mod_right,
        Nat.mod_eq_of_lt hj]
  refine ⟨h1, h2, ?_, ?_⟩
  · rw [C02_fwd_index p i _ hi (Nat.le_of_lt h1), h2]
  · intro d hd h
    by_cases hd' : i + d < p.verts.length
    · rw [Nat.mod_eq_of_lt hd'] at h
      unfold fwdDist vertexCount; split_ifs <;> omega
    · rw [Nat.mod_eq_sub_mod (by omega), Nat.mod_eq_of_lt (by omega)] at h
      unfold fwdDist vertexCount; split_ifs <;> omega

/-! Non-vacuity: a closed triangle. -/

/-- a closed triangle used in examples -/
def exTriangle (a b c : Vertex T) : Pline T := ⟨[a, b, c], true⟩

example (a b c : Vertex T) : (exTriangle a b c).segs = [(a, b), (b, c), (c, a)] := rfl
example (a b c : Vertex T) : (exTriangle a b c).segIndexes = [(0, 1), (1, 2), (2, 0)] := rfl
example (a b c : Vertex T) : (⟨[a, b, c], false⟩ : Pline T).segIndexes = [(0, 1), (1, 2)] := rfl
example (a b c : Vertex T) : (exTriangle a b c).nextWrap 2 = 0 ∧ (exTriangle a b c).prevWrap 0 = 2 ∧
    (exTriangle a b c).fwdIndex 2 2 = 1 ∧ (exTriangle a b c).fwdDist 2 1 = 2 := ⟨rfl, rfl, rfl, rfl⟩

end Cavc
