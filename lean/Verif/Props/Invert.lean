import Mathlib.Data.List.Rotate
import Verif.Spec.Path
import Verif.Lemmas.Invert
import Verif.Props.Indexing

/-! # C03: direction inversion -/

set_option linter.unusedSectionVars false

namespace Cavc
open Scalar
variable {T : Type} [Scalar T]
open Pline

theorem path_length_eq (p : Pline T) : p.path.length = p.segmentCount := by
  simp [Pline.path, segs_length]

theorem path_getElem? (p : Pline T) (i : Nat) (hi : i < p.segmentCount) :
    ∃ a b, p.verts[i]? = some a ∧ p.verts[(i + 1) % p.verts.length]? = some b ∧
      p.path[i]? = some ⟨⟨a.x, a.y⟩, ⟨b.x, b.y⟩, a.bulge⟩ := by
  obtain ⟨a, b, h1, h2, h3⟩ := segs_getElem? p i hi
  exact ⟨a, b, h1, h2, by simp [Pline.path, h3, pieceOf]⟩

theorem path_getElem (p : Pline T) (i : Nat) (hi : i < p.segmentCount)
    (h1 : i < p.verts.length) (h2 : (i + 1) % p.verts.length < p.verts.length) :
    p.path[i]? = some ⟨⟨p.verts[i].x, p.verts[i].y⟩,
      ⟨p.verts[(i + 1) % p.verts.length].x, p.verts[(i + 1) % p.verts.length].y⟩,
      p.verts[i].bulge⟩ := by
  obtain ⟨a, b, ha, hb, hp⟩ := path_getElem? p i hi
  rw [List.getElem?_eq_getElem h1] at ha
  rw [List.getElem?_eq_getElem h2] at hb
  simp only [Option.some.injEq] at ha hb
  rw [hp, ha, hb]

theorem reversePath_getElem? (l : List (Piece T)) (i : Nat) (hi : i < l.length) :
    (reversePath l)[i]? = (l[l.length - 1 - i]?).map Piece.flip := by
  have h : l.length - 1 - i < l.length := by omega
  simp [reversePath, hi, h]

/-- **C03** `invert_direction_mut` never panics, keeps the vertex count and the closed flag, and the
path of the result is the reversed path (for a closed polyline: as a cycle, the result starts one
segment further, at the old last vertex). -/
theorem C03_invert_path (p : Pline T) :
    ∃ q, p.invertDirectionMut = .ok q ∧ q.closed = p.closed ∧
      q.verts.length = p.verts.length ∧
      q.path = if p.closed then (reversePath p.path).rotate 1 else reversePath p.path := by
  by_cases h2 : p.verts.length < 2
  · refine ⟨p, by simp [invertDirectionMut, vertexCount, h2], rfl, rfl, ?_⟩
    have : p.path = [] := by
      rw [← List.length_eq_zero_iff, path_length_eq]; simp [segmentCount, vertexCount, h2]
    simp [this, reversePath]
  · obtain ⟨q, hq, hc, hl, hv⟩ := invertDirectionMut_spec p (by omega)
    refine ⟨q, hq, hc, hl, ?_⟩
    have hsc : q.segmentCount = p.segmentCount := by
      unfold segmentCount vertexCount; rw [hl, hc]
    by_cases hcl : p.closed
    · rw [if_pos hcl]
      have hscn : p.segmentCount = p.verts.length := by
        unfold segmentCount vertexCount; dsimp only; rw [if_neg h2, if_pos hcl]
      apply List.ext_getElem?
      intro i
      by_cases hi : i < p.segmentCount
      · have hrl : (reversePath p.path).length = p.verts.length := by
          simp [reversePath, path_length_eq, hscn]
        rw [List.getElem?_rotate (by omega), hrl, reversePath_getElem? _ _ (by
          rw [path_length_eq, hscn]; exact Nat.mod_lt _ (by omega)), path_length_eq, hscn,
          path_getElem q i (by omega) (by omega) (Nat.mod_lt _ (by omega))]
        have hpi := path_getElem p (p.verts.length - 1 - (i + 1) % p.verts.length) (by omega)
          (by omega) (Nat.mod_lt _ (by omega))
        rw [hpi]
        simp only [hl, Option.map_some, Option.some.injEq, Piece.flip, Piece.mk.injEq, V2.mk.injEq]
        rw [hv i (by omega), hv ((i + 1) % p.verts.length) (Nat.mod_lt _ (by omega))]
        by_cases hlast : i + 1 = p.verts.length
        · have h0 : (i + 1) % p.verts.length = 0 := by rw [hlast, Nat.mod_self]
          have h4 : i = p.verts.length - 1 := by omega
          simp only [h0, Nat.sub_zero]
          simp only [show p.verts.length - 1 + 1 = p.verts.length by omega]
          simp only [Nat.mod_self, if_pos h4, hcl, if_true]
          simp [show p.verts.length - 1 - i = 0 by omega]
        · have h0 : (i + 1) % p.verts.length = i + 1 := Nat.mod_eq_of_lt (by omega)
          have h4 : ¬ i = p.verts.length - 1 := by omega
          have h5 : (p.verts.length - 1 - (i + 1) + 1) % p.verts.length = p.verts.length - 1 - i := by
            rw [Nat.mod_eq_of_lt (by omega)]; omega
          simp only [h0, h5, if_neg h4]
          simp [show p.verts.length - 2 - i = p.verts.length - 1 - (i + 1) by omega]
      · rw [List.getElem?_eq_none (by rw [path_length_eq]; omega),
          List.getElem?_eq_none (by simp [reversePath, path_length_eq]; omega)]
    · rw [if_neg hcl]
      have hscn : p.segmentCount = p.verts.length - 1 := by
        unfold segmentCount vertexCount; dsimp only; rw [if_neg h2, if_neg hcl]
      apply List.ext_getElem?
      intro i
      by_cases hi : i < p.segmentCount
      · rw [reversePath_getElem? _ _ (by rw [path_length_eq]; exact hi), path_length_eq, hscn,
          path_getElem q i (by omega) (by omega) (Nat.mod_lt _ (by omega)),
          path_getElem p (p.verts.length - 1 - 1 - i) (by omega) (by omega)
            (Nat.mod_lt _ (by omega))]
        simp only [hl, Option.map_some, Option.some.injEq, Piece.flip, Piece.mk.injEq, V2.mk.injEq]
        rw [hv i (by omega), hv ((i + 1) % p.verts.length) (Nat.mod_lt _ (by omega))]
        have h0 : (i + 1) % p.verts.length = i + 1 := Nat.mod_eq_of_lt (by omega)
        have h4 : ¬ i = p.verts.length - 1 := by omega
        have h5 : (p.verts.length - 1 - 1 - i + 1) % p.verts.length = p.verts.length - 1 - i := by
          rw [Nat.mod_eq_of_lt (by omega)]; omega
        simp only [h0, h5, if_neg h4]
        simp [show p.verts.length - 2 - i = p.verts.length - 1 - 1 - i by omega,
          show p.verts.length - 1 - (i + 1) = p.verts.length - 1 - 1 - i by omega]
      · rw [List.getElem?_eq_none (by rw [path_length_eq]; omega),
          List.getElem?_eq_none (by simp [reversePath, path_length_eq]; omega)]

/-- **C03** inverting twice: a closed polyline is restored vertex by vertex; an open one is restored
up to the bulge of its last vertex (which no segment uses).  The only law used is `-(-x) = x`, true
of IEEE floats and of reals. -/
theorem C03_invert_twice (hneg : ∀ x : T, -(-x) = x) (p : Pline T) :
    ∃ q r, p.invertDirectionMut = .ok q ∧ q.invertDirectionMut = .ok r ∧
      (p.closed = true → r = p) ∧ r.path = p.path ∧ r.closed = p.closed ∧
      r.verts.map Vertex.pos = p.verts.map Vertex.pos := by
  by_cases h2 : p.verts.length < 2
  · have : p.invertDirectionMut = .ok p := by simp [invertDirectionMut, vertexCount, h2]
    exact ⟨p, p, this, this, fun _ => rfl, rfl, rfl, rfl⟩
  · obtain ⟨q, hq, hc, hl, hv⟩ := invertDirectionMut_spec p (by omega)
    obtain ⟨r, hr, hc', hl', hv'⟩ := invertDirectionMut_spec q (by omega)
    have key : ∀ k, (hk : k < p.verts.length) →
        (r.verts[k]'(by omega)).x = p.verts[k].x ∧ (r.verts[k]'(by omega)).y = p.verts[k].y ∧
        ((p.closed = true ∨ k ≠ p.verts.length - 1) →
          (r.verts[k]'(by omega)).bulge = p.verts[k].bulge) := by
      intro k hk
      have e1 : q.verts.length - 1 - k = p.verts.length - 1 - k := by omega
      have e2 : p.verts.length - 1 - (p.verts.length - 1 - k) = k := by omega
      rw [hv' k (by omega)]
      refine ⟨?_, ?_, ?_⟩
      · simp only [e1]; rw [hv _ (by omega)]; simp [e2]
      · simp only [e1]; rw [hv _ (by omega)]; simp [e2]
      · intro hor
        simp only [hl, hc]
        by_cases h1 : k = p.verts.length - 1
        · have hcl : p.closed := by
            rcases hor with h | h
            · exact h
            · exact absurd h1 h
          rw [if_pos h1, if_pos hcl]
          rw [hv _ (by omega)]
          simp [hneg, h1, hcl]
        · rw [if_neg h1]
          rw [hv _ (by omega)]
          simp only
          rw [if_neg (by omega), hneg]
          simp [show p.verts.length - 2 - (p.verts.length - 2 - k) = k by omega]
    refine ⟨q, r, hq, hr, ?_, ?_, hc'.trans hc, ?_⟩
    · intro hcl
      have : r.verts = p.verts := by
        apply List.ext_getElem (by omega)
        intro k h3 h4
        obtain ⟨a, b, c⟩ := key k h4
        have c := c (Or.inl hcl)
        cases h5 : r.verts[k]; cases h6 : p.verts[k]
        simp_all
      cases r; cases p; simp_all
    · have hsc : r.segmentCount = p.segmentCount := by
        unfold segmentCount vertexCount; rw [hl', hl, hc', hc]
      have hle : p.segmentCount ≤ p.verts.length ∧ (p.closed = true ∨ p.segmentCount ≤ p.verts.length - 1) := by
        unfold segmentCount vertexCount; dsimp only; split_ifs <;> simp_all
      apply List.ext_getElem?
      intro i
      by_cases hi : i < p.segmentCount
      · rw [path_getElem r i (by omega) (by omega) (Nat.mod_lt _ (by omega)),
          path_getElem p i (by omega) (by omega) (Nat.mod_lt _ (by omega))]
        have hm : (i + 1) % p.verts.length < p.verts.length := Nat.mod_lt _ (by omega)
        have k1 := key i (by omega)
        have k2 := key ((i + 1) % p.verts.length) hm
        have k1b := k1.2.2 (by rcases hle.2 with h | h; exact Or.inl h; right; omega)
        simp only [show r.verts.length = p.verts.length by omega]
        simp [k1.1, k1.2.1, k1b, k2.1, k2.2.1]
      · rw [List.getElem?_eq_none (by rw [path_length_eq]; omega),
          List.getElem?_eq_none (by rw [path_length_eq]; omega)]
    · apply List.ext_getElem (by simp; omega)
      intro k h3 h4
      simp at h3 h4
      obtain ⟨a, b, c⟩ := key k h4
      simp [Vertex.pos, a, b]

/-- Non-vacuity: an inverted open path of two segments. -/
example (a b c : Vertex T) : ∃ q, (⟨[a, b, c], false⟩ : Pline T).invertDirectionMut = .ok q ∧
    q.verts = [⟨c.x, c.y, -b.bulge⟩, ⟨b.x, b.y, -a.bulge⟩, a] := by
  simp [invertDirectionMut, invertSwapLoop, vertexCount, «at», setVertex, bind, Except.bind,
    pure, Except.pure, Vertex.withBulge, List.range']

end Cavc
