import Verif.Lemmas.Segs

/-! Lemmas about `invert_direction_mut` and index-wise in-place updates. -/

set_option linter.unusedSectionVars false

namespace Cavc
open Scalar
variable {T : Type} [Scalar T]

namespace Pline

theorem setVertex_lt {p : Pline T} {i : Nat} (h : i < p.verts.length) (v : Vertex T) :
    p.setVertex i v = .ok { p with verts := p.verts.set i v } := by simp [setVertex, h]

theorem invertSwapLoop_spec (p : Pline T) (s e : Nat) (he : s < e → e < p.verts.length) :
    ∃ q, invertSwapLoop p s e = .ok q ∧ q.closed = p.closed ∧ q.verts.length = p.verts.length ∧
      ∀ k, q.verts[k]? = if s ≤ k ∧ k ≤ e then p.verts[s + e - k]? else p.verts[k]? := by
  induction hd : e - s using Nat.strongRecOn generalizing p s e with
  | _ d ih =>
    rw [invertSwapLoop]
    by_cases h : s < e
    · have he' := he h
      simp only [h, if_true]
      rw [at_lt (by omega : s < p.verts.length), at_lt he']
      simp only [bind, Except.bind]
      rw [setVertex_lt (by omega)]
      simp only
      rw [setVertex_lt (by simpa using he')]
      obtain ⟨q, h1, h2, h3, h4⟩ := ih (e - 1 - (s + 1)) (by omega)
        ({ p with verts := (p.verts.set s p.verts[e]).set e p.verts[s] } : Pline T) (s + 1) (e - 1)
        (by intro; simp; omega) rfl
      refine ⟨q, h1, h2, by simpa using h3, ?_⟩
      intro k
      rw [h4 k]
      by_cases hk : s + 1 ≤ k ∧ k ≤ e - 1
      · rw [if_pos hk, if_pos (by omega)]
        simp only [List.getElem?_set]
        rw [if_neg (by omega), if_neg (by omega)]
        congr 1; omega
      · rw [if_neg hk]
        simp only [List.getElem?_set]
        by_cases hk1 : k = s
        · subst hk1
          rw [if_neg (by omega), if_pos rfl, if_pos (by omega), if_pos (by omega)]
          rw [show k + e - k = e by omega]
          simp
        · by_cases hk2 : k = e
          · subst hk2
            rw [if_pos rfl, if_pos (by simpa using he'), if_pos (by omega)]
            rw [show s + k - k = s by omega]
            simp
          · rw [if_neg (by omega), if_neg (by omega), if_neg (by omega)]
    · simp only [h, if_false]
      refine ⟨p, rfl, rfl, rfl, ?_⟩
      intro k
      split_ifs with hk
      · rw [show s + e - k = k by omega]
      · rfl

theorem bulgeLoop_spec (p : Pline T) : ∀ m, m < p.verts.length →
    ∃ q, (List.range' 1 m).foldlM (fun (q : Pline T) i => do
      let vi ← q.at i
      let vp ← q.at (i - 1)
      q.setVertex (i - 1) (vp.withBulge (-vi.bulge))) p = .ok q ∧
      q.closed = p.closed ∧ q.verts.length = p.verts.length ∧
      ∀ k, q.verts[k]? = if k < m then
          (match p.verts[k]?, p.verts[k+1]? with
            | some a, some b => some (a.withBulge (-b.bulge))
            | _, _ => none)
        else p.verts[k]? := by
  intro m
  induction m with
  | zero => intro _; exact ⟨p, rfl, rfl, rfl, by simp⟩
  | succ m ih =>
    intro hm
    obtain ⟨q, h1, h2, h3, h4⟩ := ih (by omega)
    rw [List.range'_1_concat, List.foldlM_append, h1]
    have ha : q.verts[1 + m]? = some p.verts[m+1] := by
      rw [h4, if_neg (by omega)]; rw [show 1 + m = m + 1 by omega]; simp
    have hb : q.verts[m]? = some p.verts[m] := by
      rw [h4, if_neg (by omega)]; simp
    simp only [bind, Except.bind, List.foldlM_cons, List.foldlM_nil]
    rw [at_ok ha, show 1 + m - 1 = m by omega, at_ok hb]
    simp only
    rw [setVertex_lt (by omega)]
    refine ⟨_, rfl, h2, by simpa using h3, ?_⟩
    intro k
    simp only [List.getElem?_set]
    by_cases hk : m = k
    · subst hk
      rw [if_pos rfl, if_pos (by omega), if_pos (by omega)]
      simp [show m < p.verts.length by omega, hm]
    · rw [if_neg hk, h4]
      by_cases hk' : k < m
      · rw [if_pos hk', if_pos (by omega)]
      · rw [if_neg hk', if_neg (by omega)]

theorem invertDirectionMut_spec (p : Pline T) (h2 : 2 ≤ p.verts.length) :
    ∃ q, p.invertDirectionMut = .ok q ∧ q.closed = p.closed ∧
      ∃ hl : q.verts.length = p.verts.length,
      ∀ k, (hk : k < p.verts.length) →
        q.verts[k] = ⟨p.verts[p.verts.length - 1 - k].x, p.verts[p.verts.length - 1 - k].y,
          if k = p.verts.length - 1 then
            (if p.closed then -(p.verts[p.verts.length - 1].bulge) else (p.verts[0]).bulge)
          else -(p.verts[p.verts.length - 2 - k].bulge)⟩ := by
  unfold invertDirectionMut vertexCount
  simp only
  rw [if_neg (by omega)]
  obtain ⟨q1, e1, c1, l1, g1⟩ := invertSwapLoop_spec p 0 (p.verts.length - 1) (by omega)
  obtain ⟨q2, e2, c2, l2, g2⟩ := bulgeLoop_spec q1 (p.verts.length - 1) (by omega)
  have g1' : ∀ k, (hk : k < p.verts.length) → q1.verts[k]? = some p.verts[p.verts.length - 1 - k] := by
    intro k hk
    rw [g1 k, if_pos (by omega), Nat.zero_add]; simp
  have g2' : ∀ k, (hk : k < p.verts.length) → q2.verts[k]? =
      some (if k = p.verts.length - 1 then p.verts[0] else
        (p.verts[p.verts.length - 1 - k]).withBulge (-(p.verts[p.verts.length - 2 - k]).bulge)) := by
    intro k hk
    rw [g2 k]
    split_ifs with h3 h4
    · omega
    · rw [g1' k hk, g1' (k+1) (by omega)]
      simp only [Option.some.injEq]
      congr 4
      omega
    · rw [g1' k hk]; simp [*]
    · omega
  have hz : q1.at 0 = .ok p.verts[p.verts.length - 1] := at_ok (g1' 0 (by omega))
  simp only [e1, bind, Except.bind, hz]
  simp only [bind, Except.bind] at e2
  rw [e2]
  simp only [c2, c1]
  have hlast : q2.at (p.verts.length - 1) = .ok p.verts[0] := by
    apply at_ok; rw [g2' _ (by omega)]; simp
  by_cases hc : p.closed
  · simp only [hc, if_true, hlast]
    rw [setVertex_lt (by omega)]
    refine ⟨_, rfl, by simp [c2, c1, hc], by simp [l2, l1], ?_⟩
    intro k hk
    simp only [List.getElem_set]
    by_cases h : k = p.verts.length - 1
    · simp [h, Vertex.withBulge]
    · rw [if_neg (by omega)]
      have := g2' k hk
      rw [List.getElem?_eq_getElem (by omega)] at this
      simp only [Option.some.injEq] at this
      rw [this]; simp [h, Vertex.withBulge]
  · refine ⟨q2, by simp [hc], by simp [c2, c1], by simp [l2, l1], ?_⟩
    intro k hk
    have := g2' k hk
    rw [List.getElem?_eq_getElem (by omega)] at this
    simp only [Option.some.injEq] at this
    rw [this]
    by_cases h : k = p.verts.length - 1
    · simp [h, hc]
    · simp [h, Vertex.withBulge]

end Pline
end Cavc
