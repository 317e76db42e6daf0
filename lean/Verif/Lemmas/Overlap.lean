import Verif.Spec.Overlap
import Verif.Props.View

/-! Lemmas about joining overlapping intersects. -/

set_option linter.unusedSectionVars false
set_option linter.unusedVariables false

namespace Cavc
open Scalar Pline
variable {T : Type} [Scalar T]

theorem overlapCmp_swap (hc : TotalCmp T) (p2 : Pline T) (a b : OverlapIntr T) :
    overlapCmp p2 a b = (overlapCmp p2 b a).swap := by
  unfold overlapCmp
  by_cases h : a.startIndex2 = b.startIndex2
  · rw [h]
    cases p2.get b.startIndex2 with
    | none => simp [Ordering.then]
    | some s => simpa [Ordering.then] using hc.swap _ _
  · rw [Nat.compare_swap b.startIndex2 a.startIndex2 |>.symm, Ordering.swap_then]
    rcases Nat.lt_or_gt_of_ne h with h' | h'
    · rw [Nat.compare_swap, Nat.compare_eq_lt.mpr h']; rfl
    · rw [Nat.compare_swap, Nat.compare_eq_gt.mpr h']; rfl

theorem overlapCmp_ne_gt (p2 : Pline T) (a b : OverlapIntr T) (h : overlapCmp p2 a b ≠ .gt) :
    a.startIndex2 < b.startIndex2 ∨ (a.startIndex2 = b.startIndex2 ∧
      ∀ s, p2.get b.startIndex2 = some s → totalCmp (distSquared s.pos a.point1) (distSquared s.pos b.point1) ≠ .gt) := by
  unfold overlapCmp at h
  rcases Nat.lt_trichotomy a.startIndex2 b.startIndex2 with h' | h' | h'
  · exact Or.inl h'
  · right
    rw [h'] at h
    refine ⟨h', ?_⟩
    intro s hs
    rw [hs] at h
    simpa [Ordering.then] using h
  · rw [Nat.compare_eq_gt.mpr h'] at h
    exact absurd rfl h

theorem overlapCmp_trans (hc : TotalCmp T) (p2 : Pline T) (a b c : OverlapIntr T)
    (h1 : overlapCmp p2 a b ≠ .gt) (h2 : overlapCmp p2 b c ≠ .gt) : overlapCmp p2 a c ≠ .gt := by
  have h1' := overlapCmp_ne_gt p2 a b h1
  have h2' := overlapCmp_ne_gt p2 b c h2
  unfold overlapCmp
  have key : a.startIndex2 < c.startIndex2 → ((compare a.startIndex2 c.startIndex2).then
    (match p2.get a.startIndex2 with
     | some s => totalCmp (distSquared s.pos a.point1) (distSquared s.pos c.point1)
     | none => .eq)) ≠ .gt := by
    intro h
    rw [Nat.compare_eq_lt.mpr h]
    simp [Ordering.then]
  rcases h1' with h1' | ⟨e1, h1'⟩ <;> rcases h2' with h2' | ⟨e2, h2'⟩
  · exact key (by omega)
  · exact key (by omega)
  · exact key (by omega)
  · rw [e1.trans e2]
    cases hg : p2.get c.startIndex2 with
    | none => simp [Ordering.then]
    | some s =>
      simpa [Ordering.then] using hc.trans _ _ _ (h1' s (by rw [e2]; exact hg)) (h2' s hg)

/-- the sorted overlaps -/
theorem sorted_overlaps (env : Env T) (henv : env.Lawful) (hc : TotalCmp T) (p2 : Pline T) (l : List (OverlapIntr T)) :
    (env.sortBy (overlapCmp p2) l).Perm l ∧
    (env.sortBy (overlapCmp p2) l).Pairwise (OverlapIntr.Before p2) :=
  ⟨henv.sort_perm _ _, (henv.sort_sorted _ _ (overlapCmp_swap hc p2) (overlapCmp_trans hc p2)).imp fun h => overlapCmp_ne_gt p2 _ _ h⟩

theorem Before.le {p2 : Pline T} {a b : OverlapIntr T} (h : OverlapIntr.Before p2 a b) : a.startIndex2 ≤ b.startIndex2 := by
  rcases h with h | h
  · exact Nat.le_of_lt h
  · exact Nat.le_of_eq h.1

/-- the vertices at a position and the one after it -/
theorem vert_at {p : Pline T} {i : Nat} (hi : i < p.verts.length) {u1 u2 : Vertex T} (h1 : p.verts[i]? = some u1)
    (h2 : cycAt p (i + 1) = some u2) : p.verts[i] = u1 ∧ p.verts[p.nextWrap i]'(nextWrap_lt p hi) = u2 := by
  refine ⟨by rw [List.getElem?_eq_getElem hi] at h1; exact Option.some.inj h1, ?_⟩
  unfold cycAt at h2
  rw [← nextWrap_eq p hi, List.getElem?_eq_getElem (nextWrap_lt p hi)] at h2
  exact Option.some.inj h2

/-- One slice. -/
theorem new_none (p1 p2 : Pline T) (eps : T) (a : OverlapIntr T) (ha : a.InRange p1 p2) :
    ∃ s, OverlapSlice.new p1 p2 a none eps = .ok s ∧ IsSliceOf p1 p2 eps [a] s a a := by
  unfold OverlapSlice.new
  simp only [bind, Except.bind, at_lt ha.1, at_lt (nextWrap_lt p1 ha.1), at_lt ha.2, at_lt (nextWrap_lt p2 ha.2)]
  refine ⟨_, rfl, rfl, rfl, rfl, rfl, rfl, rfl, ?_, ?_, ?_, ?_, ?_, ?_, ?_⟩
  · simp
  · simp
  · have := ha.2
    intro _
    exact ⟨rfl, by show 0 < _; omega, by show (a.startIndex2 + 0) % _ = _; rw [Nat.add_zero, Nat.mod_eq_of_lt this]⟩
  · simp
  · intro _ u1 u2 b3 b4
    obtain ⟨c3, c4⟩ := vert_at ha.2 b3 b4
    simp only [c3, c4, if_true, partStart]
  · intro _ u1 u2 b3 b4
    simp only [if_true]
  · intro v1 v2 u1 u2 b1 b2 b3 b4
    obtain ⟨c1, c2⟩ := vert_at ha.1 b1 b2
    obtain ⟨c3, c4⟩ := vert_at ha.2 b3 b4
    simp only [c1, c2, c3, c4]

theorem new_some (p1 p2 : Pline T) (eps : T) (g : List (OverlapIntr T)) (a z : OverlapIntr T) (ha : a.InRange p1 p2) (hz : z.InRange p1 p2)
    (hl : 2 ≤ g.length) (h1 : g.head? = some a) (h2 : g.getLast? = some z) :
    ∃ s, OverlapSlice.new p1 p2 a (some z) eps = .ok s ∧ IsSliceOf p1 p2 eps g s a z := by
  unfold OverlapSlice.new
  simp only [bind, Except.bind, at_lt ha.1, at_lt (nextWrap_lt p1 ha.1), at_lt ha.2, at_lt (nextWrap_lt p2 ha.2)]
  have ha2 := ha.2
  have hd := fwdDist_spec p2 ha.2 hz.2
  split
  · rename_i hf
    have hlast : p2.vertexCount - 1 < p2.verts.length := by unfold vertexCount; omega
    simp only [at_lt hlast]
    refine ⟨_, rfl, h1, h2, rfl, rfl, rfl, rfl, ?_, ?_, ?_, ?_, ?_, ?_, ?_⟩
    · simp [hl, hf]
    · intro _
      exact ⟨rfl, by show p2.vertexCount - 1 + 1 = _; unfold vertexCount; omega⟩
    · intro h; exact absurd h (by simp)
    · intro _
      refine ⟨List.getElem?_eq_getElem ha2, ?_⟩
      intro v hv
      rw [List.getLast?_eq_getElem?] at hv
      change p2.verts[p2.vertexCount - 1]? = some v at hv
      rw [List.getElem?_eq_getElem hlast] at hv
      exact congrArg Vertex.bulge (Option.some.inj hv)
    · intro h; exact absurd h (by simp)
    · intro h; exact absurd h (by simp)
    · intro v1 v2 u1 u2 b1 b2 b3 b4
      obtain ⟨c1, c2⟩ := vert_at ha.1 b1 b2
      obtain ⟨c3, c4⟩ := vert_at ha.2 b3 b4
      simp only [c1, c2, c3, c4]
  · rename_i hf
    split
    · rename_i hs
      refine ⟨_, rfl, h1, h2, rfl, rfl, rfl, rfl, ?_, ?_, ?_, ?_, ?_, ?_, ?_⟩
      · simp [hf]
      · intro h; exact absurd h (by simp)
      · intro _; exact ⟨rfl, hd.1, hd.2⟩
      · intro h; exact absurd h (by simp)
      · intro _ u1 u2 b3 b4
        obtain ⟨c3, c4⟩ := vert_at ha.2 b3 b4
        simp only [c3, c4, if_pos hs, partStart]
      · intro _ u1 u2 b3 b4
        simp only [if_pos hs]
      · intro v1 v2 u1 u2 b1 b2 b3 b4
        obtain ⟨c1, c2⟩ := vert_at ha.1 b1 b2
        obtain ⟨c3, c4⟩ := vert_at ha.2 b3 b4
        simp only [c1, c2, c3, c4]
    · rename_i hs
      simp only [at_lt hz.2, at_lt (nextWrap_lt p2 hz.2)]
      refine ⟨_, rfl, h1, h2, rfl, rfl, rfl, rfl, ?_, ?_, ?_, ?_, ?_, ?_, ?_⟩
      · simp [hf]
      · intro h; exact absurd h (by simp)
      · intro _; exact ⟨rfl, hd.1, hd.2⟩
      · intro h; exact absurd h (by simp)
      · intro _ u1 u2 b3 b4
        obtain ⟨c3, c4⟩ := vert_at ha.2 b3 b4
        simp only [c3, c4, if_neg hs]
      · intro _ u1 u2 b3 b4
        obtain ⟨c3, c4⟩ := vert_at hz.2 b3 b4
        simp only [c3, c4, if_neg hs, partStart]
      · intro v1 v2 u1 u2 b1 b2 b3 b4
        obtain ⟨c1, c2⟩ := vert_at ha.1 b1 b2
        obtain ⟨c3, c4⟩ := vert_at ha.2 b3 b4
        simp only [c1, c2, c3, c4]

/-- The slice made of the run collected so far. -/
theorem new_run (p1 p2 : Pline T) (eps : T) (a : OverlapIntr T) (t : List (OverlapIntr T)) (h : ∀ o ∈ a :: t, o.InRange p1 p2) :
    ∃ s, OverlapSlice.new p1 p2 a t.getLast? eps = .ok s ∧ ∃ z, IsSliceOf p1 p2 eps (a :: t) s a z := by
  cases ht : t.getLast? with
  | none =>
    rw [List.getLast?_eq_none_iff] at ht
    subst ht
    obtain ⟨s, h1, h2⟩ := new_none p1 p2 eps a (h a (by simp))
    exact ⟨s, h1, a, h2⟩
  | some z =>
    have hz := List.mem_of_getLast? ht
    have hlen : 2 ≤ (a :: t).length := by
      cases t with
      | nil => simp at ht
      | cons b t => simp
    obtain ⟨s, h1, h2⟩ := new_some p1 p2 eps (a :: t) a z (h a (by simp)) (h z (by simp [hz])) hlen rfl
      (by rw [List.getLast?_cons, ht]; rfl)
    exact ⟨s, h1, z, h2⟩

/-- The joining loop: `a :: t` is the run collected so far. -/
theorem joinLoop_spec (p1 p2 : Pline T) (eps : T) (rest : List (OverlapIntr T)) : ∀ (a : OverlapIntr T) (t : List (OverlapIntr T)),
    (∀ o ∈ (a :: t) ++ rest, o.InRange p1 p2) → (a :: t).IsChain (OverlapIntr.Meets eps) →
    ∃ gs ss, joinLoop p1 p2 eps a t.getLast? (t.getLast?.getD a).point2 rest = .ok ss ∧
      IsRuns eps ((a :: t) ++ rest) gs ∧ List.Forall₂ (fun g s => ∃ a z, IsSliceOf p1 p2 eps g s a z) gs ss ∧
      ∃ t' gs', gs = (a :: t ++ t') :: gs' := by
  induction rest with
  | nil =>
    intro a t hr hch
    obtain ⟨s, h1, z, h2⟩ := new_run p1 p2 eps a t (by simpa using hr)
    refine ⟨[a :: t], [s], ?_, ⟨by simp, by simp, by simpa using hch, by simp⟩, ?_, [], [], by simp⟩
    · unfold joinLoop
      rw [h1]; rfl
    · exact List.Forall₂.cons ⟨a, z, h2⟩ List.Forall₂.nil
  | cons b rest ih =>
    intro a t hr hch
    have hlast : ∀ w ∈ (a :: t).getLast?, w = t.getLast?.getD a := by
      intro w hw
      rw [List.getLast?_cons] at hw
      simpa using hw.symm
    by_cases hm : b.point1.fuzzyEqEps (t.getLast?.getD a).point2 eps = true
    · obtain ⟨gs, ss, e, hg, hs, t', gs', e'⟩ := ih a (t ++ [b]) (by simpa using hr) (by
        rw [← List.cons_append]
        refine List.isChain_append.mpr ⟨hch, by simp, ?_⟩
        intro w hw y hy
        simp only [List.head?_cons, Option.mem_some_iff] at hy
        subst hy
        rw [hlast w hw]
        exact hm)
      refine ⟨gs, ss, ?_, by simpa using hg, hs, b :: t', gs', by simpa using e'⟩
      rw [List.getLast?_append] at e
      simp only [List.getLast?_singleton, Option.some_or, Option.getD_some] at e
      unfold joinLoop
      simp only [hm, Bool.not_true, Bool.false_eq_true, if_false]
      exact e
    · obtain ⟨gs, ss, e, hg, hs, t', gs', e'⟩ := ih b [] (by
        intro o ho
        exact hr o (by simp at ho ⊢; tauto)) (by simp)
      obtain ⟨s, h1, z, h2⟩ := new_run p1 p2 eps a t (by
        intro o ho
        exact hr o (by simp at ho ⊢; tauto))
      refine ⟨(a :: t) :: gs, s :: ss, ?_, ?_, List.Forall₂.cons ⟨a, z, h2⟩ hs, [], gs, by simp⟩
      · unfold joinLoop
        simp only [hm, Bool.not_false, if_true, h1, bind, Except.bind]
        simp only [List.getLast?_nil, Option.getD_none] at e
        rw [e]
      · refine ⟨by simp [hg.flatten], ?_, ?_, ?_⟩
        · intro g hgm
          rcases List.mem_cons.mp hgm with rfl | hgm
          · simp
          · exact hg.nonempty g hgm
        · intro g hgm
          rcases List.mem_cons.mp hgm with rfl | hgm
          · exact hch
          · exact hg.inside g hgm
        · rw [e']
          refine List.isChain_cons_cons.mpr ⟨?_, e' ▸ hg.between⟩
          intro w hw y hy
          simp only [List.cons_append, List.head?_cons, Option.mem_some_iff] at hy
          subst hy
          rw [hlast w hw]
          exact hm

end Cavc
