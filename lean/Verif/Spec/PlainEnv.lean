import Verif.Model.Intersects

/-! # A reference implementation of the external code

Shows that the contract `Env.Lawful` assumed of the spatial index and of the sort can be met, and
lets concrete inputs be run through the model. -/

namespace Cavc
variable {T : Type} [Scalar T]

/-- Insertion into a sorted list. -/
def insertBy {α : Type} (cmp : α → α → Ordering) (a : α) : List α → List α
  | [] => [a]
  | b :: l => if cmp a b = .gt then b :: insertBy cmp a l else a :: b :: l

/-- Insertion sort. -/
def sortByInsert {α : Type} (cmp : α → α → Ordering) : List α → List α
  | [] => []
  | a :: l => insertBy cmp a (sortByInsert cmp l)

/-- An index that tests every box. -/
def Index.scan (boxes : List (AABB T)) : Index T where
  items := boxes.zipIdx.map (fun bi => (bi.2, bi.1))
  query q := (List.range boxes.length).filter fun i => match boxes[i]? with | some b => b.overlaps q | none => false

/-- The reference implementation. -/
def Env.plain : Env T := ⟨Index.scan, sortByInsert⟩

theorem insertBy_perm {α : Type} (cmp : α → α → Ordering) (a : α) (l : List α) : (insertBy cmp a l).Perm (a :: l) := by
  induction l with
  | nil => exact List.Perm.refl _
  | cons b l ih =>
    unfold insertBy
    split
    · exact (ih.cons b).trans (List.Perm.swap a b l)
    · exact List.Perm.refl _

theorem sortByInsert_perm {α : Type} (cmp : α → α → Ordering) (l : List α) : (sortByInsert cmp l).Perm l := by
  induction l with
  | nil => exact List.Perm.refl _
  | cons a l ih => exact (insertBy_perm cmp a _).trans (ih.cons a)

theorem insertBy_sorted {α : Type} (cmp : α → α → Ordering) (hs : ∀ a b, cmp a b = (cmp b a).swap)
    (ht : ∀ a b c, cmp a b ≠ .gt → cmp b c ≠ .gt → cmp a c ≠ .gt) (a : α) (l : List α)
    (h : l.Pairwise (fun a b => cmp a b ≠ .gt)) : (insertBy cmp a l).Pairwise (fun a b => cmp a b ≠ .gt) := by
  induction l with
  | nil => exact List.pairwise_singleton _ _
  | cons b l ih =>
    rw [List.pairwise_cons] at h
    unfold insertBy
    split
    · next hg =>
      rw [List.pairwise_cons]
      refine ⟨?_, ih h.2⟩
      intro c hc
      rcases List.mem_cons.mp ((insertBy_perm cmp a l).mem_iff.mp hc) with rfl | hc
      · rw [hs, hg]; simp [Ordering.swap]
      · exact h.1 c hc
    · next hg =>
      rw [List.pairwise_cons]
      refine ⟨?_, List.pairwise_cons.mpr h⟩
      intro c hc
      rcases List.mem_cons.mp hc with rfl | hc
      · exact hg
      · exact ht _ _ _ hg (h.1 c hc)

/-- The contract of the external code can be met. -/
theorem Env.plain_lawful : (Env.plain : Env T).Lawful where
  build_for boxes :=
    { items_perm := List.Perm.refl _
      query_nodup := fun _ => List.Nodup.sublist List.filter_sublist List.nodup_range
      mem_query := by
        intro q i
        simp only [Env.plain, Index.scan, List.mem_filter, List.mem_range]
        constructor
        · rintro ⟨hi, h⟩
          rw [List.getElem?_eq_getElem hi] at h ⊢
          exact ⟨_, rfl, h⟩
        · rintro ⟨b, hb, h⟩
          have hi := (List.getElem?_eq_some_iff.mp hb).1
          refine ⟨hi, ?_⟩
          rw [hb]
          exact h }
  sort_perm := sortByInsert_perm
  sort_sorted cmp l hs ht := by
    show (sortByInsert cmp l).Pairwise _
    induction l with
    | nil => exact List.Pairwise.nil
    | cons a l ih => exact insertBy_sorted cmp hs ht a _ ih

end Cavc
