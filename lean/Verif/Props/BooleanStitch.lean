import Verif.Spec.Stitch
import Verif.Lemmas.View
import Verif.Props.FindIntr

/-! # C40, C41: stitching slices into closed polylines -/

set_option linter.unusedSectionVars false
set_option linter.unusedVariables false

namespace Cavc
open Scalar Pline
variable {T : Type} [Scalar T]

theorem addOrReplaceVertex_eq (p : Pline T) (v : Vertex T) (eps : T) :
    p.addOrReplaceVertex v eps = .ok ⟨appendVertex eps p.verts v, p.closed⟩ := by
  unfold addOrReplaceVertex appendVertex vertexCount
  dsimp only
  cases hl : p.verts.getLast? with
  | none =>
    rw [List.getLast?_eq_none_iff] at hl
    rw [hl]
    simp [addVertex, hl]
  | some l =>
    have hne : p.verts ≠ [] := by rintro h; rw [h] at hl; simp at hl
    have hpos : 0 < p.verts.length := List.length_pos_iff.mpr hne
    have hlt : p.verts.length - 1 < p.verts.length := by omega
    have hget : p.verts[p.verts.length - 1] = l := by
      rw [List.getLast?_eq_getElem?, List.getElem?_eq_getElem hlt] at hl
      simpa using hl
    rw [if_neg (by omega)]
    simp only [bind, Except.bind, at_lt hlt, hget]
    split
    · simp only [setVertex, hlt, if_true, Except.ok.injEq, Pline.mk.injEq, and_true]
      conv_lhs => rw [← List.dropLast_append_getLast hne]
      rw [List.set_append_right _ _ (by simp)]
      simp [Vertex.withBulge]
    · rfl

theorem extendRemoveRepeat_eq (p q : Pline T) (eps : T) :
    p.extendRemoveRepeat q eps = .ok ⟨appendVertexes eps p.verts q.verts, p.closed⟩ := by
  unfold extendRemoveRepeat appendVertexes
  generalize q.verts = vs
  induction vs generalizing p with
  | nil => rfl
  | cons v vs ih =>
    rw [List.foldlM_cons, addOrReplaceVertex_eq]
    simp only [bind, Except.bind, List.foldl_cons]
    exact ih ⟨_, p.closed⟩

theorem createFromRemoveRepeat_open (vs : List (Vertex T)) (eps : T) :
    (⟨vs, false⟩ : Pline T).createFromRemoveRepeat eps = .ok ⟨appendVertexes eps [] vs, false⟩ := by
  unfold createFromRemoveRepeat
  have := extendRemoveRepeat_eq (⟨[], false⟩ : Pline T) (⟨vs, false⟩) eps
  unfold extendRemoveRepeat at this
  simp only at this
  simp only [this, bind, Except.bind, Bool.false_and, Bool.false_eq_true, if_false]

theorem appendVertex_ne (eps : T) (acc : List (Vertex T)) (v : Vertex T) : appendVertex eps acc v ≠ [] := by
  unfold appendVertex
  split
  · simp
  · split <;> simp

theorem appendVertexes_ne (eps : T) (acc vs : List (Vertex T)) (h : vs ≠ []) : appendVertexes eps acc vs ≠ [] := by
  unfold appendVertexes
  induction vs generalizing acc with
  | nil => exact absurd rfl h
  | cons v vs ih =>
    rw [List.foldl_cons]
    by_cases hv : vs = []
    · subst hv; exact appendVertex_ne _ _ _
    · exact ih _ hv

theorem chainVertexes_snoc (eps : T) (vss : List (List (Vertex T))) (vs : List (Vertex T)) :
    chainVertexes eps (vss ++ [vs]) = appendVertexes eps (chainVertexes eps vss).dropLast vs := by
  unfold chainVertexes
  rw [List.foldl_append]; rfl

theorem removeLast_eq (p : Pline T) (h : p.verts ≠ []) : ∃ v, p.removeLast = .ok (v, ⟨p.verts.dropLast, p.closed⟩) := by
  have hpos : 0 < p.verts.length := List.length_pos_iff.mpr h
  unfold removeLast
  rw [if_neg (by omega)]
  unfold remove
  rw [List.getElem?_eq_getElem (show p.verts.length - 1 < p.verts.length by omega)]
  refine ⟨p.verts[p.verts.length - 1], ?_⟩
  simp [List.eraseIdx_eq_dropLast, Nat.sub_add_cancel hpos]

/-- reading the slice panics -/
def BoolSlice.Unreadable (s : BoolSlice T) (p1 p2 : Pline T) : Prop := s.toPline p1 p2 = .error .indexOutOfBounds

/-- how the list of visited flags changes -/
def Marks (visited visited' : List Bool) (new : List Nat) : Prop :=
  visited'.length = visited.length ∧ new.Nodup ∧ (∀ i ∈ new, visited[i]? = some false) ∧
    ∀ i, visited'[i]? = if i ∈ new then some true else visited[i]?

theorem Marks.none (visited : List Bool) : Marks visited visited [] := ⟨rfl, by simp, by simp, by simp⟩

theorem set_true (visited : List Bool) {j i : Nat} (hj : visited[j]? = some false) :
    (visited.set j true)[i]? = if i = j then some true else visited[i]? := by
  rw [List.getElem?_set]
  have hlt := (List.getElem?_eq_some_iff.mp hj).1
  by_cases h : i = j
  · subst h; simp [hlt]
  · rw [if_neg (fun h' => h h'.symm), if_neg h]

theorem Marks.cons {visited visited' : List Bool} {j : Nat} {new : List Nat} (hj : visited[j]? = some false)
    (h : Marks (visited.set j true) visited' new) : Marks visited visited' (j :: new) := by
  obtain ⟨h1, h2, h3, h4⟩ := h
  have hnot : ∀ i ∈ new, i ≠ j := by
    rintro i hi rfl
    have := h3 i hi
    rw [set_true visited hj, if_pos rfl] at this
    simp at this
  refine ⟨by rw [h1, List.length_set], List.nodup_cons.mpr ⟨fun hm => hnot j hm rfl, h2⟩, ?_, ?_⟩
  · intro i hi
    rcases List.mem_cons.mp hi with rfl | hi
    · exact hj
    · have := h3 i hi
      rwa [set_true visited hj, if_neg (hnot i hi)] at this
  · intro i
    rw [h4 i, set_true visited hj]
    by_cases h5 : i ∈ new
    · simp [h5]
    · by_cases h6 : i = j
      · subst h6; simp
      · simp [h5, h6]

theorem count_set_true {visited : List Bool} {j : Nat} (hj : visited[j]? = some false) :
    (visited.set j true).count false + 1 = visited.count false := by
  have hlt := (List.getElem?_eq_some_iff.mp hj).1
  have hv := (List.getElem?_eq_some_iff.mp hj).2
  rw [List.count_set hlt]
  have : 0 < visited.count false := List.count_pos_iff.mpr (hv ▸ List.getElem_mem hlt)
  simp [hv]
  omega

/-- The inner stitching loop, started with the chain of the slices `used`. -/
theorem stitchInner_spec (p1 p2 : Pline T) (idx : Index T) (slices : List (BoolSlice T)) (sel : Selector) (eps : T) (beginning : Nat)
    (hread : ∀ s ∈ slices, (∃ vs, s.Reads p1 p2 vs) ∨ s.Unreadable p1 p2) (hsel : sel.Sane)
    (hidx : idx.For (slices.map fun s => AABB.ofPoint s.startPoint)) :
    ∀ (fuel : Nat) (cur : Pline T) (subs : List (BoolSlice T)) (curIdx : Nat) (visited : List Bool) (used : List Nat)
      (vss : List (List (Vertex T))),
      visited.length = slices.length → visited.count false < fuel → used.head? = some beginning → cur.closed = false →
      cur.verts = chainVertexes eps vss → cur.verts ≠ [] → List.Forall₂ (fun s vs => s.Reads p1 p2 vs) subs vss →
      used.map (fun i => slices[i]?) = subs.map some → Linked eps vss subs →
      (stitchInner p1 p2 idx slices sel eps beginning fuel cur subs curIdx visited = .error .indexOutOfBounds ∧
        ∃ s ∈ slices, s.Unreadable p1 p2) ∨
      ∃ rs visited' new, stitchInner p1 p2 idx slices sel eps beginning fuel cur subs curIdx visited = .ok (rs, visited') ∧
        Marks visited visited' new ∧ (rs = [] ∨ ∃ r, rs = [r] ∧ Stitched slices p1 p2 eps (used ++ new) r) := by
  intro fuel
  induction fuel with
  | zero => intro cur subs curIdx visited used vss _ h; omega
  | succ fuel ih =>
    intro cur subs curIdx visited used vss hvl hcount hhead hclosed hcur hne hforall hused hlinked
    obtain ⟨l, hl⟩ : ∃ l, cur.verts.getLast? = some l := ⟨_, List.getLast?_eq_getLast_of_ne_nil hne⟩
    have hq : ∀ i ∈ idx.query ((AABB.ofPoint l.pos).grow eps), i < slices.length ∧
        ∃ s, slices[i]? = some s ∧ Near eps l.pos s.startPoint := by
      intro i hi
      obtain ⟨b, hb, hov⟩ := (hidx.mem_query _ _).mp hi
      rw [List.getElem?_map, Option.map_eq_some_iff] at hb
      obtain ⟨s, hs, rfl⟩ := hb
      exact ⟨(List.getElem?_eq_some_iff.mp hs).1, s, hs, hov⟩
    have hfilter : (idx.query ((AABB.ofPoint l.pos).grow eps)).filterM (stitchHit beginning visited)
        = .ok ((idx.query ((AABB.ofPoint l.pos).grow eps)).filter fun i => i == beginning || visited[i]? == some false) := by
      apply filterM_ok
      intro i hi
      have hlt := (hq i hi).1
      rw [← hvl] at hlt
      unfold stitchHit
      by_cases hb : (i == beginning) = true
      · simp [hb]
      · simp only [hb, Bool.false_eq_true, if_false, List.getElem?_eq_getElem hlt]
        cases visited[i] <;> simp
    have hlenm : subs.length = vss.length := hforall.length_eq
    unfold stitchInner
    simp only [Pline.last, hl, unwrap, bind, Except.bind]
    rw [hfilter]
    simp only
    generalize hhits : (idx.query ((AABB.ofPoint l.pos).grow eps)).filter (fun i => i == beginning || visited[i]? == some false) = hits
    by_cases hemp : hits = []
    · subst hemp
      simp only [List.isEmpty_nil, if_true]
      exact Or.inr ⟨[], visited, [], rfl, Marks.none _, Or.inl rfl⟩
    · have : hits.isEmpty = false := by simpa using hemp
      simp only [this, Bool.false_eq_true, if_false]
      obtain ⟨c, hc, hcm⟩ := hsel curIdx hits hemp
      rw [hc]
      simp only
      cases c with
      | none => exact Or.inr ⟨[], visited, [], rfl, Marks.none _, Or.inl rfl⟩
      | some j =>
        have hjm := hcm j rfl
        rw [← hhits, List.mem_filter] at hjm
        obtain ⟨hjlt, s, hs, hnear⟩ := hq j hjm.1
        simp only
        by_cases hj : j = beginning
        · rw [if_pos hj]
          subst hj
          by_cases h3 : cur.verts.length < 3
          · have hcl : closePline cur subs = .ok [] := by
              unfold closePline vertexCount
              rw [if_pos h3]
            rw [hcl]
            exact Or.inr ⟨[], visited, [], rfl, Marks.none _, Or.inl rfl⟩
          · obtain ⟨v, hv⟩ := removeLast_eq cur hne
            have hcl : closePline cur subs = .ok [⟨⟨cur.verts.dropLast, true⟩, subs⟩] := by
              unfold closePline vertexCount
              rw [if_neg h3, hv]; rfl
            rw [hcl]
            refine Or.inr ⟨_, visited, [], rfl, Marks.none _, Or.inr ⟨_, rfl, ?_⟩⟩
            have hs0 : subs.take 1 = [s] := by
              cases used with
              | nil => simp at hhead
              | cons u used =>
                have : u = j := by simpa using hhead
                subst this
                cases subs with
                | nil => simp at hused
                | cons s' subs =>
                  simp only [List.map_cons, List.cons.injEq] at hused
                  rw [hs] at hused
                  have := hused.1
                  simp at this
                  simp [this]
            refine ⟨by simpa using hused, ?_, rfl, ?_, vss, hforall, ?_, ?_⟩
            · show subs ≠ []
              rintro rfl
              simp at hs0
            · show 2 ≤ (cur.verts.dropLast).length
              rw [List.length_dropLast]; omega
            · show cur.verts.dropLast = _
              rw [hcur]
            · show Linked eps vss (subs ++ subs.take 1)
              rw [hs0]
              intro k s' hk hks
              by_cases hkl : k < subs.length
              · rw [List.getElem?_append_left hkl] at hks
                exact hlinked k s' hk hks
              · rw [List.getElem?_append_right (by omega)] at hks
                have hk0 : k - subs.length = 0 := by
                  by_contra h0
                  rw [List.getElem?_eq_none (by simp; omega)] at hks
                  simp at hks
                rw [hk0] at hks
                have : s = s' := by simpa using hks
                subst this
                rw [List.take_of_length_le (by omega), ← hcur]
                exact ⟨l, hl, hnear⟩
        · rw [if_neg hj]
          have hfalse : visited[j]? = some false := by
            have := hjm.2
            simpa [hj] using this
          obtain ⟨v, hv⟩ := removeLast_eq cur hne
          rcases hread s (List.mem_of_getElem? hs) with ⟨vs, hvs⟩ | hbad
          swap
          · left
            have hbad' : s.toPline p1 p2 = .error .indexOutOfBounds := hbad
            simp only [hs, hv, hbad']
            exact ⟨trivial, s, List.mem_of_getElem? hs, hbad⟩
          simp only [hs, hv, hvs.1, extendRemoveRepeat_eq]
          have hch : appendVertexes eps cur.verts.dropLast vs = chainVertexes eps (vss ++ [vs]) := by
            rw [chainVertexes_snoc, hcur]
          rcases ih ⟨appendVertexes eps cur.verts.dropLast vs, cur.closed⟩ (subs ++ [s]) j
            (visited.set j true) (used ++ [j]) (vss ++ [vs]) (by simpa using hvl)
            (by have := count_set_true hfalse; omega)
            (by
              cases used with
              | nil => simp at hhead
              | cons u t => simpa using hhead)
            hclosed hch
            (appendVertexes_ne _ _ _ hvs.2)
            (List.rel_append hforall (List.Forall₂.cons hvs List.Forall₂.nil))
            (by simp [hused, hs])
            (by
              intro k s' hk hks
              by_cases hkl : k < subs.length
              · rw [List.getElem?_append_left hkl] at hks
                rw [List.take_append_of_le_length (by omega)]
                exact hlinked k s' hk hks
              · rw [List.getElem?_append_right (by omega)] at hks
                have hk0 : k - subs.length = 0 := by
                  by_contra h0
                  rw [List.getElem?_eq_none (by simp; omega)] at hks
                  simp at hks
                rw [hk0] at hks
                have : s = s' := by simpa using hks
                subst this
                have hkk : k = vss.length := by omega
                rw [hkk, List.take_left', ← hcur]
                · exact ⟨l, hl, hnear⟩
                · rfl) with hbad | ⟨rs, visited', new, e, hm, hr⟩
          · exact Or.inl hbad
          right
          refine ⟨rs, visited', j :: new, e, hm.cons hfalse, ?_⟩
          rcases hr with hr | ⟨r, hr, hst⟩
          · exact Or.inl hr
          · exact Or.inr ⟨r, hr, by simpa using hst⟩

/-- The outer stitching loop. -/
theorem stitchOuter_spec (p1 p2 : Pline T) (idx : Index T) (slices : List (BoolSlice T)) (sel : Selector) (eps : T)
    (hread : ∀ s ∈ slices, (∃ vs, s.Reads p1 p2 vs) ∨ s.Unreadable p1 p2) (hsel : sel.Sane)
    (hidx : idx.For (slices.map fun s => AABB.ofPoint s.startPoint)) :
    ∀ (is : List Nat) (visited : List Bool), visited.length = slices.length → (∀ i ∈ is, i < slices.length) →
      (stitchOuter p1 p2 idx slices sel eps is visited = .error .indexOutOfBounds ∧ ∃ s ∈ slices, s.Unreadable p1 p2) ∨
      ∃ rs useds, stitchOuter p1 p2 idx slices sel eps is visited = .ok rs ∧
        List.Forall₂ (Stitched slices p1 p2 eps) useds rs ∧ useds.flatten.Nodup ∧
        ∀ i ∈ useds.flatten, visited[i]? = some false := by
  intro is
  induction is with
  | nil =>
    intro visited _ _
    exact Or.inr ⟨[], [], rfl, List.Forall₂.nil, by simp, by simp⟩
  | cons i is ih =>
    intro visited hvl his
    have hi := his i (by simp)
    have his' : ∀ j ∈ is, j < slices.length := fun j hj => his j (by simp [hj])
    have hiv : i < visited.length := by omega
    unfold stitchOuter
    cases hv : visited[i] with
    | true =>
      simp only [List.getElem?_eq_getElem hiv, hv, List.getElem?_eq_getElem hi]
      exact ih visited hvl his'
    | false =>
      have hfalse : visited[i]? = some false := by rw [List.getElem?_eq_getElem hiv, hv]
      rcases hread slices[i] (List.getElem_mem hi) with ⟨vs, hvs⟩ | hbad
      swap
      · left
        have hbad' : slices[i].toPline p1 p2 = .error .indexOutOfBounds := hbad
        simp only [hfalse, List.getElem?_eq_getElem hi, bind, Except.bind, hbad']
        exact ⟨trivial, _, List.getElem_mem hi, hbad⟩
      simp only [hfalse, List.getElem?_eq_getElem hi, bind, Except.bind, hvs.1, createFromRemoveRepeat_open]
      have hone : chainVertexes eps [vs] = appendVertexes eps [] vs := by simp [chainVertexes]
      rcases stitchInner_spec p1 p2 idx slices sel eps i hread hsel hidx (slices.length + 1)
        ⟨appendVertexes eps [] vs, false⟩ [slices[i]] i (visited.set i true) [i] [vs]
        (by simpa using hvl)
        (by
          have h1 := count_set_true hfalse
          have h2 := List.count_le_length (a := false) (l := visited)
          omega)
        rfl rfl hone.symm (appendVertexes_ne _ _ _ hvs.2) (List.Forall₂.cons hvs List.Forall₂.nil)
        (by simp [List.getElem?_eq_getElem hi])
        (by
          intro k s' hk hks
          rw [List.getElem?_eq_none (by simp; omega)] at hks
          simp at hks) with ⟨hbad, hbad'⟩ | ⟨rs, visited', new, e, hm, hr⟩
      · left
        simp only [hbad]
        exact ⟨trivial, hbad'⟩
      have hm' := hm.cons hfalse
      simp only [e]
      rcases ih visited' (by rw [hm'.1, hvl]) his' with ⟨hbad, hbad'⟩ | ⟨more, useds, e', hst, hnd, hun⟩
      · left
        simp only [hbad]
        exact ⟨trivial, hbad'⟩
      right
      simp only [e']
      have hdis : ∀ j ∈ useds.flatten, j ∉ i :: new ∧ visited[j]? = some false := by
        intro j hj
        have h1 := hun j hj
        rw [hm'.2.2.2 j] at h1
        by_cases h2 : j ∈ i :: new
        · rw [if_pos h2] at h1; simp at h1
        · rw [if_neg h2] at h1; exact ⟨h2, h1⟩
      rcases hr with hr | ⟨r, hr, hsr⟩
      · subst hr
        exact ⟨_, useds, rfl, hst, hnd, fun j hj => (hdis j hj).2⟩
      · subst hr
        refine ⟨_, (i :: new) :: useds, rfl, List.Forall₂.cons hsr hst, ?_, ?_⟩
        · rw [List.flatten_cons, List.nodup_append]
          refine ⟨hm'.2.1, hnd, ?_⟩
          rintro a ha b hb rfl
          exact (hdis a hb).1 ha
        · intro j hj
          rw [List.flatten_cons, List.mem_append] at hj
          rcases hj with hj | hj
          · exact hm'.2.2.1 j hj
          · exact (hdis j hj).2

theorem stitchSlices_spec (env : Env T) (henv : env.Lawful) (slices : List (BoolSlice T)) (p1 p2 : Pline T) (sel : Selector) (eps : T)
    (hread : ∀ s ∈ slices, (∃ vs, s.Reads p1 p2 vs) ∨ s.Unreadable p1 p2) (hsel : sel.Sane) :
    (stitchSlices env slices p1 p2 sel eps = .error .indexOutOfBounds ∧ ∃ s ∈ slices, s.Unreadable p1 p2) ∨
    ∃ rs useds, stitchSlices env slices p1 p2 sel eps = .ok rs ∧
      List.Forall₂ (Stitched slices p1 p2 eps) useds rs ∧ useds.flatten.Nodup := by
  unfold stitchSlices
  by_cases h : slices = []
  · subst h
    exact Or.inr ⟨[], [], rfl, List.Forall₂.nil, by simp⟩
  · have : slices.isEmpty = false := by simpa using h
    simp only [this, Bool.false_eq_true, if_false]
    rcases stitchOuter_spec p1 p2 (env.build (slices.map fun s => AABB.ofPoint s.startPoint)) slices sel eps
      hread hsel (henv.build_for _) (List.range slices.length) (List.replicate slices.length false) (by simp) (by simp)
      with h | ⟨rs, useds, e, h1, h2, -⟩
    · exact Or.inl h
    · exact Or.inr ⟨rs, useds, e, h1, h2⟩

/-- Stitching slices that can be read never panics and never runs out of its loop bound, whatever
the order of query answers and the choices of the selector.  Every result is the closed chain of its
subslices, and no slice is used twice. -/
theorem C41_stitch (env : Env T) (henv : env.Lawful) (slices : List (BoolSlice T)) (p1 p2 : Pline T) (sel : Selector) (eps : T)
    (hread : ∀ s ∈ slices, ∃ vs, s.Reads p1 p2 vs) (hsel : sel.Sane) :
    ∃ rs useds, stitchSlices env slices p1 p2 sel eps = .ok rs ∧
      List.Forall₂ (Stitched slices p1 p2 eps) useds rs ∧ useds.flatten.Nodup := by
  rcases stitchSlices_spec env henv slices p1 p2 sel eps (fun s hs => Or.inl (hread s hs)) hsel with ⟨-, s, hs, hbad⟩ | h
  · obtain ⟨vs, hvs, -⟩ := hread s hs
    unfold BoolSlice.Unreadable at hbad
    rw [hbad] at hvs
    cases hvs
  · exact h

theorem firstAvailable_sane {avail : List Nat} (h : avail ≠ []) :
    ∃ c, firstAvailable avail = .ok c ∧ ∀ j, c = some j → j ∈ avail := by
  cases avail with
  | nil => exact absurd rfl h
  | cons a t => exact ⟨some a, rfl, by simp⟩

theorem orElseM_sane {avail : List Nat} {o : Option Nat} {alt : Unit → M (Option Nat)} (ho : ∀ j, o = some j → j ∈ avail)
    (ha : ∃ c, alt () = .ok c ∧ ∀ j, c = some j → j ∈ avail) : ∃ c, orElseM o alt = .ok c ∧ ∀ j, c = some j → j ∈ avail := by
  cases o with
  | none => exact ha
  | some i => exact ⟨some i, rfl, ho⟩

theorem idx1_mem {s2 : Nat} {avail : List Nat} : ∀ j, idxForPline1 s2 avail = some j → j ∈ avail :=
  fun _ h => List.mem_of_find?_eq_some h

theorem idx2_mem {s2 s1o : Nat} {avail : List Nat} : ∀ j, idxForPline2 s2 s1o avail = some j → j ∈ avail :=
  fun _ h => List.mem_of_find?_eq_some h

/-- The selectors used by the library meet the contract. -/
theorem orAndSelector_sane (a b c : Nat) : (orAndSelector a b c).Sane := by
  intro cur avail h
  unfold orAndSelector
  dsimp only
  split
  · exact orElseM_sane idx2_mem (orElseM_sane idx1_mem (firstAvailable_sane h))
  · exact orElseM_sane idx1_mem (orElseM_sane idx2_mem (firstAvailable_sane h))

theorem notXorSelector_sane (a b c : Nat) : (notXorSelector a b c).Sane := by
  intro cur avail h
  unfold notXorSelector
  split
  · split
    · exact orElseM_sane idx2_mem ⟨_, rfl, idx1_mem⟩
    · exact orElseM_sane idx1_mem ⟨_, rfl, idx2_mem⟩
  · split
    · exact orElseM_sane idx2_mem (firstAvailable_sane h)
    · exact orElseM_sane idx1_mem (firstAvailable_sane h)

end Cavc
