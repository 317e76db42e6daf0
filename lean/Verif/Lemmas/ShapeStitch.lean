import Verif.Lemmas.ShapeSlices
import Verif.Props.OffsetStitch

/-! # Stitching the slices of offset loops of a shape -/

set_option linter.unusedSectionVars false
set_option linter.unusedVariables false

namespace Cavc
open Scalar Pline
variable {T : Type} [Scalar T]

/-- The steps from each slice of `used` to the next. -/
structure ShapeSteps (slices : List (DissectedSlice T)) (o : ShapeOffsetOptions T) (before used : List Nat) : Prop where
  linked : ∀ k s s', (used[k]?.bind fun i => slices[i]?) = some s → (used[k + 1]?.bind fun i => slices[i]?) = some s' →
    JoinNear o.sliceJoinEps s.vdata.endPoint s'.vdata.updatedStart.pos
  prefers : ∀ k s s' i t, (used[k]?.bind fun i => slices[i]?) = some s → (used[k + 1]?.bind fun i => slices[i]?) = some s' →
    s'.source ≠ s.source → slices[i]? = some t → JoinNear o.sliceJoinEps s.vdata.endPoint t.vdata.updatedStart.pos →
    i ∉ before ++ used.take (k + 1) → t.source ≠ s.source

theorem ShapeSteps.single (slices : List (DissectedSlice T)) (o : ShapeOffsetOptions T) (before : List Nat) (i : Nat) :
    ShapeSteps slices o before [i] := by
  constructor
  · intro k a b _ hb
    rw [List.getElem?_eq_none (by simp)] at hb
    simp at hb
  · intro k a b _ _ _ hb
    rw [List.getElem?_eq_none (by simp)] at hb
    simp at hb

theorem ShapeSteps.snoc {slices : List (DissectedSlice T)} {o : ShapeOffsetOptions T} {before used : List Nat} {curIdx j : Nat}
    (h : ShapeSteps slices o before (used ++ [curIdx]))
    (hlink : ∀ s s', slices[curIdx]? = some s → slices[j]? = some s' → JoinNear o.sliceJoinEps s.vdata.endPoint s'.vdata.updatedStart.pos)
    (hpref : ∀ s s' i t, slices[curIdx]? = some s → slices[j]? = some s' → s'.source ≠ s.source → slices[i]? = some t →
      JoinNear o.sliceJoinEps s.vdata.endPoint t.vdata.updatedStart.pos → i ∉ before ++ (used ++ [curIdx]) → t.source ≠ s.source) :
    ShapeSteps slices o before (used ++ [curIdx] ++ [j]) := by
  have key : ∀ k s s', ((used ++ [curIdx] ++ [j])[k]?.bind fun i => slices[i]?) = some s →
      ((used ++ [curIdx] ++ [j])[k + 1]?.bind fun i => slices[i]?) = some s' →
      (((used ++ [curIdx])[k]?.bind fun i => slices[i]?) = some s ∧ ((used ++ [curIdx])[k + 1]?.bind fun i => slices[i]?) = some s' ∧
        (used ++ [curIdx] ++ [j]).take (k + 1) = (used ++ [curIdx]).take (k + 1)) ∨
      (slices[curIdx]? = some s ∧ slices[j]? = some s' ∧ (used ++ [curIdx] ++ [j]).take (k + 1) = used ++ [curIdx]) := by
    intro k a b ha hb
    by_cases hk : k + 1 < (used ++ [curIdx]).length
    · left
      refine ⟨?_, ?_, List.take_append_of_le_length (by omega)⟩
      · rwa [List.getElem?_append_left (by omega)] at ha
      · rwa [List.getElem?_append_left hk] at hb
    · right
      have hk2 : k + 1 = (used ++ [curIdx]).length := by
        by_contra h
        rw [List.getElem?_eq_none (by simp only [List.length_append, List.length_singleton] at *; omega)] at hb
        simp at hb
      have hk3 : k = used.length := by simpa using hk2
      refine ⟨?_, ?_, ?_⟩
      · rw [List.getElem?_append_left (by omega), hk3, List.getElem?_concat_length] at ha
        simpa using ha
      · rw [hk2, List.getElem?_concat_length] at hb
        simpa using hb
      · rw [hk2, List.take_left]
  constructor
  · intro k a b ha hb
    rcases key k a b ha hb with ⟨h1, h2, -⟩ | ⟨h1, h2, -⟩
    · exact h.linked k a b h1 h2
    · exact hlink a b h1 h2
  · intro k a b i t ha hb hne ht hj hni
    rcases key k a b ha hb with ⟨h1, h2, h3⟩ | ⟨h1, h2, h3⟩
    · rw [h3] at hni
      exact h.prefers k a b i t h1 h2 hne ht hj hni
    · rw [h3] at hni
      exact hpref a b i t h1 h2 hne ht hj hni

theorem appendVertexes_append (eps : T) (a b c : List (Vertex T)) : appendVertexes eps a (b ++ c) = appendVertexes eps (appendVertexes eps a b) c := by
  unfold appendVertexes
  rw [List.foldl_append]

/-- The inner stitching loop; the slices `used` (without `curIdx`) are in the chain already. -/
theorem shapeStitchInner_spec (loops : List (OffsetLoop T)) (idx : Index T) (slices : List (DissectedSlice T)) (o : ShapeOffsetOptions T)
    (hread : ∀ s ∈ slices, ∃ vs, s.Reads loops vs)
    (hidx : idx.For (slices.map fun s => (AABB.ofPoint s.vdata.updatedStart.pos).grow o.sliceJoinEps)) :
    ∀ (fuel : Nat) (cur : Pline T) (curIdx : Nat) (visited : List Bool) (before used : List Nat)
      (ss : List (DissectedSlice T)) (vss : List (List (Vertex T))),
      visited.length = slices.length → visited.count false < fuel → cur.closed = false →
      curIdx < slices.length →
      cur.verts = appendVertexes o.posEqualEps [] vss.flatten →
      List.Forall₂ (fun (s : DissectedSlice T) vs => s.Reads loops vs) ss vss →
      used.map (fun i => slices[i]?) = ss.map some →
      (∀ i, visited[i]? = some true → i ∈ before ++ (used ++ [curIdx])) →
      ShapeSteps slices o before (used ++ [curIdx]) →
      ∃ r visited' new vs, shapeStitchInner loops idx slices o fuel cur curIdx visited = .ok (r, visited') ∧ Marks visited visited' new ∧
        ShapeChain loops slices o before (used ++ [curIdx] ++ new) vs ∧ r = chainLoop vs := by
  intro fuel
  induction fuel with
  | zero => intro _ _ _ _ _ _ _ _ h; omega
  | succ fuel ih =>
    intro cur curIdx visited before used ss vss hvl hcount hclosed hcur hverts hforall hused hseen hsteps
    have hs := List.getElem?_eq_getElem hcur
    obtain ⟨vs, hvs⟩ := hread slices[curIdx] (List.getElem_mem hcur)
    generalize slices[curIdx] = s at hs hvs
    obtain ⟨l, hl, hvs1, hvs2⟩ := id hvs
    have hq : ∀ i, i ∈ idx.query ((AABB.ofPoint s.vdata.endPoint).grow o.sliceJoinEps) ↔
        ∃ s', slices[i]? = some s' ∧ JoinNear o.sliceJoinEps s.vdata.endPoint s'.vdata.updatedStart.pos := by
      intro i
      rw [hidx.mem_query]
      constructor
      · rintro ⟨b, hb, hov⟩
        rw [List.getElem?_map, Option.map_eq_some_iff] at hb
        obtain ⟨s', hs', rfl⟩ := hb
        exact ⟨s', hs', hov⟩
      · rintro ⟨s', hs', hj⟩
        exact ⟨_, by rw [List.getElem?_map, hs']; rfl, hj⟩
    have hfilter : (idx.query ((AABB.ofPoint s.vdata.endPoint).grow o.sliceJoinEps)).filterM (notVisited visited)
        = .ok ((idx.query ((AABB.ofPoint s.vdata.endPoint).grow o.sliceJoinEps)).filter fun i => visited[i]? == some false) := by
      apply filterM_ok
      intro i hi
      obtain ⟨s', hs', -⟩ := (hq i).mp hi
      have hlt := (List.getElem?_eq_some_iff.mp hs').1
      rw [← hvl] at hlt
      unfold notVisited
      simp only [List.getElem?_eq_getElem hlt]
      cases visited[i] <;> simp
    have hch : appendVertexes o.posEqualEps cur.verts vs = appendVertexes o.posEqualEps [] (vss ++ [vs]).flatten := by
      rw [List.flatten_append, appendVertexes_append, hverts]
      simp
    have hne : appendVertexes o.posEqualEps cur.verts vs ≠ [] := appendVertexes_ne _ _ _ hvs2
    have hforall' := List.rel_append hforall (List.Forall₂.cons hvs List.Forall₂.nil)
    have hused' : (used ++ [curIdx]).map (fun i => slices[i]?) = (ss ++ [s]).map some := by simp [hused, hs]
    unfold shapeStitchInner
    simp only [hs, hl, hvs1, extendRemoveRepeat_eq, hfilter, bind, Except.bind, hclosed]
    have hmem : ∀ i, i ∈ ((idx.query ((AABB.ofPoint s.vdata.endPoint).grow o.sliceJoinEps)).filter fun i => visited[i]? == some false) ↔
        (∃ s', slices[i]? = some s' ∧ JoinNear o.sliceJoinEps s.vdata.endPoint s'.vdata.updatedStart.pos) ∧ visited[i]? = some false := by
      intro i
      rw [List.mem_filter, hq]
      simp
    have hhit : ∀ (i : Nat) (t : DissectedSlice T), slices[i]? = some t → JoinNear o.sliceJoinEps s.vdata.endPoint t.vdata.updatedStart.pos →
        i ∉ before ++ (used ++ [curIdx]) →
        i ∈ ((idx.query ((AABB.ofPoint s.vdata.endPoint).grow o.sliceJoinEps)).filter fun i => visited[i]? == some false) := by
      intro i t hi hj hni
      have hlt : i < visited.length := by
        rw [hvl]; exact (List.getElem?_eq_some_iff.mp hi).1
      cases hv : visited[i] with
      | true => exact absurd (hseen i (by rw [List.getElem?_eq_getElem hlt, hv])) hni
      | false => exact (hmem i).mpr ⟨⟨t, hi, hj⟩, by rw [List.getElem?_eq_getElem hlt, hv]⟩
    generalize hhits : ((idx.query ((AABB.ofPoint s.vdata.endPoint).grow o.sliceJoinEps)).filter fun i => visited[i]? == some false) = hits at hmem hhit
    cases hits with
    | nil =>
      have hchain : ShapeChain loops slices o before (used ++ [curIdx] ++ []) (appendVertexes o.posEqualEps cur.verts vs) := by
        rw [List.append_nil]
        refine ⟨by simp, ⟨ss ++ [s], vss ++ [vs], hused', hforall', hch⟩, hsteps.linked, hsteps.prefers, ?_⟩
        intro s1 i s' h1 hi hj
        rw [List.getLast?_append_of_ne_nil _ (by simp)] at h1
        have : s = s1 := by simpa [hs] using h1
        subst this
        by_contra hni
        simpa using hhit i s' hi hj hni
      simp only
      by_cases h2 : 2 < (appendVertexes o.posEqualEps cur.verts vs).length
      · obtain ⟨v, hv⟩ := removeLast_eq (⟨appendVertexes o.posEqualEps cur.verts vs, false⟩ : Pline T) hne
        rw [if_pos (show (⟨appendVertexes o.posEqualEps cur.verts vs, false⟩ : Pline T).vertexCount > 2 from h2), hv]
        refine ⟨_, visited, [], _, rfl, Marks.none _, hchain, ?_⟩
        unfold chainLoop
        rw [if_pos h2]
        rfl
      · rw [if_neg (show ¬ (⟨appendVertexes o.posEqualEps cur.verts vs, false⟩ : Pline T).vertexCount > 2 from h2)]
        refine ⟨_, visited, [], _, rfl, Marks.none _, hchain, ?_⟩
        unfold chainLoop
        rw [if_neg h2]
    | cons hd tl =>
      simp only
      generalize hjdef : ((hd :: tl).find? fun i => match slices[i]? with | some si => si.source == s.source | none => false).getD hd = j
      have hjmem : j ∈ hd :: tl := by
        rw [← hjdef]
        cases hf : (hd :: tl).find? fun i => match slices[i]? with | some si => si.source == s.source | none => false with
        | none => simp
        | some x => exact List.mem_of_find?_eq_some hf
      obtain ⟨⟨s', hs', hj⟩, hfalse⟩ := (hmem j).mp hjmem
      have hpref : s'.source ≠ s.source → ∀ (i : Nat) (t : DissectedSlice T), i ∈ hd :: tl → slices[i]? = some t → t.source ≠ s.source := by
        intro hns i t hi ht hts
        cases hf : (hd :: tl).find? fun i => match slices[i]? with | some si => si.source == s.source | none => false with
        | none =>
          have := List.find?_eq_none.mp hf i hi
          simp [ht, hts] at this
        | some x =>
          have hx := List.find?_some hf
          rw [hf] at hjdef
          have hxj : x = j := hjdef
          rw [hxj] at hx
          simp [hs', hns] at hx
      obtain ⟨r, visited', new, ws, e, hm, hr, hrw⟩ := ih ⟨appendVertexes o.posEqualEps cur.verts vs, false⟩ j (visited.set j true)
        before (used ++ [curIdx]) (ss ++ [s]) (vss ++ [vs]) (by simpa using hvl)
        (by have := count_set_true hfalse; omega) rfl (List.getElem?_eq_some_iff.mp hs').1
        hch hforall' hused'
        (by
          intro i hi
          rw [set_true visited hfalse] at hi
          by_cases hij : i = j
          · simp [hij]
          · rw [if_neg hij] at hi
            have := hseen i hi
            simp only [List.mem_append, List.mem_singleton] at this ⊢
            tauto)
        (hsteps.snoc (by
            intro a b ha hb
            rw [hs] at ha; rw [hs'] at hb
            cases ha; cases hb
            exact hj)
          (by
            intro a b i t ha hb hne ht hjt hni
            rw [hs] at ha; rw [hs'] at hb
            cases ha; cases hb
            exact hpref hne i t (hhit i t ht hjt hni) ht))
      refine ⟨r, visited', j :: new, ws, e, hm.cons hfalse, ?_, hrw⟩
      simpa using hr

/-- The outer stitching loop. -/
theorem shapeStitchOuter_spec (loops : List (OffsetLoop T)) (idx : Index T) (slices : List (DissectedSlice T)) (o : ShapeOffsetOptions T)
    (hread : ∀ s ∈ slices, ∃ vs, s.Reads loops vs)
    (hidx : idx.For (slices.map fun s => (AABB.ofPoint s.vdata.updatedStart.pos).grow o.sliceJoinEps)) :
    ∀ (is : List Nat) (visited : List Bool) (before : List Nat), visited.length = slices.length → (∀ i ∈ is, i < slices.length) →
      (∀ i, visited[i]? = some true → i ∈ before) →
      ∃ rs useds visited', shapeStitchOuter loops idx slices o is visited = .ok rs ∧
        ShapeRounds loops slices o before useds rs ∧
        Marks visited visited' useds.flatten ∧ ∀ i ∈ is, visited'[i]? = some true := by
  intro is
  induction is with
  | nil =>
    intro visited before _ _ _
    exact ⟨[], [], visited, rfl, .nil _, by simpa using Marks.none visited, by simp⟩
  | cons i is ih =>
    intro visited before hvl his hseen
    have hi := his i (by simp)
    have his' : ∀ j ∈ is, j < slices.length := fun j hj => his j (by simp [hj])
    have hiv : i < visited.length := by omega
    unfold shapeStitchOuter
    cases hv : visited[i] with
    | true =>
      simp only [List.getElem?_eq_getElem hiv, hv]
      obtain ⟨rs, useds, visited', e, h1, h2, h3⟩ := ih visited before hvl his' hseen
      refine ⟨rs, useds, visited', e, h1, h2, ?_⟩
      intro j hj
      rcases List.mem_cons.mp hj with rfl | hj
      · rw [h2.2.2.2 j]
        split
        · rfl
        · rw [List.getElem?_eq_getElem hiv, hv]
      · exact h3 j hj
    | false =>
      have hfalse : visited[i]? = some false := by rw [List.getElem?_eq_getElem hiv, hv]
      simp only [hfalse, bind, Except.bind]
      obtain ⟨r, visited', new, vs, e, hm, hr, hrw⟩ := shapeStitchInner_spec loops idx slices o
        hread hidx (slices.length + 1) ⟨[], false⟩ i (visited.set i true) before [] [] []
        (by simpa using hvl)
        (by
          have h1 := count_set_true hfalse
          have h2 := List.count_le_length (a := false) (l := visited)
          omega)
        rfl hi rfl List.Forall₂.nil rfl
        (by
          intro j hj
          rw [set_true visited hfalse] at hj
          by_cases hij : j = i
          · simp [hij]
          · rw [if_neg hij] at hj
            simp [hseen j hj])
        (ShapeSteps.single slices o before i)
      have hm' := hm.cons hfalse
      obtain ⟨more, useds, visited2, e', hst, hm2, hall⟩ := ih visited' (before ++ (i :: new)) (by rw [hm'.1, hvl]) his'
        (by
          intro j hj
          rw [hm'.2.2.2 j] at hj
          rw [List.mem_append]
          by_cases h2 : j ∈ i :: new
          · exact Or.inr h2
          · rw [if_neg h2] at hj; exact Or.inl (hseen j hj))
      rw [e]
      simp only [e', hrw]
      refine ⟨_, (i :: new) :: useds, visited2, rfl, .cons _ _ _ _ _ (by simpa using hr) hst, ?_, ?_⟩
      · rw [List.flatten_cons]
        have hdis : ∀ j ∈ useds.flatten, j ∉ i :: new ∧ visited[j]? = some false := by
          intro j hj
          have h1 := hm2.2.2.1 j hj
          rw [hm'.2.2.2 j] at h1
          by_cases h2 : j ∈ i :: new
          · rw [if_pos h2] at h1; simp at h1
          · rw [if_neg h2] at h1; exact ⟨h2, h1⟩
        refine ⟨by rw [hm2.1, hm'.1], ?_, ?_, ?_⟩
        · rw [List.nodup_append]
          refine ⟨hm'.2.1, hm2.2.1, ?_⟩
          rintro a ha b hb rfl
          exact (hdis a hb).1 ha
        · intro j hj
          rcases List.mem_append.mp hj with hj | hj
          · exact hm'.2.2.1 j hj
          · exact (hdis j hj).2
        · intro j
          rw [hm2.2.2.2 j, hm'.2.2.2 j]
          by_cases h1 : j ∈ useds.flatten <;> by_cases h2 : j ∈ i :: new <;>
            simp only [h1, h2, List.mem_append, if_true, if_false, or_true, true_or, or_false]
      · intro j hj
        rcases List.mem_cons.mp hj with rfl | hj
        · rw [hm2.2.2.2 j]
          split
          · rfl
          · rw [hm'.2.2.2 j, if_pos (by simp)]
        · exact hall j hj

/-- All slices are stitched, each exactly once. -/
theorem shapeStitch_spec (loops : List (OffsetLoop T)) (idx : Index T) (slices : List (DissectedSlice T)) (o : ShapeOffsetOptions T)
    (hread : ∀ s ∈ slices, ∃ vs, s.Reads loops vs)
    (hidx : idx.For (slices.map fun s => (AABB.ofPoint s.vdata.updatedStart.pos).grow o.sliceJoinEps)) :
    ∃ rs useds, shapeStitchOuter loops idx slices o (List.range slices.length) (List.replicate slices.length false) = .ok rs ∧
      ShapeRounds loops slices o [] useds rs ∧ useds.flatten.Perm (List.range slices.length) := by
  obtain ⟨rs, useds, visited', e, h1, h2, h3⟩ := shapeStitchOuter_spec loops idx slices o hread hidx
    (List.range slices.length) (List.replicate slices.length false) [] (by simp) (by simp)
    (by
      intro i hi
      have := List.mem_of_getElem? hi
      simp at this)
  refine ⟨rs, useds, e, h1, ?_⟩
  rw [List.perm_ext_iff_of_nodup h2.2.1 List.nodup_range]
  intro i
  rw [List.mem_range]
  constructor
  · intro hi
    have := (List.getElem?_eq_some_iff.mp (h2.2.2.1 i hi)).1
    simpa using this
  · intro hi
    have := h3 i (List.mem_range.mpr hi)
    rw [h2.2.2.2 i] at this
    by_contra hc
    rw [if_neg hc] at this
    have := List.mem_of_getElem? this
    simp at this

end Cavc
