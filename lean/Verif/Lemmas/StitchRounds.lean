import Verif.Spec.StitchOrder
import Verif.Props.BooleanStitch

/-! # Which slices stitching joins -/

set_option linter.unusedSectionVars false
set_option linter.unusedVariables false

namespace Cavc
open Scalar Pline
variable {T : Type} [Scalar T]

/-- A selector takes one of the least rank among those that may be joined, and none if there are none. -/
def Selector.Follows (sel : Selector) (may : Nat → Nat → Prop) (rank : Nat → Nat → Nat) : Prop :=
  ∀ cur avail, avail ≠ [] →
    (∃ j, sel cur avail = .ok (some j) ∧ j ∈ avail ∧ may cur j ∧ ∀ i ∈ avail, may cur i → rank cur j ≤ rank cur i) ∨
    (sel cur avail = .ok none ∧ ∀ i ∈ avail, ¬ may cur i)

theorem possible_append {slices : List (BoolSlice T)} {eps : T} {before path : List Nat} {vss : List (List (Vertex T))} {k : Nat}
    (more : List Nat) (vmore : List (List (Vertex T))) (hk : k + 1 ≤ path.length) (hl : path.length = vss.length) (i : Nat) :
    Possible slices eps before (path ++ more) (vss ++ vmore) k i ↔ Possible slices eps before path vss k i := by
  have hh : (path ++ more).head? = path.head? := by
    cases path with
    | nil => simp at hk
    | cons a t => rfl
  unfold Possible
  rw [List.take_append_of_le_length hk, List.take_append_of_le_length (by omega), hh]

theorem best_append {slices : List (BoolSlice T)} {eps : T} {may : Nat → Nat → Prop} {rank : Nat → Nat → Nat} {before path : List Nat}
    {vss : List (List (Vertex T))} {k a c : Nat} (more : List Nat) (vmore : List (List (Vertex T))) (hk : k + 1 ≤ path.length)
    (hl : path.length = vss.length) (h : Best slices eps may rank before path vss k a c) :
    Best slices eps may rank before (path ++ more) (vss ++ vmore) k a c := by
  obtain ⟨h1, h2, h3⟩ := h
  exact ⟨(possible_append more vmore hk hl c).mpr h1, h2, fun i hi => h3 i ((possible_append more vmore hk hl i).mp hi)⟩

/-- The inner stitching loop, started with the chain of the slices `used`. -/
theorem stitchInner_joints (p1 p2 : Pline T) (idx : Index T) (slices : List (BoolSlice T)) (sel : Selector) (eps : T) (beginning : Nat)
    (may : Nat → Nat → Prop) (rank : Nat → Nat → Nat) (before : List Nat)
    (hread : ∀ s ∈ slices, (∃ vs, s.Reads p1 p2 vs) ∨ s.Unreadable p1 p2) (hsel : sel.Follows may rank)
    (hidx : idx.For (slices.map fun s => AABB.ofPoint s.startPoint)) :
    ∀ (fuel : Nat) (cur : Pline T) (subs : List (BoolSlice T)) (curIdx : Nat) (visited : List Bool) (used : List Nat)
      (vss : List (List (Vertex T))),
      visited.length = slices.length → used.head? = some beginning → used.getLast? = some curIdx →
      cur.verts = chainVertexes eps vss → cur.verts ≠ [] →
      List.Forall₂ (fun i vs => ∃ s, slices[i]? = some s ∧ s.Reads p1 p2 vs) used vss →
      used.map (fun i => slices[i]?) = subs.map some → List.Forall₂ (fun s vs => s.Reads p1 p2 vs) subs vss →
      Linked eps vss subs →
      (∀ i < slices.length, visited[i]? = some false ↔ i ∉ before ∧ i ∉ used) →
      (∀ k a c, used[k]? = some a → used[k + 1]? = some c → Best slices eps may rank before used vss k a c) →
      ∀ rs visited', stitchInner p1 p2 idx slices sel eps beginning fuel cur subs curIdx visited = .ok (rs, visited') →
      ∃ new r, Marks visited visited' new ∧ rs = Option.toList r ∧ Joints slices p1 p2 eps may rank before (used ++ new) r := by
  intro fuel
  induction fuel with
  | zero =>
    intro cur subs curIdx visited used vss _ _ _ _ _ _ _ _ _ _ _ rs visited' h
    simp [stitchInner] at h
  | succ fuel ih =>
    intro cur subs curIdx visited used vss hvl hhead hlast hcur hne hfu hused hforall hlinked hv hbest rs visited' hrun
    obtain ⟨l, hl⟩ : ∃ l, cur.verts.getLast? = some l := ⟨_, List.getLast?_eq_getLast_of_ne_nil hne⟩
    have hq : ∀ i, i ∈ idx.query ((AABB.ofPoint l.pos).grow eps) ↔ ∃ s, slices[i]? = some s ∧ Near eps l.pos s.startPoint := by
      intro i
      rw [hidx.mem_query]
      constructor
      · rintro ⟨b, hb, hov⟩
        rw [List.getElem?_map, Option.map_eq_some_iff] at hb
        obtain ⟨s, hs, rfl⟩ := hb
        exact ⟨s, hs, hov⟩
      · rintro ⟨s, hs, hov⟩
        exact ⟨AABB.ofPoint s.startPoint, by rw [List.getElem?_map, hs]; rfl, hov⟩
    have hfilter : (idx.query ((AABB.ofPoint l.pos).grow eps)).filterM (stitchHit beginning visited)
        = .ok ((idx.query ((AABB.ofPoint l.pos).grow eps)).filter fun i => i == beginning || visited[i]? == some false) := by
      apply filterM_ok
      intro i hi
      obtain ⟨s, hs, -⟩ := (hq i).mp hi
      have hlt := (List.getElem?_eq_some_iff.mp hs).1
      rw [← hvl] at hlt
      unfold stitchHit
      by_cases hb : (i == beginning) = true
      · simp [hb]
      · simp only [hb, Bool.false_eq_true, if_false, List.getElem?_eq_getElem hlt]
        cases visited[i] <;> simp
    have hlenm : subs.length = vss.length := hforall.length_eq
    have hlenu : used.length = vss.length := hfu.length_eq
    have hupos : 0 < used.length := by
      cases used with
      | nil => simp at hhead
      | cons a t => simp
    unfold stitchInner at hrun
    simp only [Pline.last, hl, unwrap, bind, Except.bind] at hrun
    rw [hfilter] at hrun
    simp only at hrun
    have hposs : ∀ i, Possible slices eps before used vss (used.length - 1) i ↔
        i ∈ (idx.query ((AABB.ofPoint l.pos).grow eps)).filter (fun i => i == beginning || visited[i]? == some false) := by
      intro i
      have e1 : used.length - 1 + 1 = used.length := by omega
      unfold Possible
      rw [e1, List.take_length, hlenu, List.take_length, ← hcur, hl, hhead, List.mem_filter, hq i]
      constructor
      · rintro ⟨t, l', ht, hl', hnear, hor⟩
        cases hl'
        refine ⟨⟨t, ht, hnear⟩, ?_⟩
        rcases hor with h | h
        · have : beginning = i := by simpa using h
          simp [this]
        · have := (hv i (List.getElem?_eq_some_iff.mp ht).1).mpr h
          simp [this]
      · rintro ⟨⟨t, ht, hnear⟩, hor⟩
        refine ⟨t, l, ht, rfl, hnear, ?_⟩
        rw [Bool.or_eq_true, beq_iff_eq, beq_iff_eq] at hor
        rcases hor with rfl | h
        · exact Or.inl rfl
        · exact Or.inr ((hv i (List.getElem?_eq_some_iff.mp ht).1).mp h)
    generalize hhits : (idx.query ((AABB.ofPoint l.pos).grow eps)).filter (fun i => i == beginning || visited[i]? == some false) = hits
      at hposs hrun
    have hstuck : (∀ i ∈ hits, ¬ may curIdx i) → Joints slices p1 p2 eps may rank before (used ++ []) none := by
      intro h
      rw [List.append_nil]
      exact ⟨vss, beginning, curIdx, hfu, hhead, hlast, hbest, Or.inr fun i hi => h i ((hposs i).mp hi)⟩
    by_cases hemp : hits = []
    · subst hemp
      simp only [List.isEmpty_nil, if_true] at hrun
      cases hrun
      exact ⟨[], none, Marks.none _, rfl, hstuck (by simp)⟩
    · have : hits.isEmpty = false := by simpa using hemp
      simp only [this, Bool.false_eq_true, if_false] at hrun
      rcases hsel curIdx hits hemp with ⟨j, hc, hjm, hmay, hmin⟩ | ⟨hc, hno⟩
      swap
      · rw [hc] at hrun
        cases hrun
        exact ⟨[], none, Marks.none _, rfl, hstuck hno⟩
      · rw [hc] at hrun
        simp only at hrun
        have hb : Best slices eps may rank before used vss (used.length - 1) curIdx j :=
          ⟨(hposs j).mpr hjm, hmay, fun i hi => hmin i ((hposs i).mp hi)⟩
        rw [← hhits, List.mem_filter] at hjm
        obtain ⟨s, hs, hnear⟩ := (hq j).mp hjm.1
        by_cases hj : j = beginning
        · rw [if_pos hj] at hrun
          subst hj
          by_cases h3 : cur.verts.length < 3
          · have hcl : closePline cur subs = .ok [] := by
              unfold closePline vertexCount
              rw [if_pos h3]
            rw [hcl] at hrun
            cases hrun
            refine ⟨[], none, Marks.none _, rfl, ?_⟩
            rw [List.append_nil]
            exact ⟨vss, j, curIdx, hfu, hhead, hlast, hbest, Or.inl ⟨hb, by rw [← hcur]; exact h3⟩⟩
          · obtain ⟨v, hv'⟩ := removeLast_eq cur hne
            have hcl : closePline cur subs = .ok [⟨⟨cur.verts.dropLast, true⟩, subs⟩] := by
              unfold closePline vertexCount
              rw [if_neg h3, hv']; rfl
            rw [hcl] at hrun
            cases hrun
            refine ⟨[], some _, Marks.none _, rfl, ?_⟩
            rw [List.append_nil]
            refine ⟨vss, j, curIdx, hfu, hhead, hlast, hbest, hb, ?_⟩
            have hs0 : subs.take 1 = [s] := by
              cases used with
              | nil => simp at hhead
              | cons u used =>
                have : u = j := by simpa using hhead
                subst this
                cases subs with
                | nil => simp at hused
                | cons s' subs =>
                  simp only [List.map_cons, List.cons.injEq] at hused
                  rw [hs] at hused
                  have := hused.1
                  simp at this
                  simp [this]
            refine ⟨by simpa using hused, ?_, rfl, ?_, vss, hforall, ?_, ?_⟩
            · show subs ≠ []
              rintro rfl
              simp at hs0
            · show 2 ≤ (cur.verts.dropLast).length
              rw [List.length_dropLast]; omega
            · show cur.verts.dropLast = _
              rw [hcur]
            · show Linked eps vss (subs ++ subs.take 1)
              rw [hs0]
              intro k s' hk hks
              by_cases hkl : k < subs.length
              · rw [List.getElem?_append_left hkl] at hks
                exact hlinked k s' hk hks
              · rw [List.getElem?_append_right (by omega)] at hks
                have hk0 : k - subs.length = 0 := by
                  by_contra h0
                  rw [List.getElem?_eq_none (by simp; omega)] at hks
                  simp at hks
                rw [hk0] at hks
                have : s = s' := by simpa using hks
                subst this
                rw [List.take_of_length_le (by omega), ← hcur]
                exact ⟨l, hl, hnear⟩
        · rw [if_neg hj] at hrun
          have hfalse : visited[j]? = some false := by
            have := hjm.2
            simpa [hj] using this
          obtain ⟨v, hv'⟩ := removeLast_eq cur hne
          rcases hread s (List.mem_of_getElem? hs) with ⟨vs, hvs⟩ | hbad
          swap
          · have hbad' : s.toPline p1 p2 = .error .indexOutOfBounds := hbad
            simp only [hs, hv', hbad'] at hrun
            cases hrun
          simp only [hs, hv', hvs.1, extendRemoveRepeat_eq] at hrun
          have hch : appendVertexes eps cur.verts.dropLast vs = chainVertexes eps (vss ++ [vs]) := by
            rw [chainVertexes_snoc, hcur]
          obtain ⟨new, r, hm, hr, hjo⟩ := ih ⟨appendVertexes eps cur.verts.dropLast vs, cur.closed⟩ (subs ++ [s]) j
            (visited.set j true) (used ++ [j]) (vss ++ [vs]) (by simpa using hvl)
            (by
              cases used with
              | nil => simp at hhead
              | cons u t => simpa using hhead)
            (by simp)
            hch
            (appendVertexes_ne _ _ _ hvs.2)
            (List.rel_append hfu (List.Forall₂.cons ⟨s, hs, hvs⟩ List.Forall₂.nil))
            (by simp [hused, hs])
            (List.rel_append hforall (List.Forall₂.cons hvs List.Forall₂.nil))
            (by
              intro k s' hk hks
              by_cases hkl : k < subs.length
              · rw [List.getElem?_append_left hkl] at hks
                rw [List.take_append_of_le_length (by omega)]
                exact hlinked k s' hk hks
              · rw [List.getElem?_append_right (by omega)] at hks
                have hk0 : k - subs.length = 0 := by
                  by_contra h0
                  rw [List.getElem?_eq_none (by simp; omega)] at hks
                  simp at hks
                rw [hk0] at hks
                have : s = s' := by simpa using hks
                subst this
                have hkk : k = vss.length := by omega
                rw [hkk, List.take_left', ← hcur]
                · exact ⟨l, hl, hnear⟩
                · rfl)
            (by
              intro i hi
              rw [set_true visited hfalse, List.mem_append, List.mem_singleton]
              by_cases hij : i = j
              · simp [hij]
              · rw [if_neg hij, hv i hi]
                simp [hij])
            (by
              intro k a c ha hc'
              by_cases hk : k + 1 < used.length
              · rw [List.getElem?_append_left (by omega)] at ha
                rw [List.getElem?_append_left hk] at hc'
                exact best_append _ _ (by omega) hlenu (hbest k a c ha hc')
              · have hk1 : k + 1 = used.length := by
                  have := (List.getElem?_eq_some_iff.mp hc').1
                  simp at this
                  omega
                rw [List.getElem?_append_left (by omega)] at ha
                rw [List.getElem?_append_right (by omega), hk1, Nat.sub_self] at hc'
                have hcj : c = j := by simpa using hc'.symm
                have hac : a = curIdx := by
                  rw [List.getLast?_eq_getElem?, ← hk1, Nat.add_sub_cancel, ha] at hlast
                  simpa using hlast
                rw [hcj, hac, show k = used.length - 1 by omega]
                exact best_append _ _ (by omega) hlenu hb)
            rs visited' hrun
          refine ⟨j :: new, r, hm.cons hfalse, hr, ?_⟩
          simpa using hjo

/-- The outer stitching loop from slice number `k` on. -/
theorem stitchOuter_rounds (p1 p2 : Pline T) (idx : Index T) (slices : List (BoolSlice T)) (sel : Selector) (eps : T)
    (may : Nat → Nat → Prop) (rank : Nat → Nat → Nat)
    (hread : ∀ s ∈ slices, (∃ vs, s.Reads p1 p2 vs) ∨ s.Unreadable p1 p2) (hsel : sel.Follows may rank)
    (hidx : idx.For (slices.map fun s => AABB.ofPoint s.startPoint)) :
    ∀ (m k : Nat) (visited : List Bool) (before : List Nat), k + m = slices.length → visited.length = slices.length →
      (∀ i < slices.length, visited[i]? = some false ↔ i ∉ before) → (∀ j < k, j ∈ before) →
      ∀ rs, stitchOuter p1 p2 idx slices sel eps (List.range' k m) visited = .ok rs →
      ∃ rounds, rs = rounds.filterMap Prod.snd ∧ Rounds slices p1 p2 eps may rank before rounds ∧
        (rounds.map Prod.fst).flatten.Nodup ∧ ∀ j, j ∈ (rounds.map Prod.fst).flatten ↔ j < slices.length ∧ j ∉ before := by
  intro m
  induction m with
  | zero =>
    intro k visited before hk hvl hv hb rs hrun
    have : rs = [] := by
      have : stitchOuter p1 p2 idx slices sel eps [] visited = .ok rs := hrun
      unfold stitchOuter at this
      cases this
      rfl
    subst this
    refine ⟨[], rfl, trivial, by simp, fun j => ?_⟩
    simp only [List.map_nil, List.flatten_nil, List.not_mem_nil, false_iff, not_and, not_not]
    intro hj
    exact hb j (by omega)
  | succ m ih =>
    intro k visited before hk hvl hv hb rs hrun
    have hi : k < slices.length := by omega
    have hiv : k < visited.length := by omega
    rw [List.range'_succ] at hrun
    unfold stitchOuter at hrun
    cases hvk : visited[k] with
    | true =>
      simp only [List.getElem?_eq_getElem hiv, hvk, List.getElem?_eq_getElem hi] at hrun
      refine ih (k + 1) visited before (by omega) hvl hv (fun j hj => ?_) rs hrun
      by_cases h : j = k
      · subst h
        by_contra hn
        have := (hv j hi).mpr hn
        rw [List.getElem?_eq_getElem hiv, hvk] at this
        simp at this
      · exact hb j (by omega)
    | false =>
      have hfalse : visited[k]? = some false := by rw [List.getElem?_eq_getElem hiv, hvk]
      have hkb := (hv k hi).mp hfalse
      rcases hread slices[k] (List.getElem_mem hi) with ⟨vs, hvs⟩ | hbad
      swap
      · have hbad' : slices[k].toPline p1 p2 = .error .indexOutOfBounds := hbad
        simp only [hfalse, List.getElem?_eq_getElem hi, bind, Except.bind, hbad'] at hrun
        cases hrun
      simp only [hfalse, List.getElem?_eq_getElem hi, bind, Except.bind, hvs.1, createFromRemoveRepeat_open] at hrun
      have hone : chainVertexes eps [vs] = appendVertexes eps [] vs := by simp [chainVertexes]
      cases e : stitchInner p1 p2 idx slices sel eps k (slices.length + 1) ⟨appendVertexes eps [] vs, false⟩ [slices[k]] k (visited.set k true) with
      | error err => rw [e] at hrun; cases hrun
      | ok res =>
        obtain ⟨rs1, visited'⟩ := res
        rw [e] at hrun
        obtain ⟨new, r, hm, hr, hjo⟩ := stitchInner_joints p1 p2 idx slices sel eps k may rank before hread hsel hidx (slices.length + 1)
          ⟨appendVertexes eps [] vs, false⟩ [slices[k]] k (visited.set k true) [k] [vs]
          (by simpa using hvl) rfl rfl hone.symm (appendVertexes_ne _ _ _ hvs.2)
          (List.Forall₂.cons ⟨slices[k], List.getElem?_eq_getElem hi, hvs⟩ List.Forall₂.nil)
          (by simp [List.getElem?_eq_getElem hi])
          (List.Forall₂.cons hvs List.Forall₂.nil)
          (by
            intro k' s' hk' hks
            rw [List.getElem?_eq_none (by simp; omega)] at hks
            simp at hks)
          (by
            intro i hi'
            rw [set_true visited hfalse, List.mem_singleton]
            by_cases hij : i = k
            · simp [hij]
            · rw [if_neg hij, hv i hi']
              simp [hij])
          (by
            intro k' a c ha hc
            simp at hc)
          rs1 visited' e
        have hm' := hm.cons hfalse
        have hv' : ∀ i < slices.length, visited'[i]? = some false ↔ i ∉ before ++ k :: new := by
          intro i hi'
          rw [hm'.2.2.2 i, List.mem_append]
          by_cases h : i ∈ k :: new
          · simp [h]
          · rw [if_neg h, hv i hi']
            simp only [h, or_false]
        simp only at hrun
        cases e' : stitchOuter p1 p2 idx slices sel eps (List.range' (k + 1) m) visited' with
        | error err => rw [e'] at hrun; cases hrun
        | ok more =>
          rw [e'] at hrun
          obtain ⟨rounds, h1, h2, h3, h4⟩ := ih (k + 1) visited' (before ++ k :: new) (by omega) (by rw [hm'.1, hvl]) hv'
            (fun j hj => by
              rw [List.mem_append]
              by_cases h : j = k
              · exact Or.inr (by simp [h])
              · exact Or.inl (hb j (by omega))) more e'
          have hrs : rs = rs1 ++ more := by cases hrun; rfl
          refine ⟨(k :: new, r) :: rounds, ?_, ⟨⟨k, rfl, hkb, hb⟩, hjo, h2⟩, ?_, ?_⟩
          · rw [hrs, hr, h1]
            cases r <;> simp
          · rw [List.map_cons, List.flatten_cons, List.nodup_append]
            refine ⟨hm'.2.1, h3, ?_⟩
            rintro a ha b hb' rfl
            exact ((h4 a).mp hb').2 (List.mem_append.mpr (Or.inr ha))
          · intro j
            rw [List.map_cons, List.flatten_cons, List.mem_append, h4 j, List.mem_append]
            constructor
            · rintro (h | ⟨ha, hb'⟩)
              · have hf := hm'.2.2.1 j h
                have hlt : j < slices.length := by
                  have := (List.getElem?_eq_some_iff.mp hf).1
                  omega
                exact ⟨hlt, (hv j hlt).mp hf⟩
              · exact ⟨ha, fun h => hb' (Or.inl h)⟩
            · rintro ⟨ha, hb'⟩
              by_cases h : j ∈ k :: new
              · exact Or.inl h
              · exact Or.inr ⟨ha, fun h' => h'.elim hb' h⟩

/-- Stitching goes in rounds that use every slice exactly once. -/
theorem stitchSlices_rounds (env : Env T) (henv : env.Lawful) (slices : List (BoolSlice T)) (p1 p2 : Pline T) (sel : Selector) (eps : T)
    (may : Nat → Nat → Prop) (rank : Nat → Nat → Nat) (hread : ∀ s ∈ slices, (∃ vs, s.Reads p1 p2 vs) ∨ s.Unreadable p1 p2)
    (hsel : sel.Follows may rank) (rs : List (BooleanResultPline T)) (h : stitchSlices env slices p1 p2 sel eps = .ok rs) :
    ∃ rounds, rs = rounds.filterMap Prod.snd ∧ (rounds.map Prod.fst).flatten.Perm (List.range slices.length) ∧
      Rounds slices p1 p2 eps may rank [] rounds := by
  unfold stitchSlices at h
  by_cases hs : slices = []
  · subst hs
    cases h
    exact ⟨[], rfl, by simp, trivial⟩
  · have : slices.isEmpty = false := by simpa using hs
    simp only [this, Bool.false_eq_true, if_false, List.range_eq_range'] at h
    obtain ⟨rounds, h1, h2, h3, h4⟩ := stitchOuter_rounds p1 p2 (env.build (slices.map fun s => AABB.ofPoint s.startPoint)) slices sel eps
      may rank hread hsel (henv.build_for _) slices.length 0 (List.replicate slices.length false) [] (by omega) (by simp)
      (by intro i hi; simp [hi]) (by intro j hj; omega) rs h
    refine ⟨rounds, h1, ?_, h2⟩
    rw [List.perm_ext_iff_of_nodup h3 List.nodup_range]
    intro j
    rw [h4 j, List.mem_range]
    simp

theorem idx1_cases (n1 : Nat) (avail : List Nat) :
    (∃ j, idxForPline1 n1 avail = some j ∧ j ∈ avail ∧ j < n1) ∨ (idxForPline1 n1 avail = none ∧ ∀ i ∈ avail, n1 ≤ i) := by
  unfold idxForPline1
  cases h : avail.find? (fun i => i < n1) with
  | none =>
    refine Or.inr ⟨rfl, fun i hi => ?_⟩
    rw [List.find?_eq_none] at h
    simpa using h i hi
  | some j => exact Or.inl ⟨j, rfl, List.mem_of_find?_eq_some h, by simpa using List.find?_some h⟩

theorem idx2_cases (n1 n2 : Nat) (avail : List Nat) :
    (∃ j, idxForPline2 n1 (n1 + n2) avail = some j ∧ j ∈ avail ∧ n1 ≤ j ∧ j < n1 + n2) ∨
      (idxForPline2 n1 (n1 + n2) avail = none ∧ ∀ i ∈ avail, i < n1 ∨ n1 + n2 ≤ i) := by
  unfold idxForPline2
  cases h : avail.find? (fun i => i ≥ n1 && i < n1 + n2) with
  | none =>
    refine Or.inr ⟨rfl, fun i hi => ?_⟩
    rw [List.find?_eq_none] at h
    have := h i hi
    simp only [ge_iff_le, Bool.and_eq_true, decide_eq_true_eq, not_and, not_lt] at this
    omega
  | some j =>
    have := List.find?_some h
    simp only [ge_iff_le, Bool.and_eq_true, decide_eq_true_eq] at this
    exact Or.inl ⟨j, rfl, List.mem_of_find?_eq_some h, this⟩

theorem kind_first {n1 n2 m i : Nat} (h : i < n1) : kindAt n1 n2 m i = ⟨true, false⟩ := by
  unfold kindAt; rw [if_pos h]
theorem kind_second {n1 n2 m i : Nat} (h : n1 ≤ i) (h' : i < n1 + n2) : kindAt n1 n2 m i = ⟨false, false⟩ := by
  unfold kindAt; rw [if_neg (by omega), if_pos h']
theorem kind_overlap {n1 n2 m i : Nat} (h : n1 + n2 ≤ i) : (kindAt n1 n2 m i).overlap = true := by
  unfold kindAt; rw [if_neg (by omega), if_neg (by omega)]; split <;> rfl

theorem rank_best {pass : Bool × Bool} {a b : SliceKind} (c : SliceKind) (h : b.overlap = false) (h' : b.first ≠ a.first) :
    joinRank pass a b ≤ joinRank pass a c := by
  unfold joinRank
  rw [if_pos ⟨h, h'⟩]
  exact Nat.zero_le _

theorem orAnd_follows (n1 n2 m : Nat) (pass : Bool × Bool) (hp : pass.1 = pass.2) :
    (orAndSelector n1 (n1 + n2) (n1 + n2 + m)).Follows (fun a c => mayJoin pass (kindAt n1 n2 m a) (kindAt n1 n2 m c))
      (fun a c => joinRank pass (kindAt n1 n2 m a) (kindAt n1 n2 m c)) := by
  intro cur avail hne
  left
  have hmay : ∀ a c, mayJoin pass a c := fun a c h => absurd hp h
  have hrank : ∀ a b : SliceKind, (b.overlap = true → joinRank pass a b = 2) ∧
      (b.overlap = false → b.first = a.first → joinRank pass a b = 1) ∧ joinRank pass a b ≤ 2 := by
    intro a b
    unfold joinRank
    rw [if_pos hp]
    refine ⟨fun h => ?_, fun h h' => ?_, ?_⟩
    · simp [h]
    · simp [h, h']
    · split
      · omega
      · split <;> omega
  obtain ⟨f, t, rfl⟩ : ∃ f t, avail = f :: t := by
    cases avail with
    | nil => exact absurd rfl hne
    | cons f t => exact ⟨f, t, rfl⟩
  have hcur : (decide (cur < n1) || (decide (cur ≥ n1 + n2) && decide (cur < n1 + n2 + m))) = (kindAt n1 n2 m cur).first := by
    unfold kindAt
    by_cases h1 : cur < n1
    · simp [h1]
    · by_cases h2 : cur < n1 + n2
      · have h3 : ¬ (n1 + n2 ≤ cur) := by omega
        simp [h1, h2, h3]
      · have h3 : n1 + n2 ≤ cur := by omega
        by_cases h4 : cur < n1 + n2 + m <;> simp [h1, h2, h3, h4]
  unfold orAndSelector
  simp only [hcur]
  have hall : (∀ i ∈ f :: t, n1 ≤ i) → (∀ i ∈ f :: t, i < n1 ∨ n1 + n2 ≤ i) → ∀ i ∈ f :: t, (kindAt n1 n2 m i).overlap = true := by
    intro h1 h2 i hi
    refine kind_overlap ?_
    have := h1 i hi
    rcases h2 i hi with h | h <;> omega
  split
  · rename_i hk
    rcases idx2_cases n1 n2 (f :: t) with ⟨j, e, hj, hj1, hj2⟩ | ⟨e, hno⟩
    · rw [e]
      refine ⟨j, rfl, hj, hmay _ _, fun i _ _ => rank_best _ ?_ ?_⟩ <;> rw [kind_second hj1 hj2]
      rw [hk]; decide
    · rw [e]
      rcases idx1_cases n1 (f :: t) with ⟨j, e', hj, hj1⟩ | ⟨e', hno'⟩
      · simp only [orElseM, e']
        refine ⟨j, rfl, hj, hmay _ _, fun i hi _ => ?_⟩
        show joinRank _ _ _ ≤ joinRank _ _ _
        rw [(hrank _ (kindAt n1 n2 m j)).2.1 (by rw [kind_first hj1]) (by rw [kind_first hj1, hk])]
        rcases hno i hi with h | h
        · rw [(hrank _ (kindAt n1 n2 m i)).2.1 (by rw [kind_first h]) (by rw [kind_first h, hk])]
        · rw [(hrank _ (kindAt n1 n2 m i)).1 (kind_overlap h)]; omega
      · simp only [orElseM, e', firstAvailable]
        refine ⟨f, rfl, by simp, hmay _ _, fun i hi _ => ?_⟩
        show joinRank _ _ _ ≤ joinRank _ _ _
        rw [(hrank _ (kindAt n1 n2 m i)).1 (hall hno' hno i hi)]
        exact (hrank _ _).2.2
  · rename_i hk
    have hk : (kindAt n1 n2 m cur).first = false := by simpa using hk
    rcases idx1_cases n1 (f :: t) with ⟨j, e, hj, hj1⟩ | ⟨e, hno⟩
    · rw [e]
      refine ⟨j, rfl, hj, hmay _ _, fun i _ _ => rank_best _ ?_ ?_⟩ <;> rw [kind_first hj1]
      rw [hk]; decide
    · rw [e]
      rcases idx2_cases n1 n2 (f :: t) with ⟨j, e', hj, hj1, hj2⟩ | ⟨e', hno'⟩
      · simp only [orElseM, e']
        refine ⟨j, rfl, hj, hmay _ _, fun i hi _ => ?_⟩
        show joinRank _ _ _ ≤ joinRank _ _ _
        rw [(hrank _ (kindAt n1 n2 m j)).2.1 (by rw [kind_second hj1 hj2]) (by rw [kind_second hj1 hj2, hk])]
        have h := hno i hi
        by_cases h' : i < n1 + n2
        · rw [(hrank _ (kindAt n1 n2 m i)).2.1 (by rw [kind_second h h']) (by rw [kind_second h h', hk])]
        · rw [(hrank _ (kindAt n1 n2 m i)).1 (kind_overlap (by omega))]; omega
      · simp only [orElseM, e', firstAvailable]
        refine ⟨f, rfl, by simp, hmay _ _, fun i hi _ => ?_⟩
        show joinRank _ _ _ ≤ joinRank _ _ _
        rw [(hrank _ (kindAt n1 n2 m i)).1 (hall hno hno' i hi)]
        exact (hrank _ _).2.2

theorem notXor_follows (n1 n2 m : Nat) (pass : Bool × Bool) (hp : pass.1 ≠ pass.2) :
    (notXorSelector n1 (n1 + n2) (n1 + n2 + m)).Follows (fun a c => mayJoin pass (kindAt n1 n2 m a) (kindAt n1 n2 m c))
      (fun a c => joinRank pass (kindAt n1 n2 m a) (kindAt n1 n2 m c)) := by
  intro cur avail hne
  have hrank : ∀ a b : SliceKind, (b.overlap = true → joinRank pass a b = 1) ∧
      (b.first = a.first → joinRank pass a b = 1) ∧ joinRank pass a b ≤ 1 := by
    intro a b
    unfold joinRank
    rw [if_neg hp]
    refine ⟨fun h => ?_, fun h => ?_, ?_⟩
    · simp [h]
    · simp [h]
    · split <;> omega
  have hmay : ∀ a b : SliceKind, a.overlap = false ∨ b.overlap = false → mayJoin pass a b := by
    rintro a b h - ⟨h1, h2⟩
    rcases h with h | h <;> simp_all
  have hno : ∀ a b : SliceKind, a.overlap = true → b.overlap = true → ¬ mayJoin pass a b := fun a b h1 h2 h => h hp ⟨h1, h2⟩
  obtain ⟨f, t, rfl⟩ : ∃ f t, avail = f :: t := by
    cases avail with
    | nil => exact absurd rfl hne
    | cons f t => exact ⟨f, t, rfl⟩
  have hall : (∀ i ∈ f :: t, n1 ≤ i) → (∀ i ∈ f :: t, i < n1 ∨ n1 + n2 ≤ i) → ∀ i ∈ f :: t, (kindAt n1 n2 m i).overlap = true := by
    intro h1 h2 i hi
    refine kind_overlap ?_
    have := h1 i hi
    rcases h2 i hi with h | h <;> omega
  unfold notXorSelector
  by_cases hc : cur ≥ n1 + n2
  · rw [if_pos hc]
    have hov : (kindAt n1 n2 m cur).overlap = true := kind_overlap hc
    by_cases hc2 : cur < n1 + n2 + m
    · rw [if_pos hc2]
      have hk : (kindAt n1 n2 m cur).first = true := by
        unfold kindAt; rw [if_neg (by omega), if_neg (by omega), if_pos hc2]
      rcases idx2_cases n1 n2 (f :: t) with ⟨j, e, hj, hj1, hj2⟩ | ⟨e, hn2⟩
      · rw [e]
        refine Or.inl ⟨j, rfl, hj, hmay _ _ (Or.inr (by rw [kind_second hj1 hj2])), fun i _ _ => rank_best _ ?_ ?_⟩ <;> rw [kind_second hj1 hj2]
        rw [hk]; decide
      · rw [e]
        rcases idx1_cases n1 (f :: t) with ⟨j, e', hj, hj1⟩ | ⟨e', hn1⟩
        · simp only [orElseM, e']
          refine Or.inl ⟨j, rfl, hj, hmay _ _ (Or.inr (by rw [kind_first hj1])), fun i hi _ => ?_⟩
          show joinRank _ _ _ ≤ joinRank _ _ _
          rcases hn2 i hi with h | h
          · rw [(hrank _ (kindAt n1 n2 m i)).2.1 (by rw [kind_first h, hk])]; exact (hrank _ _).2.2
          · rw [(hrank _ (kindAt n1 n2 m i)).1 (kind_overlap h)]; exact (hrank _ _).2.2
        · simp only [orElseM, e']
          exact Or.inr ⟨trivial, fun i hi => hno _ _ hov (hall hn1 hn2 i hi)⟩
    · rw [if_neg hc2]
      have hk : (kindAt n1 n2 m cur).first = false := by
        unfold kindAt; rw [if_neg (by omega), if_neg (by omega), if_neg hc2]
      rcases idx1_cases n1 (f :: t) with ⟨j, e, hj, hj1⟩ | ⟨e, hn1⟩
      · rw [e]
        refine Or.inl ⟨j, rfl, hj, hmay _ _ (Or.inr (by rw [kind_first hj1])), fun i _ _ => rank_best _ ?_ ?_⟩ <;> rw [kind_first hj1]
        rw [hk]; decide
      · rw [e]
        rcases idx2_cases n1 n2 (f :: t) with ⟨j, e', hj, hj1, hj2⟩ | ⟨e', hn2⟩
        · simp only [orElseM, e']
          refine Or.inl ⟨j, rfl, hj, hmay _ _ (Or.inr (by rw [kind_second hj1 hj2])), fun i hi _ => ?_⟩
          show joinRank _ _ _ ≤ joinRank _ _ _
          have h := hn1 i hi
          by_cases h' : i < n1 + n2
          · rw [(hrank _ (kindAt n1 n2 m i)).2.1 (by rw [kind_second h h', hk])]; exact (hrank _ _).2.2
          · rw [(hrank _ (kindAt n1 n2 m i)).1 (kind_overlap (by omega))]; exact (hrank _ _).2.2
        · simp only [orElseM, e']
          exact Or.inr ⟨trivial, fun i hi => hno _ _ hov (hall hn1 hn2 i hi)⟩
  · rw [if_neg hc]
    left
    by_cases hc1 : cur < n1
    · rw [if_pos hc1]
      have hk := kind_first (n2 := n2) (m := m) hc1
      rcases idx2_cases n1 n2 (f :: t) with ⟨j, e, hj, hj1, hj2⟩ | ⟨e, hn2⟩
      · rw [e]
        refine ⟨j, rfl, hj, hmay _ _ (Or.inl (by rw [hk])), fun i _ _ => rank_best _ ?_ ?_⟩ <;> rw [kind_second hj1 hj2]
        rw [hk]; decide
      · rw [e]
        simp only [orElseM, firstAvailable]
        refine ⟨f, rfl, by simp, hmay _ _ (Or.inl (by rw [hk])), fun i hi _ => ?_⟩
        show joinRank _ _ _ ≤ joinRank _ _ _
        rcases hn2 i hi with h | h
        · rw [(hrank _ (kindAt n1 n2 m i)).2.1 (by rw [kind_first h, hk])]; exact (hrank _ _).2.2
        · rw [(hrank _ (kindAt n1 n2 m i)).1 (kind_overlap h)]; exact (hrank _ _).2.2
    · rw [if_neg hc1]
      have hk := kind_second (m := m) (show n1 ≤ cur by omega) (show cur < n1 + n2 by omega)
      rcases idx1_cases n1 (f :: t) with ⟨j, e, hj, hj1⟩ | ⟨e, hn1⟩
      · rw [e]
        refine ⟨j, rfl, hj, hmay _ _ (Or.inl (by rw [hk])), fun i _ _ => rank_best _ ?_ ?_⟩ <;> rw [kind_first hj1]
        rw [hk]; decide
      · rw [e]
        simp only [orElseM, firstAvailable]
        refine ⟨f, rfl, by simp, hmay _ _ (Or.inl (by rw [hk])), fun i hi _ => ?_⟩
        show joinRank _ _ _ ≤ joinRank _ _ _
        have h := hn1 i hi
        by_cases h' : i < n1 + n2
        · rw [(hrank _ (kindAt n1 n2 m i)).2.1 (by rw [kind_second h h', hk])]; exact (hrank _ _).2.2
        · rw [(hrank _ (kindAt n1 n2 m i)).1 (kind_overlap (by omega))]; exact (hrank _ _).2.2

end Cavc
