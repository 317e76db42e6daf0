import Verif.Lemmas.PieceList
import Verif.Props.BooleanStitch

/-! # Stitching pieces whose ends balance uses every piece -/

set_option linter.unusedVariables false

namespace Cavc
open Pline

/-- a segment without the bulge of its end, which plays no part in it -/
def strip (s : Vertex ℝ × Vertex ℝ) : Vertex ℝ × Vertex ℝ := (s.1, ⟨s.2.x, s.2.y, 0⟩)

/-- the segments of an open path -/
def edges (vs : List (Vertex ℝ)) : List (Vertex ℝ × Vertex ℝ) := (pathSegs vs).map strip

theorem edges_join : ∀ (acc vs : List (Vertex ℝ)) (x y : Vertex ℝ), acc.getLast? = some x → vs.head? = some y → x.pos = y.pos →
    edges (acc.dropLast ++ vs) = edges acc ++ edges vs
  | [], _, _, _, h, _, _ => by simp at h
  | [a], vs, _, _, _, _, _ => by simp [edges, pathSegs]
  | [a, b], [], _, _, _, h, _ => by simp at h
  | [a, b], v :: vs, x, y, h1, h2, e => by
    simp only [List.getLast?_cons_cons, List.getLast?_singleton, Option.some.injEq] at h1
    simp only [List.head?_cons, Option.some.injEq] at h2
    subst h1; subst h2
    rw [V2.ext_iff'] at e
    simp only [Vertex.pos] at e
    simp only [List.dropLast, List.cons_append, List.nil_append, edges, pathSegs, List.map_cons, List.map_nil, strip, e.1, e.2]
  | a :: b :: c :: l, vs, x, y, h1, h2, e => by
    have := edges_join (b :: c :: l) vs x y (by simpa using h1) h2 e
    simp only [List.dropLast_cons_cons, List.cons_append, edges, pathSegs, List.map_cons] at this ⊢
    rw [this]

/-- nothing is merged when no vertex repeats the one before it -/
theorem appendVertexes_plain (eps : ℝ) : ∀ (vs acc : List (Vertex ℝ)), (∀ s ∈ pathSegs (acc ++ vs), s.1.pos.fuzzyEqEps s.2.pos eps = false) →
    appendVertexes eps acc vs = acc ++ vs
  | [], acc, _ => by simp [appendVertexes]
  | v :: vs, acc, h => by
    have h1 : appendVertex eps acc v = acc ++ [v] := by
      unfold appendVertex
      rcases List.eq_nil_or_concat acc with rfl | ⟨L, b, rfl⟩
      · rfl
      · have hl : (L.concat b).getLast? = some b := by simp
        rw [hl]
        simp only
        rw [if_neg]
        have := h (b, v) (by
          rw [List.concat_eq_append, List.append_assoc]
          rw [show L ++ ([b] ++ v :: vs) = L ++ b :: (v :: vs) by simp, pathSegs_join]
          simp [pathSegs])
        simpa using this
    have : appendVertexes eps acc (v :: vs) = appendVertexes eps (acc ++ [v]) vs := by
      unfold appendVertexes; rw [List.foldl_cons, h1]
    rw [this, appendVertexes_plain eps vs (acc ++ [v]) (by simpa using h)]
    simp

def headPos (vs : List (Vertex ℝ)) : V2 ℝ := (vs.head?.map Vertex.pos).getD ⟨0, 0⟩
def lastPos (vs : List (Vertex ℝ)) : V2 ℝ := (vs.getLast?.map Vertex.pos).getD ⟨0, 0⟩

theorem headPos_eq {vs : List (Vertex ℝ)} {v : Vertex ℝ} (h : vs.head? = some v) : headPos vs = v.pos := by simp [headPos, h]
theorem lastPos_eq {vs : List (Vertex ℝ)} {v : Vertex ℝ} (h : vs.getLast? = some v) : lastPos vs = v.pos := by simp [lastPos, h]

/-- Slices that can be read, made of full segments, with ends that are either equal or apart, and as many
slices starting at a point as end there. -/
structure Parts (slices : List (BoolSlice ℝ)) (p1 p2 : Pline ℝ) (eps : ℝ) (V : Nat → List (Vertex ℝ)) : Prop where
  reads : ∀ (i : Nat) (s : BoolSlice ℝ), slices[i]? = some s → s.toPline p1 p2 = .ok ⟨V i, false⟩
  start : ∀ (i : Nat) (s : BoolSlice ℝ), slices[i]? = some s → s.startPoint = headPos (V i)
  two : ∀ i, i < slices.length → 2 ≤ (V i).length
  full : ∀ i, i < slices.length → ∀ e ∈ edges (V i), FullSeg e.1 e.2 eps
  apart : ∀ i j, i < slices.length → j < slices.length → Near eps (lastPos (V i)) (headPos (V j)) → lastPos (V i) = headPos (V j)
  balanced : ((List.range slices.length).map fun i => headPos (V i)).Perm ((List.range slices.length).map fun i => lastPos (V i))

theorem near_refl {eps : ℝ} (he : 0 < eps) (a : V2 ℝ) : Near eps a a := by
  unfold Near AABB.overlaps AABB.ofPoint AABB.grow
  simp
  exact he.le

/-- The result polyline consists of the segments of the slices `used`. -/
structure Made (eps : ℝ) (V : Nat → List (Vertex ℝ)) (used : List Nat) (r : BooleanResultPline ℝ) : Prop where
  loop : Loop r.pline
  full : ∀ s ∈ r.pline.segs, FullSeg s.1 s.2 eps
  segs : r.pline.segs.map strip = (used.map fun i => edges (V i)).flatten

theorem strip_full {s : Vertex ℝ × Vertex ℝ} {eps : ℝ} : FullSeg (strip s).1 (strip s).2 eps ↔ FullSeg s.1 s.2 eps :=
  ⟨fun h => full_congr h rfl rfl rfl, fun h => full_congr h rfl rfl rfl⟩

theorem edges_full {vs : List (Vertex ℝ)} {eps : ℝ} : (∀ e ∈ edges vs, FullSeg e.1 e.2 eps) ↔ ∀ s ∈ pathSegs vs, FullSeg s.1 s.2 eps := by
  unfold edges
  simp only [List.mem_map, forall_exists_index, and_imp, forall_apply_eq_imp_iff₂, strip_full]

/-- closing a path that returns to its start -/
theorem close_path {eps : ℝ} (he : 0 < eps) {C : List (Vertex ℝ)} (hC : ∀ e ∈ edges C, FullSeg e.1 e.2 eps) (hne : edges C ≠ [])
    (hcl : headPos C = lastPos C) :
    3 ≤ C.length ∧ Loop ⟨C.dropLast, true⟩ ∧ (∀ s ∈ (⟨C.dropLast, true⟩ : Pline ℝ).segs, FullSeg s.1 s.2 eps) ∧
      (⟨C.dropLast, true⟩ : Pline ℝ).segs.map strip = edges C := by
  match C, hC, hne, hcl with
  | [], _, h, _ => exact absurd rfl h
  | [_], _, h, _ => exact absurd rfl h
  | [a, b], hC, _, hcl =>
    exfalso
    have := (edges_full.mp hC (a, b) (by simp [pathSegs])).apart
    have e : a.pos = b.pos := hcl
    simp only [e] at this
    rw [← Bool.not_eq_true, V2.fuzzyEqEps_iff] at this
    apply this
    simp [he]
  | a :: b :: c :: l, hC, _, hcl =>
    have hsg : (⟨(a :: b :: c :: l).dropLast, true⟩ : Pline ℝ).segs = pathSegs ((a :: b :: c :: l).dropLast ++ [a]) := by
      unfold Pline.segs
      cases hd : (b :: c :: l).dropLast with
      | nil => simp at hd
      | cons x r => simp [List.dropLast_cons_cons, hd]
    have hs : (⟨(a :: b :: c :: l).dropLast, true⟩ : Pline ℝ).segs.map strip = edges (a :: b :: c :: l) := by
      rw [hsg]
      have := edges_join (a :: b :: c :: l) [a] ((a :: b :: c :: l).getLast (by simp)) a (List.getLast?_eq_getLast_of_ne_nil _) rfl (by
        rw [lastPos_eq (List.getLast?_eq_getLast_of_ne_nil (l := a :: b :: c :: l) (by simp)), headPos_eq (v := a) rfl] at hcl
        exact hcl.symm)
      unfold edges at this ⊢
      rw [this]; simp [pathSegs]
    have hfull : ∀ s ∈ (⟨(a :: b :: c :: l).dropLast, true⟩ : Pline ℝ).segs, FullSeg s.1 s.2 eps := by
      intro s hs'
      rw [← strip_full]
      apply hC
      rw [← hs]
      exact List.mem_map.mpr ⟨s, hs', rfl⟩
    refine ⟨by simp, ⟨rfl, by simp, ?_⟩, hfull, hs⟩
    intro s hs'
    rcases (hfull s hs').proper he with h | h
    · exact Or.inl h
    · exact Or.inr ⟨h.notLine, h.half, h.ne⟩

section
variable {slices : List (BoolSlice ℝ)} {p1 p2 : Pline ℝ} {eps : ℝ} {V : Nat → List (Vertex ℝ)} {idx : Index ℝ} {sel : Selector}

/-- the state of the visited flags -/
def Seen (n : Nat) (visited : List Bool) (I : List Nat) : Prop :=
  visited.length = n ∧ I.Nodup ∧ (∀ i ∈ I, i < n) ∧ ∀ i, i < n → visited[i]? = some (decide (i ∈ I))

theorem Seen.add {n : Nat} {visited : List Bool} {I : List Nat} (h : Seen n visited I) {j : Nat} (hj : j < n) (hn : j ∉ I) :
    Seen n (visited.set j true) (I ++ [j]) ∧ visited[j]? = some false := by
  obtain ⟨h1, h2, h3, h4⟩ := h
  have hf : visited[j]? = some false := by rw [h4 j hj]; simp [hn]
  refine ⟨⟨by simp [h1], ?_, ?_, ?_⟩, hf⟩
  · rw [List.nodup_append]
    refine ⟨h2, by simp, ?_⟩
    rintro a ha b hb rfl
    simp at hb; subst hb; exact hn ha
  · intro i hi
    rcases List.mem_append.mp hi with hi | hi
    · exact h3 i hi
    · simp at hi; omega
  · intro i hi
    rw [set_true visited hf, h4 i hi]
    by_cases h5 : i = j
    · subst h5; simp
    · simp [h5]

theorem unvisited_start (P : Parts slices p1 p2 eps V) {D used : List Nat} {visited : List Bool}
    (hs : Seen slices.length visited (D ++ used))
    (hD : (D.map fun i => headPos (V i)).Perm (D.map fun i => lastPos (V i))) {A B : V2 ℝ}
    (ht : ((used.map fun i => headPos (V i)) ++ [B]).Perm (A :: used.map fun i => lastPos (V i))) (hAB : A ≠ B) :
    ∃ i, i < slices.length ∧ i ∉ D ++ used ∧ headPos (V i) = B := by
  classical
  by_contra hno
  push Not at hno
  obtain ⟨-, hnd, hlt, -⟩ := hs
  set R := (List.range slices.length).filter fun i => i ∉ D ++ used with hR
  have hperm : (List.range slices.length).Perm ((D ++ used) ++ R) := by
    apply (List.perm_ext_iff_of_nodup List.nodup_range ?_).mpr
    · intro i
      rw [List.mem_append, hR, List.mem_filter, List.mem_range]
      constructor
      · intro h
        by_cases h' : i ∈ D ++ used
        · exact Or.inl h'
        · exact Or.inr ⟨h, by simpa using h'⟩
      · rintro (h | h)
        · exact hlt i h
        · exact h.1
    · rw [List.nodup_append]
      refine ⟨hnd, List.nodup_range.filter _, ?_⟩
      rintro a ha b hb rfl
      rw [hR, List.mem_filter] at hb
      have := hb.2
      simp only [decide_not, Bool.not_eq_eq_eq_not, Bool.not_true, decide_eq_false_iff_not] at this
      exact this ha
  have c0 := P.balanced.count_eq B
  have c1 := (hperm.map fun i => headPos (V i)).count_eq B
  have c2 := (hperm.map fun i => lastPos (V i)).count_eq B
  have c3 := hD.count_eq B
  have c4 := ht.count_eq B
  have c5 : (R.map fun i => headPos (V i)).count B = 0 := by
    rw [List.count_eq_zero]
    intro hm
    obtain ⟨i, hi, e⟩ := List.mem_map.mp hm
    rw [hR, List.mem_filter, List.mem_range] at hi
    exact hno i hi.1 (by simpa using hi.2) e
  simp only [List.map_append, List.count_append, List.count_cons_self, List.count_nil, List.count_cons_of_ne hAB] at c1 c2 c4
  omega

/-- a selector that always picks one of the choices -/
def Picks (sel : Selector) (n : Nat) : Prop :=
  ∀ cur avail, cur < n → avail ≠ [] → (∀ i ∈ avail, i < n) → ∃ j ∈ avail, sel cur avail = .ok (some j)

/-- The inner loop closes the path it follows. -/
theorem inner_all (he : 0 < eps) (P : Parts slices p1 p2 eps V) (hsel : Picks sel slices.length)
    (hidx : idx.For (slices.map fun s => AABB.ofPoint s.startPoint)) {beginning : Nat} (hb : beginning < slices.length) {D : List Nat}
    (hD : (D.map fun i => headPos (V i)).Perm (D.map fun i => lastPos (V i))) :
    ∀ (fuel : Nat) (cur : Pline ℝ) (subs : List (BoolSlice ℝ)) (curIdx : Nat) (visited : List Bool) (used : List Nat),
      visited.count false < fuel → Seen slices.length visited (D ++ used) → used.head? = some beginning → used.getLast? = some curIdx →
      cur.closed = false → edges cur.verts = (used.map fun i => edges (V i)).flatten → edges cur.verts ≠ [] →
      headPos cur.verts = headPos (V beginning) → lastPos cur.verts = lastPos (V curIdx) →
      ((used.map fun i => headPos (V i)) ++ [lastPos (V curIdx)]).Perm (headPos (V beginning) :: used.map fun i => lastPos (V i)) →
      ∃ r visited' new, stitchInner p1 p2 idx slices sel eps beginning fuel cur subs curIdx visited = .ok ([r], visited') ∧
        Seen slices.length visited' (D ++ (used ++ new)) ∧
        ((used ++ new).map fun i => headPos (V i)).Perm ((used ++ new).map fun i => lastPos (V i)) ∧ Made eps V (used ++ new) r := by
  intro fuel
  induction fuel with
  | zero => intro cur subs curIdx visited used h; omega
  | succ fuel ih =>
    intro cur subs curIdx visited used hcount hseen hhead hlast hclosed hedges hene hh hl ht
    have hne : cur.verts ≠ [] := by rintro h; rw [h] at hene; exact hene rfl
    obtain ⟨l, hle⟩ : ∃ l, cur.verts.getLast? = some l := ⟨_, List.getLast?_eq_getLast_of_ne_nil hne⟩
    have hlp : l.pos = lastPos (V curIdx) := by rw [← hl, lastPos_eq hle]
    have hused : ∀ i ∈ used, i < slices.length := fun i hi => hseen.2.2.1 i (List.mem_append.mpr (Or.inr hi))
    have hcur : curIdx < slices.length := hused _ (List.mem_of_getLast? hlast)
    have hq : ∀ i, i ∈ idx.query ((AABB.ofPoint l.pos).grow eps) ↔ i < slices.length ∧ headPos (V i) = lastPos (V curIdx) := by
      intro i
      rw [hidx.mem_query]
      constructor
      · rintro ⟨b, hb', hov⟩
        rw [List.getElem?_map, Option.map_eq_some_iff] at hb'
        obtain ⟨s, hs, rfl⟩ := hb'
        have hi := (List.getElem?_eq_some_iff.mp hs).1
        refine ⟨hi, (P.apart curIdx i hcur hi ?_).symm⟩
        rw [← hlp, ← P.start i s hs]
        exact hov
      · rintro ⟨hi, e⟩
        refine ⟨AABB.ofPoint slices[i].startPoint, by rw [List.getElem?_map, List.getElem?_eq_getElem hi]; rfl, ?_⟩
        rw [P.start i slices[i] (List.getElem?_eq_getElem hi), hlp, e]
        exact near_refl he _
    have hfilter : (idx.query ((AABB.ofPoint l.pos).grow eps)).filterM (stitchHit beginning visited)
        = .ok ((idx.query ((AABB.ofPoint l.pos).grow eps)).filter fun i => i == beginning || !decide (i ∈ D ++ used)) := by
      apply filterM_ok
      intro i hi
      have hlt := ((hq i).mp hi).1
      unfold stitchHit
      by_cases hb : (i == beginning) = true
      · simp [hb]
      · simp only [hb, Bool.false_eq_true, if_false, hseen.2.2.2 i hlt]
        simp
    have hmem : ∀ i, i ∈ (idx.query ((AABB.ofPoint l.pos).grow eps)).filter (fun i => i == beginning || !decide (i ∈ D ++ used)) ↔
        i < slices.length ∧ headPos (V i) = lastPos (V curIdx) ∧ (i = beginning ∨ i ∉ D ++ used) := by
      intro i
      rw [List.mem_filter, hq]
      simp only [Bool.or_eq_true, beq_iff_eq, Bool.not_eq_eq_eq_not, Bool.not_true, decide_eq_false_iff_not, and_assoc]
    unfold stitchInner
    simp only [Pline.last, hle, unwrap, bind, Except.bind]
    rw [hfilter]
    simp only
    generalize hhits : (idx.query ((AABB.ofPoint l.pos).grow eps)).filter (fun i => i == beginning || !decide (i ∈ D ++ used)) = hits at hmem
    have hhne : hits ≠ [] := by
      by_cases hAB : headPos (V beginning) = lastPos (V curIdx)
      · exact List.ne_nil_of_mem ((hmem beginning).mpr ⟨hb, hAB, Or.inl rfl⟩)
      · obtain ⟨i, h1, h2, h3⟩ := unvisited_start P hseen hD ht hAB
        exact List.ne_nil_of_mem ((hmem i).mpr ⟨h1, h3, Or.inr h2⟩)
    have : hits.isEmpty = false := by simpa using hhne
    simp only [this, Bool.false_eq_true, if_false]
    obtain ⟨j, hj, hpick⟩ := hsel curIdx hits hcur hhne (fun i hi => ((hmem i).mp hi).1)
    rw [hpick]
    simp only
    obtain ⟨hjlt, hje, hjor⟩ := (hmem j).mp hj
    have hfull : ∀ e ∈ edges cur.verts, FullSeg e.1 e.2 eps := by
      intro e hem
      rw [hedges, List.mem_flatten] at hem
      obtain ⟨L, hL, hem⟩ := hem
      obtain ⟨i, hi, rfl⟩ := List.mem_map.mp hL
      exact P.full i (hused i hi) e hem
    by_cases hjb : j = beginning
    · rw [if_pos hjb]
      subst hjb
      obtain ⟨h3, hloop, hf, hsg⟩ := close_path he hfull hene (by rw [hh, hl, hje])
      obtain ⟨v, hv⟩ := removeLast_eq cur hne
      have hcl : closePline cur subs = .ok [⟨⟨cur.verts.dropLast, true⟩, subs⟩] := by
        unfold closePline vertexCount
        rw [if_neg (by omega), hv]; rfl
      rw [hcl]
      refine ⟨_, visited, [], rfl, by simpa using hseen, ?_, ⟨hloop, hf, ?_⟩⟩
      · rw [List.append_nil]
        rw [← hje] at ht
        have h5 := (List.perm_append_singleton _ _).symm.trans ht
        exact (List.perm_cons _).mp h5
      · rw [List.append_nil]
        exact hsg.trans hedges
    · rw [if_neg hjb]
      have hjn : j ∉ D ++ used := by
        rcases hjor with h | h
        · exact absurd h hjb
        · exact h
      obtain ⟨hseen', hfalse⟩ := hseen.add hjlt hjn
      obtain ⟨v, hv⟩ := removeLast_eq cur hne
      have hsj := List.getElem?_eq_getElem hjlt
      have hVne : V j ≠ [] := by
        have := P.two j hjlt
        rintro h; rw [h] at this; simp at this
      obtain ⟨y, hy⟩ : ∃ y, (V j).head? = some y := ⟨_, List.head?_eq_some_head hVne⟩
      have hjoin := edges_join cur.verts (V j) l y hle hy (by rw [hlp, ← hje, headPos_eq hy])
      have hplain : appendVertexes eps cur.verts.dropLast (V j) = cur.verts.dropLast ++ V j := by
        apply appendVertexes_plain
        intro s hs
        refine (edges_full.mp ?_ s hs).apart
        intro e hem
        rw [hjoin] at hem
        rcases List.mem_append.mp hem with h | h
        · exact hfull e h
        · exact P.full j hjlt e h
      simp only [hsj, hv, P.reads j _ hsj, extendRemoveRepeat_eq, hplain]
      have hene2 : 2 ≤ cur.verts.length := by
        match hc : cur.verts, hene with
        | [], h => exact absurd rfl h
        | [_], h => exact absurd rfl h
        | _ :: _ :: _, _ => simp
      obtain ⟨r, visited', new, e, h1, h2, h3⟩ := ih ⟨cur.verts.dropLast ++ V j, cur.closed⟩ (subs ++ [slices[j]]) j
        (visited.set j true) (used ++ [j]) (by have := count_set_true hfalse; omega)
        (by rw [← List.append_assoc]; exact hseen')
        (by rw [List.head?_append, hhead]; rfl) (by simp) hclosed
        (by
          show edges (cur.verts.dropLast ++ V j) = _
          rw [hjoin, hedges]; simp)
        (by
          show edges (cur.verts.dropLast ++ V j) ≠ _
          rw [hjoin]; intro h0; rw [List.append_eq_nil_iff] at h0; exact hene h0.1)
        (by
          rw [← hh]
          show headPos (cur.verts.dropLast ++ V j) = _
          match cur.verts, hene2 with
          | a :: b :: c, _ => simp [headPos])
        (by
          show lastPos (cur.verts.dropLast ++ V j) = _
          unfold lastPos
          rw [List.getLast?_append_of_ne_nil _ hVne])
        (by
          rw [← hje] at ht
          rw [List.map_append, List.map_append]
          exact ht.append_right _)
      exact ⟨r, visited', j :: new, e, by simpa using h1, by simpa using h2, by simpa using h3⟩

/-- The outer loop uses every slice once. -/
theorem outer_all (he : 0 < eps) (P : Parts slices p1 p2 eps V) (hsel : Picks sel slices.length)
    (hidx : idx.For (slices.map fun s => AABB.ofPoint s.startPoint)) :
    ∀ (is : List Nat) (visited : List Bool) (D : List Nat), (∀ i ∈ is, i < slices.length) → Seen slices.length visited D →
      (D.map fun i => headPos (V i)).Perm (D.map fun i => lastPos (V i)) →
      ∃ rs useds, stitchOuter p1 p2 idx slices sel eps is visited = .ok rs ∧ List.Forall₂ (Made eps V) useds rs ∧
        (D ++ useds.flatten).Nodup ∧ (∀ i ∈ useds.flatten, i < slices.length) ∧ ∀ i ∈ is, i ∈ D ++ useds.flatten := by
  intro is
  induction is with
  | nil =>
    intro visited D _ hs _
    exact ⟨[], [], rfl, List.Forall₂.nil, by simpa using hs.2.1, by simp, by simp⟩
  | cons i is ih =>
    intro visited D his hs hD
    have hi := his i (by simp)
    have his' : ∀ j ∈ is, j < slices.length := fun j hj => his j (by simp [hj])
    have hsi := List.getElem?_eq_getElem hi
    unfold stitchOuter
    by_cases hiD : i ∈ D
    · have hv : visited[i]? = some true := by rw [hs.2.2.2 i hi]; simp [hiD]
      simp only [hv]
      obtain ⟨rs, useds, e, h1, h2, h3, h4⟩ := ih visited D his' hs hD
      refine ⟨rs, useds, e, h1, h2, h3, ?_⟩
      intro j hj
      rcases List.mem_cons.mp hj with rfl | hj
      · exact List.mem_append.mpr (Or.inl hiD)
      · exact h4 j hj
    · obtain ⟨hseen', hfalse⟩ := hs.add hi hiD
      have hfull : ∀ s ∈ pathSegs ([] ++ V i), s.1.pos.fuzzyEqEps s.2.pos eps = false := by
        intro s hm
        exact (edges_full.mp (P.full i hi) s (by simpa using hm)).apart
      simp only [hfalse, hsi, bind, Except.bind, P.reads i _ hsi, createFromRemoveRepeat_open, appendVertexes_plain eps (V i) [] hfull,
        List.nil_append]
      have hene : edges (V i) ≠ [] := by
        have := P.two i hi
        match hV : V i, this with
        | a :: b :: l, _ => simp [edges, pathSegs]
      obtain ⟨r, visited', new, e, h1, h2, h3⟩ := inner_all he P hsel hidx hi hD (slices.length + 1) ⟨V i, false⟩ [slices[i]] i
        (visited.set i true) [i] (by
          have := List.count_le_length (a := false) (l := visited.set i true)
          have := hseen'.1
          omega) hseen' rfl rfl rfl (by simp) hene rfl rfl (by
            simp only [List.map_cons, List.map_nil, List.cons_append, List.nil_append]
            exact List.Perm.refl _)
      rw [e]
      simp only
      obtain ⟨rs, useds, e', h4, h5, h6, h7⟩ := ih visited' (D ++ ([i] ++ new)) his' h1 (by
        have := hD.append h2
        rwa [← List.map_append, ← List.map_append] at this)
      rw [e']
      refine ⟨_, ([i] ++ new) :: useds, rfl, List.Forall₂.cons h3 h4, by simpa using h5, ?_, ?_⟩
      · intro j hj
        rw [List.flatten_cons, List.mem_append] at hj
        rcases hj with hj | hj
        · exact h1.2.2.1 j (List.mem_append.mpr (Or.inr hj))
        · exact h6 j hj
      · intro j hj
        rcases List.mem_cons.mp hj with rfl | hj
        · simp
        · simpa using h7 j hj

/-- Stitching balanced pieces: the result polylines consist of all segments of the pieces, each once. -/
theorem stitch_all {env : Env ℝ} (henv : env.Lawful) (he : 0 < eps) (P : Parts slices p1 p2 eps V) (hsel : Picks sel slices.length) :
    ∃ rs useds, stitchSlices env slices p1 p2 sel eps = .ok rs ∧ List.Forall₂ (Made eps V) useds rs ∧
      useds.flatten.Perm (List.range slices.length) := by
  unfold stitchSlices
  by_cases h : slices = []
  · subst h
    exact ⟨[], [], rfl, List.Forall₂.nil, by simp⟩
  · have : slices.isEmpty = false := by simpa using h
    simp only [this, Bool.false_eq_true, if_false]
    obtain ⟨rs, useds, e, h1, h2, h3, h4⟩ := outer_all he P hsel (henv.build_for _) (List.range slices.length) (List.replicate slices.length false) []
      (by simp) ⟨by simp, by simp, by simp, by intro i hi; simp [hi]⟩ (by simp)
    refine ⟨rs, useds, e, h1, ?_⟩
    apply (List.perm_ext_iff_of_nodup (by simpa using h2) List.nodup_range).mpr
    intro i
    rw [List.mem_range]
    exact ⟨h3 i, fun hi => by simpa using h4 i (by simpa using hi)⟩


end

/-- A slice with its vertexes. -/
structure Item where
  s : BoolSlice ℝ
  vs : List (Vertex ℝ)

structure Item.Ok (p1 p2 : Pline ℝ) (eps : ℝ) (x : Item) : Prop where
  reads : x.s.toPline p1 p2 = .ok ⟨x.vs, false⟩
  start : x.s.startPoint = headPos x.vs
  two : 2 ≤ x.vs.length
  full : ∀ e ∈ edges x.vs, FullSeg e.1 e.2 eps

/-- Stitching balanced items. -/
theorem stitch_items {env : Env ℝ} (henv : env.Lawful) {p1 p2 : Pline ℝ} {eps : ℝ} (he : 0 < eps) {sel : Selector} (items : List Item)
    (hok : ∀ x ∈ items, x.Ok p1 p2 eps)
    (hap : ∀ x ∈ items, ∀ y ∈ items, Near eps (lastPos x.vs) (headPos y.vs) → lastPos x.vs = headPos y.vs)
    (hbal : (items.map fun x => headPos x.vs).Perm (items.map fun x => lastPos x.vs)) (hsel : Picks sel items.length) :
    ∃ rs, stitchSlices env (items.map (·.s)) p1 p2 sel eps = .ok rs ∧
      (∀ r ∈ rs, Loop r.pline ∧ ∀ s ∈ r.pline.segs, FullSeg s.1 s.2 eps) ∧
      (rs.flatMap fun r => r.pline.segs.map strip).Perm (items.flatMap fun x => edges x.vs) := by
  set V : Nat → List (Vertex ℝ) := fun i => (items[i]?.map (·.vs)).getD [] with hV
  have hVi : ∀ (i : Nat) (x : Item), items[i]? = some x → V i = x.vs := by
    intro i x h
    rw [hV]; simp [h]
  have hget : ∀ i, i < (items.map (·.s)).length → ∃ x ∈ items, items[i]? = some x := by
    intro i hi
    rw [List.length_map] at hi
    exact ⟨items[i], List.getElem_mem hi, List.getElem?_eq_getElem hi⟩
  have hmap : ∀ {β : Type} (f : List (Vertex ℝ) → β), (List.range items.length).map (fun i => f (V i)) = items.map fun x => f x.vs := by
    intro β f
    apply List.ext_getElem
    · simp
    · intro i h1 h2
      have h3 : i < items.length := by simpa using h2
      simp only [List.getElem_map, List.getElem_range]
      rw [hVi i items[i] (List.getElem?_eq_getElem _)]
  have P : Parts (items.map (·.s)) p1 p2 eps V := by
    refine ⟨?_, ?_, ?_, ?_, ?_, ?_⟩
    · intro i s hs
      rw [List.getElem?_map, Option.map_eq_some_iff] at hs
      obtain ⟨x, hx, rfl⟩ := hs
      rw [hVi i x hx]
      exact (hok x (List.mem_of_getElem? hx)).reads
    · intro i s hs
      rw [List.getElem?_map, Option.map_eq_some_iff] at hs
      obtain ⟨x, hx, rfl⟩ := hs
      rw [hVi i x hx]
      exact (hok x (List.mem_of_getElem? hx)).start
    · intro i hi
      obtain ⟨x, hm, hx⟩ := hget i hi
      rw [hVi i x hx]; exact (hok x hm).two
    · intro i hi
      obtain ⟨x, hm, hx⟩ := hget i hi
      rw [hVi i x hx]; exact (hok x hm).full
    · intro i j hi hj
      obtain ⟨x, hm, hx⟩ := hget i hi
      obtain ⟨y, hm', hy⟩ := hget j hj
      rw [hVi i x hx, hVi j y hy]
      exact hap x hm y hm'
    · rw [List.length_map, hmap headPos, hmap lastPos]
      exact hbal
  obtain ⟨rs, useds, e, h1, h2⟩ := stitch_all henv he P (by rw [List.length_map]; exact hsel)
  refine ⟨rs, e, ?_, ?_⟩
  · intro r hr
    obtain ⟨used, -, h⟩ := forall2_mem_right h1 hr
    exact ⟨h.loop, h.full⟩
  · have e1 : (rs.flatMap fun r => r.pline.segs.map strip) = useds.flatten.flatMap fun i => edges (V i) := by
      clear e h2
      induction h1 with
      | nil => rfl
      | @cons u r us rs h _ ih =>
        rw [List.flatMap_cons, List.flatten_cons, List.flatMap_append, ih, h.segs]
        rfl
    rw [e1]
    have e2 : (items.flatMap fun x => edges x.vs) = (List.range items.length).flatMap fun i => edges (V i) := by
      unfold List.flatMap
      rw [hmap edges]
    rw [e2]
    rw [List.length_map] at h2
    exact h2.flatMap_right _

end Cavc
