import Verif.Lemmas.ShapeLoop
import Verif.Lemmas.ShapeStitch
import Verif.Lemmas.OffsetClosed

/-! # The polylines stitched from the slices of the offset loops of a shape -/

set_option linter.unusedVariables false
set_option linter.unusedSectionVars false

namespace Cavc
open Pline RealScalar

/-- Slices of several polylines that can be read, made of full segments, with ends that are either equal or apart. -/
structure ShapeParts (loops : List (OffsetLoop ℝ)) (slices : List (DissectedSlice ℝ)) (eps joinEps : ℝ) (V : Nat → List (Vertex ℝ)) : Prop where
  reads : ∀ (i : Nat) (s : DissectedSlice ℝ), slices[i]? = some s → ∀ ws, s.Reads loops ws → ws = V i
  start : ∀ (i : Nat) (s : DissectedSlice ℝ), slices[i]? = some s → s.vdata.updatedStart.pos = headPos (V i)
  stop : ∀ (i : Nat) (s : DissectedSlice ℝ), slices[i]? = some s → s.vdata.endPoint = lastPos (V i)
  two : ∀ i, i < slices.length → 2 ≤ (V i).length
  full : ∀ i, i < slices.length → ∀ e ∈ edges (V i), FullSeg e.1 e.2 eps
  join : ∀ i j, i < slices.length → j < slices.length → JoinNear joinEps (lastPos (V i)) (headPos (V j)) → lastPos (V i) = headPos (V j)

/-- Where each list of vertexes begins at the end of the one before, repeated vertexes are merged. -/
theorem flatten_chain {eps : ℝ} (he : 0 < eps) : ∀ (vss : List (List (Vertex ℝ))), (∀ vs ∈ vss, 2 ≤ vs.length ∧ ∀ e ∈ edges vs, FullSeg e.1 e.2 eps) →
    (∀ k vs ws, vss[k]? = some vs → vss[k + 1]? = some ws → lastPos vs = headPos ws) →
    appendVertexes eps [] vss.flatten = chainVertexes eps vss := by
  intro vss
  induction vss using List.reverseRecOn with
  | nil => intro _ _; rfl
  | append_singleton vss vs ih =>
    intro hall hlink
    have hlink' : ∀ k ws xs, vss[k]? = some ws → vss[k + 1]? = some xs → lastPos ws = headPos xs := fun k ws xs h1 h2 => hlink k ws xs
        (by rw [List.getElem?_append_left (List.getElem?_eq_some_iff.mp h1).1]; exact h1)
        (by rw [List.getElem?_append_left (List.getElem?_eq_some_iff.mp h2).1]; exact h2)
    have hall' : ∀ ws ∈ vss, 2 ≤ ws.length ∧ ∀ e ∈ edges ws, FullSeg e.1 e.2 eps := fun ws hws => hall ws (by simp [hws])
    obtain ⟨h2, hfull⟩ := hall vs (by simp)
    rw [chain_snoc, List.flatten_append, appendVertexes_append, ih hall' hlink']
    simp only [List.flatten_cons, List.flatten_nil, List.append_nil]
    by_cases hv : vss = []
    · subst hv; rfl
    · obtain ⟨i1, i2, i3⟩ := chain_edges vss hv hall' hlink'
      set C := chainVertexes eps vss with hC
      obtain ⟨vl, hvl⟩ : ∃ vl, vss.getLast? = some vl := ⟨_, List.getLast?_eq_getLast_of_ne_nil hv⟩
      have hl : lastPos vl = headPos vs := by
        have hlen : 0 < vss.length := List.length_pos_iff.mpr hv
        refine hlink (vss.length - 1) vl vs ?_ ?_
        · rw [List.getElem?_append_left (by omega), ← List.getLast?_eq_getElem?]; exact hvl
        · rw [Nat.sub_add_cancel hlen, List.getElem?_append_right le_rfl]; simp
      have hCne : C ≠ [] := by
        intro h
        have hel : edges C ≠ [] := by
          rw [i1]
          have hm := List.mem_of_getLast? hvl
          intro h0
          rw [List.flatten_eq_nil_iff] at h0
          exact two_edges.mp (hall' vl hm).1 (h0 _ (List.mem_map.mpr ⟨vl, hm, rfl⟩))
        rw [h] at hel
        exact hel rfl
      obtain ⟨y, vt, rfl⟩ : ∃ y vt, vs = y :: vt := by cases vs with | nil => simp at h2 | cons a l => exact ⟨a, l, rfl⟩
      have hgl : C.getLast? = some (C.getLast hCne) := List.getLast?_eq_getLast_of_ne_nil hCne
      have hpos : (C.getLast hCne).pos = y.pos := by
        rw [← lastPos_eq hgl, i3 vl hvl, hl]; rfl
      have hap : appendVertex eps C y = C.dropLast ++ [y] := by
        unfold appendVertex
        rw [hgl]
        dsimp only
        rw [hpos, fuzzy_refl _ he, if_pos rfl]
        congr 2
        unfold Vertex.pos at hpos
        simp only [V2.mk.injEq] at hpos
        rw [hpos.1, hpos.2]
      have hC2 : appendVertexes eps C (y :: vt) = appendVertexes eps (C.dropLast ++ [y]) vt := by
        unfold appendVertexes
        rw [List.foldl_cons, hap]
      have hj : edges (C.dropLast ++ (y :: vt)) = edges C ++ edges (y :: vt) := edges_join C (y :: vt) _ y hgl rfl hpos
      have hap2 : ∀ s ∈ pathSegs (C.dropLast ++ (y :: vt)), s.1.pos.fuzzyEqEps s.2.pos eps = false := by
        intro s hs
        have : ∀ e ∈ edges (C.dropLast ++ (y :: vt)), FullSeg e.1 e.2 eps := by
          intro e hem
          rw [hj, i1] at hem
          rcases List.mem_append.mp hem with hem | hem
          · obtain ⟨l, hl, hel⟩ := List.mem_flatten.mp hem
            obtain ⟨ws, hws, rfl⟩ := List.mem_map.mp hl
            exact (hall' ws hws).2 e hel
          · exact hfull e hem
        exact (edges_full.mp this s hs).apart
      rw [hC2, appendVertexes_plain eps (y :: vt) C.dropLast hap2, appendVertexes_plain eps vt (C.dropLast ++ [y]) (by simpa using hap2)]
      simp

section
variable {loops : List (OffsetLoop ℝ)} {slices : List (DissectedSlice ℝ)} {o : ShapeOffsetOptions ℝ} {V : Nat → List (Vertex ℝ)}

/-- what a chain of slices consists of -/
theorem shape_chain (he : 0 < o.posEqualEps) (P : ShapeParts loops slices o.posEqualEps o.sliceJoinEps V) {before used : List Nat} (hu : ∀ i ∈ used, i < slices.length)
    {vs : List (Vertex ℝ)} (h : ShapeChain loops slices o before used vs) :
    edges vs = (used.map fun i => edges (V i)).flatten ∧ (∀ e ∈ edges vs, FullSeg e.1 e.2 o.posEqualEps) ∧ edges vs ≠ [] ∧
    ∃ a z, used.head? = some a ∧ used.getLast? = some z ∧ headPos vs = headPos (V a) ∧ lastPos vs = lastPos (V z) ∧
      ∀ k x y, used[k]? = some x → used[k + 1]? = some y → lastPos (V x) = headPos (V y) := by
  obtain ⟨ss, vss, h1, h2, rfl⟩ := h.chain
  have hlen : used.length = ss.length := by have := congrArg List.length h1; simpa using this
  have hget : ∀ (k : Nat) (s : DissectedSlice ℝ), ss[k]? = some s → ∃ i, used[k]? = some i ∧ slices[i]? = some s := by
    intro k s hk
    have h3 : (used.map fun i => slices[i]?)[k]? = some (some s) := by rw [h1, List.getElem?_map, hk]; rfl
    rw [List.getElem?_map] at h3
    cases hu : used[k]? with
    | none => rw [hu] at h3; simp at h3
    | some i => rw [hu] at h3; simp at h3; exact ⟨i, rfl, h3⟩
  have hvss : vss = used.map V := by
    apply List.ext_getElem?
    intro k
    rw [List.getElem?_map]
    have hl2 := h2.length_eq
    by_cases hk : k < used.length
    · obtain ⟨i, hi, hs⟩ := hget k _ (List.getElem?_eq_getElem (by omega : k < ss.length))
      rw [hi, List.getElem?_eq_getElem (by omega : k < vss.length)]
      have hr := List.forall₂_iff_get.mp h2
      have hr2 := hr.2 k (by omega) (by omega)
      simp only [List.get_eq_getElem] at hr2
      rw [P.reads i _ hs _ hr2]; rfl
    · rw [List.getElem?_eq_none (by omega), List.getElem?_eq_none (by omega)]; rfl
  have hne : used ≠ [] := h.nonempty
  have hlink : ∀ k x y, used[k]? = some x → used[k + 1]? = some y → lastPos (V x) = headPos (V y) := by
    intro k x y hx hy
    have hx' := hu x (List.mem_of_getElem? hx)
    have hy' := hu y (List.mem_of_getElem? hy)
    have := h.linked k _ _ (by rw [hx]; exact List.getElem?_eq_getElem hx') (by rw [hy]; exact List.getElem?_eq_getElem hy')
    rw [P.stop x _ (List.getElem?_eq_getElem hx'), P.start y _ (List.getElem?_eq_getElem hy')] at this
    exact P.join x y hx' hy' this
  have hall : ∀ vs ∈ vss, 2 ≤ vs.length ∧ ∀ e ∈ edges vs, FullSeg e.1 e.2 o.posEqualEps := by
    rw [hvss]
    intro vs hvs
    obtain ⟨i, hi, rfl⟩ := List.mem_map.mp hvs
    exact ⟨P.two i (hu i hi), P.full i (hu i hi)⟩
  have hlk : ∀ k vs ws, vss[k]? = some vs → vss[k + 1]? = some ws → lastPos vs = headPos ws := by
    rw [hvss]
    intro k vs ws hk hk1
    rw [List.getElem?_map] at hk hk1
    cases hi : used[k]? with
    | none => rw [hi] at hk; simp at hk
    | some i =>
      cases hj : used[k + 1]? with
      | none => rw [hj] at hk1; simp at hk1
      | some j =>
        rw [hi] at hk
        rw [hj] at hk1
        simp only [Option.map_some, Option.some.injEq] at hk hk1
        subst hk; subst hk1
        exact hlink k i j hi hj
  rw [flatten_chain he vss hall hlk]
  obtain ⟨c1, c2, c3⟩ := chain_edges (eps := o.posEqualEps) vss (by rw [hvss]; simpa using hne) hall hlk
  have e1 : edges (chainVertexes o.posEqualEps vss) = (used.map fun i => edges (V i)).flatten := by
    rw [c1, hvss, List.map_map]; rfl
  refine ⟨e1, ?_, ?_, ?_⟩
  · intro e hem
    rw [e1] at hem
    obtain ⟨l, hl, hel⟩ := List.mem_flatten.mp hem
    obtain ⟨i, hi, rfl⟩ := List.mem_map.mp hl
    exact P.full i (hu i hi) e hel
  · rw [e1]
    obtain ⟨i, hi⟩ := List.exists_mem_of_ne_nil _ hne
    have := two_edges.mp (P.two i (hu i hi))
    intro h0
    rw [List.flatten_eq_nil_iff] at h0
    exact this (h0 _ (List.mem_map.mpr ⟨i, hi, rfl⟩))
  · obtain ⟨a, l, rfl⟩ : ∃ i l, used = i :: l := by cases used with | nil => exact absurd rfl hne | cons a l => exact ⟨a, l, rfl⟩
    refine ⟨a, (a :: l).getLast hne, rfl, List.getLast?_eq_getLast_of_ne_nil hne, c2 _ (by rw [hvss]; rfl), c3 _ ?_, hlink⟩
    rw [hvss, List.getLast?_map, List.getLast?_eq_getLast_of_ne_nil hne]; rfl

/-- A round that starts with balanced slices used comes back to its start. -/
theorem shape_round_closes (he : 0 < o.posEqualEps) (hj0 : 0 ≤ o.sliceJoinEps) (P : ShapeParts loops slices o.posEqualEps o.sliceJoinEps V) {before used rest : List Nat}
    (hall : (before ++ used ++ rest).Perm (List.range slices.length)) (hbal : Balanced V (List.range slices.length)) (hb : Balanced V before) {vs : List (Vertex ℝ)}
    (h : ShapeChain loops slices o before used vs) :
    headPos vs = lastPos vs ∧ Balanced V (before ++ used) := by
  classical
  have hin : ∀ i ∈ before ++ used ++ rest, i < slices.length := fun i hi => by simpa using hall.mem_iff.mp hi
  have hnd : (before ++ used ++ rest).Nodup := hall.nodup_iff.mpr List.nodup_range
  obtain ⟨-, -, -, a, z, ha, hz, e1, e2, hlink⟩ := shape_chain he P (fun i hi => hin i (by simp [hi])) h
  have htel := telescope (fun i => headPos (V i)) (fun i => lastPos (V i)) used a z ha hz hlink
  have hzl : z < slices.length := hin z (by simp [List.mem_of_getLast? hz])
  -- no start of an unused slice at the end
  have hrest : ∀ i ∈ rest, headPos (V i) ≠ lastPos (V z) := by
    intro i hi hz'
    have hil := hin i (by simp [hi])
    have hm := h.complete slices[z] i slices[i] (by rw [hz]; exact List.getElem?_eq_getElem hzl) (List.getElem?_eq_getElem hil) (by
      rw [P.stop z _ (List.getElem?_eq_getElem hzl), P.start i _ (List.getElem?_eq_getElem hil), hz']
      exact joinNear_refl hj0 _)
    exact (List.nodup_append.mp hnd).2.2 i hm i hi rfl
  have hall2 : ((before ++ used ++ rest).map fun i => headPos (V i)).Perm ((before ++ used ++ rest).map fun i => lastPos (V i)) :=
    ((hall.map _).trans hbal).trans (hall.map _).symm
  have hHZ : headPos (V a) = lastPos (V z) := by
    by_contra hne
    have c1 := hall2.count_eq (lastPos (V z))
    have c2 := hb.count_eq (lastPos (V z))
    have c3 := htel.count_eq (lastPos (V z))
    have c4 : (rest.map fun i => headPos (V i)).count (lastPos (V z)) = 0 := by
      rw [List.count_eq_zero]
      intro hm
      obtain ⟨i, hi, h⟩ := List.mem_map.mp hm
      exact hrest i hi h
    simp only [List.map_append, List.count_append, List.count_cons_self, List.count_nil, List.count_cons_of_ne hne] at c1 c2 c3
    omega
  refine ⟨by rw [e1, e2, hHZ], ?_⟩
  unfold Balanced at hb ⊢
  rw [List.map_append, List.map_append]
  refine hb.append ?_
  rw [hHZ] at htel
  exact (List.perm_cons _).mp ((List.perm_append_singleton _ _).symm.trans htel)

/-- Slices with balanced ends are stitched to closed polylines that consist of their segments. -/
theorem shape_stitched (he : 0 < o.posEqualEps) (hj0 : 0 ≤ o.sliceJoinEps) (P : ShapeParts loops slices o.posEqualEps o.sliceJoinEps V)
    (hbal : Balanced V (List.range slices.length)) {useds : List (List Nat)} {rs : List (Pline ℝ)} (h : ShapeRounds loops slices o [] useds rs)
    (hperm : useds.flatten.Perm (List.range slices.length)) :
    (∀ r ∈ rs, SoundLoop o.posEqualEps r) ∧ (rs.flatMap fun r => r.segs.map strip).Perm ((List.range slices.length).map fun i => edges (V i)).flatten := by
  have key : ∀ (before : List Nat) (useds : List (List Nat)) (rs : List (Pline ℝ)), Balanced V before →
      (before ++ useds.flatten).Perm (List.range slices.length) → ShapeRounds loops slices o before useds rs →
      (∀ r ∈ rs, SoundLoop o.posEqualEps r) ∧ (rs.flatMap fun r => r.segs.map strip) = (useds.flatten.map fun i => edges (V i)).flatten := by
    intro before useds rs hb hp hst
    induction hst with
    | nil => simp
    | cons before used useds vs more hch _ ih =>
      rw [List.flatten_cons, ← List.append_assoc] at hp
      obtain ⟨hcl, hb'⟩ := shape_round_closes he hj0 P hp hbal hb hch
      obtain ⟨c1, c2, c3, -⟩ := shape_chain he P (fun i hi => by simpa using hp.mem_iff.mp (List.mem_append_left _ (List.mem_append_right _ hi))) hch
      obtain ⟨d1, d2, d3, d4⟩ := close_path he c2 c3 hcl
      obtain ⟨i1, i2⟩ := ih hb' hp
      have hcl2 : chainLoop vs = ⟨vs.dropLast, true⟩ := by unfold chainLoop; rw [if_pos (by omega)]
      rw [hcl2]
      constructor
      · intro r hr
        rcases List.mem_cons.mp hr with rfl | hr
        · exact ⟨rfl, by simp only [List.length_dropLast]; omega, d3⟩
        · exact i1 r hr
      · rw [List.flatMap_cons, d4, c1, i2]
        simp
  obtain ⟨k1, k2⟩ := key [] useds rs (List.Perm.refl _) (by simpa using hperm) h
  refine ⟨k1, ?_⟩
  rw [k2]
  exact (hperm.map _).flatten

theorem shape_points (he : 0 < o.posEqualEps) (hj0 : 0 ≤ o.sliceJoinEps) (P : ShapeParts loops slices o.posEqualEps o.sliceJoinEps V)
    (hbal : Balanced V (List.range slices.length)) {useds : List (List Nat)} {rs : List (Pline ℝ)} (h : ShapeRounds loops slices o [] useds rs)
    (hperm : useds.flatten.Perm (List.range slices.length)) (X : V2 ℝ) :
    (∃ r ∈ rs, OnPline r X) ↔ ∃ i < slices.length, ∃ e ∈ pathSegs (V i), OnSeg e.1 e.2 X := by
  have hp := (shape_stitched he hj0 P hbal h hperm).2
  have h1 : (∃ r ∈ rs, OnPline r X) ↔ ∃ e ∈ rs.flatMap (fun r => r.segs.map strip), OnSeg e.1 e.2 X := by
    simp only [onPline_strip, List.mem_flatMap]
    constructor
    · rintro ⟨r, hr, e, he, h⟩; exact ⟨e, ⟨r, hr, he⟩, h⟩
    · rintro ⟨e, ⟨r, hr, he⟩, h⟩; exact ⟨r, hr, e, he, h⟩
  rw [h1]
  simp only [hp.mem_iff]
  constructor
  · rintro ⟨e, hem, h⟩
    obtain ⟨l, hl, hel⟩ := List.mem_flatten.mp hem
    obtain ⟨i, hi, rfl⟩ := List.mem_map.mp hl
    obtain ⟨s, hs, rfl⟩ := List.mem_map.mp hel
    exact ⟨i, List.mem_range.mp hi, s, hs, (onSeg_strip s X).mp h⟩
  · rintro ⟨i, hi, s, hs, h⟩
    exact ⟨strip s, List.mem_flatten.mpr ⟨_, List.mem_map.mpr ⟨i, List.mem_range.mpr hi, rfl⟩, List.mem_map.mpr ⟨s, hs, rfl⟩⟩, (onSeg_strip s X).mpr h⟩

end
end Cavc
