import Verif.Lemmas.StitchAll
import Verif.Spec.Offset

/-! # The points of the polylines stitched from the slices of a raw offset -/

set_option linter.unusedVariables false

namespace Cavc
open Real RealScalar Pline

/-- Slices that can be read, made of full segments, with ends that are either equal or apart. -/
structure OffParts (raw : Pline ℝ) (slices : List (ViewData ℝ)) (eps joinEps : ℝ) (V : Nat → List (Vertex ℝ)) : Prop where
  reads : ∀ (i : Nat) (s : ViewData ℝ), slices[i]? = some s → s.toPline raw = .ok ⟨V i, false⟩
  start : ∀ (i : Nat) (s : ViewData ℝ), slices[i]? = some s → s.updatedStart.pos = headPos (V i)
  stop : ∀ (i : Nat) (s : ViewData ℝ), slices[i]? = some s → s.endPoint = lastPos (V i)
  two : ∀ i, i < slices.length → 2 ≤ (V i).length
  full : ∀ i, i < slices.length → ∀ e ∈ edges (V i), FullSeg e.1 e.2 eps
  join : ∀ i j, i < slices.length → j < slices.length → JoinNear joinEps (lastPos (V i)) (headPos (V j)) → lastPos (V i) = headPos (V j)
  close : ∀ i j, i < slices.length → j < slices.length → ((headPos (V i)).fuzzyEqEps (lastPos (V j)) eps = true ∨
    (headPos (V i)).fuzzyEqEps (lastPos (V j)) joinEps = true) → headPos (V i) = lastPos (V j)

theorem chain_snoc (eps : ℝ) (vss : List (List (Vertex ℝ))) (vs : List (Vertex ℝ)) :
    chainVertexes eps (vss ++ [vs]) = appendVertexes eps (chainVertexes eps vss).dropLast vs := by
  unfold chainVertexes; rw [List.foldl_append]; rfl

theorem headPos_append {a b : List (Vertex ℝ)} (h : a ≠ []) : headPos (a ++ b) = headPos a := by
  cases a with
  | nil => exact absurd rfl h
  | cons x a => rfl

theorem lastPos_append {a b : List (Vertex ℝ)} (h : b ≠ []) : lastPos (a ++ b) = lastPos b := by
  unfold lastPos
  rw [List.getLast?_append_of_ne_nil _ h]

theorem two_edges {vs : List (Vertex ℝ)} : 2 ≤ vs.length ↔ edges vs ≠ [] := by
  match vs with
  | [] => simp [edges, pathSegs]
  | [_] => simp [edges, pathSegs]
  | a :: b :: l => simp [edges, pathSegs]

/-- vertexes put end to start -/
theorem chain_edges {eps : ℝ} : ∀ (vss : List (List (Vertex ℝ))), vss ≠ [] → (∀ vs ∈ vss, 2 ≤ vs.length ∧ ∀ e ∈ edges vs, FullSeg e.1 e.2 eps) →
    (∀ k vs ws, vss[k]? = some vs → vss[k + 1]? = some ws → lastPos vs = headPos ws) →
    edges (chainVertexes eps vss) = (vss.map edges).flatten ∧ (∀ vs, vss.head? = some vs → headPos (chainVertexes eps vss) = headPos vs) ∧
      (∀ vs, vss.getLast? = some vs → lastPos (chainVertexes eps vss) = lastPos vs) := by
  intro vss
  induction vss using List.reverseRecOn with
  | nil => exact fun h => absurd rfl h
  | append_singleton vss vs ih =>
    intro _ hall hlink
    obtain ⟨h2, hfull⟩ := hall vs (by simp)
    rw [chain_snoc]
    by_cases hv : vss = []
    · subst hv
      have : appendVertexes eps (chainVertexes eps []).dropLast vs = vs := by
        have := appendVertexes_plain eps vs [] (fun s hs => ((edges_full.mp hfull) s (by simpa using hs)).apart)
        simpa [chainVertexes] using this
      rw [this]
      simp
    · obtain ⟨i1, i2, i3⟩ := ih hv (fun ws hws => hall ws (by simp [hws])) (fun k ws xs h1 h2 => hlink k ws xs
        (by rw [List.getElem?_append_left (List.getElem?_eq_some_iff.mp h1).1]; exact h1)
        (by rw [List.getElem?_append_left (List.getElem?_eq_some_iff.mp h2).1]; exact h2))
      set C := chainVertexes eps vss with hC
      obtain ⟨v0, hv0⟩ : ∃ v0, vss.head? = some v0 := by cases vss with | nil => exact absurd rfl hv | cons a l => exact ⟨a, rfl⟩
      obtain ⟨vl, hvl⟩ : ∃ vl, vss.getLast? = some vl := ⟨_, List.getLast?_eq_getLast_of_ne_nil hv⟩
      have hCe : edges C ≠ [] := by
        rw [i1]
        have := two_edges.mp (hall v0 (by simp [List.mem_of_mem_head? hv0])).1
        cases vss with
        | nil => exact absurd rfl hv
        | cons a l =>
          simp only [List.head?_cons, Option.some.injEq] at hv0
          subst hv0
          simp [this]
      have hC2 := two_edges.mpr hCe
      have hvne : vs ≠ [] := by rintro rfl; simp at h2
      have hCne : C ≠ [] := by intro h; rw [h] at hC2; simp at hC2
      have hl : lastPos vl = headPos vs := by
        have hlen : 0 < vss.length := List.length_pos_iff.mpr hv
        refine hlink (vss.length - 1) vl vs ?_ ?_
        · rw [List.getElem?_append_left (by omega), ← List.getLast?_eq_getElem?]; exact hvl
        · rw [Nat.sub_add_cancel hlen, List.getElem?_append_right le_rfl]; simp
      have hgl : C.getLast? = some (C.getLast hCne) := List.getLast?_eq_getLast_of_ne_nil hCne
      obtain ⟨y, hy⟩ : ∃ y, vs.head? = some y := by cases vs with | nil => exact absurd rfl hvne | cons a l => exact ⟨a, rfl⟩
      have hj : edges (C.dropLast ++ vs) = edges C ++ edges vs := by
        refine edges_join C vs _ y hgl hy ?_
        rw [← lastPos_eq hgl, ← headPos_eq hy, i3 vl hvl, hl]
      have hplain : appendVertexes eps C.dropLast vs = C.dropLast ++ vs := by
        refine appendVertexes_plain eps vs C.dropLast fun s hs => ?_
        have : ∀ e ∈ edges (C.dropLast ++ vs), FullSeg e.1 e.2 eps := by
          intro e he
          rw [hj, i1] at he
          rcases List.mem_append.mp he with he | he
          · obtain ⟨l, hl, hel⟩ := List.mem_flatten.mp he
            obtain ⟨ws, hws, rfl⟩ := List.mem_map.mp hl
            exact (hall ws (by simp [hws])).2 e hel
          · exact hfull e he
        exact (edges_full.mp this s hs).apart
      rw [hplain]
      refine ⟨by rw [hj, i1]; simp, ?_, ?_⟩
      · intro ws hws
        have hdne : C.dropLast ≠ [] := by
          intro h
          have := congrArg List.length h
          rw [List.length_dropLast] at this
          simp at this; omega
        rw [headPos_append hdne]
        have hh : (vss ++ [vs]).head? = vss.head? := by cases vss with | nil => exact absurd rfl hv | cons a l => rfl
        rw [hh] at hws
        rw [← i2 ws hws]
        match C, hC2 with
        | a :: b :: l, _ => rfl
      · intro ws hws
        rw [List.getLast?_append_of_ne_nil _ (by simp)] at hws
        simp only [List.getLast?_singleton, Option.some.injEq] at hws
        subst hws
        exact lastPos_append hvne


theorem onSeg_strip (s : Vertex ℝ × Vertex ℝ) (X : V2 ℝ) : OnSeg (strip s).1 (strip s).2 X ↔ OnSeg s.1 s.2 X := by
  unfold OnSeg
  have : ∀ t, segCurve (strip s).1 (strip s).2 t = segCurve s.1 s.2 t := fun t => segCurve_congr rfl rfl rfl t
  simp only [this]

theorem onPline_strip (r : Pline ℝ) (X : V2 ℝ) : OnPline r X ↔ ∃ e ∈ r.segs.map strip, OnSeg e.1 e.2 X := by
  unfold OnPline
  constructor
  · rintro ⟨s, hs, h⟩
    exact ⟨strip s, List.mem_map.mpr ⟨s, hs, rfl⟩, (onSeg_strip s X).mpr h⟩
  · rintro ⟨e, he, h⟩
    obtain ⟨s, hs, rfl⟩ := List.mem_map.mp he
    exact ⟨s, hs, (onSeg_strip s X).mp h⟩

theorem open_edges {C : List (Vertex ℝ)} : (⟨C, false⟩ : Pline ℝ).segs.map strip = edges C := by
  unfold edges
  match C with
  | [] => rfl
  | [_] => rfl
  | a :: b :: l => rfl

section
variable {raw : Pline ℝ} {slices : List (ViewData ℝ)} {eps joinEps : ℝ} {V : Nat → List (Vertex ℝ)}

/-- what a chain of slices consists of -/
theorem offset_chain (he : 0 < eps) (P : OffParts raw slices eps joinEps V) {used : List Nat} (hu : ∀ i ∈ used, i < slices.length) {vs : List (Vertex ℝ)}
    (h : OffsetChain raw slices eps joinEps used vs) :
    edges vs = (used.map fun i => edges (V i)).flatten ∧ (∀ e ∈ edges vs, FullSeg e.1 e.2 eps) ∧ edges vs ≠ [] ∧
      (∃ i ∈ used, headPos vs = headPos (V i)) ∧ ∃ i ∈ used, lastPos vs = lastPos (V i) := by
  obtain ⟨ss, vss, h1, h2, rfl⟩ := h.chain
  -- the vertex lists
  have hlen : used.length = ss.length := by have := congrArg List.length h1; simpa using this
  have hget : ∀ (k : Nat) (s : ViewData ℝ), ss[k]? = some s → ∃ i, used[k]? = some i ∧ slices[i]? = some s := by
    intro k s hk
    have h3 : (used.map fun i => slices[i]?)[k]? = some (some s) := by rw [h1, List.getElem?_map, hk]; rfl
    rw [List.getElem?_map] at h3
    cases hu : used[k]? with
    | none => rw [hu] at h3; simp at h3
    | some i => rw [hu] at h3; simp at h3; exact ⟨i, rfl, h3⟩
  have hvss : vss = used.map V := by
    apply List.ext_getElem?
    intro k
    rw [List.getElem?_map]
    have hl2 := h2.length_eq
    by_cases hk : k < used.length
    · obtain ⟨i, hi, hs⟩ := hget k _ (List.getElem?_eq_getElem (by omega : k < ss.length))
      rw [hi, List.getElem?_eq_getElem (by omega : k < vss.length)]
      have hr := List.forall₂_iff_get.mp h2
      have hr2 := hr.2 k (by omega) (by omega)
      simp only [List.get_eq_getElem] at hr2
      have := hr2.1.symm.trans (P.reads i _ hs)
      simp only [Except.ok.injEq, Pline.mk.injEq, and_true] at this
      rw [this]; rfl
    · rw [List.getElem?_eq_none (by omega), List.getElem?_eq_none (by omega)]; rfl
  have hne : used ≠ [] := h.nonempty
  have hslice : ∀ i ∈ used, ∃ s, slices[i]? = some s := fun i hi => ⟨_, List.getElem?_eq_getElem (hu i hi)⟩
  have hall : ∀ vs ∈ vss, 2 ≤ vs.length ∧ ∀ e ∈ edges vs, FullSeg e.1 e.2 eps := by
    rw [hvss]
    intro vs hvs
    obtain ⟨i, hi, rfl⟩ := List.mem_map.mp hvs
    exact ⟨P.two i (hu i hi), P.full i (hu i hi)⟩
  obtain ⟨c1, c2, c3⟩ := chain_edges (eps := eps) vss (by rw [hvss]; simpa using hne) hall (by
    rw [hvss]
    intro k vs ws hk hk1
    rw [List.getElem?_map] at hk hk1
    cases hi : used[k]? with
    | none => rw [hi] at hk; simp at hk
    | some i =>
      cases hj : used[k + 1]? with
      | none => rw [hj] at hk1; simp at hk1
      | some j =>
        rw [hi] at hk
        rw [hj] at hk1
        simp only [Option.map_some, Option.some.injEq] at hk hk1
        subst hk; subst hk1
        have hi' := hu i (List.mem_of_getElem? hi)
        have hj' := hu j (List.mem_of_getElem? hj)
        obtain ⟨s, hs⟩ := hslice i (List.mem_of_getElem? hi)
        obtain ⟨s', hs'⟩ := hslice j (List.mem_of_getElem? hj)
        have := h.linked k s s' (by rw [hi]; exact hs) (by rw [hj]; exact hs')
        rw [P.stop i s hs, P.start j s' hs'] at this
        exact P.join i j hi' hj' this)
  have e1 : edges (chainVertexes eps vss) = (used.map fun i => edges (V i)).flatten := by
    rw [c1, hvss, List.map_map]; rfl
  refine ⟨e1, ?_, ?_, ?_, ?_⟩
  · intro e hem
    rw [e1] at hem
    obtain ⟨l, hl, hel⟩ := List.mem_flatten.mp hem
    obtain ⟨i, hi, rfl⟩ := List.mem_map.mp hl
    exact P.full i (hu i hi) e hel
  · rw [e1]
    obtain ⟨i, hi⟩ := List.exists_mem_of_ne_nil _ hne
    have := two_edges.mp (P.two i (hu i hi))
    intro h0
    rw [List.flatten_eq_nil_iff] at h0
    exact this (h0 _ (List.mem_map.mpr ⟨i, hi, rfl⟩))
  · obtain ⟨i, l, rfl⟩ : ∃ i l, used = i :: l := by cases used with | nil => exact absurd rfl hne | cons a l => exact ⟨a, l, rfl⟩
    exact ⟨i, by simp, c2 (V i) (by rw [hvss]; rfl)⟩
  · refine ⟨used.getLast hne, List.getLast_mem hne, c3 _ ?_⟩
    rw [hvss, List.getLast?_map, List.getLast?_eq_getLast_of_ne_nil hne]; rfl

/-- what is made of a list of vertexes -/
theorem chain_result (he : 0 < eps) {isClosed : Bool} {e' : ℝ} {vs : List (Vertex ℝ)} (hf : ∀ e ∈ edges vs, FullSeg e.1 e.2 eps) (hne : edges vs ≠ [])
    (hcl : (headPos vs).fuzzyEqEps (lastPos vs) e' = true → headPos vs = lastPos vs) {rs : List (Pline ℝ)} (h : ChainResult isClosed e' vs rs) :
    (rs.flatMap fun r => r.segs.map strip) = edges vs := by
  cases h with
  | tooShort h => have := two_edges.mpr hne; omega
  | closed a b h2 hc ha hb hab =>
    have := hcl (by rw [headPos_eq ha, lastPos_eq hb]; exact hab)
    obtain ⟨-, -, -, h4⟩ := close_path he hf hne this
    simpa using h4
  | «open» a b h2 ha hb hab =>
    simpa using open_edges (C := vs)

/-- The stitched polylines consist of the segments of the slices. -/
theorem stitch_segs (he : 0 < eps) (P : OffParts raw slices eps joinEps V) {isClosed : Bool} {rs : List (Pline ℝ)}
    (h : OffsetJoined raw slices isClosed eps joinEps rs) :
    (rs.flatMap fun r => r.segs.map strip).Perm ((List.range slices.length).map fun i => edges (V i)).flatten := by
  by_cases h1 : slices.length = 1
  · obtain ⟨s, hs⟩ := List.length_eq_one_iff.mp h1
    obtain ⟨vs, ws, a, b, hr, hw, ha, hb, hrs⟩ := h.single s hs
    have h0 : slices[0]? = some s := by rw [hs]; rfl
    have hvs : vs = V 0 := by
      have := hr.1.symm.trans (P.reads 0 s h0)
      simpa using this
    subst hvs
    have hl : 0 < slices.length := by omega
    have hplain : ws = V 0 := by
      rw [hw]
      have := appendVertexes_plain eps (V 0) [] (fun x hx => (edges_full.mp (P.full 0 hl) x (by simpa using hx)).apart)
      simpa using this
    have key := P.close 0 0 hl hl
    have hres : ChainResult isClosed joinEps (V 0) rs := by
      rw [hrs, hplain]
      rw [hplain] at ha hb
      by_cases hc : isClosed = true ∧ a.pos.fuzzyEqEps b.pos joinEps = true
      · rw [if_pos hc]
        exact .closed a b (P.two 0 hl) hc.1 ha hb hc.2
      · rw [if_neg hc]
        exact .open a b (P.two 0 hl) ha hb hc
    rw [h1]
    have := chain_result he (P.full 0 hl) (two_edges.mp (P.two 0 hl)) (fun h => key (Or.inr h)) hres
    rw [this]
    simp
  · obtain ⟨useds, hst, hperm⟩ := h.several h1
    have hin : ∀ u ∈ useds, ∀ i ∈ u, i < slices.length := by
      intro u hu i hi
      have := hperm.mem_iff.mp (List.mem_flatten.mpr ⟨u, hu, hi⟩)
      simpa using this
    have key : ∀ (before : List Nat) (useds : List (List Nat)) (rs : List (Pline ℝ)), (∀ u ∈ useds, ∀ i ∈ u, i < slices.length) →
        StitchRounds raw slices isClosed eps joinEps before useds rs →
        (rs.flatMap fun r => r.segs.map strip) = (useds.flatten.map fun i => edges (V i)).flatten := by
      intro before useds rs hin hst
      induction hst with
      | nil => simp
      | cons before used useds rs more hr _ ih =>
        obtain ⟨vs, hch, -, hres⟩ := hr
        obtain ⟨c1, c2, c3, ⟨i, hi, c4⟩, ⟨j, hj, c5⟩⟩ := offset_chain he P (hin used (by simp)) hch
        have := chain_result he c2 c3 (fun h => by
          rw [c4, c5] at h ⊢
          exact P.close i j (hin used (by simp) i hi) (hin used (by simp) j hj) (Or.inl h)) hres
        rw [List.flatMap_append, this, c1, ih fun u hu => hin u (by simp [hu])]
        simp
    rw [key [] useds rs hin hst]
    exact (hperm.map _).flatten

theorem stitch_points (he : 0 < eps) (P : OffParts raw slices eps joinEps V) {isClosed : Bool} {rs : List (Pline ℝ)}
    (h : OffsetJoined raw slices isClosed eps joinEps rs) (X : V2 ℝ) :
    (∃ r ∈ rs, OnPline r X) ↔ ∃ i < slices.length, ∃ e ∈ pathSegs (V i), OnSeg e.1 e.2 X := by
  have hp := stitch_segs he P h
  have h1 : (∃ r ∈ rs, OnPline r X) ↔ ∃ e ∈ rs.flatMap (fun r => r.segs.map strip), OnSeg e.1 e.2 X := by
    simp only [onPline_strip, List.mem_flatMap]
    constructor
    · rintro ⟨r, hr, e, he, h⟩; exact ⟨e, ⟨r, hr, he⟩, h⟩
    · rintro ⟨e, ⟨r, hr, he⟩, h⟩; exact ⟨r, hr, e, he, h⟩
  rw [h1]
  simp only [hp.mem_iff]
  constructor
  · rintro ⟨e, hem, h⟩
    obtain ⟨l, hl, hel⟩ := List.mem_flatten.mp hem
    obtain ⟨i, hi, rfl⟩ := List.mem_map.mp hl
    obtain ⟨s, hs, rfl⟩ := List.mem_map.mp hel
    exact ⟨i, List.mem_range.mp hi, s, hs, (onSeg_strip s X).mp h⟩
  · rintro ⟨i, hi, s, hs, h⟩
    exact ⟨strip s, List.mem_flatten.mpr ⟨_, List.mem_map.mpr ⟨i, List.mem_range.mpr hi, rfl⟩, List.mem_map.mpr ⟨s, hs, rfl⟩⟩, (onSeg_strip s X).mpr h⟩

end
end Cavc
