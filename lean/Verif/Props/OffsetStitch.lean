import Verif.Spec.Offset
import Verif.Props.BooleanStitch
import Verif.Lemmas.RawOffset
import Verif.Spec.PlainEnv
import Verif.Spec.RatScalar

/-! # C44: stitching the slices of a parallel offset -/

set_option linter.unusedSectionVars false
set_option linter.unusedVariables false

namespace Cavc
open Scalar Pline
variable {T : Type} [Scalar T]

theorem finishStitched_spec (isClosed : Bool) (eps : T) (vs : List (Vertex T)) (h : vs ≠ []) :
    ∃ rs, finishStitched isClosed eps ⟨vs, false⟩ = .ok rs ∧ ChainResult isClosed eps vs rs := by
  have hpos : 0 < vs.length := List.length_pos_iff.mpr h
  unfold finishStitched
  by_cases h1 : 1 < vs.length
  · have ha : vs.head? = some vs[0] := by rw [List.head?_eq_getElem?, List.getElem?_eq_getElem hpos]
    have hb := List.getLast?_eq_getLast_of_ne_nil h
    have hat : (⟨vs, false⟩ : Pline T).at 0 = .ok vs[0] := at_lt (p := ⟨vs, false⟩) hpos
    rw [if_pos (show (⟨vs, false⟩ : Pline T).vertexCount > 1 from h1)]
    simp only [hat, Pline.last, hb, unwrap, bind, Except.bind]
    split
    · rename_i hc
      rw [Bool.and_eq_true] at hc
      obtain ⟨v, hv⟩ := removeLast_eq (⟨vs, false⟩ : Pline T) h
      rw [hv]
      exact ⟨_, rfl, .closed _ _ h1 hc.1 ha hb hc.2⟩
    · rename_i hc
      refine ⟨_, rfl, .open _ _ h1 ha hb ?_⟩
      rintro ⟨h2, h3⟩
      exact hc (by rw [Bool.and_eq_true]; exact ⟨h2, h3⟩)
  · rw [if_neg (show ¬ (⟨vs, false⟩ : Pline T).vertexCount > 1 from h1)]
    exact ⟨_, rfl, .tooShort (by omega)⟩

/-- The comparison of candidates is an order. -/
theorem stitchCmp_order (slices : List (ViewData T)) (omi cur : Nat) (ini : V2 T) (eps : T) :
    (∀ a b, stitchCmp slices omi cur ini eps a b = (stitchCmp slices omi cur ini eps b a).swap) ∧
    ∀ a b c, stitchCmp slices omi cur ini eps a b ≠ .gt → stitchCmp slices omi cur ini eps b c ≠ .gt → stitchCmp slices omi cur ini eps a c ≠ .gt := by
  have key : ∀ x y : Nat × Bool, (compare x.1 y.1).then (compare x.2 y.2) ≠ .gt ↔ x.1 < y.1 ∨ (x.1 = y.1 ∧ (x.2 = true → y.2 = true)) := by
    rintro ⟨x1, x2⟩ ⟨y1, y2⟩
    rcases Nat.lt_trichotomy x1 y1 with h | h | h
    · simp [Nat.compare_eq_lt.mpr h, h]
    · subst h
      cases x2 <;> cases y2 <;> simp [compare, compareOfLessAndEq]
    · simp [Nat.compare_eq_gt.mpr h, h.ne', Nat.not_lt.mpr h.le]
  constructor
  · intro a b
    unfold stitchCmp
    simp only
    rw [Ordering.swap_then, ← Nat.compare_swap]
    congr 1
    generalize (stitchKey slices omi cur ini eps a).2 = x
    generalize (stitchKey slices omi cur ini eps b).2 = y
    cases x <;> cases y <;> rfl
  · intro a b c
    unfold stitchCmp
    simp only [key]
    rintro (h1 | ⟨h1, h1'⟩) (h2 | ⟨h2, h2'⟩)
    · left; omega
    · left; omega
    · left; omega
    · right; exact ⟨by omega, fun h => h2' (h1' h)⟩

theorem stitchCmp_le {slices : List (ViewData T)} {omi cur : Nat} {ini : V2 T} {eps : T} {a b : Nat} {sa sb : ViewData T} (ha : slices[a]? = some sa) (hb : slices[b]? = some sb)
    (h : stitchCmp slices omi cur ini eps a b ≠ .gt) :
    stepsAhead omi cur sa.startIndex < stepsAhead omi cur sb.startIndex ∨ (stepsAhead omi cur sa.startIndex = stepsAhead omi cur sb.startIndex ∧
      (sa.endPoint.fuzzyEqEps ini eps = true → sb.endPoint.fuzzyEqEps ini eps = true)) := by
  unfold stitchCmp stitchKey at h
  simp only [ha, hb] at h
  change (compare (stepsAhead omi cur sa.startIndex) (stepsAhead omi cur sb.startIndex)).then _ ≠ _ at h
  rcases Nat.lt_trichotomy (stepsAhead omi cur sa.startIndex) (stepsAhead omi cur sb.startIndex) with h' | h' | h'
  · exact Or.inl h'
  · refine Or.inr ⟨h', ?_⟩
    rw [Nat.compare_eq_eq.mpr h'] at h
    generalize sa.endPoint.fuzzyEqEps ini eps = x at *
    generalize sb.endPoint.fuzzyEqEps ini eps = y at *
    intro hx
    subst hx
    cases y
    · exact absurd rfl h
    · rfl
  · rw [Nat.compare_eq_gt.mpr h'] at h
    exact absurd rfl h

/-- The inner stitching loop; the slices `used` (without `curIdx`) are in the chain already. -/
theorem offsetStitchInner_spec (env : Env T) (henv : env.Lawful) (raw : Pline T) (idx : Index T) (slices : List (ViewData T))
    (isClosed : Bool) (omi : Nat) (opts : OffsetOptions T) (ini : V2 T)
    (hread : ∀ s ∈ slices, ∃ vs, s.Reads raw vs)
    (hidx : idx.For (slices.map fun s => (AABB.ofPoint s.updatedStart.pos).grow opts.sliceJoinEps)) :
    ∀ (fuel : Nat) (cur : Pline T) (curIdx : Nat) (visited : List Bool) (before used : List Nat)
      (ss : List (ViewData T)) (vss : List (List (Vertex T))),
      visited.length = slices.length → visited.count false < fuel → cur.closed = false →
      curIdx < slices.length →
      cur.verts = (chainVertexes opts.posEqualEps vss).dropLast →
      List.Forall₂ (fun (s : ViewData T) vs => s.Reads raw vs) ss vss →
      used.map (fun i => slices[i]?) = ss.map some →
      (∀ i, visited[i]? = some true → i ∈ before ++ (used ++ [curIdx])) →
      (∀ k s s', ((used ++ [curIdx])[k]?.bind fun i => slices[i]?) = some s →
        ((used ++ [curIdx])[k + 1]?.bind fun i => slices[i]?) = some s' →
        JoinNear opts.sliceJoinEps s.endPoint s'.updatedStart.pos) →
      ChainNearest slices opts.posEqualEps opts.sliceJoinEps omi before (used ++ [curIdx]) →
      (∃ s₀, ((used ++ [curIdx]).head?.bind fun i => slices[i]?) = some s₀ ∧ s₀.updatedStart.pos = ini) →
      ∃ rs visited' new, offsetStitchInner env raw idx slices isClosed omi opts ini fuel cur curIdx visited
          = .ok (rs, visited') ∧ Marks visited visited' new ∧
        StitchRound raw slices isClosed opts.posEqualEps opts.sliceJoinEps before (used ++ [curIdx] ++ new) rs ∧
        ChainNearest slices opts.posEqualEps opts.sliceJoinEps omi before (used ++ [curIdx] ++ new) := by
  intro fuel
  induction fuel with
  | zero => intro _ _ _ _ _ _ _ _ h; omega
  | succ fuel ih =>
    intro cur curIdx visited before used ss vss hvl hcount hclosed hcur hverts hforall hused hseen hlinked hnear hini
    have hs := List.getElem?_eq_getElem hcur
    obtain ⟨vs, hvs⟩ := hread slices[curIdx] (List.getElem_mem hcur)
    generalize slices[curIdx] = s at hs hvs
    have hq : ∀ i, i ∈ idx.query ((AABB.ofPoint s.endPoint).grow opts.sliceJoinEps) ↔
        ∃ s', slices[i]? = some s' ∧ JoinNear opts.sliceJoinEps s.endPoint s'.updatedStart.pos := by
      intro i
      rw [hidx.mem_query]
      constructor
      · rintro ⟨b, hb, hov⟩
        rw [List.getElem?_map, Option.map_eq_some_iff] at hb
        obtain ⟨s', hs', rfl⟩ := hb
        exact ⟨s', hs', hov⟩
      · rintro ⟨s', hs', hj⟩
        exact ⟨_, by rw [List.getElem?_map, hs']; rfl, hj⟩
    have hfilter : (idx.query ((AABB.ofPoint s.endPoint).grow opts.sliceJoinEps)).filterM (notVisited visited)
        = .ok ((idx.query ((AABB.ofPoint s.endPoint).grow opts.sliceJoinEps)).filter fun i => visited[i]? == some false) := by
      apply filterM_ok
      intro i hi
      obtain ⟨s', hs', -⟩ := (hq i).mp hi
      have hlt := (List.getElem?_eq_some_iff.mp hs').1
      rw [← hvl] at hlt
      unfold notVisited
      simp only [List.getElem?_eq_getElem hlt]
      cases visited[i] <;> simp
    have hch : appendVertexes opts.posEqualEps cur.verts vs = chainVertexes opts.posEqualEps (vss ++ [vs]) := by
      rw [chainVertexes_snoc, hverts]
    have hne : appendVertexes opts.posEqualEps cur.verts vs ≠ [] := appendVertexes_ne _ _ _ hvs.2
    have hforall' := List.rel_append hforall (List.Forall₂.cons hvs List.Forall₂.nil)
    have hused' : (used ++ [curIdx]).map (fun i => slices[i]?) = (ss ++ [s]).map some := by simp [hused, hs]
    unfold offsetStitchInner
    simp only [hs, hvs.1, extendRemoveRepeat_eq, hfilter, bind, Except.bind, hclosed]
    generalize hsorted : env.sortBy (stitchCmp slices omi s.startIndex ini opts.posEqualEps)
      ((idx.query ((AABB.ofPoint s.endPoint).grow opts.sliceJoinEps)).filter fun i => visited[i]? == some false) = sorted
    have hperm : sorted.Perm ((idx.query ((AABB.ofPoint s.endPoint).grow opts.sliceJoinEps)).filter fun i => visited[i]? == some false) := by
      rw [← hsorted]; exact henv.sort_perm _ _
    have hmem : ∀ i, i ∈ sorted ↔ (∃ s', slices[i]? = some s' ∧ JoinNear opts.sliceJoinEps s.endPoint s'.updatedStart.pos) ∧
        visited[i]? = some false := by
      intro i
      rw [hperm.mem_iff, List.mem_filter, hq]
      simp
    cases sorted with
    | nil =>
      simp only
      obtain ⟨rs, hrs, hcr⟩ := finishStitched_spec isClosed opts.posEqualEps _ hne
      rw [hrs]
      refine ⟨rs, visited, [], rfl, Marks.none _, ⟨_, ⟨by simp, ⟨ss ++ [s], vss ++ [vs], by simpa using hused', hforall', rfl⟩, by simpa using hlinked⟩, ?_, hch ▸ hcr⟩, by simpa using hnear⟩
      intro s1 i s' h1 hi hj
      rw [List.append_nil, List.getLast?_append_of_ne_nil _ (by simp)] at h1
      have : s = s1 := by simpa [hs] using h1
      subst this
      have hlt : i < visited.length := by
        rw [hvl]; exact (List.getElem?_eq_some_iff.mp hi).1
      rw [List.append_nil]
      apply hseen i
      cases hv : visited[i] with
      | true => rw [List.getElem?_eq_getElem hlt, hv]
      | false =>
        have := (hmem i).mpr ⟨⟨s', hi, hj⟩, by rw [List.getElem?_eq_getElem hlt, hv]⟩
        simp at this
    | cons j sorted =>
      simp only
      obtain ⟨⟨s', hs', hj⟩, hfalse⟩ := (hmem j).mp (by simp)
      obtain ⟨v, hv⟩ := removeLast_eq (⟨appendVertexes opts.posEqualEps cur.verts vs, false⟩ : Pline T) hne
      rw [hv]
      simp only
      have hsort : ∀ i ∈ j :: sorted, stitchCmp slices omi s.startIndex ini opts.posEqualEps j i ≠ .gt := by
        have ho := stitchCmp_order slices omi s.startIndex ini opts.posEqualEps
        have := henv.sort_sorted (stitchCmp slices omi s.startIndex ini opts.posEqualEps) ((idx.query ((AABB.ofPoint s.endPoint).grow opts.sliceJoinEps)).filter fun i => visited[i]? == some false) ho.1 ho.2
        rw [hsorted, List.pairwise_cons] at this
        intro i hi
        rcases List.mem_cons.mp hi with rfl | hi
        · intro h
          have := ho.1 i i
          rw [h] at this
          simp at this
        · exact this.1 i hi
      obtain ⟨rs, visited', new, e, hm, hr, hn⟩ := ih ⟨(appendVertexes opts.posEqualEps cur.verts vs).dropLast, false⟩ j (visited.set j true)
        before (used ++ [curIdx]) (ss ++ [s]) (vss ++ [vs]) (by simpa using hvl)
        (by have := count_set_true hfalse; omega) rfl (List.getElem?_eq_some_iff.mp hs').1
        (by show (appendVertexes opts.posEqualEps cur.verts vs).dropLast = _; rw [hch])
        hforall' hused'
        (by
          intro i hi
          rw [set_true visited hfalse] at hi
          by_cases hij : i = j
          · simp [hij]
          · rw [if_neg hij] at hi
            have := hseen i hi
            simp only [List.mem_append, List.mem_singleton] at this ⊢
            tauto)
        (by
          intro k a b ha hb
          by_cases hk : k + 1 < (used ++ [curIdx]).length
          · rw [List.getElem?_append_left (by omega)] at ha
            rw [List.getElem?_append_left hk] at hb
            exact hlinked k a b ha hb
          · have hk2 : k + 1 = (used ++ [curIdx]).length := by
              by_contra h
              rw [List.getElem?_eq_none (by simp only [List.length_append, List.length_singleton] at *; omega)] at hb
              simp at hb
            have hk3 : k = used.length := by simpa using hk2
            rw [hk2, List.getElem?_concat_length] at hb
            rw [List.getElem?_append_left (by omega), hk3, List.getElem?_concat_length] at ha
            have h1 : s = a := by simpa [hs] using ha
            have h2 : s' = b := by simpa [hs'] using hb
            subst h1 h2
            exact hj)
        (by
          intro k i s₀ a b t h0 ha hb ht hnear' hi
          rw [List.head?_append_of_ne_nil _ (by simp)] at h0
          by_cases hk : k + 1 < (used ++ [curIdx]).length
          · rw [List.getElem?_append_left (by omega)] at ha
            rw [List.getElem?_append_left hk] at hb
            rw [List.take_append_of_le_length (by omega)] at hi
            exact hnear k i s₀ a b t h0 ha hb ht hnear' hi
          · have hk2 : k + 1 = (used ++ [curIdx]).length := by
              by_contra h
              rw [List.getElem?_eq_none (by simp only [List.length_append, List.length_singleton] at *; omega)] at hb
              simp at hb
            have hk3 : k = used.length := by simpa using hk2
            rw [hk2, List.getElem?_concat_length] at hb
            rw [List.getElem?_append_left (by omega), hk3, List.getElem?_concat_length] at ha
            have h1 : s = a := by simpa [hs] using ha
            have h2 : s' = b := by simpa [hs'] using hb
            subst h1 h2
            obtain ⟨s₁, e1, e2⟩ := hini
            rw [e1] at h0
            cases h0
            rw [hk2, List.take_left'  rfl] at hi
            have hlt : i < visited.length := by
              rw [hvl]; exact (List.getElem?_eq_some_iff.mp ht).1
            have hvf : visited[i]? = some false := by
              cases hv : visited[i] with
              | true => exact absurd (hseen i (by rw [List.getElem?_eq_getElem hlt, hv])) hi
              | false => rw [List.getElem?_eq_getElem hlt, hv]
            have := stitchCmp_le hs' ht (hsort i ((hmem i).mpr ⟨⟨t, ht, hnear'⟩, hvf⟩))
            rw [← e2] at this
            exact this)
        (by
          obtain ⟨s₁, e1, e2⟩ := hini
          exact ⟨s₁, by rw [List.head?_append_of_ne_nil _ (by simp)]; exact e1, e2⟩)
      refine ⟨rs, visited', j :: new, e, hm.cons hfalse, ?_, ?_⟩
      · simpa using hr
      · simpa using hn

/-- The outer stitching loop. -/
theorem offsetStitchOuter_spec (env : Env T) (henv : env.Lawful) (raw : Pline T) (idx : Index T) (slices : List (ViewData T))
    (isClosed : Bool) (omi : Nat) (opts : OffsetOptions T)
    (hread : ∀ s ∈ slices, ∃ vs, s.Reads raw vs)
    (hidx : idx.For (slices.map fun s => (AABB.ofPoint s.updatedStart.pos).grow opts.sliceJoinEps)) :
    ∀ (is : List Nat) (visited : List Bool) (before : List Nat), visited.length = slices.length → (∀ i ∈ is, i < slices.length) →
      (∀ i, visited[i]? = some true → i ∈ before) →
      ∃ rs useds visited', offsetStitchOuter env raw idx slices isClosed omi opts is visited = .ok rs ∧
        (StitchRounds raw slices isClosed opts.posEqualEps opts.sliceJoinEps before useds rs ∧
          ChainsNearest slices opts.posEqualEps opts.sliceJoinEps omi before useds) ∧
        Marks visited visited' useds.flatten ∧ ∀ i ∈ is, visited'[i]? = some true := by
  intro is
  induction is with
  | nil =>
    intro visited before _ _ _
    exact ⟨[], [], visited, rfl, ⟨.nil _, trivial⟩, by simpa using Marks.none visited, by simp⟩
  | cons i is ih =>
    intro visited before hvl his hseen
    have hi := his i (by simp)
    have his' : ∀ j ∈ is, j < slices.length := fun j hj => his j (by simp [hj])
    have hiv : i < visited.length := by omega
    unfold offsetStitchOuter
    cases hv : visited[i] with
    | true =>
      simp only [List.getElem?_eq_getElem hiv, hv, List.getElem?_eq_getElem hi]
      obtain ⟨rs, useds, visited', e, h1, h2, h3⟩ := ih visited before hvl his' hseen
      refine ⟨rs, useds, visited', e, h1, h2, ?_⟩
      intro j hj
      rcases List.mem_cons.mp hj with rfl | hj
      · rw [h2.2.2.2 j]
        split
        · rfl
        · rw [List.getElem?_eq_getElem hiv, hv]
      · exact h3 j hj
    | false =>
      have hfalse : visited[i]? = some false := by rw [List.getElem?_eq_getElem hiv, hv]
      simp only [hfalse, List.getElem?_eq_getElem hi, bind, Except.bind]
      obtain ⟨rs, visited', new, e, hm, hr, hn⟩ := offsetStitchInner_spec env henv raw idx slices isClosed omi opts
        slices[i].updatedStart.pos hread hidx (slices.length + 1) ⟨[], false⟩ i (visited.set i true) before [] [] []
        (by simpa using hvl)
        (by
          have h1 := count_set_true hfalse
          have h2 := List.count_le_length (a := false) (l := visited)
          omega)
        rfl hi rfl List.Forall₂.nil rfl
        (by
          intro j hj
          rw [set_true visited hfalse] at hj
          by_cases hij : j = i
          · simp [hij]
          · rw [if_neg hij] at hj
            simp [hseen j hj])
        (by
          intro k a b ha hb
          rw [List.getElem?_eq_none (by simp)] at hb
          simp at hb)
        (by
          intro k j s₀ a b t h0 ha hb
          rw [List.getElem?_eq_none (by simp)] at hb
          simp at hb)
        ⟨slices[i], by simp [List.getElem?_eq_getElem hi], rfl⟩
      have hm' := hm.cons hfalse
      obtain ⟨more, useds, visited2, e', hst, hm2, hall⟩ := ih visited' (before ++ (i :: new)) (by rw [hm'.1, hvl]) his'
        (by
          intro j hj
          rw [hm'.2.2.2 j] at hj
          rw [List.mem_append]
          by_cases h2 : j ∈ i :: new
          · exact Or.inr h2
          · rw [if_neg h2] at hj; exact Or.inl (hseen j hj))
      rw [e]
      simp only [e']
      refine ⟨_, (i :: new) :: useds, visited2, rfl, ⟨.cons _ _ _ _ _ (by simpa using hr) hst.1, by simpa using hn, hst.2⟩, ?_, ?_⟩
      · rw [List.flatten_cons]
        have hdis : ∀ j ∈ useds.flatten, j ∉ i :: new ∧ visited[j]? = some false := by
          intro j hj
          have h1 := hm2.2.2.1 j hj
          rw [hm'.2.2.2 j] at h1
          by_cases h2 : j ∈ i :: new
          · rw [if_pos h2] at h1; simp at h1
          · rw [if_neg h2] at h1; exact ⟨h2, h1⟩
        refine ⟨by rw [hm2.1, hm'.1], ?_, ?_, ?_⟩
        · rw [List.nodup_append]
          refine ⟨hm'.2.1, hm2.2.1, ?_⟩
          rintro a ha b hb rfl
          exact (hdis a hb).1 ha
        · intro j hj
          rcases List.mem_append.mp hj with hj | hj
          · exact hm'.2.2.1 j hj
          · exact (hdis j hj).2
        · intro j
          rw [hm2.2.2.2 j, hm'.2.2.2 j]
          by_cases h1 : j ∈ useds.flatten <;> by_cases h2 : j ∈ i :: new <;>
            simp only [h1, h2, List.mem_append, if_true, if_false, or_true, true_or, or_false]
      · intro j hj
        rcases List.mem_cons.mp hj with rfl | hj
        · rw [hm2.2.2.2 j]
          split
          · rfl
          · rw [hm'.2.2.2 j, if_pos (by simp)]
        · exact hall j hj

/-- **C44** Stitching two or more slices, as in `C44_stitch`: each next slice is the nearest one ahead among all unused slices that
could follow. -/
theorem C44_nearest (env : Env T) (henv : env.Lawful) (raw : Pline T) (slices : List (ViewData T))
    (isClosed : Bool) (omi : Nat) (opts : OffsetOptions T) (h2 : slices.length ≠ 1)
    (hread : ∀ s ∈ slices, ∃ vs, s.Reads raw vs) :
    ∃ rs useds, stitchSlicesTogether env raw slices isClosed omi opts = .ok rs ∧
      StitchRounds raw slices isClosed opts.posEqualEps opts.sliceJoinEps [] useds rs ∧
      useds.flatten.Perm (List.range slices.length) ∧
      ChainsNearest slices opts.posEqualEps opts.sliceJoinEps omi [] useds := by
  match slices, h2 with
  | [], _ => exact ⟨[], [], rfl, .nil _, by simp, trivial⟩
  | [s], h => simp at h
  | s :: s' :: t, _ =>
    generalize hsl : s :: s' :: t = slices at hread ⊢
    have hdef : stitchSlicesTogether env raw slices isClosed omi opts =
        offsetStitchOuter env raw (env.build (slices.map fun s => (AABB.ofPoint s.updatedStart.pos).grow opts.sliceJoinEps))
          slices isClosed omi opts (List.range slices.length) (List.replicate slices.length false) := by
      rw [← hsl]; rfl
    obtain ⟨rs, useds, visited', e, h1, h2, h3⟩ := offsetStitchOuter_spec env henv raw _ slices isClosed omi opts hread
      (henv.build_for _) (List.range slices.length) (List.replicate slices.length false) [] (by simp) (by simp)
      (by
        intro i hi
        have := List.mem_of_getElem? hi
        simp at this)
    refine ⟨rs, useds, hdef ▸ e, h1.1, ?_, h1.2⟩
    rw [List.perm_ext_iff_of_nodup h2.2.1 List.nodup_range]
    intro i
    rw [List.mem_range]
    constructor
    · intro hi
      have := (List.getElem?_eq_some_iff.mp (h2.2.2.1 i hi)).1
      simpa using this
    · intro hi
      have := h3 i (List.mem_range.mpr hi)
      rw [h2.2.2.2 i] at this
      by_contra hc
      rw [if_neg hc] at this
      have := List.mem_of_getElem? this
      simp at this

/-- **C44** Stitching two or more slices never panics and never runs out of its loop bound, for every
lawful spatial index and sorting function.  Every slice is used exactly once, whole; every result is
the chain of its slices where each next slice starts near the end of the one before; a chain ends
only where no unused slice could follow; it is closed exactly if it should be and it ends where it
starts. -/
theorem C44_stitch (env : Env T) (henv : env.Lawful) (raw : Pline T) (slices : List (ViewData T))
    (isClosed : Bool) (omi : Nat) (opts : OffsetOptions T) (h2 : slices.length ≠ 1)
    (hread : ∀ s ∈ slices, ∃ vs, s.Reads raw vs) :
    ∃ rs useds, stitchSlicesTogether env raw slices isClosed omi opts = .ok rs ∧
      StitchRounds raw slices isClosed opts.posEqualEps opts.sliceJoinEps [] useds rs ∧
      useds.flatten.Perm (List.range slices.length) := by
  obtain ⟨rs, useds, h1, h2, h3, -⟩ := C44_nearest env henv raw slices isClosed omi opts h2 hread
  exact ⟨rs, useds, h1, h2, h3⟩

/-- **C44** A single slice becomes the result as it is (without repeated positions); it is closed,
without its last vertex, exactly if the result should be closed and its ends agree within the join
epsilon. -/
theorem C44_single (env : Env T) (raw : Pline T) (s : ViewData T) (isClosed : Bool) (omi : Nat) (opts : OffsetOptions T)
    (vs : List (Vertex T)) (hread : s.Reads raw vs) :
    ∃ r ws a b, stitchSlicesTogether env raw [s] isClosed omi opts = .ok [r] ∧ ws = appendVertexes opts.posEqualEps [] vs ∧
      ws.head? = some a ∧ ws.getLast? = some b ∧
      r = if isClosed = true ∧ a.pos.fuzzyEqEps b.pos opts.sliceJoinEps = true then ⟨ws.dropLast, true⟩ else ⟨ws, false⟩ := by
  have hne := appendVertexes_ne opts.posEqualEps [] vs hread.2
  generalize hws : appendVertexes opts.posEqualEps [] vs = ws at hne
  have hpos : 0 < ws.length := List.length_pos_iff.mpr hne
  have ha : ws.head? = some ws[0] := by rw [List.head?_eq_getElem?, List.getElem?_eq_getElem hpos]
  have hb := List.getLast?_eq_getLast_of_ne_nil hne
  have hat : (⟨ws, false⟩ : Pline T).at 0 = .ok ws[0] := at_lt (p := ⟨ws, false⟩) hpos
  unfold stitchSlicesTogether
  simp only [hread.1, createFromRemoveRepeat_open, hws, bind, Except.bind, hat, Pline.last, hb, unwrap]
  cases isClosed with
  | false => exact ⟨_, ws, _, _, rfl, rfl, ha, hb, by simp⟩
  | true =>
    simp only [if_true, true_and]
    split
    · rename_i hc
      obtain ⟨v, hv⟩ := removeLast_eq ((⟨ws, false⟩ : Pline T).setIsClosed true) hne
      rw [hv]
      exact ⟨_, ws, _, _, rfl, rfl, ha, hb, by rw [if_pos hc]; rfl⟩
    · rename_i hc
      exact ⟨_, ws, _, _, rfl, rfl, ha, hb, by rw [if_neg hc]⟩

/-! Slices of a square: two that join to the whole square and one in between that stays alone. -/

example : (⟨0, 1, ⟨2, 0, 0⟩, 0, ⟨4, 2⟩, false⟩ : ViewData Rat).Reads ⟨[⟨0, 0, 0⟩, ⟨4, 0, 0⟩, ⟨4, 4, 0⟩, ⟨0, 4, 0⟩], true⟩
      [⟨2, 0, 0⟩, ⟨4, 0, 0⟩, ⟨4, 2, 0⟩] ∧
    (⟨1, 3, ⟨4, 2, 0⟩, 0, ⟨2, 0⟩, false⟩ : ViewData Rat).Reads ⟨[⟨0, 0, 0⟩, ⟨4, 0, 0⟩, ⟨4, 4, 0⟩, ⟨0, 4, 0⟩], true⟩
      [⟨4, 2, 0⟩, ⟨4, 4, 0⟩, ⟨0, 4, 0⟩, ⟨0, 0, 0⟩, ⟨2, 0, 0⟩] ∧
    (⟨2, 1, ⟨1, 4, 0⟩, 0, ⟨0, 1⟩, false⟩ : ViewData Rat).Reads ⟨[⟨0, 0, 0⟩, ⟨4, 0, 0⟩, ⟨4, 4, 0⟩, ⟨0, 4, 0⟩], true⟩
      [⟨1, 4, 0⟩, ⟨0, 4, 0⟩, ⟨0, 1, 0⟩] :=
  ⟨⟨by decide +kernel, by simp⟩, ⟨by decide +kernel, by simp⟩, ⟨by decide +kernel, by simp⟩⟩

example : stitchSlicesTogether Env.plain (⟨[⟨0, 0, 0⟩, ⟨4, 0, 0⟩, ⟨4, 4, 0⟩, ⟨0, 4, 0⟩], true⟩ : Pline Rat)
      [⟨0, 1, ⟨2, 0, 0⟩, 0, ⟨4, 2⟩, false⟩, ⟨2, 1, ⟨1, 4, 0⟩, 0, ⟨0, 1⟩, false⟩, ⟨1, 3, ⟨4, 2, 0⟩, 0, ⟨2, 0⟩, false⟩] true 3
      ⟨none, false, 1 / 100000, 1 / 10000, 1 / 10000⟩
    = .ok [⟨[⟨2, 0, 0⟩, ⟨4, 0, 0⟩, ⟨4, 2, 0⟩, ⟨4, 4, 0⟩, ⟨0, 4, 0⟩, ⟨0, 0, 0⟩], true⟩,
        ⟨[⟨1, 4, 0⟩, ⟨0, 4, 0⟩, ⟨0, 1, 0⟩], false⟩] := by decide +kernel

example : stitchSlicesTogether Env.plain (⟨[⟨0, 0, 0⟩, ⟨4, 0, 0⟩, ⟨4, 4, 0⟩, ⟨0, 4, 0⟩], true⟩ : Pline Rat)
      [⟨0, 1, ⟨2, 0, 0⟩, 0, ⟨4, 2⟩, false⟩] true 3 ⟨none, false, 1 / 100000, 1 / 10000, 1 / 10000⟩
    = .ok [⟨[⟨2, 0, 0⟩, ⟨4, 0, 0⟩, ⟨4, 2, 0⟩], false⟩] := by decide +kernel

/-- Two slices start where the first one ends; the one that starts on the next segment is taken, not the one listed first. -/
example : stitchSlicesTogether Env.plain (⟨[⟨0, 0, 0⟩, ⟨4, 0, 0⟩, ⟨4, 4, 0⟩, ⟨0, 4, 0⟩], true⟩ : Pline Rat)
      [⟨0, 1, ⟨2, 0, 0⟩, 0, ⟨4, 2⟩, false⟩, ⟨3, 0, ⟨4, 2, 0⟩, 0, ⟨0, 1⟩, false⟩, ⟨1, 3, ⟨4, 2, 0⟩, 0, ⟨2, 0⟩, false⟩] true 3
      ⟨none, false, 1 / 100000, 1 / 10000, 1 / 10000⟩
    = .ok [⟨[⟨2, 0, 0⟩, ⟨4, 0, 0⟩, ⟨4, 2, 0⟩, ⟨4, 4, 0⟩, ⟨0, 4, 0⟩, ⟨0, 0, 0⟩], true⟩,
        ⟨[⟨4, 2, 0⟩, ⟨0, 1, 0⟩], false⟩] := by decide +kernel

end Cavc
