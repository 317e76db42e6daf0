import Verif.Lemmas.OffsetSlices

/-! # The loop over the cut points of the raw offset polyline -/

set_option linter.unusedSectionVars false
set_option linter.unusedVariables false

namespace Cavc
open Scalar Pline
variable {T : Type} [Scalar T]

/-! ## Lists -/

theorem neighbours_append {α : Type} (a : List α) (x y : α) (b : List α) :
    neighbours (a ++ x :: y :: b) = neighbours (a ++ [x]) ++ (x, y) :: neighbours (y :: b) := by
  induction a with
  | nil => simp [neighbours]
  | cons c a ih =>
    cases a with
    | nil => simp [neighbours]
    | cons d a =>
      simp only [List.cons_append] at ih ⊢
      simp only [neighbours, List.cons_append, ih]

theorem windows2_map {α β : Type} (f : α → β) (l : List α) : neighbours (l.map f) = (windows2 l).map fun ab => (f ab.1, f ab.2) := by
  unfold windows2
  induction l with
  | nil => rfl
  | cons a l ih =>
    cases l with
    | nil => rfl
    | cons b l =>
      simp only [List.map_cons, neighbours, List.drop_succ_cons, List.drop_zero, List.zip_cons_cons] at ih ⊢
      rw [ih]

theorem mapPairs_cons {α : Type} (e : Nat × List α) (m : List (Nat × List α)) :
    mapPairs (e :: m) = e.2.map (fun v => (e.1, v)) ++ mapPairs m := by
  unfold mapPairs
  rw [List.flatMap_cons]

theorem mapPush_perm {α : Type} (k : Nat) (v : α) (m : List (Nat × List α)) : (mapPairs (mapPush k v m)).Perm ((k, v) :: mapPairs m) := by
  induction m with
  | nil => simp [mapPush, mapPairs]
  | cons e m ih =>
    obtain ⟨k', vs⟩ := e
    unfold mapPush
    split
    · rw [mapPairs_cons]; simp
    · split
      · rename_i h; subst h
        rw [mapPairs_cons, mapPairs_cons]
        simp only [List.map_append, List.map_cons, List.map_nil, List.append_assoc, List.cons_append, List.nil_append]
        exact List.perm_middle
      · rw [mapPairs_cons, mapPairs_cons]
        exact (List.Perm.append_left _ ih).trans List.perm_middle

theorem mapPush_key {α : Type} (k : Nat) (v : α) (m : List (Nat × List α)) : ∀ e ∈ mapPush k v m, e.1 = k ∨ ∃ e' ∈ m, e'.1 = e.1 := by
  induction m with
  | nil => simp [mapPush]
  | cons a m ih =>
    obtain ⟨k', vs⟩ := a
    intro e he
    unfold mapPush at he
    split at he
    · rcases List.mem_cons.mp he with rfl | he
      · exact Or.inl rfl
      · exact Or.inr ⟨e, he, rfl⟩
    · split at he
      · rename_i h; subst h
        rcases List.mem_cons.mp he with rfl | he
        · exact Or.inl rfl
        · exact Or.inr ⟨e, by simp [he], rfl⟩
      · rcases List.mem_cons.mp he with rfl | he
        · exact Or.inr ⟨(k', vs), by simp, rfl⟩
        · rcases ih e he with h | ⟨e', h1, h2⟩
          · exact Or.inl h
          · exact Or.inr ⟨e', by simp [h1], h2⟩

theorem mapPush_sorted {α : Type} (k : Nat) (v : α) (m : List (Nat × List α)) (h : m.Pairwise fun a b => a.1 < b.1) :
    (mapPush k v m).Pairwise fun a b => a.1 < b.1 := by
  induction m with
  | nil => simp [mapPush]
  | cons e m ih =>
    obtain ⟨k', vs⟩ := e
    rw [List.pairwise_cons] at h
    unfold mapPush
    split
    · rename_i hlt
      rw [List.pairwise_cons, List.pairwise_cons]
      refine ⟨?_, h.1, h.2⟩
      intro a ha
      rcases List.mem_cons.mp ha with rfl | ha
      · exact hlt
      · exact Nat.lt_trans hlt (h.1 a ha)
    · split
      · rw [List.pairwise_cons]; exact h
      · rename_i h1 h2
        rw [List.pairwise_cons]
        refine ⟨?_, ih h.2⟩
        intro a ha
        rcases mapPush_key k v m a ha with h3 | ⟨e', h3, h4⟩
        · show k' < a.1; omega
        · rw [← h4]; exact h.1 e' h3

theorem foldl_mapPush_perm {α : Type} (es : List (Nat × α)) (m : List (Nat × List α)) (h : m.Pairwise fun a b => a.1 < b.1) :
    (mapPairs (es.foldl (fun m e => mapPush e.1 e.2 m) m)).Perm (es ++ mapPairs m) ∧
    (es.foldl (fun m e => mapPush e.1 e.2 m) m).Pairwise fun a b => a.1 < b.1 := by
  induction es generalizing m with
  | nil => exact ⟨List.Perm.refl _, h⟩
  | cons e es ih =>
    rw [List.foldl_cons]
    obtain ⟨h1, h2⟩ := ih (mapPush e.1 e.2 m) (mapPush_sorted _ _ _ h)
    refine ⟨h1.trans ?_, h2⟩
    refine (List.Perm.append_left _ (mapPush_perm e.1 e.2 m)).trans ?_
    rw [List.cons_append]
    exact List.perm_middle

theorem mapPairs_perm {α : Type} {m m' : List (Nat × List α)} (h : List.Forall₂ (fun e e' => e'.1 = e.1 ∧ e'.2.Perm e.2) m m') :
    (mapPairs m').Perm (mapPairs m) := by
  induction h with
  | nil => exact List.Perm.refl _
  | cons h _ ih =>
    rw [mapPairs_cons, mapPairs_cons, h.1]
    exact (h.2.map _).append ih

theorem pairwise_keys {α : Type} {m m' : List (Nat × List α)} (h : List.Forall₂ (fun e e' => e'.1 = e.1 ∧ e'.2.Perm e.2) m m')
    (hm : m.Pairwise fun a b => a.1 < b.1) : m'.Pairwise fun a b => a.1 < b.1 := by
  induction h with
  | nil => exact List.Pairwise.nil
  | cons h hs ih =>
    rw [List.pairwise_cons] at hm ⊢
    refine ⟨?_, ih hm.2⟩
    intro b hb
    obtain ⟨a, ha, h1, -⟩ := forall2_mem_right hs hb
    rw [h.1, h1]
    exact hm.1 a ha

/-! ## The lookup -/

/-- what is needed of the lookup table of cut points -/
structure CutTable (raw : Pline T) (es : List (Nat × V2 T)) (lookup : List (Nat × List (V2 T))) : Prop where
  order : CutOrder raw es (mapPairs lookup)
  keys : lookup.Pairwise fun a b => a.1 < b.1
  nonempty : ∀ e ∈ lookup, e.2 ≠ []

theorem buildIntrLookup_spec (env : Env T) (henv : env.Lawful) (raw : Pline T) (es : List (Nat × V2 T))
    (hes : ∀ e ∈ es, e.1 < raw.verts.length) : ∃ lookup, buildIntrLookup env raw es = .ok lookup ∧ CutTable raw es lookup := by
  obtain ⟨hp, hk⟩ := foldl_mapPush_perm es ([] : List (Nat × List (V2 T))) List.Pairwise.nil
  have hne := (foldl_mapPush es ([] : List (Nat × List (V2 T)))).2 (by simp)
  unfold buildIntrLookup
  generalize es.foldl (fun m e => mapPush e.1 e.2 m) [] = m at hp hk hne
  have hlt : ∀ e ∈ m, e.1 < raw.verts.length := by
    intro e he
    obtain ⟨v, hv⟩ := List.exists_mem_of_ne_nil _ (hne e he)
    have : (e.1, v) ∈ es := by
      have := hp.mem_iff.mp (mem_mapPairs.mpr ⟨e, he, rfl, hv⟩ : (e.1, v) ∈ mapPairs m)
      simpa [mapPairs] using this
    exact hes _ this
  obtain ⟨lookup, hl, hrel⟩ := mapM_rel (f := sortIntrList env raw) (l := m)
    (R := fun e e' => (e'.1 = e.1 ∧ e'.2.Perm e.2) ∧ (TotalCmp T → ∀ v, raw.verts[e'.1]? = some v →
      e'.2.Pairwise fun a b => totalCmp (distSquared a v.pos) (distSquared b v.pos) ≠ .gt)) (by
    intro e he
    unfold sortIntrList
    simp only [bind, Except.bind, at_lt (hlt e he)]
    refine ⟨_, rfl, ⟨rfl, henv.sort_perm _ _⟩, ?_⟩
    intro hc v hv
    have : v = raw.verts[e.1]'(hlt e he) := by
      have := (List.getElem?_eq_getElem (hlt e he)).symm.trans hv
      simpa using this.symm
    subst this
    exact henv.sort_sorted _ _ (fun a b => hc.swap _ _) (fun a b c => hc.trans _ _ _))
  have hrel' := hrel.imp fun _ _ h => h.1
  refine ⟨lookup, hl, ⟨?_, ?_, ?_⟩, pairwise_keys hrel' hk, ?_⟩
  · have := (mapPairs_perm hrel').trans hp
    simpa [mapPairs] using this
  · unfold mapPairs
    rw [List.pairwise_flatMap]
    refine ⟨?_, (pairwise_keys hrel' hk).imp ?_⟩
    · intro a _
      rw [List.pairwise_map]
      exact List.pairwise_of_forall fun _ _ => le_rfl
    · intro a b hab x hx y hy
      rw [List.mem_map] at hx hy
      obtain ⟨_, -, rfl⟩ := hx
      obtain ⟨_, -, rfl⟩ := hy
      exact Nat.le_of_lt hab
  · intro hc
    unfold mapPairs
    rw [List.pairwise_flatMap]
    refine ⟨?_, (pairwise_keys hrel' hk).imp ?_⟩
    · intro a ha
      obtain ⟨e, he, -, h⟩ := forall2_mem_right hrel ha
      rw [List.pairwise_map]
      cases hv : raw.verts[a.1]? with
      | none => exact List.pairwise_of_forall fun _ _ _ v h => by simp only at h; rw [hv] at h; cases h
      | some v =>
        refine (h hc v hv).imp ?_
        intro x y hxy _ w hw
        simp only at hw
        rw [hv] at hw; cases hw
        exact hxy
    · intro a b hab x hx y hy
      rw [List.mem_map] at hx hy
      obtain ⟨_, -, rfl⟩ := hx
      obtain ⟨_, -, rfl⟩ := hy
      intro h
      simp only at h
      omega
  · intro e he
    obtain ⟨e', he', ⟨h5, h6⟩, -⟩ := forall2_mem_right hrel he
    intro h0
    rw [h0] at h6
    exact hne e' he' h6.symm.eq_nil

/-! ## Slices of gaps -/

theorem KeptSlices.append {p raw : Pline T} {offset eps tol : T} {gs gs' : List ((Nat × V2 T) × (Nat × V2 T))}
    {ss ss' : List (ViewData T)} (h : KeptSlices p raw offset eps tol gs ss) (h' : KeptSlices p raw offset eps tol gs' ss') :
    KeptSlices p raw offset eps tol (gs ++ gs') (ss ++ ss') := by
  induction h with
  | nil => exact h'
  | empty a b gs ss h1 _ ih => exact .empty a b _ _ h1 ih
  | dropped a b s gs ss h1 h2 _ ih => exact .dropped a b s _ _ h1 h2 ih
  | kept a b s gs ss h1 h2 _ ih => exact .kept a b s _ _ h1 h2 ih

/-- the tests of the slices -/
def Tests (p : Pline T) (offset eps tol : T) (valid : V2 T → M Bool) (intersects : Vertex T → Vertex T → M Bool) : Prop :=
  TestsAs valid intersects (PointClear p offset eps tol) (SegClear p eps)

theorem tests_ok (p : Pline T) (idx : Index T) (hidx : idx.Serves p) (offset eps tol : T) :
    Tests p offset eps tol (fun pt => pointValidForOffset p offset idx pt eps tol) (intersectsOriginal p idx eps) :=
  ⟨fun pt => pointValid_spec p offset idx hidx pt eps tol, fun v1 v2 => intersectsOriginal_spec p idx hidx eps v1 v2⟩

theorem gap_ok {p raw : Pline T} {offset eps tol : T} {valid : V2 T → M Bool} {intersects : Vertex T → Vertex T → M Bool}
    (ht : Tests p offset eps tol valid intersects) (a b : Nat × V2 T) (ha : a.1 < raw.verts.length) (hb : b.1 < raw.verts.length) :
    ∃ o ss, ViewData.fromSlicePoints raw a.2 a.1 b.2 b.1 eps = .ok o ∧ sliceIfValid raw valid intersects o = .ok ss ∧
      KeptSlices p raw offset eps tol [(a, b)] ss := by
  obtain ⟨r, hr, -, hsome⟩ := C21_slice raw a.1 b.1 ha hb a.2 b.2 eps
  cases r with
  | none => exact ⟨none, [], hr, rfl, .empty a b _ _ hr .nil⟩
  | some d =>
    obtain ⟨q, base, hin, hinv, -⟩ := hsome d rfl
    obtain ⟨v, hv, hiff⟩ := sliceIsValid_spec ht raw d hin hinv
    have hiff' : v = true ↔ SliceClear p raw offset eps tol d := by
      rw [hiff]
      constructor
      · intro h; exact ⟨h⟩
      · intro h; exact h.clear
    refine ⟨some d, if v then [d] else [], hr, ?_, ?_⟩
    · unfold sliceIfValid
      simp only [hv, bind, Except.bind]
    · cases v with
      | true => exact .kept a b d _ _ hr (hiff'.mp rfl) .nil
      | false => exact .dropped a b d _ _ hr (fun h => by simpa using hiff'.mpr h) .nil

theorem kept_flatten {p raw : Pline T} {offset eps tol : T} {l : List ((Nat × V2 T) × (Nat × V2 T))} {sss : List (List (ViewData T))}
    (h : List.Forall₂ (fun g ss => KeptSlices p raw offset eps tol [g] ss) l sss) : KeptSlices p raw offset eps tol l sss.flatten := by
  induction h with
  | nil => exact .nil
  | cons h _ ih => exact h.append ih

theorem sameSeg_ok {p raw : Pline T} {offset eps tol : T} {valid : V2 T → M Bool} {intersects : Vertex T → Vertex T → M Bool}
    (ht : Tests p offset eps tol valid intersects) (i : Nat) (hi : i < raw.verts.length) (l : List (V2 T)) :
    ∃ ss, sameSegOffsetSlices raw valid intersects eps i l = .ok ss ∧
      KeptSlices p raw offset eps tol (neighbours (l.map fun v => (i, v))) ss := by
  unfold sameSegOffsetSlices
  obtain ⟨sss, hs, hrel⟩ := mapM_rel (f := fun (ab : V2 T × V2 T) => (do
      let s ← ViewData.fromSlicePoints raw ab.1 i ab.2 i eps
      sliceIfValid raw valid intersects s : M (List (ViewData T)))) (l := windows2 l)
    (R := fun ab ss => KeptSlices p raw offset eps tol [((i, ab.1), (i, ab.2))] ss) (by
      intro ab _
      obtain ⟨o, ss, h1, h2, h3⟩ := gap_ok ht (i, ab.1) (i, ab.2) hi hi
      refine ⟨ss, ?_, h3⟩
      simp only at h1
      simp only [h1, bind, Except.bind, h2])
  rw [hs]
  refine ⟨sss.flatten, rfl, ?_⟩
  rw [windows2_map]
  apply kept_flatten
  rw [List.forall₂_map_left_iff]
  exact hrel

theorem sliceTo_ok {p raw : Pline T} {offset eps tol : T} {valid : V2 T → M Bool} {intersects : Vertex T → Vertex T → M Bool}
    (ht : Tests p offset eps tol valid intersects) (a : Nat × V2 T) (ha : a.1 < raw.verts.length) (found : Nat × List (V2 T))
    (hf : found.1 < raw.verts.length) (f : V2 T) (hh : found.2.head? = some f) :
    ∃ ss, offsetSliceTo raw valid intersects eps a.2 a.1 found = .ok (ss, false) ∧
      KeptSlices p raw offset eps tol [(a, (found.1, f))] ss := by
  unfold offsetSliceTo
  cases hl : found.2 with
  | nil => rw [hl] at hh; simp at hh
  | cons g t =>
    rw [hl] at hh
    have : g = f := by simpa using hh
    subst this
    obtain ⟨o, ss, h1, h2, h3⟩ := gap_ok ht a (found.1, g) ha hf
    simp only at h1
    simp only [h1, bind, Except.bind, h2]
    exact ⟨ss, rfl, h3⟩

theorem last_split {α : Type} {l : List α} (h : l ≠ []) : ∃ a x, l = a ++ [x] ∧ l.getLast? = some x :=
  ⟨l.dropLast, l.getLast h, (List.dropLast_append_getLast h).symm, List.getLast?_eq_getLast_of_ne_nil h⟩

theorem find_append_none {α : Type} {f : α → Bool} {a b : List α} (h : ∀ x ∈ a, f x = false) : (a ++ b).find? f = b.find? f := by
  rw [List.find?_append]
  have : a.find? f = none := by
    rw [List.find?_eq_none]
    intro x hx
    simp [h x hx]
  rw [this]; rfl

/-- The loop over a rest of the table.  `tm` is where the last slice ends. -/
theorem offsetSliceLoop_ok {p raw : Pline T} {offset eps tol : T} {valid : V2 T → M Bool} {intersects : Vertex T → Vertex T → M Bool}
    (ht : Tests p offset eps tol valid intersects) (lookup : List (Nat × List (V2 T))) (isClosed : Bool)
    (hlt : ∀ e ∈ lookup, e.1 < raw.verts.length) (hlt' : isClosed = false → ∀ e ∈ lookup, e.1 + 1 < raw.verts.length)
    (hkeys : lookup.Pairwise fun a b => a.1 < b.1) (hne : ∀ e ∈ lookup, e.2 ≠ []) (tm : Nat × V2 T)
    (htm : if isClosed then (mapPairs lookup).head? = some tm else
      tm.1 = raw.verts.length - 1 ∧ ∃ l, raw.verts.getLast? = some l ∧ tm.2 = l.pos) :
    ∀ (pre suf : List (Nat × List (V2 T))), lookup = pre ++ suf → suf ≠ [] →
      ∃ ss, offsetSliceLoop raw lookup valid intersects eps isClosed suf = .ok ss ∧
        KeptSlices p raw offset eps tol (neighbours (mapPairs suf ++ [tm])) ss := by
  intro pre suf
  induction suf generalizing pre with
  | nil => intro _ h; exact absurd rfl h
  | cons e rest ih =>
    intro hlook _
    have he : e ∈ lookup := by rw [hlook]; simp
    have hpre : ∀ x ∈ pre, x.1 < e.1 := by
      intro x hx
      rw [hlook, List.pairwise_append] at hkeys
      exact hkeys.2.2 x hx e (by simp)
    have hrest : ∀ x ∈ rest, e.1 < x.1 := by
      intro x hx
      rw [hlook, List.pairwise_append, List.pairwise_cons] at hkeys
      exact hkeys.2.1.1 x hx
    obtain ⟨same, hsame, hks⟩ := sameSeg_ok ht e.1 (hlt e he) e.2
    obtain ⟨a, x, hax, hlast⟩ := last_split (hne e he)
    unfold offsetSliceLoop
    simp only [hsame, bind, Except.bind]
    have hpairs : mapPairs (e :: rest) = a.map (fun v => (e.1, v)) ++ (e.1, x) :: mapPairs rest := by
      rw [mapPairs_cons, hax]; simp
    have hks' : KeptSlices p raw offset eps tol (neighbours (a.map (fun v => (e.1, v)) ++ [(e.1, x)])) same := by
      rw [hax] at hks; simpa using hks
    rcases rest with _ | ⟨e', rest⟩
    · -- the last entry
      have hgoal : neighbours (mapPairs [e] ++ [tm]) = neighbours (a.map (fun v => (e.1, v)) ++ [(e.1, x)]) ++ [((e.1, x), tm)] := by
        rw [hpairs]
        simp only [mapPairs, List.flatMap_nil, List.append_assoc, List.cons_append, List.nil_append]
        rw [neighbours_append]; rfl
      rw [hgoal]
      cases hc : isClosed with
      | false =>
        have hnw : raw.nextWrap e.1 = e.1 + 1 := by
          rw [nextWrap_eq raw (hlt e he), Nat.mod_eq_of_lt (hlt' hc e he)]
        have hfind : lookup.find? (fun y => decide (y.1 ≥ e.1 + 1)) = none := by
          rw [List.find?_eq_none]
          intro y hy
          rw [hlook] at hy
          rcases List.mem_append.mp hy with hy | hy
          · have := hpre y hy
            simp; omega
          · have : y = e := by simpa using hy
            simp [this]
        rw [hc] at htm
        simp only [Bool.false_eq_true, if_false] at htm
        obtain ⟨htm1, l, hl, htm2⟩ := htm
        have hpos : 0 < raw.verts.length := by have := hlt e he; omega
        obtain ⟨o, ss, h1, h2, h3⟩ := gap_ok ht (e.1, x) tm (hlt e he) (by rw [htm1]; omega)
        simp only [htm1, htm2] at h1
        have hnext : nextOffsetSlice raw lookup valid intersects eps false e.1 e.2 = .ok (ss, true) := by
          unfold nextOffsetSlice
          simp only [hnw, hlast, unwrap, bind, Except.bind, hfind, Bool.false_eq_true, if_false, Pline.last, hl]
          simp only [vertexCount, h1, h2]
        simp only [hnext, if_true]
        exact ⟨_, rfl, hks'.append h3⟩
      | true =>
        rw [hc, if_pos rfl] at htm
        obtain ⟨e0, lrest, hl0⟩ : ∃ e0 lrest, lookup = e0 :: lrest := by
          cases hh : lookup with
          | nil => rw [hh] at he; simp at he
          | cons e0 lrest => exact ⟨e0, lrest, rfl⟩
        have he0 : e0 ∈ lookup := by rw [hl0]; simp
        obtain ⟨f, hf⟩ : ∃ f, e0.2.head? = some f := by
          cases hh : e0.2 with
          | nil => exact absurd hh (hne e0 he0)
          | cons f t => exact ⟨f, rfl⟩
        have htm' : tm = (e0.1, f) := by
          rw [hl0, mapPairs_cons] at htm
          cases hh : e0.2 with
          | nil => exact absurd hh (hne e0 he0)
          | cons g t =>
            rw [hh] at htm hf
            simp only [List.map_cons, List.cons_append, List.head?_cons, Option.some.injEq] at htm hf
            rw [← htm, hf]
        have hle : ∀ y ∈ lookup, y.1 ≤ e.1 := by
          intro y hy
          rw [hlook] at hy
          rcases List.mem_append.mp hy with hy | hy
          · exact Nat.le_of_lt (hpre y hy)
          · have : y = e := by simpa using hy
            rw [this]
        obtain ⟨ss, h1, h2⟩ := sliceTo_ok ht (e.1, x) (hlt e he) e0 (hlt e0 he0) f hf
        have hnext : nextOffsetSlice raw lookup valid intersects eps true e.1 e.2 = .ok (ss, false) := by
          unfold nextOffsetSlice
          simp only [hlast, unwrap, bind, Except.bind]
          by_cases hw : e.1 + 1 = raw.verts.length
          · have hnw : raw.nextWrap e.1 = 0 := by
              rw [nextWrap_eq raw (hlt e he), hw, Nat.mod_self]
            have hfind : lookup.find? (fun y => decide (y.1 ≥ 0)) = some e0 := by
              rw [hl0]; simp
            simp only [hnw, hfind]
            exact h1
          · have hnw : raw.nextWrap e.1 = e.1 + 1 := by
              rw [nextWrap_eq raw (hlt e he), Nat.mod_eq_of_lt (by have := hlt e he; omega)]
            have hfind : lookup.find? (fun y => decide (y.1 ≥ e.1 + 1)) = none := by
              rw [List.find?_eq_none]
              intro y hy
              have := hle y hy
              simp; omega
            have hfind' : lookup.find? (fun y => decide (y.1 ≤ e.1)) = some e0 := by
              rw [hl0]
              have := hle e0 he0
              simp [this]
            simp only [hnw, hfind, if_true, hfind']
            exact h1
        simp only [hnext, Bool.false_eq_true, if_false, offsetSliceLoop]
        refine ⟨_, rfl, ?_⟩
        rw [List.append_nil, htm']
        exact hks'.append h2
    · -- there is a next entry
      have he' : e' ∈ lookup := by rw [hlook]; simp
      have hlt2 : e.1 < e'.1 := hrest e' (by simp)
      obtain ⟨f, t', hf⟩ : ∃ f t', e'.2 = f :: t' := by
        cases hh : e'.2 with
        | nil => exact absurd hh (hne e' he')
        | cons f t => exact ⟨f, t, rfl⟩
      have hnw : raw.nextWrap e.1 = e.1 + 1 := by
        rw [nextWrap_eq raw (hlt e he), Nat.mod_eq_of_lt (by have := hlt e' he'; omega)]
      have hfind : lookup.find? (fun y => decide (y.1 ≥ e.1 + 1)) = some e' := by
        rw [hlook, show pre ++ e :: e' :: rest = (pre ++ [e]) ++ (e' :: rest) by simp, find_append_none]
        · rw [List.find?_cons_of_pos (by simp; omega)]
        · intro y hy
          rcases List.mem_append.mp hy with hy | hy
          · have := hpre y hy
            simp; omega
          · have : y = e := by simpa using hy
            simp [this]
      obtain ⟨ss, h1, h2⟩ := sliceTo_ok ht (e.1, x) (hlt e he) e' (hlt e' he') f (by rw [hf]; rfl)
      have hnext : nextOffsetSlice raw lookup valid intersects eps isClosed e.1 e.2 = .ok (ss, false) := by
        unfold nextOffsetSlice
        simp only [hnw, hlast, unwrap, bind, Except.bind, hfind]
        exact h1
      obtain ⟨more, hm, hkm⟩ := ih (pre ++ [e]) (by rw [hlook]; simp) (by simp)
      simp only [hnext, Bool.false_eq_true, if_false, hm]
      refine ⟨_, rfl, ?_⟩
      have hgoal : neighbours (mapPairs (e :: e' :: rest) ++ [tm]) = (neighbours (a.map (fun v => (e.1, v)) ++ [(e.1, x)]) ++
          [((e.1, x), (e'.1, f))]) ++ neighbours (mapPairs (e' :: rest) ++ [tm]) := by
        rw [hpairs, mapPairs_cons e' rest, hf]
        simp only [List.map_cons, List.append_assoc, List.cons_append, List.nil_append]
        rw [neighbours_append]
      rw [hgoal]
      exact (hks'.append h2).append hkm

end Cavc
