import Verif.Lemmas.CutSlices

/-! # The table of cuts built from the intersects -/

namespace Cavc
open Real RealScalar Pline

theorem FarApart.fuzzy {eps : ℝ} {a b : V2 ℝ} (h : FarApart eps a b) : a.fuzzyEqEps b eps = false := by
  rw [Bool.eq_false_iff, ne_eq, V2.fuzzyEqEps_iff]
  rcases h with h | h
  · intro h'; linarith [h'.1]
  · intro h'; linarith [h'.2]

theorem mapPush_map {α β : Type} (f : Nat → α → β) (k : Nat) (v : α) : ∀ m : List (Nat × List α),
    mapPush k (f k v) (m.map fun e => (e.1, e.2.map (f e.1))) = (mapPush k v m).map fun e => (e.1, e.2.map (f e.1))
  | [] => rfl
  | (k', vs) :: m => by
    simp only [List.map_cons, mapPush]
    split_ifs with h1 h2
    · rfl
    · subst h2; simp
    · rw [mapPush_map f k v m]; rfl

theorem foldl_push_map {α β : Type} (f : Nat → α → β) : ∀ (E : List (Nat × α)) (m : List (Nat × List α)),
    (E.map fun c => (c.1, f c.1 c.2)).foldl (fun m e => mapPush e.1 e.2 m) (m.map fun e => (e.1, e.2.map (f e.1))) =
      (E.foldl (fun m e => mapPush e.1 e.2 m) m).map fun e => (e.1, e.2.map (f e.1))
  | [], m => rfl
  | e :: E, m => by
    simp only [List.map_cons, List.foldl_cons]
    rw [mapPush_map, foldl_push_map f E]

theorem mapPush_perm {α : Type} (k : Nat) (v : α) : ∀ m : List (Nat × List α), (mapPairs (mapPush k v m)).Perm ((k, v) :: mapPairs m)
  | [] => by simp [mapPush, mapPairs]
  | (k', vs) :: m => by
    unfold mapPush
    split_ifs with h1 h2
    · simp [mapPairs]
    · subst h2
      simp only [mapPairs, List.flatMap_cons, List.map_append, List.map_cons, List.map_nil, List.append_assoc]
      exact List.perm_middle
    · have := mapPush_perm k v m
      simp only [mapPairs, List.flatMap_cons] at *
      refine (List.Perm.append_left _ this).trans ?_
      exact List.perm_middle

theorem mapPush_keys {α : Type} (k : Nat) (v : α) : ∀ m : List (Nat × List α), (m.Pairwise fun a b => a.1 < b.1) →
    ((mapPush k v m).Pairwise fun a b => a.1 < b.1) ∧ ∀ e ∈ mapPush k v m, e.1 = k ∨ ∃ e' ∈ m, e'.1 = e.1
  | [], _ => by simp [mapPush]
  | (k', vs) :: m, h => by
    rw [List.pairwise_cons] at h
    unfold mapPush
    split_ifs with h1 h2
    · refine ⟨List.pairwise_cons.mpr ⟨fun e he => ?_, List.pairwise_cons.mpr h⟩, fun e he => ?_⟩
      · rcases List.mem_cons.mp he with rfl | he
        · exact h1
        · have := h.1 e he; dsimp only at *; omega
      · rcases List.mem_cons.mp he with rfl | he
        · exact Or.inl rfl
        · exact Or.inr ⟨e, he, rfl⟩
    · refine ⟨List.pairwise_cons.mpr ⟨fun e he => h.1 e he, h.2⟩, fun e he => ?_⟩
      rcases List.mem_cons.mp he with rfl | he
      · exact Or.inl h2.symm
      · exact Or.inr ⟨e, by simp [he], rfl⟩
    · obtain ⟨q1, q2⟩ := mapPush_keys k v m h.2
      refine ⟨List.pairwise_cons.mpr ⟨fun e he => ?_, q1⟩, fun e he => ?_⟩
      · rcases q2 e he with h3 | ⟨e', he', h3⟩
        · dsimp only; omega
        · rw [← h3]; exact h.1 e' he'
      · rcases List.mem_cons.mp he with rfl | he
        · exact Or.inr ⟨(k', vs), by simp, rfl⟩
        · rcases q2 e he with h3 | ⟨e', he', h3⟩
          · exact Or.inl h3
          · exact Or.inr ⟨e', by simp [he'], h3⟩

theorem foldl_push_perm {α : Type} : ∀ (E : List (Nat × α)) (m : List (Nat × List α)),
    (mapPairs (E.foldl (fun m e => mapPush e.1 e.2 m) m)).Perm (E ++ mapPairs m)
  | [], m => by simp
  | e :: E, m => by
    rw [List.foldl_cons]
    refine (foldl_push_perm E _).trans ?_
    refine (List.Perm.append_left _ (mapPush_perm e.1 e.2 m)).trans ?_
    exact List.perm_middle

theorem foldl_push_keys {α : Type} : ∀ (E : List (Nat × α)) (m : List (Nat × List α)), (m.Pairwise fun a b => a.1 < b.1) →
    ((E.foldl (fun m e => mapPush e.1 e.2 m) m).Pairwise fun a b => a.1 < b.1)
  | [], m, h => h
  | e :: E, m, h => by
    rw [List.foldl_cons]
    exact foldl_push_keys E _ (mapPush_keys e.1 e.2 m h).1

theorem perm_of_map {α β : Type} (f : α → β) {l l' : List β} (h : l.Perm l') : ∀ ts' : List α, l' = ts'.map f → ∃ ts : List α, ts.Perm ts' ∧ l = ts.map f := by
  induction h with
  | nil => intro ts' e; exact ⟨[], by cases ts' <;> simp_all, rfl⟩
  | cons x _ ih =>
    intro ts' e
    cases ts' with
    | nil => simp at e
    | cons t ts' =>
      simp only [List.map_cons, List.cons.injEq] at e
      obtain ⟨ts, h1, h2⟩ := ih ts' e.2
      exact ⟨t :: ts, h1.cons t, by simp [e.1, h2]⟩
  | swap x y l =>
    intro ts' e
    match ts', e with
    | a :: b :: r, e =>
      simp only [List.map_cons, List.cons.injEq] at e
      exact ⟨b :: a :: r, List.Perm.swap a b r, by simp [e.1, e.2.1, e.2.2]⟩
  | trans _ _ ih1 ih2 =>
    intro ts' e
    obtain ⟨ts, h1, h2⟩ := ih2 ts' e
    obtain ⟨us, h3, h4⟩ := ih1 ts h2
    exact ⟨us, h3.trans h1, h4⟩

theorem pathSegs_mem {α : Type} : ∀ {l : List α} {x : α × α}, x ∈ pathSegs l → x.1 ∈ l ∧ x.2 ∈ l
  | [], x, h => by simp [pathSegs] at h
  | [_], x, h => by simp [pathSegs] at h
  | a :: b :: l, x, h => by
    simp only [pathSegs, List.mem_cons] at h
    rcases h with rfl | h
    · simp
    · have := pathSegs_mem h
      exact ⟨List.mem_cons_of_mem _ this.1, List.mem_cons_of_mem _ this.2⟩

theorem pathSegs_rel {α : Type} {R : α → α → Prop} : ∀ {l : List α}, l.Pairwise R → ∀ x ∈ pathSegs l, R x.1 x.2
  | [], _, x, h => by simp [pathSegs] at h
  | [_], _, x, h => by simp [pathSegs] at h
  | a :: b :: l, hp, x, h => by
    rw [List.pairwise_cons] at hp
    simp only [pathSegs, List.mem_cons] at h
    rcases h with rfl | h
    · exact hp.1 b (by simp)
    · exact pathSegs_rel hp.2 x h

theorem real_totalCmp (a b : ℝ) : Scalar.totalCmp a b = if a < b then Ordering.lt else if a = b then .eq else .gt := by
  simp only [Scalar.totalCmp]

theorem real_cmp_gt (a b : ℝ) : Scalar.totalCmp a b ≠ .gt ↔ a ≤ b := by
  rw [real_totalCmp]
  split_ifs with h1 h2
  · simp [h1.le]
  · simp [h2]
  · simp only [ne_eq, not_true_eq_false, false_iff, not_le]
    exact lt_of_le_of_ne (not_lt.mp h1) (Ne.symm h2)

theorem real_cmp_swap (a b : ℝ) : Scalar.totalCmp a b = (Scalar.totalCmp b a).swap := by
  rw [real_totalCmp, real_totalCmp]
  rcases lt_trichotomy a b with h | h | h
  · simp [h, not_lt.mpr h.le, h.ne']
  · simp [h]
  · simp [h, not_lt.mpr h.le, h.ne']

theorem distSquared_comm' (a b : V2 ℝ) : distSquared a b = distSquared b a := by
  rw [distSquared_eq, distSquared_eq]; ring

/-- sorting keeps the keys and the cuts -/
def SortedOf (e c : Nat × List ℝ) : Prop := c.1 = e.1 ∧ c.2.Perm e.2 ∧ c.2.Pairwise fun a b => a < b

theorem sorted_keys {M CL : List (Nat × List ℝ)} (h : List.Forall₂ SortedOf M CL) : CL.map Prod.fst = M.map Prod.fst := by
  induction h with
  | nil => rfl
  | cons h _ ih => simp [h.1, ih]

theorem sorted_perm {M CL : List (Nat × List ℝ)} (h : List.Forall₂ SortedOf M CL) : (cutsOf CL).Perm (cutsOf M) := by
  unfold cutsOf
  induction h with
  | nil => exact List.Perm.refl _
  | cons h _ ih =>
    simp only [List.flatMap_cons]
    rw [h.1]
    exact (h.2.1.map _).append ih

/-- The table the code builds for good cuts. -/
theorem table_of {env : Env ℝ} (henv : env.Lawful) {p : Pline ℝ} {eps : ℝ} (he : 0 < eps) (hf : FullLoop p eps) (b : BoolProc ℝ) (us : Bool) {E : List Cut}
    (hov : b.overlappingSlices = [])
    (hE : b.intersects.map (fun i => (if us then i.startIndex2 else i.startIndex1, i.point)) = E.map fun c => (c.1, curveAt p c.1 c.2))
    (hg : GoodCuts p eps E) :
    ∃ CL, sliceLookup env p b us eps = .ok (lookOf p CL) ∧ Table p eps CL ∧ (cutsOf CL).Perm E := by
  have hn : 0 < p.verts.length := by have := hf.two; omega
  have hent : sliceEntries p b us eps = .ok (E.map fun c => (c.1, (⟨curveAt p c.1 c.2, false⟩ : SlicePoint ℝ))) := by
    unfold sliceEntries
    rw [hov]
    simp only [List.mapM_nil, bind, Except.bind, pure, Except.pure, List.flatten_nil, List.append_nil]
    have := congrArg (List.map fun x : Nat × V2 ℝ => (x.1, (⟨x.2, false⟩ : SlicePoint ℝ))) hE
    rw [List.map_map, List.map_map] at this
    exact congrArg Except.ok this
  set M := E.foldl (fun m e => mapPush e.1 e.2 m) ([] : List (Nat × List ℝ)) with hM
  have hpm := foldl_push_map (fun k t => (⟨curveAt p k t, false⟩ : SlicePoint ℝ)) E []
  simp only [List.map_nil] at hpm
  have hperm : (mapPairs M).Perm E := by simpa [mapPairs] using foldl_push_perm E []
  have hkeys : M.Pairwise fun a b => a.1 < b.1 := foldl_push_keys E [] List.Pairwise.nil
  have hne : ∀ e ∈ M, e.2 ≠ [] := (foldl_mapPush E []).2 (by simp)
  have hmemE : ∀ e ∈ M, ∀ t ∈ e.2, (e.1, t) ∈ E := by
    intro e he t ht
    exact hperm.mem_iff.mp (mem_mapPairs.mpr ⟨e, he, rfl, ht⟩)
  have hnd : ∀ e ∈ M, e.2.Nodup := by
    intro e hem
    have h1 : (mapPairs M).Nodup := hperm.nodup_iff.mpr hg.nodup
    unfold mapPairs at h1
    rw [List.nodup_flatMap] at h1
    exact List.Nodup.of_map _ (h1.1 e hem)
  -- sorting
  have hsort : ∀ e ∈ M, ∃ ts : List ℝ, ts.Perm e.2 ∧ (ts.Pairwise fun a b => a < b) ∧
      sortSlicePoints env p (e.1, e.2.map fun t => ⟨curveAt p e.1 t, false⟩) = .ok (e.1, ts.map fun t => ⟨curveAt p e.1 t, false⟩) := by
    intro e hem
    have hlt : e.1 < p.verts.length := by
      obtain ⟨t, ht⟩ := List.exists_mem_of_ne_nil _ (hne e hem)
      exact hg.range _ (hmemE e hem t ht)
    unfold sortSlicePoints
    simp only [bind, Except.bind]
    rw [at_vtx hlt]
    simp only
    set cmp : SlicePoint ℝ → SlicePoint ℝ → Ordering := fun a b => Scalar.totalCmp (distSquared a.pos (vtx p e.1).pos) (distSquared b.pos (vtx p e.1).pos) with hcmp
    obtain ⟨ts, h1, h2⟩ := perm_of_map (fun t => (⟨curveAt p e.1 t, false⟩ : SlicePoint ℝ))
      (henv.sort_perm cmp (e.2.map fun t => ⟨curveAt p e.1 t, false⟩)) e.2 rfl
    refine ⟨ts, h1, ?_, by rw [h2]⟩
    have hs := henv.sort_sorted cmp (e.2.map fun t => ⟨curveAt p e.1 t, false⟩) (fun a b => real_cmp_swap _ _) (fun a b c h1 h2 => by
      rw [hcmp] at *
      simp only [real_cmp_gt] at *
      exact h1.trans h2)
    rw [h2, List.pairwise_map] at hs
    have hnd' : ts.Nodup := h1.nodup_iff.mpr (hnd e hem)
    refine List.Pairwise.imp_of_mem ?_ (hs.and hnd')
    intro a c ha hc ⟨hle, hac⟩
    rw [hcmp] at hle
    simp only [real_cmp_gt] at hle
    by_contra hnl
    have hca : c < a := lt_of_le_of_ne (not_lt.mp hnl) (Ne.symm hac)
    have hca0 := hg.ok _ (hmemE e hem c (h1.mem_iff.mp hc))
    have haa := hg.ok _ (hmemE e hem a (h1.mem_iff.mp ha))
    have := dist_from_start (vtx p e.1) (vtx p (e.1 + 1)) ((hf.full e.1).proper he) (fuzzy_ne he (hf.full e.1).apart) hca0.pos.le hca haa.lt.le
    rw [curveAt_vtx hn, curveAt_vtx hn, distSquared_comm', distSquared_comm' (segCurve _ _ c)] at hle
    linarith
  -- the sorted table
  have hall : ∀ L : List (Nat × List ℝ), (∀ e ∈ L, e ∈ M) → ∃ CL, (L.map fun e => (e.1, e.2.map fun t => (⟨curveAt p e.1 t, false⟩ : SlicePoint ℝ))).mapM (sortSlicePoints env p) =
      .ok (lookOf p CL) ∧ List.Forall₂ SortedOf L CL := by
    intro L
    induction L with
    | nil => intro _; exact ⟨[], rfl, List.Forall₂.nil⟩
    | cons e L ih =>
      intro h
      obtain ⟨CL, h1, h2⟩ := ih fun x hx => h x (by simp [hx])
      obtain ⟨ts, h3, h4, h5⟩ := hsort e (h e (by simp))
      refine ⟨(e.1, ts) :: CL, ?_, List.Forall₂.cons ⟨rfl, h3, h4⟩ h2⟩
      rw [List.map_cons, List.mapM_cons, h5, h1]
      rfl
  obtain ⟨CL, h1, h2⟩ := hall M fun e he => he
  have hmemC : ∀ c ∈ CL, ∀ t ∈ c.2, (c.1, t) ∈ E := by
    intro c hc t ht
    obtain ⟨e, hem, h3, h4, -⟩ := forall2_mem_right h2 hc
    rw [h3]
    exact hmemE e hem t (h4.mem_iff.mp ht)
  have hneC : ∀ c ∈ CL, c.2 ≠ [] := by
    intro c hc h0
    obtain ⟨e, hem, h3, h4, -⟩ := forall2_mem_right h2 hc
    rw [h0] at h4
    exact hne e hem h4.symm.eq_nil
  refine ⟨CL, ?_, ⟨?_, hneC, ?_, ?_, ?_, ?_⟩, ?_⟩
  · unfold sliceLookup
    simp only [bind, Except.bind, hent]
    rw [hpm]
    exact h1
  · intro c hc
    obtain ⟨t, ht⟩ := List.exists_mem_of_ne_nil _ (hneC c hc)
    exact hg.range _ (hmemC c hc t ht)
  · have e1 : CL.map Prod.fst = M.map Prod.fst := sorted_keys h2
    have : (M.map Prod.fst).Pairwise (· < ·) := List.pairwise_map.mpr hkeys
    rw [← e1] at this
    exact List.pairwise_map.mp this
  · exact fun c hc t ht => hg.ok _ (hmemC c hc t ht)
  · intro c hc
    obtain ⟨e, hem, h3, h4, h5⟩ := forall2_mem_right h2 hc
    exact h5
  · intro c hc x hx
    obtain ⟨e, hem, h3, h4, h5⟩ := forall2_mem_right h2 hc
    have hlt := pathSegs_rel h5 x hx
    obtain ⟨m1, m2⟩ := pathSegs_mem hx
    left
    have hm1 := hmemC c hc _ m1
    have hm2 := hmemC c hc _ m2
    refine ⟨rfl, hlt, (hg.apart _ hm1 _ hm2 ?_).fuzzy, hg.long _ hm1 _ hm2 rfl hlt⟩
    intro h0
    have := congrArg Prod.snd h0
    dsimp only at this
    linarith
  · refine List.Perm.trans ?_ hperm
    exact sorted_perm h2

/-- All slices at good cuts: the pieces between the cuts in their order along the polyline, those kept whose test point passes. -/
theorem slices_spec {env : Env ℝ} (henv : env.Lawful) {p : Pline ℝ} {eps : ℝ} (he : 0 < eps) (hf : FullLoop p eps) (b : BoolProc ℝ) (us : Bool) {E : List Cut}
    (hov : b.overlappingSlices = [])
    (hE : b.intersects.map (fun i => (if us then i.startIndex2 else i.startIndex1, i.point)) = E.map fun c => (c.1, curveAt p c.1 c.2))
    (hg : GoodCuts p eps E) (hne : E ≠ []) :
    ∃ CL f SS, Table p eps CL ∧ (cutsOf CL).Perm E ∧ (cutsOf CL).head? = some f ∧
      List.Forall₂ (PieceAt p eps us) (pathSegs (cutsOf CL ++ [(f.1 + p.verts.length, f.2)])) SS ∧
      ∀ pred, sliceAtIntersects env p b us pred eps = .ok (passing pred SS) := by
  obtain ⟨CL, h1, h2, h3⟩ := table_of henv he hf b us hov hE hg
  have hne' : cutsOf CL ≠ [] := by
    intro h0; rw [h0] at h3; exact hne h3.symm.eq_nil
  obtain ⟨f, hf0⟩ : ∃ f, (cutsOf CL).head? = some f := by
    cases h : cutsOf CL with
    | nil => exact absurd h hne'
    | cons a l => exact ⟨a, rfl⟩
  obtain ⟨SS, h4, h5⟩ := table_spec he hf us h2 hf0 CL [] rfl
  refine ⟨CL, f, SS, h2, h3, hf0, h4, fun pred => ?_⟩
  obtain ⟨ss, h6, h7⟩ := h5 pred
  unfold sliceAtIntersects
  simp only [bind, Except.bind, h1, h6, h7]

end Cavc
