import Verif.Lemmas.OverlapTrace
import Verif.Props.SubPath
import Mathlib.Analysis.Real.Pi.Bounds

/-! # The slices of overlaps run along the second polyline -/

set_option linter.unusedVariables false

namespace Cavc
open Real RealScalar Pline

/-- What a slice made of the overlaps `G` is. -/
def SliceGood (p1 p2 : Pline ℝ) (T U : OverlapIntr ℝ → ℝ) (G : List (OverlapIntr ℝ)) (s : OverlapSlice ℝ) : Prop :=
  ∃ a ∈ G, ∃ z ∈ G, ∃ q, s.startIndexes = (a.startIndex1, a.startIndex2) ∧ (s.isLoop = false → s.endIndexes = (z.startIndex1, z.startIndex2)) ∧
    (a.startIndex2 + s.viewData.endIndexOffset) % p2.verts.length = z.startIndex2 ∧
    (BoolSlice.fromOverlapping s false).viewData.toPline p2 = .ok q ∧ q.closed = false ∧
    TracesPart p2 q a.startIndex2 s.viewData.endIndexOffset (T a) (U z) ∧ ∀ pt, OnPline q pt ↔ ∃ o ∈ G, OnOverlap p2 T U o pt

theorem from_view (s : OverlapSlice ℝ) (hs : s.startIndexes.2 = s.viewData.startIndex) (hi : s.viewData.inverted = false) :
    (BoolSlice.fromOverlapping s false).viewData = s.viewData := by
  unfold BoolSlice.fromOverlapping
  rw [hs, ← hi]

theorem slice_good {p1 p2 : Pline ℝ} {eps : ℝ} {T U : OverlapIntr ℝ → ℝ} {l : List (OverlapIntr ℝ)}
    (he : 0 < eps) (hf : FullLoop p2 eps) (hl : ∀ o ∈ l, o.InRange p1 p2) (hc : CleanOverlaps p2 eps T U l)
    (harc : ArcsFromStart p2 eps T l) {g : List (OverlapIntr ℝ)} {s : OverlapSlice ℝ} {a z : OverlapIntr ℝ}
    (h : IsSliceOf p1 p2 eps g s a z) (hg : ∀ o ∈ g, o ∈ l) (hb : g.Pairwise (OverlapIntr.Before p2)) (hd : g.Nodup)
    (hch : g.IsChain (OverlapIntr.Meets eps)) : SliceGood p1 p2 T U g s := by
  obtain ⟨ha, hz, hord, hoff, hret, hrun, hcov⟩ := slice_runs he hf hl hc harc h hg hb hd hch
  have hra := (hl a (hg a ha)).2
  have hrz := (hl z (hg z hz)).2
  have hle : a.startIndex2 ≤ z.startIndex2 := by rcases hord with h | ⟨h, -⟩ <;> omega
  have hsi : s.startIndexes.2 = s.viewData.startIndex := by rw [h.startIndexes, h.startIndex]
  obtain ⟨q, q1, q2, q3⟩ := overlap_view_traces (p2 := p2) (s := s) (by rw [h.startIndexes]; exact hra) (by omega)
    (by rw [from_view s hsi h.forward]; exact hrun)
  rw [h.startIndexes] at q3
  obtain ⟨f1, f2, f3⟩ := hc.fractions a (hg a ha)
  obtain ⟨g1, g2, g3⟩ := hc.fractions z (hg z hz)
  refine ⟨a, ha, z, hz, q, h.startIndexes, fun hlp => (h.part hlp).1, ?_, q1, q2, q3, fun pt => ?_⟩
  · rw [hoff, show a.startIndex2 + (z.startIndex2 - a.startIndex2) = z.startIndex2 by omega, Nat.mod_eq_of_lt hrz]
  · rw [traces_points q3 f1 (by linarith) (by linarith) g3 (by
      intro h0
      rcases hord with h | ⟨-, h⟩
      · omega
      · exact h.le) pt, hcov pt, hoff, show a.startIndex2 + (z.startIndex2 - a.startIndex2) = z.startIndex2 by omega]

theorem merge_good {p1 p2 : Pline ℝ} {eps : ℝ} {T U : OverlapIntr ℝ → ℝ} {l : List (OverlapIntr ℝ)}
    (he : 0 < eps) (hf : FullLoop p2 eps) (hl : ∀ o ∈ l, o.InRange p1 p2) (hc : CleanOverlaps p2 eps T U l)
    (harc : ArcsFromStart p2 eps T l) {g g' : List (OverlapIntr ℝ)} {s s' j : OverlapSlice ℝ} {a z a' z' : OverlapIntr ℝ}
    (h : IsSliceOf p1 p2 eps g s a z) (hg : ∀ o ∈ g, o ∈ l) (hb : g.Pairwise (OverlapIntr.Before p2)) (hd : g.Nodup)
    (hch : g.IsChain (OverlapIntr.Meets eps))
    (h' : IsSliceOf p1 p2 eps g' s' a' z') (hg' : ∀ o ∈ g', o ∈ l) (hb' : g'.Pairwise (OverlapIntr.Before p2)) (hd' : g'.Nodup)
    (hch' : g'.IsChain (OverlapIntr.Meets eps)) (hcross : ∀ x ∈ g, ∀ y ∈ g', OverlapIntr.Before p2 x y ∧ x ≠ y)
    (hm : s'.viewData.endPoint.fuzzyEqEps s.viewData.updatedStart.pos eps = true)
    (j1 : j.startIndexes = s'.startIndexes) (j2 : j.endIndexes = s.endIndexes) (j3 : j.isLoop = s.isLoop)
    (j5 : j.viewData.updatedStart = s'.viewData.updatedStart) (j6 : j.viewData.endPoint = s.viewData.endPoint)
    (j7 : j.viewData.updatedEndBulge = s.viewData.updatedEndBulge) {v : Vertex ℝ} (hv : p2.verts[0]? = some v)
    (j8 : j.viewData.endIndexOffset = s.viewData.endIndexOffset + s'.viewData.endIndexOffset
        + if s'.viewData.endPoint.fuzzyEqEps v.pos eps then 1 else 0) : SliceGood p1 p2 T U (g ++ g') j := by
  obtain ⟨ha, hz, hord, hoff, hret, hrun, hcov⟩ := slice_runs he hf hl hc harc h hg hb hd hch
  obtain ⟨ha', hz', hord', hoff', hret', hrun', hcov'⟩ := slice_runs he hf hl hc harc h' hg' hb' hd' hch'
  have hn : 0 < p2.verts.length := by have := hf.two; omega
  have hra := (hl a (hg a ha)).2
  have hrz := (hl z (hg z hz)).2
  have hra' := (hl a' (hg' a' ha')).2
  have hrz' := (hl z' (hg' z' hz')).2
  have hle : a.startIndex2 ≤ z.startIndex2 := by rcases hord with h | ⟨h, -⟩ <;> omega
  have hle' : a'.startIndex2 ≤ z'.startIndex2 := by rcases hord' with h | ⟨h, -⟩ <;> omega
  obtain ⟨f1, f2, f3⟩ := hc.fractions a (hg a ha)
  obtain ⟨g1, g2, g3⟩ := hc.fractions z (hg z hz)
  obtain ⟨k1, k2, k3⟩ := hc.fractions a' (hg' a' ha')
  obtain ⟨m1, m2, m3⟩ := hc.fractions z' (hg' z' hz')
  have hpa : s.viewData.updatedStart.pos = a.point1 := by rw [hrun.pos, h.startIndex, ← hc.start a (hg a ha)]
  obtain ⟨r1, r2, r3, r4⟩ := return_at_start he hf hl hc (hg a ha) (hg' z' hz') (hcross a ha z' hz').1 (by
    unfold OverlapIntr.Meets
    rw [fuzzy_comm, ← hpa, ← h'.endPoint]; exact hm)
  have hend : s'.viewData.endPoint = (vtx p2 0).pos := by
    rw [h'.endPoint, hc.stop z' (hg' z' hz'), r4, curveAt_vtx hn, (segCurve_ends _ _).2, r2, ← vtx_mod, Nat.mod_self]
  have hv0 : v = vtx p2 0 := by
    have := vtx_at (p := p2) (i := 0) hn
    rw [hv] at this
    exact Option.some.inj this
  rw [hend, hv0, fuzzy_refl _ he, if_pos rfl] at j8
  have hnl : s.isLoop = false := by
    by_contra hcon
    obtain ⟨q1, q2, q3, q4⟩ := hret (by simpa using hcon)
    have b1 := (hcross z hz a' ha')
    have := Before.le b1.1
    have hse : z.startIndex2 = a'.startIndex2 := by omega
    have b2 := before_frac he hf hl hc (hg z hz) (hg' a' ha') b1.1 hse
    rcases hc.disjoint z (hg z hz) a' (hg' a' ha') b1.2 hse with h | h <;> linarith
  have hview := from_view s (by rw [h.startIndexes, h.startIndex]) h.forward
  rw [r4] at hrun'
  rw [r3] at hrun
  have hzz : z.startIndex2 ≤ a'.startIndex2 := Before.le (hcross z hz a' ha').1
  have hmr : ViewRuns p2 (BoolSlice.fromOverlapping j false).viewData (T a') (U z) := by
    refine merge_runs hf hrun' hrun ?_ ?_ hend ?_ j5 j6 j7 j8
    · rw [h'.startIndex, hoff']; omega
    · rw [h.startIndex]; exact r1
    · show j.startIndexes.2 = _
      rw [j1, h'.startIndexes, h'.startIndex]
  obtain ⟨q, q1, q2, q3⟩ := overlap_view_traces (p2 := p2) (s := j) (by rw [j1, h'.startIndexes]; exact hra') (by omega) hmr
  rw [j1, h'.startIndexes] at q3
  have hpos : a'.startIndex2 + j.viewData.endIndexOffset = z.startIndex2 + p2.verts.length := by omega
  refine ⟨a', by simp [ha'], z, by simp [hz], q, by rw [j1, h'.startIndexes], fun _ => by rw [j2]; exact (h.part hnl).1, ?_, q1, q2, q3, fun pt => ?_⟩
  · rw [hpos, Nat.add_mod_right, Nat.mod_eq_of_lt hrz]
  · have hcyc : ∀ i x, curveAt p2 (i + p2.verts.length) x = curveAt p2 i x := by
      intro i x
      rw [curveAt_vtx hn, curveAt_vtx hn, vtx_add, show i + p2.verts.length + 1 = i + 1 + p2.verts.length by omega, vtx_add]
    have hsplit : (∃ o ∈ g ++ g', OnOverlap p2 T U o pt) ↔ (∃ o ∈ g, OnOverlap p2 T U o pt) ∨ ∃ o ∈ g', OnOverlap p2 T U o pt := by
      simp only [List.mem_append, or_and_right, exists_or]
    rw [traces_points q3 k1 (by linarith) (by linarith) g3 (by omega) pt, hsplit, hcov pt, hcov' pt, hpos]
    constructor
    · rintro ⟨i, x, ⟨b1, b2, b3, b4, b5, b6⟩, e⟩
      by_cases hi : i < p2.verts.length
      · exact Or.inr ⟨i, x, ⟨b1, by omega, b3, b4, b5, fun _ => by linarith⟩, e⟩
      · refine Or.inl ⟨i - p2.verts.length, x, ⟨by omega, by omega, b3, b4, fun _ => by linarith, fun h => b6 (by omega)⟩, ?_⟩
        rw [e, ← hcyc (i - p2.verts.length), Nat.sub_add_cancel (by omega)]
    · rintro (⟨i, x, ⟨b1, b2, b3, b4, b5, b6⟩, e⟩ | ⟨i, x, ⟨b1, b2, b3, b4, b5, b6⟩, e⟩)
      · exact ⟨i + p2.verts.length, x, ⟨by omega, by omega, b3, b4, fun h => by omega, fun h => b6 (by omega)⟩, by rw [hcyc]; exact e⟩
      · exact ⟨i, x, ⟨b1, by omega, b3, b4, b5, fun h => by omega⟩, e⟩

/-- Overlaps that are parts of the second polyline are joined into slices that run along it, from the start of one overlap to the end of
another one; together the slices cover what the overlaps cover, and nothing else.  Missing: overlaps that begin inside an arc and
continue another overlap, see `C49_end_bulge_witness`. -/
theorem C49_traces_partial (env : Env ℝ) (henv : env.Lawful) (l : List (OverlapIntr ℝ)) (p1 p2 : Pline ℝ) (eps : ℝ) (he : 0 < eps)
    (hf : FullLoop p2 eps) (hl : ∀ o ∈ l, o.InRange p1 p2) (hd : l.Nodup) (T U : OverlapIntr ℝ → ℝ) (hc : CleanOverlaps p2 eps T U l)
    (harc : ArcsFromStart p2 eps T l) :
    ∃ result, sortAndJoin env l p1 p2 eps = .ok result ∧
      (∀ s ∈ result, ∃ a ∈ l, ∃ z ∈ l, ∃ q, s.startIndexes = (a.startIndex1, a.startIndex2) ∧
        (s.isLoop = false → s.endIndexes = (z.startIndex1, z.startIndex2)) ∧
        (BoolSlice.fromOverlapping s false).viewData.toPline p2 = .ok q ∧ q.closed = false ∧
        TracesPart p2 q a.startIndex2 s.viewData.endIndexOffset (T a) (U z) ∧
        (a.startIndex2 + s.viewData.endIndexOffset) % p2.verts.length = z.startIndex2) ∧
      ∀ pt, (∃ s ∈ result, ∃ q, (BoolSlice.fromOverlapping s false).viewData.toPline p2 = .ok q ∧ OnPline q pt) ↔
        ∃ o ∈ l, OnOverlap p2 T U o pt := by
  obtain ⟨sorted, gs, slices, result, e, hp, hsort, hruns, hs, hj⟩ := C49_join env henv TotalCmp.real l p1 p2 eps hl
  refine ⟨result, e, ?_⟩
  have hall : ∀ g ∈ gs, (∀ o ∈ g, o ∈ l) ∧ g.Pairwise (OverlapIntr.Before p2) ∧ g.Nodup ∧ g.IsChain (OverlapIntr.Meets eps) := by
    intro g hg
    have hsub : g.Sublist sorted := by rw [← hruns.flatten]; exact List.sublist_flatten_of_mem hg
    exact ⟨fun o ho => hp.mem_iff.mp (hsub.subset ho), hsort.sublist hsub, (hp.nodup_iff.mpr hd).sublist hsub, hruns.inside g hg⟩
  have good : ∀ (gs' : List (List (OverlapIntr ℝ))) (ss : List (OverlapSlice ℝ)), (∀ g ∈ gs', g ∈ gs) →
      List.Forall₂ (fun g s => ∃ a z, IsSliceOf p1 p2 eps g s a z) gs' ss → List.Forall₂ (SliceGood p1 p2 T U) gs' ss := by
    intro gs' ss hsub hfa
    induction hfa with
    | nil => exact .nil
    | cons h _ ih =>
      obtain ⟨a, z, h⟩ := h
      obtain ⟨h1, h2, h3, h4⟩ := hall _ (hsub _ List.mem_cons_self)
      exact .cons (slice_good he hf hl hc harc h h1 h2 h3 h4) (ih fun g hg => hsub g (by simp [hg]))
  have key : ∃ Gs, List.Forall₂ (SliceGood p1 p2 T U) Gs result ∧ ∀ o, o ∈ Gs.flatten ↔ o ∈ l := by
    rcases hj with ⟨f, m, lst, es, hmeet, j, er, j1, j2, j3, j4, j5, j6, j7, v, hv, j8⟩ | ⟨er, -⟩
    · subst er
      subst es
      obtain ⟨gf, gs', hff, hrest, rfl⟩ := List.forall₂_cons_right_iff.mp hs
      obtain ⟨gm, gl, hm, hlst, rfl⟩ : ∃ gm gl, List.Forall₂ (fun g s => ∃ a z, IsSliceOf p1 p2 eps g s a z) gm m ∧
          (∃ a z, IsSliceOf p1 p2 eps gl lst a z) ∧ gs' = gm ++ [gl] := by
        have h1 := List.forall₂_take_append gs' m [lst] hrest
        have h2 := List.forall₂_drop_append gs' m [lst] hrest
        obtain ⟨gl, g0, h3, h4, h5⟩ := List.forall₂_cons_right_iff.mp h2
        rw [List.forall₂_nil_right_iff] at h4
        subst h4
        exact ⟨_, gl, h1, h3, by rw [← h5, List.take_append_drop]⟩
      obtain ⟨a, z, hff⟩ := hff
      obtain ⟨a', z', hlst⟩ := hlst
      obtain ⟨f1, f2, f3, f4⟩ := hall gf (by simp)
      obtain ⟨l1, l2, l3, l4⟩ := hall gl (by simp)
      have hnod := hp.nodup_iff.mpr hd
      rw [← hruns.flatten, List.flatten_cons] at hnod hsort
      have hcross : ∀ x ∈ gf, ∀ y ∈ gl, OverlapIntr.Before p2 x y ∧ x ≠ y := by
        intro x hx y hy
        refine ⟨(List.pairwise_append.mp hsort).2.2 x hx y (by simp [hy]), ?_⟩
        rintro rfl
        exact (List.nodup_append.mp hnod).2.2 x hx x (by simp [hy]) rfl
      refine ⟨(gf ++ gl) :: gm, .cons (merge_good he hf hl hc harc hff f1 f2 f3 f4 hlst l1 l2 l3 l4 hcross hmeet j1 j2 j3 j5 j6 j7 hv j8)
        (good gm m (fun g hg => by simp [hg]) hm), ?_⟩
      intro o
      rw [← hp.mem_iff, ← hruns.flatten]
      simp only [List.flatten_cons, List.mem_append, List.flatten_append, List.flatten_nil, List.append_nil]
      tauto
    · subst er
      exact ⟨gs, good gs _ (fun g hg => hg) hs, fun o => by rw [hruns.flatten]; exact hp.mem_iff⟩
  obtain ⟨Gs, hG, hflat⟩ := key
  clear hj hs hall good e hruns
  constructor
  · intro s hs
    obtain ⟨G, hGm, a, ha, z, hz, q, h1, h2, h3, h4, h5, h6, -⟩ : ∃ G ∈ Gs, SliceGood p1 p2 T U G s := by
      clear hflat
      induction hG with
      | nil => simp at hs
      | cons h _ ih =>
        rcases List.mem_cons.mp hs with rfl | hs
        · exact ⟨_, by simp, h⟩
        · obtain ⟨G, hG, h⟩ := ih hs
          exact ⟨G, by simp [hG], h⟩
    have hin : ∀ o ∈ G, o ∈ l := fun o ho => (hflat o).mp (List.mem_flatten.mpr ⟨G, hGm, ho⟩)
    exact ⟨a, hin a ha, z, hin z hz, q, h1, h2, h4, h5, h6, h3⟩
  · intro pt
    have hex : (∃ o ∈ l, OnOverlap p2 T U o pt) ↔ ∃ o ∈ Gs.flatten, OnOverlap p2 T U o pt := by simp only [hflat]
    rw [hex]
    clear hflat hex
    induction hG with
    | nil => simp
    | @cons G s Gs' r h _ ih =>
      simp only [List.mem_cons, exists_eq_or_imp, List.flatten_cons, List.mem_append, or_and_right, exists_or]
      refine or_congr ?_ ih
      obtain ⟨a, ha, z, hz, q, h1, h2, h3, h4, h5, h6, h7⟩ := h
      rw [← h7 pt]
      constructor
      · rintro ⟨s', rfl, q', e', hq'⟩
        rw [h4] at e'
        cases e'
        exact hq'
      · intro hq; exact ⟨s, rfl, q, h4, hq⟩

theorem far_x {a b : V2 ℝ} (h : ¬ |a.x - b.x| < 1 / 1000) : a.fuzzyEqEps b (1 / 1000) = false := by
  rw [Bool.eq_false_iff, Ne, V2.fuzzyEqEps_iff]
  exact fun h' => h h'.1

theorem far_y {a b : V2 ℝ} (h : ¬ |a.y - b.y| < 1 / 1000) : a.fuzzyEqEps b (1 / 1000) = false := by
  rw [Bool.eq_false_iff, Ne, V2.fuzzyEqEps_iff]
  exact fun h' => h h'.2

theorem line_mk (x y : ℝ) : IsLine (⟨x, y, 0⟩ : Vertex ℝ) := by unfold IsLine; norm_num

theorem not_line_one (x y : ℝ) : ¬ IsLine (⟨x, y, 1⟩ : Vertex ℝ) := fun h => by unfold IsLine at h; norm_num at h

theorem long_half {x y t u : ℝ} (h : u - t = 1 / 2) : LongPart (⟨x, y, 1⟩ : Vertex ℝ) t u := by
  right
  rw [h]
  show 1 / 100000000 ≤ |tan (1 / 2 * arctan 1)|
  rw [arctan_one]
  have h1 := pi_gt_three
  have h2 : 1 / 2 * (π / 4) ≤ tan (1 / 2 * (π / 4)) := le_tan (by positivity) (by linarith)
  exact le_trans (by linarith) (le_abs_self _)

theorem long_whole {x y t u : ℝ} (h : u - t = 1) : LongPart (⟨x, y, 1⟩ : Vertex ℝ) t u := by
  right
  rw [h, one_mul]
  show 1 / 100000000 ≤ |tan (arctan 1)|
  rw [tan_arctan]
  norm_num

namespace OverlapExample

/-- A square with a half circle for its first side. -/
noncomputable def p2 : Pline ℝ := ⟨[⟨0, 0, 1⟩, ⟨4, 0, 0⟩, ⟨4, 4, 0⟩, ⟨0, 4, 0⟩], true⟩

/-- Half of the last side, and the first half of the arc. -/
noncomputable def l : List (OverlapIntr ℝ) := [⟨1, 0, ⟨0, 0⟩, ⟨2, -2⟩⟩, ⟨0, 3, ⟨0, 2⟩, ⟨0, 0⟩⟩]

noncomputable def T (o : OverlapIntr ℝ) : ℝ := if o.startIndex2 = 3 then 1 / 2 else 0
noncomputable def U (o : OverlapIntr ℝ) : ℝ := if o.startIndex2 = 3 then 1 else 1 / 2

theorem v0 : vtx p2 0 = ⟨0, 0, 1⟩ := rfl
theorem v1 : vtx p2 1 = ⟨4, 0, 0⟩ := rfl
theorem v3 : vtx p2 3 = ⟨0, 4, 0⟩ := rfl
theorem v4 : vtx p2 4 = ⟨0, 0, 1⟩ := rfl

theorem full : FullLoop p2 (1 / 1000) := by
  refine ⟨rfl, by simp [p2], fun i => ?_⟩
  rw [← vtx_mod, ← vtx_mod_succ]
  have : i % p2.verts.length < 4 := Nat.mod_lt _ (by simp [p2])
  generalize i % p2.verts.length = k at *
  interval_cases k
  · exact ⟨Or.inr ⟨not_line_one _ _, by norm_num [v0]⟩, far_x (by norm_num [v0, v1, Vertex.pos])⟩
  · exact ⟨Or.inl (line_mk _ _), far_y (by norm_num [vtx, cycAt, p2, Vertex.pos])⟩
  · exact ⟨Or.inl (line_mk _ _), far_x (by norm_num [vtx, cycAt, p2, Vertex.pos])⟩
  · exact ⟨Or.inl (line_mk _ _), far_y (by norm_num [v3, v4, Vertex.pos])⟩

theorem arc_mid : segCurve (vtx p2 0) (vtx p2 1) (1 / 2) = ⟨2, -2⟩ := by
  rw [v0, v1, segCurve_arc (not_line_one _ _)]
  show arcPoint _ _ 1 (1 / 2) = _
  rw [half_turn]
  norm_num [Vertex.pos]

theorem side_mid : segCurve (vtx p2 3) (vtx p2 4) (1 / 2) = ⟨0, 2⟩ := by
  rw [v3, v4, segCurve_line (line_mk _ _)]
  norm_num [linePoint, Vertex.pos]

theorem clean : CleanOverlaps p2 (1 / 1000) T U l := by
  have hn : 0 < p2.verts.length := by simp [p2]
  constructor
  · simp [l, T, U]; norm_num
  · simp only [l, List.mem_cons, List.not_mem_nil, or_false, forall_eq_or_imp, forall_eq, T, curveAt_vtx hn]
    refine ⟨?_, by simpa using side_mid.symm⟩
    simp [(segCurve_ends _ _).1, v0, Vertex.pos]
  · simp only [l, List.mem_cons, List.not_mem_nil, or_false, forall_eq_or_imp, forall_eq, U, curveAt_vtx hn]
    refine ⟨by simpa using arc_mid.symm, ?_⟩
    simp [(segCurve_ends _ _).2, v4, Vertex.pos]
  · simp only [l, List.mem_cons, List.not_mem_nil, or_false, forall_eq_or_imp, forall_eq]
    exact ⟨far_x (by norm_num), far_y (by norm_num)⟩
  · simp only [l, List.mem_cons, List.not_mem_nil, or_false, forall_eq_or_imp, forall_eq, T, U]
    refine ⟨⟨Or.inl (by simp), Or.inr (Or.inr ?_)⟩, Or.inr (Or.inr ?_), Or.inr (Or.inl (by simp))⟩
    · simp only [Nat.zero_add, show (0:ℕ) ≠ 3 by decide, if_false, arc_mid]
      exact ⟨by norm_num, by norm_num, far_x (by norm_num [v0, Vertex.pos]), far_x (by norm_num [v1, Vertex.pos])⟩
    · simp only [if_true, show 3 + 1 = 4 from rfl, side_mid]
      exact ⟨by norm_num, by norm_num, far_y (by norm_num [v3, Vertex.pos]), far_y (by norm_num [v4, Vertex.pos])⟩
  · simp only [l, List.mem_cons, List.not_mem_nil, or_false, forall_eq_or_imp, forall_eq, T, U]
    refine ⟨⟨long_whole (by simp), long_half (by simp), ?_, ?_⟩, Or.inl (line_mk _ _), Or.inl (line_mk _ _), fun _ _ => Or.inl (line_mk _ _),
      fun _ _ => Or.inl (line_mk _ _)⟩
    · exact fun _ _ => long_half (by simp)
    · exact fun h => absurd h (by simp)
  · simp [l]
  · simp only [l, List.mem_cons, List.not_mem_nil, or_false, forall_eq_or_imp, forall_eq, OverlapIntr.Meets, OverlapIntr.Follows, T, U]
    refine ⟨⟨fun h => ?_, fun h => ?_⟩, fun _ => ?_, fun h => ?_⟩
    · rw [far_x (by norm_num)] at h; cases h
    · rw [far_x (by norm_num)] at h; cases h
    · right; simp [p2]
    · rw [far_y (by norm_num)] at h; cases h

theorem arcs : ArcsFromStart p2 (1 / 1000) T l := by
  intro o ho hn ht
  exfalso
  simp only [l, List.mem_cons, List.not_mem_nil, or_false] at ho
  rcases ho with rfl | rfl
  · simp [T] at ht
  · exact hn (line_mk _ _)

end OverlapExample

/-- Non-vacuity: two overlaps that meet at the start of a square with a half circle for its first side. -/
example : ∃ result, sortAndJoin Env.plain OverlapExample.l ⟨[⟨0, 2, 0⟩, ⟨0, 0, 0⟩, ⟨9, 9, 0⟩], true⟩ OverlapExample.p2 (1 / 1000) = .ok result ∧
    ∀ pt, (∃ s ∈ result, ∃ q, (BoolSlice.fromOverlapping s false).viewData.toPline OverlapExample.p2 = .ok q ∧ OnPline q pt) ↔
        ∃ o ∈ OverlapExample.l, OnOverlap OverlapExample.p2 OverlapExample.T OverlapExample.U o pt := by
  obtain ⟨r, h1, -, h2⟩ := C49_traces_partial Env.plain Env.plain_lawful OverlapExample.l ⟨[⟨0, 2, 0⟩, ⟨0, 0, 0⟩, ⟨9, 9, 0⟩], true⟩ OverlapExample.p2 (1 / 1000)
    (by norm_num) OverlapExample.full (by simp [OverlapExample.l, OverlapIntr.InRange, OverlapExample.p2]) (by simp [OverlapExample.l]) _ _
    OverlapExample.clean OverlapExample.arcs
  exact ⟨r, h1, h2⟩

/-- The point at half of an arc over the segment from 1 to -1. -/
theorem arc_top {b : ℝ} (hb : b ≠ 0) : arcPoint ⟨1, 0⟩ ⟨-1, 0⟩ b (1 / 2) = ⟨0, b⟩ := by
  have h : (1 / 2 : ℝ) * (4 * arctan b) = 2 * arctan b := by ring
  have hp : 1 + b ^ 2 ≠ 0 := by positivity
  simp only [arcPoint, arcCenter, rotV, h, cos_two_arctan, sin_two_arctan]
  rw [V2.ext_iff']
  constructor
  · field_simp
    ring
  · field_simp
    ring

/-- Where the last segment of a slice is an arc that is covered by two overlaps, the slice does not run along it: three overlaps along a side and
both halves of the half circle after it are joined into a slice that ends with the bulge of a quarter circle over the whole diameter. -/
theorem C49_end_bulge_witness :
    let b : ℝ := tan (π / 8)
    let p1 : Pline ℝ := ⟨[⟨1, -2, 0⟩, ⟨1, 0, b⟩, ⟨0, 1, b⟩, ⟨-1, 0, 0⟩, ⟨-3, 0, 0⟩], true⟩
    let p2 : Pline ℝ := ⟨[⟨1, -2, 0⟩, ⟨1, 0, 1⟩, ⟨-1, 0, 0⟩, ⟨-1, -2, 0⟩], true⟩
    let l : List (OverlapIntr ℝ) := [⟨0, 0, ⟨1, -2⟩, ⟨1, 0⟩⟩, ⟨1, 1, ⟨1, 0⟩, ⟨0, 1⟩⟩, ⟨2, 1, ⟨0, 1⟩, ⟨-1, 0⟩⟩]
    (∀ o ∈ l, OnPline p2 o.point1 ∧ OnPline p2 o.point2 ∧ (p1.verts[o.startIndex1]?.map Vertex.pos) = some o.point1 ∧
      (p1.verts[o.startIndex1 + 1]?.map Vertex.pos) = some o.point2) ∧
    ∃ s q, sortAndJoin Env.plain l p1 p2 (1 / 1000) = .ok [s] ∧ (BoolSlice.fromOverlapping s false).viewData.toPline p2 = .ok q ∧
      ∃ pt, OnPline q pt ∧ ¬ OnPline p2 pt := by
  intro b p1 p2 l
  have he : (0:ℝ) < 1 / 1000 := by norm_num
  have hseg : p2.segs = [(⟨1, -2, 0⟩, ⟨1, 0, 1⟩), (⟨1, 0, 1⟩, ⟨-1, 0, 0⟩), (⟨-1, 0, 0⟩, ⟨-1, -2, 0⟩), (⟨-1, -2, 0⟩, ⟨1, -2, 0⟩)] := rfl
  have nl := not_line_one 1 0
  have hmid : segCurve (⟨1, 0, 1⟩ : Vertex ℝ) ⟨-1, 0, 0⟩ (1 / 2) = ⟨0, 1⟩ := by
    rw [segCurve_arc nl]
    exact arc_top one_ne_zero
  have hfull : FullSeg (⟨1, 0, 1⟩ : Vertex ℝ) ⟨-1, 0, 0⟩ (1 / 1000) := ⟨Or.inr ⟨nl, by norm_num⟩, far_x (by norm_num [Vertex.pos])⟩
  have sb := start_base _ _ _ he hfull (1 / 2) (Or.inr (Or.inr ⟨by norm_num, by norm_num, by rw [hmid]; exact far_x (by norm_num [Vertex.pos]),
    by rw [hmid]; exact far_x (by norm_num [Vertex.pos])⟩)) (by norm_num) (long_half (by norm_num))
  dsimp only at sb
  obtain ⟨-, sb2, -, sb4, -⟩ := sb
  obtain ⟨sb5, sb6⟩ := sb4 nl
  have hb : (partStart (⟨1, 0, 1⟩ : Vertex ℝ) ⟨-1, 0, 0⟩ ⟨0, 1⟩ ⟨-1, 0⟩ (1 / 1000)).bulge = b := by
    unfold partStart
    rw [← hmid, (C28_split_ends _ (⟨-1, 0, 0⟩ : Vertex ℝ) sb5 ⟨-1, 0⟩ (1 / 1000)).2 (by rw [sb2.apart]; decide) (by
      show ¬ (segSplitAtPoint _ _ _ _).splitVertex.pos.fuzzyEqEps (⟨-1, 0, 0⟩ : Vertex ℝ).pos _ = true
      rw [sb2.apart]; decide) (fuzzy_refl _ he)]
    show (segSplitAtPoint _ _ _ _).splitVertex.bulge = tan (π / 8)
    rw [← tan_arctan (segSplitAtPoint _ _ _ _).splitVertex.bulge, sb6]
    congr 1
    show (1 - 1 / 2) * arctan 1 = _
    rw [arctan_one]
    ring
  have hb0 : 0 < b := tan_pos_of_pos_of_lt_pi_div_two (by positivity) (by have := pi_pos; linarith)
  have hb1 : b < 1 := by
    have := pi_pos
    rw [← tan_pi_div_four]
    exact tan_lt_tan_of_lt_of_lt_pi_div_two (by linarith) (by linarith) (by linarith)
  refine ⟨?_, ?_⟩
  · have q1 : OnPline p2 ⟨1, -2⟩ := ⟨(⟨1, -2, 0⟩, ⟨1, 0, 1⟩), by rw [hseg]; exact List.mem_cons_self, 0, le_rfl, zero_le_one, (segCurve_ends (⟨1, -2, 0⟩ : Vertex ℝ) ⟨1, 0, 1⟩).1.symm⟩
    have q2 : OnPline p2 ⟨1, 0⟩ := ⟨(⟨1, -2, 0⟩, ⟨1, 0, 1⟩), by rw [hseg]; exact List.mem_cons_self, 1, zero_le_one, le_rfl, (segCurve_ends (⟨1, -2, 0⟩ : Vertex ℝ) ⟨1, 0, 1⟩).2.symm⟩
    have q3 : OnPline p2 ⟨0, 1⟩ := ⟨(⟨1, 0, 1⟩, ⟨-1, 0, 0⟩), by rw [hseg]; simp, 1 / 2, by norm_num, by norm_num, hmid.symm⟩
    have q4 : OnPline p2 ⟨-1, 0⟩ := ⟨(⟨1, 0, 1⟩, ⟨-1, 0, 0⟩), by rw [hseg]; simp, 1, by norm_num, by norm_num, (segCurve_ends (⟨1, 0, 1⟩ : Vertex ℝ) ⟨-1, 0, 0⟩).2.symm⟩
    intro o ho
    simp only [l, List.mem_cons, List.not_mem_nil, or_false] at ho
    rcases ho with rfl | rfl | rfl
    · exact ⟨q1, q2, rfl, rfl⟩
    · exact ⟨q2, q3, rfl, rfl⟩
    · exact ⟨q3, q4, rfl, rfl⟩
  · have hsort : (Env.plain (T := ℝ)).sortBy (overlapCmp p2) l = l := by
      have c1 : overlapCmp p2 ⟨1, 1, ⟨1, 0⟩, ⟨0, 1⟩⟩ ⟨2, 1, ⟨0, 1⟩, ⟨-1, 0⟩⟩ ≠ .gt := by
        have : p2.get 1 = some ⟨1, 0, 1⟩ := rfl
        unfold overlapCmp
        rw [this]
        simp only [Nat.compare_eq_eq.mpr, Ordering.then, Scalar.totalCmp, distSquared_eq]
        norm_num [Vertex.pos]
        decide
      have c2 : overlapCmp p2 ⟨0, 0, ⟨1, -2⟩, ⟨1, 0⟩⟩ ⟨1, 1, ⟨1, 0⟩, ⟨0, 1⟩⟩ ≠ .gt := by
        unfold overlapCmp
        rw [Nat.compare_eq_lt.mpr (by norm_num)]
        simp [Ordering.then]
      show sortByInsert (overlapCmp p2) l = l
      simp only [l, sortByInsert, insertBy, if_neg c1, if_neg c2]
    obtain ⟨s, hs, hslice⟩ := new_some p1 p2 (1 / 1000) l ⟨0, 0, ⟨1, -2⟩, ⟨1, 0⟩⟩ ⟨2, 1, ⟨0, 1⟩, ⟨-1, 0⟩⟩ (by simp [OverlapIntr.InRange, p1, p2])
      (by simp [OverlapIntr.InRange, p1, p2]) (by simp [l]) rfl rfl
    have hnl : s.isLoop = false := by
      rw [Bool.eq_false_iff, Ne, hslice.loop]
      rintro ⟨-, h⟩
      rw [far_x (by norm_num)] at h
      cases h
    have hend := hslice.partEnd hnl ⟨1, 0, 1⟩ ⟨-1, 0, 0⟩ rfl rfl
    rw [if_neg (by norm_num), hb] at hend
    obtain ⟨-, -, hoff⟩ := hslice.part hnl
    have ho : s.viewData.endIndexOffset = 1 := by
      have h1 := (hslice.part hnl).2.1
      change s.viewData.endIndexOffset < 4 at h1
      change (0 + s.viewData.endIndexOffset) % 4 = 1 at hoff
      omega
    have hv := from_view s (by rw [hslice.startIndexes, hslice.startIndex]) hslice.forward
    obtain ⟨q, hq, hqc, hqs⟩ := C19_view_slice (BoolSlice.fromOverlapping s false).viewData p2
      ⟨by rw [hv, hslice.startIndex]; simp [p2], by rw [hv, ho]; simp [p2]⟩ rfl
    refine ⟨s, q, ?_, hq, ⟨0, b⟩, ?_, ?_⟩
    · unfold sortAndJoin
      rw [hsort]
      simp only [l, joinLoop, fuzzy_refl _ he, Bool.not_true, Bool.false_eq_true, if_false, hs, bind, Except.bind]
    · rw [hv] at hqs
      have f1 := hqs.final (by omega)
      have f2 := hqs.last
      rw [ho] at f1 f2
      rw [hslice.startIndex, hend] at f1
      change q.verts[1]? = some ⟨1, 0, b⟩ at f1
      rw [hslice.endPoint] at f2
      have hcnt : q.verts.length = 3 := by rw [hqs.count, ho]
      obtain ⟨x, y, hx, hy, hxy⟩ := segs_getElem? q 1 (by
        unfold segmentCount vertexCount
        dsimp only
        rw [hqc, hcnt]
        simp)
      rw [hcnt] at hy
      rw [f1] at hx
      rw [f2] at hy
      cases hx
      cases hy
      refine ⟨_, List.mem_of_getElem? hxy, 1 / 2, by norm_num, by norm_num, ?_⟩
      have hbl : ¬ IsLine (⟨1, 0, b⟩ : Vertex ℝ) := by
        unfold IsLine
        rw [not_lt]
        show _ ≤ |b|
        rw [abs_of_pos hb0]
        have h1 := pi_gt_three
        have h2 : π / 8 ≤ tan (π / 8) := le_tan (by positivity) (by linarith)
        exact le_trans (by linarith) h2
      rw [segCurve_arc hbl]
      exact (arc_top hb0.ne').symm
    · rintro ⟨sg, hsg, x, hx0, hx1, e⟩
      rw [hseg] at hsg
      simp only [List.mem_cons, List.not_mem_nil, or_false] at hsg
      rcases hsg with rfl | rfl | rfl | rfl
      · rw [segCurve_line (line_mk _ _)] at e
        have := congrArg V2.x e
        norm_num [linePoint, Vertex.pos] at this
      · rw [segCurve_arc nl] at e
        have h1 := congrArg V2.x e
        have h2 := congrArg V2.y e
        simp only [arcPoint, arcCenter, rotV, Vertex.pos] at h1 h2
        norm_num at h1 h2
        have := sin_sq_add_cos_sq (x * (4 * (π / 4)))
        rw [← h1, ← h2] at this
        nlinarith
      · rw [segCurve_line (line_mk _ _)] at e
        have := congrArg V2.x e
        norm_num [linePoint, Vertex.pos] at this
      · rw [segCurve_line (line_mk _ _)] at e
        have := congrArg V2.y e
        norm_num [linePoint, Vertex.pos] at this
        linarith

end Cavc
