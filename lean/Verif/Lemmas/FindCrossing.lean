import Verif.Spec.ClearLines
import Verif.Lemmas.PieceList
import Verif.Props.FindIntrReal

/-! # What is found for two polylines that cross cleanly -/

set_option linter.unusedVariables false

namespace Cavc
open Pline

theorem map_perm_exists {α β : Type} (f : α → β) : ∀ (L : List β) (E : List α), L.Perm (E.map f) → ∃ E' : List α, E'.Perm E ∧ E'.map f = L := by
  intro L
  induction L with
  | nil =>
    intro E h
    have : E = [] := by simpa using h.symm.eq_nil
    exact ⟨[], by rw [this], rfl⟩
  | cons a L ih =>
    intro E h
    have ha : a ∈ E.map f := h.mem_iff.mp (by simp)
    obtain ⟨x, hx, rfl⟩ := List.mem_map.mp ha
    obtain ⟨s, t, rfl⟩ := List.append_of_mem hx
    have hp : (s ++ x :: t).Perm (x :: (s ++ t)) := List.perm_middle
    have h' : L.Perm ((s ++ t).map f) := by
      have := h.trans (hp.map f)
      rw [List.map_cons] at this
      exact this.cons_inv
    obtain ⟨E', h1, h2⟩ := ih _ h'
    exact ⟨x :: E', (h1.cons x).trans hp.symm, by rw [List.map_cons, h2]⟩

section
variable {p1 p2 : Pline ℝ} {eps : ℝ}

theorem GoodCuts.perm {p : Pline ℝ} {E E' : List Cut} (h : GoodCuts p eps E) (hp : E'.Perm E) : GoodCuts p eps E' :=
  ⟨hp.nodup_iff.mpr h.nodup, fun c hc => h.range c (hp.mem_iff.mp hc), fun c hc => h.ok c (hp.mem_iff.mp hc),
    fun c hc c' hc' => h.apart c (hp.mem_iff.mp hc) c' (hp.mem_iff.mp hc'), fun c hc c' hc' => h.long c (hp.mem_iff.mp hc) c' (hp.mem_iff.mp hc')⟩

theorem CleanCrossing.perm {E E' : List (Cut × Cut)} (h : CleanCrossing p1 p2 eps E) (hp : E'.Perm E) : CleanCrossing p1 p2 eps E' :=
  ⟨fun c hc => h.on c (hp.mem_iff.mp hc), fun i t j u hi h0 h1 hj h2 h3 e => hp.mem_iff.mpr (h.all i t j u hi h0 h1 hj h2 h3 e),
    h.first.perm (hp.map _), h.second.perm (hp.map _)⟩

theorem farApart_ne {a : V2 ℝ} (he : 0 < eps) : ¬ FarApart eps a a := by
  unfold FarApart; simp; exact he.le

theorem seg_vtx {p : Pline ℝ} (hc : p.closed = true) (h2 : 2 ≤ p.verts.length) (i : Nat) (s : Vertex ℝ × Vertex ℝ) :
    p.segs[i]? = some s ↔ i < p.verts.length ∧ s = (vtx p i, vtx p (i + 1)) := by
  rw [segs_range hc h2, List.getElem?_map]
  by_cases hi : i < p.verts.length
  · rw [List.getElem?_range hi]
    simp [hi, eq_comm]
  · rw [List.getElem?_eq_none (by simp; omega)]
    simp [hi]

theorem basicOf_nodup {p1 p2 : Pline ℝ} {eps : ℝ} {i1 i2 : Nat} (h : ∀ s1 s2, p1.segs[i1]? = some s1 → p2.segs[i2]? = some s2 →
    (plineSegIntr s1.1 s1.2 s2.1 s2.2 eps).isolated.Nodup) : (basicOf p1 p2 eps i1 i2).Nodup := by
  unfold basicOf
  split
  · rename_i s1 s2 h1 h2
    exact ((h s1 s2 h1 h2).filter _).map fun a b hab => by cases hab; rfl
  · exact List.nodup_nil

/-- What is found for two polylines that cross cleanly, if for all pairs of segments their common points are found. -/
theorem finds_crossing (env : Env ℝ) (he : 0 < eps) (f1 : FullLoop p1 eps) (f2 : FullLoop p2 eps) {E : List (Cut × Cut)}
    (hc : CleanCrossing p1 p2 eps E) (hp : FindsPairs p1 p2 eps) {o : Option (Index ℝ)} (hidx : (o.getD (p1.approxIndex env)).Serves p1) :
    ∃ found E', findIntersects env p1 p2 o eps = .ok found ∧ E'.Perm E ∧ FindsCrossing p1 E' found := by
  have n1 : 0 < p1.verts.length := by have := f1.two; omega
  have n2 : 0 < p2.verts.length := by have := f2.two; omega
  obtain ⟨found, hr, ho, hb⟩ := C37_result env p1 p2 o eps hidx
  have hov : found.overlapping = [] := by
    rw [List.eq_nil_iff_forall_not_mem]
    intro q hq
    obtain ⟨s1, s2, h1, h2, hm, h3⟩ := (ho q).mp hq
    rw [(hp s1 (List.mem_of_getElem? h1) s2 (List.mem_of_getElem? h2) hm).overlap] at h3
    cases h3
  have hbn : (found.basic.map fun i => (i.startIndex1, i.startIndex2, i.point)).Nodup := by
    obtain ⟨dup1, dup2, e, -, -⟩ := findIntersects_eq env p1 p2 o eps _ hidx rfl
    rw [e] at hr
    cases hr
    refine List.Nodup.map (fun a b h => ?_) (List.Nodup.filter _ ?_)
    · cases a; cases b
      simp only [Prod.mk.injEq] at h
      obtain ⟨rfl, rfl, rfl⟩ := h
      rfl
    · rw [List.nodup_flatMap]
      refine ⟨fun ij hij => basicOf_nodup fun s1 s2 h1 h2 => ?_, ?_⟩
      · obtain ⟨t1, t2, g1, g2, hm⟩ := (mem_pairsOf hidx).mp hij
        rw [h1] at g1; rw [h2] at g2
        cases g1; cases g2
        exact (hp s1 (List.mem_of_getElem? h1) s2 (List.mem_of_getElem? h2) hm).nodup
      refine List.Pairwise.imp ?_ (pairsOf_nodup (p2 := p2) hidx eps)
      intro a b hne x hx hy
      obtain ⟨x1, x2, -⟩ := mem_basicOf_iff.mp hx
      obtain ⟨y1, y2, -⟩ := mem_basicOf_iff.mp hy
      exact hne (Prod.ext (x1.symm.trans y1) (x2.symm.trans y2))
  have hEn : (E.map fun c => (c.1.1, c.2.1, curveAt p1 c.1.1 c.1.2)).Nodup := by
    refine List.Nodup.map_on ?_ (List.Nodup.of_map _ hc.first.nodup)
    intro a ha b hb' h
    simp only [Prod.mk.injEq] at h
    obtain ⟨e1, e2, e3⟩ := h
    have m1 : ∀ c ∈ E, c.1 ∈ E.map Prod.fst := fun c h => List.mem_map.mpr ⟨c, h, rfl⟩
    have m2 : ∀ c ∈ E, c.2 ∈ E.map Prod.snd := fun c h => List.mem_map.mpr ⟨c, h, rfl⟩
    refine Prod.ext ?_ ?_
    · by_contra hne
      have := hc.first.apart _ (m1 a ha) _ (m1 b hb') hne
      rw [e3] at this
      exact farApart_ne he this
    · by_contra hne
      have := hc.second.apart _ (m2 a ha) _ (m2 b hb') hne
      rw [← hc.on a ha, ← hc.on b hb', e3] at this
      exact farApart_ne he this
  have hmem : ∀ x : Nat × Nat × V2 ℝ, x ∈ (found.basic.map fun i => (i.startIndex1, i.startIndex2, i.point)) ↔
      x ∈ E.map fun c => (c.1.1, c.2.1, curveAt p1 c.1.1 c.1.2) := by
    rintro ⟨i, j, pt⟩
    rw [List.mem_map, List.mem_map]
    constructor
    · rintro ⟨b, hbm, h⟩
      simp only [Prod.mk.injEq] at h
      obtain ⟨rfl, rfl, rfl⟩ := h
      obtain ⟨s1, s2, h1, h2, hm, h3, -⟩ := (hb b).mp hbm
      obtain ⟨q1, q2⟩ := ((hp s1 (List.mem_of_getElem? h1) s2 (List.mem_of_getElem? h2) hm).points _).mp h3
      obtain ⟨i1, rfl⟩ := (seg_vtx f1.closed f1.two _ _).mp h1
      obtain ⟨i2, rfl⟩ := (seg_vtx f2.closed f2.two _ _).mp h2
      obtain ⟨t, t0, t1, et⟩ := q1
      obtain ⟨u, u0, u1, eu⟩ := q2
      dsimp only at et eu
      rw [← curveAt_vtx n1] at et
      rw [← curveAt_vtx n2] at eu
      refine ⟨_, hc.all _ t _ u i1 t0 t1 i2 u0 u1 (et.symm.trans eu), ?_⟩
      rw [et]
    · rintro ⟨⟨⟨i', t⟩, ⟨j', u⟩⟩, hcE, h⟩
      simp only [Prod.mk.injEq] at h
      obtain ⟨rfl, rfl, rfl⟩ := h
      have m1 : (i', t) ∈ E.map Prod.fst := List.mem_map.mpr ⟨_, hcE, rfl⟩
      have m2 : (j', u) ∈ E.map Prod.snd := List.mem_map.mpr ⟨_, hcE, rfl⟩
      have k1 := hc.first.ok _ m1
      have k2 := hc.second.ok _ m2
      have g1 := hc.first.range _ m1
      have g2 := hc.second.range _ m2
      have hon := hc.on _ hcE
      dsimp only at g1 g2 hon
      unfold CutOk at k1 k2
      dsimp only at k1 k2
      have o1 : OnSeg (vtx p1 i') (vtx p1 (i' + 1)) (curveAt p1 i' t) := ⟨t, k1.pos.le, k1.lt.le, curveAt_vtx n1 _ _⟩
      have o2 : OnSeg (vtx p2 j') (vtx p2 (j' + 1)) (curveAt p1 i' t) := ⟨u, k2.pos.le, k2.lt.le, by rw [hon, curveAt_vtx n2]⟩
      have h1 := (seg_vtx f1.closed f1.two i' _).mpr ⟨g1, rfl⟩
      have h2 := (seg_vtx f2.closed f2.two j' _).mpr ⟨g2, rfl⟩
      have hm : BoxesMeet (vtx p1 i', vtx p1 (i' + 1)) (vtx p2 j', vtx p2 (j' + 1)) eps := by
        refine C37_boxes _ _ eps he.le ?_ ?_ _ o1 o2
        · rcases (f1.full i').shape with h | h
          exacts [Or.inl h, Or.inr h.2]
        · rcases (f2.full j').shape with h | h
          exacts [Or.inl h, Or.inr h.2]
      refine ⟨⟨i', j', curveAt p1 i' t⟩, (hb _).mpr ⟨_, _, h1, h2, hm, ?_, ?_, ?_, ?_, ?_⟩, rfl⟩
      · exact ((hp _ (List.mem_of_getElem? h1) _ (List.mem_of_getElem? h2) hm).points _).mpr ⟨o1, o2⟩
      · rintro ⟨hf, -⟩
        have := k1.stop
        rw [← curveAt_vtx n1, fuzzy_comm] at this
        rw [this] at hf
        cases hf
      · rintro ⟨hf, -⟩
        have := k2.stop
        rw [← curveAt_vtx n2, ← hon, fuzzy_comm] at this
        rw [this] at hf
        cases hf
      · rintro ⟨-, q, hq, -⟩
        unfold IntrCollection.overlapsOn1 at hq
        rw [hov] at hq
        cases hq
      · rintro ⟨-, q, hq, -⟩
        unfold IntrCollection.overlapsOn2 at hq
        rw [hov] at hq
        cases hq
  obtain ⟨E', h1, h2⟩ := map_perm_exists _ _ _ ((List.perm_ext_iff_of_nodup hbn hEn).mpr hmem)
  exact ⟨found, E', hr, h1, hov, h2.symm⟩

/-- Straight segments. -/
theorem clear_lines {s1 s2 : Vertex ℝ × Vertex ℝ} (he : 0 < eps) (l1 : IsLine s1.1) (l2 : IsLine s2.1) (h : ClearLines s1 s2 eps) : FindsPair s1 s2 eps := by
  rcases h with ⟨⟨q, q1, q2⟩, hres⟩ | ⟨hres, hfar⟩
  · have hI := C27_lines_complete s1.1 s1.2 s2.1 s2.2 eps he l1 l2 hres q q1 q2
    refine ⟨by rw [hI]; rfl, by rw [hI]; simp [PlineSegIntr.isolated], ?_⟩
    intro pt
    constructor
    · intro hpt
      rw [hI] at hpt
      simp only [PlineSegIntr.isolated, List.mem_singleton] at hpt
      subst hpt
      exact ⟨q1, q2⟩
    · rintro ⟨a, b⟩
      rw [C27_lines_complete s1.1 s1.2 s2.1 s2.2 eps he l1 l2 hres pt a b]
      simp [PlineSegIntr.isolated]
  · have hno : ∀ pt, pt ∉ (plineSegIntr s1.1 s1.2 s2.1 s2.2 eps).points := by
      intro pt hpt
      obtain ⟨⟨a, ha, da⟩, b, hb, db⟩ := C27_lines s1.1 s1.2 s2.1 s2.2 eps he l1 l2 hres pt hpt
      have := hfar a b ha hb
      have tri := edist_triangle a pt b
      rw [edist_comm a pt] at tri
      linarith
    have hN : plineSegIntr s1.1 s1.2 s2.1 s2.2 eps = .noIntersect := by
      cases h : plineSegIntr s1.1 s1.2 s2.1 s2.2 eps with
      | noIntersect => rfl
      | tangentIntersect a => rw [h] at hno; exact absurd (by simp [PlineSegIntr.points]) (hno a)
      | oneIntersect a => rw [h] at hno; exact absurd (by simp [PlineSegIntr.points]) (hno a)
      | twoIntersects a b => rw [h] at hno; exact absurd (by simp [PlineSegIntr.points]) (hno a)
      | overlappingLines a b => rw [h] at hno; exact absurd (by simp [PlineSegIntr.points]) (hno a)
      | overlappingArcs a b => rw [h] at hno; exact absurd (by simp [PlineSegIntr.points]) (hno a)
    refine ⟨by rw [hN]; rfl, by rw [hN]; simp [PlineSegIntr.isolated], ?_⟩
    intro pt
    rw [hN]
    simp only [PlineSegIntr.isolated, List.not_mem_nil, false_iff, not_and]
    intro a b
    have := hfar pt pt a b
    rw [edist_self] at this
    linarith

end

end Cavc
