import Verif.Lemmas.PartShape
import Verif.Lemmas.Balance

/-! # The pieces of a polyline between its cuts -/

namespace Cavc
open Real RealScalar Pline

theorem cycAt_vtx {p : Pline ℝ} (hn : 0 < p.verts.length) (i : Nat) : cycAt p i = some (vtx p i) := by
  unfold vtx; rw [ViewData.cycAt_some p hn]; rfl

theorem curveAt_vtx {p : Pline ℝ} (hn : 0 < p.verts.length) (i : Nat) (t : ℝ) : curveAt p i t = segCurve (vtx p i) (vtx p (i + 1)) t := by
  unfold curveAt; rw [cycAt_vtx hn, cycAt_vtx hn]

theorem vtx_mod (p : Pline ℝ) (i : Nat) : vtx p (i % p.verts.length) = vtx p i := by
  unfold vtx cycAt; rw [Nat.mod_mod]

theorem vtx_add (p : Pline ℝ) (i : Nat) : vtx p (i + p.verts.length) = vtx p i := by
  unfold vtx cycAt; rw [Nat.add_mod_right]

theorem vtx_mod_succ (p : Pline ℝ) (i : Nat) : vtx p (i % p.verts.length + 1) = vtx p (i + 1) := by
  unfold vtx cycAt; rw [Nat.mod_add_mod]

theorem vtx_at {p : Pline ℝ} {i : Nat} (hi : i < p.verts.length) : p.verts[i]? = some (vtx p i) := by
  have := cycAt_vtx (p := p) (by omega) i
  unfold cycAt at this
  rwa [Nat.mod_eq_of_lt hi] at this

theorem at_vtx {p : Pline ℝ} {i : Nat} (hi : i < p.verts.length) : p.at i = .ok (vtx p i) := by
  rw [at_lt hi]
  have := vtx_at hi
  rw [List.getElem?_eq_getElem hi] at this
  injection this with this
  rw [this]

theorem segs_range {p : Pline ℝ} (hc : p.closed = true) (h2 : 2 ≤ p.verts.length) :
    p.segs = (List.range p.verts.length).map fun i => (vtx p i, vtx p (i + 1)) := by
  have hsc : p.segmentCount = p.verts.length := by
    unfold segmentCount vertexCount; dsimp only; rw [hc]; simp; omega
  apply List.ext_getElem?
  intro i
  by_cases hi : i < p.verts.length
  · obtain ⟨a, b, ha, hb, hab⟩ := segs_getElem? p i (by omega)
    rw [hab, List.getElem?_map, List.getElem?_range hi]
    rw [vtx_at hi] at ha
    rw [vtx_at (Nat.mod_lt _ (by omega)), vtx_mod] at hb
    cases ha; cases hb
    rfl
  · rw [List.getElem?_eq_none (by rw [segs_length]; omega), List.getElem?_eq_none (by simp; omega)]

theorem FullLoop.loop {p : Pline ℝ} {eps : ℝ} (h : FullLoop p eps) (he : 0 < eps) : Loop p := by
  refine ⟨h.closed, h.two, fun s hs => ?_⟩
  rw [segs_range h.closed h.two] at hs
  obtain ⟨i, -, rfl⟩ := List.mem_map.mp hs
  rcases (h.full i).shape with hl | ⟨h1, h2⟩
  · exact Or.inl hl
  · exact Or.inr ⟨h1, h2, fuzzy_ne he (h.full i).apart⟩

/-- One cut follows another without further requirements on what is between them. -/
def CutFollows (p : Pline ℝ) (eps : ℝ) (a b : Cut) : Prop :=
  (a.1 = b.1 ∧ a.2 < b.2 ∧ (curveAt p a.1 a.2).fuzzyEqEps (curveAt p b.1 b.2) eps = false ∧ LongPart (vtx p a.1) a.2 b.2) ∨
    (a.1 < b.1 ∧ b.1 ≤ a.1 + p.verts.length)

/-- first fraction of the part of segment number `j` in a piece -/
noncomputable def loOf (a : Cut) (j : Nat) : ℝ := if j = 0 then a.2 else 0
/-- last fraction of the part of segment number `j` in a piece -/
noncomputable def hiOf (a b : Cut) (j : Nat) : ℝ := if j = b.1 - a.1 then b.2 else 1

/-- The vertexes `vs` run along `p` from one cut to another. -/
structure Along (p : Pline ℝ) (eps : ℝ) (a b : Cut) (vs : List (Vertex ℝ)) : Prop where
  count : vs.length = (b.1 - a.1) + 2
  part : ∀ j x y, (pathSegs vs)[j]? = some (x, y) → PartSeg (vtx p (a.1 + j)) (vtx p (a.1 + j + 1)) eps (loOf a j) (hiOf a b j) x y

theorem view_along_path {p : Pline ℝ} {eps : ℝ} (hn : 0 < p.verts.length) (d : ViewData ℝ) (hr : d.InRange p) (hi : d.inverted = false) (t u : ℝ)
    (hmid : ∀ j, 1 ≤ j → j < d.endIndexOffset → FullSeg (vtx p (d.startIndex + j)) (vtx p (d.startIndex + j + 1)) eps)
    (hone : d.endIndexOffset = 0 → PartSeg (vtx p d.startIndex) (vtx p (d.startIndex + 1)) eps t u d.updatedStart ⟨d.endPoint.x, d.endPoint.y, 0⟩)
    (hfirst : 1 ≤ d.endIndexOffset → PartSeg (vtx p d.startIndex) (vtx p (d.startIndex + 1)) eps t 1 d.updatedStart (vtx p (d.startIndex + 1)))
    (hlast : 1 ≤ d.endIndexOffset → PartSeg (vtx p (d.startIndex + d.endIndexOffset)) (vtx p (d.startIndex + d.endIndexOffset + 1)) eps 0 u
      ⟨(vtx p (d.startIndex + d.endIndexOffset)).x, (vtx p (d.startIndex + d.endIndexOffset)).y, d.updatedEndBulge⟩ ⟨d.endPoint.x, d.endPoint.y, 0⟩) :
    ∃ vs, d.toPline p = .ok ⟨vs, false⟩ ∧ Along p eps (d.startIndex, t) (d.startIndex + d.endIndexOffset, u) vs := by
  obtain ⟨q, hq, hqc, hs⟩ := C19_view_slice d p hr hi
  obtain ⟨vs, c⟩ := q
  subst hqc
  refine ⟨vs, hq, ?_⟩
  dsimp only at hs
  generalize hk : d.endIndexOffset = k at *
  generalize hsx : d.startIndex = s at *
  refine ⟨by rw [hs.count]; simp, ?_⟩
  intro j a b hj
  have hjk : j < k + 1 := by
    have := (List.getElem?_eq_some_iff.mp hj).1
    rw [pathSegs_length, hs.count] at this
    omega
  rw [pathSegs_getElem?] at hj
  have hea : vs[j]? = some a ∧ vs[j + 1]? = some b := by
    cases h1 : vs[j]? <;> cases h2 : vs[j + 1]? <;> simp [h1, h2] at hj
    simp [hj]
  obtain ⟨ha, hb⟩ := hea
  have hnext : ∀ i, 1 ≤ i → i ≤ k → ∀ c, vs[i]? = some c → c.pos = (vtx p (s + i)).pos ∧ (i < k → c = vtx p (s + i)) ∧
      (i = k → c = ⟨(vtx p (s + i)).x, (vtx p (s + i)).y, d.updatedEndBulge⟩) := by
    intro i h1 h2 c hc
    rcases Nat.lt_or_ge i k with hlt | hge
    · rw [hs.interior i h1 hlt, cycAt_vtx hn] at hc
      cases hc
      exact ⟨rfl, fun _ => rfl, fun h => by omega⟩
    · have : i = k := by omega
      subst this
      rw [hs.final h1, cycAt_vtx hn] at hc
      cases hc
      exact ⟨rfl, fun h => by omega, fun _ => rfl⟩
  show PartSeg (vtx p (s + j)) (vtx p (s + j + 1)) eps (if j = 0 then t else 0) (if j = s + k - s then u else 1) a b
  rw [Nat.add_sub_cancel_left]
  by_cases hj0 : j = 0
  · subst hj0
    rw [hs.first] at ha
    cases ha
    simp only [Nat.add_zero, if_true]
    by_cases hk : k = 0
    · subst hk
      rw [hs.last] at hb
      cases hb
      simp only [if_true]
      exact hone rfl
    · rw [if_neg (Ne.symm hk)]
      obtain ⟨hp, -⟩ := hnext 1 le_rfl (by omega) b hb
      exact (hfirst (by omega)).congr rfl rfl hp.symm
  · simp only [if_neg hj0]
    obtain ⟨-, hv1, hv2⟩ := hnext j (by omega) (by omega) a ha
    by_cases hk : j = k
    · subst hk
      rw [hs.last] at hb
      cases hb
      simp only [if_true]
      rw [hv2 rfl]
      exact hlast (by omega)
    · rw [if_neg hk]
      obtain ⟨hp, -⟩ := hnext (j + 1) (by omega) (by omega) b hb
      rw [hv1 (by omega)]
      refine ⟨full_congr (hmid j (by omega) (by omega)) rfl rfl ?_, fun x => ?_⟩
      · rw [hp]; rfl
      · rw [segCurve_congr (a' := vtx p (s + j)) (b' := vtx p (s + j + 1)) rfl rfl (by rw [hp]; rfl)]
        congr 1; ring

theorem view_along {p : Pline ℝ} {eps : ℝ} (hf : FullLoop p eps) (d : ViewData ℝ) (hr : d.InRange p) (hi : d.inverted = false) (t u : ℝ)
    (hone : d.endIndexOffset = 0 → PartSeg (vtx p d.startIndex) (vtx p (d.startIndex + 1)) eps t u d.updatedStart ⟨d.endPoint.x, d.endPoint.y, 0⟩)
    (hfirst : 1 ≤ d.endIndexOffset → PartSeg (vtx p d.startIndex) (vtx p (d.startIndex + 1)) eps t 1 d.updatedStart (vtx p (d.startIndex + 1)))
    (hlast : 1 ≤ d.endIndexOffset → PartSeg (vtx p (d.startIndex + d.endIndexOffset)) (vtx p (d.startIndex + d.endIndexOffset + 1)) eps 0 u
      ⟨(vtx p (d.startIndex + d.endIndexOffset)).x, (vtx p (d.startIndex + d.endIndexOffset)).y, d.updatedEndBulge⟩ ⟨d.endPoint.x, d.endPoint.y, 0⟩) :
    ∃ vs, d.toPline p = .ok ⟨vs, false⟩ ∧ Along p eps (d.startIndex, t) (d.startIndex + d.endIndexOffset, u) vs :=
  view_along_path (by have := hf.two; omega) d hr hi t u (fun j _ _ => hf.full _) hone hfirst hlast

/-- A piece within one segment. -/
theorem single_along {p : Pline ℝ} {eps : ℝ} (hf : FullLoop p eps) {i : Nat} (hi : i < p.verts.length) {t u : ℝ} {a z : Vertex ℝ}
    (h : PartSeg (vtx p i) (vtx p (i + 1)) eps t u a z) :
    ∃ vs, ViewData.toPline ⟨i, 0, a, a.bulge, z.pos, false⟩ p = .ok ⟨vs, false⟩ ∧ Along p eps (i, t) (i, u) vs := by
  obtain ⟨vs, h1, h2⟩ := view_along hf ⟨i, 0, a, a.bulge, z.pos, false⟩ ⟨hi, by simp⟩ rfl t u (fun _ => h.congr rfl rfl rfl)
    (fun h => by simp at h) (fun h => by simp at h)
  exact ⟨vs, h1, h2⟩

/-- A piece over at least one vertex. -/
theorem pass_along {p : Pline ℝ} {eps : ℝ} (he : 0 < eps) (hf : FullLoop p eps) {i j : Nat} (hi : i < p.verts.length) (hij : i < j)
    (hj : j ≤ i + p.verts.length) {t u : ℝ} (hc : CutOk p eps (j, u)) {b : Vertex ℝ} (h : Base (vtx p i) (vtx p (i + 1)) eps t b) :
    ∃ d, ViewData.create p i (curveAt p j u) (j % p.verts.length) b (j - i) eps = .ok d ∧ d.startIndex = i ∧ d.endIndexOffset = j - i ∧
      d.updatedStart = b ∧ d.endPoint = curveAt p j u ∧ d.inverted = false ∧
      ∃ vs, d.toPline p = .ok ⟨vs, false⟩ ∧ Along p eps (i, t) (j, u) vs := by
  have hn : 0 < p.verts.length := by have := hf.two; omega
  have hcv := curveAt_vtx hn j u
  have e1 := at_vtx (p := p) (i := j % p.verts.length) (Nat.mod_lt _ hn)
  have e2 : p.at (p.nextWrap (j % p.verts.length)) = .ok (vtx p (j + 1)) := by
    rw [nextWrap_eq p (Nat.mod_lt _ hn), at_vtx (Nat.mod_lt _ hn), vtx_mod, vtx_mod_succ]
  have hnf : ¬ (curveAt p j u).fuzzyEqEps (vtx p j).pos eps = true := by
    rw [hcv]; simp [hc.start]
  refine ⟨⟨i, j - i, b, (segSplitAtPoint (vtx p j) (vtx p (j + 1)) (curveAt p j u) eps).updatedStart.bulge, curveAt p j u, false⟩, ?_,
    rfl, rfl, rfl, rfl, rfl, ?_⟩
  · unfold ViewData.create
    rw [if_neg (by omega), e1, vtx_mod]
    simp only [bind, Except.bind]
    rw [if_neg hnf, e2]
  · obtain ⟨vs, h1, h2⟩ := view_along hf
      ⟨i, j - i, b, (segSplitAtPoint (vtx p j) (vtx p (j + 1)) (curveAt p j u) eps).updatedStart.bulge, curveAt p j u, false⟩
      ⟨hi, by show j - i ≤ _; omega⟩ rfl t u (fun h => by simp at h; omega) (fun _ => h.rest) (fun _ => by
        dsimp only
        rw [Nat.add_sub_cancel' hij.le]
        have hf1 := hc.first he (hf.full j) ⟨(curveAt p j u).x, (curveAt p j u).y, 0⟩ (by rw [← hcv]; rfl)
        dsimp only at hf1
        rw [hcv] at hf1 ⊢
        exact hf1.congr (by rw [hf1.start, (segCurve_ends _ _).1]; rfl) rfl rfl)
    dsimp only at h2
    rw [Nat.add_sub_cancel' hij.le] at h2
    exact ⟨vs, h1, h2⟩

end Cavc
