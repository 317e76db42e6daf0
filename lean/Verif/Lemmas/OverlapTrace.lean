import Verif.Spec.OverlapTrace
import Verif.Lemmas.CutPieces
import Verif.Props.OverlapJoin

/-! # The part of the second polyline that an overlap slice runs along -/

set_option linter.unusedVariables false

namespace Cavc
open Real RealScalar Pline

/-- Position `(i, x)` is between `(s, t)` and `(e, u)`. -/
def Btw (s : Nat) (t : ℝ) (e : Nat) (u : ℝ) (i : Nat) (x : ℝ) : Prop :=
  s ≤ i ∧ i ≤ e ∧ 0 ≤ x ∧ x ≤ 1 ∧ (i = s → t ≤ x) ∧ (i = e → x ≤ u)

theorem traces_points {p q : Pline ℝ} {s k : Nat} {t u : ℝ} (h : TracesPart p q s k t u) (ht : 0 ≤ t) (ht1 : t ≤ 1) (hu : 0 ≤ u) (hu1 : u ≤ 1)
    (hk : k = 0 → t ≤ u) (pt : V2 ℝ) : OnPline q pt ↔ ∃ i x, Btw s t (s + k) u i x ∧ pt = curveAt p i x := by
  have lh : ∀ j, j ≤ k → (if j = 0 then t else 0) ≤ if j = k then u else 1 := by
    intro j hj
    by_cases h0 : j = 0
    · rw [if_pos h0]
      by_cases h1 : j = k
      · rw [if_pos h1]; exact hk (by omega)
      · rw [if_neg h1]; exact ht1
    · rw [if_neg h0]
      split
      · exact hu
      · norm_num
  have bounds : ∀ j, (0:ℝ) ≤ (if j = 0 then t else 0) ∧ (if j = k then u else 1) ≤ 1 := by
    intro j
    constructor
    · split
      · exact ht
      · exact le_rfl
    · split
      · exact hu1
      · exact le_rfl
  constructor
  · rintro ⟨sg, hsg, x, hx0, hx1, e⟩
    obtain ⟨j, hj⟩ := List.getElem?_of_mem hsg
    have hjk : j < k + 1 := by rw [← h.count]; exact (List.getElem?_eq_some_iff.mp hj).1
    have ha := h.along j sg.1 sg.2 hj x
    have l := lh j (by omega)
    obtain ⟨b1, b2⟩ := bounds j
    refine ⟨s + j, _, ⟨by omega, by omega, ?_, ?_, ?_, ?_⟩, e.trans ha⟩
    · nlinarith
    · nlinarith
    · intro hj0
      have : j = 0 := by omega
      rw [if_pos this] at l ⊢
      nlinarith
    · intro hj0
      have : j = k := by omega
      rw [if_pos this] at l ⊢
      nlinarith
  · rintro ⟨i, x, ⟨b1, b2, b3, b4, b5, b6⟩, e⟩
    have hi : i - s < q.segs.length := by rw [h.count]; omega
    have hj : q.segs[i - s]? = some (q.segs[i - s].1, q.segs[i - s].2) := List.getElem?_eq_getElem hi
    have lo : (if i - s = 0 then t else 0) ≤ x := by
      split
      · exact b5 (by omega)
      · exact b3
    have up : x ≤ if i - s = k then u else 1 := by
      split
      · exact b6 (by omega)
      · exact b4
    have ha := h.along (i - s) _ _ hj
    rw [show s + (i - s) = i by omega] at ha
    refine ⟨q.segs[i - s], List.getElem_mem hi, ?_⟩
    generalize (if i - s = 0 then t else 0) = lo' at *
    generalize (if i - s = k then u else 1) = up' at *
    rcases eq_or_lt_of_le (lo.trans up) with heq | hlt
    · refine ⟨0, le_rfl, zero_le_one, ?_⟩
      rw [ha 0, e]
      congr 1
      have : x = lo' := le_antisymm (by linarith) lo
      rw [this]; ring
    · have hp : 0 < up' - lo' := by linarith
      refine ⟨(x - lo') / (up' - lo'), by apply div_nonneg <;> linarith, by rw [div_le_one hp]; linarith, ?_⟩
      rw [ha, e]
      congr 1
      field_simp
      ring

/-- The facts about view data that make it trace a part of the source. -/
structure ViewRuns (p : Pline ℝ) (d : ViewData ℝ) (t u : ℝ) : Prop where
  one : d.endIndexOffset = 0 → ∀ z : Vertex ℝ, z.pos = d.endPoint → ∀ x,
    segCurve d.updatedStart z x = curveAt p d.startIndex (t + (u - t) * x)
  first : 1 ≤ d.endIndexOffset → ∀ w, cycAt p (d.startIndex + 1) = some w → ∀ x,
    segCurve d.updatedStart w x = curveAt p d.startIndex (t + (1 - t) * x)
  last : 1 ≤ d.endIndexOffset → ∀ v, cycAt p (d.startIndex + d.endIndexOffset) = some v → ∀ z : Vertex ℝ, z.pos = d.endPoint → ∀ x,
    segCurve ⟨v.x, v.y, d.updatedEndBulge⟩ z x = curveAt p (d.startIndex + d.endIndexOffset) (u * x)
  same : d.endIndexOffset = 0 → d.updatedEndBulge = d.updatedStart.bulge
  pos : d.updatedStart.pos = curveAt p d.startIndex t

theorem CleanCut.far_end {v w : Vertex ℝ} {t eps : ℝ} (h : CleanCut v w t eps) (h0 : 0 < t) :
    t = 1 ∨ (segCurve v w t).fuzzyEqEps w.pos eps = false := by
  rcases h with rfl | rfl | ⟨-, -, -, h⟩
  · exact absurd h0 (lt_irrefl _)
  · exact Or.inl rfl
  · exact Or.inr h

/-- The bulge for the part of a segment from its start. -/
theorem part_bulge (v w : Vertex ℝ) (eps : ℝ) (he : 0 < eps) (h : FullSeg v w eps) (t u : ℝ) (hc : CleanCut v w u eps) (hu : 0 < u)
    (hlong : LongPart v 0 u) (hor : IsLine v ∨ t = 0) (z : Vertex ℝ) (hz : z.pos = segCurve v w u) (x : ℝ) :
    segCurve ⟨v.x, v.y, (partStart v w (segCurve v w t) (segCurve v w u) eps).bulge⟩ z x = segCurve v w (u * x) := by
  by_cases hl : IsLine v
  · have hb : (partStart v w (segCurve v w t) (segCurve v w u) eps).bulge = 0 := by
      have h1 : (segSplitAtPoint v w (segCurve v w t) eps).splitVertex = ⟨(segCurve v w t).x, (segCurve v w t).y, 0⟩ := by
        unfold segSplitAtPoint
        rw [bulgeIsZero_true hl]; simp
      have h0 : IsLine (⟨(segCurve v w t).x, (segCurve v w t).y, 0⟩ : Vertex ℝ) := by unfold IsLine; norm_num
      unfold partStart
      rw [h1]
      unfold segSplitAtPoint
      rw [bulgeIsZero_true h0]; simp
    have hl0 : IsLine (⟨v.x, v.y, 0⟩ : Vertex ℝ) := by unfold IsLine; norm_num
    rw [hb, segCurve_line hl0, hz, segCurve_line hl, segCurve_line hl]
    simp only [linePoint, Vertex.pos, V2.ext_iff']
    constructor <;> ring
  · have ht := hor.resolve_left hl
    subst ht
    have h1 : (segSplitAtPoint v w (segCurve v w 0) eps).splitVertex = v := by
      rw [(segCurve_ends v w).1, (C28_split_ends v w hl v.pos eps).1 (Or.inr (fuzzy_refl _ he))]
      rfl
    unfold partStart
    rw [h1]
    exact end_bulge v w eps he h u hc hu hlong z hz x

section
variable {p1 p2 : Pline ℝ} {eps : ℝ} {T U : OverlapIntr ℝ → ℝ} {l : List (OverlapIntr ℝ)}

/-- The order of two overlaps on the same segment. -/
theorem before_frac (he : 0 < eps) (hf : FullLoop p2 eps) (hl : ∀ o ∈ l, o.InRange p1 p2) (hc : CleanOverlaps p2 eps T U l) {a b : OverlapIntr ℝ}
    (ha : a ∈ l) (hb : b ∈ l) (h : OverlapIntr.Before p2 a b) (hs : a.startIndex2 = b.startIndex2) : T a ≤ T b := by
  have hn : 0 < p2.verts.length := by have := hf.two; omega
  rcases h with h | ⟨-, h⟩
  · omega
  · have h := h _ (vtx_at (hl b hb).2)
    by_contra hlt
    rw [not_le] at hlt
    have hfull := hf.full b.startIndex2
    have hd := dist_from_start _ _ (hfull.proper he) (fuzzy_ne he hfull.apart) (hc.fractions b hb).1 hlt
      (by have := hc.fractions a ha; linarith)
    rw [hc.start a ha, hc.start b hb, hs, curveAt_vtx hn, curveAt_vtx hn] at h
    apply h
    simp only [Scalar.totalCmp]
    rw [if_neg (not_lt.mpr hd.le), if_neg hd.ne']

/-- A meeting of an overlap with an earlier one is at the start of the polyline. -/
theorem return_at_start (he : 0 < eps) (hf : FullLoop p2 eps) (hl : ∀ o ∈ l, o.InRange p1 p2) (hc : CleanOverlaps p2 eps T U l) {a z : OverlapIntr ℝ}
    (ha : a ∈ l) (hz : z ∈ l) (h : OverlapIntr.Before p2 a z) (hm : OverlapIntr.Meets eps z a) :
    a.startIndex2 = 0 ∧ z.startIndex2 + 1 = p2.verts.length ∧ T a = 0 ∧ U z = 1 := by
  have hle := Before.le h
  have hra := (hl a ha).2
  have hrz := (hl z hz).2
  have h2 := hf.two
  rcases hc.meets z hz a ha hm with ⟨h1, h2⟩ | ⟨h1, h2, h3⟩
  · have := before_frac he hf hl hc ha hz h h1
    have := hc.fractions z hz
    linarith
  · by_cases hlt : z.startIndex2 + 1 < p2.verts.length
    · rw [Nat.mod_eq_of_lt hlt] at h1; omega
    · have : z.startIndex2 + 1 = p2.verts.length := by omega
      rw [this, Nat.mod_self] at h1
      exact ⟨h1, this, h3, h2⟩

/-- Consecutive overlaps of a run. -/
theorem run_step (he : 0 < eps) (hf : FullLoop p2 eps) (hl : ∀ o ∈ l, o.InRange p1 p2) (hc : CleanOverlaps p2 eps T U l) {a b : OverlapIntr ℝ}
    (ha : a ∈ l) (hb : b ∈ l) (h : OverlapIntr.Before p2 a b) (hm : OverlapIntr.Meets eps a b) :
    (b.startIndex2 = a.startIndex2 ∧ T b = U a) ∨ (b.startIndex2 = a.startIndex2 + 1 ∧ U a = 1 ∧ T b = 0) := by
  have hle := Before.le h
  have hra := (hl a ha).2
  have h2 := hf.two
  rcases hc.meets a ha b hb hm with h1 | ⟨h1, h2, h3⟩
  · exact Or.inl h1
  · by_cases hlt : a.startIndex2 + 1 < p2.verts.length
    · rw [Nat.mod_eq_of_lt hlt] at h1; exact Or.inr ⟨h1, h2, h3⟩
    · have : a.startIndex2 + 1 = p2.verts.length := by omega
      rw [this, Nat.mod_self] at h1
      omega

/-- A run covers what its overlaps cover. -/
theorem run_covers (he : 0 < eps) (hf : FullLoop p2 eps) (hl : ∀ o ∈ l, o.InRange p1 p2) (hc : CleanOverlaps p2 eps T U l) (pt : V2 ℝ) :
    ∀ (t : List (OverlapIntr ℝ)) (a z : OverlapIntr ℝ), (∀ o ∈ a :: t, o ∈ l) → (a :: t).Pairwise (OverlapIntr.Before p2) →
      (a :: t).IsChain (OverlapIntr.Meets eps) → (a :: t).getLast? = some z →
      (a.startIndex2 < z.startIndex2 ∨ (a.startIndex2 = z.startIndex2 ∧ T a < U z)) ∧
      ((∃ o ∈ a :: t, OnOverlap p2 T U o pt) ↔ ∃ i x, Btw a.startIndex2 (T a) z.startIndex2 (U z) i x ∧ pt = curveAt p2 i x) := by
  intro t
  induction t with
  | nil =>
    intro a z hm hp hch hz
    obtain rfl : a = z := by simpa using hz
    obtain ⟨f1, f2, f3⟩ := hc.fractions a (hm a (by simp))
    refine ⟨Or.inr ⟨rfl, f2⟩, ?_⟩
    constructor
    · rintro ⟨o, ho, x, x1, x2, e⟩
      obtain rfl : o = a := by simpa using ho
      exact ⟨_, x, ⟨le_rfl, le_rfl, by linarith, by linarith, fun _ => x1, fun _ => x2⟩, e⟩
    · rintro ⟨i, x, ⟨b1, b2, b3, b4, b5, b6⟩, e⟩
      have : i = a.startIndex2 := by omega
      subst this
      exact ⟨a, by simp, x, b5 rfl, b6 rfl, e⟩
  | cons b t ih =>
    intro a z hm hp hch hz
    have hma := hm a (by simp)
    have hmb := hm b (by simp)
    obtain ⟨i1, i2⟩ := ih b z (fun o ho => hm o (List.mem_cons_of_mem _ ho)) (List.pairwise_cons.mp hp).2
      (List.isChain_cons_cons.mp hch).2 (by simpa [List.getLast?_cons_cons] using hz)
    have hstep := run_step he hf hl hc hma hmb ((List.pairwise_cons.mp hp).1 b (by simp)) (List.isChain_cons_cons.mp hch).1
    obtain ⟨f1, f2, f3⟩ := hc.fractions a hma
    obtain ⟨g1, g2, g3⟩ := hc.fractions b hmb
    have hsplit : (∃ o ∈ a :: b :: t, OnOverlap p2 T U o pt) ↔ OnOverlap p2 T U a pt ∨ ∃ o ∈ b :: t, OnOverlap p2 T U o pt := by
      simp only [List.mem_cons, exists_eq_or_imp]
    rw [hsplit, i2]
    rcases hstep with ⟨s1, s2⟩ | ⟨s1, s2, s3⟩
    · refine ⟨?_, ?_⟩
      · rcases i1 with i1 | ⟨i1, i3⟩
        · left; omega
        · right; exact ⟨by omega, by linarith⟩
      · constructor
        · rintro (⟨x, x1, x2, e⟩ | ⟨i, x, ⟨b1, b2, b3, b4, b5, b6⟩, e⟩)
          · refine ⟨a.startIndex2, x, ⟨le_rfl, ?_, by linarith, by linarith, fun _ => x1, ?_⟩, e⟩
            · rcases i1 with i1 | ⟨i1, -⟩ <;> omega
            · intro h
              rcases i1 with i1 | ⟨i1, i3⟩
              · omega
              · linarith
          · exact ⟨i, x, ⟨by omega, b2, b3, b4, fun h => by have := b5 (by omega); linarith, b6⟩, e⟩
        · rintro ⟨i, x, ⟨b1, b2, b3, b4, b5, b6⟩, e⟩
          by_cases hi : i = a.startIndex2
          · subst hi
            by_cases hx : x ≤ U a
            · exact Or.inl ⟨x, b5 rfl, hx, e⟩
            · exact Or.inr ⟨_, x, ⟨by omega, b2, b3, b4, fun _ => by linarith, b6⟩, e⟩
          · exact Or.inr ⟨i, x, ⟨by omega, b2, b3, b4, fun h => absurd (h.trans s1) hi, b6⟩, e⟩
    · have hlt : a.startIndex2 < z.startIndex2 := by rcases i1 with i1 | ⟨i1, -⟩ <;> omega
      refine ⟨Or.inl hlt, ?_⟩
      constructor
      · rintro (⟨x, x1, x2, e⟩ | ⟨i, x, ⟨b1, b2, b3, b4, b5, b6⟩, e⟩)
        · exact ⟨a.startIndex2, x, ⟨le_rfl, by omega, by linarith, by linarith, fun _ => x1, fun h => by omega⟩, e⟩
        · exact ⟨i, x, ⟨by omega, b2, b3, b4, fun h => by omega, b6⟩, e⟩
      · rintro ⟨i, x, ⟨b1, b2, b3, b4, b5, b6⟩, e⟩
        by_cases hi : i = a.startIndex2
        · subst hi
          exact Or.inl ⟨x, b5 rfl, by linarith, e⟩
        · exact Or.inr ⟨i, x, ⟨by omega, b2, b3, b4, fun _ => by linarith, b6⟩, e⟩

/-- The last overlap of a run of two or more continues another one. -/
theorem last_meets {R : OverlapIntr ℝ → OverlapIntr ℝ → Prop} : ∀ (g : List (OverlapIntr ℝ)) (z : OverlapIntr ℝ), 2 ≤ g.length → g.IsChain R →
    g.getLast? = some z → ∃ o ∈ g, R o z
  | [], _, h, _, _ => by simp at h
  | [_], _, h, _, _ => by simp at h
  | [a, b], z, _, hch, hz => by
    obtain rfl : b = z := by simpa using hz
    exact ⟨a, by simp, (List.isChain_cons_cons.mp hch).1⟩
  | a :: b :: c :: t, z, _, hch, hz => by
    obtain ⟨o, ho, h⟩ := last_meets (b :: c :: t) z (by simp) (List.isChain_cons_cons.mp hch).2 (by simpa [List.getLast?_cons_cons] using hz)
    exact ⟨o, List.mem_cons_of_mem _ ho, h⟩

/-- The slice of a run traces the part from the start of the first to the end of the last overlap. -/
theorem slice_runs (he : 0 < eps) (hf : FullLoop p2 eps) (hl : ∀ o ∈ l, o.InRange p1 p2) (hc : CleanOverlaps p2 eps T U l)
    (harc : ArcsFromStart p2 eps T l) {g : List (OverlapIntr ℝ)} {s : OverlapSlice ℝ} {a z : OverlapIntr ℝ}
    (h : IsSliceOf p1 p2 eps g s a z) (hg : ∀ o ∈ g, o ∈ l) (hb : g.Pairwise (OverlapIntr.Before p2)) (hd : g.Nodup)
    (hch : g.IsChain (OverlapIntr.Meets eps)) :
    a ∈ g ∧ z ∈ g ∧ (a.startIndex2 < z.startIndex2 ∨ (a.startIndex2 = z.startIndex2 ∧ T a < U z)) ∧
      s.viewData.endIndexOffset = z.startIndex2 - a.startIndex2 ∧
      (s.isLoop = true → a.startIndex2 = 0 ∧ z.startIndex2 + 1 = p2.verts.length ∧ T a = 0 ∧ U z = 1) ∧ ViewRuns p2 s.viewData (T a) (U z) ∧
      ∀ pt, (∃ o ∈ g, OnOverlap p2 T U o pt) ↔ ∃ i x, Btw a.startIndex2 (T a) z.startIndex2 (U z) i x ∧ pt = curveAt p2 i x := by
  obtain ⟨-, ha, hz, hle, -, hoff, hloop⟩ := slice_range h (fun o ho => hl o (hg o ho)) hb hd
  have hn : 0 < p2.verts.length := by have := hf.two; omega
  have h2 := hf.two
  have hra := (hl a (hg a ha)).2
  have hrz := (hl z (hg z hz)).2
  obtain ⟨f1, f2, f3⟩ := hc.fractions a (hg a ha)
  obtain ⟨g1, g2, g3⟩ := hc.fractions z (hg z hz)
  obtain ⟨t, rfl⟩ : ∃ t, g = a :: t := by
    cases g with
    | nil => simp at ha
    | cons b t => exact ⟨t, by have := h.first; simp at this; rw [this]⟩
  have hcov := fun pt => run_covers he hf hl hc pt t a z hg hb hch h.final
  have hord := (hcov ⟨0, 0⟩).1
  have hret : s.isLoop = true → a.startIndex2 = 0 ∧ z.startIndex2 + 1 = p2.verts.length ∧ T a = 0 ∧ U z = 1 := by
    intro hlp
    obtain ⟨-, hne, hfz⟩ := hloop hlp
    have hzt : z ∈ t := by
      rcases List.mem_cons.mp hz with rfl | hz
      · exact absurd rfl hne
      · exact hz
    exact return_at_start he hf hl hc (hg a ha) (hg z hz) ((List.pairwise_cons.mp hb).1 z hzt) (by
      unfold OverlapIntr.Meets
      rw [fuzzy_comm]; exact hfz)
  have va := vtx_at hra
  have va1 : cycAt p2 (a.startIndex2 + 1) = some (vtx p2 (a.startIndex2 + 1)) := cycAt_vtx hn _
  have vz := vtx_at hrz
  have vz1 : cycAt p2 (z.startIndex2 + 1) = some (vtx p2 (z.startIndex2 + 1)) := cycAt_vtx hn _
  have fa := hf.full a.startIndex2
  have fz := hf.full z.startIndex2
  have pa := hc.start a (hg a ha)
  have pz1 := hc.start z (hg z hz)
  have pz := hc.stop z (hg z hz)
  have ez := h.endPoint
  rw [curveAt_vtx hn] at pa pz pz1
  have sb := start_base _ _ eps he fa (T a) (hc.clean a (hg a ha)).1 (by linarith) (hc.long a (hg a ha)).1
  dsimp only at sb
  obtain ⟨sb1, sb2, sb3, sb4, sb5⟩ := sb
  refine ⟨ha, hz, hord, ?_, hret, ?_, fun pt => (hcov pt).2⟩
  · cases hlp : s.isLoop with
    | false => exact hoff hlp
    | true =>
      have := (hloop hlp).1
      have := hret hlp
      omega
  · cases hlp : s.isLoop with
    | true =>
      obtain ⟨r1, r2, r3, r4⟩ := hret hlp
      obtain ⟨w1, w2⟩ := h.wholeEnds hlp
      have ho := (hloop hlp).1
      rw [va] at w1
      have w1 := Option.some.inj w1
      have hend : z.point2 = (vtx p2 0).pos := by
        rw [pz, r4, (segCurve_ends _ _).2, r2, ← vtx_mod, Nat.mod_self]
      constructor
      · intro h0; omega
      · intro _ w hw x
        rw [h.startIndex, va1] at hw
        cases hw
        rw [← w1, h.startIndex, curveAt_vtx hn, r3]
        congr 1; ring
      · intro _ v hv z' hz' x
        rw [h.startIndex, r1, Nat.zero_add] at hv ⊢
        have hzo : z.startIndex2 = s.viewData.endIndexOffset := by omega
        rw [cycAt_vtx hn] at hv
        cases hv
        have hbl := w2 (vtx p2 z.startIndex2) (by
          show p2.verts.getLast? = some _
          rw [List.getLast?_eq_getElem?, ← vz]
          congr 1; omega)
        rw [hbl, curveAt_vtx hn, r4, one_mul, ← hzo]
        apply segCurve_congr rfl rfl
        rw [hz', ez, hend, r2, ← vtx_mod p2 p2.verts.length, Nat.mod_self]
      · intro h0; omega
      · rw [← w1, h.startIndex, curveAt_vtx hn, r3, (segCurve_ends _ _).1]
    | false =>
      have ho := hoff hlp
      have hps := h.partStart hlp _ _ va va1
      have hpe := h.partEnd hlp _ _ vz vz1
      by_cases hs : a.startIndex2 = z.startIndex2
      · rw [if_pos hs] at hps hpe
        have ht : T a < U z := by
          rcases hord with h' | ⟨-, h'⟩
          · omega
          · exact h'
        have hne : (segCurve (vtx p2 a.startIndex2) (vtx p2 (a.startIndex2 + 1)) (T a)).fuzzyEqEps
            (segCurve (vtx p2 a.startIndex2) (vtx p2 (a.startIndex2 + 1)) (U z)) eps = false := by
          rw [← pa, hs, ← pz]
          by_cases hlen : 2 ≤ (a :: t).length
          · rw [fuzzy_comm]
            by_contra hcon
            rw [h.loop.mpr ⟨hlen, by simpa using hcon⟩] at hlp
            cases hlp
          · have : t = [] := by
              cases t with
              | nil => rfl
              | cons b t => simp at hlen
            subst this
            obtain rfl : a = z := by simpa using h.final
            exact hc.apart a (hg a ha)
        have hcz := (hc.clean z (hg z hz)).2
        rw [← hs] at hcz
        have sg := single_base _ _ _ eps he (T a) (U z) f1 (by linarith) ht g3 sb1 sb2 sb3 sb4 sb5 (hcz.far_end (by linarith)) hne
          ((hc.long a (hg a ha)).2.2 z (hg z hz) hs.symm ht)
        dsimp only at sg
        unfold partStart at hps
        rw [pa, pz, ← hs] at hps
        rw [← hps] at sg
        constructor
        · intro _ z' hz' x
          rw [h.startIndex, curveAt_vtx hn]
          exact sg.2 z' (by rw [hz', ez, pz, ← hs]) x
        · intro h1; omega
        · intro h1; omega
        · intro _; exact hpe
        · rw [h.startIndex, curveAt_vtx hn]; exact sg.1
      · rw [if_neg hs] at hps hpe
        rw [pa] at hps
        rw [← hps] at sb1 sb5
        constructor
        · intro h0; omega
        · intro _ w hw x
          rw [h.startIndex, va1] at hw
          cases hw
          rw [h.startIndex, curveAt_vtx hn]
          exact sb5 x
        · intro _ v hv z' hz' x
          have hzi : s.viewData.startIndex + s.viewData.endIndexOffset = z.startIndex2 := by rw [h.startIndex]; omega
          rw [hzi] at hv ⊢
          rw [cycAt_vtx hn] at hv
          cases hv
          rw [hpe, curveAt_vtx hn, pz1, pz]
          apply part_bulge _ _ eps he fz _ _ (hc.clean z (hg z hz)).2 (by linarith) (hc.long z (hg z hz)).2.1
          · by_contra hcon
            rw [not_or] at hcon
            obtain ⟨o, ho', hm⟩ := last_meets (a :: t) z (by
              cases t with
              | nil => exact absurd (by have := h.final; simp at this; rw [this]) hs
              | cons b t => simp) hch h.final
            exact harc z (hg z hz) hcon.1 hcon.2 o (hg o ho') hm
          · rw [hz', ez, pz]
        · intro h0; omega
        · rw [h.startIndex, curveAt_vtx hn]; exact sb1

/-- Reading the slice of a boolean operation. -/
theorem overlap_view_traces {s : OverlapSlice ℝ} {t u : ℝ} (hs : s.startIndexes.2 < p2.verts.length) (ho : s.viewData.endIndexOffset ≤ p2.verts.length)
    (h : ViewRuns p2 (BoolSlice.fromOverlapping s false).viewData t u) :
    ∃ q, (BoolSlice.fromOverlapping s false).viewData.toPline p2 = .ok q ∧ q.closed = false ∧
      TracesPart p2 q s.startIndexes.2 s.viewData.endIndexOffset t u :=
  view_traces p2 (BoolSlice.fromOverlapping s false).viewData ⟨hs, ho⟩ rfl t u h.one h.first h.last

/-- Two slices joined at the start of the polyline. -/
theorem merge_runs (hf : FullLoop p2 eps) {d e j : ViewData ℝ} {t u : ℝ} (hd : ViewRuns p2 d t 1) (he : ViewRuns p2 e 0 u)
    (d1 : d.startIndex + d.endIndexOffset + 1 = p2.verts.length) (e1 : e.startIndex = 0) (dend : d.endPoint = (vtx p2 0).pos)
    (j1 : j.startIndex = d.startIndex) (j2 : j.updatedStart = d.updatedStart) (j3 : j.endPoint = e.endPoint)
    (j4 : j.updatedEndBulge = e.updatedEndBulge) (j5 : j.endIndexOffset = e.endIndexOffset + d.endIndexOffset + 1) : ViewRuns p2 j t u := by
  have hn : 0 < p2.verts.length := by have := hf.two; omega
  have hpos : j.startIndex + j.endIndexOffset = e.endIndexOffset + p2.verts.length := by omega
  constructor
  · intro h0; omega
  · intro _ w hw x
    rw [j1] at hw ⊢
    rw [j2]
    by_cases h0 : d.endIndexOffset = 0
    · have hw0 : w.pos = d.endPoint := by
        rw [cycAt_vtx hn] at hw
        cases hw
        rw [dend, show d.startIndex + 1 = p2.verts.length by omega, ← vtx_mod, Nat.mod_self]
      exact hd.one h0 w hw0 x
    · exact hd.first (by omega) w hw x
  · intro _ v hv z hz x
    rw [hpos] at hv ⊢
    rw [j4]
    have hcyc : curveAt p2 (e.endIndexOffset + p2.verts.length) (u * x) = curveAt p2 e.endIndexOffset (u * x) := by
      rw [curveAt_vtx hn, curveAt_vtx hn, vtx_add, show e.endIndexOffset + p2.verts.length + 1 = e.endIndexOffset + 1 + p2.verts.length by omega, vtx_add]
    rw [cycAt_vtx hn, vtx_add] at hv
    rw [hcyc]
    by_cases h0 : e.endIndexOffset = 0
    · cases hv
      have := he.one h0 z (by rw [hz, j3]) x
      rw [e1, zero_add, sub_zero] at this
      rw [h0, ← this, he.same h0]
      refine segCurve_congr (a := ⟨(vtx p2 0).x, (vtx p2 0).y, e.updatedStart.bulge⟩) (a' := e.updatedStart) ?_ rfl rfl x
      rw [he.pos, e1, curveAt_vtx hn, (segCurve_ends _ _).1]
      rfl
    · have := he.last (by omega) v (by rw [e1, Nat.zero_add, cycAt_vtx hn]; exact hv) z (by rw [hz, j3]) x
      rw [e1, Nat.zero_add] at this
      exact this
  · intro h0; omega
  · rw [j2, j1]; exact hd.pos

end

end Cavc
