import Verif.Lemmas.OffsetResult
import Verif.Spec.OffsetAny
import Verif.Lemmas.SelfCuts
import Verif.Props.Boxes
import Verif.Props.Closest

/-! # The results of the parallel offset against any raw offset along which the distance changes only at crossings -/

set_option linter.unusedVariables false
set_option linter.unusedSectionVars false

namespace Cavc
open Pline

section
variable {p R : Pline ℝ} {r eps gap : ℝ} {E : List (Cut × Cut)}

/-- Along a part of a segment without cuts inside, the distance is kept everywhere or nowhere (except at cuts). -/
theorem keep_seg_core {j : Nat} (hn : 0 < R.verts.length) {cut : ℝ → Prop}
    (hC : ∀ t, 0 ≤ t → t ≤ 1 → ¬ cut t → Keeps p r (curveAt R j t) → ∃ δ > 0, ∀ t', 0 ≤ t' → t' ≤ 1 → |t' - t| < δ → Keeps p r (curveAt R j t'))
    {lo hi : ℝ} (h0 : 0 ≤ lo) (hlt : lo < hi) (h1 : hi ≤ 1) (hno : ∀ t, lo < t → t < hi → ¬ cut t)
    {s : ℝ} (hs0 : lo ≤ s) (hs1 : s ≤ hi) (hcut : ¬ cut s) (hk : Keeps p r (curveAt R j s)) :
    ∀ t, lo ≤ t → t ≤ hi → Keeps p r (curveAt R j t) := by
  -- a point inside
  have hin : ∃ s, lo < s ∧ s < hi ∧ Keeps p r (curveAt R j s) := by
    obtain ⟨δ, hδ, h⟩ := hC _ (by linarith) (by linarith) hcut hk
    rcases hs0.eq_or_lt with rfl | hs0
    · refine ⟨lo + min (δ / 2) ((hi - lo) / 2), ?_, ?_, h _ ?_ ?_ ?_⟩
      · have : 0 < min (δ / 2) ((hi - lo) / 2) := lt_min (by linarith) (by linarith)
        linarith
      · have := min_le_right (δ / 2) ((hi - lo) / 2); linarith
      · have : 0 < min (δ / 2) ((hi - lo) / 2) := lt_min (by linarith) (by linarith)
        linarith
      · have := min_le_right (δ / 2) ((hi - lo) / 2); linarith
      · have := min_le_left (δ / 2) ((hi - lo) / 2)
        have h' : 0 < min (δ / 2) ((hi - lo) / 2) := lt_min (by linarith) (by linarith)
        rw [add_sub_cancel_left, abs_of_pos h']; linarith
    · refine ⟨s - min (δ / 2) ((s - lo) / 2), ?_, ?_, h _ ?_ ?_ ?_⟩
      · have := min_le_right (δ / 2) ((s - lo) / 2); linarith
      · have : 0 < min (δ / 2) ((s - lo) / 2) := lt_min (by linarith) (by linarith)
        linarith
      · have := min_le_right (δ / 2) ((s - lo) / 2); linarith
      · have : 0 < min (δ / 2) ((s - lo) / 2) := lt_min (by linarith) (by linarith)
        linarith
      · have := min_le_left (δ / 2) ((s - lo) / 2)
        have h' : 0 < min (δ / 2) ((s - lo) / 2) := lt_min (by linarith) (by linarith)
        rw [sub_sub_cancel_left, abs_neg, abs_of_pos h']; linarith
  obtain ⟨s', hs0', hs1', hk'⟩ := hin
  have hcl := keeps_closed (p := p) hn j r
  have hopen : ∀ t, lo < t → t < hi → Keeps p r (curveAt R j t) := by
    by_contra hbad
    push Not at hbad
    obtain ⟨t, t0, t1, hbad⟩ := hbad
    have hU : IsOpen {x | lo < x ∧ x < hi ∧ Keeps p r (curveAt R j x)} := by
      rw [Metric.isOpen_iff]
      rintro x ⟨x0, x1, hx⟩
      obtain ⟨δ, hδ, h⟩ := hC _ (by linarith) (by linarith) (hno x x0 x1) hx
      refine ⟨min δ (min (x - lo) (hi - x)), lt_min hδ (lt_min (by linarith) (by linarith)), fun y hy => ?_⟩
      rw [Metric.mem_ball, Real.dist_eq] at hy
      obtain ⟨a1, a2⟩ := lt_min_iff.mp hy
      obtain ⟨a2, a3⟩ := lt_min_iff.mp a2
      have := abs_lt.mp a2
      have := abs_lt.mp a3
      exact ⟨by linarith, by linarith, h y (by linarith) (by linarith) a1⟩
    have hV : IsOpen {x | Keeps p r (curveAt R j x)}ᶜ := hcl.isOpen_compl
    obtain ⟨z, hz, hzu, hzv⟩ := isPreconnected_Ioo (a := lo) (b := hi) _ _ hU hV
      (fun x hx => by
        by_cases hkx : Keeps p r (curveAt R j x)
        · exact Or.inl ⟨hx.1, hx.2, hkx⟩
        · exact Or.inr hkx)
      ⟨s', ⟨hs0', hs1'⟩, hs0', hs1', hk'⟩ ⟨t, ⟨t0, t1⟩, hbad⟩
    exact hzv hzu.2.2
  intro t t0 t1
  have hsub : Set.Icc lo hi ⊆ {x | Keeps p r (curveAt R j x)} := by
    rw [← closure_Ioo hlt.ne]
    exact closure_minimal (fun x hx => hopen x hx.1 hx.2) hcl
  exact hsub ⟨t0, t1⟩

/-- Along a part of a segment without crossings inside, the distance is kept everywhere or nowhere (except at crossings). -/
theorem keep_seg_any (hC : ChangesAtCrossings p R r E) {j : Nat} (hj : j < R.verts.length)
    {lo hi : ℝ} (h0 : 0 ≤ lo) (hlt : lo < hi) (h1 : hi ≤ 1) (hno : ∀ t, lo < t → t < hi → (j, t) ∉ bothCuts E)
    {s : ℝ} (hs0 : lo ≤ s) (hs1 : s ≤ hi) (hcut : (j, s) ∉ bothCuts E) (hk : Keeps p r (curveAt R j s)) :
    ∀ t, lo ≤ t → t ≤ hi → Keeps p r (curveAt R j t) :=
  keep_seg_core (cut := fun t => (j, t) ∈ bothCuts E) (by omega) (fun t => hC.steady j t hj) h0 hlt h1 hno hs0 hs1 hcut hk

theorem keep_run_any (hC : ChangesAtCrossings p R r E) (hE : SelfCrossing R eps gap E) {i m : Nat} {lo hi : Nat → ℝ}
    (hr : StretchRun R E i m lo hi) {j : Nat} (hj : j ≤ m) {t : ℝ} (t0 : lo j ≤ t) (t1 : t ≤ hi j)
    (hcut : ((i + j) % R.verts.length, t) ∉ bothCuts E) (hk : Keeps p r (curveAt R (i + j) t)) :
    ∀ k ≤ m, ∀ u, lo k ≤ u → u ≤ hi k → Keeps p r (curveAt R (i + k) u) := by
  have hn : 0 < R.verts.length := by have := hE.three; omega
  have seg : ∀ k ≤ m, (∃ s, lo k ≤ s ∧ s ≤ hi k ∧ ((i + k) % R.verts.length, s) ∉ bothCuts E ∧ Keeps p r (curveAt R (i + k) s)) →
      ∀ u, lo k ≤ u → u ≤ hi k → Keeps p r (curveAt R (i + k) u) := by
    rintro k hk ⟨s, s0, s1, hs, hks⟩ u u0 u1
    have h := hr.each k hk
    rw [← curveAt_wrap hn] at hks ⊢
    exact keep_seg_any hC h.range h.zero h.lt h.one h.inside s0 s1 hs hks u u0 u1
  have h0 := seg j hj ⟨t, t0, t1, hcut, hk⟩
  have up : ∀ k, j ≤ k → k ≤ m → ∀ u, lo k ≤ u → u ≤ hi k → Keeps p r (curveAt R (i + k) u) := by
    intro k hjk
    induction k, hjk using Nat.le_induction with
    | base => exact fun _ => h0
    | succ k hjk ih =>
      intro hkm
      obtain ⟨h1, h2⟩ := hr.joint k (by omega)
      have hs := hr.each (k + 1) hkm
      have hs' := hr.each k (by omega)
      refine seg (k + 1) hkm ⟨0, by rw [h2], by have := hs.lt; have := hs.zero; linarith, fun h => absurd (cut_pos hE h).1 (lt_irrefl 0), ?_⟩
      have := ih (by omega) 1 (by rw [← h1]; exact hs'.lt.le) (by rw [h1])
      rw [curveAt_join hn] at this
      exact this
  have down : ∀ w k, k + w = j → ∀ u, lo k ≤ u → u ≤ hi k → Keeps p r (curveAt R (i + k) u) := by
    intro w
    induction w with
    | zero => intro k hk; have : k = j := by omega
              subst this; exact h0
    | succ w ih =>
      intro k hk
      obtain ⟨h1, h2⟩ := hr.joint k (by omega)
      have hs := hr.each (k + 1) (by omega)
      have hs' := hr.each k (by omega)
      refine seg k (by omega) ⟨1, by rw [← h1]; exact hs'.lt.le, by rw [h1], fun h => absurd (cut_pos hE h).2 (lt_irrefl 1), ?_⟩
      have := ih (k + 1) (by omega) 0 (by rw [h2]) (by have := hs.lt; have := hs.zero; linarith)
      rw [← Nat.add_assoc, ← curveAt_join hn] at this
      exact this
  intro k hk
  rcases Nat.le_total j k with h | h
  · exact up k h hk
  · exact down (j - k) k (by omega)


end

/-! ## The test of points -/

section
variable {p : Pline ℝ} {d eps tol : ℝ}

theorem segs_proper (hp : FullLoop p eps) (he : 0 < eps) {s : Vertex ℝ × Vertex ℝ} (hs : s ∈ p.segs) : IsLine s.1 ∨ ProperArc s.1 s.2 := by
  rw [segs_range hp.closed hp.two] at hs
  obtain ⟨i, -, rfl⟩ := List.mem_map.mp hs
  exact (hp.full i).proper he

theorem Readable.far {X : V2 ℝ} (h : Readable p eps X) {s : Vertex ℝ × Vertex ℝ} (hs : s ∈ p.segs) (hl : ¬ IsLine s.1) :
    (eps ≤ |X.x - (arcCenter s.1.pos s.2.pos s.1.bulge).x| ∨ eps ≤ |X.y - (arcCenter s.1.pos s.2.pos s.1.bulge).y|) := (h s hs hl _ rfl).1

theorem Readable.ends {X : V2 ℝ} (h : Readable p eps X) {s : Vertex ℝ × Vertex ℝ} (hs : s ∈ p.segs) (hl : ¬ IsLine s.1) (e : V2 ℝ) (he : e = s.1.pos ∨ e = s.2.pos) :
    ¬ (0 < |cross (arcCenter s.1.pos s.2.pos s.1.bulge) e X| ∧ |cross (arcCenter s.1.pos s.2.pos s.1.bulge) e X| < eps) := by
  rintro ⟨h1, h2⟩
  rcases (h s hs hl _ rfl).2 e he with h0 | h0
  · exact (abs_pos.mp h1) h0
  · exact absurd h2 (not_lt.mpr h0)

theorem keeps_clear_segs (hp : ∀ s ∈ p.segs, IsLine s.1 ∨ ProperArc s.1 s.2) (he : 0 < eps) (ht : 0 < tol) (hD : tol ≤ |d|) {X : V2 ℝ} (hX : Readable p eps X) (h : Keeps p |d| X) :
    PointClear p d eps tol X := by
  intro s hs _
  have hon : OnSeg s.1 s.2 (segClosestPoint s.1 s.2 X eps) := by
    rcases hp s hs with hl | ha
    · exact (C32_line s.1 s.2 hl X eps).1
    · exact (C32_arc_partial s.1 s.2 ha X eps he (hX.far hs ha.notLine)).2.2 (hX.ends hs ha.notLine)
  have h1 := h _ ⟨s, hs, hon⟩
  have h2 : |d| - tol < edist X (segClosestPoint s.1 s.2 X eps) := by linarith
  have h3 : (|d| - tol) ^ 2 < edist X (segClosestPoint s.1 s.2 X eps) ^ 2 := by nlinarith
  rw [edist_sq] at h3
  simp only [RealScalar.gt_eq, RealScalar.abs_eq, distSquared, decide_eq_true_eq, V2.dot_eq]
  have e1 : (segClosestPoint s.1 s.2 X eps - X).x = (segClosestPoint s.1 s.2 X eps).x - X.x := rfl
  have e2 : (segClosestPoint s.1 s.2 X eps - X).y = (segClosestPoint s.1 s.2 X eps).y - X.y := rfl
  rw [e1, e2]
  nlinarith

theorem clear_keeps_segs (hp : ∀ s ∈ p.segs, IsLine s.1 ∨ ProperArc s.1 s.2) (he : 0 < eps) (ht : 0 ≤ tol) (hD : tol ≤ |d|) {X : V2 ℝ} (hX : Readable p eps X) (hdec : Decided p |d| tol X)
    (h : PointClear p d eps tol X) : Keeps p |d| X := by
  rcases hdec with hk | ⟨q, hq, hqd⟩
  · exact hk
  · exfalso
    obtain ⟨s, hs, hqs⟩ := hq
    have hpr := hp s hs
    have hbox := C33_fast_box s.1 s.2 (hpr.imp_right fun h => h.half) q hqs
    have hov : (segBox s).overlaps ⟨X.x - (Scalar.abs d - tol), X.y - (Scalar.abs d - tol), X.x + (Scalar.abs d - tol), X.y + (Scalar.abs d - tol)⟩ = true := by
      obtain ⟨h1, h2, h3, h4⟩ := hbox
      have hD' : 0 ≤ |d| - tol := by linarith
      rw [edist_sq] at hqd
      have hx : |X.x - q.x| ≤ |d| - tol := abs_le_of_sq_le_sq (by nlinarith [sq_nonneg (X.y - q.y)]) hD'
      have hy : |X.y - q.y| ≤ |d| - tol := abs_le_of_sq_le_sq (by nlinarith [sq_nonneg (X.x - q.x)]) hD'
      rw [abs_le] at hx hy
      simp only [segBox, AABB.overlaps, RealScalar.abs_eq, RealScalar.lt_eq, RealScalar.gt_eq, Bool.not_eq_true', Bool.or_eq_false_iff, decide_eq_false_iff_not, not_lt]
      exact ⟨⟨⟨by linarith, by linarith⟩, by linarith⟩, by linarith⟩
    have hgt := h s hs hov
    have h3 : edist X (segClosestPoint s.1 s.2 X eps) ^ 2 ≤ edist X q ^ 2 + 2 / 100000000 := by
      rcases hpr with hl | ha
      · exact (C32_line s.1 s.2 hl X eps).2 q hqs
      · have := (C32_arc_partial s.1 s.2 ha X eps he (hX.far hs ha.notLine)).1 q hqs
        have := edist_nonneg X (segClosestPoint s.1 s.2 X eps)
        nlinarith
    simp only [RealScalar.gt_eq, RealScalar.abs_eq, distSquared, decide_eq_true_eq, V2.dot_eq] at hgt
    have e1 : (segClosestPoint s.1 s.2 X eps - X).x = (segClosestPoint s.1 s.2 X eps).x - X.x := rfl
    have e2 : (segClosestPoint s.1 s.2 X eps - X).y = (segClosestPoint s.1 s.2 X eps).y - X.y := rfl
    rw [e1, e2] at hgt
    rw [edist_sq X (segClosestPoint s.1 s.2 X eps)] at h3
    nlinarith

theorem keeps_clear_any (hp : FullLoop p eps) (he : 0 < eps) (ht : 0 < tol) (hD : tol ≤ |d|) {X : V2 ℝ} (hX : Readable p eps X) (h : Keeps p |d| X) :
    PointClear p d eps tol X := keeps_clear_segs (fun s hs => segs_proper hp he hs) he ht hD hX h

theorem clear_keeps_any (hp : FullLoop p eps) (he : 0 < eps) (ht : 0 ≤ tol) (hD : tol ≤ |d|) {X : V2 ℝ} (hX : Readable p eps X) (hdec : Decided p |d| tol X)
    (h : PointClear p d eps tol X) : Keeps p |d| X := clear_keeps_segs (fun s hs => segs_proper hp he hs) he ht hD hX hdec h

end

section
variable {p R : Pline ℝ} {d eps gap tol : ℝ} {E : List (Cut × Cut)}

/-- All points of the piece keep the distance. -/
def PieceFar (p R : Pline ℝ) (r : ℝ) (a b : Cut) : Prop :=
  ∀ j ≤ b.1 - a.1, ∀ t, loOf a j ≤ t → t ≤ hiOf a b j → Keeps p r (curveAt R (a.1 + j) t)

theorem run_clear_any (hp : FullLoop p eps) (he : 0 < eps) (ht : 0 < tol) (hD : tol ≤ |d|) (hE : SelfCrossing R eps gap E) (hT : ClearTests p R d eps tol E) (hW : ReadableTests p R eps E)
    {i m : Nat} {lo hi : Nat → ℝ} (hr : StretchRun R E i m lo hi)
    (hk : ∀ j ≤ m, ∀ t, lo j ≤ t → t ≤ hi j → Keeps p |d| (curveAt R (i + j) t)) {s : ViewData ℝ} {vs : List (Vertex ℝ)}
    (hs : s.toPline R = .ok ⟨vs, false⟩) (hlen : vs.length = m + 2)
    (hpart : ∀ j x y, (pathSegs vs)[j]? = some (x, y) →
      PartSeg (vtx R (i + j)) (vtx R (i + j + 1)) eps (lo j) (hi j) x y) :
    SliceClear p R d eps tol s := by
  have hn : 0 < R.verts.length := by have := hE.three; omega
  have hseg : ∀ j x y, vs[j]? = some x → vs[j + 1]? = some y → j ≤ m ∧ FullSeg x y eps ∧
      ∀ t, segCurve x y t = curveAt R (i + j) (lo j + (hi j - lo j) * t) := by
    intro j x y hx hy
    have h := hpart j x y ((pathSegs_getElem vs j (x, y)).mpr ⟨hx, hy⟩)
    have := (List.getElem?_eq_some_iff.mp hy).1
    exact ⟨by omega, h.full, fun t => by rw [h.along, curveAt_vtx hn]⟩
  have hpt : ∀ j x y, vs[j]? = some x → vs[j + 1]? = some y → ∀ t, 0 ≤ t → t ≤ 1 → Keeps p |d| (segCurve x y t) := by
    intro j x y hx hy t t0 t1
    obtain ⟨hj, -, h⟩ := hseg j x y hx hy
    have hst := hr.each j hj
    rw [h]
    refine hk j hj _ ?_ ?_
    · nlinarith [hst.lt]
    · nlinarith [hst.lt]
  have hrd : ∀ j x y, vs[j]? = some x → vs[j + 1]? = some y →
      Readable p eps (segCurve x y 0) ∧ Readable p eps (segCurve x y (1 / 2)) ∧ Readable p eps (segCurve x y 1) := by
    intro j x y hx hy
    obtain ⟨hj, -, h⟩ := hseg j x y hx hy
    obtain ⟨r1, r2, r3⟩ := hW _ _ _ (hr.each j hj)
    rw [curveAt_wrap hn] at r1 r2 r3
    rw [h, h, h]
    refine ⟨?_, ?_, ?_⟩
    · rw [show lo j + (hi j - lo j) * 0 = lo j by ring]; exact r1
    · rw [show lo j + (hi j - lo j) * (1 / 2) = (lo j + hi j) / 2 by ring]; exact r2
    · rw [show lo j + (hi j - lo j) * 1 = hi j by ring]; exact r3
  refine ⟨vs, ⟨hs, by intro h; rw [h] at hlen; simp at hlen⟩, ?_, ?_⟩
  · intro v hv
    obtain ⟨k, hk', rfl⟩ := List.getElem_of_mem hv
    by_cases h : k + 1 < vs.length
    · have := hpt k _ _ (List.getElem?_eq_getElem hk') (List.getElem?_eq_getElem h) 0 le_rfl zero_le_one
      have hr1 := (hrd k _ _ (List.getElem?_eq_getElem hk') (List.getElem?_eq_getElem h)).1
      rw [(segCurve_ends _ _).1] at this hr1
      exact keeps_clear_any hp he ht hD hr1 this
    · have h2 : k - 1 + 1 = k := by omega
      have hk1 : k - 1 < vs.length := by omega
      have := hpt (k - 1) _ vs[k] (List.getElem?_eq_getElem hk1) (by rw [h2]; exact List.getElem?_eq_getElem hk') 1 zero_le_one le_rfl
      have hr1 := (hrd (k - 1) _ vs[k] (List.getElem?_eq_getElem hk1) (by rw [h2]; exact List.getElem?_eq_getElem hk')).2.2
      rw [(segCurve_ends _ _).2] at this hr1
      exact keeps_clear_any hp he ht hD hr1 this
  · intro j x y hx hy
    obtain ⟨hj, hfull, h⟩ := hseg j x y hx hy
    have hst := hr.each j hj
    constructor
    · refine hT.clear _ _ _ x y hst (fun t t0 t1 => ?_) hfull (fun t => ?_)
      · rw [curveAt_wrap hn]; exact hk j hj t t0 t1
      · rw [curveAt_wrap hn, h]
    · intro _
      rw [(C30_midpoint x y (hfull.proper he)).1]
      exact keeps_clear_any hp he ht hD (hrd j x y hx hy).2.1 (hpt j x y hx hy _ (by norm_num) (by norm_num))

variable {CS : List Cut} {f : Cut}

theorem piece_clear_any (hp : FullLoop p eps) (he : 0 < eps) (ht : 0 < tol) (hD : tol ≤ |d|) (hf : FullLoop R eps) (hE : SelfCrossing R eps gap E) (hC : ChangesAtCrossings p R |d| E)
    (hT : ClearTests p R d eps tol E) (hW : ReadableTests p R eps E) (hS : RunCuts R E CS f) {a b : Cut} (hab : (a, b) ∈ pathSegs (CS ++ [again R f]))
    {s : ViewData ℝ} {vs : List (Vertex ℝ)} (hs : s.toPline R = .ok ⟨vs, false⟩) (hal : Along R eps a b vs) :
    SliceClear p R d eps tol s ↔ PieceFar p R |d| a b := by
  have hn : 0 < R.verts.length := by have := hE.three; omega
  have hr := piece_run he hf hE hS hab
  obtain ⟨-, ha, hb, -⟩ := between_cuts he hf hE hS hab
  have hai := hE.range a ha
  constructor
  · rintro ⟨vs', ⟨h1, -⟩, -, h3⟩
    have : vs' = vs := by have := h1.symm.trans hs; simpa using this
    subst this
    have hl := hal.count
    have hx := List.getElem?_eq_getElem (show 0 < vs'.length by omega)
    have hy := List.getElem?_eq_getElem (show 0 + 1 < vs'.length by omega)
    have hm := (h3 0 _ _ hx hy).2 (Or.inl rfl)
    have hpt := hal.part 0 _ _ ((pathSegs_getElem vs' 0 _).mpr ⟨hx, hy⟩)
    rw [(C30_midpoint _ _ (hpt.full.proper he)).1, hpt.along, ← curveAt_vtx hn, Nat.add_zero] at hm
    have hst := hr.each 0 (Nat.zero_le _)
    rw [Nat.add_zero, Nat.mod_eq_of_lt hai] at hst
    have hlo : loOf a 0 = a.2 := by simp [loOf]
    have hmid : loOf a 0 + (hiOf a b 0 - loOf a 0) * (1 / 2) = (loOf a 0 + hiOf a b 0) / 2 := by ring
    rw [hmid] at hm
    have hk := clear_keeps_any hp he ht.le hD (hW _ _ _ hst).2.1 (hT.middle a.1 _ _ hst (by rw [hlo]; exact ha)) hm
    have hlt := hst.lt
    refine keep_run_any hC hE hr (j := 0) (Nat.zero_le _) (t := (loOf a 0 + hiOf a b 0) / 2) (by linarith) (by linarith) ?_ ?_
    · rw [Nat.add_zero, Nat.mod_eq_of_lt hai]
      exact hst.inside _ (by linarith) (by linarith)
    · exact hk
  · intro hk
    exact run_clear_any hp he ht hD hE hT hW hr hk hs hal.count hal.part


/-- The results are made of the pieces of the raw offset that keep the distance; every point of the raw offset that keeps the
distance and is not a crossing is among them. -/
theorem result_points_any {joinEps : ℝ} (hp : FullLoop p eps) (he : 0 < eps) (ht : 0 < tol) (hD : tol ≤ |d|) (hf : FullLoop R eps) (hE : SelfCrossing R eps gap E)
    (hF : FindsSelf R eps) (hC : ChangesAtCrossings p R |d| E) (hT : ClearTests p R d eps tol E) (hW : ReadableTests p R eps E) (hg : eps ≤ gap) (hj : 2 * joinEps ≤ gap) (hj0 : 0 ≤ joinEps)
    {es : List (Nat × V2 ℝ)} {ss : List (ViewData ℝ)} {rs : List (Pline ℝ)} (hes : CutsSingle R eps es)
    (hss : OffsetSlices p R d eps tol es ss) (hrs : OffsetJoined R ss p.closed eps joinEps rs) :
    (∀ r ∈ rs, ∀ X, OnPline r X → OnPline R X ∧ Keeps p |d| X) ∧
    (∀ i t, i < R.verts.length → 0 ≤ t → t ≤ 1 → (i, t) ∉ bothCuts E → Keeps p |d| (curveAt R i t) →
      ∃ r ∈ rs, OnPline r (curveAt R i t)) := by
  classical
  have hn : 0 < R.verts.length := by have := hE.three; omega
  have hon : ∀ i t, 0 ≤ t → t ≤ 1 → OnPline R (curveAt R i t) := by
    intro i t t0 t1
    refine ⟨(vtx R (i % R.verts.length), vtx R (i % R.verts.length + 1)), ?_, t, t0, t1, ?_⟩
    · rw [segs_range hf.closed hf.two]
      exact List.mem_map.mpr ⟨_, by simpa using Nat.mod_lt _ hn, rfl⟩
    · rw [← curveAt_vtx hn, curveAt_wrap hn]
  obtain ⟨pairs, hP, hes1, -⟩ := hes
  have hperm : es.Perm ((bothCuts E).map (cutPt R)) := hes1 ▸ self_cuts he hf hE hF hP
  by_cases hE0 : E = []
  · -- no crossings
    have hes0 : es = [] := by subst hE0; simpa [bothCuts] using hperm
    have hnc : ∀ c, c ∉ bothCuts E := by subst hE0; simp [bothCuts]
    obtain ⟨v, hv⟩ : ∃ v, R.verts.head? = some v := ⟨R.verts[0], by rw [List.head?_eq_getElem?, List.getElem?_eq_getElem hn]⟩
    have hv0 : v.pos = curveAt R 0 0 := by
      rw [curveAt_vtx hn, (segCurve_ends _ _).1]
      have := vtx_at hn
      rw [← List.head?_eq_getElem?, hv] at this
      injection this with this
      rw [this]
    obtain ⟨hk, hdr⟩ := hss.whole hes0 v hv
    have hread : Readable p eps (curveAt R 0 0) :=
      (hW 0 0 1 ⟨hn, le_rfl, one_pos, le_rfl, Or.inl rfl, Or.inl rfl, fun t _ _ => hnc _⟩).1
    have hrun : StretchRun R E 0 (R.verts.length - 1) (fun _ => 0) (fun _ => 1) :=
      ⟨fun j hj => ⟨Nat.mod_lt _ hn, le_rfl, one_pos, le_rfl, Or.inl rfl, Or.inl rfl, fun t _ _ => hnc _⟩, fun j hj => ⟨rfl, rfl⟩⟩
    have hlo : ∀ j, loOf (0, 0) j = 0 := fun j => by simp [loOf]
    have hhi : ∀ j, hiOf (0, 0) (R.verts.length - 1, 1) j = 1 := fun j => by simp [hiOf]
    have hall : ∀ i t, 0 ≤ t → t ≤ 1 → Keeps p |d| (curveAt R i t) → ∀ k ≤ R.verts.length - 1, ∀ u, 0 ≤ u → u ≤ 1 → Keeps p |d| (curveAt R (0 + k) u) := by
      intro i t t0 t1 h
      have hm := Nat.mod_lt i hn
      refine keep_run_any hC hE hrun (j := i % R.verts.length) (by omega) t0 t1 (hnc _) ?_
      rw [Nat.zero_add, curveAt_wrap hn]; exact h
    by_cases hcl : PointClear p d eps tol v.pos
    · obtain ⟨s, hs, rfl⟩ := hk hcl
      obtain ⟨vs, hvs⟩ := entire_along he hf hs
      have hkeep : Keeps p |d| (curveAt R 0 0) := clear_keeps_any hp he ht.le hD hread (hT.whole hE0) (by rw [← hv0]; exact hcl)
      have hpts := joined_points (gap := gap) he hf (L := [((0, 0), (R.verts.length - 1, 1))]) (List.Forall₂.cons ⟨vs, hvs⟩ List.Forall₂.nil)
        (by simp) (by simp [hlo, hhi]) (by
          intro x hx y hy
          simp only [List.mem_singleton] at hx hy
          subst hx; subst hy
          left
          dsimp only
          rw [curveAt_join hn, Nat.sub_add_cancel (by omega), ← curveAt_wrap hn, Nat.mod_self]) hg hj hj0 hrs
      constructor
      · intro r hr X hX
        obtain ⟨x, hx, j, hj, t, t0, t1, rfl⟩ := (hpts X).mp ⟨r, hr, hX⟩
        simp only [List.mem_singleton] at hx
        subst hx
        rw [hlo] at t0
        rw [hhi] at t1
        exact ⟨hon _ _ t0 t1, hall 0 0 le_rfl zero_le_one hkeep j (by simpa using hj) t t0 t1⟩
      · intro i t hi t0 t1 _ _
        exact (hpts _).mpr ⟨_, List.mem_singleton.mpr rfl, i, by dsimp only; omega, t, by rw [hlo]; exact t0, by rw [hhi]; exact t1, by rw [Nat.zero_add]⟩
    · have hs0 := hdr hcl
      subst hs0
      have hrs0 : rs = [] := by
        obtain ⟨useds, hst, hpm⟩ := hrs.several (by simp)
        cases hst with
        | nil => rfl
        | cons _ used useds rs more hr _ =>
          obtain ⟨vs, hch, -⟩ := hr
          have := hch.nonempty
          simp only [List.length_nil, List.range_zero, List.perm_nil, List.flatten_cons, List.append_eq_nil_iff] at hpm
          exact absurd hpm.1 this
      subst hrs0
      refine ⟨by simp, fun i t hi t0 t1 _ h => ?_⟩
      have := hall i t t0 t1 h 0 (Nat.zero_le _) 0 le_rfl zero_le_one
      rw [Nat.zero_add] at this
      exact absurd (keeps_clear_any hp he ht hD (by rw [hv0]; exact hread) (by rw [hv0]; exact this)) hcl
  · -- with crossings
    have hes0 : es ≠ [] := by
      intro h
      rw [h] at hperm
      have := hperm.length_eq
      simp only [List.length_nil, List.length_map, bothCuts, List.length_append] at this
      exact hE0 (List.length_eq_zero_iff.mp (by omega))
    obtain ⟨cuts, first, last, hcut, -, -, hkept⟩ := hss.pieces hes0
    obtain ⟨CS, hCS, hCp, hCl⟩ := sorted_cuts he hf hE hperm hcut
    obtain ⟨f, hfirst⟩ : ∃ f, CS.head? = some f := by
      cases CS with
      | nil => 
        have := hCp.length_eq
        simp only [List.length_nil, bothCuts, List.length_append, List.length_map] at this
        exact absurd (List.length_eq_zero_iff.mp (by omega)) hE0
      | cons a l => exact ⟨a, rfl⟩
    have hS : RunCuts R E CS f := ⟨hCp, hCl, hfirst⟩
    have hrange : ∀ c ∈ CS, c.1 < R.verts.length := fun c hc => hE.range c (hCp.mem_iff.mp hc)
    rw [hp.closed, ← hCS, gaps_listed hn hrange hfirst] at hkept
    have hslices := kept_slices (Q := fun x => PieceFar p R |d| x.1 x.2) _ _ (fun x hx => by
      obtain ⟨a, b⟩ := x
      obtain ⟨s, vs, h1, h2, h3, h4, h5⟩ := piece_slice he hf hE hS hg hx
      obtain ⟨-, ha, -, -⟩ := between_cuts he hf hE hS hx
      refine ⟨s, vs, ?_, ⟨h2, h3, h4, h5⟩, piece_clear_any hp he ht hD hf hE hC hT hW hS hx h2 h3⟩
      unfold listed
      dsimp only
      rw [Nat.mod_eq_of_lt (hE.range a ha)]
      exact h1) hkept
    have hL : ∀ x ∈ (pathSegs (CS ++ [again R f])).filter (fun x => decide (PieceFar p R |d| x.1 x.2)), x ∈ pathSegs (CS ++ [again R f]) ∧ PieceFar p R |d| x.1 x.2 := by
      intro x hx
      rw [List.mem_filter] at hx
      exact ⟨hx.1, by simpa using hx.2⟩
    have hrn : ∀ x ∈ pathSegs (CS ++ [again R f]), StretchRun R E x.1.1 (x.2.1 - x.1.1) (loOf x.1) (hiOf x.1 x.2) := fun x hx => piece_run he hf hE hS hx
    have hpts := joined_points (gap := gap) he hf hslices (fun x hx => by
        obtain ⟨⟨-, -, -, -, ho⟩, -⟩ := between_cuts he hf hE hS (hL x hx).1
        rcases ho with ho | ho <;> omega)
      (fun x hx j hj => ((hrn x (hL x hx).1).each j hj).lt)
      (fun x hx y hy => by
        obtain ⟨-, -, hb, -⟩ := between_cuts he hf hE hS (hL x hx).1
        obtain ⟨-, ha, -, -⟩ := between_cuts he hf hE hS (hL y hy).1
        have := cuts_far hE hb ha
        dsimp only at this
        rwa [curveAt_wrap hn] at this) hg hj hj0 hrs
    constructor
    · intro r hr X hX
      obtain ⟨x, hx, j, hj, t, t0, t1, rfl⟩ := (hpts X).mp ⟨r, hr, hX⟩
      obtain ⟨hx1, hx2⟩ := hL x hx
      have hst := (hrn x hx1).each j hj
      exact ⟨hon _ _ (hst.zero.trans t0) (t1.trans hst.one), hx2 j hj t t0 t1⟩
    · intro i t hi t0 t1 hnc hk
      obtain ⟨a, b, j, hab, hj, hji, l0, l1⟩ := pieces_cover he hf hE hS hi t0 t1
      have hk' : Keeps p |d| (curveAt R (a.1 + j) t) := by rw [← curveAt_wrap hn, hji]; exact hk
      have hall : PieceFar p R |d| a b := keep_run_any hC hE (hrn (a, b) hab) hj l0 l1 (by rw [hji]; exact hnc) hk'
      refine (hpts _).mpr ⟨(a, b), List.mem_filter.mpr ⟨hab, by simpa using hall⟩, j, hj, t, l0, l1, ?_⟩
      dsimp only
      rw [← curveAt_wrap hn (a.1 + j), hji]


end
end Cavc
