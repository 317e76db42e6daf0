import Verif.Lemmas.OffsetLocal
import Verif.Lemmas.OffsetPieces
import Verif.Props.OffsetReal
import Verif.Props.Segment

/-! # Slices of the raw offset keep the distance everywhere or nowhere, and the code decides which -/

set_option linter.unusedVariables false
set_option linter.unusedSectionVars false

namespace Cavc
open Pline

theorem cut_pos {R : Pline ℝ} {eps gap : ℝ} {E : List (Cut × Cut)} (hE : SelfCrossing R eps gap E) {i : Nat} {t : ℝ} (h : (i, t) ∈ bothCuts E) : 0 < t ∧ t < 1 :=
  ⟨(hE.ok _ h).pos, (hE.ok _ h).lt⟩

theorem curveAt_wrap {R : Pline ℝ} (hn : 0 < R.verts.length) (i : Nat) (t : ℝ) : curveAt R (i % R.verts.length) t = curveAt R i t := by
  rw [curveAt_vtx hn, curveAt_vtx hn, vtx_mod, vtx_mod_succ]

theorem curveAt_join {R : Pline ℝ} (hn : 0 < R.verts.length) (i : Nat) : curveAt R i 1 = curveAt R (i + 1) 0 := by
  rw [curveAt_vtx hn, curveAt_vtx hn, (segCurve_ends _ _).1, (segCurve_ends _ _).2]

section
variable {p : Pline ℝ} {d eps gap : ℝ} {E : List (Cut × Cut)}

/-- a run of stretches, put end to start -/
structure StretchRun (R : Pline ℝ) (E : List (Cut × Cut)) (i m : Nat) (lo hi : Nat → ℝ) : Prop where
  each : ∀ j ≤ m, Stretch R E ((i + j) % R.verts.length) (lo j) (hi j)
  joint : ∀ j < m, hi j = 1 ∧ lo (j + 1) = 0

variable (hp : StraightLoop p) (hd : d ≠ 0) (he : 0 < eps) (hc : ∀ k, ClearTurn p d eps k)
include hp hd he hc

theorem keep_run (hE : SelfCrossing (rawLoop p d) eps gap E) (hos : OneSided p d) {i m : Nat} {lo hi : Nat → ℝ}
    (hr : StretchRun (rawLoop p d) E i m lo hi) {j : Nat} (hj : j ≤ m) {t : ℝ} (t0 : lo j ≤ t) (t1 : t ≤ hi j)
    (hcut : ((i + j) % (rawLoop p d).verts.length, t) ∉ bothCuts E) (hk : Keeps p |d| (curveAt (rawLoop p d) (i + j) t)) :
    ∀ k ≤ m, ∀ u, lo k ≤ u → u ≤ hi k → Keeps p |d| (curveAt (rawLoop p d) (i + k) u) := by
  have hn : 0 < (rawLoop p d).verts.length := by have := hE.three; omega
  have seg : ∀ k ≤ m, (∃ s, lo k ≤ s ∧ s ≤ hi k ∧ ((i + k) % (rawLoop p d).verts.length, s) ∉ bothCuts E ∧ Keeps p |d| (curveAt (rawLoop p d) (i + k) s)) →
      ∀ u, lo k ≤ u → u ≤ hi k → Keeps p |d| (curveAt (rawLoop p d) (i + k) u) := by
    rintro k hk ⟨s, s0, s1, hs, hks⟩ u u0 u1
    have h := hr.each k hk
    rw [← curveAt_wrap hn] at hks ⊢
    exact keep_seg hp hd he hc hE hos h.range h.zero h.lt h.one h.inside s0 s1 hs hks u u0 u1
  have h0 := seg j hj ⟨t, t0, t1, hcut, hk⟩
  have up : ∀ k, j ≤ k → k ≤ m → ∀ u, lo k ≤ u → u ≤ hi k → Keeps p |d| (curveAt (rawLoop p d) (i + k) u) := by
    intro k hjk
    induction k, hjk using Nat.le_induction with
    | base => exact fun _ => h0
    | succ k hjk ih =>
      intro hkm
      obtain ⟨h1, h2⟩ := hr.joint k (by omega)
      have hs := hr.each (k + 1) hkm
      have hs' := hr.each k (by omega)
      refine seg (k + 1) hkm ⟨0, by rw [h2], by have := hs.lt; have := hs.zero; linarith, fun h => absurd (cut_pos hE h).1 (lt_irrefl 0), ?_⟩
      have := ih (by omega) 1 (by rw [← h1]; exact hs'.lt.le) (by rw [h1])
      rw [curveAt_join hn] at this
      exact this
  have down : ∀ r k, k + r = j → ∀ u, lo k ≤ u → u ≤ hi k → Keeps p |d| (curveAt (rawLoop p d) (i + k) u) := by
    intro r
    induction r with
    | zero => intro k hk; have : k = j := by omega
              subst this; exact h0
    | succ r ih =>
      intro k hk
      obtain ⟨h1, h2⟩ := hr.joint k (by omega)
      have hs := hr.each (k + 1) (by omega)
      have hs' := hr.each k (by omega)
      refine seg k (by omega) ⟨1, by rw [← h1]; exact hs'.lt.le, by rw [h1], fun h => absurd (cut_pos hE h).2 (lt_irrefl 1), ?_⟩
      have := ih (k + 1) (by omega) 0 (by rw [h2]) (by have := hs.lt; have := hs.zero; linarith)
      rw [← Nat.add_assoc, ← curveAt_join hn] at this
      exact this
  intro k hk
  rcases Nat.le_total j k with h | h
  · exact up k h hk
  · exact down (j - k) k (by omega)

end

/-! ## The test of points -/

section
variable {p : Pline ℝ} {d eps tol : ℝ}

theorem keeps_clear (hp : StraightLoop p) (he : 0 < eps) (ht : 0 < tol) (hD : tol ≤ |d|) {X : V2 ℝ} (h : Keeps p |d| X) : PointClear p d eps tol X := by
  intro s hs _
  have hl : IsLine s.1 := by
    rw [segs_range hp.closed hp.two] at hs
    obtain ⟨i, -, rfl⟩ := List.mem_map.mp hs
    exact hp.line i
  have h1 := h _ ⟨s, hs, (C32_line s.1 s.2 hl X eps).1⟩
  have h2 : |d| - tol < edist X (segClosestPoint s.1 s.2 X eps) := by linarith
  have h3 : (|d| - tol) ^ 2 < edist X (segClosestPoint s.1 s.2 X eps) ^ 2 := by nlinarith
  rw [edist_sq] at h3
  simp only [RealScalar.gt_eq, RealScalar.abs_eq, distSquared, decide_eq_true_eq, V2.dot_eq]
  have e1 : (segClosestPoint s.1 s.2 X eps - X).x = (segClosestPoint s.1 s.2 X eps).x - X.x := rfl
  have e2 : (segClosestPoint s.1 s.2 X eps - X).y = (segClosestPoint s.1 s.2 X eps).y - X.y := rfl
  rw [e1, e2]
  nlinarith

theorem clear_keeps (hp : StraightLoop p) (he : 0 < eps) (ht : 0 ≤ tol) (hD : tol ≤ |d|) {X : V2 ℝ} (hdec : Decided p |d| tol X)
    (h : PointClear p d eps tol X) : Keeps p |d| X := by
  rcases hdec with hk | ⟨q, hq, hqd⟩
  · exact hk
  · exfalso
    obtain ⟨s, hs, hqs⟩ := hq
    have hl : IsLine s.1 := by
      rw [segs_range hp.closed hp.two] at hs
      obtain ⟨i, -, rfl⟩ := List.mem_map.mp hs
      exact hp.line i
    have hbox := C33_fast_box s.1 s.2 (Or.inl hl) q hqs
    have hov : (segBox s).overlaps ⟨X.x - (Scalar.abs d - tol), X.y - (Scalar.abs d - tol), X.x + (Scalar.abs d - tol), X.y + (Scalar.abs d - tol)⟩ = true := by
      obtain ⟨h1, h2, h3, h4⟩ := hbox
      have hD' : 0 ≤ |d| - tol := by linarith
      rw [edist_sq] at hqd
      have hx : |X.x - q.x| ≤ |d| - tol := abs_le_of_sq_le_sq (by nlinarith [sq_nonneg (X.y - q.y)]) hD'
      have hy : |X.y - q.y| ≤ |d| - tol := abs_le_of_sq_le_sq (by nlinarith [sq_nonneg (X.x - q.x)]) hD'
      rw [abs_le] at hx hy
      simp only [segBox, AABB.overlaps, RealScalar.abs_eq, RealScalar.lt_eq, RealScalar.gt_eq, Bool.not_eq_true', Bool.or_eq_false_iff, decide_eq_false_iff_not, not_lt]
      exact ⟨⟨⟨by linarith, by linarith⟩, by linarith⟩, by linarith⟩
    have hgt := h s hs hov
    have h3 := (C32_line s.1 s.2 hl X eps).2 q hqs
    simp only [RealScalar.gt_eq, RealScalar.abs_eq, distSquared, decide_eq_true_eq, V2.dot_eq] at hgt
    have e1 : (segClosestPoint s.1 s.2 X eps - X).x = (segClosestPoint s.1 s.2 X eps).x - X.x := rfl
    have e2 : (segClosestPoint s.1 s.2 X eps - X).y = (segClosestPoint s.1 s.2 X eps).y - X.y := rfl
    rw [e1, e2] at hgt
    rw [edist_sq X (segClosestPoint s.1 s.2 X eps)] at h3
    nlinarith

end

/-! ## Slices between cuts -/

section
variable {R : Pline ℝ} {eps gap : ℝ} {E : List (Cut × Cut)}

/-- the points of two cuts are equal or far apart -/
theorem cuts_far (hE : SelfCrossing R eps gap E) {x y : Cut} (hx : x ∈ bothCuts E) (hy : y ∈ bothCuts E) :
    curveAt R x.1 x.2 = curveAt R y.1 y.2 ∨ FarApart gap (curveAt R x.1 x.2) (curveAt R y.1 y.2) := by
  have key : ∀ x ∈ bothCuts E, ∃ c ∈ E, curveAt R x.1 x.2 = curveAt R c.1.1 c.1.2 := by
    intro x hx
    rcases List.mem_append.mp hx with hx | hx
    · obtain ⟨c, hc, rfl⟩ := List.mem_map.mp hx
      exact ⟨c, hc, rfl⟩
    · obtain ⟨c, hc, rfl⟩ := List.mem_map.mp hx
      exact ⟨c, hc, (hE.on c hc).symm⟩
  obtain ⟨c, hc, h1⟩ := key x hx
  obtain ⟨c', hc', h2⟩ := key y hy
  by_cases h : c = c'
  · left; rw [h1, h2, h]
  · right; rw [h1, h2]; exact hE.apart c hc c' hc' h

theorem farApart_mono {a b : V2 ℝ} {g h : ℝ} (hgh : h ≤ g) : FarApart g a b → FarApart h a b
  | Or.inl x => Or.inl (by linarith)
  | Or.inr x => Or.inr (by linarith)

theorem ok_mod {b : Cut} (hn : 0 < R.verts.length) (h : CutOk R eps (b.1 % R.verts.length, b.2)) : CutOk R eps b := by
  unfold CutOk at *
  dsimp only at h
  rw [vtx_mod, vtx_mod_succ] at h
  exact h

variable {CS : List Cut} {f : Cut} (he : 0 < eps) (hf : FullLoop R eps) (hE : SelfCrossing R eps gap E) (hS : RunCuts R E CS f)
include he hf hE hS

theorem piece_run {a b : Cut} (hab : (a, b) ∈ pathSegs (CS ++ [again R f])) : StretchRun R E a.1 (b.1 - a.1) (loOf a) (hiOf a b) := by
  have hn : 0 < R.verts.length := by have := hf.two; omega
  obtain ⟨⟨a0, a1, b0, b1, ho⟩, ha, hb, hno⟩ := between_cuts he hf hE hS hab
  have hai := hE.range a ha
  refine ⟨fun j hj => ⟨Nat.mod_lt _ hn, ?_, ?_, ?_, ?_, ?_, ?_⟩, fun j hj => ⟨?_, ?_⟩⟩
  · unfold loOf; split_ifs <;> linarith
  · unfold loOf hiOf
    split_ifs with h1 h2 h2
    · rcases ho with ho | ho
      · exact ho.2
      · omega
    · exact a1
    · exact b0
    · norm_num
  · unfold hiOf; split_ifs <;> linarith
  · unfold loOf
    split_ifs with h
    · right; rw [h, Nat.add_zero, Nat.mod_eq_of_lt hai]; exact ha
    · exact Or.inl rfl
  · unfold hiOf
    split_ifs with h
    · right
      have : a.1 + j = b.1 := by rcases ho with ho | ho <;> omega
      rw [this]; exact hb
    · exact Or.inl rfl
  · intro t t0 t1
    refine hno j t hj (fun h => ?_) (fun h => ?_)
    · unfold loOf at t0; rwa [if_pos h] at t0
    · unfold hiOf at t1; rwa [if_pos h] at t1
  · unfold hiOf; rw [if_neg (by omega)]
  · unfold loOf; rw [if_neg (by omega)]

theorem piece_slice (hg : eps ≤ gap) {a b : Cut} (hab : (a, b) ∈ pathSegs (CS ++ [again R f])) :
    ∃ s vs, ViewData.fromSlicePoints R (curveAt R a.1 a.2) a.1 (curveAt R b.1 b.2) (b.1 % R.verts.length) eps = .ok (some s) ∧
      s.toPline R = .ok ⟨vs, false⟩ ∧ Along R eps a b vs ∧ s.updatedStart.pos = curveAt R a.1 a.2 ∧ s.endPoint = curveAt R b.1 b.2 := by
  have hn : 0 < R.verts.length := by have := hf.two; omega
  obtain ⟨⟨a0, a1, b0, b1, ho⟩, ha, hb, hno⟩ := between_cuts he hf hE hS hab
  have hai := hE.range a ha
  have hsh := piece_short he hf hE hS hab
  refine slice_along he hf (hE.ok a ha) (ok_mod hn (hE.ok _ hb)) hai ?_
  rcases ho with ⟨h1, h2⟩ | ⟨h1, h2⟩
  · left
    have hbm : b.1 % R.verts.length = b.1 := Nat.mod_eq_of_lt (by omega)
    rw [hbm] at hb
    refine ⟨h1, h2, ?_, hE.long a ha b hb h1 h2⟩
    rcases cuts_far hE ha hb with h | h
    · rw [← h1] at h
      exact absurd (curve_inj he hf a0.le a1.le b0.le b1.le h) h2.ne
    · exact (farApart_mono hg h).fuzzy
  · right; exact ⟨h1, hsh⟩

end

section
variable {p : Pline ℝ} {d eps gap tol : ℝ} {E : List (Cut × Cut)}

/-- All points of the piece keep the distance. -/
def PieceKeeps (p : Pline ℝ) (d : ℝ) (a b : Cut) : Prop :=
  ∀ j ≤ b.1 - a.1, ∀ t, loOf a j ≤ t → t ≤ hiOf a b j → Keeps p |d| (curveAt (rawLoop p d) (a.1 + j) t)

variable (hp : StraightLoop p) (hd : d ≠ 0) (he : 0 < eps) (hc : ∀ k, ClearTurn p d eps k)
include hp hd he hc

theorem run_clear (ht : 0 < tol) (hD : tol ≤ |d|) (hE : SelfCrossing (rawLoop p d) eps gap E) (hT : ClearTests p (rawLoop p d) d eps tol E)
    {i m : Nat} {lo hi : Nat → ℝ} (hr : StretchRun (rawLoop p d) E i m lo hi)
    (hk : ∀ j ≤ m, ∀ t, lo j ≤ t → t ≤ hi j → Keeps p |d| (curveAt (rawLoop p d) (i + j) t)) {s : ViewData ℝ} {vs : List (Vertex ℝ)}
    (hs : s.toPline (rawLoop p d) = .ok ⟨vs, false⟩) (hlen : vs.length = m + 2)
    (hpart : ∀ j x y, (pathSegs vs)[j]? = some (x, y) →
      PartSeg (vtx (rawLoop p d) (i + j)) (vtx (rawLoop p d) (i + j + 1)) eps (lo j) (hi j) x y) :
    SliceClear p (rawLoop p d) d eps tol s := by
  have hn : 0 < (rawLoop p d).verts.length := by have := hE.three; omega
  have hseg : ∀ j x y, vs[j]? = some x → vs[j + 1]? = some y → j ≤ m ∧ FullSeg x y eps ∧
      ∀ t, segCurve x y t = curveAt (rawLoop p d) (i + j) (lo j + (hi j - lo j) * t) := by
    intro j x y hx hy
    have h := hpart j x y ((pathSegs_getElem vs j (x, y)).mpr ⟨hx, hy⟩)
    have := (List.getElem?_eq_some_iff.mp hy).1
    exact ⟨by omega, h.full, fun t => by rw [h.along, curveAt_vtx hn]⟩
  have hpt : ∀ j x y, vs[j]? = some x → vs[j + 1]? = some y → ∀ t, 0 ≤ t → t ≤ 1 → Keeps p |d| (segCurve x y t) := by
    intro j x y hx hy t t0 t1
    obtain ⟨hj, -, h⟩ := hseg j x y hx hy
    have hst := hr.each j hj
    rw [h]
    refine hk j hj _ ?_ ?_
    · nlinarith [hst.lt]
    · nlinarith [hst.lt]
  refine ⟨vs, ⟨hs, by intro h; rw [h] at hlen; simp at hlen⟩, ?_, ?_⟩
  · intro v hv
    obtain ⟨k, hk', rfl⟩ := List.getElem_of_mem hv
    apply keeps_clear hp he ht hD
    by_cases h : k + 1 < vs.length
    · have := hpt k _ _ (List.getElem?_eq_getElem hk') (List.getElem?_eq_getElem h) 0 le_rfl zero_le_one
      rwa [(segCurve_ends _ _).1] at this
    · have h2 : k - 1 + 1 = k := by omega
      have hk1 : k - 1 < vs.length := by omega
      have := hpt (k - 1) _ vs[k] (List.getElem?_eq_getElem hk1) (by rw [h2]; exact List.getElem?_eq_getElem hk') 1 zero_le_one le_rfl
      rwa [(segCurve_ends _ _).2] at this
  · intro j x y hx hy
    obtain ⟨hj, hfull, h⟩ := hseg j x y hx hy
    have hst := hr.each j hj
    constructor
    · refine hT.clear _ _ _ x y hst (fun t t0 t1 => ?_) hfull (fun t => ?_)
      · rw [curveAt_wrap hn]; exact hk j hj t t0 t1
      · rw [curveAt_wrap hn, h]
    · intro _
      rw [(C30_midpoint x y (hfull.proper he)).1]
      exact keeps_clear hp he ht hD (hpt j x y hx hy _ (by norm_num) (by norm_num))

variable {CS : List Cut} {f : Cut}

theorem piece_clear (ht : 0 < tol) (hD : tol ≤ |d|) (hf : FullLoop (rawLoop p d) eps) (hE : SelfCrossing (rawLoop p d) eps gap E) (hos : OneSided p d)
    (hT : ClearTests p (rawLoop p d) d eps tol E) (hS : RunCuts (rawLoop p d) E CS f) {a b : Cut} (hab : (a, b) ∈ pathSegs (CS ++ [again (rawLoop p d) f]))
    {s : ViewData ℝ} {vs : List (Vertex ℝ)} (hs : s.toPline (rawLoop p d) = .ok ⟨vs, false⟩) (hal : Along (rawLoop p d) eps a b vs) :
    SliceClear p (rawLoop p d) d eps tol s ↔ PieceKeeps p d a b := by
  have hn : 0 < (rawLoop p d).verts.length := by have := hE.three; omega
  have hr := piece_run he hf hE hS hab
  obtain ⟨-, ha, hb, -⟩ := between_cuts he hf hE hS hab
  have hai := hE.range a ha
  constructor
  · rintro ⟨vs', ⟨h1, -⟩, -, h3⟩
    have : vs' = vs := by have := h1.symm.trans hs; simpa using this
    subst this
    have hl := hal.count
    have hx := List.getElem?_eq_getElem (show 0 < vs'.length by omega)
    have hy := List.getElem?_eq_getElem (show 0 + 1 < vs'.length by omega)
    have hm := (h3 0 _ _ hx hy).2 (Or.inl rfl)
    have hpt := hal.part 0 _ _ ((pathSegs_getElem vs' 0 _).mpr ⟨hx, hy⟩)
    rw [(C30_midpoint _ _ (hpt.full.proper he)).1, hpt.along, ← curveAt_vtx hn, Nat.add_zero] at hm
    have hst := hr.each 0 (Nat.zero_le _)
    rw [Nat.add_zero, Nat.mod_eq_of_lt hai] at hst
    have hlo : loOf a 0 = a.2 := by simp [loOf]
    have hmid : loOf a 0 + (hiOf a b 0 - loOf a 0) * (1 / 2) = (loOf a 0 + hiOf a b 0) / 2 := by ring
    rw [hmid] at hm
    have hk := clear_keeps hp he ht.le hD (hT.middle a.1 _ _ hst (by rw [hlo]; exact ha)) hm
    have hlt := hst.lt
    refine keep_run hp hd he hc hE hos hr (j := 0) (Nat.zero_le _) (t := (loOf a 0 + hiOf a b 0) / 2) (by linarith) (by linarith) ?_ ?_
    · rw [Nat.add_zero, Nat.mod_eq_of_lt hai]
      exact hst.inside _ (by linarith) (by linarith)
    · exact hk
  · intro hk
    exact run_clear hp hd he hc ht hD hE hT hr hk hs hal.count hal.part

end
end Cavc
