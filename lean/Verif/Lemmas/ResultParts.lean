import Verif.Lemmas.OffsetRegionArcs
import Verif.Spec.ShapeRegion
import Verif.Lemmas.ShapeFollows

/-! # The segments of the results of the parallel offset are parts of the raw offset -/

set_option linter.unusedVariables false
set_option linter.unusedSectionVars false

namespace Cavc
open RealScalar Pline Filter Topology

section
variable {p R : Pline ℝ} {d eps gap tol : ℝ} {E : List (Cut × Cut)}

theorem result_parts_any {joinEps : ℝ} (hp : FullLoop p eps) (he : 0 < eps) (ht : 0 < tol) (hD : tol ≤ |d|) (hf : FullLoop R eps) (hE : SelfCrossing R eps gap E)
    (hF : FindsSelf R eps) (hC : ChangesAtCrossings p R |d| E) (hT : ClearTests p R d eps tol E) (hW : ReadableTests p R eps E) (hg : eps ≤ gap) (hj : 2 * joinEps ≤ gap) (hj0 : 0 ≤ joinEps)
    {es : List (Nat × V2 ℝ)} {ss : List (ViewData ℝ)} {rs : List (Pline ℝ)} (hes : CutsSingle R eps es)
    (hss : OffsetSlices p R d eps tol es ss) (hrs : OffsetJoined R ss p.closed eps joinEps rs) :
    ∀ r ∈ rs, ∀ s ∈ r.segs, ∃ i lo hi, i < R.verts.length ∧ 0 ≤ lo ∧ lo < hi ∧ hi ≤ 1 ∧ ∀ x, segCurve s.1 s.2 x = curveAt R i (lo + (hi - lo) * x) := by
  intro r hr s hsr
  classical
  have hn : 0 < R.verts.length := by have := hE.three; omega
  have main : ∀ L : List (Cut × Cut), List.Forall₂ (fun s x => ∃ vs, GoodSlice R eps s x vs) ss L → (∀ x ∈ L, x.1.1 ≤ x.2.1) →
      (∀ x ∈ L, ∀ y ∈ L, curveAt R x.2.1 x.2.2 = curveAt R y.1.1 y.1.2 ∨ FarApart gap (curveAt R x.2.1 x.2.2) (curveAt R y.1.1 y.1.2)) →
      (∀ x ∈ L, ∀ j ≤ x.2.1 - x.1.1, 0 ≤ loOf x.1 j ∧ loOf x.1 j < hiOf x.1 x.2 j ∧ hiOf x.1 x.2 j ≤ 1) →
      ∃ i lo hi, i < R.verts.length ∧ 0 ≤ lo ∧ lo < hi ∧ hi ≤ 1 ∧ ∀ x, segCurve s.1 s.2 x = curveAt R i (lo + (hi - lo) * x) := by
    intro L hgood hord hends hlt
    have hlen := hgood.length_eq
    obtain ⟨V, P, hgW, -⟩ := good_parts he hf hgood hord hends hg hj hj0 hlen
    have hperm := stitch_segs he P hrs
    have hV : ∀ i (hi : i < L.length), Along R eps L[i].1 L[i].2 (V i) := fun i hi => (hgW i (by omega)).along
    rw [hlen] at hperm
    have hmem : strip s ∈ (List.map (fun i => edges (V i)) (List.range L.length)).flatten := by
      rw [← hperm.mem_iff]
      exact List.mem_flatMap.mpr ⟨r, hr, List.mem_map.mpr ⟨s, hsr, rfl⟩⟩
    obtain ⟨l, hl, hsl⟩ := List.mem_flatten.mp hmem
    obtain ⟨i, hi, rfl⟩ := List.mem_map.mp hl
    have hi := List.mem_range.mp hi
    unfold edges at hsl
    obtain ⟨s', hs', hss'⟩ := List.mem_map.mp hsl
    obtain ⟨m, hm, rfl⟩ := List.getElem_of_mem hs'
    have hpart := (hV i hi).part m (pathSegs (V i))[m].1 (pathSegs (V i))[m].2 (List.getElem?_eq_getElem hm)
    have hcurve : ∀ x, segCurve s.1 s.2 x = curveAt R (L[i].1.1 + m) (loOf L[i].1 m + (hiOf L[i].1 L[i].2 m - loOf L[i].1 m) * x) := fun x => by
      rw [← strip_curve s, ← hss', strip_curve, hpart.along, curveAt_vtx hn]
    have hml : (pathSegs (V i)).length = (L[i].2.1 - L[i].1.1) + 1 := by rw [pathSegs_length, (hV i hi).count]; rfl
    obtain ⟨l0, l1, l2⟩ := hlt _ (List.getElem_mem hi) m (by omega)
    exact ⟨_, _, _, Nat.mod_lt _ hn, l0, l1, l2, fun x => by rw [curveAt_wrap hn]; exact hcurve x⟩
  obtain ⟨pairs, hP, hes1, -⟩ := hes
  have hperm : es.Perm ((bothCuts E).map (cutPt R)) := hes1 ▸ self_cuts he hf hE hF hP
  by_cases hE0 : E = []
  · have hes0 : es = [] := by subst hE0; simpa [bothCuts] using hperm
    obtain ⟨v, hv⟩ : ∃ v, R.verts.head? = some v := ⟨R.verts[0], by rw [List.head?_eq_getElem?, List.getElem?_eq_getElem hn]⟩
    obtain ⟨hkeep, hdr⟩ := hss.whole hes0 v hv
    by_cases hcl : PointClear p d eps tol v.pos
    · obtain ⟨s, hs, rfl⟩ := hkeep hcl
      obtain ⟨vs, hvs⟩ := entire_along he hf hs
      have heq : curveAt R (R.verts.length - 1) 1 = curveAt R 0 0 := by
        rw [curveAt_join hn, Nat.sub_add_cancel (by omega), ← curveAt_wrap hn, Nat.mod_self]
      refine main [((0, 0), (R.verts.length - 1, 1))] (List.Forall₂.cons ⟨vs, hvs⟩ List.Forall₂.nil) (by simp) (by
          intro x hx y hy
          simp only [List.mem_singleton] at hx hy
          subst hx; subst hy
          exact Or.inl heq) ?_
      intro x hx i hi
      simp only [List.mem_singleton] at hx
      subst hx
      simp [loOf, hiOf]
    · have hs0 := hdr hcl
      subst hs0
      exact main [] List.Forall₂.nil (by simp) (by simp) (by simp)
  · have hes0 : es ≠ [] := by
      intro h
      rw [h] at hperm
      have := hperm.length_eq
      simp only [List.length_nil, List.length_map, bothCuts, List.length_append] at this
      exact hE0 (List.length_eq_zero_iff.mp (by omega))
    obtain ⟨cuts, first, last, hcuts, -, -, hkept⟩ := hss.pieces hes0
    obtain ⟨CS, hCS, hCp, hCl⟩ := sorted_cuts he hf hE hperm hcuts
    obtain ⟨f, hfirst⟩ : ∃ f, CS.head? = some f := by
      cases CS with
      | nil =>
        have := hCp.length_eq
        simp only [List.length_nil, bothCuts, List.length_append, List.length_map] at this
        exact absurd (List.length_eq_zero_iff.mp (by omega)) hE0
      | cons a l => exact ⟨a, rfl⟩
    have hS : RunCuts R E CS f := ⟨hCp, hCl, hfirst⟩
    have hrange : ∀ c ∈ CS, c.1 < R.verts.length := fun c hc => hE.range c (hCp.mem_iff.mp hc)
    rw [hp.closed, ← hCS, gaps_listed hn hrange hfirst] at hkept
    have hslices := kept_slices (Q := fun x => PieceFar p R |d| x.1 x.2) _ _ (fun x hx => by
      obtain ⟨a, b⟩ := x
      obtain ⟨s, vs, h1, h2, h3, h4, h5⟩ := piece_slice he hf hE hS hg hx
      obtain ⟨-, ha, -, -⟩ := between_cuts he hf hE hS hx
      refine ⟨s, vs, ?_, ⟨h2, h3, h4, h5⟩, piece_clear_any hp he ht hD hf hE hC hT hW hS hx h2 h3⟩
      unfold listed
      dsimp only
      rw [Nat.mod_eq_of_lt (hE.range a ha)]
      exact h1) hkept
    refine main _ hslices (fun x hx => ?_) (fun x hx y hy => ?_) (fun x hx i hi => ?_)
    · obtain ⟨⟨-, -, -, -, ho⟩, -⟩ := between_cuts he hf hE hS (List.mem_filter.mp hx).1
      rcases ho with ho | ho <;> omega
    · obtain ⟨-, -, hb, -⟩ := between_cuts he hf hE hS (List.mem_filter.mp hx).1
      obtain ⟨-, ha, -, -⟩ := between_cuts he hf hE hS (List.mem_filter.mp hy).1
      have := cuts_far hE hb ha
      dsimp only at this
      rwa [curveAt_wrap hn] at this
    · have hst := (piece_run he hf hE hS (List.mem_filter.mp hx).1).each i hi
      exact ⟨hst.zero, hst.lt, hst.one⟩

end

/-- A part of the raw offset that keeps the distance runs beside the polyline. -/
theorem part_beside {p : Pline ℝ} {d : ℝ} {c : Nat → Corner} {eps : ℝ} (he : 0 < eps) (h : ClearOffset p d c eps) (hC : CleanCorners p d c) {r : Pline ℝ} {k i : Nat} {lo hi t : ℝ}
    (hi' : i < (rawWith p d c).verts.length) (l0 : 0 ≤ lo) (l1 : lo < hi) (l2 : hi ≤ 1) (hcurve : ∀ x, curveAt r k x = curveAt (rawWith p d c) i (lo + (hi - lo) * x)) (t0 : 0 < t) (t1 : t < 1)
    (hk : Keeps p |d| (curveAt r k t)) : RunsBeside p d r k t := by
  have hlt : 0 < hi - lo := by linarith
  have hlen : (rawWith p d c).verts.length = (arcParts p c).length := arcParts_length p d c
  rw [hcurve] at hk
  obtain ⟨a, b, dx, dy, F, l, hF, hl, e, ex, ey⟩ := raw_foot he h hC (hlen ▸ hi') (by nlinarith) (by nlinarith) hk
  have hm : HasDerivAt (fun s => lo + (hi - lo) * s) (hi - lo) t := by simpa using ((hasDerivAt_id t).const_mul (hi - lo)).const_add lo
  refine ⟨F, a * (hi - lo), b * (hi - lo), l / (hi - lo), hF, by rw [hcurve]; exact e, ?_, ?_, by positivity, ?_, ?_⟩
  · simp only [hcurve]
    exact HasDerivAt.comp (h₂ := fun s => (curveAt (rawWith p d c) i s).x) t dx hm
  · simp only [hcurve]
    exact HasDerivAt.comp (h₂ := fun s => (curveAt (rawWith p d c) i s).y) t dy hm
  · rw [hcurve, ex]
    field_simp
  · rw [hcurve, ey]
    field_simp

end Cavc
