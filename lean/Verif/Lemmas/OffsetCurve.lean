import Verif.Lemmas.OffsetResult
import Verif.Lemmas.SelfCuts
import Verif.Props.OffsetStraight

/-! # The results of the parallel offset of a straight closed polyline against the parallel curve -/

set_option linter.unusedVariables false
set_option linter.unusedSectionVars false

namespace Cavc
open Pline

section
variable {p : Pline ℝ} {d eps gap tol joinEps : ℝ} {E : List (Cut × Cut)}
variable (hp : StraightLoop p) (hd : d ≠ 0) (he : 0 < eps) (hc : ∀ k, ClearTurn p d eps k)
include hp hd he hc

/-- The results are made of the pieces of the raw offset that keep the distance; every point of the raw offset that keeps the
distance and is not a crossing is among them. -/
theorem result_points (ht : 0 < tol) (hD : tol ≤ |d|) (hf : FullLoop (rawLoop p d) eps) (hE : SelfCrossing (rawLoop p d) eps gap E)
    (hF : FindsSelf (rawLoop p d) eps) (hos : OneSided p d) (hT : ClearTests p (rawLoop p d) d eps tol E) (hg : eps ≤ gap) (hj : 2 * joinEps ≤ gap) (hj0 : 0 ≤ joinEps)
    {es : List (Nat × V2 ℝ)} {ss : List (ViewData ℝ)} {rs : List (Pline ℝ)} (hes : CutsSingle (rawLoop p d) eps es)
    (hss : OffsetSlices p (rawLoop p d) d eps tol es ss) (hrs : OffsetJoined (rawLoop p d) ss p.closed eps joinEps rs) :
    (∀ r ∈ rs, ∀ X, OnPline r X → OnPline (rawLoop p d) X ∧ Keeps p |d| X) ∧
    (∀ i t, i < (rawLoop p d).verts.length → 0 ≤ t → t ≤ 1 → (i, t) ∉ bothCuts E → Keeps p |d| (curveAt (rawLoop p d) i t) →
      ∃ r ∈ rs, OnPline r (curveAt (rawLoop p d) i t)) := by
  classical
  have hn : 0 < (rawLoop p d).verts.length := by have := hE.three; omega
  set R := rawLoop p d with hR
  have hon : ∀ i t, 0 ≤ t → t ≤ 1 → OnPline R (curveAt R i t) := by
    intro i t t0 t1
    refine ⟨(vtx R (i % R.verts.length), vtx R (i % R.verts.length + 1)), ?_, t, t0, t1, ?_⟩
    · rw [segs_range hf.closed hf.two]
      exact List.mem_map.mpr ⟨_, by simpa using Nat.mod_lt _ hn, rfl⟩
    · rw [← curveAt_vtx hn, curveAt_wrap hn]
  obtain ⟨pairs, hP, hes1, -⟩ := hes
  have hperm : es.Perm ((bothCuts E).map (cutPt R)) := hes1 ▸ self_cuts he hf hE hF hP
  by_cases hE0 : E = []
  · -- no crossings
    have hes0 : es = [] := by subst hE0; simpa [bothCuts] using hperm
    have hnc : ∀ c, c ∉ bothCuts E := by subst hE0; simp [bothCuts]
    obtain ⟨v, hv⟩ : ∃ v, R.verts.head? = some v := ⟨R.verts[0], by rw [List.head?_eq_getElem?, List.getElem?_eq_getElem hn]⟩
    have hv0 : v.pos = curveAt R 0 0 := by
      rw [curveAt_vtx hn, (segCurve_ends _ _).1]
      have := vtx_at hn
      rw [← List.head?_eq_getElem?, hv] at this
      injection this with this
      rw [this]
    obtain ⟨hk, hdr⟩ := hss.whole hes0 v hv
    have hrun : StretchRun R E 0 (R.verts.length - 1) (fun _ => 0) (fun _ => 1) :=
      ⟨fun j hj => ⟨Nat.mod_lt _ hn, le_rfl, one_pos, le_rfl, Or.inl rfl, Or.inl rfl, fun t _ _ => hnc _⟩, fun j hj => ⟨rfl, rfl⟩⟩
    have hlo : ∀ j, loOf (0, 0) j = 0 := fun j => by simp [loOf]
    have hhi : ∀ j, hiOf (0, 0) (R.verts.length - 1, 1) j = 1 := fun j => by simp [hiOf]
    have hall : ∀ i t, 0 ≤ t → t ≤ 1 → Keeps p |d| (curveAt R i t) → ∀ k ≤ R.verts.length - 1, ∀ u, 0 ≤ u → u ≤ 1 → Keeps p |d| (curveAt R (0 + k) u) := by
      intro i t t0 t1 h
      have hm := Nat.mod_lt i hn
      refine keep_run hp hd he hc hE hos hrun (j := i % R.verts.length) (by omega) t0 t1 (hnc _) ?_
      rw [Nat.zero_add, ← hR, curveAt_wrap hn]; exact h
    by_cases hcl : PointClear p d eps tol v.pos
    · obtain ⟨s, hs, rfl⟩ := hk hcl
      obtain ⟨vs, hvs⟩ := entire_along he hf hs
      have hkeep : Keeps p |d| (curveAt R 0 0) := clear_keeps hp he ht.le hD (hT.whole hE0) (by rw [← hv0]; exact hcl)
      have hpts := joined_points (gap := gap) he hf (L := [((0, 0), (R.verts.length - 1, 1))]) (List.Forall₂.cons ⟨vs, hvs⟩ List.Forall₂.nil)
        (by simp) (by simp [hlo, hhi]) (by
          intro x hx y hy
          simp only [List.mem_singleton] at hx hy
          subst hx; subst hy
          left
          dsimp only
          rw [curveAt_join hn, Nat.sub_add_cancel (by omega), ← curveAt_wrap hn, Nat.mod_self]) hg hj hj0 hrs
      constructor
      · intro r hr X hX
        obtain ⟨x, hx, j, hj, t, t0, t1, rfl⟩ := (hpts X).mp ⟨r, hr, hX⟩
        simp only [List.mem_singleton] at hx
        subst hx
        rw [hlo] at t0
        rw [hhi] at t1
        exact ⟨hon _ _ t0 t1, hall 0 0 le_rfl zero_le_one hkeep j (by simpa using hj) t t0 t1⟩
      · intro i t hi t0 t1 _ _
        exact (hpts _).mpr ⟨_, List.mem_singleton.mpr rfl, i, by dsimp only; omega, t, by rw [hlo]; exact t0, by rw [hhi]; exact t1, by rw [Nat.zero_add]⟩
    · have hs0 := hdr hcl
      subst hs0
      have hrs0 : rs = [] := by
        obtain ⟨useds, hst, hpm⟩ := hrs.several (by simp)
        cases hst with
        | nil => rfl
        | cons _ used useds rs more hr _ =>
          obtain ⟨vs, hch, -⟩ := hr
          have := hch.nonempty
          simp only [List.length_nil, List.range_zero, List.perm_nil, List.flatten_cons, List.append_eq_nil_iff] at hpm
          exact absurd hpm.1 this
      subst hrs0
      refine ⟨by simp, fun i t hi t0 t1 _ h => ?_⟩
      have := hall i t t0 t1 h 0 (Nat.zero_le _) 0 le_rfl zero_le_one
      rw [Nat.zero_add] at this
      exact absurd (keeps_clear hp he ht hD (by rw [hv0]; exact this)) hcl
  · -- with crossings
    have hes0 : es ≠ [] := by
      intro h
      rw [h] at hperm
      have := hperm.length_eq
      simp only [List.length_nil, List.length_map, bothCuts, List.length_append] at this
      exact hE0 (List.length_eq_zero_iff.mp (by omega))
    obtain ⟨cuts, first, last, hcut, -, -, hkept⟩ := hss.pieces hes0
    obtain ⟨CS, hCS, hCp, hCl⟩ := sorted_cuts he hf hE hperm hcut
    obtain ⟨f, hfirst⟩ : ∃ f, CS.head? = some f := by
      cases CS with
      | nil => 
        have := hCp.length_eq
        simp only [List.length_nil, bothCuts, List.length_append, List.length_map] at this
        exact absurd (List.length_eq_zero_iff.mp (by omega)) hE0
      | cons a l => exact ⟨a, rfl⟩
    have hS : RunCuts R E CS f := ⟨hCp, hCl, hfirst⟩
    have hrange : ∀ c ∈ CS, c.1 < R.verts.length := fun c hc => hE.range c (hCp.mem_iff.mp hc)
    rw [hp.closed, ← hCS, gaps_listed hn hrange hfirst] at hkept
    have hslices := kept_slices (Q := fun x => PieceKeeps p d x.1 x.2) _ _ (fun x hx => by
      obtain ⟨a, b⟩ := x
      obtain ⟨s, vs, h1, h2, h3, h4, h5⟩ := piece_slice he hf hE hS hg hx
      obtain ⟨-, ha, -, -⟩ := between_cuts he hf hE hS hx
      refine ⟨s, vs, ?_, ⟨h2, h3, h4, h5⟩, piece_clear hp hd he hc ht hD hf hE hos hT hS hx h2 h3⟩
      unfold listed
      dsimp only
      rw [Nat.mod_eq_of_lt (hE.range a ha)]
      exact h1) hkept
    have hL : ∀ x ∈ (pathSegs (CS ++ [again R f])).filter (fun x => decide (PieceKeeps p d x.1 x.2)), x ∈ pathSegs (CS ++ [again R f]) ∧ PieceKeeps p d x.1 x.2 := by
      intro x hx
      rw [List.mem_filter] at hx
      exact ⟨hx.1, by simpa using hx.2⟩
    have hrn : ∀ x ∈ pathSegs (CS ++ [again R f]), StretchRun R E x.1.1 (x.2.1 - x.1.1) (loOf x.1) (hiOf x.1 x.2) := fun x hx => piece_run he hf hE hS hx
    have hpts := joined_points (gap := gap) he hf hslices (fun x hx => by
        obtain ⟨⟨-, -, -, -, ho⟩, -⟩ := between_cuts he hf hE hS (hL x hx).1
        rcases ho with ho | ho <;> omega)
      (fun x hx j hj => ((hrn x (hL x hx).1).each j hj).lt)
      (fun x hx y hy => by
        obtain ⟨-, -, hb, -⟩ := between_cuts he hf hE hS (hL x hx).1
        obtain ⟨-, ha, -, -⟩ := between_cuts he hf hE hS (hL y hy).1
        have := cuts_far hE hb ha
        dsimp only at this
        rwa [curveAt_wrap hn] at this) hg hj hj0 hrs
    constructor
    · intro r hr X hX
      obtain ⟨x, hx, j, hj, t, t0, t1, rfl⟩ := (hpts X).mp ⟨r, hr, hX⟩
      obtain ⟨hx1, hx2⟩ := hL x hx
      have hst := (hrn x hx1).each j hj
      exact ⟨hon _ _ (hst.zero.trans t0) (t1.trans hst.one), hx2 j hj t t0 t1⟩
    · intro i t hi t0 t1 hnc hk
      obtain ⟨a, b, j, hab, hj, hji, l0, l1⟩ := pieces_cover he hf hE hS hi t0 t1
      have hk' : Keeps p |d| (curveAt R (a.1 + j) t) := by rw [← curveAt_wrap hn, hji]; exact hk
      have hall : PieceKeeps p d a b := keep_run hp hd he hc hE hos (hrn (a, b) hab) hj l0 l1 (by rw [hji]; exact hnc) hk'
      refine (hpts _).mpr ⟨(a, b), List.mem_filter.mpr ⟨hab, by simpa using hall⟩, j, hj, t, l0, l1, ?_⟩
      dsimp only
      rw [← curveAt_wrap hn (a.1 + j), hji]

end
end Cavc
