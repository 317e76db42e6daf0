import Verif.Lemmas.OffsetClosed
import Verif.Lemmas.OffsetSteady

/-! # The results of the parallel offset of closed polylines of lines and arcs are closed -/

set_option linter.unusedVariables false
set_option linter.unusedSectionVars false

namespace Cavc
open Pline

/-- just after (`σ = 1`) or just before (`σ = -1`) a cut, the distance is kept along the raw offset -/
def BesideKept (p R : Pline ℝ) (r σ : ℝ) (c : Cut) : Prop := ∃ δ > 0, ∀ s, 0 < s → s < δ → Keeps p r (curveAt R c.1 (c.2 + σ * s))

/-- At a crossing that keeps the distance, the branches that keep it lead from one pass to the other, or stay on their pass. -/
def BranchesLeadOn (p R : Pline ℝ) (r : ℝ) (E : List (Cut × Cut)) : Prop := ∀ e ∈ E, Keeps p r (curveAt R e.1.1 e.1.2) →
  ((BesideKept p R r 1 e.1 ↔ BesideKept p R r (-1) e.2) ∧ (BesideKept p R r (-1) e.1 ↔ BesideKept p R r 1 e.2)) ∨
  ((BesideKept p R r 1 e.1 ↔ BesideKept p R r (-1) e.1) ∧ (BesideKept p R r 1 e.2 ↔ BesideKept p R r (-1) e.2))

section
variable {p R : Pline ℝ} {d eps gap tol : ℝ} {E : List (Cut × Cut)} {CS : List Cut} {f : Cut}

/-- a piece keeps the distance if and only if it does just after its start, and if and only if it does just before its end -/
theorem piece_beside_any (he : 0 < eps) (hf : FullLoop R eps) (hE : SelfCrossing R eps gap E) (hC : ChangesAtCrossings p R |d| E) (hS : RunCuts R E CS f)
    {a b : Cut} (hab : (a, b) ∈ pathSegs (CS ++ [again R f])) :
    (PieceFar p R |d| a b ↔ BesideKept p R |d| 1 a) ∧ (PieceFar p R |d| a b ↔ BesideKept p R |d| (-1) (b.1 % R.verts.length, b.2)) := by
  have hn : 0 < R.verts.length := by have := hE.three; omega
  have hr := piece_run he hf hE hS hab
  obtain ⟨⟨-, -, -, -, ho⟩, ha, hb, -⟩ := between_cuts he hf hE hS hab
  have hai := hE.range a ha
  have hle : a.1 ≤ b.1 := by rcases ho with ho | ho <;> omega
  constructor
  · have hst := hr.each 0 (Nat.zero_le _)
    have hlo : loOf a 0 = a.2 := by simp [loOf]
    have hlt := hst.lt
    rw [hlo] at hlt
    constructor
    · intro hk
      refine ⟨hiOf a b 0 - a.2, by linarith, fun s s0 s1 => ?_⟩
      rw [one_mul]
      exact hk 0 (Nat.zero_le _) _ (by rw [hlo]; linarith) (by linarith)
    · rintro ⟨δ, hδ, h⟩
      obtain ⟨s, s0, s1⟩ := exists_between (lt_min hδ (sub_pos.mpr hlt))
      obtain ⟨s1, s2⟩ := lt_min_iff.mp s1
      have h1 := h s s0 s1
      rw [one_mul] at h1
      exact keep_run_any hC hE hr (j := 0) (Nat.zero_le _) (t := a.2 + s) (by rw [hlo]; linarith) (by linarith)
        (hst.inside _ (by rw [hlo]; linarith) (by linarith)) h1
  · have hst := hr.each (b.1 - a.1) le_rfl
    have hhi : hiOf a b (b.1 - a.1) = b.2 := by simp [hiOf]
    have hlt := hst.lt
    rw [hhi] at hlt
    have hsum : a.1 + (b.1 - a.1) = b.1 := by omega
    constructor
    · intro hk
      refine ⟨b.2 - loOf a (b.1 - a.1), by linarith, fun s s0 s1 => ?_⟩
      have := hk (b.1 - a.1) le_rfl (b.2 + -1 * s) (by linarith) (by rw [hhi]; linarith)
      rw [hsum] at this
      dsimp only
      rwa [curveAt_wrap hn]
    · rintro ⟨δ, hδ, h⟩
      obtain ⟨s, s0, s1⟩ := exists_between (lt_min hδ (sub_pos.mpr hlt))
      obtain ⟨s1, s2⟩ := lt_min_iff.mp s1
      have h1 := h s s0 s1
      dsimp only at h1
      rw [curveAt_wrap hn] at h1
      exact keep_run_any hC hE hr (j := b.1 - a.1) le_rfl (t := b.2 + -1 * s) (by linarith) (by rw [hhi]; linarith)
        (hst.inside _ (by linarith) (by rw [hhi]; linarith)) (by rw [hsum]; exact h1)

/-- A cut beside which the distance is kept keeps it. -/
theorem beside_keeps_any (hn : 0 < R.verts.length) {σ : ℝ} (hσ : σ = 1 ∨ σ = -1) {c : Cut} (h : BesideKept p R |d| σ c) : Keeps p |d| (curveAt R c.1 c.2) := by
  obtain ⟨δ, hδ, h⟩ := h
  intro Y hY
  by_contra hlt
  push Not at hlt
  have hcont := edist_continuous (curveAt_continuous hn c.1) (const_continuous Y)
  obtain ⟨δ₁, hδ₁, hball⟩ := Metric.continuous_iff.mp hcont c.2 _ (sub_pos.mpr hlt)
  obtain ⟨s, s0, s1⟩ := exists_between (lt_min hδ hδ₁)
  obtain ⟨s1, s2⟩ := lt_min_iff.mp s1
  have habs : |c.2 + σ * s - c.2| = s := by
    rw [add_sub_cancel_left]
    rcases hσ with rfl | rfl
    · rw [one_mul, abs_of_pos s0]
    · rw [neg_one_mul, abs_neg, abs_of_pos s0]
  have h1 := hball (c.2 + σ * s) (by rw [Real.dist_eq, habs]; exact s2)
  have h2 := h s s0 s1 Y hY
  rw [Real.dist_eq] at h1
  have := (abs_lt.mp h1).2
  linarith

open Classical in
/-- The pieces that keep the distance start and end in the same points. -/
theorem kept_balanced_any (he : 0 < eps) (hf : FullLoop R eps) (hE : SelfCrossing R eps gap E) (hC : ChangesAtCrossings p R |d| E) (hfl : BranchesLeadOn p R |d| E) (hS : RunCuts R E CS f) :
    let L := (pathSegs (CS ++ [again R f])).filter fun x => decide (PieceFar p R |d| x.1 x.2)
    (L.map fun x => curveAt R x.1.1 x.1.2).Perm (L.map fun x => curveAt R x.2.1 x.2.2) := by
  intro L
  have hn : 0 < R.verts.length := by have := hE.three; omega
  set pt : Cut → V2 ℝ := fun c => curveAt R c.1 c.2 with hpt
  set w : Cut → Cut := fun c => (c.1 % R.verts.length, c.2) with hw
  set P := pathSegs (CS ++ [again R f]) with hP
  obtain ⟨l, hl⟩ : ∃ l, CS = f :: l := by
    have := hS.first
    cases hC : CS with
    | nil => rw [hC] at this; simp at this
    | cons a l => rw [hC] at this; simp at this; exact ⟨l, by rw [this]⟩
  have hrange : ∀ c ∈ CS, w c = c := fun c hc => by
    rw [hw]; exact Prod.ext (Nat.mod_eq_of_lt (hE.range c (hS.perm.mem_iff.mp hc))) rfl
  have hstarts : P.map Prod.fst = CS := snoc_firsts CS _
  have hstops : (P.map fun x => w x.2).Perm CS := by
    have h1 : P.map Prod.snd = l ++ [again R f] := by rw [hP, hl]; exact snoc_seconds f l _
    have h2 : (P.map fun x => w x.2) = (P.map Prod.snd).map w := by rw [List.map_map]; rfl
    rw [h2, h1, List.map_append, List.map_congr_left (g := id) (fun c hc => hrange c (by rw [hl]; simp [hc])), List.map_id]
    have h3 : w (again R f) = f := by
      rw [← hrange f (by rw [hl]; simp)]
      simp [hw, again]
    rw [List.map_singleton, h3, hl]
    exact List.perm_append_singleton _ _
  have e1 : (L.map fun x => curveAt R x.1.1 x.1.2) = ((CS.filter fun c => decide (BesideKept p R |d| 1 c)).map pt) := by
    rw [← hstarts, List.filter_map, List.map_map]
    have : L = P.filter ((fun c => decide (BesideKept p R |d| 1 c)) ∘ Prod.fst) := by
      refine List.filter_congr fun x hx => ?_
      simp only [Function.comp, decide_eq_decide]
      exact (piece_beside_any he hf hE hC hS hx).1
    rw [this]
    rfl
  have e2 : (L.map fun x => curveAt R x.2.1 x.2.2).Perm ((CS.filter fun c => decide (BesideKept p R |d| (-1) c)).map pt) := by
    refine List.Perm.trans ?_ ((hstops.filter _).map pt)
    rw [List.filter_map, List.map_map]
    have : L = P.filter ((fun c => decide (BesideKept p R |d| (-1) c)) ∘ fun x => w x.2) := by
      refine List.filter_congr fun x hx => ?_
      simp only [Function.comp, decide_eq_decide]
      exact (piece_beside_any he hf hE hC hS hx).2
    rw [this]
    refine List.Perm.of_eq (List.map_congr_left fun x hx => ?_)
    simp only [Function.comp, hpt, hw]
    rw [curveAt_wrap hn]
  rw [e1]
  refine List.Perm.trans ?_ e2.symm
  refine (((hS.perm.filter _).map pt).trans ?_).trans ((hS.perm.filter _).map pt).symm
  unfold bothCuts
  refine pairs_balanced pt _ _ E fun e hee => ⟨hE.on e hee, ?_⟩
  by_cases hk : Keeps p |d| (curveAt R e.1.1 e.1.2)
  · exact hfl e hee hk
  · left
    have hk' : ¬ Keeps p |d| (curveAt R e.2.1 e.2.2) := by rw [← hE.on e hee]; exact hk
    have n := fun σ hσ => mt (beside_keeps_any hn (σ := σ) hσ) hk
    have n' := fun σ hσ => mt (beside_keeps_any hn (σ := σ) hσ) hk'
    exact ⟨⟨fun h => absurd h (n 1 (Or.inl rfl)), fun h => absurd h (n' (-1) (Or.inr rfl))⟩,
      ⟨fun h => absurd h (n (-1) (Or.inr rfl)), fun h => absurd h (n' 1 (Or.inl rfl))⟩⟩

/-- The results for a closed polyline are closed. -/
theorem result_closed_any {joinEps : ℝ} (hp : FullLoop p eps) (he : 0 < eps) (ht : 0 < tol) (hD : tol ≤ |d|) (hf : FullLoop R eps) (hE : SelfCrossing R eps gap E)
    (hF : FindsSelf R eps) (hC : ChangesAtCrossings p R |d| E) (hfl : BranchesLeadOn p R |d| E) (hT : ClearTests p R d eps tol E) (hW : ReadableTests p R eps E) (hg : eps ≤ gap) (hj : 2 * joinEps ≤ gap) (hj0 : 0 < joinEps)
    {es : List (Nat × V2 ℝ)} {ss : List (ViewData ℝ)} {rs : List (Pline ℝ)} (hes : CutsSingle R eps es)
    (hss : OffsetSlices p R d eps tol es ss) (hrs : OffsetJoined R ss p.closed eps joinEps rs) :
    ∀ r ∈ rs, SoundLoop eps r := by
  classical
  have hn : 0 < R.verts.length := by have := hE.three; omega
  rw [hp.closed] at hrs
  have main : ∀ L : List (Cut × Cut), List.Forall₂ (fun s x => ∃ vs, GoodSlice R eps s x vs) ss L → (∀ x ∈ L, x.1.1 ≤ x.2.1) →
      (∀ x ∈ L, ∀ y ∈ L, curveAt R x.2.1 x.2.2 = curveAt R y.1.1 y.1.2 ∨ FarApart gap (curveAt R x.2.1 x.2.2) (curveAt R y.1.1 y.1.2)) →
      (L.map fun x => curveAt R x.1.1 x.1.2).Perm (L.map fun x => curveAt R x.2.1 x.2.2) → ∀ r ∈ rs, SoundLoop eps r := by
    intro L hgood hord hends hbal
    have hlen := hgood.length_eq
    obtain ⟨W, P, -, hh⟩ := good_parts he hf hgood hord hends hg hj hj0.le hlen
    refine stitch_closed he hj0 P ?_ hrs
    unfold Balanced
    have m1 : ((List.range ss.length).map fun i => headPos (W i)) = L.map fun x => curveAt R x.1.1 x.1.2 := by
      apply List.ext_getElem
      · simp [hlen]
      · intro i h1 h2
        simp only [List.length_map, List.length_range] at h1
        simp only [List.getElem_map, List.getElem_range]
        exact (hh i h1).1
    have m2 : ((List.range ss.length).map fun i => lastPos (W i)) = L.map fun x => curveAt R x.2.1 x.2.2 := by
      apply List.ext_getElem
      · simp [hlen]
      · intro i h1 h2
        simp only [List.length_map, List.length_range] at h1
        simp only [List.getElem_map, List.getElem_range]
        exact (hh i h1).2
    rw [m1, m2]
    exact hbal
  obtain ⟨pairs, hP, hes1, -⟩ := hes
  have hperm : es.Perm ((bothCuts E).map (cutPt R)) := hes1 ▸ self_cuts he hf hE hF hP
  by_cases hE0 : E = []
  · have hes0 : es = [] := by subst hE0; simpa [bothCuts] using hperm
    obtain ⟨v, hv⟩ : ∃ v, R.verts.head? = some v := ⟨R.verts[0], by rw [List.head?_eq_getElem?, List.getElem?_eq_getElem hn]⟩
    obtain ⟨hk, hdr⟩ := hss.whole hes0 v hv
    by_cases hcl : PointClear p d eps tol v.pos
    · obtain ⟨s, hs, rfl⟩ := hk hcl
      obtain ⟨vs, hvs⟩ := entire_along he hf hs
      have heq : curveAt R (R.verts.length - 1) 1 = curveAt R 0 0 := by
        rw [curveAt_join hn, Nat.sub_add_cancel (by omega), ← curveAt_wrap hn, Nat.mod_self]
      refine main [((0, 0), (R.verts.length - 1, 1))] (List.Forall₂.cons ⟨vs, hvs⟩ List.Forall₂.nil) (by simp) (by
          intro x hx y hy
          simp only [List.mem_singleton] at hx hy
          subst hx; subst hy
          exact Or.inl heq) (by simp [heq])
    · have hs0 := hdr hcl
      subst hs0
      exact main [] List.Forall₂.nil (by simp) (by simp) (by simp)
  · have hes0 : es ≠ [] := by
      intro h
      rw [h] at hperm
      have := hperm.length_eq
      simp only [List.length_nil, List.length_map, bothCuts, List.length_append] at this
      exact hE0 (List.length_eq_zero_iff.mp (by omega))
    obtain ⟨cuts, first, last, hcut, -, -, hkept⟩ := hss.pieces hes0
    obtain ⟨CS, hCS, hCp, hCl⟩ := sorted_cuts he hf hE hperm hcut
    obtain ⟨f, hfirst⟩ : ∃ f, CS.head? = some f := by
      cases CS with
      | nil =>
        have := hCp.length_eq
        simp only [List.length_nil, bothCuts, List.length_append, List.length_map] at this
        exact absurd (List.length_eq_zero_iff.mp (by omega)) hE0
      | cons a l => exact ⟨a, rfl⟩
    have hS : RunCuts R E CS f := ⟨hCp, hCl, hfirst⟩
    have hrange : ∀ c ∈ CS, c.1 < R.verts.length := fun c hc => hE.range c (hCp.mem_iff.mp hc)
    rw [hp.closed, ← hCS, gaps_listed hn hrange hfirst] at hkept
    have hslices := kept_slices (Q := fun x => PieceFar p R |d| x.1 x.2) _ _ (fun x hx => by
      obtain ⟨a, b⟩ := x
      obtain ⟨s, vs, h1, h2, h3, h4, h5⟩ := piece_slice he hf hE hS hg hx
      obtain ⟨-, ha, -, -⟩ := between_cuts he hf hE hS hx
      refine ⟨s, vs, ?_, ⟨h2, h3, h4, h5⟩, piece_clear_any hp he ht hD hf hE hC hT hW hS hx h2 h3⟩
      unfold listed
      dsimp only
      rw [Nat.mod_eq_of_lt (hE.range a ha)]
      exact h1) hkept
    refine main _ hslices (fun x hx => ?_) (fun x hx y hy => ?_) (kept_balanced_any he hf hE hC hfl hS)
    · obtain ⟨⟨-, -, -, -, ho⟩, -⟩ := between_cuts he hf hE hS (List.mem_filter.mp hx).1
      rcases ho with ho | ho <;> omega
    · obtain ⟨-, -, hb, -⟩ := between_cuts he hf hE hS (List.mem_filter.mp hx).1
      obtain ⟨-, ha, -, -⟩ := between_cuts he hf hE hS (List.mem_filter.mp hy).1
      have := cuts_far hE hb ha
      dsimp only at this
      rwa [curveAt_wrap hn] at this

end
end Cavc
