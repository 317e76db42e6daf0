import Verif.Lemmas.LoopResult
import Verif.Spec.ShapeOffset

/-! # A condition along a closed polyline that changes only at cuts -/

set_option linter.unusedVariables false
set_option linter.unusedSectionVars false

namespace Cavc
open Pline RealScalar

section
variable {R : Pline ℝ} {eps gap : ℝ} {C CS : List Cut} {f : Cut} {K : V2 ℝ → Prop}

/-- the condition is closed along the polyline, and away from the cuts it is open -/
structure Along1 (R : Pline ℝ) (C : List Cut) (K : V2 ℝ → Prop) : Prop where
  closed : ∀ j, IsClosed {t | K (curveAt R j t)}
  steady : ∀ i t, i < R.verts.length → 0 ≤ t → t ≤ 1 → (i, t) ∉ C → K (curveAt R i t) →
    ∃ δ > 0, ∀ t', 0 ≤ t' → t' ≤ 1 → |t' - t| < δ → K (curveAt R i t')

/-- Along a part of a segment without cuts inside, the condition holds everywhere or nowhere (except at cuts). -/
theorem hold_seg {j : Nat} (hcl : IsClosed {t | K (curveAt R j t)}) {cut : ℝ → Prop}
    (hC : ∀ t, 0 ≤ t → t ≤ 1 → ¬ cut t → K (curveAt R j t) → ∃ δ > 0, ∀ t', 0 ≤ t' → t' ≤ 1 → |t' - t| < δ → K (curveAt R j t'))
    {lo hi : ℝ} (h0 : 0 ≤ lo) (hlt : lo < hi) (h1 : hi ≤ 1) (hno : ∀ t, lo < t → t < hi → ¬ cut t)
    {s : ℝ} (hs0 : lo ≤ s) (hs1 : s ≤ hi) (hcut : ¬ cut s) (hk : K (curveAt R j s)) :
    ∀ t, lo ≤ t → t ≤ hi → K (curveAt R j t) := by
  -- a point inside
  have hin : ∃ s, lo < s ∧ s < hi ∧ K (curveAt R j s) := by
    obtain ⟨δ, hδ, h⟩ := hC _ (by linarith) (by linarith) hcut hk
    rcases hs0.eq_or_lt with rfl | hs0
    · refine ⟨lo + min (δ / 2) ((hi - lo) / 2), ?_, ?_, h _ ?_ ?_ ?_⟩
      · have : 0 < min (δ / 2) ((hi - lo) / 2) := lt_min (by linarith) (by linarith)
        linarith
      · have := min_le_right (δ / 2) ((hi - lo) / 2); linarith
      · have : 0 < min (δ / 2) ((hi - lo) / 2) := lt_min (by linarith) (by linarith)
        linarith
      · have := min_le_right (δ / 2) ((hi - lo) / 2); linarith
      · have := min_le_left (δ / 2) ((hi - lo) / 2)
        have h' : 0 < min (δ / 2) ((hi - lo) / 2) := lt_min (by linarith) (by linarith)
        rw [add_sub_cancel_left, abs_of_pos h']; linarith
    · refine ⟨s - min (δ / 2) ((s - lo) / 2), ?_, ?_, h _ ?_ ?_ ?_⟩
      · have := min_le_right (δ / 2) ((s - lo) / 2); linarith
      · have : 0 < min (δ / 2) ((s - lo) / 2) := lt_min (by linarith) (by linarith)
        linarith
      · have := min_le_right (δ / 2) ((s - lo) / 2); linarith
      · have : 0 < min (δ / 2) ((s - lo) / 2) := lt_min (by linarith) (by linarith)
        linarith
      · have := min_le_left (δ / 2) ((s - lo) / 2)
        have h' : 0 < min (δ / 2) ((s - lo) / 2) := lt_min (by linarith) (by linarith)
        rw [sub_sub_cancel_left, abs_neg, abs_of_pos h']; linarith
  obtain ⟨s', hs0', hs1', hk'⟩ := hin
  have hopen : ∀ t, lo < t → t < hi → K (curveAt R j t) := by
    by_contra hbad
    push Not at hbad
    obtain ⟨t, t0, t1, hbad⟩ := hbad
    have hU : IsOpen {x | lo < x ∧ x < hi ∧ K (curveAt R j x)} := by
      rw [Metric.isOpen_iff]
      rintro x ⟨x0, x1, hx⟩
      obtain ⟨δ, hδ, h⟩ := hC _ (by linarith) (by linarith) (hno x x0 x1) hx
      refine ⟨min δ (min (x - lo) (hi - x)), lt_min hδ (lt_min (by linarith) (by linarith)), fun y hy => ?_⟩
      rw [Metric.mem_ball, Real.dist_eq] at hy
      obtain ⟨a1, a2⟩ := lt_min_iff.mp hy
      obtain ⟨a2, a3⟩ := lt_min_iff.mp a2
      have := abs_lt.mp a2
      have := abs_lt.mp a3
      exact ⟨by linarith, by linarith, h y (by linarith) (by linarith) a1⟩
    have hV : IsOpen {x | K (curveAt R j x)}ᶜ := hcl.isOpen_compl
    obtain ⟨z, hz, hzu, hzv⟩ := isPreconnected_Ioo (a := lo) (b := hi) _ _ hU hV
      (fun x hx => by
        by_cases hkx : K (curveAt R j x)
        · exact Or.inl ⟨hx.1, hx.2, hkx⟩
        · exact Or.inr hkx)
      ⟨s', ⟨hs0', hs1'⟩, hs0', hs1', hk'⟩ ⟨t, ⟨t0, t1⟩, hbad⟩
    exact hzv hzu.2.2
  intro t t0 t1
  have hsub : Set.Icc lo hi ⊆ {x | K (curveAt R j x)} := by
    rw [← closure_Ioo hlt.ne]
    exact closure_minimal (fun x hx => hopen x hx.1 hx.2) hcl
  exact hsub ⟨t0, t1⟩

/-- Along a run of stretches, the condition holds everywhere if it holds anywhere away from the cuts. -/
theorem hold_run (hC : Along1 R C K) (hI : LoopInside R eps gap C) {i m : Nat} {lo hi : Nat → ℝ}
    (hr : LoopRun R C i m lo hi) {j : Nat} (hj : j ≤ m) {t : ℝ} (t0 : lo j ≤ t) (t1 : t ≤ hi j)
    (hcut : ((i + j) % R.verts.length, t) ∉ C) (hk : K (curveAt R (i + j) t)) :
    ∀ k ≤ m, ∀ u, lo k ≤ u → u ≤ hi k → K (curveAt R (i + k) u) := by
  have hn : 0 < R.verts.length := by have := (hr.each 0 (Nat.zero_le _)).range; omega
  have seg : ∀ k ≤ m, (∃ s, lo k ≤ s ∧ s ≤ hi k ∧ ((i + k) % R.verts.length, s) ∉ C ∧ K (curveAt R (i + k) s)) →
      ∀ u, lo k ≤ u → u ≤ hi k → K (curveAt R (i + k) u) := by
    rintro k hk ⟨s, s0, s1, hs, hks⟩ u u0 u1
    have h := hr.each k hk
    rw [← curveAt_wrap hn] at hks ⊢
    exact hold_seg (cut := fun t => ((i + k) % R.verts.length, t) ∈ C) (hC.closed _) (fun t => hC.steady _ t h.range) h.zero h.lt h.one h.inside s0 s1 hs hks u u0 u1
  have hpos : ∀ {c : Cut}, c ∈ C → 0 < c.2 ∧ c.2 < 1 := fun hc => ⟨(hI.ok _ hc).pos, (hI.ok _ hc).lt⟩
  have h0 := seg j hj ⟨t, t0, t1, hcut, hk⟩
  have up : ∀ k, j ≤ k → k ≤ m → ∀ u, lo k ≤ u → u ≤ hi k → K (curveAt R (i + k) u) := by
    intro k hjk
    induction k, hjk using Nat.le_induction with
    | base => exact fun _ => h0
    | succ k hjk ih =>
      intro hkm
      obtain ⟨h1, h2⟩ := hr.joint k (by omega)
      have hs := hr.each (k + 1) hkm
      have hs' := hr.each k (by omega)
      refine seg (k + 1) hkm ⟨0, by rw [h2], by have := hs.lt; have := hs.zero; linarith, fun h => absurd (hpos h).1 (lt_irrefl 0), ?_⟩
      have := ih (by omega) 1 (by rw [← h1]; exact hs'.lt.le) (by rw [h1])
      rw [curveAt_join hn] at this
      exact this
  have down : ∀ w k, k + w = j → ∀ u, lo k ≤ u → u ≤ hi k → K (curveAt R (i + k) u) := by
    intro w
    induction w with
    | zero => intro k hk; have : k = j := by omega
              subst this; exact h0
    | succ w ih =>
      intro k hk
      obtain ⟨h1, h2⟩ := hr.joint k (by omega)
      have hs := hr.each (k + 1) (by omega)
      have hs' := hr.each k (by omega)
      refine seg k (by omega) ⟨1, by rw [← h1]; exact hs'.lt.le, by rw [h1], fun h => absurd (hpos h).2 (lt_irrefl 1), ?_⟩
      have := ih (k + 1) (by omega) 0 (by rw [h2]) (by have := hs.lt; have := hs.zero; linarith)
      rw [← Nat.add_assoc, ← curveAt_join hn] at this
      exact this
  intro k hk
  rcases Nat.le_total j k with h | h
  · exact up k h hk
  · exact down (j - k) k (by omega)

/-- The condition holds in all points of the piece. -/
def PieceHolds (R : Pline ℝ) (K : V2 ℝ → Prop) (a b : Cut) : Prop :=
  ∀ j ≤ b.1 - a.1, ∀ t, loOf a j ≤ t → t ≤ hiOf a b j → K (curveAt R (a.1 + j) t)

/-- The condition holds just after the cut (`σ = 1`) or just before it (`σ = -1`). -/
def HoldsBeside (R : Pline ℝ) (K : V2 ℝ → Prop) (σ : ℝ) (c : Cut) : Prop :=
  ∃ δ > 0, ∀ s, 0 < s → s < δ → K (curveAt R c.1 (c.2 + σ * s))

/-- A piece satisfies the condition if and only if it does just after its start, and if and only if it does just before its end. -/
theorem piece_holds (he : 0 < eps) (hf : FullLoop R eps) (hI : LoopInside R eps gap C) (hS : RunLoop C CS f) (hC : Along1 R C K)
    {a b : Cut} (hab : (a, b) ∈ pathSegs (CS ++ [again R f])) (hne : a ≠ b) :
    (PieceHolds R K a b ↔ HoldsBeside R K 1 a) ∧ (PieceHolds R K a b ↔ HoldsBeside R K (-1) (b.1 % R.verts.length, b.2)) := by
  have hn : 0 < R.verts.length := by have := hf.two; omega
  have hr := loop_run he hf hI hS hab hne
  obtain ⟨ho, ha, hb, -⟩ := loop_between he hf hI hS hab hne
  have hai := hI.range a ha
  have hle : a.1 ≤ b.1 := by rcases ho with ho | ho <;> omega
  constructor
  · have hst := hr.each 0 (Nat.zero_le _)
    have hlo : loOf a 0 = a.2 := by simp [loOf]
    have hlt := hst.lt
    rw [hlo] at hlt
    constructor
    · intro hk
      refine ⟨hiOf a b 0 - a.2, by linarith, fun s s0 s1 => ?_⟩
      rw [one_mul]
      exact hk 0 (Nat.zero_le _) _ (by rw [hlo]; linarith) (by linarith)
    · rintro ⟨δ, hδ, h⟩
      obtain ⟨s, s0, s1⟩ := exists_between (lt_min hδ (sub_pos.mpr hlt))
      obtain ⟨s1, s2⟩ := lt_min_iff.mp s1
      have h1 := h s s0 s1
      rw [one_mul] at h1
      exact hold_run hC hI hr (j := 0) (Nat.zero_le _) (t := a.2 + s) (by rw [hlo]; linarith) (by linarith)
        (hst.inside _ (by rw [hlo]; linarith) (by linarith)) h1
  · have hst := hr.each (b.1 - a.1) le_rfl
    have hhi : hiOf a b (b.1 - a.1) = b.2 := by simp [hiOf]
    have hlt := hst.lt
    rw [hhi] at hlt
    have hsum : a.1 + (b.1 - a.1) = b.1 := by omega
    constructor
    · intro hk
      refine ⟨b.2 - loOf a (b.1 - a.1), by linarith, fun s s0 s1 => ?_⟩
      have := hk (b.1 - a.1) le_rfl (b.2 + -1 * s) (by linarith) (by rw [hhi]; linarith)
      rw [hsum] at this
      dsimp only
      rwa [curveAt_wrap hn]
    · rintro ⟨δ, hδ, h⟩
      obtain ⟨s, s0, s1⟩ := exists_between (lt_min hδ (sub_pos.mpr hlt))
      obtain ⟨s1, s2⟩ := lt_min_iff.mp s1
      have h1 := h s s0 s1
      dsimp only at h1
      rw [curveAt_wrap hn] at h1
      exact hold_run hC hI hr (j := b.1 - a.1) le_rfl (t := b.2 + -1 * s) (by linarith) (by rw [hhi]; linarith)
        (hst.inside _ (by linarith) (by rw [hhi]; linarith)) (by rw [hsum]; exact h1)

/-! ## The starts and the ends of the pieces -/

theorem distinct_firsts [DecidableEq Cut] : ∀ (l : List Cut) (g : Cut), (l ++ [g]).Pairwise lexLe → (∀ c ∈ l, c ≠ g) →
    (((pathSegs (l ++ [g])).filter fun x => decide (x.1 ≠ x.2)).map Prod.fst).Pairwise lexLt ∧
    ∀ c, c ∈ ((pathSegs (l ++ [g])).filter fun x => decide (x.1 ≠ x.2)).map Prod.fst ↔ c ∈ l
  | [], g, _, _ => by simp [pathSegs]
  | [a], g, _, h => by simp [pathSegs, h a (by simp)]
  | a :: b :: l, g, hs, h => by
    obtain ⟨ih1, ih2⟩ := distinct_firsts (b :: l) g (List.pairwise_cons.mp hs).2 fun c hc => h c (by simp [hc])
    simp only [List.cons_append, pathSegs] at ih1 ih2 ⊢
    by_cases hab : a = b
    · subst hab
      rw [List.filter_cons_of_neg (by simp)]
      refine ⟨ih1, fun c => (ih2 c).trans ?_⟩
      simp
    · rw [List.filter_cons_of_pos (by simpa using hab), List.map_cons]
      refine ⟨List.pairwise_cons.mpr ⟨fun c hc => ?_, ih1⟩, fun c => ?_⟩
      · have hc' := (ih2 c).mp hc
        have h1 : lexLt a b := ((List.pairwise_cons.mp hs).1 b (by simp)).resolve_left hab
        rcases List.mem_cons.mp hc' with rfl | hc'
        · exact h1
        · rcases (List.pairwise_cons.mp (List.pairwise_cons.mp hs).2).1 c (by simp [hc']) with rfl | h2
          · exact h1
          · exact lexLt_trans h1 h2
      · rw [List.mem_cons, ih2, List.mem_cons (a := c) (b := a)]

theorem distinct_seconds [DecidableEq Cut] : ∀ (l : List Cut) (a : Cut), (a :: l).Pairwise lexLe →
    (((pathSegs (a :: l)).filter fun x => decide (x.1 ≠ x.2)).map Prod.snd).Pairwise lexLt ∧
    ∀ c, c ∈ ((pathSegs (a :: l)).filter fun x => decide (x.1 ≠ x.2)).map Prod.snd ↔ c ∈ l ∧ c ≠ a
  | [], a, _ => by simp [pathSegs]
  | b :: l, a, hs => by
    obtain ⟨ih1, ih2⟩ := distinct_seconds l b (List.pairwise_cons.mp hs).2
    simp only [pathSegs]
    by_cases hab : a = b
    · subst hab
      rw [List.filter_cons_of_neg (by simp)]
      refine ⟨ih1, fun c => (ih2 c).trans ?_⟩
      constructor
      · rintro ⟨h1, h2⟩; exact ⟨by simp [h1], h2⟩
      · rintro ⟨h1, h2⟩; exact ⟨(List.mem_cons.mp h1).resolve_left h2, h2⟩
    · rw [List.filter_cons_of_pos (by simpa using hab), List.map_cons]
      have hlt : lexLt a b := ((List.pairwise_cons.mp hs).1 b (by simp)).resolve_left hab
      refine ⟨List.pairwise_cons.mpr ⟨fun c hc => ?_, ih1⟩, fun c => ?_⟩
      · obtain ⟨h1, h2⟩ := (ih2 c).mp hc
        exact ((List.pairwise_cons.mp (List.pairwise_cons.mp hs).2).1 c h1).resolve_left (Ne.symm h2)
      · rw [List.mem_cons, ih2, List.mem_cons]
        constructor
        · rintro (rfl | ⟨h1, h2⟩)
          · exact ⟨Or.inl rfl, Ne.symm hab⟩
          · refine ⟨Or.inr h1, ?_⟩
            rintro rfl
            rcases (List.pairwise_cons.mp (List.pairwise_cons.mp hs).2).1 c h1 with h | h
            · exact h2 h.symm
            · exact lexLt_irrefl _ (lexLt_trans hlt h)
        · rintro ⟨rfl | h1, h2⟩
          · exact Or.inl rfl
          · by_cases hcb : c = b
            · exact Or.inl hcb
            · exact Or.inr ⟨h1, hcb⟩

theorem lexLt_nodup {l : List Cut} (h : l.Pairwise lexLt) : l.Nodup :=
  h.imp fun {a b} hab e => by rw [e] at hab; exact lexLt_irrefl _ hab

open Classical in
/-- Every cut is the start of one piece and the end of one piece. -/
theorem pieces_ends (he : 0 < eps) (hf : FullLoop R eps) (hI : LoopInside R eps gap C) (hS : RunLoop C CS f) (hnd : C.Nodup) :
    (((pathSegs (CS ++ [again R f])).filter fun x => decide (x.1 ≠ x.2)).map Prod.fst).Perm C ∧
    (((pathSegs (CS ++ [again R f])).filter fun x => decide (x.1 ≠ x.2)).map fun x => (x.2.1 % R.verts.length, x.2.2)).Perm C := by
  have hn : 0 < R.verts.length := by have := hf.two; omega
  have hrange : ∀ c ∈ CS, c.1 < R.verts.length := fun c hc => hI.range c ((hS.mem c).mp hc)
  have hsort := loop_again_sorted he hf hI hS
  have hnag : ∀ c ∈ CS, c ≠ again R f := by
    intro c hc h
    have := hrange c hc
    rw [h] at this
    unfold again at this
    dsimp only at this
    omega
  constructor
  · obtain ⟨h1, h2⟩ := distinct_firsts CS (again R f) hsort hnag
    exact (List.perm_ext_iff_of_nodup (lexLt_nodup h1) hnd).mpr fun c => (h2 c).trans (hS.mem c)
  · obtain ⟨l, hl⟩ : ∃ l, CS = f :: l := by
      have := hS.first
      cases hC : CS with
      | nil => rw [hC] at this; simp at this
      | cons a l => rw [hC] at this; simp at this; exact ⟨l, by rw [this]⟩
    have hfr := hrange f (by rw [hl]; simp)
    have hw : ∀ c ∈ CS, ((c.1 % R.verts.length, c.2) : Cut) = c := fun c hc => Prod.ext (Nat.mod_eq_of_lt (hrange c hc)) rfl
    have hwa : ((again R f).1 % R.verts.length, (again R f).2) = f := by
      unfold again
      exact Prod.ext (by simp [Nat.mod_eq_of_lt hfr]) rfl
    rw [hl] at hsort
    rw [hl, List.cons_append]
    obtain ⟨h1, h2⟩ := distinct_seconds (l ++ [again R f]) f hsort
    have e : (((pathSegs (f :: (l ++ [again R f]))).filter fun x => decide (x.1 ≠ x.2)).map fun x => ((x.2.1 % R.verts.length, x.2.2) : Cut)) =
        (((pathSegs (f :: (l ++ [again R f]))).filter fun x => decide (x.1 ≠ x.2)).map Prod.snd).map fun c => (c.1 % R.verts.length, c.2) := by
      rw [List.map_map]; rfl
    rw [e]
    have hag : again R f ≠ f := fun h => hnag f (by rw [hl]; simp) h.symm
    refine (List.perm_ext_iff_of_nodup ?_ hnd).mpr fun c => ?_
    · refine List.Nodup.map_on ?_ (lexLt_nodup h1)
      intro x hx y hy hxy
      obtain ⟨x1, x2⟩ := (h2 x).mp hx
      obtain ⟨y1, y2⟩ := (h2 y).mp hy
      rw [List.mem_append, List.mem_singleton] at x1 y1
      rcases x1 with x1 | rfl <;> rcases y1 with y1 | rfl
      · rw [hw x (by rw [hl]; simp [x1]), hw y (by rw [hl]; simp [y1])] at hxy; exact hxy
      · rw [hw x (by rw [hl]; simp [x1]), hwa] at hxy; exact absurd hxy x2
      · rw [hw y (by rw [hl]; simp [y1]), hwa] at hxy; exact absurd hxy.symm y2
      · rfl
    · rw [List.mem_map, ← hS.mem, hl]
      constructor
      · rintro ⟨x, hx, rfl⟩
        obtain ⟨x1, x2⟩ := (h2 x).mp hx
        rw [List.mem_append, List.mem_singleton] at x1
        rcases x1 with x1 | rfl
        · rw [hw x (by rw [hl]; simp [x1])]; simp [x1]
        · rw [hwa]; simp
      · intro hc
        by_cases hcf : c = f
        · exact ⟨again R f, (h2 _).mpr ⟨by simp, hag⟩, by rw [hwa, hcf]⟩
        · exact ⟨c, (h2 _).mpr ⟨by simp [(List.mem_cons.mp hc).resolve_left hcf], hcf⟩, hw c (by rw [hl]; exact hc)⟩

end
end Cavc
