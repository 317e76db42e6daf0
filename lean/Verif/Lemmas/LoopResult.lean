import Verif.Lemmas.LoopRun

/-! # The points of the results of the parallel offset of a closed polyline that is cut by the offset of the other side -/

set_option linter.unusedVariables false
set_option linter.unusedSectionVars false

namespace Cavc
open Pline

section
variable {p R : Pline ℝ} {d eps gap tol : ℝ} {C : List Cut}

open Classical in
/-- the slices that are kept, where some of the gaps are empty -/
theorem kept_slices_loop {P Q : Cut × Cut → Prop} : ∀ (L : List (Cut × Cut)) (ss : List (ViewData ℝ)),
    (∀ x ∈ L, ¬ P x → ViewData.fromSlicePoints R (listed R x.1).2 (listed R x.1).1 (listed R x.2).2 (listed R x.2).1 eps = .ok none) →
    (∀ x ∈ L, P x → ∃ s vs, ViewData.fromSlicePoints R (listed R x.1).2 (listed R x.1).1 (listed R x.2).2 (listed R x.2).1 eps = .ok (some s) ∧ GoodSlice R eps s x vs ∧
      (SliceClear p R d eps tol s ↔ Q x)) →
    KeptSlices p R d eps tol (L.map (Prod.map (listed R) (listed R))) ss →
    List.Forall₂ (fun s x => ∃ vs, GoodSlice R eps s x vs) ss (L.filter fun x => decide (P x ∧ Q x))
  | [], ss, _, _, h => by
    cases h
    exact List.Forall₂.nil
  | x :: L, ss, he, hx, h => by
    have ih := fun ss h => kept_slices_loop L ss (fun y hy => he y (by simp [hy])) (fun y hy => hx y (by simp [hy])) h
    rw [List.map_cons] at h
    by_cases hP : P x
    · obtain ⟨s, vs, h1, h2, h3⟩ := hx x (by simp) hP
      cases h with
      | empty a b gs ss h0 hk =>
        rw [h1] at h0; simp at h0
      | dropped a b s' gs ss h0 hn hk =>
        rw [h1] at h0
        simp only [Except.ok.injEq, Option.some.injEq] at h0
        subst h0
        rw [List.filter_cons_of_neg (by simpa using fun _ hq => hn (h3.mpr hq))]
        exact ih ss hk
      | kept a b s' gs ss h0 hn hk =>
        rw [h1] at h0
        simp only [Except.ok.injEq, Option.some.injEq] at h0
        subst h0
        rw [List.filter_cons_of_pos (by simpa using ⟨hP, h3.mp hn⟩)]
        exact List.Forall₂.cons ⟨vs, h2⟩ (ih ss hk)
    · have h1 := he x (by simp) hP
      rw [List.filter_cons_of_neg (by simp [hP])]
      cases h with
      | empty a b gs ss h0 hk => exact ih ss hk
      | dropped a b s' gs ss h0 hn hk => rw [h1] at h0; simp at h0
      | kept a b s' gs ss h0 hn hk => rw [h1] at h0; simp at h0

theorem loop_sorted (he : 0 < eps) (hf : FullLoop R eps) (hI : LoopInside R eps gap C) {es cuts : List (Nat × V2 ℝ)}
    (hes : ∀ x, x ∈ es ↔ ∃ c ∈ C, cutPt R c = x) (ho : CutOrder R es cuts) (hC : C ≠ []) :
    ∃ (CS : List Cut) (f : Cut), CS.map (cutPt R) = cuts ∧ RunLoop C CS f := by
  have hn : 0 < R.verts.length := by have := hf.two; omega
  obtain ⟨CS, h1, hS⟩ := map_mem_exists (cutPt R) (fun c => c ∈ C) cuts (fun x hx => (hes x).mp (ho.perm.mem_iff.mp hx))
  have hall : ∀ c ∈ C, c ∈ CS := by
    intro c hc
    have : cutPt R c ∈ cuts := ho.perm.mem_iff.mpr ((hes _).mpr ⟨c, hc, rfl⟩)
    rw [← h1] at this
    obtain ⟨c', hc', e⟩ := List.mem_map.mp this
    unfold cutPt at e
    simp only [Prod.mk.injEq] at e
    obtain ⟨e1, e2⟩ := e
    have a := hI.ok c hc
    have b := hI.ok c' (hS c' hc')
    rw [e1] at e2
    have := curve_inj he hf b.pos.le b.lt.le a.pos.le a.lt.le e2
    have : c' = c := Prod.ext e1 this
    rwa [← this]
  have hsort : CS.Pairwise lexLe := by
    have hs := ho.segments
    have ha := ho.along TotalCmp.real
    rw [← h1, List.pairwise_map] at hs ha
    refine (hs.and ha).imp_of_mem fun {a b} hma hmb hab => ?_
    obtain ⟨hle, hal⟩ := hab
    unfold cutPt at hle hal
    dsimp only at hle hal
    have ca := hI.ok a (hS a hma)
    have cb := hI.ok b (hS b hmb)
    rcases Nat.lt_or_eq_of_le hle with h | h
    · exact Or.inr (Or.inl h)
    · have := hal h _ (vtx_at (hI.range a (hS a hma)))
      rw [real_cmp_gt, distSquared_comm', distSquared_comm' (curveAt R b.1 b.2), curveAt_vtx hn, curveAt_vtx hn, ← h] at this
      rcases lt_trichotomy a.2 b.2 with h' | h' | h'
      · exact Or.inr (Or.inr ⟨h, h'⟩)
      · exact Or.inl (Prod.ext h h')
      · exact absurd this (not_le.mpr (dist_from_start _ _ ((hf.full a.1).proper he) (fuzzy_ne he (hf.full a.1).apart) cb.pos.le h' ca.lt.le))
  cases CS with
  | nil =>
    exfalso
    cases C with
    | nil => exact hC rfl
    | cons c C => have := hall c (by simp); cases this
  | cons f CS => exact ⟨f :: CS, f, h1, rfl, hsort, fun c => ⟨hS c, hall c⟩⟩

theorem loop_on (hf : FullLoop R eps) (X : V2 ℝ) : OnPline R X ↔ ∃ i t, i < R.verts.length ∧ 0 ≤ t ∧ t ≤ 1 ∧ X = curveAt R i t := by
  have hn : 0 < R.verts.length := by have := hf.two; omega
  constructor
  · rintro ⟨s, hs, t, t0, t1, rfl⟩
    obtain ⟨i, hi, e⟩ := List.getElem_of_mem hs
    obtain ⟨h1, rfl⟩ := (seg_vtx hf.closed hf.two i _).mp (by rw [List.getElem?_eq_getElem hi, e])
    exact ⟨i, t, h1, t0, t1, by rw [curveAt_vtx hn]⟩
  · rintro ⟨i, t, hi, t0, t1, rfl⟩
    exact ⟨_, List.mem_of_getElem? ((seg_vtx hf.closed hf.two i _).mpr ⟨hi, rfl⟩), t, t0, t1, curveAt_vtx hn _ _⟩

/-- The results consist of the points of the raw offset that keep the distance. -/
theorem result_points_loop {joinEps : ℝ} (hp : FullLoop p eps) (he : 0 < eps) (ht : 0 < tol) (hD : tol ≤ |d|) (hf : FullLoop R eps)
    (hI : LoopInside R eps gap C) (hC : SelfChanges p R |d| C) (hT : SelfTests p R d eps tol C) (hg : eps ≤ gap) (hj : 2 * joinEps ≤ gap) (hj0 : 0 ≤ joinEps)
    {es : List (Nat × V2 ℝ)} {ss : List (ViewData ℝ)} {rs : List (Pline ℝ)} (hes : ∀ x, x ∈ es ↔ ∃ c ∈ C, cutPt R c = x)
    (hss : OffsetSlices p R d eps tol es ss) (hrs : OffsetJoined R ss p.closed eps joinEps rs) (X : V2 ℝ) :
    (∃ r ∈ rs, OnPline r X) ↔ OnPline R X ∧ Keeps p |d| X := by
  classical
  have hn : 0 < R.verts.length := by have := hf.two; omega
  have hpp : ∀ s ∈ p.segs, IsLine s.1 ∨ ProperArc s.1 s.2 := fun s hs => segs_proper hp he hs
  by_cases hC0 : C = []
  · -- no cuts
    have hnc : ∀ c, c ∉ C := by rw [hC0]; simp
    have hes0 : es = [] := by
      rw [List.eq_nil_iff_forall_not_mem]
      intro x hx
      obtain ⟨c, hc, -⟩ := (hes x).mp hx
      exact hnc c hc
    obtain ⟨v, hv⟩ : ∃ v, R.verts.head? = some v := ⟨R.verts[0], by rw [List.head?_eq_getElem?, List.getElem?_eq_getElem hn]⟩
    have hv0 : v.pos = curveAt R 0 0 := by
      rw [curveAt_vtx hn, (segCurve_ends _ _).1]
      have := vtx_at hn
      rw [← List.head?_eq_getElem?, hv] at this
      injection this with this
      rw [this]
    obtain ⟨hk, hdr⟩ := hss.whole hes0 v hv
    have hread : Readable p eps (curveAt R 0 0) :=
      (hT.readable 0 0 1 ⟨hn, le_rfl, one_pos, le_rfl, Or.inl rfl, Or.inl rfl, fun t _ _ => hnc _⟩).1
    have hrun : LoopRun R C 0 (R.verts.length - 1) (fun _ => 0) (fun _ => 1) :=
      ⟨fun j hj => ⟨Nat.mod_lt _ hn, le_rfl, one_pos, le_rfl, Or.inl rfl, Or.inl rfl, fun t _ _ => hnc _⟩, fun j hj => ⟨rfl, rfl⟩⟩
    have hlo : ∀ j, loOf (0, 0) j = 0 := fun j => by simp [loOf]
    have hhi : ∀ j, hiOf (0, 0) (R.verts.length - 1, 1) j = 1 := fun j => by simp [hiOf]
    have hall : ∀ i t, 0 ≤ t → t ≤ 1 → Keeps p |d| (curveAt R i t) → ∀ k ≤ R.verts.length - 1, ∀ u, 0 ≤ u → u ≤ 1 → Keeps p |d| (curveAt R (0 + k) u) := by
      intro i t t0 t1 h
      have hm := Nat.mod_lt i hn
      refine keep_run_loop hC hI hrun (j := i % R.verts.length) (by omega) t0 t1 (hnc _) ?_
      rw [Nat.zero_add, curveAt_wrap hn]; exact h
    by_cases hcl : PointClear p d eps tol v.pos
    · obtain ⟨s, hs, rfl⟩ := hk hcl
      obtain ⟨vs, hvs⟩ := entire_along he hf hs
      have hkeep : Keeps p |d| (curveAt R 0 0) := clear_keeps_segs hpp he ht.le hD hread (hT.whole hC0) (by rw [← hv0]; exact hcl)
      have hpts := joined_points (gap := gap) he hf (L := [((0, 0), (R.verts.length - 1, 1))]) (List.Forall₂.cons ⟨vs, hvs⟩ List.Forall₂.nil)
        (by simp) (by simp [hlo, hhi]) (by
          intro x hx y hy
          simp only [List.mem_singleton] at hx hy
          subst hx; subst hy
          left
          dsimp only
          rw [curveAt_join hn, Nat.sub_add_cancel (by omega), ← curveAt_wrap hn, Nat.mod_self]) hg hj hj0 hrs
      rw [hpts X]
      constructor
      · rintro ⟨x, hx, j, hj, t, t0, t1, rfl⟩
        simp only [List.mem_singleton] at hx
        subst hx
        rw [hlo] at t0
        rw [hhi] at t1
        dsimp only at hj ⊢
        exact ⟨(loop_on hf _).mpr ⟨j, t, by omega, t0, t1, by rw [Nat.zero_add]⟩, hall 0 0 le_rfl zero_le_one hkeep j (by simpa using hj) t t0 t1⟩
      · rintro ⟨hon, -⟩
        obtain ⟨i, t, hi, t0, t1, rfl⟩ := (loop_on hf X).mp hon
        exact ⟨_, List.mem_singleton.mpr rfl, i, by dsimp only; omega, t, by rw [hlo]; exact t0, by rw [hhi]; exact t1, by rw [Nat.zero_add]⟩
    · have hs0 := hdr hcl
      subst hs0
      have hrs0 : rs = [] := by
        obtain ⟨useds, hst, hpm⟩ := hrs.several (by simp)
        cases hst with
        | nil => rfl
        | cons _ used useds rs more hr _ =>
          obtain ⟨vs, hch, -⟩ := hr
          have := hch.nonempty
          simp only [List.length_nil, List.range_zero, List.perm_nil, List.flatten_cons, List.append_eq_nil_iff] at hpm
          exact absurd hpm.1 this
      subst hrs0
      refine ⟨by simp, ?_⟩
      rintro ⟨hon, h⟩
      obtain ⟨i, t, hi, t0, t1, rfl⟩ := (loop_on hf X).mp hon
      have := hall i t t0 t1 h 0 (Nat.zero_le _) 0 le_rfl zero_le_one
      rw [Nat.zero_add] at this
      exact absurd (keeps_clear_segs hpp he ht hD (by rw [hv0]; exact hread) (by rw [hv0]; exact this)) hcl
  · -- with cuts
    have hes0 : es ≠ [] := by
      obtain ⟨c, hc⟩ := List.exists_mem_of_ne_nil C hC0
      exact List.ne_nil_of_mem ((hes _).mpr ⟨c, hc, rfl⟩)
    obtain ⟨cuts, first, last, hcut, -, -, hkept⟩ := hss.pieces hes0
    obtain ⟨CS, f, hCS, hS⟩ := loop_sorted he hf hI hes hcut hC0
    have hrange : ∀ c ∈ CS, c.1 < R.verts.length := fun c hc => hI.range c ((hS.mem c).mp hc)
    rw [hp.closed, ← hCS, gaps_listed hn hrange hS.first] at hkept
    have hslices := kept_slices_loop (P := fun x => x.1 ≠ x.2) (Q := fun x => PieceFar p R |d| x.1 x.2) _ _ (fun x hx hP => by
        have e : x.1 = x.2 := by by_contra h; exact hP h
        have ha := (pathSegs_snoc_mem hx).1
        rw [← e]
        unfold listed
        dsimp only
        rw [Nat.mod_eq_of_lt (hrange _ ha)]
        exact loop_slice_same he hf (hrange _ ha) (hI.ok _ ((hS.mem _).mp ha))) (fun x hx hP => by
        obtain ⟨a, b⟩ := x
        obtain ⟨s, vs, h1, h3⟩ := loop_piece_slice he hf hI hS hg hx hP
        have ha := (pathSegs_snoc_mem hx).1
        refine ⟨s, vs, ?_, h3, piece_clear_loop hpp he ht hD hf hI hC hT hS hx hP h3.reads h3.along⟩
        unfold listed
        dsimp only at ha ⊢
        rw [Nat.mod_eq_of_lt (hrange _ ha)]
        exact h1) hkept
    obtain ⟨L, hLmem, hslices⟩ : ∃ L : List (Cut × Cut), (∀ x, x ∈ L ↔ x ∈ pathSegs (CS ++ [again R f]) ∧ x.1 ≠ x.2 ∧ PieceFar p R |d| x.1 x.2) ∧
        List.Forall₂ (fun s x => ∃ vs, GoodSlice R eps s x vs) ss L :=
      ⟨_, fun x => List.mem_filter.trans (and_congr_right fun _ => by simp), hslices⟩
    have hL := fun x hx => (hLmem x).mp hx
    have hrn : ∀ x ∈ L, LoopRun R C x.1.1 (x.2.1 - x.1.1) (loOf x.1) (hiOf x.1 x.2) := fun x hx => loop_run he hf hI hS (hL x hx).1 (hL x hx).2.1
    have hpts := joined_points (gap := gap) he hf hslices (fun x hx => by
        obtain ⟨ho, -⟩ := loop_between he hf hI hS (hL x hx).1 (hL x hx).2.1
        rcases ho with ho | ho <;> omega)
      (fun x hx j hj => ((hrn x hx).each j hj).lt)
      (fun x hx y hy => by
        obtain ⟨-, -, hb, -⟩ := loop_between he hf hI hS (hL x hx).1 (hL x hx).2.1
        obtain ⟨-, ha, -⟩ := loop_between he hf hI hS (hL y hy).1 (hL y hy).2.1
        have := hI.apart _ hb _ ha
        dsimp only at this
        rwa [curveAt_wrap hn] at this) hg hj hj0 hrs
    have hnc : ∀ i t, i < R.verts.length → 0 ≤ t → t ≤ 1 → (i, t) ∉ C → Keeps p |d| (curveAt R i t) → ∃ a b, (a, b) ∈ L ∧ ∃ j ≤ b.1 - a.1, (a.1 + j) % R.verts.length = i ∧ loOf a j ≤ t ∧ t ≤ hiOf a b j := by
      intro i t hi t0 t1 hc hk
      obtain ⟨a, b, j, hab, hne, hj, hji, l0, l1⟩ := loop_cover he hf hI hS hi t0 t1
      have hall : PieceFar p R |d| a b := keep_run_loop hC hI (loop_run he hf hI hS hab hne) hj l0 l1 (by rw [hji]; exact hc)
        (by rw [← curveAt_wrap hn, hji]; exact hk)
      exact ⟨a, b, (hLmem _).mpr ⟨hab, hne, hall⟩, j, hj, hji, l0, l1⟩
    rw [hpts]
    constructor
    · rintro ⟨x, hx, j, hj, t, t0, t1, rfl⟩
      have hst := (hrn x hx).each j hj
      exact ⟨(loop_on hf _).mpr ⟨_, t, hst.range, hst.zero.trans t0, t1.trans hst.one, by rw [curveAt_wrap hn]⟩, (hL x hx).2.2 j hj t t0 t1⟩
    · rintro ⟨hon, hk⟩
      obtain ⟨i, t, hi, t0, t1, rfl⟩ := (loop_on hf X).mp hon
      by_cases hc : (i, t) ∈ C
      · -- a cut: follow the way that keeps the distance
        obtain ⟨c, hcC, hpt, σ, hσ, δ, hδ, hway⟩ := hC.leave (i, t) hc hk
        have hr := hI.range c hcC
        have hok := hI.ok c hcC
        rw [← hpt]
        have hc0 := hok.pos
        have hc1 := hok.lt
        -- finitely many cuts: a short way is free of them
        have hfree : ∃ η > 0, η ≤ δ ∧ ∀ s, 0 < s → s < η → 0 ≤ c.2 + σ * s ∧ c.2 + σ * s ≤ 1 ∧ (c.1, c.2 + σ * s) ∉ C := by
          have hfin : ∃ η > 0, ∀ c' ∈ C, c'.1 = c.1 → c'.2 ≠ c.2 → η ≤ |c'.2 - c.2| := by
            clear hC hT hes hS hcC hc hI hrn hL hnc hC0
            induction C with
            | nil => exact ⟨1, one_pos, by simp⟩
            | cons a C ih =>
              obtain ⟨η, hη, h⟩ := ih
              by_cases ha : a.2 = c.2
              · refine ⟨η, hη, fun c' hc' h1 h3 => ?_⟩
                rcases List.mem_cons.mp hc' with rfl | hc'
                · exact absurd ha h3
                · exact h c' hc' h1 h3
              · refine ⟨min η |a.2 - c.2|, lt_min hη (abs_pos.mpr (sub_ne_zero.mpr ha)), fun c' hc' h1 h3 => ?_⟩
                rcases List.mem_cons.mp hc' with rfl | hc'
                · exact min_le_right _ _
                · exact (min_le_left _ _).trans (h c' hc' h1 h3)
          obtain ⟨η, hη, hfin⟩ := hfin
          refine ⟨min (min η δ) (min c.2 (1 - c.2)), lt_min (lt_min hη hδ) (lt_min hc0 (by linarith)), (min_le_left _ _).trans (min_le_right _ _), ?_⟩
          intro s s0 s1
          obtain ⟨a1, a2⟩ := lt_min_iff.mp s1
          obtain ⟨a1, -⟩ := lt_min_iff.mp a1
          obtain ⟨a2, a3⟩ := lt_min_iff.mp a2
          have hne : |σ * s| = s := by rcases hσ with rfl | rfl <;> simp [abs_of_pos s0]
          refine ⟨by rcases hσ with rfl | rfl <;> linarith, by rcases hσ with rfl | rfl <;> linarith, fun hin => ?_⟩
          have := hfin _ hin rfl (by dsimp only; intro h; have : σ * s = 0 := by linarith
                                     rw [this, abs_zero] at hne; linarith)
          dsimp only at this
          rw [add_sub_cancel_left, hne] at this
          linarith
        obtain ⟨η, hη, hηδ, hfree⟩ := hfree
        -- take one such place; its piece reaches the cut
        obtain ⟨b0, b1, b2⟩ := hfree (η / 2) (by linarith) (by linarith)
        obtain ⟨a, b, hab, j, hj, hji, l0, l1⟩ := hnc c.1 (c.2 + σ * (η / 2)) hr b0 b1 b2 (hway _ (by linarith) (by linarith))
        have hst := (hrn (a, b) hab).each j hj
        dsimp only at hst
        rw [hji] at hst
        refine ⟨(a, b), hab, j, hj, c.2, ?_, ?_, by dsimp only; rw [← curveAt_wrap hn (a.1 + j), hji]⟩
        · dsimp only
          by_contra hlt
          push Not at hlt
          rcases hst.start with h | h
          · rw [h] at hlt; linarith
          · rcases hσ with rfl | rfl
            · have := (hfree (loOf a j - c.2) (by linarith) (by linarith)).2.2
              rw [show c.2 + 1 * (loOf a j - c.2) = loOf a j by ring] at this
              exact this h
            · linarith
        · dsimp only
          by_contra hlt
          push Not at hlt
          rcases hst.stop with h | h
          · rw [h] at hlt; linarith
          · rcases hσ with rfl | rfl
            · linarith
            · have := (hfree (c.2 - hiOf a b j) (by linarith) (by linarith)).2.2
              rw [show c.2 + -1 * (c.2 - hiOf a b j) = hiOf a b j by ring] at this
              exact this h
      · obtain ⟨a, b, hab, j, hj, hji, l0, l1⟩ := hnc i t hi t0 t1 hc hk
        exact ⟨(a, b), hab, j, hj, t, l0, l1, by dsimp only; rw [← curveAt_wrap hn (a.1 + j), hji]⟩

end
end Cavc
