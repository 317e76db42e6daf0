import Verif.Lemmas.OpenRun

/-! # The points of the results of the parallel offset of an open polyline -/

set_option linter.unusedVariables false
set_option linter.unusedSectionVars false

namespace Cavc
open Pline

section
variable {p R : Pline ℝ} {d eps gap tol : ℝ} {C : List Cut}

open Classical in
/-- the slices that are kept, where some of the gaps are empty -/
theorem kept_slices_open {P Q : Cut × Cut → Prop} : ∀ (L : List (Cut × Cut)) (ss : List (ViewData ℝ)),
    (∀ x ∈ L, ¬ P x → ViewData.fromSlicePoints R (cutPt R x.1).2 (cutPt R x.1).1 (cutPt R x.2).2 (cutPt R x.2).1 eps = .ok none) →
    (∀ x ∈ L, P x → ∃ s vs, ViewData.fromSlicePoints R (cutPt R x.1).2 (cutPt R x.1).1 (cutPt R x.2).2 (cutPt R x.2).1 eps = .ok (some s) ∧ GoodSlice R eps s x vs ∧
      (SliceClear p R d eps tol s ↔ Q x)) →
    KeptSlices p R d eps tol (L.map (Prod.map (cutPt R) (cutPt R))) ss →
    List.Forall₂ (fun s x => ∃ vs, GoodSlice R eps s x vs) ss (L.filter fun x => decide (P x ∧ Q x))
  | [], ss, _, _, h => by
    cases h
    exact List.Forall₂.nil
  | x :: L, ss, he, hx, h => by
    have ih := fun ss h => kept_slices_open L ss (fun y hy => he y (by simp [hy])) (fun y hy => hx y (by simp [hy])) h
    rw [List.map_cons] at h
    by_cases hP : P x
    · obtain ⟨s, vs, h1, h2, h3⟩ := hx x (by simp) hP
      cases h with
      | empty a b gs ss h0 hk =>
        rw [h1] at h0; simp at h0
      | dropped a b s' gs ss h0 hn hk =>
        rw [h1] at h0
        simp only [Except.ok.injEq, Option.some.injEq] at h0
        subst h0
        rw [List.filter_cons_of_neg (by simpa using fun _ hq => hn (h3.mpr hq))]
        exact ih ss hk
      | kept a b s' gs ss h0 hn hk =>
        rw [h1] at h0
        simp only [Except.ok.injEq, Option.some.injEq] at h0
        subst h0
        rw [List.filter_cons_of_pos (by simpa using ⟨hP, h3.mp hn⟩)]
        exact List.Forall₂.cons ⟨vs, h2⟩ (ih ss hk)
    · have h1 := he x (by simp) hP
      rw [List.filter_cons_of_neg (by simp [hP])]
      cases h with
      | empty a b gs ss h0 hk => exact ih ss hk
      | dropped a b s' gs ss h0 hn hk => rw [h1] at h0; simp at h0
      | kept a b s' gs ss h0 hn hk => rw [h1] at h0; simp at h0

theorem map_mem_exists {α β : Type} (f : α → β) (S : α → Prop) : ∀ L : List β, (∀ x ∈ L, ∃ c, S c ∧ f c = x) → ∃ E : List α, E.map f = L ∧ ∀ c ∈ E, S c
  | [], _ => ⟨[], rfl, by simp⟩
  | x :: L, h => by
    obtain ⟨c, hc, rfl⟩ := h x (by simp)
    obtain ⟨E, rfl, hE⟩ := map_mem_exists f S L fun y hy => h y (by simp [hy])
    exact ⟨c :: E, rfl, by simpa using ⟨hc, hE⟩⟩

/-- different fractions of a segment are different points -/
theorem path_inj (he : 0 < eps) (hf : FullPath R eps) {i : Nat} (hi : i + 1 < R.verts.length) {t u : ℝ} (t0 : 0 ≤ t) (t1 : t ≤ 1) (u0 : 0 ≤ u) (u1 : u ≤ 1)
    (h : curveAt R i t = curveAt R i u) : t = u := by
  have hn : 0 < R.verts.length := by omega
  have key : ∀ {a b : ℝ}, 0 ≤ a → a < b → b ≤ 1 → curveAt R i a ≠ curveAt R i b := by
    intro a b a0 hab b1 e
    have := dist_from_start _ _ ((hf.full i hi).proper he) (fuzzy_ne he (hf.full i hi).apart) a0 hab b1
    rw [← curveAt_vtx hn, ← curveAt_vtx hn, e] at this
    exact lt_irrefl _ this
  rcases lt_trichotomy t u with h' | h' | h'
  · exact absurd h (key t0 h' u1)
  · exact h'
  · exact absurd h.symm (key u0 h' t1)

theorem open_sorted (he : 0 < eps) (hf : FullPath R eps) (hI : InsideCuts R eps gap C) {es cuts : List (Nat × V2 ℝ)}
    (hes : ∀ x, x ∈ es ↔ (∃ c ∈ C, cutPt R c = x) ∨ x = cutPt R (lastCut R)) (ho : CutOrder R es cuts) :
    ∃ CS : List Cut, CS.map (cutPt R) = cuts ∧ RunPath R C ((0, 0) :: CS) := by
  have h2 := hf.two
  have hn : 0 < R.verts.length := by omega
  obtain ⟨CS, h1, hS⟩ := map_mem_exists (cutPt R) (fun c => c ∈ C ∨ c = lastCut R) cuts (fun x hx => by
    rcases (hes x).mp (ho.perm.mem_iff.mp hx) with ⟨c, hc, rfl⟩ | rfl
    · exact ⟨c, Or.inl hc, rfl⟩
    · exact ⟨_, Or.inr rfl, rfl⟩)
  have hb : ∀ c, c ∈ C ∨ c = lastCut R → c.1 + 1 < R.verts.length ∧ 0 < c.2 ∧ c.2 ≤ 1 := by
    rintro c (hc | rfl)
    · exact ⟨hI.range c hc, (hI.ok c hc).pos, (hI.ok c hc).lt.le⟩
    · exact ⟨by show R.verts.length - 2 + 1 < _; omega, zero_lt_one, le_rfl⟩
  have hall : ∀ c, c ∈ C ∨ c = lastCut R → c ∈ CS := by
    intro c hc
    have : cutPt R c ∈ cuts := by
      refine ho.perm.mem_iff.mpr ((hes _).mpr ?_)
      rcases hc with hc | rfl
      · exact Or.inl ⟨c, hc, rfl⟩
      · exact Or.inr rfl
    rw [← h1] at this
    obtain ⟨c', hc', e⟩ := List.mem_map.mp this
    unfold cutPt at e
    simp only [Prod.mk.injEq] at e
    obtain ⟨e1, e2⟩ := e
    obtain ⟨a1, a2, a3⟩ := hb c hc
    obtain ⟨b1, b2, b3⟩ := hb c' (hS c' hc')
    rw [e1] at e2
    have := path_inj he hf a1 b2.le b3 a2.le a3 e2
    have : c' = c := Prod.ext e1 this
    rwa [← this]
  have hsort : CS.Pairwise lexLe := by
    have hs := ho.segments
    have ha := ho.along TotalCmp.real
    rw [← h1, List.pairwise_map] at hs ha
    refine (hs.and ha).imp_of_mem fun {a b} hma hmb hab => ?_
    obtain ⟨hle, hal⟩ := hab
    unfold cutPt at hle hal
    dsimp only at hle hal
    obtain ⟨a1, a2, a3⟩ := hb a (hS a hma)
    obtain ⟨b1, b2, b3⟩ := hb b (hS b hmb)
    rcases Nat.lt_or_eq_of_le hle with h | h
    · exact Or.inr (Or.inl h)
    · have := hal h _ (vtx_at (by omega))
      rw [real_cmp_gt, distSquared_comm', distSquared_comm' (curveAt R b.1 b.2), curveAt_vtx hn, curveAt_vtx hn, ← h] at this
      rcases lt_trichotomy a.2 b.2 with h' | h' | h'
      · exact Or.inr (Or.inr ⟨h, h'⟩)
      · exact Or.inl (Prod.ext h h')
      · exact absurd this (not_le.mpr (dist_from_start _ _ ((hf.full a.1 a1).proper he) (fuzzy_ne he (hf.full a.1 a1).apart) b2.le h' a3))
  have hlast : ∀ c, c ∈ C ∨ c = lastCut R → lexLe c (lastCut R) := by
    rintro c (hc | rfl)
    · have := hI.range c hc
      have := (hI.ok c hc).lt
      unfold lastCut
      rcases Nat.lt_or_eq_of_le (show c.1 ≤ R.verts.length - 2 by omega) with h | h
      · exact Or.inr (Or.inl h)
      · exact Or.inr (Or.inr ⟨h, this⟩)
    · exact Or.inl rfl
  refine ⟨CS, h1, ⟨rfl, ?_, ?_, ?_⟩⟩
  · have hm := hall (lastCut R) (Or.inr rfl)
    obtain ⟨init, e, hie⟩ : ∃ init e, CS = init ++ [e] := by
      rcases List.eq_nil_or_concat CS with h | ⟨init, e, h⟩
      · rw [h] at hm; simp at hm
      · exact ⟨init, e, by simpa using h⟩
    have hel : e = lastCut R := by
      rw [hie] at hm hsort
      rcases List.mem_append.mp hm with hm | hm
      · have h3 := (List.pairwise_append.mp hsort).2.2 _ hm e (by simp)
        have h4 := hlast e (hS e (by rw [hie]; simp))
        rcases h3 with h3 | h3
        · exact h3.symm
        · rcases h4 with h4 | h4
          · exact h4
          · exact absurd (lexLt_trans h3 h4) (lexLt_irrefl _)
      · exact (List.mem_singleton.mp hm).symm
    rw [hie, hel, List.getLast?_cons]
    simp
  · rw [List.pairwise_cons]
    refine ⟨fun c hc => ?_, hsort⟩
    obtain ⟨-, c2, -⟩ := hb c (hS c hc)
    rcases Nat.eq_zero_or_pos c.1 with h | h
    · exact Or.inr (Or.inr ⟨h.symm, c2⟩)
    · exact Or.inr (Or.inl h)
  · intro c
    rw [List.mem_cons]
    constructor
    · rintro (h | h)
      · exact Or.inl h
      · exact Or.inr (hS c h)
    · rintro (h | h)
      · exact Or.inl h
      · exact Or.inr (hall c h)

theorem open_gaps (hn : 2 ≤ R.verts.length) {CS : List Cut} {first last : Vertex ℝ} (h1 : R.verts.head? = some first) (h2 : R.verts.getLast? = some last) :
    gapsOf false (0, first.pos) (R.verts.length - 1, last.pos) (CS.map (cutPt R)) =
      (pathSegs (((0, 0) :: CS) ++ [((R.verts.length - 1, 0) : Cut)])).map (Prod.map (cutPt R) (cutPt R)) := by
  unfold gapsOf
  rw [if_neg (by simp), neighbours_pathSegs]
  have e1 : ((0, first.pos) : Nat × V2 ℝ) = cutPt R (0, 0) := by
    unfold cutPt
    rw [curveAt_vtx (by omega), (segCurve_ends _ _).1]
    have := vtx_at (p := R) (i := 0) (by omega)
    rw [← List.head?_eq_getElem?, h1] at this
    injection this with this
    rw [this]
  have e2 : ((R.verts.length - 1, last.pos) : Nat × V2 ℝ) = cutPt R (R.verts.length - 1, 0) := by
    unfold cutPt
    rw [curveAt_vtx (by omega), (segCurve_ends _ _).1]
    have := vtx_at (p := R) (i := R.verts.length - 1) (by omega)
    rw [← List.getLast?_eq_getElem?, h2] at this
    injection this with this
    rw [this]
  rw [e1, e2]
  have : [cutPt R (0, 0)] ++ CS.map (cutPt R) ++ [cutPt R (R.verts.length - 1, 0)] = (((0, 0) :: CS) ++ [((R.verts.length - 1, 0) : Cut)]).map (cutPt R) := by simp
  rw [this, pathSegs_map]
  rfl

theorem path_segs {p : Pline ℝ} (hc : p.closed = false) (h2 : 2 ≤ p.verts.length) (s : Vertex ℝ × Vertex ℝ) (i : Nat) :
    p.segs[i]? = some s ↔ i + 1 < p.verts.length ∧ s = (vtx p i, vtx p (i + 1)) := by
  have hsc : p.segmentCount = p.verts.length - 1 := by
    unfold segmentCount vertexCount; dsimp only; rw [hc]; simp; omega
  by_cases hi : i + 1 < p.verts.length
  · obtain ⟨a, b, ha, hb, hab⟩ := segs_getElem? p i (by omega)
    rw [hab]
    rw [vtx_at (by omega)] at ha
    rw [vtx_at (Nat.mod_lt _ (by omega)), vtx_mod] at hb
    cases ha; cases hb
    simp only [Option.some.injEq, hi, true_and]
    exact eq_comm
  · rw [List.getElem?_eq_none (by rw [segs_length]; omega)]
    simp [hi]

theorem open_on (hf : FullPath R eps) (X : V2 ℝ) : OnPline R X ↔ ∃ i t, i + 1 < R.verts.length ∧ 0 ≤ t ∧ t ≤ 1 ∧ X = curveAt R i t := by
  have hn : 0 < R.verts.length := by have := hf.two; omega
  constructor
  · rintro ⟨s, hs, t, t0, t1, rfl⟩
    obtain ⟨i, hi, e⟩ := List.getElem_of_mem hs
    obtain ⟨h1, h2⟩ := (path_segs hf.open hf.two s i).mp (by rw [List.getElem?_eq_getElem hi, e])
    exact ⟨i, t, h1, t0, t1, by rw [curveAt_vtx hn, h2]⟩
  · rintro ⟨i, t, hi, t0, t1, rfl⟩
    exact ⟨_, List.mem_of_getElem? ((path_segs hf.open hf.two _ i).mpr ⟨hi, rfl⟩), t, t0, t1, curveAt_vtx hn _ _⟩

theorem path_proper (hp : FullPath p eps) (he : 0 < eps) : ∀ s ∈ p.segs, IsLine s.1 ∨ ProperArc s.1 s.2 := by
  intro s hs
  obtain ⟨i, hi, e⟩ := List.getElem_of_mem hs
  obtain ⟨h1, rfl⟩ := (path_segs hp.open hp.two s i).mp (by rw [List.getElem?_eq_getElem hi, e])
  exact (hp.full i h1).proper he

/-- The results consist of the points of the raw offset that keep the distance. -/
theorem result_points_open {joinEps : ℝ} (hp : FullPath p eps) (he : 0 < eps) (ht : 0 < tol) (hD : tol ≤ |d|) (hf : FullPath R eps)
    (hI : InsideCuts R eps gap C) (hC : ChangesAtCuts p R |d| C) (hT : OpenTests p R d eps tol C) (hg : eps ≤ gap) (hj : 2 * joinEps ≤ gap) (hj0 : 0 ≤ joinEps)
    {es : List (Nat × V2 ℝ)} {ss : List (ViewData ℝ)} {rs : List (Pline ℝ)}
    (hes : ∀ x, x ∈ es ↔ (∃ c ∈ C, cutPt R c = x) ∨ x = cutPt R (lastCut R))
    (hss : OffsetSlices p R d eps tol es ss) (hrs : OffsetJoined R ss p.closed eps joinEps rs) (X : V2 ℝ) :
    (∃ r ∈ rs, OnPline r X) ↔ OnPline R X ∧ Keeps p |d| X := by
  classical
  have h2 := hf.two
  have hn : 0 < R.verts.length := by omega
  have hpp := path_proper hp he
  have hes0 : es ≠ [] := by
    intro h
    have := (hes (cutPt R (lastCut R))).mpr (Or.inr rfl)
    rw [h] at this
    simp at this
  obtain ⟨cuts, first, last, hcut, hfirst, hlast, hkept⟩ := hss.pieces hes0
  obtain ⟨CS, hCS, hS⟩ := open_sorted he hf hI hes hcut
  rw [hp.open, ← hCS, open_gaps h2 hfirst hlast, pathSegs_snoc _ _ _ hS.last] at hkept
  set l := ((0, 0) : Cut) :: CS with hl
  have hrange : ∀ c ∈ l, c.1 + 1 < R.verts.length := by
    intro c hc
    rcases (hS.mem c).mp hc with rfl | h | rfl
    · exact by dsimp only; omega
    · exact hI.range c h
    · show R.verts.length - 2 + 1 < _; omega
  have hslices := kept_slices_open (P := fun x => x.1 ≠ x.2 ∧ x.2.1 + 1 < R.verts.length) (Q := fun x => PieceFar p R |d| x.1 x.2) _ _ (fun x hx hP => by
      rcases List.mem_append.mp hx with hx | hx
      · have hb := hrange _ (pathSegs_mem hx).2
        have : x.1 = x.2 := by
          by_contra h
          exact hP ⟨h, hb⟩
        rw [← this]
        refine open_slice_same he hf (by rw [this]; exact hb) ?_
        rcases (hS.mem _).mp (pathSegs_mem hx).1 with h | h | h
        · exact Or.inl (by rw [h])
        · exact Or.inr (Or.inr (hI.ok _ h))
        · exact Or.inr (Or.inl (by rw [h]; rfl))
      · simp only [List.mem_singleton] at hx
        subst hx
        exact open_slice_last he hf) (fun x hx hP => by
      obtain ⟨a, b⟩ := x
      rcases List.mem_append.mp hx with hx | hx
      · obtain ⟨s, vs, h1, h3⟩ := open_piece_slice he hf hI hS hg hx hP.1
        exact ⟨s, vs, h1, h3, piece_clear_open hpp he ht hD hf hI hC hT hS hx hP.1 h3.reads h3.along⟩
      · simp only [List.mem_singleton, Prod.mk.injEq] at hx
        obtain ⟨-, rfl⟩ := hx
        exfalso
        have := hP.2
        dsimp only at this
        omega) hkept
  obtain ⟨L, hLmem, hslices⟩ : ∃ L : List (Cut × Cut), (∀ x, x ∈ L ↔ x ∈ pathSegs l ++ [(lastCut R, ((R.verts.length - 1, 0) : Cut))] ∧
      (x.1 ≠ x.2 ∧ x.2.1 + 1 < R.verts.length) ∧ PieceFar p R |d| x.1 x.2) ∧ List.Forall₂ (fun s x => ∃ vs, GoodSlice R eps s x vs) ss L :=
    ⟨_, fun x => List.mem_filter.trans (and_congr_right fun _ => by simp), hslices⟩
  have hL : ∀ x ∈ L, x ∈ pathSegs l ∧ x.1 ≠ x.2 ∧ PieceFar p R |d| x.1 x.2 := by
    intro x hx
    obtain ⟨hx1, hx2⟩ := (hLmem x).mp hx
    refine ⟨?_, hx2.1.1, hx2.2⟩
    rcases List.mem_append.mp hx1 with h | h
    · exact h
    · exfalso
      simp only [List.mem_singleton] at h
      have := hx2.1.2
      rw [h] at this
      dsimp only at this
      omega
  have hrn : ∀ x ∈ L, OpenRun R C x.1.1 (x.2.1 - x.1.1) (loOf x.1) (hiOf x.1 x.2) := fun x hx => open_run he hf hI hS (hL x hx).1 (hL x hx).2.1
  have hpts := joined_points_path (gap := gap) he hn hslices (fun x hx => by
      obtain ⟨ho, -⟩ := open_between he hf hI hS (hL x hx).1 (hL x hx).2.1
      rcases ho with ho | ho <;> omega)
    (fun x hx j hj => ((hrn x hx).each j hj).lt)
    (fun x hx y hy => by
      obtain ⟨-, -, hb, -⟩ := open_between he hf hI hS (hL x hx).1 (hL x hx).2.1
      obtain ⟨-, ha, -⟩ := open_between he hf hI hS (hL y hy).1 (hL y hy).2.1
      exact open_far he hf hI hS hb ha) hg hj hj0 hrs
  have hnc : ∀ i t, i + 1 < R.verts.length → 0 ≤ t → t ≤ 1 → (i, t) ∉ C → Keeps p |d| (curveAt R i t) → ∃ a b, (a, b) ∈ L ∧ ∃ j ≤ b.1 - a.1, a.1 + j = i ∧ loOf a j ≤ t ∧ t ≤ hiOf a b j := by
    intro i t hi t0 t1 hc hk
    obtain ⟨a, b, j, hab, hne, hj, hji, l0, l1⟩ := open_cover he hf hI hS hi t0 t1
    have hall : PieceFar p R |d| a b := keep_run_open hC hI (open_run he hf hI hS hab hne) hj l0 l1 (by rw [hji]; exact hc) (by rw [hji]; exact hk)
    exact ⟨a, b, (hLmem _).mpr ⟨List.mem_append.mpr (Or.inl hab), ⟨hne, hrange _ (pathSegs_mem hab).2⟩, hall⟩, j, hj, hji, l0, l1⟩
  rw [hpts]
  constructor
  · rintro ⟨x, hx, j, hj, t, t0, t1, rfl⟩
    have hst := (hrn x hx).each j hj
    exact ⟨(open_on hf _).mpr ⟨_, t, hst.range, hst.zero.trans t0, t1.trans hst.one, rfl⟩, (hL x hx).2.2 j hj t t0 t1⟩
  · rintro ⟨hon, hk⟩
    obtain ⟨i, t, hi, t0, t1, rfl⟩ := (open_on hf X).mp hon
    by_cases hc : (i, t) ∈ C
    · -- a cut: follow the way that keeps the distance
      obtain ⟨c, hcC, hpt, σ, hσ, δ, hδ, hway⟩ := hC.leave (i, t) hc hk
      have hr := hI.range c hcC
      have hok := hI.ok c hcC
      rw [← hpt]
      have hc0 := hok.pos
      have hc1 := hok.lt
      -- finitely many cuts: a short way is free of them
      have hfree : ∃ η > 0, η ≤ δ ∧ ∀ s, 0 < s → s < η → 0 ≤ c.2 + σ * s ∧ c.2 + σ * s ≤ 1 ∧ (c.1, c.2 + σ * s) ∉ C := by
        have hfin : ∃ η > 0, ∀ c' ∈ C, c'.1 = c.1 → c'.2 ≠ c.2 → η ≤ |c'.2 - c.2| := by
          clear hC hT hes hS hcC hc hI hrn hL hnc
          induction C with
          | nil => exact ⟨1, one_pos, by simp⟩
          | cons a C ih =>
            obtain ⟨η, hη, h⟩ := ih
            by_cases ha : a.2 = c.2
            · refine ⟨η, hη, fun c' hc' h1 h3 => ?_⟩
              rcases List.mem_cons.mp hc' with rfl | hc'
              · exact absurd ha h3
              · exact h c' hc' h1 h3
            · refine ⟨min η |a.2 - c.2|, lt_min hη (abs_pos.mpr (sub_ne_zero.mpr ha)), fun c' hc' h1 h3 => ?_⟩
              rcases List.mem_cons.mp hc' with rfl | hc'
              · exact min_le_right _ _
              · exact (min_le_left _ _).trans (h c' hc' h1 h3)
        obtain ⟨η, hη, hfin⟩ := hfin
        refine ⟨min (min η δ) (min c.2 (1 - c.2)), lt_min (lt_min hη hδ) (lt_min hc0 (by linarith)), (min_le_left _ _).trans (min_le_right _ _), ?_⟩
        intro s s0 s1
        obtain ⟨a1, a2⟩ := lt_min_iff.mp s1
        obtain ⟨a1, -⟩ := lt_min_iff.mp a1
        obtain ⟨a2, a3⟩ := lt_min_iff.mp a2
        have hne : |σ * s| = s := by rcases hσ with rfl | rfl <;> simp [abs_of_pos s0]
        refine ⟨by rcases hσ with rfl | rfl <;> linarith, by rcases hσ with rfl | rfl <;> linarith, fun hin => ?_⟩
        have := hfin _ hin rfl (by dsimp only; intro h; have : σ * s = 0 := by linarith
                                   rw [this, abs_zero] at hne; linarith)
        dsimp only at this
        rw [add_sub_cancel_left, hne] at this
        linarith
      obtain ⟨η, hη, hηδ, hfree⟩ := hfree
      -- take one such place; its piece reaches the cut
      obtain ⟨b0, b1, b2⟩ := hfree (η / 2) (by linarith) (by linarith)
      obtain ⟨a, b, hab, j, hj, hji, l0, l1⟩ := hnc c.1 (c.2 + σ * (η / 2)) hr b0 b1 b2 (hway _ (by linarith) (by linarith))
      have hst := (hrn (a, b) hab).each j hj
      dsimp only at hst
      rw [hji] at hst
      refine ⟨(a, b), hab, j, hj, c.2, ?_, ?_, by dsimp only; rw [hji]⟩
      · dsimp only
        by_contra hlt
        push Not at hlt
        rcases hst.start with h | h
        · rw [h] at hlt; linarith
        · rcases hσ with rfl | rfl
          · have := (hfree (loOf a j - c.2) (by linarith) (by linarith)).2.2
            rw [show c.2 + 1 * (loOf a j - c.2) = loOf a j by ring] at this
            exact this h
          · linarith
      · dsimp only
        by_contra hlt
        push Not at hlt
        rcases hst.stop with h | h
        · rw [h] at hlt; linarith
        · rcases hσ with rfl | rfl
          · linarith
          · have := (hfree (c.2 - hiOf a b j) (by linarith) (by linarith)).2.2
            rw [show c.2 + -1 * (c.2 - hiOf a b j) = hiOf a b j by ring] at this
            exact this h
    · obtain ⟨a, b, hab, j, hj, hji, l0, l1⟩ := hnc i t hi t0 t1 hc hk
      exact ⟨(a, b), hab, j, hj, t, l0, l1, by dsimp only; rw [hji]⟩

end
end Cavc
