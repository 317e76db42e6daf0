import Verif.Lemmas.ShapeRun

/-! # What is kept of one offset loop of a shape -/

set_option linter.unusedVariables false
set_option linter.unusedSectionVars false

namespace Cavc
open Pline RealScalar

section
variable {R : Pline ℝ} {eps gap : ℝ} {C : List Cut} {K : V2 ℝ → Prop}

open Classical in
/-- the slices that are kept, where some of the gaps are empty -/
theorem kept_by_slices {M : ViewData ℝ → Prop} {P Q : Cut × Cut → Prop} : ∀ (L : List (Cut × Cut)) (ss : List (ViewData ℝ)),
    (∀ x ∈ L, ¬ P x → ViewData.fromSlicePoints R (listed R x.1).2 (listed R x.1).1 (listed R x.2).2 (listed R x.2).1 eps = .ok none) →
    (∀ x ∈ L, P x → ∃ s vs, ViewData.fromSlicePoints R (listed R x.1).2 (listed R x.1).1 (listed R x.2).2 (listed R x.2).1 eps = .ok (some s) ∧ GoodSlice R eps s x vs ∧
      (M s ↔ Q x)) →
    KeptBy R eps M (L.map (Prod.map (listed R) (listed R))) ss →
    List.Forall₂ (fun s x => ∃ vs, GoodSlice R eps s x vs) ss ((L.filter fun x => decide (P x)).filter fun x => decide (Q x))
  | [], ss, _, _, h => by
    cases h
    exact List.Forall₂.nil
  | x :: L, ss, he, hx, h => by
    have ih := fun ss h => kept_by_slices L ss (fun y hy => he y (by simp [hy])) (fun y hy => hx y (by simp [hy])) h
    rw [List.map_cons] at h
    by_cases hP : P x
    · obtain ⟨s, vs, h1, h2, h3⟩ := hx x (by simp) hP
      rw [List.filter_cons_of_pos (by simpa using hP)]
      cases h with
      | empty a b gs ss h0 hk =>
        rw [h1] at h0; simp at h0
      | dropped a b s' gs ss h0 hn hk =>
        rw [h1] at h0
        simp only [Except.ok.injEq, Option.some.injEq] at h0
        subst h0
        rw [List.filter_cons_of_neg (by simpa using fun hq => hn (h3.mpr hq))]
        exact ih ss hk
      | kept a b s' gs ss h0 hn hk =>
        rw [h1] at h0
        simp only [Except.ok.injEq, Option.some.injEq] at h0
        subst h0
        rw [List.filter_cons_of_pos (by simpa using h3.mp hn)]
        exact List.Forall₂.cons ⟨vs, h2⟩ (ih ss hk)
    · have h1 := he x (by simp) hP
      rw [List.filter_cons_of_neg (by simp [hP])]
      cases h with
      | empty a b gs ss h0 hk => exact ih ss hk
      | dropped a b s' gs ss h0 hn hk => rw [h1] at h0; simp at h0
      | kept a b s' gs ss h0 hn hk => rw [h1] at h0; simp at h0

/-- the points of a list of pieces -/
def OnPieces (R : Pline ℝ) (L : List (Cut × Cut)) (X : V2 ℝ) : Prop :=
  ∃ x ∈ L, ∃ j ≤ x.2.1 - x.1.1, ∃ t, loOf x.1 j ≤ t ∧ t ≤ hiOf x.1 x.2 j ∧ X = curveAt R (x.1.1 + j) t

open Classical in
/-- What is kept of a loop: the pieces on which the condition holds, or the whole loop. -/
structure LoopKept (R : Pline ℝ) (eps : ℝ) (K : V2 ℝ → Prop) (C : List Cut) (ss : List (ViewData ℝ)) (whole : Bool) (L : List (Cut × Cut)) : Prop where
  slices : List.Forall₂ (fun s x => ∃ vs, GoodSlice R eps s x vs) ss L
  order : ∀ x ∈ L, x.1.1 ≤ x.2.1
  lt : ∀ x ∈ L, ∀ j ≤ x.2.1 - x.1.1, loOf x.1 j < hiOf x.1 x.2 j
  first : ∀ x ∈ L, x.1 ∈ C
  last : ∀ x ∈ L, (x.2.1 % R.verts.length, x.2.2) ∈ C
  sound : ∀ X, OnPieces R L X → OnPline R X ∧ K X
  all : whole = true → ∀ X, OnPline R X → K X
  cover : ∀ i t, i < R.verts.length → 0 ≤ t → t ≤ 1 → (i, t) ∉ C → K (curveAt R i t) → whole = true ∨ OnPieces R L (curveAt R i t)
  beside : ∀ c ∈ C, HoldsBeside R K 1 c ∨ HoldsBeside R K (-1) c → OnPieces R L (curveAt R c.1 c.2)
  starts : (L.map fun x => curveAt R x.1.1 x.1.2).Perm ((C.filter fun c => decide (HoldsBeside R K 1 c)).map fun c => curveAt R c.1 c.2)
  stops : (L.map fun x => curveAt R x.2.1 x.2.2).Perm ((C.filter fun c => decide (HoldsBeside R K (-1) c)).map fun c => curveAt R c.1 c.2)
  run : ∀ x ∈ L, LoopRun R C x.1.1 (x.2.1 - x.1.1) (loOf x.1) (hiOf x.1 x.2)
  nodup : (L.map Prod.fst).Nodup
  empty : whole = true → L = []

/-- The test of the code on the points of an offset loop -/
def TestAt (inputs : List (IndexedPline ℝ)) (d : ℝ) (o : ShapeOffsetOptions ℝ) (parent : Nat) (X : V2 ℝ) : Prop :=
  ∀ (j : Nat) (ip : IndexedPline ℝ), inputs[j]? = some ip → j ≠ parent → PointClear ip.pline d o.posEqualEps o.offsetDistEps X

theorem mid_clear {inputs : List (IndexedPline ℝ)} {d : ℝ} {o : ShapeOffsetOptions ℝ} {parent : Nat} (he : 0 < eps) (hn : 0 < R.verts.length)
    {s : ViewData ℝ} {x : Cut × Cut} {vs : List (Vertex ℝ)} (h : GoodSlice R eps s x vs) :
    MidClear inputs d o parent R s ↔ TestAt inputs d o parent (curveAt R x.1.1 ((loOf x.1 0 + hiOf x.1 x.2 0) / 2)) := by
  have hl := h.along.count
  have hx := List.getElem?_eq_getElem (show 0 < vs.length by omega)
  have hy := List.getElem?_eq_getElem (show 0 + 1 < vs.length by omega)
  have hpt := h.along.part 0 _ _ ((pathSegs_getElem vs 0 _).mpr ⟨hx, hy⟩)
  have hm : segMidpoint vs[0] vs[0 + 1] = curveAt R x.1.1 ((loOf x.1 0 + hiOf x.1 x.2 0) / 2) := by
    rw [(C30_midpoint _ _ (hpt.full.proper he)).1, hpt.along, ← curveAt_vtx hn, Nat.add_zero]
    congr 1; ring
  unfold MidClear TestAt
  constructor
  · rintro ⟨vs', a, b, ⟨h1, -⟩, h2, h3, h4⟩
    have : vs' = vs := by have := h1.symm.trans h.reads; simpa using this
    subst this
    rw [hx] at h2
    rw [hy] at h3
    cases h2; cases h3
    rw [← hm]
    exact h4
  · intro h4
    refine ⟨vs, _, _, ⟨h.reads, by intro h; rw [h] at hl; simp at hl⟩, hx, hy, ?_⟩
    rw [hm]
    exact h4

/-- What is kept of an offset loop. -/
theorem loop_kept {inputs : List (IndexedPline ℝ)} {d : ℝ} {o : ShapeOffsetOptions ℝ} {l : OffsetLoop ℝ} (he : 0 < o.posEqualEps)
    (hf : FullLoop l.ip.pline o.posEqualEps) (hI : LoopInside l.ip.pline o.posEqualEps gap C) (hnd : C.Nodup) (hC : Along1 l.ip.pline C K) (hg : o.posEqualEps ≤ gap)
    (hw : C = [] → (TestAt inputs d o l.parent (curveAt l.ip.pline 0 (1 / 2)) ↔ K (curveAt l.ip.pline 0 (1 / 2))))
    (hm : ∀ k lo hi, SelfStretch l.ip.pline C k lo hi → (k, lo) ∈ C →
      (TestAt inputs d o l.parent (curveAt l.ip.pline k ((lo + hi) / 2)) ↔ K (curveAt l.ip.pline k ((lo + hi) / 2))))
    {es : List (Nat × V2 ℝ)} (hes : ∀ x, x ∈ es ↔ ∃ c ∈ C, cutPt l.ip.pline c = x) {ss : List (ViewData ℝ)} {whole : Bool}
    (h : Dissected inputs d o l es ss whole) : ∃ L, LoopKept l.ip.pline o.posEqualEps K C ss whole L := by
  classical
  set R := l.ip.pline with hR
  have hn : 0 < R.verts.length := by have := hf.two; omega
  by_cases hC0 : C = []
  · have hnc : ∀ c, c ∉ C := by rw [hC0]; simp
    have hes0 : es = [] := by
      rw [List.eq_nil_iff_forall_not_mem]
      intro x hx
      obtain ⟨c, hc, -⟩ := (hes x).mp hx
      exact hnc c hc
    cases h with
    | uncut dv whole h0 hdv hiff =>
      obtain ⟨vs, hvs⟩ := entire_along he hf hdv
      rw [mid_clear he hn hvs] at hiff
      have hlo : loOf (0, 0) 0 = 0 := by simp [loOf]
      have hhi : hiOf (0, 0) (R.verts.length - 1, 1) 0 = 1 := by simp [hiOf]
      dsimp only at hiff
      rw [hlo, hhi, zero_add, hw hC0] at hiff
      have hrun : LoopRun R C 0 (R.verts.length - 1) (fun _ => 0) (fun _ => 1) :=
        ⟨fun j hj => ⟨Nat.mod_lt _ hn, le_rfl, one_pos, le_rfl, Or.inl rfl, Or.inl rfl, fun t _ _ => hnc _⟩, fun j hj => ⟨rfl, rfl⟩⟩
      have hall : ∀ i t, 0 ≤ t → t ≤ 1 → K (curveAt R i t) → ∀ k ≤ R.verts.length - 1, ∀ u, 0 ≤ u → u ≤ 1 → K (curveAt R (0 + k) u) := by
        intro i t t0 t1 h
        have hm := Nat.mod_lt i hn
        refine hold_run hC hI hrun (j := i % R.verts.length) (by omega) t0 t1 (hnc _) ?_
        rw [Nat.zero_add, curveAt_wrap hn]; exact h
      refine ⟨[], List.Forall₂.nil, by simp, by simp, by simp, by simp, by rintro X ⟨x, hx, -⟩; simp at hx, ?_, ?_, ?_, by simp [hC0], by simp [hC0], by simp, by simp, fun _ => rfl⟩
      · intro hwh X hX
        obtain ⟨i, t, hi, t0, t1, rfl⟩ := (loop_on hf X).mp hX
        have := hall 0 (1 / 2) (by norm_num) (by norm_num) (hiff.mp hwh) i (by omega) t t0 t1
        rwa [Nat.zero_add] at this
      · intro i t hi t0 t1 _ hk
        left
        refine hiff.mpr ?_
        have := hall i t t0 t1 hk 0 (Nat.zero_le _) (1 / 2) (by norm_num) (by norm_num)
        rwa [Nat.zero_add] at this
      · intro c hc
        exact absurd hc (hnc c)
    | onceKept dv h1 => rw [hes0] at h1; simp at h1
    | onceDropped dv h1 => rw [hes0] at h1; simp at h1
    | pieces cuts ss h1 => rw [hes0] at h1; simp at h1
  · have hes2 : 2 ≤ es.length := by
      obtain ⟨c, hc⟩ := List.exists_mem_of_ne_nil C hC0
      obtain ⟨c', hc', hne⟩ := hI.several c hc
      have m1 := (hes _).mpr ⟨c, hc, rfl⟩
      have m2 := (hes _).mpr ⟨c', hc', rfl⟩
      match es, m1, m2 with
      | [], h, _ => simp at h
      | [x], h, h' =>
        exfalso
        rw [List.mem_singleton] at h h'
        have e := h.trans h'.symm
        unfold cutPt at e
        simp only [Prod.mk.injEq] at e
        obtain ⟨e1, e2⟩ := e
        have a := hI.ok c hc
        have b := hI.ok c' hc'
        rw [← e1] at e2
        exact hne (Prod.ext e1.symm (curve_inj he hf a.pos.le a.lt.le b.pos.le b.lt.le e2).symm)
      | _ :: _ :: _, _, _ => simp
    cases h with
    | uncut dv whole h0 => rw [h0] at hes2; simp at hes2
    | onceKept dv h1 => omega
    | onceDropped dv h1 => omega
    | pieces cuts ss h1 hsorted hkept =>
      have hcut : CutOrder R es cuts := by
        have ho := hsorted.order TotalCmp.real
        refine ⟨hsorted.perm, ho.imp fun {a b} h => ?_, fun _ => ho.imp fun {a b} h e v hv => ?_⟩
        · rcases h with h | h
          · exact h.le
          · exact h.1.le
        · rcases h with h | h
          · omega
          · exact h.2 v hv
      obtain ⟨CS, f, hCS, hS⟩ := loop_sorted he hf hI hes hcut hC0
      have hrange : ∀ c ∈ CS, c.1 < R.verts.length := fun c hc => hI.range c ((hS.mem c).mp hc)
      have hgap := gaps_listed hn hrange hS.first (0, ⟨0, 0⟩) (0, ⟨0, 0⟩)
      unfold gapsOf at hgap
      rw [if_pos rfl] at hgap
      rw [← hCS, hgap] at hkept
      have hslices := kept_by_slices (P := fun x => x.1 ≠ x.2) (Q := fun x => PieceHolds R K x.1 x.2) _ _ (fun x hx hP => by
          have e : x.1 = x.2 := by by_contra h; exact hP h
          have ha := (pathSegs_snoc_mem hx).1
          rw [← e]
          unfold listed
          dsimp only
          rw [Nat.mod_eq_of_lt (hrange _ ha)]
          exact loop_slice_same he hf (hrange _ ha) (hI.ok _ ((hS.mem _).mp ha))) (fun x hx hP => by
          obtain ⟨a, b⟩ := x
          obtain ⟨s, vs, k1, k3⟩ := loop_piece_slice he hf hI hS hg hx hP
          have ha := (pathSegs_snoc_mem hx).1
          refine ⟨s, vs, ?_, k3, ?_⟩
          · unfold listed
            dsimp only at ha ⊢
            rw [Nat.mod_eq_of_lt (hrange _ ha)]
            exact k1
          · have hr := loop_run he hf hI hS hx hP
            have hst := hr.each 0 (Nat.zero_le _)
            dsimp only at ha
            rw [Nat.add_zero, Nat.mod_eq_of_lt (hrange _ ha)] at hst
            have hlo : loOf a 0 = a.2 := by simp [loOf]
            rw [mid_clear he hn k3]
            dsimp only
            rw [hm _ _ _ hst (by rw [hlo]; exact (hS.mem _).mp ha)]
            have hlt := hst.lt
            constructor
            · intro hk
              refine hold_run hC hI hr (j := 0) (Nat.zero_le _) (t := (loOf a 0 + hiOf a b 0) / 2) (by linarith) (by linarith) ?_ hk
              rw [Nat.add_zero, Nat.mod_eq_of_lt (hrange _ ha)]
              exact hst.inside _ (by linarith) (by linarith)
            · intro hk
              exact hk 0 (Nat.zero_le _) _ (by linarith) (by linarith)) hkept
      set N := (pathSegs (CS ++ [again R f])).filter fun x => decide (x.1 ≠ x.2) with hN
      have hNm : ∀ x, x ∈ N ↔ x ∈ pathSegs (CS ++ [again R f]) ∧ x.1 ≠ x.2 := fun x => List.mem_filter.trans (and_congr_right fun _ => by simp)
      set L := N.filter fun x => decide (PieceHolds R K x.1 x.2) with hL
      have hLm : ∀ x, x ∈ L ↔ x ∈ N ∧ PieceHolds R K x.1 x.2 := fun x => List.mem_filter.trans (and_congr_right fun _ => by simp)
      obtain ⟨hfst, hsnd⟩ := pieces_ends he hf hI hS hnd
      rw [← hN] at hfst hsnd
      have hrn : ∀ x ∈ N, LoopRun R C x.1.1 (x.2.1 - x.1.1) (loOf x.1) (hiOf x.1 x.2) := fun x hx => loop_run he hf hI hS ((hNm x).mp hx).1 ((hNm x).mp hx).2
      have hle : ∀ x ∈ N, x.1.1 ≤ x.2.1 := fun x hx => by
        obtain ⟨ho, -⟩ := loop_between he hf hI hS ((hNm x).mp hx).1 ((hNm x).mp hx).2
        rcases ho with ho | ho <;> omega
      have hbes : ∀ x ∈ N, (PieceHolds R K x.1 x.2 ↔ HoldsBeside R K 1 x.1) ∧ (PieceHolds R K x.1 x.2 ↔ HoldsBeside R K (-1) (x.2.1 % R.verts.length, x.2.2)) :=
        fun x hx => piece_holds he hf hI hS hC ((hNm x).mp hx).1 ((hNm x).mp hx).2
      refine ⟨L, by convert hslices, fun x hx => hle x ((hLm x).mp hx).1, fun x hx j hj => ((hrn x ((hLm x).mp hx).1).each j hj).lt, ?_, ?_, ?_, by simp, ?_, ?_, ?_, ?_, fun x hx => hrn x ((hLm x).mp hx).1,
        (hfst.nodup_iff.mpr hnd).sublist ((List.filter_sublist).map _), by simp⟩
      · intro x hx
        exact hfst.mem_iff.mp (List.mem_map.mpr ⟨x, ((hLm x).mp hx).1, rfl⟩)
      · intro x hx
        exact hsnd.mem_iff.mp (List.mem_map.mpr ⟨x, ((hLm x).mp hx).1, rfl⟩)
      · rintro X ⟨x, hx, j, hj, t, t0, t1, rfl⟩
        have hst := (hrn x ((hLm x).mp hx).1).each j hj
        exact ⟨(loop_on hf _).mpr ⟨_, t, hst.range, hst.zero.trans t0, t1.trans hst.one, by rw [curveAt_wrap hn]⟩, ((hLm x).mp hx).2 j hj t t0 t1⟩
      · intro i t hi t0 t1 hc hk
        right
        obtain ⟨a, b, j, hab, hne, hj, hji, l0, l1⟩ := loop_cover he hf hI hS hi t0 t1
        have hall : PieceHolds R K a b := hold_run hC hI (loop_run he hf hI hS hab hne) hj l0 l1 (by rw [hji]; exact hc)
          (by rw [← curveAt_wrap hn, hji]; exact hk)
        exact ⟨(a, b), (hLm _).mpr ⟨(hNm _).mpr ⟨hab, hne⟩, hall⟩, j, hj, t, l0, l1, by dsimp only; rw [← curveAt_wrap hn (a.1 + j), hji]⟩
      · intro c hc hbs
        rcases hbs with hb | hb
        · obtain ⟨x, hx, rfl⟩ := List.mem_map.mp (hfst.mem_iff.mpr hc)
          have hlt := ((hrn x hx).each 0 (Nat.zero_le _)).lt
          have hlo : loOf x.1 0 = x.1.2 := by simp [loOf]
          exact ⟨x, (hLm x).mpr ⟨hx, (hbes x hx).1.mpr hb⟩, 0, Nat.zero_le _, x.1.2, by rw [hlo], by rw [hlo] at hlt; exact hlt.le, rfl⟩
        · obtain ⟨x, hx, rfl⟩ := List.mem_map.mp (hsnd.mem_iff.mpr hc)
          have hlt := ((hrn x hx).each _ le_rfl).lt
          have hhi : hiOf x.1 x.2 (x.2.1 - x.1.1) = x.2.2 := by simp [hiOf]
          refine ⟨x, (hLm x).mpr ⟨hx, (hbes x hx).2.mpr hb⟩, _, le_rfl, x.2.2, by rw [hhi] at hlt; exact hlt.le, by rw [hhi], ?_⟩
          dsimp only
          rw [curveAt_wrap hn, Nat.add_sub_cancel' (hle x hx)]
      · have e : (L.map fun x => curveAt R x.1.1 x.1.2) = (((N.map Prod.fst).filter fun c => decide (HoldsBeside R K 1 c)).map fun c => curveAt R c.1 c.2) := by
          rw [List.filter_map, List.map_map]
          have : L = N.filter ((fun c => decide (HoldsBeside R K 1 c)) ∘ Prod.fst) := by
            refine List.filter_congr fun x hx => ?_
            simp only [Function.comp, decide_eq_decide]
            exact (hbes x hx).1
          rw [this]
          rfl
        rw [e]
        exact (hfst.filter _).map _
      · have e : (L.map fun x => curveAt R x.2.1 x.2.2) = (((N.map fun x => ((x.2.1 % R.verts.length, x.2.2) : Cut)).filter fun c => decide (HoldsBeside R K (-1) c)).map fun c => curveAt R c.1 c.2) := by
          rw [List.filter_map, List.map_map]
          have : L = N.filter ((fun c => decide (HoldsBeside R K (-1) c)) ∘ fun x => ((x.2.1 % R.verts.length, x.2.2) : Cut)) := by
            refine List.filter_congr fun x hx => ?_
            simp only [Function.comp, decide_eq_decide]
            exact (hbes x hx).2
          rw [this]
          refine List.map_congr_left fun x hx => ?_
          simp only [Function.comp]
          rw [curveAt_wrap hn]
        rw [e]
        exact (hsnd.filter _).map _

end
end Cavc
