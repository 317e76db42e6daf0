import Verif.Lemmas.SelfCuts
import Verif.Props.OverlapJoin

/-! # The pieces of a closed polyline that crosses itself cleanly -/

set_option linter.unusedVariables false
set_option linter.unusedSectionVars false

namespace Cavc
open Real RealScalar Pline

section
variable {R : Pline ℝ} {eps gap : ℝ} {E : List (Cut × Cut)}

/-- The slice between two cuts that follow each other runs along the polyline. -/
theorem slice_along (he : 0 < eps) (hf : FullLoop R eps) {a b : Cut} (ha : CutOk R eps a) (hb : CutOk R eps b) (hai : a.1 < R.verts.length)
    (h : (a.1 = b.1 ∧ a.2 < b.2 ∧ (curveAt R a.1 a.2).fuzzyEqEps (curveAt R b.1 b.2) eps = false ∧ LongPart (vtx R a.1) a.2 b.2) ∨
      (a.1 < b.1 ∧ b.1 < a.1 + R.verts.length)) :
    ∃ s vs, ViewData.fromSlicePoints R (curveAt R a.1 a.2) a.1 (curveAt R b.1 b.2) (b.1 % R.verts.length) eps = .ok (some s) ∧
      s.toPline R = .ok ⟨vs, false⟩ ∧ Along R eps a b vs ∧ s.updatedStart.pos = curveAt R a.1 a.2 ∧ s.endPoint = curveAt R b.1 b.2 := by
  have hn : 0 < R.verts.length := by omega
  obtain ⟨i, t⟩ := a
  obtain ⟨j, u⟩ := b
  dsimp only at hai h ⊢
  unfold CutOk at ha hb
  dsimp only at ha hb
  have hbase := ha.base he (hf.full i)
  have e1 := at_vtx hai
  have e2 : R.at (R.nextWrap i) = .ok (vtx R (i + 1)) := by
    rw [nextWrap_eq R hai, at_vtx (Nat.mod_lt _ hn), vtx_mod]
  have hcv := curveAt_vtx hn i t
  have hnf : ¬ (vtx R (i + 1)).pos.fuzzyEqEps (curveAt R i t) eps = true := by
    rw [hcv, fuzzy_comm]; simp [ha.stop]
  unfold ViewData.fromSlicePoints
  rw [hf.closed]
  simp only [Bool.not_true, Bool.false_and, Bool.false_eq_true, if_false, e2, bind, Except.bind, if_neg hnf, Bool.and_true, e1]
  rcases h with ⟨rfl, htu, hne, hlong⟩ | ⟨hij, hjn⟩
  · rw [Nat.mod_eq_of_lt hai]
    have hfd : R.fwdDist i i = 0 := by unfold fwdDist; simp
    have hd : Scalar.lt (distSquared (vtx R i).pos (curveAt R i t)) (distSquared (vtx R i).pos (curveAt R i u)) = true := by
      rw [lt_eq, decide_eq_true_eq, hcv, curveAt_vtx hn]
      exact dist_from_start _ _ ((hf.full i).proper he) (fuzzy_ne he (hf.full i).apart) ha.pos.le htu hb.lt.le
    simp only [hfd, hne, Bool.not_false, Bool.and_true, beq_self_eq_true, if_true, hd]
    have hst := hbase.step he htu hb (by rw [← curveAt_vtx hn, ← curveAt_vtx hn]; exact hne) hlong
    dsimp only at hst
    rw [← curveAt_vtx hn, ← curveAt_vtx hn] at hst
    obtain ⟨hpart, -⟩ := hst
    obtain ⟨vs, hv, hal⟩ := single_along hf hai hpart
    set r := segSplitAtPoint (segSplitAtPoint (vtx R i) (vtx R (i + 1)) (curveAt R i t) eps).splitVertex (vtx R (i + 1)) (curveAt R i u) eps with hr
    have hstop : r.splitVertex.pos = curveAt R i u := by rw [hpart.stop, curveAt_vtx hn]
    have hap : (r.updatedStart.pos.fuzzyEqEps (curveAt R i u) eps) = false := by rw [← hstop]; exact hpart.full.apart
    unfold ViewData.createOnSingleSegment
    simp only [hap, Bool.false_eq_true, if_false]
    rw [hstop] at hv
    exact ⟨_, vs, rfl, hv, hal, by rw [hpart.start, hcv], rfl⟩
  · have hfd : R.fwdDist i (j % R.verts.length) = j - i := by
      unfold fwdDist vertexCount
      by_cases hj : j < R.verts.length
      · rw [Nat.mod_eq_of_lt hj, if_pos hij.le]
      · rw [Nat.mod_eq_sub_mod (by omega), Nat.mod_eq_of_lt (by omega), if_neg (by omega)]
        omega
    have h0 : (j - i == 0) = false := by simp; omega
    have h0' : ¬ (j - i = 0) := by omega
    rw [hfd]
    simp only [h0, Bool.false_and, Bool.false_eq_true, if_false, if_neg h0']
    rw [← hcv] at hbase
    obtain ⟨d, hd, -, -, h3, h4, -, vs, hv, hal⟩ := pass_along he hf hai hij hjn.le hb hbase
    rw [hd]
    exact ⟨d, vs, rfl, hv, hal, by rw [h3, hbase.pos, hcv], h4⟩

/-! ## The cuts in order -/

theorem sorted_cuts (he : 0 < eps) (hf : FullLoop R eps) (hE : SelfCrossing R eps gap E) {es cuts : List (Nat × V2 ℝ)}
    (hperm : es.Perm ((bothCuts E).map (cutPt R))) (ho : CutOrder R es cuts) :
    ∃ CS : List Cut, CS.map (cutPt R) = cuts ∧ CS.Perm (bothCuts E) ∧ CS.Pairwise lexLt := by
  have hn : 0 < R.verts.length := by have := hf.two; omega
  obtain ⟨CS, h1, h2⟩ := map_perm_exists (cutPt R) cuts (bothCuts E) (ho.perm.trans hperm)
  refine ⟨CS, h2, h1, ?_⟩
  have hnd : CS.Nodup := h1.nodup_iff.mpr hE.nodup
  have hs := ho.segments
  have ha := ho.along TotalCmp.real
  rw [← h2, List.pairwise_map] at hs ha
  refine ((hs.and ha).and hnd).imp_of_mem fun {a b} hma hmb hab => ?_
  obtain ⟨⟨hle, hal⟩, hne⟩ := hab
  unfold cutPt at hle hal
  dsimp only at hle hal
  have ca := hE.ok a (h1.mem_iff.mp hma)
  have cb := hE.ok b (h1.mem_iff.mp hmb)
  have ra := hE.range a (h1.mem_iff.mp hma)
  rcases Nat.lt_or_eq_of_le hle with h | h
  · exact Or.inl h
  · right
    refine ⟨h, ?_⟩
    have := hal h _ (vtx_at ra)
    rw [real_cmp_gt, distSquared_comm', distSquared_comm' (curveAt R b.1 b.2), curveAt_vtx hn, curveAt_vtx hn, ← h] at this
    by_contra hlt
    have hlt' : b.2 < a.2 := lt_of_le_of_ne (not_lt.mp hlt) fun e => hne (Prod.ext h e.symm)
    exact absurd this (not_le.mpr (dist_from_start _ _ ((hf.full a.1).proper he) (fuzzy_ne he (hf.full a.1).apart) cb.pos.le hlt' ca.lt.le))

/-- the first cut, one round later -/
noncomputable def again (R : Pline ℝ) (f : Cut) : Cut := (f.1 + R.verts.length, f.2)

/-- What is known of the sorted cuts. -/
structure RunCuts (R : Pline ℝ) (E : List (Cut × Cut)) (CS : List Cut) (f : Cut) : Prop where
  perm : CS.Perm (bothCuts E)
  sorted : CS.Pairwise lexLt
  first : CS.head? = some f

section
variable {CS : List Cut} {f : Cut} (he : 0 < eps) (hf : FullLoop R eps) (hE : SelfCrossing R eps gap E) (hS : RunCuts R E CS f)
include he hf hE hS

theorem first_mem : f ∈ CS := List.mem_of_mem_head? hS.first

theorem first_least {c : Cut} (hc : c ∈ CS) : c = f ∨ lexLt f c := by
  have hs := hS.sorted
  have hf0 := hS.first
  cases hC : CS with
  | nil => rw [hC] at hc; simp at hc
  | cons a l =>
    rw [hC] at hf0 hs hc
    simp only [List.head?_cons, Option.some.injEq] at hf0
    subst hf0
    rcases List.mem_cons.mp hc with rfl | hc
    · exact Or.inl rfl
    · exact Or.inr ((List.pairwise_cons.mp hs).1 c hc)

theorem again_sorted : (CS ++ [again R f]).Pairwise lexLt := by
  rw [List.pairwise_append]
  refine ⟨hS.sorted, List.pairwise_singleton _ _, ?_⟩
  intro c hc g hg
  simp only [List.mem_singleton] at hg
  subst hg
  left
  have := hE.range c (hS.perm.mem_iff.mp hc)
  unfold again
  dsimp only; omega

/-- the pieces are shorter than a whole round -/
theorem piece_short {a b : Cut} (hab : (a, b) ∈ pathSegs (CS ++ [again R f])) : b.1 < a.1 + R.verts.length := by
  have hsort := again_sorted he hf hE hS
  obtain ⟨ha, hb⟩ := pathSegs_snoc_mem hab
  dsimp only at ha hb
  rcases hb with hb | rfl
  · have := hE.range b (hS.perm.mem_iff.mp hb); omega
  · have hfa : f.1 ≤ a.1 := by
      rcases first_least he hf hE hS ha with h | h | h
      · rw [h]
      · omega
      · omega
    unfold again
    dsimp only
    by_contra hcon
    have hfe : f.1 = a.1 := by omega
    -- all cuts on the same segment
    have hall : ∀ c ∈ CS, c.1 = f.1 := by
      intro c hc
      have h1 : f.1 ≤ c.1 := by
        rcases first_least he hf hE hS hc with h | h | h
        · rw [h]
        · omega
        · omega
      have h2 : c.1 ≤ a.1 := by
        have hcr := hE.range c (hS.perm.mem_iff.mp hc)
        rcases sorted_gap hsort _ hab c (List.mem_append.mpr (Or.inl hc)) with h | h | h | h
        · rw [h]
        · rcases h with h | h <;> (dsimp only at h; omega)
        · rw [h] at hcr; unfold again at hcr; dsimp only at hcr; omega
        · rcases h with h | h <;> (unfold again at h; dsimp only at h; omega)
      omega
    have hfE := hS.perm.mem_iff.mp (first_mem he hf hE hS)
    have : ∃ e ∈ E, True := by
      unfold bothCuts at hfE
      rw [List.mem_append, List.mem_map, List.mem_map] at hfE
      rcases hfE with ⟨e, h, -⟩ | ⟨e, h, -⟩ <;> exact ⟨e, h, trivial⟩
    obtain ⟨e, hee, -⟩ := this
    have o := hE.order e hee
    have m1 := hall e.1 (hS.perm.mem_iff.mpr (cut_mem (b := e.2) (Or.inl hee)))
    have m2 := hall e.2 (hS.perm.mem_iff.mpr (cut_mem (b := e.1) (Or.inr hee)))
    omega

/-- Consecutive cuts follow each other, with no cut in between. -/
theorem between_cuts {a b : Cut} (hab : (a, b) ∈ pathSegs (CS ++ [again R f])) :
    Ordered R a b ∧ a ∈ bothCuts E ∧ (b.1 % R.verts.length, b.2) ∈ bothCuts E ∧
    ∀ j s, j ≤ b.1 - a.1 → (j = 0 → a.2 < s) → (j = b.1 - a.1 → s < b.2) → ((a.1 + j) % R.verts.length, s) ∉ bothCuts E := by
  have hn : 0 < R.verts.length := by have := hf.two; omega
  have hr : ∀ c ∈ CS, c.1 < R.verts.length := fun c hc => hE.range c (hS.perm.mem_iff.mp hc)
  have hok : ∀ c ∈ CS, 0 < c.2 ∧ c.2 < 1 := fun c hc => ⟨(hE.ok c (hS.perm.mem_iff.mp hc)).pos, (hE.ok c (hS.perm.mem_iff.mp hc)).lt⟩
  have hfm := first_mem he hf hE hS
  have hsort := again_sorted he hf hE hS
  obtain ⟨ha, hb⟩ := pathSegs_snoc_mem hab
  dsimp only at ha hb
  have hlex := pathSegs_rel hsort _ hab
  dsimp only at hlex
  have hfa := first_least he hf hE hS ha
  have hfn := hr f hfm
  have han := hr a ha
  have hbb : 0 < b.2 ∧ b.2 < 1 ∧ b.1 ≤ a.1 + R.verts.length := by
    have := piece_short he hf hE hS hab
    rcases hb with hb | rfl
    · have := hok b hb
      exact ⟨this.1, this.2, by omega⟩
    · have := hok f hfm
      exact ⟨this.1, this.2, by omega⟩
  have haa := hok a ha
  refine ⟨⟨haa.1, haa.2, hbb.1, hbb.2.1, ?_⟩, hS.perm.mem_iff.mp ha, ?_, ?_⟩
  · rcases hlex with h | h
    · exact Or.inr ⟨h, hbb.2.2⟩
    · exact Or.inl h
  · rcases hb with hb | rfl
    · rw [Nat.mod_eq_of_lt (hr b hb)]; exact hS.perm.mem_iff.mp hb
    · unfold again
      dsimp only
      rw [Nat.add_mod_right, Nat.mod_eq_of_lt hfn]; exact hS.perm.mem_iff.mp hfm
  · intro j s hj hs1 hs2 hin
    have hcC : (((a.1 + j) % R.verts.length, s) : Cut) ∈ CS := hS.perm.mem_iff.mpr hin
    have hab1 : a.1 ≤ b.1 := by rcases hlex with h | h <;> omega
    have hjb : j = b.1 - a.1 ↔ a.1 + j = b.1 := by omega
    by_cases hlt : a.1 + j < R.verts.length
    · rw [Nat.mod_eq_of_lt hlt] at hcC
      rcases sorted_gap hsort _ hab _ (List.mem_append.mpr (Or.inl hcC)) with h | h | h | h
      · have h1 := congrArg Prod.fst h
        have h2 := congrArg Prod.snd h
        dsimp only at h1 h2
        have := hs1 (by omega)
        linarith
      · rcases h with h | ⟨h, h'⟩
        · dsimp only at h; omega
        · dsimp only at h h'
          have := hs1 (by omega)
          linarith
      · have h1 := congrArg Prod.fst h
        have h2 := congrArg Prod.snd h
        dsimp only at h1 h2
        have := hs2 (by omega)
        linarith
      · rcases h with h | ⟨h, h'⟩
        · dsimp only at h; omega
        · dsimp only at h h'
          have := hs2 (by omega)
          linarith
    · have hm : (a.1 + j) % R.verts.length = a.1 + j - R.verts.length := by
        rw [Nat.mod_eq_sub_mod (by omega), Nat.mod_eq_of_lt (by omega)]
      rw [hm] at hcC
      rcases hb with hb | rfl
      · have := hr b hb; omega
      · unfold again at hs2 hj hjb hbb
        dsimp only at hs2 hj hjb hbb
        rcases first_least he hf hE hS hcC with h | h
        · have h1 := congrArg Prod.fst h
          have h2 := congrArg Prod.snd h
          dsimp only at h1 h2
          have := hs2 (by omega)
          linarith
        · rcases h with h | ⟨h, h'⟩
          · dsimp only at h; omega
          · dsimp only at h h'
            have := hs2 (by omega)
            linarith

omit he hf hE hS in
theorem list_cover {x : Cut} : ∀ (l : List Cut) (c : Cut), (c = x ∨ lexLt c x) → (∃ g ∈ c :: l, x = g ∨ lexLt x g) →
    ((c :: l).Pairwise lexLt) → l ≠ [] → ∃ y ∈ pathSegs (c :: l), (y.1 = x ∨ lexLt y.1 x) ∧ (x = y.2 ∨ lexLt x y.2)
  | [], c, _, _, _, h => absurd rfl h
  | d :: l, c, hc, hg, hs, _ => by
    by_cases hd : x = d ∨ lexLt x d
    · exact ⟨(c, d), by simp [pathSegs], hc, hd⟩
    · have hdx : lexLt d x := by
        unfold lexLt at *
        push Not at hd
        obtain ⟨h1, h2, h3⟩ := hd
        rcases Nat.lt_or_eq_of_le h2 with h | h
        · exact Or.inl h
        · right
          refine ⟨h, lt_of_le_of_ne (h3 h.symm) fun e => h1 ?_⟩
          exact (Prod.ext h e).symm
      have hg' : ∃ g ∈ d :: l, x = g ∨ lexLt x g := by
        obtain ⟨g, hgm, hgx⟩ := hg
        rcases List.mem_cons.mp hgm with rfl | hgm
        · exfalso
          have hcd := (List.pairwise_cons.mp hs).1 d (by simp)
          unfold lexLt at *
          rcases hgx with rfl | hgx
          · rcases hcd with h | h <;> rcases hdx with h' | h'
            · omega
            · omega
            · omega
            · linarith [h.2, h'.2]
          · rcases hcd with h | h <;> rcases hdx with h' | h' <;> rcases hgx with h'' | h'' <;> first | omega | linarith [h.2, h'.2, h''.2]
        · exact ⟨g, hgm, hgx⟩
      have hl : l ≠ [] := by
        rintro rfl
        obtain ⟨g, hgm, hgx⟩ := hg'
        simp only [List.mem_cons, List.not_mem_nil, or_false] at hgm
        subst hgm
        exact hd hgx
      obtain ⟨y, hy, h1, h2⟩ := list_cover l d (Or.inr hdx) hg' (List.pairwise_cons.mp hs).2 hl
      exact ⟨y, by simp only [pathSegs, List.mem_cons]; exact Or.inr hy, h1, h2⟩

/-- The pieces cover the polyline. -/
theorem pieces_cover {i : Nat} (hi : i < R.verts.length) {t : ℝ} (t0 : 0 ≤ t) (t1 : t ≤ 1) :
    ∃ a b j, (a, b) ∈ pathSegs (CS ++ [again R f]) ∧ j ≤ b.1 - a.1 ∧ (a.1 + j) % R.verts.length = i ∧ loOf a j ≤ t ∧ t ≤ hiOf a b j := by
  have hfm := first_mem he hf hE hS
  have hfr := hE.range f (hS.perm.mem_iff.mp hfm)
  have hsort := again_sorted he hf hE hS
  obtain ⟨l, hl⟩ : ∃ l, CS = f :: l := by
    have := hS.first
    cases hC : CS with
    | nil => rw [hC] at this; simp at this
    | cons a l => rw [hC] at this; simp at this; exact ⟨l, by rw [this]⟩
  have key : ∀ x : Cut, x.1 % R.verts.length = i → x.2 = t → (f = x ∨ lexLt f x) → (x = again R f ∨ lexLt x (again R f)) →
      ∃ a b j, (a, b) ∈ pathSegs (CS ++ [again R f]) ∧ j ≤ b.1 - a.1 ∧ (a.1 + j) % R.verts.length = i ∧ loOf a j ≤ t ∧ t ≤ hiOf a b j := by
    intro x hx ht h1 h2
    rw [hl] at hsort ⊢
    obtain ⟨⟨a, b⟩, hy, h3, h4⟩ := list_cover (x := x) (l ++ [again R f]) f h1 ⟨again R f, by simp, h2⟩ hsort (by simp)
    dsimp only at h3 h4
    have ha : a.1 ≤ x.1 := by
      rcases h3 with h | h | h
      · rw [h]
      · omega
      · omega
    have hb : x.1 ≤ b.1 := by
      rcases h4 with h | h | h
      · rw [h]
      · omega
      · omega
    refine ⟨a, b, x.1 - a.1, hy, by omega, by rw [Nat.add_sub_cancel' ha]; exact hx, ?_, ?_⟩
    · unfold loOf
      split_ifs with h0
      · rw [← ht]
        rcases h3 with h | h | h
        · rw [h]
        · omega
        · exact h.2.le
      · exact t0
    · unfold hiOf
      split_ifs with h0
      · rw [← ht]
        rcases h4 with h | h | h
        · rw [h]
        · omega
        · exact h.2.le
      · exact t1
  by_cases hlt : lexLt (i, t) f
  · refine key (i + R.verts.length, t) (by dsimp only; rw [Nat.add_mod_right, Nat.mod_eq_of_lt hi]) rfl (Or.inr (Or.inl (by dsimp only; omega))) (Or.inr ?_)
    unfold again
    rcases hlt with h | h
    · left; dsimp only at *; omega
    · right; dsimp only at *; exact ⟨by omega, h.2⟩
  · refine key (i, t) (Nat.mod_eq_of_lt hi) rfl ?_ (Or.inr (Or.inl (by unfold again; dsimp only; omega)))
    unfold lexLt at hlt ⊢
    push Not at hlt
    dsimp only at *
    by_cases h : f.1 < i
    · exact Or.inr (Or.inl h)
    · have : f.1 = i := by omega
      rcases lt_or_eq_of_le (hlt.2 this.symm) with h' | h'
      · exact Or.inr (Or.inr ⟨this, h'⟩)
      · exact Or.inl (Prod.ext this h')

end

end
end Cavc
