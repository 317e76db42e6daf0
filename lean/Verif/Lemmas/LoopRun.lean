import Verif.Lemmas.OpenResult
import Verif.Spec.OffsetSelf

/-! # The pieces of a closed polyline between its cuts -/

set_option linter.unusedVariables false
set_option linter.unusedSectionVars false

namespace Cavc
open Pline RealScalar

/-- the cuts are inside the segments; there is not exactly one -/
structure LoopInside (R : Pline ℝ) (eps gap : ℝ) (C : List Cut) : Prop where
  range : ∀ c ∈ C, c.1 < R.verts.length
  ok : ∀ c ∈ C, CutOk R eps c
  apart : ∀ c ∈ C, ∀ c' ∈ C, curveAt R c.1 c.2 = curveAt R c'.1 c'.2 ∨ FarApart gap (curveAt R c.1 c.2) (curveAt R c'.1 c'.2)
  long : ∀ c ∈ C, ∀ c' ∈ C, c.1 = c'.1 → c.2 < c'.2 → LongPart (vtx R c.1) c.2 c'.2
  several : ∀ c ∈ C, ∃ c' ∈ C, c' ≠ c

theorem SelfCuts.inside {R D : Pline ℝ} {eps gap : ℝ} {C : List Cut} (h : SelfCuts R D eps gap C) : LoopInside R eps gap C :=
  ⟨h.range, h.ok, h.apart, h.long, h.several⟩

/-- The cuts of a closed polyline in order; some may be listed more than once. -/
structure RunLoop (C CS : List Cut) (f : Cut) : Prop where
  first : CS.head? = some f
  sorted : CS.Pairwise lexLe
  mem : ∀ c, c ∈ CS ↔ c ∈ C

/-- a run of stretches, put end to start -/
structure LoopRun (R : Pline ℝ) (C : List Cut) (i m : Nat) (lo hi : Nat → ℝ) : Prop where
  each : ∀ j ≤ m, SelfStretch R C ((i + j) % R.verts.length) (lo j) (hi j)
  joint : ∀ j < m, hi j = 1 ∧ lo (j + 1) = 0

section
variable {p R : Pline ℝ} {d r eps gap tol : ℝ} {C CS : List Cut} {f : Cut}

/-- The slice between two cuts that follow each other runs along the polyline, also over the whole round. -/
theorem loop_slice (he : 0 < eps) (hf : FullLoop R eps) {a b : Cut} (ha : CutOk R eps a) (hb : CutOk R eps b) (hai : a.1 < R.verts.length)
    (h : (a.1 = b.1 ∧ a.2 < b.2 ∧ (curveAt R a.1 a.2).fuzzyEqEps (curveAt R b.1 b.2) eps = false ∧ LongPart (vtx R a.1) a.2 b.2) ∨
      (a.1 < b.1 ∧ (b.1 < a.1 + R.verts.length ∨
        (b.1 = a.1 + R.verts.length ∧ b.2 < a.2 ∧ (curveAt R a.1 a.2).fuzzyEqEps (curveAt R b.1 b.2) eps = false)))) :
    ∃ s vs, ViewData.fromSlicePoints R (curveAt R a.1 a.2) a.1 (curveAt R b.1 b.2) (b.1 % R.verts.length) eps = .ok (some s) ∧ GoodSlice R eps s (a, b) vs := by
  rcases h with h | ⟨hlt, h | ⟨h1, h2, h3⟩⟩
  · obtain ⟨s, vs, k1, k2, k3, k4, k5⟩ := slice_along he hf ha hb hai (Or.inl h)
    exact ⟨s, vs, k1, k2, k3, k4, k5⟩
  · obtain ⟨s, vs, k1, k2, k3, k4, k5⟩ := slice_along he hf ha hb hai (Or.inr ⟨hlt, h⟩)
    exact ⟨s, vs, k1, k2, k3, k4, k5⟩
  · have hn : 0 < R.verts.length := by omega
    obtain ⟨i, t⟩ := a
    obtain ⟨j, u⟩ := b
    dsimp only at *
    unfold CutOk at ha hb
    dsimp only at ha hb
    have hbase := ha.base he (hf.full i)
    have e1 := at_vtx hai
    have e2 : R.at (R.nextWrap i) = .ok (vtx R (i + 1)) := by
      rw [nextWrap_eq R hai, at_vtx (Nat.mod_lt _ hn), vtx_mod]
    have hcv := curveAt_vtx hn i t
    have hnf : ¬ (vtx R (i + 1)).pos.fuzzyEqEps (curveAt R i t) eps = true := by
      rw [hcv, fuzzy_comm]; simp [ha.stop]
    have hjm : j % R.verts.length = i := by rw [h1, Nat.add_mod_right, Nat.mod_eq_of_lt hai]
    have hju : curveAt R j u = curveAt R i u := by rw [← curveAt_wrap hn j, hjm]
    have hfd : R.fwdDist i i = 0 := by unfold fwdDist; simp
    have hd : Scalar.lt (distSquared (vtx R i).pos (curveAt R i t)) (distSquared (vtx R i).pos (curveAt R j u)) = false := by
      rw [lt_eq, decide_eq_false_iff_not, hju, hcv, curveAt_vtx hn, not_lt]
      exact (dist_from_start _ _ ((hf.full i).proper he) (fuzzy_ne he (hf.full i).apart) (by
        have := hb.pos; exact this.le) h2 ha.lt.le).le
    unfold ViewData.fromSlicePoints
    rw [hf.closed, hjm]
    have h0' : ¬ (R.vertexCount = 0) := by unfold vertexCount; omega
    simp only [Bool.not_true, Bool.false_and, Bool.false_eq_true, if_false, e2, bind, Except.bind, if_neg hnf, Bool.and_true, e1, hfd, h3, Bool.not_false,
      beq_self_eq_true, if_true, hd, if_neg h0']
    rw [← hcv] at hbase
    obtain ⟨s, hs, -, -, q3, q4, -, vs, hv, hal⟩ := pass_along he hf hai hlt h1.le hb hbase
    rw [hjm, h1, Nat.add_sub_cancel_left] at hs
    rw [h1]
    have hv2 : R.vertexCount = R.verts.length := rfl
    rw [hv2, hs]
    refine ⟨s, vs, rfl, hv, ?_, by rw [q3, hbase.pos, hcv], ?_⟩
    · rw [← h1]; exact hal
    · rw [q4, h1]

/-- no slice is left from a cut to the same cut -/
theorem loop_slice_same (he : 0 < eps) (hf : FullLoop R eps) {a : Cut} (ha : a.1 < R.verts.length) (h0 : CutOk R eps a) :
    ViewData.fromSlicePoints R (curveAt R a.1 a.2) a.1 (curveAt R a.1 a.2) a.1 eps = .ok none := by
  have hn : 0 < R.verts.length := by omega
  unfold CutOk at h0
  have e1 := at_vtx (p := R) (i := a.1) (by omega)
  have e2 : R.at (R.nextWrap a.1) = .ok (vtx R (a.1 + 1)) := by
    rw [nextWrap_eq R (by omega), at_vtx (Nat.mod_lt _ hn), vtx_mod]
  have hfd : R.fwdDist a.1 a.1 = 0 := by unfold fwdDist; simp
  have hnf : ¬ (vtx R (a.1 + 1)).pos.fuzzyEqEps (curveAt R a.1 a.2) eps = true := by
    rw [curveAt_vtx hn, fuzzy_comm]; simp [h0.stop]
  unfold ViewData.fromSlicePoints
  simp only [hf.closed, Bool.not_true, Bool.false_and, Bool.false_eq_true, if_false, e2, bind, Except.bind, if_neg hnf, hfd, fuzzy_self he, Bool.and_false,
    if_true, e1]
  unfold ViewData.createOnSingleSegment
  rw [if_pos]
  have hpos : (segSplitAtPoint (vtx R a.1) (vtx R (a.1 + 1)) (curveAt R a.1 a.2) eps).splitVertex.pos = curveAt R a.1 a.2 := by
    unfold segSplitAtPoint
    split
    · rfl
    split
    · rfl
    · rfl
  rcases split_pos (eps := eps) (segSplitAtPoint (vtx R a.1) (vtx R (a.1 + 1)) (curveAt R a.1 a.2) eps).splitVertex (vtx R (a.1 + 1)) (curveAt R a.1 a.2) with h | h
  · rw [h, hpos]; exact fuzzy_self he _
  · rw [h]; exact fuzzy_self he _

section
variable (he : 0 < eps) (hf : FullLoop R eps) (hI : LoopInside R eps gap C) (hS : RunLoop C CS f)
include he hf hI hS

theorem loop_first_mem : f ∈ CS := List.mem_of_mem_head? hS.first

theorem loop_first_least {c : Cut} (hc : c ∈ CS) : lexLe f c := by
  have hs := hS.sorted
  have hf0 := hS.first
  cases hC : CS with
  | nil => rw [hC] at hc; simp at hc
  | cons a l =>
    rw [hC] at hf0 hs hc
    simp only [List.head?_cons, Option.some.injEq] at hf0
    subst hf0
    rcases List.mem_cons.mp hc with rfl | hc
    · exact Or.inl rfl
    · exact (List.pairwise_cons.mp hs).1 c hc

theorem loop_again_sorted : (CS ++ [again R f]).Pairwise lexLe := by
  rw [List.pairwise_append]
  refine ⟨hS.sorted, List.pairwise_singleton _ _, ?_⟩
  intro c hc g hg
  simp only [List.mem_singleton] at hg
  subst hg
  right; left
  have := hI.range c ((hS.mem c).mp hc)
  unfold again
  dsimp only; omega

/-- the last cut is not the first one -/
theorem loop_last_ne {a : Cut} (hab : (a, again R f) ∈ pathSegs (CS ++ [again R f])) : lexLt f a := by
  have hsort := loop_again_sorted he hf hI hS
  obtain ⟨ha, -⟩ := pathSegs_snoc_mem hab
  dsimp only at ha
  refine (loop_first_least he hf hI hS ha).resolve_left fun hfa => ?_
  subst hfa
  obtain ⟨c', hc', hne⟩ := hI.several f ((hS.mem f).mp ha)
  have hc'' := (hS.mem c').mpr hc'
  rcases le_gap hsort _ hab c' (List.mem_append.mpr (Or.inl hc'')) with h | h
  · rcases h with h | h
    · exact hne h
    · rcases loop_first_least he hf hI hS hc'' with h' | h'
      · exact hne h'.symm
      · exact lexLt_irrefl _ (lexLt_trans h h')
  · have := hI.range c' hc'
    unfold again at h
    rcases h with h | h | h
    · have := congrArg Prod.fst h; dsimp only at this; omega
    · dsimp only at h; omega
    · dsimp only at h; omega

/-- Consecutive cuts follow each other, with no cut in between. -/
theorem loop_between {a b : Cut} (hab : (a, b) ∈ pathSegs (CS ++ [again R f])) (hne : a ≠ b) :
    lexLt a b ∧ a ∈ C ∧ (b.1 % R.verts.length, b.2) ∈ C ∧ (b.1 < a.1 + R.verts.length ∨ (b.1 = a.1 + R.verts.length ∧ b.2 < a.2)) ∧
    ∀ j s, j ≤ b.1 - a.1 → (j = 0 → a.2 < s) → (j = b.1 - a.1 → s < b.2) → ((a.1 + j) % R.verts.length, s) ∉ C := by
  have hn : 0 < R.verts.length := by have := hf.two; omega
  have hsort := loop_again_sorted he hf hI hS
  have hlex : lexLt a b := (pathSegs_rel hsort _ hab).resolve_left hne
  obtain ⟨ha, hb⟩ := pathSegs_snoc_mem hab
  dsimp only at ha hb
  have hr : ∀ c ∈ CS, c.1 < R.verts.length := fun c hc => hI.range c ((hS.mem c).mp hc)
  have hfm := loop_first_mem he hf hI hS
  have hfn := hr f hfm
  have han := hr a ha
  have hab1 : a.1 ≤ b.1 := by rcases hlex with h | h <;> omega
  have hshort : b.1 < a.1 + R.verts.length ∨ (b.1 = a.1 + R.verts.length ∧ b.2 < a.2) := by
    rcases hb with hb | rfl
    · have := hr b hb; left; omega
    · rcases loop_last_ne he hf hI hS hab with h | h
      · left; unfold again; dsimp only; omega
      · right; unfold again; dsimp only; exact ⟨by omega, h.2⟩
  refine ⟨hlex, (hS.mem a).mp ha, ?_, hshort, ?_⟩
  · rcases hb with hb | rfl
    · rw [Nat.mod_eq_of_lt (hr b hb)]; exact (hS.mem b).mp hb
    · unfold again
      dsimp only
      rw [Nat.add_mod_right, Nat.mod_eq_of_lt hfn]; exact (hS.mem f).mp hfm
  · intro j s hj hs1 hs2 hin
    have hcC : (((a.1 + j) % R.verts.length, s) : Cut) ∈ CS := (hS.mem _).mpr hin
    by_cases hlt : a.1 + j < R.verts.length
    · rw [Nat.mod_eq_of_lt hlt] at hcC
      rcases le_gap hsort _ hab _ (List.mem_append.mpr (Or.inl hcC)) with h | h
      · rcases h with h | h | ⟨h, h'⟩
        · have h1 := congrArg Prod.fst h
          have h2 := congrArg Prod.snd h
          dsimp only at h1 h2
          have := hs1 (by omega)
          linarith
        · dsimp only at h; omega
        · dsimp only at h h'
          have := hs1 (by omega)
          linarith
      · rcases h with h | h | ⟨h, h'⟩
        · have h1 := congrArg Prod.fst h
          have h2 := congrArg Prod.snd h
          dsimp only at h1 h2
          have := hs2 (by omega)
          linarith
        · dsimp only at h; omega
        · dsimp only at h h'
          have := hs2 (by omega)
          linarith
    · rcases hb with hb | rfl
      · have := hr b hb; omega
      · have hj2 : a.1 + j - R.verts.length < R.verts.length := by unfold again at hj; dsimp only at hj; omega
        have hm : (a.1 + j) % R.verts.length = a.1 + j - R.verts.length := by
          rw [Nat.mod_eq_sub_mod (by omega), Nat.mod_eq_of_lt hj2]
        rw [hm] at hcC
        unfold again at hs2 hj
        dsimp only at hs2 hj
        rcases loop_first_least he hf hI hS hcC with h | h | ⟨h, h'⟩
        · have h1 := congrArg Prod.fst h
          have h2 := congrArg Prod.snd h
          dsimp only at h1 h2
          have := hs2 (by omega)
          linarith
        · dsimp only at h; omega
        · dsimp only at h h'
          have := hs2 (by omega)
          linarith

theorem loop_run {a b : Cut} (hab : (a, b) ∈ pathSegs (CS ++ [again R f])) (hne : a ≠ b) : LoopRun R C a.1 (b.1 - a.1) (loOf a) (hiOf a b) := by
  have hn : 0 < R.verts.length := by have := hf.two; omega
  obtain ⟨hlex, ha, hb, hbr, hno⟩ := loop_between he hf hI hS hab hne
  have hai := hI.range a ha
  have a0 := (hI.ok a ha).pos
  have a1 := (hI.ok a ha).lt
  have b0 : 0 < b.2 := (hI.ok _ hb).pos
  have b1 : b.2 < 1 := (hI.ok _ hb).lt
  have hle : a.1 ≤ b.1 := by rcases hlex with h | h <;> omega
  refine ⟨fun j hj => ⟨Nat.mod_lt _ hn, ?_, ?_, ?_, ?_, ?_, ?_⟩, fun j hj => ⟨?_, ?_⟩⟩
  · unfold loOf; split_ifs <;> linarith
  · unfold loOf hiOf
    split_ifs with h1 h2 h2
    · rcases hlex with h | h
      · omega
      · exact h.2
    · exact a1
    · exact b0
    · norm_num
  · unfold hiOf; split_ifs <;> linarith
  · unfold loOf
    split_ifs with h
    · right; rw [h, Nat.add_zero, Nat.mod_eq_of_lt hai]; exact ha
    · exact Or.inl rfl
  · unfold hiOf
    split_ifs with h
    · right
      have : a.1 + j = b.1 := by omega
      rw [this]; exact hb
    · exact Or.inl rfl
  · intro t t0 t1
    refine hno j t hj (fun h => ?_) (fun h => ?_)
    · unfold loOf at t0; rwa [if_pos h] at t0
    · unfold hiOf at t1; rwa [if_pos h] at t1
  · unfold hiOf; rw [if_neg (by omega)]
  · unfold loOf; rw [if_neg (by omega)]

theorem loop_piece_slice (hg : eps ≤ gap) {a b : Cut} (hab : (a, b) ∈ pathSegs (CS ++ [again R f])) (hne : a ≠ b) :
    ∃ s vs, ViewData.fromSlicePoints R (curveAt R a.1 a.2) a.1 (curveAt R b.1 b.2) (b.1 % R.verts.length) eps = .ok (some s) ∧ GoodSlice R eps s (a, b) vs := by
  have hn : 0 < R.verts.length := by have := hf.two; omega
  obtain ⟨hlex, ha, hb, hbr, hno⟩ := loop_between he hf hI hS hab hne
  have hai := hI.range a ha
  have a0 := (hI.ok a ha).pos
  have a1 := (hI.ok a ha).lt
  have b0 : 0 < b.2 := (hI.ok _ hb).pos
  have b1 : b.2 < 1 := (hI.ok _ hb).lt
  have hapart : b.1 % R.verts.length = a.1 → a.2 ≠ b.2 → (curveAt R a.1 a.2).fuzzyEqEps (curveAt R b.1 b.2) eps = false := by
    intro h1 h2
    rcases hI.apart a ha _ hb with h | h
    · dsimp only at h
      rw [h1] at h
      exact absurd (curve_inj he hf a0.le a1.le b0.le b1.le h) h2
    · dsimp only at h
      rw [curveAt_wrap hn] at h
      exact (farApart_mono hg h).fuzzy
  refine loop_slice he hf (hI.ok a ha) (ok_mod hn (hI.ok _ hb)) hai ?_
  rcases hlex with h | ⟨h1, h2⟩
  · right
    refine ⟨h, hbr.imp_right fun k => ⟨k.1, k.2, hapart ?_ k.2.ne'⟩⟩
    rw [k.1, Nat.add_mod_right, Nat.mod_eq_of_lt hai]
  · left
    have hbm : b.1 % R.verts.length = b.1 := Nat.mod_eq_of_lt (by omega)
    refine ⟨h1, h2, hapart (by omega) h2.ne, ?_⟩
    rw [hbm] at hb
    exact hI.long a ha b hb h1 h2

/-- The pieces cover the polyline. -/
theorem loop_cover {i : Nat} (hi : i < R.verts.length) {t : ℝ} (t0 : 0 ≤ t) (t1 : t ≤ 1) :
    ∃ a b j, (a, b) ∈ pathSegs (CS ++ [again R f]) ∧ a ≠ b ∧ j ≤ b.1 - a.1 ∧ (a.1 + j) % R.verts.length = i ∧ loOf a j ≤ t ∧ t ≤ hiOf a b j := by
  have hsort := loop_again_sorted he hf hI hS
  obtain ⟨l, hl⟩ : ∃ l, CS = f :: l := by
    have := hS.first
    cases hC : CS with
    | nil => rw [hC] at this; simp at this
    | cons a l => rw [hC] at this; simp at this; exact ⟨l, by rw [this]⟩
  have key : ∀ x : Cut, x.1 % R.verts.length = i → x.2 = t → lexLe f x → lexLe x (again R f) →
      ∃ a b j, (a, b) ∈ pathSegs (CS ++ [again R f]) ∧ a ≠ b ∧ j ≤ b.1 - a.1 ∧ (a.1 + j) % R.verts.length = i ∧ loOf a j ≤ t ∧ t ≤ hiOf a b j := by
    intro x hx ht h1 h2
    rw [hl] at hsort ⊢
    obtain ⟨⟨a, b⟩, hy, hne, h3, h4⟩ := le_cover (x := x) (l ++ [again R f]) f h1 ⟨again R f, by simp, h2, by
      unfold again; intro h; have := congrArg Prod.fst h; dsimp only at this; omega⟩ hsort
    dsimp only at hne h3 h4
    have ha : a.1 ≤ x.1 := by
      rcases h3 with h | h | h
      · rw [h]
      · omega
      · omega
    have hb : x.1 ≤ b.1 := by
      rcases h4 with h | h | h
      · rw [h]
      · omega
      · omega
    refine ⟨a, b, x.1 - a.1, hy, hne, by omega, by rw [Nat.add_sub_cancel' ha]; exact hx, ?_, ?_⟩
    · unfold loOf
      split_ifs with h0
      · rw [← ht]
        rcases h3 with h | h | h
        · rw [h]
        · omega
        · exact h.2.le
      · exact t0
    · unfold hiOf
      split_ifs with h0
      · rw [← ht]
        rcases h4 with h | h | h
        · rw [h]
        · omega
        · exact h.2.le
      · exact t1
  rcases lexLe_total f (i, t) with h | h
  · refine key (i, t) (Nat.mod_eq_of_lt hi) rfl h (Or.inr (Or.inl (by unfold again; dsimp only; omega)))
  · refine key (i + R.verts.length, t) (by dsimp only; rw [Nat.add_mod_right, Nat.mod_eq_of_lt hi]) rfl ?_ (Or.inr ?_)
    · have := hI.range f ((hS.mem f).mp (loop_first_mem he hf hI hS))
      exact Or.inr (Or.inl (by dsimp only; omega))
    · unfold again
      rcases h with h | h
      · left; dsimp only at *; omega
      · right; dsimp only at *; exact ⟨by omega, h.2⟩

end

theorem keep_run_loop (hC : SelfChanges p R r C) (hI : LoopInside R eps gap C) {i m : Nat} {lo hi : Nat → ℝ}
    (hr : LoopRun R C i m lo hi) {j : Nat} (hj : j ≤ m) {t : ℝ} (t0 : lo j ≤ t) (t1 : t ≤ hi j)
    (hcut : ((i + j) % R.verts.length, t) ∉ C) (hk : Keeps p r (curveAt R (i + j) t)) :
    ∀ k ≤ m, ∀ u, lo k ≤ u → u ≤ hi k → Keeps p r (curveAt R (i + k) u) := by
  have hn : 0 < R.verts.length := by have := (hr.each 0 (Nat.zero_le _)).range; omega
  have seg : ∀ k ≤ m, (∃ s, lo k ≤ s ∧ s ≤ hi k ∧ ((i + k) % R.verts.length, s) ∉ C ∧ Keeps p r (curveAt R (i + k) s)) →
      ∀ u, lo k ≤ u → u ≤ hi k → Keeps p r (curveAt R (i + k) u) := by
    rintro k hk ⟨s, s0, s1, hs, hks⟩ u u0 u1
    have h := hr.each k hk
    rw [← curveAt_wrap hn] at hks ⊢
    exact keep_seg_core (cut := fun t => ((i + k) % R.verts.length, t) ∈ C) hn (fun t => hC.steady _ t h.range) h.zero h.lt h.one h.inside s0 s1 hs hks u u0 u1
  have hpos : ∀ {c : Cut}, c ∈ C → 0 < c.2 ∧ c.2 < 1 := fun hc => ⟨(hI.ok _ hc).pos, (hI.ok _ hc).lt⟩
  have h0 := seg j hj ⟨t, t0, t1, hcut, hk⟩
  have up : ∀ k, j ≤ k → k ≤ m → ∀ u, lo k ≤ u → u ≤ hi k → Keeps p r (curveAt R (i + k) u) := by
    intro k hjk
    induction k, hjk using Nat.le_induction with
    | base => exact fun _ => h0
    | succ k hjk ih =>
      intro hkm
      obtain ⟨h1, h2⟩ := hr.joint k (by omega)
      have hs := hr.each (k + 1) hkm
      have hs' := hr.each k (by omega)
      refine seg (k + 1) hkm ⟨0, by rw [h2], by have := hs.lt; have := hs.zero; linarith, fun h => absurd (hpos h).1 (lt_irrefl 0), ?_⟩
      have := ih (by omega) 1 (by rw [← h1]; exact hs'.lt.le) (by rw [h1])
      rw [curveAt_join hn] at this
      exact this
  have down : ∀ w k, k + w = j → ∀ u, lo k ≤ u → u ≤ hi k → Keeps p r (curveAt R (i + k) u) := by
    intro w
    induction w with
    | zero => intro k hk; have : k = j := by omega
              subst this; exact h0
    | succ w ih =>
      intro k hk
      obtain ⟨h1, h2⟩ := hr.joint k (by omega)
      have hs := hr.each (k + 1) (by omega)
      have hs' := hr.each k (by omega)
      refine seg k (by omega) ⟨1, by rw [← h1]; exact hs'.lt.le, by rw [h1], fun h => absurd (hpos h).2 (lt_irrefl 1), ?_⟩
      have := ih (k + 1) (by omega) 0 (by rw [h2]) (by have := hs.lt; have := hs.zero; linarith)
      rw [← Nat.add_assoc, ← curveAt_join hn] at this
      exact this
  intro k hk
  rcases Nat.le_total j k with h | h
  · exact up k h hk
  · exact down (j - k) k (by omega)

theorem run_clear_loop (hp : ∀ s ∈ p.segs, IsLine s.1 ∨ ProperArc s.1 s.2) (he : 0 < eps) (ht : 0 < tol) (hD : tol ≤ |d|) (hT : SelfTests p R d eps tol C)
    {i m : Nat} {lo hi : Nat → ℝ} (hr : LoopRun R C i m lo hi)
    (hk : ∀ j ≤ m, ∀ t, lo j ≤ t → t ≤ hi j → Keeps p |d| (curveAt R (i + j) t)) {s : ViewData ℝ} {vs : List (Vertex ℝ)}
    (hs : s.toPline R = .ok ⟨vs, false⟩) (hlen : vs.length = m + 2)
    (hpart : ∀ j x y, (pathSegs vs)[j]? = some (x, y) →
      PartSeg (vtx R (i + j)) (vtx R (i + j + 1)) eps (lo j) (hi j) x y) :
    SliceClear p R d eps tol s := by
  have hn : 0 < R.verts.length := by have := (hr.each 0 (Nat.zero_le _)).range; omega
  have hseg : ∀ j x y, vs[j]? = some x → vs[j + 1]? = some y → j ≤ m ∧ FullSeg x y eps ∧
      ∀ t, segCurve x y t = curveAt R (i + j) (lo j + (hi j - lo j) * t) := by
    intro j x y hx hy
    have h := hpart j x y ((pathSegs_getElem vs j (x, y)).mpr ⟨hx, hy⟩)
    have := (List.getElem?_eq_some_iff.mp hy).1
    exact ⟨by omega, h.full, fun t => by rw [h.along, curveAt_vtx hn]⟩
  have hpt : ∀ j x y, vs[j]? = some x → vs[j + 1]? = some y → ∀ t, 0 ≤ t → t ≤ 1 → Keeps p |d| (segCurve x y t) := by
    intro j x y hx hy t t0 t1
    obtain ⟨hj, -, h⟩ := hseg j x y hx hy
    have hst := hr.each j hj
    rw [h]
    refine hk j hj _ ?_ ?_
    · nlinarith [hst.lt]
    · nlinarith [hst.lt]
  have hrd : ∀ j x y, vs[j]? = some x → vs[j + 1]? = some y →
      Readable p eps (segCurve x y 0) ∧ Readable p eps (segCurve x y (1 / 2)) ∧ Readable p eps (segCurve x y 1) := by
    intro j x y hx hy
    obtain ⟨hj, -, h⟩ := hseg j x y hx hy
    obtain ⟨r1, r2, r3⟩ := hT.readable _ _ _ (hr.each j hj)
    rw [curveAt_wrap hn] at r1 r2 r3
    rw [h, h, h]
    refine ⟨?_, ?_, ?_⟩
    · rw [show lo j + (hi j - lo j) * 0 = lo j by ring]; exact r1
    · rw [show lo j + (hi j - lo j) * (1 / 2) = (lo j + hi j) / 2 by ring]; exact r2
    · rw [show lo j + (hi j - lo j) * 1 = hi j by ring]; exact r3
  refine ⟨vs, ⟨hs, by intro h; rw [h] at hlen; simp at hlen⟩, ?_, ?_⟩
  · intro v hv
    obtain ⟨k, hk', rfl⟩ := List.getElem_of_mem hv
    by_cases h : k + 1 < vs.length
    · have := hpt k _ _ (List.getElem?_eq_getElem hk') (List.getElem?_eq_getElem h) 0 le_rfl zero_le_one
      have hr1 := (hrd k _ _ (List.getElem?_eq_getElem hk') (List.getElem?_eq_getElem h)).1
      rw [(segCurve_ends _ _).1] at this hr1
      exact keeps_clear_segs hp he ht hD hr1 this
    · have h2 : k - 1 + 1 = k := by omega
      have hk1 : k - 1 < vs.length := by omega
      have := hpt (k - 1) _ vs[k] (List.getElem?_eq_getElem hk1) (by rw [h2]; exact List.getElem?_eq_getElem hk') 1 zero_le_one le_rfl
      have hr1 := (hrd (k - 1) _ vs[k] (List.getElem?_eq_getElem hk1) (by rw [h2]; exact List.getElem?_eq_getElem hk')).2.2
      rw [(segCurve_ends _ _).2] at this hr1
      exact keeps_clear_segs hp he ht hD hr1 this
  · intro j x y hx hy
    obtain ⟨hj, hfull, h⟩ := hseg j x y hx hy
    have hst := hr.each j hj
    constructor
    · refine hT.clear _ _ _ x y hst (fun t t0 t1 => ?_) hfull (fun t => ?_)
      · rw [curveAt_wrap hn]; exact hk j hj t t0 t1
      · rw [curveAt_wrap hn, h]
    · intro _
      rw [(C30_midpoint x y (hfull.proper he)).1]
      exact keeps_clear_segs hp he ht hD (hrd j x y hx hy).2.1 (hpt j x y hx hy _ (by norm_num) (by norm_num))

theorem piece_clear_loop (hp : ∀ s ∈ p.segs, IsLine s.1 ∨ ProperArc s.1 s.2) (he : 0 < eps) (ht : 0 < tol) (hD : tol ≤ |d|) (hf : FullLoop R eps)
    (hI : LoopInside R eps gap C) (hC : SelfChanges p R |d| C) (hT : SelfTests p R d eps tol C) (hS : RunLoop C CS f)
    {a b : Cut} (hab : (a, b) ∈ pathSegs (CS ++ [again R f])) (hne : a ≠ b)
    {s : ViewData ℝ} {vs : List (Vertex ℝ)} (hs : s.toPline R = .ok ⟨vs, false⟩) (hal : Along R eps a b vs) :
    SliceClear p R d eps tol s ↔ PieceFar p R |d| a b := by
  have hn : 0 < R.verts.length := by have := hf.two; omega
  have hr := loop_run he hf hI hS hab hne
  obtain ⟨-, ha, hb, -, -⟩ := loop_between he hf hI hS hab hne
  have hai := hI.range a ha
  constructor
  · rintro ⟨vs', ⟨h1, -⟩, -, h3⟩
    have : vs' = vs := by have := h1.symm.trans hs; simpa using this
    subst this
    have hl := hal.count
    have hx := List.getElem?_eq_getElem (show 0 < vs'.length by omega)
    have hy := List.getElem?_eq_getElem (show 0 + 1 < vs'.length by omega)
    have hm := (h3 0 _ _ hx hy).2 (Or.inl rfl)
    have hpt := hal.part 0 _ _ ((pathSegs_getElem vs' 0 _).mpr ⟨hx, hy⟩)
    rw [(C30_midpoint _ _ (hpt.full.proper he)).1, hpt.along, ← curveAt_vtx hn, Nat.add_zero] at hm
    have hst := hr.each 0 (Nat.zero_le _)
    rw [Nat.add_zero, Nat.mod_eq_of_lt hai] at hst
    have hlo : loOf a 0 = a.2 := by simp [loOf]
    have hmid : loOf a 0 + (hiOf a b 0 - loOf a 0) * (1 / 2) = (loOf a 0 + hiOf a b 0) / 2 := by ring
    rw [hmid] at hm
    have hk := clear_keeps_segs hp he ht.le hD (hT.readable _ _ _ hst).2.1 (hT.middle a.1 _ _ hst (by rw [hlo]; exact ha)) hm
    have hlt := hst.lt
    refine keep_run_loop hC hI hr (j := 0) (Nat.zero_le _) (t := (loOf a 0 + hiOf a b 0) / 2) (by linarith) (by linarith) ?_ ?_
    · rw [Nat.add_zero, Nat.mod_eq_of_lt hai]
      exact hst.inside _ (by linarith) (by linarith)
    · exact hk
  · intro hk
    exact run_clear_loop hp he ht hD hT hr hk hs hal.count hal.part

end
end Cavc
