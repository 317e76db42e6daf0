import Verif.Lemmas.Overlap
import Verif.Props.FindIntr
import Verif.Spec.RatScalar
import Verif.Spec.PlainEnv
import Verif.Spec.RealScalar
import Mathlib.Algebra.Order.Ring.Unbundled.Rat

/-! # C49: joining overlapping intersects into slices -/

set_option linter.unusedSectionVars false
set_option linter.unusedVariables false

namespace Cavc
open Scalar Pline
variable {T : Type} [Scalar T]

/-- Joining never panics.  The overlaps are put in order along the second polyline and cut into the
longest gap free runs; every run gives one slice, from its first to its last overlap, and a last
slice that continues into the first slice is merged with it. -/
theorem C49_join (env : Env T) (henv : env.Lawful) (hc : TotalCmp T) (l : List (OverlapIntr T)) (p1 p2 : Pline T) (eps : T)
    (hl : ∀ o ∈ l, o.InRange p1 p2) :
    ∃ sorted gs slices result, sortAndJoin env l p1 p2 eps = .ok result ∧
      sorted.Perm l ∧ sorted.Pairwise (OverlapIntr.Before p2) ∧ IsRuns eps sorted gs ∧
      List.Forall₂ (fun g s => ∃ a z, IsSliceOf p1 p2 eps g s a z) gs slices ∧ JoinedAround p2 eps slices result := by
  obtain ⟨hperm, hsort⟩ := sorted_overlaps env henv hc p2 l
  unfold sortAndJoin
  generalize env.sortBy (overlapCmp p2) l = sorted at hperm hsort
  have hr : ∀ o ∈ sorted, o.InRange p1 p2 := fun o ho => hl o (hperm.mem_iff.mp ho)
  cases sorted with
  | nil =>
    refine ⟨[], [], [], [], rfl, hperm, hsort, ⟨rfl, by simp, by simp, by simp⟩, List.Forall₂.nil, Or.inr ⟨rfl, by simp⟩⟩
  | cons a rest =>
    obtain ⟨gs, ss, e, hg, hs, -⟩ := joinLoop_spec p1 p2 eps rest a [] hr (by simp)
    simp only [List.getLast?_nil, Option.getD_none] at e
    simp only [e, bind, Except.bind]
    refine ⟨a :: rest, gs, ss, ?_⟩
    have h0 : ∃ v, p2.verts[0]? = some v ∧ p2.at 0 = .ok v := by
      have := (hr a (by simp)).2
      have h0 : 0 < p2.verts.length := by omega
      exact ⟨_, List.getElem?_eq_getElem h0, at_lt h0⟩
    obtain ⟨v, hv, hat⟩ := h0
    match hss : ss with
    | [] =>
      refine ⟨[], rfl, hperm, hsort, hg, hs, Or.inr ⟨rfl, by simp⟩⟩
    | [s] =>
      refine ⟨[s], rfl, hperm, hsort, hg, hs, Or.inr ⟨rfl, ?_⟩⟩
      intro f m l h
      have := congrArg List.length h
      simp at this
    | first :: second :: more =>
      dsimp only
      have hlast : second :: more = (second :: more).dropLast ++ [(second :: more).getLast (by simp)] :=
        (List.dropLast_append_getLast _).symm
      split
      · rename_i hf
        simp only [hat]
        refine ⟨_, rfl, hperm, hsort, hg, hs, Or.inl ⟨first, (second :: more).dropLast, (second :: more).getLast (by simp),
          by rw [← hlast], hf, _, rfl, rfl, rfl, rfl, rfl, rfl, rfl, rfl, v, hv, rfl⟩⟩
      · rename_i hf
        refine ⟨_, rfl, hperm, hsort, hg, hs, Or.inr ⟨rfl, ?_⟩⟩
        intro f m l h
        injection h with h1 h2
        subst h1
        have hl : (second :: more).getLast (by simp) = l := by
          simp only [h2, List.getLast_append, List.getLast_singleton]
          simp
        rw [← hl]
        simpa using hf

/-- Facts about the ends of one run. -/
theorem slice_range {p1 p2 : Pline T} {eps : T} {g : List (OverlapIntr T)} {s : OverlapSlice T} {a z : OverlapIntr T}
    (h : IsSliceOf p1 p2 eps g s a z) (hg : ∀ o ∈ g, o.InRange p1 p2) (hb : g.Pairwise (OverlapIntr.Before p2)) (hd : g.Nodup) :
    s.InRange p1 p2 ∧ a ∈ g ∧ z ∈ g ∧ a.startIndex2 ≤ z.startIndex2 ∧ s.startIndexes = (a.startIndex1, a.startIndex2) ∧
      (s.isLoop = false → s.viewData.endIndexOffset = z.startIndex2 - a.startIndex2) ∧
      (s.isLoop = true → s.viewData.endIndexOffset + 1 = p2.verts.length ∧ a ≠ z ∧ z.point2.fuzzyEqEps a.point1 eps = true) := by
  have ha : a ∈ g := List.mem_of_head? h.first
  have hz : z ∈ g := List.mem_of_getLast? h.final
  have hra := hg a ha
  have hrz := hg z hz
  have hle : a.startIndex2 ≤ z.startIndex2 := by
    cases g with
    | nil => simp at ha
    | cons b t =>
      have : b = a := by simpa using h.first
      subst this
      rcases List.mem_cons.mp hz with rfl | hz
      · exact Nat.le_refl _
      · exact Before.le ((List.pairwise_cons.mp hb).1 z hz)
  refine ⟨?_, ha, hz, hle, h.startIndexes, ?_, ?_⟩
  · unfold OverlapSlice.InRange
    cases hl : s.isLoop with
    | true =>
      obtain ⟨h1, h2⟩ := h.whole hl
      rw [h1, h.startIndexes]
      exact ⟨hra.1, hra.2, hra.1, hra.2, by omega⟩
    | false =>
      obtain ⟨h1, h2, h3⟩ := h.part hl
      rw [h1, h.startIndexes]
      exact ⟨hra.1, hra.2, hrz.1, hrz.2, by omega⟩
  · intro hl
    obtain ⟨h1, h2, h3⟩ := h.part hl
    have := hra.2
    have hz2 := hrz.2
    by_cases hlt : a.startIndex2 + s.viewData.endIndexOffset < p2.verts.length
    · rw [Nat.mod_eq_of_lt hlt] at h3; omega
    · rw [Nat.mod_eq_sub_mod (by omega), Nat.mod_eq_of_lt (by omega)] at h3; omega
  · intro hl
    refine ⟨(h.whole hl).2, ?_, (h.loop.mp hl).2⟩
    have hlen := (h.loop.mp hl).1
    rintro rfl
    match g, hlen with
    | b :: c :: t, _ =>
      have e1 : b = a := by simpa using h.first
      have e2 : (c :: t).getLast? = some a := by simpa [List.getLast?_cons_cons] using h.final
      exact (List.nodup_cons.mp hd).1 (e1 ▸ List.mem_of_getLast? e2)

/-- As long as the overlaps do not lead back to a point passed before, all slices are views within
the second polyline. -/
theorem C49_range (env : Env T) (henv : env.Lawful) (hc : TotalCmp T) (l : List (OverlapIntr T)) (p1 p2 : Pline T) (eps : T)
    (hl : ∀ o ∈ l, o.InRange p1 p2) (hd : l.Nodup) (hn : NoEarlyReturn p2 eps l) :
    ∃ result, sortAndJoin env l p1 p2 eps = .ok result ∧ ∀ s ∈ result, s.InRange p1 p2 := by
  obtain ⟨sorted, gs, slices, result, e, hp, hsort, hruns, hs, hj⟩ := C49_join env henv hc l p1 p2 eps hl
  refine ⟨result, e, ?_⟩
  have hsub : ∀ g ∈ gs, g.Sublist sorted := by
    intro g hg
    rw [← hruns.flatten]
    exact List.sublist_flatten_of_mem hg
  have hall : ∀ g ∈ gs, (∀ o ∈ g, o.InRange p1 p2) ∧ g.Pairwise (OverlapIntr.Before p2) ∧ g.Nodup := by
    intro g hg
    have := hsub g hg
    exact ⟨fun o ho => hl o (hp.mem_iff.mp (this.subset ho)), hsort.sublist this, (hp.nodup_iff.mpr hd).sublist this⟩
  have hone : ∀ s ∈ slices, s.InRange p1 p2 := by
    intro s hs'
    obtain ⟨g, hg, a, z, h⟩ : ∃ g ∈ gs, ∃ a z, IsSliceOf p1 p2 eps g s a z := by
      clear hj hall hsub hruns
      induction hs with
      | nil => simp at hs'
      | cons h _ ih =>
        rcases List.mem_cons.mp hs' with rfl | hs'
        · exact ⟨_, by simp, h⟩
        · obtain ⟨g, hg, h⟩ := ih hs'
          exact ⟨g, by simp [hg], h⟩
    obtain ⟨h1, h2, h3⟩ := hall g hg
    exact (slice_range h h1 h2 h3).1
  rcases hj with ⟨f, m, lst, es, hmeet, j, er, j1, j2, j3, j4, j5, j6, j7, v, hv, j8⟩ | ⟨er, -⟩
  · subst er
    intro s hs'
    rcases List.mem_cons.mp hs' with rfl | hs'
    · -- the merged slice
      subst es
      obtain ⟨gf, gs', hf, hrest, rfl⟩ := List.forall₂_cons_right_iff.mp hs
      obtain ⟨gm, gl, hm, hlst, rfl⟩ : ∃ gm gl, List.Forall₂ (fun g s => ∃ a z, IsSliceOf p1 p2 eps g s a z) gm m ∧
          (∃ a z, IsSliceOf p1 p2 eps gl lst a z) ∧ gs' = gm ++ [gl] := by
        have h1 := List.forall₂_take_append gs' m [lst] hrest
        have h2 := List.forall₂_drop_append gs' m [lst] hrest
        obtain ⟨gl, g0, h3, h4, h5⟩ := List.forall₂_cons_right_iff.mp h2
        rw [List.forall₂_nil_right_iff] at h4
        subst h4
        exact ⟨_, gl, h1, h3, by rw [← h5, List.take_append_drop]⟩
      obtain ⟨a, z, hf⟩ := hf
      obtain ⟨a', z', hlst⟩ := hlst
      obtain ⟨f1, f2, f3⟩ := hall gf (by simp)
      obtain ⟨l1, l2, l3⟩ := hall gl (by simp)
      obtain ⟨rf, maf, mzf, lef, sf, of, lf⟩ := slice_range hf f1 f2 f3
      obtain ⟨rl, mal, mzl, lel, sl, ol, ll⟩ := slice_range hlst l1 l2 l3
      have hcross : ∀ x ∈ gf, ∀ y ∈ gl, x.startIndex2 ≤ y.startIndex2 := by
        intro x hx y hy
        have := hruns.flatten
        rw [← this, List.flatten_cons, List.pairwise_append] at hsort
        exact Before.le (hsort.2.2 x hx y (by simp [hy]))
      have c1 := hcross z mzf a' mal
      have c2 := hcross a maf a' mal
      have hz' := (l1 z' mzl).2
      have hz := (f1 z mzf).2
      have mem : ∀ g ∈ gf :: (gm ++ [gl]), ∀ x ∈ g, x ∈ l := fun g hg x hx => hp.mem_iff.mp ((hsub g hg).subset hx)
      have hoff : s.viewData.endIndexOffset ≤ p2.verts.length := by
        rw [j8]
        have hx : (if lst.viewData.endPoint.fuzzyEqEps v.pos eps = true then 1 else 0) ≤ 1 := by split <;> omega
        have hfr := rf.2.2.2.2
        cases hlf : f.isLoop with
        | false =>
          have o1 := of hlf
          cases hll : lst.isLoop with
          | false => have o2 := ol hll; omega
          | true =>
            obtain ⟨o2, hne, hfz⟩ := ll hll
            obtain ⟨h0, h1⟩ := hn a' (mem gl (by simp) _ mal) z' (mem gl (by simp) _ mzl) hne lel hfz
            omega
        | true =>
          obtain ⟨o1, hne, hfz⟩ := lf hlf
          obtain ⟨h0, h1⟩ := hn a (mem gf (by simp) _ maf) z (mem gf (by simp) _ mzf) hne lef hfz
          cases hll : lst.isLoop with
          | false => have o2 := ol hll; omega
          | true =>
            obtain ⟨o2, hne', hfz'⟩ := ll hll
            obtain ⟨h0', h1'⟩ := hn a' (mem gl (by simp) _ mal) z' (mem gl (by simp) _ mzl) hne' lel hfz'
            omega
      refine ⟨?_, ?_, ?_, ?_, hoff⟩
      · rw [j1]; exact rl.1
      · rw [j1]; exact rl.2.1
      · rw [j2]; exact rf.2.2.1
      · rw [j2]; exact rf.2.2.2.1
    · exact hone s (by rw [es]; simp [hs'])
  · subst er
    exact hone

theorem find_overlaps_range (env : Env T) (p1 p2 : Pline T) (o : Option (Index T)) (eps : T)
    (hidx : (o.getD (p1.approxIndex env)).Serves p1) (r : IntrCollection T) (hr : findIntersects env p1 p2 o eps = .ok r) :
    (∀ q ∈ r.overlapping, q.InRange p1 p2) ∧ r.overlapping.Nodup ∧
    (∀ b ∈ r.basic, b.startIndex1 < p1.verts.length ∧ b.startIndex2 < p2.verts.length) := by
  refine ⟨?_, List.Nodup.of_map _ (C37_no_repetition env p1 p2 o eps hidx r hr).1, ?_⟩
  · obtain ⟨dup1, dup2, e, -, -⟩ := findIntersects_eq env p1 p2 o eps _ hidx rfl
    rw [e] at hr
    cases hr
    intro q hq
    rw [List.mem_flatMap] at hq
    obtain ⟨ij, -, hq⟩ := hq
    obtain ⟨e1, e2, s1, s2, h1, h2, -⟩ := mem_overOf hq
    exact ⟨e1 ▸ (seg_at p1 h1).2.2.2.2, e2 ▸ (seg_at p2 h2).2.2.2.2⟩
  · obtain ⟨dup1, dup2, e, -, -⟩ := findIntersects_eq env p1 p2 o eps _ hidx rfl
    rw [e] at hr
    cases hr
    intro b hb
    have hb := (List.mem_filter.mp hb).1
    rw [List.mem_flatMap] at hb
    obtain ⟨ij, -, hb⟩ := hb
    obtain ⟨e1, e2, s1, s2, h1, h2, -⟩ := mem_basicOf hb
    exact ⟨e1 ▸ (seg_at p1 h1).2.2.2.2, e2 ▸ (seg_at p2 h2).2.2.2.2⟩

/-- Joining the overlaps that `find_intersects` reports never panics, whatever the polylines. -/
theorem C49_of_find (env : Env T) (henv : env.Lawful) (hc : TotalCmp T) (p1 p2 : Pline T) (o : Option (Index T)) (eps : T)
    (hidx : (o.getD (p1.approxIndex env)).Serves p1) :
    ∃ r result, findIntersects env p1 p2 o eps = .ok r ∧ sortAndJoin env r.overlapping p1 p2 eps = .ok result ∧
      (NoEarlyReturn p2 eps r.overlapping → ∀ s ∈ result, s.InRange p1 p2) := by
  obtain ⟨r, hr⟩ : ∃ r, findIntersects env p1 p2 o eps = .ok r := by
    obtain ⟨dup1, dup2, e, -, -⟩ := findIntersects_eq env p1 p2 o eps _ hidx rfl
    exact ⟨_, e⟩
  obtain ⟨h1, h2, -⟩ := find_overlaps_range env p1 p2 o eps hidx r hr
  obtain ⟨-, -, -, result, e, -⟩ := C49_join env henv hc r.overlapping p1 p2 eps h1
  refine ⟨r, result, hr, e, ?_⟩
  intro hn
  obtain ⟨result', e', h⟩ := C49_range env henv hc r.overlapping p1 p2 eps h1 h2 hn
  rw [e] at e'
  cases e'
  exact h

theorem linear_cmp {α : Type} [LinearOrder α] :
    (∀ a b : α, (if a < b then Ordering.lt else if a = b then .eq else .gt)
      = (if b < a then Ordering.lt else if b = a then .eq else .gt).swap) ∧
    ∀ a b : α, (if a < b then Ordering.lt else if a = b then .eq else .gt) ≠ .gt ↔ a ≤ b := by
  refine ⟨fun a b => ?_, fun x y => ?_⟩
  · rcases lt_trichotomy a b with h | h | h
    · rw [if_pos h, if_neg (not_lt.mpr h.le), if_neg h.ne']; rfl
    · subst h; simp
    · rw [if_neg (not_lt.mpr h.le), if_neg h.ne', if_pos h]; rfl
  · rcases lt_trichotomy x y with h | h | h
    · rw [if_pos h]; simp [h.le]
    · subst h; simp
    · rw [if_neg (not_lt.mpr h.le), if_neg h.ne']; simp [h]

theorem TotalCmp.real : TotalCmp ℝ := by
  have key : ∀ a b : ℝ, Scalar.totalCmp a b = if a < b then Ordering.lt else if a = b then .eq else .gt := by
    intro a b
    simp only [Scalar.totalCmp]
  refine ⟨fun a b => ?_, fun a b c => ?_⟩
  · rw [key, key, linear_cmp.1 a b]
  · rw [key, key, key, linear_cmp.2, linear_cmp.2, linear_cmp.2]
    exact le_trans

theorem TotalCmp.rat : TotalCmp Rat := by
  have key : ∀ a b : Rat, Scalar.totalCmp a b = if a < b then Ordering.lt else if a = b then .eq else .gt := by
    intro a b
    simp only [Scalar.totalCmp]
  refine ⟨fun a b => ?_, fun a b c => ?_⟩
  · rw [key, key, linear_cmp.1 a b]
  · rw [key, key, key, linear_cmp.2, linear_cmp.2, linear_cmp.2]
    exact le_trans

/-- Two runs, one of them with a corner; all hypotheses of the theorems hold. -/
example :
    let p1 : Pline Rat := ⟨[⟨0, 0, 0⟩, ⟨4, 0, 0⟩, ⟨4, 2, 0⟩, ⟨0, 2, 0⟩], true⟩
    let p2 : Pline Rat := ⟨[⟨1, 0, 0⟩, ⟨4, 0, 0⟩, ⟨4, 1, 0⟩, ⟨3, 1, 0⟩, ⟨3, 2, 0⟩, ⟨1, 2, 0⟩], true⟩
    let l : List (OverlapIntr Rat) := [⟨0, 0, ⟨1, 0⟩, ⟨4, 0⟩⟩, ⟨1, 1, ⟨4, 0⟩, ⟨4, 1⟩⟩, ⟨2, 4, ⟨3, 2⟩, ⟨1, 2⟩⟩]
    (Env.plain (T := Rat)).Lawful ∧ TotalCmp Rat ∧ findIntersects Env.plain p1 p2 none (1 / 100000) = .ok ⟨[], l⟩ ∧
    (∀ o ∈ l, o.InRange p1 p2) ∧ l.Nodup ∧ NoEarlyReturn p2 (1 / 100000) l ∧
    sortAndJoin Env.plain l p1 p2 (1 / 100000) = .ok
      [⟨(0, 0), (1, 1), ⟨0, 1, ⟨1, 0, 0⟩, 0, ⟨4, 1⟩, false⟩, false, false⟩,
       ⟨(2, 4), (2, 4), ⟨4, 0, ⟨3, 2, 0⟩, 0, ⟨1, 2⟩, false⟩, false, false⟩] :=
  ⟨Env.plain_lawful, TotalCmp.rat, by decide +kernel, by unfold OverlapIntr.InRange; decide +kernel, by decide +kernel,
    by unfold NoEarlyReturn; decide +kernel, by decide +kernel⟩

/-- Without the last hypothesis of `C49_range` it fails: two closed polylines that touch themselves
at the origin, the merged slice is said to pass 11 vertexes after vertex 5 of a polyline of 8. -/
theorem C49_early_return_witness :
    let p1 : Pline Rat := ⟨[⟨0, 0, 0⟩, ⟨2, 0, 0⟩, ⟨2, 1, 0⟩, ⟨3, 1, 0⟩, ⟨3, 4, 0⟩, ⟨0, 4, 0⟩, ⟨0, 0, 0⟩, ⟨-4, 0, 0⟩, ⟨0, -3, 0⟩], true⟩
    let p2 : Pline Rat := ⟨[⟨0, 0, 0⟩, ⟨2, 0, 0⟩, ⟨2, 1, 0⟩, ⟨3, 1, 0⟩, ⟨3, 4, 0⟩, ⟨0, 0, 0⟩, ⟨-4, 0, 0⟩, ⟨0, -3, 0⟩], true⟩
    ∃ r s, findIntersects Env.plain p1 p2 none (1 / 100000) = .ok r ∧ sortAndJoin Env.plain r.overlapping p1 p2 (1 / 100000) = .ok [s] ∧
      p2.verts.length = 8 ∧ s.startIndexes.2 = 5 ∧ s.viewData.endIndexOffset = 11 ∧ s.isLoop = false :=
  ⟨⟨[], [⟨0, 0, ⟨0, 0⟩, ⟨2, 0⟩⟩, ⟨1, 1, ⟨2, 0⟩, ⟨2, 1⟩⟩, ⟨2, 2, ⟨2, 1⟩, ⟨3, 1⟩⟩, ⟨3, 3, ⟨3, 1⟩, ⟨3, 4⟩⟩,
      ⟨6, 5, ⟨0, 0⟩, ⟨-4, 0⟩⟩, ⟨7, 6, ⟨-4, 0⟩, ⟨0, -3⟩⟩, ⟨8, 7, ⟨0, -3⟩, ⟨0, 0⟩⟩]⟩,
    ⟨(6, 5), (3, 3), ⟨0, 11, ⟨0, 0, 0⟩, 0, ⟨3, 4⟩, false⟩, false, false⟩,
    by decide +kernel, by decide +kernel, rfl, rfl, rfl, rfl⟩

end Cavc
