import Verif.Spec.Same
import Verif.Props.Boolean

/-! # C71: when a boolean operation takes its inputs for the same curve -/

namespace Cavc
open Scalar Pline
variable {T : Type} [Scalar T]

theorem closesUp_iff {eps : T} {g : List (OverlapIntr T)} {a z : OverlapIntr T} (ha : g.head? = some a) (hz : g.getLast? = some z) :
    (2 ≤ g.length ∧ z.point2.fuzzyEqEps a.point1 eps = true) ↔ ClosesUp eps g := by
  constructor
  · rintro ⟨hl, hf⟩
    match g, hl with
    | b :: c :: t, _ =>
      have e1 : b = a := by simpa using ha
      have e2 : (c :: t).getLast (by simp) = z := by
        have : (c :: t).getLast? = some z := by simpa [List.getLast?_cons_cons] using hz
        rw [List.getLast?_eq_some_getLast (by simp)] at this
        simpa using this
      refine ⟨a, (c :: t).dropLast, z, ?_, hf⟩
      rw [← e1, ← e2, List.dropLast_append_getLast]
  · rintro ⟨a', m, z', rfl, hf⟩
    have e1 : a' = a := by simpa using ha
    have e2 : z' = z := by
      rw [← List.cons_append, List.getLast?_append] at hz
      simpa using hz
    subst e1 e2
    exact ⟨by simp, hf⟩

/-- one joined slice that is a loop, in terms of the runs -/
theorem one_loop {p1 p2 : Pline T} {eps : T} {gs : List (List (OverlapIntr T))} {slices result : List (OverlapSlice T)}
    (hs : List.Forall₂ (fun g s => ∃ a z, IsSliceOf p1 p2 eps g s a z) gs slices) (hj : JoinedAround p2 eps slices result) :
    (∃ s, result = [s] ∧ s.isLoop = true) ↔ OneLoop p2 eps gs := by
  rcases hs with - | ⟨⟨a, z, h⟩, hs⟩
  · have hr : result = [] := by
      rcases hj with ⟨f, m, l, h, -⟩ | ⟨h, -⟩
      · cases h
      · exact h
    constructor
    · rintro ⟨s, h, -⟩
      rw [hr] at h
      cases h
    · rintro (⟨g, h, -⟩ | ⟨g, h, a, z, v, e, -⟩)
      · cases h
      · cases e
  rename_i g s gs slices
  rcases hs with - | ⟨⟨a', z', h'⟩, hs⟩
  · have hr : result = [s] := by
      rcases hj with ⟨f, m, l, h, -⟩ | ⟨h, -⟩
      · have := congrArg List.length h
        simp at this
      · exact h
    constructor
    · rintro ⟨s', e, hl⟩
      rw [hr] at e
      cases e
      exact Or.inl ⟨g, rfl, (closesUp_iff h.first h.final).mp (h.loop.mp hl)⟩
    · rintro (⟨g', e, hc⟩ | ⟨g', k, a', z', v, e, -⟩)
      · cases e
        exact ⟨s, hr, h.loop.mpr ((closesUp_iff h.first h.final).mpr hc)⟩
      · cases e
  rename_i k t gs slices
  rcases hs with - | ⟨-, hs⟩
  · have hsp : ∀ {f m l}, [s, t] = f :: (m ++ [l]) → f = s ∧ m = [] ∧ l = t := by
      intro f m l e
      cases m with
      | nil => cases e; exact ⟨rfl, rfl, rfl⟩
      | cons x m =>
        have := congrArg List.length e
        simp at this
    have hone : OneLoop p2 eps [g, k] ↔ s.isLoop = true ∧ t.viewData.endPoint.fuzzyEqEps s.viewData.updatedStart.pos eps = true := by
      rw [h'.endPoint]
      constructor
      · rintro (⟨g', e, hc⟩ | ⟨g', k', a2, z2, v, e, hc, e1, e2, hv, hf⟩)
        · cases e
        · cases e
          have hl := h.loop.mpr ((closesUp_iff h.first h.final).mpr hc)
          rw [h.first] at e1
          rw [h'.final] at e2
          cases e1
          cases e2
          have := (h.wholeEnds hl).1
          rw [hv] at this
          cases this
          exact ⟨hl, hf⟩
      · rintro ⟨hl, hf⟩
        exact Or.inr ⟨g, k, a, z', _, rfl, (closesUp_iff h.first h.final).mp (h.loop.mp hl), h.first, h'.final, (h.wholeEnds hl).1, hf⟩
    rw [hone]
    rcases hj with ⟨f, m, l, e, hf, j, hr, -, -, j3, -⟩ | ⟨hr, hno⟩
    · obtain ⟨rfl, rfl, rfl⟩ := hsp e
      constructor
      · rintro ⟨x, hx, hl⟩
        rw [hr] at hx
        cases hx
        exact ⟨j3 ▸ hl, hf⟩
      · rintro ⟨hl, -⟩
        exact ⟨j, hr, j3.trans hl⟩
    · constructor
      · rintro ⟨x, hx, -⟩
        rw [hr] at hx
        cases hx
      · rintro ⟨-, hf⟩
        rw [hno s [] t rfl] at hf
        cases hf
  rename_i f3 gs ss x
  have hlen : 2 ≤ result.length := by
    rcases hj with ⟨f, m, l, e, hf, j, hr, -⟩ | ⟨hr, -⟩
    · have := congrArg List.length e
      simp at this
      rw [hr]
      simp
      omega
    · rw [hr]
      simp
  constructor
  · rintro ⟨x, hx, -⟩
    rw [hx] at hlen
    simp at hlen
  · rintro (⟨g', e, -⟩ | ⟨g', k', a2, z2, v, e, -⟩)
    · cases e
    · cases e

theorem sameAnswer_iff {p2 : Pline T} {op : BooleanOp} : SameAnswer p2 op (wholeOverlap p2 op) := by
  cases op <;> exact ⟨rfl, rfl, rfl⟩

/-- A boolean operation takes its inputs for the same curve, and answers with the second input or with nothing, exactly if
the overlaps found, in order along the second polyline, form one run without a gap that closes up.  What is missing: that
the inputs then have the same region, which is false (`C71_lobe_witness`). -/
theorem C71_overlapping_partial (env : Env T) (henv : env.Lawful) (hc : TotalCmp T) (p1 p2 : Pline T) (op : BooleanOp)
    (o : Option (Index T)) (eps : T) (hidx : (o.getD (p1.approxIndex env)).Serves p1) (h1 : p1.BooleanInput) (h2 : p2.BooleanInput) :
    ∃ found sorted gs, findIntersects env p1 p2 o eps = .ok found ∧
      sorted.Perm found.overlapping ∧ sorted.Pairwise (OverlapIntr.Before p2) ∧ IsRuns eps sorted gs ∧
      (OneLoop p2 eps gs → ∃ r, polylineBoolean env p1 p2 op o eps = .ok r ∧ SameAnswer p2 op r) ∧
      (¬ OneLoop p2 eps gs → ∀ r, polylineBoolean env p1 p2 op o eps = .ok r → r.info ≠ .overlapping) := by
  obtain ⟨r, b, a0, b0, hr, hb, -, -, -, -, -, -, h⟩ := boolean_cases env henv hc p1 p2 op o eps hidx h1 h2
  obtain ⟨q1, q2, q3⟩ := find_overlaps_range env p1 p2 o eps hidx r hr
  obtain ⟨sorted, gs, slices, result, e, hp, hsort, hruns, hs, hj⟩ := C49_join env henv hc r.overlapping p1 p2 eps q1
  refine ⟨r, sorted, gs, hr, hp, hsort, hruns, ?_⟩
  have hov : b.overlappingSlices = result := by
    unfold processForBoolean at hb
    rw [find_some] at hb
    simp only [bind, Except.bind, hr, e] at hb
    cases hb
    rfl
  have hco : b.completelyOverlapping = true ↔ OneLoop p2 eps gs := by
    rw [← one_loop hs hj, ← hov]
    unfold BoolProc.completelyOverlapping
    constructor
    · intro hx
      split at hx
      · rename_i s hs
        exact ⟨s, hs, hx⟩
      · cases hx
    · rintro ⟨s, hs, hl⟩
      rw [hs]
      exact hl
  constructor
  · intro hg
    have := hco.mpr hg
    rcases h with ⟨-, h⟩ | ⟨h, -⟩ | ⟨h, -⟩
    · exact ⟨_, h, sameAnswer_iff⟩
    · rw [this] at h; cases h
    · rw [this] at h; cases h
  · intro hg q hq hinfo
    have hno : b.completelyOverlapping ≠ true := fun hx => hg (hco.mp hx)
    rw [hq] at h
    rcases h with ⟨h, -⟩ | ⟨-, -, h⟩ | ⟨-, -, h⟩
    · exact hno h
    · cases h
      rw [apart_info] at hinfo
      split at hinfo
      · cases hinfo
      · split at hinfo <;> cases hinfo
    · rcases h with ⟨h, -⟩ | ⟨r', rss, h, hi, -⟩
      · cases h
      · cases h
        rw [hi] at hinfo
        cases hinfo

/-- Two polylines that touch themselves at the origin and have one lobe in common, the triangle with corners (0, 0), (4, 0)
and (4, 3).  The other lobe of the first is a triangle with the point (-3, -1), the other lobe of the second a triangle with the
point (-3, 3).  They are taken for the same curve: the union is without (-3, -1) and the difference is empty. -/
theorem C71_lobe_witness :
    let p1 : Pline Rat := ⟨[⟨0, 0, 0⟩, ⟨4, 0, 0⟩, ⟨4, 3, 0⟩, ⟨0, 0, 0⟩, ⟨-4, 0, 0⟩, ⟨-4, -3, 0⟩], true⟩
    let p2 : Pline Rat := ⟨[⟨0, 0, 0⟩, ⟨4, 0, 0⟩, ⟨4, 3, 0⟩, ⟨0, 0, 0⟩, ⟨-3, 4, 0⟩, ⟨-4, 3, 0⟩], true⟩
    p1.windingNumber ⟨-3, -1⟩ ≠ 0 ∧ p2.windingNumber ⟨-3, -1⟩ = 0 ∧ p2.windingNumber ⟨-3, 3⟩ ≠ 0 ∧ p1.windingNumber ⟨-3, 3⟩ = 0 ∧
    (polylineBoolean Env.plain p1 p2 .or none (1 / 100000)).map (fun r => (r.info, r.posPlines.map (·.pline), r.negPlines.map (·.pline))) =
      .ok (.overlapping, [p2], []) ∧
    (polylineBoolean Env.plain p1 p2 .and none (1 / 100000)).map (fun r => (r.info, r.posPlines.map (·.pline), r.negPlines.map (·.pline))) =
      .ok (.overlapping, [p2], []) ∧
    (polylineBoolean Env.plain p1 p2 .not none (1 / 100000)).map (fun r => (r.info, r.posPlines.map (·.pline), r.negPlines.map (·.pline))) =
      .ok (.overlapping, [], []) :=
  ⟨by decide +kernel, by decide +kernel, by decide +kernel, by decide +kernel, by decide +kernel, by decide +kernel, by decide +kernel⟩

/-! ## The hypotheses are met

The same square, once starting elsewhere with an additional vertex and in the opposite direction: one run that closes up. -/

example :
    let p1 : Pline Rat := ⟨[⟨0, 0, 0⟩, ⟨4, 0, 0⟩, ⟨4, 4, 0⟩, ⟨0, 4, 0⟩], true⟩
    let p2 : Pline Rat := ⟨[⟨4, 4, 0⟩, ⟨4, 1, 0⟩, ⟨4, 0, 0⟩, ⟨0, 0, 0⟩, ⟨0, 4, 0⟩], true⟩
    let l : List (OverlapIntr Rat) := [⟨1, 0, ⟨4, 4⟩, ⟨4, 1⟩⟩, ⟨1, 1, ⟨4, 1⟩, ⟨4, 0⟩⟩, ⟨0, 2, ⟨4, 0⟩, ⟨0, 0⟩⟩, ⟨3, 3, ⟨0, 0⟩, ⟨0, 4⟩⟩, ⟨2, 4, ⟨0, 4⟩, ⟨4, 4⟩⟩]
    (Env.plain (T := Rat)).Lawful ∧ TotalCmp Rat ∧ ((none : Option (Index Rat)).getD (p1.approxIndex Env.plain)).Serves p1 ∧
    p1.BooleanInput ∧ p2.BooleanInput ∧ (findIntersects Env.plain p1 p2 none (1 / 100000)).map (fun r => r.overlapping.length) = .ok 5 ∧
    IsRuns (1 / 100000) l [l] ∧ OneLoop p2 (1 / 100000) [l] ∧
    (polylineBoolean Env.plain p1 p2 .or none (1 / 100000)).map (fun r => (r.info, r.posPlines.map (·.pline), r.negPlines.map (·.pline))) =
      .ok (.overlapping, [p2], []) :=
  ⟨Env.plain_lawful, TotalCmp.rat, C37_own_index _ Env.plain_lawful _, by unfold Pline.BooleanInput; decide, by unfold Pline.BooleanInput; decide,
    by decide +kernel, ⟨rfl, by simp, by simp [OverlapIntr.Meets]; decide +kernel, by simp⟩,
    Or.inl ⟨_, rfl, ⟨1, 0, ⟨4, 4⟩, ⟨4, 1⟩⟩, [⟨1, 1, ⟨4, 1⟩, ⟨4, 0⟩⟩, ⟨0, 2, ⟨4, 0⟩, ⟨0, 0⟩⟩, ⟨3, 3, ⟨0, 0⟩, ⟨0, 4⟩⟩],
      ⟨2, 4, ⟨0, 4⟩, ⟨4, 4⟩⟩, rfl, by decide +kernel⟩, by decide +kernel⟩

/-- Two polylines that touch themselves, with a lobe and a part of an edge elsewhere in common: the run around the lobe closes
up, but it is not the only one, and they are not taken for the same curve. -/
example :
    let p1 : Pline Rat := ⟨[⟨0, 0, 0⟩, ⟨4, 0, 0⟩, ⟨4, 3, 0⟩, ⟨0, 0, 0⟩, ⟨-4, 0, 0⟩, ⟨-4, -3, 0⟩], true⟩
    let p2 : Pline Rat := ⟨[⟨0, 0, 0⟩, ⟨4, 0, 0⟩, ⟨4, 3, 0⟩, ⟨0, 0, 0⟩, ⟨-1, 1, 0⟩, ⟨-1, 0, 0⟩, ⟨-3, 0, 0⟩, ⟨-3, 4, 0⟩], true⟩
    (findIntersects Env.plain p1 p2 none (1 / 100000)).map (fun r => r.overlapping) =
      .ok [⟨0, 0, ⟨0, 0⟩, ⟨4, 0⟩⟩, ⟨1, 1, ⟨4, 0⟩, ⟨4, 3⟩⟩, ⟨2, 2, ⟨4, 3⟩, ⟨0, 0⟩⟩, ⟨3, 5, ⟨-1, 0⟩, ⟨-3, 0⟩⟩] ∧
    (polylineBoolean Env.plain p1 p2 .and none (1 / 100000)).map (fun r => r.info) = .ok .intersected :=
  ⟨by decide +kernel, by decide +kernel⟩

end Cavc
