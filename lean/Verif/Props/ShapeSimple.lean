import Verif.Props.ShapeSingle
import Verif.Lemmas.ShapeSimple

/-! # C75: the polylines of the parallel offset of a shape touch neither themselves nor each other -/

set_option linter.unusedVariables false

namespace Cavc
open Pline RealScalar

theorem pairwise_numbers {α : Type*} {l : List α} {R : α → α → Prop} (hR : ∀ a b, R a b → R b a) (h : l.Pairwise R) (i j : Nat) (a b : α) (hi : l[i]? = some a) (hj : l[j]? = some b)
    (hne : i ≠ j) : R a b := by
  obtain ⟨i1, rfl⟩ := List.getElem?_eq_some_iff.mp hi
  obtain ⟨j1, rfl⟩ := List.getElem?_eq_some_iff.mp hj
  rcases lt_or_gt_of_ne hne with h' | h'
  · exact List.pairwise_iff_getElem.mp h i j i1 j1 h'
  · exact hR _ _ (List.pairwise_iff_getElem.mp h j i j1 i1 h')

/-- the offset loops are sorted by the sign of the area -/
theorem loops_sorted {env : Env ℝ} {s : Shape ℝ} {d : ℝ} {o : ShapeOffsetOptions ℝ} {ccw cw : List (OffsetLoop ℝ)} (hl : ShapeLoops env s d o ccw cw) :
    (∀ l ∈ ccw, Scalar.lt l.ip.pline.area 0 = false) ∧ ∀ l ∈ cw, Scalar.lt l.ip.pline.area 0 = true := by
  obtain ⟨rss, -, h1, h2⟩ := hl.offsets
  constructor
  · intro l hlm
    have : (l.parent, l.ip.pline) ∈ ccw.map fun l => (l.parent, l.ip.pline) := List.mem_map.mpr ⟨l, hlm, rfl⟩
    rw [h1] at this
    obtain ⟨x, -, hx⟩ := List.mem_flatMap.mp this
    obtain ⟨r, hr, e⟩ := List.mem_map.mp hx
    have e2 : r = l.ip.pline := congrArg Prod.snd e
    subst e2
    have := (List.mem_filter.mp hr).2
    rw [Bool.and_eq_true] at this
    simpa using this.2
  · intro l hlm
    have : (l.parent, l.ip.pline) ∈ cw.map fun l => (l.parent, l.ip.pline) := List.mem_map.mpr ⟨l, hlm, rfl⟩
    rw [h2] at this
    obtain ⟨x, -, hx⟩ := List.mem_flatMap.mp this
    obtain ⟨r, hr, e⟩ := List.mem_map.mp hx
    have e2 : r = l.ip.pline := congrArg Prod.snd e
    subst e2
    have := (List.mem_filter.mp hr).2
    rw [Bool.and_eq_true] at this
    exact this.2

/-- **C75** Under the conditions of C72_shape_curve, none of the polylines of the parallel offset of a shape touches itself, and no two of them have a common point, however often the single
offsets cross each other. -/
theorem C75_shape_simple (env : Env ℝ) (henv : env.Lawful) (s : Shape ℝ) (hs : ∀ ip ∈ s.loops, ip.index.Serves ip.pline) (d : ℝ)
    (o : ShapeOffsetOptions ℝ) (he : 0 < o.posEqualEps) (ht : 0 < o.offsetDistEps) (hD : o.offsetDistEps ≤ |d|)
    (hin : ∀ ip ∈ s.loops, Loop ip.pline) (hsim : ∀ ip ∈ s.loops, SimpleLoop ip.pline)
    (hdis : ∀ (i j : Nat) (ip jp : IndexedPline ℝ), s.loops[i]? = some ip → s.loops[j]? = some jp → i ≠ j → ∀ X, OnPline ip.pline X → ¬ OnPline jp.pline X)
    (a : ℤ) (htwo : ∀ X, (∀ ip ∈ s.loops, ¬ OnPline ip.pline X) → s.windingNumber X = a ∨ s.windingNumber X = a + 1)
    (σ : Nat → ℤ) (hσ : ∀ (j : Nat) (ip : IndexedPline ℝ), s.loops[j]? = some ip → TurnsLike ip.pline (σ j))
    (ccw cw : List (OffsetLoop ℝ)) (hl : ShapeLoops env s d o ccw cw) (hf : ∀ l ∈ ccw ++ cw, FullLoop l.ip.pline o.posEqualEps)
    (hal : ∀ (j : Nat) (ip : IndexedPline ℝ), s.loops[j]? = some ip → Alongside ip.pline d (σ j) (loopsOf (ccw ++ cw) j))
    (hls : ∀ l ∈ ccw ++ cw, SimpleLoop l.ip.pline)
    (gap : ℝ) (C : Nat → List Cut) (hC : ShapeCuts (ccw ++ cw) o.posEqualEps gap C) (hF : ShapeFinds (ccw ++ cw) o.posEqualEps)
    (hX : ShapeCross (ccw ++ cw) C) (hT : ShapeTests s.loops (ccw ++ cw) |d| o.posEqualEps o.offsetDistEps C)
    (hg : o.posEqualEps ≤ gap) (hj0 : 0 ≤ o.sliceJoinEps) (hj : 2 * o.sliceJoinEps ≤ gap) :
    ∃ s', s.parallelOffset env d o = .ok s' ∧ (∀ ip ∈ s'.loops, Loop ip.pline ∧ SimpleLoop ip.pline) ∧
      (∀ (i j : Nat) (ip jp : IndexedPline ℝ), s'.loops[i]? = some ip → s'.loops[j]? = some jp → i ≠ j → ∀ X, OnPline ip.pline X → ¬ OnPline jp.pline X) ∧
      (∀ ip ∈ s'.ccw, ip.pline.orientation = .counterClockwise) ∧ ∀ ip ∈ s'.cw, ip.pline.orientation = .clockwise := by
  have hd : d ≠ 0 := by
    rintro rfl
    rw [abs_zero] at hD
    linarith
  have hB : BesideAll s.loops (ccw ++ cw) d o.posEqualEps gap C σ a := ⟨he, hd, hin, hsim, hdis, fun X hX => by rw [← shape_sum]; exact htwo X hX, hσ, hal, parent_range hl, hf, hls, hC, hX⟩
  obtain ⟨ccw', cw', hl', -, hok⟩ := C51_shape_offset env henv s hs d o
  obtain ⟨rfl, rfl⟩ := shapeLoops_unique hl' hl
  obtain ⟨dss, rs, hP, -, hok⟩ := hok fun l hlm => (hf l hlm).two
  have hserve : ∀ l ∈ ccw' ++ cw', l.ip.index.Serves l.ip.pline := by
    intro l hlm
    rw [hl.own l hlm]
    exact approxIndex_serves env henv _
  obtain ⟨hsound, hpts, hparts, hpass⟩ := shape_result env he ht hD (fun ip hip => (hin ip hip).proper) hserve hf hC hF hB.changes hT hg hj0 hj hP
  obtain ⟨s', hs', -, h1, h2⟩ := hok fun r hr => (hsound r hr).2.1
  have hperm : (s'.loops.map IndexedPline.pline).Perm (wholeLoops (ccw' ++ cw') dss ++ rs) := by
    unfold Shape.loops
    rw [List.map_append, h1, h2, wholeLoops_append]
    have hrs := List.filter_append_perm (fun r : Pline ℝ => r.closed && !Scalar.lt r.area 0) rs
    refine List.Perm.trans ?_ (hrs.append_left _)
    rw [List.append_assoc, List.append_assoc]
    refine List.Perm.append_left _ ?_
    rw [← List.append_assoc, ← List.append_assoc]
    exact List.Perm.append_right _ List.perm_append_comm
  have hRS : ∀ r ∈ wholeLoops (ccw' ++ cw') dss ++ rs, Loop r := by
    intro r hr
    rcases List.mem_append.mp hr with hr | hr
    · obtain ⟨i, l, ss, h1, -, rfl⟩ := mem_wholeLoops.mp hr
      exact (hf l (List.mem_of_getElem? h1)).loop he
    · exact sound_is_loop he (hsound r hr)
  have hkeep : ∀ r ∈ wholeLoops (ccw' ++ cw') dss ++ rs, ∀ X, OnPline r X → ∀ jp ∈ s.loops, Keeps jp.pline |d| X := by
    intro r hr X hX
    obtain ⟨l, hlm, hon, hko⟩ := (hpts X).mp (by
      rcases List.mem_append.mp hr with hr | hr
      · obtain ⟨i, l, ss, h1, h2, rfl⟩ := mem_wholeLoops.mp hr
        exact Or.inl ⟨i, l, ss, h1, h2, hX⟩
      · exact Or.inr ⟨r, hr, hX⟩)
    exact hB.all hlm hon hko
  obtain ⟨hsimp, hpw⟩ := hB.simple (fun r hr => ⟨(hRS r hr).closed, (hRS r hr).two⟩) hkeep hparts hpass
  have hpw' := (hperm.pairwise_iff (R := fun r r' : Pline ℝ => ∀ X, OnPline r X → ¬ OnPline r' X) (fun h X hX hX' => h X hX' hX)).mpr hpw
  rw [List.pairwise_map] at hpw'
  have hmem : ∀ ip ∈ s'.loops, ip.pline ∈ wholeLoops (ccw' ++ cw') dss ++ rs := fun ip hip => hperm.mem_iff.mp (List.mem_map.mpr ⟨ip, hip, rfl⟩)
  obtain ⟨so1, so2⟩ := loops_sorted hl
  refine ⟨s', hs', fun ip hip => ⟨hRS _ (hmem ip hip), hsimp _ (hmem ip hip)⟩,
    pairwise_numbers (R := fun ip jp : IndexedPline ℝ => ∀ X, OnPline ip.pline X → ¬ OnPline jp.pline X) (fun _ _ h X hX hX' => h X hX' hX) hpw', fun ip hip => ?_, fun ip hip => ?_⟩
  · have hc := (hRS _ (hmem ip (List.mem_append_left _ hip))).closed
    have hm : ip.pline ∈ s'.ccw.map IndexedPline.pline := List.mem_map.mpr ⟨ip, hip, rfl⟩
    have ha : Scalar.lt ip.pline.area 0 = false := by
      rw [h1] at hm
      rcases List.mem_append.mp hm with hm | hm
      · obtain ⟨i, l, ss, h3, -, h4⟩ := mem_wholeLoops.mp hm
        rw [← h4]
        exact so1 l (List.mem_of_getElem? h3)
      · have := (List.mem_filter.mp hm).2
        rw [Bool.and_eq_true] at this
        simpa using this.2
    unfold Pline.orientation
    rw [hc, ha]
    rfl
  · have hc := (hRS _ (hmem ip (List.mem_append_right _ hip))).closed
    have hm : ip.pline ∈ s'.cw.map IndexedPline.pline := List.mem_map.mpr ⟨ip, hip, rfl⟩
    have ha : Scalar.lt ip.pline.area 0 = true := by
      rw [h2] at hm
      rcases List.mem_append.mp hm with hm | hm
      · obtain ⟨i, l, ss, h3, -, h4⟩ := mem_wholeLoops.mp hm
        rw [← h4]
        exact so2 l (List.mem_of_getElem? h3)
      · have := (List.mem_filter.mp hm).2
        rw [hc] at this
        simpa using this
    unfold Pline.orientation
    rw [hc, ha]
    rfl

/-- **C75** The result of a shape offset is again a shape that can be offset: under the conditions of C72_shape_exact it meets all of the conditions that C72_shape_exact has on the shape itself, with the
same two values of the winding number; its polylines are closed, touch neither themselves nor each other, and are sorted by orientation. -/
theorem C75_shape_again (env : Env ℝ) (henv : env.Lawful) (s : Shape ℝ) (hs : ∀ ip ∈ s.loops, ip.index.Serves ip.pline) (d : ℝ)
    (o : ShapeOffsetOptions ℝ) (he : 0 < o.posEqualEps) (ht : 0 < o.offsetDistEps) (hD : o.offsetDistEps ≤ |d|)
    (hin : ∀ ip ∈ s.loops, Loop ip.pline) (hsim : ∀ ip ∈ s.loops, SimpleLoop ip.pline)
    (hdis : ∀ (i j : Nat) (ip jp : IndexedPline ℝ), s.loops[i]? = some ip → s.loops[j]? = some jp → i ≠ j → ∀ X, OnPline ip.pline X → ¬ OnPline jp.pline X)
    (a : ℤ) (htwo : ∀ X, (∀ ip ∈ s.loops, ¬ OnPline ip.pline X) → s.windingNumber X = a ∨ s.windingNumber X = a + 1)
    (hone : SinglesClear env s d o) (ccw cw : List (OffsetLoop ℝ)) (hl : ShapeLoops env s d o ccw cw)
    (gap : ℝ) (C : Nat → List Cut) (hC : ShapeCuts (ccw ++ cw) o.posEqualEps gap C) (hF : ShapeFinds (ccw ++ cw) o.posEqualEps)
    (hX : ShapeCross (ccw ++ cw) C) (hT : ShapeTests s.loops (ccw ++ cw) |d| o.posEqualEps o.offsetDistEps C)
    (hg : o.posEqualEps ≤ gap) (hj0 : 0 < o.sliceJoinEps) (hj : 2 * o.sliceJoinEps ≤ gap) :
    ∃ s', s.parallelOffset env d o = .ok s' ∧ (∀ ip ∈ s'.loops, ip.index.Serves ip.pline) ∧ (∀ ip ∈ s'.loops, Loop ip.pline) ∧ (∀ ip ∈ s'.loops, SimpleLoop ip.pline) ∧
      (∀ (i j : Nat) (ip jp : IndexedPline ℝ), s'.loops[i]? = some ip → s'.loops[j]? = some jp → i ≠ j → ∀ X, OnPline ip.pline X → ¬ OnPline jp.pline X) ∧
      (∀ X, (∀ ip ∈ s'.loops, ¬ OnPline ip.pline X) → s'.windingNumber X = a ∨ s'.windingNumber X = a + 1) ∧
      (∀ ip ∈ s'.ccw, ip.pline.orientation = .counterClockwise) ∧ ∀ ip ∈ s'.cw, ip.pline.orientation = .clockwise := by
  have hd : 0 < |d| := lt_of_lt_of_le ht hD
  obtain ⟨h1, h2, h3, h4⟩ := hone.loops henv hs he ht hD hj0 hin hsim hl
  obtain ⟨s', r1, r2, r3, r4, r5⟩ := C75_shape_simple env henv s hs d o he ht hD hin hsim hdis a htwo (turnAt s) h1 ccw cw hl h2 h4 h3 gap C hC hF hX hT hg hj0.le hj
  obtain ⟨s'', q1, q2, q3, q4, q5⟩ := C72_shape_exact env henv s hs d o he ht hD hin hsim hdis a htwo hone ccw cw hl gap C hC hF hX hT hg hj0 hj
  have e : s'' = s' := by rw [r1] at q1; exact (Except.ok.inj q1).symm
  subst e
  refine ⟨s'', r1, fun ip hip => (q2.ready ip hip).serves, fun ip hip => (r2 ip hip).1, fun ip hip => (r2 ip hip).2, r3, fun Y hY => ?_, r4, r5⟩
  by_cases hk : ∀ ip ∈ s.loops, Keeps ip.pline |d| Y
  · rw [(q5 Y hY).1 hk]
    refine htwo Y fun ip hip hon => ?_
    have := hk ip hip Y hon
    unfold edist at this
    simp at this
    rw [this] at hd
    simp at hd
  · push Not at hk
    rw [(q5 Y hY).2 hk]
    split_ifs
    · exact Or.inl rfl
    · exact Or.inr rfl

/-- what `Shape::from_plines` makes of closed polylines -/
theorem fromPlines_sorted (env : Env ℝ) (henv : env.Lawful) (plines : List (Pline ℝ)) (hl : ∀ p ∈ plines, Loop p) : ∃ s, Shape.fromPlines env plines = .ok s ∧
    (s.loops.map IndexedPline.pline).Perm plines ∧ (∀ ip ∈ s.loops, ip.index.Serves ip.pline) ∧
    (∀ ip ∈ s.ccw, ip.pline.orientation = .counterClockwise) ∧ ∀ ip ∈ s.cw, ip.pline.orientation = .clockwise := by
  obtain ⟨s, hs, hw, h1, h2⟩ := C45_from_plines env henv plines
  have e1 : s.ccw.map IndexedPline.pline = plines.filter fun p => !Scalar.lt p.area 0 := by
    rw [h1]
    refine List.filter_congr fun p hp => ?_
    simp [(hl p hp).closed, (hl p hp).two]
  have e2 : s.cw.map IndexedPline.pline = plines.filter fun p => !(!Scalar.lt p.area 0) := by
    rw [h2]
    refine List.filter_congr fun p hp => ?_
    simp [(hl p hp).closed, (hl p hp).two]
  refine ⟨s, hs, ?_, fun ip hip => (hw.ready ip hip).serves, fun ip hip => ?_, fun ip hip => ?_⟩
  · unfold Shape.loops
    rw [List.map_append, e1, e2]
    exact List.filter_append_perm _ _
  · have hm : ip.pline ∈ s.ccw.map IndexedPline.pline := List.mem_map.mpr ⟨ip, hip, rfl⟩
    rw [e1] at hm
    obtain ⟨h3, h4⟩ := List.mem_filter.mp hm
    unfold Pline.orientation
    rw [(hl _ h3).closed, (by simpa using h4 : Scalar.lt ip.pline.area 0 = false)]
    rfl
  · have hm : ip.pline ∈ s.cw.map IndexedPline.pline := List.mem_map.mpr ⟨ip, hip, rfl⟩
    rw [e2] at hm
    obtain ⟨h3, h4⟩ := List.mem_filter.mp hm
    unfold Pline.orientation
    rw [(hl _ h3).closed, (by simpa using h4 : Scalar.lt ip.pline.area 0 = true)]
    rfl

/-- **C72, C75** From polylines to the offset of their shape.  The polylines, in any order, are closed, of lines and arcs, touch neither themselves nor each other, and off them their winding numbers add up
to `a` or `a + 1`; the single offset of each is clear of the tolerances.  Then `Shape::from_plines` succeeds, and if the offset loops cross at angles, two at a time, and clear of the tolerances,
`Shape::parallel_offset` returns closed polylines that touch neither themselves nor each other, that consist of exactly the points at the distance `|d|` from the nearest of the given polylines
on the side of the offset, and that wind around exactly what the shape leaves of the inside or adds to it. -/
theorem C72_from_plines (env : Env ℝ) (henv : env.Lawful) (plines : List (Pline ℝ)) (d : ℝ) (o : ShapeOffsetOptions ℝ) (he : 0 < o.posEqualEps) (ht : 0 < o.offsetDistEps)
    (hD : o.offsetDistEps ≤ |d|) (hj0 : 0 < o.sliceJoinEps) (hin : ∀ p ∈ plines, Loop p) (hsim : ∀ p ∈ plines, SimpleLoop p)
    (hdis : plines.Pairwise fun p q => ∀ X, OnPline p X → ¬ OnPline q X)
    (a : ℤ) (htwo : ∀ X, (∀ p ∈ plines, ¬ OnPline p X) → (plines.map fun p => p.windingNumber X).sum = a ∨ (plines.map fun p => p.windingNumber X).sum = a + 1)
    (hone : ∀ p ∈ plines, ClearlyOffset p d o.posEqualEps o.sliceJoinEps o.offsetDistEps) :
    ∃ s, Shape.fromPlines env plines = .ok s ∧ ∀ (ccw cw : List (OffsetLoop ℝ)), ShapeLoops env s d o ccw cw →
      ∀ (gap : ℝ) (C : Nat → List Cut), ShapeCuts (ccw ++ cw) o.posEqualEps gap C → ShapeFinds (ccw ++ cw) o.posEqualEps → ShapeCross (ccw ++ cw) C →
      ShapeTests s.loops (ccw ++ cw) |d| o.posEqualEps o.offsetDistEps C → o.posEqualEps ≤ gap → 2 * o.sliceJoinEps ≤ gap →
      ∃ s', s.parallelOffset env d o = .ok s' ∧ (∀ ip ∈ s'.loops, Loop ip.pline ∧ SimpleLoop ip.pline) ∧
        (∀ (i j : Nat) (ip jp : IndexedPline ℝ), s'.loops[i]? = some ip → s'.loops[j]? = some jp → i ≠ j → ∀ X, OnPline ip.pline X → ¬ OnPline jp.pline X) ∧
        (∀ X, (∃ ip ∈ s'.loops, OnPline ip.pline X) ↔ (∀ p ∈ plines, Keeps p |d| X) ∧ (∃ p ∈ plines, ∃ F, OnPline p F ∧ edist X F = |d|) ∧
          (plines.map fun p => p.windingNumber X).sum = if 0 < d then a + 1 else a) ∧
        ∀ Y, (∀ ip ∈ s'.loops, ¬ OnPline ip.pline Y) →
          ((∀ p ∈ plines, Keeps p |d| Y) → s'.windingNumber Y = (plines.map fun p => p.windingNumber Y).sum) ∧
          ((∃ p ∈ plines, ¬ Keeps p |d| Y) → s'.windingNumber Y = if 0 < d then a else a + 1) := by
  obtain ⟨s, hs, hperm, hserve, hleft, hright⟩ := fromPlines_sorted env henv plines hin
  have all : ∀ {P : Pline ℝ → Prop}, (∀ ip ∈ s.loops, P ip.pline) ↔ ∀ p ∈ plines, P p := by
    intro P
    constructor
    · intro h p hp
      obtain ⟨ip, hip, rfl⟩ := List.mem_map.mp (hperm.mem_iff.mpr hp)
      exact h ip hip
    · exact fun h ip hip => h _ (hperm.mem_iff.mp (List.mem_map.mpr ⟨ip, hip, rfl⟩))
  have some : ∀ {P : Pline ℝ → Prop}, (∃ ip ∈ s.loops, P ip.pline) ↔ ∃ p ∈ plines, P p := by
    intro P
    constructor
    · rintro ⟨ip, hip, h⟩
      exact ⟨_, hperm.mem_iff.mp (List.mem_map.mpr ⟨ip, hip, rfl⟩), h⟩
    · rintro ⟨p, hp, h⟩
      obtain ⟨ip, hip, rfl⟩ := List.mem_map.mp (hperm.mem_iff.mpr hp)
      exact ⟨ip, hip, h⟩
  have hsum : ∀ X, s.windingNumber X = (plines.map fun p => p.windingNumber X).sum := by
    intro X
    rw [shape_sum]
    exact (hperm.map _).sum_eq
  have hpw := (hperm.pairwise_iff (R := fun r r' : Pline ℝ => ∀ X, OnPline r X → ¬ OnPline r' X) (fun h X hX hX' => h X hX' hX)).mpr hdis
  rw [List.pairwise_map] at hpw
  have hdis' := pairwise_numbers (R := fun ip jp : IndexedPline ℝ => ∀ X, OnPline ip.pline X → ¬ OnPline jp.pline X) (fun _ _ h X hX hX' => h X hX' hX) hpw
  have htwo' : ∀ X, (∀ ip ∈ s.loops, ¬ OnPline ip.pline X) → s.windingNumber X = a ∨ s.windingNumber X = a + 1 := by
    intro X hX
    rw [hsum]
    exact htwo X (all.mp hX)
  have hone' : SinglesClear env s d o := ⟨hleft, hright, all.mpr hone⟩
  refine ⟨s, hs, fun ccw cw hl gap C hC hF hX hT hg hj => ?_⟩
  obtain ⟨s', r1, -, r2, r3, r4, -⟩ := C75_shape_again env henv s hserve d o he ht hD (all.mpr hin) (all.mpr hsim) hdis' a htwo' hone' ccw cw hl gap C hC hF hX hT hg hj0 hj
  obtain ⟨s'', q1, -, -, q4, q5⟩ := C72_shape_exact env henv s hserve d o he ht hD (all.mpr hin) (all.mpr hsim) hdis' a htwo' hone' ccw cw hl gap C hC hF hX hT hg hj0 hj
  have e : s'' = s' := by rw [r1] at q1; exact (Except.ok.inj q1).symm
  subst e
  refine ⟨s'', r1, fun ip hip => ⟨r2 ip hip, r3 ip hip⟩, r4, fun X => ?_, fun Y hY => ?_⟩
  · rw [q4 X, hsum, all (P := fun p => Keeps p |d| X), some (P := fun p => ∃ F, OnPline p F ∧ edist X F = |d|)]
  · have := q5 Y hY
    rw [hsum, all (P := fun p => Keeps p |d| Y), some (P := fun p => ¬ Keeps p |d| Y)] at this
    exact this

/-- The hypotheses of C75_shape_again hold for island and bay: the polylines of their offset by -1 touch neither themselves nor each other, although the single offsets cross. -/
theorem islet_again (env : Env ℝ) (henv : env.Lawful) : ∃ s s', Shape.fromPlines env [box4, bay] = .ok s ∧ s.parallelOffset env (-1) isletOpts = .ok s' ∧
    (∀ ip ∈ s'.loops, SimpleLoop ip.pline) ∧
    ∀ (i j : Nat) (ip jp : IndexedPline ℝ), s'.loops[i]? = some ip → s'.loops[j]? = some jp → i ≠ j → ∀ X, OnPline ip.pline X → ¬ OnPline jp.pline X := by
  obtain ⟨s, a, b, hs, h⟩ := islet_exists env henv
  have hd : |(-1 : ℝ)| = 1 := by norm_num
  have hsum : ∀ X, s.windingNumber X = box4.windingNumber X + bay.windingNumber X := by
    intro X
    unfold Shape.windingNumber
    rw [h.loops]
    simp [h.island, h.bay]
  have hserve : ∀ ip ∈ s.loops, ip.index.Serves ip.pline := by
    rw [h.loops]
    intro ip hip
    rcases List.mem_pair.mp hip with rfl | rfl
    · rw [h.island]; exact h.serve1
    · rw [h.bay]; exact h.serve2
  have both : ∀ {P : Pline ℝ → Prop}, P box4 → P bay → ∀ ip ∈ s.loops, P ip.pline := by
    intro P h0 h1 ip hip
    rw [h.loops] at hip
    rcases List.mem_pair.mp hip with rfl | rfl
    · rw [h.island]; exact h0
    · rw [h.bay]; exact h1
  have hF : ShapeFinds ([isletOut env] ++ [isletIn env]) isletOpts.posEqualEps := by
    intro i l hl j m hm hij
    rcases islet_two hl with ⟨rfl, rfl⟩ | ⟨rfl, rfl⟩ <;> rcases islet_two hm with ⟨rfl, rfl⟩ | ⟨rfl, rfl⟩
    · exact absurd hij (lt_irrefl _)
    · exact islet_finds
    · exact absurd hij (by norm_num)
    · exact absurd hij (lt_irrefl _)
  have hdis : ∀ (i j : Nat) (ip jp : IndexedPline ℝ), s.loops[i]? = some ip → s.loops[j]? = some jp → i ≠ j → ∀ X, OnPline ip.pline X → ¬ OnPline jp.pline X := by
    intro i j ip jp hi hj hne X hX hX'
    rw [h.loops] at hi hj
    rcases i with _ | _ | i <;> rcases j with _ | _ | j <;> simp at hi hj hne
    · subst hi hj; rw [h.island] at hX; rw [h.bay] at hX'; exact islet_disjoint hX hX'
    · subst hi hj; rw [h.bay] at hX; rw [h.island] at hX'; exact islet_disjoint hX' hX
  have htwo : ∀ X, (∀ ip ∈ s.loops, ¬ OnPline ip.pline X) → s.windingNumber X = -1 ∨ s.windingNumber X = -1 + 1 := by
    intro X hX
    rw [hsum]
    rw [h.loops] at hX
    have e1 := hX a (by simp)
    have e2 := hX b (by simp)
    rw [h.island] at e1
    rw [h.bay] at e2
    exact islet_numbers e1 e2
  obtain ⟨s', h1, -, -, h2, h3, -⟩ := C75_shape_again env henv s hserve (-1) isletOpts (by norm_num [isletOpts]) (by norm_num [isletOpts]) (by norm_num [isletOpts])
    (both (straight_loop box4_straight) (straight_loop bay_straight)) (both box4_simple bay_simple) hdis (-1) htwo (islet_singles env henv h)
    _ _ (islet_loops env henv h) 1 isletCuts
    (islet_cuts env) hF (islet_cross env) (by rw [hd]; exact islet_tests env h) (by norm_num [isletOpts]) (by norm_num [isletOpts]) (by norm_num [isletOpts])
  exact ⟨s, s', hs, h1, h2, h3⟩

/-- The hypotheses of C72_from_plines hold for island and bay, given in the other order than `from_plines` sorts them. -/
theorem islet_plines (env : Env ℝ) (henv : env.Lawful) : ∃ s s', Shape.fromPlines env [bay, box4] = .ok s ∧ s.parallelOffset env (-1) isletOpts = .ok s' ∧
    (∀ ip ∈ s'.loops, SimpleLoop ip.pline) ∧
    ∀ X, (∃ ip ∈ s'.loops, OnPline ip.pline X) ↔ (Keeps bay 1 X ∧ Keeps box4 1 X) ∧ ((∃ F, OnPline bay F ∧ edist X F = 1) ∨ ∃ F, OnPline box4 F ∧ edist X F = 1) ∧
      bay.windingNumber X + box4.windingNumber X = -1 := by
  obtain ⟨s0, a, b, hs0, h⟩ := islet_exists env henv
  have o1 : turnOf box4.orientation = 1 := turn_orientation (straight_loop box4_straight) box4_simple box4_turns
  have o2 : turnOf bay.orientation = -1 := turn_orientation (straight_loop bay_straight) bay_simple bay_turns
  have hsame : Shape.fromPlines env [bay, box4] = .ok s0 := by
    have c1 : box4.orientation = .counterClockwise := by cases e : box4.orientation <;> rw [e] at o1 <;> simp [turnOf] at o1 ⊢
    have c2 : bay.orientation = .clockwise := by cases e : bay.orientation <;> rw [e] at o2 <;> simp [turnOf] at o2 ⊢
    rw [← hs0]
    have v1 : decide (box4.vertexCount > 1) = true := by rfl
    have v2 : decide (bay.vertexCount > 1) = true := by rfl
    unfold Shape.fromPlines
    simp only [List.filter_cons, List.filter_nil, v1, v2, c1, c2, if_true]
    rfl
  have hd : |(-1 : ℝ)| = 1 := by norm_num
  have both : ∀ {P : Pline ℝ → Prop}, P bay → P box4 → ∀ p ∈ [bay, box4], P p := by
    intro P h0 h1 p hp
    rcases List.mem_pair.mp hp with rfl | rfl
    · exact h0
    · exact h1
  have hF : ShapeFinds ([isletOut env] ++ [isletIn env]) isletOpts.posEqualEps := by
    intro i l hl j m hm hij
    rcases islet_two hl with ⟨rfl, rfl⟩ | ⟨rfl, rfl⟩ <;> rcases islet_two hm with ⟨rfl, rfl⟩ | ⟨rfl, rfl⟩
    · exact absurd hij (lt_irrefl _)
    · exact islet_finds
    · exact absurd hij (by norm_num)
    · exact absurd hij (lt_irrefl _)
  obtain ⟨s, hs, hall⟩ := C72_from_plines env henv [bay, box4] (-1) isletOpts (by norm_num [isletOpts]) (by norm_num [isletOpts]) (by norm_num [isletOpts]) (by norm_num [isletOpts])
    (both (straight_loop bay_straight) (straight_loop box4_straight)) (both bay_simple box4_simple)
    (by simp only [List.pairwise_cons, List.mem_singleton, forall_eq, List.not_mem_nil, false_implies, implies_true, List.Pairwise.nil, and_true]
        exact fun X h1 h2 => islet_disjoint h2 h1) (-1)
    (by intro X hX
        have := islet_numbers (hX box4 (by simp)) (hX bay (by simp))
        simp only [List.map_cons, List.map_nil, List.sum_cons, List.sum_nil, add_zero]
        omega)
    (both bay_clearly box4_clearly)
  have e : s = s0 := by rw [hsame] at hs; exact (Except.ok.inj hs).symm
  subst e
  obtain ⟨s', h1, h2, -, h3, -⟩ := hall _ _ (islet_loops env henv h) 1 isletCuts (islet_cuts env) hF (islet_cross env) (by rw [hd]; exact islet_tests env h) (by norm_num [isletOpts])
    (by norm_num [isletOpts])
  refine ⟨s, s', hs, h1, fun ip hip => (h2 ip hip).2, fun X => ?_⟩
  rw [h3 X, hd, if_neg (by norm_num)]
  simp only [List.mem_cons, List.not_mem_nil, or_false, forall_eq_or_imp, forall_eq, exists_eq_or_imp, exists_eq_left, List.map_cons, List.map_nil, List.sum_cons, List.sum_nil, add_zero]

end Cavc
