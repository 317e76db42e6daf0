import Verif.Spec.Measure
import Verif.Lemmas.AreaArcs
import Verif.Props.OffsetRegion
import Verif.Props.RegionExample
import Verif.Props.RegionArcs

/-! # C64: the area of a polyline is the area of the region it encloses -/

set_option linter.unusedVariables false

namespace Cavc
open MeasureTheory Pline Filter Topology

/-! ### helper lemmas -/

theorem trace_ae (ps : List (Pline ℝ)) : ∀ᵐ z : ℝ × ℝ, ∀ p ∈ ps, z ∉ trace p := by
  filter_upwards [ae_off (ps.flatMap Pline.segs)] with z hz p hp hon
  obtain ⟨s, hs, h⟩ := (trace_iff p z).mp hon
  exact hz s (List.mem_flatMap.mpr ⟨p, hp, hs⟩) h

theorem indicator_area {f : ℝ × ℝ → ℝ} (hf : Integrable f) {σ : ℝ} (hσ : σ ≠ 0) {S : Set (ℝ × ℝ)} (h : ∀ᵐ z, f z = S.indicator (fun _ => σ) z) :
    NullMeasurableSet S ∧ volume S ≠ ⊤ ∧ ∫ z, f z = σ * planeArea S := by
  have : NeZero σ := ⟨hσ⟩
  have hi : Integrable (S.indicator fun _ => σ) := hf.congr h
  have hn : NullMeasurableSet S := (aemeasurable_indicator_const_iff σ).mp hi.aemeasurable
  have hfin : volume S ≠ ⊤ := by
    have h1 : IntegrableOn (fun _ : ℝ × ℝ => σ) S := (hi.integrableOn (s := S)).congr (by
      filter_upwards [ae_restrict_mem₀ hn] with z hz
      rw [Set.indicator_of_mem hz])
    rcases (integrableOn_const_iff (by simp)).mp h1 with h | h
    · exact absurd (by simpa using h) hσ
    · exact h.ne
  refine ⟨hn, hfin, ?_⟩
  rw [integral_congr_ae h, integral_indicator₀ hn, setIntegral_const, smul_eq_mul, mul_comm]
  rfl

theorem sum_integrals {ps : List (Pline ℝ)} (h : ∀ p ∈ ps, Integrable (fun z : ℝ × ℝ => (p.windingNumber ⟨z.1, z.2⟩ : ℝ)) ∧
    ∫ z : ℝ × ℝ, (p.windingNumber ⟨z.1, z.2⟩ : ℝ) = p.area) :
    Integrable (fun z : ℝ × ℝ => (((ps.map fun p => p.windingNumber ⟨z.1, z.2⟩).sum : ℤ) : ℝ)) ∧
    ∫ z : ℝ × ℝ, (((ps.map fun p => p.windingNumber ⟨z.1, z.2⟩).sum : ℤ) : ℝ) = (ps.map Pline.area).sum := by
  have := sum_integral (fun (p : Pline ℝ) (z : ℝ × ℝ) => (p.windingNumber ⟨z.1, z.2⟩ : ℝ)) Pline.area ps h
  simpa only [Int.cast_list_sum, List.map_map, Function.comp_def] using this

/-! ### the theorems -/

/-- **C64** The area of a closed polyline of lines and of arcs of up to half a circle is the integral over the plane of its winding number. -/
theorem C64_area_winding (p : Pline ℝ) (h : Loop p) :
    Integrable (fun z : ℝ × ℝ => (p.windingNumber ⟨z.1, z.2⟩ : ℝ)) ∧ ∫ z : ℝ × ℝ, (p.windingNumber ⟨z.1, z.2⟩ : ℝ) = p.area := by
  have := segs_integral p.segs h.proper (segs_perm h)
  have e : ∀ z : ℝ × ℝ, (p.windingNumber ⟨z.1, z.2⟩ : ℝ) = (p.segs.map fun s => (segW z s : ℝ)).sum := by
    intro z
    have := wn_segs h z
    unfold wn at this
    rw [this, Int.cast_list_sum, List.map_map]
    rfl
  simp only [e]
  rw [area_eq, if_pos h.closed]
  exact this

/-- **C64** If it winds at most once around every point, the absolute value of its area is the area of the region it winds around. -/
theorem C64_area_region (p : Pline ℝ) (h : Loop p) (w : WindsOnce p) :
    volume (within p) ≠ ⊤ ∧ p.area = turnOf p.orientation * planeArea (within p) ∧ |p.area| = planeArea (within p) := by
  obtain ⟨hi, he⟩ := C64_area_winding p h
  have ht := turn_cases (turn_closed h.closed)
  have ht0 : (turnOf p.orientation : ℝ) ≠ 0 := by exact_mod_cast turn_closed h.closed
  obtain ⟨-, h1, h2⟩ := indicator_area hi ht0 (S := within p) (by
    filter_upwards [trace_ae [p]] with z hz
    by_cases hw : p.windingNumber ⟨z.1, z.2⟩ = 0
    · rw [Set.indicator_of_notMem (by simpa [within] using hw), hw, Int.cast_zero]
    · rw [Set.indicator_of_mem (by simpa [within] using hw)]
      rcases w ⟨z.1, z.2⟩ (hz p (by simp)) with h | h
      · exact absurd h hw
      · rw [h])
  rw [he] at h2
  refine ⟨h1, h2, ?_⟩
  have h0 : 0 ≤ planeArea (within p) := measureReal_nonneg
  rw [h2, abs_mul, abs_of_nonneg h0]
  rcases ht with e | e <;> rw [e] <;> simp

/-- **C64** The sign of the area, which `orientation` reports, is the direction in which the polyline turns: if the winding numbers off the polyline are 0
and `σ`, then `σ` is 1 for a counter clockwise polyline and -1 for a clockwise one. -/
theorem C64_orientation (p : Pline ℝ) (h : Loop p) (σ : ℤ) (hσ : σ = 1 ∨ σ = -1)
    (hv : ∀ X, ¬ OnPline p X → p.windingNumber X = 0 ∨ p.windingNumber X = σ) (hx : ∃ X, ¬ OnPline p X ∧ p.windingNumber X = σ) :
    turnOf p.orientation = σ ∧ WindsOnce p ∧ 0 < planeArea (within p) := by
  obtain ⟨hi, he⟩ := C64_area_winding p h
  have hσ0 : (σ : ℝ) ≠ 0 := by rcases hσ with rfl | rfl <;> norm_num
  obtain ⟨-, h1, h2⟩ := indicator_area hi hσ0 (S := within p) (by
    filter_upwards [trace_ae [p]] with z hz
    by_cases hw : p.windingNumber ⟨z.1, z.2⟩ = 0
    · rw [Set.indicator_of_notMem (by simpa [within] using hw), hw, Int.cast_zero]
    · rw [Set.indicator_of_mem (by simpa [within] using hw)]
      rcases hv ⟨z.1, z.2⟩ (hz p (by simp)) with h | h
      · exact absurd h hw
      · rw [h])
  rw [he] at h2
  have hpos : 0 < planeArea (within p) := by
    obtain ⟨X, hX, hw⟩ := hx
    obtain ⟨δ, hδ, hb⟩ := wn_locally h (z := (X.x, X.y)) hX
    have hsub : Metric.ball (X.x, X.y) δ ⊆ within p := by
      intro w hw'
      have := (hb w hw').2
      show wn p w ≠ 0
      rw [this]
      show p.windingNumber X ≠ 0
      rw [hw]
      exact_mod_cast hσ0
    have hb0 : 0 < volume (Metric.ball ((X.x, X.y) : ℝ × ℝ) δ) := Metric.measure_ball_pos _ _ hδ
    exact ENNReal.toReal_pos (lt_of_lt_of_le hb0 (measure_mono hsub)).ne' h1
  have ht : turnOf p.orientation = σ := by
    unfold Pline.orientation
    rw [h.closed]
    simp only [Bool.not_true, Bool.false_eq_true, if_false]
    have hlt : Scalar.lt p.area 0 = true ↔ p.area < 0 := RealScalar.lt_iff _ _
    rcases hσ with rfl | rfl
    · rw [if_neg (by rw [hlt, h2]; push_cast; linarith)]
      rfl
    · rw [if_pos (by rw [hlt, h2]; push_cast; linarith)]
      rfl
  refine ⟨ht, ?_, hpos⟩
  intro X hX
  rw [ht]
  exact hv X hX

/-- **C64** A closed polyline of lines and arcs that does not touch itself has an area other than 0, winds around every point inside once, in the direction
that `orientation` reports, and the absolute value of its area is the area of the region inside. -/
theorem C64_simple (p : Pline ℝ) (hl : Loop p) (hs : SimpleLoop p) :
    WindsOnce p ∧ (∃ X, ¬ OnPline p X ∧ p.windingNumber X = turnOf p.orientation) ∧ p.area ≠ 0 ∧ |p.area| = planeArea (within p) ∧
      p.area = turnOf p.orientation * planeArea (within p) := by
  obtain ⟨σ, hσ, hv, -, hx⟩ := C62_simple_winding p hl hs
  obtain ⟨h1, h2, h3⟩ := C64_orientation p hl σ hσ hv hx
  obtain ⟨-, h4, h5⟩ := C64_area_region p hl h2
  refine ⟨h2, by rw [h1]; exact hx, ?_, h5, h4⟩
  intro h0
  rw [h0, abs_zero] at h5
  linarith

/-- **C64** The areas of the results of a boolean operation on two closed polylines of lines and arcs that wind at most once around every point and cross
each other cleanly.  With `σ` the direction of the second polyline, the areas add up to: for AND `σ` times the area of the common region; for OR `σ` times the
area of the united region; for NOT minus `σ` times the area of the region of the first without the second; for XOR `σ` times the area of the region of the second without
the first, less that of the first without the second.  For OR this says that the absolute areas of the positive results less those of the negative
results (holes) are the area of the united region. -/
theorem C64_boolean_area (env : Env ℝ) (henv : env.Lawful) (p1 p2 : Pline ℝ) (eps : ℝ) (he : 0 < eps) (f1 : FullLoop p1 eps) (f2 : FullLoop p2 eps)
    (w1 : WindsOnce p1) (w2 : WindsOnce p2) (E : List (Cut × Cut)) (hc : CleanCrossing p1 p2 eps E) (hne : E ≠ [])
    (hp : FindsPairs p1 p2 eps) (aabbIndex1 : Option (Index ℝ)) (hidx : (aabbIndex1.getD (p1.approxIndex env)).Serves p1) (op : BooleanOp) :
    ∃ r, polylineBoolean env p1 p2 op aabbIndex1 eps = .ok r ∧
      ((r.posPlines ++ r.negPlines).map fun x => x.pline.area).sum = turnOf p2.orientation *
        (match op with
        | .and => planeArea (within p1 ∩ within p2)
        | .or => planeArea (within p1 ∪ within p2)
        | .not => -planeArea (within p1 \ within p2)
        | .xor => planeArea (within p2 \ within p1) - planeArea (within p1 \ within p2)) ∧
      (op = .or → (r.posPlines.map fun x => |x.pline.area|).sum - (r.negPlines.map fun x => |x.pline.area|).sum =
        planeArea (within p1 ∪ within p2)) := by
  obtain ⟨found, E', hfi, hE, hfound⟩ := finds_crossing env he f1 f2 hc hp (o := some (aabbIndex1.getD (p1.approxIndex env))) hidx
  obtain ⟨r, hr, -, hl, hsum, hor, -⟩ := region_core env henv p1 p2 eps he f1 f2 w1 w2 E' (hc.perm hE) (fun h => hne (by rw [h] at hE; exact hE.symm.eq_nil))
    aabbIndex1 found hfi hfound op
  have l1 := f1.loop he
  have l2 := f2.loop he
  have t1 := turn_cases (turn_closed l1.closed)
  have t2 := turn_cases (turn_closed l2.closed)
  set σ1 := turnOf p1.orientation with hσ1
  set σ2 := turnOf p2.orientation with hσ2
  have n1 : (σ1 : ℝ) ≠ 0 := by rcases t1 with e | e <;> rw [e] <;> norm_num
  have n2 : (σ2 : ℝ) ≠ 0 := by rcases t2 with e | e <;> rw [e] <;> norm_num
  obtain ⟨hi, hint⟩ := sum_integrals (ps := (r.posPlines ++ r.negPlines).map fun x => x.pline) (by
    intro q hq
    obtain ⟨x, hx, rfl⟩ := List.mem_map.mp hq
    exact C64_area_winding _ (hl x hx).1)
  rw [List.map_map] at hint
  have hint : ∫ z : ℝ × ℝ, ((((((r.posPlines ++ r.negPlines).map fun x => x.pline).map fun p => p.windingNumber ⟨z.1, z.2⟩).sum : ℤ)) : ℝ) =
      ((r.posPlines ++ r.negPlines).map fun x => x.pline.area).sum := hint
  -- the values of the sum
  have hval : ∀ᵐ z : ℝ × ℝ, (((((r.posPlines ++ r.negPlines).map fun x => x.pline).map fun p => p.windingNumber ⟨z.1, z.2⟩).sum : ℤ) : ℝ) =
      (match op with
        | .and => (within p1 ∩ within p2).indicator (fun _ => (σ2 : ℝ)) z
        | .or => (within p1 ∪ within p2).indicator (fun _ => (σ2 : ℝ)) z
        | .not => (within p1 \ within p2).indicator (fun _ => (-σ2 : ℝ)) z
        | .xor => (within p2 \ within p1).indicator (fun _ => (σ2 : ℝ)) z + (within p1 \ within p2).indicator (fun _ => (-σ2 : ℝ)) z) := by
    filter_upwards [trace_ae [p1, p2]] with z hz
    have z1 : ¬ OnPline p1 ⟨z.1, z.2⟩ := hz p1 (by simp)
    have z2 : ¬ OnPline p2 ⟨z.1, z.2⟩ := hz p2 (by simp)
    have h1 := w1 _ z1
    have h2 := w2 _ z2
    rw [List.map_map]
    have := hsum _ z1 z2
    simp only [Function.comp_def]
    rw [this]
    have m1 : z ∈ within p1 ↔ p1.windingNumber ⟨z.1, z.2⟩ ≠ 0 := Iff.rfl
    have m2 : z ∈ within p2 ↔ p2.windingNumber ⟨z.1, z.2⟩ ≠ 0 := Iff.rfl
    rw [← hσ1] at h1
    rw [← hσ2] at h2
    classical
    cases op <;> simp only [Set.indicator_apply, Set.mem_inter_iff, Set.mem_union, Set.mem_diff, m1, m2] <;>
      generalize p1.windingNumber ⟨z.1, z.2⟩ = a at h1 ⊢ <;> generalize p2.windingNumber ⟨z.1, z.2⟩ = b at h2 ⊢ <;> clear_value σ1 σ2 <;>
      rcases t1 with rfl | rfl <;> rcases t2 with rfl | rfl <;> rcases h1 with rfl | rfl <;> rcases h2 with rfl | rfl <;>
      simp [BooleanOp.passes, passTotal, side]
  have key : ((r.posPlines ++ r.negPlines).map fun x => x.pline.area).sum = σ2 *
        (match op with
        | .and => planeArea (within p1 ∩ within p2)
        | .or => planeArea (within p1 ∪ within p2)
        | .not => -planeArea (within p1 \ within p2)
        | .xor => planeArea (within p2 \ within p1) - planeArea (within p1 \ within p2)) := by
    rw [← hint]
    cases op with
    | and => exact (indicator_area hi n2 hval).2.2
    | or => exact (indicator_area hi n2 hval).2.2
    | not =>
      rw [(indicator_area hi (neg_ne_zero.mpr n2) hval).2.2]
      ring
    | xor =>
      -- the two regions are measurable and have finite area
      have hm : ∀ {p : Pline ℝ}, Loop p → WindsOnce p → NullMeasurableSet (within p) ∧ volume (within p) ≠ ⊤ := by
        intro p l w
        have n : (turnOf p.orientation : ℝ) ≠ 0 := by exact_mod_cast turn_closed l.closed
        obtain ⟨a, b, -⟩ := indicator_area (C64_area_winding p l).1 n (S := within p) (by
          filter_upwards [trace_ae [p]] with z hz
          by_cases hw : p.windingNumber ⟨z.1, z.2⟩ = 0
          · rw [Set.indicator_of_notMem (by simpa [within] using hw), hw, Int.cast_zero]
          · rw [Set.indicator_of_mem (by simpa [within] using hw)]
            rcases w ⟨z.1, z.2⟩ (hz p (by simp)) with h | h
            · exact absurd h hw
            · rw [h])
        exact ⟨a, b⟩
      obtain ⟨a1, b1⟩ := hm l1 w1
      obtain ⟨a2, b2⟩ := hm l2 w2
      have fin : ∀ {S U : Set (ℝ × ℝ)}, volume S ≠ ⊤ → volume (S \ U) ≠ ⊤ := fun h => ne_top_of_le_ne_top h (measure_mono Set.sdiff_subset)
      have int : ∀ {S : Set (ℝ × ℝ)} (c : ℝ), NullMeasurableSet S → volume S ≠ ⊤ → Integrable (S.indicator fun _ => c) := fun c hn hf =>
        (integrableOn_const hf).integrable_indicator₀ hn
      rw [integral_congr_ae hval, integral_add (int _ (a2.diff a1) (fin b2)) (int _ (a1.diff a2) (fin b1)), integral_indicator₀ (a2.diff a1),
        integral_indicator₀ (a1.diff a2), setIntegral_const, setIntegral_const, smul_eq_mul, smul_eq_mul]
      unfold planeArea
      ring
  refine ⟨r, hr, key, ?_⟩
  rintro rfl
  obtain ⟨o1, o2⟩ := hor rfl
  have sgn : ∀ q : Pline ℝ, Loop q → |q.area| = turnOf q.orientation * q.area := by
    intro q hq
    have hlt : Scalar.lt q.area 0 = true ↔ q.area < 0 := RealScalar.lt_iff _ _
    unfold Pline.orientation
    rw [hq.closed]
    simp only [Bool.not_true, Bool.false_eq_true, if_false]
    by_cases h : q.area < 0
    · rw [if_pos (hlt.mpr h), abs_of_neg h]; simp [turnOf]
    · rw [if_neg (fun h' => h (hlt.mp h')), abs_of_nonneg (not_lt.mp h)]; simp [turnOf]
  have e1 : (r.posPlines.map fun x => |x.pline.area|).sum = σ2 * (r.posPlines.map fun x => x.pline.area).sum := by
    rw [← List.sum_map_mul_left]
    congr 1
    apply List.map_congr_left
    intro x hx
    rw [sgn _ (hl x (by simp [hx])).1, o1 x hx]
  have e2 : (r.negPlines.map fun x => |x.pline.area|).sum = -(σ2 * (r.negPlines.map fun x => x.pline.area).sum) := by
    rw [← neg_mul, ← List.sum_map_mul_left]
    congr 1
    apply List.map_congr_left
    intro x hx
    have lx := (hl x (by simp [hx])).1
    have hne' := o2 x hx
    have tx := turn_closed lx.closed
    have : turnOf x.pline.orientation = -σ2 := by
      rw [hσ2]
      have c2 := turn_closed l2.closed
      revert hne' tx c2
      cases x.pline.orientation <;> cases p2.orientation <;> simp [turnOf]
    rw [sgn _ lx, this]
    push_cast
    ring
  rw [List.map_append, List.sum_append] at key
  have hsq : (σ2 : ℝ) * σ2 = 1 := by rcases t2 with e | e <;> rw [e] <;> norm_num
  rw [e1, e2]
  linear_combination σ2 * key + planeArea (within p1 ∪ within p2) * hsq

/-- **C63** The same as `C63_offset_region`, in terms of the direction that `orientation` reports: an offset to the left of a counter clockwise polyline,
or to the right of a clockwise one, encloses the points inside that are at least the offset away; an offset to the other side encloses all points but those
outside that are at least the offset away. -/
theorem C63_offset_oriented (env : Env ℝ) (henv : env.Lawful) (p : Pline ℝ) (d : ℝ) (opts : OffsetOptions ℝ)
    (hidx : ∀ idx, opts.aabbIndex = some idx → idx.Serves p) (hself : opts.handleSelfIntersects = false)
    (hp : StraightLoop p) (hs : SimpleLoop p) (hd : d ≠ 0) (he : 0 < opts.posEqualEps) (hc : ∀ k, ClearTurn p d opts.posEqualEps k)
    (hf : FullLoop (rawLoop p d) opts.posEqualEps) (h0 : (sidePt p d 0 0).fuzzyEqEps (vtx (rawLoop p d) 1).pos opts.posEqualEps = false)
    (gap : ℝ) (E : List (Cut × Cut)) (hE : SelfCrossing (rawLoop p d) opts.posEqualEps gap E) (hF : FindsSelf (rawLoop p d) opts.posEqualEps)
    (ht : 0 < opts.offsetDistEps) (hD : opts.offsetDistEps ≤ |d|)
    (hT : ClearTests p (rawLoop p d) d opts.posEqualEps opts.offsetDistEps E)
    (hg : opts.posEqualEps ≤ gap) (hj0 : 0 < opts.sliceJoinEps) (hj : 2 * opts.sliceJoinEps ≤ gap) :
    ∃ rs, parallelOffset env p d opts = .ok rs ∧
      (0 < d * turnOf p.orientation → ∀ Y, (∀ r ∈ rs, ¬ OnPline r Y) →
        ((rs.map fun r => r.windingNumber Y).sum = turnOf p.orientation ∧ p.windingNumber Y = turnOf p.orientation ∧ Keeps p |d| Y) ∨
        ((rs.map fun r => r.windingNumber Y).sum = 0 ∧ ¬ (p.windingNumber Y = turnOf p.orientation ∧ Keeps p |d| Y))) ∧
      (d * turnOf p.orientation < 0 → ∀ Y, (∀ r ∈ rs, ¬ OnPline r Y) →
        ((rs.map fun r => r.windingNumber Y).sum = 0 ∧ p.windingNumber Y = 0 ∧ Keeps p |d| Y) ∨
        ((rs.map fun r => r.windingNumber Y).sum = turnOf p.orientation ∧ ¬ (p.windingNumber Y = 0 ∧ Keeps p |d| Y))) := by
  obtain ⟨rs, hrs, σ, hσ, hv, -, h1, h2⟩ := C63_offset_region env henv p d opts hidx hself hp hs hd he hc hf h0 gap E hE hF ht hD hT hg hj0 hj
  have hor : turnOf p.orientation = σ := by
    obtain ⟨σ', hσ', -, -, X, hX, hw⟩ := C62_simple_winding p (straight_loop hp) hs
    refine (C64_orientation p (straight_loop hp) σ hσ hv ⟨X, hX, ?_⟩).1
    rcases hv X hX with h | h
    · rw [hw] at h
      rcases hσ' with rfl | rfl <;> norm_num at h
    · exact h
  rw [hor]
  refine ⟨rs, hrs, fun hpos Y hY => ?_, fun hneg Y hY => ?_⟩
  · have := h1 hpos Y hY
    by_cases hk : p.windingNumber Y = σ ∧ Keeps p |d| Y
    · rw [if_pos hk] at this
      exact Or.inl ⟨this, hk⟩
    · rw [if_neg hk] at this
      exact Or.inr ⟨this, hk⟩
  · have := h2 hneg Y hY
    by_cases hk : p.windingNumber Y = 0 ∧ Keeps p |d| Y
    · rw [if_pos hk] at this
      exact Or.inl ⟨this, hk⟩
    · rw [if_neg hk] at this
      exact Or.inr ⟨this, hk⟩

/-- **C64** The areas of the results of an offset to the inside add up to the area of the region of the points inside that are at least the offset away; those
of an offset to the outside add up to the area of the region of all points but those outside that are at least the offset away.  (With the sign of
the direction of the polyline.) -/
theorem C64_offset_area (env : Env ℝ) (henv : env.Lawful) (p : Pline ℝ) (d : ℝ) (opts : OffsetOptions ℝ)
    (hidx : ∀ idx, opts.aabbIndex = some idx → idx.Serves p) (hself : opts.handleSelfIntersects = false)
    (hp : StraightLoop p) (hs : SimpleLoop p) (hd : d ≠ 0) (he : 0 < opts.posEqualEps) (hc : ∀ k, ClearTurn p d opts.posEqualEps k)
    (hf : FullLoop (rawLoop p d) opts.posEqualEps) (h0 : (sidePt p d 0 0).fuzzyEqEps (vtx (rawLoop p d) 1).pos opts.posEqualEps = false)
    (gap : ℝ) (E : List (Cut × Cut)) (hE : SelfCrossing (rawLoop p d) opts.posEqualEps gap E) (hF : FindsSelf (rawLoop p d) opts.posEqualEps)
    (ht : 0 < opts.offsetDistEps) (hD : opts.offsetDistEps ≤ |d|)
    (hT : ClearTests p (rawLoop p d) d opts.posEqualEps opts.offsetDistEps E)
    (hg : opts.posEqualEps ≤ gap) (hj0 : 0 < opts.sliceJoinEps) (hj : 2 * opts.sliceJoinEps ≤ gap) :
    ∃ rs, parallelOffset env p d opts = .ok rs ∧
      (0 < d * turnOf p.orientation →
        (rs.map Pline.area).sum = turnOf p.orientation * planeArea {z | p.windingNumber ⟨z.1, z.2⟩ ≠ 0 ∧ Keeps p |d| ⟨z.1, z.2⟩}) ∧
      (d * turnOf p.orientation < 0 →
        (rs.map Pline.area).sum = turnOf p.orientation * planeArea {z | ¬ (p.windingNumber ⟨z.1, z.2⟩ = 0 ∧ Keeps p |d| ⟨z.1, z.2⟩)}) := by
  obtain ⟨rs, hrs, h1, h2⟩ := C63_offset_oriented env henv p d opts hidx hself hp hs hd he hc hf h0 gap E hE hF ht hD hT hg hj0 hj
  obtain ⟨rs', hrs', hcl⟩ := C61_offset_closed env henv p d opts hidx hself hp hd he hc hf h0 gap E hE hF (one_sided p hp hs hd) ht hD hT hg hj0 hj
  rw [hrs] at hrs'
  injection hrs' with hrs'
  subst hrs'
  have hw := (C64_simple p (straight_loop hp) hs).1
  have n : (turnOf p.orientation : ℝ) ≠ 0 := by exact_mod_cast turn_closed hp.closed
  have hl : ∀ r ∈ rs, Loop r := by
    intro r hr
    obtain ⟨c1, c2, c3⟩ := hcl r hr
    refine ⟨c1, c2, fun s hs => ?_⟩
    rcases (c3 s hs).shape with h | ⟨h1, h2⟩
    · exact Or.inl h
    · exact Or.inr ⟨h1, h2, fuzzy_ne he (c3 s hs).apart⟩
  obtain ⟨hi, hint⟩ := sum_integrals (ps := rs) fun r hr => C64_area_winding r (hl r hr)
  refine ⟨rs, hrs, fun hpos => ?_, fun hneg => ?_⟩
  · rw [← hint]
    refine (indicator_area hi n ?_).2.2
    filter_upwards [trace_ae (p :: rs)] with z hz
    have hzp : ¬ OnPline p ⟨z.1, z.2⟩ := hz p (by simp)
    rcases h1 hpos ⟨z.1, z.2⟩ (fun r hr => hz r (by simp [hr])) with ⟨e, a, b⟩ | ⟨e, a⟩
    · rw [e, Set.indicator_of_mem]
      exact ⟨by rw [a]; exact_mod_cast n, b⟩
    · rw [e, Set.indicator_of_notMem, Int.cast_zero]
      rintro ⟨c, k⟩
      exact a ⟨(hw _ hzp).resolve_left c, k⟩
  · rw [← hint]
    refine (indicator_area hi n ?_).2.2
    filter_upwards [trace_ae rs] with z hz
    rcases h2 hneg ⟨z.1, z.2⟩ (fun r hr => hz r hr) with ⟨e, a, b⟩ | ⟨e, a⟩
    · rw [e, Set.indicator_of_notMem, Int.cast_zero]
      exact fun h => h ⟨a, b⟩
    · rw [e, Set.indicator_of_mem]
      exact a

/-- **C59** Two closed polylines of lines and arcs, neither of which touches itself, that cross each other clearly.  The boolean operations give the operation
on the two regions. -/
theorem C59_simple (env : Env ℝ) (henv : env.Lawful) (p1 p2 : Pline ℝ) (eps : ℝ) (he : 0 < eps) (s1 : SimpleLoop p1) (s2 : SimpleLoop p2)
    (f1 : FullLoop p1 eps) (f2 : FullLoop p2 eps) (E : List (Cut × Cut)) (hc : CleanCrossing p1 p2 eps E) (hne : E ≠ [])
    (hp : ∀ a ∈ p1.segs, ∀ b ∈ p2.segs, BoxesMeet a b eps → ClearPair a b eps) (op : BooleanOp) :
    ∃ r, polylineBoolean env p1 p2 op none eps = .ok r ∧ r.info = .intersected ∧
      (∀ x ∈ r.posPlines ++ r.negPlines, x.pline.closed = true ∧ 2 ≤ x.pline.verts.length ∧ ∀ z, OnPline x.pline z → OnPline p1 z ∨ OnPline p2 z) ∧
      ∀ z, ¬ OnPline p1 z → ¬ OnPline p2 z →
        let total := ((r.posPlines ++ r.negPlines).map fun x => x.pline.windingNumber z).sum
        (total = 0 ∨ total = 1 ∨ total = -1) ∧ (total ≠ 0 ↔ op.holds (p1.windingNumber z ≠ 0) (p2.windingNumber z ≠ 0)) :=
  C59_clear env henv p1 p2 eps he f1 f2 (C64_simple p1 (f1.loop he) s1).1 (C64_simple p2 (f2.loop he) s2).1 E hc hne hp op

/-- **C64** A closed polyline that does not touch itself has its inside on its left if `orientation` reports counter clockwise and on its right if it reports
clockwise: a little to the left of a point inside a segment the winding number is 1 or 0, a little to the right it is 0 or -1. -/
theorem C64_inside_left (p : Pline ℝ) (hp : Loop p) (hs : SimpleLoop p) :
    ∀ i < p.verts.length, ∀ t : ℝ, 0 < t → t < 1 → ∀ a b : ℝ, HasDerivAt (fun t => (curveAt p i t).x) a t → HasDerivAt (fun t => (curveAt p i t).y) b t →
      ∀ᶠ h in 𝓝[>] (0 : ℝ),
        p.windingNumber ⟨(curveAt p i t).x - h * b, (curveAt p i t).y + h * a⟩ = (if p.orientation = .counterClockwise then 1 else 0) ∧
        p.windingNumber ⟨(curveAt p i t).x + h * b, (curveAt p i t).y - h * a⟩ = (if p.orientation = .counterClockwise then 0 else -1) := by
  obtain ⟨w, hw, h⟩ := C62_same_side p hp hs
  obtain ⟨hone, -⟩ := C64_simple p hp hs
  intro i hi t t0 t1 a b hx hy
  filter_upwards [(h i hi t t0 t1 a b hx hy).2] with u hu
  obtain ⟨⟨o1, e1⟩, o2, e2⟩ := hu
  have k1 := hone _ o1
  have k2 := hone _ o2
  rw [e1] at k1 ⊢
  rw [e2] at k2 ⊢
  have ho : p.orientation = .counterClockwise ∨ p.orientation = .clockwise := by
    unfold Pline.orientation
    rw [hp.closed]
    simp only [Bool.not_true, Bool.false_eq_true, if_false]
    split_ifs
    · right; rfl
    · left; rfl
  rcases ho with g | g <;> rw [g] at k1 k2 ⊢ <;> simp only [turnOf] at k1 k2 <;> simp <;> omega

/-! ### the hypotheses are met -/

theorem squareOf_straight (a b : ℝ) (hab : a < b) : StraightLoop (squareOf a b) := by
  obtain ⟨v0, v1, v2, v3, v4⟩ := squareOf_vtx a b
  have hi : ∀ j, vtx (squareOf a b) j = vtx (squareOf a b) (j % 4) := fun j => (vtx_mod _ j).symm
  refine ⟨rfl, by simp [squareOf], fun i => ?_, fun i => ?_⟩
  · rw [hi i]
    have hcase : i % 4 = 0 ∨ i % 4 = 1 ∨ i % 4 = 2 ∨ i % 4 = 3 := by omega
    rcases hcase with g | g | g | g <;> rw [g] <;> simp only [v0, v1, v2, v3] <;> exact isLine_zero _ _
  · rw [hi i, hi (i + 1)]
    have hcase : i % 4 = 0 ∨ i % 4 = 1 ∨ i % 4 = 2 ∨ i % 4 = 3 := by omega
    rcases hcase with g | g | g | g
    · rw [show (i + 1) % 4 = 1 by omega, g, v0, v1]
      simp [Vertex.pos, V2.ext_iff', hab.ne]
    · rw [show (i + 1) % 4 = 2 by omega, g, v1, v2]
      simp [Vertex.pos, V2.ext_iff', hab.ne]
    · rw [show (i + 1) % 4 = 3 by omega, g, v2, v3]
      simp [Vertex.pos, V2.ext_iff', hab.ne']
    · rw [show (i + 1) % 4 = 0 by omega, g, v3, v0]
      simp [Vertex.pos, V2.ext_iff', hab.ne']

theorem squareOf_simple (a b : ℝ) (hab : a < b) : SimpleLoop (squareOf a b) := by
  intro i j hi hj t u t0 t1 u0 u1 h
  obtain ⟨a0, a1, a2, a3⟩ := squareOf_curve a b t
  obtain ⟨b0, b1, b2, b3⟩ := squareOf_curve a b u
  change i < 4 at hi
  change j < 4 at hj
  have hd : 0 < b - a := by linarith
  interval_cases i <;> interval_cases j <;> simp only [a0, a1, a2, a3, b0, b1, b2, b3, V2.ext_iff'] at h <;> obtain ⟨h1, h2⟩ := h <;>
    first
    | exact ⟨rfl, by nlinarith⟩
    | (exfalso; nlinarith)

/-- A square. -/
example : |(squareOf 0 4).area| = planeArea (within (squareOf 0 4)) := (C64_simple _ (straight_loop (squareOf_straight 0 4 (by norm_num))) (squareOf_simple 0 4 (by norm_num))).2.2.2.1

/-- A disc, made of two arcs. -/
example : volume (within disc) ≠ ⊤ ∧ disc.area = turnOf disc.orientation * planeArea (within disc) ∧ |disc.area| = planeArea (within disc) :=
  C64_area_region disc (disc_full.loop (by norm_num)) disc_winds

/-- A disc has a direction. -/
example : turnOf disc.orientation = 1 ∧ WindsOnce disc ∧ 0 < planeArea (within disc) :=
  C64_orientation disc (disc_full.loop (by norm_num)) 1 (Or.inl rfl) (fun X hX => by have := disc_winds X hX; rwa [disc_orientation] at this)
    ⟨⟨0, 3⟩, by
      rw [OnPline, disc_segs]
      simp only [List.mem_cons, List.not_mem_nil, or_false, exists_eq_or_imp, exists_eq_left, OnSeg, V2.ext_iff']
      rintro (⟨t, -, -, e1, e2⟩ | ⟨t, -, -, e1, e2⟩)
      · rw [(disc_point t).1] at e1 e2
        dsimp only at e1 e2
        nlinarith [Real.sin_sq_add_cos_sq (t * Real.pi)]
      · rw [(disc_point t).2] at e1 e2
        dsimp only at e1 e2
        nlinarith [Real.sin_sq_add_cos_sq (t * Real.pi)], by rw [disc_winding]; norm_num⟩

/-- The disc and a square. -/
example (op : BooleanOp) : ∃ r, polylineBoolean Env.plain disc (squareOf 0 6) op none (1 / 1000) = .ok r ∧
      ((r.posPlines ++ r.negPlines).map fun x => x.pline.area).sum = turnOf (squareOf 0 6).orientation *
        (match op with
        | .and => planeArea (within disc ∩ within (squareOf 0 6))
        | .or => planeArea (within disc ∪ within (squareOf 0 6))
        | .not => -planeArea (within disc \ within (squareOf 0 6))
        | .xor => planeArea (within (squareOf 0 6) \ within disc) - planeArea (within disc \ within (squareOf 0 6))) ∧
      (op = .or → (r.posPlines.map fun x => |x.pline.area|).sum - (r.negPlines.map fun x => |x.pline.area|).sum =
        planeArea (within disc ∪ within (squareOf 0 6))) :=
  C64_boolean_area Env.plain Env.plain_lawful _ _ _ (by norm_num) disc_full (squareOf_full 0 6 _ (by norm_num) (by norm_num)) disc_winds
    (squareOf_winds 0 6 (by norm_num)) _ disc_cross (by simp) (fun a ha b hb _ => clear_pair (by norm_num) (disc_clear a ha b hb)) none
    (C37_own_index Env.plain Env.plain_lawful disc) op

/-- A disc and a square: nothing about winding numbers is assumed. -/
example (op : BooleanOp) : ∃ r, polylineBoolean Env.plain disc (squareOf 0 6) op none (1 / 1000) = .ok r ∧ r.info = .intersected := by
  obtain ⟨r, h1, h2, -⟩ := C59_simple Env.plain Env.plain_lawful disc (squareOf 0 6) (1 / 1000) (by norm_num) disc_simple (squareOf_simple 0 6 (by norm_num)) disc_full
    (squareOf_full 0 6 _ (by norm_num) (by norm_num)) _ disc_cross (by simp) (fun a ha b hb _ => disc_clear a ha b hb) op
  exact ⟨r, h1, h2⟩

/-- The disc has its inside on its left. -/
example (t : ℝ) (t0 : 0 < t) (t1 : t < 1) (a b : ℝ) (hx : HasDerivAt (fun t => (curveAt disc 0 t).x) a t) (hy : HasDerivAt (fun t => (curveAt disc 0 t).y) b t) :
    ∀ᶠ h in 𝓝[>] (0 : ℝ), disc.windingNumber ⟨(curveAt disc 0 t).x - h * b, (curveAt disc 0 t).y + h * a⟩ = 1 ∧
      disc.windingNumber ⟨(curveAt disc 0 t).x + h * b, (curveAt disc 0 t).y - h * a⟩ = 0 := by
  have := C64_inside_left disc (disc_full.loop (by norm_num)) disc_simple 0 (by simp [disc]) t t0 t1 a b hx hy
  simpa only [disc_orientation, if_true] using this

/-- The square whose offset to the outside has arcs. -/
example : ∃ rs, parallelOffset (Env.plain : Env ℝ) box4 (-1) ⟨none, false, 1 / 100000, 1 / 10000, 1 / 10000⟩ = .ok rs ∧
      (0 < (-1 : ℝ) * turnOf box4.orientation →
        (rs.map Pline.area).sum = turnOf box4.orientation * planeArea {z | box4.windingNumber ⟨z.1, z.2⟩ ≠ 0 ∧ Keeps box4 |-1| ⟨z.1, z.2⟩}) ∧
      ((-1 : ℝ) * turnOf box4.orientation < 0 →
        (rs.map Pline.area).sum = turnOf box4.orientation * planeArea {z | ¬ (box4.windingNumber ⟨z.1, z.2⟩ = 0 ∧ Keeps box4 |-1| ⟨z.1, z.2⟩)}) :=
  C64_offset_area _ Env.plain_lawful box4 (-1) ⟨none, false, 1 / 100000, 1 / 10000, 1 / 10000⟩ (by simp) rfl box4_straight box4_simple (by norm_num)
    (by norm_num) box4_clear box4_raw_full box4_first 1 [] box4_crossing box4_finds (by norm_num)
    (by norm_num [abs_of_pos]) box4_tests (by norm_num) (by norm_num) (by norm_num)

end Cavc
