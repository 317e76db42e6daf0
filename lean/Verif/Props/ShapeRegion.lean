import Verif.Props.ShapeOffset
import Verif.Lemmas.ShapeFollows
import Verif.Lemmas.ResultParts
import Verif.Props.OffsetRegionArcs
import Verif.Props.AreaRegion
import Verif.Lemmas.IsletRegion

/-! # C74: the region enclosed by the parallel offset of a shape -/

set_option linter.unusedVariables false

namespace Cavc
open Pline RealScalar

theorem parent_range {env : Env ℝ} {s : Shape ℝ} {d : ℝ} {o : ShapeOffsetOptions ℝ} {ccw cw : List (OffsetLoop ℝ)} (h : ShapeLoops env s d o ccw cw) :
    ∀ l ∈ ccw ++ cw, l.parent < s.loops.length := by
  obtain ⟨rss, h1, h2, h3⟩ := h.offsets
  have key : ∀ (ls : List (OffsetLoop ℝ)) (f : List (Pline ℝ) × Nat → Pline ℝ → Bool),
      (ls.map fun l => (l.parent, l.ip.pline)) = (rss.zipIdx.flatMap fun (x : List (Pline ℝ) × Nat) => (x.1.filter (f x)).map fun r => (x.2, r)) →
      ∀ l ∈ ls, l.parent < s.loops.length := by
    intro ls f e l hl
    have : (l.parent, l.ip.pline) ∈ ls.map fun l => (l.parent, l.ip.pline) := List.mem_map.mpr ⟨l, hl, rfl⟩
    rw [e] at this
    obtain ⟨⟨x, i⟩, hx, hm⟩ := List.mem_flatMap.mp this
    obtain ⟨r, -, hr⟩ := List.mem_map.mp hm
    have hi := (List.getElem?_eq_some_iff.mp (List.mk_mem_zipIdx_iff_getElem?.mp hx)).1
    rw [Prod.mk.injEq] at hr
    rw [← hr.1, h1.length_eq]
    exact hi
  intro l hl
  rcases List.mem_append.mp hl with hl | hl
  · exact key ccw _ h2 l hl
  · exact key cw _ h3 l hl

theorem sound_is_loop {eps : ℝ} (he : 0 < eps) {r : Pline ℝ} (h : SoundLoop eps r) : Loop r := by
  refine ⟨h.1, h.2.1, fun s hs => ?_⟩
  rcases (h.2.2 s hs).shape with hl | ⟨h1, h2⟩
  · exact Or.inl hl
  · exact Or.inr ⟨h1, h2, fuzzy_ne he (h.2.2 s hs).apart⟩

theorem wholeLoops_append (l1 l2 : List (OffsetLoop ℝ)) (dss : List (List (ViewData ℝ) × Bool)) :
    wholeLoops (l1 ++ l2) dss = wholeLoops l1 dss ++ wholeLoops l2 (dss.drop l1.length) := by
  induction l1 generalizing dss with
  | nil => simp [wholeLoops]
  | cons a l1 ih =>
    cases dss with
    | nil => simp [wholeLoops]
    | cons x dss =>
      have := ih dss
      unfold wholeLoops at this ⊢
      simp only [List.cons_append, List.zip_cons_cons, List.filter_cons, List.length_cons, List.drop_succ_cons]
      split <;> simp [this]

/-- **C74** Which region the parallel offset of a shape encloses.  The polylines of the shape are closed, without common points and without crossings of their own, and
off them their winding numbers add up to one of two values, `a` outside and `a + 1` inside.  Their single offsets are the parallel
curves (`Alongside`), without crossings of their own.  Then the winding numbers of the polylines of the result add up to the same as those of the
shape at all points that are at least as far as the offset from all polylines of the shape; everywhere else they add up to `a` for positive offsets and `a + 1`
for negative ones: a positive offset takes away from the inside of the shape what is too near to the outside, and a negative one adds to the inside
what is near enough. -/
theorem C74_shape_region (env : Env ℝ) (henv : env.Lawful) (s : Shape ℝ) (hs : ∀ ip ∈ s.loops, ip.index.Serves ip.pline) (d : ℝ)
    (o : ShapeOffsetOptions ℝ) (he : 0 < o.posEqualEps) (ht : 0 < o.offsetDistEps) (hD : o.offsetDistEps ≤ |d|)
    (hin : ∀ ip ∈ s.loops, Loop ip.pline) (hsim : ∀ ip ∈ s.loops, SimpleLoop ip.pline)
    (hdis : ∀ (i j : Nat) (ip jp : IndexedPline ℝ), s.loops[i]? = some ip → s.loops[j]? = some jp → i ≠ j → ∀ X, OnPline ip.pline X → ¬ OnPline jp.pline X)
    (a : ℤ) (htwo : ∀ X, (∀ ip ∈ s.loops, ¬ OnPline ip.pline X) → s.windingNumber X = a ∨ s.windingNumber X = a + 1)
    (σ : Nat → ℤ) (hσ : ∀ (j : Nat) (ip : IndexedPline ℝ), s.loops[j]? = some ip → TurnsLike ip.pline (σ j))
    (ccw cw : List (OffsetLoop ℝ)) (hl : ShapeLoops env s d o ccw cw) (hf : ∀ l ∈ ccw ++ cw, FullLoop l.ip.pline o.posEqualEps)
    (hal : ∀ (j : Nat) (ip : IndexedPline ℝ), s.loops[j]? = some ip → Alongside ip.pline d (σ j) (loopsOf (ccw ++ cw) j))
    (hls : ∀ l ∈ ccw ++ cw, SimpleLoop l.ip.pline)
    (gap : ℝ) (C : Nat → List Cut) (hC : ShapeCuts (ccw ++ cw) o.posEqualEps gap C) (hF : ShapeFinds (ccw ++ cw) o.posEqualEps)
    (hK : ShapeChanges s.loops (ccw ++ cw) |d| C) (hT : ShapeTests s.loops (ccw ++ cw) |d| o.posEqualEps o.offsetDistEps C)
    (hg : o.posEqualEps ≤ gap) (hj0 : 0 ≤ o.sliceJoinEps) (hj : 2 * o.sliceJoinEps ≤ gap) :
    ∃ s', s.parallelOffset env d o = .ok s' ∧ (∀ ip ∈ s'.loops, Loop ip.pline) ∧ ∀ Y, (∀ ip ∈ s'.loops, ¬ OnPline ip.pline Y) →
      ((∀ ip ∈ s.loops, Keeps ip.pline |d| Y) → s'.windingNumber Y = s.windingNumber Y) ∧
      ((∃ ip ∈ s.loops, ¬ Keeps ip.pline |d| Y) → s'.windingNumber Y = if 0 < d then a else a + 1) := by
  have hd : d ≠ 0 := by
    rintro rfl
    rw [abs_zero] at hD
    linarith
  obtain ⟨ccw', cw', hl', -, hok⟩ := C51_shape_offset env henv s hs d o
  obtain ⟨rfl, rfl⟩ := shapeLoops_unique hl' hl
  obtain ⟨dss, rs, hP, -, hok⟩ := hok fun l hlm => (hf l hlm).two
  have hserve : ∀ l ∈ ccw' ++ cw', l.ip.index.Serves l.ip.pline := by
    intro l hlm
    rw [hl.own l hlm]
    exact approxIndex_serves env henv _
  obtain ⟨hsound, hpts, -, hpass⟩ := shape_result env he ht hD (fun ip hip => (hin ip hip).proper) hserve hf hC hF hK hT hg hj0 hj hP
  obtain ⟨s', hs', -, h1, h2⟩ := hok fun r hr => (hsound r hr).2.1
  have hperm : (s'.loops.map IndexedPline.pline).Perm (wholeLoops (ccw' ++ cw') dss ++ rs) := by
    unfold Shape.loops
    rw [List.map_append, h1, h2, wholeLoops_append]
    have hrs := List.filter_append_perm (fun r : Pline ℝ => r.closed && !Scalar.lt r.area 0) rs
    refine List.Perm.trans ?_ (hrs.append_left _)
    rw [List.append_assoc, List.append_assoc]
    refine List.Perm.append_left _ ?_
    rw [← List.append_assoc, ← List.append_assoc]
    exact List.Perm.append_right _ List.perm_append_comm
  have hRS : ∀ r ∈ wholeLoops (ccw' ++ cw') dss ++ rs, Loop r := by
    intro r hr
    rcases List.mem_append.mp hr with hr | hr
    · obtain ⟨i, l, ss, h1, -, rfl⟩ := mem_wholeLoops.mp hr
      exact (hf l (List.mem_of_getElem? h1)).loop he
    · exact sound_is_loop he (hsound r hr)
  have hsum : ∀ (t : Shape ℝ) X, t.windingNumber X = allW (t.loops.map IndexedPline.pline) X := by
    intro t X
    unfold Shape.windingNumber allW
    rw [List.map_map]
    rfl
  have hfol := shape_follows (RS := wholeLoops (ccw' ++ cw') dss ++ rs) hin hsim hdis (a := a) (fun X hX => by rw [← hsum]; exact htwo X hX) hd hσ hal (parent_range hl) hf hls hC hRS
    (fun X => by
      rw [← hpts X]
      constructor
      · rintro ⟨r, hr, hX⟩
        rcases List.mem_append.mp hr with hr | hr
        · obtain ⟨i, l, ss, h1, h2, rfl⟩ := mem_wholeLoops.mp hr
          exact Or.inl ⟨i, l, ss, h1, h2, hX⟩
        · exact Or.inr ⟨r, hr, hX⟩
      · rintro (⟨i, l, ss, h1, h2, hX⟩ | ⟨r, hr, hX⟩)
        · exact ⟨_, List.mem_append_left _ (mem_wholeLoops.mpr ⟨i, l, ss, h1, h2, rfl⟩), hX⟩
        · exact ⟨r, List.mem_append_right _ hr, hX⟩) hpass
  refine ⟨s', hs', fun ip hip => hRS _ (hperm.mem_iff.mp (List.mem_map.mpr ⟨ip, hip, rfl⟩)), fun Y hY => ?_⟩
  have hreg := hfol.region Y fun r hr hon => by
    obtain ⟨ip, hip, rfl⟩ := List.mem_map.mp (hperm.mem_iff.mpr hr)
    exact hY ip hip hon
  have e : s'.windingNumber Y = allW (wholeLoops (ccw' ++ cw') dss ++ rs) Y := by
    rw [hsum]
    exact (hperm.map _).sum_eq
  rw [e, hreg, hsum]
  constructor
  · intro hk
    rw [if_pos]
    intro p hp
    obtain ⟨ip, hip, rfl⟩ := List.mem_map.mp hp
    exact hk ip hip
  · rintro ⟨ip, hip, hk⟩
    rw [if_neg]
    intro h
    exact hk (h _ (List.mem_map.mpr ⟨ip, hip, rfl⟩))

/-- **C74** The area of the parallel offset of a shape: under the same conditions, for a shape whose polylines wind once around its inside, `τ = 1` counterclockwise
and `τ = -1` clockwise, the areas of the polylines of the result add up, up to the sign `τ`, to the area of the part of the inside that keeps the distance if the offset is to the
inside, and to the area of everything that is inside or does not keep the distance if it is to the outside. -/
theorem C74_shape_area (env : Env ℝ) (henv : env.Lawful) (s : Shape ℝ) (hs : ∀ ip ∈ s.loops, ip.index.Serves ip.pline) (d : ℝ)
    (o : ShapeOffsetOptions ℝ) (he : 0 < o.posEqualEps) (ht : 0 < o.offsetDistEps) (hD : o.offsetDistEps ≤ |d|)
    (hin : ∀ ip ∈ s.loops, Loop ip.pline) (hsim : ∀ ip ∈ s.loops, SimpleLoop ip.pline)
    (hdis : ∀ (i j : Nat) (ip jp : IndexedPline ℝ), s.loops[i]? = some ip → s.loops[j]? = some jp → i ≠ j → ∀ X, OnPline ip.pline X → ¬ OnPline jp.pline X)
    (τ : ℤ) (hτ : τ = 1 ∨ τ = -1) (htwo : ∀ X, (∀ ip ∈ s.loops, ¬ OnPline ip.pline X) → s.windingNumber X = 0 ∨ s.windingNumber X = τ)
    (σ : Nat → ℤ) (hσ : ∀ (j : Nat) (ip : IndexedPline ℝ), s.loops[j]? = some ip → TurnsLike ip.pline (σ j))
    (ccw cw : List (OffsetLoop ℝ)) (hl : ShapeLoops env s d o ccw cw) (hf : ∀ l ∈ ccw ++ cw, FullLoop l.ip.pline o.posEqualEps)
    (hal : ∀ (j : Nat) (ip : IndexedPline ℝ), s.loops[j]? = some ip → Alongside ip.pline d (σ j) (loopsOf (ccw ++ cw) j))
    (hls : ∀ l ∈ ccw ++ cw, SimpleLoop l.ip.pline)
    (gap : ℝ) (C : Nat → List Cut) (hC : ShapeCuts (ccw ++ cw) o.posEqualEps gap C) (hF : ShapeFinds (ccw ++ cw) o.posEqualEps)
    (hK : ShapeChanges s.loops (ccw ++ cw) |d| C) (hT : ShapeTests s.loops (ccw ++ cw) |d| o.posEqualEps o.offsetDistEps C)
    (hg : o.posEqualEps ≤ gap) (hj0 : 0 ≤ o.sliceJoinEps) (hj : 2 * o.sliceJoinEps ≤ gap) :
    ∃ s', s.parallelOffset env d o = .ok s' ∧
      (0 < d * τ → (s'.loops.map fun ip => ip.pline.area).sum =
        τ * planeArea {z | s.windingNumber ⟨z.1, z.2⟩ ≠ 0 ∧ ∀ ip ∈ s.loops, Keeps ip.pline |d| ⟨z.1, z.2⟩}) ∧
      (d * τ < 0 → (s'.loops.map fun ip => ip.pline.area).sum =
        τ * planeArea {z | s.windingNumber ⟨z.1, z.2⟩ ≠ 0 ∨ ∃ ip ∈ s.loops, ¬ Keeps ip.pline |d| ⟨z.1, z.2⟩}) := by
  obtain ⟨s', hs', hloop, hreg⟩ := C74_shape_region env henv s hs d o he ht hD hin hsim hdis (if τ = 1 then 0 else -1)
    (fun X hX => by rcases hτ with rfl | rfl <;> rcases htwo X hX with e | e <;> simp [e]) σ hσ ccw cw hl hf hal hls gap C hC hF hK hT hg hj0 hj
  have hτ0 : (τ : ℝ) ≠ 0 := by rcases hτ with rfl | rfl <;> norm_num
  obtain ⟨hi, hint⟩ := sum_integrals (ps := s'.loops.map IndexedPline.pline) fun r hr => by
    obtain ⟨ip, hip, rfl⟩ := List.mem_map.mp hr
    exact C64_area_winding _ (hloop ip hip)
  have harea : (s'.loops.map fun ip => ip.pline.area).sum = ((s'.loops.map IndexedPline.pline).map Pline.area).sum := by rw [List.map_map]; rfl
  have hwind : ∀ Y, ((s'.loops.map IndexedPline.pline).map fun p => p.windingNumber Y).sum = s'.windingNumber Y := by
    intro Y
    unfold Shape.windingNumber
    rw [List.map_map]
    rfl
  simp only [hwind] at hi hint
  have hoff := trace_ae ((s.loops ++ s'.loops).map IndexedPline.pline)
  refine ⟨s', hs', fun hpos => ?_, fun hneg => ?_⟩
  · rw [harea, ← hint]
    refine (indicator_area hi hτ0 ?_).2.2
    filter_upwards [hoff] with z hz
    have h1 : ∀ ip ∈ s.loops, ¬ OnPline ip.pline ⟨z.1, z.2⟩ := fun ip hip => hz _ (List.mem_map.mpr ⟨ip, List.mem_append_left _ hip, rfl⟩)
    have h2 : ∀ ip ∈ s'.loops, ¬ OnPline ip.pline ⟨z.1, z.2⟩ := fun ip hip => hz _ (List.mem_map.mpr ⟨ip, List.mem_append_right _ hip, rfl⟩)
    obtain ⟨k1, k2⟩ := hreg _ h2
    by_cases hk : ∀ ip ∈ s.loops, Keeps ip.pline |d| ⟨z.1, z.2⟩
    · rw [k1 hk]
      rcases htwo _ h1 with e | e
      · rw [e, Set.indicator_of_notMem (fun h => h.1 e), Int.cast_zero]
      · rw [e, Set.indicator_of_mem]
        exact ⟨by rw [e]; exact_mod_cast hτ0, hk⟩
    · rw [Set.indicator_of_notMem (fun h => hk h.2)]
      push Not at hk
      rw [k2 hk]
      rcases hτ with rfl | rfl
      · rw [if_pos (by simpa using hpos)]; simp
      · rw [if_neg (by push_cast at hpos; linarith)]; simp
  · rw [harea, ← hint]
    refine (indicator_area hi hτ0 ?_).2.2
    filter_upwards [hoff] with z hz
    have h1 : ∀ ip ∈ s.loops, ¬ OnPline ip.pline ⟨z.1, z.2⟩ := fun ip hip => hz _ (List.mem_map.mpr ⟨ip, List.mem_append_left _ hip, rfl⟩)
    have h2 : ∀ ip ∈ s'.loops, ¬ OnPline ip.pline ⟨z.1, z.2⟩ := fun ip hip => hz _ (List.mem_map.mpr ⟨ip, List.mem_append_right _ hip, rfl⟩)
    obtain ⟨k1, k2⟩ := hreg _ h2
    by_cases hk : ∀ ip ∈ s.loops, Keeps ip.pline |d| ⟨z.1, z.2⟩
    · rw [k1 hk]
      rcases htwo _ h1 with e | e
      · rw [e, Set.indicator_of_notMem, Int.cast_zero]
        rintro (h | ⟨ip, hip, h⟩)
        · exact h e
        · exact h (hk ip hip)
      · rw [e, Set.indicator_of_mem]
        exact Or.inl (by rw [e]; exact_mod_cast hτ0)
    · push Not at hk
      have hz' : z ∈ {z : ℝ × ℝ | s.windingNumber ⟨z.1, z.2⟩ ≠ 0 ∨ ∃ ip ∈ s.loops, ¬ Keeps ip.pline |d| ⟨z.1, z.2⟩} := Or.inr hk
      rw [Set.indicator_of_mem hz', k2 hk]
      rcases hτ with rfl | rfl
      · rw [if_neg (by push_cast at hneg; linarith)]; simp
      · rw [if_pos (by push_cast at hneg; linarith)]; simp

/-- **C74** Under the conditions of C66 the results of `parallel_offset` for a closed polyline of lines and arcs that does not touch itself are such parallel curves. -/
theorem C74_offset_curve (env : Env ℝ) (henv : env.Lawful) (p : Pline ℝ) (d : ℝ) (opts : OffsetOptions ℝ)
    (hidx : ∀ idx, opts.aabbIndex = some idx → idx.Serves p) (hself : opts.handleSelfIntersects = false)
    (hs : SimpleLoop p) (hd : d ≠ 0) (he : 0 < opts.posEqualEps) (c : Nat → Corner) (h : ClearOffset p d c opts.posEqualEps) (hcc : CleanCorners p d c)
    (hf : FreeCuts p d c)
    (gap : ℝ) (E : List (Cut × Cut)) (hE : SelfCrossing (rawWith p d c) opts.posEqualEps gap E) (hA : CrossAtAngle (rawWith p d c) E)
    (hF : FindsSelf (rawWith p d c) opts.posEqualEps) (ht : 0 < opts.offsetDistEps) (hD : opts.offsetDistEps ≤ |d|)
    (hT : ClearTests p (rawWith p d c) d opts.posEqualEps opts.offsetDistEps E) (hW : ReadableTests p (rawWith p d c) opts.posEqualEps E)
    (hg : opts.posEqualEps ≤ gap) (hj0 : 0 < opts.sliceJoinEps) (hj : 2 * opts.sliceJoinEps ≤ gap) (σ : ℤ) (hσ : TurnsLike p σ) :
    ∃ rs, parallelOffset env p d opts = .ok rs ∧ Alongside p d σ rs := by
  have hp := h.loop
  have hpl := hp.loop he
  have hos := one_sided_any hp he hs hf.turn hd
  obtain ⟨rs0, hrs0, hcl, hcurve⟩ := C66_parallel_simple env henv p d opts hidx hself hs hd he c h hcc hf gap E hE hA hF ht hD hT hW hg hj0 hj
  have hparts : ∀ r ∈ rs0, ∀ s ∈ r.segs, ∃ i lo hi, i < (rawWith p d c).verts.length ∧ 0 ≤ lo ∧ lo < hi ∧ hi ≤ 1 ∧
      ∀ x, segCurve s.1 s.2 x = curveAt (rawWith p d c) i (lo + (hi - lo) * x) := by
    have hC := raw_changes he h hcc hE hf hos hA
    have hraw := C65_raw he h
    have hn : 0 < (rawWith p d c).verts.length := by have := h.full.two; omega
    obtain ⟨rs, hrs, -, hbig⟩ := C43_parallel_offset env henv p d opts hidx
    obtain ⟨raw, hraw', -, hof⟩ := hbig h.loop.two
    rw [hraw] at hraw'
    injection hraw' with hraw'
    subst hraw'
    obtain ⟨-, -, es, ss, hof⟩ := hof (by intro h; rw [h] at hn; simp at hn)
    have heq : rs = rs0 := by rw [hrs] at hrs0; exact Except.ok.inj hrs0
    subst heq
    exact result_parts_any hp he ht hD h.full hE hF hC hT hW hg hj hj0.le (hof.single hp.closed hself) hof.slices hof.joined
  obtain ⟨w, -, hw, -⟩ := two_numbers hpl hs
  have hside := turns_side hpl hs hσ (hw 0 (by have := hpl.two; omega) (1 / 2) (by norm_num) (by norm_num)) hd
  have hwn : ∀ X, wnAt p X = p.windingNumber X := fun _ => rfl
  refine ⟨rs0, hrs0, fun X => ?_, fun r hr k t hk t0 t1 => ?_⟩
  · rw [hcurve X, hside]
    constructor
    · intro hX
      obtain ⟨q, hq, hle⟩ := parallel_reach he h hX
      exact ⟨hX.keeps, ⟨q, hq, le_antisymm hle (hX.keeps q hq)⟩, sided_val_any hp he hs hw hf.turn hd hX⟩
    · rintro ⟨h1, ⟨F, hF, e⟩, h2⟩
      exact on_side he h hcc hs hf.turn hw hd h1 hF e h2
  · obtain ⟨c1, c2, c3⟩ := hcl r hr
    have hn : 0 < r.verts.length := by omega
    have hm := List.mem_of_getElem? ((seg_vtx c1 c2 k _).mpr ⟨hk, rfl⟩)
    obtain ⟨i, lo, hi, h1, h2, h3, h4, h5⟩ := hparts r hr _ hm
    refine part_beside he h hcc h1 h2 h3 h4 (fun x => by rw [curveAt_vtx hn]; exact h5 x) t0 t1 ?_
    refine ((hcurve _).mp ⟨r, hr, _, hm, t, t0.le, t1.le, ?_⟩).keeps
    rw [curveAt_vtx hn]

/-- All hypotheses of C74 hold for island and bay: after the offset by -1 the winding numbers add up as before at the points of distance 1 from
both, and to 0 at all other points; and the areas add up to minus the area of the water at distance 1 from both. -/
theorem islet_region (env : Env ℝ) (henv : env.Lawful) : ∃ s s', Shape.fromPlines env [box4, bay] = .ok s ∧ s.parallelOffset env (-1) isletOpts = .ok s' ∧
    (∀ Y, (∀ ip ∈ s'.loops, ¬ OnPline ip.pline Y) →
      (Keeps box4 1 Y ∧ Keeps bay 1 Y → s'.windingNumber Y = box4.windingNumber Y + bay.windingNumber Y) ∧
      (¬ (Keeps box4 1 Y ∧ Keeps bay 1 Y) → s'.windingNumber Y = 0)) ∧
    (s'.loops.map fun ip => ip.pline.area).sum =
      -planeArea {z | box4.windingNumber ⟨z.1, z.2⟩ + bay.windingNumber ⟨z.1, z.2⟩ ≠ 0 ∧ Keeps box4 1 ⟨z.1, z.2⟩ ∧ Keeps bay 1 ⟨z.1, z.2⟩} := by
  obtain ⟨s, a, b, hs, h⟩ := islet_exists env henv
  have hd : |(-1 : ℝ)| = 1 := by norm_num
  have hsum : ∀ X, s.windingNumber X = box4.windingNumber X + bay.windingNumber X := by
    intro X
    unfold Shape.windingNumber
    rw [h.loops]
    simp [h.island, h.bay]
  have hserve : ∀ ip ∈ s.loops, ip.index.Serves ip.pline := by
    rw [h.loops]
    intro ip hip
    rcases List.mem_pair.mp hip with rfl | rfl
    · rw [h.island]; exact h.serve1
    · rw [h.bay]; exact h.serve2
  have two : ∀ {P : Nat → Pline ℝ → Prop}, P 0 box4 → P 1 bay → ∀ (j : Nat) (ip : IndexedPline ℝ), s.loops[j]? = some ip → P j ip.pline := by
    intro P h0 h1 j ip hj
    rw [h.loops] at hj
    rcases j with _ | _ | j
    · cases Option.some.inj hj; rw [h.island]; exact h0
    · cases Option.some.inj hj; rw [h.bay]; exact h1
    · simp at hj
  have both : ∀ {P : Pline ℝ → Prop}, P box4 → P bay → ∀ ip ∈ s.loops, P ip.pline := by
    intro P h0 h1 ip hip
    rw [h.loops] at hip
    rcases List.mem_pair.mp hip with rfl | rfl
    · rw [h.island]; exact h0
    · rw [h.bay]; exact h1
  have hF : ShapeFinds ([isletOut env] ++ [isletIn env]) isletOpts.posEqualEps := by
    intro i l hl j m hm hij
    rcases islet_two hl with ⟨rfl, rfl⟩ | ⟨rfl, rfl⟩ <;> rcases islet_two hm with ⟨rfl, rfl⟩ | ⟨rfl, rfl⟩
    · exact absurd hij (lt_irrefl _)
    · exact islet_finds
    · exact absurd hij (by norm_num)
    · exact absurd hij (lt_irrefl _)
  have hall : ∀ {P : Pline ℝ → Prop}, P (rawLoop box4 (-1)) → P bayIn → ∀ l ∈ [isletOut env] ++ [isletIn env], P l.ip.pline := by
    intro P h0 h1 l hl
    rcases List.mem_pair.mp hl with rfl | rfl
    · exact h0
    · exact h1
  have hdis : ∀ (i j : Nat) (ip jp : IndexedPline ℝ), s.loops[i]? = some ip → s.loops[j]? = some jp → i ≠ j → ∀ X, OnPline ip.pline X → ¬ OnPline jp.pline X := by
    intro i j ip jp hi hj hne X hX hX'
    rw [h.loops] at hi hj
    rcases i with _ | _ | i <;> rcases j with _ | _ | j <;> simp at hi hj hne
    · subst hi hj; rw [h.island] at hX; rw [h.bay] at hX'; exact islet_disjoint hX hX'
    · subst hi hj; rw [h.bay] at hX; rw [h.island] at hX'; exact islet_disjoint hX' hX
  have htwo : ∀ X, (∀ ip ∈ s.loops, ¬ OnPline ip.pline X) → s.windingNumber X = -1 ∨ s.windingNumber X = -1 + 1 := by
    intro X hX
    rw [hsum]
    rw [h.loops] at hX
    have e1 := hX a (by simp)
    have e2 := hX b (by simp)
    rw [h.island] at e1
    rw [h.bay] at e2
    exact islet_numbers e1 e2
  obtain ⟨s', h1, _, h2⟩ := C74_shape_region env henv s hserve (-1) isletOpts (by norm_num [isletOpts]) (by norm_num [isletOpts]) (by norm_num [isletOpts])
    (both (straight_loop box4_straight) (straight_loop bay_straight)) (both box4_simple bay_simple)
    hdis (-1) htwo
    (fun j => if j = 0 then 1 else -1) (two (P := fun j p => TurnsLike p (if j = 0 then 1 else -1)) box4_turns bay_turns)
    _ _ (islet_loops env henv h) (hall (P := fun p => FullLoop p isletOpts.posEqualEps) box4_raw_full bayIn_full)
    (two (P := fun j p => Alongside p (-1) (if j = 0 then 1 else -1) (loopsOf ([isletOut env] ++ [isletIn env]) j)) box4_along bayIn_along)
    (hall box4_raw_simple bayIn_simple) 1 isletCuts
    (islet_cuts env) hF (by rw [hd]; exact islet_changes env h) (by rw [hd]; exact islet_tests env h) (by norm_num [isletOpts]) (by norm_num [isletOpts]) (by norm_num [isletOpts])
  obtain ⟨s'', h1', h5, -⟩ := C74_shape_area env henv s hserve (-1) isletOpts (by norm_num [isletOpts]) (by norm_num [isletOpts]) (by norm_num [isletOpts])
    (both (straight_loop box4_straight) (straight_loop bay_straight)) (both box4_simple bay_simple)
    hdis (-1) (Or.inr rfl) (fun X hX => (htwo X hX).symm)
    (fun j => if j = 0 then 1 else -1) (two (P := fun j p => TurnsLike p (if j = 0 then 1 else -1)) box4_turns bay_turns)
    _ _ (islet_loops env henv h) (hall (P := fun p => FullLoop p isletOpts.posEqualEps) box4_raw_full bayIn_full)
    (two (P := fun j p => Alongside p (-1) (if j = 0 then 1 else -1) (loopsOf ([isletOut env] ++ [isletIn env]) j)) box4_along bayIn_along)
    (hall box4_raw_simple bayIn_simple) 1 isletCuts
    (islet_cuts env) hF (by rw [hd]; exact islet_changes env h) (by rw [hd]; exact islet_tests env h) (by norm_num [isletOpts]) (by norm_num [isletOpts]) (by norm_num [isletOpts])
  rw [h1] at h1'
  cases h1'
  have both' : ∀ Y, (∀ ip ∈ s.loops, Keeps ip.pline 1 Y) ↔ Keeps box4 1 Y ∧ Keeps bay 1 Y := by
    intro Y
    refine ⟨fun hc => ?_, fun hk => both (P := fun p => Keeps p 1 Y) hk.1 hk.2⟩
    rw [h.loops] at hc
    have e1 := hc a (by simp)
    have e2 := hc b (by simp)
    rw [h.island] at e1
    rw [h.bay] at e2
    exact ⟨e1, e2⟩
  refine ⟨s, s', hs, h1, fun Y hY => ?_, ?_⟩
  rotate_left
  · rw [h5 (by norm_num), hd]
    simp only [both', hsum]
    push_cast
    rw [neg_one_mul]
  obtain ⟨h3, h4⟩ := h2 Y hY
  rw [hd] at h3 h4
  constructor
  · rintro ⟨k1, k2⟩
    rw [h3 ((both' Y).mpr ⟨k1, k2⟩), hsum]
  · intro hn
    rw [h4, if_neg (by norm_num), neg_add_cancel]
    by_contra hc
    simp only [not_exists, not_and, not_not] at hc
    exact hn ((both' Y).mp hc)

/-- The point (-20, 0) is still enclosed, clockwise; the point (5, 3), between island and shore, is no longer, although it was; the island itself is not. -/
example : ∃ s s', Shape.fromPlines Env.plain [box4, bay] = .ok s ∧ s.parallelOffset Env.plain (-1) isletOpts = .ok s' ∧
    ((∀ ip ∈ s'.loops, ¬ OnPline ip.pline ⟨-20, 0⟩) → s'.windingNumber ⟨-20, 0⟩ = -1) ∧
    (box4.windingNumber ⟨5, 3⟩ + bay.windingNumber ⟨5, 3⟩ = -1 ∧ ((∀ ip ∈ s'.loops, ¬ OnPline ip.pline ⟨5, 3⟩) → s'.windingNumber ⟨5, 3⟩ = 0)) ∧
    ((∀ ip ∈ s'.loops, ¬ OnPline ip.pline ⟨2, 2⟩) → s'.windingNumber ⟨2, 2⟩ = 0) := by
  obtain ⟨s, s', h1, h2, h3, -⟩ := islet_region Env.plain Env.plain_lawful
  have far : ∀ X : V2 ℝ, (∀ q : V2 ℝ, 0 ≤ q.x → q.x ≤ 4 → 0 ≤ q.y → q.y ≤ 4 → (q.x = 0 ∨ q.x = 4 ∨ q.y = 0 ∨ q.y = 4) → 1 ≤ (X.x - q.x) ^ 2 + (X.y - q.y) ^ 2) → Keeps box4 1 X := by
    intro X h q hq
    obtain ⟨q1, q2, q3, q4, q5⟩ := on_box4.mp hq
    have e := edist_sq X q
    have e0 := edist_nonneg X q
    have := h q q1 q2 q3 q4 q5
    nlinarith
  refine ⟨s, s', h1, h2, fun hY => ?_, ⟨?_, fun hY => ?_⟩, fun hY => ?_⟩
  · rw [(h3 _ hY).1 ⟨far _ fun q q1 q2 q3 q4 _ => by dsimp only; nlinarith [sq_nonneg q.y], bay_keeps (by norm_num) (by norm_num) (by norm_num)⟩,
      box4_wn_out (Or.inl (by norm_num)), bay_wn_in (by norm_num) (by norm_num) (by norm_num)]
    norm_num
  · rw [box4_wn_out (Or.inr (Or.inl (by norm_num))), bay_wn_in (by norm_num) (by norm_num) (by norm_num)]
    norm_num
  · refine (h3 _ hY).2 ?_
    rintro ⟨-, hk⟩
    have := hk ⟨5 + 9 / 25, 3 + 12 / 25⟩ (on_bay.mpr ⟨by norm_num, by norm_num, by norm_num, Or.inr (Or.inr (by norm_num))⟩)
    rw [edist_lit _ _ (3 / 5) (by norm_num) (by norm_num)] at this
    norm_num at this
  · rw [(h3 _ hY).1 ⟨far _ fun q q1 q2 q3 q4 q5 => by
      dsimp only
      rcases q5 with e | e | e | e <;> rw [e] <;> nlinarith [sq_nonneg (2 - q.x), sq_nonneg (2 - q.y)], bay_keeps (by norm_num) (by norm_num) (by norm_num)⟩,
      box4_wn_in (by norm_num) (by norm_num) (by norm_num) (by norm_num), bay_wn_in (by norm_num) (by norm_num) (by norm_num)]
    norm_num

/-- The hypotheses of C74_offset_curve hold for the house with the round roof. -/
example : ∃ σ, TurnsLike house σ ∧ ∃ rs, parallelOffset Env.plain house 3 ⟨none, false, 1 / 100000, 1 / 10000, 1 / 10000⟩ = .ok rs ∧ Alongside house 3 σ rs := by
  obtain ⟨σ, h1, h2, -⟩ := C62_simple_winding house (hoIn_clear.loop.loop (by norm_num)) house_simple
  exact ⟨σ, ⟨h1, h2⟩, C74_offset_curve _ Env.plain_lawful house 3 ⟨none, false, 1 / 100000, 1 / 10000, 1 / 10000⟩ (by simp) rfl house_simple (by norm_num) (by norm_num) hoIn hoIn_clear hoIn_clean
    hoIn_free 1 [] ho_crossing (by intro e he; simp at he) ho_finds (by norm_num) (by norm_num [abs_of_pos]) ho_tests ho_readable
    (by norm_num) (by norm_num) (by norm_num) σ ⟨h1, h2⟩⟩

end Cavc
