import Verif.Props.ShapeRegion
import Verif.Lemmas.ShapeCrossKeeps

/-! # C72, C74: the parallel offset of a shape whose offset loops cross at angles -/

set_option linter.unusedVariables false

namespace Cavc
open Pline RealScalar

theorem shape_sum (t : Shape ℝ) (X : V2 ℝ) : t.windingNumber X = allW (t.loops.map IndexedPline.pline) X := by
  unfold Shape.windingNumber allW
  rw [List.map_map]
  rfl

/-- **C72** The exact parallel curve of a shape.  As C72_shape_offset, without assumptions on where the distances are kept: the offset loops cross at angles, two at a time
(`ShapeCross`).  The polylines of the shape are closed, without common points and without crossings of their own, and off them their winding numbers add up to one of two
values, `a` outside and `a + 1` inside; the single offsets are parallel curves without crossings of their own.  Then `Shape::parallel_offset` returns closed polylines that consist of exactly the points
whose distance from the nearest polyline of the shape is `|d|`, inside the shape for positive `d` and outside for negative `d`. -/
theorem C72_shape_curve (env : Env ℝ) (henv : env.Lawful) (s : Shape ℝ) (hs : ∀ ip ∈ s.loops, ip.index.Serves ip.pline) (d : ℝ)
    (o : ShapeOffsetOptions ℝ) (he : 0 < o.posEqualEps) (ht : 0 < o.offsetDistEps) (hD : o.offsetDistEps ≤ |d|)
    (hin : ∀ ip ∈ s.loops, Loop ip.pline) (hsim : ∀ ip ∈ s.loops, SimpleLoop ip.pline)
    (hdis : ∀ (i j : Nat) (ip jp : IndexedPline ℝ), s.loops[i]? = some ip → s.loops[j]? = some jp → i ≠ j → ∀ X, OnPline ip.pline X → ¬ OnPline jp.pline X)
    (a : ℤ) (htwo : ∀ X, (∀ ip ∈ s.loops, ¬ OnPline ip.pline X) → s.windingNumber X = a ∨ s.windingNumber X = a + 1)
    (σ : Nat → ℤ) (hσ : ∀ (j : Nat) (ip : IndexedPline ℝ), s.loops[j]? = some ip → TurnsLike ip.pline (σ j))
    (ccw cw : List (OffsetLoop ℝ)) (hl : ShapeLoops env s d o ccw cw) (hf : ∀ l ∈ ccw ++ cw, FullLoop l.ip.pline o.posEqualEps)
    (hal : ∀ (j : Nat) (ip : IndexedPline ℝ), s.loops[j]? = some ip → Alongside ip.pline d (σ j) (loopsOf (ccw ++ cw) j))
    (hls : ∀ l ∈ ccw ++ cw, SimpleLoop l.ip.pline)
    (gap : ℝ) (C : Nat → List Cut) (hC : ShapeCuts (ccw ++ cw) o.posEqualEps gap C) (hF : ShapeFinds (ccw ++ cw) o.posEqualEps)
    (hX : ShapeCross (ccw ++ cw) C) (hT : ShapeTests s.loops (ccw ++ cw) |d| o.posEqualEps o.offsetDistEps C)
    (hg : o.posEqualEps ≤ gap) (hj0 : 0 ≤ o.sliceJoinEps) (hj : 2 * o.sliceJoinEps ≤ gap) :
    ∃ s', s.parallelOffset env d o = .ok s' ∧ s'.WellFormed ∧ (∀ ip ∈ s'.loops, ip.pline.closed = true ∧ 2 ≤ ip.pline.verts.length) ∧
      ∀ X, (∃ ip ∈ s'.loops, OnPline ip.pline X) ↔ (∀ ip ∈ s.loops, Keeps ip.pline |d| X) ∧ (∃ ip ∈ s.loops, ∃ F, OnPline ip.pline F ∧ edist X F = |d|) ∧
        s.windingNumber X = if 0 < d then a + 1 else a := by
  have hd : d ≠ 0 := by
    rintro rfl
    rw [abs_zero] at hD
    linarith
  have hB : BesideAll s.loops (ccw ++ cw) d o.posEqualEps gap C σ a := ⟨he, hd, hin, hsim, hdis, fun X hX => by rw [← shape_sum]; exact htwo X hX, hσ, hal, parent_range hl, hf, hls, hC, hX⟩
  obtain ⟨s', h1, h2, h3, h4⟩ := C72_shape_offset env henv s hs d o he ht hD (fun ip hip => (hin ip hip).proper) ccw cw hl hf gap C hC hF hB.changes hT hg hj0 hj
  refine ⟨s', h1, h2, h3, fun X => ?_⟩
  have hval : (if 0 < d then a + 1 else a) = a + if 0 < d then 1 else 0 := by split_ifs <;> ring
  rw [h4 X, hval]
  constructor
  · rintro ⟨l, hlm, hon, hko⟩
    have hk := hB.all hlm hon hko
    have hip := List.getElem?_eq_getElem (parent_range hl l hlm)
    obtain ⟨-, ⟨F, hF, e⟩, hw⟩ := ((hal _ _ hip).points X).mp ⟨_, loopsOf_mem hlm rfl, hon⟩
    refine ⟨hk, ⟨_, List.mem_of_getElem? hip, F, hF, e⟩, ?_⟩
    rw [shape_sum, beside_sum hin hsim hdis hB.htwo hd hip (hσ _ _ hip) hk hF e, hw]
    ring
  · rintro ⟨hk, ⟨ip, hip, F, hF, e⟩, hw⟩
    obtain ⟨j, hj, rfl⟩ := List.getElem_of_mem hip
    have hj' := List.getElem?_eq_getElem hj
    have := beside_sum hin hsim hdis hB.htwo hd hj' (hσ _ _ hj') hk hF e
    rw [shape_sum] at hw
    obtain ⟨r, hr, hr'⟩ := ((hal _ _ hj').points X).mpr ⟨hk _ hip, ⟨F, hF, e⟩, by omega⟩
    obtain ⟨m, hm, -, rfl⟩ := mem_loopsOf hr
    exact ⟨m, hm, hr', fun i jp hi _ => hk jp (List.mem_of_getElem? hi)⟩

/-- **C74** C74_shape_region without assumptions on where the distances are kept: the offset loops cross at angles, two at a time. -/
theorem C74_region_cross (env : Env ℝ) (henv : env.Lawful) (s : Shape ℝ) (hs : ∀ ip ∈ s.loops, ip.index.Serves ip.pline) (d : ℝ)
    (o : ShapeOffsetOptions ℝ) (he : 0 < o.posEqualEps) (ht : 0 < o.offsetDistEps) (hD : o.offsetDistEps ≤ |d|)
    (hin : ∀ ip ∈ s.loops, Loop ip.pline) (hsim : ∀ ip ∈ s.loops, SimpleLoop ip.pline)
    (hdis : ∀ (i j : Nat) (ip jp : IndexedPline ℝ), s.loops[i]? = some ip → s.loops[j]? = some jp → i ≠ j → ∀ X, OnPline ip.pline X → ¬ OnPline jp.pline X)
    (a : ℤ) (htwo : ∀ X, (∀ ip ∈ s.loops, ¬ OnPline ip.pline X) → s.windingNumber X = a ∨ s.windingNumber X = a + 1)
    (σ : Nat → ℤ) (hσ : ∀ (j : Nat) (ip : IndexedPline ℝ), s.loops[j]? = some ip → TurnsLike ip.pline (σ j))
    (ccw cw : List (OffsetLoop ℝ)) (hl : ShapeLoops env s d o ccw cw) (hf : ∀ l ∈ ccw ++ cw, FullLoop l.ip.pline o.posEqualEps)
    (hal : ∀ (j : Nat) (ip : IndexedPline ℝ), s.loops[j]? = some ip → Alongside ip.pline d (σ j) (loopsOf (ccw ++ cw) j))
    (hls : ∀ l ∈ ccw ++ cw, SimpleLoop l.ip.pline)
    (gap : ℝ) (C : Nat → List Cut) (hC : ShapeCuts (ccw ++ cw) o.posEqualEps gap C) (hF : ShapeFinds (ccw ++ cw) o.posEqualEps)
    (hX : ShapeCross (ccw ++ cw) C) (hT : ShapeTests s.loops (ccw ++ cw) |d| o.posEqualEps o.offsetDistEps C)
    (hg : o.posEqualEps ≤ gap) (hj0 : 0 ≤ o.sliceJoinEps) (hj : 2 * o.sliceJoinEps ≤ gap) :
    ∃ s', s.parallelOffset env d o = .ok s' ∧ (∀ ip ∈ s'.loops, Loop ip.pline) ∧ ∀ Y, (∀ ip ∈ s'.loops, ¬ OnPline ip.pline Y) →
      ((∀ ip ∈ s.loops, Keeps ip.pline |d| Y) → s'.windingNumber Y = s.windingNumber Y) ∧
      ((∃ ip ∈ s.loops, ¬ Keeps ip.pline |d| Y) → s'.windingNumber Y = if 0 < d then a else a + 1) := by
  have hd : d ≠ 0 := by
    rintro rfl
    rw [abs_zero] at hD
    linarith
  have hB : BesideAll s.loops (ccw ++ cw) d o.posEqualEps gap C σ a := ⟨he, hd, hin, hsim, hdis, fun X hX => by rw [← shape_sum]; exact htwo X hX, hσ, hal, parent_range hl, hf, hls, hC, hX⟩
  exact C74_shape_region env henv s hs d o he ht hD hin hsim hdis a htwo σ hσ ccw cw hl hf hal hls gap C hC hF hB.changes hT hg hj0 hj

/-- **C74** C74_shape_area without assumptions on where the distances are kept. -/
theorem C74_area_cross (env : Env ℝ) (henv : env.Lawful) (s : Shape ℝ) (hs : ∀ ip ∈ s.loops, ip.index.Serves ip.pline) (d : ℝ)
    (o : ShapeOffsetOptions ℝ) (he : 0 < o.posEqualEps) (ht : 0 < o.offsetDistEps) (hD : o.offsetDistEps ≤ |d|)
    (hin : ∀ ip ∈ s.loops, Loop ip.pline) (hsim : ∀ ip ∈ s.loops, SimpleLoop ip.pline)
    (hdis : ∀ (i j : Nat) (ip jp : IndexedPline ℝ), s.loops[i]? = some ip → s.loops[j]? = some jp → i ≠ j → ∀ X, OnPline ip.pline X → ¬ OnPline jp.pline X)
    (τ : ℤ) (hτ : τ = 1 ∨ τ = -1) (htwo : ∀ X, (∀ ip ∈ s.loops, ¬ OnPline ip.pline X) → s.windingNumber X = 0 ∨ s.windingNumber X = τ)
    (σ : Nat → ℤ) (hσ : ∀ (j : Nat) (ip : IndexedPline ℝ), s.loops[j]? = some ip → TurnsLike ip.pline (σ j))
    (ccw cw : List (OffsetLoop ℝ)) (hl : ShapeLoops env s d o ccw cw) (hf : ∀ l ∈ ccw ++ cw, FullLoop l.ip.pline o.posEqualEps)
    (hal : ∀ (j : Nat) (ip : IndexedPline ℝ), s.loops[j]? = some ip → Alongside ip.pline d (σ j) (loopsOf (ccw ++ cw) j))
    (hls : ∀ l ∈ ccw ++ cw, SimpleLoop l.ip.pline)
    (gap : ℝ) (C : Nat → List Cut) (hC : ShapeCuts (ccw ++ cw) o.posEqualEps gap C) (hF : ShapeFinds (ccw ++ cw) o.posEqualEps)
    (hX : ShapeCross (ccw ++ cw) C) (hT : ShapeTests s.loops (ccw ++ cw) |d| o.posEqualEps o.offsetDistEps C)
    (hg : o.posEqualEps ≤ gap) (hj0 : 0 ≤ o.sliceJoinEps) (hj : 2 * o.sliceJoinEps ≤ gap) :
    ∃ s', s.parallelOffset env d o = .ok s' ∧
      (0 < d * τ → (s'.loops.map fun ip => ip.pline.area).sum =
        τ * planeArea {z | s.windingNumber ⟨z.1, z.2⟩ ≠ 0 ∧ ∀ ip ∈ s.loops, Keeps ip.pline |d| ⟨z.1, z.2⟩}) ∧
      (d * τ < 0 → (s'.loops.map fun ip => ip.pline.area).sum =
        τ * planeArea {z | s.windingNumber ⟨z.1, z.2⟩ ≠ 0 ∨ ∃ ip ∈ s.loops, ¬ Keeps ip.pline |d| ⟨z.1, z.2⟩}) := by
  have hd : d ≠ 0 := by
    rintro rfl
    rw [abs_zero] at hD
    linarith
  have hB : BesideAll s.loops (ccw ++ cw) d o.posEqualEps gap C σ (if τ = 1 then 0 else -1) := ⟨he, hd, hin, hsim, hdis, fun X hX => by
    rw [← shape_sum]; rcases hτ with rfl | rfl <;> rcases htwo X hX with e | e <;> simp [e], hσ, hal, parent_range hl, hf, hls, hC, hX⟩
  exact C74_shape_area env henv s hs d o he ht hD hin hsim hdis τ hτ htwo σ hσ ccw cw hl hf hal hls gap C hC hF hB.changes hT hg hj0 hj

/-- **C74** Which offset loops of a shape come from one of its polylines: all that `parallel_offset` returns for it, if none of them is turned over.  So the offset loops are the
parallel curve of that polyline if the results of `parallel_offset` are (see C74_offset_curve). -/
theorem C74_loops_alongside (env : Env ℝ) (s : Shape ℝ) (d : ℝ) (o : ShapeOffsetOptions ℝ) (ccw cw : List (OffsetLoop ℝ)) (hl : ShapeLoops env s d o ccw cw)
    (j : Nat) (ip : IndexedPline ℝ) (hj : s.loops[j]? = some ip) (rs : List (Pline ℝ))
    (hrs : parallelOffset env ip.pline d ⟨some ip.index, false, o.posEqualEps, o.sliceJoinEps, o.offsetDistEps⟩ = .ok rs)
    (hno : ∀ r ∈ rs, TurnedOver (decide (j < s.ccw.length)) d r = false) :
    (∀ r, r ∈ loopsOf (ccw ++ cw) j ↔ r ∈ rs) ∧ ∀ σ, Alongside ip.pline d σ rs → Alongside ip.pline d σ (loopsOf (ccw ++ cw) j) := by
  have hmem : ∀ r, r ∈ loopsOf (ccw ++ cw) j ↔ r ∈ rs := by
    obtain ⟨rss, h2, e1, e2⟩ := hl.offsets
    have hat : rss[j]? = some rs := by
      have hlt : j < s.loops.length := (List.getElem?_eq_some_iff.mp hj).1
      have hlt' : j < rss.length := by rw [← h2.length_eq]; exact hlt
      have h := h2.get hlt hlt'
      have he : s.loops.get ⟨j, hlt⟩ = ip := by rw [List.get_eq_getElem]; exact (List.getElem?_eq_some_iff.mp hj).2
      rw [he, hrs] at h
      rw [List.getElem?_eq_getElem hlt', Except.ok.inj h]
      rfl
    have pairs : ∀ (L : List (OffsetLoop ℝ)) r, (∃ l ∈ L, l.parent = j ∧ l.ip.pline = r) ↔ (j, r) ∈ L.map fun l => (l.parent, l.ip.pline) := by
      intro L r
      simp only [List.mem_map, Prod.mk.injEq]
    have flat : ∀ (P : Nat → Pline ℝ → Bool) r, (j, r) ∈ (rss.zipIdx.flatMap fun (x : List (Pline ℝ) × Nat) => (x.1.filter fun r => P x.2 r).map fun r => (x.2, r)) ↔
        r ∈ rs ∧ P j r = true := by
      intro P r
      simp only [List.mem_flatMap, List.mem_map, List.mem_filter, Prod.mk.injEq]
      constructor
      · rintro ⟨⟨rs', k⟩, hx, r', ⟨h1, h2⟩, rfl, rfl⟩
        rw [List.mem_zipIdx_iff_getElem?] at hx
        simp only at hx h1 h2
        rw [hat] at hx
        cases hx
        exact ⟨h1, h2⟩
      · rintro ⟨h1, h2⟩
        exact ⟨(rs, j), by rw [List.mem_zipIdx_iff_getElem?]; exact hat, r, ⟨h1, h2⟩, rfl, rfl⟩
    intro r
    have hsplit : r ∈ loopsOf (ccw ++ cw) j ↔ (∃ l ∈ ccw, l.parent = j ∧ l.ip.pline = r) ∨ ∃ l ∈ cw, l.parent = j ∧ l.ip.pline = r := by
      unfold loopsOf
      simp only [List.mem_map, List.mem_filter, List.mem_append, beq_iff_eq]
      constructor
      · rintro ⟨l, ⟨h | h, h1⟩, h2⟩
        · exact Or.inl ⟨l, h, h1, h2⟩
        · exact Or.inr ⟨l, h, h1, h2⟩
      · rintro (⟨l, h, h1, h2⟩ | ⟨l, h, h1, h2⟩)
        · exact ⟨l, ⟨Or.inl h, h1⟩, h2⟩
        · exact ⟨l, ⟨Or.inr h, h1⟩, h2⟩
    rw [hsplit, pairs, pairs, e1, e2, flat (fun k r => !TurnedOver (decide (k < s.ccw.length)) d r && !Scalar.lt r.area 0),
      flat (fun k r => !TurnedOver (decide (k < s.ccw.length)) d r && Scalar.lt r.area 0)]
    constructor
    · rintro (h | h) <;> exact h.1
    · intro h
      have := hno r h
      cases hc : Scalar.lt r.area 0
      · exact Or.inl ⟨h, by simp [this, hc]⟩
      · exact Or.inr ⟨h, by simp [this, hc]⟩
  refine ⟨hmem, fun σ ha => ⟨fun X => ?_, fun l hl' => ha.along l ((hmem l).mp hl')⟩⟩
  rw [← ha.points X]
  exact ⟨fun ⟨l, h1, h2⟩ => ⟨l, (hmem l).mp h1, h2⟩, fun ⟨l, h1, h2⟩ => ⟨l, (hmem l).mpr h1, h2⟩⟩

/-! ## Example: island and bay -/

/-- the offset loops of island and bay cross at angles -/
theorem islet_cross (env : Env ℝ) : ShapeCross ([isletOut env] ++ [isletIn env]) isletCuts := by
  have c2 : ∀ t, curveAt (rawLoop box4 (-1)) 2 t = ⟨5, 4 * t⟩ := fun t => (box4_curve t).2.2.1
  have c4 : ∀ t, curveAt (rawLoop box4 (-1)) 4 t = ⟨4 - 4 * t, 5⟩ := fun t => (box4_curve t).2.2.2.2.1
  have c1 : ∀ t, curveAt bayIn 1 t = ⟨-29 + 56 * t, 28 - 42 * t⟩ := fun t => (bayIn_curve t).2.1
  have lin : ∀ a b t : ℝ, HasDerivAt (fun s : ℝ => a + b * s) b t := fun a b t => by simpa using ((hasDerivAt_id t).const_mul b).const_add a
  have lin' : ∀ a b t : ℝ, HasDerivAt (fun s : ℝ => a - b * s) (-b) t := fun a b t => by simpa using ((hasDerivAt_id t).const_mul b).const_sub a
  have lin0 : ∀ b t : ℝ, HasDerivAt (fun s : ℝ => b * s) b t := fun b t => by simpa using (hasDerivAt_id t).const_mul b
  have key : ∀ c ∈ isletCuts 0, ∀ c' ∈ isletCuts 1, ∀ a b a' b' : ℝ, HasDerivAt (fun s => (curveAt (rawLoop box4 (-1)) c.1 s).x) a c.2 →
      HasDerivAt (fun s => (curveAt (rawLoop box4 (-1)) c.1 s).y) b c.2 → HasDerivAt (fun s => (curveAt bayIn c'.1 s).x) a' c'.2 →
      HasDerivAt (fun s => (curveAt bayIn c'.1 s).y) b' c'.2 → a * b' - b * a' ≠ 0 := by
    intro c hc c' hc' a b a' b' h1 h2 h3 h4
    have hc1 : c'.1 = 1 := by rcases List.mem_pair.mp hc' with rfl | rfl <;> rfl
    rw [hc1] at h3 h4
    simp only [c1] at h3 h4
    obtain rfl := h3.unique (lin _ _ _)
    obtain rfl := h4.unique (lin' _ _ _)
    rcases List.mem_pair.mp hc with rfl | rfl
    · simp only [c2] at h1 h2
      obtain rfl := h1.unique (hasDerivAt_const _ _)
      obtain rfl := h2.unique (lin0 _ _)
      norm_num
    · simp only [c4] at h1 h2
      obtain rfl := h1.unique (lin' _ _ _)
      obtain rfl := h2.unique (hasDerivAt_const _ _)
      norm_num
  refine ⟨?_, ?_⟩
  · intro i j l m hl hm hne c hc c' hc' e
    rcases islet_two hl with ⟨rfl, rfl⟩ | ⟨rfl, rfl⟩ <;> rcases islet_two hm with ⟨rfl, rfl⟩ | ⟨rfl, rfl⟩
    · exact absurd rfl hne
    · exact fun a b a' b' h1 h2 h3 h4 => key c hc c' hc' a b a' b' h1 h2 h3 h4
    · intro a b a' b' h1 h2 h3 h4 h0
      exact key c' hc' c hc a' b' a b h3 h4 h1 h2 (by linarith)
    · exact absurd rfl hne
  · intro i j k l m n hl hm hn h1 h2 h3
    rcases islet_two hl with ⟨rfl, rfl⟩ | ⟨rfl, rfl⟩ <;> rcases islet_two hm with ⟨rfl, rfl⟩ | ⟨rfl, rfl⟩ <;> rcases islet_two hn with ⟨rfl, rfl⟩ | ⟨rfl, rfl⟩ <;>
      first | exact absurd rfl h1 | exact absurd rfl h2 | exact absurd rfl h3

/-- All hypotheses hold for island and bay: the offset by -1 consists of exactly the points of distance 1 from the nearer of the two, between them. -/
theorem islet_curve (env : Env ℝ) (henv : env.Lawful) : ∃ s s', Shape.fromPlines env [box4, bay] = .ok s ∧ s.parallelOffset env (-1) isletOpts = .ok s' ∧
    ∀ X, (∃ ip ∈ s'.loops, OnPline ip.pline X) ↔ (Keeps box4 1 X ∧ Keeps bay 1 X) ∧ (∃ F, (OnPline box4 F ∨ OnPline bay F) ∧ edist X F = 1) ∧
      box4.windingNumber X + bay.windingNumber X = -1 := by
  obtain ⟨s, a, b, hs, h⟩ := islet_exists env henv
  have hd : |(-1 : ℝ)| = 1 := by norm_num
  have hsum : ∀ X, s.windingNumber X = box4.windingNumber X + bay.windingNumber X := by
    intro X
    unfold Shape.windingNumber
    rw [h.loops]
    simp [h.island, h.bay]
  have hserve : ∀ ip ∈ s.loops, ip.index.Serves ip.pline := by
    rw [h.loops]
    intro ip hip
    rcases List.mem_pair.mp hip with rfl | rfl
    · rw [h.island]; exact h.serve1
    · rw [h.bay]; exact h.serve2
  have two : ∀ {P : Nat → Pline ℝ → Prop}, P 0 box4 → P 1 bay → ∀ (j : Nat) (ip : IndexedPline ℝ), s.loops[j]? = some ip → P j ip.pline := by
    intro P h0 h1 j ip hj
    rw [h.loops] at hj
    rcases j with _ | _ | j
    · cases Option.some.inj hj; rw [h.island]; exact h0
    · cases Option.some.inj hj; rw [h.bay]; exact h1
    · simp at hj
  have both : ∀ {P : Pline ℝ → Prop}, P box4 → P bay → ∀ ip ∈ s.loops, P ip.pline := by
    intro P h0 h1 ip hip
    rw [h.loops] at hip
    rcases List.mem_pair.mp hip with rfl | rfl
    · rw [h.island]; exact h0
    · rw [h.bay]; exact h1
  have hF : ShapeFinds ([isletOut env] ++ [isletIn env]) isletOpts.posEqualEps := by
    intro i l hl j m hm hij
    rcases islet_two hl with ⟨rfl, rfl⟩ | ⟨rfl, rfl⟩ <;> rcases islet_two hm with ⟨rfl, rfl⟩ | ⟨rfl, rfl⟩
    · exact absurd hij (lt_irrefl _)
    · exact islet_finds
    · exact absurd hij (by norm_num)
    · exact absurd hij (lt_irrefl _)
  have hall : ∀ {P : Pline ℝ → Prop}, P (rawLoop box4 (-1)) → P bayIn → ∀ l ∈ [isletOut env] ++ [isletIn env], P l.ip.pline := by
    intro P h0 h1 l hl
    rcases List.mem_pair.mp hl with rfl | rfl
    · exact h0
    · exact h1
  have hdis : ∀ (i j : Nat) (ip jp : IndexedPline ℝ), s.loops[i]? = some ip → s.loops[j]? = some jp → i ≠ j → ∀ X, OnPline ip.pline X → ¬ OnPline jp.pline X := by
    intro i j ip jp hi hj hne X hX hX'
    rw [h.loops] at hi hj
    rcases i with _ | _ | i <;> rcases j with _ | _ | j <;> simp at hi hj hne
    · subst hi hj; rw [h.island] at hX; rw [h.bay] at hX'; exact islet_disjoint hX hX'
    · subst hi hj; rw [h.bay] at hX; rw [h.island] at hX'; exact islet_disjoint hX' hX
  have htwo : ∀ X, (∀ ip ∈ s.loops, ¬ OnPline ip.pline X) → s.windingNumber X = -1 ∨ s.windingNumber X = -1 + 1 := by
    intro X hX
    rw [hsum]
    rw [h.loops] at hX
    have e1 := hX a (by simp)
    have e2 := hX b (by simp)
    rw [h.island] at e1
    rw [h.bay] at e2
    exact islet_numbers e1 e2
  obtain ⟨s', h1, -, -, h2⟩ := C72_shape_curve env henv s hserve (-1) isletOpts (by norm_num [isletOpts]) (by norm_num [isletOpts]) (by norm_num [isletOpts])
    (both (straight_loop box4_straight) (straight_loop bay_straight)) (both box4_simple bay_simple)
    hdis (-1) htwo
    (fun j => if j = 0 then 1 else -1) (two (P := fun j p => TurnsLike p (if j = 0 then 1 else -1)) box4_turns bay_turns)
    _ _ (islet_loops env henv h) (hall (P := fun p => FullLoop p isletOpts.posEqualEps) box4_raw_full bayIn_full)
    (two (P := fun j p => Alongside p (-1) (if j = 0 then 1 else -1) (loopsOf ([isletOut env] ++ [isletIn env]) j)) box4_along bayIn_along)
    (hall box4_raw_simple bayIn_simple) 1 isletCuts
    (islet_cuts env) hF (islet_cross env) (by rw [hd]; exact islet_tests env h) (by norm_num [isletOpts]) (by norm_num [isletOpts]) (by norm_num [isletOpts])
  refine ⟨s, s', hs, h1, fun X => ?_⟩
  rw [h2 X, hd, if_neg (by norm_num), hsum]
  have e1 : (∀ ip ∈ s.loops, Keeps ip.pline 1 X) ↔ Keeps box4 1 X ∧ Keeps bay 1 X := by
    refine ⟨fun hc => ?_, fun hk => both (P := fun p => Keeps p 1 X) hk.1 hk.2⟩
    rw [h.loops] at hc
    have e1 := hc a (by simp)
    have e2 := hc b (by simp)
    rw [h.island] at e1
    rw [h.bay] at e2
    exact ⟨e1, e2⟩
  have e2 : (∃ ip ∈ s.loops, ∃ F, OnPline ip.pline F ∧ edist X F = 1) ↔ ∃ F, (OnPline box4 F ∨ OnPline bay F) ∧ edist X F = 1 := by
    rw [h.loops]
    constructor
    · rintro ⟨ip, hip, F, hF, e⟩
      rcases List.mem_pair.mp hip with rfl | rfl
      · exact ⟨F, Or.inl (by rw [← h.island]; exact hF), e⟩
      · exact ⟨F, Or.inr (by rw [← h.bay]; exact hF), e⟩
    · rintro ⟨F, hF | hF, e⟩
      · exact ⟨a, by simp, F, by rw [h.island]; exact hF, e⟩
      · exact ⟨b, by simp, F, by rw [h.bay]; exact hF, e⟩
  rw [e1, e2]

/-- The hypotheses of C74_loops_alongside hold for the bay: `parallel_offset` returns one polyline for it, which is not turned over. -/
theorem islet_bay_loops (env : Env ℝ) (henv : env.Lawful) {s : Shape ℝ} {a b : IndexedPline ℝ} (h : Islet s a b) :
    (∀ r, r ∈ loopsOf ([isletOut env] ++ [isletIn env]) 1 ↔ r ∈ [bayIn]) ∧ Alongside bay (-1) (-1) (loopsOf ([isletOut env] ++ [isletIn env]) 1) := by
  have hj : s.loops[1]? = some b := by rw [h.loops]; rfl
  have hg : Scalar.gt bayIn.area 0 = false := by rw [RealScalar.gt_eq]; exact decide_eq_false (by rw [bayIn_area]; norm_num)
  have hc := C74_loops_alongside env s (-1) isletOpts _ _ (islet_loops env henv h) 1 b hj [bayIn] (by rw [h.bay]; exact bay_offset env henv _ h.serve2) (by
    intro r hr
    rw [List.mem_singleton] at hr
    subst hr
    rw [h.ccw]
    unfold TurnedOver
    rw [if_neg (by simp), hg, Bool.and_false])
  rw [h.bay] at hc
  exact ⟨hc.1, hc.2 (-1) bayIn_along⟩

end Cavc
