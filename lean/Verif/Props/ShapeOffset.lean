import Verif.Lemmas.ShapeResult
import Verif.Lemmas.IsletWater

/-! # C72: which points the parallel offset of a shape consists of -/

set_option linter.unusedVariables false

namespace Cavc
open Pline RealScalar

/-- The offset loops of a shape are determined by the shape. -/
theorem shapeLoops_unique {env : Env ℝ} {s : Shape ℝ} {d : ℝ} {o : ShapeOffsetOptions ℝ} {ccw cw ccw' cw' : List (OffsetLoop ℝ)}
    (h : ShapeLoops env s d o ccw cw) (h' : ShapeLoops env s d o ccw' cw') : ccw = ccw' ∧ cw = cw' := by
  obtain ⟨rss, h1, h2, h3⟩ := h.offsets
  obtain ⟨rss', h1', h2', h3'⟩ := h'.offsets
  have key : ∀ (ls : List (IndexedPline ℝ)) (a b : List (List (Pline ℝ))),
      List.Forall₂ (fun (ip : IndexedPline ℝ) rs => parallelOffset env ip.pline d ⟨some ip.index, false, o.posEqualEps, o.sliceJoinEps, o.offsetDistEps⟩ = .ok rs) ls a →
      List.Forall₂ (fun (ip : IndexedPline ℝ) rs => parallelOffset env ip.pline d ⟨some ip.index, false, o.posEqualEps, o.sliceJoinEps, o.offsetDistEps⟩ = .ok rs) ls b → a = b := by
    intro ls
    induction ls with
    | nil => intro a b ha hb; cases ha; cases hb; rfl
    | cons l ls ih =>
      intro a b ha hb
      cases ha with
      | cons ha1 ha2 =>
        cases hb with
        | cons hb1 hb2 =>
          rw [ha1] at hb1
          injection hb1 with hb1
          rw [hb1, ih _ _ ha2 hb2]
  obtain rfl := key _ _ _ h1 h1'
  have inj : ∀ (a b : List (OffsetLoop ℝ)), (∀ l ∈ a, l.ip = IndexedPline.new env l.ip.pline) → (∀ l ∈ b, l.ip = IndexedPline.new env l.ip.pline) →
      (a.map fun l => (l.parent, l.ip.pline)) = (b.map fun l => (l.parent, l.ip.pline)) → a = b := by
    intro a
    induction a with
    | nil => intro b _ _ e; cases b with | nil => rfl | cons => simp at e
    | cons x a ih =>
      intro b ha hb e
      cases b with
      | nil => simp at e
      | cons y b =>
        simp only [List.map_cons, List.cons.injEq, Prod.mk.injEq] at e
        rw [ih b (fun l hl => ha l (by simp [hl])) (fun l hl => hb l (by simp [hl])) e.2]
        have hx := ha x (by simp)
        have hy := hb y (by simp)
        rw [e.1.2, ← hy] at hx
        obtain ⟨px, ix⟩ := x
        obtain ⟨py, iy⟩ := y
        dsimp only at hx e
        rw [hx, e.1.1]
  exact ⟨inj _ _ (fun l hl => h.own l (by simp [hl])) (fun l hl => h'.own l (by simp [hl])) (h2.trans h2'.symm),
    inj _ _ (fun l hl => h.own l (by simp [hl])) (fun l hl => h'.own l (by simp [hl])) (h3.trans h3'.symm)⟩

/-- **C72** `Shape::parallel_offset` returns closed polylines of at least two vertexes.  They consist of the points of the parallel offsets
of the single polylines of the shape that keep the distance from all other polylines of the shape: whatever comes nearer to another
polyline is left out, and nothing else. -/
theorem C72_shape_offset (env : Env ℝ) (henv : env.Lawful) (s : Shape ℝ) (hs : ∀ ip ∈ s.loops, ip.index.Serves ip.pline) (d : ℝ)
    (o : ShapeOffsetOptions ℝ) (he : 0 < o.posEqualEps) (ht : 0 < o.offsetDistEps) (hD : o.offsetDistEps ≤ |d|)
    (hin : ∀ ip ∈ s.loops, ∀ e ∈ ip.pline.segs, IsLine e.1 ∨ ProperArc e.1 e.2)
    (ccw cw : List (OffsetLoop ℝ)) (hl : ShapeLoops env s d o ccw cw) (hf : ∀ l ∈ ccw ++ cw, FullLoop l.ip.pline o.posEqualEps)
    (gap : ℝ) (C : Nat → List Cut) (hC : ShapeCuts (ccw ++ cw) o.posEqualEps gap C) (hF : ShapeFinds (ccw ++ cw) o.posEqualEps)
    (hK : ShapeChanges s.loops (ccw ++ cw) |d| C) (hT : ShapeTests s.loops (ccw ++ cw) |d| o.posEqualEps o.offsetDistEps C)
    (hg : o.posEqualEps ≤ gap) (hj0 : 0 ≤ o.sliceJoinEps) (hj : 2 * o.sliceJoinEps ≤ gap) :
    ∃ s', s.parallelOffset env d o = .ok s' ∧ s'.WellFormed ∧ (∀ ip ∈ s'.loops, ip.pline.closed = true ∧ 2 ≤ ip.pline.verts.length) ∧
      ∀ X, (∃ ip ∈ s'.loops, OnPline ip.pline X) ↔ ∃ l ∈ ccw ++ cw, OnPline l.ip.pline X ∧ KeepsOthers s.loops |d| l.parent X := by
  obtain ⟨ccw', cw', hl', -, hok⟩ := C51_shape_offset env henv s hs d o
  obtain ⟨rfl, rfl⟩ := shapeLoops_unique hl' hl
  obtain ⟨dss, rs, hP, -, hok⟩ := hok fun l hlm => (hf l hlm).two
  have hserve : ∀ l ∈ ccw' ++ cw', l.ip.index.Serves l.ip.pline := by
    intro l hlm
    rw [hl.own l hlm]
    exact approxIndex_serves env henv _
  obtain ⟨hsound, hpts, -⟩ := shape_result env he ht hD hin hserve hf hC hF hK hT hg hj0 hj hP
  obtain ⟨s', hs', hw, h1, h2⟩ := hok fun r hr => (hsound r hr).2.1
  have hmem : ∀ q, (∃ ip ∈ s'.loops, ip.pline = q) ↔ (∃ (i : Nat) (l : OffsetLoop ℝ) (ss : List (ViewData ℝ)),
      (ccw' ++ cw')[i]? = some l ∧ dss[i]? = some (ss, true) ∧ l.ip.pline = q) ∨ q ∈ rs := by
    intro q
    have e1 : (∃ ip ∈ s'.loops, ip.pline = q) ↔ q ∈ s'.ccw.map IndexedPline.pline ∨ q ∈ s'.cw.map IndexedPline.pline := by
      unfold Shape.loops
      rw [← List.mem_append, ← List.map_append, List.mem_map]
    rw [e1, h1, h2, List.mem_append, List.mem_append, mem_wholeLoops, mem_wholeLoops, List.mem_filter, List.mem_filter]
    constructor
    · rintro ((⟨i, l, ss, a, b, c⟩ | ⟨h, -⟩) | (⟨i, l, ss, a, b, c⟩ | ⟨h, -⟩))
      · exact Or.inl ⟨i, l, ss, by rw [List.getElem?_append_left (List.getElem?_eq_some_iff.mp a).1]; exact a, b, c⟩
      · exact Or.inr h
      · refine Or.inl ⟨ccw'.length + i, l, ss, by rw [List.getElem?_append_right (by omega), Nat.add_sub_cancel_left]; exact a, ?_, c⟩
        rwa [List.getElem?_drop] at b
      · exact Or.inr h
    · rintro (⟨i, l, ss, a, b, c⟩ | h)
      · by_cases hi : i < ccw'.length
        · rw [List.getElem?_append_left hi] at a
          exact Or.inl (Or.inl ⟨i, l, ss, a, b, c⟩)
        · rw [List.getElem?_append_right (by omega)] at a
          refine Or.inr (Or.inl ⟨i - ccw'.length, l, ss, a, ?_, c⟩)
          rw [List.getElem?_drop, Nat.add_sub_cancel' (by omega)]
          exact b
      · by_cases hc : (q.closed && !Scalar.lt q.area 0) = true
        · exact Or.inl (Or.inr ⟨h, hc⟩)
        · exact Or.inr (Or.inr ⟨h, by rw [Bool.not_eq_true] at hc; rw [hc]; rfl⟩)
  refine ⟨s', hs', hw, ?_, fun X => ?_⟩
  · intro ip hip
    rcases (hmem ip.pline).mp ⟨ip, hip, rfl⟩ with ⟨i, l, ss, a, b, c⟩ | h
    · have := hf l (List.mem_of_getElem? a)
      rw [← c]
      exact ⟨this.closed, this.two⟩
    · exact ⟨(hsound _ h).1, (hsound _ h).2.1⟩
  · rw [← hpts X]
    constructor
    · rintro ⟨ip, hip, hX⟩
      rcases (hmem ip.pline).mp ⟨ip, hip, rfl⟩ with ⟨i, l, ss, a, b, c⟩ | h
      · exact Or.inl ⟨i, l, ss, a, b, by rw [c]; exact hX⟩
      · exact Or.inr ⟨_, h, hX⟩
    · rintro (⟨i, l, ss, a, b, hX⟩ | ⟨r, hr, hX⟩)
      · obtain ⟨ip, hip, e⟩ := (hmem _).mpr (Or.inl ⟨i, l, ss, a, b, rfl⟩)
        exact ⟨ip, hip, by rw [e]; exact hX⟩
      · obtain ⟨ip, hip, e⟩ := (hmem _).mpr (Or.inr hr)
        exact ⟨ip, hip, by rw [e]; exact hX⟩

/-- **C72** If the offsets of the single polylines keep the distance from the polylines they come from (C60, C66 and C70 say when they do),
all points of the result keep the distance from all polylines of the shape. -/
theorem C72_keeps_distance (env : Env ℝ) (henv : env.Lawful) (s : Shape ℝ) (hs : ∀ ip ∈ s.loops, ip.index.Serves ip.pline) (d : ℝ)
    (o : ShapeOffsetOptions ℝ) (he : 0 < o.posEqualEps) (ht : 0 < o.offsetDistEps) (hD : o.offsetDistEps ≤ |d|)
    (hin : ∀ ip ∈ s.loops, ∀ e ∈ ip.pline.segs, IsLine e.1 ∨ ProperArc e.1 e.2)
    (ccw cw : List (OffsetLoop ℝ)) (hl : ShapeLoops env s d o ccw cw) (hf : ∀ l ∈ ccw ++ cw, FullLoop l.ip.pline o.posEqualEps)
    (gap : ℝ) (C : Nat → List Cut) (hC : ShapeCuts (ccw ++ cw) o.posEqualEps gap C) (hF : ShapeFinds (ccw ++ cw) o.posEqualEps)
    (hK : ShapeChanges s.loops (ccw ++ cw) |d| C) (hT : ShapeTests s.loops (ccw ++ cw) |d| o.posEqualEps o.offsetDistEps C)
    (hg : o.posEqualEps ≤ gap) (hj0 : 0 ≤ o.sliceJoinEps) (hj : 2 * o.sliceJoinEps ≤ gap)
    (hown : ∀ l ∈ ccw ++ cw, ∀ ip, s.loops[l.parent]? = some ip → ∀ X, OnPline l.ip.pline X → Keeps ip.pline |d| X) :
    ∃ s', s.parallelOffset env d o = .ok s' ∧ ∀ ip' ∈ s'.loops, ∀ X, OnPline ip'.pline X → ∀ ip ∈ s.loops, ∀ q, OnPline ip.pline q → |d| ≤ edist X q := by
  obtain ⟨s', h1, -, -, h2⟩ := C72_shape_offset env henv s hs d o he ht hD hin ccw cw hl hf gap C hC hF hK hT hg hj0 hj
  refine ⟨s', h1, fun ip' hip' X hX ip hip => ?_⟩
  obtain ⟨l, hlm, hXl, hk⟩ := (h2 X).mp ⟨ip', hip', hX⟩
  obtain ⟨j, hj, rfl⟩ := List.getElem_of_mem hip
  by_cases hjp : j = l.parent
  · exact hown l hlm _ (by rw [← hjp, List.getElem?_eq_getElem hj]) X hXl
  · exact hk j _ (List.getElem?_eq_getElem hj) hjp

/-! ## Example: an island near the shore of a bay

The square of side 4 in a triangle around it, given clockwise, offset by 1 into the space between them: the offset loops, a rounded square and
a smaller triangle, cross in (5, 5/2) and (5/3, 5). -/

/-- the offset of the island keeps the distance from the island -/
theorem box4_raw_keeps {X : V2 ℝ} (h : OnPline (rawLoop box4 (-1)) X) : Keeps box4 1 X := by
  obtain ⟨k, hk, t, t0, t1, rfl⟩ := on_out h
  rintro q ⟨s, hs, u, u0, u1, rfl⟩
  obtain ⟨j, hj, rfl⟩ := box4_seg hs
  rw [← curveAt_vtx (by decide)]
  obtain ⟨b0, b1, b2, b3⟩ := box4_inside hj u0 u1
  obtain ⟨a0, a1, a2, a3, a4, a5, a6, a7⟩ := box4_curve t
  obtain ⟨s0, c0, s1, c1⟩ := q_bounds t0 t1
  have hsc := qs_qc t
  have hsq := edist_sq (curveAt (rawLoop box4 (-1)) k t) (curveAt box4 j u)
  have hnn := edist_nonneg (curveAt (rawLoop box4 (-1)) k t) (curveAt box4 j u)
  set Q := curveAt box4 j u
  have key : 1 ≤ ((curveAt (rawLoop box4 (-1)) k t).x - Q.x) ^ 2 + ((curveAt (rawLoop box4 (-1)) k t).y - Q.y) ^ 2 := by
    interval_cases k <;> simp only [a0, a1, a2, a3, a4, a5, a6, a7]
    · nlinarith [sq_nonneg (4 * t - Q.x)]
    · nlinarith [mul_nonneg s0 (by linarith : 0 ≤ 4 - Q.x), mul_nonneg c0 b2, sq_nonneg (4 - Q.x), sq_nonneg Q.y]
    · nlinarith [sq_nonneg (4 * t - Q.y)]
    · nlinarith [mul_nonneg c0 (by linarith : 0 ≤ 4 - Q.x), mul_nonneg s0 (by linarith : 0 ≤ 4 - Q.y), sq_nonneg (4 - Q.x), sq_nonneg (4 - Q.y)]
    · nlinarith [sq_nonneg (4 - 4 * t - Q.x)]
    · nlinarith [mul_nonneg s0 b0, mul_nonneg c0 (by linarith : 0 ≤ 4 - Q.y), sq_nonneg Q.x, sq_nonneg (4 - Q.y)]
    · nlinarith [sq_nonneg (4 - 4 * t - Q.y)]
    · nlinarith [mul_nonneg c0 b0, mul_nonneg s0 b2, sq_nonneg Q.x, sq_nonneg Q.y]
  rw [← hsq] at key
  nlinarith

/-- the offset of the bay keeps the distance from the bay -/
theorem bayIn_keeps {X : V2 ℝ} (h : OnPline bayIn X) : Keeps bay 1 X := by
  obtain ⟨k, hk, t, t0, t1, rfl⟩ := on_in h
  obtain ⟨a0, a1, a2⟩ := bayIn_curve t
  interval_cases k
  · apply bay_keeps <;> rw [a0] <;> dsimp only <;> linarith
  · apply bay_keeps <;> rw [a1] <;> dsimp only <;> linarith
  · apply bay_keeps <;> rw [a2] <;> dsimp only <;> linarith

/-- All hypotheses of C72 hold for island and bay. -/
theorem islet_offset (env : Env ℝ) (henv : env.Lawful) : ∃ s s', Shape.fromPlines env [box4, bay] = .ok s ∧ s.parallelOffset env (-1) isletOpts = .ok s' ∧
    (∀ X, (∃ ip ∈ s'.loops, OnPline ip.pline X) ↔ (OnPline (rawLoop box4 (-1)) X ∧ Keeps bay 1 X) ∨ (OnPline bayIn X ∧ Keeps box4 1 X)) ∧
    ∀ ip' ∈ s'.loops, ∀ X, OnPline ip'.pline X → ∀ q, OnPline box4 q ∨ OnPline bay q → 1 ≤ edist X q := by
  obtain ⟨s, a, b, hs, h⟩ := islet_exists env henv
  have hd : |(-1 : ℝ)| = 1 := by norm_num
  have hserve : ∀ ip ∈ s.loops, ip.index.Serves ip.pline := by
    rw [h.loops]
    intro ip hip
    rcases List.mem_pair.mp hip with rfl | rfl
    · rw [h.island]; exact h.serve1
    · rw [h.bay]; exact h.serve2
  have hin : ∀ ip ∈ s.loops, ∀ e ∈ ip.pline.segs, IsLine e.1 ∨ ProperArc e.1 e.2 := by
    rw [h.loops]
    intro ip hip
    rcases List.mem_pair.mp hip with rfl | rfl
    · rw [h.island]; exact fun e he => Or.inl (box4_lines e he)
    · rw [h.bay]; exact fun e he => Or.inl (bay_lines e he)
  have hf : ∀ l ∈ [isletOut env] ++ [isletIn env], FullLoop l.ip.pline isletOpts.posEqualEps := by
    intro l hl
    rcases List.mem_pair.mp hl with rfl | rfl
    · exact box4_raw_full
    · exact bayIn_full
  have hF : ShapeFinds ([isletOut env] ++ [isletIn env]) isletOpts.posEqualEps := by
    intro i l hl j m hm hij
    rcases islet_two hl with ⟨rfl, rfl⟩ | ⟨rfl, rfl⟩ <;> rcases islet_two hm with ⟨rfl, rfl⟩ | ⟨rfl, rfl⟩
    · exact absurd hij (lt_irrefl _)
    · exact islet_finds
    · exact absurd hij (by norm_num)
    · exact absurd hij (lt_irrefl _)
  obtain ⟨s', h1, -, -, h4⟩ := C72_shape_offset env henv s hserve (-1) isletOpts (by norm_num [isletOpts]) (by norm_num [isletOpts]) (by norm_num [isletOpts]) hin _ _ (islet_loops env henv h) hf 1 isletCuts
    (islet_cuts env) hF (by rw [hd]; exact islet_changes env h) (by rw [hd]; exact islet_tests env h) (by norm_num [isletOpts]) (by norm_num [isletOpts]) (by norm_num [isletOpts])
  obtain ⟨s'', h1', h5⟩ := C72_keeps_distance env henv s hserve (-1) isletOpts (by norm_num [isletOpts]) (by norm_num [isletOpts]) (by norm_num [isletOpts]) hin _ _ (islet_loops env henv h) hf 1 isletCuts
    (islet_cuts env) hF (by rw [hd]; exact islet_changes env h) (by rw [hd]; exact islet_tests env h) (by norm_num [isletOpts]) (by norm_num [isletOpts]) (by norm_num [isletOpts]) (by
      intro l hl ip hip X hX
      rw [h.loops] at hip
      rw [hd]
      rcases List.mem_pair.mp hl with rfl | rfl
      · cases Option.some.inj hip; rw [h.island]; exact box4_raw_keeps hX
      · cases Option.some.inj hip; rw [h.bay]; exact bayIn_keeps hX)
  rw [h1] at h1'
  cases h1'
  refine ⟨s, s', hs, h1, fun X => ?_, ?_⟩
  · rw [h4 X, hd]
    constructor
    · rintro ⟨l, hl, hon, hk⟩
      rcases List.mem_pair.mp hl with rfl | rfl
      · exact Or.inl ⟨hon, (h.others0 X).mp hk⟩
      · exact Or.inr ⟨hon, (h.others1 X).mp hk⟩
    · rintro (⟨hon, hk⟩ | ⟨hon, hk⟩)
      · exact ⟨isletOut env, by simp, hon, (h.others0 X).mpr hk⟩
      · exact ⟨isletIn env, by simp, hon, (h.others1 X).mpr hk⟩
  · intro ip' hip' X hX q hq
    rw [h.loops, hd] at h5
    rcases hq with hq | hq
    · exact h5 ip' hip' X hX a (by simp) q (by rw [h.island]; exact hq)
    · exact h5 ip' hip' X hX b (by simp) q (by rw [h.bay]; exact hq)

/-- The result contains the point (15, -5) of the smaller triangle and the point (5, 2) of the rounded square, but not the point
(3, 4) of the triangle, which is on the square, and not (5, 3), which is too close to the shore. -/
example : ∃ s s', Shape.fromPlines Env.plain [box4, bay] = .ok s ∧ s.parallelOffset Env.plain (-1) isletOpts = .ok s' ∧
    (∃ ip ∈ s'.loops, OnPline ip.pline ⟨15, -5⟩) ∧ (∃ ip ∈ s'.loops, OnPline ip.pline ⟨5, 2⟩) ∧
    ¬ (∃ ip ∈ s'.loops, OnPline ip.pline ⟨3, 4⟩) ∧ ¬ ∃ ip ∈ s'.loops, OnPline ip.pline ⟨5, 3⟩ := by
  obtain ⟨s, s', h1, h2, h3, h4⟩ := islet_offset Env.plain Env.plain_lawful
  refine ⟨s, s', h1, h2, (h3 _).mpr (Or.inr ?_), (h3 _).mpr (Or.inl ?_), ?_, ?_⟩
  · have e : (⟨15, -5⟩ : V2 ℝ) = curveAt bayIn 1 (11 / 14) := by rw [(bayIn_curve _).2.1]; norm_num
    rw [e]
    exact ⟨on_curve rfl (by decide) (by decide) (by norm_num) (by norm_num), (islet_keep1 (by norm_num) (by norm_num) (by norm_num)).mpr fun _ => Or.inr (by norm_num)⟩
  · have e : (⟨5, 2⟩ : V2 ℝ) = curveAt (rawLoop box4 (-1)) 2 (1 / 2) := by rw [(box4_curve _).2.2.1]; norm_num
    rw [e]
    exact ⟨on_curve box4_raw_full.closed box4_raw_full.two (by rw [box4_len8]; norm_num) (by norm_num) (by norm_num),
      (islet_keep0 (by norm_num) (by norm_num) (by norm_num)).mpr ⟨fun _ => by norm_num, by norm_num, by norm_num⟩⟩
  · rintro ⟨ip, hip, hon⟩
    have := h4 ip hip _ hon (curveAt box4 2 (1 / 4)) (Or.inl (on_curve rfl (by decide) (by decide) (by norm_num) (by norm_num)))
    rw [(box4_side _).2.2.1, edist_lit _ _ 0 (by norm_num) (by norm_num)] at this
    norm_num at this
  · rintro ⟨ip, hip, hon⟩
    have := h4 ip hip _ hon (curveAt bay 1 ((5 + 9 / 25 + 30) / 60)) (Or.inr (on_curve rfl (by decide) (by decide) (by norm_num) (by norm_num)))
    rw [(bay_curve _).2.1, edist_lit _ _ (3 / 5) (by norm_num) (by norm_num)] at this
    norm_num at this

end Cavc
