import Verif.Props.ShapeSimple
import Verif.Spec.ShapeTwice
import Verif.Lemmas.OffsetTwice
import Verif.Lemmas.Wedge

/-! # C76: offsetting twice to the same side is the same as offsetting by the sum -/

set_option linter.unusedVariables false

namespace Cavc
open Pline RealScalar

/-- the exact offset of a shape, and the shape it makes -/
theorem sound_exact (env : Env ℝ) (henv : env.Lawful) (s : Shape ℝ) (d : ℝ) (o : ShapeOffsetOptions ℝ) (he : 0 < o.posEqualEps) (ht : 0 < o.offsetDistEps) (hD : o.offsetDistEps ≤ |d|)
    (hj0 : 0 < o.sliceJoinEps) (a : ℤ) (hs : SoundShape s a) (hc : ClearShape env s d o) :
    ∃ s', s.parallelOffset env d o = .ok s' ∧ SoundShape s' a ∧
      ExactAt (s.loops.map IndexedPline.pline) (s'.loops.map IndexedPline.pline) |d| (if 0 < d then a + 1 else a) (if 0 < d then a else a + 1) := by
  obtain ⟨ccw, cw, gap, C, hl, hC, hF, hX, hT, hg, hj⟩ := hc.cross
  have hone : SinglesClear env s d o := ⟨hs.left, hs.right, hc.singles⟩
  obtain ⟨s', r1, r2, r3, r4, r5, r6, r7, r8⟩ := C75_shape_again env henv s hs.serves d o he ht hD hs.loop hs.simple hs.apart a hs.two hone ccw cw hl gap C hC hF hX hT hg hj0 hj
  obtain ⟨s'', q1, -, -, q4, q5⟩ := C72_shape_exact env henv s hs.serves d o he ht hD hs.loop hs.simple hs.apart a hs.two hone ccw cw hl gap C hC hF hX hT hg hj0 hj
  have e : s'' = s' := by rw [r1] at q1; exact (Except.ok.inj q1).symm
  subst e
  refine ⟨s'', r1, ⟨r2, r3, r4, r5, r6, r7, r8⟩, ?_⟩
  refine ⟨lt_of_lt_of_le ht hD, by simpa using hs.loop, fun X hX => ?_, fun X => ?_, fun Y hY => ?_, fun Y hY hk => ?_⟩
  · rw [← shape_sum]
    have := hs.two X (by simpa using hX)
    split_ifs
    · exact this.symm
    · exact this
  · rw [← shape_sum]
    simpa using q4 X
  · rintro ⟨p, hp, hk⟩
    rw [← shape_sum]
    obtain ⟨ip, hip, rfl⟩ := List.mem_map.mp hp
    exact (q5 Y (by simpa using hY)).2 ⟨ip, hip, hk⟩
  · rw [← shape_sum, ← shape_sum]
    exact (q5 Y (by simpa using hY)).1 (by simpa using hk)

/-- **C76** Offsetting a shape by `d₁` and the result by `d₂` to the same side is the same as offsetting by `d₁ + d₂`: the polylines of the results consist of the same points, wind equally often around every
point off them, and their areas add up to the same.  The shape is sound (`SoundShape`), and the three offsets are clear of the tolerances (`ClearShape`). -/
theorem C76_offset_twice (env : Env ℝ) (henv : env.Lawful) (s : Shape ℝ) (d₁ d₂ : ℝ) (hside : 0 < d₁ * d₂) (o : ShapeOffsetOptions ℝ) (he : 0 < o.posEqualEps) (ht : 0 < o.offsetDistEps)
    (hD₁ : o.offsetDistEps ≤ |d₁|) (hD₂ : o.offsetDistEps ≤ |d₂|) (hj0 : 0 < o.sliceJoinEps) (a : ℤ) (hs : SoundShape s a)
    (h₁ : ClearShape env s d₁ o) (h₂ : ∀ s₁, s.parallelOffset env d₁ o = .ok s₁ → ClearShape env s₁ d₂ o) (h₃ : ClearShape env s (d₁ + d₂) o) :
    ∃ s₁ s₂ s₃, s.parallelOffset env d₁ o = .ok s₁ ∧ s₁.parallelOffset env d₂ o = .ok s₂ ∧ s.parallelOffset env (d₁ + d₂) o = .ok s₃ ∧
      (∀ X, (∃ ip ∈ s₂.loops, OnPline ip.pline X) ↔ ∃ ip ∈ s₃.loops, OnPline ip.pline X) ∧
      (∀ Y, (∀ ip ∈ s₃.loops, ¬ OnPline ip.pline Y) → s₂.windingNumber Y = s₃.windingNumber Y) ∧
      (s₂.loops.map fun ip => ip.pline.area).sum = (s₃.loops.map fun ip => ip.pline.area).sum := by
  have habs : |d₁ + d₂| = |d₁| + |d₂| := by
    rcases lt_or_ge 0 d₁ with h | h
    · have : 0 < d₂ := by by_contra hc; nlinarith
      rw [abs_of_pos h, abs_of_pos this, abs_of_pos (by linarith)]
    · have : d₂ < 0 := by by_contra hc; nlinarith
      rw [abs_of_nonpos h, abs_of_neg this, abs_of_nonpos (by linarith)]
      ring
  have hs2 : (0 < d₂) ↔ 0 < d₁ := by constructor <;> intro h <;> by_contra hc <;> nlinarith
  have hs3 : (0 < d₁ + d₂) ↔ 0 < d₁ := by
    constructor
    · intro h; by_contra hc; have : ¬ 0 < d₂ := fun h' => hc (hs2.mp h'); linarith
    · intro h; have := hs2.mpr h; linarith
  obtain ⟨s₁, e1, k1, x1⟩ := sound_exact env henv s d₁ o he ht hD₁ hj0 a hs h₁
  obtain ⟨s₂, e2, k2, x2⟩ := sound_exact env henv s₁ d₂ o he ht hD₂ hj0 a k1 (h₂ s₁ e1)
  obtain ⟨s₃, e3, k3, x3⟩ := sound_exact env henv s (d₁ + d₂) o he ht (by rw [habs]; linarith [abs_nonneg d₂]) hj0 a hs h₃
  simp only [hs2] at x2
  simp only [hs3, habs] at x3
  obtain ⟨p1, p2⟩ := x1.twice (by split_ifs <;> omega) x2 x3
  have w : ∀ Y, (∀ ip ∈ s₃.loops, ¬ OnPline ip.pline Y) → s₂.windingNumber Y = s₃.windingNumber Y := fun Y hY => by
    rw [shape_sum, shape_sum]
    exact p2 Y (by simpa using hY)
  refine ⟨s₁, s₂, s₃, e1, e2, e3, fun X => by simpa using p1 X, w, ?_⟩
  have hint : ∀ t : Shape ℝ, (∀ ip ∈ t.loops, Loop ip.pline) → (t.loops.map fun ip => ip.pline.area).sum = ∫ z : ℝ × ℝ, ((t.windingNumber ⟨z.1, z.2⟩ : ℤ) : ℝ) := by
    intro t hloop
    obtain ⟨-, hi⟩ := sum_integrals (ps := t.loops.map IndexedPline.pline) fun r hr => by
      obtain ⟨ip, hip, rfl⟩ := List.mem_map.mp hr
      exact C64_area_winding _ (hloop ip hip)
    have harea : (t.loops.map fun ip => ip.pline.area).sum = ((t.loops.map IndexedPline.pline).map Pline.area).sum := by rw [List.map_map]; rfl
    rw [harea, ← hi]
    congr 1
    funext z
    congr 1
    unfold Shape.windingNumber
    rw [List.map_map]
    rfl
  rw [hint s₂ k2.loop, hint s₃ k3.loop]
  refine MeasureTheory.integral_congr_ae ?_
  filter_upwards [trace_ae (s₃.loops.map IndexedPline.pline)] with z hz
  rw [w _ fun ip hip => hz _ (List.mem_map.mpr ⟨ip, hip, rfl⟩)]

/-! ## Example: triangles -/

theorem wedge_simple {k : ℝ} (hk : 1 ≤ k) : SimpleLoop (wedge k) := by
  intro i j hi hj t u t0 t1 u0 u1 h
  obtain ⟨a0, a1, a2⟩ := wedge_curve k t
  obtain ⟨b0, b1, b2⟩ := wedge_curve k u
  change i < 3 at hi
  change j < 3 at hj
  have k0 : 0 < k := by linarith
  have z : ∀ x : ℝ, k * x = 0 → x = 0 := fun x hx => (mul_eq_zero.mp hx).resolve_left k0.ne'
  have p1 : k * t < k := by nlinarith
  have p2 : k * u < k := by nlinarith
  have p3 : 0 ≤ k * t := by positivity
  have p4 : 0 ≤ k * u := by positivity
  interval_cases i <;> interval_cases j <;> simp only [a0, a1, a2, b0, b1, b2, V2.ext_iff'] at h <;> obtain ⟨h1, h2⟩ := h <;>
    first
    | exact ⟨rfl, by have := z (t - u) (by linarith); linarith⟩
    | (exfalso; linarith)

theorem wedge_area (k : ℝ) : (wedge k).area = -(6 * k * k) := by
  obtain ⟨w0, w1, w2, w3, w4⟩ := wedge_vtx k
  have hlen : (wedge k).verts.length = 3 := rfl
  rw [area_eq, if_pos (show (wedge k).closed = true from rfl), segs_range rfl (by rw [hlen]; norm_num)]
  rw [hlen]
  simp only [List.range, List.range.loop, List.map_cons, List.map_nil, List.sum_cons, List.sum_nil, areaTerm, Nat.reduceAdd, w0, w1, w2, w3, bulgeIsZero_true (box4_line _ _), if_true]
  ring

theorem wedge_negative {k : ℝ} (hk : 1 ≤ k) : Scalar.lt (wedge k).area 0 = true := by
  rw [RealScalar.lt_eq]
  exact decide_eq_true (by rw [wedge_area]; nlinarith)

/-- a shape with one triangle -/
structure WedgeShape (s : Shape ℝ) (k : ℝ) (ip : IndexedPline ℝ) : Prop where
  ccw : s.ccw = []
  cw : s.cw = [ip]
  pline : ip.pline = wedge k
  serves : ip.index.Serves (wedge k)

theorem WedgeShape.loops {s : Shape ℝ} {k : ℝ} {ip : IndexedPline ℝ} (h : WedgeShape s k ip) : s.loops = [ip] := by unfold Shape.loops; rw [h.ccw, h.cw]; rfl

theorem wedge_shape (env : Env ℝ) (henv : env.Lawful) {k : ℝ} (hk : 1 ≤ k) : ∃ s ip, Shape.fromPlines env [wedge k] = .ok s ∧ WedgeShape s k ip := by
  obtain ⟨s, hs, hw, h1, h2⟩ := C45_from_plines env henv [wedge k]
  have e := wedge_negative hk
  have c1 : s.ccw.map IndexedPline.pline = [] := by
    rw [h1]
    simp only [List.filter, e]
    rfl
  have c2 : s.cw.map IndexedPline.pline = [wedge k] := by
    rw [h2]
    simp only [List.filter, e]
    rfl
  obtain ⟨b, hb, hb'⟩ := List.map_eq_singleton_iff.mp c2
  have ha := List.map_eq_nil_iff.mp c1
  refine ⟨s, b, hs, ha, hb, hb', ?_⟩
  rw [← hb']
  exact (hw.ready b (by unfold Shape.loops; rw [ha, hb]; simp)).serves

theorem wedge_sound {k : ℝ} (hk : 1 ≤ k) {s : Shape ℝ} {ip : IndexedPline ℝ} (h : WedgeShape s k ip) : SoundShape s (-1) := by
  have hl : Loop (wedge k) := (wedge_full hk).loop (by norm_num)
  have ho : (wedge k).orientation = .clockwise := by
    unfold Pline.orientation
    rw [wedge_negative hk]
    rfl
  have one : ∀ {P : IndexedPline ℝ → Prop}, P ip → ∀ jp ∈ s.loops, P jp := by
    intro P hP jp hjp
    rw [h.loops, List.mem_singleton] at hjp
    exact hjp ▸ hP
  refine ⟨one (by rw [h.pline]; exact h.serves), one (by rw [h.pline]; exact hl), one (by rw [h.pline]; exact wedge_simple hk), ?_, ?_, by rw [h.ccw]; simp, ?_⟩
  · intro i j a b hi hj hne
    rw [h.loops] at hi hj
    rcases i with _ | i <;> rcases j with _ | j <;> simp at hi hj hne
  · intro X hX
    have ht := simple_turns hl (wedge_simple hk)
    rw [ho] at ht
    have e : s.windingNumber X = (wedge k).windingNumber X := by
      unfold Shape.windingNumber
      rw [h.loops]
      simp [h.pline]
    rw [e]
    have hoff := hX ip (by rw [h.loops]; simp)
    rw [h.pline] at hoff
    rcases ht.2 X hoff with e | e
    · right; rw [e]; rfl
    · left; rw [e]; rfl
  · rw [h.cw]
    intro jp hjp
    rw [List.mem_singleton] at hjp
    rw [hjp, h.pline, ho]

section
variable {k d : ℝ} (hd : 1 ≤ d) (hk : d + 1 ≤ k)
include hd hk

theorem wedge_offset (env : Env ℝ) (henv : env.Lawful) (idx : Index ℝ) (hidx : idx.Serves (wedge k)) :
    parallelOffset env (wedge k) (-d) ⟨some idx, false, 1 / 100000, 1 / 10000, 1 / 10000⟩ = .ok [wedge (k - d)] := by
  have hr : createRawOffsetPolyline (wedge k) (-d) (1 / 100000) = .ok (wedge (k - d)) := by
    rw [← wedge_raw hd hk]
    exact C42_raw_straight (wedge_straight hd hk) (by linarith) (by norm_num) (wedge_clear hd hk) (by rw [wedge_raw hd hk]; exact wedge_full (by linarith)) (wedge_first hd hk)
  refine offset_whole env henv (wedge k) (-d) ⟨some idx, false, 1 / 100000, 1 / 10000, 1 / 10000⟩ (by simpa using hidx) rfl (by norm_num) rfl (by show 2 ≤ 3; decide) (wedge (k - d)) hr
    (wedge_full (by linarith)) 1 (wedge_crossing (by linarith)) (wedge_finds (by linarith)) ?_ (by norm_num)
  have habs : |-d| = d := by rw [abs_neg, abs_of_pos (by linarith)]
  refine keeps_clear_segs (fun s hs => Or.inl (wedge_lines k s hs)) (by norm_num) (by norm_num) (by rw [habs]; norm_num; linarith) (lines_readable (wedge_lines k) _ _) ?_
  rw [habs, (wedge_vtx (k - d)).1]
  exact wedge_keeps hd (by dsimp only [Vertex.pos]; linarith) (by dsimp only [Vertex.pos]; linarith) (by dsimp only [Vertex.pos]; linarith)

theorem wedge_loops (env : Env ℝ) (henv : env.Lawful) {s : Shape ℝ} {ip : IndexedPline ℝ} (h : WedgeShape s k ip) :
    ShapeLoops env s (-d) isletOpts [] [⟨0, IndexedPline.new env (wedge (k - d))⟩] := by
  have h2 : Scalar.lt (wedge (k - d)).area 0 = true := wedge_negative (by linarith)
  have h3 : Scalar.gt (wedge (k - d)).area 0 = false := by
    rw [RealScalar.gt_eq]
    exact decide_eq_false (by rw [wedge_area]; nlinarith)
  have t2 : TurnedOver false (-d) (wedge (k - d)) = false := by
    unfold TurnedOver; rw [if_neg Bool.false_ne_true, h3, Bool.and_false]
  refine ⟨⟨[[wedge (k - d)]], ?_, ?_, ?_⟩, ?_⟩
  · rw [h.loops]
    refine .cons ?_ .nil
    rw [h.pline]
    exact wedge_offset hd hk env henv _ h.serves
  · rw [h.ccw]
    simp only [List.zipIdx, List.flatMap, List.map_cons, List.map_nil, List.filter, List.length, Nat.lt_irrefl, decide_false, t2, h2]
    rfl
  · rw [h.ccw]
    simp only [List.zipIdx, List.flatMap, List.map_cons, List.map_nil, List.filter, List.length, Nat.lt_irrefl, decide_false, t2, h2]
    rfl
  · intro l hl
    rw [List.nil_append, List.mem_singleton] at hl
    subst hl
    rfl

theorem wedge_clearShape (env : Env ℝ) (henv : env.Lawful) {s : Shape ℝ} {ip : IndexedPline ℝ} (h : WedgeShape s k ip) : ClearShape env s (-d) isletOpts := by
  have hone : ∀ {i : Nat} {l : OffsetLoop ℝ}, ([] ++ [(⟨0, IndexedPline.new env (wedge (k - d))⟩ : OffsetLoop ℝ)])[i]? = some l → i = 0 ∧ l = ⟨0, IndexedPline.new env (wedge (k - d))⟩ := by
    intro i l hl
    rcases i with _ | i
    · exact ⟨rfl, (Option.some.inj hl).symm⟩
    · simp at hl
  refine ⟨?_, [], [⟨0, IndexedPline.new env (wedge (k - d))⟩], 1, fun _ => [], wedge_loops hd hk env henv h, ?_, ?_, ?_, ?_, by norm_num [isletOpts], by norm_num [isletOpts]⟩
  · intro jp hjp
    rw [h.loops, List.mem_singleton] at hjp
    rw [hjp, h.pline]
    exact wedge_clearly hd hk
  · refine ⟨by simp, ?_, by simp, by simp, by simp, by simp, by simp, by simp⟩
    intro i l hi j m hj hne
    exact absurd ((hone hj).1.trans (hone hi).1.symm) hne
  · intro i l hi j m hj hlt
    have := (hone hi).1
    have := (hone hj).1
    omega
  · refine ⟨by simp, ?_⟩
    intro i j _ l m _ hi hj _ hne
    exact absurd ((hone hi).1.trans (hone hj).1.symm) hne
  · refine ⟨?_, by simp⟩
    intro i l hi _ j jp hj hne
    rw [h.loops] at hj
    rw [(hone hi).2] at hne
    rcases j with _ | j
    · exact absurd rfl hne
    · simp at hj

/-- the offset of the triangle is the smaller triangle -/
theorem wedge_next (env : Env ℝ) (henv : env.Lawful) {s : Shape ℝ} {ip : IndexedPline ℝ} (h : WedgeShape s k ip) (s₁ : Shape ℝ) (hs₁ : s.parallelOffset env (-d) isletOpts = .ok s₁) :
    ∃ jp, WedgeShape s₁ (k - d) jp := by
  have hl := wedge_loops hd hk env henv h
  obtain ⟨ccw', cw', hl', -, hok⟩ := C51_shape_offset env henv s (wedge_sound (by linarith) h).serves (-d) isletOpts
  obtain ⟨rfl, rfl⟩ := shapeLoops_unique hl' hl
  obtain ⟨dss, rs, hP, -, hok⟩ := hok fun l hlm => by
    rw [List.nil_append, List.mem_singleton] at hlm
    subst hlm
    show 2 ≤ 3
    norm_num
  obtain ⟨⟨sets, hsets, hlen, hdis⟩, useds, hrounds, hperm⟩ := hP
  have hnil : sets = [] := by
    rcases sets with _ | ⟨x, xs⟩
    · rfl
    · obtain ⟨h1, l1, l2, b1, b2, r, -, h2, -⟩ := hsets.sound x (by simp)
      have h3 := (List.getElem?_eq_some_iff.mp h2).1
      simp at h3
      omega
  subst hnil
  have hdss : dss = [([], true)] := by
    rcases dss with _ | ⟨⟨ss, w⟩, _ | ⟨y, ys⟩⟩
    · simp at hlen
    · have := hdis 0 _ ss w rfl rfl
      cases this with
      | uncut dd _ _ hdd hw =>
        obtain ⟨vs, a, b, hr, ha, hb⟩ : ∃ vs a b, ViewData.Reads dd (wedge (k - d)) vs ∧ vs[0]? = some a ∧ vs[1]? = some b := by
          obtain ⟨d', q, hd', -, hq, hqc, hqp⟩ := (C20_entire (wedge (k - d))).2 (by show 2 ≤ 3; norm_num)
          have e : d' = dd := Except.ok.inj (hd'.symm.trans hdd)
          subst e
          have hn : 2 ≤ q.verts.length := by
            by_contra hlt
            have h0 : q.path = [] := by
              apply List.eq_nil_of_length_eq_zero
              rw [Pline.path, List.length_map, segs_length]
              unfold Pline.segmentCount Pline.vertexCount
              dsimp only
              rw [if_pos (by omega)]
            have h3 : (wedge (k - d)).path.length = 3 := by rw [Pline.path, List.length_map, segs_length]; rfl
            rw [← hqp, h0] at h3
            simp at h3
          refine ⟨q.verts, q.verts[0], q.verts[1], ⟨?_, ?_⟩, by simp, by simp⟩
          · rw [hq, ← hqc]
          · intro h0; rw [h0] at hn; simp at hn
        have : w = true := hw.mpr ⟨vs, a, b, hr, ha, hb, fun j jp hj hne => by
          rw [h.loops] at hj
          rcases j with _ | j
          · exact absurd rfl hne
          · simp at hj⟩
        rw [this]
      | onceKept _ h1 => simp [cutsOfLoop] at h1
      | onceDropped _ h1 => simp [cutsOfLoop] at h1
      | pieces _ _ h1 => simp [cutsOfLoop] at h1
    · simp at hlen
  subst hdss
  have hrs : rs = [] := by
    cases hrounds with
    | nil => rfl
    | cons _ used useds' vs more hc _ =>
      have : used = [] := by
        have := hperm.length_eq
        simp [slicesOfLoops] at this
        exact this.1
      exact absurd this hc.nonempty
  subst hrs
  obtain ⟨s', hs', hw', h1, h2⟩ := hok (by simp)
  have e : s' = s₁ := by rw [hs₁] at hs'; exact (Except.ok.inj hs').symm
  subst e
  have c1 : s'.ccw = [] := by
    rw [← List.map_eq_nil_iff (f := IndexedPline.pline), h1]
    rfl
  have c2 : s'.cw.map IndexedPline.pline = [wedge (k - d)] := by
    rw [h2]
    rfl
  obtain ⟨b, hb, hb'⟩ := List.map_eq_singleton_iff.mp c2
  refine ⟨b, c1, hb, hb', ?_⟩
  rw [← hb']
  exact (hw'.ready b (by unfold Shape.loops; rw [c1, hb]; simp)).serves

end

/-- The hypotheses of C76_offset_twice hold for triangles of any size and two distances to the inside: offset by `d₁` and then by `d₂`, or at once, the enclosed area is that of the triangle with the
inscribed circle of the radius `k - d₁ - d₂`. -/
theorem wedge_twice (env : Env ℝ) (henv : env.Lawful) {k d₁ d₂ : ℝ} (h1 : 1 ≤ d₁) (h2 : 1 ≤ d₂) (hk : d₁ + d₂ + 1 ≤ k) :
    ∃ s s₁ s₂ s₃, Shape.fromPlines env [wedge k] = .ok s ∧ s.parallelOffset env (-d₁) isletOpts = .ok s₁ ∧ s₁.parallelOffset env (-d₂) isletOpts = .ok s₂ ∧
      s.parallelOffset env (-d₁ + -d₂) isletOpts = .ok s₃ ∧ (∀ X, (∃ ip ∈ s₂.loops, OnPline ip.pline X) ↔ ∃ ip ∈ s₃.loops, OnPline ip.pline X) ∧
      (s₃.loops.map fun ip => ip.pline.area).sum = -(6 * (k - d₁ - d₂) * (k - d₁ - d₂)) := by
  obtain ⟨s, ip, hs, h⟩ := wedge_shape env henv (k := k) (by linarith)
  have e3 : -d₁ + -d₂ = -(d₁ + d₂) := by ring
  obtain ⟨s₁, s₂, s₃, e1, e2, e4, p, -, ar⟩ := C76_offset_twice env henv s (-d₁) (-d₂) (by nlinarith) isletOpts (by norm_num [isletOpts]) (by norm_num [isletOpts])
    (by rw [abs_neg, abs_of_pos (by linarith)]; norm_num [isletOpts]; linarith) (by rw [abs_neg, abs_of_pos (by linarith)]; norm_num [isletOpts]; linarith) (by norm_num [isletOpts]) (-1)
    (wedge_sound (by linarith) h) (wedge_clearShape h1 (by linarith) env henv h)
    (fun s₁ hs₁ => by
      obtain ⟨jp, hj⟩ := wedge_next h1 (by linarith) env henv h s₁ hs₁
      exact wedge_clearShape h2 (by linarith) env henv hj)
    (by rw [e3]; exact wedge_clearShape (by linarith) (by linarith) env henv h)
  refine ⟨s, s₁, s₂, s₃, hs, e1, e2, e4, p, ?_⟩
  rw [e3] at e4
  obtain ⟨jp, hj⟩ := wedge_next (d := d₁ + d₂) (by linarith) (by linarith) env henv h s₃ e4
  rw [hj.loops]
  simp only [List.map_cons, List.map_nil, List.sum_cons, List.sum_nil, hj.pline, wedge_area]
  ring

end Cavc
