import Verif.Props.OffsetNested
import Verif.Lemmas.Frame

/-! # C78: offsetting to one side and back -/

set_option linter.unusedVariables false

namespace Cavc
open Pline RealScalar

/-- where the inputs wind as on the near side, so does the offset there and back -/
theorem ExactAt.back_within {ps rs ts : List (Pline ℝ)} {r : ℝ} {b c : ℤ} (hbc : b ≠ c) (h1 : ExactAt ps rs r b c) (h2 : ExactAt rs ts r c b) {Y : V2 ℝ}
    (hu : ∀ q ∈ ts, ¬ OnPline q Y) (hw : allW ps Y = c) : allW ts Y = c := by
  have hk : ∀ q ∈ rs, Keeps q r Y := by
    intro q hq Q hQ
    obtain ⟨hk', -, hw'⟩ := (h1.points Q).mp ⟨q, hq, hQ⟩
    obtain ⟨p, hp, F, hF, e⟩ := allW_between h1.inputs (X := Y) (Q := Q) (by rw [hw, hw']; exact hbc.symm)
    have a2 := hk' p hp F hF
    have a1 := edist_nonneg Y F
    rw [edist_comm Q F] at a2
    linarith
  have hoff := keeps_leaves h1.pos hk
  rw [h2.far Y hu hk]
  by_cases hk1 : ∀ p ∈ ps, Keeps p r Y
  · rw [h1.far Y hoff hk1, hw]
  · push Not at hk1
    exact h1.near Y hoff hk1

/-- the points of the inputs from which the offset is reached are reached on the way back -/
theorem ExactAt.back_foot {ps rs ts : List (Pline ℝ)} {r : ℝ} {b c : ℤ} (h1 : ExactAt ps rs r b c) (h2 : ExactAt rs ts r c b) {F Q : V2 ℝ} {p q : Pline ℝ} (hp : p ∈ ps) (hF : OnPline p F)
    (hq : q ∈ rs) (hQ : OnPline q Q) (e : edist F Q = r) : ∃ q ∈ ts, OnPline q F := by
  have hk : ∀ q ∈ rs, Keeps q r F := by
    intro q' hq' Q' hQ'
    have := ((h1.points Q').mp ⟨q', hq', hQ'⟩).1 p hp F hF
    rwa [edist_comm] at this
  refine (h2.points F).mpr ⟨hk, ⟨q, hq, Q, hQ, e⟩, h1.near F (keeps_leaves h1.pos hk) ⟨p, hp, fun h => ?_⟩⟩
  have := h F hF
  rw [edist_self] at this
  linarith [h1.pos]

/-- **C78** Offsetting a shape by `d` and the result by `-d` does not add to the side to which the first offset went: for `d > 0` the final shape winds around no point more often than the first, and the
areas do not add up to more; for `d < 0` not less. The final shape comes back to every point of the first shape that has a point of the first offset at the distance `|d|`: what is lost (or filled) are
only places that the first offset did not touch. -/
theorem C78_back (env : Env ℝ) (henv : env.Lawful) (s : Shape ℝ) (d : ℝ) (o : ShapeOffsetOptions ℝ) (he : 0 < o.posEqualEps) (ht : 0 < o.offsetDistEps)
    (hD : o.offsetDistEps ≤ |d|) (hj0 : 0 < o.sliceJoinEps) (a : ℤ) (hs : SoundShape s a)
    (h₁ : ClearShape env s d o) (h₂ : ∀ s₁, s.parallelOffset env d o = .ok s₁ → ClearShape env s₁ (-d) o) :
    ∃ s₁ s₂, s.parallelOffset env d o = .ok s₁ ∧ s₁.parallelOffset env (-d) o = .ok s₂ ∧
      (∀ Y, (∀ ip ∈ s.loops, ¬ OnPline ip.pline Y) → (∀ ip ∈ s₂.loops, ¬ OnPline ip.pline Y) →
        (0 < d → s₂.windingNumber Y ≤ s.windingNumber Y) ∧ (d < 0 → s.windingNumber Y ≤ s₂.windingNumber Y)) ∧
      (0 < d → (s₂.loops.map fun ip => ip.pline.area).sum ≤ (s.loops.map fun ip => ip.pline.area).sum) ∧
      (d < 0 → (s.loops.map fun ip => ip.pline.area).sum ≤ (s₂.loops.map fun ip => ip.pline.area).sum) ∧
      ∀ F, (∃ ip ∈ s.loops, OnPline ip.pline F) → (∃ ip ∈ s₁.loops, ∃ Q, OnPline ip.pline Q ∧ edist F Q = |d|) → ∃ ip ∈ s₂.loops, OnPline ip.pline F := by
  obtain ⟨s₁, e1, k1, x1⟩ := sound_exact env henv s d o he ht hD hj0 a hs h₁
  obtain ⟨s₂, e2, k2, x2⟩ := sound_exact env henv s₁ (-d) o he ht (by rw [abs_neg]; exact hD) hj0 a k1 (h₂ s₁ e1)
  have hn : d ≠ 0 := by intro h; rw [h, abs_zero] at hD; linarith
  have x2' : ExactAt (s₁.loops.map IndexedPline.pline) (s₂.loops.map IndexedPline.pline) |d| (if 0 < d then a else a + 1) (if 0 < d then a + 1 else a) := by
    rw [abs_neg] at x2
    rcases lt_or_gt_of_ne hn with h | h
    · rw [if_pos (show 0 < -d by linarith), if_pos (show 0 < -d by linarith)] at x2
      rw [if_neg (by linarith), if_neg (by linarith)]
      exact x2
    · rw [if_neg (show ¬ 0 < -d by linarith), if_neg (show ¬ 0 < -d by linarith)] at x2
      rw [if_pos h, if_pos h]
      exact x2
  have w : ∀ Y, (∀ ip ∈ s.loops, ¬ OnPline ip.pline Y) → (∀ ip ∈ s₂.loops, ¬ OnPline ip.pline Y) →
        (0 < d → s₂.windingNumber Y ≤ s.windingNumber Y) ∧ (d < 0 → s.windingNumber Y ≤ s₂.windingNumber Y) := by
    intro Y hY1 hY2
    rw [shape_sum, shape_sum]
    have hY1' : ∀ q ∈ s.loops.map IndexedPline.pline, ¬ OnPline q Y := by simpa using hY1
    have hY2' : ∀ q ∈ s₂.loops.map IndexedPline.pline, ¬ OnPline q Y := by simpa using hY2
    have v1 := x1.two Y hY1'
    have v2 := x2'.values hY2'
    have := x1.back_within (by split_ifs <;> omega) x2' hY2'
    split_ifs at v1 v2 this with h
    · exact ⟨fun _ => by omega, fun h' => by linarith⟩
    · exact ⟨fun h' => absurd h' h, fun _ => by omega⟩
  obtain ⟨i1, a1⟩ := shape_area_integral s hs.loop
  obtain ⟨i2, a2⟩ := shape_area_integral s₂ k2.loop
  refine ⟨s₁, s₂, e1, e2, w, fun h => ?_, fun h => ?_, ?_⟩
  · rw [a1, a2]
    refine MeasureTheory.integral_mono_ae i2 i1 ?_
    filter_upwards [trace_ae (s.loops.map IndexedPline.pline), trace_ae (s₂.loops.map IndexedPline.pline)] with z hz1 hz2
    have := (w ⟨z.1, z.2⟩ (fun ip hip => hz1 _ (List.mem_map.mpr ⟨ip, hip, rfl⟩)) (fun ip hip => hz2 _ (List.mem_map.mpr ⟨ip, hip, rfl⟩))).1 h
    exact_mod_cast this
  · rw [a1, a2]
    refine MeasureTheory.integral_mono_ae i1 i2 ?_
    filter_upwards [trace_ae (s.loops.map IndexedPline.pline), trace_ae (s₂.loops.map IndexedPline.pline)] with z hz1 hz2
    have := (w ⟨z.1, z.2⟩ (fun ip hip => hz1 _ (List.mem_map.mpr ⟨ip, hip, rfl⟩)) (fun ip hip => hz2 _ (List.mem_map.mpr ⟨ip, hip, rfl⟩))).2 h
    exact_mod_cast this
  · rintro F ⟨ip, hip, hF⟩ ⟨jp, hjp, Q, hQ, e⟩
    simpa using x1.back_foot x2' (List.mem_map.mpr ⟨ip, hip, rfl⟩) hF (List.mem_map.mpr ⟨jp, hjp, rfl⟩) hQ e

/-! ## Example: a square, offset to the inside and back, gets round corners -/

/-- a shape with one counter clockwise polyline -/
structure OnePline (s : Shape ℝ) (p : Pline ℝ) (ip : IndexedPline ℝ) : Prop where
  ccw : s.ccw = [ip]
  cw : s.cw = []
  pline : ip.pline = p
  serves : ip.index.Serves p

theorem OnePline.loops {s : Shape ℝ} {p : Pline ℝ} {ip : IndexedPline ℝ} (h : OnePline s p ip) : s.loops = [ip] := by unfold Shape.loops; rw [h.ccw, h.cw]; rfl

theorem area_not_neg {p : Pline ℝ} (h : 0 < p.area) : Scalar.lt p.area 0 = false := by
  rw [RealScalar.lt_eq]
  exact decide_eq_false (by linarith)

theorem one_exists (env : Env ℝ) (henv : env.Lawful) {p : Pline ℝ} (hp : 0 < p.area) (hc : p.closed = true) (hn : 2 ≤ p.verts.length) : ∃ s ip, Shape.fromPlines env [p] = .ok s ∧ OnePline s p ip := by
  obtain ⟨s, hs, hw, h1, h2⟩ := C45_from_plines env henv [p]
  have e := area_not_neg hp
  have c1 : s.ccw.map IndexedPline.pline = [p] := by
    rw [h1]
    simp [List.filter, e, hc, hn]
  have c2 : s.cw.map IndexedPline.pline = [] := by
    rw [h2]
    simp [List.filter, e, hc, hn]
  obtain ⟨b, hb, hb'⟩ := List.map_eq_singleton_iff.mp c1
  have ha := List.map_eq_nil_iff.mp c2
  refine ⟨s, b, hs, hb, ha, hb', ?_⟩
  rw [← hb']
  exact (hw.ready b (by unfold Shape.loops; rw [ha, hb]; simp)).serves

theorem one_sound {s : Shape ℝ} {p : Pline ℝ} {ip : IndexedPline ℝ} (h : OnePline s p ip) (hl : Loop p) (hsim : SimpleLoop p) (hp : 0 < p.area) : SoundShape s 0 := by
  have ho : p.orientation = .counterClockwise := by
    unfold Pline.orientation
    rw [area_not_neg hp, hl.closed]
    rfl
  have one : ∀ {P : IndexedPline ℝ → Prop}, P ip → ∀ jp ∈ s.loops, P jp := by
    intro P hP jp hjp
    rw [h.loops, List.mem_singleton] at hjp
    exact hjp ▸ hP
  refine ⟨one (by rw [h.pline]; exact h.serves), one (by rw [h.pline]; exact hl), one (by rw [h.pline]; exact hsim), ?_, ?_, ?_, by rw [h.cw]; simp⟩
  · intro i j a b hi hj hne
    rw [h.loops] at hi hj
    rcases i with _ | i <;> rcases j with _ | j <;> simp at hi hj hne
  · intro X hX
    have ht := simple_turns hl hsim
    rw [ho] at ht
    have e : s.windingNumber X = p.windingNumber X := by
      unfold Shape.windingNumber
      rw [h.loops]
      simp [h.pline]
    rw [e]
    have hoff := hX ip (by rw [h.loops]; simp)
    rw [h.pline] at hoff
    rcases ht.2 X hoff with e | e
    · left; rw [e]
    · right; rw [e]; rfl
  · rw [h.ccw]
    intro jp hjp
    rw [List.mem_singleton] at hjp
    rw [hjp, h.pline, ho]

section
variable {p r : Pline ℝ} {d : ℝ} (hr : 0 < r.area) (hn : 2 ≤ r.verts.length) (hrc : r.closed = true)
  (hoff : ∀ env : Env ℝ, env.Lawful → ∀ idx : Index ℝ, idx.Serves p → parallelOffset env p d ⟨some idx, false, 1 / 100000, 1 / 10000, 1 / 10000⟩ = .ok [r])
include hr hn hrc hoff

theorem one_loops (env : Env ℝ) (henv : env.Lawful) {s : Shape ℝ} {ip : IndexedPline ℝ} (h : OnePline s p ip) :
    ShapeLoops env s d isletOpts [⟨0, IndexedPline.new env r⟩] [] := by
  have h2 := area_not_neg hr
  have t2 : TurnedOver true d r = false := by
    unfold TurnedOver; rw [if_pos rfl, h2, Bool.and_false]
  refine ⟨⟨[[r]], ?_, ?_, ?_⟩, ?_⟩
  · rw [h.loops]
    refine .cons ?_ .nil
    rw [h.pline]
    exact hoff env henv _ h.serves
  · rw [h.ccw]
    simp only [List.zipIdx, List.flatMap, List.map_cons, List.map_nil, List.filter, List.length, Nat.zero_lt_one, decide_true, t2, h2, Nat.zero_add]
    rfl
  · rw [h.ccw]
    simp only [List.zipIdx, List.flatMap, List.map_cons, List.map_nil, List.filter, List.length, Nat.zero_lt_one, decide_true, t2, h2, Nat.zero_add]
    rfl
  · intro l hl
    rw [List.append_nil, List.mem_singleton] at hl
    subst hl
    rfl

theorem one_clear (hcl : ClearlyOffset p d (1 / 100000) (1 / 10000) (1 / 10000)) (env : Env ℝ) (henv : env.Lawful) {s : Shape ℝ} {ip : IndexedPline ℝ} (h : OnePline s p ip) :
    ClearShape env s d isletOpts := by
  have hone : ∀ {i : Nat} {l : OffsetLoop ℝ}, ([(⟨0, IndexedPline.new env r⟩ : OffsetLoop ℝ)] ++ [])[i]? = some l → i = 0 ∧ l = ⟨0, IndexedPline.new env r⟩ := by
    intro i l hl
    rcases i with _ | i
    · exact ⟨rfl, (Option.some.inj hl).symm⟩
    · simp at hl
  refine ⟨?_, [⟨0, IndexedPline.new env r⟩], [], 1, fun _ => [], one_loops hr hn hrc hoff env henv h, ?_, ?_, ?_, ?_, by norm_num [isletOpts], by norm_num [isletOpts]⟩
  · intro jp hjp
    rw [h.loops, List.mem_singleton] at hjp
    rw [hjp, h.pline]
    exact hcl
  · refine ⟨by simp, ?_, by simp, by simp, by simp, by simp, by simp, by simp⟩
    intro i l hi j m hj hne
    exact absurd ((hone hj).1.trans (hone hi).1.symm) hne
  · intro i l hi j m hj hlt
    have := (hone hi).1
    have := (hone hj).1
    omega
  · refine ⟨by simp, ?_⟩
    intro i j _ l m _ hi hj _ hne
    exact absurd ((hone hi).1.trans (hone hj).1.symm) hne
  · refine ⟨?_, by simp⟩
    intro i l hi _ j jp hj hne
    rw [h.loops] at hj
    rw [(hone hi).2] at hne
    rcases j with _ | j
    · exact absurd rfl hne
    · simp at hj

/-- the offset of a shape with one polyline is the shape with its offset -/
theorem one_next (env : Env ℝ) (henv : env.Lawful) {s : Shape ℝ} {ip : IndexedPline ℝ} (h : OnePline s p ip) (s₁ : Shape ℝ) (hs₁ : s.parallelOffset env d isletOpts = .ok s₁) :
    ∃ jp, OnePline s₁ r jp := by
  have hl := one_loops hr hn hrc hoff env henv h
  obtain ⟨ccw', cw', hl', -, hok⟩ := C51_shape_offset env henv s (fun jp hjp => by
    rw [h.loops, List.mem_singleton] at hjp
    rw [hjp, h.pline]
    exact h.serves) d isletOpts
  obtain ⟨rfl, rfl⟩ := shapeLoops_unique hl' hl
  obtain ⟨dss, rs, hP, -, hok⟩ := hok fun l hlm => by
    rw [List.append_nil, List.mem_singleton] at hlm
    subst hlm
    exact hn
  obtain ⟨⟨sets, hsets, hlen, hdis⟩, useds, hrounds, hperm⟩ := hP
  have hnil : sets = [] := by
    rcases sets with _ | ⟨x, xs⟩
    · rfl
    · obtain ⟨h1, l1, l2, b1, b2, r, -, h2, -⟩ := hsets.sound x (by simp)
      have h3 := (List.getElem?_eq_some_iff.mp h2).1
      simp at h3
      omega
  subst hnil
  have hdss : dss = [([], true)] := by
    rcases dss with _ | ⟨⟨ss, w⟩, _ | ⟨y, ys⟩⟩
    · simp at hlen
    · have := hdis 0 _ ss w rfl rfl
      cases this with
      | uncut dd _ _ hdd hw =>
        obtain ⟨vs, a, b, hr', ha, hb⟩ : ∃ vs a b, ViewData.Reads dd r vs ∧ vs[0]? = some a ∧ vs[1]? = some b := by
          obtain ⟨d', q, hd', -, hq, hqc, hqp⟩ := (C20_entire r).2 hn
          have e : d' = dd := Except.ok.inj (hd'.symm.trans hdd)
          subst e
          have hn' : 2 ≤ q.verts.length := by
            by_contra hlt
            have h0 : q.path.length = 0 := by
              rw [Pline.path, List.length_map, segs_length]
              unfold Pline.segmentCount Pline.vertexCount
              dsimp only
              rw [if_pos (by omega)]
            rw [hqp, Pline.path, List.length_map, segs_length] at h0
            unfold Pline.segmentCount Pline.vertexCount at h0
            dsimp only at h0
            rw [if_neg (by omega), if_pos hrc] at h0
            omega
          refine ⟨q.verts, q.verts[0], q.verts[1], ⟨?_, ?_⟩, by simp, by simp⟩
          · rw [hq, ← hqc]
          · intro h0; rw [h0] at hn'; simp at hn'
        have : w = true := hw.mpr ⟨vs, a, b, hr', ha, hb, fun j jp hj hne => by
          rw [h.loops] at hj
          rcases j with _ | j
          · exact absurd rfl hne
          · simp at hj⟩
        rw [this]
      | onceKept _ h1 => simp [cutsOfLoop] at h1
      | onceDropped _ h1 => simp [cutsOfLoop] at h1
      | pieces _ _ h1 => simp [cutsOfLoop] at h1
    · simp at hlen
  subst hdss
  have hrs : rs = [] := by
    cases hrounds with
    | nil => rfl
    | cons _ used useds' vs more hc _ =>
      have : used = [] := by
        have := hperm.length_eq
        simp [slicesOfLoops] at this
        exact this.1
      exact absurd this hc.nonempty
  subst hrs
  obtain ⟨s', hs', hw', h1, h2⟩ := hok (by simp)
  have e : s' = s₁ := by rw [hs₁] at hs'; exact (Except.ok.inj hs').symm
  subst e
  have c1 : s'.cw = [] := by
    rw [← List.map_eq_nil_iff (f := IndexedPline.pline), h2]
    rfl
  have c2 : s'.ccw.map IndexedPline.pline = [r] := by
    rw [h1]
    rfl
  obtain ⟨b, hb, hb'⟩ := List.map_eq_singleton_iff.mp c2
  refine ⟨b, hb, c1, hb', ?_⟩
  rw [← hb']
  exact (hw'.ready b (by unfold Shape.loops; rw [c1, hb]; simp)).serves

end

/-- The hypotheses of C78_back hold for the square with sides of length 6: offset by 1 to the inside and back it is the square with round corners, which does not enclose more. -/
theorem box6_back (env : Env ℝ) (henv : env.Lawful) :
    ∃ s s₁ s₂, Shape.fromPlines env [box6] = .ok s ∧ s.parallelOffset env 1 isletOpts = .ok s₁ ∧ s₁.parallelOffset env (-1) isletOpts = .ok s₂ ∧
      s₁.loops.map IndexedPline.pline = [box4] ∧ s₂.loops.map IndexedPline.pline = [rawLoop box4 (-1)] ∧ (rawLoop box4 (-1)).area ≤ 36 := by
  have p6 : 0 < box6.area := by rw [box6_area]; norm_num
  have p4 : 0 < box4.area := by rw [box4_area]; norm_num
  have hrc : (rawLoop box4 (-1)).closed = true := by rw [box4_raw]
  have hrn : 2 ≤ (rawLoop box4 (-1)).verts.length := by rw [box4_len8]; norm_num
  obtain ⟨s, ip, hs, h⟩ := one_exists env henv p6 rfl (by decide)
  have hnext := one_next p4 (by decide) rfl (fun env henv => box6_offset env henv) env henv h
  obtain ⟨s₁, s₂, e1, e2, -, har, -⟩ := C78_back env henv s 1 isletOpts (by norm_num [isletOpts]) (by norm_num [isletOpts]) (by norm_num [isletOpts]) (by norm_num [isletOpts]) 0
    (one_sound h (straight_loop box6_straight) box6_simple p6) (one_clear p4 (by decide) rfl (fun env henv => box6_offset env henv) box6_clearly env henv h)
    (fun s₁ hs₁ => by
      obtain ⟨jp, hj⟩ := hnext s₁ hs₁
      exact one_clear box4_raw_area hrn hrc (fun env henv => box4_offset env henv) box4_clearly env henv hj)
  obtain ⟨jp, hj⟩ := hnext s₁ e1
  obtain ⟨kp, hk⟩ := one_next box4_raw_area hrn hrc (fun env henv => box4_offset env henv) env henv hj s₂ e2
  have ha := har (by norm_num)
  rw [h.loops, hk.loops] at ha
  simp only [List.map_cons, List.map_nil, List.sum_cons, List.sum_nil, h.pline, hk.pline, box6_area, add_zero] at ha
  refine ⟨s, s₁, s₂, hs, e1, e2, ?_, ?_, ha⟩
  · rw [hj.loops, List.map_singleton, hj.pline]
  · rw [hk.loops, List.map_singleton, hk.pline]

end Cavc
