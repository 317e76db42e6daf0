import Verif.Props.OffsetTwice

/-! # C77: offsets of one shape by several distances are nested and lie apart by the difference of the distances -/

set_option linter.unusedVariables false

namespace Cavc
open Pline RealScalar

/-! ## Two exact offsets of the same polylines -/

/-- a line between points around which the winding numbers differ meets a polyline -/
theorem allW_between {ps : List (Pline ℝ)} (hl : ∀ p ∈ ps, Loop p) {X Q : V2 ℝ} (h : allW ps X ≠ allW ps Q) :
    ∃ p ∈ ps, ∃ F, OnPline p F ∧ edist X Q = edist X F + edist F Q := by
  by_contra hcon
  push Not at hcon
  apply h
  have h0 : linePoint X Q 0 = X := by simp [linePoint]
  have h1 : linePoint X Q 1 = Q := by simp [linePoint]
  have := allW_path hl (γ := linePoint X Q) (a := 0) (b := 1) (line_continuous X Q).continuousOn (fun u hu p hp hon => by
    rw [Set.uIcc_of_le zero_le_one] at hu
    refine hcon p hp _ hon ?_
    have e2 : linePoint X Q u = linePoint Q X (1 - u) := by unfold linePoint; congr 1 <;> ring
    have e3 : edist X (linePoint X Q u) = u * edist X Q := by rw [edist_comm, linePoint_dist, abs_of_nonneg hu.1]
    have e4 : edist (linePoint X Q u) Q = (1 - u) * edist X Q := by rw [e2, linePoint_dist, abs_of_nonneg (by linarith [hu.2]), edist_comm Q X]
    rw [e3, e4]
    ring)
  rw [h0, h1] at this
  exact this

/-- the farther offset keeps the difference from the nearer one, and it is reached -/
theorem ExactAt.apart {ps rs us : List (Pline ℝ)} {r1 r2 : ℝ} {b c : ℤ} (h1 : ExactAt ps rs r1 b c) (h2 : ExactAt ps us r2 b c) (hr : r1 < r2) {X : V2 ℝ} (hX : ∃ q ∈ us, OnPline q X) :
    (∀ q ∈ rs, Keeps q (r2 - r1) X) ∧ (∃ q ∈ rs, ∃ Q, OnPline q Q ∧ edist X Q = r2 - r1) ∧ allW rs X = b := by
  obtain ⟨hk, ⟨p, hp, F, hF, e⟩, hw⟩ := (h2.points X).mp hX
  have hk2 := h1.rest_keeps (r2 := r2 - r1) (by simpa using hk)
  refine ⟨hk2, h1.between hp hF e hk hr.le hw, ?_⟩
  rw [h1.far X (keeps_leaves (by linarith) hk2) fun p hp => keeps_less hr.le (hk p hp), hw]

/-- offsets to different sides keep the sum of the distances -/
theorem ExactAt.across {ps rs us : List (Pline ℝ)} {r1 r2 : ℝ} {b c : ℤ} (hbc : b ≠ c) (h1 : ExactAt ps rs r1 b c) (h2 : ExactAt ps us r2 c b) {X : V2 ℝ} (hX : ∃ q ∈ us, OnPline q X) :
    ∀ q ∈ rs, Keeps q (r1 + r2) X := by
  intro q hq Q hQ
  obtain ⟨hk, -, hw⟩ := (h2.points X).mp hX
  obtain ⟨hk', -, hw'⟩ := (h1.points Q).mp ⟨q, hq, hQ⟩
  obtain ⟨p, hp, F, hF, e⟩ := allW_between h1.inputs (X := X) (Q := Q) (by rw [hw, hw']; exact hbc.symm)
  have a1 := hk p hp F hF
  have a2 := hk' p hp F hF
  rw [edist_comm Q F] at a2
  linarith

/-- where the farther offset winds as on its side, so does the nearer one -/
theorem ExactAt.within {ps rs us : List (Pline ℝ)} {r1 r2 : ℝ} {b c : ℤ} (hbc : b ≠ c) (h1 : ExactAt ps rs r1 b c) (h2 : ExactAt ps us r2 b c) (hr : r1 ≤ r2) {Y : V2 ℝ}
    (hr' : ∀ q ∈ rs, ¬ OnPline q Y) (hu : ∀ q ∈ us, ¬ OnPline q Y) (hw : allW us Y = b) : allW rs Y = b := by
  have hk : ∀ p ∈ ps, Keeps p r2 Y := by
    by_contra hcon
    push Not at hcon
    exact hbc (hw.symm.trans (h2.near Y hu hcon))
  rw [h1.far Y hr' fun p hp => keeps_less hr (hk p hp), ← h2.far Y hu hk, hw]

/-- where the offset winds as on its side, the offset to the other side does too -/
theorem ExactAt.opposite {ps rs us : List (Pline ℝ)} {r1 r2 : ℝ} {b c : ℤ} (hbc : b ≠ c) (h1 : ExactAt ps rs r1 c b) (h2 : ExactAt ps us r2 b c) {Y : V2 ℝ}
    (hr' : ∀ q ∈ rs, ¬ OnPline q Y) (hu : ∀ q ∈ us, ¬ OnPline q Y) (hw : allW us Y = b) : allW rs Y = b := by
  have hk : ∀ p ∈ ps, Keeps p r2 Y := by
    by_contra hcon
    push Not at hcon
    exact hbc (hw.symm.trans (h2.near Y hu hcon))
  by_cases hk1 : ∀ p ∈ ps, Keeps p r1 Y
  · rw [h1.far Y hr' hk1, ← h2.far Y hu hk, hw]
  · push Not at hk1
    exact h1.near Y hr' hk1

theorem ExactAt.values {ps rs : List (Pline ℝ)} {r : ℝ} {b c : ℤ} (h : ExactAt ps rs r b c) {Y : V2 ℝ} (hY : ∀ q ∈ rs, ¬ OnPline q Y) : allW rs Y = b ∨ allW rs Y = c := by
  by_cases hk : ∀ p ∈ ps, Keeps p r Y
  · rw [h.far Y hY hk]
    exact h.two Y (keeps_leaves h.pos hk)
  · push Not at hk
    exact .inr (h.near Y hY hk)

/-- the sum of the areas as an integral of the winding numbers -/
theorem shape_area_integral (t : Shape ℝ) (hloop : ∀ ip ∈ t.loops, Loop ip.pline) :
    MeasureTheory.Integrable (fun z : ℝ × ℝ => ((t.windingNumber ⟨z.1, z.2⟩ : ℤ) : ℝ)) ∧
      (t.loops.map fun ip => ip.pline.area).sum = ∫ z : ℝ × ℝ, ((t.windingNumber ⟨z.1, z.2⟩ : ℤ) : ℝ) := by
  obtain ⟨hI, hi⟩ := sum_integrals (ps := t.loops.map IndexedPline.pline) fun r hr => by
    obtain ⟨ip, hip, rfl⟩ := List.mem_map.mp hr
    exact C64_area_winding _ (hloop ip hip)
  have harea : (t.loops.map fun ip => ip.pline.area).sum = ((t.loops.map IndexedPline.pline).map Pline.area).sum := by rw [List.map_map]; rfl
  have hfun : (fun z : ℝ × ℝ => ((t.windingNumber ⟨z.1, z.2⟩ : ℤ) : ℝ)) = fun z : ℝ × ℝ => ((((t.loops.map IndexedPline.pline).map fun p => p.windingNumber ⟨z.1, z.2⟩).sum : ℤ) : ℝ) := by
    funext z
    congr 1
    unfold Shape.windingNumber
    rw [List.map_map]
    rfl
  rw [harea, ← hi, hfun]
  exact ⟨hI, rfl⟩

/-! ## The theorems -/

/-- **C77** The offsets of a shape by two distances are nested: the offset by the larger (signed) distance winds nowhere more often than the other, and the areas of its polylines do not add up to more.
So successive offsets to the inside enclose less and less, those to the outside more and more, and an offset to the inside lies within one to the outside. -/
theorem C77_nested (env : Env ℝ) (henv : env.Lawful) (s : Shape ℝ) (d₁ d₂ : ℝ) (hd : d₁ < d₂) (o : ShapeOffsetOptions ℝ) (he : 0 < o.posEqualEps) (ht : 0 < o.offsetDistEps)
    (hD₁ : o.offsetDistEps ≤ |d₁|) (hD₂ : o.offsetDistEps ≤ |d₂|) (hj0 : 0 < o.sliceJoinEps) (a : ℤ) (hs : SoundShape s a)
    (h₁ : ClearShape env s d₁ o) (h₂ : ClearShape env s d₂ o) :
    ∃ s₁ s₂, s.parallelOffset env d₁ o = .ok s₁ ∧ s.parallelOffset env d₂ o = .ok s₂ ∧
      (∀ Y, (∀ ip ∈ s₁.loops, ¬ OnPline ip.pline Y) → (∀ ip ∈ s₂.loops, ¬ OnPline ip.pline Y) → s₂.windingNumber Y ≤ s₁.windingNumber Y) ∧
      (s₂.loops.map fun ip => ip.pline.area).sum ≤ (s₁.loops.map fun ip => ip.pline.area).sum := by
  obtain ⟨s₁, e1, k1, x1⟩ := sound_exact env henv s d₁ o he ht hD₁ hj0 a hs h₁
  obtain ⟨s₂, e2, k2, x2⟩ := sound_exact env henv s d₂ o he ht hD₂ hj0 a hs h₂
  have w : ∀ Y, (∀ ip ∈ s₁.loops, ¬ OnPline ip.pline Y) → (∀ ip ∈ s₂.loops, ¬ OnPline ip.pline Y) → s₂.windingNumber Y ≤ s₁.windingNumber Y := by
    intro Y hY1 hY2
    rw [shape_sum, shape_sum]
    have hY1' : ∀ q ∈ s₁.loops.map IndexedPline.pline, ¬ OnPline q Y := by simpa using hY1
    have hY2' : ∀ q ∈ s₂.loops.map IndexedPline.pline, ¬ OnPline q Y := by simpa using hY2
    have v1 := x1.values hY1'
    have v2 := x2.values hY2'
    rcases lt_or_ge 0 d₁ with p1 | p1
    · have p2 : 0 < d₂ := p1.trans hd
      rw [if_pos p1, if_pos p1] at x1 v1
      rw [if_pos p2, if_pos p2] at x2 v2
      rw [abs_of_pos p1] at x1
      rw [abs_of_pos p2] at x2
      have := x1.within (by omega) x2 hd.le hY1' hY2'
      omega
    · rw [if_neg (by linarith), if_neg (by linarith)] at x1 v1
      rcases lt_or_ge 0 d₂ with p2 | p2
      · rw [if_pos p2, if_pos p2] at x2 v2
        have := x1.opposite (by omega) x2 hY1' hY2'
        omega
      · rw [if_neg (by linarith), if_neg (by linarith)] at x2 v2
        rw [abs_of_nonpos p1] at x1
        rw [abs_of_nonpos p2] at x2
        have := x2.within (by omega) x1 (by linarith) hY2' hY1'
        omega
  refine ⟨s₁, s₂, e1, e2, w, ?_⟩
  obtain ⟨i1, a1⟩ := shape_area_integral s₁ k1.loop
  obtain ⟨i2, a2⟩ := shape_area_integral s₂ k2.loop
  rw [a1, a2]
  refine MeasureTheory.integral_mono_ae i2 i1 ?_
  filter_upwards [trace_ae (s₁.loops.map IndexedPline.pline), trace_ae (s₂.loops.map IndexedPline.pline)] with z hz1 hz2
  have := w ⟨z.1, z.2⟩ (fun ip hip => hz1 _ (List.mem_map.mpr ⟨ip, hip, rfl⟩)) (fun ip hip => hz2 _ (List.mem_map.mpr ⟨ip, hip, rfl⟩))
  exact_mod_cast this

/-- **C77** The offsets of a shape by two distances keep the difference of the distances from each other: every point of the one is at least `|d₁ - d₂|` away from the other. If both are to the same
side, every point of the farther one is exactly that far from the nearer one: the passes of a tool at a constant step leave nothing between them. -/
theorem C77_apart (env : Env ℝ) (henv : env.Lawful) (s : Shape ℝ) (d₁ d₂ : ℝ) (hd : d₁ ≠ d₂) (o : ShapeOffsetOptions ℝ) (he : 0 < o.posEqualEps) (ht : 0 < o.offsetDistEps)
    (hD₁ : o.offsetDistEps ≤ |d₁|) (hD₂ : o.offsetDistEps ≤ |d₂|) (hj0 : 0 < o.sliceJoinEps) (a : ℤ) (hs : SoundShape s a)
    (h₁ : ClearShape env s d₁ o) (h₂ : ClearShape env s d₂ o) :
    ∃ s₁ s₂, s.parallelOffset env d₁ o = .ok s₁ ∧ s.parallelOffset env d₂ o = .ok s₂ ∧
      (∀ X, (∃ ip ∈ s₂.loops, OnPline ip.pline X) → ∀ ip ∈ s₁.loops, ∀ Q, OnPline ip.pline Q → |d₁ - d₂| ≤ edist X Q) ∧
      (0 < d₁ * d₂ → |d₁| < |d₂| → ∀ X, (∃ ip ∈ s₂.loops, OnPline ip.pline X) → ∃ ip ∈ s₁.loops, ∃ Q, OnPline ip.pline Q ∧ edist X Q = |d₁ - d₂|) := by
  obtain ⟨s₁, e1, k1, x1⟩ := sound_exact env henv s d₁ o he ht hD₁ hj0 a hs h₁
  obtain ⟨s₂, e2, k2, x2⟩ := sound_exact env henv s d₂ o he ht hD₂ hj0 a hs h₂
  have hn1 : d₁ ≠ 0 := by intro h; rw [h, abs_zero] at hD₁; linarith
  have hn2 : d₂ ≠ 0 := by intro h; rw [h, abs_zero] at hD₂; linarith
  -- the same side
  have same : ∀ {ps rs us : List (Pline ℝ)} {r1 r2 : ℝ} {b c : ℤ}, ExactAt ps rs r1 b c → ExactAt ps us r2 b c → r1 ≠ r2 → ∀ X, (∃ q ∈ us, OnPline q X) → ∀ q ∈ rs, ∀ Q, OnPline q Q → |r1 - r2| ≤ edist X Q := by
    intro ps rs us r1 r2 b c y1 y2 hr X hX q hq Q hQ
    rcases lt_or_gt_of_ne hr with h | h
    · rw [abs_of_neg (by linarith)]
      have := (y1.apart y2 h hX).1 q hq Q hQ
      linarith
    · rw [abs_of_pos (by linarith)]
      obtain ⟨q', hq', hX'⟩ := hX
      have := (y2.apart y1 h ⟨q, hq, hQ⟩).1 q' hq' X hX'
      rw [edist_comm]
      linarith
  refine ⟨s₁, s₂, e1, e2, ?_, ?_⟩
  · intro X hX ip hip Q hQ
    have hX' : ∃ q ∈ s₂.loops.map IndexedPline.pline, OnPline q X := by simpa using hX
    have hip' : ip.pline ∈ s₁.loops.map IndexedPline.pline := List.mem_map.mpr ⟨ip, hip, rfl⟩
    rcases lt_or_gt_of_ne hn1 with p1 | p1 <;> rcases lt_or_gt_of_ne hn2 with p2 | p2
    · rw [if_neg (by linarith), if_neg (by linarith), abs_of_neg p1] at x1
      rw [if_neg (by linarith), if_neg (by linarith), abs_of_neg p2] at x2
      have := same x1 x2 (by intro h; exact hd (by linarith)) X hX' _ hip' Q hQ
      rwa [show |-d₁ - -d₂| = |d₁ - d₂| by rw [← abs_neg]; congr 1; ring] at this
    · rw [if_neg (by linarith), if_neg (by linarith), abs_of_neg p1] at x1
      rw [if_pos p2, if_pos p2, abs_of_pos p2] at x2
      have := x1.across (by omega) x2 hX' _ hip' Q hQ
      rw [abs_of_neg (by linarith)]
      linarith
    · rw [if_pos p1, if_pos p1, abs_of_pos p1] at x1
      rw [if_neg (by linarith), if_neg (by linarith), abs_of_neg p2] at x2
      have := x1.across (by omega) x2 hX' _ hip' Q hQ
      rw [abs_of_pos (by linarith)]
      linarith
    · rw [if_pos p1, if_pos p1, abs_of_pos p1] at x1
      rw [if_pos p2, if_pos p2, abs_of_pos p2] at x2
      exact same x1 x2 hd X hX' _ hip' Q hQ
  · intro hside hlt X hX
    have hX' : ∃ q ∈ s₂.loops.map IndexedPline.pline, OnPline q X := by simpa using hX
    have hsd : (0 < d₂) ↔ 0 < d₁ := by constructor <;> intro h <;> by_contra hc <;> nlinarith
    simp only [hsd] at x2
    have habs : |d₁ - d₂| = |d₂| - |d₁| := by
      rcases lt_or_gt_of_ne hn1 with p1 | p1
      · have p2 : d₂ < 0 := lt_of_le_of_ne (by by_contra hc; push Not at hc; exact absurd (hsd.mp hc) (by linarith)) hn2
        rw [abs_of_neg p1, abs_of_neg p2] at hlt ⊢
        rw [abs_of_pos (by linarith)]
        ring
      · have p2 := hsd.mpr p1
        rw [abs_of_pos p1, abs_of_pos p2] at hlt ⊢
        rw [abs_of_neg (by linarith)]
        ring
    obtain ⟨q, hq, Q, hQ, e⟩ := (x1.apart x2 hlt hX').2.1
    obtain ⟨ip, hip, rfl⟩ := List.mem_map.mp hq
    exact ⟨ip, hip, Q, hQ, by rw [habs, e]⟩

/-- Two offsets of a triangle to the inside meet the conditions of both theorems: each point of the second is exactly `d₂ - d₁` away from the first. -/
theorem wedge_steps (env : Env ℝ) (henv : env.Lawful) {k d₁ d₂ : ℝ} (h1 : 1 ≤ d₁) (h2 : d₁ < d₂) (hk : d₂ + 1 ≤ k) :
    ∃ s s₁ s₂, Shape.fromPlines env [wedge k] = .ok s ∧ s.parallelOffset env (-d₁) isletOpts = .ok s₁ ∧ s.parallelOffset env (-d₂) isletOpts = .ok s₂ ∧
      (s₁.loops.map fun ip => ip.pline.area).sum ≤ (s₂.loops.map fun ip => ip.pline.area).sum ∧
      ∀ X, (∃ ip ∈ s₂.loops, OnPline ip.pline X) → ∃ ip ∈ s₁.loops, ∃ Q, OnPline ip.pline Q ∧ edist X Q = d₂ - d₁ := by
  obtain ⟨s, ip, hs, h⟩ := wedge_shape env henv (k := k) (by linarith)
  have b1 : isletOpts.offsetDistEps ≤ |-d₁| := by rw [abs_neg, abs_of_pos (by linarith)]; norm_num [isletOpts]; linarith
  have b2 : isletOpts.offsetDistEps ≤ |-d₂| := by rw [abs_neg, abs_of_pos (by linarith)]; norm_num [isletOpts]; linarith
  have c1 := wedge_clearShape h1 (by linarith) env henv h
  have c2 := wedge_clearShape (d := d₂) (by linarith) hk env henv h
  obtain ⟨s₁, s₂, e1, e2, -, p⟩ := C77_apart env henv s (-d₁) (-d₂) (by intro h; linarith) isletOpts (by norm_num [isletOpts]) (by norm_num [isletOpts]) b1 b2 (by norm_num [isletOpts]) (-1)
    (wedge_sound (by linarith) h) c1 c2
  obtain ⟨t₂, t₁, f2, f1, -, q⟩ := C77_nested env henv s (-d₂) (-d₁) (by linarith) isletOpts (by norm_num [isletOpts]) (by norm_num [isletOpts]) b2 b1 (by norm_num [isletOpts]) (-1)
    (wedge_sound (by linarith) h) c2 c1
  have g1 : t₁ = s₁ := by rw [e1] at f1; exact (Except.ok.inj f1).symm
  have g2 : t₂ = s₂ := by rw [e2] at f2; exact (Except.ok.inj f2).symm
  subst g1 g2
  refine ⟨s, t₁, t₂, hs, e1, e2, q, fun X hX => ?_⟩
  obtain ⟨jp, hj, Q, hQ, e⟩ := p (by nlinarith) (by rw [abs_neg, abs_neg, abs_of_pos (by linarith), abs_of_pos (by linarith)]; exact h2) X hX
  exact ⟨jp, hj, Q, hQ, by rw [e, abs_of_pos (by linarith)]; ring⟩

end Cavc
