import Verif.Spec.Passes
import Verif.Props.OffsetRepeat

/-! # C80: any number of passes -/

set_option linter.unusedVariables false

namespace Cavc
open Pline RealScalar

/-- an exact offset of an exact offset is an exact offset by the sum -/
theorem ExactAt.comp {ps rs ts : List (Pline ℝ)} {r1 r2 : ℝ} {b c : ℤ} (h1 : ExactAt ps rs r1 b c) (hbc : b ≠ c) (h2 : ExactAt rs ts r2 b c) : ExactAt ps ts (r1 + r2) b c := by
  have hr1 := h1.pos
  have hr2 := h2.pos
  have hin : ∀ X, (∀ q ∈ rs, ¬ OnPline q X) → allW rs X = b → (∀ p ∈ ps, Keeps p r1 X) ∧ allW ps X = b := by
    intro X hoff hw
    have hk : ∀ p ∈ ps, Keeps p r1 X := by
      by_contra hcon
      push Not at hcon
      exact hbc (hw.symm.trans (h1.near X hoff hcon))
    exact ⟨hk, by rw [← h1.far X hoff hk]; exact hw⟩
  refine ⟨by linarith, h1.inputs, h1.two, fun X => ?_, fun Y hY hks => ?_, fun Y hY hks => ?_⟩
  · rw [h2.points X]
    constructor
    · rintro ⟨hk2, ⟨q, hq, Q, hQ, eQ⟩, hw⟩
      obtain ⟨hk, hw'⟩ := hin X (keeps_leaves hr2 hk2) hw
      have hks := h1.sum_keeps hk hw' hk2
      refine ⟨hks, ?_, hw'⟩
      obtain ⟨-, ⟨p, hp, F, hF, e⟩, -⟩ := (h1.points Q).mp ⟨q, hq, hQ⟩
      refine ⟨p, hp, F, hF, le_antisymm ?_ (hks p hp F hF)⟩
      have := edist_triangle X Q F
      linarith
    · rintro ⟨hk, ⟨p, hp, F, hF, e⟩, hw⟩
      have hk2 := h1.rest_keeps hk
      obtain ⟨q, hq, Q, hQ, eQ⟩ := h1.between hp hF e hk (by linarith) hw
      refine ⟨hk2, ⟨q, hq, Q, hQ, by rw [eQ]; ring⟩, ?_⟩
      rw [h1.far X (keeps_leaves hr2 hk2) fun p hp => keeps_less (by linarith) (hk p hp), hw]
  · by_cases hk2 : ∀ q ∈ rs, Keeps q r2 Y
    · rw [h2.far Y hY hk2]
      rcases h2.two Y (keeps_leaves hr2 hk2) with e | e
      · obtain ⟨hk, hw⟩ := hin Y (keeps_leaves hr2 hk2) e
        obtain ⟨p, hp, hn⟩ := hks
        exact absurd (h1.sum_keeps hk hw hk2 p hp) hn
      · exact e
    · exact h2.near Y hY (by push Not at hk2; exact hk2)
  · have hk2 := h1.rest_keeps hks
    rw [h2.far Y hY hk2, h1.far Y (keeps_leaves hr2 hk2) fun p hp => keeps_less (by linarith) (hks p hp)]

/-- two exact offsets by the same distance are equal -/
theorem ExactAt.same {ps ts us : List (Pline ℝ)} {r : ℝ} {b c : ℤ} (h : ExactAt ps ts r b c) (h' : ExactAt ps us r b c) :
    (∀ X, (∃ q ∈ ts, OnPline q X) ↔ ∃ q ∈ us, OnPline q X) ∧ ∀ Y, (∀ q ∈ us, ¬ OnPline q Y) → allW ts Y = allW us Y := by
  have hpts : ∀ X, (∃ q ∈ ts, OnPline q X) ↔ ∃ q ∈ us, OnPline q X := fun X => by rw [h.points X, h'.points X]
  refine ⟨hpts, fun Y hY => ?_⟩
  have hY' : ∀ q ∈ ts, ¬ OnPline q Y := fun q hq hon => by
    obtain ⟨q', hq', hon'⟩ := (hpts Y).mp ⟨q, hq, hon⟩
    exact hY q' hq' hon'
  by_cases hk : ∀ p ∈ ps, Keeps p r Y
  · rw [h.far Y hY' hk, h'.far Y hY hk]
  · push Not at hk
    rw [h.near Y hY' hk, h'.near Y hY hk]

/-! ## Passes of one polyline -/

/-- the results after passes of `R` altogether -/
structure Followed (p : Pline ℝ) (rs : List (Pline ℝ)) (R : ℝ) : Prop where
  each : ∀ q ∈ rs, Loop q ∧ SimpleLoop q ∧ q.orientation = p.orientation
  exact : ExactAt [p] rs R (turnOf p.orientation) 0

theorem offsetEach_ok {env : Env ℝ} {o : OffsetOptions ℝ} {d : ℝ} (f : Pline ℝ → List (Pline ℝ)) : ∀ rs : List (Pline ℝ), (∀ q ∈ rs, parallelOffset env q d o = .ok (f q)) →
    offsetEach env o d rs = .ok (rs.flatMap f) := by
  intro rs
  induction rs with
  | nil => intro _; rfl
  | cons q rs ih =>
    intro h
    have h1 := h q (by simp)
    have h2 := ih fun a ha => h a (by simp [ha])
    unfold offsetEach
    simp only [bind, Except.bind, h1, h2, List.flatMap_cons]

theorem turn_zero {p : Pline ℝ} {d : ℝ} (h : 0 < d * turnOf p.orientation) : turnOf p.orientation ≠ 0 := by
  intro h0
  rw [h0] at h
  simp at h

section
variable (env : Env ℝ) (henv : env.Lawful) (o : OffsetOptions ℝ) (hidx : o.aabbIndex = none) (hself : o.handleSelfIntersects = false) (he : 0 < o.posEqualEps) (ht : 0 < o.offsetDistEps)
  (hj0 : 0 < o.sliceJoinEps) (p : Pline ℝ)
include henv hidx hself he ht hj0

theorem Followed.step {rs : List (Pline ℝ)} {R d : ℝ} (h : Followed p rs R) (hD : o.offsetDistEps ≤ |d|) (hin : 0 < d * turnOf p.orientation)
    (hc : ∀ q ∈ rs, ClearlyOffset q d o.posEqualEps o.sliceJoinEps o.offsetDistEps) :
    ∃ ts, offsetEach env o d rs = .ok ts ∧ Followed p ts (R + |d|) ∧ ExactAt rs ts |d| (turnOf p.orientation) 0 := by
  have each : ∀ q ∈ rs, ∃ ts, parallelOffset env q d o = .ok ts ∧ (∀ t ∈ ts, Loop t ∧ SimpleLoop t ∧ t.orientation = p.orientation) ∧ ExactAt [q] ts |d| (turnOf p.orientation) 0 := by
    intro q hq
    obtain ⟨a, b, c⟩ := h.each q hq
    obtain ⟨ts, g1, g2, g3⟩ := single_exact env henv q d o (by simp [hidx]) hself he ht hD hj0 b (hc q hq) (by rw [c]; exact hin)
    rw [c] at g3
    exact ⟨ts, g1, fun t ht => ⟨(g2 t ht).1, (g2 t ht).2.1, (g2 t ht).2.2.trans c⟩, g3⟩
  classical
  let f : Pline ℝ → List (Pline ℝ) := fun q => if h : q ∈ rs then (each q h).choose else []
  have hf : ∀ q ∈ rs, parallelOffset env q d o = .ok (f q) ∧ (∀ t ∈ f q, Loop t ∧ SimpleLoop t ∧ t.orientation = p.orientation) ∧ ExactAt [q] (f q) |d| (turnOf p.orientation) 0 := by
    intro q hq
    have : f q = (each q hq).choose := dif_pos hq
    rw [this]
    exact (each q hq).choose_spec
  have htl : ∀ q ∈ rs, TurnsLike q (turnOf p.orientation) := fun q hq => by
    have := simple_turns (h.each q hq).1 (h.each q hq).2.1
    rwa [(h.each q hq).2.2] at this
  have x2 := h.exact.together (fun q hq => (h.each q hq).1) htl (lt_of_lt_of_le ht hD) f fun q hq => (hf q hq).2.2
  exact ⟨_, offsetEach_ok f rs fun q hq => (hf q hq).1, ⟨fun t ht => by
    obtain ⟨q, hq, ht⟩ := List.mem_flatMap.mp ht
    exact (hf q hq).2.1 t ht, h.exact.comp (turn_zero hin) x2⟩, x2⟩

theorem Followed.all (ds : List ℝ) : ∀ {rs : List (Pline ℝ)} {R : ℝ}, Followed p rs R → (∀ d ∈ ds, o.offsetDistEps ≤ |d| ∧ 0 < d * turnOf p.orientation) → ClearPasses env o rs ds →
    ∃ ts, makePasses env o rs ds = .ok ts ∧ Followed p ts (R + (ds.map abs).sum) := by
  induction ds with
  | nil => intro rs R h _ _; exact ⟨rs, rfl, by simpa using h⟩
  | cons d ds ih =>
    intro rs R h hd hc
    obtain ⟨ts, e, h', -⟩ := h.step env henv o hidx hself he ht hj0 p (hd d (by simp)).1 (hd d (by simp)).2 hc.1
    obtain ⟨us, e', h''⟩ := ih h' (fun a ha => hd a (by simp [ha])) (hc.2 ts e)
    refine ⟨us, ?_, by simpa [add_assoc] using h''⟩
    unfold makePasses
    simp only [bind, Except.bind, e, e']

theorem passed_first {d : ℝ} (hs : SimpleLoop p) (hD : o.offsetDistEps ≤ |d|) (hin : 0 < d * turnOf p.orientation) (hc : ClearlyOffset p d o.posEqualEps o.sliceJoinEps o.offsetDistEps) :
    ∃ rs, parallelOffset env p d o = .ok rs ∧ offsetEach env o d [p] = .ok rs ∧ Followed p rs |d| := by
  obtain ⟨rs, a, b, c⟩ := single_exact env henv p d o (by simp [hidx]) hself he ht hD hj0 hs hc hin
  refine ⟨rs, a, ?_, b, c⟩
  simp only [offsetEach, bind, Except.bind, a, List.append_nil]

/-- the results of any passes -/
theorem passes_exact (hs : SimpleLoop p) (ds : List ℝ) (hne : ds ≠ []) (hd : ∀ d ∈ ds, o.offsetDistEps ≤ |d| ∧ 0 < d * turnOf p.orientation) (hc : ClearPasses env o [p] ds) :
    ∃ ts, makePasses env o [p] ds = .ok ts ∧ Followed p ts (ds.map abs).sum := by
  cases ds with
  | nil => exact absurd rfl hne
  | cons d ds =>
    obtain ⟨rs, -, e, h⟩ := passed_first env henv o hidx hself he ht hj0 p hs (hd d (by simp)).1 (hd d (by simp)).2 (hc.1 p (by simp))
    obtain ⟨ts, e', h'⟩ := Followed.all env henv o hidx hself he ht hj0 p ds h (fun a ha => hd a (by simp [ha])) (hc.2 rs e)
    refine ⟨ts, ?_, by simpa using h'⟩
    unfold makePasses
    simp only [bind, Except.bind, e, e']

end

theorem abs_sum_side {σ : ℤ} (hσ : σ = 1 ∨ σ = -1) : ∀ ds : List ℝ, (∀ d ∈ ds, 0 < d * σ) → |ds.sum| = (ds.map abs).sum ∧ 0 ≤ ds.sum * σ := by
  intro ds
  induction ds with
  | nil => intro _; simp
  | cons d ds ih =>
    intro h
    obtain ⟨a, b⟩ := ih fun x hx => h x (by simp [hx])
    have hd := h d (by simp)
    rw [List.sum_cons, List.map_cons, List.sum_cons, ← a]
    rcases hσ with e | e <;> rw [e] at b hd ⊢ <;> push_cast at b hd ⊢
    · rw [abs_of_nonneg (by linarith), abs_of_pos (by linarith), abs_of_nonneg (by linarith)]
      exact ⟨rfl, by linarith⟩
    · rw [abs_of_nonpos (by linarith), abs_of_neg (by linarith), abs_of_nonpos (by linarith)]
      exact ⟨by ring, by linarith⟩

theorem le_sum_abs : ∀ (ds : List ℝ) (d : ℝ), d ∈ ds → |d| ≤ (ds.map abs).sum := fun ds d hd =>
  List.single_le_sum (fun x hx => by obtain ⟨y, -, rfl⟩ := List.mem_map.mp hx; exact abs_nonneg y) _ (List.mem_map.mpr ⟨d, hd, rfl⟩)

/-- **C80** Passes: a closed polyline is offset to the inside, the results again, and so on, any number of times by any distances.  No call fails, and the polylines of the last pass consist of the same points as
those of one offset by the sum of the distances, wind equally often around every point off them, and their areas add up to the same. -/
theorem C80_passes (env : Env ℝ) (henv : env.Lawful) (p : Pline ℝ) (ds : List ℝ) (hne : ds ≠ []) (o : OffsetOptions ℝ) (hidx : o.aabbIndex = none) (hself : o.handleSelfIntersects = false)
    (he : 0 < o.posEqualEps) (ht : 0 < o.offsetDistEps) (hj0 : 0 < o.sliceJoinEps) (hs : SimpleLoop p) (hd : ∀ d ∈ ds, o.offsetDistEps ≤ |d| ∧ 0 < d * turnOf p.orientation)
    (hc : ClearPasses env o [p] ds) (hsum : ClearlyOffset p ds.sum o.posEqualEps o.sliceJoinEps o.offsetDistEps) :
    ∃ ts us, makePasses env o [p] ds = .ok ts ∧ parallelOffset env p ds.sum o = .ok us ∧
      (∀ X, (∃ t ∈ ts, OnPline t X) ↔ ∃ u ∈ us, OnPline u X) ∧
      (∀ Y, (∀ u ∈ us, ¬ OnPline u Y) → (ts.map fun t => t.windingNumber Y).sum = (us.map fun u => u.windingNumber Y).sum) ∧
      (ts.map Pline.area).sum = (us.map Pline.area).sum := by
  obtain ⟨d0, hd0⟩ := List.exists_mem_of_ne_nil ds hne
  have hσ := turn_zero (hd d0 hd0).2
  have hσ1 : turnOf p.orientation = 1 ∨ turnOf p.orientation = -1 := by
    cases ho : p.orientation with
    | «open» => rw [ho] at hσ; exact absurd rfl hσ
    | clockwise => right; rfl
    | counterClockwise => left; rfl
  obtain ⟨habs, hside⟩ := abs_sum_side hσ1 ds fun d h => (hd d h).2
  have hD : o.offsetDistEps ≤ |ds.sum| := by rw [habs]; exact (hd d0 hd0).1.trans (le_sum_abs ds d0 hd0)
  have hin : 0 < ds.sum * turnOf p.orientation := by
    refine lt_of_le_of_ne hside fun h => ?_
    rcases mul_eq_zero.mp h.symm with h | h
    · rw [h, abs_zero] at hD; linarith
    · exact hσ (by exact_mod_cast h)
  obtain ⟨ts, e1, h1⟩ := passes_exact env henv o hidx hself he ht hj0 p hs ds hne hd hc
  obtain ⟨us, e2, -, h2⟩ := passed_first env henv o hidx hself he ht hj0 p hs hD hin hsum
  have x := h1.exact
  rw [← habs] at x
  obtain ⟨p1, p2⟩ := x.same h2.exact
  refine ⟨ts, us, e1, e2, p1, p2, ?_⟩
  rw [list_area_integral _ fun t ht => (h1.each t ht).1, list_area_integral _ fun u hu => (h2.each u hu).1]
  refine MeasureTheory.integral_congr_ae ?_
  filter_upwards [trace_ae us] with z hz
  rw [p2 _ hz]

theorem passes_append {env : Env ℝ} {o : OffsetOptions ℝ} {d : ℝ} : ∀ (ds : List ℝ) (ps rs : List (Pline ℝ)), makePasses env o ps ds = .ok rs → makePasses env o ps (ds ++ [d]) = offsetEach env o d rs := by
  intro ds
  induction ds with
  | nil =>
    intro ps rs h
    rw [← Except.ok.inj h]
    simp only [List.nil_append, makePasses, bind, Except.bind]
    cases offsetEach env o d ps <;> rfl
  | cons a ds ih =>
    intro ps rs h
    rw [List.cons_append]
    unfold makePasses at h ⊢
    simp only [bind, Except.bind] at h ⊢
    cases hq : offsetEach env o a ps with
    | error => rw [hq] at h; simp at h
    | ok qs => rw [hq] at h; exact ih qs rs h

theorem clear_append {env : Env ℝ} {o : OffsetOptions ℝ} {d : ℝ} : ∀ (ds : List ℝ) (ps : List (Pline ℝ)), ClearPasses env o ps (ds ++ [d]) →
    ClearPasses env o ps ds ∧ ∀ rs, makePasses env o ps ds = .ok rs → ∀ q ∈ rs, ClearlyOffset q d o.posEqualEps o.sliceJoinEps o.offsetDistEps := by
  intro ds
  induction ds with
  | nil =>
    intro ps h
    exact ⟨trivial, fun rs hrs => by rw [← Except.ok.inj hrs]; exact h.1⟩
  | cons a ds ih =>
    intro ps h
    refine ⟨⟨h.1, fun rs hrs => (ih rs (h.2 rs hrs)).1⟩, fun rs hrs => ?_⟩
    unfold makePasses at hrs
    simp only [bind, Except.bind] at hrs
    cases hq : offsetEach env o a ps with
    | error => rw [hq] at hrs; simp at hrs
    | ok qs => rw [hq] at hrs; exact (ih qs (h.2 qs hq)).2 rs hrs

/-- **C80** The distance between one pass and the next: no two points of them are nearer to each other than the distance `d` of the pass, and every point of the later pass has a point of the earlier one at exactly this
distance.  The results of every pass are simple closed polylines with the orientation of the first. -/
theorem C80_step (env : Env ℝ) (henv : env.Lawful) (p : Pline ℝ) (ds : List ℝ) (d : ℝ) (hne : ds ≠ []) (o : OffsetOptions ℝ) (hidx : o.aabbIndex = none) (hself : o.handleSelfIntersects = false)
    (he : 0 < o.posEqualEps) (ht : 0 < o.offsetDistEps) (hj0 : 0 < o.sliceJoinEps) (hs : SimpleLoop p) (hd : ∀ a ∈ ds ++ [d], o.offsetDistEps ≤ |a| ∧ 0 < a * turnOf p.orientation)
    (hc : ClearPasses env o [p] (ds ++ [d])) :
    ∃ rs ts, makePasses env o [p] ds = .ok rs ∧ makePasses env o [p] (ds ++ [d]) = .ok ts ∧ (∀ q ∈ rs ++ ts, Loop q ∧ SimpleLoop q ∧ q.orientation = p.orientation) ∧
      (∀ t ∈ ts, ∀ X, OnPline t X → ∀ q ∈ rs, ∀ F, OnPline q F → |d| ≤ edist X F) ∧
      ∀ t ∈ ts, ∀ X, OnPline t X → ∃ q ∈ rs, ∃ F, OnPline q F ∧ edist X F = |d| := by
  obtain ⟨hc1, hc2⟩ := clear_append ds [p] hc
  obtain ⟨rs, e1, h1⟩ := passes_exact env henv o hidx hself he ht hj0 p hs ds hne (fun a ha => hd a (by simp [ha])) hc1
  obtain ⟨ts, e2, h2, x⟩ := h1.step env henv o hidx hself he ht hj0 p (hd d (by simp)).1 (hd d (by simp)).2 (hc2 rs e1)
  refine ⟨rs, ts, e1, (passes_append ds [p] rs e1).trans e2, fun q hq => ?_, fun t ht X hX q hq F hF => ?_, fun t ht X hX => ?_⟩
  · rcases List.mem_append.mp hq with h | h
    · exact h1.each q h
    · exact h2.each q h
  · exact ((x.points X).mp ⟨t, ht, hX⟩).1 q hq F hF
  · exact ((x.points X).mp ⟨t, ht, hX⟩).2.1

/-! ## Passes of a shape -/

theorem shape_passes_exact (env : Env ℝ) (henv : env.Lawful) (o : ShapeOffsetOptions ℝ) (he : 0 < o.posEqualEps) (ht : 0 < o.offsetDistEps) (hj0 : 0 < o.sliceJoinEps) (a b c : ℤ) (hbc : b ≠ c)
    (ps : List (Pline ℝ)) (ds : List ℝ) : ∀ {s : Shape ℝ} {R : ℝ}, SoundShape s a → ExactAt ps (s.loops.map IndexedPline.pline) R b c →
      (∀ d ∈ ds, o.offsetDistEps ≤ |d| ∧ (if 0 < d then a + 1 else a) = b ∧ (if 0 < d then a else a + 1) = c) → ClearShapePasses env o s ds →
    ∃ s', shapePasses env o s ds = .ok s' ∧ SoundShape s' a ∧ ExactAt ps (s'.loops.map IndexedPline.pline) (R + (ds.map abs).sum) b c := by
  induction ds with
  | nil => intro s R h x _ _; exact ⟨s, rfl, h, by simpa using x⟩
  | cons d ds ih =>
    intro s R h x hd hc
    obtain ⟨hD, hb, hcc⟩ := hd d (by simp)
    obtain ⟨s1, e, h1, x1⟩ := sound_exact env henv s d o he ht hD hj0 a h hc.1
    rw [hb, hcc] at x1
    obtain ⟨s2, e', h2, x2⟩ := ih h1 (x.comp hbc x1) (fun q hq => hd q (by simp [hq])) (hc.2 s1 e)
    refine ⟨s2, ?_, h2, by simpa [add_assoc] using x2⟩
    unfold shapePasses
    simp only [bind, Except.bind, e, e']

/-- **C80** The same for a shape, with passes all to the inside or all to the outside. -/
theorem C80_shape_passes (env : Env ℝ) (henv : env.Lawful) (s : Shape ℝ) (ds : List ℝ) (hne : ds ≠ []) (o : ShapeOffsetOptions ℝ) (he : 0 < o.posEqualEps) (ht : 0 < o.offsetDistEps)
    (hj0 : 0 < o.sliceJoinEps) (hside : (∀ d ∈ ds, 0 < d) ∨ ∀ d ∈ ds, d < 0) (hD : ∀ d ∈ ds, o.offsetDistEps ≤ |d|) (a : ℤ) (hs : SoundShape s a)
    (hc : ClearShapePasses env o s ds) (hsum : ClearShape env s ds.sum o) :
    ∃ s₁ s₂, shapePasses env o s ds = .ok s₁ ∧ s.parallelOffset env ds.sum o = .ok s₂ ∧
      (∀ X, (∃ ip ∈ s₁.loops, OnPline ip.pline X) ↔ ∃ ip ∈ s₂.loops, OnPline ip.pline X) ∧
      (∀ Y, (∀ ip ∈ s₂.loops, ¬ OnPline ip.pline Y) → s₁.windingNumber Y = s₂.windingNumber Y) ∧
      (s₁.loops.map fun ip => ip.pline.area).sum = (s₂.loops.map fun ip => ip.pline.area).sum := by
  obtain ⟨d0, hd0⟩ := List.exists_mem_of_ne_nil ds hne
  have habs : |ds.sum| = (ds.map abs).sum := by
    rcases hside with h | h
    · exact (abs_sum_side (σ := 1) (Or.inl rfl) ds fun d hd => by simpa using h d hd).1
    · exact (abs_sum_side (σ := -1) (Or.inr rfl) ds fun d hd => by simpa using h d hd).1
  have hDs : o.offsetDistEps ≤ |ds.sum| := by rw [habs]; exact (hD d0 hd0).trans (le_sum_abs ds d0 hd0)
  have hsgn : ∀ d ∈ ds, (0 < d ↔ 0 < ds.sum) := by
    intro d hd
    rcases hside with h | h
    · have := (abs_sum_side (σ := 1) (Or.inl rfl) ds fun d hd => by simpa using h d hd).2
      push_cast at this
      have hp : 0 < ds.sum := lt_of_le_of_ne (by linarith) fun h0 => by rw [← h0, abs_zero] at hDs; linarith
      exact ⟨fun _ => hp, fun _ => h d hd⟩
    · have := (abs_sum_side (σ := -1) (Or.inr rfl) ds fun d hd => by simpa using h d hd).2
      push_cast at this
      exact ⟨fun hp => absurd hp (not_lt.mpr (h d hd).le), fun hp => absurd hp (not_lt.mpr (by linarith))⟩
  cases ds with
  | nil => exact absurd rfl hne
  | cons d ds =>
    have h0 := hsgn d (by simp)
    obtain ⟨s1, e, h1, x1⟩ := sound_exact env henv s d o he ht (hD d (by simp)) hj0 a hs hc.1
    have hpass := shape_passes_exact env henv o he ht hj0 a _ _ (by split_ifs <;> omega) _ ds h1 x1 (fun q hq => by
      have hq' := hsgn q (by simp [hq])
      have : (0 < q) ↔ 0 < d := hq'.trans h0.symm
      exact ⟨hD q (by simp [hq]), by simp only [this], by simp only [this]⟩) (hc.2 s1 e)
    obtain ⟨s₁, e1, k1, y1⟩ := hpass
    obtain ⟨s₂, e2, k2, y2⟩ := sound_exact env henv s (d :: ds).sum o he ht hDs hj0 a hs hsum
    simp only [← h0] at y2
    rw [habs, List.map_cons, List.sum_cons] at y2
    obtain ⟨p1, p2⟩ := y1.same y2
    have w : ∀ Y, (∀ ip ∈ s₂.loops, ¬ OnPline ip.pline Y) → s₁.windingNumber Y = s₂.windingNumber Y := fun Y hY => by
      rw [shape_sum, shape_sum]
      exact p2 Y (by simpa using hY)
    refine ⟨s₁, s₂, ?_, e2, fun X => by simpa using p1 X, w, ?_⟩
    · unfold shapePasses
      simp only [bind, Except.bind, e, e1]
    · rw [(shape_area_integral s₁ k1.loop).2, (shape_area_integral s₂ k2.loop).2]
      refine MeasureTheory.integral_congr_ae ?_
      filter_upwards [trace_ae (s₂.loops.map IndexedPline.pline)] with z hz
      rw [w _ fun ip hip => hz _ (List.mem_map.mpr ⟨ip, hip, rfl⟩)]

/-! ## Example: triangles of any size, any number of passes -/

theorem wedge_each {k d : ℝ} (hd : 1 ≤ d) (hk : d + 1 ≤ k) (env : Env ℝ) (henv : env.Lawful) :
    offsetEach env ⟨none, false, 1 / 100000, 1 / 10000, 1 / 10000⟩ (-d) [wedge k] = .ok [wedge (k - d)] := by
  simp only [offsetEach, bind, Except.bind, wedge_offset_none hd hk env henv, List.append_nil]

theorem sum_ge_zero : ∀ ds : List ℝ, (∀ d ∈ ds, 1 ≤ d) → 0 ≤ ds.sum := fun ds h => List.sum_nonneg fun x hx => by linarith [h x hx]

theorem wedge_clear_passes (env : Env ℝ) (henv : env.Lawful) : ∀ (ds : List ℝ) (k : ℝ), (∀ d ∈ ds, 1 ≤ d) → ds.sum + 1 ≤ k →
    ClearPasses env ⟨none, false, 1 / 100000, 1 / 10000, 1 / 10000⟩ [wedge k] (ds.map fun d => -d) := by
  intro ds
  induction ds with
  | nil => intro k _ _; exact trivial
  | cons d ds ih =>
    intro k h hk
    rw [List.sum_cons] at hk
    have h0 := sum_ge_zero ds fun x hx => h x (by simp [hx])
    have h1 := h d (by simp)
    refine ⟨fun q hq => ?_, fun rs hrs => ?_⟩
    · rw [List.mem_singleton.mp hq]
      exact wedge_clearly h1 (by linarith)
    · rw [wedge_each h1 (by linarith) env henv] at hrs
      rw [← Except.ok.inj hrs]
      exact ih (k - d) (fun x hx => h x (by simp [hx])) (by linarith)

/-- The hypotheses of C80_passes hold for triangles of any size and any number of passes. -/
theorem wedge_passes (env : Env ℝ) (henv : env.Lawful) (ds : List ℝ) (hne : ds ≠ []) (k : ℝ) (h : ∀ d ∈ ds, 1 ≤ d) (hk : ds.sum + 1 ≤ k) :
    ∃ ts us, makePasses env ⟨none, false, 1 / 100000, 1 / 10000, 1 / 10000⟩ [wedge k] (ds.map fun d => -d) = .ok ts ∧
      parallelOffset env (wedge k) (ds.map fun d => -d).sum ⟨none, false, 1 / 100000, 1 / 10000, 1 / 10000⟩ = .ok us ∧ ∀ X, (∃ t ∈ ts, OnPline t X) ↔ ∃ u ∈ us, OnPline u X := by
  obtain ⟨d0, hd0⟩ := List.exists_mem_of_ne_nil ds hne
  have hs1 : 1 ≤ ds.sum := (h d0 hd0).trans (List.single_le_sum (fun x hx => by linarith [h x hx]) d0 hd0)
  have ho : turnOf (wedge k).orientation = -1 := by
    unfold Pline.orientation
    rw [wedge_negative (by linarith)]
    rfl
  have hneg : (ds.map fun d => -d).sum = -ds.sum := by
    have := List.sum_map_mul_left (l := ds) (f := fun x : ℝ => x) (r := (-1 : ℝ))
    simpa using this
  obtain ⟨ts, us, a, b, c, -⟩ := C80_passes env henv (wedge k) (ds.map fun d => -d) (by simpa using hne) ⟨none, false, 1 / 100000, 1 / 10000, 1 / 10000⟩ rfl rfl (by norm_num) (by norm_num) (by norm_num)
    (wedge_simple (by linarith)) (fun d hd => by
      obtain ⟨x, hx, rfl⟩ := List.mem_map.mp hd
      have := h x hx
      rw [ho, abs_neg, abs_of_pos (by linarith)]
      push_cast
      constructor
      · show (1 / 10000 : ℝ) ≤ x
        norm_num
        linarith
      · linarith) (wedge_clear_passes env henv ds k h hk) (by rw [hneg]; exact wedge_clearly hs1 hk)
  exact ⟨ts, us, a, b, c⟩

/-- The hypotheses of C80_step hold for the same passes. -/
theorem wedge_step (env : Env ℝ) (henv : env.Lawful) (ds : List ℝ) (d : ℝ) (hne : ds ≠ []) (k : ℝ) (h : ∀ x ∈ ds ++ [d], 1 ≤ x) (hk : ds.sum + d + 1 ≤ k) :
    ∃ rs ts, makePasses env ⟨none, false, 1 / 100000, 1 / 10000, 1 / 10000⟩ [wedge k] (ds.map fun d => -d) = .ok rs ∧
      makePasses env ⟨none, false, 1 / 100000, 1 / 10000, 1 / 10000⟩ [wedge k] ((ds.map fun d => -d) ++ [-d]) = .ok ts ∧ ∀ t ∈ ts, ∀ X, OnPline t X → ∃ q ∈ rs, ∃ F, OnPline q F ∧ edist X F = |-d| := by
  have h0 := sum_ge_zero ds fun x hx => h x (by simp [hx])
  have h1 := h d (by simp)
  have ho : turnOf (wedge k).orientation = -1 := by
    unfold Pline.orientation
    rw [wedge_negative (by linarith)]
    rfl
  have hmap : (ds.map fun d => -d) ++ [-d] = (ds ++ [d]).map fun d => -d := by simp
  obtain ⟨rs, ts, a, b, -, -, c⟩ := C80_step env henv (wedge k) (ds.map fun d => -d) (-d) (by simpa using hne) ⟨none, false, 1 / 100000, 1 / 10000, 1 / 10000⟩ rfl rfl (by norm_num) (by norm_num) (by norm_num)
    (wedge_simple (by linarith)) (fun a ha => by
      rw [hmap] at ha
      obtain ⟨x, hx, rfl⟩ := List.mem_map.mp ha
      have := h x hx
      rw [ho, abs_neg, abs_of_pos (by linarith)]
      push_cast
      constructor
      · show (1 / 10000 : ℝ) ≤ x
        norm_num
        linarith
      · linarith) (by rw [hmap]; exact wedge_clear_passes env henv (ds ++ [d]) k h (by simpa using hk))
  exact ⟨rs, ts, a, b, c⟩

theorem wedge_clear_shapes (env : Env ℝ) (henv : env.Lawful) : ∀ (ds : List ℝ) (k : ℝ) {s : Shape ℝ} {ip : IndexedPline ℝ}, WedgeShape s k ip → (∀ d ∈ ds, 1 ≤ d) → ds.sum + 1 ≤ k →
    ClearShapePasses env isletOpts s (ds.map fun d => -d) := by
  intro ds
  induction ds with
  | nil => intro k s ip _ _ _; exact trivial
  | cons d ds ih =>
    intro k s ip hs h hk
    rw [List.sum_cons] at hk
    have h0 := sum_ge_zero ds fun x hx => h x (by simp [hx])
    have h1 := h d (by simp)
    refine ⟨wedge_clearShape h1 (by linarith) env henv hs, fun s' hs' => ?_⟩
    obtain ⟨jp, hj⟩ := wedge_next h1 (by linarith) env henv hs s' hs'
    exact ih (k - d) hj (fun x hx => h x (by simp [hx])) (by linarith)

/-- The hypotheses of C80_shape_passes hold for the shape of a triangle of any size and any number of passes. -/
theorem wedge_shape_passes (env : Env ℝ) (henv : env.Lawful) (ds : List ℝ) (hne : ds ≠ []) (k : ℝ) (h : ∀ d ∈ ds, 1 ≤ d) (hk : ds.sum + 1 ≤ k) :
    ∃ s s₁ s₂, Shape.fromPlines env [wedge k] = .ok s ∧ shapePasses env isletOpts s (ds.map fun d => -d) = .ok s₁ ∧ s.parallelOffset env (ds.map fun d => -d).sum isletOpts = .ok s₂ ∧
      ∀ X, (∃ ip ∈ s₁.loops, OnPline ip.pline X) ↔ ∃ ip ∈ s₂.loops, OnPline ip.pline X := by
  obtain ⟨d0, hd0⟩ := List.exists_mem_of_ne_nil ds hne
  have hs1 : 1 ≤ ds.sum := (h d0 hd0).trans (List.single_le_sum (fun x hx => by linarith [h x hx]) d0 hd0)
  have hneg : (ds.map fun d => -d).sum = -ds.sum := by
    have := List.sum_map_mul_left (l := ds) (f := fun x : ℝ => x) (r := (-1 : ℝ))
    simpa using this
  obtain ⟨s, ip, hs, hw⟩ := wedge_shape env henv (k := k) (by linarith)
  obtain ⟨s₁, s₂, a, b, c, -⟩ := C80_shape_passes env henv s (ds.map fun d => -d) (by simpa using hne) isletOpts (by norm_num [isletOpts]) (by norm_num [isletOpts]) (by norm_num [isletOpts])
    (Or.inr fun d hd => by
      obtain ⟨x, hx, rfl⟩ := List.mem_map.mp hd
      linarith [h x hx])
    (fun d hd => by
      obtain ⟨x, hx, rfl⟩ := List.mem_map.mp hd
      have := h x hx
      rw [abs_neg, abs_of_pos (by linarith)]
      norm_num [isletOpts]
      linarith) (-1) (wedge_sound (by linarith) hw) (wedge_clear_shapes env henv ds k hw h hk) (by rw [hneg]; exact wedge_clearShape hs1 hk env henv hw)
  exact ⟨s, s₁, s₂, hs, a, b, c⟩

end Cavc
