import Verif.Props.Passes

/-! # C81: when an offset leaves nothing, and that passes end -/

set_option linter.unusedVariables false

namespace Cavc
open Pline RealScalar

/-- an exact offset is empty exactly if no point of its side is far enough away -/
theorem ExactAt.empty {ps rs : List (Pline ℝ)} {r : ℝ} {b c : ℤ} (h : ExactAt ps rs r b c) (hl : ∀ q ∈ rs, Loop q) (hne : ps ≠ []) :
    rs = [] ↔ ¬ ∃ X, allW ps X = b ∧ ∀ p ∈ ps, Keeps p r X := by
  constructor
  · rintro rfl ⟨X, hw, hk⟩
    obtain ⟨p, hp⟩ := List.exists_mem_of_ne_nil ps hne
    obtain ⟨p', hp', hm⟩ := Set.exists_min_image {a | a ∈ ps} (fun a => dn a X) (List.finite_toSet ps) ⟨p, hp⟩
    obtain ⟨F, hF, hd⟩ := dn_foot (h.inputs p' hp') X
    have hle : r ≤ dn p' X := (keeps_dn (h.inputs p' hp')).mp (hk p' hp')
    obtain ⟨q, hq, -⟩ := h.between hp' hF hd (fun q hq => (keeps_dn (h.inputs q hq)).mpr (hm q hq)) hle hw
    simp at hq
  · intro hcon
    by_contra hrs
    obtain ⟨q, hq⟩ := List.exists_mem_of_ne_nil rs hrs
    obtain ⟨X, hX, -⟩ := dn_foot (hl q hq) ⟨0, 0⟩
    obtain ⟨hk, -, hw⟩ := (h.points X).mp ⟨q, hq, hX⟩
    exact hcon ⟨X, hw, hk⟩

/-! ## The inside of a closed polyline is bounded -/

theorem wn_along {p : Pline ℝ} (hl : Loop p) {X Z : V2 ℝ} (h : ∀ t : ℝ, 0 ≤ t → t ≤ 1 → ¬ OnPline p (linePoint X Z t)) : wnAt p X = wnAt p Z := by
  have e1 : ∀ Y, allW [p] Y = wnAt p Y := fun Y => by simp [allW]
  have := allW_path (rs := [p]) (by simpa using hl) (γ := linePoint X Z) (a := 0) (b := 1) (line_continuous X Z).continuousOn (fun u hu q hq => by
    rw [List.mem_singleton.mp hq]
    rw [Set.uIcc_of_le zero_le_one] at hu
    exact h u hu.1 hu.2)
  rw [e1, e1] at this
  have z : linePoint X Z 0 = X := by simp [linePoint]
  have o : linePoint X Z 1 = Z := by simp [linePoint]
  rwa [z, o] at this

theorem inside_bounded {p : Pline ℝ} (hl : Loop p) : ∃ D, 0 < D ∧ (∀ F, OnPline p F → |F.x| < D ∧ |F.y| < D) ∧ ∀ X, wnAt p X ≠ 0 → |X.x| ≤ D ∧ |X.y| ≤ D := by
  obtain ⟨C, hC⟩ := (trace_isCompact hl).isBounded.exists_norm_le
  set D := max C 0 + 1 with hDd
  have hD0 : 0 < D := by have := le_max_right C 0; linarith
  have hD : ∀ F, OnPline p F → |F.x| < D ∧ |F.y| < D := by
    intro F hF
    have hm := hC (F.x, F.y) hF
    have h1 := le_max_left C 0
    have ha : |F.x| ≤ ‖((F.x, F.y) : ℝ × ℝ)‖ := norm_fst_le ((F.x, F.y) : ℝ × ℝ)
    have hb : |F.y| ≤ ‖((F.x, F.y) : ℝ × ℝ)‖ := norm_snd_le ((F.x, F.y) : ℝ × ℝ)
    exact ⟨by linarith, by linarith⟩
  have right : ∀ X : V2 ℝ, D < X.x → wnAt p X = 0 := fun X hX => right_zero hl fun z hz => by
    have := (abs_lt.mp (hD ⟨z.1, z.2⟩ hz).1).2
    simp only at this
    linarith
  have high : ∀ X : V2 ℝ, D < |X.y| → wnAt p X = 0 := by
    intro X hX
    rw [wn_along hl (Z := ⟨D + 1, X.y⟩) fun t _ _ hon => ?_]
    · exact right _ (by simp)
    · have := (hD _ hon).2
      have e : (linePoint X ⟨D + 1, X.y⟩ t).y = X.y := by simp [linePoint]
      rw [e] at this
      linarith
  have wide : ∀ X : V2 ℝ, D < |X.x| → wnAt p X = 0 := by
    intro X hX
    rw [wn_along hl (Z := ⟨X.x, D + 1⟩) fun t _ _ hon => ?_]
    · exact high _ (by rw [abs_of_pos (by linarith)]; linarith)
    · have := (hD _ hon).1
      have e : (linePoint X ⟨X.x, D + 1⟩ t).x = X.x := by simp [linePoint]
      rw [e] at this
      linarith
  exact ⟨D, hD0, hD, fun X hX => ⟨not_lt.mp fun h => hX (wide X h), not_lt.mp fun h => hX (high X h)⟩⟩

/-- no point inside is farther away than this -/
theorem inside_near {p : Pline ℝ} (hl : Loop p) : ∃ B, ∀ X r, wnAt p X ≠ 0 → Keeps p r X → r ≤ B := by
  obtain ⟨D, hD0, hD, hin⟩ := inside_bounded hl
  refine ⟨4 * D, fun X r hw hk => ?_⟩
  obtain ⟨F, hF, -⟩ := dn_foot hl X
  refine (hk F hF).trans ?_
  obtain ⟨a, b⟩ := hD F hF
  obtain ⟨c, d⟩ := hin X hw
  rw [abs_lt] at a b
  rw [abs_le] at c d
  unfold edist
  rw [Real.sqrt_le_left (by linarith)]
  nlinarith

/-! ## The theorems -/

/-- **C81** An offset of a closed polyline to the inside returns nothing exactly if no point inside is as far from the polyline as the offset. -/
theorem C81_empty (env : Env ℝ) (henv : env.Lawful) (p : Pline ℝ) (d : ℝ) (o : OffsetOptions ℝ) (hidx : ∀ idx, o.aabbIndex = some idx → idx.Serves p) (hself : o.handleSelfIntersects = false)
    (he : 0 < o.posEqualEps) (ht : 0 < o.offsetDistEps) (hD : o.offsetDistEps ≤ |d|) (hj0 : 0 < o.sliceJoinEps) (hs : SimpleLoop p)
    (hc : ClearlyOffset p d o.posEqualEps o.sliceJoinEps o.offsetDistEps) (hin : 0 < d * turnOf p.orientation) :
    ∃ rs, parallelOffset env p d o = .ok rs ∧ (rs = [] ↔ ¬ ∃ X, p.windingNumber X ≠ 0 ∧ ∀ F, OnPline p F → |d| ≤ edist X F) := by
  obtain ⟨rs, e, h1, h2⟩ := single_exact env henv p d o hidx hself he ht hD hj0 hs hc hin
  refine ⟨rs, e, ?_⟩
  rw [h2.empty (fun q hq => (h1 q hq).1) (by simp), not_iff_not]
  have hl := h2.inputs p (by simp)
  have e1 : ∀ X, allW [p] X = p.windingNumber X := fun X => by simp [allW]; rfl
  constructor
  · rintro ⟨X, hw, hk⟩
    exact ⟨X, by rw [← e1, hw]; exact turn_zero hin, hk p (by simp)⟩
  · rintro ⟨X, hw, hk⟩
    have hk' : ∀ q ∈ [p], Keeps q |d| X := fun q hq => by rw [List.mem_singleton.mp hq]; exact hk
    rw [← e1] at hw
    exact ⟨X, (h2.two X (keeps_leaves h2.pos hk')).resolve_right hw, hk'⟩

/-- **C81** The same for passes: a pass leaves nothing exactly if no point inside is as far from the polyline as the sum of the distances. -/
theorem C81_passes_empty (env : Env ℝ) (henv : env.Lawful) (p : Pline ℝ) (ds : List ℝ) (hne : ds ≠ []) (o : OffsetOptions ℝ) (hidx : o.aabbIndex = none) (hself : o.handleSelfIntersects = false)
    (he : 0 < o.posEqualEps) (ht : 0 < o.offsetDistEps) (hj0 : 0 < o.sliceJoinEps) (hs : SimpleLoop p) (hd : ∀ d ∈ ds, o.offsetDistEps ≤ |d| ∧ 0 < d * turnOf p.orientation)
    (hc : ClearPasses env o [p] ds) :
    ∃ ts, makePasses env o [p] ds = .ok ts ∧ (ts = [] ↔ ¬ ∃ X, p.windingNumber X ≠ 0 ∧ ∀ F, OnPline p F → (ds.map abs).sum ≤ edist X F) := by
  obtain ⟨ts, e, h⟩ := passes_exact env henv o hidx hself he ht hj0 p hs ds hne hd hc
  refine ⟨ts, e, ?_⟩
  obtain ⟨d0, hd0⟩ := List.exists_mem_of_ne_nil ds hne
  rw [h.exact.empty (fun q hq => (h.each q hq).1) (by simp), not_iff_not]
  have e1 : ∀ X, allW [p] X = p.windingNumber X := fun X => by simp [allW]; rfl
  constructor
  · rintro ⟨X, hw, hk⟩
    exact ⟨X, by rw [← e1, hw]; exact turn_zero (hd d0 hd0).2, hk p (by simp)⟩
  · rintro ⟨X, hw, hk⟩
    have hk' : ∀ q ∈ [p], Keeps q (ds.map abs).sum X := fun q hq => by rw [List.mem_singleton.mp hq]; exact hk
    rw [← e1] at hw
    exact ⟨X, (h.exact.two X (keeps_leaves h.exact.pos hk')).resolve_right hw, hk'⟩

/-- **C81** Passes end: for every closed polyline there is a bound such that the distances of passes that leave anything add up to no more, whatever the distances and tolerances. -/
theorem C81_passes_end (p : Pline ℝ) (hl : Loop p) (hs : SimpleLoop p) :
    ∃ B, ∀ (env : Env ℝ) (o : OffsetOptions ℝ) (ds : List ℝ), env.Lawful → ds ≠ [] → o.aabbIndex = none → o.handleSelfIntersects = false → 0 < o.posEqualEps → 0 < o.offsetDistEps → 0 < o.sliceJoinEps →
      (∀ d ∈ ds, o.offsetDistEps ≤ |d| ∧ 0 < d * turnOf p.orientation) → ClearPasses env o [p] ds →
      ∃ ts, makePasses env o [p] ds = .ok ts ∧ (ts ≠ [] → (ds.map abs).sum ≤ B) := by
  obtain ⟨B, hB⟩ := inside_near hl
  refine ⟨B, fun env o ds henv hne hidx hself he ht hj0 hd hc => ?_⟩
  obtain ⟨ts, e, h⟩ := C81_passes_empty env henv p ds hne o hidx hself he ht hj0 hs hd hc
  refine ⟨ts, e, fun hts => ?_⟩
  rw [ne_eq, h, not_not] at hts
  obtain ⟨X, hw, hk⟩ := hts
  exact hB X _ hw hk

/-- **C81** The same for one offset of a shape, to either side: nothing is left exactly if no point of this side is as far from all the polylines as the offset. -/
theorem C81_shape_empty (env : Env ℝ) (henv : env.Lawful) (s : Shape ℝ) (hne : s.loops ≠ []) (d : ℝ) (o : ShapeOffsetOptions ℝ) (he : 0 < o.posEqualEps) (ht : 0 < o.offsetDistEps)
    (hD : o.offsetDistEps ≤ |d|) (hj0 : 0 < o.sliceJoinEps) (a : ℤ) (hs : SoundShape s a) (hc : ClearShape env s d o) :
    ∃ s', s.parallelOffset env d o = .ok s' ∧
      (s'.loops = [] ↔ ¬ ∃ X, s.windingNumber X = (if 0 < d then a + 1 else a) ∧ ∀ ip ∈ s.loops, ∀ F, OnPline ip.pline F → |d| ≤ edist X F) := by
  obtain ⟨s', e, k, x⟩ := sound_exact env henv s d o he ht hD hj0 a hs hc
  refine ⟨s', e, ?_⟩
  have := x.empty (by simpa using k.loop) (by simpa using hne)
  rw [List.map_eq_nil_iff] at this
  rw [this, not_iff_not]
  constructor
  · rintro ⟨X, hw, hk⟩
    exact ⟨X, by rw [shape_sum]; exact hw, fun ip hip => hk _ (List.mem_map.mpr ⟨ip, hip, rfl⟩)⟩
  · rintro ⟨X, hw, hk⟩
    exact ⟨X, by rw [← shape_sum]; exact hw, fun p hp => by
      obtain ⟨ip, hip, rfl⟩ := List.mem_map.mp hp
      exact hk ip hip⟩

/-! ## Example: triangles of any size -/

/-- The hypotheses of C81_empty hold for triangles of any size; the offset is a triangle, so there are points inside that far away. -/
theorem wedge_room (env : Env ℝ) (henv : env.Lawful) {k d : ℝ} (hd : 1 ≤ d) (hk : d + 1 ≤ k) : ∃ X, (wedge k).windingNumber X ≠ 0 ∧ ∀ F, OnPline (wedge k) F → d ≤ edist X F := by
  have ho : turnOf (wedge k).orientation = -1 := by
    unfold Pline.orientation
    rw [wedge_negative (by linarith)]
    rfl
  have habs : |-d| = d := by rw [abs_neg, abs_of_pos (by linarith)]
  obtain ⟨rs, e, h⟩ := C81_empty env henv (wedge k) (-d) ⟨none, false, 1 / 100000, 1 / 10000, 1 / 10000⟩ (by simp) rfl (by norm_num) (by norm_num) (by rw [habs]; norm_num; linarith) (by norm_num)
    (wedge_simple (by linarith)) (wedge_clearly hd hk) (by rw [ho]; push_cast; linarith)
  rw [wedge_offset_none hd hk env henv] at e
  rw [← Except.ok.inj e, habs] at h
  by_contra hcon
  simpa using h.mpr hcon

theorem wedge_follow (env : Env ℝ) (henv : env.Lawful) : ∀ (ds : List ℝ) (k : ℝ), (∀ d ∈ ds, 1 ≤ d) → ds.sum + 1 ≤ k →
    makePasses env ⟨none, false, 1 / 100000, 1 / 10000, 1 / 10000⟩ [wedge k] (ds.map fun d => -d) = .ok [wedge (k - ds.sum)] := by
  intro ds
  induction ds with
  | nil => intro k _ _; simp [makePasses]
  | cons d ds ih =>
    intro k h hk
    rw [List.sum_cons] at hk
    have h0 := sum_ge_zero ds fun x hx => h x (by simp [hx])
    have h1 := h d (by simp)
    rw [List.map_cons]
    unfold makePasses
    simp only [bind, Except.bind, wedge_each h1 (by linarith) env henv]
    rw [ih (k - d) (fun x hx => h x (by simp [hx])) (by linarith), List.sum_cons, sub_sub]

/-- The hypotheses of C81_passes_end hold for triangles of any size and any number of passes, which leave a triangle: one bound for the sums of their distances. -/
theorem wedge_end (env : Env ℝ) (henv : env.Lawful) {k : ℝ} (hk1 : 1 ≤ k) : ∃ B, ∀ ds : List ℝ, ds ≠ [] → (∀ d ∈ ds, 1 ≤ d) → ds.sum + 1 ≤ k →
    makePasses env ⟨none, false, 1 / 100000, 1 / 10000, 1 / 10000⟩ [wedge k] (ds.map fun d => -d) = .ok [wedge (k - ds.sum)] ∧ ((ds.map fun d => -d).map abs).sum ≤ B := by
  have ho : turnOf (wedge k).orientation = -1 := by
    unfold Pline.orientation
    rw [wedge_negative hk1]
    rfl
  obtain ⟨B, hB⟩ := C81_passes_end (wedge k) ((wedge_full hk1).loop (by norm_num)) (wedge_simple hk1)
  refine ⟨B, fun ds hne h hk => ?_⟩
  have hf := wedge_follow env henv ds k h hk
  obtain ⟨ts, e, hts⟩ := hB env ⟨none, false, 1 / 100000, 1 / 10000, 1 / 10000⟩ (ds.map fun d => -d) henv (by simpa using hne) rfl rfl (by norm_num) (by norm_num) (by norm_num) (fun d hd => by
    obtain ⟨x, hx, rfl⟩ := List.mem_map.mp hd
    have := h x hx
    rw [ho, abs_neg, abs_of_pos (by linarith)]
    push_cast
    constructor
    · show (1 / 10000 : ℝ) ≤ x
      norm_num
      linarith
    · linarith) (wedge_clear_passes env henv ds k h hk)
  rw [hf] at e
  exact ⟨hf, hts (by rw [← Except.ok.inj e]; simp)⟩

/-- The hypotheses of C81_shape_empty hold for the shape of a triangle of any size. -/
theorem wedge_shape_room (env : Env ℝ) (henv : env.Lawful) {k d : ℝ} (hd : 1 ≤ d) (hk : d + 1 ≤ k) : ∃ s s', Shape.fromPlines env [wedge k] = .ok s ∧ s.parallelOffset env (-d) isletOpts = .ok s' ∧ s'.loops ≠ [] ∧
    ∃ X, s.windingNumber X = -1 ∧ ∀ ip ∈ s.loops, ∀ F, OnPline ip.pline F → d ≤ edist X F := by
  have habs : |-d| = d := by rw [abs_neg, abs_of_pos (by linarith)]
  obtain ⟨s, ip, hs, hw⟩ := wedge_shape env henv (k := k) (by linarith)
  obtain ⟨s', e, h⟩ := C81_shape_empty env henv s (by rw [hw.loops]; simp) (-d) isletOpts (by norm_num [isletOpts]) (by norm_num [isletOpts]) (by rw [habs]; norm_num [isletOpts]; linarith) (by norm_num [isletOpts]) (-1)
    (wedge_sound (by linarith) hw) (wedge_clearShape hd hk env henv hw)
  obtain ⟨jp, hj⟩ := wedge_next hd hk env henv hw s' e
  rw [habs, if_neg (by linarith), hj.loops] at h
  refine ⟨s, s', hs, e, by rw [hj.loops]; simp, ?_⟩
  by_contra hcon
  simpa using h.mpr hcon

end Cavc
