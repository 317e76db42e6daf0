import Verif.Props.OffsetNested

/-! # C79: offsetting a polyline to the inside, and each of the results again -/

set_option linter.unusedVariables false

namespace Cavc
open Pline RealScalar

/-! ## One polyline -/

/-- an offset of one polyline to the inside is exact -/
theorem single_exact (env : Env ℝ) (henv : env.Lawful) (p : Pline ℝ) (d : ℝ) (o : OffsetOptions ℝ) (hidx : ∀ idx, o.aabbIndex = some idx → idx.Serves p) (hself : o.handleSelfIntersects = false)
    (he : 0 < o.posEqualEps) (ht : 0 < o.offsetDistEps) (hD : o.offsetDistEps ≤ |d|) (hj0 : 0 < o.sliceJoinEps) (hs : SimpleLoop p)
    (hc : ClearlyOffset p d o.posEqualEps o.sliceJoinEps o.offsetDistEps) (hin : 0 < d * turnOf p.orientation) :
    ∃ rs, parallelOffset env p d o = .ok rs ∧ (∀ r ∈ rs, Loop r ∧ SimpleLoop r ∧ r.orientation = p.orientation) ∧ ExactAt [p] rs |d| (turnOf p.orientation) 0 := by
  obtain ⟨c, gap, E, h, hcc, hf, hE, hA, hF, hT, hW, hg, hj⟩ := hc
  have hd : d ≠ 0 := by intro h; rw [h, zero_mul] at hin; exact lt_irrefl _ hin
  have hpl := h.loop.loop he
  have htl := simple_turns hpl hs
  obtain ⟨rs, hrs, h1, h2⟩ := C75_offset_simple env henv p d o hidx hself hs hd he c h hcc hf gap E hE hA hF ht hD hT hW hg hj0 hj
  obtain ⟨rs', hrs', -, h3⟩ := C75_offset_each env henv p d o hidx hself hs hd he c h hcc hf gap E hE hA hF ht hD hT hW hg hj0 hj
  have heq : rs' = rs := by rw [hrs] at hrs'; exact (Except.ok.inj hrs').symm
  subst heq
  obtain ⟨rs, hrs2, ha⟩ := C74_offset_curve env henv p d o hidx hself hs hd he c h hcc hf gap E hE hA hF ht hD hT hW hg hj0 hj _ htl
  have heq : rs = rs' := by rw [hrs'] at hrs2; exact (Except.ok.inj hrs2).symm
  subst heq
  obtain ⟨rs', hrs3, σ, hσ, hv, -, hreg, -⟩ := C63_offset_region_arcs env henv p d o hidx hself hs hd he c h hcc hf gap E hE hA hF ht hD hT hW hg hj0 hj
  have heq : rs' = rs := by rw [hrs2] at hrs3; exact (Except.ok.inj hrs3).symm
  subst heq
  have hσ' : turnOf p.orientation = σ := turn_orientation hpl hs ⟨hσ, hv⟩
  rw [hσ'] at hin ha htl ⊢
  have hreg := hreg hin
  have e1 : ∀ X, allW [p] X = p.windingNumber X := fun X => by simp [allW]; rfl
  have hs0 : σ ≠ 0 := by rcases hσ with h | h <;> rw [h] <;> norm_num
  refine ⟨rs', hrs, fun r hr => ⟨(h1 r hr).1, (h1 r hr).2, h3 (by rw [hσ']; exact hin) r hr⟩, lt_of_lt_of_le ht hD, by simpa using hpl, fun X hX => ?_, fun X => ?_, fun Y hY hk => ?_, fun Y hY hk => ?_⟩
  · rw [e1]
    exact (hv X (hX p (by simp))).symm
  · rw [e1, ha.points X, if_pos hin]
    simp
  · have := hreg Y hY
    rw [if_neg (by rintro ⟨-, h⟩; obtain ⟨q, hq, hn⟩ := hk; rw [List.mem_singleton] at hq; exact hn (hq ▸ h))] at this
    exact this
  · have hkp := hk p (by simp)
    rw [e1]
    have := hreg Y hY
    change allW rs' Y = _ at this
    rw [this]
    have hoff : ¬ OnPline p Y := keeps_leaves (lt_of_lt_of_le ht hD) hk p (by simp)
    rcases hv Y hoff with e | e
    · rw [if_neg (by rw [e]; rintro ⟨h, -⟩; exact hs0 h.symm), e]
    · rw [if_pos ⟨e, hkp⟩, e]

/-! ## Putting the offsets of several polylines together -/

/-- the polylines of an exact offset to the inside lie outside each other -/
theorem ExactAt.outside {ps rs : List (Pline ℝ)} {r : ℝ} {σ : ℤ} (h : ExactAt ps rs r σ 0) (hl : ∀ q ∈ rs, Loop q) (ht : ∀ q ∈ rs, TurnsLike q σ) {q q' : Pline ℝ} (hq : q ∈ rs) (hq' : q' ∈ rs) {F : V2 ℝ}
    (hF : OnPline q' F) (hoff : ¬ OnPline q F) : wnAt q F = 0 := by
  obtain ⟨hk, ⟨p, hp, P, hP, e⟩, -⟩ := (h.points F).mp ⟨q', hq', hF⟩
  have hr := h.pos
  have hdn : 0 < dn q F := by
    refine lt_of_le_of_ne (dn_nonneg (hl q hq) F) fun h0 => ?_
    obtain ⟨G, hG, eG⟩ := dn_foot (hl q hq) F
    rw [← h0] at eG
    exact hoff (edist_zero eG.le ▸ hG)
  set t := min (1 / 2) (dn q F / (2 * r)) with htdef
  have t0 : 0 < t := lt_min (by norm_num) (by positivity)
  have t1 : t ≤ 1 / 2 := min_le_left _ _
  have t2 : t * r < dn q F := by
    have : t * r ≤ dn q F / (2 * r) * r := mul_le_mul_of_nonneg_right (min_le_right _ _) hr.le
    have e2 : dn q F / (2 * r) * r = dn q F / 2 := by field_simp
    linarith
  set Z := linePoint F P t with hZ
  have hFZ : edist F Z = t * r := by rw [edist_comm, hZ, linePoint_dist, abs_of_pos t0, e]
  have hZP : edist Z P = (1 - t) * r := by
    have e2 : Z = linePoint P F (1 - t) := by rw [hZ]; unfold linePoint; congr 1 <;> ring
    rw [e2, linePoint_dist, abs_of_nonneg (by linarith), edist_comm, e]
  have hn : ¬ Keeps p r Z := fun hkz => by
    have := hkz P hP
    rw [hZP] at this
    nlinarith
  have hZoff : ∀ a ∈ rs, ¬ OnPline a Z := fun a ha hon => hn (((h.points Z).mp ⟨a, ha, hon⟩).1 p hp)
  have hsum := h.near Z hZoff ⟨p, hp, hn⟩
  have hz : wnAt q Z = 0 := by
    have : ∀ L : List (Pline ℝ), (∀ a ∈ L, wnAt a Z = 0 ∨ wnAt a Z = σ) → (σ = 1 ∨ σ = -1) → allW L Z = 0 → ∀ a ∈ L, wnAt a Z = 0 := by
      intro L hL hσ hs a ha
      have hnn : ∀ x ∈ L.map (fun r => σ * wnAt r Z), 0 ≤ x := by
        intro x hx
        obtain ⟨b, hb, rfl⟩ := List.mem_map.mp hx
        rcases hL b hb with e | e <;> rw [e] <;> rcases hσ with h | h <;> rw [h] <;> norm_num
      have hs' : (L.map fun r => σ * wnAt r Z).sum = 0 := by
        rw [List.sum_map_mul_left]
        unfold allW at hs
        rw [hs, mul_zero]
      have := List.all_zero_of_le_zero_le_of_sum_eq_zero hnn hs' (List.mem_map.mpr ⟨a, ha, rfl⟩)
      rcases hσ with h | h <;> rw [h] at this <;> omega
    exact this rs (fun a ha => (ht a ha).2 Z (hZoff a ha)) (ht q hq).1 hsum q hq
  by_contra hne
  obtain ⟨a, ha, G, hG, eG⟩ := allW_between (ps := [q]) (by simpa using hl q hq) (X := F) (Q := Z) (by simp only [allW, List.map_cons, List.map_nil, List.sum_cons, List.sum_nil, add_zero]; rw [hz]; exact hne)
  rw [List.mem_singleton] at ha
  subst ha
  have g1 := dn_le (hl a hq) (Y := F) hG
  have g2 := edist_nonneg G Z
  linarith

theorem sum_sigma {α : Type} (f : α → ℤ) {σ : ℤ} (hσ : σ = 1 ∨ σ = -1) : ∀ L : List α, (∀ a ∈ L, f a = 0 ∨ f a = σ) → ((L.map f).sum = 0 ∨ (L.map f).sum = σ) →
    ((L.map f).sum = σ ↔ ∃ a ∈ L, f a = σ) := by
  intro L hL hs
  have hs0 : σ ≠ 0 := by rcases hσ with h | h <;> rw [h] <;> norm_num
  constructor
  · intro h
    by_contra hcon
    push Not at hcon
    apply hs0
    rw [← h]
    exact List.sum_eq_zero fun x hx => by
      obtain ⟨a, ha, rfl⟩ := List.mem_map.mp hx
      exact (hL a ha).resolve_right (hcon a ha)
  · rintro ⟨a, ha, e⟩
    rcases hs with h | h
    · exfalso
      have hnn : ∀ x ∈ L.map (fun r => σ * f r), 0 ≤ x := by
        intro x hx
        obtain ⟨b, hb, rfl⟩ := List.mem_map.mp hx
        rcases hL b hb with e | e <;> rw [e] <;> rcases hσ with h | h <;> rw [h] <;> norm_num
      have hs' : (L.map fun r => σ * f r).sum = 0 := by rw [List.sum_map_mul_left, h, mul_zero]
      have := List.all_zero_of_le_zero_le_of_sum_eq_zero hnn hs' (List.mem_map.mpr ⟨a, ha, rfl⟩)
      rw [e] at this
      rcases hσ with h | h <;> rw [h] at this <;> omega
    · exact h

theorem allW_flatten (f : Pline ℝ → List (Pline ℝ)) (rs : List (Pline ℝ)) (Y : V2 ℝ) : allW (rs.flatMap f) Y = (rs.map fun q => allW (f q) Y).sum := by
  induction rs with
  | nil => rfl
  | cons q rs ih =>
    rw [List.flatMap_cons, List.map_cons, List.sum_cons, ← ih]
    unfold allW
    rw [List.map_append, List.sum_append]

/-- the exact offsets to the inside of the polylines of an exact offset to the inside are together the exact offset of them all -/
theorem ExactAt.together {ps rs : List (Pline ℝ)} {r r2 : ℝ} {σ : ℤ} (h : ExactAt ps rs r σ 0) (hl : ∀ q ∈ rs, Loop q) (ht : ∀ q ∈ rs, TurnsLike q σ)
    (hr2 : 0 < r2) (f : Pline ℝ → List (Pline ℝ)) (hf : ∀ q ∈ rs, ExactAt [q] (f q) r2 σ 0) :
    ExactAt rs (rs.flatMap f) r2 σ 0 := by
  have e1 : ∀ q X, allW [q] X = wnAt q X := fun q X => by simp [allW]
  -- from the inside of one to another
  have cross : ∀ q ∈ rs, ∀ q' ∈ rs, ∀ X F, wnAt q X = σ → OnPline q' F → ∃ G, OnPline q G ∧ edist X G ≤ edist X F := by
    intro q hq q' hq' X F hw hF
    by_cases hon : OnPline q F
    · exact ⟨F, hon, le_rfl⟩
    · have h0 := h.outside hl ht hq hq' hF hon
      obtain ⟨a, ha, G, hG, e⟩ := allW_between (ps := [q]) (by simpa using hl q hq) (X := X) (Q := F) (by
        rw [e1, e1, hw, h0]
        rcases (ht q hq).1 with h | h <;> rw [h] <;> norm_num)
      rw [List.mem_singleton] at ha
      subst ha
      exact ⟨G, hG, by have := edist_nonneg G F; linarith⟩
  have keepAll : ∀ q ∈ rs, ∀ X, wnAt q X = σ → Keeps q r2 X → ∀ q' ∈ rs, Keeps q' r2 X := by
    intro q hq X hw hk q' hq' F hF
    obtain ⟨G, hG, hle⟩ := cross q hq q' hq' X F hw hF
    exact (hk G hG).trans hle
  have vals : ∀ Y, (∀ q ∈ rs, ¬ OnPline q Y) → allW rs Y = 0 ∨ allW rs Y = σ := fun Y hY => (h.values hY).symm
  have some : ∀ Y, (∀ q ∈ rs, ¬ OnPline q Y) → rs ≠ [] → (allW rs Y = σ ↔ ∃ q ∈ rs, wnAt q Y = σ) := by
    intro Y hY hne
    obtain ⟨q, hq⟩ := List.exists_mem_of_ne_nil rs hne
    exact sum_sigma (fun q => wnAt q Y) (ht q hq).1 rs (fun a ha => (ht a ha).2 Y (hY a ha)) (vals Y hY)
  refine ⟨hr2, hl, fun X hX => (h.values hX), fun X => ?_, fun Y hY hk => ?_, fun Y hY hk => ?_⟩
  · constructor
    · rintro ⟨t, ht', hX⟩
      obtain ⟨q, hq, ht'⟩ := List.mem_flatMap.mp ht'
      obtain ⟨hk, ⟨a, ha, F, hF, e⟩, hw⟩ := ((hf q hq).points X).mp ⟨t, ht', hX⟩
      rw [List.mem_singleton] at ha
      subst ha
      rw [e1] at hw
      have hall := keepAll a hq X hw (hk a (by simp))
      exact ⟨hall, ⟨a, hq, F, hF, e⟩, (some X (keeps_leaves hr2 hall) (List.ne_nil_of_mem hq)).mpr ⟨a, hq, hw⟩⟩
    · rintro ⟨hk, ⟨q0, hq0, F, hF, e⟩, hw⟩
      obtain ⟨q, hq, hw'⟩ := (some X (keeps_leaves hr2 hk) (List.ne_nil_of_mem hq0)).mp hw
      obtain ⟨G, hG, hle⟩ := cross q hq q0 hq0 X F hw' hF
      obtain ⟨t, ht', hX⟩ := ((hf q hq).points X).mpr ⟨by simpa using hk q hq, ⟨q, by simp, G, hG, le_antisymm (e ▸ hle) (hk q hq G hG)⟩, by rw [e1]; exact hw'⟩
      exact ⟨t, List.mem_flatMap.mpr ⟨q, hq, ht'⟩, hX⟩
  · rw [allW_flatten]
    refine List.sum_eq_zero fun x hx => ?_
    obtain ⟨q, hq, rfl⟩ := List.mem_map.mp hx
    have hYq : ∀ a ∈ f q, ¬ OnPline a Y := fun a ha => hY a (List.mem_flatMap.mpr ⟨q, hq, ha⟩)
    by_cases hkq : Keeps q r2 Y
    · show allW (f q) Y = 0
      rw [(hf q hq).far Y hYq (by simpa using hkq), e1]
      refine ((ht q hq).2 Y (keeps_leaves (ps := [q]) hr2 (by simpa using hkq) q (by simp))).resolve_right fun hw => ?_
      obtain ⟨q', hq', hn⟩ := hk
      exact hn (keepAll q hq Y hw hkq q' hq')
    · exact (hf q hq).near Y hYq ⟨q, by simp, hkq⟩
  · rw [allW_flatten]
    unfold allW
    refine sum_const fun q hq => ?_
    have hYq : ∀ a ∈ f q, ¬ OnPline a Y := fun a ha => hY a (List.mem_flatMap.mpr ⟨q, hq, ha⟩)
    have := (hf q hq).far Y hYq (by simpa using hk q hq)
    rw [e1] at this
    exact this

/-- the sum of the areas as an integral of the winding numbers -/
theorem list_area_integral (ps : List (Pline ℝ)) (hloop : ∀ p ∈ ps, Loop p) : (ps.map Pline.area).sum = ∫ z : ℝ × ℝ, ((allW ps ⟨z.1, z.2⟩ : ℤ) : ℝ) := by
  obtain ⟨-, hi⟩ := sum_integrals (ps := ps) fun r hr => C64_area_winding _ (hloop r hr)
  rw [← hi]
  rfl

/-! ## The theorem -/

/-- **C79** Offsetting a closed polyline by `d₁` to the inside, and each of the resulting polylines by `d₂`, gives the same as offsetting by `d₁ + d₂`: together the results consist of the same points, wind
equally often around every point off them, and have the same sum of areas. -/
theorem C79_offset_repeat (env : Env ℝ) (henv : env.Lawful) (p : Pline ℝ) (d₁ d₂ eps joinEps tol : ℝ) (he : 0 < eps) (ht : 0 < tol) (hD₁ : tol ≤ |d₁|) (hD₂ : tol ≤ |d₂|) (hj0 : 0 < joinEps)
    (hs : SimpleLoop p) (hin₁ : 0 < d₁ * turnOf p.orientation) (hin₂ : 0 < d₂ * turnOf p.orientation)
    (h₁ : ClearlyOffset p d₁ eps joinEps tol) (h₂ : ∀ rs, parallelOffset env p d₁ ⟨none, false, eps, joinEps, tol⟩ = .ok rs → ∀ q ∈ rs, ClearlyOffset q d₂ eps joinEps tol)
    (h₃ : ClearlyOffset p (d₁ + d₂) eps joinEps tol) :
    ∃ rs tss us, parallelOffset env p d₁ ⟨none, false, eps, joinEps, tol⟩ = .ok rs ∧ List.Forall₂ (fun q ts => parallelOffset env q d₂ ⟨none, false, eps, joinEps, tol⟩ = .ok ts) rs tss ∧
      parallelOffset env p (d₁ + d₂) ⟨none, false, eps, joinEps, tol⟩ = .ok us ∧
      (∀ X, (∃ t ∈ tss.flatten, OnPline t X) ↔ ∃ u ∈ us, OnPline u X) ∧
      (∀ Y, (∀ u ∈ us, ¬ OnPline u Y) → (tss.flatten.map fun t => t.windingNumber Y).sum = (us.map fun u => u.windingNumber Y).sum) ∧
      (tss.flatten.map Pline.area).sum = (us.map Pline.area).sum := by
  set σ := turnOf p.orientation with hσ
  have hσ1 : σ = 1 ∨ σ = -1 := by
    cases ho : p.orientation with
    | «open» => rw [hσ, ho] at hin₁; simp [turnOf] at hin₁
    | clockwise => right; rw [hσ, ho]; rfl
    | counterClockwise => left; rw [hσ, ho]; rfl
  have habs : |d₁ + d₂| = |d₁| + |d₂| := by
    rcases hσ1 with h | h <;> rw [h] at hin₁ hin₂ <;> norm_num at hin₁ hin₂
    · rw [abs_of_pos hin₁, abs_of_pos hin₂, abs_of_pos (by linarith)]
    · rw [abs_of_neg hin₁, abs_of_neg hin₂, abs_of_neg (by linarith)]; ring
  obtain ⟨rs, e1, k1, x1⟩ := single_exact env henv p d₁ ⟨none, false, eps, joinEps, tol⟩ (by simp) rfl he ht hD₁ hj0 hs h₁ hin₁
  obtain ⟨us, e3, k3, x3⟩ := single_exact env henv p (d₁ + d₂) ⟨none, false, eps, joinEps, tol⟩ (by simp) rfl he ht (by rw [habs]; show tol ≤ _; linarith [abs_nonneg d₂]) hj0 hs h₃ (by rw [← hσ, add_mul]; linarith)
  have each : ∀ q ∈ rs, ∃ ts, parallelOffset env q d₂ ⟨none, false, eps, joinEps, tol⟩ = .ok ts ∧ (∀ t ∈ ts, Loop t) ∧ ExactAt [q] ts |d₂| σ 0 := by
    intro q hq
    obtain ⟨a, b, c⟩ := k1 q hq
    obtain ⟨ts, g1, g2, g3⟩ := single_exact env henv q d₂ ⟨none, false, eps, joinEps, tol⟩ (by simp) rfl he ht hD₂ hj0 b (h₂ rs e1 q hq) (by rw [c]; exact hin₂)
    rw [c] at g3
    exact ⟨ts, g1, fun t ht => (g2 t ht).1, g3⟩
  classical
  let f : Pline ℝ → List (Pline ℝ) := fun q => if h : q ∈ rs then (each q h).choose else []
  have hf : ∀ q ∈ rs, parallelOffset env q d₂ ⟨none, false, eps, joinEps, tol⟩ = .ok (f q) ∧ (∀ t ∈ f q, Loop t) ∧ ExactAt [q] (f q) |d₂| σ 0 := by
    intro q hq
    have : f q = (each q hq).choose := dif_pos hq
    rw [this]
    exact (each q hq).choose_spec
  have htl : ∀ q ∈ rs, TurnsLike q σ := fun q hq => by
    have := simple_turns (k1 q hq).1 (k1 q hq).2.1
    rwa [(k1 q hq).2.2] at this
  have x2 : ExactAt rs (rs.flatMap f) |d₂| σ 0 := x1.together (fun q hq => (k1 q hq).1) htl (lt_of_lt_of_le ht hD₂) f fun q hq => (hf q hq).2.2
  rw [habs] at x3
  obtain ⟨p1, p2⟩ := x1.twice (by rcases hσ1 with h | h <;> rw [← hσ, h] <;> norm_num) x2 x3
  refine ⟨rs, rs.map f, us, e1, ?_, e3, ?_, ?_, ?_⟩
  · rw [List.forall₂_map_right_iff]
    exact List.forall₂_same.mpr fun q hq => (hf q hq).1
  · rw [← List.flatMap_def]; exact p1
  · rw [← List.flatMap_def]; exact p2
  · rw [← List.flatMap_def, list_area_integral _ (fun t ht => by
      obtain ⟨q, hq, ht⟩ := List.mem_flatMap.mp ht
      exact (hf q hq).2.1 t ht), list_area_integral _ fun u hu => (k3 u hu).1]
    refine MeasureTheory.integral_congr_ae ?_
    filter_upwards [trace_ae us] with z hz
    rw [p2 _ hz]

theorem wedge_offset_none {k d : ℝ} (hd : 1 ≤ d) (hk : d + 1 ≤ k) (env : Env ℝ) (henv : env.Lawful) :
    parallelOffset env (wedge k) (-d) ⟨none, false, 1 / 100000, 1 / 10000, 1 / 10000⟩ = .ok [wedge (k - d)] := by
  have hr : createRawOffsetPolyline (wedge k) (-d) (1 / 100000) = .ok (wedge (k - d)) := by
    rw [← wedge_raw hd hk]
    exact C42_raw_straight (wedge_straight hd hk) (by linarith) (by norm_num) (wedge_clear hd hk) (by rw [wedge_raw hd hk]; exact wedge_full (by linarith)) (wedge_first hd hk)
  refine offset_whole env henv (wedge k) (-d) ⟨none, false, 1 / 100000, 1 / 10000, 1 / 10000⟩ (by simp) rfl (by norm_num) rfl (by show 2 ≤ 3; decide) (wedge (k - d)) hr
    (wedge_full (by linarith)) 1 (wedge_crossing (by linarith)) (wedge_finds (by linarith)) ?_ (by norm_num)
  have habs : |-d| = d := by rw [abs_neg, abs_of_pos (by linarith)]
  refine keeps_clear_segs (fun s hs => Or.inl (wedge_lines k s hs)) (by norm_num) (by norm_num) (by rw [habs]; norm_num; linarith) (lines_readable (wedge_lines k) _ _) ?_
  rw [habs, (wedge_vtx (k - d)).1]
  exact wedge_keeps hd (by dsimp only [Vertex.pos]; linarith) (by dsimp only [Vertex.pos]; linarith) (by dsimp only [Vertex.pos]; linarith)

/-- The hypotheses of C79_offset_repeat hold for triangles of any size and two distances to the inside. -/
theorem wedge_repeat (env : Env ℝ) (henv : env.Lawful) {k d₁ d₂ : ℝ} (h1 : 1 ≤ d₁) (h2 : 1 ≤ d₂) (hk : d₁ + d₂ + 1 ≤ k) :
    ∃ rs tss us, parallelOffset env (wedge k) (-d₁) ⟨none, false, 1 / 100000, 1 / 10000, 1 / 10000⟩ = .ok rs ∧
      List.Forall₂ (fun q ts => parallelOffset env q (-d₂) ⟨none, false, 1 / 100000, 1 / 10000, 1 / 10000⟩ = .ok ts) rs tss ∧
      parallelOffset env (wedge k) (-d₁ + -d₂) ⟨none, false, 1 / 100000, 1 / 10000, 1 / 10000⟩ = .ok us ∧ ∀ X, (∃ t ∈ tss.flatten, OnPline t X) ↔ ∃ u ∈ us, OnPline u X := by
  have ho : turnOf (wedge k).orientation = -1 := by
    unfold Pline.orientation
    rw [wedge_negative (by linarith)]
    rfl
  have e3 : -d₁ + -d₂ = -(d₁ + d₂) := by ring
  obtain ⟨rs, tss, us, a, b, c, x, -⟩ := C79_offset_repeat env henv (wedge k) (-d₁) (-d₂) (1 / 100000) (1 / 10000) (1 / 10000) (by norm_num) (by norm_num)
    (by rw [abs_neg, abs_of_pos (by linarith)]; norm_num; linarith) (by rw [abs_neg, abs_of_pos (by linarith)]; norm_num; linarith) (by norm_num) (wedge_simple (by linarith))
    (by rw [ho]; push_cast; linarith) (by rw [ho]; push_cast; linarith) (wedge_clearly h1 (by linarith)) (fun rs hrs q hq => by
      rw [wedge_offset_none h1 (by linarith) env henv] at hrs
      rw [← Except.ok.inj hrs, List.mem_singleton] at hq
      rw [hq]
      exact wedge_clearly h2 (by linarith)) (by rw [e3]; exact wedge_clearly (by linarith) (by linarith))
  exact ⟨rs, tss, us, a, b, c, x⟩

end Cavc
