import Verif.Lemmas.OffsetRegionArcs
import Mathlib.Analysis.Normed.Module.Connected
import Mathlib.LinearAlgebra.Dimension.Constructions

/-! # The sum of the winding numbers of curves that follow several polylines at a distance -/

set_option linter.unusedVariables false
set_option linter.unusedSectionVars false

namespace Cavc
open RealScalar Pline Filter Topology

/-! ## The distance from a polyline -/

theorem near_ex (p : Pline ℝ) (Y : V2 ℝ) : ∃ r, Loop p → (∃ F, OnPline p F ∧ edist Y F = r) ∧ Keeps p r Y := by
  by_cases hl : Loop p
  · have hcont : Continuous fun z : ℝ × ℝ => edist Y ⟨z.1, z.2⟩ := by unfold edist; fun_prop
    obtain ⟨z, hz, hmin⟩ := (trace_isCompact hl).exists_isMinOn (trace_nonempty hl) hcont.continuousOn
    exact ⟨edist Y ⟨z.1, z.2⟩, fun _ => ⟨⟨⟨z.1, z.2⟩, hz, rfl⟩, fun q hq => hmin (show (q.x, q.y) ∈ trace p from hq)⟩⟩
  · exact ⟨0, fun h => absurd h hl⟩

/-- the distance of a point from a polyline -/
noncomputable def dn (p : Pline ℝ) (Y : V2 ℝ) : ℝ := (near_ex p Y).choose

theorem dn_foot {p : Pline ℝ} (hl : Loop p) (Y : V2 ℝ) : ∃ F, OnPline p F ∧ edist Y F = dn p Y := ((near_ex p Y).choose_spec hl).1

theorem dn_keeps {p : Pline ℝ} (hl : Loop p) (Y : V2 ℝ) : Keeps p (dn p Y) Y := ((near_ex p Y).choose_spec hl).2

theorem dn_le {p : Pline ℝ} (hl : Loop p) {Y F : V2 ℝ} (hF : OnPline p F) : dn p Y ≤ edist Y F := dn_keeps hl Y F hF

theorem dn_nonneg {p : Pline ℝ} (hl : Loop p) (Y : V2 ℝ) : 0 ≤ dn p Y := by
  obtain ⟨F, -, h⟩ := dn_foot hl Y
  rw [← h]; exact edist_nonneg _ _

theorem dn_lip {p : Pline ℝ} (hl : Loop p) (X Y : V2 ℝ) : dn p X ≤ dn p Y + edist X Y := by
  obtain ⟨F, hF, h⟩ := dn_foot hl Y
  have h1 := dn_le hl (Y := X) hF
  have h2 := edist_triangle X Y F
  linarith

theorem keeps_dn {p : Pline ℝ} (hl : Loop p) {r : ℝ} {Y : V2 ℝ} : Keeps p r Y ↔ r ≤ dn p Y := by
  constructor
  · intro h
    obtain ⟨F, hF, e⟩ := dn_foot hl Y
    rw [← e]; exact h F hF
  · intro h q hq
    exact h.trans (dn_le hl hq)

theorem dn_cont {p : Pline ℝ} (hl : Loop p) : Continuous fun z : ℝ × ℝ => dn p ⟨z.1, z.2⟩ := by
  rw [Metric.continuous_iff]
  intro z ε hε
  refine ⟨ε / 2, by linarith, fun y hy => ?_⟩
  have h1 := edist_lt_of (X := ⟨y.1, y.2⟩) (Y := ⟨z.1, z.2⟩) hy
  have h2 := dn_lip hl ⟨y.1, y.2⟩ ⟨z.1, z.2⟩
  have h3 := dn_lip hl ⟨z.1, z.2⟩ ⟨y.1, y.2⟩
  rw [edist_comm ⟨z.1, z.2⟩ ⟨y.1, y.2⟩] at h3
  rw [Real.dist_eq, abs_lt]
  constructor <;> linarith

/-- What is known of the curves `rs` that follow the polylines `ps` at the distance `D`: they are the points that are exactly that far from the nearest of
the polylines, on the side where the winding numbers of the polylines add up to `c + g`, not to `c`.  Away from some points `B`, the sum of the
winding numbers of the curves changes by `g` when one of the curves is crossed away from the polylines; and the points with two nearest
polylines are among those. -/
structure FollowsAll (ps rs : List (Pline ℝ)) (D : ℝ) (c g : ℤ) (B : List (V2 ℝ)) : Prop where
  pos : 0 < D
  step : g = 1 ∨ g = -1
  inputs : ∀ p ∈ ps, Loop p
  apart : ∀ p ∈ ps, ∀ q ∈ ps, p ≠ q → ∀ X, OnPline p X → ¬ OnPline q X
  two : ∀ X, (∀ p ∈ ps, ¬ OnPline p X) → allW ps X = c ∨ allW ps X = c + g
  loops : ∀ r ∈ rs, Loop r
  points : ∀ X, (∃ r ∈ rs, OnPline r X) ↔ (∀ p ∈ ps, Keeps p D X) ∧ (∃ p ∈ ps, ∃ F, OnPline p F ∧ edist X F = D) ∧ allW ps X = c + g
  cross : ∀ X, (∃ r ∈ rs, OnPline r X) → X ∉ B → ∃ p ∈ ps, ∃ F, OnPline p F ∧ edist X F = D ∧ ∃ δ > 0, ∀ k, 0 < k → k < δ →
    allW rs (linePoint F X (1 + k)) = allW rs (linePoint F X (1 - k)) + g
  pinch : ∀ X, (∃ r ∈ rs, OnPline r X) → ∀ p ∈ ps, ∀ q ∈ ps, p ≠ q → ∀ F G, OnPline p F → OnPline q G → edist X F = D → edist X G = D → X ∈ B

section
variable {ps rs : List (Pline ℝ)} {D : ℝ} {c g : ℤ} {B : List (V2 ℝ)} (h : FollowsAll ps rs D c g B)
include h

theorem FollowsAll.gne : g ≠ 0 := by rcases h.step with h | h <;> omega

/-- nowhere further away than `D` -/
theorem FollowsAll.reach {X : V2 ℝ} {r : ℝ} (hr : D < r) (hk : ∀ p ∈ ps, Keeps p r X) : ∀ r' ∈ rs, ¬ OnPline r' X := by
  intro r' hr' hon
  obtain ⟨-, ⟨p, hp, F, hF, e⟩, -⟩ := (h.points X).mp ⟨r', hr', hon⟩
  have := hk p hp F hF
  linarith

theorem FollowsAll.off {X : V2 ℝ} {r : ℝ} (hr : 0 < r) (hk : ∀ p ∈ ps, Keeps p r X) : ∀ p ∈ ps, ¬ OnPline p X := by
  intro p hp hon
  have := hk p hp X hon
  rw [edist_self] at this
  linarith

/-- near a point, the polyline that is the only nearest one there stays it -/
theorem FollowsAll.stays {p : Pline ℝ} (hp : p ∈ ps) {Y : V2 ℝ} (hn : ∀ q ∈ ps, q ≠ p → dn p Y < dn q Y) :
    ∀ᶠ z : ℝ × ℝ in 𝓝 (Y.x, Y.y), ∀ q ∈ ps, q ≠ p → dn p ⟨z.1, z.2⟩ < dn q ⟨z.1, z.2⟩ := by
  have hfin : {q | q ∈ ps}.Finite := List.finite_toSet ps
  refine (eventually_all_finite hfin).mpr fun q hq => ?_
  by_cases hqp : q = p
  · exact Eventually.of_forall fun z h => absurd hqp h
  · have h1 := (dn_cont (h.inputs p hp)).continuousAt (x := (Y.x, Y.y))
    have h2 := (dn_cont (h.inputs q hq)).continuousAt (x := (Y.x, Y.y))
    filter_upwards [h1.eventually_lt h2 (hn q hq hqp)] with z hz _
    exact hz

/-- the ray from a nearest point: the sums of the winding numbers -/
theorem FollowsAll.ray {Y F : V2 ℝ} {r : ℝ} (hr : 0 < r) (hYF : edist Y F = r) (hk : ∀ p ∈ ps, Keeps p r Y) {s : ℝ} (s0 : 0 < s) (s1 : s ≤ 1) :
    allW ps (linePoint F Y s) = allW ps Y := by
  have hp1 : linePoint F Y 1 = Y := by simp [linePoint]
  have := allW_path h.inputs (γ := linePoint F Y) (a := s) (b := 1) (line_continuous F Y).continuousOn (fun t ht p hp => by
    rw [Set.uIcc_of_le s1] at ht
    exact h.off (r := t * r) (mul_pos (by linarith [ht.1]) hr) (fun q hq => ray_keeps (hk q hq) hYF ht.2) p hp)
  rw [hp1] at this
  exact this

theorem FollowsAll.ray_out {Y F : V2 ℝ} {r : ℝ} (hr : 0 < r) (hYF : edist Y F = r) (hk : ∀ p ∈ ps, Keeps p r Y) {s : ℝ} (s0 : D < s * r) (s1 : s ≤ 1) :
    allW rs (linePoint F Y s) = allW rs Y := by
  have hp1 : linePoint F Y 1 = Y := by simp [linePoint]
  have := allW_path h.loops (γ := linePoint F Y) (a := s) (b := 1) (line_continuous F Y).continuousOn (fun t ht p hp => by
    rw [Set.uIcc_of_le s1] at ht
    exact h.reach (r := t * r) (lt_of_lt_of_le s0 (mul_le_mul_of_nonneg_right ht.1 hr.le)) (fun q hq => ray_keeps (hk q hq) hYF ht.2) p hp)
  rw [hp1] at this
  exact this

/-- beyond a point where the curves can be crossed -/
theorem FollowsAll.beyond {p : Pline ℝ} (hp : p ∈ ps) {w0 : ℤ} (hw0 : ∀ Y q, OnPline p q → edist Y q < D → allW rs Y = w0) {Y F : V2 ℝ} {r : ℝ} (hr : D < r) (hF : OnPline p F)
    (hYF : edist Y F = r) (hk : ∀ p ∈ ps, Keeps p r Y) (hval : allW ps Y = c + g) (hB : linePoint F Y (D / r) ∉ B) : allW rs Y = w0 + g := by
  have hD := h.pos
  have hr0 : 0 < r := by linarith
  set s := D / r with hsdef
  have s0 : 0 < s := by positivity
  have s1 : s < 1 := (div_lt_one hr0).mpr hr
  have hsr : s * r = D := by rw [hsdef]; field_simp
  set Z := linePoint F Y s with hZ
  have hdF : ∀ τ, 0 ≤ τ → edist (linePoint F Y τ) F = τ * r := fun τ τ0 => by rw [linePoint_dist, abs_of_nonneg τ0, edist_comm F Y, hYF]
  have hZF : edist Z F = D := by rw [hdF s s0.le, hsr]
  have hZr : ∃ r ∈ rs, OnPline r Z := (h.points Z).mpr ⟨fun q hq => by rw [← hsr]; exact ray_keeps (hk q hq) hYF s1.le, ⟨p, hp, F, hF, hZF⟩, by
    rw [hZ, h.ray hr0 hYF hk s0 s1.le, hval]⟩
  obtain ⟨q, hq, G, hG, hZG, δ, hδ, hcr⟩ := h.cross Z hZr hB
  have hGF : G = F := unique_foot s0 s1 hZ (by rw [hYF]; exact hk q hq G hG) (by rw [hZG, hZF])
  subst hGF
  obtain ⟨k, k0, k1⟩ := exists_between (lt_min hδ (lt_min one_pos (show 0 < 1 / s - 1 by rw [sub_pos, lt_div_iff₀ s0]; linarith)))
  obtain ⟨k1, k2⟩ := lt_min_iff.mp k1
  obtain ⟨k2, k3⟩ := lt_min_iff.mp k2
  have hlp : ∀ τ, linePoint G Z τ = linePoint G Y (s * τ) := fun τ => by
    rw [hZ, V2.ext_iff']
    simp only [linePoint]
    constructor <;> ring
  have := hcr k k0 k1
  rw [hlp, hlp] at this
  have k4 : s * (1 + k) < 1 := by
    have := mul_lt_mul_of_pos_left k3 s0
    rw [mul_sub, mul_one_div_cancel s0.ne'] at this
    linarith
  rw [h.ray_out hr0 hYF hk (by nlinarith [mul_pos (mul_pos s0 k0) hr0]) k4.le, hw0 (linePoint G Y (s * (1 - k))) G hF (by
    rw [hdF _ (mul_nonneg s0.le (by linarith))]
    nlinarith [mul_pos (mul_pos s0 k0) hr0])] at this
  exact this

variable {w : Pline ℝ → ℤ} (hw : ∀ p ∈ ps, ∀ Y q, OnPline p q → edist Y q < D → allW rs Y = w p)
include hw

open Classical in
/-- The sum of the winding numbers of the curves, up to a number that depends on the nearest polyline. -/
theorem FollowsAll.value {Y : V2 ℝ} (hY : ∀ r ∈ rs, ¬ OnPline r Y) {p : Pline ℝ} (hp : p ∈ ps) (hmin : ∀ q ∈ ps, dn p Y ≤ dn q Y) :
    allW rs Y = (if ∀ p ∈ ps, Keeps p D Y then allW ps Y else c) + (w p - c) := by
  have hD := h.pos
  have hl := h.inputs p hp
  obtain ⟨F, hF, hYF⟩ := dn_foot hl Y
  set r := dn p Y with hr
  rcases lt_or_ge r D with hlt | hge
  · rw [if_neg, hw p hp Y F hF (by rw [hYF]; exact hlt)]
    · ring
    · intro hk
      have := hk p hp F hF
      linarith
  · have hr0 : 0 < r := by linarith
    have hk : ∀ q ∈ ps, Keeps q r Y := fun q hq => (keeps_dn (h.inputs q hq)).mpr (hmin q hq)
    have hkD : ∀ q ∈ ps, Keeps q D Y := fun q hq x hx => hge.trans (hk q hq x hx)
    rw [if_pos hkD]
    have hdF : ∀ τ, 0 ≤ τ → edist (linePoint F Y τ) F = τ * r := fun τ τ0 => by rw [linePoint_dist, abs_of_nonneg τ0, edist_comm F Y, hYF]
    have hp1 : linePoint F Y 1 = Y := by simp [linePoint]
    rcases h.two Y (h.off hr0 hk) with hv | hv
    · -- on the other side
      rw [hv]
      have hs : D / (2 * r) * r = D / 2 := by field_simp
      have e1 := allW_path h.loops (γ := linePoint F Y) (a := D / (2 * r)) (b := 1) (line_continuous F Y).continuousOn (fun x hx r' hr' hon' => by
        rw [Set.uIcc_of_le (by rw [div_le_one (by linarith)]; linarith)] at hx
        have hx0 : 0 < x := lt_of_lt_of_le (by positivity) hx.1
        have := ((h.points _).mp ⟨r', hr', hon'⟩).2.2
        rw [h.ray hr0 hYF hk hx0 hx.2, hv] at this
        have := h.gne
        omega)
      rw [hp1] at e1
      rw [← e1, hw p hp _ F hF (by rw [hdF _ (by positivity), hs]; linarith)]
      ring
    · rcases lt_or_eq_of_le hge with hlt | heq
      · -- a bit nearer, the nearest polyline is the only nearest one
        obtain ⟨s, s0, s1⟩ := exists_between ((div_lt_one hr0).mpr hlt)
        have sp : 0 < s := lt_trans (by positivity) s0
        have hsr : D < s * r := by rwa [div_lt_iff₀ hr0] at s0
        set Y2 := linePoint F Y s with hY2
        have hk2 : ∀ q ∈ ps, Keeps q (s * r) Y2 := fun q hq => ray_keeps (hk q hq) hYF s1.le
        have hd2 : dn p Y2 = s * r := by
          apply le_antisymm
          · have := dn_le hl (Y := Y2) hF
            rw [hdF s sp.le] at this
            exact this
          · exact (keeps_dn hl).mp (hk2 p hp)
        have hn2 : ∀ q ∈ ps, q ≠ p → dn p Y2 < dn q Y2 := by
          intro q hq hqp
          rw [hd2]
          refine lt_of_le_of_ne ((keeps_dn (h.inputs q hq)).mp (hk2 q hq)) fun e => ?_
          obtain ⟨G, hG, hYG⟩ := dn_foot (h.inputs q hq) Y2
          have hGF : G = F := unique_foot sp s1 hY2 (by rw [hYF]; exact hk q hq G hG) (by rw [hYG, ← e, hdF s sp.le])
          subst hGF
          exact h.apart q hq p hp hqp G hG hF
        have hev : ∀ᶠ z : ℝ × ℝ in 𝓝 (Y2.x, Y2.y), (∀ q ∈ ps, q ≠ p → dn p ⟨z.1, z.2⟩ < dn q ⟨z.1, z.2⟩) ∧ D < dn p ⟨z.1, z.2⟩ :=
          (h.stays hp hn2).and ((dn_cont hl).continuousAt.eventually_const_lt (show D < dn p Y2 by rw [hd2]; exact hsr))
        obtain ⟨ε, hε, hball⟩ := Metric.eventually_nhds_iff.mp hev
        choose line hline using fun b : V2 ℝ => bad_line (p := p) (d := D) hD.ne' b
        rw [abs_of_pos hD] at hline
        obtain ⟨z, hz1, hz2⟩ := off_lines (B.map line) (fun l hl => by obtain ⟨b, -, rfl⟩ := List.mem_map.mp hl; exact (hline b).1) (Y2.x, Y2.y) ε hε
        set Y3 : V2 ℝ := ⟨z.1, z.2⟩ with hY3
        have hway : ∀ t, 0 ≤ t → t ≤ 1 → ∀ q ∈ ps, Keeps q (dn p (linePoint Y2 Y3 t)) (linePoint Y2 Y3 t) ∧ D < dn p (linePoint Y2 Y3 t) := by
          intro t t0 t1 q hq
          have hdz : dist ((linePoint Y2 Y3 t).x, (linePoint Y2 Y3 t).y) (Y2.x, Y2.y) < ε := by
            rw [Prod.dist_eq, max_lt_iff, Real.dist_eq, Real.dist_eq] at hz1 ⊢
            have e1 : (linePoint Y2 Y3 t).x - Y2.x = t * (z.1 - Y2.x) := by simp only [linePoint, hY3]; ring
            have e2 : (linePoint Y2 Y3 t).y - Y2.y = t * (z.2 - Y2.y) := by simp only [linePoint, hY3]; ring
            dsimp only at hz1 ⊢
            rw [e1, e2, abs_mul, abs_mul, abs_of_nonneg t0]
            constructor
            · nlinarith [abs_nonneg (z.1 - Y2.x), hz1.1]
            · nlinarith [abs_nonneg (z.2 - Y2.y), hz1.2]
          obtain ⟨b1, b2⟩ := hball hdz
          refine ⟨(keeps_dn (h.inputs q hq)).mpr ?_, b2⟩
          by_cases hqp : q = p
          · rw [hqp]
          · exact (b1 q hq hqp).le
        have q0 : linePoint Y2 Y3 0 = Y2 := by simp [linePoint]
        have q1 : linePoint Y2 Y3 1 = Y3 := by simp [linePoint]
        have g1 := allW_path h.loops (γ := linePoint Y2 Y3) (a := 0) (b := 1) (line_continuous Y2 Y3).continuousOn (fun t ht r' hr' => by
          rw [Set.uIcc_of_le zero_le_one] at ht
          exact h.reach (hway t ht.1 ht.2 p hp).2 (fun q hq => (hway t ht.1 ht.2 q hq).1) r' hr')
        have g2 := allW_path h.inputs (γ := linePoint Y2 Y3) (a := 0) (b := 1) (line_continuous Y2 Y3).continuousOn (fun t ht r' hr' => by
          rw [Set.uIcc_of_le zero_le_one] at ht
          exact h.off (lt_trans hD (hway t ht.1 ht.2 p hp).2) (fun q hq => (hway t ht.1 ht.2 q hq).1) r' hr')
        rw [q0, q1] at g1 g2
        have h3 := hway 1 zero_le_one le_rfl
        rw [q1] at h3
        obtain ⟨F3, hF3, hYF3⟩ := dn_foot hl Y3
        have hfin := h.beyond hp (hw p hp) (h3 p hp).2 hF3 hYF3 (fun q hq => (h3 q hq).1) (by rw [← g2, hY2, h.ray hr0 hYF hk sp s1.le, hv]) (fun hb =>
          hz2 (line _) (List.mem_map.mpr ⟨_, hb, rfl⟩) ((hline _).2 Y3 F3 _ (h3 p hp).2 hF3 hYF3 (h3 p hp).1 rfl))
        rw [← h.ray_out hr0 hYF hk hsr s1.le, ← hY2, g1, hfin, hv]
        ring
      · exfalso
        obtain ⟨r', hr', hon⟩ := (h.points Y).mpr ⟨hkD, ⟨p, hp, F, hF, by rw [hYF, heq]⟩, hv⟩
        exact hY r' hr' hon

/-- The numbers of the polylines agree. -/
theorem FollowsAll.agree {p q : Pline ℝ} (hp : p ∈ ps) (hq : q ∈ ps) : w p = w q := by
  by_contra hne
  -- away from the points `B` there are not two nearest polylines with different numbers
  have key : ∀ (X : V2 ℝ), X ∉ B → ∀ p ∈ ps, ∀ q ∈ ps, w p ≠ w q → (∀ a ∈ ps, dn p X ≤ dn a X) → (∀ a ∈ ps, dn q X ≤ dn a X) → False := by
    intro X hX p hp q hq hne h1 h2
    by_cases hon : ∃ r ∈ rs, OnPline r X
    · obtain ⟨k1, ⟨a, ha, F, hF, hXF⟩, -⟩ := (h.points X).mp hon
      have hd : ∀ b ∈ ps, (∀ a ∈ ps, dn b X ≤ dn a X) → dn b X = D := fun b hb hm =>
        le_antisymm ((hm a ha).trans (hXF ▸ dn_le (h.inputs a ha) hF)) ((keeps_dn (h.inputs b hb)).mp (k1 b hb))
      obtain ⟨F1, hF1, e1⟩ := dn_foot (h.inputs p hp) X
      obtain ⟨F2, hF2, e2⟩ := dn_foot (h.inputs q hq) X
      exact hX (h.pinch X hon p hp q hq (fun e => hne (by rw [e])) F1 F2 hF1 hF2 (by rw [e1, hd p hp h1]) (by rw [e2, hd q hq h2]))
    · have hoff : ∀ r ∈ rs, ¬ OnPline r X := fun r hr hx => hon ⟨r, hr, hx⟩
      have := (h.value hw hoff hp h1).symm.trans (h.value hw hoff hq h2)
      exact hne (by linarith)
  set S : Set (ℝ × ℝ) := {z | (⟨z.1, z.2⟩ : V2 ℝ) ∈ B} with hS
  have hSf : S.Finite := by
    have : S = (fun X : V2 ℝ => (X.x, X.y)) '' {X | X ∈ B} := by
      ext z
      constructor
      · intro hz; exact ⟨⟨z.1, z.2⟩, hz, rfl⟩
      · rintro ⟨X, hX, rfl⟩; exact hX
    rw [this]
    exact (List.finite_toSet B).image _
  have hrank : 1 < Module.rank ℝ (ℝ × ℝ) := by
    rw [rank_prod', CommSemiring.rank_self]
    exact_mod_cast (by norm_num : (1 : ℕ) < 1 + 1)
  have hconn := (hSf.countable.isConnected_compl_of_one_lt_rank hrank).isPreconnected
  have hclosed : ∀ P : Pline ℝ → Prop, IsClosed {z : ℝ × ℝ | ∃ a ∈ ps, P a ∧ ∀ b ∈ ps, dn a ⟨z.1, z.2⟩ ≤ dn b ⟨z.1, z.2⟩} := by
    intro P
    have : {z : ℝ × ℝ | ∃ a ∈ ps, P a ∧ ∀ b ∈ ps, dn a ⟨z.1, z.2⟩ ≤ dn b ⟨z.1, z.2⟩} =
        ⋃ a ∈ {a | a ∈ ps ∧ P a}, ⋂ b ∈ {b | b ∈ ps}, {z : ℝ × ℝ | dn a ⟨z.1, z.2⟩ ≤ dn b ⟨z.1, z.2⟩} := by
      ext z; simp [and_assoc]
    rw [this]
    refine Set.Finite.isClosed_biUnion ((List.finite_toSet ps).subset fun a ha => ha.1) fun a ha => isClosed_biInter fun b hb => ?_
    exact isClosed_le (dn_cont (h.inputs a ha.1)) (dn_cont (h.inputs b hb))
  have hnear : ∀ X : V2 ℝ, ∃ a ∈ ps, ∀ b ∈ ps, dn a X ≤ dn b X := fun X => by
    obtain ⟨a, ha, hm⟩ := Set.exists_min_image {a | a ∈ ps} (fun a => dn a X) (List.finite_toSet ps) ⟨p, hp⟩
    exact ⟨a, ha, hm⟩
  have hsome : ∀ a ∈ ps, ∃ z ∈ Sᶜ, ∀ b ∈ ps, dn a ⟨z.1, z.2⟩ ≤ dn b ⟨z.1, z.2⟩ := by
    intro a ha
    obtain ⟨z0, hz0⟩ := trace_nonempty (h.inputs a ha)
    have h0 : dn a ⟨z0.1, z0.2⟩ = 0 := le_antisymm (by
      have := dn_le (h.inputs a ha) (Y := ⟨z0.1, z0.2⟩) (F := ⟨z0.1, z0.2⟩) hz0
      rwa [edist_self] at this) (dn_nonneg (h.inputs a ha) _)
    have hev := h.stays ha (Y := ⟨z0.1, z0.2⟩) (fun b hb hba => by
      rw [h0]
      refine lt_of_le_of_ne (dn_nonneg (h.inputs b hb) _) fun e => ?_
      obtain ⟨F, hF, hd⟩ := dn_foot (h.inputs b hb) ⟨z0.1, z0.2⟩
      have hz : (⟨z0.1, z0.2⟩ : V2 ℝ) = F := by
        by_contra hc
        have := edist_pos hc
        linarith
      rw [← hz] at hF
      exact h.apart b hb a ha hba _ hF hz0)
    obtain ⟨U, hU, hUo, hUm⟩ := mem_nhds_iff.mp hev
    obtain ⟨z, hz1, hz2⟩ := (hSf.countable.dense_compl ℝ).inter_open_nonempty U hUo ⟨_, hUm⟩
    refine ⟨z, hz2, fun b hb => ?_⟩
    by_cases hba : b = a
    · rw [hba]
    · exact (hU hz1 b hb hba).le
  obtain ⟨z1, hz1, hm1⟩ := hsome p hp
  obtain ⟨z2, hz2, hm2⟩ := hsome q hq
  obtain ⟨z, hz, ⟨a, ha, hwa, hma⟩, b, hb, hwb, hmb⟩ := isPreconnected_closed_iff.mp hconn _ _ (hclosed fun a => w a = w p) (hclosed fun a => w a ≠ w p) (fun z _ => by
    obtain ⟨a, ha, hm⟩ := hnear ⟨z.1, z.2⟩
    by_cases hwa : w a = w p
    · exact Or.inl ⟨a, ha, hwa, hm⟩
    · exact Or.inr ⟨a, ha, hwa, hm⟩) ⟨z1, hz1, p, hp, rfl, hm1⟩ ⟨z2, hz2, q, hq, fun e => hne e.symm, hm2⟩
  exact key ⟨z.1, z.2⟩ hz a ha b hb (by rw [hwa]; exact fun e => hwb e.symm) hma hmb

omit hw

open Classical in
/-- The sum of the winding numbers of the curves. -/
theorem FollowsAll.region (Y : V2 ℝ) (hY : ∀ r ∈ rs, ¬ OnPline r Y) : allW rs Y = if ∀ p ∈ ps, Keeps p D Y then allW ps Y else c := by
  have hD := h.pos
  by_cases hps : ps = []
  · have hrs : rs = [] := by
      rw [List.eq_nil_iff_forall_not_mem]
      intro r hr
      obtain ⟨z, hz⟩ := trace_nonempty (h.loops r hr)
      obtain ⟨-, ⟨p, hp, -⟩, -⟩ := (h.points ⟨z.1, z.2⟩).mp ⟨r, hr, hz⟩
      rw [hps] at hp
      simp at hp
    rw [hps, hrs]
    simp [allW]
  · obtain ⟨p0, hp0⟩ := List.exists_mem_of_ne_nil ps hps
    have hex : ∀ p, ∃ w0, p ∈ ps → ∀ Y q, OnPline p q → edist Y q < D → allW rs Y = w0 := by
      intro p
      by_cases hp : p ∈ ps
      · obtain ⟨w0, hw0⟩ := tube_const (h.inputs p hp) h.loops hD fun r hr X hX => ((h.points X).mp ⟨r, hr, hX⟩).1 p hp
        exact ⟨w0, fun _ => hw0⟩
      · exact ⟨0, fun h => absurd h hp⟩
    choose w hw using hex
    have hval : ∀ Y, (∀ r ∈ rs, ¬ OnPline r Y) → allW rs Y = (if ∀ p ∈ ps, Keeps p D Y then allW ps Y else c) + (w p0 - c) := by
      intro Y hY
      obtain ⟨a, ha, hm⟩ := Set.exists_min_image {a | a ∈ ps} (fun a => dn a Y) (List.finite_toSet ps) ⟨p0, hp0⟩
      rw [h.value hw hY ha hm, h.agree hw ha hp0]
    -- a point far away
    obtain ⟨x, hx⟩ := right_of (ps := ps ++ rs) (by
      intro r hr
      rcases List.mem_append.mp hr with hr | hr
      · exact h.inputs r hr
      · exact h.loops r hr)
    set Y0 : V2 ℝ := ⟨x + D, 0⟩ with hY0
    have hlt : ∀ r ∈ ps ++ rs, ∀ z ∈ trace r, z.1 < Y0.x := fun r hr z hz => by
      have := hx r hr z hz
      rw [hY0]
      dsimp only
      linarith
    have zero : ∀ qs : List (Pline ℝ), (∀ r ∈ qs, Loop r ∧ r ∈ ps ++ rs) → allW qs Y0 = 0 := by
      intro qs hq
      unfold allW
      rw [List.sum_eq_zero]
      intro w hw
      obtain ⟨r, hr, rfl⟩ := List.mem_map.mp hw
      exact right_zero (hq r hr).1 (hlt r (hq r hr).2)
    have hk0 : ∀ p ∈ ps, Keeps p D Y0 := by
      intro p hp q hq
      have h1 := hx p (List.mem_append_left _ hp) (q.x, q.y) hq
      unfold edist
      apply Real.le_sqrt_of_sq_le
      have h2 : D ≤ Y0.x - q.x := by rw [hY0]; dsimp only at h1 ⊢; linarith
      nlinarith [sq_nonneg (Y0.y - q.y)]
    have h0 := hval Y0 fun r hr hon => absurd (hlt r (List.mem_append_right _ hr) (Y0.x, Y0.y) hon) (lt_irrefl _)
    rw [if_pos hk0, zero rs fun r hr => ⟨h.loops r hr, List.mem_append_right _ hr⟩, zero ps fun r hr => ⟨h.inputs r hr, List.mem_append_left _ hr⟩] at h0
    rw [hval Y hY]
    linarith

end
end Cavc
