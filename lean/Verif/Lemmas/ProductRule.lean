import Verif.Lemmas.Crossing

/-! # A product rule for the winding numbers of two polylines

A polyline divided into segments, each weighted with the winding number of the other polyline along it. -/

set_option linter.unusedSectionVars false

namespace Cavc
open Real Pline

/-- A segment to the left of the point adds nothing. -/
theorem segW_far (s : Vertex ℝ × Vertex ℝ) (h : Proper s) {z : ℝ × ℝ} (hz : ∀ y ∈ segTrace s, y.1 < z.1) : segW z s = 0 := by
  obtain ⟨v1, v2⟩ := s
  have hoff : z ∉ segTrace (v1, v2) := fun hm => lt_irrefl _ (hz z hm)
  have hcurve := segCurve_continuous v1 v2
  have hlt : ∀ t ∈ Set.Icc (0 : ℝ) 1, (segCurve v1 v2 t).x < z.1 := fun t ht =>
    hz ((segCurve v1 v2 t).x, (segCurve v1 v2 t).y) ⟨t, ht.1, ht.2, rfl⟩
  obtain ⟨ψ, hψ1, hψ2, hψ3⟩ := frame_angle (fun _ => π) (fun t => (segCurve v1 v2 t).x - z.1) (fun t => (segCurve v1 v2 t).y - z.2)
    (Set.Icc 0 1) continuousOn_const
    ((continuous_fst.comp hcurve).sub continuous_const).continuousOn
    ((continuous_snd.comp hcurve).sub continuous_const).continuousOn
    (by intro t ht; simp; linarith [hlt t ht])
  obtain ⟨es0, es1⟩ := segCurve_ends v1 v2
  have hp := pi_pos
  have b0 := neg_pi_div_two_lt_arctan ((((segCurve v1 v2 0).y - z.2) * cos π - ((segCurve v1 v2 0).x - z.1) * sin π) / (((segCurve v1 v2 0).x - z.1) * cos π + ((segCurve v1 v2 0).y - z.2) * sin π))
  have c0 := arctan_lt_pi_div_two ((((segCurve v1 v2 0).y - z.2) * cos π - ((segCurve v1 v2 0).x - z.1) * sin π) / (((segCurve v1 v2 0).x - z.1) * cos π + ((segCurve v1 v2 0).y - z.2) * sin π))
  have b1 := neg_pi_div_two_lt_arctan ((((segCurve v1 v2 1).y - z.2) * cos π - ((segCurve v1 v2 1).x - z.1) * sin π) / (((segCurve v1 v2 1).x - z.1) * cos π + ((segCurve v1 v2 1).y - z.2) * sin π))
  have c1 := arctan_lt_pi_div_two ((((segCurve v1 v2 1).y - z.2) * cos π - ((segCurve v1 v2 1).x - z.1) * sin π) / (((segCurve v1 v2 1).x - z.1) * cos π + ((segCurve v1 v2 1).y - z.2) * sin π))
  have e0 := hψ3 0
  have e1 := hψ3 1
  have D0 := hψ2 0 ⟨le_rfl, zero_le_one⟩
  have D1 := hψ2 1 ⟨zero_le_one, le_rfl⟩
  simp only [es0, es1] at D0 D1
  have T := segWinding_turn h (pt := ⟨z.1, z.2⟩) hoff (θ := ψ) ⟨hψ1, hψ2⟩ D0 (by linarith) (by linarith) D1 (by linarith) (by linarith)
  apply two_pi_cancel
  unfold segW
  push_cast
  linarith

/-- A function on the line that is locally constant off finitely many points, takes the same values on both sides of
each of them and is 0 far to the right is 0. -/
theorem step_zero (f : ℝ → ℤ) (J : Set ℝ) (hJ : J.Finite)
    (hloc : ∀ x, x ∉ J → ∃ δ > 0, ∀ x' ∈ Metric.ball x δ, f x' = f x)
    (hfar : ∃ M, ∀ x, M < x → f x = 0)
    (hjump : ∀ X ∈ J, ∃ δ > 0, ∀ l r, X - δ < l → l < X → X < r → r < X + δ → f l = f r) :
    ∀ x, x ∉ J → f x = 0 := by
  have hconst : ∀ a b, a ≤ b → (∀ y ∈ Set.Icc a b, y ∉ J) → f a = f b := by
    intro a b hab hno
    refine isPreconnected_Icc.constant (f := f) ?_ ⟨le_rfl, hab⟩ ⟨hab, le_rfl⟩
    intro y hy
    obtain ⟨δ, hδ, hb⟩ := hloc y (hno y hy)
    have : ContinuousAt f y := by
      refine (continuousAt_const (y := f y)).congr ?_
      filter_upwards [Metric.ball_mem_nhds y hδ] with w hw
      exact (hb w hw).symm
    exact this.continuousWithinAt
  have key : ∀ n, ∀ x, x ∉ J → (J ∩ Set.Ioi x).ncard = n → f x = 0 := by
    intro n
    induction n using Nat.strong_induction_on with
    | _ n ih =>
      intro x hx hn
      have hfin : (J ∩ Set.Ioi x).Finite := hJ.subset Set.inter_subset_left
      by_cases hemp : J ∩ Set.Ioi x = ∅
      · obtain ⟨M, hM⟩ := hfar
        rw [hconst x (max x M + 1) (by have := le_max_left x M; linarith) ?_]
        · exact hM _ (by have := le_max_right x M; linarith)
        · intro y hy hyJ
          rcases eq_or_lt_of_le hy.1 with h | h
          · exact hx (h ▸ hyJ)
          · have : y ∈ J ∩ Set.Ioi x := ⟨hyJ, h⟩
            rw [hemp] at this
            exact this
      · obtain ⟨X, ⟨hXJ, hXx⟩, hmin⟩ := hfin.exists_minimal (Set.nonempty_iff_ne_empty.mpr hemp)
        have hXx' : x < X := hXx
        have hmin' : ∀ y ∈ J, x < y → X ≤ y := by
          intro y hy hxy
          rcases le_total X y with h | h
          · exact h
          · exact hmin ⟨hy, hxy⟩ h
        obtain ⟨δ, hδ, hj⟩ := hjump X hXJ
        -- a point to the right of `X` before the next one
        obtain ⟨ε, hε, hclear⟩ : ∃ ε > 0, ∀ y, X < y → y < X + ε → y ∉ J := by
          have hclosed : IsClosed (J \ {X}) := (hJ.subset Set.diff_subset).isClosed
          obtain ⟨ε, hε, hb⟩ := Metric.isOpen_iff.mp hclosed.isOpen_compl X (by simp)
          refine ⟨ε, hε, ?_⟩
          intro y h1 h2 hy
          refine hb (a := y) ?_ ⟨hy, by simpa using (ne_of_gt h1)⟩
          rw [Metric.mem_ball, Real.dist_eq, abs_lt]
          constructor <;> linarith
        obtain ⟨m, hm⟩ : ∃ m, m = min δ ε / 2 := ⟨_, rfl⟩
        have hm0 : 0 < m := by rw [hm]; have := lt_min hδ hε; linarith
        have hmδ : m < δ := by rw [hm]; have := min_le_left δ ε; have := lt_min hδ hε; linarith
        have hmε : m < ε := by rw [hm]; have := min_le_right δ ε; have := lt_min hδ hε; linarith
        obtain ⟨l, hl⟩ : ∃ l, l = max x (X - m) := ⟨_, rfl⟩
        have hl1 : x ≤ l := by rw [hl]; exact le_max_left _ _
        have hl2 : X - m ≤ l := by rw [hl]; exact le_max_right _ _
        have hl3 : l < X := by rw [hl]; exact max_lt hXx' (by linarith)
        have e1 : f x = f l := by
          apply hconst x l hl1
          intro y hy hyJ
          rcases eq_or_lt_of_le hy.1 with h | h
          · exact hx (h ▸ hyJ)
          · have := hmin' y hyJ h
            linarith [hy.2]
        have e2 : f l = f (X + m) := hj l (X + m) (by linarith) hl3 (by linarith) (by linarith)
        have hXm : X + m ∉ J := hclear _ (by linarith) (by linarith)
        rw [e1, e2]
        refine ih _ ?_ (X + m) hXm rfl
        rw [← hn]
        apply Set.ncard_lt_ncard _ hfin
        refine ⟨?_, ?_⟩
        · rintro y ⟨hy, hy2⟩
          exact ⟨hy, by have : X + m < y := hy2; show x < y; linarith⟩
        · intro hsub
          have := hsub ⟨hXJ, hXx⟩
          have : X + m < X := this.2
          linarith
  intro x hx
  exact key _ x hx rfl

/-- A division of the polyline `p` into segments, each with the winding number of `q` along it. -/
structure Weighted (p q : Pline ℝ) (L : List (ℤ × (Vertex ℝ × Vertex ℝ))) : Prop where
  proper : ∀ e ∈ L, Proper e.2
  sub : ∀ e ∈ L, segTrace e.2 ⊆ trace p
  weight : ∀ e ∈ L, ∀ P ∈ segTrace e.2, P ∉ trace q → wn q P = e.1
  total : ∀ z, z ∉ trace p → wn p z = (L.map fun e => segW z e.2).sum

/-- the sum of the windings with their weights -/
noncomputable def wsum (z : ℝ × ℝ) (L : List (ℤ × (Vertex ℝ × Vertex ℝ))) : ℤ := (L.map fun e => e.1 * segW z e.2).sum

/-- finitely many radii have a common one -/
theorem list_radius {α : Type} (P : α → ℝ → Prop) (hmono : ∀ a δ δ', δ' ≤ δ → P a δ → P a δ') : ∀ (L : List α),
    (∀ a ∈ L, ∃ δ > 0, P a δ) → ∃ δ > 0, ∀ a ∈ L, P a δ
  | [], _ => ⟨1, one_pos, by simp⟩
  | a :: L, h => by
    obtain ⟨δ, hδ, h1⟩ := list_radius P hmono L (fun x hx => h x (by simp [hx]))
    obtain ⟨δ', hδ', h2⟩ := h a (by simp)
    refine ⟨min δ δ', lt_min hδ hδ', ?_⟩
    intro x hx
    rcases List.mem_cons.mp hx with rfl | hx
    · exact hmono _ _ _ (min_le_right _ _) h2
    · exact hmono _ _ _ (min_le_left _ _) (h1 x hx)

/-- a common radius on the horizontal line through a point off all the segments of a list -/
theorem horizontal_const (L : List (ℤ × (Vertex ℝ × Vertex ℝ))) (hp : ∀ e ∈ L, Proper e.2) (z : ℝ × ℝ) :
    ∃ δ > 0, ∀ x, |x - z.1| < δ → ∀ e ∈ L, z ∉ segTrace e.2 → segW (x, z.2) e.2 = segW z e.2 := by
  have hex : ∀ e ∈ L, ∃ δ > 0, ∀ x, |x - z.1| < δ → z ∉ segTrace e.2 → segW (x, z.2) e.2 = segW z e.2 := by
    intro e he
    by_cases hz : z ∈ segTrace e.2
    · exact ⟨1, one_pos, fun _ _ h => absurd hz h⟩
    · obtain ⟨δ, hδ, hb⟩ := segW_change e.2 (hp e he) hz
      refine ⟨δ, hδ, ?_⟩
      intro x hx _
      have := (hb (x, z.2) ?_).2
      · rw [this, if_neg (lt_irrefl _), add_zero]
      · rw [Metric.mem_ball, Prod.dist_eq]
        simp only [dist_self, Real.dist_eq]
        exact max_lt hx hδ
  obtain ⟨δ, hδ, h⟩ := list_radius (fun (e : ℤ × (Vertex ℝ × Vertex ℝ)) δ => ∀ x, |x - z.1| < δ → z ∉ segTrace e.2 → segW (x, z.2) e.2 = segW z e.2)
    (fun a δ δ' hle h x hx => h x (lt_of_lt_of_le hx hle)) L hex
  exact ⟨δ, hδ, fun x hx e he => h e he x hx⟩

theorem sum_congr_list {α : Type} {f g : α → ℤ} {L : List α} (h : ∀ a ∈ L, f a = g a) : (L.map f).sum = (L.map g).sum := by
  rw [List.map_congr_left h]

theorem sum_mul_left (b : ℤ) {α : Type} (f : α → ℤ) : ∀ L : List α, (L.map fun a => b * f a).sum = b * (L.map f).sum
  | [] => by simp
  | a :: L => by simp [sum_mul_left b f L, mul_add]

theorem sum_sub_list {α : Type} (f g : α → ℤ) : ∀ L : List α, (L.map fun a => f a - g a).sum = (L.map f).sum - (L.map g).sum
  | [] => by simp
  | a :: L => by simp [sum_sub_list f g L]; ring

/-- one side of the jump at a point of `p` that is not on `q` -/
theorem jump_side {p q : Pline ℝ} (hq : Loop q) {L L' : List (ℤ × (Vertex ℝ × Vertex ℝ))} (h : Weighted p q L) (h' : Weighted q p L')
    {z : ℝ × ℝ} (hz : z ∉ trace q) : ∃ δ > 0, ∀ l r, |l - z.1| < δ → |r - z.1| < δ →
      (l, z.2) ∉ trace p → (r, z.2) ∉ trace p →
      wsum (l, z.2) L - wsum (r, z.2) L = wn q z * (wn p (l, z.2) - wn p (r, z.2)) ∧
      wsum (l, z.2) L' = wsum (r, z.2) L' ∧ wn q (l, z.2) = wn q z ∧ wn q (r, z.2) = wn q z := by
  obtain ⟨δ1, hδ1, b1⟩ := horizontal_const L h.proper z
  obtain ⟨δ2, hδ2, b2⟩ := horizontal_const L' h'.proper z
  obtain ⟨δ3, hδ3, b3⟩ := wn_locally hq hz
  refine ⟨min δ1 (min δ2 δ3), by positivity, ?_⟩
  intro l r hl hr hlp hrp
  have l1 := lt_of_lt_of_le hl (min_le_left _ _)
  have l2 := lt_of_lt_of_le hl (le_trans (min_le_right _ _) (min_le_left _ _))
  have l3 := lt_of_lt_of_le hl (le_trans (min_le_right _ _) (min_le_right _ _))
  have r1 := lt_of_lt_of_le hr (min_le_left _ _)
  have r2 := lt_of_lt_of_le hr (le_trans (min_le_right _ _) (min_le_left _ _))
  have r3 := lt_of_lt_of_le hr (le_trans (min_le_right _ _) (min_le_right _ _))
  have inball : ∀ x, |x - z.1| < δ3 → (x, z.2) ∈ Metric.ball z δ3 := by
    intro x hx
    rw [Metric.mem_ball, Prod.dist_eq]
    simp only [dist_self, Real.dist_eq]
    exact max_lt hx hδ3
  refine ⟨?_, ?_, (b3 _ (inball l l3)).2, (b3 _ (inball r r3)).2⟩
  · rw [h.total _ hlp, h.total _ hrp]
    unfold wsum
    rw [← sum_sub_list, ← sum_sub_list, ← sum_mul_left]
    apply sum_congr_list
    intro e he
    by_cases hze : z ∈ segTrace e.2
    · rw [h.weight e he z hze hz]; ring
    · rw [b1 l l1 e he hze, b1 r r1 e he hze]; ring
  · unfold wsum
    apply sum_congr_list
    intro e he
    have hze : z ∉ segTrace e.2 := fun hm => hz (h'.sub e he hm)
    rw [b2 l l2 e he hze, b2 r r2 e he hze]

theorem wsum_locally {L : List (ℤ × (Vertex ℝ × Vertex ℝ))} (hp : ∀ e ∈ L, Proper e.2) {z : ℝ × ℝ} (hz : ∀ e ∈ L, z ∉ segTrace e.2) :
    ∃ δ > 0, ∀ x, |x - z.1| < δ → wsum (x, z.2) L = wsum z L := by
  obtain ⟨δ, hδ, b⟩ := horizontal_const L hp z
  refine ⟨δ, hδ, ?_⟩
  intro x hx
  unfold wsum
  apply sum_congr_list
  intro e he
  rw [b x hx e he (hz e he)]

theorem trace_bounded {p : Pline ℝ} (h : Loop p) : ∃ M, ∀ y ∈ trace p, y.1 < M := by
  obtain ⟨a, ha, hma⟩ := (trace_isCompact h).exists_isMaxOn (trace_nonempty h) continuous_fst.continuousOn
  exact ⟨a.1 + 1, fun y hy => by have : y.1 ≤ a.1 := hma hy; linarith⟩

theorem wsum_far {p q : Pline ℝ} {L : List (ℤ × (Vertex ℝ × Vertex ℝ))} (h : Weighted p q L) {z : ℝ × ℝ} (hz : ∀ y ∈ trace p, y.1 < z.1) :
    wsum z L = 0 := by
  unfold wsum
  have : (L.map fun e => e.1 * segW z e.2) = L.map fun _ => (0 : ℤ) := by
    apply List.map_congr_left
    intro e he
    rw [segW_far e.2 (h.proper e he) (fun y hy => hz y (h.sub e he hy)), mul_zero]
  rw [this]
  simp

/-- The product rule. -/
theorem product_rule {p1 p2 : Pline ℝ} (l1 : Loop p1) (l2 : Loop p2) {L1 L2 : List (ℤ × (Vertex ℝ × Vertex ℝ))}
    (h1 : Weighted p1 p2 L1) (h2 : Weighted p2 p1 L2) (c : ℝ)
    (hfin : {x : ℝ | (x, c) ∈ trace p1 ∪ trace p2}.Finite) (hno : ∀ x : ℝ, ¬ ((x, c) ∈ trace p1 ∧ (x, c) ∈ trace p2))
    (x : ℝ) (hx1 : (x, c) ∉ trace p1) (hx2 : (x, c) ∉ trace p2) :
    wsum (x, c) L1 + wsum (x, c) L2 = wn p1 (x, c) * wn p2 (x, c) := by
  have key := step_zero (fun x => wsum (x, c) L1 + wsum (x, c) L2 - wn p1 (x, c) * wn p2 (x, c)) _ hfin ?_ ?_ ?_ x
    (by rintro (h | h); exacts [hx1 h, hx2 h])
  · linarith
  · -- locally constant
    intro y hy
    have hy1 : (y, c) ∉ trace p1 := fun h => hy (Or.inl h)
    have hy2 : (y, c) ∉ trace p2 := fun h => hy (Or.inr h)
    obtain ⟨δ1, d1, b1⟩ := wsum_locally (z := (y, c)) h1.proper (fun e he hm => hy1 (h1.sub e he hm))
    obtain ⟨δ2, d2, b2⟩ := wsum_locally (z := (y, c)) h2.proper (fun e he hm => hy2 (h2.sub e he hm))
    obtain ⟨δ3, d3, b3⟩ := wn_locally l1 hy1
    obtain ⟨δ4, d4, b4⟩ := wn_locally l2 hy2
    refine ⟨min (min δ1 δ2) (min δ3 δ4), by positivity, ?_⟩
    intro x' hx'
    rw [Metric.mem_ball, Real.dist_eq] at hx'
    have i1 := lt_of_lt_of_le hx' (le_trans (min_le_left _ _) (min_le_left _ _))
    have i2 := lt_of_lt_of_le hx' (le_trans (min_le_left _ _) (min_le_right _ _))
    have i3 := lt_of_lt_of_le hx' (le_trans (min_le_right _ _) (min_le_left _ _))
    have i4 := lt_of_lt_of_le hx' (le_trans (min_le_right _ _) (min_le_right _ _))
    have inball : ∀ δ, |x' - y| < δ → (x', c) ∈ Metric.ball (y, c) δ := by
      intro δ h
      rw [Metric.mem_ball, Prod.dist_eq]
      simp only [dist_self, Real.dist_eq]
      exact max_lt h (lt_of_le_of_lt (abs_nonneg _) h)
    rw [b1 x' i1, b2 x' i2, (b3 _ (inball _ i3)).2, (b4 _ (inball _ i4)).2]
  · -- far to the right
    obtain ⟨M1, m1⟩ := trace_bounded l1
    obtain ⟨M2, m2⟩ := trace_bounded l2
    refine ⟨max M1 M2, ?_⟩
    intro y hy
    have g1 : ∀ u ∈ trace p1, u.1 < (y, c).1 := fun u hu => lt_trans (m1 u hu) (lt_of_le_of_lt (le_max_left _ _) hy)
    have g2 : ∀ u ∈ trace p2, u.1 < (y, c).1 := fun u hu => lt_trans (m2 u hu) (lt_of_le_of_lt (le_max_right _ _) hy)
    rw [wsum_far h1 g1, wsum_far h2 g2]
    have : wn p1 (y, c) = 0 := by
      refine wn_right_end l1 (fun hm => lt_irrefl _ (g1 _ hm)) (fun u hu => (g1 u hu).le)
    rw [this]; ring
  · -- jumps
    intro X hX
    have hclear : ∃ ε > 0, ∀ y, |y - X| < ε → y ≠ X → (y, c) ∉ trace p1 ∧ (y, c) ∉ trace p2 := by
      have hclosed : IsClosed ({x : ℝ | (x, c) ∈ trace p1 ∪ trace p2} \ {X}) := (hfin.subset Set.diff_subset).isClosed
      obtain ⟨ε, hε, hb⟩ := Metric.isOpen_iff.mp hclosed.isOpen_compl X (by simp)
      refine ⟨ε, hε, ?_⟩
      intro y h1 h2
      have : y ∉ {x : ℝ | (x, c) ∈ trace p1 ∪ trace p2} := by
        intro hy
        exact hb (a := y) (by rw [Metric.mem_ball, Real.dist_eq]; exact h1) ⟨hy, h2⟩
      exact ⟨fun h => this (Or.inl h), fun h => this (Or.inr h)⟩
    obtain ⟨ε, hε, hc⟩ := hclear
    rcases hX with hX | hX
    · obtain ⟨δ, hδ, hj⟩ := jump_side l2 h1 h2 (z := (X, c)) (fun h => hno X ⟨hX, h⟩)
      refine ⟨min δ ε, lt_min hδ hε, ?_⟩
      intro l r a1 a2 a3 a4
      have m1 := min_le_left δ ε
      have m2 := min_le_right δ ε
      have il : |l - X| < min δ ε := by rw [abs_lt]; constructor <;> linarith
      have ir : |r - X| < min δ ε := by rw [abs_lt]; constructor <;> linarith
      obtain ⟨e1, e2, e3, e4⟩ := hj l r (lt_of_lt_of_le il m1) (lt_of_lt_of_le ir m1)
        (hc l (lt_of_lt_of_le il m2) a2.ne).1 (hc r (lt_of_lt_of_le ir m2) a3.ne').1
      simp only at e1 e2 e3 e4 ⊢
      rw [e3, e4]
      linear_combination e1 + e2
    · obtain ⟨δ, hδ, hj⟩ := jump_side l1 h2 h1 (z := (X, c)) (fun h => hno X ⟨h, hX⟩)
      refine ⟨min δ ε, lt_min hδ hε, ?_⟩
      intro l r a1 a2 a3 a4
      have m1 := min_le_left δ ε
      have m2 := min_le_right δ ε
      have il : |l - X| < min δ ε := by rw [abs_lt]; constructor <;> linarith
      have ir : |r - X| < min δ ε := by rw [abs_lt]; constructor <;> linarith
      obtain ⟨e1, e2, e3, e4⟩ := hj l r (lt_of_lt_of_le il m1) (lt_of_lt_of_le ir m1)
        (hc l (lt_of_lt_of_le il m2) a2.ne).2 (hc r (lt_of_lt_of_le ir m2) a3.ne').2
      simp only at e1 e2 e3 e4 ⊢
      rw [e3, e4]
      linear_combination e1 + e2

end Cavc
