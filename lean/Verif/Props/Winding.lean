import Verif.Lemmas.Winding
import Verif.Lemmas.Segs

/-! # C14: the winding number -/

set_option linter.unusedSectionVars false

namespace Cavc
open Real Pline

/-- The turn of one segment about a point not on it, in terms of the angles of its end points
counted from the positive axis in `(0, 2π]`. -/
theorem seg_turn (v1 v2 : Vertex ℝ) (h : IsLine v1 ∨ ProperArc v1 v2) (pt : V2 ℝ) (hoff : ¬ OnSeg v1 v2 pt) :
    ∃ θ, FollowsAngle (segCurve v1 v2) pt 0 1 θ ∧ ∀ a0 a1, Dir a0 (v1.x - pt.x) (v1.y - pt.y) →
      0 < a0 → a0 ≤ 2 * π → Dir a1 (v2.x - pt.x) (v2.y - pt.y) → 0 < a1 → a1 ≤ 2 * π →
      θ 1 - θ 0 = a1 - a0 + 2 * π * (segWinding pt (v1, v2) : ℤ) := by
  rcases h with hl | ha
  · have hf : segCurve v1 v2 = linePoint v1.pos v2.pos := funext (segCurve_line hl)
    have hw : segWinding pt (v1, v2) = lineWinding v1 v2 pt := by
      simp only [segWinding, bulgeIsZero_true hl, if_true]
    rw [hf, hw, lineWinding_eq]
    exact line_turn v1.pos v2.pos pt (fun t h0 h1 e => hoff ⟨t, h0, h1, by rw [hf]; exact e⟩)
  · have hl := ha.notLine
    have hf : segCurve v1 v2 = arcPoint v1.pos v2.pos v1.bulge := funext (segCurve_arc hl)
    have hw : segWinding pt (v1, v2) = arcWinding v1 v2 pt := by
      simp only [segWinding, bulgeIsZero_false hl, Bool.false_eq_true, if_false]
    rw [hf, hw]
    have hhalf := abs_le.mp ha.half
    rcases lt_or_gt_of_ne (bulge_ne_zero hl) with hb | hb
    · rw [arcWinding_cw v1 v2 hb ha.ne]
      have hsw : ∀ t, arcPoint v2.pos v1.pos (-v1.bulge) t = arcPoint v1.pos v2.pos v1.bulge (1 - t) :=
        fun t => arcPoint_swap _ _ _ t hb.ne
      obtain ⟨θ, ⟨c, d⟩, ht⟩ := arc_turn (P := v2.pos) (Q := v1.pos) (b := -v1.bulge) (Ne.symm ha.ne) (by linarith) (by linarith [hhalf.1]) pt
        (fun t h0 h1 e => hoff ⟨1 - t, by linarith, by linarith, by rw [hf, ← hsw]; exact e⟩)
      refine ⟨fun t => θ (1 - t), ⟨?_, ?_⟩, ?_⟩
      · exact c.comp (by fun_prop) (fun t ht => ⟨by linarith [ht.2], by linarith [ht.1]⟩)
      · intro t ht
        have := d (1 - t) ⟨by linarith [ht.2], by linarith [ht.1]⟩
        rw [hsw, show 1 - (1 - t) = t by ring] at this
        exact this
      · intro a0 a1 e0 h0 h0' e1 h1 h1'
        have := ht a1 a0 e1 h1 h1' e0 h0 h0'
        simp only [sub_self, sub_zero, Vertex.pos_x, Vertex.pos_y] at this ⊢
        push_cast
        linarith
    · rw [arcWinding_ccw v1 v2 hb ha.ne]
      exact arc_turn ha.ne hb hhalf.2 pt (fun t h0 h1 e => hoff ⟨t, h0, h1, by rw [hf]; exact e⟩)

/-- the curve over the interval of segment `i` -/
theorem plineCurve_seg (p : Pline ℝ) (hc : p.closed = true) (h2 : 2 ≤ p.verts.length) (i : Nat)
    (s : Vertex ℝ × Vertex ℝ) (hs : p.segs[i]? = some s) (t : ℝ) (h0 : i ≤ t) (h1 : t ≤ i + 1) :
    plineCurve p t = segCurve s.1 s.2 (t - i) := by
  have hseg : p.segmentCount = p.verts.length := by
    unfold segmentCount vertexCount; dsimp only; rw [if_neg (by omega), if_pos hc]
  have hi : i < p.verts.length := by
    rw [← hseg, ← segs_length]
    exact (List.getElem?_eq_some_iff.mp hs).1
  obtain ⟨a, b, -, hb, hab⟩ := segs_getElem? p i (by omega)
  obtain rfl : s = (a, b) := Option.some.inj (hs.symm.trans hab)
  have ht0 : 0 ≤ t := le_trans (Nat.cast_nonneg i) h0
  rcases lt_or_eq_of_le h1 with hlt | heq
  · have hfl : ⌊t⌋₊ = i := (Nat.floor_eq_iff ht0).mpr ⟨h0, hlt⟩
    unfold plineCurve
    rw [hfl, hs]
  · have hfl : ⌊t⌋₊ = i + 1 := by rw [heq]; exact_mod_cast Nat.floor_natCast (i + 1)
    have e : t - (i : ℝ) = 1 := by rw [heq]; ring
    unfold plineCurve
    rw [hfl, e, (segCurve_ends a b).2]
    by_cases hn : i + 1 < p.verts.length
    · obtain ⟨a', b', ha', -, hs'⟩ := segs_getElem? p (i + 1) (by omega)
      rw [Nat.mod_eq_of_lt hn, ha'] at hb
      rw [hs', Option.some.inj hb]
      show segCurve b b' (t - ((i + 1 : ℕ) : ℝ)) = b.pos
      rw [show t - ((i + 1 : ℕ) : ℝ) = 0 by rw [heq]; push_cast; ring]
      exact (segCurve_ends b b').1
    · have hn' : i + 1 = p.verts.length := by omega
      have hnone : p.segs[i + 1]? = none := by
        rw [List.getElem?_eq_none_iff, segs_length]; omega
      rw [hn', Nat.mod_self] at hb
      rw [hnone]
      rw [← List.head?_eq_getElem?] at hb
      simp [hb]

theorem foldl_sum {α : Type} (f : α → ℤ) : ∀ (l : List α) (z : ℤ), l.foldl (fun w s => w + f s) z = z + (l.map f).sum
  | [], z => by simp
  | a :: l, z => by
    rw [List.foldl_cons, foldl_sum f l, List.map_cons, List.sum_cons]; ring

/-- gluing continuous angles at a common point -/
theorem follows_glue {γ : ℝ → V2 ℝ} {pt : V2 ℝ} {a b c : ℝ} (hab : a ≤ b) (hbc : b ≤ c) {θ ψ : ℝ → ℝ}
    (h1 : FollowsAngle γ pt a b θ) (h2 : FollowsAngle γ pt b c ψ) : ∃ χ, FollowsAngle γ pt a c χ := by
  obtain ⟨k, hk⟩ := dir_congr (h1.2 b ⟨hab, le_rfl⟩) (h2.2 b ⟨le_rfl, hbc⟩)
  refine ⟨fun t => if t ≤ b then θ t else ψ t + 2 * π * k, ?_, ?_⟩
  · rw [← Set.Icc_union_Icc_eq_Icc hab hbc]
    refine ContinuousOn.union_of_isClosed ?_ ?_ isClosed_Icc isClosed_Icc
    · refine h1.1.congr ?_
      intro t ht
      simp [ht.2]
    · have : ContinuousOn (fun t => ψ t + 2 * π * k) (Set.Icc b c) := h2.1.add continuousOn_const
      refine this.congr ?_
      intro t ht
      rcases eq_or_lt_of_le ht.1 with h | h
      · subst h; simp [hk]
      · simp [not_le.mpr h]
  · intro t ht
    by_cases h : t ≤ b
    · simp only [h, if_true]; exact h1.2 t ⟨ht.1, h⟩
    · simp only [h, if_false]
      push Not at h
      exact dir_shift (h2.2 t ⟨h.le, ht.2⟩) k

/-- **C14** For a closed polyline of lines and arcs of at most half a circle and a point that is not
on it: the direction from the point to the curve can be followed by a continuous angle along the
whole curve, and however this is done the angle changes by the full turns `winding_number` gives. -/
theorem C14_winding_number (p : Pline ℝ) (hc : p.closed = true) (h2 : 2 ≤ p.verts.length)
    (hs : ∀ s ∈ p.segs, IsLine s.1 ∨ ProperArc s.1 s.2) (pt : V2 ℝ) (hoff : ¬ OnPline p pt) :
    (∃ θ, FollowsAngle (plineCurve p) pt 0 p.segmentCount θ) ∧
    ∀ θ, FollowsAngle (plineCurve p) pt 0 p.segmentCount θ →
      θ p.segmentCount - θ 0 = 2 * π * (p.windingNumber pt : ℤ) := by
  have hseg : p.segmentCount = p.verts.length := by
    unfold segmentCount vertexCount; dsimp only; rw [if_neg (by omega), if_pos hc]
  have hlen : p.segs.length = p.verts.length := by rw [segs_length, hseg]
  have hn : 0 < p.verts.length := by omega
  -- the angles of the vertexes
  have hA : ∀ i : ℕ, ∃ a, ∀ v, p.verts[i % p.verts.length]? = some v → Dir a (v.x - pt.x) (v.y - pt.y) ∧ 0 < a ∧ a ≤ 2 * π := by
    intro i
    have hlt := Nat.mod_lt i hn
    obtain ⟨a, b, ha, -, hab⟩ := segs_getElem? p (i % p.verts.length) (by omega)
    have hne : a.x - pt.x ≠ 0 ∨ a.y - pt.y ≠ 0 := by
      by_contra hcon
      push Not at hcon
      refine hoff ⟨(a, b), List.mem_of_getElem? hab, 0, le_rfl, zero_le_one, ?_⟩
      rw [(segCurve_ends a b).1, V2.ext_iff']
      simp only [Vertex.pos_x, Vertex.pos_y]
      constructor <;> linarith [hcon.1, hcon.2]
    obtain ⟨α, h1, h2, h3⟩ := dir_exists hne
    refine ⟨α, fun v hv => ?_⟩
    rw [ha] at hv
    obtain rfl := Option.some.inj hv
    exact ⟨h1, h2, h3⟩
  choose A hA using hA
  -- the turn of segment `i`
  have hturn : ∀ i (hi : i < p.segs.length), ∃ ψ, FollowsAngle (plineCurve p) pt i (i + 1) ψ ∧
      ψ (i + 1) - ψ i = A (i + 1) - A i + 2 * π * (segWinding pt p.segs[i] : ℤ) := by
    intro i hi
    obtain ⟨a, b, ha, hb, hab⟩ := segs_getElem? p i (by omega)
    have hsi : p.segs[i] = (a, b) := by
      have := List.getElem?_eq_getElem hi
      rw [hab] at this
      exact (Option.some.inj this).symm
    have hmem : (a, b) ∈ p.segs := List.mem_of_getElem? hab
    obtain ⟨θ, ⟨c, d⟩, ht⟩ := seg_turn a b (hs _ hmem) pt (fun h => hoff ⟨_, hmem, h⟩)
    refine ⟨fun t => θ (t - i), ⟨?_, ?_⟩, ?_⟩
    · exact c.comp (by fun_prop) (fun t ht => ⟨by linarith [ht.1], by linarith [ht.2]⟩)
    · intro t ht
      rw [plineCurve_seg p hc h2 i _ hab t ht.1 ht.2]
      exact d (t - i) ⟨by linarith [ht.1], by linarith [ht.2]⟩
    · obtain ⟨e0, b0, b0'⟩ := hA i a (by rw [Nat.mod_eq_of_lt (by omega)]; exact ha)
      obtain ⟨e1, b1, b1'⟩ := hA (i + 1) b hb
      have := ht _ _ e0 b0 b0' e1 b1 b1'
      rw [hsi, ← this]
      simp
  have hex : ∀ k : ℕ, k ≤ p.segs.length → 0 < k → ∃ θ, FollowsAngle (plineCurve p) pt 0 k θ := by
    intro k
    induction k with
    | zero => intro _ h; omega
    | succ k ih =>
      intro hk _
      obtain ⟨ψ, hψ, -⟩ := hturn k (by omega)
      rcases Nat.eq_zero_or_pos k with h0 | h0
      · subst h0
        exact ⟨ψ, by simpa using hψ⟩
      · obtain ⟨θ, hθ⟩ := ih (by omega) h0
        push_cast
        exact follows_glue (Nat.cast_nonneg k) (by linarith) hθ hψ
  refine ⟨by rw [hseg, ← hlen]; exact hex _ le_rfl (by omega), ?_⟩
  intro θ hθ
  rw [hseg, ← hlen] at hθ ⊢
  have hsum : ∀ k : ℕ, k ≤ p.segs.length →
      θ k - θ 0 = A k - A 0 + 2 * π * (((p.segs.take k).map (segWinding pt)).sum : ℤ) := by
    intro k
    induction k with
    | zero => intro _; simp
    | succ k ih =>
      intro hk
      obtain ⟨ψ, hψ, hd⟩ := hturn k (by omega)
      have hsub : Set.Icc (k : ℝ) (k + 1) ⊆ Set.Icc 0 (p.segs.length : ℝ) := by
        intro t ht
        refine ⟨le_trans (Nat.cast_nonneg k) ht.1, le_trans ht.2 ?_⟩
        exact_mod_cast hk
      have hu := angle_change_unique (a := (k : ℝ)) (b := k + 1) (by linarith) (hθ.1.mono hsub) hψ.1
        (fun t ht => hθ.2 t (hsub ht)) hψ.2
      have hi := ih (by omega)
      have hk' : k < p.segs.length := by omega
      rw [List.take_succ_eq_append_getElem hk', List.map_append, List.sum_append]
      simp only [List.map_cons, List.map_nil, List.sum_cons, List.sum_nil, add_zero]
      rw [Int.cast_add, Nat.cast_succ]
      rw [hd] at hu
      linarith
  have := hsum _ le_rfl
  rw [List.take_length] at this
  obtain ⟨v, hv⟩ : ∃ v, p.verts[0]? = some v := ⟨p.verts[0], List.getElem?_eq_getElem hn⟩
  have d0 := hA 0 v (by rw [Nat.zero_mod]; exact hv)
  have dn := hA p.segs.length v (by rw [hlen, Nat.mod_self]; exact hv)
  have hAA : A p.segs.length = A 0 := by
    obtain ⟨k, hk⟩ := dir_congr dn.1 d0.1
    have hp := pi_pos
    have : k = 0 := by
      apply int_eq <;> push_cast <;> linarith [d0.2.1, d0.2.2, dn.2.1, dn.2.2]
    rw [hk, this]; simp
  rw [this, hAA]
  unfold windingNumber vertexCount
  rw [if_neg (by simp [hc]; omega), foldl_sum, zero_add]
  ring

/-- **C14** Open polylines, and closed ones without a segment, have winding number 0. -/
theorem C14_open {T : Type} [Scalar T] (p : Pline T) (pt : V2 T) (h : p.closed = false ∨ p.verts.length < 2) :
    p.windingNumber pt = 0 := by
  unfold windingNumber vertexCount
  rw [if_pos]
  rcases h with h | h <;> simp [h]

/-- Non-vacuity: the circle of two half circles and its center. -/
example : ∀ θ, FollowsAngle (plineCurve ⟨[⟨1, 0, 1⟩, ⟨-1, 0, 1⟩], true⟩) ⟨0, 0⟩ 0 2 θ → θ 2 - θ 0 = 2 * π := by
  intro θ h
  have hc : (arcCenter (⟨1, 0⟩ : V2 ℝ) ⟨-1, 0⟩ 1) = ⟨0, 0⟩ := by rw [V2.ext_iff']; simp [arcCenter]
  have hc' : (arcCenter (⟨-1, 0⟩ : V2 ℝ) ⟨1, 0⟩ 1) = ⟨0, 0⟩ := by rw [V2.ext_iff']; simp [arcCenter]
  have ha : ∀ x : ℝ, ¬ IsLine ⟨x, 0, 1⟩ := by intro x; simp [IsLine]; norm_num
  have hsegs : (⟨[⟨1, 0, 1⟩, ⟨-1, 0, 1⟩], true⟩ : Pline ℝ).segs
      = [(⟨1, 0, 1⟩, ⟨-1, 0, 1⟩), (⟨-1, 0, 1⟩, ⟨1, 0, 1⟩)] := by simp [segs, pathSegs]
  have hw : (⟨[⟨1, 0, 1⟩, ⟨-1, 0, 1⟩], true⟩ : Pline ℝ).windingNumber ⟨0, 0⟩ = 1 := by
    have h1 := arcWinding_ccw ⟨1, 0, 1⟩ ⟨-1, 0, 1⟩ (by norm_num) (by rw [Ne, V2.ext_iff']; simp [Vertex.pos]; norm_num) ⟨0, 0⟩
    have h2 := arcWinding_ccw ⟨-1, 0, 1⟩ ⟨1, 0, 1⟩ (by norm_num) (by rw [Ne, V2.ext_iff']; simp [Vertex.pos]; norm_num) ⟨0, 0⟩
    simp only [Vertex.pos, hc, hc', arcRadius_sq] at h1 h2
    norm_num [ccwTable] at h1 h2
    have z : ∀ x : ℝ, (⟨x, 0, 1⟩ : Vertex ℝ).bulgeIsZero = false := fun x => bulgeIsZero_false (ha x)
    simp only [windingNumber, vertexCount, hsegs, segWinding, List.foldl_cons, List.foldl_nil, z, h1, h2]
    simp
  have := (C14_winding_number ⟨[⟨1, 0, 1⟩, ⟨-1, 0, 1⟩], true⟩ rfl (by simp) ?_ ⟨0, 0⟩ ?_).2 θ (by simpa [segmentCount, vertexCount] using h)
  · rw [hw] at this
    simpa [segmentCount, vertexCount] using this
  · intro s hs
    rw [hsegs] at hs
    simp only [List.mem_cons, List.not_mem_nil, or_false] at hs
    rcases hs with rfl | rfl
    · exact Or.inr ⟨ha _, by norm_num, by rw [Ne, V2.ext_iff']; simp [Vertex.pos]; norm_num⟩
    · exact Or.inr ⟨ha _, by norm_num, by rw [Ne, V2.ext_iff']; simp [Vertex.pos]; norm_num⟩
  · rintro ⟨s, hs, t, -, -, e⟩
    rw [hsegs] at hs
    simp only [List.mem_cons, List.not_mem_nil, or_false] at hs
    rcases hs with rfl | rfl
    · rw [segCurve_arc (ha _)] at e
      have := arcPoint_dist_sq ⟨1, 0⟩ ⟨-1, 0⟩ 1 t one_ne_zero
      simp only [Vertex.pos] at e
      rw [← e, hc, arcRadius_sq] at this
      norm_num at this
    · rw [segCurve_arc (ha _)] at e
      have := arcPoint_dist_sq ⟨-1, 0⟩ ⟨1, 0⟩ 1 t one_ne_zero
      simp only [Vertex.pos] at e
      rw [← e, hc', arcRadius_sq] at this
      norm_num at this

end Cavc
