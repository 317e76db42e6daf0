import Verif.Lemmas.CutTable

/-! # Winding numbers along the pieces of a polyline -/

namespace Cavc
open Real RealScalar Pline

/-- A count of turns along one segment. -/
structure TurnCount (v w : Vertex ℝ) (z : ℝ × ℝ) (A : ℝ → ℝ) : Prop where
  zero : A 0 = 0
  one : A 1 = segW z (v, w)
  part : ∀ eps t u x y, 0 < eps → 0 ≤ t → t ≤ u → u ≤ 1 → PartSeg v w eps t u x y → (segW z (x, y) : ℝ) = A u - A t

theorem turnCount_exists (v w : Vertex ℝ) (h : IsLine v ∨ ProperArc v w) (z : ℝ × ℝ) (hz : z ∉ segTrace (v, w)) : ∃ A, TurnCount v w z A := by
  have hp := pi_pos
  have hoff : ¬ OnSeg v w ⟨z.1, z.2⟩ := hz
  obtain ⟨θ, hθ, -⟩ := seg_turn v w h ⟨z.1, z.2⟩ hoff
  have hne : ∀ t, 0 ≤ t → t ≤ 1 → (segCurve v w t).x - z.1 ≠ 0 ∨ (segCurve v w t).y - z.2 ≠ 0 := by
    intro t h0 h1
    by_contra hc
    push Not at hc
    exact hoff ⟨t, h0, h1, V2.ext_iff'.mpr ⟨by simp only; linarith [hc.1], by simp only; linarith [hc.2]⟩⟩
  have key : ∀ eps t u x y, 0 < eps → 0 ≤ t → t ≤ u → u ≤ 1 → PartSeg v w eps t u x y →
      2 * π * (segW z (x, y) : ℝ) = (θ u - ang ((segCurve v w u).x - z.1) ((segCurve v w u).y - z.2)) -
        (θ t - ang ((segCurve v w t).x - z.1) ((segCurve v w t).y - z.2)) := by
    intro eps t u x y he h0 h1 h2 hps
    have hlin : ∀ s ∈ Set.Icc (0 : ℝ) 1, t + (u - t) * s ∈ Set.Icc (0 : ℝ) 1 := by
      intro s hs
      exact ⟨by nlinarith [hs.1, hs.2], by nlinarith [hs.1, hs.2]⟩
    have hoff' : ¬ OnSeg x y ⟨z.1, z.2⟩ := by
      rintro ⟨s, s0, s1, e⟩
      rw [hps.along] at e
      exact hoff ⟨_, (hlin s ⟨s0, s1⟩).1, (hlin s ⟨s0, s1⟩).2, e⟩
    have hf : FollowsAngle (segCurve x y) ⟨z.1, z.2⟩ 0 1 fun s => θ (t + (u - t) * s) := by
      refine ⟨hθ.1.comp (by fun_prop) hlin, fun s hs => ?_⟩
      rw [hps.along]
      exact hθ.2 _ (hlin s hs)
    have hx := hps.start
    have hy := hps.stop
    have hxx : x.x = (segCurve v w t).x := congrArg V2.x hx
    have hxy : x.y = (segCurve v w t).y := congrArg V2.y hx
    have hyx : y.x = (segCurve v w u).x := congrArg V2.x hy
    have hyy : y.y = (segCurve v w u).y := congrArg V2.y hy
    have e := segWinding_turn (hps.full.proper he) hoff' hf (a0 := ang ((segCurve v w t).x - z.1) ((segCurve v w t).y - z.2))
      (a1 := ang ((segCurve v w u).x - z.1) ((segCurve v w u).y - z.2))
      (by rw [hxx, hxy]; exact ang_dir (hne t h0 (h1.trans h2))) (ang_pos _ _) (ang_le _ _)
      (by rw [hyx, hyy]; exact ang_dir (hne u (h0.trans h1) h2)) (ang_pos _ _) (ang_le _ _)
    simp only [mul_one, mul_zero, add_zero, add_sub_cancel] at e
    unfold segW
    linarith
  refine ⟨fun t => ((θ t - ang ((segCurve v w t).x - z.1) ((segCurve v w t).y - z.2)) -
    (θ 0 - ang ((segCurve v w 0).x - z.1) ((segCurve v w 0).y - z.2))) / (2 * π), by simp, ?_, ?_⟩
  · have e0 := (segCurve_ends v w).1
    have e1 := (segCurve_ends v w).2
    have h0 := hne 0 le_rfl zero_le_one
    have h1 := hne 1 zero_le_one le_rfl
    rw [e0] at h0
    rw [e1] at h1
    have e := segWinding_turn h hoff hθ (a0 := ang (v.x - z.1) (v.y - z.2)) (a1 := ang (w.x - z.1) (w.y - z.2))
      (ang_dir h0) (ang_pos _ _) (ang_le _ _) (ang_dir h1) (ang_pos _ _) (ang_le _ _)
    simp only [e0, e1, Vertex.pos]
    rw [div_eq_iff (by positivity)]
    unfold segW
    linarith
  · intro eps t u x y he h0 h1 h2 hps
    have := key eps t u x y he h0 h1 h2 hps
    rw [← sub_div, eq_div_iff (by positivity)]
    linarith

theorem sum_by_index {α : Type} (L : List α) (f : α → ℝ) (g : Nat → ℝ) (h : ∀ j a, L[j]? = some a → f a = g j) :
    (L.map f).sum = ∑ j ∈ Finset.range L.length, g j := by
  induction L generalizing g with
  | nil => simp
  | cons a L ih =>
    rw [List.map_cons, List.sum_cons, List.length_cons, Finset.sum_range_succ', h 0 a rfl, ih (fun j => g (j + 1)) (fun j b hb => h (j + 1) b hb)]
    ring

/-- the turns of the first `i` segments, counted on cyclically -/
noncomputable def turnsTo (p : Pline ℝ) (z : ℝ × ℝ) (i : Nat) : ℝ := ∑ m ∈ Finset.range i, (segW z (vtx p m, vtx p (m + 1)) : ℝ)

theorem turnsTo_succ (p : Pline ℝ) (z : ℝ × ℝ) (i : Nat) : turnsTo p z (i + 1) = turnsTo p z i + segW z (vtx p i, vtx p (i + 1)) := by
  unfold turnsTo; rw [Finset.sum_range_succ]

theorem turnsTo_period {p : Pline ℝ} (h : Loop p) (z : ℝ × ℝ) (i : Nat) : turnsTo p z (i + p.verts.length) = turnsTo p z i + wn p z := by
  induction i with
  | zero =>
    rw [wn_segs h, segs_range h.closed h.two, List.map_map]
    unfold turnsTo
    simp only [Nat.zero_add, Finset.range_zero, Finset.sum_empty, zero_add]
    rw [Int.cast_list_sum, List.map_map]
    have := sum_by_index (List.range p.verts.length) (fun m => (segW z (vtx p m, vtx p (m + 1)) : ℝ)) (fun m => (segW z (vtx p m, vtx p (m + 1)) : ℝ)) (by
      intro j a ha
      have : a = j := by
        obtain ⟨hlt, hh⟩ := List.getElem?_eq_some_iff.mp ha
        simp at hh; exact hh.symm
      rw [this])
    rw [List.length_range] at this
    rw [← this]
    rfl
  | succ i ih =>
    rw [show i + 1 + p.verts.length = i + p.verts.length + 1 by omega, turnsTo_succ, turnsTo_succ, ih, vtx_add,
      show i + p.verts.length + 1 = i + 1 + p.verts.length by omega, vtx_add]
    ring

/-- A cut inside its segment and a following cut. -/
def Ordered (p : Pline ℝ) (a b : Cut) : Prop :=
  0 < a.2 ∧ a.2 < 1 ∧ 0 < b.2 ∧ b.2 < 1 ∧ ((a.1 = b.1 ∧ a.2 < b.2) ∨ (a.1 < b.1 ∧ b.1 ≤ a.1 + p.verts.length))

theorem piece_turns {p : Pline ℝ} {eps : ℝ} (he : 0 < eps) {z : ℝ × ℝ} {A : Nat → ℝ → ℝ}
    (hA : ∀ i, TurnCount (vtx p i) (vtx p (i + 1)) z (A i)) {a b : Cut} (ho : Ordered p a b) {vs : List (Vertex ℝ)} (hv : Along p eps a b vs) :
    ((pathSegs vs).map fun s => (segW z s : ℝ)).sum = (turnsTo p z b.1 + A b.1 b.2) - (turnsTo p z a.1 + A a.1 a.2) := by
  obtain ⟨i, t⟩ := a
  obtain ⟨j, u⟩ := b
  obtain ⟨a0, a1, b0, b1, hor⟩ := ho
  dsimp only at *
  have hij : i ≤ j := by rcases hor with h | h <;> omega
  obtain ⟨k, rfl⟩ := Nat.exists_eq_add_of_le hij
  rw [sum_by_index (pathSegs vs) (fun s => (segW z s : ℝ)) (fun m => A (i + m) (hiOf (i, t) (i + k, u) m) - A (i + m) (loOf (i, t) m)) (by
    intro m s hs
    obtain ⟨x, y⟩ := s
    have hp := hv.part m x y hs
    refine (hA (i + m)).part eps _ _ x y he ?_ ?_ ?_ hp
    · unfold loOf; split_ifs <;> linarith
    · unfold loOf hiOf
      dsimp only
      split_ifs with h1 h2 h2
      · rcases hor with h | h
        · exact h.2.le
        · omega
      · linarith
      · linarith
      · linarith
    · unfold hiOf; dsimp only; split_ifs <;> linarith)]
  rw [pathSegs_length, hv.count]
  dsimp only
  rw [Nat.add_sub_cancel_left, show k + 2 - 1 = k + 1 by omega]
  have htel : ∀ m ∈ Finset.range (k + 1), A (i + m) (hiOf (i, t) (i + k, u) m) - A (i + m) (loOf (i, t) m) =
      (if m + 1 = k + 1 then turnsTo p z (i + k) + A (i + k) u else turnsTo p z (i + (m + 1))) -
      (if m = 0 then turnsTo p z i + A i t else if m = k + 1 then turnsTo p z (i + k) + A (i + k) u else turnsTo p z (i + m)) := by
    intro m hm
    have hm' := Finset.mem_range.mp hm
    unfold hiOf loOf
    dsimp only
    rw [Nat.add_sub_cancel_left]
    have hz := (hA (i + m)).zero
    have ho := (hA (i + m)).one
    have hs := turnsTo_succ p z (i + m)
    by_cases h1 : m = k
    · subst h1
      simp only [if_true]
      by_cases h2 : m = 0
      · subst h2
        simp only [if_true, Nat.add_zero]; ring
      · simp only [if_neg h2, if_neg (show ¬ m = m + 1 by omega), hz]; ring
    · rw [if_neg h1, if_neg (by omega : ¬ m + 1 = k + 1), if_neg (by omega : ¬ m = k + 1), show i + (m + 1) = i + m + 1 by omega, hs, ho]
      by_cases h2 : m = 0
      · subst h2
        simp only [if_true, Nat.add_zero]; ring
      · simp only [if_neg h2, hz]; ring
  rw [Finset.sum_congr rfl htel]
  have hT := Finset.sum_range_sub (fun m => if m = 0 then turnsTo p z i + A i t else if m = k + 1 then turnsTo p z (i + k) + A (i + k) u else turnsTo p z (i + m)) (k + 1)
  simp only [if_true] at hT
  rw [if_neg (by omega : ¬ k + 1 = 0)] at hT
  rw [← hT]
  apply Finset.sum_congr rfl
  intro m _
  rw [if_neg (by omega : ¬ m + 1 = 0)]

theorem path_telescope {α : Type} (h : α → ℝ) : ∀ (l : List α) (a b : α), l.head? = some a → l.getLast? = some b →
    ((pathSegs l).map fun x => h x.2 - h x.1).sum = h b - h a
  | [], a, b, h1, _ => by simp at h1
  | [x], a, b, h1, h2 => by simp at h1 h2; subst h1; subst h2; simp [pathSegs]
  | x :: y :: l, a, b, h1, h2 => by
    have := path_telescope h (y :: l) y b rfl (by rw [List.getLast?_cons_cons] at h2; exact h2)
    simp only [List.head?_cons, Option.some.injEq] at h1
    subst h1
    simp only [pathSegs, List.map_cons, List.sum_cons, this]
    ring

theorem forall2_map_sum {α β : Type} {R : α → β → Prop} {l : List α} {l' : List β} (h : List.Forall₂ R l l') (f : α → ℝ) (g : β → ℝ)
    (hfg : ∀ a b, a ∈ l → R a b → g b = f a) : (l'.map g).sum = (l.map f).sum := by
  induction h with
  | nil => rfl
  | cons hab _ ih =>
    simp only [List.map_cons, List.sum_cons]
    rw [hfg _ _ (by simp) hab, ih fun a b ha => hfg a b (by simp [ha])]

end Cavc
