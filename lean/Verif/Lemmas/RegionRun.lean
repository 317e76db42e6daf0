import Verif.Lemmas.RegionSums

/-! # Stitching the kept pieces of two polylines -/

set_option linter.unusedVariables false

namespace Cavc
open Pline

def sgn (inv : Bool) : ℤ := if inv then -1 else 1

theorem near_not_far {eps : ℝ} {a b : V2 ℝ} (h : Near eps a b) (hf : FarApart eps a b) : False := by
  unfold Near AABB.overlaps AABB.ofPoint AABB.grow at h
  simp at h
  obtain ⟨⟨⟨h1, h2⟩, h3⟩, h4⟩ := h
  rcases hf with hf | hf
  · rcases lt_abs.mp hf with h5 | h5 <;> linarith
  · rcases lt_abs.mp hf with h5 | h5 <;> linarith

section
variable {p q : Pline ℝ} {eps : ℝ} {us : Bool} {E : List Cut} {PS : List CutPiece} {p1 p2 : Pline ℝ}

theorem item_ends (h : PieceList p q eps us E PS) {inv : Bool} {x : CutPiece} {i : Item} (hx : x ∈ PS) (hi : ItemOf inv x i) (hok : i.Ok p1 p2 eps) :
    (if inv then headPos i.vs = lastPos x.vs ∧ lastPos i.vs = headPos x.vs else headPos i.vs = headPos x.vs ∧ lastPos i.vs = lastPos x.vs) := by
  cases inv with
  | false =>
    have : i.vs = x.vs := hi.2
    simp [this]
  | true =>
    have : edges i.vs = ((edges x.vs).map flipE).reverse := hi.2
    simp only [if_true]
    exact reverse_ends (h.two x hx) hok.two this

theorem piece_ends (h : PieceList p q eps us E PS) {x : CutPiece} (hx : x ∈ PS) :
    headPos x.vs ∈ (E.map fun c => curveAt p c.1 c.2) ∧ lastPos x.vs ∈ (E.map fun c => curveAt p c.1 c.2) := by
  obtain ⟨v, w, h1, h2, h3, h4⟩ := h.ends x hx
  obtain ⟨ha, c, hc, e⟩ := h.cut x hx
  rw [headPos_eq h1, lastPos_eq h2, h3, h4, e]
  exact ⟨List.mem_map.mpr ⟨_, ha, rfl⟩, List.mem_map.mpr ⟨_, hc, rfl⟩⟩

theorem item_points (h : PieceList p q eps us E PS) {inv : Bool} {x : CutPiece} {i : Item} (hx : x ∈ PS) (hi : ItemOf inv x i) (hok : i.Ok p1 p2 eps) :
    headPos i.vs ∈ (E.map fun c => curveAt p c.1 c.2) ∧ lastPos i.vs ∈ (E.map fun c => curveAt p c.1 c.2) := by
  have h1 := item_ends h hx hi hok
  have h2 := piece_ends h hx
  cases inv with
  | false => simp only [Bool.false_eq_true, if_false] at h1; rw [h1.1, h1.2]; exact h2
  | true => simp only [if_true] at h1; rw [h1.1, h1.2]; exact ⟨h2.2, h2.1⟩

theorem item_trace (he : 0 < eps) (h : PieceList p q eps us E PS) {inv : Bool} {x : CutPiece} {i : Item} (hx : x ∈ PS) (hi : ItemOf inv x i) :
    ∀ e ∈ edges i.vs, segTrace e ⊆ trace p := by
  have hp : ∀ e ∈ edges x.vs, segTrace e ⊆ trace p := by
    intro e hm
    obtain ⟨s, hs, rfl⟩ := List.mem_map.mp hm
    exact h.sub x hx s hs
  cases inv with
  | false =>
    have : i.vs = x.vs := hi.2
    rw [this]; exact hp
  | true =>
    have : edges i.vs = ((edges x.vs).map flipE).reverse := hi.2
    rw [this]
    intro e hm
    rw [List.mem_reverse] at hm
    obtain ⟨e', hm', rfl⟩ := List.mem_map.mp hm
    rw [flip_trace ((edges_full.mpr (h.full x hx) e' hm').proper he)]
    exact hp e' hm'

theorem item_wind (he : 0 < eps) (h : PieceList p q eps us E PS) {inv : Bool} {x : CutPiece} {i : Item} (hx : x ∈ PS) (hi : ItemOf inv x i)
    {z : ℝ × ℝ} (hz : z ∉ trace p) : ((edges i.vs).map (segW z)).sum = sgn inv * ((edges x.vs).map (segW z)).sum := by
  cases inv with
  | false =>
    have : i.vs = x.vs := hi.2
    rw [this]; simp [sgn]
  | true =>
    have : edges i.vs = ((edges x.vs).map flipE).reverse := hi.2
    rw [this, List.map_reverse, List.sum_reverse, List.map_map, ← sum_scale]
    congr 1
    apply List.map_congr_left
    intro e hm
    have hpr : Proper e := (edges_full.mpr (h.full x hx) e hm).proper he
    have hno : z ∉ segTrace e := by
      obtain ⟨s, hs, rfl⟩ := List.mem_map.mp hm
      exact fun hz' => hz (h.sub x hx s hs hz')
    show segW z (flipE e) = _
    rw [flip_wind hpr hno]
    simp [sgn]

theorem items_net (h : PieceList p q eps us E PS) {inv : Bool} {l : List CutPiece} {items : List Item} (hl : ∀ x ∈ l, x ∈ PS)
    (hi : List.Forall₂ (ItemOf inv) l items) (hok : ∀ i ∈ items, i.Ok p1 p2 eps) (X : V2 ℝ) :
    pnet X (items.map (·.vs)) = sgn inv * pnet X (l.map (·.vs)) := by
  unfold pnet
  induction hi with
  | nil => simp
  | @cons x i l items hxi _ ih =>
    have h1 := item_ends h (hl x (by simp)) hxi (hok i (by simp))
    have h2 := ih (fun y hy => hl y (by simp [hy])) (fun j hj => hok j (by simp [hj]))
    simp only [List.map_cons, List.sum_cons, h2]
    cases inv with
    | false => simp only [Bool.false_eq_true, if_false] at h1; rw [h1.1, h1.2]; simp [sgn]
    | true => simp only [if_true] at h1; rw [h1.1, h1.2]; simp [sgn]; ring

theorem items_wind (he : 0 < eps) (h : PieceList p q eps us E PS) {inv : Bool} {l : List CutPiece} {items : List Item} (hl : ∀ x ∈ l, x ∈ PS)
    (hi : List.Forall₂ (ItemOf inv) l items) {z : ℝ × ℝ} (hz : z ∉ trace p) :
    pwind z (items.map (·.vs)) = sgn inv * pwind z (l.map (·.vs)) := by
  unfold pwind
  induction hi with
  | nil => simp
  | @cons x i l items hxi _ ih =>
    have h1 := item_wind he h (hl x (by simp)) hxi hz
    have h2 := ih (fun y hy => hl y (by simp [hy]))
    simp only [List.map_cons, List.sum_cons, h2, h1]
    ring

end

section
variable {p1 p2 : Pline ℝ} {eps : ℝ} {E1 E2 : List Cut} {PS1 PS2 : List CutPiece}

theorem pnet_append (X : V2 ℝ) (a b : List (List (Vertex ℝ))) : pnet X (a ++ b) = pnet X a + pnet X b := by
  unfold pnet; simp
theorem pwind_append (z : ℝ × ℝ) (a b : List (List (Vertex ℝ))) : pwind z (a ++ b) = pwind z a + pwind z b := by
  unfold pwind; simp

/-- Stitching kept pieces that balance. -/
theorem run_pieces {env : Env ℝ} (henv : env.Lawful) (he : 0 < eps) (h1 : PieceList p1 p2 eps false E1 PS1) (h2 : PieceList p2 p1 eps true E2 PS2)
    (hpts : (E1.map fun c => curveAt p1 c.1 c.2) = E2.map fun c => curveAt p2 c.1 c.2)
    (hfar : ∀ c ∈ E1, ∀ c' ∈ E1, c ≠ c' → FarApart eps (curveAt p1 c.1 c.2) (curveAt p1 c'.1 c'.2))
    (inv : Bool) (f1 f2 : CutPiece → Bool)
    (hbal : ∀ X, sgn inv * pnet X ((PS1.filter f1).map (·.vs)) + pnet X ((PS2.filter f2).map (·.vs)) = 0) {sel : Selector}
    (hsel : Picks sel ((PS1.filter f1).length + (PS2.filter f2).length)) :
    ∃ rs, stitchSlices env ((PS1.filter f1).map (fun x => if inv then x.s.setInverted else x.s) ++ (PS2.filter f2).map (·.s)) p1 p2 sel eps = .ok rs ∧
      (∀ r ∈ rs, Loop r.pline ∧ trace r.pline ⊆ trace p1 ∪ trace p2) ∧
      ∀ z, z ∉ trace p1 → z ∉ trace p2 →
        (rs.map fun r => wn r.pline z).sum = sgn inv * pwind z ((PS1.filter f1).map (·.vs)) + pwind z ((PS2.filter f2).map (·.vs)) := by
  obtain ⟨I1, a1, a2, a3⟩ := items_exist (p1 := p1) (p2 := p2) he (us := false) rfl h1 inv (PS1.filter f1) (fun x hx => (List.mem_filter.mp hx).1)
  obtain ⟨I2, b1, b2, b3⟩ := items_exist (p1 := p1) (p2 := p2) he (us := true) rfl h2 false (PS2.filter f2) (fun x hx => (List.mem_filter.mp hx).1)
  have b3' : I2.map (·.s) = (PS2.filter f2).map (·.s) := by rw [b3]; rfl
  have hok : ∀ i ∈ I1 ++ I2, i.Ok p1 p2 eps := by
    intro i hi
    rcases List.mem_append.mp hi with h | h
    · exact a2 i h
    · exact b2 i h
  have hpt : ∀ i ∈ I1 ++ I2, headPos i.vs ∈ (E1.map fun c => curveAt p1 c.1 c.2) ∧ lastPos i.vs ∈ (E1.map fun c => curveAt p1 c.1 c.2) := by
    intro i hi
    rcases List.mem_append.mp hi with h | h
    · obtain ⟨x, hx, hxi⟩ := forall2_mem_right a1 h
      exact item_points h1 (List.mem_filter.mp hx).1 hxi (a2 i h)
    · obtain ⟨x, hx, hxi⟩ := forall2_mem_right b1 h
      rw [hpts]
      exact item_points h2 (List.mem_filter.mp hx).1 hxi (b2 i h)
  have htr : ∀ i ∈ I1 ++ I2, ∀ e ∈ edges i.vs, segTrace e ⊆ trace p1 ∪ trace p2 := by
    intro i hi e hm
    rcases List.mem_append.mp hi with h | h
    · obtain ⟨x, hx, hxi⟩ := forall2_mem_right a1 h
      exact (item_trace he h1 (List.mem_filter.mp hx).1 hxi e hm).trans Set.subset_union_left
    · obtain ⟨x, hx, hxi⟩ := forall2_mem_right b1 h
      exact (item_trace he h2 (List.mem_filter.mp hx).1 hxi e hm).trans Set.subset_union_right
  have hl1 : ∀ x ∈ PS1.filter f1, x ∈ PS1 := fun x hx => (List.mem_filter.mp hx).1
  have hl2 : ∀ x ∈ PS2.filter f2, x ∈ PS2 := fun x hx => (List.mem_filter.mp hx).1
  obtain ⟨rs, hrs, hloops, hperm⟩ := stitch_items henv he (sel := sel) (I1 ++ I2) hok
    (by
      intro x hx y hy hn
      obtain ⟨c, hc, e1⟩ := List.mem_map.mp (hpt x hx).2
      obtain ⟨c', hc', e2⟩ := List.mem_map.mp (hpt y hy).1
      by_cases hcc : c = c'
      · rw [← e1, ← e2, hcc]
      · exfalso
        rw [← e1, ← e2] at hn
        exact near_not_far hn (hfar c hc c' hc' hcc))
    (by
      have := balanced_of_pnet (l := (I1 ++ I2).map (·.vs)) (fun X => by
        rw [List.map_append, pnet_append, items_net h1 hl1 a1 a2 X, items_net h2 hl2 b1 b2 X]
        have := hbal X
        simpa [sgn] using this)
      rw [List.map_map, List.map_map] at this
      exact this)
    (by
      rw [List.length_append, ← a1.length_eq, ← b1.length_eq]; exact hsel)
  refine ⟨rs, ?_, ?_, ?_⟩
  · rw [List.map_append, a3, b3'] at hrs
    exact hrs
  · intro r hr
    refine ⟨(hloops r hr).1, ?_⟩
    rintro z ⟨s, hs, hz⟩
    have hm : strip s ∈ (I1 ++ I2).flatMap fun x => edges x.vs := by
      rw [← hperm.mem_iff, List.mem_flatMap]
      exact ⟨r, hr, List.mem_map.mpr ⟨s, hs, rfl⟩⟩
    rw [List.mem_flatMap] at hm
    obtain ⟨i, hi, he'⟩ := hm
    exact htr i hi _ he' hz
  · intro z hz1 hz2
    have e1 : (rs.map fun r => wn r.pline z).sum = ((rs.flatMap fun r => r.pline.segs.map strip).map (segW z)).sum := by
      rw [sum_flatMap']
      congr 1
      apply List.map_congr_left
      intro r hr
      rw [wn_segs (hloops r hr).1, List.map_map]
      rfl
    rw [e1, (hperm.map (segW z)).sum_eq, sum_flatMap']
    have e2 : ((I1 ++ I2).map fun x => ((edges x.vs).map (segW z)).sum).sum = pwind z ((I1 ++ I2).map (·.vs)) := by
      unfold pwind
      rw [List.map_map]
      rfl
    rw [e2, List.map_append, pwind_append, items_wind he h1 hl1 a1 hz1, items_wind he h2 hl2 b1 hz2]
    simp [sgn]

end

end Cavc
