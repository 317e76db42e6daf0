import Verif.Lemmas.RegionPieces

/-! # The pieces of two polylines: balance and winding numbers -/

set_option linter.unusedVariables false

namespace Cavc
open Pline

theorem sum_flatMap' {α β : Type} (f : β → ℤ) (g : α → List β) (l : List α) :
    ((l.flatMap g).map f).sum = (l.map fun x => ((g x).map f).sum).sum := by
  induction l with
  | nil => simp
  | cons a l ih => simp [List.flatMap_cons, ih]

/-- the segments of the pieces with the winding number of the other polyline -/
noncomputable def weights (q : Pline ℝ) (PS : List CutPiece) : List (ℤ × (Vertex ℝ × Vertex ℝ)) :=
  PS.flatMap fun x => (pathSegs x.vs).map fun s => (wn q (x.m.x, x.m.y), s)

section
variable {p q : Pline ℝ} {eps : ℝ} {us : Bool} {E : List Cut} {PS : List CutPiece}

theorem weights_mem {e : ℤ × (Vertex ℝ × Vertex ℝ)} (h : e ∈ weights q PS) : ∃ x ∈ PS, e.2 ∈ pathSegs x.vs ∧ e.1 = wn q (x.m.x, x.m.y) := by
  unfold weights at h
  rw [List.mem_flatMap] at h
  obtain ⟨x, hx, h⟩ := h
  obtain ⟨s, hs, rfl⟩ := List.mem_map.mp h
  exact ⟨x, hx, hs, rfl⟩

theorem weighted (he : 0 < eps) (h : PieceList p q eps us E PS) : Weighted p q (weights q PS) := by
  refine ⟨?_, ?_, ?_, ?_⟩
  · intro e hm
    obtain ⟨x, hx, hs, -⟩ := weights_mem hm
    exact (h.full x hx _ hs).proper he
  · intro e hm
    obtain ⟨x, hx, hs, -⟩ := weights_mem hm
    exact h.sub x hx _ hs
  · intro e hm P hP hPq
    obtain ⟨x, hx, hs, e1⟩ := weights_mem hm
    rw [e1]
    exact h.const x hx _ hs P hP hPq
  · intro z hz
    rw [h.total z hz]
    unfold weights
    rw [sum_flatMap']
    simp only [List.map_map, Function.comp_def]

theorem weights_wsum (z : ℝ × ℝ) : wsum z (weights q PS) = (PS.map fun x => wn q (x.m.x, x.m.y) * ((edges x.vs).map (segW z)).sum).sum := by
  unfold wsum weights
  rw [sum_flatMap']
  congr 1
  apply List.map_congr_left
  intro x _
  rw [List.map_map, edges_wind, ← sum_scale]
  rfl

theorem weights_net (h : ∀ x ∈ PS, 2 ≤ x.vs.length) (X : V2 ℝ) :
    net X (weights q PS) = (PS.map fun x => wn q (x.m.x, x.m.y) * (ind X (lastPos x.vs) - ind X (headPos x.vs))).sum := by
  unfold net weights
  rw [sum_flatMap']
  congr 1
  apply List.map_congr_left
  intro x hx
  rw [List.map_map, ← path_net X x.vs (h x hx), ← sum_scale]
  rfl

theorem pieces_balanced (h : PieceList p q eps us E PS) : ((PS.map (·.vs)).map headPos).Perm ((PS.map (·.vs)).map lastPos) := by
  rw [List.map_map, List.map_map]
  have e1 : PS.map (headPos ∘ fun x => x.vs) = PS.map fun x => curveAt p x.a.1 x.a.2 := by
    apply List.map_congr_left
    intro x hx
    obtain ⟨v, w, h1, h2, h3, h4⟩ := h.ends x hx
    show headPos x.vs = _
    rw [headPos_eq h1, h3]
  have e2 : PS.map (lastPos ∘ fun x => x.vs) = PS.map fun x => curveAt p x.b.1 x.b.2 := by
    apply List.map_congr_left
    intro x hx
    obtain ⟨v, w, h1, h2, h3, h4⟩ := h.ends x hx
    show lastPos x.vs = _
    rw [lastPos_eq h2, h4]
  rw [e1, e2]
  exact h.starts.trans h.stops.symm

theorem weights_closed (h : PieceList p q eps us E PS) :
    ((weights q PS).map fun e => e.2.2.pos).Perm ((weights q PS).map fun e => e.2.1.pos) := by
  apply perm_of_ind
  intro X
  have key : ((weights q PS).map fun e => ind X e.2.2.pos - ind X e.2.1.pos).sum = 0 := by
    unfold weights
    rw [sum_flatMap']
    have := pnet_of_balanced (pieces_balanced h) X
    unfold pnet at this
    rw [List.map_map] at this
    rw [← this]
    congr 1
    apply List.map_congr_left
    intro x hx
    rw [List.map_map]
    exact path_net X x.vs (h.two x hx)
  rw [sum_sub (fun e : ℤ × (Vertex ℝ × Vertex ℝ) => ind X e.2.2.pos) (fun e => ind X e.2.1.pos)] at key
  rw [List.map_map, List.map_map]
  simp only [Function.comp_def]
  linarith

/-- the vertexes of the pieces inside (or outside) the other polyline -/
noncomputable def ins (q : Pline ℝ) (PS : List CutPiece) : List (List (Vertex ℝ)) := (PS.filter fun x => pointIn q x.m).map (·.vs)
noncomputable def outs (q : Pline ℝ) (PS : List CutPiece) : List (List (Vertex ℝ)) := (PS.filter fun x => !pointIn q x.m).map (·.vs)

theorem in_out_net (h : PieceList p q eps us E PS) (X : V2 ℝ) : pnet X (ins q PS) + pnet X (outs q PS) = 0 := by
  have := pnet_of_balanced (pieces_balanced h) X
  rw [← this]
  unfold pnet ins outs
  rw [List.map_map, List.map_map, List.map_map]
  exact sum_filter (fun x => pointIn q x.m) (fun x : CutPiece => ind X (lastPos x.vs) - ind X (headPos x.vs)) PS

theorem in_out_wind (h : PieceList p q eps us E PS) {z : ℝ × ℝ} (hz : z ∉ trace p) : pwind z (ins q PS) + pwind z (outs q PS) = wn p z := by
  rw [h.total z hz]
  unfold pwind ins outs
  rw [List.map_map, List.map_map]
  simp only [Function.comp_def]
  rw [sum_filter (fun x => pointIn q x.m) (fun x : CutPiece => ((edges x.vs).map (segW z)).sum) PS]
  congr 1
  apply List.map_congr_left
  intro x _
  exact edges_wind z x.vs

/-- the weights are 0 or `σ` -/
theorem weight_cases (h : PieceList p q eps us E PS) {σ : ℤ} (hσ : σ ≠ 0) (hq : ∀ z, z ∉ trace q → wn q z = 0 ∨ wn q z = σ) :
    ∀ x ∈ PS, wn q (x.m.x, x.m.y) = if pointIn q x.m then σ else 0 := by
  intro x hx
  have e : pointIn q x.m = (wn q (x.m.x, x.m.y) != 0) := rfl
  rw [e]
  rcases hq _ (h.off x hx) with h0 | h0
  · rw [h0]; simp
  · rw [h0]; simp [hσ]

end

section
variable {p1 p2 : Pline ℝ} {eps : ℝ} {E1 E2 : List Cut} {PS1 PS2 : List CutPiece} {σ1 σ2 : ℤ}

theorem cross_net (he : 0 < eps) (l1 : Loop p1) (l2 : Loop p2) (h1 : PieceList p1 p2 eps false E1 PS1) (h2 : PieceList p2 p1 eps true E2 PS2)
    (hcom : (trace p1 ∩ trace p2).Finite) (s1 : σ1 ≠ 0) (s2 : σ2 ≠ 0) (w1 : ∀ z, z ∉ trace p1 → wn p1 z = 0 ∨ wn p1 z = σ1)
    (w2 : ∀ z, z ∉ trace p2 → wn p2 z = 0 ∨ wn p2 z = σ2) (X : V2 ℝ) :
    σ2 * pnet X (ins p2 PS1) + σ1 * pnet X (ins p1 PS2) = 0 := by
  have := balance l1 l2 (weighted he h1) (weighted he h2) hcom (weights_closed h1) (weights_closed h2) X
  rw [weights_net h1.two, weights_net h2.two, sum_weights _ _ _ σ2 PS1 (weight_cases h1 s2 w2), sum_weights _ _ _ σ1 PS2 (weight_cases h2 s1 w1)] at this
  unfold pnet ins
  rw [List.map_map, List.map_map]
  exact this

theorem cross_wind (he : 0 < eps) (l1 : Loop p1) (l2 : Loop p2) (h1 : PieceList p1 p2 eps false E1 PS1) (h2 : PieceList p2 p1 eps true E2 PS2)
    (s1 : σ1 ≠ 0) (s2 : σ2 ≠ 0) (w1 : ∀ z, z ∉ trace p1 → wn p1 z = 0 ∨ wn p1 z = σ1)
    (w2 : ∀ z, z ∉ trace p2 → wn p2 z = 0 ∨ wn p2 z = σ2) {z : ℝ × ℝ} (hg : GoodHeight p1 p2 z.2) (hz1 : z ∉ trace p1) (hz2 : z ∉ trace p2) :
    σ2 * pwind z (ins p2 PS1) + σ1 * pwind z (ins p1 PS2) = wn p1 z * wn p2 z := by
  have := product_rule l1 l2 (weighted he h1) (weighted he h2) z.2 hg.1 hg.2 z.1 hz1 hz2
  rw [weights_wsum, weights_wsum, sum_weights _ _ _ σ2 PS1 (weight_cases h1 s2 w2), sum_weights _ _ _ σ1 PS2 (weight_cases h2 s1 w1)] at this
  unfold pwind ins
  rw [List.map_map, List.map_map]
  exact this

end

/-! ### the slices that are kept -/

/-- the item of a piece, with its direction kept or inverted -/
def ItemOf (inv : Bool) (x : CutPiece) (i : Item) : Prop :=
  i.s = (if inv then x.s.setInverted else x.s) ∧ if inv then edges i.vs = ((edges x.vs).map flipE).reverse else i.vs = x.vs

theorem item_exists {p1 p2 p q : Pline ℝ} {eps : ℝ} (he : 0 < eps) {us : Bool} {E : List Cut} {PS : List CutPiece} (hp : p = if us then p2 else p1)
    (h : PieceList p q eps us E PS) (inv : Bool) {x : CutPiece} (hx : x ∈ PS) : ∃ i, ItemOf inv x i ∧ i.Ok p1 p2 eps := by
  have hok := h.ok x hx
  have htwo := h.two x hx
  have hfull : ∀ e ∈ edges x.vs, FullSeg e.1 e.2 eps := edges_full.mpr (h.full x hx)
  obtain ⟨v, w, hv, hw, hvp, hwp⟩ := h.ends x hx
  have hsrc : ∀ s : BoolSlice ℝ, s.sourceIsPline1 = (!us) → s.toPline p1 p2 = s.viewData.toPline p := by
    intro s hs
    unfold BoolSlice.toPline
    rw [hs, hp]
    cases us <;> rfl
  cases inv with
  | false =>
    refine ⟨⟨x.s, x.vs⟩, ⟨rfl, rfl⟩, ?_, ?_, htwo, hfull⟩
    · show x.s.toPline p1 p2 = _
      rw [hsrc _ hok.piece.source]; exact hok.reads
    · show x.s.startPoint = headPos x.vs
      unfold BoolSlice.startPoint
      rw [hok.piece.forward]
      simp only [Bool.false_eq_true, if_false]
      rw [hok.piece.start, headPos_eq hv, hvp]
  | true =>
    obtain ⟨Q, Q', hQ, hQ', hc', hpath⟩ := C23_inverted x.s.viewData p hok.piece.range hok.piece.forward hok.piece.single
    have hQe : Q = ⟨x.vs, false⟩ := by
      have := hQ.symm.trans hok.reads
      simpa using this
    subst hQe
    obtain ⟨vs', c'⟩ := Q'
    have hc'' : c' = false := hc'
    subst hc''
    have hlen : 2 ≤ vs'.length := by
      have := congrArg List.length hpath
      unfold reversePath Pline.path at this
      simp only [List.length_map, List.length_reverse] at this
      match x.vs, htwo, this with
      | a :: b :: l, _, this =>
        match vs', this with
        | [], this => simp [Pline.segs, pathSegs] at this
        | [_], this => simp [Pline.segs, pathSegs] at this
        | _ :: _ :: _, _ => simp
    have hed := edges_reverse htwo hlen hpath
    refine ⟨⟨x.s.setInverted, vs'⟩, ⟨rfl, hed⟩, ?_, ?_, hlen, ?_⟩
    · show x.s.setInverted.toPline p1 p2 = _
      rw [hsrc x.s.setInverted hok.piece.source]; exact hQ'
    · show x.s.setInverted.startPoint = headPos vs'
      rw [(reverse_ends htwo hlen hed).1, lastPos_eq hw, hwp]
      exact hok.piece.stop
    · intro e hm
      have hm : e ∈ edges vs' := hm
      rw [hed, List.mem_reverse] at hm
      obtain ⟨e', hm', rfl⟩ := List.mem_map.mp hm
      exact flip_full (hfull e' hm')

theorem items_exist {p1 p2 p q : Pline ℝ} {eps : ℝ} (he : 0 < eps) {us : Bool} {E : List Cut} {PS : List CutPiece} (hp : p = if us then p2 else p1)
    (h : PieceList p q eps us E PS) (inv : Bool) : ∀ (l : List CutPiece), (∀ x ∈ l, x ∈ PS) →
    ∃ items, List.Forall₂ (ItemOf inv) l items ∧ (∀ i ∈ items, i.Ok p1 p2 eps) ∧
      items.map (·.s) = l.map (fun x => if inv then x.s.setInverted else x.s)
  | [], _ => ⟨[], List.Forall₂.nil, by simp, rfl⟩
  | x :: l, hl => by
    obtain ⟨items, h1, h2, h3⟩ := items_exist he hp h inv l (fun y hy => hl y (by simp [hy]))
    obtain ⟨i, h4, h5⟩ := item_exists he hp h inv (hl x (by simp))
    refine ⟨i :: items, List.Forall₂.cons h4 h1, ?_, by rw [List.map_cons, List.map_cons, h3, h4.1]⟩
    intro j hj
    rcases List.mem_cons.mp hj with rfl | hj
    · exact h5
    · exact h2 j hj

end Cavc
