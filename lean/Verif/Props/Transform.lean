import Verif.Props.Area

/-! # C06: translation and uniform scaling -/

set_option linter.unusedSectionVars false

namespace Cavc
open Scalar RealScalar Pline

section
variable {T : Type} [Scalar T]

theorem mapLoop_spec (f : Vertex T → Vertex T) (p : Pline T) : ∀ m, m ≤ p.verts.length →
    (List.range m).foldlM (fun (q : Pline T) i => do
      let v ← q.at i
      q.setVertex i (f v)) p = .ok ⟨(p.verts.take m).map f ++ p.verts.drop m, p.closed⟩ := by
  intro m
  induction m with
  | zero => intro _; simp; rfl
  | succ m ih =>
    intro hm
    rw [List.range_succ, List.foldlM_append, ih (by omega)]
    simp only [bind, Except.bind, List.foldlM_cons, List.foldlM_nil]
    have hget : ((p.verts.take m).map f ++ p.verts.drop m)[m]? = some p.verts[m] := by
      rw [List.getElem?_append_right (by simp)]
      simp [Nat.min_eq_left (show m ≤ p.verts.length by omega)]
    rw [at_ok (p := ⟨(p.verts.take m).map f ++ p.verts.drop m, p.closed⟩) hget]
    simp only
    rw [setVertex_lt (by simp; omega)]
    simp only [pure, Except.pure, Except.ok.injEq, Pline.mk.injEq, and_true]
    rw [List.set_append_right _ _ (by simp)]
    have hd : p.verts.drop m = p.verts[m] :: p.verts.drop (m + 1) :=
      List.drop_eq_getElem_cons (by omega)
    have hl : (List.map f (List.take m p.verts)).length = m := by
      simp [Nat.min_eq_left (show m ≤ p.verts.length by omega)]
    rw [hl, Nat.sub_self, hd, List.take_succ_eq_append_getElem (by omega), List.map_append,
      List.append_assoc]
    rfl

/-- **C06** `translate_mut` never panics and moves every vertex, keeping bulges, order, count and the
closed flag (any scalar). -/
theorem C06_translate_vertexes (p : Pline T) (x y : T) :
    p.translateMut x y = .ok ⟨p.verts.map fun v => ⟨v.x + x, v.y + y, v.bulge⟩, p.closed⟩ := by
  unfold translateMut vertexCount
  rw [mapLoop_spec (fun v => ⟨v.x + x, v.y + y, v.bulge⟩) p _ le_rfl]
  simp

/-- **C06** `scale_mut` never panics and scales every position, keeping bulges, order, count and the
closed flag (any scalar). -/
theorem C06_scale_vertexes (p : Pline T) (s : T) :
    p.scaleMut s = .ok ⟨p.verts.map fun v => ⟨s * v.x, s * v.y, v.bulge⟩, p.closed⟩ := by
  unfold scaleMut vertexCount
  rw [mapLoop_spec (fun v => ⟨s * v.x, s * v.y, v.bulge⟩) p _ le_rfl]
  simp

theorem pathSegs_map {α β : Type} (f : α → β) : ∀ l : List α,
    pathSegs (l.map f) = (pathSegs l).map (fun s => (f s.1, f s.2))
  | [] => rfl
  | [_] => rfl
  | a :: b :: r => by
    have := pathSegs_map f (b :: r)
    simp only [List.map_cons, pathSegs] at this ⊢
    rw [this]

theorem segs_map (f : Vertex T → Vertex T) (p : Pline T) :
    (⟨p.verts.map f, p.closed⟩ : Pline T).segs = p.segs.map (fun s => (f s.1, f s.2)) := by
  rw [segs_eq, segs_eq, ← pathSegs_map]
  unfold loopVerts
  simp only [List.length_map]
  split_ifs <;> simp [List.map_take]

end

/-! ## Translation -/

/-- moved vertex -/
noncomputable def moveV (x y : ℝ) (v : Vertex ℝ) : Vertex ℝ := ⟨v.x + x, v.y + y, v.bulge⟩
/-- scaled vertex -/
noncomputable def scaleV (s : ℝ) (v : Vertex ℝ) : Vertex ℝ := ⟨s * v.x, s * v.y, v.bulge⟩

theorem bulgeIsZero_moveV (x y : ℝ) (v : Vertex ℝ) : (moveV x y v).bulgeIsZero = v.bulgeIsZero := rfl

theorem edist_move (x y : ℝ) (p q : V2 ℝ) :
    edist ⟨p.x + x, p.y + y⟩ ⟨q.x + x, q.y + y⟩ = edist p q := by
  unfold edist; congr 1; ring

theorem areaTerm_move (x y : ℝ) (s : Vertex ℝ × Vertex ℝ) :
    areaTerm (moveV x y s.1, moveV x y s.2)
      = areaTerm s + (y * (s.1.x - s.2.x) + x * (s.2.y - s.1.y)) := by
  have h : doubleArcArea (moveV x y s.1) (moveV x y s.2) = doubleArcArea s.1 s.2 := by
    unfold doubleArcArea
    have : ((moveV x y s.2).pos - (moveV x y s.1).pos).length = (s.2.pos - s.1.pos).length := by
      rw [V2.length_eq, V2.length_eq]; congr 1; simp [moveV, Vertex.pos]
    rw [this]; rfl
  unfold areaTerm
  simp only [h, bulgeIsZero_moveV]
  simp only [moveV]
  ring

theorem sum_pathSegs_telescope (f : Vertex ℝ → ℝ) : ∀ (a : Vertex ℝ) (l : List (Vertex ℝ)),
    ((pathSegs (a :: l)).map fun s => f s.2 - f s.1).sum = f ((a :: l).getLast (by simp)) - f a
  | a, [] => by simp [pathSegs]
  | a, b :: l => by
    have := sum_pathSegs_telescope f b l
    have hl : (a :: b :: l).getLast (by simp) = (b :: l).getLast (by simp) :=
      List.getLast_cons (by simp)
    simp only [pathSegs, List.map_cons, List.sum_cons, this, hl]
    ring

theorem sum_segs_telescope (f : Vertex ℝ → ℝ) (p : Pline ℝ) (hc : p.closed = true) :
    (p.segs.map fun s => f s.2 - f s.1).sum = 0 := by
  rw [segs_eq]
  unfold loopVerts
  by_cases h2 : p.verts.length < 2
  · simp [h2, pathSegs]
  · rw [if_neg h2, if_pos hc]
    rcases hv : p.verts with _ | ⟨a, l⟩
    · simp [hv] at h2
    · simp only [List.take_succ_cons, List.take_zero, List.cons_append]
      rw [sum_pathSegs_telescope]
      simp

/-- **C06** translation keeps the area and the path length of every polyline. -/
theorem C06_translate (p : Pline ℝ) (x y : ℝ) :
    ∃ q, p.translateMut x y = .ok q ∧ q.area = p.area ∧ q.pathLength = p.pathLength ∧
      q.orientation = p.orientation := by
  have he := C06_translate_vertexes p x y
  refine ⟨_, he, ?_⟩
  have hsegs := segs_map (moveV x y) p
  have hdef : (⟨p.verts.map fun v => ⟨v.x + x, v.y + y, v.bulge⟩, p.closed⟩ : Pline ℝ)
    = ⟨p.verts.map (moveV x y), p.closed⟩ := rfl
  have hdef' : ∀ {q : Pline ℝ}, q = ⟨p.verts.map (moveV x y), p.closed⟩ →
      q.area = p.area ∧ q.pathLength = p.pathLength ∧ q.orientation = p.orientation := by
    rintro q rfl
    have harea : (⟨p.verts.map (moveV x y), p.closed⟩ : Pline ℝ).area = p.area := by
      rw [area_eq, area_eq, hsegs]
      by_cases hc : p.closed = true
      · simp only [hc, if_true]
        congr 1
        rw [List.map_map]
        have : ((fun s => areaTerm s) ∘ fun s => (moveV x y s.1, moveV x y s.2))
            = fun s => areaTerm s + (y * (s.1.x - s.2.x) + x * (s.2.y - s.1.y)) :=
          funext fun s => areaTerm_move x y s
        have hsum : (p.segs.map fun s : Vertex ℝ × Vertex ℝ =>
            (y * (s.1.x - s.2.x) + x * (s.2.y - s.1.y))).sum = 0 := by
          have h1 := sum_segs_telescope (fun v => x * v.y - y * v.x) p hc
          rw [← h1]
          congr 1
          apply List.map_congr_left
          intro s _; ring
        show (List.map ((fun s => areaTerm s) ∘ fun s => (moveV x y s.1, moveV x y s.2)) p.segs).sum = _
        rw [this, List.sum_map_add, hsum, add_zero]
      · simp [hc]
    refine ⟨harea, ?_, ?_⟩
    · rw [pathLength_eq_sum, pathLength_eq_sum, hsegs, List.map_map]
      congr 1
      apply List.map_congr_left
      intro s _
      show segLength (moveV x y s.1) (moveV x y s.2) = segLength s.1 s.2
      have hf : (moveV x y s.1).fuzzyEq (moveV x y s.2) = s.1.fuzzyEq s.2 := by
        rw [Bool.eq_iff_iff, vertex_fuzzyEq_iff, vertex_fuzzyEq_iff]
        simp [moveV]
      have hrc : segArcRadiusAndCenter (moveV x y s.1) (moveV x y s.2)
          = ((segArcRadiusAndCenter s.1 s.2).1,
            ⟨(segArcRadiusAndCenter s.1 s.2).2.x + x, (segArcRadiusAndCenter s.1 s.2).2.y + y⟩) := by
        unfold segArcRadiusAndCenter
        have hch : (moveV x y s.2).pos - (moveV x y s.1).pos = s.2.pos - s.1.pos := by
          rw [V2.ext_iff']; simp [moveV, Vertex.pos]
        have hb : (moveV x y s.1).bulge = s.1.bulge := rfl
        have hn : (moveV x y s.1).bulgeIsNeg = s.1.bulgeIsNeg := rfl
        have hx : (moveV x y s.1).x = s.1.x + x := rfl
        have hy : (moveV x y s.1).y = s.1.y + y := rfl
        simp only [hch, hb, hn, hx, hy, Prod.mk.injEq, V2.mk.injEq, true_and]
        constructor <;> ring
      have hang : ∀ c v : V2 ℝ, angle ⟨c.x + x, c.y + y⟩ ⟨v.x + x, v.y + y⟩ = angle c v := by
        intro c v
        rw [angle_eq, angle_eq]
        congr 2 <;> ring
      have hd : distSquared (moveV x y s.1).pos (moveV x y s.2).pos
          = distSquared s.1.pos s.2.pos := by
        rw [distSquared_eq, distSquared_eq]; simp [moveV, Vertex.pos]
      unfold segLength
      rw [hf, bulgeIsZero_moveV, hrc, hd]
      have a1 : angle ⟨(segArcRadiusAndCenter s.1 s.2).2.x + x, (segArcRadiusAndCenter s.1 s.2).2.y + y⟩
          (moveV x y s.1).pos = angle (segArcRadiusAndCenter s.1 s.2).2 s.1.pos := hang _ s.1.pos
      have a2 : angle ⟨(segArcRadiusAndCenter s.1 s.2).2.x + x, (segArcRadiusAndCenter s.1 s.2).2.y + y⟩
          (moveV x y s.2).pos = angle (segArcRadiusAndCenter s.1 s.2).2 s.2.pos := hang _ s.2.pos
      simp only [a1, a2]
    · unfold orientation; rw [harea]
  exact hdef' hdef

/-! ## Scaling -/

theorem bulgeIsZero_scaleV (k : ℝ) (v : Vertex ℝ) : (scaleV k v).bulgeIsZero = v.bulgeIsZero := rfl

theorem edist_scale (k : ℝ) (p q : V2 ℝ) :
    edist ⟨k * p.x, k * p.y⟩ ⟨k * q.x, k * q.y⟩ = |k| * edist p q := by
  apply edist_eq_of_sq (mul_nonneg (abs_nonneg _) (edist_nonneg _ _))
  rw [mul_pow, sq_abs, edist_sq]; ring

theorem areaTerm_scale (k : ℝ) (s : Vertex ℝ × Vertex ℝ) :
    areaTerm (scaleV k s.1, scaleV k s.2) = k ^ 2 * areaTerm s := by
  unfold areaTerm
  simp only [bulgeIsZero_scaleV]
  by_cases h : s.1.bulgeIsZero = true
  · simp only [h, if_true]; simp only [scaleV]; ring
  · have hb : s.1.bulge ≠ 0 := bulge_ne_zero (fun h' => h (bulgeIsZero_true h'))
    have hb' : (scaleV k s.1).bulge = s.1.bulge := rfl
    simp only [h, Bool.false_eq_true, if_false]
    rw [doubleArcArea_eq _ _ (by rw [hb']; exact hb), doubleArcArea_eq _ _ hb, arcRadius_sq,
      arcRadius_sq]
    simp only [scaleV, Vertex.pos]
    field_simp

/-- **C06** scaling by `k` multiplies the area by `k²`. -/
theorem C06_scale_area (p : Pline ℝ) (k : ℝ) :
    ∃ q, p.scaleMut k = .ok q ∧ q.area = k ^ 2 * p.area := by
  refine ⟨_, C06_scale_vertexes p k, ?_⟩
  have hsegs := segs_map (scaleV k) p
  show (⟨p.verts.map (scaleV k), p.closed⟩ : Pline ℝ).area = _
  rw [area_eq, area_eq, hsegs]
  by_cases hc : p.closed = true
  · simp only [hc, if_true]
    rw [List.map_map]
    have : ∀ l : List (Vertex ℝ × Vertex ℝ),
        (l.map (areaTerm ∘ fun s => (scaleV k s.1, scaleV k s.2))).sum = k ^ 2 * (l.map areaTerm).sum := by
      intro l
      induction l with
      | nil => simp
      | cons a l ih =>
        simp only [List.map_cons, List.sum_cons, ih, Function.comp_apply, areaTerm_scale]; ring
    rw [this]; ring
  · simp [hc]

/-- **C06** scaling by `k` multiplies the path length by `|k|`, for polylines of lines and
proper arcs whose segments are longer than the default epsilon before and after scaling. -/
theorem C06_scale_length (p : Pline ℝ) (k : ℝ)
    (h : ∀ s ∈ p.segs, IsLine s.1 ∨ ProperArc s.1 s.2)
    (hne : ∀ s ∈ p.segs, ¬ s.1.pos.fuzzyEq s.2.pos = true)
    (hne' : ∀ s ∈ p.segs, ¬ (s.1.pos.scale k).fuzzyEq (s.2.pos.scale k) = true) :
    ∃ q, p.scaleMut k = .ok q ∧ q.pathLength = |k| * p.pathLength := by
  refine ⟨_, C06_scale_vertexes p k, ?_⟩
  have hsegs := segs_map (scaleV k) p
  show (⟨p.verts.map (scaleV k), p.closed⟩ : Pline ℝ).pathLength = _
  have hproper : ∀ s ∈ p.segs, IsLine (scaleV k s.1) ∨ ProperArc (scaleV k s.1) (scaleV k s.2) := by
    intro s hs
    rcases h s hs with h' | h'
    · exact Or.inl h'
    · refine Or.inr ⟨h'.notLine, h'.half, ?_⟩
      exact ne_of_not_fuzzyEq (hne' s hs)
  rw [C08_path_length _ (by
      rw [hsegs]; intro s hs
      obtain ⟨s', hs', rfl⟩ := List.mem_map.mp hs
      exact hproper s' hs')
    (by
      rw [hsegs]; intro s hs
      obtain ⟨s', hs', rfl⟩ := List.mem_map.mp hs
      exact hne' s' hs'),
    C08_path_length p h hne, hsegs, List.map_map]
  have hterm : ∀ s : Vertex ℝ × Vertex ℝ, curveLength (segCurve (scaleV k s.1) (scaleV k s.2))
      = |k| * curveLength (segCurve s.1 s.2) := by
    intro s
    by_cases hl : IsLine s.1
    · have hl' : IsLine (scaleV k s.1) := hl
      have e1 : segCurve s.1 s.2 = linePoint s.1.pos s.2.pos := funext (segCurve_line hl)
      have e2 : segCurve (scaleV k s.1) (scaleV k s.2) = linePoint (scaleV k s.1).pos (scaleV k s.2).pos :=
        funext (segCurve_line hl')
      rw [e1, e2, curveLength_line, curveLength_line]
      exact edist_scale k s.1.pos s.2.pos
    · have hl' : ¬ IsLine (scaleV k s.1) := hl
      have hb := bulge_ne_zero hl
      have e1 : segCurve s.1 s.2 = arcPoint s.1.pos s.2.pos s.1.bulge := funext (segCurve_arc hl)
      have e2 : segCurve (scaleV k s.1) (scaleV k s.2)
          = arcPoint (scaleV k s.1).pos (scaleV k s.2).pos s.1.bulge := funext (segCurve_arc hl')
      rw [e1, e2, curveLength_arc _ _ _ hb, curveLength_arc _ _ _ hb]
      have : arcRadius (scaleV k s.1).pos (scaleV k s.2).pos s.1.bulge
          = |k| * arcRadius s.1.pos s.2.pos s.1.bulge := by
        have := edist_scale k s.1.pos s.2.pos
        unfold arcRadius
        show edist ⟨k * s.1.pos.x, k * s.1.pos.y⟩ ⟨k * s.2.pos.x, k * s.2.pos.y⟩ * _ / _ = _
        rw [this]; ring
      rw [this]; ring
  generalize p.segs = l
  induction l with
  | nil => simp
  | cons a l ih =>
    simp only [List.map_cons, List.sum_cons, ih, Function.comp_apply, hterm]; ring

/-- Non-vacuity for `C06_scale_length`. -/
example : ∀ s ∈ (⟨[⟨0, 0, 1⟩, ⟨2, 0, 0⟩], true⟩ : Pline ℝ).segs,
    ¬ (s.1.pos.scale (-3)).fuzzyEq (s.2.pos.scale (-3)) = true := by
  intro s hs
  simp only [segs, pathSegs, List.nil_append, List.cons_append, if_true,
    List.mem_cons, List.not_mem_nil, or_false] at hs
  unfold V2.fuzzyEq
  rw [V2.fuzzyEqEps_iff]
  rcases hs with rfl | rfl <;> simp [Vertex.pos] <;> norm_num

end Cavc
