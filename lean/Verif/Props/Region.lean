import Verif.Lemmas.WindingPath
import Verif.Props.Boolean
import Verif.Props.FindIntrReal
import Verif.Props.Boxes
import Verif.Props.Rotate
import Verif.Props.Invert
import Verif.Props.ApproxLines

/-! # C54: the winding number and connected sets, reversal and movement; C39: regions -/

set_option linter.unusedSectionVars false

namespace Cavc
open Real Pline

/-! ## C54 -/

/-- **C54** The winding number is the same for all points of a connected set that the polyline does not
meet: it can only change by crossing the polyline. -/
theorem C54_connected (p : Pline ℝ) (h : Loop p) (S : Set (ℝ × ℝ)) (hS : IsPreconnected S)
    (hoff : ∀ z ∈ S, ¬ OnPline p ⟨z.1, z.2⟩) (z w : ℝ × ℝ) (hz : z ∈ S) (hw : w ∈ S) :
    p.windingNumber ⟨z.1, z.2⟩ = p.windingNumber ⟨w.1, w.2⟩ :=
  wn_const h hS (Set.disjoint_left.mpr hoff) hz hw

/-- **C54** The winding number is 0 for a point that a line separates from the polyline. -/
theorem C54_separated (p : Pline ℝ) (h : Loop p) (pt dir : V2 ℝ)
    (hs : ∀ q, OnPline p q → 0 < (q.x - pt.x) * dir.x + (q.y - pt.y) * dir.y) : p.windingNumber pt = 0 := by
  obtain ⟨z, hz⟩ := trace_nonempty h
  have hne : dir.x ≠ 0 ∨ dir.y ≠ 0 := by
    by_contra hcon
    push Not at hcon
    have := hs _ hz
    rw [hcon.1, hcon.2] at this
    simp at this
  obtain ⟨a, ⟨ρ, hρ, ex, ey⟩, -, -⟩ := dir_exists hne
  refine wn_halfplane h (z := (pt.x, pt.y)) a ?_
  intro y hy
  have := hs _ hy
  rw [ex, ey] at this
  simp only at this ⊢
  have e : (y.1 - pt.x) * (ρ * cos a) + (y.2 - pt.y) * (ρ * sin a) = ρ * ((y.1 - pt.x) * cos a + (y.2 - pt.y) * sin a) := by ring
  rw [e] at this
  exact pos_of_mul_pos_right this hρ.le

/-- **C54** The winding number is 0 for every point outside the extents of the polyline. -/
theorem C54_outside_extents (p : Pline ℝ) (h : Loop p) (hb : ∀ s ∈ p.segs, IsLine s.1 ∨ s.1.pos.fuzzyEq s.2.pos = false)
    (B : AABB ℝ) (hB : p.extents = .ok (some B)) (pt : V2 ℝ) (hpt : ¬ B.Contains pt) : p.windingNumber pt = 0 := by
  obtain ⟨r, hr, -, hr'⟩ := C17_extents p (fun s hs => by
    rcases h.proper s hs with hl | ha
    · exact Or.inl hl
    · rcases hb s hs with hl | hf
      · exact Or.inl hl
      · exact Or.inr ⟨ha, hf⟩)
  rw [hB] at hr
  cases hr
  have hin := (hr' B rfl).1
  by_cases c1 : B.minX ≤ pt.x
  · by_cases c2 : pt.x ≤ B.maxX
    · by_cases c3 : B.minY ≤ pt.y
      · by_cases c4 : pt.y ≤ B.maxY
        · exact absurd ⟨c1, c2, c3, c4⟩ hpt
        · refine C54_separated p h pt ⟨0, -1⟩ fun q hq => ?_
          obtain ⟨a1, a2, a3, a4⟩ := hin q hq
          simp only; linarith
      · refine C54_separated p h pt ⟨0, 1⟩ fun q hq => ?_
        obtain ⟨a1, a2, a3, a4⟩ := hin q hq
        simp only; linarith
    · refine C54_separated p h pt ⟨-1, 0⟩ fun q hq => ?_
      obtain ⟨a1, a2, a3, a4⟩ := hin q hq
      simp only; linarith
  · refine C54_separated p h pt ⟨1, 0⟩ fun q hq => ?_
    obtain ⟨a1, a2, a3, a4⟩ := hin q hq
    simp only; linarith

/-- **C54** Inverting the direction changes the sign of the winding number. -/
theorem C54_invert (p : Pline ℝ) (h : Loop p) (pt : V2 ℝ) (hoff : ¬ OnPline p pt) :
    ∃ q, p.invertDirectionMut = .ok q ∧ q.windingNumber pt = -p.windingNumber pt := by
  obtain ⟨q, hq, hc, hl, hp⟩ := C03_invert_path p
  refine ⟨q, hq, ?_⟩
  rw [windingNumber_sum q (by rw [hc]; exact h.closed) (by rw [hl]; exact h.two),
    windingNumber_sum p h.closed h.two, hp, if_pos h.closed,
    ((List.rotate_perm (reversePath p.path) 1).map _).sum_eq]
  unfold reversePath
  rw [List.map_reverse, List.sum_reverse, List.map_map]
  have : ∀ x ∈ p.path, (pieceWinding pt ∘ Piece.flip) x = -pieceWinding pt x := by
    intro x hx
    obtain ⟨s, hs, rfl⟩ := List.mem_map.mp hx
    exact segWinding_flip (h.proper s hs) (fun ho => hoff ⟨s, hs, ho⟩) 0
  rw [List.map_congr_left this]
  generalize p.path = l
  induction l with
  | nil => simp
  | cons a l ih => simp [ih]; ring

theorem windingNumber_similar {p q : Pline ℝ} (hp : Loop p) (hq : Loop q) (hn : q.segmentCount = p.segmentCount) {a b : V2 ℝ}
    (ha : ¬ OnPline p a) (hb : ¬ OnPline q b) (k : ℝ) (hk : k ≠ 0)
    (hx : ∀ t, (plineCurve q t).x - b.x = k * ((plineCurve p t).x - a.x))
    (hy : ∀ t, (plineCurve q t).y - b.y = k * ((plineCurve p t).y - a.y)) : q.windingNumber b = p.windingNumber a := by
  obtain ⟨⟨θ, hθ⟩, hall⟩ := C14_winding_number p hp.closed hp.two hp.proper a ha
  have e1 := hall θ hθ
  have h2 := (C14_winding_number q hq.closed hq.two hq.proper b hb).2
  have key : ∃ c, FollowsAngle (plineCurve q) b 0 q.segmentCount (fun t => θ t + c) := by
    rw [hn]
    rcases lt_or_gt_of_ne hk with hk | hk
    · refine ⟨π, hθ.1.add continuousOn_const, ?_⟩
      intro t ht
      obtain ⟨ρ, hρ, ex, ey⟩ := hθ.2 t ht
      refine ⟨-k * ρ, mul_pos (by linarith) hρ, ?_, ?_⟩
      · rw [hx, ex, cos_add_pi]; ring
      · rw [hy, ey, sin_add_pi]; ring
    · refine ⟨0, hθ.1.add continuousOn_const, ?_⟩
      intro t ht
      obtain ⟨ρ, hρ, ex, ey⟩ := hθ.2 t ht
      refine ⟨k * ρ, mul_pos hk hρ, ?_, ?_⟩
      · rw [hx, ex]; simp only [add_zero]; ring
      · rw [hy, ey]; simp only [add_zero]; ring
  obtain ⟨c, hc⟩ := key
  have e2 := h2 _ hc
  rw [hn] at e2
  apply two_pi_cancel
  linarith

/-- the curve of a polyline whose vertexes are mapped by a similarity that keeps bulges -/
theorem plineCurve_map (p : Pline ℝ) (h2 : p.verts ≠ []) (k x y : ℝ) :
    let f : Vertex ℝ → Vertex ℝ := fun v => ⟨k * v.x + x, k * v.y + y, v.bulge⟩
    ∀ t, plineCurve ⟨p.verts.map f, p.closed⟩ t = ⟨k * (plineCurve p t).x + x, k * (plineCurve p t).y + y⟩ := by
  intro f t
  have hseg : ∀ (v1 v2 : Vertex ℝ) (t : ℝ), segCurve (f v1) (f v2) t = ⟨k * (segCurve v1 v2 t).x + x, k * (segCurve v1 v2 t).y + y⟩ := by
    intro v1 v2 t
    by_cases hl : IsLine v1
    · have hl' : IsLine (f v1) := hl
      rw [segCurve_line hl', segCurve_line hl, V2.ext_iff']
      simp only [linePoint, Vertex.pos, f]
      constructor <;> ring
    · have hl' : ¬ IsLine (f v1) := hl
      rw [segCurve_arc hl', segCurve_arc hl, V2.ext_iff']
      simp only [arcPoint, arcCenter, rotV, Vertex.pos, f]
      constructor <;> ring
  unfold plineCurve
  rw [segs_map f p, List.getElem?_map]
  cases p.segs[⌊t⌋₊]? with
  | some s => simp only [Option.map_some]; exact hseg _ _ _
  | none =>
    cases hv : p.verts with
    | nil => exact absurd hv h2
    | cons v l => simp [Vertex.pos, f]

theorem Loop.map {p : Pline ℝ} (h : Loop p) (k x y : ℝ) (hk : k ≠ 0) :
    Loop ⟨p.verts.map fun v => ⟨k * v.x + x, k * v.y + y, v.bulge⟩, p.closed⟩ := by
  refine ⟨h.closed, by simpa using h.two, ?_⟩
  intro s hs
  rw [segs_map] at hs
  obtain ⟨s', hs', rfl⟩ := List.mem_map.mp hs
  rcases h.segs s' hs' with hl | ⟨h1, h2, h3⟩
  · exact Or.inl hl
  · refine Or.inr ⟨h1, h2, ?_⟩
    intro e
    apply h3
    rw [V2.ext_iff'] at e ⊢
    simp only [Vertex.pos] at e ⊢
    exact ⟨mul_left_cancel₀ hk (by linarith [e.1]), mul_left_cancel₀ hk (by linarith [e.2])⟩

theorem windingNumber_map (p : Pline ℝ) (h : Loop p) (k x y : ℝ) (hk : k ≠ 0) (pt : V2 ℝ) (hoff : ¬ OnPline p pt) :
    (⟨p.verts.map fun v => ⟨k * v.x + x, k * v.y + y, v.bulge⟩, p.closed⟩ : Pline ℝ).windingNumber ⟨k * pt.x + x, k * pt.y + y⟩
      = p.windingNumber pt := by
  have hne : p.verts ≠ [] := by
    intro e
    have := h.two
    rw [e] at this
    simp at this
  have hq := h.map k x y hk
  have hm := plineCurve_map p hne k x y
  have hn : (⟨p.verts.map fun v => ⟨k * v.x + x, k * v.y + y, v.bulge⟩, p.closed⟩ : Pline ℝ).segmentCount = p.segmentCount := by
    simp [segmentCount, vertexCount]
  refine windingNumber_similar h hq hn hoff ?_ k hk ?_ ?_
  · intro ho
    have ho' : ((k * pt.x + x, k * pt.y + y) : ℝ × ℝ) ∈ trace ⟨p.verts.map fun v => ⟨k * v.x + x, k * v.y + y, v.bulge⟩, p.closed⟩ := ho
    rw [trace_eq hq] at ho'
    obtain ⟨t, ht, e⟩ := ho'
    rw [hn] at ht
    have hin : ((pt.x, pt.y) : ℝ × ℝ) ∈ trace p := by
      rw [trace_eq h]
      refine ⟨t, ht, ?_⟩
      unfold planeCurve at e ⊢
      rw [hm t] at e
      simp only [Prod.mk.injEq] at e ⊢
      exact ⟨mul_left_cancel₀ hk (by linarith [e.1]), mul_left_cancel₀ hk (by linarith [e.2])⟩
    exact hoff hin
  · intro t; rw [hm t]; ring
  · intro t; rw [hm t]; ring

/-- **C54** Translation moves the winding numbers along. -/
theorem C54_translate (p : Pline ℝ) (h : Loop p) (x y : ℝ) (pt : V2 ℝ) (hoff : ¬ OnPline p pt) :
    ∃ q, p.translateMut x y = .ok q ∧ q.windingNumber ⟨pt.x + x, pt.y + y⟩ = p.windingNumber pt := by
  refine ⟨_, C06_translate_vertexes p x y, ?_⟩
  have := windingNumber_map p h 1 x y one_ne_zero pt hoff
  simpa only [one_mul] using this

/-- **C54** Scaling about the origin, also by a negative factor, moves the winding numbers along. -/
theorem C54_scale (p : Pline ℝ) (h : Loop p) (k : ℝ) (hk : k ≠ 0) (pt : V2 ℝ) (hoff : ¬ OnPline p pt) :
    ∃ q, p.scaleMut k = .ok q ∧ q.windingNumber ⟨k * pt.x, k * pt.y⟩ = p.windingNumber pt := by
  refine ⟨_, C06_scale_vertexes p k, ?_⟩
  have := windingNumber_map p h k 0 0 hk pt hoff
  simpa only [add_zero] using this

/-- **C54** Rotating the start to a vertex keeps the winding number of every point. -/
theorem C54_rotate_vertex (p : Pline ℝ) (h : Loop p) (i : Nat) (v w : Vertex ℝ) (hv : p.verts[i]? = some v)
    (hw : cycAt p (i + 1) = some w) (pt : V2 ℝ) (eps : ℝ) (hnear : v.pos.fuzzyEqEps pt eps = true ∨ pt.fuzzyEqEps w.pos eps = true) :
    ∃ q, p.rotateStart i pt eps = .ok (some q) ∧ ∀ z, q.windingNumber z = p.windingNumber z := by
  have key : ∀ (q : Pline ℝ) (j : Nat), q.closed = true → q.path = p.path.rotate j → ∀ z, q.windingNumber z = p.windingNumber z := by
    intro q j hc hp z
    have hlen : q.segs.length = p.segs.length := by
      have := congrArg List.length hp
      simpa [Pline.path] using this
    have h2 : 2 ≤ q.verts.length := by
      rw [segs_length, segs_length, h.segmentCount] at hlen
      have := h.two
      unfold segmentCount vertexCount at hlen
      dsimp only at hlen
      split_ifs at hlen <;> omega
    rw [windingNumber_sum q hc h2, windingNumber_sum p h.closed h.two, hp]
    exact ((List.rotate_perm _ j).map _).sum_eq
  obtain ⟨c1, c2⟩ := C12_at_vertex p h.closed h.two i v w hv hw pt eps
  cases hb : v.pos.fuzzyEqEps pt eps with
  | true =>
    obtain ⟨q, hq, hc, -, hp⟩ := c1 hb
    exact ⟨q, hq, key q i hc hp⟩
  | false =>
    rcases hnear with hn | hn
    · rw [hb] at hn; cases hn
    · obtain ⟨q, hq, hc, -, hp⟩ := c2 hb hn
      exact ⟨q, hq, key q (i + 1) hc hp⟩

theorem pieces_last {T : Type} [Scalar T] (u v : Vertex T) (h : u.pos = v.pos) : ∀ (l : List (Vertex T)),
    (pathSegs (l ++ [u])).map pieceOf = (pathSegs (l ++ [v])).map pieceOf
  | [] => rfl
  | [a] => by
    have hx : u.x = v.x := congrArg V2.x h
    have hy : u.y = v.y := congrArg V2.y h
    simp [pathSegs, pieceOf, hx, hy]
  | a :: b :: l => by
    have := pieces_last u v h (b :: l)
    simp only [List.cons_append, pathSegs, List.map_cons] at this ⊢
    rw [this]

/-- **C12** When `rotate_start` divides the segment of the given index, the path of the result is the rest of
the segment, then all the other segments in their cyclic order, then the first part of the segment. -/
theorem C12_split_path {T : Type} [Scalar T] (p : Pline T) (hc : p.closed = true) (h2 : 2 ≤ p.verts.length) (i : Nat)
    (v w : Vertex T) (hv : p.verts[i]? = some v) (hw : cycAt p (i + 1) = some w) (pt : V2 T) (eps : T)
    (hvp : v.pos.fuzzyEqEps pt eps = false) (hpw : pt.fuzzyEqEps w.pos eps = false)
    (hpos : (segSplitAtPoint v w pt eps).updatedStart.pos = v.pos) :
    ∃ q others, p.rotateStart i pt eps = .ok (some q) ∧ q.closed = true ∧ q.verts.length = p.verts.length + 1 ∧
      p.path.rotate (i + 1) = others ++ [⟨v.pos, w.pos, v.bulge⟩] ∧
      q.path = ⟨(segSplitAtPoint v w pt eps).splitVertex.pos, w.pos, (segSplitAtPoint v w pt eps).splitVertex.bulge⟩ :: (others ++
        [⟨v.pos, (segSplitAtPoint v w pt eps).splitVertex.pos, (segSplitAtPoint v w pt eps).updatedStart.bulge⟩]) := by
  obtain ⟨q, hq, hqc, hqv, hlast, hlen⟩ := C12_split p hc h2 i v w hv hw pt eps hvp hpw
  generalize hs : (segSplitAtPoint v w pt eps).splitVertex = s at *
  generalize hu : (segSplitAtPoint v w pt eps).updatedStart = u at *
  have hrl : (p.verts.rotate (i + 1)).length = p.verts.length := List.length_rotate ..
  have hhead : (p.verts.rotate (i + 1)).head? = some w := by
    rw [List.head?_eq_getElem?, List.getElem?_rotate (by omega), Nat.zero_add]
    exact hw
  obtain ⟨vs, c⟩ := p
  simp only at hc h2 hrl hhead hqv hlast
  subst hc
  have hpr := path_rotate vs h2 (i + 1)
  -- the rotated vertexes are `w`, others, `v`
  obtain ⟨l, hl⟩ : ∃ l, vs.rotate (i + 1) = w :: (l ++ [v]) := by
    rcases hr : vs.rotate (i + 1) with _ | ⟨a, r⟩
    · rw [hr] at hhead; cases hhead
    · rw [hr] at hhead hlast hrl
      simp only [List.head?_cons, Option.some.injEq] at hhead
      subst hhead
      have hne : r ≠ [] := by
        intro e; subst e; simp at hrl; omega
      refine ⟨r.dropLast, ?_⟩
      rw [List.getLast?_cons, Option.some.injEq] at hlast
      congr 1
      have hg : r.getLast hne = v := by
        rw [← hlast, List.getLast?_eq_some_getLast hne]; rfl
      rw [← hg]
      exact (List.dropLast_append_getLast hne).symm
  rw [hl] at hqv hpr
  have hdl : (w :: (l ++ [v])).dropLast = w :: l := by
    rw [← List.cons_append, List.dropLast_concat]
  rw [hdl] at hqv
  refine ⟨q, (pathSegs (w :: l ++ [v])).map pieceOf, hq, hqc, hlen, ?_, ?_⟩
  · rw [← hpr]
    unfold Pline.path
    rw [segs_eq]
    unfold loopVerts
    rw [if_neg (by simp), if_pos rfl]
    have : (w :: (l ++ [v]) ++ (w :: (l ++ [v])).take 1) = (w :: l) ++ v :: [w] := by simp
    simp only [this]
    rw [pathSegs_append_cons, List.map_append]
    rfl
  · obtain ⟨qv, qc⟩ := q
    simp only at hqc hqv
    subst hqc
    subst hqv
    unfold Pline.path
    rw [segs_eq]
    unfold loopVerts
    rw [if_neg (by simp), if_pos rfl]
    have : (s :: (w :: l ++ [u]) ++ (s :: (w :: l ++ [u])).take 1) = [s] ++ w :: (l ++ u :: [s]) := by simp
    simp only [this]
    rw [pathSegs_append_cons, show w :: (l ++ u :: [s]) = (w :: l) ++ u :: [s] from rfl, pathSegs_append_cons (w :: l) [s] u, List.map_append, List.map_append,
      pieces_last u v hpos (w :: l)]
    have hux : u.x = v.x := congrArg V2.x hpos
    have huy : u.y = v.y := congrArg V2.y hpos
    simp [pathSegs, pieceOf, Vertex.pos, hux, huy]

/-- **C54** Rotating the start to a point within a segment, which divides it, keeps the winding number of
every point off the polyline.  For an arc neither part may be so short that the code takes its bulge for 0. -/
theorem C54_rotate_split (p : Pline ℝ) (h : Loop p) (i : Nat) (v w : Vertex ℝ) (hv : p.verts[i]? = some v)
    (hw : cycAt p (i + 1) = some w) (t : ℝ) (ht0 : 0 < t) (ht1 : t < 1) (eps : ℝ) (heps : 0 < eps)
    (hvp : v.pos.fuzzyEqEps (segCurve v w t) eps = false) (hpw : (segCurve v w t).fuzzyEqEps w.pos eps = false)
    (harc : ¬ IsLine v → v.pos.fuzzyEqEps w.pos eps = false ∧ 1 / 100000000 ≤ |tan (t * arctan v.bulge)| ∧
      1 / 100000000 ≤ |tan ((1 - t) * arctan v.bulge)|) :
    ∃ q, p.rotateStart i (segCurve v w t) eps = .ok (some q) ∧ ∀ z, ¬ OnPline p z → q.windingNumber z = p.windingNumber z := by
  obtain ⟨hi, -⟩ := List.getElem?_eq_some_iff.mp hv
  have hseg : (v, w) ∈ p.segs := by
    obtain ⟨a, b, ha, hb, hs⟩ := segs_getElem? p i (by rw [h.segmentCount]; exact hi)
    rw [hv] at ha
    cases ha
    unfold cycAt at hw
    rw [hw] at hb
    cases hb
    exact List.mem_of_getElem? hs
  have hprop := h.proper _ hseg
  have hw2 : w.pos.fuzzyEqEps (segCurve v w t) eps = false := by
    rw [Bool.eq_false_iff, Ne, V2.fuzzyEqEps_iff] at hpw ⊢
    rwa [abs_sub_comm, abs_sub_comm w.pos.y]
  obtain ⟨r, hr⟩ : ∃ r, r = segSplitAtPoint v w (segCurve v w t) eps := ⟨_, rfl⟩
  -- the two parts
  have hparts : r.updatedStart.pos = v.pos ∧ (IsLine r.updatedStart ∨ ProperArc r.updatedStart r.splitVertex) ∧
      (IsLine r.splitVertex ∨ ProperArc r.splitVertex w) ∧
      (∀ s, segCurve r.updatedStart r.splitVertex s = segCurve v w (t * s)) ∧
      (∀ s, segCurve r.splitVertex w s = segCurve v w (t + (1 - t) * s)) := by
    by_cases hl : IsLine v
    · have hc := C28_split_line v w hl t eps
      dsimp only at hc
      rw [← hr] at hc
      have hc0 := hc 0
      exact ⟨hc0.1, Or.inl hc0.2.2.1, Or.inl hc0.2.2.2.1, fun s => (hc s).2.2.2.2.1, fun s => (hc s).2.2.2.2.2⟩
    · have ha : ProperArc v w := hprop.resolve_left hl
      obtain ⟨hvw, hb1, hb2⟩ := harc hl
      have hc := C28_split_arc v w ha t eps ht0 ht1 (by simp [hvw]) (by simp [hvp]) (by simp [hw2])
      dsimp only at hc
      rw [← hr] at hc
      obtain ⟨q1, q2, q3, q4, -⟩ := hc 0
      have e1 : arctan r.updatedStart.bulge = t * arctan v.bulge := by
        change 4 * arctan r.updatedStart.bulge = t * (4 * arctan v.bulge) at q4
        linarith
      have e2 : arctan r.splitVertex.bulge = (1 - t) * arctan v.bulge := by
        change 4 * arctan r.updatedStart.bulge + 4 * arctan r.splitVertex.bulge = 4 * arctan v.bulge at q3
        linarith
      have g1 : r.updatedStart.bulge = tan (t * arctan v.bulge) := by rw [← e1, tan_arctan]
      have g2 : r.splitVertex.bulge = tan ((1 - t) * arctan v.bulge) := by rw [← e2, tan_arctan]
      have n1 : ¬ IsLine r.updatedStart := by unfold IsLine; rw [g1]; exact not_lt.mpr hb1
      have n2 : ¬ IsLine r.splitVertex := by unfold IsLine; rw [g2]; exact not_lt.mpr hb2
      have small : ∀ (x u : ℝ), 0 ≤ u → u ≤ 1 → arctan x = u * arctan v.bulge → |x| ≤ 1 := by
        intro x u h0 h1 hx
        have hv1 := abs_le.mp ha.half
        have a1 : arctan v.bulge ≤ arctan 1 := arctan_strictMono.monotone hv1.2
        have a2 : arctan (-1) ≤ arctan v.bulge := arctan_strictMono.monotone hv1.1
        rw [arctan_neg] at a2
        have hp : 0 < arctan 1 := by rw [arctan_one]; positivity
        rw [abs_le]
        constructor
        · rw [← arctan_strictMono.le_iff_le, hx, arctan_neg]; nlinarith
        · rw [← arctan_strictMono.le_iff_le, hx]; nlinarith
      have p1 : r.updatedStart.pos ≠ r.splitVertex.pos := by
        rw [q1, q2]
        intro e
        rw [← e, Bool.eq_false_iff, Ne, V2.fuzzyEqEps_iff] at hvp
        exact hvp (by simp [heps])
      have p2 : r.splitVertex.pos ≠ w.pos := by
        rw [q2]
        intro e
        rw [e, Bool.eq_false_iff, Ne, V2.fuzzyEqEps_iff] at hpw
        exact hpw (by simp [heps])
      refine ⟨q1, Or.inr ⟨n1, small _ t ht0.le ht1.le e1, p1⟩, Or.inr ⟨n2, small _ (1 - t) (by linarith) (by linarith) e2, p2⟩, ?_, ?_⟩
      · intro s
        rw [segCurve_arc n1, q1, q2]
        exact (hc s).2.2.2.2.1
      · intro s
        rw [segCurve_arc n2, q2]
        exact (hc s).2.2.2.2.2
  obtain ⟨c1, c2, c3, c4, c5⟩ := hparts
  obtain ⟨q, others, hq, hqc, hlen, ho, hp⟩ := C12_split_path p h.closed h.two i v w hv hw _ eps hvp hpw (by rw [← hr]; exact c1)
  refine ⟨q, hq, ?_⟩
  intro z hz
  have hsum := segWinding_split hprop c2 c3 ht0.le ht1.le c4 c5 (fun ho => hz ⟨_, hseg, ho⟩)
  rw [windingNumber_sum q hqc (by rw [hlen]; have := h.two; omega), windingNumber_sum p h.closed h.two,
    ← ((List.rotate_perm p.path (i + 1)).map (pieceWinding z)).sum_eq, ho, hp, ← hr]
  simp only [List.map_cons, List.map_append, List.map_nil, List.sum_cons, List.sum_append, List.sum_nil, add_zero]
  have f1 : pieceWinding z ⟨v.pos, w.pos, v.bulge⟩ = segWinding z (v, w) := rfl
  have f2 : pieceWinding z ⟨r.splitVertex.pos, w.pos, r.splitVertex.bulge⟩ = segWinding z (r.splitVertex, w) := rfl
  have f3 : pieceWinding z ⟨v.pos, r.splitVertex.pos, r.updatedStart.bulge⟩ = segWinding z (r.updatedStart, r.splitVertex) := by
    rw [← c1]; rfl
  rw [f1, f2, f3, ← hsum]
  ring

/-! ## C39: the regions of polylines without common point -/

theorem info_facts (env : Env ℝ) (henv : env.Lawful) (p1 p2 : Pline ℝ) (op : BooleanOp) (o : Option (Index ℝ))
    (eps : ℝ) (hidx : (o.getD (p1.approxIndex env)).Serves p1) (h1 : p1.BooleanInput) (h2 : p2.BooleanInput)
    (r : BooleanResult ℝ) (hr : polylineBoolean env p1 p2 op o eps = .ok r) (hi : r.info ≠ .intersected) (ho : r.info ≠ .overlapping) :
    ∃ a b, p1.verts[0]? = some a ∧ p2.verts[0]? = some b ∧
      (r.info = .pline1InsidePline2 → p2.windingNumber a.pos ≠ 0) ∧
      (r.info = .pline2InsidePline1 → p2.windingNumber a.pos = 0 ∧ p1.windingNumber b.pos ≠ 0) ∧
      (r.info = .disjoint → p2.windingNumber a.pos = 0 ∧ p1.windingNumber b.pos = 0) := by
  obtain ⟨r', b, a0, b0, -, hb, -, -, -, -, ha, hb0, hc⟩ := boolean_cases env henv TotalCmp.real p1 p2 op o eps hidx h1 h2
  rw [hr] at hc
  refine ⟨a0, b0, ha, hb0, ?_⟩
  rcases hc with ⟨-, hc⟩ | ⟨-, -, hc⟩ | ⟨-, -, hc⟩
  · cases hc
    exact absurd (wholeOverlap_info p2 op) ho
  · cases hc
    rw [apart_info]
    have e1 : pointIn p2 a0.pos = true ↔ p2.windingNumber a0.pos ≠ 0 := by simp [pointIn]
    have e2 : pointIn p1 b0.pos = true ↔ p1.windingNumber b0.pos ≠ 0 := by simp [pointIn]
    cases hp1 : pointIn p2 a0.pos <;> cases hp2 : pointIn p1 b0.pos <;> simp_all
  · rcases hc with ⟨hc, -⟩ | ⟨r', rss, hc, hinfo, -⟩
    · cases hc
    · cases hc
      exact absurd hinfo hi

theorem first_on (p : Pline ℝ) (h : Loop p) (a : Vertex ℝ) (ha : p.verts[0]? = some a) : ((a.x, a.y) : ℝ × ℝ) ∈ trace p := by
  have hn : 0 < p.segmentCount := by rw [h.segmentCount]; have := h.two; omega
  obtain ⟨v, w, hv, hw, hs⟩ := segs_getElem? p 0 hn
  rw [ha] at hv
  cases hv
  exact ⟨(a, w), List.mem_of_getElem? hs, 0, le_rfl, zero_le_one, (segCurve_ends a w).1.symm⟩

/-- **C39** For two closed polylines without a common point for which no intersect or overlap is reported, the
result bounds exactly the set operation: a point on neither polyline is inside a positive polyline of the
result and inside no negative one iff the operation holds of being inside the first and inside the second.
Being inside is having a winding number other than 0. -/
theorem C39_apart (env : Env ℝ) (henv : env.Lawful) (p1 p2 : Pline ℝ) (op : BooleanOp) (o : Option (Index ℝ))
    (eps : ℝ) (hidx : (o.getD (p1.approxIndex env)).Serves p1) (h1 : Loop p1) (h2 : Loop p2)
    (hd : ∀ x, ¬ (OnPline p1 x ∧ OnPline p2 x))
    (r : BooleanResult ℝ) (hr : polylineBoolean env p1 p2 op o eps = .ok r) (hi : r.info ≠ .intersected) (ho : r.info ≠ .overlapping)
    (x : V2 ℝ) (hx1 : ¬ OnPline p1 x) (hx2 : ¬ OnPline p2 x) :
    ((∃ q ∈ r.posPlines, q.pline.windingNumber x ≠ 0) ∧ ¬ ∃ q ∈ r.negPlines, q.pline.windingNumber x ≠ 0) ↔
      op.holds (p1.windingNumber x ≠ 0) (p2.windingNumber x ≠ 0) := by
  have i1 : p1.BooleanInput := ⟨h1.two, h1.closed⟩
  have i2 : p2.BooleanInput := ⟨h2.two, h2.closed⟩
  have hdis : Disjoint (trace p1) (trace p2) := Set.disjoint_left.mpr fun z hz1 hz2 => hd _ ⟨hz1, hz2⟩
  obtain ⟨a, b, ha, hb, f1, f2, f3⟩ := info_facts env henv p1 p2 op o eps hidx i1 i2 r hr hi ho
  have ha' := first_on p1 h1 a ha
  have hb' := first_on p2 h2 b hb
  have c1 : ∀ z ∈ trace p1, wn p2 z = wn p2 (a.x, a.y) := fun z hz => wn_const h2 (trace_isPreconnected h1) hdis hz ha'
  have c2 : ∀ z ∈ trace p2, wn p1 z = wn p1 (b.x, b.y) := fun z hz => wn_const h1 (trace_isPreconnected h2) hdis.symm hz hb'
  have fill : ∀ (p : Pline ℝ) (x : V2 ℝ), ¬ OnPline p x → p.windingNumber x ≠ 0 → ((x.x, x.y) : ℝ × ℝ) ∈ filled p :=
    fun p x hx hw => Or.inr ⟨hx, hw⟩
  refine C39_regions env henv TotalCmp.real p1 p2 op o eps hidx i1 i2 r hr hi
    (α := {x : V2 ℝ // ¬ OnPline p1 x ∧ ¬ OnPline p2 x}) (fun p y => p.windingNumber y.1 ≠ 0) ?_ ?_ ?_ ?_ ⟨x, hx1, hx2⟩
  · rintro hinfo ⟨y, hy1, hy2⟩ hin
    have hne := f1 hinfo
    have h0 : ∀ z ∈ trace p2, wn p1 z = 0 := by
      rcases not_mutual h1 h2 hdis with hm | hm
      · exact absurd (hm _ ha') hne
      · exact hm
    have := wn_filled h1 h2 hdis h0 (fill p1 y hy1 hin) (Or.inl ha')
    show wn p2 (y.x, y.y) ≠ 0
    rw [this]; exact hne
  · rintro hinfo ⟨y, hy1, hy2⟩ hin
    obtain ⟨hz, hne⟩ := f2 hinfo
    have h0 : ∀ z ∈ trace p1, wn p2 z = 0 := fun z hz' => by rw [c1 z hz']; exact hz
    have := wn_filled h2 h1 hdis.symm h0 (fill p2 y hy2 hin) (Or.inl hb')
    show wn p1 (y.x, y.y) ≠ 0
    rw [this]; exact hne
  · rintro hinfo ⟨y, hy1, hy2⟩ ⟨hin1, hin2⟩
    obtain ⟨hz1, hz2⟩ := f3 hinfo
    have h0 : ∀ z ∈ trace p2, wn p1 z = 0 := fun z hz' => by rw [c2 z hz']; exact hz2
    have := wn_filled h1 h2 hdis h0 (fill p1 y hy1 hin1) (Or.inl ha')
    apply hin2
    show wn p2 (y.x, y.y) = 0
    rw [this]; exact hz1
  · intro hinfo
    exact absurd hinfo ho

/-! ## The hypotheses are met -/

theorem square_loop (a b : ℝ) : Loop ⟨[⟨a, a, 0⟩, ⟨b, a, 0⟩, ⟨b, b, 0⟩, ⟨a, b, 0⟩], true⟩ := by
  refine ⟨rfl, by simp, ?_⟩
  intro s hs
  left
  have : s.1.bulge = 0 := by
    simp [segs, pathSegs] at hs
    rcases hs with rfl | rfl | rfl | rfl <;> rfl
  unfold IsLine
  rw [this]
  norm_num

/-- A square inside another, over the real numbers: no common point, and no intersect is found. -/
example :
    let p1 : Pline ℝ := ⟨[⟨1, 1, 0⟩, ⟨2, 1, 0⟩, ⟨2, 2, 0⟩, ⟨1, 2, 0⟩], true⟩
    let p2 : Pline ℝ := ⟨[⟨0, 0, 0⟩, ⟨4, 0, 0⟩, ⟨4, 4, 0⟩, ⟨0, 4, 0⟩], true⟩
    Loop p1 ∧ Loop p2 ∧ (∀ x, ¬ (OnPline p1 x ∧ OnPline p2 x)) ∧
    ∃ r, polylineBoolean Env.plain p1 p2 .not none (1 / 100000) = .ok r ∧ r.info = .pline1InsidePline2 := by
  intro p1 p2
  have l1 : Loop p1 := square_loop 1 2
  have l2 : Loop p2 := square_loop 0 4
  have hs1 : p1.segs = [(⟨1, 1, 0⟩, ⟨2, 1, 0⟩), (⟨2, 1, 0⟩, ⟨2, 2, 0⟩), (⟨2, 2, 0⟩, ⟨1, 2, 0⟩), (⟨1, 2, 0⟩, ⟨1, 1, 0⟩)] := rfl
  have hs2 : p2.segs = [(⟨0, 0, 0⟩, ⟨4, 0, 0⟩), (⟨4, 0, 0⟩, ⟨4, 4, 0⟩), (⟨4, 4, 0⟩, ⟨0, 4, 0⟩), (⟨0, 4, 0⟩, ⟨0, 0, 0⟩)] := rfl
  have hl : ∀ x y : ℝ, IsLine ⟨x, y, 0⟩ := by intro x y; unfold IsLine; norm_num
  have hbz : ∀ x y : ℝ, (⟨x, y, 0⟩ : Vertex ℝ).bulgeIsZero = true := fun x y => bulgeIsZero_true (hl x y)
  have hm : ∀ s1 ∈ p1.segs, ∀ s2 ∈ p2.segs, ¬ BoxesMeet s1 s2 (1 / 100000 : ℝ) := by
    intro s1 h1 s2 h2
    rw [hs1] at h1
    rw [hs2] at h2
    simp only [List.mem_cons, List.not_mem_nil, or_false] at h1 h2
    rcases h1 with rfl | rfl | rfl | rfl <;> rcases h2 with rfl | rfl | rfl | rfl <;>
      simp [BoxesMeet, segBox, segFastApproxBoundingBox, hbz, AABB.overlaps, AABB.grow, minMax] <;> norm_num
  have hno : findIntersects Env.plain p1 p2 none (1 / 100000) = .ok ⟨[], []⟩ := by
    obtain ⟨r, hr, ho, hb⟩ := C37_result Env.plain p1 p2 none (1 / 100000) (C37_own_index _ Env.plain_lawful _)
    rw [hr]
    have e1 : r.overlapping = [] := by
      apply List.eq_nil_iff_forall_not_mem.mpr
      intro q hq
      obtain ⟨s1, s2, g1, g2, g3, -⟩ := (ho q).mp hq
      exact hm s1 (List.mem_of_getElem? g1) s2 (List.mem_of_getElem? g2) g3
    have e2 : r.basic = [] := by
      apply List.eq_nil_iff_forall_not_mem.mpr
      intro q hq
      obtain ⟨s1, s2, g1, g2, g3, -⟩ := (hb q).mp hq
      exact hm s1 (List.mem_of_getElem? g1) s2 (List.mem_of_getElem? g2) g3
    cases r
    simp only at e1 e2
    rw [e1, e2]
  refine ⟨l1, l2, ?_, ?_⟩
  · rintro x ⟨⟨s1, h1, o1⟩, ⟨s2, h2, o2⟩⟩
    have b1 : IsLine s1.1 := by
      rw [hs1] at h1
      simp only [List.mem_cons, List.not_mem_nil, or_false] at h1
      rcases h1 with rfl | rfl | rfl | rfl <;> exact hl _ _
    have b2 : IsLine s2.1 := by
      rw [hs2] at h2
      simp only [List.mem_cons, List.not_mem_nil, or_false] at h2
      rcases h2 with rfl | rfl | rfl | rfl <;> exact hl _ _
    exact hm s1 h1 s2 h2 (C37_boxes s1 s2 _ (by norm_num) (Or.inl b1) (Or.inl b2) x o1 o2)
  · obtain ⟨r, a, b, hr, ha, hb, hw, -⟩ := C39_info Env.plain Env.plain_lawful TotalCmp.real p1 p2 .not none (1 / 100000)
      (C37_own_index _ Env.plain_lawful _) ⟨l1.two, rfl⟩ ⟨l2.two, rfl⟩ hno
    refine ⟨r, hr, hw ?_⟩
    cases ha
    simp [windingNumber, vertexCount, hs2, segWinding, hbz, lineWinding, isLeft, p2]
    norm_num [Vertex.pos, perpDotTestValue]

/-- A point outside the extents of a square, and the middle of its first side as new start. -/
example :
    let p : Pline ℝ := ⟨[⟨0, 0, 0⟩, ⟨4, 0, 0⟩, ⟨4, 4, 0⟩, ⟨0, 4, 0⟩], true⟩
    (∃ B, p.extents = .ok (some B) ∧ ¬ B.Contains ⟨5, 1⟩) ∧ ¬ OnPline p ⟨1, 1⟩ ∧
    (⟨0, 0, 0⟩ : Vertex ℝ).pos.fuzzyEqEps (segCurve ⟨0, 0, 0⟩ ⟨4, 0, 0⟩ (1 / 2)) (1 / 100000) = false ∧
    (segCurve ⟨0, 0, 0⟩ ⟨4, 0, 0⟩ (1 / 2)).fuzzyEqEps (⟨4, 0, 0⟩ : Vertex ℝ).pos (1 / 100000) = false ∧
    (¬ IsLine (⟨0, 0, 0⟩ : Vertex ℝ) → (⟨0, 0, 0⟩ : Vertex ℝ).pos.fuzzyEqEps (⟨4, 0, 0⟩ : Vertex ℝ).pos (1 / 100000) = false ∧
      1 / 100000000 ≤ |tan (1 / 2 * arctan 0)| ∧ 1 / 100000000 ≤ |tan ((1 - 1 / 2) * arctan 0)|) := by
  intro p
  have hl : ∀ x y : ℝ, IsLine ⟨x, y, 0⟩ := by intro x y; unfold IsLine; norm_num
  have hbz : ∀ x y : ℝ, (⟨x, y, 0⟩ : Vertex ℝ).bulgeIsZero = true := fun x y => bulgeIsZero_true (hl x y)
  have hs2 : p.segs = [(⟨0, 0, 0⟩, ⟨4, 0, 0⟩), (⟨4, 0, 0⟩, ⟨4, 4, 0⟩), (⟨4, 4, 0⟩, ⟨0, 4, 0⟩), (⟨0, 4, 0⟩, ⟨0, 0, 0⟩)] := rfl
  have hmid : segCurve ⟨0, 0, 0⟩ ⟨4, 0, 0⟩ (1 / 2) = (⟨2, 0⟩ : V2 ℝ) := by
    rw [segCurve_line (hl _ _)]; norm_num [linePoint, Vertex.pos]
  refine ⟨?_, ?_, ?_, ?_, fun h => absurd (hl _ _) h⟩
  · obtain ⟨r, hr, hn, hB⟩ := C17_extents p (by
      intro s hs
      rw [hs2] at hs
      simp only [List.mem_cons, List.not_mem_nil, or_false] at hs
      rcases hs with rfl | rfl | rfl | rfl <;> exact Or.inl (hl _ _))
    cases r with
    | none =>
      have := hn.mp rfl
      simp [segmentCount, vertexCount, p] at this
    | some B =>
      refine ⟨B, hr, ?_⟩
      rintro ⟨-, h5, -, -⟩
      obtain ⟨-, -, ⟨s, hs, q, ⟨t, t0, t1, hq⟩, hle⟩, -⟩ := hB B rfl
      simp only at h5
      rw [hs2] at hs
      simp only [List.mem_cons, List.not_mem_nil, or_false] at hs
      rcases hs with rfl | rfl | rfl | rfl <;> rw [segCurve_line (hl _ _)] at hq <;>
        simp [boxSlack, hl, linePoint, Vertex.pos] at hq hle <;> rw [hq] at hle <;> simp at hle <;> linarith
  · rintro ⟨s, hs, t, t0, t1, hq⟩
    rw [hs2] at hs
    simp only [List.mem_cons, List.not_mem_nil, or_false] at hs
    rcases hs with rfl | rfl | rfl | rfl <;> rw [segCurve_line (hl _ _)] at hq <;>
      simp [linePoint, Vertex.pos] at hq
  · rw [hmid, Bool.eq_false_iff, Ne, V2.fuzzyEqEps_iff]
    norm_num [Vertex.pos]
  · rw [hmid, Bool.eq_false_iff, Ne, V2.fuzzyEqEps_iff]
    norm_num [Vertex.pos]

end Cavc
