import Verif.Lemmas.ShortenedSums
import Verif.Lemmas.OffsetArcsPart
import Verif.Props.RedundantArcs
import Verif.Props.Region

/-! # C73: area, length and winding numbers stay the same -/

namespace Cavc
open Scalar RealScalar Pline

/-- `path_length` is the sum of the lengths of the segments if positions that the library takes for equal are equal. -/
theorem pathLength_exact {q : Pline ℝ} (hg : ∀ s ∈ q.segs, GoodSeg s)
    (hn : ∀ s ∈ q.segs, |s.1.x - s.2.x| < 1 / 100000000 → |s.1.y - s.2.y| < 1 / 100000000 → s.1.pos = s.2.pos) :
    q.pathLength = (q.segs.map fun s => curveLength (segCurve s.1 s.2)).sum := by
  rw [pathLength_eq_sum]
  congr 1
  apply List.map_congr_left
  intro s hs
  rw [segLength_eq _ _ (hg s hs)]
  split_ifs with h
  · rw [vertex_fuzzyEq_iff] at h
    have he := hn s hs h.1 h.2.1
    have hl : IsLine s.1 := (hg s hs).resolve_right fun h => h.ne he
    rw [funext (segCurve_line hl), curveLength_line, he]
    simp [edist]
  · rfl

theorem mem_pathSegs {l : List (Vertex ℝ)} {s : Vertex ℝ × Vertex ℝ} (h : s ∈ pathSegs l) : s.1 ∈ l ∧ s.2 ∈ l := by
  induction l with
  | nil => simp [pathSegs] at h
  | cons a l ih =>
    cases l with
    | nil => simp [pathSegs] at h
    | cons b l =>
      simp only [pathSegs, List.mem_cons] at h
      rcases h with rfl | h
      · simp
      · have := ih h
        exact ⟨List.mem_cons_of_mem _ this.1, List.mem_cons_of_mem _ this.2⟩

theorem chain_mem {q : Pline ℝ} {v : Vertex ℝ} (h : v ∈ redChain q) : v ∈ q.verts := by
  unfold redChain at h
  split_ifs at h
  · rcases List.mem_append.mp h with h | h
    · exact h
    · exact List.mem_of_mem_take h
  · exact h

theorem near_source {p q : Pline ℝ} {eps : ℝ} (hr : Resolves eps p.verts) (he : 1 / 100000000 ≤ eps) (h2 : 2 ≤ q.verts.length)
    (hsrc : ∀ w ∈ q.verts, ∃ v ∈ p.verts, v.pos = w.pos) : ∀ s ∈ q.segs, |s.1.x - s.2.x| < 1 / 100000000 →
      |s.1.y - s.2.y| < 1 / 100000000 → s.1.pos = s.2.pos := by
  intro s hs hx hy
  rw [segs_chain q h2] at hs
  obtain ⟨m1, m2⟩ := mem_pathSegs hs
  obtain ⟨v, hv, e1⟩ := hsrc _ (chain_mem m1)
  obtain ⟨w, hw, e2⟩ := hsrc _ (chain_mem m2)
  have a1 : v.x = s.1.x := congrArg V2.x e1
  have a2 : v.y = s.1.y := congrArg V2.y e1
  have b1 : w.x = s.2.x := congrArg V2.x e2
  have b2 : w.y = s.2.y := congrArg V2.y e2
  have := hr.near v hv w hw (by rw [a1, b1]; linarith) (by rw [a2, b2]; linarith)
  rw [← e1, ← e2, V2.ext_iff']
  exact this

theorem source_of {p : Pline ℝ} {eps : ℝ} {r : Option (Pline ℝ)} (h : p.removeRedundant eps = .ok r) :
    ∀ w ∈ (r.getD p).verts, ∃ v ∈ p.verts, v.pos = w.pos := by
  rcases C11_shape_partial p eps with ⟨r', h1, h2⟩ | ⟨_, h1⟩
  · rw [h] at h1
    injection h1 with h1
    subst h1
    cases r with
    | none => exact fun w hw => ⟨w, hw, rfl⟩
    | some q => exact (h2 q rfl).2.2
  · rw [h] at h1; exact absurd h1 (by simp)

theorem shortened_two_le {l l' : List (Vertex ℝ)} (h : Shortened l l') (h2 : 2 ≤ l.length) : 2 ≤ l'.length := by
  induction h with
  | refl => exact h2
  | again => simp; omega
  | line => simp; omega
  | arc => simp; omega

/-- **C73** Removing redundant vertexes from an open polyline keeps its length. -/
theorem C73_redundant_open (p : Pline ℝ) (eps : ℝ) (hopen : p.closed = false) (hr : ResolvesArcs eps p) (he : 1 / 100000000 ≤ eps)
    (hg : ∀ s ∈ p.segs, IsLine s.1 ∨ ProperArc s.1 s.2) (a b : Vertex ℝ) (rest : List (Vertex ℝ)) (hp : p.verts = a :: b :: rest) (hne : a.pos ≠ b.pos) :
    ∃ r, p.removeRedundant eps = .ok r ∧ (r.getD p).pathLength = p.pathLength := by
  obtain ⟨r, h1, h2, h3, _, _⟩ := C11_open_arcs_partial p eps hopen hr a b rest hp hne
  have l2 : 2 ≤ p.verts.length := by rw [hp]; simp
  have l3 : 2 ≤ (r.getD p).verts.length := shortened_two_le h3 l2
  have c1 : p.segs = pathSegs p.verts := by rw [segs_chain p l2, redChain, hopen]; rfl
  have c2 : (r.getD p).segs = pathSegs (r.getD p).verts := by rw [segs_chain _ l3, redChain, h2]; rfl
  obtain ⟨g, e⟩ := h3.sum length_sum (by rw [← c1]; exact hg) (fun _ _ => trivial)
  refine ⟨r, h1, ?_⟩
  rw [pathLength_exact (by rw [c2]; exact g) (near_source hr.points he l3 (source_of h1)),
    pathLength_exact hg (near_source hr.points he l2 (fun w hw => ⟨w, hw, rfl⟩)), c1, c2]
  exact e.symm

/-- **C73** Removing redundant vertexes from a closed polyline that starts with a line keeps its area, its length and the winding
number of every point that is not on it. -/
theorem C73_redundant_closed (p : Pline ℝ) (eps : ℝ) (hclosed : p.closed = true) (hr : ResolvesArcs eps p) (he : 1 / 100000000 ≤ eps)
    (hg : ∀ s ∈ p.segs, IsLine s.1 ∨ ProperArc s.1 s.2) (a b : Vertex ℝ) (rest : List (Vertex ℝ)) (hp : p.verts = a :: b :: rest) (hne : a.pos ≠ b.pos)
    (hal : IsLine a) :
    ∃ r, p.removeRedundant eps = .ok r ∧ (r.getD p).area = p.area ∧ (r.getD p).pathLength = p.pathLength ∧
      ∀ pt, ¬ OnPline p pt → (r.getD p).windingNumber pt = p.windingNumber pt := by
  obtain ⟨r, L, h1, h2, h3, h4, h5, h6⟩ := C11_closed_arcs_partial p eps hclosed hr a b rest hp hne hal
  have l2 : 2 ≤ p.verts.length := by rw [hp]; simp
  have l3 : 2 ≤ (r.getD p).verts.length := by
    rcases h4 with h4 | ⟨x, y, M, z, _, _, _, _, e⟩
    · rw [h4]
      have hL := shortened_two_le h3 (by simp; omega)
      cases L with
      | nil => simp at hL
      | cons x L =>
        cases L with
        | nil =>
          -- a single vertex cannot trace the polyline
          exfalso
          have hb := (h3.onPath b.pos).mp ⟨(a, b), by rw [hp]; simp [pathSegs], seg_meets_end a b⟩
          have ha := (h3.onPath a.pos).mp ⟨(a, b), by rw [hp]; simp [pathSegs], onSeg_start a b⟩
          obtain ⟨s, hs, hs'⟩ := hb
          obtain ⟨t, ht, ht'⟩ := ha
          simp [pathSegs] at hs ht
          subst hs; subst ht
          rw [onSeg_point rfl] at hs' ht'
          exact hne (by rw [hs', ht'])
        | cons y L => simp
    · rw [e]; simp
  have c1 : p.segs = pathSegs (p.verts ++ p.verts.take 1) := by rw [segs_chain p l2, redChain, hclosed]; rfl
  have c2 : (r.getD p).segs = pathSegs ((r.getD p).verts ++ (r.getD p).verts.take 1) := by rw [segs_chain _ l3, redChain, h2]; rfl
  have key : ∀ {A : Type} [AddCommMonoid A] {K : V2 ℝ → Prop} {F : Vertex ℝ × Vertex ℝ → A}, SplitSum K F → (∀ q, OnPline p q → K q) →
      (∀ s ∈ (r.getD p).segs, GoodSeg s) ∧ ((r.getD p).segs.map F).sum = (p.segs.map F).sum := by
    intro A _ K F hF hK
    obtain ⟨g, e⟩ := h3.sum hF (by rw [← c1]; exact hg) (fun q hq => hK q ((onPline_closed hclosed l2 q).mpr hq))
    rw [c1, e, c2]
    rcases h4 with h4 | ⟨x, y, M, z, e1, lz, lx, hon, e2⟩
    · rw [h4]; exact ⟨g, rfl⟩
    · have hKz : ∀ q, OnSeg z y q → K q := by
        intro q hq
        apply hK
        rw [h6, onPline_closed h2 l3, e2]
        exact ⟨(z, y), by simp [pathSegs], hq⟩
      rw [e1] at g ⊢
      rw [e2]
      have f1 : x :: y :: M ++ [z] ++ (x :: y :: M ++ [z]).take 1 = (x :: y :: M) ++ z :: [x] := by simp
      have f2 : z :: y :: M ++ (z :: y :: M).take 1 = z :: y :: (M ++ [z]) := by simp
      have f3 : pathSegs (x :: y :: M ++ [z]) = (x, y) :: pathSegs (y :: (M ++ [z])) := rfl
      have f4 : pathSegs (z :: y :: (M ++ [z])) = (z, y) :: pathSegs (y :: (M ++ [z])) := rfl
      have f5 : pathSegs [z, x] = [(z, x)] := rfl
      rw [f1, pathSegs_append_cons, f3, f5] at g ⊢
      rw [f2, f4]
      constructor
      · intro s hs
        rcases List.mem_cons.mp hs with rfl | hs
        · exact Or.inl lz
        · exact g s (by simp [hs])
      · simp only [List.map_cons, List.map_append, List.sum_cons, List.sum_append, List.map_nil, List.sum_nil]
        rw [← hF.line z x y lz lx hon hKz]
        abel
  refine ⟨r, h1, ?_, ?_, ?_⟩
  · rw [(C05_area _).1 h2, (C05_area _).1 hclosed]
    exact (key area_sum fun _ _ => trivial).2
  · obtain ⟨g, e⟩ := key length_sum fun _ _ => trivial
    rw [pathLength_exact g (near_source hr.points he l3 (source_of h1)),
      pathLength_exact hg (near_source hr.points he l2 (fun w hw => ⟨w, hw, rfl⟩))]
    exact e
  · intro pt hoff
    have e := (key (winding_sum pt) fun q hq he => hoff (he ▸ hq)).2
    rw [windingNumber_sum _ h2 l3, windingNumber_sum _ hclosed l2]
    unfold Pline.path
    rw [List.map_map, List.map_map]
    exact e

/-! ## Another start -/

theorem radius_of_center {p q p' q' : V2 ℝ} {b b' : ℝ} (hb' : b' ≠ 0) (hc : arcCenter p' q' b' = arcCenter p q b)
    (hon : (p'.x - (arcCenter p q b).x) ^ 2 + (p'.y - (arcCenter p q b).y) ^ 2 = arcRadius p q b ^ 2) : arcRadius p' q' b' = arcRadius p q b := by
  have h := start_dist_sq p' q' b' hb'
  rw [hc, hon] at h
  exact (pow_left_inj₀ (arcRadius_nonneg _ _ _) (arcRadius_nonneg _ _ _) (by norm_num)).mp h.symm

/-- A point divides a segment into parts that add up. -/
theorem split_adds {A : Type} [AddCommMonoid A] {F : Vertex ℝ × Vertex ℝ → A} (hF : SplitSum (fun _ => True) F)
    (hstart : ∀ x x' y, x.pos = x'.pos → x.bulge = x'.bulge → F (x, y) = F (x', y)) {v w : Vertex ℝ} (hprop : GoodSeg (v, w))
    {t eps : ℝ} (ht0 : 0 < t) (ht1 : t < 1) (heps : 0 < eps)
    (hvp : v.pos.fuzzyEqEps (segCurve v w t) eps = false) (hpw : (segCurve v w t).fuzzyEqEps w.pos eps = false)
    (harc : ¬ IsLine v → v.pos.fuzzyEqEps w.pos eps = false ∧ 1 / 100000000 ≤ |Real.tan (t * Real.arctan v.bulge)| ∧
      1 / 100000000 ≤ |Real.tan ((1 - t) * Real.arctan v.bulge)|) {r : SplitResult ℝ} (hr : r = segSplitAtPoint v w (segCurve v w t) eps) :
    r.updatedStart.pos = v.pos ∧ r.splitVertex.pos = segCurve v w t ∧ GoodSeg (r.updatedStart, r.splitVertex) ∧ GoodSeg (r.splitVertex, w) ∧
      F (r.updatedStart, r.splitVertex) + F (r.splitVertex, w) = F (v, w) := by
  have hw2 : w.pos.fuzzyEqEps (segCurve v w t) eps = false := by
    rw [Bool.eq_false_iff, Ne, V2.fuzzyEqEps_iff] at hpw ⊢
    rwa [abs_sub_comm, abs_sub_comm w.pos.y]
  by_cases hl : IsLine v
  · have hc := C28_split_line v w hl t eps
    dsimp only at hc
    rw [← hr] at hc
    obtain ⟨q1, q2, q3, q4, q5, q6⟩ := hc 0
    refine ⟨q1, q2, Or.inl q3, Or.inl q4, ?_⟩
    rw [hF.line _ _ _ q3 q4 ⟨t, ht0.le, ht1.le, by rw [q2, q1, segCurve_line hl]⟩ (fun _ _ => trivial)]
    refine hstart _ _ _ q1 ?_
    rw [hr]
    unfold segSplitAtPoint
    rw [bulgeIsZero_true hl]
    rfl
  · have ha : ProperArc v w := hprop.resolve_left hl
    have hb := bulge_ne_zero hl
    obtain ⟨hvw, hb1, hb2⟩ := harc hl
    have hc := C28_split_arc v w ha t eps ht0 ht1 (by simp [hvw]) (by simp [hvp]) (by simp [hw2])
    dsimp only at hc
    rw [← hr] at hc
    obtain ⟨q1, q2, q3, q4, -⟩ := hc 0
    have e1 : Real.arctan r.updatedStart.bulge = t * Real.arctan v.bulge := by
      change 4 * Real.arctan r.updatedStart.bulge = t * (4 * Real.arctan v.bulge) at q4
      linarith
    have e2 : Real.arctan r.splitVertex.bulge = (1 - t) * Real.arctan v.bulge := by
      change 4 * Real.arctan r.updatedStart.bulge + 4 * Real.arctan r.splitVertex.bulge = 4 * Real.arctan v.bulge at q3
      linarith
    have g1 : r.updatedStart.bulge = Real.tan (t * Real.arctan v.bulge) := by rw [← e1, Real.tan_arctan]
    have g2 : r.splitVertex.bulge = Real.tan ((1 - t) * Real.arctan v.bulge) := by rw [← e2, Real.tan_arctan]
    have n1 : ¬ IsLine r.updatedStart := by unfold IsLine; rw [g1]; exact not_lt.mpr hb1
    have n2 : ¬ IsLine r.splitVertex := by unfold IsLine; rw [g2]; exact not_lt.mpr hb2
    have p1 : r.updatedStart.pos ≠ r.splitVertex.pos := by
      rw [q1, q2]
      intro e
      rw [← e, Bool.eq_false_iff, Ne, V2.fuzzyEqEps_iff] at hvp
      exact hvp (by simp [heps])
    have p2 : r.splitVertex.pos ≠ w.pos := by
      rw [q2]
      intro e
      rw [e, Bool.eq_false_iff, Ne, V2.fuzzyEqEps_iff] at hpw
      exact hpw (by simp [heps])
    have c1 : segCenter (r.updatedStart, r.splitVertex) = segCenter (v, w) := by
      have := part_center (p := v.pos) (q := w.pos) (b := v.bulge) hb le_rfl ht0 ht1.le
      rw [sub_zero, ← g1, arcPoint_zero] at this
      unfold segCenter
      rw [q1, q2, segCurve_arc hl]
      exact this
    have c2 : segCenter (r.splitVertex, w) = segCenter (v, w) := by
      have := part_center (p := v.pos) (q := w.pos) (b := v.bulge) hb ht0.le ht1 le_rfl
      rw [← g2, arcPoint_one _ _ _ hb] at this
      unfold segCenter
      rw [q2, segCurve_arc hl]
      exact this
    have r1 : segRadius (r.updatedStart, r.splitVertex) = segRadius (v, w) :=
      radius_of_center (bulge_ne_zero n1) c1 (by rw [q1]; exact start_dist_sq _ _ _ hb)
    have r2 : segRadius (r.splitVertex, w) = segRadius (v, w) :=
      radius_of_center (bulge_ne_zero n2) c2 (by
        rw [q2, segCurve_arc hl]
        exact arcPoint_dist_sq _ _ _ _ hb)
    have hone : OneArc r.updatedStart r.splitVertex w v.bulge := by
      refine ⟨n1, n2, by rw [c1, c2], by rw [r1, r2], ?_, by rw [e1, e2]; ring, ha.half⟩
      have s1 := part_sign (b := v.bulge) ha.half le_rfl ht0 ht1.le
      have s2 := part_sign (b := v.bulge) ha.half ht0.le ht1 le_rfl
      rw [sub_zero, ← g1] at s1
      rw [← g2] at s2
      rcases lt_or_gt_of_ne hb with h | h
      · exact mul_pos_of_neg_of_neg (s1.2.mpr h) (s2.2.mpr h)
      · exact mul_pos (s1.1.mpr h) (s2.1.mpr h)
    have small : ∀ x : ℝ, |4 * Real.arctan x| ≤ |4 * Real.arctan v.bulge| → |x| ≤ 1 := fun x hx =>
      (abs_four_arctan_le_iff x).mp (le_trans hx ((abs_four_arctan_le_iff _).mpr ha.half))
    have hs := hone.abs_sweep
    have k1 : GoodSeg (r.updatedStart, r.splitVertex) := Or.inr ⟨n1, small _ (by rw [hs]; linarith [abs_nonneg (4 * Real.arctan r.splitVertex.bulge)]), p1⟩
    have k2 : GoodSeg (r.splitVertex, w) := Or.inr ⟨n2, small _ (by rw [hs]; linarith [abs_nonneg (4 * Real.arctan r.updatedStart.bulge)]), p2⟩
    refine ⟨q1, q2, k1, k2, ?_⟩
    rw [hF.arc _ _ _ _ hone k1 k2 (fun _ _ => trivial)]
    exact hstart _ _ _ q1 rfl

theorem curve_start {x x' : Vertex ℝ} (y : Vertex ℝ) (h : x.pos = x'.pos) (hb : x.bulge = x'.bulge) : segCurve x y = segCurve x' y :=
  funext fun s => segCurve_congr h hb rfl s

theorem pathLength_pieces {r : Pline ℝ} (hr : ∀ x ∈ r.path, ¬ x.start.fuzzyEq x.stop = true) : r.pathLength = (r.path.map pieceLen).sum := by
  rw [pathLength_eq_sum, Pline.path, List.map_map]
  congr 1
  exact List.map_congr_left fun s hs => segLength_eq_pieceLen s (hr (pieceOf s) (List.mem_map_of_mem hs))

theorem path_apart {p : Pline ℝ} (h : ∀ s ∈ p.segs, ¬ s.1.pos.fuzzyEq s.2.pos = true) : ∀ x ∈ p.path, ¬ x.start.fuzzyEq x.stop = true := by
  intro x hx
  obtain ⟨s, hs, rfl⟩ := List.mem_map.mp hx
  exact h s hs

/-- **C73** Moving the start of a closed polyline to a vertex keeps the area, and the length if no segment is shorter than the
default epsilon. -/
theorem C73_rotate_vertex (p : Pline ℝ) (hc : p.closed = true) (h2 : 2 ≤ p.verts.length) (i : Nat) (v w : Vertex ℝ) (hv : p.verts[i]? = some v)
    (hw : cycAt p (i + 1) = some w) (pt : V2 ℝ) (eps : ℝ) (hnear : v.pos.fuzzyEqEps pt eps = true ∨ pt.fuzzyEqEps w.pos eps = true) :
    ∃ q, p.rotateStart i pt eps = .ok (some q) ∧ q.area = p.area ∧
      ((∀ s ∈ p.segs, ¬ s.1.pos.fuzzyEq s.2.pos = true) → q.pathLength = p.pathLength) := by
  have key : ∀ (q : Pline ℝ) (j : Nat), q.closed = true → q.path = p.path.rotate j → q.area = p.area ∧
      ((∀ s ∈ p.segs, ¬ s.1.pos.fuzzyEq s.2.pos = true) → q.pathLength = p.pathLength) := by
    intro q j hqc hp
    constructor
    · rw [area_eq_path, area_eq_path, if_pos hqc, if_pos hc, hp, ((List.rotate_perm p.path j).map pieceTerm).sum_eq]
    · intro hs
      have hs' := path_apart hs
      rw [pathLength_pieces hs', pathLength_pieces (by
        rw [hp]
        exact fun x hx => hs' x ((List.rotate_perm p.path j).mem_iff.mp hx)), hp, ((List.rotate_perm p.path j).map pieceLen).sum_eq]
  obtain ⟨c1, c2⟩ := C12_at_vertex p hc h2 i v w hv hw pt eps
  cases hb : v.pos.fuzzyEqEps pt eps with
  | true =>
    obtain ⟨q, hq, hc, -, hp⟩ := c1 hb
    exact ⟨q, hq, key q i hc hp⟩
  | false =>
    rcases hnear with hn | hn
    · rw [hb] at hn; cases hn
    · obtain ⟨q, hq, hc, -, hp⟩ := c2 hb hn
      exact ⟨q, hq, key q (i + 1) hc hp⟩

/-- **C73** Moving the start of a closed polyline to a point within a segment, which divides it, keeps the area, and the length if
no segment is shorter than the default epsilon.  For an arc neither part may be so short that the code takes its bulge for 0. -/
theorem C73_rotate_split (p : Pline ℝ) (h : Loop p) (i : Nat) (v w : Vertex ℝ) (hv : p.verts[i]? = some v)
    (hw : cycAt p (i + 1) = some w) (t : ℝ) (ht0 : 0 < t) (ht1 : t < 1) (eps : ℝ) (heps : 1 / 100000000 ≤ eps)
    (hvp : v.pos.fuzzyEqEps (segCurve v w t) eps = false) (hpw : (segCurve v w t).fuzzyEqEps w.pos eps = false)
    (harc : ¬ IsLine v → v.pos.fuzzyEqEps w.pos eps = false ∧ 1 / 100000000 ≤ |Real.tan (t * Real.arctan v.bulge)| ∧
      1 / 100000000 ≤ |Real.tan ((1 - t) * Real.arctan v.bulge)|) :
    ∃ q, p.rotateStart i (segCurve v w t) eps = .ok (some q) ∧ q.area = p.area ∧
      ((∀ s ∈ p.segs, ¬ s.1.pos.fuzzyEq s.2.pos = true) → q.pathLength = p.pathLength) := by
  obtain ⟨hi, -⟩ := List.getElem?_eq_some_iff.mp hv
  have hseg : (v, w) ∈ p.segs := by
    obtain ⟨a, b, ha, hb, hs⟩ := segs_getElem? p i (by rw [h.segmentCount]; exact hi)
    rw [hv] at ha
    cases ha
    unfold cycAt at hw
    rw [hw] at hb
    cases hb
    exact List.mem_of_getElem? hs
  have hprop : GoodSeg (v, w) := h.proper _ hseg
  have hpos : 0 < eps := by linarith
  obtain ⟨r, hr⟩ : ∃ r, r = segSplitAtPoint v w (segCurve v w t) eps := ⟨_, rfl⟩
  obtain ⟨q1, q2, k1, k2, ea⟩ := split_adds area_sum (fun x x' y h1 h2 => by simp only [curve_start y h1 h2]) hprop ht0 ht1 hpos hvp hpw harc hr
  obtain ⟨-, -, -, -, el⟩ := split_adds length_sum (fun x x' y h1 h2 => by simp only [curve_start y h1 h2]) hprop ht0 ht1 hpos hvp hpw harc hr
  obtain ⟨q, others, hq, hqc, hlen, ho, hp⟩ := C12_split_path p h.closed h.two i v w hv hw _ eps hvp hpw (by rw [← hr]; exact q1)
  rw [← hr] at hp
  have f1 : (⟨v.pos, w.pos, v.bulge⟩ : Piece ℝ) = pieceOf (v, w) := rfl
  have f2 : (⟨r.splitVertex.pos, w.pos, r.splitVertex.bulge⟩ : Piece ℝ) = pieceOf (r.splitVertex, w) := rfl
  have f3 : (⟨v.pos, r.splitVertex.pos, r.updatedStart.bulge⟩ : Piece ℝ) = pieceOf (r.updatedStart, r.splitVertex) := by
    rw [← q1]; rfl
  rw [f1] at ho
  rw [f2, f3] at hp
  refine ⟨q, hq, ?_, ?_⟩
  · rw [area_eq_path, area_eq_path, if_pos hqc, if_pos h.closed, ← ((List.rotate_perm p.path (i + 1)).map pieceTerm).sum_eq, ho, hp]
    have g : ∀ s, pieceTerm (pieceOf s) = 2 * greenIntegral (segCurve s.1 s.2) := fun s => areaTerm_eq_green s
    simp only [List.map_cons, List.map_append, List.map_nil, List.sum_cons, List.sum_append, List.sum_nil, add_zero, g]
    simp only at ea
    rw [← ea]; ring
  · intro hs
    have hs' := path_apart hs
    have near : ∀ {a b : V2 ℝ}, a.fuzzyEqEps b eps = false → ¬ a.fuzzyEq b = true := by
      intro a b hab hf
      unfold V2.fuzzyEq at hf
      rw [V2.fuzzyEqEps_iff] at hf
      rw [Bool.eq_false_iff, Ne, V2.fuzzyEqEps_iff] at hab
      exact hab ⟨lt_of_lt_of_le hf.1 (le_trans (le_of_eq (by simp)) heps), lt_of_lt_of_le hf.2 (le_trans (le_of_eq (by simp)) heps)⟩
    have n1 : ¬ r.updatedStart.pos.fuzzyEq r.splitVertex.pos = true := by rw [q1, q2]; exact near hvp
    have n2 : ¬ r.splitVertex.pos.fuzzyEq w.pos = true := by rw [q2]; exact near hpw
    have n3 := hs _ hseg
    have hlong : ∀ x ∈ q.path, ¬ x.start.fuzzyEq x.stop = true := by
      intro x hx
      rw [hp] at hx
      simp only [List.mem_cons, List.mem_append, List.not_mem_nil, or_false] at hx
      rcases hx with rfl | hx | rfl
      · exact n2
      · apply hs'
        rw [← (List.rotate_perm p.path (i + 1)).mem_iff, ho]
        simp [hx]
      · exact n1
    have g : ∀ s : Vertex ℝ × Vertex ℝ, GoodSeg s → ¬ s.1.pos.fuzzyEq s.2.pos = true → pieceLen (pieceOf s) = curveLength (segCurve s.1 s.2) := by
      intro s hg hn
      rw [← segLength_eq_pieceLen s hn, segLength_eq _ _ hg, if_neg]
      intro hf
      rw [vertex_fuzzyEq_iff] at hf
      apply hn
      unfold V2.fuzzyEq
      rw [V2.fuzzyEqEps_iff]
      exact ⟨hf.1, hf.2.1⟩
    rw [pathLength_pieces hs', pathLength_pieces hlong, ← ((List.rotate_perm p.path (i + 1)).map pieceLen).sum_eq, ho, hp]
    simp only [List.map_cons, List.map_append, List.map_nil, List.sum_cons, List.sum_append, List.sum_nil, add_zero, g _ k1 n1, g _ k2 n2, g _ hprop n3]
    simp only at el
    rw [← el]; ring

/-! ## Examples -/

theorem bow_good : ∀ s ∈ bow.segs, IsLine s.1 ∨ ProperArc s.1 s.2 := by
  have hs : bow.segs = [(⟨-527, 336, 0⟩, ⟨625, 0, 1 / 3⟩), (⟨625, 0, 1 / 3⟩, ⟨175, 600, 1 / 3⟩), (⟨175, 600, 1 / 3⟩, ⟨-527, 336, 0⟩)] := rfl
  intro s h
  rw [hs] at h
  simp only [List.mem_cons, List.not_mem_nil, or_false] at h
  rcases h with rfl | rfl | rfl
  · left; simp [IsLine]
  · exact Or.inr ⟨third_not_line _ _, by norm_num [abs_of_nonneg], by norm_num [Vertex.pos]⟩
  · exact Or.inr ⟨third_not_line _ _, by norm_num [abs_of_nonneg], by norm_num [Vertex.pos]⟩

/-- non-vacuity: the two arcs of one circle are joined, and area, length and winding numbers stay -/
example : ∃ r, bow.removeRedundant (1 / 100000) = .ok r ∧ (r.getD bow).area = bow.area ∧ (r.getD bow).pathLength = bow.pathLength ∧
    ∀ pt, ¬ OnPline bow pt → (r.getD bow).windingNumber pt = bow.windingNumber pt :=
  C73_redundant_closed bow (1 / 100000) rfl bow_resolves (by norm_num) bow_good _ _ _ rfl (by norm_num [Vertex.pos]) (by simp [IsLine])

theorem bowTail_good : ∀ s ∈ bowTail.segs, IsLine s.1 ∨ ProperArc s.1 s.2 := by
  have hs : bowTail.segs = [(⟨625, 0, 1 / 3⟩, ⟨175, 600, 1 / 3⟩), (⟨175, 600, 1 / 3⟩, ⟨-527, 336, 0⟩), (⟨-527, 336, 0⟩, ⟨-527, 0, 0⟩)] := rfl
  intro s h
  rw [hs] at h
  simp only [List.mem_cons, List.not_mem_nil, or_false] at h
  rcases h with rfl | rfl | rfl
  · exact Or.inr ⟨third_not_line _ _, by norm_num [abs_of_nonneg], by norm_num [Vertex.pos]⟩
  · exact Or.inr ⟨third_not_line _ _, by norm_num [abs_of_nonneg], by norm_num [Vertex.pos]⟩
  · left; simp [IsLine]

example : ∃ r, bowTail.removeRedundant (1 / 100000) = .ok r ∧ (r.getD bowTail).pathLength = bowTail.pathLength :=
  C73_redundant_open bowTail (1 / 100000) rfl bowTail_resolves (by norm_num) bowTail_good _ _ _ rfl (by norm_num [Vertex.pos])

theorem bow_apart : ∀ s ∈ bow.segs, ¬ s.1.pos.fuzzyEq s.2.pos = true := by
  have hs : bow.segs = [(⟨-527, 336, 0⟩, ⟨625, 0, 1 / 3⟩), (⟨625, 0, 1 / 3⟩, ⟨175, 600, 1 / 3⟩), (⟨175, 600, 1 / 3⟩, ⟨-527, 336, 0⟩)] := rfl
  intro s h
  rw [hs] at h
  simp only [List.mem_cons, List.not_mem_nil, or_false] at h
  unfold V2.fuzzyEq
  rw [V2.fuzzyEqEps_iff]
  rintro ⟨h1, h2⟩
  rcases h with rfl | rfl | rfl <;> norm_num [abs_of_nonneg, Vertex.pos] at h1

/-- the start moved to the second vertex -/
example : ∃ q, bow.rotateStart 1 ⟨625, 0⟩ (1 / 100000) = .ok (some q) ∧ q.area = bow.area ∧ q.pathLength = bow.pathLength := by
  obtain ⟨q, h1, h2, h3⟩ := C73_rotate_vertex bow rfl (by simp [bow]) 1 ⟨625, 0, 1 / 3⟩ ⟨175, 600, 1 / 3⟩ rfl rfl ⟨625, 0⟩ (1 / 100000)
    (Or.inl (by rw [V2.fuzzyEqEps_iff]; norm_num [Vertex.pos]))
  exact ⟨q, h1, h2, h3 bow_apart⟩

/-- the start moved to the middle of the line -/
example : ∃ q, bow.rotateStart 0 ⟨49, 168⟩ (1 / 100000) = .ok (some q) ∧ q.area = bow.area ∧ q.pathLength = bow.pathLength := by
  have hl : IsLine (⟨-527, 336, 0⟩ : Vertex ℝ) := by simp [IsLine]
  have hm : segCurve (⟨-527, 336, 0⟩ : Vertex ℝ) ⟨625, 0, 1 / 3⟩ (1 / 2) = ⟨49, 168⟩ := by
    rw [segCurve_line hl, V2.ext_iff']; constructor <;> simp [linePoint, Vertex.pos] <;> norm_num
  have hf : ∀ a b : V2 ℝ, 1 ≤ |a.x - b.x| → a.fuzzyEqEps b (1 / 100000) = false := by
    intro a b h
    rw [← Bool.not_eq_true, V2.fuzzyEqEps_iff]
    rintro ⟨h1, h2⟩
    linarith
  obtain ⟨q, h1, h2, h3⟩ := C73_rotate_split bow ⟨rfl, by simp [bow], fun s hs => (bow_good s hs).imp_right fun h => ⟨h.notLine, h.half, h.ne⟩⟩ 0
    ⟨-527, 336, 0⟩ ⟨625, 0, 1 / 3⟩ rfl rfl (1 / 2) (by norm_num) (by norm_num) (1 / 100000) (by norm_num)
    (by rw [hm]; exact hf _ _ (by norm_num [Vertex.pos, abs_of_nonpos])) (by rw [hm]; exact hf _ _ (by norm_num [Vertex.pos, abs_of_nonpos]))
    (fun h => absurd hl h)
  rw [hm] at h1
  exact ⟨q, h1, h2, h3 bow_apart⟩

end Cavc
