import Verif.Lemmas.JoinArcs
import Verif.Lemmas.WindingPath
import Verif.Props.Area

/-! # Sums over the segments of a path that do not change when redundant vertexes are removed -/

namespace Cavc
open Scalar RealScalar Pline

/-- a line, or an arc of at most half a circle with distinct ends -/
def GoodSeg (s : Vertex ℝ × Vertex ℝ) : Prop := IsLine s.1 ∨ ProperArc s.1 s.2

theorem goodSeg_end {x y z : Vertex ℝ} (h : y.pos = z.pos) (hg : GoodSeg (x, y)) : GoodSeg (x, z) := by
  rcases hg with h' | ⟨h1, h2, h3⟩
  · exact Or.inl h'
  · exact Or.inr ⟨h1, h2, by rw [← h]; exact h3⟩

theorem OneArc.good {x y z : Vertex ℝ} {c : ℝ} (h : OneArc x y z c) (hne : x.pos ≠ z.pos) : GoodSeg (x.withBulge c, z) :=
  Or.inr ⟨h.notLine, h.half, hne⟩

theorem OneArc.apart {x y z : Vertex ℝ} {c : ℝ} (h : OneArc x y z c) (hg : GoodSeg (x, y)) : x.pos ≠ z.pos := by
  have hne : x.pos ≠ y.pos := (hg.resolve_left h.arc1).ne
  intro he
  have hr := h.radius_eq
  have h0 : segRadius (x.withBulge c, z) = 0 := by
    show arcRadius x.pos z.pos c = 0
    rw [he]; simp [arcRadius, edist]
  rw [h0] at hr
  have hp : 0 < segRadius (x, y) := arcRadius_pos hne (bulge_ne_zero h.arc1)
  linarith

/-- A quantity of segments that adds up where a vertex is removed, as long as all points of the segments satisfy `K`. -/
structure SplitSum {A : Type} [AddCommMonoid A] (K : V2 ℝ → Prop) (F : Vertex ℝ × Vertex ℝ → A) : Prop where
  congr : ∀ x y z, y.pos = z.pos → F (x, y) = F (x, z)
  point : ∀ y z, IsLine y → y.pos = z.pos → K z.pos → F (y, z) = 0
  line : ∀ x y z, IsLine x → IsLine y → OnLineSeg x.pos z.pos y.pos → (∀ q, OnSeg x z q → K q) → F (x, y) + F (y, z) = F (x, z)
  arc : ∀ x y z c, OneArc x y z c → GoodSeg (x, y) → GoodSeg (y, z) → (∀ q, OnSeg (x.withBulge c) z q → K q) →
    F (x, y) + F (y, z) = F (x.withBulge c, z)

theorem sum_replace {A : Type} [AddCommMonoid A] {F : Vertex ℝ × Vertex ℝ → A} (a b : List (Vertex ℝ)) {x x' y z : Vertex ℝ} (hx : x.pos = x'.pos)
    (hcongr : ∀ x y z, y.pos = z.pos → F (x, y) = F (x, z)) (h : F (x, y) + F (y, z) = F (x', z)) :
    ((pathSegs (a ++ x :: y :: z :: b)).map F).sum = ((pathSegs (a ++ x' :: z :: b)).map F).sum := by
  have e1 : pathSegs (a ++ x :: y :: z :: b) = pathSegs (a ++ [x]) ++ (x, y) :: (y, z) :: pathSegs (z :: b) := by
    rw [pathSegs_append_cons]; rfl
  have e2 : pathSegs (a ++ x' :: z :: b) = pathSegs (a ++ [x']) ++ (x', z) :: pathSegs (z :: b) := by
    rw [pathSegs_append_cons]; rfl
  have e3 : ((pathSegs (a ++ [x])).map F).sum = ((pathSegs (a ++ [x'])).map F).sum := by
    rcases List.eq_nil_or_concat a with rfl | ⟨a, w, rfl⟩
    · simp [pathSegs]
    · have f : ∀ u, pathSegs (a ++ [w] ++ [u]) = pathSegs (a ++ [w]) ++ [(w, u)] := by
        intro u
        rw [List.append_assoc, show [w] ++ [u] = w :: [u] from rfl, pathSegs_append_cons]; rfl
      simp only [List.concat_eq_append, f, List.map_append, List.sum_append, List.map_cons, List.map_nil, List.sum_cons, List.sum_nil, hcongr w x x' hx]
  rw [e1, e2]
  simp only [List.map_append, List.sum_append, List.map_cons, List.sum_cons, e3, ← h]
  abel

theorem good_replace (a b : List (Vertex ℝ)) {x x' y z : Vertex ℝ} (hx : x.pos = x'.pos) (hg : ∀ s ∈ pathSegs (a ++ x :: y :: z :: b), GoodSeg s)
    (h : GoodSeg (x', z)) : ∀ s ∈ pathSegs (a ++ x' :: z :: b), GoodSeg s := by
  have e1 : pathSegs (a ++ x :: y :: z :: b) = pathSegs (a ++ [x]) ++ (x, y) :: (y, z) :: pathSegs (z :: b) := by
    rw [pathSegs_append_cons]; rfl
  have e2 : pathSegs (a ++ x' :: z :: b) = pathSegs (a ++ [x']) ++ (x', z) :: pathSegs (z :: b) := by
    rw [pathSegs_append_cons]; rfl
  rw [e1] at hg
  rw [e2]
  intro s hs
  simp only [List.mem_append, List.mem_cons] at hs hg
  rcases hs with hs | rfl | hs
  · rcases List.eq_nil_or_concat a with rfl | ⟨a, w, rfl⟩
    · simp [pathSegs] at hs
    · have f : ∀ u, pathSegs (a ++ [w] ++ [u]) = pathSegs (a ++ [w]) ++ [(w, u)] := by
        intro u
        rw [List.append_assoc, show [w] ++ [u] = w :: [u] from rfl, pathSegs_append_cons]; rfl
      simp only [List.concat_eq_append, f, List.mem_append, List.mem_singleton] at hs hg
      rcases hs with hs | rfl
      · exact hg s (Or.inl (Or.inl hs))
      · exact goodSeg_end hx (hg _ (Or.inl (Or.inr rfl)))
  · exact h
  · exact hg s (Or.inr (Or.inr (Or.inr hs)))

theorem mem_chain (a b : List (Vertex ℝ)) (x y z : Vertex ℝ) :
    (x, y) ∈ pathSegs (a ++ x :: y :: z :: b) ∧ (y, z) ∈ pathSegs (a ++ x :: y :: z :: b) := by
  have e1 : pathSegs (a ++ x :: y :: z :: b) = pathSegs (a ++ [x]) ++ (x, y) :: (y, z) :: pathSegs (z :: b) := by
    rw [pathSegs_append_cons]; rfl
  rw [e1]; simp

theorem mem_short (a b : List (Vertex ℝ)) (x z : Vertex ℝ) : (x, z) ∈ pathSegs (a ++ x :: z :: b) := by
  have e1 : pathSegs (a ++ x :: z :: b) = pathSegs (a ++ [x]) ++ (x, z) :: pathSegs (z :: b) := by
    rw [pathSegs_append_cons]; rfl
  rw [e1]; simp

/-- Such sums stay the same. -/
theorem Shortened.sum {A : Type} [AddCommMonoid A] {K : V2 ℝ → Prop} {F : Vertex ℝ × Vertex ℝ → A} (hF : SplitSum K F) {l l' : List (Vertex ℝ)}
    (h : Shortened l l') (hg : ∀ s ∈ pathSegs l, GoodSeg s) (hK : ∀ q, OnPath l q → K q) :
    (∀ s ∈ pathSegs l', GoodSeg s) ∧ ((pathSegs l).map F).sum = ((pathSegs l').map F).sum := by
  induction h with
  | refl => exact ⟨hg, rfl⟩
  | again a b x y z h0 he ih =>
    obtain ⟨g, e⟩ := ih
    have hxy := g _ (mem_chain a b x y z).1
    have hyz := g _ (mem_chain a b x y z).2
    have hly : IsLine y := hyz.resolve_right fun h => h.ne he
    refine ⟨good_replace a b rfl g (goodSeg_end he hxy), ?_⟩
    rw [e]
    apply sum_replace a b rfl hF.congr
    rw [hF.point y z hly he (hK _ ((h0.onPath _).mpr ⟨_, (mem_chain a b x y z).2, seg_meets_end _ _⟩)), add_zero]
    exact hF.congr _ _ _ he
  | line a b x y z h0 hx hy hon ih =>
    obtain ⟨g, e⟩ := ih
    refine ⟨good_replace a b rfl g (Or.inl hx), ?_⟩
    rw [e]
    apply sum_replace a b rfl hF.congr
    refine hF.line x y z hx hy hon fun q hq => hK q ?_
    rw [(Shortened.line _ a b x y z h0 hx hy hon).onPath]
    exact ⟨_, mem_short a b x z, hq⟩
  | arc a b x y z c h0 hc ih =>
    obtain ⟨g, e⟩ := ih
    have hxy := g _ (mem_chain a b x y z).1
    have hyz := g _ (mem_chain a b x y z).2
    refine ⟨good_replace a b (x := x) (y := y) rfl g (hc.good (hc.apart hxy)), ?_⟩
    rw [e]
    refine sum_replace a b (x' := x.withBulge c) rfl hF.congr ?_
    refine hF.arc x y z c hc hxy hyz fun q hq => hK q ?_
    rw [(Shortened.arc _ a b x y z c h0 hc).onPath]
    exact ⟨_, mem_short a b _ z, hq⟩

/-! ## Length, area, winding -/

theorem segCurve_end (x : Vertex ℝ) {y z : Vertex ℝ} (h : y.pos = z.pos) : segCurve x y = segCurve x z :=
  funext fun s => segCurve_congr (rfl : x.pos = x.pos) rfl h s

theorem length_sum : SplitSum (fun _ => True) fun s => curveLength (segCurve s.1 s.2) := by
  refine ⟨fun x y z h => ?_, fun y z hl h _ => ?_, ?_, ?_⟩
  · simp only [segCurve_end x h]
  · simp only [funext (segCurve_line hl), curveLength_line, h]
    simp [edist]
  · intro x y z hx hy hon _
    simp only [funext (segCurve_line hx), funext (segCurve_line hy), curveLength_line]
    obtain ⟨t, t0, t1, e⟩ := hon
    rw [e]
    unfold edist linePoint
    simp only
    rw [show (x.pos.x - (x.pos.x + t * (z.pos.x - x.pos.x))) ^ 2 + (x.pos.y - (x.pos.y + t * (z.pos.y - x.pos.y))) ^ 2
        = t ^ 2 * ((x.pos.x - z.pos.x) ^ 2 + (x.pos.y - z.pos.y) ^ 2) by ring,
      show (x.pos.x + t * (z.pos.x - x.pos.x) - z.pos.x) ^ 2 + (x.pos.y + t * (z.pos.y - x.pos.y) - z.pos.y) ^ 2
        = (1 - t) ^ 2 * ((x.pos.x - z.pos.x) ^ 2 + (x.pos.y - z.pos.y) ^ 2) by ring,
      Real.sqrt_mul (by positivity), Real.sqrt_mul (by positivity), Real.sqrt_sq t0, Real.sqrt_sq (by linarith)]
    ring
  · intro x y z c h _ _ _
    simp only [funext (segCurve_arc h.arc1), funext (segCurve_arc h.arc2), funext (segCurve_arc h.notLine)]
    rw [curveLength_arc _ _ _ (bulge_ne_zero h.arc1), curveLength_arc _ _ _ (bulge_ne_zero h.arc2), curveLength_arc _ _ (x.withBulge c).bulge h.bulge_ne]
    have h1 := h.radius_eq
    have h2 := h.radius
    have h3 := h.abs_sweep
    unfold segRadius at h1 h2
    simp only at h1 h2
    rw [h1, ← h2]
    show _ = arcRadius x.pos y.pos x.bulge * |4 * Real.arctan c|
    rw [h3]; ring

theorem area_sum : SplitSum (fun _ => True) fun s => greenIntegral (segCurve s.1 s.2) := by
  refine ⟨fun x y z h => ?_, fun y z hl h _ => ?_, ?_, ?_⟩
  · simp only [segCurve_end x h]
  · simp only [funext (segCurve_line hl), greenIntegral_line, h]
    ring
  · intro x y z hx hy hon _
    simp only [funext (segCurve_line hx), funext (segCurve_line hy), greenIntegral_line]
    obtain ⟨t, t0, t1, e⟩ := hon
    rw [e]
    unfold linePoint
    simp only
    ring
  · intro x y z c h _ _ _
    simp only [funext (segCurve_arc h.arc1), funext (segCurve_arc h.arc2), funext (segCurve_arc h.notLine)]
    rw [greenIntegral_arc _ _ _ (bulge_ne_zero h.arc1), greenIntegral_arc _ _ _ (bulge_ne_zero h.arc2), greenIntegral_arc _ _ (x.withBulge c).bulge h.bulge_ne]
    have h1 := h.radius_eq
    have h2 := h.radius
    have h3 := h.center_eq
    have h4 := h.center
    have h5 := h.sweep
    unfold segRadius at h1 h2
    unfold segCenter at h3 h4
    simp only at h1 h2 h3 h4
    rw [h1, ← h2, h3, ← h4]
    show _ = (4 * Real.arctan c * _ + (arcCenter x.pos y.pos x.bulge).x * (z.pos.y - x.pos.y) - (arcCenter x.pos y.pos x.bulge).y * (z.pos.x - x.pos.x)) / 2
    rw [h5]; ring

theorem segCurve_flat {y z : Vertex ℝ} (h : y.pos = z.pos) (hl : IsLine y) (s : ℝ) : segCurve y z s = z.pos := by
  rw [segCurve_line hl, h, V2.ext_iff']; simp [linePoint]

/-- The joined arc is divided by the vertex between the two arcs. -/
theorem OneArc.divides {x y z : Vertex ℝ} {c : ℝ} (h : OneArc x y z c) : ∃ t : ℝ, 0 ≤ t ∧ t ≤ 1 ∧
    (∀ s, segCurve x y s = segCurve (x.withBulge c) z (t * s)) ∧ ∀ s, segCurve y z s = segCurve (x.withBulge c) z (t + (1 - t) * s) := by
  have hx := bulge_ne_zero h.arc1
  have hy := bulge_ne_zero h.arc2
  set A := 4 * Real.arctan x.bulge with hA
  set B := 4 * Real.arctan y.bulge with hB
  set o := arcCenter x.pos y.pos x.bulge with ho
  have hc : arcCenter y.pos z.pos y.bulge = o := h.center.symm
  have hc' : arcCenter x.pos z.pos c = o := h.center_eq
  have hyp : y.pos = turned o x.pos A := by
    have := arcPoint_one x.pos y.pos x.bulge hx
    rw [arcPoint_turned, one_mul] at this
    exact this.symm
  have f1 : ∀ t, segCurve x y t = turned o x.pos (t * A) := fun t => by rw [segCurve_arc h.arc1, arcPoint_turned]
  have f2 : ∀ t, segCurve y z t = turned o x.pos (t * B + A) := fun t => by
    rw [segCurve_arc h.arc2, arcPoint_turned, hc, ← turned_turned, ← hyp]
  have f3 : ∀ t, segCurve (x.withBulge c) z t = turned o x.pos (t * (A + B)) := fun t => by
    rw [segCurve_arc h.notLine, arcPoint_turned]
    show turned (arcCenter x.pos z.pos c) x.pos (t * (4 * Real.arctan c)) = _
    rw [hc', h.sweep]
  have hAB : (0 < A ∧ 0 < B) ∨ (A < 0 ∧ B < 0) := by
    rcases h.signs with ⟨h1, h2, _⟩ | ⟨h1, h2, _⟩
    · exact Or.inl ⟨by have := Real.arctan_pos.mpr h1; linarith, by have := Real.arctan_pos.mpr h2; linarith⟩
    · exact Or.inr ⟨by have := Real.arctan_lt_zero.mpr h1; linarith, by have := Real.arctan_lt_zero.mpr h2; linarith⟩
  have hS : A + B ≠ 0 := by rcases hAB with h | h <;> [exact (by linarith [h.1, h.2] : (0 : ℝ) < A + B).ne'; exact (by linarith [h.1, h.2] : A + B < 0).ne]
  have hA1 : 0 < A / (A + B) := by
    rcases hAB with h | h
    · exact div_pos h.1 (by linarith [h.1, h.2])
    · exact div_pos_of_neg_of_neg h.1 (by linarith [h.1, h.2])
  have hB1 : 0 < B / (A + B) := by
    rcases hAB with h | h
    · exact div_pos h.2 (by linarith [h.1, h.2])
    · exact div_pos_of_neg_of_neg h.2 (by linarith [h.1, h.2])
  have hsum : A / (A + B) + B / (A + B) = 1 := by field_simp
  refine ⟨A / (A + B), hA1.le, by linarith, fun s => ?_, fun s => ?_⟩
  · rw [f1, f3]; congr 1; field_simp
  · rw [f2, f3]; congr 1; field_simp; ring

theorem winding_sum (pt : V2 ℝ) : SplitSum (fun q => q ≠ pt) (segWinding pt) := by
  have hcongr : ∀ x y z : Vertex ℝ, y.pos = z.pos → segWinding pt (x, y) = segWinding pt (x, z) := by
    intro x y z h
    rw [← pieceWinding_of, ← pieceWinding_of]
    have hx : y.x = z.x := congrArg V2.x h
    have hy : y.y = z.y := congrArg V2.y h
    unfold pieceOf
    simp only [hx, hy]
  refine ⟨hcongr, fun y z hl h hK => ?_, ?_, ?_⟩
  · have := segWinding_split (v1 := y) (m := y) (v2 := y) (u := y) (t := 0) (pt := pt) (Or.inl hl) (Or.inl hl) (Or.inl hl) le_rfl zero_le_one
      (fun s => by rw [segCurve_flat rfl hl, segCurve_flat rfl hl]) (fun s => by rw [segCurve_flat rfl hl, segCurve_flat rfl hl])
      (by
        rw [onSeg_point rfl, h]
        exact fun e => hK e.symm)
    rw [hcongr y z y h.symm]
    omega
  · intro x y z hx hy hon hK
    obtain ⟨t, t0, t1, e⟩ := hon
    refine segWinding_split (Or.inl hx) (Or.inl hx) (Or.inl hy) t0 t1 (fun s => ?_) (fun s => ?_) (fun h => hK pt h rfl)
    · rw [segCurve_line hx, segCurve_line hx, e, V2.ext_iff']
      unfold linePoint
      constructor <;> simp only <;> ring
    · rw [segCurve_line hx, segCurve_line hy, e, V2.ext_iff']
      unfold linePoint
      constructor <;> simp only <;> ring
  · intro x y z c h hxy hyz hK
    obtain ⟨t, t0, t1, e1, e2⟩ := h.divides
    exact segWinding_split (h.good (h.apart hxy)) hxy hyz t0 t1 e1 e2 (fun h => hK pt h rfl)

end Cavc
