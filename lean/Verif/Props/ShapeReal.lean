import Verif.Props.Shape
import Verif.Props.OffsetReal

/-! # C45, C51: shapes over the real numbers -/

set_option linter.unusedSectionVars false
set_option linter.unusedVariables false

namespace Cavc
open RealScalar

theorem union_contains_left (a b : AABB ℝ) (p : V2 ℝ) (h : a.Contains p) : (a.union b).Contains p := by
  obtain ⟨h1, h2, h3, h4⟩ := h
  unfold AABB.union AABB.Contains
  simp only [min_eq, max_eq]
  exact ⟨le_trans (min_le_left _ _) h1, le_trans h2 (le_max_left _ _), le_trans (min_le_left _ _) h3, le_trans h4 (le_max_left _ _)⟩

theorem union_contains_right (a b : AABB ℝ) (p : V2 ℝ) (h : b.Contains p) : (a.union b).Contains p := by
  obtain ⟨h1, h2, h3, h4⟩ := h
  unfold AABB.union AABB.Contains
  simp only [min_eq, max_eq]
  exact ⟨le_trans (min_le_right _ _) h1, le_trans h2 (le_max_right _ _), le_trans (min_le_right _ _) h3, le_trans h4 (le_max_right _ _)⟩

theorem foldl_union_contains (bs : List (AABB ℝ)) (a : AABB ℝ) (p : V2 ℝ) (h : a.Contains p ∨ ∃ b ∈ bs, b.Contains p) :
    (bs.foldl AABB.union a).Contains p := by
  induction bs generalizing a with
  | nil => simpa using h
  | cons b bs ih =>
    rw [List.foldl_cons]
    apply ih
    rcases h with h | ⟨c, hc, h⟩
    · exact Or.inl (union_contains_left _ _ _ h)
    · rcases List.mem_cons.mp hc with rfl | hc
      · exact Or.inl (union_contains_right _ _ _ h)
      · exact Or.inr ⟨c, hc, h⟩

theorem boundsOf_contains (bs : List (AABB ℝ)) (B b : AABB ℝ) (p : V2 ℝ) (hB : boundsOf bs = some B) (hb : b ∈ bs) (h : b.Contains p) :
    B.Contains p := by
  cases bs with
  | nil => simp at hb
  | cons a bs =>
    simp only [boundsOf, Option.some.injEq] at hB
    subst hB
    apply foldl_union_contains
    rcases List.mem_cons.mp hb with rfl | hb
    · exact Or.inl h
    · exact Or.inr ⟨b, hb, h⟩

theorem overlaps_of_contains (a b : AABB ℝ) (p : V2 ℝ) (ha : a.Contains p) (hb : b.Contains p) : a.overlaps b = true := by
  obtain ⟨h1, h2, h3, h4⟩ := ha
  obtain ⟨g1, g2, g3, g4⟩ := hb
  unfold AABB.overlaps
  simp only [lt_eq, gt_eq, Bool.not_eq_true', Bool.or_eq_false_iff, decide_eq_false_iff_not, not_lt]
  refine ⟨⟨⟨?_, ?_⟩, ?_⟩, ?_⟩ <;> linarith

/-- **C45** Asking the index of a well formed shape with a box that contains a point of a loop visits
that loop. -/
theorem C45_index_visits (s : Shape ℝ) (h : s.WellFormed) (i : Nat) (ip : IndexedPline ℝ) (hi : s.loops[i]? = some ip)
    (sg : Vertex ℝ × Vertex ℝ) (hsg : sg ∈ ip.pline.segs) (hb : IsLine sg.1 ∨ |sg.1.bulge| ≤ 1) (pt : V2 ℝ) (hpt : OnSeg sg.1 sg.2 pt)
    (B : AABB ℝ) (hB : B.Contains pt) : i ∈ s.plinesIndex.query B := by
  have hbox := congrArg (fun l => l[i]?) h.boxes
  simp only [List.getElem?_map, hi, Option.map_some] at hbox
  obtain ⟨b, hb1, hb2⟩ := Option.map_eq_some_iff.mp hbox
  rw [h.index.mem_query]
  refine ⟨b, hb1, ?_⟩
  refine overlaps_of_contains _ _ pt ?_ hB
  exact boundsOf_contains _ b (segBox sg) pt hb2.symm (List.mem_map.mpr ⟨sg, hsg, rfl⟩) (C33_fast_box sg.1 sg.2 hb pt hpt)

/-- **C51** The middle of the first segment of everything that is kept in an offset of a shape keeps
the offset distance, less the tolerances, to every point of every other loop of the shape. -/
theorem C51_kept_distance (inputs : List (IndexedPline ℝ)) (offset : ℝ) (o : ShapeOffsetOptions ℝ) (parent : Nat) (raw : Pline ℝ)
    (d : ViewData ℝ) (h : MidClear inputs offset o parent raw d) (heps : 0 < o.posEqualEps) (htol : 0 ≤ o.offsetDistEps)
    (hD : o.offsetDistEps ≤ |offset|) :
    ∃ vs a b, d.Reads raw vs ∧ vs[0]? = some a ∧ vs[1]? = some b ∧
      ∀ (j : Nat) (ip : IndexedPline ℝ), inputs[j]? = some ip → j ≠ parent → (∀ s ∈ ip.pline.segs, IsLine s.1 ∨ ProperArc s.1 s.2) →
        ∀ s ∈ ip.pline.segs, ∀ q, OnSeg s.1 s.2 q →
          (|offset| - o.offsetDistEps) ^ 2 < edist (segMidpoint a b) q ^ 2 + 2 / 100000000 ∨
            |offset| - o.offsetDistEps < edist (segMidpoint a b) q + 3 * o.posEqualEps := by
  obtain ⟨vs, a, b, h1, h2, h3, h4⟩ := h
  refine ⟨vs, a, b, h1, h2, h3, ?_⟩
  intro j ip hip hne hp
  exact C43_clear_distance ip.pline hp offset _ _ heps htol hD _ (h4 j ip hip hne)

/-- The shape of one triangle satisfies the hypotheses of `C45_index_visits`. -/
example : ∃ (s : Shape ℝ) (ip : IndexedPline ℝ), Shape.fromPlines Env.plain [⟨[⟨0, 0, 0⟩, ⟨4, 0, 1⟩, ⟨0, 4, 0⟩], true⟩] = .ok s ∧ s.WellFormed ∧
    s.loops[0]? = some ip ∧ ((⟨4, 0, 1⟩ : Vertex ℝ), (⟨0, 4, 0⟩ : Vertex ℝ)) ∈ ip.pline.segs ∧ |(1 : ℝ)| ≤ 1 ∧
    OnSeg (⟨4, 0, 1⟩ : Vertex ℝ) (⟨0, 4, 0⟩ : Vertex ℝ) (segCurve (⟨4, 0, 1⟩ : Vertex ℝ) (⟨0, 4, 0⟩ : Vertex ℝ) (1 / 2)) := by
  obtain ⟨s, hs, hp⟩ := C45_partition (T := ℝ) Env.plain Env.plain_lawful [⟨[⟨0, 0, 0⟩, ⟨4, 0, 1⟩, ⟨0, 4, 0⟩], true⟩]
  obtain ⟨s', hs', hw, -⟩ := C45_from_plines (T := ℝ) Env.plain Env.plain_lawful [⟨[⟨0, 0, 0⟩, ⟨4, 0, 1⟩, ⟨0, 4, 0⟩], true⟩]
  rw [hs] at hs'
  cases hs'
  have he := hp.eq_singleton
  obtain ⟨ip, hip, hpl⟩ := List.map_eq_singleton_iff.mp he
  refine ⟨s, ip, hs, hw, by rw [hip]; rfl, ?_, by simp, 1 / 2, by norm_num, by norm_num, rfl⟩
  rw [hpl]
  exact List.mem_cons_of_mem _ (List.mem_cons_self ..)

/-- A slice of one loop whose middle is clear of another loop that is ten units away. -/
example : MidClear [IndexedPline.new Env.plain (⟨[⟨0, 1, 0⟩, ⟨4, 1, 0⟩], false⟩ : Pline ℝ), IndexedPline.new Env.plain ⟨[⟨0, 10, 0⟩, ⟨4, 10, 0⟩], false⟩]
    1 ⟨1 / 100000, 1 / 10000, 1 / 10000⟩ 0 ⟨[⟨0, 0, 0⟩, ⟨4, 0, 0⟩], false⟩ ⟨0, 0, ⟨0, 0, 0⟩, 0, ⟨4, 0⟩, false⟩ := by
  refine ⟨[⟨0, 0, 0⟩, ⟨4, 0, 0⟩], ⟨0, 0, 0⟩, ⟨4, 0, 0⟩, ⟨rfl, by simp⟩, rfl, rfl, ?_⟩
  intro j ip hj hne
  match j, hne with
  | 1, _ =>
    simp only [List.getElem?_cons_succ, List.getElem?_cons_zero, Option.some.injEq] at hj
    subst hj
    intro s hs hov
    have : s = (⟨0, 10, 0⟩, ⟨4, 10, 0⟩) := by
      simpa [IndexedPline.new, Pline.segs, Pline.pathSegs] using hs
    subst this
    exfalso
    have hm : segMidpoint (⟨0, 0, 0⟩ : Vertex ℝ) ⟨4, 0, 0⟩ = ⟨2, 0⟩ := by
      unfold segMidpoint
      rw [bulgeIsZero_true (by simp [IsLine, RealScalar.fuzzyEps_eq])]
      simp [midpoint, V2.ext_iff']
      norm_num
    rw [hm] at hov
    unfold segBox segFastApproxBoundingBox at hov
    rw [bulgeIsZero_true (by simp [IsLine, RealScalar.fuzzyEps_eq])] at hov
    simp [AABB.overlaps, minMax_eq] at hov
    norm_num at hov
  | j + 2, _ => simp at hj

end Cavc
