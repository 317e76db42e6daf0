import Verif.Lemmas.ArcParts
import Verif.Lemmas.OpenCurve

/-! # The parts of the raw offset of an open polyline of lines and arcs -/

set_option linter.unusedVariables false
set_option linter.unusedSectionVars false

namespace Cavc
open RealScalar Pline

section
variable (p : Pline ℝ) (d : ℝ) (c : Nat → Corner)

/-- the corners, with nothing but an end after the last segment -/
noncomputable def innerCorner (k : Nat) : Corner := if k + 2 < p.verts.length then c k else .cut 1 0

/-- the parts of the raw offset -/
noncomputable def pathParts : List RawPart := (List.range (p.verts.length - 1)).flatMap (arcPartsOf (innerCorner p c))

/-- the vertex with which a part starts -/
noncomputable def pathStart : RawPart → Vertex ℝ
  | .side k => pathAt p d c k
  | .corner k => match innerCorner p c k with
    | .cut _ _ => pathAt p d c k
    | .link b => Vertex.ofV2 (parAt p d k).2.pos b

/-- the curve of a part -/
noncomputable def pathCurve : RawPart → ℝ → V2 ℝ
  | .side k => fun t => parCurve p d k (pathEnter c k + (pathLeave p c k - pathEnter c k) * t)
  | .corner k => match innerCorner p c k with
    | .cut _ _ => fun _ => cornerPos p k
    | .link b => segCurve (Vertex.ofV2 (parCurve p d k 1) b) (Vertex.ofV2 (parCurve p d (k + 1) 0) 0)

theorem inner_link {k : Nat} {b : ℝ} : innerCorner p c k = .link b ↔ k + 2 < p.verts.length ∧ c k = .link b := by
  unfold innerCorner
  split_ifs with h
  · simp [h]
  · simp [h]

theorem pathParts_verts (h2 : 2 ≤ p.verts.length) : (rawPath p d c).verts = (pathParts p c).map (pathStart p d c) ++ [pathAt p d c (p.verts.length - 1)] := by
  rw [rawPath_verts h2, pathParts, List.map_flatMap]
  congr 1
  refine List.flatMap_congr fun k hk => ?_
  unfold arcPartsOf pathLink
  by_cases h : k + 2 < p.verts.length
  · have e : innerCorner p c k = c k := by unfold innerCorner; rw [if_pos h]
    rw [if_pos h]
    cases hc : c k with
    | cut t u => simp [e, hc, pathStart]
    | link b => simp [e, hc, pathStart]
  · have e : innerCorner p c k = .cut 1 0 := by unfold innerCorner; rw [if_neg h]
    rw [if_neg h]
    simp [e, pathStart]

theorem pathParts_length (h2 : 2 ≤ p.verts.length) : (rawPath p d c).verts.length = (pathParts p c).length + 1 := by
  rw [pathParts_verts p d c h2]; simp

variable {p d c}

theorem mem_pathParts {q : RawPart} : q ∈ pathParts p c ↔ (∃ k, k + 1 < p.verts.length ∧ q = .side k) ∨ ∃ k, k + 2 < p.verts.length ∧ ∃ b, c k = .link b ∧ q = .corner k := by
  unfold pathParts
  rw [List.mem_flatMap]
  constructor
  · rintro ⟨k, hk, h⟩
    have hk := List.mem_range.mp hk
    unfold arcPartsOf at h
    cases hc : innerCorner p c k with
    | cut t u =>
      simp only [hc, List.mem_singleton] at h
      exact Or.inl ⟨k, by omega, h⟩
    | link b =>
      simp only [hc, List.mem_cons, List.not_mem_nil, or_false] at h
      rcases h with h | h
      · exact Or.inl ⟨k, by omega, h⟩
      · obtain ⟨h1, h2⟩ := (inner_link p c).mp hc
        exact Or.inr ⟨k, h1, b, h2, h⟩
  · rintro (⟨k, hk, rfl⟩ | ⟨k, hk, b, hc, rfl⟩)
    · refine ⟨k, List.mem_range.mpr (by omega), ?_⟩
      unfold arcPartsOf
      cases hc : innerCorner p c k <;> simp
    · exact ⟨k, List.mem_range.mpr (by omega), by simp [arcPartsOf, (inner_link p c).mpr ⟨hk, hc⟩]⟩

theorem pathPart_next {j : Nat} {q : RawPart} (h : (pathParts p c)[j]? = some q) :
    (j + 1 < (pathParts p c).length → (pathParts p c)[j + 1]? = some (nextPart (innerCorner p c) q)) ∧
    (j + 1 = (pathParts p c).length → nextPart (innerCorner p c) q = .side (p.verts.length - 1)) := by
  have hj : j < (pathParts p c).length := (List.getElem?_eq_some_iff.mp h).1
  have hpath : pathSegs (pathParts p c ++ [.side (p.verts.length - 1)]) = (pathParts p c).map fun q => (q, nextPart (innerCorner p c) q) := arc_path _ _
  have := congrArg (fun l => l[j]?) hpath
  simp only [List.getElem?_map, h, Option.map_some] at this
  obtain ⟨-, h2⟩ := (pathSegs_getElem _ _ _).mp this
  constructor
  · intro hlt
    rwa [List.getElem?_append_left hlt] at h2
  · intro heq
    rw [heq, List.getElem?_append_right le_rfl] at h2
    simp at h2
    exact h2.symm

theorem pathPart_zero (h2 : 2 ≤ p.verts.length) : (pathParts p c)[0]? = some (.side 0) := by
  unfold pathParts
  obtain ⟨m, hm⟩ : ∃ m, p.verts.length - 1 = m + 1 := ⟨p.verts.length - 2, by omega⟩
  rw [hm, List.range_succ_eq_map, List.flatMap_cons]
  unfold arcPartsOf
  cases innerCorner p c 0 <;> rfl

theorem pathPart_vtx (h2 : 2 ≤ p.verts.length) {j : Nat} {q : RawPart} (h : (pathParts p c)[j]? = some q) :
    vtx (rawPath p d c) j = pathStart p d c q ∧ vtx (rawPath p d c) (j + 1) = pathStart p d c (nextPart (innerCorner p c) q) := by
  have hj : j < (pathParts p c).length := (List.getElem?_eq_some_iff.mp h).1
  obtain ⟨h1, h3⟩ := pathPart_next h
  have key : ∀ i x, (pathParts p c)[i]? = some x → vtx (rawPath p d c) i = pathStart p d c x := by
    intro i x hx
    have hi' : i < (pathParts p c).length := (List.getElem?_eq_some_iff.mp hx).1
    have hi : i < (rawPath p d c).verts.length := by rw [pathParts_length p d c h2]; omega
    have := vtx_at hi
    rw [pathParts_verts p d c h2, List.getElem?_append_left (by rwa [List.length_map]), List.getElem?_map, hx, Option.map_some, Option.some.injEq] at this
    exact this.symm
  refine ⟨key j q h, ?_⟩
  rcases Nat.lt_or_ge (j + 1) (pathParts p c).length with hlt | hge
  · exact key _ _ (h1 hlt)
  · have heq : j + 1 = (pathParts p c).length := by omega
    rw [h3 heq]
    have hi : j + 1 < (rawPath p d c).verts.length := by rw [pathParts_length p d c h2]; omega
    have := vtx_at hi
    rw [pathParts_verts p d c h2, List.getElem?_append_right (by rw [List.length_map]; omega), List.length_map, heq, Nat.sub_self] at this
    simp only [List.getElem?_cons_zero, Option.some.injEq] at this
    rw [heq]
    exact this.symm

/-- the curve of a segment of the raw offset -/
theorem pathPart_curve {eps : ℝ} (he : 0 < eps) (hr : ClearPath p d c eps) {j : Nat} {q : RawPart} (h : (pathParts p c)[j]? = some q) (t : ℝ) :
    curveAt (rawPath p d c) j t = pathCurve p d c q t := by
  have h2 := hr.path.two
  rw [curveAt_vtx (by rw [pathParts_length p d c h2]; omega)]
  obtain ⟨e1, e2⟩ := pathPart_vtx (d := d) h2 h
  rw [e1, e2]
  rcases mem_pathParts.mp (List.mem_of_getElem? h) with ⟨k, hk, rfl⟩ | ⟨k, hk, b, hc, rfl⟩
  · have e0 : pathStart p d c (.side k) = partVertex (parAt p d k) (pathEnter c k) (pathLeave p c k) := by
      show pathAt p d c k = _
      unfold pathAt; rw [if_pos hk]
    rw [e0]
    refine part_curve (hr.seg he hk) (hr.bounds he hk).1 (hr.forward k hk) (hr.bounds he hk).2 (hr.long k hk) ?_ t
    obtain ⟨w, l, hwl, hw⟩ := path_next he hr hk
    rw [← hw]
    congr 1
    unfold pathLink at hwl
    unfold nextPart
    by_cases h0 : k + 2 < p.verts.length
    · have e : innerCorner p c k = c k := by unfold innerCorner; rw [if_pos h0]
      rw [if_pos h0] at hwl
      cases hc : c k with
      | cut t u =>
        rw [hc] at hwl
        simp only [List.nil_append, List.cons.injEq] at hwl
        simp only [e, hc]
        exact hwl.1
      | link b =>
        rw [hc] at hwl
        simp only [List.cons_append, List.cons.injEq] at hwl
        simp only [pathStart, e, hc]
        exact hwl.1
    · have e : innerCorner p c k = .cut 1 0 := by unfold innerCorner; rw [if_neg h0]
      rw [if_neg h0] at hwl
      simp only [List.nil_append, List.cons.injEq] at hwl
      simp only [e]
      exact hwl.1
  · have e3 : (pathAt p d c (k + 1)).pos = parCurve p d (k + 1) 0 := by
      unfold pathAt pathEnter
      rw [if_pos (by omega), partVertex_pos, if_neg (by omega), Nat.add_sub_cancel, hc]
      rfl
    have e4 : parCurve p d k 1 = (parAt p d k).2.pos := (segCurve_ends _ _).2
    have e5 := (inner_link p c).mpr ⟨hk, hc⟩
    simp only [pathStart, nextPart, pathCurve, e5, e4]
    exact segCurve_congr rfl rfl (by rw [e3, ofV2_pos]) t

end

end Cavc
