import Verif.Lemmas.FootAll

/-! # The parts of the raw offset of lines and arcs -/

set_option linter.unusedVariables false
set_option linter.unusedSectionVars false

namespace Cavc
open RealScalar Pline

section
variable (p : Pline ℝ) (d : ℝ) (c : Nat → Corner)

/-- the parts that belong to segment `k` -/
def arcPartsOf (k : Nat) : List RawPart := match c k with
  | .cut _ _ => [.side k]
  | .link _ => [.side k, .corner k]

/-- the parts of the raw offset -/
def arcParts : List RawPart := (List.range p.verts.length).flatMap (arcPartsOf c)

/-- the part after a part -/
def nextPart : RawPart → RawPart
  | .side k => match c k with
    | .cut _ _ => .side (k + 1)
    | .link _ => .corner k
  | .corner k => .side (k + 1)

/-- the vertex with which a part starts -/
noncomputable def arcStart : RawPart → Vertex ℝ
  | .side k => partAt p d c k
  | .corner k => match c k with
    | .cut _ _ => partAt p d c k
    | .link b => Vertex.ofV2 (parAt p d k).2.pos b

/-- the curve of a part -/
noncomputable def arcCurve : RawPart → ℝ → V2 ℝ
  | .side k => fun t => parCurve p d k (enterAt p c k + (leaveAt p c k - enterAt p c k) * t)
  | .corner k => match c k with
    | .cut _ _ => fun _ => cornerPos p k
    | .link b => segCurve (Vertex.ofV2 (parCurve p d k 1) b) (Vertex.ofV2 (parCurve p d (k + 1) 0) 0)

theorem arc_path : ∀ m, pathSegs ((List.range m).flatMap (arcPartsOf c) ++ [.side m]) = ((List.range m).flatMap (arcPartsOf c)).map fun q => (q, nextPart c q)
  | 0 => by simp [pathSegs]
  | m + 1 => by
    have ih := arc_path m
    rw [List.range_succ, List.flatMap_append, List.map_append, ← ih]
    simp only [List.flatMap_cons, List.flatMap_nil, List.append_nil]
    unfold arcPartsOf
    cases h : c m with
    | cut t u =>
      simp only [List.append_assoc, List.cons_append, List.nil_append]
      rw [pathSegs_join]
      simp [pathSegs, nextPart, h]
    | link b =>
      simp only [List.append_assoc, List.cons_append, List.nil_append]
      rw [pathSegs_join]
      simp [pathSegs, nextPart, h]

theorem arcParts_verts : (rawWith p d c).verts = (arcParts p c).map (arcStart p d c) := by
  rw [raw_verts, arcParts, List.map_flatMap]
  refine List.flatMap_congr fun k hk => ?_
  rw [linkVertex_eq p d c (List.mem_range.mp hk)]
  unfold arcPartsOf
  cases h : c k with
  | cut t u => rfl
  | link b => simp [arcStart, h]

theorem arcParts_length : (rawWith p d c).verts.length = (arcParts p c).length := by rw [arcParts_verts, List.length_map]

variable {p d c}

theorem mem_arcParts {q : RawPart} : q ∈ arcParts p c ↔ (∃ k < p.verts.length, q = .side k) ∨ ∃ k < p.verts.length, ∃ b, c k = .link b ∧ q = .corner k := by
  unfold arcParts
  rw [List.mem_flatMap]
  constructor
  · rintro ⟨k, hk, h⟩
    have hk := List.mem_range.mp hk
    unfold arcPartsOf at h
    cases hc : c k with
    | cut t u =>
      simp only [hc, List.mem_singleton] at h
      exact Or.inl ⟨k, hk, h⟩
    | link b =>
      simp only [hc, List.mem_cons, List.not_mem_nil, or_false] at h
      rcases h with h | h
      · exact Or.inl ⟨k, hk, h⟩
      · exact Or.inr ⟨k, hk, b, hc, h⟩
  · rintro (⟨k, hk, rfl⟩ | ⟨k, hk, b, hc, rfl⟩)
    · refine ⟨k, List.mem_range.mpr hk, ?_⟩
      unfold arcPartsOf
      cases hc : c k <;> simp
    · exact ⟨k, List.mem_range.mpr hk, by simp [arcPartsOf, hc]⟩

theorem arcPart_next {j : Nat} {q : RawPart} (h : (arcParts p c)[j]? = some q) :
    (j + 1 < (arcParts p c).length → (arcParts p c)[j + 1]? = some (nextPart c q)) ∧
    (j + 1 = (arcParts p c).length → nextPart c q = .side p.verts.length) := by
  have hj : j < (arcParts p c).length := (List.getElem?_eq_some_iff.mp h).1
  have hpath : pathSegs (arcParts p c ++ [.side p.verts.length]) = (arcParts p c).map fun q => (q, nextPart c q) := arc_path c _
  have := congrArg (fun l => l[j]?) hpath
  simp only [List.getElem?_map, h, Option.map_some] at this
  obtain ⟨-, h2⟩ := (pathSegs_getElem _ _ _).mp this
  constructor
  · intro hlt
    rwa [List.getElem?_append_left hlt] at h2
  · intro heq
    rw [heq, List.getElem?_append_right le_rfl] at h2
    simp at h2
    exact h2.symm

theorem arcPart_zero (hn : 0 < p.verts.length) : (arcParts p c)[0]? = some (.side 0) := by
  unfold arcParts
  obtain ⟨m, hm⟩ : ∃ m, p.verts.length = m + 1 := ⟨p.verts.length - 1, by omega⟩
  rw [hm, List.range_succ_eq_map, List.flatMap_cons]
  unfold arcPartsOf
  cases c 0 <;> rfl

theorem arcPart_vtx (hn : 0 < p.verts.length) {j : Nat} {q : RawPart} (h : (arcParts p c)[j]? = some q) :
    vtx (rawWith p d c) j = arcStart p d c q ∧ vtx (rawWith p d c) (j + 1) = arcStart p d c (nextPart c q) := by
  have hj : j < (arcParts p c).length := (List.getElem?_eq_some_iff.mp h).1
  obtain ⟨h1, h2⟩ := arcPart_next h
  have key : ∀ i x, (arcParts p c)[i]? = some x → vtx (rawWith p d c) i = arcStart p d c x := by
    intro i x hx
    have hi : i < (rawWith p d c).verts.length := by rw [arcParts_length]; exact (List.getElem?_eq_some_iff.mp hx).1
    have := vtx_at hi
    rw [arcParts_verts, List.getElem?_map, hx, Option.map_some, Option.some.injEq] at this
    exact this.symm
  refine ⟨key j q h, ?_⟩
  rcases Nat.lt_or_ge (j + 1) (arcParts p c).length with hlt | hge
  · exact key _ _ (h1 hlt)
  · have heq : j + 1 = (arcParts p c).length := by omega
    rw [h2 heq]
    have := partAt_add p d c hn 0
    rw [Nat.zero_add] at this
    show _ = partAt p d c p.verts.length
    rw [this]
    have h0 := key 0 _ (arcPart_zero hn)
    rw [show partAt p d c 0 = arcStart p d c (.side 0) from rfl, ← h0, ← vtx_add _ 0, Nat.zero_add, arcParts_length, heq]

/-- the curve of a segment of the raw offset -/
theorem arcPart_curve {eps : ℝ} (hr : RunFacts p d eps c) {j : Nat} {q : RawPart} (h : (arcParts p c)[j]? = some q) (t : ℝ) :
    curveAt (rawWith p d c) j t = arcCurve p d c q t := by
  have hn : 0 < p.verts.length := by have := hr.two; omega
  have hj : j < (arcParts p c).length := (List.getElem?_eq_some_iff.mp h).1
  rw [curveAt_vtx (by rw [arcParts_length]; omega)]
  obtain ⟨e1, e2⟩ := arcPart_vtx (d := d) hn h
  rw [e1, e2]
  rcases mem_arcParts.mp (List.mem_of_getElem? h) with ⟨k, hk, rfl⟩ | ⟨k, hk, b, hc, rfl⟩
  · refine part_curve (hr.seg k) (hr.lo0 k) (hr.lt k) (hr.hi1 k) (hr.long k) ?_ t
    unfold nextPart
    cases hc : c k with
    | cut t u =>
      simp only [hc]
      show (partAt p d c (k + 1)).pos = _
      rw [partAt, partVertex_pos, enterAt_succ p c hk, leaveAt_eq p c hk, hc]
      exact (hr.meet k hk t u hc).symm
    | link b =>
      simp only [arcStart, hc]
      rw [ofV2_pos, leaveAt_eq p c hk, hc]
      exact (segCurve_ends _ _).2.symm
  · have e3 : (partAt p d c (k + 1)).pos = parCurve p d (k + 1) 0 := by
      rw [partAt, partVertex_pos, enterAt_succ p c hk, hc]
      rfl
    have e4 : parCurve p d k 1 = (parAt p d k).2.pos := (segCurve_ends _ _).2
    simp only [arcStart, nextPart, arcCurve, hc, e4]
    exact segCurve_congr rfl rfl (by rw [e3, ofV2_pos]) t

end

end Cavc
