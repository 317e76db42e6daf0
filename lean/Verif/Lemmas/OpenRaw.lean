import Verif.Spec.OffsetOpenRaw
import Verif.Lemmas.OffsetArcsNear
import Verif.Lemmas.OpenResult

/-! # The raw offset of an open polyline of lines and arcs -/

set_option linter.unusedVariables false

namespace Cavc
open RealScalar Pline

/-- the vertexes added at a corner -/
noncomputable def linksOf (e : V2 ℝ) : Corner → List (Vertex ℝ)
  | .cut _ _ => []
  | .link b => [Vertex.ofV2 e b]

/-- one join -/
theorem join_any {ccw : Bool} {eps : ℝ} {s1 s2 : RawSeg ℝ} {x : Corner} (hj : Joins ccw eps s1 s2 x) (L : List (Vertex ℝ)) (lo : ℝ) (cl : Bool) (h0 : 0 ≤ lo)
    (hlt : lo < x.stop) (hl : LongPart s1.v1 lo x.stop)
    (hr : ¬ IsLine s1.v1 → (segCurve s1.v1 s1.v2 lo).fuzzyEqEps s1.v2.pos eps = false)
    (ha : (segCurve s1.v1 s1.v2 lo).fuzzyEqEps (segCurve s1.v1 s1.v2 x.stop) eps = false)
    (hb : ∀ b, x = .link b → s1.v2.pos.fuzzyEqEps s2.v1.pos eps = false) :
    joinSegPair ccw eps s1 s2 ⟨L ++ [partVertex (s1.v1, s1.v2) lo 1], cl⟩ =
      .ok ⟨L ++ partVertex (s1.v1, s1.v2) lo x.stop :: (linksOf s1.v2.pos x ++ [partVertex (s2.v1, s2.v2) x.start 1]), cl⟩ := by
  cases x with
  | cut t u => exact hj L lo cl h0 hlt hl hr ha
  | link b =>
    refine (hj _).trans ?_
    have hs : partVertex (s2.v1, s2.v2) (Corner.link b).start 1 = s2.v1 := partVertex_full _
    rw [hs]
    have hap := hb b rfl
    have h1 : (segCurve s1.v1 s1.v2 1) = s1.v2.pos := (segCurve_ends _ _).2
    change (segCurve s1.v1 s1.v2 lo).fuzzyEqEps (segCurve s1.v1 s1.v2 1) eps = false at ha
    rw [h1] at ha
    have e3 : appendVertex eps (L ++ [partVertex (s1.v1, s1.v2) lo 1]) (Vertex.ofV2 s1.v2.pos b) = L ++ [partVertex (s1.v1, s1.v2) lo 1] ++ [Vertex.ofV2 s1.v2.pos b] := by
      unfold appendVertex
      rw [List.getLast?_concat]
      simp only [partVertex_pos, ofV2_pos, ha, Bool.false_eq_true, if_false]
    have e4 : appendVertex eps (L ++ [partVertex (s1.v1, s1.v2) lo 1] ++ [Vertex.ofV2 s1.v2.pos b]) s2.v1 =
        L ++ [partVertex (s1.v1, s1.v2) lo 1] ++ [Vertex.ofV2 s1.v2.pos b] ++ [s2.v1] := by
      unfold appendVertex
      rw [List.getLast?_concat]
      simp only [ofV2_pos, hap, Bool.false_eq_true, if_false]
    show Except.ok (⟨appendVertex eps (appendVertex eps (L ++ [partVertex (s1.v1, s1.v2) lo 1]) (Vertex.ofV2 s1.v2.pos b)) s2.v1, cl⟩ : Pline ℝ) = _
    rw [e3, e4]
    simp [Corner.stop, linksOf]

section
variable {p : Pline ℝ} {d eps : ℝ} {c : Nat → Corner}

theorem ClearPath.ok (h : ClearPath p d c eps) {k : Nat} (hk : k + 1 < p.verts.length) : SegOk p d eps k := ⟨h.path.full k hk, h.radius k hk⟩

theorem ClearPath.seg (he : 0 < eps) (h : ClearPath p d c eps) {k : Nat} (hk : k + 1 < p.verts.length) :
    (parAt p d k).1.bulge = 0 ∨ ProperArc (parAt p d k).1 (parAt p d k).2 := by
  by_cases hl : IsLine (vtx p k)
  · left; rw [par_line hl]; rfl
  · exact Or.inr (par_proper he (h.ok hk) hl)

theorem ClearPath.bounds (he : 0 < eps) (h : ClearPath p d c eps) {k : Nat} (hk : k + 1 < p.verts.length) : 0 ≤ pathEnter c k ∧ pathLeave p c k ≤ 1 := by
  constructor
  · unfold pathEnter
    split_ifs with h0
    · exact le_rfl
    · exact (corner_bounds he (h.ok (by omega)) (h.ok (by omega)) (h.corners (k - 1) (by omega))).2
  · unfold pathLeave
    split_ifs with h0
    · exact (corner_bounds he (h.ok (by omega)) (h.ok (by omega)) (h.corners k h0)).1
    · exact le_rfl

/-- the vertexes of the raw offset, with the last one -/
noncomputable def pathAt (p : Pline ℝ) (d : ℝ) (c : Nat → Corner) (k : Nat) : Vertex ℝ :=
  if k + 1 < p.verts.length then partVertex (parAt p d k) (pathEnter c k) (pathLeave p c k) else (parAt p d (p.verts.length - 2)).2

theorem rawPath_verts (h2 : 2 ≤ p.verts.length) : (rawPath p d c).verts =
    (List.range (p.verts.length - 1)).flatMap (fun k => pathAt p d c k :: pathLink p d c k) ++ [pathAt p d c (p.verts.length - 1)] := by
  unfold rawPath
  dsimp only
  have e : pathAt p d c (p.verts.length - 1) = (parAt p d (p.verts.length - 2)).2 := by unfold pathAt; rw [if_neg (by omega)]
  rw [e]
  congr 1
  apply List.flatMap_congr
  intro k hk
  rw [List.mem_range] at hk
  unfold pathAt
  rw [if_pos (by omega)]

theorem rawPath_segs (h : ClearPath p d c eps) (s : Vertex ℝ × Vertex ℝ) :
    s ∈ (rawPath p d c).segs ↔ ∃ k, k + 1 < p.verts.length ∧ s ∈ pathSegs (pathAt p d c k :: pathLink p d c k ++ [pathAt p d c (k + 1)]) := by
  have h2 := h.path.two
  have hf := h.full.two
  have e : (rawPath p d c).segs = pathSegs (rawPath p d c).verts := by
    have hc : (rawPath p d c).closed = false := rfl
    unfold Pline.segs
    rw [hc]
    generalize (rawPath p d c).verts = l at hf ⊢
    match l, hf with
    | a :: b :: l, _ => simp
  rw [e, rawPath_verts h2, flat_path]
  exact exists_congr fun k => and_congr_left fun _ => by omega

/-- the vertex after the part of segment `k` -/
theorem path_next (he : 0 < eps) (h : ClearPath p d c eps) {k : Nat} (hk : k + 1 < p.verts.length) :
    ∃ w l, pathLink p d c k ++ [pathAt p d c (k + 1)] = w :: l ∧ w.pos = segCurve (parAt p d k).1 (parAt p d k).2 (pathLeave p c k) := by
  unfold pathLink pathLeave
  by_cases h0 : k + 2 < p.verts.length
  · rw [if_pos h0, if_pos h0]
    cases hc : c k with
    | cut t u =>
      refine ⟨_, [], rfl, ?_⟩
      have hx := h.corners k h0
      rw [hc] at hx
      unfold pathAt
      rw [if_pos (by omega), partVertex_pos]
      unfold pathEnter
      rw [if_neg (by omega), Nat.add_sub_cancel, hc]
      exact (corner_meet he (h.ok hk) (h.ok (by omega)) hx).symm
    | link b =>
      refine ⟨_, _, rfl, ?_⟩
      rw [ofV2_pos]
      exact (segCurve_ends _ _).2.symm
  · rw [if_neg h0, if_neg h0]
    refine ⟨_, [], rfl, ?_⟩
    unfold pathAt
    rw [if_neg (by omega), (segCurve_ends _ _).2, show p.verts.length - 2 = k by omega]

theorem rawPath_apart (h : ClearPath p d c eps) {s : Vertex ℝ × Vertex ℝ} (hs : s ∈ (rawPath p d c).segs) : s.1.pos.fuzzyEqEps s.2.pos eps = false := by
  obtain ⟨i, hi, e⟩ := List.getElem_of_mem hs
  obtain ⟨h1, rfl⟩ := (path_segs h.full.open h.full.two s i).mp (by rw [List.getElem?_eq_getElem hi, e])
  exact (h.full.full i h1).apart

theorem path_part_apart (he : 0 < eps) (h : ClearPath p d c eps) {k : Nat} (hk : k + 1 < p.verts.length) :
    (segCurve (parAt p d k).1 (parAt p d k).2 (pathEnter c k)).fuzzyEqEps (segCurve (parAt p d k).1 (parAt p d k).2 (pathLeave p c k)) eps = false := by
  obtain ⟨w, l, e, hw⟩ := path_next he h hk
  have := rawPath_apart h (s := (pathAt p d c k, w)) ((rawPath_segs h _).mpr ⟨k, hk, by rw [List.cons_append, e]; simp [pathSegs]⟩)
  dsimp only at this
  rw [hw] at this
  unfold pathAt at this
  rw [if_pos hk, partVertex_pos] at this
  exact this

theorem path_link_apart (he : 0 < eps) (h : ClearPath p d c eps) {k : Nat} (hk : k + 2 < p.verts.length) {b : ℝ} (hb : c k = .link b) :
    (parAt p d k).2.pos.fuzzyEqEps (parAt p d (k + 1)).1.pos eps = false := by
  have := rawPath_apart h (s := (Vertex.ofV2 (parAt p d k).2.pos b, pathAt p d c (k + 1))) ((rawPath_segs h _).mpr ⟨k, by omega, by
    unfold pathLink; rw [if_pos hk, hb]; simp [pathSegs]⟩)
  dsimp only at this
  unfold pathAt pathEnter at this
  rw [ofV2_pos, if_pos (by omega), partVertex_pos, if_neg (by omega), Nat.add_sub_cancel, hb] at this
  rw [← (segCurve_ends (parAt p d (k + 1)).1 (parAt p d (k + 1)).2).1]
  exact this

/-- the vertexes after the joins at the first `j` corners -/
noncomputable def pathState (p : Pline ℝ) (d : ℝ) (c : Nat → Corner) (j : Nat) : List (Vertex ℝ) :=
  (List.range j).flatMap (fun k => pathAt p d c k :: pathLink p d c k) ++ [partVertex (parAt p d j) (pathEnter c j) 1]

theorem joins_path (he : 0 < eps) (h : ClearPath p d c eps) : ∀ (len j : Nat), j + len + 1 < p.verts.length →
    joinPairs (decide (d < 0)) eps ((List.range' j len).map fun k => (rawPar p d k, rawPar p d (k + 1))) ⟨pathState p d c j, false⟩ = .ok ⟨pathState p d c (j + len), false⟩
  | 0, j, _ => by simp [joinPairs]
  | len + 1, j, hj => by
    rw [List.range'_succ]
    simp only [List.map_cons, joinPairs]
    have l1 : j + 1 < p.verts.length := by omega
    have l2 : j + 2 < p.verts.length := by omega
    have hlv : pathLeave p c j = (c j).stop := by unfold pathLeave; rw [if_pos l2]
    have hen : pathEnter c (j + 1) = (c j).start := by unfold pathEnter; rw [if_neg (by omega), Nat.add_sub_cancel]
    have hlk : pathLink p d c j = linksOf (parAt p d j).2.pos (c j) := by
      unfold pathLink; rw [if_pos l2]; cases c j <;> rfl
    have hJ := corner_joins he h.moves (h.ok l1) (h.ok (by omega)) (h.corners j l2)
    have hroom : ¬ IsLine (parAt p d j).1 → (parCurve p d j (pathEnter c j)).fuzzyEqEps (parAt p d j).2.pos eps = false := fun hn =>
      h.room j l2 fun hl => hn (by rw [par_line hl]; unfold IsLine Vertex.ofV2; norm_num)
    have := join_any (s1 := rawPar p d j) (s2 := rawPar p d (j + 1)) hJ
      ((List.range j).flatMap fun k => pathAt p d c k :: pathLink p d c k) (pathEnter c j) false (h.bounds he l1).1
      (hlv ▸ h.forward j l1) (hlv ▸ h.long j l1) hroom (hlv ▸ path_part_apart he h l1) (fun b hb => path_link_apart he h l2 hb)
    have e : (List.range j).flatMap (fun k => pathAt p d c k :: pathLink p d c k) ++
        partVertex ((rawPar p d j).v1, (rawPar p d j).v2) (pathEnter c j) (c j).stop :: (linksOf (rawPar p d j).v2.pos (c j) ++ [partVertex ((rawPar p d (j + 1)).v1, (rawPar p d (j + 1)).v2) (c j).start 1]) = pathState p d c (j + 1) := by
      unfold pathState
      rw [List.range_succ, List.flatMap_append, hen]
      simp only [List.flatMap_cons, List.flatMap_nil, List.append_nil]
      have : pathAt p d c j = partVertex ((rawPar p d j).v1, (rawPar p d j).v2) (pathEnter c j) (c j).stop := by
        unfold pathAt; rw [if_pos l1, hlv]; rfl
      rw [this, hlk]
      simp [rawPar]
    rw [e] at this
    change joinSegPair (decide (d < 0)) eps (rawPar p d j) (rawPar p d (j + 1)) ⟨pathState p d c j, false⟩ = _ at this
    rw [this]
    simp only [bind, Except.bind]
    rw [joins_path he h len (j + 1) (by omega)]
    congr 3
    omega

/-- The raw offset of an open polyline with clear corners. -/
theorem raw_clear_open (he : 0 < eps) (h : ClearPath p d c eps) : createRawOffsetPolyline p d eps = .ok (rawPath p d c) := by
  obtain ⟨m, hm⟩ : ∃ m, p.verts.length = m + 2 := ⟨p.verts.length - 2, by have := h.path.two; omega⟩
  have hcl := h.path.open
  have hraw : ∀ k, k + 1 < p.verts.length → rawSeg d (vtx p k, vtx p (k + 1)) = rawPar p d k := fun k hk => by
    rw [rawSeg_par d ((h.ok hk).ne he) (h.radius k hk)]; rfl
  have hsegs : p.segs = (List.range (m + 1)).map fun k => (vtx p k, vtx p (k + 1)) := by
    apply List.ext_getElem?
    intro i
    rw [List.getElem?_map]
    by_cases hi : i < m + 1
    · rw [(path_segs hcl h.path.two _ i).mpr ⟨by omega, rfl⟩, List.getElem?_range hi]
      rfl
    · rw [List.getElem?_eq_none (l := List.range (m + 1)) (by simp; omega)]
      cases hx : p.segs[i]? with
      | none => rfl
      | some s => exact absurd ((path_segs hcl h.path.two _ i).mp hx).1 (by omega)
  have hunt : createUntrimmedRawOffsetSegs p d = rawPar p d 0 :: (List.range m).map (fun k => rawPar p d (k + 1)) := by
    unfold createUntrimmedRawOffsetSegs
    rw [hsegs, List.map_map, List.map_congr_left (g := rawPar p d) (fun k hk => by
      rw [List.mem_range] at hk
      exact hraw k (by omega)), List.range_succ_eq_map, List.map_cons, List.map_map]
    rfl
  have hzip : (rawPar p d 0 :: (List.range m).map (fun k => rawPar p d (k + 1))).zip ((List.range m).map (fun k => rawPar p d (k + 1))) =
      (List.range' 0 m).map (fun k => (rawPar p d k, rawPar p d (k + 1))) := by
    rw [← List.range_eq_range']
    apply List.ext_getElem?
    intro i
    by_cases hi : i < m
    · cases i with
      | zero => simp [List.getElem?_zip_eq_some, hi]
      | succ i => simp [List.getElem?_zip_eq_some, hi, show i < m by omega]
    · rw [List.getElem?_eq_none (by simp; omega), List.getElem?_eq_none (by simp; omega)]
  have hlast : ∀ h, (rawPar p d 0 :: (List.range m).map (fun k => rawPar p d (k + 1))).getLast h = rawPar p d m := by
    intro h
    cases m with
    | zero => simp
    | succ m =>
      simp only [List.range_succ, List.map_append, List.map_singleton]
      rw [List.getLast_cons (by simp), List.getLast_append_singleton]
  unfold createRawOffsetPolyline
  rw [if_neg (by unfold vertexCount; omega), hunt]
  dsimp only
  rw [if_neg (by simp [rawPar]), hzip, hlast]
  obtain ⟨a, b, hab, ha⟩ : ∃ a b, a + b = m ∧ a = min 1 m := ⟨min 1 m, m - min 1 m, by omega, rfl⟩
  have ht1 : ((List.range' 0 m).map (fun k => (rawPar p d k, rawPar p d (k + 1)))).take 1 = (List.range' 0 a).map (fun k => (rawPar p d k, rawPar p d (k + 1))) := by
    rw [← List.map_take]
    congr 1
    cases m with
    | zero =>
      have : a = 0 := by omega
      subst this; simp
    | succ m =>
      have : a = 1 := by omega
      subst this
      rw [List.range'_succ]; rfl
  have hd1 : ((List.range' 0 m).map (fun k => (rawPar p d k, rawPar p d (k + 1)))).drop 1 = (List.range' a b).map (fun k => (rawPar p d k, rawPar p d (k + 1))) := by
    rw [← List.map_drop]
    congr 1
    cases m with
    | zero =>
      have : b = 0 := by omega
      subst this; simp
    | succ m =>
      have : a = 1 := by omega
      subst this
      have : b = m := by omega
      subst this
      rw [List.range'_succ]; rfl
  rw [ht1, hd1]
  have hccw : (Scalar.lt d 0 : Bool) = decide (d < 0) := by simp
  have hs0 : [(rawPar p d 0).v1] = pathState p d c 0 := by
    unfold pathState
    simp only [List.range_zero, List.flatMap_nil, List.nil_append, pathEnter, if_true]
    rw [partVertex_full]
    rfl
  rw [hccw, hcl, hs0, joins_path he h a 0 (by omega)]
  simp only [bind, Except.bind]
  rw [Nat.zero_add, joins_path he h b a (by omega), hab]
  simp only [Bool.false_and, Bool.false_eq_true, if_false]
  have hlv : pathLeave p c m = 1 := by unfold pathLeave; rw [if_neg (by omega)]
  have hap := path_part_apart he h (k := m) (by omega)
  rw [hlv, (segCurve_ends _ _).2] at hap
  have hend : (⟨pathState p d c m, false⟩ : Pline ℝ).addOrReplaceVertex (rawPar p d m).v2 eps = .ok (rawPath p d c) := by
    rw [addOrReplaceVertex_eq]
    unfold pathState
    rw [append_apart (by rw [partVertex_pos]; exact hap)]
    congr 1
    have hv : (rawPath p d c).verts = (List.range m).flatMap (fun k => pathAt p d c k :: pathLink p d c k) ++ [partVertex (parAt p d m) (pathEnter c m) 1, (rawPar p d m).v2] := by
      rw [rawPath_verts h.path.two, hm, show m + 2 - 1 = m + 1 by omega, List.range_succ, List.flatMap_append]
      have e1 : pathAt p d c m = partVertex (parAt p d m) (pathEnter c m) 1 := by unfold pathAt; rw [if_pos (by omega), hlv]
      have e2 : pathAt p d c (m + 1) = (rawPar p d m).v2 := by unfold pathAt; rw [if_neg (by omega), hm]; rfl
      have e3 : pathLink p d c m = [] := by unfold pathLink; rw [if_neg (by omega)]
      simp [e1, e2, e3]
    rw [← hv]
    rfl
  rw [hend]
  simp only
  have htwo := h.full.two
  rw [if_neg (by simp [vertexCount]; omega)]

theorem path_part_on (he : 0 < eps) (h : ClearPath p d c eps) {k : Nat} (hk : k + 1 < p.verts.length) {z : Vertex ℝ}
    (hz : z.pos = segCurve (parAt p d k).1 (parAt p d k).2 (pathLeave p c k)) (X : V2 ℝ) :
    OnSeg (pathAt p d c k) z X ↔ ∃ t, pathEnter c k ≤ t ∧ t ≤ pathLeave p c k ∧ X = parCurve p d k t := by
  have hlt := h.forward k hk
  have e0 : pathAt p d c k = partVertex (parAt p d k) (pathEnter c k) (pathLeave p c k) := by unfold pathAt; rw [if_pos hk]
  rw [e0]
  have hcv := fun x => part_curve (h.seg he hk) (h.bounds he hk).1 hlt (h.bounds he hk).2 (h.long k hk) hz x
  constructor
  · rintro ⟨x, x0, x1, e⟩
    refine ⟨pathEnter c k + (pathLeave p c k - pathEnter c k) * x, ?_, ?_, ?_⟩
    · nlinarith
    · nlinarith
    · rw [e]; exact hcv x
  · rintro ⟨t, t0, t1, e⟩
    have hpos : 0 < pathLeave p c k - pathEnter c k := by linarith
    refine ⟨(t - pathEnter c k) / (pathLeave p c k - pathEnter c k), div_nonneg (by linarith) hpos.le, (div_le_one hpos).mpr (by linarith), ?_⟩
    rw [e]
    refine Eq.trans ?_ (hcv _).symm
    unfold parCurve
    congr 1
    field_simp
    ring

/-- The points of the raw offset: what is left of the parallel segments, and the links. -/
theorem path_points (he : 0 < eps) (h : ClearPath p d c eps) (X : V2 ℝ) :
    OnPline (rawPath p d c) X ↔ (∃ k, k + 1 < p.verts.length ∧ ∃ t, pathEnter c k ≤ t ∧ t ≤ pathLeave p c k ∧ X = parCurve p d k t) ∨
      ∃ k, k + 2 < p.verts.length ∧ ∃ b, c k = .link b ∧ OnSeg (Vertex.ofV2 (parCurve p d k 1) b) (Vertex.ofV2 (parCurve p d (k + 1) 0) 0) X := by
  have hE : ∀ k, parCurve p d k 1 = (parAt p d k).2.pos := fun k => (segCurve_ends _ _).2
  have hlink : ∀ k, k + 2 < p.verts.length → ∀ b, c k = .link b → (pathAt p d c (k + 1)).pos = parCurve p d (k + 1) 0 := by
    intro k hk b hb
    unfold pathAt pathEnter
    rw [if_pos (by omega), partVertex_pos, if_neg (by omega), Nat.add_sub_cancel, hb]
    rfl
  unfold OnPline
  constructor
  · rintro ⟨s, hs, hX⟩
    obtain ⟨k, hk, hs⟩ := (rawPath_segs h s).mp hs
    obtain ⟨w, l, e, hw⟩ := path_next he h hk
    rw [List.cons_append, e] at hs
    rcases List.mem_cons.mp (show s ∈ (pathAt p d c k, w) :: pathSegs (w :: l) from hs) with rfl | hs
    · exact Or.inl ⟨k, hk, (path_part_on he h hk hw X).mp hX⟩
    · by_cases h2 : k + 2 < p.verts.length
      · cases hc : c k with
        | cut t u =>
          unfold pathLink at e
          rw [if_pos h2, hc] at e
          simp only [List.nil_append, List.cons.injEq] at e
          obtain ⟨rfl, rfl⟩ := e
          simp [pathSegs] at hs
        | link b =>
          unfold pathLink at e
          rw [if_pos h2, hc] at e
          simp only [List.cons_append, List.nil_append, List.cons.injEq] at e
          obtain ⟨rfl, rfl⟩ := e
          simp only [pathSegs, List.mem_singleton] at hs
          subst hs
          refine Or.inr ⟨k, h2, b, hc, ?_⟩
          rw [hE k]
          exact (onSeg_congr (hlink k h2 b hc)).mp hX
      · unfold pathLink at e
        rw [if_neg h2] at e
        simp only [List.nil_append, List.cons.injEq] at e
        obtain ⟨rfl, rfl⟩ := e
        simp [pathSegs] at hs
  · rintro (⟨k, hk, hX⟩ | ⟨k, hk, b, hc, hX⟩)
    · obtain ⟨w, l, e, hw⟩ := path_next he h hk
      refine ⟨(pathAt p d c k, w), (rawPath_segs h _).mpr ⟨k, hk, ?_⟩, (path_part_on he h hk hw X).mpr hX⟩
      rw [List.cons_append, e]
      simp [pathSegs]
    · refine ⟨(Vertex.ofV2 (parAt p d k).2.pos b, pathAt p d c (k + 1)), (rawPath_segs h _).mpr ⟨k, by omega, ?_⟩, ?_⟩
      · unfold pathLink
        rw [if_pos hk, hc]
        simp [pathSegs]
      · rw [hE k] at hX
        exact (onSeg_congr (hlink k hk b hc)).mpr hX

theorem path_within (he : 0 < eps) (h : ClearPath p d c eps) {X : V2 ℝ} (hX : OnPline (rawPath p d c) X) : ∃ Y, OnPline p Y ∧ edist X Y ≤ |d| := by
  have hon : ∀ k t, k + 1 < p.verts.length → 0 ≤ t → t ≤ 1 → OnPline p (segCurve (vtx p k) (vtx p (k + 1)) t) := fun k t hk t0 t1 =>
    ⟨_, List.mem_of_getElem? ((path_segs h.path.open h.path.two _ k).mpr ⟨hk, rfl⟩), t, t0, t1, rfl⟩
  rcases (path_points he h X).mp hX with ⟨k, hk, t, t0, t1, rfl⟩ | ⟨k, hk, b, hb, hX⟩
  · exact ⟨_, hon k t hk (le_trans (h.bounds he hk).1 t0) (le_trans t1 (h.bounds he hk).2), (par_moved_seg he (h.ok hk) t).edist.le⟩
  · refine ⟨segCurve (vtx p (k + 1)) (vtx p (k + 1 + 1)) 0, hon (k + 1) 0 (by omega) le_rfl zero_le_one, ?_⟩
    rw [(segCurve_ends _ _).1]
    exact link_within_seg he (h.ok (by omega)) (h.ok (by omega)) (hb ▸ h.corners k hk) hX

end

end Cavc
