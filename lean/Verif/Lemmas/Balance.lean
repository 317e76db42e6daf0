import Verif.Lemmas.ProductRule

/-! # As many weighted pieces end at a point as start there -/

set_option linter.unusedSectionVars false

namespace Cavc
open Real Pline

/-! ### rotation -/

/-- a rotated vertex -/
noncomputable def rotVtx (φ : ℝ) (v : Vertex ℝ) : Vertex ℝ := ⟨v.x * cos φ - v.y * sin φ, v.x * sin φ + v.y * cos φ, v.bulge⟩

/-- a rotated segment -/
noncomputable def rotSeg (φ : ℝ) (s : Vertex ℝ × Vertex ℝ) : Vertex ℝ × Vertex ℝ := (rotVtx φ s.1, rotVtx φ s.2)

/-- a rotated point of the plane -/
noncomputable def rotZ (φ : ℝ) (z : ℝ × ℝ) : ℝ × ℝ := (z.1 * cos φ - z.2 * sin φ, z.1 * sin φ + z.2 * cos φ)

/-- a rotated polyline -/
noncomputable def rotP (φ : ℝ) (p : Pline ℝ) : Pline ℝ := ⟨p.verts.map (rotVtx φ), p.closed⟩

theorem rotZ_neg (φ : ℝ) (z : ℝ × ℝ) : rotZ φ (rotZ (-φ) z) = z := by
  have := sin_sq_add_cos_sq φ
  unfold rotZ
  rw [cos_neg, sin_neg]
  ext
  · simp only; linear_combination z.1 * this
  · simp only; linear_combination z.2 * this

theorem rotZ_inj {φ : ℝ} {z w : ℝ × ℝ} (h : rotZ φ z = rotZ φ w) : z = w := by
  have h1 := rotZ_neg (-φ) z
  have h2 := rotZ_neg (-φ) w
  rw [neg_neg] at h1 h2
  rw [← h1, ← h2, h]

theorem segCurve_rot (φ : ℝ) (v1 v2 : Vertex ℝ) (t : ℝ) :
    segCurve (rotVtx φ v1) (rotVtx φ v2) t = rotV φ (segCurve v1 v2 t) := by
  by_cases hl : IsLine v1
  · have hl' : IsLine (rotVtx φ v1) := hl
    rw [segCurve_line hl', segCurve_line hl, V2.ext_iff']
    simp only [linePoint, Vertex.pos, rotVtx, rotV]
    constructor <;> ring
  · have hl' : ¬ IsLine (rotVtx φ v1) := hl
    rw [segCurve_arc hl', segCurve_arc hl, V2.ext_iff']
    simp only [arcPoint, arcCenter, rotV, Vertex.pos, rotVtx]
    constructor <;> ring

theorem mem_segTrace_rot (φ : ℝ) (s : Vertex ℝ × Vertex ℝ) (z : ℝ × ℝ) : rotZ φ z ∈ segTrace (rotSeg φ s) ↔ z ∈ segTrace s := by
  constructor
  · rintro ⟨t, h0, h1, e⟩
    refine ⟨t, h0, h1, ?_⟩
    rw [rotSeg, segCurve_rot] at e
    have e' : rotZ φ z = rotZ φ ((segCurve s.1 s.2 t).x, (segCurve s.1 s.2 t).y) := by
      rw [V2.ext_iff'] at e
      exact Prod.ext e.1 e.2
    have := rotZ_inj e'
    rw [this]
  · rintro ⟨t, h0, h1, e⟩
    refine ⟨t, h0, h1, ?_⟩
    rw [rotSeg, segCurve_rot, ← e]
    rfl

theorem proper_rot (φ : ℝ) {s : Vertex ℝ × Vertex ℝ} (h : Proper s) : Proper (rotSeg φ s) := by
  rcases h with h | h
  · exact Or.inl h
  · refine Or.inr ⟨h.notLine, h.half, ?_⟩
    intro e
    apply h.ne
    have e' : rotZ φ (s.1.x, s.1.y) = rotZ φ (s.2.x, s.2.y) := by
      rw [V2.ext_iff'] at e
      exact Prod.ext e.1 e.2
    have := rotZ_inj e'
    rw [Prod.ext_iff] at this
    rw [V2.ext_iff']
    exact this

theorem dir_rot {θ x y : ℝ} (φ : ℝ) (h : Dir θ x y) : Dir (θ + φ) (x * cos φ - y * sin φ) (x * sin φ + y * cos φ) := by
  obtain ⟨ρ, hρ, rfl, rfl⟩ := h
  exact ⟨ρ, hρ, by rw [cos_add]; ring, by rw [sin_add]; ring⟩

/-- how far the end is turned from the start, by principal angles -/
noncomputable def endTurn (z : ℝ × ℝ) (s : Vertex ℝ × Vertex ℝ) : ℝ := ang (s.2.x - z.1) (s.2.y - z.2) - ang (s.1.x - z.1) (s.1.y - z.2)

theorem end_nz {s : Vertex ℝ × Vertex ℝ} {z : ℝ × ℝ} (hz : z ∉ segTrace s) :
    (s.1.x - z.1 ≠ 0 ∨ s.1.y - z.2 ≠ 0) ∧ (s.2.x - z.1 ≠ 0 ∨ s.2.y - z.2 ≠ 0) := by
  have key : ∀ v : Vertex ℝ, (v.x, v.y) ∈ segTrace s → v.x - z.1 ≠ 0 ∨ v.y - z.2 ≠ 0 := by
    intro v hv
    by_contra hc
    push Not at hc
    apply hz
    rw [show z = (v.x, v.y) from Prod.ext (by simp; linarith [hc.1]) (by simp; linarith [hc.2])]
    exact hv
  exact ⟨key _ (ends_on s).1, key _ (ends_on s).2⟩

theorem segW_rot (φ : ℝ) (s : Vertex ℝ × Vertex ℝ) (h : Proper s) {z : ℝ × ℝ} (hz : z ∉ segTrace s) :
    2 * π * (segW (rotZ φ z) (rotSeg φ s) : ℝ) + endTurn (rotZ φ z) (rotSeg φ s) = 2 * π * (segW z s : ℝ) + endTurn z s := by
  have hz' : rotZ φ z ∉ segTrace (rotSeg φ s) := by rw [mem_segTrace_rot]; exact hz
  obtain ⟨θ, hθ, ht⟩ := seg_turn s.1 s.2 h ⟨z.1, z.2⟩ hz
  have hθ' : FollowsAngle (segCurve (rotVtx φ s.1) (rotVtx φ s.2)) ⟨(rotZ φ z).1, (rotZ φ z).2⟩ 0 1 (fun t => θ t + φ) := by
    refine ⟨hθ.1.add continuousOn_const, ?_⟩
    intro t ht
    have := dir_rot φ (hθ.2 t ht)
    rw [segCurve_rot]
    unfold rotV rotZ
    simp only at this ⊢
    convert this using 1 <;> ring
  obtain ⟨n1, n2⟩ := end_nz hz
  obtain ⟨m1, m2⟩ := end_nz hz'
  have T1 := ht _ _ (ang_dir n1) (ang_pos _ _) (ang_le _ _) (ang_dir n2) (ang_pos _ _) (ang_le _ _)
  have T2 := segWinding_turn (proper_rot φ h) (pt := ⟨(rotZ φ z).1, (rotZ φ z).2⟩) hz' hθ' (ang_dir m1) (ang_pos _ _) (ang_le _ _)
    (ang_dir m2) (ang_pos _ _) (ang_le _ _)
  unfold endTurn segW
  simp only [rotSeg] at T2 ⊢
  linarith

theorem endTurn_sum_zero (z : ℝ × ℝ) (L : List (Vertex ℝ × Vertex ℝ)) (hc : (L.map fun s => s.2.pos).Perm (L.map fun s => s.1.pos)) :
    (L.map (endTurn z)).sum = 0 := by
  have h1 : ∀ L : List (Vertex ℝ × Vertex ℝ), (L.map (endTurn z)).sum =
      ((L.map fun s => s.2.pos).map fun u => ang (u.x - z.1) (u.y - z.2)).sum - ((L.map fun s => s.1.pos).map fun u => ang (u.x - z.1) (u.y - z.2)).sum := by
    intro L
    induction L with
    | nil => simp
    | cons s L ih =>
      simp only [List.map_cons, List.sum_cons, ih]
      simp only [endTurn, Vertex.pos]
      ring
  rw [h1, (hc.map _).sum_eq]
  ring

/-- the windings of a closed list of segments do not depend on the direction of the ray -/
theorem segW_sum_rot (φ : ℝ) (L : List (Vertex ℝ × Vertex ℝ)) (hp : ∀ s ∈ L, Proper s)
    (hc : (L.map fun s => s.2.pos).Perm (L.map fun s => s.1.pos)) {z : ℝ × ℝ} (hz : ∀ s ∈ L, z ∉ segTrace s) :
    ((L.map (rotSeg φ)).map (segW (rotZ φ z))).sum = (L.map (segW z)).sum := by
  have hc' : ((L.map (rotSeg φ)).map fun s => s.2.pos).Perm ((L.map (rotSeg φ)).map fun s => s.1.pos) := by
    have := hc.map (rotV φ)
    simp only [List.map_map] at this ⊢
    exact this
  have e1 := endTurn_sum_zero z L hc
  have e2 := endTurn_sum_zero (rotZ φ z) _ hc'
  have key : ∀ L : List (Vertex ℝ × Vertex ℝ), (∀ s ∈ L, Proper s) → (∀ s ∈ L, z ∉ segTrace s) →
      2 * π * (((L.map (rotSeg φ)).map (segW (rotZ φ z))).sum : ℤ) + ((L.map (rotSeg φ)).map (endTurn (rotZ φ z))).sum
        = 2 * π * ((L.map (segW z)).sum : ℤ) + (L.map (endTurn z)).sum := by
    intro L
    induction L with
    | nil => simp
    | cons s L ih =>
      intro hp hz
      have h1 := ih (fun s hs => hp s (by simp [hs])) (fun s hs => hz s (by simp [hs]))
      have h2 := segW_rot φ s (hp s (by simp)) (hz s (by simp))
      simp only [List.map_cons, List.sum_cons, Int.cast_add, mul_add]
      linarith
  have := key L hp hz
  rw [e1, e2, add_zero, add_zero] at this
  exact two_pi_cancel this

theorem pathSegs_snd {T : Type} : ∀ l : List (Vertex T), (pathSegs l).map Prod.snd = l.tail
  | [] => rfl
  | [_] => rfl
  | a :: b :: l => by
    have := pathSegs_snd (b :: l)
    simp [pathSegs, this]

theorem pathSegs_fst {T : Type} : ∀ l : List (Vertex T), (pathSegs l).map Prod.fst = l.dropLast
  | [] => rfl
  | [_] => rfl
  | a :: b :: l => by
    have := pathSegs_fst (b :: l)
    simp [pathSegs, this]

/-- the ends of the segments of a closed polyline are their starts in another order -/
theorem segs_perm {p : Pline ℝ} (h : Loop p) : (p.segs.map fun s => s.2.pos).Perm (p.segs.map fun s => s.1.pos) := by
  obtain ⟨vs, c⟩ := p
  have hc : c = true := h.closed
  subst hc
  have hperm : (((⟨vs, true⟩ : Pline ℝ).segs.map Prod.snd)).Perm ((⟨vs, true⟩ : Pline ℝ).segs.map Prod.fst) := by
    match vs, h.two with
    | a :: b :: r, _ =>
      have : (⟨a :: b :: r, true⟩ : Pline ℝ).segs = pathSegs (a :: b :: r ++ [a]) := by
        unfold Pline.segs; simp
      rw [this, pathSegs_snd, pathSegs_fst]
      simp only [List.cons_append, List.tail_cons]
      rw [show a :: b :: (r ++ [a]) = (a :: b :: r) ++ [a] by simp, List.dropLast_concat]
      have h2 : (b :: (r ++ [a])) = (b :: r) ++ [a] := by simp
      rw [h2]
      exact List.perm_append_singleton a (b :: r)
  have := hperm.map Vertex.pos
  simpa only [List.map_map, Function.comp_def] using this

theorem wn_segs {p : Pline ℝ} (h : Loop p) (z : ℝ × ℝ) : wn p z = (p.segs.map (segW z)).sum := by
  unfold wn
  rw [windingNumber_sum p h.closed h.two]
  unfold Pline.path
  rw [List.map_map]
  rfl

theorem segs_rot (φ : ℝ) (p : Pline ℝ) : (rotP φ p).segs = p.segs.map (rotSeg φ) := by
  unfold rotP
  rw [segs_map]
  rfl

theorem Loop.rot {p : Pline ℝ} (h : Loop p) (φ : ℝ) : Loop (rotP φ p) := by
  refine ⟨h.closed, by unfold rotP; simpa using h.two, ?_⟩
  intro s hs
  rw [segs_rot] at hs
  obtain ⟨s', hs', rfl⟩ := List.mem_map.mp hs
  rcases proper_rot φ (h.proper s' hs') with h1 | h1
  · exact Or.inl h1
  · exact Or.inr ⟨h1.notLine, h1.half, h1.ne⟩

theorem trace_iff (p : Pline ℝ) (z : ℝ × ℝ) : z ∈ trace p ↔ ∃ s ∈ p.segs, z ∈ segTrace s := Iff.rfl

theorem mem_trace_rot (φ : ℝ) (p : Pline ℝ) (z : ℝ × ℝ) : rotZ φ z ∈ trace (rotP φ p) ↔ z ∈ trace p := by
  rw [trace_iff, trace_iff, segs_rot]
  constructor
  · rintro ⟨s, hs, h⟩
    obtain ⟨s', hs', rfl⟩ := List.mem_map.mp hs
    exact ⟨s', hs', (mem_segTrace_rot φ s' z).mp h⟩
  · rintro ⟨s, hs, h⟩
    exact ⟨_, List.mem_map.mpr ⟨s, hs, rfl⟩, (mem_segTrace_rot φ s z).mpr h⟩

theorem wn_rot (φ : ℝ) {p : Pline ℝ} (h : Loop p) {z : ℝ × ℝ} (hz : z ∉ trace p) : wn (rotP φ p) (rotZ φ z) = wn p z := by
  rw [wn_segs (h.rot φ), wn_segs h, segs_rot]
  exact segW_sum_rot φ p.segs h.proper (segs_perm h) (fun s hs hm => hz ⟨s, hs, hm⟩)

/-- rotated weighted segments -/
noncomputable def rotL (φ : ℝ) (L : List (ℤ × (Vertex ℝ × Vertex ℝ))) : List (ℤ × (Vertex ℝ × Vertex ℝ)) := L.map fun e => (e.1, rotSeg φ e.2)

theorem Weighted.rot {p q : Pline ℝ} (hp : Loop p) (hq : Loop q) {L : List (ℤ × (Vertex ℝ × Vertex ℝ))} (h : Weighted p q L)
    (hc : (L.map fun e => e.2.2.pos).Perm (L.map fun e => e.2.1.pos)) (φ : ℝ) : Weighted (rotP φ p) (rotP φ q) (rotL φ L) := by
  have inv : ∀ z, z = rotZ φ (rotZ (-φ) z) := fun z => (rotZ_neg φ z).symm
  have hmem : ∀ e ∈ rotL φ L, ∃ e' ∈ L, e = (e'.1, rotSeg φ e'.2) := by
    intro e he
    obtain ⟨e', he', rfl⟩ := List.mem_map.mp he
    exact ⟨e', he', rfl⟩
  refine ⟨?_, ?_, ?_, ?_⟩
  · intro e he
    obtain ⟨e', he', rfl⟩ := hmem e he
    exact proper_rot φ (h.proper e' he')
  · intro e he z hz
    obtain ⟨e', he', rfl⟩ := hmem e he
    rw [inv z, mem_trace_rot]
    rw [inv z] at hz
    exact h.sub e' he' ((mem_segTrace_rot φ e'.2 _).mp hz)
  · intro e he z hz hzq
    obtain ⟨e', he', rfl⟩ := hmem e he
    rw [inv z] at hz hzq ⊢
    rw [mem_trace_rot] at hzq
    rw [wn_rot φ hq hzq]
    exact h.weight e' he' _ ((mem_segTrace_rot φ e'.2 _).mp hz) hzq
  · intro z hz
    rw [inv z] at hz ⊢
    rw [mem_trace_rot] at hz
    rw [wn_rot φ hp hz, h.total _ hz]
    have := segW_sum_rot φ (L.map fun e => e.2) (by intro s hs; obtain ⟨e, he, rfl⟩ := List.mem_map.mp hs; exact h.proper e he)
      (by simpa only [List.map_map, Function.comp_def] using hc) (z := rotZ (-φ) z)
      (by intro s hs; obtain ⟨e, he, rfl⟩ := List.mem_map.mp hs; exact fun hm => hz (h.sub e he hm))
    simp only [List.map_map] at this
    unfold rotL
    rw [List.map_map]
    exact this.symm

/-! ### heights -/

theorem seg_height_finite (s : Vertex ℝ × Vertex ℝ) (c : ℝ)
    (h : IsLine s.1 → s.1.y = s.2.y → s.1.y = c → s.1.x = s.2.x) : {x : ℝ | (x, c) ∈ segTrace s}.Finite := by
  obtain ⟨v, w⟩ := s
  by_cases hl : IsLine v
  · by_cases hy : v.y = w.y
    · by_cases hc : v.y = c
      · have hx : v.x = w.x := h hl hy hc
        apply (Set.finite_singleton v.x).subset
        rintro x ⟨t, -, -, e⟩
        rw [segCurve_line hl, V2.ext_iff'] at e
        have := e.1
        simp only [linePoint, Vertex.pos] at this
        rw [← hx] at this
        simp at this
        exact this
      · apply Set.finite_empty.subset
        rintro x ⟨t, -, -, e⟩
        rw [segCurve_line hl, V2.ext_iff'] at e
        have := e.2
        simp only [linePoint, Vertex.pos] at this
        rw [← hy] at this
        simp at this
        exact hc this.symm
    · apply (Set.finite_singleton (v.x + (c - v.y) / (w.y - v.y) * (w.x - v.x))).subset
      rintro x ⟨t, -, -, e⟩
      rw [segCurve_line hl, V2.ext_iff'] at e
      have h1 := e.1
      have h2 := e.2
      simp only [linePoint, Vertex.pos] at h1 h2
      have hd : w.y - v.y ≠ 0 := sub_ne_zero.mpr (Ne.symm hy)
      have ht : t = (c - v.y) / (w.y - v.y) := by
        rw [eq_div_iff hd]; linarith
      rw [Set.mem_singleton_iff, h1, ht]
  · obtain ⟨C, hC⟩ : ∃ C, C = arcCenter v.pos w.pos v.bulge := ⟨_, rfl⟩
    apply (Set.Finite.insert (C.x + √((v.x - C.x) ^ 2 + (v.y - C.y) ^ 2 - (c - C.y) ^ 2))
      (Set.finite_singleton (C.x - √((v.x - C.x) ^ 2 + (v.y - C.y) ^ 2 - (c - C.y) ^ 2)))).subset
    rintro x ⟨t, -, -, e⟩
    rw [segCurve_arc hl, V2.ext_iff'] at e
    have h1 := e.1
    have h2 := e.2
    simp only [arcPoint, rotV, ← hC] at h1 h2
    simp only [Vertex.pos] at h1 h2
    have hsc := sin_sq_add_cos_sq (t * (4 * arctan v.bulge))
    have hcirc : (x - C.x) ^ 2 = (v.x - C.x) ^ 2 + (v.y - C.y) ^ 2 - (c - C.y) ^ 2 := by
      rw [h1, h2]
      linear_combination ((v.x - C.x) ^ 2 + (v.y - C.y) ^ 2) * hsc
    rw [← hcirc, Real.sqrt_sq_eq_abs]
    rcases abs_cases (x - C.x) with ⟨ha, -⟩ | ⟨ha, -⟩
    · left; rw [ha]; ring
    · right; rw [Set.mem_singleton_iff, ha]; ring

/-- no straight segment is horizontal, except for segments of length 0 -/
def NoHorizontal (p : Pline ℝ) : Prop := ∀ s ∈ p.segs, IsLine s.1 → s.1.y = s.2.y → s.1.x = s.2.x

theorem trace_height_finite {p : Pline ℝ} (c : ℝ)
    (h : ∀ s ∈ p.segs, IsLine s.1 → s.1.y = s.2.y → s.1.y = c → s.1.x = s.2.x) : {x : ℝ | (x, c) ∈ trace p}.Finite := by
  have : {x : ℝ | (x, c) ∈ trace p} = ⋃ s ∈ {s | s ∈ p.segs}, {x : ℝ | (x, c) ∈ segTrace s} := by
    ext x
    simp only [Set.mem_setOf_eq, Set.mem_iUnion, trace_iff, exists_prop]
  rw [this]
  apply Set.Finite.biUnion (List.finite_toSet p.segs)
  intro s hs
  exact seg_height_finite s c (h s hs)

/-- heights at which the product rule can be applied -/
def GoodHeight (p1 p2 : Pline ℝ) (c : ℝ) : Prop :=
  {x : ℝ | (x, c) ∈ trace p1 ∪ trace p2}.Finite ∧ ∀ x : ℝ, ¬ ((x, c) ∈ trace p1 ∧ (x, c) ∈ trace p2)

theorem bad_heights_finite {p1 p2 : Pline ℝ} (hcom : (trace p1 ∩ trace p2).Finite) : {c | ¬ GoodHeight p1 p2 c}.Finite := by
  have hf : ((fun s : Vertex ℝ × Vertex ℝ => s.1.y) '' {s | s ∈ p1.segs ++ p2.segs} ∪ Prod.snd '' (trace p1 ∩ trace p2)).Finite :=
    ((List.finite_toSet _).image _).union (hcom.image _)
  apply hf.subset
  intro c hc
  by_contra hn
  apply hc
  have hseg : ∀ s ∈ p1.segs ++ p2.segs, s.1.y ≠ c := fun s hs e => hn (Or.inl ⟨s, hs, e⟩)
  refine ⟨?_, ?_⟩
  · have : {x : ℝ | (x, c) ∈ trace p1 ∪ trace p2} = {x : ℝ | (x, c) ∈ trace p1} ∪ {x : ℝ | (x, c) ∈ trace p2} := rfl
    rw [this]
    exact (trace_height_finite c (fun s hs _ _ e => absurd e (hseg s (by simp [hs])))).union
      (trace_height_finite c (fun s hs _ _ e => absurd e (hseg s (by simp [hs]))))
  · rintro x ⟨h1, h2⟩
    exact hn (Or.inr ⟨(x, c), ⟨h1, h2⟩, rfl⟩)

/-! ### the balance -/

open Classical in
/-- how many weighted segments end at `X` less those that start there -/
noncomputable def net (X : V2 ℝ) (L : List (ℤ × (Vertex ℝ × Vertex ℝ))) : ℤ :=
  (L.map fun e => e.1 * ((if e.2.2.pos = X then 1 else 0) - (if e.2.1.pos = X then 1 else 0))).sum

/-- the same for the points on the ray to the right -/
noncomputable def rayNet (z : ℝ × ℝ) (L : List (ℤ × (Vertex ℝ × Vertex ℝ))) : ℤ :=
  (L.map fun e => e.1 * (onRay z e.2.2.pos - onRay z e.2.1.pos)).sum

theorem wsum_change {L : List (ℤ × (Vertex ℝ × Vertex ℝ))} (hp : ∀ e ∈ L, Proper e.2) {z : ℝ × ℝ} (hz : ∀ e ∈ L, z ∉ segTrace e.2) :
    ∃ δ > 0, ∀ w ∈ Metric.ball z δ, wsum w L = wsum z L + if w.2 < z.2 then rayNet z L else 0 := by
  have hex : ∀ e ∈ L, ∃ δ > 0, ∀ w ∈ Metric.ball z δ,
      segW w e.2 = segW z e.2 + if w.2 < z.2 then onRay z e.2.2.pos - onRay z e.2.1.pos else 0 := by
    intro e he
    obtain ⟨δ, hδ, h⟩ := segW_change e.2 (hp e he) (hz e he)
    exact ⟨δ, hδ, fun w hw => (h w hw).2⟩
  obtain ⟨δ, hδ, h⟩ := list_radius (fun (e : ℤ × (Vertex ℝ × Vertex ℝ)) δ => ∀ w ∈ Metric.ball z δ,
      segW w e.2 = segW z e.2 + if w.2 < z.2 then onRay z e.2.2.pos - onRay z e.2.1.pos else 0)
    (fun a δ δ' hle h w hw => h w (Metric.ball_subset_ball hle hw)) L hex
  refine ⟨δ, hδ, ?_⟩
  intro w hw
  have key : ∀ L' : List (ℤ × (Vertex ℝ × Vertex ℝ)), (∀ e ∈ L', e ∈ L) → wsum w L' = wsum z L' + if w.2 < z.2 then rayNet z L' else 0 := by
    intro L'
    induction L' with
    | nil => intro _; simp [wsum, rayNet]
    | cons e L' ih =>
      intro hsub
      have h1 := ih (fun x hx => hsub x (by simp [hx]))
      have h2 := h e (hsub e (by simp)) w hw
      unfold wsum rayNet at h1 ⊢
      simp only [List.map_cons, List.sum_cons]
      rw [h1, h2]
      split_ifs <;> ring
  exact key L (fun _ h => h)

theorem rayNet_zero {p1 p2 : Pline ℝ} (l1 : Loop p1) (l2 : Loop p2) {L1 L2 : List (ℤ × (Vertex ℝ × Vertex ℝ))}
    (h1 : Weighted p1 p2 L1) (h2 : Weighted p2 p1 L2) (hcom : (trace p1 ∩ trace p2).Finite)
    {z : ℝ × ℝ} (hz1 : z ∉ trace p1) (hz2 : z ∉ trace p2) : rayNet z L1 + rayNet z L2 = 0 := by
  obtain ⟨δ1, d1, b1⟩ := wsum_change h1.proper (z := z) (fun e he hm => hz1 (h1.sub e he hm))
  obtain ⟨δ2, d2, b2⟩ := wsum_change h2.proper (z := z) (fun e he hm => hz2 (h2.sub e he hm))
  obtain ⟨δ3, d3, b3⟩ := wn_locally l1 hz1
  obtain ⟨δ4, d4, b4⟩ := wn_locally l2 hz2
  obtain ⟨δ, hδ, i1, i2, i3, i4⟩ : ∃ δ > 0, δ ≤ δ1 ∧ δ ≤ δ2 ∧ δ ≤ δ3 ∧ δ ≤ δ4 :=
    ⟨min (min δ1 δ2) (min δ3 δ4), by positivity, le_trans (min_le_left _ _) (min_le_left _ _), le_trans (min_le_left _ _) (min_le_right _ _),
      le_trans (min_le_right _ _) (min_le_left _ _), le_trans (min_le_right _ _) (min_le_right _ _)⟩
  have hbad := bad_heights_finite hcom
  have pick : ∀ a b : ℝ, a < b → ∃ c, a < c ∧ c < b ∧ GoodHeight p1 p2 c := by
    intro a b hab
    obtain ⟨c, hc, hg⟩ := ((Set.Ioo_infinite hab).diff hbad).nonempty
    exact ⟨c, hc.1, hc.2, by simpa using hg⟩
  obtain ⟨cu, u1, u2, ug⟩ := pick z.2 (z.2 + δ) (by linarith)
  obtain ⟨cd, v1, v2, vg⟩ := pick (z.2 - δ) z.2 (by linarith)
  have inball : ∀ c, |c - z.2| < δ → ∀ δ', δ ≤ δ' → (z.1, c) ∈ Metric.ball z δ' := by
    intro c hc δ' hle
    rw [Metric.mem_ball, Prod.dist_eq]
    simp only [dist_self, Real.dist_eq]
    exact max_lt (by linarith) (by linarith)
  have hcu : |cu - z.2| < δ := by rw [abs_lt]; constructor <;> linarith
  have hcd : |cd - z.2| < δ := by rw [abs_lt]; constructor <;> linarith
  have A := product_rule l1 l2 h1 h2 cu ug.1 ug.2 z.1 (b3 _ (inball cu hcu _ i3)).1 (b4 _ (inball cu hcu _ i4)).1
  have B := product_rule l1 l2 h1 h2 cd vg.1 vg.2 z.1 (b3 _ (inball cd hcd _ i3)).1 (b4 _ (inball cd hcd _ i4)).1
  rw [b1 _ (inball cu hcu _ i1), b2 _ (inball cu hcu _ i2), (b3 _ (inball cu hcu _ i3)).2, (b4 _ (inball cu hcu _ i4)).2] at A
  rw [b1 _ (inball cd hcd _ i1), b2 _ (inball cd hcd _ i2), (b3 _ (inball cd hcd _ i3)).2, (b4 _ (inball cd hcd _ i4)).2] at B
  simp only at A B
  rw [if_neg (by linarith), if_neg (by linarith)] at A
  rw [if_pos v2, if_pos v2] at B
  linarith

theorem onRay_yes {z : ℝ × ℝ} {Y : V2 ℝ} (h1 : Y.y = z.2) (h2 : z.1 < Y.x) : onRay z Y = 1 := by
  unfold onRay; rw [if_pos ⟨h1, h2⟩]

theorem onRay_no {z : ℝ × ℝ} {Y : V2 ℝ} (h : Y.y = z.2 → ¬ z.1 < Y.x) : onRay z Y = 0 := by
  unfold onRay; rw [if_neg (fun hh => h hh.1 hh.2)]

theorem net_diff {p q : Pline ℝ} {L : List (ℤ × (Vertex ℝ × Vertex ℝ))} (h : Weighted p q L) (X : V2 ℝ) {a b : ℝ} (ha : a < X.x) (hb : X.x < b)
    (hclear : ∀ y, a < y → y ≤ b → y ≠ X.x → (y, X.y) ∉ trace p) : rayNet (a, X.y) L - rayNet (b, X.y) L = net X L := by
  classical
  unfold rayNet net
  rw [← sum_sub_list]
  apply sum_congr_list
  intro e he
  have key : ∀ v : Vertex ℝ, (v.x, v.y) ∈ segTrace e.2 → onRay (a, X.y) v.pos - onRay (b, X.y) v.pos = if v.pos = X then 1 else 0 := by
    intro v hv
    have hvt := h.sub e he hv
    by_cases hy : v.pos.y = X.y
    · by_cases hx : v.pos.x = X.x
      · rw [onRay_yes hy (by show a < v.pos.x; linarith), onRay_no (fun _ h => by have h : b < v.pos.x := h; linarith),
          if_pos (V2.ext_iff'.mpr ⟨hx, hy⟩)]; rfl
      · rw [if_neg (fun e => hx (congrArg V2.x e))]
        by_cases h1 : b < v.pos.x
        · rw [onRay_yes hy (by show a < v.pos.x; linarith), onRay_yes hy h1]; rfl
        · by_cases h2 : a < v.pos.x
          · exact absurd (by rw [← hy]; exact hvt) (hclear v.pos.x h2 (by linarith) hx)
          · rw [onRay_no (fun _ => h2), onRay_no (fun _ => h1)]; rfl
    · rw [onRay_no (fun h => absurd h hy), onRay_no (fun h => absurd h hy), if_neg (fun e => hy (congrArg V2.y e))]; rfl
  have k1 := key e.2.1 (ends_on e.2).1
  have k2 := key e.2.2 (ends_on e.2).2
  rw [← k1, ← k2]
  ring

/-- the balance where no straight segment is horizontal -/
theorem balance_noHorizontal {p1 p2 : Pline ℝ} (l1 : Loop p1) (l2 : Loop p2) {L1 L2 : List (ℤ × (Vertex ℝ × Vertex ℝ))}
    (h1 : Weighted p1 p2 L1) (h2 : Weighted p2 p1 L2) (hcom : (trace p1 ∩ trace p2).Finite)
    (n1 : NoHorizontal p1) (n2 : NoHorizontal p2) (X : V2 ℝ) : net X L1 + net X L2 = 0 := by
  have hfin : ({x : ℝ | (x, X.y) ∈ trace p1} ∪ {x : ℝ | (x, X.y) ∈ trace p2}).Finite :=
    (trace_height_finite X.y (fun s hs a b _ => n1 s hs a b)).union (trace_height_finite X.y (fun s hs a b _ => n2 s hs a b))
  obtain ⟨ε, hε, hc⟩ : ∃ ε > 0, ∀ y, |y - X.x| < ε → y ≠ X.x → (y, X.y) ∉ trace p1 ∧ (y, X.y) ∉ trace p2 := by
    have hclosed : IsClosed (({x : ℝ | (x, X.y) ∈ trace p1} ∪ {x : ℝ | (x, X.y) ∈ trace p2}) \ {X.x}) := (hfin.subset Set.diff_subset).isClosed
    obtain ⟨ε, hε, hb⟩ := Metric.isOpen_iff.mp hclosed.isOpen_compl X.x (by simp)
    refine ⟨ε, hε, ?_⟩
    intro y h1 h2
    have hy : y ∉ {x : ℝ | (x, X.y) ∈ trace p1} ∪ {x : ℝ | (x, X.y) ∈ trace p2} := by
      intro hy
      exact hb (a := y) (by rw [Metric.mem_ball, Real.dist_eq]; exact h1) ⟨hy, h2⟩
    exact ⟨fun h => hy (Or.inl h), fun h => hy (Or.inr h)⟩
  have hcl : ∀ y, X.x - ε / 2 < y → y ≤ X.x + ε / 2 → y ≠ X.x → (y, X.y) ∉ trace p1 ∧ (y, X.y) ∉ trace p2 :=
    fun y a b n => hc y (by rw [abs_lt]; constructor <;> linarith) n
  have ca := hc (X.x - ε / 2) (by rw [abs_lt]; constructor <;> linarith) (by linarith)
  have cb := hc (X.x + ε / 2) (by rw [abs_lt]; constructor <;> linarith) (by linarith)
  have A := rayNet_zero l1 l2 h1 h2 hcom ca.1 ca.2
  have B := rayNet_zero l1 l2 h1 h2 hcom cb.1 cb.2
  have D1 := net_diff h1 X (a := X.x - ε / 2) (b := X.x + ε / 2) (by linarith) (by linarith) (fun y a b n => (hcl y a b n).1)
  have D2 := net_diff h2 X (a := X.x - ε / 2) (b := X.x + ε / 2) (by linarith) (by linarith) (fun y a b n => (hcl y a b n).2)
  linarith

theorem exists_rotation (L : List (Vertex ℝ × Vertex ℝ)) : ∃ φ : ℝ, ∀ s ∈ L, (rotVtx φ s.1).y = (rotVtx φ s.2).y → s.1.pos = s.2.pos := by
  have hbad : (⋃ s ∈ {s | s ∈ L}, {φ : ℝ | φ ∈ Set.Ioo 0 π ∧ (rotVtx φ s.1).y = (rotVtx φ s.2).y ∧ s.1.pos ≠ s.2.pos}).Finite := by
    apply Set.Finite.biUnion (List.finite_toSet L)
    intro s _
    apply Set.Subsingleton.finite
    rintro φ ⟨⟨f0, f1⟩, fe, hne⟩ ψ ⟨⟨g0, g1⟩, ge, -⟩
    simp only [rotVtx] at fe ge
    have hsφ := sin_pos_of_pos_of_lt_pi f0 f1
    have hsψ := sin_pos_of_pos_of_lt_pi g0 g1
    have hdy : s.2.y - s.1.y ≠ 0 := by
      intro h0
      have h1 : (s.2.x - s.1.x) * sin φ = 0 := by
        have : s.2.y = s.1.y := by linarith
        rw [this] at fe
        linarith
      rcases mul_eq_zero.mp h1 with h2 | h2
      · exact hne (V2.ext_iff'.mpr ⟨by simp [Vertex.pos]; linarith, by simp [Vertex.pos]; linarith⟩)
      · linarith
    have hz : sin (φ - ψ) = 0 := by
      rw [sin_sub]
      have : (s.2.y - s.1.y) * (sin φ * cos ψ - cos φ * sin ψ) = 0 := by
        linear_combination (-sin φ) * ge + (sin ψ) * fe
      rcases mul_eq_zero.mp this with h | h
      · exact absurd h hdy
      · exact h
    have := (sin_eq_zero_iff_of_lt_of_lt (by linarith) (by linarith)).mp hz
    linarith
  obtain ⟨φ, hφ, hn⟩ := ((Set.Ioo_infinite pi_pos).diff hbad).nonempty
  refine ⟨φ, ?_⟩
  intro s hs e
  by_contra hne
  exact hn (Set.mem_biUnion (show s ∈ {s | s ∈ L} from hs) ⟨hφ, e, hne⟩)

theorem net_rot (φ : ℝ) (X : V2 ℝ) (L : List (ℤ × (Vertex ℝ × Vertex ℝ))) : net (rotV φ X) (rotL φ L) = net X L := by
  classical
  unfold net rotL
  rw [List.map_map]
  apply sum_congr_list
  intro e _
  have key : ∀ v : Vertex ℝ, ((rotVtx φ v).pos = rotV φ X) = (v.pos = X) := by
    intro v
    apply propext
    constructor
    · intro h
      have h' : rotZ φ (v.x, v.y) = rotZ φ (X.x, X.y) := by
        rw [V2.ext_iff'] at h
        exact Prod.ext h.1 h.2
      have := rotZ_inj h'
      rw [Prod.ext_iff] at this
      exact V2.ext_iff'.mpr this
    · rintro rfl; rfl
  simp only [Function.comp_apply, rotSeg, key]

/-- **The balance.** -/
theorem balance {p1 p2 : Pline ℝ} (l1 : Loop p1) (l2 : Loop p2) {L1 L2 : List (ℤ × (Vertex ℝ × Vertex ℝ))}
    (h1 : Weighted p1 p2 L1) (h2 : Weighted p2 p1 L2) (hcom : (trace p1 ∩ trace p2).Finite)
    (c1 : (L1.map fun e => e.2.2.pos).Perm (L1.map fun e => e.2.1.pos)) (c2 : (L2.map fun e => e.2.2.pos).Perm (L2.map fun e => e.2.1.pos))
    (X : V2 ℝ) : net X L1 + net X L2 = 0 := by
  obtain ⟨φ, hφ⟩ := exists_rotation (p1.segs ++ p2.segs)
  have hnh : ∀ p : Pline ℝ, (∀ s ∈ p.segs, s ∈ p1.segs ++ p2.segs) → NoHorizontal (rotP φ p) := by
    intro p hp s hs hl hy
    rw [segs_rot] at hs
    obtain ⟨s', hs', rfl⟩ := List.mem_map.mp hs
    have := hφ s' (hp s' hs') hy
    rw [V2.ext_iff'] at this
    have hx : s'.1.x = s'.2.x := this.1
    have hy' : s'.1.y = s'.2.y := this.2
    simp only [rotSeg, rotVtx]
    rw [hx, hy']
  have hcom' : (trace (rotP φ p1) ∩ trace (rotP φ p2)).Finite := by
    apply (hcom.image (rotZ φ)).subset
    rintro z ⟨a, b⟩
    rw [← rotZ_neg φ z] at a b
    exact ⟨rotZ (-φ) z, ⟨(mem_trace_rot φ p1 _).mp a, (mem_trace_rot φ p2 _).mp b⟩, rotZ_neg φ z⟩
  have := balance_noHorizontal (l1.rot φ) (l2.rot φ) (h1.rot l1 l2 c1 φ) (h2.rot l2 l1 c2 φ) hcom'
    (hnh p1 (fun s hs => by simp [hs])) (hnh p2 (fun s hs => by simp [hs])) (rotV φ X)
  rwa [net_rot, net_rot] at this

end Cavc
