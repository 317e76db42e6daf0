import Verif.Lemmas.OffsetArcsPart
import Verif.Lemmas.OffsetStraightRaw
import Verif.Props.RawOffset

/-! # The run of the raw offset of a closed polyline of lines and arcs, given the joins -/

set_option linter.unusedVariables false

namespace Cavc
open RealScalar Pline

theorem long_mono {v : Vertex ℝ} {lo hi lo' hi' : ℝ} (h : LongPart v lo hi) (hb : IsLine v ∨ |v.bulge| ≤ 1) (h0 : 0 ≤ lo') (h1 : lo' ≤ lo) (h2 : lo ≤ hi) (h3 : hi ≤ hi') (h4 : hi' ≤ 1) :
    LongPart v lo' hi' := by
  rcases h with h | h
  · exact Or.inl h
  rcases hb with hb | hb
  · exact Or.inl hb
  right
  refine h.trans ?_
  have a1 := Real.arctan_lt_pi_div_two v.bulge
  have a2 := Real.neg_pi_div_two_lt_arctan v.bulge
  have hpi := Real.pi_pos
  rcases le_total 0 (Real.arctan v.bulge) with ha | ha
  · have l1 : (hi - lo) * Real.arctan v.bulge ≤ (hi' - lo') * Real.arctan v.bulge := mul_le_mul_of_nonneg_right (by linarith) ha
    have l0 : 0 ≤ (hi - lo) * Real.arctan v.bulge := mul_nonneg (by linarith) ha
    have l2 : (hi' - lo') * Real.arctan v.bulge < Real.pi / 2 := by nlinarith
    have t0 : 0 ≤ Real.tan ((hi - lo) * Real.arctan v.bulge) := Real.tan_nonneg_of_nonneg_of_le_pi_div_two l0 (by linarith)
    have t1 : Real.tan ((hi - lo) * Real.arctan v.bulge) ≤ Real.tan ((hi' - lo') * Real.arctan v.bulge) := by
      rcases l1.lt_or_eq with l | l
      · exact (Real.tan_lt_tan_of_lt_of_lt_pi_div_two (by linarith) l2 l).le
      · rw [l]
    rw [abs_of_nonneg t0, abs_of_nonneg (t0.trans t1)]
    exact t1
  · have l1 : (hi' - lo') * Real.arctan v.bulge ≤ (hi - lo) * Real.arctan v.bulge := mul_le_mul_of_nonpos_right (by linarith) ha
    have l0 : (hi - lo) * Real.arctan v.bulge ≤ 0 := mul_nonpos_of_nonneg_of_nonpos (by linarith) ha
    have l2 : -(Real.pi / 2) < (hi' - lo') * Real.arctan v.bulge := by nlinarith
    have t0 : Real.tan ((hi - lo) * Real.arctan v.bulge) ≤ 0 := Real.tan_nonpos_of_nonpos_of_neg_pi_div_two_le l0 (by linarith)
    have t1 : Real.tan ((hi' - lo') * Real.arctan v.bulge) ≤ Real.tan ((hi - lo) * Real.arctan v.bulge) := by
      rcases l1.lt_or_eq with l | l
      · exact (Real.tan_lt_tan_of_lt_of_lt_pi_div_two (by linarith) (by linarith) l).le
      · rw [l]
    rw [abs_of_nonpos t0, abs_of_nonpos (t1.trans t0)]
    linarith

/-! ## Trimming -/

theorem setLast_concat (L : List (Vertex ℝ)) (l v : Vertex ℝ) (c : Bool) : (⟨L ++ [l], c⟩ : Pline ℝ).setLast v = .ok ⟨L ++ [v], c⟩ := by
  unfold Pline.setLast Pline.setVertex
  rw [if_neg (by simp), if_pos (by simp)]
  simp

theorem trim_part {s : RawSeg ℝ} (hs : ProperArc s.v1 s.v2) {lo hi eps : ℝ} (h0 : 0 ≤ lo) (h : lo < hi) (h1 : hi ≤ 1) (hl : LongPart s.v1 lo hi)
    (hf : (segCurve s.v1 s.v2 lo).fuzzyEqEps s.v2.pos eps = false) (L : List (Vertex ℝ)) (c : Bool) :
    trimPrevArc s.v2 eps (segCenter (s.v1, s.v2)) (segCurve s.v1 s.v2 hi) ⟨L ++ [partVertex (s.v1, s.v2) lo 1], c⟩ =
      .ok ⟨L ++ [partVertex (s.v1, s.v2) lo hi], c⟩ := by
  have hb := bulge_ne_zero hs.notLine
  have hlo : lo < 1 := by linarith
  have hl1 : LongPart s.v1 lo 1 := long_mono hl (Or.inr hs.half) h0 le_rfl h.le h1 le_rfl
  have hbz : (partVertex (s.v1, s.v2) lo 1).bulgeIsZero = false := by
    apply bulgeIsZero_false
    unfold IsLine partVertex Vertex.ofV2
    exact not_lt.mpr (hl1.resolve_left hs.notLine)
  have hne : (partVertex (s.v1, s.v2) lo 1).pos ≠ s.v2.pos := by
    rw [partVertex_pos]
    have := arcPoint_ne hs.ne hb hs.half h0 hlo le_rfl
    rw [arcPoint_one _ _ _ hb] at this
    rw [segCurve_arc hs.notLine]; exact this
  have hcen : arcCenter (partVertex (s.v1, s.v2) lo 1).pos s.v2.pos (partVertex (s.v1, s.v2) lo 1).bulge = segCenter (s.v1, s.v2) := by
    rw [partVertex_pos, segCurve_arc hs.notLine]
    have := part_center (p := s.v1.pos) (q := s.v2.pos) hb h0 hlo le_rfl
    rw [arcPoint_one _ _ _ hb] at this
    exact this
  have hbp : (partVertex (s.v1, s.v2) lo 1).bulge ≠ 0 := part_ne hb h0 hlo le_rfl
  unfold trimPrevArc
  have e1 : (⟨L ++ [partVertex (s.v1, s.v2) lo 1], c⟩ : Pline ℝ).last = some (partVertex (s.v1, s.v2) lo 1) := by
    unfold Pline.last; exact List.getLast?_concat
  rw [e1]
  simp only [bind, Except.bind, unwrap]
  rw [hbz, partVertex_pos, hf]
  simp only [Bool.not_false, Bool.and_self, if_true]
  rw [segArcRadiusAndCenter_eq _ _ hbp hne]
  simp only [hcen]
  have key := bulge_part (s := (s.v1, s.v2)) hs (old := (partVertex (s.v1, s.v2) lo 1).bulge) h0 h h1 (by
      rintro rfl rfl
      rw [partVertex_full]) (part_sign hs.half h0 hlo le_rfl).1
  have hp : (partVertex (s.v1, s.v2) lo 1).bulgeIsPos = decide (0 < (partVertex (s.v1, s.v2) lo 1).bulge) := by simp
  rw [hp]
  dsimp only at key
  split_ifs at key ⊢ with hc
  · rw [setLast_concat, key]
    rfl
  · rw [show partVertex (s.v1, s.v2) lo 1 = partVertex (s.v1, s.v2) lo hi from ?_]
    unfold partVertex at key ⊢
    simp only [Vertex.ofV2] at key ⊢
    rw [key]

/-! ## What a join does -/

/-- What the join of two raw segments does. -/
def Joins (ccw : Bool) (eps : ℝ) (s1 s2 : RawSeg ℝ) : Corner → Prop
  | .cut t u => ∀ (L : List (Vertex ℝ)) (lo : ℝ) (cl : Bool), 0 ≤ lo → lo < t → LongPart s1.v1 lo t →
      (¬ IsLine s1.v1 → (segCurve s1.v1 s1.v2 lo).fuzzyEqEps s1.v2.pos eps = false) →
      (segCurve s1.v1 s1.v2 lo).fuzzyEqEps (segCurve s1.v1 s1.v2 t) eps = false →
      joinSegPair ccw eps s1 s2 ⟨L ++ [partVertex (s1.v1, s1.v2) lo 1], cl⟩ =
        .ok ⟨L ++ [partVertex (s1.v1, s1.v2) lo t, partVertex (s2.v1, s2.v2) u 1], cl⟩
  | .link b => ∀ r : Pline ℝ, joinSegPair ccw eps s1 s2 r = .ok ⟨appendVertexes eps r.verts [Vertex.ofV2 s1.v2.pos b, s2.v1], r.closed⟩

/-! ## The polyline of the specification -/

section
variable (p : Pline ℝ) (d : ℝ) (c : Nat → Corner)

/-- the raw segment of the code -/
noncomputable def rawPar (k : Nat) : RawSeg ℝ := ⟨(parAt p d k).1, (parAt p d k).2, cornerPos p (k + 1), false⟩

theorem rawSeg_par {v w : Vertex ℝ} (hne : v.pos ≠ w.pos) (hr : IsLine v ∨ 1 / 100000000 ≤ offRadius v w d) :
    rawSeg d (v, w) = ⟨(parSeg v w d).1, (parSeg v w d).2, w.pos, false⟩ := by
  unfold rawSeg parSeg
  by_cases hl : IsLine v
  · rw [bulgeIsZero_true hl, if_pos rfl, if_pos hl]
    exact rawLineSeg_moved d v w
  · rw [bulgeIsZero_false hl, if_neg (by simp), if_neg hl]
    have hb := bulge_ne_zero hl
    have := rawArc_ends d v w hb hne
    dsimp only at this
    have hr' : ¬ (arcRadius v.pos w.pos v.bulge + radiusChange d v < 1 / 100000000) := not_lt.mpr (hr.resolve_left hl)
    rw [this]
    simp only [if_neg hr', decide_eq_false hr']
    rfl

theorem parAt_add (k : Nat) : parAt p d (k + p.verts.length) = parAt p d k := by
  unfold parAt
  rw [show k + p.verts.length + 1 = k + 1 + p.verts.length by omega, vtx_add, vtx_add]

theorem leaveAt_add (k : Nat) : leaveAt p c (k + p.verts.length) = leaveAt p c k := by
  unfold leaveAt; rw [Nat.add_mod_right]

theorem enterAt_add (hn : 0 < p.verts.length) (k : Nat) : enterAt p c (k + p.verts.length) = enterAt p c k := by
  unfold enterAt
  rw [show k + p.verts.length + p.verts.length - 1 = (k + p.verts.length - 1) + p.verts.length by omega, Nat.add_mod_right]

theorem enterAt_succ {k : Nat} (hk : k < p.verts.length) : enterAt p c (k + 1) = (c k).start := by
  unfold enterAt
  rw [show k + 1 + p.verts.length - 1 = k + p.verts.length by omega, Nat.add_mod_right, Nat.mod_eq_of_lt hk]

theorem leaveAt_eq {k : Nat} (hk : k < p.verts.length) : leaveAt p c k = (c k).stop := by
  unfold leaveAt; rw [Nat.mod_eq_of_lt hk]

theorem linkVertex_eq {k : Nat} (hk : k < p.verts.length) : linkVertex p d c k = match c k with
    | .cut _ _ => []
    | .link b => [Vertex.ofV2 (parAt p d k).2.pos b] := by
  unfold linkVertex; rw [Nat.mod_eq_of_lt hk]; cases c k <;> rfl

/-- the vertex of the part of parallel segment `k` -/
noncomputable def partAt (k : Nat) : Vertex ℝ := partVertex (parAt p d k) (enterAt p c k) (leaveAt p c k)

theorem partAt_add (hn : 0 < p.verts.length) (k : Nat) : partAt p d c (k + p.verts.length) = partAt p d c k := by
  unfold partAt
  rw [parAt_add, enterAt_add p c hn, leaveAt_add]

end

theorem flat_split {α : Type} (V : Nat → α) (C : Nat → List α) : ∀ (n k : Nat), k < n →
    ∃ A B, (List.range n).flatMap (fun k => V k :: C k) ++ [V n] = A ++ (V k :: C k ++ [V (k + 1)]) ++ B
  | 0, k, h => absurd h (by omega)
  | n + 1, k, h => by
    rw [List.range_succ, List.flatMap_append]
    simp only [List.flatMap_cons, List.flatMap_nil, List.append_nil]
    by_cases hk : k = n
    · subst hk
      exact ⟨(List.range k).flatMap fun k => V k :: C k, [], by simp⟩
    · obtain ⟨A, B, e⟩ := flat_split V C n k (by omega)
      refine ⟨A, B ++ (C n ++ [V (n + 1)]), ?_⟩
      rw [← List.append_assoc, ← e]
      simp

section
variable {p : Pline ℝ} {d eps : ℝ} {c : Nat → Corner}

theorem raw_verts : (rawWith p d c).verts = (List.range p.verts.length).flatMap fun k => partAt p d c k :: linkVertex p d c k := rfl

/-- neighbours in the raw offset -/
theorem raw_near (hn : 0 < p.verts.length) (hf : FullLoop (rawWith p d c) eps) {k : Nat} (hk : k < p.verts.length) :
    ∀ s ∈ pathSegs (partAt p d c k :: linkVertex p d c k ++ [partAt p d c (k + 1)]), s.1.pos.fuzzyEqEps s.2.pos eps = false := by
  intro s hs
  obtain ⟨A, B, e⟩ := flat_split (partAt p d c) (linkVertex p d c) p.verts.length k hk
  have h0 : partAt p d c p.verts.length = partAt p d c 0 := by have := partAt_add p d c hn 0; rwa [Nat.zero_add] at this
  obtain ⟨l, hl⟩ : ∃ l, (rawWith p d c).verts = partAt p d c 0 :: l := by
    rw [raw_verts]
    obtain ⟨m, hm⟩ : ∃ m, p.verts.length = m + 1 := ⟨p.verts.length - 1, by omega⟩
    rw [hm, List.range_succ_eq_map, List.flatMap_cons]
    exact ⟨_, rfl⟩
  apply loop_segs hf hl
  rw [raw_verts, ← h0, e]
  apply pathSegs_prefix
  exact pathSegs_suffix _ _ _ hs

/-- The facts about the parts of the raw offset that the run uses. -/
structure RunFacts (p : Pline ℝ) (d eps : ℝ) (c : Nat → Corner) : Prop where
  two : 2 ≤ p.verts.length
  seg : ∀ k, (parAt p d k).1.bulge = 0 ∨ ProperArc (parAt p d k).1 (parAt p d k).2
  joins : ∀ k < p.verts.length, Joins (decide (d < 0)) eps (rawPar p d k) (rawPar p d (k + 1)) (c k)
  meet : ∀ k < p.verts.length, ∀ t u, c k = .cut t u → segCurve (parAt p d k).1 (parAt p d k).2 t = segCurve (parAt p d (k + 1)).1 (parAt p d (k + 1)).2 u
  lo0 : ∀ k, 0 ≤ enterAt p c k
  lt : ∀ k, enterAt p c k < leaveAt p c k
  hi1 : ∀ k, leaveAt p c k ≤ 1
  long : ∀ k, LongPart (parAt p d k).1 (enterAt p c k) (leaveAt p c k)
  room : ∀ k, ¬ IsLine (parAt p d k).1 → (segCurve (parAt p d k).1 (parAt p d k).2 (enterAt p c k)).fuzzyEqEps (parAt p d k).2.pos eps = false ∧
    (parAt p d k).1.pos.fuzzyEqEps (parAt p d k).2.pos eps = false
  full : FullLoop (rawWith p d c) eps
  first : (parAt p d 0).1.pos.fuzzyEqEps (vtx (rawWith p d c) 1).pos eps = false
  pos : 0 < eps

/-- where the run enters segment `k`; the start of segment 0 is cut later -/
noncomputable def runLo (p : Pline ℝ) (c : Nat → Corner) (k : Nat) : ℝ := if k = 0 then 0 else enterAt p c k

/-- the vertexes after the joins at the first `j` corners -/
noncomputable def runState (p : Pline ℝ) (d : ℝ) (c : Nat → Corner) (j : Nat) : List (Vertex ℝ) :=
  (List.range j).flatMap (fun k => partVertex (parAt p d k) (runLo p c k) (leaveAt p c k) :: linkVertex p d c k) ++ [partVertex (parAt p d j) (runLo p c j) 1]

theorem next_pos (h : RunFacts p d eps c) {k : Nat} (hk : k < p.verts.length) :
    ∃ w l, linkVertex p d c k ++ [partAt p d c (k + 1)] = w :: l ∧ w.pos = segCurve (parAt p d k).1 (parAt p d k).2 (leaveAt p c k) := by
  rw [linkVertex_eq p d c hk]
  cases hc : c k with
  | cut t u =>
    refine ⟨_, [], rfl, ?_⟩
    rw [partAt, partVertex_pos, enterAt_succ p c hk, leaveAt_eq p c hk, hc]
    exact (h.meet k hk t u hc).symm
  | link b =>
    refine ⟨_, _, rfl, ?_⟩
    rw [ofV2_pos, leaveAt_eq p c hk, hc]
    exact (segCurve_ends _ _).2.symm

theorem part_apart (h : RunFacts p d eps c) {k : Nat} (hk : k < p.verts.length) :
    (segCurve (parAt p d k).1 (parAt p d k).2 (enterAt p c k)).fuzzyEqEps (segCurve (parAt p d k).1 (parAt p d k).2 (leaveAt p c k)) eps = false := by
  obtain ⟨w, l, e, hw⟩ := next_pos h hk
  have := raw_near (by have := h.two; omega) h.full hk (partAt p d c k, w) (by rw [List.cons_append, e]; simp [pathSegs])
  rw [hw] at this
  exact this

theorem link_apart (h : RunFacts p d eps c) {k : Nat} (hk : k < p.verts.length) {b : ℝ} (hb : c k = .link b) :
    (parAt p d k).2.pos.fuzzyEqEps (parAt p d (k + 1)).1.pos eps = false := by
  have := raw_near (by have := h.two; omega) h.full hk (Vertex.ofV2 (parAt p d k).2.pos b, partAt p d c (k + 1)) (by
    rw [linkVertex_eq p d c hk, hb]; simp [pathSegs])
  rw [ofV2_pos, partAt, partVertex_pos, enterAt_succ p c hk, hb] at this
  rw [← (segCurve_ends (parAt p d (k + 1)).1 (parAt p d (k + 1)).2).1]
  exact this

theorem second_vertex (h : RunFacts p d eps c) : (vtx (rawWith p d c) 1).pos = segCurve (parAt p d 0).1 (parAt p d 0).2 (leaveAt p c 0) := by
  have h2 := h.two
  obtain ⟨w, l, e, hw⟩ := next_pos h (k := 0) (by omega)
  obtain ⟨m, hm⟩ : ∃ m, p.verts.length = m + 2 := ⟨p.verts.length - 2, by omega⟩
  have hv : ∃ r, (rawWith p d c).verts = partAt p d c 0 :: w :: r := by
    rw [raw_verts, hm, List.range_succ_eq_map, List.flatMap_cons, List.range_succ_eq_map]
    simp only [List.map_cons, List.flatMap_cons]
    have e' : linkVertex p d c 0 ++ partAt p d c 1 :: (linkVertex p d c 1 ++ (List.range m |>.map Nat.succ |>.map Nat.succ).flatMap fun k => partAt p d c k :: linkVertex p d c k)
      = (linkVertex p d c 0 ++ [partAt p d c (0 + 1)]) ++ (linkVertex p d c 1 ++ (List.range m |>.map Nat.succ |>.map Nat.succ).flatMap fun k => partAt p d c k :: linkVertex p d c k) := by simp
    refine ⟨l ++ (linkVertex p d c 1 ++ (List.range m |>.map Nat.succ |>.map Nat.succ).flatMap fun k => partAt p d c k :: linkVertex p d c k), ?_⟩
    rw [e] at e'
    simpa using e'
  obtain ⟨r, hr⟩ := hv
  have := vtx_at (p := rawWith p d c) (i := 1) (by rw [hr]; simp)
  rw [hr] at this
  simp only [List.getElem?_cons_succ, List.getElem?_cons_zero, Option.some.injEq] at this
  rw [← this, hw]

theorem run_apart (h : RunFacts p d eps c) {k : Nat} (hk : k < p.verts.length) :
    (segCurve (parAt p d k).1 (parAt p d k).2 (runLo p c k)).fuzzyEqEps (segCurve (parAt p d k).1 (parAt p d k).2 (leaveAt p c k)) eps = false := by
  unfold runLo
  split_ifs with h0
  · subst h0
    rw [(segCurve_ends _ _).1, ← second_vertex h]
    exact h.first
  · exact part_apart h hk

theorem runLo_facts (h : RunFacts p d eps c) (k : Nat) : 0 ≤ runLo p c k ∧ runLo p c k < leaveAt p c k ∧ LongPart (parAt p d k).1 (runLo p c k) (leaveAt p c k) ∧
    (¬ IsLine (parAt p d k).1 → (segCurve (parAt p d k).1 (parAt p d k).2 (runLo p c k)).fuzzyEqEps (parAt p d k).2.pos eps = false) := by
  unfold runLo
  have hb : IsLine (parAt p d k).1 ∨ |(parAt p d k).1.bulge| ≤ 1 := by
    rcases h.seg k with h | h
    · left; unfold IsLine; rw [h]; norm_num
    · exact Or.inr h.half
  split_ifs with h0
  · exact ⟨le_rfl, (h.lo0 k).trans_lt (h.lt k), long_mono (h.long k) hb le_rfl (h.lo0 k) (h.lt k).le le_rfl (h.hi1 k), fun hl => by
      rw [(segCurve_ends _ _).1]; exact (h.room k hl).2⟩
  · exact ⟨h.lo0 k, h.lt k, h.long k, fun hl => (h.room k hl).1⟩

/-- one join -/
theorem join_part (h : RunFacts p d eps c) {k : Nat} (hk : k < p.verts.length) (L : List (Vertex ℝ)) (lo : ℝ) (cl : Bool) (h0 : 0 ≤ lo) (hlt : lo < leaveAt p c k)
    (hl : LongPart (parAt p d k).1 lo (leaveAt p c k))
    (hr : ¬ IsLine (parAt p d k).1 → (segCurve (parAt p d k).1 (parAt p d k).2 lo).fuzzyEqEps (parAt p d k).2.pos eps = false)
    (ha : (segCurve (parAt p d k).1 (parAt p d k).2 lo).fuzzyEqEps (segCurve (parAt p d k).1 (parAt p d k).2 (leaveAt p c k)) eps = false) :
    joinSegPair (decide (d < 0)) eps (rawPar p d k) (rawPar p d (k + 1)) ⟨L ++ [partVertex (parAt p d k) lo 1], cl⟩ =
      .ok ⟨L ++ partVertex (parAt p d k) lo (leaveAt p c k) :: (linkVertex p d c k ++ [partVertex (parAt p d (k + 1)) (enterAt p c (k + 1)) 1]), cl⟩ := by
  have hj := h.joins k hk
  have e1 := leaveAt_eq p c hk
  have e2 := enterAt_succ p c hk
  rw [linkVertex_eq p d c hk]
  cases hc : c k with
  | cut t u =>
    rw [hc] at hj e1 e2
    rw [e1] at hlt hl ha ⊢
    rw [e2]
    exact hj L lo cl h0 hlt hl hr ha
  | link b =>
    rw [hc] at hj e1 e2
    rw [e1] at hlt hl ha ⊢
    rw [e2]
    refine (hj _).trans ?_
    have hs : partVertex (parAt p d (k + 1)) (Corner.link b).start 1 = (parAt p d (k + 1)).1 := partVertex_full _
    rw [hs]
    have hap := link_apart h hk hc
    have h1 : (segCurve (parAt p d k).1 (parAt p d k).2 1) = (parAt p d k).2.pos := (segCurve_ends _ _).2
    change (segCurve (parAt p d k).1 (parAt p d k).2 lo).fuzzyEqEps (segCurve (parAt p d k).1 (parAt p d k).2 1) eps = false at ha
    rw [h1] at ha
    have e3 : appendVertex eps (L ++ [partVertex (parAt p d k) lo 1]) (Vertex.ofV2 (parAt p d k).2.pos b) = L ++ [partVertex (parAt p d k) lo 1] ++ [Vertex.ofV2 (parAt p d k).2.pos b] := by
      unfold appendVertex
      rw [List.getLast?_concat]
      simp only [partVertex_pos, ofV2_pos, ha, Bool.false_eq_true, if_false]
    have e4 : appendVertex eps (L ++ [partVertex (parAt p d k) lo 1] ++ [Vertex.ofV2 (parAt p d k).2.pos b]) (parAt p d (k + 1)).1 =
        L ++ [partVertex (parAt p d k) lo 1] ++ [Vertex.ofV2 (parAt p d k).2.pos b] ++ [(parAt p d (k + 1)).1] := by
      unfold appendVertex
      rw [List.getLast?_concat]
      simp only [ofV2_pos, hap, Bool.false_eq_true, if_false]
    show Except.ok (⟨appendVertex eps (appendVertex eps (L ++ [partVertex (parAt p d k) lo 1]) (Vertex.ofV2 (parAt p d k).2.pos b)) (parAt p d (k + 1)).1, cl⟩ : Pline ℝ) = _
    rw [e3, e4]
    simp [Corner.stop]

theorem joins_run (h : RunFacts p d eps c) : ∀ (len j : Nat), j + len < p.verts.length →
    joinPairs (decide (d < 0)) eps ((List.range' j len).map fun k => (rawPar p d k, rawPar p d (k + 1))) ⟨runState p d c j, true⟩ = .ok ⟨runState p d c (j + len), true⟩
  | 0, j, _ => by simp [joinPairs]
  | len + 1, j, hj => by
    rw [List.range'_succ]
    simp only [List.map_cons, joinPairs]
    obtain ⟨f1, f2, f3, f4⟩ := runLo_facts h j
    have := join_part h (k := j) (by omega) ((List.range j).flatMap fun k => partVertex (parAt p d k) (runLo p c k) (leaveAt p c k) :: linkVertex p d c k)
      (runLo p c j) true f1 f2 f3 f4 (run_apart h (by omega))
    have e : (List.range j).flatMap (fun k => partVertex (parAt p d k) (runLo p c k) (leaveAt p c k) :: linkVertex p d c k) ++
        partVertex (parAt p d j) (runLo p c j) (leaveAt p c j) :: (linkVertex p d c j ++ [partVertex (parAt p d (j + 1)) (enterAt p c (j + 1)) 1]) = runState p d c (j + 1) := by
      unfold runState
      rw [List.range_succ, List.flatMap_append]
      have : runLo p c (j + 1) = enterAt p c (j + 1) := by unfold runLo; rw [if_neg (by omega)]
      rw [this]
      simp
    rw [e] at this
    change joinSegPair (decide (d < 0)) eps (rawPar p d j) (rawPar p d (j + 1)) ⟨runState p d c j, true⟩ = _ at this
    rw [this]
    simp only [bind, Except.bind]
    rw [joins_run h len (j + 1) (by omega)]
    congr 3
    omega

/-! ## Closing -/

/-- The new first vertex. -/
theorem update_first {s : Vertex ℝ × Vertex ℝ} (hs : s.1.bulge = 0 ∨ ProperArc s.1 s.2) {lo hi : ℝ} (h0 : 0 ≤ lo) (h : lo < hi) (h1 : hi ≤ 1) (hl : LongPart s.1 lo hi)
    {w : Vertex ℝ} (hw : w.pos = segCurve s.1 s.2 hi) {l : List (Vertex ℝ)} {closing : Pline ℝ} (hc : closing.last = some (partVertex s lo 1)) :
    rawUpdateFirst ⟨partVertex s 0 hi :: w :: l, true⟩ closing = .ok ⟨partVertex s lo hi :: w :: l, true⟩ := by
  unfold rawUpdateFirst
  rw [hc]
  have e2 : (⟨partVertex s 0 hi :: w :: l, true⟩ : Pline ℝ).at 0 = .ok (partVertex s 0 hi) := rfl
  have e3 : (⟨partVertex s 0 hi :: w :: l, true⟩ : Pline ℝ).at 1 = .ok w := rfl
  have e4 : ∀ v : Vertex ℝ, (⟨partVertex s 0 hi :: w :: l, true⟩ : Pline ℝ).setVertex 0 v = .ok ⟨v :: w :: l, true⟩ := by
    intro v
    unfold Pline.setVertex
    rw [if_pos (by simp)]
    simp
  rw [e2]
  simp only [bind, Except.bind, unwrap]
  rcases hs with hb | hs
  · rw [if_pos (by rw [partVertex_line hb]; simp [Vertex.ofV2]), e4, partVertex_pos, partVertex_line hb, partVertex_line hb]
    rfl
  · have hb := bulge_ne_zero hs.notLine
    have hh : 0 < hi := by linarith
    have hl0 : LongPart s.1 0 hi := long_mono hl (Or.inr hs.half) le_rfl h0 h.le le_rfl h1
    have hbz : (partVertex s 0 hi).bulgeIsZero = false := by
      apply bulgeIsZero_false
      unfold IsLine partVertex Vertex.ofV2
      exact not_lt.mpr (hl0.resolve_left hs.notLine)
    rw [hbz]
    simp only [Bool.false_eq_true, if_false]
    rw [if_pos (by simp [vertexCount]), e3]
    simp only
    have hne : (partVertex s 0 hi).pos ≠ w.pos := by
      rw [partVertex_pos, hw, segCurve_arc hs.notLine, segCurve_arc hs.notLine]
      exact arcPoint_ne hs.ne hb hs.half le_rfl hh h1
    have hbp : (partVertex s 0 hi).bulge ≠ 0 := part_ne hb le_rfl hh h1
    have hcen : arcCenter (partVertex s 0 hi).pos w.pos (partVertex s 0 hi).bulge = segCenter s := by
      rw [partVertex_pos, hw, segCurve_arc hs.notLine, segCurve_arc hs.notLine]
      exact part_center (p := s.1.pos) (q := s.2.pos) hb le_rfl hh h1
    rw [segArcRadiusAndCenter_eq _ _ hbp hne, hcen, hw]
    dsimp only
    rw [partVertex_pos]
    obtain ⟨g1, g2⟩ := part_sign (b := s.1.bulge) hs.half le_rfl hh h1
    have hp : (partVertex s 0 hi).bulgeIsPos = decide (0 < s.1.bulge) := by
      rw [Vertex.bulgeIsPos_eq, decide_eq_decide]; exact g1
    have hq : (partVertex s 0 hi).bulgeIsNeg = decide (s.1.bulge < 0) := by
      rw [Vertex.bulgeIsNeg_eq, decide_eq_decide]; exact g2
    rw [hp, hq]
    rcases delta_part hs h0 h h1 with e | ⟨rfl, rfl, hneg, e⟩
    · rw [e, if_neg, e4]
      · show Except.ok (⟨Vertex.ofV2 (segCurve s.1 s.2 lo) (Real.tan ((hi - lo) * (4 * Real.arctan s.1.bulge) / 4)) :: w :: l, true⟩ : Pline ℝ) = _
        rw [show (hi - lo) * (4 * Real.arctan s.1.bulge) / 4 = (hi - lo) * Real.arctan s.1.bulge by ring]
        rfl
      · simp only [lt_eq, gt_eq, Bool.or_eq_true, Bool.and_eq_true, decide_eq_true_eq, not_or, not_and, not_lt]
        constructor
        · intro hx
          by_contra hn
          have := Real.arctan_pos.mpr (not_le.mp hn)
          nlinarith
        · intro hx
          by_contra hn
          have := Real.arctan_lt_zero.mpr (not_le.mp hn)
          nlinarith
    · rw [e, if_pos (by simp [hneg, Real.pi_pos]), e4]
      rfl

theorem close_arcs (h : RunFacts p d eps c) {m : Nat} (hm : p.verts.length = m + 2) :
    rawClose (decide (d < 0)) eps (rawPar p d (m + 1)) (rawPar p d 0) false ⟨runState p d c (m + 1), true⟩ = .ok (rawWith p d c) := by
  set F := fun k => partVertex (parAt p d k) (runLo p c k) (leaveAt p c k) :: linkVertex p d c k with hF
  set l := partVertex (parAt p d (m + 1)) (runLo p c (m + 1)) 1 with hl
  set l' := partAt p d c (m + 1) with hl'
  set W := partVertex (parAt p d 0) (enterAt p c 0) 1 with hW
  have hrl : runLo p c (m + 1) = enterAt p c (m + 1) := by unfold runLo; rw [if_neg (by omega)]
  have hst : runState p d c (m + 1) = (List.range (m + 1)).flatMap F ++ [l] := rfl
  have hS0 : rawPar p d (m + 1 + 1) = rawPar p d 0 := by
    unfold rawPar
    have h1 := parAt_add p d 0
    have h2 := cornerPos_add p 1
    rw [Nat.zero_add, hm] at h1
    rw [hm, show 1 + (m + 2) = m + 1 + 1 + 1 by omega] at h2
    rw [show m + 1 + 1 = m + 2 by omega, h1]
    rw [show m + 2 + 1 = m + 1 + 1 + 1 by omega, h2]
  have hP0 : parAt p d (m + 1 + 1) = parAt p d 0 := by
    have h1 := parAt_add p d 0
    rwa [Nat.zero_add, hm] at h1
  have hE0 : enterAt p c (m + 1 + 1) = enterAt p c 0 := by
    have h1 := enterAt_add p c (by omega) 0
    rwa [Nat.zero_add, hm] at h1
  -- the closing join
  have hcl : joinSegPair (decide (d < 0)) eps (rawPar p d (m + 1)) (rawPar p d 0) ⟨[l], false⟩ = .ok ⟨l' :: (linkVertex p d c (m + 1) ++ [W]), false⟩ := by
    have := join_part h (k := m + 1) (by omega) [] (enterAt p c (m + 1)) false (h.lo0 _) (h.lt _) (h.long _) (fun hn => (h.room _ hn).1) (part_apart h (by omega))
    rw [hS0, hP0, hE0] at this
    rw [hl, hrl]
    exact this
  have h1 : (⟨runState p d c (m + 1), true⟩ : Pline ℝ).last = some l := by
    unfold Pline.last; rw [hst]; exact List.getLast?_concat
  have h2 : (⟨runState p d c (m + 1), true⟩ : Pline ℝ).setLast l' = .ok ⟨(List.range (m + 1)).flatMap F ++ [l'], true⟩ := by
    rw [hst]; exact setLast_concat _ _ _ _
  have h3 : (⟨l' :: (linkVertex p d c (m + 1) ++ [W]), false⟩ : Pline ℝ).at 0 = .ok l' := rfl
  -- the list after the first part
  obtain ⟨R, hR⟩ : ∃ R, R = linkVertex p d c 0 ++ ((List.range m).map Nat.succ).flatMap (fun k => partAt p d c k :: linkVertex p d c k) ++ (l' :: linkVertex p d c (m + 1)) := ⟨_, rfl⟩
  have hraw : (rawWith p d c).verts = partAt p d c 0 :: R := by
    rw [raw_verts, hm, List.range_succ, List.flatMap_append, List.range_succ_eq_map, List.flatMap_cons, hR]
    simp
    rfl
  have hrun : (List.range (m + 1)).flatMap F ++ [l'] ++ (linkVertex p d c (m + 1) ++ [W]) = partVertex (parAt p d 0) 0 (leaveAt p c 0) :: (R ++ [W]) := by
    rw [List.range_succ_eq_map, List.flatMap_cons, hR]
    have e0 : F 0 = partVertex (parAt p d 0) 0 (leaveAt p c 0) :: linkVertex p d c 0 := by rw [hF]; simp [runLo]
    have e1 : ((List.range m).map Nat.succ).flatMap F = ((List.range m).map Nat.succ).flatMap (fun k => partAt p d c k :: linkVertex p d c k) := by
      rw [List.flatMap_map, List.flatMap_map]
      congr 1
    rw [e0, e1]
    simp
  obtain ⟨w, r, hwr, hw⟩ : ∃ w r, R = w :: r ∧ w.pos = segCurve (parAt p d 0).1 (parAt p d 0).2 (leaveAt p c 0) := by
    have hne : ∃ w r, R = w :: r := by
      rw [hR]
      cases linkVertex p d c 0 ++ ((List.range m).map Nat.succ).flatMap (fun k => partAt p d c k :: linkVertex p d c k) with
      | nil => exact ⟨_, _, rfl⟩
      | cons a b => exact ⟨_, _, rfl⟩
    obtain ⟨w, r, e⟩ := hne
    refine ⟨w, r, e, ?_⟩
    rw [← second_vertex h]
    have := vtx_at (p := rawWith p d c) (i := 1) (by rw [hraw, e]; simp)
    rw [hraw, e] at this
    simp only [List.getElem?_cons_succ, List.getElem?_cons_zero, Option.some.injEq] at this
    rw [this]
  have hup : rawUpdateFirst ⟨partVertex (parAt p d 0) 0 (leaveAt p c 0) :: (R ++ [W]), true⟩ ⟨l' :: (linkVertex p d c (m + 1) ++ [W]), false⟩ =
      .ok ⟨partAt p d c 0 :: (R ++ [W]), true⟩ := by
    rw [hwr]
    exact update_first (h.seg 0) (h.lo0 0) (h.lt 0) (h.hi1 0) (h.long 0) hw (by
      unfold Pline.last; rw [← List.cons_append]; exact List.getLast?_concat)
  have h5 : rawFinalPrune eps ⟨partAt p d c 0 :: (R ++ [W]), true⟩ = .ok ⟨partAt p d c 0 :: R, true⟩ := by
    unfold rawFinalPrune
    have e1 : (⟨partAt p d c 0 :: (R ++ [W]), true⟩ : Pline ℝ).last = some W := by
      unfold Pline.last; rw [← List.cons_append]; exact List.getLast?_concat
    have e2 : (⟨partAt p d c 0 :: (R ++ [W]), true⟩ : Pline ℝ).at 0 = .ok (partAt p d c 0) := rfl
    have e3 : (⟨partAt p d c 0 :: (R ++ [W]), true⟩ : Pline ℝ).removeLast = .ok (W, ⟨partAt p d c 0 :: R, true⟩) := by
      unfold Pline.removeLast Pline.remove
      rw [if_neg (by simp)]
      have hx : (partAt p d c 0 :: (R ++ [W])) = (partAt p d c 0 :: R) ++ [W] := by simp
      simp only [hx]
      have hy : ((partAt p d c 0 :: R) ++ [W])[((partAt p d c 0 :: R) ++ [W]).length - 1]? = some W := by
        rw [List.length_append]; simp
      rw [hy]
      simp only
      rw [List.length_append, List.eraseIdx_append_of_length_le (by simp)]
      simp
    have e4 : (⟨partAt p d c 0 :: R, true⟩ : Pline ℝ).at 0 = .ok (partAt p d c 0) := rfl
    have e5 : (⟨partAt p d c 0 :: R, true⟩ : Pline ℝ).at 1 = .ok w := by rw [hwr]; rfl
    rw [if_pos (by simp [vertexCount, hwr]), e1, e2]
    simp only [bind, Except.bind, unwrap]
    have hfz : (partAt p d c 0).pos.fuzzyEqEps W.pos eps = true := by
      rw [partAt, hW, partVertex_pos, partVertex_pos]; exact fuzzy_refl _ h.pos
    rw [if_pos hfz, e3]
    simp only
    rw [if_pos (by simp [vertexCount, hwr]), e4, e5]
    simp only
    have hnf : (partAt p d c 0).pos.fuzzyEqEps w.pos eps = false := by
      rw [hw, partAt, partVertex_pos]; exact part_apart h (by omega)
    rw [if_neg (by rw [hnf]; simp)]
  unfold rawClose
  rw [h1]
  simp only [bind, Except.bind, unwrap, hcl, h3, h2, Pline.extendVertexes, List.drop_succ_cons, List.drop_zero, Bool.not_false, if_true]
  rw [hrun, hup]
  simp only
  rw [h5, ← hraw]
  rfl

/-- The run makes the raw offset of the specification. -/
theorem raw_run (h : RunFacts p d eps c) (hcl : p.closed = true)
    (hraw : ∀ k, rawSeg d (vtx p k, vtx p (k + 1)) = rawPar p d k) : createRawOffsetPolyline p d eps = .ok (rawWith p d c) := by
  obtain ⟨m, hm⟩ : ∃ m, p.verts.length = m + 2 := ⟨p.verts.length - 2, by have := h.two; omega⟩
  have hunt : createUntrimmedRawOffsetSegs p d = rawPar p d 0 :: (List.range (m + 1)).map (fun k => rawPar p d (k + 1)) := by
    unfold createUntrimmedRawOffsetSegs
    rw [segs_range hcl h.two, List.map_map, hm, List.range_succ_eq_map, List.map_cons, List.map_map]
    simp only [Function.comp_def, hraw]
  have hzip : (rawPar p d 0 :: (List.range (m + 1)).map (fun k => rawPar p d (k + 1))).zip ((List.range (m + 1)).map (fun k => rawPar p d (k + 1))) =
      (List.range' 0 (m + 1)).map (fun k => (rawPar p d k, rawPar p d (k + 1))) := by
    rw [← List.range_eq_range']
    apply List.ext_getElem?
    intro i
    by_cases hi : i < m + 1
    · cases i with
      | zero => simp [List.getElem?_zip_eq_some, hi]
      | succ i => simp [List.getElem?_zip_eq_some, hi]
    · rw [List.getElem?_eq_none (by simp; omega), List.getElem?_eq_none (by simp; omega)]
  have hlast : ∀ h, (rawPar p d 0 :: (List.range (m + 1)).map (fun k => rawPar p d (k + 1))).getLast h = rawPar p d (m + 1) := by
    intro h
    simp only [List.range_succ, List.map_append, List.map_singleton]
    rw [List.getLast_cons (by simp), List.getLast_append_singleton]
  unfold createRawOffsetPolyline
  rw [if_neg (by unfold vertexCount; omega), hunt]
  dsimp only
  rw [if_neg (by simp [rawPar]), hzip, hlast]
  have ht1 : ((List.range' 0 (m + 1)).map (fun k => (rawPar p d k, rawPar p d (k + 1)))).take 1 = (List.range' 0 1).map (fun k => (rawPar p d k, rawPar p d (k + 1))) := by
    rw [List.range'_succ]; rfl
  have hd1 : ((List.range' 0 (m + 1)).map (fun k => (rawPar p d k, rawPar p d (k + 1)))).drop 1 = (List.range' 1 m).map (fun k => (rawPar p d k, rawPar p d (k + 1))) := by
    rw [List.range'_succ]; rfl
  rw [ht1, hd1]
  have hccw : (Scalar.lt d 0 : Bool) = decide (d < 0) := by simp
  have hs0 : [(rawPar p d 0).v1] = runState p d c 0 := by
    unfold runState
    simp only [List.range_zero, List.flatMap_nil, List.nil_append, runLo, if_true]
    rw [partVertex_full]
    rfl
  rw [hccw, hcl, hs0, joins_run h 1 0 (by omega)]
  simp only [bind, Except.bind]
  rw [joins_run h m (0 + 1) (by omega)]
  simp only
  have hlen : ∀ j, j < (runState p d c j).length := by
    intro j
    unfold runState
    induction j with
    | zero => simp
    | succ j ih =>
      rw [List.range_succ, List.flatMap_append]
      simp only [List.length_append, List.flatMap_cons, List.flatMap_nil, List.append_nil, List.length_cons, List.length_nil] at ih ⊢
      omega
  have hl1 := hlen (m + 1)
  have hl2 := hlen 1
  rw [show 0 + 1 + m = m + 1 by omega, if_pos (by simp [vertexCount]; omega)]
  have hfr : ((⟨runState p d c (0 + 1), true⟩ : Pline ℝ).vertexCount == 1) = false := by
    simp [vertexCount]; omega
  rw [hfr, close_arcs h hm]
  simp only
  have htwo := h.full.two
  rw [if_neg (by simp [vertexCount]; omega)]

end

end Cavc
