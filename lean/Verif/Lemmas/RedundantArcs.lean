import Verif.Lemmas.JoinArcs

/-! # The loop of `remove_redundant` on polylines of lines and arcs -/

namespace Cavc
open Scalar RealScalar Pline

/-- loop invariant: `C` is the vertex chain, `i` the index of the next `v3` -/
structure ArcInv (p : Pline ℝ) (C : List (Vertex ℝ)) (i : Nat) (st : RedundantState ℝ) : Prop where
  short : Shortened C (keptSoFar p i st ++ st.v2 :: C.drop i)
  needed : AllNeeded (keptSoFar p i st ++ [st.v2])
  last : ∃ l, keptSoFar p i st = l ++ [st.v1]
  first : ∀ x y t, keptSoFar p i st ++ [st.v2] = x :: y :: t → x.pos ≠ y.pos
  headLine : ∀ a, p.verts.head? = some a → IsLine a → (keptSoFar p i st).head? = some a
  mem : ∀ w ∈ keptSoFar p i st, ∃ u ∈ p.verts, u.pos = w.pos
  half : |st.v1.bulge| ≤ 1
  v2 : st.v2 ∈ p.verts
  ne : st.v1.pos ≠ st.v2.pos
  z1 : st.v1Zero = st.v1.bulgeIsZero
  z2 : st.v2Zero = st.v2.bulgeIsZero
  p1 : st.v1Pos = decide (0 < st.v1.bulge)
  p2 : st.v2Pos = decide (0 < st.v2.bulge)
  arc : st.v1v2Arc = none ∨ st.v1v2Arc = some (segRadius (st.v1, st.v2), segCenter (st.v1, st.v2))
  c2 : C[i - 1]? = some st.v2
  run : ¬ IsLine st.v1 → ∃ run : List (Vertex ℝ × Vertex ℝ), run ≠ [] ∧ run.Sublist (pathSegs (C.take i)) ∧
    (∀ s ∈ run, ¬ IsLine s.1 ∧ s.1.pos ≠ s.2.pos ∧ segRadius s = segRadius (st.v1, st.v2) ∧ segCenter s = segCenter (st.v1, st.v2)) ∧
    sweepSum run = |4 * Real.arctan st.v1.bulge|

/-! ## Lists of needed vertexes -/

theorem allNeeded_concat {l : List (Vertex ℝ)} {c : Vertex ℝ} (h : AllNeeded l)
    (hc : ∀ a x y, l = a ++ [x, y] → Needed x y c) : AllNeeded (l ++ [c]) := by
  intro a b x y z he
  rcases List.eq_nil_or_concat b with rfl | ⟨b', w, rfl⟩
  · have e : l ++ [c] = (a ++ [x, y]) ++ [z] := by rw [he]; simp
    have := List.append_inj' e rfl
    have hz : c = z := by simpa using this.2
    subst hz
    exact hc a x y this.1
  · have e : l ++ [c] = (a ++ x :: y :: z :: b') ++ [w] := by rw [he]; simp
    exact h a b' x y z (List.append_inj' e rfl).1

theorem allNeeded_of_concat {l : List (Vertex ℝ)} {c : Vertex ℝ} (h : AllNeeded (l ++ [c])) : AllNeeded l := by
  intro a b x y z he
  exact h a (b ++ [c]) x y z (by rw [he]; simp)

theorem last_of_concat {l a : List (Vertex ℝ)} {v x y : Vertex ℝ} (h : l ++ [v] = a ++ [x, y]) : y = v ∧ l = a ++ [x] := by
  have e : l ++ [v] = (a ++ [x]) ++ [y] := by rw [h]; simp
  have := List.append_inj' e rfl
  exact ⟨by simpa using this.2.symm, this.1⟩

/-- Exchanging the last vertex of a list, where the vertex before it keeps its place -/
theorem allNeeded_last {l : List (Vertex ℝ)} {v v' w w' : Vertex ℝ} (h : AllNeeded (l ++ [v] ++ [w])) (hv : v.pos = v'.pos)
    (hn : ∀ x, Needed x v w → Needed x v' w') : AllNeeded (l ++ [v'] ++ [w']) := by
  have hcongr : ∀ x y, Needed x y v → Needed x y v' := by
    intro x y ⟨h1, h2, h3⟩
    refine ⟨by rw [← hv]; exact h1, by rw [← hv]; exact h2, fun b hb => h3 b ⟨hb.arc1, hb.arc2, ?_, ?_, hb.turn, hb.sweep, hb.half⟩⟩
    · have := hb.center; unfold segCenter at *; dsimp only at *; rw [hv]; exact this
    · have := hb.radius; unfold segRadius at *; dsimp only at *; rw [hv]; exact this
  apply allNeeded_concat
  · apply allNeeded_concat (allNeeded_of_concat (allNeeded_of_concat h))
    intro a x y he
    apply hcongr
    exact h a [w] x y v (by rw [he]; simp)
  · intro a x y he
    obtain ⟨rfl, hl⟩ := last_of_concat he
    apply hn
    exact h a [] x v w (by rw [hl]; simp)

theorem first_last {l : List (Vertex ℝ)} {v v' w w' : Vertex ℝ} (h : ∀ x y t, l ++ [v] ++ [w] = x :: y :: t → x.pos ≠ y.pos)
    (hv : v.pos = v'.pos) (hn : v'.pos ≠ w'.pos) : ∀ x y t, l ++ [v'] ++ [w'] = x :: y :: t → x.pos ≠ y.pos := by
  intro x y t he
  cases l with
  | nil =>
    simp only [List.nil_append, List.cons_append, List.cons.injEq] at he
    rw [← he.1, ← he.2.1]; exact hn
  | cons d l =>
    cases l with
    | nil =>
      simp only [List.nil_append, List.cons_append, List.cons.injEq] at he
      rw [← he.1, ← he.2.1, ← hv]; exact h d v [w] rfl
    | cons e l =>
      simp only [List.cons_append, List.cons.injEq] at he
      rw [← he.1, ← he.2.1]; exact h d e _ rfl

/-! ## One step -/

theorem isCollinear_congr {a a' b c : Vertex ℝ} (h : a.pos = a'.pos) (eps : ℝ) :
    isCollinearSameDir eps a b c = isCollinearSameDir eps a' b c := by
  have hx : a.x = a'.x := congrArg V2.x h
  have hy : a.y = a'.y := congrArg V2.y h
  unfold isCollinearSameDir
  rw [hx, hy, h]

/-- the state after dropping `v2` -/
noncomputable def discarded (p : Pline ℝ) (i : Nat) (st : RedundantState ℝ) (v3 : Vertex ℝ) : RedundantState ℝ :=
  { st with result := some (st.result.getD ⟨p.verts.take (i - 1), p.closed⟩), v2 := v3, v1v2Arc := none,
            v2Zero := v3.bulgeIsZero, v2Pos := v3.bulgeIsPos }

/-- the state after keeping `v2` -/
noncomputable def included (st : RedundantState ℝ) (v3 : Vertex ℝ) : RedundantState ℝ :=
  { result := st.result.map (·.addVertex st.v2), v1 := st.v2, v2 := v3, v1v2Arc := none,
    v1Zero := st.v2Zero, v2Zero := v3.bulgeIsZero, v1Pos := st.v2Pos, v2Pos := v3.bulgeIsPos }

/-- the state after joining two arcs -/
noncomputable def joined (p : Pline ℝ) (i : Nat) (st : RedundantState ℝ) (v3 : Vertex ℝ) (b : ℝ) : RedundantState ℝ :=
  { result := some { st.result.getD ⟨p.verts.take (i - 1), p.closed⟩ with
      verts := (keptSoFar p i st).dropLast ++ [st.v1.withBulge b] }, v1 := st.v1.withBulge b, v2 := v3,
    v1v2Arc := some (segRadius (st.v1, st.v2), segCenter (st.v1, st.v2)),
    v1Zero := st.v2Zero, v2Zero := v3.bulgeIsZero, v1Pos := st.v2Pos, v2Pos := v3.bulgeIsPos }

theorem kept_verts (p : Pline ℝ) (i : Nat) (st : RedundantState ℝ) :
    (st.result.getD ⟨p.verts.take (i - 1), p.closed⟩).verts = keptSoFar p i st := by
  unfold keptSoFar
  cases st.result <;> rfl

theorem segs_chain (p : Pline ℝ) (h : 2 ≤ p.verts.length) : p.segs = pathSegs (redChain p) := by
  unfold segs redChain
  match p.verts, h with
  | a :: b :: r, _ =>
    split_ifs <;> rfl

theorem pathSegs_concat_last (l : List (Vertex ℝ)) (a b : Vertex ℝ) : pathSegs (l ++ [a] ++ [b]) = pathSegs (l ++ [a]) ++ [(a, b)] := by
  rw [List.append_assoc, show [a] ++ [b] = a :: [b] from rfl, pathSegs_append_cons]; rfl

theorem pathSegs_take_succ {C : List (Vertex ℝ)} {i : Nat} {a b : Vertex ℝ} (hi : 1 ≤ i) (ha : C[i - 1]? = some a) (hb : C[i]? = some b) :
    pathSegs (C.take (i + 1)) = pathSegs (C.take i) ++ [(a, b)] := by
  have e1 : C.take i = C.take (i - 1) ++ [a] := by
    conv_lhs => rw [show i = (i - 1) + 1 by omega]
    rw [List.take_add_one, ha]; rfl
  have e2 : C.take (i + 1) = C.take (i - 1) ++ [a] ++ [b] := by
    rw [List.take_add_one, hb, e1]; rfl
  rw [e2, pathSegs_concat_last, e1]

theorem pathSegs_take_sublist (C : List (Vertex ℝ)) (n : Nat) : (pathSegs (C.take n)).Sublist (pathSegs C) := by
  induction C generalizing n with
  | nil => simp
  | cons a C ih =>
    cases n with
    | zero => simp [pathSegs]
    | succ n =>
      cases C with
      | nil => simp [pathSegs]
      | cons b C =>
        cases n with
        | zero => simp [pathSegs]
        | succ n =>
          have := ih (n + 1)
          simp only [List.take_succ_cons] at this ⊢
          unfold pathSegs
          exact this.cons_cons _

theorem step_arcs {p : Pline ℝ} {eps : ℝ} (hr : ResolvesArcs eps p) (h2 : 2 ≤ p.verts.length) (st : RedundantState ℝ) (i : Nat) (hi : 1 ≤ i)
    (hfin : p.closed = true ∨ i ≠ p.verts.length) (v3 : Vertex ℝ) (h3 : (redChain p)[i]? = some v3) (h3m : v3 ∈ p.verts)
    (hinv : ArcInv p (redChain p) i st) :
    ((st.v2.pos = v3.pos ∨ (IsLine st.v1 ∧ IsLine st.v2 ∧ OnLineSeg st.v1.pos v3.pos st.v2.pos)) ∧
      redundantStep p eps st (i, v3) = .ok (discarded p i st v3)) ∨
    (st.v2.pos ≠ v3.pos ∧ ∃ b, OneArc st.v1 st.v2 v3 b ∧ redundantStep p eps st (i, v3) = .ok (joined p i st v3 b)) ∨
    (Needed st.v1 st.v2 v3 ∧ redundantStep p eps st (i, v3) = .ok (included st v3)) := by
  have hf : (!p.closed && i == p.vertexCount) = false := by
    unfold vertexCount
    rcases hfin with h | h <;> simp [h]
  obtain ⟨l, hl⟩ := hinv.last
  obtain ⟨u, hum, hu⟩ := hinv.mem st.v1 (by rw [hl]; simp)
  have hcol : isCollinearSameDir eps st.v1 st.v2 v3 = true ↔ OnLineSeg st.v1.pos v3.pos st.v2.pos := by
    rw [isCollinear_congr hu.symm, ← hu]
    exact collinear_iff hr.points hum hinv.v2 h3m
  by_cases hnear : st.v2.pos.fuzzyEqEps v3.pos eps = true
  · refine Or.inl ⟨Or.inl ((near_iff hr.points hinv.v2 h3m).mp hnear), ?_⟩
    unfold redundantStep
    dsimp only
    rw [if_pos hnear]
    rfl
  have hne : st.v2.pos ≠ v3.pos := fun h => hnear ((near_iff hr.points hinv.v2 h3m).mpr h)
  have hnear' : st.v2.pos.fuzzyEqEps v3.pos eps = false := by simpa using hnear
  by_cases hlines : IsLine st.v1 ∧ IsLine st.v2
  · have hz : (st.v1Zero && st.v2Zero) = true := by
      rw [hinv.z1, hinv.z2, bulgeIsZero_true hlines.1, bulgeIsZero_true hlines.2]; rfl
    by_cases hon : OnLineSeg st.v1.pos v3.pos st.v2.pos
    · refine Or.inl ⟨Or.inr ⟨hlines.1, hlines.2, hon⟩, ?_⟩
      unfold redundantStep
      dsimp only
      rw [if_neg hnear, if_pos hz, hf, hcol.mpr hon]
      rfl
    · refine Or.inr (Or.inr ⟨⟨hne, fun _ _ => hon, fun b hb => hb.arc1 hlines.1⟩, ?_⟩)
      have hcol' : isCollinearSameDir eps st.v1 st.v2 v3 = false := by
        rw [← Bool.not_eq_true, hcol]; exact hon
      unfold redundantStep
      dsimp only
      rw [if_neg hnear, if_pos hz, hf, hcol']
      rfl
  have hz : (st.v1Zero && st.v2Zero) = false := by
    rw [hinv.z1, hinv.z2, ← Bool.not_eq_true, Bool.and_eq_true, bulgeIsZero_iff, bulgeIsZero_iff]; exact hlines
  by_cases hj : ¬ IsLine st.v1 ∧ ¬ IsLine st.v2 ∧ decide (0 < st.v1.bulge) = decide (0 < st.v2.bulge)
  · obtain ⟨a1, a2, hs⟩ := hj
    have hisj : (!st.v1Zero && !st.v2Zero && (st.v1Pos == st.v2Pos) && !st.v2.pos.fuzzyEqEps v3.pos eps) = true := by
      rw [hinv.z1, hinv.z2, hinv.p1, hinv.p2, bulgeIsZero_false a1, bulgeIsZero_false a2, hs, hnear']; simp
    have hrc : st.v1v2Arc.getD (segArcRadiusAndCenter st.v1 st.v2) = (segRadius (st.v1, st.v2), segCenter (st.v1, st.v2)) := by
      rcases hinv.arc with h | h
      · rw [h]; exact segArcRadiusAndCenter_eq _ _ (bulge_ne_zero a1) hinv.ne
      · rw [h]; rfl
    obtain ⟨run, hrne, hrsub, hrall, hrsum⟩ := hinv.run a1
    have hsegs := segs_chain p h2
    have hsub := pathSegs_take_sublist (redChain p) (i + 1)
    rw [pathSegs_take_succ hi hinv.c2 h3, ← hsegs] at hsub
    have hmemv : (st.v2, v3) ∈ p.segs := hsub.subset (by simp)
    obtain ⟨s0, hs0⟩ := List.exists_mem_of_ne_nil _ hrne
    have hmems : s0 ∈ p.segs := hsub.subset (by simp [hrsub.subset hs0])
    obtain ⟨q1, q2, q3, q4⟩ := hrall s0 hs0
    have hspec := joinArcs_spec hr.points.pos a1 a2 hinv.half (hr.half _ hinv.v2) hinv.ne hne hs
      (by
        intro e1 e2 e3
        rw [← q3, ← q4] at *
        exact hr.circle s0 hmems _ hmemv q1 a2 q2 hne e1 e2 e3)
      (by
        intro e1 _ hlt
        have hsum : sweepSum (run ++ [(st.v2, v3)]) = |4 * Real.arctan st.v1.bulge| + |4 * Real.arctan st.v2.bulge| := by
          rw [← hrsum]; simp [sweepSum]
        rw [← hsum] at hlt ⊢
        refine hr.sweep _ ((hrsub.append (List.Sublist.refl _)).trans hsub) _ ?_ hlt
        intro s hs
        rcases List.mem_append.mp hs with h | h
        · exact ⟨(hrall s h).1, (hrall s h).2.2.1⟩
        · rw [List.mem_singleton] at h; subst h
          exact ⟨a2, e1.symm⟩)
    rcases hspec with ⟨b, hb, hone⟩ | ⟨hb, hnone⟩
    · refine Or.inr (Or.inl ⟨hne, b, hone, ?_⟩)
      have hk := kept_verts p i st
      have hlast : (st.result.getD ⟨p.verts.take (i - 1), p.closed⟩).last = some st.v1 := by
        unfold Pline.last; rw [hk, hl]; simp
      unfold redundantStep
      dsimp only
      rw [if_neg hnear, if_neg (by rw [hz]; simp), if_pos hisj, hrc, hinv.p1]
      simp only [hb]
      rw [hlast]
      simp only [unwrap, bind, Except.bind]
      rw [setLast_ok (by rw [hk, hl]; simp), hk]
      simp only [if_neg hnear, hz, Bool.false_eq_true, if_false]
      rw [hinv.p1] at hisj
      rw [if_pos hisj]
      rfl
    · refine Or.inr (Or.inr ⟨⟨hne, fun h => absurd h a1, hnone⟩, ?_⟩)
      unfold redundantStep
      dsimp only
      rw [if_neg hnear, if_neg (by rw [hz]; simp), if_pos hisj, hrc, hinv.p1]
      simp only [hb]
      rfl
  · refine Or.inr (Or.inr ⟨⟨hne, fun h h' => absurd ⟨h, h'⟩ hlines, fun b hb => hj ⟨hb.arc1, hb.arc2, ?_⟩⟩, ?_⟩)
    · rcases hb.signs with ⟨h1, h2, _⟩ | ⟨h1, h2, _⟩
      · simp [h1, h2]
      · simp [not_lt.mpr h1.le, not_lt.mpr h2.le]
    · have hisj : ¬ (!st.v1Zero && !st.v2Zero && (st.v1Pos == st.v2Pos) && !st.v2.pos.fuzzyEqEps v3.pos eps) = true := by
        rw [hinv.z1, hinv.z2, hinv.p1, hinv.p2]
        intro h
        simp only [Bool.and_eq_true, Bool.not_eq_true', beq_iff_eq] at h
        obtain ⟨⟨⟨h1, h2⟩, h3⟩, _⟩ := h
        refine hj ⟨fun hh => ?_, fun hh => ?_, h3⟩
        · rw [bulgeIsZero_true hh] at h1; exact absurd h1 (by simp)
        · rw [bulgeIsZero_true hh] at h2; exact absurd h2 (by simp)
      unfold redundantStep
      dsimp only
      rw [if_neg hnear, if_neg (by rw [hz]; simp), if_neg hisj]
      rfl

/-! ## Keeping the invariant -/

theorem kept_discarded (p : Pline ℝ) (i : Nat) (st : RedundantState ℝ) (v3 : Vertex ℝ) :
    keptSoFar p (i + 1) (discarded p i st v3) = keptSoFar p i st := by
  unfold keptSoFar discarded
  cases st.result <;> rfl

theorem kept_joined (p : Pline ℝ) (i : Nat) (st : RedundantState ℝ) (v3 : Vertex ℝ) (b : ℝ) :
    keptSoFar p (i + 1) (joined p i st v3 b) = (keptSoFar p i st).dropLast ++ [st.v1.withBulge b] := rfl

theorem kept_included {p : Pline ℝ} {i : Nat} {st : RedundantState ℝ} (v3 : Vertex ℝ) {C : List (Vertex ℝ)}
    (hC : ∀ n, n ≤ p.verts.length → C.take n = p.verts.take n) (hi : 1 ≤ i) (hiv : i ≤ p.verts.length) (hc : C[i - 1]? = some st.v2) :
    keptSoFar p (i + 1) (included st v3) = keptSoFar p i st ++ [st.v2] := by
  unfold keptSoFar included
  cases hres : st.result with
  | none =>
    have : C.take i = C.take (i - 1) ++ [st.v2] := by
      conv_lhs => rw [show i = (i - 1) + 1 by omega]
      rw [List.take_add_one, hc]; rfl
    rw [hC i hiv, hC (i - 1) (by omega)] at this
    simp only [Option.map_none, Nat.add_sub_cancel, this]
  | some r => rfl

theorem drop_of_get {α : Type} {C : List α} {i : Nat} {v : α} (h : C[i]? = some v) : C.drop i = v :: C.drop (i + 1) := by
  obtain ⟨hlt, he⟩ := List.getElem?_eq_some_iff.mp h
  rw [← he]; exact List.drop_eq_getElem_cons hlt

section
variable {p : Pline ℝ} {C : List (Vertex ℝ)} {st : RedundantState ℝ} {i : Nat} {v3 : Vertex ℝ}

theorem OneArc.congr_end {x y z z' : Vertex ℝ} {b : ℝ} (h : OneArc x y z b) (hz : z.pos = z'.pos) : OneArc x y z' b := by
  refine ⟨h.arc1, h.arc2, ?_, ?_, h.turn, h.sweep, h.half⟩
  · have := h.center; unfold segCenter at *; dsimp only at *; rw [← hz]; exact this
  · have := h.radius; unfold segRadius at *; dsimp only at *; rw [← hz]; exact this

theorem inv_discard (h3 : C[i]? = some v3) (h3m : v3 ∈ p.verts) (hi : 1 ≤ i) (hinv : ArcInv p C i st)
    (h : st.v2.pos = v3.pos ∨ (IsLine st.v1 ∧ IsLine st.v2 ∧ OnLineSeg st.v1.pos v3.pos st.v2.pos)) :
    ArcInv p C (i + 1) (discarded p i st v3) := by
  have hk := kept_discarded p i st v3
  obtain ⟨l, hl⟩ := hinv.last
  have hne : st.v1.pos ≠ v3.pos := by
    rcases h with h | ⟨_, _, h⟩
    · rw [← h]; exact hinv.ne
    · intro e
      rw [← e] at h
      have h2 := ((onLineSeg_iff _ _ _).mp h).2
      apply hinv.ne
      rw [V2.ext_iff']
      constructor <;> nlinarith [sq_nonneg (st.v1.pos.x - st.v2.pos.x), sq_nonneg (st.v1.pos.y - st.v2.pos.y)]
  constructor
  · rw [hk]
    have hs := hinv.short
    rw [drop_of_get h3, hl, List.append_assoc] at hs
    rw [hl, List.append_assoc]
    rcases h with h | ⟨h1, h2, h⟩
    · exact Shortened.again _ _ _ _ _ _ hs h
    · exact Shortened.line _ _ _ _ _ _ hs h1 h2 h
  · rw [hk, hl]
    have hn := hinv.needed
    rw [hl] at hn
    apply allNeeded_last hn rfl
    intro x ⟨n1, n2, n3⟩
    refine ⟨hne, ?_, ?_⟩
    · intro hx hv
      rcases h with h | ⟨h1, h2, h⟩
      · show ¬ OnLineSeg x.pos v3.pos st.v1.pos
        rw [← h]; exact n2 hx hv
      · intro hbad
        exact n2 hx hv (onLineSeg_extend hbad h)
    · intro b hb
      rcases h with h | ⟨h1, h2, h⟩
      · exact n3 b (hb.congr_end h.symm)
      · exact hb.arc2 h1
  · rw [hk]; exact ⟨l, hl⟩
  · rw [hk, hl]
    have hf := hinv.first
    rw [hl] at hf
    exact first_last hf rfl hne
  · rw [hk]; exact hinv.headLine
  · rw [hk]; exact hinv.mem
  · exact hinv.half
  · exact h3m
  · exact hne
  · exact hinv.z1
  · rfl
  · exact hinv.p1
  · exact Vertex.bulgeIsPos_eq v3
  · exact Or.inl rfl
  · show C[i]? = some v3
    exact h3
  · intro a1
    rcases h with h | ⟨h1, _, _⟩
    · obtain ⟨run, q1, q2, q3, q4⟩ := hinv.run a1
      refine ⟨run, q1, ?_, ?_, q4⟩
      · rw [pathSegs_take_succ hi hinv.c2 h3]
        exact q2.trans (List.sublist_append_left _ _)
      · have e1 : segRadius (st.v1, st.v2) = segRadius (st.v1, v3) := by unfold segRadius; dsimp only; rw [h]
        have e2 : segCenter (st.v1, st.v2) = segCenter (st.v1, v3) := by unfold segCenter; dsimp only; rw [h]
        rw [e1, e2] at q3
        exact q3
    · exact absurd h1 a1

theorem inv_include (hr : ∀ v ∈ p.verts, |v.bulge| ≤ 1) (hC : ∀ n, n ≤ p.verts.length → C.take n = p.verts.take n) (h3 : C[i]? = some v3) (h3m : v3 ∈ p.verts) (hi : 1 ≤ i)
    (hiv : i ≤ p.verts.length) (hinv : ArcInv p C i st) (h : Needed st.v1 st.v2 v3) : ArcInv p C (i + 1) (included st v3) := by
  have hk := kept_included v3 hC hi hiv hinv.c2
  obtain ⟨l, hl⟩ := hinv.last
  constructor
  · rw [hk]
    have hs := hinv.short
    rw [drop_of_get h3] at hs
    show Shortened C (keptSoFar p i st ++ [st.v2] ++ v3 :: List.drop (i + 1) C)
    simpa using hs
  · rw [hk]
    apply allNeeded_concat hinv.needed
    intro a x y he
    rw [hl] at he
    obtain ⟨rfl, he'⟩ := last_of_concat he
    have := (List.append_inj' he' rfl).2
    have : st.v1 = x := by simpa using this
    rw [← this]
    exact h
  · rw [hk]; exact ⟨_, rfl⟩
  · rw [hk]
    intro x y t he
    have hf := hinv.first
    rw [hl] at hf he
    cases l with
    | nil =>
      simp only [List.nil_append, List.cons_append, List.cons.injEq] at he
      rw [← he.1, ← he.2.1]; exact hinv.ne
    | cons d l =>
      cases l with
      | nil =>
        simp only [List.nil_append, List.cons_append, List.cons.injEq] at he
        rw [← he.1, ← he.2.1]; exact hf d st.v1 [st.v2] rfl
      | cons e l =>
        simp only [List.cons_append, List.cons.injEq] at he
        rw [← he.1, ← he.2.1]; exact hf d e _ rfl
  · rw [hk]
    intro a ha hla
    have := hinv.headLine a ha hla
    rw [List.head?_append, this]; rfl
  · rw [hk]
    intro w hw
    rcases List.mem_append.mp hw with hw | hw
    · exact hinv.mem w hw
    · rw [List.mem_singleton] at hw; subst hw; exact ⟨_, hinv.v2, rfl⟩
  · exact hr _ hinv.v2
  · exact h3m
  · exact h.moves
  · exact hinv.z2
  · rfl
  · exact hinv.p2
  · exact Vertex.bulgeIsPos_eq v3
  · exact Or.inl rfl
  · show C[i]? = some v3
    exact h3
  · intro a1
    refine ⟨[(st.v2, v3)], by simp, ?_, ?_, ?_⟩
    · rw [pathSegs_take_succ hi hinv.c2 h3]
      exact List.sublist_append_right _ _
    · intro s hs
      rw [List.mem_singleton] at hs; subst hs
      exact ⟨a1, h.moves, rfl, rfl⟩
    · simp [sweepSum, included]

theorem OneArc.ends_ne {x y z : Vertex ℝ} {b : ℝ} (h : OneArc x y z b) (hne : x.pos ≠ y.pos) : x.pos ≠ z.pos := by
  intro he
  have hr := h.radius_eq
  have h0 : segRadius (x.withBulge b, z) = 0 := by
    show arcRadius x.pos z.pos b = 0
    rw [he]; simp [arcRadius, edist]
  rw [h0] at hr
  have := arcRadius_pos hne (bulge_ne_zero h.arc1)
  exact absurd hr this.ne

theorem inv_join (h3 : C[i]? = some v3) (h3m : v3 ∈ p.verts) (hi : 1 ≤ i) (hinv : ArcInv p C i st) {b : ℝ} (hne : st.v2.pos ≠ v3.pos)
    (h : OneArc st.v1 st.v2 v3 b) : ArcInv p C (i + 1) (joined p i st v3 b) := by
  obtain ⟨l, hl⟩ := hinv.last
  have hk : keptSoFar p (i + 1) (joined p i st v3 b) = l ++ [st.v1.withBulge b] := by
    rw [kept_joined, hl, List.dropLast_concat]
  have hsign : decide (0 < st.v2.bulge) = decide (0 < b) := by
    rcases h.signs with ⟨h1, h2, h3⟩ | ⟨h1, h2, h3⟩
    · simp [h2, h3]
    · simp [not_lt.mpr h2.le, not_lt.mpr h3.le]
  constructor
  · rw [hk]
    have hs := hinv.short
    rw [drop_of_get h3, hl, List.append_assoc] at hs
    rw [List.append_assoc]
    exact Shortened.arc _ _ _ _ _ _ b hs h
  · rw [hk]
    have hn := hinv.needed
    rw [hl] at hn
    apply allNeeded_last (v' := st.v1.withBulge b) hn rfl
    intro x ⟨n1, n2, n3⟩
    refine ⟨h.ends_ne hinv.ne, fun _ hv => absurd hv h.notLine, fun c hc => ?_⟩
    have hxs := hc.abs_sweep
    have hxt : 0 < x.bulge * st.v1.bulge := by
      have := hc.turn
      rcases h.signs with ⟨h1, _, h3⟩ | ⟨h1, _, h3⟩
      · exact mul_pos ((mul_pos_iff_of_pos_right h3).mp this) h1
      · have t : (0 : ℝ) < x.bulge * b := this
        exact mul_pos_of_neg_of_neg (by by_contra g; push Not at g; nlinarith) h1
    have h4 : |4 * Real.arctan b| = _ := h.abs_sweep
    have hc' : |4 * Real.arctan (st.v1.withBulge b).bulge| = |4 * Real.arctan b| := rfl
    have hcpi := (abs_four_arctan_le_iff c).mpr hc.half
    set A := 4 * Real.arctan x.bulge with hA
    set B := 4 * Real.arctan st.v1.bulge with hB
    have habs : |A + B| = |A| + |B| := by
      apply abs_add_eq_add_abs_iff A B |>.mpr
      rcases pos_and_pos_or_neg_and_neg_of_mul_pos hxt with ⟨g1, g2⟩ | ⟨g1, g2⟩
      · have := Real.arctan_pos.mpr g1
        have := Real.arctan_pos.mpr g2
        exact Or.inl ⟨by linarith, by linarith⟩
      · have := Real.arctan_lt_zero.mpr g1
        have := Real.arctan_lt_zero.mpr g2
        exact Or.inr ⟨by linarith, by linarith⟩
    have hle : |A + B| ≤ Real.pi := by
      rw [habs]
      have := abs_nonneg (4 * Real.arctan st.v2.bulge)
      linarith
    have hpi := Real.pi_pos
    have hat : 4 * Real.arctan (Real.tan ((A + B) / 4)) = A + B := by
      rw [abs_le] at hle
      rw [Real.arctan_tan] <;> linarith
    refine n3 (Real.tan ((A + B) / 4)) ⟨hc.arc1, h.arc1, ?_, ?_, hxt, hat, ?_⟩
    · have : segCenter (x, st.v1.withBulge b) = segCenter (st.v1.withBulge b, v3) := hc.center
      rw [h.center_eq] at this
      exact this
    · have : segRadius (x, st.v1.withBulge b) = segRadius (st.v1.withBulge b, v3) := hc.radius
      rw [h.radius_eq] at this
      exact this
    · rw [← abs_four_arctan_le_iff, hat]; exact hle
  · exact ⟨l, hk⟩
  · rw [hk]
    have hf := hinv.first
    rw [hl] at hf
    exact first_last hf rfl (h.ends_ne hinv.ne)
  · rw [hk]
    intro a ha hla
    have := hinv.headLine a ha hla
    rw [hl] at this
    cases l with
    | nil =>
      simp only [List.nil_append, List.head?_cons, Option.some.injEq] at this
      rw [← this] at hla
      exact absurd hla h.arc1
    | cons d l => exact this
  · rw [hk]
    intro w hw
    rcases List.mem_append.mp hw with hw | hw
    · exact hinv.mem w (by rw [hl]; simp [hw])
    · rw [List.mem_singleton] at hw; subst hw
      obtain ⟨u, h1, h2⟩ := hinv.mem st.v1 (by rw [hl]; simp)
      exact ⟨u, h1, h2⟩
  · exact h.half
  · exact h3m
  · exact h.ends_ne hinv.ne
  · show st.v2Zero = (st.v1.withBulge b).bulgeIsZero
    rw [hinv.z2, bulgeIsZero_false h.arc2, bulgeIsZero_false h.notLine]
  · rfl
  · show st.v2Pos = decide (0 < b)
    rw [hinv.p2, hsign]
  · exact Vertex.bulgeIsPos_eq v3
  · right
    show some _ = some (segRadius (st.v1.withBulge b, v3), segCenter (st.v1.withBulge b, v3))
    rw [h.radius_eq, h.center_eq]
  · show C[i]? = some v3
    exact h3
  · intro _
    obtain ⟨run, q1, q2, q3, q4⟩ := hinv.run h.arc1
    refine ⟨run ++ [(st.v2, v3)], by simp, ?_, ?_, ?_⟩
    · rw [pathSegs_take_succ hi hinv.c2 h3]
      exact q2.append (List.Sublist.refl _)
    · show ∀ s ∈ run ++ [(st.v2, v3)], _ ∧ _ ∧ segRadius s = segRadius (st.v1.withBulge b, v3) ∧ segCenter s = segCenter (st.v1.withBulge b, v3)
      rw [h.radius_eq, h.center_eq]
      intro s hs
      rcases List.mem_append.mp hs with hs | hs
      · exact q3 s hs
      · rw [List.mem_singleton] at hs; subst hs
        exact ⟨h.arc2, hne, h.radius.symm, h.center.symm⟩
    · show sweepSum (run ++ [(st.v2, v3)]) = |4 * Real.arctan b|
      rw [h.abs_sweep, ← q4]; simp [sweepSum]

end

theorem arcFold {p : Pline ℝ} {eps : ℝ} (hr : ResolvesArcs eps p) (h2 : 2 ≤ p.verts.length) (i : Nat) (hi : 2 ≤ i)
    (st : RedundantState ℝ) (hinv : ArcInv p (redChain p) i st) :
    ∀ n, i + n ≤ (redChain p).length →
    ∃ st', (cycleFrom p i n).foldlM (redundantStep p eps) st = .ok st' ∧ ArcInv p (redChain p) (i + n) st'
  | 0, _ => ⟨st, by simp [cycleFrom, pure, Except.pure], hinv⟩
  | n + 1, hn => by
    obtain ⟨st', hf, hinv'⟩ := arcFold hr h2 i hi st hinv n (by omega)
    obtain ⟨v, hv, hcyc⟩ := cycleFrom_succ p (by omega) i n
    have hlen := redChain_length p (by omega)
    have h3 : (redChain p)[i + n]? = some v := by rw [redChain_get p (by omega) _ (by omega), hv]
    have h3m := List.mem_of_getElem? hv
    have hiv : i + n ≤ p.verts.length := by split_ifs at hlen <;> omega
    have hfin : p.closed = true ∨ i + n ≠ p.verts.length := by
      cases hc : p.closed with
      | true => exact Or.inl rfl
      | false => right; rw [hc] at hlen; simp at hlen; omega
    have key : ∃ st2, redundantStep p eps st' (i + n, v) = .ok st2 ∧ ArcInv p (redChain p) (i + n + 1) st2 := by
      rcases step_arcs hr h2 st' (i + n) (by omega) hfin v h3 h3m hinv' with ⟨h, e⟩ | ⟨h, b, hb, e⟩ | ⟨h, e⟩
      · exact ⟨_, e, inv_discard h3 h3m (by omega) hinv' h⟩
      · exact ⟨_, e, inv_join h3 h3m (by omega) hinv' h hb⟩
      · exact ⟨_, e, inv_include hr.half (redChain_take p) h3 h3m (by omega) hiv hinv' h⟩
    obtain ⟨st2, hs, hinv2⟩ := key
    refine ⟨st2, ?_, hinv2⟩
    rw [hcyc, List.foldlM_append, hf]
    simp only [bind, Except.bind, List.foldlM_cons, List.foldlM_nil, hs, pure, Except.pure]

theorem arcInv_init (p : Pline ℝ) (a b c : Vertex ℝ) (rest : List (Vertex ℝ)) (hr : ∀ v ∈ p.verts, |v.bulge| ≤ 1)
    (hp : p.verts = a :: b :: c :: rest) (hne : a.pos ≠ b.pos) :
    ArcInv p (redChain p) 2
      { result := none, v1 := a, v2 := b, v1v2Arc := none,
        v1Zero := a.bulgeIsZero, v2Zero := b.bulgeIsZero,
        v1Pos := a.bulgeIsPos, v2Pos := b.bulgeIsPos } := by
  have ha : a ∈ p.verts := by rw [hp]; simp
  have hb : b ∈ p.verts := by rw [hp]; simp
  have hch : ∃ r, redChain p = a :: b :: r := by
    unfold redChain; rw [hp]; split_ifs
    · exact ⟨_, rfl⟩
    · exact ⟨_, rfl⟩
  obtain ⟨r, hch⟩ := hch
  have hk : ∀ s : RedundantState ℝ, s.result = none → keptSoFar p 2 s = [a] := by
    intro s hs
    simp [keptSoFar, hp, hs]
  constructor
  · rw [hch, hk _ rfl]
    exact Shortened.refl _
  · rw [hk _ rfl]
    intro x y u v w he
    have := congrArg List.length he
    simp at this
    omega
  · exact ⟨[], hk _ rfl⟩
  · rw [hk _ rfl]
    intro x y t he
    simp only [List.cons_append, List.nil_append, List.cons.injEq] at he
    rw [← he.1, ← he.2.1]; exact hne
  · intro d hd _
    rw [hk _ rfl]
    rw [hp] at hd
    exact hd
  · rw [hk _ rfl]
    intro w hw
    rw [List.mem_singleton] at hw; subst hw
    exact ⟨_, ha, rfl⟩
  · exact hr a ha
  · exact hb
  · exact hne
  · rfl
  · rfl
  · exact Vertex.bulgeIsPos_eq a
  · exact Vertex.bulgeIsPos_eq b
  · exact Or.inl rfl
  · rw [hch]; rfl
  · intro hal
    refine ⟨[(a, b)], by simp, ?_, ?_, ?_⟩
    · rw [hch]; simp [pathSegs]
    · intro s hs
      rw [List.mem_singleton] at hs; subst hs
      exact ⟨hal, hne, rfl, rfl⟩
    · simp [sweepSum]

theorem removeRedundant_arcs {p : Pline ℝ} {eps : ℝ} (hr : ResolvesArcs eps p)
    (a b c : Vertex ℝ) (rest : List (Vertex ℝ)) (hp : p.verts = a :: b :: c :: rest)
    (hne : a.pos ≠ b.pos) :
    ∃ st, ArcInv p (redChain p) (redChain p).length st ∧ p.removeRedundant eps =
      (if p.closed then redundantCloseClosed p eps st else redundantCloseOpen p eps st) := by
  have ha : a ∈ p.verts := by rw [hp]; simp
  have hb : b ∈ p.verts := by rw [hp]; simp
  have hlen : p.verts.length = rest.length + 3 := by rw [hp]; simp
  have hclen := redChain_length p (by omega)
  obtain ⟨st, hf, hinv⟩ := arcFold hr (by omega) 2 (Nat.le_refl _) _ (arcInv_init p a b c rest hr.half hp hne)
    ((redChain p).length - 2) (by omega)
  rw [show 2 + ((redChain p).length - 2) = (redChain p).length by omega] at hinv
  refine ⟨st, hinv, ?_⟩
  have hn : a.pos.fuzzyEqEps b.pos eps = false := by
    rw [← Bool.not_eq_true, near_iff hr.points ha hb]; exact hne
  have hskip : skipStartRepeats eps p.vertexCount a b 2 (p.verts.drop 2) = (a, b, 2) := by
    unfold skipStartRepeats
    rw [hn]; rfl
  have hat0 : p.at 0 = .ok a := by rw [at_lt (by omega)]; simp [hp]
  have hat1 : p.at 1 = .ok b := by rw [at_lt (by omega)]; simp [hp]
  have hcount : (if p.closed = true then p.vertexCount - 1 else p.vertexCount - 2)
      = (redChain p).length - 2 := by
    rw [hclen]; unfold vertexCount; split_ifs <;> omega
  unfold removeRedundant
  dsimp only
  rw [if_neg (by unfold vertexCount; omega), if_neg (by unfold vertexCount; omega), hat0, hat1]
  simp only [bind, Except.bind, hskip, if_true, hcount]
  rw [if_neg (by unfold vertexCount; omega)]
  simp only [hf]

end Cavc
