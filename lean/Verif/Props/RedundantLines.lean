import Verif.Props.Redundant
import Verif.Props.ApproxLines
import Verif.Spec.Simplify

/-! # C11 for straight polylines -/

set_option linter.unusedSectionVars false

namespace Cavc
open Scalar RealScalar Pline

/-! ## Points on straight segments -/

theorem onLineSeg_left (a b : V2 ℝ) : OnLineSeg a b a :=
  ⟨0, le_refl _, zero_le_one, by rw [V2.ext_iff']; simp [linePoint]⟩
theorem onLineSeg_right (a b : V2 ℝ) : OnLineSeg a b b :=
  ⟨1, zero_le_one, le_refl _, by rw [V2.ext_iff']; simp [linePoint]⟩
theorem OnLineSeg.symm {a b c : V2 ℝ} (h : OnLineSeg a b c) : OnLineSeg b a c := by
  obtain ⟨t, h0, h1, rfl⟩ := h
  refine ⟨1 - t, by linarith, by linarith, ?_⟩
  rw [V2.ext_iff']; simp only [linePoint]; constructor <;> ring

/-- collinear and not turning back means: on the segment -/
theorem onLineSeg_iff (a b c : V2 ℝ) : OnLineSeg a c b ↔
    (a.x * (b.y - c.y) + b.x * (c.y - a.y) + c.x * (a.y - b.y) = 0 ∧
      0 ≤ (c.x - b.x) * (b.x - a.x) + (c.y - b.y) * (b.y - a.y)) := by
  constructor
  · rintro ⟨t, h0, h1, rfl⟩
    simp only [linePoint]
    constructor
    · ring
    · have : (c.x - (a.x + t * (c.x - a.x))) * (a.x + t * (c.x - a.x) - a.x)
        + (c.y - (a.y + t * (c.y - a.y))) * (a.y + t * (c.y - a.y) - a.y)
        = t * (1 - t) * ((c.x - a.x) ^ 2 + (c.y - a.y) ^ 2) := by ring
      rw [this]
      have : 0 ≤ 1 - t := by linarith
      positivity
  · rintro ⟨hc, hd⟩
    set ux := b.x - a.x with hux
    set uy := b.y - a.y with huy
    set wx := c.x - b.x with hwx
    set wy := c.y - b.y with hwy
    have hcr : ux * wy - uy * wx = 0 := by rw [hux, huy, hwx, hwy]; linarith [hc]
    have hcx : c.x - a.x = ux + wx := by rw [hux, hwx]; ring
    have hcy : c.y - a.y = uy + wy := by rw [huy, hwy]; ring
    by_cases hz : ux ^ 2 + uy ^ 2 = 0
    · have h1 : ux = 0 := by nlinarith [sq_nonneg ux, sq_nonneg uy]
      have h2 : uy = 0 := by nlinarith [sq_nonneg ux, sq_nonneg uy]
      have : b = a := by rw [V2.ext_iff']; constructor <;> linarith
      rw [this]; exact onLineSeg_left a c
    · have hpos : 0 < ux ^ 2 + uy ^ 2 := lt_of_le_of_ne (by positivity) (Ne.symm hz)
      have hk : 0 < (ux ^ 2 + uy ^ 2) + (wx * ux + wy * uy) := by linarith
      set k := (ux ^ 2 + uy ^ 2) + (wx * ux + wy * uy) with hkd
      refine ⟨(ux ^ 2 + uy ^ 2) / k, by positivity, ?_, ?_⟩
      · rw [div_le_one hk]; linarith
      · rw [V2.ext_iff']
        simp only [linePoint, hcx, hcy]
        have hx : ux = (ux ^ 2 + uy ^ 2) / k * (ux + wx) := by
          rw [div_mul_eq_mul_div, eq_div_iff hk.ne', hkd]
          linear_combination uy * hcr
        have hy : uy = (ux ^ 2 + uy ^ 2) / k * (uy + wy) := by
          rw [div_mul_eq_mul_div, eq_div_iff hk.ne', hkd]
          linear_combination (-ux) * hcr
        constructor
        · linarith
        · linarith

theorem onLineSeg_extend {x v1 v2 v3 : V2 ℝ} (h1 : OnLineSeg x v3 v1) (h2 : OnLineSeg v1 v3 v2) :
    OnLineSeg x v2 v1 := by
  obtain ⟨t, ht0, ht1, e1⟩ := h1
  obtain ⟨s, hs0, hs1, e2⟩ := h2
  rw [V2.ext_iff'] at e1 e2
  simp only [linePoint] at e1 e2
  set k := t + s * (1 - t) with hk
  have hst : 0 ≤ s * (1 - t) := mul_nonneg hs0 (by linarith)
  have hvx : v2.x - x.x = k * (v3.x - x.x) := by rw [e2.1, e1.1, hk]; ring
  have hvy : v2.y - x.y = k * (v3.y - x.y) := by rw [e2.2, e1.2, hk]; ring
  by_cases hk0 : k = 0
  · have ht : t = 0 := by linarith
    have : v1 = x := by
      rw [V2.ext_iff', e1.1, e1.2, ht]
      constructor <;> ring
    rw [this]; exact onLineSeg_left _ _
  · have hkp : 0 < k := lt_of_le_of_ne (by linarith) (Ne.symm hk0)
    refine ⟨t / k, by positivity, ?_, ?_⟩
    · rw [div_le_one hkp]; linarith
    · rw [V2.ext_iff']
      simp only [linePoint, hvx, hvy]
      constructor
      · rw [e1.1]; field_simp
      · rw [e1.2]; field_simp

/-- the segment is the union of its two parts at a point on it -/
theorem onLineSeg_split {x y z pt : V2 ℝ} (hy : OnLineSeg x z y) :
    OnLineSeg x z pt ↔ OnLineSeg x y pt ∨ OnLineSeg y z pt := by
  obtain ⟨s, hs0, hs1, rfl⟩ := hy
  constructor
  · rintro ⟨t, ht0, ht1, rfl⟩
    rcases le_total t s with h | h
    · left
      by_cases hs : s = 0
      · have : t = 0 := by linarith
        subst hs this
        exact ⟨0, le_refl _, zero_le_one, by rw [V2.ext_iff']; simp [linePoint]⟩
      · have hsp : 0 < s := lt_of_le_of_ne hs0 (Ne.symm hs)
        refine ⟨t / s, by positivity, (div_le_one hsp).mpr h, ?_⟩
        rw [V2.ext_iff']
        simp only [linePoint]
        constructor <;> field_simp <;> ring
    · right
      by_cases hs : s = 1
      · have : t = 1 := by linarith
        subst hs this
        exact ⟨0, le_refl _, zero_le_one, by rw [V2.ext_iff']; simp [linePoint]⟩
      · have hsp : 0 < 1 - s := by
          have := lt_of_le_of_ne hs1 hs
          linarith
        refine ⟨(t - s) / (1 - s), div_nonneg (by linarith) hsp.le,
          (div_le_one hsp).mpr (by linarith), ?_⟩
        rw [V2.ext_iff']
        simp only [linePoint]
        have e : (t - s) / (1 - s) * (1 - s) = t - s := div_mul_cancel₀ _ hsp.ne'
        constructor
        · linear_combination (x.x - z.x) * e
        · linear_combination (x.y - z.y) * e
  · rintro (⟨t, ht0, ht1, rfl⟩ | ⟨t, ht0, ht1, rfl⟩)
    · refine ⟨t * s, by positivity, by nlinarith, ?_⟩
      rw [V2.ext_iff']; simp only [linePoint]; constructor <;> ring
    · refine ⟨s + t * (1 - s), by nlinarith, by nlinarith, ?_⟩
      rw [V2.ext_iff']; simp only [linePoint]; constructor <;> ring

/-! ## The list specifications -/

/-- points traced by a chain of straight segments -/
def OnChain (l : List (V2 ℝ)) (pt : V2 ℝ) : Prop := ∃ s ∈ pathSegs l, OnLineSeg s.1 s.2 pt

/-- The specification keeps the traced points. -/
theorem Straightened.onChain {l l' : List (V2 ℝ)} (h : Straightened l l') (pt : V2 ℝ) :
    OnChain l pt ↔ OnChain l' pt := by
  induction h with
  | refl => exact Iff.rfl
  | drop a b x y z _ hy ih =>
    rw [ih]
    have e1 : pathSegs (a ++ x :: y :: z :: b)
        = pathSegs (a ++ [x]) ++ (x, y) :: (y, z) :: pathSegs (z :: b) := by
      rw [pathSegs_append_cons]; rfl
    have e2 : pathSegs (a ++ x :: z :: b) = pathSegs (a ++ [x]) ++ (x, z) :: pathSegs (z :: b) := by
      rw [pathSegs_append_cons]; rfl
    unfold OnChain
    rw [e1, e2]
    simp only [List.mem_append, List.mem_cons]
    have hs := onLineSeg_split (pt := pt) hy
    constructor
    · rintro ⟨s, (h | rfl | rfl | h), hp⟩
      · exact ⟨s, Or.inl h, hp⟩
      · exact ⟨(x, z), Or.inr (Or.inl rfl), hs.mpr (Or.inl hp)⟩
      · exact ⟨(x, z), Or.inr (Or.inl rfl), hs.mpr (Or.inr hp)⟩
      · exact ⟨s, Or.inr (Or.inr h), hp⟩
    · rintro ⟨s, (h | rfl | h), hp⟩
      · exact ⟨s, Or.inl h, hp⟩
      · rcases hs.mp hp with h | h
        · exact ⟨(x, y), Or.inr (Or.inl rfl), h⟩
        · exact ⟨(y, z), Or.inr (Or.inr (Or.inl rfl)), h⟩
      · exact ⟨s, Or.inr (Or.inr (Or.inr h)), hp⟩

theorem noStraight_concat {l : List (V2 ℝ)} {c : V2 ℝ} (h : NoStraight l)
    (hc : ∀ a x y, l = a ++ [x, y] → ¬ OnLineSeg x c y) : NoStraight (l ++ [c]) := by
  intro a b x y z he
  rcases List.eq_nil_or_concat b with rfl | ⟨b', d, rfl⟩
  · have : l ++ [c] = (a ++ [x, y]) ++ [z] := by rw [he]; simp
    obtain ⟨h1, h2⟩ := List.append_inj' this rfl
    simp only [List.cons.injEq, and_true] at h2
    subst h2
    exact hc a x y h1
  · have : l ++ [c] = (a ++ x :: y :: z :: b') ++ [d] := by rw [he]; simp
    exact h a b' x y z (List.append_inj' this rfl).1

theorem noStraight_of_concat {l : List (V2 ℝ)} {c : V2 ℝ} (h : NoStraight (l ++ [c])) :
    NoStraight l := by
  intro a b x y z he
  exact h a (b ++ [c]) x y z (by rw [he]; simp)

theorem noStraight_of_cons {l : List (V2 ℝ)} {c : V2 ℝ} (h : NoStraight (c :: l)) :
    NoStraight l := by
  intro a b x y z he
  exact h (c :: a) b x y z (by rw [he]; simp)

theorem noStraight_cons {l : List (V2 ℝ)} {c : V2 ℝ} (h : NoStraight l)
    (hc : ∀ y z b, l = y :: z :: b → ¬ OnLineSeg c z y) : NoStraight (c :: l) := by
  intro a b x y z he
  cases a with
  | nil =>
    simp only [List.nil_append, List.cons.injEq] at he
    rw [← he.1]
    exact hc y z b he.2
  | cons d a =>
    simp only [List.cons_append, List.cons.injEq] at he
    exact h a b x y z he.2

/-! ## The loop -/

/-- the vertexes kept so far -/
def keptSoFar (p : Pline ℝ) (i : Nat) (st : RedundantState ℝ) : List (Vertex ℝ) :=
  match st.result with
  | none => p.verts.take (i - 1)
  | some r => r.verts

/-- loop invariant: `C` is the vertex chain, `i` the index of the next `v3` -/
structure LineInv (p : Pline ℝ) (C : List (Vertex ℝ)) (i : Nat) (st : RedundantState ℝ) : Prop where
  straight : Straightened (C.map Vertex.pos)
    ((keptSoFar p i st).map Vertex.pos ++ st.v2.pos :: (C.drop i).map Vertex.pos)
  noStraight : NoStraight ((keptSoFar p i st).map Vertex.pos ++ [st.v2.pos])
  last : ∃ l w, keptSoFar p i st = l ++ [w] ∧ w.pos = st.v1.pos
  head : (keptSoFar p i st).head? = p.verts.head?
  mem : ∀ w ∈ keptSoFar p i st, w ∈ p.verts
  v1 : st.v1 ∈ p.verts
  v2 : st.v2 ∈ p.verts
  ne : st.v1.pos ≠ st.v2.pos
  z1 : st.v1Zero = true
  z2 : st.v2Zero = true
  c2 : ∃ w, C[i - 1]? = some w ∧ st.v2 = w

theorem near_iff {p : Pline ℝ} {eps : ℝ} (hr : Resolves eps p.verts) {a b : Vertex ℝ}
    (ha : a ∈ p.verts) (hb : b ∈ p.verts) :
    a.pos.fuzzyEqEps b.pos eps = true ↔ a.pos = b.pos := by
  rw [V2.fuzzyEqEps_iff, V2.ext_iff']
  constructor
  · rintro ⟨h1, h2⟩; exact hr.near a ha b hb h1 h2
  · rintro ⟨h1, h2⟩
    have h1 : a.x = b.x := h1
    have h2 : a.y = b.y := h2
    have := hr.pos
    simp [h1, h2, this]

theorem collinear_iff {p : Pline ℝ} {eps : ℝ} (hr : Resolves eps p.verts) {a b c : Vertex ℝ}
    (ha : a ∈ p.verts) (hb : b ∈ p.verts) (hc : c ∈ p.verts) :
    isCollinearSameDir eps a b c = true ↔ OnLineSeg a.pos c.pos b.pos := by
  unfold isCollinearSameDir
  split_ifs with h
  · rw [near_iff hr hb hc] at h
    rw [h]
    simp [onLineSeg_right]
  · rw [onLineSeg_iff]
    simp only [fuzzyEqZeroEps_eq, gt_eq, Bool.and_eq_true, decide_eq_true_eq, V2.dot_eq, V2.sub_x,
      V2.sub_y, Vertex.pos_x, Vertex.pos_y]
    have hp := hr.pos
    constructor
    · rintro ⟨h1, h2⟩
      exact ⟨hr.cross a ha b hb c hc h1, hr.dir a ha b hb c hc h2⟩
    · rintro ⟨h1, h2⟩
      rw [h1]
      exact ⟨by simpa using hp, by linarith⟩

theorem step_line {p : Pline ℝ} {eps : ℝ} (hr : Resolves eps p.verts) (st : RedundantState ℝ) (i : Nat)
    (hfin : p.closed = true ∨ i ≠ p.verts.length) (hz1 : st.v1Zero = true) (hz2 : st.v2Zero = true)
    (v3 : Vertex ℝ) (h1 : st.v1 ∈ p.verts) (h2 : st.v2 ∈ p.verts) (h3 : v3 ∈ p.verts) :
    (OnLineSeg st.v1.pos v3.pos st.v2.pos → redundantStep p eps st (i, v3) = .ok { st with
        result := some (st.result.getD ⟨p.verts.take (i - 1), p.closed⟩), v2 := v3, v1v2Arc := none,
        v2Zero := v3.bulgeIsZero, v2Pos := v3.bulgeIsPos }) ∧
    (¬ OnLineSeg st.v1.pos v3.pos st.v2.pos → redundantStep p eps st (i, v3) = .ok {
        result := st.result.map (·.addVertex st.v2), v1 := st.v2, v2 := v3, v1v2Arc := none,
        v1Zero := st.v2Zero, v2Zero := v3.bulgeIsZero, v1Pos := st.v2Pos,
        v2Pos := v3.bulgeIsPos }) := by
  have hf : (!p.closed && i == p.vertexCount) = false := by
    unfold vertexCount
    rcases hfin with h | h <;> simp [h]
  have hcol := collinear_iff hr h1 h2 h3
  constructor
  · intro hon
    unfold redundantStep
    dsimp only
    by_cases hnear : st.v2.pos.fuzzyEqEps v3.pos eps = true
    · rw [if_pos hnear]
    · rw [if_neg hnear, if_pos (by rw [hz1, hz2]; rfl), hf, hcol.mpr hon]
      rfl
  · intro hon
    have hnear : ¬ st.v2.pos.fuzzyEqEps v3.pos eps = true := by
      intro h
      rw [near_iff hr h2 h3] at h
      exact hon (h ▸ onLineSeg_right _ _)
    have hcol' : isCollinearSameDir eps st.v1 st.v2 v3 = false := by
      rw [← Bool.not_eq_true, hcol]; exact hon
    unfold redundantStep
    dsimp only
    rw [if_neg hnear, if_pos (by rw [hz1, hz2]; rfl), hf, hcol']
    rfl

theorem lineInv_step {p : Pline ℝ} {eps : ℝ} (hr : Resolves eps p.verts)
    (hl : ∀ v ∈ p.verts, IsLine v) (C : List (Vertex ℝ)) (hC : ∀ n, n ≤ p.verts.length → C.take n = p.verts.take n)
    (st : RedundantState ℝ) (i : Nat) (hi : 2 ≤ i) (hiv : i ≤ p.verts.length)
    (hfin : p.closed = true ∨ i ≠ p.verts.length) (v3 : Vertex ℝ)
    (h3 : C[i]? = some v3) (h3m : v3 ∈ p.verts) (hinv : LineInv p C i st) :
    ∃ st', redundantStep p eps st (i, v3) = .ok st' ∧ LineInv p C (i + 1) st' := by
  obtain ⟨hd, hk⟩ := step_line hr st i hfin hinv.z1 hinv.z2 v3 hinv.v1 hinv.v2 h3m
  have hdrop : C.drop i = v3 :: C.drop (i + 1) := by
    obtain ⟨hlt, he⟩ := List.getElem?_eq_some_iff.mp h3
    rw [← he]; exact List.drop_eq_getElem_cons hlt
  obtain ⟨l, w, hlw, hw⟩ := hinv.last
  by_cases hon : OnLineSeg st.v1.pos v3.pos st.v2.pos
  · refine ⟨_, hd hon, ?_⟩
    have hkept : ∀ s : RedundantState ℝ,
        s.result = some (st.result.getD ⟨p.verts.take (i - 1), p.closed⟩) →
        keptSoFar p (i + 1) s = keptSoFar p i st := by
      intro s hs
      unfold keptSoFar
      rw [hs]
      cases st.result <;> rfl
    rw [show v3.bulgeIsZero = true from bulgeIsZero_true (hl v3 h3m)]
    constructor
    · rw [hkept _ rfl]
      have h := hinv.straight
      rw [hdrop, hlw] at h
      rw [hlw]
      simp only [List.map_append, List.map_cons, List.map_nil, List.append_assoc, List.cons_append,
        List.nil_append] at h ⊢
      rw [hw] at h ⊢
      exact Straightened.drop _ _ _ _ _ _ h hon
    · rw [hkept _ rfl]
      have h := hinv.noStraight
      have h0 := noStraight_of_concat h
      apply noStraight_concat h0
      intro a x y he hbad
      have hy : y = st.v1.pos := by
        rw [hlw, List.map_append] at he
        have : l.map Vertex.pos ++ [w.pos] = (a ++ [x]) ++ [y] := by rw [← List.map_singleton, he]; simp
        have := (List.append_inj' this rfl).2
        simp only [List.cons.injEq, and_true] at this
        rw [← this, hw]
      refine h a [] x y st.v2.pos (by rw [he]; simp) ?_
      rw [hy] at hbad ⊢
      exact onLineSeg_extend hbad hon
    · rw [hkept _ rfl]; exact ⟨l, w, hlw, hw⟩
    · rw [hkept _ rfl]; exact hinv.head
    · rw [hkept _ rfl]; exact hinv.mem
    · exact hinv.v1
    · exact h3m
    · intro h
      dsimp only at h
      rw [← h] at hon
      have := (onLineSeg_iff _ _ _).mp hon
      have h2 := this.2
      apply hinv.ne
      rw [V2.ext_iff']
      constructor <;> nlinarith [sq_nonneg (st.v1.pos.x - st.v2.pos.x), sq_nonneg (st.v1.pos.y - st.v2.pos.y)]
    · exact hinv.z1
    · rfl
    · exact ⟨v3, by simpa using h3, rfl⟩
  · refine ⟨_, hk hon, ?_⟩
    have hkept : ∀ s : RedundantState ℝ, s.result = st.result.map (·.addVertex st.v2) →
        keptSoFar p (i + 1) s = keptSoFar p i st ++ [st.v2] := by
      intro s hs
      unfold keptSoFar
      rw [hs]
      cases hres : st.result with
      | none =>
        simp only [Option.map_none]
        obtain ⟨w, hw, he⟩ := hinv.c2
        have : C.take i = C.take (i - 1) ++ [w] := by
          conv_lhs => rw [show i = (i - 1) + 1 by omega]
          rw [List.take_add_one, hw]; rfl
        rw [hC i hiv, hC (i - 1) (by omega)] at this
        rw [Nat.add_sub_cancel, this, he]
      | some r => rfl
    rw [show v3.bulgeIsZero = true from bulgeIsZero_true (hl v3 h3m)]
    constructor
    · rw [hkept _ rfl]
      have h := hinv.straight
      rw [hdrop] at h
      simpa using h
    · rw [hkept _ rfl, List.map_append]
      apply noStraight_concat
      · exact hinv.noStraight
      · intro a x y he hbad
        rw [hlw, List.map_append, List.map_singleton, List.map_singleton, List.append_assoc,
          show [w.pos] ++ [st.v2.pos] = [w.pos, st.v2.pos] from rfl] at he
        have := (List.append_inj' he rfl).2
        simp only [List.cons.injEq, and_true] at this
        rw [← this.1, ← this.2, hw] at hbad
        exact hon hbad
    · rw [hkept _ rfl]; exact ⟨_, _, rfl, rfl⟩
    · rw [hkept _ rfl, ← hinv.head, hlw]
      cases l <;> rfl
    · rw [hkept _ rfl]
      intro u hu
      rcases List.mem_append.mp hu with hu | hu
      · exact hinv.mem u hu
      · simp at hu; subst hu; exact hinv.v2
    · exact hinv.v2
    · exact h3m
    · intro h
      dsimp only at h
      apply hon
      rw [h]; exact onLineSeg_right _ _
    · exact hinv.z2
    · rfl
    · exact ⟨v3, by simpa using h3, rfl⟩


/-- the vertex chain the loop walks along -/
def redChain (p : Pline ℝ) : List (Vertex ℝ) :=
  if p.closed then p.verts ++ p.verts.take 1 else p.verts

theorem redChain_get (p : Pline ℝ) (h : 0 < p.verts.length) (i : Nat) (hi : i < (redChain p).length) :
    (redChain p)[i]? = p.verts[i % p.verts.length]? := by
  unfold redChain at *
  split_ifs at * with hc
  · simp only [List.length_append, List.length_take] at hi
    rw [List.getElem?_append]
    split_ifs with hl
    · rw [Nat.mod_eq_of_lt hl]
    · have : i = p.verts.length := by omega
      subst this
      rw [Nat.sub_self, Nat.mod_self, List.getElem?_take]
      simp
  · rw [Nat.mod_eq_of_lt hi]

theorem redChain_take (p : Pline ℝ) (n : Nat) (hn : n ≤ p.verts.length) :
    (redChain p).take n = p.verts.take n := by
  unfold redChain
  split_ifs
  · rw [List.take_append_of_le_length hn]
  · rfl

theorem redChain_length (p : Pline ℝ) (h : 0 < p.verts.length) :
    (redChain p).length = p.verts.length + (if p.closed then 1 else 0) := by
  unfold redChain
  split_ifs <;> simp <;> omega

theorem lineFold {p : Pline ℝ} {eps : ℝ} (hr : Resolves eps p.verts)
    (hl : ∀ v ∈ p.verts, IsLine v) (h0 : 0 < p.verts.length) (i : Nat) (hi : 2 ≤ i)
    (st : RedundantState ℝ) (hinv : LineInv p (redChain p) i st) :
    ∀ n, i + n ≤ (redChain p).length →
    ∃ st', (cycleFrom p i n).foldlM (redundantStep p eps) st = .ok st' ∧
      LineInv p (redChain p) (i + n) st'
  | 0, _ => ⟨st, by simp [cycleFrom, pure, Except.pure], hinv⟩
  | n + 1, hn => by
    obtain ⟨st', hf, hinv'⟩ := lineFold hr hl h0 i hi st hinv n (by omega)
    obtain ⟨v, hv, hcyc⟩ := cycleFrom_succ p h0 i n
    have hlen := redChain_length p h0
    obtain ⟨st2, hs, hinv2⟩ := lineInv_step hr hl (redChain p) (redChain_take p) st' (i + n) (by omega)
      (by split_ifs at hlen <;> omega)
      (by
        cases hc : p.closed with
        | true => exact Or.inl rfl
        | false => right; rw [hc] at hlen; simp at hlen; omega)
      v (by rw [redChain_get p h0 _ (by omega), hv]) (List.mem_of_getElem? hv) hinv'
    refine ⟨st2, ?_, hinv2⟩
    rw [hcyc, List.foldlM_append, hf]
    simp only [bind, Except.bind, List.foldlM_cons, List.foldlM_nil, hs, pure, Except.pure]

theorem lineInv_init (p : Pline ℝ) (a b c : Vertex ℝ) (rest : List (Vertex ℝ))
    (hp : p.verts = a :: b :: c :: rest) (hne : a.pos ≠ b.pos) (hl : ∀ v ∈ p.verts, IsLine v) :
    LineInv p (redChain p) 2
      { result := none, v1 := a, v2 := b, v1v2Arc := none,
        v1Zero := a.bulgeIsZero, v2Zero := b.bulgeIsZero,
        v1Pos := a.bulgeIsPos, v2Pos := b.bulgeIsPos } := by
  have ha : a ∈ p.verts := by rw [hp]; simp
  have hb : b ∈ p.verts := by rw [hp]; simp
  have hch : ∃ r, redChain p = a :: b :: r := by
    unfold redChain; rw [hp]; split_ifs
    · exact ⟨_, rfl⟩
    · exact ⟨_, rfl⟩
  obtain ⟨r, hch⟩ := hch
  constructor
  · rw [hch]; simp only [keptSoFar, hp]
    exact Straightened.refl _
  · simp only [keptSoFar, hp]
    intro x y u v w he
    have := congrArg List.length he
    simp at this
    omega
  · exact ⟨[], a, by simp [keptSoFar, hp], rfl⟩
  · simp [keptSoFar, hp]
  · intro w hw; simp [keptSoFar, hp] at hw; rw [hw]; exact ha
  · exact ha
  · exact hb
  · exact hne
  · exact bulgeIsZero_true (hl a ha)
  · exact bulgeIsZero_true (hl b hb)
  · exact ⟨b, by rw [hch]; rfl, rfl⟩

theorem removeRedundant_start {p : Pline ℝ} {eps : ℝ} (hr : Resolves eps p.verts)
    (a b c : Vertex ℝ) (rest : List (Vertex ℝ)) (hp : p.verts = a :: b :: c :: rest)
    (hne : a.pos ≠ b.pos) (hl : ∀ v ∈ p.verts, IsLine v) :
    ∃ st, LineInv p (redChain p) (redChain p).length st ∧ p.removeRedundant eps =
      (if p.closed then redundantCloseClosed p eps st else redundantCloseOpen p eps st) := by
  have ha : a ∈ p.verts := by rw [hp]; simp
  have hb : b ∈ p.verts := by rw [hp]; simp
  have hlen : p.verts.length = rest.length + 3 := by rw [hp]; simp
  have hclen := redChain_length p (by omega)
  obtain ⟨st, hf, hinv⟩ := lineFold hr hl (by omega) 2 (Nat.le_refl _) _ (lineInv_init p a b c rest hp hne hl)
    ((redChain p).length - 2) (by omega)
  rw [show 2 + ((redChain p).length - 2) = (redChain p).length by omega] at hinv
  refine ⟨st, hinv, ?_⟩
  have hn : a.pos.fuzzyEqEps b.pos eps = false := by
    rw [← Bool.not_eq_true, near_iff hr ha hb]; exact hne
  have hskip : skipStartRepeats eps p.vertexCount a b 2 (p.verts.drop 2) = (a, b, 2) := by
    unfold skipStartRepeats
    rw [hn]; rfl
  have hat0 : p.at 0 = .ok a := by rw [at_lt (by omega)]; simp [hp]
  have hat1 : p.at 1 = .ok b := by rw [at_lt (by omega)]; simp [hp]
  have hcount : (if p.closed = true then p.vertexCount - 1 else p.vertexCount - 2)
      = (redChain p).length - 2 := by
    rw [hclen]; unfold vertexCount; split_ifs <;> omega
  unfold removeRedundant
  dsimp only
  rw [if_neg (by unfold vertexCount; omega), if_neg (by unfold vertexCount; omega), hat0, hat1]
  simp only [bind, Except.bind, hskip, if_true, hcount]
  rw [if_neg (by unfold vertexCount; omega)]
  simp only [hf]

theorem getLast?_of_concat {α} {l l' : List α} {w : α} (h : l = l' ++ [w]) : l.getLast? = some w := by
  rw [h]; simp

/-- **C11** Open polylines of straight segments whose start is not repeated, when the epsilon is
below the resolution of the vertexes: the call succeeds, only deletes vertexes lying on the straight
segment between their neighbours, keeps the closed flag, and no such vertex is left over.  Partial:
arcs, a repeated start and larger epsilons are missing; for those see the witnesses. -/
theorem C11_open_lines_partial (p : Pline ℝ) (eps : ℝ) (hopen : p.closed = false)
    (hr : Resolves eps p.verts) (hl : ∀ v ∈ p.verts, IsLine v) (a b : Vertex ℝ) (rest : List (Vertex ℝ))
    (hp : p.verts = a :: b :: rest) (hne : a.pos ≠ b.pos) :
    ∃ r, p.removeRedundant eps = .ok r ∧ (r.getD p).closed = false ∧
      Straightened (p.verts.map Vertex.pos) ((r.getD p).verts.map Vertex.pos) ∧
      NoStraight ((r.getD p).verts.map Vertex.pos) := by
  cases rest with
  | nil =>
    have ha : a ∈ p.verts := by rw [hp]; simp
    have hb : b ∈ p.verts := by rw [hp]; simp
    have hn : a.pos.fuzzyEqEps b.pos eps = false := by
      rw [← Bool.not_eq_true, near_iff hr ha hb]; exact hne
    have hat0 : p.at 0 = .ok a := by rw [at_lt (by rw [hp]; simp)]; simp [hp]
    have hat1 : p.at 1 = .ok b := by rw [at_lt (by rw [hp]; simp)]; simp [hp]
    refine ⟨none, ?_, hopen, Straightened.refl _, ?_⟩
    · unfold removeRedundant vertexCount
      rw [hp]
      simp [hat0, hat1, bind, Except.bind, hn]
    · intro x y u v w he
      have := congrArg List.length he
      simp [hp] at this
      omega
  | cons c rest =>
    obtain ⟨st, hinv, he⟩ := removeRedundant_start hr a b c rest hp hne hl
    have hlen : p.verts.length = rest.length + 3 := by rw [hp]; simp
    have hch : redChain p = p.verts := by unfold redChain; rw [hopen]; rfl
    rw [hch] at hinv
    rw [he, hopen]
    simp only [Bool.false_eq_true, if_false]
    obtain ⟨l, w, hlw, hw⟩ := hinv.last
    obtain ⟨u, hu, hv2⟩ := hinv.c2
    have hst := hinv.straight
    rw [List.drop_length, List.map_nil] at hst
    have hns := hinv.noStraight
    have hwm : w ∈ p.verts := hinv.mem w (by rw [hlw]; simp)
    have hnear : w.pos.fuzzyEqEps st.v2.pos eps = false := by
      rw [← Bool.not_eq_true, near_iff hr hwm hinv.v2, hw]; exact hinv.ne
    have hlast : p.last = some st.v2 := by
      unfold Pline.last
      rw [List.getLast?_eq_getElem?, hu, hv2]
    unfold redundantCloseOpen
    cases hres : st.result with
    | some pl =>
      have hk : keptSoFar p p.verts.length st = pl.verts := by unfold keptSoFar; rw [hres]
      rw [hk] at hlw hst hns
      have hpl : pl.last = some w := getLast?_of_concat hlw
      have hadd : pl.addOrReplaceVertex st.v2 eps = .ok ⟨pl.verts ++ [st.v2], pl.closed⟩ := by
        unfold addOrReplaceVertex vertexCount
        have hat : pl.at (pl.verts.length - 1) = .ok w := by
          apply at_ok
          rw [← List.getLast?_eq_getElem?]; exact hpl
        rw [if_neg (by rw [hlw]; simp), hat]
        simp [bind, Except.bind, hnear, addVertex]
      have hcl : pl.closed = false := by
        rcases C11_shape_partial p eps with ⟨r, h1, h2⟩ | ⟨h1, _⟩
        · rw [he, hopen] at h1
          simp only [Bool.false_eq_true, if_false, redundantCloseOpen, hres, hlast, unwrap, bind, Except.bind,
            hadd] at h1
          injection h1 with h1
          have := (h2 _ h1.symm).1
          rw [hopen] at this; exact this
        · rw [hopen] at h1; exact absurd h1 (by simp)
      refine ⟨some ⟨pl.verts ++ [st.v2], pl.closed⟩, ?_, hcl, ?_, ?_⟩
      · simp only [hlast, unwrap, bind, Except.bind, hadd]
      · simpa using hst
      · simpa using hns
    | none =>
      have hk : keptSoFar p p.verts.length st = p.verts.take (p.verts.length - 1) := by
        unfold keptSoFar; rw [hres]
      rw [hk] at hlw hst hns
      have hcat : p.verts = p.verts.take (p.verts.length - 1) ++ [st.v2] := by
        conv_lhs => rw [← List.take_length (l := p.verts), show p.verts.length = (p.verts.length - 1) + 1 by omega,
          List.take_add_one, hu]
        rw [hv2]; rfl
      have hat2 : p.at (p.vertexCount - 2) = .ok w := by
        unfold vertexCount
        apply at_ok
        have h1 : (p.verts.take (p.verts.length - 1))[p.verts.length - 2]? = some w := by
          have hll : l.length = p.verts.length - 2 := by
            have := congrArg List.length hlw
            simp at this; omega
          rw [hlw, ← hll]; simp
        rw [List.getElem?_take] at h1
        rw [if_pos (by omega)] at h1
        exact h1
      have hat1 : p.at (p.vertexCount - 1) = .ok st.v2 := by
        unfold vertexCount
        apply at_ok
        rw [hu, hv2]
      have hfz : w.fuzzyEqEps st.v2 eps = false := by
        rw [← Bool.not_eq_true]
        intro h
        apply Bool.eq_false_iff.mp hnear
        unfold Vertex.fuzzyEqEps at h
        unfold V2.fuzzyEqEps
        simp only [Bool.and_eq_true] at h
        simp only [Bool.and_eq_true]
        exact h.1
      refine ⟨none, ?_, hopen, Straightened.refl _, ?_⟩
      · simp only [hat1, hat2, bind, Except.bind, hfz, Bool.false_eq_true, if_false]
      · show NoStraight (p.verts.map Vertex.pos)
        rw [hcat]
        simpa using hns


/-- the list level part of closing the loop -/
theorem noStraight_loop_keep {x y z : V2 ℝ} {M l : List (V2 ℝ)} (hM : y :: M = l ++ [z])
    (h : NoStraight ((x :: y :: M) ++ [x])) (hx : ¬ OnLineSeg z y x) :
    NoStraight ((x :: y :: M) ++ (x :: y :: M).take 2) := by
  have : (x :: y :: M) ++ (x :: y :: M).take 2 = ((x :: y :: M) ++ [x]) ++ [y] := by simp
  rw [this]
  apply noStraight_concat h
  intro a u v he
  have e : (x :: l) ++ [z, x] = a ++ [u, v] := by rw [← he, hM]; simp
  have := (List.append_inj' e rfl).2
  simp only [List.cons.injEq, and_true] at this
  rw [← this.1, ← this.2]
  exact hx

theorem noStraight_loop_drop {x y z : V2 ℝ} {M : List (V2 ℝ)}
    (h : NoStraight ((x :: y :: M ++ [z]) ++ [x])) (hx : OnLineSeg z y x) :
    NoStraight ((z :: y :: M) ++ (z :: y :: M).take 2) := by
  have : (z :: y :: M) ++ (z :: y :: M).take 2 = (z :: (y :: M ++ [z])) ++ [y] := by simp
  rw [this]
  apply noStraight_concat
  · apply noStraight_cons
    · exact noStraight_of_cons (noStraight_of_concat h)
    · intro y' z' b he hbad
      have hy : y' = y := by simp at he; exact he.1.symm
      subst hy
      refine h [] (b ++ [x]) x y' z' (by
        rw [show x :: y' :: M ++ [z] ++ [x] = x :: (y' :: M ++ [z]) ++ [x] by simp, he]; simp) ?_
      exact (onLineSeg_extend hbad.symm hx.symm).symm
  · intro a u v he hbad
    have hv : v = z := by
      have e : (z :: y :: M) ++ [z] = (a ++ [u]) ++ [v] := by
        rw [show (a ++ [u]) ++ [v] = a ++ [u, v] by simp, ← he]; simp
      have := (List.append_inj' e rfl).2
      simp at this; exact this.symm
    subst hv
    cases a with
    | nil =>
      have := congrArg List.length he
      simp at this
    | cons c a =>
      simp only [List.cons_append, List.cons.injEq] at he
      refine h (x :: a) [] u v x ?_ ?_
      · rw [show x :: y :: M ++ [v] ++ [x] = x :: (y :: (M ++ [v])) ++ [x] by simp, he.2]; simp
      · exact onLineSeg_extend hbad hx

/-- **C11** The same for closed polylines: the start vertex may be deleted as well, the call does not
panic, and no deletable vertex is left over, going round the loop.  Partial as for the open case. -/
theorem C11_closed_lines_partial (p : Pline ℝ) (eps : ℝ) (hclosed : p.closed = true)
    (hr : Resolves eps p.verts) (hl : ∀ v ∈ p.verts, IsLine v) (a b : Vertex ℝ) (rest : List (Vertex ℝ))
    (hp : p.verts = a :: b :: rest) (hne : a.pos ≠ b.pos) :
    ∃ r, p.removeRedundant eps = .ok r ∧ (r.getD p).closed = true ∧
      LoopStraightened (p.verts.map Vertex.pos) ((r.getD p).verts.map Vertex.pos) ∧
      NoStraight ((r.getD p).verts.map Vertex.pos ++ ((r.getD p).verts.map Vertex.pos).take 2) := by
  have ha : a ∈ p.verts := by rw [hp]; simp
  have hb : b ∈ p.verts := by rw [hp]; simp
  have same : ∀ u v : V2 ℝ, u ≠ v → ¬ OnLineSeg u u v := by
    rintro u v huv ⟨t, _, _, h⟩
    apply huv
    rw [h, V2.ext_iff']; simp [linePoint]
  cases rest with
  | nil =>
    have hn : a.pos.fuzzyEqEps b.pos eps = false := by
      rw [← Bool.not_eq_true, near_iff hr ha hb]; exact hne
    have hat0 : p.at 0 = .ok a := by rw [at_lt (by rw [hp]; simp)]; simp [hp]
    have hat1 : p.at 1 = .ok b := by rw [at_lt (by rw [hp]; simp)]; simp [hp]
    refine ⟨none, ?_, hclosed, ⟨_, Straightened.refl _, Or.inl rfl⟩, ?_⟩
    · unfold removeRedundant vertexCount
      rw [hp]
      simp [hat0, hat1, bind, Except.bind, hn]
    · simp only [Option.getD_none, hp, List.map_cons, List.map_nil]
      apply noStraight_loop_keep (z := b.pos) (l := []) rfl
      · intro x y u v w he
        have h1 := congrArg List.length he
        simp at h1
        have hx : x = [] := List.eq_nil_of_length_eq_zero (by omega)
        subst hx
        simp only [List.cons_append, List.nil_append, List.cons.injEq] at he
        rw [← he.1, ← he.2.1, ← he.2.2.1]
        exact same _ _ hne
      · exact same _ _ hne.symm
  | cons c rest =>
    obtain ⟨st, hinv, he⟩ := removeRedundant_start hr a b c rest hp hne hl
    have hshape := C11_shape_partial p eps
    have hlen : p.verts.length = rest.length + 3 := by rw [hp]; simp
    have hch : redChain p = p.verts ++ [a] := by unfold redChain; rw [hclosed, hp]; rfl
    rw [hch] at hinv
    rw [he, hclosed, if_pos rfl] at hshape
    rw [he, hclosed, if_pos rfl]
    obtain ⟨l, w, hlw, hw⟩ := hinv.last
    obtain ⟨u, hu, hv2⟩ := hinv.c2
    have hv2 : st.v2 = a := by
      rw [hv2]
      rw [List.length_append, List.length_singleton, Nat.add_sub_cancel] at hu
      simp at hu
      exact hu.symm
    have hst := hinv.straight
    rw [List.drop_length, List.map_nil] at hst
    have hns := hinv.noStraight
    have hK : keptSoFar p (p.verts ++ [a]).length st = (st.result.getD p).verts := by
      unfold keptSoFar
      cases st.result with
      | none => simp
      | some r => rfl
    have hhead := hinv.head
    have hmem := hinv.mem
    have hne' := hinv.ne
    rw [hK] at hlw hst hns hhead hmem
    rw [hv2] at hst hns hne'
    have hwm : w ∈ p.verts := hmem w (by rw [hlw]; simp)
    have hnear : w.pos.fuzzyEqEps a.pos eps = false := by
      rw [← Bool.not_eq_true, near_iff hr hwm ha, hw]; exact hne'
    -- the kept vertexes start with `a` and have a second one
    have hshapeK : ∃ y M l', (st.result.getD p).verts = a :: y :: M ∧ y :: M = l' ++ [w] := by
      cases l with
      | nil =>
        rw [hlw, hp] at hhead
        simp at hhead
        rw [hhead] at hw
        exact absurd hw.symm hne'
      | cons c' l' =>
        have : c' = a := by rw [hlw, hp] at hhead; simpa using hhead
        subst this
        cases hh : l' ++ [w] with
        | nil => simp at hh
        | cons y M =>
          exact ⟨y, M, l', by rw [hlw, List.cons_append, hh], hh.symm⟩
    obtain ⟨y, M, l', hKv, hyM⟩ := hshapeK
    have hym : y ∈ p.verts := hmem y (by rw [hKv]; simp)
    have hwrap : redundantWrapRepeat p eps st = .ok st.result := by
      unfold redundantWrapRepeat
      cases hres : st.result with
      | some pl =>
        rw [hres] at hKv hlw
        have h0 : pl.at 0 = .ok a := at_ok (by rw [show pl.verts = _ from hKv]; rfl)
        have h1 : pl.last = some w := getLast?_of_concat hlw
        simp [h0, h1, unwrap, bind, Except.bind, hnear]
      | none =>
        rw [hres] at hKv hlw
        have h0 : p.at 0 = .ok a := at_ok (by rw [show p.verts = _ from hKv]; rfl)
        have h1 : p.last = some w := getLast?_of_concat hlw
        simp [h0, h1, unwrap, bind, Except.bind, hnear]
    have hat1 : (st.result.getD p).at 1 = .ok y := at_ok (by rw [hKv]; rfl)
    have hred : redundantCloseClosed p eps st = redundantFirst p eps st st.result y := by
      unfold redundantCloseClosed
      rw [hwrap]
      simp only [bind, Except.bind, hat1]
    rw [hred] at hshape ⊢
    have hcol := collinear_iff hr hinv.v1 hinv.v2 hym
    rw [hv2] at hcol
    have hstr : Straightened (p.verts.map Vertex.pos ++ (p.verts.map Vertex.pos).take 1)
        ((st.result.getD p).verts.map Vertex.pos ++ ((st.result.getD p).verts.map Vertex.pos).take 1) := by
      have e : ((st.result.getD p).verts.map Vertex.pos).take 1 = [a.pos] := by rw [hKv]; rfl
      have e2 : (p.verts.map Vertex.pos).take 1 = [a.pos] := by rw [hp]; rfl
      rw [e, e2]
      simpa using hst
    by_cases hon : OnLineSeg st.v1.pos y.pos a.pos
    · -- the start vertex goes
      obtain ⟨M', rfl⟩ : ∃ M', M = M' ++ [w] := by
        cases l' with
        | nil =>
          simp only [List.nil_append, List.cons.injEq] at hyM
          rw [hyM.1, ← hw] at hon
          rw [← hw] at hne'
          exact absurd hon (same _ _ hne')
        | cons d l' =>
          simp only [List.cons_append, List.cons.injEq] at hyM
          exact ⟨l', hyM.2⟩
      have hrm : (st.result.getD p).removeLast
          = .ok (w, ⟨a :: y :: M', (st.result.getD p).closed⟩) := by
        have e : (st.result.getD p).verts = (a :: y :: M') ++ [w] := by rw [hKv]; simp
        have e2 := congrArg List.length e
        obtain ⟨v, _, h2, h3⟩ := removeLast_ok (p := st.result.getD p) (by rw [e]; simp)
        rw [h3]
        rw [e] at h2 ⊢
        simp only [List.getLast?_append, List.getLast?_singleton, Option.some_or, Option.some.injEq] at h2
        rw [← h2]
        simp only [List.dropLast_concat]
      have hfirst : redundantFirst p eps st st.result y
          = .ok (some ⟨w :: y :: M', (st.result.getD p).closed⟩) := by
        unfold redundantFirst redundantDropFirst
        simp only [hinv.z1, hinv.z2, hv2, hcol.mpr hon, Bool.and_self, if_true, hrm, bind, Except.bind]
        rw [setVertex_lt (by simp)]
        rfl
      refine ⟨_, hfirst, ?_, ⟨_, hstr, Or.inr ⟨a.pos, y.pos, M'.map Vertex.pos, w.pos, ?_, ?_, ?_⟩⟩, ?_⟩
      · rcases hshape with ⟨r, h1, h2⟩ | ⟨_, h1⟩
        · rw [hfirst] at h1
          injection h1 with h1
          rw [← hclosed]
          exact (h2 _ h1.symm).1
        · rw [hfirst] at h1; exact absurd h1 (by simp)
      · rw [hKv]; simp
      · rw [hw]; exact hon
      · rfl
      · simp only [Option.getD_some, List.map_cons]
        apply noStraight_loop_drop (x := a.pos)
        · rw [hKv] at hns
          simpa using hns
        · rw [hw]; exact hon
    · have hfirst : redundantFirst p eps st st.result y = .ok st.result := by
        have hc : isCollinearSameDir eps st.v1 a y = false := by
          rw [← Bool.not_eq_true, hcol]; exact hon
        unfold redundantFirst
        simp [hinv.z1, hinv.z2, hv2, hc]
      refine ⟨_, hfirst, ?_, ⟨_, hstr, Or.inl rfl⟩, ?_⟩
      · cases hres : st.result with
        | none => exact hclosed
        | some q =>
          rcases hshape with ⟨r, h1, h2⟩ | ⟨_, h1⟩
          · rw [hfirst] at h1
            injection h1 with h1
            rw [← hclosed]
            exact (h2 _ (by rw [← h1, hres]; rfl)).1
          · rw [hfirst] at h1; exact absurd h1 (by simp)
      · rw [hKv] at hns ⊢
        simp only [List.map_cons] at hns ⊢
        apply noStraight_loop_keep (z := w.pos) (l := l'.map Vertex.pos)
        · rw [← List.map_cons, hyM]; simp
        · exact hns
        · rw [hw]; exact hon

/-- Vertexes on the integer grid are resolved by the default epsilon. -/
theorem resolves_grid (vs : List (Vertex ℝ)) (h : ∀ v ∈ vs, ∃ m n : ℤ, v.x = m ∧ v.y = n) (eps : ℝ)
    (h0 : 0 < eps) (h1 : eps ≤ 1) : Resolves eps vs := by
  have key : ∀ k : ℤ, |(k : ℝ)| < eps → k = 0 := by
    intro k hk
    have : |(k : ℝ)| < 1 := lt_of_lt_of_le hk h1
    rw [← Int.cast_abs] at this
    have : |k| < 1 := by exact_mod_cast this
    exact Int.abs_lt_one_iff.mp this
  refine ⟨h0, ?_, ?_, ?_⟩
  · intro a ha b hb hx hy
    obtain ⟨m, n, e1, e2⟩ := h a ha
    obtain ⟨m', n', e3, e4⟩ := h b hb
    rw [e1, e3] at hx ⊢
    rw [e2, e4] at hy ⊢
    have hx := key (m - m') (by push_cast; exact hx)
    have hy := key (n - n') (by push_cast; exact hy)
    have hx : m = m' := by omega
    have hy : n = n' := by omega
    exact ⟨by rw [hx], by rw [hy]⟩
  · intro a ha b hb c hc hx
    obtain ⟨m, n, e1, e2⟩ := h a ha
    obtain ⟨m', n', e3, e4⟩ := h b hb
    obtain ⟨k, k', e5, e6⟩ := h c hc
    rw [e1, e2, e3, e4, e5, e6] at hx ⊢
    have := key (m * (n' - k') + m' * (k' - n) + k * (n - n')) (by push_cast; exact hx)
    exact_mod_cast this
  · intro a ha b hb c hc hx
    obtain ⟨m, n, e1, e2⟩ := h a ha
    obtain ⟨m', n', e3, e4⟩ := h b hb
    obtain ⟨k, k', e5, e6⟩ := h c hc
    rw [e1, e2, e3, e4, e5, e6] at hx ⊢
    have : (-1 : ℝ) < ((k - m') * (m' - m) + (k' - n') * (n' - n) : ℤ) := by push_cast; linarith
    have : (-1 : ℤ) < (k - m') * (m' - m) + (k' - n') * (n' - n) := by exact_mod_cast this
    have : (0 : ℤ) ≤ (k - m') * (m' - m) + (k' - n') * (n' - n) := by omega
    exact_mod_cast this

/-- A square with a redundant start vertex meets the hypotheses. -/
example : ∃ r, (⟨[⟨1, 0, 0⟩, ⟨2, 0, 0⟩, ⟨2, 2, 0⟩, ⟨0, 2, 0⟩, ⟨0, 0, 0⟩], true⟩
    : Pline ℝ).removeRedundant (1 / 100000) = .ok r := by
  obtain ⟨r, h, _⟩ := C11_closed_lines_partial
    ⟨[⟨1, 0, 0⟩, ⟨2, 0, 0⟩, ⟨2, 2, 0⟩, ⟨0, 2, 0⟩, ⟨0, 0, 0⟩], true⟩ (1 / 100000) rfl
    (resolves_grid _ (by
      intro v hv
      simp at hv
      rcases hv with rfl | rfl | rfl | rfl | rfl
      · exact ⟨1, 0, by simp, by simp⟩
      · exact ⟨2, 0, by simp, by simp⟩
      · exact ⟨2, 2, by simp, by simp⟩
      · exact ⟨0, 2, by simp, by simp⟩
      · exact ⟨0, 0, by simp, by simp⟩) _ (by norm_num) (by norm_num))
    (by
      intro v hv
      simp at hv
      rcases hv with rfl | rfl | rfl | rfl | rfl <;> simp [IsLine]) _ _ _ rfl
    (by rw [Ne, V2.ext_iff']; simp [Vertex.pos])
  exact ⟨r, h⟩

/-- The specification of the open case keeps the traced points, and so does the code. -/
theorem C11_open_lines_same_points (p : Pline ℝ) (eps : ℝ) (hopen : p.closed = false)
    (hr : Resolves eps p.verts) (hl : ∀ v ∈ p.verts, IsLine v) (a b : Vertex ℝ) (rest : List (Vertex ℝ))
    (hp : p.verts = a :: b :: rest) (hne : a.pos ≠ b.pos) :
    ∃ r, p.removeRedundant eps = .ok r ∧ ∀ pt,
      OnChain (p.verts.map Vertex.pos) pt ↔ OnChain ((r.getD p).verts.map Vertex.pos) pt := by
  obtain ⟨r, h1, _, h2, _⟩ := C11_open_lines_partial p eps hopen hr hl a b rest hp hne
  exact ⟨r, h1, h2.onChain⟩

end Cavc
