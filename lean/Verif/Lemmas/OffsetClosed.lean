import Verif.Lemmas.OffsetFlow
import Verif.Lemmas.OffsetCurve

/-! # The results of the parallel offset of closed polylines are closed -/

set_option linter.unusedVariables false
set_option linter.unusedSectionVars false

namespace Cavc
open Pline

/-! ## Stitching slices whose ends are balanced -/

section
variable {raw : Pline ℝ} {slices : List (ViewData ℝ)} {eps joinEps : ℝ} {V : Nat → List (Vertex ℝ)}

theorem joinNear_refl {e : ℝ} (h : 0 ≤ e) (a : V2 ℝ) : JoinNear e a a := by
  unfold JoinNear AABB.ofPoint AABB.grow AABB.overlaps
  simp only [RealScalar.lt_eq, RealScalar.gt_eq, Bool.not_eq_true', Bool.or_eq_false_iff, decide_eq_false_iff_not, not_lt]
  refine ⟨⟨⟨?_, ?_⟩, ?_⟩, ?_⟩ <;> linarith

/-- A list in which each end is the start of the next. -/
theorem telescope {α β : Type} (hd lt : α → β) : ∀ (l : List α) (a z : α), l.head? = some a → l.getLast? = some z →
    (∀ k x y, l[k]? = some x → l[k + 1]? = some y → lt x = hd y) → (l.map hd ++ [lt z]).Perm (hd a :: l.map lt)
  | [], a, z, h, _, _ => by simp at h
  | [x], a, z, h, h', _ => by
    simp only [List.head?_cons, Option.some.injEq, List.getLast?_singleton] at h h'
    subst h; subst h'
    simp
  | x :: y :: l, a, z, h, h', hl => by
    simp only [List.head?_cons, Option.some.injEq] at h
    subst h
    have ih := telescope hd lt (y :: l) y z rfl (by rw [List.getLast?_cons_cons] at h'; exact h') (fun k u v hu hv => hl (k + 1) u v hu hv)
    have := hl 0 x y rfl rfl
    simp only [List.map_cons, List.cons_append] at ih ⊢
    rw [this]
    exact ih.cons _

/-- The chain of a round begins where its first slice begins and ends where its last slice ends. -/
theorem chain_ends (he : 0 < eps) (P : OffParts raw slices eps joinEps V) {used : List Nat} (hu : ∀ i ∈ used, i < slices.length) {vs : List (Vertex ℝ)}
    (h : OffsetChain raw slices eps joinEps used vs) :
    ∃ a z, used.head? = some a ∧ used.getLast? = some z ∧ headPos vs = headPos (V a) ∧ lastPos vs = lastPos (V z) ∧
      ∀ k x y, used[k]? = some x → used[k + 1]? = some y → lastPos (V x) = headPos (V y) := by
  obtain ⟨ss, vss, h1, h2, rfl⟩ := h.chain
  have hlen : used.length = ss.length := by have := congrArg List.length h1; simpa using this
  have hget : ∀ (k : Nat) (s : ViewData ℝ), ss[k]? = some s → ∃ i, used[k]? = some i ∧ slices[i]? = some s := by
    intro k s hk
    have h3 : (used.map fun i => slices[i]?)[k]? = some (some s) := by rw [h1, List.getElem?_map, hk]; rfl
    rw [List.getElem?_map] at h3
    cases hu : used[k]? with
    | none => rw [hu] at h3; simp at h3
    | some i => rw [hu] at h3; simp at h3; exact ⟨i, rfl, h3⟩
  have hvss : vss = used.map V := by
    apply List.ext_getElem?
    intro k
    rw [List.getElem?_map]
    have hl2 := h2.length_eq
    by_cases hk : k < used.length
    · obtain ⟨i, hi, hs⟩ := hget k _ (List.getElem?_eq_getElem (by omega : k < ss.length))
      rw [hi, List.getElem?_eq_getElem (by omega : k < vss.length)]
      have hr := List.forall₂_iff_get.mp h2
      have hr2 := hr.2 k (by omega) (by omega)
      simp only [List.get_eq_getElem] at hr2
      have := hr2.1.symm.trans (P.reads i _ hs)
      simp only [Except.ok.injEq, Pline.mk.injEq, and_true] at this
      rw [this]; rfl
    · rw [List.getElem?_eq_none (by omega), List.getElem?_eq_none (by omega)]; rfl
  have hne : used ≠ [] := h.nonempty
  have hlink : ∀ k x y, used[k]? = some x → used[k + 1]? = some y → lastPos (V x) = headPos (V y) := by
    intro k x y hx hy
    have hx' := hu x (List.mem_of_getElem? hx)
    have hy' := hu y (List.mem_of_getElem? hy)
    have := h.linked k _ _ (by rw [hx]; exact List.getElem?_eq_getElem hx') (by rw [hy]; exact List.getElem?_eq_getElem hy')
    rw [P.stop x _ (List.getElem?_eq_getElem hx'), P.start y _ (List.getElem?_eq_getElem hy')] at this
    exact P.join x y hx' hy' this
  obtain ⟨c1, c2, c3⟩ := chain_edges (eps := eps) vss (by rw [hvss]; simpa using hne) (by
      rw [hvss]
      intro vs hvs
      obtain ⟨i, hi, rfl⟩ := List.mem_map.mp hvs
      exact ⟨P.two i (hu i hi), P.full i (hu i hi)⟩) (by
    rw [hvss]
    intro k vs ws hk hk1
    rw [List.getElem?_map] at hk hk1
    cases hi : used[k]? with
    | none => rw [hi] at hk; simp at hk
    | some i =>
      cases hj : used[k + 1]? with
      | none => rw [hj] at hk1; simp at hk1
      | some j =>
        rw [hi] at hk
        rw [hj] at hk1
        simp only [Option.map_some, Option.some.injEq] at hk hk1
        subst hk; subst hk1
        exact hlink k i j hi hj)
  obtain ⟨a, l, rfl⟩ : ∃ i l, used = i :: l := by cases used with | nil => exact absurd rfl hne | cons a l => exact ⟨a, l, rfl⟩
  refine ⟨a, (a :: l).getLast hne, rfl, List.getLast?_eq_getLast_of_ne_nil hne, c2 _ (by rw [hvss]; rfl), c3 _ ?_, hlink⟩
  rw [hvss, List.getLast?_map, List.getLast?_eq_getLast_of_ne_nil hne]; rfl

/-- the starts and the ends of the slices are the same points -/
def Balanced (V : Nat → List (Vertex ℝ)) (l : List Nat) : Prop := (l.map fun i => headPos (V i)).Perm (l.map fun i => lastPos (V i))

/-- A round that starts with balanced slices used comes back to its start. -/
theorem round_closes (he : 0 < eps) (hj0 : 0 ≤ joinEps) (P : OffParts raw slices eps joinEps V) {before used rest : List Nat}
    (hall : (before ++ used ++ rest).Perm (List.range slices.length)) (hbal : Balanced V (List.range slices.length)) (hb : Balanced V before) {vs : List (Vertex ℝ)}
    (h : OffsetChain raw slices eps joinEps used vs) (hcm : ChainComplete slices joinEps used (before ++ used)) :
    headPos vs = lastPos vs ∧ Balanced V (before ++ used) := by
  classical
  have hin : ∀ i ∈ before ++ used ++ rest, i < slices.length := fun i hi => by simpa using hall.mem_iff.mp hi
  have hnd : (before ++ used ++ rest).Nodup := hall.nodup_iff.mpr List.nodup_range
  obtain ⟨a, z, ha, hz, e1, e2, hlink⟩ := chain_ends he P (fun i hi => hin i (by simp [hi])) h
  have htel := telescope (fun i => headPos (V i)) (fun i => lastPos (V i)) used a z ha hz hlink
  have hzl : z < slices.length := hin z (by simp [List.mem_of_getLast? hz])
  -- no start of an unused slice at the end
  have hrest : ∀ i ∈ rest, headPos (V i) ≠ lastPos (V z) := by
    intro i hi hz'
    have hil := hin i (by simp [hi])
    have hm := hcm slices[z] i slices[i] (by rw [hz]; exact List.getElem?_eq_getElem hzl) (List.getElem?_eq_getElem hil) (by
      rw [P.stop z _ (List.getElem?_eq_getElem hzl), P.start i _ (List.getElem?_eq_getElem hil), hz']
      exact joinNear_refl hj0 _)
    exact (List.nodup_append.mp hnd).2.2 i hm i hi rfl
  have hall2 : ((before ++ used ++ rest).map fun i => headPos (V i)).Perm ((before ++ used ++ rest).map fun i => lastPos (V i)) :=
    ((hall.map _).trans hbal).trans (hall.map _).symm
  have hHZ : headPos (V a) = lastPos (V z) := by
    by_contra hne
    have c1 := hall2.count_eq (lastPos (V z))
    have c2 := hb.count_eq (lastPos (V z))
    have c3 := htel.count_eq (lastPos (V z))
    have c4 : (rest.map fun i => headPos (V i)).count (lastPos (V z)) = 0 := by
      rw [List.count_eq_zero]
      intro hm
      obtain ⟨i, hi, h⟩ := List.mem_map.mp hm
      exact hrest i hi h
    simp only [List.map_append, List.count_append, List.count_cons_self, List.count_nil, List.count_cons_of_ne hne] at c1 c2 c3
    omega
  refine ⟨by rw [e1, e2, hHZ], ?_⟩
  unfold Balanced at hb ⊢
  rw [List.map_append, List.map_append]
  refine hb.append ?_
  rw [hHZ] at htel
  exact (List.perm_cons _).mp ((List.perm_append_singleton _ _).symm.trans htel)

/-- a closed polyline of at least two segments, each of positive length and at most half a circle -/
def SoundLoop (eps : ℝ) (r : Pline ℝ) : Prop := r.closed = true ∧ 2 ≤ r.verts.length ∧ ∀ s ∈ r.segs, FullSeg s.1 s.2 eps

theorem chain_closed {e' : ℝ} {vs : List (Vertex ℝ)} (he : 0 < eps) (he' : 0 < e') (hf : ∀ e ∈ edges vs, FullSeg e.1 e.2 eps) (hcl : headPos vs = lastPos vs) {rs : List (Pline ℝ)} (h : ChainResult true e' vs rs) :
    ∀ r ∈ rs, SoundLoop eps r := by
  cases h with
  | tooShort h => simp
  | closed a b h2 hc ha hb hab =>
    obtain ⟨c1, -, c3, -⟩ := close_path he hf (two_edges.mp h2) hcl
    intro r hr
    rw [List.mem_singleton] at hr
    subst hr
    exact ⟨rfl, by simp only [List.length_dropLast]; omega, c3⟩
  | «open» a b h2 ha hb hab =>
    exfalso
    rw [headPos_eq ha, lastPos_eq hb] at hcl
    apply hab
    rw [hcl]
    exact ⟨rfl, fuzzy_refl _ he'⟩

/-- Slices with balanced ends are stitched to closed polylines. -/
theorem stitch_closed (he : 0 < eps) (hj0 : 0 < joinEps) (P : OffParts raw slices eps joinEps V) (hbal : Balanced V (List.range slices.length)) {rs : List (Pline ℝ)}
    (h : OffsetJoined raw slices true eps joinEps rs) : ∀ r ∈ rs, SoundLoop eps r := by
  by_cases h1 : slices.length = 1
  · obtain ⟨s, hs⟩ := List.length_eq_one_iff.mp h1
    obtain ⟨vs, ws, a, b, hr, hw, ha, hb, hrs⟩ := h.single s hs
    have h0 : slices[0]? = some s := by rw [hs]; rfl
    have hvs : vs = V 0 := by
      have := hr.1.symm.trans (P.reads 0 s h0)
      simpa using this
    subst hvs
    have hl : 0 < slices.length := by omega
    have hplain : ws = V 0 := by
      rw [hw]
      have := appendVertexes_plain eps (V 0) [] (fun x hx => (edges_full.mp (P.full 0 hl) x (by simpa using hx)).apart)
      simpa using this
    have hHZ : headPos (V 0) = lastPos (V 0) := by
      rw [h1] at hbal
      unfold Balanced at hbal
      simpa using hbal
    have hpp : a.pos = b.pos := by rw [← headPos_eq ha, ← lastPos_eq hb, hplain]; exact hHZ
    refine chain_closed he hj0 (P.full 0 hl) hHZ ?_
    rw [hrs, if_pos ⟨rfl, by rw [hpp]; exact fuzzy_refl _ hj0⟩, hplain]
    rw [hplain] at ha hb
    exact .closed a b (P.two 0 hl) rfl ha hb (by rw [hpp]; exact fuzzy_refl _ hj0)
  · obtain ⟨useds, hst, hperm⟩ := h.several h1
    have key : ∀ (isClosed : Bool) (before : List Nat) (useds : List (List Nat)) (rs : List (Pline ℝ)), isClosed = true → Balanced V before →
        (before ++ useds.flatten).Perm (List.range slices.length) →
        StitchRounds raw slices isClosed eps joinEps before useds rs → ∀ r ∈ rs, SoundLoop eps r := by
      intro isClosed before useds rs hc hb hp hst
      subst hc
      induction hst with
      | nil => simp
      | cons before used useds rs more hr _ ih =>
        obtain ⟨vs, hch, hcm, hres⟩ := hr
        rw [List.flatten_cons, ← List.append_assoc] at hp
        obtain ⟨hcl, hb'⟩ := round_closes he hj0.le P hp hbal hb hch hcm
        intro r hr
        rcases List.mem_append.mp hr with hr | hr
        · exact chain_closed he he (offset_chain he P (fun i hi => by simpa using hp.mem_iff.mp (List.mem_append_left _ (List.mem_append_right _ hi))) hch).2.1 hcl hres r hr
        · exact ih hb' hp r hr
    exact key true [] useds rs rfl (List.Perm.refl _) (by simpa using hperm) hst

end

/-! ## The pieces that keep the distance have balanced ends -/

section
variable {p : Pline ℝ} {d eps gap : ℝ} {E : List (Cut × Cut)}
variable (hp : StraightLoop p) (hd : d ≠ 0) (he : 0 < eps) (hc : ∀ k, ClearTurn p d eps k)
include hp hd he hc
variable {CS : List Cut} {f : Cut}

/-- a piece keeps the distance if and only if it does just after its start, and if and only if it does just before its end -/
theorem piece_beside (hf : FullLoop (rawLoop p d) eps) (hE : SelfCrossing (rawLoop p d) eps gap E) (hos : OneSided p d) (hS : RunCuts (rawLoop p d) E CS f)
    {a b : Cut} (hab : (a, b) ∈ pathSegs (CS ++ [again (rawLoop p d) f])) :
    (PieceKeeps p d a b ↔ KeptBeside p d 1 a) ∧ (PieceKeeps p d a b ↔ KeptBeside p d (-1) (b.1 % (rawLoop p d).verts.length, b.2)) := by
  have hn : 0 < (rawLoop p d).verts.length := by have := hE.three; omega
  have hr := piece_run he hf hE hS hab
  obtain ⟨⟨-, -, -, -, ho⟩, ha, hb, -⟩ := between_cuts he hf hE hS hab
  have hai := hE.range a ha
  have hle : a.1 ≤ b.1 := by rcases ho with ho | ho <;> omega
  constructor
  · have hst := hr.each 0 (Nat.zero_le _)
    have hlo : loOf a 0 = a.2 := by simp [loOf]
    have hlt := hst.lt
    rw [hlo] at hlt
    constructor
    · intro hk
      refine ⟨hiOf a b 0 - a.2, by linarith, fun s s0 s1 => ?_⟩
      rw [one_mul]
      exact hk 0 (Nat.zero_le _) _ (by rw [hlo]; linarith) (by linarith)
    · rintro ⟨δ, hδ, h⟩
      obtain ⟨s, s0, s1⟩ := exists_between (lt_min hδ (sub_pos.mpr hlt))
      obtain ⟨s1, s2⟩ := lt_min_iff.mp s1
      have h1 := h s s0 s1
      rw [one_mul] at h1
      exact keep_run hp hd he hc hE hos hr (j := 0) (Nat.zero_le _) (t := a.2 + s) (by rw [hlo]; linarith) (by linarith)
        (hst.inside _ (by rw [hlo]; linarith) (by linarith)) h1
  · have hst := hr.each (b.1 - a.1) le_rfl
    have hhi : hiOf a b (b.1 - a.1) = b.2 := by simp [hiOf]
    have hlt := hst.lt
    rw [hhi] at hlt
    have hsum : a.1 + (b.1 - a.1) = b.1 := by omega
    constructor
    · intro hk
      refine ⟨b.2 - loOf a (b.1 - a.1), by linarith, fun s s0 s1 => ?_⟩
      have := hk (b.1 - a.1) le_rfl (b.2 + -1 * s) (by linarith) (by rw [hhi]; linarith)
      rw [hsum] at this
      dsimp only
      rwa [curveAt_wrap hn]
    · rintro ⟨δ, hδ, h⟩
      obtain ⟨s, s0, s1⟩ := exists_between (lt_min hδ (sub_pos.mpr hlt))
      obtain ⟨s1, s2⟩ := lt_min_iff.mp s1
      have h1 := h s s0 s1
      dsimp only at h1
      rw [curveAt_wrap hn] at h1
      exact keep_run hp hd he hc hE hos hr (j := b.1 - a.1) le_rfl (t := b.2 + -1 * s) (by linarith) (by rw [hhi]; linarith)
        (hst.inside _ (by linarith) (by rw [hhi]; linarith)) (by rw [hsum]; exact h1)

/-- A cut beside which the distance is kept keeps it. -/
theorem beside_keeps (hn : 0 < (rawLoop p d).verts.length) {σ : ℝ} (hσ : σ = 1 ∨ σ = -1) {c : Cut} (h : KeptBeside p d σ c) : Keeps p |d| (curveAt (rawLoop p d) c.1 c.2) := by
  obtain ⟨δ, hδ, h⟩ := h
  intro Y hY
  by_contra hlt
  push Not at hlt
  have hcont := edist_continuous (curveAt_continuous hn c.1) (const_continuous Y)
  obtain ⟨δ₁, hδ₁, hball⟩ := Metric.continuous_iff.mp hcont c.2 _ (sub_pos.mpr hlt)
  obtain ⟨s, s0, s1⟩ := exists_between (lt_min hδ hδ₁)
  obtain ⟨s1, s2⟩ := lt_min_iff.mp s1
  have habs : |c.2 + σ * s - c.2| = s := by
    rw [add_sub_cancel_left]
    rcases hσ with rfl | rfl
    · rw [one_mul, abs_of_pos s0]
    · rw [neg_one_mul, abs_neg, abs_of_pos s0]
  have h1 := hball (c.2 + σ * s) (by rw [Real.dist_eq, habs]; exact s2)
  have h2 := h s s0 s1 Y hY
  rw [Real.dist_eq] at h1
  have := (abs_lt.mp h1).2
  linarith

end

theorem snoc_firsts {α : Type} : ∀ (l : List α) (g : α), (pathSegs (l ++ [g])).map Prod.fst = l
  | [], g => rfl
  | [a], g => rfl
  | a :: b :: l, g => by
    have := snoc_firsts (b :: l) g
    simp only [List.cons_append, pathSegs, List.map_cons] at this ⊢
    rw [this]

theorem snoc_seconds {α : Type} : ∀ (a : α) (l : List α) (g : α), (pathSegs (a :: l ++ [g])).map Prod.snd = l ++ [g]
  | a, [], g => rfl
  | a, b :: l, g => by
    have := snoc_seconds b l g
    simp only [List.cons_append, pathSegs, List.map_cons] at this ⊢
    rw [this]

/-- Pairs of passes through the same points, of which the kept ones lead on. -/
theorem pairs_balanced {α β : Type} (pt : α → β) (A B : α → Prop) [DecidablePred A] [DecidablePred B] : ∀ E : List (α × α),
    (∀ e ∈ E, pt e.1 = pt e.2 ∧ (((A e.1 ↔ B e.2) ∧ (B e.1 ↔ A e.2)) ∨ ((A e.1 ↔ B e.1) ∧ (A e.2 ↔ B e.2)))) →
    (((E.map Prod.fst ++ E.map Prod.snd).filter fun c => A c).map pt).Perm (((E.map Prod.fst ++ E.map Prod.snd).filter fun c => B c).map pt)
  | [], _ => by simp
  | e :: E, h => by
    have ih := pairs_balanced pt A B E fun x hx => h x (by simp [hx])
    obtain ⟨h1, h2⟩ := h e (by simp)
    have hsplit : ∀ (C : α → Prop) [DecidablePred C], ((((e :: E).map Prod.fst ++ (e :: E).map Prod.snd).filter fun c => C c).map pt).Perm
        ((([e.1, e.2].filter fun c => C c).map pt) ++ (((E.map Prod.fst ++ E.map Prod.snd).filter fun c => C c).map pt)) := by
      intro C _
      rw [← List.map_append, ← List.filter_append]
      refine List.Perm.map _ (List.Perm.filter _ ?_)
      simp only [List.map_cons, List.cons_append, List.nil_append]
      exact List.perm_middle.cons _
    refine (hsplit A).trans (List.Perm.trans ?_ (hsplit B).symm)
    refine List.Perm.append ?_ ih
    by_cases a1 : A e.1 <;> by_cases a2 : A e.2 <;> by_cases b1 : B e.1 <;> by_cases b2 : B e.2 <;> simp_all

section
variable {p : Pline ℝ} {d eps gap : ℝ} {E : List (Cut × Cut)}
variable (hp : StraightLoop p) (hd : d ≠ 0) (he : 0 < eps) (hc : ∀ k, ClearTurn p d eps k)
include hp hd he hc
variable {CS : List Cut} {f : Cut}

open Classical in
/-- The pieces that keep the distance start and end in the same points. -/
theorem kept_balanced (hf : FullLoop (rawLoop p d) eps) (hE : SelfCrossing (rawLoop p d) eps gap E) (hos : OneSided p d) (hS : RunCuts (rawLoop p d) E CS f) :
    let L := (pathSegs (CS ++ [again (rawLoop p d) f])).filter fun x => decide (PieceKeeps p d x.1 x.2)
    (L.map fun x => curveAt (rawLoop p d) x.1.1 x.1.2).Perm (L.map fun x => curveAt (rawLoop p d) x.2.1 x.2.2) := by
  intro L
  have hn : 0 < (rawLoop p d).verts.length := by have := hE.three; omega
  set R := rawLoop p d with hR
  set pt : Cut → V2 ℝ := fun c => curveAt R c.1 c.2 with hpt
  set w : Cut → Cut := fun c => (c.1 % R.verts.length, c.2) with hw
  set P := pathSegs (CS ++ [again R f]) with hP
  obtain ⟨l, hl⟩ : ∃ l, CS = f :: l := by
    have := hS.first
    cases hC : CS with
    | nil => rw [hC] at this; simp at this
    | cons a l => rw [hC] at this; simp at this; exact ⟨l, by rw [this]⟩
  have hrange : ∀ c ∈ CS, w c = c := fun c hc => by
    rw [hw]; exact Prod.ext (Nat.mod_eq_of_lt (hE.range c (hS.perm.mem_iff.mp hc))) rfl
  have hstarts : P.map Prod.fst = CS := snoc_firsts CS _
  have hstops : (P.map fun x => w x.2).Perm CS := by
    have h1 : P.map Prod.snd = l ++ [again R f] := by rw [hP, hl]; exact snoc_seconds f l _
    have h2 : (P.map fun x => w x.2) = (P.map Prod.snd).map w := by rw [List.map_map]; rfl
    rw [h2, h1, List.map_append, List.map_congr_left (g := id) (fun c hc => hrange c (by rw [hl]; simp [hc])), List.map_id]
    have h3 : w (again R f) = f := by
      rw [← hrange f (by rw [hl]; simp)]
      simp [hw, again]
    rw [List.map_singleton, h3, hl]
    exact List.perm_append_singleton _ _
  have e1 : (L.map fun x => curveAt R x.1.1 x.1.2) = ((CS.filter fun c => decide (KeptBeside p d 1 c)).map pt) := by
    rw [← hstarts, List.filter_map, List.map_map]
    have : L = P.filter ((fun c => decide (KeptBeside p d 1 c)) ∘ Prod.fst) := by
      refine List.filter_congr fun x hx => ?_
      simp only [Function.comp, decide_eq_decide]
      exact (piece_beside hp hd he hc hf hE hos hS hx).1
    rw [this]
    rfl
  have e2 : (L.map fun x => curveAt R x.2.1 x.2.2).Perm ((CS.filter fun c => decide (KeptBeside p d (-1) c)).map pt) := by
    refine List.Perm.trans ?_ ((hstops.filter _).map pt)
    rw [List.filter_map, List.map_map]
    have : L = P.filter ((fun c => decide (KeptBeside p d (-1) c)) ∘ fun x => w x.2) := by
      refine List.filter_congr fun x hx => ?_
      simp only [Function.comp, decide_eq_decide]
      exact (piece_beside hp hd he hc hf hE hos hS hx).2
    rw [this]
    refine List.Perm.of_eq (List.map_congr_left fun x hx => ?_)
    simp only [Function.comp, hpt, hw]
    rw [curveAt_wrap hn]
  rw [e1]
  refine List.Perm.trans ?_ e2.symm
  refine (((hS.perm.filter _).map pt).trans ?_).trans ((hS.perm.filter _).map pt).symm
  unfold bothCuts
  refine pairs_balanced pt _ _ E fun e hee => ⟨hE.on e hee, ?_⟩
  by_cases hk : Keeps p |d| (curveAt R e.1.1 e.1.2)
  · exact flow hp hd he hc hf hE hos (Or.inl hee) hk
  · left
    have hk' : ¬ Keeps p |d| (curveAt R e.2.1 e.2.2) := by rw [← hE.on e hee]; exact hk
    have n := fun σ hσ => mt (beside_keeps hp hd he hc hn (σ := σ) hσ) hk
    have n' := fun σ hσ => mt (beside_keeps hp hd he hc hn (σ := σ) hσ) hk'
    exact ⟨⟨fun h => absurd h (n 1 (Or.inl rfl)), fun h => absurd h (n' (-1) (Or.inr rfl))⟩,
      ⟨fun h => absurd h (n (-1) (Or.inr rfl)), fun h => absurd h (n' 1 (Or.inl rfl))⟩⟩

/-- The results for a closed polyline are closed. -/
theorem result_closed {tol joinEps : ℝ} (ht : 0 < tol) (hD : tol ≤ |d|) (hf : FullLoop (rawLoop p d) eps) (hE : SelfCrossing (rawLoop p d) eps gap E)
    (hF : FindsSelf (rawLoop p d) eps) (hos : OneSided p d) (hT : ClearTests p (rawLoop p d) d eps tol E) (hg : eps ≤ gap) (hj : 2 * joinEps ≤ gap) (hj0 : 0 < joinEps)
    {es : List (Nat × V2 ℝ)} {ss : List (ViewData ℝ)} {rs : List (Pline ℝ)} (hes : CutsSingle (rawLoop p d) eps es)
    (hss : OffsetSlices p (rawLoop p d) d eps tol es ss) (hrs : OffsetJoined (rawLoop p d) ss p.closed eps joinEps rs) :
    ∀ r ∈ rs, SoundLoop eps r := by
  classical
  have hn : 0 < (rawLoop p d).verts.length := by have := hE.three; omega
  set R := rawLoop p d with hR
  rw [hp.closed] at hrs
  have main : ∀ L : List (Cut × Cut), List.Forall₂ (fun s x => ∃ vs, GoodSlice R eps s x vs) ss L → (∀ x ∈ L, x.1.1 ≤ x.2.1) →
      (∀ x ∈ L, ∀ y ∈ L, curveAt R x.2.1 x.2.2 = curveAt R y.1.1 y.1.2 ∨ FarApart gap (curveAt R x.2.1 x.2.2) (curveAt R y.1.1 y.1.2)) →
      (L.map fun x => curveAt R x.1.1 x.1.2).Perm (L.map fun x => curveAt R x.2.1 x.2.2) → ∀ r ∈ rs, SoundLoop eps r := by
    intro L hgood hord hends hbal
    have hlen := hgood.length_eq
    obtain ⟨W, P, -, hh⟩ := good_parts he hf hgood hord hends hg hj hj0.le hlen
    refine stitch_closed he hj0 P ?_ hrs
    unfold Balanced
    have m1 : ((List.range ss.length).map fun i => headPos (W i)) = L.map fun x => curveAt R x.1.1 x.1.2 := by
      apply List.ext_getElem
      · simp [hlen]
      · intro i h1 h2
        simp only [List.length_map, List.length_range] at h1
        simp only [List.getElem_map, List.getElem_range]
        exact (hh i h1).1
    have m2 : ((List.range ss.length).map fun i => lastPos (W i)) = L.map fun x => curveAt R x.2.1 x.2.2 := by
      apply List.ext_getElem
      · simp [hlen]
      · intro i h1 h2
        simp only [List.length_map, List.length_range] at h1
        simp only [List.getElem_map, List.getElem_range]
        exact (hh i h1).2
    rw [m1, m2]
    exact hbal
  obtain ⟨pairs, hP, hes1, -⟩ := hes
  have hperm : es.Perm ((bothCuts E).map (cutPt R)) := hes1 ▸ self_cuts he hf hE hF hP
  by_cases hE0 : E = []
  · have hes0 : es = [] := by subst hE0; simpa [bothCuts] using hperm
    obtain ⟨v, hv⟩ : ∃ v, R.verts.head? = some v := ⟨R.verts[0], by rw [List.head?_eq_getElem?, List.getElem?_eq_getElem hn]⟩
    obtain ⟨hk, hdr⟩ := hss.whole hes0 v hv
    by_cases hcl : PointClear p d eps tol v.pos
    · obtain ⟨s, hs, rfl⟩ := hk hcl
      obtain ⟨vs, hvs⟩ := entire_along he hf hs
      have heq : curveAt R (R.verts.length - 1) 1 = curveAt R 0 0 := by
        rw [curveAt_join hn, Nat.sub_add_cancel (by omega), ← curveAt_wrap hn, Nat.mod_self]
      refine main [((0, 0), (R.verts.length - 1, 1))] (List.Forall₂.cons ⟨vs, hvs⟩ List.Forall₂.nil) (by simp) (by
          intro x hx y hy
          simp only [List.mem_singleton] at hx hy
          subst hx; subst hy
          exact Or.inl heq) (by simp [heq])
    · have hs0 := hdr hcl
      subst hs0
      exact main [] List.Forall₂.nil (by simp) (by simp) (by simp)
  · have hes0 : es ≠ [] := by
      intro h
      rw [h] at hperm
      have := hperm.length_eq
      simp only [List.length_nil, List.length_map, bothCuts, List.length_append] at this
      exact hE0 (List.length_eq_zero_iff.mp (by omega))
    obtain ⟨cuts, first, last, hcut, -, -, hkept⟩ := hss.pieces hes0
    obtain ⟨CS, hCS, hCp, hCl⟩ := sorted_cuts he hf hE hperm hcut
    obtain ⟨f, hfirst⟩ : ∃ f, CS.head? = some f := by
      cases CS with
      | nil =>
        have := hCp.length_eq
        simp only [List.length_nil, bothCuts, List.length_append, List.length_map] at this
        exact absurd (List.length_eq_zero_iff.mp (by omega)) hE0
      | cons a l => exact ⟨a, rfl⟩
    have hS : RunCuts R E CS f := ⟨hCp, hCl, hfirst⟩
    have hrange : ∀ c ∈ CS, c.1 < R.verts.length := fun c hc => hE.range c (hCp.mem_iff.mp hc)
    rw [hp.closed, ← hCS, gaps_listed hn hrange hfirst] at hkept
    have hslices := kept_slices (Q := fun x => PieceKeeps p d x.1 x.2) _ _ (fun x hx => by
      obtain ⟨a, b⟩ := x
      obtain ⟨s, vs, h1, h2, h3, h4, h5⟩ := piece_slice he hf hE hS hg hx
      obtain ⟨-, ha, -, -⟩ := between_cuts he hf hE hS hx
      refine ⟨s, vs, ?_, ⟨h2, h3, h4, h5⟩, piece_clear hp hd he hc ht hD hf hE hos hT hS hx h2 h3⟩
      unfold listed
      dsimp only
      rw [Nat.mod_eq_of_lt (hE.range a ha)]
      exact h1) hkept
    refine main _ hslices (fun x hx => ?_) (fun x hx y hy => ?_) (kept_balanced hp hd he hc hf hE hos hS)
    · obtain ⟨⟨-, -, -, -, ho⟩, -⟩ := between_cuts he hf hE hS (List.mem_filter.mp hx).1
      rcases ho with ho | ho <;> omega
    · obtain ⟨-, -, hb, -⟩ := between_cuts he hf hE hS (List.mem_filter.mp hx).1
      obtain ⟨-, ha, -, -⟩ := between_cuts he hf hE hS (List.mem_filter.mp hy).1
      have := cuts_far hE hb ha
      dsimp only at this
      rwa [curveAt_wrap hn] at this

end
end Cavc
