import Verif.Lemmas.OffsetKeepPieces
import Verif.Lemmas.OffsetStitch
import Verif.Lemmas.PieceList
import Verif.Props.Transform

/-! # The points of the results of the parallel offset -/

set_option linter.unusedVariables false
set_option linter.unusedSectionVars false

namespace Cavc
open Pline

/-- A slice that runs along `R` between two cuts. -/
structure GoodSlice (R : Pline ℝ) (eps : ℝ) (s : ViewData ℝ) (x : Cut × Cut) (vs : List (Vertex ℝ)) : Prop where
  reads : s.toPline R = .ok ⟨vs, false⟩
  along : Along R eps x.1 x.2 vs
  start : s.updatedStart.pos = curveAt R x.1.1 x.1.2
  stop : s.endPoint = curveAt R x.2.1 x.2.2

theorem joinNear_bound {e : ℝ} {a b : V2 ℝ} (h : JoinNear e a b) : |a.x - b.x| ≤ 2 * e ∧ |a.y - b.y| ≤ 2 * e := by
  unfold JoinNear AABB.ofPoint AABB.grow AABB.overlaps at h
  simp only [RealScalar.lt_eq, RealScalar.gt_eq, Bool.not_eq_true', Bool.or_eq_false_iff, decide_eq_false_iff_not, not_lt] at h
  obtain ⟨⟨⟨h1, h2⟩, h3⟩, h4⟩ := h
  constructor <;> rw [abs_le] <;> constructor <;> linarith

theorem neighbours_pathSegs {α : Type} : ∀ l : List α, neighbours l = pathSegs l
  | [] => rfl
  | [_] => rfl
  | a :: b :: l => by
    rw [neighbours, pathSegs, neighbours_pathSegs (b :: l)]

section
variable {R : Pline ℝ} {eps gap joinEps : ℝ}

theorem along_head (hn : 0 < R.verts.length) {a b : Cut} (hab : a.1 ≤ b.1) {vs : List (Vertex ℝ)} (h : Along R eps a b vs) :
    headPos vs = curveAt R a.1 a.2 ∧ lastPos vs = curveAt R b.1 b.2 := by
  obtain ⟨v, w, h1, h2, h3, h4⟩ := along_ends hn h
  rw [Nat.add_sub_cancel' hab] at h4
  exact ⟨by rw [headPos_eq h1, h3], by rw [lastPos_eq h2, h4]⟩

theorem along_points (hn : 0 < R.verts.length) {a b : Cut} {vs : List (Vertex ℝ)} (h : Along R eps a b vs)
    (hlt : ∀ j ≤ b.1 - a.1, loOf a j < hiOf a b j) (X : V2 ℝ) :
    (∃ e ∈ pathSegs vs, OnSeg e.1 e.2 X) ↔ ∃ j ≤ b.1 - a.1, ∃ t, loOf a j ≤ t ∧ t ≤ hiOf a b j ∧ X = curveAt R (a.1 + j) t := by
  have hlen : (pathSegs vs).length = (b.1 - a.1) + 1 := by rw [pathSegs_length, h.count]; rfl
  constructor
  · rintro ⟨e, he, s, s0, s1, rfl⟩
    obtain ⟨j, hj, rfl⟩ := List.getElem_of_mem he
    have hp := h.part j (pathSegs vs)[j].1 (pathSegs vs)[j].2 (List.getElem?_eq_getElem hj)
    have := hlt j (by omega)
    refine ⟨j, by omega, loOf a j + (hiOf a b j - loOf a j) * s, by nlinarith, by nlinarith, ?_⟩
    rw [hp.along, curveAt_vtx hn]
  · rintro ⟨j, hj, t, t0, t1, rfl⟩
    have hj' : j < (pathSegs vs).length := by omega
    have hp := h.part j (pathSegs vs)[j].1 (pathSegs vs)[j].2 (List.getElem?_eq_getElem hj')
    have := hlt j hj
    refine ⟨_, List.getElem_mem hj', (t - loOf a j) / (hiOf a b j - loOf a j), div_nonneg (by linarith) (by linarith),
      (div_le_one (by linarith)).mpr (by linarith), ?_⟩
    rw [hp.along, curveAt_vtx hn]
    congr 1
    field_simp [(by linarith : hiOf a b j - loOf a j ≠ 0)]
    ring

/-- Good slices with ends that are equal or apart. -/
theorem good_parts_path (he : 0 < eps) (hn : 0 < R.verts.length) {ss : List (ViewData ℝ)} {L : List (Cut × Cut)}
    (hgood : List.Forall₂ (fun s x => ∃ vs, GoodSlice R eps s x vs) ss L)
    (hord : ∀ x ∈ L, x.1.1 ≤ x.2.1)
    (hends : ∀ x ∈ L, ∀ y ∈ L, curveAt R x.2.1 x.2.2 = curveAt R y.1.1 y.1.2 ∨ FarApart gap (curveAt R x.2.1 x.2.2) (curveAt R y.1.1 y.1.2))
    (hg : eps ≤ gap) (hj : 2 * joinEps ≤ gap) (hj0 : 0 ≤ joinEps) (hlen : ss.length = L.length) :
    ∃ W : Nat → List (Vertex ℝ), OffParts R ss eps joinEps W ∧ (∀ i (hi : i < ss.length), GoodSlice R eps ss[i] (L[i]'(hlen ▸ hi)) (W i)) ∧
      ∀ i (hi : i < ss.length), headPos (W i) = curveAt R (L[i]'(hlen ▸ hi)).1.1 (L[i]'(hlen ▸ hi)).1.2 ∧
        lastPos (W i) = curveAt R (L[i]'(hlen ▸ hi)).2.1 (L[i]'(hlen ▸ hi)).2.2 := by
  have hall := (List.forall₂_iff_get.mp hgood).2
  have hall' : ∀ i (hi : i < ss.length), ∃ vs, GoodSlice R eps ss[i] (L[i]'(hlen ▸ hi)) vs := fun i hi => hall i hi (hlen ▸ hi)
  choose! W hW using hall'
  have hLm : ∀ i (hi : i < ss.length), L[i]'(hlen ▸ hi) ∈ L := fun i hi => List.getElem_mem _
  have hheads : ∀ i (hi : i < ss.length), headPos (W i) = curveAt R (L[i]'(hlen ▸ hi)).1.1 (L[i]'(hlen ▸ hi)).1.2 ∧
      lastPos (W i) = curveAt R (L[i]'(hlen ▸ hi)).2.1 (L[i]'(hlen ▸ hi)).2.2 := fun i hi => along_head hn (hord _ (hLm i hi)) (hW i hi).along
  have P : OffParts R ss eps joinEps W := by
    refine ⟨?_, ?_, ?_, ?_, ?_, ?_, ?_⟩
    · intro i s hs
      obtain ⟨hi, rfl⟩ := List.getElem?_eq_some_iff.mp hs
      exact (hW i hi).reads
    · intro i s hs
      obtain ⟨hi, rfl⟩ := List.getElem?_eq_some_iff.mp hs
      rw [(hheads i hi).1, (hW i hi).start]
    · intro i s hs
      obtain ⟨hi, rfl⟩ := List.getElem?_eq_some_iff.mp hs
      rw [(hheads i hi).2, (hW i hi).stop]
    · intro i hi
      have := (hW i hi).along.count
      omega
    · intro i hi
      rw [edges_full]
      intro e hem
      obtain ⟨j, hj, rfl⟩ := List.getElem_of_mem hem
      exact ((hW i hi).along.part j _ _ (List.getElem?_eq_getElem hj)).full
    · intro i j hi hj h
      rw [(hheads i hi).2, (hheads j hj).1] at h ⊢
      rcases hends _ (hLm i hi) _ (hLm j hj) with h' | h'
      · exact h'
      · obtain ⟨h1, h2⟩ := joinNear_bound h
        rcases h' with h' | h' <;> linarith
    · intro i j hi hj h
      rw [(hheads i hi).1, (hheads j hj).2] at h ⊢
      rcases hends _ (hLm j hj) _ (hLm i hi) with h' | h'
      · exact h'.symm
      · rw [V2.fuzzyEqEps_iff, V2.fuzzyEqEps_iff] at h
        rw [FarApart, abs_sub_comm, abs_sub_comm (_ : V2 ℝ).y] at h'
        exfalso
        rcases h with ⟨h1, h2⟩ | ⟨h1, h2⟩ <;> rcases h' with h' | h' <;> linarith
  exact ⟨W, P, hW, hheads⟩

/-- The polylines joined from slices consist of the points of these slices. -/
theorem joined_points_path (he : 0 < eps) (hn : 0 < R.verts.length) {ss : List (ViewData ℝ)} {L : List (Cut × Cut)}
    (hgood : List.Forall₂ (fun s x => ∃ vs, GoodSlice R eps s x vs) ss L)
    (hord : ∀ x ∈ L, x.1.1 ≤ x.2.1) (hlt : ∀ x ∈ L, ∀ j ≤ x.2.1 - x.1.1, loOf x.1 j < hiOf x.1 x.2 j)
    (hends : ∀ x ∈ L, ∀ y ∈ L, curveAt R x.2.1 x.2.2 = curveAt R y.1.1 y.1.2 ∨ FarApart gap (curveAt R x.2.1 x.2.2) (curveAt R y.1.1 y.1.2))
    (hg : eps ≤ gap) (hj : 2 * joinEps ≤ gap) (hj0 : 0 ≤ joinEps) {isClosed : Bool} {rs : List (Pline ℝ)} (hrs : OffsetJoined R ss isClosed eps joinEps rs) (X : V2 ℝ) :
    (∃ r ∈ rs, OnPline r X) ↔ ∃ x ∈ L, ∃ j ≤ x.2.1 - x.1.1, ∃ t, loOf x.1 j ≤ t ∧ t ≤ hiOf x.1 x.2 j ∧ X = curveAt R (x.1.1 + j) t := by
  have hlen := hgood.length_eq
  obtain ⟨W, P, hW, -⟩ := good_parts_path he hn hgood hord hends hg hj hj0 hlen
  have hLm : ∀ i (hi : i < ss.length), L[i]'(hlen ▸ hi) ∈ L := fun i hi => List.getElem_mem _
  rw [stitch_points he P hrs]
  constructor
  · rintro ⟨i, hi, h⟩
    exact ⟨_, hLm i hi, (along_points hn (hW i hi).along (hlt _ (hLm i hi)) X).mp h⟩
  · rintro ⟨x, hx, h⟩
    obtain ⟨i, hi, rfl⟩ := List.getElem_of_mem hx
    have hi' : i < ss.length := hlen ▸ hi
    exact ⟨i, hi', (along_points hn (hW i hi').along (hlt _ (hLm i hi')) X).mpr h⟩

theorem good_parts (he : 0 < eps) (hf : FullLoop R eps) {ss : List (ViewData ℝ)} {L : List (Cut × Cut)}
    (hgood : List.Forall₂ (fun s x => ∃ vs, GoodSlice R eps s x vs) ss L)
    (hord : ∀ x ∈ L, x.1.1 ≤ x.2.1)
    (hends : ∀ x ∈ L, ∀ y ∈ L, curveAt R x.2.1 x.2.2 = curveAt R y.1.1 y.1.2 ∨ FarApart gap (curveAt R x.2.1 x.2.2) (curveAt R y.1.1 y.1.2))
    (hg : eps ≤ gap) (hj : 2 * joinEps ≤ gap) (hj0 : 0 ≤ joinEps) (hlen : ss.length = L.length) :
    ∃ W : Nat → List (Vertex ℝ), OffParts R ss eps joinEps W ∧ (∀ i (hi : i < ss.length), GoodSlice R eps ss[i] (L[i]'(hlen ▸ hi)) (W i)) ∧
      ∀ i (hi : i < ss.length), headPos (W i) = curveAt R (L[i]'(hlen ▸ hi)).1.1 (L[i]'(hlen ▸ hi)).1.2 ∧
        lastPos (W i) = curveAt R (L[i]'(hlen ▸ hi)).2.1 (L[i]'(hlen ▸ hi)).2.2 :=
  good_parts_path he (by have := hf.two; omega) hgood hord hends hg hj hj0 hlen

theorem joined_points (he : 0 < eps) (hf : FullLoop R eps) {ss : List (ViewData ℝ)} {L : List (Cut × Cut)}
    (hgood : List.Forall₂ (fun s x => ∃ vs, GoodSlice R eps s x vs) ss L)
    (hord : ∀ x ∈ L, x.1.1 ≤ x.2.1) (hlt : ∀ x ∈ L, ∀ j ≤ x.2.1 - x.1.1, loOf x.1 j < hiOf x.1 x.2 j)
    (hends : ∀ x ∈ L, ∀ y ∈ L, curveAt R x.2.1 x.2.2 = curveAt R y.1.1 y.1.2 ∨ FarApart gap (curveAt R x.2.1 x.2.2) (curveAt R y.1.1 y.1.2))
    (hg : eps ≤ gap) (hj : 2 * joinEps ≤ gap) (hj0 : 0 ≤ joinEps) {isClosed : Bool} {rs : List (Pline ℝ)} (hrs : OffsetJoined R ss isClosed eps joinEps rs) (X : V2 ℝ) :
    (∃ r ∈ rs, OnPline r X) ↔ ∃ x ∈ L, ∃ j ≤ x.2.1 - x.1.1, ∃ t, loOf x.1 j ≤ t ∧ t ≤ hiOf x.1 x.2 j ∧ X = curveAt R (x.1.1 + j) t :=
  joined_points_path he (by have := hf.two; omega) hgood hord hlt hends hg hj hj0 hrs X

end

/-! ## The slices that are kept -/

section
variable {p R : Pline ℝ} {d eps gap tol : ℝ} {E : List (Cut × Cut)}

/-- a cut as the code lists it -/
noncomputable def listed (R : Pline ℝ) (c : Cut) : Nat × V2 ℝ := (c.1 % R.verts.length, curveAt R c.1 c.2)

open Classical in
theorem kept_slices {Q : Cut × Cut → Prop} : ∀ (L : List (Cut × Cut)) (ss : List (ViewData ℝ)),
    (∀ x ∈ L, ∃ s vs, ViewData.fromSlicePoints R (listed R x.1).2 (listed R x.1).1 (listed R x.2).2 (listed R x.2).1 eps = .ok (some s) ∧ GoodSlice R eps s x vs ∧
      (SliceClear p R d eps tol s ↔ Q x)) →
    KeptSlices p R d eps tol (L.map (Prod.map (listed R) (listed R))) ss →
    List.Forall₂ (fun s x => ∃ vs, GoodSlice R eps s x vs) ss (L.filter fun x => decide (Q x))
  | [], ss, _, h => by
    cases h
    exact List.Forall₂.nil
  | x :: L, ss, hx, h => by
    obtain ⟨s, vs, h1, h2, h3⟩ := hx x (by simp)
    have ih := fun ss h => kept_slices L ss (fun y hy => hx y (by simp [hy])) h
    rw [List.map_cons] at h
    cases h with
    | empty a b gs ss h0 hk => 
      rw [h1] at h0; simp at h0
    | dropped a b s' gs ss h0 hn hk =>
      rw [h1] at h0
      simp only [Except.ok.injEq, Option.some.injEq] at h0
      subst h0
      rw [List.filter_cons_of_neg (by simpa using fun hq => hn (h3.mpr hq))]
      exact ih ss hk
    | kept a b s' gs ss h0 hn hk =>
      rw [h1] at h0
      simp only [Except.ok.injEq, Option.some.injEq] at h0
      subst h0
      rw [List.filter_cons_of_pos (by simpa using h3.mp hn)]
      exact List.Forall₂.cons ⟨vs, h2⟩ (ih ss hk)

theorem gaps_listed {CS : List Cut} {f : Cut} (hn : 0 < R.verts.length) (hr : ∀ c ∈ CS, c.1 < R.verts.length) (hfirst : CS.head? = some f) (x y : Nat × V2 ℝ) :
    gapsOf true x y (CS.map (cutPt R)) = (pathSegs (CS ++ [again R f])).map (Prod.map (listed R) (listed R)) := by
  unfold gapsOf
  rw [if_pos rfl, neighbours_pathSegs]
  have h1 : ∀ c ∈ CS, cutPt R c = listed R c := by
    intro c hc
    unfold cutPt listed
    rw [Nat.mod_eq_of_lt (hr c hc)]
  have h2 : CS.map (cutPt R) ++ (CS.map (cutPt R)).take 1 = (CS ++ [again R f]).map (listed R) := by
    rw [List.map_append, List.map_congr_left h1]
    congr 1
    cases CS with
    | nil => simp at hfirst
    | cons c CS =>
      simp only [List.head?_cons, Option.some.injEq] at hfirst
      subst hfirst
      simp only [List.map_cons, List.take_succ_cons, List.take_zero, List.map_nil, List.cons.injEq, and_true]
      unfold listed again
      rw [Nat.add_mod_right, curveAt_add hn]
  rw [h2, pathSegs_map]
  rfl

/-- the view of a whole closed polyline -/
theorem entire_along (he : 0 < eps) (hf : FullLoop R eps) {s : ViewData ℝ} (h : ViewData.fromEntirePline R = .ok s) :
    ∃ vs, GoodSlice R eps s ((0, 0), (R.verts.length - 1, 1)) vs := by
  have h2 := hf.two
  have hn : 0 < R.verts.length := by omega
  have hlast : R.last = some (R.verts[R.verts.length - 1]) := by simp [Pline.last, List.getLast?_eq_getElem?]
  have hd : ViewData.fromEntirePline R = .ok ⟨0, R.verts.length - 1, R.verts[0], (R.verts[R.verts.length - 1]).bulge, (R.verts[0]).pos, false⟩ := by
    simp only [ViewData.fromEntirePline, vertexCount, (show ¬ R.verts.length < 2 by omega), if_false, hf.closed, if_true, hlast, unwrap,
      at_lt hn, bind, Except.bind]
  rw [hd] at h
  injection h with h
  subst h
  have hv : ∀ i (hi : i < R.verts.length), R.verts[i] = vtx R i := by
    intro i hi
    have := vtx_at hi
    rw [List.getElem?_eq_getElem hi] at this
    simpa using this
  have hwrap : vtx R (R.verts.length - 1 + 1) = vtx R 0 := by
    rw [Nat.sub_add_cancel (by omega), ← vtx_mod, Nat.mod_self]
  obtain ⟨vs, h3, h4⟩ := view_along hf (⟨0, R.verts.length - 1, R.verts[0], (R.verts[R.verts.length - 1]).bulge, (R.verts[0]).pos, false⟩ : ViewData ℝ)
    ⟨hn, by show R.verts.length - 1 ≤ _; omega⟩ rfl 0 1 (fun h => by
      have : R.verts.length - 1 = 0 := h
      omega) (fun _ => by
      dsimp only
      rw [hv 0 hn]
      exact ⟨hf.full 0, fun s => by congr 1; ring⟩) (fun _ => by
      dsimp only
      rw [hv 0 hn, hv (R.verts.length - 1) (by omega), Nat.zero_add]
      refine PartSeg.congr (a := vtx R (R.verts.length - 1)) (z := vtx R (R.verts.length - 1 + 1)) ⟨hf.full _, fun s => by congr 1; ring⟩ rfl rfl ?_
      rw [hwrap]; rfl)
  dsimp only at h4
  rw [Nat.zero_add] at h4
  refine ⟨vs, h3, h4, ?_, ?_⟩
  · show (R.verts[0]).pos = _
    rw [hv 0 hn, curveAt_vtx hn, (segCurve_ends _ _).1]
  · show (R.verts[0]).pos = _
    rw [hv 0 hn, curveAt_vtx hn, (segCurve_ends _ _).2, hwrap]

end
end Cavc
