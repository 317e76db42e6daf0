import Verif.Lemmas.OffsetClosed
import Verif.Lemmas.SimpleLoop

/-! # A point of the parallel curve is passed by just one segment of the results -/

set_option linter.unusedVariables false
set_option linter.unusedSectionVars false

namespace Cavc
open Pline

theorem strip_curve (s : Vertex ℝ × Vertex ℝ) (t : ℝ) : segCurve (strip s).1 (strip s).2 t = segCurve s.1 s.2 t := rfl

theorem strip_trace (s : Vertex ℝ × Vertex ℝ) : segTrace (strip s) = segTrace s := rfl

theorem strip_segW (z : ℝ × ℝ) (s : Vertex ℝ × Vertex ℝ) : segW z (strip s) = segW z s := rfl

/-- pairs of neighbours in a sorted list -/
theorem pathSegs_sorted {α : Type} {R : α → α → Prop} : ∀ {l : List α}, l.Pairwise R → (pathSegs l).Pairwise fun x y => x.2 = y.1 ∨ R x.2 y.1
  | [], _ => by simp [pathSegs]
  | [_], _ => by simp [pathSegs]
  | a :: b :: l, h => by
    simp only [pathSegs, List.pairwise_cons]
    obtain ⟨h1, h2⟩ := List.pairwise_cons.mp h
    refine ⟨fun y hy => ?_, pathSegs_sorted h2⟩
    obtain ⟨i, hi, rfl⟩ := List.getElem_of_mem hy
    obtain ⟨g1, g2⟩ := (pathSegs_getElem (b :: l) i _).mp (List.getElem?_eq_getElem hi)
    have hm := List.mem_of_getElem? g1
    rcases List.mem_cons.mp hm with e | hm
    · exact Or.inl e.symm
    · exact Or.inr ((List.pairwise_cons.mp h2).1 _ hm)

/-- part `i` of a piece passes the point after the fraction `t` of segment `j` -/
def Hit (R : Pline ℝ) (j : Nat) (t : ℝ) (x : Cut × Cut) (i : Nat) : Prop :=
  i ≤ x.2.1 - x.1.1 ∧ (x.1.1 + i) % R.verts.length = j ∧ loOf x.1 i ≤ t ∧ t ≤ hiOf x.1 x.2 i

/-- the pieces pass that point at most once, and not with their ends -/
structure Once (R : Pline ℝ) (j : Nat) (t : ℝ) (L : List (Cut × Cut)) : Prop where
  apart : L.Pairwise fun x y => ∀ i i', ¬ (Hit R j t x i ∧ Hit R j t y i')
  own : ∀ x ∈ L, ∀ i i', Hit R j t x i → Hit R j t x i' → i = i'
  inner : ∀ x ∈ L, ∀ i, Hit R j t x i → loOf x.1 i < t ∧ t < hiOf x.1 x.2 i

section
variable {R : Pline ℝ} {eps gap : ℝ} {E : List (Cut × Cut)} {CS : List Cut} {f : Cut}

theorem once_whole (hn : 0 < R.verts.length) {j : Nat} {t : ℝ} (t0 : 0 < t) (t1 : t < 1) : Once R j t [((0, 0), (R.verts.length - 1, 1))] := by
  refine ⟨List.pairwise_singleton _ _, ?_, ?_⟩
  · intro x hx i i' h1 h2
    rw [List.mem_singleton] at hx
    subst hx
    obtain ⟨a1, a2, -, -⟩ := h1
    obtain ⟨b1, b2, -, -⟩ := h2
    dsimp only at *
    rw [Nat.mod_eq_of_lt (by omega)] at a2 b2
    omega
  · intro x hx i h
    rw [List.mem_singleton] at hx
    subst hx
    unfold loOf hiOf
    dsimp only
    constructor <;> split_ifs <;> linarith

theorem once_pieces (he : 0 < eps) (hf : FullLoop R eps) (hE : SelfCrossing R eps gap E) (hS : RunCuts R E CS f) {j : Nat} {t : ℝ} (t0 : 0 < t) (t1 : t < 1)
    (hcut : (j, t) ∉ bothCuts E) : Once R j t (pathSegs (CS ++ [again R f])) := by
  have hn : 0 < R.verts.length := by have := hf.two; omega
  have hsort := again_sorted he hf hE hS
  have hfirst : ∀ x ∈ pathSegs (CS ++ [again R f]), x.1 = f ∨ lexLt f x.1 := fun x hx => first_least he hf hE hS (pathSegs_snoc_mem hx).1
  have hlast : ∀ x ∈ pathSegs (CS ++ [again R f]), x.2 = again R f ∨ lexLt x.2 (again R f) := by
    intro x hx
    rcases (pathSegs_snoc_mem hx).2 with h | h
    · exact Or.inr ((List.pairwise_append.mp hsort).2.2 _ h _ (by simp))
    · exact Or.inl h
  have hfm := first_mem he hf hE hS
  have hfr := hE.range f (by first | exact hfm | exact hS.perm.mem_iff.mp hfm)
  have hfm' : f ∈ bothCuts E := by first | exact hfm | exact hS.perm.mem_iff.mp hfm
  -- a part that passes the point does not pass it with an end
  have hinner : ∀ x ∈ pathSegs (CS ++ [again R f]), ∀ i, Hit R j t x i → loOf x.1 i < t ∧ t < hiOf x.1 x.2 i := by
    rintro ⟨a, b⟩ hx i ⟨h1, h2, h3, h4⟩
    obtain ⟨⟨-, -, -, -, ho⟩, ha, hb, -⟩ := between_cuts he hf hE hS hx
    dsimp only at *
    have hle : a.1 ≤ b.1 := by rcases ho with ho | ho <;> omega
    unfold loOf at h3 ⊢
    unfold hiOf at h4 ⊢
    constructor
    · split_ifs at h3 ⊢ with hi
      · refine lt_of_le_of_ne h3 fun h => hcut ?_
        subst hi
        rw [Nat.add_zero, Nat.mod_eq_of_lt (hE.range a ha)] at h2
        rw [← h2, ← h]
        exact ha
      · exact t0
    · split_ifs at h4 ⊢ with hi
      · refine lt_of_le_of_ne h4 fun h => hcut ?_
        subst hi
        rw [show a.1 + (b.1 - a.1) = b.1 by omega] at h2
        rw [← h2, h]
        exact hb
      · exact t1
  -- the number of the segment it passes it with
  have hnum : ∀ x ∈ pathSegs (CS ++ [again R f]), ∀ y ∈ pathSegs (CS ++ [again R f]), ∀ i i', Hit R j t x i → Hit R j t y i' → x.1.1 + i = y.1.1 + i' := by
    have key : ∀ x ∈ pathSegs (CS ++ [again R f]), ∀ y ∈ pathSegs (CS ++ [again R f]), ∀ i i', Hit R j t x i → Hit R j t y i' → ¬ x.1.1 + i < y.1.1 + i' := by
      rintro ⟨a, b⟩ hx ⟨c, d⟩ hy i i' h h' hlt
      have ho := (between_cuts he hf hE hS hx).1.2.2.2.2
      have ho' := (between_cuts he hf hE hS hy).1.2.2.2.2
      have hin := hinner _ hx i h
      have hin' := hinner _ hy i' h'
      obtain ⟨h1, h2, -, -⟩ := h
      obtain ⟨h1', h2', -, -⟩ := h'
      have hfa := hfirst _ hx
      have hld := hlast _ hy
      dsimp only at *
      have hle' : c.1 ≤ d.1 := by rcases ho' with ho | ho <;> omega
      have hfa1 : f.1 ≤ a.1 := by rcases hfa with rfl | hfa | hfa <;> omega
      have hld1 : d.1 ≤ f.1 + R.verts.length := by
        rcases hld with rfl | hld | hld
        · exact le_rfl
        · simp only [again] at hld; omega
        · simp only [again] at hld; omega
      -- the numbers differ by the number of vertexes
      obtain ⟨q, hq⟩ : R.verts.length ∣ (c.1 + i') - (a.1 + i) := (Nat.modEq_iff_dvd' hlt.le).mp (h2.trans h2'.symm)
      have hq1 : q = 1 := by
        have hlow : 0 < q := Nat.pos_of_ne_zero fun h => by subst h; omega
        by_contra hne
        have : R.verts.length * 2 ≤ R.verts.length * q := Nat.mul_le_mul_left _ (by omega)
        omega
      subst hq1
      have e1 : a.1 = f.1 ∧ i = 0 := by omega
      have e2 : d.1 = f.1 + R.verts.length ∧ i' = d.1 - c.1 := by omega
      have hlo : f.2 < t := by
        have := hin.1
        unfold loOf at this
        rw [if_pos e1.2] at this
        rcases hfa with rfl | hfa | hfa
        · exact this
        · omega
        · linarith [hfa.2]
      have hhi : t < f.2 := by
        have := hin'.2
        unfold hiOf at this
        rw [if_pos e2.2] at this
        rcases hld with rfl | hld | hld
        · exact this
        · simp only [again] at hld; omega
        · simp only [again] at hld; linarith [hld.2]
      linarith
    intro x hx y hy i i' h h'
    have k1 := key x hx y hy i i' h h'
    have k2 := key y hy x hx i' i h' h
    omega
  refine ⟨?_, fun x hx i i' h h' => by have := hnum x hx x hx i i' h h'; omega, hinner⟩
  refine List.Pairwise.imp_of_mem ?_ (pathSegs_sorted hsort)
  rintro ⟨a, b⟩ ⟨c, d⟩ hx hy hrel i i' ⟨h, h'⟩
  have hs := hnum _ hx _ hy i i' h h'
  have hin := hinner _ hx i h
  have hin' := hinner _ hy i' h'
  have ho := (between_cuts he hf hE hS hx).1.2.2.2.2
  obtain ⟨h1, -, -, -⟩ := h
  dsimp only at *
  have hle : a.1 ≤ b.1 := by rcases ho with ho | ho <;> omega
  have hbc : b.1 ≤ c.1 := by rcases hrel with rfl | hrel | hrel <;> omega
  have e1 : b.1 = c.1 ∧ i = b.1 - a.1 ∧ i' = 0 := by omega
  have l1 := hin.2
  have l2 := hin'.1
  unfold hiOf at l1
  unfold loOf at l2
  rw [if_pos e1.2.1] at l1
  rw [if_pos e1.2.2] at l2
  rcases hrel with rfl | hrel | hrel
  · linarith
  · omega
  · linarith [hrel.2]

/-- Segments that run along pieces that pass a point just once. -/
theorem edges_once (hn : 0 < R.verts.length) {L : List (Cut × Cut)} {W : Nat → List (Vertex ℝ)} (hW : ∀ i (hi : i < L.length), Along R eps L[i].1 L[i].2 (W i))
    (hlt : ∀ x ∈ L, ∀ j ≤ x.2.1 - x.1.1, 0 ≤ loOf x.1 j ∧ loOf x.1 j < hiOf x.1 x.2 j ∧ hiOf x.1 x.2 j ≤ 1) {j : Nat} {t : ℝ} (hO : Once R j t L)
    (honly : ∀ i u, i < R.verts.length → 0 ≤ u → u ≤ 1 → curveAt R i u = curveAt R j t → i = j ∧ u = t) :
    (((List.range L.length).map fun i => edges (W i)).flatten).Pairwise fun a b =>
      ¬ (((curveAt R j t).x, (curveAt R j t).y) ∈ segTrace a ∧ ((curveAt R j t).x, (curveAt R j t).y) ∈ segTrace b) := by
  have hhit : ∀ i (hi : i < L.length) m (hm : m < (pathSegs (W i)).length), ((curveAt R j t).x, (curveAt R j t).y) ∈ segTrace (strip (pathSegs (W i))[m]) → Hit R j t L[i] m := by
    rintro i hi m hm ⟨s, s0, s1, hs⟩
    have hlen : (pathSegs (W i)).length = (L[i].2.1 - L[i].1.1) + 1 := by rw [pathSegs_length, (hW i hi).count]; rfl
    have hp := (hW i hi).part m (pathSegs (W i))[m].1 (pathSegs (W i))[m].2 (List.getElem?_eq_getElem hm)
    obtain ⟨l0, l1, l2⟩ := hlt _ (List.getElem_mem hi) m (by omega)
    have hs' : curveAt R ((L[i].1.1 + m) % R.verts.length) (loOf L[i].1 m + (hiOf L[i].1 L[i].2 m - loOf L[i].1 m) * s) = curveAt R j t := by
      rw [curveAt_wrap hn, curveAt_vtx hn, ← hp.along]; exact hs.symm
    have := honly _ _ (Nat.mod_lt _ hn) (by nlinarith) (by nlinarith) hs'
    exact ⟨by omega, this.1, by rw [← this.2]; nlinarith, by rw [← this.2]; nlinarith⟩
  rw [List.pairwise_flatten]
  constructor
  · intro l hl
    obtain ⟨i, hi, rfl⟩ := List.mem_map.mp hl
    have hi := List.mem_range.mp hi
    unfold edges
    rw [List.pairwise_map, List.pairwise_iff_getElem]
    rintro m m' hm hm' hlt ⟨h, h'⟩
    have := hO.own _ (List.getElem_mem hi) m m' (hhit i hi m hm h) (hhit i hi m' hm' h')
    omega
  · rw [List.pairwise_map]
    refine List.Pairwise.imp_of_mem ?_ (List.pairwise_lt_range (n := L.length))
    intro i i' hi hi' hlt x hx y hy ⟨h, h'⟩
    have hi := List.mem_range.mp hi
    have hi' := List.mem_range.mp hi'
    unfold edges at hx hy
    obtain ⟨x', hx', rfl⟩ := List.mem_map.mp hx
    obtain ⟨y', hy', rfl⟩ := List.mem_map.mp hy
    obtain ⟨m, hm, rfl⟩ := List.getElem_of_mem hx'
    obtain ⟨m', hm', rfl⟩ := List.getElem_of_mem hy'
    exact (List.pairwise_iff_getElem.mp hO.apart i i' hi hi' hlt) m m' ⟨hhit i hi m hm h, hhit i' hi' m' hm' h'⟩

end

section
variable {p : Pline ℝ} {d eps gap : ℝ} {E : List (Cut × Cut)}
variable (hp : StraightLoop p) (hd : d ≠ 0) (he : 0 < eps) (hc : ∀ k, ClearTurn p d eps k)
include hp hd he hc

theorem once_filter {R : Pline ℝ} {j : Nat} {t : ℝ} {L : List (Cut × Cut)} (h : Once R j t L) (P : Cut × Cut → Bool) : Once R j t (L.filter P) :=
  ⟨h.apart.filter P, fun x hx => h.own x (List.mem_filter.mp hx).1, fun x hx => h.inner x (List.mem_filter.mp hx).1⟩

/-- A point of the raw offset that keeps the distance and is no crossing is passed by just one segment of the results, in the direction of the raw
offset. -/
theorem result_pass {tol joinEps : ℝ} (ht : 0 < tol) (hD : tol ≤ |d|) (hf : FullLoop (rawLoop p d) eps) (hE : SelfCrossing (rawLoop p d) eps gap E)
    (hF : FindsSelf (rawLoop p d) eps) (hos : OneSided p d) (hT : ClearTests p (rawLoop p d) d eps tol E) (hg : eps ≤ gap) (hj : 2 * joinEps ≤ gap) (hj0 : 0 ≤ joinEps)
    {es : List (Nat × V2 ℝ)} {ss : List (ViewData ℝ)} {rs : List (Pline ℝ)} (hes : CutsSingle (rawLoop p d) eps es)
    (hss : OffsetSlices p (rawLoop p d) d eps tol es ss) (hrs : OffsetJoined (rawLoop p d) ss p.closed eps joinEps rs)
    {j : Nat} (hjn : j < (rawLoop p d).verts.length) {t : ℝ} (t0 : 0 < t) (t1 : t < 1) (hcut : (j, t) ∉ bothCuts E) (hk : Keeps p |d| (curveAt (rawLoop p d) j t)) :
    ∃ L1 e L2, (rs.flatMap fun r => r.segs.map strip).Perm (L1 ++ e :: L2) ∧
      (∀ e' ∈ L1 ++ L2, ((curveAt (rawLoop p d) j t).x, (curveAt (rawLoop p d) j t).y) ∉ segTrace e') ∧
      ∃ lo hi, lo < t ∧ t < hi ∧ ∀ s, segCurve e.1 e.2 s = curveAt (rawLoop p d) j (lo + (hi - lo) * s) := by
  classical
  have hn : 0 < (rawLoop p d).verts.length := by have := hE.three; omega
  obtain ⟨-, hB⟩ := result_points hp hd he hc ht hD hf hE hF hos hT hg hj hj0 hes hss hrs
  obtain ⟨r, hr, s, hsr, hon⟩ := hB j t hjn t0.le t1.le hcut hk
  set R := rawLoop p d with hR
  have honly : ∀ i u, i < R.verts.length → 0 ≤ u → u ≤ 1 → curveAt R i u = curveAt R j t → i = j ∧ u = t := by
    intro i u hi u0 u1 h
    rcases lt_trichotomy i j with hij | rfl | hij
    · exfalso
      rcases hE.all i u j t hij hjn u0 u1 t0.le t1.le h with ⟨-, -, h⟩ | ⟨-, -, -, h⟩ | h
      · linarith
      · linarith
      · exact hcut (by unfold bothCuts; exact List.mem_append_right _ (List.mem_map.mpr ⟨_, h, rfl⟩))
    · exact ⟨rfl, curve_inj he hf u0 u1 t0.le t1.le h⟩
    · exfalso
      rcases hE.all j t i u hij hi t0.le t1.le u0 u1 h.symm with ⟨-, h, -⟩ | ⟨-, -, h, -⟩ | h
      · linarith
      · linarith
      · exact hcut (by unfold bothCuts; exact List.mem_append_left _ (List.mem_map.mpr ⟨_, h, rfl⟩))
  have main : ∀ L : List (Cut × Cut), List.Forall₂ (fun s x => ∃ vs, GoodSlice R eps s x vs) ss L → (∀ x ∈ L, x.1.1 ≤ x.2.1) →
      (∀ x ∈ L, ∀ y ∈ L, curveAt R x.2.1 x.2.2 = curveAt R y.1.1 y.1.2 ∨ FarApart gap (curveAt R x.2.1 x.2.2) (curveAt R y.1.1 y.1.2)) →
      Once R j t L → (∀ x ∈ L, ∀ j ≤ x.2.1 - x.1.1, 0 ≤ loOf x.1 j ∧ loOf x.1 j < hiOf x.1 x.2 j ∧ hiOf x.1 x.2 j ≤ 1) →
      ∃ L1 e L2, (rs.flatMap fun r => r.segs.map strip).Perm (L1 ++ e :: L2) ∧
      (∀ e' ∈ L1 ++ L2, ((curveAt R j t).x, (curveAt R j t).y) ∉ segTrace e') ∧
      ∃ lo hi, lo < t ∧ t < hi ∧ ∀ s, segCurve e.1 e.2 s = curveAt R j (lo + (hi - lo) * s) := by
    intro L hgood hord hends hO hlt
    have hlen := hgood.length_eq
    obtain ⟨W, P, hgW, -⟩ := good_parts he hf hgood hord hends hg hj hj0 hlen
    have hperm := stitch_segs he P hrs
    have hW : ∀ i (hi : i < L.length), Along R eps L[i].1 L[i].2 (W i) := fun i hi => (hgW i (by omega)).along
    have hpw := edges_once hn hW hlt hO honly
    rw [hlen] at hperm
    have hmem : strip s ∈ (List.map (fun i => edges (W i)) (List.range L.length)).flatten := by
      rw [← hperm.mem_iff]
      exact List.mem_flatMap.mpr ⟨r, hr, List.mem_map.mpr ⟨s, hsr, rfl⟩⟩
    obtain ⟨L1, L2, hL, hoff⟩ := split_unique hpw hmem (by rw [strip_trace]; exact hon)
    refine ⟨L1, strip s, L2, by rw [← hL]; exact hperm, hoff, ?_⟩
    obtain ⟨l, hl, hsl⟩ := List.mem_flatten.mp hmem
    obtain ⟨i, hi, rfl⟩ := List.mem_map.mp hl
    have hi := List.mem_range.mp hi
    unfold edges at hsl
    obtain ⟨s', hs', hss'⟩ := List.mem_map.mp hsl
    obtain ⟨m, hm, rfl⟩ := List.getElem_of_mem hs'
    have hpart := (hW i hi).part m (pathSegs (W i))[m].1 (pathSegs (W i))[m].2 (List.getElem?_eq_getElem hm)
    have hcurve : ∀ x, segCurve (strip s).1 (strip s).2 x = curveAt R (L[i].1.1 + m) (loOf L[i].1 m + (hiOf L[i].1 L[i].2 m - loOf L[i].1 m) * x) := fun x => by
      rw [← hss', strip_curve, hpart.along, curveAt_vtx hn]
    obtain ⟨x, x0, x1, hx⟩ := hon
    have hx' : curveAt R ((L[i].1.1 + m) % R.verts.length) (loOf L[i].1 m + (hiOf L[i].1 L[i].2 m - loOf L[i].1 m) * x) = curveAt R j t := by
      rw [curveAt_wrap hn, ← hcurve, strip_curve]; exact hx.symm
    have hml : (pathSegs (W i)).length = (L[i].2.1 - L[i].1.1) + 1 := by rw [pathSegs_length, (hW i hi).count]; rfl
    obtain ⟨l0, l1, l2⟩ := hlt _ (List.getElem_mem hi) m (by omega)
    have hjt := honly _ _ (Nat.mod_lt _ hn) (by nlinarith) (by nlinarith) hx'
    have hin := hO.inner _ (List.getElem_mem hi) m ⟨by omega, hjt.1, by rw [← hjt.2]; nlinarith, by rw [← hjt.2]; nlinarith⟩
    refine ⟨_, _, hin.1, hin.2, fun x => ?_⟩
    rw [hcurve, ← hjt.1, curveAt_wrap hn]
  obtain ⟨pairs, hP, hes1, -⟩ := hes
  have hperm : es.Perm ((bothCuts E).map (cutPt R)) := hes1 ▸ self_cuts he hf hE hF hP
  by_cases hE0 : E = []
  · have hes0 : es = [] := by subst hE0; simpa [bothCuts] using hperm
    obtain ⟨v, hv⟩ : ∃ v, R.verts.head? = some v := ⟨R.verts[0], by rw [List.head?_eq_getElem?, List.getElem?_eq_getElem hn]⟩
    obtain ⟨hkeep, hdr⟩ := hss.whole hes0 v hv
    by_cases hcl : PointClear p d eps tol v.pos
    · obtain ⟨s, hs, rfl⟩ := hkeep hcl
      obtain ⟨vs, hvs⟩ := entire_along he hf hs
      have heq : curveAt R (R.verts.length - 1) 1 = curveAt R 0 0 := by
        rw [curveAt_join hn, Nat.sub_add_cancel (by omega), ← curveAt_wrap hn, Nat.mod_self]
      refine main [((0, 0), (R.verts.length - 1, 1))] (List.Forall₂.cons ⟨vs, hvs⟩ List.Forall₂.nil) (by simp) (by
          intro x hx y hy
          simp only [List.mem_singleton] at hx hy
          subst hx; subst hy
          exact Or.inl heq) (once_whole hn t0 t1) ?_
      intro x hx i hi
      simp only [List.mem_singleton] at hx
      subst hx
      simp [loOf, hiOf]
    · have hs0 := hdr hcl
      subst hs0
      exact main [] List.Forall₂.nil (by simp) (by simp) ⟨List.Pairwise.nil, by simp, by simp⟩ (by simp)
  · have hes0 : es ≠ [] := by
      intro h
      rw [h] at hperm
      have := hperm.length_eq
      simp only [List.length_nil, List.length_map, bothCuts, List.length_append] at this
      exact hE0 (List.length_eq_zero_iff.mp (by omega))
    obtain ⟨cuts, first, last, hcuts, -, -, hkept⟩ := hss.pieces hes0
    obtain ⟨CS, hCS, hCp, hCl⟩ := sorted_cuts he hf hE hperm hcuts
    obtain ⟨f, hfirst⟩ : ∃ f, CS.head? = some f := by
      cases CS with
      | nil =>
        have := hCp.length_eq
        simp only [List.length_nil, bothCuts, List.length_append, List.length_map] at this
        exact absurd (List.length_eq_zero_iff.mp (by omega)) hE0
      | cons a l => exact ⟨a, rfl⟩
    have hS : RunCuts R E CS f := ⟨hCp, hCl, hfirst⟩
    have hrange : ∀ c ∈ CS, c.1 < R.verts.length := fun c hc => hE.range c (hCp.mem_iff.mp hc)
    rw [hp.closed, ← hCS, gaps_listed hn hrange hfirst] at hkept
    have hslices := kept_slices (Q := fun x => PieceKeeps p d x.1 x.2) _ _ (fun x hx => by
      obtain ⟨a, b⟩ := x
      obtain ⟨s, vs, h1, h2, h3, h4, h5⟩ := piece_slice he hf hE hS hg hx
      obtain ⟨-, ha, -, -⟩ := between_cuts he hf hE hS hx
      refine ⟨s, vs, ?_, ⟨h2, h3, h4, h5⟩, piece_clear hp hd he hc ht hD hf hE hos hT hS hx h2 h3⟩
      unfold listed
      dsimp only
      rw [Nat.mod_eq_of_lt (hE.range a ha)]
      exact h1) hkept
    refine main _ hslices (fun x hx => ?_) (fun x hx y hy => ?_) (once_filter hp hd he hc (once_pieces he hf hE hS t0 t1 hcut) _) (fun x hx i hi => ?_)
    · obtain ⟨⟨-, -, -, -, ho⟩, -⟩ := between_cuts he hf hE hS (List.mem_filter.mp hx).1
      rcases ho with ho | ho <;> omega
    · obtain ⟨-, -, hb, -⟩ := between_cuts he hf hE hS (List.mem_filter.mp hx).1
      obtain ⟨-, ha, -, -⟩ := between_cuts he hf hE hS (List.mem_filter.mp hy).1
      have := cuts_far hE hb ha
      dsimp only at this
      rwa [curveAt_wrap hn] at this
    · have hst := (piece_run he hf hE hS (List.mem_filter.mp hx).1).each i hi
      exact ⟨hst.zero, hst.lt, hst.one⟩

end
end Cavc
