import Verif.Lemmas.LoopClosed
import Verif.Lemmas.AnyRegion

/-! # With the option for self-intersections: how the results pass the points of the raw offset -/

set_option linter.unusedVariables false
set_option linter.unusedSectionVars false

namespace Cavc
open Pline

section
variable {p R : Pline ℝ} {d eps gap tol : ℝ} {C CS : List Cut} {f : Cut}

open Classical in
/-- The pieces between cuts pass a point that is no cut at most once. -/
theorem once_pieces_loop (he : 0 < eps) (hf : FullLoop R eps) (hI : LoopInside R eps gap C) (hS : RunLoop C CS f) {j : Nat} {t : ℝ} (t0 : 0 < t) (t1 : t < 1)
    (hcut : (j, t) ∉ C) : Once R j t ((pathSegs (CS ++ [again R f])).filter fun x => decide (x.1 ≠ x.2)) := by
  set L := (pathSegs (CS ++ [again R f])).filter fun x => decide (x.1 ≠ x.2) with hLdef
  have hn : 0 < R.verts.length := by have := hf.two; omega
  have hsort := loop_again_sorted he hf hI hS
  have hLm : ∀ x ∈ L, x ∈ pathSegs (CS ++ [again R f]) ∧ x.1 ≠ x.2 := fun x hx => by
    obtain ⟨h1, h2⟩ := List.mem_filter.mp hx
    exact ⟨h1, of_decide_eq_true h2⟩
  have hfirst : ∀ x ∈ L, x.1 = f ∨ lexLt f x.1 := fun x hx =>
    (loop_first_least he hf hI hS (pathSegs_snoc_mem (hLm x hx).1).1).imp Eq.symm id
  have hlast : ∀ x ∈ L, x.2 = again R f ∨ lexLt x.2 (again R f) := by
    intro x hx
    rcases (pathSegs_snoc_mem (hLm x hx).1).2 with h | h
    · exact (List.pairwise_append.mp hsort).2.2 _ h _ (by simp)
    · exact Or.inl h
  have hfm := (hS.mem f).mp (loop_first_mem he hf hI hS)
  have hfr := hI.range f hfm
  -- a part that passes the point does not pass it with an end
  have hinner : ∀ x ∈ L, ∀ i, Hit R j t x i → loOf x.1 i < t ∧ t < hiOf x.1 x.2 i := by
    rintro ⟨a, b⟩ hx i ⟨h1, h2, h3, h4⟩
    obtain ⟨ho, ha, hb, -⟩ := loop_between he hf hI hS (hLm _ hx).1 (hLm _ hx).2
    dsimp only at *
    have hle : a.1 ≤ b.1 := by rcases ho with ho | ho <;> omega
    unfold loOf at h3 ⊢
    unfold hiOf at h4 ⊢
    constructor
    · split_ifs at h3 ⊢ with hi
      · refine lt_of_le_of_ne h3 fun h => hcut ?_
        subst hi
        rw [Nat.add_zero, Nat.mod_eq_of_lt (hI.range a ha)] at h2
        rw [← h2, ← h]
        exact ha
      · exact t0
    · split_ifs at h4 ⊢ with hi
      · refine lt_of_le_of_ne h4 fun h => hcut ?_
        subst hi
        rw [show a.1 + (b.1 - a.1) = b.1 by omega] at h2
        rw [← h2, h]
        exact hb
      · exact t1
  -- the number of the segment it passes it with
  have hnum : ∀ x ∈ L, ∀ y ∈ L, ∀ i i', Hit R j t x i → Hit R j t y i' → x.1.1 + i = y.1.1 + i' := by
    have key : ∀ x ∈ L, ∀ y ∈ L, ∀ i i', Hit R j t x i → Hit R j t y i' → ¬ x.1.1 + i < y.1.1 + i' := by
      rintro ⟨a, b⟩ hx ⟨c, d⟩ hy i i' h h' hlt
      have ho := (loop_between he hf hI hS (hLm _ hx).1 (hLm _ hx).2).1
      have ho' := (loop_between he hf hI hS (hLm _ hy).1 (hLm _ hy).2).1
      have hin := hinner _ hx i h
      have hin' := hinner _ hy i' h'
      obtain ⟨h1, h2, -, -⟩ := h
      obtain ⟨h1', h2', -, -⟩ := h'
      have hfa := hfirst _ hx
      have hld := hlast _ hy
      dsimp only at *
      have hle' : c.1 ≤ d.1 := by rcases ho' with ho | ho <;> omega
      have hfa1 : f.1 ≤ a.1 := by rcases hfa with rfl | hfa | hfa <;> omega
      have hld1 : d.1 ≤ f.1 + R.verts.length := by
        rcases hld with rfl | hld | hld
        · exact le_rfl
        · simp only [again] at hld; omega
        · simp only [again] at hld; omega
      -- the numbers differ by the number of vertexes
      obtain ⟨q, hq⟩ : R.verts.length ∣ (c.1 + i') - (a.1 + i) := (Nat.modEq_iff_dvd' hlt.le).mp (h2.trans h2'.symm)
      have hq1 : q = 1 := by
        have hlow : 0 < q := Nat.pos_of_ne_zero fun h => by subst h; omega
        by_contra hne
        have : R.verts.length * 2 ≤ R.verts.length * q := Nat.mul_le_mul_left _ (by omega)
        omega
      subst hq1
      have e1 : a.1 = f.1 ∧ i = 0 := by omega
      have e2 : d.1 = f.1 + R.verts.length ∧ i' = d.1 - c.1 := by omega
      have hlo : f.2 < t := by
        have := hin.1
        unfold loOf at this
        rw [if_pos e1.2] at this
        rcases hfa with rfl | hfa | hfa
        · exact this
        · omega
        · linarith [hfa.2]
      have hhi : t < f.2 := by
        have := hin'.2
        unfold hiOf at this
        rw [if_pos e2.2] at this
        rcases hld with rfl | hld | hld
        · exact this
        · simp only [again] at hld; omega
        · simp only [again] at hld; linarith [hld.2]
      linarith
    intro x hx y hy i i' h h'
    have k1 := key x hx y hy i i' h h'
    have k2 := key y hy x hx i' i h' h
    omega
  refine ⟨?_, fun x hx i i' h h' => by have := hnum x hx x hx i i' h h'; omega, hinner⟩
  refine List.Pairwise.imp_of_mem ?_ ((pathSegs_sorted hsort).filter _)
  rintro ⟨a, b⟩ ⟨c, d⟩ hx hy hrel i i' ⟨h, h'⟩
  replace hrel : b = c ∨ lexLt b c := by
    rcases hrel with h | h | h
    · exact Or.inl h
    · exact Or.inl h
    · exact Or.inr h
  have hs := hnum _ hx _ hy i i' h h'
  have hin := hinner _ hx i h
  have hin' := hinner _ hy i' h'
  have ho := (loop_between he hf hI hS (hLm _ hx).1 (hLm _ hx).2).1
  obtain ⟨h1, -, -, -⟩ := h
  dsimp only at *
  have hle : a.1 ≤ b.1 := by rcases ho with ho | ho <;> omega
  have hbc : b.1 ≤ c.1 := by rcases hrel with rfl | hrel | hrel <;> omega
  have e1 : b.1 = c.1 ∧ i = b.1 - a.1 ∧ i' = 0 := by omega
  have l1 := hin.2
  have l2 := hin'.1
  unfold hiOf at l1
  unfold loOf at l2
  rw [if_pos e1.2.1] at l1
  rw [if_pos e1.2.2] at l2
  rcases hrel with rfl | hrel | hrel
  · linarith
  · omega
  · linarith [hrel.2]

/-- A point of the raw offset that keeps the distance and is no cut is passed by just one segment of the results, in the direction of the raw
offset. -/
theorem result_pass_loop {D : Pline ℝ} {joinEps : ℝ} (hp : FullLoop p eps) (he : 0 < eps) (ht : 0 < tol) (hD : tol ≤ |d|) (hf : FullLoop R eps)
    (hO : SelfCuts R D eps gap C) (hC : SelfChanges p R |d| C) (hT : SelfTests p R d eps tol C) (hg : eps ≤ gap) (hj : 2 * joinEps ≤ gap) (hj0 : 0 ≤ joinEps)
    {es : List (Nat × V2 ℝ)} {ss : List (ViewData ℝ)} {rs : List (Pline ℝ)} (hes : ∀ x, x ∈ es ↔ ∃ c ∈ C, cutPt R c = x)
    (hss : OffsetSlices p R d eps tol es ss) (hrs : OffsetJoined R ss p.closed eps joinEps rs) : PassedOn p R |d| (C.map fun c => (c, c)) rs := by
  have hI := hO.inside
  intro j t hjn t0 t1 hcut hk
  classical
  have hn : 0 < R.verts.length := by have := hf.two; omega
  replace hcut : (j, t) ∉ C := fun hm => hcut (by unfold bothCuts; exact List.mem_append_left _ (List.mem_map.mpr ⟨_, List.mem_map.mpr ⟨_, hm, rfl⟩, rfl⟩))
  obtain ⟨r, hr, s, hsr, hon⟩ := (result_points_loop hp he ht hD hf hI hC hT hg hj hj0 hes hss hrs (curveAt R j t)).mpr
    ⟨(loop_on hf _).mpr ⟨j, t, hjn, t0.le, t1.le, rfl⟩, hk⟩
  have hpp : ∀ s ∈ p.segs, IsLine s.1 ∨ ProperArc s.1 s.2 := fun s hs => segs_proper hp he hs
  have honly : ∀ i u, i < R.verts.length → 0 ≤ u → u ≤ 1 → curveAt R i u = curveAt R j t → i = j ∧ u = t := by
    intro i u hi u0 u1 h
    rcases lt_trichotomy i j with hij | rfl | hij
    · exfalso
      rcases hO.self i u j t hij hjn u0 u1 t0.le t1.le h with ⟨-, -, h⟩ | ⟨-, -, -, h⟩ | h
      · linarith
      · linarith
      · exact hcut h.2
    · exact ⟨rfl, curve_inj he hf u0 u1 t0.le t1.le h⟩
    · exfalso
      rcases hO.self j t i u hij hi t0.le t1.le u0 u1 h.symm with ⟨-, h, -⟩ | ⟨-, -, h, -⟩ | h
      · linarith
      · linarith
      · exact hcut h.1
  have main : ∀ L : List (Cut × Cut), List.Forall₂ (fun s x => ∃ vs, GoodSlice R eps s x vs) ss L → (∀ x ∈ L, x.1.1 ≤ x.2.1) →
      (∀ x ∈ L, ∀ y ∈ L, curveAt R x.2.1 x.2.2 = curveAt R y.1.1 y.1.2 ∨ FarApart gap (curveAt R x.2.1 x.2.2) (curveAt R y.1.1 y.1.2)) →
      Once R j t L → (∀ x ∈ L, ∀ j ≤ x.2.1 - x.1.1, 0 ≤ loOf x.1 j ∧ loOf x.1 j < hiOf x.1 x.2 j ∧ hiOf x.1 x.2 j ≤ 1) →
      ∃ L1 e L2, (rs.flatMap fun r => r.segs.map strip).Perm (L1 ++ e :: L2) ∧
      (∀ e' ∈ L1 ++ L2, ((curveAt R j t).x, (curveAt R j t).y) ∉ segTrace e') ∧
      ∃ lo hi, lo < t ∧ t < hi ∧ ∀ s, segCurve e.1 e.2 s = curveAt R j (lo + (hi - lo) * s) := by
    intro L hgood hord hends hO hlt
    have hlen := hgood.length_eq
    obtain ⟨V, P, hgW, -⟩ := good_parts he hf hgood hord hends hg hj hj0 hlen
    have hperm := stitch_segs he P hrs
    have hV : ∀ i (hi : i < L.length), Along R eps L[i].1 L[i].2 (V i) := fun i hi => (hgW i (by omega)).along
    have hpw := edges_once hn hV hlt hO honly
    rw [hlen] at hperm
    have hmem : strip s ∈ (List.map (fun i => edges (V i)) (List.range L.length)).flatten := by
      rw [← hperm.mem_iff]
      exact List.mem_flatMap.mpr ⟨r, hr, List.mem_map.mpr ⟨s, hsr, rfl⟩⟩
    obtain ⟨L1, L2, hL, hoff⟩ := split_unique hpw hmem (by rw [strip_trace]; exact hon)
    refine ⟨L1, strip s, L2, by rw [← hL]; exact hperm, hoff, ?_⟩
    obtain ⟨l, hl, hsl⟩ := List.mem_flatten.mp hmem
    obtain ⟨i, hi, rfl⟩ := List.mem_map.mp hl
    have hi := List.mem_range.mp hi
    unfold edges at hsl
    obtain ⟨s', hs', hss'⟩ := List.mem_map.mp hsl
    obtain ⟨m, hm, rfl⟩ := List.getElem_of_mem hs'
    have hpart := (hV i hi).part m (pathSegs (V i))[m].1 (pathSegs (V i))[m].2 (List.getElem?_eq_getElem hm)
    have hcurve : ∀ x, segCurve (strip s).1 (strip s).2 x = curveAt R (L[i].1.1 + m) (loOf L[i].1 m + (hiOf L[i].1 L[i].2 m - loOf L[i].1 m) * x) := fun x => by
      rw [← hss', strip_curve, hpart.along, curveAt_vtx hn]
    obtain ⟨x, x0, x1, hx⟩ := hon
    have hx' : curveAt R ((L[i].1.1 + m) % R.verts.length) (loOf L[i].1 m + (hiOf L[i].1 L[i].2 m - loOf L[i].1 m) * x) = curveAt R j t := by
      rw [curveAt_wrap hn, ← hcurve, strip_curve]; exact hx.symm
    have hml : (pathSegs (V i)).length = (L[i].2.1 - L[i].1.1) + 1 := by rw [pathSegs_length, (hV i hi).count]; rfl
    obtain ⟨l0, l1, l2⟩ := hlt _ (List.getElem_mem hi) m (by omega)
    have hjt := honly _ _ (Nat.mod_lt _ hn) (by nlinarith) (by nlinarith) hx'
    have hin := hO.inner _ (List.getElem_mem hi) m ⟨by omega, hjt.1, by rw [← hjt.2]; nlinarith, by rw [← hjt.2]; nlinarith⟩
    refine ⟨_, _, hin.1, hin.2, fun x => ?_⟩
    rw [hcurve, ← hjt.1, curveAt_wrap hn]
  by_cases hC0 : C = []
  · have hes0 : es = [] := by
      rw [List.eq_nil_iff_forall_not_mem]
      intro x hx
      obtain ⟨c, hc, -⟩ := (hes x).mp hx
      rw [hC0] at hc; simp at hc
    obtain ⟨v, hv⟩ : ∃ v, R.verts.head? = some v := ⟨R.verts[0], by rw [List.head?_eq_getElem?, List.getElem?_eq_getElem hn]⟩
    obtain ⟨hk, hdr⟩ := hss.whole hes0 v hv
    by_cases hcl : PointClear p d eps tol v.pos
    · obtain ⟨s, hs, rfl⟩ := hk hcl
      obtain ⟨vs, hvs⟩ := entire_along he hf hs
      have heq : curveAt R (R.verts.length - 1) 1 = curveAt R 0 0 := by
        rw [curveAt_join hn, Nat.sub_add_cancel (by omega), ← curveAt_wrap hn, Nat.mod_self]
      refine main [((0, 0), (R.verts.length - 1, 1))] (List.Forall₂.cons ⟨vs, hvs⟩ List.Forall₂.nil) (by simp) (by
          intro x hx y hy
          simp only [List.mem_singleton] at hx hy
          subst hx; subst hy
          exact Or.inl heq) (once_whole hn t0 t1) ?_
      intro x hx i hi
      simp only [List.mem_singleton] at hx
      subst hx
      simp [loOf, hiOf]
    · have hs0 := hdr hcl
      subst hs0
      exact main [] List.Forall₂.nil (by simp) (by simp) ⟨List.Pairwise.nil, by simp, by simp⟩ (by simp)
  · have hes0 : es ≠ [] := by
      obtain ⟨c, hc⟩ := List.exists_mem_of_ne_nil C hC0
      exact List.ne_nil_of_mem ((hes _).mpr ⟨c, hc, rfl⟩)
    obtain ⟨cuts, first, last, hcuts, -, -, hkept⟩ := hss.pieces hes0
    obtain ⟨CS, f, hCS, hS⟩ := loop_sorted he hf hI hes hcuts hC0
    have hrange : ∀ c ∈ CS, c.1 < R.verts.length := fun c hc => hI.range c ((hS.mem c).mp hc)
    rw [hp.closed, ← hCS, gaps_listed hn hrange hS.first] at hkept
    have hslices := kept_slices_loop (P := fun x => x.1 ≠ x.2) (Q := fun x => PieceFar p R |d| x.1 x.2) _ _ (fun x hx hP => by
        have e : x.1 = x.2 := by by_contra h; exact hP h
        have ha := (pathSegs_snoc_mem hx).1
        rw [← e]
        unfold listed
        dsimp only
        rw [Nat.mod_eq_of_lt (hrange _ ha)]
        exact loop_slice_same he hf (hrange _ ha) (hI.ok _ ((hS.mem _).mp ha))) (fun x hx hP => by
        obtain ⟨a, b⟩ := x
        obtain ⟨s, vs, h1, h3⟩ := loop_piece_slice he hf hI hS hg hx hP
        have ha := (pathSegs_snoc_mem hx).1
        refine ⟨s, vs, ?_, h3, piece_clear_loop hpp he ht hD hf hI hC hT hS hx hP h3.reads h3.along⟩
        unfold listed
        dsimp only at ha ⊢
        rw [Nat.mod_eq_of_lt (hrange _ ha)]
        exact h1) hkept
    have hL : ∀ x, x ∈ ((pathSegs (CS ++ [again R f])).filter fun x => decide (x.1 ≠ x.2 ∧ PieceFar p R |d| x.1 x.2)) →
        x ∈ pathSegs (CS ++ [again R f]) ∧ x.1 ≠ x.2 := fun x hx => by
      obtain ⟨h1, h2⟩ := List.mem_filter.mp hx
      exact ⟨h1, (of_decide_eq_true h2).1⟩
    refine main _ hslices (fun x hx => ?_) (fun x hx y hy => ?_) ?_ (fun x hx i hi => ?_)
    · obtain ⟨ho, -⟩ := loop_between he hf hI hS (hL x (by convert hx)).1 (hL x (by convert hx)).2
      rcases ho with ho | ho <;> omega
    · obtain ⟨-, -, hb, -⟩ := loop_between he hf hI hS (hL x (by convert hx)).1 (hL x (by convert hx)).2
      obtain ⟨-, ha, -⟩ := loop_between he hf hI hS (hL y (by convert hy)).1 (hL y (by convert hy)).2
      have := hI.apart _ hb _ ha
      dsimp only at this
      rwa [curveAt_wrap hn] at this
    · have h1 := once_filter_any (once_pieces_loop he hf hI hS t0 t1 hcut) fun x => decide (PieceFar p R |d| x.1 x.2)
      rw [List.filter_filter] at h1
      convert h1 using 2
      funext x
      by_cases h1 : x.1 = x.2 <;> by_cases h2 : PieceFar p R |d| x.1 x.2 <;> simp [h1, h2]
    · have hst := (loop_run he hf hI hS (hL x (by convert hx)).1 (hL x (by convert hx)).2).each i hi
      exact ⟨hst.zero, hst.lt, hst.one⟩

end
end Cavc
