import Verif.Lemmas.ResultParts
import Verif.Lemmas.RawFlow
import Verif.Spec.Simple

/-! # The results of the parallel offset touch neither themselves nor each other -/

set_option linter.unusedVariables false
set_option linter.unusedSectionVars false

namespace Cavc
open RealScalar Pline Filter Topology

/-- the parts of a segment after a fraction include points that are no cuts -/
theorem free_after {E : List (Cut × Cut)} (j : Nat) {lo hi : ℝ} (h : lo < hi) : ∃ t, lo < t ∧ t < hi ∧ (j, t) ∉ bothCuts E := by
  have hfin : Set.Finite {t : ℝ | (j, t) ∈ bothCuts E} :=
    Set.Finite.subset ((bothCuts E).map Prod.snd).finite_toSet (fun t ht => List.mem_map.mpr ⟨_, ht, rfl⟩)
  obtain ⟨t, ht, hn⟩ := ((Set.Ioo_infinite h).diff hfin).nonempty
  exact ⟨t, ht.1, ht.2, hn⟩

/-- different segments of the results share no point of the raw offset, except at its corners and crossings -/
theorem passed_apart {p R : Pline ℝ} {r : ℝ} {E : List (Cut × Cut)} {rs : List (Pline ℝ)} (hpass : PassedOn p R r E rs) {j : Nat} {t : ℝ} (hj : j < R.verts.length) (t0 : 0 < t) (t1 : t < 1)
    (hc : (j, t) ∉ bothCuts E) (hk : Keeps p r (curveAt R j t)) : (rs.flatMap fun r => r.segs.map strip).Pairwise fun a b =>
      ¬ (((curveAt R j t).x, (curveAt R j t).y) ∈ segTrace a ∧ ((curveAt R j t).x, (curveAt R j t).y) ∈ segTrace b) := by
  obtain ⟨L1, e, L2, hp, ho, -⟩ := hpass j t hj t0 t1 hc hk
  refine (hp.pairwise_iff ?_).mpr ?_
  · rintro a b h ⟨h1, h2⟩
    exact h ⟨h2, h1⟩
  · rw [List.pairwise_append, List.pairwise_cons]
    refine ⟨?_, ⟨fun b hb h => ho b (List.mem_append_right _ hb) h.2, ?_⟩, fun a ha b _ h => ho a (List.mem_append_left _ ha) h.1⟩
    · exact List.Pairwise.imp_of_mem (R := fun _ _ => True) (fun {a b} ha hb _ h => ho a (List.mem_append_left _ ha) h.1) (List.pairwise_of_forall (fun _ _ => trivial))
    · exact List.Pairwise.imp_of_mem (R := fun _ _ => True) (fun {a b} ha hb _ h => ho a (List.mem_append_right _ ha) h.1) (List.pairwise_of_forall (fun _ _ => trivial))

section
variable {p : Pline ℝ} {d : ℝ} {c : Nat → Corner} {eps gap : ℝ} {E : List (Cut × Cut)} (he : 0 < eps) (h : ClearOffset p d c eps) (hC : CleanCorners p d c)
  (hE : SelfCrossing (rawWith p d c) eps gap E) (hA : CrossAtAngle (rawWith p d c) E)
include he h hC hE hA

/-- at a crossing, only one of the two ways that go on keeps the distance -/
theorem one_onward {e : Cut × Cut} (hx : e ∈ E) (hk : Keeps p |d| (curveAt (rawWith p d c) e.1.1 e.1.2)) (h1 : BesideKept p (rawWith p d c) |d| 1 e.1)
    (h2 : BesideKept p (rawWith p d c) |d| 1 e.2) : False := by
  obtain ⟨⟨i, t⟩, j, t'⟩ := e
  dsimp only at *
  have hXX : curveAt (rawWith p d c) i t = curveAt (rawWith p d c) j t' := hE.on _ hx
  have hk' : Keeps p |d| (curveAt (rawWith p d c) j t') := hXX ▸ hk
  have hi : i < (arcParts p c).length := by rw [← arcParts_length (d := d)]; exact hE.range _ (cut_mem (Or.inl hx))
  have hj : j < (arcParts p c).length := by rw [← arcParts_length (d := d)]; exact hE.range _ (cut_mem (Or.inr hx))
  have hok := hE.ok _ (cut_mem (Or.inl hx))
  have hok' := hE.ok _ (cut_mem (Or.inr hx))
  obtain ⟨a, b, f1, f2, hf⟩ := raw_foot he h hC hi hok.pos.le hok.lt.le hk
  obtain ⟨a', b', g1, g2, hg⟩ := raw_foot he h hC hj hok'.pos.le hok'.lt.le hk'
  have hang : d * (a * b' - b * a') ≠ 0 := mul_ne_zero h.moves (hA _ hx _ _ _ _ f1 f2 g1 g2)
  have k1 : 1 * (d * (a * b' - b * a')) ≤ 0 := foot_side h.moves f1 f2 (hXX ▸ hg) h1
  have k2 : 1 * (d * (a' * b - b' * a)) ≤ 0 := foot_side h.moves g1 g2 (hXX ▸ hf) h2
  exact hang (by linarith)

/-- parts of the raw offset that keep the distance and have no common inner points have no common points at all, without their ends -/
theorem parts_apart {f g : ℝ → V2 ℝ} {i j : Nat} {lo hi lo' hi' : ℝ} (hi1 : i < (rawWith p d c).verts.length) (hj1 : j < (rawWith p d c).verts.length)
    (l0 : 0 ≤ lo) (l1 : lo < hi) (l2 : hi ≤ 1) (m0 : 0 ≤ lo') (m1 : lo' < hi') (m2 : hi' ≤ 1)
    (hf : ∀ x, f x = curveAt (rawWith p d c) i (lo + (hi - lo) * x)) (hg : ∀ x, g x = curveAt (rawWith p d c) j (lo' + (hi' - lo') * x))
    (kf : ∀ x, 0 ≤ x → x ≤ 1 → Keeps p |d| (f x)) (kg : ∀ x, 0 ≤ x → x ≤ 1 → Keeps p |d| (g x))
    (hno : ∀ k t, k < (rawWith p d c).verts.length → 0 < t → t < 1 → (k, t) ∉ bothCuts E → Keeps p |d| (curveAt (rawWith p d c) k t) →
      ¬ ((∃ x, 0 ≤ x ∧ x ≤ 1 ∧ f x = curveAt (rawWith p d c) k t) ∧ ∃ x, 0 ≤ x ∧ x ≤ 1 ∧ g x = curveAt (rawWith p d c) k t))
    {t u : ℝ} (t0 : 0 ≤ t) (t1 : t < 1) (u0 : 0 ≤ u) (u1 : u < 1) : f t ≠ g u := by
  intro heq
  have hw : 0 < hi - lo := by linarith
  have hw' : 0 < hi' - lo' := by linarith
  have a0 : 0 ≤ lo + (hi - lo) * t := by nlinarith
  have a1 : lo + (hi - lo) * t < hi := by nlinarith
  have b0 : 0 ≤ lo' + (hi' - lo') * u := by nlinarith
  have b1 : lo' + (hi' - lo') * u < hi' := by nlinarith
  have a2 : lo ≤ lo + (hi - lo) * t := by nlinarith
  have b2 : lo' ≤ lo' + (hi' - lo') * u := by nlinarith
  -- the parts keep the distance where they are
  have inf : ∀ s, lo ≤ s → s ≤ hi → ∃ x, 0 ≤ x ∧ x ≤ 1 ∧ f x = curveAt (rawWith p d c) i s := fun s s0 s1 =>
    ⟨(s - lo) / (hi - lo), div_nonneg (by linarith) hw.le, (div_le_one hw).mpr (by linarith), by rw [hf]; congr 1; field_simp; ring⟩
  have ing : ∀ s, lo' ≤ s → s ≤ hi' → ∃ x, 0 ≤ x ∧ x ≤ 1 ∧ g x = curveAt (rawWith p d c) j s := fun s s0 s1 =>
    ⟨(s - lo') / (hi' - lo'), div_nonneg (by linarith) hw'.le, (div_le_one hw').mpr (by linarith), by rw [hg]; congr 1; field_simp; ring⟩
  have keepf : ∀ s, lo ≤ s → s ≤ hi → Keeps p |d| (curveAt (rawWith p d c) i s) := fun s s0 s1 => by
    obtain ⟨x, x0, x1, e⟩ := inf s s0 s1
    rw [← e]
    exact kf x x0 x1
  have keepg : ∀ s, lo' ≤ s → s ≤ hi' → Keeps p |d| (curveAt (rawWith p d c) j s) := fun s s0 s1 => by
    obtain ⟨x, x0, x1, e⟩ := ing s s0 s1
    rw [← e]
    exact kg x x0 x1
  have onf : BesideKept p (rawWith p d c) |d| 1 (i, lo + (hi - lo) * t) := ⟨hi - (lo + (hi - lo) * t), by linarith, fun s s0 s1 => keepf _ (by dsimp only; linarith) (by dsimp only; linarith)⟩
  have ong : BesideKept p (rawWith p d c) |d| 1 (j, lo' + (hi' - lo') * u) := ⟨hi' - (lo' + (hi' - lo') * u), by linarith, fun s s0 s1 => keepg _ (by dsimp only; linarith) (by dsimp only; linarith)⟩
  rw [hf, hg] at heq
  have cross : ∀ {i j : Nat} {x y : ℝ}, i < j → j < (rawWith p d c).verts.length → 0 ≤ x → x < 1 → 0 ≤ y → y < 1 → curveAt (rawWith p d c) i x = curveAt (rawWith p d c) j y →
      ((i, x), (j, y)) ∈ E := by
    intro i j x y hij hj x0 x1 y0 y1 e
    rcases hE.all i x j y hij hj x0 x1.le y0 y1.le e with ⟨-, e, -⟩ | ⟨-, -, -, e⟩ | e
    · linarith
    · linarith
    · exact e
  rcases lt_trichotomy i j with hij | rfl | hij
  · exact one_onward he h hC hE hA (cross hij hj1 a0 (by linarith) b0 (by linarith) heq) (keepf _ a2 a1.le) onf ong
  · have e := curve_inj he h.full a0 (by linarith) b0 (by linarith) heq
    obtain ⟨s, s0, s1, hs⟩ := free_after (E := E) i (lt_min a1 (by rw [e]; exact b1 : lo + (hi - lo) * t < hi'))
    obtain ⟨s1, s2⟩ := lt_min_iff.mp s1
    exact hno i s hi1 (by linarith) (by linarith) hs (keepf s (by linarith) (by linarith)) ⟨inf s (by linarith) (by linarith), ing s (by linarith) (by linarith)⟩
  · exact one_onward he h hC hE hA (cross hij hi1 b0 (by linarith) a0 (by linarith) heq.symm) (keepg _ b2 b1.le) ong onf

/-- the results touch neither themselves nor each other -/
theorem results_simple {rs : List (Pline ℝ)} (hl : ∀ r ∈ rs, r.closed = true ∧ 2 ≤ r.verts.length) (hpass : PassedOn p (rawWith p d c) |d| E rs)
    (hk : ∀ r ∈ rs, ∀ X, OnPline r X → Keeps p |d| X)
    (hparts : ∀ r ∈ rs, ∀ s ∈ r.segs, ∃ i lo hi, i < (rawWith p d c).verts.length ∧ 0 ≤ lo ∧ lo < hi ∧ hi ≤ 1 ∧
      ∀ x, segCurve s.1 s.2 x = curveAt (rawWith p d c) i (lo + (hi - lo) * x)) :
    (∀ r ∈ rs, SimpleLoop r) ∧ rs.Pairwise fun r r' => ∀ X, OnPline r X → ¬ OnPline r' X := by
  have hseg : ∀ r ∈ rs, ∀ k, k < r.verts.length → (vtx r k, vtx r (k + 1)) ∈ r.segs := fun r hr k hk' =>
    List.mem_of_getElem? ((seg_vtx (hl r hr).1 (hl r hr).2 k _).mpr ⟨hk', rfl⟩)
  have hn : ∀ r ∈ rs, 0 < r.verts.length := fun r hr => by have := (hl r hr).2; omega
  -- the points of a segment
  have hpt : ∀ r ∈ rs, ∀ k, k < r.verts.length → ∀ x, 0 ≤ x → x ≤ 1 → Keeps p |d| (curveAt r k x) := fun r hr k hk' x x0 x1 =>
    hk r hr _ ⟨_, hseg r hr k hk', x, x0, x1, by rw [curveAt_vtx (hn r hr)]⟩
  have htrace : ∀ r ∈ rs, ∀ k X, (∃ x, 0 ≤ x ∧ x ≤ 1 ∧ curveAt r k x = X) → (X.x, X.y) ∈ segTrace (strip (vtx r k, vtx r (k + 1))) := by
    rintro r hr k X ⟨x, x0, x1, rfl⟩
    rw [strip_trace]
    refine ⟨x, x0, x1, ?_⟩
    rw [curveAt_vtx (hn r hr)]
  have key : ∀ r ∈ rs, ∀ r' ∈ rs, ∀ k k', k < r.verts.length → k' < r'.verts.length →
      (∀ j t, j < (rawWith p d c).verts.length → 0 < t → t < 1 → (j, t) ∉ bothCuts E → Keeps p |d| (curveAt (rawWith p d c) j t) →
        ¬ (((curveAt (rawWith p d c) j t).x, (curveAt (rawWith p d c) j t).y) ∈ segTrace (strip (vtx r k, vtx r (k + 1))) ∧
          ((curveAt (rawWith p d c) j t).x, (curveAt (rawWith p d c) j t).y) ∈ segTrace (strip (vtx r' k', vtx r' (k' + 1))))) →
      ∀ t u : ℝ, 0 ≤ t → t < 1 → 0 ≤ u → u < 1 → curveAt r k t ≠ curveAt r' k' u := by
    intro r hr r' hr' k k' hk1 hk2 hno t u t0 t1 u0 u1
    obtain ⟨i, lo, hi, h1, h2, h3, h4, h5⟩ := hparts r hr _ (hseg r hr k hk1)
    obtain ⟨j, lo', hi', g1, g2, g3, g4, g5⟩ := hparts r' hr' _ (hseg r' hr' k' hk2)
    refine parts_apart he h hC hE hA h1 g1 h2 h3 h4 g2 g3 g4 (fun x => by rw [curveAt_vtx (hn r hr)]; exact h5 x) (fun x => by rw [curveAt_vtx (hn r' hr')]; exact g5 x)
      (fun x x0 x1 => hpt r hr k hk1 x x0 x1) (fun x x0 x1 => hpt r' hr' k' hk2 x x0 x1) ?_ t0 t1 u0 u1
    rintro j t hj s0 s1 hc hkp ⟨e1, e2⟩
    exact hno j t hj s0 s1 hc hkp ⟨htrace r hr k _ e1, htrace r' hr' k' _ e2⟩
  constructor
  · intro r hr i j hi hj t u t0 t1 u0 u1 e
    by_cases hij : i = j
    · subst hij
      refine ⟨rfl, ?_⟩
      obtain ⟨m, lo, hi', h1, h2, h3, h4, h5⟩ := hparts r hr _ (hseg r hr i hi)
      rw [curveAt_vtx (hn r hr), curveAt_vtx (hn r hr), h5, h5] at e
      have := curve_inj he h.full (by nlinarith) (by nlinarith) (by nlinarith) (by nlinarith) e
      have h6 : (hi' - lo) * (t - u) = 0 := by linarith
      rcases mul_eq_zero.mp h6 with h6 | h6 <;> linarith
    · refine absurd e (key r hr r hr i j hi hj ?_ t u t0 t1 u0 u1)
      intro m s hm s0 s1 hc hkp
      have hpw := (List.pairwise_flatMap.mp (passed_apart hpass hm s0 s1 hc hkp)).1 r hr
      rw [List.pairwise_map, List.pairwise_iff_getElem] at hpw
      have hlen : r.segs.length = r.verts.length := by rw [segs_range (hl r hr).1 (hl r hr).2]; simp
      have get : ∀ i (h : i < r.verts.length), r.segs[i]'(by omega) = (vtx r i, vtx r (i + 1)) := fun i h' => by
        have := (seg_vtx (hl r hr).1 (hl r hr).2 i _).mpr ⟨h', rfl⟩
        exact (List.getElem?_eq_some_iff.mp this).2
      rcases lt_or_gt_of_ne hij with hlt | hlt
      · have := hpw i j (by omega) (by omega) hlt
        rwa [get i hi, get j hj] at this
      · have := hpw j i (by omega) (by omega) hlt
        rw [get i hi, get j hj] at this
        exact fun hh => this ⟨hh.2, hh.1⟩
  · rw [List.pairwise_iff_getElem]
    intro a b ha hb hab X hX hX'
    have ra := List.getElem_mem ha
    have rb := List.getElem_mem hb
    have start : ∀ r ∈ rs, OnPline r X → ∃ k t, k < r.verts.length ∧ 0 ≤ t ∧ t < 1 ∧ curveAt r k t = X := by
      rintro r hr ⟨s, hs, t, t0, t1, rfl⟩
      obtain ⟨k, hk'⟩ := List.getElem?_of_mem hs
      obtain ⟨hk1, rfl⟩ := (seg_vtx (hl r hr).1 (hl r hr).2 k _).mp hk'
      dsimp only
      rw [← curveAt_vtx (hn r hr)]
      rcases lt_or_eq_of_le t1 with t1 | rfl
      · exact ⟨k, t, hk1, t0, t1, rfl⟩
      · exact ⟨(k + 1) % r.verts.length, 0, Nat.mod_lt _ (hn r hr), le_rfl, by norm_num, by rw [curveAt_wrap (hn r hr), curveAt_join (hn r hr)]⟩
    obtain ⟨k, t, hk1, t0, t1, e1⟩ := start _ ra hX
    obtain ⟨k', u, hk2, u0, u1, e2⟩ := start _ rb hX'
    refine key _ ra _ rb k k' hk1 hk2 ?_ t u t0 t1 u0 u1 (e1.trans e2.symm)
    intro m s hm s0 s1 hc hkp
    have hpw := (List.pairwise_iff_getElem.mp (List.pairwise_flatMap.mp (passed_apart hpass hm s0 s1 hc hkp)).2) a b ha hb hab
    exact hpw _ (List.mem_map.mpr ⟨_, hseg _ ra k hk1, rfl⟩) _ (List.mem_map.mpr ⟨_, hseg _ rb k' hk2, rfl⟩)

end

end Cavc
