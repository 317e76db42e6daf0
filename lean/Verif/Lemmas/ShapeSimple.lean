import Verif.Lemmas.ResultSimple
import Verif.Lemmas.ShapeCrossKeeps

/-! # The polylines of the parallel offset of a shape touch neither themselves nor each other -/

set_option linter.unusedVariables false
set_option linter.unusedSectionVars false

namespace Cavc
open RealScalar Pline Filter Topology

/-- closed polylines whose segments, without their ends, have no common points -/
theorem simple_of_segs {rs : List (Pline ℝ)} (hl : ∀ r ∈ rs, r.closed = true ∧ 2 ≤ r.verts.length)
    (hown : ∀ r ∈ rs, ∀ s ∈ r.segs, ∀ t u : ℝ, 0 ≤ t → t < 1 → 0 ≤ u → u < 1 → segCurve s.1 s.2 t = segCurve s.1 s.2 u → t = u)
    (hpw : (rs.flatMap Pline.segs).Pairwise fun s s' => ∀ t u : ℝ, 0 ≤ t → t < 1 → 0 ≤ u → u < 1 → segCurve s.1 s.2 t ≠ segCurve s'.1 s'.2 u) :
    (∀ r ∈ rs, SimpleLoop r) ∧ rs.Pairwise fun r r' => ∀ X, OnPline r X → ¬ OnPline r' X := by
  have hn : ∀ r ∈ rs, 0 < r.verts.length := fun r hr => by have := (hl r hr).2; omega
  have hseg : ∀ r ∈ rs, ∀ k, k < r.verts.length → (vtx r k, vtx r (k + 1)) ∈ r.segs := fun r hr k hk' =>
    List.mem_of_getElem? ((seg_vtx (hl r hr).1 (hl r hr).2 k _).mpr ⟨hk', rfl⟩)
  obtain ⟨p1, p2⟩ := List.pairwise_flatMap.mp hpw
  constructor
  · intro r hr i j hi hj t u t0 t1 u0 u1 e
    rw [curveAt_vtx (hn r hr), curveAt_vtx (hn r hr)] at e
    by_cases hij : i = j
    · subst hij
      exact ⟨rfl, hown r hr _ (hseg r hr i hi) t u t0 t1 u0 u1 e⟩
    · exfalso
      have hpw := List.pairwise_iff_getElem.mp (p1 r hr)
      have hlen : r.segs.length = r.verts.length := by rw [segs_range (hl r hr).1 (hl r hr).2]; simp
      have get : ∀ i (h : i < r.verts.length), r.segs[i]'(by omega) = (vtx r i, vtx r (i + 1)) := fun i h' => by
        have := (seg_vtx (hl r hr).1 (hl r hr).2 i _).mpr ⟨h', rfl⟩
        exact (List.getElem?_eq_some_iff.mp this).2
      rcases lt_or_gt_of_ne hij with hlt | hlt
      · have := hpw i j (by omega) (by omega) hlt t u t0 t1 u0 u1
        rw [get i hi, get j hj] at this
        exact this e
      · have := hpw j i (by omega) (by omega) hlt u t u0 u1 t0 t1
        rw [get i hi, get j hj] at this
        exact this e.symm
  · refine List.Pairwise.imp_of_mem ?_ p2
    intro r r' hr hr' h X hX hX'
    have start : ∀ r ∈ rs, OnPline r X → ∃ s ∈ r.segs, ∃ t, 0 ≤ t ∧ t < 1 ∧ segCurve s.1 s.2 t = X := by
      rintro r hr ⟨s, hs, t, t0, t1, rfl⟩
      rcases lt_or_eq_of_le t1 with t1 | rfl
      · exact ⟨s, hs, t, t0, t1, rfl⟩
      · obtain ⟨k, hk'⟩ := List.getElem?_of_mem hs
        obtain ⟨hk1, rfl⟩ := (seg_vtx (hl r hr).1 (hl r hr).2 k _).mp hk'
        refine ⟨_, hseg r hr ((k + 1) % r.verts.length) (Nat.mod_lt _ (hn r hr)), 0, le_rfl, by norm_num, ?_⟩
        dsimp only
        rw [← curveAt_vtx (hn r hr), curveAt_wrap (hn r hr), ← curveAt_join (hn r hr), curveAt_vtx (hn r hr)]
    obtain ⟨s, hs, t, t0, t1, e1⟩ := start r hr hX
    obtain ⟨s', hs', u, u0, u1, e2⟩ := start r' hr' hX'
    exact h s hs s' hs' t u t0 t1 u0 u1 (e1.trans e2.symm)

/-- fractions that are no cuts -/
theorem free_cut (L : List Cut) (j : Nat) {lo hi : ℝ} (h : lo < hi) : ∃ t, lo < t ∧ t < hi ∧ (j, t) ∉ L := by
  have hfin : Set.Finite {t : ℝ | (j, t) ∈ L} := Set.Finite.subset (L.map Prod.snd).finite_toSet (fun t ht => List.mem_map.mpr ⟨_, ht, rfl⟩)
  obtain ⟨t, ht, hn⟩ := ((Set.Ioo_infinite h).sdiff hfin).nonempty
  exact ⟨t, ht.1, ht.2, hn⟩

section
variable {inputs : List (IndexedPline ℝ)} {loops : List (OffsetLoop ℝ)} {d eps gap : ℝ} {C : Nat → List Cut} {σ : Nat → ℤ} {a : ℤ}
  (h : BesideAll inputs loops d eps gap C σ a)
include h

/-- at a crossing of two offset loops, only one of the two ways that go on keeps the distance -/
theorem BesideAll.one_onward {i j : Nat} {l m : OffsetLoop ℝ} (hi : loops[i]? = some l) (hj : loops[j]? = some m) (hne : i ≠ j) {c c' : Cut} (hc : c ∈ C i) (hc' : c' ∈ C j)
    (e : curveAt l.ip.pline c.1 c.2 = curveAt m.ip.pline c'.1 c'.2)
    (h1 : ∃ δ > 0, ∀ s, 0 < s → s < δ → ∀ jp ∈ inputs, Keeps jp.pline |d| (curveAt l.ip.pline c.1 (c.2 + 1 * s)))
    (h2 : ∃ δ > 0, ∀ s, 0 < s → s < δ → ∀ jp ∈ inputs, Keeps jp.pline |d| (curveAt m.ip.pline c'.1 (c'.2 + 1 * s))) : False := by
  have hlm := List.mem_of_getElem? hi
  have hmm := List.mem_of_getElem? hj
  have ok := h.hC.ok i l hi c hc
  have ok' := h.hC.ok j m hj c' hc'
  have il := List.getElem?_eq_getElem (h.hpar l hlm)
  have im := List.getElem?_eq_getElem (h.hpar m hmm)
  obtain ⟨F, x, y, n, hF, e1, dx, dy, n0, ex, ey⟩ := (h.hal _ _ il).along _ (loopsOf_mem hlm rfl) c.1 c.2 (h.hC.range i l hi c hc) ok.pos ok.lt
  obtain ⟨F', x', y', n', hF', e1', dx', dy', n0', ex', ey'⟩ := (h.hal _ _ im).along _ (loopsOf_mem hmm rfl) c'.1 c'.2 (h.hC.range j m hj c' hc') ok'.pos ok'.lt
  have hang : d * (x * y' - y * x') ≠ 0 := mul_ne_zero h.hd (h.hX.angle i j l m hi hj hne c hc c' hc' e x y x' y' dx dy dx' dy')
  obtain ⟨δ, hδ, k1⟩ := h1
  obtain ⟨δ', hδ', k2⟩ := h2
  have a1 : 1 * (d * (x * y' - y * x')) ≤ 0 := foot_side (f := curveAt l.ip.pline c.1) h.hd dx dy ⟨F', n', hF', n0', by rw [e]; exact e1', by rw [e]; exact ex', by rw [e]; exact ey'⟩
    ⟨δ, hδ, fun s s0 s1 => k1 s s0 s1 _ (List.mem_of_getElem? im)⟩
  have a2 : 1 * (d * (x' * y - y' * x)) ≤ 0 := foot_side (f := curveAt m.ip.pline c'.1) h.hd dx' dy' ⟨F, n, hF, n0, by rw [← e]; exact e1, by rw [← e]; exact ex, by rw [← e]; exact ey⟩
    ⟨δ', hδ', fun s s0 s1 => k2 s s0 s1 _ (List.mem_of_getElem? il)⟩
  exact hang (by linarith)

/-- parts of offset loops that keep the distance and have no common inner points have no common points at all, without their ends -/
theorem BesideAll.parts_apart {f g : ℝ → V2 ℝ} {i j k k' : Nat} {l m : OffsetLoop ℝ} {lo hi lo' hi' : ℝ} (hi1 : loops[i]? = some l) (hj1 : loops[j]? = some m)
    (hk1 : k < l.ip.pline.verts.length) (hk1' : k' < m.ip.pline.verts.length) (l0 : 0 ≤ lo) (l1 : lo < hi) (l2 : hi ≤ 1) (m0 : 0 ≤ lo') (m1 : lo' < hi') (m2 : hi' ≤ 1)
    (hf : ∀ x, f x = curveAt l.ip.pline k (lo + (hi - lo) * x)) (hg : ∀ x, g x = curveAt m.ip.pline k' (lo' + (hi' - lo') * x))
    (kf : ∀ x, 0 ≤ x → x ≤ 1 → ∀ jp ∈ inputs, Keeps jp.pline |d| (f x)) (kg : ∀ x, 0 ≤ x → x ≤ 1 → ∀ jp ∈ inputs, Keeps jp.pline |d| (g x))
    (hno : ∀ t, 0 < t → t < 1 → (k, t) ∉ C i → (∀ jp ∈ inputs, Keeps jp.pline |d| (curveAt l.ip.pline k t)) →
      ¬ ((∃ x, 0 ≤ x ∧ x ≤ 1 ∧ f x = curveAt l.ip.pline k t) ∧ ∃ x, 0 ≤ x ∧ x ≤ 1 ∧ g x = curveAt l.ip.pline k t))
    {t u : ℝ} (t0 : 0 ≤ t) (t1 : t < 1) (u0 : 0 ≤ u) (u1 : u < 1) : f t ≠ g u := by
  intro heq
  have hw : 0 < hi - lo := by linarith
  have hw' : 0 < hi' - lo' := by linarith
  have a0 : 0 ≤ lo + (hi - lo) * t := by nlinarith
  have a1 : lo + (hi - lo) * t < hi := by nlinarith
  have b0 : 0 ≤ lo' + (hi' - lo') * u := by nlinarith
  have b1 : lo' + (hi' - lo') * u < hi' := by nlinarith
  have a2 : lo ≤ lo + (hi - lo) * t := by nlinarith
  have b2 : lo' ≤ lo' + (hi' - lo') * u := by nlinarith
  have inf : ∀ s, lo ≤ s → s ≤ hi → ∃ x, 0 ≤ x ∧ x ≤ 1 ∧ f x = curveAt l.ip.pline k s := fun s s0 s1 =>
    ⟨(s - lo) / (hi - lo), div_nonneg (by linarith) hw.le, (div_le_one hw).mpr (by linarith), by rw [hf]; congr 1; field_simp; ring⟩
  have ing : ∀ s, lo' ≤ s → s ≤ hi' → ∃ x, 0 ≤ x ∧ x ≤ 1 ∧ g x = curveAt m.ip.pline k' s := fun s s0 s1 =>
    ⟨(s - lo') / (hi' - lo'), div_nonneg (by linarith) hw'.le, (div_le_one hw').mpr (by linarith), by rw [hg]; congr 1; field_simp; ring⟩
  have keepf : ∀ s, lo ≤ s → s ≤ hi → ∀ jp ∈ inputs, Keeps jp.pline |d| (curveAt l.ip.pline k s) := fun s s0 s1 => by
    obtain ⟨x, x0, x1, e⟩ := inf s s0 s1
    rw [← e]
    exact kf x x0 x1
  have keepg : ∀ s, lo' ≤ s → s ≤ hi' → ∀ jp ∈ inputs, Keeps jp.pline |d| (curveAt m.ip.pline k' s) := fun s s0 s1 => by
    obtain ⟨x, x0, x1, e⟩ := ing s s0 s1
    rw [← e]
    exact kg x x0 x1
  rw [hf, hg] at heq
  by_cases hij : i = j
  · subst hij
    rw [hi1] at hj1
    cases hj1
    obtain ⟨rfl, e⟩ := h.hls l (List.mem_of_getElem? hi1) k k' hk1 hk1' _ _ a0 (by linarith) b0 (by linarith) heq
    obtain ⟨s, s0, s1, hs⟩ := free_cut (C i) k (lt_min a1 (by rw [e]; exact b1 : lo + (hi - lo) * t < hi'))
    obtain ⟨s1, s2⟩ := lt_min_iff.mp s1
    exact hno s (by linarith) (by linarith) hs (keepf s (by linarith) (by linarith)) ⟨inf s (by linarith) (by linarith), ing s (by linarith) (by linarith)⟩
  · have onl : OnPline l.ip.pline (curveAt l.ip.pline k (lo + (hi - lo) * t)) := (loop_on (h.hf l (List.mem_of_getElem? hi1)) _).mpr ⟨k, _, hk1, a0, by linarith, rfl⟩
    have onm : OnPline m.ip.pline (curveAt m.ip.pline k' (lo' + (hi' - lo') * u)) := (loop_on (h.hf m (List.mem_of_getElem? hj1)) _).mpr ⟨k', _, hk1', b0, by linarith, rfl⟩
    have c1 := h.hC.all i l hi1 j m hj1 (Ne.symm hij) k _ hk1 a0 (by linarith) (heq ▸ onm)
    have c2 := h.hC.all j m hj1 i l hi1 hij k' _ hk1' b0 (by linarith) (heq ▸ onl)
    exact h.one_onward hi1 hj1 hij c1 c2 heq ⟨hi - (lo + (hi - lo) * t), by linarith, fun s s0 s1 => keepf _ (by dsimp only; linarith) (by dsimp only; linarith)⟩
      ⟨hi' - (lo' + (hi' - lo') * u), by linarith, fun s s0 s1 => keepg _ (by dsimp only; linarith) (by dsimp only; linarith)⟩

/-- the results touch neither themselves nor each other -/
theorem BesideAll.simple {RS : List (Pline ℝ)} (hl : ∀ r ∈ RS, r.closed = true ∧ 2 ≤ r.verts.length) (hk : ∀ r ∈ RS, ∀ X, OnPline r X → ∀ jp ∈ inputs, Keeps jp.pline |d| X)
    (hparts : ∀ r ∈ RS, ∀ s ∈ r.segs, ∃ (i : Nat) (l : OffsetLoop ℝ) (k : Nat) (lo hi : ℝ), loops[i]? = some l ∧ k < l.ip.pline.verts.length ∧ 0 ≤ lo ∧ lo < hi ∧ hi ≤ 1 ∧
      ∀ x, segCurve s.1 s.2 x = curveAt l.ip.pline k (lo + (hi - lo) * x))
    (hpass : ∀ (i : Nat) (l : OffsetLoop ℝ), loops[i]? = some l → ∀ k t, k < l.ip.pline.verts.length → 0 < t → t < 1 → (k, t) ∉ C i →
      KeepsOthers inputs |d| l.parent (curveAt l.ip.pline k t) →
      (∀ j u, j < l.ip.pline.verts.length → 0 ≤ u → u ≤ 1 → curveAt l.ip.pline j u = curveAt l.ip.pline k t → j = k ∧ u = t) →
      ∃ L1 e L2, (RS.flatMap fun r => r.segs.map strip).Perm (L1 ++ e :: L2) ∧
        (∀ e' ∈ L1 ++ L2, ((curveAt l.ip.pline k t).x, (curveAt l.ip.pline k t).y) ∉ segTrace e') ∧
        ∃ lo hi, lo < t ∧ t < hi ∧ ∀ s, segCurve e.1 e.2 s = curveAt l.ip.pline k (lo + (hi - lo) * s)) :
    (∀ r ∈ RS, SimpleLoop r) ∧ RS.Pairwise fun r r' => ∀ X, OnPline r X → ¬ OnPline r' X := by
  refine simple_of_segs hl ?_ ?_
  · intro r hr s hs t u t0 t1 u0 u1 e
    obtain ⟨i, l, k, lo, hi, h1, h2, h3, h4, h5, h6⟩ := hparts r hr s hs
    rw [h6, h6] at e
    have := (h.hls l (List.mem_of_getElem? h1) k k h2 h2 _ _ (by nlinarith) (by nlinarith) (by nlinarith) (by nlinarith) e).2
    have h7 : (hi - lo) * (t - u) = 0 := by linarith
    rcases mul_eq_zero.mp h7 with h7 | h7 <;> linarith
  · rw [List.pairwise_iff_getElem]
    intro x y hx hy hxy t u t0 t1 u0 u1
    obtain ⟨r, hr, hs⟩ := List.mem_flatMap.mp (List.getElem_mem hx)
    obtain ⟨r', hr', hs'⟩ := List.mem_flatMap.mp (List.getElem_mem hy)
    obtain ⟨i, l, k, lo, hi, h1, h2, h3, h4, h5, h6⟩ := hparts r hr _ hs
    obtain ⟨j, m, k', lo', hi', g1, g2, g3, g4, g5, g6⟩ := hparts r' hr' _ hs'
    refine h.parts_apart h1 g1 h2 g2 h3 h4 h5 g3 g4 g5 h6 g6 (fun z z0 z1 => hk r hr _ ⟨_, hs, z, z0, z1, rfl⟩) (fun z z0 z1 => hk r' hr' _ ⟨_, hs', z, z0, z1, rfl⟩) ?_ t0 t1 u0 u1
    rintro q q0 q1 hc hkp ⟨⟨z, z0, z1, ez⟩, z', z0', z1', ez'⟩
    obtain ⟨L1, e, L2, hp, ho, -⟩ := hpass i l h1 k q h2 q0 q1 hc (fun j' ip hj' _ => hkp ip (List.mem_of_getElem? hj')) (simple_once (h.num h1) (h.hls l (List.mem_of_getElem? h1)) h2 q0 q1)
    have hpw : (RS.flatMap fun r => r.segs.map strip).Pairwise fun a b =>
        ¬ (((curveAt l.ip.pline k q).x, (curveAt l.ip.pline k q).y) ∈ segTrace a ∧ ((curveAt l.ip.pline k q).x, (curveAt l.ip.pline k q).y) ∈ segTrace b) := by
      refine (hp.pairwise_iff ?_).mpr ?_
      · rintro a b h ⟨h1, h2⟩
        exact h ⟨h2, h1⟩
      · rw [List.pairwise_append, List.pairwise_cons]
        refine ⟨?_, ⟨fun b hb h => ho b (List.mem_append_right _ hb) h.2, ?_⟩, fun a ha b _ h => ho a (List.mem_append_left _ ha) h.1⟩
        · exact List.Pairwise.imp_of_mem (R := fun _ _ => True) (fun {a b} ha hb _ h => ho a (List.mem_append_left _ ha) h.1) (List.pairwise_of_forall (fun _ _ => trivial))
        · exact List.Pairwise.imp_of_mem (R := fun _ _ => True) (fun {a b} ha hb _ h => ho a (List.mem_append_right _ ha) h.1) (List.pairwise_of_forall (fun _ _ => trivial))
    have e0 : (RS.flatMap fun r => r.segs.map strip) = (RS.flatMap Pline.segs).map strip := by rw [List.map_flatMap]
    rw [e0, List.pairwise_map] at hpw
    refine List.pairwise_iff_getElem.mp hpw x y hx hy hxy ⟨?_, ?_⟩
    · rw [strip_trace]
      exact ⟨z, z0, z1, by rw [ez]⟩
    · rw [strip_trace]
      exact ⟨z', z0', z1', by rw [ez']⟩

end

end Cavc
