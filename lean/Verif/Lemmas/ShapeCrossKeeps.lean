import Verif.Lemmas.ShapeCross

/-! # The distance is given up and regained at the cuts of the offset loops of a shape -/

set_option linter.unusedVariables false
set_option linter.unusedSectionVars false

namespace Cavc
open RealScalar Pline Filter Topology

/-- What is known of a shape and of the offset loops of its polylines: the hypotheses of C74 apart from the tests and the changes at the cuts. -/
structure BesideAll (inputs : List (IndexedPline ℝ)) (loops : List (OffsetLoop ℝ)) (d eps gap : ℝ) (C : Nat → List Cut) (σ : Nat → ℤ) (a : ℤ) : Prop where
  he : 0 < eps
  hd : d ≠ 0
  hin : ∀ ip ∈ inputs, Loop ip.pline
  hsim : ∀ ip ∈ inputs, SimpleLoop ip.pline
  hdis : ∀ (i j : Nat) (ip jp : IndexedPline ℝ), inputs[i]? = some ip → inputs[j]? = some jp → i ≠ j → ∀ X, OnPline ip.pline X → ¬ OnPline jp.pline X
  htwo : ∀ X, (∀ ip ∈ inputs, ¬ OnPline ip.pline X) → allW (inputs.map IndexedPline.pline) X = a ∨ allW (inputs.map IndexedPline.pline) X = a + 1
  hσ : ∀ (j : Nat) (ip : IndexedPline ℝ), inputs[j]? = some ip → TurnsLike ip.pline (σ j)
  hal : ∀ (j : Nat) (ip : IndexedPline ℝ), inputs[j]? = some ip → Alongside ip.pline d (σ j) (loopsOf loops j)
  hpar : ∀ l ∈ loops, l.parent < inputs.length
  hf : ∀ l ∈ loops, FullLoop l.ip.pline eps
  hls : ∀ l ∈ loops, SimpleLoop l.ip.pline
  hC : ShapeCuts loops eps gap C
  hX : ShapeCross loops C

section
variable {inputs : List (IndexedPline ℝ)} {loops : List (OffsetLoop ℝ)} {d eps gap : ℝ} {C : Nat → List Cut} {σ : Nat → ℤ} {a : ℤ}
  (h : BesideAll inputs loops d eps gap C σ a)
include h

theorem BesideAll.num {i : Nat} {l : OffsetLoop ℝ} (hi : loops[i]? = some l) : 0 < l.ip.pline.verts.length := by
  have := (h.hf l (List.mem_of_getElem? hi)).two
  omega

/-- a point of an offset loop that keeps the distance from the other polylines -/
theorem BesideAll.all {l : OffsetLoop ℝ} (hl : l ∈ loops) {X : V2 ℝ} (hon : OnPline l.ip.pline X) (hk : KeepsOthers inputs |d| l.parent X) : ∀ jp ∈ inputs, Keeps jp.pline |d| X := by
  have hip := List.getElem?_eq_getElem (h.hpar l hl)
  obtain ⟨h1, -, -⟩ := ((h.hal _ _ hip).points X).mp ⟨_, loopsOf_mem hl rfl, hon⟩
  intro jp hjp
  obtain ⟨i, hi, rfl⟩ := List.getElem_of_mem hjp
  by_cases e : i = l.parent
  · subst e; exact h1
  · exact hk i _ (List.getElem?_eq_getElem hi) e

/-- if it is at the distance from another polyline, it is on an offset loop of that one -/
theorem BesideAll.also {l : OffsetLoop ℝ} (hl : l ∈ loops) {X : V2 ℝ} (hon : OnPline l.ip.pline X) (hk : ∀ jp ∈ inputs, Keeps jp.pline |d| X) {j : Nat} {ip : IndexedPline ℝ}
    (hj : inputs[j]? = some ip) {F : V2 ℝ} (hF : OnPline ip.pline F) (e : edist X F = |d|) : ∃ m ∈ loops, m.parent = j ∧ OnPline m.ip.pline X := by
  have hip := List.getElem?_eq_getElem (h.hpar l hl)
  obtain ⟨-, ⟨G, hG, eG⟩, hw⟩ := ((h.hal _ _ hip).points X).mp ⟨_, loopsOf_mem hl rfl, hon⟩
  have e1 := beside_sum h.hin h.hsim h.hdis h.htwo h.hd hip (h.hσ _ _ hip) hk hG eG
  have e2 := beside_sum h.hin h.hsim h.hdis h.htwo h.hd hj (h.hσ _ _ hj) hk hF e
  obtain ⟨r, hr, hr'⟩ := ((h.hal j ip hj).points X).mpr ⟨hk _ (List.mem_of_getElem? hj), ⟨F, hF, e⟩, by omega⟩
  obtain ⟨m, hm, hp, rfl⟩ := mem_loopsOf hr
  exact ⟨m, hm, hp, hr'⟩

/-- near a point that is further away than `r` from some of the polylines, the distance from these is kept -/
theorem BesideAll.nearby {r : ℝ} {X : V2 ℝ} {S : Nat → Prop} (hS : ∀ (j : Nat) (ip : IndexedPline ℝ), inputs[j]? = some ip → S j → r < dn ip.pline X) :
    ∀ᶠ z : ℝ × ℝ in 𝓝 (X.x, X.y), ∀ (j : Nat) (ip : IndexedPline ℝ), inputs[j]? = some ip → S j → Keeps ip.pline r ⟨z.1, z.2⟩ := by
  have : ∀ᶠ z : ℝ × ℝ in 𝓝 (X.x, X.y), ∀ j ∈ {j | j ∈ List.range inputs.length}, ∀ (ip : IndexedPline ℝ), inputs[j]? = some ip → S j → Keeps ip.pline r ⟨z.1, z.2⟩ := by
    refine (eventually_all_finite (List.finite_toSet _)).mpr fun j hj => ?_
    have hj := List.mem_range.mp hj
    have e := List.getElem?_eq_getElem hj
    by_cases hs : S j
    · have hl := h.hin _ (List.getElem_mem hj)
      filter_upwards [(dn_cont hl).continuousAt.eventually_const_lt (hS j _ e hs)] with z hz ip hip _
      rw [e] at hip
      injection hip with hip
      subst hip
      exact (keeps_dn hl).mpr hz.le
    · exact Eventually.of_forall fun z ip _ h' => absurd h' hs
  filter_upwards [this] with z hz j ip hj
  exact hz j (List.mem_range.mpr (List.getElem?_eq_some_iff.mp hj).1) ip hj

theorem BesideAll.curve_cont {i : Nat} {l : OffsetLoop ℝ} (hi : loops[i]? = some l) (k : Nat) : Continuous fun t => ((curveAt l.ip.pline k t).x, (curveAt l.ip.pline k t).y) := by
  have hn := h.num hi
  simp only [curveAt_vtx hn]
  exact segCurve_continuous _ _

theorem BesideAll.steady (i : Nat) (l : OffsetLoop ℝ) (hi : loops[i]? = some l) (k : Nat) (t : ℝ) (hk : k < l.ip.pline.verts.length) (t0 : 0 ≤ t) (t1 : t ≤ 1) (hnc : (k, t) ∉ C i)
    (hko : KeepsOthers inputs |d| l.parent (curveAt l.ip.pline k t)) :
    ∃ δ > 0, ∀ t', 0 ≤ t' → t' ≤ 1 → |t' - t| < δ → KeepsOthers inputs |d| l.parent (curveAt l.ip.pline k t') := by
  have hl := List.mem_of_getElem? hi
  have hon : OnPline l.ip.pline (curveAt l.ip.pline k t) := (loop_on (h.hf l hl) _).mpr ⟨k, t, hk, t0, t1, rfl⟩
  have hka := h.all hl hon hko
  have hnear := h.nearby (r := |d|) (X := curveAt l.ip.pline k t) (S := fun j => j ≠ l.parent) fun j ip hj hne => by
    have hip := List.mem_of_getElem? hj
    refine lt_of_le_of_ne ((keeps_dn (h.hin ip hip)).mp (hka ip hip)) fun e => ?_
    obtain ⟨F, hF, eF⟩ := dn_foot (h.hin ip hip) (curveAt l.ip.pline k t)
    obtain ⟨m, hm, hp, honm⟩ := h.also hl hon hka hj hF (by rw [eF, ← e])
    obtain ⟨j', hj', rfl⟩ := List.getElem_of_mem hm
    refine hnc (h.hC.all i l hi j' _ (List.getElem?_eq_getElem hj') ?_ k t hk t0 t1 honm)
    rintro rfl
    rw [List.getElem?_eq_getElem hj'] at hi
    injection hi with hi
    rw [← hi] at hne
    exact hne hp.symm
  obtain ⟨δ, hδ, hb⟩ := Metric.eventually_nhds_iff.mp (((h.curve_cont hi k).tendsto t).eventually hnear)
  exact ⟨δ, hδ, fun t' _ _ ht' j ip hj hne => hb (by rw [Real.dist_eq]; exact ht') j ip hj hne⟩

/-- the other offset loop at a cut -/
theorem BesideAll.partner {i : Nat} {l : OffsetLoop ℝ} (hi : loops[i]? = some l) {c : Cut} (hc : c ∈ C i) : ∃ (j : Nat) (m : OffsetLoop ℝ) (c' : Cut), j ≠ i ∧
    loops[j]? = some m ∧ c' ∈ C j ∧ curveAt m.ip.pline c'.1 c'.2 = curveAt l.ip.pline c.1 c.2 := by
  obtain ⟨j, m, hne, hj, hon⟩ := h.hC.on i l hi c hc
  obtain ⟨k, t, hk, t0, t1, e⟩ := (loop_on (h.hf m (List.mem_of_getElem? hj)) _).mp hon
  have hr := h.hC.range i l hi c hc
  have hok := h.hC.ok i l hi c hc
  refine ⟨j, m, (k, t), hne, hj, h.hC.all j m hj i l hi hne.symm k t hk t0 t1 ?_, e.symm⟩
  rw [← e]
  exact (loop_on (h.hf l (List.mem_of_getElem? hi)) _).mpr ⟨c.1, c.2, hr, hok.pos.le, hok.lt.le, rfl⟩

theorem BesideAll.cut_on {i : Nat} {l : OffsetLoop ℝ} (hi : loops[i]? = some l) {c : Cut} (hc : c ∈ C i) : OnPline l.ip.pline (curveAt l.ip.pline c.1 c.2) := by
  have hok := h.hC.ok i l hi c hc
  exact (loop_on (h.hf l (List.mem_of_getElem? hi)) _).mpr ⟨c.1, c.2, h.hC.range i l hi c hc, hok.pos.le, hok.lt.le, rfl⟩

/-- offset loops of one polyline do not cross at an angle -/
theorem BesideAll.parents {i j : Nat} {l m : OffsetLoop ℝ} (hi : loops[i]? = some l) (hj : loops[j]? = some m) (hne : j ≠ i) {c c' : Cut} (hc : c ∈ C i) (hc' : c' ∈ C j)
    (e : curveAt m.ip.pline c'.1 c'.2 = curveAt l.ip.pline c.1 c.2) : m.parent ≠ l.parent := by
  intro hp
  have hl := List.mem_of_getElem? hi
  have hm := List.mem_of_getElem? hj
  have hip := List.getElem?_eq_getElem (h.hpar l hl)
  have hok := h.hC.ok i l hi c hc
  have hok' := h.hC.ok j m hj c' hc'
  obtain ⟨F, a1, b1, μ, hF, eF, dx, dy, hμ, ex, ey⟩ := (h.hal _ _ hip).along _ (loopsOf_mem hl rfl) c.1 c.2 (h.hC.range i l hi c hc) hok.pos hok.lt
  obtain ⟨-, a2, b2, -, -, -, dx', dy', -⟩ := (h.hal _ _ hip).along _ (loopsOf_mem hm hp) c'.1 c'.2 (h.hC.range j m hj c' hc') hok'.pos hok'.lt
  have hang := h.hX.angle i j l m hi hj hne.symm c hc c' hc' e.symm _ _ _ _ dx dy dx' dy'
  have hder : HasDerivAt (fun s => ((curveAt m.ip.pline c'.1 s).x - F.x) ^ 2 + ((curveAt m.ip.pline c'.1 s).y - F.y) ^ 2)
      (2 * ((curveAt m.ip.pline c'.1 c'.2).x - F.x) * a2 + 2 * ((curveAt m.ip.pline c'.1 c'.2).y - F.y) * b2) c'.2 :=
    (((dx'.sub_const F.x).pow 2).add ((dy'.sub_const F.y).pow 2)).congr_deriv (by norm_num)
  have hsq : ∀ X : V2 ℝ, edist X F ^ 2 = (X.x - F.x) ^ 2 + (X.y - F.y) ^ 2 := fun X => by
    unfold edist
    rw [Real.sq_sqrt (by positivity)]
  have hmin : IsLocalMin (fun s => ((curveAt m.ip.pline c'.1 s).x - F.x) ^ 2 + ((curveAt m.ip.pline c'.1 s).y - F.y) ^ 2) c'.2 := by
    filter_upwards [Ioo_mem_nhds hok'.pos hok'.lt] with s hs
    rw [← hsq, ← hsq, e, eF]
    have hon : OnPline m.ip.pline (curveAt m.ip.pline c'.1 s) := (loop_on (h.hf m hm) _).mpr ⟨c'.1, s, h.hC.range j m hj c' hc', hs.1.le, hs.2.le, rfl⟩
    have := (((h.hal _ _ hip).points _).mp ⟨_, loopsOf_mem hm hp, hon⟩).1 F hF
    exact pow_le_pow_left₀ (abs_nonneg d) this 2
  have hz := hmin.hasDerivAt_eq_zero hder
  rw [e, ex, ey] at hz
  have : μ * d * (a1 * b2 - b1 * a2) = 0 := by linear_combination hz / 2
  rcases mul_eq_zero.mp this with h0 | h0
  · rcases mul_eq_zero.mp h0 with h0 | h0
    · exact hμ.ne' h0
    · exact h.hd h0
  · exact hang h0

/-- At a cut whose point keeps the distance from all polylines: after it the one loop keeps the distance if the other does before it, and the other way round. -/
theorem BesideAll.at_cut {i j : Nat} {l m : OffsetLoop ℝ} (hi : loops[i]? = some l) (hj : loops[j]? = some m) (hne : j ≠ i) {c c' : Cut} (hc : c ∈ C i) (hc' : c' ∈ C j)
    (e : curveAt m.ip.pline c'.1 c'.2 = curveAt l.ip.pline c.1 c.2) (hk : ∀ jp ∈ inputs, Keeps jp.pline |d| (curveAt l.ip.pline c.1 c.2)) :
    ∃ χ : ℝ, χ ≠ 0 ∧ (PassKept inputs loops |d| 1 (i, c) ↔ (0 < d ↔ 0 < χ)) ∧ (PassKept inputs loops |d| (-1) (i, c) ↔ (0 < d ↔ χ < 0)) ∧
      (PassKept inputs loops |d| 1 (j, c') ↔ (0 < d ↔ χ < 0)) ∧ (PassKept inputs loops |d| (-1) (j, c') ↔ (0 < d ↔ 0 < χ)) := by
  -- one of the two loops
  have key : ∀ {i j : Nat} {l m : OffsetLoop ℝ} (hi : loops[i]? = some l) (hj : loops[j]? = some m) (hne : j ≠ i) {c c' : Cut} (hc : c ∈ C i) (hc' : c' ∈ C j)
      (e : curveAt m.ip.pline c'.1 c'.2 = curveAt l.ip.pline c.1 c.2) (hk : ∀ jp ∈ inputs, Keeps jp.pline |d| (curveAt l.ip.pline c.1 c.2)) {a1 b1 a2 b2 : ℝ}
      (dx : HasDerivAt (fun s => (curveAt l.ip.pline c.1 s).x) a1 c.2) (dy : HasDerivAt (fun s => (curveAt l.ip.pline c.1 s).y) b1 c.2)
      (dx' : HasDerivAt (fun s => (curveAt m.ip.pline c'.1 s).x) a2 c'.2) (dy' : HasDerivAt (fun s => (curveAt m.ip.pline c'.1 s).y) b2 c'.2),
      (PassKept inputs loops |d| 1 (i, c) ↔ (0 < d ↔ 0 < a2 * b1 - b2 * a1)) ∧ (PassKept inputs loops |d| (-1) (i, c) ↔ (0 < d ↔ a2 * b1 - b2 * a1 < 0)) := by
    intro i j l m hi hj hne c c' hc hc' e hk a1 b1 a2 b2 dx dy dx' dy'
    have hl := List.mem_of_getElem? hi
    have hm := List.mem_of_getElem? hj
    have hip := List.getElem?_eq_getElem (h.hpar m hm)
    have hmem := List.mem_of_getElem? hip
    have hok' := h.hC.ok j m hj c' hc'
    have hang := h.hX.angle i j l m hi hj hne.symm c hc c' hc' e.symm _ _ _ _ dx dy dx' dy'
    have hpne := h.parents hi hj hne hc hc' e
    have hthird : ∀ (n : Nat) (q : OffsetLoop ℝ), loops[n]? = some q → n ≠ i → n ≠ j → ¬ OnPline q.ip.pline (curveAt l.ip.pline c.1 c.2) := fun n q hn h1 h2 =>
      h.hX.pair i j n l m q hi hj hn hne.symm h1.symm h2.symm _ (h.cut_on hi hc) (e ▸ h.cut_on hj hc')
    obtain ⟨k1, k2⟩ := cross_sides h.he h.hd (h.hin _ hmem) (h.hsim _ hmem) hj (h.hσ _ _ hip) (h.hal _ _ hip) h.hf h.hls h.hC (h.hC.range j m hj c' hc') hok'.pos hok'.lt
      (fun n q hn hq hqp hon => by
        by_cases hni : n = i
        · subst hni
          rw [hi] at hq
          injection hq with hq
          rw [← hq] at hqp
          exact hpne hqp.symm
        · exact hthird n q hq hni hn (e ▸ hon)) (γ := curveAt l.ip.pline c.1) (τ := c.2) e.symm dx dy dx' dy' (by intro h0; apply hang; linarith)
    have hnear := h.nearby (r := |d|) (X := curveAt l.ip.pline c.1 c.2) (S := fun n => n ≠ l.parent ∧ n ≠ m.parent) fun n ip hn hne' => by
      have hip' := List.mem_of_getElem? hn
      refine lt_of_le_of_ne ((keeps_dn (h.hin ip hip')).mp (hk ip hip')) fun e' => ?_
      obtain ⟨F, hF, eF⟩ := dn_foot (h.hin ip hip') (curveAt l.ip.pline c.1 c.2)
      obtain ⟨q, hq, hp, honq⟩ := h.also hl (h.cut_on hi hc) hk hn hF (by rw [eF, ← e'])
      obtain ⟨x, hx, rfl⟩ := List.getElem_of_mem hq
      have hx' := List.getElem?_eq_getElem hx
      refine hthird x _ hx' ?_ ?_ honq
      · rintro rfl
        rw [hx'] at hi
        injection hi with hi
        rw [hi] at hp
        exact hne'.1 hp.symm
      · rintro rfl
        rw [hx'] at hj
        injection hj with hj
        rw [hj] at hp
        exact hne'.2 hp.symm
    have hcont := (h.curve_cont hi c.1).tendsto c.2
    have hnear' := hcont.eventually hnear
    -- keeping the distance from all others is keeping it from the parent of the other loop
    have hiff : ∀ u, (∀ (n : Nat) (ip : IndexedPline ℝ), inputs[n]? = some ip → (n ≠ l.parent ∧ n ≠ m.parent) → Keeps ip.pline |d| (curveAt l.ip.pline c.1 u)) →
        (KeepsOthers inputs |d| l.parent (curveAt l.ip.pline c.1 u) ↔ Keeps (inputs[m.parent]'(h.hpar m hm)).pline |d| (curveAt l.ip.pline c.1 u)) := by
      intro u hu
      constructor
      · intro hko
        exact hko m.parent _ hip hpne
      · intro hkm n ip hn hnl
        by_cases hnm : n = m.parent
        · subst hnm
          rw [hip] at hn
          injection hn with hn
          rw [← hn]
          exact hkm
        · exact hu n ip hn ⟨hnl, hnm⟩
    have one : ∀ (ς : ℝ) (hς : ς = 1 ∨ ς = -1) (R : Prop), (∀ᶠ u in (if ς = 1 then 𝓝[>] c.2 else 𝓝[<] c.2), (Keeps (inputs[m.parent]'(h.hpar m hm)).pline |d| (curveAt l.ip.pline c.1 u) ↔ R)) →
        (PassKept inputs loops |d| ς (i, c) ↔ R) := by
      intro ς hς R hR
      have htend : Tendsto (fun s : ℝ => c.2 + ς * s) (𝓝[>] 0) (if ς = 1 then 𝓝[>] c.2 else 𝓝[<] c.2) := by
        rcases hς with rfl | rfl
        · rw [if_pos rfl]
          refine tendsto_nhdsWithin_of_tendsto_nhds_of_eventually_within _ ?_ ?_
          · have : ContinuousAt (fun s : ℝ => c.2 + 1 * s) 0 := by fun_prop
            have h := this.tendsto.mono_left (nhdsWithin_le_nhds (s := Set.Ioi (0 : ℝ)))
            simpa using h
          · filter_upwards [self_mem_nhdsWithin] with s hs
            have : (0 : ℝ) < s := hs
            show c.2 < c.2 + 1 * s
            linarith
        · rw [if_neg (by norm_num)]
          refine tendsto_nhdsWithin_of_tendsto_nhds_of_eventually_within _ ?_ ?_
          · have : ContinuousAt (fun s : ℝ => c.2 + -1 * s) 0 := by fun_prop
            have h := this.tendsto.mono_left (nhdsWithin_le_nhds (s := Set.Ioi (0 : ℝ)))
            simpa using h
          · filter_upwards [self_mem_nhdsWithin] with s hs
            have : (0 : ℝ) < s := hs
            show c.2 + -1 * s < c.2
            linarith
      have hle : (if ς = 1 then 𝓝[>] c.2 else 𝓝[<] c.2) ≤ 𝓝 c.2 := by split_ifs <;> exact nhdsWithin_le_nhds
      have hev : ∀ᶠ s in 𝓝[>] (0 : ℝ), (KeepsOthers inputs |d| l.parent (curveAt l.ip.pline c.1 (c.2 + ς * s)) ↔ R) := by
        refine htend.eventually (p := fun u => KeepsOthers inputs |d| l.parent (curveAt l.ip.pline c.1 u) ↔ R) ?_
        filter_upwards [hR, hnear'.filter_mono hle] with u hu hn
        rw [hiff u hn, hu]
      constructor
      · rintro ⟨l', hl', δ, hδ, hs⟩
        change loops[i]? = some l' at hl'
        rw [hi] at hl'
        injection hl' with hl'
        subst hl'
        obtain ⟨s, hs1, hs2, hs3⟩ := (hev.and (Ioo_mem_nhdsGT hδ)).exists
        exact hs1.mp (hs s hs2 hs3)
      · intro hr
        obtain ⟨δ, hδ, hs⟩ := mem_nhdsGT_iff_exists_Ioo_subset.mp hev
        exact ⟨l, hi, δ, hδ, fun s s0 s1 => (hs ⟨s0, s1⟩ : _ ↔ R).mpr hr⟩
    exact ⟨one 1 (Or.inl rfl) _ (by rw [if_pos rfl]; exact k1), one (-1) (Or.inr rfl) _ (by rw [if_neg (by norm_num)]; exact k2)⟩
  have hl := List.mem_of_getElem? hi
  have hm := List.mem_of_getElem? hj
  have hok := h.hC.ok i l hi c hc
  have hok' := h.hC.ok j m hj c' hc'
  obtain ⟨-, a1, b1, -, -, -, dx, dy, -⟩ := (h.hal _ _ (List.getElem?_eq_getElem (h.hpar l hl))).along _ (loopsOf_mem hl rfl) c.1 c.2 (h.hC.range i l hi c hc) hok.pos hok.lt
  obtain ⟨-, a2, b2, -, -, -, dx', dy', -⟩ := (h.hal _ _ (List.getElem?_eq_getElem (h.hpar m hm))).along _ (loopsOf_mem hm rfl) c'.1 c'.2 (h.hC.range j m hj c' hc') hok'.pos hok'.lt
  have hang := h.hX.angle i j l m hi hj hne.symm c hc c' hc' e.symm _ _ _ _ dx dy dx' dy'
  obtain ⟨k1, k2⟩ := key hi hj hne hc hc' e hk dx dy dx' dy'
  obtain ⟨k3, k4⟩ := key hj hi hne.symm hc' hc e.symm (by rw [e]; exact hk) dx' dy' dx dy
  have r1 : 0 < a1 * b2 - b1 * a2 ↔ a2 * b1 - b2 * a1 < 0 := by constructor <;> intro <;> linarith
  have r2 : a1 * b2 - b1 * a2 < 0 ↔ 0 < a2 * b1 - b2 * a1 := by constructor <;> intro <;> linarith
  rw [r1] at k3
  rw [r2] at k4
  exact ⟨a2 * b1 - b2 * a1, by intro h0; apply hang; linarith, k1, k2, k3, k4⟩

/-- where a loop keeps the distance next to a cut, the point of the cut keeps it from all polylines -/
theorem BesideAll.closed {i : Nat} {c : Cut} (hc : c ∈ C i) {ς : ℝ} (hp : PassKept inputs loops |d| ς (i, c)) :
    ∃ l, loops[i]? = some l ∧ ∀ jp ∈ inputs, Keeps jp.pline |d| (curveAt l.ip.pline c.1 c.2) := by
  obtain ⟨l, hi, δ, hδ, hs⟩ := hp
  change loops[i]? = some l at hi
  refine ⟨l, hi, h.all (List.mem_of_getElem? hi) (h.cut_on hi hc) fun j ip hj hne => ?_⟩
  have hl := h.hin ip (List.mem_of_getElem? hj)
  rw [keeps_dn hl]
  have hcont : ContinuousAt (fun s : ℝ => dn ip.pline (curveAt l.ip.pline c.1 (c.2 + ς * s))) 0 := by
    have h1 : Continuous fun s : ℝ => c.2 + ς * s := by fun_prop
    exact ((dn_cont hl).comp ((h.curve_cont hi c.1).comp h1)).continuousAt
  have ht := hcont.tendsto.mono_left (nhdsWithin_le_nhds (s := Set.Ioi (0 : ℝ)))
  rw [mul_zero, add_zero] at ht
  refine ge_of_tendsto ht ?_
  filter_upwards [Ioo_mem_nhdsGT hδ] with s hs'
  exact (keeps_dn hl).mp (hs s hs'.1 hs'.2 j ip hj hne)

theorem mem_passes {x : Nat × Cut} : x ∈ passes loops C ↔ x.1 < loops.length ∧ x.2 ∈ C x.1 := by
  unfold passes
  rw [List.mem_flatMap]
  constructor
  · rintro ⟨i, hi, hx⟩
    obtain ⟨c, hc, rfl⟩ := List.mem_map.mp hx
    exact ⟨List.mem_range.mp hi, hc⟩
  · rintro ⟨h1, h2⟩
    exact ⟨x.1, List.mem_range.mpr h1, List.mem_map.mpr ⟨x.2, h2, rfl⟩⟩

theorem BesideAll.passes_nodup : (passes loops C).Nodup := by
  unfold passes
  rw [List.nodup_flatMap]
  refine ⟨fun i _ => (h.hC.nodup i).map fun a b e => (Prod.mk.injEq _ _ _ _ ▸ e).2, ?_⟩
  refine List.Pairwise.imp ?_ (List.nodup_range (n := loops.length))
  intro i j hij x hx hx'
  obtain ⟨c, -, rfl⟩ := List.mem_map.mp hx
  obtain ⟨c', -, e⟩ := List.mem_map.mp hx'
  exact hij (congrArg Prod.fst e).symm

omit h in
theorem filter_one {α : Type} {l : List α} (hn : l.Nodup) {P : α → Bool} {x : α} (hx : x ∈ l) (hP : P x = true) (hu : ∀ y ∈ l, P y = true → y = x) : (l.filter P).length = 1 := by
  have : (l.filter P).Perm [x] := by
    rw [List.perm_ext_iff_of_nodup (hn.filter P) (List.nodup_singleton x)]
    intro y
    rw [List.mem_filter, List.mem_singleton]
    exact ⟨fun ⟨h1, h2⟩ => hu y h1 h2, fun e => by subst e; exact ⟨hx, hP⟩⟩
  exact this.length_eq

omit h in
theorem iff_not {A B : Prop} (h : A ↔ B) : ¬ (A ↔ ¬ B) := by tauto

omit h in
theorem not_iff' {A B : Prop} : ¬ (A ↔ B) ↔ (A ↔ ¬ B) := by tauto

/-- **The distance from the other polylines is given up and regained at the cuts.** -/
theorem BesideAll.changes : ShapeChanges inputs loops |d| C := by
  classical
  -- the two passes of a point that keeps the distance
  have two : ∀ {i : Nat} {l : OffsetLoop ℝ} {c : Cut}, loops[i]? = some l → c ∈ C i → (∀ jp ∈ inputs, Keeps jp.pline |d| (curveAt l.ip.pline c.1 c.2)) →
      ∃ x ∈ passes loops C, ∃ y ∈ passes loops C, passPt loops x = curveAt l.ip.pline c.1 c.2 ∧ passPt loops y = curveAt l.ip.pline c.1 c.2 ∧
        PassKept inputs loops |d| 1 x ∧ ¬ PassKept inputs loops |d| (-1) x ∧ ¬ PassKept inputs loops |d| 1 y ∧ PassKept inputs loops |d| (-1) y ∧
        ∀ z ∈ passes loops C, passPt loops z = curveAt l.ip.pline c.1 c.2 → z = x ∨ z = y := by
    intro i l c hi hc hk
    obtain ⟨j, m, c', hne, hj, hc', e⟩ := h.partner hi hc
    obtain ⟨χ, hχ, k1, k2, k3, k4⟩ := h.at_cut hi hj hne hc hc' e hk
    have m1 : (i, c) ∈ passes loops C := (mem_passes h).mpr ⟨(List.getElem?_eq_some_iff.mp hi).1, hc⟩
    have m2 : (j, c') ∈ passes loops C := (mem_passes h).mpr ⟨(List.getElem?_eq_some_iff.mp hj).1, hc'⟩
    have p1 : passPt loops (i, c) = curveAt l.ip.pline c.1 c.2 := by simp [passPt, hi]
    have p2 : passPt loops (j, c') = curveAt l.ip.pline c.1 c.2 := by simp [passPt, hj, e]
    have honce : ∀ {n : Nat} {q : OffsetLoop ℝ} {c₁ c₂ : Cut}, loops[n]? = some q → c₁ ∈ C n → c₂ ∈ C n → curveAt q.ip.pline c₁.1 c₁.2 = curveAt q.ip.pline c₂.1 c₂.2 → c₁ = c₂ := by
      intro n q c₁ c₂ hn h1 h2 e
      have o1 := h.hC.ok n q hn c₁ h1
      have o2 := h.hC.ok n q hn c₂ h2
      exact Prod.ext_iff.mpr (h.hls q (List.mem_of_getElem? hn) c₁.1 c₂.1 (h.hC.range n q hn c₁ h1) (h.hC.range n q hn c₂ h2) c₁.2 c₂.2 o1.pos.le o1.lt o2.pos.le o2.lt e)
    have honly : ∀ z ∈ passes loops C, passPt loops z = curveAt l.ip.pline c.1 c.2 → z = (i, c) ∨ z = (j, c') := by
      rintro ⟨n, c₂⟩ hz ez
      obtain ⟨hn, hc2⟩ := (mem_passes h).mp hz
      dsimp only at hn hc2
      have hn' := List.getElem?_eq_getElem hn
      have ez : curveAt loops[n].ip.pline c₂.1 c₂.2 = curveAt l.ip.pline c.1 c.2 := by simpa [passPt, hn'] using ez
      by_cases h1 : n = i
      · subst h1
        rw [hn'] at hi
        injection hi with hi
        subst hi
        rw [honce hn' hc2 hc ez]
        exact Or.inl rfl
      · by_cases h2 : n = j
        · subst h2
          rw [hn'] at hj
          injection hj with hj
          subst hj
          rw [honce hn' hc2 hc' (ez.trans e.symm)]
          exact Or.inr rfl
        · exact absurd (ez ▸ h.cut_on hn' hc2) (h.hX.pair i j n l m _ hi hj hn' hne.symm (Ne.symm h1) (Ne.symm h2) _ (h.cut_on hi hc) (e ▸ h.cut_on hj hc'))
    have hlt : χ < 0 ↔ ¬ 0 < χ := ⟨fun h => by linarith, fun h => lt_of_le_of_ne (not_lt.mp h) hχ⟩
    rw [hlt] at k2 k3
    by_cases hfirst : 0 < d ↔ 0 < χ
    · exact ⟨_, m1, _, m2, p1, p2, k1.mpr hfirst, fun hc => iff_not hfirst (k2.mp hc), fun hc => iff_not hfirst (k3.mp hc), k4.mpr hfirst, honly⟩
    · exact ⟨_, m2, _, m1, p2, p1, k3.mpr (not_iff'.mp hfirst), fun hc => hfirst (k4.mp hc), fun hc => hfirst (k1.mp hc), k2.mpr (not_iff'.mp hfirst),
        fun z hz ez => (honly z hz ez).symm⟩
  refine ⟨h.steady, ?_, ?_⟩
  · intro i l hi c hc hko
    obtain ⟨x, hx, -, -, px, -, hx1, -⟩ := two hi hc (h.all (List.mem_of_getElem? hi) (h.cut_on hi hc) hko)
    exact ⟨x, hx, px, Or.inl hx1⟩
  · intro X
    by_cases hex : ∃ x ∈ passes loops C, passPt loops x = X ∧ (PassKept inputs loops |d| 1 x ∨ PassKept inputs loops |d| (-1) x)
    · obtain ⟨⟨i, c⟩, hx, hpX, hkept⟩ := hex
      have hc := ((mem_passes h).mp hx).2
      obtain ⟨l, hi, hk⟩ : ∃ l, loops[i]? = some l ∧ ∀ jp ∈ inputs, Keeps jp.pline |d| (curveAt l.ip.pline c.1 c.2) := by
        rcases hkept with hp | hp
        · exact h.closed hc hp
        · exact h.closed hc hp
      have hXe : curveAt l.ip.pline c.1 c.2 = X := by rw [← hpX]; simp [passPt, hi]
      obtain ⟨x, hx, y, hy, px, py, x1, x2, y1, y2, honly⟩ := two hi hc hk
      rw [hXe] at px py honly
      rw [filter_one h.passes_nodup hx (by simp [px, x1]) (by
        intro z hz hPz
        simp only [decide_eq_true_eq] at hPz
        rcases honly z hz hPz.1 with rfl | rfl
        · rfl
        · exact absurd hPz.2 y1), filter_one h.passes_nodup hy (by simp [py, y2]) (by
        intro z hz hPz
        simp only [decide_eq_true_eq] at hPz
        rcases honly z hz hPz.1 with rfl | rfl
        · exact absurd hPz.2 x2
        · rfl)]
    · push Not at hex
      have none : ∀ ς : ℝ, (ς = 1 ∨ ς = -1) → ((passes loops C).filter fun x => decide (passPt loops x = X ∧ PassKept inputs loops |d| ς x)).length = 0 := by
        intro ς hς
        rw [List.length_eq_zero_iff, List.filter_eq_nil_iff]
        intro x hx
        simp only [decide_eq_true_eq]
        rintro ⟨px, kx⟩
        rcases hς with rfl | rfl
        · exact (hex x hx px).1 kx
        · exact (hex x hx px).2 kx
      have e1 := none 1 (Or.inl rfl)
      have e2 := none (-1) (Or.inr rfl)
      convert e1.trans e2.symm

end

end Cavc
