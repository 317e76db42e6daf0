import Verif.Spec.ShapeRegion
import Verif.Lemmas.ShapeRegion
import Verif.Lemmas.ShapeResult
import Verif.Lemmas.SimpleArcs
import Verif.Lemmas.AreaLines

/-! # The parallel offset of a shape follows the polylines of the shape -/

set_option linter.unusedVariables false
set_option linter.unusedSectionVars false

namespace Cavc
open RealScalar Pline Filter Topology

theorem allW_split (L1 L2 : List (Pline ℝ)) (p : Pline ℝ) (X : V2 ℝ) : allW (L1 ++ p :: L2) X = allW (L1 ++ L2) X + wnAt p X := by
  simp only [allW, List.map_append, List.map_cons, List.sum_append, List.sum_cons]
  ring

section
variable {p : Pline ℝ} (hp : Loop p) (hs : SimpleLoop p) {L1 L2 : List (Pline ℝ)} (hl : ∀ q ∈ L1 ++ L2, Loop q)
  (hd : ∀ q ∈ L1 ++ L2, ∀ X, OnPline p X → ¬ OnPline q X)

/-- Along one polyline, the winding numbers of the others add up to the same. -/
theorem others_along {a w : ℤ} (hp : Loop p) (hs : SimpleLoop p) (hl : ∀ q ∈ L1 ++ L2, Loop q)
    (hd : ∀ q ∈ L1 ++ L2, ∀ X, OnPline p X → ¬ OnPline q X)
    (htwo : ∀ X, (∀ q ∈ L1 ++ p :: L2, ¬ OnPline q X) → allW (L1 ++ p :: L2) X = a ∨ allW (L1 ++ p :: L2) X = a + 1)
    (hw : SidesAt p 0 w (sgPt p 0 (1 / 2))) {F : V2 ℝ} (hF : OnPline p F) : allW (L1 ++ L2) F = a - w := by
  have hn : 0 < p.verts.length := by have := hp.two; omega
  set Z := sgPt p 0 (1 / 2) with hZ
  have hZp : Z ∈ trace p := (loop_trace hp _).mpr ⟨0, hn, 1 / 2, by norm_num, by norm_num, rfl⟩
  have h1 : allW (L1 ++ L2) F = allW (L1 ++ L2) ⟨Z.1, Z.2⟩ := by
    refine sum_const fun q hq => ?_
    refine wn_const (hl q hq) (trace_isPreconnected hp) ?_ (show (F.x, F.y) ∈ trace p from hF) hZp
    rw [Set.disjoint_left]
    intro z hz hz'
    exact hd q hq _ hz hz'
  have hnear : ∀ᶠ z in 𝓝 Z, ∀ q ∈ L1 ++ L2, z ∉ trace q ∧ wn q z = wn q Z := by
    have : ∀ q ∈ {q | q ∈ L1 ++ L2}, ∀ᶠ z in 𝓝 Z, z ∉ trace q ∧ wn q z = wn q Z := by
      intro q hq
      obtain ⟨δ, hδ, hb⟩ := wn_locally (hl q hq) (z := Z) (hd q hq _ hZp)
      filter_upwards [Metric.ball_mem_nhds Z hδ] with z hz
      exact hb z hz
    exact (Filter.eventually_all_finite (List.finite_toSet (L1 ++ L2))).mpr this
  obtain ⟨⟨a', b'⟩, hder⟩ := segCurve_deriv (vtx p 0, vtx p (0 + 1)) (1 / 2)
  have hside := sides_normal hp hs hn hder.fst hder.snd hw
  have c1 : Tendsto (fun u : ℝ => (Z.1 - u * b', Z.2 + u * a')) (𝓝[>] 0) (𝓝 Z) := by
    have : ContinuousAt (fun u : ℝ => (Z.1 - u * b', Z.2 + u * a')) 0 := by fun_prop
    have h := this.tendsto.mono_left (nhdsWithin_le_nhds (s := Set.Ioi (0 : ℝ)))
    simpa using h
  have c2 : Tendsto (fun u : ℝ => (Z.1 + u * b', Z.2 - u * a')) (𝓝[>] 0) (𝓝 Z) := by
    have : ContinuousAt (fun u : ℝ => (Z.1 + u * b', Z.2 - u * a')) 0 := by fun_prop
    have h := this.tendsto.mono_left (nhdsWithin_le_nhds (s := Set.Ioi (0 : ℝ)))
    simpa using h
  obtain ⟨u, ⟨⟨o1, e1⟩, o2, e2⟩, n1, n2⟩ := (hside.and ((c1.eventually hnear).and (c2.eventually hnear))).exists
  have key : ∀ (Y : V2 ℝ), ¬ OnPline p Y → (∀ q ∈ L1 ++ L2, (Y.x, Y.y) ∉ trace q ∧ wn q (Y.x, Y.y) = wn q Z) →
      allW (L1 ++ L2) ⟨Z.1, Z.2⟩ + p.windingNumber Y = a ∨ allW (L1 ++ L2) ⟨Z.1, Z.2⟩ + p.windingNumber Y = a + 1 := by
    intro Y hY hn'
    have h2 := htwo Y fun q hq => by
      rw [List.mem_append, List.mem_cons] at hq
      rcases hq with hq | rfl | hq
      · exact (hn' q (by simp [hq])).1
      · exact hY
      · exact (hn' q (by simp [hq])).1
    rw [allW_split] at h2
    have e : allW (L1 ++ L2) Y = allW (L1 ++ L2) ⟨Z.1, Z.2⟩ := sum_const fun q hq => (hn' q hq).2
    rw [e] at h2
    exact h2
  have k1 := key _ o1 n1
  have k2 := key _ o2 n2
  rw [e1] at k1
  rw [e2] at k2
  rw [h1]
  omega

/-- Seen from a point whose nearest polyline is `p`, the other polylines wind like seen from `p`. -/
theorem others_beside (hl : ∀ q ∈ L1 ++ L2, Loop q) (hd : ∀ q ∈ L1 ++ L2, ∀ X, OnPline p X → ¬ OnPline q X) {X F : V2 ℝ} {r : ℝ} (hr : 0 < r)
    (hk : ∀ q ∈ L1 ++ L2, Keeps q r X) (hF : OnPline p F) (e : edist X F = r) : allW (L1 ++ L2) X = allW (L1 ++ L2) F := by
  have hc : Continuous fun t : ℝ => ((linePoint F X t).x, (linePoint F X t).y) := by unfold linePoint; fun_prop
  have := allW_path hl (γ := linePoint F X) (a := 0) (b := 1) hc.continuousOn (by
    intro t ht q hq hon
    rw [Set.uIcc_of_le (by norm_num)] at ht
    have h1 := hk q hq _ hon
    have h2 : edist X (linePoint F X t) = (1 - t) * r := by
      have : linePoint F X t = linePoint X F (1 - t) := by unfold linePoint; congr 1 <;> ring
      rw [this, edist_comm, linePoint_dist, e, abs_of_nonneg (by linarith [ht.2])]
    rw [h2] at h1
    have ht0 : t = 0 := by
      have := ht.1
      by_contra hne
      have : 0 < t := lt_of_le_of_ne this (Ne.symm hne)
      nlinarith
    rw [ht0] at hon
    exact hd q hq F hF (by simpa [linePoint] using hon))
  have e0 : linePoint F X 0 = F := by simp [linePoint]
  have e1 : linePoint F X 1 = X := by simp [linePoint]
  rw [e0, e1] at this
  exact this.symm

end

/-- which of its two winding numbers a polyline has on the side of the offset -/
theorem turns_side {p : Pline ℝ} (hp : Loop p) (hs : SimpleLoop p) {σ w : ℤ} (hσ : TurnsLike p σ) (hw : SidesAt p 0 w (sgPt p 0 (1 / 2))) {d : ℝ} (hd : d ≠ 0) :
    (if 0 < d * σ then σ else 0) = w + if 0 < d then 1 else 0 := by
  have hn : 0 < p.verts.length := by have := hp.two; omega
  obtain ⟨⟨a', b'⟩, hder⟩ := segCurve_deriv (sg p 0) (1 / 2)
  obtain ⟨X, Y, o1, e1, o2, e2⟩ := both_sides hp hs hn hder.fst hder.snd hw
  have h1 := hσ.2 _ o1
  have h2 := hσ.2 _ o2
  rw [e1] at h1
  rw [e2] at h2
  rcases hσ.1 with rfl | rfl
  · obtain rfl : w = 0 := by omega
    rcases lt_or_gt_of_ne hd with h | h
    · simp [not_lt.mpr h.le]
    · simp [h]
  · obtain rfl : w = -1 := by omega
    rcases lt_or_gt_of_ne hd with h | h
    · simp [not_lt.mpr h.le, h]
    · simp [h, not_lt.mpr h.le]

/-- The points at which the offset loops meet or have corners. -/
noncomputable def specialPts (loops : List (OffsetLoop ℝ)) (C : Nat → List Cut) : List (V2 ℝ) :=
  (loops.flatMap fun l => (List.range l.ip.pline.verts.length).map fun k => curveAt l.ip.pline k 0) ++ (passes loops C).map (passPt loops)

theorem cut_special {loops : List (OffsetLoop ℝ)} {C : Nat → List Cut} {i : Nat} {l : OffsetLoop ℝ} (hi : loops[i]? = some l) {k : Nat} {t : ℝ} (h : (k, t) ∈ C i) :
    curveAt l.ip.pline k t ∈ specialPts loops C := by
  refine List.mem_append_right _ (List.mem_map.mpr ⟨(i, (k, t)), ?_, by simp [passPt, hi]⟩)
  exact List.mem_flatMap.mpr ⟨i, List.mem_range.mpr (List.getElem?_eq_some_iff.mp hi).1, List.mem_map.mpr ⟨_, h, rfl⟩⟩

theorem corner_special {loops : List (OffsetLoop ℝ)} {C : Nat → List Cut} {l : OffsetLoop ℝ} (hl : l ∈ loops) (hn : 0 < l.ip.pline.verts.length) (k : Nat) :
    curveAt l.ip.pline k 0 ∈ specialPts loops C := by
  refine List.mem_append_left _ (List.mem_flatMap.mpr ⟨l, hl, List.mem_map.mpr ⟨k % l.ip.pline.verts.length, List.mem_range.mpr (Nat.mod_lt _ hn), ?_⟩⟩)
  rw [curveAt_wrap hn]

theorem simple_once {p : Pline ℝ} (hn : 0 < p.verts.length) (hs : SimpleLoop p) {k : Nat} {t : ℝ} (hk : k < p.verts.length) (t0 : 0 < t) (t1 : t < 1) :
    ∀ j u, j < p.verts.length → 0 ≤ u → u ≤ 1 → curveAt p j u = curveAt p k t → j = k ∧ u = t := by
  intro j u hj u0 u1 e
  rcases lt_or_eq_of_le u1 with u1 | rfl
  · exact hs j k hj hk u t u0 u1 t0.le t1 e
  · rw [curveAt_join hn, ← curveAt_wrap hn] at e
    have := (hs _ k (Nat.mod_lt _ hn) hk 0 t le_rfl one_pos t0.le t1 e).2
    linarith

/-- The winding numbers of all polylines of the shape, seen from a point with its nearest polyline number `j`. -/
theorem beside_sum {inputs : List (IndexedPline ℝ)} (hin : ∀ ip ∈ inputs, Loop ip.pline) (hsim : ∀ ip ∈ inputs, SimpleLoop ip.pline)
    (hdis : ∀ (i j : Nat) (ip jp : IndexedPline ℝ), inputs[i]? = some ip → inputs[j]? = some jp → i ≠ j → ∀ X, OnPline ip.pline X → ¬ OnPline jp.pline X)
    {a : ℤ} (htwo : ∀ X, (∀ ip ∈ inputs, ¬ OnPline ip.pline X) → allW (inputs.map IndexedPline.pline) X = a ∨ allW (inputs.map IndexedPline.pline) X = a + 1)
    {d : ℝ} (hd : d ≠ 0) {j : Nat} {ip : IndexedPline ℝ} (hj : inputs[j]? = some ip) {σ : ℤ} (hσ : TurnsLike ip.pline σ) {X F : V2 ℝ}
    (hk : ∀ jp ∈ inputs, Keeps jp.pline |d| X) (hF : OnPline ip.pline F) (e : edist X F = |d|) :
    allW (inputs.map IndexedPline.pline) X = (a + if 0 < d then 1 else 0) + (ip.pline.windingNumber X - if 0 < d * σ then σ else 0) := by
  obtain ⟨hjl, rfl⟩ := List.getElem?_eq_some_iff.mp hj
  have hm := List.getElem_mem hjl
  obtain ⟨w, -, hw, -⟩ := two_numbers (hin _ hm) (hsim _ hm)
  have hw0 := hw 0 (by have := (hin _ hm).two; omega) (1 / 2) (by norm_num) (by norm_num)
  set L1 := (inputs.take j).map IndexedPline.pline with hL1
  set L2 := (inputs.drop (j + 1)).map IndexedPline.pline with hL2
  have hsplit : inputs.map IndexedPline.pline = L1 ++ inputs[j].pline :: L2 := by
    rw [hL1, hL2, ← List.map_cons, ← List.map_append]
    congr 1
    simp
  have hmem : ∀ q ∈ L1 ++ L2, ∃ i jp, i ≠ j ∧ inputs[i]? = some jp ∧ jp.pline = q := by
    intro q hq
    rw [List.mem_append] at hq
    rcases hq with hq | hq
    · obtain ⟨jp, hjp, rfl⟩ := List.mem_map.mp hq
      obtain ⟨i, hi, rfl⟩ := List.getElem_of_mem hjp
      rw [List.length_take] at hi
      exact ⟨i, _, by omega, by rw [List.getElem_take]; exact List.getElem?_eq_getElem _, rfl⟩
    · obtain ⟨jp, hjp, rfl⟩ := List.mem_map.mp hq
      obtain ⟨i, hi, rfl⟩ := List.getElem_of_mem hjp
      exact ⟨j + 1 + i, _, by omega, by rw [List.getElem_drop]; exact List.getElem?_eq_getElem _, rfl⟩
  have hl : ∀ q ∈ L1 ++ L2, Loop q := by
    intro q hq
    obtain ⟨i, jp, -, h, rfl⟩ := hmem q hq
    exact hin _ (List.mem_of_getElem? h)
  have hdq : ∀ q ∈ L1 ++ L2, ∀ X, OnPline inputs[j].pline X → ¬ OnPline q X := by
    intro q hq Y hY
    obtain ⟨i, jp, hne, h, rfl⟩ := hmem q hq
    exact hdis j i _ jp hj h hne.symm Y hY
  have hkq : ∀ q ∈ L1 ++ L2, Keeps q |d| X := by
    intro q hq
    obtain ⟨i, jp, -, h, rfl⟩ := hmem q hq
    exact hk _ (List.mem_of_getElem? h)
  have h1 := others_along (a := a) (hin _ hm) (hsim _ hm) hl hdq (fun Y hY => by
    rw [← hsplit]
    refine htwo Y fun ip hip => hY _ ?_
    rw [← hsplit]
    exact List.mem_map.mpr ⟨ip, hip, rfl⟩) hw0 hF
  have h2 := others_beside hl hdq (abs_pos.mpr hd) hkq hF e
  have h3 := turns_side (hin _ hm) (hsim _ hm) hσ hw0 hd
  have h4 : wnAt inputs[j].pline X = inputs[j].pline.windingNumber X := rfl
  rw [hsplit, allW_split, h2, h1, h3, h4]
  ring

/-- Where exactly one of the segments passes along a curve, the sum of the winding numbers is larger by one on the left of the curve. -/
theorem path_jump {rs : List (Pline ℝ)} {R : Pline ℝ} (hl : ∀ r ∈ rs, Loop r) {L1 L2 : List (Vertex ℝ × Vertex ℝ)} {e : Vertex ℝ × Vertex ℝ} {j : Nat} {t lo hi : ℝ}
    (hperm : (rs.flatMap fun r => r.segs.map strip).Perm (L1 ++ e :: L2)) (hoff : ∀ e' ∈ L1 ++ L2, ((curveAt R j t).x, (curveAt R j t).y) ∉ segTrace e')
    (hlo : lo < t) (hhi : t < hi) (hcurve : ∀ s, segCurve e.1 e.2 s = curveAt R j (lo + (hi - lo) * s)) {a b : ℝ} (hab : a ≠ 0 ∨ b ≠ 0)
    (dx : HasDerivAt (fun s => (curveAt R j s).x) a t) (dy : HasDerivAt (fun s => (curveAt R j s).y) b t) :
    ∃ δ > 0, ∀ k, 0 < k → k < δ → allW rs ⟨(curveAt R j t).x - k * b, (curveAt R j t).y + k * a⟩ = allW rs ⟨(curveAt R j t).x + k * b, (curveAt R j t).y - k * a⟩ + 1 := by
  have hlt : 0 < hi - lo := by linarith
  set s0 := (t - lo) / (hi - lo) with hs0
  have hst : lo + (hi - lo) * s0 = t := by rw [hs0]; field_simp; ring
  have hm : HasDerivAt (fun s => lo + (hi - lo) * s) (hi - lo) s0 := by simpa using ((hasDerivAt_id s0).const_mul (hi - lo)).const_add lo
  have dx' : HasDerivAt (fun s => (segCurve e.1 e.2 s).x) (a * (hi - lo)) s0 := by
    simp only [hcurve]
    exact HasDerivAt.comp (h₂ := fun s => (curveAt R j s).x) s0 (by rw [hst]; exact dx) hm
  have dy' : HasDerivAt (fun s => (segCurve e.1 e.2 s).y) (b * (hi - lo)) s0 := by
    simp only [hcurve]
    exact HasDerivAt.comp (h₂ := fun s => (curveAt R j s).y) s0 (by rw [hst]; exact dy) hm
  have hZ : segCurve e.1 e.2 s0 = curveAt R j t := by rw [hcurve, hst]
  obtain ⟨δ, hδ, hj⟩ := jump (L1 := L1) (L2 := L2) (s := e) (fun x hx => allW_proper hl x (hperm.mem_iff.mpr hx))
    ((hperm.map _).symm.trans ((allW_ends hl).trans (hperm.map _))) (t₀ := s0) (div_pos (by linarith) hlt) ((div_lt_one hlt).mpr (by linarith))
    (hab.imp (fun h => mul_ne_zero h hlt.ne') (fun h => mul_ne_zero h hlt.ne')) dx' dy' (by rw [hZ]; exact hoff)
  refine ⟨δ * (hi - lo), by positivity, fun k k0 k1 => ?_⟩
  have := hj (k / (hi - lo)) (by positivity) (by rwa [div_lt_iff₀ hlt])
  rw [← (hperm.map _).sum_eq, ← (hperm.map _).sum_eq, ← allW_segs hl, ← allW_segs hl, hZ] at this
  have e1 : ∀ y, k / (hi - lo) * (y * (hi - lo)) = k * y := fun y => by field_simp
  rw [e1, e1] at this
  exact this

/-- The parallel offset of a shape follows the polylines of the shape. -/
theorem shape_follows {inputs : List (IndexedPline ℝ)} {loops : List (OffsetLoop ℝ)} {d eps gap : ℝ} {C : Nat → List Cut} {RS : List (Pline ℝ)}
    (hin : ∀ ip ∈ inputs, Loop ip.pline) (hsim : ∀ ip ∈ inputs, SimpleLoop ip.pline)
    (hdis : ∀ (i j : Nat) (ip jp : IndexedPline ℝ), inputs[i]? = some ip → inputs[j]? = some jp → i ≠ j → ∀ X, OnPline ip.pline X → ¬ OnPline jp.pline X)
    {a : ℤ} (htwo : ∀ X, (∀ ip ∈ inputs, ¬ OnPline ip.pline X) → allW (inputs.map IndexedPline.pline) X = a ∨ allW (inputs.map IndexedPline.pline) X = a + 1)
    (hd : d ≠ 0) {σ : Nat → ℤ} (hσ : ∀ j ip, inputs[j]? = some ip → TurnsLike ip.pline (σ j))
    (hal : ∀ (j : Nat) (ip : IndexedPline ℝ), inputs[j]? = some ip → Alongside ip.pline d (σ j) (loopsOf loops j))
    (hpar : ∀ l ∈ loops, l.parent < inputs.length) (hf : ∀ l ∈ loops, FullLoop l.ip.pline eps) (hls : ∀ l ∈ loops, SimpleLoop l.ip.pline)
    (hC : ShapeCuts loops eps gap C) (hRS : ∀ r ∈ RS, Loop r)
    (hpts : ∀ X, (∃ r ∈ RS, OnPline r X) ↔ ∃ l ∈ loops, OnPline l.ip.pline X ∧ KeepsOthers inputs |d| l.parent X)
    (hpass : ∀ (i : Nat) (l : OffsetLoop ℝ), loops[i]? = some l → ∀ k t, k < l.ip.pline.verts.length → 0 < t → t < 1 → (k, t) ∉ C i →
      KeepsOthers inputs |d| l.parent (curveAt l.ip.pline k t) →
      (∀ j u, j < l.ip.pline.verts.length → 0 ≤ u → u ≤ 1 → curveAt l.ip.pline j u = curveAt l.ip.pline k t → j = k ∧ u = t) →
      ∃ L1 e L2, (RS.flatMap fun r => r.segs.map strip).Perm (L1 ++ e :: L2) ∧
        (∀ e' ∈ L1 ++ L2, ((curveAt l.ip.pline k t).x, (curveAt l.ip.pline k t).y) ∉ segTrace e') ∧
        ∃ lo hi, lo < t ∧ t < hi ∧ ∀ s, segCurve e.1 e.2 s = curveAt l.ip.pline k (lo + (hi - lo) * s)) :
    FollowsAll (inputs.map IndexedPline.pline) RS |d| (if 0 < d then a else a + 1) (if 0 < d then 1 else -1) (specialPts loops C) := by
  have hcg : (if 0 < d then a else a + 1) + (if 0 < d then 1 else -1) = a + if 0 < d then 1 else 0 := by split_ifs <;> ring
  have hmem : ∀ {j : Nat} {l : OffsetLoop ℝ}, l ∈ loops → l.parent = j → l.ip.pline ∈ loopsOf loops j := fun hl hj =>
    List.mem_map.mpr ⟨_, List.mem_filter.mpr ⟨hl, by simp [hj]⟩, rfl⟩
  have hof : ∀ {j : Nat} {r : Pline ℝ}, r ∈ loopsOf loops j → ∃ l ∈ loops, l.parent = j ∧ l.ip.pline = r := by
    intro j r hr
    obtain ⟨l, hl, rfl⟩ := List.mem_map.mp hr
    obtain ⟨hl, e⟩ := List.mem_filter.mp hl
    exact ⟨l, hl, by simpa using e, rfl⟩
  -- on an offset loop and with the distance kept from the other inputs
  have hfwd : ∀ X l, l ∈ loops → OnPline l.ip.pline X → KeepsOthers inputs |d| l.parent X →
      ∃ ip, inputs[l.parent]? = some ip ∧ (∀ jp ∈ inputs, Keeps jp.pline |d| X) ∧ (∃ F, OnPline ip.pline F ∧ edist X F = |d|) ∧
        ip.pline.windingNumber X = if 0 < d * σ l.parent then σ l.parent else 0 := by
    intro X l hl hon hko
    have hip := List.getElem?_eq_getElem (hpar l hl)
    obtain ⟨h1, h2, h3⟩ := ((hal _ _ hip).points X).mp ⟨_, hmem hl rfl, hon⟩
    refine ⟨_, hip, fun jp hjp => ?_, h2, h3⟩
    obtain ⟨i, hi, rfl⟩ := List.getElem_of_mem hjp
    by_cases e : i = l.parent
    · subst e; exact h1
    · exact hko i _ (List.getElem?_eq_getElem hi) e
  have hback : ∀ X, (∀ jp ∈ inputs, Keeps jp.pline |d| X) → allW (inputs.map IndexedPline.pline) X = (a + if 0 < d then 1 else 0) →
      ∀ (j : Nat) (ip : IndexedPline ℝ), inputs[j]? = some ip → ∀ F, OnPline ip.pline F → edist X F = |d| →
      ∃ l ∈ loops, l.parent = j ∧ OnPline l.ip.pline X ∧ KeepsOthers inputs |d| l.parent X := by
    intro X hk hw j ip hip F hF e
    have := beside_sum hin hsim hdis htwo hd hip (hσ j ip hip) hk hF e
    obtain ⟨r, hr, hon⟩ := ((hal j ip hip).points X).mpr ⟨hk _ (List.mem_of_getElem? hip), ⟨F, hF, e⟩, by omega⟩
    obtain ⟨l, hl, hp, rfl⟩ := hof hr
    exact ⟨l, hl, hp, hon, fun i jp h _ => hk _ (List.mem_of_getElem? h)⟩
  have hpoints : ∀ X, (∃ r ∈ RS, OnPline r X) ↔ (∀ p ∈ inputs.map IndexedPline.pline, Keeps p |d| X) ∧
      (∃ p ∈ inputs.map IndexedPline.pline, ∃ F, OnPline p F ∧ edist X F = |d|) ∧
      allW (inputs.map IndexedPline.pline) X = (if 0 < d then a else a + 1) + (if 0 < d then 1 else -1) := by
    intro X
    rw [hcg, hpts X]
    constructor
    · rintro ⟨l, hl, hon, hko⟩
      obtain ⟨ip, hip, hk, ⟨F, hF, e⟩, hw⟩ := hfwd X l hl hon hko
      refine ⟨fun p hp => ?_, ⟨ip.pline, List.mem_map.mpr ⟨ip, List.mem_of_getElem? hip, rfl⟩, F, hF, e⟩, ?_⟩
      · obtain ⟨jp, hjp, rfl⟩ := List.mem_map.mp hp
        exact hk jp hjp
      · rw [beside_sum hin hsim hdis htwo hd hip (hσ _ ip hip) hk hF e, hw]
        ring
    · rintro ⟨hk, ⟨p, hp, F, hF, e⟩, hw⟩
      obtain ⟨ip, hip, rfl⟩ := List.mem_map.mp hp
      obtain ⟨j, hj, rfl⟩ := List.getElem_of_mem hip
      obtain ⟨l, hl, -, hon, hko⟩ := hback X (fun jp hjp => hk _ (List.mem_map.mpr ⟨jp, hjp, rfl⟩)) hw j _ (List.getElem?_eq_getElem hj) F hF e
      exact ⟨l, hl, hon, hko⟩
  refine ⟨abs_pos.mpr hd, by split_ifs <;> simp, fun p hp => ?_, fun p hp q hq hne X h1 h2 => ?_, fun X hX => ?_, hRS, hpoints, fun X hX hB => ?_, ?_⟩
  · obtain ⟨ip, hip, rfl⟩ := List.mem_map.mp hp
    exact hin ip hip
  · obtain ⟨ip, hip, rfl⟩ := List.mem_map.mp hp
    obtain ⟨jp, hjp, rfl⟩ := List.mem_map.mp hq
    obtain ⟨i, hi, rfl⟩ := List.getElem_of_mem hip
    obtain ⟨j, hj, rfl⟩ := List.getElem_of_mem hjp
    exact hdis i j _ _ (List.getElem?_eq_getElem hi) (List.getElem?_eq_getElem hj) (by rintro rfl; exact hne rfl) X h1 h2
  · have := htwo X fun ip hip => hX _ (List.mem_map.mpr ⟨ip, hip, rfl⟩)
    split_ifs <;> omega
  · -- across the offset
    obtain ⟨l, hl, hon, hko⟩ := (hpts X).mp hX
    obtain ⟨i, hi, rfl⟩ := List.getElem_of_mem hl
    have hi' := List.getElem?_eq_getElem hi
    set l := loops[i] with hldef
    have hfl := hf l hl
    have hn : 0 < l.ip.pline.verts.length := by have := hfl.two; omega
    obtain ⟨k, t, hkn, t0, t1, rfl⟩ := (loop_on hfl X).mp hon
    have t0 : 0 < t := by
      refine lt_of_le_of_ne t0 ?_
      rintro rfl
      exact hB (corner_special hl hn k)
    have t1 : t < 1 := by
      refine lt_of_le_of_ne t1 ?_
      rintro rfl
      rw [curveAt_join hn] at hB
      exact hB (corner_special hl hn (k + 1))
    have hcut : (k, t) ∉ C i := fun h => hB (cut_special hi' h)
    have hip := List.getElem?_eq_getElem (hpar l hl)
    obtain ⟨F, a', b', m, hF, e, dx, dy, hm, ex, ey⟩ := (hal _ _ hip).along _ (hmem hl rfl) k t hkn t0 t1
    have hab : a' ≠ 0 ∨ b' ≠ 0 := by
      by_contra h
      push Not at h
      have : edist (curveAt l.ip.pline k t) F = 0 := by
        unfold edist
        rw [ex, ey, h.1, h.2]
        simp
      rw [e] at this
      exact hd (abs_eq_zero.mp this)
    obtain ⟨L1, s, L2, hperm, hoff, lo, hi2, hlo, hhi, hcurve⟩ := hpass i l hi' k t hkn t0 t1 hcut hko (simple_once hn (hls l hl) hkn t0 t1)
    obtain ⟨δ, hδ, hjump⟩ := path_jump hRS hperm hoff hlo hhi hcurve hab dx dy
    refine ⟨_, List.mem_map.mpr ⟨_, List.mem_of_getElem? hip, rfl⟩, F, hF, e, δ / (m * |d|), by positivity, fun κ κ0 κ1 => ?_⟩
    have hmd : 0 < m * |d| := mul_pos hm (abs_pos.mpr hd)
    rw [lt_div_iff₀ hmd] at κ1
    have := hjump (κ * (m * |d|)) (by positivity) κ1
    rcases lt_or_gt_of_ne hd with h | h
    · rw [abs_of_neg h] at this
      have e1 : linePoint F (curveAt l.ip.pline k t) (1 + κ) = ⟨(curveAt l.ip.pline k t).x + κ * (m * -d) * b', (curveAt l.ip.pline k t).y - κ * (m * -d) * a'⟩ := by
        unfold linePoint
        congr 1
        · linear_combination κ * ex
        · linear_combination κ * ey
      have e2 : linePoint F (curveAt l.ip.pline k t) (1 - κ) = ⟨(curveAt l.ip.pline k t).x - κ * (m * -d) * b', (curveAt l.ip.pline k t).y + κ * (m * -d) * a'⟩ := by
        unfold linePoint
        congr 1
        · linear_combination -κ * ex
        · linear_combination -κ * ey
      rw [e1, e2, this, if_neg (not_lt.mpr h.le)]
      ring
    · rw [abs_of_pos h] at this
      have e1 : linePoint F (curveAt l.ip.pline k t) (1 + κ) = ⟨(curveAt l.ip.pline k t).x - κ * (m * d) * b', (curveAt l.ip.pline k t).y + κ * (m * d) * a'⟩ := by
        unfold linePoint
        congr 1
        · linear_combination κ * ex
        · linear_combination κ * ey
      have e2 : linePoint F (curveAt l.ip.pline k t) (1 - κ) = ⟨(curveAt l.ip.pline k t).x + κ * (m * d) * b', (curveAt l.ip.pline k t).y - κ * (m * d) * a'⟩ := by
        unfold linePoint
        congr 1
        · linear_combination -κ * ex
        · linear_combination -κ * ey
      rw [e1, e2, this, if_pos h]
  · -- points with two nearest polylines
    intro X hX p hp q hq hne F G hF hG eF eG
    obtain ⟨hk, -, hw⟩ := (hpoints X).mp hX
    rw [hcg] at hw
    obtain ⟨ip, hip, rfl⟩ := List.mem_map.mp hp
    obtain ⟨jp, hjp, rfl⟩ := List.mem_map.mp hq
    obtain ⟨i, hi, rfl⟩ := List.getElem_of_mem hip
    obtain ⟨j, hj, rfl⟩ := List.getElem_of_mem hjp
    have hij : i ≠ j := by rintro rfl; exact hne rfl
    have hk' : ∀ jp ∈ inputs, Keeps jp.pline |d| X := fun jp hjp => hk _ (List.mem_map.mpr ⟨jp, hjp, rfl⟩)
    obtain ⟨l1, hl1, p1, on1, -⟩ := hback X hk' hw i _ (List.getElem?_eq_getElem hi) F hF eF
    obtain ⟨l2, hl2, p2, on2, -⟩ := hback X hk' hw j _ (List.getElem?_eq_getElem hj) G hG eG
    obtain ⟨k, t, hkn, t0, t1, rfl⟩ := (loop_on (hf l1 hl1) X).mp on1
    obtain ⟨x, hx, rfl⟩ := List.getElem_of_mem hl1
    obtain ⟨y, hy, rfl⟩ := List.getElem_of_mem hl2
    refine cut_special (List.getElem?_eq_getElem hx) (hC.all x _ (List.getElem?_eq_getElem hx) y _ (List.getElem?_eq_getElem hy) ?_ k t hkn t0 t1 on2)
    rintro rfl
    exact hij (p1.symm.trans p2)

end Cavc
