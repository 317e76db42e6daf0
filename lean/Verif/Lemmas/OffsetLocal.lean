import Verif.Lemmas.OffsetKeep
import Verif.Props.Closest
import Verif.Spec.OffsetTests

/-! # The distance is kept along the raw offset between crossings -/

set_option linter.unusedVariables false
set_option linter.unusedSectionVars false

namespace Cavc
open Pline

section
variable {p : Pline ℝ} {d eps : ℝ}

theorem own_add (hn : 0 < p.verts.length) (k m : Nat) : (RawPart.side (k + p.verts.length)).Own p m ↔ (RawPart.side k).Own p m := by
  unfold RawPart.Own
  dsimp only
  rw [Nat.add_mod_right]

theorem sideEnd_add (p : Pline ℝ) (d : ℝ) (k : Nat) : sideEnd p d (k + p.verts.length) = sideEnd p d k := by
  unfold sideEnd
  have := mitred_add p d k
  rw [setbackAt_add, sideLen_add]
  by_cases h : Mitred p d k
  · rw [if_pos h, if_pos (this.mpr h)]
  · rw [if_neg h, if_neg (fun h' => h (this.mp h'))]

theorem curve_add (hn : 0 < p.verts.length) (k : Nat) (t : ℝ) : (RawPart.side (k + p.verts.length)).curve p d t = (RawPart.side k).curve p d t := by
  unfold RawPart.curve
  dsimp only
  rw [sidePt_add, sideStart_add p d hn, sideEnd_add]

theorem parts_zero (hn : 0 < p.verts.length) : (loopParts p d)[0]? = some (.side 0) := by
  classical
  unfold loopParts
  obtain ⟨m, hm⟩ : ∃ m, p.verts.length = m + 1 := ⟨p.verts.length - 1, by omega⟩
  rw [hm, List.range_succ_eq_map, List.flatMap_cons]
  by_cases hm0 : Mitred p d 0 <;> simp [hm0]

/-- the part with the cyclically next number -/
theorem part_next (hn : 0 < p.verts.length) {j j' : Nat} {q q' : RawPart} (h : (loopParts p d)[j]? = some q) (h' : (loopParts p d)[j']? = some q')
    (hj : j' = j + 1 ∨ j' = 0 ∧ j + 1 = (loopParts p d).length) :
    (∀ m, (q.succ p d).Own p m ↔ q'.Own p m) ∧ ∀ t, (q.succ p d).curve p d t = q'.curve p d t := by
  obtain ⟨h1, h2⟩ := part_succ h
  rcases hj with rfl | ⟨rfl, he⟩
  · have := h1 (List.getElem?_eq_some_iff.mp h').1
    rw [h'] at this
    injection this with this
    subst this
    exact ⟨fun m => Iff.rfl, fun t => rfl⟩
  · rw [parts_zero hn] at h'
    injection h' with h'
    subst h'
    rw [h2 he]
    have e : p.verts.length = 0 + p.verts.length := by omega
    rw [e]
    have e' : 0 + p.verts.length = p.verts.length := by omega
    exact ⟨fun m => by rw [e', ← own_add hn 0 m, e'], fun t => by rw [e', ← curve_add hn 0 t, e']⟩

theorem part_not_mitred {q : RawPart} (h : q ∈ loopParts p d) : ∀ k, q = .corner k → ¬ Mitred p d k := by
  rintro k rfl
  rcases mem_parts h with ⟨k', -, e⟩ | ⟨k', -, hm, e⟩
  · cases e
  · cases e; exact hm

/-! ## Continuity -/

theorem edist_continuous {f g : ℝ → V2 ℝ} (hf : Continuous fun t => ((f t).x, (f t).y)) (hg : Continuous fun t => ((g t).x, (g t).y)) :
    Continuous fun t => edist (f t) (g t) := by
  have f1 := continuous_fst.comp hf
  have f2 := continuous_snd.comp hf
  have g1 := continuous_fst.comp hg
  have g2 := continuous_snd.comp hg
  simp only [Function.comp_def] at f1 f2 g1 g2
  unfold edist
  fun_prop

theorem const_continuous (X : V2 ℝ) : Continuous fun _ : ℝ => (X.x, X.y) := continuous_const

theorem curveAt_continuous {R : Pline ℝ} (hn : 0 < R.verts.length) (j : Nat) : Continuous fun t => ((curveAt R j t).x, (curveAt R j t).y) := by
  have := segCurve_continuous (vtx R j) (vtx R (j + 1))
  simpa only [curveAt_vtx hn] using this

theorem line_continuous (a b : V2 ℝ) : Continuous fun t => ((linePoint a b t).x, (linePoint a b t).y) := by
  unfold linePoint
  fun_prop

/-- keeping the distance is a closed condition along a curve -/
theorem keeps_closed {R : Pline ℝ} (hn : 0 < R.verts.length) (j : Nat) (r : ℝ) : IsClosed {t | Keeps p r (curveAt R j t)} := by
  have : {t | Keeps p r (curveAt R j t)} = ⋂ q ∈ {q | OnPline p q}, {t | r ≤ edist (curveAt R j t) q} := by
    ext t; simp [Keeps]
  rw [this]
  refine isClosed_biInter fun q _ => ?_
  exact isClosed_le continuous_const (edist_continuous (curveAt_continuous hn j) (const_continuous q))

/-- a side that is further away than the distance stays so for a while -/
theorem far_while {R : Pline ℝ} (hn : 0 < R.verts.length) (j : Nat) {r t : ℝ} {m : Nat} (hf : FarAt p r (curveAt R j t) m)
    (hne : ∀ u, 0 ≤ u → u ≤ 1 → edist (curveAt R j t) (linePoint (cornerPos p m) (cornerPos p (m + 1)) u) ≠ r) :
    ∃ δ > 0, ∀ t', |t' - t| < δ → FarAt p r (curveAt R j t') m := by
  obtain ⟨u₀, ⟨hu0, hu1⟩, hmin⟩ := isCompact_Icc.exists_isMinOn (s := Set.Icc (0 : ℝ) 1) ⟨0, by simp⟩
    (edist_continuous (const_continuous (curveAt R j t)) (line_continuous (cornerPos p m) (cornerPos p (m + 1)))).continuousOn
  set g := edist (curveAt R j t) (linePoint (cornerPos p m) (cornerPos p (m + 1)) u₀) with hg
  have hgt : r < g := lt_of_le_of_ne (hf u₀ hu0 hu1) (hne u₀ hu0 hu1).symm
  have hcont := edist_continuous (curveAt_continuous hn j) (const_continuous (curveAt R j t))
  have h0 : edist (curveAt R j t) (curveAt R j t) = 0 := by unfold edist; simp
  obtain ⟨δ, hδ, hball⟩ := Metric.continuous_iff.mp hcont t (g - r) (by linarith)
  refine ⟨δ, hδ, fun t' ht' u h0' h1' => ?_⟩
  have h1 := hball t' (by rw [Real.dist_eq]; exact ht')
  rw [h0, Real.dist_eq, sub_zero, abs_of_nonneg (edist_nonneg _ _)] at h1
  have h2 : g ≤ edist (curveAt R j t) (linePoint (cornerPos p m) (cornerPos p (m + 1)) u) := hmin ⟨h0', h1'⟩
  have h3 := Cavc.edist_triangle (curveAt R j t) (curveAt R j t') (linePoint (cornerPos p m) (cornerPos p (m + 1)) u)
  rw [edist_comm (curveAt R j t) (curveAt R j t')] at h3
  linarith

theorem finite_while {P : Nat → ℝ → Prop} {t : ℝ} (h : ∀ m, ∃ δ > 0, ∀ t', |t' - t| < δ → P m t') : ∀ n : Nat, ∃ δ > 0, ∀ t', |t' - t| < δ → ∀ m < n, P m t'
  | 0 => ⟨1, one_pos, fun t' _ m hm => by omega⟩
  | n + 1 => by
    obtain ⟨δ, hδ, h1⟩ := finite_while h n
    obtain ⟨δ', hδ', h2⟩ := h n
    refine ⟨min δ δ', lt_min hδ hδ', fun t' ht' m hm => ?_⟩
    rcases Nat.lt_succ_iff_lt_or_eq.mp hm with hm | rfl
    · exact h1 t' (lt_of_lt_of_le ht' (min_le_left _ _)) m hm
    · exact h2 t' (lt_of_lt_of_le ht' (min_le_right _ _))

variable (hp : StraightLoop p) (hd : d ≠ 0) (he : 0 < eps) (hc : ∀ k, ClearTurn p d eps k)
include hp hd he hc

/-- A point that keeps the distance and is not a crossing: its neighbours on the raw offset keep the distance, too. -/
theorem keep_local {gap : ℝ} {E : List (Cut × Cut)} (hE : SelfCrossing (rawLoop p d) eps gap E) (hos : OneSided p d) {j : Nat} (hj : j < (rawLoop p d).verts.length) {t : ℝ}
    (ht0 : 0 ≤ t) (ht1 : t ≤ 1) (hk : Keeps p |d| (curveAt (rawLoop p d) j t)) (hcut : (j, t) ∉ bothCuts E) :
    ∃ δ > 0, ∀ t', 0 ≤ t' → t' ≤ 1 → |t' - t| < δ → Keeps p |d| (curveAt (rawLoop p d) j t') := by
  have hn : 0 < (rawLoop p d).verts.length := by omega
  have hnp : 0 < p.verts.length := by have := hp.two; omega
  have hj' : j < (loopParts p d).length := by rwa [rawLoop_length] at hj
  set q := (loopParts p d)[j] with hq
  have hqj : (loopParts p d)[j]? = some q := List.getElem?_eq_getElem hj'
  have hqm : q ∈ loopParts p d := List.getElem_mem hj'
  have hcv := fun s => rawLoop_curve hp hd he hc hqj s
  have hkq : Keeps p |d| (q.curve p d t) := by rw [← hcv]; exact hk
  have hoff : OffsetPt p d (curveAt (rawLoop p d) j t) := by
    rw [hcv]
    exact part_offset hp hd he hc (part_not_mitred hqm) ht0 ht1 hkq
  have hfar := (keeps_far hp).mp hk
  have key : ∀ m, ∃ δ > 0, ∀ t', |t' - t| < δ → (0 ≤ t' → t' ≤ 1 → FarAt p |d| (curveAt (rawLoop p d) j t') m) := by
    intro m
    by_cases hne : ∀ u, 0 ≤ u → u ≤ 1 → edist (curveAt (rawLoop p d) j t) (linePoint (cornerPos p m) (cornerPos p (m + 1)) u) ≠ |d|
    · obtain ⟨δ, hδ, h⟩ := far_while hn j (hfar m) hne
      exact ⟨δ, hδ, fun t' ht' _ _ => h t' ht'⟩
    · refine ⟨1, one_pos, fun t' _ ht0' ht1' => ?_⟩
      push Not at hne
      obtain ⟨u, hu0, hu1, hu⟩ := hne
      rcases near_part hp hd he hc hk hu0 hu1 hu with ⟨q', hq', ho, u', hu0', hu1', hX⟩ | h
      · obtain ⟨j', hj'', hqe⟩ := List.getElem_of_mem hq'
        have hqj' : (loopParts p d)[j']? = some q' := by rw [List.getElem?_eq_getElem hj'', hqe]
        have hcv' := fun s => rawLoop_curve hp hd he hc hqj' s
        have hXX : curveAt (rawLoop p d) j t = curveAt (rawLoop p d) j' u' := by rw [hX, hcv']
        rcases Nat.lt_trichotomy j j' with hlt | rfl | hlt
        · rcases hE.all j t j' u' hlt (by rw [rawLoop_length]; exact hj'') ht0 ht1 hu0' hu1' hXX with ⟨e1, e2, e3⟩ | ⟨e1, e2, e3, e4⟩ | h
          · obtain ⟨o1, o2⟩ := part_next hnp hqj hqj' (Or.inl e1)
            rw [e2] at hX
            rw [hcv]
            refine (adj_far hp hd he hc (X := q.curve p d 1) (part_not_mitred hqm) rfl ?_ ?_ ht0' ht1').1 ((o1 m).mpr ho)
            · rw [o2, ← e3, ← hX, hcv]
            · rw [← e2]; exact hkq
          · obtain ⟨o1, o2⟩ := part_next hnp hqj' hqj (Or.inr ⟨e1, by rw [e2, rawLoop_length]⟩)
            have hX' : q'.curve p d 1 = q.curve p d 0 := by rw [← e4, ← hX, hcv, e3]
            rw [hcv, ← o2]
            refine (adj_far hp hd he hc (X := q'.curve p d 1) (part_not_mitred hq') rfl ?_ ?_ ht0' ht1').2 ho
            · rw [o2, hX']
            · rw [hX', ← e3]; exact hkq
          · exact absurd (List.mem_append_left _ (List.mem_map.mpr ⟨_, h, rfl⟩)) hcut
        · have : q = q' := by rw [hqj] at hqj'; injection hqj'
          subst this
          rw [hcv]
          exact own_far hp hd he hc (part_not_mitred hqm) ho ht0 ht1 hkq ht0' ht1'
        · rcases hE.all j' u' j t hlt hj hu0' hu1' ht0 ht1 hXX.symm with ⟨e1, e2, e3⟩ | ⟨e1, e2, e3, e4⟩ | h
          · obtain ⟨o1, o2⟩ := part_next hnp hqj' hqj (Or.inl e1)
            have hX' : q'.curve p d 1 = q.curve p d 0 := by rw [← e2, ← hX, hcv, e3]
            rw [hcv, ← o2]
            refine (adj_far hp hd he hc (X := q'.curve p d 1) (part_not_mitred hq') rfl ?_ ?_ ht0' ht1').2 ho
            · rw [o2, hX']
            · rw [hX', ← e3]; exact hkq
          · obtain ⟨o1, o2⟩ := part_next hnp hqj hqj' (Or.inr ⟨e1, by rw [e2, rawLoop_length]⟩)
            rw [hcv]
            refine (adj_far hp hd he hc (X := q.curve p d 1) (part_not_mitred hqm) rfl ?_ ?_ ht0' ht1').1 ((o1 m).mpr ho)
            · rw [o2, ← e3, ← hX, hcv, e4]
            · rw [← e4]; exact hkq
          · exact absurd (List.mem_append_right _ (List.mem_map.mpr ⟨_, h, rfl⟩)) hcut
      · exact absurd ⟨hoff, h⟩ (hos _)
  obtain ⟨δ, hδ, h⟩ := finite_while key p.verts.length
  refine ⟨δ, hδ, fun t' h0 h1 ht' => ?_⟩
  rw [keeps_far hp]
  intro m
  rw [← farAt_congr (Nat.mod_mod m p.verts.length)]
  exact h t' ht' _ (Nat.mod_lt _ hnp) h0 h1

/-- Along a part of a segment without crossings inside, the distance is kept everywhere or nowhere (except at crossings). -/
theorem keep_seg {gap : ℝ} {E : List (Cut × Cut)} (hE : SelfCrossing (rawLoop p d) eps gap E) (hos : OneSided p d) {j : Nat} (hj : j < (rawLoop p d).verts.length)
    {lo hi : ℝ} (h0 : 0 ≤ lo) (hlt : lo < hi) (h1 : hi ≤ 1) (hno : ∀ t, lo < t → t < hi → (j, t) ∉ bothCuts E)
    {s : ℝ} (hs0 : lo ≤ s) (hs1 : s ≤ hi) (hcut : (j, s) ∉ bothCuts E) (hk : Keeps p |d| (curveAt (rawLoop p d) j s)) :
    ∀ t, lo ≤ t → t ≤ hi → Keeps p |d| (curveAt (rawLoop p d) j t) := by
  have hn : 0 < (rawLoop p d).verts.length := by omega
  -- a point inside
  have hin : ∃ s, lo < s ∧ s < hi ∧ Keeps p |d| (curveAt (rawLoop p d) j s) := by
    obtain ⟨δ, hδ, h⟩ := keep_local hp hd he hc hE hos hj (by linarith) (by linarith) hk hcut
    rcases hs0.eq_or_lt with rfl | hs0
    · refine ⟨lo + min (δ / 2) ((hi - lo) / 2), ?_, ?_, h _ ?_ ?_ ?_⟩
      · have : 0 < min (δ / 2) ((hi - lo) / 2) := lt_min (by linarith) (by linarith)
        linarith
      · have := min_le_right (δ / 2) ((hi - lo) / 2); linarith
      · have : 0 < min (δ / 2) ((hi - lo) / 2) := lt_min (by linarith) (by linarith)
        linarith
      · have := min_le_right (δ / 2) ((hi - lo) / 2); linarith
      · have := min_le_left (δ / 2) ((hi - lo) / 2)
        have h' : 0 < min (δ / 2) ((hi - lo) / 2) := lt_min (by linarith) (by linarith)
        rw [add_sub_cancel_left, abs_of_pos h']; linarith
    · refine ⟨s - min (δ / 2) ((s - lo) / 2), ?_, ?_, h _ ?_ ?_ ?_⟩
      · have := min_le_right (δ / 2) ((s - lo) / 2); linarith
      · have : 0 < min (δ / 2) ((s - lo) / 2) := lt_min (by linarith) (by linarith)
        linarith
      · have := min_le_right (δ / 2) ((s - lo) / 2); linarith
      · have : 0 < min (δ / 2) ((s - lo) / 2) := lt_min (by linarith) (by linarith)
        linarith
      · have := min_le_left (δ / 2) ((s - lo) / 2)
        have h' : 0 < min (δ / 2) ((s - lo) / 2) := lt_min (by linarith) (by linarith)
        rw [sub_sub_cancel_left, abs_neg, abs_of_pos h']; linarith
  obtain ⟨s', hs0', hs1', hk'⟩ := hin
  have hcl := keeps_closed (p := p) hn j |d|
  have hopen : ∀ t, lo < t → t < hi → Keeps p |d| (curveAt (rawLoop p d) j t) := by
    by_contra hbad
    push Not at hbad
    obtain ⟨t, t0, t1, hbad⟩ := hbad
    have hU : IsOpen {x | lo < x ∧ x < hi ∧ Keeps p |d| (curveAt (rawLoop p d) j x)} := by
      rw [Metric.isOpen_iff]
      rintro x ⟨x0, x1, hx⟩
      obtain ⟨δ, hδ, h⟩ := keep_local hp hd he hc hE hos hj (by linarith) (by linarith) hx (hno x x0 x1)
      refine ⟨min δ (min (x - lo) (hi - x)), lt_min hδ (lt_min (by linarith) (by linarith)), fun y hy => ?_⟩
      rw [Metric.mem_ball, Real.dist_eq] at hy
      obtain ⟨a1, a2⟩ := lt_min_iff.mp hy
      obtain ⟨a2, a3⟩ := lt_min_iff.mp a2
      have := abs_lt.mp a2
      have := abs_lt.mp a3
      exact ⟨by linarith, by linarith, h y (by linarith) (by linarith) a1⟩
    have hV : IsOpen {x | Keeps p |d| (curveAt (rawLoop p d) j x)}ᶜ := hcl.isOpen_compl
    obtain ⟨z, hz, hzu, hzv⟩ := isPreconnected_Ioo (a := lo) (b := hi) _ _ hU hV
      (fun x hx => by
        by_cases hkx : Keeps p |d| (curveAt (rawLoop p d) j x)
        · exact Or.inl ⟨hx.1, hx.2, hkx⟩
        · exact Or.inr hkx)
      ⟨s', ⟨hs0', hs1'⟩, hs0', hs1', hk'⟩ ⟨t, ⟨t0, t1⟩, hbad⟩
    exact hzv hzu.2.2
  intro t t0 t1
  have hsub : Set.Icc lo hi ⊆ {x | Keeps p |d| (curveAt (rawLoop p d) j x)} := by
    rw [← closure_Ioo hlt.ne]
    exact closure_minimal (fun x hx => hopen x hx.1 hx.2) hcl
  exact hsub ⟨t0, t1⟩

end

end Cavc
