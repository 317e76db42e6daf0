import Verif.Lemmas.SubPath
import Mathlib.Analysis.Real.Pi.Bounds

/-! # C21: a slice traces the part of the source between its points -/

namespace Cavc
open Real RealScalar Pline

theorem curveAt_some {src : Pline ℝ} {i : Nat} {v w : Vertex ℝ} (hv : cycAt src i = some v) (hw : cycAt src (i + 1) = some w) (t : ℝ) :
    curveAt src i t = segCurve v w t := by
  unfold curveAt; rw [hv, hw]

theorem cycAt_mod {src : Pline ℝ} (i : Nat) : cycAt src (i % src.verts.length) = cycAt src i := by
  unfold cycAt; rw [Nat.mod_mod]

theorem curveAt_mod (src : Pline ℝ) (i j : Nat) (t : ℝ) : curveAt src (i % src.verts.length + j) t = curveAt src (i + j) t := by
  have h : ∀ k, cycAt src (i % src.verts.length + k) = cycAt src (i + k) := by
    intro k; unfold cycAt; rw [Nat.mod_add_mod]
  unfold curveAt
  rw [h, Nat.add_assoc, h, ← Nat.add_assoc]

theorem TracesPart.mod {src q : Pline ℝ} {s k : Nat} {t u : ℝ} (h : TracesPart src q (s % src.verts.length) k t u) :
    TracesPart src q s k t u := ⟨h.count, fun j a b hj x => by rw [h.along j a b hj x, curveAt_mod]⟩

/-- A slice within one segment. -/
theorem slice_single (src : Pline ℝ) (s : Nat) (hs : s < src.verts.length) (v w b : Vertex ℝ) (hv : cycAt src s = some v)
    (hw : cycAt src (s + 1) = some w) (eps : ℝ) (he : 0 < eps) (t u : ℝ) (ht0 : 0 ≤ t) (ht1 : t < 1) (hu : t < u) (hu1 : u ≤ 1)
    (hb : b.pos = segCurve v w t) (hfull : FullSeg b w eps) (hbl : IsLine v → IsLine b)
    (hba : ¬ IsLine v → ¬ IsLine b ∧ arctan b.bulge = (1 - t) * arctan v.bulge)
    (htr : ∀ x, segCurve b w x = segCurve v w (t + (1 - t) * x))
    (hc : u = 1 ∨ (segCurve v w u).fuzzyEqEps w.pos eps = false) (hne : (segCurve v w t).fuzzyEqEps (segCurve v w u) eps = false)
    (hlong : LongPart v t u) :
    ∃ d q, ViewData.createOnSingleSegment s (segSplitAtPoint b w (segCurve v w u) eps).updatedStart (segCurve v w u) eps = some d ∧
      d.toPline src = .ok q ∧ q.closed = false ∧ TracesPart src q s 0 t u := by
  obtain ⟨h1, h2⟩ := single_base v w b eps he t u ht0 ht1 hu hu1 hb hfull hbl hba htr hc hne hlong
  unfold ViewData.createOnSingleSegment
  rw [h1, hne]
  obtain ⟨q, hq⟩ := view_traces src ⟨s, 0, (segSplitAtPoint b w (segCurve v w u) eps).updatedStart,
    (segSplitAtPoint b w (segCurve v w u) eps).updatedStart.bulge, segCurve v w u, false⟩ ⟨hs, Nat.zero_le _⟩ rfl t u
    (fun _ z hz x => by rw [curveAt_some hv hw]; exact h2 z hz x) (fun h => absurd h (by simp)) (fun h => absurd h (by simp))
  exact ⟨_, q, rfl, hq⟩

/-- A slice that passes at least one vertex, or ends on one. -/
theorem slice_many (src : Pline ℝ) (s e k : Nat) (hs : s < src.verts.length) (hen : e < src.verts.length) (hk : 1 ≤ k) (hkn : k ≤ src.verts.length)
    (hke : (s + k) % src.verts.length = e) (b v w : Vertex ℝ) (hv : cycAt src e = some v) (hw : cycAt src (e + 1) = some w)
    (eps : ℝ) (he : 0 < eps) (t u : ℝ) (hu0 : 0 ≤ u)
    (htr : ∀ z, cycAt src (s + 1) = some z → ∀ x, segCurve b z x = curveAt src s (t + (1 - t) * x))
    (hfull : FullSeg v w eps) (hc : CleanCut v w u eps) (hlong : 0 < u → LongPart v 0 u) :
    ∃ d q, ViewData.create src s (segCurve v w u) e b k eps = .ok d ∧ d.toPline src = .ok q ∧ q.closed = false ∧
      (u = 0 → TracesPart src q s (k - 1) t 1) ∧ (0 < u → TracesPart src q s k t u) := by
  have hn : 0 < src.verts.length := by omega
  have hve : src.verts[e]? = some v := by
    unfold cycAt at hv; rwa [Nat.mod_eq_of_lt hen] at hv
  have hve' : cycAt src (s + k) = some v := by rw [← cycAt_mod, hke]; exact hv
  have hwe' : cycAt src (s + k + 1) = some w := by
    have : cycAt src (s + k + 1) = cycAt src (e + 1) := by
      unfold cycAt; rw [← hke, Nat.mod_add_mod]
    rw [this]; exact hw
  unfold ViewData.create
  rw [if_neg (by omega)]
  simp only [bind, Except.bind, at_ok hve]
  rcases eq_or_lt_of_le hu0 with rfl | hup
  · rw [(segCurve_ends v w).1]
    simp only [fuzzy_refl v.pos he, if_true]
    by_cases hk1 : k - 1 = 0
    · have hk' : k = 1 := by omega
      subst hk'
      simp only [Nat.sub_self, ne_eq, not_true, if_false]
      obtain ⟨q, hq, hqc, htp⟩ := view_traces src ⟨s, 0, b, b.bulge, v.pos, false⟩ ⟨hs, Nat.zero_le _⟩ rfl t 1
        (fun _ z hz x => by rw [← htr v hve' x]; exact segCurve_congr rfl rfl hz x)
        (fun h => absurd h (by simp)) (fun h => absurd h (by simp))
      exact ⟨_, q, rfl, hq, hqc, fun _ => htp, fun h => absurd h (lt_irrefl _)⟩
    · have hp := prevWrap_lt src hen
      have hpe := prevWrap_eq src hen (k := s + (k - 1)) (by rw [show s + (k - 1) + 1 = s + k by omega]; exact hke)
      simp only [ne_eq, hk1, not_false_eq_true, if_true, at_lt hp]
      have hview := view_traces src ⟨s, k - 1, b, src.verts[src.prevWrap e].bulge, v.pos, false⟩
        ⟨hs, by show k - 1 ≤ _; omega⟩ rfl t 1 (fun h => absurd h hk1) (fun _ z hz x => htr z hz x) ?_
      · obtain ⟨q, hq, hqc, htp⟩ := hview
        exact ⟨_, q, rfl, hq, hqc, fun _ => htp, fun h => absurd h (lt_irrefl _)⟩
      · intro _ v0 hv0 z hz x
        have hv0' : cycAt src (s + (k - 1)) = some v0 := hv0
        have hb : src.verts[src.prevWrap e] = v0 := by
          have := hv0'
          unfold cycAt at this
          rw [← hpe, List.getElem?_eq_getElem hp] at this
          exact Option.some.inj this
        show segCurve ⟨v0.x, v0.y, src.verts[src.prevWrap e].bulge⟩ z x = curveAt src (s + (k - 1)) (1 * x)
        rw [curveAt_some hv0' (by rw [show s + (k - 1) + 1 = s + k by omega]; exact hve'), one_mul, hb]
        exact segCurve_congr rfl rfl hz x
  · have hnear : (segCurve v w u).fuzzyEqEps v.pos eps = false := by
      rcases hc with rfl | rfl | ⟨-, -, h, -⟩
      · exact absurd hup (lt_irrefl _)
      · rw [(segCurve_ends v w).2, fuzzy_comm]; exact hfull.apart
      · exact h
    have hnx := nextWrap_lt src hen
    have hnw : src.verts[src.nextWrap e] = w := by
      have := hw
      unfold cycAt at this
      rw [← nextWrap_eq src hen, List.getElem?_eq_getElem hnx] at this
      exact Option.some.inj this
    simp only [hnear, Bool.false_eq_true, if_false, at_lt hnx, hnw]
    have hview := view_traces src ⟨s, k, b, (segSplitAtPoint v w (segCurve v w u) eps).updatedStart.bulge, segCurve v w u, false⟩
      ⟨hs, hkn⟩ rfl t u (fun h => absurd (show k = 0 from h) (by omega)) (fun _ z hz x => htr z hz x) ?_
    · obtain ⟨q, hq, hqc, htp⟩ := hview
      exact ⟨_, q, rfl, hq, hqc, fun h => absurd h (ne_of_gt hup), fun _ => htp⟩
    · intro _ v0 hv0 z hz x
      have hv0' : cycAt src (s + k) = some v0 := hv0
      rw [hve'] at hv0'
      cases hv0'
      show _ = curveAt src (s + k) _
      rw [curveAt_some hve' hwe']
      exact end_bulge v w eps he hfull u hc hup (hlong hup) z hz x

/-- The answer `x` is a view along the part of the source from the fraction `t` of segment `s` to the fraction
`u` of segment `e` (for `u = 0` to the end of the segment before).  It goes once around at most, and is within
one segment exactly if the end comes after the start there. -/
def IsPartView (src : Pline ℝ) (x : M (Option (ViewData ℝ))) (s : Nat) (t : ℝ) (e : Nat) (u : ℝ) : Prop :=
  ∃ d q k, x = .ok (some d) ∧ d.toPline src = .ok q ∧ q.closed = false ∧ k ≤ src.verts.length ∧
    (s + k) % src.verts.length = (if u = 0 then e + src.verts.length - 1 else e) % src.verts.length ∧
    (k = 0 → t < if u = 0 then 1 else u) ∧ (k = src.verts.length → (if u = 0 then 1 else u) < t) ∧
    TracesPart src q s k t (if u = 0 then 1 else u)

/-- `from_slice_points` after the start has been settled. -/
theorem slice_core (src : Pline ℝ) (s e : Nat) (hs : s < src.verts.length) (hen : e < src.verts.length)
    (v w v' w' b : Vertex ℝ) (hv : cycAt src s = some v) (hw : cycAt src (s + 1) = some w)
    (hv' : cycAt src e = some v') (hw' : cycAt src (e + 1) = some w')
    (eps : ℝ) (he : 0 < eps) (t u : ℝ) (ht0 : 0 ≤ t) (ht1 : t < 1) (hu0 : 0 ≤ u) (hu1 : u ≤ 1)
    (hproper : s = e → FullSeg v w eps)
    (hb : b.pos = segCurve v w t) (hfullb : s = e → FullSeg b w eps) (hbl : IsLine v → IsLine b)
    (hba : ¬ IsLine v → ¬ IsLine b ∧ arctan b.bulge = (1 - t) * arctan v.bulge)
    (htr : ∀ x, segCurve b w x = segCurve v w (t + (1 - t) * x))
    (hfull : FullSeg v' w' eps) (hc : CleanCut v' w' u eps) (hne : (segCurve v w t).fuzzyEqEps (segCurve v' w' u) eps = false)
    (hopen : src.closed = false → s = e → t < u)
    (hlong : 0 < u → LongPart v' 0 u) (hlong1 : s = e → t < u → LongPart v t u) :
    IsPartView src (do
      let traverseCount ← do
        let indexDist := src.fwdDist s e
        if indexDist == 0 && src.closed && !(segCurve v w t).fuzzyEqEps (segCurve v' w' u) eps then do
          let segStart ← src.at s
          let dist1 := distSquared segStart.pos (segCurve v w t)
          let dist2 := distSquared segStart.pos (segCurve v' w' u)
          if Scalar.lt dist1 dist2 then .ok 0 else .ok src.vertexCount
        else .ok indexDist
      let startV2 ← src.at (src.nextWrap s)
      let updatedStart : Vertex ℝ :=
          if traverseCount = 0 then (segSplitAtPoint b startV2 (segCurve v' w' u) eps).updatedStart
          else b
      if traverseCount = 0 then .ok (ViewData.createOnSingleSegment s updatedStart (segCurve v' w' u) eps)
      else do
        let d ← ViewData.create src s (segCurve v' w' u) e updatedStart traverseCount eps
        .ok (some d) : M (Option (ViewData ℝ))) s t e u := by
  obtain ⟨hd1, hd2⟩ := fwdDist_spec src hs hen
  have hn : 0 < src.verts.length := by omega
  have hvs : src.verts[s]? = some v := by
    unfold cycAt at hv; rwa [Nat.mod_eq_of_lt hs] at hv
  have hnx := nextWrap_lt src hs
  have hnw : src.verts[src.nextWrap s] = w := by
    have := hw
    unfold cycAt at this
    rw [← nextWrap_eq src hs, List.getElem?_eq_getElem hnx] at this
    exact Option.some.inj this
  have same : s = e → v = v' ∧ w = w' := by
    rintro rfl
    rw [hv] at hv'; rw [hw] at hw'
    exact ⟨Option.some.inj hv', Option.some.inj hw'⟩
  -- once around, or not at all
  have fin : ∀ k, k ≤ src.verts.length → (s + k) % src.verts.length = e → (k = 0 → t < u) → (k = src.verts.length → u < t) →
      IsPartView src (if k = 0 then (.ok (ViewData.createOnSingleSegment s
          (if k = 0 then (segSplitAtPoint b w (segCurve v' w' u) eps).updatedStart else b) (segCurve v' w' u) eps) : M (Option (ViewData ℝ)))
        else Except.bind (ViewData.create src s (segCurve v' w' u) e
          (if k = 0 then (segSplitAtPoint b w (segCurve v' w' u) eps).updatedStart else b) k eps) (fun d => .ok (some d))) s t e u := by
    intro k hkn hke hk0 hkl
    by_cases hk : k = 0
    · have hse : s = e := by rw [← hke, hk, Nat.add_zero, Nat.mod_eq_of_lt hs]
      obtain ⟨rfl, rfl⟩ := same hse
      have hu : 0 < u := lt_of_le_of_lt ht0 (hk0 hk)
      obtain ⟨d, q, hd, hq, hqc, htp⟩ := slice_single src s hs v w b hv hw eps he t u ht0 ht1 (hk0 hk) hu1 hb (hfullb hse) hbl hba htr
        (by rcases hc with rfl | rfl | ⟨-, -, -, h⟩
            · exact absurd hu (lt_irrefl _)
            · exact Or.inl rfl
            · exact Or.inr h) hne (hlong1 hse (hk0 hk))
      simp only [hk, if_true]
      rw [hd]
      refine ⟨d, q, 0, rfl, hq, hqc, Nat.zero_le _, ?_, ?_, ?_, ?_⟩
      · rw [if_neg hu.ne', Nat.add_zero, hse]
      · rw [if_neg hu.ne']; exact fun _ => hk0 hk
      · intro h; omega
      · rw [if_neg hu.ne']; exact htp
    · obtain ⟨d, q, hd, hq, hqc, ht1', ht2⟩ := slice_many src s e k hs hen (by omega) hkn hke b v' w' hv' hw' eps he t u hu0
        (fun z hz x => by rw [hw] at hz; cases hz; rw [curveAt_some hv hw]; exact htr x) hfull hc hlong
      simp only [if_neg hk]
      rw [hd]
      rcases eq_or_lt_of_le hu0 with h0 | hup
      · subst h0
        refine ⟨d, q, k - 1, rfl, hq, hqc, by omega, ?_, ?_, ?_, ?_⟩
        · rw [if_pos rfl, ← hke, Nat.add_sub_assoc hn, Nat.mod_add_mod, ← Nat.add_sub_assoc (by omega : 1 ≤ src.verts.length),
            show s + k + src.verts.length - 1 = s + (k - 1) + src.verts.length by omega, Nat.add_mod_right]
        · rw [if_pos rfl]; exact fun _ => ht1
        · intro h; omega
        · rw [if_pos rfl]; exact ht1' rfl
      · refine ⟨d, q, k, rfl, hq, hqc, hkn, ?_, ?_, ?_, ?_⟩
        · rw [if_neg hup.ne', hke, Nat.mod_eq_of_lt hen]
        · exact fun h => absurd h hk
        · rw [if_neg hup.ne']; exact hkl
        · rw [if_neg hup.ne']; exact ht2 hup
  simp only [bind, Except.bind, at_lt hnx, hnw, at_ok hvs, hne, Bool.not_false, Bool.and_true]
  simp only [Except.bind] at fin
  by_cases h0 : src.fwdDist s e = 0
  · have hse : s = e := by rw [h0, Nat.add_zero, Nat.mod_eq_of_lt hs] at hd2; exact hd2
    obtain ⟨rfl, rfl⟩ := same hse
    rcases Bool.eq_false_or_eq_true src.closed with hcl | hcl
    · rw [hcl, h0]
      simp only [beq_self_eq_true, Bool.and_true, if_true]
      have hF := hproper hse
      by_cases htu : t < u
      · rw [if_pos (by
          rw [RealScalar.lt_eq]
          simpa using dist_from_start v w (hF.proper he) (fuzzy_ne he hF.apart) ht0 htu hu1)]
        exact fin 0 (Nat.zero_le _) (by rw [Nat.add_zero, Nat.mod_eq_of_lt hs, hse]) (fun _ => htu) (fun h => by omega)
      · have hut : u < t := by
          rcases lt_or_eq_of_le (not_lt.mp htu) with h | h
          · exact h
          · rw [h, fuzzy_refl _ he] at hne; cases hne
        rw [if_neg (by
          rw [RealScalar.lt_eq]
          simpa using (dist_from_start v w (hF.proper he) (fuzzy_ne he hF.apart) hu0 hut ht1.le).le)]
        exact fin src.verts.length le_rfl (by rw [mod_self_add hs, hse]) (fun h => by omega) (fun _ => hut)
    · rw [hcl, h0]
      simp only [Bool.and_false, Bool.false_eq_true, if_false]
      exact fin 0 (Nat.zero_le _) (by rw [Nat.add_zero, Nat.mod_eq_of_lt hs, hse]) (fun _ => hopen hcl hse) (fun h => by omega)
  · rw [show (src.fwdDist s e == 0) = false by simp [h0]]
    simp only [Bool.false_and, Bool.false_eq_true, if_false]
    exact fin _ hd1.le hd2 (fun h => absurd h h0) (fun h => by omega)

theorem IsPartView.mod {src : Pline ℝ} {x : M (Option (ViewData ℝ))} {s e : Nat} {t u : ℝ}
    (h : IsPartView src x (s % src.verts.length) t e u) : IsPartView src x s t e u := by
  obtain ⟨d, q, k, h1, h2, h3, h4, h5, h6, h7, h8⟩ := h
  exact ⟨d, q, k, h1, h2, h3, h4, by rw [← h5, Nat.mod_add_mod], h6, h7, h8.mod⟩

/-- **C21** over the reals.  Take a point on segment `s` and a point on segment `e` of a source, lines or arcs of
at most half a circle, each point at an end of its segment or further than `eps` from both ends, and the two points
not within `eps` of each other.  Then `from_slice_points` gives a view, and its segments run one for one along the
part of the source between the points: from the fraction `t` of segment `s`, over the whole segments in between,
to the fraction `u` of segment `e`, around the closing of a closed source if the end does not come later.  (No part
of an arc may be so short that the code takes its bulge for 0.) -/
theorem C21_traces (src : Pline ℝ) (s e : Nat) (v w v' w' : Vertex ℝ) (hv : src.verts[s]? = some v) (hw : cycAt src (s + 1) = some w)
    (hv' : src.verts[e]? = some v') (hw' : cycAt src (e + 1) = some w') (eps : ℝ) (he : 0 < eps)
    (hF : FullSeg v w eps) (hF' : FullSeg v' w' eps) (t u : ℝ) (ht : 0 ≤ t ∧ t ≤ 1) (hu : 0 ≤ u ∧ u ≤ 1)
    (hct : CleanCut v w t eps) (hcu : CleanCut v' w' u eps)
    (hne : (segCurve v w t).fuzzyEqEps (segCurve v' w' u) eps = false)
    (hopen : src.closed = false → s < e ∨ (s = e ∧ t < u))
    (hl1 : t < 1 → LongPart v t 1) (hl2 : 0 < u → LongPart v' 0 u) (hl3 : s = e → t < u → LongPart v t u) :
    IsPartView src (ViewData.fromSlicePoints src (segCurve v w t) s (segCurve v' w' u) e eps)
      (if t = 1 then s + 1 else s) (if t = 1 then 0 else t) e u := by
  obtain ⟨hs, hvs⟩ := List.getElem?_eq_some_iff.mp hv
  obtain ⟨hen, -⟩ := List.getElem?_eq_some_iff.mp hv'
  have hcv : cycAt src s = some v := by unfold cycAt; rw [Nat.mod_eq_of_lt hs]; exact hv
  have hcv' : cycAt src e = some v' := by unfold cycAt; rw [Nat.mod_eq_of_lt hen]; exact hv'
  have hnx := nextWrap_lt src hs
  have hnw : src.verts[src.nextWrap s] = w := by
    have := hw
    unfold cycAt at this
    rw [← nextWrap_eq src hs, List.getElem?_eq_getElem hnx] at this
    exact Option.some.inj this
  have hn : 0 < src.verts.length := by omega
  by_cases h1 : t = 1
  · subst h1
    rw [if_pos rfl, if_pos rfl]
    apply IsPartView.mod
    have hsm : (s + 1) % src.verts.length < src.verts.length := Nat.mod_lt _ hn
    obtain ⟨w2, hw2⟩ : ∃ w2, cycAt src ((s + 1) % src.verts.length + 1) = some w2 := ⟨_, ViewData.cycAt_some src hn _⟩
    have hwm : cycAt src ((s + 1) % src.verts.length) = some w := by rw [cycAt_mod]; exact hw
    have hst : segCurve v w 1 = segCurve w w2 0 := by rw [(segCurve_ends v w).2, (segCurve_ends w w2).1]
    have same : (s + 1) % src.verts.length = e → w = v' ∧ w2 = w' := by
      intro h
      rw [h] at hwm hw2
      rw [hcv'] at hwm; rw [hw'] at hw2
      exact ⟨(Option.some.inj hwm).symm, (Option.some.inj hw2).symm⟩
    have hfull : (s + 1) % src.verts.length = e → FullSeg w w2 eps := by
      intro h
      obtain ⟨rfl, rfl⟩ := same h
      exact hF'
    have hup : (s + 1) % src.verts.length = e → 0 < u := by
      intro h
      obtain ⟨rfl, rfl⟩ := same h
      rcases eq_or_lt_of_le hu.1 with h0 | h0
      · rw [← h0, hst, fuzzy_refl _ he] at hne; cases hne
      · exact h0
    have core := slice_core src ((s + 1) % src.verts.length) e hsm hen w w2 v' w' w hwm hw2 hcv' hw' eps he 0 u le_rfl
      zero_lt_one hu.1 hu.2 hfull (segCurve_ends w w2).1.symm hfull (fun h => h) (fun h => ⟨h, by ring⟩)
      (fun x => by congr 1; ring) hF' hcu (by rw [← hst]; exact hne) (fun _ h => hup h) hl2
      (fun h h0 => by obtain ⟨rfl, rfl⟩ := same h; exact hl2 h0)
    rw [← hst] at core
    have hguard : (!src.closed && decide (s ≥ e)) = false := by
      rcases Bool.eq_false_or_eq_true src.closed with hcl | hcl
      · rw [hcl]; rfl
      · have : s < e := by
          rcases hopen hcl with h | ⟨-, h⟩
          · exact h
          · exact absurd h (not_lt.mpr hu.2)
        simp [this]
    have hnear : w.pos.fuzzyEqEps (segCurve v w 1) eps = true := by rw [(segCurve_ends v w).2]; exact fuzzy_refl _ he
    have heq := nextWrap_eq src hs
    unfold ViewData.fromSlicePoints
    simp only [hguard, Bool.false_eq_true, if_false, bind, Except.bind, at_lt hnx, hnw, hnear, if_true]
    rw [← heq] at core ⊢
    simp only [bind, Except.bind, at_lt hnx, hnw, if_true] at core
    exact core
  · rw [if_neg h1, if_neg h1]
    have ht1 : t < 1 := lt_of_le_of_ne ht.2 h1
    have hb := start_base v w eps he hF t hct ht1 (hl1 ht1)
    dsimp only at hb
    obtain ⟨b1, b2, b3, b4, b5⟩ := hb
    have core := slice_core src s e hs hen v w v' w' _ hcv hw hcv' hw' eps he t u ht.1 ht1 hu.1 hu.2 (fun _ => hF) b1 (fun _ => b2) b3 b4 b5
      hF' hcu hne (fun hcl hse => by
        rcases hopen hcl with h | ⟨-, h⟩
        · omega
        · exact h) hl2 hl3
    have hnear : w.pos.fuzzyEqEps (segCurve v w t) eps = false := by
      rcases hct with rfl | rfl | ⟨-, -, -, h⟩
      · rw [(segCurve_ends v w).1, fuzzy_comm]; exact hF.apart
      · exact absurd rfl h1
      · rw [fuzzy_comm]; exact h
    unfold ViewData.fromSlicePoints
    simp only [bind, Except.bind] at core
    rcases Bool.eq_false_or_eq_true (!src.closed && decide (s ≥ e)) with hg | hg
    · simp only [hg, if_true, bind, Except.bind, at_lt hnx, hnw, at_ok hv, Bool.false_eq_true, if_false] at core ⊢
      exact core
    · simp only [hg, bind, Except.bind, at_lt hnx, hnw, at_ok hv, hnear, Bool.false_eq_true, if_false] at core ⊢
      exact core

theorem half_turn (p q : V2 ℝ) : arcPoint p q 1 (1 / 2) = ⟨(p.x + q.x) / 2 + (q.y - p.y) / 2, (p.y + q.y) / 2 - (q.x - p.x) / 2⟩ := by
  have h : (1 / 2 : ℝ) * (4 * arctan 1) = π / 2 := by rw [arctan_one]; ring
  simp only [arcPoint, arcCenter, rotV, h, cos_pi_div_two, sin_pi_div_two]
  rw [V2.ext_iff']
  constructor <;> ring

/-- Non-vacuity: the circle of two half circles, from the middle of the second half circle around its closing to the
middle of the first one. -/
example : let src : Pline ℝ := ⟨[⟨0, 0, 1⟩, ⟨2, 0, 1⟩], true⟩
    IsPartView src (ViewData.fromSlicePoints src ⟨1, 1⟩ 1 ⟨1, -1⟩ 0 (1 / 1000)) 1 (1 / 2) 0 (1 / 2) := by
  intro src
  have hnl : ∀ x y : ℝ, ¬ IsLine (⟨x, y, 1⟩ : Vertex ℝ) := fun x y h => by unfold IsLine at h; norm_num at h
  have c1 : segCurve (⟨2, 0, 1⟩ : Vertex ℝ) ⟨0, 0, 1⟩ (1 / 2) = ⟨1, 1⟩ := by
    rw [segCurve_arc (hnl _ _)]
    show arcPoint _ _ 1 (1 / 2) = _
    rw [half_turn]
    norm_num [Vertex.pos]
  have c2 : segCurve (⟨0, 0, 1⟩ : Vertex ℝ) ⟨2, 0, 1⟩ (1 / 2) = ⟨1, -1⟩ := by
    rw [segCurve_arc (hnl _ _)]
    show arcPoint _ _ 1 (1 / 2) = _
    rw [half_turn]
    norm_num [Vertex.pos]
  have far : ∀ a b : V2 ℝ, ¬ |a.x - b.x| < 1 / 1000 → a.fuzzyEqEps b (1 / 1000) = false := by
    intro a b h
    rw [Bool.eq_false_iff, Ne, V2.fuzzyEqEps_iff]
    exact fun h' => h h'.1
  have far' : ∀ a b : V2 ℝ, ¬ |a.y - b.y| < 1 / 1000 → a.fuzzyEqEps b (1 / 1000) = false := by
    intro a b h
    rw [Bool.eq_false_iff, Ne, V2.fuzzyEqEps_iff]
    exact fun h' => h h'.2
  have long : ∀ y : ℝ, y = 1 / 2 → 1 / 100000000 ≤ |tan (y * arctan 1)| := by
    rintro y rfl
    rw [arctan_one]
    have h1 := pi_gt_three
    have h2 : 1 / 2 * (π / 4) ≤ tan (1 / 2 * (π / 4)) := le_tan (by positivity) (by linarith)
    exact le_trans (by linarith) (le_abs_self _)
  have full : ∀ a b : ℝ, ¬ |a - b| < 1 / 1000 → FullSeg ⟨a, 0, 1⟩ ⟨b, 0, 1⟩ (1 / 1000) :=
    fun a b h => ⟨Or.inr ⟨hnl _ _, by norm_num⟩, far _ _ h⟩
  have h := C21_traces src 1 0 ⟨2, 0, 1⟩ ⟨0, 0, 1⟩ ⟨0, 0, 1⟩ ⟨2, 0, 1⟩ rfl (by simp [cycAt, src]) rfl (by simp [cycAt, src]) (1 / 1000) (by norm_num)
    (full _ _ (by norm_num)) (full _ _ (by norm_num)) (1 / 2) (1 / 2) (by norm_num) (by norm_num)
    (Or.inr (Or.inr ⟨by norm_num, by norm_num, by rw [c1]; exact far _ _ (by norm_num [Vertex.pos]),
      by rw [c1]; exact far _ _ (by norm_num [Vertex.pos])⟩))
    (Or.inr (Or.inr ⟨by norm_num, by norm_num, by rw [c2]; exact far _ _ (by norm_num [Vertex.pos]),
      by rw [c2]; exact far _ _ (by norm_num [Vertex.pos])⟩))
    (by rw [c1, c2]; exact far' _ _ (by norm_num)) (by intro h; cases h)
    (fun _ => Or.inr (long _ (by norm_num))) (fun _ => Or.inr (long _ (by norm_num))) (by intro h; cases h)
  rw [c1, c2, if_neg (by norm_num), if_neg (by norm_num)] at h
  exact h

end Cavc
