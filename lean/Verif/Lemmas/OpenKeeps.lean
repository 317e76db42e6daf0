import Verif.Spec.OffsetOpenCross
import Verif.Lemmas.OpenFoot
import Verif.Lemmas.OpenParts
import Verif.Lemmas.RawKeeps

/-! # Along the raw offset of an open polyline, the distance is given up and regained only at the cuts -/

set_option linter.unusedVariables false
set_option linter.unusedSectionVars false

namespace Cavc.Path
open RealScalar Pline Filter Topology

section
variable {p : Pline ℝ} {d : ℝ} {c : Nat → Corner} {eps : ℝ}

theorem next_to_side {q : RawPart} {m : Nat} (h : RawPart.side m = nextPart (innerCorner p c) q) :
    ∃ k, m = k + 1 ∧ ((q = .side k ∧ ∃ t u, innerCorner p c k = .cut t u) ∨ q = .corner k) := by
  cases q with
  | side k =>
    unfold nextPart at h
    cases hc : innerCorner p c k with
    | cut t u =>
      simp only [hc, RawPart.side.injEq] at h
      exact ⟨k, h, Or.inl ⟨rfl, t, u, hc⟩⟩
    | link b => simp [hc] at h
  | corner k =>
    simp only [nextPart, RawPart.side.injEq] at h
    exact ⟨k, h, Or.inr rfl⟩

theorem next_to_corner {k : Nat} {q : RawPart} (h : RawPart.corner k = nextPart (innerCorner p c) q) : q = .side k := by
  cases q with
  | side m =>
    unfold nextPart at h
    cases hc : innerCorner p c m with
    | cut t u => simp [hc] at h
    | link b => simp only [hc, RawPart.corner.injEq] at h; rw [h]
  | corner m => simp [nextPart] at h

theorem next_from_side {m : Nat} {q' : RawPart} (h : q' = nextPart (innerCorner p c) (.side m)) :
    ((∃ t u, innerCorner p c m = .cut t u) ∧ q' = .side (m + 1)) ∨ ((∃ b, innerCorner p c m = .link b) ∧ q' = .corner m) := by
  unfold nextPart at h
  cases hc : innerCorner p c m with
  | cut t u => exact Or.inl ⟨⟨t, u, rfl⟩, by simpa [hc] using h⟩
  | link b => exact Or.inr ⟨⟨b, rfl⟩, by simpa [hc] using h⟩

theorem inner_cut {k : Nat} (hk : k + 2 < p.verts.length) {t u : ℝ} (h : innerCorner p c k = .cut t u) : c k = .cut t u := by
  unfold innerCorner at h; rwa [if_pos hk] at h

theorem part_side {j m : Nat} (h : (pathParts p c)[j]? = some (.side m)) : m + 1 < p.verts.length := by
  rcases mem_pathParts.mp (List.mem_of_getElem? h) with ⟨k, hk, e⟩ | ⟨k, hk, b, hc, e⟩
  · injection e with e; rw [e]; exact hk
  · exact absurd e (by simp)

theorem part_corner {j k : Nat} (h : (pathParts p c)[j]? = some (.corner k)) : k + 2 < p.verts.length ∧ ∃ b, c k = .link b := by
  rcases mem_pathParts.mp (List.mem_of_getElem? h) with ⟨k', hk, e⟩ | ⟨k', hk, b, hc, e⟩
  · exact absurd e (by simp)
  · injection e with e; rw [e]; exact ⟨hk, b, hc⟩

section
variable (he : 0 < eps) (h : ClearPath p d c eps)
include he h

theorem side_far {k : Nat} (hk : k + 1 < p.verts.length) (u : ℝ) : FarSeg p |d| (parCurve p d k u) k := by
  obtain ⟨A, B, C, D, h1, -, h3⟩ := side_quad (shapeAt h.path he hk) h.moves ((h.radius k hk).imp id fun h => lt_of_lt_of_le (by norm_num) h)
  exact h3 _ (h1 u).ge

theorem parts_range {j : Nat} : j < (pathParts p c).length ↔ j + 1 < (rawPath p d c).verts.length := by
  rw [pathParts_length p d c h.path.two]; omega

variable (hC : CleanPath p d c)
include hC

/-- a point of a parallel segment that keeps the distance is on the raw offset -/
theorem kept_range {m : Nat} (hm : m + 1 < p.verts.length) {u : ℝ} (u0 : 0 ≤ u) (u1 : u ≤ 1) (hX : Keeps p |d| (parCurve p d m u)) : pathEnter c m ≤ u ∧ u ≤ pathLeave p c m := by
  constructor
  · unfold pathEnter
    split_ifs with h0
    · exact u0
    · obtain ⟨j, rfl⟩ : ∃ j, m = j + 1 := ⟨m - 1, by omega⟩
      have hcor := hC j (by omega)
      rw [Nat.add_sub_cancel]
      cases hcj : c j with
      | link b => exact u0
      | cut t v =>
        rw [hcj] at hcor
        cases hcor with
        | cut _ _ side stop start =>
          by_contra hlt
          exact start u u0 (not_le.mp hlt) hX
  · unfold pathLeave
    split_ifs with h0
    · have hcor := hC m h0
      cases hcj : c m with
      | link b => exact u1
      | cut t v =>
        rw [hcj] at hcor
        cases hcor with
        | cut _ _ side stop start =>
          by_contra hlt
          exact stop u (not_le.mp hlt) u1 hX
    · exact u1

theorem carrier_side {m : Nat} (hm : m + 1 < p.verts.length) {u : ℝ} (u0 : 0 ≤ u) (u1 : u ≤ 1) (hX : Keeps p |d| (parCurve p d m u)) :
    ∃ j s, (pathParts p c)[j]? = some (.side m) ∧ 0 ≤ s ∧ s ≤ 1 ∧ u = pathEnter c m + (pathLeave p c m - pathEnter c m) * s ∧
      parCurve p d m u = curveAt (rawPath p d c) j s := by
  obtain ⟨r1, r2⟩ := kept_range he h hC hm u0 u1 hX
  have hlt := h.forward m hm
  obtain ⟨j, hj, hq⟩ := List.getElem_of_mem (mem_pathParts.mpr (Or.inl ⟨m, hm, rfl⟩) : RawPart.side m ∈ pathParts p c)
  have hq' : (pathParts p c)[j]? = some (.side m) := by rw [List.getElem?_eq_getElem hj, hq]
  have hu : u = pathEnter c m + (pathLeave p c m - pathEnter c m) * ((u - pathEnter c m) / (pathLeave p c m - pathEnter c m)) := by
    field_simp [sub_ne_zero.mpr hlt.ne']
    ring
  refine ⟨j, (u - pathEnter c m) / (pathLeave p c m - pathEnter c m), hq', div_nonneg (by linarith) (by linarith), (div_le_one (by linarith)).mpr (by linarith), hu, ?_⟩
  rw [pathPart_curve he h hq']
  simp only [pathCurve]
  rw [← hu]

theorem round_arc {k : Nat} (hk : k + 2 < p.verts.length) (hs : d * cornerSin p k < 0) : (∃ b, c k = .link b) ∧ pathCurve p d c (.corner k) = roundArc p d k := by
  have hcor := hC k hk
  generalize hcc : c k = cc at hcor
  cases hcor with
  | cut _ _ side' _ _ => exact absurd hs (not_lt.mpr side')
  | lost _ side' _ => exact absurd hs (not_lt.mpr side')
  | round _ bent =>
    refine ⟨⟨_, rfl⟩, ?_⟩
    funext t
    simp only [pathCurve, (inner_link p c).mpr ⟨hk, hcc⟩]
    exact round_link_open he (h.ok (by omega)) (h.ok (by omega)) (by rintro e; rw [e, mul_zero] at hs; exact lt_irrefl _ hs) bent t

theorem carrier_round {k : Nat} (hk : k + 2 < p.verts.length) (hs : d * cornerSin p k < 0) :
    ∃ j, (pathParts p c)[j]? = some (.corner k) ∧ ∀ s, curveAt (rawPath p d c) j s = roundArc p d k s := by
  obtain ⟨⟨b, hb⟩, hcv⟩ := round_arc he h hC hk hs
  obtain ⟨j, hj, hq⟩ := List.getElem_of_mem (mem_pathParts.mpr (Or.inr ⟨k, hk, b, hb, rfl⟩) : RawPart.corner k ∈ pathParts p c)
  have hq' : (pathParts p c)[j]? = some (.corner k) := by rw [List.getElem?_eq_getElem hj, hq]
  exact ⟨j, hq', fun s => by rw [pathPart_curve he h hq', hcv]⟩

/-- a link with a point that keeps the distance is the arc around the corner -/
theorem kept_round {j k : Nat} (hq : (pathParts p c)[j]? = some (.corner k)) {t : ℝ} (t0 : 0 ≤ t) (t1 : t ≤ 1) (hX : Keeps p |d| (curveAt (rawPath p d c) j t)) :
    k + 2 < p.verts.length ∧ d * cornerSin p k < 0 ∧ (∃ b, c k = .link b) ∧ ∀ s, curveAt (rawPath p d c) j s = roundArc p d k s := by
  obtain ⟨hk, b, hc⟩ := part_corner hq
  have hs : d * cornerSin p k < 0 := by
    by_contra hneg
    have hcor := hC k hk
    rw [pathPart_curve he h hq] at hX
    simp only [pathCurve, (inner_link p c).mpr ⟨hk, hc⟩] at hX
    rw [hc] at hcor
    cases hcor with
    | round side _ => exact hneg side
    | lost _ _ near => exact near _ ⟨t, t0, t1, rfl⟩ hX
  refine ⟨hk, hs, ⟨b, hc⟩, fun s => ?_⟩
  rw [pathPart_curve he h hq, (round_arc he h hC hk hs).2]

/-- the side of a part on which the distance from what it belongs to is kept -/
theorem part_quad {j : Nat} {q : RawPart} (hq : (pathParts p c)[j]? = some q) {t : ℝ} (t0 : 0 ≤ t) (t1 : t ≤ 1) (hX : Keeps p |d| (curveAt (rawPath p d c) j t)) :
    ∃ A B C D, (∀ s, quad A B C D (curveAt (rawPath p d c) j s) = 0) ∧ (∀ s, QuadGrad A B C (curveAt (rawPath p d c) j s)) ∧
      ∀ Y, 0 ≤ quad A B C D Y → (∀ m, q = .side m → FarSeg p |d| Y m) ∧ ∀ k, q = .corner k → |d| ≤ edist Y (cornerPos p (k + 1)) := by
  cases q with
  | side m =>
    have hm := part_side hq
    obtain ⟨A, B, C, D, h1, h2, h3⟩ := side_quad (shapeAt h.path he hm) h.moves ((h.radius m hm).imp id fun h => lt_of_lt_of_le (by norm_num) h)
    refine ⟨A, B, C, D, fun s => ?_, fun s => ?_, fun Y hY => ⟨fun m' e => ?_, fun k e => absurd e (by simp)⟩⟩
    · rw [pathPart_curve he h hq]; exact h1 _
    · rw [pathPart_curve he h hq]; exact h2 _
    · injection e with e
      rw [← e]; exact h3 Y hY
  | corner k =>
    obtain ⟨hk, hs, -, hcv⟩ := kept_round he h hC hq t0 t1 hX
    obtain ⟨A, B, C, D, h1, h2⟩ := round_quad h.moves (cornerPos p (k + 1))
    have hdist : ∀ s, edist (curveAt (rawPath p d c) j s) (cornerPos p (k + 1)) = |d| := by
      intro s; rw [hcv]; exact cornerArc_dist (arrive_ne h.path he (by omega)) d s
    refine ⟨A, B, C, D, fun s => (h1 _ (hdist s)).1, fun s => (h1 _ (hdist s)).2, fun Y hY => ⟨fun m e => absurd e (by simp), fun k' e => ?_⟩⟩
    injection e with e
    rw [← e]; exact h2 Y hY

variable {D : Pline ℝ} {gap : ℝ} {C : List Cut} (hO : OpenCuts p (rawPath p d c) D |d| eps gap C)
include hO

/-- two parts through one point -/
theorem same_point {i j : Nat} {q q' : RawPart} (hq : (pathParts p c)[i]? = some q) (hq' : (pathParts p c)[j]? = some q') {t s : ℝ} (t0 : 0 ≤ t) (t1 : t ≤ 1)
    (s0 : 0 ≤ s) (s1 : s ≤ 1) (hX : curveAt (rawPath p d c) i t = curveAt (rawPath p d c) j s) :
    i = j ∨ (q' = nextPart (innerCorner p c) q ∧ t = 1 ∧ s = 0) ∨ (q = nextPart (innerCorner p c) q' ∧ s = 1 ∧ t = 0) ∨ ((i, t) ∈ C ∧ (j, s) ∈ C) := by
  have hi := (List.getElem?_eq_some_iff.mp hq).1
  have hj := (List.getElem?_eq_some_iff.mp hq').1
  rcases Nat.lt_trichotomy i j with hlt | heq | hlt
  · rcases hO.self i t j s hlt ((parts_range he h).mp hj) t0 t1 s0 s1 hX with ⟨rfl, e2, e3⟩ | hm
    · refine Or.inr (Or.inl ⟨?_, e2, e3⟩)
      have := (pathPart_next hq).1 hj
      rw [hq'] at this
      exact Option.some.inj this
    · exact Or.inr (Or.inr (Or.inr hm))
  · exact Or.inl heq
  · rcases hO.self j s i t hlt ((parts_range he h).mp hi) s0 s1 t0 t1 hX.symm with ⟨rfl, e2, e3⟩ | hm
    · refine Or.inr (Or.inr (Or.inl ⟨?_, e2, e3⟩))
      have := (pathPart_next hq').1 hi
      rw [hq] at this
      exact Option.some.inj this
    · exact Or.inr (Or.inr (Or.inr hm.symm))

end

/-- the first and the last vertex -/
theorem end_pos (h2 : 2 ≤ p.verts.length) {k : Nat} (hk : k = 0 ∨ k + 1 = p.verts.length) :
    ∃ v, IsEnd p v ∧ v.pos = cornerPos p k ∧ (k = 0 → p.verts.head? = some v) ∧ (k + 1 = p.verts.length → p.verts.getLast? = some v) := by
  have hv := vtx_at (p := p) (i := k) (by omega)
  rcases hk with rfl | hk
  · have h0 : p.verts.head? = some (vtx p 0) := by rw [List.head?_eq_getElem?]; exact hv
    exact ⟨vtx p 0, Or.inl h0, rfl, fun _ => h0, fun h => by omega⟩
  · have h0 : p.verts.getLast? = some (vtx p k) := by rw [List.getLast?_eq_getElem?, ← hk, Nat.add_sub_cancel]; exact hv
    exact ⟨vtx p k, Or.inr h0, rfl, fun h => by omega, fun _ => h0⟩

section
variable (he : 0 < eps) (h : ClearPath p d c eps) (hC : CleanPath p d c) {c' : Nat → Corner} (h' : ClearPath p (-d) c' eps) (hC' : CleanPath p (-d) c')
  {gap : ℝ} {C : List Cut} (hO : OpenCuts p (rawPath p d c) (rawPath p (-d) c') |d| eps gap C) (hF : FreePath p d c)
include he h hC h' hC' hO hF

/-- a point that keeps the distance and is not on the other raw offset is not on the other parallel curve -/
theorem not_other {X : V2 ℝ} (hX : Keeps p |d| X) (hn : ¬ OnPline (rawPath p (-d) c') X) :
    (∀ m u, m + 1 < p.verts.length → 0 ≤ u → u ≤ 1 → X ≠ parCurve p (-d) m u) ∧
      ∀ k s, k + 2 < p.verts.length → -d * cornerSin p k < 0 → 0 ≤ s → s ≤ 1 → X ≠ roundArc p (-d) k s := by
  have hX' : Keeps p |-d| X := by rwa [abs_neg]
  constructor
  · intro m u hm u0 u1 e
    exact hn ((path_parallel he h' hC' X).mpr ⟨hX', Or.inl ⟨m, u, hm, u0, u1, e⟩⟩).1
  · intro k s hk hs s0 s1 e
    exact hn ((path_parallel he h' hC' X).mpr ⟨hX', Or.inr ⟨k, s, hk, hs, s0, s1, e⟩⟩).1

theorem path_steady (hE : EndsFree p (rawPath p d c) |d|) {i : Nat} (hi : i + 1 < (rawPath p d c).verts.length) {t : ℝ} (t0 : 0 ≤ t) (t1 : t ≤ 1) (hcut : (i, t) ∉ C)
    (hk : Keeps p |d| (curveAt (rawPath p d c) i t)) :
    ∃ δ > 0, ∀ t', 0 ≤ t' → t' ≤ 1 → |t' - t| < δ → Keeps p |d| (curveAt (rawPath p d c) i t') := by
  have hR : 0 < (rawPath p d c).verts.length := by omega
  have hi' : i < (pathParts p c).length := (parts_range he h).mpr hi
  set q := (pathParts p c)[i] with hqd
  have hq : (pathParts p c)[i]? = some q := List.getElem?_eq_getElem hi'
  have hcv := pathPart_curve he h hq
  have hcont := curveAt_continuous hR i
  obtain ⟨no1, no2⟩ := not_other he h hC h' hC' hO hF hk (fun hon => hcut (hO.other i t hi t0 t1 hon))
  have hev : ∀ᶠ τ in 𝓝[Set.Icc 0 1] t, Keeps p |d| (curveAt (rawPath p d c) i τ) := by
    refine keeps_near h.path he h.moves hF.turn hk (((continuous_fst.comp hcont).tendsto t).mono_left nhdsWithin_le_nhds)
      (((continuous_snd.comp hcont).tendsto t).mono_left nhdsWithin_le_nhds) ?_ ?_ ?_
    · rintro e (rfl | rfl) m u hm u0 u1 hXm
      swap
      · exact absurd hXm (no1 m u hm u0 u1)
      obtain ⟨j, s, hj, s0, s1, hu, hcs⟩ := carrier_side he h hC hm u0 u1 (hXm ▸ hk)
      rcases same_point he h hC hO hq hj t0 t1 s0 s1 (hXm.trans hcs) with rfl | ⟨hf, rfl, rfl⟩ | ⟨hf, rfl, rfl⟩ | hm'
      · left
        have e : q = .side m := Option.some.inj (hq.symm.trans hj)
        refine Eventually.of_forall fun τ => ?_
        rw [hcv, e]
        exact side_far he h hm _
      · obtain ⟨k, rfl, ⟨e, t₀, u₀, hc⟩ | e⟩ := next_to_side hf
        · left
          have hc := inner_cut (by omega) hc
          obtain ⟨δ, hδ, hb⟩ := hF.before k (by omega) t₀ u₀ hc
          have hlt := h.forward k (by omega)
          have hle : pathLeave p c k = t₀ := by unfold pathLeave; rw [if_pos (by omega), hc]; rfl
          have hgt : ∀ᶠ τ in 𝓝[Set.Icc 0 1] (1 : ℝ), t₀ - δ < pathEnter c k + (pathLeave p c k - pathEnter c k) * τ := by
            have hcn : Continuous fun τ : ℝ => pathEnter c k + (pathLeave p c k - pathEnter c k) * τ := by fun_prop
            exact ((hcn.tendsto 1).eventually (lt_mem_nhds (by rw [mul_one, hle]; linarith))).filter_mono nhdsWithin_le_nhds
          filter_upwards [hgt, self_mem_nhdsWithin] with τ h1 h2
          rw [hcv, e]
          refine hb _ h1 ?_
          rw [← hle]
          nlinarith [h2.2]
        · right; right
          obtain ⟨hkn, hs, ⟨b, hc⟩, hrc⟩ := kept_round he h hC (by rw [← e]; exact hq) t0 t1 hk
          refine ⟨?_, k, rfl, hs, ?_⟩
          · rw [hu, mul_zero, add_zero]; unfold pathEnter; rw [if_neg (by omega), Nat.add_sub_cancel, hc]; rfl
          · filter_upwards [self_mem_nhdsWithin] with τ hτ
            exact ⟨τ, hτ.1, hτ.2, hrc τ⟩
      · rcases next_from_side hf with ⟨⟨t₀, u₀, hc⟩, e⟩ | ⟨⟨b, hc⟩, e⟩
        · left
          have hm2 := part_side (by rw [← e]; exact hq)
          have hc := inner_cut (by omega) hc
          obtain ⟨δ, hδ, hb⟩ := hF.after m (by omega) t₀ u₀ hc
          have hlt := h.forward (m + 1) hm2
          have hen : pathEnter c (m + 1) = u₀ := by unfold pathEnter; rw [if_neg (by omega), Nat.add_sub_cancel, hc]; rfl
          have hgt : ∀ᶠ τ in 𝓝[Set.Icc 0 1] (0 : ℝ), pathEnter c (m + 1) + (pathLeave p c (m + 1) - pathEnter c (m + 1)) * τ < u₀ + δ := by
            have hcn : Continuous fun τ : ℝ => pathEnter c (m + 1) + (pathLeave p c (m + 1) - pathEnter c (m + 1)) * τ := by fun_prop
            exact ((hcn.tendsto 0).eventually (gt_mem_nhds (by rw [mul_zero, hen]; linarith))).filter_mono nhdsWithin_le_nhds
          filter_upwards [hgt, self_mem_nhdsWithin] with τ h1 h2
          rw [hcv, e]
          refine hb _ ?_ h1
          rw [← hen]
          nlinarith [h2.1]
        · right; left
          obtain ⟨hkn, hs, -, hrc⟩ := kept_round he h hC (by rw [← e]; exact hq) t0 t1 hk
          refine ⟨?_, hkn, hs, ?_⟩
          · have hle : pathLeave p c m = 1 := by unfold pathLeave; rw [if_pos hkn, ((inner_link p c).mp hc).2]; rfl
            rw [hu, hle]; ring
          · filter_upwards [self_mem_nhdsWithin] with τ hτ
            exact ⟨τ, hτ.1, hτ.2, hrc τ⟩
      · exact absurd hm'.1 hcut
    · rintro e (rfl | rfl) k s hkn hs s0 s1 hXk
      swap
      · exact absurd hXk (no2 k s hkn hs s0 s1)
      obtain ⟨j, hj, hrc⟩ := carrier_round he h hC hkn hs
      rcases same_point he h hC hO hq hj t0 t1 s0 s1 (hXk.trans (hrc s).symm) with rfl | ⟨hf, rfl, rfl⟩ | ⟨hf, rfl, rfl⟩ | hm
      · refine Eventually.of_forall fun τ => ?_
        rw [hrc]
        exact (cornerArc_dist (arrive_ne h.path he (by omega)) _ τ).ge
      · have e := next_to_corner hf
        refine Eventually.of_forall fun τ => ?_
        rw [hcv, e]
        exact side_far he h (k := k) (by omega) _ _ (onSeg_end _ _)
      · have e : q = .side (k + 1) := hf
        refine Eventually.of_forall fun τ => ?_
        rw [hcv, e]
        exact side_far he h (k := k + 1) (by omega) _ _ (onSeg_start _ _)
      · exact absurd hm.1 hcut
    · intro k hkk hXk
      obtain ⟨v, hv, hvp, hv0, hv1⟩ := end_pos h.path.two hkk
      rw [← hvp] at hXk ⊢
      rcases hO.circles v hv i t hi t0 t1 hXk with hm | ⟨rfl, rfl⟩ | ⟨hl, rfl⟩
      · exact absurd hm hcut
      · rcases hkk with rfl | hkk
        · have e : q = .side 0 := Option.some.inj (hq.symm.trans (pathPart_zero h.path.two))
          refine Eventually.of_forall fun τ => ?_
          rw [hcv, e, hvp]
          exact side_far he h (k := 0) (by have := h.path.two; omega) _ _ (onSeg_start _ _)
        · exact absurd hXk (hE.start v (hv1 hkk))
      · rcases hkk with rfl | hkk
        · refine absurd ?_ (hE.stop v (hv0 rfl))
          rw [← hl, Nat.add_sub_cancel]
          exact hXk
        · have hlen : i + 1 = (pathParts p c).length := by rw [pathParts_length p d c h.path.two] at hl; omega
          obtain ⟨m, hm, e | e⟩ := next_to_side ((pathPart_next hq).2 hlen).symm
          · refine Eventually.of_forall fun τ => ?_
            rw [hcv, e.1, hvp, show k = m + 1 by omega]
            exact side_far he h (k := m) (by omega) _ _ (onSeg_end _ _)
          · have := part_corner (by rw [← e]; exact hq)
            omega
  obtain ⟨δ, hδ, hball⟩ := Metric.mem_nhdsWithin_iff.mp hev
  exact ⟨δ, hδ, fun t' h0 h1 ht => hball ⟨by rw [Metric.mem_ball, Real.dist_eq]; exact ht, h0, h1⟩⟩

end

section
variable (he : 0 < eps) (h : ClearPath p d c eps) (hC : CleanPath p d c)
include he h hC

/-- all feet of a point are found on the parts through it -/
theorem feet {F : Filter ℝ} {X : V2 ℝ} {Y : ℝ → V2 ℝ} (hX : Keeps p |d| X)
    (W : ∀ j s q', (pathParts p c)[j]? = some q' → 0 ≤ s → s ≤ 1 → X = curveAt (rawPath p d c) j s →
      ∀ᶠ τ in F, (∀ m, q' = .side m → FarSeg p |d| (Y τ) m) ∧ ∀ k, q' = .corner k → |d| ≤ edist (Y τ) (cornerPos p (k + 1))) :
    (∀ m u, m + 1 < p.verts.length → 0 ≤ u → u ≤ 1 → X = parCurve p d m u → ∀ᶠ τ in F, FarSeg p |d| (Y τ) m) ∧
      ∀ k s, k + 2 < p.verts.length → d * cornerSin p k < 0 → 0 ≤ s → s ≤ 1 → X = roundArc p d k s → ∀ᶠ τ in F, |d| ≤ edist (Y τ) (cornerPos p (k + 1)) := by
  constructor
  · intro m u hm u0 u1 e
    obtain ⟨j, s, hj, s0, s1, -, hcs⟩ := carrier_side he h hC hm u0 u1 (e ▸ hX)
    exact (W j s _ hj s0 s1 (e.trans hcs)).mono fun τ hτ => hτ.1 m rfl
  · intro k s hk hs s0 s1 e
    obtain ⟨j, hj, hrc⟩ := carrier_round he h hC hk hs
    exact (W j s _ hj s0 s1 (e.trans (hrc s).symm)).mono fun τ hτ => hτ.2 k rfl

/-- a part keeps its distance from what it belongs to -/
theorem own {j : Nat} {q : RawPart} (hq : (pathParts p c)[j]? = some q) {t : ℝ} (t0 : 0 ≤ t) (t1 : t ≤ 1) (hX : Keeps p |d| (curveAt (rawPath p d c) j t)) (s : ℝ) :
    (∀ m, q = .side m → FarSeg p |d| (curveAt (rawPath p d c) j s) m) ∧ ∀ k, q = .corner k → |d| ≤ edist (curveAt (rawPath p d c) j s) (cornerPos p (k + 1)) := by
  obtain ⟨A, B, C, D, hz, -, hfar⟩ := part_quad he h hC hq t0 t1 hX
  exact hfar _ (hz s).ge

end

/-- the circle around a point, run through from another point -/
theorem circle_sides {f : ℝ → V2 ℝ} {t d : ℝ} (hd : d ≠ 0) {v : V2 ℝ} {a b : ℝ} (h1 : HasDerivAt (fun s => (f s).x) a t) (h2 : HasDerivAt (fun s => (f s).y) b t)
    (hv : edist (f t) v = |d|) (hang : a * ((f t).x - v.x) + b * ((f t).y - v.y) ≠ 0) :
    ∃ σ : ℝ, (σ = 1 ∨ σ = -1) ∧ ∀ᶠ s in 𝓝[>] (0 : ℝ), |d| ≤ edist (f (t + σ * s)) v := by
  obtain ⟨A, B, C, D, q1, q2⟩ := round_quad hd v
  have hg : ∀ s : ℝ, edist (⟨v.x + (((f t).x - v.x) * Real.cos s - ((f t).y - v.y) * Real.sin s), v.y + (((f t).y - v.y) * Real.cos s + ((f t).x - v.x) * Real.sin s)⟩ : V2 ℝ) v = |d| := by
    intro s
    rw [← hv]
    have e1 := edist_sq (⟨v.x + (((f t).x - v.x) * Real.cos s - ((f t).y - v.y) * Real.sin s), v.y + (((f t).y - v.y) * Real.cos s + ((f t).x - v.x) * Real.sin s)⟩ : V2 ℝ) v
    have e2 := edist_sq (f t) v
    refine (sq_eq_sq₀ (edist_nonneg _ _) (edist_nonneg _ _)).mp ?_
    rw [e1, e2]
    dsimp only
    have := Real.sin_sq_add_cos_sq s
    linear_combination (((f t).x - v.x) ^ 2 + ((f t).y - v.y) ^ 2) * this
  obtain ⟨σ, hσ, hpos⟩ := quad_sides (A := A) (B := B) (C := C) (D := D) (u := 0) (a' := -((f t).y - v.y)) (b' := (f t).x - v.x)
    (g := fun s => ⟨v.x + (((f t).x - v.x) * Real.cos s - ((f t).y - v.y) * Real.sin s), v.y + (((f t).y - v.y) * Real.cos s + ((f t).x - v.x) * Real.sin s)⟩) h1 h2
    (by
      have := (((Real.hasDerivAt_cos 0).const_mul ((f t).x - v.x)).sub ((Real.hasDerivAt_sin 0).const_mul ((f t).y - v.y))).const_add v.x
      refine this.congr_deriv ?_
      simp)
    (by
      have := (((Real.hasDerivAt_cos 0).const_mul ((f t).y - v.y)).add ((Real.hasDerivAt_sin 0).const_mul ((f t).x - v.x))).const_add v.y
      refine this.congr_deriv ?_
      simp)
    (by rw [V2.ext_iff']; simp) (by intro h; apply hang; linarith) (fun s => (q1 _ (hg s)).1) (q1 _ (hg 0)).2
  exact ⟨σ, hσ, hpos.mono fun s hs => q2 _ hs⟩

section
variable (he : 0 < eps) (h : ClearPath p d c eps) (hC : CleanPath p d c) {c' : Nat → Corner} (h' : ClearPath p (-d) c' eps) (hC' : CleanPath p (-d) c')
  {gap : ℝ} {C : List Cut} (hO : OpenCuts p (rawPath p d c) (rawPath p (-d) c') |d| eps gap C) (hF : FreePath p d c)
include he h hC h' hC' hO hF

theorem path_leave {i : Nat} {t : ℝ} (hcut : (i, t) ∈ C) (hk : Keeps p |d| (curveAt (rawPath p d c) i t))
    (hK : CutKind p (rawPath p d c) (rawPath p (-d) c') |d| C (i, t)) :
    ∃ σ : ℝ, (σ = 1 ∨ σ = -1) ∧ ∃ δ > 0, ∀ s, 0 < s → s < δ → Keeps p |d| (curveAt (rawPath p d c) i (t + σ * s)) := by
  have hi := hO.range _ hcut
  have hok := hO.ok _ hcut
  obtain ⟨t0, t1⟩ : 0 < t ∧ t < 1 := ⟨hok.pos, hok.lt⟩
  have hR : 0 < (rawPath p d c).verts.length := by dsimp only at hi; omega
  have hD : 0 < (rawPath p (-d) c').verts.length := by have := h'.full.two; omega
  obtain ⟨q, hq⟩ : ∃ q, (pathParts p c)[i]? = some q := ⟨_, List.getElem?_eq_getElem ((parts_range he h).mpr hi)⟩
  have hcont := curveAt_continuous hR i
  obtain ⟨l, hl, f1, f2⟩ := seg_deriv (shapeAt h.full he hi) t
  dsimp only at f1 f2
  simp only [← curveAt_vtx hR] at f1 f2
  have hdual : ∀ j s q', (pathParts p c')[j]? = some q' → 0 ≤ s → s ≤ 1 → curveAt (rawPath p d c) i t = curveAt (rawPath p (-d) c') j s →
      OnPline (rawPath p (-d) c') (curveAt (rawPath p d c) i t) := fun j s q' hj s0 s1 e =>
    (open_on h'.full _).mpr ⟨j, s, (parts_range he h').mp (List.getElem?_eq_some_iff.mp hj).1, s0, s1, e⟩
  have hpass : ∀ j s q', (pathParts p c)[j]? = some q' → 0 ≤ s → s ≤ 1 → curveAt (rawPath p d c) i t = curveAt (rawPath p d c) j s → i = j ∨ (j, s) ∈ C := by
    intro j s q' hj s0 s1 e
    rcases same_point he h hC hO hq hj t0.le t1.le s0 s1 e with h1 | ⟨-, h1, -⟩ | ⟨-, -, h1⟩ | h1
    · exact Or.inl h1
    · linarith
    · linarith
    · exact Or.inr h1.2
  -- the end of the proof, the same for all kinds
  have core : ∀ σ : ℝ,
      (∀ j s q', (pathParts p c)[j]? = some q' → 0 ≤ s → s ≤ 1 → curveAt (rawPath p d c) i t = curveAt (rawPath p d c) j s →
        ∀ᶠ τ in 𝓝[>] (0 : ℝ), (∀ m, q' = .side m → FarSeg p |d| (curveAt (rawPath p d c) i (t + σ * τ)) m) ∧
          ∀ k, q' = .corner k → |d| ≤ edist (curveAt (rawPath p d c) i (t + σ * τ)) (cornerPos p (k + 1))) →
      (∀ j s q', (pathParts p c')[j]? = some q' → 0 ≤ s → s ≤ 1 → curveAt (rawPath p d c) i t = curveAt (rawPath p (-d) c') j s →
        ∀ᶠ τ in 𝓝[>] (0 : ℝ), (∀ m, q' = .side m → FarSeg p |d| (curveAt (rawPath p d c) i (t + σ * τ)) m) ∧
          ∀ k, q' = .corner k → |d| ≤ edist (curveAt (rawPath p d c) i (t + σ * τ)) (cornerPos p (k + 1))) →
      (∀ k, k = 0 ∨ k + 1 = p.verts.length → edist (curveAt (rawPath p d c) i t) (cornerPos p k) = |d| →
        ∀ᶠ τ in 𝓝[>] (0 : ℝ), |d| ≤ edist (curveAt (rawPath p d c) i (t + σ * τ)) (cornerPos p k)) →
      ∃ δ > 0, ∀ s, 0 < s → s < δ → Keeps p |d| (curveAt (rawPath p d c) i (t + σ * s)) := by
    intro σ W W' K3
    have hline : Tendsto (fun s : ℝ => t + σ * s) (𝓝[>] 0) (𝓝 t) := by
      have hcn : Continuous fun s : ℝ => t + σ * s := by fun_prop
      have := hcn.tendsto 0
      rw [mul_zero, add_zero] at this
      exact this.mono_left nhdsWithin_le_nhds
    obtain ⟨a1, a2⟩ := feet he h hC hk W
    obtain ⟨b1, b2⟩ := feet he h' hC' (by rwa [abs_neg]) (by simpa only [abs_neg] using W')
    simp only [abs_neg] at b1 b2
    have hev : ∀ᶠ s in 𝓝[>] (0 : ℝ), Keeps p |d| (curveAt (rawPath p d c) i (t + σ * s)) := by
      refine keeps_near h.path he h.moves hF.turn hk (((continuous_fst.comp hcont).tendsto t).comp hline)
        (((continuous_snd.comp hcont).tendsto t).comp hline) ?_ ?_ K3
      · rintro e (he' | he') m u hm u0 u1 hXm
        · rw [he'] at hXm; exact Or.inl (a1 m u hm u0 u1 hXm)
        · rw [he'] at hXm; exact Or.inl (b1 m u hm u0 u1 hXm)
      · rintro e (he' | he') k s hkn hs s0 s1 hXk
        · rw [he'] at hXk hs; exact a2 k s hkn hs s0 s1 hXk
        · rw [he'] at hXk hs; exact b2 k s hkn hs s0 s1 hXk
    obtain ⟨δ, hδ, hball⟩ := mem_nhdsGT_iff_exists_Ioo_subset.mp hev
    exact ⟨δ, hδ, fun s h0 h1 => hball ⟨h0, h1⟩⟩
  have hself : ∀ σ : ℝ, ∀ᶠ τ in 𝓝[>] (0 : ℝ), (∀ m, q = .side m → FarSeg p |d| (curveAt (rawPath p d c) i (t + σ * τ)) m) ∧
          ∀ k, q = .corner k → |d| ≤ edist (curveAt (rawPath p d c) i (t + σ * τ)) (cornerPos p (k + 1)) :=
    fun σ => Eventually.of_forall fun τ => own he h hC hq t0.le t1.le hk _
  cases hK with
  | self b mem other same only angle dual circle =>
    obtain ⟨j, u⟩ := b
    dsimp only at same only angle dual circle other
    have hj := hO.range _ mem
    have hokj := hO.ok _ mem
    obtain ⟨u0, u1⟩ : 0 < u ∧ u < 1 := ⟨hokj.pos, hokj.lt⟩
    obtain ⟨q', hq'⟩ : ∃ q', (pathParts p c)[j]? = some q' := ⟨_, List.getElem?_eq_getElem ((parts_range he h).mpr hj)⟩
    obtain ⟨l', hl', g1, g2⟩ := seg_deriv (shapeAt h.full he hj) u
    dsimp only at g1 g2
    simp only [← curveAt_vtx hR] at g1 g2
    obtain ⟨A, B, C', D, hz, hG, hfar⟩ := part_quad he h hC hq' u0.le u1.le (same ▸ hk)
    obtain ⟨σ, hσ, hpos⟩ := quad_sides f1 f2 g1 g2 same.symm (angle _ _ _ _ f1 f2 g1 g2) hz (hG u)
    refine ⟨σ, hσ, core σ ?_ ?_ ?_⟩
    · intro j' s q'' hj' s0 s1 e
      rcases hpass j' s q'' hj' s0 s1 e with rfl | hm
      · rw [hq] at hj'; cases hj'; exact hself σ
      · rcases only _ hm e.symm with hb | hb
        · injection hb with h1 h2; subst h1
          rw [hq] at hj'; cases hj'; exact hself σ
        · injection hb with h1 h2; subst h1
          rw [hq'] at hj'; cases hj'
          exact hpos.mono fun τ hτ => hfar _ hτ
    · intro j' s q'' hj' s0 s1 e
      exact absurd (hdual j' s q'' hj' s0 s1 e) dual
    · intro k hkk e
      obtain ⟨v, hv, hvp, -⟩ := end_pos h.path.two hkk
      exact absurd (by rw [hvp]; exact e) (circle v hv)
  | dual j u range inside same only angle self circle =>
    dsimp only at same only angle self circle
    obtain ⟨q', hq'⟩ : ∃ q', (pathParts p c')[j]? = some q' := ⟨_, List.getElem?_eq_getElem ((parts_range he h').mpr range)⟩
    obtain ⟨l', hl', g1, g2⟩ := seg_deriv (shapeAt h'.full he range) u
    simp only [← curveAt_vtx hD] at g1 g2
    obtain ⟨A, B, C', D, hz, hG, hfar⟩ := part_quad he h' hC' hq' inside.1 inside.2 (by rw [abs_neg, same]; exact hk)
    rw [abs_neg] at hfar
    obtain ⟨σ, hσ, hpos⟩ := quad_sides f1 f2 g1 g2 same.symm (angle _ _ _ _ f1 f2 g1 g2) hz (hG u)
    refine ⟨σ, hσ, core σ ?_ ?_ ?_⟩
    · intro j' s q'' hj' s0 s1 e
      have hij : i = j' := by
        rcases hpass j' s q'' hj' s0 s1 e with h1 | hm
        · exact h1
        · have := self _ hm e.symm; injection this with h1 _; exact h1.symm
      subst hij
      rw [hq] at hj'; cases hj'; exact hself σ
    · intro j' s q'' hj' s0 s1 e
      have hjj := only j' s ((parts_range he h').mp (List.getElem?_eq_some_iff.mp hj').1) s0 s1 e.symm
      subst hjj
      rw [hq'] at hj'; cases hj'
      exact hpos.mono fun τ hτ => hfar _ hτ
    · intro k hkk e
      obtain ⟨v, hv, hvp, -⟩ := end_pos h.path.two hkk
      exact absurd (by rw [hvp]; exact e) (circle v hv)
  | circle v mem at_ only angle self dual =>
    dsimp only at at_ only angle self dual
    obtain ⟨σ, hσ, hpos⟩ := circle_sides h.moves f1 f2 at_ (angle _ _ f1 f2)
    refine ⟨σ, hσ, core σ ?_ ?_ ?_⟩
    · intro j' s q'' hj' s0 s1 e
      have hij : i = j' := by
        rcases hpass j' s q'' hj' s0 s1 e with h1 | hm
        · exact h1
        · have := self _ hm e.symm; injection this with h1 _; exact h1.symm
      subst hij
      rw [hq] at hj'; cases hj'; exact hself σ
    · intro j' s q'' hj' s0 s1 e
      exact absurd (hdual j' s q'' hj' s0 s1 e) dual
    · intro k hkk e
      obtain ⟨w, hw, hwp, -⟩ := end_pos h.path.two hkk
      rw [← hwp] at e ⊢
      rw [only w hw e]
      exact hpos

/-- Along the raw offset, the distance is given up and regained only at the cuts. -/
theorem path_changes (hE : EndsFree p (rawPath p d c) |d|)
    (hK : ∀ a ∈ C, Keeps p |d| (curveAt (rawPath p d c) a.1 a.2) → CutKind p (rawPath p d c) (rawPath p (-d) c') |d| C a) :
    ChangesAtCuts p (rawPath p d c) |d| C :=
  ⟨fun _ _ hi t0 t1 hcut hk => path_steady he h hC h' hC' hO hF hE hi t0 t1 hcut hk,
    fun a ha hk => ⟨a, ha, rfl, path_leave he h hC h' hC' hO hF ha hk (hK a ha hk)⟩⟩

end

end

end Cavc.Path
