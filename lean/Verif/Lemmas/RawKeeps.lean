import Verif.Lemmas.ParGain

/-! # Along the raw offset, the distance is given up and regained only at crossings -/

set_option linter.unusedVariables false
set_option linter.unusedSectionVars false

namespace Cavc
open RealScalar Pline Filter Topology

section
variable {p : Pline ℝ} {d : ℝ} {c : Nat → Corner} {eps : ℝ}

theorem vtx_same {a b : Nat} (h : a % p.verts.length = b % p.verts.length) (j : Nat) : vtx p (a + j) = vtx p (b + j) := by
  rw [← vtx_mod_add p a j, h, vtx_mod_add]

theorem farSeg_same {a b : Nat} (h : a % p.verts.length = b % p.verts.length) {r : ℝ} {X : V2 ℝ} : FarSeg p r X a ↔ FarSeg p r X b := by
  have h0 := vtx_same (p := p) h 0
  have h1 := vtx_same (p := p) h 1
  simp only [Nat.add_zero] at h0
  unfold FarSeg; rw [h0, h1]

theorem parCurve_same {a b : Nat} (h : a % p.verts.length = b % p.verts.length) : parCurve p d a = parCurve p d b := by
  rw [← parCurve_mod, h, parCurve_mod]

theorem enterAt_mod (hn : 0 < p.verts.length) (a : Nat) : enterAt p c (a % p.verts.length) = enterAt p c a := by
  conv_rhs => rw [← Nat.mod_add_div a p.verts.length]
  generalize a / p.verts.length = m
  induction m with
  | zero => simp
  | succ m ih => rw [Nat.mul_succ, ← Nat.add_assoc, enterAt_add p c hn]; exact ih

theorem enterAt_same (hn : 0 < p.verts.length) {a b : Nat} (h : a % p.verts.length = b % p.verts.length) : enterAt p c a = enterAt p c b := by
  rw [← enterAt_mod hn, h, enterAt_mod hn]

theorem leaveAt_mod (a : Nat) : leaveAt p c (a % p.verts.length) = leaveAt p c a := by unfold leaveAt; rw [Nat.mod_mod]

theorem leaveAt_same {a b : Nat} (h : a % p.verts.length = b % p.verts.length) : leaveAt p c a = leaveAt p c b := by
  rw [← leaveAt_mod, h, leaveAt_mod]

theorem same_of_succ {a b n : Nat} (h : (a + 1) % n = (b + 1) % n) : a % n = b % n := Nat.ModEq.add_right_cancel' 1 h

/-- `q'` is the part after `q`, in the closed row of the parts -/
def PartFollows (p : Pline ℝ) (c : Nat → Corner) (q q' : RawPart) : Prop := q' = nextPart c q ∨ (nextPart c q = .side p.verts.length ∧ q' = .side 0)

theorem follows_index (hn : 0 < p.verts.length) {i j : Nat} {q q' : RawPart} (hq : (arcParts p c)[i]? = some q) (hq' : (arcParts p c)[j]? = some q')
    (h : j = i + 1 ∨ (j = 0 ∧ i + 1 = (arcParts p c).length)) : PartFollows p c q q' := by
  obtain ⟨h1, h2⟩ := arcPart_next hq
  rcases h with rfl | ⟨rfl, h⟩
  · left
    have := h1 (List.getElem?_eq_some_iff.mp hq').1
    rw [hq'] at this
    exact Option.some.inj this
  · right
    rw [arcPart_zero hn] at hq'
    exact ⟨h2 h, (Option.some.inj hq').symm⟩

/-- what comes before a parallel segment -/
theorem follows_to_side {q : RawPart} {m : Nat} (h : PartFollows p c q (.side m)) :
    ∃ k, (k + 1) % p.verts.length = m % p.verts.length ∧ ((q = .side k ∧ ∃ t u, c k = .cut t u) ∨ q = .corner k) := by
  have key : ∀ m', nextPart c q = .side m' → m' % p.verts.length = m % p.verts.length →
      ∃ k, (k + 1) % p.verts.length = m % p.verts.length ∧ ((q = .side k ∧ ∃ t u, c k = .cut t u) ∨ q = .corner k) := by
    intro m' hm hmm
    cases q with
    | side k =>
      unfold nextPart at hm
      cases hc : c k with
      | cut t u =>
        simp only [hc, RawPart.side.injEq] at hm
        exact ⟨k, by rw [hm]; exact hmm, Or.inl ⟨rfl, t, u, hc⟩⟩
      | link b => simp [hc] at hm
    | corner k =>
      simp only [nextPart, RawPart.side.injEq] at hm
      exact ⟨k, by rw [hm]; exact hmm, Or.inr rfl⟩
  rcases h with h | ⟨h, h'⟩
  · exact key m h.symm rfl
  · injection h' with h'
    exact key _ h (by rw [h', Nat.mod_self, Nat.zero_mod])

/-- what comes after a parallel segment -/
theorem follows_from_side {m : Nat} {q' : RawPart} (h : PartFollows p c (.side m) q') :
    ((∃ t u, c m = .cut t u) ∧ ∃ k, q' = .side k ∧ k % p.verts.length = (m + 1) % p.verts.length) ∨ ((∃ b, c m = .link b) ∧ q' = .corner m) := by
  unfold PartFollows nextPart at h
  cases hc : c m with
  | cut t u =>
    left
    simp only [hc] at h
    refine ⟨⟨t, u, rfl⟩, ?_⟩
    rcases h with h | ⟨h, h'⟩
    · exact ⟨_, h, rfl⟩
    · injection h with h
      exact ⟨_, h', by rw [h, Nat.mod_self, Nat.zero_mod]⟩
  | link b =>
    simp only [hc] at h
    refine Or.inr ⟨⟨b, rfl⟩, ?_⟩
    rcases h with h | ⟨h, h'⟩
    · exact h
    · exact absurd h (by simp)

theorem follows_to_corner {k : Nat} {q : RawPart} (h : PartFollows p c q (.corner k)) : q = .side k := by
  rcases h with h | ⟨h, h'⟩
  · cases q with
    | side m =>
      unfold nextPart at h
      cases hc : c m with
      | cut t u => simp [hc] at h
      | link b => simp only [hc, RawPart.corner.injEq] at h; rw [h]
    | corner m => simp [nextPart] at h
  · exact absurd h' (by simp)

theorem follows_from_corner {k : Nat} {q' : RawPart} (h : PartFollows p c (.corner k) q') : ∃ m, q' = .side m ∧ m % p.verts.length = (k + 1) % p.verts.length := by
  rcases h with h | ⟨h, h'⟩
  · exact ⟨_, h, rfl⟩
  · simp only [nextPart, RawPart.side.injEq] at h
    exact ⟨_, h', by rw [h, Nat.mod_self, Nat.zero_mod]⟩

section
variable (he : 0 < eps) (h : ClearOffset p d c eps)
include he h

theorem side_far (k : Nat) (u : ℝ) : FarSeg p |d| (parCurve p d k u) k := by
  obtain ⟨A, B, C, D, h1, -, h3⟩ := side_quad (shapeAt h.loop he k) h.moves ((h.radius k).imp id fun h => lt_of_lt_of_le (by norm_num) h)
  exact h3 _ (h1 u).ge

variable (hC : CleanCorners p d c)
include hC

/-- a point of a parallel segment that keeps the distance is on the raw offset -/
theorem kept_range (m : Nat) {u : ℝ} (u0 : 0 ≤ u) (u1 : u ≤ 1) (hX : Keeps p |d| (parCurve p d m u)) : enterAt p c m ≤ u ∧ u ≤ leaveAt p c m := by
  have hn : 0 < p.verts.length := by have := h.loop.two; omega
  constructor
  · rw [← enterAt_mod hn]
    have hj := Nat.mod_lt (m % p.verts.length + p.verts.length - 1) hn
    have hcor := hC _ hj
    unfold enterAt
    have hsucc : parCurve p d ((m % p.verts.length + p.verts.length - 1) % p.verts.length + 1) = parCurve p d m := by
      rw [parCurve_mod_succ, ← parCurve_mod, Nat.sub_add_cancel (by omega), Nat.add_mod_right, Nat.mod_mod, parCurve_mod]
    generalize (m % p.verts.length + p.verts.length - 1) % p.verts.length = j at hj hcor hsucc
    cases hcj : c j with
    | link b => exact u0
    | cut t v =>
      rw [hcj] at hcor
      cases hcor with
      | cut _ _ side stop start =>
        by_contra hlt
        have := start u u0 (not_le.mp hlt)
        rw [hsucc] at this
        exact this hX
  · have hj := Nat.mod_lt m hn
    have hcor := hC _ hj
    unfold leaveAt
    cases hcj : c (m % p.verts.length) with
    | link b => exact u1
    | cut t v =>
      rw [hcj] at hcor
      cases hcor with
      | cut _ _ side stop start =>
        by_contra hlt
        have := stop u (not_le.mp hlt) u1
        rw [parCurve_mod] at this
        exact this hX

theorem carrier_side (m : Nat) {u : ℝ} (u0 : 0 ≤ u) (u1 : u ≤ 1) (hX : Keeps p |d| (parCurve p d m u)) :
    ∃ j s, (arcParts p c)[j]? = some (.side (m % p.verts.length)) ∧ 0 ≤ s ∧ s ≤ 1 ∧ u = enterAt p c m + (leaveAt p c m - enterAt p c m) * s ∧
      parCurve p d m u = curveAt (rawWith p d c) j s := by
  have hn : 0 < p.verts.length := by have := h.loop.two; omega
  obtain ⟨r1, r2⟩ := kept_range he h hC m u0 u1 hX
  have hlt := h.forward m
  obtain ⟨j, hj, hq⟩ := List.getElem_of_mem (mem_arcParts.mpr (Or.inl ⟨m % p.verts.length, Nat.mod_lt _ hn, rfl⟩) : RawPart.side (m % p.verts.length) ∈ arcParts p c)
  have hq' : (arcParts p c)[j]? = some (.side (m % p.verts.length)) := by rw [List.getElem?_eq_getElem hj, hq]
  have hu : u = enterAt p c m + (leaveAt p c m - enterAt p c m) * ((u - enterAt p c m) / (leaveAt p c m - enterAt p c m)) := by
    field_simp [sub_ne_zero.mpr hlt.ne']
    ring
  refine ⟨j, (u - enterAt p c m) / (leaveAt p c m - enterAt p c m), hq', div_nonneg (by linarith) (by linarith), (div_le_one (by linarith)).mpr (by linarith), hu, ?_⟩
  rw [arcPart_curve (run_facts he h) hq']
  simp only [arcCurve]
  rw [enterAt_mod hn, leaveAt_mod, parCurve_mod, ← hu]

theorem round_arc {k : Nat} (hk : k < p.verts.length) (hs : d * cornerSin p k < 0) : (∃ b, c k = .link b) ∧ arcCurve p d c (.corner k) = roundArc p d k := by
  have hcor := hC k hk
  generalize hcc : c k = cc at hcor
  cases hcor with
  | cut _ _ side' _ _ => exact absurd hs (not_lt.mpr side')
  | lost _ side' _ => exact absurd hs (not_lt.mpr side')
  | round _ bent =>
    refine ⟨⟨_, rfl⟩, ?_⟩
    funext t
    simp only [arcCurve, hcc]
    exact round_link h.loop he (by rintro e; rw [e, mul_zero] at hs; exact lt_irrefl _ hs) bent t

theorem carrier_round {k : Nat} (hs : d * cornerSin p k < 0) :
    ∃ j, (arcParts p c)[j]? = some (.corner (k % p.verts.length)) ∧ ∀ s, curveAt (rawWith p d c) j s = roundArc p d k s := by
  have hn : 0 < p.verts.length := by have := h.loop.two; omega
  have hk := Nat.mod_lt k hn
  obtain ⟨⟨b, hb⟩, hcv⟩ := round_arc he h hC hk (by rwa [cornerSin_mod])
  obtain ⟨j, hj, hq⟩ := List.getElem_of_mem (mem_arcParts.mpr (Or.inr ⟨k % p.verts.length, hk, b, hb, rfl⟩) : RawPart.corner (k % p.verts.length) ∈ arcParts p c)
  have hq' : (arcParts p c)[j]? = some (.corner (k % p.verts.length)) := by rw [List.getElem?_eq_getElem hj, hq]
  refine ⟨j, hq', fun s => ?_⟩
  rw [arcPart_curve (run_facts he h) hq', hcv, roundArc_mod]

/-- a link with a point that keeps the distance is the arc around the corner -/
theorem kept_round {j k : Nat} (hq : (arcParts p c)[j]? = some (.corner k)) {t : ℝ} (t0 : 0 ≤ t) (t1 : t ≤ 1) (hX : Keeps p |d| (curveAt (rawWith p d c) j t)) :
    k < p.verts.length ∧ d * cornerSin p k < 0 ∧ (∃ b, c k = .link b) ∧ ∀ s, curveAt (rawWith p d c) j s = roundArc p d k s := by
  rcases mem_arcParts.mp (List.mem_of_getElem? hq) with ⟨k', hk, e⟩ | ⟨k', hk, b, hc, e⟩
  · exact absurd e (by simp)
  · injection e with e
    subst e
    have hs : d * cornerSin p k < 0 := by
      by_contra hneg
      have hcor := hC k hk
      rw [arcPart_curve (run_facts he h) hq] at hX
      unfold arcCurve at hX
      simp only [hc] at hX
      rw [hc] at hcor
      cases hcor with
      | round side _ => exact hneg side
      | lost _ _ near => exact near _ ⟨t, t0, t1, rfl⟩ hX
    refine ⟨hk, hs, ⟨b, hc⟩, fun s => ?_⟩
    rw [arcPart_curve (run_facts he h) hq, (round_arc he h hC hk hs).2]

/-- the side of a part on which the distance from what it belongs to is kept -/
theorem part_quad {j : Nat} {q : RawPart} (hq : (arcParts p c)[j]? = some q) {t : ℝ} (t0 : 0 ≤ t) (t1 : t ≤ 1) (hX : Keeps p |d| (curveAt (rawWith p d c) j t)) :
    ∃ A B C D, (∀ s, quad A B C D (curveAt (rawWith p d c) j s) = 0) ∧ (∀ s, QuadGrad A B C (curveAt (rawWith p d c) j s)) ∧
      ∀ Y, 0 ≤ quad A B C D Y → (∀ m, q = .side m → FarSeg p |d| Y m) ∧ ∀ k, q = .corner k → |d| ≤ edist Y (cornerPos p (k + 1)) := by
  cases q with
  | side m =>
    obtain ⟨A, B, C, D, h1, h2, h3⟩ := side_quad (shapeAt h.loop he m) h.moves ((h.radius m).imp id fun h => lt_of_lt_of_le (by norm_num) h)
    refine ⟨A, B, C, D, fun s => ?_, fun s => ?_, fun Y hY => ⟨fun m' e => ?_, fun k e => absurd e (by simp)⟩⟩
    · rw [arcPart_curve (run_facts he h) hq]; exact h1 _
    · rw [arcPart_curve (run_facts he h) hq]; exact h2 _
    · injection e with e
      rw [← e]; exact h3 Y hY
  | corner k =>
    obtain ⟨hk, hs, -, hcv⟩ := kept_round he h hC hq t0 t1 hX
    obtain ⟨A, B, C, D, h1, h2⟩ := round_quad h.moves (cornerPos p (k + 1))
    have hdist : ∀ s, edist (curveAt (rawWith p d c) j s) (cornerPos p (k + 1)) = |d| := by
      intro s; rw [hcv]; exact cornerArc_dist (arrive_ne h.loop he k) d s
    refine ⟨A, B, C, D, fun s => (h1 _ (hdist s)).1, fun s => (h1 _ (hdist s)).2, fun Y hY => ⟨fun m e => absurd e (by simp), fun k' e => ?_⟩⟩
    injection e with e
    rw [← e]; exact h2 Y hY

variable {gap : ℝ} {E : List (Cut × Cut)} (hE : SelfCrossing (rawWith p d c) eps gap E)
include hE

/-- two parts through one point -/
theorem same_point {i j : Nat} {q q' : RawPart} (hq : (arcParts p c)[i]? = some q) (hq' : (arcParts p c)[j]? = some q') {t s : ℝ} (t0 : 0 ≤ t) (t1 : t ≤ 1)
    (s0 : 0 ≤ s) (s1 : s ≤ 1) (hX : curveAt (rawWith p d c) i t = curveAt (rawWith p d c) j s) :
    i = j ∨ (PartFollows p c q q' ∧ t = 1 ∧ s = 0) ∨ (PartFollows p c q' q ∧ s = 1 ∧ t = 0) ∨ ((i, t), (j, s)) ∈ E ∨ ((j, s), (i, t)) ∈ E := by
  have hn : 0 < p.verts.length := by have := h.loop.two; omega
  have hi : i < (rawWith p d c).verts.length := by rw [arcParts_length]; exact (List.getElem?_eq_some_iff.mp hq).1
  have hj : j < (rawWith p d c).verts.length := by rw [arcParts_length]; exact (List.getElem?_eq_some_iff.mp hq').1
  rcases Nat.lt_trichotomy i j with hlt | heq | hlt
  · rcases hE.all i t j s hlt hj t0 t1 s0 s1 hX with ⟨e1, e2, e3⟩ | ⟨e1, e2, e3, e4⟩ | hm
    · exact Or.inr (Or.inl ⟨follows_index hn hq hq' (Or.inl e1), e2, e3⟩)
    · exact Or.inr (Or.inr (Or.inl ⟨follows_index hn hq' hq (Or.inr ⟨e1, by rw [e2, arcParts_length]⟩), e4, e3⟩))
    · exact Or.inr (Or.inr (Or.inr (Or.inl hm)))
  · exact Or.inl heq
  · rcases hE.all j s i t hlt hi s0 s1 t0 t1 hX.symm with ⟨e1, e2, e3⟩ | ⟨e1, e2, e3, e4⟩ | hm
    · exact Or.inr (Or.inr (Or.inl ⟨follows_index hn hq' hq (Or.inl e1), e2, e3⟩))
    · exact Or.inr (Or.inl ⟨follows_index hn hq hq' (Or.inr ⟨e1, by rw [e2, arcParts_length]⟩), e4, e3⟩)
    · exact Or.inr (Or.inr (Or.inr (Or.inr hm)))

variable (hF : FreeCuts p d c) (hos : OneSidedCurve p d)
include hF hos

theorem raw_steady {i : Nat} (hi : i < (rawWith p d c).verts.length) {t : ℝ} (t0 : 0 ≤ t) (t1 : t ≤ 1) (hcut : (i, t) ∉ bothCuts E)
    (hk : Keeps p |d| (curveAt (rawWith p d c) i t)) :
    ∃ δ > 0, ∀ t', 0 ≤ t' → t' ≤ 1 → |t' - t| < δ → Keeps p |d| (curveAt (rawWith p d c) i t') := by
  have hn : 0 < p.verts.length := by have := h.loop.two; omega
  have hR : 0 < (rawWith p d c).verts.length := by omega
  have hi' : i < (arcParts p c).length := by rwa [arcParts_length] at hi
  set q := (arcParts p c)[i] with hqd
  have hq : (arcParts p c)[i]? = some q := List.getElem?_eq_getElem hi'
  have hcv := arcPart_curve (run_facts he h) hq
  have hcont := curveAt_continuous hR i
  have hturn : ∀ k, cornerSin p k = 0 → 0 < cornerCos p k := by
    intro k hk
    rw [← cornerCos_mod]
    exact hF.turn _ (Nat.mod_lt _ hn) (by rw [cornerSin_mod]; exact hk)
  have hX : ParallelPt p d (curveAt (rawWith p d c) i t) := by
    refine (raw_parallel he h hC _).mp ⟨?_, hk⟩
    have := side_on h.full i t0 t1
    rwa [← curveAt_vtx hR] at this
  have hcut1 : ∀ j s, ((i, t), (j, s)) ∈ E ∨ ((j, s), (i, t)) ∈ E → False := fun j s h => hcut (cut_mem h)
  have hev : ∀ᶠ τ in 𝓝[Set.Icc 0 1] t, Keeps p |d| (curveAt (rawWith p d c) i τ) := by
    refine keeps_near h.loop he h.moves hturn hos hX (((continuous_fst.comp hcont).tendsto t).mono_left nhdsWithin_le_nhds)
      (((continuous_snd.comp hcont).tendsto t).mono_left nhdsWithin_le_nhds) ?_ ?_
    · intro m u u0 u1 hXm
      obtain ⟨j, s, hj, s0, s1, hu, hcs⟩ := carrier_side he h hC m u0 u1 (hXm ▸ hk)
      rcases same_point he h hC hE hq hj t0 t1 s0 s1 (hXm.trans hcs) with rfl | ⟨hf, rfl, rfl⟩ | ⟨hf, rfl, rfl⟩ | hm
      · left
        have e : q = .side (m % p.verts.length) := Option.some.inj (hq.symm.trans hj)
        refine Eventually.of_forall fun τ => ?_
        rw [hcv, e]
        exact (farSeg_same (Nat.mod_mod _ _)).mp (side_far he h _ _)
      · obtain ⟨k, hkm, ⟨e, t₀, u₀, hc⟩ | e⟩ := follows_to_side hf
        · left
          have hkn : k < p.verts.length := by
            rcases mem_arcParts.mp (List.mem_of_getElem? hq) with ⟨k', hk', e'⟩ | ⟨k', hk', b, hc', e'⟩
            · rw [e] at e'; injection e' with e'; omega
            · rw [e] at e'; exact absurd e' (by simp)
          obtain ⟨δ, hδ, hb⟩ := hF.before k hkn t₀ u₀ hc
          have hlt := h.forward k
          have hle : leaveAt p c k = t₀ := by rw [leaveAt_eq p c hkn, hc]; rfl
          have hgt : ∀ᶠ τ in 𝓝[Set.Icc 0 1] (1 : ℝ), t₀ - δ < enterAt p c k + (leaveAt p c k - enterAt p c k) * τ := by
            have hcn : Continuous fun τ : ℝ => enterAt p c k + (leaveAt p c k - enterAt p c k) * τ := by fun_prop
            exact ((hcn.tendsto 1).eventually (lt_mem_nhds (by rw [mul_one, hle]; linarith))).filter_mono nhdsWithin_le_nhds
          filter_upwards [hgt, self_mem_nhdsWithin] with τ h1 h2
          rw [hcv, e]
          refine (farSeg_same (a := k + 1) (by rw [hkm, Nat.mod_mod])).mp (hb _ h1 ?_)
          rw [← hle]
          nlinarith [h2.2]
        · right; right
          obtain ⟨hkn, hs, ⟨b, hc⟩, hrc⟩ := kept_round he h hC (by rw [← e]; exact hq) t0 t1 hk
          refine ⟨?_, fun k' hk' => ?_⟩
          · rw [hu, mul_zero, add_zero, ← enterAt_mod hn, ← Nat.mod_mod, ← hkm, enterAt_mod hn, enterAt_succ p c hkn, hc]; rfl
          · have hkk : k' % p.verts.length = k := by
              rw [same_of_succ (b := k) (n := p.verts.length) (by rw [← hk', hkm, Nat.mod_mod]), Nat.mod_eq_of_lt hkn]
            refine ⟨by rw [← cornerSin_mod, hkk]; exact hs, ?_⟩
            filter_upwards [self_mem_nhdsWithin] with τ hτ
            exact ⟨τ, hτ.1, hτ.2, by rw [hrc, ← roundArc_mod p d k', hkk]⟩
      · rcases follows_from_side hf with ⟨⟨t₀, u₀, hc⟩, k, e, hkm⟩ | ⟨⟨b, hc⟩, e⟩
        · left
          have hmn := Nat.mod_lt m hn
          obtain ⟨δ, hδ, hb⟩ := hF.after _ hmn t₀ u₀ hc
          have hlt := h.forward k
          have hen : enterAt p c k = u₀ := by rw [enterAt_same hn hkm, enterAt_succ p c hmn, hc]; rfl
          have hgt : ∀ᶠ τ in 𝓝[Set.Icc 0 1] (0 : ℝ), enterAt p c k + (leaveAt p c k - enterAt p c k) * τ < u₀ + δ := by
            have hcn : Continuous fun τ : ℝ => enterAt p c k + (leaveAt p c k - enterAt p c k) * τ := by fun_prop
            exact ((hcn.tendsto 0).eventually (gt_mem_nhds (by rw [mul_zero, hen]; linarith))).filter_mono nhdsWithin_le_nhds
          filter_upwards [hgt, self_mem_nhdsWithin] with τ h1 h2
          rw [hcv, e]
          refine (farSeg_same (Nat.mod_mod _ _)).mp ?_
          simp only [arcCurve]
          rw [parCurve_same hkm]
          refine hb _ ?_ h1
          rw [← hen]
          nlinarith [h2.1]
        · right; left
          obtain ⟨hkn, hs, -, hrc⟩ := kept_round he h hC (by rw [← e]; exact hq) t0 t1 hk
          refine ⟨?_, by rw [← cornerSin_mod]; exact hs, ?_⟩
          · have hle : leaveAt p c m = 1 := by rw [← leaveAt_mod, leaveAt_eq p c hkn, hc]; rfl
            rw [hu, hle]; ring
          · filter_upwards [self_mem_nhdsWithin] with τ hτ
            exact ⟨τ, hτ.1, hτ.2, by rw [hrc, roundArc_mod]⟩
      · exact absurd (hcut1 _ _ hm) id
    · intro k s hs s0 s1 hXk
      obtain ⟨j, hj, hrc⟩ := carrier_round he h hC hs
      rcases same_point he h hC hE hq hj t0 t1 s0 s1 (hXk.trans (hrc s).symm) with rfl | ⟨hf, rfl, rfl⟩ | ⟨hf, rfl, rfl⟩ | hm
      · refine Eventually.of_forall fun τ => ?_
        rw [hrc]
        exact (cornerArc_dist (arrive_ne h.loop he k) d τ).ge
      · have e := follows_to_corner hf
        refine Eventually.of_forall fun τ => ?_
        rw [hcv, e]
        have := side_far he h (k % p.verts.length) (enterAt p c (k % p.verts.length) + (leaveAt p c (k % p.verts.length) - enterAt p c (k % p.verts.length)) * τ)
        exact (farSeg_same (Nat.mod_mod _ _)).mp this _ (onSeg_end _ _)
      · obtain ⟨m, e, hm⟩ := follows_from_corner hf
        refine Eventually.of_forall fun τ => ?_
        rw [hcv, e]
        have := side_far he h m (enterAt p c m + (leaveAt p c m - enterAt p c m) * τ)
        rw [Nat.mod_add_mod] at hm
        exact (farSeg_same hm).mp this _ (onSeg_start _ _)
      · exact absurd (hcut1 _ _ hm) id
  obtain ⟨δ, hδ, hball⟩ := Metric.mem_nhdsWithin_iff.mp hev
  exact ⟨δ, hδ, fun t' h0 h1 ht => hball ⟨by rw [Metric.mem_ball, Real.dist_eq]; exact ht, h0, h1⟩⟩

theorem raw_leave (hA : CrossAtAngle (rawWith p d c) E) {i j : Nat} {t t' : ℝ} (hx : ((i, t), (j, t')) ∈ E ∨ ((j, t'), (i, t)) ∈ E)
    (hk : Keeps p |d| (curveAt (rawWith p d c) i t)) :
    ∃ σ : ℝ, (σ = 1 ∨ σ = -1) ∧ ∃ δ > 0, ∀ s, 0 < s → s < δ → Keeps p |d| (curveAt (rawWith p d c) i (t + σ * s)) := by
  have hn : 0 < p.verts.length := by have := h.loop.two; omega
  have hi : i < (rawWith p d c).verts.length := hE.range _ (cut_mem hx)
  have hj : j < (rawWith p d c).verts.length := hE.range _ (cut_mem hx.symm)
  have hR : 0 < (rawWith p d c).verts.length := by omega
  have hi' : i < (arcParts p c).length := by rwa [arcParts_length] at hi
  have hj' : j < (arcParts p c).length := by rwa [arcParts_length] at hj
  have hok := hE.ok _ (cut_mem hx)
  have hok' := hE.ok _ (cut_mem hx.symm)
  obtain ⟨t0, t1⟩ : 0 < t ∧ t < 1 := ⟨hok.pos, hok.lt⟩
  obtain ⟨t0', t1'⟩ : 0 < t' ∧ t' < 1 := ⟨hok'.pos, hok'.lt⟩
  have hXX : curveAt (rawWith p d c) i t = curveAt (rawWith p d c) j t' := by
    rcases hx with hx | hx
    · exact hE.on _ hx
    · exact (hE.on _ hx).symm
  obtain ⟨q, hq⟩ : ∃ q, (arcParts p c)[i]? = some q := ⟨_, List.getElem?_eq_getElem hi'⟩
  obtain ⟨q', hq'⟩ : ∃ q', (arcParts p c)[j]? = some q' := ⟨_, List.getElem?_eq_getElem hj'⟩
  have hcv := arcPart_curve (run_facts he h) hq
  have hcont := curveAt_continuous hR i
  have hturn : ∀ k, cornerSin p k = 0 → 0 < cornerCos p k := by
    intro k hk
    rw [← cornerCos_mod]
    exact hF.turn _ (Nat.mod_lt _ hn) (by rw [cornerSin_mod]; exact hk)
  have hX : ParallelPt p d (curveAt (rawWith p d c) i t) := by
    refine (raw_parallel he h hC _).mp ⟨?_, hk⟩
    have := side_on h.full i t0.le t1.le
    rwa [← curveAt_vtx hR] at this
  -- the direction
  obtain ⟨l, hl, f1, f2⟩ := seg_deriv (shapeAt h.full he i) t
  obtain ⟨l', hl', g1, g2⟩ := seg_deriv (shapeAt h.full he j) t'
  simp only [← curveAt_vtx hR] at f1 f2 g1 g2
  obtain ⟨A, B, C, D, hz, hG, hfar⟩ := part_quad he h hC hq' t0'.le t1'.le (hXX ▸ hk)
  obtain ⟨σ, hσ, hpos⟩ := quad_sides f1 f2 g1 g2 hXX (by
    rcases hx with hx | hx
    · exact hA _ hx _ _ _ _ f1 f2 g1 g2
    · intro h0
      exact hA _ hx _ _ _ _ g1 g2 f1 f2 (by linarith)) hz (hG t')
  refine ⟨σ, hσ, ?_⟩
  have hline : Tendsto (fun s : ℝ => t + σ * s) (𝓝[>] 0) (𝓝 t) := by
    have hcn : Continuous fun s : ℝ => t + σ * s := by fun_prop
    have := hcn.tendsto 0
    rw [mul_zero, add_zero] at this
    exact this.mono_left nhdsWithin_le_nhds
  have hcase : ∀ i' s, i' < (arcParts p c).length → 0 ≤ s → s ≤ 1 → curveAt (rawWith p d c) i t = curveAt (rawWith p d c) i' s → i = i' ∨ j = i' := by
    intro i' s hi2 s0 s1 hs
    rcases same_point he h hC hE hq (List.getElem?_eq_getElem hi2) t0.le t1.le s0 s1 hs with h1 | ⟨-, h1, -⟩ | ⟨-, -, h1⟩ | h1
    · exact Or.inl h1
    · linarith
    · linarith
    · exact Or.inr (congrArg Prod.fst (partner_unique hE.nodup hx h1))
  have hev : ∀ᶠ s in 𝓝[>] (0 : ℝ), Keeps p |d| (curveAt (rawWith p d c) i (t + σ * s)) := by
    refine keeps_near h.loop he h.moves hturn hos hX (((continuous_fst.comp hcont).tendsto t).comp hline)
      (((continuous_snd.comp hcont).tendsto t).comp hline) ?_ ?_
    · intro m u u0 u1 hXm
      left
      obtain ⟨i', s, hi2, s0, s1, hu, hcs⟩ := carrier_side he h hC m u0 u1 (hXm ▸ hk)
      rcases hcase i' s (List.getElem?_eq_some_iff.mp hi2).1 s0 s1 (hXm.trans hcs) with rfl | rfl
      · have e : q = .side (m % p.verts.length) := Option.some.inj (hq.symm.trans hi2)
        refine Eventually.of_forall fun τ => ?_
        rw [hcv, e]
        exact (farSeg_same (Nat.mod_mod _ _)).mp (side_far he h _ _)
      · have e : q' = .side (m % p.verts.length) := Option.some.inj (hq'.symm.trans hi2)
        filter_upwards [hpos] with τ hτ
        exact (farSeg_same (Nat.mod_mod _ _)).mp ((hfar _ hτ).1 _ e)
    · intro k s hs s0 s1 hXk
      obtain ⟨i', hi2, hrc⟩ := carrier_round he h hC hs
      rcases hcase i' s (List.getElem?_eq_some_iff.mp hi2).1 s0 s1 (hXk.trans (hrc s).symm) with rfl | rfl
      · refine Eventually.of_forall fun τ => ?_
        rw [hrc]
        exact (cornerArc_dist (arrive_ne h.loop he k) d _).ge
      · have e : q' = .corner (k % p.verts.length) := Option.some.inj (hq'.symm.trans hi2)
        filter_upwards [hpos] with τ hτ
        have := (hfar _ hτ).2 _ e
        rwa [(corner_mod p k).1] at this
  obtain ⟨δ, hδ, hball⟩ := mem_nhdsGT_iff_exists_Ioo_subset.mp hev
  exact ⟨δ, hδ, fun s h0 h1 => hball ⟨h0, h1⟩⟩

/-- Along the raw offset, the distance is given up and regained only at the crossings. -/
theorem raw_changes (hA : CrossAtAngle (rawWith p d c) E) : ChangesAtCrossings p (rawWith p d c) |d| E := by
  refine ⟨fun i t hi t0 t1 hcut hk => raw_steady he h hC hE hF hos hi t0 t1 hcut hk, fun a ha hk => ?_⟩
  rcases List.mem_append.mp ha with ha | ha
  · obtain ⟨⟨⟨i, t⟩, j, t'⟩, he', rfl⟩ := List.mem_map.mp ha
    exact ⟨(i, t), cut_mem (Or.inl he'), rfl, raw_leave he h hC hE hF hos hA (Or.inl he') hk⟩
  · obtain ⟨⟨⟨i, t⟩, j, t'⟩, he', rfl⟩ := List.mem_map.mp ha
    have e := hE.on _ he'
    exact ⟨(i, t), cut_mem (Or.inl he'), e, raw_leave he h hC hE hF hos hA (Or.inl he') (by rw [show curveAt (rawWith p d c) i t = _ from e]; exact hk)⟩

end

end

end Cavc
