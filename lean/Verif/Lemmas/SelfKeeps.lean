import Verif.Lemmas.RawKeeps
import Verif.Lemmas.SelfFoot
import Verif.Lemmas.LoopResult
import Verif.Spec.OffsetSelfCross

/-! # Along the raw offset of a closed polyline that may cross itself, the distance is given up and regained only at the cuts -/

set_option linter.unusedVariables false
set_option linter.unusedSectionVars false

namespace Cavc.Both
open RealScalar Pline Filter Topology

section
variable {p : Pline ℝ} {d : ℝ} {c : Nat → Corner} {eps : ℝ}

section
variable (he : 0 < eps) (h : ClearOffset p d c eps) (hC : CleanCorners p d c)
  {D : Pline ℝ} {gap : ℝ} {C : List Cut} (hO : SelfCuts (rawWith p d c) D eps gap C)
include he h hC hO

/-- two parts through one point -/
theorem same_point {i j : Nat} {q q' : RawPart} (hq : (arcParts p c)[i]? = some q) (hq' : (arcParts p c)[j]? = some q') {t s : ℝ} (t0 : 0 ≤ t) (t1 : t ≤ 1)
    (s0 : 0 ≤ s) (s1 : s ≤ 1) (hX : curveAt (rawWith p d c) i t = curveAt (rawWith p d c) j s) :
    i = j ∨ (PartFollows p c q q' ∧ t = 1 ∧ s = 0) ∨ (PartFollows p c q' q ∧ s = 1 ∧ t = 0) ∨ ((i, t) ∈ C ∧ (j, s) ∈ C) := by
  have hn : 0 < p.verts.length := by have := h.loop.two; omega
  have hi : i < (rawWith p d c).verts.length := by rw [arcParts_length]; exact (List.getElem?_eq_some_iff.mp hq).1
  have hj : j < (rawWith p d c).verts.length := by rw [arcParts_length]; exact (List.getElem?_eq_some_iff.mp hq').1
  rcases Nat.lt_trichotomy i j with hlt | heq | hlt
  · rcases hO.self i t j s hlt hj t0 t1 s0 s1 hX with ⟨e1, e2, e3⟩ | ⟨e1, e2, e3, e4⟩ | hm
    · exact Or.inr (Or.inl ⟨follows_index hn hq hq' (Or.inl e1), e2, e3⟩)
    · exact Or.inr (Or.inr (Or.inl ⟨follows_index hn hq' hq (Or.inr ⟨e1, by rw [e2, arcParts_length]⟩), e4, e3⟩))
    · exact Or.inr (Or.inr (Or.inr hm))
  · exact Or.inl heq
  · rcases hO.self j s i t hlt hi s0 s1 t0 t1 hX.symm with ⟨e1, e2, e3⟩ | ⟨e1, e2, e3, e4⟩ | hm
    · exact Or.inr (Or.inr (Or.inl ⟨follows_index hn hq' hq (Or.inl e1), e2, e3⟩))
    · exact Or.inr (Or.inl ⟨follows_index hn hq hq' (Or.inr ⟨e1, by rw [e2, arcParts_length]⟩), e4, e3⟩)
    · exact Or.inr (Or.inr (Or.inr hm.symm))

end

section
variable (he : 0 < eps) (h : ClearOffset p d c eps) (hC : CleanCorners p d c) {c' : Nat → Corner} (h' : ClearOffset p (-d) c' eps) (hC' : CleanCorners p (-d) c')
  {gap : ℝ} {C : List Cut} (hO : SelfCuts (rawWith p d c) (rawWith p (-d) c') eps gap C) (hF : FreeCuts p d c)
include he h hC h' hC' hO hF

/-- a point that keeps the distance and is not on the other raw offset is not on the other parallel curve -/
theorem not_other {X : V2 ℝ} (hX : Keeps p |d| X) (hn : ¬ OnPline (rawWith p (-d) c') X) :
    (∀ m u, 0 ≤ u → u ≤ 1 → X ≠ parCurve p (-d) m u) ∧ ∀ k s, -d * cornerSin p k < 0 → 0 ≤ s → s ≤ 1 → X ≠ roundArc p (-d) k s := by
  have hX' : Keeps p |-d| X := by rwa [abs_neg]
  exact ⟨fun m u u0 u1 e => hn ((raw_parallel he h' hC' X).mpr ⟨hX', Or.inl ⟨m, u, u0, u1, e⟩⟩).1,
    fun k s hs s0 s1 e => hn ((raw_parallel he h' hC' X).mpr ⟨hX', Or.inr ⟨k, s, hs, s0, s1, e⟩⟩).1⟩

theorem loop_steady {i : Nat} (hi : i < (rawWith p d c).verts.length) {t : ℝ} (t0 : 0 ≤ t) (t1 : t ≤ 1) (hcut : (i, t) ∉ C)
    (hk : Keeps p |d| (curveAt (rawWith p d c) i t)) :
    ∃ δ > 0, ∀ t', 0 ≤ t' → t' ≤ 1 → |t' - t| < δ → Keeps p |d| (curveAt (rawWith p d c) i t') := by
  have hn : 0 < p.verts.length := by have := h.loop.two; omega
  have hR : 0 < (rawWith p d c).verts.length := by omega
  have hi' : i < (arcParts p c).length := by rwa [arcParts_length] at hi
  set q := (arcParts p c)[i] with hqd
  have hq : (arcParts p c)[i]? = some q := List.getElem?_eq_getElem hi'
  have hcv := arcPart_curve (run_facts he h) hq
  have hcont := curveAt_continuous hR i
  have hturn : ∀ k, cornerSin p k = 0 → 0 < cornerCos p k := by
    intro k hk
    rw [← cornerCos_mod]
    exact hF.turn _ (Nat.mod_lt _ hn) (by rw [cornerSin_mod]; exact hk)
  obtain ⟨no1, no2⟩ := not_other he h hC h' hC' hO hF hk (fun hon => hcut (hO.other i t hi t0 t1 hon))
  have hev : ∀ᶠ τ in 𝓝[Set.Icc 0 1] t, Keeps p |d| (curveAt (rawWith p d c) i τ) := by
    refine keeps_near h.loop he h.moves hturn hk (((continuous_fst.comp hcont).tendsto t).mono_left nhdsWithin_le_nhds)
      (((continuous_snd.comp hcont).tendsto t).mono_left nhdsWithin_le_nhds) ?_ ?_
    · rintro e (rfl | rfl) m u u0 u1 hXm
      swap
      · exact absurd hXm (no1 m u u0 u1)
      obtain ⟨j, s, hj, s0, s1, hu, hcs⟩ := carrier_side he h hC m u0 u1 (hXm ▸ hk)
      rcases same_point he h hC hO hq hj t0 t1 s0 s1 (hXm.trans hcs) with rfl | ⟨hf, rfl, rfl⟩ | ⟨hf, rfl, rfl⟩ | hm
      · left
        have e : q = .side (m % p.verts.length) := Option.some.inj (hq.symm.trans hj)
        refine Eventually.of_forall fun τ => ?_
        rw [hcv, e]
        exact (farSeg_same (Nat.mod_mod _ _)).mp (side_far he h _ _)
      · obtain ⟨k, hkm, ⟨e, t₀, u₀, hc⟩ | e⟩ := follows_to_side hf
        · left
          have hkn : k < p.verts.length := by
            rcases mem_arcParts.mp (List.mem_of_getElem? hq) with ⟨k', hk', e'⟩ | ⟨k', hk', b, hc', e'⟩
            · rw [e] at e'; injection e' with e'; omega
            · rw [e] at e'; exact absurd e' (by simp)
          obtain ⟨δ, hδ, hb⟩ := hF.before k hkn t₀ u₀ hc
          have hlt := h.forward k
          have hle : leaveAt p c k = t₀ := by rw [leaveAt_eq p c hkn, hc]; rfl
          have hgt : ∀ᶠ τ in 𝓝[Set.Icc 0 1] (1 : ℝ), t₀ - δ < enterAt p c k + (leaveAt p c k - enterAt p c k) * τ := by
            have hcn : Continuous fun τ : ℝ => enterAt p c k + (leaveAt p c k - enterAt p c k) * τ := by fun_prop
            exact ((hcn.tendsto 1).eventually (lt_mem_nhds (by rw [mul_one, hle]; linarith))).filter_mono nhdsWithin_le_nhds
          filter_upwards [hgt, self_mem_nhdsWithin] with τ h1 h2
          rw [hcv, e]
          refine (farSeg_same (a := k + 1) (by rw [hkm, Nat.mod_mod])).mp (hb _ h1 ?_)
          rw [← hle]
          nlinarith [h2.2]
        · right; right
          obtain ⟨hkn, hs, ⟨b, hc⟩, hrc⟩ := kept_round he h hC (by rw [← e]; exact hq) t0 t1 hk
          refine ⟨?_, fun k' hk' => ?_⟩
          · rw [hu, mul_zero, add_zero, ← enterAt_mod hn, ← Nat.mod_mod, ← hkm, enterAt_mod hn, enterAt_succ p c hkn, hc]; rfl
          · have hkk : k' % p.verts.length = k := by
              rw [same_of_succ (b := k) (n := p.verts.length) (by rw [← hk', hkm, Nat.mod_mod]), Nat.mod_eq_of_lt hkn]
            refine ⟨by rw [← cornerSin_mod, hkk]; exact hs, ?_⟩
            filter_upwards [self_mem_nhdsWithin] with τ hτ
            exact ⟨τ, hτ.1, hτ.2, by rw [hrc, ← roundArc_mod p _ k', hkk]⟩
      · rcases follows_from_side hf with ⟨⟨t₀, u₀, hc⟩, k, e, hkm⟩ | ⟨⟨b, hc⟩, e⟩
        · left
          have hmn := Nat.mod_lt m hn
          obtain ⟨δ, hδ, hb⟩ := hF.after _ hmn t₀ u₀ hc
          have hlt := h.forward k
          have hen : enterAt p c k = u₀ := by rw [enterAt_same hn hkm, enterAt_succ p c hmn, hc]; rfl
          have hgt : ∀ᶠ τ in 𝓝[Set.Icc 0 1] (0 : ℝ), enterAt p c k + (leaveAt p c k - enterAt p c k) * τ < u₀ + δ := by
            have hcn : Continuous fun τ : ℝ => enterAt p c k + (leaveAt p c k - enterAt p c k) * τ := by fun_prop
            exact ((hcn.tendsto 0).eventually (gt_mem_nhds (by rw [mul_zero, hen]; linarith))).filter_mono nhdsWithin_le_nhds
          filter_upwards [hgt, self_mem_nhdsWithin] with τ h1 h2
          rw [hcv, e]
          refine (farSeg_same (Nat.mod_mod _ _)).mp ?_
          simp only [arcCurve]
          rw [parCurve_same hkm]
          refine hb _ ?_ h1
          rw [← hen]
          nlinarith [h2.1]
        · right; left
          obtain ⟨hkn, hs, -, hrc⟩ := kept_round he h hC (by rw [← e]; exact hq) t0 t1 hk
          refine ⟨?_, by rw [← cornerSin_mod]; exact hs, ?_⟩
          · have hle : leaveAt p c m = 1 := by rw [← leaveAt_mod, leaveAt_eq p c hkn, hc]; rfl
            rw [hu, hle]; ring
          · filter_upwards [self_mem_nhdsWithin] with τ hτ
            exact ⟨τ, hτ.1, hτ.2, by rw [hrc, roundArc_mod]⟩
      · exact absurd hm.1 hcut
    · rintro e (rfl | rfl) k s hs s0 s1 hXk
      swap
      · exact absurd hXk (no2 k s hs s0 s1)
      obtain ⟨j, hj, hrc⟩ := carrier_round he h hC hs
      rcases same_point he h hC hO hq hj t0 t1 s0 s1 (hXk.trans (hrc s).symm) with rfl | ⟨hf, rfl, rfl⟩ | ⟨hf, rfl, rfl⟩ | hm
      · refine Eventually.of_forall fun τ => ?_
        rw [hrc]
        exact (cornerArc_dist (arrive_ne h.loop he k) _ τ).ge
      · have e := follows_to_corner hf
        refine Eventually.of_forall fun τ => ?_
        rw [hcv, e]
        exact (farSeg_same (Nat.mod_mod _ _)).mp (side_far he h (k % p.verts.length) _) _ (onSeg_end _ _)
      · obtain ⟨m, e, hm⟩ := follows_from_corner hf
        refine Eventually.of_forall fun τ => ?_
        rw [hcv, e]
        rw [Nat.mod_add_mod] at hm
        exact (farSeg_same hm).mp (side_far he h m _) _ (onSeg_start _ _)
      · exact absurd hm.1 hcut
  obtain ⟨δ, hδ, hball⟩ := Metric.mem_nhdsWithin_iff.mp hev
  exact ⟨δ, hδ, fun t' h0 h1 ht => hball ⟨by rw [Metric.mem_ball, Real.dist_eq]; exact ht, h0, h1⟩⟩

end

section
variable (he : 0 < eps) (h : ClearOffset p d c eps) (hC : CleanCorners p d c)
include he h hC

/-- all feet of a point are found on the parts through it -/
theorem feet {F : Filter ℝ} {X : V2 ℝ} {Y : ℝ → V2 ℝ} (hX : Keeps p |d| X)
    (W : ∀ j s q', (arcParts p c)[j]? = some q' → 0 ≤ s → s ≤ 1 → X = curveAt (rawWith p d c) j s →
      ∀ᶠ τ in F, (∀ m, q' = .side m → FarSeg p |d| (Y τ) m) ∧ ∀ k, q' = .corner k → |d| ≤ edist (Y τ) (cornerPos p (k + 1))) :
    (∀ m u, 0 ≤ u → u ≤ 1 → X = parCurve p d m u → ∀ᶠ τ in F, FarSeg p |d| (Y τ) m) ∧
      ∀ k s, d * cornerSin p k < 0 → 0 ≤ s → s ≤ 1 → X = roundArc p d k s → ∀ᶠ τ in F, |d| ≤ edist (Y τ) (cornerPos p (k + 1)) := by
  constructor
  · intro m u u0 u1 e
    obtain ⟨j, s, hj, s0, s1, -, hcs⟩ := carrier_side he h hC m u0 u1 (e ▸ hX)
    exact (W j s _ hj s0 s1 (e.trans hcs)).mono fun τ hτ => (farSeg_same (Nat.mod_mod _ _)).mp (hτ.1 _ rfl)
  · intro k s hs s0 s1 e
    obtain ⟨j, hj, hrc⟩ := carrier_round he h hC hs
    refine (W j s _ hj s0 s1 (e.trans (hrc s).symm)).mono fun τ hτ => ?_
    have := hτ.2 _ rfl
    rwa [(corner_mod p k).1] at this

/-- a part keeps its distance from what it belongs to -/
theorem own {j : Nat} {q : RawPart} (hq : (arcParts p c)[j]? = some q) {t : ℝ} (t0 : 0 ≤ t) (t1 : t ≤ 1) (hX : Keeps p |d| (curveAt (rawWith p d c) j t)) (s : ℝ) :
    (∀ m, q = .side m → FarSeg p |d| (curveAt (rawWith p d c) j s) m) ∧ ∀ k, q = .corner k → |d| ≤ edist (curveAt (rawWith p d c) j s) (cornerPos p (k + 1)) := by
  obtain ⟨A, B, C, D, hz, -, hfar⟩ := part_quad he h hC hq t0 t1 hX
  exact hfar _ (hz s).ge

end

section
variable (he : 0 < eps) (h : ClearOffset p d c eps) (hC : CleanCorners p d c) {c' : Nat → Corner} (h' : ClearOffset p (-d) c' eps) (hC' : CleanCorners p (-d) c')
  {gap : ℝ} {C : List Cut} (hO : SelfCuts (rawWith p d c) (rawWith p (-d) c') eps gap C) (hF : FreeCuts p d c)
include he h hC h' hC' hO hF

theorem loop_leave {i : Nat} {t : ℝ} (hcut : (i, t) ∈ C) (hk : Keeps p |d| (curveAt (rawWith p d c) i t))
    (hK : LoopCutKind (rawWith p d c) (rawWith p (-d) c') C (i, t)) :
    ∃ σ : ℝ, (σ = 1 ∨ σ = -1) ∧ ∃ δ > 0, ∀ s, 0 < s → s < δ → Keeps p |d| (curveAt (rawWith p d c) i (t + σ * s)) := by
  have hn : 0 < p.verts.length := by have := h.loop.two; omega
  have hi : i < (rawWith p d c).verts.length := hO.range _ hcut
  have hok := hO.ok _ hcut
  obtain ⟨t0, t1⟩ : 0 < t ∧ t < 1 := ⟨hok.pos, hok.lt⟩
  have hR : 0 < (rawWith p d c).verts.length := by omega
  have hD : 0 < (rawWith p (-d) c').verts.length := by have := h'.full.two; omega
  obtain ⟨q, hq⟩ : ∃ q, (arcParts p c)[i]? = some q := ⟨_, List.getElem?_eq_getElem (by rwa [arcParts_length] at hi)⟩
  have hcont := curveAt_continuous hR i
  have hturn : ∀ k, cornerSin p k = 0 → 0 < cornerCos p k := by
    intro k hk
    rw [← cornerCos_mod]
    exact hF.turn _ (Nat.mod_lt _ hn) (by rw [cornerSin_mod]; exact hk)
  obtain ⟨l, hl, f1, f2⟩ := seg_deriv (shapeAt h.full he i) t
  simp only [← curveAt_vtx hR] at f1 f2
  have hrange : ∀ {j q'}, (arcParts p c')[j]? = some q' → j < (rawWith p (-d) c').verts.length := by
    intro j q' hj; rw [arcParts_length]; exact (List.getElem?_eq_some_iff.mp hj).1
  have hdual : ∀ j s q', (arcParts p c')[j]? = some q' → 0 ≤ s → s ≤ 1 → curveAt (rawWith p d c) i t = curveAt (rawWith p (-d) c') j s →
      OnPline (rawWith p (-d) c') (curveAt (rawWith p d c) i t) := fun j s q' hj s0 s1 e => by
    exact (loop_on h'.full _).mpr ⟨j, s, hrange hj, s0, s1, e⟩
  have hpass : ∀ j s q', (arcParts p c)[j]? = some q' → 0 ≤ s → s ≤ 1 → curveAt (rawWith p d c) i t = curveAt (rawWith p d c) j s → i = j ∨ (j, s) ∈ C := by
    intro j s q' hj s0 s1 e
    rcases same_point he h hC hO hq hj t0.le t1.le s0 s1 e with h1 | ⟨-, h1, -⟩ | ⟨-, -, h1⟩ | h1
    · exact Or.inl h1
    · linarith
    · linarith
    · exact Or.inr h1.2
  -- the end of the proof, the same for both kinds
  have core : ∀ σ : ℝ,
      (∀ j s q', (arcParts p c)[j]? = some q' → 0 ≤ s → s ≤ 1 → curveAt (rawWith p d c) i t = curveAt (rawWith p d c) j s →
        ∀ᶠ τ in 𝓝[>] (0 : ℝ), (∀ m, q' = .side m → FarSeg p |d| (curveAt (rawWith p d c) i (t + σ * τ)) m) ∧
          ∀ k, q' = .corner k → |d| ≤ edist (curveAt (rawWith p d c) i (t + σ * τ)) (cornerPos p (k + 1))) →
      (∀ j s q', (arcParts p c')[j]? = some q' → 0 ≤ s → s ≤ 1 → curveAt (rawWith p d c) i t = curveAt (rawWith p (-d) c') j s →
        ∀ᶠ τ in 𝓝[>] (0 : ℝ), (∀ m, q' = .side m → FarSeg p |d| (curveAt (rawWith p d c) i (t + σ * τ)) m) ∧
          ∀ k, q' = .corner k → |d| ≤ edist (curveAt (rawWith p d c) i (t + σ * τ)) (cornerPos p (k + 1))) →
      ∃ δ > 0, ∀ s, 0 < s → s < δ → Keeps p |d| (curveAt (rawWith p d c) i (t + σ * s)) := by
    intro σ W W'
    have hline : Tendsto (fun s : ℝ => t + σ * s) (𝓝[>] 0) (𝓝 t) := by
      have hcn : Continuous fun s : ℝ => t + σ * s := by fun_prop
      have := hcn.tendsto 0
      rw [mul_zero, add_zero] at this
      exact this.mono_left nhdsWithin_le_nhds
    obtain ⟨a1, a2⟩ := feet he h hC hk W
    obtain ⟨b1, b2⟩ := feet he h' hC' (by rwa [abs_neg]) (by simpa only [abs_neg] using W')
    simp only [abs_neg] at b1 b2
    have hev : ∀ᶠ s in 𝓝[>] (0 : ℝ), Keeps p |d| (curveAt (rawWith p d c) i (t + σ * s)) := by
      refine keeps_near h.loop he h.moves hturn hk (((continuous_fst.comp hcont).tendsto t).comp hline)
        (((continuous_snd.comp hcont).tendsto t).comp hline) ?_ ?_
      · rintro e (he' | he') m u u0 u1 hXm
        · rw [he'] at hXm; exact Or.inl (a1 m u u0 u1 hXm)
        · rw [he'] at hXm; exact Or.inl (b1 m u u0 u1 hXm)
      · rintro e (he' | he') k s hs s0 s1 hXk
        · rw [he'] at hXk hs; exact a2 k s hs s0 s1 hXk
        · rw [he'] at hXk hs; exact b2 k s hs s0 s1 hXk
    obtain ⟨δ, hδ, hball⟩ := mem_nhdsGT_iff_exists_Ioo_subset.mp hev
    exact ⟨δ, hδ, fun s h0 h1 => hball ⟨h0, h1⟩⟩
  have hself : ∀ σ : ℝ, ∀ᶠ τ in 𝓝[>] (0 : ℝ), (∀ m, q = .side m → FarSeg p |d| (curveAt (rawWith p d c) i (t + σ * τ)) m) ∧
          ∀ k, q = .corner k → |d| ≤ edist (curveAt (rawWith p d c) i (t + σ * τ)) (cornerPos p (k + 1)) :=
    fun σ => Eventually.of_forall fun τ => own he h hC hq t0.le t1.le hk _
  cases hK with
  | self b mem other same only angle dual =>
    obtain ⟨j, u⟩ := b
    dsimp only at same only angle dual other
    have hj : j < (rawWith p d c).verts.length := hO.range _ mem
    have hokj := hO.ok _ mem
    obtain ⟨u0, u1⟩ : 0 < u ∧ u < 1 := ⟨hokj.pos, hokj.lt⟩
    obtain ⟨q', hq'⟩ : ∃ q', (arcParts p c)[j]? = some q' := ⟨_, List.getElem?_eq_getElem (by rwa [arcParts_length] at hj)⟩
    obtain ⟨l', hl', g1, g2⟩ := seg_deriv (shapeAt h.full he j) u
    simp only [← curveAt_vtx hR] at g1 g2
    obtain ⟨A, B, C', D, hz, hG, hfar⟩ := part_quad he h hC hq' u0.le u1.le (same ▸ hk)
    obtain ⟨σ, hσ, hpos⟩ := quad_sides f1 f2 g1 g2 same.symm (angle _ _ _ _ f1 f2 g1 g2) hz (hG u)
    refine ⟨σ, hσ, core σ ?_ ?_⟩
    · intro j' s q'' hj' s0 s1 e
      rcases hpass j' s q'' hj' s0 s1 e with rfl | hm
      · rw [hq] at hj'; cases hj'; exact hself σ
      · rcases only _ hm e.symm with hb | hb
        · injection hb with h1 h2; subst h1
          rw [hq] at hj'; cases hj'; exact hself σ
        · injection hb with h1 h2; subst h1
          rw [hq'] at hj'; cases hj'
          exact hpos.mono fun τ hτ => hfar _ hτ
    · intro j' s q'' hj' s0 s1 e
      exact absurd (hdual j' s q'' hj' s0 s1 e) dual
  | dual j u range inside same only angle self =>
    dsimp only at same only angle self
    obtain ⟨q', hq'⟩ : ∃ q', (arcParts p c')[j]? = some q' := ⟨_, List.getElem?_eq_getElem (by rwa [arcParts_length] at range)⟩
    obtain ⟨l', hl', g1, g2⟩ := seg_deriv (shapeAt h'.full he j) u
    simp only [← curveAt_vtx hD] at g1 g2
    obtain ⟨A, B, C', D, hz, hG, hfar⟩ := part_quad he h' hC' hq' inside.1 inside.2 (by rw [abs_neg, same]; exact hk)
    rw [abs_neg] at hfar
    obtain ⟨σ, hσ, hpos⟩ := quad_sides f1 f2 g1 g2 same.symm (angle _ _ _ _ f1 f2 g1 g2) hz (hG u)
    refine ⟨σ, hσ, core σ ?_ ?_⟩
    · intro j' s q'' hj' s0 s1 e
      have hij : i = j' := by
        rcases hpass j' s q'' hj' s0 s1 e with h1 | hm
        · exact h1
        · have := self _ hm e.symm; injection this with h1 _; exact h1.symm
      subst hij
      rw [hq] at hj'; cases hj'; exact hself σ
    · intro j' s q'' hj' s0 s1 e
      have hjj := only j' s (hrange hj') s0 s1 e.symm
      subst hjj
      rw [hq'] at hj'; cases hj'
      exact hpos.mono fun τ hτ => hfar _ hτ

/-- Along the raw offset, the distance is given up and regained only at the cuts. -/
theorem loop_changes (hK : ∀ a ∈ C, Keeps p |d| (curveAt (rawWith p d c) a.1 a.2) → LoopCutKind (rawWith p d c) (rawWith p (-d) c') C a) :
    SelfChanges p (rawWith p d c) |d| C :=
  ⟨fun _ _ hi t0 t1 hcut hk => loop_steady he h hC h' hC' hO hF hi t0 t1 hcut hk,
    fun a ha hk => ⟨a, ha, rfl, loop_leave he h hC h' hC' hO hF ha hk (hK a ha hk)⟩⟩

end

end

end Cavc.Both
