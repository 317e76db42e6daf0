import Verif.Spec.ShapeSingle
import Verif.Props.OffsetTurn
import Verif.Props.OffsetSelfRegion
import Verif.Props.OffsetSimple
import Verif.Lemmas.IsletSingle

/-! # C72, C74: the parallel offset of a shape, from conditions on its polylines and on the crossings of their offsets -/

set_option linter.unusedVariables false

namespace Cavc
open Pline RealScalar

/-- the direction in which the polyline number `j` turns -/
noncomputable def turnAt (s : Shape ℝ) (j : Nat) : ℤ := match s.loops[j]? with
  | some ip => turnOf ip.pline.orientation
  | none => 0

theorem simple_turns {p : Pline ℝ} (hp : Loop p) (hs : SimpleLoop p) : TurnsLike p (turnOf p.orientation) := by
  obtain ⟨τ, hτ, hv, -, -⟩ := C62_simple_winding p hp hs
  have h : TurnsLike p τ := ⟨hτ, hv⟩
  rw [turn_orientation hp hs h]
  exact h

/-- a clear single offset -/
theorem single_curve (env : Env ℝ) (henv : env.Lawful) (p : Pline ℝ) (idx : Index ℝ) (hidx : idx.Serves p) (d eps joinEps tol : ℝ) (hs : SimpleLoop p) (hp : Loop p) (hd : d ≠ 0)
    (he : 0 < eps) (ht : 0 < tol) (hD : tol ≤ |d|) (hj0 : 0 < joinEps) (h : ClearlyOffset p d eps joinEps tol) :
    ∃ rs, parallelOffset env p d ⟨some idx, false, eps, joinEps, tol⟩ = .ok rs ∧ Alongside p d (turnOf p.orientation) rs ∧ (∀ r ∈ rs, FullLoop r eps) ∧ ∀ r ∈ rs, SimpleLoop r := by
  obtain ⟨c, gap, E, h1, h2, h3, h4, h5, h6, h7, h8, h9, h10⟩ := h
  have hserve : ∀ i, (⟨some idx, false, eps, joinEps, tol⟩ : OffsetOptions ℝ).aabbIndex = some i → i.Serves p := by
    intro i hi
    cases hi
    exact hidx
  obtain ⟨rs, hrs, ha⟩ := C74_offset_curve env henv p d ⟨some idx, false, eps, joinEps, tol⟩ hserve rfl hs hd he c h1 h2 h3 gap E h4 h5 h6 ht hD h7 h8 h9 hj0 h10 _ (simple_turns hp hs)
  obtain ⟨rs', hrs', hc, -⟩ := C66_parallel_simple env henv p d ⟨some idx, false, eps, joinEps, tol⟩ hserve rfl hs hd he c h1 h2 h3 gap E h4 h5 h6 ht hD h7 h8 h9 hj0 h10
  have heq : rs' = rs := by rw [hrs] at hrs'; exact (Except.ok.inj hrs').symm
  subst heq
  obtain ⟨rs'', hrs'', hsim, -⟩ := C75_offset_simple env henv p d ⟨some idx, false, eps, joinEps, tol⟩ hserve rfl hs hd he c h1 h2 h3 gap E h4 h5 h6 ht hD h7 h8 h9 hj0 h10
  have heq : rs'' = rs' := by rw [hrs] at hrs''; exact (Except.ok.inj hrs'').symm
  subst heq
  refine ⟨rs'', hrs, ha, fun r hr => ?_, fun r hr => (hsim r hr).2⟩
  obtain ⟨a, b, f⟩ := hc r hr
  refine ⟨a, b, fun i => ?_⟩
  have hn : 0 < r.verts.length := by omega
  rw [← vtx_mod r i, ← vtx_mod_succ]
  exact f _ (List.mem_of_getElem? ((seg_vtx a b _ _).mpr ⟨Nat.mod_lt _ hn, rfl⟩))

/-- The single offsets of all polylines of a shape are clear of the tolerances; the polylines are sorted by orientation. -/
structure SinglesClear (env : Env ℝ) (s : Shape ℝ) (d : ℝ) (o : ShapeOffsetOptions ℝ) : Prop where
  left : ∀ ip ∈ s.ccw, ip.pline.orientation = .counterClockwise
  right : ∀ ip ∈ s.cw, ip.pline.orientation = .clockwise
  clear : ∀ ip ∈ s.loops, ClearlyOffset ip.pline d o.posEqualEps o.sliceJoinEps o.offsetDistEps

/-- what follows for the offset loops -/
theorem SinglesClear.loops {env : Env ℝ} (henv : env.Lawful) {s : Shape ℝ} (hs : ∀ ip ∈ s.loops, ip.index.Serves ip.pline) {d : ℝ}
    {o : ShapeOffsetOptions ℝ} (h : SinglesClear env s d o) (he : 0 < o.posEqualEps) (ht : 0 < o.offsetDistEps) (hD : o.offsetDistEps ≤ |d|) (hj0 : 0 < o.sliceJoinEps)
    (hin : ∀ ip ∈ s.loops, Loop ip.pline) (hsim : ∀ ip ∈ s.loops, SimpleLoop ip.pline) {ccw cw : List (OffsetLoop ℝ)} (hl : ShapeLoops env s d o ccw cw) :
    (∀ (j : Nat) (ip : IndexedPline ℝ), s.loops[j]? = some ip → TurnsLike ip.pline (turnAt s j)) ∧
    (∀ l ∈ ccw ++ cw, FullLoop l.ip.pline o.posEqualEps) ∧ (∀ l ∈ ccw ++ cw, SimpleLoop l.ip.pline) ∧
    ∀ (j : Nat) (ip : IndexedPline ℝ), s.loops[j]? = some ip → Alongside ip.pline d (turnAt s j) (loopsOf (ccw ++ cw) j) := by
  have hd : d ≠ 0 := by
    rintro rfl
    rw [abs_zero] at hD
    linarith
  have key : ∀ (j : Nat) (ip : IndexedPline ℝ), s.loops[j]? = some ip → turnAt s j = turnOf ip.pline.orientation ∧
      Alongside ip.pline d (turnAt s j) (loopsOf (ccw ++ cw) j) ∧ ∀ r ∈ loopsOf (ccw ++ cw) j, FullLoop r o.posEqualEps ∧ SimpleLoop r := by
    intro j ip hj
    have hm := List.mem_of_getElem? hj
    have e : turnAt s j = turnOf ip.pline.orientation := by unfold turnAt; rw [hj]
    obtain ⟨rs, hrs, ha, hf, hsr⟩ := single_curve env henv ip.pline ip.index (hs ip hm) d _ _ _ (hsim ip hm) (hin ip hm) hd he ht hD hj0 (h.clear ip hm)
    obtain ⟨h1, h2⟩ := C74_none_skipped env s d o ccw cw hl h.left h.right j ip hj (hin ip hm) (hsim ip hm) rs hrs _ (simple_turns (hin ip hm) (hsim ip hm)) ha
      (fun r hr => (hf r hr).loop he) hsr
    refine ⟨e, by rw [e]; exact h2, fun r hr => ?_⟩
    have := (h1 r).mp hr
    exact ⟨hf r this, hsr r this⟩
  have hof : ∀ l ∈ ccw ++ cw, FullLoop l.ip.pline o.posEqualEps ∧ SimpleLoop l.ip.pline := fun l hlm =>
    (key _ _ (List.getElem?_eq_getElem (parent_range hl l hlm))).2.2 _ (loopsOf_mem hlm rfl)
  refine ⟨fun j ip hj => ?_, fun l hlm => (hof l hlm).1, fun l hlm => (hof l hlm).2, fun j ip hj => (key j ip hj).2.1⟩
  rw [(key j ip hj).1]
  exact simple_turns (hin ip (List.mem_of_getElem? hj)) (hsim ip (List.mem_of_getElem? hj))

/-- **C72** The exact parallel curve of a shape, from conditions on the polylines of the shape, on their single offsets (`SinglesClear`) and on the places where the offset loops cross.
Nothing is assumed about which of the single offsets are used, where they run, or where they keep which distance. -/
theorem C72_shape_exact (env : Env ℝ) (henv : env.Lawful) (s : Shape ℝ) (hs : ∀ ip ∈ s.loops, ip.index.Serves ip.pline) (d : ℝ)
    (o : ShapeOffsetOptions ℝ) (he : 0 < o.posEqualEps) (ht : 0 < o.offsetDistEps) (hD : o.offsetDistEps ≤ |d|)
    (hin : ∀ ip ∈ s.loops, Loop ip.pline) (hsim : ∀ ip ∈ s.loops, SimpleLoop ip.pline)
    (hdis : ∀ (i j : Nat) (ip jp : IndexedPline ℝ), s.loops[i]? = some ip → s.loops[j]? = some jp → i ≠ j → ∀ X, OnPline ip.pline X → ¬ OnPline jp.pline X)
    (a : ℤ) (htwo : ∀ X, (∀ ip ∈ s.loops, ¬ OnPline ip.pline X) → s.windingNumber X = a ∨ s.windingNumber X = a + 1)
    (hone : SinglesClear env s d o) (ccw cw : List (OffsetLoop ℝ)) (hl : ShapeLoops env s d o ccw cw)
    (gap : ℝ) (C : Nat → List Cut) (hC : ShapeCuts (ccw ++ cw) o.posEqualEps gap C) (hF : ShapeFinds (ccw ++ cw) o.posEqualEps)
    (hX : ShapeCross (ccw ++ cw) C) (hT : ShapeTests s.loops (ccw ++ cw) |d| o.posEqualEps o.offsetDistEps C)
    (hg : o.posEqualEps ≤ gap) (hj0 : 0 < o.sliceJoinEps) (hj : 2 * o.sliceJoinEps ≤ gap) :
    ∃ s', s.parallelOffset env d o = .ok s' ∧ s'.WellFormed ∧ (∀ ip ∈ s'.loops, Loop ip.pline) ∧
      (∀ X, (∃ ip ∈ s'.loops, OnPline ip.pline X) ↔ (∀ ip ∈ s.loops, Keeps ip.pline |d| X) ∧ (∃ ip ∈ s.loops, ∃ F, OnPline ip.pline F ∧ edist X F = |d|) ∧
        s.windingNumber X = if 0 < d then a + 1 else a) ∧
      ∀ Y, (∀ ip ∈ s'.loops, ¬ OnPline ip.pline Y) →
        ((∀ ip ∈ s.loops, Keeps ip.pline |d| Y) → s'.windingNumber Y = s.windingNumber Y) ∧
        ((∃ ip ∈ s.loops, ¬ Keeps ip.pline |d| Y) → s'.windingNumber Y = if 0 < d then a else a + 1) := by
  obtain ⟨h1, h2, h3, h4⟩ := hone.loops henv hs he ht hD hj0 hin hsim hl
  obtain ⟨s', r1, r2, -, r3⟩ := C72_shape_curve env henv s hs d o he ht hD hin hsim hdis a htwo (turnAt s) h1 ccw cw hl h2 h4 h3 gap C hC hF hX hT hg hj0.le hj
  obtain ⟨s'', q1, q2, q3⟩ := C74_region_cross env henv s hs d o he ht hD hin hsim hdis a htwo (turnAt s) h1 ccw cw hl h2 h4 h3 gap C hC hF hX hT hg hj0.le hj
  have e : s'' = s' := by rw [r1] at q1; exact (Except.ok.inj q1).symm
  subst e
  exact ⟨s'', r1, r2, q2, r3, q3⟩

/-- The single offsets of island and bay are clear. -/
theorem islet_singles (env : Env ℝ) (henv : env.Lawful) {s : Shape ℝ} {a b : IndexedPline ℝ} (h : Islet s a b) : SinglesClear env s (-1) isletOpts := by
  have o1 : turnOf box4.orientation = 1 := turn_orientation (straight_loop box4_straight) box4_simple box4_turns
  have o2 : turnOf bay.orientation = -1 := turn_orientation (straight_loop bay_straight) bay_simple bay_turns
  refine ⟨?_, ?_, ?_⟩
  · rw [h.ccw]
    intro ip hip
    rw [List.mem_singleton] at hip
    subst hip
    rw [h.island]
    cases e : box4.orientation <;> rw [e] at o1 <;> simp [turnOf] at o1 ⊢
  · rw [h.cw]
    intro ip hip
    rw [List.mem_singleton] at hip
    subst hip
    rw [h.bay]
    cases e : bay.orientation <;> rw [e] at o2 <;> simp [turnOf] at o2 ⊢
  · rw [h.loops]
    intro ip hip
    rcases List.mem_pair.mp hip with rfl | rfl
    · rw [h.island]; exact box4_clearly
    · rw [h.bay]; exact bay_clearly

/-- The hypotheses of C72_shape_exact hold for island and bay: where the offset by -1 stays away from both, its numbers are the sums of theirs. -/
theorem islet_exact (env : Env ℝ) (henv : env.Lawful) : ∃ s s', Shape.fromPlines env [box4, bay] = .ok s ∧ s.parallelOffset env (-1) isletOpts = .ok s' ∧
    ∀ Y, (∀ ip ∈ s'.loops, ¬ OnPline ip.pline Y) → Keeps box4 1 Y → Keeps bay 1 Y → s'.windingNumber Y = box4.windingNumber Y + bay.windingNumber Y := by
  obtain ⟨s, a, b, hs, h⟩ := islet_exists env henv
  have hd : |(-1 : ℝ)| = 1 := by norm_num
  have hsum : ∀ X, s.windingNumber X = box4.windingNumber X + bay.windingNumber X := by
    intro X
    unfold Shape.windingNumber
    rw [h.loops]
    simp [h.island, h.bay]
  have hserve : ∀ ip ∈ s.loops, ip.index.Serves ip.pline := by
    rw [h.loops]
    intro ip hip
    rcases List.mem_pair.mp hip with rfl | rfl
    · rw [h.island]; exact h.serve1
    · rw [h.bay]; exact h.serve2
  have both : ∀ {P : Pline ℝ → Prop}, P box4 → P bay → ∀ ip ∈ s.loops, P ip.pline := by
    intro P h0 h1 ip hip
    rw [h.loops] at hip
    rcases List.mem_pair.mp hip with rfl | rfl
    · rw [h.island]; exact h0
    · rw [h.bay]; exact h1
  have hF : ShapeFinds ([isletOut env] ++ [isletIn env]) isletOpts.posEqualEps := by
    intro i l hl j m hm hij
    rcases islet_two hl with ⟨rfl, rfl⟩ | ⟨rfl, rfl⟩ <;> rcases islet_two hm with ⟨rfl, rfl⟩ | ⟨rfl, rfl⟩
    · exact absurd hij (lt_irrefl _)
    · exact islet_finds
    · exact absurd hij (by norm_num)
    · exact absurd hij (lt_irrefl _)
  have hdis : ∀ (i j : Nat) (ip jp : IndexedPline ℝ), s.loops[i]? = some ip → s.loops[j]? = some jp → i ≠ j → ∀ X, OnPline ip.pline X → ¬ OnPline jp.pline X := by
    intro i j ip jp hi hj hne X hX hX'
    rw [h.loops] at hi hj
    rcases i with _ | _ | i <;> rcases j with _ | _ | j <;> simp at hi hj hne
    · subst hi hj; rw [h.island] at hX; rw [h.bay] at hX'; exact islet_disjoint hX hX'
    · subst hi hj; rw [h.bay] at hX; rw [h.island] at hX'; exact islet_disjoint hX' hX
  have htwo : ∀ X, (∀ ip ∈ s.loops, ¬ OnPline ip.pline X) → s.windingNumber X = -1 ∨ s.windingNumber X = -1 + 1 := by
    intro X hX
    rw [hsum]
    rw [h.loops] at hX
    have e1 := hX a (by simp)
    have e2 := hX b (by simp)
    rw [h.island] at e1
    rw [h.bay] at e2
    exact islet_numbers e1 e2
  obtain ⟨s', h1, -, -, -, h2⟩ := C72_shape_exact env henv s hserve (-1) isletOpts (by norm_num [isletOpts]) (by norm_num [isletOpts]) (by norm_num [isletOpts])
    (both (straight_loop box4_straight) (straight_loop bay_straight)) (both box4_simple bay_simple) hdis (-1) htwo (islet_singles env henv h)
    _ _ (islet_loops env henv h) 1 isletCuts
    (islet_cuts env) hF (islet_cross env) (by rw [hd]; exact islet_tests env h) (by norm_num [isletOpts]) (by norm_num [isletOpts]) (by norm_num [isletOpts])
  refine ⟨s, s', hs, h1, fun Y hY k1 k2 => ?_⟩
  rw [(h2 Y hY).1 (by rw [hd]; exact both (P := fun p => Keeps p 1 Y) k1 k2), hsum]

end Cavc
