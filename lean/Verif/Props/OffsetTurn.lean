import Verif.Props.ShapeCross
import Verif.Lemmas.OffsetTurn

/-! # C74: offsets to the inside keep the orientation, so the offset of a shape skips none of them -/

set_option linter.unusedVariables false

namespace Cavc
open Pline RealScalar

theorem turn_orientation {p : Pline ℝ} (hp : Loop p) (hs : SimpleLoop p) {σ : ℤ} (hσ : TurnsLike p σ) : turnOf p.orientation = σ := by
  obtain ⟨τ, hτ, -, -, X, hX, e⟩ := C62_simple_winding p hp hs
  refine (C64_orientation p hp σ hσ.1 hσ.2 ⟨X, hX, ?_⟩).1
  have := hσ.2 X hX
  rcases hτ with rfl | rfl <;> rcases this with h | h <;> omega

/-- **C74** Offsets to the inside keep the orientation: the parallel curve of a simple closed polyline on its inside (positive distances for counterclockwise polylines,
negative for clockwise ones) consists of polylines with the orientation of the input, if they do not touch themselves. -/
theorem C74_inward_orientation (p : Pline ℝ) (hp : Loop p) (hs : SimpleLoop p) (d : ℝ) (σ : ℤ) (hσ : TurnsLike p σ) (hin : 0 < d * σ) (rs : List (Pline ℝ))
    (ha : Alongside p d σ rs) (hl : ∀ r ∈ rs, Loop r) (hrs : ∀ r ∈ rs, SimpleLoop r) :
    ∀ r ∈ rs, r.orientation = p.orientation := by
  intro r hr
  have hn : 0 < r.verts.length := by have := (hl r hr).two; omega
  have ht := inward_turn hp (hl r hr) (hrs r hr) hσ.1 hin (fun X hX => by
    obtain ⟨h1, -, h2⟩ := (ha.points X).mp ⟨r, hr, hX⟩
    rw [if_pos hin] at h2
    exact ⟨h1, h2⟩) hn (t := 1 / 2) (by norm_num) (by norm_num) (ha.along r hr 0 _ hn (by norm_num) (by norm_num))
  have e1 := turn_orientation (hl r hr) (hrs r hr) ht
  have e2 := turn_orientation hp hs hσ
  rw [← e2] at e1
  cases h1 : r.orientation <;> cases h2 : p.orientation <;> rw [h1, h2] at e1 <;> simp [turnOf] at e1 ⊢

/-- **C74** The offset of a shape takes all single offsets: it skips those whose orientation has turned over, and if the single offsets are parallel curves that do not touch
themselves, there are none.  The polylines of the shape are sorted by orientation, as `Shape::from_plines` does.  So the offset loops that come from polyline number `j`
are exactly the results of `parallel_offset`, and they are its parallel curve. -/
theorem C74_none_skipped (env : Env ℝ) (s : Shape ℝ) (d : ℝ) (o : ShapeOffsetOptions ℝ) (ccw cw : List (OffsetLoop ℝ)) (hl : ShapeLoops env s d o ccw cw)
    (hccw : ∀ ip ∈ s.ccw, ip.pline.orientation = .counterClockwise) (hcw : ∀ ip ∈ s.cw, ip.pline.orientation = .clockwise)
    (j : Nat) (ip : IndexedPline ℝ) (hj : s.loops[j]? = some ip) (hp : Loop ip.pline) (hs : SimpleLoop ip.pline) (rs : List (Pline ℝ))
    (hrs : parallelOffset env ip.pline d ⟨some ip.index, false, o.posEqualEps, o.sliceJoinEps, o.offsetDistEps⟩ = .ok rs)
    (σ : ℤ) (hσ : TurnsLike ip.pline σ) (ha : Alongside ip.pline d σ rs) (hr : ∀ r ∈ rs, Loop r) (hsr : ∀ r ∈ rs, SimpleLoop r) :
    (∀ r, r ∈ loopsOf (ccw ++ cw) j ↔ r ∈ rs) ∧ Alongside ip.pline d σ (loopsOf (ccw ++ cw) j) := by
  have e := turn_orientation hp hs hσ
  have ht := C74_loops_alongside env s d o ccw cw hl j ip hj rs hrs (by
    intro r hrm
    have harea : ∀ {o : Orientation}, 0 < d * σ → ip.pline.orientation = o → r.orientation = o := fun h h' => by
      rw [C74_inward_orientation ip.pline hp hs d σ hσ h rs ha hr hsr r hrm, h']
    have hclosed := (hr r hrm).closed
    unfold TurnedOver
    unfold Shape.loops at hj
    by_cases hlt : j < s.ccw.length
    · rw [List.getElem?_append_left hlt] at hj
      have ho := hccw ip (List.mem_of_getElem? hj)
      rw [ho] at e
      rw [if_pos (by simpa using hlt), gt_eq, lt_eq]
      by_cases hd : 0 < d
      · have h := harea (by rw [← e]; simpa [turnOf] using hd) ho
        unfold orientation at h
        rw [hclosed, lt_eq] at h
        by_cases h0 : r.area < 0
        · simp [h0] at h
        · simp [h0]
      · simp [hd]
    · rw [List.getElem?_append_right (not_lt.mp hlt)] at hj
      have ho := hcw ip (List.mem_of_getElem? hj)
      rw [ho] at e
      rw [if_neg (by simpa using hlt), gt_eq, lt_eq]
      by_cases hd : d < 0
      · have h := harea (by rw [← e]; simpa [turnOf] using hd) ho
        unfold orientation at h
        rw [hclosed, lt_eq] at h
        by_cases h0 : r.area < 0
        · simp [h0.le]
        · simp [h0] at h
      · simp [hd])
  exact ⟨ht.1, ht.2 σ ha⟩

/-- The hypotheses of C74_inward_orientation hold for the bay and its offset by -1. -/
example : bayIn.orientation = bay.orientation :=
  C74_inward_orientation bay (straight_loop bay_straight) bay_simple (-1) (-1) bay_turns (by norm_num) [bayIn] bayIn_along
    (by simpa using bayIn_full.loop (by norm_num [isletOpts])) (by simpa using bayIn_simple) bayIn (by simp)

/-- The hypotheses of C74_none_skipped hold for island and bay. -/
example (env : Env ℝ) (henv : env.Lawful) {s : Shape ℝ} {a b : IndexedPline ℝ} (h : Islet s a b) :
    ∀ r, r ∈ loopsOf ([isletOut env] ++ [isletIn env]) 1 ↔ r ∈ [bayIn] := by
  have o1 : turnOf box4.orientation = 1 := turn_orientation (straight_loop box4_straight) box4_simple box4_turns
  have o2 : turnOf bay.orientation = -1 := turn_orientation (straight_loop bay_straight) bay_simple bay_turns
  refine (C74_none_skipped env s (-1) isletOpts _ _ (islet_loops env henv h) ?_ ?_ 1 b (by rw [h.loops]; rfl) (by rw [h.bay]; exact straight_loop bay_straight)
    (by rw [h.bay]; exact bay_simple) [bayIn] (by rw [h.bay]; exact bay_offset env henv _ h.serve2) (-1) (by rw [h.bay]; exact bay_turns)
    (by rw [h.bay]; exact bayIn_along) (by simpa using bayIn_full.loop (by norm_num [isletOpts])) (by simpa using bayIn_simple)).1
  · rw [h.ccw]
    intro ip hip
    rw [List.mem_singleton] at hip
    subst hip
    rw [h.island]
    cases e : box4.orientation <;> rw [e] at o1 <;> simp [turnOf] at o1 ⊢
  · rw [h.cw]
    intro ip hip
    rw [List.mem_singleton] at hip
    subst hip
    rw [h.bay]
    cases e : bay.orientation <;> rw [e] at o2 <;> simp [turnOf] at o2 ⊢

end Cavc
