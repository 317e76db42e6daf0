import Verif.Lemmas.ShapeRegion

/-! # Regions at a distance from a region at a distance -/

set_option linter.unusedVariables false
set_option linter.unusedSectionVars false

namespace Cavc
open RealScalar Pline

/-- What is known of the polylines `rs` of an exact offset of `ps` by `r`, to the side where the winding numbers add up to `b`; on the other side they add up to `c`. -/
structure ExactAt (ps rs : List (Pline ℝ)) (r : ℝ) (b c : ℤ) : Prop where
  pos : 0 < r
  inputs : ∀ p ∈ ps, Loop p
  two : ∀ X, (∀ p ∈ ps, ¬ OnPline p X) → allW ps X = b ∨ allW ps X = c
  points : ∀ X, (∃ q ∈ rs, OnPline q X) ↔ (∀ p ∈ ps, Keeps p r X) ∧ (∃ p ∈ ps, ∃ F, OnPline p F ∧ edist X F = r) ∧ allW ps X = b
  near : ∀ Y, (∀ q ∈ rs, ¬ OnPline q Y) → (∃ p ∈ ps, ¬ Keeps p r Y) → allW rs Y = c
  far : ∀ Y, (∀ q ∈ rs, ¬ OnPline q Y) → (∀ p ∈ ps, Keeps p r Y) → allW rs Y = allW ps Y

theorem keeps_leaves {ps : List (Pline ℝ)} {r : ℝ} {X : V2 ℝ} (hr : 0 < r) (hk : ∀ p ∈ ps, Keeps p r X) : ∀ p ∈ ps, ¬ OnPline p X := by
  intro p hp hon
  have := hk p hp X hon
  rw [edist_self] at this
  linarith

theorem keeps_less {p : Pline ℝ} {r r' : ℝ} {X : V2 ℝ} (h : r' ≤ r) (hk : Keeps p r X) : Keeps p r' X := fun q hq => h.trans (hk q hq)

section
variable {ps rs ts : List (Pline ℝ)} {r1 r2 : ℝ} {b c : ℤ} (h1 : ExactAt ps rs r1 b c)
include h1

/-- the point of the offset on the way to a nearest point -/
theorem ExactAt.between {X F : V2 ℝ} {R : ℝ} {p : Pline ℝ} (hp : p ∈ ps) (hF : OnPline p F) (hR : edist X F = R) (hk : ∀ p ∈ ps, Keeps p R X) (hle : r1 ≤ R) (hw : allW ps X = b) :
    ∃ q ∈ rs, ∃ Q, OnPline q Q ∧ edist X Q = R - r1 := by
  have hr1 := h1.pos
  have hR0 : 0 < R := by linarith
  set t := r1 / R with ht
  have t0 : 0 < t := by positivity
  have t1 : t ≤ 1 := (div_le_one hR0).mpr hle
  have htR : t * R = r1 := by rw [ht]; field_simp
  have hQF : edist (linePoint F X t) F = r1 := by rw [linePoint_dist, abs_of_pos t0, edist_comm, hR, htR]
  have e1 : linePoint F X 1 = X := by simp [linePoint]
  have hray : allW ps (linePoint F X t) = allW ps X := by
    have := allW_path h1.inputs (γ := linePoint F X) (a := t) (b := 1) (line_continuous F X).continuousOn (fun u hu p hp => by
      rw [Set.uIcc_of_le t1] at hu
      exact keeps_leaves (r := u * R) (mul_pos (by linarith [hu.1]) hR0) (fun q hq => ray_keeps (hk q hq) hR hu.2) p hp)
    rw [this, e1]
  obtain ⟨q, hq, hon⟩ := (h1.points (linePoint F X t)).mpr ⟨fun q hq => by rw [← htR]; exact ray_keeps (hk q hq) hR t1, ⟨p, hp, F, hF, hQF⟩, by rw [hray, hw]⟩
  refine ⟨q, hq, _, hon, ?_⟩
  have e2 : linePoint F X t = linePoint X F (1 - t) := by unfold linePoint; congr 1 <;> ring
  rw [e2, edist_comm, linePoint_dist, abs_of_nonneg (by linarith), hR]
  linarith

/-- what keeps both distances in turn keeps their sum -/
theorem ExactAt.sum_keeps {X : V2 ℝ} (hk : ∀ p ∈ ps, Keeps p r1 X) (hw : allW ps X = b) (hk2 : ∀ q ∈ rs, Keeps q r2 X) : ∀ p ∈ ps, Keeps p (r1 + r2) X := by
  intro p hp
  obtain ⟨p', hp', hm⟩ := Set.exists_min_image {a | a ∈ ps} (fun a => dn a X) (List.finite_toSet ps) ⟨p, hp⟩
  obtain ⟨F, hF, hd⟩ := dn_foot (h1.inputs p' hp') X
  have hle : r1 ≤ dn p' X := (keeps_dn (h1.inputs p' hp')).mp (hk p' hp')
  obtain ⟨q, hq, Q, hQ, e⟩ := h1.between hp' hF hd (fun q hq => (keeps_dn (h1.inputs q hq)).mpr (hm q hq)) hle hw
  have h2 := hk2 q hq Q hQ
  rw [keeps_dn (h1.inputs p hp)]
  have := hm p hp
  linarith

/-- what keeps the sum keeps the second distance from the first offset -/
theorem ExactAt.rest_keeps {X : V2 ℝ} (hk : ∀ p ∈ ps, Keeps p (r1 + r2) X) : ∀ q ∈ rs, Keeps q r2 X := by
  intro q hq Q hQ
  obtain ⟨-, ⟨p, hp, F, hF, e⟩, -⟩ := (h1.points Q).mp ⟨q, hq, hQ⟩
  have h2 := hk p hp F hF
  have h3 := edist_triangle X Q F
  linarith

/-- **the offset of an offset is the offset by the sum** -/
theorem ExactAt.twice (hbc : b ≠ c) {us : List (Pline ℝ)} (h2 : ExactAt rs ts r2 b c) (h3 : ExactAt ps us (r1 + r2) b c) :
    (∀ X, (∃ q ∈ ts, OnPline q X) ↔ ∃ q ∈ us, OnPline q X) ∧ ∀ Y, (∀ q ∈ us, ¬ OnPline q Y) → allW ts Y = allW us Y := by
  have hr1 := h1.pos
  have hr2 := h2.pos
  -- inside the first offset
  have hin : ∀ X, (∀ q ∈ rs, ¬ OnPline q X) → allW rs X = b → (∀ p ∈ ps, Keeps p r1 X) ∧ allW ps X = b := by
    intro X hoff hw
    have hk : ∀ p ∈ ps, Keeps p r1 X := by
      by_contra hcon
      push Not at hcon
      exact hbc (hw.symm.trans (h1.near X hoff hcon))
    exact ⟨hk, by rw [← h1.far X hoff hk]; exact hw⟩
  have hpts : ∀ X, (∃ q ∈ ts, OnPline q X) ↔ ∃ q ∈ us, OnPline q X := by
    intro X
    rw [h2.points X, h3.points X]
    constructor
    · rintro ⟨hk2, ⟨q, hq, Q, hQ, eQ⟩, hw⟩
      obtain ⟨hk, hw'⟩ := hin X (keeps_leaves hr2 hk2) hw
      have hks := h1.sum_keeps hk hw' hk2
      refine ⟨hks, ?_, hw'⟩
      obtain ⟨-, ⟨p, hp, F, hF, e⟩, -⟩ := (h1.points Q).mp ⟨q, hq, hQ⟩
      refine ⟨p, hp, F, hF, le_antisymm ?_ (hks p hp F hF)⟩
      have := edist_triangle X Q F
      linarith
    · rintro ⟨hk, ⟨p, hp, F, hF, e⟩, hw⟩
      have hk2 := h1.rest_keeps hk
      obtain ⟨q, hq, Q, hQ, eQ⟩ := h1.between hp hF e hk (by linarith) hw
      refine ⟨hk2, ⟨q, hq, Q, hQ, by rw [eQ]; ring⟩, ?_⟩
      rw [h1.far X (keeps_leaves hr2 hk2) fun p hp => keeps_less (by linarith) (hk p hp), hw]
  refine ⟨hpts, fun Y hY => ?_⟩
  have hY' : ∀ q ∈ ts, ¬ OnPline q Y := by
    intro q hq hon
    obtain ⟨q', hq', hon'⟩ := (hpts Y).mp ⟨q, hq, hon⟩
    exact hY q' hq' hon'
  by_cases hks : ∀ p ∈ ps, Keeps p (r1 + r2) Y
  · have hk2 := h1.rest_keeps hks
    rw [h3.far Y hY hks, h2.far Y hY' hk2, h1.far Y (keeps_leaves hr2 hk2) fun p hp => keeps_less (by linarith) (hks p hp)]
  · have hc : allW us Y = c := h3.near Y hY (by push Not at hks; exact hks)
    rw [hc]
    by_cases hk2 : ∀ q ∈ rs, Keeps q r2 Y
    · rw [h2.far Y hY' hk2]
      rcases h2.two Y (keeps_leaves hr2 hk2) with e | e
      · obtain ⟨hk, hw⟩ := hin Y (keeps_leaves hr2 hk2) e
        exact absurd (h1.sum_keeps hk hw hk2) hks
      · exact e
    · exact h2.near Y hY' (by push Not at hk2; exact hk2)

end

end Cavc
