import Verif.Lemmas.Islet

/-! # Example: where the offset loops of island and bay keep the distance from the other one -/

set_option linter.unusedVariables false

namespace Cavc
open Pline RealScalar

variable {s : Shape ℝ} {a b : IndexedPline ℝ}

theorem Islet.others0 (h : Islet s a b) (X : V2 ℝ) : KeepsOthers s.loops 1 0 X ↔ Keeps Cavc.bay 1 X := by
  rw [h.loops]
  constructor
  · intro hk
    have := hk 1 b rfl (by norm_num)
    rwa [h.bay] at this
  · intro hk j ip hj hne
    rcases j with _ | _ | j
    · exact absurd rfl hne
    · cases Option.some.inj hj
      rw [h.bay]; exact hk
    · simp at hj

theorem Islet.others1 (h : Islet s a b) (X : V2 ℝ) : KeepsOthers s.loops 1 1 X ↔ Keeps box4 1 X := by
  rw [h.loops]
  constructor
  · intro hk
    have := hk 0 a rfl (by norm_num)
    rwa [h.island] at this
  · intro hk j ip hj hne
    rcases j with _ | _ | j
    · cases Option.some.inj hj
      rw [h.island]; exact hk
    · exact absurd rfl hne
    · simp at hj

theorem Islet.keep0 (h : Islet s a b) {k : Nat} (hk : k < 8) {t : ℝ} (t0 : 0 ≤ t) (t1 : t ≤ 1) :
    KeepsOthers s.loops 1 0 (curveAt (rawLoop box4 (-1)) k t) ↔ (k = 2 → t ≤ 5 / 8) ∧ k ≠ 3 ∧ (k = 4 → 7 / 12 ≤ t) := by
  rw [h.others0, islet_keep0 hk t0 t1]

theorem Islet.keep1 (h : Islet s a b) {k : Nat} (hk : k < 3) {t : ℝ} (t0 : 0 ≤ t) (t1 : t ≤ 1) :
    KeepsOthers s.loops 1 1 (curveAt bayIn k t) ↔ (k = 1 → t ≤ 23 / 42 ∨ 17 / 28 ≤ t) := by
  rw [h.others1, islet_keep1 hk t0 t1]

section
variable (env : Env ℝ)

theorem Islet.pass (h : Islet s a b) :
    (¬ PassKept s.loops ([isletOut env] ++ [isletIn env]) 1 1 (0, (2, 5 / 8)) ∧ PassKept s.loops ([isletOut env] ++ [isletIn env]) 1 (-1) (0, (2, 5 / 8))) ∧
    (PassKept s.loops ([isletOut env] ++ [isletIn env]) 1 1 (0, (4, 7 / 12)) ∧ ¬ PassKept s.loops ([isletOut env] ++ [isletIn env]) 1 (-1) (0, (4, 7 / 12))) ∧
    (¬ PassKept s.loops ([isletOut env] ++ [isletIn env]) 1 1 (1, (1, 23 / 42)) ∧ PassKept s.loops ([isletOut env] ++ [isletIn env]) 1 (-1) (1, (1, 23 / 42))) ∧
    (PassKept s.loops ([isletOut env] ++ [isletIn env]) 1 1 (1, (1, 17 / 28)) ∧ ¬ PassKept s.loops ([isletOut env] ++ [isletIn env]) 1 (-1) (1, (1, 17 / 28))) := by
  -- refutation: a small step beyond the cut; proof: a step of at most 1/100
  have no : ∀ {i : Nat} {l : OffsetLoop ℝ} {c : Cut} {σ : ℝ}, ([isletOut env] ++ [isletIn env])[i]? = some l →
      (∀ x, 0 < x → x < 1 / 100 → ¬ KeepsOthers s.loops 1 l.parent (curveAt l.ip.pline c.1 (c.2 + σ * x))) → ¬ PassKept s.loops ([isletOut env] ++ [isletIn env]) 1 σ (i, c) := by
    rintro i l c σ hl hno ⟨l', hl', δ, d0, hδ⟩
    cases Option.some.inj (hl.symm.trans hl')
    have : 0 < min δ (1 / 100) := lt_min d0 (by norm_num)
    exact hno (min δ (1 / 100) / 2) (by linarith) (by linarith [min_le_right δ (1 / 100 : ℝ)]) (hδ _ (by linarith) (by linarith [min_le_left δ (1 / 100 : ℝ)]))
  have yes : ∀ {i : Nat} {l : OffsetLoop ℝ} {c : Cut} {σ : ℝ}, ([isletOut env] ++ [isletIn env])[i]? = some l →
      (∀ x, 0 < x → x < 1 / 100 → KeepsOthers s.loops 1 l.parent (curveAt l.ip.pline c.1 (c.2 + σ * x))) → PassKept s.loops ([isletOut env] ++ [isletIn env]) 1 σ (i, c) :=
    fun hl hy => ⟨_, hl, 1 / 100, by norm_num, hy⟩
  refine ⟨⟨no (l := isletOut env) rfl ?_, yes (l := isletOut env) rfl ?_⟩, ⟨yes (l := isletOut env) rfl ?_, no (l := isletOut env) rfl ?_⟩,
    ⟨no (l := isletIn env) rfl ?_, yes (l := isletIn env) rfl ?_⟩, ⟨yes (l := isletIn env) rfl ?_, no (l := isletIn env) rfl ?_⟩⟩ <;> intro x x0 x1
  · intro hk
    have := ((h.keep0 (k := 2) (by norm_num) (by linarith) (by linarith)).mp hk).1 rfl
    linarith
  · refine (h.keep0 (k := 2) (by norm_num) (by linarith) (by linarith)).mpr ⟨fun _ => by linarith, by norm_num, by norm_num⟩
  · refine (h.keep0 (k := 4) (by norm_num) (by linarith) (by linarith)).mpr ⟨by norm_num, by norm_num, fun _ => by linarith⟩
  · intro hk
    have := ((h.keep0 (k := 4) (by norm_num) (by linarith) (by linarith)).mp hk).2.2 rfl
    linarith
  · intro hk
    rcases (h.keep1 (k := 1) (by norm_num) (by linarith) (by linarith)).mp hk rfl with h | h <;> linarith
  · refine (h.keep1 (k := 1) (by norm_num) (by linarith) (by linarith)).mpr fun _ => Or.inl (by linarith)
  · refine (h.keep1 (k := 1) (by norm_num) (by linarith) (by linarith)).mpr fun _ => Or.inr (by linarith)
  · intro hk
    rcases (h.keep1 (k := 1) (by norm_num) (by linarith) (by linarith)).mp hk rfl with h | h <;> linarith

theorem islet_passes : passes ([isletOut env] ++ [isletIn env]) isletCuts = [(0, (2, 5 / 8)), (0, (4, 7 / 12)), (1, (1, 23 / 42)), (1, (1, 17 / 28))] := rfl

theorem islet_passPt : passPt ([isletOut env] ++ [isletIn env]) (0, (2, 5 / 8)) = ⟨5, 5 / 2⟩ ∧ passPt ([isletOut env] ++ [isletIn env]) (0, (4, 7 / 12)) = ⟨5 / 3, 5⟩ ∧
    passPt ([isletOut env] ++ [isletIn env]) (1, (1, 23 / 42)) = ⟨5 / 3, 5⟩ ∧ passPt ([isletOut env] ++ [isletIn env]) (1, (1, 17 / 28)) = ⟨5, 5 / 2⟩ :=
  ⟨out_points.1, out_points.2, in_points.1, in_points.2⟩

theorem islet_changes (h : Islet s a b) : ShapeChanges s.loops ([isletOut env] ++ [isletIn env]) 1 isletCuts := by
  obtain ⟨⟨n1, y1⟩, ⟨y2, n2⟩, ⟨n3, y3⟩, ⟨y4, n4⟩⟩ := h.pass env
  obtain ⟨q1, q2, q3, q4⟩ := islet_passPt env
  refine ⟨?_, ?_, ?_⟩
  · intro i l hl k t hk t0 t1 hc hkeep
    rcases islet_two hl with ⟨rfl, rfl⟩ | ⟨rfl, rfl⟩
    · rw [out_pline, box4_len8] at hk
      have hkeep' : KeepsOthers s.loops 1 0 (curveAt (rawLoop box4 (-1)) k t) := hkeep
      obtain ⟨k2, k3, k4⟩ := (h.keep0 hk t0 t1).mp hkeep'
      by_cases e2 : k = 2
      · subst e2
        have hlt : t < 5 / 8 := lt_of_le_of_ne (k2 rfl) (by rintro rfl; exact hc (by simp [isletCuts]))
        refine ⟨5 / 8 - t, by linarith, fun t' a0 a1 hd => (h.keep0 (k := 2) hk a0 a1).mpr ⟨fun _ => ?_, k3, by norm_num⟩⟩
        rw [abs_lt] at hd; linarith
      · by_cases e4 : k = 4
        · subst e4
          have hlt : 7 / 12 < t := lt_of_le_of_ne (k4 rfl) (by rintro rfl; exact hc (by simp [isletCuts]))
          refine ⟨t - 7 / 12, by linarith, fun t' a0 a1 hd => (h.keep0 (k := 4) hk a0 a1).mpr ⟨by norm_num, k3, fun _ => ?_⟩⟩
          rw [abs_lt] at hd; linarith
        · exact ⟨1, one_pos, fun t' a0 a1 _ => (h.keep0 hk a0 a1).mpr ⟨fun e => absurd e e2, k3, fun e => absurd e e4⟩⟩
    · have hk' : k < 3 := hk
      have hkeep' : KeepsOthers s.loops 1 1 (curveAt bayIn k t) := hkeep
      have k1 := (h.keep1 hk' t0 t1).mp hkeep'
      by_cases e1 : k = 1
      · subst e1
        rcases k1 rfl with g | g
        · have hlt : t < 23 / 42 := lt_of_le_of_ne g (by rintro rfl; exact hc (by simp [isletCuts]))
          refine ⟨23 / 42 - t, by linarith, fun t' a0 a1 hd => (h.keep1 (k := 1) hk' a0 a1).mpr fun _ => Or.inl ?_⟩
          rw [abs_lt] at hd; linarith
        · have hlt : 17 / 28 < t := lt_of_le_of_ne g (by rintro rfl; exact hc (by simp [isletCuts]))
          refine ⟨t - 17 / 28, by linarith, fun t' a0 a1 hd => (h.keep1 (k := 1) hk' a0 a1).mpr fun _ => Or.inr ?_⟩
          rw [abs_lt] at hd; linarith
      · exact ⟨1, one_pos, fun t' a0 a1 _ => (h.keep1 hk' a0 a1).mpr fun e => absurd e e1⟩
  · intro i l hl c hc _
    rcases islet_two hl with ⟨rfl, rfl⟩ | ⟨rfl, rfl⟩
    · rcases List.mem_pair.mp hc with rfl | rfl
      · exact ⟨(0, (2, 5 / 8)), by rw [islet_passes]; simp, rfl, Or.inr y1⟩
      · exact ⟨(0, (4, 7 / 12)), by rw [islet_passes]; simp, rfl, Or.inl y2⟩
    · rcases List.mem_pair.mp hc with rfl | rfl
      · exact ⟨(1, (1, 23 / 42)), by rw [islet_passes]; simp, rfl, Or.inr y3⟩
      · exact ⟨(1, (1, 17 / 28)), by rw [islet_passes]; simp, rfl, Or.inl y4⟩
  · intro X
    rw [islet_passes]
    simp only [List.filter, q1, q2, q3, q4, n1, y1, y2, n2, n3, y3, y4, n4, and_true, and_false, decide_false]
    by_cases e1 : (⟨5, 5 / 2⟩ : V2 ℝ) = X <;> by_cases e2 : (⟨5 / 3, 5⟩ : V2 ℝ) = X <;> simp [e1, e2]

theorem islet_tests (h : Islet s a b) : ShapeTests s.loops ([isletOut env] ++ [isletIn env]) 1 (1 / 100000) (1 / 10000) isletCuts := by
  have hin : ∀ {i : Nat} {l : OffsetLoop ℝ}, ([isletOut env] ++ [isletIn env])[i]? = some l → ∀ (j : Nat) (ip : IndexedPline ℝ), s.loops[j]? = some ip → j ≠ l.parent →
      (i = 0 ∧ l = isletOut env ∧ ip.pline = bay) ∨ (i = 1 ∧ l = isletIn env ∧ ip.pline = box4) := by
    intro i l hl j ip hj hne
    rw [h.loops] at hj
    rcases islet_two hl with ⟨rfl, rfl⟩ | ⟨rfl, rfl⟩
    · left
      rcases j with _ | _ | j
      · exact absurd rfl hne
      · cases Option.some.inj hj; exact ⟨rfl, rfl, h.bay⟩
      · simp at hj
    · right
      rcases j with _ | _ | j
      · cases Option.some.inj hj; exact ⟨rfl, rfl, h.island⟩
      · exact absurd rfl hne
      · simp at hj
  refine ⟨?_, ?_⟩
  · intro i l hl hC
    rcases islet_two hl with ⟨rfl, rfl⟩ | ⟨rfl, rfl⟩ <;> simp [isletCuts] at hC
  · intro i l hl k lo hi hst hlo j ip hj hne
    rcases hin hl j ip hj hne with ⟨rfl, rfl, hp⟩ | ⟨rfl, rfl, hp⟩ <;> rw [hp]
    · refine ⟨lines_readable bay_lines _ _, ?_⟩
      rw [out_pline]
      rcases List.mem_pair.mp hlo with e | e <;> obtain ⟨rfl, rfl⟩ := Prod.mk.inj e
      · have hhi : hi = 1 := by
          rcases hst.stop with g | g
          · exact g
          · simp only [isletCuts, List.mem_cons, Prod.mk.injEq, List.not_mem_nil, or_false] at g
            have := hst.lt
            rcases g with ⟨-, g⟩ | ⟨g, -⟩
            · rw [g] at this; exact absurd this (lt_irrefl _)
            · norm_num at g
        subst hhi
        refine Or.inr ⟨_, on_curve (p := bay) rfl (by decide) (k := 1) (by decide) (u := (5 + 6 / 25 + 30) / 60) (by norm_num) (by norm_num), ?_⟩
        rw [(bay_curve _).2.1, edist_sq, (box4_curve _).2.2.1]; norm_num
      · have hhi : hi = 1 := by
          rcases hst.stop with g | g
          · exact g
          · simp only [isletCuts, List.mem_cons, Prod.mk.injEq, List.not_mem_nil, or_false] at g
            have := hst.lt
            rcases g with ⟨g, -⟩ | ⟨-, g⟩
            · norm_num at g
            · rw [g] at this; exact absurd this (lt_irrefl _)
        subst hhi
        exact Or.inl ((islet_keep0 (k := 4) (by norm_num) (by norm_num) (by norm_num)).mpr ⟨by norm_num, by norm_num, fun _ => by norm_num⟩)
    · refine ⟨lines_readable box4_lines _ _, ?_⟩
      rw [in_pline]
      rcases List.mem_pair.mp hlo with e | e <;> obtain ⟨rfl, rfl⟩ := Prod.mk.inj e
      · have hhi : hi = 17 / 28 := by
          rcases hst.stop with g | g
          · exact absurd (show ((1, 17 / 28) : Cut) ∈ isletCuts 1 by simp [isletCuts]) (hst.inside _ (by norm_num) (by rw [g]; norm_num))
          · simp only [isletCuts, List.mem_cons, Prod.mk.injEq, List.not_mem_nil, or_false] at g
            have := hst.lt
            rcases g with ⟨-, g⟩ | ⟨-, g⟩
            · rw [g] at this; exact absurd this (lt_irrefl _)
            · exact g
        subst hhi
        refine Or.inr ⟨_, on_curve (p := box4) rfl (by decide) (k := 1) (by decide) (u := 15 / 16) (by norm_num) (by norm_num), ?_⟩
        rw [(box4_side _).2.1, edist_sq, (bayIn_curve _).2.1]; norm_num
      · have hhi : hi = 1 := by
          rcases hst.stop with g | g
          · exact g
          · simp only [isletCuts, List.mem_cons, Prod.mk.injEq, List.not_mem_nil, or_false] at g
            have := hst.lt
            rcases g with ⟨-, g⟩ | ⟨-, g⟩
            · rw [g] at this; norm_num at this
            · rw [g] at this; exact absurd this (lt_irrefl _)
        subst hhi
        exact Or.inl ((islet_keep1 (k := 1) (by norm_num) (by norm_num) (by norm_num)).mpr fun _ => Or.inr (by norm_num))

end

end Cavc
