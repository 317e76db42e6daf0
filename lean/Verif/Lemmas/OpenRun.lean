import Verif.Lemmas.OpenPieces
import Verif.Lemmas.OffsetSteady

/-! # The pieces of an open polyline between its cuts -/

set_option linter.unusedVariables false
set_option linter.unusedSectionVars false

namespace Cavc
open Pline

def lexLe (a b : Cut) : Prop := a = b ∨ lexLt a b

theorem lexLt_trans {a b c : Cut} (h : lexLt a b) (h' : lexLt b c) : lexLt a c := by
  unfold lexLt at *
  rcases h with h | h <;> rcases h' with h' | h'
  · left; omega
  · left; omega
  · left; omega
  · right; exact ⟨by omega, by linarith [h.2, h'.2]⟩

theorem lexLe_trans {a b c : Cut} (h : lexLe a b) (h' : lexLe b c) : lexLe a c := by
  rcases h with rfl | h
  · exact h'
  · rcases h' with rfl | h'
    · exact Or.inr h
    · exact Or.inr (lexLt_trans h h')

theorem lexLt_irrefl (a : Cut) : ¬ lexLt a a := by
  rintro (h | h)
  · omega
  · linarith [h.2]

theorem lexLe_total (a b : Cut) : lexLe a b ∨ lexLt b a := by
  unfold lexLe lexLt
  rcases Nat.lt_trichotomy a.1 b.1 with h | h | h
  · exact Or.inl (Or.inr (Or.inl h))
  · rcases lt_trichotomy a.2 b.2 with h' | h' | h'
    · exact Or.inl (Or.inr (Or.inr ⟨h, h'⟩))
    · exact Or.inl (Or.inl (Prod.ext h h'))
    · exact Or.inr (Or.inr ⟨h.symm, h'⟩)
  · exact Or.inr (Or.inl h)

theorem le_gap : ∀ {l : List Cut}, l.Pairwise lexLe → ∀ x ∈ pathSegs l, ∀ c ∈ l, lexLe c x.1 ∨ lexLe x.2 c
  | [], _, x, hx, _, _ => by simp [pathSegs] at hx
  | [_], _, x, hx, _, _ => by simp [pathSegs] at hx
  | a :: b :: l, hp, x, hx, c, hc => by
    rw [List.pairwise_cons] at hp
    simp only [pathSegs, List.mem_cons] at hx
    rcases hx with rfl | hx
    · rcases List.mem_cons.mp hc with rfl | hc
      · exact Or.inl (Or.inl rfl)
      · rcases List.mem_cons.mp hc with rfl | hc
        · exact Or.inr (Or.inl rfl)
        · exact Or.inr ((List.pairwise_cons.mp hp.2).1 c hc)
    · rcases List.mem_cons.mp hc with rfl | hc
      · exact Or.inl (hp.1 _ (pathSegs_mem hx).1)
      · exact le_gap hp.2 x hx c hc

/-- a place between the first and the last one is in one of the gaps -/
theorem le_cover {x : Cut} : ∀ (l : List Cut) (c : Cut), lexLe c x → (∃ g ∈ c :: l, lexLe x g ∧ c ≠ g) →
    ((c :: l).Pairwise lexLe) → ∃ y ∈ pathSegs (c :: l), y.1 ≠ y.2 ∧ lexLe y.1 x ∧ lexLe x y.2
  | [], c, _, ⟨g, hg, _, hne⟩, _ => by simp at hg; exact absurd hg.symm hne
  | e :: l, c, hc, ⟨g, hg, hgx, hne⟩, hs => by
    have hs' := List.pairwise_cons.mp hs
    by_cases hce : c = e
    · subst hce
      obtain ⟨y, hy, h⟩ := le_cover l c hc ⟨g, (List.mem_cons.mp hg).resolve_left (Ne.symm hne), hgx, hne⟩ hs'.2
      exact ⟨y, by simp only [pathSegs, List.mem_cons]; exact Or.inr hy, h⟩
    · rcases lexLe_total x e with h | h
      · exact ⟨(c, e), by simp [pathSegs], hce, hc, h⟩
      · have hge : g ∈ e :: l := by
          exact (List.mem_cons.mp hg).resolve_left (Ne.symm hne)
        have hne' : e ≠ g := by
          rintro rfl
          rcases hgx with rfl | hgx
          · exact lexLt_irrefl _ h
          · exact lexLt_irrefl _ (lexLt_trans h hgx)
        obtain ⟨y, hy, h⟩ := le_cover l e (Or.inr h) ⟨g, hge, hgx, hne'⟩ hs'.2
        exact ⟨y, by simp only [pathSegs, List.mem_cons]; exact Or.inr hy, h⟩

theorem pathSegs_snoc {α : Type} : ∀ (l : List α) (e g : α), l.getLast? = some e → pathSegs (l ++ [g]) = pathSegs l ++ [(e, g)]
  | [], e, g, h => by simp at h
  | [a], e, g, h => by simp at h; subst h; simp [pathSegs]
  | a :: b :: l, e, g, h => by
    have := pathSegs_snoc (b :: l) e g (by simpa using h)
    simp only [List.cons_append, pathSegs] at this ⊢
    rw [this]

/-- the end of an open polyline -/
noncomputable def lastCut (R : Pline ℝ) : Cut := (R.verts.length - 2, 1)

/-- The places at which an open polyline is cut, in order, from its start to its end. -/
structure RunPath (R : Pline ℝ) (C l : List Cut) : Prop where
  first : l.head? = some (0, 0)
  last : l.getLast? = some (lastCut R)
  sorted : l.Pairwise lexLe
  mem : ∀ c, c ∈ l ↔ c = (0, 0) ∨ c ∈ C ∨ c = lastCut R

/-- the cuts are inside the segments -/
structure InsideCuts (R : Pline ℝ) (eps gap : ℝ) (C : List Cut) : Prop where
  range : ∀ c ∈ C, c.1 + 1 < R.verts.length
  ok : ∀ c ∈ C, CutOk R eps c
  apart : ∀ c ∈ C, ∀ c' ∈ C, curveAt R c.1 c.2 = curveAt R c'.1 c'.2 ∨ FarApart gap (curveAt R c.1 c.2) (curveAt R c'.1 c'.2)
  fromStart : ∀ c ∈ C, FarApart gap (curveAt R c.1 c.2) (curveAt R 0 0)
  fromLast : ∀ c ∈ C, FarApart gap (curveAt R c.1 c.2) (curveAt R (R.verts.length - 2) 1)
  ends : FarApart gap (curveAt R (R.verts.length - 2) 1) (curveAt R 0 0)
  long : ∀ c ∈ C, ∀ c' ∈ C, c.1 = c'.1 → c.2 < c'.2 → LongPart (vtx R c.1) c.2 c'.2

theorem OpenCuts.inside {p R D : Pline ℝ} {r eps gap : ℝ} {C : List Cut} (h : OpenCuts p R D r eps gap C) : InsideCuts R eps gap C :=
  ⟨h.range, h.ok, h.apart, h.fromStart, h.fromLast, h.ends, h.long⟩

/-- a run of stretches, put end to start -/
structure OpenRun (R : Pline ℝ) (C : List Cut) (i m : Nat) (lo hi : Nat → ℝ) : Prop where
  each : ∀ j ≤ m, OpenStretch R C (i + j) (lo j) (hi j)
  joint : ∀ j < m, hi j = 1 ∧ lo (j + 1) = 0

section
variable {p R : Pline ℝ} {d r eps gap tol : ℝ} {C l : List Cut}

theorem farApart_symm {g : ℝ} {a b : V2 ℝ} (h : FarApart g a b) : FarApart g b a := by
  unfold FarApart at *; rw [abs_sub_comm b.x, abs_sub_comm b.y]; exact h

section
variable (he : 0 < eps) (hf : FullPath R eps) (hI : InsideCuts R eps gap C) (hS : RunPath R C l)
include he hf hI hS

theorem open_between {a b : Cut} (hab : (a, b) ∈ pathSegs l) (hne : a ≠ b) :
    lexLt a b ∧ (a = (0, 0) ∨ a ∈ C) ∧ (b ∈ C ∨ b = lastCut R) ∧ b.1 + 1 < R.verts.length ∧
    ∀ j s, j ≤ b.1 - a.1 → (j = 0 → a.2 < s) → (j = b.1 - a.1 → s < b.2) → (a.1 + j, s) ∉ C := by
  have h2 := hf.two
  have hlex : lexLt a b := (pathSegs_rel hS.sorted _ hab).resolve_left hne
  obtain ⟨ha, hb⟩ := pathSegs_mem hab
  dsimp only at ha hb
  have hCr : ∀ c ∈ C, c.1 + 1 < R.verts.length ∧ 0 < c.2 ∧ c.2 < 1 := fun c hc => ⟨hI.range c hc, (hI.ok c hc).pos, (hI.ok c hc).lt⟩
  have hle : a.1 ≤ b.1 := by rcases hlex with h | h <;> omega
  have hbl : b.1 + 1 < R.verts.length ∧ 0 ≤ b.2 ∧ b.2 ≤ 1 := by
    rcases (hS.mem b).mp hb with rfl | h | rfl
    · exact ⟨by dsimp only; omega, le_rfl, zero_le_one⟩
    · have := hCr b h; exact ⟨this.1, this.2.1.le, this.2.2.le⟩
    · exact ⟨by show R.verts.length - 2 + 1 < _; omega, zero_le_one, le_rfl⟩
  refine ⟨hlex, ?_, ?_, hbl.1, ?_⟩
  · rcases (hS.mem a).mp ha with h | h | rfl
    · exact Or.inl h
    · exact Or.inr h
    · exfalso
      unfold lastCut at hlex
      rcases hlex with h | h
      · dsimp only at h; omega
      · have := h.2; dsimp only at this; linarith
  · rcases (hS.mem b).mp hb with rfl | h | h
    · exfalso
      rcases (hS.mem a).mp ha with rfl | h | rfl
      · exact lexLt_irrefl _ hlex
      · have := hCr a h
        rcases hlex with h' | h'
        · dsimp only at h'; omega
        · dsimp only at h'; linarith [h'.2]
      · unfold lastCut at hlex
        rcases hlex with h' | h'
        · dsimp only at h'; omega
        · dsimp only at h'; linarith [h'.2]
    · exact Or.inl h
    · exact Or.inr h
  · intro j s hj hs1 hs2 hin
    rcases le_gap hS.sorted _ hab _ ((hS.mem _).mpr (Or.inr (Or.inl hin))) with h | h
    · dsimp only at h
      rcases h with h | h | h
      · have h1 := congrArg Prod.fst h
        have h2 := congrArg Prod.snd h
        dsimp only at h1 h2
        have := hs1 (by omega)
        linarith
      · dsimp only at h; omega
      · dsimp only at h
        have := hs1 (by omega)
        linarith [h.2]
    · dsimp only at h
      rcases h with h | h | h
      · have h1 := congrArg Prod.fst h
        have h2 := congrArg Prod.snd h
        dsimp only at h1 h2
        have := hs2 (by omega)
        linarith
      · dsimp only at h; omega
      · dsimp only at h
        have := hs2 (by omega)
        linarith [h.2]

theorem open_run {a b : Cut} (hab : (a, b) ∈ pathSegs l) (hne : a ≠ b) : OpenRun R C a.1 (b.1 - a.1) (loOf a) (hiOf a b) := by
  obtain ⟨hlex, ha, hb, hbr, hno⟩ := open_between he hf hI hS hab hne
  have a0 : 0 ≤ a.2 ∧ a.2 < 1 := by
    rcases ha with rfl | ha
    · exact ⟨le_rfl, zero_lt_one⟩
    · exact ⟨(hI.ok a ha).pos.le, (hI.ok a ha).lt⟩
  have b0 : 0 < b.2 ∧ b.2 ≤ 1 := by
    rcases hb with hb | rfl
    · exact ⟨(hI.ok b hb).pos, (hI.ok b hb).lt.le⟩
    · exact ⟨zero_lt_one, le_rfl⟩
  have hle : a.1 ≤ b.1 := by rcases hlex with h | h <;> omega
  refine ⟨fun j hj => ⟨by omega, ?_, ?_, ?_, ?_, ?_, ?_⟩, fun j hj => ⟨?_, ?_⟩⟩
  · unfold loOf; split_ifs <;> linarith
  · unfold loOf hiOf
    split_ifs with h1 h2 h2
    · rcases hlex with h | h
      · omega
      · exact h.2
    · exact a0.2
    · exact b0.1
    · norm_num
  · unfold hiOf; split_ifs <;> linarith
  · unfold loOf
    split_ifs with h
    · rw [h, Nat.add_zero]
      rcases ha with rfl | ha
      · exact Or.inl rfl
      · exact Or.inr ha
    · exact Or.inl rfl
  · unfold hiOf
    split_ifs with h
    · have : a.1 + j = b.1 := by omega
      rw [this]
      rcases hb with hb | rfl
      · exact Or.inr hb
      · exact Or.inl rfl
    · exact Or.inl rfl
  · intro t t0 t1
    refine hno j t hj (fun h => ?_) (fun h => ?_)
    · unfold loOf at t0; rwa [if_pos h] at t0
    · unfold hiOf at t1; rwa [if_pos h] at t1
  · unfold hiOf; rw [if_neg (by omega)]
  · unfold loOf; rw [if_neg (by omega)]

/-- the ends of pieces are equal or far apart -/
theorem open_far {a b : Cut} (ha : a ∈ C ∨ a = lastCut R) (hb : b = (0, 0) ∨ b ∈ C) :
    curveAt R a.1 a.2 = curveAt R b.1 b.2 ∨ FarApart gap (curveAt R a.1 a.2) (curveAt R b.1 b.2) := by
  rcases ha with ha | rfl <;> rcases hb with rfl | hb
  · exact Or.inr (hI.fromStart a ha)
  · exact hI.apart a ha b hb
  · exact Or.inr hI.ends
  · exact Or.inr (farApart_symm (hI.fromLast b hb))

theorem open_piece_slice (hg : eps ≤ gap) {a b : Cut} (hab : (a, b) ∈ pathSegs l) (hne : a ≠ b) :
    ∃ s vs, ViewData.fromSlicePoints R (curveAt R a.1 a.2) a.1 (curveAt R b.1 b.2) b.1 eps = .ok (some s) ∧ GoodSlice R eps s (a, b) vs := by
  have hn : 0 < R.verts.length := by have := hf.two; omega
  obtain ⟨hlex, ha, hb, hbr, hno⟩ := open_between he hf hI hS hab hne
  refine open_slice he hf (ha.imp (fun h => by rw [h]) fun h => hI.ok a h) (hb.symm.imp (fun h => by rw [h]; rfl) fun h => hI.ok b h) hbr ?_
  rcases hlex with h | ⟨h1, h2⟩
  · exact Or.inr h
  · left
    refine ⟨h1, h2, ?_, ?_⟩
    · rcases open_far he hf hI hS hb ha with h | h
      · rw [← h1] at h
        have a0 : 0 ≤ a.2 ∧ a.2 ≤ 1 := by
          rcases ha with rfl | ha
          · exact ⟨le_rfl, zero_le_one⟩
          · exact ⟨(hI.ok a ha).pos.le, (hI.ok a ha).lt.le⟩
        have b0 : 0 ≤ b.2 ∧ b.2 ≤ 1 := by
          rcases hb with hb | rfl
          · exact ⟨(hI.ok b hb).pos.le, (hI.ok b hb).lt.le⟩
          · exact ⟨zero_le_one, le_rfl⟩
        exfalso
        have hfa := hf.full a.1 (by omega)
        have := dist_from_start _ _ (hfa.proper he) (fuzzy_ne he hfa.apart) a0.1 h2 b0.2
        rw [← curveAt_vtx hn, ← curveAt_vtx hn, h] at this
        exact lt_irrefl _ this
      · exact (farApart_mono hg (farApart_symm h)).fuzzy
    · rcases hb with hb | rfl
      · right
        rcases ha with rfl | ha
        · have := (hI.ok b hb).before
          dsimp only at h1
          rw [← h1] at this; exact this
        · exact hI.long a ha b hb h1 h2
      · exact Or.inl rfl

/-- The pieces cover the polyline. -/
theorem open_cover {i : Nat} (hi : i + 1 < R.verts.length) {t : ℝ} (t0 : 0 ≤ t) (t1 : t ≤ 1) :
    ∃ a b j, (a, b) ∈ pathSegs l ∧ a ≠ b ∧ j ≤ b.1 - a.1 ∧ a.1 + j = i ∧ loOf a j ≤ t ∧ t ≤ hiOf a b j := by
  obtain ⟨l', rfl⟩ : ∃ l', l = (0, 0) :: l' := by
    have := hS.first
    cases l with
    | nil => simp at this
    | cons a l => simp at this; exact ⟨l, by rw [this]⟩
  have h1 : lexLe (0, 0) (i, t) := by
    rcases Nat.eq_zero_or_pos i with rfl | h
    · rcases t0.eq_or_lt with rfl | h
      · exact Or.inl rfl
      · exact Or.inr (Or.inr ⟨rfl, h⟩)
    · exact Or.inr (Or.inl h)
  have h2 : lexLe (i, t) (lastCut R) := by
    unfold lastCut
    rcases Nat.lt_or_eq_of_le (show i ≤ R.verts.length - 2 by omega) with h | h
    · exact Or.inr (Or.inl h)
    · rcases t1.eq_or_lt with rfl | h'
      · exact Or.inl (by rw [h])
      · exact Or.inr (Or.inr ⟨h, h'⟩)
  obtain ⟨⟨a, b⟩, hy, hne, h3, h4⟩ := le_cover l' (0, 0) h1 ⟨lastCut R, (hS.mem _).mpr (Or.inr (Or.inr rfl)), h2, by
    unfold lastCut; intro h; have := congrArg Prod.snd h; dsimp only at this; norm_num at this⟩ hS.sorted
  dsimp only at hne h3 h4
  have ha : a.1 ≤ i := by
    rcases h3 with h | h | h
    · rw [h]
    · dsimp only at h; omega
    · dsimp only at h; omega
  have hb : i ≤ b.1 := by
    rcases h4 with h | h | h
    · rw [← h]
    · dsimp only at h; omega
    · dsimp only at h; omega
  refine ⟨a, b, i - a.1, hy, hne, by omega, by omega, ?_, ?_⟩
  · unfold loOf
    split_ifs with h0
    · rcases h3 with h | h | h
      · rw [h]
      · dsimp only at h; omega
      · exact h.2.le
    · exact t0
  · unfold hiOf
    split_ifs with h0
    · rcases h4 with h | h | h
      · rw [← h]
      · dsimp only at h; omega
      · exact h.2.le
    · exact t1

end

theorem keep_run_open (hC : ChangesAtCuts p R r C) (hI : InsideCuts R eps gap C) {i m : Nat} {lo hi : Nat → ℝ}
    (hr : OpenRun R C i m lo hi) {j : Nat} (hj : j ≤ m) {t : ℝ} (t0 : lo j ≤ t) (t1 : t ≤ hi j)
    (hcut : (i + j, t) ∉ C) (hk : Keeps p r (curveAt R (i + j) t)) :
    ∀ k ≤ m, ∀ u, lo k ≤ u → u ≤ hi k → Keeps p r (curveAt R (i + k) u) := by
  have hn : 0 < R.verts.length := by have := (hr.each 0 (Nat.zero_le _)).range; omega
  have seg : ∀ k ≤ m, (∃ s, lo k ≤ s ∧ s ≤ hi k ∧ (i + k, s) ∉ C ∧ Keeps p r (curveAt R (i + k) s)) →
      ∀ u, lo k ≤ u → u ≤ hi k → Keeps p r (curveAt R (i + k) u) := by
    rintro k hk ⟨s, s0, s1, hs, hks⟩ u u0 u1
    have h := hr.each k hk
    exact keep_seg_core (cut := fun t => (i + k, t) ∈ C) hn (fun t => hC.steady _ t h.range) h.zero h.lt h.one h.inside s0 s1 hs hks u u0 u1
  have hpos : ∀ {c : Cut}, c ∈ C → 0 < c.2 ∧ c.2 < 1 := fun hc => ⟨(hI.ok _ hc).pos, (hI.ok _ hc).lt⟩
  have h0 := seg j hj ⟨t, t0, t1, hcut, hk⟩
  have up : ∀ k, j ≤ k → k ≤ m → ∀ u, lo k ≤ u → u ≤ hi k → Keeps p r (curveAt R (i + k) u) := by
    intro k hjk
    induction k, hjk using Nat.le_induction with
    | base => exact fun _ => h0
    | succ k hjk ih =>
      intro hkm
      obtain ⟨h1, h2⟩ := hr.joint k (by omega)
      have hs := hr.each (k + 1) hkm
      have hs' := hr.each k (by omega)
      refine seg (k + 1) hkm ⟨0, by rw [h2], by have := hs.lt; have := hs.zero; linarith, fun h => absurd (hpos h).1 (lt_irrefl 0), ?_⟩
      have := ih (by omega) 1 (by rw [← h1]; exact hs'.lt.le) (by rw [h1])
      rw [curveAt_join hn] at this
      exact this
  have down : ∀ w k, k + w = j → ∀ u, lo k ≤ u → u ≤ hi k → Keeps p r (curveAt R (i + k) u) := by
    intro w
    induction w with
    | zero => intro k hk; have : k = j := by omega
              subst this; exact h0
    | succ w ih =>
      intro k hk
      obtain ⟨h1, h2⟩ := hr.joint k (by omega)
      have hs := hr.each (k + 1) (by omega)
      have hs' := hr.each k (by omega)
      refine seg k (by omega) ⟨1, by rw [← h1]; exact hs'.lt.le, by rw [h1], fun h => absurd (hpos h).2 (lt_irrefl 1), ?_⟩
      have := ih (k + 1) (by omega) 0 (by rw [h2]) (by have := hs.lt; have := hs.zero; linarith)
      rw [← Nat.add_assoc, ← curveAt_join hn] at this
      exact this
  intro k hk
  rcases Nat.le_total j k with h | h
  · exact up k h hk
  · exact down (j - k) k (by omega)

theorem run_clear_open (hp : ∀ s ∈ p.segs, IsLine s.1 ∨ ProperArc s.1 s.2) (he : 0 < eps) (ht : 0 < tol) (hD : tol ≤ |d|) (hT : OpenTests p R d eps tol C)
    {i m : Nat} {lo hi : Nat → ℝ} (hr : OpenRun R C i m lo hi)
    (hk : ∀ j ≤ m, ∀ t, lo j ≤ t → t ≤ hi j → Keeps p |d| (curveAt R (i + j) t)) {s : ViewData ℝ} {vs : List (Vertex ℝ)}
    (hs : s.toPline R = .ok ⟨vs, false⟩) (hlen : vs.length = m + 2)
    (hpart : ∀ j x y, (pathSegs vs)[j]? = some (x, y) →
      PartSeg (vtx R (i + j)) (vtx R (i + j + 1)) eps (lo j) (hi j) x y) :
    SliceClear p R d eps tol s := by
  have hn : 0 < R.verts.length := by have := (hr.each 0 (Nat.zero_le _)).range; omega
  have hseg : ∀ j x y, vs[j]? = some x → vs[j + 1]? = some y → j ≤ m ∧ FullSeg x y eps ∧
      ∀ t, segCurve x y t = curveAt R (i + j) (lo j + (hi j - lo j) * t) := by
    intro j x y hx hy
    have h := hpart j x y ((pathSegs_getElem vs j (x, y)).mpr ⟨hx, hy⟩)
    have := (List.getElem?_eq_some_iff.mp hy).1
    exact ⟨by omega, h.full, fun t => by rw [h.along, curveAt_vtx hn]⟩
  have hpt : ∀ j x y, vs[j]? = some x → vs[j + 1]? = some y → ∀ t, 0 ≤ t → t ≤ 1 → Keeps p |d| (segCurve x y t) := by
    intro j x y hx hy t t0 t1
    obtain ⟨hj, -, h⟩ := hseg j x y hx hy
    have hst := hr.each j hj
    rw [h]
    refine hk j hj _ ?_ ?_
    · nlinarith [hst.lt]
    · nlinarith [hst.lt]
  have hrd : ∀ j x y, vs[j]? = some x → vs[j + 1]? = some y →
      Readable p eps (segCurve x y 0) ∧ Readable p eps (segCurve x y (1 / 2)) ∧ Readable p eps (segCurve x y 1) := by
    intro j x y hx hy
    obtain ⟨hj, -, h⟩ := hseg j x y hx hy
    obtain ⟨r1, r2, r3⟩ := hT.readable _ _ _ (hr.each j hj)
    rw [h, h, h]
    refine ⟨?_, ?_, ?_⟩
    · rw [show lo j + (hi j - lo j) * 0 = lo j by ring]; exact r1
    · rw [show lo j + (hi j - lo j) * (1 / 2) = (lo j + hi j) / 2 by ring]; exact r2
    · rw [show lo j + (hi j - lo j) * 1 = hi j by ring]; exact r3
  refine ⟨vs, ⟨hs, by intro h; rw [h] at hlen; simp at hlen⟩, ?_, ?_⟩
  · intro v hv
    obtain ⟨k, hk', rfl⟩ := List.getElem_of_mem hv
    by_cases h : k + 1 < vs.length
    · have := hpt k _ _ (List.getElem?_eq_getElem hk') (List.getElem?_eq_getElem h) 0 le_rfl zero_le_one
      have hr1 := (hrd k _ _ (List.getElem?_eq_getElem hk') (List.getElem?_eq_getElem h)).1
      rw [(segCurve_ends _ _).1] at this hr1
      exact keeps_clear_segs hp he ht hD hr1 this
    · have h2 : k - 1 + 1 = k := by omega
      have hk1 : k - 1 < vs.length := by omega
      have := hpt (k - 1) _ vs[k] (List.getElem?_eq_getElem hk1) (by rw [h2]; exact List.getElem?_eq_getElem hk') 1 zero_le_one le_rfl
      have hr1 := (hrd (k - 1) _ vs[k] (List.getElem?_eq_getElem hk1) (by rw [h2]; exact List.getElem?_eq_getElem hk')).2.2
      rw [(segCurve_ends _ _).2] at this hr1
      exact keeps_clear_segs hp he ht hD hr1 this
  · intro j x y hx hy
    obtain ⟨hj, hfull, h⟩ := hseg j x y hx hy
    have hst := hr.each j hj
    constructor
    · exact hT.clear _ _ _ x y hst (fun t t0 t1 => hk j hj t t0 t1) hfull (fun t => h t)
    · intro _
      rw [(C30_midpoint x y (hfull.proper he)).1]
      exact keeps_clear_segs hp he ht hD (hrd j x y hx hy).2.1 (hpt j x y hx hy _ (by norm_num) (by norm_num))

theorem piece_clear_open (hp : ∀ s ∈ p.segs, IsLine s.1 ∨ ProperArc s.1 s.2) (he : 0 < eps) (ht : 0 < tol) (hD : tol ≤ |d|) (hf : FullPath R eps)
    (hI : InsideCuts R eps gap C) (hC : ChangesAtCuts p R |d| C) (hT : OpenTests p R d eps tol C) (hS : RunPath R C l)
    {a b : Cut} (hab : (a, b) ∈ pathSegs l) (hne : a ≠ b)
    {s : ViewData ℝ} {vs : List (Vertex ℝ)} (hs : s.toPline R = .ok ⟨vs, false⟩) (hal : Along R eps a b vs) :
    SliceClear p R d eps tol s ↔ PieceFar p R |d| a b := by
  have hn : 0 < R.verts.length := by have := hf.two; omega
  have hr := open_run he hf hI hS hab hne
  obtain ⟨-, ha, hb, -, -⟩ := open_between he hf hI hS hab hne
  constructor
  · rintro ⟨vs', ⟨h1, -⟩, -, h3⟩
    have : vs' = vs := by have := h1.symm.trans hs; simpa using this
    subst this
    have hl := hal.count
    have hx := List.getElem?_eq_getElem (show 0 < vs'.length by omega)
    have hy := List.getElem?_eq_getElem (show 0 + 1 < vs'.length by omega)
    have hm := (h3 0 _ _ hx hy).2 (Or.inl rfl)
    have hpt := hal.part 0 _ _ ((pathSegs_getElem vs' 0 _).mpr ⟨hx, hy⟩)
    rw [(C30_midpoint _ _ (hpt.full.proper he)).1, hpt.along, ← curveAt_vtx hn, Nat.add_zero] at hm
    have hst := hr.each 0 (Nat.zero_le _)
    rw [Nat.add_zero] at hst
    have hlo : loOf a 0 = a.2 := by simp [loOf]
    have hmid : loOf a 0 + (hiOf a b 0 - loOf a 0) * (1 / 2) = (loOf a 0 + hiOf a b 0) / 2 := by ring
    rw [hmid] at hm
    have hk := clear_keeps_segs hp he ht.le hD (hT.readable _ _ _ hst).2.1 (hT.middle a.1 _ _ hst (by
      rw [hlo]
      rcases ha with rfl | ha
      · exact Or.inr ⟨rfl, rfl⟩
      · exact Or.inl ha)) hm
    have hlt := hst.lt
    refine keep_run_open hC hI hr (j := 0) (Nat.zero_le _) (t := (loOf a 0 + hiOf a b 0) / 2) (by linarith) (by linarith) ?_ ?_
    · rw [Nat.add_zero]
      exact hst.inside _ (by linarith) (by linarith)
    · exact hk
  · intro hk
    exact run_clear_open hp he ht hD hT hr hk hs hal.count hal.part

end
end Cavc
