import Verif.Lemmas.SelfKeeps
import Verif.Lemmas.RawFlow
import Verif.Lemmas.OpenRun
import Verif.Lemmas.LoopResult
import Verif.Lemmas.OffsetClosed

/-! # The results of the parallel offset of a closed polyline with the option for self-intersections: closed, where no cut with the other side is kept -/

set_option linter.unusedVariables false
set_option linter.unusedSectionVars false

namespace Cavc
open Pline

/-- At each cut that keeps the distance there is one other pass, and the branches that keep the distance lead from one pass to the other. -/
def CutsLeadOn (p R : Pline ℝ) (r : ℝ) (C : List Cut) : Prop := ∀ a ∈ C, Keeps p r (curveAt R a.1 a.2) →
  ∃ b ∈ C, b ≠ a ∧ curveAt R b.1 b.2 = curveAt R a.1 a.2 ∧ (∀ b' ∈ C, curveAt R b'.1 b'.2 = curveAt R a.1 a.2 → b' = a ∨ b' = b) ∧
    (BesideKept p R r 1 a ↔ BesideKept p R r (-1) b) ∧ (BesideKept p R r (-1) a ↔ BesideKept p R r 1 b)

theorem last_first {α : Type} {z c : α} : ∀ {l : List α}, l.getLast? = some z → c ∈ l → c ≠ z → ∃ x ∈ pathSegs l, x.1 = c ∧ x.2 ≠ c
  | [], h, hc, hne => by simp at hc
  | [a], h, hc, hne => by
    simp only [List.getLast?_singleton, Option.some.injEq] at h
    simp only [List.mem_singleton] at hc
    exact absurd (hc.trans h) hne
  | a :: b :: l, h, hc, hne => by
    rw [List.getLast?_cons_cons] at h
    by_cases hm : c ∈ b :: l
    · obtain ⟨x, hx, h1, h2⟩ := last_first h hm hne
      exact ⟨x, by rw [pathSegs]; exact List.mem_cons_of_mem _ hx, h1, h2⟩
    · have e : c = a := (List.mem_cons.mp hc).resolve_right hm
      refine ⟨(a, b), by rw [pathSegs]; simp, e.symm, fun hb => hm ?_⟩
      rw [← hb]; simp

theorem first_second {α : Type} {c : α} : ∀ {a : α} {l : List α}, c ∈ a :: l → c ≠ a → ∃ x ∈ pathSegs (a :: l), x.2 = c ∧ x.1 ≠ c
  | a, [], hc, hne => by
    simp only [List.mem_singleton] at hc
    exact absurd hc hne
  | a, b :: l, hc, hne => by
    have hm : c ∈ b :: l := (List.mem_cons.mp hc).resolve_left hne
    by_cases hb : c = b
    · exact ⟨(a, b), by rw [pathSegs]; simp, hb.symm, fun h => hne h.symm⟩
    · obtain ⟨x, hx, h1, h2⟩ := first_second hm hb
      exact ⟨x, by rw [pathSegs]; exact List.mem_cons_of_mem _ hx, h1, h2⟩

theorem steps_nodup [DecidableEq Cut] : ∀ {l : List Cut}, l.Pairwise lexLe →
    ((pathSegs l).filter fun x => decide (x.1 ≠ x.2)).Pairwise fun x y => lexLt x.1 y.1 ∧ lexLt x.2 y.2
  | [], _ => by simp [pathSegs]
  | [a], _ => by simp [pathSegs]
  | a :: b :: l, h => by
    rw [pathSegs]
    have h' := (List.pairwise_cons.mp h).2
    have ih := steps_nodup h'
    by_cases hab : a = b
    · rw [List.filter_cons_of_neg (by simp [hab])]
      exact ih
    · rw [List.filter_cons_of_pos (by simp [hab]), List.pairwise_cons]
      refine ⟨fun y hy => ?_, ih⟩
      obtain ⟨hy1, hy2⟩ := List.mem_filter.mp hy
      have hy2 : y.1 ≠ y.2 := by simpa using hy2
      have hlt : lexLt y.1 y.2 := (pathSegs_rel h' _ hy1).resolve_left hy2
      have hb : lexLe b y.1 := by
        have : y.1 ∈ b :: l := (pathSegs_mem hy1).1
        rcases List.mem_cons.mp this with e | hm
        · exact Or.inl e.symm
        · exact (List.pairwise_cons.mp h').1 _ hm
      have hlt' : lexLt a b := ((List.pairwise_cons.mp h).1 b (by simp)).resolve_left hab
      have hbt : ∀ {x y z : Cut}, lexLe x y → lexLt y z → lexLt x z := fun {x y z} h1 h2 => by
        rcases h1 with rfl | h1
        · exact h2
        · exact lexLt_trans h1 h2
      refine ⟨?_, hbt hb hlt⟩
      rcases hb with e | hb
      · rw [← e]; exact hlt'
      · exact lexLt_trans hlt' hb

section
variable {p R : Pline ℝ} {d eps gap tol : ℝ} {C CS : List Cut} {f : Cut}

/-- a piece keeps the distance if and only if it does just after its start, and if and only if it does just before its end -/
theorem piece_beside_loop (he : 0 < eps) (hf : FullLoop R eps) (hI : LoopInside R eps gap C) (hC : SelfChanges p R |d| C) (hS : RunLoop C CS f)
    {a b : Cut} (hab : (a, b) ∈ pathSegs (CS ++ [again R f])) (hne : a ≠ b) :
    (PieceFar p R |d| a b ↔ BesideKept p R |d| 1 a) ∧ (PieceFar p R |d| a b ↔ BesideKept p R |d| (-1) (b.1 % R.verts.length, b.2)) := by
  have hn : 0 < R.verts.length := by have := hf.two; omega
  have hr := loop_run he hf hI hS hab hne
  obtain ⟨ho, ha, hb, hbr, hno⟩ := loop_between he hf hI hS hab hne
  have hai := hI.range a ha
  have hle : a.1 ≤ b.1 := by rcases ho with ho | ho <;> omega
  constructor
  · have hst := hr.each 0 (Nat.zero_le _)
    have hlo : loOf a 0 = a.2 := by simp [loOf]
    have hlt := hst.lt
    rw [hlo] at hlt
    constructor
    · intro hk
      refine ⟨hiOf a b 0 - a.2, by linarith, fun s s0 s1 => ?_⟩
      rw [one_mul]
      exact hk 0 (Nat.zero_le _) _ (by rw [hlo]; linarith) (by linarith)
    · rintro ⟨δ, hδ, h⟩
      obtain ⟨s, s0, s1⟩ := exists_between (lt_min hδ (sub_pos.mpr hlt))
      obtain ⟨s1, s2⟩ := lt_min_iff.mp s1
      have h1 := h s s0 s1
      rw [one_mul] at h1
      exact keep_run_loop hC hI hr (j := 0) (Nat.zero_le _) (t := a.2 + s) (by rw [hlo]; linarith) (by linarith)
        (hst.inside _ (by rw [hlo]; linarith) (by linarith)) h1
  · have hst := hr.each (b.1 - a.1) le_rfl
    have hhi : hiOf a b (b.1 - a.1) = b.2 := by simp [hiOf]
    have hlt := hst.lt
    rw [hhi] at hlt
    have hsum : a.1 + (b.1 - a.1) = b.1 := by omega
    constructor
    · intro hk
      refine ⟨b.2 - loOf a (b.1 - a.1), by linarith, fun s s0 s1 => ?_⟩
      have := hk (b.1 - a.1) le_rfl (b.2 + -1 * s) (by linarith) (by rw [hhi]; linarith)
      rw [hsum] at this
      dsimp only
      rwa [curveAt_wrap hn]
    · rintro ⟨δ, hδ, h⟩
      obtain ⟨s, s0, s1⟩ := exists_between (lt_min hδ (sub_pos.mpr hlt))
      obtain ⟨s1, s2⟩ := lt_min_iff.mp s1
      have h1 := h s s0 s1
      dsimp only at h1
      rw [curveAt_wrap hn] at h1
      exact keep_run_loop hC hI hr (j := b.1 - a.1) le_rfl (t := b.2 + -1 * s) (by linarith) (by rw [hhi]; linarith)
        (hst.inside _ (by linarith) (by rw [hhi]; linarith)) (by rw [hsum]; exact h1)

open Classical in
/-- The pieces that keep the distance start and end in the same points. -/
theorem kept_balanced_loop (he : 0 < eps) (hf : FullLoop R eps) (hI : LoopInside R eps gap C) (hC : SelfChanges p R |d| C) (hfl : CutsLeadOn p R |d| C)
    (hS : RunLoop C CS f) :
    let L := (pathSegs (CS ++ [again R f])).filter fun x => decide (x.1 ≠ x.2 ∧ PieceFar p R |d| x.1 x.2)
    (L.map fun x => curveAt R x.1.1 x.1.2).Perm (L.map fun x => curveAt R x.2.1 x.2.2) := by
  intro L
  have hn : 0 < R.verts.length := by have := hf.two; omega
  set pt : Cut → V2 ℝ := fun c => curveAt R c.1 c.2 with hpt
  set w : Cut → Cut := fun c => (c.1 % R.verts.length, c.2) with hw
  have hsort := loop_again_sorted he hf hI hS
  have hrange : ∀ c ∈ CS, w c = c := fun c hc => by
    rw [hw]; exact Prod.ext (Nat.mod_eq_of_lt (hI.range c ((hS.mem c).mp hc))) rfl
  have hfm : f ∈ CS := loop_first_mem he hf hI hS
  have hwf : w (again R f) = f := by
    rw [← hrange f hfm]
    simp [hw, again]
  have hL : ∀ x, x ∈ L ↔ x ∈ pathSegs (CS ++ [again R f]) ∧ x.1 ≠ x.2 ∧ PieceFar p R |d| x.1 x.2 := fun x =>
    List.mem_filter.trans (and_congr_right fun _ => by simp)
  have hpair : L.Pairwise fun x y => lexLt x.1 y.1 ∧ lexLt x.2 y.2 := by
    have := (steps_nodup hsort).filter fun x => decide (PieceFar p R |d| x.1 x.2)
    rw [List.filter_filter] at this
    have e : L = (pathSegs (CS ++ [again R f])).filter fun x => decide (PieceFar p R |d| x.1 x.2) && decide (x.1 ≠ x.2) := by
      refine List.filter_congr fun x _ => ?_
      by_cases h1 : x.1 = x.2 <;> by_cases h2 : PieceFar p R |d| x.1 x.2 <;> simp [h1, h2]
    rw [e]
    exact this
  have nS : (L.map Prod.fst).Nodup := by
    rw [List.Nodup, List.pairwise_map]
    exact hpair.imp (S := fun a b => a.1 ≠ b.1) fun {a b} h (e : a.1 = b.1) => lexLt_irrefl b.1 (by have := h.1; rwa [e] at this)
  have nT : (L.map fun x => w x.2).Nodup := by
    have h2 : (L.map Prod.snd).Nodup := by
      rw [List.Nodup, List.pairwise_map]
      exact hpair.imp (S := fun a b => a.2 ≠ b.2) fun {a b} h (e : a.2 = b.2) => lexLt_irrefl b.2 (by have := h.2; rwa [e] at this)
    have h3 : (L.map fun x => w x.2) = (L.map Prod.snd).map w := by rw [List.map_map]; rfl
    rw [h3]
    refine h2.map_on fun x hx y hy e => ?_
    have hcase : ∀ z ∈ L.map Prod.snd, (z ∈ CS ∧ z ≠ f) ∨ z = again R f := by
      intro z hz
      obtain ⟨u, hu, rfl⟩ := List.mem_map.mp hz
      obtain ⟨hu1, hu2, -⟩ := (hL u).mp hu
      obtain ⟨m1, m2⟩ := pathSegs_snoc_mem hu1
      refine m2.imp (fun m2 => ⟨m2, fun e => ?_⟩) id
      obtain ⟨hlt, -⟩ := loop_between he hf hI hS (a := u.1) (b := u.2) hu1 hu2
      rw [e] at hlt
      rcases loop_first_least he hf hI hS m1 with h | h
      · rw [← h] at hlt; exact lexLt_irrefl _ hlt
      · exact lexLt_irrefl _ (lexLt_trans hlt h)
    rcases hcase x hx with ⟨a1, a2⟩ | a1 <;> rcases hcase y hy with ⟨b1, b2⟩ | b1
    · rwa [hrange x a1, hrange y b1] at e
    · rw [hrange x a1, b1, hwf] at e; exact absurd e a2
    · rw [hrange y b1, a1, hwf] at e; exact absurd e.symm b2
    · rw [a1, b1]
  have hne_again : ∀ c ∈ CS, c ≠ again R f := fun c hc e => by
    have := hI.range c ((hS.mem c).mp hc)
    rw [e] at this
    unfold again at this
    dsimp only at this
    omega
  have mS : ∀ c, c ∈ L.map Prod.fst ↔ c ∈ C ∧ BesideKept p R |d| 1 c := by
    intro c
    constructor
    · intro hc
      obtain ⟨x, hx, rfl⟩ := List.mem_map.mp hc
      obtain ⟨x1, x2, x3⟩ := (hL x).mp hx
      exact ⟨(loop_between he hf hI hS (a := x.1) (b := x.2) x1 x2).2.1, (piece_beside_loop he hf hI hC hS (a := x.1) (b := x.2) x1 x2).1.mp x3⟩
    · rintro ⟨hc, hb⟩
      have hcs := (hS.mem c).mpr hc
      obtain ⟨x, hx, rfl, hx2⟩ := last_first (l := CS ++ [again R f]) (z := again R f) (by simp) (List.mem_append_left _ hcs) (hne_again c hcs)
      exact List.mem_map.mpr ⟨x, (hL x).mpr ⟨hx, Ne.symm hx2, (piece_beside_loop he hf hI hC hS (a := x.1) (b := x.2) hx (Ne.symm hx2)).1.mpr hb⟩, rfl⟩
  have mT : ∀ c, c ∈ (L.map fun x => w x.2) ↔ c ∈ C ∧ BesideKept p R |d| (-1) c := by
    intro c
    constructor
    · intro hc
      obtain ⟨x, hx, rfl⟩ := List.mem_map.mp hc
      obtain ⟨x1, x2, x3⟩ := (hL x).mp hx
      exact ⟨(loop_between he hf hI hS (a := x.1) (b := x.2) x1 x2).2.2.1, (piece_beside_loop he hf hI hC hS (a := x.1) (b := x.2) x1 x2).2.mp x3⟩
    · rintro ⟨hc, hb⟩
      have hcs := (hS.mem c).mpr hc
      obtain ⟨l, hl⟩ : ∃ l, CS = f :: l := by
        have := hS.first
        cases hC : CS with
        | nil => rw [hC] at this; simp at this
        | cons a l => rw [hC] at this; simp at this; exact ⟨l, by rw [this]⟩
      obtain ⟨z, hz, hzf, hzw⟩ : ∃ z, z ∈ f :: (l ++ [again R f]) ∧ z ≠ f ∧ w z = c := by
        by_cases hcf : c = f
        · exact ⟨again R f, by simp, fun e => hne_again f hfm e.symm, by rw [hwf, hcf]⟩
        · refine ⟨c, ?_, hcf, hrange c hcs⟩
          rw [hl] at hcs
          rcases List.mem_cons.mp hcs with h | h
          · exact absurd h hcf
          · simp [h]
      obtain ⟨x, hx, hx2, hx1⟩ := first_second hz hzf
      have hx' : x ∈ pathSegs (CS ++ [again R f]) := by rw [hl]; exact hx
      have hxne : x.1 ≠ x.2 := by rw [hx2]; exact hx1
      have hwx : w x.2 = c := by rw [hx2]; exact hzw
      exact List.mem_map.mpr ⟨x, (hL x).mpr ⟨hx', hxne, (piece_beside_loop he hf hI hC hS (a := x.1) (b := x.2) hx' hxne).2.mpr (by
        show BesideKept p R |d| (-1) (w x.2)
        rw [hwx]; exact hb)⟩, hwx⟩
  -- the other pass
  have hkeep : ∀ c, ∀ σ : ℝ, σ = 1 ∨ σ = -1 → BesideKept p R |d| σ c → Keeps p |d| (curveAt R c.1 c.2) := fun c σ hσ h => beside_keeps_any hn hσ h
  choose! g hg using hfl
  have hgg : ∀ c ∈ C, Keeps p |d| (pt c) → g (g c) = c := by
    intro c hc hk
    obtain ⟨g1, g2, g3, g4, -⟩ := hg c hc hk
    obtain ⟨k1, k2, k3, -⟩ := hg (g c) g1 (by rw [g3]; exact hk)
    rcases g4 (g (g c)) k1 (k3.trans g3) with h | h
    · exact h
    · exact absurd h k2
  have hperm : ((L.map Prod.fst).map g).Perm (L.map fun x => w x.2) := by
    refine (List.perm_ext_iff_of_nodup (nS.map_on fun x hx y hy e => ?_) nT).mpr fun b => ?_
    · obtain ⟨x1, x2⟩ := (mS x).mp hx
      obtain ⟨y1, y2⟩ := (mS y).mp hy
      rw [← hgg x x1 (hkeep x 1 (Or.inl rfl) x2), ← hgg y y1 (hkeep y 1 (Or.inl rfl) y2), e]
    · constructor
      · intro hb
        obtain ⟨a, ha, rfl⟩ := List.mem_map.mp hb
        obtain ⟨a1, a2⟩ := (mS a).mp ha
        obtain ⟨g1, g2, g3, g4, g5, g6⟩ := hg a a1 (hkeep a 1 (Or.inl rfl) a2)
        exact (mT _).mpr ⟨g1, g5.mp a2⟩
      · intro hb
        obtain ⟨b1, b2⟩ := (mT b).mp hb
        have hk := hkeep b (-1) (Or.inr rfl) b2
        obtain ⟨g1, g2, g3, g4, g5, g6⟩ := hg b b1 hk
        exact List.mem_map.mpr ⟨g b, (mS _).mpr ⟨g1, g6.mp b2⟩, hgg b b1 hk⟩
  have e1 : (L.map fun x => curveAt R x.1.1 x.1.2) = ((L.map Prod.fst).map g).map pt := by
    rw [List.map_map, List.map_map]
    refine List.map_congr_left fun x hx => ?_
    obtain ⟨a1, a2⟩ := (mS x.1).mp (List.mem_map.mpr ⟨x, hx, rfl⟩)
    exact (hg x.1 a1 (hkeep x.1 1 (Or.inl rfl) a2)).2.2.1.symm
  have e2 : (L.map fun x => curveAt R x.2.1 x.2.2) = (L.map fun x => w x.2).map pt := by
    rw [List.map_map]
    refine List.map_congr_left fun x hx => ?_
    simp only [Function.comp, hpt, hw]
    rw [curveAt_wrap hn]
  rw [e1, e2]
  exact hperm.map pt

/-- The results for a closed polyline are closed, if at each kept cut the raw offset is left along another pass of it. -/
theorem result_closed_loop {joinEps : ℝ} (hp : FullLoop p eps) (he : 0 < eps) (ht : 0 < tol) (hD : tol ≤ |d|) (hf : FullLoop R eps)
    (hI : LoopInside R eps gap C) (hC : SelfChanges p R |d| C) (hfl : CutsLeadOn p R |d| C) (hT : SelfTests p R d eps tol C)
    (hg : eps ≤ gap) (hj : 2 * joinEps ≤ gap) (hj0 : 0 < joinEps)
    {es : List (Nat × V2 ℝ)} {ss : List (ViewData ℝ)} {rs : List (Pline ℝ)} (hes : ∀ x, x ∈ es ↔ ∃ c ∈ C, cutPt R c = x)
    (hss : OffsetSlices p R d eps tol es ss) (hrs : OffsetJoined R ss p.closed eps joinEps rs) :
    ∀ r ∈ rs, SoundLoop eps r := by
  classical
  have hn : 0 < R.verts.length := by have := hf.two; omega
  have hpp : ∀ s ∈ p.segs, IsLine s.1 ∨ ProperArc s.1 s.2 := fun s hs => segs_proper hp he hs
  rw [hp.closed] at hrs
  have main : ∀ L : List (Cut × Cut), List.Forall₂ (fun s x => ∃ vs, GoodSlice R eps s x vs) ss L → (∀ x ∈ L, x.1.1 ≤ x.2.1) →
      (∀ x ∈ L, ∀ y ∈ L, curveAt R x.2.1 x.2.2 = curveAt R y.1.1 y.1.2 ∨ FarApart gap (curveAt R x.2.1 x.2.2) (curveAt R y.1.1 y.1.2)) →
      (L.map fun x => curveAt R x.1.1 x.1.2).Perm (L.map fun x => curveAt R x.2.1 x.2.2) → ∀ r ∈ rs, SoundLoop eps r := by
    intro L hgood hord hends hbal
    have hlen := hgood.length_eq
    obtain ⟨W, P, -, hh⟩ := good_parts he hf hgood hord hends hg hj hj0.le hlen
    refine stitch_closed he hj0 P ?_ hrs
    unfold Balanced
    have m1 : ((List.range ss.length).map fun i => headPos (W i)) = L.map fun x => curveAt R x.1.1 x.1.2 := by
      apply List.ext_getElem
      · simp [hlen]
      · intro i h1 h2
        simp only [List.length_map, List.length_range] at h1
        simp only [List.getElem_map, List.getElem_range]
        exact (hh i h1).1
    have m2 : ((List.range ss.length).map fun i => lastPos (W i)) = L.map fun x => curveAt R x.2.1 x.2.2 := by
      apply List.ext_getElem
      · simp [hlen]
      · intro i h1 h2
        simp only [List.length_map, List.length_range] at h1
        simp only [List.getElem_map, List.getElem_range]
        exact (hh i h1).2
    rw [m1, m2]
    exact hbal
  by_cases hC0 : C = []
  · have hes0 : es = [] := by
      rw [List.eq_nil_iff_forall_not_mem]
      intro x hx
      obtain ⟨c, hc, -⟩ := (hes x).mp hx
      rw [hC0] at hc; simp at hc
    obtain ⟨v, hv⟩ : ∃ v, R.verts.head? = some v := ⟨R.verts[0], by rw [List.head?_eq_getElem?, List.getElem?_eq_getElem hn]⟩
    obtain ⟨hk, hdr⟩ := hss.whole hes0 v hv
    by_cases hcl : PointClear p d eps tol v.pos
    · obtain ⟨s, hs, rfl⟩ := hk hcl
      obtain ⟨vs, hvs⟩ := entire_along he hf hs
      have heq : curveAt R (R.verts.length - 1) 1 = curveAt R 0 0 := by
        rw [curveAt_join hn, Nat.sub_add_cancel (by omega), ← curveAt_wrap hn, Nat.mod_self]
      refine main [((0, 0), (R.verts.length - 1, 1))] (List.Forall₂.cons ⟨vs, hvs⟩ List.Forall₂.nil) (by simp) (by
          intro x hx y hy
          simp only [List.mem_singleton] at hx hy
          subst hx; subst hy
          exact Or.inl heq) (by simp [heq])
    · have hs0 := hdr hcl
      subst hs0
      exact main [] List.Forall₂.nil (by simp) (by simp) (by simp)
  · have hes0 : es ≠ [] := by
      obtain ⟨c, hc⟩ := List.exists_mem_of_ne_nil C hC0
      exact List.ne_nil_of_mem ((hes _).mpr ⟨c, hc, rfl⟩)
    obtain ⟨cuts, first, last, hcut, -, -, hkept⟩ := hss.pieces hes0
    obtain ⟨CS, f, hCS, hS⟩ := loop_sorted he hf hI hes hcut hC0
    have hrange : ∀ c ∈ CS, c.1 < R.verts.length := fun c hc => hI.range c ((hS.mem c).mp hc)
    rw [hp.closed, ← hCS, gaps_listed hn hrange hS.first] at hkept
    have hslices := kept_slices_loop (P := fun x => x.1 ≠ x.2) (Q := fun x => PieceFar p R |d| x.1 x.2) _ _ (fun x hx hP => by
        have e : x.1 = x.2 := by by_contra h; exact hP h
        have ha := (pathSegs_snoc_mem hx).1
        rw [← e]
        unfold listed
        dsimp only
        rw [Nat.mod_eq_of_lt (hrange _ ha)]
        exact loop_slice_same he hf (hrange _ ha) (hI.ok _ ((hS.mem _).mp ha))) (fun x hx hP => by
        obtain ⟨a, b⟩ := x
        obtain ⟨s, vs, h1, h3⟩ := loop_piece_slice he hf hI hS hg hx hP
        have ha := (pathSegs_snoc_mem hx).1
        refine ⟨s, vs, ?_, h3, piece_clear_loop hpp he ht hD hf hI hC hT hS hx hP h3.reads h3.along⟩
        unfold listed
        dsimp only at ha ⊢
        rw [Nat.mod_eq_of_lt (hrange _ ha)]
        exact h1) hkept
    have hL : ∀ x, x ∈ ((pathSegs (CS ++ [again R f])).filter fun x => decide (x.1 ≠ x.2 ∧ PieceFar p R |d| x.1 x.2)) →
        x ∈ pathSegs (CS ++ [again R f]) ∧ x.1 ≠ x.2 := fun x hx => by
      obtain ⟨h1, h2⟩ := List.mem_filter.mp hx
      exact ⟨h1, (of_decide_eq_true h2).1⟩
    refine main _ hslices (fun x hx => ?_) (fun x hx y hy => ?_) ?_
    · obtain ⟨ho, -⟩ := loop_between he hf hI hS (hL x (by convert hx)).1 (hL x (by convert hx)).2
      rcases ho with ho | ho <;> omega
    · obtain ⟨-, -, hb, -⟩ := loop_between he hf hI hS (hL x (by convert hx)).1 (hL x (by convert hx)).2
      obtain ⟨-, ha, -⟩ := loop_between he hf hI hS (hL y (by convert hy)).1 (hL y (by convert hy)).2
      have := hI.apart _ hb _ ha
      dsimp only at this
      rwa [curveAt_wrap hn] at this
    · convert kept_balanced_loop he hf hI hC hfl hS

end

namespace Both
variable {p : Pline ℝ} {d : ℝ} {c : Nat → Corner} {eps : ℝ} (he : 0 < eps) (h : ClearOffset p d c eps) (hC : CleanCorners p d c) {c' : Nat → Corner}
  (h' : ClearOffset p (-d) c' eps) (hC' : CleanCorners p (-d) c')
  {gap : ℝ} {C : List Cut} (hO : SelfCuts (rawWith p d c) (rawWith p (-d) c') eps gap C) (hF : FreeCuts p d c)
include he h hC h' hC' hO hF

/-- Beside a kept crossing of the raw offset with itself, the distance is kept exactly on one side of each pass, and from there it is kept along the other pass. -/
theorem loop_flow (hK : ∀ a ∈ C, Keeps p |d| (curveAt (rawWith p d c) a.1 a.2) → LoopCutKind (rawWith p d c) (rawWith p (-d) c') C a)
    (hS : ∀ X, OnPline (rawWith p d c) X → Keeps p |d| X → ¬ OnPline (rawWith p (-d) c') X) : CutsLeadOn p (rawWith p d c) |d| C := by
  rintro ⟨i, t⟩ hx hk
  dsimp only at hk ⊢
  have hok := hO.ok _ hx
  have hi' := hO.range _ hx
  have hon : OnPline (rawWith p d c) (curveAt (rawWith p d c) i t) := (loop_on h.full _).mpr ⟨i, t, hi', hok.pos.le, hok.lt.le, rfl⟩
  have hka := hK _ hx hk
  rcases hka with ⟨⟨j, t'⟩, mem, other, same, only, angle, dual⟩ | ⟨j, u, range, inside, same, -, -, -⟩
  swap
  · exact absurd ((loop_on h'.full _).mpr ⟨j, u, range, inside.1, inside.2, same.symm⟩) (hS _ hon hk)
  have hXX : curveAt (rawWith p d c) i t = curveAt (rawWith p d c) j t' := same.symm
  have hk' : Keeps p |d| (curveAt (rawWith p d c) j t') := hXX ▸ hk
  refine ⟨(j, t'), mem, fun e => other (by rw [e]), same, only, ?_⟩
  have hi : i < (arcParts p c).length := by rw [← arcParts_length (d := d)]; exact hi'
  have hj : j < (arcParts p c).length := by rw [← arcParts_length (d := d)]; exact hO.range _ mem
  have hok' := hO.ok _ mem
  obtain ⟨a, b, f1, f2, hf⟩ := raw_foot he h hC hi hok.pos.le hok.lt.le hk
  obtain ⟨a', b', g1, g2, hg⟩ := raw_foot he h hC hj hok'.pos.le hok'.lt.le hk'
  have hang : d * (a * b' - b * a') ≠ 0 := mul_ne_zero h.moves (angle _ _ _ _ f1 f2 g1 g2)
  have k1 : ∀ σ : ℝ, BesideKept p (rawWith p d c) |d| σ (i, t) → σ * (d * (a * b' - b * a')) ≤ 0 := fun σ hσ =>
    foot_side h.moves f1 f2 (hXX ▸ hg) hσ
  have k2 : ∀ σ : ℝ, BesideKept p (rawWith p d c) |d| σ (j, t') → 0 ≤ σ * (d * (a * b' - b * a')) := fun σ hσ => by
    have := foot_side h.moves g1 g2 (hXX ▸ hf) hσ
    linarith
  obtain ⟨σ, hσ, l1⟩ := loop_leave he h hC h' hC' hO hF hx hk (hK _ hx hk)
  obtain ⟨τ, hτ, l2⟩ := loop_leave he h hC h' hC' hO hF mem hk' (hK _ mem hk')
  have m1 : BesideKept p (rawWith p d c) |d| σ (i, t) := l1
  have m2 : BesideKept p (rawWith p d c) |d| τ (j, t') := l2
  have n1 := k1 σ m1
  have n2 := k2 τ m2
  rcases lt_or_gt_of_ne hang with hs | hs
  · have e1 : σ = 1 := hσ.resolve_right (by rintro rfl; linarith)
    have e2 : τ = -1 := hτ.resolve_left (by rintro rfl; linarith)
    subst e1; subst e2
    exact ⟨⟨fun _ => m2, fun _ => m1⟩, ⟨fun x => by have := k1 _ x; linarith, fun x => by have := k2 _ x; linarith⟩⟩
  · have e1 : σ = -1 := hσ.resolve_left (by rintro rfl; linarith)
    have e2 : τ = 1 := hτ.resolve_right (by rintro rfl; linarith)
    subst e1; subst e2
    exact ⟨⟨fun x => by have := k1 _ x; linarith, fun x => by have := k2 _ x; linarith⟩, ⟨fun _ => m2, fun _ => m1⟩⟩

end Both
end Cavc
