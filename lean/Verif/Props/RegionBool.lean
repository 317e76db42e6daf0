import Verif.Spec.Crossing
import Verif.Lemmas.RegionRun
import Verif.Lemmas.FindCrossing
import Verif.Lemmas.ClearPairs

/-! # C59: the region of a boolean operation on polylines that cross -/

set_option linter.unusedVariables false

namespace Cavc
open Pline

theorem find_mem {p : Nat → Bool} {l : List Nat} {j : Nat} (h : l.find? p = some j) : j ∈ l := List.mem_of_find?_eq_some h

theorem first_picks {l : List Nat} (h : l ≠ []) : ∃ j ∈ l, firstAvailable l = .ok (some j) := by
  cases l with
  | nil => exact absurd rfl h
  | cons a l => exact ⟨a, by simp, rfl⟩

theorem orElse_picks {o : Option Nat} {alt : Unit → M (Option Nat)} {l : List Nat} (ho : ∀ j, o = some j → j ∈ l)
    (ha : ∃ j ∈ l, alt () = .ok (some j)) : ∃ j ∈ l, orElseM o alt = .ok (some j) := by
  cases o with
  | none => exact ha
  | some j => exact ⟨j, ho j rfl, rfl⟩

theorem orAnd_picks (a n : Nat) : Picks (orAndSelector a n n) n := by
  intro cur avail hcur hne hav
  unfold orAndSelector
  dsimp only
  split
  · exact orElse_picks (fun j h => find_mem h) (orElse_picks (fun j h => find_mem h) (first_picks hne))
  · exact orElse_picks (fun j h => find_mem h) (orElse_picks (fun j h => find_mem h) (first_picks hne))

theorem notXor_picks (a n : Nat) : Picks (notXorSelector a n n) n := by
  intro cur avail hcur hne hav
  unfold notXorSelector
  rw [if_neg (by omega)]
  split
  · exact orElse_picks (fun j h => find_mem h) (first_picks hne)
  · exact orElse_picks (fun j h => find_mem h) (first_picks hne)

section
variable {p1 p2 : Pline ℝ} {eps : ℝ} {E : List (Cut × Cut)}

theorem CleanCrossing.common1 (h : CleanCrossing p1 p2 eps E) (l2 : Loop p2) : CommonCuts p1 p2 (E.map Prod.fst) := by
  have hr : ∀ c ∈ E, c.2.1 < p2.verts.length ∧ 0 ≤ c.2.2 ∧ c.2.2 ≤ 1 := by
    intro c hc
    have hm : c.2 ∈ E.map Prod.snd := List.mem_map.mpr ⟨c, hc, rfl⟩
    exact ⟨h.second.range _ hm, (h.second.ok _ hm).pos.le, (h.second.ok _ hm).lt.le⟩
  refine ⟨?_, ?_⟩
  · intro c hc
    obtain ⟨c', hc', rfl⟩ := List.mem_map.mp hc
    rw [h.on c' hc']
    exact (trace_curve l2 _).mpr ⟨c'.2.1, c'.2.2, (hr c' hc').1, (hr c' hc').2.1, (hr c' hc').2.2, rfl⟩
  · intro i t hi h0 h1 hm
    obtain ⟨j, u, hj, hu0, hu1, e⟩ := (trace_curve l2 _).mp hm
    refine List.mem_map.mpr ⟨((i, t), (j, u)), h.all i t j u hi h0 h1 hj hu0 hu1 ?_, rfl⟩
    exact e.symm

theorem CleanCrossing.common2 (h : CleanCrossing p1 p2 eps E) (l1 : Loop p1) : CommonCuts p2 p1 (E.map Prod.snd) := by
  have hr : ∀ c ∈ E, c.1.1 < p1.verts.length ∧ 0 ≤ c.1.2 ∧ c.1.2 ≤ 1 := by
    intro c hc
    have hm : c.1 ∈ E.map Prod.fst := List.mem_map.mpr ⟨c, hc, rfl⟩
    exact ⟨h.first.range _ hm, (h.first.ok _ hm).pos.le, (h.first.ok _ hm).lt.le⟩
  refine ⟨?_, ?_⟩
  · intro c hc
    obtain ⟨c', hc', rfl⟩ := List.mem_map.mp hc
    rw [← h.on c' hc']
    exact (trace_curve l1 _).mpr ⟨c'.1.1, c'.1.2, (hr c' hc').1, (hr c' hc').2.1, (hr c' hc').2.2, rfl⟩
  · intro i t hi h0 h1 hm
    obtain ⟨j, u, hj, hu0, hu1, e⟩ := (trace_curve l1 _).mp hm
    refine List.mem_map.mpr ⟨((j, u), (i, t)), h.all j u i t hj hu0 hu1 hi h0 h1 ?_, rfl⟩
    exact e

theorem common_finite (l1 : Loop p1) (h : CommonCuts p1 p2 (E.map Prod.fst)) : (trace p1 ∩ trace p2).Finite := by
  apply ((List.finite_toSet (E.map Prod.fst)).image fun c : Cut => ((curveAt p1 c.1 c.2).x, (curveAt p1 c.1 c.2).y)).subset
  rintro z ⟨h1, h2⟩
  obtain ⟨i, t, hi, h0, h1', e⟩ := (trace_curve l1 z).mp h1
  have hz : z = ((curveAt p1 i t).x, (curveAt p1 i t).y) := by rw [e]
  exact ⟨(i, t), h.all i t hi h0 h1' (by rw [← hz]; exact h2), hz.symm⟩

end

/-- moving a point a little to a height at which the product rule can be applied -/
theorem move_point {p1 p2 : Pline ℝ} (l1 : Loop p1) (l2 : Loop p2) (hcom : (trace p1 ∩ trace p2).Finite) (rs : List (Pline ℝ))
    (hrs : ∀ r ∈ rs, Loop r ∧ trace r ⊆ trace p1 ∪ trace p2) {z : ℝ × ℝ} (hz1 : z ∉ trace p1) (hz2 : z ∉ trace p2) :
    ∃ z' : ℝ × ℝ, z' ∉ trace p1 ∧ z' ∉ trace p2 ∧ GoodHeight p1 p2 z'.2 ∧ ∀ r ∈ p1 :: p2 :: rs, wn r z' = wn r z := by
  have hall : ∀ r ∈ p1 :: p2 :: rs, ∃ δ > 0, ∀ w ∈ Metric.ball z δ, w ∉ trace r ∧ wn r w = wn r z := by
    intro r hr
    rcases List.mem_cons.mp hr with rfl | hr
    · exact wn_locally l1 hz1
    rcases List.mem_cons.mp hr with rfl | hr
    · exact wn_locally l2 hz2
    exact wn_locally (hrs r hr).1 (fun h => by rcases (hrs r hr).2 h with h | h; exacts [hz1 h, hz2 h])
  obtain ⟨δ, hδ, h⟩ := list_radius (fun r δ => ∀ w ∈ Metric.ball z δ, w ∉ trace r ∧ wn r w = wn r z)
    (fun r δ δ' hle hd w hw => hd w (Metric.ball_subset_ball hle hw)) (p1 :: p2 :: rs) hall
  have hinf : (Set.Ioo z.2 (z.2 + δ)).Infinite := Set.Ioo_infinite (by linarith)
  obtain ⟨c, hc, hgood⟩ := hinf.exists_notMem_finite (bad_heights_finite (p1 := p1) (p2 := p2) hcom)
  have hgood' : GoodHeight p1 p2 c := by
    by_contra hn
    exact hgood hn
  have hball : ((z.1, c) : ℝ × ℝ) ∈ Metric.ball z δ := by
    rw [Metric.mem_ball, Prod.dist_eq]
    simp only [dist_self]
    rw [max_lt_iff]
    refine ⟨hδ, ?_⟩
    rw [Real.dist_eq, abs_lt]
    constructor <;> linarith [hc.1, hc.2]
  exact ⟨(z.1, c), (h p1 (by simp) _ hball).1, (h p2 (by simp) _ hball).1, hgood', fun r hr => (h r hr _ hball).2⟩

/-- 1 for the pieces inside, -1 for the pieces outside -/
def side (k : Bool) : ℤ := if k then 1 else -1

/-- the total winding number after a pass that keeps the pieces on the sides `k1` and `k2` -/
def passTotal (k1 k2 : Bool) (σ1 σ2 w1 w2 : ℤ) : ℤ := side k2 * (σ1 * (w1 * w2) - (if k1 then 0 else σ1 * σ2 * w1) - if k2 then 0 else w2)

section
variable {p1 p2 : Pline ℝ} {eps : ℝ} {E : List (Cut × Cut)}

/-- One pass of an operation. -/
theorem pass_region {env : Env ℝ} (henv : env.Lawful) (he : 0 < eps) (f1 : FullLoop p1 eps) (f2 : FullLoop p2 eps)
    (hc : CleanCrossing p1 p2 eps E) (hne : E ≠ []) {b : BoolProc ℝ} (hov : b.overlappingSlices = [])
    (hb : (b.intersects.map fun i => (i.startIndex1, i.startIndex2, i.point)) = E.map fun c => (c.1.1, c.2.1, curveAt p1 c.1.1 c.1.2))
    (hs1 : turnOf b.orientation1 ≠ 0) (hs2 : turnOf b.orientation2 ≠ 0)
    (w1 : ∀ z, z ∉ trace p1 → wn p1 z = 0 ∨ wn p1 z = turnOf b.orientation1)
    (w2 : ∀ z, z ∉ trace p2 → wn p2 z = 0 ∨ wn p2 z = turnOf b.orientation2)
    (k1 k2 : Bool) {pred1 pred2 : V2 ℝ → Bool} (hp1 : ∀ pt, pred1 pt = (pointIn p2 pt == k1)) (hp2 : ∀ pt, pred2 pt = (pointIn p1 pt == k2)) :
    ∃ rs, (if k1 != k2 then runNotXor env p1 p2 b pred1 pred2 eps else runOrAnd env p1 p2 b pred1 pred2 eps) = .ok rs ∧
      (∀ r ∈ rs, Loop r.pline ∧ trace r.pline ⊆ trace p1 ∪ trace p2) ∧
      ∀ z, z ∉ trace p1 → z ∉ trace p2 →
        (rs.map fun r => wn r.pline z).sum = passTotal k1 k2 (turnOf b.orientation1) (turnOf b.orientation2) (wn p1 z) (wn p2 z) := by
  have l1 := f1.loop he
  have l2 := f2.loop he
  have c1 := hc.common1 l2
  have c2 := hc.common2 l1
  have hcom := common_finite l1 c1
  have hE1 : (b.intersects.map fun i => (if false then i.startIndex2 else i.startIndex1, i.point)) = (E.map Prod.fst).map fun c => (c.1, curveAt p1 c.1 c.2) := by
    have := congrArg (List.map fun x : Nat × Nat × V2 ℝ => (x.1, x.2.2)) hb
    rw [List.map_map, List.map_map] at this
    rw [List.map_map]
    exact this
  have hE2 : (b.intersects.map fun i => (if true then i.startIndex2 else i.startIndex1, i.point)) = (E.map Prod.snd).map fun c => (c.1, curveAt p2 c.1 c.2) := by
    have := congrArg (List.map fun x : Nat × Nat × V2 ℝ => (x.2.1, x.2.2)) hb
    rw [List.map_map, List.map_map] at this
    rw [List.map_map]
    refine Eq.trans this ?_
    apply List.map_congr_left
    intro c hcE
    show (c.2.1, curveAt p1 c.1.1 c.1.2) = (c.2.1, curveAt p2 c.2.1 c.2.2)
    rw [hc.on c hcE]
  obtain ⟨PS1, P1, S1⟩ := cut_pieces (us := false) henv he f1 l2 hc.first c1 (by simpa using hne) hov hE1
  obtain ⟨PS2, P2, S2⟩ := cut_pieces (us := true) henv he f2 l1 hc.second c2 (by simpa using hne) hov hE2
  have hpts : ((E.map Prod.fst).map fun c => curveAt p1 c.1 c.2) = (E.map Prod.snd).map fun c => curveAt p2 c.1 c.2 := by
    rw [List.map_map, List.map_map]
    apply List.map_congr_left
    intro c hcE
    exact hc.on c hcE
  obtain ⟨inv, hinv⟩ : ∃ inv, inv = ((k1 != k2) != b.opposingDirections) := ⟨_, rfl⟩
  have hsgn : sgn inv = side k1 * side k2 * (turnOf b.orientation1 * turnOf b.orientation2) := by
    rw [hinv]
    unfold BoolProc.opposingDirections
    revert hs1 hs2
    cases b.orientation1 <;> cases b.orientation2 <;> cases k1 <;> cases k2 <;> simp [turnOf, sgn, side]
  have sq1 : turnOf b.orientation1 * turnOf b.orientation1 = 1 := by
    revert hs1; cases b.orientation1 <;> simp [turnOf]
  have sq2 : turnOf b.orientation2 * turnOf b.orientation2 = 1 := by
    revert hs2; cases b.orientation2 <;> simp [turnOf]
  have sk1 : side k1 * side k1 = 1 := by cases k1 <;> simp [side]
  have sk2 : side k2 * side k2 = 1 := by cases k2 <;> simp [side]
  generalize hσ1 : turnOf b.orientation1 = σ1 at *
  generalize hσ2 : turnOf b.orientation2 = σ2 at *
  have hkeep1 : ∀ X, pnet X ((PS1.filter fun x => pred1 x.m).map (·.vs)) = side k1 * pnet X (ins p2 PS1) := by
    intro X
    have h := in_out_net P1 X
    simp only [hp1]
    cases k1 with
    | true =>
      have : (PS1.filter fun x => pointIn p2 x.m == true) = PS1.filter fun x => pointIn p2 x.m := by simp
      rw [this]; simp [side, ins]
    | false =>
      have : (PS1.filter fun x => pointIn p2 x.m == false) = PS1.filter fun x => !pointIn p2 x.m := by simp
      rw [this]
      unfold outs at h
      simp [side]; linarith
  have hkeep2 : ∀ X, pnet X ((PS2.filter fun x => pred2 x.m).map (·.vs)) = side k2 * pnet X (ins p1 PS2) := by
    intro X
    have h := in_out_net P2 X
    simp only [hp2]
    cases k2 with
    | true =>
      have : (PS2.filter fun x => pointIn p1 x.m == true) = PS2.filter fun x => pointIn p1 x.m := by simp
      rw [this]; simp [side, ins]
    | false =>
      have : (PS2.filter fun x => pointIn p1 x.m == false) = PS2.filter fun x => !pointIn p1 x.m := by simp
      rw [this]
      unfold outs at h
      simp [side]; linarith
  have hw1 : ∀ z, z ∉ trace p1 → pwind z ((PS1.filter fun x => pred1 x.m).map (·.vs)) = side k1 * (pwind z (ins p2 PS1) - if k1 then 0 else wn p1 z) := by
    intro z hz
    have h := in_out_wind P1 hz
    simp only [hp1]
    cases k1 with
    | true =>
      have : (PS1.filter fun x => pointIn p2 x.m == true) = PS1.filter fun x => pointIn p2 x.m := by simp
      rw [this]; simp [side, ins]
    | false =>
      have : (PS1.filter fun x => pointIn p2 x.m == false) = PS1.filter fun x => !pointIn p2 x.m := by simp
      rw [this]
      unfold outs at h
      simp [side]; linarith
  have hw2 : ∀ z, z ∉ trace p2 → pwind z ((PS2.filter fun x => pred2 x.m).map (·.vs)) = side k2 * (pwind z (ins p1 PS2) - if k2 then 0 else wn p2 z) := by
    intro z hz
    have h := in_out_wind P2 hz
    simp only [hp2]
    cases k2 with
    | true =>
      have : (PS2.filter fun x => pointIn p1 x.m == true) = PS2.filter fun x => pointIn p1 x.m := by simp
      rw [this]; simp [side, ins]
    | false =>
      have : (PS2.filter fun x => pointIn p1 x.m == false) = PS2.filter fun x => !pointIn p1 x.m := by simp
      rw [this]
      unfold outs at h
      simp [side]; linarith
  have hprune : pruneSlices env p1 p2 b pred1 pred2 (k1 != k2) eps = .ok
      ⟨(PS1.filter fun x => pred1 x.m).map (fun x => if inv then x.s.setInverted else x.s) ++ (PS2.filter fun x => pred2 x.m).map (·.s),
        (PS1.filter fun x => pred1 x.m).length, (PS1.filter fun x => pred1 x.m).length + (PS2.filter fun x => pred2 x.m).length,
        (PS1.filter fun x => pred1 x.m).length + (PS2.filter fun x => pred2 x.m).length⟩ := by
    unfold pruneSlices
    rw [S1 pred1, S2 pred2, hov, ← hinv]
    simp only [bind, Except.bind, List.map_nil, List.append_nil, List.length_nil, Nat.add_zero, List.length_map, Except.ok.injEq]
    congr 1
    cases inv <;> simp
  have hrun := fun (sel : Selector) (hsel : Picks sel ((PS1.filter fun x => pred1 x.m).length + (PS2.filter fun x => pred2 x.m).length)) =>
    run_pieces henv he P1 P2 hpts hc.first.apart inv (fun x => pred1 x.m) (fun x => pred2 x.m) (fun X => by
      have h := cross_net he l1 l2 P1 P2 hcom hs1 hs2 w1 w2 X
      rw [hkeep1, hkeep2, hsgn]
      linear_combination side k2 * σ1 * sk1 * σ2 * pnet X (ins p2 PS1) + side k2 * σ1 * h - side k2 * pnet X (ins p1 PS2) * sq1) hsel
  have hfin : ∃ sel, Picks sel ((PS1.filter fun x => pred1 x.m).length + (PS2.filter fun x => pred2 x.m).length) ∧
      (if k1 != k2 then runNotXor env p1 p2 b pred1 pred2 eps else runOrAnd env p1 p2 b pred1 pred2 eps) =
        stitchSlices env ((PS1.filter fun x => pred1 x.m).map (fun x => if inv then x.s.setInverted else x.s) ++ (PS2.filter fun x => pred2 x.m).map (·.s))
          p1 p2 sel eps := by
    cases hk : (k1 != k2) with
    | true =>
      rw [hk] at hprune
      refine ⟨_, notXor_picks (PS1.filter fun x => pred1 x.m).length _, ?_⟩
      simp only [if_true]
      unfold runNotXor
      rw [hprune]
      rfl
    | false =>
      rw [hk] at hprune
      refine ⟨_, orAnd_picks (PS1.filter fun x => pred1 x.m).length _, ?_⟩
      simp only [Bool.false_eq_true, if_false]
      unfold runOrAnd
      rw [hprune]
      rfl
  obtain ⟨sel, hsel, hrun2⟩ := hfin
  obtain ⟨rs, e, h1, h2⟩ := hrun sel hsel
  refine ⟨rs, by rw [hrun2, e], h1, ?_⟩
  intro z hz1 hz2
  obtain ⟨z', g1, g2, g3, g4⟩ := move_point l1 l2 hcom (rs.map (·.pline)) (by
    intro r hr
    obtain ⟨x, hx, rfl⟩ := List.mem_map.mp hr
    exact h1 x hx) hz1 hz2
  have e1 : (rs.map fun r => wn r.pline z).sum = (rs.map fun r => wn r.pline z').sum := by
    congr 1
    apply List.map_congr_left
    intro r hr
    exact (g4 r.pline (by simp only [List.mem_cons, List.mem_map]; exact Or.inr (Or.inr ⟨r, hr, rfl⟩))).symm
  rw [e1, ← g4 p1 (by simp), ← g4 p2 (by simp), h2 z' g1 g2, hw1 z' g1, hw2 z' g2, hsgn]
  have hx := cross_wind he l1 l2 P1 P2 hs1 hs2 w1 w2 g3 g1 g2
  unfold passTotal
  generalize pwind z' (ins p2 PS1) = A at *
  generalize pwind z' (ins p1 PS2) = B at *
  generalize hX : (if k1 then 0 else wn p1 z') = x at *
  generalize hY : (if k2 then 0 else wn p2 z') = y at *
  have hX' : (if k1 then 0 else σ1 * σ2 * wn p1 z') = σ1 * σ2 * x := by rw [← hX]; cases k1 <;> simp
  rw [hX']
  linear_combination side k2 * σ1 * σ2 * (A - x) * sk1 + side k2 * σ1 * hx - side k2 * B * sq1

end

/-- The values of the total for the operations. -/
theorem total_values {σ1 σ2 w1 w2 : ℤ} (s1 : σ1 = 1 ∨ σ1 = -1) (s2 : σ2 = 1 ∨ σ2 = -1) (h1 : w1 = 0 ∨ w1 = σ1) (h2 : w2 = 0 ∨ w2 = σ2)
    (op : BooleanOp) {t : ℤ} (ht : t = (op.passes.map fun k => passTotal k.1 k.2 σ1 σ2 w1 w2).sum) :
    (t = 0 ∨ t = 1 ∨ t = -1) ∧ (t ≠ 0 ↔ op.holds (w1 ≠ 0) (w2 ≠ 0)) := by
  subst ht
  rcases s1 with rfl | rfl <;> rcases s2 with rfl | rfl <;> rcases h1 with rfl | rfl <;> rcases h2 with rfl | rfl <;> cases op <;>
    simp [BooleanOp.passes, BooleanOp.holds, passTotal, side]

theorem turn_cases {o : Orientation} (h : turnOf o ≠ 0) : turnOf o = 1 ∨ turnOf o = -1 := by
  revert h; cases o <;> simp [turnOf]

theorem turn_closed {p : Pline ℝ} (h : p.closed = true) : turnOf p.orientation ≠ 0 := by
  unfold Pline.orientation
  rw [h]
  simp only [Bool.not_true, Bool.false_eq_true, if_false]
  split <;> simp [turnOf]

/-- The polylines of all passes of an operation. -/
theorem boolean_passes {env : Env ℝ} (henv : env.Lawful) {p1 p2 : Pline ℝ} {eps : ℝ} (h1 : Loop p1) (h2 : Loop p2) {o : Option (Index ℝ)}
    {found : IntrCollection ℝ} (hfi : findIntersects env p1 p2 (some (o.getD (p1.approxIndex env))) eps = .ok found)
    (hov : found.overlapping = []) (hne : found.basic ≠ []) (op : BooleanOp) (P : Bool × Bool → List (BooleanResultPline ℝ) → Prop)
    (hP : ∀ k1 k2 pred1 pred2, (∀ pt, pred1 pt = (pointIn p2 pt == k1)) → (∀ pt, pred2 pt = (pointIn p1 pt == k2)) →
      ∃ rs, (if k1 != k2 then runNotXor env p1 p2 ⟨[], found.basic, p1.orientation, p2.orientation⟩ pred1 pred2 eps
        else runOrAnd env p1 p2 ⟨[], found.basic, p1.orientation, p2.orientation⟩ pred1 pred2 eps) = .ok rs ∧ P (k1, k2) rs) :
    ∃ r rss, polylineBoolean env p1 p2 op o eps = .ok r ∧ r.info = .intersected ∧ List.Forall₂ P op.passes rss ∧ (r.posPlines ++ r.negPlines).Perm rss.flatten ∧
      (op = .or → (∀ x ∈ r.posPlines, x.pline.orientation = p2.orientation) ∧ ∀ x ∈ r.negPlines, x.pline.orientation ≠ p2.orientation) ∧
      (op ≠ .or → r.negPlines = []) := by
  have hsj : sortAndJoin env found.overlapping p1 p2 eps = .ok [] := by
    unfold sortAndJoin
    have : env.sortBy (overlapCmp p2) found.overlapping = [] := by
      have hp := henv.sort_perm (overlapCmp p2) found.overlapping
      rw [hov] at hp ⊢
      exact hp.eq_nil
    rw [this]
  have hproc : processForBoolean env p1 p2 (o.getD (p1.approxIndex env)) eps = .ok ⟨[], found.basic, p1.orientation, p2.orientation⟩ := by
    unfold processForBoolean
    rw [hfi]
    simp only [bind, Except.bind]
    rw [hsj]
  have hg1 : (p1.vertexCount < 2 || !p1.closed || p2.vertexCount < 2 || !p2.closed) = false := by
    have := h1.two
    have := h2.two
    simp [Pline.vertexCount, h1.closed, h2.closed]
    omega
  obtain ⟨a0, ha⟩ : ∃ a, p1.at 0 = .ok a := ⟨_, at_vtx (by have := h1.two; omega)⟩
  obtain ⟨b0, hb⟩ : ∃ a, p2.at 0 = .ok a := ⟨_, at_vtx (by have := h2.two; omega)⟩
  have hco : (⟨[], found.basic, p1.orientation, p2.orientation⟩ : BoolProc ℝ).completelyOverlapping = false := rfl
  have hany : (⟨[], found.basic, p1.orientation, p2.orientation⟩ : BoolProc ℝ).anyIntersects = true := by
    simp [BoolProc.anyIntersects, hne]
  have neg : ∀ x : Bool, (!x) = (x == false) := by decide
  have pos : ∀ x : Bool, x = (x == true) := by decide
  unfold polylineBoolean
  rw [hg1]
  simp only [Bool.false_eq_true, if_false, bind, Except.bind]
  rw [hproc]
  simp only []
  rw [ha]
  simp only []
  rw [hb]
  simp only [hco, hany, Bool.not_true, Bool.false_eq_true, if_false]
  cases op with
  | or =>
    obtain ⟨rs, e, hp⟩ := hP false false (fun pt => !pointIn p2 pt) (fun pt => !pointIn p1 pt) (fun _ => neg _) (fun _ => neg _)
    simp only [bne_self_eq_false, Bool.false_eq_true, if_false] at e
    rw [e]
    refine ⟨_, [rs], rfl, rfl, .cons hp .nil, ?_, fun _ => ⟨fun x hx => ?_, fun x hx => ?_⟩, fun h => absurd rfl h⟩
    · simp only [List.flatten_cons, List.flatten_nil, List.append_nil]
      exact List.filter_append_perm (fun r : BooleanResultPline ℝ => r.pline.orientation == p2.orientation) rs
    · simpa using (List.mem_filter.mp hx).2
    · simpa using (List.mem_filter.mp hx).2
  | and =>
    obtain ⟨rs, e, hp⟩ := hP true true (pointIn p2) (pointIn p1) (fun _ => pos _) (fun _ => pos _)
    simp only [bne_self_eq_false, Bool.false_eq_true, if_false] at e
    rw [e]
    refine ⟨_, [rs], rfl, rfl, .cons hp .nil, ?_, fun h => (by cases h), fun _ => rfl⟩
    simp
  | not =>
    obtain ⟨rs, e, hp⟩ := hP false true (fun pt => !pointIn p2 pt) (pointIn p1) (fun _ => neg _) (fun _ => pos _)
    simp only [show (false != true) = true from rfl, if_true] at e
    rw [e]
    refine ⟨_, [rs], rfl, rfl, .cons hp .nil, ?_, fun h => (by cases h), fun _ => rfl⟩
    simp
  | xor =>
    obtain ⟨rs, e, hp⟩ := hP false true (fun pt => !pointIn p2 pt) (pointIn p1) (fun _ => neg _) (fun _ => pos _)
    obtain ⟨rs', e', hp'⟩ := hP true false (pointIn p2) (fun pt => !pointIn p1 pt) (fun _ => pos _) (fun _ => neg _)
    simp only [show (false != true) = true from rfl, if_true] at e
    simp only [show (true != false) = true from rfl, if_true] at e'
    rw [e]
    simp only []
    rw [e']
    refine ⟨_, [rs, rs'], rfl, rfl, .cons hp (.cons hp' .nil), ?_, fun h => (by cases h), fun _ => rfl⟩
    simp

theorem forall2_right {α β : Type} {P : α → β → Prop} {l : List α} {m : List β} (h : List.Forall₂ P l m) {i : Nat} {b : β} (hb : m[i]? = some b) :
    ∃ a, P a b := by
  induction h generalizing i with
  | nil => simp at hb
  | cons a _ ih =>
    cases i with
    | zero => simp only [List.getElem?_cons_zero, Option.some.injEq] at hb; subst hb; exact ⟨_, a⟩
    | succ i => exact ih (by simpa using hb)

theorem passes_sum {P : Bool × Bool → List (BooleanResultPline ℝ) → Prop} {f : BooleanResultPline ℝ → ℤ} {v : Bool × Bool → ℤ}
    (h : ∀ k rs, P k rs → (rs.map f).sum = v k) {ks : List (Bool × Bool)} {rss : List (List (BooleanResultPline ℝ))} (hF : List.Forall₂ P ks rss) :
    (rss.flatten.map f).sum = (ks.map v).sum := by
  induction hF with
  | nil => rfl
  | cons a _ ih => simp only [List.flatten_cons, List.map_append, List.sum_append, List.map_cons, List.sum_cons, ih, h _ _ a]

theorem region_core (env : Env ℝ) (henv : env.Lawful) (p1 p2 : Pline ℝ) (eps : ℝ) (he : 0 < eps) (f1 : FullLoop p1 eps) (f2 : FullLoop p2 eps)
    (w1 : WindsOnce p1) (w2 : WindsOnce p2) (E : List (Cut × Cut)) (hc : CleanCrossing p1 p2 eps E) (hne : E ≠ []) (aabbIndex1 : Option (Index ℝ))
    (found : IntrCollection ℝ) (hfi : findIntersects env p1 p2 (some (aabbIndex1.getD (p1.approxIndex env))) eps = .ok found)
    (hfound : FindsCrossing p1 E found) (op : BooleanOp) :
    ∃ r, polylineBoolean env p1 p2 op aabbIndex1 eps = .ok r ∧ r.info = .intersected ∧
      (∀ x ∈ r.posPlines ++ r.negPlines, Loop x.pline ∧ ∀ z, OnPline x.pline z → OnPline p1 z ∨ OnPline p2 z) ∧
      (∀ z, ¬ OnPline p1 z → ¬ OnPline p2 z → ((r.posPlines ++ r.negPlines).map fun x => x.pline.windingNumber z).sum =
        (op.passes.map fun k => passTotal k.1 k.2 (turnOf p1.orientation) (turnOf p2.orientation) (p1.windingNumber z) (p2.windingNumber z)).sum) ∧
      (op = .or → (∀ x ∈ r.posPlines, x.pline.orientation = p2.orientation) ∧ ∀ x ∈ r.negPlines, x.pline.orientation ≠ p2.orientation) ∧
      (op ≠ .or → r.negPlines = []) := by
  have l1 := f1.loop he
  have l2 := f2.loop he
  have hbne : found.basic ≠ [] := by
    intro h0
    have hb := hfound.basic
    rw [h0] at hb
    exact hne (List.map_eq_nil_iff.mp hb.symm)
  obtain ⟨r, rss, hr, hinfo, hF, hperm, hor⟩ := boolean_passes henv l1 l2 hfi hfound.overlapping hbne op
    (fun k rs => (∀ r ∈ rs, Loop r.pline ∧ trace r.pline ⊆ trace p1 ∪ trace p2) ∧
      ∀ z, z ∉ trace p1 → z ∉ trace p2 →
        (rs.map fun r => wn r.pline z).sum = passTotal k.1 k.2 (turnOf p1.orientation) (turnOf p2.orientation) (wn p1 z) (wn p2 z))
    (fun k1 k2 pred1 pred2 hp1 hp2 => pass_region (b := ⟨[], found.basic, p1.orientation, p2.orientation⟩) henv he f1 f2 hc hne rfl hfound.basic (turn_closed l1.closed) (turn_closed l2.closed)
      (fun z hz => w1 _ hz) (fun z hz => w2 _ hz) k1 k2 hp1 hp2)
  refine ⟨r, hr, hinfo, ?_, ?_, hor⟩
  · intro x hx
    obtain ⟨rs, hrs, hxr⟩ := List.mem_flatten.mp (hperm.mem_iff.mp hx)
    obtain ⟨i, hi⟩ := List.mem_iff_getElem?.mp hrs
    obtain ⟨k, hk⟩ := forall2_right hF hi
    obtain ⟨a, b⟩ := hk.1 x hxr
    exact ⟨a, fun z hz => b (show ((z.x, z.y) : ℝ × ℝ) ∈ trace x.pline from hz)⟩
  · intro z hz1 hz2
    have hz1' : ((z.x, z.y) : ℝ × ℝ) ∉ trace p1 := hz1
    have hz2' : ((z.x, z.y) : ℝ × ℝ) ∉ trace p2 := hz2
    have hsum := passes_sum (f := fun r => wn r.pline (z.x, z.y))
      (v := fun k => passTotal k.1 k.2 (turnOf p1.orientation) (turnOf p2.orientation) (wn p1 (z.x, z.y)) (wn p2 (z.x, z.y)))
      (fun k rs hk => hk.2 (z.x, z.y) hz1' hz2') hF
    rw [← (hperm.map (fun r => wn r.pline (z.x, z.y))).sum_eq] at hsum
    exact hsum

theorem region_found (env : Env ℝ) (henv : env.Lawful) (p1 p2 : Pline ℝ) (eps : ℝ) (he : 0 < eps) (f1 : FullLoop p1 eps) (f2 : FullLoop p2 eps)
    (w1 : WindsOnce p1) (w2 : WindsOnce p2) (E : List (Cut × Cut)) (hc : CleanCrossing p1 p2 eps E) (hne : E ≠ []) (aabbIndex1 : Option (Index ℝ))
    (found : IntrCollection ℝ) (hfi : findIntersects env p1 p2 (some (aabbIndex1.getD (p1.approxIndex env))) eps = .ok found)
    (hfound : FindsCrossing p1 E found) (op : BooleanOp) :
    ∃ r, polylineBoolean env p1 p2 op aabbIndex1 eps = .ok r ∧ r.info = .intersected ∧
      (∀ x ∈ r.posPlines ++ r.negPlines, x.pline.closed = true ∧ 2 ≤ x.pline.verts.length ∧ ∀ z, OnPline x.pline z → OnPline p1 z ∨ OnPline p2 z) ∧
      ∀ z, ¬ OnPline p1 z → ¬ OnPline p2 z →
        let total := ((r.posPlines ++ r.negPlines).map fun x => x.pline.windingNumber z).sum
        (total = 0 ∨ total = 1 ∨ total = -1) ∧ (total ≠ 0 ↔ op.holds (p1.windingNumber z ≠ 0) (p2.windingNumber z ≠ 0)) := by
  obtain ⟨r, hr, hinfo, hl, hsum, -⟩ := region_core env henv p1 p2 eps he f1 f2 w1 w2 E hc hne aabbIndex1 found hfi hfound op
  refine ⟨r, hr, hinfo, fun x hx => ⟨(hl x hx).1.closed, (hl x hx).1.two, (hl x hx).2⟩, fun z hz1 hz2 => ?_⟩
  exact total_values (turn_cases (turn_closed f1.closed)) (turn_cases (turn_closed f2.closed)) (w1 z hz1) (w2 z hz2) op (hsum z hz1 hz2)

/-- **C59** Two closed polylines of lines and arcs that wind at most once around every point and cross each other
cleanly (`CleanCrossing`), where the common points of all pairs of segments are found (`FindsPairs`).  Every boolean
operation succeeds.  Its result polylines are closed and consist of points of the two polylines.  At every point on
neither of them the winding numbers of the result polylines add up to 1 or -1 if the operation holds of being inside
the first and being inside the second, and to 0 if not: drawn with the non-zero rule or the even-odd rule, the result
is the operation on the two regions.  Any index that serves the first polyline can be given. -/
theorem C59_region (env : Env ℝ) (henv : env.Lawful) (p1 p2 : Pline ℝ) (eps : ℝ) (he : 0 < eps) (f1 : FullLoop p1 eps) (f2 : FullLoop p2 eps)
    (w1 : WindsOnce p1) (w2 : WindsOnce p2) (E : List (Cut × Cut)) (hc : CleanCrossing p1 p2 eps E) (hne : E ≠ [])
    (hp : FindsPairs p1 p2 eps) (aabbIndex1 : Option (Index ℝ)) (hidx : (aabbIndex1.getD (p1.approxIndex env)).Serves p1) (op : BooleanOp) :
    ∃ r, polylineBoolean env p1 p2 op aabbIndex1 eps = .ok r ∧ r.info = .intersected ∧
      (∀ x ∈ r.posPlines ++ r.negPlines, x.pline.closed = true ∧ 2 ≤ x.pline.verts.length ∧ ∀ z, OnPline x.pline z → OnPline p1 z ∨ OnPline p2 z) ∧
      ∀ z, ¬ OnPline p1 z → ¬ OnPline p2 z →
        let total := ((r.posPlines ++ r.negPlines).map fun x => x.pline.windingNumber z).sum
        (total = 0 ∨ total = 1 ∨ total = -1) ∧ (total ≠ 0 ↔ op.holds (p1.windingNumber z ≠ 0) (p2.windingNumber z ≠ 0)) := by
  obtain ⟨found, E', hfi, hE, hfound⟩ := finds_crossing env he f1 f2 hc hp (o := some (aabbIndex1.getD (p1.approxIndex env))) hidx
  exact region_found env henv p1 p2 eps he f1 f2 w1 w2 E' (hc.perm hE) (fun h => hne (by rw [h] at hE; exact hE.symm.eq_nil)) aabbIndex1
    found hfi hfound op

/-- **C59** The same in terms of the geometry only: every two segments, lines or arcs, whose boxes meet cross clearly or
are clear of each other (`ClearPair`). -/
theorem C59_clear (env : Env ℝ) (henv : env.Lawful) (p1 p2 : Pline ℝ) (eps : ℝ) (he : 0 < eps) (f1 : FullLoop p1 eps) (f2 : FullLoop p2 eps)
    (w1 : WindsOnce p1) (w2 : WindsOnce p2) (E : List (Cut × Cut)) (hc : CleanCrossing p1 p2 eps E) (hne : E ≠ [])
    (hp : ∀ a ∈ p1.segs, ∀ b ∈ p2.segs, BoxesMeet a b eps → ClearPair a b eps) (op : BooleanOp) :
    ∃ r, polylineBoolean env p1 p2 op none eps = .ok r ∧ r.info = .intersected ∧
      (∀ x ∈ r.posPlines ++ r.negPlines, x.pline.closed = true ∧ 2 ≤ x.pline.verts.length ∧ ∀ z, OnPline x.pline z → OnPline p1 z ∨ OnPline p2 z) ∧
      ∀ z, ¬ OnPline p1 z → ¬ OnPline p2 z →
        let total := ((r.posPlines ++ r.negPlines).map fun x => x.pline.windingNumber z).sum
        (total = 0 ∨ total = 1 ∨ total = -1) ∧ (total ≠ 0 ↔ op.holds (p1.windingNumber z ≠ 0) (p2.windingNumber z ≠ 0)) :=
  C59_region env henv p1 p2 eps he f1 f2 w1 w2 E hc hne
    (fun a ha b hb hm => clear_pair he (hp a ha b hb hm)) none (C37_own_index env henv p1) op

end Cavc
