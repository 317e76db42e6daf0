import Verif.Lemmas.AnyClosed
import Verif.Lemmas.OffsetRegion
import Verif.Lemmas.RawFlow
import Verif.Lemmas.SidedArcs

/-! # The region enclosed by the results of the parallel offset of closed polylines of lines and arcs -/

set_option linter.unusedVariables false
set_option linter.unusedSectionVars false

namespace Cavc
open RealScalar Pline Filter Topology

/-- The points of the raw offset that keep the distance and are no crossings are passed by just one segment of the results, in the direction of the raw
offset. -/
def PassedOn (p R : Pline ℝ) (r : ℝ) (E : List (Cut × Cut)) (rs : List (Pline ℝ)) : Prop :=
  ∀ j t, j < R.verts.length → 0 < t → t < 1 → (j, t) ∉ bothCuts E → Keeps p r (curveAt R j t) →
    ∃ L1 e L2, (rs.flatMap fun r => r.segs.map strip).Perm (L1 ++ e :: L2) ∧
      (∀ e' ∈ L1 ++ L2, ((curveAt R j t).x, (curveAt R j t).y) ∉ segTrace e') ∧
      ∃ lo hi, lo < t ∧ t < hi ∧ ∀ s, segCurve e.1 e.2 s = curveAt R j (lo + (hi - lo) * s)

theorem once_filter_any {R : Pline ℝ} {j : Nat} {t : ℝ} {L : List (Cut × Cut)} (h : Once R j t L) (P : Cut × Cut → Bool) : Once R j t (L.filter P) :=
  ⟨h.apart.filter P, fun x hx => h.own x (List.mem_filter.mp hx).1, fun x hx => h.inner x (List.mem_filter.mp hx).1⟩

section
variable {p R : Pline ℝ} {d eps gap tol : ℝ} {E : List (Cut × Cut)}

/-- A point of the raw offset that keeps the distance and is no crossing is passed by just one segment of the results, in the direction of the raw
offset. -/
theorem result_pass_any {joinEps : ℝ} (hp : FullLoop p eps) (he : 0 < eps) (ht : 0 < tol) (hD : tol ≤ |d|) (hf : FullLoop R eps) (hE : SelfCrossing R eps gap E)
    (hF : FindsSelf R eps) (hC : ChangesAtCrossings p R |d| E) (hT : ClearTests p R d eps tol E) (hW : ReadableTests p R eps E) (hg : eps ≤ gap) (hj : 2 * joinEps ≤ gap) (hj0 : 0 ≤ joinEps)
    {es : List (Nat × V2 ℝ)} {ss : List (ViewData ℝ)} {rs : List (Pline ℝ)} (hes : CutsSingle R eps es)
    (hss : OffsetSlices p R d eps tol es ss) (hrs : OffsetJoined R ss p.closed eps joinEps rs) : PassedOn p R |d| E rs := by
  intro j t hjn t0 t1 hcut hk
  classical
  have hn : 0 < R.verts.length := by have := hE.three; omega
  obtain ⟨-, hB⟩ := result_points_any hp he ht hD hf hE hF hC hT hW hg hj hj0 hes hss hrs
  obtain ⟨r, hr, s, hsr, hon⟩ := hB j t hjn t0.le t1.le hcut hk
  have honly : ∀ i u, i < R.verts.length → 0 ≤ u → u ≤ 1 → curveAt R i u = curveAt R j t → i = j ∧ u = t := by
    intro i u hi u0 u1 h
    rcases lt_trichotomy i j with hij | rfl | hij
    · exfalso
      rcases hE.all i u j t hij hjn u0 u1 t0.le t1.le h with ⟨-, -, h⟩ | ⟨-, -, -, h⟩ | h
      · linarith
      · linarith
      · exact hcut (by unfold bothCuts; exact List.mem_append_right _ (List.mem_map.mpr ⟨_, h, rfl⟩))
    · exact ⟨rfl, curve_inj he hf u0 u1 t0.le t1.le h⟩
    · exfalso
      rcases hE.all j t i u hij hi t0.le t1.le u0 u1 h.symm with ⟨-, h, -⟩ | ⟨-, -, h, -⟩ | h
      · linarith
      · linarith
      · exact hcut (by unfold bothCuts; exact List.mem_append_left _ (List.mem_map.mpr ⟨_, h, rfl⟩))
  have main : ∀ L : List (Cut × Cut), List.Forall₂ (fun s x => ∃ vs, GoodSlice R eps s x vs) ss L → (∀ x ∈ L, x.1.1 ≤ x.2.1) →
      (∀ x ∈ L, ∀ y ∈ L, curveAt R x.2.1 x.2.2 = curveAt R y.1.1 y.1.2 ∨ FarApart gap (curveAt R x.2.1 x.2.2) (curveAt R y.1.1 y.1.2)) →
      Once R j t L → (∀ x ∈ L, ∀ j ≤ x.2.1 - x.1.1, 0 ≤ loOf x.1 j ∧ loOf x.1 j < hiOf x.1 x.2 j ∧ hiOf x.1 x.2 j ≤ 1) →
      ∃ L1 e L2, (rs.flatMap fun r => r.segs.map strip).Perm (L1 ++ e :: L2) ∧
      (∀ e' ∈ L1 ++ L2, ((curveAt R j t).x, (curveAt R j t).y) ∉ segTrace e') ∧
      ∃ lo hi, lo < t ∧ t < hi ∧ ∀ s, segCurve e.1 e.2 s = curveAt R j (lo + (hi - lo) * s) := by
    intro L hgood hord hends hO hlt
    have hlen := hgood.length_eq
    obtain ⟨V, P, hgW, -⟩ := good_parts he hf hgood hord hends hg hj hj0 hlen
    have hperm := stitch_segs he P hrs
    have hV : ∀ i (hi : i < L.length), Along R eps L[i].1 L[i].2 (V i) := fun i hi => (hgW i (by omega)).along
    have hpw := edges_once hn hV hlt hO honly
    rw [hlen] at hperm
    have hmem : strip s ∈ (List.map (fun i => edges (V i)) (List.range L.length)).flatten := by
      rw [← hperm.mem_iff]
      exact List.mem_flatMap.mpr ⟨r, hr, List.mem_map.mpr ⟨s, hsr, rfl⟩⟩
    obtain ⟨L1, L2, hL, hoff⟩ := split_unique hpw hmem (by rw [strip_trace]; exact hon)
    refine ⟨L1, strip s, L2, by rw [← hL]; exact hperm, hoff, ?_⟩
    obtain ⟨l, hl, hsl⟩ := List.mem_flatten.mp hmem
    obtain ⟨i, hi, rfl⟩ := List.mem_map.mp hl
    have hi := List.mem_range.mp hi
    unfold edges at hsl
    obtain ⟨s', hs', hss'⟩ := List.mem_map.mp hsl
    obtain ⟨m, hm, rfl⟩ := List.getElem_of_mem hs'
    have hpart := (hV i hi).part m (pathSegs (V i))[m].1 (pathSegs (V i))[m].2 (List.getElem?_eq_getElem hm)
    have hcurve : ∀ x, segCurve (strip s).1 (strip s).2 x = curveAt R (L[i].1.1 + m) (loOf L[i].1 m + (hiOf L[i].1 L[i].2 m - loOf L[i].1 m) * x) := fun x => by
      rw [← hss', strip_curve, hpart.along, curveAt_vtx hn]
    obtain ⟨x, x0, x1, hx⟩ := hon
    have hx' : curveAt R ((L[i].1.1 + m) % R.verts.length) (loOf L[i].1 m + (hiOf L[i].1 L[i].2 m - loOf L[i].1 m) * x) = curveAt R j t := by
      rw [curveAt_wrap hn, ← hcurve, strip_curve]; exact hx.symm
    have hml : (pathSegs (V i)).length = (L[i].2.1 - L[i].1.1) + 1 := by rw [pathSegs_length, (hV i hi).count]; rfl
    obtain ⟨l0, l1, l2⟩ := hlt _ (List.getElem_mem hi) m (by omega)
    have hjt := honly _ _ (Nat.mod_lt _ hn) (by nlinarith) (by nlinarith) hx'
    have hin := hO.inner _ (List.getElem_mem hi) m ⟨by omega, hjt.1, by rw [← hjt.2]; nlinarith, by rw [← hjt.2]; nlinarith⟩
    refine ⟨_, _, hin.1, hin.2, fun x => ?_⟩
    rw [hcurve, ← hjt.1, curveAt_wrap hn]
  obtain ⟨pairs, hP, hes1, -⟩ := hes
  have hperm : es.Perm ((bothCuts E).map (cutPt R)) := hes1 ▸ self_cuts he hf hE hF hP
  by_cases hE0 : E = []
  · have hes0 : es = [] := by subst hE0; simpa [bothCuts] using hperm
    obtain ⟨v, hv⟩ : ∃ v, R.verts.head? = some v := ⟨R.verts[0], by rw [List.head?_eq_getElem?, List.getElem?_eq_getElem hn]⟩
    obtain ⟨hkeep, hdr⟩ := hss.whole hes0 v hv
    by_cases hcl : PointClear p d eps tol v.pos
    · obtain ⟨s, hs, rfl⟩ := hkeep hcl
      obtain ⟨vs, hvs⟩ := entire_along he hf hs
      have heq : curveAt R (R.verts.length - 1) 1 = curveAt R 0 0 := by
        rw [curveAt_join hn, Nat.sub_add_cancel (by omega), ← curveAt_wrap hn, Nat.mod_self]
      refine main [((0, 0), (R.verts.length - 1, 1))] (List.Forall₂.cons ⟨vs, hvs⟩ List.Forall₂.nil) (by simp) (by
          intro x hx y hy
          simp only [List.mem_singleton] at hx hy
          subst hx; subst hy
          exact Or.inl heq) (once_whole hn t0 t1) ?_
      intro x hx i hi
      simp only [List.mem_singleton] at hx
      subst hx
      simp [loOf, hiOf]
    · have hs0 := hdr hcl
      subst hs0
      exact main [] List.Forall₂.nil (by simp) (by simp) ⟨List.Pairwise.nil, by simp, by simp⟩ (by simp)
  · have hes0 : es ≠ [] := by
      intro h
      rw [h] at hperm
      have := hperm.length_eq
      simp only [List.length_nil, List.length_map, bothCuts, List.length_append] at this
      exact hE0 (List.length_eq_zero_iff.mp (by omega))
    obtain ⟨cuts, first, last, hcuts, -, -, hkept⟩ := hss.pieces hes0
    obtain ⟨CS, hCS, hCp, hCl⟩ := sorted_cuts he hf hE hperm hcuts
    obtain ⟨f, hfirst⟩ : ∃ f, CS.head? = some f := by
      cases CS with
      | nil =>
        have := hCp.length_eq
        simp only [List.length_nil, bothCuts, List.length_append, List.length_map] at this
        exact absurd (List.length_eq_zero_iff.mp (by omega)) hE0
      | cons a l => exact ⟨a, rfl⟩
    have hS : RunCuts R E CS f := ⟨hCp, hCl, hfirst⟩
    have hrange : ∀ c ∈ CS, c.1 < R.verts.length := fun c hc => hE.range c (hCp.mem_iff.mp hc)
    rw [hp.closed, ← hCS, gaps_listed hn hrange hfirst] at hkept
    have hslices := kept_slices (Q := fun x => PieceFar p R |d| x.1 x.2) _ _ (fun x hx => by
      obtain ⟨a, b⟩ := x
      obtain ⟨s, vs, h1, h2, h3, h4, h5⟩ := piece_slice he hf hE hS hg hx
      obtain ⟨-, ha, -, -⟩ := between_cuts he hf hE hS hx
      refine ⟨s, vs, ?_, ⟨h2, h3, h4, h5⟩, piece_clear_any hp he ht hD hf hE hC hT hW hS hx h2 h3⟩
      unfold listed
      dsimp only
      rw [Nat.mod_eq_of_lt (hE.range a ha)]
      exact h1) hkept
    refine main _ hslices (fun x hx => ?_) (fun x hx y hy => ?_) (once_filter_any (once_pieces he hf hE hS t0 t1 hcut) _) (fun x hx i hi => ?_)
    · obtain ⟨⟨-, -, -, -, ho⟩, -⟩ := between_cuts he hf hE hS (List.mem_filter.mp hx).1
      rcases ho with ho | ho <;> omega
    · obtain ⟨-, -, hb, -⟩ := between_cuts he hf hE hS (List.mem_filter.mp hx).1
      obtain ⟨-, ha, -, -⟩ := between_cuts he hf hE hS (List.mem_filter.mp hy).1
      have := cuts_far hE hb ha
      dsimp only at this
      rwa [curveAt_wrap hn] at this
    · have hst := (piece_run he hf hE hS (List.mem_filter.mp hx).1).each i hi
      exact ⟨hst.zero, hst.lt, hst.one⟩


/-- At a point that is no crossing and keeps the distance, the sum of the winding numbers is larger by one on the left. -/
theorem pass_jump_any {rs : List (Pline ℝ)} {r : ℝ} (hl : ∀ r ∈ rs, Loop r) (hpass : PassedOn p R r E rs) {j : Nat} (hjn : j < R.verts.length) {t : ℝ} (t0 : 0 < t) (t1 : t < 1)
    (hcut : (j, t) ∉ bothCuts E) (hk : Keeps p r (curveAt R j t)) {a b : ℝ} (hab : a ≠ 0 ∨ b ≠ 0) (dx : HasDerivAt (fun s => (curveAt R j s).x) a t)
    (dy : HasDerivAt (fun s => (curveAt R j s).y) b t) :
    ∃ δ > 0, ∀ k, 0 < k → k < δ → allW rs ⟨(curveAt R j t).x - k * b, (curveAt R j t).y + k * a⟩ = allW rs ⟨(curveAt R j t).x + k * b, (curveAt R j t).y - k * a⟩ + 1 := by
  obtain ⟨L1, e, L2, hperm, hoff, lo, hi, hlo, hhi, hcurve⟩ := hpass j t hjn t0 t1 hcut hk
  have hlt : 0 < hi - lo := by linarith
  set s0 := (t - lo) / (hi - lo) with hs0
  have hst : lo + (hi - lo) * s0 = t := by rw [hs0]; field_simp; ring
  have hm : HasDerivAt (fun s => lo + (hi - lo) * s) (hi - lo) s0 := by simpa using ((hasDerivAt_id s0).const_mul (hi - lo)).const_add lo
  have dx' : HasDerivAt (fun s => (segCurve e.1 e.2 s).x) (a * (hi - lo)) s0 := by
    simp only [hcurve]
    exact HasDerivAt.comp (h₂ := fun s => (curveAt R j s).x) s0 (by rw [hst]; exact dx) hm
  have dy' : HasDerivAt (fun s => (segCurve e.1 e.2 s).y) (b * (hi - lo)) s0 := by
    simp only [hcurve]
    exact HasDerivAt.comp (h₂ := fun s => (curveAt R j s).y) s0 (by rw [hst]; exact dy) hm
  have hZ : segCurve e.1 e.2 s0 = curveAt R j t := by rw [hcurve, hst]
  obtain ⟨δ, hδ, hj⟩ := jump (L1 := L1) (L2 := L2) (s := e) (fun x hx => allW_proper hl x (hperm.mem_iff.mpr hx))
    ((hperm.map _).symm.trans ((allW_ends hl).trans (hperm.map _))) (t₀ := s0) (div_pos (by linarith) hlt) ((div_lt_one hlt).mpr (by linarith))
    (hab.imp (fun h => mul_ne_zero h hlt.ne') (fun h => mul_ne_zero h hlt.ne')) dx' dy' (by rw [hZ]; exact hoff)
  refine ⟨δ * (hi - lo), by positivity, fun k k0 k1 => ?_⟩
  have := hj (k / (hi - lo)) (by positivity) (by rwa [div_lt_iff₀ hlt])
  rw [← (hperm.map _).sum_eq, ← (hperm.map _).sum_eq, ← allW_segs hl, ← allW_segs hl, hZ] at this
  have e1 : ∀ y, k / (hi - lo) * (y * (hi - lo)) = k * y := fun y => by field_simp
  rw [e1, e1] at this
  exact this

/-- the nearest point of a polyline -/
theorem nearest_any (hl : Loop p) {Y : V2 ℝ} (hY : ¬ OnPline p Y) : ∃ r > 0, ∃ F, OnPline p F ∧ edist Y F = r ∧ Keeps p r Y := by
  have hcont : Continuous fun z : ℝ × ℝ => edist Y ⟨z.1, z.2⟩ := by unfold edist; fun_prop
  obtain ⟨z, hz, hmin⟩ := (trace_isCompact hl).exists_isMinOn (trace_nonempty hl) hcont.continuousOn
  refine ⟨edist Y ⟨z.1, z.2⟩, ?_, ⟨z.1, z.2⟩, hz, rfl, fun q hq => ?_⟩
  · refine edist_pos fun h => hY ?_
    rw [h]; exact hz
  · exact hmin (show (q.x, q.y) ∈ trace p from hq)

/-- a point off some lines, as near as one likes -/
theorem off_lines : ∀ (L : List (ℝ × ℝ × ℝ)), (∀ l ∈ L, l.1 ≠ 0 ∨ l.2.1 ≠ 0) → ∀ (z : ℝ × ℝ) (ε : ℝ), 0 < ε → ∃ z', dist z' z < ε ∧ ∀ l ∈ L, l.1 * z'.1 + l.2.1 * z'.2 ≠ l.2.2
  | [], _, z, ε, hε => ⟨z, by simpa using hε, by simp⟩
  | l :: L, hL, z, ε, hε => by
    have hl := hL l (by simp)
    have hc : Continuous fun z : ℝ × ℝ => l.1 * z.1 + l.2.1 * z.2 := by fun_prop
    obtain ⟨z1, h1, h2⟩ : ∃ z1, dist z1 z < ε / 2 ∧ l.1 * z1.1 + l.2.1 * z1.2 ≠ l.2.2 := by
      by_cases h : l.1 * z.1 + l.2.1 * z.2 = l.2.2
      · have hpos : 0 < l.1 ^ 2 + l.2.1 ^ 2 := by
          rcases hl with h | h
          · have := pow_pos (abs_pos.mpr h) 2; rw [sq_abs] at this; nlinarith [sq_nonneg l.2.1]
          · have := pow_pos (abs_pos.mpr h) 2; rw [sq_abs] at this; nlinarith [sq_nonneg l.1]
        have hc' : ContinuousAt (fun x : ℝ => ((z.1 + x * l.1, z.2 + x * l.2.1) : ℝ × ℝ)) 0 := by fun_prop
        obtain ⟨η, hη, hb⟩ := Metric.continuousAt_iff.mp hc' (ε / 2) (by linarith)
        refine ⟨(z.1 + η / 2 * l.1, z.2 + η / 2 * l.2.1), ?_, ?_⟩
        · have := hb (x := η / 2) (by rw [Real.dist_eq, sub_zero, abs_of_pos (by linarith)]; linarith)
          simpa using this
        · intro h'
          dsimp only at h'
          have : η / 2 * (l.1 ^ 2 + l.2.1 ^ 2) = 0 := by linear_combination h' - h
          have := mul_pos (half_pos hη) hpos
          linarith
      · exact ⟨z, by simpa using hε, h⟩
    obtain ⟨δ, hδ, hb⟩ := Metric.eventually_nhds_iff.mp ((hc.continuousAt (x := z1)).eventually_ne h2)
    obtain ⟨z', h3, h4⟩ := off_lines L (fun l' h => hL l' (by simp [h])) z1 (min δ (ε / 2)) (lt_min hδ (by linarith))
    obtain ⟨h3, h5⟩ := lt_min_iff.mp h3
    refine ⟨z', by have := dist_triangle z' z1 z; linarith, fun l' hl' => ?_⟩
    rcases List.mem_cons.mp hl' with rfl | hl'
    · exact hb h3
    · exact h4 l' hl'

theorem foot_zero {u v m s : ℝ} (s0 : 0 < s) (s1 : s < 1) (e1 : u ^ 2 + v ^ 2 = 2 * s * m) (e2 : 2 * m ≤ u ^ 2 + v ^ 2) : u = 0 ∧ v = 0 := by
  have hm : m ≤ 0 := by
    by_contra hc
    push Not at hc
    have := mul_pos (sub_pos.mpr s1) hc
    linarith
  have h1 : s * m ≤ 0 := mul_nonpos_of_nonneg_of_nonpos s0.le hm
  have h2 := sq_nonneg u
  have h3 := sq_nonneg v
  exact ⟨pow_eq_zero_iff (two_ne_zero) |>.mp (by linarith), pow_eq_zero_iff (two_ne_zero) |>.mp (by linarith)⟩

/-- The nearest point of a point on the way to a nearest point is unique. -/
theorem unique_foot {Y F Z G : V2 ℝ} {s : ℝ} (s0 : 0 < s) (s1 : s < 1) (hZ : Z = linePoint F Y s) (hk : edist Y F ≤ edist Y G) (hG : edist Z G = edist Z F) : G = F := by
  have q1 := edist_sq Z F
  have q2 := edist_sq Z G
  have q3 := edist_sq Y F
  have q4 := edist_sq Y G
  have q5 : edist Y F ^ 2 ≤ edist Y G ^ 2 := pow_le_pow_left₀ (edist_nonneg _ _) hk 2
  rw [hG, q1] at q2
  rw [q3, q4] at q5
  have zx : Z.x = F.x + s * (Y.x - F.x) := by rw [hZ]; rfl
  have zy : Z.y = F.y + s * (Y.y - F.y) := by rw [hZ]; rfl
  rw [zx, zy] at q2
  obtain ⟨e1, e2⟩ := foot_zero (u := G.x - F.x) (v := G.y - F.y) (m := (G.x - F.x) * (Y.x - F.x) + (G.y - F.y) * (Y.y - F.y)) s0 s1
    (by linear_combination (-1 : ℝ) * q2) (by linarith)
  rw [V2.ext_iff']
  exact ⟨by linarith, by linarith⟩

end

end Cavc
