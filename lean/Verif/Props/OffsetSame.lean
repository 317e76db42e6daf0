import Verif.Props.Passes
import Verif.Props.Region
import Verif.Props.Invert
import Verif.Lemmas.Gib

/-! # C82: the offset depends on the curve only, not on how it is given -/

set_option linter.unusedVariables false

namespace Cavc
open Pline RealScalar

/-- an offset of one polyline to either side is exact -/
theorem single_exact_side (env : Env ℝ) (henv : env.Lawful) (p : Pline ℝ) (d : ℝ) (o : OffsetOptions ℝ) (hidx : ∀ idx, o.aabbIndex = some idx → idx.Serves p) (hself : o.handleSelfIntersects = false)
    (he : 0 < o.posEqualEps) (ht : 0 < o.offsetDistEps) (hD : o.offsetDistEps ≤ |d|) (hj0 : 0 < o.sliceJoinEps) (hs : SimpleLoop p)
    (hc : ClearlyOffset p d o.posEqualEps o.sliceJoinEps o.offsetDistEps) :
    ∃ rs, parallelOffset env p d o = .ok rs ∧ (∀ r ∈ rs, Loop r) ∧ TurnsLike p (turnOf p.orientation) ∧
      ExactAt [p] rs |d| (if 0 < d * turnOf p.orientation then turnOf p.orientation else 0) (if 0 < d * turnOf p.orientation then 0 else turnOf p.orientation) := by
  obtain ⟨c, gap, E, h, hcc, hf, hE, hA, hF, hT, hW, hg, hj⟩ := hc
  have hd : d ≠ 0 := by intro h; rw [h, abs_zero] at hD; linarith
  have hpl := h.loop.loop he
  have htl := simple_turns hpl hs
  obtain ⟨rs', hrs, h1, h2⟩ := C75_offset_simple env henv p d o hidx hself hs hd he c h hcc hf gap E hE hA hF ht hD hT hW hg hj0 hj
  obtain ⟨rs, hrs2, ha⟩ := C74_offset_curve env henv p d o hidx hself hs hd he c h hcc hf gap E hE hA hF ht hD hT hW hg hj0 hj _ htl
  have heq : rs = rs' := by rw [hrs] at hrs2; exact (Except.ok.inj hrs2).symm
  subst heq
  obtain ⟨rs', hrs3, σ, hσ, hv, -, hreg, hreg2⟩ := C63_offset_region_arcs env henv p d o hidx hself hs hd he c h hcc hf gap E hE hA hF ht hD hT hW hg hj0 hj
  have heq : rs' = rs := by rw [hrs2] at hrs3; exact (Except.ok.inj hrs3).symm
  subst heq
  have hσ' : turnOf p.orientation = σ := turn_orientation hpl hs ⟨hσ, hv⟩
  rw [hσ'] at ha htl ⊢
  have e1 : ∀ X, allW [p] X = p.windingNumber X := fun X => by simp [allW]; rfl
  have hs0 : σ ≠ 0 := by rcases hσ with h | h <;> rw [h] <;> norm_num
  have hsum : ∀ Y, allW rs' Y = (rs'.map fun r => r.windingNumber Y).sum := fun Y => rfl
  refine ⟨rs', hrs, fun r hr => (h1 r hr).1, htl, lt_of_lt_of_le ht hD, by simpa using hpl, fun X hX => ?_, fun X => ?_, fun Y hY hk => ?_, fun Y hY hk => ?_⟩
  · rw [e1]
    have := hv X (hX p (by simp))
    split_ifs
    · exact this.symm
    · exact this
  · rw [e1, ha.points X]
    simp
  · have hn : ¬ Keeps p |d| Y := by
      obtain ⟨q, hq, hn⟩ := hk
      rwa [List.mem_singleton.mp hq] at hn
    rw [hsum]
    by_cases hin : 0 < d * (σ : ℝ)
    · rw [hreg hin Y hY, if_neg (fun h => hn h.2), if_pos hin]
    · have hout : d * (σ : ℝ) < 0 := lt_of_le_of_ne (not_lt.mp hin) (mul_ne_zero hd (by exact_mod_cast hs0))
      rw [hreg2 hout Y hY, if_neg (fun h => hn h.2), if_neg hin]
  · have hkp := hk p (by simp)
    have hoff : ¬ OnPline p Y := keeps_leaves (lt_of_lt_of_le ht hD) hk p (by simp)
    rw [e1, hsum]
    by_cases hin : 0 < d * (σ : ℝ)
    · rw [hreg hin Y hY]
      rcases hv Y hoff with e | e
      · rw [if_neg (by rw [e]; rintro ⟨h, -⟩; exact hs0 h.symm), e]
      · rw [if_pos ⟨e, hkp⟩, e]
    · have hout : d * (σ : ℝ) < 0 := lt_of_le_of_ne (not_lt.mp hin) (mul_ne_zero hd (by exact_mod_cast hs0))
      rw [hreg2 hout Y hY]
      rcases hv Y hoff with e | e
      · rw [if_pos ⟨e, hkp⟩, e]
      · rw [if_neg (by rw [e]; rintro ⟨h, -⟩; exact hs0 h), e]

/-- exact offsets of the same curves, run through in the same direction or all in the opposite one -/
theorem ExactAt.transfer {ps ps' rs rs' : List (Pline ℝ)} {r : ℝ} {b c ε : ℤ} (hε : ε = 1 ∨ ε = -1) (h : ExactAt ps rs r b c) (h' : ExactAt ps' rs' r (ε * b) (ε * c))
    (hp : ∀ X, (∃ p ∈ ps, OnPline p X) ↔ ∃ p ∈ ps', OnPline p X) (hw : ∀ X, (∀ p ∈ ps, ¬ OnPline p X) → allW ps' X = ε * allW ps X) :
    (∀ X, (∃ q ∈ rs', OnPline q X) ↔ ∃ q ∈ rs, OnPline q X) ∧ ∀ Y, (∀ q ∈ rs, ¬ OnPline q Y) → allW rs' Y = ε * allW rs Y := by
  have hε0 : ε ≠ 0 := by rcases hε with h | h <;> rw [h] <;> norm_num
  have hk : ∀ X, (∀ p ∈ ps', Keeps p r X) ↔ ∀ p ∈ ps, Keeps p r X := fun X => by
    constructor
    · intro hk p hm F hF
      obtain ⟨p', hm', hF'⟩ := (hp F).mp ⟨p, hm, hF⟩
      exact hk p' hm' F hF'
    · intro hk p hm F hF
      obtain ⟨p', hm', hF'⟩ := (hp F).mpr ⟨p, hm, hF⟩
      exact hk p' hm' F hF'
  have hpts : ∀ X, (∃ q ∈ rs', OnPline q X) ↔ ∃ q ∈ rs, OnPline q X := fun X => by
    rw [h.points X, h'.points X]
    constructor
    · rintro ⟨a, ⟨p, hm, F, hF, e⟩, w⟩
      have a' := (hk X).mp a
      obtain ⟨p', hm', hF'⟩ := (hp F).mpr ⟨p, hm, hF⟩
      rw [hw X (keeps_leaves h.pos a')] at w
      exact ⟨a', ⟨p', hm', F, hF', e⟩, mul_left_cancel₀ hε0 w⟩
    · rintro ⟨a, ⟨p, hm, F, hF, e⟩, w⟩
      obtain ⟨p', hm', hF'⟩ := (hp F).mp ⟨p, hm, hF⟩
      exact ⟨(hk X).mpr a, ⟨p', hm', F, hF', e⟩, by rw [hw X (keeps_leaves h.pos a), w]⟩
  refine ⟨hpts, fun Y hY => ?_⟩
  have hY' : ∀ q ∈ rs', ¬ OnPline q Y := fun q hq hon => by
    obtain ⟨q', hq', hon'⟩ := (hpts Y).mp ⟨q, hq, hon⟩
    exact hY q' hq' hon'
  by_cases hkY : ∀ p ∈ ps, Keeps p r Y
  · rw [h.far Y hY hkY, h'.far Y hY' ((hk Y).mpr hkY), hw Y (keeps_leaves h.pos hkY)]
  · have hkY' : ¬ ∀ p ∈ ps', Keeps p r Y := fun h => hkY ((hk Y).mp h)
    push Not at hkY hkY'
    rw [h.near Y hY hkY, h'.near Y hY' hkY']

/-! ## The theorems -/

/-- **C82** Two closed polylines that consist of the same points, whatever their vertexes, and run in the same direction (`ε = 1`) or in opposite directions (`ε = -1`), offset by `d` and by `ε * d` with any options,
give the same curves, in the same or in the opposite direction: the results consist of the same points, their winding numbers and areas are the same up to the sign `ε`. -/
theorem C82_same_curve (env env' : Env ℝ) (henv : env.Lawful) (henv' : env'.Lawful) (p p' : Pline ℝ) (ε : ℤ) (hε : ε = 1 ∨ ε = -1) (d : ℝ) (o o' : OffsetOptions ℝ)
    (hpts : ∀ X, OnPline p X ↔ OnPline p' X) (hw : ∀ X, ¬ OnPline p X → p'.windingNumber X = ε * p.windingNumber X)
    (hs : SimpleLoop p) (hs' : SimpleLoop p') (hidx : ∀ idx, o.aabbIndex = some idx → idx.Serves p) (hidx' : ∀ idx, o'.aabbIndex = some idx → idx.Serves p')
    (hself : o.handleSelfIntersects = false) (hself' : o'.handleSelfIntersects = false) (he : 0 < o.posEqualEps) (he' : 0 < o'.posEqualEps) (ht : 0 < o.offsetDistEps) (ht' : 0 < o'.offsetDistEps)
    (hD : o.offsetDistEps ≤ |d|) (hD' : o'.offsetDistEps ≤ |d|) (hj0 : 0 < o.sliceJoinEps) (hj0' : 0 < o'.sliceJoinEps)
    (hc : ClearlyOffset p d o.posEqualEps o.sliceJoinEps o.offsetDistEps) (hc' : ClearlyOffset p' (ε * d) o'.posEqualEps o'.sliceJoinEps o'.offsetDistEps) :
    ∃ rs rs', parallelOffset env p d o = .ok rs ∧ parallelOffset env' p' (ε * d) o' = .ok rs' ∧
      (∀ X, (∃ q ∈ rs', OnPline q X) ↔ ∃ q ∈ rs, OnPline q X) ∧
      (∀ Y, (∀ q ∈ rs, ¬ OnPline q Y) → (rs'.map fun q => q.windingNumber Y).sum = ε * (rs.map fun q => q.windingNumber Y).sum) ∧
      (rs'.map Pline.area).sum = ε * (rs.map Pline.area).sum := by
  have habs : |(ε : ℝ) * d| = |d| := by rcases hε with h | h <;> rw [h] <;> simp
  obtain ⟨rs, e, hl, htl, x⟩ := single_exact_side env henv p d o hidx hself he ht hD hj0 hs hc
  obtain ⟨rs', e', hl', htl', x'⟩ := single_exact_side env' henv' p' (ε * d) o' hidx' hself' he' ht' (by rw [habs]; exact hD') hj0' hs' hc'
  set σ := turnOf p.orientation with hσ
  have hee : ε * ε = 1 := by rcases hε with h | h <;> rw [h] <;> norm_num
  have hσ' : turnOf p'.orientation = ε * σ := by
    refine turn_orientation (x'.inputs p' (by simp)) hs' ⟨?_, fun X hX => ?_⟩
    · rcases hε with h | h <;> rcases htl.1 with h' | h' <;> rw [h, h'] <;> norm_num
    · have hX' : ¬ OnPline p X := fun h => hX ((hpts X).mp h)
      rw [hw X hX']
      rcases htl.2 X hX' with h | h <;> rw [h]
      · left; simp
      · right; rfl
  have hside : (0 < (ε : ℝ) * d * ((ε * σ : ℤ) : ℝ)) ↔ 0 < d * (σ : ℝ) := by
    have : (ε : ℝ) * d * ((ε * σ : ℤ) : ℝ) = ((ε * ε : ℤ) : ℝ) * (d * σ) := by push_cast; ring
    rw [this, hee]
    simp
  rw [habs, hσ'] at x'
  simp only [hside] at x'
  have x'' : ExactAt [p'] rs' |d| (ε * (if 0 < d * (σ : ℝ) then σ else 0)) (ε * (if 0 < d * (σ : ℝ) then 0 else σ)) := by
    split_ifs at x' ⊢ <;> simpa using x'
  obtain ⟨p1, p2⟩ := x.transfer hε x'' (by simpa using hpts) (fun X hX => by
    have e1 : ∀ q, allW [q] X = q.windingNumber X := fun q => by simp [allW]; rfl
    rw [e1, e1]
    exact hw X (hX p (by simp)))
  refine ⟨rs, rs', e, e', p1, p2, ?_⟩
  rw [list_area_integral _ hl, list_area_integral _ hl', ← MeasureTheory.integral_const_mul]
  refine MeasureTheory.integral_congr_ae ?_
  filter_upwards [trace_ae rs] with z hz
  rw [p2 _ hz]
  push_cast
  rfl

theorem on_path {p : Pline ℝ} {X : V2 ℝ} : OnPline p X ↔ ∃ x ∈ p.path, (X.x, X.y) ∈ segTrace (edgeOf x) := by
  unfold Pline.path
  simp only [List.mem_map, exists_exists_and_eq_and]
  exact Iff.rfl

theorem invert_points {p q : Pline ℝ} (h : Loop p) (hq : p.invertDirectionMut = .ok q) (X : V2 ℝ) : OnPline p X ↔ OnPline q X := by
  obtain ⟨q', hq', -, -, hp⟩ := C03_invert_path p
  rw [hq] at hq'
  obtain rfl := Except.ok.inj hq'
  rw [if_pos h.closed] at hp
  have hproper : ∀ x ∈ p.path, Proper (edgeOf x) := fun x hx => by
    obtain ⟨s, hs, rfl⟩ := List.mem_map.mp hx
    rcases h.segs s hs with h1 | ⟨h1, h2, h3⟩
    · exact Or.inl h1
    · exact Or.inr ⟨h1, h2, h3⟩
  rw [on_path, on_path, hp]
  simp only [List.mem_rotate, reversePath, List.mem_reverse, List.mem_map, exists_exists_and_eq_and]
  refine exists_congr fun x => and_congr_right fun hx => ?_
  have : edgeOf x.flip = flipE (edgeOf x) := rfl
  rw [this, flip_trace (hproper x hx)]

/-- **C82** In particular: the offset by `-d` of the polyline with its direction inverted is the offset by `d`, with all directions inverted. -/
theorem C82_invert (env : Env ℝ) (henv : env.Lawful) (p q : Pline ℝ) (hq : p.invertDirectionMut = .ok q) (d : ℝ) (o : OffsetOptions ℝ) (hs : SimpleLoop p) (hs' : SimpleLoop q)
    (hidx : o.aabbIndex = none) (hself : o.handleSelfIntersects = false) (he : 0 < o.posEqualEps) (ht : 0 < o.offsetDistEps) (hD : o.offsetDistEps ≤ |d|) (hj0 : 0 < o.sliceJoinEps)
    (hc : ClearlyOffset p d o.posEqualEps o.sliceJoinEps o.offsetDistEps) (hc' : ClearlyOffset q (-d) o.posEqualEps o.sliceJoinEps o.offsetDistEps) :
    ∃ rs rs', parallelOffset env p d o = .ok rs ∧ parallelOffset env q (-d) o = .ok rs' ∧
      (∀ X, (∃ r ∈ rs', OnPline r X) ↔ ∃ r ∈ rs, OnPline r X) ∧
      (∀ Y, (∀ r ∈ rs, ¬ OnPline r Y) → (rs'.map fun r => r.windingNumber Y).sum = -(rs.map fun r => r.windingNumber Y).sum) ∧
      (rs'.map Pline.area).sum = -(rs.map Pline.area).sum := by
  have hl : Loop p := by
    obtain ⟨c, gap, E, h, -⟩ := hc
    exact h.loop.loop he
  have e : ((-1 : ℤ) : ℝ) * d = -d := by push_cast; ring
  obtain ⟨rs, rs', a, b, h1, h2, h3⟩ := C82_same_curve env env henv henv p q (-1) (Or.inr rfl) d o o (invert_points hl hq) (fun X hX => by
      obtain ⟨q', hq', hw⟩ := C54_invert p hl X hX
      rw [hq] at hq'
      obtain rfl := Except.ok.inj hq'
      rw [hw]
      ring) hs hs' (by simp [hidx]) (by simp [hidx]) hself hself he he ht ht hD hD hj0 hj0 hc (by rw [e]; exact hc')
  rw [e] at b
  exact ⟨rs, rs', a, b, h1, fun Y hY => by rw [h2 Y hY]; ring, by rw [h3]; push_cast; ring⟩

/-- **C82** The same for shapes, for instance for the same polylines in another order: shapes with the same points and the same winding numbers have offsets with the same points, winding numbers and sums of areas. -/
theorem C82_same_shape (env env' : Env ℝ) (henv : env.Lawful) (henv' : env'.Lawful) (s s' : Shape ℝ) (d : ℝ) (o o' : ShapeOffsetOptions ℝ) (a : ℤ) (hs : SoundShape s a) (hs' : SoundShape s' a)
    (hpts : ∀ X, (∃ ip ∈ s.loops, OnPline ip.pline X) ↔ ∃ ip ∈ s'.loops, OnPline ip.pline X) (hw : ∀ X, (∀ ip ∈ s.loops, ¬ OnPline ip.pline X) → s'.windingNumber X = s.windingNumber X)
    (he : 0 < o.posEqualEps) (he' : 0 < o'.posEqualEps) (ht : 0 < o.offsetDistEps) (ht' : 0 < o'.offsetDistEps)
    (hD : o.offsetDistEps ≤ |d|) (hD' : o'.offsetDistEps ≤ |d|) (hj0 : 0 < o.sliceJoinEps) (hj0' : 0 < o'.sliceJoinEps) (hc : ClearShape env s d o) (hc' : ClearShape env' s' d o') :
    ∃ t t', s.parallelOffset env d o = .ok t ∧ s'.parallelOffset env' d o' = .ok t' ∧
      (∀ X, (∃ ip ∈ t'.loops, OnPline ip.pline X) ↔ ∃ ip ∈ t.loops, OnPline ip.pline X) ∧
      (∀ Y, (∀ ip ∈ t.loops, ¬ OnPline ip.pline Y) → t'.windingNumber Y = t.windingNumber Y) ∧
      (t'.loops.map fun ip => ip.pline.area).sum = (t.loops.map fun ip => ip.pline.area).sum := by
  obtain ⟨t, e, k, x⟩ := sound_exact env henv s d o he ht hD hj0 a hs hc
  obtain ⟨t', e', k', x'⟩ := sound_exact env' henv' s' d o' he' ht' hD' hj0' a hs' hc'
  obtain ⟨p1, p2⟩ := x.transfer (ε := 1) (Or.inl rfl) (by simpa using x') (by simpa using hpts) (fun X hX => by
    rw [← shape_sum, ← shape_sum, one_mul]
    exact hw X (by simpa using hX))
  have w : ∀ Y, (∀ ip ∈ t.loops, ¬ OnPline ip.pline Y) → t'.windingNumber Y = t.windingNumber Y := fun Y hY => by
    rw [shape_sum, shape_sum, p2 Y (by simpa using hY), one_mul]
  refine ⟨t, t', e, e', fun X => by simpa using p1 X, w, ?_⟩
  rw [(shape_area_integral t k.loop).2, (shape_area_integral t' k'.loop).2]
  refine MeasureTheory.integral_congr_ae ?_
  filter_upwards [trace_ae (t.loops.map IndexedPline.pline)] with z hz
  rw [w _ fun ip hip => hz _ (List.mem_map.mpr ⟨ip, hip, rfl⟩)]

/-! ## Example: triangles of any size, with another index and another tolerance for joining -/

theorem clearly_join {p : Pline ℝ} {d eps j j' tol : ℝ} (h : ClearlyOffset p d eps j tol) (hj : j' ≤ j) : ClearlyOffset p d eps j' tol := by
  obtain ⟨c, gap, E, h1, h2, h3, h4, h5, h6, h7, h8, h9, h10⟩ := h
  exact ⟨c, gap, E, h1, h2, h3, h4, h5, h6, h7, h8, h9, by linarith⟩

/-- The hypotheses of C82_same_curve hold for triangles of any size, with any index in one of the calls and none in the other, and with different tolerances for joining. -/
theorem wedge_same (env env' : Env ℝ) (henv : env.Lawful) (henv' : env'.Lawful) {k d j : ℝ} (hd : 1 ≤ d) (hk : d + 1 ≤ k) (idx : Index ℝ) (hidx : idx.Serves (wedge k)) (hj0 : 0 < j) (hj : j ≤ 1 / 10000) :
    ∃ rs rs', parallelOffset env (wedge k) (-d) ⟨none, false, 1 / 100000, 1 / 10000, 1 / 10000⟩ = .ok rs ∧ parallelOffset env' (wedge k) (((1 : ℤ) : ℝ) * -d) ⟨some idx, false, 1 / 100000, j, 1 / 10000⟩ = .ok rs' ∧
      ∀ X, (∃ q ∈ rs', OnPline q X) ↔ ∃ q ∈ rs, OnPline q X := by
  have habs : |-d| = d := by rw [abs_neg, abs_of_pos (by linarith)]
  obtain ⟨rs, rs', a, b, c, -⟩ := C82_same_curve env env' henv henv' (wedge k) (wedge k) 1 (Or.inl rfl) (-d) ⟨none, false, 1 / 100000, 1 / 10000, 1 / 10000⟩ ⟨some idx, false, 1 / 100000, j, 1 / 10000⟩
    (fun X => Iff.rfl) (fun X _ => by simp) (wedge_simple (by linarith)) (wedge_simple (by linarith)) (by simp) (by simpa using hidx) rfl rfl (by norm_num) (by norm_num) (by norm_num) (by norm_num)
    (by rw [habs]; norm_num; linarith) (by rw [habs]; norm_num; linarith) (by norm_num) hj0 (wedge_clearly hd hk) (by
      have := clearly_join (wedge_clearly hd hk) hj
      simpa using this)
  exact ⟨rs, rs', a, b, c⟩

/-- The hypotheses of C82_same_shape hold for the shape of a triangle of any size, made with two different indexes. -/
theorem wedge_same_shape (env env' : Env ℝ) (henv : env.Lawful) (henv' : env'.Lawful) {k d : ℝ} (hd : 1 ≤ d) (hk : d + 1 ≤ k) :
    ∃ s s' t t', Shape.fromPlines env [wedge k] = .ok s ∧ Shape.fromPlines env' [wedge k] = .ok s' ∧ s.parallelOffset env (-d) isletOpts = .ok t ∧ s'.parallelOffset env' (-d) isletOpts = .ok t' ∧
      ∀ X, (∃ ip ∈ t'.loops, OnPline ip.pline X) ↔ ∃ ip ∈ t.loops, OnPline ip.pline X := by
  have habs : |-d| = d := by rw [abs_neg, abs_of_pos (by linarith)]
  obtain ⟨s, ip, hs, h⟩ := wedge_shape env henv (k := k) (by linarith)
  obtain ⟨s', ip', hs', h'⟩ := wedge_shape env' henv' (k := k) (by linarith)
  obtain ⟨t, t', a, b, c, -⟩ := C82_same_shape env env' henv henv' s s' (-d) isletOpts isletOpts (-1) (wedge_sound (by linarith) h) (wedge_sound (by linarith) h')
    (fun X => by rw [h.loops, h'.loops]; simp [h.pline, h'.pline]) (fun X _ => by unfold Shape.windingNumber; rw [h.loops, h'.loops]; simp [h.pline, h'.pline])
    (by norm_num [isletOpts]) (by norm_num [isletOpts]) (by norm_num [isletOpts]) (by norm_num [isletOpts]) (by rw [habs]; norm_num [isletOpts]; linarith) (by rw [habs]; norm_num [isletOpts]; linarith)
    (by norm_num [isletOpts]) (by norm_num [isletOpts]) (wedge_clearShape hd hk env henv h) (wedge_clearShape hd hk env' henv' h')
  exact ⟨s, s', t, t', hs, hs', a, b, c⟩

theorem wedge_invert (k : ℝ) : (wedge k).invertDirectionMut = .ok (gib k) := by
  simp [wedge, gib, invertDirectionMut, invertSwapLoop, Pline.at, setVertex, vertexCount, bind, Except.bind, Vertex.withBulge, List.range', pure, Except.pure]

theorem gib_simple {k : ℝ} (hk : 1 ≤ k) : SimpleLoop (gib k) := by
  intro i j hi hj t u t0 t1 u0 u1 h
  obtain ⟨a0, a1, a2⟩ := gib_curve k t
  obtain ⟨b0, b1, b2⟩ := gib_curve k u
  change i < 3 at hi
  change j < 3 at hj
  have k0 : 0 < k := by linarith
  have z : ∀ x : ℝ, k * x = 0 → x = 0 := fun x hx => (mul_eq_zero.mp hx).resolve_left k0.ne'
  have p1 : k * t < k := by nlinarith
  have p2 : k * u < k := by nlinarith
  have p3 : 0 ≤ k * t := by positivity
  have p4 : 0 ≤ k * u := by positivity
  interval_cases i <;> interval_cases j <;> simp only [a0, a1, a2, b0, b1, b2, V2.ext_iff'] at h <;> obtain ⟨h1, h2⟩ := h <;>
    first
    | exact ⟨rfl, by have := z (t - u) (by linarith); linarith⟩
    | (exfalso; linarith)

/-- The hypotheses of C82_invert hold for triangles of any size. -/
theorem wedge_gib (env : Env ℝ) (henv : env.Lawful) {k d : ℝ} (hd : 1 ≤ d) (hk : d + 1 ≤ k) :
    ∃ rs rs', parallelOffset env (wedge k) (-d) ⟨none, false, 1 / 100000, 1 / 10000, 1 / 10000⟩ = .ok rs ∧ parallelOffset env (gib k) d ⟨none, false, 1 / 100000, 1 / 10000, 1 / 10000⟩ = .ok rs' ∧
      (∀ X, (∃ r ∈ rs', OnPline r X) ↔ ∃ r ∈ rs, OnPline r X) ∧ (rs'.map Pline.area).sum = 6 * (k - d) * (k - d) := by
  have habs : |-d| = d := by rw [abs_neg, abs_of_pos (by linarith)]
  obtain ⟨rs, rs', a, b, c, -, e⟩ := C82_invert env henv (wedge k) (gib k) (wedge_invert k) (-d) ⟨none, false, 1 / 100000, 1 / 10000, 1 / 10000⟩ (wedge_simple (by linarith)) (gib_simple (by linarith)) rfl rfl
    (by norm_num) (by norm_num) (by rw [habs]; norm_num; linarith) (by norm_num) (wedge_clearly hd hk) (by rw [neg_neg]; exact gib_clearly hd hk)
  rw [neg_neg] at b
  refine ⟨rs, rs', a, b, c, ?_⟩
  rw [wedge_offset_none hd hk env henv] at a
  rw [e, ← Except.ok.inj a]
  simp [wedge_area]

end Cavc
