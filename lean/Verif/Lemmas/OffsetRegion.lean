import Verif.Lemmas.OffsetEdges

/-! # The region enclosed by the results of an offset -/

set_option linter.unusedVariables false
set_option linter.unusedSectionVars false

namespace Cavc
open Pline

/-! ## Winding numbers of several polylines together -/

/-- sum of the winding numbers of all polylines of a list -/
noncomputable def allW (rs : List (Pline ℝ)) (X : V2 ℝ) : ℤ := (rs.map fun r => wnAt r X).sum

theorem sum_const {α : Type} {f g : α → ℤ} : ∀ {l : List α}, (∀ a ∈ l, f a = g a) → (l.map f).sum = (l.map g).sum := by
  intro l h
  rw [List.map_congr_left h]

theorem allW_path {rs : List (Pline ℝ)} (hl : ∀ r ∈ rs, Loop r) {γ : ℝ → V2 ℝ} {a b : ℝ} (hγ : ContinuousOn (fun t => ((γ t).x, (γ t).y)) (Set.uIcc a b))
    (hoff : ∀ t ∈ Set.uIcc a b, ∀ r ∈ rs, ¬ OnPline r (γ t)) : allW rs (γ a) = allW rs (γ b) := by
  refine sum_const fun r hr => ?_
  rcases le_total a b with h | h
  · rw [Set.uIcc_of_le h] at hγ hoff
    exact wn_path (hl r hr) h hγ fun t t0 t1 => hoff t ⟨t0, t1⟩ r hr
  · rw [Set.uIcc_of_ge h] at hγ hoff
    exact (wn_path (hl r hr) h hγ fun t t0 t1 => hoff t ⟨t0, t1⟩ r hr).symm

theorem allW_segs {rs : List (Pline ℝ)} (hl : ∀ r ∈ rs, Loop r) (z : ℝ × ℝ) :
    allW rs ⟨z.1, z.2⟩ = ((rs.flatMap fun r => r.segs.map strip).map (segW z)).sum := by
  induction rs with
  | nil => simp [allW]
  | cons r rs ih =>
    have := ih fun r' hr' => hl r' (List.mem_cons_of_mem _ hr')
    unfold allW at this ⊢
    rw [List.map_cons, List.sum_cons, this, List.flatMap_cons, List.map_append, List.sum_append]
    congr 1
    unfold wnAt
    rw [wn_segs (hl r (by simp)), List.map_map]
    rfl

theorem allW_ends {rs : List (Pline ℝ)} (hl : ∀ r ∈ rs, Loop r) :
    ((rs.flatMap fun r => r.segs.map strip).map fun s => s.2.pos).Perm ((rs.flatMap fun r => r.segs.map strip).map fun s => s.1.pos) := by
  induction rs with
  | nil => simp
  | cons r rs ih =>
    have := ih fun r' hr' => hl r' (List.mem_cons_of_mem _ hr')
    rw [List.flatMap_cons, List.map_append, List.map_append]
    refine List.Perm.append ?_ this
    rw [List.map_map, List.map_map]
    exact segs_perm (hl r (by simp))

theorem allW_proper {rs : List (Pline ℝ)} (hl : ∀ r ∈ rs, Loop r) : ∀ e ∈ rs.flatMap fun r => r.segs.map strip, Proper e := by
  intro e he
  obtain ⟨r, hr, he⟩ := List.mem_flatMap.mp he
  obtain ⟨s, hs, rfl⟩ := List.mem_map.mp he
  rcases (hl r hr).proper s hs with h | ⟨h1, h2, h3⟩
  · exact Or.inl h
  · exact Or.inr ⟨h1, h2, h3⟩

/-- a point that is far to the right of some polylines -/
theorem right_of {ps : List (Pline ℝ)} (hl : ∀ r ∈ ps, Loop r) : ∃ x : ℝ, ∀ r ∈ ps, ∀ z ∈ trace r, z.1 < x := by
  induction ps with
  | nil => exact ⟨0, by simp⟩
  | cons r ps ih =>
    obtain ⟨x, hx⟩ := ih fun r' hr' => hl r' (List.mem_cons_of_mem _ hr')
    obtain ⟨z, -, hmax⟩ := (trace_isCompact (hl r (by simp))).exists_isMaxOn (trace_nonempty (hl r (by simp))) continuous_fst.continuousOn
    refine ⟨max x (z.1 + 1), fun r' hr' y hy => ?_⟩
    rcases List.mem_cons.mp hr' with rfl | hr'
    · have : y.1 ≤ z.1 := hmax hy
      exact lt_of_lt_of_le (by linarith) (le_max_right _ _)
    · exact lt_of_lt_of_le (hx r' hr' y hy) (le_max_left _ _)

theorem right_zero {r : Pline ℝ} (hl : Loop r) {X : V2 ℝ} (h : ∀ z ∈ trace r, z.1 < X.x) : wnAt r X = 0 :=
  wn_right_end hl (fun hz => absurd (h _ hz) (lt_irrefl _)) fun y hy => (h y hy).le

theorem linePoint_dist (a b : V2 ℝ) (t : ℝ) : edist (linePoint a b t) a = |t| * edist a b := by
  unfold edist linePoint
  rw [← Real.sqrt_sq_eq_abs, ← Real.sqrt_mul (sq_nonneg t)]
  congr 1
  ring

/-! ## Nearer than the offset -/

/-- At the points that are nearer to the polyline than all results the winding numbers have the same sum. -/
theorem tube_const {p : Pline ℝ} (hp : Loop p) {rs : List (Pline ℝ)} (hl : ∀ r ∈ rs, Loop r) {D : ℝ} (hD : 0 < D) (hres : ∀ r ∈ rs, ∀ X, OnPline r X → Keeps p D X) :
    ∃ w0, ∀ Y q, OnPline p q → edist Y q < D → allW rs Y = w0 := by
  obtain ⟨z0, hz0⟩ := trace_nonempty hp
  refine ⟨allW rs ⟨z0.1, z0.2⟩, fun Y q hq hlt => ?_⟩
  have h1 : allW rs q = allW rs ⟨z0.1, z0.2⟩ := by
    refine sum_const fun r hr => ?_
    refine wn_const (hl r hr) (trace_isPreconnected hp) ?_ (show (q.x, q.y) ∈ trace p from hq) hz0
    rw [Set.disjoint_left]
    intro z hz hz'
    have := hres r hr _ hz' _ hz
    rw [edist_self] at this
    linarith
  rw [← h1]
  have hp0 : linePoint q Y 0 = q := by simp [linePoint]
  have hp1 : linePoint q Y 1 = Y := by simp [linePoint]
  have := allW_path hl (γ := linePoint q Y) (a := 0) (b := 1) (line_continuous q Y).continuousOn (fun t ht r hr hon => by
    rw [Set.uIcc_of_le zero_le_one] at ht
    have h2 := hres r hr _ hon q hq
    rw [linePoint_dist, abs_of_nonneg ht.1, edist_comm] at h2
    have := edist_nonneg Y q
    nlinarith [ht.1, ht.2])
  rw [hp0, hp1] at this
  exact this.symm

/-! ## The parallels of a part of the raw offset -/

/-- The parallel of a part of the raw offset for `d` at another distance `e`. -/
noncomputable def RawPart.at (p : Pline ℝ) (d : ℝ) : RawPart → ℝ → ℝ → V2 ℝ
  | .side k => fun e s => sidePt p e k (sideStart p d k + s * (sideEnd p d k - sideStart p d k))
  | .corner k => fun e s => cornerArc (cornerPos p k) (cornerPos p (k + 1)) (cornerPos p (k + 2)) e s

/-- the part runs forward: the side does not vanish, the corner is an outer one -/
def RawPart.Forward (p : Pline ℝ) (d : ℝ) : RawPart → Prop
  | .side k => sideStart p d k < sideEnd p d k
  | .corner k => setbackAt p d k < 0 ∧ d * turnSin (cornerPos p k) (cornerPos p (k + 1)) (cornerPos p (k + 2)) < 0

theorem at_curve {p : Pline ℝ} {d : ℝ} {q : RawPart} (h : q.Forward p d) (s : ℝ) : q.at p d d s = q.curve p d s := by
  cases q with
  | side k => rfl
  | corner k => unfold RawPart.at RawPart.curve; simp only [h.1, if_true]

theorem at_continuous (p : Pline ℝ) (d : ℝ) (q : RawPart) (e : ℝ) : Continuous fun s => ((q.at p d e s).x, (q.at p d e s).y) := by
  cases q with
  | side k => unfold RawPart.at sidePt moved; dsimp only; fun_prop
  | corner k => exact cornerArc_continuous _ _ _ _

theorem at_continuous' (p : Pline ℝ) (d : ℝ) (q : RawPart) (s : ℝ) : Continuous fun e => ((q.at p d e s).x, (q.at p d e s).y) := by
  cases q with
  | side k => exact moved_continuous' _ _ _
  | corner k => exact cornerArc_continuous' _ _ _ _

section
variable {p : Pline ℝ} {d eps : ℝ} (hp : StraightLoop p)
include hp

/-- The parallels are moved to the left of the direction of the part. -/
theorem at_line {q : RawPart} (hq : q.Forward p d) (s : ℝ) : ∃ A B c : ℝ, A ^ 2 + B ^ 2 = 1 ∧ 0 < c ∧
    (∀ e, q.at p d e s = ⟨(q.at p d 0 s).x - e * B, (q.at p d 0 s).y + e * A⟩) ∧
    HasDerivAt (fun s => (q.at p d d s).x) (c * A) s ∧ HasDerivAt (fun s => (q.at p d d s).y) (c * B) s := by
  cases q with
  | side k =>
    have h := corner_apart hp k
    have hpos := edist_pos h
    have h2 : edist (cornerPos p k) (cornerPos p (k + 1)) ^ 2 = ((cornerPos p (k + 1)).x - (cornerPos p k).x) ^ 2 + ((cornerPos p (k + 1)).y - (cornerPos p k).y) ^ 2 := by
      unfold edist; rw [Real.sq_sqrt (by positivity)]; ring
    change sideStart p d k < sideEnd p d k at hq
    refine ⟨((cornerPos p (k + 1)).x - (cornerPos p k).x) / edist (cornerPos p k) (cornerPos p (k + 1)),
      ((cornerPos p (k + 1)).y - (cornerPos p k).y) / edist (cornerPos p k) (cornerPos p (k + 1)),
      (sideEnd p d k - sideStart p d k) * edist (cornerPos p k) (cornerPos p (k + 1)), ?_, mul_pos (by linarith) hpos, fun e => ?_, ?_, ?_⟩
    · rw [div_pow, div_pow, ← add_div, ← h2, div_self (by positivity)]
    · unfold RawPart.at sidePt moved
      dsimp only
      rw [V2.ext_iff']
      constructor <;> dsimp only <;> ring
    · unfold RawPart.at sidePt moved
      dsimp only
      have : HasDerivAt (fun s => (cornerPos p k).x + (sideStart p d k + s * (sideEnd p d k - sideStart p d k)) * ((cornerPos p (k + 1)).x - (cornerPos p k).x) -
          d * (((cornerPos p (k + 1)).y - (cornerPos p k).y) / edist (cornerPos p k) (cornerPos p (k + 1))))
          (1 * (sideEnd p d k - sideStart p d k) * ((cornerPos p (k + 1)).x - (cornerPos p k).x)) s :=
        (((((hasDerivAt_id s).mul_const _).const_add _).mul_const _).const_add _).sub_const _
      convert this using 1
      field_simp
    · unfold RawPart.at sidePt moved
      dsimp only
      have : HasDerivAt (fun s => (cornerPos p k).y + (sideStart p d k + s * (sideEnd p d k - sideStart p d k)) * ((cornerPos p (k + 1)).y - (cornerPos p k).y) +
          d * (((cornerPos p (k + 1)).x - (cornerPos p k).x) / edist (cornerPos p k) (cornerPos p (k + 1))))
          (1 * (sideEnd p d k - sideStart p d k) * ((cornerPos p (k + 1)).y - (cornerPos p k).y)) s :=
        (((((hasDerivAt_id s).mul_const _).const_add _).mul_const _).const_add _).add_const _
      convert this using 1
      field_simp
  | corner k =>
    have h := corner_apart hp k
    have hpos := edist_pos h
    have h2 : edist (cornerPos p k) (cornerPos p (k + 1)) ^ 2 = ((cornerPos p (k + 1)).x - (cornerPos p k).x) ^ 2 + ((cornerPos p (k + 1)).y - (cornerPos p k).y) ^ 2 := by
      unfold edist; rw [Real.sq_sqrt (by positivity)]; ring
    set A0 := ((cornerPos p (k + 1)).x - (cornerPos p k).x) / edist (cornerPos p k) (cornerPos p (k + 1)) with hA0
    set B0 := ((cornerPos p (k + 1)).y - (cornerPos p k).y) / edist (cornerPos p k) (cornerPos p (k + 1)) with hB0
    have hu : A0 ^ 2 + B0 ^ 2 = 1 := by rw [hA0, hB0, div_pow, div_pow, ← add_div, ← h2, div_self (by positivity)]
    set θ := 2 * halfTurn (cornerPos p k) (cornerPos p (k + 1)) (cornerPos p (k + 2)) with hθ
    have hat : ∀ e s, (RawPart.corner k).at p d e s = ⟨(cornerPos p (k + 1)).x - e * (B0 * Real.cos (s * θ) + A0 * Real.sin (s * θ)),
        (cornerPos p (k + 1)).y + e * (A0 * Real.cos (s * θ) - B0 * Real.sin (s * θ))⟩ := fun e s => by
      unfold RawPart.at cornerArc rotV moved
      dsimp only
      rw [V2.ext_iff']
      constructor <;> dsimp only <;> ring
    have hsc := Real.sin_sq_add_cos_sq (s * θ)
    have hm : HasDerivAt (fun s => s * θ) θ s := by simpa using (hasDerivAt_id s).mul_const θ
    have hsin := (Real.hasDerivAt_sin (s * θ)).comp s hm
    have hcos := (Real.hasDerivAt_cos (s * θ)).comp s hm
    refine ⟨A0 * Real.cos (s * θ) - B0 * Real.sin (s * θ), B0 * Real.cos (s * θ) + A0 * Real.sin (s * θ), -(d * θ), ?_, ?_, fun e => ?_, ?_, ?_⟩
    · nlinarith
    · rcases turn_sign h (corner_apart hp (k + 1)) hq.2 with ⟨a, b⟩ | ⟨a, b⟩
      · rw [hθ]; nlinarith
      · rw [hθ]; nlinarith
    · rw [hat, hat, V2.ext_iff']
      constructor <;> dsimp only <;> ring
    · simp only [hat]
      have := (((hcos.const_mul B0).add (hsin.const_mul A0)).const_mul d).const_sub (cornerPos p (k + 1)).x
      exact this.congr_deriv (by ring)
    · simp only [hat]
      have := (((hcos.const_mul A0).sub (hsin.const_mul B0)).const_mul d).const_add (cornerPos p (k + 1)).y
      exact this.congr_deriv (by ring)

theorem at_dist {q : RawPart} (hq : q.Forward p d) (e e' s : ℝ) : edist (q.at p d e s) (q.at p d e' s) = |e - e'| := by
  obtain ⟨A, B, c, hu, -, hat, -⟩ := at_line hp hq s
  rw [hat e, hat e', ← Real.sqrt_sq_eq_abs]
  unfold edist
  congr 1
  dsimp only
  linear_combination (e - e') ^ 2 * hu


theorem at_foot {q : RawPart} (hr : ∀ k, q = .side k → 0 ≤ sideStart p d k ∧ sideEnd p d k ≤ 1) (hq : q.Forward p d) {s : ℝ} (s0 : 0 ≤ s) (s1 : s ≤ 1) :
    OnPline p (q.at p d 0 s) := by
  have h2 := hp.two
  have hn : 0 < p.verts.length := by omega
  have on : ∀ k u, 0 ≤ u → u ≤ 1 → OnPline p (linePoint (cornerPos p k) (cornerPos p (k + 1)) u) := fun k u u0 u1 => by
    rw [← straight_curve hp, ← curveAt_wrap hn]
    refine ⟨(vtx p (k % p.verts.length), vtx p (k % p.verts.length + 1)), ?_, u, u0, u1, ?_⟩
    · rw [segs_range hp.closed hp.two]
      exact List.mem_map.mpr ⟨_, List.mem_range.mpr (Nat.mod_lt _ hn), rfl⟩
    · rw [curveAt_vtx hn]
  cases q with
  | side k =>
    obtain ⟨r0, r1⟩ := hr k rfl
    change sideStart p d k < sideEnd p d k at hq
    unfold RawPart.at sidePt
    dsimp only
    rw [moved_zero]
    exact on k _ (by nlinarith) (by nlinarith)
  | corner k =>
    have : (RawPart.corner k).at p d 0 s = cornerPos p (k + 1) := by
      unfold RawPart.at cornerArc rotV moved
      rw [V2.ext_iff']
      constructor <;> dsimp only <;> ring
    rw [this]
    have := on (k + 1) 0 le_rfl zero_le_one
    simpa [linePoint] using this

/-- the parallels keep their distances from the sides of the part -/
theorem at_own {q : RawPart} (hq : q.Forward p d) {m : Nat} (hm : q.Own p m) {σ : ℝ} (hσ : σ = 1 ∨ σ = -1) (hdσ : 0 < d * σ) {h : ℝ} (h0 : 0 ≤ h) {s : ℝ} (s0 : 0 ≤ s) (s1 : s ≤ 1) :
    FarAt p (|d| + h) (q.at p d (d + σ * h) s) m := by
  have habs : |d + σ * h| = |d| + h := by
    rcases hσ with rfl | rfl
    · rw [abs_of_pos (by linarith : 0 < d), abs_of_pos (by linarith)]; ring
    · rw [abs_of_neg (by linarith : d < 0), abs_of_neg (by linarith)]; ring
  rw [← habs]
  cases q with
  | side k =>
    rw [farAt_congr hm]
    exact own_out (hp.apart k) _
  | corner k =>
    have hneg : (d + σ * h) * turnSin (cornerPos p k) (cornerPos p (k + 1)) (cornerPos p (k + 2)) < 0 := by
      have h1 := hq.2
      rcases hσ with rfl | rfl
      · have : 0 < d := by linarith
        have : turnSin (cornerPos p k) (cornerPos p (k + 1)) (cornerPos p (k + 2)) < 0 := by
          by_contra hc
          push Not at hc
          nlinarith
        nlinarith
      · have : d < 0 := by linarith
        have : 0 < turnSin (cornerPos p k) (cornerPos p (k + 1)) (cornerPos p (k + 2)) := by
          by_contra hc
          push Not at hc
          nlinarith
        nlinarith
    obtain ⟨c1, c2⟩ := arc_cone (a := cornerPos p k) (v := cornerPos p (k + 1)) (b := cornerPos p (k + 2)) (hp.apart k) (hp.apart (k + 1)) hneg s0 s1
    obtain ⟨f1, f2⟩ := cone_far (a := cornerPos p k) (v := cornerPos p (k + 1)) (b := cornerPos p (k + 2)) (hp.apart k) (hp.apart (k + 1)) (abs_nonneg _)
      (cornerArc_dist (hp.apart k) (d + σ * h) s) c1 c2
    rcases hm with hm | hm
    · rw [farAt_congr hm]; exact f1
    · rw [farAt_congr hm]; exact f2

omit hp in
/-- A disc that touches a larger one from inside: what is outside the larger one and not near the common point is clearly outside. -/
theorem lens {F q : V2 ℝ} {A B e r ρ ε : ℝ} (hu : A ^ 2 + B ^ 2 = 1) (hr : 0 < r) (hρ : 0 < ρ) (hε : 0 ≤ ε) (hsg : e = 1 ∨ e = -1)
    (hq : r + ρ ≤ edist (⟨F.x - e * (r + ρ) * B, F.y + e * (r + ρ) * A⟩ : V2 ℝ) q) (hf : ε ≤ edist F q) :
    Real.sqrt (r ^ 2 + ε ^ 2 * ρ / (r + ρ)) ≤ edist (⟨F.x - e * r * B, F.y + e * r * A⟩ : V2 ℝ) q := by
  have he : e ^ 2 = 1 := by rcases hsg with rfl | rfl <;> norm_num
  have h1 : (r + ρ) ^ 2 ≤ (F.x - e * (r + ρ) * B - q.x) ^ 2 + (F.y + e * (r + ρ) * A - q.y) ^ 2 := by
    have := pow_le_pow_left₀ (by linarith) hq 2
    unfold edist at this
    rwa [Real.sq_sqrt (by positivity)] at this
  have h2 : ε ^ 2 ≤ (F.x - q.x) ^ 2 + (F.y - q.y) ^ 2 := by
    have := pow_le_pow_left₀ hε hf 2
    unfold edist at this
    rwa [Real.sq_sqrt (by positivity)] at this
  unfold edist
  apply Real.sqrt_le_sqrt
  dsimp only
  rw [← sub_nonneg]
  have key : (F.x - e * r * B - q.x) ^ 2 + (F.y + e * r * A - q.y) ^ 2 - (r ^ 2 + ε ^ 2 * ρ / (r + ρ)) =
      (r * ((F.x - e * (r + ρ) * B - q.x) ^ 2 + (F.y + e * (r + ρ) * A - q.y) ^ 2 - (r + ρ) ^ 2) + ρ * ((F.x - q.x) ^ 2 + (F.y - q.y) ^ 2 - ε ^ 2)) / (r + ρ) := by
    have hne : r + ρ ≠ 0 := by positivity
    field_simp
    linear_combination (-(r * ρ * (r + ρ))) * he * (A ^ 2 + B ^ 2) - r * ρ * (r + ρ) * hu
  rw [key]
  have : 0 ≤ r * ((F.x - e * (r + ρ) * B - q.x) ^ 2 + (F.y + e * (r + ρ) * A - q.y) ^ 2 - (r + ρ) ^ 2) := mul_nonneg hr.le (by linarith)
  have : 0 ≤ ρ * ((F.x - q.x) ^ 2 + (F.y - q.y) ^ 2 - ε ^ 2) := mul_nonneg hρ.le (by linarith)
  positivity


/-- Near a point that has a point of the same parallel normal clearly outside, all parallels farther out keep their distances. -/
theorem at_keep {q : RawPart} (hq : q.Forward p d) {t : ℝ} (t0 : 0 ≤ t) (t1 : t ≤ 1)
    (hfoot : ∀ m, ¬ q.Own p m → ∀ w, 0 ≤ w → w ≤ 1 → q.at p d 0 t ≠ linePoint (cornerPos p m) (cornerPos p (m + 1)) w)
    {σ : ℝ} (hσ : σ = 1 ∨ σ = -1) (hdσ : 0 < d * σ) {ρ : ℝ} (hρ : 0 < ρ) (hY : Keeps p (|d| + ρ) (q.at p d (d + σ * ρ) t)) :
    ∃ μ > 0, ∀ s h, 0 ≤ s → s ≤ 1 → |s - t| < μ → 0 ≤ h → h < μ → Keeps p (|d| + h) (q.at p d (d + σ * h) s) := by
  have n2 := hp.two
  have hd : d ≠ 0 := by rintro rfl; simp at hdσ
  have hr : 0 < |d| := abs_pos.mpr hd
  have hdd : d = σ * |d| := by
    rcases hσ with rfl | rfl
    · rw [abs_of_pos (by linarith : 0 < d)]; ring
    · rw [abs_of_neg (by linarith : d < 0)]; ring
  have hσ1 : |σ| = 1 := by rcases hσ with rfl | rfl <;> simp
  obtain ⟨A, B, c, hu, -, hat, -, -⟩ := at_line hp hq t
  obtain ⟨ε, hε, hm⟩ := sides_margin p (f := fun _ => q.at p d 0 t) continuous_const 0 0 (fun m => ¬ q.Own p m) (fun m hm u _ _ w w0 w1 => hfoot m hm w w0 w1) p.verts.length
  set ν := Real.sqrt (|d| ^ 2 + ε ^ 2 * ρ / (|d| + ρ)) - |d| with hν
  have hνpos : 0 < ν := by
    rw [hν, sub_pos]
    exact Real.lt_sqrt_of_sq_lt (by have : 0 < ε ^ 2 * ρ / (|d| + ρ) := by positivity
                                    linarith)
  have hfar : ∀ m < p.verts.length, ¬ q.Own p m → FarAt p (|d| + ν) (q.at p d d t) m := by
    intro m hml hmo w w0 w1
    have h1 := (keeps_far hp).mp hY m w w0 w1
    have h2 := hm m hml hmo 0 le_rfl le_rfl w w0 w1
    rw [hat (d + σ * ρ), show d + σ * ρ = σ * (|d| + ρ) by rw [mul_add, ← hdd]] at h1
    have := lens hu hr hρ hε.le hσ h1 h2
    rw [← hdd, ← hat d] at this
    rw [hν]
    linarith
  have hcont : Continuous fun s => edist (q.at p d d s) (q.at p d d t) := by
    have h1 := at_continuous p d q d
    unfold edist
    exact ((((continuous_fst.comp h1).sub continuous_const).pow 2).add (((continuous_snd.comp h1).sub continuous_const).pow 2)).sqrt
  have hev := hcont.continuousAt.eventually_lt (x₀ := t) (g := fun _ => ν / 3) continuousAt_const (by rw [edist_self]; linarith)
  obtain ⟨δ, hδ, hball⟩ := Metric.eventually_nhds_iff.mp hev
  refine ⟨min δ (ν / 3), lt_min hδ (by linarith), fun s h s0 s1 hst h0 h1 => ?_⟩
  obtain ⟨a1, a2⟩ := lt_min_iff.mp hst
  obtain ⟨b1, b2⟩ := lt_min_iff.mp h1
  rw [keeps_far hp]
  intro m
  have hmm : m % p.verts.length < p.verts.length := Nat.mod_lt _ (by omega)
  rw [← farAt_congr (Nat.mod_mod m p.verts.length)]
  by_cases ho : q.Own p (m % p.verts.length)
  · exact at_own hp hq ho hσ hdσ h0 s0 s1
  · have e1 := hball (show dist s t < δ by rw [Real.dist_eq]; exact a1)
    have e2 := at_dist hp hq (d + σ * h) d s
    rw [add_sub_cancel_left, abs_mul, hσ1, one_mul, abs_of_nonneg h0] at e2
    have e3 : edist (q.at p d (d + σ * h) s) (q.at p d d t) ≤ h + ν / 3 := by
      have := edist_triangle (q.at p d (d + σ * h) s) (q.at p d d s) (q.at p d d t)
      linarith
    have := far_shift (hfar _ hmm ho) e3
    intro w w0 w1
    have := this w w0 w1
    linarith

end

/-! ## Across the results -/

/-- A point of the raw offset is passed by just one segment of the polylines, in the direction of the raw offset. -/
def Passed (p : Pline ℝ) (d : ℝ) (E : List (Cut × Cut)) (rs : List (Pline ℝ)) : Prop :=
  ∀ j t, j < (rawLoop p d).verts.length → 0 < t → t < 1 → (j, t) ∉ bothCuts E → Keeps p |d| (curveAt (rawLoop p d) j t) →
    ∃ L1 e L2, (rs.flatMap fun r => r.segs.map strip).Perm (L1 ++ e :: L2) ∧
      (∀ e' ∈ L1 ++ L2, ((curveAt (rawLoop p d) j t).x, (curveAt (rawLoop p d) j t).y) ∉ segTrace e') ∧
      ∃ lo hi, lo < t ∧ t < hi ∧ ∀ s, segCurve e.1 e.2 s = curveAt (rawLoop p d) j (lo + (hi - lo) * s)

section
variable {p : Pline ℝ} {d eps gap : ℝ} {E : List (Cut × Cut)} {rs : List (Pline ℝ)}
variable (hp : StraightLoop p) (hd : d ≠ 0) (he : 0 < eps) (hc : ∀ k, ClearTurn p d eps k)
include hp hd he hc

/-- At a point that is no crossing and keeps the distance, the sum of the winding numbers is larger by one on the left. -/
theorem pass_jump (hl : ∀ r ∈ rs, Loop r) (hpass : Passed p d E rs) {j : Nat} {q : RawPart} (hqj : (loopParts p d)[j]? = some q) (hq : q.Forward p d)
    {t : ℝ} (t0 : 0 < t) (t1 : t < 1) (hcut : (j, t) ∉ bothCuts E) (hk : Keeps p |d| (q.at p d d t)) :
    ∃ δ > 0, ∀ h, 0 < h → h < δ → allW rs (q.at p d (d + h) t) = allW rs (q.at p d (d - h) t) + 1 := by
  have hjn : j < (rawLoop p d).verts.length := by rw [rawLoop_length]; exact (List.getElem?_eq_some_iff.mp hqj).1
  have hcv : ∀ s, curveAt (rawLoop p d) j s = q.at p d d s := fun s => by rw [rawLoop_curve hp hd he hc hqj, at_curve hq]
  obtain ⟨L1, e, L2, hperm, hoff, lo, hi, hlo, hhi, hcurve⟩ := hpass j t hjn t0 t1 hcut (by rw [hcv]; exact hk)
  simp only [hcv] at hoff hcurve
  obtain ⟨A, B, c, hu, hc0, hat, dx, dy⟩ := at_line hp hq t
  have hlt : 0 < hi - lo := by linarith
  set s0 := (t - lo) / (hi - lo) with hs0
  have hst : lo + (hi - lo) * s0 = t := by rw [hs0]; field_simp; ring
  have hm : HasDerivAt (fun s => lo + (hi - lo) * s) (hi - lo) s0 := by simpa using ((hasDerivAt_id s0).const_mul (hi - lo)).const_add lo
  have dx' : HasDerivAt (fun s => (segCurve e.1 e.2 s).x) (c * A * (hi - lo)) s0 := by
    simp only [hcurve]
    exact HasDerivAt.comp (h₂ := fun s => (q.at p d d s).x) s0 (by rw [hst]; exact dx) hm
  have dy' : HasDerivAt (fun s => (segCurve e.1 e.2 s).y) (c * B * (hi - lo)) s0 := by
    simp only [hcurve]
    exact HasDerivAt.comp (h₂ := fun s => (q.at p d d s).y) s0 (by rw [hst]; exact dy) hm
  have hZ : segCurve e.1 e.2 s0 = q.at p d d t := by rw [hcurve, hst]
  have hch : 0 < c * (hi - lo) := by positivity
  obtain ⟨δ, hδ, hj⟩ := jump (L1 := L1) (L2 := L2) (s := e) (fun x hx => allW_proper hl x (hperm.mem_iff.mpr hx))
    ((hperm.map _).symm.trans ((allW_ends hl).trans (hperm.map _))) (t₀ := s0) (div_pos (by linarith) hlt) ((div_lt_one hlt).mpr (by linarith))
    (a := c * A * (hi - lo)) (b := c * B * (hi - lo)) (by
      by_contra hcon
      push Not at hcon
      obtain ⟨a1, a2⟩ := hcon
      have e1 : A = 0 := by
        rcases mul_eq_zero.mp a1 with h | h
        · exact (mul_eq_zero.mp h).resolve_left hc0.ne'
        · exact absurd h hlt.ne'
      have e2 : B = 0 := by
        rcases mul_eq_zero.mp a2 with h | h
        · exact (mul_eq_zero.mp h).resolve_left hc0.ne'
        · exact absurd h hlt.ne'
      rw [e1, e2] at hu
      norm_num at hu) dx' dy' (by rw [hZ]; exact hoff)
  refine ⟨δ * (c * (hi - lo)), by positivity, fun h h0 h1 => ?_⟩
  have := hj (h / (c * (hi - lo))) (by positivity) (by rwa [div_lt_iff₀ hch])
  rw [← (hperm.map _).sum_eq, ← (hperm.map _).sum_eq, ← allW_segs hl, ← allW_segs hl, hZ] at this
  rw [hat d] at this
  rw [hat (d + h), hat (d - h)]
  have e1 : (⟨(q.at p d 0 t).x - (d + h) * B, (q.at p d 0 t).y + (d + h) * A⟩ : V2 ℝ) =
      ⟨(q.at p d 0 t).x - d * B - h / (c * (hi - lo)) * (c * B * (hi - lo)), (q.at p d 0 t).y + d * A + h / (c * (hi - lo)) * (c * A * (hi - lo))⟩ := by
    rw [V2.ext_iff']
    constructor <;> dsimp only <;> field_simp <;> ring
  have e2 : (⟨(q.at p d 0 t).x - (d - h) * B, (q.at p d 0 t).y + (d - h) * A⟩ : V2 ℝ) =
      ⟨(q.at p d 0 t).x - d * B + h / (c * (hi - lo)) * (c * B * (hi - lo)), (q.at p d 0 t).y + d * A - h / (c * (hi - lo)) * (c * A * (hi - lo))⟩ := by
    rw [V2.ext_iff']
    constructor <;> dsimp only <;> field_simp <;> ring
  rw [e1, e2]
  exact this

/-- Outside of a part of the raw offset, the sum differs by one from the one near the polyline. -/
theorem pass_value (hl : ∀ r ∈ rs, Loop r) (hpass : Passed p d E rs) (hres : ∀ r ∈ rs, ∀ X, OnPline r X → ∃ q, OnPline p q ∧ edist X q ≤ |d|)
    {w0 : ℤ} (hw : ∀ Y q, OnPline p q → edist Y q < |d| → allW rs Y = w0)
    {j : Nat} {q : RawPart} (hqj : (loopParts p d)[j]? = some q) (hq : q.Forward p d) {t : ℝ} (t0 : 0 ≤ t) (t1 : t ≤ 1)
    {σ : ℝ} (hσ : σ = 1 ∨ σ = -1) (hdσ : 0 < d * σ) {μ : ℝ} (hμ : 0 < μ)
    (hkeep : ∀ s h, 0 ≤ s → s ≤ 1 → |s - t| < μ → 0 ≤ h → h < μ → Keeps p (|d| + h) (q.at p d (d + σ * h) s))
    {ρ : ℝ} (hρ : 0 < ρ) (hY : Keeps p (|d| + ρ) (q.at p d (d + σ * ρ) t)) :
    allW rs (q.at p d (d + σ * ρ) t) = w0 + if 0 < d then 1 else -1 := by
  have hr : 0 < |d| := abs_pos.mpr hd
  have hdd : d = σ * |d| := by
    rcases hσ with rfl | rfl
    · rw [abs_of_pos (by linarith : 0 < d)]; ring
    · rw [abs_of_neg (by linarith : d < 0)]; ring
  have hσ1 : |σ| = 1 := by rcases hσ with rfl | rfl <;> simp
  -- a point that is no crossing
  obtain ⟨t', ht', hcut⟩ : ∃ t', (0 < t' ∧ t' < 1 ∧ |t' - t| < μ) ∧ (j, t') ∉ bothCuts E := by
    have hinf : (Set.Ioo (max 0 (t - μ)) (min 1 (t + μ))).Infinite := Set.Ioo_infinite (max_lt (lt_min one_pos (by linarith)) (lt_min (by linarith) (by linarith)))
    obtain ⟨t', ⟨h1, h2⟩, h3⟩ := hinf.exists_notMem_finset ((bothCuts E).map Prod.snd).toFinset
    obtain ⟨a1, a2⟩ := max_lt_iff.mp h1
    obtain ⟨b1, b2⟩ := lt_min_iff.mp h2
    refine ⟨t', ⟨a1, b1, abs_lt.mpr ⟨by linarith, by linarith⟩⟩, fun h => h3 ?_⟩
    rw [List.mem_toFinset]
    exact List.mem_map.mpr ⟨_, h, rfl⟩
  obtain ⟨p0, p1, pt⟩ := ht'
  have hk0 := hkeep t' 0 p0.le p1.le pt le_rfl hμ
  rw [mul_zero, add_zero, add_zero] at hk0
  obtain ⟨δ, hδ, hjump⟩ := pass_jump hp hd he hc hl hpass hqj hq p0 p1 hcut hk0
  obtain ⟨h, h0, hlt⟩ := exists_between (lt_min (lt_min hδ hμ) hr)
  obtain ⟨hlt, l3⟩ := lt_min_iff.mp hlt
  obtain ⟨l1, l2⟩ := lt_min_iff.mp hlt
  have hside : ∀ k, q = .side k → 0 ≤ sideStart p d k ∧ sideEnd p d k ≤ 1 := fun k _ =>
    ⟨(sideStart_range hp hd he hc k).1, (sideEnd_range hp hd he hc k).2⟩
  -- inside
  have hin : allW rs (q.at p d (d - σ * h) t') = w0 := by
    refine hw _ _ (at_foot hp hside hq p0.le p1.le) ?_
    rw [at_dist hp hq, sub_zero]
    rw [show d - σ * h = σ * (|d| - h) by rw [mul_sub, ← hdd], abs_mul, hσ1, one_mul, abs_of_pos (by linarith)]
    linarith
  -- outside
  have hout : allW rs (q.at p d (d + σ * h) t') = w0 + if 0 < d then 1 else -1 := by
    have := hjump h h0 l1
    rcases hσ with rfl | rfl
    · rw [one_mul] at hin ⊢
      rw [this, hin, if_pos (by linarith)]
    · rw [neg_one_mul, sub_neg_eq_add] at hin
      rw [neg_one_mul, ← sub_eq_add_neg, if_neg (by linarith), ← hin, this]
      ring
  have hoff : ∀ X x, 0 < x → Keeps p (|d| + x) X → ∀ r ∈ rs, ¬ OnPline r X := by
    intro X x x0 hX r hr hon
    obtain ⟨y, hy, hle⟩ := hres r hr X hon
    have := hX y hy
    linarith
  -- along the parallel
  have e1 : allW rs (q.at p d (d + σ * h) t') = allW rs (q.at p d (d + σ * h) t) := by
    refine allW_path hl (γ := fun s => q.at p d (d + σ * h) s) (at_continuous p d q _).continuousOn fun s hs => hoff _ h h0 ?_
    have h1 : 0 ≤ s ∧ s ≤ 1 ∧ |s - t| ≤ |t' - t| := by
      rcases le_total t' t with hle | hle
      · rw [Set.uIcc_of_le hle] at hs
        obtain ⟨a, b⟩ := hs
        exact ⟨by linarith, by linarith, by rw [abs_of_nonpos (by linarith), abs_of_nonpos (by linarith)]; linarith⟩
      · rw [Set.uIcc_of_ge hle] at hs
        obtain ⟨a, b⟩ := hs
        exact ⟨by linarith, by linarith, by rw [abs_of_nonneg (by linarith), abs_of_nonneg (by linarith)]; linarith⟩
    exact hkeep s h h1.1 h1.2.1 (by linarith [h1.2.2]) h0.le l2
  -- along the normal
  have e2 : allW rs (q.at p d (d + σ * h) t) = allW rs (q.at p d (d + σ * ρ) t) := by
    refine allW_path hl (γ := fun x => q.at p d (d + σ * x) t) ((at_continuous' p d q t).comp (by fun_prop : Continuous fun x : ℝ => d + σ * x)).continuousOn
      fun x hx => hoff _ (min h ρ) (lt_min h0 hρ) ?_
    have hxm : min h ρ ≤ x := hx.1
    by_cases hxr : x ≤ ρ
    · intro y hy
      have h1 := hY y hy
      have h2 := edist_triangle (q.at p d (d + σ * ρ) t) (q.at p d (d + σ * x) t) y
      rw [at_dist hp hq, show d + σ * ρ - (d + σ * x) = σ * (ρ - x) by ring, abs_mul, hσ1, one_mul, abs_of_nonneg (by linarith)] at h2
      linarith
    · have hxh : x ≤ h := by
        rcases le_max_iff.mp hx.2 with h | h
        · exact h
        · exact absurd h hxr
      have hx0 : 0 ≤ x := le_trans (lt_min h0 hρ).le hxm
      have := hkeep t x t0 t1 (by simpa using hμ) hx0 (by linarith)
      intro y hy
      have := this y hy
      linarith
  rw [← e2, ← e1, hout]


omit he hc hd in
theorem line_on (k : Nat) {u : ℝ} (u0 : 0 ≤ u) (u1 : u ≤ 1) : OnPline p (linePoint (cornerPos p k) (cornerPos p (k + 1)) u) := by
  have h2 := hp.two
  have hn : 0 < p.verts.length := by omega
  rw [← straight_curve hp, ← curveAt_wrap hn]
  refine ⟨(vtx p (k % p.verts.length), vtx p (k % p.verts.length + 1)), ?_, u, u0, u1, ?_⟩
  · rw [segs_range hp.closed hp.two]
    exact List.mem_map.mpr ⟨_, List.mem_range.mpr (Nat.mod_lt _ hn), rfl⟩
  · rw [curveAt_vtx hn]

omit he hc hd in
/-- a point of the parallel curve has a point of the polyline at the distance -/
theorem offset_reach {X : V2 ℝ} (h : OffsetPt p d X) : ∃ q, OnPline p q ∧ edist X q ≤ |d| := by
  rcases h.place with ⟨k, u, u0, u1, rfl⟩ | ⟨k, t, -, -, -, rfl⟩
  · exact ⟨_, line_on hp k u0 u1, (moved_near (corner_apart hp k) d u).le⟩
  · refine ⟨cornerPos p (k + 1), ?_, (cornerArc_dist (corner_apart hp k) d t).le⟩
    have := line_on hp (k + 1) le_rfl zero_le_one
    simpa [linePoint] using this

/-- **The region.** The sum of the winding numbers of the results has one value at the points of the side of `d` that keep the distance, and another one
at all other points. -/
theorem region_value (hs : SimpleLoop p) (hf : FullLoop (rawLoop p d) eps) (hl : ∀ r ∈ rs, Loop r) (hpass : Passed p d E rs)
    (hcurve : ∀ X, (∃ r ∈ rs, OnPline r X) ↔ OffsetPt p d X) {a : ℤ} (ha : ∀ k, SideVal p a k) :
    ∃ w0, ∀ Y, (∀ r ∈ rs, ¬ OnPline r Y) →
      (¬ OnPline p Y → Keeps p |d| Y → (wnAt p Y = if 0 < d then a else a - 1) → allW rs Y = w0 + if 0 < d then 1 else -1) ∧
      ((OnPline p Y ∨ ¬ Keeps p |d| Y ∨ wnAt p Y ≠ if 0 < d then a else a - 1) → allW rs Y = w0) := by
  classical
  have n2 := hp.two
  have hn : 0 < p.verts.length := by omega
  have hpl := straight_loop hp
  have hr : 0 < |d| := abs_pos.mpr hd
  obtain ⟨w0, hw⟩ := tube_const hpl hl hr (fun r hr X hX => ((hcurve X).mp ⟨r, hr, hX⟩).keeps)
  have hres : ∀ r ∈ rs, ∀ X, OnPline r X → ∃ q, OnPline p q ∧ edist X q ≤ |d| := fun r hr X hX => offset_reach hp ((hcurve X).mp ⟨r, hr, hX⟩)
  refine ⟨w0, fun Y hY => ⟨fun hon hkd hval => ?_, fun hcond => ?_⟩⟩
  · obtain ⟨r, hr0, hk, m, u, u0, u1, hu⟩ := nearest hp hon
    have hle : |d| ≤ r := by rw [← hu]; exact hkd _ (line_on hp m u0 u1)
    -- the side of the point
    have hsign : ∀ e, e ≠ 0 → OffsetPt p e Y → (0 < e ↔ 0 < d) := by
      intro e he0 hO
      have := sided_val hp hs ha he0 hO
      rw [hval] at this
      by_cases h1 : 0 < d <;> by_cases h2 : 0 < e
      · exact ⟨fun _ => h1, fun _ => h2⟩
      · rw [if_pos h1, if_neg h2] at this; omega
      · rw [if_neg h1, if_pos h2] at this; omega
      · exact ⟨fun h => absurd h h2, fun h => absurd h h1⟩
    obtain ⟨σ, hσ, hdd, hσd⟩ : ∃ σ : ℝ, (σ = 1 ∨ σ = -1) ∧ d = σ * |d| ∧ (0 < d ↔ 0 < σ) := by
      rcases lt_or_gt_of_ne hd with h | h
      · exact ⟨-1, Or.inr rfl, by rw [abs_of_neg h]; ring, ⟨fun h' => by linarith, fun h' => by linarith⟩⟩
      · exact ⟨1, Or.inl rfl, by rw [abs_of_pos h]; ring, ⟨fun _ => one_pos, fun _ => h⟩⟩
    have hdσ : 0 < d * σ := by rw [hdd, mul_assoc, mul_comm, mul_assoc]; rcases hσ with rfl | rfl <;> simpa using hr
    have hor : ∀ e, (e = r ∨ e = -r) → OffsetPt p e Y → e = σ * r := by
      intro e her hO
      have h1 := hsign e (by rcases her with rfl | rfl <;> simp [hr0.ne']) hO
      rw [hσd] at h1
      rcases her with rfl | rfl <;> rcases hσ with rfl | rfl
      · ring
      · exact absurd (h1.mp hr0) (by norm_num)
      · exact absurd (h1.mpr one_pos) (by linarith)
      · ring
    rcases lt_or_eq_of_le hle with hlt | heq
    · obtain ⟨ρ, hρ⟩ : ∃ ρ, ρ = r - |d| := ⟨_, rfl⟩
      have hρ0 : 0 < ρ := by linarith
      have hrρ : r = |d| + ρ := by linarith
      have hshift : σ * r = d + σ * ρ := by rw [hrρ, mul_add, ← hdd]
      have hσ1 : |σ| = 1 := by rcases hσ with rfl | rfl <;> simp
      have finish : ∀ (q : RawPart) (t : ℝ), q ∈ loopParts p d → q.Forward p d → 0 ≤ t → t ≤ 1 →
          (∀ m, ¬ q.Own p m → ∀ w, 0 ≤ w → w ≤ 1 → q.at p d 0 t ≠ linePoint (cornerPos p m) (cornerPos p (m + 1)) w) →
          Y = q.at p d (d + σ * ρ) t → allW rs Y = w0 + if 0 < d then 1 else -1 := by
        intro q t hq hqf t0 t1 hfoot hYq
        obtain ⟨j, hj⟩ := List.getElem?_of_mem hq
        have hkY : Keeps p (|d| + ρ) (q.at p d (d + σ * ρ) t) := by rw [← hYq, ← hrρ]; exact hk
        obtain ⟨μ, hμ, hkeep⟩ := at_keep hp hqf t0 t1 hfoot hσ hdσ hρ0 hkY
        rw [hYq]
        exact pass_value hp hd he hc hl hpass hres hw hj hqf t0 t1 hσ hdσ hμ hkeep hρ0 hkY
      rcases placed hp hs hr0 hk u0 u1 hu with ⟨b0, b1, hYs⟩ | ⟨k, -, e, her, hsg, t, t0, t1, hYc⟩
      · -- beside a side
        have hYs' : Y = sidePt p (d + σ * ρ) m u := by
          rcases hYs with h | h
          · rw [← hshift, ← hor r (Or.inl rfl) ⟨by rw [abs_of_pos hr0]; exact hk, Or.inl ⟨m, u, u0, u1, h⟩⟩]; exact h
          · rw [← hshift, ← hor (-r) (Or.inr rfl) ⟨by rw [abs_neg, abs_of_pos hr0]; exact hk, Or.inl ⟨m, u, u0, u1, h⟩⟩]; exact h
        have hmm : m % p.verts.length % p.verts.length = m % p.verts.length := Nat.mod_mod _ _
        have hsm : ∀ e, sidePt p e m u = sidePt p e (m % p.verts.length) u := fun e => by
          unfold sidePt
          rw [cornerPos_congr hmm 1, cornerPos_mod]
        rw [hsm] at hYs'
        set k := m % p.verts.length with hkdef
        have hkn : k < p.verts.length := Nat.mod_lt _ hn
        have hkZ : Keeps p |d| (sidePt p d k u) := by
          intro y hy
          have h1 := hk y hy
          have h2 := edist_triangle Y (sidePt p d k u) y
          rw [hYs'] at h1 h2
          unfold sidePt at h1 h2
          rw [moved_along (corner_apart hp k), add_sub_cancel_left, abs_mul, hσ1, one_mul, abs_of_pos hρ0] at h2
          unfold sidePt
          linarith
        obtain ⟨r1, r2⟩ := side_range hp hd he hc u0 u1 hkZ
        have hmem : RawPart.side k ∈ loopParts p d := side_mem hkn
        have hfw : sideStart p d k < sideEnd p d k := by
          refine lt_of_le_of_ne (by linarith) fun hse => ?_
          obtain ⟨j, hj⟩ := List.getElem?_of_mem hmem
          have hu' : u = sideStart p d k := by linarith
          have := part_forward hp hd he hc hf hj le_rfl zero_le_one (by
            unfold RawPart.curve; dsimp only; rw [zero_mul, add_zero, ← hu']; exact hkZ) k rfl
          linarith
        have hpos : 0 < sideEnd p d k - sideStart p d k := by linarith
        have hpar : sideStart p d k + (u - sideStart p d k) / (sideEnd p d k - sideStart p d k) * (sideEnd p d k - sideStart p d k) = u := by field_simp; ring
        refine finish (.side k) ((u - sideStart p d k) / (sideEnd p d k - sideStart p d k)) hmem hfw (div_nonneg (by linarith) hpos.le)
          ((div_le_one hpos).mpr (by linarith)) ?_ ?_
        · intro m' hm' w w0' w1' heq
          unfold RawPart.at sidePt at heq
          dsimp only at heq
          rw [moved_zero, hpar] at heq
          exact hm' (simple_side hp hs b0 b1 w0' w1' heq)
        · unfold RawPart.at
          dsimp only
          rw [hpar]
          exact hYs'
      · -- around a corner
        have he0 : e ≠ 0 := by rcases her with rfl | rfl <;> simp [hr0.ne']
        have hneg : e * turnSin (cornerPos p k) (cornerPos p (k + 1)) (cornerPos p (k + 2)) < 0 :=
          lt_of_le_of_ne hsg (mul_ne_zero he0 (turn_ne hp hd he hc k))
        have hee : e = d + σ * ρ := by
          rw [← hshift]
          refine hor e her ⟨by rcases her with rfl | rfl <;> simpa [abs_of_pos hr0] using hk, Or.inr ⟨k, t, ?_, t0, t1, hYc⟩⟩
          exact (setback_sign (corner_apart hp k) (corner_apart hp (k + 1)) (turn_ne hp hd he hc k)).2.mpr hneg
        have hmm : k % p.verts.length % p.verts.length = k % p.verts.length := Nat.mod_mod _ _
        rw [← cornerPos_congr hmm 1, ← cornerPos_congr hmm 2, ← cornerPos_mod] at hYc hneg
        set k' := k % p.verts.length with hkdef
        have hkn : k' < p.verts.length := Nat.mod_lt _ hn
        have hnegd : d * turnSin (cornerPos p k') (cornerPos p (k' + 1)) (cornerPos p (k' + 2)) < 0 := by
          have h1 : σ * r * turnSin (cornerPos p k') (cornerPos p (k' + 1)) (cornerPos p (k' + 2)) < 0 := by rw [hshift, ← hee]; exact hneg
          have h2 : σ * turnSin (cornerPos p k') (cornerPos p (k' + 1)) (cornerPos p (k' + 2)) < 0 := by
            by_contra hcn
            push Not at hcn
            nlinarith
          rw [hdd, mul_assoc, mul_comm, mul_assoc, mul_comm (turnSin _ _ _)]
          nlinarith
        have hsb : setbackAt p d k' < 0 := (setback_sign (corner_apart hp k') (corner_apart hp (k' + 1)) (turn_ne hp hd he hc k')).2.mpr hnegd
        refine finish (.corner k') t (corner_mem hkn fun hm => absurd hm.1 (not_le.mpr hsb)) ⟨hsb, hnegd⟩ t0 t1 ?_ ?_
        · intro m' hm' w w0' w1' heq
          have hz : (RawPart.corner k').at p d 0 t = cornerPos p (k' + 1) := by
            unfold RawPart.at cornerArc rotV moved
            rw [V2.ext_iff']
            constructor <;> dsimp only <;> ring
          rw [hz] at heq
          exact hm' (simple_corner hp hs w0' w1' heq)
        · rw [hYc, hee]; rfl
    · -- on the parallel curve
      exfalso
      subst heq
      have hO : OffsetPt p d Y := by
        rcases placed_offset hp hs hr0 hk u0 u1 hu with h | h
        · have := hor _ (Or.inl rfl) h
          rw [← hdd] at this
          rwa [← this]
        · have := hor _ (Or.inr rfl) h
          rw [← hdd] at this
          rwa [← this]
      obtain ⟨r, hr, hrY⟩ := (hcurve Y).mpr hO
      exact hY r hr hrY
  · by_cases hon : OnPline p Y
    · exact hw Y Y hon (by rw [edist_self]; exact hr)
    · rcases hcond with h | h | h
      · exact absurd h hon
      · unfold Keeps at h
        push Not at h
        obtain ⟨q, hq, hlt⟩ := h
        exact hw Y q hq hlt
      · obtain ⟨r, hr0, hk, m, u, u0, u1, hu⟩ := nearest hp hon
        set F := linePoint (cornerPos p m) (cornerPos p (m + 1)) u with hF
        have hFon : OnPline p F := line_on hp m u0 u1
        -- the way to the nearest point does not meet the polyline
        have hp0 : linePoint Y F 0 = Y := by simp [linePoint]
        have hray : ∀ s, 0 ≤ s → s < 1 → ¬ OnPline p (linePoint Y F s) := by
          intro s s0 s1 hon'
          have h1 := hk _ hon'
          rw [edist_comm, linePoint_dist, hu, abs_of_nonneg s0] at h1
          nlinarith
        have hwn : ∀ s, 0 ≤ s → s < 1 → wnAt p (linePoint Y F s) = wnAt p Y := by
          intro s s0 s1
          have := wn_path hpl (γ := linePoint Y F) s0 (line_continuous Y F).continuousOn (fun t t0 t1 => hray t t0 (by linarith))
          rw [hp0] at this
          exact this.symm
        obtain ⟨s, s0, s1, hclose⟩ : ∃ s, 0 ≤ s ∧ s < 1 ∧ (1 - s) * r < |d| := by
          by_cases hrd : r < |d|
          · exact ⟨0, le_rfl, one_pos, by linarith⟩
          · push Not at hrd
            refine ⟨1 - |d| / (2 * r), ?_, ?_, ?_⟩
            · rw [sub_nonneg, div_le_one (by linarith)]; linarith
            · have : 0 < |d| / (2 * r) := by positivity
              linarith
            · rw [sub_sub_cancel]
              have : |d| / (2 * r) * r = |d| / 2 := by field_simp
              rw [this]; linarith
        have e1 := allW_path hl (γ := linePoint Y F) (a := 0) (b := s) (line_continuous Y F).continuousOn (fun x hx r' hr' hon' => by
          rw [Set.uIcc_of_le s0] at hx
          have h1 := sided_val hp hs ha hd ((hcurve _).mp ⟨r', hr', hon'⟩)
          rw [hwn x hx.1 (by linarith [hx.2])] at h1
          exact h h1)
        rw [hp0] at e1
        rw [e1]
        refine hw _ F hFon ?_
        have : edist (linePoint Y F s) F = (1 - s) * r := by
          rw [← hu]
          have h1 : linePoint Y F s = linePoint F Y (1 - s) := by
            rw [V2.ext_iff']; simp only [linePoint]; constructor <;> ring
          rw [h1, linePoint_dist, abs_of_pos (by linarith), edist_comm]
        rw [this]
        exact hclose

end
end Cavc
