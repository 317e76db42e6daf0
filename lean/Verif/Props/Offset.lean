import Verif.Lemmas.OffsetCut
import Verif.Props.OffsetStitch
import Verif.Spec.RatScalar
import Verif.Spec.PlainEnv

/-! # C43, C50: slices of the raw offset polyline, and the whole parallel offset -/

set_option linter.unusedSectionVars false
set_option linter.unusedVariables false

namespace Cavc
open Scalar Pline
variable {T : Type} [Scalar T]

theorem approxIndex_serves (env : Env T) (henv : env.Lawful) (p : Pline T) : (p.approxIndex env).Serves p := by
  unfold Pline.approxIndex Index.Serves
  rw [← approxBoxes_eq]
  exact henv.build_for _

theorem head_getElem {α : Type} {l : List α} (h : 0 < l.length) : l.head? = some l[0] := by
  rw [List.head?_eq_getElem?, List.getElem?_eq_getElem h]

theorem segmentCount_open (p : Pline T) (hc : p.closed = false) : p.segmentCount = p.verts.length - 1 := by
  unfold segmentCount vertexCount
  simp only [hc, Bool.false_eq_true, if_false]
  split_ifs <;> omega

theorem neighbours_cons {α : Type} (a : α) (l : List α) : neighbours (a :: l) = (match l with | [] => [] | b :: _ => [(a, b)]) ++ neighbours l := by
  cases l <;> rfl

/-- self intersect points as cut points -/
theorem selfCuts_spec (raw : Pline T) (idx : Index T) (hidx : idx.Serves raw) (eps : T) :
    ∃ pairs l, raw.Examined eps pairs ∧ allSelfIntersectsAsBasic raw idx false eps = .ok l ∧
      l.flatMap (fun si : BasicIntr T => [(si.startIndex1, si.point), (si.startIndex2, si.point)]) = (raw.visitReports eps pairs .all).flatMap Intr.cutPoints ∧
      (∀ x, x ∈ l.flatMap (fun si : BasicIntr T => [(si.startIndex1, si.point), (si.startIndex2, si.point)]) ↔ SelfCutOf raw eps pairs x) ∧
      ∀ si ∈ l, si.startIndex1 < raw.segmentCount ∧ si.startIndex2 < raw.segmentCount := by
  obtain ⟨pairs, hp, hl⟩ := C38_as_basic raw idx hidx false eps
  have hmem : ∀ b, b ∈ ((raw.visitReports eps pairs .all).flatMap fun e =>
      match e with
      | .basic b => [b]
      | .overlapping q => if false = true then [(⟨q.startIndex1, q.startIndex2, q.point1⟩ : BasicIntr T), ⟨q.startIndex1, q.startIndex2, q.point2⟩] else []) ↔
      .basic b ∈ raw.visitReports eps pairs .all := by
    intro b
    rw [List.mem_flatMap]
    constructor
    · rintro ⟨e, he, hb⟩
      cases e with
      | basic b' => have : b = b' := by simpa using hb
                    rw [this]; exact he
      | overlapping q => simp at hb
    · intro h
      exact ⟨_, h, by simp⟩
  refine ⟨pairs, _, hp, hl, ?_, ?_, ?_⟩
  · rw [List.flatMap_assoc]
    congr 1
    funext e
    cases e <;> simp [Intr.cutPoints]
  · intro x
    rw [List.mem_flatMap]
    unfold SelfCutOf
    constructor
    · rintro ⟨b, hb, hx⟩
      refine ⟨b, (hmem b).mp hb, ?_⟩
      simp only [List.mem_cons, List.not_mem_nil, or_false] at hx
      rcases hx with rfl | rfl
      · exact ⟨rfl, Or.inl rfl⟩
      · exact ⟨rfl, Or.inr rfl⟩
    · rintro ⟨b, hb, h1, h2⟩
      refine ⟨b, (hmem b).mpr hb, ?_⟩
      obtain ⟨i, v⟩ := x
      simp only at h1 h2
      subst h1
      rcases h2 with rfl | rfl <;> simp
  · intro b hb
    have := C38_indexes raw eps pairs hp .all _ ((hmem b).mp hb)
    exact ⟨this.1, this.2.1⟩

theorem mem_ite_nil {α : Type} {c : Bool} {a x : α} : x ∈ (if c = true then [a] else []) ↔ c = true ∧ x = a := by
  cases c <;> simp

theorem circleOfSeg_spec (raw : Pline T) (center : V2 T) (radius eps : T) {i : Nat} {s : Vertex T × Vertex T} (hs : raw.segs[i]? = some s) :
    ∃ l, circleIntersectsOfSeg raw center radius eps i = .ok l ∧ ∀ x, x ∈ l ↔ x.1 = i ∧ CircleCut s center radius eps x.2 := by
  obtain ⟨h1, h2, -⟩ := seg_at raw hs
  have hline : ∀ t, (!isFalseIntersect t && gt (Scalar.abs t) eps) = true ↔ lt t 0 = false ∧ gt t 1 = false ∧ gt (Scalar.abs t) eps = true := by
    intro t
    unfold isFalseIntersect
    cases lt t 0 <;> cases gt t 1 <;> cases gt (Scalar.abs t) eps <;> simp
  unfold circleIntersectsOfSeg
  simp only [h1, h2, bind, Except.bind]
  by_cases hz : s.1.bulgeIsZero = true
  · rw [if_pos hz]
    have hiff : ∀ pt, CircleCut s center radius eps pt ↔ ∃ t ∈ (lineCircleIntr s.1.pos s.2.pos radius center eps).params,
        (!isFalseIntersect t && gt (Scalar.abs t) eps) = true ∧ pt = pointFromParametric s.1.pos s.2.pos t := by
      intro pt
      constructor
      · rintro (⟨t, _, ht, ha, hb, hc, hp⟩ | ⟨h, -⟩)
        · exact ⟨t, ht, (hline t).mpr ⟨ha, hb, hc⟩, hp⟩
        · rw [hz] at h; cases h
      · rintro ⟨t, ht, hv, hp⟩
        obtain ⟨ha, hb, hc⟩ := (hline t).mp hv
        exact .line t hz ht ha hb hc hp
    cases hr : lineCircleIntr s.1.pos s.2.pos radius center eps with
    | noIntersect =>
      refine ⟨_, rfl, ?_⟩
      intro x
      rw [hiff, hr]
      simp [LineCircleIntr.params]
    | tangentIntersect t =>
      refine ⟨_, rfl, ?_⟩
      rintro ⟨j, pt⟩
      rw [mem_ite_nil, hiff, hr]
      simp only [LineCircleIntr.params, List.mem_singleton, exists_eq_left, Prod.mk.injEq]
      tauto
    | twoIntersects t u =>
      refine ⟨_, rfl, ?_⟩
      rintro ⟨j, pt⟩
      rw [List.mem_append, mem_ite_nil, mem_ite_nil, hiff, hr]
      simp only [LineCircleIntr.params, List.mem_cons, List.not_mem_nil, or_false, exists_eq_or_imp, exists_eq_left, Prod.mk.injEq]
      tauto
  · rw [if_neg hz]
    have hz' : s.1.bulgeIsZero = false := by simpa using hz
    have hiff : ∀ pt, CircleCut s center radius eps pt ↔
        pt ∈ (circleCircleIntr (segArcRadiusAndCenter s.1 s.2).1 (segArcRadiusAndCenter s.1 s.2).2 radius center eps).points ∧
        (!s.1.pos.fuzzyEqEps pt eps && pointWithinArcSweep (segArcRadiusAndCenter s.1 s.2).2 s.1.pos s.2.pos (lt s.1.bulge 0) pt eps) = true := by
      intro pt
      constructor
      · rintro (⟨t, h, -⟩ | ⟨_, hm, h1, h2⟩)
        · rw [hz'] at h; cases h
        · exact ⟨hm, by simp [h1, h2]⟩
      · rintro ⟨hm, h⟩
        rw [Bool.and_eq_true, Bool.not_eq_true'] at h
        exact .arc hz' hm h.1 h.2
    cases hr : circleCircleIntr (segArcRadiusAndCenter s.1 s.2).1 (segArcRadiusAndCenter s.1 s.2).2 radius center eps with
    | noIntersect =>
      simp only [hr]
      refine ⟨_, rfl, ?_⟩
      intro x
      rw [hiff, hr]
      simp [CircleCircleIntr.points]
    | overlapping =>
      simp only [hr]
      refine ⟨_, rfl, ?_⟩
      intro x
      rw [hiff, hr]
      simp [CircleCircleIntr.points]
    | tangentIntersect a =>
      simp only [hr]
      refine ⟨_, rfl, ?_⟩
      rintro ⟨j, pt⟩
      rw [mem_ite_nil, hiff, hr]
      simp only [CircleCircleIntr.points, List.mem_singleton, Prod.mk.injEq]
      constructor
      · rintro ⟨h1, rfl, rfl⟩; exact ⟨rfl, rfl, h1⟩
      · rintro ⟨rfl, rfl, h1⟩; exact ⟨h1, rfl, rfl⟩
    | twoIntersects a b =>
      simp only [hr]
      refine ⟨_, rfl, ?_⟩
      rintro ⟨j, pt⟩
      rw [List.mem_append, mem_ite_nil, mem_ite_nil, hiff, hr]
      simp only [CircleCircleIntr.points, List.mem_cons, List.not_mem_nil, or_false, Prod.mk.injEq]
      constructor
      · rintro (⟨h1, rfl, rfl⟩ | ⟨h1, rfl, rfl⟩)
        · exact ⟨rfl, Or.inl rfl, h1⟩
        · exact ⟨rfl, Or.inr rfl, h1⟩
      · rintro ⟨rfl, rfl | rfl, h1⟩
        · exact Or.inl ⟨h1, rfl, rfl⟩
        · exact Or.inr ⟨h1, rfl, rfl⟩

theorem circleIntersects_spec (raw : Pline T) (center : V2 T) (radius : T) (idx : Index T) (hidx : idx.Serves raw) (eps : T) :
    ∃ l, circleIntersects raw center radius idx eps = .ok l ∧ ∀ x, x ∈ l ↔ CircleCutOf raw center radius eps x := by
  obtain ⟨hq1, hq2⟩ := seg_of_query hidx (q := ⟨center.x - radius, center.y - radius, center.x + radius, center.y + radius⟩)
  obtain ⟨rs, hrs, hrel⟩ := mapM_rel (f := circleIntersectsOfSeg raw center radius eps)
    (l := idx.query ⟨center.x - radius, center.y - radius, center.x + radius, center.y + radius⟩)
    (R := fun i l => ∃ s, raw.segs[i]? = some s ∧
      (segBox s).overlaps ⟨center.x - radius, center.y - radius, center.x + radius, center.y + radius⟩ = true ∧
      ∀ x, x ∈ l ↔ x.1 = i ∧ CircleCut s center radius eps x.2) (by
      intro i hi
      obtain ⟨s, hs, hov⟩ := hq1 i hi
      obtain ⟨l, hl, hx⟩ := circleOfSeg_spec raw center radius eps hs
      exact ⟨l, hl, s, hs, hov, hx⟩)
  unfold circleIntersects
  simp only [hrs, bind, Except.bind]
  refine ⟨_, rfl, ?_⟩
  intro x
  rw [List.mem_flatten]
  constructor
  · rintro ⟨l, hl, hx⟩
    obtain ⟨i, hi, s, hs, hov, h⟩ := forall2_mem_right hrel hl
    obtain ⟨h1, h2⟩ := (h x).mp hx
    exact ⟨s, by rw [h1]; exact hs, hov, h2⟩
  · rintro ⟨s, hs, hov, hx⟩
    obtain ⟨l, hl, s', hs', -, h⟩ := forall2_mem_left hrel (hq2 x.1 s hs hov)
    rw [hs] at hs'
    cases hs'
    exact ⟨l, hl, (h x).mpr ⟨rfl, hx⟩⟩

theorem mapPairs_head {α : Type} {e : Nat × List α} {m : List (Nat × List α)} {f : α} {t : List α} (h : e.2 = f :: t) :
    mapPairs (e :: m) = (e.1, f) :: (t.map (fun v => (e.1, v)) ++ mapPairs m) := by
  rw [mapPairs_cons, h]; rfl

theorem entire_ok (raw : Pline T) (h2 : 2 ≤ raw.verts.length) : ∃ s, ViewData.fromEntirePline raw = .ok s ∧ s.InRange raw ∧ s.inverted = false := by
  have h0 : 0 < raw.verts.length := by omega
  have ha : raw.verts.length - 2 < raw.verts.length := by omega
  have hb : raw.verts.length - 1 < raw.verts.length := by omega
  obtain ⟨l, hl, -⟩ := last_ok raw (by intro h; simp [h] at h0)
  unfold ViewData.fromEntirePline vertexCount
  dsimp only
  rw [if_neg (by omega)]
  split
  · simp only [at_lt h0, hl, bind, Except.bind]
    exact ⟨_, rfl, ⟨h0, by show raw.verts.length - 1 ≤ _; omega⟩, rfl⟩
  · simp only [at_lt h0, at_lt ha, at_lt hb, bind, Except.bind]
    exact ⟨_, rfl, ⟨h0, by show raw.verts.length - 2 ≤ _; omega⟩, rfl⟩

/-- the slices, given the cut points -/
theorem slices_whole {p raw : Pline T} {offset eps tol : T} (h2 : 2 ≤ raw.verts.length) {valid : V2 T → M Bool} {intersects : Vertex T → Vertex T → M Bool}
    (ht : Tests p offset eps tol valid intersects) :
    ∃ ss, (do
      let r0 ← raw.at 0
      if !(← valid r0.pos) then .ok []
      else do
        let s ← ViewData.fromEntirePline raw
        .ok [s] : M (List (ViewData T))) = .ok ss ∧ OffsetSlices p raw offset eps tol [] ss := by
  have h0 : 0 < raw.verts.length := by omega
  obtain ⟨b, hb, hiff⟩ := ht.point raw.verts[0].pos
  obtain ⟨s, hs, -⟩ := entire_ok raw h2
  simp only [at_lt h0, hb, hs, bind, Except.bind]
  cases b with
  | false =>
    have hnot : ¬ PointClear p offset eps tol raw.verts[0].pos := fun h => by simpa using hiff.mpr h
    refine ⟨[], by simp, ?_, fun h => absurd rfl h⟩
    intro _ v hv
    rw [head_getElem h0] at hv
    cases hv
    exact ⟨fun h => absurd h hnot, fun _ => rfl⟩
  | true =>
    have hyes : PointClear p offset eps tol raw.verts[0].pos := hiff.mp rfl
    refine ⟨[s], by simp, ?_, fun h => absurd rfl h⟩
    intro _ v hv
    rw [head_getElem h0] at hv
    cases hv
    exact ⟨fun _ => ⟨s, hs, rfl⟩, fun h => absurd hyes h⟩

theorem slicesFromRaw_spec (env : Env T) (henv : env.Lawful) (p raw : Pline T) (idx : Index T) (hidx : idx.Serves p) (offset : T)
    (opts : OffsetOptions T) (hc : p.closed = true) (h2 : 2 ≤ raw.verts.length) :
    ∃ ss es, slicesFromRawOffset env p raw idx offset opts = .ok ss ∧ CutsSingle raw opts.posEqualEps es ∧
      OffsetSlices p raw offset opts.posEqualEps opts.offsetDistEps es ss := by
  have ht := tests_ok p idx hidx offset opts.posEqualEps opts.offsetDistEps
  obtain ⟨pairs, l, hp, hl, hes, hx, hlt⟩ := selfCuts_spec raw _ (approxIndex_serves env henv raw) opts.posEqualEps
  unfold slicesFromRawOffset
  rw [if_neg (show ¬ raw.vertexCount < 2 from Nat.not_lt.mpr h2)]
  simp only [hl, bind, Except.bind]
  by_cases hemp : l = []
  · subst hemp
    obtain ⟨ss, h1, h3⟩ := slices_whole h2 ht
    simp only [bind, Except.bind] at h1
    simp only [List.isEmpty_nil, if_true]
    exact ⟨ss, [], h1, ⟨pairs, hp, hes, hx⟩, h3⟩
  · have : l.isEmpty = false := by simpa using hemp
    simp only [this, Bool.false_eq_true, if_false]
    have hltes : ∀ e ∈ l.flatMap (fun si : BasicIntr T => [(si.startIndex1, si.point), (si.startIndex2, si.point)]), e.1 < raw.verts.length := by
      intro e he
      rw [List.mem_flatMap] at he
      obtain ⟨si, hsi, he⟩ := he
      have := hlt si hsi
      have hle := segmentCount_le raw
      simp only [List.mem_cons, List.not_mem_nil, or_false] at he
      rcases he with rfl | rfl <;> dsimp only <;> omega
    have hesne : l.flatMap (fun si : BasicIntr T => [(si.startIndex1, si.point), (si.startIndex2, si.point)]) ≠ [] := by
      cases l with
      | nil => exact absurd rfl hemp
      | cons a l => simp
    generalize l.flatMap (fun si : BasicIntr T => [(si.startIndex1, si.point), (si.startIndex2, si.point)]) = es at hes hx hltes hesne
    obtain ⟨lookup, hlk, htab⟩ := buildIntrLookup_spec env henv raw es hltes
    rw [hlk]
    simp only
    have hkl : ∀ e ∈ lookup, e.1 < raw.verts.length := by
      intro e he
      obtain ⟨v, hv⟩ := List.exists_mem_of_ne_nil _ (htab.nonempty e he)
      exact hltes (e.1, v) (htab.order.perm.mem_iff.mp (mem_mapPairs.mpr ⟨e, he, rfl, hv⟩))
    have hlne : lookup ≠ [] := by
      rintro rfl
      have := htab.order.perm
      simp only [mapPairs, List.flatMap_nil] at this
      exact hesne this.nil_eq.symm
    obtain ⟨tm, htm⟩ : ∃ tm, (mapPairs lookup).head? = some tm := by
      cases hh : mapPairs lookup with
      | nil =>
        have := htab.order.perm
        rw [hh] at this
        exact absurd this.nil_eq.symm hesne
      | cons a t => exact ⟨a, rfl⟩
    obtain ⟨ss, hss, hk⟩ := offsetSliceLoop_ok ht lookup true hkl (by simp) htab.keys htab.nonempty tm (by simpa using htm) [] lookup rfl hlne
    refine ⟨ss, es, hss, ⟨pairs, hp, hes, hx⟩, fun h => absurd h hesne, fun _ => ?_⟩
    have h0 : 0 < raw.verts.length := by omega
    refine ⟨mapPairs lookup, _, _, htab.order, head_getElem h0, List.getLast?_eq_getLast_of_ne_nil (by intro h; simp [h] at h0), ?_⟩
    unfold gapsOf
    rw [hc, if_pos rfl]
    have : (mapPairs lookup).take 1 = [tm] := by
      cases hh : mapPairs lookup with
      | nil => rw [hh] at htm; simp at htm
      | cons a t => rw [hh] at htm; simpa using htm
    rw [this]
    exact hk

theorem slicesFromDual_spec (env : Env T) (henv : env.Lawful) (p raw dual : Pline T) (idx : Index T) (hidx : idx.Serves p) (offset : T)
    (opts : OffsetOptions T) (hp2 : 0 < p.verts.length) (h2 : 2 ≤ raw.verts.length) (hrc : raw.closed = p.closed) :
    ∃ ss es di, slicesFromDualRawOffsets env p raw dual idx offset opts = .ok ss ∧
      findIntersects env raw dual (some (raw.approxIndex env)) opts.posEqualEps = .ok di ∧
      CutsDual p raw offset opts.posEqualEps di.basic es ∧
      OffsetSlices p raw offset opts.posEqualEps opts.offsetDistEps es ss := by
  have ht := tests_ok p idx hidx offset opts.posEqualEps opts.offsetDistEps
  have hri := approxIndex_serves env henv raw
  obtain ⟨pairs, l, hp, hl, -, hx, hlt⟩ := selfCuts_spec raw _ hri opts.posEqualEps
  obtain ⟨di, hdi, -, hdb⟩ := C37_result env raw dual (some (raw.approxIndex env)) opts.posEqualEps hri
  have hpne : p.verts ≠ [] := List.length_pos_iff.mp hp2
  obtain ⟨pl, hpl, hpl'⟩ := last_ok p hpne
  obtain ⟨c1, hc1, hx1⟩ := circleIntersects_spec raw p.verts[0].pos (Scalar.abs offset) _ hri opts.posEqualEps
  obtain ⟨c2, hc2, hx2⟩ := circleIntersects_spec raw pl.pos (Scalar.abs offset) _ hri opts.posEqualEps
  have hcirc : ∃ circles, endCircleCuts p raw offset (raw.approxIndex env) opts.posEqualEps = .ok circles ∧
      ∀ x, x ∈ circles ↔ p.closed = false ∧ ∃ v, (p.verts.head? = some v ∨ p.verts.getLast? = some v) ∧
        CircleCutOf raw v.pos (Scalar.abs offset) opts.posEqualEps x := by
    unfold endCircleCuts
    cases hcl : p.closed with
    | true => exact ⟨[], rfl, by simp⟩
    | false =>
      simp only [Bool.not_false, if_true, at_lt hp2, hc1, hpl, hc2, bind, Except.bind]
      refine ⟨_, rfl, ?_⟩
      intro x
      rw [List.mem_append, hx1, hx2, head_getElem hp2, hpl']
      simp only [Option.some.injEq, true_and]
      constructor
      · rintro (h | h)
        · exact ⟨_, Or.inl rfl, h⟩
        · exact ⟨_, Or.inr rfl, h⟩
      · rintro ⟨v, rfl | rfl, h⟩
        · exact Or.inl h
        · exact Or.inr h
  obtain ⟨circles, hcr, hxc⟩ := hcirc
  unfold slicesFromDualRawOffsets
  rw [if_neg (show ¬ raw.vertexCount < 2 from Nat.not_lt.mpr h2)]
  simp only [hl, hdi, hcr, bind, Except.bind]
  have hmem : ∀ x, x ∈ circles ++ l.flatMap (fun si : BasicIntr T => [(si.startIndex1, si.point), (si.startIndex2, si.point)])
      ++ di.basic.map (fun i => (i.startIndex1, i.point)) ↔ SelfCutOf raw opts.posEqualEps pairs x ∨
      (∃ b ∈ di.basic, x = (b.startIndex1, b.point)) ∨
      (p.closed = false ∧ ∃ v, (p.verts.head? = some v ∨ p.verts.getLast? = some v) ∧
        CircleCutOf raw v.pos (Scalar.abs offset) opts.posEqualEps x) := by
    intro x
    rw [List.mem_append, List.mem_append, hx, hxc, List.mem_map]
    constructor
    · rintro ((h | h) | ⟨b, hb, rfl⟩)
      · exact Or.inr (Or.inr h)
      · exact Or.inl h
      · exact Or.inr (Or.inl ⟨b, hb, rfl⟩)
    · rintro (h | ⟨b, hb, rfl⟩ | h)
      · exact Or.inl (Or.inr h)
      · exact Or.inr ⟨b, hb, rfl⟩
      · exact Or.inl (Or.inl h)
  have hseg : ∀ x ∈ circles ++ l.flatMap (fun si : BasicIntr T => [(si.startIndex1, si.point), (si.startIndex2, si.point)])
      ++ di.basic.map (fun i => (i.startIndex1, i.point)), x.1 < raw.segmentCount := by
    intro x hx'
    rcases (hmem x).mp hx' with h | ⟨b, hb, rfl⟩ | ⟨-, v, -, s, hs, -⟩
    · rw [← hx x, List.mem_flatMap] at h
      obtain ⟨si, hsi, he⟩ := h
      have := hlt si hsi
      simp only [List.mem_cons, List.not_mem_nil, or_false] at he
      rcases he with rfl | rfl
      · exact this.1
      · exact this.2
    · obtain ⟨s1, -, hs1, -⟩ := (hdb b).mp hb
      exact (seg_at raw hs1).2.2.1
    · exact (seg_at raw hs).2.2.1
  generalize circles ++ l.flatMap (fun si : BasicIntr T => [(si.startIndex1, si.point), (si.startIndex2, si.point)])
      ++ di.basic.map (fun i => (i.startIndex1, i.point)) = es at hmem hseg
  by_cases hemp : es = []
  · subst hemp
    obtain ⟨ss, h1, h3⟩ := slices_whole h2 ht
    simp only [bind, Except.bind] at h1
    simp only [List.isEmpty_nil, if_true]
    exact ⟨ss, [], di, h1, rfl, ⟨pairs, hp, hmem⟩, h3⟩
  · have : es.isEmpty = false := by simpa using hemp
    simp only [this, Bool.false_eq_true, if_false]
    have hle := segmentCount_le raw
    have hltes : ∀ e ∈ es, e.1 < raw.verts.length := fun e he => Nat.lt_of_lt_of_le (hseg e he) hle
    obtain ⟨lookup, hlk, htab⟩ := buildIntrLookup_spec env henv raw es hltes
    rw [hlk]
    simp only
    have hkseg : ∀ e ∈ lookup, e.1 < raw.segmentCount := by
      intro e he
      obtain ⟨v, hv⟩ := List.exists_mem_of_ne_nil _ (htab.nonempty e he)
      exact hseg (e.1, v) (htab.order.perm.mem_iff.mp (mem_mapPairs.mpr ⟨e, he, rfl, hv⟩))
    have hkl : ∀ e ∈ lookup, e.1 < raw.verts.length := fun e he => Nat.lt_of_lt_of_le (hkseg e he) hle
    obtain ⟨e0, lrest, hl0⟩ : ∃ e0 lrest, lookup = e0 :: lrest := by
      cases hh : lookup with
      | nil =>
        have := htab.order.perm
        rw [hh] at this
        simp only [mapPairs, List.flatMap_nil] at this
        exact absurd this.nil_eq.symm hemp
      | cons e0 lrest => exact ⟨e0, lrest, rfl⟩
    have he0 : e0 ∈ lookup := by rw [hl0]; simp
    obtain ⟨f, t, hf⟩ : ∃ f t, e0.2 = f :: t := by
      cases hh : e0.2 with
      | nil => exact absurd hh (htab.nonempty e0 he0)
      | cons f t => exact ⟨f, t, rfl⟩
    have hcuts := mapPairs_head (m := lrest) hf
    rw [← hl0] at hcuts
    have h0 : 0 < raw.verts.length := by omega
    have hrne : raw.verts ≠ [] := List.length_pos_iff.mp h0
    have hrl := List.getLast?_eq_getLast_of_ne_nil hrne
    have hlne : lookup ≠ [] := by rw [hl0]; simp
    cases hc : p.closed with
    | true =>
      have hfirst : ∀ valid intersects, firstOpenSlice p raw lookup valid intersects opts.posEqualEps = .ok [] := by
        intro valid intersects
        simp only [firstOpenSlice, hc, Bool.not_true, Bool.false_eq_true, if_false]
      rw [hfirst]
      obtain ⟨ss, hss, hk⟩ := offsetSliceLoop_ok ht lookup true hkl (by simp) htab.keys htab.nonempty (e0.1, f)
        (by rw [if_pos rfl, hcuts]; rfl) [] lookup rfl hlne
      simp only [hss]
      refine ⟨[] ++ ss, es, di, rfl, rfl, ⟨pairs, hp, by rw [hc] at hmem; rw [hc]; exact hmem⟩, fun h => absurd h hemp, fun _ => ?_⟩
      refine ⟨mapPairs lookup, _, _, htab.order, head_getElem h0, hrl, ?_⟩
      unfold gapsOf
      rw [hc, if_pos rfl, List.nil_append]
      rw [hcuts] at hk ⊢
      exact hk
    | false =>
      have hopen := segmentCount_open raw (by rw [hrc, hc])
      obtain ⟨o, s1, g1, g2, g3⟩ := gap_ok (raw := raw) ht (0, raw.verts[0].pos) (e0.1, f) h0 (hkl e0 he0)
      obtain ⟨ss, hss, hk⟩ := offsetSliceLoop_ok ht lookup false hkl (by intro _ e he; have := hkseg e he; omega) htab.keys htab.nonempty
        (raw.verts.length - 1, (raw.verts.getLast hrne).pos) (by simp only [Bool.false_eq_true, if_false]; exact ⟨trivial, _, hrl, rfl⟩) [] lookup rfl hlne
      have hhead : lookup.head? = some e0 := by rw [hl0]; rfl
      simp only at g1
      have hfirst : firstOpenSlice p raw lookup (fun pt => pointValidForOffset p offset idx pt opts.posEqualEps opts.offsetDistEps)
          (intersectsOriginal p idx opts.posEqualEps) opts.posEqualEps = .ok s1 := by
        simp only [firstOpenSlice, hc, Bool.not_false, if_true, hhead, unwrap, hf, at_lt h0, g1, g2, bind, Except.bind]
      simp only [hfirst, hss]
      refine ⟨s1 ++ ss, es, di, rfl, rfl, ⟨pairs, hp, by rw [hc] at hmem; rw [hc]; exact hmem⟩, fun h => absurd h hemp, fun _ => ?_⟩
      refine ⟨mapPairs lookup, _, _, htab.order, head_getElem h0, hrl, ?_⟩
      unfold gapsOf
      rw [hc, if_neg (by simp)]
      have hg : neighbours ([((0 : Nat), raw.verts[0].pos)] ++ mapPairs lookup ++ [(raw.verts.length - 1, (raw.verts.getLast hrne).pos)])
          = [((0, raw.verts[0].pos), (e0.1, f))] ++ neighbours (mapPairs lookup ++ [(raw.verts.length - 1, (raw.verts.getLast hrne).pos)]) := by
        rw [hcuts]; rfl
      rw [hg]
      exact g3.append hk

theorem kept_clear {p raw : Pline T} {offset eps tol : T} {gs : List ((Nat × V2 T) × (Nat × V2 T))} {ss : List (ViewData T)}
    (h : KeptSlices p raw offset eps tol gs ss) : ∀ s ∈ ss, SliceClear p raw offset eps tol s := by
  induction h with
  | nil => simp
  | empty _ _ _ _ _ _ ih => exact ih
  | dropped _ _ _ _ _ _ _ _ ih => exact ih
  | kept a b s gs ss _ hc _ ih =>
    intro s' hs'
    rcases List.mem_cons.mp hs' with rfl | h
    · exact hc
    · exact ih s' h

theorem slices_read {p raw : Pline T} {offset eps tol : T} {es : List (Nat × V2 T)} {ss : List (ViewData T)} (h2 : 2 ≤ raw.verts.length)
    (h : OffsetSlices p raw offset eps tol es ss) : ∀ s ∈ ss, ∃ vs, s.Reads raw vs := by
  intro s hs
  by_cases he : es = []
  · have h0 : 0 < raw.verts.length := by omega
    obtain ⟨ha, hb⟩ := h.whole he _ (head_getElem h0)
    by_cases hc : PointClear p offset eps tol raw.verts[0].pos
    · obtain ⟨s', hs', rfl⟩ := ha hc
      obtain rfl : s = s' := by simpa using hs
      obtain ⟨s'', hs'', hr, hi⟩ := entire_ok raw h2
      rw [hs'] at hs''
      cases hs''
      obtain ⟨q, hq, hqc, hsl⟩ := s.forward_slice raw hr hi
      refine ⟨q.verts, by rw [hq, ← hqc], ?_⟩
      intro h
      have := hsl.count
      rw [h] at this
      simp at this
    · rw [hb hc] at hs; simp at hs
  · obtain ⟨cuts, f, l, -, -, -, hk⟩ := h.pieces he
    obtain ⟨vs, hv, -⟩ := (kept_clear hk s hs).clear
    exact ⟨vs, hv⟩

theorem joined_ok (env : Env T) (henv : env.Lawful) (raw : Pline T) (ss : List (ViewData T)) (isClosed : Bool) (omi : Nat) (opts : OffsetOptions T)
    (hread : ∀ s ∈ ss, ∃ vs, s.Reads raw vs) :
    ∃ rs, stitchSlicesTogether env raw ss isClosed omi opts = .ok rs ∧ OffsetJoined raw ss isClosed opts.posEqualEps opts.sliceJoinEps rs := by
  by_cases h1 : ss.length = 1
  · obtain ⟨s, rfl⟩ := List.length_eq_one_iff.mp h1
    obtain ⟨vs, hv⟩ := hread s (by simp)
    obtain ⟨r, ws, a, b, hr, hw, ha, hb, he⟩ := C44_single env raw s isClosed omi opts vs hv
    refine ⟨[r], hr, ?_, fun h => absurd h1 h⟩
    intro s' hs'
    obtain rfl : s = s' := by simpa using hs'
    exact ⟨vs, ws, a, b, hv, hw, ha, hb, by rw [he]⟩
  · obtain ⟨rs, useds, hr, hs, hp⟩ := C44_stitch env henv raw ss isClosed omi opts h1 hread
    refine ⟨rs, hr, ?_, fun _ => ⟨useds, hs, hp⟩⟩
    rintro s rfl
    simp at h1

/-- C43/C44: `parallel_offset` returns normally for every polyline, offset and tolerances.  Unless
the input has fewer than two vertexes or the raw offset polyline is empty, the results are the raw
offset polyline cut at all its self intersects (and, where self intersects of the input are handled,
at its intersects with the raw offset of the other side and with the circles around the ends), where
exactly those pieces are kept that are clear of the input, and every kept piece is used once. -/
theorem C43_parallel_offset (env : Env T) (henv : env.Lawful) (p : Pline T) (offset : T) (opts : OffsetOptions T)
    (hidx : ∀ idx, opts.aabbIndex = some idx → idx.Serves p) :
    ∃ rs, parallelOffset env p offset opts = .ok rs ∧
      (p.verts.length < 2 → rs = []) ∧
      (2 ≤ p.verts.length → ∃ raw, createRawOffsetPolyline p offset opts.posEqualEps = .ok raw ∧
        (raw.verts = [] → rs = []) ∧
        (raw.verts ≠ [] → 2 ≤ raw.verts.length ∧ raw.closed = p.closed ∧ ∃ es ss, OffsetOf env p offset opts raw es ss rs)) := by
  have hsv : (opts.aabbIndex.getD (p.approxIndex env)).Serves p := by
    cases h : opts.aabbIndex with
    | none => exact approxIndex_serves env henv p
    | some idx => exact hidx idx h
  unfold parallelOffset
  by_cases hp : p.verts.length < 2
  · rw [if_pos (show p.vertexCount < 2 from hp)]
    exact ⟨[], rfl, fun _ => rfl, fun h => by omega⟩
  · rw [if_neg (show ¬ p.vertexCount < 2 from hp)]
    obtain ⟨raw, hraw, hr⟩ := rawOffset_ok p offset opts.posEqualEps
    simp only [hraw, bind, Except.bind]
    rcases hr with hnil | ⟨h2, hrc⟩
    · have : raw.isEmpty = true := by simp [Pline.isEmpty, vertexCount, hnil]
      simp only [this, if_true]
      exact ⟨[], rfl, fun _ => rfl, fun _ => ⟨raw, rfl, fun _ => rfl, fun h => absurd hnil h⟩⟩
    · have hne : raw.verts ≠ [] := by intro h; simp [h] at h2
      have : raw.isEmpty = false := by
        simp only [Pline.isEmpty, vertexCount]
        simpa using hne
      simp only [this, Bool.false_eq_true, if_false]
      by_cases hcase : p.closed = true ∧ opts.handleSelfIntersects = false
      · obtain ⟨ss, es, h1, h3, h4⟩ := slicesFromRaw_spec env henv p raw _ hsv offset opts hcase.1 h2
        obtain ⟨rs, h5, h6⟩ := joined_ok env henv raw ss true (raw.vertexCount - 1) opts (slices_read h2 h4)
        simp only [hcase.1, hcase.2, Bool.not_false, Bool.and_self, if_true, h1, h5]
        refine ⟨rs, rfl, fun h => absurd h hp, fun _ => ⟨raw, rfl, fun h => absurd h hne, fun _ => ⟨h2, hcase.1 ▸ hrc, es, ss, fun _ _ => h3, fun h => absurd hcase h, h4, ?_⟩⟩⟩
        rw [hcase.1]; exact h6
      · have : (p.closed && !opts.handleSelfIntersects) = false := by
          cases hc : p.closed <;> cases hh : opts.handleSelfIntersects <;> simp_all
        obtain ⟨dual, hd, -⟩ := rawOffset_ok p (-offset) opts.posEqualEps
        obtain ⟨ss, es, di, h1, hdi, h3, h4⟩ := slicesFromDual_spec env henv p raw dual _ hsv offset opts (by omega) h2 hrc
        obtain ⟨rs, h5, h6⟩ := joined_ok env henv raw ss p.closed raw.vertexCount opts (slices_read h2 h4)
        simp only [this, Bool.false_eq_true, if_false, hd, h1, h5]
        exact ⟨rs, rfl, fun h => absurd h hp, fun _ => ⟨raw, rfl, fun h => absurd h hne, fun _ => ⟨h2, hrc, es, ss,
          fun a b => absurd ⟨a, b⟩ hcase, fun _ => ⟨dual, di, hd, hdi, h3⟩, h4, h6⟩⟩⟩

theorem appendVertex_pos (eps : T) (acc : List (Vertex T)) (v : Vertex T) {w : Vertex T} (h : w ∈ appendVertex eps acc v) :
    w.pos = v.pos ∨ ∃ u ∈ acc, w.pos = u.pos := by
  unfold appendVertex at h
  cases hl : acc.getLast? with
  | none => rw [hl] at h; left; rw [List.mem_singleton.mp h]
  | some l =>
    rw [hl] at h
    simp only at h
    split at h
    · rcases List.mem_append.mp h with h | h
      · exact Or.inr ⟨w, List.mem_of_mem_dropLast h, rfl⟩
      · rw [List.mem_singleton.mp h]
        exact Or.inr ⟨l, List.mem_of_getLast? hl, rfl⟩
    · rcases List.mem_append.mp h with h | h
      · exact Or.inr ⟨w, h, rfl⟩
      · rw [List.mem_singleton.mp h]; exact Or.inl rfl

theorem appendVertexes_pos (eps : T) (vs acc : List (Vertex T)) {w : Vertex T} (h : w ∈ appendVertexes eps acc vs) :
    ∃ u, (u ∈ acc ∨ u ∈ vs) ∧ w.pos = u.pos := by
  induction vs generalizing acc with
  | nil => exact ⟨w, Or.inl h, rfl⟩
  | cons v vs ih =>
    obtain ⟨u, hu, he⟩ := ih (appendVertex eps acc v) h
    rcases hu with hu | hu
    · rcases appendVertex_pos eps acc v hu with h1 | ⟨u', hu', h1⟩
      · exact ⟨v, Or.inr (by simp), he.trans h1⟩
      · exact ⟨u', Or.inl hu', he.trans h1⟩
    · exact ⟨u, Or.inr (by simp [hu]), he⟩

theorem chainVertexes_pos (eps : T) (vss : List (List (Vertex T))) {w : Vertex T} (h : w ∈ chainVertexes eps vss) :
    ∃ vs ∈ vss, ∃ u ∈ vs, w.pos = u.pos := by
  have gen : ∀ (vss : List (List (Vertex T))) acc, w ∈ vss.foldl (fun acc vs => appendVertexes eps acc.dropLast vs) acc →
      (∃ u ∈ acc, w.pos = u.pos) ∨ ∃ vs ∈ vss, ∃ u ∈ vs, w.pos = u.pos := by
    intro vss
    induction vss with
    | nil => intro acc h; exact Or.inl ⟨w, h, rfl⟩
    | cons vs vss ih =>
      intro acc h
      rcases ih _ h with ⟨u, hu, he⟩ | ⟨vs', hv, u, hu, he⟩
      · obtain ⟨u', hu', he'⟩ := appendVertexes_pos eps vs _ hu
        rcases hu' with h1 | h1
        · exact Or.inl ⟨u', List.mem_of_mem_dropLast h1, he.trans he'⟩
        · exact Or.inr ⟨vs, by simp, u', h1, he.trans he'⟩
      · exact Or.inr ⟨vs', by simp [hv], u, hu, he⟩
  rcases gen vss [] h with ⟨u, hu, -⟩ | h
  · simp at hu
  · exact h

theorem chainResult_mem {isClosed : Bool} {eps : T} {vs : List (Vertex T)} {rs : List (Pline T)} (h : ChainResult isClosed eps vs rs)
    {r : Pline T} (hr : r ∈ rs) : ∀ v ∈ r.verts, v ∈ vs := by
  cases h with
  | tooShort => simp at hr
  | closed a b => rw [List.mem_singleton.mp hr]; exact fun v hv => List.mem_of_mem_dropLast hv
  | «open» a b => rw [List.mem_singleton.mp hr]; exact fun v hv => hv

/-- every vertex of a stitched polyline is at a vertex of one of the slices -/
theorem joined_pos {raw : Pline T} {ss : List (ViewData T)} {isClosed : Bool} {eps joinEps : T} {rs : List (Pline T)}
    (h : OffsetJoined raw ss isClosed eps joinEps rs) : ∀ r ∈ rs, ∀ v ∈ r.verts, ∃ s ∈ ss, ∃ vs, s.Reads raw vs ∧ ∃ u ∈ vs, v.pos = u.pos := by
  intro r hr v hv
  by_cases h1 : ss.length = 1
  · obtain ⟨s, rfl⟩ := List.length_eq_one_iff.mp h1
    obtain ⟨vs, ws, a, b, h2, h3, -, -, h4⟩ := h.single s rfl
    rw [h4, List.mem_singleton] at hr
    have : v ∈ ws := by
      rw [hr] at hv
      split at hv
      · exact List.mem_of_mem_dropLast hv
      · exact hv
    rw [h3] at this
    obtain ⟨u, hu, he⟩ := appendVertexes_pos eps vs [] this
    rcases hu with hu | hu
    · simp at hu
    · exact ⟨s, by simp, vs, h2, u, hu, he⟩
  · obtain ⟨useds, h2, -⟩ := h.several h1
    clear h
    generalize ([] : List Nat) = before at h2
    induction h2 with
    | nil => simp at hr
    | cons before used useds rs more hround _ ih =>
      rcases List.mem_append.mp hr with hr | hr
      · obtain ⟨vs, hch, -, hres⟩ := hround
        have hv' := chainResult_mem hres hr v hv
        obtain ⟨ss', vss, hm, hf, rfl⟩ := hch.chain
        obtain ⟨ws, hws, u, hu, he⟩ := chainVertexes_pos eps vss hv'
        obtain ⟨s, hs, hreads⟩ := forall2_mem_right hf hws
        have : some s ∈ used.map (fun i => ss[i]?) := by rw [hm]; exact List.mem_map.mpr ⟨s, hs, rfl⟩
        obtain ⟨i, -, hi⟩ := List.mem_map.mp this
        exact ⟨s, List.mem_of_getElem? hi, ws, hreads, u, hu, he⟩
      · exact ih hr

/-- C43: every vertex of every result of `parallel_offset` is clear of the input -- all segments of the
input near it are further away than the offset distance less the tolerance -- unless the raw offset
polyline was not cut at all, in which case only its first vertex is tested. -/
theorem C43_vertexes_clear_partial (env : Env T) (henv : env.Lawful) (p : Pline T) (offset : T) (opts : OffsetOptions T)
    (hidx : ∀ idx, opts.aabbIndex = some idx → idx.Serves p) :
    ∃ rs, parallelOffset env p offset opts = .ok rs ∧
      ((∀ r ∈ rs, ∀ v ∈ r.verts, PointClear p offset opts.posEqualEps opts.offsetDistEps v.pos) ∨
       ∃ raw v ss, createRawOffsetPolyline p offset opts.posEqualEps = .ok raw ∧ raw.verts.head? = some v ∧
         PointClear p offset opts.posEqualEps opts.offsetDistEps v.pos ∧ OffsetOf env p offset opts raw [] ss rs) := by
  obtain ⟨rs, hrs, hsmall, hbig⟩ := C43_parallel_offset env henv p offset opts hidx
  refine ⟨rs, hrs, ?_⟩
  by_cases hp : p.verts.length < 2
  · rw [hsmall hp]; left; simp
  obtain ⟨raw, hraw, hnil, hne⟩ := hbig (by omega)
  by_cases hr : raw.verts = []
  · rw [hnil hr]; left; simp
  obtain ⟨h2, -, es, ss, hof⟩ := hne hr
  by_cases he : es = []
  · subst he
    have h0 : 0 < raw.verts.length := by omega
    by_cases hc : PointClear p offset opts.posEqualEps opts.offsetDistEps raw.verts[0].pos
    · exact Or.inr ⟨raw, _, ss, hraw, head_getElem h0, hc, hof⟩
    · have hss := (hof.slices.whole rfl _ (head_getElem h0)).2 hc
      left
      intro r hr' v hv
      obtain ⟨s, hs, -⟩ := joined_pos hof.joined r hr' v hv
      rw [hss] at hs
      simp at hs
  · left
    intro r hr' v hv
    obtain ⟨s, hs, vs, hreads, u, hu, heq⟩ := joined_pos hof.joined r hr' v hv
    obtain ⟨cuts, f, l, -, -, -, hk⟩ := hof.slices.pieces he
    obtain ⟨vs', hv', hclear, -⟩ := (kept_clear hk s hs).clear
    have : vs' = vs := by
      have := hv'.1.symm.trans hreads.1
      simpa using this
    subst this
    rw [heq]
    exact hclear u hu

/-! The hypotheses hold for every polyline with the scanning index; an open polyline that crosses itself,
offset to the left: the raw offset crosses itself and passes the ends of the input, and the clear pieces
are left over. -/

example : (Env.plain : Env Rat).Lawful ∧ ∀ idx, (⟨none, false, 1 / 100000, 1 / 10000, 1 / 10000⟩ : OffsetOptions Rat).aabbIndex = some idx →
    idx.Serves (⟨[⟨0, 0, 0⟩, ⟨8, 0, 0⟩, ⟨8, 8, 0⟩, ⟨4, 8, 0⟩, ⟨4, -6, 0⟩], false⟩ : Pline Rat) :=
  ⟨Env.plain_lawful, fun _ h => by cases h⟩

example : parallelOffset Env.plain (⟨[⟨0, 0, 0⟩, ⟨8, 0, 0⟩, ⟨8, 8, 0⟩, ⟨4, 8, 0⟩, ⟨4, -6, 0⟩], false⟩ : Pline Rat) 1
      ⟨none, false, 1 / 100000, 1 / 10000, 1 / 10000⟩
    = .ok [⟨[⟨0, 1, 0⟩, ⟨3, 1, 0⟩], false⟩, ⟨[⟨5, 1, 0⟩, ⟨7, 1, 0⟩, ⟨7, 7, 0⟩, ⟨5, 7, 0⟩, ⟨5, 1, 0⟩], false⟩,
        ⟨[⟨5, -1, 0⟩, ⟨5, -6, 0⟩], false⟩] := by decide +kernel

/-- A closed polyline that is smaller than twice the offset has no inner offset. -/
example : parallelOffset Env.plain (⟨[⟨0, 0, 0⟩, ⟨4, 0, 0⟩, ⟨4, 4, 0⟩, ⟨0, 4, 0⟩], true⟩ : Pline Rat) 3
      ⟨none, false, 1 / 100000, 1 / 10000, 1 / 10000⟩ = .ok [] ∧
    parallelOffset Env.plain (⟨[⟨0, 0, 0⟩, ⟨4, 0, 0⟩, ⟨4, 4, 0⟩, ⟨0, 4, 0⟩], true⟩ : Pline Rat) 1
      ⟨none, false, 1 / 100000, 1 / 10000, 1 / 10000⟩
      = .ok [⟨[⟨1, 1, 0⟩, ⟨3, 1, 0⟩, ⟨3, 3, 0⟩, ⟨1, 3, 0⟩], true⟩] := by decide +kernel

end Cavc
