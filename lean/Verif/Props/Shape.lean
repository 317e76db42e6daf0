import Verif.Lemmas.ShapeStitch
import Verif.Spec.PlainEnv
import Verif.Spec.RatScalar

/-! # C45, C51: shapes -/

set_option linter.unusedSectionVars false
set_option linter.unusedVariables false

namespace Cavc
open Scalar Pline
variable {T : Type} [Scalar T]

theorem orientation_ccw (p : Pline T) : (p.orientation == .counterClockwise) = (p.closed && !lt p.area 0) := by
  unfold orientation
  cases p.closed <;> cases lt p.area 0 <;> rfl

theorem orientation_not_ccw (p : Pline T) : (p.orientation != .counterClockwise) = !(p.closed && !lt p.area 0) := by
  unfold orientation
  cases p.closed <;> cases lt p.area 0 <;> rfl

/-- **C45** Building a shape never panics.  Every polyline with at least two vertexes is a loop of the
shape exactly once, in order: among the counter clockwise loops if it is closed and its area is not
negative, else among the clockwise loops (this includes open polylines).  Each loop has an index that
serves its segments, and the index of the shape has one box for each loop, counter clockwise loops
first. -/
theorem C45_from_plines (env : Env T) (henv : env.Lawful) (plines : List (Pline T)) :
    ∃ s, Shape.fromPlines env plines = .ok s ∧ s.WellFormed ∧
      s.ccw.map IndexedPline.pline = plines.filter (fun p => decide (2 ≤ p.verts.length) && (p.closed && !lt p.area 0)) ∧
      s.cw.map IndexedPline.pline = plines.filter (fun p => decide (2 ≤ p.verts.length) && !(p.closed && !lt p.area 0)) := by
  have hmap : ∀ l : List (Pline T), (l.map (IndexedPline.new env)).map IndexedPline.pline = l := by
    intro l
    rw [List.map_map]
    exact List.map_id l
  have h2 : ∀ p : Pline T, decide (p.vertexCount > 1) = decide (2 ≤ p.verts.length) := fun p => rfl
  unfold Shape.fromPlines
  dsimp only
  obtain ⟨s, hs, e1, e2, hw⟩ := build_ok env henv
    (((plines.filter fun p => p.vertexCount > 1).filter fun p => p.orientation == .counterClockwise).map (IndexedPline.new env))
    (((plines.filter fun p => p.vertexCount > 1).filter fun p => p.orientation != .counterClockwise).map (IndexedPline.new env)) (by
      intro ip hip
      simp only [List.mem_append, List.mem_map, List.mem_filter] at hip
      rcases hip with ⟨p, ⟨⟨-, hp⟩, -⟩, rfl⟩ | ⟨p, ⟨⟨-, hp⟩, -⟩, rfl⟩ <;>
        exact new_ready env henv p (of_decide_eq_true hp))
  refine ⟨s, hs, hw, ?_, ?_⟩
  · rw [e1, hmap, List.filter_filter]
    refine List.filter_congr fun p _ => ?_
    rw [orientation_ccw, h2, Bool.and_comm]
  · rw [e2, hmap, List.filter_filter]
    refine List.filter_congr fun p _ => ?_
    rw [orientation_not_ccw, h2, Bool.and_comm]

/-- Every polyline with segments is in exactly one of the two lists of loops, as often as it was
given. -/
theorem C45_partition (env : Env T) (henv : env.Lawful) (plines : List (Pline T)) :
    ∃ s, Shape.fromPlines env plines = .ok s ∧
      (s.loops.map IndexedPline.pline).Perm (plines.filter fun p => decide (2 ≤ p.verts.length)) := by
  obtain ⟨s, hs, -, h1, h2⟩ := C45_from_plines env henv plines
  refine ⟨s, hs, ?_⟩
  rw [Shape.loops, List.map_append, h1, h2]
  have := List.filter_append_perm (fun p : Pline T => p.closed && !lt p.area 0) (plines.filter fun p => decide (2 ≤ p.verts.length))
  rw [List.filter_filter, List.filter_filter] at this
  refine List.Perm.trans (List.Perm.of_eq ?_) this
  congr 1
  · exact List.filter_congr fun p _ => Bool.and_comm _ _
  · exact List.filter_congr fun p _ => Bool.and_comm _ _

/-! ## Offset -/

theorem dissected_reads {inputs : List (IndexedPline T)} {offset : T} {o : ShapeOffsetOptions T} {l : OffsetLoop T} {es : List (Nat × V2 T)}
    {ss : List (ViewData T)} {whole : Bool} (h : Dissected inputs offset o l es ss whole) : ∀ d ∈ ss, ∃ vs, d.Reads l.ip.pline vs := by
  have hm : ∀ d, MidClear inputs offset o l.parent l.ip.pline d → ∃ vs, d.Reads l.ip.pline vs := by
    rintro d ⟨vs, a, b, h, -⟩
    exact ⟨vs, h⟩
  cases h with
  | uncut => simp
  | onceKept d _ _ hc =>
    intro d' hd'
    rw [List.mem_singleton.mp hd']
    exact hm d hc
  | onceDropped => simp
  | pieces cuts ss _ _ hk => exact fun d hd => hm d (keptBy_holds hk d hd)

/-- What is kept of the result of dissecting one loop. -/
abbrev dissectData (d : OffsetLoop T × Nat × List (DissectedSlice T) × Bool) : List (ViewData T) × Bool :=
  (d.2.2.1.map DissectedSlice.vdata, d.2.2.2)

/-- The data of loop `li.1` number `li.2`. -/
def DataOf (li : OffsetLoop T × Nat) (d : OffsetLoop T × Nat × List (DissectedSlice T) × Bool) : Prop :=
  d.1 = li.1 ∧ d.2.1 = li.2 ∧ ∃ ss : List (ViewData T), d.2.2.1 = ss.map fun v => ⟨li.2, v⟩

theorem data_slices (L : List (OffsetLoop T)) (n : Nat) (ds : List (OffsetLoop T × Nat × List (DissectedSlice T) × Bool))
    (h : List.Forall₂ DataOf (L.zipIdx n) ds) :
    ds.flatMap (·.2.2.1) = ((ds.map dissectData).zipIdx n).flatMap fun x => x.1.1.map fun d => ⟨x.2, d⟩ := by
  induction L generalizing n ds with
  | nil =>
    rw [List.zipIdx_nil] at h
    cases h
    rfl
  | cons l L ih =>
    rw [List.zipIdx_cons] at h
    cases h with
    | cons h hs =>
      obtain ⟨-, -, ss, h3⟩ := h
      rw [List.flatMap_cons, ih _ _ hs, List.map_cons, List.zipIdx_cons, List.flatMap_cons]
      congr 1
      show _ = (List.map DissectedSlice.vdata _).map _
      rw [h3, List.map_map, List.map_map]
      rfl

theorem data_whole_lt (L : List (OffsetLoop T)) (n k : Nat) (ds : List (OffsetLoop T × Nat × List (DissectedSlice T) × Bool))
    (h : List.Forall₂ DataOf (L.zipIdx n) ds) (hk : n + L.length ≤ k) :
    (ds.filter fun d => d.2.2.2 && decide (d.2.1 < k)).map (fun d => d.1.ip.pline) = wholeLoops L (ds.map dissectData) ∧
    (ds.filter fun d => d.2.2.2 && !decide (d.2.1 < k)) = [] := by
  induction L generalizing n ds with
  | nil =>
    rw [List.zipIdx_nil] at h
    cases h
    exact ⟨rfl, rfl⟩
  | cons l L ih =>
    rw [List.zipIdx_cons] at h
    rw [List.length_cons] at hk
    cases h with
    | cons h hs =>
      rename_i d ds
      obtain ⟨h1, h2, -⟩ := h
      obtain ⟨i1, i2⟩ := ih _ _ hs (by omega)
      have hlt : decide (d.2.1 < k) = true := by rw [h2]; exact decide_eq_true (by show n < k; omega)
      unfold wholeLoops at i1 ⊢
      rw [List.filter_cons, List.filter_cons, hlt, List.map_cons, List.zip_cons_cons, List.filter_cons]
      cases hw : d.2.2.2 with
      | true => simp [hw, i1, i2, h1]
      | false => simp [hw, i1, i2]

theorem data_whole_ge (L : List (OffsetLoop T)) (n k : Nat) (ds : List (OffsetLoop T × Nat × List (DissectedSlice T) × Bool))
    (h : List.Forall₂ DataOf (L.zipIdx n) ds) (hk : k ≤ n) :
    (ds.filter fun d => d.2.2.2 && !decide (d.2.1 < k)).map (fun d => d.1.ip.pline) = wholeLoops L (ds.map dissectData) ∧
    (ds.filter fun d => d.2.2.2 && decide (d.2.1 < k)) = [] := by
  induction L generalizing n ds with
  | nil =>
    rw [List.zipIdx_nil] at h
    cases h
    exact ⟨rfl, rfl⟩
  | cons l L ih =>
    rw [List.zipIdx_cons] at h
    cases h with
    | cons h hs =>
      rename_i d ds
      obtain ⟨h1, h2, -⟩ := h
      obtain ⟨i1, i2⟩ := ih _ _ hs (by omega)
      have hlt : decide (d.2.1 < k) = false := by rw [h2]; exact decide_eq_false (by show ¬ n < k; omega)
      unfold wholeLoops at i1 ⊢
      rw [List.filter_cons, List.filter_cons, hlt, List.map_cons, List.zip_cons_cons, List.filter_cons]
      cases hw : d.2.2.2 with
      | true => simp [hw, i1, i2, h1]
      | false => simp [hw, i1, i2]

theorem forall2_append_left {α β : Type} {R : α → β → Prop} : ∀ {l1 l2 : List α} {bs : List β}, List.Forall₂ R (l1 ++ l2) bs →
    ∃ b1 b2, bs = b1 ++ b2 ∧ List.Forall₂ R l1 b1 ∧ List.Forall₂ R l2 b2
  | [], l2, bs, h => ⟨[], bs, rfl, .nil, h⟩
  | a :: l1, l2, _, .cons h hs => by
    obtain ⟨b1, b2, rfl, h1, h2⟩ := forall2_append_left hs
    exact ⟨_ :: b1, b2, rfl, .cons h h1, h2⟩

theorem data_whole (L1 L2 : List (OffsetLoop T)) (ds : List (OffsetLoop T × Nat × List (DissectedSlice T) × Bool))
    (h : List.Forall₂ DataOf (L1 ++ L2).zipIdx ds) :
    (ds.filter fun d => d.2.2.2 && decide (d.2.1 < L1.length)).map (fun d => d.1.ip.pline) = wholeLoops L1 (ds.map dissectData) ∧
    (ds.filter fun d => d.2.2.2 && !decide (d.2.1 < L1.length)).map (fun d => d.1.ip.pline) =
      wholeLoops L2 ((ds.map dissectData).drop L1.length) := by
  rw [List.zipIdx_append] at h
  obtain ⟨d1, d2, rfl, h1, h2⟩ := forall2_append_left h
  have hl : d1.length = L1.length := by
    have := h1.length_eq
    rw [List.length_zipIdx] at this
    exact this.symm
  obtain ⟨a1, a2⟩ := data_whole_lt L1 0 L1.length d1 h1 (by omega)
  obtain ⟨b1, b2⟩ := data_whole_ge L2 _ L1.length d2 h2 (by omega)
  constructor
  · rw [List.filter_append, List.map_append, a1, b2, List.map_append]
    unfold wholeLoops
    have hz := List.zip_append (l₁ := L1) (r₁ := []) (l₂ := d1.map dissectData) (r₂ := d2.map dissectData) (by simp [hl])
    rw [List.append_nil] at hz
    rw [hz]
    simp
  · rw [List.filter_append, List.map_append, a2, b1, List.map_append, List.drop_left' (by simp [hl])]
    simp

theorem cuts_lt {env : Env T} {loops : List (OffsetLoop T)} {eps : T} {sets : List (SlicePointSet T)} (hr : ∀ l ∈ loops, l.ip.Ready)
    (h : LoopCuts env loops eps sets) (i : Nat) (l : OffsetLoop T) (hl : loops[i]? = some l) :
    ∀ e ∈ cutsOfLoop sets i, e.1 < l.ip.pline.verts.length := by
  have key : ∀ x ∈ sets, ∀ b ∈ x.points, (∀ l, loops[x.loop1]? = some l → b.startIndex1 < l.ip.pline.verts.length) ∧
      (∀ l, loops[x.loop2]? = some l → b.startIndex2 < l.ip.pline.verts.length) := by
    intro x hx b hb
    obtain ⟨-, l1, l2, b1, b2, r, h1, h2, -, -, -, h6, h7, -⟩ := h.sound x hx
    obtain ⟨r', hr', ho, hb'⟩ := C37_result env l1.ip.pline l2.ip.pline (some l1.ip.index) eps (hr l1 (List.mem_of_getElem? h1)).serves
    rw [h6] at hr'
    cases hr'
    have hseg : b.startIndex1 < l1.ip.pline.verts.length ∧ b.startIndex2 < l2.ip.pline.verts.length := by
      rw [h7] at hb
      unfold IntrCollection.cutPoints at hb
      rw [List.mem_append, List.mem_flatMap] at hb
      rcases hb with hb | ⟨q, hq, hb⟩
      · obtain ⟨s1, s2, e1, e2, -⟩ := (hb' b).mp hb
        exact ⟨(seg_at _ e1).2.2.2.2, (seg_at _ e2).2.2.2.2⟩
      · obtain ⟨s1, s2, e1, e2, -⟩ := (ho q).mp hq
        have hh : b.startIndex1 = q.startIndex1 ∧ b.startIndex2 = q.startIndex2 := by
          simp only [List.mem_cons, List.not_mem_nil, or_false] at hb
          rcases hb with rfl | rfl <;> exact ⟨rfl, rfl⟩
        rw [hh.1, hh.2]
        exact ⟨(seg_at _ e1).2.2.2.2, (seg_at _ e2).2.2.2.2⟩
    constructor
    · intro l hl
      rw [h1] at hl
      cases hl
      exact hseg.1
    · intro l hl
      rw [h2] at hl
      cases hl
      exact hseg.2
  intro e he
  unfold cutsOfLoop at he
  obtain ⟨x, hx, he⟩ := List.mem_flatMap.mp he
  split_ifs at he with c1 c2
  · obtain ⟨b, hb, rfl⟩ := List.mem_map.mp he
    exact (key x hx b hb).1 l (by rw [c1]; exact hl)
  · obtain ⟨b, hb, rfl⟩ := List.mem_map.mp he
    exact (key x hx b hb).2 l (by rw [c2]; exact hl)
  · simp at he

/-- **C51** Offsetting a shape.  For every shape whose loops have serving indexes, every offset and
every options, and for every lawful spatial index and sorting function: the offset loops are the
parallel offsets of the loops that are not turned over; they are cut where they meet each other; of
each loop exactly the parts that are clear of the other input loops are kept; all kept parts are
stitched, each exactly once; and the result is a well formed shape of the loops kept whole and the
stitched loops, by orientation.  The only panic is for an offset loop or stitched loop with fewer than
two vertexes, which has no bounds. -/
theorem C51_shape_offset (env : Env T) (henv : env.Lawful) (s : Shape T) (hs : ∀ ip ∈ s.loops, ip.index.Serves ip.pline) (offset : T)
    (o : ShapeOffsetOptions T) :
    ∃ ccw cw, ShapeLoops env s offset o ccw cw ∧
      ((∃ l ∈ ccw ++ cw, l.ip.pline.verts.length < 2) → s.parallelOffset env offset o = .error .unwrapNone) ∧
      ((∀ l ∈ ccw ++ cw, 2 ≤ l.ip.pline.verts.length) →
        ∃ dss rs, ShapePieces env s.loops offset o (ccw ++ cw) dss rs ∧
          ((∃ r ∈ rs, r.verts.length < 2) → s.parallelOffset env offset o = .error .unwrapNone) ∧
          ((∀ r ∈ rs, 2 ≤ r.verts.length) →
            ∃ s', s.parallelOffset env offset o = .ok s' ∧ s'.WellFormed ∧
              s'.ccw.map IndexedPline.pline = wholeLoops ccw dss ++ rs.filter (fun r => r.closed && !lt r.area 0) ∧
              s'.cw.map IndexedPline.pline = wholeLoops cw (dss.drop ccw.length) ++ rs.filter (fun r => !(r.closed && !lt r.area 0)))) := by
  obtain ⟨ccw, cw, hloops, hspec⟩ := offsetLoops_spec env henv s hs offset o
  have hnew : ∀ l ∈ ccw ++ cw, l.ip.boxes = l.ip.pline.segs.map segBox ∧ l.ip.index.Serves l.ip.pline := by
    intro l hl
    rw [hspec.own l hl]
    exact ⟨new_boxes env _, approxIndex_serves env henv _⟩
  refine ⟨ccw, cw, hspec, ?_, ?_⟩
  · rintro ⟨l, hl, hlen⟩
    unfold Shape.parallelOffset
    simp only [hloops, bind, Except.bind]
    rw [if_neg (by cases h : ccw ++ cw with | nil => rw [h] at hl; simp at hl | cons => simp)]
    rw [allBounds_error ((ccw ++ cw).map OffsetLoop.ip)
      (by intro ip hip; obtain ⟨l, hl, rfl⟩ := List.mem_map.mp hip; exact (hnew l hl).1)
      ⟨l.ip, List.mem_map.mpr ⟨l, hl, rfl⟩, hlen⟩]
  · intro h2
    have hready : ∀ l ∈ ccw ++ cw, l.ip.Ready := fun l hl => ⟨(hnew l hl).2, (hnew l hl).1, h2 l hl⟩
    obtain ⟨bs, hbs, hbox⟩ := allBounds_ok ((ccw ++ cw).map OffsetLoop.ip)
      (by intro ip hip; obtain ⟨l, hl, rfl⟩ := List.mem_map.mp hip; exact hready l hl)
    obtain ⟨sets, hsets, hcuts⟩ := findLoop_spec env (ccw ++ cw) hready (env.build bs) bs hbox (henv.build_for _) o.posEqualEps
    obtain ⟨ds, hds, hrel⟩ := mapM_rel (l := (ccw ++ cw).zipIdx)
      (f := fun (li : OffsetLoop T × Nat) => (do
        let r ← dissectLoop env (s.ccw ++ s.cw) offset o sets li.1 li.2
        (.ok (li.1, li.2, r) : M (OffsetLoop T × Nat × List (DissectedSlice T) × Bool))))
      (R := fun li d => DataOf li d ∧ Dissected s.loops offset o li.1 (cutsOfLoop sets li.2) (dissectData d).1 (dissectData d).2) (by
        intro li hli
        have hi : (ccw ++ cw)[li.2]? = some li.1 := by
          have := List.mk_mem_zipIdx_iff_getElem?.mp (show (li.1, li.2) ∈ (ccw ++ cw).zipIdx from hli)
          exact this
        obtain ⟨ss, whole, e, hd⟩ := dissectLoop_spec env henv s.loops hs offset o sets
          (fun x hx => (by obtain ⟨-, l1, l2, b1, b2, r, -, -, -, -, -, -, -, h⟩ := hcuts.sound x hx; exact h))
          li.1 (hready _ (List.mem_of_getElem? hi)) li.2 (cuts_lt hready hcuts li.2 li.1 hi)
        refine ⟨(li.1, li.2, ss.map (fun d => ⟨li.2, d⟩), whole), ?_, ⟨rfl, rfl, ss, rfl⟩, ?_⟩
        · show (do
            let r ← dissectLoop env s.loops offset o sets li.1 li.2
            (.ok (li.1, li.2, r) : M (OffsetLoop T × Nat × List (DissectedSlice T) × Bool))) = _
          rw [e]
          rfl
        · have : (ss.map fun d => (⟨li.2, d⟩ : DissectedSlice T)).map DissectedSlice.vdata = ss := by
            rw [List.map_map]; exact List.map_id ss
          show Dissected _ _ _ _ _ ((ss.map fun d => (⟨li.2, d⟩ : DissectedSlice T)).map DissectedSlice.vdata) whole
          rw [this]
          exact hd)
    have hdata : List.Forall₂ DataOf (ccw ++ cw).zipIdx ds := hrel.imp fun _ _ h => h.1
    have hslices := data_slices (ccw ++ cw) 0 ds hdata
    have hwhole := data_whole ccw cw ds hdata
    have hlen : ds.length = (ccw ++ cw).length := by
      have := hrel.length_eq
      rw [List.length_zipIdx] at this
      exact this.symm
    have hdis : ∀ (i : Nat) (l : OffsetLoop T) (ss : List (ViewData T)) (whole : Bool), (ccw ++ cw)[i]? = some l →
        (ds.map dissectData)[i]? = some (ss, whole) → Dissected s.loops offset o l (cutsOfLoop sets i) ss whole := by
      intro i l ss whole hl hd
      rw [List.getElem?_map, Option.map_eq_some_iff] at hd
      obtain ⟨d, hd, e⟩ := hd
      have hz : (ccw ++ cw).zipIdx[i]? = some (l, i) := by
        rw [List.getElem?_zipIdx, hl]; simp
      have := (List.forall₂_iff_get.mp hrel).2 i (List.getElem?_eq_some_iff.mp hz).1 (List.getElem?_eq_some_iff.mp hd).1
      rw [List.get_eq_getElem, List.get_eq_getElem, (List.getElem?_eq_some_iff.mp hz).2, (List.getElem?_eq_some_iff.mp hd).2] at this
      rw [e] at this
      exact this.2
    have hread : ∀ sl ∈ ds.flatMap (·.2.2.1), ∃ vs, DissectedSlice.Reads sl (ccw ++ cw) vs := by
      intro sl hsl
      obtain ⟨d, hd, hsl⟩ := List.mem_flatMap.mp hsl
      obtain ⟨li, hli, hdat, hdd⟩ := forall2_mem_right hrel hd
      obtain ⟨-, -, ss, h3⟩ := hdat
      have hi : (ccw ++ cw)[li.2]? = some li.1 := List.mk_mem_zipIdx_iff_getElem?.mp (show (li.1, li.2) ∈ (ccw ++ cw).zipIdx from hli)
      obtain ⟨vs, hvs⟩ := dissected_reads hdd sl.vdata (List.mem_map.mpr ⟨sl, hsl, rfl⟩)
      rw [h3] at hsl
      obtain ⟨v, -, rfl⟩ := List.mem_map.mp hsl
      exact ⟨vs, li.1, hi, hvs⟩
    obtain ⟨rs, useds, hst, hrounds, hperm⟩ := shapeStitch_spec (ccw ++ cw)
      (env.build ((ds.flatMap (·.2.2.1)).map fun sl => (AABB.ofPoint sl.vdata.updatedStart.pos).grow o.sliceJoinEps))
      (ds.flatMap (·.2.2.1)) o hread (henv.build_for _)
    have hmap : ∀ l : List (Pline T), (l.map (IndexedPline.new env)).map IndexedPline.pline = l := by
      intro l
      rw [List.map_map]
      exact List.map_id l
    have hbuild : s.parallelOffset env offset o = if (ccw ++ cw).isEmpty then .ok (Shape.empty env) else
        Shape.build env
          ((ds.filter (fun d => d.2.2.2 && decide (d.2.1 < ccw.length))).map (·.1.ip) ++
            (rs.filter (fun p => p.orientation == .counterClockwise)).map (.new env))
          ((ds.filter (fun d => d.2.2.2 && !decide (d.2.1 < ccw.length))).map (·.1.ip) ++
            (rs.filter (fun p => p.orientation != .counterClockwise)).map (.new env)) := by
      unfold Shape.parallelOffset
      simp only [hloops, bind, Except.bind]
      split
      · rfl
      · simp only [hbs, hsets]
        simp only [bind, Except.bind] at hds
        simp only [hds, hst]
    have hwmem : ∀ d ∈ ds, d.1.ip.Ready := by
      intro d hd
      obtain ⟨li, hli, hdat, -⟩ := forall2_mem_right hrel hd
      have hi : (ccw ++ cw)[li.2]? = some li.1 := List.mk_mem_zipIdx_iff_getElem?.mp (show (li.1, li.2) ∈ (ccw ++ cw).zipIdx from hli)
      rw [hdat.1]
      exact hready _ (List.mem_of_getElem? hi)
    refine ⟨ds.map dissectData, rs, ⟨⟨sets, hcuts, by rw [List.length_map, hlen], hdis⟩, useds, ?_, ?_⟩, ?_, ?_⟩
    · unfold slicesOfLoops; rw [← hslices]; exact hrounds
    · unfold slicesOfLoops; rw [← hslices]; exact hperm
    · rintro ⟨r, hr, hr2⟩
      rw [hbuild]
      by_cases hemp : ccw ++ cw = []
      · exfalso
        have hds0 : ds = [] := List.eq_nil_of_length_eq_zero (by rw [hlen, hemp]; rfl)
        subst hds0
        cases hst
        simp at hr
      · rw [if_neg (by simpa using hemp)]
        have hmem : ∀ ip, ip ∈ ((ds.filter (fun d => d.2.2.2 && decide (d.2.1 < ccw.length))).map (·.1.ip) ++
              (rs.filter (fun p => p.orientation == .counterClockwise)).map (IndexedPline.new env)) ++
            ((ds.filter (fun d => d.2.2.2 && !decide (d.2.1 < ccw.length))).map (·.1.ip) ++
              (rs.filter (fun p => p.orientation != .counterClockwise)).map (IndexedPline.new env)) →
            ip.boxes = ip.pline.segs.map segBox ∧ ip.index.Serves ip.pline := by
          intro ip hip
          simp only [List.mem_append, List.mem_map, List.mem_filter] at hip
          rcases hip with (⟨d, ⟨hd, -⟩, rfl⟩ | ⟨p, -, rfl⟩) | (⟨d, ⟨hd, -⟩, rfl⟩ | ⟨p, -, rfl⟩)
          · exact ⟨(hwmem d hd).boxes, (hwmem d hd).serves⟩
          · exact ⟨new_boxes env _, approxIndex_serves env henv _⟩
          · exact ⟨(hwmem d hd).boxes, (hwmem d hd).serves⟩
          · exact ⟨new_boxes env _, approxIndex_serves env henv _⟩
        apply build_error
        · exact fun ip hip => (hmem ip hip).1
        · exact fun ip hip => (hmem ip hip).2
        · refine ⟨IndexedPline.new env r, ?_, hr2⟩
          simp only [List.mem_append, List.mem_map, List.mem_filter]
          cases ho : r.orientation == .counterClockwise with
          | true => exact Or.inl (Or.inr ⟨r, ⟨hr, ho⟩, rfl⟩)
          | false => exact Or.inr (Or.inr ⟨r, ⟨hr, by simp [bne, ho]⟩, rfl⟩)
    · intro hr
      by_cases hemp : ccw ++ cw = []
      · have hds0 : ds = [] := List.eq_nil_of_length_eq_zero (by rw [hlen, hemp]; rfl)
        subst hds0
        have hrs0 : rs = [] := by cases hst; rfl
        subst hrs0
        obtain ⟨h1, h3⟩ := List.append_eq_nil_iff.mp hemp
        subst h1 h3
        refine ⟨Shape.empty env, by rw [hbuild]; rfl, ⟨by simp [Shape.loops, Shape.empty], rfl, henv.build_for _⟩, rfl, rfl⟩
      · rw [if_neg (by simpa using hemp)] at hbuild
        obtain ⟨s', hs', e1, e2, hw⟩ := build_ok env henv
          ((ds.filter (fun d => d.2.2.2 && decide (d.2.1 < ccw.length))).map (·.1.ip) ++
            (rs.filter (fun p => p.orientation == .counterClockwise)).map (.new env))
          ((ds.filter (fun d => d.2.2.2 && !decide (d.2.1 < ccw.length))).map (·.1.ip) ++
            (rs.filter (fun p => p.orientation != .counterClockwise)).map (.new env)) (by
          intro ip hip
          simp only [List.mem_append, List.mem_map, List.mem_filter] at hip
          rcases hip with (⟨d, ⟨hd, -⟩, rfl⟩ | ⟨p, ⟨hp, -⟩, rfl⟩) | (⟨d, ⟨hd, -⟩, rfl⟩ | ⟨p, ⟨hp, -⟩, rfl⟩)
          · exact hwmem d hd
          · exact new_ready env henv p (hr p hp)
          · exact hwmem d hd
          · exact new_ready env henv p (hr p hp))
        refine ⟨s', hbuild.trans hs', hw, ?_, ?_⟩
        · rw [e1, List.map_append, hmap, List.map_map, ← hwhole.1]
          congr 1
          exact List.filter_congr fun p _ => orientation_ccw p
        · rw [e2, List.map_append, hmap, List.map_map, ← hwhole.2]
          congr 1
          exact List.filter_congr fun p _ => orientation_not_ccw p

/-! ## Examples -/

/-- A rectangle. -/
def exRect (a b c d : Rat) : Pline Rat := ⟨[⟨a, b, 0⟩, ⟨c, b, 0⟩, ⟨c, d, 0⟩, ⟨a, d, 0⟩], true⟩

/-- The loops of a shape without their indexes. -/
def Shape.plines (s : Shape T) : List (Pline T) × List (Pline T) := (s.ccw.map IndexedPline.pline, s.cw.map IndexedPline.pline)

/-- A rectangle, a single vertex, a clockwise triangle and an open polyline. -/
example : (Shape.fromPlines Env.plain [exRect 0 0 4 4, ⟨[⟨1, 1, 0⟩], true⟩, ⟨[⟨1, 1, 0⟩, ⟨1, 2, 0⟩, ⟨2, 1, 0⟩], true⟩, ⟨[⟨7, 7, 0⟩, ⟨8, 8, 0⟩], false⟩]).map Shape.plines
    = .ok ([exRect 0 0 4 4], [⟨[⟨1, 1, 0⟩, ⟨1, 2, 0⟩, ⟨2, 1, 0⟩], true⟩, ⟨[⟨7, 7, 0⟩, ⟨8, 8, 0⟩], false⟩]) := by decide +kernel

/-- Two overlapping rectangles and a third one apart from them: the third one is kept whole and the
others are cut and stitched. -/
example : ((Shape.fromPlines Env.plain [exRect 0 0 10 20, exRect 6 0 20 12, exRect 100 0 104 4]).bind fun s =>
      (s.parallelOffset Env.plain 1 ⟨1 / 100000, 1 / 10000, 1 / 10000⟩).map Shape.plines)
    = .ok ([exRect 101 1 103 3, ⟨[⟨7, 1, 0⟩, ⟨9, 1, 0⟩, ⟨9, 11, 0⟩, ⟨9, 19, 0⟩, ⟨1, 19, 0⟩, ⟨1, 1, 0⟩, ⟨7, 1, 0⟩, ⟨9, 1, 0⟩,
        ⟨19, 1, 0⟩, ⟨19, 11, 0⟩, ⟨9, 11, 0⟩, ⟨7, 11, 0⟩], true⟩], []) := by decide +kernel

/-- The offset of a loop that is too narrow vanishes. -/
example : ((Shape.fromPlines Env.plain [exRect 0 0 10 10, exRect 0 0 2 1]).bind fun s =>
      (s.parallelOffset Env.plain 1 ⟨1 / 100000, 1 / 10000, 1 / 10000⟩).map Shape.plines)
    = .ok ([exRect 1 1 9 9], []) := by decide +kernel

/-- Shapes built from polylines satisfy the hypothesis of C51. -/
example (env : Env T) (henv : env.Lawful) (plines : List (Pline T)) :
    ∃ s, Shape.fromPlines env plines = .ok s ∧ ∀ ip ∈ s.loops, ip.index.Serves ip.pline := by
  obtain ⟨s, hs, hw, -⟩ := C45_from_plines env henv plines
  exact ⟨s, hs, fun ip hip => (hw.ready ip hip).serves⟩

end Cavc
