import Verif.Lemmas.View
import Verif.Props.Invert
import Verif.Spec.RatScalar

/-! # C19 – C23: views -/

set_option linter.unusedSectionVars false

namespace Cavc
open Scalar Pline
variable {T : Type} [Scalar T]

/-- **C19** For in-range view data: a view is open, has at least two vertexes, `get(i)` is `Some`
exactly for `i < vertex_count()`, and `at(i)` returns that vertex without a panic. -/
theorem C19_view_get (d : ViewData T) (src : Pline T) (hr : d.InRange src) :
    ∃ q, d.toPline src = .ok q ∧ q.closed = false ∧ 2 ≤ q.vertexCount ∧
      q.vertexCount = d.vertexCount ∧
      (∀ i, d.getVertex src i = .ok (q.get i)) ∧
      (∀ i, (q.get i).isSome ↔ i < d.vertexCount) ∧
      (∀ i, i < d.vertexCount → ∃ v, q.get i = some v ∧ d.at src i = .ok v) ∧
      (∀ i, d.vertexCount ≤ i → d.at src i = .error .unwrapNone) := by
  obtain ⟨q, hq, hc, hl, hv⟩ := d.toPline_ok src hr
  refine ⟨q, hq, hc, ?_, ?_, hv, ?_, ?_, ?_⟩
  · simp [vertexCount, hl]
  · simp [vertexCount, hl, ViewData.vertexCount]
  · intro i; simp [Pline.get, hl, ViewData.vertexCount]
  · intro i hi
    have hi' : i < q.verts.length := by rw [hl]; exact hi
    refine ⟨q.verts[i], by simp [Pline.get], ?_⟩
    simp [ViewData.at, hv, bind, Except.bind, unwrap, hi']
  · intro i hi
    have hi' : q.verts.length ≤ i := by rw [hl]; exact hi
    simp [ViewData.at, hv, bind, Except.bind, unwrap, hi']

/-- **C19** The vertexes of a forward view are the slice described by its data. -/
theorem C19_view_slice (d : ViewData T) (src : Pline T) (hr : d.InRange src)
    (hi : d.inverted = false) :
    ∃ q, d.toPline src = .ok q ∧ q.closed = false ∧
      IsForwardSlice src d.startIndex d.endIndexOffset d.updatedStart d.updatedEndBulge d.endPoint
        q.verts := d.forward_slice src hr hi

/-- Non-vacuity: in-range view data that wraps around. -/
example : (⟨2, 2, ⟨1, 1, 0⟩, 0, ⟨1, 0⟩, false⟩ : ViewData T).InRange
    ⟨[⟨0, 0, 0⟩, ⟨1, 0, 0⟩, ⟨1, 1, 1⟩], true⟩ := ⟨by simp, by simp⟩

/-! ## Paths of open polylines -/

theorem open_path_length (q : Pline T) (hc : q.closed = false) : q.path.length = q.verts.length - 1 := by
  rw [path_length_eq]; unfold segmentCount vertexCount; simp only [hc]; split_ifs with h
  · omega
  · simp_all
  · rfl

theorem open_path_getElem? (q : Pline T) (hc : q.closed = false) {i : Nat} {a b : Vertex T}
    (ha : q.verts[i]? = some a) (hb : q.verts[i + 1]? = some b) :
    q.path[i]? = some ⟨⟨a.x, a.y⟩, ⟨b.x, b.y⟩, a.bulge⟩ := by
  obtain ⟨h1, h2⟩ := List.getElem?_eq_some_iff.mp hb
  have hs : i < q.segmentCount := by
    unfold segmentCount vertexCount; simp only [hc]; split_ifs <;> simp_all <;> omega
  obtain ⟨a', b', ha', hb', hp⟩ := path_getElem? q i hs
  rw [Nat.mod_eq_of_lt h1] at hb'
  rw [ha] at ha'; rw [hb] at hb'
  simp only [Option.some.injEq] at ha' hb'
  rw [hp, ha', hb']

/-- **C20** `from_entire_pline` panics exactly for sources with fewer than two vertexes; otherwise
the view follows the same path as the source: same directed segments with the same bulges. -/
theorem C20_entire (src : Pline T) :
    (src.verts.length < 2 → ViewData.fromEntirePline src = .error .assertFailed) ∧
    (2 ≤ src.verts.length → ∃ d q, ViewData.fromEntirePline src = .ok d ∧ d.InRange src ∧
      d.toPline src = .ok q ∧ q.closed = false ∧ q.path = src.path) := by
  constructor
  · intro h; simp [ViewData.fromEntirePline, vertexCount, h]
  intro h2
  have hn : ¬ src.verts.length < 2 := by omega
  by_cases hc : src.closed = true
  · have hlast : src.last = some (src.verts[src.verts.length - 1]) := by
      simp [Pline.last, List.getLast?_eq_getElem?]
    let d : ViewData T := ⟨0, src.verts.length - 1, src.verts[0],
      (src.verts[src.verts.length - 1]).bulge, (src.verts[0]).pos, false⟩
    have hd : ViewData.fromEntirePline src = .ok d := by
      simp only [ViewData.fromEntirePline, vertexCount, hn, if_false, hc, if_true, hlast, unwrap,
        at_lt (show 0 < src.verts.length by omega), bind, Except.bind]
      rfl
    have hr : d.InRange src := ⟨by show 0 < _; omega, by show _ - 1 ≤ _; omega⟩
    obtain ⟨q, hq, hqc, hs⟩ := d.forward_slice src hr rfl
    refine ⟨d, q, hd, hr, hq, hqc, ?_⟩
    have hsc : src.segmentCount = src.verts.length := by
      unfold segmentCount vertexCount; dsimp only; rw [if_neg hn, if_pos hc]
    have hk : d.endIndexOffset = src.verts.length - 1 := rfl
    have hcount := hs.count
    -- vertexes of the view
    have hv : ∀ i (hi : i < src.verts.length), q.verts[i]? = some src.verts[i] := by
      intro i hi
      rcases Nat.eq_zero_or_pos i with rfl | h1
      · exact hs.first
      · by_cases h3 : i < src.verts.length - 1
        · rw [hs.interior i h1 h3]
          show cycAt src (0 + i) = _
          rw [cycAt, Nat.zero_add, Nat.mod_eq_of_lt hi]; simp [hi]
        · have h4 : i = src.verts.length - 1 := by omega
          have := hs.final (by rw [hk]; omega)
          rw [hk, ← h4] at this
          rw [this]
          show (cycAt src (0 + i)).map _ = _
          rw [cycAt, Nat.zero_add, Nat.mod_eq_of_lt hi]
          simp only [hi, List.getElem?_eq_getElem, Option.map_some]
          subst h4; rfl
    have hend : q.verts[src.verts.length]? = some ⟨src.verts[0].x, src.verts[0].y, 0⟩ := by
      have := hs.last
      rw [hk, Nat.sub_add_cancel (by omega)] at this
      exact this
    apply List.ext_getElem?
    intro i
    by_cases hi : i < src.verts.length
    · rw [path_getElem src i (by omega) hi (Nat.mod_lt _ (by omega))]
      by_cases hl : i + 1 = src.verts.length
      · rw [open_path_getElem? q hqc (hv i hi) (by rw [hl]; exact hend)]
        simp only [hl, Nat.mod_self]
      · have h3 : i + 1 < src.verts.length := by omega
        rw [open_path_getElem? q hqc (hv i hi) (hv (i + 1) h3)]
        simp only [Nat.mod_eq_of_lt h3]
    · rw [List.getElem?_eq_none (by rw [open_path_length q hqc, hcount, hk]; omega),
        List.getElem?_eq_none (by rw [path_length_eq, hsc]; omega)]
  · have hcf : src.closed = false := by simpa using hc
    let d : ViewData T := ⟨0, src.verts.length - 2, src.verts[0],
      (src.verts[src.verts.length - 2]).bulge, (src.verts[src.verts.length - 1]).pos, false⟩
    have hd : ViewData.fromEntirePline src = .ok d := by
      simp only [ViewData.fromEntirePline, vertexCount, hn, if_false, hcf, Bool.false_eq_true,
        at_lt (show 0 < src.verts.length by omega),
        at_lt (show src.verts.length - 1 < src.verts.length by omega),
        at_lt (show src.verts.length - 2 < src.verts.length by omega), bind, Except.bind]
      rfl
    have hr : d.InRange src := ⟨by show 0 < _; omega, by show _ - 2 ≤ _; omega⟩
    obtain ⟨q, hq, hqc, hs⟩ := d.forward_slice src hr rfl
    refine ⟨d, q, hd, hr, hq, hqc, ?_⟩
    have hk : d.endIndexOffset = src.verts.length - 2 := rfl
    have hcount := hs.count
    have hv : ∀ i (hi : i + 1 < src.verts.length), q.verts[i]? = some src.verts[i] := by
      intro i hi
      rcases Nat.eq_zero_or_pos i with rfl | h1
      · exact hs.first
      · by_cases h3 : i < src.verts.length - 2
        · rw [hs.interior i h1 h3]
          show cycAt src (0 + i) = _
          rw [cycAt, Nat.zero_add, Nat.mod_eq_of_lt (by omega)]; simp [show i < src.verts.length by omega]
        · have h4 : i = src.verts.length - 2 := by omega
          have := hs.final (by rw [hk]; omega)
          rw [hk, ← h4] at this
          rw [this]
          show (cycAt src (0 + i)).map _ = _
          rw [cycAt, Nat.zero_add, Nat.mod_eq_of_lt (by omega)]
          simp only [show i < src.verts.length by omega, List.getElem?_eq_getElem, Option.map_some]
          subst h4; rfl
    have hend : q.verts[src.verts.length - 1]? = some ⟨src.verts[src.verts.length - 1].x,
        src.verts[src.verts.length - 1].y, 0⟩ := by
      have := hs.last
      rw [hk, show src.verts.length - 2 + 1 = src.verts.length - 1 by omega] at this
      exact this
    apply List.ext_getElem?
    intro i
    by_cases hi : i + 1 < src.verts.length
    · have e2 := open_path_getElem? src hcf (i := i) (a := src.verts[i]) (b := src.verts[i + 1])
        (by simp) (by simp)
      rw [e2]
      by_cases hl : i + 1 = src.verts.length - 1
      · rw [open_path_getElem? q hqc (hv i hi) (by rw [hl]; exact hend)]
        simp only [hl]
      · rw [open_path_getElem? q hqc (hv i hi) (hv (i + 1) (by omega))]
    · rw [List.getElem?_eq_none (by rw [open_path_length q hqc, hcount, hk]; omega),
        List.getElem?_eq_none (by rw [open_path_length src hcf]; omega)]

/-- **C23** Setting `inverted_direction` gives the reversed path (the view data of a single segment
carries its bulge twice; the two copies must agree, which `validate_for_source` demands and every
constructor guarantees). -/
theorem C23_inverted (d : ViewData T) (src : Pline T) (hr : d.InRange src)
    (hf : d.inverted = false) (hb : d.endIndexOffset = 0 → d.updatedEndBulge = d.updatedStart.bulge) :
    ∃ q q', d.toPline src = .ok q ∧ ({ d with inverted := true } : ViewData T).toPline src = .ok q' ∧
      q'.closed = false ∧ q'.path = reversePath q.path := by
  obtain ⟨q, hq, hqc, hs⟩ := d.forward_slice src hr hf
  obtain ⟨q', hq', hqc', hl', hi0, hi1, hi2, hi3⟩ :=
    ({ d with inverted := true } : ViewData T).inverted_slice src ⟨hr.start, hr.offset⟩ rfl
  refine ⟨q, q', hq, hq', hqc', ?_⟩
  have h0 := hr.start
  dsimp only at hl' hi0 hi1 hi2 hi3
  generalize hk : d.endIndexOffset = k at *
  obtain ⟨hcount, hfirst, hint, hfin, hlast⟩ := hs
  have hn : 0 < src.verts.length := by omega
  -- position of vertex `i` of the forward view
  let c : Nat → Vertex T := fun i => src.verts[i % src.verts.length]'(Nat.mod_lt _ hn)
  have hc : ∀ i, cycAt src i = some (c i) := fun i => ViewData.cycAt_some src hn i
  have hpos : ∀ i, 1 ≤ i → i ≤ k → ∃ w : Vertex T, q.verts[i]? = some w ∧
      w.x = (c (d.startIndex + i)).x ∧ w.y = (c (d.startIndex + i)).y ∧
      (w.bulge = if i < k then (c (d.startIndex + i)).bulge else d.updatedEndBulge) := by
    intro i h1 h2
    by_cases h3 : i < k
    · refine ⟨_, by rw [hint i h1 h3, hc], rfl, rfl, by rw [if_pos h3]⟩
    · have : i = k := by omega
      subst this
      exact ⟨⟨(c (d.startIndex + i)).x, (c (d.startIndex + i)).y, d.updatedEndBulge⟩,
        by rw [hfin h1, hc, Option.map_some], rfl, rfl, by simp⟩
  have hpos' : ∀ i, 1 ≤ i → i ≤ k → ∃ w : Vertex T, q'.verts[i]? = some w ∧
      w.x = (c (d.startIndex + (k - i) + 1)).x ∧ w.y = (c (d.startIndex + (k - i) + 1)).y ∧
      (w.bulge = -(if i < k then (c (d.startIndex + (k - i))).bulge else d.updatedStart.bulge)) := by
    intro i h1 h2
    by_cases h3 : i < k
    · obtain ⟨a, b, ha, hb', hv⟩ := hi1 i h1 h3
      rw [hc] at ha hb'
      simp only [Option.some.injEq] at ha hb'
      refine ⟨_, hv, ?_, ?_, ?_⟩ <;> simp [ha, hb', h3]
    · have : i = k := by omega
      subst this
      obtain ⟨b, hb', hv⟩ := hi2 h1
      rw [hc] at hb'
      simp only [Option.some.injEq] at hb'
      refine ⟨_, hv, ?_, ?_, ?_⟩ <;> simp [hb']
  apply List.ext_getElem?
  intro i
  have hpl : q.path.length = k + 1 := by rw [open_path_length q hqc, hcount]; omega
  by_cases hi : i < k + 1
  · rw [reversePath_getElem? _ _ (by omega), hpl]
    have hidx : k + 1 - 1 - i = k - i := by omega
    rw [hidx]
    rcases Nat.eq_zero_or_pos k with rfl | hk1
    · have : i = 0 := by omega
      subst this
      rw [open_path_getElem? q' hqc' hi0 hi3, open_path_getElem? q hqc hfirst hlast]
      simp [Piece.flip, hb rfl]
    · rcases Nat.eq_zero_or_pos i with rfl | hi1'
      · obtain ⟨w, hw, hx, hy, hbu⟩ := hpos k hk1 le_rfl
        obtain ⟨w', hw', hx', hy', -⟩ := hpos' 1 le_rfl hk1
        rw [open_path_getElem? q' hqc' hi0 hw', Nat.sub_zero, open_path_getElem? q hqc hw hlast]
        have e : d.startIndex + (k - 1) + 1 = d.startIndex + k := by omega
        rw [e] at hx' hy'
        simp [Piece.flip, hx, hy, hx', hy', hbu]
      · by_cases hik : i = k
        · subst hik
          obtain ⟨w, hw, hx, hy, -⟩ := hpos 1 le_rfl hk1
          obtain ⟨w', hw', hx', hy', hbu'⟩ := hpos' i hi1' le_rfl
          rw [open_path_getElem? q' hqc' hw' hi3, Nat.sub_self, open_path_getElem? q hqc hfirst hw]
          simp only [Nat.sub_self, Nat.add_zero, lt_irrefl, if_false] at hx' hy' hbu'
          simp [Piece.flip, hx, hy, hx', hy', hbu']
        · obtain ⟨w, hw, hx, hy, hbu⟩ := hpos (k - i) (by omega) (by omega)
          obtain ⟨u, hu, hux, huy, -⟩ := hpos (k - i + 1) (by omega) (by omega)
          obtain ⟨w', hw', hx', hy', hbu'⟩ := hpos' i hi1' (by omega)
          obtain ⟨u', hu', hux', huy', -⟩ := hpos' (i + 1) (by omega) (by omega)
          rw [open_path_getElem? q' hqc' hw' hu', open_path_getElem? q hqc hw hu]
          rw [if_pos (by omega)] at hbu hbu'
          have e : d.startIndex + (k - (i + 1)) + 1 = d.startIndex + (k - i) := by omega
          rw [e] at hux' huy'
          have e2 : d.startIndex + (k - i + 1) = d.startIndex + (k - i) + 1 := by omega
          rw [e2] at hux huy
          simp [Piece.flip, hx, hy, hx', hy', hbu', hbu, hux, huy, hux', huy']
  · rw [List.getElem?_eq_none (by rw [open_path_length q' hqc', hl']; omega),
      List.getElem?_eq_none (by simp [reversePath, hpl]; omega)]

/-! ## Slices between two points -/

/-- Where a slice view ends, relative to the source: `e` is the segment index given for the end
point.  Either the view passes vertex `e` and stops on the segment that starts there (whose first
part is the end bulge), or the end point is on vertex `e` and the view stops on the segment before,
keeping that segment's bulge. -/
def SliceEnds (src : Pline T) (s k e : Nat) (startBulge endBulge : T) (stop : V2 T) (eps : T) :
    Prop :=
  ((s + k) % src.verts.length = e ∧
    (1 ≤ k → ∃ v w, src.verts[e]? = some v ∧ cycAt src (e + 1) = some w ∧
      ¬ stop.fuzzyEqEps v.pos eps = true ∧
      endBulge = (segSplitAtPoint v w stop eps).updatedStart.bulge)) ∨
  ((s + k + 1) % src.verts.length = e ∧
    ∃ v w, src.verts[e]? = some v ∧ stop.fuzzyEqEps v.pos eps = true ∧
      cycAt src (s + k) = some w ∧ endBulge = if 1 ≤ k then w.bulge else startBulge)

theorem mod_self_add {n e : Nat} (he : e < n) : (e + n) % n = e := by
  rw [Nat.add_mod_right, Nat.mod_eq_of_lt he]

theorem prevWrap_eq (p : Pline T) {i k : Nat} (hi : i < p.verts.length)
    (h : (k + 1) % p.verts.length = i) : p.prevWrap i = k % p.verts.length := by
  have hn : 0 < p.verts.length := by omega
  unfold prevWrap vertexCount
  have hk := Nat.mod_lt k hn
  have hd : (k % p.verts.length + 1) % p.verts.length = i := by rw [Nat.mod_add_mod, h]
  split_ifs with h0
  · subst h0
    by_contra hne
    rw [Nat.mod_eq_of_lt (by omega)] at hd
    omega
  · by_cases hlast : k % p.verts.length + 1 = p.verts.length
    · rw [hlast, Nat.mod_self] at hd; omega
    · rw [Nat.mod_eq_of_lt (by omega)] at hd; omega

theorem create_spec (src : Pline T) (s e : Nat) (hs : s < src.verts.length)
    (he : e < src.verts.length) (us : Vertex T) (stop : V2 T) (eps : T) (t : Nat)
    (ht0 : t ≠ 0) (htn : t ≤ src.verts.length) (hte : (s + t) % src.verts.length = e) :
    ∃ d, ViewData.create src s stop e us t eps = .ok d ∧ d.InRange src ∧ d.inverted = false ∧
      d.startIndex = s ∧ d.updatedStart = us ∧ d.endPoint = stop ∧
      (d.endIndexOffset = 0 → d.updatedEndBulge = d.updatedStart.bulge) ∧
      SliceEnds src s d.endIndexOffset e us.bulge d.updatedEndBulge stop eps := by
  unfold ViewData.create
  rw [if_neg ht0]
  simp only [at_lt he, bind, Except.bind]
  by_cases hf : stop.fuzzyEqEps src.verts[e].pos eps = true
  · rw [if_pos hf]
    have hp := prevWrap_lt src he
    by_cases ho : t - 1 ≠ 0
    · simp only [if_pos ho, at_lt hp]
      refine ⟨_, rfl, ⟨hs, by show t - 1 ≤ _; omega⟩, rfl, rfl, rfl, rfl, fun h => absurd h ho, ?_⟩
      right
      have e1 : s + (t - 1) + 1 = s + t := by omega
      refine ⟨by show (s + (t - 1) + 1) % _ = _; rw [e1]; exact hte, _, _,
        List.getElem?_eq_getElem he, hf, ViewData.cycAt_some src (by omega) _, ?_⟩
      rw [if_pos (by show 1 ≤ t - 1; omega)]
      simp only [prevWrap_eq src he (k := s + (t - 1)) (by rw [e1]; exact hte)]
    · simp only [if_neg ho]
      have h1 : t = 1 := by omega
      subst h1
      refine ⟨_, rfl, ⟨hs, by show 1 - 1 ≤ _; omega⟩, rfl, rfl, rfl, rfl, fun _ => rfl, ?_⟩
      right
      exact ⟨hte, _, _, List.getElem?_eq_getElem he, hf, ViewData.cycAt_some src (by omega) _, rfl⟩
  · rw [if_neg hf]
    simp only [at_lt (nextWrap_lt src he)]
    refine ⟨_, rfl, ⟨hs, htn⟩, rfl, rfl, rfl, rfl, fun h => absurd h ht0, ?_⟩
    left
    refine ⟨hte, fun _ => ⟨_, _, List.getElem?_eq_getElem he, ViewData.cycAt_some src (by omega) _, hf, ?_⟩⟩
    simp only [nextWrap_eq src he]

/-- The position of the split vertex is the point, unless the point is on the segment end. -/
theorem splitVertex_pos (v1 v2 : Vertex T) (pt : V2 T) (eps : T) :
    (segSplitAtPoint v1 v2 pt eps).splitVertex.pos = pt ∨
      (v2.pos.fuzzyEqEps pt eps = true ∧ (segSplitAtPoint v1 v2 pt eps).splitVertex.pos = v2.pos) := by
  unfold segSplitAtPoint
  split_ifs with h1 h2 h3
  · exact Or.inl rfl
  · exact Or.inl rfl
  · exact Or.inr ⟨h3, rfl⟩
  · exact Or.inl rfl

/-- The updated start of a split stays where it was, unless the split is at the start. -/
theorem updatedStart_pos (v1 v2 : Vertex T) (pt : V2 T) (eps : T) :
    (segSplitAtPoint v1 v2 pt eps).updatedStart.pos = v1.pos ∨
      (segSplitAtPoint v1 v2 pt eps).updatedStart.pos = pt := by
  unfold segSplitAtPoint
  split_ifs with h1 h2 h3
  · exact Or.inl rfl
  · exact Or.inr rfl
  · exact Or.inl rfl
  · exact Or.inl rfl

theorem fwdDist_spec (p : Pline T) {i j : Nat} (hi : i < p.verts.length) (hj : j < p.verts.length) :
    p.fwdDist i j < p.verts.length ∧ (i + p.fwdDist i j) % p.verts.length = j := by
  unfold fwdDist vertexCount
  split_ifs with h
  · exact ⟨by omega, by rw [show i + (j - i) = j by omega, Nat.mod_eq_of_lt hj]⟩
  · refine ⟨by omega, ?_⟩
    rw [show i + (p.verts.length - i + j) = j + p.verts.length by omega, mod_self_add hj]

/-- How a slice view starts, relative to the source.  `s` is the segment index given for the start
point, `s'` the start index of the view.  If the start point is on the end of segment `s` the view
starts with the next vertex, otherwise with segment `s` cut at the start point. -/
def SliceStarts (src : Pline T) (s s' : Nat) (start : V2 T) (eps : T) (base : Vertex T) : Prop :=
  (s' = (s + 1) % src.verts.length ∧ cycAt src (s + 1) = some base ∧
    base.pos.fuzzyEqEps start eps = true) ∨
  (s' = s ∧ ∃ v w, src.verts[s]? = some v ∧ cycAt src (s + 1) = some w ∧
    base = (segSplitAtPoint v w start eps).splitVertex)

theorem fromSlicePoints_core (src : Pline T) (s' e : Nat) (hs' : s' < src.verts.length)
    (he : e < src.verts.length) (start stop : V2 T) (eps : T)
    (base : Vertex T) :
    ∃ r, (do
      let traverseCount ← do
        let indexDist := src.fwdDist s' e
        if indexDist == 0 && src.closed && !start.fuzzyEqEps stop eps then do
          let segStart ← src.at s'
          let dist1 := distSquared segStart.pos start
          let dist2 := distSquared segStart.pos stop
          if lt dist1 dist2 then .ok 0 else .ok src.vertexCount
        else .ok indexDist
      let startV2 ← src.at (src.nextWrap s')
      let updatedStart : Vertex T :=
          if traverseCount = 0 then (segSplitAtPoint base startV2 stop eps).updatedStart
          else base
      if traverseCount = 0 then .ok (ViewData.createOnSingleSegment s' updatedStart stop eps)
      else do
        let d ← ViewData.create src s' stop e updatedStart traverseCount eps
        .ok (some d) : M (Option (ViewData T))) = .ok r ∧ (r = none → s' = e) ∧
      ∀ d, r = some d → d.InRange src ∧ d.inverted = false ∧ d.startIndex = s' ∧
        d.endPoint = stop ∧ (d.endIndexOffset = 0 → d.updatedEndBulge = d.updatedStart.bulge) ∧
        (stop.fuzzyEqEps stop eps = true → d.updatedStart.pos = base.pos) ∧
        (d.updatedStart = base ∨ (d.endIndexOffset = 0 ∧ s' = e ∧ ∃ w, cycAt src (s' + 1) = some w ∧
          d.updatedStart = (segSplitAtPoint base w stop eps).updatedStart)) ∧
        SliceEnds src s' d.endIndexOffset e d.updatedStart.bulge d.updatedEndBulge stop eps := by
  obtain ⟨hd1, hd2⟩ := fwdDist_spec src hs' he
  have hnw := nextWrap_lt src hs'
  have fin : ∀ t, t ≤ src.verts.length → (s' + t) % src.verts.length = e → ∃ r,
      (if t = 0 then (.ok (ViewData.createOnSingleSegment s'
        (if t = 0 then (segSplitAtPoint base src.verts[src.nextWrap s'] stop eps).updatedStart
          else base) stop eps) : M (Option (ViewData T)))
      else Except.bind (ViewData.create src s' stop e
        (if t = 0 then (segSplitAtPoint base src.verts[src.nextWrap s'] stop eps).updatedStart
          else base) t eps) (fun d => .ok (some d))) = .ok r ∧ (r = none → s' = e) ∧
      ∀ d, r = some d → d.InRange src ∧ d.inverted = false ∧ d.startIndex = s' ∧
        d.endPoint = stop ∧ (d.endIndexOffset = 0 → d.updatedEndBulge = d.updatedStart.bulge) ∧
        (stop.fuzzyEqEps stop eps = true → d.updatedStart.pos = base.pos) ∧
        (d.updatedStart = base ∨ (d.endIndexOffset = 0 ∧ s' = e ∧ ∃ w, cycAt src (s' + 1) = some w ∧
          d.updatedStart = (segSplitAtPoint base w stop eps).updatedStart)) ∧
        SliceEnds src s' d.endIndexOffset e d.updatedStart.bulge d.updatedEndBulge stop eps := by
    intro t htn hte
    by_cases ht0 : t = 0
    · subst ht0
      rw [Nat.add_zero, Nat.mod_eq_of_lt hs'] at hte
      simp only [if_true]
      refine ⟨_, rfl, fun _ => hte, ?_⟩
      intro d hd
      unfold ViewData.createOnSingleSegment at hd
      split_ifs at hd with hz
      simp only [Option.some.injEq] at hd
      subst hd
      refine ⟨⟨hs', Nat.zero_le _⟩, rfl, rfl, rfl, fun _ => rfl, ?_, Or.inr ⟨rfl, hte, _,
        ViewData.cycAt_some src (by omega) _, ?_⟩, Or.inl ⟨?_, fun h => absurd h (by simp)⟩⟩
      · intro hrefl
        rcases updatedStart_pos base (src.verts[src.nextWrap s']'(nextWrap_lt src hs')) stop eps with
          h | h
        · exact h
        · rw [h] at hz; exact absurd hrefl hz
      · simp only [nextWrap_eq src hs']
      · show (s' + 0) % _ = _
        rw [Nat.add_zero, Nat.mod_eq_of_lt hs', hte]
    · simp only [if_neg ht0]
      obtain ⟨d, hd, hr, hi, h1, h2, h3, h4, h5⟩ :=
        create_spec src s' e hs' he base stop eps t ht0 htn hte
      rw [hd]
      refine ⟨_, rfl, fun h => by simp at h, ?_⟩
      intro d' hd'
      simp only [Option.some.injEq] at hd'
      subst hd'
      refine ⟨hr, hi, h1, h3, h4, fun _ => by rw [h2], Or.inl h2, ?_⟩
      rw [h2]; exact h5
  simp only [bind, Except.bind, at_lt (nextWrap_lt src hs'), at_lt hs']
  by_cases h1 : (src.fwdDist s' e == 0 && src.closed && !start.fuzzyEqEps stop eps) = true
  · have h0 : src.fwdDist s' e = 0 := by
      simp only [Bool.and_eq_true, beq_iff_eq] at h1; exact h1.1.1
    rw [h0, Nat.add_zero, Nat.mod_eq_of_lt hs'] at hd2
    rw [if_pos h1]
    by_cases h2 : lt (distSquared src.verts[s'].pos start) (distSquared src.verts[s'].pos stop) = true
    · rw [if_pos h2]
      exact fin 0 (Nat.zero_le _) (by rw [Nat.add_zero, Nat.mod_eq_of_lt hs', hd2])
    · rw [if_neg h2]
      have := fin src.vertexCount le_rfl (by
        show (s' + src.verts.length) % _ = _
        rw [mod_self_add hs', hd2])
      simp only [Except.bind] at this
      exact this
  · rw [if_neg h1]
    have := fin _ (by omega) hd2
    simp only [Except.bind] at this
    exact this

/-- **C21** `from_slice_points` does not panic for in-range indexes (on an open source the start
index must not be after the end index).  `None` is only returned when both points are on one
segment.  The view starts at the start point (or at the source vertex it coincides with), ends at
the end point, and its interior vertexes are consecutive source vertexes up to the end segment,
with their source bulges.  The end point is near itself whenever it is not NaN and the epsilon is
positive. -/
theorem C21_slice (src : Pline T) (s e : Nat) (hs : s < src.verts.length)
    (he : e < src.verts.length) (start stop : V2 T) (eps : T) :
    ∃ r, ViewData.fromSlicePoints src start s stop e eps = .ok r ∧
      (r = none → s = e ∨ (s + 1) % src.verts.length = e) ∧
      ∀ d, r = some d → ∃ q base, d.InRange src ∧ d.inverted = false ∧ d.endPoint = stop ∧
        d.toPline src = .ok q ∧ q.closed = false ∧
        IsForwardSlice src d.startIndex d.endIndexOffset d.updatedStart d.updatedEndBulge stop q.verts ∧
        (d.endIndexOffset = 0 → d.updatedEndBulge = d.updatedStart.bulge) ∧
        SliceStarts src s d.startIndex start eps base ∧
        (stop.fuzzyEqEps stop eps = true → d.updatedStart.pos = base.pos) ∧
        (d.updatedStart = base ∨ (d.endIndexOffset = 0 ∧ d.startIndex = e ∧
          ∃ w, cycAt src (d.startIndex + 1) = some w ∧
            d.updatedStart = (segSplitAtPoint base w stop eps).updatedStart)) ∧
        SliceEnds src d.startIndex d.endIndexOffset e d.updatedStart.bulge d.updatedEndBulge stop eps ∧
        (src.closed = false → s ≤ e → d.startIndex ≤ e) := by
  have hn := nextWrap_lt src hs
  have hn0 : 0 < src.verts.length := by omega
  have hnx := nextWrap_eq src hs
  have finish : ∀ (s' : Nat) (base : Vertex T), s' < src.verts.length →
      SliceStarts src s s' start eps base → (src.closed = false → s ≤ e → s' ≤ e) →
      ∀ (x : M (Option (ViewData T))), (∃ r, x = .ok r ∧ (r = none → s' = e) ∧
      ∀ d, r = some d → d.InRange src ∧ d.inverted = false ∧ d.startIndex = s' ∧
        d.endPoint = stop ∧ (d.endIndexOffset = 0 → d.updatedEndBulge = d.updatedStart.bulge) ∧
        (stop.fuzzyEqEps stop eps = true → d.updatedStart.pos = base.pos) ∧
        (d.updatedStart = base ∨ (d.endIndexOffset = 0 ∧ s' = e ∧ ∃ w, cycAt src (s' + 1) = some w ∧
          d.updatedStart = (segSplitAtPoint base w stop eps).updatedStart)) ∧
        SliceEnds src s' d.endIndexOffset e d.updatedStart.bulge d.updatedEndBulge stop eps) →
      ∃ r, x = .ok r ∧
      (r = none → s = e ∨ (s + 1) % src.verts.length = e) ∧
      ∀ d, r = some d → ∃ q base, d.InRange src ∧ d.inverted = false ∧ d.endPoint = stop ∧
        d.toPline src = .ok q ∧ q.closed = false ∧
        IsForwardSlice src d.startIndex d.endIndexOffset d.updatedStart d.updatedEndBulge stop q.verts ∧
        (d.endIndexOffset = 0 → d.updatedEndBulge = d.updatedStart.bulge) ∧
        SliceStarts src s d.startIndex start eps base ∧
        (stop.fuzzyEqEps stop eps = true → d.updatedStart.pos = base.pos) ∧
        (d.updatedStart = base ∨ (d.endIndexOffset = 0 ∧ d.startIndex = e ∧
          ∃ w, cycAt src (d.startIndex + 1) = some w ∧
            d.updatedStart = (segSplitAtPoint base w stop eps).updatedStart)) ∧
        SliceEnds src d.startIndex d.endIndexOffset e d.updatedStart.bulge d.updatedEndBulge stop eps ∧
        (src.closed = false → s ≤ e → d.startIndex ≤ e) := by
    rintro s' base hs' hst hord x ⟨r, hx, hnone, hsome⟩
    refine ⟨r, hx, ?_, ?_⟩
    · intro h
      have h := hnone h
      rcases hst with ⟨h1, -⟩ | ⟨h1, -⟩
      · right; rw [← h1]; exact h
      · left; rw [← h1]; exact h
    · intro d hd
      obtain ⟨a1, a2, a3, a4, a5, a6, a7, a8⟩ := hsome d hd
      obtain ⟨q, hq, hqc, hsl⟩ := d.forward_slice src a1 a2
      rw [a4] at hsl
      subst a3
      exact ⟨q, base, a1, a2, a4, hq, hqc, hsl, a5, hst, a6, a7, a8, hord⟩
  by_cases hguard : (!src.closed && decide (s ≥ e)) = true
  · obtain ⟨v, hv⟩ : ∃ v, v = (segSplitAtPoint src.verts[s] src.verts[src.nextWrap s] start eps).splitVertex := ⟨_, rfl⟩
    have core := fromSlicePoints_core src s e hs he start stop eps v
    refine finish s v hs (Or.inr ⟨rfl, _, _, List.getElem?_eq_getElem hs,
      ViewData.cycAt_some src hn0 _, by rw [hv]; simp only [hnx]⟩) (fun _ h => h) _ ?_
    obtain ⟨r, hr, hrest⟩ := core
    refine ⟨r, ?_, hrest⟩
    rw [← hr]
    unfold ViewData.fromSlicePoints
    simp only [hguard, if_true, bind, Except.bind, at_lt hs, at_lt hn, hv, Bool.false_eq_true, if_false]
  · have hord : src.closed = false → s ≤ e → src.nextWrap s ≤ e := by
      intro hc hse
      have : ¬ s ≥ e := by
        intro h; apply hguard; simp [hc, h]
      rw [hnx, Nat.mod_eq_of_lt (by omega)]; omega
    by_cases hat : (src.verts[src.nextWrap s]).pos.fuzzyEqEps start eps = true
    · have core := fromSlicePoints_core src (src.nextWrap s) e hn he start stop eps
        src.verts[src.nextWrap s]
      refine finish (src.nextWrap s) src.verts[src.nextWrap s] hn (Or.inl ⟨hnx, ?_, hat⟩) hord _ ?_
      · rw [ViewData.cycAt_some src hn0]; simp only [hnx]
      obtain ⟨r, hr, hrest⟩ := core
      refine ⟨r, ?_, hrest⟩
      rw [← hr]
      unfold ViewData.fromSlicePoints
      simp only [hguard, Bool.false_eq_true, if_false, bind, Except.bind, at_lt hn, hat, if_true]
    · obtain ⟨v, hv⟩ : ∃ v, v = (segSplitAtPoint src.verts[s] src.verts[src.nextWrap s] start eps).splitVertex := ⟨_, rfl⟩
      have core := fromSlicePoints_core src s e hs he start stop eps v
      refine finish s v hs (Or.inr ⟨rfl, _, _, List.getElem?_eq_getElem hs,
        ViewData.cycAt_some src hn0 _, by rw [hv]; simp only [hnx]⟩) (fun _ h => h) _ ?_
      obtain ⟨r, hr, hrest⟩ := core
      refine ⟨r, ?_, hrest⟩
      rw [← hr]
      unfold ViewData.fromSlicePoints
      simp only [hguard, if_true, bind, Except.bind, at_lt hs, at_lt hn, hv, Bool.false_eq_true,
        if_false, hat]

/-- **C22** `from_new_start` on a closed source with an in-range index does not panic and gives a
view that starts and ends at the given point.  If the point is on a vertex, the view passes the
other `n - 1` vertexes in cyclic order, all with their own bulge.  Otherwise it passes all `n`
vertexes in cyclic order and the segment with the point is cut in two. -/
theorem C22_new_start (src : Pline T) (hc : src.closed = true) (h2 : 2 ≤ src.verts.length)
    (s : Nat) (hs : s < src.verts.length) (start : V2 T) (eps : T) :
    ∃ d q v w, ViewData.fromNewStart src start s eps = .ok (some d) ∧ d.InRange src ∧
      d.inverted = false ∧ d.toPline src = .ok q ∧ q.closed = false ∧
      IsForwardSlice src d.startIndex d.endIndexOffset d.updatedStart d.updatedEndBulge start q.verts ∧
      d.updatedStart.pos = start ∧
      (d.startIndex = s ∨ d.startIndex = (s + 1) % src.verts.length) ∧
      src.verts[d.startIndex]? = some v ∧ cycAt src (d.startIndex + 1) = some w ∧
      ((v.pos.fuzzyEqEps start eps = true ∧ d.endIndexOffset = src.verts.length - 1 ∧
          (cycAt src (d.startIndex + (src.verts.length - 1))).map (·.bulge) = some d.updatedEndBulge ∧
          (v.bulgeIsZero = false → d.updatedStart.bulge = v.bulge)) ∨
        (v.pos.fuzzyEqEps start eps = false ∧ d.startIndex = s ∧ d.endIndexOffset = src.verts.length ∧
          d.updatedStart = (segSplitAtPoint v w start eps).splitVertex ∧
          d.updatedEndBulge = (segSplitAtPoint v w start eps).updatedStart.bulge)) := by
  have hn := nextWrap_lt src hs
  have hn0 : 0 < src.verts.length := by omega
  have hnx := nextWrap_eq src hs
  obtain ⟨s', hs'eq⟩ : ∃ s', s' = if (src.verts[src.nextWrap s]).pos.fuzzyEqEps start eps = true
    then src.nextWrap s else s := ⟨_, rfl⟩
  have hs' : s' < src.verts.length := by rw [hs'eq]; split_ifs <;> assumption
  have hor : s' = s ∨ s' = (s + 1) % src.verts.length := by
    rw [hs'eq]; split_ifs
    · right; exact hnx
    · left; rfl
  have hn' := nextWrap_lt src hs'
  have key : ∀ d, ViewData.fromNewStart src start s eps = .ok (some d) → d.InRange src →
      d.inverted = false → d.endPoint = start → d.startIndex = s' →
      ∃ q, d.toPline src = .ok q ∧ q.closed = false ∧
      IsForwardSlice src d.startIndex d.endIndexOffset d.updatedStart d.updatedEndBulge start
        q.verts := by
    intro d _ a1 a2 a3 _
    obtain ⟨q, hq, hqc, hsl⟩ := d.forward_slice src a1 a2
    rw [a3] at hsl
    exact ⟨q, hq, hqc, hsl⟩
  by_cases hv : (src.verts[s']).pos.fuzzyEqEps start eps = true
  · obtain ⟨sv, hsv⟩ : ∃ sv, sv = (segSplitAtPoint src.verts[s'] src.verts[src.nextWrap s'] start eps).splitVertex := ⟨_, rfl⟩
    let d : ViewData T := ⟨s', src.verts.length - 1, sv, (src.verts[src.prevWrap s']'(prevWrap_lt src hs')).bulge, start, false⟩
    have hd : ViewData.fromNewStart src start s eps = .ok (some d) := by
      unfold ViewData.fromNewStart
      simp only [hc, Bool.not_true, Bool.false_eq_true, if_false, vertexCount,
        show ¬ src.verts.length < 2 by omega, at_lt hn, bind, Except.bind, ← hs'eq, at_lt hs',
        at_lt hn', hv, if_true, at_lt (prevWrap_lt src hs'), ← hsv]
      rfl
    have hr : d.InRange src := ⟨hs', by show _ - 1 ≤ _; omega⟩
    obtain ⟨q, hq, hqc, hsl⟩ := key d hd hr rfl rfl rfl
    refine ⟨d, q, _, _, hd, hr, rfl, hq, hqc, hsl, ?_, hor, List.getElem?_eq_getElem hs',
      ViewData.cycAt_some src hn0 _, Or.inl ⟨hv, rfl, ?_, ?_⟩⟩
    · show sv.pos = start
      rw [hsv]; unfold segSplitAtPoint
      simp only [hv, Bool.or_true, if_true]
      split_ifs <;> rfl
    · show (cycAt src (s' + (src.verts.length - 1))).map _ = some _
      rw [ViewData.cycAt_some src hn0, Option.map_some]
      have := prevWrap_eq src hs' (k := s' + (src.verts.length - 1)) (by
        rw [show s' + (src.verts.length - 1) + 1 = s' + src.verts.length by omega, mod_self_add hs'])
      simp only [this, d]
    · intro hz
      show sv.bulge = _
      rw [hsv]; unfold segSplitAtPoint
      have hz' : (src.verts[s']).bulgeIsZero = false := hz
      simp only [hz', hv, Bool.or_true, if_true, Bool.false_eq_true, if_false]
  · have hss : s' = s := by
      rw [hs'eq]
      split_ifs with h
      · exfalso; apply hv
        have : s' = src.nextWrap s := by rw [hs'eq, if_pos h]
        simp only [this]; exact h
      · rfl
    have hnot : ¬ (src.verts[src.nextWrap s']).pos.fuzzyEqEps start eps = true := by
      intro h
      apply hv
      simp only [hss] at h
      have : s' = src.nextWrap s := by rw [hs'eq, if_pos h]
      simp only [this]; exact h
    obtain ⟨sp, hsp⟩ : ∃ sp, sp = segSplitAtPoint src.verts[s'] src.verts[src.nextWrap s'] start eps := ⟨_, rfl⟩
    let d : ViewData T := ⟨s', src.verts.length, sp.splitVertex, sp.updatedStart.bulge, start, false⟩
    have hd : ViewData.fromNewStart src start s eps = .ok (some d) := by
      unfold ViewData.fromNewStart
      simp only [hc, Bool.not_true, Bool.false_eq_true, if_false, vertexCount,
        show ¬ src.verts.length < 2 by omega, at_lt hn, bind, Except.bind, ← hs'eq, at_lt hs',
        at_lt hn', hv, ← hsp]
      rfl
    have hr : d.InRange src := ⟨hs', le_rfl⟩
    obtain ⟨q, hq, hqc, hsl⟩ := key d hd hr rfl rfl rfl
    refine ⟨d, q, _, _, hd, hr, rfl, hq, hqc, hsl, ?_, hor, List.getElem?_eq_getElem hs',
      ViewData.cycAt_some src hn0 _, Or.inr ⟨by simpa using hv, hss, rfl, ?_, ?_⟩⟩
    · show sp.splitVertex.pos = start
      rw [hsp]
      rcases splitVertex_pos src.verts[s'] src.verts[src.nextWrap s'] start eps with h | ⟨h, -⟩
      · exact h
      · exact absurd h hnot
    · show sp.splitVertex = _
      rw [hsp]; simp only [nextWrap_eq src hs', d]
    · show sp.updatedStart.bulge = _
      rw [hsp]; simp only [nextWrap_eq src hs', d]

/-! ## Concrete cases -/

/-- a closed square -/
def exSquare : Pline Rat := ⟨[⟨0, 0, 0⟩, ⟨2, 0, 0⟩, ⟨2, 2, 0⟩, ⟨0, 2, 0⟩], true⟩

/-- Non-vacuity for `C21_slice`: a slice that wraps around the start of the square. -/
example : ViewData.fromSlicePoints exSquare ⟨1, 2⟩ 2 ⟨1, 0⟩ 0 (1 / 1000) =
    .ok (some ⟨2, 2, ⟨1, 2, 0⟩, 0, ⟨1, 0⟩, false⟩) ∧
    (⟨1, 0⟩ : V2 Rat).fuzzyEqEps ⟨1, 0⟩ (1 / 1000) = true ∧
    (⟨2, 2, ⟨1, 2, 0⟩, 0, ⟨1, 0⟩, false⟩ : ViewData Rat).toPline exSquare =
      .ok ⟨[⟨1, 2, 0⟩, ⟨0, 2, 0⟩, ⟨0, 0, 0⟩, ⟨1, 0, 0⟩], false⟩ := by decide +kernel

/-- Non-vacuity for `C22_new_start`. -/
example : ViewData.fromNewStart exSquare ⟨2, 1⟩ 1 (1 / 1000) =
    .ok (some ⟨1, 4, ⟨2, 1, 0⟩, 0, ⟨2, 1⟩, false⟩) := by decide +kernel

/-- Non-vacuity for `C20_entire` and `C23_inverted`. -/
example : ViewData.fromEntirePline exSquare = .ok ⟨0, 3, ⟨0, 0, 0⟩, 0, ⟨0, 0⟩, false⟩ ∧
    (⟨0, 3, ⟨0, 0, 0⟩, 0, ⟨0, 0⟩, true⟩ : ViewData Rat).toPline exSquare =
      .ok ⟨[⟨0, 0, 0⟩, ⟨0, 2, 0⟩, ⟨2, 2, 0⟩, ⟨2, 0, 0⟩, ⟨0, 0, 0⟩], false⟩ := by decide +kernel

/-- **C21** (finding) When both points are given on the end of the same segment of a closed source,
the two points coincide but the view is the whole loop, while the same two points given on the
start of the next segment give no view at all. -/
theorem C21_segment_end_witness :
    ViewData.fromSlicePoints exSquare ⟨2, 0⟩ 0 ⟨2, 0⟩ 0 (1 / 1000) =
      .ok (some ⟨1, 3, ⟨2, 0, 0⟩, 0, ⟨2, 0⟩, false⟩) ∧
    ViewData.fromSlicePoints exSquare ⟨2, 0⟩ 1 ⟨2, 0⟩ 1 (1 / 1000) = .ok none := by decide +kernel

end Cavc
