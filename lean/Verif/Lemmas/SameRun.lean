import Verif.Lemmas.SameSeg
import Verif.Props.BooleanSame
import Verif.Props.SimpleLoop

/-! # The overlaps of a closed polyline with itself -/

namespace Cavc
open RealScalar

theorem SamePiece.symm {a b : Piece ℝ} (h : SamePiece a b) : SamePiece b a := by
  rcases h with h | h
  · exact Or.inl h.symm
  · right
    rw [h]
    simp [Piece.flip]

theorem SamePiece.trans {a b c : Piece ℝ} (h : SamePiece a b) (k : SamePiece b c) : SamePiece a c := by
  rcases h with rfl | rfl
  · exact k
  · rcases k with rfl | rfl
    · exact Or.inr rfl
    · left
      simp [Piece.flip]

/-- a list of overlaps without a gap is one run -/
theorem one_run {eps : ℝ} {l : List (OverlapIntr ℝ)} {gs : List (List (OverlapIntr ℝ))} (h : IsRuns eps l gs) (hl : l ≠ [])
    (hc : l.IsChain (OverlapIntr.Meets eps)) : gs = [l] := by
  have hf := h.flatten
  match gs with
  | [] => exact absurd hf.symm hl
  | [g] => simp at hf; rw [hf]
  | g :: k :: gs =>
    exfalso
    have hg := h.nonempty g (by simp)
    have hk := h.nonempty k (by simp)
    have hb := h.between
    rw [List.isChain_cons_cons] at hb
    obtain ⟨z, hz⟩ : ∃ z, g.getLast? = some z := ⟨_, List.getLast?_eq_some_getLast hg⟩
    obtain ⟨a, ha⟩ : ∃ a, k.head? = some a := ⟨_, List.head?_eq_some_head hk⟩
    apply hb.1 z hz a ha
    rw [← hf, List.flatten_cons, List.flatten_cons, List.isChain_append] at hc
    exact hc.2.2 z hz a (by rw [List.head?_append, ha]; rfl)

variable {p1 p2 : Pline ℝ} {eps : ℝ}

/-- each segment of the second polyline is the same as exactly one of the first -/
theorem partner (hs : SameCurve p1 p2) (hn : NoPartialOverlap p1 p2 eps) {j : Nat} {t : Vertex ℝ × Vertex ℝ} (hj : p2.segs[j]? = some t) :
    ∃ (i : Nat) (s : Vertex ℝ × Vertex ℝ), p1.segs[i]? = some s ∧ SamePiece (pieceOf s) (pieceOf t) ∧
      ∀ (k : Nat) (u : Vertex ℝ × Vertex ℝ), p1.segs[k]? = some u → SamePiece (pieceOf u) (pieceOf t) → k = i := by
  obtain ⟨l, hp, hf⟩ := hs
  have hj' : p2.path[j]? = some (pieceOf t) := by unfold Pline.path; rw [List.getElem?_map, hj]; rfl
  obtain ⟨a, ha, hab⟩ := forall2_mem_right hf (List.mem_of_getElem? hj')
  have hm : a ∈ p1.path := hp.mem_iff.mp ha
  obtain ⟨s, hsm, rfl⟩ := List.mem_map.mp hm
  obtain ⟨i, hi, rfl⟩ := List.getElem_of_mem hsm
  refine ⟨i, _, List.getElem?_eq_getElem hi, hab, ?_⟩
  intro k u hk hu
  by_contra hne
  have hku : p1.path[k]? = some (pieceOf u) := by unfold Pline.path; rw [List.getElem?_map, hk]; rfl
  have hki : p1.path[i]? = some (pieceOf (p1.segs[i])) := by unfold Pline.path; rw [List.getElem?_map, List.getElem?_eq_getElem hi]; rfl
  have hpw := hn.once
  rw [List.pairwise_iff_getElem] at hpw
  obtain ⟨b1, c1⟩ := List.getElem?_eq_some_iff.mp hku
  obtain ⟨b2, c2⟩ := List.getElem?_eq_some_iff.mp hki
  rcases Nat.lt_or_gt_of_ne hne with h | h
  · have := hpw k i b1 b2 h
    rw [c1, c2] at this
    exact this (hu.trans hab.symm)
  · have := hpw i k b2 b1 h
    rw [c1, c2] at this
    exact this (hab.trans hu.symm)

/-- The overlaps of a polyline with another of the same segments: one for each segment. -/
theorem same_found (env : Env ℝ) (he : 0 < eps) (f2 : FullLoop p2 eps) (o : Option (Index ℝ)) (hidx : (o.getD (p1.approxIndex env)).Serves p1)
    (hs : SameCurve p1 p2) (hn : NoPartialOverlap p1 p2 eps) (r : IntrCollection ℝ) (hr : findIntersects env p1 p2 o eps = .ok r)
    (sorted : List (OverlapIntr ℝ)) (hp : sorted.Perm r.overlapping) (hb : sorted.Pairwise (OverlapIntr.Before p2)) :
    sorted.map (fun q => q.startIndex2) = List.range p2.verts.length ∧
    ∀ q ∈ sorted, q.point1 = (vtx p2 q.startIndex2).pos ∧ q.point2 = (vtx p2 (q.startIndex2 + 1)).pos := by
  obtain ⟨r', hr', hov, -⟩ := C37_result env p1 p2 o eps hidx
  rw [hr] at hr'
  cases hr'
  have hseg : ∀ j t, p2.segs[j]? = some t ↔ j < p2.verts.length ∧ t = (vtx p2 j, vtx p2 (j + 1)) := by
    intro j t
    rw [segs_range f2.closed f2.two, List.getElem?_map]
    by_cases hj : j < p2.verts.length
    · rw [List.getElem?_range hj]
      simp [hj, eq_comm]
    · rw [List.getElem?_eq_none (by simpa using hj)]
      simp [hj]
  have hmem : ∀ q, q ∈ r.overlapping ↔ ∃ s t, p1.segs[q.startIndex1]? = some s ∧ p2.segs[q.startIndex2]? = some t ∧
      SamePiece (pieceOf s) (pieceOf t) ∧ q.point1 = t.1.pos ∧ q.point2 = t.2.pos := by
    intro q
    rw [hov]
    constructor
    · rintro ⟨s, t, h1, h2, -, h4⟩
      have hsame : SamePiece (pieceOf s) (pieceOf t) := by
        by_contra hc
        rw [hn.other s (List.mem_of_getElem? h1) t (List.mem_of_getElem? h2) hc] at h4
        cases h4
      obtain ⟨hj, rfl⟩ := (hseg _ _).mp h2
      rw [same_overlap he (f2.full _) hsame] at h4
      simp only [Option.some.injEq, Prod.mk.injEq] at h4
      exact ⟨s, _, h1, h2, hsame, h4.1.symm, h4.2.symm⟩
    · rintro ⟨s, t, h1, h2, hsame, h3, h4⟩
      obtain ⟨hj, rfl⟩ := (hseg _ _).mp h2
      have hf := f2.full q.startIndex2
      refine ⟨s, _, h1, h2, ?_, ?_⟩
      · have hshape : ∀ {v : Vertex ℝ}, (IsLine v ∨ (¬ IsLine v ∧ |v.bulge| ≤ 1)) → IsLine v ∨ |v.bulge| ≤ 1 := fun h => h.imp_right And.right
        have hbl : |s.1.bulge| = |(vtx p2 q.startIndex2).bulge| := by
          rcases hsame with h | h
          · simp only [pieceOf, Piece.mk.injEq] at h; rw [h.2.2]
          · simp only [pieceOf, Piece.flip, Piece.mk.injEq] at h; rw [h.2.2, abs_neg]
        have hs1 : IsLine s.1 ∨ |s.1.bulge| ≤ 1 := by
          unfold IsLine
          rw [hbl]
          exact hshape hf.shape
        refine C37_boxes s _ eps he.le hs1 (hshape hf.shape) (vtx p2 q.startIndex2).pos ?_ (onSeg_first _ _)
        rcases hsame with h | h
        · simp only [pieceOf, Piece.mk.injEq] at h
          have : s.1.pos = (vtx p2 q.startIndex2).pos := h.1
          rw [← this]
          exact onSeg_first _ _
        · simp only [pieceOf, Piece.flip, Piece.mk.injEq] at h
          have : s.2.pos = (vtx p2 q.startIndex2).pos := h.2.1
          rw [← this]
          exact onSeg_second _ _
      · rw [same_overlap he hf hsame, ← h3, ← h4]
  have hpts : ∀ q ∈ sorted, q.point1 = (vtx p2 q.startIndex2).pos ∧ q.point2 = (vtx p2 (q.startIndex2 + 1)).pos := by
    intro q hq
    obtain ⟨s, t, h1, h2, -, h3, h4⟩ := (hmem q).mp (hp.mem_iff.mp hq)
    obtain ⟨-, rfl⟩ := (hseg _ _).mp h2
    exact ⟨h3, h4⟩
  refine ⟨?_, hpts⟩
  have hnd : sorted.Nodup := hp.nodup_iff.mpr (find_overlaps_range env p1 p2 o eps hidx r hr).2.1
  have hinj : ∀ a ∈ sorted, ∀ b ∈ sorted, a.startIndex2 = b.startIndex2 → a = b := by
    intro a ha b hb' hab
    obtain ⟨s, t, h1, h2, hst, h3, h4⟩ := (hmem a).mp (hp.mem_iff.mp ha)
    obtain ⟨s', t', h1', h2', hst', h3', h4'⟩ := (hmem b).mp (hp.mem_iff.mp hb')
    rw [hab, h2'] at h2
    cases h2
    obtain ⟨i, u, -, -, huniq⟩ := partner hs hn h2'
    have e1 := huniq _ _ h1 hst
    have e2 := huniq _ _ h1' hst'
    cases a; cases b
    simp_all
  have hnd2 : (sorted.map fun q => q.startIndex2).Nodup := (List.nodup_map_iff_inj_on hnd).mpr fun a ha b hb' h => hinj a ha b hb' h
  have hsub : ∀ j, j ∈ sorted.map (fun q => q.startIndex2) ↔ j ∈ List.range p2.verts.length := by
    intro j
    rw [List.mem_range]
    constructor
    · intro h
      obtain ⟨q, hq, rfl⟩ := List.mem_map.mp h
      obtain ⟨s, t, h1, h2, -⟩ := (hmem q).mp (hp.mem_iff.mp hq)
      exact ((hseg _ _).mp h2).1
    · intro h
      have ht := (hseg j _).mpr ⟨h, rfl⟩
      obtain ⟨i, s, hi, hsame, -⟩ := partner hs hn ht
      exact List.mem_map.mpr ⟨⟨i, j, (vtx p2 j).pos, (vtx p2 (j + 1)).pos⟩, hp.mem_iff.mpr ((hmem _).mpr ⟨s, _, hi, ht, hsame, rfl, rfl⟩), rfl⟩
  have hperm := (List.perm_ext_iff_of_nodup hnd2 List.nodup_range).mpr hsub
  apply hperm.eq_of_pairwise (le := (· ≤ ·))
  · intro a b _ _ h1 h2; exact Nat.le_antisymm h1 h2
  · rw [List.pairwise_map]
    exact hb.imp fun h => Before.le h
  · exact List.pairwise_le_range

/-- A boolean operation of polylines with the same segments takes them for the same curve. -/
theorem same_one_loop (env : Env ℝ) (he : 0 < eps) (f2 : FullLoop p2 eps) (o : Option (Index ℝ)) (hidx : (o.getD (p1.approxIndex env)).Serves p1)
    (hs : SameCurve p1 p2) (hn : NoPartialOverlap p1 p2 eps) (r : IntrCollection ℝ) (hr : findIntersects env p1 p2 o eps = .ok r)
    (sorted : List (OverlapIntr ℝ)) (hp : sorted.Perm r.overlapping) (hb : sorted.Pairwise (OverlapIntr.Before p2))
    (gs : List (List (OverlapIntr ℝ))) (hg : IsRuns eps sorted gs) : OneLoop p2 eps gs := by
  obtain ⟨hidx2, hpts⟩ := same_found env he f2 o hidx hs hn r hr sorted hp hb
  have h2 := f2.two
  have hlen : sorted.length = p2.verts.length := by
    have := congrArg List.length hidx2
    simpa using this
  have hat : ∀ j (hj : j < sorted.length), sorted[j].startIndex2 = j := by
    intro j hj
    have : (sorted.map fun q => q.startIndex2)[j]? = some j := by
      rw [hidx2, List.getElem?_range (by omega)]
    rw [List.getElem?_map, List.getElem?_eq_getElem hj] at this
    simpa using this
  have fz : ∀ x : V2 ℝ, x.fuzzyEqEps x eps = true := by
    intro x
    rw [V2.fuzzyEqEps_iff]
    simp [he]
  have hchain : sorted.IsChain (OverlapIntr.Meets eps) := by
    rw [List.isChain_iff_getElem]
    intro i hi
    unfold OverlapIntr.Meets
    rw [(hpts _ (List.getElem_mem hi)).1, (hpts _ (List.getElem_mem (by omega : i < sorted.length))).2, hat, hat]
    exact fz _
  have hne : sorted ≠ [] := by
    intro h0
    rw [h0] at hlen
    simp at hlen
    omega
  left
  refine ⟨sorted, one_run hg hne hchain, ?_⟩
  refine (closesUp_iff (List.head?_eq_some_head hne) (List.getLast?_eq_some_getLast hne)).mp ⟨by omega, ?_⟩
  rw [(hpts _ (List.getLast_mem hne)).2, (hpts _ (List.head_mem hne)).1]
  have e1 : (sorted.getLast hne).startIndex2 = p2.verts.length - 1 := by
    rw [List.getLast_eq_getElem, hat, hlen]
  have e2 : (sorted.head hne).startIndex2 = 0 := by
    rw [List.head_eq_getElem, hat]
  rw [e1, e2, show p2.verts.length - 1 + 1 = p2.verts.length by omega]
  have : vtx p2 p2.verts.length = vtx p2 0 := by
    have := vtx_add p2 0
    rwa [Nat.zero_add] at this
  rw [this]
  exact fz _

end Cavc
