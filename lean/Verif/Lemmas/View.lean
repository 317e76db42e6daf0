import Verif.Spec.View
import Verif.Lemmas.Segs

/-! Lemmas about views. -/

set_option linter.unusedSectionVars false

namespace Cavc
open Scalar Pline
variable {T : Type} [Scalar T]

theorem mapM_ok {α β : Type} {f : α → M β} {g : α → β} : ∀ {l : List α},
    (∀ a ∈ l, f a = .ok (g a)) → l.mapM f = .ok (l.map g)
  | [], _ => rfl
  | a :: l, h => by
    rw [List.mapM_cons, h a (by simp), mapM_ok (l := l) (fun b hb => h b (by simp [hb]))]
    rfl

namespace Pline

theorem nextWrap_eq (p : Pline T) {i : Nat} (hi : i < p.verts.length) :
    p.nextWrap i = (i + 1) % p.verts.length := by
  unfold nextWrap vertexCount
  dsimp only
  split_ifs with h
  · have : i + 1 = p.verts.length := by omega
    rw [this, Nat.mod_self]
  · rw [Nat.mod_eq_of_lt (by omega)]

theorem fwdIndex_eq (p : Pline T) {i k : Nat} (hi : i < p.verts.length) (hk : k ≤ p.verts.length) :
    p.fwdIndex i k = (i + k) % p.verts.length := by
  unfold fwdIndex vertexCount
  dsimp only
  split_ifs with h
  · rw [Nat.mod_eq_of_lt h]
  · rw [Nat.mod_eq_sub_mod (by omega), Nat.mod_eq_of_lt (by omega)]

theorem nextWrap_lt (p : Pline T) {i : Nat} (hi : i < p.verts.length) :
    p.nextWrap i < p.verts.length := by
  rw [nextWrap_eq p hi]; exact Nat.mod_lt _ (by omega)

theorem prevWrap_lt (p : Pline T) {i : Nat} (hi : i < p.verts.length) :
    p.prevWrap i < p.verts.length := by
  unfold prevWrap vertexCount; split_ifs <;> omega

theorem fwdIndex_lt (p : Pline T) {i k : Nat} (hi : i < p.verts.length) (hk : k ≤ p.verts.length) :
    p.fwdIndex i k < p.verts.length := by
  rw [fwdIndex_eq p hi hk]; exact Nat.mod_lt _ (by omega)

end Pline

namespace ViewData

theorem getVertex_ge (d : ViewData T) (src : Pline T) {i : Nat} (h : d.endIndexOffset + 2 ≤ i) :
    d.getVertex src i = .ok none := by
  unfold getVertex vertexCount; rw [if_pos h]

theorem cycAt_some (src : Pline T) (hn : 0 < src.verts.length) (i : Nat) :
    cycAt src i = some (src.verts[i % src.verts.length]'(Nat.mod_lt _ hn)) := by
  unfold cycAt; rw [List.getElem?_eq_getElem]

/-- Every in-range index has a vertex, no panic. -/
theorem getVertex_lt (d : ViewData T) (src : Pline T) (hr : d.InRange src) {i : Nat}
    (h : i < d.endIndexOffset + 2) : ∃ v, d.getVertex src i = .ok (some v) := by
  have h0 := hr.start
  have h1 := hr.offset
  unfold getVertex vertexCount
  rw [if_neg (by omega)]
  split_ifs with hi a b c e a b c e
  · exact ⟨_, rfl⟩
  · have hb := fwdIndex_lt src h0 (show d.endIndexOffset - i ≤ src.verts.length by omega)
    simp only [at_lt hb, at_lt (nextWrap_lt src hb), bind, Except.bind]
    exact ⟨_, rfl⟩
  · have hb := fwdIndex_lt src h0 (show d.endIndexOffset - i + 1 ≤ src.verts.length by omega)
    simp only [at_lt hb, bind, Except.bind]
    exact ⟨_, rfl⟩
  · exact ⟨_, rfl⟩
  · omega
  · exact ⟨_, rfl⟩
  · have hb := fwdIndex_lt src h0 (show i ≤ src.verts.length by omega)
    simp only [at_lt hb, bind, Except.bind]
    exact ⟨_, rfl⟩
  · have hb := fwdIndex_lt src h0 (show d.endIndexOffset ≤ src.verts.length by omega)
    simp only [at_lt hb, bind, Except.bind]
    exact ⟨_, rfl⟩
  · exact ⟨_, rfl⟩
  · omega

/-- The materialised view. -/
theorem toPline_ok (d : ViewData T) (src : Pline T) (hr : d.InRange src) :
    ∃ q, d.toPline src = .ok q ∧ q.closed = false ∧ q.verts.length = d.endIndexOffset + 2 ∧
      ∀ i, d.getVertex src i = .ok q.verts[i]? := by
  classical
  let g : Nat → Vertex T := fun i =>
    if h : i < d.endIndexOffset + 2 then (getVertex_lt d src hr h).choose else d.updatedStart
  have hg : ∀ i, i < d.endIndexOffset + 2 → d.getVertex src i = .ok (some (g i)) := by
    intro i hi
    have := (getVertex_lt d src hr hi).choose_spec
    simp only [g, hi, dif_pos]; exact this
  have hm : (List.range d.vertexCount).mapM (fun i => d.at src i)
      = .ok ((List.range d.vertexCount).map g) := by
    apply mapM_ok
    intro i hi
    have hi' : i < d.endIndexOffset + 2 := by simpa [vertexCount] using hi
    simp only [ViewData.at, hg i hi', bind, Except.bind, unwrap]
  refine ⟨⟨(List.range d.vertexCount).map g, false⟩, ?_, rfl, ?_, ?_⟩
  · simp only [toPline, hm, bind, Except.bind]
  · simp [vertexCount]
  · intro i
    by_cases hi : i < d.endIndexOffset + 2
    · rw [hg i hi]; simp [vertexCount, hi]
    · rw [getVertex_ge d src (by omega)]
      simp [vertexCount, Nat.not_lt.mp hi]

theorem forward_slice (d : ViewData T) (src : Pline T) (hr : d.InRange src)
    (hi : d.inverted = false) :
    ∃ q, d.toPline src = .ok q ∧ q.closed = false ∧
      IsForwardSlice src d.startIndex d.endIndexOffset d.updatedStart d.updatedEndBulge d.endPoint
        q.verts := by
  obtain ⟨q, hq, hc, hl, hv⟩ := toPline_ok d src hr
  have h0 := hr.start
  have h1 := hr.offset
  refine ⟨q, hq, hc, hl, ?_, ?_, ?_, ?_⟩
  · have := hv 0
    unfold getVertex vertexCount at this
    simp [hi] at this
    exact this.symm
  · intro i h1i hik
    have := hv i
    have hb := fwdIndex_lt src h0 (show i ≤ src.verts.length by omega)
    unfold getVertex vertexCount at this
    simp only [hi, ge_iff_le, show ¬ d.endIndexOffset + 2 ≤ i by omega, if_false,
      Bool.false_eq_true, show ¬ i = 0 by omega, hik, if_true, at_lt hb, bind, Except.bind] at this
    rw [cycAt_some src (by omega)]
    simp only [Except.ok.injEq] at this
    rw [← this]
    simp only [fwdIndex_eq src h0 (show i ≤ src.verts.length by omega)]
  · intro hk
    have := hv d.endIndexOffset
    have hb := fwdIndex_lt src h0 (show d.endIndexOffset ≤ src.verts.length by omega)
    unfold getVertex vertexCount at this
    simp only [hi, ge_iff_le, show ¬ d.endIndexOffset + 2 ≤ d.endIndexOffset by omega, if_false,
      Bool.false_eq_true, show ¬ d.endIndexOffset = 0 by omega, Nat.lt_irrefl, if_true, at_lt hb, bind,
      Except.bind] at this
    rw [cycAt_some src (by omega)]
    simp only [Except.ok.injEq] at this
    rw [← this]
    simp only [fwdIndex_eq src h0 h1, Option.map_some, Vertex.withBulge]
  · have := hv (d.endIndexOffset + 1)
    unfold getVertex vertexCount at this
    simp [hi, show ¬ d.endIndexOffset + 1 < d.endIndexOffset by omega] at this
    rw [← this]; rfl

theorem inverted_slice (d : ViewData T) (src : Pline T) (hr : d.InRange src)
    (hi : d.inverted = true) :
    ∃ q, d.toPline src = .ok q ∧ q.closed = false ∧ q.verts.length = d.endIndexOffset + 2 ∧
      q.verts[0]? = some ⟨d.endPoint.x, d.endPoint.y, -d.updatedEndBulge⟩ ∧
      (∀ i, 1 ≤ i → i < d.endIndexOffset → ∃ a b,
        cycAt src (d.startIndex + (d.endIndexOffset - i)) = some a ∧
        cycAt src (d.startIndex + (d.endIndexOffset - i) + 1) = some b ∧
        q.verts[i]? = some ⟨b.x, b.y, -a.bulge⟩) ∧
      (1 ≤ d.endIndexOffset → ∃ b, cycAt src (d.startIndex + 1) = some b ∧
        q.verts[d.endIndexOffset]? = some ⟨b.x, b.y, -d.updatedStart.bulge⟩) ∧
      q.verts[d.endIndexOffset + 1]? = some ⟨d.updatedStart.x, d.updatedStart.y, 0⟩ := by
  obtain ⟨q, hq, hc, hl, hv⟩ := toPline_ok d src hr
  have h0 := hr.start
  have h1 := hr.offset
  refine ⟨q, hq, hc, hl, ?_, ?_, ?_, ?_⟩
  · have := hv 0
    unfold getVertex vertexCount at this
    simp [hi] at this
    exact this.symm
  · intro i h1i hik
    have := hv i
    have hb := fwdIndex_lt src h0 (show d.endIndexOffset - i ≤ src.verts.length by omega)
    unfold getVertex vertexCount at this
    simp only [hi, ge_iff_le, show ¬ d.endIndexOffset + 2 ≤ i by omega, if_false,
      show ¬ i = 0 by omega, hik, if_true, at_lt hb, at_lt (nextWrap_lt src hb), bind,
      Except.bind] at this
    refine ⟨_, _, cycAt_some src (by omega) _, cycAt_some src (by omega) _, ?_⟩
    simp only [Except.ok.injEq] at this
    rw [← this]
    simp only [nextWrap_eq src hb]
    simp only [fwdIndex_eq src h0 (show d.endIndexOffset - i ≤ src.verts.length by omega),
      Nat.mod_add_mod]
    rfl
  · intro hk
    have := hv d.endIndexOffset
    have hb := fwdIndex_lt src h0 (show 1 ≤ src.verts.length by omega)
    unfold getVertex vertexCount at this
    simp only [hi, ge_iff_le, show ¬ d.endIndexOffset + 2 ≤ d.endIndexOffset by omega, if_false,
      show ¬ d.endIndexOffset = 0 by omega, Nat.lt_irrefl, if_true, Nat.sub_self, Nat.zero_add,
      at_lt hb, bind, Except.bind] at this
    refine ⟨_, cycAt_some src (by omega) _, ?_⟩
    simp only [Except.ok.injEq] at this
    rw [← this]
    simp only [fwdIndex_eq src h0 (show 1 ≤ src.verts.length by omega), Vertex.withBulge]
  · have := hv (d.endIndexOffset + 1)
    unfold getVertex vertexCount at this
    simp [hi, show ¬ d.endIndexOffset + 1 < d.endIndexOffset by omega] at this
    rw [← this]; rfl

end ViewData
end Cavc
