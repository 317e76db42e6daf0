import Verif.Lemmas.OffsetGeom
import Verif.Lemmas.OffsetStraightRaw
import Verif.Lemmas.WindingRegion
import Verif.Props.Split

/-! # The parts of the raw offset of straight segments -/

set_option linter.unusedVariables false

namespace Cavc
open Pline

section
variable {p : Pline ℝ} {d : ℝ}

/-! ## The order of the parts -/

open Classical in
/-- the part after a part -/
noncomputable def RawPart.succ (p : Pline ℝ) (d : ℝ) : RawPart → RawPart
  | .side k => if Mitred p d k then .side (k + 1) else .corner k
  | .corner k => .side (k + 1)

open Classical in
theorem parts_path (p : Pline ℝ) (d : ℝ) : ∀ m,
    pathSegs ((List.range m).flatMap (fun k => if Mitred p d k then [RawPart.side k] else [.side k, .corner k]) ++ [.side m]) =
      ((List.range m).flatMap (fun k => if Mitred p d k then [RawPart.side k] else [.side k, .corner k])).map fun q => (q, q.succ p d)
  | 0 => by simp [pathSegs]
  | m + 1 => by
    have ih := parts_path p d m
    rw [List.range_succ, List.flatMap_append, List.map_append, ← ih]
    simp only [List.flatMap_cons, List.flatMap_nil, List.append_nil]
    by_cases h : Mitred p d m
    · simp only [h, if_true, List.append_assoc, List.cons_append, List.nil_append]
      rw [pathSegs_join]
      simp [pathSegs, RawPart.succ, h]
    · simp only [h, if_false, List.append_assoc, List.cons_append, List.nil_append]
      rw [pathSegs_join]
      simp [pathSegs, RawPart.succ, h]

theorem loop_path (p : Pline ℝ) (d : ℝ) : pathSegs (loopParts p d ++ [.side p.verts.length]) = (loopParts p d).map fun q => (q, q.succ p d) :=
  parts_path p d _

theorem pathSegs_getElem {α : Type} : ∀ (l : List α) (i : Nat) (x : α × α), (pathSegs l)[i]? = some x ↔ l[i]? = some x.1 ∧ l[i + 1]? = some x.2
  | [], i, x => by simp [pathSegs]
  | [a], i, x => by
    simp only [pathSegs, List.getElem?_nil]
    constructor
    · simp
    · rintro ⟨-, h⟩
      simp at h
  | a :: b :: l, 0, x => by
    obtain ⟨y, z⟩ := x
    simp [pathSegs]
  | a :: b :: l, i + 1, x => by
    have := pathSegs_getElem (b :: l) i x
    simpa [pathSegs] using this

/-- The part with the next number is the next part. -/
theorem part_succ {j : Nat} {q : RawPart} (h : (loopParts p d)[j]? = some q) :
    (j + 1 < (loopParts p d).length → (loopParts p d)[j + 1]? = some (q.succ p d)) ∧
    (j + 1 = (loopParts p d).length → q.succ p d = .side p.verts.length) := by
  have hj : j < (loopParts p d).length := (List.getElem?_eq_some_iff.mp h).1
  have := congrArg (fun l => l[j]?) (loop_path p d)
  simp only [List.getElem?_map, h, Option.map_some] at this
  obtain ⟨-, h2⟩ := (pathSegs_getElem _ _ _).mp this
  constructor
  · intro hlt
    rwa [List.getElem?_append_left hlt] at h2
  · intro heq
    rw [heq, List.getElem?_append_right le_rfl] at h2
    simp at h2
    exact h2.symm

theorem side_mem {k : Nat} (hk : k < p.verts.length) : RawPart.side k ∈ loopParts p d := by
  unfold loopParts
  rw [List.mem_flatMap]
  refine ⟨k, by simpa using hk, ?_⟩
  by_cases h : Mitred p d k <;> simp [h]

theorem corner_mem {k : Nat} (hk : k < p.verts.length) (h : ¬ Mitred p d k) : RawPart.corner k ∈ loopParts p d := by
  unfold loopParts
  rw [List.mem_flatMap]
  exact ⟨k, by simpa using hk, by simp [h]⟩

theorem mem_parts {q : RawPart} (h : q ∈ loopParts p d) :
    (∃ k, k < p.verts.length ∧ q = .side k) ∨ ∃ k, k < p.verts.length ∧ ¬ Mitred p d k ∧ q = .corner k := by
  unfold loopParts at h
  rw [List.mem_flatMap] at h
  obtain ⟨k, hk, hq⟩ := h
  have hk' : k < p.verts.length := by simpa using hk
  by_cases hm : Mitred p d k
  · simp [hm] at hq
    exact Or.inl ⟨k, hk', hq⟩
  · simp [hm] at hq
    rcases hq with hq | hq
    · exact Or.inl ⟨k, hk', hq⟩
    · exact Or.inr ⟨k, hk', hm, hq⟩

/-! ## The curves of the parts -/

open Classical in
/-- The curve of a part. -/
noncomputable def RawPart.curve (p : Pline ℝ) (d : ℝ) : RawPart → ℝ → V2 ℝ
  | .side k => fun t => sidePt p d k (sideStart p d k + t * (sideEnd p d k - sideStart p d k))
  | .corner k => fun t => if setbackAt p d k < 0 then cornerArc (cornerPos p k) (cornerPos p (k + 1)) (cornerPos p (k + 2)) d t
      else linePoint (sidePt p d k 1) (sidePt p d (k + 1) 0) t

theorem rawLoop_length (p : Pline ℝ) (d : ℝ) : (rawLoop p d).verts.length = (loopParts p d).length := by
  unfold rawLoop; simp

/-- the vertex of `rawLoop` with the number of a part, and the next one -/
theorem rawLoop_vtx (hn : 0 < p.verts.length) {j : Nat} {q : RawPart} (h : (loopParts p d)[j]? = some q) :
    vtx (rawLoop p d) j = q.start p d ∧ vtx (rawLoop p d) (j + 1) = (q.succ p d).start p d := by
  have hj : j < (loopParts p d).length := (List.getElem?_eq_some_iff.mp h).1
  obtain ⟨h1, h2⟩ := part_succ h
  have key : ∀ i x, (loopParts p d)[i]? = some x → vtx (rawLoop p d) i = x.start p d := by
    intro i x hx
    have hi : i < (rawLoop p d).verts.length := by rw [rawLoop_length]; exact (List.getElem?_eq_some_iff.mp hx).1
    have := vtx_at hi
    simp only [rawLoop, List.getElem?_map, hx, Option.map_some, Option.some.injEq] at this
    exact this.symm
  refine ⟨key j q h, ?_⟩
  rcases Nat.lt_or_ge (j + 1) (loopParts p d).length with hlt | hge
  · exact key _ _ (h1 hlt)
  · have heq : j + 1 = (loopParts p d).length := by omega
    rw [h2 heq]
    have h0 : (loopParts p d)[0]? = some (.side 0) := by
      unfold loopParts
      obtain ⟨m, hm⟩ : ∃ m, p.verts.length = m + 1 := ⟨p.verts.length - 1, by omega⟩
      rw [hm, List.range_succ_eq_map, List.flatMap_cons]
      by_cases hm0 : Mitred p d 0 <;> simp [hm0]
    have := start_side_add p d hn 0
    rw [Nat.zero_add] at this
    rw [this, ← key 0 _ h0, ← vtx_add _ 0, Nat.zero_add, rawLoop_length, heq]

end

section
variable {p : Pline ℝ} {d eps : ℝ} (hp : StraightLoop p) (hd : d ≠ 0) (he : 0 < eps) (hc : ∀ k, ClearTurn p d eps k)
include hp hd he hc

theorem turn_ne (k : Nat) : turnSin (cornerPos p k) (cornerPos p (k + 1)) (cornerPos p (k + 2)) ≠ 0 := by
  intro h0
  have h := (hc k).cross
  have := turnSin_cross (a := cornerPos p k) (v := cornerPos p (k + 1)) (b := cornerPos p (k + 2)) (hp.apart k) (hp.apart (k + 1))
  rw [h0, zero_mul] at this
  unfold dirCross at this
  rw [this, abs_zero] at h
  linarith

theorem setback_ne (k : Nat) : setbackAt p d k ≠ 0 := by
  have hs := turn_ne hp hd he hc k
  have := setback_mul (a := cornerPos p k) (v := cornerPos p (k + 1)) (b := cornerPos p (k + 2)) (d := d) (hp.apart k) (hp.apart (k + 1)) hs
  intro h0
  unfold setbackAt at h0
  rw [h0, zero_mul] at this
  exact mul_ne_zero hd hs this.symm

theorem sideLen_pos (k : Nat) : 0 < sideLen p k := (edist_pos_sq (hp.apart k)).1

/-- the moved side in front of a mitre ends where the next one starts -/
theorem mitre_meets {k : Nat} (hm : Mitred p d k) : sidePt p d k (sideEnd p d k) = sidePt p d (k + 1) (sideStart p d (k + 1)) := by
  classical
  rw [sideStart_succ, if_pos hm]
  unfold sideEnd
  rw [if_pos hm]
  exact mitre_point (a := cornerPos p k) (v := cornerPos p (k + 1)) (b := cornerPos p (k + 2)) (hp.apart k) (hp.apart (k + 1)) (turn_ne hp hd he hc k) d

theorem sidePt_line (k : Nat) (x y t : ℝ) : linePoint (sidePt p d k x) (sidePt p d k y) t = sidePt p d k (x + t * (y - x)) := by
  rw [V2.ext_iff']
  simp only [sidePt, moved, linePoint]
  constructor <;> ring

/-- The segment with the number of a part runs along the curve of the part. -/
theorem rawLoop_curve {j : Nat} {q : RawPart} (h : (loopParts p d)[j]? = some q) (t : ℝ) : curveAt (rawLoop p d) j t = q.curve p d t := by
  have h2 := hp.two
  have hj : j < (loopParts p d).length := (List.getElem?_eq_some_iff.mp h).1
  rw [curveAt_vtx (by rw [rawLoop_length]; omega)]
  obtain ⟨e1, e2⟩ := rawLoop_vtx (by omega) h
  rw [e1, e2]
  rcases mem_parts (List.mem_of_getElem? h) with ⟨k, hk, rfl⟩ | ⟨k, hk, hm, rfl⟩
  · rw [segCurve_line (by simp [RawPart.start, IsLine, Vertex.ofV2])]
    have hstop : ((RawPart.side k).succ p d).start p d = Vertex.ofV2 (sidePt p d k (sideEnd p d k)) (((RawPart.side k).succ p d).start p d).bulge := by
      by_cases hm : Mitred p d k
      · rw [mitre_meets hp hd he hc hm]
        simp [RawPart.succ, hm, RawPart.start, Vertex.ofV2]
      · simp [RawPart.succ, hm, RawPart.start, Vertex.ofV2, sideEnd]
    rw [hstop]
    exact sidePt_line hp hd he hc k _ _ t
  · have hstop : (((RawPart.corner k).succ p d).start p d) = Vertex.ofV2 (sidePt p d (k + 1) 0) 0 := by
      classical
      simp [RawPart.succ, RawPart.start, sideStart_succ, hm]
    rw [hstop]
    unfold RawPart.curve
    by_cases hneg : setbackAt p d k < 0
    · simp only [hneg, if_true]
      have hb : ((RawPart.corner k).start p d).bulge = Real.tan (halfTurn (cornerPos p k) (cornerPos p (k + 1)) (cornerPos p (k + 2)) / 2) := by
        simp [RawPart.start, hneg, Vertex.ofV2]
      have hround := (hc k).round hneg
      have hnl : ¬ IsLine ((RawPart.corner k).start p d) := by
        unfold IsLine
        rw [hb]; linarith
      rw [segCurve_arc hnl, hb]
      obtain ⟨b1, b2⟩ := halfTurn_bounds (cornerPos p k) (cornerPos p (k + 1)) (cornerPos p (k + 2))
      set H := halfTurn (cornerPos p k) (cornerPos p (k + 1)) (cornerPos p (k + 2)) with hH
      have hat : 4 * Real.arctan (Real.tan (H / 2)) = 2 * H := by
        rw [Real.arctan_tan (by linarith) (by linarith)]; ring
      have hb0 : Real.tan (H / 2) ≠ 0 := by
        intro h0
        rw [h0, abs_zero] at hround
        norm_num at hround
      have hrot := corner_rot (a := cornerPos p k) (v := cornerPos p (k + 1)) (b := cornerPos p (k + 2)) (hp.apart k) (hp.apart (k + 1))
        (turn_ne hp hd he hc k) d
      rw [V2.ext_iff'] at hrot
      have hcen : arcCenter (sidePt p d k 1) (sidePt p d (k + 1) 0) (Real.tan (H / 2)) = cornerPos p (k + 1) :=
        arcCenter_of_rot hb0 (by rw [hat]; exact hrot.1) (by rw [hat]; exact hrot.2)
      show arcPoint (sidePt p d k 1) (sidePt p d (k + 1) 0) (Real.tan (H / 2)) t = _
      unfold arcPoint cornerArc
      dsimp only
      rw [hcen, hat]
      rfl
    · simp only [hneg, if_false]
      rw [segCurve_line (by simp [RawPart.start, hneg, IsLine, Vertex.ofV2])]
      rfl

end

end Cavc
