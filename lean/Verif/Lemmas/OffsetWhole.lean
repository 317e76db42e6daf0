import Verif.Props.OffsetAny

/-! # A raw offset that does not cross itself and is clear of the polyline is the whole result -/

set_option linter.unusedVariables false

namespace Cavc
open Pline RealScalar

/-- the vertexes that the view of a whole closed polyline reads -/
theorem entire_reads {R : Pline ℝ} {eps : ℝ} (hf : FullLoop R eps) {s : ViewData ℝ} (h : ViewData.fromEntirePline R = .ok s) {vs : List (Vertex ℝ)}
    (hr : s.Reads R vs) : ∃ z : Vertex ℝ, vs = R.verts ++ [z] ∧ z.pos = (vtx R 0).pos := by
  have h2 := hf.two
  obtain ⟨d, q, hd, hin, hq, hqc, hpath⟩ := (C20_entire R).2 h2
  rw [h] at hd
  injection hd with hd
  subst hd
  rw [hr.1] at hq
  injection hq with hq
  subst hq
  have hsegs : R.segmentCount = R.verts.length := by
    unfold segmentCount vertexCount
    simp only [hf.closed]
    split_ifs with h
    · omega
    · rfl
  have hlen : vs.length = R.verts.length + 1 := by
    have h1 := open_path_length ⟨vs, false⟩ rfl
    rw [hpath, path_length_eq, hsegs] at h1
    dsimp only at h1
    omega
  have hnth : ∀ i (hi : i < R.verts.length), vs[i]? = some (vtx R i) ∧ ∃ b, vs[i + 1]? = some b ∧ b.pos = (vtx R (i + 1)).pos := by
    intro i hi
    have e1 := List.getElem?_eq_getElem (show i < vs.length by omega)
    have e2 := List.getElem?_eq_getElem (show i + 1 < vs.length by omega)
    have e3 := open_path_getElem? ⟨vs, false⟩ rfl (i := i) e1 e2
    obtain ⟨a, b, f1, f2, f3⟩ := path_getElem? R i (by rw [hsegs]; exact hi)
    rw [hpath, f3] at e3
    rw [vtx_at hi] at f1
    rw [vtx_at (Nat.mod_lt _ (by omega)), vtx_mod] at f2
    cases f1
    cases f2
    simp only [Option.some.injEq, Piece.mk.injEq, V2.mk.injEq] at e3
    obtain ⟨⟨x1, y1⟩, ⟨x2, y2⟩, b1⟩ := e3
    refine ⟨?_, _, e2, ?_⟩
    · rw [e1]
      generalize vs[i]'(by omega) = v at *
      generalize vtx R i = w at *
      cases v; cases w
      simp_all
    · unfold Vertex.pos
      rw [x2, y2]
  obtain ⟨-, z, hz, hzp⟩ := hnth (R.verts.length - 1) (by omega)
  rw [Nat.sub_add_cancel (by omega)] at hz hzp
  refine ⟨z, ?_, ?_⟩
  · apply List.ext_getElem?
    intro i
    by_cases h1 : i < R.verts.length
    · rw [(hnth i h1).1, List.getElem?_append_left h1, vtx_at h1]
    · by_cases h3 : i = R.verts.length
      · subst h3
        rw [hz, List.getElem?_append_right le_rfl, Nat.sub_self]; rfl
      · rw [List.getElem?_eq_none (by omega), List.getElem?_eq_none (by simp; omega)]
  · rw [hzp, ← vtx_mod, Nat.mod_self]

theorem offset_whole (env : Env ℝ) (henv : env.Lawful) (p : Pline ℝ) (d : ℝ) (opts : OffsetOptions ℝ)
    (hidx : ∀ idx, opts.aabbIndex = some idx → idx.Serves p) (hself : opts.handleSelfIntersects = false)
    (he : 0 < opts.posEqualEps) (hp : p.closed = true) (hp2 : 2 ≤ p.verts.length) (R : Pline ℝ) (hraw : createRawOffsetPolyline p d opts.posEqualEps = .ok R)
    (hf : FullLoop R opts.posEqualEps) (gap : ℝ) (hE : SelfCrossing R opts.posEqualEps gap []) (hF : FindsSelf R opts.posEqualEps)
    (hc : PointClear p d opts.posEqualEps opts.offsetDistEps (vtx R 0).pos) (hj : 0 < opts.sliceJoinEps) :
    parallelOffset env p d opts = .ok [R] := by
  have hn : 0 < R.verts.length := by have := hf.two; omega
  obtain ⟨rs, hrs, -, hbig⟩ := C43_parallel_offset env henv p d opts hidx
  obtain ⟨raw, hraw', -, hof⟩ := hbig hp2
  rw [hraw] at hraw'
  injection hraw' with hraw'
  subst hraw'
  obtain ⟨-, -, es, ss, hof⟩ := hof (by intro h; rw [h] at hn; simp at hn)
  obtain ⟨pairs, hP, hes1, -⟩ := hof.single hp hself
  have hperm : es.Perm ((bothCuts []).map (cutPt R)) := hes1 ▸ self_cuts he hf hE hF hP
  have hes0 : es = [] := by simpa [bothCuts] using hperm
  have hv : R.verts.head? = some (vtx R 0) := by rw [List.head?_eq_getElem?]; exact vtx_at hn
  obtain ⟨s, hs, rfl⟩ := (hof.slices.whole hes0 _ hv).1 hc
  obtain ⟨vs, ws, a, b, hr, hws, ha, hb, rfl⟩ := hof.joined.single s rfl
  obtain ⟨z, rfl, hz⟩ := entire_reads hf hs hr
  have hpath : ∀ e ∈ pathSegs ([] ++ (R.verts ++ [z])), e.1.pos.fuzzyEqEps e.2.pos opts.posEqualEps = false := by
    intro e hem
    rw [List.nil_append] at hem
    obtain ⟨j, hj, rfl⟩ := List.getElem_of_mem hem
    have h1 := (pathSegs_getElem (R.verts ++ [z]) j _).mp (List.getElem?_eq_getElem hj)
    obtain ⟨h1, h2⟩ := h1
    have hlen : j + 1 < R.verts.length + 1 := by have := (List.getElem?_eq_some_iff.mp h2).1; simpa using this
    rw [List.getElem?_append_left (by omega), vtx_at (by omega)] at h1
    have e1 : (vtx R j).pos = ((pathSegs (R.verts ++ [z]))[j]).1.pos := by injection h1 with h1; rw [h1]
    have e2 : ((pathSegs (R.verts ++ [z]))[j]).2.pos = (vtx R (j + 1)).pos := by
      by_cases hj' : j + 1 < R.verts.length
      · rw [List.getElem?_append_left hj', vtx_at hj'] at h2
        injection h2 with h2
        rw [h2]
      · rw [List.getElem?_append_right (by omega), show j + 1 - R.verts.length = 0 by omega] at h2
        injection h2 with h2
        rw [← h2, hz, ← vtx_mod R (j + 1), show j + 1 = R.verts.length by omega, Nat.mod_self]
    rw [← e1, e2]
    exact (hf.full j).apart
  rw [appendVertexes_plain _ _ _ hpath, List.nil_append] at hws
  subst hws
  have e1 : a = vtx R 0 := by
    rw [List.head?_append, hv] at ha
    simpa using ha.symm
  have e2 : b = z := by simpa using hb.symm
  subst e1; subst e2
  rw [hrs, if_pos ⟨hp, by rw [hz]; simp [V2.fuzzyEqEps, hj]⟩]
  simp [hf.closed.symm]

end Cavc
