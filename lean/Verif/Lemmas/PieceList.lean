import Verif.Lemmas.CutWeights

/-! # The list of pieces of a polyline cut by another one -/

namespace Cavc
open Real RealScalar Pline

def lexLt (a b : Cut) : Prop := a.1 < b.1 ∨ (a.1 = b.1 ∧ a.2 < b.2)

theorem cutsOf_sorted {p : Pline ℝ} {eps : ℝ} {CL : List (Nat × List ℝ)} (h : Table p eps CL) : (cutsOf CL).Pairwise lexLt := by
  unfold cutsOf
  rw [List.pairwise_flatMap]
  refine ⟨fun c hc => List.pairwise_map.mpr ((h.sorted c hc).imp fun hab => Or.inr ⟨rfl, hab⟩), h.keys.imp ?_⟩
  intro a b hab x hx y hy
  obtain ⟨t, -, rfl⟩ := List.mem_map.mp hx
  obtain ⟨u, -, rfl⟩ := List.mem_map.mp hy
  exact Or.inl hab

theorem sorted_gap : ∀ {l : List Cut}, l.Pairwise lexLt → ∀ x ∈ pathSegs l, ∀ c ∈ l, c = x.1 ∨ lexLt c x.1 ∨ c = x.2 ∨ lexLt x.2 c
  | [], _, x, hx, _, _ => by simp [pathSegs] at hx
  | [_], _, x, hx, _, _ => by simp [pathSegs] at hx
  | a :: b :: l, hp, x, hx, c, hc => by
    rw [List.pairwise_cons] at hp
    simp only [pathSegs, List.mem_cons] at hx
    rcases hx with rfl | hx
    · rcases List.mem_cons.mp hc with rfl | hc
      · exact Or.inl rfl
      · rcases List.mem_cons.mp hc with rfl | hc
        · exact Or.inr (Or.inr (Or.inl rfl))
        · exact Or.inr (Or.inr (Or.inr ((List.pairwise_cons.mp hp.2).1 c hc)))
    · rcases List.mem_cons.mp hc with rfl | hc
      · exact Or.inr (Or.inl (hp.1 x.1 (pathSegs_mem hx).1))
      · exact sorted_gap hp.2 x hx c hc

theorem pathSegs_snoc_mem {α : Type} : ∀ {l : List α} {g : α} {x : α × α}, x ∈ pathSegs (l ++ [g]) → x.1 ∈ l ∧ (x.2 ∈ l ∨ x.2 = g)
  | [], g, x, h => by simp [pathSegs] at h
  | [a], g, x, h => by simp [pathSegs] at h; simp [h]
  | a :: b :: l, g, x, h => by
    simp only [List.cons_append, pathSegs, List.mem_cons] at h
    rcases h with rfl | h
    · simp
    · have := pathSegs_snoc_mem (l := b :: l) h
      refine ⟨List.mem_cons_of_mem _ this.1, ?_⟩
      rcases this.2 with h | h
      · exact Or.inl (List.mem_cons_of_mem _ h)
      · exact Or.inr h

theorem trace_curve {p : Pline ℝ} (h : Loop p) (z : ℝ × ℝ) : z ∈ trace p ↔ ∃ i t, i < p.verts.length ∧ 0 ≤ t ∧ t ≤ 1 ∧ curveAt p i t = ⟨z.1, z.2⟩ := by
  have hn : 0 < p.verts.length := by have := h.two; omega
  rw [trace_iff, segs_range h.closed h.two]
  constructor
  · rintro ⟨s, hs, t, h0, h1, e⟩
    obtain ⟨i, hi, rfl⟩ := List.mem_map.mp hs
    exact ⟨i, t, List.mem_range.mp hi, h0, h1, by rw [curveAt_vtx hn]; exact e.symm⟩
  · rintro ⟨i, t, hi, h0, h1, e⟩
    refine ⟨_, List.mem_map.mpr ⟨i, List.mem_range.mpr hi, rfl⟩, t, h0, h1, ?_⟩
    rw [curveAt_vtx hn] at e
    exact e.symm

theorem pathSegs_firsts {α : Type} : ∀ l : List α, (pathSegs l).map Prod.fst = l.dropLast
  | [] => rfl
  | [_] => rfl
  | a :: b :: l => by
    have := pathSegs_firsts (b :: l)
    simp only [pathSegs, List.map_cons, List.dropLast_cons_cons]
    rw [this]

theorem pathSegs_seconds {α : Type} : ∀ l : List α, (pathSegs l).map Prod.snd = l.tail
  | [] => rfl
  | [_] => rfl
  | a :: b :: l => by
    have := pathSegs_seconds (b :: l)
    simp only [pathSegs, List.map_cons, List.tail_cons] at this ⊢
    rw [this]

theorem curveAt_cyc {p : Pline ℝ} (hn : 0 < p.verts.length) (i : Nat) (t : ℝ) : curveAt p (i % p.verts.length) t = curveAt p i t := by
  rw [curveAt_vtx hn, curveAt_vtx hn, vtx_mod, vtx_mod_succ]

theorem trace_curve' {p : Pline ℝ} (h : Loop p) (i : Nat) {t : ℝ} (h0 : 0 ≤ t) (h1 : t ≤ 1) :
    ((curveAt p i t).x, (curveAt p i t).y) ∈ trace p := by
  have hn : 0 < p.verts.length := by have := h.two; omega
  exact (trace_curve h _).mpr ⟨i % p.verts.length, t, Nat.mod_lt _ hn, h0, h1, by rw [curveAt_cyc hn]⟩

/-- The cuts are exactly the points that are also on the other polyline. -/
structure CommonCuts (p q : Pline ℝ) (E : List Cut) : Prop where
  on : ∀ c ∈ E, ((curveAt p c.1 c.2).x, (curveAt p c.1 c.2).y) ∈ trace q
  all : ∀ i t, i < p.verts.length → 0 ≤ t → t ≤ 1 → ((curveAt p i t).x, (curveAt p i t).y) ∈ trace q → (i, t) ∈ E

/-- A piece with its slice, test point and vertexes. -/
structure CutPiece where
  a : Cut
  b : Cut
  s : BoolSlice ℝ
  m : V2 ℝ
  vs : List (Vertex ℝ)

structure CutPiece.Ok (p : Pline ℝ) (eps : ℝ) (us : Bool) (x : CutPiece) : Prop where
  piece : SlicePiece p eps us x.a x.b x.s
  test : TestPt p x.a x.b x.m
  reads : x.s.viewData.toPline p = .ok ⟨x.vs, false⟩
  along : Along p eps x.a x.b x.vs

theorem pieces_exist {p : Pline ℝ} {eps : ℝ} {us : Bool} {pairs : List (Cut × Cut)} {SS : List (BoolSlice ℝ × V2 ℝ)}
    (h : List.Forall₂ (PieceAt p eps us) pairs SS) :
    ∃ PS : List CutPiece, (PS.map fun x => (x.a, x.b)) = pairs ∧ (PS.map fun x => (x.s, x.m)) = SS ∧ ∀ x ∈ PS, x.Ok p eps us := by
  induction h with
  | nil => exact ⟨[], rfl, rfl, by simp⟩
  | @cons pr sm _ _ hab _ ih =>
    obtain ⟨PS, h1, h2, h3⟩ := ih
    obtain ⟨vs, h4, h5⟩ := hab.1.reads
    refine ⟨⟨pr.1, pr.2, sm.1, sm.2, vs⟩ :: PS, by simp [h1], by simp [h2], ?_⟩
    intro x hx
    rcases List.mem_cons.mp hx with rfl | hx
    · exact ⟨hab.1, hab.2, h4, h5⟩
    · exact h3 x hx

/-- What is needed of the pieces of `p` cut by `q`. -/
structure PieceList (p q : Pline ℝ) (eps : ℝ) (us : Bool) (E : List Cut) (PS : List CutPiece) : Prop where
  ok : ∀ x ∈ PS, x.Ok p eps us
  ends : ∀ x ∈ PS, ∃ v w, x.vs.head? = some v ∧ x.vs.getLast? = some w ∧ v.pos = curveAt p x.a.1 x.a.2 ∧ w.pos = curveAt p x.b.1 x.b.2
  cut : ∀ x ∈ PS, x.a ∈ E ∧ ∃ c ∈ E, curveAt p x.b.1 x.b.2 = curveAt p c.1 c.2
  full : ∀ x ∈ PS, ∀ s ∈ pathSegs x.vs, FullSeg s.1 s.2 eps
  two : ∀ x ∈ PS, 2 ≤ x.vs.length
  sub : ∀ x ∈ PS, ∀ s ∈ pathSegs x.vs, segTrace s ⊆ trace p
  off : ∀ x ∈ PS, (x.m.x, x.m.y) ∉ trace q
  const : ∀ x ∈ PS, ∀ s ∈ pathSegs x.vs, ∀ P ∈ segTrace s, P ∉ trace q → wn q P = wn q (x.m.x, x.m.y)
  total : ∀ z, z ∉ trace p → wn p z = (PS.map fun x => ((pathSegs x.vs).map (segW z)).sum).sum
  starts : (PS.map fun x => curveAt p x.a.1 x.a.2).Perm (E.map fun c => curveAt p c.1 c.2)
  stops : (PS.map fun x => curveAt p x.b.1 x.b.2).Perm (E.map fun c => curveAt p c.1 c.2)

section
variable {p q : Pline ℝ} {eps : ℝ} {us : Bool} {E : List Cut} {CL : List (Nat × List ℝ)} {f : Cut}

theorem first_le (hT : Table p eps CL) (hf0 : (cutsOf CL).head? = some f) {c : Cut} (hc : c ∈ cutsOf CL) : c = f ∨ lexLt f c := by
  have hs := cutsOf_sorted hT
  cases hC : cutsOf CL with
  | nil => rw [hC] at hc; simp at hc
  | cons a l =>
    rw [hC] at hf0 hs hc
    simp only [List.head?_cons, Option.some.injEq] at hf0
    subst hf0
    rcases List.mem_cons.mp hc with rfl | hc
    · exact Or.inl rfl
    · exact Or.inr ((List.pairwise_cons.mp hs).1 c hc)

theorem lifted_sorted (hT : Table p eps CL) (hr : ∀ c ∈ cutsOf CL, c.1 < p.verts.length) :
    (cutsOf CL ++ [((f.1 + p.verts.length, f.2) : Cut)]).Pairwise lexLt := by
  rw [List.pairwise_append]
  refine ⟨cutsOf_sorted hT, List.pairwise_singleton _ _, ?_⟩
  intro c hc g hg
  simp only [List.mem_singleton] at hg
  subst hg
  left
  have := hr c hc
  dsimp only; omega

/-- Consecutive cuts are ordered, and the open part of the polyline between them misses the other polyline. -/
theorem between (hf : FullLoop p eps) (hg : GoodCuts p eps E) (hc : CommonCuts p q E) (hT : Table p eps CL)
    (hperm : (cutsOf CL).Perm E) (hf0 : (cutsOf CL).head? = some f) {a b : Cut}
    (hab : (a, b) ∈ pathSegs (cutsOf CL ++ [((f.1 + p.verts.length, f.2) : Cut)])) :
    Ordered p a b ∧ a ∈ E ∧ (b ∈ E ∨ b = (f.1 + p.verts.length, f.2)) ∧
    ∀ j s, j ≤ b.1 - a.1 → 0 ≤ s → s ≤ 1 → (j = 0 → a.2 < s) → (j = b.1 - a.1 → s < b.2) →
      ((curveAt p (a.1 + j) s).x, (curveAt p (a.1 + j) s).y) ∉ trace q := by
  have hn : 0 < p.verts.length := by have := hf.two; omega
  have hr : ∀ c ∈ cutsOf CL, c.1 < p.verts.length := fun c hc => hg.range c (hperm.mem_iff.mp hc)
  have hok : ∀ c ∈ cutsOf CL, 0 < c.2 ∧ c.2 < 1 := fun c hc => ⟨(hg.ok c (hperm.mem_iff.mp hc)).pos, (hg.ok c (hperm.mem_iff.mp hc)).lt⟩
  have hfm : f ∈ cutsOf CL := by
    cases hC : cutsOf CL with
    | nil => rw [hC] at hf0; simp at hf0
    | cons x l => rw [hC] at hf0; simp at hf0; simp [hf0]
  have hsort := lifted_sorted (f := f) hT hr
  obtain ⟨ha, hb⟩ := pathSegs_snoc_mem hab
  dsimp only at ha hb
  have hlex := pathSegs_rel hsort _ hab
  dsimp only at hlex
  have hfa := first_le hT hf0 ha
  have hfn := hr f hfm
  have han := hr a ha
  have hbb : 0 < b.2 ∧ b.2 < 1 ∧ b.1 ≤ a.1 + p.verts.length := by
    rcases hb with hb | rfl
    · have := hok b hb
      exact ⟨this.1, this.2, by have := hr b hb; omega⟩
    · have := hok f hfm
      refine ⟨this.1, this.2, ?_⟩
      dsimp only
      rcases hfa with rfl | hfa
      · omega
      · rcases hfa with h | h <;> omega
  have haa := hok a ha
  refine ⟨⟨haa.1, haa.2, hbb.1, hbb.2.1, ?_⟩, hperm.mem_iff.mp ha, hb.imp hperm.mem_iff.mp id, ?_⟩
  · rcases hlex with h | h
    · exact Or.inr ⟨h, hbb.2.2⟩
    · exact Or.inl h
  · intro j s hj h0 h1 hs1 hs2 hin
    have hmod : (a.1 + j) % p.verts.length < p.verts.length := Nat.mod_lt _ hn
    have hce : (((a.1 + j) % p.verts.length, s) : Cut) ∈ E := hc.all _ s hmod h0 h1 (by rw [curveAt_cyc hn]; exact hin)
    have hcC : (((a.1 + j) % p.verts.length, s) : Cut) ∈ cutsOf CL := hperm.mem_iff.mpr hce
    have hab1 : a.1 ≤ b.1 := by rcases hlex with h | h <;> omega
    have hjb : j = b.1 - a.1 ↔ a.1 + j = b.1 := by omega
    by_cases hlt : a.1 + j < p.verts.length
    · rw [Nat.mod_eq_of_lt hlt] at hcC
      rcases sorted_gap hsort _ hab _ (List.mem_append.mpr (Or.inl hcC)) with h | h | h | h
      · have h1 := congrArg Prod.fst h
        have h2 := congrArg Prod.snd h
        dsimp only at h1 h2
        have := hs1 (by omega)
        linarith
      · rcases h with h | ⟨h, h'⟩
        · dsimp only at h; omega
        · dsimp only at h h'
          have := hs1 (by omega)
          linarith
      · have h1 := congrArg Prod.fst h
        have h2 := congrArg Prod.snd h
        dsimp only at h1 h2
        have := hs2 (by omega)
        linarith
      · rcases h with h | ⟨h, h'⟩
        · dsimp only at h; omega
        · dsimp only at h h'
          have := hs2 (by omega)
          linarith
    · have hm : (a.1 + j) % p.verts.length = a.1 + j - p.verts.length := by
        rw [Nat.mod_eq_sub_mod (by omega), Nat.mod_eq_of_lt (by omega)]
      rw [hm] at hcC
      rcases hb with hb | rfl
      · have := hr b hb; omega
      · dsimp only at hs2 hj hjb hbb
        rcases first_le hT hf0 hcC with h | h
        · have h1 := congrArg Prod.fst h
          have h2 := congrArg Prod.snd h
          dsimp only at h1 h2
          have := hs2 (by omega)
          linarith
        · rcases h with h | ⟨h, h'⟩
          · dsimp only at h; omega
          · dsimp only at h h'
            have := hs2 (by omega)
            linarith

theorem along_ends (hn : 0 < p.verts.length) {a b : Cut} {vs : List (Vertex ℝ)} (h : Along p eps a b vs) :
    ∃ v w, vs.head? = some v ∧ vs.getLast? = some w ∧ v.pos = curveAt p a.1 a.2 ∧ w.pos = curveAt p (a.1 + (b.1 - a.1)) b.2 := by
  have hlen := h.count
  have h0 : 0 < vs.length := by omega
  refine ⟨vs[0], vs[vs.length - 1], by rw [List.head?_eq_getElem?, List.getElem?_eq_getElem h0],
    by rw [List.getLast?_eq_getElem?, List.getElem?_eq_getElem (by omega)], ?_, ?_⟩
  · have hs : (pathSegs vs)[0]? = some (vs[0], vs[1]) := by
      rw [pathSegs_getElem?, List.getElem?_eq_getElem h0, List.getElem?_eq_getElem (by omega : 0 + 1 < vs.length)]
    have := (h.part 0 _ _ hs).start
    rw [this, curveAt_vtx hn]
    rfl
  · have hs : (pathSegs vs)[b.1 - a.1]? = some (vs[b.1 - a.1], vs[b.1 - a.1 + 1]) := by
      rw [pathSegs_getElem?, List.getElem?_eq_getElem (by omega : b.1 - a.1 < vs.length), List.getElem?_eq_getElem (by omega : b.1 - a.1 + 1 < vs.length)]
    have := (h.part _ _ _ hs).stop
    have e : hiOf a b (b.1 - a.1) = b.2 := by unfold hiOf; rw [if_pos rfl]
    rw [e] at this
    rw [curveAt_vtx hn, ← this]
    congr 2
    omega

/-- The winding number of the other polyline is constant along a piece. -/
theorem piece_const (hn : 0 < p.verts.length) (hq : Loop q) {a b : Cut} (ho : Ordered p a b)
    (hdis : ∀ j s, j ≤ b.1 - a.1 → 0 ≤ s → s ≤ 1 → (j = 0 → a.2 < s) → (j = b.1 - a.1 → s < b.2) →
      ((curveAt p (a.1 + j) s).x, (curveAt p (a.1 + j) s).y) ∉ trace q) {m : V2 ℝ} (hm : TestPt p a b m) :
    ∀ j s, j ≤ b.1 - a.1 → 0 ≤ s → s ≤ 1 → (j = 0 → a.2 < s) → (j = b.1 - a.1 → s < b.2) →
      wn q ((curveAt p (a.1 + j) s).x, (curveAt p (a.1 + j) s).y) = wn q (m.x, m.y) := by
  obtain ⟨a0, a1, b0, b1, hor⟩ := ho
  -- the parameters of a part
  have conn : ∀ j, j ≤ b.1 - a.1 → ∀ s s', 0 ≤ s → s ≤ 1 → (j = 0 → a.2 < s) → (j = b.1 - a.1 → s < b.2) →
      0 ≤ s' → s' ≤ 1 → (j = 0 → a.2 < s') → (j = b.1 - a.1 → s' < b.2) →
      wn q ((curveAt p (a.1 + j) s).x, (curveAt p (a.1 + j) s).y) = wn q ((curveAt p (a.1 + j) s').x, (curveAt p (a.1 + j) s').y) := by
    intro j hj s s' h1 h2 h3 h4 h5 h6 h7 h8
    have hcont : Continuous fun t => ((curveAt p (a.1 + j) t).x, (curveAt p (a.1 + j) t).y) := by
      simp only [curveAt_vtx hn]
      exact segCurve_continuous _ _
    have hpre : IsPreconnected ((fun t => ((curveAt p (a.1 + j) t).x, (curveAt p (a.1 + j) t).y)) '' (Set.uIcc s s')) :=
      isPreconnected_uIcc.image _ hcont.continuousOn
    refine wn_const hq hpre ?_ ⟨s, Set.left_mem_uIcc, rfl⟩ ⟨s', Set.right_mem_uIcc, rfl⟩
    rw [Set.disjoint_left]
    rintro _ ⟨t, ht, rfl⟩
    rw [Set.mem_uIcc] at ht
    apply hdis j t hj
    · rcases ht with ht | ht <;> linarith [ht.1]
    · rcases ht with ht | ht <;> linarith [ht.2]
    · intro h0; have := h3 h0; have := h7 h0
      rcases ht with ht | ht <;> linarith [ht.1]
    · intro h0; have := h4 h0; have := h8 h0
      rcases ht with ht | ht <;> linarith [ht.2]
  intro j
  induction j with
  | zero =>
    intro s hj h1 h2 h3 h4
    obtain ⟨s', h5, h6, rfl⟩ := hm
    have hlt1 : s' ≤ 1 := by
      unfold hiOf at h6
      split_ifs at h6 <;> linarith
    exact conn 0 (by omega) s s' h1 h2 h3 h4 (by linarith) hlt1 (fun _ => h5) (fun h0 => by
      unfold hiOf at h6
      rwa [if_pos h0] at h6)
  | succ j ih =>
    intro s hj h1 h2 h3 h4
    rw [conn (j + 1) hj s 0 h1 h2 h3 h4 le_rfl zero_le_one (by omega) (fun _ => b0)]
    rw [← ih 1 (by omega) zero_le_one le_rfl (fun _ => a1) (by omega)]
    have : curveAt p (a.1 + (j + 1)) 0 = curveAt p (a.1 + j) 1 := by
      rw [curveAt_vtx hn, curveAt_vtx hn, (segCurve_ends _ _).1, (segCurve_ends _ _).2]
      rfl
    rw [this]

theorem piece_list (he : 0 < eps) (hf : FullLoop p eps) (hq : Loop q) (hg : GoodCuts p eps E) (hc : CommonCuts p q E) (hT : Table p eps CL)
    (hperm : (cutsOf CL).Perm E) (hf0 : (cutsOf CL).head? = some f) {PS : List CutPiece}
    (hpairs : (PS.map fun x => (x.a, x.b)) = pathSegs (cutsOf CL ++ [((f.1 + p.verts.length, f.2) : Cut)])) (hok : ∀ x ∈ PS, x.Ok p eps us) :
    PieceList p q eps us E PS := by
  have hn : 0 < p.verts.length := by have := hf.two; omega
  have hL := hf.loop he
  have hbt : ∀ x ∈ PS, _ := fun x hx => between hf hg hc hT hperm hf0 (a := x.a) (b := x.b) (by rw [← hpairs]; exact List.mem_map.mpr ⟨x, hx, rfl⟩)
  have hfm : f ∈ E := by
    apply hperm.mem_iff.mp
    cases hC : cutsOf CL with
    | nil => rw [hC] at hf0; simp at hf0
    | cons x l => rw [hC] at hf0; simp at hf0; simp [hf0]
  have hle : ∀ x ∈ PS, x.a.1 ≤ x.b.1 := by
    intro x hx
    obtain ⟨⟨-, -, -, -, hor⟩, -⟩ := hbt x hx
    rcases hor with h | h <;> omega
  -- a segment of a piece as a part of a segment of `p`
  have hseg : ∀ x ∈ PS, ∀ s ∈ pathSegs x.vs, ∃ j, j ≤ x.b.1 - x.a.1 ∧
      PartSeg (vtx p (x.a.1 + j)) (vtx p (x.a.1 + j + 1)) eps (loOf x.a j) (hiOf x.a x.b j) s.1 s.2 := by
    intro x hx s hs
    obtain ⟨j, hj⟩ := List.mem_iff_getElem?.mp hs
    refine ⟨j, ?_, (hok x hx).along.part j s.1 s.2 hj⟩
    have := (List.getElem?_eq_some_iff.mp hj).1
    rw [pathSegs_length, (hok x hx).along.count] at this
    omega
  have hpar : ∀ x ∈ PS, ∀ s ∈ pathSegs x.vs, ∀ P ∈ segTrace s, ∃ j t, j ≤ x.b.1 - x.a.1 ∧ 0 ≤ t ∧ t ≤ 1 ∧ loOf x.a j ≤ t ∧ t ≤ hiOf x.a x.b j ∧
      (⟨P.1, P.2⟩ : V2 ℝ) = curveAt p (x.a.1 + j) t := by
    intro x hx s hs P hP
    obtain ⟨j, hj, hps⟩ := hseg x hx s hs
    obtain ⟨r, r0, r1, e⟩ := hP
    obtain ⟨⟨a0, a1, b0, b1, hor⟩, -⟩ := hbt x hx
    rw [hps.along, ← curveAt_vtx hn] at e
    have hlo : 0 ≤ loOf x.a j := by unfold loOf; split_ifs <;> linarith
    have hhi : hiOf x.a x.b j ≤ 1 := by unfold hiOf; split_ifs <;> linarith
    have hlh : loOf x.a j ≤ hiOf x.a x.b j := by
      unfold loOf hiOf
      split_ifs with h1 h2 h2
      · rcases hor with h | h
        · exact h.2.le
        · omega
      all_goals linarith
    exact ⟨j, _, hj, by nlinarith, by nlinarith, by nlinarith, by nlinarith, e⟩
  have hbcurve : ∀ x ∈ PS, ∃ c ∈ E, curveAt p x.b.1 x.b.2 = curveAt p c.1 c.2 := by
    intro x hx
    obtain ⟨-, -, hb, -⟩ := hbt x hx
    rcases hb with hb | hb
    · exact ⟨x.b, hb, rfl⟩
    · exact ⟨f, hfm, by rw [hb]; exact curveAt_add hn _ _⟩
  refine ⟨hok, ?_, ?_, ?_, ?_, ?_, ?_, ?_, ?_, ?_, ?_⟩
  · intro x hx
    obtain ⟨v, w, h1, h2, h3, h4⟩ := along_ends hn (hok x hx).along
    rw [Nat.add_sub_cancel' (hle x hx)] at h4
    exact ⟨v, w, h1, h2, h3, h4⟩
  · exact fun x hx => ⟨(hbt x hx).2.1, hbcurve x hx⟩
  · intro x hx s hs
    obtain ⟨j, -, h⟩ := hseg x hx s hs
    exact h.full
  · intro x hx
    rw [(hok x hx).along.count]; omega
  · intro x hx s hs P hP
    obtain ⟨j, t, -, h1, h2, -, -, h3⟩ := hpar x hx s hs P hP
    have := trace_curve' hL (x.a.1 + j) h1 h2
    rw [← h3] at this
    exact this
  · intro x hx
    obtain ⟨s, h1, h2, h3⟩ := (hok x hx).test
    obtain ⟨⟨a0, a1, b0, b1, hor⟩, -, -, hdis⟩ := hbt x hx
    have := hdis 0 s (by omega) (by linarith) (by unfold hiOf at h2; split_ifs at h2 <;> linarith) (fun _ => h1)
      (fun h0 => by unfold hiOf at h2; rwa [if_pos h0] at h2)
    rw [h3]
    exact this
  · intro x hx s hs P hP hPq
    obtain ⟨j, t, hj, h1, h2, hlo, hhi, h3⟩ := hpar x hx s hs P hP
    obtain ⟨ho, haE, -, hdis⟩ := hbt x hx
    have hPx : P = ((curveAt p (x.a.1 + j) t).x, (curveAt p (x.a.1 + j) t).y) := by rw [← h3]
    have := piece_const hn hq ho hdis (hok x hx).test j t hj h1 h2 (fun h0 => by
      subst h0
      unfold loOf at hlo
      rw [if_pos rfl] at hlo
      refine lt_of_le_of_ne hlo fun e => hPq ?_
      have := hc.on x.a haE
      rw [e] at this
      rw [hPx]; exact this) (fun h0 => by
      unfold hiOf at hhi
      rw [if_pos h0] at hhi
      refine lt_of_le_of_ne hhi fun e => hPq ?_
      obtain ⟨c, hcE, e2⟩ := hbcurve x hx
      have := hc.on c hcE
      rw [← e2] at this
      rw [hPx, h0, Nat.add_sub_cancel' (hle x hx), e]; exact this)
    rw [hPx]; exact this
  · intro z hz
    have hzs : ∀ i, z ∉ segTrace (vtx p i, vtx p (i + 1)) := by
      rintro i ⟨t, h0, h1, e⟩
      apply hz
      have := trace_curve' hL i h0 h1
      rw [curveAt_vtx hn] at this
      change (⟨z.1, z.2⟩ : V2 ℝ) = segCurve (vtx p i) (vtx p (i + 1)) t at e
      rw [← e] at this
      exact this
    have hAex : ∀ i, ∃ A, TurnCount (vtx p i) (vtx p (i + 1)) z A := fun i => turnCount_exists _ _ ((hf.full i).proper he) z (hzs i)
    choose A0 hA0 using hAex
    set A : Nat → ℝ → ℝ := fun i => A0 (i % p.verts.length) with hAd
    have hA : ∀ i, TurnCount (vtx p i) (vtx p (i + 1)) z (A i) := by
      intro i
      have := hA0 (i % p.verts.length)
      rw [vtx_mod, vtx_mod_succ] at this
      exact this
    have hsum : ((PS.map fun x => ((pathSegs x.vs).map (segW z)).sum).sum : ℝ) = (wn p z : ℝ) := by
      set h : Cut → ℝ := fun c => turnsTo p z c.1 + A c.1 c.2 with hh
      have e1 : ∀ x ∈ PS, ((((pathSegs x.vs).map (segW z)).sum : ℤ) : ℝ) = h x.b - h x.a := by
        intro x hx
        rw [Int.cast_list_sum, List.map_map]
        exact piece_turns he hA (hbt x hx).1 (hok x hx).along
      rw [Int.cast_list_sum, List.map_map]
      have e2 : PS.map ((fun n : ℤ => (n : ℝ)) ∘ fun x => ((pathSegs x.vs).map (segW z)).sum) = (PS.map fun x => (x.a, x.b)).map fun y => h y.2 - h y.1 := by
        rw [List.map_map]
        apply List.map_congr_left
        intro x hx
        exact e1 x hx
      rw [e2, hpairs]
      rw [path_telescope h _ f (f.1 + p.verts.length, f.2) (by
        rw [List.head?_append, hf0]; rfl) (by simp)]
      rw [hh]
      dsimp only
      rw [turnsTo_period hL]
      have : A (f.1 + p.verts.length) = A f.1 := by rw [hAd]; dsimp only; rw [Nat.add_mod_right]
      rw [this]
      ring
    exact_mod_cast hsum.symm
  · have e : (PS.map fun x => curveAt p x.a.1 x.a.2) = (cutsOf CL).map fun c => curveAt p c.1 c.2 := by
      have := congrArg (List.map Prod.fst) hpairs
      rw [pathSegs_firsts, List.map_map] at this
      have h2 : (PS.map fun x => x.a) = cutsOf CL := by rw [List.dropLast_concat] at this; exact this
      rw [← h2, List.map_map]
      rfl
    rw [e]; exact hperm.map _
  · have e : (PS.map fun x => curveAt p x.b.1 x.b.2) = ((cutsOf CL).tail ++ [((f.1 + p.verts.length, f.2) : Cut)]).map fun c => curveAt p c.1 c.2 := by
      have := congrArg (List.map Prod.snd) hpairs
      rw [pathSegs_seconds, List.map_map] at this
      have h2 : (PS.map fun x => x.b) = (cutsOf CL ++ [((f.1 + p.verts.length, f.2) : Cut)]).tail := this
      rw [List.tail_append_of_ne_nil (by rintro h; rw [h] at hf0; simp at hf0)] at h2
      rw [← h2, List.map_map]
      rfl
    rw [e]
    refine List.Perm.trans ?_ (hperm.map _)
    cases hC : cutsOf CL with
    | nil => rw [hC] at hf0; simp at hf0
    | cons x l =>
      rw [hC] at hf0
      simp only [List.head?_cons, Option.some.injEq] at hf0
      subst hf0
      simp only [List.tail_cons, List.map_append, List.map_cons, List.map_nil, curveAt_add hn]
      exact List.perm_append_singleton _ _

/-- The slices of a polyline cut at its common points with another one. -/
theorem cut_pieces {env : Env ℝ} (henv : env.Lawful) (he : 0 < eps) (hf : FullLoop p eps) (hq : Loop q) (hg : GoodCuts p eps E)
    (hc : CommonCuts p q E) (hne : E ≠ []) {b : BoolProc ℝ} (hov : b.overlappingSlices = [])
    (hE : (b.intersects.map fun i => (if us then i.startIndex2 else i.startIndex1, i.point)) = E.map fun c => (c.1, curveAt p c.1 c.2)) :
    ∃ PS, PieceList p q eps us E PS ∧
      ∀ pred, sliceAtIntersects env p b us pred eps = .ok ((PS.filter fun x => pred x.m).map (·.s)) := by
  obtain ⟨CL, f, SS, hT, hperm, hf0, hpa, hsl⟩ := slices_spec henv he hf b us hov hE hg hne
  obtain ⟨PS, h1, h2, h3⟩ := pieces_exist hpa
  refine ⟨PS, piece_list he hf hq hg hc hT hperm hf0 h1 h3, ?_⟩
  intro pred
  rw [hsl pred, ← h2]
  unfold passing
  rw [List.filter_map, List.map_map]
  rfl

end

end Cavc
