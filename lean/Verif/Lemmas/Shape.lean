import Verif.Spec.Shape
import Verif.Props.Offset

/-! # Lemmas on shapes -/

set_option linter.unusedSectionVars false
set_option linter.unusedVariables false

namespace Cavc
open Scalar Pline
variable {T : Type} [Scalar T]

/-! ## Boxes -/

theorem segs_ne_nil (p : Pline T) : p.segs ≠ [] ↔ 2 ≤ p.verts.length := by
  rw [← List.length_pos_iff, segs_length]
  unfold segmentCount vertexCount
  dsimp only
  split_ifs <;> omega

theorem loopBox_some (p : Pline T) (h : 2 ≤ p.verts.length) : ∃ b, p.loopBox = some b := by
  unfold loopBox
  cases hs : p.segs with
  | nil => exact absurd hs ((segs_ne_nil p).mpr h)
  | cons a l => exact ⟨_, rfl⟩

theorem loopBox_none (p : Pline T) (h : p.verts.length < 2) : p.loopBox = none := by
  unfold loopBox
  cases hs : p.segs with
  | nil => rfl
  | cons a l => exact absurd ((segs_ne_nil p).mp (by simp [hs])) (by omega)

theorem new_boxes (env : Env T) (p : Pline T) : (IndexedPline.new env p).boxes = p.segs.map segBox := approxBoxes_eq p

theorem new_ready (env : Env T) (henv : env.Lawful) (p : Pline T) (h : 2 ≤ p.verts.length) : (IndexedPline.new env p).Ready :=
  ⟨approxIndex_serves env henv p, new_boxes env p, h⟩

theorem allBounds_ok (ps : List (IndexedPline T)) (h : ∀ ip ∈ ps, ip.Ready) :
    ∃ bs, allBounds ps = .ok bs ∧ bs.map some = ps.map fun ip => ip.pline.loopBox := by
  obtain ⟨bs, hb, hrel⟩ := mapM_rel (f := fun p : IndexedPline T => unwrap (boundsOf p.boxes)) (l := ps)
    (R := fun ip b => some b = ip.pline.loopBox) (by
      intro ip hip
      obtain ⟨b, hb⟩ := loopBox_some ip.pline (h ip hip).nontrivial
      refine ⟨b, ?_, hb.symm⟩
      rw [(h ip hip).boxes]
      unfold loopBox at hb
      rw [hb]; rfl)
  refine ⟨bs, hb, ?_⟩
  clear hb h
  induction hrel with
  | nil => rfl
  | cons h _ ih => simp only [List.map_cons, h, ih]

theorem allBounds_error (ps : List (IndexedPline T)) (h : ∀ ip ∈ ps, ip.boxes = ip.pline.segs.map segBox)
    (hbad : ∃ ip ∈ ps, ip.pline.verts.length < 2) : allBounds ps = .error .unwrapNone := by
  induction ps with
  | nil => obtain ⟨ip, hip, -⟩ := hbad; simp at hip
  | cons a ps ih =>
    unfold allBounds at ih ⊢
    rw [List.mapM_cons]
    by_cases ha : a.pline.verts.length < 2
    · have : boundsOf a.boxes = none := by rw [h a (by simp)]; exact loopBox_none _ ha
      simp only [this, unwrap, bind, Except.bind]
    · obtain ⟨b, hb⟩ := loopBox_some a.pline (by omega)
      have : boundsOf a.boxes = some b := by rw [h a (by simp)]; exact hb
      have hrest := ih (fun ip hip => h ip (by simp [hip])) (by
        obtain ⟨ip, hip, hlt⟩ := hbad
        rcases List.mem_cons.mp hip with rfl | hip
        · exact absurd hlt ha
        · exact ⟨ip, hip, hlt⟩)
      simp only [this, unwrap, bind, Except.bind] at hrest ⊢
      rw [hrest]

theorem build_ok (env : Env T) (henv : env.Lawful) (ccw cw : List (IndexedPline T)) (h : ∀ ip ∈ ccw ++ cw, ip.Ready) :
    ∃ s, Shape.build env ccw cw = .ok s ∧ s.ccw = ccw ∧ s.cw = cw ∧ s.WellFormed := by
  obtain ⟨b1, h1, e1⟩ := allBounds_ok ccw fun ip hip => h ip (by simp [hip])
  obtain ⟨b2, h2, e2⟩ := allBounds_ok cw fun ip hip => h ip (by simp [hip])
  unfold Shape.build
  simp only [h1, h2, bind, Except.bind]
  refine ⟨_, rfl, rfl, rfl, h, ?_, henv.build_for _⟩
  simp only [Shape.loops, List.map_append, e1, e2]

theorem build_error (env : Env T) (ccw cw : List (IndexedPline T)) (h : ∀ ip ∈ ccw ++ cw, ip.boxes = ip.pline.segs.map segBox)
    (hi : ∀ ip ∈ ccw ++ cw, ip.index.Serves ip.pline)
    (hbad : ∃ ip ∈ ccw ++ cw, ip.pline.verts.length < 2) : Shape.build env ccw cw = .error .unwrapNone := by
  unfold Shape.build
  by_cases hc : ∃ ip ∈ ccw, ip.pline.verts.length < 2
  · rw [allBounds_error ccw (fun ip hip => h ip (by simp [hip])) hc]
    rfl
  · push Not at hc
    obtain ⟨b1, h1, -⟩ := allBounds_ok ccw fun ip hip => ⟨hi ip (by simp [hip]), h ip (by simp [hip]), hc ip hip⟩
    rw [h1]
    simp only [bind, Except.bind]
    rw [allBounds_error cw (fun ip hip => h ip (by simp [hip]))]
    obtain ⟨ip, hip, hlt⟩ := hbad
    rcases List.mem_append.mp hip with hip | hip
    · exact absurd hlt (by have := hc ip hip; omega)
    · exact ⟨ip, hip, hlt⟩

theorem overlaps_comm (a b : AABB T) : a.overlaps b = b.overlaps a := by
  unfold AABB.overlaps gt
  cases lt a.maxX b.minX <;> cases lt a.maxY b.minY <;> cases lt b.maxX a.minX <;> cases lt b.maxY a.minY <;> rfl

/-! ## Offset loops -/

theorem offsetLoopsOf_spec (env : Env T) (henv : env.Lawful) (offset : T) (o : ShapeOffsetOptions T) (isCcw : Bool)
    (L : List (IndexedPline T)) (hL : ∀ ip ∈ L, ip.index.Serves ip.pline) (k n : Nat) :
    ∃ ls rss, (L.zipIdx n).mapM (fun (pi : IndexedPline T × Nat) => offsetLoopsOf env offset o isCcw (k + pi.2) pi.1) = .ok ls ∧
      List.Forall₂ (fun (ip : IndexedPline T) rs => parallelOffset env ip.pline offset
        ⟨some ip.index, false, o.posEqualEps, o.sliceJoinEps, o.offsetDistEps⟩ = .ok rs) L rss ∧
      ((ls.map Prod.fst).flatten.map fun l => (l.parent, l.ip.pline)) = ((rss.zipIdx (k + n)).flatMap fun (x : List (Pline T) × Nat) =>
        (x.1.filter fun r => !TurnedOver isCcw offset r && !lt r.area 0).map fun r => (x.2, r)) ∧
      ((ls.map Prod.snd).flatten.map fun l => (l.parent, l.ip.pline)) = ((rss.zipIdx (k + n)).flatMap fun (x : List (Pline T) × Nat) =>
        (x.1.filter fun r => !TurnedOver isCcw offset r && lt r.area 0).map fun r => (x.2, r)) ∧
      (∀ l ∈ (ls.map Prod.fst).flatten ++ (ls.map Prod.snd).flatten, l.ip = IndexedPline.new env l.ip.pline) := by
  induction L generalizing n with
  | nil => exact ⟨[], [], rfl, .nil, rfl, rfl, by simp⟩
  | cons ip L ih =>
    obtain ⟨ls, rss, h1, h2, h3, h4, h5⟩ := ih (fun ip hip => hL ip (by simp [hip])) (n + 1)
    obtain ⟨rs, hrs, -⟩ := C43_parallel_offset env henv ip.pline offset
      ⟨some ip.index, false, o.posEqualEps, o.sliceJoinEps, o.offsetDistEps⟩ (by
        intro idx hidx
        have : ip.index = idx := by simpa using hidx
        rw [← this]; exact hL ip (by simp))
    have hof : ∃ a b, offsetLoopsOf env offset o isCcw (k + n) ip = .ok (a, b) ∧
        (a.map fun l => (l.parent, l.ip.pline)) = (rs.filter fun r => !TurnedOver isCcw offset r && !lt r.area 0).map (fun r => (k + n, r)) ∧
        (b.map fun l => (l.parent, l.ip.pline)) = (rs.filter fun r => !TurnedOver isCcw offset r && lt r.area 0).map (fun r => (k + n, r)) ∧
        (∀ l ∈ a ++ b, l.ip = IndexedPline.new env l.ip.pline) := by
      unfold offsetLoopsOf IndexedPline.parallelOffset
      rw [hrs]
      refine ⟨_, _, rfl, ?_, ?_, ?_⟩
      · rw [List.map_map, List.filter_filter]
        congr 1
        congr 1
        funext r
        rw [Bool.and_comm]; rfl
      · rw [List.map_map, List.filter_filter]
        congr 1
        congr 1
        funext r
        rw [Bool.and_comm]; rfl
      · intro l hl
        rw [List.mem_append, List.mem_map, List.mem_map] at hl
        rcases hl with ⟨r, -, rfl⟩ | ⟨r, -, rfl⟩ <;> rfl
    obtain ⟨a, b, e, ha, hb, hab⟩ := hof
    rw [List.zipIdx_cons, List.mapM_cons]
    simp only [e, h1, bind, Except.bind, pure, Except.pure]
    refine ⟨(a, b) :: ls, rs :: rss, rfl, .cons hrs h2, ?_, ?_, ?_⟩
    · rw [List.zipIdx_cons, List.flatMap_cons, List.map_cons, List.flatten_cons, List.map_append, ha, h3]
      rfl
    · rw [List.zipIdx_cons, List.flatMap_cons, List.map_cons, List.flatten_cons, List.map_append, hb, h4]
      rfl
    · intro l hl
      simp only [List.map_cons, List.flatten_cons, List.mem_append] at hl hab h5
      rcases hl with (h | h) | (h | h)
      · exact hab l (Or.inl h)
      · exact h5 l (Or.inl h)
      · exact hab l (Or.inr h)
      · exact h5 l (Or.inr h)

theorem offsetLoops_spec (env : Env T) (henv : env.Lawful) (s : Shape T) (hs : ∀ ip ∈ s.loops, ip.index.Serves ip.pline) (offset : T)
    (o : ShapeOffsetOptions T) : ∃ ccw cw, offsetLoops env s offset o = .ok (ccw, cw) ∧ ShapeLoops env s offset o ccw cw := by
  obtain ⟨l1, r1, a1, a2, a3, a4, a5⟩ := offsetLoopsOf_spec env henv offset o true s.ccw (fun ip hip => hs ip (by simp [Shape.loops, hip])) 0 0
  obtain ⟨l2, r2, b1, b2, b3, b4, b5⟩ := offsetLoopsOf_spec env henv offset o false s.cw (fun ip hip => hs ip (by simp [Shape.loops, hip])) s.ccw.length 0
  have hlen := a2.length_eq
  unfold offsetLoops
  simp only [Nat.zero_add] at a1
  simp only [a1, b1, bind, Except.bind]
  refine ⟨_, _, rfl, ⟨r1 ++ r2, List.rel_append a2 b2, ?_, ?_⟩, ?_⟩
  · rw [List.map_append, List.flatten_append, List.map_append, a3, b3, List.zipIdx_append, List.flatMap_append]
    congr 1
    · apply List.flatMap_congr
      intro x hx
      have := List.snd_lt_of_mem_zipIdx hx
      have h : x.2 < s.ccw.length := by omega
      simp only [h, decide_true]
    · rw [Nat.zero_add, ← hlen, Nat.add_zero]
      apply List.flatMap_congr
      intro x hx
      have := List.le_snd_of_mem_zipIdx hx
      have h : ¬ x.2 < s.ccw.length := by omega
      simp only [h, decide_false]
  · rw [List.map_append, List.flatten_append, List.map_append, a4, b4, List.zipIdx_append, List.flatMap_append]
    congr 1
    · apply List.flatMap_congr
      intro x hx
      have := List.snd_lt_of_mem_zipIdx hx
      have h : x.2 < s.ccw.length := by omega
      simp only [h, decide_true]
    · rw [Nat.zero_add, ← hlen, Nat.add_zero]
      apply List.flatMap_congr
      intro x hx
      have := List.le_snd_of_mem_zipIdx hx
      have h : ¬ x.2 < s.ccw.length := by omega
      simp only [h, decide_false]
  · intro l hl
    simp only [List.map_append, List.flatten_append, List.mem_append] at hl a5 b5
    rcases hl with (h | h) | (h | h)
    · exact a5 l (Or.inl h)
    · exact b5 l (Or.inl h)
    · exact a5 l (Or.inr h)
    · exact b5 l (Or.inr h)

/-! ## Intersects between loops -/

/-- what holds of the search state when the pairs `P` have been examined -/
structure PairsDone (env : Env T) (loops : List (OffsetLoop T)) (eps : T) (P : Nat → Nat → Prop) (st : LoopPairState T) : Prop where
  visited : ∀ a b, (a, b) ∈ st.visited ↔ P a b
  sound : ∀ x ∈ st.sets, P x.loop1 x.loop2 ∧ LoopsMeet env loops eps x.loop1 x.loop2 x.points
  complete : ∀ i j pts, P i j → LoopsMeet env loops eps i j pts → ∃ x ∈ st.sets, x.loop1 = i ∧ x.loop2 = j
  once : st.sets.Pairwise fun x y => ¬ (x.loop1 = y.loop1 ∧ x.loop2 = y.loop2)

theorem PairsDone.congr {env : Env T} {loops : List (OffsetLoop T)} {eps : T} {P Q : Nat → Nat → Prop} {st : LoopPairState T}
    (h : PairsDone env loops eps P st) (hPQ : ∀ a b, P a b ↔ Q a b) : PairsDone env loops eps Q st :=
  ⟨fun a b => (h.visited a b).trans (hPQ a b), fun x hx => ⟨(hPQ _ _).mp (h.sound x hx).1, (h.sound x hx).2⟩,
    fun i j pts hq => h.complete i j pts ((hPQ _ _).mpr hq), h.once⟩

theorem cutPoints_nil (r : IntrCollection T) : (r.basic.isEmpty && r.overlapping.isEmpty) = true ↔ r.cutPoints = [] := by
  unfold IntrCollection.cutPoints
  cases r.basic <;> cases r.overlapping <;> simp

/-- examining one new pair -/
theorem loopPair_new (env : Env T) (loops : List (OffsetLoop T)) (eps : T) {P : Nat → Nat → Prop} {st : LoopPairState T}
    (h : PairsDone env loops eps P st) {i j : Nat} {l1 l2 : OffsetLoop T} {b1 b2 : AABB T} (hi : loops[i]? = some l1) (hj : loops[j]? = some l2)
    (hb1 : l1.ip.pline.loopBox = some b1) (hb2 : l2.ip.pline.loopBox = some b2) (hov : b2.overlaps b1 = true)
    (hsv : l1.ip.index.Serves l1.ip.pline) (hij : i ≠ j) (hnot : ¬ P j i) (hnew : ¬ P i j) :
    ∃ st', loopPair env loops eps i l1 st j = .ok st' ∧ PairsDone env loops eps (fun a b => P a b ∨ (a = i ∧ b = j)) st' := by
  have hv : st.visited.contains (j, i) = false := by
    rw [← Bool.not_eq_true, List.contains_iff_mem]
    rw [h.visited]; exact hnot
  obtain ⟨r, hr, -⟩ := C37_result env l1.ip.pline l2.ip.pline (some l1.ip.index) eps hsv
  have hvis : ∀ a b, (a, b) ∈ (i, j) :: st.visited ↔ P a b ∨ (a = i ∧ b = j) := by
    intro a b
    rw [List.mem_cons, h.visited, Prod.mk.injEq]
    tauto
  unfold loopPair
  simp only [if_neg hij, hv, Bool.false_eq_true, if_false, hj, hr, bind, Except.bind]
  by_cases hnil : r.cutPoints = []
  · rw [if_pos ((cutPoints_nil r).mpr hnil)]
    refine ⟨_, rfl, hvis, fun x hx => ⟨Or.inl (h.sound x hx).1, (h.sound x hx).2⟩, ?_, h.once⟩
    rintro a b pts (hp | ⟨rfl, rfl⟩) hm
    · exact h.complete a b pts hp hm
    · obtain ⟨l1', l2', _, _, r', g1, g2, -, -, -, g3, g4, g5⟩ := hm
      rw [hi] at g1; rw [hj] at g2
      cases g1; cases g2
      rw [hr] at g3; cases g3
      exact absurd (g4.trans hnil) g5
  · rw [if_neg (fun hc => hnil ((cutPoints_nil r).mp hc))]
    have hmeet : LoopsMeet env loops eps i j r.cutPoints := ⟨l1, l2, b1, b2, r, hi, hj, hb1, hb2, hov, hr, rfl, hnil⟩
    refine ⟨_, rfl, hvis, ?_, ?_, ?_⟩
    · intro x hx
      rcases List.mem_append.mp hx with hx | hx
      · exact ⟨Or.inl (h.sound x hx).1, (h.sound x hx).2⟩
      · rw [List.mem_singleton] at hx
        subst hx
        exact ⟨Or.inr ⟨rfl, rfl⟩, hmeet⟩
    · rintro a b pts (hp | ⟨rfl, rfl⟩) hm
      · obtain ⟨x, hx, hh⟩ := h.complete a b pts hp hm
        exact ⟨x, by simp [hx], hh⟩
      · exact ⟨⟨a, b, r.cutPoints⟩, by simp [IntrCollection.cutPoints], rfl, rfl⟩
    · rw [List.pairwise_append]
      refine ⟨h.once, by simp, ?_⟩
      intro x hx y hy
      rw [List.mem_singleton] at hy
      subst hy
      rintro ⟨e1, e2⟩
      have := (h.sound x hx).1
      simp only at e1 e2
      rw [e1, e2] at this
      exact hnew this

/-- pairs of loops whose boxes overlap -/
def BoxesOverlap (loops : List (OffsetLoop T)) (i j : Nat) : Prop :=
  ∃ l1 l2 b1 b2, loops[i]? = some l1 ∧ loops[j]? = some l2 ∧ l1.ip.pline.loopBox = some b1 ∧ l2.ip.pline.loopBox = some b2 ∧ b2.overlaps b1 = true

theorem BoxesOverlap.symm {loops : List (OffsetLoop T)} {i j : Nat} (h : BoxesOverlap loops i j) : BoxesOverlap loops j i := by
  obtain ⟨l1, l2, b1, b2, h1, h2, h3, h4, h5⟩ := h
  exact ⟨l2, l1, b2, b1, h2, h1, h4, h3, by rw [overlaps_comm]; exact h5⟩

theorem loopQuery_spec (env : Env T) (loops : List (OffsetLoop T)) (eps : T) {i : Nat} {l1 : OffsetLoop T} {b1 : AABB T}
    (hi : loops[i]? = some l1) (hb1 : l1.ip.pline.loopBox = some b1) (hsv : l1.ip.index.Serves l1.ip.pline) :
    ∀ (todo done : List Nat) (st : LoopPairState T), (done ++ todo).Nodup → (∀ j ∈ done ++ todo, BoxesOverlap loops i j) →
      PairsDone env loops eps (fun a b => (a < i ∧ a < b ∧ BoxesOverlap loops a b) ∨ (a = i ∧ b ∈ done ∧ i < b)) st →
      ∃ st', todo.foldlM (loopPair env loops eps i l1) st = .ok st' ∧
        PairsDone env loops eps (fun a b => (a < i ∧ a < b ∧ BoxesOverlap loops a b) ∨ (a = i ∧ b ∈ done ++ todo ∧ i < b)) st' := by
  intro todo
  induction todo with
  | nil => intro done st _ _ h; exact ⟨st, rfl, by simpa using h⟩
  | cons j todo ih =>
    intro done st hnd hov h
    have hstep : ∃ st', loopPair env loops eps i l1 st j = .ok st' ∧
        PairsDone env loops eps (fun a b => (a < i ∧ a < b ∧ BoxesOverlap loops a b) ∨ (a = i ∧ b ∈ done ++ [j] ∧ i < b)) st' := by
      have hj := hov j (by simp)
      rcases Nat.lt_trichotomy j i with hlt | heq | hgt
      · refine ⟨st, ?_, h.congr ?_⟩
        · have hv : st.visited.contains (j, i) = true := by
            rw [List.contains_iff_mem, h.visited]
            exact Or.inl ⟨hlt, hlt, hj.symm⟩
          unfold loopPair
          rw [if_neg (by omega), if_pos hv]
        · intro a b
          simp only [List.mem_append, List.mem_singleton]
          constructor
          · rintro (h | ⟨h1, h2, h3⟩)
            · exact Or.inl h
            · exact Or.inr ⟨h1, Or.inl h2, h3⟩
          · rintro (h | ⟨h1, h2 | h2, h3⟩)
            · exact Or.inl h
            · exact Or.inr ⟨h1, h2, h3⟩
            · omega
      · refine ⟨st, ?_, h.congr ?_⟩
        · unfold loopPair
          rw [if_pos heq.symm]
        · intro a b
          simp only [List.mem_append, List.mem_singleton]
          constructor
          · rintro (h | ⟨h1, h2, h3⟩)
            · exact Or.inl h
            · exact Or.inr ⟨h1, Or.inl h2, h3⟩
          · rintro (h | ⟨h1, h2 | h2, h3⟩)
            · exact Or.inl h
            · exact Or.inr ⟨h1, h2, h3⟩
            · omega
      · obtain ⟨l1', l2, b1', b2, g1, g2, g3, g4, g5⟩ := hj
        rw [hi] at g1; cases g1
        rw [hb1] at g3; cases g3
        obtain ⟨st', e, h'⟩ := loopPair_new env loops eps h hi g2 hb1 g4 g5 hsv (by omega)
          (by rintro (⟨h1, -⟩ | ⟨h1, -⟩) <;> omega)
          (by
            rintro (⟨h1, -⟩ | ⟨-, h2, -⟩)
            · omega
            · rw [List.nodup_append] at hnd
              exact hnd.2.2 j h2 j (by simp) rfl)
        refine ⟨st', e, h'.congr ?_⟩
        intro a b
        simp only [List.mem_append, List.mem_singleton]
        constructor
        · rintro ((h | ⟨h1, h2, h3⟩) | ⟨rfl, rfl⟩)
          · exact Or.inl h
          · exact Or.inr ⟨h1, Or.inl h2, h3⟩
          · exact Or.inr ⟨rfl, Or.inr rfl, hgt⟩
        · rintro (h | ⟨h1, h2 | h2, h3⟩)
          · exact Or.inl (Or.inl h)
          · exact Or.inl (Or.inr ⟨h1, h2, h3⟩)
          · exact Or.inr ⟨h1, h2⟩
    obtain ⟨st1, e1, h1⟩ := hstep
    obtain ⟨st2, e2, h2⟩ := ih (done ++ [j]) st1 (by simpa using hnd) (by simpa using hov) h1
    rw [List.foldlM_cons]
    simp only [e1, bind, Except.bind]
    exact ⟨st2, e2, by simpa using h2⟩

theorem findLoop_spec (env : Env T) (loops : List (OffsetLoop T)) (hr : ∀ l ∈ loops, l.ip.Ready) (idx : Index T) (bs : List (AABB T))
    (hbs : bs.map some = (loops.map OffsetLoop.ip).map fun ip => ip.pline.loopBox) (hidx : idx.For bs) (eps : T) :
    ∃ sets, findLoopIntersects env loops idx eps = .ok sets ∧ LoopCuts env loops eps sets := by
  have hbox : ∀ (j : Nat) (b : AABB T), bs[j]? = some b ↔ ∃ l : OffsetLoop T, loops[j]? = some l ∧ l.ip.pline.loopBox = some b := by
    intro j b
    have h := congrArg (fun l => l[j]?) hbs
    simp only [List.getElem?_map, Option.map_map] at h
    cases hl : loops[j]? with
    | none => rw [hl] at h; cases hb : bs[j]? <;> rw [hb] at h <;> simp_all
    | some l =>
      rw [hl] at h
      cases hb : bs[j]? with
      | none => rw [hb] at h; simp at h
      | some b' =>
        rw [hb] at h
        simp only [Option.map_some, Function.comp, Option.some.injEq] at h
        simp [← h]
  have gen : ∀ (suf : List (OffsetLoop T)) (n : Nat) (st : LoopPairState T), loops.drop n = suf → n ≤ loops.length →
      PairsDone env loops eps (fun a b => a < n ∧ a < b ∧ BoxesOverlap loops a b) st →
      ∃ st', (suf.zipIdx n).foldlM (fun (st : LoopPairState T) (li : OffsetLoop T × Nat) => (do
          let b ← unwrap (boundsOf li.1.ip.boxes)
          (idx.query b).foldlM (loopPair env loops eps li.2 li.1) st : M (LoopPairState T))) st = .ok st' ∧
        PairsDone env loops eps (fun a b => a < loops.length ∧ a < b ∧ BoxesOverlap loops a b) st' := by
    intro suf
    induction suf with
    | nil =>
      intro n st hd hn h
      have : loops.length ≤ n := by simpa using List.drop_eq_nil_iff.mp hd
      have : n = loops.length := by omega
      subst this
      exact ⟨st, rfl, h⟩
    | cons l suf ih =>
      intro n st hd hn h
      have hlt : n < loops.length := by
        by_contra hc
        rw [List.drop_eq_nil_iff.mpr (by omega)] at hd
        cases hd
      have hl : loops[n]? = some l := by
        have := congrArg (fun x => x[0]?) hd
        simpa using this
      have hmem : l ∈ loops := List.mem_of_getElem? hl
      obtain ⟨b, hb⟩ := loopBox_some l.ip.pline (hr l hmem).nontrivial
      have hb' : boundsOf l.ip.boxes = some b := by rw [(hr l hmem).boxes]; exact hb
      have hq : ∀ j ∈ [] ++ idx.query b, BoxesOverlap loops n j := by
        intro j hj
        rw [List.nil_append, hidx.mem_query] at hj
        obtain ⟨b2, hb2, hov⟩ := hj
        obtain ⟨l2, hl2, hbl2⟩ := (hbox j b2).mp hb2
        exact ⟨l, l2, b, b2, hl, hl2, hb, hbl2, hov⟩
      obtain ⟨st1, e1, h1⟩ := loopQuery_spec env loops eps hl hb (hr l hmem).serves (idx.query b) [] st
        (by simpa using hidx.query_nodup b) hq (h.congr (by intro a b; simp))
      have h1' : PairsDone env loops eps (fun a b => a < n + 1 ∧ a < b ∧ BoxesOverlap loops a b) st1 := by
        refine h1.congr ?_
        intro x y
        constructor
        · rintro (⟨g1, g2, g3⟩ | ⟨rfl, g2, g3⟩)
          · exact ⟨by omega, g2, g3⟩
          · exact ⟨by omega, g3, hq y g2⟩
        · rintro ⟨g1, g2, g3⟩
          rcases Nat.lt_or_eq_of_le (Nat.le_of_lt_succ g1) with g | rfl
          · exact Or.inl ⟨g, g2, g3⟩
          · refine Or.inr ⟨rfl, ?_, g2⟩
            obtain ⟨l1', l2, b1', b2, k1, k2, k3, k4, k5⟩ := g3
            rw [hl] at k1; cases k1
            rw [hb] at k3; cases k3
            rw [List.nil_append, hidx.mem_query]
            exact ⟨b2, (hbox y b2).mpr ⟨l2, k2, k4⟩, k5⟩
      obtain ⟨st2, e2, h2⟩ := ih (n + 1) st1 (by
        have := congrArg List.tail hd
        simpa [List.tail_drop] using this) (by omega) h1'
      rw [List.zipIdx_cons, List.foldlM_cons]
      simp only [hb', unwrap, bind, Except.bind] at e2 ⊢
      rw [e1]
      exact ⟨st2, e2, h2⟩
  obtain ⟨st, e, h⟩ := gen loops 0 ⟨[], []⟩ rfl (by omega) ⟨by simp, by simp, by simp, by simp⟩
  unfold findLoopIntersects
  simp only [bind, Except.bind] at e ⊢
  rw [e]
  refine ⟨st.sets, rfl, ?_, ?_, h.once⟩
  · intro x hx
    exact ⟨(h.sound x hx).1.2.1, (h.sound x hx).2⟩
  · intro i j pts hij hm
    refine h.complete i j pts ⟨?_, hij, ?_⟩ hm
    · obtain ⟨l1, _, _, _, _, h1, -⟩ := hm
      exact (List.getElem?_eq_some_iff.mp h1).1
    · obtain ⟨l1, l2, b1, b2, r, h1, h2, h3, h4, h5, -⟩ := hm
      exact ⟨l1, l2, b1, b2, h1, h2, h3, h4, h5⟩

end Cavc
