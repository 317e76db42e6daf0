import Verif.Spec.SelfIntersects
import Verif.Props.FindIntr

/-! # C38: visiting self intersects -/

set_option linter.unusedSectionVars false

namespace Cavc
open Scalar Pline
variable {T : Type} [Scalar T]

theorem feed_eq {S C : Type} [ControlFlow C] (vis : Visitor T S C) (s : S) (es : List (Intr T)) : feed vis s es = deliver vis s es := by
  induction es generalizing s with
  | nil => rfl
  | cons e es ih => unfold feed deliver; dsimp only; split <;> simp_all

theorem deliver_append {S C : Type} [ControlFlow C] (vis : Visitor T S C) (s : S) (a b : List (Intr T)) :
    deliver vis s (a ++ b) = match deliver vis s a with
      | (s', some c) => (s', some c)
      | (s', none) => deliver vis s' b := by
  induction a generalizing s with
  | nil => rfl
  | cons e a ih =>
    rw [List.cons_append]
    by_cases hb : ControlFlow.shouldBreak (vis s e).2 = true
    · simp only [deliver, hb, if_true]
    · simp only [deliver, hb, Bool.false_eq_true, if_false]
      exact ih _

theorem deliver_breaks {S C : Type} [ControlFlow C] {vis : Visitor T S C} {s : S} {es : List (Intr T)} {c : C}
    (h : (deliver vis s es).2 = some c) : ControlFlow.shouldBreak c = true := by
  induction es generalizing s with
  | nil => simp [deliver] at h
  | cons e es ih =>
    unfold deliver at h
    split at h
    · next hb => cases h; exact hb
    · exact ih h

theorem Delivered.nil {S C : Type} [ControlFlow C] (vis : Visitor T S C) (s : S) (c : C) (h : ControlFlow.shouldBreak c = false) :
    Delivered vis s [] (s, c) := ⟨rfl, h⟩

theorem Delivered.append {S C : Type} [ControlFlow C] {vis : Visitor T S C} {s : S} {a b : List (Intr T)} {r r' : S × C}
    (h : Delivered vis s a r) (hn : ControlFlow.shouldBreak r.2 = false) (h' : Delivered vis r.1 b r') : Delivered vis s (a ++ b) r' := by
  unfold Delivered at *
  rw [deliver_append]
  rcases hd : deliver vis s a with ⟨s', _ | c⟩
  · rw [hd] at h
    dsimp only at h ⊢
    rw [← h.1]
    exact h'
  · rw [hd] at h
    have : (deliver vis s a).2 = some c := by rw [hd]
    have := deliver_breaks this
    dsimp only at h
    rw [h.2, this] at hn
    simp at hn

theorem Delivered.stop {S C : Type} [ControlFlow C] {vis : Visitor T S C} {s : S} {a b : List (Intr T)} {r : S × C}
    (h : Delivered vis s a r) (hn : ControlFlow.shouldBreak r.2 = true) : Delivered vis s (a ++ b) r := by
  unfold Delivered at *
  rw [deliver_append]
  rcases hd : deliver vis s a with ⟨s', _ | c⟩
  · rw [hd] at h
    dsimp only at h
    rw [h.2] at hn
    simp at hn
  · rw [hd] at h
    exact h

theorem localEvents_eq (p : Pline T) (eps : T) (i : Nat) (s t : Vertex T × Vertex T) (hs : p.segs[i]? = some s)
    (ht : p.segs[p.following i]? = some t) : localEvents eps i (p.following i) s.1 s.2 t.2 = p.cornerReports eps i := by
  have hst : t.1 = s.2 := seg_follows p i _ s t hs ht rfl
  unfold localEvents cornerReports
  simp only [hs, ht]
  split
  · rfl
  · rw [hst]
    cases plineSegIntr s.1 s.2 s.2 t.2 eps with
    | noIntersect => simp [PlineSegIntr.reports, PlineSegIntr.isolated, PlineSegIntr.overlap]
    | tangentIntersect pt =>
      simp only [PlineSegIntr.reports, PlineSegIntr.isolated, PlineSegIntr.overlap, List.filter_cons, List.filter_nil]
      split <;> simp
    | oneIntersect pt =>
      simp only [PlineSegIntr.reports, PlineSegIntr.isolated, PlineSegIntr.overlap, List.filter_cons, List.filter_nil]
      split <;> simp
    | twoIntersects pt qt =>
      simp only [PlineSegIntr.reports, PlineSegIntr.isolated, PlineSegIntr.overlap, List.filter_cons, List.filter_nil]
      split <;> split <;> simp
    | overlappingLines pt qt => simp [PlineSegIntr.reports, PlineSegIntr.isolated, PlineSegIntr.overlap]
    | overlappingArcs pt qt => simp [PlineSegIntr.reports, PlineSegIntr.isolated, PlineSegIntr.overlap]

theorem globalEvents_eq (p : Pline T) (eps : T) (i k : Nat) (s t : Vertex T × Vertex T) (hs : p.segs[i]? = some s)
    (ht : p.segs[k]? = some t) : globalEvents eps i k s.1 s.2 t.1 t.2 = p.pairReports eps (i, k) := by
  unfold globalEvents pairReports
  simp only [hs, ht]
  cases plineSegIntr s.1 s.2 t.1 t.2 eps with
  | noIntersect => simp [PlineSegIntr.reports, PlineSegIntr.isolated, PlineSegIntr.overlap]
  | tangentIntersect pt =>
    simp only [PlineSegIntr.reports, PlineSegIntr.isolated, PlineSegIntr.overlap, List.filter_cons, List.filter_nil]
    split <;> simp
  | oneIntersect pt =>
    simp only [PlineSegIntr.reports, PlineSegIntr.isolated, PlineSegIntr.overlap, List.filter_cons, List.filter_nil]
    split <;> simp
  | twoIntersects pt qt =>
    simp only [PlineSegIntr.reports, PlineSegIntr.isolated, PlineSegIntr.overlap, List.filter_cons, List.filter_nil]
    split <;> split <;> simp
  | overlappingLines pt qt =>
    simp only [PlineSegIntr.reports, PlineSegIntr.isolated, PlineSegIntr.overlap, List.filter_nil, List.map_nil, List.nil_append]
    by_cases h : (s.2.pos.fuzzyEqEps pt eps && t.2.pos.fuzzyEqEps pt eps) = true
    · rw [if_neg (by rw [h]; simp), if_pos h]
    · rw [Bool.not_eq_true] at h
      rw [if_pos (by rw [h]; rfl), if_neg (by rw [h]; simp)]
  | overlappingArcs pt qt =>
    simp only [PlineSegIntr.reports, PlineSegIntr.isolated, PlineSegIntr.overlap, List.filter_nil, List.map_nil, List.nil_append]
    by_cases h : (s.2.pos.fuzzyEqEps pt eps && t.2.pos.fuzzyEqEps pt eps) = true
    · rw [if_neg (by rw [h]; simp), if_pos h]
    · rw [Bool.not_eq_true] at h
      rw [if_pos (by rw [h]; rfl), if_neg (by rw [h]; simp)]

/-! ## local -/

theorem localLoop_spec {S C : Type} [ControlFlow C] (hC : ControlFlow.shouldBreak (ControlFlow.continuing : C) = false) (p : Pline T)
    (vis : Visitor T S C) (eps : T) (is : List Nat)
    (h : ∀ i ∈ is, i < p.segmentCount ∧ p.following i < p.segmentCount) (s : S) :
    ∃ r, localLoop p vis eps s (is.map fun i => (i, p.following i, p.following (p.following i))) = .ok r ∧
      Delivered vis s (is.flatMap (p.cornerReports eps)) r := by
  induction is generalizing s with
  | nil => exact ⟨_, rfl, Delivered.nil vis s _ hC⟩
  | cons i is ih =>
    obtain ⟨hi, hj⟩ := h i List.mem_cons_self
    obtain ⟨sg, hs⟩ := seg_exists p hi
    obtain ⟨t, ht⟩ := seg_exists p hj
    obtain ⟨a1, a2, -, e1, -⟩ := seg_at p hs
    obtain ⟨b1, b2, -, e2, -⟩ := seg_at p ht
    rw [e1] at a2
    rw [e2] at b2
    rw [List.map_cons, List.flatMap_cons]
    unfold localLoop
    simp only [bind, Except.bind, a1, a2, b2, localEvents_eq p eps i sg t hs ht, feed_eq]
    rcases hd : deliver vis s (p.cornerReports eps i) with ⟨s', _ | c⟩
    · obtain ⟨r, hr, hr'⟩ := ih (fun j hj => h j (List.mem_cons_of_mem _ hj)) s'
      refine ⟨r, hr, ?_⟩
      have : Delivered vis s (p.cornerReports eps i) (s', (ControlFlow.continuing : C)) := by
        unfold Delivered; rw [hd]; exact ⟨rfl, hC⟩
      exact this.append hC hr'
    · refine ⟨(s', c), rfl, ?_⟩
      have hb : (deliver vis s (p.cornerReports eps i)).2 = some c := by rw [hd]
      have : Delivered vis s (p.cornerReports eps i) (s', c) := by
        unfold Delivered; rw [hd]; exact ⟨rfl, rfl⟩
      exact this.stop (deliver_breaks hb)

theorem corners_closed (p : Pline T) (h : p.closed = true) : p.corners = List.range p.segmentCount := by
  unfold corners
  rw [List.filter_eq_self]
  intro i _
  exact decide_eq_true (Or.inl h)

theorem corners_open (p : Pline T) (h : p.closed = false) : p.corners = List.range (p.segmentCount - 1) := by
  unfold corners Continues
  simp only [h, Bool.false_eq_true, false_or]
  generalize p.segmentCount = n
  cases n with
  | zero => rfl
  | succ n =>
    rw [List.range_succ, List.filter_append]
    have : List.filter (fun i => decide (i + 1 < n + 1)) (List.range n) = List.range n := by
      rw [List.filter_eq_self]
      intro i hi
      have := List.mem_range.mp hi
      exact decide_eq_true (by omega)
    simp only [this, Nat.add_sub_cancel]
    simp

theorem localTriples_eq (p : Pline T) (h : 3 ≤ p.vertexCount) :
    localTriples p.vertexCount p.closed = p.corners.map fun i => (i, p.following i, p.following (p.following i)) := by
  have hv : p.vertexCount = p.verts.length := rfl
  have hhead : (List.range' 2 (p.vertexCount - 2)).map (fun i => (i - 2, i - 1, i))
      = (List.range (p.vertexCount - 2)).map fun i => (i, p.following i, p.following (p.following i)) := by
    rw [List.range'_eq_map_range, List.map_map]
    apply List.map_congr_left
    intro i hi
    have hi := List.mem_range.mp hi
    unfold following
    rw [Nat.mod_eq_of_lt (by omega : i + 1 < p.verts.length), Nat.mod_eq_of_lt (by omega : i + 1 + 1 < p.verts.length)]
    simp only [Function.comp]
    congr 1
    · omega
    · congr 1 <;> omega
  unfold localTriples
  rw [hhead]
  have h2 : ¬ p.vertexCount < 2 := by omega
  by_cases hc : p.closed = true
  · rw [corners_closed p hc]
    have hn : p.segmentCount = p.vertexCount - 2 + 1 + 1 := by
      unfold segmentCount; rw [if_neg h2, if_pos hc]; omega
    rw [hn, List.range_succ, List.range_succ, if_pos hc]
    simp only [List.map_append, List.map_cons, List.map_nil, List.append_assoc, List.cons_append, List.nil_append]
    congr 1
    unfold following
    have e1 : p.vertexCount - 2 + 1 = p.verts.length - 1 := by omega
    rw [e1]
    rw [Nat.mod_eq_of_lt (by omega : p.verts.length - 1 < p.verts.length)]
    have e2 : p.verts.length - 1 + 1 = p.verts.length := by omega
    rw [e2, Nat.mod_self, Nat.mod_eq_of_lt (by omega : 0 + 1 < p.verts.length), hv]
  · rw [Bool.not_eq_true] at hc
    rw [corners_open p hc]
    have hn : p.segmentCount - 1 = p.vertexCount - 2 := by
      unfold segmentCount; rw [if_neg h2, if_neg (by simp [hc])]; omega
    rw [hn, hc]
    simp

theorem corners_lt (p : Pline T) : ∀ i ∈ p.corners, i < p.segmentCount ∧ p.following i < p.segmentCount := by
  intro i hi
  unfold corners at hi
  rw [List.mem_filter, List.mem_range] at hi
  obtain ⟨hi, hc⟩ := hi
  have hc := of_decide_eq_true hc
  refine ⟨hi, ?_⟩
  obtain ⟨s, hs⟩ := seg_exists p hi
  have hlt := (seg_at p hs).2.2.2.2
  unfold following
  rcases hc with hc | hc
  · have : p.segmentCount = p.verts.length := by
      unfold segmentCount vertexCount at *
      simp only [hc] at *
      split_ifs at * <;> omega
    rw [this]
    exact Nat.mod_lt _ (by omega)
  · exact Nat.lt_of_le_of_lt (Nat.mod_le _ _) hc

/-! ## global -/

/-- the pairs examined, in order, out of the candidates -/
def examine (p : Pline T) : List (Nat × Nat) → List (Nat × Nat) → List (Nat × Nat)
  | _, [] => []
  | v, (i, k) :: r =>
    if i == k || i == p.following k || p.following i == k || p.following i == p.following k then examine p v r
    else if v.contains (k, i) then examine p v r
    else (i, k) :: examine p ((i, k) :: v) r

theorem examine_append (p : Pline T) (v a b : List (Nat × Nat)) :
    examine p v (a ++ b) = examine p v a ++ examine p ((examine p v a).reverse ++ v) b := by
  induction a generalizing v with
  | nil => rfl
  | cons ik a ih =>
    obtain ⟨i, k⟩ := ik
    rw [List.cons_append]
    by_cases h1 : (i == k || i == p.following k || p.following i == k || p.following i == p.following k) = true
    · simp only [examine, h1, if_true]; exact ih v
    · by_cases h2 : v.contains (k, i) = true
      · simp only [examine, h1, h2, Bool.false_eq_true, if_false, if_true]; exact ih v
      · simp only [examine, h1, h2, Bool.false_eq_true, if_false]
        rw [ih, List.cons_append, List.reverse_cons, List.append_assoc]; rfl

theorem examine_sublist (p : Pline T) (v l : List (Nat × Nat)) : (examine p v l).Sublist l := by
  induction l generalizing v with
  | nil => exact List.Sublist.refl _
  | cons ik l ih =>
    obtain ⟨i, k⟩ := ik
    unfold examine
    split
    · exact (ih v).cons _
    · split
      · exact (ih v).cons _
      · exact (ih _).cons_cons _

theorem examine_sound (p : Pline T) (v l : List (Nat × Nat)) (i k : Nat) (h : (i, k) ∈ examine p v l) :
    (i ≠ k ∧ p.following i ≠ k ∧ p.following k ≠ i ∧ p.following i ≠ p.following k) ∧ (k, i) ∉ v := by
  induction l generalizing v with
  | nil => simp [examine] at h
  | cons ab l ih =>
    obtain ⟨a, b⟩ := ab
    unfold examine at h
    split at h
    · exact ih v h
    · next h1 =>
      split at h
      · exact ih v h
      · next h2 =>
        rcases List.mem_cons.mp h with h | h
        · cases h
          simp only [Bool.or_eq_true, beq_iff_eq, not_or] at h1
          refine ⟨⟨h1.1.1.1, h1.1.2, Ne.symm h1.1.1.2, h1.2⟩, ?_⟩
          rwa [List.contains_iff_mem] at h2
        · have := ih _ h
          exact ⟨this.1, fun hh => this.2 (List.mem_cons_of_mem _ hh)⟩

theorem examine_asymm (p : Pline T) (v l : List (Nat × Nat)) (i k : Nat) (h : (i, k) ∈ examine p v l) : (k, i) ∉ examine p v l := by
  induction l generalizing v with
  | nil => simp [examine] at h
  | cons ab l ih =>
    obtain ⟨a, b⟩ := ab
    unfold examine at h ⊢
    split
    · next hc => rw [if_pos hc] at h; exact ih v h
    · next hc =>
      rw [if_neg hc] at h
      split
      · next hc2 => rw [if_pos hc2] at h; exact ih v h
      · next hc2 =>
        rw [if_neg hc2] at h
        intro h'
        rcases List.mem_cons.mp h with e | h
        · rcases List.mem_cons.mp h' with e' | h'
          · cases e; cases e'
            simp at hc
          · cases e
            exact (examine_sound p _ l _ _ h').2 List.mem_cons_self
        · rcases List.mem_cons.mp h' with e' | h'
          · cases e'
            exact (examine_sound p _ l _ _ h).2 List.mem_cons_self
          · exact ih _ h h'

theorem examine_complete (p : Pline T) (v l : List (Nat × Nat)) (i k : Nat) (h : (i, k) ∈ l)
    (hn : i ≠ k ∧ p.following i ≠ k ∧ p.following k ≠ i ∧ p.following i ≠ p.following k) :
    (i, k) ∈ examine p v l ∨ (k, i) ∈ examine p v l ∨ (k, i) ∈ v := by
  induction l generalizing v with
  | nil => simp at h
  | cons ab l ih =>
    obtain ⟨a, b⟩ := ab
    unfold examine
    rcases List.mem_cons.mp h with e | h
    · cases e
      rw [if_neg (by simp only [Bool.or_eq_true, beq_iff_eq, not_or]; exact ⟨⟨⟨hn.1, Ne.symm hn.2.2.1⟩, hn.2.1⟩, hn.2.2.2⟩)]
      split
      · next hc => rw [List.contains_iff_mem] at hc; exact Or.inr (Or.inr hc)
      · exact Or.inl List.mem_cons_self
    · split
      · exact ih v h
      · split
        · exact ih v h
        · rcases ih ((a, b) :: v) h with h | h | h
          · exact Or.inl (List.mem_cons_of_mem _ h)
          · exact Or.inr (Or.inl (List.mem_cons_of_mem _ h))
          · rcases List.mem_cons.mp h with e | h
            · rw [e]; exact Or.inr (Or.inl List.mem_cons_self)
            · exact Or.inr (Or.inr h)

/-- outcome of a stretch of the global search -/
def GOut {S C : Type} [ControlFlow C] (p : Pline T) (vis : Visitor T S C) (eps : T) (st : GlobalState S C) (cands : List (Nat × Nat))
    (st' : GlobalState S C) : Prop :=
  Delivered vis st.s ((examine p st.visited cands).flatMap (p.pairReports eps)) (st'.s, st'.cf) ∧
    (ControlFlow.shouldBreak st'.cf = false → st'.visited = (examine p st.visited cands).reverse ++ st.visited)

theorem GOut.append {S C : Type} [ControlFlow C] {p : Pline T} {vis : Visitor T S C} {eps : T} {st st' st'' : GlobalState S C}
    {a b : List (Nat × Nat)} (h : GOut p vis eps st a st') (hn : ControlFlow.shouldBreak st'.cf = false) (h' : GOut p vis eps st' b st'') :
    GOut p vis eps st (a ++ b) st'' := by
  have hv := h.2 hn
  unfold GOut at *
  rw [hv] at h'
  rw [examine_append, List.flatMap_append]
  refine ⟨h.1.append hn h'.1, fun hb => ?_⟩
  rw [h'.2 hb, List.reverse_append, List.append_assoc]

theorem GOut.stop {S C : Type} [ControlFlow C] {p : Pline T} {vis : Visitor T S C} {eps : T} {st st' : GlobalState S C}
    {a b : List (Nat × Nat)} (h : GOut p vis eps st a st') (hn : ControlFlow.shouldBreak st'.cf = true) :
    GOut p vis eps st (a ++ b) st' := by
  unfold GOut at *
  rw [examine_append, List.flatMap_append]
  exact ⟨h.1.stop hn, fun hb => by rw [hn] at hb; simp at hb⟩

theorem feedCf_spec {S C : Type} [ControlFlow C] (vis : Visitor T S C) (sc : S × C) (hn : ControlFlow.shouldBreak sc.2 = false)
    (es : List (Intr T)) : Delivered vis sc.1 es (feedCf vis sc es) := by
  induction es generalizing sc with
  | nil => exact ⟨rfl, hn⟩
  | cons e es ih =>
    unfold feedCf Delivered deliver
    dsimp only
    by_cases hb : ControlFlow.shouldBreak (vis sc.1 e).2 = true
    · simp only [hb, if_true]; trivial
    · simp only [hb, Bool.false_eq_true, if_false]
      exact ih _ (by simpa using hb)

theorem globalHit_spec {S C : Type} [ControlFlow C] (p : Pline T) (vis : Visitor T S C) (eps : T) (i k : Nat) (s : Vertex T × Vertex T)
    (hs : p.segs[i]? = some s) (hk : k < p.segmentCount) (st : GlobalState S C) (hn : ControlFlow.shouldBreak st.cf = false) :
    ∃ st', globalHit p vis eps i (p.following i) s.1 s.2 st k = .ok (st', ControlFlow.shouldBreak st'.cf) ∧ GOut p vis eps st [(i, k)] st' := by
  obtain ⟨t, ht⟩ := seg_exists p hk
  obtain ⟨b1, b2, -, e2, -⟩ := seg_at p ht
  unfold globalHit
  dsimp only
  by_cases h1 : (i == k || i == p.following k || p.following i == k || p.following i == p.following k) = true
  · rw [e2, if_pos h1]
    refine ⟨st, by rw [hn], ?_⟩
    unfold GOut examine
    rw [if_pos h1]
    exact ⟨⟨rfl, hn⟩, fun _ => rfl⟩
  · rw [e2, if_neg h1]
    by_cases h2 : st.visited.contains (k, i) = true
    · rw [if_pos h2]
      refine ⟨st, by rw [hn], ?_⟩
      unfold GOut examine
      rw [if_neg h1, if_pos h2]
      exact ⟨⟨rfl, hn⟩, fun _ => rfl⟩
    · rw [if_neg h2]
      rw [e2] at b2
      simp only [bind, Except.bind, b1, b2, globalEvents_eq p eps i k s t hs ht]
      have hd := feedCf_spec vis (st.s, st.cf) hn (p.pairReports eps (i, k))
      have hex : examine p st.visited [(i, k)] = [(i, k)] := by
        unfold examine; rw [if_neg h1, if_neg h2]; rfl
      refine ⟨⟨(i, k) :: st.visited, (feedCf vis (st.s, st.cf) (p.pairReports eps (i, k))).1,
        (feedCf vis (st.s, st.cf) (p.pairReports eps (i, k))).2⟩, ?_, ?_⟩
      rotate_left
      · unfold GOut
        rw [hex, List.flatMap_cons, List.flatMap_nil, List.append_nil]
        exact ⟨hd, fun _ => rfl⟩
      · dsimp only
        congr 2
        cases hE : p.pairReports eps (i, k) with
        | nil => rw [List.isEmpty_nil]; simp only [feedCf, hn]; rfl
        | cons a l => simp

theorem globalQuery_spec {S C : Type} [ControlFlow C] (p : Pline T) (vis : Visitor T S C) (eps : T) (i : Nat) (s : Vertex T × Vertex T)
    (hs : p.segs[i]? = some s) (hits : List Nat) (hh : ∀ k ∈ hits, k < p.segmentCount) (st : GlobalState S C)
    (hn : ControlFlow.shouldBreak st.cf = false) :
    ∃ st', globalQuery p vis eps i (p.following i) s.1 s.2 st hits = .ok st' ∧ GOut p vis eps st (hits.map fun k => (i, k)) st' := by
  induction hits generalizing st with
  | nil => exact ⟨st, rfl, ⟨rfl, hn⟩, fun _ => rfl⟩
  | cons k hits ih =>
    obtain ⟨st1, h1, g1⟩ := globalHit_spec p vis eps i k s hs (hh k List.mem_cons_self) st hn
    unfold globalQuery
    simp only [bind, Except.bind, h1]
    rw [List.map_cons]
    by_cases hb : ControlFlow.shouldBreak st1.cf = true
    · rw [if_pos hb]
      exact ⟨st1, rfl, g1.stop hb⟩
    · rw [if_neg hb]
      rw [Bool.not_eq_true] at hb
      obtain ⟨st2, h2, g2⟩ := ih (fun j hj => hh j (List.mem_cons_of_mem _ hj)) st1 hb
      exact ⟨st2, h2, g1.append hb g2⟩

theorem globalLoop_spec {S C : Type} [ControlFlow C] (p : Pline T) (idx : Index T) (hidx : idx.Serves p) (vis : Visitor T S C) (eps : T)
    (items : List (Nat × AABB T)) (hi : ∀ x ∈ items, x.1 < p.segmentCount) (st : GlobalState S C) (hn : ControlFlow.shouldBreak st.cf = false) :
    ∃ st', globalLoop p idx vis eps st items = .ok st' ∧
      GOut p vis eps st (items.flatMap fun x => (idx.query (x.2.grow eps)).map fun k => (x.1, k)) st' := by
  induction items generalizing st with
  | nil => exact ⟨st, rfl, ⟨rfl, hn⟩, fun _ => rfl⟩
  | cons x items ih =>
    obtain ⟨i, b⟩ := x
    obtain ⟨s, hs⟩ := seg_exists p (hi _ List.mem_cons_self)
    obtain ⟨a1, a2, -, e1, -⟩ := seg_at p hs
    obtain ⟨st1, h1, g1⟩ := globalQuery_spec p vis eps i s hs (idx.query (b.grow eps)) (fun k hk => query_lt hidx hk) st hn
    unfold globalLoop
    rw [e1] at a2
    dsimp only at a1 a2 e1
    simp only [bind, Except.bind, e1, a1, a2, h1]
    rw [List.flatMap_cons]
    by_cases hb : ControlFlow.shouldBreak st1.cf = true
    · rw [if_pos hb]
      exact ⟨st1, rfl, g1.stop hb⟩
    · rw [if_neg hb]
      rw [Bool.not_eq_true] at hb
      obtain ⟨st2, h2, g2⟩ := ih (fun j hj => hi j (List.mem_cons_of_mem _ hj)) st1 hb
      exact ⟨st2, h2, g1.append hb g2⟩

/-- candidates of the global search -/
def candidates (idx : Index T) (eps : T) : List (Nat × Nat) := idx.items.flatMap fun x => (idx.query (x.2.grow eps)).map fun k => (x.1, k)

theorem mem_items {idx : Index T} {p : Pline T} (hidx : idx.Serves p) (i : Nat) (b : AABB T) :
    (i, b) ∈ idx.items ↔ ∃ s, p.segs[i]? = some s ∧ segBox s = b := by
  rw [hidx.items_perm.mem_iff, List.mem_map]
  constructor
  · rintro ⟨⟨b', i'⟩, hm, he⟩
    rw [List.mem_zipIdx_iff_getElem?] at hm
    simp only [List.getElem?_map, Option.map_eq_some_iff] at hm
    cases he
    exact hm
  · rintro ⟨s, hs, rfl⟩
    refine ⟨(segBox s, i), ?_, rfl⟩
    rw [List.mem_zipIdx_iff_getElem?]
    simp [hs]

theorem mem_candidates {idx : Index T} {p : Pline T} (hidx : idx.Serves p) (eps : T) (i k : Nat) :
    (i, k) ∈ candidates idx eps ↔ ∃ s t, p.segs[i]? = some s ∧ p.segs[k]? = some t ∧ BoxesMeet t s eps := by
  unfold candidates
  rw [List.mem_flatMap]
  constructor
  · rintro ⟨⟨i', b⟩, hx, hm⟩
    rw [List.mem_map] at hm
    obtain ⟨k', hk, he⟩ := hm
    cases he
    obtain ⟨s, hs, rfl⟩ := (mem_items hidx _ _).mp hx
    obtain ⟨b', hb', ho⟩ := (hidx.mem_query _ _).mp hk
    rw [List.getElem?_map, Option.map_eq_some_iff] at hb'
    obtain ⟨t, ht, rfl⟩ := hb'
    exact ⟨s, t, hs, ht, ho⟩
  · rintro ⟨s, t, hs, ht, ho⟩
    refine ⟨(i, segBox s), (mem_items hidx _ _).mpr ⟨s, hs, rfl⟩, List.mem_map.mpr ⟨k, ?_, rfl⟩⟩
    refine (hidx.mem_query _ _).mpr ⟨segBox t, ?_, ho⟩
    rw [List.getElem?_map, ht]; rfl

theorem candidates_nodup {idx : Index T} {p : Pline T} (hidx : idx.Serves p) (eps : T) : (candidates idx eps).Nodup := by
  unfold candidates
  rw [List.nodup_flatMap]
  constructor
  · intro x _
    exact (hidx.query_nodup _).map fun a b h => by simpa using h
  · have h1 : idx.items.Pairwise fun a b => a.1 ≠ b.1 := by
      have h2 : ((List.zipIdx (p.segs.map segBox)).map fun bi => (bi.2, bi.1)).Pairwise fun a b => a.1 ≠ b.1 := by
        rw [List.pairwise_map]
        have := List.nodup_range' (s := 0) (n := (p.segs.map segBox).length) (step := 1)
        rw [← List.zipIdx_map_snd 0 (p.segs.map segBox)] at this
        rwa [List.Nodup, List.pairwise_map] at this
      exact (hidx.items_perm.pairwise_iff (fun h => Ne.symm h)).mpr h2
    refine h1.imp ?_
    intro a b hab x hx hy
    rw [List.mem_map] at hx hy
    obtain ⟨_, _, rfl⟩ := hx
    obtain ⟨_, _, he⟩ := hy
    exact hab (by have := congrArg Prod.fst he; simpa using this.symm)

theorem nonAdjacent_three {p : Pline T} {i k : Nat} (h : p.NonAdjacent i k) : 3 ≤ p.vertexCount := by
  obtain ⟨hi, hk, h1, h2, h3, h4⟩ := h
  have h5 := segmentCount_le p
  by_contra hlt
  have hv : p.vertexCount = p.verts.length := rfl
  have hlen : p.verts.length ≤ 2 := by omega
  unfold following at *
  have h6 : p.verts.length = 2 := by omega
  rw [h6] at h2 h3
  omega

theorem examined (p : Pline T) (idx : Index T) (hidx : idx.Serves p) (eps : T) : p.Examined eps (examine p [] (candidates idx eps)) := by
  have hs : ∀ i k, (i, k) ∈ examine p [] (candidates idx eps) →
      p.NonAdjacent i k ∧ ∃ s t, p.segs[i]? = some s ∧ p.segs[k]? = some t ∧ BoxesMeet t s eps := by
    intro i k h
    obtain ⟨s, t, h1, h2, h3⟩ := (mem_candidates hidx eps i k).mp ((examine_sublist p [] _).subset h)
    obtain ⟨h4, -⟩ := examine_sound p [] _ i k h
    exact ⟨⟨(seg_at p h1).2.2.1, (seg_at p h2).2.2.1, h4⟩, s, t, h1, h2, h3⟩
  exact
    { nodup := (examine_sublist p [] _).nodup (candidates_nodup hidx eps)
      oneOrder := fun i k h => examine_asymm p [] _ i k h
      sound := hs
      complete := by
        intro i k s t hn h1 h2 h3
        rcases examine_complete p [] _ i k ((mem_candidates hidx eps i k).mpr ⟨s, t, h1, h2, h3⟩) hn.2.2 with h | h | h
        · exact Or.inl h
        · exact Or.inr h
        · simp at h }

theorem visitLocal_spec {S C : Type} [ControlFlow C] (hC : ControlFlow.shouldBreak (ControlFlow.continuing : C) = false) (p : Pline T)
    (vis : Visitor T S C) (eps : T) (s : S) :
    ∃ r, visitLocalSelfIntersects p vis s eps = .ok r ∧ Delivered vis s (p.localReports eps) r := by
  have hv : p.vertexCount = p.verts.length := rfl
  unfold visitLocalSelfIntersects
  dsimp only
  by_cases h2 : p.vertexCount < 2
  · rw [if_pos h2]
    refine ⟨_, rfl, ?_⟩
    have hc : p.corners = [] := by
      have : p.segmentCount = 0 := by have := segmentCount_le p; unfold segmentCount; dsimp only; rw [if_pos h2]
      unfold corners; rw [this]; rfl
    have : p.localReports eps = [] := by
      unfold localReports
      split
      · next hv' => rw [hv, hv'] at h2; simp at h2
      · rw [hc]; rfl
    rw [this]
    exact Delivered.nil vis s _ hC
  · rw [if_neg h2]
    by_cases h3 : p.vertexCount = 2
    · rw [if_pos h3]
      obtain ⟨a, b, hab⟩ : ∃ a b, p.verts = [a, b] := by
        rw [hv] at h3
        exact List.length_eq_two.mp h3
      have ha : p.at 0 = .ok a := by rw [at_lt (p := p) (i := 0) (by rw [hab]; simp)]; simp [hab]
      have hb : p.at 1 = .ok b := by rw [at_lt (p := p) (i := 1) (by rw [hab]; simp)]; simp [hab]
      cases hc : p.closed with
      | true =>
        simp only [bind, Except.bind, ha, hb, if_true]
        have : p.localReports eps = if Scalar.fuzzyEq a.bulge (-b.bulge) then [.overlapping ⟨0, 1, a.pos, b.pos⟩] else [] := by
          unfold localReports; rw [hc, hab]
        rw [this]
        split
        · refine ⟨_, rfl, ?_⟩
          unfold Delivered
          by_cases hbr : ControlFlow.shouldBreak (vis s (.overlapping ⟨0, 1, a.pos, b.pos⟩)).2 = true
          · simp only [deliver, hbr, if_true]; trivial
          · simp only [deliver, hbr, Bool.false_eq_true, if_false]
            exact ⟨trivial, by simpa using hbr⟩
        · exact ⟨_, rfl, Delivered.nil vis s _ hC⟩
      | false =>
        refine ⟨_, rfl, ?_⟩
        have : p.localReports eps = [] := by
          unfold localReports
          rw [hc, corners_open p hc]
          have : p.segmentCount - 1 = 0 := by
            unfold segmentCount; dsimp only; rw [if_neg h2, h3]; simp [hc]
          rw [this]; rfl
        rw [this]
        exact Delivered.nil vis s _ hC
    · rw [if_neg h3, localTriples_eq p (by omega)]
      have : p.localReports eps = p.corners.flatMap (p.cornerReports eps) := by
        unfold localReports
        split
        · next hv' => rw [hv, hv'] at h3; simp at h3
        · rfl
      rw [this]
      exact localLoop_spec hC p vis eps p.corners (corners_lt p) s

theorem visitGlobal_spec {S C : Type} [ControlFlow C] (hC : ControlFlow.shouldBreak (ControlFlow.continuing : C) = false) (p : Pline T)
    (idx : Index T) (hidx : idx.Serves p) (vis : Visitor T S C) (eps : T) (s : S) :
    ∃ r, visitGlobalSelfIntersects p idx vis s eps = .ok r ∧
      Delivered vis s ((examine p [] (candidates idx eps)).flatMap (p.pairReports eps)) r := by
  unfold visitGlobalSelfIntersects
  by_cases h3 : p.vertexCount < 3
  · rw [if_pos h3]
    refine ⟨_, rfl, ?_⟩
    have : examine p [] (candidates idx eps) = [] := by
      rw [List.eq_nil_iff_forall_not_mem]
      rintro ⟨i, k⟩ h
      have := nonAdjacent_three ((examined p idx hidx eps).sound i k h).1
      omega
    rw [this]
    exact Delivered.nil vis s _ hC
  · rw [if_neg h3]
    have hit : ∀ x ∈ idx.items, x.1 < p.segmentCount := by
      rintro ⟨i, b⟩ hx
      obtain ⟨sg, hs, -⟩ := (mem_items hidx i b).mp hx
      exact (seg_at p hs).2.2.1
    obtain ⟨st, h1, g1⟩ := globalLoop_spec p idx hidx vis eps idx.items hit ⟨[], s, ControlFlow.continuing⟩ hC
    simp only [bind, Except.bind, h1]
    exact ⟨_, rfl, g1.1⟩

/-- **C38** Visiting self intersects does not panic. There is a fixed list of pairs of segments without
common vertex, with every two such segments whose boxes meet occurring once, such that every visitor is
handed the reports of the neighbouring segments and of these pairs, in order, up to the first report it
stops at; the value it stopped with is returned. -/
theorem C38_visit (env : Env T) (p : Pline T) (o : Option (Index T)) (eps : T) (hidx : (o.getD (p.approxIndex env)).Serves p) :
    ∃ pairs, p.Examined eps pairs ∧
      ∀ {S C : Type} [ControlFlow C], ControlFlow.shouldBreak (ControlFlow.continuing : C) = false →
        ∀ (vis : Visitor T S C) (s : S) (inc : SelfIntrInclude),
          ∃ r, p.visitSelfIntersectsOpt env vis s o eps inc = .ok r ∧ Delivered vis s (p.visitReports eps pairs inc) r := by
  refine ⟨examine p [] (candidates (o.getD (p.approxIndex env)) eps), examined p _ hidx eps, ?_⟩
  intro S C _ hC vis s inc
  unfold visitSelfIntersectsOpt
  by_cases h2 : p.vertexCount < 2
  · rw [if_pos h2]
    have hl : p.localReports eps = [] := by
      have hc : p.corners = [] := by
        have : p.segmentCount = 0 := by unfold segmentCount; dsimp only; rw [if_pos h2]
        unfold corners; rw [this]; rfl
      unfold localReports
      split
      · next hv' => rw [show p.vertexCount = p.verts.length from rfl, hv'] at h2; simp at h2
      · rw [hc]; rfl
    have hg : examine p [] (candidates (o.getD (p.approxIndex env)) eps) = [] := by
      rw [List.eq_nil_iff_forall_not_mem]
      rintro ⟨i, k⟩ h
      have := nonAdjacent_three ((examined p _ hidx eps).sound i k h).1
      omega
    refine ⟨_, rfl, ?_⟩
    have : p.visitReports eps (examine p [] (candidates (o.getD (p.approxIndex env)) eps)) inc = [] := by
      rw [hg]; cases inc <;> simp [visitReports, hl]
    rw [this]
    exact Delivered.nil vis s _ hC
  · rw [if_neg h2]
    cases inc with
    | «local» =>
      rw [if_pos rfl]
      exact visitLocal_spec hC p vis eps s
    | global =>
      rw [if_neg (by simp)]
      dsimp only
      rw [if_pos rfl]
      exact visitGlobal_spec hC p _ hidx vis eps s
    | all =>
      rw [if_neg (by simp)]
      dsimp only
      rw [if_neg (by simp)]
      obtain ⟨r, hr, hd⟩ := visitLocal_spec hC p vis eps s
      simp only [bind, Except.bind, hr]
      by_cases hb : ControlFlow.shouldBreak r.2 = true
      · rw [if_pos hb]
        exact ⟨r, rfl, hd.stop hb⟩
      · rw [if_neg hb]
        rw [Bool.not_eq_true] at hb
        obtain ⟨r', hr', hd'⟩ := visitGlobal_spec hC p _ hidx vis eps r.1
        exact ⟨r', hr', hd.append hb hd'⟩

theorem mem_reports {r : PlineSegIntr T} {i k : Nat} {f g : V2 T → Bool} {e : Intr T} (h : e ∈ r.reports i k f g) : e.indexes = (i, k) := by
  unfold PlineSegIntr.reports at h
  rcases List.mem_append.mp h with h | h
  · obtain ⟨pt, -, rfl⟩ := List.mem_map.mp h
    rfl
  · split at h
    · split_ifs at h
      · simp at h
      · rw [List.mem_singleton] at h; subst h; rfl
    · simp at h

/-- **C38** Every report names two different segments of the polyline: neighbours (the second follows
the first) or segments without common vertex. -/
theorem C38_indexes (p : Pline T) (eps : T) (pairs : List (Nat × Nat)) (hp : p.Examined eps pairs) (inc : SelfIntrInclude) (e : Intr T)
    (he : e ∈ p.visitReports eps pairs inc) :
    e.indexes.1 < p.segmentCount ∧ e.indexes.2 < p.segmentCount ∧ e.indexes.1 ≠ e.indexes.2 ∧
      (p.NonAdjacent e.indexes.1 e.indexes.2 ∨ (p.Continues e.indexes.1 ∧ p.following e.indexes.1 = e.indexes.2)) := by
  have hpair : e ∈ pairs.flatMap (p.pairReports eps) → e.indexes.1 < p.segmentCount ∧ e.indexes.2 < p.segmentCount ∧
      e.indexes.1 ≠ e.indexes.2 ∧ (p.NonAdjacent e.indexes.1 e.indexes.2 ∨ (p.Continues e.indexes.1 ∧ p.following e.indexes.1 = e.indexes.2)) := by
    intro h
    obtain ⟨⟨i, k⟩, hik, h⟩ := List.mem_flatMap.mp h
    obtain ⟨hn, -⟩ := hp.sound i k hik
    have : e.indexes = (i, k) := by
      unfold pairReports at h
      split at h
      · exact mem_reports h
      · simp at h
    rw [this]
    exact ⟨hn.1, hn.2.1, hn.2.2.1, Or.inl hn⟩
  have hlocal : e ∈ p.localReports eps → e.indexes.1 < p.segmentCount ∧ e.indexes.2 < p.segmentCount ∧
      e.indexes.1 ≠ e.indexes.2 ∧ (p.NonAdjacent e.indexes.1 e.indexes.2 ∨ (p.Continues e.indexes.1 ∧ p.following e.indexes.1 = e.indexes.2)) := by
    intro h
    unfold localReports at h
    split at h
    · next a b hc hab =>
      split_ifs at h
      · rw [List.mem_singleton] at h
        subst h
        have h2 : p.segmentCount = 2 := by unfold segmentCount vertexCount; simp [hc, hab]
        show 0 < _ ∧ 1 < _ ∧ 0 ≠ 1 ∧ _
        rw [h2]
        refine ⟨by omega, by omega, by omega, Or.inr ⟨Or.inl hc, ?_⟩⟩
        show (0 + 1) % p.verts.length = 1
        rw [hab]; rfl
      · simp at h
    · next hno =>
      obtain ⟨i, hi, h⟩ := List.mem_flatMap.mp h
      have hlt := corners_lt p i hi
      have hcont : p.Continues i := by
        unfold corners at hi
        exact of_decide_eq_true (List.mem_filter.mp hi).2
      have : e.indexes = (i, p.following i) := by
        unfold cornerReports at h
        split at h
        · split_ifs at h
          · rw [List.mem_singleton] at h; subst h; rfl
          · exact mem_reports h
        · simp at h
      rw [this]
      refine ⟨hlt.1, hlt.2, ?_, Or.inr ⟨hcont, rfl⟩⟩
      show i ≠ (i + 1) % p.verts.length
      have hle := segmentCount_le p
      have h1 : 1 < p.verts.length := by
        by_contra hc
        have : p.segmentCount = 0 := by
          unfold segmentCount; dsimp only; rw [if_pos]; show p.verts.length < 2; omega
        omega
      by_cases hw : i + 1 < p.verts.length
      · rw [Nat.mod_eq_of_lt hw]; omega
      · have : i + 1 = p.verts.length := by omega
        rw [this, Nat.mod_self]; omega
  cases inc with
  | «local» => exact hlocal he
  | global => exact hpair he
  | all =>
    rcases List.mem_append.mp he with he | he
    · exact hlocal he
    · exact hpair he

/-- **C38** `all_self_intersects_as_basic` collects the same reports, an overlap as its two ends or not at all. -/
theorem C38_as_basic (p : Pline T) (idx : Index T) (hidx : idx.Serves p) (both : Bool) (eps : T) :
    ∃ pairs, p.Examined eps pairs ∧ allSelfIntersectsAsBasic p idx both eps = .ok ((p.visitReports eps pairs .all).flatMap fun e =>
      match e with
      | .basic b => [b]
      | .overlapping q => if both then [⟨q.startIndex1, q.startIndex2, q.point1⟩, ⟨q.startIndex1, q.startIndex2, q.point2⟩] else []) := by
  refine ⟨examine p [] (candidates idx eps), examined p idx hidx eps, ?_⟩
  have hC : ControlFlow.shouldBreak (ControlFlow.continuing : Unit) = false := rfl
  obtain ⟨vis, hvis⟩ : ∃ vis : Visitor T (List (BasicIntr T)) Unit, vis = basicVisitor both := ⟨_, rfl⟩
  have hdel : ∀ (es : List (Intr T)) (acc : List (BasicIntr T)), deliver vis acc es = (acc ++ es.flatMap (fun e =>
      match e with
      | .basic b => [b]
      | .overlapping q => if both then [⟨q.startIndex1, q.startIndex2, q.point1⟩, ⟨q.startIndex1, q.startIndex2, q.point2⟩] else []), none) := by
    intro es
    induction es with
    | nil => intro acc; simp [deliver]
    | cons e es ih =>
      intro acc
      have hb : ControlFlow.shouldBreak (vis acc e).2 = false := rfl
      simp only [deliver, hb, Bool.false_eq_true, if_false]
      rw [ih, List.flatMap_cons, hvis]
      cases e with
      | basic b => simp [basicVisitor]
      | overlapping q => cases both <;> simp [basicVisitor]
  obtain ⟨r, hr, hd⟩ := visitLocal_spec hC p vis eps ([] : List (BasicIntr T))
  obtain ⟨r', hr', hd'⟩ := visitGlobal_spec hC p idx hidx vis eps r.1
  unfold allSelfIntersectsAsBasic
  rw [← hvis]
  simp only [bind, Except.bind, hr, hr']
  have e1 := hd.1
  have e2 := hd'.1
  rw [hdel] at e1 e2
  rw [e2, e1]
  simp [visitReports]

/-- The hypotheses are met by a closed polyline that crosses itself and turns back on itself. -/
example :
    let p : Pline Rat := ⟨[⟨0, 0, 0⟩, ⟨2, 2, 0⟩, ⟨2, 0, 0⟩, ⟨0, 2, 0⟩, ⟨1, 1, 0⟩], true⟩
    (p.approxIndex Env.plain).Serves p ∧
    allSelfIntersectsAsBasic p (p.approxIndex Env.plain) true (1 / 100000)
      = .ok [⟨2, 3, ⟨0, 2⟩⟩, ⟨2, 3, ⟨1, 1⟩⟩, ⟨4, 0, ⟨0, 0⟩⟩, ⟨4, 0, ⟨1, 1⟩⟩, ⟨0, 2, ⟨1, 1⟩⟩, ⟨0, 3, ⟨1, 1⟩⟩, ⟨2, 4, ⟨1, 1⟩⟩] :=
  ⟨C37_own_index _ Env.plain_lawful _, by decide +kernel⟩

end Cavc
