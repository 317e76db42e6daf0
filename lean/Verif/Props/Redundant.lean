import Verif.Lemmas.View
import Verif.Lemmas.Invert
import Verif.Props.Repeat
import Verif.Spec.RatScalar

/-! # C11: removal of redundant vertexes -/

set_option linter.unusedSectionVars false

namespace Cavc
open Scalar Pline

section General
variable {T : Type} [Scalar T]

theorem cycleFrom_succ (p : Pline T) (h : 0 < p.verts.length) (i n : Nat) :
    ∃ v, p.verts[(i + n) % p.verts.length]? = some v ∧
      cycleFrom p i (n + 1) = cycleFrom p i n ++ [(i + n, v)] := by
  have hlt : (i + n) % p.verts.length < p.verts.length := Nat.mod_lt _ h
  refine ⟨_, List.getElem?_eq_getElem hlt, ?_⟩
  unfold cycleFrom vertexCount
  rw [List.range'_concat, List.filterMap_append]
  simp [List.getElem?_eq_getElem hlt]

theorem getLast?_mem_ne {l : List (Vertex T)} (h : l ≠ []) : ∃ v, l.getLast? = some v ∧ v ∈ l :=
  ⟨l.getLast h, List.getLast?_eq_some_getLast h, List.getLast_mem h⟩

/-- `w` has the position of a source vertex -/
def FromSource (p : Pline T) (w : Vertex T) : Prop := ∃ v ∈ p.verts, v.pos = w.pos

/-- what holds of the partial result after `m` steps -/
structure RedInv (p : Pline T) (m : Nat) (st : RedundantState T) : Prop where
  ne : ∀ r, st.result = some r → r.verts ≠ []
  closed : ∀ r, st.result = some r → r.closed = p.closed
  len : ∀ r, st.result = some r → r.verts.length ≤ m + 1
  src : ∀ r, st.result = some r → ∀ w ∈ r.verts, FromSource p w
  v2 : FromSource p st.v2

theorem setLast_ok {r : Pline T} (h : r.verts ≠ []) (v : Vertex T) :
    r.setLast v = .ok { r with verts := r.verts.dropLast ++ [v] } := by
  have hl : 0 < r.verts.length := List.length_pos_of_ne_nil h
  unfold setLast
  rw [if_neg (by omega), setVertex_lt (by omega)]
  congr 2
  rw [List.set_eq_take_append_cons_drop, if_pos (by omega), ← List.dropLast_eq_take]
  congr 1
  rw [show r.verts.length - 1 + 1 = r.verts.length by omega, List.drop_length]

theorem redundantStep_inv (p : Pline T) (eps : T) (h3 : 3 ≤ p.verts.length) (m i : Nat) (hi : 2 ≤ i)
    (st : RedundantState T) (hst : RedInv p m st) (hnone : st.result = none → i = m + 2)
    (v : Vertex T) (hv : v ∈ p.verts) :
    ∃ st', redundantStep p eps st (i, v) = .ok st' ∧ RedInv p (m + 1) st' ∧ st'.v2 = v ∧
      (st'.result = none → st.result = none) := by
  have hcopy : (⟨p.verts.take (i - 1), p.closed⟩ : Pline T).verts ≠ [] := by
    show p.verts.take (i - 1) ≠ []
    intro h
    have := congrArg List.length h
    simp at this; rcases this with h | h
    · omega
    · simp [h] at h3
  have hbase : ∀ r, r = st.result.getD ⟨p.verts.take (i - 1), p.closed⟩ → r.verts ≠ [] ∧
      r.closed = p.closed ∧ r.verts.length ≤ m + 1 ∧ ∀ w ∈ r.verts, FromSource p w := by
    rintro r rfl
    cases hr : st.result with
    | none =>
      refine ⟨hcopy, rfl, ?_, ?_⟩
      · have := hnone hr
        simp only [Option.getD_none, List.length_take]; omega
      · intro w hw
        exact ⟨w, List.mem_of_mem_take hw, rfl⟩
    | some r => exact ⟨hst.ne r hr, hst.closed r hr, hst.len r hr, hst.src r hr⟩
  unfold redundantStep
  dsimp only
  generalize hcase : (if (st.v2.pos.fuzzyEqEps v.pos eps) = true then
      (RedundantCase.discardVertex : RedundantCase T) else _) = cs
  cases cs with
  | includeVertex =>
    refine ⟨_, rfl, ⟨?_, ?_, ?_, ?_, ⟨v, hv, rfl⟩⟩, rfl, ?_⟩
    · intro r hr
      obtain ⟨r', hr', rfl⟩ := Option.map_eq_some_iff.mp hr
      simp [addVertex]
    · intro r hr
      obtain ⟨r', hr', rfl⟩ := Option.map_eq_some_iff.mp hr
      exact hst.closed r' hr'
    · intro r hr
      obtain ⟨r', hr', rfl⟩ := Option.map_eq_some_iff.mp hr
      have := hst.len r' hr'
      simp only [addVertex, List.length_append, List.length_singleton]; omega
    · intro r hr w hw
      obtain ⟨r', hr', rfl⟩ := Option.map_eq_some_iff.mp hr
      simp only [addVertex, List.mem_append, List.mem_singleton] at hw
      rcases hw with hw | rfl
      · exact hst.src r' hr' w hw
      · exact hst.v2
    · intro h
      exact Option.map_eq_none_iff.mp h
  | discardVertex =>
    obtain ⟨h1, h2, h4, h5⟩ := hbase _ rfl
    refine ⟨_, rfl, ⟨?_, ?_, ?_, ?_, ⟨v, hv, rfl⟩⟩, rfl, ?_⟩
    · intro r hr; injection hr with hr; subst hr; exact h1
    · intro r hr; injection hr with hr; subst hr; exact h2
    · intro r hr; injection hr with hr; subst hr; omega
    · intro r hr; injection hr with hr; subst hr; exact h5
    · intro h; simp at h
  | updateV1BulgeForArc bulge =>
    obtain ⟨h1, h2, h4, h5⟩ := hbase _ rfl
    obtain ⟨l, hl, hlm⟩ := getLast?_mem_ne h1
    have hl' : (st.result.getD ⟨p.verts.take (i - 1), p.closed⟩).last = some l := hl
    dsimp only
    simp only [hl', unwrap, bind, Except.bind, setLast_ok h1]
    refine ⟨_, rfl, ⟨?_, ?_, ?_, ?_, ⟨v, hv, rfl⟩⟩, rfl, ?_⟩
    · intro r hr; injection hr with hr; subst hr; simp
    · intro r hr; injection hr with hr; subst hr; exact h2
    · intro r hr; injection hr with hr; subst hr
      have := List.length_pos_of_ne_nil h1
      simp only [List.length_append, List.length_dropLast, List.length_singleton]; omega
    · intro r hr w hw; injection hr with hr; subst hr
      simp only [List.mem_append, List.mem_singleton] at hw
      rcases hw with hw | rfl
      · exact h5 w (List.dropLast_subset _ hw)
      · obtain ⟨u, hu, hp⟩ := h5 l hlm
        exact ⟨u, hu, hp⟩
    · intro h; simp at h

theorem foldlM_append_ok {α β : Type} (f : β → α → M β) (l l' : List α) (b : β) :
    (l ++ l').foldlM f b = (l.foldlM f b).bind (fun b => l'.foldlM f b) := by
  rw [List.foldlM_append]; rfl

theorem redundantFold_inv (p : Pline T) (eps : T) (h3 : 3 ≤ p.verts.length) (i : Nat) (hi : 2 ≤ i)
    (st : RedundantState T) (hst : RedInv p 0 st) (hnone : st.result = none → i = 2) :
    ∀ n, ∃ st', (cycleFrom p i n).foldlM (redundantStep p eps) st = .ok st' ∧ RedInv p n st' ∧
      (st'.result = none → st.result = none)
  | 0 => ⟨st, rfl, hst, id⟩
  | n + 1 => by
    obtain ⟨s1, h1, h2, h4⟩ := redundantFold_inv p eps h3 i hi st hst hnone n
    obtain ⟨v, hv, hc⟩ := cycleFrom_succ p (by omega) i n
    obtain ⟨s2, h5, h6, -, h7⟩ := redundantStep_inv p eps h3 n (i + n) (by omega)
      s1 h2 (fun h => by have := hnone (h4 h); omega) v (List.mem_of_getElem? hv)
    refine ⟨s2, ?_, h6, fun h => h4 (h7 h)⟩
    rw [hc, foldlM_append_ok, h1]
    simp [Except.bind, List.foldlM_cons, List.foldlM_nil, h5, bind, pure, Except.pure]

theorem skipStartRepeats_spec (eps : T) (vc : Nat) (P : Vertex T → Prop)
    (hP : ∀ v b, P v → P (v.withBulge b)) : ∀ (rest : List (Vertex T)) (v1 v2 : Vertex T) (i : Nat),
    P v1 → P v2 → (∀ v ∈ rest, P v) →
    P (skipStartRepeats eps vc v1 v2 i rest).1 ∧ P (skipStartRepeats eps vc v1 v2 i rest).2.1 ∧
      i ≤ (skipStartRepeats eps vc v1 v2 i rest).2.2
  | [], v1, v2, i, h1, h2, _ => by
    unfold skipStartRepeats
    dsimp only
    split_ifs
    · exact ⟨hP _ _ h1, h2, Nat.le_refl _⟩
    · exact ⟨hP _ _ h1, h2, Nat.le_refl _⟩
    · exact ⟨h1, h2, Nat.le_refl _⟩
  | v :: rest, v1, v2, i, h1, h2, hr => by
    unfold skipStartRepeats
    dsimp only
    split_ifs
    · exact ⟨hP _ _ h1, h2, Nat.le_refl _⟩
    · have := skipStartRepeats_spec eps vc P hP rest (v1.withBulge v2.bulge) v (i + 1) (hP _ _ h1)
        (hr v (by simp)) (fun w hw => hr w (by simp [hw]))
      exact ⟨this.1, this.2.1, by omega⟩
    · exact ⟨h1, h2, Nat.le_refl _⟩

/-- What the caller gets: never more vertexes, all at positions of source vertexes, and the closed
flag is kept. -/
def FewerFromSource (p : Pline T) (r : Option (Pline T)) : Prop :=
  ∀ q, r = some q → q.closed = p.closed ∧ q.verts.length ≤ p.verts.length ∧
    ∀ w ∈ q.verts, ∃ v ∈ p.verts, v.pos = w.pos

theorem removeLast_ok {p : Pline T} (h : p.verts ≠ []) :
    ∃ v, v ∈ p.verts ∧ p.verts.getLast? = some v ∧
      p.removeLast = .ok (v, { p with verts := p.verts.dropLast }) := by
  have hl : 0 < p.verts.length := List.length_pos_of_ne_nil h
  refine ⟨p.verts.getLast h, List.getLast_mem h, List.getLast?_eq_some_getLast h, ?_⟩
  unfold removeLast remove
  rw [if_neg (by omega)]
  have : p.verts[p.verts.length - 1]? = some (p.verts.getLast h) := by
    rw [← List.getLast?_eq_getElem?]; exact List.getLast?_eq_some_getLast h
  rw [this]
  dsimp only
  rw [List.eraseIdx_eq_take_drop_succ, List.dropLast_eq_take,
    show p.verts.length - 1 + 1 = p.verts.length by omega, List.drop_length, List.append_nil]

theorem addOrReplace_ok (p : Pline T) (v : Vertex T) (eps : T) :
    ∃ q, p.addOrReplaceVertex v eps = .ok q ∧ q.closed = p.closed ∧
      q.verts.length ≤ p.verts.length + 1 ∧
      ∀ w ∈ q.verts, w = v ∨ ∃ u ∈ p.verts, u.pos = w.pos := by
  unfold addOrReplaceVertex vertexCount
  dsimp only
  by_cases h0 : p.verts.length = 0
  · rw [if_pos h0]
    refine ⟨_, rfl, rfl, by simp [addVertex], ?_⟩
    intro w hw
    have : p.verts = [] := List.length_eq_zero_iff.mp h0
    simp [addVertex, this] at hw
    exact Or.inl hw
  · rw [if_neg h0, at_lt (by omega)]
    simp only [bind, Except.bind]
    split_ifs
    · rw [setVertex_lt (by omega)]
      refine ⟨_, rfl, rfl, by simp, ?_⟩
      intro w hw
      rcases List.mem_or_eq_of_mem_set hw with hw | rfl
      · exact Or.inr ⟨w, hw, rfl⟩
      · exact Or.inr ⟨_, List.getElem_mem _, rfl⟩
    · refine ⟨_, rfl, rfl, by simp [addVertex], ?_⟩
      intro w hw
      simp [addVertex] at hw
      rcases hw with hw | rfl
      · exact Or.inr ⟨w, hw, rfl⟩
      · exact Or.inl rfl

theorem closeOpen_ok (p : Pline T) (eps : T) (h3 : 3 ≤ p.verts.length) (st : RedundantState T)
    (hst : RedInv p (p.verts.length - 2) st) :
    ∃ r, redundantCloseOpen p eps st = .ok r ∧ FewerFromSource p r := by
  have hne : p.verts ≠ [] := by intro h; simp [h] at h3
  unfold redundantCloseOpen
  dsimp only
  cases hr : st.result with
  | some pl =>
    obtain ⟨l, hl, hlm⟩ := getLast?_mem_ne hne
    have hl' : p.last = some l := hl
    obtain ⟨q, hq, h1, h2, h4⟩ := addOrReplace_ok pl l eps
    dsimp only
    rw [hl']
    simp only [unwrap, bind, Except.bind, hq]
    refine ⟨_, rfl, ?_⟩
    intro q' hq'
    injection hq' with hq'
    subst hq'
    have := hst.len pl hr
    refine ⟨h1.trans (hst.closed pl hr), by omega, ?_⟩
    intro w hw
    rcases h4 w hw with rfl | ⟨u, hu, hp⟩
    · exact ⟨w, hlm, rfl⟩
    · obtain ⟨v, hv, hp'⟩ := hst.src pl hr u hu
      exact ⟨v, hv, hp'.trans hp⟩
  | none =>
    dsimp only
    unfold vertexCount
    rw [at_lt (by omega), at_lt (by omega)]
    simp only [bind, Except.bind]
    obtain ⟨v, hv, -, hrem⟩ := removeLast_ok hne
    rw [hrem]
    split_ifs
    · refine ⟨_, rfl, ?_⟩
      intro q hq
      injection hq with hq
      subst hq
      refine ⟨rfl, by simp, ?_⟩
      intro w hw
      exact ⟨w, List.dropLast_subset _ hw, rfl⟩
    · exact ⟨_, rfl, fun q hq => by simp at hq⟩

theorem wrapRepeat_ok (p : Pline T) (eps : T) (h3 : 3 ≤ p.verts.length) (st : RedundantState T)
    (hst : RedInv p (p.verts.length - 1) st) :
    ∃ r, redundantWrapRepeat p eps st = .ok r ∧ FewerFromSource p r := by
  have hne : p.verts ≠ [] := by intro h; simp [h] at h3
  have key : ∀ pl : Pline T, pl.verts ≠ [] → ∀ o : Option (Pline T), FewerFromSource p o →
      FewerFromSource p (some pl) →
      ∃ r, (do
        let last ← unwrap pl.last
        let first ← pl.at 0
        if last.pos.fuzzyEqEps first.pos eps then do
          let r ← pl.removeLast
          .ok (some r.2)
        else .ok o : M (Option (Pline T))) = .ok r ∧ FewerFromSource p r := by
    intro pl hplne o ho hpl
    have hpos := List.length_pos_of_ne_nil hplne
    obtain ⟨l, hlm, hl, hrem⟩ := removeLast_ok hplne
    have hl' : pl.last = some l := hl
    simp only [hl', unwrap, at_lt hpos, bind, Except.bind, hrem]
    split_ifs
    · refine ⟨_, rfl, ?_⟩
      intro q hq
      injection hq with hq
      subst hq
      obtain ⟨h1, h2, h4⟩ := hpl pl rfl
      refine ⟨h1, ?_, fun w hw => h4 w (List.dropLast_subset _ hw)⟩
      simp only [List.length_dropLast]; omega
    · exact ⟨_, rfl, ho⟩
  have hsrc : ∀ pl, st.result = some pl → FewerFromSource p (some pl) := by
    intro pl hr q hq
    injection hq with hq
    subst hq
    have := hst.len pl hr
    exact ⟨hst.closed pl hr, by omega, hst.src pl hr⟩
  unfold redundantWrapRepeat
  cases hr : st.result with
  | some pl => exact key pl (hst.ne pl hr) (some pl) (hsrc pl hr) (hsrc pl hr)
  | none =>
    exact key p hne none (fun q hq => by simp at hq) (fun q hq => by
      injection hq with hq
      subst hq
      exact ⟨rfl, Nat.le_refl _, fun w hw => ⟨w, hw, rfl⟩⟩)

theorem dropFirst_ok (p pl : Pline T) (f : Vertex T → Vertex T) (hf : ∀ v, (f v).pos = v.pos)
    (hpl : FewerFromSource p (some pl)) (h2 : 2 ≤ pl.verts.length) :
    ∃ r, redundantDropFirst pl f = .ok r ∧ FewerFromSource p r := by
  have hne : pl.verts ≠ [] := by intro h; simp [h] at h2
  obtain ⟨l, hlm, -, hrem⟩ := removeLast_ok hne
  unfold redundantDropFirst
  simp only [hrem, bind, Except.bind]
  rw [setVertex_lt (by simp only [List.length_dropLast]; omega)]
  refine ⟨_, rfl, ?_⟩
  intro q hq
  injection hq with hq
  subst hq
  obtain ⟨h1, h3, h4⟩ := hpl pl rfl
  refine ⟨h1, ?_, ?_⟩
  · simp only [List.length_set, List.length_dropLast]; omega
  · intro w hw
    rcases List.mem_or_eq_of_mem_set hw with hw | rfl
    · exact h4 w (List.dropLast_subset _ hw)
    · obtain ⟨v, hv, hp⟩ := h4 l hlm
      exact ⟨v, hv, hp.trans (hf l).symm⟩

theorem closeClosed_ok (p : Pline T) (eps : T) (h3 : 3 ≤ p.verts.length) (st : RedundantState T)
    (hst : RedInv p (p.verts.length - 1) st) :
    (∃ r, redundantCloseClosed p eps st = .ok r ∧ FewerFromSource p r) ∨
      redundantCloseClosed p eps st = .error .indexOutOfBounds := by
  obtain ⟨result, hres, hsrc⟩ := wrapRepeat_ok p eps h3 st hst
  have hsrc' : FewerFromSource p (some (result.getD p)) := by
    cases result with
    | none =>
      intro q hq
      injection hq with hq
      subst hq
      exact ⟨rfl, Nat.le_refl _, fun w hw => ⟨w, hw, rfl⟩⟩
    | some pl => exact hsrc
  unfold redundantCloseClosed
  rw [hres]
  simp only [bind, Except.bind]
  by_cases hlen : 1 < (result.getD p).verts.length
  · left
    rw [at_lt hlen]
    dsimp only
    unfold redundantFirst
    dsimp only
    split_ifs
    · exact dropFirst_ok p _ id (fun _ => rfl) hsrc' (by omega)
    · split
      · exact dropFirst_ok p _ _ (fun _ => rfl) hsrc' (by omega)
      · exact ⟨_, rfl, hsrc⟩
    · exact ⟨_, rfl, hsrc⟩
  · right
    have : (result.getD p).at 1 = .error .indexOutOfBounds := by
      unfold Pline.at
      rw [List.getElem?_eq_none (by omega)]
    rw [this]

/-- **C11** (what holds of every input, any number type) The result of `remove_redundant` has no
more vertexes than the source, all at positions of source vertexes, and the same closed flag.  Open
polylines never panic; for a closed one the only possible panic is the out of bounds access shown by
`C11_panic_witness`. -/
theorem C11_shape_partial (p : Pline T) (eps : T) :
    (∃ r, p.removeRedundant eps = .ok r ∧ FewerFromSource p r) ∨
      (p.closed = true ∧ p.removeRedundant eps = .error .indexOutOfBounds) := by
  unfold removeRedundant vertexCount
  dsimp only
  by_cases h1 : p.verts.length < 2
  · rw [if_pos h1]
    exact Or.inl ⟨_, rfl, fun q hq => by simp at hq⟩
  rw [if_neg h1]
  by_cases h2 : p.verts.length = 2
  · rw [if_pos h2, at_lt (by omega), at_lt (by omega)]
    simp only [bind, Except.bind]
    split_ifs
    · refine Or.inl ⟨_, rfl, ?_⟩
      intro q hq
      injection hq with hq
      subst hq
      refine ⟨rfl, by simp; omega, ?_⟩
      intro w hw
      simp at hw
      subst hw
      exact ⟨_, List.getElem_mem _, rfl⟩
    · exact Or.inl ⟨_, rfl, fun q hq => by simp at hq⟩
  · rw [if_neg h2]
    have h3 : 3 ≤ p.verts.length := by omega
    rw [at_lt (by omega), at_lt (by omega)]
    simp only [bind, Except.bind]
    obtain ⟨hs1, hs2, hs3⟩ := skipStartRepeats_spec eps p.verts.length (FromSource p)
      (fun v b h => h) (p.verts.drop 2) p.verts[0] p.verts[1] 2
      ⟨_, List.getElem_mem _, rfl⟩ ⟨_, List.getElem_mem _, rfl⟩
      (fun v hv => ⟨v, List.mem_of_mem_drop hv, rfl⟩)
    generalize skipStartRepeats eps p.verts.length p.verts[0] p.verts[1] 2 (p.verts.drop 2) = s
      at hs1 hs2 hs3
    by_cases hend : s.2.2 ≥ p.verts.length
    · rw [if_pos hend]
      refine Or.inl ⟨_, rfl, ?_⟩
      intro q hq
      split_ifs at hq
      injection hq with hq
      subst hq
      refine ⟨rfl, by simp; omega, ?_⟩
      intro w hw
      simp at hw
      subst hw
      exact hs1
    · rw [if_neg hend]
      set st : RedundantState T :=
        { result := if s.2.2 = 2 then none else some ⟨[s.1], p.closed⟩, v1 := s.1, v2 := s.2.1,
          v1v2Arc := none, v1Zero := s.1.bulgeIsZero, v2Zero := s.2.1.bulgeIsZero,
          v1Pos := s.1.bulgeIsPos, v2Pos := s.2.1.bulgeIsPos } with hst
      have hinv : RedInv p 0 st := by
        have hres : ∀ r, st.result = some r → r = ⟨[s.1], p.closed⟩ := by
          intro r hr
          rw [hst] at hr
          dsimp only at hr
          split_ifs at hr
          injection hr with hr
          exact hr.symm
        refine ⟨?_, ?_, ?_, ?_, hs2⟩
        · intro r hr; rw [hres r hr]; simp
        · intro r hr; rw [hres r hr]
        · intro r hr; rw [hres r hr]; simp
        · intro r hr w hw; rw [hres r hr] at hw; simp at hw; subst hw; exact hs1
      have hnone : st.result = none → s.2.2 = 2 := by
        intro h
        rw [hst] at h
        dsimp only at h
        split_ifs at h with h'
        exact h'
      by_cases hc : p.closed = true
      · obtain ⟨st', h4, h5, -⟩ := redundantFold_inv p eps h3 s.2.2 hs3 st hinv hnone
          (p.verts.length - 1)
        simp only [hc, if_true]
        rw [h4]
        rcases closeClosed_ok p eps h3 st' h5 with h | h
        · exact Or.inl h
        · exact Or.inr ⟨trivial, h⟩
      · obtain ⟨st', h4, h5, -⟩ := redundantFold_inv p eps h3 s.2.2 hs3 st hinv hnone
          (p.verts.length - 2)
        simp only [hc]
        simp only [Bool.false_eq_true, if_false, false_and, or_false]
        rw [h4]
        exact closeOpen_ok p eps h3 st' h5

end General

/-- **C11** (finding) An open polyline whose start is repeated and whose remaining vertexes fit in
one step loses its end: `(0,0), (0,0), (1,0)` becomes the single vertex `(0,0)`. -/
theorem C11_lost_end_witness :
    (⟨[⟨0, 0, 0⟩, ⟨0, 0, 0⟩, ⟨1, 0, 0⟩], false⟩ : Pline Rat).removeRedundant (1 / 100000)
      = .ok (some ⟨[⟨0, 0, 0⟩], false⟩) := by decide +kernel

/-- **C11, C50** (finding) A small closed triangle panics. -/
theorem C11_panic_witness :
    (⟨[⟨0, 0, 0⟩, ⟨1 / 1000, 0, 0⟩, ⟨0, 1 / 1000, 0⟩], true⟩ : Pline Rat).removeRedundant (1 / 100000)
      = .error .indexOutOfBounds := by decide +kernel

/-- Redundant vertexes of an ordinary square are removed, also at the start. -/
example : (⟨[⟨1, 0, 0⟩, ⟨2, 0, 0⟩, ⟨2, 2, 0⟩, ⟨0, 2, 0⟩, ⟨0, 1, 0⟩, ⟨0, 0, 0⟩], true⟩
    : Pline Rat).removeRedundant (1 / 100000)
      = .ok (some ⟨[⟨0, 0, 0⟩, ⟨2, 0, 0⟩, ⟨2, 2, 0⟩, ⟨0, 2, 0⟩], true⟩) := by decide +kernel

end Cavc
