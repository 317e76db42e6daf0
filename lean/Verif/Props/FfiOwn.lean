import Verif.Props.FfiHistory

/-! # C48: ownership of polylines in lists -/

set_option linter.unusedSectionVars false

namespace Cavc
variable {T : Type} [Scalar T]
open Pline

theorem listAt_iff {h : Heap T} {l : Ptr} {ps : List Ptr} : h.listAt l = some ps ↔ h.cells l = some (.plinelist ps) := by
  unfold Heap.listAt
  constructor
  · intro hh
    split at hh
    · rename_i qs hc; cases hh; exact hc
    · cases hh
  · intro hh; rw [hh]

theorem plineAt_iff {h : Heap T} {p : Ptr} : (∃ x, h.plineAt p = some x) ↔ ∃ pl, h.cells p = some (.pline pl) := by
  constructor
  · rintro ⟨⟨vs, cl⟩, hx⟩; exact ⟨_, pline_cell hx⟩
  · rintro ⟨pl, hc⟩; exact ⟨_, plineAt_of hc⟩

theorem listAt_cells {h g : Heap T} {p : Ptr} (hc : g.cells p = h.cells p) : g.listAt p = h.listAt p := by
  unfold Heap.listAt; rw [hc]

/-! ## Primitive steps -/

/-- allocations: polylines, indexes, and lists of polylines that no list owns -/
inductive Grow : Heap T → Heap T → Prop
  | refl (h : Heap T) : Grow h h
  | pline {h g : Heap T} (e : Grow h g) (pl : Pline T) : Grow h (g.alloc (.pline pl)).2
  | index {h g : Heap T} (e : Grow h g) (bs : List (AABB T)) : Grow h (g.alloc (.aabbindex bs)).2
  | list {h g : Heap T} (e : Grow h g) (ps : List Ptr) (hn : ps.Nodup)
      (hl : ∀ p ∈ ps, h.next ≤ p ∧ (∃ x, g.plineAt p = some x) ∧ ¬ g.Owns p) : Grow h (g.alloc (.plinelist ps)).2

theorem Grow.extends {h g : Heap T} (e : Grow h g) (hk : h.Ok) : Extends h g := by
  induction e with
  | refl => exact Extends.refl hk
  | pline e pl ih => exact ih.trans (alloc_extends ih.1 _)
  | index e bs ih => exact ih.trans (alloc_extends ih.1 _)
  | list e ps hn hl ih => exact ih.trans (alloc_extends ih.1 _)

theorem alloc_listAt (h : Heap T) (o : Obj T) (l : Ptr) :
    (h.alloc o).2.listAt l = if l = h.next then (match o with | .plinelist ps => some ps | _ => none) else h.listAt l := by
  unfold Heap.listAt Heap.alloc
  dsimp only
  split_ifs with hl
  · cases o <;> rfl
  · rfl

theorem alloc_plineAt_old {h : Heap T} (hk : h.Ok) (o : Obj T) {p : Ptr} {x : Content T} (hp : h.plineAt p = some x) :
    (h.alloc o).2.plineAt p = some x := by
  rw [plineAt_cells ((alloc_extends hk o).2.2 p (pline_lt hk hp)), hp]

theorem owned_alloc {h : Heap T} (hk : h.Ok) (ho : h.Owned) (o : Obj T) (hno : ∀ ps, o ≠ .plinelist ps) : (h.alloc o).2.Owned := by
  have key : ∀ l ps, (h.alloc o).2.listAt l = some ps → h.listAt l = some ps := by
    intro l ps hl
    rw [alloc_listAt] at hl
    split_ifs at hl
    · cases o with
      | plinelist qs => exact absurd rfl (hno qs)
      | pline _ => cases hl
      | aabbindex _ => cases hl
    · exact hl
  refine ⟨?_, ?_, ?_⟩
  · intro l ps p hl hp
    obtain ⟨x, hx⟩ := ho.live l ps p (key l ps hl) hp
    exact ⟨x, alloc_plineAt_old hk o hx⟩
  · intro l ps hl; exact ho.nodup l ps (key l ps hl)
  · intro l₁ l₂ ps₁ ps₂ p h1 h2; exact ho.disjoint l₁ l₂ ps₁ ps₂ p (key _ _ h1) (key _ _ h2)

theorem owned_allocList {h : Heap T} (hk : h.Ok) (ho : h.Owned) (qs : List Ptr) (hn : qs.Nodup)
    (hq : ∀ p ∈ qs, (∃ x, h.plineAt p = some x) ∧ ¬ h.Owns p) : (h.alloc (.plinelist qs)).2.Owned := by
  have key : ∀ l ps, (h.alloc (.plinelist qs)).2.listAt l = some ps → (l = h.next ∧ ps = qs) ∨ (l ≠ h.next ∧ h.listAt l = some ps) := by
    intro l ps hl
    rw [alloc_listAt] at hl
    split_ifs at hl with he
    · cases hl; exact Or.inl ⟨he, rfl⟩
    · exact Or.inr ⟨he, hl⟩
  refine ⟨?_, ?_, ?_⟩
  · intro l ps p hl hp
    rcases key l ps hl with ⟨rfl, rfl⟩ | ⟨_, hl⟩
    · obtain ⟨⟨x, hx⟩, _⟩ := hq p hp
      exact ⟨x, alloc_plineAt_old hk _ hx⟩
    · obtain ⟨x, hx⟩ := ho.live l ps p hl hp
      exact ⟨x, alloc_plineAt_old hk _ hx⟩
  · intro l ps hl
    rcases key l ps hl with ⟨rfl, rfl⟩ | ⟨_, hl⟩
    · exact hn
    · exact ho.nodup l ps hl
  · intro l₁ l₂ ps₁ ps₂ p h1 h2 m1 m2
    rcases key _ _ h1 with ⟨e1, r1⟩ | ⟨_, k1⟩ <;> rcases key _ _ h2 with ⟨e2, r2⟩ | ⟨_, k2⟩
    · exact e1.trans e2.symm
    · rw [r1] at m1; exact absurd ⟨_, _, k2, m2⟩ (hq p m1).2
    · rw [r2] at m2; exact absurd ⟨_, _, k1, m1⟩ (hq p m2).2
    · exact ho.disjoint _ _ _ _ p k1 k2 m1 m2

theorem Grow.owned {h g : Heap T} (e : Grow h g) (hk : h.Ok) (ho : h.Owned) : g.Owned := by
  induction e with
  | refl => exact ho
  | pline e pl ih => exact owned_alloc (e.extends hk).1 ih _ fun _ hc => by cases hc
  | index e bs ih => exact owned_alloc (e.extends hk).1 ih _ fun _ hc => by cases hc
  | list e ps hn hl ih => exact owned_allocList (e.extends hk).1 ih ps hn fun p hp => (hl p hp).2

/-- the polylines of a new list, before the list itself is made -/
theorem fromInternal_step {h : Heap T} (ps : List (Pline T)) : ∀ (acc : List Ptr × Heap T), acc.2.Ok → h.next ≤ acc.2.next →
    Grow h acc.2 → acc.1.Nodup →
    (∀ p ∈ acc.1, h.next ≤ p ∧ p < acc.2.next ∧ (∃ x, acc.2.plineAt p = some x) ∧ ¬ acc.2.Owns p) →
    (∀ l qs, acc.2.listAt l = some qs → ∀ p ∈ qs, p < acc.2.next) →
    let r := ps.foldl (fun (acc : List Ptr × Heap T) p =>
      ((acc.1 ++ [(acc.2.alloc (.pline p)).1], (acc.2.alloc (.pline p)).2) : List Ptr × Heap T)) acc
    Grow h r.2 ∧ r.1.Nodup ∧ r.1.length = acc.1.length + ps.length ∧
      (∀ p ∈ r.1, h.next ≤ p ∧ (∃ x, r.2.plineAt p = some x) ∧ ¬ r.2.Owns p) ∧
      (∀ i, i < acc.1.length → r.1[i]? = acc.1[i]?) ∧
      (∀ p x, acc.2.plineAt p = some x → r.2.plineAt p = some x) ∧
      (∀ i pl, ps[i]? = some pl → ∃ p, r.1[acc.1.length + i]? = some p ∧ r.2.plineAt p = some (pl.verts, pl.closed)) := by
  induction ps with
  | nil =>
    intro acc hk hle hg hn hl hb
    exact ⟨hg, hn, rfl, fun p hp => ⟨(hl p hp).1, (hl p hp).2.2⟩, fun _ _ => rfl, fun _ _ hx => hx, fun i pl hi => by simp at hi⟩
  | cons pl ps ih =>
    intro acc hk hle hg hn hl hb
    rw [List.foldl_cons]
    have hlist : ∀ l qs, (acc.2.alloc (.pline pl)).2.listAt l = some qs → acc.2.listAt l = some qs := by
      intro l qs hlq
      rw [alloc_listAt] at hlq
      split_ifs at hlq
      exact hlq
    obtain ⟨g1, g2, g3, g4, g5, g6, g7⟩ := ih (acc.1 ++ [(acc.2.alloc (.pline pl)).1], (acc.2.alloc (.pline pl)).2)
      (alloc_extends hk _).1 (hle.trans (alloc_extends hk _).2.1) (hg.pline pl)
      (by
        rw [List.nodup_append]
        refine ⟨hn, List.nodup_singleton _, ?_⟩
        intro a ha b hb' hab
        rw [List.mem_singleton] at hb'
        have := (hl a ha).2.1
        rw [hab, hb'] at this
        exact lt_irrefl _ this)
      (by
        intro p hp
        rw [List.mem_append, List.mem_singleton] at hp
        rcases hp with hp | hp
        · obtain ⟨a1, a2, ⟨x, hx⟩, a4⟩ := hl p hp
          refine ⟨a1, lt_of_lt_of_le a2 (alloc_extends hk _).2.1, ⟨x, alloc_plineAt_old hk _ hx⟩, ?_⟩
          rintro ⟨l, qs, e1, e2⟩
          exact a4 ⟨l, qs, hlist l qs e1, e2⟩
        · subst hp
          refine ⟨hle, Nat.lt_succ_self _, ⟨_, plineAt_of (alloc_cell _ _)⟩, ?_⟩
          rintro ⟨l, qs, e1, e2⟩
          exact lt_irrefl _ (hb l qs (hlist l qs e1) _ e2))
      (by
        intro l qs e1 p hp
        exact lt_of_lt_of_le (hb l qs (hlist l qs e1) p hp) (alloc_extends hk _).2.1)
    refine ⟨g1, g2, ?_, g4, ?_, ?_, ?_⟩
    · rw [g3]; simp; omega
    · intro i hi
      rw [g5 i (by simp; omega)]
      exact List.getElem?_append_left hi
    · intro p x hx
      exact g6 p x (alloc_plineAt_old hk _ hx)
    · intro i q hi
      cases i with
      | zero =>
        simp only [List.getElem?_cons_zero, Option.some.injEq] at hi
        subst hi
        refine ⟨acc.2.next, ?_, g6 _ _ (plineAt_of (alloc_cell _ _))⟩
        rw [Nat.add_zero, g5 _ (by simp)]
        simp [Heap.alloc]
      | succ i =>
        rw [List.getElem?_cons_succ] at hi
        obtain ⟨p, e1, e2⟩ := g7 i q hi
        refine ⟨p, ?_, e2⟩
        rw [← e1]
        congr 1
        simp; omega

/-- A new list of polylines: fresh, distinct, live, in order, owned by that list only. -/
theorem fromInternal_grow {h g : Heap T} (hk : h.Ok) (hg : Grow h g) (ho : g.Owned) (ps : List (Pline T)) :
    Grow h (listFromInternal g ps).2 ∧
    ∃ qs, (listFromInternal g ps).2.listAt (listFromInternal g ps).1 = some qs ∧ qs.length = ps.length ∧ (∀ p ∈ qs, h.next ≤ p) ∧
      ∀ (i : Nat) (pl : Pline T), ps[i]? = some pl →
        ∃ p, qs[i]? = some p ∧ (listFromInternal g ps).2.plineAt p = some (pl.verts, pl.closed) := by
  have hkg := (hg.extends hk).1
  obtain ⟨g1, g2, g3, g4, g5, g6, g7⟩ := fromInternal_step (h := h) ps ([], g) hkg (hg.extends hk).2.1 hg List.nodup_nil
    (fun p hp => by cases hp) (fun l qs e p hp => by
      obtain ⟨x, hx⟩ := ho.live l qs p e hp
      exact pline_lt hkg hx)
  unfold listFromInternal
  refine ⟨g1.list _ g2 g4, _, ?_, by rw [g3]; simp, fun p hp => (g4 p hp).1, ?_⟩
  · rw [alloc_listAt]
    exact if_pos rfl
  · intro i pl hi
    obtain ⟨p, e1, e2⟩ := g7 i pl hi
    refine ⟨p, by simpa using e1, ?_⟩
    exact alloc_plineAt_old (g1.extends hk).1 _ e2

/-! ## What one call can do to the heap -/

/-- calls that work on lists -/
def Call.onList : Call T → Bool
  | .listPop _ | .listTake _ _ | .listFree _ => true
  | _ => false

inductive Trans (h : Heap T) (c : Call T) : Heap T → Prop
  | grow {g : Heap T} (hc : c.onList = false ∨ ∀ l, c.effectOnList l (h.listAt l) = h.listAt l) (e : Grow h g) : Trans h c g
  | set {q : Ptr} {pl : Pline T} (pl' : Pline T) (hc : c.onList = false) (hq : h.cells q = some (.pline pl)) : Trans h c (h.set q (.pline pl'))
  | list {l : Ptr} {ps qs : List Ptr} (hl : h.cells l = some (.plinelist ps)) (hs : qs.Sublist ps)
      (hc : ∀ k, c.effectOnList k (h.listAt k) = if l = k then some qs else h.listAt k) : Trans h c (h.set l (.plinelist qs))
  | freed {q : Ptr} (hc : c = .free q ∧ (∃ pl, h.cells q = some (.pline pl)) ∨ c = .listFree q ∧ (∃ ps, h.cells q = some (.plinelist ps)) ∨
      c = .aabbIndexFree q ∧ (∃ bs, h.cells q = some (.aabbindex bs))) : Trans h c (h.free q)

/-- all results of a computation are transitions -/
def Moves (h : Heap T) (c : Call T) {α : Type} (r : FfiRes T α) : Prop := ∀ h' code o, r = some (h', code, o) → Trans h c h'

theorem moves_none {α : Type} {h : Heap T} {c : Call T} : Moves h c (none : FfiRes T α) := by
  intro h' code o he; cases he

theorem moves_some {α : Type} {h g : Heap T} {c : Call T} {code : Int} {o : Option α} (t : Trans h c g) :
    Moves h c (some (g, code, o) : FfiRes T α) := by
  intro h' code o he; cases he; exact t

theorem moves_id {α : Type} {h : Heap T} {c : Call T} {code : Int} {o : Option α} (hc : c.onList = false) :
    Moves h c (some (h, code, o) : FfiRes T α) := moves_some (.grow (Or.inl hc) (.refl h))

theorem moves_out {α : Type} {h : Heap T} {c : Call T} {r : FfiRes T α} {f : α → Out T} (hr : Moves h c r) : Moves h c (r.out f) := by
  intro h' code o he
  unfold FfiRes.out at he
  cases r with
  | none => simp at he
  | some x =>
    obtain ⟨a, b, d⟩ := x
    simp only [Option.map_some, Option.some.injEq, Prod.mk.injEq] at he
    obtain ⟨rfl, rfl, rfl⟩ := he
    exact hr _ _ _ rfl

theorem moves_withPline {α : Type} {h : Heap T} {c : Call T} {p : Ptr} {f : Pline T → FfiRes T α} (hc : c.onList = false)
    (hf : ∀ pl, h.cells p = some (.pline pl) → Moves h c (f pl)) : Moves h c (withPline h p f) := by
  unfold withPline
  split_ifs
  · exact moves_id hc
  · split
    · exact hf _ (by assumption)
    · exact moves_none

theorem moves_catch {α β : Type} {h : Heap T} {c : Call T} {m : M β} {k : β → FfiRes T α} (hc : c.onList = false)
    (hk : ∀ b, m = .ok b → Moves h c (k b)) : Moves h c (catchUnwind h m k) := by
  unfold catchUnwind
  split
  · exact moves_id hc
  · exact hk _ rfl

theorem moves_withList {α : Type} {h : Heap T} {c : Call T} {p : Ptr} {f : List Ptr → FfiRes T α}
    (h0 : p = 0 → Trans h c h)
    (hf : ∀ ps, h.cells p = some (.plinelist ps) → Moves h c (f ps)) : Moves h c (withList h p f) := by
  unfold withList
  split_ifs with hp
  · exact moves_some (h0 hp)
  · split
    · exact hf _ (by assumption)
    · exact moves_none

theorem listAt_zero {h : Heap T} (hk : h.Ok) : h.listAt 0 = none := by
  unfold Heap.listAt; rw [hk.2.1]

/-- Every call makes one of the transitions. -/
theorem exec_trans (env : Env T) (h : Heap T) (hk : h.Ok) (ho : h.Owned) (c : Call T) : Moves h c (exec env h c) := by
  cases c with
  | create vs n cl =>
    refine moves_out ?_
    unfold plineCreate
    dsimp only
    split_ifs
    · split
      · exact moves_none
      · exact moves_some (.grow (Or.inl rfl) ((Grow.refl h).pline _))
    · exact moves_some (.grow (Or.inl rfl) ((Grow.refl h).pline _))
  | free p =>
    simp only [exec]
    unfold plineF
    split_ifs with hp
    · exact moves_id rfl
    · split
      · rename_i pl hc
        exact moves_some (.freed (Or.inl ⟨rfl, _, hc⟩))
      · exact moves_none
  | reserve p n => exact moves_out (moves_withPline rfl fun pl hc => moves_id rfl)
  | clone p => exact moves_out (moves_withPline rfl fun pl hc => moves_some (.grow (Or.inl rfl) ((Grow.refl h).pline _)))
  | getIsClosed p => exact moves_out (moves_withPline rfl fun pl hc => moves_id rfl)
  | setIsClosed p cl => exact moves_out (moves_withPline rfl fun pl hc => moves_some (.set _ rfl hc))
  | getVertexCount p => exact moves_out (moves_withPline rfl fun pl hc => moves_catch rfl fun _ _ => moves_id rfl)
  | getVertexData p cap =>
    refine moves_out (moves_withPline rfl fun pl hc => ?_)
    split_ifs
    · exact moves_id rfl
    · exact moves_none
  | setVertexData p d n =>
    refine moves_out (moves_withPline rfl fun pl hc => ?_)
    split
    · exact moves_none
    · exact moves_some (.set _ rfl hc)
  | clear p => exact moves_out (moves_withPline rfl fun pl hc => moves_some (.set _ rfl hc))
  | add p a b d => exact moves_out (moves_withPline rfl fun pl hc => moves_some (.set _ rfl hc))
  | getVertex p i =>
    refine moves_out (moves_withPline rfl fun pl hc => ?_)
    split_ifs
    · exact moves_id rfl
    · exact moves_catch rfl fun _ _ => moves_id rfl
  | setVertex p i v =>
    refine moves_out (moves_withPline rfl fun pl hc => ?_)
    split_ifs
    · exact moves_id rfl
    · exact moves_catch rfl fun _ _ => moves_some (.set _ rfl hc)
  | remove p i =>
    refine moves_out (moves_withPline rfl fun pl hc => ?_)
    split_ifs
    · exact moves_id rfl
    · exact moves_catch rfl fun _ _ => moves_some (.set _ rfl hc)
  | evalPathLength p => exact moves_out (moves_withPline rfl fun pl hc => moves_id rfl)
  | evalArea p => exact moves_out (moves_withPline rfl fun pl hc => moves_id rfl)
  | evalWn p x y => exact moves_out (moves_withPline rfl fun pl hc => moves_id rfl)
  | invertDirection p => exact moves_out (moves_withPline rfl fun pl hc => moves_catch rfl fun _ _ => moves_some (.set _ rfl hc))
  | scale p s => exact moves_out (moves_withPline rfl fun pl hc => moves_catch rfl fun _ _ => moves_some (.set _ rfl hc))
  | translate p x y => exact moves_out (moves_withPline rfl fun pl hc => moves_catch rfl fun _ _ => moves_some (.set _ rfl hc))
  | removeRepeatPos p eps =>
    refine moves_out (moves_withPline rfl fun pl hc => moves_catch rfl fun r _ => ?_)
    cases r
    · exact moves_id rfl
    · exact moves_some (.set _ rfl hc)
  | removeRedundant p eps =>
    refine moves_out (moves_withPline rfl fun pl hc => moves_catch rfl fun r _ => ?_)
    cases r
    · exact moves_id rfl
    · exact moves_some (.set _ rfl hc)
  | evalExtents p =>
    refine moves_out (moves_withPline rfl fun pl hc => moves_catch rfl fun r _ => ?_)
    cases r <;> exact moves_id rfl
  | parallelOffset p d opts =>
    exact moves_out (moves_withPline rfl fun pl hc => moves_catch rfl fun rs _ =>
      moves_some (.grow (Or.inl rfl) (fromInternal_grow hk (.refl h) ho rs).1))
  | boolean p q op idx eps =>
    refine moves_out ?_
    unfold plineBoolean
    split_ifs
    · exact moves_id rfl
    · split
      · exact moves_id rfl
      · refine moves_withPline rfl fun a _ => moves_withPline rfl fun b _ => moves_catch rfl fun r _ => moves_some (.grow (Or.inl rfl) ?_)
        have g1 := (fromInternal_grow hk (.refl h) ho (r.posPlines.map BooleanResultPline.pline)).1
        exact (fromInternal_grow hk g1 (g1.owned hk ho) _).1
  | createApproxAabbIndex p => exact moves_out (moves_withPline rfl fun pl hc => moves_some (.grow (Or.inl rfl) ((Grow.refl h).index _)))
  | createAabbIndex p => exact moves_out (moves_withPline rfl fun pl hc => moves_some (.grow (Or.inl rfl) ((Grow.refl h).index _)))
  | aabbIndexFree i =>
    simp only [exec]
    unfold aabbIndexF
    split_ifs with hp
    · exact moves_id rfl
    · split
      · rename_i pl hc
        exact moves_some (.freed (Or.inr (Or.inr ⟨rfl, _, hc⟩)))
      · exact moves_none
  | aabbIndexGetExtents i =>
    refine moves_out ?_
    unfold aabbIndexGetExtents
    split_ifs
    · exact moves_id rfl
    · split
      · exact moves_id rfl
      · exact moves_none
  | listFree l =>
    simp only [exec]
    unfold plinelistF
    split_ifs with hp
    · refine moves_some (.grow (Or.inr fun k => ?_) (.refl h))
      simp only [Call.effectOnList]
      split_ifs with hlk
      · rw [← hlk, hp, listAt_zero hk]
      · rfl
    · split
      · rename_i ps hc
        exact moves_some (.freed (Or.inr (Or.inl ⟨rfl, _, hc⟩)))
      · exact moves_none
  | listGetCount l =>
    exact moves_out (moves_withList (fun _ => .grow (Or.inl rfl) (.refl h)) fun ps hc => moves_catch rfl fun _ _ => moves_id rfl)
  | listGetPline l i =>
    refine moves_out (moves_withList (fun _ => .grow (Or.inl rfl) (.refl h)) fun ps hc => ?_)
    split <;> exact moves_id rfl
  | listPop l =>
    refine moves_out (moves_withList (fun hl => .grow (Or.inr fun k => ?_) (.refl h)) fun ps hc => ?_)
    · simp only [Call.effectOnList]
      split_ifs with hlk
      · rw [← hlk, hl, listAt_zero hk]; rfl
      · rfl
    · split
      · refine moves_some (.list hc (List.dropLast_sublist ps) fun k => ?_)
        simp only [Call.effectOnList]
        split_ifs with hlk
        · rw [← hlk, listAt_iff.mpr hc]; rfl
        · rfl
      · rename_i hlast
        refine moves_some (.grow (Or.inr fun k => ?_) (.refl h))
        rw [List.getLast?_eq_none_iff] at hlast
        simp only [Call.effectOnList]
        split_ifs with hlk
        · rw [← hlk, listAt_iff.mpr hc, hlast]; rfl
        · rfl
  | listTake l i =>
    have hout : ∀ ps, h.cells l = some (.plinelist ps) → ps.length ≤ i → Trans h (.listTake l i) h := by
      intro ps hc hi
      refine .grow (Or.inr fun k => ?_) (.refl h)
      simp only [Call.effectOnList]
      split_ifs with hlk
      · rw [← hlk, listAt_iff.mpr hc, Option.map_some, List.eraseIdx_of_length_le hi]
      · rfl
    refine moves_out (moves_withList (fun hl => .grow (Or.inr fun k => ?_) (.refl h)) fun ps hc => ?_)
    · simp only [Call.effectOnList]
      split_ifs with hlk
      · rw [← hlk, hl, listAt_zero hk]; rfl
      · rfl
    · split_ifs with hi
      · exact moves_some (hout ps hc hi)
      · split
        · refine moves_some (.list hc (List.eraseIdx_sublist ps i) fun k => ?_)
          simp only [Call.effectOnList]
          split_ifs with hlk
          · rw [← hlk, listAt_iff.mpr hc]; rfl
          · rfl
        · rename_i hnone
          exact absurd (List.getElem?_eq_none_iff.mp hnone) hi

/-! ## Ownership -/

theorem effectOnList_of {c : Call T} (hc : c.onList = false) (l : Ptr) (x : Option (List Ptr)) : c.effectOnList l x = x := by
  cases c <;> first | rfl | cases hc

theorem set_pline_lists (h : Heap T) {q : Ptr} {pl : Pline T} (pl' : Pline T) (hq : h.cells q = some (.pline pl)) (l : Ptr) :
    (h.set q (.pline pl')).listAt l = h.listAt l := by
  unfold Heap.listAt Heap.set
  dsimp only
  split_ifs with hl
  · rw [hl, hq]
  · rfl

theorem set_list_lists (h : Heap T) (q : Ptr) (qs : List Ptr) (l : Ptr) :
    (h.set q (.plinelist qs)).listAt l = if q = l then some qs else h.listAt l := by
  unfold Heap.listAt Heap.set
  dsimp only
  by_cases hl : l = q
  · subst hl; simp
  · rw [if_neg hl, if_neg (Ne.symm hl)]

theorem set_list_plines (h : Heap T) {l : Ptr} {ps : List Ptr} (qs : List Ptr) (hl : h.cells l = some (.plinelist ps)) (p : Ptr) :
    (h.set l (.plinelist qs)).plineAt p = h.plineAt p := by
  unfold Heap.plineAt Heap.set
  dsimp only
  split_ifs with hp
  · rw [hp, hl]
  · rfl

theorem free_lists (h : Heap T) (q l : Ptr) : (h.free q).listAt l = if q = l then none else h.listAt l := by
  unfold Heap.listAt Heap.free
  dsimp only
  by_cases hl : l = q
  · subst hl; simp
  · rw [if_neg hl, if_neg (Ne.symm hl)]

theorem free_plines (h : Heap T) (q p : Ptr) : (h.free q).plineAt p = if q = p then none else h.plineAt p := by
  unfold Heap.plineAt Heap.free
  dsimp only
  by_cases hl : p = q
  · subst hl; simp
  · rw [if_neg hl, if_neg (Ne.symm hl)]

/-- **C48** Every call (by a caller that frees no polyline owned by a list) keeps ownership sound, and
changes the existing lists only as documented: `pop` removes the last entry, `take` the chosen one,
freeing a list ends that list; all other lists stay the same. -/
theorem C48_step (env : Env T) (h : Heap T) (hk : h.Ok) (ho : h.Owned) (c : Call T) (hd : c.Dutiful h)
    (h' : Heap T) (code : Int) (o : Option (Out T)) (he : exec env h c = some (h', code, o)) :
    h'.Owned ∧ ∀ l, l < h.next → h'.listAt l = c.effectOnList l (h.listAt l) := by
  cases exec_trans env h hk ho c h' code o he with
  | grow hc e =>
    refine ⟨e.owned hk ho, fun l hl => ?_⟩
    rw [listAt_cells ((e.extends hk).2.2 l hl)]
    rcases hc with hc | hc
    · rw [effectOnList_of hc]
    · rw [hc]
  | @set q pl pl' hc hq =>
    have key := set_pline_lists h pl' hq
    refine ⟨⟨?_, ?_, ?_⟩, ?_⟩
    · intro l ps p hl hp
      rw [key] at hl
      obtain ⟨x, hx⟩ := ho.live l ps p hl hp
      rw [set_plineAt]
      split_ifs
      · exact ⟨_, rfl⟩
      · exact ⟨x, hx⟩
    · intro l ps hl; rw [key] at hl; exact ho.nodup l ps hl
    · intro l₁ l₂ ps₁ ps₂ p h1 h2; rw [key] at h1 h2; exact ho.disjoint l₁ l₂ ps₁ ps₂ p h1 h2
    · intro l _; rw [key, effectOnList_of hc]
  | @list l0 ps0 qs hl0 hs hc =>
    have key := set_list_lists h l0 qs
    have sub : ∀ l ps, (h.set l0 (.plinelist qs)).listAt l = some ps → ∃ rs, h.listAt l = some rs ∧ ps.Sublist rs := by
      intro l ps hl
      rw [key] at hl
      split_ifs at hl with hll
      · cases hl; exact ⟨ps0, by rw [← hll]; exact listAt_iff.mpr hl0, hs⟩
      · exact ⟨ps, hl, List.Sublist.refl ps⟩
    refine ⟨⟨?_, ?_, ?_⟩, ?_⟩
    · intro l ps p hl hp
      obtain ⟨rs, h1, h2⟩ := sub l ps hl
      rw [set_list_plines h qs hl0]
      exact ho.live l rs p h1 (h2.subset hp)
    · intro l ps hl
      obtain ⟨rs, h1, h2⟩ := sub l ps hl
      exact h2.nodup (ho.nodup l rs h1)
    · intro l₁ l₂ ps₁ ps₂ p h1 h2 m1 m2
      obtain ⟨r1, e1, s1⟩ := sub _ _ h1
      obtain ⟨r2, e2, s2⟩ := sub _ _ h2
      exact ho.disjoint l₁ l₂ r1 r2 p e1 e2 (s1.subset m1) (s2.subset m2)
    · intro l _; rw [key, hc]
  | @freed q hc =>
    have key := free_lists h q
    have old : ∀ l ps, (h.free q).listAt l = some ps → h.listAt l = some ps := by
      intro l ps hl
      rw [key] at hl
      split_ifs at hl
      exact hl
    refine ⟨⟨?_, ?_, ?_⟩, ?_⟩
    · intro l ps p hl hp
      obtain ⟨x, hx⟩ := ho.live l ps p (old l ps hl) hp
      rw [free_plines]
      split_ifs with hqp
      · subst hqp
        rcases hc with ⟨hc, _⟩ | ⟨_, qs, hq⟩ | ⟨_, bs, hq⟩
        · exact absurd ⟨l, ps, old l ps hl, hp⟩ (hd q hc)
        · unfold Heap.plineAt at hx; rw [hq] at hx; cases hx
        · unfold Heap.plineAt at hx; rw [hq] at hx; cases hx
      · exact ⟨x, hx⟩
    · intro l ps hl; exact ho.nodup l ps (old l ps hl)
    · intro l₁ l₂ ps₁ ps₂ p h1 h2; exact ho.disjoint l₁ l₂ ps₁ ps₂ p (old _ _ h1) (old _ _ h2)
    · intro l _
      rw [key]
      rcases hc with ⟨hc, pl, hq⟩ | ⟨hc, qs, hq⟩ | ⟨hc, bs, hq⟩
      · rw [hc]
        change _ = h.listAt l
        split_ifs with hql
        · subst hql; unfold Heap.listAt; rw [hq]
        · rfl
      · rw [hc]; rfl
      · rw [hc]
        change _ = h.listAt l
        split_ifs with hql
        · subst hql; unfold Heap.listAt; rw [hq]
        · rfl

/-- Along a history the caller never frees a polyline that a list owns at that moment. -/
def DutifulRun (env : Env T) : Heap T → List (Call T) → Prop
  | _, [] => True
  | h, c :: cs => c.Dutiful h ∧ ∀ r, exec env h c = some r → DutifulRun env r.1 cs

/-- **C48** Histories: ownership stays sound, and every list has exactly the entries left by the pops
and takes made on it, in the original order. -/
theorem C48_history (env : Env T) (cs : List (Call T)) : ∀ (h h' : Heap T), h.Ok → h.Owned → DutifulRun env h cs →
    execAll env h cs = some h' →
    h'.Owned ∧ ∀ l, l < h.next → h'.listAt l = cs.foldl (fun x c => c.effectOnList l x) (h.listAt l) := by
  induction cs with
  | nil =>
    intro h h' hk ho hd he
    cases he
    exact ⟨ho, fun _ _ => rfl⟩
  | cons c cs ih =>
    intro h h' hk ho hd he
    unfold execAll at he
    cases hx : exec env h c with
    | none => rw [hx] at he; cases he
    | some r =>
      obtain ⟨g, code, o⟩ := r
      rw [hx] at he
      obtain ⟨k1, n1, _⟩ := C47_step env h hk c g code o hx
      obtain ⟨o1, e1⟩ := C48_step env h hk ho c hd.1 g code o hx
      obtain ⟨o2, e2⟩ := ih g h' k1 o1 (hd.2 _ hx) he
      refine ⟨o2, fun l hl => ?_⟩
      rw [e2 l (lt_of_lt_of_le hl n1), e1 l hl]
      rfl

theorem empty_owned : (Heap.empty : Heap T).Owned :=
  ⟨fun l ps p hl => (by cases hl), fun l ps hl => (by cases hl), fun l₁ l₂ ps₁ ps₂ p hl => (by cases hl)⟩

/-- after an entry is removed from its list, no list owns it -/
theorem not_owned_after {h : Heap T} (ho : h.Owned) {l p : Ptr} {a b : List Ptr} (hl : h.listAt l = some (a ++ p :: b)) :
    ¬ (h.set l (.plinelist (a ++ b))).Owns p := by
  rintro ⟨k, ps, hk, hp⟩
  rw [set_list_lists] at hk
  have hnd := ho.nodup l _ hl
  split_ifs at hk with hkl
  · cases hk
    have := (List.nodup_middle.mp hnd)
    exact (List.nodup_cons.mp this).1 hp
  · exact hkl (ho.disjoint l k _ _ p hl hk (by simp) hp)

/-- **C48** `pop` hands over the last polyline: the call succeeds and returns it, the list keeps the
others in order, every other list and all polylines are unchanged, the polyline is live and no list
owns it any more. -/
theorem C48_pop (env : Env T) (h : Heap T) (hk : h.Ok) (ho : h.Owned) (l p : Ptr) (init : List Ptr)
    (hl : h.listAt l = some (init ++ [p])) :
    ∃ h', exec env h (.listPop l) = some (h', 0, some (.ptr p)) ∧ h'.listAt l = some init ∧
      (∀ k, k ≠ l → h'.listAt k = h.listAt k) ∧ (∀ q, h'.plineAt q = h.plineAt q) ∧
      (∃ x, h'.plineAt p = some x) ∧ ¬ h'.Owns p := by
  have hc := listAt_iff.mp hl
  have hne : l ≠ 0 := by rintro rfl; rw [listAt_zero hk] at hl; cases hl
  refine ⟨h.set l (.plinelist init), ?_, ?_, ?_, set_list_plines h init hc, ?_, ?_⟩
  · simp only [exec, plinelistPop, withList, if_neg hne, hc, List.getLast?_append, List.getLast?_singleton, Option.some_or,
      List.dropLast_concat]
    rfl
  · rw [set_list_lists, if_pos rfl]
  · intro k hkl; rw [set_list_lists, if_neg (Ne.symm hkl)]
  · rw [set_list_plines h init hc]
    exact ho.live l _ p hl (by simp)
  · have := not_owned_after ho (a := init) (b := []) hl
    rwa [List.append_nil] at this

/-- **C48** `take` hands over the polyline at the position: likewise, and the others keep their order. -/
theorem C48_take (env : Env T) (h : Heap T) (hk : h.Ok) (ho : h.Owned) (l p : Ptr) (a b : List Ptr)
    (hl : h.listAt l = some (a ++ p :: b)) :
    ∃ h', exec env h (.listTake l a.length) = some (h', 0, some (.ptr p)) ∧ h'.listAt l = some (a ++ b) ∧
      (∀ k, k ≠ l → h'.listAt k = h.listAt k) ∧ (∀ q, h'.plineAt q = h.plineAt q) ∧
      (∃ x, h'.plineAt p = some x) ∧ ¬ h'.Owns p := by
  have hc := listAt_iff.mp hl
  have hne : l ≠ 0 := by rintro rfl; rw [listAt_zero hk] at hl; cases hl
  refine ⟨h.set l (.plinelist (a ++ b)), ?_, ?_, ?_, set_list_plines h _ hc, ?_, not_owned_after ho hl⟩
  · have hlen : ¬ a.length ≥ (a ++ p :: b).length := by simp
    have hget : (a ++ p :: b)[a.length]? = some p := by simp
    have her : (a ++ p :: b).eraseIdx a.length = a ++ b := by
      rw [List.eraseIdx_append_of_length_le le_rfl, Nat.sub_self, List.eraseIdx_cons_zero]
    simp only [exec, plinelistTake, withList, if_neg hne, hc, if_neg hlen, hget, her]
    rfl
  · rw [set_list_lists, if_pos rfl]
  · intro k hkl; rw [set_list_lists, if_neg (Ne.symm hkl)]
  · rw [set_list_plines h _ hc]
    exact ho.live l _ p hl (by simp)

/-- **C48** A polyline handed over can be freed, once: freeing it is allowed and keeps ownership
sound; freeing it again is undefined behaviour. -/
theorem C48_free_once (env : Env T) (h : Heap T) (hk : h.Ok) (ho : h.Owned) (p : Ptr) (x : Content T)
    (hp : h.plineAt p = some x) (hno : ¬ h.Owns p) :
    ∃ h', exec env h (.free p) = some (h', 0, none) ∧ h'.Owned ∧ h'.plineAt p = none ∧ exec env h' (.free p) = none := by
  obtain ⟨vs, cl⟩ := x
  have hc := pline_cell hp
  have hne := pline_ne hk hp
  have he : exec env h (.free p) = some (h.free p, 0, none) := by
    simp only [exec, plineF, if_neg hne, hc]; rfl
  refine ⟨h.free p, he, (C48_step env h hk ho _ (fun q hq => by cases hq; exact hno) _ _ _ he).1, ?_, ?_⟩
  · rw [free_plines, if_pos rfl]
  · simp only [exec, plineF, if_neg hne, Heap.free, if_true]; rfl

/-- **C48** The result of an offset is a new list that owns new polylines, one for each result, in order. -/
theorem C48_offset_results (env : Env T) (h : Heap T) (hk : h.Ok) (ho : h.Owned) (p : Ptr) (d : T) (opts : OffsetOptions T)
    (h' : Heap T) (l : Ptr) (he : exec env h (.parallelOffset p d opts) = some (h', 0, some (.ptr l))) :
    ∃ (pl : Pline T) (rs : List (Pline T)) (qs : List Ptr), h.cells p = some (.pline pl) ∧ parallelOffset env pl d opts = .ok rs ∧
      h.cells l = none ∧ h'.listAt l = some qs ∧ qs.length = rs.length ∧ (∀ q ∈ qs, h.cells q = none) ∧
      ∀ (i : Nat) (r : Pline T), rs[i]? = some r → ∃ q, qs[i]? = some q ∧ h'.plineAt q = some (r.verts, r.closed) := by
  simp only [exec, plineParallelOffset, withPline] at he
  split_ifs at he with hp
  · simp [FfiRes.out] at he
  · split at he
    · rename_i pl hc
      unfold catchUnwind at he
      split at he
      · simp [FfiRes.out] at he
      · rename_i rs hrs
        obtain ⟨g, qs, e1, e2, e3, e4⟩ := fromInternal_grow hk (.refl h) ho rs
        simp only [FfiRes.out, Option.map_some, Option.some.injEq, Prod.mk.injEq, Out.ptr.injEq] at he
        obtain ⟨rfl, -, rfl⟩ := he
        refine ⟨pl, rs, qs, hc, hrs, ?_, e1, e2, fun q hq => hk.2.2 q (e3 q hq), e4⟩
        by_contra hne
        have hlt : (listFromInternal h rs).1 < h.next := by
          by_contra hge
          exact hne (hk.2.2 _ (Nat.le_of_not_lt hge))
        have := listAt_cells ((g.extends hk).2.2 _ hlt)
        unfold listFromInternal at hlt
        simp only [Heap.alloc] at hlt
        have hmon := (fromInternal_foldl (h := h) rs ([], h) hk).2.1
        exact absurd (lt_of_lt_of_le hlt hmon) (lt_irrefl _)
    · simp [FfiRes.out] at he

/-- **C48** (part of the last clause) Freeing a list ends that list and nothing else: all polylines and
all other lists are unchanged, and ownership stays sound.  Missing: that the polylines the list still
owns are released as documented; `C48_leak_witness` shows that they are not. -/
theorem C48_list_free_partial (env : Env T) (h : Heap T) (hk : h.Ok) (ho : h.Owned) (l : Ptr) (ps : List Ptr)
    (hl : h.listAt l = some ps) :
    ∃ h', exec env h (.listFree l) = some (h', 0, none) ∧ h'.Owned ∧ h'.listAt l = none ∧
      (∀ k, k ≠ l → h'.listAt k = h.listAt k) ∧ (∀ q, h'.plineAt q = h.plineAt q) ∧ exec env h' (.listFree l) = none := by
  have hc := listAt_iff.mp hl
  have hne : l ≠ 0 := by rintro rfl; rw [listAt_zero hk] at hl; cases hl
  have he : exec env h (.listFree l) = some (h.free l, 0, none) := by
    simp only [exec, plinelistF, if_neg hne, hc]; rfl
  refine ⟨h.free l, he, (C48_step env h hk ho _ (fun q hq => by cases hq) _ _ _ he).1, ?_, ?_, ?_, ?_⟩
  · rw [free_lists, if_pos rfl]
  · intro k hkl; rw [free_lists, if_neg (Ne.symm hkl)]
  · intro q
    rw [free_plines]
    split_ifs with hlq
    · subst hlq; unfold Heap.plineAt; rw [hc]
    · rfl
  · simp only [exec, plinelistF, if_neg hne, Heap.free, if_true]; rfl

/-- **C48** (disagreement) `cavc_plinelist_f` is documented to free "all `cavc_pline` owned by it".
It does not: every polyline of the freed list stays allocated, and no list owns it any more, so a
caller that follows the documentation never gets it freed. -/
theorem C48_leak_witness (env : Env T) (h : Heap T) (hk : h.Ok) (ho : h.Owned) (l p : Ptr) (ps : List Ptr)
    (hl : h.listAt l = some ps) (hp : p ∈ ps) :
    ∃ h' x, exec env h (.listFree l) = some (h', 0, none) ∧ h'.plineAt p = some x ∧ ¬ h'.Owns p := by
  obtain ⟨h', e, _, e2, e3, e4, _⟩ := C48_list_free_partial env h hk ho l ps hl
  obtain ⟨x, hx⟩ := ho.live l ps p hl hp
  refine ⟨h', x, e, by rw [e4, hx], ?_⟩
  rintro ⟨k, qs, hkq, hpq⟩
  by_cases hkl : k = l
  · rw [hkl, e2] at hkq; cases hkq
  · rw [e3 k hkl] at hkq
    exact hkl (ho.disjoint k l qs ps p hkq hl hpq hp)

/-- a heap with one list (address 3) that owns two polylines (1 and 2) -/
def listHeap : Heap Rat := (listFromInternal Heap.empty [⟨[⟨1, 2, 0⟩], false⟩, ⟨[⟨3, 4, 1⟩], true⟩]).2

/-- The hypotheses are met. -/
example (env : Env Rat) : listHeap.Ok ∧ listHeap.Owned ∧ listHeap.listAt 3 = some [1, 2] ∧
    ∃ h', execAll env listHeap [.listTake 3 0, .free 1, .listPop 3] = some h' ∧ h'.listAt 3 = some [] ∧
      h'.plineAt 1 = none ∧ h'.plineAt 2 = some ([⟨3, 4, 1⟩], true) := by
  have g := fromInternal_grow (h := (Heap.empty : Heap Rat)) Heap.empty_ok (.refl _) empty_owned
    [⟨[⟨1, 2, 0⟩], false⟩, ⟨[⟨3, 4, 1⟩], true⟩]
  exact ⟨(g.1.extends Heap.empty_ok).1, g.1.owned Heap.empty_ok empty_owned, rfl, _, rfl, rfl, rfl, rfl⟩

end Cavc
