import Verif.Props.Ffi

/-! # C47: what is written through the C interface is read back -/

set_option linter.unusedSectionVars false

namespace Cavc
variable {T : Type} [Scalar T]
open Pline

/-! ## Heaps -/

theorem Heap.empty_ok : (Heap.empty : Heap T).Ok := ⟨Nat.one_pos, rfl, fun _ _ => rfl⟩

/-- `g` has everything of `h` unchanged below its mark -/
def Extends (h g : Heap T) : Prop := g.Ok ∧ h.next ≤ g.next ∧ ∀ p, p < h.next → g.cells p = h.cells p

theorem Extends.refl {h : Heap T} (hk : h.Ok) : Extends h h := ⟨hk, le_rfl, fun _ _ => rfl⟩

theorem Extends.trans {a b c : Heap T} (h1 : Extends a b) (h2 : Extends b c) : Extends a c :=
  ⟨h2.1, h1.2.1.trans h2.2.1, fun p hp => (h2.2.2 p (lt_of_lt_of_le hp h1.2.1)).trans (h1.2.2 p hp)⟩

theorem alloc_extends {h : Heap T} (hk : h.Ok) (o : Obj T) : Extends h (h.alloc o).2 := by
  obtain ⟨h0, h1, h2⟩ := hk
  refine ⟨⟨?_, ?_, ?_⟩, ?_, ?_⟩
  · simp [Heap.alloc]
  · simp [Heap.alloc, h0.ne, h1]
  · intro p hp
    simp only [Heap.alloc] at hp ⊢
    rw [if_neg (Nat.ne_of_gt hp), h2 p (Nat.le_of_succ_le hp)]
  · simp [Heap.alloc]
  · intro p hp
    simp only [Heap.alloc]
    rw [if_neg (Nat.ne_of_lt hp)]

theorem alloc_cell (h : Heap T) (o : Obj T) : (h.alloc o).2.cells h.next = some o := by simp [Heap.alloc]

theorem fromInternal_foldl {h : Heap T} (ps : List (Pline T)) : ∀ (acc : List Ptr × Heap T), acc.2.Ok →
    Extends acc.2 (ps.foldl (fun (acc : List Ptr × Heap T) p =>
      ((acc.1 ++ [(acc.2.alloc (.pline p)).1], (acc.2.alloc (.pline p)).2) : List Ptr × Heap T)) acc).2 := by
  induction ps with
  | nil => intro acc hk; exact Extends.refl hk
  | cons p ps ih =>
    intro acc hk
    rw [List.foldl_cons]
    have e := alloc_extends hk (.pline p)
    exact e.trans (ih (acc.1 ++ [(acc.2.alloc (.pline p)).1], (acc.2.alloc (.pline p)).2) e.1)

theorem fromInternal_extends {h : Heap T} (hk : h.Ok) (ps : List (Pline T)) : Extends h (listFromInternal h ps).2 := by
  unfold listFromInternal
  have e := fromInternal_foldl (h := h) ps ([], h) hk
  exact e.trans (alloc_extends e.1 _)

theorem plineAt_cells {h g : Heap T} {p : Ptr} (hc : g.cells p = h.cells p) : g.plineAt p = h.plineAt p := by
  unfold Heap.plineAt; rw [hc]

theorem set_ok {h : Heap T} (hk : h.Ok) {q : Ptr} {o o' : Obj T} (hq : h.cells q = some o') : (h.set q o).Ok := by
  obtain ⟨h0, h1, h2⟩ := hk
  have hne : q ≠ 0 := by rintro rfl; rw [h1] at hq; cases hq
  have hlt : q < h.next := by
    by_contra hge
    rw [h2 q (Nat.le_of_not_lt hge)] at hq; cases hq
  refine ⟨h0, ?_, ?_⟩
  · simp only [Heap.set]; rw [if_neg (Ne.symm hne)]; exact h1
  · intro p hp
    have hp' : h.next ≤ p := hp
    simp only [Heap.set]; rw [if_neg (Nat.ne_of_gt (Nat.lt_of_lt_of_le hlt hp'))]; exact h2 p hp'

theorem free_ok {h : Heap T} (hk : h.Ok) (q : Ptr) : (h.free q).Ok := by
  obtain ⟨h0, h1, h2⟩ := hk
  refine ⟨h0, ?_, ?_⟩
  · simp only [Heap.free]; split_ifs
    · rfl
    · exact h1
  · intro p hp
    simp only [Heap.free]; split_ifs
    · rfl
    · exact h2 p hp

theorem set_plineAt (h : Heap T) (q : Ptr) (pl : Pline T) (p : Ptr) :
    (h.set q (.pline pl)).plineAt p = if q = p then some (pl.verts, pl.closed) else h.plineAt p := by
  unfold Heap.plineAt Heap.set
  dsimp only
  by_cases hqp : p = q
  · subst hqp; simp
  · rw [if_neg hqp, if_neg (Ne.symm hqp)]

/-! ## One call -/

theorem effectOn_eq {c : Call T} (hnf : c.isFree = false) (p : Ptr) (x : Option (Content T)) :
    c.effectOn p x = match c.change with
      | some (q, f) => if q = p then x.map f else x
      | none => x := by
  cases c <;> first | rfl | cases hnf

/-- the new heap is ok and the content of every old address follows the specification -/
def Follows (h : Heap T) (c : Call T) {α : Type} (r : FfiRes T α) : Prop :=
  ∀ h' code o, r = some (h', code, o) → h'.Ok ∧ h.next ≤ h'.next ∧
    ∀ p, p < h.next → h'.plineAt p = c.effectOn p (h.plineAt p)

theorem follows_out {α : Type} {h : Heap T} {c : Call T} {r : FfiRes T α} {f : α → Out T} (hr : Follows h c r) :
    Follows h c (r.out f) := by
  intro h' code o he
  unfold FfiRes.out at he
  cases r with
  | none => simp at he
  | some x =>
    obtain ⟨a, b, d⟩ := x
    simp only [Option.map_some, Option.some.injEq, Prod.mk.injEq] at he
    obtain ⟨rfl, rfl, rfl⟩ := he
    exact hr _ _ _ rfl

theorem follows_none {α : Type} {h : Heap T} {c : Call T} : Follows h c (none : FfiRes T α) := by
  intro h' code o he; cases he

theorem follows_same {α : Type} {h g : Heap T} {c : Call T} {code : Int} {o : Option α} (he : Extends h g)
    (hc : ∀ p, p < h.next → c.effectOn p (h.plineAt p) = h.plineAt p) :
    Follows h c (some (g, code, o) : FfiRes T α) := by
  intro h' code o h1
  cases h1
  exact ⟨he.1, he.2.1, fun p hp => by rw [hc p hp]; exact plineAt_cells (he.2.2 p hp)⟩

theorem follows_set {α : Type} {h : Heap T} (hk : h.Ok) {c : Call T} {code : Int} {o : Option α} {q : Ptr} {pl pl' : Pline T}
    {f : Content T → Content T} (hcell : h.cells q = some (.pline pl)) (hch : c.change = some (q, f)) (hnf : c.isFree = false)
    (hf : f (pl.verts, pl.closed) = (pl'.verts, pl'.closed)) :
    Follows h c (some (h.set q (.pline pl'), code, o) : FfiRes T α) := by
  intro h' code o h1
  cases h1
  refine ⟨set_ok hk hcell, le_rfl, fun p hp => ?_⟩
  rw [set_plineAt]
  have : c.effectOn p (h.plineAt p) = if q = p then (h.plineAt p).map f else h.plineAt p := by
    rw [effectOn_eq hnf, hch]
  rw [this]
  split_ifs with hqp
  · subst hqp
    rw [plineAt_of hcell, Option.map_some, hf]
  · rfl

/-- the call changes nothing: either it has no target, or the target's content is a fixed point -/
theorem effect_id {h : Heap T} {c : Call T} (hnf : c.isFree = false)
    (hc : c.change = none ∨ ∃ q f, c.change = some (q, f) ∧ (h.plineAt q).map f = h.plineAt q) (p : Ptr) :
    c.effectOn p (h.plineAt p) = h.plineAt p := by
  rw [effectOn_eq hnf]
  rcases hc with hc | ⟨q, f, hc, hf⟩
  · rw [hc]
  · rw [hc]
    dsimp only
    split_ifs with hqp
    · subst hqp; exact hf
    · rfl

theorem follows_withPline {α : Type} {h : Heap T} (hk : h.Ok) {c : Call T} {p : Ptr} {f : Pline T → FfiRes T α}
    (hnf : c.isFree = false) (hc : c.change = none ∨ ∃ g, c.change = some (p, g))
    (hf : ∀ pl, h.cells p = some (.pline pl) → Follows h c (f pl)) :
    Follows h c (withPline h p f) := by
  unfold withPline
  split_ifs with hp
  · refine follows_same (Extends.refl hk) (fun q _ => effect_id hnf ?_ q)
    rcases hc with hc | ⟨g, hc⟩
    · exact Or.inl hc
    · refine Or.inr ⟨p, g, hc, ?_⟩
      have : h.plineAt p = none := by unfold Heap.plineAt; rw [hp, hk.2.1]
      rw [this]; rfl
  · split
    · exact hf _ (by assumption)
    · exact follows_none

theorem follows_withList {α : Type} {h : Heap T} (hk : h.Ok) {c : Call T} {p : Ptr} {f : List Ptr → FfiRes T α}
    (hnf : c.isFree = false) (hc : c.change = none)
    (hf : ∀ ps, h.cells p = some (.plinelist ps) → Follows h c (f ps)) :
    Follows h c (withList h p f) := by
  unfold withList
  split_ifs with hp
  · exact follows_same (Extends.refl hk) (fun q _ => effect_id hnf (Or.inl hc) q)
  · split
    · exact hf _ (by assumption)
    · exact follows_none

theorem follows_setList {α : Type} {h : Heap T} (hk : h.Ok) {c : Call T} {code : Int} {o : Option α} {l : Ptr} {ps qs : List Ptr}
    (hnf : c.isFree = false) (hc : c.change = none) (hcell : h.cells l = some (.plinelist ps)) :
    Follows h c (some (h.set l (.plinelist qs), code, o) : FfiRes T α) := by
  intro h' code o h1
  cases h1
  refine ⟨set_ok hk hcell, le_rfl, fun p hp => ?_⟩
  rw [effect_id hnf (Or.inl hc)]
  unfold Heap.plineAt Heap.set
  dsimp only
  by_cases hpl : p = l
  · subst hpl; simp [hcell]
  · rw [if_neg hpl]

theorem follows_free {h : Heap T} (hk : h.Ok) {c : Call T} {r : Option (Heap T)} {q : Ptr}
    (hr : r = some h ∧ q = 0 ∨ r = some (h.free q) ∨ r = none)
    (hc : ∀ p, c.effectOn p (h.plineAt p) = if q = p then none else h.plineAt p) :
    Follows h c (FfiRes.void r) := by
  intro h' code o he
  unfold FfiRes.void at he
  rcases hr with ⟨hr, hq⟩ | hr | hr
  · rw [hr] at he; cases he
    refine ⟨hk, le_rfl, fun p hp => ?_⟩
    rw [hc]
    split_ifs with hqp
    · unfold Heap.plineAt; rw [← hqp, hq, hk.2.1]
    · rfl
  · rw [hr] at he; cases he
    refine ⟨free_ok hk q, le_rfl, fun p hp => ?_⟩
    rw [hc]
    unfold Heap.plineAt Heap.free
    dsimp only
    by_cases hqp : p = q
    · subst hqp; simp
    · rw [if_neg hqp, if_neg (Ne.symm hqp)]
  · rw [hr] at he; cases he

theorem follows_id {α : Type} {h : Heap T} (hk : h.Ok) {c : Call T} {code : Int} {o : Option α} (hnf : c.isFree = false)
    (hc : c.change = none ∨ ∃ q f, c.change = some (q, f) ∧ (h.plineAt q).map f = h.plineAt q) :
    Follows h c (some (h, code, o) : FfiRes T α) :=
  follows_same (Extends.refl hk) fun p _ => effect_id hnf hc p

theorem follows_alloc {α : Type} {h g : Heap T} {c : Call T} {code : Int} {o : Option α} (he : Extends h g)
    (hnf : c.isFree = false) (hc : c.change = none) : Follows h c (some (g, code, o) : FfiRes T α) :=
  follows_same he fun p _ => effect_id hnf (Or.inl hc) p

/-- **C47** The meaning of every call: whatever the outcome of a call, every polyline that existed
before has afterwards the content prescribed by `Call.effectOn`, in particular the same content if
the call is not a modification of that very polyline. -/
theorem C47_step (env : Env T) (h : Heap T) (hk : h.Ok) (c : Call T) (h' : Heap T) (code : Int) (o : Option (Out T))
    (he : exec env h c = some (h', code, o)) :
    h'.Ok ∧ h.next ≤ h'.next ∧ ∀ p, p < h.next → h'.plineAt p = c.effectOn p (h.plineAt p) := by
  have key : Follows h c (exec env h c) := by
    cases c with
    | create vs n cl =>
      refine follows_out ?_
      unfold plineCreate
      dsimp only
      split_ifs
      · split
        · exact follows_none
        · exact follows_alloc (alloc_extends hk _) rfl rfl
      · exact follows_alloc (alloc_extends hk _) rfl rfl
    | free p =>
      refine follows_free hk (q := p) ?_ (fun q => rfl)
      unfold plineF
      split_ifs with hp
      · exact Or.inl ⟨rfl, hp⟩
      · split
        · exact Or.inr (Or.inl rfl)
        · exact Or.inr (Or.inr rfl)
    | reserve p n => exact follows_out (follows_withPline hk rfl (Or.inl rfl) fun pl hc => follows_id hk rfl (Or.inl rfl))
    | clone p => exact follows_out (follows_withPline hk rfl (Or.inl rfl) fun pl hc => follows_alloc (alloc_extends hk _) rfl rfl)
    | getIsClosed p => exact follows_out (follows_withPline hk rfl (Or.inl rfl) fun pl hc => follows_id hk rfl (Or.inl rfl))
    | setIsClosed p cl => exact follows_out (follows_withPline hk rfl (Or.inr ⟨_, rfl⟩) fun pl hc => follows_set hk hc rfl rfl rfl)
    | getVertexCount p =>
      refine follows_out (follows_withPline hk rfl (Or.inl rfl) fun pl hc => ?_)
      unfold catchUnwind
      split <;> exact follows_id hk rfl (Or.inl rfl)
    | getVertexData p cap =>
      refine follows_out (follows_withPline hk rfl (Or.inl rfl) fun pl hc => ?_)
      split_ifs
      · exact follows_id hk rfl (Or.inl rfl)
      · exact follows_none
    | setVertexData p d n =>
      refine follows_out (follows_withPline hk rfl (Or.inr ⟨_, rfl⟩) fun pl hc => ?_)
      cases d with
      | none => exact follows_none
      | some l =>
        unfold rawParts
        dsimp only
        split_ifs
        · exact follows_set hk hc rfl rfl (by simp [clear, extendVertexes])
        · exact follows_none
    | clear p => exact follows_out (follows_withPline hk rfl (Or.inr ⟨_, rfl⟩) fun pl hc => follows_set hk hc rfl rfl rfl)
    | add p a b d => exact follows_out (follows_withPline hk rfl (Or.inr ⟨_, rfl⟩) fun pl hc => follows_set hk hc rfl rfl rfl)
    | getVertex p i =>
      refine follows_out (follows_withPline hk rfl (Or.inl rfl) fun pl hc => ?_)
      split_ifs
      · exact follows_id hk rfl (Or.inl rfl)
      · unfold catchUnwind
        split <;> exact follows_id hk rfl (Or.inl rfl)
    | setVertex p i v =>
      refine follows_out (follows_withPline hk rfl (Or.inr ⟨_, rfl⟩) fun pl hc => ?_)
      split_ifs with hi
      · refine follows_id hk rfl (Or.inr ⟨p, _, rfl, ?_⟩)
        rw [plineAt_of hc, Option.map_some]
        have : ¬ i < pl.verts.length % 2 ^ 32 := Nat.not_lt.mpr hi
        dsimp only
        rw [if_neg this]
      · have hi' : i < pl.verts.length % 2 ^ 32 := Nat.not_le.mp hi
        have hlt : i < pl.verts.length := lt_of_lt_of_le hi' (Nat.mod_le _ _)
        rw [setVertex_lt hlt]
        refine follows_set hk hc rfl rfl ?_
        dsimp only
        rw [if_pos hi']
    | remove p i =>
      refine follows_out (follows_withPline hk rfl (Or.inr ⟨_, rfl⟩) fun pl hc => ?_)
      split_ifs with hi
      · refine follows_id hk rfl (Or.inr ⟨p, _, rfl, ?_⟩)
        have hi' : pl.verts.length ≤ i := hi
        rw [plineAt_of hc, Option.map_some]
        dsimp only
        rw [List.eraseIdx_of_length_le hi']
      · have hi' : i < pl.verts.length := Nat.not_le.mp hi
        unfold Pline.remove
        rw [List.getElem?_eq_getElem hi']
        exact follows_set hk hc rfl rfl rfl
    | evalPathLength p => exact follows_out (follows_withPline hk rfl (Or.inl rfl) fun pl hc => follows_id hk rfl (Or.inl rfl))
    | evalArea p => exact follows_out (follows_withPline hk rfl (Or.inl rfl) fun pl hc => follows_id hk rfl (Or.inl rfl))
    | evalWn p x y => exact follows_out (follows_withPline hk rfl (Or.inl rfl) fun pl hc => follows_id hk rfl (Or.inl rfl))
    | invertDirection p =>
      refine follows_out (follows_withPline hk rfl (Or.inr ⟨_, rfl⟩) fun pl hc => ?_)
      unfold catchUnwind
      split
      · rename_i e he
        refine follows_id hk rfl (Or.inr ⟨p, _, rfl, ?_⟩)
        rw [plineAt_of hc, Option.map_some]
        simp only [he, Except.map, Content.after]
      · rename_i q he
        refine follows_set hk hc rfl rfl ?_
        simp only [he, Except.map, Content.after]
    | scale p s =>
      refine follows_out (follows_withPline hk rfl (Or.inr ⟨_, rfl⟩) fun pl hc => ?_)
      rw [C06_scale_vertexes]
      exact follows_set hk hc rfl rfl rfl
    | translate p x y =>
      refine follows_out (follows_withPline hk rfl (Or.inr ⟨_, rfl⟩) fun pl hc => ?_)
      rw [C06_translate_vertexes]
      exact follows_set hk hc rfl rfl rfl
    | removeRepeatPos p eps =>
      refine follows_out (follows_withPline hk rfl (Or.inr ⟨_, rfl⟩) fun pl hc => ?_)
      unfold catchUnwind
      split
      · rename_i e he
        refine follows_id hk rfl (Or.inr ⟨p, _, rfl, ?_⟩)
        rw [plineAt_of hc, Option.map_some]
        simp only [he, Content.after]
      · rename_i r he
        cases r with
        | none =>
          refine follows_id hk rfl (Or.inr ⟨p, _, rfl, ?_⟩)
          rw [plineAt_of hc, Option.map_some]
          simp only [he, Content.after]
        | some q =>
          refine follows_set hk hc rfl rfl ?_
          simp only [he, Content.after]
    | removeRedundant p eps =>
      refine follows_out (follows_withPline hk rfl (Or.inr ⟨_, rfl⟩) fun pl hc => ?_)
      unfold catchUnwind
      split
      · rename_i e he
        refine follows_id hk rfl (Or.inr ⟨p, _, rfl, ?_⟩)
        rw [plineAt_of hc, Option.map_some]
        simp only [he, Content.after]
      · rename_i r he
        cases r with
        | none =>
          refine follows_id hk rfl (Or.inr ⟨p, _, rfl, ?_⟩)
          rw [plineAt_of hc, Option.map_some]
          simp only [he, Content.after]
        | some q =>
          refine follows_set hk hc rfl rfl ?_
          simp only [he, Content.after]
    | evalExtents p =>
      refine follows_out (follows_withPline hk rfl (Or.inl rfl) fun pl hc => ?_)
      unfold catchUnwind
      split
      · exact follows_id hk rfl (Or.inl rfl)
      · dsimp only
        split <;> exact follows_id hk rfl (Or.inl rfl)
    | parallelOffset p d opts =>
      refine follows_out (follows_withPline hk rfl (Or.inl rfl) fun pl hc => ?_)
      unfold catchUnwind
      split
      · exact follows_id hk rfl (Or.inl rfl)
      · exact follows_alloc (fromInternal_extends hk _) rfl rfl
    | boolean p q op idx eps =>
      refine follows_out ?_
      unfold plineBoolean
      split_ifs
      · exact follows_id hk rfl (Or.inl rfl)
      · split
        · exact follows_id hk rfl (Or.inl rfl)
        · refine follows_withPline hk rfl (Or.inl rfl) fun a _ => follows_withPline hk rfl (Or.inl rfl) fun b _ => ?_
          unfold catchUnwind
          split
          · exact follows_id hk rfl (Or.inl rfl)
          · have e1 := fromInternal_extends hk
            exact follows_alloc ((e1 _).trans (fromInternal_extends (e1 _).1 _)) rfl rfl
    | createApproxAabbIndex p =>
      exact follows_out (follows_withPline hk rfl (Or.inl rfl) fun pl hc => follows_alloc (alloc_extends hk _) rfl rfl)
    | createAabbIndex p =>
      exact follows_out (follows_withPline hk rfl (Or.inl rfl) fun pl hc => follows_alloc (alloc_extends hk _) rfl rfl)
    | aabbIndexFree i =>
      simp only [exec]
      unfold aabbIndexF
      split_ifs with hi
      · exact follows_same (Extends.refl hk) fun _ _ => rfl
      · split
        · rename_i bs hc
          refine follows_free hk (q := i) (Or.inr (Or.inl rfl)) fun q => ?_
          change h.plineAt q = _
          split_ifs with hq
          · subst hq; unfold Heap.plineAt; rw [hc]
          · rfl
        · exact follows_none
    | aabbIndexGetExtents i =>
      refine follows_out ?_
      unfold aabbIndexGetExtents
      split_ifs
      · exact follows_id hk rfl (Or.inl rfl)
      · split
        · exact follows_id hk rfl (Or.inl rfl)
        · exact follows_none
    | listFree l =>
      simp only [exec]
      unfold plinelistF
      split_ifs with hi
      · exact follows_same (Extends.refl hk) fun _ _ => rfl
      · split
        · rename_i bs hc
          refine follows_free hk (q := l) (Or.inr (Or.inl rfl)) fun q => ?_
          change h.plineAt q = _
          split_ifs with hq
          · subst hq; unfold Heap.plineAt; rw [hc]
          · rfl
        · exact follows_none
    | listGetCount l =>
      refine follows_out (follows_withList hk rfl rfl fun ps hc => ?_)
      unfold catchUnwind
      split <;> exact follows_id hk rfl (Or.inl rfl)
    | listGetPline l i =>
      refine follows_out (follows_withList hk rfl rfl fun ps hc => ?_)
      split <;> exact follows_id hk rfl (Or.inl rfl)
    | listPop l =>
      refine follows_out (follows_withList hk rfl rfl fun ps hc => ?_)
      split
      · exact follows_setList hk rfl rfl hc
      · exact follows_id hk rfl (Or.inl rfl)
    | listTake l i =>
      refine follows_out (follows_withList hk rfl rfl fun ps hc => ?_)
      split_ifs
      · exact follows_id hk rfl (Or.inl rfl)
      · split
        · exact follows_setList hk rfl rfl hc
        · exact follows_id hk rfl (Or.inl rfl)
  exact key h' code o he

/-! ## Histories -/

theorem pline_lt {h : Heap T} (hk : h.Ok) {p : Ptr} {x : Content T} (hp : h.plineAt p = some x) : p < h.next := by
  by_contra hge
  unfold Heap.plineAt at hp
  rw [hk.2.2 p (Nat.le_of_not_lt hge)] at hp
  cases hp

theorem pline_ne {h : Heap T} (hk : h.Ok) {p : Ptr} {x : Content T} (hp : h.plineAt p = some x) : p ≠ 0 := by
  rintro rfl
  unfold Heap.plineAt at hp
  rw [hk.2.1] at hp
  cases hp

theorem pline_cell {h : Heap T} {p : Ptr} {vs : List (Vertex T)} {cl : Bool} (hp : h.plineAt p = some (vs, cl)) :
    h.cells p = some (.pline ⟨vs, cl⟩) := by
  unfold Heap.plineAt at hp
  split at hp
  · rename_i pl hc
    cases hp
    rw [hc]
  · cases hp

/-- **C47** Histories: after any history of calls (whatever they return, on whatever handles) a
polyline has the content that results from applying, in order, the meanings of the calls made on it
to the content it had before. -/
theorem C47_history (env : Env T) (cs : List (Call T)) : ∀ (h h' : Heap T), h.Ok → execAll env h cs = some h' →
    h'.Ok ∧ h.next ≤ h'.next ∧
      ∀ p, p < h.next → h'.plineAt p = cs.foldl (fun x c => c.effectOn p x) (h.plineAt p) := by
  induction cs with
  | nil =>
    intro h h' hk he
    cases he
    exact ⟨hk, le_rfl, fun _ _ => rfl⟩
  | cons c cs ih =>
    intro h h' hk he
    unfold execAll at he
    cases hx : exec env h c with
    | none => rw [hx] at he; cases he
    | some r =>
      obtain ⟨g, code, o⟩ := r
      rw [hx] at he
      obtain ⟨k1, n1, e1⟩ := C47_step env h hk c g code o hx
      obtain ⟨k2, n2, e2⟩ := ih g h' k1 he
      refine ⟨k2, n1.trans n2, fun p hp => ?_⟩
      rw [e2 p (lt_of_lt_of_le hp n1), e1 p hp]
      rfl

/-- The call leaves the polyline behind the handle `p` alone. -/
def Call.Spares (c : Call T) (p : Ptr) : Prop := c ≠ .free p ∧ ∀ f, c.change ≠ some (p, f)

theorem effectOn_spares {c : Call T} {p : Ptr} (hs : c.Spares p) (x : Option (Content T)) : c.effectOn p x = x := by
  by_cases hf : ∃ q, c = .free q
  · obtain ⟨q, rfl⟩ := hf
    have : q ≠ p := by rintro rfl; exact hs.1 rfl
    simp only [Call.effectOn, if_neg this]
  · have e : c.effectOn p x = match c.change with
        | some (q, f) => if q = p then x.map f else x
        | none => x := by
      cases c <;> first | rfl | exact absurd ⟨_, rfl⟩ hf
    rw [e]
    split
    · rename_i q f hc
      rw [if_neg]
      rintro rfl
      exact hs.2 f hc
    · rfl

theorem foldl_spares {p : Ptr} (cs : List (Call T)) (hs : ∀ c ∈ cs, c.Spares p) (x : Option (Content T)) :
    cs.foldl (fun x c => c.effectOn p x) x = x := by
  induction cs with
  | nil => rfl
  | cons c cs ih =>
    rw [List.foldl_cons, effectOn_spares (hs c List.mem_cons_self)]
    exact ih fun d hd => hs d (List.mem_cons_of_mem _ hd)

/-- **C47** Reading back: the four reading calls return exactly the content, in every heap. -/
theorem C47_read (env : Env T) (h : Heap T) (hk : h.Ok) (p : Ptr) (vs : List (Vertex T)) (cl : Bool)
    (hp : h.plineAt p = some (vs, cl)) (h32 : vs.length < 2 ^ 32) :
    exec env h (.getVertexCount p) = some (h, 0, some (.nat vs.length)) ∧
    exec env h (.getIsClosed p) = some (h, 0, some (.nat (if cl then 1 else 0))) ∧
    (∀ cap, vs.length ≤ cap → exec env h (.getVertexData p cap) = some (h, 0, some (.vertexes vs))) ∧
    ∀ (i : Nat) (hi : i < vs.length), exec env h (.getVertex p i) = some (h, 0, some (.vertex vs[i])) := by
  have hne := pline_ne hk hp
  have hc := pline_cell hp
  refine ⟨?_, ?_, ?_, ?_⟩
  · have ht : tryU32 (⟨vs, cl⟩ : Pline T).vertexCount = .ok vs.length := if_pos h32
    simp only [exec, plineGetVertexCount, withPline, if_neg hne, hc, ht, catchUnwind]
    rfl
  · simp only [exec, plineGetIsClosed, withPline, if_neg hne, hc]
    rfl
  · intro cap hcap
    have hcap' : (⟨vs, cl⟩ : Pline T).vertexCount ≤ cap := hcap
    simp only [exec, plineGetVertexData, withPline, if_neg hne, hc, if_pos hcap']
    rfl
  · intro i hi
    have hlt : ¬ i ≥ asU32 (⟨vs, cl⟩ : Pline T).vertexCount := by
      unfold asU32 u32Size vertexCount
      rw [Nat.mod_eq_of_lt h32]
      exact Nat.not_le.mpr hi
    have ha : (⟨vs, cl⟩ : Pline T).at i = .ok vs[i] := at_lt (p := ⟨vs, cl⟩) hi
    simp only [exec, plineGetVertex, withPline, if_neg hne, hc, if_neg hlt, ha, catchUnwind]
    rfl

/-- **C47** `create` makes a new polyline with exactly the given data and flag. -/
theorem C47_create (env : Env T) (h : Heap T) (hk : h.Ok) (data : List (Vertex T)) (n isClosed : Nat) (hn : n ≤ data.length) :
    ∃ h' p, exec env h (.create (some data) n isClosed) = some (h', 0, some (.ptr p)) ∧ h'.Ok ∧
      h.cells p = none ∧ h'.plineAt p = some (data.take n, isClosed != 0) := by
  by_cases h0 : n = 0
  · subst h0
    refine ⟨(h.alloc (.pline ⟨[], isClosed != 0⟩)).2, h.next, ?_, (alloc_extends hk _).1, hk.2.2 _ le_rfl, ?_⟩
    · simp only [exec, plineCreate, Option.isSome_some, Bool.true_and, bne_self_eq_false, Bool.false_eq_true, if_false]
      rfl
    · rw [plineAt_of (alloc_cell h _)]; simp
  · refine ⟨(h.alloc (.pline ⟨data.take n, isClosed != 0⟩)).2, h.next, ?_, (alloc_extends hk _).1, hk.2.2 _ le_rfl, ?_⟩
    · have hb : (n != 0) = true := by simp [h0]
      simp only [exec, plineCreate, Option.isSome_some, Bool.true_and, hb, if_true, rawParts, if_pos hn, extendVertexes, List.nil_append]
      rfl
    · rw [plineAt_of (alloc_cell h _)]

/-- **C47** `clone` makes a new polyline with the content of the original. -/
theorem C47_clone (env : Env T) (h : Heap T) (hk : h.Ok) (q : Ptr) (x : Content T) (hq : h.plineAt q = some x) :
    ∃ h' p, exec env h (.clone q) = some (h', 0, some (.ptr p)) ∧ h'.Ok ∧ h.cells p = none ∧ p ≠ q ∧
      h'.plineAt p = some x ∧ h'.plineAt q = some x := by
  obtain ⟨vs, cl⟩ := x
  have hc := pline_cell hq
  have hne := pline_ne hk hq
  have hlt := pline_lt hk hq
  have e := alloc_extends hk (.pline ⟨vs, cl⟩)
  refine ⟨(h.alloc (.pline ⟨vs, cl⟩)).2, h.next, ?_, e.1, hk.2.2 _ le_rfl, Nat.ne_of_gt hlt, ?_, ?_⟩
  · simp only [exec, plineClone, withPline, if_neg hne, hc]
    rfl
  · rw [plineAt_of (alloc_cell h _)]
  · rw [plineAt_cells (e.2.2 q hlt), hq]

/-- **C47** Independence of clones: after a clone, whatever is done through all other handles
(including changing or freeing the original), the clone keeps the content; and the other way round. -/
theorem C47_clone_independent (env : Env T) (h : Heap T) (hk : h.Ok) (q : Ptr) (x : Content T) (hq : h.plineAt q = some x)
    (h1 : Heap T) (p : Ptr) (hcl : exec env h (.clone q) = some (h1, 0, some (.ptr p)))
    (cs : List (Call T)) (h2 : Heap T) (hrun : execAll env h1 cs = some h2) :
    ((∀ c ∈ cs, c.Spares p) → h2.plineAt p = some x) ∧ ((∀ c ∈ cs, c.Spares q) → h2.plineAt q = some x) := by
  obtain ⟨h', p', e, k, _, _, ep, eq⟩ := C47_clone env h hk q x hq
  rw [e] at hcl
  cases hcl
  obtain ⟨_, _, hh⟩ := C47_history env cs h1 h2 k hrun
  constructor
  · intro hs; rw [hh p (pline_lt k ep), foldl_spares cs hs, ep]
  · intro hs; rw [hh q (pline_lt k eq), foldl_spares cs hs, eq]

/-- **C47** Writes are read back: a polyline created with data and then modified through its handle,
in any history interleaved with calls on other handles, is read back as the result of applying the
modifications to the data. -/
theorem C47_round_trip (env : Env T) (h : Heap T) (hk : h.Ok) (data : List (Vertex T)) (n isClosed : Nat) (hn : n ≤ data.length)
    (h1 : Heap T) (p : Ptr) (hcr : exec env h (.create (some data) n isClosed) = some (h1, 0, some (.ptr p)))
    (cs : List (Call T)) (h2 : Heap T) (hrun : execAll env h1 cs = some h2) (vs : List (Vertex T)) (cl : Bool)
    (hvs : cs.foldl (fun x c => c.effectOn p x) (some (data.take n, isClosed != 0)) = some (vs, cl))
    (h32 : vs.length < 2 ^ 32) :
    exec env h2 (.getVertexCount p) = some (h2, 0, some (.nat vs.length)) ∧
    exec env h2 (.getIsClosed p) = some (h2, 0, some (.nat (if cl then 1 else 0))) ∧
    (∀ cap, vs.length ≤ cap → exec env h2 (.getVertexData p cap) = some (h2, 0, some (.vertexes vs))) ∧
    ∀ (i : Nat) (hi : i < vs.length), exec env h2 (.getVertex p i) = some (h2, 0, some (.vertex vs[i])) := by
  obtain ⟨h', p', e, k, _, ep⟩ := C47_create env h hk data n isClosed hn
  rw [e] at hcr
  cases hcr
  obtain ⟨k2, _, hh⟩ := C47_history env cs h1 h2 k hrun
  have := hh p (pline_lt k ep)
  rw [ep, hvs] at this
  exact C47_read env h2 k2 p vs cl this h32

/-- A concrete history: create, clone, change the original, change the clone, an out of range write. -/
example (env : Env Rat) :
    ∃ h2, execAll env Heap.empty
        [.create (some [⟨1, 2, 0⟩, ⟨3, 4, 1⟩]) 2 1, .clone 1, .add 1 5 6 0, .setVertex 2 0 ⟨7, 7, 0⟩, .setVertex 1 9 ⟨7, 7, 0⟩,
          .remove 1 0, .setIsClosed 1 0] = some h2 ∧
      h2.plineAt 1 = some ([⟨3, 4, 1⟩, ⟨5, 6, 0⟩], false) ∧ h2.plineAt 2 = some ([⟨7, 7, 0⟩, ⟨3, 4, 1⟩], true) :=
  ⟨_, rfl, rfl, rfl⟩

end Cavc
