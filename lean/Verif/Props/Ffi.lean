import Verif.Spec.FfiApi
import Verif.Props.Transform
import Verif.Props.Invert
import Verif.Props.Redundant
import Verif.Props.Repeat
import Verif.Spec.RatScalar

/-! # C46: error codes and output writes of the C interface -/

set_option linter.unusedSectionVars false

namespace Cavc
variable {T : Type} [Scalar T]
open Pline

/-! ## Results that follow the conventions -/

/-- codes, no effect and no output on failure, output exactly on success -/
def Conv {α : Type} (h : Heap T) (hasOut : Bool) (r : FfiRes T α) : Prop :=
  ∀ h' code o, r = some (h', code, o) →
    (code = 0 ∨ code = 1 ∨ code = 2 ∨ code = -1) ∧ (code ≠ 0 → h' = h ∧ o = none) ∧ (code = 0 → o.isSome = hasOut)

theorem conv_out {α : Type} {h : Heap T} {b : Bool} {r : FfiRes T α} {f : α → Out T} (hr : Conv h b r) :
    Conv h b (r.out f) := by
  intro h' code o he
  unfold FfiRes.out at he
  cases r with
  | none => simp at he
  | some x =>
    obtain ⟨a, c, d⟩ := x
    simp only [Option.map_some, Option.some.injEq, Prod.mk.injEq] at he
    obtain ⟨rfl, rfl, rfl⟩ := he
    obtain ⟨h1, h2, h3⟩ := hr _ _ _ rfl
    exact ⟨h1, fun hc => ⟨(h2 hc).1, by rw [(h2 hc).2]; rfl⟩, fun hc => by rw [Option.isSome_map]; exact h3 hc⟩

theorem conv_none {α : Type} {h : Heap T} {b : Bool} : Conv h b (none : FfiRes T α) := by
  intro h' code o he; cases he

theorem conv_err {α : Type} {h : Heap T} {b : Bool} {c : Int} (hc : c = 1 ∨ c = 2 ∨ c = -1) :
    Conv h b (some (h, c, none) : FfiRes T α) := by
  intro h' code o he
  cases he
  refine ⟨?_, fun _ => ⟨rfl, rfl⟩, ?_⟩
  · rcases hc with h | h | h <;> simp [h]
  · intro h0; rcases hc with h | h | h <;> rw [h] at h0 <;> simp at h0

theorem conv_ok {α : Type} {h g : Heap T} {o : Option α} : Conv h o.isSome (some (g, 0, o) : FfiRes T α) := by
  intro h' code o' he
  cases he
  exact ⟨Or.inl rfl, fun hc => absurd rfl hc, fun _ => rfl⟩

theorem conv_withPline {α : Type} {h : Heap T} {b : Bool} {p : Ptr} {f : Pline T → FfiRes T α}
    (hf : ∀ pl, Conv h b (f pl)) : Conv h b (withPline h p f) := by
  unfold withPline
  split_ifs
  · exact conv_err (Or.inl rfl)
  · split
    · exact hf _
    · exact conv_none

theorem conv_withList {α : Type} {h : Heap T} {b : Bool} {p : Ptr} {f : List Ptr → FfiRes T α}
    (hf : ∀ pl, Conv h b (f pl)) : Conv h b (withList h p f) := by
  unfold withList
  split_ifs
  · exact conv_err (Or.inl rfl)
  · split
    · exact hf _
    · exact conv_none

theorem conv_catch {α β : Type} {h : Heap T} {b : Bool} {m : M β} {k : β → FfiRes T α}
    (hk : ∀ x, Conv h b (k x)) : Conv h b (catchUnwind h m k) := by
  unfold catchUnwind
  split
  · exact conv_err (Or.inr (Or.inr rfl))
  · exact hk _

theorem conv_void {h : Heap T} {r : Option (Heap T)} : Conv h false (FfiRes.void r) := by
  intro h' code o he
  unfold FfiRes.void at he
  cases r with
  | none => simp at he
  | some x => cases he; exact ⟨Or.inl rfl, fun hc => absurd rfl hc, fun _ => rfl⟩

/-- **C46** Whatever the heap and the arguments, a call that is defined returns one of the codes
0, 1, 2, −1; with a non-zero code it changed nothing and wrote no output; with code 0 it wrote its
output parameter if it has one. -/
theorem C46_codes (env : Env T) (h : Heap T) (c : Call T) (h' : Heap T) (code : Int) (o : Option (Out T))
    (he : exec env h c = some (h', code, o)) :
    (code = 0 ∨ code = 1 ∨ code = 2 ∨ code = -1) ∧ (code ≠ 0 → h' = h ∧ o = none) ∧ (code = 0 → o.isSome = c.hasOut) := by
  suffices H : Conv h c.hasOut (exec env h c) from H _ _ _ he
  clear he
  cases c <;> simp only [exec, Call.hasOut] <;> first
    | exact conv_void
    | apply conv_out
  · unfold plineCreate
    dsimp only
    split_ifs
    · split
      · exact conv_none
      · exact conv_ok
    · exact conv_ok
  all_goals first
    | exact conv_withPline fun _ => conv_ok
    | exact conv_withPline fun _ => conv_catch fun _ => conv_ok
    | exact conv_withList fun _ => conv_catch fun _ => conv_ok
    | skip
  · refine conv_withPline fun pl => ?_
    split_ifs
    · exact conv_ok
    · exact conv_none
  · refine conv_withPline fun pl => ?_
    split
    · exact conv_none
    · exact conv_ok
  · refine conv_withPline fun pl => ?_
    split_ifs
    · exact conv_err (by simp)
    · exact conv_catch fun _ => conv_ok
  · refine conv_withPline fun pl => ?_
    split_ifs
    · exact conv_err (by simp)
    · exact conv_catch fun _ => conv_ok
  · refine conv_withPline fun pl => ?_
    split_ifs
    · exact conv_err (by simp)
    · exact conv_catch fun _ => conv_ok
  · refine conv_withPline fun pl => conv_catch fun r => ?_
    split <;> exact conv_ok
  · refine conv_withPline fun pl => conv_catch fun r => ?_
    split <;> exact conv_ok
  · refine conv_withPline fun pl => conv_catch fun r => ?_
    split
    · exact conv_ok
    · exact conv_err (by simp)
  · unfold plineBoolean
    split_ifs
    · exact conv_err (by simp)
    · split
      · exact conv_err (by simp)
      · exact conv_withPline fun _ => conv_withPline fun _ => conv_catch fun _ => conv_ok
  · unfold aabbIndexGetExtents
    split_ifs
    · exact conv_err (by simp)
    · split
      · exact conv_ok
      · exact conv_none
  · refine conv_withList fun ps => ?_
    split
    · exact conv_ok
    · exact conv_err (by simp)
  · refine conv_withList fun ps => ?_
    split
    · exact conv_ok
    · exact conv_err (by simp)
  · refine conv_withList fun ps => ?_
    split_ifs
    · exact conv_err (by simp)
    · split
      · exact conv_ok
      · exact conv_err (by simp)

/-! ## Which code for which cause -/

/-- every result of `r` has a code that satisfies `P` -/
def CodeIs {α : Type} (P : Int → Prop) (r : FfiRes T α) : Prop := ∀ h' code o, r = some (h', code, o) → P code

theorem codeIs_out {α : Type} {P : Int → Prop} {r : FfiRes T α} {f : α → Out T} (h : CodeIs P r) : CodeIs P (r.out f) := by
  intro h' code o he
  unfold FfiRes.out at he
  cases r with
  | none => simp at he
  | some x =>
    obtain ⟨a, c, d⟩ := x
    simp only [Option.map_some, Option.some.injEq, Prod.mk.injEq] at he
    obtain ⟨rfl, rfl, rfl⟩ := he
    exact h _ _ _ rfl

theorem codeIs_some {α : Type} {P : Int → Prop} {h : Heap T} {c : Int} {o : Option α} (hp : P c) :
    CodeIs P (some (h, c, o) : FfiRes T α) := by
  intro h' code o he; cases he; exact hp

theorem codeIs_none {α : Type} {P : Int → Prop} : CodeIs P (none : FfiRes T α) := by
  intro h' code o he; cases he

theorem codeIs_withPline {α : Type} {P : Int → Prop} {h : Heap T} {p : Ptr} {f : Pline T → FfiRes T α}
    (h0 : p = 0 → P 1) (hf : p ≠ 0 → ∀ pl, h.cells p = some (.pline pl) → CodeIs P (f pl)) : CodeIs P (withPline h p f) := by
  unfold withPline
  split_ifs with hp
  · exact codeIs_some (h0 hp)
  · split
    · exact hf hp _ (by assumption)
    · exact codeIs_none

theorem codeIs_withList {α : Type} {P : Int → Prop} {h : Heap T} {p : Ptr} {f : List Ptr → FfiRes T α}
    (h0 : p = 0 → P 1) (hf : p ≠ 0 → ∀ pl, h.cells p = some (.plinelist pl) → CodeIs P (f pl)) : CodeIs P (withList h p f) := by
  unfold withList
  split_ifs with hp
  · exact codeIs_some (h0 hp)
  · split
    · exact hf hp _ (by assumption)
    · exact codeIs_none

theorem codeIs_catch {α β : Type} {P : Int → Prop} {h : Heap T} {m : M β} {k : β → FfiRes T α}
    (he : P (-1)) (hk : ∀ x, m = .ok x → CodeIs P (k x)) : CodeIs P (catchUnwind h m k) := by
  unfold catchUnwind
  split
  · exact codeIs_some he
  · exact hk _ rfl

theorem codeIs_void {P : Int → Prop} {r : Option (Heap T)} (h0 : P 0) : CodeIs P (FfiRes.void r) := by
  intro h' code o he
  unfold FfiRes.void at he
  cases r with
  | none => simp at he
  | some x => cases he; exact h0

/-- All polylines have fewer than `2^32` vertexes (the C interface counts in `u32`). -/
def Heap.Counts32 (h : Heap T) : Prop := ∀ p pl, h.cells p = some (.pline pl) → pl.verts.length < 2 ^ 32

theorem plineAt_of {h : Heap T} {p : Ptr} {pl : Pline T} (hc : h.cells p = some (.pline pl)) :
    h.plineAt p = some (pl.verts, pl.closed) := by unfold Heap.plineAt; rw [hc]

theorem listAt_of {h : Heap T} {p : Ptr} {ps : List Ptr} (hc : h.cells p = some (.plinelist ps)) :
    h.listAt p = some ps := by unfold Heap.listAt; rw [hc]

theorem extents_total (p : Pline T) : ∃ r, p.extents = .ok r ∧ (r = none ↔ p.verts.length < 2) := by
  unfold extents
  split_ifs with h
  · refine ⟨none, rfl, ?_⟩
    unfold segmentCount vertexCount at h
    dsimp only at h
    simp only [true_iff]
    split_ifs at h <;> omega
  · have h2 : ¬ p.verts.length < 2 := by
      intro h2; apply h; unfold segmentCount vertexCount; simp [h2]
    have h0 : 0 < p.verts.length := by omega
    simp only [bind, Except.bind, at_lt h0]
    exact ⟨_, rfl, by simp [h2]⟩

theorem null_one {p : Ptr} {k : HandleKind} : (∃ k', ((0 : Ptr), k') ∈ [(p, k)]) ↔ p = 0 := by
  simp [eq_comm]

/-- **C46** Error code 1 is returned exactly for a null handle (the free functions accept null), and
error code 2 exactly for the documented cause. -/
theorem C46_causes (env : Env T) (h : Heap T) (h32 : h.Counts32) (c : Call T) (h' : Heap T) (code : Int)
    (o : Option (Out T)) (he : exec env h c = some (h', code, o)) :
    (code = 1 ↔ c.hasNull ∧ c.isFree = false) ∧ (code = 2 ↔ ¬ c.hasNull ∧ c.RangeError h) := by
  suffices H : CodeIs (fun code => (code = 1 ↔ c.hasNull ∧ c.isFree = false) ∧ (code = 2 ↔ ¬ c.hasNull ∧ c.RangeError h))
      (exec env h c) from H _ _ _ he
  clear he
  cases c <;> simp only [exec] <;> first
    | (apply codeIs_void; simp [Call.isFree, Call.RangeError])
    | apply codeIs_out
  · unfold plineCreate
    dsimp only
    split_ifs
    · split
      · exact codeIs_none
      · exact codeIs_some (by simp [Call.hasNull, Call.handles, Call.RangeError])
    · exact codeIs_some (by simp [Call.hasNull, Call.handles, Call.RangeError])
  all_goals first
    | (refine codeIs_withPline (fun hp => ?_) (fun hp pl hc => codeIs_some ?_) <;>
        (simp only [Call.hasNull, Call.handles, null_one, Call.RangeError, Call.isFree, hp]; simp); done)
    | (refine codeIs_withPline (fun hp => ?_) (fun hp pl hc => codeIs_catch ?_ fun x hx => codeIs_some ?_) <;>
        (simp only [Call.hasNull, Call.handles, null_one, Call.RangeError, Call.isFree, hp]; simp); done)
    | (refine codeIs_withList (fun hp => ?_) (fun hp pl hc => codeIs_catch ?_ fun x hx => codeIs_some ?_) <;>
        (simp only [Call.hasNull, Call.handles, null_one, Call.RangeError, Call.isFree, hp]; simp); done)
    | skip
  · refine codeIs_withPline (fun hp => ?_) (fun hp pl hc => ?_)
    · simp only [Call.hasNull, Call.handles, null_one, Call.RangeError, Call.isFree, hp]; simp
    · split_ifs
      · apply codeIs_some
        simp only [Call.hasNull, Call.handles, null_one, Call.RangeError, Call.isFree, hp]; simp
      · exact codeIs_none
  · refine codeIs_withPline (fun hp => ?_) (fun hp pl hc => ?_)
    · simp only [Call.hasNull, Call.handles, null_one, Call.RangeError, Call.isFree, hp]; simp
    · split
      · exact codeIs_none
      · apply codeIs_some
        simp only [Call.hasNull, Call.handles, null_one, Call.RangeError, Call.isFree, hp]; simp
  · refine codeIs_withPline (fun hp => ?_) (fun hp pl hc => ?_)
    · simp only [Call.hasNull, Call.handles, null_one, Call.RangeError, Call.isFree, hp]; simp
    · have hcnt : asU32 pl.vertexCount = pl.verts.length := Nat.mod_eq_of_lt (h32 _ _ hc)
      simp only [hcnt, Call.hasNull, Call.handles, null_one, Call.RangeError, Call.isFree, hp, plineAt_of hc]
      split_ifs with hle
      · exact codeIs_some ⟨by simp, by simpa using hle⟩
      · refine codeIs_catch ⟨by simp, by simpa using hle⟩ fun v hv => codeIs_some ⟨by simp, by simpa using hle⟩
  · refine codeIs_withPline (fun hp => ?_) (fun hp pl hc => ?_)
    · simp only [Call.hasNull, Call.handles, null_one, Call.RangeError, Call.isFree, hp]; simp
    · have hcnt : asU32 pl.vertexCount = pl.verts.length := Nat.mod_eq_of_lt (h32 _ _ hc)
      simp only [hcnt, Call.hasNull, Call.handles, null_one, Call.RangeError, Call.isFree, hp, plineAt_of hc]
      split_ifs with hle
      · exact codeIs_some ⟨by simp, by simpa using hle⟩
      · refine codeIs_catch ⟨by simp, by simpa using hle⟩ fun v hv => codeIs_some ⟨by simp, by simpa using hle⟩
  · refine codeIs_withPline (fun hp => ?_) (fun hp pl hc => ?_)
    · simp only [Call.hasNull, Call.handles, null_one, Call.RangeError, Call.isFree, hp]; simp
    · simp only [Call.hasNull, Call.handles, null_one, Call.RangeError, Call.isFree, hp, plineAt_of hc]
      have hcnt : pl.vertexCount = pl.verts.length := rfl
      rw [hcnt]
      split_ifs with hle
      · exact codeIs_some ⟨by simp, by simpa using hle⟩
      · refine codeIs_catch ⟨by simp, by simpa using hle⟩ fun v hv => codeIs_some ⟨by simp, by simpa using hle⟩
  · refine codeIs_withPline (fun hp => ?_) (fun hp pl hc => codeIs_catch ?_ fun x hx => ?_)
    · simp only [Call.hasNull, Call.handles, null_one, Call.RangeError, Call.isFree, hp]; simp
    · simp only [Call.hasNull, Call.handles, null_one, Call.RangeError, Call.isFree, hp]; simp
    · split <;> apply codeIs_some <;>
        (simp only [Call.hasNull, Call.handles, null_one, Call.RangeError, Call.isFree, hp]; simp)
  · refine codeIs_withPline (fun hp => ?_) (fun hp pl hc => codeIs_catch ?_ fun x hx => ?_)
    · simp only [Call.hasNull, Call.handles, null_one, Call.RangeError, Call.isFree, hp]; simp
    · simp only [Call.hasNull, Call.handles, null_one, Call.RangeError, Call.isFree, hp]; simp
    · split <;> apply codeIs_some <;>
        (simp only [Call.hasNull, Call.handles, null_one, Call.RangeError, Call.isFree, hp]; simp)
  · refine codeIs_withPline (fun hp => ?_) (fun hp pl hc => ?_)
    · simp only [Call.hasNull, Call.handles, null_one, Call.RangeError, Call.isFree, hp]; simp
    · simp only [Call.hasNull, Call.handles, null_one, Call.RangeError, Call.isFree, hp, plineAt_of hc]
      obtain ⟨r, hr, hiff⟩ := extents_total pl
      unfold catchUnwind
      rw [hr]
      dsimp only
      cases r with
      | none => exact codeIs_some ⟨by simp, by simpa using hiff.mp rfl⟩
      | some b => exact codeIs_some ⟨by simp, by
          have : ¬ pl.verts.length < 2 := fun h => absurd (hiff.mpr h) (by simp)
          simpa using this⟩
  · unfold plineBoolean
    rename_i p1 p2 op idx eps
    have hn : (Call.boolean p1 p2 op idx eps).hasNull ↔ p1 = 0 ∨ p2 = 0 := by
      simp only [Call.hasNull, Call.handles, List.mem_cons, Prod.mk.injEq, List.not_mem_nil, or_false]
      constructor
      · rintro ⟨k, h | h⟩
        · exact Or.inl h.1.symm
        · exact Or.inr h.1.symm
      · rintro (h | h)
        · exact ⟨_, Or.inl ⟨h.symm, rfl⟩⟩
        · exact ⟨_, Or.inr ⟨h.symm, rfl⟩⟩
    rw [hn]
    simp only [Call.RangeError, Call.isFree]
    split_ifs with hp
    · exact codeIs_some (by simp [hp])
    · simp only [hp, false_and, not_false_eq_true, true_and, iff_false]
      unfold booleanOpFromU32
      have go : ∀ o, op = 0 ∨ op = 1 ∨ op = 2 ∨ op = 3 → CodeIs (fun code => ¬ code = 1 ∧ (code = 2 ↔ op ≠ 0 ∧ op ≠ 1 ∧ op ≠ 2 ∧ op ≠ 3))
          (withPline h p1 fun a => withPline h p2 fun b =>
            catchUnwind h (polylineBoolean env a b o idx eps) fun r =>
              let l1 := listFromInternal h (r.posPlines.map BooleanResultPline.pline)
              let l2 := listFromInternal l1.2 (r.negPlines.map BooleanResultPline.pline)
              some (l2.2, 0, some (l1.1, l2.1))) := by
        intro o ho
        have hno : ¬ (op ≠ 0 ∧ op ≠ 1 ∧ op ≠ 2 ∧ op ≠ 3) := by tauto
        refine codeIs_withPline (fun h0 => absurd (Or.inl h0) hp) fun _ a ha =>
          codeIs_withPline (fun h0 => absurd (Or.inr h0) hp) fun _ b hb => codeIs_catch ?_ fun r hr => codeIs_some ?_
        · exact ⟨by simp, iff_of_false (by simp) hno⟩
        · exact ⟨by simp, iff_of_false (by simp) hno⟩
      split_ifs with h0 h1 h2 h3
      · exact go _ (Or.inl h0)
      · exact go _ (Or.inr (Or.inl h1))
      · exact go _ (Or.inr (Or.inr (Or.inl h2)))
      · exact go _ (Or.inr (Or.inr (Or.inr h3)))
      · exact codeIs_some ⟨by simp, by simp [h0, h1, h2, h3]⟩
  · unfold aabbIndexGetExtents
    split_ifs with hp
    · apply codeIs_some
      simp only [Call.hasNull, Call.handles, null_one, Call.RangeError, Call.isFree, hp]; simp
    · split
      · apply codeIs_some
        simp only [Call.hasNull, Call.handles, null_one, Call.RangeError, Call.isFree, hp]; simp
      · exact codeIs_none
  · refine codeIs_withList (fun hp => ?_) (fun hp ps hc => ?_)
    · simp only [Call.hasNull, Call.handles, null_one, Call.RangeError, Call.isFree, hp]; simp
    · simp only [Call.hasNull, Call.handles, null_one, Call.RangeError, Call.isFree, hp, listAt_of hc]
      split
      · rename_i q hq
        have := (List.getElem?_eq_some_iff.mp hq).1
        exact codeIs_some ⟨by simp, by simpa using this⟩
      · rename_i hq
        exact codeIs_some ⟨by simp, by simpa using hq⟩
  · refine codeIs_withList (fun hp => ?_) (fun hp ps hc => ?_)
    · simp only [Call.hasNull, Call.handles, null_one, Call.RangeError, Call.isFree, hp]; simp
    · simp only [Call.hasNull, Call.handles, null_one, Call.RangeError, Call.isFree, hp, listAt_of hc]
      split
      · rename_i q hq
        refine codeIs_some ⟨by simp, ?_⟩
        simp
        rintro rfl
        simp at hq
      · rename_i hq
        exact codeIs_some ⟨by simp, by simpa using hq⟩
  · refine codeIs_withList (fun hp => ?_) (fun hp ps hc => ?_)
    · simp only [Call.hasNull, Call.handles, null_one, Call.RangeError, Call.isFree, hp]; simp
    · simp only [Call.hasNull, Call.handles, null_one, Call.RangeError, Call.isFree, hp, listAt_of hc]
      split_ifs with hle
      · exact codeIs_some ⟨by simp, by simpa using hle⟩
      · split
        · exact codeIs_some ⟨by simp, by simpa using hle⟩
        · exact codeIs_some ⟨by simp, by simpa using hle⟩

theorem removeRepeatPos_total (p : Pline T) (eps : T) : ∃ r, p.removeRepeatPos eps = .ok r := by
  by_cases h2 : p.verts.length < 2
  · exact ⟨none, by unfold removeRepeatPos vertexCount; rw [if_pos h2]⟩
  · cases hc : p.closed with
    | false => exact ⟨_, (C09_open p hc eps).choose_spec.1⟩
    | true =>
      obtain ⟨a, rest, hv⟩ : ∃ a r, p.verts = a :: r := by
        cases hp : p.verts with
        | nil => rw [hp] at h2; simp at h2
        | cons a r => exact ⟨a, r, rfl⟩
      obtain ⟨l, hl⟩ : ∃ l, p.verts.getLast? = some l := by
        rw [hv]; exact ⟨_, List.getLast?_eq_some_getLast (by simp)⟩
      exact ⟨_, (C09_closed p hc (by omega) eps a l (by rw [hv]; rfl) hl).choose_spec.1⟩

/-- **C46** Code −1 is returned exactly when the wrapped computation panics; that is possible only for
`remove_redundant`, `parallel_offset`, `boolean` and counts that do not fit into 32 bits. -/
theorem C46_internal (env : Env T) (h : Heap T) (h32 : h.Counts32) (c : Call T) (h' : Heap T) (code : Int)
    (o : Option (Out T)) (he : exec env h c = some (h', code, o)) :
    code = -1 ↔ ¬ c.hasNull ∧ c.Panics env h := by
  suffices H : CodeIs (fun code => code = -1 ↔ ¬ c.hasNull ∧ c.Panics env h) (exec env h c) from H _ _ _ he
  clear he
  cases c <;> simp only [exec] <;> first
    | (apply codeIs_void; simp [Call.Panics])
    | apply codeIs_out
  · unfold plineCreate
    dsimp only
    split_ifs
    · split
      · exact codeIs_none
      · exact codeIs_some (by simp [Call.Panics])
    · exact codeIs_some (by simp [Call.Panics])
  all_goals first
    | (refine codeIs_withPline (fun hp => ?_) (fun hp pl hc => codeIs_some ?_) <;>
        (simp only [Call.hasNull, Call.handles, null_one, Call.Panics, hp]; simp); done)
    | skip
  -- get_vertex_count
  · refine codeIs_withPline (fun hp => ?_) (fun hp pl hc => ?_)
    · simp only [Call.hasNull, Call.handles, null_one, Call.Panics, hp]; simp
    · simp only [Call.hasNull, Call.handles, null_one, Call.Panics, hp, plineAt_of hc]
      have hlt := h32 _ _ hc
      have : tryU32 pl.vertexCount = .ok pl.verts.length := by
        unfold tryU32 u32Size vertexCount; rw [if_pos hlt]
      unfold catchUnwind
      rw [this]
      refine codeIs_some (iff_of_false (by simp) ?_)
      rintro ⟨_, vs, cl, he, hle⟩
      cases he
      omega
  · refine codeIs_withPline (fun hp => ?_) (fun hp pl hc => ?_)
    · simp only [Call.hasNull, Call.handles, null_one, Call.Panics, hp]; simp
    · split_ifs
      · apply codeIs_some
        simp [Call.Panics]
      · exact codeIs_none
  · refine codeIs_withPline (fun hp => ?_) (fun hp pl hc => ?_)
    · simp only [Call.hasNull, Call.handles, null_one, Call.Panics, hp]; simp
    · split
      · exact codeIs_none
      · apply codeIs_some
        simp [Call.Panics]
  -- get_vertex, set_vertex, remove
  · refine codeIs_withPline (fun hp => ?_) (fun hp pl hc => ?_)
    · simp [Call.Panics]
    · have hcnt : asU32 pl.vertexCount = pl.verts.length := Nat.mod_eq_of_lt (h32 _ _ hc)
      rw [hcnt]
      split_ifs with hle
      · exact codeIs_some (by simp [Call.Panics])
      · rw [at_lt (by omega)]
        exact codeIs_some (by simp [Call.Panics])
  · refine codeIs_withPline (fun hp => ?_) (fun hp pl hc => ?_)
    · simp [Call.Panics]
    · have hcnt : asU32 pl.vertexCount = pl.verts.length := Nat.mod_eq_of_lt (h32 _ _ hc)
      rw [hcnt]
      split_ifs with hle
      · exact codeIs_some (by simp [Call.Panics])
      · rw [setVertex_lt (by omega)]
        exact codeIs_some (by simp [Call.Panics])
  · refine codeIs_withPline (fun hp => ?_) (fun hp pl hc => ?_)
    · simp [Call.Panics]
    · split_ifs with hle
      · exact codeIs_some (by simp [Call.Panics])
      · unfold remove vertexCount at *
        rw [List.getElem?_eq_getElem (by omega)]
        exact codeIs_some (by simp [Call.Panics])
  -- invert_direction, scale, translate, remove_repeat_pos
  · refine codeIs_withPline (fun hp => ?_) (fun hp pl hc => ?_)
    · simp [Call.Panics]
    · obtain ⟨q, hq, _⟩ := C03_invert_path pl
      rw [hq]
      exact codeIs_some (by simp [Call.Panics])
  · refine codeIs_withPline (fun hp => ?_) (fun hp pl hc => ?_)
    · simp [Call.Panics]
    · rw [C06_scale_vertexes]
      exact codeIs_some (by simp [Call.Panics])
  · refine codeIs_withPline (fun hp => ?_) (fun hp pl hc => ?_)
    · simp [Call.Panics]
    · rw [C06_translate_vertexes]
      exact codeIs_some (by simp [Call.Panics])
  · refine codeIs_withPline (fun hp => ?_) (fun hp pl hc => ?_)
    · simp [Call.Panics]
    · obtain ⟨r, hr⟩ := removeRepeatPos_total pl (by assumption)
      rw [hr]
      unfold catchUnwind
      dsimp only
      split <;> exact codeIs_some (by simp [Call.Panics])
  -- remove_redundant
  · rename_i p eps
    refine codeIs_withPline (fun hp => ?_) (fun hp pl hc => ?_)
    · simp only [Call.hasNull, Call.handles, null_one, Call.Panics, hp]; simp
    · simp only [Call.hasNull, Call.handles, null_one, Call.Panics, hp, hc]
      unfold catchUnwind
      cases hm : pl.removeRedundant eps with
      | error e => exact codeIs_some (by simp [hm])
      | ok r => dsimp only; split <;> exact codeIs_some (by simp [hm])
  -- eval_extents
  · refine codeIs_withPline (fun hp => ?_) (fun hp pl hc => ?_)
    · simp [Call.Panics]
    · obtain ⟨r, hr, _⟩ := extents_total pl
      rw [hr]
      unfold catchUnwind
      dsimp only
      split <;> exact codeIs_some (by simp [Call.Panics])
  -- parallel_offset
  · rename_i p d opts
    refine codeIs_withPline (fun hp => ?_) (fun hp pl hc => ?_)
    · simp only [Call.hasNull, Call.handles, null_one, Call.Panics, hp]; simp
    · simp only [Call.hasNull, Call.handles, null_one, Call.Panics, hp, hc]
      unfold catchUnwind
      cases hm : Cavc.parallelOffset env pl d opts with
      | error e => exact codeIs_some (by simp [hm])
      | ok r => exact codeIs_some (by simp [hm])
  -- boolean
  · unfold plineBoolean
    rename_i p1 p2 op idx eps
    have hn : (Call.boolean p1 p2 op idx eps).hasNull ↔ p1 = 0 ∨ p2 = 0 := by
      simp only [Call.hasNull, Call.handles, List.mem_cons, Prod.mk.injEq, List.not_mem_nil, or_false]
      constructor
      · rintro ⟨k, h | h⟩
        · exact Or.inl h.1.symm
        · exact Or.inr h.1.symm
      · rintro (h | h)
        · exact ⟨_, Or.inl ⟨h.symm, rfl⟩⟩
        · exact ⟨_, Or.inr ⟨h.symm, rfl⟩⟩
    rw [hn]
    split_ifs with hp
    · exact codeIs_some (by simp [hp])
    · cases ho : booleanOpFromU32 op with
      | none =>
        refine codeIs_some (iff_of_false (by simp) ?_)
        rintro ⟨_, a, b, o, e, _, _, h3, _⟩
        rw [ho] at h3; cases h3
      | some o =>
        refine codeIs_withPline (fun h0 => absurd (Or.inl h0) hp) fun _ a ha =>
          codeIs_withPline (fun h0 => absurd (Or.inr h0) hp) fun _ b hb => ?_
        unfold catchUnwind
        cases hm : polylineBoolean env a b o idx eps with
        | error e => exact codeIs_some (iff_of_true rfl ⟨hp, a, b, o, e, ha, hb, ho, hm⟩)
        | ok r =>
          refine codeIs_some (iff_of_false (by simp) ?_)
          rintro ⟨_, a', b', o', e, h1, h2, h3, h4⟩
          rw [ha] at h1; rw [hb] at h2; rw [ho] at h3
          cases h1; cases h2; cases h3
          rw [hm] at h4; cases h4
  · unfold aabbIndexGetExtents
    split_ifs with hp
    · exact codeIs_some (by simp [Call.Panics])
    · split
      · exact codeIs_some (by simp [Call.Panics])
      · exact codeIs_none
  · refine codeIs_withList (fun hp => ?_) (fun hp ps hc => ?_)
    · simp only [Call.hasNull, Call.handles, null_one, Call.Panics, hp]; simp
    · simp only [Call.hasNull, Call.handles, null_one, Call.Panics, hp, listAt_of hc]
      unfold catchUnwind tryU32 u32Size
      by_cases hlt : ps.length < 2 ^ 32
      · rw [if_pos hlt]
        refine codeIs_some (iff_of_false (by simp) ?_)
        rintro ⟨_, qs, he, hle⟩
        cases he
        omega
      · rw [if_neg hlt]
        exact codeIs_some (iff_of_true rfl ⟨by simp, ps, rfl, by omega⟩)
  · refine codeIs_withList (fun hp => ?_) (fun hp ps hc => ?_)
    · simp [Call.Panics]
    · split <;> exact codeIs_some (by simp [Call.Panics])
  · refine codeIs_withList (fun hp => ?_) (fun hp ps hc => ?_)
    · simp [Call.Panics]
    · split <;> exact codeIs_some (by simp [Call.Panics])
  · refine codeIs_withList (fun hp => ?_) (fun hp ps hc => ?_)
    · simp [Call.Panics]
    · split_ifs with hle
      · exact codeIs_some (by simp [Call.Panics])
      · rw [List.getElem?_eq_getElem (by omega)]
        exact codeIs_some (by simp [Call.Panics])

/-! ## Defined calls -/

theorem withPline_defined {α : Type} {h : Heap T} {p : Ptr} {f : Pline T → FfiRes T α} (hs : p = 0 ∨ h.Live p .pline)
    (hf : ∀ pl, h.cells p = some (.pline pl) → (f pl).isSome) : (withPline h p f).isSome := by
  unfold withPline
  split_ifs with hp
  · rfl
  · obtain ⟨pl, hc⟩ := hs.resolve_left hp
    rw [hc]; exact hf pl hc

theorem withList_defined {α : Type} {h : Heap T} {p : Ptr} {f : List Ptr → FfiRes T α} (hs : p = 0 ∨ h.Live p .list)
    (hf : ∀ pl, h.cells p = some (.plinelist pl) → (f pl).isSome) : (withList h p f).isSome := by
  unfold withList
  split_ifs with hp
  · rfl
  · obtain ⟨pl, hc⟩ := hs.resolve_left hp
    rw [hc]; exact hf pl hc

theorem catch_defined {α β : Type} {h : Heap T} {m : M β} {k : β → FfiRes T α} (hk : ∀ x, (k x).isSome) :
    (catchUnwind h m k).isSome := by
  unfold catchUnwind
  cases m
  · rfl
  · exact hk _

/-- **C46** A call that obeys its `# Safety` section is defined. -/
theorem C46_safe_calls_are_defined (env : Env T) (h : Heap T) (c : Call T) (hs : c.Safe h) : (exec env h c).isSome := by
  obtain ⟨hh, hb⟩ := hs
  cases c <;> simp only [exec, FfiRes.out, FfiRes.void, Option.isSome_map] <;>
    simp only [Call.handles, List.mem_singleton, Prod.mk.injEq, List.not_mem_nil, List.mem_cons, or_false] at hh
  · unfold plineCreate
    dsimp only
    split_ifs with h1
    · rcases hb with hb | ⟨l, rfl, hl⟩
      · rw [hb] at h1; simp at h1
      · simp [rawParts, hl]
    · rfl
  · unfold plineF
    split_ifs with hp
    · rfl
    · obtain ⟨pl, hc⟩ := (hh _ _ ⟨rfl, rfl⟩).resolve_left hp
      rw [hc]; rfl
  all_goals first
    | exact withPline_defined (hh _ _ ⟨rfl, rfl⟩) fun _ _ => rfl
    | exact withPline_defined (hh _ _ ⟨rfl, rfl⟩) fun _ _ => catch_defined fun _ => rfl
    | exact withList_defined (hh _ _ ⟨rfl, rfl⟩) fun _ _ => catch_defined fun _ => rfl
    | skip
  · refine withPline_defined (hh _ _ ⟨rfl, rfl⟩) fun pl hc => ?_
    have hle : pl.vertexCount ≤ _ := hb _ _ (plineAt_of hc)
    rw [if_pos hle]; rfl
  · refine withPline_defined (hh _ _ ⟨rfl, rfl⟩) fun pl hc => ?_
    obtain ⟨l, rfl, hl⟩ := hb
    simp [rawParts, hl]
  · refine withPline_defined (hh _ _ ⟨rfl, rfl⟩) fun pl hc => ?_
    split_ifs
    · rfl
    · exact catch_defined fun _ => rfl
  · refine withPline_defined (hh _ _ ⟨rfl, rfl⟩) fun pl hc => ?_
    split_ifs
    · rfl
    · exact catch_defined fun _ => rfl
  · refine withPline_defined (hh _ _ ⟨rfl, rfl⟩) fun pl hc => ?_
    split_ifs
    · rfl
    · exact catch_defined fun _ => rfl
  · refine withPline_defined (hh _ _ ⟨rfl, rfl⟩) fun pl hc => catch_defined fun x => ?_
    cases x <;> rfl
  · refine withPline_defined (hh _ _ ⟨rfl, rfl⟩) fun pl hc => catch_defined fun x => ?_
    cases x <;> rfl
  · refine withPline_defined (hh _ _ ⟨rfl, rfl⟩) fun pl hc => catch_defined fun x => ?_
    cases x <;> rfl
  · unfold plineBoolean
    split_ifs
    · rfl
    · split
      · rfl
      · exact withPline_defined (hh _ _ (Or.inl ⟨rfl, rfl⟩)) fun _ _ =>
          withPline_defined (hh _ _ (Or.inr ⟨rfl, rfl⟩)) fun _ _ => catch_defined fun _ => rfl
  · unfold aabbIndexF
    split_ifs with hp
    · rfl
    · obtain ⟨pl, hc⟩ := (hh _ _ ⟨rfl, rfl⟩).resolve_left hp
      rw [hc]; rfl
  · unfold aabbIndexGetExtents
    split_ifs with hp
    · rfl
    · obtain ⟨pl, hc⟩ := (hh _ _ ⟨rfl, rfl⟩).resolve_left hp
      rw [hc]; rfl
  · unfold plinelistF
    split_ifs with hp
    · rfl
    · obtain ⟨pl, hc⟩ := (hh _ _ ⟨rfl, rfl⟩).resolve_left hp
      rw [hc]; rfl
  · refine withList_defined (hh _ _ ⟨rfl, rfl⟩) fun ps hc => ?_
    split <;> rfl
  · refine withList_defined (hh _ _ ⟨rfl, rfl⟩) fun ps hc => ?_
    split <;> rfl
  · refine withList_defined (hh _ _ ⟨rfl, rfl⟩) fun ps hc => ?_
    split_ifs
    · rfl
    · split <;> rfl

/-- A null handle is reported before anything else is looked at. -/
theorem C46_null_first (env : Env T) (h : Heap T) (c : Call T) (hn : c.hasNull) :
    exec env h c = some (h, if c.isFree then 0 else 1, none) := by
  cases c <;> simp only [Call.hasNull, Call.handles, null_one] at hn <;>
    first
      | (simp at hn; done)
      | (subst hn; rfl)
      | skip
  rename_i p q op idx eps
  obtain ⟨k, hk⟩ := hn
  have hpq : p = 0 ∨ q = 0 := by
    simp only [List.mem_cons, Prod.mk.injEq, List.not_mem_nil, or_false] at hk
    rcases hk with h | h
    · exact Or.inl h.1.symm
    · exact Or.inr h.1.symm
  simp only [exec, plineBoolean, if_pos hpq, FfiRes.out, Call.isFree]
  rfl

/-! ## Examples and findings -/

/-- a heap with one polyline of two vertexes at address 1 -/
def oneHeap : Heap Rat := (Heap.empty.alloc (.pline ⟨[⟨1, 2, 0⟩, ⟨3, 4, 1⟩], false⟩)).2

/-- The hypotheses are met: out of range, in range, null. -/
example (env : Env Rat) : oneHeap.Counts32 ∧
    exec env oneHeap (.getVertex 1 2) = some (oneHeap, 2, none) ∧
    exec env oneHeap (.getVertex 1 1) = some (oneHeap, 0, some (.vertex ⟨3, 4, 1⟩)) ∧
    exec env oneHeap (.getVertex 0 1) = some (oneHeap, 1, none) ∧
    (Call.getVertex (T := Rat) 1 1).Safe oneHeap := by
  refine ⟨?_, rfl, rfl, rfl, ?_, trivial⟩
  · intro p pl hp
    have : p = 1 := by
      by_contra hne
      simp [oneHeap, Heap.alloc, Heap.empty, hne] at hp
    subst this
    simp [oneHeap, Heap.alloc, Heap.empty] at hp
    rw [← hp]; norm_num
  · intro p k hk
    simp only [Call.handles, List.mem_singleton, Prod.mk.injEq] at hk
    rw [hk.1, hk.2]
    exact Or.inr ⟨_, rfl⟩

/-- **C46** (disagreement) `get_vertex` and `set_vertex` truncate the vertex count to 32 bits before
comparing: in a polyline of `2^32` vertexes every position, also 0, is reported as out of bounds. -/
theorem C46_truncation_witness (env : Env T) (h : Heap T) (p : Ptr) (pl : Pline T) (hp : p ≠ 0)
    (hc : h.cells p = some (.pline pl)) (hn : pl.verts.length = 2 ^ 32) (i : Nat) (v : Vertex T) :
    exec env h (.getVertex p i) = some (h, 2, none) ∧ exec env h (.setVertex p i v) = some (h, 2, none) := by
  have h0 : asU32 pl.vertexCount = 0 := by
    unfold asU32 u32Size vertexCount; rw [hn]; exact Nat.mod_self _
  constructor
  · simp only [exec, plineGetVertex, withPline, if_neg hp, hc, h0, ge_iff_le, Nat.zero_le, if_true]; rfl
  · simp only [exec, plineSetVertex, withPline, if_neg hp, hc, h0, ge_iff_le, Nat.zero_le, if_true]; rfl

/-- Such polylines exist. -/
example (v : Vertex T) : ∃ vs : List (Vertex T), vs.length = 2 ^ 32 :=
  ⟨List.replicate (2 ^ 32) v, List.length_replicate⟩

/-- **C46** (disagreement) `set_vertex_data` with a null buffer and 0 vertexes is undefined behaviour,
although `create` accepts that combination. -/
theorem C46_null_buffer_witness (env : Env T) (h : Heap T) (p : Ptr) (pl : Pline T) (hp : p ≠ 0)
    (hc : h.cells p = some (.pline pl)) :
    exec env h (.setVertexData p none 0) = none ∧ (exec env h (.create none 0 0)).isSome := by
  simp [exec, plineSetVertexData, withPline, hp, hc, rawParts, FfiRes.out, plineCreate]

end Cavc
