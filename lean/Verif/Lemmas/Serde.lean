import Verif.Spec.Serde

/-! # Readers that undo writers -/

namespace Cavc
namespace Serde

variable {T : Type}

theorem codec_num : Codec (T := T) encNum decNum where
  back _ _ := rfl
  only ts v rest h := by
    unfold decNum at h
    split at h <;> simp_all [encNum]

theorem codec_nat : Codec (T := T) encNat decNat where
  back _ _ := rfl
  only ts v rest h := by
    unfold decNat at h
    split at h <;> simp_all [encNat]

theorem codec_bool : Codec (T := T) encBool decBool where
  back _ _ := rfl
  only ts v rest h := by
    unfold decBool at h
    split at h <;> simp_all [encBool]

theorem codec_tuple {α : Type} {enc : α → List (Tok T)} {dec : Dec T α} (h : Codec enc dec) (f : Format) (n : Nat) :
    Codec (fun v => encTuple f n (enc v)) (decTuple f n dec) where
  back v rest := by
    cases f with
    | delimited =>
      show (match dec ((enc v ++ [Tok.arrayClose]) ++ rest) with
        | some (a, .arrayClose :: r') => some (a, r')
        | _ => none) = _
      rw [List.append_assoc, h.back]
      rfl
    | headerless => exact h.back v rest
    | counted =>
      show (if n = n then dec (enc v ++ rest) else none) = _
      rw [if_pos rfl, h.back]
  only ts v rest hd := by
    unfold decTuple at hd
    split at hd
    · rename_i r
      split at hd
      · rename_i a r' he
        cases hd
        rw [h.only _ _ _ he]
        simp [encTuple]
      · cases hd
    · exact h.only _ _ _ hd
    · rename_i m r
      split at hd
      · rename_i hm
        subst hm
        rw [h.only _ _ _ hd]
        rfl
      · cases hd
    · cases hd

theorem decCount_back {α : Type} {enc : α → List (Tok T)} {dec : Dec T α} (h : Codec enc dec) (l : List α)
    (rest : List (Tok T)) : decCount dec l.length (l.flatMap enc ++ rest) = some (l, rest) := by
  induction l with
  | nil => rfl
  | cons a l ih =>
    show (match dec ((a :: l).flatMap enc ++ rest) with
      | none => none
      | some (a, r') => match decCount dec l.length r' with
        | none => none
        | some (l, r'') => some (a :: l, r'')) = _
    rw [List.flatMap_cons, List.append_assoc, h.back]
    simp only [ih]

theorem decCount_only {α : Type} {enc : α → List (Tok T)} {dec : Dec T α} (h : Codec enc dec) :
    ∀ (n : Nat) (ts : List (Tok T)) (l : List α) (rest : List (Tok T)), decCount dec n ts = some (l, rest) →
      l.length = n ∧ ts = l.flatMap enc ++ rest
  | 0, ts, l, rest, hd => by
    simp only [decCount, Option.some.injEq, Prod.mk.injEq] at hd
    obtain ⟨rfl, rfl⟩ := hd
    exact ⟨rfl, rfl⟩
  | n + 1, ts, l, rest, hd => by
    unfold decCount at hd
    split at hd
    · cases hd
    · rename_i a r' he
      split at hd
      · cases hd
      · rename_i l' r'' he'
        cases hd
        obtain ⟨h1, h2⟩ := decCount_only h n _ _ _ he'
        refine ⟨by simp [h1], ?_⟩
        rw [h.only _ _ _ he, h2]
        simp

theorem decUntil_back {α : Type} {enc : α → List (Tok T)} {dec : Dec T α} (h : Codec enc dec)
    (hne : ∀ v r, enc v ++ r ≠ [] ∧ ∀ r', enc v ++ r ≠ .arrayClose :: r') (l : List α) (rest : List (Tok T)) (fuel : Nat)
    (hf : l.length < fuel) :
    decUntil dec fuel (l.flatMap enc ++ .arrayClose :: rest) = some (l, rest) := by
  induction l generalizing fuel with
  | nil =>
    cases fuel with
    | zero => simp at hf
    | succ n => rfl
  | cons a l ih =>
    cases fuel with
    | zero => simp at hf
    | succ n =>
      rw [List.flatMap_cons, List.append_assoc]
      have := hne a (l.flatMap enc ++ .arrayClose :: rest)
      have hb := h.back a (l.flatMap enc ++ .arrayClose :: rest)
      have hi := ih n (by simp at hf; omega)
      unfold decUntil
      split
      · rename_i r' heq
        exact absurd heq (this.2 r')
      · simp only [hb, hi]

theorem decUntil_only {α : Type} {enc : α → List (Tok T)} {dec : Dec T α} (h : Codec enc dec) :
    ∀ (fuel : Nat) (ts : List (Tok T)) (l : List α) (rest : List (Tok T)), decUntil dec fuel ts = some (l, rest) →
      ts = l.flatMap enc ++ .arrayClose :: rest
  | 0, ts, l, rest, hd => by simp [decUntil] at hd
  | n + 1, ts, l, rest, hd => by
    unfold decUntil at hd
    split at hd
    · cases hd; rfl
    · split at hd
      · cases hd
      · rename_i a r' he
        split at hd
        · cases hd
        · rename_i l' r'' he'
          cases hd
          rw [h.only _ _ _ he, decUntil_only h n _ _ _ he']
          simp

theorem length_le_flatMap {α : Type} {enc : α → List (Tok T)} (hne : ∀ v, enc v ≠ []) (l : List α) :
    l.length ≤ (l.flatMap enc).length := by
  induction l with
  | nil => simp
  | cons a l ih =>
    have := List.length_pos_iff.mpr (hne a)
    simp only [List.flatMap_cons, List.length_append, List.length_cons]
    omega

theorem codec_seq {α : Type} {f : Format} {enc : α → List (Tok T)} {dec : Dec T α} (h : Codec enc dec)
    (hne : f = .delimited → ∀ v, ∃ t r, enc v = t :: r ∧ t ≠ .arrayClose) :
    Codec (encSeq f enc) (decSeq f dec) where
  back l rest := by
    cases f with
    | delimited =>
      have hne := hne rfl
      show decUntil dec (((l.flatMap enc ++ [Tok.arrayClose]) ++ rest).length + 1) ((l.flatMap enc ++ [Tok.arrayClose]) ++ rest) = _
      rw [List.append_assoc]
      refine decUntil_back h (fun v r => ?_) l rest _ ?_
      · obtain ⟨t, r', he, ht⟩ := hne v
        rw [he]
        refine ⟨by simp, fun r'' hc => ?_⟩
        simp only [List.cons_append, List.cons.injEq] at hc
        exact ht hc.1
      · have := length_le_flatMap (enc := enc) (fun v => by obtain ⟨t, r', he, -⟩ := hne v; simp [he]) l
        simp only [List.length_append]
        omega
    | headerless => exact decCount_back h l rest
    | counted => exact decCount_back h l rest
  only ts l rest hd := by
    unfold decSeq at hd
    split at hd
    · rw [decUntil_only h _ _ _ _ hd]; simp [encSeq]
    · obtain ⟨h1, h2⟩ := decCount_only h _ _ _ _ hd
      rw [h2, ← h1]; rfl
    · obtain ⟨h1, h2⟩ := decCount_only h _ _ _ _ hd
      rw [h2, ← h1]; rfl
    · cases hd

theorem expect_back [DecidableEq T] (ts rest : List (Tok T)) : expect ts (ts ++ rest) = some rest := by
  induction ts with
  | nil => rfl
  | cons t ts ih => simp [expect, ih]

theorem expect_only [DecidableEq T] : ∀ (ts us rest : List (Tok T)), expect ts us = some rest → us = ts ++ rest
  | [], us, rest, h => by simp [expect] at h; simp [h]
  | t :: ts, [], rest, h => by simp [expect] at h
  | t :: ts, u :: us, rest, h => by
    unfold expect at h
    split at h
    · rename_i e
      subst e
      rw [expect_only ts us rest h]; rfl
    · cases h

theorem codec_vertex (f : Format) : Codec (T := T) (encVertex f) (decVertex f) := by
  refine codec_tuple (enc := fun v : Vertex T => encNum v.x ++ encNum v.y ++ encNum v.bulge)
    (dec := fun ts => do
      let (x, ts) ← decNum ts
      let (y, ts) ← decNum ts
      let (b, ts) ← decNum ts
      some (⟨x, y, b⟩, ts)) ⟨fun v rest => rfl, fun ts v rest h => ?_⟩ f 3
  simp only [bind, Option.bind_eq_some_iff, Prod.exists, Option.some.injEq, Prod.mk.injEq] at h
  obtain ⟨x, t1, h1, y, t2, h2, b, t3, h3, rfl, rfl⟩ := h
  rw [codec_num.only _ _ _ h1, codec_num.only _ _ _ h2, codec_num.only _ _ _ h3]
  simp

theorem codec_v2_pair : Codec (T := T) (fun v : V2 T => encNum v.x ++ encNum v.y) (fun ts => do
      let (x, ts) ← decNum ts
      let (y, ts) ← decNum ts
      some (⟨x, y⟩, ts)) := by
  refine ⟨fun v rest => rfl, fun ts v rest h => ?_⟩
  simp only [bind, Option.bind_eq_some_iff, Prod.exists, Option.some.injEq, Prod.mk.injEq] at h
  obtain ⟨x, t1, h1, y, t2, h2, rfl, rfl⟩ := h
  rw [codec_num.only _ _ _ h1, codec_num.only _ _ _ h2]
  simp

theorem codec_v2 {f : Format} (hf : f ≠ .counted) : Codec (T := T) (encV2 f) (decV2 f) := by
  have h := codec_tuple (T := T) codec_v2_pair f 2
  cases f with
  | counted => exact absurd rfl hf
  | delimited => exact h
  | headerless => exact h

theorem encVertex_head (v : Vertex T) : ∃ t r, encVertex .delimited v = t :: r ∧ t ≠ .arrayClose :=
  ⟨_, _, rfl, by simp⟩

section
variable [DecidableEq T]

theorem codec_pline (f : Format) : Codec (T := T) (encPline f) (decPline f) := by
  have hs : Codec (T := T) (encSeq f (encVertex f)) (decSeq f (decVertex f)) :=
    codec_seq (codec_vertex f) (by rintro rfl v; exact encVertex_head v)
  constructor
  · intro p rest
    unfold encPline decPline
    simp only [List.append_assoc, expect_back, hs.back, codec_bool.back, bind, Option.bind]
  · intro ts p rest h
    unfold decPline at h
    simp only [bind, Option.bind_eq_some_iff, Prod.exists, Option.some.injEq, Prod.mk.injEq] at h
    obtain ⟨t1, h1, t2, h2, vs, t3, h3, t4, h4, c, t5, h5, t6, h6, rfl, rfl⟩ := h
    rw [expect_only _ _ _ h1, expect_only _ _ _ h2, hs.only _ _ _ h3, expect_only _ _ _ h4, codec_bool.only _ _ _ h5,
      expect_only _ _ _ h6]
    simp [encPline]

theorem codec_viewData {f : Format} (hf : f ≠ .counted) : Codec (T := T) (encViewData f) (decViewData f) := by
  have hv := codec_vertex (T := T) f
  have h2 := codec_v2 (T := T) hf
  constructor
  · intro p rest
    unfold encViewData decViewData
    simp only [List.append_assoc, expect_back, hv.back, h2.back, codec_bool.back, codec_nat.back, codec_num.back, bind,
      Option.bind]
  · intro ts p rest h
    unfold decViewData at h
    simp only [bind, Option.bind_eq_some_iff, Prod.exists, Option.some.injEq, Prod.mk.injEq] at h
    obtain ⟨t1, h1, t2, a2, s, t3, h3, t4, h4, k, t5, h5, t6, h6, u, t7, h7, t8, h8, b, t9, h9, t10, h10, e, t11, h11,
      t12, h12, i, t13, h13, t14, h14, rfl, rfl⟩ := h
    rw [expect_only _ _ _ h1, expect_only _ _ _ a2, codec_nat.only _ _ _ h3, expect_only _ _ _ h4,
      codec_nat.only _ _ _ h5, expect_only _ _ _ h6, hv.only _ _ _ h7, expect_only _ _ _ h8, codec_num.only _ _ _ h9,
      expect_only _ _ _ h10, h2.only _ _ _ h11, expect_only _ _ _ h12, codec_bool.only _ _ _ h13, expect_only _ _ _ h14]
    simp [encViewData]

theorem codec_boolSlice {f : Format} (hf : f ≠ .counted) : Codec (T := T) (encBoolSlice f) (decBoolSlice f) := by
  have hv := codec_viewData (T := T) hf
  constructor
  · intro p rest
    unfold encBoolSlice decBoolSlice
    simp only [List.append_assoc, expect_back, hv.back, codec_bool.back, bind, Option.bind]
  · intro ts p rest h
    unfold decBoolSlice at h
    simp only [bind, Option.bind_eq_some_iff, Prod.exists, Option.some.injEq, Prod.mk.injEq] at h
    obtain ⟨t1, h1, t2, h2, d, t3, h3, t4, h4, s, t5, h5, t6, h6, o, t7, h7, t8, h8, rfl, rfl⟩ := h
    rw [expect_only _ _ _ h1, expect_only _ _ _ h2, hv.only _ _ _ h3, expect_only _ _ _ h4, codec_bool.only _ _ _ h5,
      expect_only _ _ _ h6, codec_bool.only _ _ _ h7, expect_only _ _ _ h8]
    simp [encBoolSlice]

theorem codec_resultPline {f : Format} (hf : f ≠ .counted) : Codec (T := T) (encResultPline f) (decResultPline f) := by
  have hp := codec_pline (T := T) f
  have hs : Codec (T := T) (encSeq f (encBoolSlice f)) (decSeq f (decBoolSlice f)) :=
    codec_seq (codec_boolSlice hf) (by rintro rfl v; exact ⟨_, _, rfl, by simp⟩)
  constructor
  · intro p rest
    unfold encResultPline decResultPline
    simp only [List.append_assoc, expect_back, hp.back, hs.back, bind, Option.bind]
  · intro ts p rest h
    unfold decResultPline at h
    simp only [bind, Option.bind_eq_some_iff, Prod.exists, Option.some.injEq, Prod.mk.injEq] at h
    obtain ⟨t1, h1, t2, h2, q, t3, h3, t4, h4, ss, t5, h5, t6, h6, rfl, rfl⟩ := h
    rw [expect_only _ _ _ h1, expect_only _ _ _ h2, hp.only _ _ _ h3, expect_only _ _ _ h4, hs.only _ _ _ h5,
      expect_only _ _ _ h6]
    simp [encResultPline]

end

end Serde
end Cavc
