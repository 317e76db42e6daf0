import Verif.Spec.Repeat
import Verif.Spec.RatScalar
import Verif.Lemmas.Invert

/-! # C09, C10: repeat positions -/

set_option linter.unusedSectionVars false
set_option linter.unusedVariables false

namespace Cavc
open Scalar Pline
variable {T : Type} [Scalar T]

theorem mergeRuns_ne_nil (near : V2 T → V2 T → Bool) : ∀ (l : List (Vertex T)) (cur : Vertex T),
    mergeRuns near cur l ≠ []
  | [], cur => by simp [mergeRuns]
  | v :: l, cur => by
    unfold mergeRuns
    split_ifs
    · exact mergeRuns_ne_nil near l _
    · simp

/-- the first vertex of a merged list has the position of the first run -/
theorem mergeRuns_head (near : V2 T → V2 T → Bool) : ∀ (l : List (Vertex T)) (cur : Vertex T),
    ∃ b r, mergeRuns near cur l = ⟨cur.x, cur.y, b⟩ :: r
  | [], cur => ⟨cur.bulge, [], rfl⟩
  | v :: l, cur => by
    unfold mergeRuns
    split_ifs
    · exact mergeRuns_head near l _
    · exact ⟨cur.bulge, _, rfl⟩

/-- A merged list has no repeats. -/
theorem mergeRuns_noRepeats (near : V2 T → V2 T → Bool) : ∀ (l : List (Vertex T)) (cur : Vertex T),
    NoRepeats near (mergeRuns near cur l)
  | [], cur => by simp [mergeRuns, NoRepeats]
  | v :: l, cur => by
    unfold mergeRuns
    split_ifs with h
    · exact mergeRuns_noRepeats near l _
    · have ih := mergeRuns_noRepeats near l v
      obtain ⟨b, r, hr⟩ := mergeRuns_head near l v
      rw [hr] at ih ⊢
      exact ⟨by simpa [Vertex.pos] using h, ih⟩

theorem mergeRuns_length_le (near : V2 T → V2 T → Bool) : ∀ (l : List (Vertex T)) (cur : Vertex T),
    (mergeRuns near cur l).length ≤ l.length + 1
  | [], cur => by simp [mergeRuns]
  | v :: l, cur => by
    unfold mergeRuns
    split_ifs with h
    · have := mergeRuns_length_le near l ⟨cur.x, cur.y, v.bulge⟩
      simp; omega
    · have := mergeRuns_length_le near l v
      simp; omega

/-- Merging changes nothing exactly when there are no repeats. -/
theorem mergeRuns_eq_iff (near : V2 T → V2 T → Bool) : ∀ (l : List (Vertex T)) (cur : Vertex T),
    mergeRuns near cur l = cur :: l ↔ NoRepeats near (cur :: l)
  | [], cur => by simp [mergeRuns, NoRepeats]
  | v :: l, cur => by
    unfold mergeRuns
    split_ifs with h
    · constructor
      · intro he
        have := mergeRuns_length_le near l ⟨cur.x, cur.y, v.bulge⟩
        rw [he] at this; simp at this; omega
      · intro hn; simp [NoRepeats, h] at hn
    · simp only [List.cons.injEq, true_and, NoRepeats]
      rw [mergeRuns_eq_iff near l v]
      simp [h]

theorem mergeRepeats_eq_iff (near : V2 T → V2 T → Bool) (l : List (Vertex T)) :
    mergeRepeats near l = l ↔ NoRepeats near l := by
  cases l with
  | nil => simp [mergeRepeats, NoRepeats]
  | cons a l => exact mergeRuns_eq_iff near l a

theorem mergeRepeats_noRepeats (near : V2 T → V2 T → Bool) (l : List (Vertex T)) :
    NoRepeats near (mergeRepeats near l) := by
  cases l with
  | nil => simp [mergeRepeats, NoRepeats]
  | cons a l => exact mergeRuns_noRepeats near l a

/-! ## C10 -/

/-- `last ≈ v` as tested by `add_or_replace_vertex` -/
def nearFwd (eps : T) (a b : V2 T) : Bool := a.fuzzyEqEps b eps
/-- `v ≈ prev` as tested by `remove_repeat_pos` -/
def nearBwd (eps : T) (a b : V2 T) : Bool := b.fuzzyEqEps a eps

theorem addOrReplace_nil (v : Vertex T) (eps : T) (c : Bool) :
    (⟨[], c⟩ : Pline T).addOrReplaceVertex v eps = .ok ⟨[v], c⟩ := rfl

theorem addOrReplace_snoc (pre : List (Vertex T)) (cur v : Vertex T) (eps : T) (c : Bool) :
    (⟨pre ++ [cur], c⟩ : Pline T).addOrReplaceVertex v eps = .ok
      (if nearFwd eps cur.pos v.pos then ⟨pre ++ [⟨cur.x, cur.y, v.bulge⟩], c⟩
       else ⟨pre ++ [cur, v], c⟩) := by
  have h : (⟨pre ++ [cur], c⟩ : Pline T).at (pre.length + 1 - 1) = .ok cur := at_ok (by simp)
  unfold addOrReplaceVertex vertexCount nearFwd
  simp only [List.length_append, List.length_cons, List.length_nil, Nat.zero_add, h, bind,
    Except.bind, Nat.add_eq_zero_iff, Nat.one_ne_zero, and_false, if_false]
  split_ifs
  · rw [setVertex_lt (by simp)]
    simp [Vertex.withBulge]
  · simp [addVertex]

/-- **C10** `add_or_replace_vertex` never panics; it replaces the bulge of the last vertex when the
new position repeats it and appends otherwise, so it keeps `NoRepeats`. -/
theorem C10_add_or_replace (p : Pline T) (v : Vertex T) (eps : T) :
    ∃ q, p.addOrReplaceVertex v eps = .ok q ∧ q.closed = p.closed ∧
      (q.verts = p.verts ++ [v] ∨
        ∃ pre cur, p.verts = pre ++ [cur] ∧ nearFwd eps cur.pos v.pos = true ∧
          q.verts = pre ++ [⟨cur.x, cur.y, v.bulge⟩]) ∧
      (p.verts.head?.map (·.pos) = q.verts.head?.map (·.pos) ∨ p.verts = []) ∧
      (∀ pre cur, p.verts = pre ++ [cur] → nearFwd eps cur.pos v.pos = false →
        q.verts = p.verts ++ [v]) := by
  obtain ⟨vs, c⟩ := p
  rcases List.eq_nil_or_concat vs with rfl | ⟨pre, cur, rfl⟩
  · exact ⟨_, addOrReplace_nil v eps c, rfl, Or.inl rfl, Or.inr rfl, fun pre cur h => by simp at h⟩
  · rw [List.concat_eq_append] at *
    refine ⟨_, addOrReplace_snoc pre cur v eps c, ?_⟩
    split_ifs with h
    · refine ⟨rfl, Or.inr ⟨pre, cur, rfl, h, rfl⟩, Or.inl ?_, ?_⟩
      · cases pre <;> simp [Vertex.pos]
      · intro pre' cur' he hf
        have := List.append_inj_right' he rfl
        simp at this; subst this; rw [h] at hf; cases hf
    · refine ⟨rfl, Or.inl (by simp), Or.inl ?_, fun _ _ _ _ => by simp⟩
      cases pre <;> simp

theorem extend_spec (eps : T) (c : Bool) : ∀ (vs pre : List (Vertex T)) (cur : Vertex T),
    vs.foldlM (fun acc v => acc.addOrReplaceVertex v eps) (⟨pre ++ [cur], c⟩ : Pline T)
      = .ok ⟨pre ++ mergeRuns (nearFwd eps) cur vs, c⟩
  | [], pre, cur => rfl
  | v :: vs, pre, cur => by
    rw [List.foldlM_cons, addOrReplace_snoc]
    simp only [bind, Except.bind]
    unfold mergeRuns
    split_ifs with h
    · exact extend_spec eps c vs pre _
    · have := extend_spec eps c vs (pre ++ [cur]) v
      simp only [List.append_assoc, List.cons_append, List.nil_append] at this
      rw [this]

theorem extend_spec_nil (eps : T) (c : Bool) (vs : List (Vertex T)) :
    vs.foldlM (fun acc v => acc.addOrReplaceVertex v eps) (⟨[], c⟩ : Pline T)
      = .ok ⟨mergeRepeats (nearFwd eps) vs, c⟩ := by
  cases vs with
  | nil => rfl
  | cons v vs =>
    rw [List.foldlM_cons, addOrReplace_nil]
    exact extend_spec eps c vs [] v

/-- **C10** `extend_remove_repeat` never panics; it appends the other polyline's vertexes and merges
repeats, starting with the last vertex of `self`. -/
theorem C10_extend_remove_repeat (p other : Pline T) (eps : T) :
    ∃ q, p.extendRemoveRepeat other eps = .ok q ∧ q.closed = p.closed ∧
      (p.verts = [] → q.verts = mergeRepeats (nearFwd eps) other.verts) ∧
      (∀ pre cur, p.verts = pre ++ [cur] →
        q.verts = pre ++ mergeRuns (nearFwd eps) cur other.verts) ∧
      (NoRepeats (nearFwd eps) p.verts → NoRepeats (nearFwd eps) q.verts) := by
  obtain ⟨vs, c⟩ := p
  rcases List.eq_nil_or_concat vs with rfl | ⟨pre, cur, rfl⟩
  · refine ⟨_, extend_spec_nil eps c other.verts, rfl, fun _ => rfl, fun pre cur h => by simp at h,
      fun _ => mergeRepeats_noRepeats _ _⟩
  · rw [List.concat_eq_append] at *
    refine ⟨_, extend_spec eps c other.verts pre cur, rfl, fun h => by simp at h, ?_, ?_⟩
    · intro pre' cur' he
      have h1 := List.append_inj_right' he rfl
      have h2 := List.append_inj_left' he rfl
      simp at h1; subst h1; subst h2; rfl
    · intro hn
      have key : ∀ (pre : List (Vertex T)), NoRepeats (nearFwd eps) (pre ++ [cur]) →
          NoRepeats (nearFwd eps) (pre ++ mergeRuns (nearFwd eps) cur other.verts) := by
        intro pre
        induction pre with
        | nil => intro _; exact mergeRuns_noRepeats _ _ _
        | cons a pre ih =>
          intro h
          obtain ⟨b, r, hr⟩ := mergeRuns_head (nearFwd eps) other.verts cur
          cases pre with
          | nil =>
            simp only [List.cons_append, List.nil_append, NoRepeats] at h ih ⊢
            have := mergeRuns_noRepeats (nearFwd eps) other.verts cur
            rw [hr] at this ⊢
            exact ⟨h.1, this⟩
          | cons a' pre =>
            simp only [List.cons_append, NoRepeats] at h ih ⊢
            exact ⟨h.1, ih h.2⟩
      exact key pre hn

/-- **C10** `create_from_remove_repeat` never panics; it merges repeats, and for a closed polyline
drops the last vertex when it repeats the first.  The result has no consecutive repeats. -/
theorem C10_create_from_remove_repeat (p : Pline T) (eps : T) :
    ∃ q, p.createFromRemoveRepeat eps = .ok q ∧ q.closed = p.closed ∧
      NoRepeats (nearFwd eps) q.verts ∧
      (q.verts = mergeRepeats (nearFwd eps) p.verts ∨
        (p.closed = true ∧ ∃ first mid last, mergeRepeats (nearFwd eps) p.verts = first :: mid ++ [last] ∧
          nearFwd eps last.pos first.pos = true ∧ q.verts = first :: mid)) ∧
      (p.closed = true → ∀ first mid last, q.verts = first :: mid ++ [last] →
        q.verts = mergeRepeats (nearFwd eps) p.verts → nearFwd eps last.pos first.pos = false) := by
  have hnr := mergeRepeats_noRepeats (nearFwd eps) p.verts
  unfold createFromRemoveRepeat
  rw [extend_spec_nil]
  simp only [bind, Except.bind]
  generalize mergeRepeats (nearFwd eps) p.verts = m at *
  by_cases hcond : (p.closed && decide ((⟨m, p.closed⟩ : Pline T).vertexCount ≥ 2)) = true
  · rw [if_pos hcond]
    simp only [Bool.and_eq_true, vertexCount] at hcond
    obtain ⟨hc, h2⟩ := hcond
    obtain ⟨first, mid, last, rfl⟩ : ∃ first mid last, m = first :: mid ++ [last] := by
      rcases m with _ | ⟨a, m⟩
      · simp at h2
      · rcases List.eq_nil_or_concat m with rfl | ⟨mid, l, rfl⟩
        · simp at h2
        · exact ⟨a, mid, l, by simp⟩
    have hlast : (⟨first :: mid ++ [last], p.closed⟩ : Pline T).last = some last := by
      unfold Pline.last; rw [List.getLast?_append]; rfl
    have hfirst : (⟨first :: mid ++ [last], p.closed⟩ : Pline T).at 0 = .ok first := at_ok (by simp)
    simp only [hlast, unwrap, hfirst]
    by_cases hz : last.pos.fuzzyEqEps first.pos eps = true
    · rw [if_pos hz]
      have hrem : (⟨first :: mid ++ [last], p.closed⟩ : Pline T).removeLast
          = .ok (last, ⟨first :: mid, p.closed⟩) := by
        unfold removeLast remove
        simp [List.eraseIdx_append_of_length_le]
      simp only [hrem]
      refine ⟨_, rfl, rfl, ?_, Or.inr ⟨hc, first, mid, last, rfl, hz, rfl⟩, ?_⟩
      · clear hlast hfirst hz hrem h2
        induction mid generalizing first with
        | nil => simp [NoRepeats]
        | cons a mid ih =>
          simp only [List.cons_append, NoRepeats] at hnr ⊢
          exact ⟨hnr.1, ih a hnr.2⟩
      · intro _ f m' l _ he
        have := congrArg List.length he
        simp at this
    · rw [if_neg hz]
      refine ⟨_, rfl, rfl, hnr, Or.inl rfl, ?_⟩
      intro _ f m' l he _
      simp only [List.cons_append, List.cons.injEq] at he
      have h1 := List.append_inj_right' he.2 rfl
      simp only [List.cons.injEq, and_true] at h1
      rw [← he.1, ← h1]; simpa [nearFwd] using hz
  · rw [if_neg hcond]
    refine ⟨_, rfl, rfl, hnr, Or.inl rfl, ?_⟩
    intro hc f m' l he _
    exfalso; apply hcond
    simp only at he
    simp [hc, vertexCount, he]

/-! ## C09 -/

theorem removeRepeatLoop_some (p : Pline T) (eps : T) : ∀ (l : List (Vertex T × Nat))
    (pre : List (Vertex T)) (cur : Vertex T) (c : Bool),
    removeRepeatLoop p eps l cur.pos (some ⟨pre ++ [cur], c⟩)
      = .ok (some ⟨pre ++ mergeRuns (nearBwd eps) cur (l.map (·.1)), c⟩)
  | [], pre, cur, c => rfl
  | (v, i) :: l, pre, cur, c => by
    unfold removeRepeatLoop
    simp only [List.map_cons, mergeRuns]
    by_cases h : v.pos.fuzzyEqEps cur.pos eps = true
    · have h' : nearBwd eps cur.pos v.pos = true := h
      rw [if_pos h, if_pos h']
      have hl : (⟨pre ++ [cur], c⟩ : Pline T).last = some cur := by simp [Pline.last]
      have hset : (⟨pre ++ [cur], c⟩ : Pline T).setLast (cur.withBulge v.bulge)
          = .ok ⟨pre ++ [⟨cur.x, cur.y, v.bulge⟩], c⟩ := by
        unfold setLast
        rw [if_neg (by simp), setVertex_lt (by simp)]
        simp [Vertex.withBulge]
      simp only [Option.getD_some, hl, unwrap, bind, Except.bind, hset]
      exact removeRepeatLoop_some p eps l pre ⟨cur.x, cur.y, v.bulge⟩ c
    · have h' : ¬ nearBwd eps cur.pos v.pos = true := h
      rw [if_neg h, if_neg h']
      have := removeRepeatLoop_some p eps l (pre ++ [cur]) v c
      simp only [List.append_assoc, List.cons_append, List.nil_append] at this
      simpa [addVertex] using this

theorem removeRepeatLoop_none (p : Pline T) (eps : T) : ∀ (k i : Nat) (hi : i < p.verts.length),
    p.verts.length - (i + 1) = k → ∀ (cur : Vertex T), p.verts[i] = cur →
    (mergeRuns (nearBwd eps) cur (p.verts.drop (i + 1)) = cur :: p.verts.drop (i + 1) ∧
      removeRepeatLoop p eps (p.verts.zipIdx.drop (i + 1)) cur.pos none = .ok none) ∨
    (mergeRuns (nearBwd eps) cur (p.verts.drop (i + 1)) ≠ cur :: p.verts.drop (i + 1) ∧
      removeRepeatLoop p eps (p.verts.zipIdx.drop (i + 1)) cur.pos none = .ok (some
        ⟨p.verts.take i ++ mergeRuns (nearBwd eps) cur (p.verts.drop (i + 1)), p.closed⟩)) := by
  intro k
  induction k with
  | zero =>
    intro i hi hk cur hcur
    have h1 : p.verts.drop (i + 1) = [] := by rw [List.drop_eq_nil_iff]; omega
    have h2 : p.verts.zipIdx.drop (i + 1) = [] := by
      rw [List.drop_eq_nil_iff, List.length_zipIdx]; omega
    rw [h1, h2]
    exact Or.inl ⟨rfl, rfl⟩
  | succ k ih =>
    intro i hi hk cur hcur
    have hi1 : i + 1 < p.verts.length := by omega
    have h1 : p.verts.drop (i + 1) = p.verts[i + 1] :: p.verts.drop (i + 2) :=
      List.drop_eq_getElem_cons hi1
    have h2 : p.verts.zipIdx.drop (i + 1) = (p.verts[i + 1], i + 1) :: p.verts.zipIdx.drop (i + 2) := by
      rw [List.drop_eq_getElem_cons (by simpa using hi1)]; simp
    rw [h1, h2]
    unfold removeRepeatLoop
    simp only [mergeRuns]
    generalize hv : p.verts[i + 1] = v
    by_cases h : v.pos.fuzzyEqEps cur.pos eps = true
    · have h' : nearBwd eps cur.pos v.pos = true := h
      right
      simp only [if_pos h, if_pos h']
      have htake : p.verts.take (i + 1) = p.verts.take i ++ [cur] := by
        rw [List.take_succ_eq_append_getElem hi, hcur]
      have hl : (⟨p.verts.take i ++ [cur], p.closed⟩ : Pline T).last = some cur := by simp [Pline.last]
      have hset : (⟨p.verts.take i ++ [cur], p.closed⟩ : Pline T).setLast (cur.withBulge v.bulge)
          = .ok ⟨p.verts.take i ++ [⟨cur.x, cur.y, v.bulge⟩], p.closed⟩ := by
        unfold setLast
        rw [if_neg (by simp), setVertex_lt (by simp)]
        simp [Vertex.withBulge]
      simp only [Option.getD_none, htake, hl, unwrap, bind, Except.bind, hset]
      have := removeRepeatLoop_some p eps (p.verts.zipIdx.drop (i + 2)) (p.verts.take i)
        ⟨cur.x, cur.y, v.bulge⟩ p.closed
      have hmap : (p.verts.zipIdx.drop (i + 2)).map (·.1) = p.verts.drop (i + 2) := by
        rw [List.map_drop, List.zipIdx_map_fst]
      rw [hmap] at this
      refine ⟨?_, this⟩
      intro he
      have hlen := mergeRuns_length_le (nearBwd eps) (p.verts.drop (i + 2)) ⟨cur.x, cur.y, v.bulge⟩
      rw [he] at hlen
      simp at hlen
      omega
    · have h' : ¬ nearBwd eps cur.pos v.pos = true := h
      simp only [if_neg h, if_neg h', Option.map_none]
      rcases ih (i + 1) hi1 (by omega) v hv with ⟨e1, e2⟩ | ⟨e1, e2⟩
      · left
        refine ⟨?_, e2⟩
        rw [e1]
      · right
        refine ⟨by simpa using e1, ?_⟩
        rw [e2, List.take_succ_eq_append_getElem hi, hcur]
        simp

theorem loop_start (p : Pline T) (eps : T) (h2 : 2 ≤ p.verts.length) :
    mergeRepeats (nearBwd eps) p.verts
      = mergeRuns (nearBwd eps) p.verts[0] (p.verts.drop (0 + 1)) ∧
    ((NoRepeats (nearBwd eps) p.verts ∧
      removeRepeatLoop p eps (p.verts.zipIdx.drop 1) (p.verts[0]).pos none = .ok none) ∨
    (¬ NoRepeats (nearBwd eps) p.verts ∧
      removeRepeatLoop p eps (p.verts.zipIdx.drop 1) (p.verts[0]).pos none = .ok (some
        ⟨mergeRepeats (nearBwd eps) p.verts, p.closed⟩))) := by
  have hv : p.verts = p.verts[0] :: p.verts.drop (0 + 1) := by
    conv_lhs => rw [← List.drop_zero (l := p.verts), List.drop_eq_getElem_cons (by omega)]
  have hm : mergeRepeats (nearBwd eps) p.verts
      = mergeRuns (nearBwd eps) p.verts[0] (p.verts.drop (0 + 1)) := by
    conv_lhs => rw [hv]
    rfl
  refine ⟨hm, ?_⟩
  have hiff : mergeRuns (nearBwd eps) p.verts[0] (p.verts.drop (0 + 1))
      = p.verts[0] :: p.verts.drop (0 + 1) ↔ NoRepeats (nearBwd eps) p.verts := by
    rw [← mergeRepeats_eq_iff, hm, ← hv]
  rcases removeRepeatLoop_none p eps _ 0 (by omega) rfl p.verts[0] rfl with ⟨e1, e2⟩ | ⟨e1, e2⟩
  · exact Or.inl ⟨hiff.mp e1, e2⟩
  · refine Or.inr ⟨fun h => e1 (hiff.mpr h), ?_⟩
    rw [hm]; simpa using e2

/-- **C09** `remove_repeat_pos` of an open polyline: never panics, `None` exactly when no vertex
repeats its predecessor, otherwise the runs are merged (first position, last bulge) and no
consecutive repeats are left. -/
theorem C09_open (p : Pline T) (hc : p.closed = false) (eps : T) :
    ∃ r, p.removeRepeatPos eps = .ok r ∧
      (r = none ↔ NoRepeats (nearBwd eps) p.verts) ∧
      ∀ q, r = some q → q.closed = false ∧ q.verts = mergeRepeats (nearBwd eps) p.verts ∧
        NoRepeats (nearBwd eps) q.verts := by
  classical
  unfold removeRepeatPos vertexCount
  by_cases h2 : p.verts.length < 2
  · rw [if_pos h2]
    refine ⟨none, rfl, ?_, fun q h => by simp at h⟩
    rcases hv : p.verts with _ | ⟨a, _ | ⟨b, l⟩⟩
    · simp [NoRepeats]
    · simp [NoRepeats]
    · rw [hv] at h2; simp at h2; omega
  · rw [if_neg h2]
    obtain ⟨hm, hl⟩ := loop_start p eps (by omega)
    rw [at_lt (show 0 < p.verts.length by omega)]
    simp only [bind, Except.bind]
    rcases hl with ⟨e1, e2⟩ | ⟨e1, e2⟩
    · rw [e2]
      simp only [hc, Bool.false_eq_true, if_false]
      exact ⟨_, rfl, by simp [e1], fun q h => by simp at h⟩
    · rw [e2]
      simp only [hc, Bool.false_eq_true, if_false]
      refine ⟨_, rfl, by simp [e1], fun q h => ?_⟩
      simp only [Option.some.injEq] at h
      subst h
      exact ⟨rfl, rfl, mergeRepeats_noRepeats _ _⟩

theorem noRepeats_dropLast (near : V2 T → V2 T → Bool) : ∀ l : List (Vertex T),
    NoRepeats near l → NoRepeats near l.dropLast
  | [], _ => trivial
  | [_], _ => trivial
  | [a, b], _ => trivial
  | a :: b :: c :: l, h => ⟨h.1, noRepeats_dropLast near (b :: c :: l) h.2⟩

/-- **C09** `remove_repeat_pos` of a closed polyline with at least two vertexes: never panics;
`None` exactly when there are no repeats, the last/first pair included; otherwise the runs are
merged and, when the last vertex repeats the first, the last merged vertex is dropped. -/
theorem C09_closed (p : Pline T) (hc : p.closed = true) (h2 : 2 ≤ p.verts.length) (eps : T)
    (first last : Vertex T) (hf : p.verts.head? = some first) (hl : p.verts.getLast? = some last) :
    ∃ r, p.removeRepeatPos eps = .ok r ∧
      (r = none ↔ (NoRepeats (nearBwd eps) p.verts ∧ last.pos.fuzzyEqEps first.pos eps = false)) ∧
      ∀ q, r = some q → q.closed = true ∧
        (last.pos.fuzzyEqEps first.pos eps = false →
          q.verts = mergeRepeats (nearBwd eps) p.verts) ∧
        (last.pos.fuzzyEqEps first.pos eps = true →
          q.verts = (mergeRepeats (nearBwd eps) p.verts).dropLast) ∧
        NoRepeats (nearBwd eps) q.verts := by
  unfold removeRepeatPos vertexCount
  rw [if_neg (by omega)]
  obtain ⟨hm, hlp⟩ := loop_start p eps h2
  have h0 : 0 < p.verts.length := by omega
  have hfirst : p.verts[0] = first := by
    rw [List.head?_eq_getElem?, List.getElem?_eq_getElem h0] at hf; simpa using hf
  rw [at_lt h0]
  simp only [bind, Except.bind]
  have hrem : ∀ l : List (Vertex T), l ≠ [] → ∃ v, (⟨l, p.closed⟩ : Pline T).removeLast
      = .ok (v, ⟨l.dropLast, p.closed⟩) := by
    intro l hne
    obtain ⟨l', v, rfl⟩ := List.eq_nil_or_concat l |>.resolve_left hne
    refine ⟨v, ?_⟩
    unfold removeLast remove
    simp [List.eraseIdx_append_of_length_le]
  have hne : mergeRepeats (nearBwd eps) p.verts ≠ [] := by
    rcases hv : p.verts with _ | ⟨a, l⟩
    · rw [hv] at h0; simp at h0
    · exact mergeRuns_ne_nil _ _ _
  have hlast : p.last = some last := hl
  by_cases hw : last.pos.fuzzyEqEps first.pos eps = true
  · rcases hlp with ⟨e1, e2⟩ | ⟨e1, e2⟩
    · rw [e2]
      obtain ⟨v, hv⟩ := hrem p.verts (by intro h; rw [h] at h0; simp at h0)
      simp only [hc] at hv
      simp only [hc, if_true, hlast, unwrap, hfirst, hw, Option.getD_none, hv]
      refine ⟨_, rfl, by simp, ?_⟩
      intro q h
      simp only [Option.some.injEq] at h
      subst h
      refine ⟨rfl, fun h => by simp at h, fun _ => ?_, noRepeats_dropLast _ _ e1⟩
      rw [(mergeRepeats_eq_iff _ _).mpr e1]
    · rw [e2]
      obtain ⟨v, hv⟩ := hrem _ hne
      simp only [hc] at hv
      simp only [hc, if_true, hlast, unwrap, hfirst, hw, Option.getD_some, hv]
      refine ⟨_, rfl, by simp, ?_⟩
      intro q h
      simp only [Option.some.injEq] at h
      subst h
      exact ⟨rfl, fun h => by simp at h, fun _ => rfl,
        noRepeats_dropLast _ _ (mergeRepeats_noRepeats _ _)⟩
  · have hw' : last.pos.fuzzyEqEps first.pos eps = false := by simpa using hw
    rcases hlp with ⟨e1, e2⟩ | ⟨e1, e2⟩
    · rw [e2]
      simp only [hc, if_true, hlast, unwrap, hfirst, hw', Bool.false_eq_true, if_false]
      exact ⟨_, rfl, by simp [e1], fun q h => by simp at h⟩
    · rw [e2]
      simp only [hc, if_true, hlast, unwrap, hfirst, hw', Bool.false_eq_true, if_false]
      refine ⟨_, rfl, by simp [e1], ?_⟩
      intro q h
      simp only [Option.some.injEq] at h
      subst h
      exact ⟨rfl, fun _ => rfl, fun h => by simp at h, mergeRepeats_noRepeats _ _⟩

/-- Nearness is an equivalence on the positions of the list (no chains of positions that are
pairwise near but drift apart). -/
structure NearEquiv (near : V2 T → V2 T → Bool) (l : List (Vertex T)) : Prop where
  refl : ∀ a ∈ l, near a.pos a.pos = true
  symm : ∀ a ∈ l, ∀ b ∈ l, near a.pos b.pos = true → near b.pos a.pos = true
  trans : ∀ a ∈ l, ∀ b ∈ l, ∀ c ∈ l, near a.pos b.pos = true → near b.pos c.pos = true →
    near a.pos c.pos = true

/-- every merged vertex has the position of a source vertex, and the last merged vertex is near the
last source vertex -/
theorem mergeRuns_last (near : V2 T → V2 T → Bool) : ∀ (l : List (Vertex T)) (cur : Vertex T)
    (hr : ∀ a ∈ cur :: l, near a.pos a.pos = true),
    (∀ w ∈ mergeRuns near cur l, ∃ v ∈ cur :: l, v.pos = w.pos) ∧
    ∃ w v, (mergeRuns near cur l).getLast? = some w ∧ (cur :: l).getLast? = some v ∧
      near w.pos v.pos = true
  | [], cur, hr => ⟨fun w h => ⟨w, h, rfl⟩, cur, cur, rfl, rfl, hr cur (by simp)⟩
  | v :: l, cur, hr => by
    unfold mergeRuns
    split_ifs with h
    · obtain ⟨h1, w, u, hw, hu, hn⟩ := mergeRuns_last near l ⟨cur.x, cur.y, v.bulge⟩ (by
        intro a ha
        rcases List.mem_cons.mp ha with rfl | ha
        · exact hr cur (by simp)
        · exact hr a (by simp [ha]))
      refine ⟨?_, ?_⟩
      · intro w hw
        obtain ⟨v', hv', he⟩ := h1 w hw
        rcases List.mem_cons.mp hv' with rfl | hv'
        · exact ⟨cur, by simp, he⟩
        · exact ⟨v', by simp [hv'], he⟩
      · cases l with
        | nil =>
          simp only [mergeRuns, List.getLast?_singleton, Option.some.injEq] at hw
          subst hw
          exact ⟨_, v, rfl, rfl, h⟩
        | cons b l => exact ⟨w, u, hw, by simpa using hu, hn⟩
    · obtain ⟨h1, w, u, hw, hu, hn⟩ := mergeRuns_last near l v (fun a ha => hr a (by simp [ha]))
      refine ⟨?_, w, u, ?_, by simpa using hu, hn⟩
      · intro w hw
        rcases List.mem_cons.mp hw with rfl | hw
        · exact ⟨w, by simp, rfl⟩
        · obtain ⟨v', hv', he⟩ := h1 w hw
          exact ⟨v', by simp [hv'], he⟩
      · obtain ⟨b, r, hr'⟩ := mergeRuns_head near l v
        rw [hr'] at hw ⊢
        simpa using hw

theorem noRepeats_append_pair (near : V2 T → V2 T → Bool) : ∀ (l : List (Vertex T)) (a b : Vertex T),
    NoRepeats near (l ++ [a, b]) → near a.pos b.pos = false
  | [], a, b, h => h.1
  | [c], a, b, h => h.2.1
  | c :: d :: l, a, b, h => noRepeats_append_pair near (d :: l) a b h.2

/-- **C09** (cyclic part, partial) When nearness is an equivalence on the vertexes of a closed
polyline, the result has no repeats cyclically either: its last vertex does not repeat its first.
Without that hypothesis the claim is false, see `C09_drift_witness`. -/
theorem C09_closed_cyclic_partial (p : Pline T) (hc : p.closed = true) (eps : T)
    (he : NearEquiv (nearBwd eps) p.verts) (q : Pline T)
    (hq : p.removeRepeatPos eps = .ok (some q)) (f l : Vertex T) (mid : List (Vertex T))
    (hs : q.verts = f :: mid ++ [l]) : nearBwd eps l.pos f.pos = false := by
  by_cases h2 : p.verts.length < 2
  · simp [removeRepeatPos, vertexCount, h2] at hq
  obtain ⟨first, rest, hv⟩ : ∃ a r, p.verts = a :: r := by
    rcases hv : p.verts with _ | ⟨a, r⟩
    · simp [hv] at h2
    · exact ⟨a, r, rfl⟩
  have hne : p.verts ≠ [] := by simp [hv]
  obtain ⟨r, hr, -, hsome⟩ := C09_closed p hc (by omega) eps first (p.verts.getLast hne)
    (by rw [hv]; rfl) (List.getLast?_eq_getLast_of_ne_nil hne)
  rw [hq] at hr
  simp only [Except.ok.injEq] at hr
  obtain ⟨-, hfalse, htrue, hnr⟩ := hsome q hr.symm
  have hmr : mergeRepeats (nearBwd eps) p.verts = mergeRuns (nearBwd eps) first rest := by
    rw [hv]; rfl
  rw [hv] at he
  obtain ⟨hmem, w, u, hw, hu, hn⟩ := mergeRuns_last (nearBwd eps) rest first he.refl
  have hu' : p.verts.getLast hne = u := by
    rw [← hv, List.getLast?_eq_getLast_of_ne_nil hne] at hu; simpa using hu
  rw [hu'] at hfalse htrue
  rw [hmr] at hfalse htrue
  obtain ⟨b, tl, hhead⟩ := mergeRuns_head (nearBwd eps) rest first
  have hfirst_mem : first ∈ first :: rest := by simp
  have hu_mem : u ∈ first :: rest := List.mem_of_getLast? hu
  cases hwrap : u.pos.fuzzyEqEps first.pos eps with
  | false =>
    have hqv := hfalse hwrap
    rw [hs] at hqv
    -- l is the last merged vertex, f the first
    have hl : l = w := by
      rw [← hqv, List.getLast?_append] at hw; simpa using hw
    have hf : f.pos = first.pos := by
      rw [hhead] at hqv
      simp only [List.cons_append, List.cons.injEq] at hqv
      rw [hqv.1]; rfl
    rw [hf, hl]
    by_contra hcon
    rw [Bool.not_eq_false] at hcon
    obtain ⟨w', hw', hpos⟩ := hmem w (List.mem_of_getLast? hw)
    rw [← hpos] at hcon hn
    have h1 := he.symm u hu_mem first hfirst_mem (by
      apply he.trans u hu_mem w' hw' first hfirst_mem (he.symm _ hw' _ hu_mem hn) hcon)
    have : u.pos.fuzzyEqEps first.pos eps = true := h1
    rw [this] at hwrap; cases hwrap
  | true =>
    have hqv := htrue hwrap
    rw [hs] at hqv
    -- the merged list ends with l, w
    have hml : mergeRuns (nearBwd eps) first rest = f :: mid ++ [l, w] := by
      obtain ⟨ini, x, hx⟩ := (List.eq_nil_or_concat _).resolve_left (mergeRuns_ne_nil (nearBwd eps) rest first)
      rw [List.concat_eq_append] at hx
      rw [hx] at hw hqv ⊢
      have : x = w := by simpa using hw
      subst this
      have : ini = f :: mid ++ [l] := by simpa using hqv.symm
      rw [this]; simp
    have hlw : nearBwd eps l.pos w.pos = false := by
      have := mergeRuns_noRepeats (nearBwd eps) rest first
      rw [hml] at this
      exact noRepeats_append_pair _ (f :: mid) l w this
    have hf : f.pos = first.pos := by
      rw [hhead] at hml
      simp only [List.cons_append, List.cons.injEq] at hml
      rw [← hml.1]; rfl
    rw [hf]
    by_contra hcon
    rw [Bool.not_eq_false] at hcon
    obtain ⟨w', hw', hposw⟩ := hmem w (List.mem_of_getLast? hw)
    obtain ⟨l', hl', hposl⟩ := hmem l (by rw [hml]; simp)
    rw [← hposw] at hn hlw
    rw [← hposl] at hlw hcon
    have h1 : nearBwd eps first.pos u.pos = true := hwrap
    have h2 := he.trans l' hl' first hfirst_mem u hu_mem hcon h1
    have h3 := he.trans l' hl' u hu_mem w' hw' h2 (he.symm _ hw' _ hu_mem hn)
    rw [h3] at hlw; cases hlw

/-! ## Witnesses -/

/-- Non-vacuity for `C09_open`/`C09_closed`: a run in the middle is merged. -/
example : (⟨[⟨0, 0, 0⟩, ⟨1, 0, 0⟩, ⟨1, 0, 1⟩, ⟨1, 1, 0⟩, ⟨0, 0, 0⟩], true⟩ : Pline Rat).removeRepeatPos (1 / 100)
    = .ok (some ⟨[⟨0, 0, 0⟩, ⟨1, 0, 1⟩, ⟨1, 1, 0⟩], true⟩) := by decide +kernel

/-- Non-vacuity for `C10`. -/
example : (⟨[⟨0, 0, 0⟩, ⟨1, 0, 0⟩, ⟨1, 0, 1⟩, ⟨1, 1, 0⟩, ⟨0, 0, 0⟩], true⟩ : Pline Rat).createFromRemoveRepeat (1 / 100)
    = .ok ⟨[⟨0, 0, 0⟩, ⟨1, 0, 1⟩, ⟨1, 1, 0⟩], true⟩ := by decide +kernel

/-- Non-vacuity for `C09_closed_cyclic_partial`: nearness is an equivalence here. -/
example : NearEquiv (nearBwd (1 / 100 : Rat))
    [⟨0, 0, 0⟩, ⟨1, 0, 0⟩, ⟨1, 0, 1⟩, ⟨1, 1, 0⟩, ⟨0, 0, 0⟩] :=
  ⟨by decide +kernel, by decide +kernel, by decide +kernel⟩

/-- **C09** (finding) The wrap-around test looks at the source's last vertex, not at the result's:
here the result's last vertex still repeats its first. -/
theorem C09_drift_witness :
    (⟨[⟨0, 0, 0⟩, ⟨20, 0, 0⟩, ⟨0, 9, 0⟩, ⟨0, 15, 0⟩], true⟩ : Pline Rat).removeRepeatPos 10
      = .ok (some ⟨[⟨0, 0, 0⟩, ⟨20, 0, 0⟩, ⟨0, 9, 0⟩], true⟩) ∧
    nearBwd (10 : Rat) ⟨0, 9⟩ ⟨0, 0⟩ = true := by decide +kernel

/-- **C09** (finding) A closed polyline whose vertexes all coincide becomes empty: the position is
lost. -/
theorem C09_empty_witness :
    (⟨[⟨1, 1, 0⟩, ⟨1, 1, 0⟩], true⟩ : Pline Rat).removeRepeatPos (1 / 100) = .ok (some ⟨[], true⟩) := by
  decide +kernel

end Cavc
