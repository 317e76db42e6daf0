import Verif.Lemmas.Shape

/-! # Dissecting and stitching the offset loops of a shape -/

set_option linter.unusedSectionVars false
set_option linter.unusedVariables false

namespace Cavc
open Scalar Pline
variable {T : Type} [Scalar T]

/-! ## Tests -/

theorem shapePointValid_spec (inputs : List (IndexedPline T)) (hin : ∀ ip ∈ inputs, ip.index.Serves ip.pline) (offset : T)
    (o : ShapeOffsetOptions T) (parent : Nat) (pt : V2 T) (is : List Nat) (his : ∀ i ∈ is, i < inputs.length) :
    ∃ v, shapePointValid inputs offset o parent pt is = .ok v ∧
      (v = true ↔ ∀ j ∈ is, ∀ ip, inputs[j]? = some ip → j ≠ parent → PointClear ip.pline offset o.posEqualEps o.offsetDistEps pt) := by
  induction is with
  | nil => exact ⟨true, rfl, by simp⟩
  | cons i is ih =>
    obtain ⟨v, hv, hiff⟩ := ih (fun j hj => his j (by simp [hj]))
    unfold shapePointValid
    by_cases hp : i = parent
    · rw [if_pos hp]
      refine ⟨v, hv, hiff.trans ?_⟩
      constructor
      · intro h j hj ip hip hne
        rcases List.mem_cons.mp hj with rfl | hj
        · exact absurd hp hne
        · exact h j hj ip hip hne
      · intro h j hj
        exact h j (by simp [hj])
    · rw [if_neg hp]
      have hlt := his i (by simp)
      obtain ⟨b, hb, hbiff⟩ := pointValid_spec inputs[i].pline offset inputs[i].index (hin _ (List.getElem_mem hlt)) pt o.posEqualEps o.offsetDistEps
      simp only [List.getElem?_eq_getElem hlt, hb, bind, Except.bind]
      cases b with
      | true =>
        simp only [if_true]
        refine ⟨v, hv, hiff.trans ?_⟩
        constructor
        · intro h j hj ip hip hne
          rcases List.mem_cons.mp hj with rfl | hj
          · rw [List.getElem?_eq_getElem hlt] at hip
            cases hip
            exact hbiff.mp rfl
          · exact h j hj ip hip hne
        · intro h j hj
          exact h j (by simp [hj])
      | false =>
        simp only [Bool.false_eq_true, if_false]
        refine ⟨false, rfl, by simp, ?_⟩
        intro h
        have := hbiff.mpr (h i (by simp) _ (List.getElem?_eq_getElem hlt) hp)
        exact absurd this (by simp)

theorem shapeSliceValid_spec (inputs : List (IndexedPline T)) (hin : ∀ ip ∈ inputs, ip.index.Serves ip.pline) (offset : T)
    (o : ShapeOffsetOptions T) (parent : Nat) (raw : Pline T) (d : ViewData T) (hr : d.InRange raw) :
    ∃ v, shapeSliceValid inputs offset o d raw parent = .ok v ∧ (v = true ↔ MidClear inputs offset o parent raw d) := by
  obtain ⟨q, hq, hqc, hlen, hget⟩ := d.toPline_ok raw hr
  have h0 : 0 < q.verts.length := by omega
  have h1 : 1 < q.verts.length := by omega
  have hat : ∀ i (h : i < q.verts.length), d.at raw i = .ok q.verts[i] := by
    intro i h
    simp only [ViewData.at, hget i, List.getElem?_eq_getElem h, bind, Except.bind, unwrap]
  obtain ⟨v, hv, hiff⟩ := shapePointValid_spec inputs hin offset o parent (segMidpoint q.verts[0] q.verts[1]) (List.range inputs.length) (by simp)
  unfold shapeSliceValid
  simp only [hat 0 h0, hat 1 h1, bind, Except.bind]
  refine ⟨v, hv, hiff.trans ?_⟩
  have hreads : d.Reads raw q.verts := ⟨by rw [hq, ← hqc], by intro h; simp [h] at h0⟩
  constructor
  · intro h
    refine ⟨q.verts, q.verts[0], q.verts[1], hreads, List.getElem?_eq_getElem h0, List.getElem?_eq_getElem h1, ?_⟩
    intro j ip hip hne
    exact h j (by simpa using (List.getElem?_eq_some_iff.mp hip).1) ip hip hne
  · rintro ⟨vs, a, b, hreads', ha, hb, h⟩ j hj ip hip hne
    have : vs = q.verts := by
      have := hreads'.1.symm.trans hreads.1
      simpa using this
    subst this
    rw [List.getElem?_eq_getElem h0] at ha
    rw [List.getElem?_eq_getElem h1] at hb
    cases ha; cases hb
    exact h j ip hip hne

theorem inRange_reads {raw : Pline T} {d : ViewData T} (hr : d.InRange raw) : ∃ vs, d.Reads raw vs := by
  obtain ⟨q, hq, hqc, hlen, -⟩ := d.toPline_ok raw hr
  refine ⟨q.verts, by rw [hq, ← hqc], ?_⟩
  intro h
  rw [h] at hlen
  simp at hlen

/-! ## Dissecting -/

theorem KeptBy.append {raw : Pline T} {eps : T} {P : ViewData T → Prop} {gs gs' : List ((Nat × V2 T) × (Nat × V2 T))}
    {ss ss' : List (ViewData T)} (h : KeptBy raw eps P gs ss) (h' : KeptBy raw eps P gs' ss') :
    KeptBy raw eps P (gs ++ gs') (ss ++ ss') := by
  induction h with
  | nil => exact h'
  | empty a b gs ss h1 _ ih => exact .empty a b _ _ h1 ih
  | dropped a b s gs ss h1 h2 _ ih => exact .dropped a b s _ _ h1 h2 ih
  | kept a b s gs ss h1 h2 _ ih => exact .kept a b s _ _ h1 h2 ih

theorem keptBy_holds {raw : Pline T} {eps : T} {P : ViewData T → Prop} {gs : List ((Nat × V2 T) × (Nat × V2 T))}
    {ss : List (ViewData T)} (h : KeptBy raw eps P gs ss) : ∀ s ∈ ss, P s := by
  induction h with
  | nil => simp
  | empty _ _ _ _ _ _ ih => exact ih
  | dropped _ _ _ _ _ _ _ _ ih => exact ih
  | kept a b s gs ss _ hc _ ih =>
    intro s' hs'
    rcases List.mem_cons.mp hs' with rfl | h
    · exact hc
    · exact ih s' h

theorem dissectSlice_ok (inputs : List (IndexedPline T)) (hin : ∀ ip ∈ inputs, ip.index.Serves ip.pline) (offset : T)
    (o : ShapeOffsetOptions T) (l : OffsetLoop T) (i : Nat) (a b : DissectionPoint T)
    (ha : a.segIdx < l.ip.pline.verts.length) (hb : b.segIdx < l.ip.pline.verts.length) :
    ∃ ss, dissectSlice inputs offset o l i a b = .ok (ss.map fun d => ⟨i, d⟩) ∧
      KeptBy l.ip.pline o.posEqualEps (MidClear inputs offset o l.parent l.ip.pline) [((a.segIdx, a.pos), (b.segIdx, b.pos))] ss := by
  obtain ⟨r, hr, -, hsome⟩ := C21_slice l.ip.pline a.segIdx b.segIdx ha hb a.pos b.pos o.posEqualEps
  unfold dissectSlice
  simp only [hr, bind, Except.bind]
  cases r with
  | none => exact ⟨[], rfl, .empty _ _ _ _ hr .nil⟩
  | some d =>
    obtain ⟨q, base, hrange, -⟩ := hsome d rfl
    obtain ⟨v, hv, hiff⟩ := shapeSliceValid_spec inputs hin offset o l.parent l.ip.pline d hrange
    simp only [hv]
    cases v with
    | true => exact ⟨[d], rfl, .kept _ _ d _ _ hr (hiff.mp rfl) .nil⟩
    | false => exact ⟨[], rfl, .dropped _ _ d _ _ hr (fun h => by simpa using hiff.mpr h) .nil⟩

theorem loopPoints_eq (sets : List (SlicePointSet T)) (hne : ∀ x ∈ sets, x.points ≠ []) (i : Nat) :
    (loopPoints sets i = none ∧ cutsOfLoop sets i = []) ∨
    ∃ pts, loopPoints sets i = some pts ∧ pts ≠ [] ∧ pts.map (fun p => (p.segIdx, p.pos)) = cutsOfLoop sets i := by
  have hmap : ((sets.filter fun s => s.loop1 == i || s.loop2 == i).flatMap (fun s => s.points.map (fun p =>
      (⟨if s.loop1 == i then p.startIndex1 else p.startIndex2, p.point⟩ : DissectionPoint T)))).map (fun p => (p.segIdx, p.pos)) = cutsOfLoop sets i := by
    clear hne
    induction sets with
    | nil => rfl
    | cons x sets ih =>
      unfold cutsOfLoop at ih ⊢
      rw [List.flatMap_cons, ← ih, List.filter_cons]
      by_cases h1 : x.loop1 = i
      · simp [h1]
      · by_cases h2 : x.loop2 = i
        · simp [h1, h2]
        · simp [h1, h2]
  unfold loopPoints
  dsimp only
  cases hf : sets.filter fun s => s.loop1 == i || s.loop2 == i with
  | nil =>
    left
    rw [hf] at hmap
    exact ⟨rfl, by simpa using hmap.symm⟩
  | cons x xs =>
    right
    rw [hf] at hmap
    refine ⟨_, rfl, ?_, hmap⟩
    have hx : x ∈ sets := (List.mem_filter.mp (by rw [hf]; simp : x ∈ sets.filter fun s => s.loop1 == i || s.loop2 == i)).1
    cases hp : x.points with
    | nil => exact absurd hp (hne x hx)
    | cons b bs => simp [hp]

theorem dissectionCmp_sorted (env : Env T) (henv : env.Lawful) (hc : TotalCmp T) (p : Pline T) (pts : List (DissectionPoint T))
    (hp : ∀ a ∈ pts, a.segIdx < p.verts.length) :
    (env.sortBy (dissectionCmp p) pts).Pairwise fun a b => a.segIdx < b.segIdx ∨ (a.segIdx = b.segIdx ∧ ∀ v, p.verts[a.segIdx]? = some v →
      totalCmp (distSquared a.pos v.pos) (distSquared b.pos v.pos) ≠ .gt) := by
  have hcmp : ∀ a b, dissectionCmp p a b = (compare a.segIdx b.segIdx).then
      (match p.verts[a.segIdx]? with
       | some s => totalCmp (distSquared a.pos s.pos) (distSquared b.pos s.pos)
       | none => .eq) := fun a b => rfl
  have hlt : ∀ a b, a.segIdx < b.segIdx → dissectionCmp p a b = .lt := by
    intro a b h
    rw [hcmp, Nat.compare_eq_lt.mpr h]; rfl
  have hgt : ∀ a b, b.segIdx < a.segIdx → dissectionCmp p a b = .gt := by
    intro a b h
    rw [hcmp, Nat.compare_eq_gt.mpr h]; rfl
  have heq : ∀ a b, a.segIdx = b.segIdx → dissectionCmp p a b = (match p.verts[a.segIdx]? with
       | some s => totalCmp (distSquared a.pos s.pos) (distSquared b.pos s.pos)
       | none => .eq) := by
    intro a b h
    rw [hcmp, Nat.compare_eq_eq.mpr h]; rfl
  have := henv.sort_sorted (dissectionCmp p) pts
    (by
      intro a b
      rcases Nat.lt_trichotomy a.segIdx b.segIdx with h | h | h
      · rw [hlt a b h, hgt b a h]; rfl
      · rw [heq a b h, heq b a h.symm, h]
        cases p.verts[b.segIdx]? with
        | none => rfl
        | some v => exact hc.swap _ _
      · rw [hgt a b h, hlt b a h]; rfl)
    (by
      intro a b c h1 h2
      rcases Nat.lt_trichotomy a.segIdx b.segIdx with h | h | h
      · rcases Nat.lt_trichotomy b.segIdx c.segIdx with g | g | g
        · rw [hlt a c (by omega)]; simp
        · rw [hlt a c (by omega)]; simp
        · rw [hgt b c g] at h2; simp at h2
      · rcases Nat.lt_trichotomy b.segIdx c.segIdx with g | g | g
        · rw [hlt a c (by omega)]; simp
        · rw [heq a c (by omega)]
          rw [heq a b h] at h1
          rw [heq b c g, ← h] at h2
          cases hv : p.verts[a.segIdx]? with
          | none => simp
          | some v =>
            rw [hv] at h1 h2
            exact hc.trans _ _ _ h1 h2
        · rw [hgt b c g] at h2; simp at h2
      · rw [hgt a b h] at h1; simp at h1)
  refine this.imp ?_
  intro a b h
  rcases Nat.lt_trichotomy a.segIdx b.segIdx with g | g | g
  · exact Or.inl g
  · right
    refine ⟨g, ?_⟩
    intro v hv
    rw [heq a b g, hv] at h
    exact h
  · rw [hgt a b g] at h; simp at h

theorem keptBy_flatten {raw : Pline T} {eps : T} {P : ViewData T → Prop} {l : List ((Nat × V2 T) × (Nat × V2 T))} {sss : List (List (ViewData T))}
    (h : List.Forall₂ (fun g ss => KeptBy raw eps P [g] ss) l sss) : KeptBy raw eps P l sss.flatten := by
  induction h with
  | nil => exact .nil
  | cons h _ ih => exact h.append ih

theorem neighbours_snoc {α : Type} (l : List α) (x y : α) (h : l.getLast? = some x) : neighbours (l ++ [y]) = neighbours l ++ [(x, y)] := by
  obtain ⟨a, ha⟩ := List.getLast?_eq_some_iff.mp h
  subst ha
  rw [List.append_assoc]
  exact neighbours_append a x y []

theorem dissectLoop_spec (env : Env T) (henv : env.Lawful) (inputs : List (IndexedPline T)) (hin : ∀ ip ∈ inputs, ip.index.Serves ip.pline) (offset : T)
    (o : ShapeOffsetOptions T) (sets : List (SlicePointSet T)) (hne : ∀ x ∈ sets, x.points ≠ []) (l : OffsetLoop T) (hl : l.ip.Ready) (i : Nat)
    (hlt : ∀ e ∈ cutsOfLoop sets i, e.1 < l.ip.pline.verts.length) :
    ∃ ss whole, dissectLoop env inputs offset o sets l i = .ok (ss.map fun d => ⟨i, d⟩, whole) ∧
      Dissected inputs offset o l (cutsOfLoop sets i) ss whole := by
  obtain ⟨d, hd, hdr, -⟩ := entire_ok l.ip.pline hl.nontrivial
  obtain ⟨v, hv, hiff⟩ := shapeSliceValid_spec inputs hin offset o l.parent l.ip.pline d hdr
  unfold dissectLoop
  rcases loopPoints_eq sets hne i with ⟨h1, h2⟩ | ⟨pts, h1, h2, h3⟩
  · simp only [h1, hd, hv, bind, Except.bind]
    exact ⟨[], v, rfl, .uncut d v h2 hd hiff⟩
  · have hperm := henv.sort_perm (dissectionCmp l.ip.pline) pts
    have hplt : ∀ a ∈ pts, a.segIdx < l.ip.pline.verts.length := by
      intro a ha
      exact hlt (a.segIdx, a.pos) (by rw [← h3]; exact List.mem_map.mpr ⟨a, ha, rfl⟩)
    have hslt : ∀ a ∈ env.sortBy (dissectionCmp l.ip.pline) pts, a.segIdx < l.ip.pline.verts.length := fun a ha => hplt a (hperm.mem_iff.mp ha)
    have hsorted : TotalCmp T → _ := fun hc => dissectionCmp_sorted env henv hc l.ip.pline pts hplt
    have hlen : (cutsOfLoop sets i).length = (env.sortBy (dissectionCmp l.ip.pline) pts).length := by
      rw [← h3, List.length_map, hperm.length_eq]
    have hpos : 0 < (env.sortBy (dissectionCmp l.ip.pline) pts).length := by
      rw [hperm.length_eq]; exact List.length_pos_iff.mpr h2
    have hp' : ((env.sortBy (dissectionCmp l.ip.pline) pts).map fun p => (p.segIdx, p.pos)).Perm (cutsOfLoop sets i) := by
      rw [← h3]; exact hperm.map _
    simp only [h1]
    generalize env.sortBy (dissectionCmp l.ip.pline) pts = sorted at hslt hsorted hlen hpos hp'
    by_cases hone : sorted.length = 1
    · simp only [hone, if_true, hd, hv, bind, Except.bind]
      cases v with
      | true => exact ⟨[d], false, rfl, .onceKept d (by omega) hd (hiff.mp rfl)⟩
      | false => exact ⟨[], false, rfl, .onceDropped d (by omega) hd (fun h => by simpa using hiff.mpr h)⟩
    · obtain ⟨rs, hrs, hrel⟩ := mapM_rel (f := fun (ab : DissectionPoint T × DissectionPoint T) => dissectSlice inputs offset o l i ab.1 ab.2)
        (l := windows2 sorted)
        (R := fun ab r => ∃ ss, r = ss.map (fun d => (⟨i, d⟩ : DissectedSlice T)) ∧ KeptBy l.ip.pline o.posEqualEps
          (MidClear inputs offset o l.parent l.ip.pline) [((ab.1.segIdx, ab.1.pos), (ab.2.segIdx, ab.2.pos))] ss) (by
          intro ab hab
          have hm : ab.1 ∈ sorted ∧ ab.2 ∈ sorted := by
            unfold windows2 at hab
            obtain ⟨h1, h2⟩ := List.of_mem_zip (a := ab.1) (b := ab.2) (by simpa using hab)
            exact ⟨h1, List.mem_of_mem_tail h2⟩
          obtain ⟨ss, e, hk⟩ := dissectSlice_ok inputs hin offset o l i ab.1 ab.2 (hslt _ hm.1) (hslt _ hm.2)
          exact ⟨_, e, ss, rfl, hk⟩)
      have hsplit : ∃ sss : List (List (ViewData T)), rs.flatten = sss.flatten.map (fun d => (⟨i, d⟩ : DissectedSlice T)) ∧
          List.Forall₂ (fun (ab : DissectionPoint T × DissectionPoint T) ss => KeptBy l.ip.pline o.posEqualEps
            (MidClear inputs offset o l.parent l.ip.pline) [((ab.1.segIdx, ab.1.pos), (ab.2.segIdx, ab.2.pos))] ss) (windows2 sorted) sss := by
        clear hrs
        generalize windows2 sorted = ws at hrel
        induction hrel with
        | nil => exact ⟨[], rfl, .nil⟩
        | cons h _ ih =>
          obtain ⟨ss, rfl, hk⟩ := h
          obtain ⟨sss, e, hf⟩ := ih
          exact ⟨ss :: sss, by rw [List.flatten_cons, e, List.flatten_cons, List.map_append], .cons hk hf⟩
      obtain ⟨sss, hflat, hf⟩ := hsplit
      obtain ⟨x, t, hxt⟩ : ∃ x t, sorted = x :: t := by
        cases sorted with
        | nil => simp at hpos
        | cons x t => exact ⟨x, t, rfl⟩
      have hlast := List.getLast?_eq_getLast_of_ne_nil (List.length_pos_iff.mp hpos)
      generalize sorted.getLast (List.length_pos_iff.mp hpos) = y at hlast
      obtain ⟨s2, e2, hk2⟩ := dissectSlice_ok inputs hin offset o l i y x (hslt _ (List.mem_of_getLast? hlast)) (hslt _ (by rw [hxt]; simp))
      have hgoal : ∃ ss whole, (Except.ok (rs.flatten ++ s2.map (fun d => (⟨i, d⟩ : DissectedSlice T)), false) : M (List (DissectedSlice T) × Bool))
          = .ok (ss.map fun d => ⟨i, d⟩, whole) ∧ Dissected inputs offset o l (cutsOfLoop sets i) ss whole := by
        refine ⟨sss.flatten ++ s2, false, by rw [hflat, List.map_append], .pieces (sorted.map fun p => (p.segIdx, p.pos)) _ (by omega) ⟨hp', ?_⟩ ?_⟩
        · intro hc
          rw [List.pairwise_map]
          exact hsorted hc
        · have htake : (sorted.map fun p : DissectionPoint T => (p.segIdx, p.pos)).take 1 = [(x.segIdx, x.pos)] := by rw [hxt]; rfl
          rw [htake, neighbours_snoc _ (y.segIdx, y.pos) _ (by rw [List.getLast?_map, hlast]; rfl), windows2_map]
          refine KeptBy.append (keptBy_flatten ?_) hk2
          rw [List.forall₂_map_left_iff]
          exact hf
      rw [if_neg hone]
      simp only [hrs, hlast, unwrap, bind, Except.bind]
      subst hxt
      simp only [e2]
      exact hgoal

end Cavc
