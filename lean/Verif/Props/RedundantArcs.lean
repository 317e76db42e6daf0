import Verif.Lemmas.RedundantArcs
import Verif.Lemmas.ClearPairs

/-! # C11: removing redundant vertexes of polylines of lines and arcs -/

namespace Cavc
open Scalar RealScalar Pline

theorem onPline_open {p : Pline ℝ} (h : p.closed = false) (h2 : 2 ≤ p.verts.length) (pt : V2 ℝ) : OnPline p pt ↔ OnPath p.verts pt := by
  unfold OnPline OnPath
  rw [segs_chain p h2]
  unfold redChain
  rw [h]
  exact Iff.rfl

theorem onPline_closed {p : Pline ℝ} (h : p.closed = true) (h2 : 2 ≤ p.verts.length) (pt : V2 ℝ) :
    OnPline p pt ↔ OnPath (p.verts ++ p.verts.take 1) pt := by
  unfold OnPline OnPath
  rw [segs_chain p h2]
  unfold redChain
  rw [h]
  exact Iff.rfl

theorem allNeeded_two (a b : Vertex ℝ) : AllNeeded [a, b] := by
  intro x y u v w he
  have := congrArg List.length he
  simp at this
  omega

/-- **C11** Open polylines of lines and arcs whose start is not repeated, when the epsilon is below the resolution of the
polyline: the call succeeds, keeps the closed flag, deletes one after the other only repeated vertexes, vertexes on a line
between two neighbours and vertexes between two arcs that become one; the result consists of the same points, and no such
vertex is left.  Partial: a repeated start (see `C11_lost_end_witness`) and larger epsilons. -/
theorem C11_open_arcs_partial (p : Pline ℝ) (eps : ℝ) (hopen : p.closed = false) (hr : ResolvesArcs eps p)
    (a b : Vertex ℝ) (rest : List (Vertex ℝ)) (hp : p.verts = a :: b :: rest) (hne : a.pos ≠ b.pos) :
    ∃ r, p.removeRedundant eps = .ok r ∧ (r.getD p).closed = false ∧ Shortened p.verts (r.getD p).verts ∧
      AllNeeded (r.getD p).verts ∧ ∀ pt, OnPline p pt ↔ OnPline (r.getD p) pt := by
  have ha : a ∈ p.verts := by rw [hp]; simp
  have hb : b ∈ p.verts := by rw [hp]; simp
  suffices H : ∃ r, p.removeRedundant eps = .ok r ∧ (r.getD p).closed = false ∧ Shortened p.verts (r.getD p).verts ∧
      AllNeeded (r.getD p).verts ∧ 2 ≤ (r.getD p).verts.length by
    obtain ⟨r, h1, h2, h3, h4, h5⟩ := H
    refine ⟨r, h1, h2, h3, h4, fun pt => ?_⟩
    rw [onPline_open hopen (by rw [hp]; simp), onPline_open h2 h5]
    exact h3.onPath pt
  cases rest with
  | nil =>
    have hn : a.pos.fuzzyEqEps b.pos eps = false := by
      rw [← Bool.not_eq_true, near_iff hr.points ha hb]; exact hne
    have hat0 : p.at 0 = .ok a := by rw [at_lt (by rw [hp]; simp)]; simp [hp]
    have hat1 : p.at 1 = .ok b := by rw [at_lt (by rw [hp]; simp)]; simp [hp]
    refine ⟨none, ?_, hopen, Shortened.refl _, ?_, ?_⟩
    · unfold removeRedundant vertexCount
      rw [hp]
      simp [hat0, hat1, bind, Except.bind, hn]
    · show AllNeeded p.verts
      rw [hp]; exact allNeeded_two a b
    · show 2 ≤ p.verts.length
      rw [hp]; simp
  | cons c rest =>
    obtain ⟨st, hinv, he⟩ := removeRedundant_arcs hr a b c rest hp hne
    have hlen : p.verts.length = rest.length + 3 := by rw [hp]; simp
    have hch : redChain p = p.verts := by unfold redChain; rw [hopen]; rfl
    rw [hch] at hinv
    obtain ⟨l, hlw⟩ := hinv.last
    have hc2 := hinv.c2
    have hlast : p.last = some st.v2 := by
      unfold Pline.last
      rw [List.getLast?_eq_getElem?]; exact hc2
    have hst := hinv.short
    rw [List.drop_length] at hst
    have hns := hinv.needed
    obtain ⟨u, hum, hu⟩ := hinv.mem st.v1 (by rw [hlw]; simp)
    have hnear : st.v1.pos.fuzzyEqEps st.v2.pos eps = false := by
      rw [← Bool.not_eq_true, ← hu, near_iff hr.points hum hinv.v2, hu]; exact hinv.ne
    have he' := he
    rw [hopen] at he
    simp only [Bool.false_eq_true, if_false, redundantCloseOpen] at he
    rw [he]
    cases hres : st.result with
    | some pl =>
      have hk : keptSoFar p p.verts.length st = pl.verts := by unfold keptSoFar; rw [hres]
      rw [hk] at hlw hst hns
      have hpl : pl.last = some st.v1 := getLast?_of_concat hlw
      have hadd : pl.addOrReplaceVertex st.v2 eps = .ok ⟨pl.verts ++ [st.v2], pl.closed⟩ := by
        unfold addOrReplaceVertex vertexCount
        have hat : pl.at (pl.verts.length - 1) = .ok st.v1 := by
          apply at_ok
          rw [← List.getLast?_eq_getElem?]; exact hpl
        rw [if_neg (by rw [hlw]; simp), hat]
        simp [bind, Except.bind, hnear, addVertex]
      have hcl : pl.closed = false := by
        rcases C11_shape_partial p eps with ⟨r, h1, h2⟩ | ⟨h1, _⟩
        · rw [he', hopen] at h1
          simp only [Bool.false_eq_true, if_false, redundantCloseOpen, hres, hlast, unwrap, bind, Except.bind,
            hadd] at h1
          injection h1 with h1
          have := (h2 _ h1.symm).1
          rw [hopen] at this; exact this
        · rw [hopen] at h1; exact absurd h1 (by simp)
      refine ⟨some ⟨pl.verts ++ [st.v2], pl.closed⟩, ?_, hcl, hst, hns, ?_⟩
      · simp only [hlast, unwrap, bind, Except.bind, hadd]
      · simp [hlw]
    | none =>
      have hk : keptSoFar p p.verts.length st = p.verts.take (p.verts.length - 1) := by
        unfold keptSoFar; rw [hres]
      rw [hk] at hlw hst hns
      have hcat : p.verts = p.verts.take (p.verts.length - 1) ++ [st.v2] := by
        conv_lhs => rw [← List.take_length (l := p.verts), show p.verts.length = (p.verts.length - 1) + 1 by omega,
          List.take_add_one, hc2]
        rfl
      have hat2 : p.at (p.vertexCount - 2) = .ok st.v1 := by
        unfold vertexCount
        apply at_ok
        have h1 : (p.verts.take (p.verts.length - 1))[p.verts.length - 2]? = some st.v1 := by
          have hll : l.length = p.verts.length - 2 := by
            have := congrArg List.length hlw
            simp at this; omega
          rw [hlw, ← hll]; simp
        rw [List.getElem?_take] at h1
        rw [if_pos (by omega)] at h1
        exact h1
      have hat1 : p.at (p.vertexCount - 1) = .ok st.v2 := by
        unfold vertexCount
        apply at_ok
        exact hc2
      have hfz : st.v1.fuzzyEqEps st.v2 eps = false := by
        rw [← Bool.not_eq_true]
        intro h
        apply Bool.eq_false_iff.mp hnear
        unfold Vertex.fuzzyEqEps at h
        unfold V2.fuzzyEqEps
        simp only [Bool.and_eq_true] at h
        simp only [Bool.and_eq_true]
        exact h.1
      refine ⟨none, ?_, hopen, Shortened.refl _, ?_, ?_⟩
      · simp only [hat1, hat2, bind, Except.bind, hfz, Bool.false_eq_true, if_false]
      · show AllNeeded p.verts
        rw [hcat]
        exact hns
      · show 2 ≤ p.verts.length
        omega

/-! ## Closing the loop -/

/-- Where the chain of a loop is kept: the vertex before the end and the second one have the start between them. -/
theorem allNeeded_loop_keep {x y z : Vertex ℝ} {M l : List (Vertex ℝ)} (hM : y :: M = l ++ [z])
    (h : AllNeeded ((x :: y :: M) ++ [x])) (hx : Needed z x y) : AllNeeded ((x :: y :: M) ++ (x :: y :: M).take 2) := by
  have : (x :: y :: M) ++ (x :: y :: M).take 2 = ((x :: y :: M) ++ [x]) ++ [y] := by simp
  rw [this]
  apply allNeeded_concat h
  intro a u v he
  have e : (x :: l) ++ [z, x] = a ++ [u, v] := by rw [← he, hM]; simp
  have := (List.append_inj' e rfl).2
  simp only [List.cons.injEq, and_true] at this
  rw [← this.1, ← this.2]
  exact hx

theorem allNeeded_cons {l : List (Vertex ℝ)} {c : Vertex ℝ} (h : AllNeeded l) (hc : ∀ y z b, l = y :: z :: b → Needed c y z) :
    AllNeeded (c :: l) := by
  intro a b x y z he
  cases a with
  | nil =>
    simp only [List.nil_append, List.cons.injEq] at he
    rw [← he.1]
    exact hc y z b he.2
  | cons d a =>
    simp only [List.cons_append, List.cons.injEq] at he
    exact h a b x y z he.2

theorem allNeeded_of_cons {l : List (Vertex ℝ)} {c : Vertex ℝ} (h : AllNeeded (c :: l)) : AllNeeded l := by
  intro a b x y z he
  exact h (c :: a) b x y z (by rw [he]; rfl)

theorem allNeeded_loop_drop {x y z : Vertex ℝ} {M : List (Vertex ℝ)}
    (h : AllNeeded ((x :: y :: M ++ [z]) ++ [x])) (hlx : IsLine x) (hlz : IsLine z) (hzx : z.pos ≠ x.pos)
    (hx : OnLineSeg z.pos y.pos x.pos) : AllNeeded ((z :: y :: M) ++ (z :: y :: M).take 2) := by
  have : (z :: y :: M) ++ (z :: y :: M).take 2 = (z :: (y :: M ++ [z])) ++ [y] := by simp
  rw [this]
  apply allNeeded_concat
  · apply allNeeded_cons
    · exact allNeeded_of_cons (allNeeded_of_concat h)
    · intro y' z' b he
      have hy : y' = y := by simp at he; exact he.1.symm
      subst hy
      have hn := h [] (b ++ [x]) x y' z' (by
        rw [show x :: y' :: M ++ [z] ++ [x] = x :: (y' :: M ++ [z]) ++ [x] by simp, he]; simp)
      refine ⟨hn.moves, fun _ hy hbad => hn.corner hlx hy ?_, fun b hb => hb.arc1 hlz⟩
      exact (onLineSeg_extend hbad.symm hx.symm).symm
  · intro a u v he
    have hv : v = z := by
      have e : (z :: y :: M) ++ [z] = (a ++ [u]) ++ [v] := by
        rw [show (a ++ [u]) ++ [v] = a ++ [u, v] by simp, ← he]; simp
      have := (List.append_inj' e rfl).2
      simp at this; exact this.symm
    subst hv
    cases a with
    | nil =>
      have := congrArg List.length he
      simp at this
    | cons c a =>
      simp only [List.cons_append, List.cons.injEq] at he
      have hn := h (x :: a) [] u v x (by
        rw [show x :: y :: M ++ [v] ++ [x] = x :: (y :: (M ++ [v])) ++ [x] by simp, he.2]; simp)
      refine ⟨fun e => ?_, fun hu _ hbad => hn.corner hu hlz (onLineSeg_extend hbad hx), fun b hb => hb.arc2 hlz⟩
      rw [e] at hx hzx
      obtain ⟨t, _, _, ht⟩ := hx
      apply hzx
      rw [ht, V2.ext_iff']; simp [linePoint]

/-- **C11** The same for closed polylines that start with a line: the start vertex may be deleted as well if it is on the
line between the last and the second vertex, and no deletable vertex is left, going round the loop.  Partial as for
open polylines; and if the polyline starts with an arc, the code compares the arc of the last vertex with the wrong
circle, see `C11_wrong_circle_witness`. -/
theorem C11_closed_arcs_partial (p : Pline ℝ) (eps : ℝ) (hclosed : p.closed = true) (hr : ResolvesArcs eps p)
    (a b : Vertex ℝ) (rest : List (Vertex ℝ)) (hp : p.verts = a :: b :: rest) (hne : a.pos ≠ b.pos) (hal : IsLine a) :
    ∃ r L, p.removeRedundant eps = .ok r ∧ (r.getD p).closed = true ∧
      Shortened (p.verts ++ p.verts.take 1) (L ++ L.take 1) ∧
      ((r.getD p).verts = L ∨ ∃ x y M z, L = x :: y :: M ++ [z] ∧ IsLine z ∧ IsLine x ∧ OnLineSeg z.pos y.pos x.pos ∧
        (r.getD p).verts = z :: y :: M) ∧
      AllNeeded ((r.getD p).verts ++ (r.getD p).verts.take 2) ∧ ∀ pt, OnPline p pt ↔ OnPline (r.getD p) pt := by
  have ha : a ∈ p.verts := by rw [hp]; simp
  have hb : b ∈ p.verts := by rw [hp]; simp
  suffices H : ∃ r L, p.removeRedundant eps = .ok r ∧ (r.getD p).closed = true ∧
      Shortened (p.verts ++ p.verts.take 1) (L ++ L.take 1) ∧
      ((r.getD p).verts = L ∨ ∃ x y M z, L = x :: y :: M ++ [z] ∧ IsLine z ∧ IsLine x ∧ OnLineSeg z.pos y.pos x.pos ∧
        (r.getD p).verts = z :: y :: M) ∧
      AllNeeded ((r.getD p).verts ++ (r.getD p).verts.take 2) ∧ 2 ≤ (r.getD p).verts.length by
    obtain ⟨r, L, h1, h2, h3, h4, h5, h6⟩ := H
    refine ⟨r, L, h1, h2, h3, h4, h5, fun pt => ?_⟩
    rw [onPline_closed hclosed (by rw [hp]; simp), onPline_closed h2 h6, h3.onPath pt]
    rcases h4 with h4 | ⟨x, y, M, z, e1, lz, lx, hon, e2⟩
    · rw [h4]
    · rw [e1, e2]
      have f1 : x :: y :: M ++ [z] ++ (x :: y :: M ++ [z]).take 1 = (x :: y :: M) ++ z :: [x] := by simp
      have f2 : z :: y :: M ++ (z :: y :: M).take 1 = z :: y :: (M ++ [z]) := by simp
      rw [f1, f2]
      unfold OnPath
      rw [pathSegs_append_cons]
      have f3 : pathSegs (x :: y :: M ++ [z]) = (x, y) :: pathSegs (y :: (M ++ [z])) := rfl
      have f4 : pathSegs (z :: y :: (M ++ [z])) = (z, y) :: pathSegs (y :: (M ++ [z])) := rfl
      have f5 : pathSegs [z, x] = [(z, x)] := rfl
      rw [f3, f4, f5]
      have hs := onLineSeg_split (pt := pt) hon
      rw [← onSeg_line lz, ← onSeg_line lz, ← onSeg_line lx] at hs
      simp only [List.mem_append, List.mem_cons, List.not_mem_nil, or_false]
      constructor
      · rintro ⟨s, ((rfl | h) | rfl), hpt⟩
        · exact ⟨_, Or.inl rfl, hs.mpr (Or.inr hpt)⟩
        · exact ⟨s, Or.inr h, hpt⟩
        · exact ⟨_, Or.inl rfl, hs.mpr (Or.inl hpt)⟩
      · rintro ⟨s, (rfl | h), hpt⟩
        · rcases hs.mp hpt with h | h
          · exact ⟨_, Or.inr rfl, h⟩
          · exact ⟨_, Or.inl (Or.inl rfl), h⟩
        · exact ⟨s, Or.inl (Or.inr h), hpt⟩
  cases rest with
  | nil =>
    have hn : a.pos.fuzzyEqEps b.pos eps = false := by
      rw [← Bool.not_eq_true, near_iff hr.points ha hb]; exact hne
    have hat0 : p.at 0 = .ok a := by rw [at_lt (by rw [hp]; simp)]; simp [hp]
    have hat1 : p.at 1 = .ok b := by rw [at_lt (by rw [hp]; simp)]; simp [hp]
    have same : ∀ u v : V2 ℝ, u ≠ v → ¬ OnLineSeg u u v := by
      rintro u v huv ⟨t, _, _, h⟩
      apply huv
      rw [h, V2.ext_iff']; simp [linePoint]
    have hneed : ∀ u v : Vertex ℝ, u.pos ≠ v.pos → Needed u v u := fun u v huv =>
      ⟨huv.symm, fun _ _ => same _ _ huv, fun b hb => hb.ends_ne huv rfl⟩
    refine ⟨none, p.verts, ?_, hclosed, Shortened.refl _, Or.inl rfl, ?_, ?_⟩
    · unfold removeRedundant vertexCount
      rw [hp]
      simp [hat0, hat1, bind, Except.bind, hn]
    · show AllNeeded (p.verts ++ p.verts.take 2)
      rw [hp]
      apply allNeeded_loop_keep (z := b) (l := []) rfl
      · apply allNeeded_concat (allNeeded_two a b)
        intro x u v he
        have hx : x = [] := by
          have h1 := congrArg List.length he
          simp at h1
          exact h1
        subst hx
        simp only [List.nil_append, List.cons.injEq, and_true] at he
        rw [← he.1, ← he.2]
        exact hneed a b hne
      · exact hneed b a hne.symm
    · show 2 ≤ p.verts.length
      rw [hp]; simp
  | cons c rest =>
    obtain ⟨st, hinv, he⟩ := removeRedundant_arcs hr a b c rest hp hne
    have hshape := C11_shape_partial p eps
    have hlen : p.verts.length = rest.length + 3 := by rw [hp]; simp
    have hch : redChain p = p.verts ++ [a] := by unfold redChain; rw [hclosed, hp]; rfl
    rw [hch] at hinv
    rw [he, hclosed, if_pos rfl] at hshape
    rw [he, hclosed, if_pos rfl]
    obtain ⟨l, hlw⟩ := hinv.last
    have hv2 : st.v2 = a := by
      have hu := hinv.c2
      rw [List.length_append, List.length_singleton, Nat.add_sub_cancel] at hu
      simp at hu
      exact hu.symm
    have hst := hinv.short
    rw [List.drop_length] at hst
    have hns := hinv.needed
    have hK : keptSoFar p (p.verts ++ [a]).length st = (st.result.getD p).verts := by
      unfold keptSoFar
      cases st.result with
      | none => simp
      | some r => rfl
    have hhead := hinv.headLine a (by rw [hp]; rfl) hal
    have hmem := hinv.mem
    have hne' := hinv.ne
    have hfirst := hinv.first
    rw [hK] at hlw hst hns hhead hmem hfirst
    rw [hv2] at hst hns hne' hfirst
    obtain ⟨u, hum, hu⟩ := hmem st.v1 (by rw [hlw]; simp)
    have hnear : st.v1.pos.fuzzyEqEps a.pos eps = false := by
      rw [← Bool.not_eq_true, ← hu, near_iff hr.points hum ha, hu]; exact hne'
    -- the kept vertexes start with `a` and have a second one
    have hshapeK : ∃ y M l', (st.result.getD p).verts = a :: y :: M ∧ y :: M = l' ++ [st.v1] := by
      cases l with
      | nil =>
        rw [hlw] at hhead
        simp at hhead
        rw [hhead] at hne'
        exact absurd rfl hne'
      | cons c' l' =>
        have : c' = a := by rw [hlw] at hhead; simpa using hhead
        subst this
        cases hh : l' ++ [st.v1] with
        | nil => simp at hh
        | cons y M =>
          exact ⟨y, M, l', by rw [hlw, List.cons_append, hh], hh.symm⟩
    obtain ⟨y, M, l', hKv, hyM⟩ := hshapeK
    obtain ⟨y', hym, hy'⟩ := hmem y (by rw [hKv]; simp)
    have hay : a.pos ≠ y.pos := hfirst a y (M ++ [a]) (by rw [hKv]; rfl)
    have hwrap : redundantWrapRepeat p eps st = .ok st.result := by
      unfold redundantWrapRepeat
      cases hres : st.result with
      | some pl =>
        rw [hres] at hKv hlw
        have h0 : pl.at 0 = .ok a := at_ok (by rw [show pl.verts = _ from hKv]; rfl)
        have h1 : pl.last = some st.v1 := getLast?_of_concat hlw
        simp [h0, h1, unwrap, bind, Except.bind, hnear]
      | none =>
        rw [hres] at hKv hlw
        have h0 : p.at 0 = .ok a := at_ok (by rw [show p.verts = _ from hKv]; rfl)
        have h1 : p.last = some st.v1 := getLast?_of_concat hlw
        simp [h0, h1, unwrap, bind, Except.bind, hnear]
    have hat1 : (st.result.getD p).at 1 = .ok y := at_ok (by rw [hKv]; rfl)
    have hred : redundantCloseClosed p eps st = redundantFirst p eps st st.result y := by
      unfold redundantCloseClosed
      rw [hwrap]
      simp only [bind, Except.bind, hat1]
    rw [hred] at hshape ⊢
    have hcol : isCollinearSameDir eps st.v1 a y = true ↔ OnLineSeg st.v1.pos y.pos a.pos := by
      have h1 := collinear_iff hr.points hum ha hym
      have h2 : isCollinearSameDir eps u a y' = isCollinearSameDir eps st.v1 a y := by
        rw [isCollinear_congr hu]
        have hx : y'.x = y.x := congrArg V2.x hy'
        have hy : y'.y = y.y := congrArg V2.y hy'
        unfold isCollinearSameDir
        rw [hx, hy, hy']
      rw [h2, hu, hy'] at h1
      exact h1
    have z2 : st.v2Zero = true := by rw [hinv.z2, hv2]; exact bulgeIsZero_true hal
    have hstr : Shortened (p.verts ++ p.verts.take 1)
        ((st.result.getD p).verts ++ (st.result.getD p).verts.take 1) := by
      have e : (st.result.getD p).verts.take 1 = [a] := by rw [hKv]; rfl
      have e2 : p.verts.take 1 = [a] := by rw [hp]; rfl
      rw [e, e2]
      exact hst
    by_cases hon : IsLine st.v1 ∧ OnLineSeg st.v1.pos y.pos a.pos
    · -- the start vertex goes
      obtain ⟨M', rfl⟩ : ∃ M', M = M' ++ [st.v1] := by
        cases l' with
        | nil =>
          simp only [List.nil_append, List.cons.injEq] at hyM
          obtain ⟨_, hon⟩ := hon
          rw [hyM.1] at hon
          obtain ⟨t, _, _, ht⟩ := hon
          exact absurd (by rw [ht, V2.ext_iff']; simp [linePoint]) hne'
        | cons d l' =>
          simp only [List.cons_append, List.cons.injEq] at hyM
          exact ⟨l', hyM.2⟩
      have hrm : (st.result.getD p).removeLast
          = .ok (st.v1, ⟨a :: y :: M', (st.result.getD p).closed⟩) := by
        have e : (st.result.getD p).verts = (a :: y :: M') ++ [st.v1] := by rw [hKv]; simp
        obtain ⟨v, _, h2, h3⟩ := removeLast_ok (p := st.result.getD p) (by rw [e]; simp)
        rw [h3]
        rw [e] at h2 ⊢
        simp only [List.getLast?_append, List.getLast?_singleton, Option.some_or, Option.some.injEq] at h2
        rw [← h2]
        simp only [List.dropLast_concat]
      have hfirst : redundantFirst p eps st st.result y
          = .ok (some ⟨st.v1 :: y :: M', (st.result.getD p).closed⟩) := by
        unfold redundantFirst redundantDropFirst
        simp only [hinv.z1, bulgeIsZero_true hon.1, z2, hv2, hcol.mpr hon.2, Bool.and_self, if_true, hrm, bind, Except.bind]
        rw [setVertex_lt (by simp)]
        rfl
      refine ⟨_, _, hfirst, ?_, hstr, Or.inr ⟨a, y, M', st.v1, ?_, hon.1, hal, hon.2, rfl⟩, ?_, ?_⟩
      · rcases hshape with ⟨r, h1, h2⟩ | ⟨_, h1⟩
        · rw [hfirst] at h1
          injection h1 with h1
          rw [← hclosed]
          exact (h2 _ h1.symm).1
        · rw [hfirst] at h1; exact absurd h1 (by simp)
      · rw [hKv]; simp
      · apply allNeeded_loop_drop (x := a) _ hal hon.1 hne' hon.2
        rw [hKv] at hns
        simpa using hns
      · simp
    · have hfirst : redundantFirst p eps st st.result y = .ok st.result := by
        unfold redundantFirst
        by_cases hl1 : IsLine st.v1
        · have hc : isCollinearSameDir eps st.v1 a y = false := by
            rw [← Bool.not_eq_true, hcol]; exact fun h => hon ⟨hl1, h⟩
          simp [z2, hv2, hc]
        · simp [hinv.z1, bulgeIsZero_false hl1, z2]
      refine ⟨_, _, hfirst, ?_, hstr, Or.inl rfl, ?_, ?_⟩
      · cases hres : st.result with
        | none => exact hclosed
        | some q =>
          rcases hshape with ⟨r, h1, h2⟩ | ⟨_, h1⟩
          · rw [hfirst] at h1
            injection h1 with h1
            rw [← hclosed]
            exact (h2 _ (by rw [← h1, hres]; rfl)).1
          · rw [hfirst] at h1; exact absurd h1 (by simp)
      · rw [hKv] at hns ⊢
        apply allNeeded_loop_keep (z := st.v1) (l := l') hyM hns
        exact ⟨hay, fun h1 _ hbad => hon ⟨h1, hbad⟩, fun b hb => hb.arc2 hal⟩
      · rw [hKv]; simp

/-! ## Examples -/

/-- two arcs of one circle (about the origin, with radius 625) and the chord -/
noncomputable def bow : Pline ℝ := ⟨[⟨-527, 336, 0⟩, ⟨625, 0, 1 / 3⟩, ⟨175, 600, 1 / 3⟩], true⟩

/-- the two arcs and a line after them -/
noncomputable def bowTail : Pline ℝ := ⟨[⟨625, 0, 1 / 3⟩, ⟨175, 600, 1 / 3⟩, ⟨-527, 336, 0⟩, ⟨-527, 0, 0⟩], false⟩

theorem third_not_line (x y : ℝ) : ¬ IsLine (⟨x, y, 1 / 3⟩ : Vertex ℝ) := by
  unfold IsLine; norm_num

theorem third_circle {x y x' y' cx cy d : ℝ} (hcx : cx = (x + x') / 2 - 2 / 3 * (y' - y)) (hcy : cy = (y + y') / 2 + 2 / 3 * (x' - x))
    (hd : 0 ≤ d) (hr : (x - x') ^ 2 + (y - y') ^ 2 = d ^ 2) (b : ℝ) :
    segCenter (⟨x, y, 1 / 3⟩, ⟨x', y', b⟩) = ⟨cx, cy⟩ ∧ segRadius (⟨x, y, 1 / 3⟩, ⟨x', y', b⟩) = 5 / 6 * d := by
  constructor
  · unfold segCenter arcCenter
    rw [V2.ext_iff', hcx, hcy]
    constructor <;> simp only [Vertex.pos] <;> norm_num
  · unfold segRadius arcRadius edist
    simp only [Vertex.pos]
    rw [hr, Real.sqrt_sq hd, abs_of_nonneg (by norm_num)]
    ring

theorem sum_third : 4 * Real.arctan (3 / 4) = 4 * Real.arctan (1 / 3) + 4 * Real.arctan (1 / 3) := by
  have := Real.arctan_add (x := 1 / 3) (y := 1 / 3) (by norm_num)
  rw [show ((1 / 3 + 1 / 3) / (1 - 1 / 3 * (1 / 3)) : ℝ) = 3 / 4 by norm_num] at this
  linarith

theorem sweep_third : |4 * Real.arctan (1 / 3)| = 4 * Real.arctan (1 / 3) ∧ 4 * Real.arctan (1 / 3) + 4 * Real.arctan (1 / 3) ≤ Real.pi := by
  constructor
  · apply abs_of_nonneg
    have := Real.arctan_nonneg.mpr (show (0 : ℝ) ≤ 1 / 3 by norm_num)
    linarith
  · rw [← sum_third]
    exact le_trans (le_abs_self _) ((abs_four_arctan_le_iff _).mpr (by norm_num [abs_of_nonneg]))

/-- A polyline whose arcs turn by less than half a circle altogether has no wide runs of arcs. -/
theorem sweep_small {p : Pline ℝ} (h : sweepSum p.segs ≤ Real.pi) (l : List (Vertex ℝ × Vertex ℝ)) (hl : List.Sublist l p.segs) :
    sweepSum l ≤ Real.pi := by
  refine le_trans ?_ h
  unfold sweepSum
  apply List.Sublist.sum_le_sum (hl.map _)
  intro a ha
  simp only [List.mem_map] at ha
  obtain ⟨s, _, rfl⟩ := ha
  exact abs_nonneg _

theorem arcs_one_circle {p : Pline ℝ} {eps r : ℝ} {c : V2 ℝ} (h : ∀ s ∈ p.segs, IsLine s.1 ∨ (segCenter s = c ∧ segRadius s = r)) :
    ∀ s ∈ p.segs, ∀ s' ∈ p.segs, ¬ IsLine s.1 → ¬ IsLine s'.1 → s.1.pos ≠ s.2.pos → s'.1.pos ≠ s'.2.pos →
    |segRadius s - segRadius s'| < eps → |(segCenter s).x - (segCenter s').x| < eps → |(segCenter s).y - (segCenter s').y| < eps →
      segRadius s = segRadius s' ∧ segCenter s = segCenter s' := by
  intro s hs s' hs' l1 l2 _ _ _ _ _
  rcases h s hs with h1 | h1
  · exact absurd h1 l1
  rcases h s' hs' with h2 | h2
  · exact absurd h2 l2
  rw [h1.1, h1.2, h2.1, h2.2]
  exact ⟨rfl, rfl⟩

theorem bow_arcs : (segCenter (⟨625, 0, 1 / 3⟩, ⟨175, 600, 1 / 3⟩) = ⟨0, 0⟩ ∧ segRadius (⟨625, 0, 1 / 3⟩, ⟨175, 600, 1 / 3⟩) = 625) ∧
    ∀ b, segCenter (⟨175, 600, 1 / 3⟩, ⟨-527, 336, b⟩) = ⟨0, 0⟩ ∧ segRadius (⟨175, 600, 1 / 3⟩, ⟨-527, 336, b⟩) = 625 := by
  have h1 := third_circle (x := 625) (y := 0) (x' := 175) (y' := 600) (cx := 0) (cy := 0) (d := 750) (by norm_num) (by norm_num) (by norm_num) (by norm_num) (1 / 3)
  have h2 := third_circle (x := 175) (y := 600) (x' := -527) (y' := 336) (cx := 0) (cy := 0) (d := 750) (by norm_num) (by norm_num) (by norm_num) (by norm_num)
  rw [show (5 / 6 * 750 : ℝ) = 625 by norm_num] at h1 h2
  exact ⟨h1, h2⟩

/-- The two arcs become one. -/
theorem bow_oneArc (b : ℝ) : OneArc ⟨625, 0, 1 / 3⟩ ⟨175, 600, 1 / 3⟩ ⟨-527, 336, b⟩ (3 / 4) :=
  ⟨third_not_line _ _, third_not_line _ _, by rw [bow_arcs.1.1, (bow_arcs.2 b).1], by rw [bow_arcs.1.2, (bow_arcs.2 b).2],
    by norm_num, sum_third, by norm_num [abs_of_nonneg]⟩

theorem bow_resolves : ResolvesArcs (1 / 100000) bow := by
  have hs : bow.segs = [(⟨-527, 336, 0⟩, ⟨625, 0, 1 / 3⟩), (⟨625, 0, 1 / 3⟩, ⟨175, 600, 1 / 3⟩), (⟨175, 600, 1 / 3⟩, ⟨-527, 336, 0⟩)] := rfl
  refine ⟨resolves_grid _ ?_ _ (by norm_num) (by norm_num), ?_, arcs_one_circle (c := ⟨0, 0⟩) (r := 625) ?_, fun l hl r _ _ => sweep_small ?_ l hl⟩
  · intro v hv
    simp [bow] at hv
    rcases hv with rfl | rfl | rfl
    · exact ⟨-527, 336, by simp, by simp⟩
    · exact ⟨625, 0, by simp, by simp⟩
    · exact ⟨175, 600, by simp, by simp⟩
  · intro v hv
    simp [bow] at hv
    rcases hv with rfl | rfl | rfl <;> norm_num [abs_of_nonneg]
  · intro s h
    rw [hs] at h
    simp only [List.mem_cons, List.not_mem_nil, or_false] at h
    rcases h with rfl | rfl | rfl
    · left; simp [IsLine]
    · exact Or.inr bow_arcs.1
    · exact Or.inr (bow_arcs.2 0)
  · rw [hs]
    simp only [sweepSum, List.map_cons, List.map_nil, List.sum_cons, List.sum_nil, sweep_third.1, Real.arctan_zero, mul_zero, abs_zero]
    linarith [sweep_third.2]

/-- non-vacuity: two arcs of one circle and their chord; the result has only two vertexes -/
example : ∃ r, bow.removeRedundant (1 / 100000) = .ok r ∧ (∀ pt, OnPline bow pt ↔ OnPline (r.getD bow) pt) ∧ r ≠ none := by
  obtain ⟨r, L, h1, _, _, _, h5, h6⟩ := C11_closed_arcs_partial bow (1 / 100000) rfl bow_resolves _ _ _ rfl
    (by norm_num [Vertex.pos]) (by simp [IsLine])
  refine ⟨r, h1, h6, ?_⟩
  rintro rfl
  exact (h5 [⟨-527, 336, 0⟩] [⟨625, 0, 1 / 3⟩] ⟨625, 0, 1 / 3⟩ ⟨175, 600, 1 / 3⟩ ⟨-527, 336, 0⟩ rfl).joint _ (bow_oneArc 0)

theorem bowTail_resolves : ResolvesArcs (1 / 100000) bowTail := by
  have hs : bowTail.segs = [(⟨625, 0, 1 / 3⟩, ⟨175, 600, 1 / 3⟩), (⟨175, 600, 1 / 3⟩, ⟨-527, 336, 0⟩), (⟨-527, 336, 0⟩, ⟨-527, 0, 0⟩)] := rfl
  refine ⟨resolves_grid _ ?_ _ (by norm_num) (by norm_num), ?_, arcs_one_circle (c := ⟨0, 0⟩) (r := 625) ?_, fun l hl r _ _ => sweep_small ?_ l hl⟩
  · intro v hv
    simp [bowTail] at hv
    rcases hv with rfl | rfl | rfl | rfl
    · exact ⟨625, 0, by simp, by simp⟩
    · exact ⟨175, 600, by simp, by simp⟩
    · exact ⟨-527, 336, by simp, by simp⟩
    · exact ⟨-527, 0, by simp, by simp⟩
  · intro v hv
    simp [bowTail] at hv
    rcases hv with rfl | rfl | rfl | rfl <;> norm_num [abs_of_nonneg]
  · intro s h
    rw [hs] at h
    simp only [List.mem_cons, List.not_mem_nil, or_false] at h
    rcases h with rfl | rfl | rfl
    · exact Or.inr bow_arcs.1
    · exact Or.inr (bow_arcs.2 0)
    · left; simp [IsLine]
  · rw [hs]
    simp only [sweepSum, List.map_cons, List.map_nil, List.sum_cons, List.sum_nil, sweep_third.1, Real.arctan_zero, mul_zero, abs_zero]
    linarith [sweep_third.2]

example : ∃ r, bowTail.removeRedundant (1 / 100000) = .ok r ∧ (∀ pt, OnPline bowTail pt ↔ OnPline (r.getD bowTail) pt) ∧ r ≠ none := by
  obtain ⟨r, h1, _, _, h5, h6⟩ := C11_open_arcs_partial bowTail (1 / 100000) rfl bowTail_resolves _ _ _ rfl (by norm_num [Vertex.pos])
  refine ⟨r, h1, h6, ?_⟩
  rintro rfl
  exact (h5 [] [⟨-527, 0, 0⟩] ⟨625, 0, 1 / 3⟩ ⟨175, 600, 1 / 3⟩ ⟨-527, 336, 0⟩ rfl).joint _ (bow_oneArc 0)

/-! ## The first vertex between arcs -/

/-- the two arcs of one circle, a line, and an arc that meets the first one in a corner -/
noncomputable def bent : Pline ℝ := ⟨[⟨625, 0, 1 / 3⟩, ⟨175, 600, 1 / 3⟩, ⟨-527, 336, 0⟩, ⟨625, -1200, 1 / 3⟩], true⟩

theorem bow_join : joinArcsBulge (1 / 100000 : ℝ) 625 ⟨0, 0⟩ true ⟨625, 0, 1 / 3⟩ ⟨175, 600, 1 / 3⟩ ⟨-527, 336, 0⟩ = some (3 / 4) := by
  have := joinArcs_spec (eps := 1 / 100000) (by norm_num) (third_not_line 625 0) (third_not_line 175 600) (by norm_num [abs_of_nonneg]) (by norm_num [abs_of_nonneg])
    (by norm_num [Vertex.pos]) (v3 := ⟨-527, 336, 0⟩) (by norm_num [Vertex.pos]) rfl
    (by intro _ _ _; rw [bow_arcs.1.1, bow_arcs.1.2, (bow_arcs.2 0).1, (bow_arcs.2 0).2]; exact ⟨rfl, rfl⟩)
    (by
      intro _ _ _
      simp only
      rw [sweep_third.1]
      exact sweep_third.2)
  rw [bow_arcs.1.1, bow_arcs.1.2] at this
  rw [show decide (0 < (1 / 3 : ℝ)) = true by norm_num] at this
  rcases this with ⟨b, h, hb⟩ | ⟨_, h⟩
  · rw [h]
    have h1 := hb.sweep
    rw [← sum_third] at h1
    congr 1
    exact Real.arctan_injective (by linarith)
  · exact absurd (bow_oneArc 0) (h _)

/-- The closing arc and the arc that the code takes for the first one: its start bulge, but the end of the joined arc. -/
theorem bent_arcs : (∀ b, segCenter (⟨625, -1200, 1 / 3⟩, ⟨625, 0, b⟩) = ⟨-175, -600⟩ ∧ segRadius (⟨625, -1200, 1 / 3⟩, ⟨625, 0, b⟩) = 1000) ∧
    ∀ b, segCenter (⟨625, 0, 1 / 3⟩, ⟨-527, 336, b⟩) = ⟨-175, -600⟩ ∧ segRadius (⟨625, 0, 1 / 3⟩, ⟨-527, 336, b⟩) = 1000 := by
  have h1 := third_circle (x := 625) (y := -1200) (x' := 625) (y' := 0) (cx := -175) (cy := -600) (d := 1200) (by norm_num) (by norm_num) (by norm_num) (by norm_num)
  have h2 := third_circle (x := 625) (y := 0) (x' := -527) (y' := 336) (cx := -175) (cy := -600) (d := 1200) (by norm_num) (by norm_num) (by norm_num) (by norm_num)
  rw [show (5 / 6 * 1200 : ℝ) = 1000 by norm_num] at h1 h2
  exact ⟨h1, h2⟩

theorem bent_oneArc : OneArc ⟨625, -1200, 1 / 3⟩ ⟨625, 0, 1 / 3⟩ ⟨-527, 336, 0⟩ (3 / 4) :=
  ⟨third_not_line _ _, third_not_line _ _, by rw [(bent_arcs.1 _).1, (bent_arcs.2 _).1], by rw [(bent_arcs.1 _).2, (bent_arcs.2 _).2],
    by norm_num, sum_third, by norm_num [abs_of_nonneg]⟩

theorem bent_join : joinArcsBulge (1 / 100000 : ℝ) 1000 ⟨-175, -600⟩ true ⟨625, -1200, 1 / 3⟩ ⟨625, 0, 1 / 3⟩ ⟨-527, 336, 0⟩ = some (3 / 4) := by
  have := joinArcs_spec (eps := 1 / 100000) (by norm_num) (third_not_line 625 (-1200)) (third_not_line 625 0) (by norm_num [abs_of_nonneg]) (by norm_num [abs_of_nonneg])
    (by norm_num [Vertex.pos]) (v3 := ⟨-527, 336, 0⟩) (by norm_num [Vertex.pos]) rfl
    (by intro _ _ _; rw [(bent_arcs.1 _).1, (bent_arcs.1 _).2, (bent_arcs.2 _).1, (bent_arcs.2 _).2]; exact ⟨rfl, rfl⟩)
    (by
      intro _ _ _
      simp only
      rw [sweep_third.1]
      exact sweep_third.2)
  rw [(bent_arcs.1 _).1, (bent_arcs.1 _).2] at this
  rw [show decide (0 < (1 / 3 : ℝ)) = true by norm_num] at this
  rcases this with ⟨b, h, hb⟩ | ⟨_, h⟩
  · rw [h]
    have h1 := hb.sweep
    rw [← sum_third] at h1
    congr 1
    exact Real.arctan_injective (by linarith)
  · exact absurd bent_oneArc (h _)

theorem first_joined {eps r r' b b' : ℝ} {c c' : V2 ℝ} {A B C D : Vertex ℝ} (zA : A.bulgeIsZero = false) (zB : B.bulgeIsZero = false) (zC : C.bulgeIsZero = true)
    (zD : D.bulgeIsZero = false) (pA : A.bulgeIsPos = true) (pB : B.bulgeIsPos = true) (pD : D.bulgeIsPos = true)
    (fAB : A.pos.fuzzyEqEps B.pos eps = false) (fBC : B.pos.fuzzyEqEps C.pos eps = false) (fCD : C.pos.fuzzyEqEps D.pos eps = false)
    (fDA : D.pos.fuzzyEqEps A.pos eps = false) (fAC : A.pos.fuzzyEqEps C.pos eps = false)
    (a1 : segArcRadiusAndCenter A B = (r, c)) (a2 : segArcRadiusAndCenter D A = (r', c'))
    (j1 : joinArcsBulge eps r c true A B C = some b) (j2 : joinArcsBulge eps r' c' true D A C = some b') :
    removeRedundant ⟨[A, B, C, D], true⟩ eps = .ok (some ⟨[D.withBulge b', C], true⟩) := by
  have fDA' : D.pos.fuzzyEqEps (A.withBulge b).pos eps = false := fDA
  have hc : cycleFrom ⟨[A, B, C, D], true⟩ 2 3 = [(2, C), (3, D), (4, A)] := by
    simp [cycleFrom, vertexCount, List.range', List.filterMap]
  have h0 : Pline.at ⟨[A, B, C, D], true⟩ 0 = .ok A := rfl
  have h1 : Pline.at ⟨[A, B, C, D], true⟩ 1 = .ok B := rfl
  have hs : skipStartRepeats eps 4 A B 2 [C, D] = (A, B, 2) := by
    simp [skipStartRepeats, fAB]
  unfold removeRedundant
  rw [show vertexCount (⟨[A, B, C, D], true⟩ : Pline ℝ) = 4 from rfl, h0, h1]
  simp only [bind, Except.bind, List.drop, hs, hc]
  simp [hc, redundantStep, List.foldlM, bind, Except.bind, zA, zB, zC, zD, pA, pB, pD, fAB, fBC, fCD, fDA, fAC, a1, j1, Pline.last, unwrap, pure, Except.pure,
    setLast, addVertex, redundantCloseClosed, redundantWrapRepeat, Pline.at, redundantFirst, fDA', a2, j2, redundantDropFirst, removeLast, Pline.remove, setVertex, vertexCount]

theorem bent_removed : bent.removeRedundant (1 / 100000) = .ok (some ⟨[⟨625, -1200, 3 / 4⟩, ⟨-527, 336, 0⟩], true⟩) := by
  have hz : ∀ x y : ℝ, (⟨x, y, 1 / 3⟩ : Vertex ℝ).bulgeIsZero = false := fun x y => bulgeIsZero_false (third_not_line x y)
  have hz0 : ∀ x y : ℝ, (⟨x, y, 0⟩ : Vertex ℝ).bulgeIsZero = true := fun x y => bulgeIsZero_true (by simp [IsLine])
  have hp : ∀ x y : ℝ, (⟨x, y, 1 / 3⟩ : Vertex ℝ).bulgeIsPos = true := by intro x y; simp [Vertex.bulgeIsPos, RealScalar.gt_eq]
  have hf : ∀ x y x' y' : ℝ, 1 ≤ |x - x'| ∨ 1 ≤ |y - y'| → (⟨x, y⟩ : V2 ℝ).fuzzyEqEps ⟨x', y'⟩ (1 / 100000) = false := by
    intro x y x' y' h
    rw [← Bool.not_eq_true, V2.fuzzyEqEps_iff]
    rintro ⟨h1, h2⟩
    simp only at h1 h2
    rcases h with h | h <;> linarith
  have a1 : segArcRadiusAndCenter (⟨625, 0, 1 / 3⟩ : Vertex ℝ) ⟨175, 600, 1 / 3⟩ = (625, ⟨0, 0⟩) := by
    rw [segArcRadiusAndCenter_eq _ _ (by norm_num) (by norm_num [Vertex.pos])]
    exact Prod.ext bow_arcs.1.2 bow_arcs.1.1
  have a2 : segArcRadiusAndCenter (⟨625, -1200, 1 / 3⟩ : Vertex ℝ) ⟨625, 0, 1 / 3⟩ = (1000, ⟨-175, -600⟩) := by
    rw [segArcRadiusAndCenter_eq _ _ (by norm_num) (by norm_num [Vertex.pos])]
    exact Prod.ext (bent_arcs.1 _).2 (bent_arcs.1 _).1
  exact first_joined (hz _ _) (hz _ _) (hz0 _ _) (hz _ _) (hp _ _) (hp _ _) (hp _ _) (hf 625 0 175 600 (by norm_num [abs_of_nonneg]))
    (hf 175 600 (-527) 336 (by norm_num [abs_of_nonneg])) (hf (-527) 336 625 (-1200) (by norm_num [abs_of_nonneg]))
    (hf 625 (-1200) 625 0 (by norm_num [abs_of_nonneg])) (hf 625 0 (-527) 336 (by norm_num [abs_of_nonneg])) a1 a2 bow_join bent_join

/-- **C11, negative** A closed polyline with arcs of less than half circles, at the default epsilon, whose first vertex is a corner
between two arcs; the code deletes this vertex and the polyline changes: it no longer passes through its second vertex. -/
theorem C11_wrong_circle_witness : bent.closed = true ∧ (∀ v ∈ bent.verts, |v.bulge| ≤ 1) ∧
    segCenter (⟨625, -1200, 1 / 3⟩, ⟨625, 0, 1 / 3⟩) ≠ segCenter (⟨625, 0, 1 / 3⟩, ⟨175, 600, 1 / 3⟩) ∧
    ∃ q, bent.removeRedundant (1 / 100000) = .ok (some q) ∧ OnPline bent ⟨175, 600⟩ ∧ ¬ OnPline q ⟨175, 600⟩ := by
  refine ⟨rfl, ?_, ?_, _, bent_removed, ?_, ?_⟩
  · intro v hv
    simp [bent] at hv
    rcases hv with rfl | rfl | rfl | rfl <;> norm_num [abs_of_nonneg]
  · rw [(bent_arcs.1 _).1, bow_arcs.1.1]
    norm_num
  · refine ⟨(⟨175, 600, 1 / 3⟩, ⟨-527, 336, 0⟩), by simp [bent, Pline.segs, pathSegs], onSeg_start _ _⟩
  · rintro ⟨s, hs, hon⟩
    have e : Pline.segs (⟨[⟨625, -1200, 3 / 4⟩, ⟨-527, 336, 0⟩], true⟩ : Pline ℝ) =
      [(⟨625, -1200, 3 / 4⟩, ⟨-527, 336, 0⟩), (⟨-527, 336, 0⟩, ⟨625, -1200, 3 / 4⟩)] := rfl
    rw [e] at hs
    simp only [List.mem_cons, List.not_mem_nil, or_false] at hs
    rcases hs with rfl | rfl
    · have hc := bent_oneArc.center_eq
      have hr := bent_oneArc.radius_eq
      rw [(bent_arcs.1 _).1] at hc
      rw [(bent_arcs.1 _).2] at hr
      have := onSeg_circle (a := (⟨625, -1200, 3 / 4⟩, ⟨-527, 336, 0⟩)) ⟨by unfold IsLine; norm_num, by norm_num [abs_of_nonneg], by norm_num [Vertex.pos]⟩ hon
      rw [show (⟨625, -1200, 3 / 4⟩ : Vertex ℝ) = Vertex.withBulge ⟨625, -1200, 1 / 3⟩ (3 / 4) from rfl, hc, hr] at this
      unfold OnCircle edist at this
      rw [Real.sqrt_eq_iff_mul_self_eq (by positivity) (by norm_num)] at this
      norm_num at this
    · rw [onSeg_line (by simp [IsLine])] at hon
      obtain ⟨t, _, _, h⟩ := hon
      rw [V2.ext_iff'] at h
      simp only [linePoint, Vertex.pos] at h
      linarith [h.1, h.2]

end Cavc
