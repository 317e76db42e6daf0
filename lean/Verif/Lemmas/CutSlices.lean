import Verif.Lemmas.CutPieces
import Verif.Lemmas.BoolSlices

/-! # The slices taken at clean cuts are the pieces between them -/

namespace Cavc
open Real RealScalar Pline

/-- The lookup table for cuts given as fractions. -/
noncomputable def lookOf (p : Pline ℝ) (CL : List (Nat × List ℝ)) : List (Nat × List (SlicePoint ℝ)) :=
  CL.map fun c => (c.1, c.2.map fun t => ⟨curveAt p c.1 t, false⟩)

/-- All cuts of a table. -/
def cutsOf (CL : List (Nat × List ℝ)) : List Cut := CL.flatMap fun c => c.2.map fun t => (c.1, t)

/-- The slice `s` is the piece of `p` from cut `a` to cut `b`. -/
structure SlicePiece (p : Pline ℝ) (eps : ℝ) (us : Bool) (a b : Cut) (s : BoolSlice ℝ) : Prop where
  source : s.sourceIsPline1 = !us
  plain : s.overlapping = false
  forward : s.viewData.inverted = false
  range : s.viewData.InRange p
  start : s.viewData.updatedStart.pos = curveAt p a.1 a.2
  stop : s.viewData.endPoint = curveAt p b.1 b.2
  single : s.viewData.endIndexOffset = 0 → s.viewData.updatedEndBulge = s.viewData.updatedStart.bulge
  reads : ∃ vs, s.viewData.toPline p = .ok ⟨vs, false⟩ ∧ Along p eps a b vs

/-- `m` is a point of the first segment of the piece, between its ends. -/
def TestPt (p : Pline ℝ) (a b : Cut) (m : V2 ℝ) : Prop := ∃ s, a.2 < s ∧ s < hiOf a b 0 ∧ m = curveAt p a.1 s

/-- slices that pass a test on their point -/
def passing (pred : V2 ℝ → Bool) (SS : List (BoolSlice ℝ × V2 ℝ)) : List (BoolSlice ℝ) := (SS.filter fun x => pred x.2).map Prod.fst

theorem passing_append (pred : V2 ℝ → Bool) (A B : List (BoolSlice ℝ × V2 ℝ)) : passing pred (A ++ B) = passing pred A ++ passing pred B := by
  unfold passing; rw [List.filter_append, List.map_append]

def PieceAt (p : Pline ℝ) (eps : ℝ) (us : Bool) (pr : Cut × Cut) (x : BoolSlice ℝ × V2 ℝ) : Prop :=
  SlicePiece p eps us pr.1 pr.2 x.1 ∧ TestPt p pr.1 pr.2 x.2

theorem same_spec {p : Pline ℝ} {eps : ℝ} (he : 0 < eps) (hf : FullLoop p eps) {i : Nat} (hi : i < p.verts.length) (us : Bool) :
    ∀ (ts : List ℝ) (t : ℝ) (b : Vertex ℝ) (prev : SlicePoint ℝ), prev.isStartOfOverlap = false → Base (vtx p i) (vtx p (i + 1)) eps t b →
      (∀ u ∈ ts, CutOk p eps (i, u)) → (∀ x ∈ pathSegs (t :: ts), CutFollows p eps (i, x.1) (i, x.2)) →
      ∃ SS, List.Forall₂ (PieceAt p eps us) (pathSegs ((t :: ts).map fun u => ((i, u) : Cut))) SS ∧
        ∀ pred, sameSegSlices us pred eps i (vtx p (i + 1)) b prev (ts.map fun u => ⟨curveAt p i u, false⟩) = passing pred SS
  | [], t, b, prev, _, _, _, _ => ⟨[], by simp [pathSegs], fun pred => by simp [sameSegSlices, passing]⟩
  | u :: ts, t, b, prev, hprev, hb, hok, hfol => by
    have hn : 0 < p.verts.length := by omega
    have hu := hok u (by simp)
    have hfl : CutFollows p eps (i, t) (i, u) := hfol (t, u) (by simp [pathSegs])
    have hfl' : t < u ∧ (curveAt p i t).fuzzyEqEps (curveAt p i u) eps = false ∧ LongPart (vtx p i) t u := by
      rcases hfl with ⟨-, h⟩ | ⟨h, -⟩
      · exact h
      · exact absurd h (lt_irrefl _)
    obtain ⟨htu, hap, hlong⟩ := hfl'
    rw [curveAt_vtx hn, curveAt_vtx hn] at hap
    obtain ⟨hpart, hbase⟩ := hb.step he htu hu hap hlong
    obtain ⟨SS, hS, hp⟩ := same_spec he hf hi us ts u _ ⟨curveAt p i u, false⟩ rfl hbase (fun x hx => hok x (by simp [hx]))
      (fun x hx => hfol x (by simp only [pathSegs, List.mem_cons]; exact Or.inr hx))
    obtain ⟨vs, hv, hal⟩ := single_along hf hi hpart
    set r := segSplitAtPoint b (vtx p (i + 1)) (segCurve (vtx p i) (vtx p (i + 1)) u) eps with hr
    refine ⟨(BoolSlice.fromOpen ⟨i, 0, r.updatedStart, r.updatedStart.bulge, r.splitVertex.pos, false⟩ (!us) false,
      segMidpoint r.updatedStart r.splitVertex) :: SS, ?_, fun pred => ?_⟩
    · simp only [List.map_cons, pathSegs]
      refine List.Forall₂.cons ⟨⟨rfl, rfl, rfl, ⟨hi, by simp [BoolSlice.fromOpen]⟩, ?_, ?_, fun _ => rfl, vs, hv, hal⟩, ?_⟩ ?_
      · show r.updatedStart.pos = curveAt p i t
        rw [curveAt_vtx hn]; exact hpart.start
      · show r.splitVertex.pos = curveAt p i u
        rw [curveAt_vtx hn]; exact hpart.stop
      · refine ⟨t + (u - t) * (1 / 2), ?_, ?_, ?_⟩
        · show t < _; linarith
        · show _ < hiOf (i, t) (i, u) 0
          unfold hiOf
          simp only [Nat.sub_self, if_true]
          linarith
        · show segMidpoint _ _ = curveAt p i _
          rw [(C30_midpoint _ _ (hpart.full.proper he)).1, hpart.along, curveAt_vtx hn]
      · exact hS
    · have h2 := hp pred
      simp only [List.map_cons, sameSegSlices]
      rw [curveAt_vtx hn] at h2 ⊢
      rw [← hr, h2, hprev]
      have h3 : (r.updatedStart.pos.fuzzyEqEps r.splitVertex.pos eps) = false := hpart.full.apart
      simp only [Bool.false_eq_true, if_false, h3, ViewData.createOnSingleSegment]
      unfold passing
      rw [List.filter_cons]
      cases hpd : pred (segMidpoint r.updatedStart r.splitVertex) <;> simp

/-- Looking for the next cut. -/
theorem next_spec {p : Pline ℝ} {eps : ℝ} (he : 0 < eps) (hf : FullLoop p eps) {i j : Nat} (hi : i < p.verts.length) (hij : i < j)
    (hj : j ≤ i + p.verts.length) {t u : ℝ} (ht1 : t < 1) (hc : CutOk p eps (j, u)) {b : Vertex ℝ} (h : Base (vtx p i) (vtx p (i + 1)) eps t b)
    (us : Bool) (lookup : List (Nat × List (SlicePoint ℝ))) (hnone : ∀ m, i < m → m < j → mapGet (m % p.verts.length) lookup = none)
    (ys : List (SlicePoint ℝ)) (hget : mapGet (j % p.verts.length) lookup = some (⟨curveAt p j u, false⟩ :: ys)) :
    ∃ x, PieceAt p eps us ((i, t), (j, u)) x ∧
      ∀ pred, nextSliceLoop p lookup us pred eps i b (p.vertexCount + 1) 0 (p.nextWrap i) = .ok (passing pred [x]) := by
  have hn : 0 < p.verts.length := by omega
  obtain ⟨d, hd, h1, h2, h3, h4, h5, vs, hvs, hal⟩ := pass_along he hf hi hij hj hc h
  refine ⟨(BoolSlice.fromOpen d (!us) false, segMidpoint b (vtx p (i + 1))), ⟨⟨rfl, rfl, rfl, ⟨?_, ?_⟩, ?_, ?_, ?_, vs, ?_, hal⟩, ?_⟩, fun pred => ?_⟩
  · show d.startIndex < _; rw [h1]; exact hi
  · show d.endIndexOffset ≤ _; rw [h2]; omega
  · show d.updatedStart.pos = curveAt p i t
    rw [h3, curveAt_vtx hn]; exact h.pos
  · exact h4
  · intro h0
    exfalso
    have : d.endIndexOffset = 0 := h0
    omega
  · show ViewData.toPline { d with inverted := false } p = _
    rw [← hvs]
    congr 1
    rw [← h5]
  · refine ⟨t + (1 - t) * (1 / 2), ?_, ?_, ?_⟩
    · show t < _; linarith
    · show _ < hiOf (i, t) (j, u) 0
      unfold hiOf
      rw [if_neg (by show ¬ 0 = j - i; omega)]
      linarith
    · show segMidpoint _ _ = curveAt p i _
      rw [(C30_midpoint _ _ (h.full.proper he)).1, h.along, curveAt_vtx hn]
  · have key : ∀ (k lc index : Nat), i + lc + 1 + k = j → index = (i + lc + 1) % p.verts.length → ∀ fuel, k < fuel →
        nextSliceLoop p lookup us pred eps i b fuel lc index = .ok (passing pred [(BoolSlice.fromOpen d (!us) false, segMidpoint b (vtx p (i + 1)))]) := by
      intro k
      induction k with
      | zero =>
        intro lc index hk hidx fuel hfu
        obtain ⟨fuel, rfl⟩ := Nat.exists_eq_add_of_lt hfu
        simp only [Nat.zero_add]
        have hji : i + lc + 1 = j := by omega
        rw [hji] at hidx
        unfold nextSliceLoop
        rw [hidx, hget]
        simp only [bind, Except.bind]
        have : lc + 1 = j - i := by omega
        rw [this, hd]
        simp only [BoolSlice.fromOpen]
        rw [h1, nextWrap_eq p hi, at_vtx (Nat.mod_lt _ hn), vtx_mod]
        subst h3
        unfold passing
        cases hpd : pred (segMidpoint d.updatedStart (vtx p (i + 1))) <;> simp [hpd]
      | succ k ih =>
        intro lc index hk hidx fuel hfu
        obtain ⟨fuel, rfl⟩ := Nat.exists_eq_add_of_lt hfu
        rw [show k + 1 + fuel + 1 = (k + 1 + fuel) + 1 from rfl]
        unfold nextSliceLoop
        rw [hidx, hnone (i + lc + 1) (by omega) (by omega)]
        simp only
        apply ih (lc + 1) _ (by omega) _ _ (by omega)
        rw [nextWrap_eq p (Nat.mod_lt _ hn), Nat.mod_add_mod]
        rfl
    have := key (j - i - 1) 0 (p.nextWrap i) (by omega) (by rw [nextWrap_eq p hi]) (p.vertexCount + 1) (by unfold vertexCount; omega)
    exact this

/-- All slices that start on one segment. -/
theorem seg_spec {p : Pline ℝ} {eps : ℝ} (he : 0 < eps) (hf : FullLoop p eps) {i : Nat} (hi : i < p.verts.length) (us : Bool)
    (t : ℝ) (ts : List ℝ) (hok : ∀ u ∈ t :: ts, CutOk p eps (i, u)) (hfol : ∀ x ∈ pathSegs (t :: ts), CutFollows p eps (i, x.1) (i, x.2))
    (nx : Cut) (hnx : CutOk p eps nx) (hij : i < nx.1) (hj : nx.1 ≤ i + p.verts.length)
    (lookup : List (Nat × List (SlicePoint ℝ))) (hnone : ∀ m, i < m → m < nx.1 → mapGet (m % p.verts.length) lookup = none)
    (ys : List (SlicePoint ℝ)) (hget : mapGet (nx.1 % p.verts.length) lookup = some (⟨curveAt p nx.1 nx.2, false⟩ :: ys)) :
    ∃ SS, List.Forall₂ (PieceAt p eps us) (pathSegs (((t :: ts).map fun u => ((i, u) : Cut)) ++ [nx])) SS ∧
      ∀ pred, segSlices p lookup us pred eps (i, (t :: ts).map fun u => ⟨curveAt p i u, false⟩) = .ok (passing pred SS) := by
  have hn : 0 < p.verts.length := by omega
  obtain ⟨S1, hS1, hp1⟩ := same_spec he hf hi us ts t _ ⟨curveAt p i t, false⟩ rfl ((hok t (by simp)).base he (hf.full i))
    (fun u hu => hok u (by simp [hu])) hfol
  set l := (t :: ts).getLast (by simp) with hl
  have hlok := hok l (List.getLast_mem _)
  obtain ⟨x, hx, hp2⟩ := next_spec he hf hi hij hj hlok.lt hnx (hlok.base he (hf.full i)) us lookup hnone ys hget
  refine ⟨S1 ++ [x], ?_, fun pred => ?_⟩
  · have happ : ∀ (L : List Cut) (h : L ≠ []) (y : Cut), pathSegs (L ++ [y]) = pathSegs L ++ [(L.getLast h, y)] := by
      intro L
      induction L with
      | nil => intro h; exact absurd rfl h
      | cons a L ih =>
        intro _ y
        cases L with
        | nil => simp [pathSegs]
        | cons b L =>
          have := ih (by simp) y
          simp only [List.cons_append, pathSegs] at *
          rw [this]
          simp
    rw [happ _ (by simp)]
    refine List.rel_append hS1 (List.Forall₂.cons ?_ List.Forall₂.nil)
    rw [List.getLast_map]
    exact hx
  · unfold segSlices
    simp only [bind, Except.bind]
    rw [at_vtx hi, nextWrap_eq p hi, at_vtx (Nat.mod_lt _ hn), vtx_mod]
    simp only [List.map_cons]
    have hlast : ∀ h, (({ pos := curveAt p i t, isStartOfOverlap := false } : SlicePoint ℝ) ::
        ts.map fun u => { pos := curveAt p i u, isStartOfOverlap := false }).getLast h = ⟨curveAt p i l, false⟩ := by
      intro h
      have : ∀ h, ((t :: ts).map fun u => ({ pos := curveAt p i u, isStartOfOverlap := false } : SlicePoint ℝ)).getLast h = ⟨curveAt p i l, false⟩ := by
        intro h; rw [List.getLast_map]
      exact this h
    rw [hlast]
    have h1 := hp1 pred
    have h2 := hp2 pred
    rw [nextWrap_eq p hi] at h2
    simp only [Bool.false_eq_true, if_false]
    rw [curveAt_vtx hn i l, h2, passing_append]
    rw [curveAt_vtx hn i t] at h1 ⊢
    rw [h1]

theorem pathSegs_join {α : Type} : ∀ (X : List α) (a : α) (Y : List α), pathSegs (X ++ a :: Y) = pathSegs (X ++ [a]) ++ pathSegs (a :: Y)
  | [], a, Y => by simp [pathSegs]
  | [x], a, Y => by simp [pathSegs]
  | x :: y :: X, a, Y => by
    have := pathSegs_join (y :: X) a Y
    simp only [List.cons_append, pathSegs] at *
    rw [this]

/-- A table of cuts as the code builds it: ascending segments, ascending fractions. -/
structure Table (p : Pline ℝ) (eps : ℝ) (CL : List (Nat × List ℝ)) : Prop where
  range : ∀ c ∈ CL, c.1 < p.verts.length
  nonempty : ∀ c ∈ CL, c.2 ≠ []
  keys : CL.Pairwise fun a b => a.1 < b.1
  ok : ∀ c ∈ CL, ∀ t ∈ c.2, CutOk p eps (c.1, t)
  sorted : ∀ c ∈ CL, c.2.Pairwise fun a b => a < b
  within : ∀ c ∈ CL, ∀ x ∈ pathSegs c.2, CutFollows p eps (c.1, x.1) (c.1, x.2)

theorem look_none (p : Pline ℝ) (k : Nat) : ∀ CL : List (Nat × List ℝ), (∀ c ∈ CL, c.1 ≠ k) → mapGet k (lookOf p CL) = none
  | [], _ => rfl
  | c :: CL, h => by
    show mapGet k ((c.1, _) :: lookOf p CL) = none
    unfold mapGet
    rw [if_neg (Ne.symm (h c (by simp)))]
    exact look_none p k CL fun c hc => h c (by simp [hc])

theorem look_some (p : Pline ℝ) : ∀ CL : List (Nat × List ℝ), (CL.Pairwise fun a b => a.1 < b.1) → ∀ c ∈ CL,
    mapGet c.1 (lookOf p CL) = some (c.2.map fun t => ⟨curveAt p c.1 t, false⟩)
  | [], _, c, hc => by simp at hc
  | d :: CL, h, c, hc => by
    show mapGet c.1 ((d.1, _) :: lookOf p CL) = _
    unfold mapGet
    rw [List.pairwise_cons] at h
    rcases List.mem_cons.mp hc with rfl | hc
    · rw [if_pos rfl]
    · rw [if_neg (by have := h.1 c hc; omega)]
      exact look_some p CL h.2 c hc

theorem curveAt_add {p : Pline ℝ} (hn : 0 < p.verts.length) (i : Nat) (t : ℝ) : curveAt p (i + p.verts.length) t = curveAt p i t := by
  rw [curveAt_vtx hn, curveAt_vtx hn, vtx_add, show i + p.verts.length + 1 = i + 1 + p.verts.length by omega, vtx_add]

theorem CutOk.add {p : Pline ℝ} {eps : ℝ} {c : Cut} (h : CutOk p eps c) : CutOk p eps (c.1 + p.verts.length, c.2) := by
  unfold CutOk at *
  dsimp only
  rw [vtx_add, show c.1 + p.verts.length + 1 = c.1 + 1 + p.verts.length by omega, vtx_add]
  exact h

/-- All slices of a table of cuts. -/
theorem table_spec {p : Pline ℝ} {eps : ℝ} (he : 0 < eps) (hf : FullLoop p eps) (us : Bool) {CL : List (Nat × List ℝ)} (hT : Table p eps CL)
    {f : Cut} (hf0 : (cutsOf CL).head? = some f) :
    ∀ (L A : List (Nat × List ℝ)), CL = A ++ L →
      ∃ SS, List.Forall₂ (PieceAt p eps us) (pathSegs (cutsOf L ++ [(f.1 + p.verts.length, f.2)])) SS ∧
        ∀ pred, ∃ ss, (lookOf p L).mapM (segSlices p (lookOf p CL) us pred eps) = .ok ss ∧ ss.flatten = passing pred SS := by
  have hn : 0 < p.verts.length := by have := hf.two; omega
  -- the first cut
  have hfirst : ∃ fs CL', CL = (f.1, f.2 :: fs) :: CL' := by
    cases hCL : CL with
    | nil => rw [hCL] at hf0; simp [cutsOf] at hf0
    | cons c CL' =>
      obtain ⟨i, ts⟩ := c
      have := hT.nonempty (i, ts) (by simp [hCL])
      cases ts with
      | nil => exact absurd rfl this
      | cons t ts =>
        rw [hCL] at hf0
        simp only [cutsOf, List.flatMap_cons, List.map_cons, List.cons_append, List.head?_cons, Option.some.injEq] at hf0
        subst hf0
        exact ⟨ts, CL', rfl⟩
  obtain ⟨fs, CL', hCL⟩ := hfirst
  have hfge : ∀ c ∈ CL, f.1 ≤ c.1 := by
    have hk := hT.keys
    intro c hc
    rw [hCL] at hc hk
    rcases List.mem_cons.mp hc with rfl | hc
    · exact le_rfl
    · exact (List.pairwise_cons.mp hk).1 c hc |>.le
  have hfmem : (f.1, f.2 :: fs) ∈ CL := by simp [hCL]
  have hfn : f.1 < p.verts.length := hT.range _ hfmem
  intro L
  induction L with
  | nil =>
    intro A _
    refine ⟨[], by simp [cutsOf, pathSegs], fun pred => ⟨[], rfl, by simp [passing]⟩⟩
  | cons c L ih =>
    intro A hA
    obtain ⟨i, ts⟩ := c
    have hmem : (i, ts) ∈ CL := by rw [hA]; simp
    obtain ⟨S2, hS2, hp2⟩ := ih (A ++ [(i, ts)]) (by rw [hA]; simp)
    have hne := hT.nonempty _ hmem
    have hi := hT.range _ hmem
    have hwithin := hT.within _ hmem
    have hokc := hT.ok _ hmem
    have hget0 := look_some p CL hT.keys _ hmem
    dsimp only at hne hi hwithin hokc
    obtain ⟨t, ts', rfl⟩ : ∃ t ts', ts = t :: ts' := by
      cases ts with
      | nil => exact absurd rfl hne
      | cons t ts' => exact ⟨t, ts', rfl⟩
    have hk := hT.keys
    rw [hA, List.pairwise_append, List.pairwise_cons] at hk
    obtain ⟨-, ⟨hkL, -⟩, hkA⟩ := hk
    -- the next cut
    have hnext : ∃ nx more ys, cutsOf L ++ [((f.1 + p.verts.length, f.2) : Cut)] = nx :: more ∧ CutOk p eps nx ∧ i < nx.1 ∧ nx.1 ≤ i + p.verts.length ∧
        (∀ m, i < m → m < nx.1 → mapGet (m % p.verts.length) (lookOf p CL) = none) ∧
        mapGet (nx.1 % p.verts.length) (lookOf p CL) = some (⟨curveAt p nx.1 nx.2, false⟩ :: ys) := by
      cases L with
      | nil =>
        refine ⟨(f.1 + p.verts.length, f.2), [], fs.map fun t => ⟨curveAt p f.1 t, false⟩, by simp [cutsOf], (hT.ok _ hfmem f.2 (by simp)).add, by show i < f.1 + _; omega,
          by show f.1 + _ ≤ _; have := hfge _ hmem; dsimp only at this; omega, ?_, ?_⟩
        · intro m h1 h2
          apply look_none
          intro c hc
          have hle : c.1 ≤ i := by
            rw [hA] at hc
            rcases List.mem_append.mp hc with hc | hc
            · exact (hkA c hc (i, t :: ts') (by simp)).le
            · simp at hc; rw [hc]
          have hge := hfge c hc
          dsimp only at h2
          by_cases hm : m < p.verts.length
          · rw [Nat.mod_eq_of_lt hm]; omega
          · have : m % p.verts.length = m - p.verts.length := by
              rw [Nat.mod_eq_sub_mod (by omega), Nat.mod_eq_of_lt (by omega)]
            omega
        · dsimp only
          rw [Nat.add_mod_right, Nat.mod_eq_of_lt hfn, curveAt_add hn]
          exact look_some p CL hT.keys _ hfmem
      | cons c L =>
        obtain ⟨j, us'⟩ := c
        have hmem' : (j, us') ∈ CL := by rw [hA]; simp
        have hne' := hT.nonempty _ hmem'
        have hj := hT.range _ hmem'
        dsimp only at hne' hj
        obtain ⟨u, us', rfl⟩ : ∃ t ts', us' = t :: ts' := by
          cases us' with
          | nil => exact absurd rfl hne'
          | cons t ts' => exact ⟨t, ts', rfl⟩
        refine ⟨(j, u), _, us'.map fun t => ⟨curveAt p j t, false⟩, by simp only [cutsOf, List.flatMap_cons, List.map_cons, List.cons_append]; rfl, hT.ok _ hmem' u (by simp),
          hkL (j, u :: us') (by simp), by show j ≤ _; omega, ?_, ?_⟩
        · intro m h1 h2
          dsimp only at h2
          apply look_none
          intro c hc
          rw [Nat.mod_eq_of_lt (by omega)]
          rw [hA] at hc
          rcases List.mem_append.mp hc with hc | hc
          · have := hkA c hc (i, t :: ts') (by simp); dsimp only at this; omega
          · rcases List.mem_cons.mp hc with rfl | hc
            · dsimp only; omega
            · rcases List.mem_cons.mp hc with rfl | hc
              · dsimp only; omega
              · have hk := hT.keys
                rw [hA, List.pairwise_append, List.pairwise_cons, List.pairwise_cons] at hk
                have := hk.2.1.2.1 c hc
                dsimp only at this
                omega
        · dsimp only
          rw [Nat.mod_eq_of_lt hj]
          exact look_some p CL hT.keys _ hmem'
    obtain ⟨nx, more, ys, hcons, hnok, hlt, hle, hnone, hget⟩ := hnext
    obtain ⟨S1, hS1, hp1⟩ := seg_spec he hf hi us t ts' hokc hwithin nx hnok hlt hle (lookOf p CL) hnone ys hget
    refine ⟨S1 ++ S2, ?_, fun pred => ?_⟩
    · have hsplit : cutsOf ((i, t :: ts') :: L) ++ [((f.1 + p.verts.length, f.2) : Cut)] = ((t :: ts').map fun u => ((i, u) : Cut)) ++ nx :: more := by
        rw [← hcons]
        simp only [cutsOf, List.flatMap_cons, List.append_assoc]
      rw [hsplit, pathSegs_join]
      refine List.rel_append hS1 ?_
      rw [← hcons]; exact hS2
    · obtain ⟨ss, h1, h2⟩ := hp2 pred
      refine ⟨passing pred S1 :: ss, ?_, by rw [List.flatten_cons, h2, passing_append]⟩
      have : lookOf p ((i, t :: ts') :: L) = (i, (t :: ts').map fun u => ⟨curveAt p i u, false⟩) :: lookOf p L := rfl
      rw [this, List.mapM_cons, hp1 pred, h1]
      rfl

end Cavc
