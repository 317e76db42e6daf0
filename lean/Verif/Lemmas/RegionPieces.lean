import Verif.Lemmas.StitchAll
import Verif.Lemmas.Balance
import Verif.Props.View

/-! # Sums over the pieces of two polylines that cut each other -/

set_option linter.unusedVariables false

namespace Cavc
open Pline

/-! ### counting -/

open Classical in
noncomputable def ind (X Y : V2 ℝ) : ℤ := if Y = X then 1 else 0

theorem ind_count (X : V2 ℝ) : ∀ l : List (V2 ℝ), (l.map (ind X)).sum = (by classical exact ((l.count X : ℕ) : ℤ))
  | [] => by simp
  | a :: l => by
    classical
    have := ind_count X l
    simp only [List.map_cons, List.sum_cons, this, List.count_cons, ind]
    by_cases h : a = X
    · simp [h]; ring
    · simp [h]

theorem perm_of_ind {l m : List (V2 ℝ)} (h : ∀ X, (l.map (ind X)).sum = (m.map (ind X)).sum) : l.Perm m := by
  classical
  rw [List.perm_iff_count]
  intro X
  have := h X
  rw [ind_count, ind_count] at this
  exact_mod_cast this

theorem sum_sub {α : Type} (f g : α → ℤ) (l : List α) : (l.map fun x => f x - g x).sum = (l.map f).sum - (l.map g).sum := by
  induction l with
  | nil => simp
  | cons a l ih => simp only [List.map_cons, List.sum_cons, ih]; ring

theorem sum_scale {α : Type} (k : ℤ) (f : α → ℤ) (l : List α) : (l.map fun x => k * f x).sum = k * (l.map f).sum := by
  induction l with
  | nil => simp
  | cons a l ih => simp only [List.map_cons, List.sum_cons, ih]; ring

theorem sum_filter {α : Type} (p : α → Bool) (f : α → ℤ) (l : List α) :
    ((l.filter p).map f).sum + ((l.filter fun x => !p x).map f).sum = (l.map f).sum := by
  induction l with
  | nil => simp
  | cons a l ih =>
    cases h : p a
    · simp [List.filter_cons, h, ← ih]; ring
    · simp [List.filter_cons, h, ← ih]; ring

/-- a sum with weights that are 0 or `σ` -/
theorem sum_weights {α : Type} (p : α → Bool) (w f : α → ℤ) (σ : ℤ) : ∀ (l : List α), (∀ x ∈ l, w x = if p x then σ else 0) →
    (l.map fun x => w x * f x).sum = σ * ((l.filter p).map f).sum
  | [], _ => by simp
  | a :: l, h => by
    have ih := sum_weights p w f σ l (fun x hx => h x (by simp [hx]))
    have ha := h a (by simp)
    cases hp : p a
    · simp only [hp, Bool.false_eq_true, if_false] at ha
      simp [List.filter_cons, hp, ih, ha]
    · simp only [hp, if_true] at ha
      simp [List.filter_cons, hp, ih, ha]; ring

/-- how many paths end at `X` less those that start there -/
noncomputable def pnet (X : V2 ℝ) (l : List (List (Vertex ℝ))) : ℤ := (l.map fun vs => ind X (lastPos vs) - ind X (headPos vs)).sum

theorem balanced_of_pnet {l : List (List (Vertex ℝ))} (h : ∀ X, pnet X l = 0) : (l.map headPos).Perm (l.map lastPos) := by
  apply perm_of_ind
  intro X
  have := h X
  unfold pnet at this
  rw [sum_sub (fun vs => ind X (lastPos vs)) (fun vs => ind X (headPos vs))] at this
  rw [List.map_map, List.map_map]
  simp only [Function.comp_def]
  linarith

theorem pnet_of_balanced {l : List (List (Vertex ℝ))} (h : (l.map headPos).Perm (l.map lastPos)) (X : V2 ℝ) : pnet X l = 0 := by
  unfold pnet
  rw [sum_sub (fun vs => ind X (lastPos vs)) (fun vs => ind X (headPos vs))]
  have := (h.map (ind X)).sum_eq
  rw [List.map_map, List.map_map] at this
  simp only [Function.comp_def] at this
  linarith

theorem path_net (X : V2 ℝ) : ∀ vs : List (Vertex ℝ), 2 ≤ vs.length →
    ((pathSegs vs).map fun s => ind X s.2.pos - ind X s.1.pos).sum = ind X (lastPos vs) - ind X (headPos vs)
  | [a, b], _ => by simp [pathSegs, lastPos, headPos]
  | a :: b :: c :: l, _ => by
    have := path_net X (b :: c :: l) (by simp)
    have e1 : lastPos (a :: b :: c :: l) = lastPos (b :: c :: l) := by simp [lastPos]
    have e2 : headPos (a :: b :: c :: l) = a.pos := rfl
    have e3 : headPos (b :: c :: l) = b.pos := rfl
    have e4 : pathSegs (a :: b :: c :: l) = (a, b) :: pathSegs (b :: c :: l) := rfl
    rw [e4, List.map_cons, List.sum_cons, this, e1, e2, e3]
    ring

/-- the winding of paths -/
noncomputable def pwind (z : ℝ × ℝ) (l : List (List (Vertex ℝ))) : ℤ := (l.map fun vs => ((edges vs).map (segW z)).sum).sum

theorem segW_strip (z : ℝ × ℝ) (s : Vertex ℝ × Vertex ℝ) : segW z (strip s) = segW z s := rfl

theorem edges_wind (z : ℝ × ℝ) (vs : List (Vertex ℝ)) : ((edges vs).map (segW z)).sum = ((pathSegs vs).map (segW z)).sum := by
  unfold edges
  rw [List.map_map]
  rfl

/-! ### reversed paths -/

def flipE (e : Vertex ℝ × Vertex ℝ) : Vertex ℝ × Vertex ℝ := (⟨e.2.x, e.2.y, -e.1.bulge⟩, ⟨e.1.x, e.1.y, 0⟩)

theorem flip_full {e : Vertex ℝ × Vertex ℝ} {eps : ℝ} (h : FullSeg e.1 e.2 eps) : FullSeg (flipE e).1 (flipE e).2 eps := by
  refine ⟨?_, ?_⟩
  · have := h.shape
    unfold IsLine at *
    simpa [flipE] using this
  · have := h.apart
    rw [← Bool.not_eq_true, V2.fuzzyEqEps_iff] at this ⊢
    intro h2
    apply this
    obtain ⟨a, b⟩ := h2
    simp only [flipE, Vertex.pos] at a b ⊢
    exact ⟨by rw [abs_sub_comm]; exact a, by rw [abs_sub_comm]; exact b⟩

theorem flip_trace {e : Vertex ℝ × Vertex ℝ} (h : Proper e) : segTrace (flipE e) = segTrace e := by
  ext z
  constructor
  · rintro ⟨t, h0, h1, e'⟩
    refine ⟨1 - t, by linarith, by linarith, ?_⟩
    rw [e']
    exact segCurve_flip _ _ h _ _
  · rintro ⟨t, h0, h1, e'⟩
    refine ⟨1 - t, by linarith, by linarith, ?_⟩
    rw [e']
    have := segCurve_flip _ _ h 0 (1 - t)
    rw [sub_sub_cancel] at this
    exact this.symm

theorem flip_wind {e : Vertex ℝ × Vertex ℝ} (h : Proper e) {z : ℝ × ℝ} (hz : z ∉ segTrace e) : segW z (flipE e) = -segW z e :=
  segWinding_flip h hz 0

noncomputable def edgeOf (x : Piece ℝ) : Vertex ℝ × Vertex ℝ := (⟨x.start.x, x.start.y, x.bulge⟩, ⟨x.stop.x, x.stop.y, 0⟩)

theorem edges_path {vs : List (Vertex ℝ)} (h : 2 ≤ vs.length) : edges vs = ((⟨vs, false⟩ : Pline ℝ).path).map edgeOf := by
  match vs, h with
  | a :: b :: l, _ =>
    unfold edges Pline.path
    have : (⟨a :: b :: l, false⟩ : Pline ℝ).segs = pathSegs (a :: b :: l) := by unfold Pline.segs; simp
    rw [this, List.map_map]
    rfl

theorem edges_reverse {vs vs' : List (Vertex ℝ)} (h : 2 ≤ vs.length) (h' : 2 ≤ vs'.length)
    (e : (⟨vs', false⟩ : Pline ℝ).path = reversePath (⟨vs, false⟩ : Pline ℝ).path) : edges vs' = ((edges vs).map flipE).reverse := by
  rw [edges_path h, edges_path h', e]
  unfold reversePath
  rw [List.map_reverse, List.map_map, List.map_map]
  rfl

theorem headPos_edges {vs : List (Vertex ℝ)} (h : 2 ≤ vs.length) : headPos vs = ((edges vs).head?.map fun e => e.1.pos).getD ⟨0, 0⟩ := by
  match vs, h with
  | a :: b :: l, _ => rfl

theorem lastPos_edges : ∀ {vs : List (Vertex ℝ)}, 2 ≤ vs.length → lastPos vs = ((edges vs).getLast?.map fun e => e.2.pos).getD ⟨0, 0⟩
  | [a, b], _ => rfl
  | a :: b :: c :: l, _ => by
    have := lastPos_edges (vs := b :: c :: l) (by simp)
    have e1 : lastPos (a :: b :: c :: l) = lastPos (b :: c :: l) := by simp [lastPos]
    have e4 : edges (a :: b :: c :: l) = strip (a, b) :: edges (b :: c :: l) := rfl
    have e5 : edges (b :: c :: l) = strip (b, c) :: edges (c :: l) := rfl
    rw [e1, this, e4, e5, List.getLast?_cons_cons]

theorem reverse_ends {vs vs' : List (Vertex ℝ)} (h : 2 ≤ vs.length) (h' : 2 ≤ vs'.length) (e : edges vs' = ((edges vs).map flipE).reverse) :
    headPos vs' = lastPos vs ∧ lastPos vs' = headPos vs := by
  rw [headPos_edges h, headPos_edges h', lastPos_edges h, lastPos_edges h', e]
  constructor
  · rw [List.head?_reverse, List.getLast?_map, Option.map_map]
    rfl
  · rw [List.getLast?_reverse, List.head?_map, Option.map_map]
    rfl

end Cavc
