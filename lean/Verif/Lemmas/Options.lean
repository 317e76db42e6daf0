import Verif.Model.Offset

/-! # The stitching of offset slices does not look at the index option -/

namespace Cavc

variable {T : Type} [Scalar T]

theorem inner_no_index (env : Env T) (raw : Pline T) (idx : Index T) (slices : List (ViewData T)) (c : Bool) (m : Nat)
    (a b : Option (Index T)) (hs : Bool) (e j d : T) (st : V2 T) :
    ∀ (fuel : Nat) (cur : Pline T) (k : Nat) (v : List Bool),
      offsetStitchInner env raw idx slices c m ⟨a, hs, e, j, d⟩ st fuel cur k v =
        offsetStitchInner env raw idx slices c m ⟨b, hs, e, j, d⟩ st fuel cur k v
  | 0, _, _, _ => rfl
  | fuel + 1, cur, k, v => by
    unfold offsetStitchInner
    simp only [inner_no_index env raw idx slices c m a b hs e j d st fuel]

theorem outer_no_index (env : Env T) (raw : Pline T) (idx : Index T) (slices : List (ViewData T)) (c : Bool) (m : Nat)
    (a b : Option (Index T)) (hs : Bool) (e j d : T) :
    ∀ (l : List Nat) (v : List Bool),
      offsetStitchOuter env raw idx slices c m ⟨a, hs, e, j, d⟩ l v = offsetStitchOuter env raw idx slices c m ⟨b, hs, e, j, d⟩ l v
  | [], _ => rfl
  | i :: l, v => by
    unfold offsetStitchOuter
    simp only [outer_no_index env raw idx slices c m a b hs e j d l, inner_no_index env raw idx slices c m a b hs e j d]

theorem stitch_no_index (env : Env T) (raw : Pline T) (slices : List (ViewData T)) (c : Bool) (m : Nat)
    (a b : Option (Index T)) (hs : Bool) (e j d : T) :
    stitchSlicesTogether env raw slices c m ⟨a, hs, e, j, d⟩ = stitchSlicesTogether env raw slices c m ⟨b, hs, e, j, d⟩ := by
  unfold stitchSlicesTogether
  simp only [outer_no_index env raw _ slices c m a b hs e j d]

end Cavc
