import Verif.Model.Serde

/-! # Specification: what it means that stored values come back -/

namespace Cavc
namespace Serde

variable {T : Type}

/-- The reader recovers what the writer wrote, whatever follows, and accepts nothing else. -/
structure Codec {α : Type} (enc : α → List (Tok T)) (dec : Dec T α) : Prop where
  back : ∀ v rest, dec (enc v ++ rest) = some (v, rest)
  only : ∀ ts v rest, dec ts = some (v, rest) → ts = enc v ++ rest

end Serde
end Cavc
