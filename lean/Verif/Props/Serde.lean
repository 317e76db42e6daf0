import Verif.Lemmas.Serde

/-! # C57: what is serialized can be read back

`Codec enc dec` (Spec/Serde) says that the reader recovers every written value, whatever tokens follow,
and that it accepts nothing but what the writer writes. -/

namespace Cavc
open Serde

variable {T : Type}

/-- **C57** vertexes and polylines of any size are read back unchanged in every kind of format, and a
reader that accepts some input accepts exactly what the writer would have written for the value. -/
theorem C57_polyline [DecidableEq T] (f : Format) :
    Codec (T := T) (encVertex f) (decVertex f) ∧ Codec (T := T) (encPline f) (decPline f) :=
  ⟨codec_vertex f, codec_pline f⟩

/-- **C57** vectors, view data and boolean results likewise in text formats and in formats without tuple
headers.  Formats that write the announced tuple length are excluded, see `C57_counted_witness`. -/
theorem C57_view_data_partial [DecidableEq T] (f : Format) (hf : f ≠ .counted) :
    Codec (T := T) (encV2 f) (decV2 f) ∧ Codec (T := T) (encViewData f) (decViewData f) ∧
    Codec (T := T) (encBoolSlice f) (decBoolSlice f) ∧ Codec (T := T) (encResultPline f) (decResultPline f) :=
  ⟨codec_v2 hf, codec_viewData hf, codec_boolSlice hf, codec_resultPline hf⟩

/-- Disagreement: `Vector2` announces a tuple of three and writes two numbers, so in a format that writes the
announced length no vector and no view data can ever be read back. -/
theorem C57_counted_witness [DecidableEq T] (v : V2 T) (d : ViewData T) (rest : List (Tok T)) :
    decV2 .counted (encV2 .counted v ++ rest) = none ∧ decViewData .counted (encViewData .counted d ++ rest) = none := by
  have h2 : ∀ (v : V2 T) rest, decV2 .counted (encV2 .counted v ++ rest) = none := fun v rest => rfl
  refine ⟨h2 v rest, ?_⟩
  unfold encViewData decViewData
  simp only [List.append_assoc, expect_back, (codec_vertex _).back, h2, codec_nat.back, codec_num.back, bind, Option.bind]

/-- **C57** in text form a vertex is an array of exactly three numbers: shorter and longer arrays are
refused. -/
theorem C57_vertex_length (xs : List T) (rest : List (Tok T)) :
    (decVertex .delimited (.arrayOpen :: (xs.map Tok.num ++ .arrayClose :: rest))).isSome = true ↔ xs.length = 3 := by
  match xs with
  | [] => simp [decVertex, decTuple, decNum]
  | [a] => simp [decVertex, decTuple, decNum]
  | [a, b] => simp [decVertex, decTuple, decNum]
  | [a, b, c] => simp [decVertex, decTuple, decNum]
  | a :: b :: c :: d :: l => simp [decVertex, decTuple, decNum]

/-- A polyline of two vertexes in text form, read back from a longer stream. -/
example : decPline .delimited (encPline .delimited (⟨[⟨0, 0, 1⟩, ⟨2, 0, 1⟩], true⟩ : Pline Nat) ++ [.nat 7]) =
    some (⟨[⟨0, 0, 1⟩, ⟨2, 0, 1⟩], true⟩, [.nat 7]) := by decide

/-- The text form itself. -/
example : encPline .delimited (⟨[⟨5, 6, 1⟩], false⟩ : Pline Nat) =
    [.objectOpen, .key "vertexes", .arrayOpen, .arrayOpen, .num 5, .num 6, .num 1, .arrayClose, .arrayClose,
      .key "isClosed", .bool false, .objectClose] := rfl

end Cavc
