import Verif.Model.Boolean

/-!
# Serialization

The `serde` implementations (feature `serde`) of vectors, vertexes, polylines, view data and boolean
results (paths relative to `cavalier_contours/src`).

`serde` separates the type from the data format.  A format is modelled by the tokens it writes for the
calls of the `Serializer` (numbers, indexes and booleans are single tokens that carry the value, so the
model assumes a format that keeps numbers exactly) and by what its `Deserializer` reads back:

* `delimited`: text formats such as JSON.  Arrays and objects carry a closing mark, the length announced
  by `serialize_tuple` is ignored, field names are written.
* `headerless`: compact binary formats such as bincode.  Tuples and structs have no framing at all, only
  sequences are preceded by their length.
* `counted`: self-describing binary formats such as MessagePack or CBOR.  Tuples, sequences and structs are
  preceded by the announced number of elements, and the reader requires that number to be the number of
  elements the type wants.

Simplification: the fields of a struct are read in the order of declaration only, and other keys are not
skipped.  The derived code also accepts other orders; the serializers here never write one.
-/

namespace Cavc
namespace Serde

/-- The tokens of the formats. -/
inductive Tok (T : Type) where
  | num (x : T)
  | nat (n : Nat)
  | bool (b : Bool)
  | key (s : String)
  | header (n : Nat)
  | arrayOpen
  | arrayClose
  | objectOpen
  | objectClose
deriving DecidableEq, Repr

/-- The kinds of data formats, see above. -/
inductive Format where
  | delimited
  | headerless
  | counted
deriving DecidableEq, Repr

/-- A reader: the value and the tokens left, or an error. -/
abbrev Dec (T α : Type) := List (Tok T) → Option (α × List (Tok T))

section
variable {T : Type}

/-- The number token written for `T: Serialize`. -/
def encNum (x : T) : List (Tok T) := [.num x]
/-- Reads a number. -/
def decNum : Dec T T
  | .num x :: r => some (x, r)
  | _ => none
/-- `usize` fields. -/
def encNat (n : Nat) : List (Tok T) := [.nat n]
/-- Reads an index. -/
def decNat : Dec T Nat
  | .nat n :: r => some (n, r)
  | _ => none
/-- `bool` fields. -/
def encBool (b : Bool) : List (Tok T) := [.bool b]
/-- Reads a boolean. -/
def decBool : Dec T Bool
  | .bool b :: r => some (b, r)
  | _ => none

/-- The format's `serialize_tuple(announced)` .. `end()` around the elements. -/
def encTuple (f : Format) (announced : Nat) (body : List (Tok T)) : List (Tok T) :=
  match f with
  | .delimited => .arrayOpen :: (body ++ [.arrayClose])
  | .headerless => body
  | .counted => .header announced :: body

/-- The format's reader for an array of `n` elements (`[T; n]`), `dec` reads the elements. -/
def decTuple {α : Type} (f : Format) (n : Nat) (dec : Dec T α) : Dec T α := fun ts =>
  match f, ts with
  | .delimited, .arrayOpen :: r =>
    match dec r with
    | some (a, .arrayClose :: r') => some (a, r')
    | _ => none
  | .headerless, r => dec r
  | .counted, .header m :: r => if m = n then dec r else none
  | _, _ => none

/-- The format's `serialize_seq(Some(len))` .. `end()` for a `Vec`. -/
def encSeq {α : Type} (f : Format) (enc : α → List (Tok T)) (l : List α) : List (Tok T) :=
  match f with
  | .delimited => .arrayOpen :: (l.flatMap enc ++ [.arrayClose])
  | _ => .header l.length :: l.flatMap enc

/-- Reads `n` elements. -/
def decCount {α : Type} (dec : Dec T α) : Nat → Dec T (List α)
  | 0, r => some ([], r)
  | n + 1, r =>
    match dec r with
    | none => none
    | some (a, r') =>
      match decCount dec n r' with
      | none => none
      | some (l, r'') => some (a :: l, r'')

/-- Reads elements up to the closing mark. -/
def decUntil {α : Type} (dec : Dec T α) : Nat → Dec T (List α)
  | 0, _ => none
  | fuel + 1, r =>
    match r with
    | .arrayClose :: r' => some ([], r')
    | r =>
      match dec r with
      | none => none
      | some (a, r') =>
        match decUntil dec fuel r' with
        | none => none
        | some (l, r'') => some (a :: l, r'')

/-- Reads a `Vec`. -/
def decSeq {α : Type} (f : Format) (dec : Dec T α) : Dec T (List α) := fun ts =>
  match f, ts with
  | .delimited, .arrayOpen :: r => decUntil dec (r.length + 1) r
  | .headerless, .header n :: r => decCount dec n r
  | .counted, .header n :: r => decCount dec n r
  | _, _ => none

/-- `serialize_struct(_, fields)`: start of a struct. -/
def encStructOpen (f : Format) (fields : Nat) : List (Tok T) :=
  match f with
  | .delimited => [.objectOpen]
  | .headerless => []
  | .counted => [.header fields]

/-- End of a struct. -/
def encStructClose (f : Format) : List (Tok T) :=
  match f with
  | .delimited => [.objectClose]
  | _ => []

/-- `serialize_field(name, _)`: the name of a field, if the format writes names. -/
def encKey (f : Format) (name : String) : List (Tok T) :=
  match f with
  | .headerless => []
  | _ => [.key name]

/-- Reads exactly these tokens. -/
def expect [DecidableEq T] : List (Tok T) → List (Tok T) → Option (List (Tok T))
  | [], r => some r
  | _ :: _, [] => none
  | t :: ts, t' :: r => if t = t' then expect ts r else none

/-! ## Vectors and vertexes -/

/-- `Serialize for Vector2`, `core/math/vector2.rs:119-132`: announces three elements, writes two. -/
def encV2 (f : Format) (v : V2 T) : List (Tok T) := encTuple f 3 (encNum v.x ++ encNum v.y)

/-- `Deserialize for Vector2`, `core/math/vector2.rs:134-145`: reads `[T; 2]`. -/
def decV2 (f : Format) : Dec T (V2 T) := decTuple f 2 fun ts => do
  let (x, ts) ← decNum ts
  let (y, ts) ← decNum ts
  some (⟨x, y⟩, ts)

/-- `Serialize for PlineVertex`, `polyline/pline_vertex.rs:39-53`. -/
def encVertex (f : Format) (v : Vertex T) : List (Tok T) := encTuple f 3 (encNum v.x ++ encNum v.y ++ encNum v.bulge)

/-- `Deserialize for PlineVertex`, `polyline/pline_vertex.rs:55-66`: reads `[T; 3]`. -/
def decVertex (f : Format) : Dec T (Vertex T) := decTuple f 3 fun ts => do
  let (x, ts) ← decNum ts
  let (y, ts) ← decNum ts
  let (b, ts) ← decNum ts
  some (⟨x, y, b⟩, ts)

/-! ## Polylines, view data and boolean results -/

/-- derived `Serialize for Polyline`, `polyline/pline.rs:11-24`. -/
def encPline (f : Format) (p : Pline T) : List (Tok T) :=
  encStructOpen f 2 ++ (encKey f "vertexes" ++ encSeq f (encVertex f) p.verts)
    ++ (encKey f "isClosed" ++ encBool p.closed) ++ encStructClose f

variable [DecidableEq T]

/-- derived `Deserialize for Polyline`, `polyline/pline.rs:11-24`. -/
def decPline (f : Format) : Dec T (Pline T) := fun ts => do
  let ts ← expect (encStructOpen f 2) ts
  let ts ← expect (encKey f "vertexes") ts
  let (vs, ts) ← decSeq f (decVertex f) ts
  let ts ← expect (encKey f "isClosed") ts
  let (c, ts) ← decBool ts
  let ts ← expect (encStructClose f) ts
  some (⟨vs, c⟩, ts)

/-- derived `Serialize for PlineViewData`, `polyline/pline_view.rs:76-160`. -/
def encViewData (f : Format) (d : ViewData T) : List (Tok T) :=
  encStructOpen f 6 ++ (encKey f "startIndex" ++ encNat d.startIndex)
    ++ (encKey f "endIndexOffset" ++ encNat d.endIndexOffset)
    ++ (encKey f "updatedStart" ++ encVertex f d.updatedStart)
    ++ (encKey f "updatedEndBulge" ++ encNum d.updatedEndBulge)
    ++ (encKey f "endPoint" ++ encV2 f d.endPoint)
    ++ (encKey f "invertedDirection" ++ encBool d.inverted) ++ encStructClose f

/-- derived `Deserialize for PlineViewData`, `polyline/pline_view.rs:76-160`. -/
def decViewData (f : Format) : Dec T (ViewData T) := fun ts => do
  let ts ← expect (encStructOpen f 6) ts
  let ts ← expect (encKey f "startIndex") ts
  let (s, ts) ← decNat ts
  let ts ← expect (encKey f "endIndexOffset") ts
  let (k, ts) ← decNat ts
  let ts ← expect (encKey f "updatedStart") ts
  let (u, ts) ← decVertex f ts
  let ts ← expect (encKey f "updatedEndBulge") ts
  let (b, ts) ← decNum ts
  let ts ← expect (encKey f "endPoint") ts
  let (e, ts) ← decV2 f ts
  let ts ← expect (encKey f "invertedDirection") ts
  let (i, ts) ← decBool ts
  let ts ← expect (encStructClose f) ts
  some (⟨s, k, u, b, e, i⟩, ts)

/-- derived `Serialize for BooleanPlineSlice`, `polyline/pline_types.rs:510-528`. -/
def encBoolSlice (f : Format) (s : BoolSlice T) : List (Tok T) :=
  encStructOpen f 3 ++ (encKey f "viewData" ++ encViewData f s.viewData)
    ++ (encKey f "sourceIsPline1" ++ encBool s.sourceIsPline1)
    ++ (encKey f "overlapping" ++ encBool s.overlapping) ++ encStructClose f

/-- derived `Deserialize for BooleanPlineSlice`, `polyline/pline_types.rs:510-528`. -/
def decBoolSlice (f : Format) : Dec T (BoolSlice T) := fun ts => do
  let ts ← expect (encStructOpen f 3) ts
  let ts ← expect (encKey f "viewData") ts
  let (d, ts) ← decViewData f ts
  let ts ← expect (encKey f "sourceIsPline1") ts
  let (s, ts) ← decBool ts
  let ts ← expect (encKey f "overlapping") ts
  let (o, ts) ← decBool ts
  let ts ← expect (encStructClose f) ts
  some (⟨d, s, o⟩, ts)

/-- derived `Serialize for BooleanResultPline`, `polyline/pline_types.rs:107-127`. -/
def encResultPline (f : Format) (r : BooleanResultPline T) : List (Tok T) :=
  encStructOpen f 2 ++ (encKey f "pline" ++ encPline f r.pline)
    ++ (encKey f "subslices" ++ encSeq f (encBoolSlice f) r.subslices) ++ encStructClose f

/-- derived `Deserialize for BooleanResultPline`, `polyline/pline_types.rs:107-127`. -/
def decResultPline (f : Format) : Dec T (BooleanResultPline T) := fun ts => do
  let ts ← expect (encStructOpen f 2) ts
  let ts ← expect (encKey f "pline") ts
  let (p, ts) ← decPline f ts
  let ts ← expect (encKey f "subslices") ts
  let (ss, ts) ← decSeq f (decBoolSlice f) ts
  let ts ← expect (encStructClose f) ts
  some (⟨p, ss⟩, ts)

end
end Serde
end Cavc
