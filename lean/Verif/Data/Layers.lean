import Verif.Data.Cell
import Verif.Base.Res
import Verif.Lex.Raw
/-!
Model of column types: `core/model/mod.rs:505-860`.
-/
namespace Verif

open Lex (ascii)

/-- `G`, `S1`, `S2` (`core/model/mod.rs:509-511`). -/
def tyG : List Nat := [0, 13, 12, 5, 6, 4, 3, 6, 1, 10, 4, 5, 7, 5, 5]
def tyS1 : List Nat := [13, 9, 4, 14, 2, 4, 7]
def tyS2 : List Nat := [12, 8, 2, 6, 4, 9, 9]

/-- `LUT` (`core/model/mod.rs:513-528`). -/
def tyLut : List (Bytes × Tag) := [
  (ascii "bool", .bool), (ascii "uint8", .uint8), (ascii "uint16", .uint16),
  (ascii "uint32", .uint32), (ascii "uint64", .uint64), (ascii "sint8", .sint8),
  (ascii "sint16", .sint16), (ascii "sint32", .sint32), (ascii "sint64", .sint64),
  (ascii "float32", .float32), (ascii "float64", .float64), (ascii "binary", .binary),
  (ascii "string", .string), (ascii "list", .list)]

/-- The loop of `Layer::hf` (`core/model/mod.rs:703-711`): the total is a `u16` that wraps in a
release build (for names of about eighty bytes and more). -/
def tyHfLoop (v : List Nat) : Nat → Nat → Bytes → Nat
  | _, tot, [] => tot
  | i, tot, b :: k => tyHfLoop v (i + 1) ((tot + (v[i % 7]?.getD 0) * b.toNat) % 2 ^ 16) k

/-- `Layer::hf` (`core/model/mod.rs:703-711`). -/
def tyHf (key : Bytes) (v : List Nat) : Nat := tyHfLoop v 0 0 key % 15

/-- `Layer::pf` (`core/model/mod.rs:712-714`). -/
def tyPf (key : Bytes) : Nat :=
  (tyG[tyHf key tyS1]?.getD 0 + tyG[tyHf key tyS2]?.getD 0) % 15

/-- `Layer::get_layer` (`core/model/mod.rs:715-722`). A `Layer` is its tag (lines 640-642). -/
def getLayer (ident : Bytes) : Option Tag :=
  match tyLut[tyPf ident]? with
  | some (n, t) => if n = ident then some t else none
  | none => none

/-- `LayerSpec` (`ql/ddl/syn.rs`): a type name and its properties; of the properties only the
emptiness matters here. -/
structure LayerSpec where
  ty : Bytes
  propsEmpty : Bool
  deriving DecidableEq, Repr

/-- `Field` (`core/model/mod.rs:545-549`): outermost layer first. -/
structure Field where
  layers : List Tag
  nullable : Bool
  deriving DecidableEq, Repr

/-- The loop of `Field::parse_layers` (`core/model/mod.rs:566-577`). Arguments: the remaining
(reversed) specification, `okay`, `fin`, `layerview`. -/
def parseLayersLoop : List LayerSpec → Bool → Bool → List Tag → List LayerSpec × Bool × Bool × List Tag
  | [], okay, fin, view => ([], okay, fin, view)
  | l :: ls, okay, fin, view =>
    if okay && !fin then
      let okay := okay && l.propsEmpty
      match getLayer l.ty with
      | some t => parseLayersLoop ls okay (t ≠ .list) (view ++ [t])
      | none => parseLayersLoop ls false fin view
    else (l :: ls, okay, fin, view)

/-- `Field::parse_layers` (`core/model/mod.rs:561-586`); the only error is
`QExecDdlInvalidTypeDefinition`. -/
def parseLayers (spec : List LayerSpec) (nullable : Bool) : Option Field :=
  match parseLayersLoop spec.reverse true false [] with
  | (rest, okay, fin, view) => if okay && (fin && rest.isEmpty) then some ⟨view, nullable⟩ else none

/-- `UIntSpec::check` (`data/tag.rs:237-239`). For a tag that is not an unsigned type the index is
out of range (panic); such a call does not occur, the model answers `false`. -/
def uintCheck (t : Tag) (v : UInt64) : Bool :=
  match t with
  | .uint8 => v.toNat ≤ 0xFF
  | .uint16 => v.toNat ≤ 0xFFFF
  | .uint32 => v.toNat ≤ 0xFFFFFFFF
  | .uint64 => v.toNat ≤ 0xFFFFFFFFFFFFFFFF
  | _ => false

/-- `SIntSpec::check` (`data/tag.rs:259-262`). -/
def sintCheck (t : Tag) (v : Int64) : Bool :=
  match t with
  | .sint8 => -128 ≤ v.toInt ∧ v.toInt ≤ 127
  | .sint16 => -32768 ≤ v.toInt ∧ v.toInt ≤ 32767
  | .sint32 => -2147483648 ≤ v.toInt ∧ v.toInt ≤ 2147483647
  | .sint64 => -9223372036854775808 ≤ v.toInt ∧ v.toInt ≤ 9223372036854775807
  | _ => false

/-- `FloatSpec::check` (`data/tag.rs:282-285`). -/
def floatCheck (t : Tag) (v : F64) : Bool :=
  match t with
  | .float32 => F64.f32Min.le v && v.le F64.f32Max
  | .float64 => F64.f64Min.le v && v.le F64.f64Max
  | _ => false

/-- The functions of `VTFN` 0 to 6 (`core/model/mod.rs:747-795`), applied to a value of the matching
class: sets the tag of numbers and checks the range. Called with a value of another class the code
would read the union wrongly; the model answers `false`. -/
def vtfn (l : Tag) : Cell → Bool × Cell
  | .null => (true, .null)
  | .bool b => (true, .bool b)
  | .uint _ v => (uintCheck l v, .uint l v)
  | .sint _ v => (sintCheck l v, .sint l v)
  | .float _ v => (floatCheck l v, .float l v)
  | .bin b => (true, .bin b)
  | .str s => (true, .str s)
  | .list vs => (true, .list vs)

mutual
/-- `Field::rvt_data` (`core/model/mod.rs:607-636`). With no layer left, `layers[0]` panics. -/
def rvtData : List Tag → Cell → Res Unit (Bool × Cell)
  | [], _ => .panic
  | .list :: ls, .list vs => (rvtList ls vs).bind fun (ok, vs) => .ok (ok, .list vs)
  | l :: _, d => if l.cls = d.kind then .ok (vtfn l d) else .ok (false, d)

/-- The loop over the elements (`core/model/mod.rs:620-625`): stops at the first bad element. -/
def rvtList : List Tag → List Cell → Res Unit (Bool × List Cell)
  | _, [] => .ok (true, [])
  | ls, v :: vs =>
    (rvtData ls v).bind fun (ok, v) =>
    if ok then (rvtList ls vs).bind fun (ok, vs) => .ok (ok, v :: vs)
    else .ok (false, v :: vs)
end

/-- `Field::vt_data_fpath` with `compute_index` (`core/model/mod.rs:589-607`). The Boolean says
whether the value is accepted; the cell is the value with its number tags set. A field without
layers does not exist (`layers[0]` would panic). -/
def Field.vtData (f : Field) (d : Cell) : Res Unit (Bool × Cell) :=
  match f.layers with
  | [] => .panic
  | l :: ls =>
    if ls.isEmpty || d.isNull then
      if (!f.nullable && d.isNull) || (decide (l.cls ≠ d.kind) && !d.isNull) then .ok (false, d)
      else .ok (vtfn l d)
    else rvtData (l :: ls) d

end Verif
