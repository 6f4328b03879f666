import Verif.Base.Bytes
/-!
Model of types and values: `data/tag.rs`, `data/cell.rs`.
-/
namespace Verif

/-- `TagClass` (`data/tag.rs:49-57`). -/
inductive TagClass where
  | bool | uint | sint | float | bin | str | list
  deriving DecidableEq, Repr

/-- `TagUnique` (`data/tag.rs:146-152`). -/
inductive TagUnique where
  | uint | sint | bin | str | illegal
  deriving DecidableEq, Repr

/-- `TagSelector` (`data/tag.rs:73-88`). A `FullTag` (lines 173-178) is a class, a selector and a
uniqueness tag; every `FullTag` in the code has the class and uniqueness that its selector
determines (`into_full`, lines 92-94, and the constants at 188-215), so the selector alone models
it. -/
inductive Tag where
  | bool | uint8 | uint16 | uint32 | uint64 | sint8 | sint16 | sint32 | sint64
  | float32 | float64 | binary | string | list
  deriving DecidableEq, Repr

namespace Tag

/-- Discriminant (`data/tag.rs:73-88`). -/
def value : Tag → Nat
  | bool => 0 | uint8 => 1 | uint16 => 2 | uint32 => 3 | uint64 => 4
  | sint8 => 5 | sint16 => 6 | sint32 => 7 | sint64 => 8
  | float32 => 9 | float64 => 10 | binary => 11 | string => 12 | list => 13

/-- `TagSelector::try_from_raw`: the inverse of `value` (`util/compiler.rs:85`). -/
def ofValue? : Nat → Option Tag
  | 0 => some bool | 1 => some uint8 | 2 => some uint16 | 3 => some uint32 | 4 => some uint64
  | 5 => some sint8 | 6 => some sint16 | 7 => some sint32 | 8 => some sint64
  | 9 => some float32 | 10 => some float64 | 11 => some binary | 12 => some string | 13 => some list
  | _ => none

/-- `TagSelector::tag_class` (`data/tag.rs:113-130`). -/
def cls : Tag → TagClass
  | bool => .bool
  | uint8 | uint16 | uint32 | uint64 => .uint
  | sint8 | sint16 | sint32 | sint64 => .sint
  | float32 | float64 => .float
  | binary => .bin
  | string => .str
  | list => .list

/-- `TagSelector::tag_unique` (`data/tag.rs:95-112`). -/
def uniq : Tag → TagUnique
  | uint8 | uint16 | uint32 | uint64 => .uint
  | sint8 | sint16 | sint32 | sint64 => .sint
  | binary => .bin
  | string => .str
  | bool | float32 | float64 | list => .illegal

@[simp] theorem ofValue_value (t : Tag) : ofValue? t.value = some t := by cases t <;> rfl

theorem ofValue_some {n : Nat} {t : Tag} (h : ofValue? n = some t) : n = t.value := by
  unfold ofValue? at h
  split at h <;> first | (cases h; rfl) | cases h

theorem value_inj {a b : Tag} (h : a.value = b.value) : a = b := by
  have := ofValue_value a
  rw [h, ofValue_value] at this
  exact (Option.some.inj this).symm

theorem value_le (t : Tag) : t.value ≤ 13 := by cases t <;> decide

end Tag

/-- A double, as its bit pattern. -/
abbrev F64 := UInt64

namespace F64

/-- Magnitude bits (exponent and fraction). -/
def mag (f : F64) : Nat := f.toNat % 2 ^ 63

/-- The sign bit. -/
def neg (f : F64) : Bool := 2 ^ 63 ≤ f.toNat

/-- NaN: exponent all ones, fraction not zero. -/
def isNan (f : F64) : Bool := 0x7FF0000000000000 < f.mag

/-- Order-preserving integer of a double that is not NaN: IEEE 754 compares doubles like
sign-magnitude integers, with `-0 = +0`. -/
def key (f : F64) : Int := if f.neg then - (f.mag : Int) else f.mag

/-- `<=` on `f64`: false if an operand is NaN. -/
def le (a b : F64) : Bool := !a.isNan && !b.isNan && decide (a.key ≤ b.key)

/-- `f32::MAX as f64` and `f32::MIN as f64`. -/
def f32Max : F64 := 0x47EFFFFFE0000000
def f32Min : F64 := 0xC7EFFFFFE0000000

/-- `f64::MAX` and `f64::MIN`. -/
def f64Max : F64 := 0x7FEFFFFFFFFFFFFF
def f64Min : F64 := 0xFFEFFFFFFFFFFFFF

end F64

/-- `Datacell` (`data/cell.rs:50-54`). The tag of a number is part of the value. A null cell has
`init = false` and the tag of a Boolean (`null`, lines 353-362). Lists are behind a lock in the code;
the model holds their content. -/
inductive Cell where
  | null
  | bool (b : Bool)
  | uint (t : Tag) (v : UInt64)
  | sint (t : Tag) (v : Int64)
  | float (t : Tag) (v : F64)
  | bin (b : Bytes)
  | str (s : String)
  | list (l : List Cell)
  deriving Repr

namespace Cell

/-- `Datacell::kind` (`data/cell.rs:350-352`); for null this is the Boolean class. -/
def kind : Cell → TagClass
  | null | bool _ => .bool
  | uint _ _ => .uint
  | sint _ _ => .sint
  | float _ _ => .float
  | bin _ => .bin
  | str _ => .str
  | list _ => .list

/-- `Datacell::is_null` (`data/cell.rs:363-365`). -/
def isNull : Cell → Bool
  | null => true
  | _ => false

/-- `Datacell::tag` (`data/cell.rs:347-349`). -/
def tag : Cell → Tag
  | null | bool _ => .bool
  | uint t _ => t
  | sint t _ => t
  | float t _ => t
  | bin _ => .binary
  | str _ => .string
  | list _ => .list

end Cell

end Verif
