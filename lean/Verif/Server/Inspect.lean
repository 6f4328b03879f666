import Verif.Gns.Cat
/-!
Model of the answers of `INSPECT` (`core/ddl_misc.rs:34-107`) and of the declaration text of a model
(`core/model/mod.rs:144-176`). Texts are lists of characters.
-/
namespace Verif.Server
open Verif.Enc (Fields)
open Verif.Gns (Model)

/-- `TagSelector::name_str` (`data/tag.rs:27-34, 76-91`): the name of the variant. -/
def tagName : Tag → List Char
  | .bool => "Bool".toList
  | .uint8 => "UInt8".toList
  | .uint16 => "UInt16".toList
  | .uint32 => "UInt32".toList
  | .uint64 => "UInt64".toList
  | .sint8 => "SInt8".toList
  | .sint16 => "SInt16".toList
  | .sint32 => "SInt32".toList
  | .sint64 => "SInt64".toList
  | .float32 => "Float32".toList
  | .float64 => "Float64".toList
  | .binary => "Binary".toList
  | .string => "String".toList
  | .list => "List".toList

/-- The type of a column (`core/model/mod.rs:158-170`). A type has at least one layer; for none the code would abort. -/
def typeText (layers : List Tag) : List Char :=
  List.replicate (layers.length - 1) '[' ++ (layers.getLast?.map tagName).getD [] ++ List.replicate (layers.length - 1) ']'

/-- A column (`core/model/mod.rs:147-170`). -/
def columnText (pk : String) (e : String × Field) : List Char :=
  (if e.1 = pk then '*' else if e.2.nullable then '?' else '!') :: (e.1.toList ++ ':' :: typeText e.2.layers)

/-- The loop over the columns (`core/model/mod.rs:147-174`): a comma unless it is the last one. -/
def columnsText (pk : String) : Fields → List Char
  | [] => []
  | [e] => columnText pk e
  | e :: e' :: es => columnText pk e ++ ',' :: columnsText pk (e' :: es)

/-- `ModelData::redescribe` (`core/model/mod.rs:144-176`). `decl` is recomputed whenever a model is made and after each
change (`new_with_private`, line 198; `Drop for ModelMutator`, lines 499-503), so it is a function of the columns. -/
def describe (m : Model) : List Char := '{' :: (columnsText m.pk m.fields ++ ['}'])

/-- Names in quotes with commas between them (`core/ddl_misc.rs:45-52, 61-68, 88-95`). -/
def quoted : List String → List Char
  | [] => []
  | [n] => '"' :: (n.toList ++ ['"'])
  | n :: n' :: ns => '"' :: (n.toList ++ '"' :: ',' :: quoted (n' :: ns))

/-- `INSPECT GLOBAL` (`core/ddl_misc.rs:40-72`). -/
def inspectGlobal (root : Bool) (spaces users : List String) : List Char :=
  "{\"spaces\":[".toList ++ quoted spaces ++ (if root then "],\"users\":[".toList ++ quoted users else []) ++
    "],\"settings\":{}}".toList

/-- `INSPECT MODEL` (`core/ddl_misc.rs:73-83`). -/
def inspectModel (m : Model) (rows : Nat) : List Char :=
  "{\"decl\":\"".toList ++ describe m ++ "\",\"rows\":".toList ++ Nat.toDigits 10 rows ++ ",\"properties\":{}}".toList

/-- `INSPECT SPACE` (`core/ddl_misc.rs:84-98`). -/
def inspectSpace (models : List String) : List Char := "{\"models\":[".toList ++ quoted models ++ "]}}".toList

end Verif.Server
