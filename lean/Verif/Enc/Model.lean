import Verif.Data.Layers
import Verif.Base.Utf8
import Verif.Base.Res
/-!
Model of the encoding of values, dictionaries and column definitions on disk:
`storage/common_encoding/r1/obj.rs` (cited as `obj.rs`), `map.rs` and `mod.rs` in the same directory.
-/
namespace Verif.Enc

/-- The errors of the decoders: `InternalDecodeStructureCorrupted`,
`InternalDecodeStructureCorruptedPayload`, `InternalDecodeStructureIllegalData`, the unit error of
`decode_element`, and an I/O error of a file source. -/
inductive DErr where
  | corrupted | payload | illegal | element | io
  deriving DecidableEq, Repr

/-- The two implementations of `DataSource`: a `BufferedScanner` (`mod.rs:57-75`) reads without any
check (an access past the end is undefined behaviour, `panic` here), a `TrackedReaderContext`
(`storage/v2/impls/mdl_journal.rs:711-731`) returns an I/O error. The state of either is the bytes
that are left; the checksum that the reader keeps is a function of the bytes consumed. -/
inductive Src where
  | scanner | file
  deriving DecidableEq, Repr

/-- Read `n` bytes. A file source allocates `n` bytes first, which panics for `2^63` and more. -/
def Src.read (src : Src) (n : Nat) (b : Bytes) : Res DErr (Bytes × Bytes) :=
  if n ≤ b.length then .ok (b.take n, b.drop n)
  else match src with
    | .scanner => .panic
    | .file => if n < 2 ^ 63 then .err .io else .panic

/-- `read_next_u64_le`. -/
def Src.u64 (src : Src) (b : Bytes) : Res DErr (Nat × Bytes) :=
  (src.read 8 b).bind fun (x, b) => .ok (unle x, b)

/-- `read_next_byte`. -/
def Src.byte (src : Src) (b : Bytes) : Res DErr (UInt8 × Bytes) :=
  (src.read 1 b).bind fun (x, b) => .ok (x.headD 0, b)

/-! ### Cells -/

/-- `encode_tag` (`obj.rs:113-115`); the discriminants of `StorageCellTypeID` (`obj.rs:77-94`) are
those of the type selectors plus one. -/
def encTag : Cell → Nat
  | .null => 0
  | c => c.tag.value + 1

/-- `StorageCellTypeID::Dict` (`obj.rs:93`). -/
def DICT : Nat := 15

/-- `expect_atleast` (`obj.rs:105-107`). -/
def expectAtleast (d : Nat) : Nat := ([0, 1, 8, 8][min d 3]?).getD 0

mutual
/-- `encode_cell` (`obj.rs:116-140`). -/
def encCell : Cell → Bytes
  | .null => []
  | .bool b => [if b then 1 else 0]
  | .uint _ v => le 8 v.toNat
  | .sint _ v => le 8 v.toUInt64.toNat
  | .float _ v => le 8 v.toNat
  | .bin b => le 8 b.length ++ b
  | .str s => le 8 (encStr s).length ++ encStr s
  | .list l => le 8 l.length ++ encList l

/-- The loop over the elements of a list, each with `encode` (`obj.rs:109-112, 134-136`). -/
def encList : List Cell → Bytes
  | [] => []
  | c :: cs => UInt8.ofNat (encTag c) :: encCell c ++ encList cs
end

/-- `encode` (`obj.rs:109-112`). -/
def enc (c : Cell) : Bytes := UInt8.ofNat (encTag c) :: encCell c

/-- A number from its 64 bits (`Datacell::new_qw`). -/
def numCell (t : Tag) (v : Nat) : Cell :=
  match t.cls with
  | .uint => .uint t (UInt64.ofNat v)
  | .sint => .sint t (UInt64.ofNat v).toInt64
  | _ => .float t (UInt64.ofNat v)

/-- The end of the string and binary case (`obj.rs:213-221`). -/
def blockCell (t : Tag) (x : Bytes) : Res DErr Cell :=
  if t.cls = .str then
    match decStr x with
    | some s => .ok (.str s)
    | none => .err .element
  else .ok (.bin x)

mutual
/-- `decode_element` (`obj.rs:180-243`) for a descriptor other than `Dict`. `d` is the descriptor
(at most 14). The recursion of the code is bounded by the bytes that are left; the model counts with
`fuel`, and `fuel_ok` in `Lemmas.lean` shows that one more than the number of bytes always
suffices. -/
def decElem (src : Src) : Nat → Nat → Bytes → Res DErr (Cell × Bytes)
  | 0, _, _ => .hang
  | fuel + 1, d, b =>
    if d = 0 then .ok (.null, b)
    else
      match Tag.ofValue? (d - 1) with
      | none => .panic
      | some t =>
        match t.cls with
        | .bool => (src.byte b).bind fun (x, b) => if x > 1 then .err .element else .ok (.bool (x == 1), b)
        | .uint | .sint | .float => (src.u64 b).bind fun (v, b) => .ok (numCell t v, b)
        | .bin | .str =>
          (src.u64 b).bind fun (n, b) => (src.read n b).bind fun (x, b) =>
          (blockCell t x).bind fun c => .ok (c, b)
        | .list => (src.u64 b).bind fun (n, b) => (decList src fuel n b).bind fun (l, b) => .ok (.list l, b)

/-- The loop over the elements of a list (`obj.rs:224-239`); `n` elements are still missing. A
nested `Dict` descriptor is an error (`yield_dict` is not available, lines 188-194). -/
def decList (src : Src) : Nat → Nat → Bytes → Res DErr (List Cell × Bytes)
  | 0, _, _ => .hang
  | fuel + 1, n, b =>
    if n = 0 then .ok ([], b)
    else if b.isEmpty then .err .element
    else
      (src.byte b).bind fun (d, b) =>
      if 15 < d.toNat then .err .element
      else if b.length < expectAtleast d.toNat then .err .element
      else if d.toNat = DICT then .err .element
      else
        (decElem src fuel d.toNat b).bind fun (c, b) =>
        (decList src fuel (n - 1) b).bind fun (l, b) => .ok (c :: l, b)
end

/-! ### Dictionaries -/

/-- `DictEntryGeneric` (`data/dict.rs`). A `DictGeneric` is a hash map; the model keeps its entries in
the order in which the hash map iterates over them (any order). -/
inductive DVal where
  | data (c : Cell)
  | map (d : List (String × DVal))
  deriving Repr

/-- A dictionary, with distinct keys (`WfDict` in the theorems). -/
abbrev Dict := List (String × DVal)

mutual
/-- `obj_enc` of a dictionary (`map.rs:71-81`) with `GenericDictSpec` (`map.rs:172-188`). -/
def encDict : Dict → Bytes
  | [] => []
  | (k, v) :: es => le 8 (encStr k).length ++ encEntry k v ++ encDict es

/-- `encode_entry_data` (`map.rs:175-188`). A nested dictionary has its length in front
(`meta_enc`, `map.rs:65-67`). -/
def encEntry (k : String) : DVal → Bytes
  | .map d => UInt8.ofNat DICT :: encStr k ++ (le 8 d.length ++ encDict d)
  | .data c => UInt8.ofNat (encTag c) :: encStr k ++ encCell c
end

/-- `default_full_enc` of a dictionary. -/
def encDictFull (d : Dict) : Bytes := le 8 d.length ++ encDict d

/-- `decode_string` (`mod.rs:278-281`). -/
def decString (n : Nat) (b : Bytes) : Res DErr (Option String × Bytes) :=
  (Src.scanner.read n b).bind fun (x, b) => .ok (decStr x, b)

/-- Turn an error into `None` (`.ok()?`); a panic stays one. -/
def Res.opt {α} : Res DErr α → Res DErr (Option α)
  | .ok a => .ok (some a)
  | .err _ => .ok none
  | .panic => .panic
  | .hang => .hang

/-- The end of an iteration of the loop (`map.rs:114-127`): key and value must have been decoded and
the key must be new. -/
def insertEntry {V} (acc : List (String × V)) : Option String → Option V → Res DErr (List (String × V))
  | some k, some v => if acc.any (·.1 == k) then .err .illegal else .ok (acc ++ [(k, v)])
  | _, _ => .err .payload

mutual
/-- The loop of `obj_dec` (`map.rs:82-134`) for a dictionary: `n` entries are still missing, `acc`
are the entries so far. The check `decode_pretest_for_entry_meta` is made once, before the loop (in
`decDict`). -/
def decDictLoop : Nat → Nat → Dict → Bytes → Res DErr (Dict × Bytes)
  | 0, _, _, _ => .hang
  | fuel + 1, n, acc, b =>
    if n = 0 then .ok (acc, b)
    else
      (Src.scanner.u64 b).bind fun (klen, b) =>
      (Src.scanner.byte b).bind fun (d, b) =>
      if 15 < d.toNat ∨ b.length < expectAtleast d.toNat then .err .payload
      else
        (decString klen b).bind fun (k, b) =>
        (decEntryVal fuel d.toNat b).bind fun (v, b) =>
        (insertEntry acc k v).bind fun acc => decDictLoop fuel (n - 1) acc b

/-- `decode_entry_val` (`map.rs:220-238`). After a failed decoding the position does not matter (the
caller returns an error); the model keeps `b`. -/
def decEntryVal : Nat → Nat → Bytes → Res DErr (Option DVal × Bytes)
  | 0, _, _ => .hang
  | fuel + 1, d, b =>
    if d = DICT then
      if b.length < 8 then .ok (none, b)
      else
        (Src.scanner.u64 b).bind fun (n, b) =>
        match (if n ≠ 0 ∧ b.length < 9 then .err .illegal else decDictLoop fuel n [] b) with
        | .ok (m, b) => .ok (some (.map m), b)
        | .err _ => .ok (none, b)
        | .panic => .panic
        | .hang => .hang
    else
      match decElem .scanner (b.length + 1) d b with
      | .ok (c, b) => .ok (some (.data c), b)
      | .err _ => .ok (none, b)
      | .panic => .panic
      | .hang => .hang
end

/-- `obj_dec` of a dictionary with `n` entries (`map.rs:82-134`): if fewer than nine bytes are left
(line 87) the loop is not entered and the length must be zero. -/
def decDict (n : Nat) (b : Bytes) : Res DErr (Dict × Bytes) :=
  if n ≠ 0 ∧ b.length < 9 then .err .illegal
  else decDictLoop (b.length + 1) n [] b

/-- `default_full_dec` of a dictionary (`mod.rs:127-142`). -/
def decDictFull (b : Bytes) : Res DErr (Dict × Bytes) :=
  if b.length < 8 then .err .corrupted
  else (Src.scanner.u64 b).bind fun (n, b) => decDict n b

/-! ### Column definitions -/

/-- `LayerRef::default_full_enc` (`obj.rs:280-287`). -/
def encLayer (t : Tag) : Bytes := le 8 t.value ++ le 8 0

/-- `encode_entry_val` for a field: all layers (`map.rs:339-343`, also `obj.rs:348-352`). -/
def encLayers : List Tag → Bytes
  | [] => []
  | t :: ts => encLayer t ++ encLayers ts

/-- `LayerRef::meta_dec` and `obj_dec` (`obj.rs:284-298`); at least 16 bytes are left. -/
def decLayer (b : Bytes) : Res DErr (Tag × Bytes) :=
  (Src.scanner.u64 b).bind fun (sel, b) =>
  (Src.scanner.u64 b).bind fun (props, b) =>
  match Tag.ofValue? sel with
  | some t => if props ≠ 0 then .err .payload else .ok (t, b)
  | none => .err .payload

/-- The loop of `FieldRef::obj_dec` (`obj.rs:357-371`): `n` layers are still missing. It stops at the
first layer that is not a list. The Boolean is `fin`; the number is how many are missing. -/
def decLayers : Nat → Bytes → List Tag → Bool → Res DErr (List Tag × Bool × Nat × Bytes)
  | 0, b, acc, fin => .ok (acc, fin, 0, b)
  | n + 1, b, acc, fin =>
    if b.length < 16 ∨ fin then .ok (acc, fin, n + 1, b)
    else (decLayer b).bind fun (t, b) => decLayers n b (acc ++ [t]) (t.cls ≠ .list)

/-- `FieldRef::obj_dec` (`obj.rs:353-378`). A `VInline` of layers is a list. -/
def decField (props layers : Nat) (null : UInt8) (b : Bytes) : Res DErr (Field × Bytes) :=
  (decLayers layers b [] false).bind fun (ls, fin, missing, b) =>
  if missing = 0 ∧ null ≤ 1 ∧ props = 0 ∧ fin then .ok (⟨ls, null == 1⟩, b) else .err .corrupted

/-- The columns of a model in their order (`IndexSTSeqCns`). -/
abbrev Fields := List (String × Field)

/-- `obj_enc` of a field map (`map.rs:71-81, 327-343`). -/
def encFields : Fields → Bytes
  | [] => []
  | (k, f) :: es =>
    le 8 (encStr k).length ++ le 8 0 ++ le 8 f.layers.length ++ [if f.nullable then 1 else 0] ++
      encStr k ++ encLayers f.layers ++ encFields es

/-- `None` on an error, with the position from where the next read goes on. -/
def fieldOpt (b : Bytes) : Res DErr (Field × Bytes) → Res DErr (Option Field × Bytes)
  | .ok (f, b) => .ok (some f, b)
  | .err _ => .ok (none, b)
  | .panic => .panic
  | .hang => .hang

/-- The loop of `obj_dec` (`map.rs:82-134`) for a field map (`map.rs:344-381`). -/
def decFieldsLoop : Nat → Fields → Bytes → Res DErr (Fields × Bytes)
  | 0, acc, b => .ok (acc, b)
  | n + 1, acc, b =>
    (Src.scanner.u64 b).bind fun (klen, b) =>
    (Src.scanner.u64 b).bind fun (props, b) =>
    (Src.scanner.u64 b).bind fun (layers, b) =>
    (Src.scanner.byte b).bind fun (null, b) =>
    if b.length < klen then .err .payload
    else
      (decString klen b).bind fun (k, b) =>
      (fieldOpt b (decField props layers null b)).bind fun (f, b) =>
      (insertEntry acc k f).bind fun acc => decFieldsLoop n acc b

/-- `obj_dec` of a field map with `n` entries; the check for 25 bytes is made once (`map.rs:87, 344`). -/
def decFields (n : Nat) (b : Bytes) : Res DErr (Fields × Bytes) :=
  if n ≠ 0 ∧ b.length < 25 then .err .illegal else decFieldsLoop n [] b

end Verif.Enc
