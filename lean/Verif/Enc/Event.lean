import Verif.Enc.Lemmas
/-!
Model of the payloads of the catalogue log: `storage/common_encoding/r1/impls/gns/mod.rs` (cited as
`gns/mod.rs`), `gns/space.rs`, `gns/model.rs`, `storage/common_encoding/r1/obj.rs` and
`storage/common_encoding/r2.rs`.
-/
namespace Verif.Enc

/-- `Uuid` (`data/uuid.rs:28-47`): 16 bytes, as the number that `to_u128_le` gives. -/
abbrev Uuid := BitVec 128

/-- `SpaceIDRef`/`SpaceIDRes` (`gns/mod.rs:94-98`). -/
structure SpaceId where
  name : String
  uuid : Uuid
  deriving DecidableEq, Repr

/-- `ModelIDRef`/`ModelIDRes` (`gns/model.rs:58-63`). -/
structure ModelId where
  space : SpaceId
  name : String
  version : UInt64
  uuid : Uuid
  deriving DecidableEq, Repr

/-- What a `CreateModel` event stores of a model (`ModelLayoutRef`, `obj.rs:406-466`). -/
structure Layout where
  uuid : Uuid
  pk : String
  pkTag : Tag
  fields : Fields

/-- The eleven events, `GNSTransactionCode` (`txn/gns/mod.rs:39-51`), with the contents of the
transaction types (`txn/gns/{space,model,sysctl}.rs`). -/
inductive Event where
  | createSpace (name : String) (uuid : Uuid) (props : Dict)
  | alterSpace (id : SpaceId) (props : Dict)
  | dropSpace (id : SpaceId)
  | createModel (space : SpaceId) (name : String) (layout : Layout)
  | alterAdd (id : ModelId) (fields : Fields)
  | alterRemove (id : ModelId) (names : List String)
  | alterUpdate (id : ModelId) (fields : Fields)
  | dropModel (id : ModelId)
  | createUser (name : String) (hash : Bytes)
  | alterUser (name : String) (hash : Bytes)
  | dropUser (name : String)

/-- `GNSTransaction::CODE` (`txn/gns/*.rs`). -/
def Event.code : Event → Nat
  | createSpace .. => 0 | alterSpace .. => 1 | dropSpace .. => 2
  | createModel .. => 3 | alterAdd .. => 4 | alterRemove .. => 5 | alterUpdate .. => 6
  | dropModel .. => 7
  | createUser .. => 8 | alterUser .. => 9 | dropUser .. => 10

/-! ### Encoding -/

/-- Length of a string in bytes, as a `u64`. -/
def slen (s : String) : Bytes := le 8 (encStr s).length

/-- `SpaceID::meta_enc` (`gns/mod.rs:120-123`). -/
def SpaceId.meta (i : SpaceId) : Bytes := le 16 i.uuid.toNat ++ slen i.name

/-- `SpaceID::obj_enc` (`gns/mod.rs:130-132`). -/
def SpaceId.obj (i : SpaceId) : Bytes := encStr i.name

/-- `ModelID::meta_enc` (`gns/model.rs:97-102`). -/
def ModelId.meta (i : ModelId) : Bytes :=
  i.space.meta ++ (slen i.name ++ (le 8 i.version.toNat ++ le 16 i.uuid.toNat))

/-- `ModelID::obj_enc` (`gns/model.rs:111-114`). -/
def ModelId.obj (i : ModelId) : Bytes := i.space.obj ++ encStr i.name

/-- `ModelLayoutRef::meta_enc` (`obj.rs:423-428`). -/
def Layout.meta (l : Layout) : Bytes :=
  le 16 l.uuid.toNat ++ (slen l.pk ++ (le 8 l.pkTag.value ++ le 8 l.fields.length))

/-- `ModelLayoutRef::obj_enc` (`obj.rs:437-443`). -/
def Layout.obj (l : Layout) : Bytes := encStr l.pk ++ encFields l.fields

/-- The names of an `ALTER MODEL REMOVE` (`gns/model.rs:411-417`). -/
def encNames : List String → Bytes
  | [] => []
  | n :: ns => slen n ++ (encStr n ++ encNames ns)

/-- `encode_event`, i.e. `default_full_enc`: the metadata, then the object (`gns/mod.rs:69-71`,
`r1/mod.rs:122-125`; `space.rs:68-88, 135-158, 205-217`; `model.rs:206-237, 313-337, 387-402, 463-487,
563-575`; `r2.rs:95-113, 160-178, 222-233`). -/
def Event.encode : Event → Bytes
  | createSpace name uuid props =>
    (slen name ++ (le 16 uuid.toNat ++ le 8 props.length)) ++ (encStr name ++ encDict props)
  | alterSpace id props => (id.meta ++ le 8 props.length) ++ (id.obj ++ encDict props)
  | dropSpace id => id.meta ++ id.obj
  | createModel space name l =>
    (space.meta ++ (slen name ++ l.meta)) ++ (space.obj ++ (encStr name ++ l.obj))
  | alterAdd id fs => (id.meta ++ le 8 fs.length) ++ (id.obj ++ encFields fs)
  | alterRemove id ns => (id.meta ++ le 8 ns.length) ++ (id.obj ++ encNames ns)
  | alterUpdate id fs => (id.meta ++ le 8 fs.length) ++ (id.obj ++ encFields fs)
  | dropModel id => id.meta ++ id.obj
  | createUser name hash => (slen name ++ (le 8 hash.length ++ le 8 0)) ++ (encStr name ++ hash)
  | alterUser name hash => (slen name ++ (le 8 hash.length ++ le 8 0)) ++ (encStr name ++ hash)
  | dropUser name => slen name ++ encStr name

/-! ### Decoding -/

/-- `Uuid::from_bytes(scanner.next_chunk())` (`data/uuid.rs:40-44`). -/
def decUuid (b : Bytes) : Res DErr (Uuid × Bytes) :=
  (Src.scanner.read 16 b).bind fun (x, b) => .ok (BitVec.ofNat 128 (unle x), b)

/-- `decode_string(..)?` (`r1/mod.rs:278-281`). -/
def strOrErr (n : Nat) (b : Bytes) : Res DErr (String × Bytes) :=
  (decString n b).bind fun (s, b) =>
  match s with
  | some s => .ok (s, b)
  | none => .err .payload

/-- The two checks of `default_full_dec` (`r1/mod.rs:127-142`). -/
def hasMeta (n : Nat) (b : Bytes) : Res DErr Unit := if b.length < n then .err .corrupted else .ok ()
def hasObj (n : Nat) (b : Bytes) : Res DErr Unit := if b.length < n % 2 ^ 64 then .err .payload else .ok ()

/-- `SpaceIDMD` (`gns/mod.rs:106-109`). -/
structure SpaceMd where
  uuid : Uuid
  nameLen : Nat

/-- `SpaceID::meta_dec` (`gns/mod.rs:124-129`). -/
def decSpaceMeta (b : Bytes) : Res DErr (SpaceMd × Bytes) :=
  (decUuid b).bind fun (u, b) => (Src.scanner.u64 b).bind fun (n, b) => .ok (⟨u, n⟩, b)

/-- `SpaceID::obj_dec` (`gns/mod.rs:133-142`). -/
def decSpaceObj (m : SpaceMd) (b : Bytes) : Res DErr (SpaceId × Bytes) :=
  (strOrErr m.nameLen b).bind fun (s, b) => .ok (⟨s, m.uuid⟩, b)

/-- `ModelIDMD` (`gns/model.rs:81-86`). -/
structure ModelMd where
  space : SpaceMd
  nameLen : Nat
  version : Nat
  uuid : Uuid

/-- `ModelID::meta_dec` (`gns/model.rs:103-110`). -/
def decModelMeta (b : Bytes) : Res DErr (ModelMd × Bytes) :=
  (decSpaceMeta b).bind fun (s, b) => (Src.scanner.u64 b).bind fun (n, b) =>
  (Src.scanner.u64 b).bind fun (v, b) => (decUuid b).bind fun (u, b) => .ok (⟨s, n, v, u⟩, b)

/-- `ModelID::obj_dec` (`gns/model.rs:115-126`). -/
def decModelObj (m : ModelMd) (b : Bytes) : Res DErr (ModelId × Bytes) :=
  (decSpaceObj m.space b).bind fun (s, b) => (strOrErr m.nameLen b).bind fun (n, b) =>
  .ok (⟨s, n, UInt64.ofNat m.version, m.uuid⟩, b)

/-- `ModelLayoutMD` (`obj.rs:381-386`). -/
structure LayoutMd where
  uuid : Uuid
  pkLen : Nat
  pkTag : Nat
  fields : Nat

/-- `ModelLayoutRef::meta_dec` (`obj.rs:429-436`). -/
def decLayoutMeta (b : Bytes) : Res DErr (LayoutMd × Bytes) :=
  (decUuid b).bind fun (u, b) => (Src.scanner.u64 b).bind fun (n, b) =>
  (Src.scanner.u64 b).bind fun (t, b) => (Src.scanner.u64 b).bind fun (c, b) => .ok (⟨u, n, t, c⟩, b)

/-- `ModelLayoutRef::obj_dec` (`obj.rs:444-466`). -/
def decLayoutObj (m : LayoutMd) (b : Bytes) : Res DErr (Layout × Bytes) :=
  (strOrErr m.pkLen b).bind fun (k, b) => (decFields m.fields b).bind fun (fs, b) =>
  match Tag.ofValue? m.pkTag with
  | some t => .ok (⟨m.uuid, k, t, fs⟩, b)
  | none => .err .payload

/-- The loop of `AlterModelRemoveTxn::obj_dec` (`gns/model.rs:418-441`): `n` names are missing. It
stops early when the bytes run out; the last component is the number of missing names. -/
def decNames : Nat → List String → Bytes → Res DErr (List String × Nat × Bytes)
  | 0, acc, b => .ok (acc, 0, b)
  | n + 1, acc, b =>
    if b.length < 8 then .ok (acc, n + 1, b)
    else
      (Src.scanner.u64 b).bind fun (len, b) =>
      if b.length < len then .ok (acc, n + 1, b)
      else (strOrErr len b).bind fun (s, b) => decNames n (acc ++ [s]) b

/-- Metadata of the user events (`r2.rs:105-110`) and their objects (`r2.rs:115-133, 175-195`). -/
def decUser (mk : String → Bytes → Event) (b : Bytes) : Res DErr (Event × Bytes) :=
  (hasMeta 24 b).bind fun _ =>
  (Src.scanner.u64 b).bind fun (un, b) => (Src.scanner.u64 b).bind fun (pn, b) =>
  (Src.scanner.u64 b).bind fun (props, b) =>
  (hasObj (un + pn) b).bind fun _ =>
  (strOrErr un b).bind fun (u, b) => (Src.scanner.read pn b).bind fun (p, b) =>
  if props = 0 then .ok (mk u p, b) else .err .illegal

/-- An `ALTER MODEL` event: the metadata of the model and a count (`gns/model.rs:323-330, 404-410,
494-500`), then the object. -/
def decAlter (obj : ModelId → Nat → Bytes → Res DErr (Event × Bytes)) (b : Bytes) :
    Res DErr (Event × Bytes) :=
  (hasMeta 64 b).bind fun _ =>
  (decModelMeta b).bind fun (m, b) => (Src.scanner.u64 b).bind fun (n, b) =>
  (hasObj (m.space.nameLen + m.nameLen) b).bind fun _ =>
  (decModelObj m b).bind fun (id, b) => obj id n b

/-- `CreateSpaceTxn` (`gns/space.rs:59-98`). -/
def decCreateSpace (b : Bytes) : Res DErr (Event × Bytes) :=
  (hasMeta 32 b).bind fun _ =>
  (Src.scanner.u64 b).bind fun (nl, b) => (decUuid b).bind fun (u, b) =>
  (Src.scanner.u64 b).bind fun (c, b) =>
  (hasObj nl b).bind fun _ =>
  (strOrErr nl b).bind fun (s, b) => (decDict c b).bind fun (d, b) => .ok (.createSpace s u d, b)

/-- `AlterSpaceTxn` (`gns/space.rs:133-172`). -/
def decAlterSpace (b : Bytes) : Res DErr (Event × Bytes) :=
  (hasMeta 32 b).bind fun _ =>
  (decSpaceMeta b).bind fun (m, b) => (Src.scanner.u64 b).bind fun (c, b) =>
  (hasObj m.nameLen b).bind fun _ =>
  (decSpaceObj m b).bind fun (s, b) => (decDict c b).bind fun (d, b) => .ok (.alterSpace s d, b)

/-- `DropSpaceTxn` (`gns/space.rs:202-225`). -/
def decDropSpace (b : Bytes) : Res DErr (Event × Bytes) :=
  (hasMeta 24 b).bind fun _ =>
  (decSpaceMeta b).bind fun (m, b) => (hasObj m.nameLen b).bind fun _ =>
  (decSpaceObj m b).bind fun (s, b) => .ok (.dropSpace s, b)

/-- `CreateModelTxn` (`gns/model.rs:197-252`). -/
def decCreateModel (b : Bytes) : Res DErr (Event × Bytes) :=
  (hasMeta 72 b).bind fun _ =>
  (decSpaceMeta b).bind fun (m, b) => (Src.scanner.u64 b).bind fun (nl, b) =>
  (decLayoutMeta b).bind fun (lm, b) =>
  (hasObj (lm.pkLen + nl) b).bind fun _ =>
  (decSpaceObj m b).bind fun (s, b) => (strOrErr nl b).bind fun (n, b) =>
  (decLayoutObj lm b).bind fun (l, b) => .ok (.createModel s n l, b)

/-- The object of `AlterModelAddTxn` (`gns/model.rs:338-352`) and `AlterModelUpdateTxn`
(`gns/model.rs:508-522`). -/
def decAlterFields (mk : ModelId → Fields → Event) (id : ModelId) (n : Nat) (b : Bytes) :
    Res DErr (Event × Bytes) :=
  (decFields n b).bind fun (fs, b) => .ok (mk id fs, b)

/-- The object of `AlterModelRemoveTxn` (`gns/model.rs:418-441`); `Vec::with_capacity` of 16-byte
elements panics for `2^59` and more. -/
def decAlterRemove (id : ModelId) (n : Nat) (b : Bytes) : Res DErr (Event × Bytes) :=
  if 2 ^ 59 ≤ n then .panic
  else
    (decNames n [] b).bind fun (ns, missing, b) =>
    if missing = 0 then .ok (.alterRemove id ns, b) else .err .payload

/-- `DropModelTxn` (`gns/model.rs:554-581`). -/
def decDropModel (b : Bytes) : Res DErr (Event × Bytes) :=
  (hasMeta 56 b).bind fun _ =>
  (decModelMeta b).bind fun (m, b) => (hasObj (m.space.nameLen + m.nameLen) b).bind fun _ =>
  (decModelObj m b).bind fun (id, b) => .ok (.dropModel id, b)

/-- `DropUserTxn` (`r2.rs:213-237`). -/
def decDropUser (b : Bytes) : Res DErr (Event × Bytes) :=
  (hasMeta 8 b).bind fun _ =>
  (Src.scanner.u64 b).bind fun (n, b) => (hasObj n b).bind fun _ =>
  (strOrErr n b).bind fun (s, b) => .ok (.dropUser s, b)

/-- `GNSEvent::decode` (`gns/mod.rs:87-89`) of the event with the given code, through `DECODE_DISPATCH`
(`storage/v2/impls/gns_log.rs:91-103`). An index outside the table is a panic; the journal checks the
code first. -/
def decodeEvent (code : Nat) (b : Bytes) : Res DErr (Event × Bytes) :=
  match code with
  | 0 => decCreateSpace b
  | 1 => decAlterSpace b
  | 2 => decDropSpace b
  | 3 => decCreateModel b
  | 4 => decAlter (decAlterFields .alterAdd) b
  | 5 => decAlter decAlterRemove b
  | 6 => decAlter (decAlterFields .alterUpdate) b
  | 7 => decDropModel b
  | 8 => decUser .createUser b
  | 9 => decUser .alterUser b
  | 10 => decDropUser b
  | _ => .panic

end Verif.Enc
