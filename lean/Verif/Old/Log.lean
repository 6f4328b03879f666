import Verif.Old.Crc32
import Verif.Gns.Restart
/-!
Model of the reader of the log of the catalogue in the old storage format: `storage/v1/raw/journal/raw.rs` (cited as `raw.rs`) and
`storage/v1/raw/journal/mod.rs`.
-/
namespace Verif.Old
open Verif.Gns (Cat)

/-! ### Entries -/

/-- `JournalEntryMetadata` (`raw.rs:89-94`). -/
structure Md where
  id : Nat
  src : Nat
  crc : Nat
  len : Nat
  deriving DecidableEq, Repr

/-- `SIZE` (`raw.rs:97`). -/
def MD : Nat := 36

/-- `encoded` (`raw.rs:116-124`). -/
def Md.encode (m : Md) : Bytes := le 16 m.id ++ (le 8 m.src ++ (le 4 m.crc ++ le 8 m.len))

/-- `decode` (`raw.rs:125-132`). -/
def Md.decode (b : Bytes) : Md :=
  ⟨unle (b.take 16), unle ((b.drop 16).take 8), unle ((b.drop 24).take 4), unle ((b.drop 28).take 8)⟩

/-- `EventSourceMarker` (`raw.rs:155-160`). -/
def STD : Nat := 2 ^ 63
def CLOSED : Nat := 0
def REOPENED : Nat := 1
def REVERSE : Nat := 2

/-! ### The buffered file -/

/-- A `BufReader` on a file (`storage/common/interface/fs.rs:462-503`): the position of the file below, and the bytes that are in the
buffer and not yet read. -/
structure Rd where
  file : Bytes
  pos : Nat
  buf : Bytes

/-- The capacity of a `BufReader` (the default of the standard library). -/
def CAP : Nat := 8192

/-- `read_exact`: from the buffer if it has enough; else the buffer is used up and filled again, except that large reads go to the
file directly. A read of a file returns all that is asked for, up to the end of the file. `none` is the end of the file; all
callers stop then. -/
def Rd.read (r : Rd) (n : Nat) : Option (Bytes × Rd) :=
  if n ≤ r.buf.length then some (r.buf.take n, { r with buf := r.buf.drop n })
  else
    let need := n - r.buf.length
    let more := r.file.drop r.pos
    if CAP ≤ need then
      if need ≤ more.length then some (r.buf ++ more.take need, ⟨r.file, r.pos + need, []⟩) else none
    else
      let chunk := more.take CAP
      if need ≤ chunk.length then some (r.buf ++ chunk.take need, ⟨r.file, r.pos + chunk.length, chunk.drop need⟩) else none

/-- `file_cursor` and `seek_from_start` (`v1/raw/rw.rs:181-192`, `fs.rs:239-246, 281-291`) act on the file below the buffer, and the
buffer stays as it is. -/
def Rd.seekBack (r : Rd) (n : Nat) : Rd := { r with pos := r.pos - n }

/-! ### The reader -/

/-- The errors: of the file, and `JournalLogEntryCorrupted` or `JournalCorrupted`. -/
inductive LErr where
  | io | entry | corrupted
  deriving DecidableEq, Repr

/-- `JournalReader` (`raw.rs:176-182`) with the global state. `left` is `remaining_bytes`. The event id does not reach `2^64`. -/
structure LR where
  rd : Rd
  evid : Nat
  closed : Bool
  left : Nat
  cat : Cat

/-- `logfile_read_into_buffer` (`raw.rs:329-337`). -/
def LR.read (r : LR) (n : Nat) : Res LErr (Bytes × LR) :=
  if r.left < n then .err .io
  else match r.rd.read n with
    | some (b, rd) => .ok (b, { r with rd, left := r.left - n })
    | none => .err .io

/-- What an event does to the catalogue: `decode_and_update_state` (`journal/mod.rs:53-85`). The state is changed before the check that
nothing is left over. The dispatch table has nine entries, the last is for unknown codes; a code above 8 is an index outside the
table. An event that is refused leaves the catalogue as it is (in the code, a refused change of several columns may leave some of
them behind). -/
def update (c : Cat) (payload : Bytes) : Res LErr (Cat × Bool) :=
  if payload.length < 2 then .ok (c, false)
  else
    let opc := unle (payload.take 2)
    if 8 < opc then .panic
    else if opc = 8 then .ok (c, false)
    else
      match Enc.decodeEvent opc (payload.drop 2) with
      | .ok (e, rest) =>
        match Gns.apply c e with
        | .ok c => .ok (c, rest.isEmpty)
        | .err _ => .ok (c, false)
        | .panic => .panic
        | .hang => .hang
      | .err _ => .ok (c, false)
      | .panic => .panic
      | .hang => .hang

/-- `try_recover_journal_strategy_simple_reverse` (`raw.rs:277-295`). The counter of the remaining bytes wraps around in a release
build. -/
def LR.recover (r : LR) : Res LErr LR :=
  match r.rd.read MD with
  | none => .err .corrupted
  | some (b, rd) =>
    let e := Md.decode b
    if e.id = r.evid ∧ e.crc = 0 ∧ e.len = 0 ∧ e.src = REVERSE then
      .ok { r with rd, evid := r.evid + 1, left := if MD ≤ r.left then r.left - MD else 2 ^ 64 - (MD - r.left) }
    else .err .corrupted

/-- `handle_driver_reopen` (`raw.rs:252-271`). -/
def LR.reopen (r : LR) : Res LErr LR :=
  if MD ≤ r.left then
    (r.read MD).bind fun (b, r) =>
      let e := Md.decode b
      if e.id % 2 ^ 64 = r.evid ∧ e.crc = 0 ∧ e.len = 0 ∧ e.src = REOPENED then .ok { r with evid := r.evid + 1 }
      else .err .corrupted
  else .err .corrupted

/-- The rest of `rapply_next_event` for a server event (`raw.rs:236-249`). `vec![0; n]` panics if `n` is not below `2^63`. -/
def LR.event (r : LR) (e : Md) : Res LErr LR :=
  if r.left < e.len then r.recover
  else if 2 ^ 63 ≤ e.len then .panic
  else
    (r.read e.len).bind fun (payload, r) =>
      if crc32 payload ≠ e.crc then r.recover
      else
        (update r.cat payload).bind fun (cat, fine) =>
          if fine then .ok { r with cat, evid := r.evid + 1 } else { r with cat }.recover

/-- `rapply_next_event` (`raw.rs:196-250`). -/
def LR.next (r : LR) : Res LErr LR :=
  (r.read MD).bind fun (b, r) =>
    let e := Md.decode b
    if e.id % 2 ^ 64 ≠ r.evid then { r with left := r.left + MD, rd := r.rd.seekBack MD }.recover
    else if e.src = STD then r.event e
    else if e.src = CLOSED then (if r.left = 0 then .ok { r with closed := true } else r.reopen)
    else if e.src = REOPENED ∨ e.src = REVERSE then .err .corrupted
    else .err .entry

/-- The loop of `scroll` (`raw.rs:302-304`), with `fuel` rounds; `LR.loop_fuel` shows that one more than the bytes that can be read is
enough. -/
def LR.loop : Nat → LR → Res LErr LR
  | 0, _ => .hang
  | fuel + 1, r => if r.left = 0 then .ok r else (r.next).bind fun r => LR.loop fuel r

/-- The size of the header. -/
def HDR : Nat := 64

/-- `scroll` (`raw.rs:297-310`) on a file whose header was accepted: the catalogue and the id for the next record. -/
def readLog (file : Bytes) : Res LErr (Cat × Nat) :=
  (LR.loop (file.length + 1) ⟨⟨file, HDR, []⟩, 0, false, file.length - HDR, Cat.empty⟩).bind fun r =>
    if r.closed then .ok (r.cat, r.evid) else .err .corrupted

/-- `append_journal_reopen` (`raw.rs:368-373`): opening a log writes to it. -/
def reopenRec (id : Nat) : Bytes := Md.encode ⟨id, REOPENED, 0, 0⟩
/-- `__close_mut` (`raw.rs:374-381`). -/
def closeRec (id : Nat) : Bytes := Md.encode ⟨id, CLOSED, 0, 0⟩

/-- `load_journal` (`raw.rs:61-68`): the catalogue, the file as it is while the data files are read, and the next id. -/
def openLog (file : Bytes) : Res LErr (Cat × Bytes × Nat) :=
  (readLog file).bind fun (c, id) => .ok (c, file ++ reopenRec id, id + 1)

end Verif.Old
