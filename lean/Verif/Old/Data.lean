import Verif.Batch.Bytes
/-!
Model of the data files of an old installation: `storage/v1/raw/batch_jrnl/restore.rs` (cited as `restore.rs`) and the reader in
`storage/v1/raw/rw.rs`. After an error the reader goes on where it is, so the decoders here keep the position.
-/
namespace Verif.Old
open Verif.Gns (Model)
open Verif.Enc (expectAtleast DICT numCell)
open Verif.Dml (Key DKind Tbl kget kdel resolve setRow)
open Verif.Batch (Rec Parsed Pend notePend kindByte rowFrom)

/-! ### The reader -/

/-- What a read gives: a value and the bytes that are left, or an error and the bytes that are left. `panic` is also undefined
behaviour. -/
inductive PR (α : Type) where
  | ok (a : α) (rest : Bytes)
  | err (rest : Bytes)
  | panic
  | hang
  deriving DecidableEq, Repr

def PR.bind {α β} : PR α → (α → Bytes → PR β) → PR β
  | .ok a r, f => f a r
  | .err r, _ => .err r
  | .panic, _ => .panic
  | .hang, _ => .hang

/-- `tracked_read` and `untracked_read` (`rw.rs:89-113`) into `vec![0; n]`, which panics for `2^63` and more. An error consumes nothing.
There is always enough memory otherwise. -/
def pread (n : Nat) (b : Bytes) : PR Bytes :=
  if n ≤ b.length then .ok (b.take n) (b.drop n) else if n < 2 ^ 63 then .err b else .panic

/-- `read_u64_le` (`rw.rs:117-127`). -/
def pu64 (b : Bytes) : PR Nat := (pread 8 b).bind fun x b => .ok (unle x) b

/-- `read_byte` (`rw.rs:92-95`). -/
def pbyte (b : Bytes) : PR UInt8 := (pread 1 b).bind fun x b => .ok (x.headD 0) b

/-! ### Values -/

/-- The end of the string and binary case of `decode_element`. -/
def pblock (t : Tag) (x : Bytes) (b : Bytes) : PR Cell :=
  if t.cls = .str then
    match decStr x with
    | some s => .ok (.str s) b
    | none => .err b
  else .ok (.bin x) b

mutual
/-- `decode_element` (`common_encoding/r1/obj.rs:180-243`) as in `Enc.decElem`, with the position after an error. -/
def pElem : Nat → Nat → Bytes → PR Cell
  | 0, _, _ => .hang
  | fuel + 1, d, b =>
    if d = 0 then .ok .null b
    else
      match Tag.ofValue? (d - 1) with
      | none => .panic
      | some t =>
        match t.cls with
        | .bool => (pbyte b).bind fun x b => if x > 1 then .err b else .ok (.bool (x == 1)) b
        | .uint | .sint | .float => (pu64 b).bind fun v b => .ok (numCell t v) b
        | .bin | .str => (pu64 b).bind fun n b => (pread n b).bind fun x b => pblock t x b
        | .list => (pu64 b).bind fun n b => (pList fuel n b).bind fun l b => .ok (.list l) b

/-- The elements of a list (`obj.rs:224-239`), as in `Enc.decList`. -/
def pList : Nat → Nat → Bytes → PR (List Cell)
  | 0, _, _ => .hang
  | fuel + 1, n, b =>
    if n = 0 then .ok [] b
    else if b.isEmpty then .err b
    else
      (pbyte b).bind fun d b =>
      if 15 < d.toNat then .err b
      else if b.length < expectAtleast d.toNat then .err b
      else if d.toNat = DICT then .err b
      else (pElem fuel d.toNat b).bind fun c b => (pList fuel (n - 1) b).bind fun l b => .ok (c :: l) b
end

/-- `decode_cell` (`restore.rs:497-503`). -/
def pCell (b : Bytes) : PR Cell :=
  (pbyte b).bind fun d b => if DICT ≤ d.toNat then .err b else pElem (b.length + 1) d.toNat b

/-- The loop over the columns (`restore.rs:374-382`); at the end of the file the row is not complete. -/
def pCells : Nat → Bytes → PR (List Cell)
  | 0, b => .ok [] b
  | n + 1, b =>
    if b.isEmpty then .err b
    else (pCell b).bind fun c b => (pCells n b).bind fun cs b => .ok (c :: cs) b

/-- `decode_primary_key` (`restore.rs:464-496`). `TagUnique::try_from_raw` accepts every byte; one that is not 0 to 3 is undefined
behaviour. -/
def pKey (tag : UInt8) (b : Bytes) : PR Key :=
  if tag = 0 then (pu64 b).bind fun v b => .ok (.uint (UInt64.ofNat v)) b
  else if tag = 1 then (pu64 b).bind fun v b => .ok (.sint (UInt64.ofNat v).toInt64) b
  else if tag = 2 then (pu64 b).bind fun n b => (pread n b).bind fun x b => .ok (.bin x) b
  else if tag = 3 then
    (pu64 b).bind fun n b => (pread n b).bind fun x b =>
      match decStr x with
      | some s => .ok (.str s) b
      | none => .err b
  else .panic

/-! ### Batches -/

/-- The markers (`batch_jrnl/mod.rs:30-39`). -/
def REOPEN : UInt8 := 0xFB
def CLOSE : UInt8 := 0xFC
def ENDB : UInt8 := 0xFD
def BATCH : UInt8 := 0xFE
def RECOVER : UInt8 := 0xFF

/-- A record after its byte (`restore.rs:355-403`). The version is read before the byte is looked at. -/
def pRec (tag : UInt8) (cols : Nat) (k : UInt8) (b : Bytes) : PR Rec :=
  (pu64 b).bind fun txn b =>
  if k = 0 then (pKey tag b).bind fun key b => .ok ⟨.delete, txn, key, []⟩ b
  else if k = 1 then (pKey tag b).bind fun key b => (pCells cols b).bind fun cs b => .ok ⟨.insert, txn, key, cs⟩ b
  else if k = 2 then (pKey tag b).bind fun key b => (pCells cols b).bind fun cs b => .ok ⟨.update, txn, key, cs⟩ b
  else .err b

/-- The loop of `read_batch` (`restore.rs:343-406`): the records, and whether the end marker was read. A round takes at least one byte;
the number of rounds is bounded by the bytes that are left (`fuel`, see `pRecs_fuel`), since the announced number of records is not
bounded by them. -/
def pRecs (tag : UInt8) (cols : Nat) : Nat → Nat → Bytes → PR (List Rec × Bool)
  | 0, _, _ => .hang
  | fuel + 1, n, b =>
    if n = 0 ∨ b.isEmpty then .ok ([], false) b
    else
      (pbyte b).bind fun k b =>
      if k = ENDB then .ok ([], true) b
      else (pRec tag cols k b).bind fun e b => (pRecs tag cols fuel (n - 1) b).bind fun (es, early) b => .ok (e :: es, early) b

/-- `read_batch` after the byte of the batch, and `read_batch_summary` (`restore.rs:299-317, 320-436`, without the checksum): the
records, the number at the end of the batch, and where the checksum is. -/
def pBatch (b : Bytes) : PR (Parsed × Nat) :=
  (pbyte b).bind fun tag b =>
  (pu64 b).bind fun n b =>
  (pu64 b).bind fun schema b =>
  (pu64 b).bind fun cols b =>
  (pRecs tag cols (b.length + 1) n b).bind fun (es, early) b =>
  if early then (pu64 b).bind fun actual b => .ok (⟨schema, es⟩, actual) b
  else (pbyte b).bind fun x b => if x = ENDB then (pu64 b).bind fun actual b => .ok (⟨schema, es⟩, actual) b else .err b

/-! ### Rows -/

/-- Insert or update (`restore.rs:219-256`). A row that was changed later stays. -/
def oldPlace (t : Tbl) (schema : Nat) (e : Rec) : Tbl :=
  match (kget t.idx e.key).bind fun i => (t.heap[i]?).map fun r => (i, r) with
  | some (i, old) =>
    if old.revised > e.txn then setRow t i (resolve t.model.deltas old)
    else { t with heap := t.heap ++ [rowFrom t.model schema e], idx := kdel t.idx e.key ++ [(e.key, t.heap.length)] }
  | none => { t with heap := t.heap ++ [rowFrom t.model schema e], idx := kdel t.idx e.key ++ [(e.key, t.heap.length)] }

/-- The first loop of `apply_batch` (`restore.rs:216-277`). -/
def oldPlaces (schema : Nat) : List Rec → Tbl → Pend → Tbl × Pend
  | [], t, p => (t, p)
  | e :: es, t, p =>
    match e.kind with
    | .delete => oldPlaces schema es t (notePend p e.key e.txn)
    | _ => oldPlaces schema es (oldPlace t schema e) p

/-- The second loop (`restore.rs:278-293`): the deletion of a row that is not there is `unreachable!()`. `none` is the panic. -/
def oldDrops : Pend → Tbl → Option Tbl
  | [], t => some t
  | (k, v) :: p, t =>
    match (kget t.idx k).bind fun i => t.heap[i]? with
    | some r => oldDrops p (if r.revised > v then t else { t with idx := kdel t.idx k })
    | none => none

/-- `apply_batch` (`restore.rs:204-295`). The counter of the versions is not changed. -/
def oldApply (t : Tbl) (b : Parsed) : Option Tbl :=
  match oldPlaces b.schema b.recs t [] with
  | (t, p) => oldDrops p t

/-! ### The file -/

/-- The outcomes of reading a file. -/
inductive DOut where
  | ok (t : Tbl)
  | err
  | panic
  | hang

/-- `attempt_recover_data_batch` (`restore.rs:410-417`). -/
def recoverAt (b : Bytes) (next : Bytes → DOut) : DOut :=
  match b with
  | x :: b => if x = RECOVER then next b else .err
  | [] => .err

/-- The rest of the loop for a batch: its checksum, the number of records, and the rows (`restore.rs:163-175, 307-317`). `used` is what
the checksum covers. -/
def closeBatch (t : Tbl) (used : Bytes) (p : Parsed) (actual : Nat) (b : Bytes) (next : Tbl → Bytes → DOut) : DOut :=
  match pread 8 b with
  | .ok ck b =>
    if Crc.crc used = unle ck ∧ p.recs.length = actual then
      match oldApply t p with
      | some t => next t b
      | none => .panic
    else recoverAt b (next t)
  | .err b => recoverAt b (next t)
  | .panic => .panic
  | .hang => .hang

/-- After the marker of the end: the end of the file, or the marker of an opening (`handle_reopen_is_actual_close`,
`restore.rs:186-200`). -/
def afterClose (t : Tbl) (b : Bytes) (next : Bytes → DOut) : DOut :=
  match b with
  | [] => .ok t
  | y :: b => if y = REOPEN then next b else .err

/-- The loop of `read_all_batches_and_for_each` (`restore.rs:136-185`) on what is left of the file. Each round takes a byte;
`dataLoop_fuel` shows that one more than the number of bytes is enough. -/
def dataLoop : Nat → Tbl → Bytes → DOut
  | 0, _, _ => .hang
  | _ + 1, _, [] => .err
  | fuel + 1, t, x :: b =>
    if x = BATCH then
      match pBatch b with
      | .ok (p, actual) r => closeBatch t ((x :: b).take ((x :: b).length - r.length)) p actual r (dataLoop fuel)
      | .err r => recoverAt r (dataLoop fuel t)
      | .panic => .panic
      | .hang => .hang
    else if x = RECOVER then dataLoop fuel t b
    else if x = CLOSE then afterClose t b (dataLoop fuel t)
    else recoverAt b (dataLoop fuel t)

/-- `reinit` (`batch_jrnl/mod.rs:49-56`) after the header: the rows of a model from its file. -/
def readData (m : Model) (b : Bytes) : DOut := dataLoop (b.length + 1) (Tbl.empty m) b

end Verif.Old
