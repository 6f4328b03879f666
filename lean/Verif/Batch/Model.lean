import Verif.Dml.Model
import Verif.Journal.Raw
import Verif.Enc.Lemmas
/-!
Model of the data file of a model: the batches of row changes that are written
(`storage/v2/impls/mdl_journal.rs`, the batch adapter at `storage/v2/raw/journal/mod.rs:232-314`), and how they
are read back.
-/
namespace Verif.Batch
open Verif.Gns (SDelta Model upd fget)
open Verif.Enc (Fields Src DErr enc decElem DICT)
open Verif.Dml (Key Cells RowObj DKind Delta Tbl kget kdel resolve setRow colNames cput)
open Verif.Journal (TW TR JW SErr Decode MASK)

/-! ### Records -/

/-- A record of a batch: `DecodedBatchEvent` (`mdl_journal.rs:382-407`), and what the writer writes for one
change. A deletion has no cells. -/
structure Rec where
  kind : DKind
  txn : Nat
  key : Key
  cells : List Cell

/-- `EventType` and `DataDeltaKind` as bytes (`mdl_journal.rs:94-101`, `core/model/delta.rs:234-238`). -/
def kindByte : DKind → UInt8
  | .delete => 0
  | .insert => 1
  | .update => 2

/-- `EventType::EarlyExit`. -/
def EARLY : UInt8 := 3

/-- `TagUnique::value_u8` (`data/tag.rs:146-152`). -/
def uniqByte : TagUnique → UInt8
  | .uint => 0
  | .sint => 1
  | .bin => 2
  | .str => 3
  | .illegal => 0xFF

/-- `write_row_data` (`mdl_journal.rs:192-203`): the cells in the order of the columns; the primary key is
skipped and a missing cell is written as null (`[0]` is the encoding of null). -/
def rowCells (pk : String) (fs : Fields) (c : Cells) : List Cell :=
  (colNames fs).filterMap fun k =>
    match c k with
    | some x => some x
    | none => if k = pk then none else some .null

/-- `write_row_pk` (`mdl_journal.rs:158-183`), write by write; `none` for an illegal key, which the code
declares impossible (undefined behaviour). -/
def keyChunks : Key → Option (List Bytes)
  | .uint v => some [le 8 v.toNat]
  | .sint v => some [le 8 v.toUInt64.toNat]
  | .bin b => some [le 8 b.length, b]
  | .str s => some [le 8 (encStr s).length, encStr s]
  | .illegal => none

/-- The writes of a record (`mdl_journal.rs:136-203`). -/
def recChunks (e : Rec) : Option (List Bytes) :=
  (keyChunks e.key).map fun ks => [[kindByte e.kind], le 8 e.txn] ++ ks ++ e.cells.map enc

/-! ### Writer -/

/-- What `step` (`mdl_journal.rs:262-290`) writes for a change, if anything, and the table with the row
brought up to the current schema. A change whose row was revised later is skipped. -/
def stepRec (t : Tbl) (d : Delta) : Tbl × Option Rec :=
  match t.heap[d.row]? with
  | none => (t, none)
  | some r =>
    match d.kind with
    | .delete => (t, some ⟨.delete, d.ver, r.key, []⟩)
    | k =>
      if r.revised ≤ d.ver then
        (setRow t d.row (resolve t.model.deltas r),
          some ⟨k, d.ver, r.key, rowCells t.model.pk t.model.fields (resolve t.model.deltas r).cells⟩)
      else (t, none)

/-- A sequence of `dtrack_write`s with `?`. -/
def dtrackAll (w : TW) : List Bytes → TW × Res SErr Unit
  | [] => (w, .ok ())
  | d :: ds =>
    match w.dtrackWrite d with
    | (w, .ok ()) => dtrackAll w ds
    | (w, r) => (w, r)

/-- `step`: the writes and the flush, for a change that is not skipped. -/
def writeRec (w : TW) (e : Rec) : TW × Res SErr Unit :=
  match recChunks e with
  | none => (w, .panic)
  | some cs =>
    match dtrackAll w cs with
    | (w, .ok ()) => w.flushBuf
    | (w, r) => (w, r)

/-- The outcome of writing a batch: the writer, the table, `BatchStats::actual_commit`, and the result. -/
structure Out (α : Type) where
  w : TW
  t : Tbl
  actual : Nat
  res : Res SErr α

/-- `append_new_data_delta` of a change that could not be written. (The counter is in `Verif.Batch.Task`.) -/
def requeue (t : Tbl) (d : Delta) : Tbl := { t with queue := t.queue ++ [d] }

/-- The loop of `write_batch` (`mdl_journal.rs:232-247`): `n` changes are left, `i` are done, `s` is
`sync_count`. Dequeuing from an empty queue is a panic. -/
def batchLoop : Nat → Nat → Nat → TW → Tbl → Out Nat
  | 0, _, s, w, t => ⟨w, t, 0, .ok s⟩
  | n + 1, i, s, w, t =>
    match t.queue with
    | [] => ⟨w, t, 0, .panic⟩
    | d :: ds =>
      match stepRec { t with queue := ds } d with
      | (t, none) => batchLoop n (i + 1) s w t
      | (t, some e) =>
        match writeRec w e with
        | (w, .ok ()) => batchLoop n (i + 1) (s + 1) w t
        | (w, .err e) => ⟨w, requeue t d, i, .err e⟩
        | (w, .panic) => ⟨w, t, 0, .panic⟩
        | (w, .hang) => ⟨w, t, 0, .hang⟩

/-- `write_row_global_metadata` (`mdl_journal.rs:119-132`). -/
def metaChunks (m : Model) : List Bytes :=
  [[uniqByte m.pkTag.uniq], le 8 m.deltas.length, le 8 (m.fields.length - 1)]

/-- The end of a batch (`mdl_journal.rs:314-320`). -/
def tailChunks (n s : Nat) : List Bytes := (if s ≠ n then [[EARLY]] else []) ++ [le 8 s]

/-- Go on after writes that succeeded. -/
def andThen {α} (x : TW × Res SErr Unit) (t : Tbl) (f : TW → Out α) : Out α :=
  match x with
  | (w, .ok ()) => f w
  | (w, .err e) => ⟨w, t, 0, .err e⟩
  | (w, .panic) => ⟨w, t, 0, .panic⟩
  | (w, .hang) => ⟨w, t, 0, .hang⟩

/-- After the loop: the end of the batch and its checksum (`mdl_journal.rs:314-320`,
`raw/journal/mod.rs:255-257`). -/
def batchEnd (n : Nat) (o : Out Nat) : Out Unit :=
  match o.res with
  | .ok s =>
    andThen (dtrackAll o.w (tailChunks n s)) o.t fun w =>
      match w.resetPartial with
      | (w, ck) => andThen (w.trackedWrite (le 8 ck)) o.t fun w => ⟨w, o.t, 0, .ok ()⟩
  | .err e => ⟨o.w, o.t, o.actual, .err e⟩
  | .panic => ⟨o.w, o.t, 0, .panic⟩
  | .hang => ⟨o.w, o.t, 0, .hang⟩

/-- `commit_direct` of the batch adapter with a `StdModelBatch` of `n` changes (`raw/journal/mod.rs:246-258`,
`mdl_journal.rs:302-321`). -/
def batchWrite (n : Nat) (t : Tbl) (w : TW) : Out Unit :=
  andThen (dtrackAll w (le 8 n :: metaChunks t.model)) t fun w => batchEnd n (batchLoop n 0 0 w t)

/-- `commit_with_ctx` for a batch of `n` changes (`raw/journal/raw/mod.rs:517-558`); `BatchType::Standard`
is 0. The table is changed by the adapter, which runs after the two writes of the event's metadata. -/
def commitBatch (w : JW) (t : Tbl) (n : Nat) : JW × Tbl × Nat × Res SErr Unit :=
  match w.commitWith 0 (fun log => ((batchWrite n t log).w, (batchWrite n t log).res)) with
  | (w', r) =>
    match w.log.writeAll [le 16 w.txnId, le 8 (0 ||| MASK)] with
    | (log, .ok ()) => (w', (batchWrite n t log).t, (batchWrite n t log).actual, r)
    | _ => (w', t, 0, r)

/-! ### Reader -/

/-- `decode_primary_key` (`mdl_journal.rs:641-673`). A tag that is not one of the four is undefined
behaviour. `Src.read` has the panic of `vec![0; len]`. -/
def decKey (tag : UInt8) (b : Bytes) : Res DErr (Key × Bytes) :=
  if tag = 0 then (Src.file.u64 b).bind fun (v, b) => .ok (.uint (UInt64.ofNat v), b)
  else if tag = 1 then (Src.file.u64 b).bind fun (v, b) => .ok (.sint (UInt64.ofNat v).toInt64, b)
  else if tag = 2 then (Src.file.u64 b).bind fun (n, b) => (Src.file.read n b).bind fun (x, b) => .ok (.bin x, b)
  else if tag = 3 then
    (Src.file.u64 b).bind fun (n, b) => (Src.file.read n b).bind fun (x, b) =>
      match decStr x with
      | some s => .ok (.str s, b)
      | none => .err .corrupted
  else .panic

/-- `decode_row_data` (`mdl_journal.rs:674-689`). -/
def decCells : Nat → Bytes → Res DErr (List Cell × Bytes)
  | 0, b => .ok ([], b)
  | n + 1, b =>
    (Src.file.byte b).bind fun (d, b) =>
      if DICT ≤ d.toNat then .err .corrupted
      else (decElem .file (b.length + 1) d.toNat b).bind fun (c, b) =>
        (decCells n b).bind fun (cs, b) => .ok (c :: cs, b)

/-- `update_state_for_new_event` (`mdl_journal.rs:461-501`). -/
def decRec (tag : UInt8) (cols : Nat) (k : DKind) (b : Bytes) : Res DErr (Rec × Bytes) :=
  (Src.file.u64 b).bind fun (txn, b) =>
  (decKey tag b).bind fun (key, b) =>
  match k with
  | .delete => .ok (⟨k, txn, key, []⟩, b)
  | _ => (decCells cols b).bind fun (cs, b) => .ok (⟨k, txn, key, cs⟩, b)

/-- The kind of a record from its byte; `none` for the early exit. -/
def kindOf (x : UInt8) : Res DErr (Option DKind) :=
  if x = 0 then .ok (some .delete)
  else if x = 1 then .ok (some .insert)
  else if x = 2 then .ok (some .update)
  else if x = 3 then .ok none
  else .err .corrupted

/-- The loop of `decode_apply` (`raw/journal/mod.rs:274-294`); the number is how many records are still
expected. -/
def decRecs (tag : UInt8) (cols : Nat) : Nat → Bytes → Res DErr (List Rec × Bytes)
  | 0, b => .ok ([], b)
  | n + 1, b =>
    (Src.file.byte b).bind fun (x, b) =>
    (kindOf x).bind fun
      | none => .ok ([], b)
      | some k =>
        (decRec tag cols k b).bind fun (e, b) =>
        (decRecs tag cols n b).bind fun (es, b) => .ok (e :: es, b)

/-- A batch as it is read: the schema version and the records. -/
structure Parsed where
  schema : Nat
  recs : List Rec

/-- The reading part of `decode_apply` (`raw/journal/mod.rs:264-304`, `mdl_journal.rs:442-460`). A byte that
is not a `TagUnique` is undefined behaviour: `try_from_raw` only rejects what exceeds the largest
discriminant, which is 255. -/
def decBatch (b : Bytes) : Res DErr (Parsed × Bytes) :=
  (Src.file.u64 b).bind fun (n, b) =>
  (Src.file.byte b).bind fun (tag, b) =>
  if 3 < tag.toNat ∧ tag.toNat < 255 then .panic
  else
    (Src.file.u64 b).bind fun (schema, b) =>
    (Src.file.u64 b).bind fun (cols, b) =>
    (decRecs tag cols n b).bind fun (es, b) =>
    (Src.file.u64 b).bind fun (actual, b) =>
    if actual = es.length then .ok (⟨schema, es⟩, b) else .err .corrupted

/-! ### Restoring -/

/-- The columns other than the primary key, in order. -/
def others (m : Model) : List String := (colNames m.fields).filter fun k => decide (k ≠ m.pk)

/-- The loop at `mdl_journal.rs:537-550`. -/
def zipCells (ks : List String) (cs : List Cell) : Cells :=
  (ks.zip cs).foldl (fun c e => (cput c e.1 e.2).1) fun _ => none

/-- Insert or update (`mdl_journal.rs:518-561`): a failing assertion is a panic. -/
def place (t : Tbl) (schema : Nat) (e : Rec) : Res SErr Tbl :=
  let r := resolve t.model.deltas ⟨e.key, zipCells (others t.model) e.cells, schema, e.txn⟩
  let t' := { t with heap := t.heap ++ [r], idx := kdel t.idx e.key ++ [(e.key, t.heap.length)] }
  match (kget t.idx e.key).bind fun i => t.heap[i]? with
  | some old => if old.revised = 0 ∨ old.revised < e.txn then .ok t' else .panic
  | none => .ok t'

/-- `pending_delete` as a list of entries. -/
abbrev Pend := List (Key × Nat)

/-- Lines 562-583. -/
def notePend (p : Pend) (k : Key) (v : Nat) : Pend :=
  match kget p k with
  | some old => if old > v then p else kdel p k ++ [(k, v)]
  | none => p ++ [(k, v)]

/-- The first loop of `finish` (`mdl_journal.rs:516-586`); `last` is `real_last_txn_id`. -/
def placeLoop (schema : Nat) : List Rec → Tbl → Pend → Nat → Res SErr (Tbl × Pend × Nat)
  | [], t, p, last => .ok (t, p, last)
  | e :: es, t, p, last =>
    match e.kind with
    | .delete => placeLoop schema es t (notePend p e.key e.txn) last
    | _ => (place t schema e).bind fun t => placeLoop schema es t p (max last e.txn)

/-- One pending deletion (`mdl_journal.rs:589-607`). -/
def dropOne (t : Tbl) (k : Key) (v : Nat) : Tbl :=
  match (kget t.idx k).bind fun i => t.heap[i]? with
  | some r => if r.revised > v then t else { t with idx := kdel t.idx k }
  | none => t

/-- The second loop. The order of the hash map does not matter (`dropAll_spec`). -/
def dropAll : Pend → Tbl → Nat → Tbl × Nat
  | [], t, last => (t, last)
  | (k, v) :: p, t, last => dropAll p (dropOne t k v) (max last v)

/-- `finish` (`mdl_journal.rs:502-613`). -/
def finish (t : Tbl) (b : Parsed) : Res SErr Tbl :=
  (placeLoop b.schema b.recs t [] 0).bind fun (t, p, last) =>
  match dropAll p t last with
  | (t, last) => .ok { t with ver := last + 1 }

/-- Errors of the decoder as errors of the journal. -/
def liftE {α} : Res DErr α → Res SErr α
  | .ok a => .ok a
  | .err .io => .err .io
  | .err _ => .err .corrupted
  | .panic => .panic
  | .hang => .hang

/-- `parse_event_meta` and `decode_apply` (`raw/journal/mod.rs:243-245, 259-314`). The reader keeps the
checksum of what it read; it is recomputed here from the bytes consumed. The rows are changed before the
checksum is compared. -/
def batchDecode : Decode Tbl := fun t md tr =>
  if md % 256 ≠ 0 then .err .metaCorrupted
  else
    (liftE (decBatch tr.rest)).bind fun (p, rest) =>
    (tr.read (tr.rest.length - rest.length)).bind fun (used, tr) =>
    (finish t p).bind fun t =>
    (tr.read 8).bind fun (ck, tr) =>
    if Crc.crc used = unle ck then .ok (t, tr) else .err .corrupted

end Verif.Batch
