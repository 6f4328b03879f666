import Verif.Journal.Rw
/-!
Model of the raw journal: `storage/v2/raw/journal/raw/mod.rs` (cited as `raw/mod.rs`).
-/
namespace Verif.Journal

/-- `DriverEventKind` (`raw/mod.rs:453-458`). -/
inductive DKind where
  | reopened
  | closed
  deriving DecidableEq, Repr

/-- Discriminant of a driver event kind (`raw/mod.rs:455-457`). -/
def DKind.dscr : DKind → Nat
  | .reopened => 0
  | .closed => 1

/-- `DriverEvent` (`raw/mod.rs:297-305`) without `checksum` and `payload_len`, which no reader
looks at after decoding. -/
structure DriverEvent where
  txnId : Nat
  event : DKind
  lastChecksum : Nat
  lastOffset : Nat
  lastTxnId : Nat
  deriving DecidableEq, Repr

/-- `DriverEvent::FULL_EVENT_SIZE` (`raw/mod.rs:308`). -/
def FULL_EVENT_SIZE : Nat := 64

/-- The part of a driver event covered by its checksum: bytes 32..64 of the block
(`raw/mod.rs:396-400`). `3` is `PAYLOAD_LEN` (line 310). -/
def DriverEvent.body (lastChecksum lastOffset lastTxnId : Nat) : Bytes :=
  le 8 3 ++ le 8 lastChecksum ++ le 8 lastOffset ++ le 8 lastTxnId

/-- `DriverEvent::encode` (`raw/mod.rs:382-404`). -/
def DriverEvent.encode (txnId : Nat) (k : DKind) (lastChecksum lastOffset lastTxnId : Nat) : Bytes :=
  le 16 txnId ++ le 8 k.dscr ++
    le 8 (Crc.crc (DriverEvent.body lastChecksum lastOffset lastTxnId)) ++
    DriverEvent.body lastChecksum lastOffset lastTxnId

/-- Bytes `a..b` of a block. -/
def slice (b : Bytes) (i j : Nat) : Bytes := (b.drop i).take (j - i)

/-- `DriverEvent::decode` (`raw/mod.rs:405-450`). -/
def DriverEvent.decode (block : Bytes) : Option DriverEvent :=
  let kind := unle (slice block 16 24)
  let checksum := unle (slice block 24 32)
  let payloadLen := unle (slice block 32 40)
  if 1 < kind ∨ checksum ≠ Crc.crc (slice block 32 64) ∨ payloadLen ≠ 3 then none
  else some {
    txnId := unle (slice block 0 16)
    event := if kind = 0 then .reopened else .closed
    lastChecksum := unle (slice block 40 48)
    lastOffset := unle (slice block 48 56)
    lastTxnId := unle (slice block 56 64) }

/-- `SERVER_EV_MASK` (`raw/mod.rs:495`). -/
def MASK : Nat := 2 ^ 63

/-! ### Writer -/

/-- `RawJournalWriter` (`raw/mod.rs:472-478`); the adapter `j` carries no state in either adapter
(`journal/mod.rs:96-98`, `239-241`). Transaction ids are natural numbers (the 64-bit counter does
not wrap in any real run). -/
structure JW where
  log : TW
  txnId : Nat
  knownTxnId : Nat
  knownTxnOffset : Nat
  deriving DecidableEq, Repr

/-- `JournalInitializer` (`raw/mod.rs:80-85`). -/
structure JInit where
  cursor : Nat
  checksum : BitVec 64
  txnId : Nat
  lastOffset : Nat
  deriving DecidableEq, Repr

/-- `RawJournalWriter::txn_context` (`raw/mod.rs:585-597`): the id is consumed before `f` runs and
is not given back if `f` fails. -/
def JW.txnContext (w : JW) (f : JW → Nat → TW × Res SErr Unit) : JW × Res SErr Unit :=
  let id := w.txnId
  let w := { w with txnId := id + 1 }
  match f w id with
  | (log, .ok ()) => ({ w with log, knownTxnId := id, knownTxnOffset := log.cursor }, .ok ())
  | (log, r) => ({ w with log }, r)

/-- Run a list of tracked writes, stopping at the first failure (`?` after each write). -/
def TW.writeAll (w : TW) : List Bytes → TW × Res SErr Unit
  | [] => (w, .ok ())
  | d :: ds =>
    match w.trackedWrite d with
    | (w, .ok ()) => w.writeAll ds
    | (w, r) => (w, r)

/-- `RawJournalWriter::commit_with_ctx` (`raw/mod.rs:517-558`) with `CommitPreference::Direct` and
`AUTO_SYNC_ON_EVENT_COMMIT = true`, the settings of both adapters. `adapter` is the adapter's
`commit_direct`. -/
def JW.commitWith (w : JW) (md : Nat) (adapter : TW → TW × Res SErr Unit) : JW × Res SErr Unit :=
  w.txnContext fun w id =>
    match w.log.writeAll [le 16 id, le 8 (md ||| MASK)] with
    | (log, .ok ()) =>
      match adapter log with
      | (log, .ok ()) => log.flushSync
      | (log, r) => (log, r)
    | (log, r) => (log, r)

/-- `_commit_driver_event` (`raw/mod.rs:599-622`) with `AUTO_SYNC_ON_EVENT_COMMIT = true`. -/
def JW.commitDriver (w : JW) (k : DKind) : JW × Res SErr Unit :=
  w.txnContext fun w id =>
    w.log.trackedWriteThrough
      (DriverEvent.encode id k (Crc.finish w.log.ck) w.knownTxnOffset w.knownTxnId)

/-- `close_driver` (`raw/mod.rs:624-628`). -/
def JW.close (w : JW) : JW × Res SErr Unit := w.commitDriver .closed

/-- `__lwt_heartbeat` (`raw/mod.rs:570-581`): only the buffer is reset. -/
def JW.heartbeat (w : JW) : JW × Res SErr Unit :=
  if w.log.verifyCursor then
    if w.log.cursor = w.knownTxnOffset then ({ w with log := { w.log with buf := [] } }, .ok ())
    else (w, .err .hbFail)
  else (w, .err .io)

/-- `RawJournalWriter::new` (`raw/mod.rs:499-516`): `file` is the content of the log file. -/
def JW.new (j : JInit) (file : Bytes) (io : List Sys) : JW × Res SErr Unit :=
  let me : JW := {
    log := { disk := file, buf := [], cursor := j.cursor, ck := j.checksum, pck := Crc.new, io }
    knownTxnId := j.txnId - 1
    knownTxnOffset := j.lastOffset
    txnId := j.txnId }
  if j.lastOffset = 0 then (me, .ok ()) else me.commitDriver .reopened

/-- `<J::Spec as FileSpecV1>::SIZE`, the size of the file header
(`storage/common/sdss/impls/sdss_r1/mod.rs`). -/
def HEADER : Nat := 64

/-- `create_journal` (`raw/mod.rs:55-64`), after the 64-byte header `hdr` has been written. -/
def JW.create (hdr : Bytes) (io : List Sys) : JW × Res SErr Unit :=
  JW.new { cursor := HEADER, checksum := Crc.new, txnId := 0, lastOffset := 0 } hdr io

/-! ### Reader -/

/-- What the journal reader needs from an adapter: `parse_event_meta` and `decode_apply`
(`raw/mod.rs:229-279`) in one function. It gets the global state and the event metadata (with the
mask bit removed) and returns the new global state. -/
abbrev Decode (G : Type) := G → Nat → TR → Res SErr (G × TR)

/-- `RawJournalReader` (`raw/mod.rs:636-643`) without statistics, together with the global state. -/
structure JR (G : Type) where
  tr : TR
  txnId : Nat
  lastTxnId : Nat
  lastTxnOffset : Nat
  lastTxnChecksum : Nat
  gs : G

/-- `__refresh_known_txn` (`raw/mod.rs:702-707`). -/
def JR.refresh {G} (r : JR G) : JR G :=
  { r with lastTxnId := r.txnId, lastTxnChecksum := Crc.finish r.tr.ck,
           lastTxnOffset := r.tr.cursor, txnId := r.txnId + 1 }

/-- `handle_reopen` (`raw/mod.rs:803-829`). The Boolean is "stop". -/
def JR.handleReopen {G} (r : JR G) : Res SErr (Bool × JR G) :=
  (r.tr.read FULL_EVENT_SIZE).bind fun (block, tr) =>
  let r := { r with tr }
  match DriverEvent.decode block with
  | some ev =>
    if ev.event = .reopened then
      if r.lastTxnChecksum = ev.lastChecksum ∧ r.lastTxnId = ev.lastTxnId ∧
          r.lastTxnOffset = ev.lastOffset ∧ r.txnId = ev.txnId then .ok (false, r.refresh)
      else .err .corrupted
    else .err .eventCorrupted
  | none => .err .eventCorrupted

/-- `handle_close` (`raw/mod.rs:748-802`). -/
def JR.handleClose {G} (r : JR G) (txnId md : Nat) : Res SErr (Bool × JR G) :=
  (r.tr.read (FULL_EVENT_SIZE - 24)).bind fun (tail, tr) =>
  let r := { r with tr }
  match DriverEvent.decode (le 16 txnId ++ le 8 md ++ tail) with
  | some ev =>
    if ev.event = .closed then
      if r.lastTxnChecksum = ev.lastChecksum ∧ r.lastTxnId = ev.lastTxnId ∧
          r.lastTxnOffset = ev.lastOffset then
        let r := r.refresh
        if r.tr.isEof then .ok (true, r) else r.handleReopen
      else .err .corrupted
    else .err .invalidEvent
  | none => .err .eventCorrupted

/-- `_apply_next_event_and_stop` (`raw/mod.rs:711-747`). -/
def JR.applyNext {G} (dec : Decode G) (r : JR G) : Res SErr (Bool × JR G) :=
  (r.tr.read 16).bind fun (id, tr) =>
  (tr.read 8).bind fun (md, tr) =>
  let r := { r with tr }
  if unle id ≠ r.txnId then .err .metaCorrupted
  else if MASK ≤ unle md then
    (dec r.gs (unle md - MASK) r.tr).bind fun (gs, tr) =>
    .ok (false, { r with gs, tr }.refresh)
  else r.handleClose (unle id) (unle md)

/-- The loop of `scroll` (`raw/mod.rs:671-684`). Every iteration consumes at least 24 bytes, so
`fuel = rest.length` iterations always suffice (`scroll_fuel` below); running out of fuel is `hang`. -/
def JR.scrollLoop {G} (dec : Decode G) : Nat → JR G → Res SErr (JR G)
  | 0, _ => .hang
  | fuel + 1, r =>
    (r.applyNext dec).bind fun (stop, r) => if stop then .ok r else scrollLoop dec fuel r

/-- `RawJournalReader::scroll` (`raw/mod.rs:661-685`) on a file whose header has been read and
accepted (see `Verif.Sdss`). -/
def scroll {G} (dec : Decode G) (gs : G) (file : Bytes) : Res SErr (JInit × G) :=
  let rest := file.drop HEADER
  (JR.scrollLoop dec (rest.length + 1)
    { tr := { rest, cursor := HEADER, ck := Crc.new }, txnId := 0, lastTxnId := 0,
      lastTxnOffset := 0, lastTxnChecksum := 0, gs }).bind fun r =>
  .ok ({ cursor := r.tr.cursor, checksum := r.tr.ck, txnId := r.txnId,
         lastOffset := r.lastTxnOffset }, r.gs)

/-- `open_journal` (`raw/mod.rs:67-77`). -/
def openJournal {G} (dec : Decode G) (gs : G) (file : Bytes) (io : List Sys) : Res SErr (JW × G) :=
  (scroll dec gs file).bind fun (j, gs) =>
  match JW.new j file io with
  | (w, .ok ()) => .ok (w, gs)
  | (_, .err e) => .err e
  | (_, .panic) => .panic
  | (_, .hang) => .hang

/-! ### Event log adapter (`storage/v2/raw/journal/mod.rs:53-146`, cited as `journal/mod.rs`) -/

/-- An event of an event log: its kind and its encoded payload. -/
structure Ev where
  kind : Nat
  payload : Bytes
  deriving DecidableEq, Repr

/-- `EventLogAdapter::commit_direct` (`journal/mod.rs:103-125`): the three tracked writes. -/
def eventLogWrites (pl : Bytes) : List Bytes :=
  [le 8 (Crc.crc (le 8 pl.length ++ pl)), le 8 pl.length, pl]

/-- `commit_event` on an event log (`raw/mod.rs:563-568`, `journal/mod.rs:103-125`). -/
def JW.commitEvent (w : JW) (e : Ev) : JW × Res SErr Unit :=
  w.commitWith e.kind fun log => log.writeAll (eventLogWrites e.payload)

/-- `EventLogAdapter::{parse_event_meta, decode_apply}` (`journal/mod.rs:100-102, 126-145`).
`kinds` is the number of event kinds; the metadata is truncated to its low byte (line 101).
`vec![0; plen]` panics ("capacity overflow") if the length is not below `2^63`; an allocation
failure for smaller lengths is not modelled. `apply` is the dispatch (lines 141-144). -/
def eventLogDecode {G} (kinds : Nat) (apply : G → Ev → Res SErr G) : Decode G := fun gs md tr =>
  let kind := md % 256
  if kinds ≤ kind then .err .metaCorrupted
  else
    (tr.read 8).bind fun (expected, tr) =>
    (tr.read 8).bind fun (plen, tr) =>
    if 2 ^ 63 ≤ unle plen then .panic
    else
      (tr.read (unle plen)).bind fun (pl, tr) =>
      if Crc.crc (le 8 (unle plen) ++ pl) ≠ unle expected then .err .corrupted
      else (apply gs ⟨kind, pl⟩).bind fun gs => .ok (gs, tr)

end Verif.Journal
