import Verif.Base.Bytes
import Verif.Base.Crc
import Verif.Base.Res
/-!
Model of the tracked file reader and writer
(`storage/common/sdss/impls/sdss_r1/rw.rs`) and of the write loop of the file system
interface (`storage/common/interface/fs.rs`).
-/
namespace Verif.Journal

/-- The storage errors that the journal can report (`engine/error.rs`, `StorageError`), plus
`io`, any `std::io::Error`. -/
inductive SErr where
  | io
  | metaCorrupted   -- RawJournalEventCorruptedMetadata
  | eventCorrupted  -- RawJournalEventCorrupted
  | invalidEvent    -- RawJournalInvalidEvent
  | corrupted       -- RawJournalCorrupted
  | hbFail          -- RawJournalRuntimeCriticalLwtHBFail
  | apply           -- any error reported by applying a decoded event
  deriving DecidableEq, Repr

/-- Outcome of one `write(2)` call on the log file: it accepted `n` bytes, or failed. -/
inductive Sys where
  | wrote (n : Nat)
  | fail
  deriving DecidableEq, Repr

/-- `FileWrite::fwrite_all_count` (`storage/common/interface/fs.rs:155-175`).

`io` lists the outcomes of the coming system calls; when it is empty every call succeeds in full.
The result is the file content, the remaining outcomes, the number of bytes counted, and whether
the call succeeded. As in the code (line 159), each iteration passes the *whole* buffer to
`fwrite` again. If `written` has overshot the length and no further failure is scheduled, the loop
never ends (`hang`; the wrap-around of the 64-bit counter is ignored). -/
def fwriteAllCount (buf : Bytes) : List Sys → Bytes → Nat → Bytes × List Sys × Nat × Res SErr Unit
  | [], disk, written =>
    if written = buf.length then (disk, [], written, .ok ())
    else if written = 0 then (disk ++ buf, [], buf.length, .ok ())
    else (disk, [], written, .hang)
  | .fail :: io, disk, written =>
    if written = buf.length then (disk, .fail :: io, written, .ok ())
    else (disk, io, written, .err .io)
  | .wrote n :: io, disk, written =>
    if written = buf.length then (disk, .wrote n :: io, written, .ok ())
    else if min n buf.length = 0 then (disk, io, written, .err .io)
    else fwriteAllCount buf io (disk ++ buf.take n) (written + min n buf.length)

/-- `TrackedWriter` (`rw.rs:290-302`). `disk` is the content of the file (the OS cursor is at its
end, the file is only appended to), `io` the outcomes of the coming system calls. Cursors are
natural numbers: file sizes are below `2^63`, so the 64-bit counter does not wrap. `size` is the
const parameter `SIZE` (8192 in all uses), the capacity of the buffer. -/
structure TW where
  disk : Bytes
  buf : Bytes
  cursor : Nat
  ck : BitVec 64
  pck : BitVec 64
  io : List Sys
  size : Nat := 8192
  deriving DecidableEq, Repr

/-- `TrackedWriter::flush_buf` (`rw.rs:508-531`). If a short write made the count exceed the
buffer length, `clear_start` is called with a count that is too large (undefined behaviour). -/
def TW.flushBuf (w : TW) : TW × Res SErr Unit :=
  match fwriteAllCount w.buf w.io w.disk 0 with
  | (disk, io, written, r) =>
    if written ≤ w.buf.length then
      ({ w with disk, io, buf := w.buf.drop written, cursor := w.cursor + written }, r)
    else ({ w with disk, io, cursor := w.cursor + written }, if r = .hang then .hang else .panic)

/-- `TrackedWriter::untracked_write` (`rw.rs:479-502`). -/
def TW.untrackedWrite (w : TW) (d : Bytes) : TW × Res SErr Unit :=
  if d.length ≤ w.size - w.buf.length then ({ w with buf := w.buf ++ d }, .ok ())
  else
    match w.flushBuf with
    | (w, .ok ()) =>
      let n := d.length - w.size
      match fwriteAllCount (d.take n) w.io w.disk 0 with
      | (disk, io, cnt, .ok ()) =>
        ({ w with disk, io, cursor := w.cursor + cnt, buf := w.buf ++ d.drop n }, .ok ())
      | (disk, io, cnt, r) => ({ w with disk, io, cursor := w.cursor + cnt }, r)
    | (w, r) => (w, r)

/-- `TrackedWriter::tracked_write` (`rw.rs:462-477`). In the error path the slice
`buf[..cursor_now - cursor_start]` panics if more bytes (of the older buffer) were flushed than
`d` is long. -/
def TW.trackedWrite (w : TW) (d : Bytes) : TW × Res SErr Unit :=
  match w.untrackedWrite d with
  | (w', .ok ()) => ({ w' with ck := Crc.update w'.ck d }, .ok ())
  | (w', .err e) =>
    if w'.cursor - w.cursor ≤ d.length then
      ({ w' with ck := Crc.update w'.ck (d.take (w'.cursor - w.cursor)) }, .err e)
    else (w', .panic)
  | (w', r) => (w', r)

/-- `TrackedWriter::dtrack_write` (`rw.rs:450-453`). -/
def TW.dtrackWrite (w : TW) (d : Bytes) : TW × Res SErr Unit :=
  match w.trackedWrite d with
  | (w', .ok ()) => ({ w' with pck := Crc.update w'.pck d }, .ok ())
  | (w', r) => (w', r)

/-- `TrackedWriter::reset_partial` (`rw.rs:455-457`). -/
def TW.resetPartial (w : TW) : TW × Nat := ({ w with pck := Crc.new }, Crc.finish w.pck)

/-- `TrackedWriter::tracked_write_through_buffer` (`rw.rs:433-448`). The debug assertion that the
buffer is empty is not compiled into release builds and is not modelled. In the error path
`buf[..cnt]` panics if a short write made the count exceed the length. -/
def TW.trackedWriteThrough (w : TW) (d : Bytes) : TW × Res SErr Unit :=
  match fwriteAllCount d w.io w.disk 0 with
  | (disk, io, cnt, .ok ()) =>
    ({ w with disk, io, cursor := w.cursor + cnt, ck := Crc.update w.ck d }, .ok ())
  | (disk, io, cnt, .err e) =>
    if cnt ≤ d.length then
      ({ w with disk, io, cursor := w.cursor + cnt, ck := Crc.update w.ck (d.take cnt) }, .err e)
    else ({ w with disk, io, cursor := w.cursor + cnt }, .panic)
  | (disk, io, cnt, r) => ({ w with disk, io, cursor := w.cursor + cnt }, r)

/-- `TrackedWriter::fsync` (`rw.rs:532-534`): one system call; any scheduled failure makes it fail. -/
def TW.fsync (w : TW) : TW × Res SErr Unit :=
  match w.io with
  | [] => (w, .ok ())
  | .fail :: io => ({ w with io }, .err .io)
  | .wrote _ :: io => ({ w with io }, .ok ())

/-- `TrackedWriter::flush_sync` (`rw.rs:504-506`). -/
def TW.flushSync (w : TW) : TW × Res SErr Unit :=
  match w.flushBuf with
  | (w, .ok ()) => w.fsync
  | (w, r) => (w, r)

/-- `TrackedWriter::verify_cursor` (`rw.rs:335-345`), assuming that asking the OS succeeds. -/
def TW.verifyCursor (w : TW) : Bool := w.cursor = w.disk.length

/-- `TrackedReader` (`rw.rs:151-156`). `rest` are the bytes from the cursor to the end of the file;
the code keeps the length and the cursor, and `remaining` (lines 270-272) is `rest.length`. -/
structure TR where
  rest : Bytes
  cursor : Nat
  ck : BitVec 64
  deriving DecidableEq, Repr

/-- `TrackedReader::tracked_read` / `untracked_read` / `read_block` (`rw.rs:210-248`): read exactly
`n` bytes, or fail without consuming anything. -/
def TR.read (r : TR) (n : Nat) : Res SErr (Bytes × TR) :=
  if n ≤ r.rest.length then
    .ok (r.rest.take n, { rest := r.rest.drop n, cursor := r.cursor + n, ck := Crc.update r.ck (r.rest.take n) })
  else .err .io

/-- `TrackedReader::is_eof` (`rw.rs:274-276`). -/
def TR.isEof (r : TR) : Bool := r.rest.isEmpty

end Verif.Journal
