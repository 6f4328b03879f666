import Verif.Num.Model
import Verif.Base.Res
/-!
Model of the client handshake (`net/protocol/handshake.rs`) and of its read loop
(`net/protocol/mod.rs:240-285`).
-/
namespace Verif.Net

open Num (u64Lf Decoded)

/-- `ProtocolError` (`handshake.rs:32-52`). -/
inductive HsError where
  | corrupted | hsVersion | protocol | exchangeMode | queryMode | auth
  deriving DecidableEq, Repr

/-- `HandshakeState` (`handshake.rs:108-131`). The static block has one value only
(`CHandshakeStatic`: every enumeration in it has one variant). -/
inductive HsState where
  | initial
  | staticBlock
  | expectMeta (unameL : Nat)
  | expectVar (unameL pwdL : Nat)
  deriving DecidableEq, Repr

/-- `HandshakeResult` (`handshake.rs:209-221`) with the new cursor. `panic`: an index out of range;
`oob`: a slice made from pointers past the end of the buffer (undefined behaviour). -/
inductive HsResult where
  | completed (uname pwd : Bytes) (cursor : Nat)
  | change (s : HsState) (expect : Nat) (cursor : Nat)
  | error (e : HsError)
  | panic
  | oob
  deriving DecidableEq, Repr

/-- The table `ERROR` (`handshake.rs:300-307`). -/
def hsErrors : List HsError := [.corrupted, .hsVersion, .protocol, .exchangeMode, .queryMode, .auth]

/-- `resume_at_variable_block_payload` (`handshake.rs:332-355`). The sum wraps in a release build. -/
def resumePayload (len : Nat) (rest : Bytes) (unameL pwdL : Nat) : HsResult :=
  let sum := (unameL + pwdL) % 2 ^ 64
  if sum ≤ rest.length then
    if unameL + pwdL ≤ rest.length then
      .completed (rest.take unameL) ((rest.drop unameL).take pwdL) (len - rest.length + unameL + pwdL)
    else .oob
  else .change (.expectVar unameL pwdL) sum (len - rest.length)

/-- `resume_at_auth_metadata2` (`handshake.rs:393-413`). The scanner restores the cursor if it
fails. -/
def resumeMeta2 (len : Nat) (rest : Bytes) (unameL : Nat) : HsResult :=
  match u64Lf rest with
  | .value pwdL rest => resumePayload len rest unameL pwdL
  | .needMore => .change (.expectMeta unameL) ((unameL + 2) % 2 ^ 64) (len - rest.length)
  | .error => .error .corrupted

/-- `resume_at_auth_metadata1` (`handshake.rs:360-391`). -/
def resumeMeta1 (len : Nat) (rest : Bytes) : HsResult :=
  if rest.length < 4 then .change .staticBlock 4 (len - rest.length)
  else
    match u64Lf rest with
    | .needMore => .change .staticBlock 4 (len - rest.length)
    | .value unameL rest => resumeMeta2 len rest unameL
    | .error => .error .corrupted

/-- The index into `ERROR` plus one (`handshake.rs:312-317`): the six flags, each times its number,
or-ed together. -/
def hsFlags (b : Bytes) : Nat :=
  let flag (i n : Nat) : Nat := if (b[i]?).getD 0 > 0 then n else 0
  (if (b[0]?).getD 0 ≠ 72 then 1 else 0) ||| flag 1 2 ||| flag 2 3 ||| flag 3 4 ||| flag 4 5 ||| flag 5 6

/-- `resume_initial` (`handshake.rs:272-331`). The loop calls it with at least six bytes. The flags
are all zero exactly if no byte is invalid. -/
def resumeInitial (len : Nat) (rest : Bytes) : HsResult :=
  let flags := hsFlags (rest.take 6)
  if flags ≠ 0 then
    match hsErrors[flags - 1]? with
    | some e => .error e
    | none => .panic
  else resumeMeta1 len (rest.drop 6)

/-- `CHandshake::resume_with` (`handshake.rs:239-261`). -/
def hsResume (buf : Bytes) (cursor : Nat) : HsState → HsResult
  | .initial => resumeInitial buf.length (buf.drop cursor)
  | .staticBlock => resumeMeta1 buf.length (buf.drop cursor)
  | .expectMeta u => resumeMeta2 buf.length (buf.drop cursor) u
  | .expectVar u p => resumePayload buf.length (buf.drop cursor) u p

/-- The locals of `do_handshake` (`mod.rs:245-249`); `CHandshake::INITIAL_READ` is 6. -/
structure HsConn where
  buf : Bytes := []
  expected : Nat := 6
  state : HsState := .initial
  cursor : Nat := 0
  deriving DecidableEq, Repr

/-- One round of the loop in `do_handshake` (`mod.rs:250-277`), or its end. `done` carries the bytes
that stay in the buffer (`buf.advance(cursor)`, line 307). The check of the password comes after. -/
inductive HsStep where
  | more (c : HsConn)
  | done (uname pwd leftover : Bytes)
  | reject (e : HsError)
  | panic
  | oob
  deriving DecidableEq, Repr

def HsConn.feed (c : HsConn) (chunk : Bytes) : HsStep :=
  let buf := c.buf ++ chunk
  if buf.length < c.expected then .more { c with buf }
  else
    match hsResume buf c.cursor c.state with
    | .completed u p cursor => .done u p (buf.drop cursor)
    | .change s expect cursor => .more ⟨buf, expect, s, cursor⟩
    | .error e => .reject e
    | .panic => .panic
    | .oob => .oob

/-- A sequence of reads during the handshake; the reads after its end are left alone. -/
def HsConn.run : HsConn → List Bytes → HsStep × List Bytes
  | c, [] => (.more c, [])
  | c, chunk :: chunks =>
    match c.feed chunk with
    | .more c => c.run chunks
    | s => (s, chunks)

end Verif.Net
