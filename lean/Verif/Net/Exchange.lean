import Verif.Num.Model
import Verif.Base.Res
/-!
Model of the query exchange (`net/protocol/exchange.rs`) and of the read loop of a connection
(`net/protocol/mod.rs:143-230`).
-/
namespace Verif.Net

open Num (isDigit)

/-- Result of `scan_int` (`net/protocol/mod.rs:318-322`): `Completed`, `Pending`, or `Err(())`. -/
inductive ScanInt where
  | completed (v : Nat) (rest : Bytes)
  | pending (acc : Nat)
  | error
  deriving DecidableEq, Repr

/-- `scan_int` (`net/protocol/mod.rs:329-355`) on the bytes left in the scanner. `Pending` leaves no
byte. The buffer as a whole is not empty, so `rounded_eq` does not index out of range. -/
def scanInt : Bytes → Nat → ScanInt
  | [], acc => .pending acc
  | d :: rest, acc =>
    if d = 10 then .completed acc rest
    else if isDigit d ∧ acc * 10 + (d &&& 0x0F).toNat < 2 ^ 64 then
      scanInt rest (acc * 10 + (d &&& 0x0F).toNat)
    else .error

/-- `QExchangeStateInternal` (`exchange.rs:99-105`). -/
inductive XInternal where
  | initial | pendingMeta1 | pendingMeta2 | pendingData
  deriving DecidableEq, Repr

/-- `QExchangeState` (`exchange.rs:113-119`). `usize` is 64 bits. -/
structure XState where
  st : XInternal
  target : Nat
  psize : Nat
  qwin : Nat
  deriving DecidableEq, Repr

/-- `QExchangeState::MIN_READ`, `new` (`exchange.rs:164-167`). -/
def XState.new : XState := ⟨.initial, 5, 0, 0⟩

/-- `QExchangeResult` with the new cursor (`exchange.rs:129-136`, `48-60`). -/
inductive XResult where
  | completed (payload : Bytes) (qwin : Nat)
  | change (s : XState) (cursor : Nat)
  | error
  deriving DecidableEq, Repr

/-- Wrapping subtraction of `usize` (release build). -/
def subW (a b : Nat) : Nat := if b ≤ a then a - b else 2 ^ 64 + a - b

/-- `resume_data` (`exchange.rs:220-233`). `rest` is what is left behind the cursor. A debug build
panics where the subtraction wraps. -/
def resumeData (s : XState) (len : Nat) (rest : Bytes) : XResult :=
  let cursor := len - rest.length
  if rest.length = subW s.target cursor then .completed rest s.qwin
  else .change { s with st := .pendingData } cursor

/-- `resume_at_md2` (`exchange.rs:206-219`). -/
def resumeMd2 (s : XState) (len : Nat) (rest : Bytes) : XResult :=
  match scanInt rest s.qwin with
  | .completed v rest => resumeData { s with qwin := v } len rest
  | .pending p => .change { s with qwin := p, st := .pendingMeta2 } len
  | .error => .error

/-- `resume_at_md1` (`exchange.rs:188-205`). -/
def resumeMd1 (s : XState) (len : Nat) (rest : Bytes) : XResult :=
  match scanInt rest s.psize with
  | .completed v rest =>
    resumeMd2 { s with psize := v, target := (len - rest.length + v) % 2 ^ 64 } len rest
  | .pending p => .change { s with target := (s.target + 1) % 2 ^ 64, psize := p, st := .pendingMeta1 } len
  | .error => .error

/-- `start_initial` (`exchange.rs:181-187`). The buffer is not empty: at least `MIN_READ` bytes. -/
def startInitial (s : XState) (len : Nat) (rest : Bytes) : XResult :=
  match rest with
  | b :: rest => if b = 83 then resumeMd1 s len rest else .error
  | [] => .error

/-- `resume` (`exchange.rs:47-60, 171-180`). -/
def resume (buf : Bytes) (cursor : Nat) (s : XState) : XResult :=
  match s.st with
  | .initial => startInitial s buf.length (buf.drop cursor)
  | .pendingMeta1 => resumeMd1 s buf.length (buf.drop cursor)
  | .pendingMeta2 => resumeMd2 s buf.length (buf.drop cursor)
  | .pendingData => resumeData s buf.length (buf.drop cursor)

/-- The locals of `query_loop` after the handshake (`mod.rs:163-165`). -/
structure Conn where
  buf : Bytes
  cursor : Nat
  state : XState
  deriving DecidableEq, Repr

/-- The connection right after a handshake that left `buf` unread, or after a reply. -/
def Conn.fresh (buf : Bytes := []) : Conn := ⟨buf, 0, XState.new⟩

/-- What a connection does with a read: `query` hands text and parameters to the lexer
(`SQuery::{query, params}`, `exchange.rs:79-84`), `illegal` sends the error reply, `panic` is the
panic of the slice `[..q_window]` and ends the connection's task without a reply. -/
inductive Event where
  | none
  | query (q params : Bytes)
  | illegal
  | panic
  deriving DecidableEq, Repr

/-- One round of the loop in `query_loop` (`mod.rs:166-229`) after a read returned `chunk` (not
empty). The execution of the query and the reply are not part of this model. -/
def Conn.feed (c : Conn) (chunk : Bytes) : Conn × Event :=
  let buf := c.buf ++ chunk
  if buf.length < c.state.target then ({ c with buf }, .none)
  else
    match resume buf c.cursor c.state with
    | .completed payload qwin =>
      (Conn.fresh, if qwin ≤ payload.length then .query (payload.take qwin) (payload.drop qwin) else .panic)
    | .change s cursor => (⟨buf, cursor, s⟩, .none)
    | .error => (Conn.fresh, .illegal)

/-- A sequence of reads. A panic ends the connection. -/
def Conn.run : Conn → List Bytes → Conn × List Event
  | c, [] => (c, [])
  | c, chunk :: chunks =>
    match c.feed chunk with
    | (c, .none) => c.run chunks
    | (c, .panic) => (c, [.panic])
    | (c, e) => let (c, es) := c.run chunks; (c, e :: es)

end Verif.Net
