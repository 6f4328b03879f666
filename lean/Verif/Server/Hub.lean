import Verif.Server.Model
import Verif.Net.Exchange
import Verif.Net.Handshake
import Verif.Net.Reply
import Verif.Gns.Theorems
/-!
The connections of a server, from the bytes that clients send to the bytes that they get
(`net/protocol/mod.rs:143-310`, `net/mod.rs:125-155`). The parts are the models of the handshake, of the packets, of the
queries and of the replies.
-/
namespace Verif.Server
open Verif.Net (HsConn HsError Conn)
open Verif.Net.Reply (FloatText send)

/-! ### Errors as numbers (`error.rs:36-98`) -/

def lexCode : Lex.LexError → Nat
  | .invalidInput => 25
  | .unexpectedByte => 26

def qlCode : Ql.QlErr → Nat
  | .permDenied => 5
  | .unexpectedEnd => 27
  | .invalidSyntax => 28
  | .invalidCollection => 29
  | .invalidTypeDef => 30
  | .expectedEntity => 31
  | .expectedStatement => 32
  | .unknownStatement => 33

def gnsCode : Gns.QErr → Nat
  | .serverError => 0
  | .authError => 3
  | .permDenied => 5
  | .notFound => 100
  | .unknownField => 101
  | .invalidProps => 102
  | .alreadyExists => 103
  | .notEmpty => 104
  | .invalidType => 105
  | .badDefinition => 106
  | .alterIllegal => 107
  | .needLock => 112

def dmlCode : Dml.DErr → Nat
  | .unknownField => 101
  | .duplicate => 108
  | .validation => 109
  | .unindexed => 110
  | .rowNotFound => 111

/-- What the result of a query is on the wire (`net/protocol/mod.rs:198-222`); `none` if the task of the connection ends in a
panic, or never ends. -/
def told : Answer → Option Net.Reply.Answer
  | .lexError e => some (.error (lexCode e))
  | .syntaxError e => some (.error (qlCode e))
  | .ddl (.ok none) => some .empty
  | .ddl (.ok (some b)) => some (.bool b)
  | .ddl (.err e) => some (.error (gnsCode e))
  | .ddl .panic => none
  | .ddl .hang => none
  | .rows .empty => some .empty
  | .rows (.row cs) => some (.row cs)
  | .rows (.rows n rs) => some (.rows n rs)
  | .rows (.err e) => some (.error (dmlCode e))
  | .rows .panic => none
  | .notFound => some (.error 100)
  | .serverError => some (.error 0)
  | .empty => some .empty
  | .null => some .null
  | .text s => some (.string s)
  | .crash => none

/-- `ProtocolError::value_u8` (`net/protocol/handshake.rs:32-52`). -/
def hsCode : HsError → UInt8
  | .corrupted => 0
  | .hsVersion => 1
  | .protocol => 2
  | .exchangeMode => 3
  | .queryMode => 4
  | .auth => 5

/-- The error reply of the handshake (`net/protocol/mod.rs:154`). -/
def hsRefusal (e : HsError) : Bytes := [72, 0, 1, hsCode e]

/-- The success reply of the handshake (`net/protocol/mod.rs:160`). -/
def hsWelcome : Bytes := [72, 0, 0, 0]

/-- `SysNetworkSystemIllegalClientPacket` (`error.rs:51`). -/
def illegalCode : UInt8 := 6

/-! ### Connections -/

/-- Where the task of a connection stands (`query_loop`): in the handshake, in the loop over the queries, or ended. -/
inductive Con where
  | greeting (c : HsConn)
  | talking (c : Conn) (x : Sess)
  | closed

/-- The server with all its connections. A number that was not used yet is a connection that is in the handshake and has
received nothing. -/
structure Hub where
  srv : Srv
  con : Nat → Con

def Hub.set (h : Hub) (i : Nat) (c : Con) : Hub := { h with con := fun j => if j = i then c else h.con j }

/-- The server after it started. -/
def Hub.start (s : Srv) : Hub := ⟨s, fun _ => .greeting {}⟩

/-- What happens outside: the task of connection `i` reads bytes (not none; `o` is what the outside contributes if this
completes a query), or finds that the client has closed the connection. -/
inductive Inp where
  | read (i : Nat) (o : Outside) (chunk : Bytes)
  | close (i : Nat)

def Inp.con : Inp → Nat
  | .read i _ _ => i
  | .close i => i

/-- What does not change: the check of passwords (`rcrypt::verify`) and the text of doubles. -/
structure Host where
  check : Bytes → Bytes → Bool
  text : FloatText

/-- One round of the loop of a connection, with the bytes that it writes. `none` is undefined behaviour (`HsStep.oob`), after
which nothing is known. Queries are executed one at a time. Errors of writing are not modelled: the bytes arrive, or the
client no longer listens. -/
def Hub.step (H : Host) (h : Hub) : Inp → Option (Hub × Bytes)
  | .close i => some (h.set i .closed, [])
  | .read i o chunk =>
    match h.con i with
    | .greeting c =>
      match c.feed chunk with
      | .more c => some (h.set i (.greeting c), [])
      | .done name pwd rest =>
        match Gns.login H.check h.srv.cat name pwd with
        | some u => some (h.set i (.talking (Conn.fresh rest) ⟨u, none⟩), hsWelcome)
        | none => some (h.set i .closed, hsRefusal .auth)
      | .reject e => some (h.set i .closed, hsRefusal e)
      | .panic => some (h.set i .closed, [])
      | .oob => none
    | .talking c x =>
      match c.feed chunk with
      | (c, .none) => some (h.set i (.talking c x), [])
      | (c, .illegal) => some (h.set i (.talking c x), send (.error illegalCode))
      | (_, .panic) => some (h.set i .closed, [])
      | (c, .query text params) =>
        match serve o h.srv x text params with
        | (s, x, a, _) =>
          match told a with
          | some r => some (Hub.set ⟨s, h.con⟩ i (.talking c x), send (r.resp H.text))
          | none => some (Hub.set ⟨s, h.con⟩ i .closed, [])
    | .closed => some (h, [])

/-- Any number of rounds; the bytes with the connections that they go to. -/
def Hub.run (H : Host) (h : Hub) : List Inp → Option (Hub × List (Nat × Bytes))
  | [] => some (h, [])
  | a :: as =>
    match h.step H a with
    | none => none
    | some (h, b) =>
      match h.run H as with
      | none => none
      | some (h, out) => some (h, (a.con, b) :: out)

end Verif.Server
