import Verif.Server.Whole
import Verif.Server.Hub
/-!
The whole server with its files and its connections: from the bytes on the sockets to the bytes on the sockets, with batches,
shutdowns and starts (`net/mod.rs:122-200`, `net/protocol/mod.rs:143-310`, and the parts of `Server.Whole`).
-/
namespace Verif.Server

/-- A running server: its tables and files, its connections, and how often it was started. Connections are numbered anew after
every start. -/
structure Site where
  sys : Sys
  con : Nat → Con
  era : Nat

/-- A server after a start (`net/mod.rs:169-186`): no connection has received anything. -/
def Site.fresh (z : Sys) (era : Nat) : Site := ⟨z, fun _ => .greeting {}, era⟩

/-- What happens: a connection reads or is closed, a batch is written, or the server is shut down and started. -/
inductive Deed where
  | inp (a : Inp)
  | flush (space model : String) (n : Nat)
  | restart (st : Start) (closing opening : List MKey → List MKey) (data : Path → Bytes)

/-- The query that an input completes (`net/protocol/mod.rs:168-199`), with the session of the connection. -/
def Site.asked (p : Site) : Inp → Option Q
  | .close _ => none
  | .read i o chunk =>
    match p.con i with
    | .talking c x =>
      match (c.feed chunk).2 with
      | .query text params => some (o, x, text, params)
      | _ => none
    | _ => none

/-- What a step does that can be seen: the bytes that a connection gets, and the query that was executed for it with its answer.
The connection is named by the number of the start and its own number. -/
structure Out where
  who : Nat × Nat
  bytes : Bytes
  did : List (Q × Answer)

/-- One step. An undefined behaviour of a connection (`Hub.step`) is `bad`. A shutdown ends all connections
(`net/mod.rs:144-146, 187-197`); it comes between two steps, so that no query is executed whose reply is lost. -/
def Site.step (S : Setup) (H : Host) (p : Site) : Deed → Batch.Run (Site × List Out)
  | .inp a =>
    match Hub.step H ⟨p.sys.srv, p.con⟩ a with
    | none => .bad
    | some (h, b) =>
      match p.asked a with
      | none => .ok (⟨p.sys, h.con, p.era⟩, [⟨(p.era, a.con), b, []⟩])
      | some q => (p.sys.query S q).bind fun (z, o) => .ok (⟨z, h.con, p.era⟩, [⟨(p.era, a.con), b, o⟩])
  | .flush a b n => (p.sys.flush S a b n).bind fun z => .ok (⟨z, p.con, p.era⟩, [])
  | .restart st cl op data =>
    (p.sys.stop S cl data).bind fun d => (boot S st op d).bind fun z => .ok (Site.fresh z (p.era + 1), [])

/-- One after the other. -/
def Site.run (S : Setup) (H : Host) : Site → List Deed → Batch.Run (Site × List Out)
  | p, [] => .ok (p, [])
  | p, a :: as => (p.step S H a).bind fun (p, o) => (Site.run S H p as).bind fun (p, os) => .ok (p, o ++ os)

/-- What a deed is for the tables. -/
def Site.act (p : Site) : Deed → List Act
  | .inp a => (p.asked a).toList.map .query
  | .flush a b n => [.flush a b n]
  | .restart st cl op data => [.restart st cl op data]

/-- What the deeds are for the tables, as far as the server gets. -/
def Site.acts (S : Setup) (H : Host) : Site → List Deed → List Act
  | _, [] => []
  | p, a :: as =>
    p.act a ++ match p.step S H a with
      | .ok (p, _) => Site.acts S H p as
      | _ => []

end Verif.Server
