import Verif.Journal.Raw
/-!
Scenarios used to state the journal properties: what a server does with its journal over its
lifetime. These are definitions about the API (create, open, commit, close), not about the file
format.
-/
namespace Verif.Journal

/-- Replay a list of events on a state with the server's own event handler. -/
def replay {G} (apply : G → Ev → Res SErr G) : G → List Ev → Res SErr G
  | g, [] => .ok g
  | g, e :: es => (apply g e).bind fun g => replay apply g es

/-- Commit the events one after the other; stop at the first failure. -/
def JW.commitAll (w : JW) : List Ev → JW × Res SErr Unit
  | [] => (w, .ok ())
  | e :: es =>
    match w.commitEvent e with
    | (w, .ok ()) => w.commitAll es
    | (w, r) => (w, r)

/-- What remains on disk (`none` if some call did not succeed). -/
def fileOf : JW × Res SErr Unit → Option Bytes
  | (w, .ok ()) => some w.log.disk
  | _ => none

/-- One session on an open journal: commit `evs`, then shut down cleanly. -/
def JW.session (w : JW) (evs : List Ev) : Option Bytes :=
  match w.commitAll evs with
  | (w, .ok ()) => fileOf w.close
  | _ => none

/-- The first session of a server: create the journal (with header `hdr`), commit, shut down. -/
def firstSession (hdr : Bytes) (evs : List Ev) : Option Bytes :=
  match JW.create hdr [] with
  | (w, .ok ()) => w.session evs
  | _ => none

/-- A later session: open the file (replaying it from the empty state `g0`), commit, shut down. -/
def nextSession {G} (dec : Decode G) (g0 : G) (file : Bytes) (evs : List Ev) : Option Bytes :=
  match openJournal dec g0 file [] with
  | .ok (w, _) => w.session evs
  | _ => none

/-- The later sessions of a server, starting from `file`. -/
def nextSessions {G} (dec : Decode G) (g0 : G) (file : Bytes) : List (List Ev) → Option Bytes
  | [] => some file
  | s :: ss => (nextSession dec g0 file s).bind fun file => nextSessions dec g0 file ss

/-- The journal file after a first session and any number of later sessions, all shut down
cleanly. -/
def lifetime {G} (dec : Decode G) (g0 : G) (hdr : Bytes) (first : List Ev) (rest : List (List Ev)) :
    Option Bytes :=
  (firstSession hdr first).bind fun file => nextSessions dec g0 file rest

/-- An upper bound on the number of bytes that the sessions write. -/
def sizeBound (sessions : List (List Ev)) : Nat :=
  64 + (sessions.map fun s => 128 + (s.map fun e => 40 + e.payload.length).sum).sum

/-- The writer, if the call succeeded. -/
def writerOf : JW × Res SErr Unit → Option JW
  | (w, .ok ()) => some w
  | _ => none

/-- The open journal of a running server: `older` are its earlier, cleanly finished sessions,
`last` are the events acknowledged so far in the current session. -/
def running {G} (dec : Decode G) (g0 : G) (hdr : Bytes) (older : List (List Ev)) (last : List Ev) :
    Option JW :=
  match older with
  | [] =>
    match JW.create hdr [] with
    | (w, .ok ()) => writerOf (w.commitAll last)
    | _ => none
  | first :: rest =>
    (lifetime dec g0 hdr first rest).bind fun file =>
    match openJournal dec g0 file [] with
    | .ok (w, _) => writerOf (w.commitAll last)
    | _ => none

/-- The journal file if the process dies in its last session after `last` was acknowledged, i.e.
without the close. -/
def crashed {G} (dec : Decode G) (g0 : G) (hdr : Bytes) (older : List (List Ev)) (last : List Ev) :
    Option Bytes :=
  (running dec g0 hdr older last).map fun w => w.log.disk

/-- The same writer with a schedule of outcomes for the coming system calls. -/
def JW.withIo (w : JW) (io : List Sys) : JW := { w with log := { w.log with io } }

/-- An event handler that just collects the events: used to say "exactly these events". -/
def collect (g : List Ev) (e : Ev) : Res SErr (List Ev) := .ok (g ++ [e])

end Verif.Journal
