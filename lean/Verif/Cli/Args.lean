import Verif.Config.Model
import Verif.Cli.Repl
/-!
Model of how the shell reads its settings and what it does with a query on the command line (`cli/src/args.rs`,
`cli/src/main.rs`, `libsky/src/lib.rs`). C64. Paths are relative to `/repo`. Texts are lists of characters.
-/
namespace Verif.Cli.Start
open Verif.Config (Str splitOn parseNum maxU16 Fs Var)
open Verif.Server (Outside Srv Sess Answer)

/-- The messages of `ArgParseError` (`libsky/src/lib.rs:121-126`) and of `cli/src/args.rs`. -/
inductive Err where
  | missingValue (arg : Str)
  | duplicate (arg : Str)
  | endpoint
  | port
  | protocol
  | noCert
  | io
  | unknownArgs
  deriving DecidableEq, Repr

/-- A `HashMap` of texts. -/
abbrev Map := List (Str × Str)

def Map.get (a : Map) (k : Str) : Option Str :=
  match a with
  | [] => none
  | e :: a => if e.1 = k then some e.2 else Map.get a k

def Map.remove (a : Map) (k : Str) : Map := a.filter fun e => e.1 != k

/-- `CliAction` (`libsky/src/lib.rs:63-70`). -/
inductive Action where
  | help
  | version
  | action (a : Map)
  deriving DecidableEq, Repr

/-- A new entry (`libsky/src/lib.rs:145-150`). -/
def Map.enter (a : Map) (k v : Str) : Res Err Map :=
  match a.get k with
  | none => .ok ((k, v) :: a)
  | some _ => .err (.duplicate k)

/-- The loop of `parse_args_deny_duplicate` with `extract_arg` (`libsky/src/lib.rs:135-152, 158-177`). -/
def loop : List Str → Map → Res Err Action
  | [], a => .ok (.action a)
  | arg :: rest, a =>
    if arg = "--help".toList then .ok .help
    else if arg = "--version".toList then .ok .version
    else
      match splitOn '=' arg with
      | [k, v] => (a.enter k v).bind fun a => loop rest a
      | [_] =>
        match rest with
        | [] => .err (.missingValue arg)
        | v :: rest => (a.enter arg v).bind fun a => loop rest a
      | _ => .err (.missingValue arg)

/-- `KeyCode` of the terminal library: the keys that are told apart. -/
inductive Code where
  | char (c : Char)
  | backspace
  | enter
  | other
  deriving DecidableEq, Repr

/-- `KeyModifiers`: none, the control key only, or others. -/
inductive Mods where
  | none | control | shift | other
  deriving DecidableEq, Repr

/-- `Event` of the terminal library, or the failure to read one. -/
inductive Event where
  | key (code : Code) (mods : Mods) (press : Bool)
  | other
  | failed
  deriving DecidableEq, Repr

/-- What comes of asking for a password: it, or the end of the program. -/
inductive Typed where
  | password (p : Str)
  | interrupted
  deriving DecidableEq, Repr

/-- The loop of `read_password` (`cli/src/args.rs:172-208`). If there are no events left it waits for ever. -/
def readPassword : List Event → Str → Res Err Typed
  | [], _ => .hang
  | .key (.char 'c') .control true :: _, _ => .ok .interrupted
  | .key .backspace .none true :: es, p => readPassword es p.dropLast
  | .key (.char c) .none true :: es, p => readPassword es (p ++ [c])
  | .key .enter .none true :: _, p => .ok (.password p)
  | .failed :: _, _ => .err .io
  | _ :: es, p => readPassword es p

/-- `ClientConfigKind` (`cli/src/args.rs:62-65`). -/
inductive Kind where
  | tcp (host : Str) (port : Nat)
  | tls (host : Str) (port : Nat) (cert : Str)
  deriving DecidableEq, Repr

/-- `ClientConfig` (`cli/src/args.rs:45-49`). -/
structure Client where
  kind : Kind
  user : Str
  pass : Str
  deriving DecidableEq, Repr

/-- `Task` (`cli/src/args.rs:68-72`), and the end of the program by the control key (lines 179-188). -/
inductive Task where
  | message
  | shell (c : Client)
  | once (c : Client) (query : Str)
  | interrupted
  deriving DecidableEq, Repr

/-- The parts of an endpoint (`cli/src/args.rs:97-114`). -/
def endpointOf (ep : Str) : Res Err (Str × Str × Nat) :=
  match splitOn '@' ep with
  | [protocol, hostport] =>
    match splitOn ':' hostport with
    | [host, port] =>
      match parseNum maxU16 port with
      | some port => .ok (protocol, host, port)
      | none => .err .port
    | _ => .err .endpoint
  | _ => .err .endpoint

/-- `fs::read_to_string` with `?` (`cli/src/args.rs:125`). -/
def readCert (fs : Fs) (host : Str) (port : Nat) (path : Str) : Res Err Kind :=
  match fs path with
  | some cert => .ok (.tls host port cert)
  | none => .err .io

/-- The connection for an endpoint (`cli/src/args.rs:115-140`). -/
def kindOf (fs : Fs) (cert : Option Str) (protocol host : Str) (port : Nat) : Res Err Kind :=
  if protocol = "tcp".toList then .ok (.tcp host port)
  else if protocol = "tls".toList then
    match cert with
    | some path => readCert fs host port path
    | none => .err .noCert
  else .err .protocol

def optEndpoint : Str := "--endpoint".toList
def optCert : Str := "--tls-cert".toList
def optUser : Str := "--user".toList
def optPass : Str := "--password".toList
def optEval : Str := "--eval".toList

/-- The first part of `parse` (`cli/src/args.rs:93-142`). The certificate is taken from the arguments only if there is an
endpoint. -/
def target (fs : Fs) (a : Map) : Res Err (Kind × Map) :=
  match a.get optEndpoint with
  | none => .ok (.tcp "127.0.0.1".toList 2003, a)
  | some ep => do
    let (protocol, host, port) ← endpointOf ep
    let k ← kindOf fs (a.get optCert) protocol host port
    .ok (k, (a.remove optEndpoint).remove optCert)

/-- Where the password comes from (`cli/src/args.rs:150-159`). -/
def password (env : Var) (keys : List Event) : Option Str → Res Err Typed
  | some p => .ok (.password p)
  | none =>
    match env with
    | .val v => .ok (.password v)
    | _ => readPassword keys []

/-- The end of `parse` (`cli/src/args.rs:160-169`). -/
def finish (kind : Kind) (user : Str) (eval : Option Str) (left : Map) : Typed → Res Err Task
  | .interrupted => .ok .interrupted
  | .password p =>
    if left.isEmpty then
      match eval with
      | some q => .ok (.once ⟨kind, user, p⟩ q)
      | none => .ok (.shell ⟨kind, user, p⟩)
    else .err .unknownArgs

/-- `parse` for the arguments in a map (`cli/src/args.rs:93-169`). -/
def decode (fs : Fs) (env : Var) (keys : List Event) (a : Map) : Res Err Task := do
  let (kind, a) ← target fs a
  let user := (a.get optUser).getD "root".toList
  let t ← password env keys (a.get optPass)
  finish kind user (a.get optEval) (((a.remove optUser).remove optPass).remove optEval) t

/-- `parse` (`cli/src/args.rs:88-170`); the first argument is the name of the program. `env` is the variable
`SKYDB_PASSWORD`. -/
def parse (fs : Fs) (env : Var) (keys : List Event) (args : List Str) : Res Err Task := do
  match ← loop (args.drop 1) [] with
  | .help => .ok .message
  | .version => .ok .message
  | .action a => decode fs env keys a

/-- A query on the command line (`cli/src/main.rs:53-62`): it is sent as it is, without parameters. -/
def runOnce (o : Outside) (s : Srv) (x : Sess) (q : Bytes) : Srv × Sess × Answer × Option Enc.Event := Server.serve o s x q []

/-- The exit code then (`cli/src/main.rs:42-47, 61-64`): that the response is an error is not looked at. -/
def exitCode : Srv × Sess × Answer × Option Enc.Event → Nat
  | (_, _, a, _) =>
    match got a with
    | .gone => 1
    | .error => 0
    | .fine => 0

end Verif.Cli.Start
