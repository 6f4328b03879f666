import Verif.Cli.Param
import Verif.Server.Model
/-!
The loop of the shell (`cli/src/repl.rs:46-137`) with the server at the other end.
-/
namespace Verif.Cli
open Verif.Lex (ascii)
open Verif.Server (Outside Srv Sess Answer)

/-- What the shell learns from an answer: that the connection is gone, that the server reports an error, or
anything else (`Response`, `cli/src/resp.rs:43-76`). -/
inductive Got where
  | gone | error | fine
  deriving DecidableEq, Repr

/-- The answers as responses. An answer that is a panic of the connection's task is none at all. -/
def got : Answer → Got
  | .lexError _ | .syntaxError _ | .notFound | .serverError => .error
  | .ddl (.ok _) => .fine
  | .ddl (.err _) => .error
  | .ddl .panic | .ddl .hang => .gone
  | .rows .empty | .rows (.row _) | .rows (.rows _ _) => .fine
  | .rows (.err _) => .error
  | .rows .panic => .gone
  | .empty | .null | .text _ => .fine
  | .crash => .gone

/-- The prompt without a space (`cli/src/repl.rs:76`). -/
def PROMPT : Bytes := ascii "> "

/-- The new prompt that a query asks for (`cli/src/repl.rs:89-105`). -/
def newPrompt : Kind → Option Bytes
  | .standard | .special => none
  | .useNull => some PROMPT
  | .useSpace name => some (name ++ PROMPT)

/-- What is left after a line: the shell has ended, or it waits with a prompt; the connection and the server. -/
inductive After where
  | ended (srv : Srv)
  | waits (srv : Srv) (sess : Sess) (prompt : Bytes)

/-- The prompt after a response (`cli/src/repl.rs:106-110`); `format_response` is false for errors only
(`cli/src/resp.rs:43-76`), and a lost connection ends the shell (`?`, line 106). -/
def respond (k : Kind) (prompt : Bytes) : Srv × Sess × Answer × Option Enc.Event → After
  | (s, x, a, _) =>
    match got a with
    | .gone => .ended s
    | .error => .waits s x prompt
    | .fine => .waits s x ((newPrompt k).getD prompt)

/-- One line (`cli/src/repl.rs:79-119`). `enc` is how the client library encodes a parameter; a panic of the shell ends
it. -/
def line (enc : Item → Bytes) (o : Outside) (s : Srv) (x : Sess) (prompt text : Bytes) : After :=
  if text = ascii "!help" then .waits s x prompt
  else if text = ascii "exit" then .ended s
  else if text = ascii "clear" then .waits s x prompt
  else if text = [] then .waits s x prompt
  else
    match parameterize o.pf text with
    | .error _ => .waits s x prompt
    | .panic => .ended s
    | .send k q is => respond k prompt (Server.serve o s x q (is.map enc).flatten)

/-- Lines that are typed one after the other, each with what other clients did to the server before. -/
def lines (enc : Item → Bytes) : List ((Srv → Srv) × Outside × Bytes) → Srv → Sess → Bytes → After
  | [], s, x, prompt => .waits s x prompt
  | (others, o, text) :: rest, s, x, prompt =>
    match line enc o (others s) x prompt text with
    | .ended s => .ended s
    | .waits s x prompt => lines enc rest s x prompt

end Verif.Cli
