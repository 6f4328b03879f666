import Verif.Ql.Dispatch
import Verif.Dml.Model
import Verif.Server.Inspect
/-!
The whole way of a query: from its bytes to the answer and to the new state of the server
(`core/exec.rs:43-276`, `core/dcl.rs:37-56`, `core/ddl_misc.rs:34-107`). The parts are the models of the
lexer, the parser, the catalogue and the rows; one query is one step.
-/
namespace Verif.Server
open Verif.Lex (Token LexError lex)
open Verif.Enc (Fields)
open Verif.Gns (Cat Client World upd2)
open Verif.Ql (Env Query QlErr RowQuery RowStmt Clauses Use Inspect)

/-- The rows of a model: `Dml.Tbl` without the model. -/
structure Rows where
  heap : List Dml.RowObj
  idx : List (Dml.Key × Nat)
  ver : Nat
  queue : List Dml.Delta

/-- A new model has no rows (`PrimaryIndex::new_empty`). -/
def Rows.none : Rows := ⟨[], [], 0, []⟩

/-- The state of the server: the catalogue and the rows of each model. -/
structure Srv where
  cat : Cat
  rows : String → String → Rows

/-- The state of a connection (`ClientLocalState`, `net/protocol/mod.rs`): the user and the current space. -/
structure Sess where
  client : Client
  cs : Option String

/-- What the outside contributes to one query: the file system and random numbers (`world`), the order in
which hash maps and the index iterate, floating point arithmetic and the parsing of decimals, the answers
of the functions of `INSERT`, whether the server is healthy, and the names of spaces, users and models of a space in
the order in which `INSPECT` meets them when it iterates over hash maps. -/
structure Outside where
  world : World
  perm : Fields → Fields
  order : List (Dml.Key × Nat) → List (Dml.Key × Nat)
  floats : Dml.FloatOps
  pf : String → Option F64
  uuidStr : Nat → String
  uuidBin : Nat → Bytes
  time : Nat → UInt64
  healthy : Bool
  spaceNames : Cat → List String
  userNames : Cat → List String
  modelNames : Gns.Space → List String

/-- The answers. -/
inductive Answer where
  | lexError (e : LexError)
  | syntaxError (e : QlErr)
  | ddl (r : Res Gns.QErr (Option Bool))
  | rows (r : Dml.Reply)
  | notFound
  | serverError
  | empty
  | null
  | text (s : String)
  | crash

/-- The table of a model, if it exists (`with_model`, `core/mod.rs:143-152`). -/
def Srv.tbl (s : Srv) (space model : String) : Option Dml.Tbl :=
  (s.cat.models space model).map fun m =>
    let r := s.rows space model
    ⟨m, r.heap, r.idx, r.ver, r.queue⟩

/-- Put the rows of a table back. -/
def Srv.setRows (s : Srv) (space model : String) (t : Dml.Tbl) : Srv :=
  { s with rows := fun a b => if a = space ∧ b = model then ⟨t.heap, t.idx, t.ver, t.queue⟩ else s.rows a b }

/-- The rows after the catalogue changed: they belong to the model object, so they go with it and a new
model starts without any. -/
def follow (c c' : Cat) (r : String → String → Rows) : String → String → Rows := fun a b =>
  if (c.models a b).isSome && (c'.models a b).isSome then r a b else Rows.none

/-- A clause as the execution sees it: only equality matters (`resolve_where`, `core/dml/mod.rs:58-77`). -/
def clause (c : String × Ql.Rel) : String × Dml.Clause := (c.1, ⟨c.2.opc == 1, c.2.rhs⟩)

/-- The statement on rows. -/
def rowStmt : RowStmt → Dml.Stmt
  | .insert d => .insert d
  | .update as w => .update as (w.map clause)
  | .delete w => .delete (w.map clause)
  | .select fs w => .select fs (w.map clause)
  | .selectAll fs n => .selectAll fs n.toNat

/-- What a model to be dropped looks like: whether there are rows is not for the outside to decide. -/
def worldFor (s : Srv) (w : World) : Gns.Stmt → World
  | .dropModel sp m _ _ => { w with noRows := (s.rows sp m).idx.isEmpty }
  | _ => w

/-- A statement on the catalogue (`core/exec.rs:137-176`). -/
def runDdl (o : Outside) (u : Client) (s : Srv) (d : Gns.Stmt) : Srv × Answer × Option Enc.Event :=
  match Gns.exec o.perm u s.cat (worldFor s o.world d) d with
  | ⟨c, r, ev⟩ => (⟨c, follow s.cat c s.rows⟩, .ddl r, ev)

/-- `USE` (`cstate_use`, `core/exec.rs:203-237`). -/
def runUse (s : Srv) (x : Sess) : Use → Sess × Answer
  | .null => ({ x with cs := none }, .empty)
  | .space n => if (s.cat.spaces n).isSome then ({ x with cs := some n }, .empty) else (x, .notFound)
  | .current =>
    match x.cs with
    | none => (x, .null)
    | some n => if (s.cat.spaces n).isSome then (x, .text n) else ({ x with cs := none }, .notFound)

/-- `INSPECT` (`core/ddl_misc.rs:34-107`); `none` for `QExecObjectNotFound`. -/
def inspect (o : Outside) (s : Srv) (root : Bool) : Inspect → Option (List Char)
  | .global => some (inspectGlobal root (o.spaceNames s.cat) (o.userNames s.cat))
  | .model sp n => (s.cat.models sp n).map fun m => inspectModel m (s.rows sp n).idx.length
  | .space n => (s.cat.spaces n).map fun sp => inspectSpace (o.modelNames sp)

/-- Execute a parsed query. -/
def execute (o : Outside) (s : Srv) (x : Sess) : Query → Srv × Sess × Answer × Option Enc.Event
  | .ddl d => match runDdl o x.client s d with | (s, a, ev) => (s, x, a, ev)
  | .sysctl (.user d) => match runDdl o x.client s d with | (s, a, ev) => (s, x, a, ev)
  | .sysctl .report => (s, x, if o.healthy then .empty else .serverError, none)
  | .use u => match runUse s x u with | (x, a) => (s, x, a, none)
  | .inspect i =>
    match inspect o s x.client.root i with
    | some t => (s, x, .text (String.ofList t), none)
    | none => (s, x, .notFound, none)
  | .rows q =>
    match s.tbl q.space q.model with
    | none => (s, x, .notFound, none)
    | some t =>
      match Dml.exec o.floats o.order t (rowStmt q.stmt) with
      | (t, r) => (s.setRows q.space q.model t, x, .rows r, none)

/-- A query (`dispatch_to_executor`, `core/exec.rs:43-62`): the new state of the server and of the
connection, the answer, and the event that went to the log. -/
def serve (o : Outside) (s : Srv) (x : Sess) (text params : Bytes) : Srv × Sess × Answer × Option Enc.Event :=
  match lex o.pf text params with
  | .error e => (s, x, .lexError e, none)
  | .ok toks =>
    match Ql.parse x.client.root ⟨toks, x.cs, o.uuidStr, o.uuidBin, o.time⟩ with
    | .ok q => execute o s x q
    | .err e => (s, x, .syntaxError e, none)
    | .panic => (s, x, .crash, none)
    | .hang => (s, x, .crash, none)

end Verif.Server
