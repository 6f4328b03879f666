import Verif.Ql.Ddl
import Verif.Ql.DmlParse
/-!
Model of the dispatch of a query to its parser and to the code that executes it (`core/exec.rs:26-280`).
-/
namespace Verif.Ql
open Verif.Lex (Token Symbol Keyword KwStmt KwMisc Lit)

/-- What is executed in the end. -/
inductive Query where
  | ddl (s : Gns.Stmt)
  | sysctl (c : Sysctl)
  | use (u : Use)
  | inspect (i : Inspect)
  | rows (q : RowQuery)

/-- `parse_from_state_hardened` (`ql/ast/traits.rs:44-63`): no tokens may be left. Every node must use the
full range and verifies neither that nor the flag itself. -/
def hardened {α : Type} (p : P α) : P α := do
  let r ← p
  let more ← notExhausted
  if more then fail .invalidSyntax else pure r

/-- `try_statement` (`ql/ast/mod.rs:319-328`). -/
def tryStatement : P KwStmt := do
  let x ← exhausted
  if x then fail .expectedStatement
  else
    let t ← fwRead
    match t with
    | .kw (.statement s) => pure s
    | _ => fail .expectedStatement

/-- The code `fc` (`core/exec.rs:124-135`). -/
def blkCode (stmt : KwStmt) (a b : Token) : Nat :=
  let lastId := isId b
  let lastAllow := b == kw .allow
  let lastIf := b == kw .if
  let create := stmt == .create
  let alter := stmt == .alter
  let drop := stmt == .drop
  (stmt == .sysctl).toNat
  ||| (create && a == kw .space && (lastId || lastIf)).toNat * 2
  ||| (create && a == kw .model && (lastId || lastIf)).toNat * 3
  ||| (alter && a == kw .space && lastId).toNat * 4
  ||| (alter && a == kw .model && lastId).toNat * 5
  ||| (drop && a == kw .space && (lastId || lastAllow || lastIf)).toNat * 6
  ||| (drop && a == kw .model && (lastId || lastAllow || lastIf)).toNat * 7

/-- `unset_space` (`ql/ast/mod.rs:82-84`) for the rest of the parse. -/
def withoutSpace {α : Type} (p : P α) : P α := fun e s => p { e with cs := none } s

/-- The table `BLK_EXEC` (`core/exec.rs:137-176`); `none`: the index is out of range. -/
def blkExec : Nat → P Query
  | 0 => fail .unknownStatement
  | 1 => do
    let c ← hardened sysctl
    pure (.sysctl c)
  | 2 => do
    let s ← hardened createSpace
    pure (.ddl s)
  | 3 => do
    let s ← hardened createModel
    pure (.ddl s)
  | 4 => do
    let s ← hardened alterSpace
    pure (.ddl s)
  | 5 => do
    let s ← hardened alterModel
    pure (.ddl s)
  | 6 => do
    let s ← hardened dropSpace
    pure (.ddl s)
  | 7 => do
    let s ← hardened dropModel
    pure (.ddl s)
  | _ => crash

/-- `run_blocking_stmt` up to the execution (`core/exec.rs:104-187`). The statement runs on another thread;
a panic there becomes a panic here (`r.unwrap()`). -/
def runBlocking (isRoot : Bool) (stmt : KwStmt) : P Query :=
  if !(isRoot || stmt == .sysctl) then fail .permDenied
  else do
    let n ← remaining
    if n < 2 then fail .expectedStatement
    else withoutSpace do
      let a ← readAt 0
      let b ← readAt 1
      aheadIf (stmt != .sysctl)
      blkExec (blkCode stmt a b)

/-- `KeywordStmt::value_u8` (`ql/lex/raw.rs:330-352`). -/
def stmtCode : KwStmt → Nat
  | .sysctl => 0 | .create => 1 | .alter => 2 | .drop => 3 | .use => 4 | .inspect => 5 | .describe => 6
  | .insert => 7 | .select => 8 | .update => 9 | .delete => 10 | .exists => 11

/-- The table `F` of `run_nb` (`core/exec.rs:248-263`). -/
def nbExec : Nat → P Query
  | 0 => do
    let u ← hardened useStmt
    pure (.use u)
  | 1 => do
    let u ← hardened inspectStmt
    pure (.inspect u)
  | 2 => fail .unknownStatement
  | 3 => do
    let q ← hardened insertStmt
    pure (.rows q)
  | 4 => do
    let q ← hardened selectStmt
    pure (.rows q)
  | 5 => do
    let q ← hardened updateStmt
    pure (.rows q)
  | 6 => do
    let q ← hardened deleteStmt
    pure (.rows q)
  | 7 => fail .unknownStatement
  | 8 => do
    let q ← hardened selectAllStmt
    pure (.rows q)
  | _ => crash

/-- `run_nb` up to the execution (`core/exec.rs:239-276`). `stmt_c * !all | 8 * all`: one of the two is
zero. -/
def runNb (stmt : KwStmt) : P Query := do
  let all ← roundedEq (kw .all)
  let adjust := stmt == .select && all
  aheadIf adjust
  nbExec (if adjust then 8 else stmtCode stmt - stmtCode .use)

/-- `dispatch_to_executor` from the tokens to the statement (`core/exec.rs:43-62`). -/
def dispatch (isRoot : Bool) : P Query := do
  let stmt ← tryStatement
  if stmt.isBlocking then runBlocking isRoot stmt else runNb stmt

/-- What a connection does with a query after lexing: a statement to be executed, an error, or a panic. -/
def parse (isRoot : Bool) (e : Env) : Res QlErr Query := (dispatch isRoot).run e 0

end Verif.Ql
