import Verif.Lex.Lexer
import Verif.Dml.Model
import Verif.Base.Res
/-!
Model of the state of the query parser (`ql/ast/mod.rs`). A parser is a function from the tokens, the
current space and the state to a value and a new state, to an error reply, or to `panic`. `panic` stands
for an index out of bounds, for arithmetic below zero, and for every use of `impossible!()`, of an
uninitialised value or of `unwrap_unchecked` on nothing, i.e. for undefined behaviour as well.
-/
namespace Verif.Ql
open Verif.Lex (Token Symbol Keyword KwStmt KwMisc Lit ascii eqIgnoreCase)

/-- The errors of the parser and of the dispatch (`error.rs`, `QueryError::{QLExpectedStatement,
QLUnexpectedEndOfStatement, QLInvalidSyntax, QLInvalidCollectionSyntax, QLInvalidTypeDefinitionSyntax,
QLUnknownStatement, QLExpectedEntity, SysPermissionDenied}`). -/
inductive QlErr where
  | expectedStatement | unexpectedEnd | invalidSyntax | invalidCollection | invalidTypeDef
  | unknownStatement | expectedEntity | permDenied
  deriving DecidableEq, Repr

/-- What does not change during a parse: the tokens, the current space (`State::cs`), and what the three
functions of `INSERT` answer at a token position (`ql/dml/ins.rs:52-80`). The clock and the random
generator give any answer. -/
structure Env where
  toks : List Token
  cs : Option String := none
  uuidStr : Nat → String := fun _ => ""
  uuidBin : Nat → Bytes := fun _ => []
  time : Nat → UInt64 := fun _ => 0

/-- `State` (`ql/ast/mod.rs:48-54`): the cursor and the flag. `d` carries nothing (`InplaceData`). -/
structure St where
  i : Nat
  f : Bool
  deriving DecidableEq, Repr

/-- A parser. -/
def P (α : Type) : Type := Env → St → Res QlErr (α × St)

namespace P
variable {α β : Type}

def ret (a : α) : P α := fun _ s => .ok (a, s)

def seq (p : P α) (k : α → P β) : P β := fun e s =>
  match p e s with
  | .ok (a, s) => k a e s
  | .err x => .err x
  | .panic => .panic
  | .hang => .hang

instance : Monad P where
  pure := ret
  bind := seq

end P

variable {α : Type}

/-- `return Err(..)`. -/
def fail (x : QlErr) : P α := fun _ _ => .err x

/-- A panic or undefined behaviour. -/
def crash : P α := fun _ _ => .panic

/-- A loop of the model ran out of fuel; it never does. -/
def stuck : P α := fun _ _ => .hang

/-- The text of an identifier (`Ident::as_str`). The lexer makes identifiers of ASCII letters, digits and
underscores only; each byte is one character. -/
def nm (b : Bytes) : String := String.ofList (b.map fun x => Char.ofNat x.toNat)

/-! ### Tokens -/

/-- `Token::is_ident` (`ql/lex/raw.rs:175-177`). -/
def isId : Token → Bool
  | .ident _ => true
  | _ => false

/-- `Token::is_lit` (`ql/lex/raw.rs:179-181`); `InplaceData::can_read_lit_from` (`ql/ast/mod.rs:366-368`). -/
def isLit : Token → Bool
  | .lit _ => true
  | _ => false

/-- `Token::ident_eq` (`ql/lex/raw.rs:138-140`). -/
def identEq (t : Token) (s : String) : Bool :=
  match t with
  | .ident b => eqIgnoreCase b (ascii s)
  | _ => false

/-- A keyword that is not a statement. -/
abbrev kw (m : KwMisc) : Token := .kw (.misc m)
abbrev tOB : Token := .sym .ttOpenBrace
abbrev tCB : Token := .sym .ttCloseBrace
abbrev tOP : Token := .sym .ttOpenParen
abbrev tCP : Token := .sym .ttCloseParen
abbrev tOS : Token := .sym .ttOpenSqBracket
abbrev tCS : Token := .sym .ttCloseSqBracket
abbrev tColon : Token := .sym .symColon
abbrev tComma : Token := .sym .symComma
abbrev tDot : Token := .sym .symPeriod
abbrev tAt : Token := .sym .symAt
abbrev tEq : Token := .sym .opAssign
abbrev tStar : Token := .sym .opArithmeticMul
abbrev tExists : Token := .kw (.statement .exists)

/-- `uck_read_ident` (`ql/lex/raw.rs:132-134`): `impossible!()` for another token. -/
def uckIdent : Token → P Bytes
  | .ident b => pure b
  | _ => crash

/-- `uck_read_lit` (`ql/lex/raw.rs:135-137`). -/
def uckLit : Token → P Lit
  | .lit l => pure l
  | _ => crash

/-- `MaybeInit::assume_init` and `take` (`util/mod.rs:262-290`), `unwrap_unchecked`. -/
def assumeInit : Option α → P α
  | some a => pure a
  | none => crash

/-! ### The cursor and the flag (`ql/ast/mod.rs:135-335`) -/

/-- `okay` (lines 149-151). -/
def okay : P Bool := fun _ s => .ok (s.f, s)

/-- `poison_if` (lines 159-161). -/
def poisonIf (b : Bool) : P Unit := fun _ s => .ok ((), { s with f := s.f && !b })

/-- `poison_if_not` (lines 164-166). -/
def poisonIfNot (b : Bool) : P Unit := poisonIf !b

/-- `poison` (lines 154-156). -/
def poison : P Unit := fun _ s => .ok ((), { s with f := false })

/-- `cursor_ahead_by` (lines 174-176). -/
def aheadBy (n : Nat) : P Unit := fun _ s => .ok ((), { s with i := s.i + n })

/-- `cursor_ahead` (lines 169-171). -/
def ahead : P Unit := aheadBy 1

/-- `cursor_ahead_if` (lines 179-181). -/
def aheadIf (b : Bool) : P Unit := aheadBy b.toNat

/-- `cursor_back_by` (lines 269-271). -/
def backBy (n : Nat) : P Unit := fun _ s => if n ≤ s.i then .ok ((), { s with i := s.i - n }) else .panic

/-- The token at the cursor plus `k`, with a bounds check. -/
def readAt (k : Nat) : P Token := fun e s =>
  match e.toks[s.i + k]? with
  | some t => .ok (t, s)
  | none => .panic

/-- `read` (lines 184-186). -/
def read : P Token := readAt 0

/-- `fw_read` (lines 203-207). -/
def fwRead : P Token := do
  let t ← read
  ahead
  pure t

/-- `offset_current_r` (lines 193-195) with `round_cursor_up` (lines 312-314): never past the last token. -/
def offR (k : Nat) : P Token := fun e s =>
  match e.toks[min (e.toks.length - 1) (s.i + k)]? with
  | some t => .ok (t, s)
  | none => .panic

/-- `remaining` (lines 198-200). A cursor past the end would make the subtraction wrap. -/
def remaining : P Nat := fun e s => if s.i ≤ e.toks.length then .ok (e.toks.length - s.i, s) else .panic

/-- `exhausted` (lines 215-217). -/
def exhausted : P Bool := do
  let n ← remaining
  pure (n == 0)

/-- `not_exhausted` (lines 220-222). -/
def notExhausted : P Bool := do
  let n ← remaining
  pure (n != 0)

/-- `loop_tt` (lines 298-300). -/
def loopTt : P Bool := do
  let a ← notExhausted
  let b ← okay
  pure (a && b)

/-- `cursor_eq` (lines 259-261). -/
def cursorEq (t : Token) : P Bool := do
  let x ← read
  pure (x == t)

/-- The cursor is on a token (`mx == self.i` in the rounded comparisons). -/
def unrounded : P Bool := fun e s => .ok (min (e.toks.length - 1) s.i == s.i, s)

/-- `cursor_rounded_eq` (lines 253-256). -/
def roundedEq (t : Token) : P Bool := do
  let x ← offR 0
  let b ← unrounded
  pure (x == t && b)

/-- `can_read_lit_rounded` (lines 225-228). -/
def canReadLit : P Bool := do
  let x ← offR 0
  let b ← unrounded
  pure (isLit x && b)

/-- `cursor_has_ident_rounded` (lines 273-275). -/
def hasIdentRounded : P Bool := do
  let x ← offR 0
  let b ← notExhausted
  pure (isId x && b)

/-- `cursor_is_ident` (lines 308-310). -/
def cursorIsIdent : P Bool := do
  let x ← read
  pure (isId x)

/-- `cursor_signature_match_fn_arity0_rounded` (lines 280-285). -/
def fnSig : P Bool := do
  let a ← offR 0
  let b ← offR 1
  let c ← offR 2
  let n ← remaining
  pure (isId a && b == tOP && c == tCP && 3 ≤ n)

/-! ### Names of models (`ql/ast/mod.rs:62-133`) -/

/-- `_entity_new_from_tokens` (lines 69-74). -/
def entityFromTokens : P (String × String) := do
  let t ← fwRead
  let space ← uckIdent t
  ahead
  let t ← fwRead
  let entity ← uckIdent t
  pure (nm space, nm entity)

/-- The current space. -/
def getCs : P (Option String) := fun e s => .ok (e.cs, s)

/-- `_entity_new_from_cs` (lines 75-78). -/
def entityFromCs : P (String × String) := do
  let t ← fwRead
  let entity ← uckIdent t
  let cs ← getCs
  let space ← assumeInit cs
  pure (space, nm entity)

/-- Is there a current space? -/
def hasCs : P Bool := fun e s => .ok (e.cs.isSome, s)

/-- `try_entity_buffered_into_state_uninit` (lines 89-106). The three tokens are read without a check. -/
def entityBuffered : P (Option (String × String)) := do
  let a ← readAt 0
  let b ← readAt 1
  let c ← readAt 2
  let cs ← hasCs
  if isId a && b == tDot && isId c then
    let r ← entityFromTokens
    pure (some r)
  else if isId a && cs then
    let r ← entityFromCs
    pure (some r)
  else
    poison
    pure none

/-- `try_entity_ref_result` (lines 107-132). -/
def entityRef : P (String × String) := do
  let a ← offR 0
  let b ← offR 1
  let c ← offR 2
  let cs ← hasCs
  if isId a && b == tDot && isId c then entityFromTokens
  else if isId a && cs then entityFromCs
  else fail .expectedEntity

/-- Run a parser from a cursor. -/
def P.run (p : P α) (e : Env) (i : Nat) : Res QlErr α :=
  match p e ⟨i, true⟩ with
  | .ok (a, _) => .ok a
  | .err x => .err x
  | .panic => .panic
  | .hang => .hang

end Verif.Ql
