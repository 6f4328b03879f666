import Verif.Lex.Raw
import Verif.Num.Model
import Verif.Data.Cell
import Verif.Base.Utf8
import Verif.Base.Forall2
/-!
Model of the lexer for parameterised queries (`ql/lex/mod.rs`), the only one that a server build
contains.
-/
namespace Verif.Lex

open Num (isDigit u64LfOpt i64Lf)

/-- `Lit` (`data/lit.rs:47-170`). The tag of a literal is the 64-bit one. -/
inductive Lit where
  | bool (b : Bool)
  | uint (v : UInt64)
  | sint (v : Int64)
  | float (v : F64)
  | bin (b : Bytes)
  | str (s : String)
  deriving DecidableEq, Repr

/-- `Token` (`ql/lex/raw.rs:119-128`). `IgnorableComma` exists in test builds only. -/
inductive Token where
  | sym (s : Symbol)
  | kw (k : Keyword)
  | ident (b : Bytes)
  | lit (l : Lit)
  deriving DecidableEq, Repr

/-- `QueryError::{LexInvalidInput, LexUnexpectedByte}`. -/
inductive LexError where
  | invalidInput | unexpectedByte
  deriving DecidableEq, Repr

/-- `u8::is_ascii_alphabetic`. -/
def isAlpha (b : UInt8) : Bool := (65 ≤ b && b ≤ 90) || (97 ≤ b && b ≤ 122)

/-- The bytes of an identifier (`ql/lex/mod.rs:85`). -/
def isIdent (b : UInt8) : Bool := isAlpha b || isDigit b || b == 95

/-- The bytes that `trim_ahead` skips (`ql/lex/mod.rs:126-130`). -/
def isBlank (b : UInt8) : Bool := b == 32 || b == 10 || b == 9

/-- `scan_ident_or_keyword` (`ql/lex/mod.rs:98-112`) on the scanned bytes. -/
def wordToken (s : Bytes) : Token :=
  match Keyword.get s with
  | some kw => .kw kw
  | none =>
    if eqIgnoreCase s (ascii "true") || eqIgnoreCase s (ascii "false") then
      .lit (.bool (eqIgnoreCase s (ascii "true")))
    else .ident s

/-- The token that stands for a null parameter (`Token![null]`, `ql/lex/mod.rs:422`). -/
def nullTok : Token := .kw (.misc .null)

/-- `try_next_variable_block` (`mem/scanner.rs:193-204`). -/
def block (n : Nat) (p : Bytes) : Option (Bytes × Bytes) :=
  if n ≤ p.length then some (p.take n, p.drop n) else none

/-- The float parameter (`ql/lex/mod.rs:448-465`): everything up to the first line feed must be
UTF-8 and is given to `f64::from_str`, which is the parameter `pf` here. -/
def floatParam (pf : String → Option F64) (p : Bytes) : Option (Token × Bytes) :=
  match p.dropWhile (· != 10) with
  | [] => none
  | _ :: rest =>
    match (decStr (p.takeWhile (· != 10))).bind pf with
    | some f => some (.lit (.float f), rest)
    | none => none

/-- The table `SCAN_PARAM` (`ql/lex/mod.rs:419-505`): the token and what is left of the parameter
buffer, or `LexInvalidInput`. -/
def scanParam (pf : String → Option F64) (code : Nat) (p : Bytes) : Option (Token × Bytes) :=
  match code with
  | 0 => some (nullTok, p)
  | 1 =>
    match p with
    | [] => none
    | nb :: rest => if nb > 1 then none else some (.lit (.bool (nb == 1)), rest)
  | 2 => (u64LfOpt p).map fun (n, rest) => (.lit (.uint (UInt64.ofNat n)), rest)
  | 3 => (i64Lf p).map fun (i, rest) => (.lit (.sint (Int64.ofInt i)), rest)
  | 4 => floatParam pf p
  | 5 => (u64LfOpt p).bind fun (n, rest) => (block n rest).map fun (b, rest) => (.lit (.bin b), rest)
  | 6 => (u64LfOpt p).bind fun (n, rest) => (block n rest).bind fun (b, rest) =>
      (decStr b).map fun s => (.lit (.str s), rest)
  | _ => none

/-- `SCAN_PARAM_EXPECT` (`ql/lex/mod.rs:418`). -/
def scanExpect : List Nat := [0, 1, 2, 2, 2, 2, 2, 0]

/-- The branch for a question mark (`ql/lex/mod.rs:374-406`). `final_target` is the code if enough
bytes are left and 7 otherwise; the `|` of two products of which one is zero. -/
def nextParam (pf : String → Option F64) (p : Bytes) : Option (Token × Bytes) :=
  match p with
  | [] => none
  | code :: rest =>
    let target := min code.toNat 7
    let p := if code.toNat = target then rest else code :: rest
    let enough := (scanExpect[target]?).getD 0 ≤ p.length
    scanParam pf (if enough then target else 7) p

deriving instance DecidableEq for Except

/-- `push_token` before the rest of the loop. -/
def push (t : Token) : Except LexError (List Token) → Except LexError (List Token)
  | .ok ts => .ok (t :: ts)
  | .error e => .error e

theorem dropWhile_le {p : UInt8 → Bool} : (l : Bytes) → (l.dropWhile p).length ≤ l.length
  | [] => by simp
  | b :: l => by
    rw [List.dropWhile_cons]
    have := dropWhile_le (p := p) l
    split <;> simp <;> omega

/-- `SecureLexer::_lex` (`ql/lex/mod.rs:366-415`): the rest of the text, the rest of the
parameters. -/
def lex (pf : String → Option F64) (text params : Bytes) : Except LexError (List Token) :=
  match text with
  | [] => .ok []
  | b :: rest =>
    if isAlpha b || b == 95 then
      push (wordToken (b :: rest.takeWhile isIdent)) (lex pf (rest.dropWhile isIdent) params)
    else if b == 63 && !params.isEmpty then
      match nextParam pf params with
      | some (t, params) => push t (lex pf rest params)
      | none => .error .invalidInput
    else if isBlank b then lex pf (rest.dropWhile isBlank) params
    else
      match Symbol.get b with
      | some s => push (.sym s) (lex pf rest params)
      | none => .error .unexpectedByte
termination_by text.length
decreasing_by
  all_goals simp
  all_goals have := dropWhile_le (p := isIdent) rest
  all_goals have := dropWhile_le (p := isBlank) rest
  all_goals omega

end Verif.Lex
