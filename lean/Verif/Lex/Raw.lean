import Verif.Base.Bytes
/-!
Model of the symbol and keyword tables (`ql/lex/raw.rs`).
-/
namespace Verif.Lex

/-- The bytes of an ASCII string literal. -/
def ascii (s : String) : Bytes := s.toList.map fun c => c.toNat.toUInt8

/-- `Symbol` (`raw.rs:195-235`), in the order of the table. -/
inductive Symbol where
  | opArithmeticAdd | opArithmeticSub | opArithmeticMul | opArithmeticDiv
  | opLogicalNot | opLogicalAnd | opLogicalXor | opLogicalOr
  | opAssign | ttOpenParen | ttCloseParen | ttOpenSqBracket
  | ttCloseSqBracket | ttOpenBrace | ttCloseBrace | opComparatorLt
  | opComparatorGt | quoteS | quoteD | symAt
  | symHash | symDollar | symPercent | symUnderscore
  | symBackslash | symColon | symSemicolon | symComma
  | symPeriod | symQuestion | symTilde | symAccent
  deriving DecidableEq, Repr

/-- `SYM_LUT` (`raw.rs:195-235`): the table built by `build_lut!`. -/
def symLut : List (UInt8 × Symbol) := [
  ('+'.toNat.toUInt8, .opArithmeticAdd), ('-'.toNat.toUInt8, .opArithmeticSub),
  ('*'.toNat.toUInt8, .opArithmeticMul), ('/'.toNat.toUInt8, .opArithmeticDiv),
  ('!'.toNat.toUInt8, .opLogicalNot), ('&'.toNat.toUInt8, .opLogicalAnd),
  ('^'.toNat.toUInt8, .opLogicalXor), ('|'.toNat.toUInt8, .opLogicalOr),
  ('='.toNat.toUInt8, .opAssign), ('('.toNat.toUInt8, .ttOpenParen),
  (')'.toNat.toUInt8, .ttCloseParen), ('['.toNat.toUInt8, .ttOpenSqBracket),
  (']'.toNat.toUInt8, .ttCloseSqBracket), ('{'.toNat.toUInt8, .ttOpenBrace),
  ('}'.toNat.toUInt8, .ttCloseBrace), ('<'.toNat.toUInt8, .opComparatorLt),
  ('>'.toNat.toUInt8, .opComparatorGt), ('\''.toNat.toUInt8, .quoteS),
  ('"'.toNat.toUInt8, .quoteD), ('@'.toNat.toUInt8, .symAt),
  ('#'.toNat.toUInt8, .symHash), ('$'.toNat.toUInt8, .symDollar),
  ('%'.toNat.toUInt8, .symPercent), ('_'.toNat.toUInt8, .symUnderscore),
  ('\\'.toNat.toUInt8, .symBackslash), (':'.toNat.toUInt8, .symColon),
  (';'.toNat.toUInt8, .symSemicolon), (','.toNat.toUInt8, .symComma),
  ('.'.toNat.toUInt8, .symPeriod), ('?'.toNat.toUInt8, .symQuestion),
  ('~'.toNat.toUInt8, .symTilde), ('`'.toNat.toUInt8, .symAccent)]

/-- The array `G` of `Symbol::get` (`raw.rs:241-245`). -/
def symG : List Nat := [
  0, 0, 25, 0, 3, 0, 21, 0, 6, 13, 0, 0, 0, 0, 8, 0, 0, 0, 17, 0, 0, 30, 0, 28, 0, 20,
  19, 12, 0, 0, 2, 0, 0, 15, 0, 0, 0, 5, 0, 31, 14, 0, 1, 0, 18, 29, 24, 0, 0, 10, 0, 0,
  26, 0, 0, 0, 22, 0, 23, 7, 0, 27, 0, 4, 16, 11, 0, 0, 9]

/-- `Symbol::get` (`raw.rs:237-255`). The products are below `2^16` and the sums below `2^8`, so the
fixed-width arithmetic does not wrap; indices into `G` are below its length (69). -/
def Symbol.get (k : UInt8) : Option Symbol :=
  let symfh := fun (magic k : Nat) => (magic * k) % 69
  let hf := (symG[symfh k.toNat 119]?.getD 0 + symG[symfh k.toNat 69]?.getD 0) % 69
  match symLut[hf]? with
  | some (b, s) => if b = k then some s else none
  | none => none

/-- `KeywordStmt` (`raw.rs:330-352`). -/
inductive KwStmt where
  | sysctl | create | alter | drop | use | inspect | describe | insert | select | update | delete
  | exists
  deriving DecidableEq, Repr

/-- `KeywordMisc` (`raw.rs:356-420`). -/
inductive KwMisc where
  | table | model | space | index | type | function
  | rename | add | remove | transform | set | return
  | order | sort | group | limit | asc | desc | all
  | by | with | on | from | into | as | to | in | of
  | and | or | not
  | if | else | where | when | allow
  | auto | default | null
  | transaction | batch | lock | read | write | begin | end
  | key | value | primary | truncate
  deriving DecidableEq, Repr

/-- `Keyword` (`raw.rs:326-423`). -/
inductive Keyword where
  | statement (s : KwStmt)
  | misc (m : KwMisc)
  deriving DecidableEq, Repr

/-- `KeywordStmt::is_blocking` (`raw.rs:464-468`): discriminant at most that of `Drop`. -/
def KwStmt.isBlocking : KwStmt → Bool
  | .sysctl | .create | .alter | .drop => true
  | _ => false

/-- The array `KW` (`raw.rs:320-322`, built from the list at 326-423): the names in declaration
order, first letter lowered (`as_str`, lines 289-299). -/
def kwLut : List (Bytes × Keyword) := [
  (ascii "sysctl", .statement .sysctl), (ascii "create", .statement .create),
  (ascii "alter", .statement .alter), (ascii "drop", .statement .drop),
  (ascii "use", .statement .use), (ascii "inspect", .statement .inspect),
  (ascii "describe", .statement .describe), (ascii "insert", .statement .insert),
  (ascii "select", .statement .select), (ascii "update", .statement .update),
  (ascii "delete", .statement .delete), (ascii "exists", .statement .exists),
  (ascii "table", .misc .table), (ascii "model", .misc .model), (ascii "space", .misc .space),
  (ascii "index", .misc .index), (ascii "type", .misc .type), (ascii "function", .misc .function),
  (ascii "rename", .misc .rename), (ascii "add", .misc .add), (ascii "remove", .misc .remove),
  (ascii "transform", .misc .transform), (ascii "set", .misc .set), (ascii "return", .misc .return),
  (ascii "order", .misc .order), (ascii "sort", .misc .sort), (ascii "group", .misc .group),
  (ascii "limit", .misc .limit), (ascii "asc", .misc .asc), (ascii "desc", .misc .desc),
  (ascii "all", .misc .all),
  (ascii "by", .misc .by), (ascii "with", .misc .with), (ascii "on", .misc .on),
  (ascii "from", .misc .from), (ascii "into", .misc .into), (ascii "as", .misc .as),
  (ascii "to", .misc .to), (ascii "in", .misc .in), (ascii "of", .misc .of),
  (ascii "and", .misc .and), (ascii "or", .misc .or), (ascii "not", .misc .not),
  (ascii "if", .misc .if), (ascii "else", .misc .else), (ascii "where", .misc .where),
  (ascii "when", .misc .when), (ascii "allow", .misc .allow),
  (ascii "auto", .misc .auto), (ascii "default", .misc .default), (ascii "null", .misc .null),
  (ascii "transaction", .misc .transaction), (ascii "batch", .misc .batch),
  (ascii "lock", .misc .lock), (ascii "read", .misc .read), (ascii "write", .misc .write),
  (ascii "begin", .misc .begin), (ascii "end", .misc .end),
  (ascii "key", .misc .key), (ascii "value", .misc .value), (ascii "primary", .misc .primary),
  (ascii "truncate", .misc .truncate)]

/-- The array `G` of `Keyword::compute` (`raw.rs:435-439`). -/
def kwG : List Nat := [
  0, 0, 9, 64, 16, 43, 7, 49, 24, 8, 41, 37, 19, 66, 18, 0, 17, 0, 12, 63, 34, 56, 3, 24,
  55, 14, 0, 67, 7, 0, 39, 60, 56, 0, 51, 23, 31, 19, 30, 12, 10, 58, 20, 39, 32, 0, 6,
  30, 26, 58, 52, 62, 39, 27, 24, 9, 4, 21, 24, 68, 10, 38, 40, 21, 62, 27, 53, 27, 44]

/-- `M1` and `M2` (`raw.rs:440-441`). -/
def kwM1 : Bytes := ascii "D8N5FwqrxdA"
def kwM2 : Bytes := ascii "FsIPJv9hsXx"

/-- `Keyword::_sum` (`raw.rs:451-461`), from index `i` on. -/
def kwSum (block : Bytes) : Nat → Bytes → Nat
  | _, [] => 0
  | i, b :: k => (block[i % 11]?.getD 0).toNat * (b ||| 0x20).toNat + kwSum block (i + 1) k

/-- `u8::to_ascii_lowercase`. -/
def lower (b : UInt8) : UInt8 := if 65 ≤ b ∧ b ≤ 90 then b ||| 0x20 else b

/-- `<[u8]>::eq_ignore_ascii_case`. -/
def eqIgnoreCase (a b : Bytes) : Bool := a.map lower = b.map lower

/-- `Keyword::compute` (`raw.rs:434-450`). The sum of two entries of `G` is below 256. -/
def Keyword.compute (key : Bytes) : Option Keyword :=
  let h1 := kwSum kwM1 0 key % 69
  let h2 := kwSum kwM2 0 key % 69
  let h := (kwG[h1]?.getD 0 + kwG[h2]?.getD 0) % 69
  match kwLut[h]? with
  | some (n, kw) => if eqIgnoreCase n key then some kw else none
  | none => none

/-- `Keyword::get` (`raw.rs:427-433`); `SIZE_MIN = 2`, `SIZE_MAX = 11` (lines 307-316). -/
def Keyword.get (k : Bytes) : Option Keyword :=
  if 11 < k.length ∨ k.length < 2 then none else Keyword.compute k

end Verif.Lex
