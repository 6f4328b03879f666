import Verif.Net.Reply
/-!
What the shell shows of an answer (`cli/src/resp.rs`). The answer is what the client library read from the reply (C26).
-/
namespace Verif.Cli
open Verif.Lex (ascii)
open Verif.Num (decimal decimalInt)
open Verif.Net.Reply (Answer)

/-- How a letter looks: as usual, or in one of the styles that are used here. The control sequences of the terminal are not
modelled. -/
inductive Ink where
  | plain | cyan | red | grey
  deriving DecidableEq, Repr

/-- What appears on the terminal: bytes of UTF-8 text and how they look. -/
abbrev Screen := List (Ink × UInt8)

/-- Text in one style. -/
def ink (i : Ink) (b : Bytes) : Screen := b.map fun x => (i, x)

/-- `pprint!` (`cli/src/resp.rs:32-41`): a line, in a style if `pretty`. -/
def pprint (pretty : Bool) (i : Ink) (text : Bytes) : Screen := ink (if pretty then i else .plain) text ++ [(.plain, 10)]

/-- The loop over the characters of a string (`cli/src/resp.rs:140-150`). The three characters are one byte in UTF-8 and
occur in no other character, so the loop is over the bytes. -/
def escape : Bytes → Bytes
  | [] => []
  | b :: s =>
    if b = 34 then 92 :: 34 :: escape s
    else if b = 9 then 92 :: 116 :: escape s
    else if b = 10 then 92 :: 110 :: escape s
    else b :: escape s

/-- `print_string` (`cli/src/resp.rs:132-154`). -/
def showString (special pretty : Bool) (s : Bytes) : Screen :=
  if !pretty then ink .plain s
  else if special then ink .grey s
  else ink .plain (34 :: escape s ++ [34])

/-- Items with a comma and a blank between them: the loops over `peekable` iterators. -/
def commas : List Screen → Screen
  | [] => []
  | [x] => x
  | x :: xs => x ++ ink .plain [44, 32] ++ commas xs

/-- `print_binary` (`cli/src/resp.rs:120-130`). -/
def showBinary (b : Bytes) : Screen :=
  ink .plain [91] ++ commas (b.map fun x => ink .plain (decimal x.toNat)) ++ ink .plain [93]

mutual
/-- `print_value` (`cli/src/resp.rs:90-118`); `F` is how floating-point numbers are written (`Display` of `f32` and `f64`). -/
def showCell (F : Tag → F64 → Bytes) (special pretty : Bool) : Cell → Screen
  | .null => pprint pretty .grey (ascii "null")
  | .str s => showString special pretty (encStr s)
  | .bin b => showBinary b
  | .bool b => ink .plain (if b then ascii "true" else ascii "false")
  | .uint _ v => ink .plain (decimal v.toNat)
  | .sint _ v => ink .plain (decimalInt v.toInt)
  | .float t v => ink .plain (F t v)
  | .list l => ink .plain [91] ++ commas (showCells F special pretty l) ++ ink .plain [93]

/-- Each of them. -/
def showCells (F : Tag → F64 → Bytes) (special pretty : Bool) : List Cell → List Screen
  | [] => []
  | c :: cs => showCell F special pretty c :: showCells F special pretty cs
end

/-- `print_row` (`cli/src/resp.rs:78-88`). -/
def showRow (F : Tag → F64 → Bytes) (pretty : Bool) (cs : List Cell) : Screen :=
  ink .plain [40] ++ commas (showCells F false pretty cs) ++ ink .plain [41]

/-- The loop over rows (`cli/src/resp.rs:62-71`); `i` is the number of the first one. -/
def showRows (F : Tag → F64 → Bytes) (pretty : Bool) : Nat → List (List Cell) → Screen
  | _, [] => []
  | i, r :: rs =>
    ink (if pretty then .grey else .plain) (40 :: decimal i ++ [41]) ++ showRow F pretty r ++ ink .plain [10] ++
      showRows F pretty (i + 1) rs

/-- `format_response` (`cli/src/resp.rs:43-76`). An error is red in both modes. -/
def format (F : Tag → F64 → Bytes) (special pretty : Bool) : Answer → Screen
  | .empty => pprint pretty .cyan (ascii "(Okay)")
  | .error c => ink .red (ascii "(server error code: " ++ decimal c ++ ascii ")") ++ ink .plain [10]
  | .null => showCell F special pretty .null ++ ink .plain [10]
  | .bool b => showCell F special pretty (.bool b) ++ ink .plain [10]
  | .string s => showCell F special pretty (.str s) ++ ink .plain [10]
  | .row cs => showRow F pretty cs ++ ink .plain [10]
  | .rows _ [] => pprint pretty .grey (ascii "[0 rows returned]")
  | .rows _ rs => showRows F pretty 1 rs

end Verif.Cli
