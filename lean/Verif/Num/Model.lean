import Verif.Base.Res
import Verif.Base.Bytes
import Verif.Lex.Raw
/-!
Model of the integer printer (`mem/numbuf.rs`) and of the integer scanners
(`mem/scanner.rs:227-398`).
-/
namespace Verif.Num

open Lex (ascii)

/-- `DEC_DIGITS_LUT` (`mem/numbuf.rs:62-67`). -/
def lut : Bytes := ascii (
  "0001020304050607080910111213141516171819" ++
  "2021222324252627282930313233343536373839" ++
  "4041424344454647484950515253545556575859" ++
  "6061626364656667686970717273747576777879" ++
  "8081828384858687888990919293949596979899")

/-- Two bytes copied from the table at offset `2 * d` (the `copy_nonoverlapping` calls,
`mem/numbuf.rs:92-93, 103, 112`). -/
def pair (d : Nat) : Bytes := (lut.drop (2 * d)).take 2

/-- The loop `while n >= 10_000` (`mem/numbuf.rs:86-94`). `acc` is the part of the buffer from
`curr_idx` on. -/
def fmtLoop (n : Nat) (acc : Bytes) : Nat × Bytes :=
  if 10000 ≤ n then
    let rem := n % 10000
    fmtLoop (n / 10000) (pair (rem / 100) ++ pair (rem % 100) ++ acc)
  else (n, acc)
termination_by n
decreasing_by omega

/-- `Int::init` for a non-negative number (`mem/numbuf.rs:73-122`). -/
def fmtNat (n : Nat) : Bytes :=
  let (n, acc) := fmtLoop n []
  let (n, acc) := if 100 ≤ n then (n / 100, pair (n % 100) ++ acc) else (n, acc)
  if n < 10 then (UInt8.ofNat n + 48) :: acc else pair n ++ acc

/-- `Int::init` for `u64` (`mem/numbuf.rs:126`). -/
def fmtU64 (v : UInt64) : Bytes := fmtNat v.toNat

/-- `Int::init` for `i64` (`mem/numbuf.rs:75-82, 114-117`): the magnitude by inverting and adding
one in 64 bits. -/
def fmtI64 (v : Int64) : Bytes :=
  if v < 0 then 45 :: fmtNat (~~~ v.toUInt64 + 1).toNat else fmtNat v.toUInt64.toNat

/-- `u8::is_ascii_digit`. -/
def isDigit (b : UInt8) : Bool := 48 ≤ b && b ≤ 57

/-- `try_next_ascii_u64_stop_at_lf` (`mem/scanner.rs:297-336`). The argument is what is left in the
buffer. Result: what is left then, `okay`, and the number. All these functions index an empty
buffer out of range (`rounded_cursor`, lines 167-169) if the *whole* buffer is empty; the callers
account for that. -/
def u64Loop : Bytes → Nat → Bytes × Bool × Nat
  | [], ret => ([], true, ret)
  | b :: rest, ret =>
    if b = 10 then (b :: rest, true, ret)
    else if 2 ^ 64 ≤ ret * 10 then (b :: rest, false, ret)
    else if 2 ^ 64 ≤ ret * 10 + (b &&& 0x0F).toNat then (b :: rest, false, ret * 10)
    else if isDigit b then u64Loop rest (ret * 10 + (b &&& 0x0F).toNat)
    else (rest, false, ret * 10 + (b &&& 0x0F).toNat)

/-- `ScannerDecodeResult` (`mem/scanner.rs:207-216`), with what is left after a value. -/
inductive Decoded where
  | value (n : Nat) (rest : Bytes)
  | needMore
  | error
  deriving DecidableEq, Repr

/-- `try_next_ascii_u64_lf_separated_with_result_or_restore_cursor`
(`mem/scanner.rs:231-268`). -/
def u64Lf (buf : Bytes) : Decoded :=
  match u64Loop buf 0 with
  | (rest, okay, ret) =>
    if okay then
      match rest with
      | 10 :: rest => .value ret rest
      | _ => .needMore
    else .error

/-- `try_next_ascii_u64_lf_separated_or_restore_cursor` (`mem/scanner.rs:269-296`): the same, with
both failures as `None`. -/
def u64LfOpt (buf : Bytes) : Option (Nat × Bytes) :=
  match u64Lf buf with
  | .value n rest => some (n, rest)
  | _ => none

/-- The loop of `try_next_ascii_i64_stop_at` (`mem/scanner.rs:369-396`). -/
def i64Loop (neg : Bool) : Bytes → Int → Bytes × Bool × Int
  | [], ret => ([], true, ret)
  | b :: rest, ret =>
    if b = 10 then (b :: rest, true, ret)
    else
      let ret10 := ret * 10
      if ret10 < -2 ^ 63 ∨ 2 ^ 63 ≤ ret10 then (rest, false, ret)
      else
        let ret' := if neg then ret10 - (b &&& 0x0F).toNat else ret10 + (b &&& 0x0F).toNat
        if ret' < -2 ^ 63 ∨ 2 ^ 63 ≤ ret' then (rest, false, ret10)
        else if isDigit b then i64Loop neg rest ret'
        else (rest, false, ret')

/-- The end of `try_next_ascii_i64_separated_by` (`mem/scanner.rs:343-351`): the separator must
follow and no check may have failed. -/
def i64Finish : Bytes × Bool × Int → Option (Int × Bytes)
  | (10 :: rest, true, ret) => some (ret, rest)
  | _ => none

/-- `try_next_ascii_i64_separated_by::<b'\n'>` (`mem/scanner.rs:343-398`): `some` number and the
bytes after the LF, or failure. The callers make sure that at least one byte is left (at the end of
the buffer the code would look at the previous byte again); the model fails on no bytes. -/
def i64Lf (buf : Bytes) : Option (Int × Bytes) :=
  match buf with
  | [] => none
  | c :: rest =>
    let neg : Bool := c = 45
    let buf := if neg then rest else c :: rest
    if neg || isDigit c then
      i64Finish (i64Loop neg buf 0)
    else none

end Verif.Num
