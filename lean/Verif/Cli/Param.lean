import Verif.Lex.Lexer
/-!
Model of the query reader of the shell `skysh` (`cli/src/query.rs`): it replaces the literals that
the user types by question marks and sends them as parameters. A buffer and an index into it are
represented by the bytes from the index on. Paths are relative to `/repo`.
-/
namespace Verif.Cli

open Lex (Lit Token isAlpha isIdent eqIgnoreCase ascii)
open Num (isDigit)

/-- `Item` (`cli/src/query.rs:85-91`). -/
inductive Item where
  | uint (v : UInt64)
  | sint (v : Int64)
  | float (v : F64)
  | str (s : String)
  | bin (b : Bytes)
  deriving DecidableEq, Repr

/-- The value that an item sends (`SQParam for Item`, `cli/src/query.rs:88-98`). The encoding is
that of the client library, which is not part of this repository. -/
def Item.token : Item → Token
  | .uint v => .lit (.uint v)
  | .sint v => .lit (.sint v)
  | .float v => .lit (.float v)
  | .str s => .lit (.str s)
  | .bin b => .lit (.bin b)

/-- The messages of `CliError::QueryError` in `cli/src/query.rs`. -/
inductive Err where
  | notTerminated | unknownEscape | badText | badFloat | badSigned | badInt | badUnsigned
  | binNotTerminated | queryNotText
  deriving DecidableEq, Repr

/-- `u8::is_ascii_punctuation`. -/
def isPunct (b : UInt8) : Bool :=
  (33 ≤ b && b ≤ 47) || (58 ≤ b && b ≤ 64) || (91 ≤ b && b ≤ 96) || (123 ≤ b && b ≤ 126)

/-- The loop of `read_string` (`cli/src/query.rs:180-206`): the bytes of the string so far. After
an escape sequence the loop body goes on, with `b` still the backslash: it is no quote, and so it is
pushed as well. -/
def readString (quote : UInt8) : Bytes → Bytes → Except Err (Bytes × Bytes)
  | [], _ => .error .notTerminated
  | b :: rest, acc =>
    if b == 92 then
      match rest with
      | [] => .error .notTerminated
      | e :: rest =>
        if e == 92 then readString quote rest (acc ++ [92] ++ [b])
        else if e == quote then readString quote rest (acc ++ [quote] ++ [b])
        else .error .unknownEscape
    else if b == quote then .ok (acc, rest)
    else readString quote rest (acc ++ [b])

/-- `read_until_number_escape` (`cli/src/query.rs:303-311`): what it goes over and the rest. -/
def untilEscape (buf : Bytes) : Bytes × Bytes :=
  (buf.takeWhile fun b => !(b == 10 || b == 9 || isPunct b),
   buf.dropWhile fun b => !(b == 10 || b == 9 || isPunct b))

/-- `read_float` (`cli/src/query.rs:239-251`). `seen` is what lies between `start` and the index. -/
def readFloat (pf : String → Option F64) (seen buf : Bytes) : Except Err (Item × Bytes) :=
  match (decStr (seen ++ (untilEscape buf).1)).bind pf with
  | some f => .ok (.float f, (untilEscape buf).2)
  | none => .error .badFloat

/-- `i64::from_str` of the standard library. -/
def parseI64 (b : Bytes) : Option Int64 :=
  let digits := match b with
    | 45 :: ds => ds
    | 43 :: ds => ds
    | ds => ds
  let neg := b.head? == some 45
  if digits.isEmpty || !digits.all isDigit then none
  else
    let n : Int := digits.foldl (fun a d => a * 10 + (d.toNat - 48)) (0 : Nat)
    let v := if neg then -n else n
    if -2 ^ 63 ≤ v ∧ v < 2 ^ 63 then some (Int64.ofInt v) else none

/-- `read_signed_integer` (`cli/src/query.rs:252-267`), called with the index at the minus sign. -/
def readSigned (buf : Bytes) : Except Err (Item × Bytes) :=
  match (decStr (untilEscape buf).1).bind fun s => parseI64 (encStr s) with
  | some v => .ok (.sint v, (untilEscape buf).2)
  | none => .error .badSigned

/-- `read_unsigned_integer` (`cli/src/query.rs:268-302`). `seen` is what lies between `start` and
the index, `ret` the number so far. -/
def readUnsigned (pf : String → Option F64) (seen : Bytes) (ret : Nat) : Bytes → Except Err (Item × Bytes)
  | [] => .ok (.uint (UInt64.ofNat ret), [])
  | b :: rest =>
    if isDigit b then
      if ret * 10 + (b &&& 15).toNat < 2 ^ 64 then
        readUnsigned pf (seen ++ [b]) (ret * 10 + (b &&& 15).toNat) rest
      else .error .badInt
    else if b == 46 then readFloat pf (seen ++ [46]) rest
    else if b == 32 || b == 9 || isPunct b then .ok (.uint (UInt64.ofNat ret), b :: rest)
    else .error .badUnsigned

/-- `read_binary` (`cli/src/query.rs:312-325`): the index has moved past the closing accent when the
slice is taken. -/
def readBinary (seen : Bytes) : Bytes → Except Err (Item × Bytes)
  | [] => .error .binNotTerminated
  | b :: rest => if b == 96 then .ok (.bin (seen ++ [b]), rest) else readBinary (seen ++ [b]) rest

/-- The end of `read_string` (`cli/src/query.rs:207-216`). -/
def readText (quote : UInt8) (buf : Bytes) : Except Err (Item × Bytes) :=
  match readString quote buf [] with
  | .ok (s, rest) =>
    match decStr s with
    | some s => .ok (.str s, rest)
    | none => .error .badText
  | .error e => .error e

/-! The readers move forward. -/

theorem readString_lt {quote : UInt8} : (buf acc : Bytes) → {s rest : Bytes} →
    readString quote buf acc = .ok (s, rest) → rest.length < buf.length
  | [], _, _, _, h => by cases h
  | [b], acc, s, rest, h => by
    unfold readString at h
    split at h
    · cases h
    · split at h
      · cases h; simp
      · unfold readString at h; cases h
  | b :: e :: buf, acc, s, rest, h => by
    unfold readString at h
    split at h
    · simp only at h
      split at h
      · have := readString_lt buf _ h; simp; omega
      · split at h
        · have := readString_lt buf _ h; simp; omega
        · cases h
    · split at h
      · cases h; simp
      · have := readString_lt (e :: buf) _ h; simp at this ⊢; omega

theorem readText_lt {quote : UInt8} {buf : Bytes} {i : Item} {rest : Bytes}
    (h : readText quote buf = .ok (i, rest)) : rest.length < buf.length := by
  unfold readText at h
  split at h
  · rename_i hs
    split at h
    · cases h; exact readString_lt _ _ hs
    · cases h
  · cases h

theorem readFloat_le {pf : String → Option F64} {seen buf : Bytes} {i : Item} {rest : Bytes}
    (h : readFloat pf seen buf = .ok (i, rest)) : rest.length ≤ buf.length := by
  unfold readFloat at h
  split at h
  · cases h; exact Lex.dropWhile_le _
  · cases h

theorem readSigned_le {buf : Bytes} {i : Item} {rest : Bytes}
    (h : readSigned buf = .ok (i, rest)) : rest.length ≤ buf.length := by
  unfold readSigned at h
  split at h
  · cases h; exact Lex.dropWhile_le _
  · cases h

theorem readUnsigned_le {pf : String → Option F64} : (buf seen : Bytes) → (ret : Nat) → {i : Item} →
    {rest : Bytes} → readUnsigned pf seen ret buf = .ok (i, rest) → rest.length ≤ buf.length
  | [], _, _, _, _, h => by unfold readUnsigned at h; cases h; simp
  | b :: buf, seen, ret, i, rest, h => by
    unfold readUnsigned at h
    split at h
    · split at h
      · have := readUnsigned_le buf _ _ h; simp; omega
      · cases h
    · split at h
      · have := readFloat_le h; simp; omega
      · split at h
        · cases h; simp
        · cases h

theorem readBinary_lt : (buf seen : Bytes) → {i : Item} → {rest : Bytes} →
    readBinary seen buf = .ok (i, rest) → rest.length < buf.length
  | [], _, _, _, h => by cases h
  | b :: buf, seen, i, rest, h => by
    unfold readBinary at h
    split at h
    · cases h; simp
    · have := readBinary_lt buf _ h; simp; omega

/-- A literal is replaced by a question mark. -/
def literal : Except Err (Item × Bytes) → Except Err (Bytes × List Item × Bytes)
  | .ok (i, rest) => .ok ([63], [i], rest)
  | .error e => .error e

/-- One turn of the loop of `parameterize` (`cli/src/query.rs:123-145`): what is pushed to the
query, what is pushed to the parameters, and the rest. -/
def turn (pf : String → Option F64) (b : UInt8) (rest : Bytes) : Except Err (Bytes × List Item × Bytes) :=
  if isAlpha b || b == 95 then .ok (b :: rest.takeWhile isIdent, [], rest.dropWhile isIdent)
  else if isDigit b then literal (readUnsigned pf [] 0 (b :: rest))
  else if b == 45 then literal (readSigned (b :: rest))
  else if b == 34 || b == 39 then literal (readText b rest)
  else if b == 96 then literal (readBinary [] rest)
  else .ok ([b], [], rest)

/-- Before the rest of the loop. -/
def put (q : Bytes) (is : List Item) : Except Err (Bytes × List Item) → Except Err (Bytes × List Item)
  | .ok (q', is') => .ok (q ++ q', is ++ is')
  | .error e => .error e

/-- The loop of `parameterize`. A turn always moves forward: `scan_cons` shows that the `else` branch
is never taken. -/
def scan (pf : String → Option F64) (text : Bytes) : Except Err (Bytes × List Item) :=
  match text with
  | [] => .ok ([], [])
  | b :: rest =>
    match turn pf b rest with
    | .ok (q, is, rest') => if rest'.length < (b :: rest).length then put q is (scan pf rest') else .ok ([], [])
    | .error e => .error e
termination_by text.length

/-- What a minus sign begins is read as an empty number. -/
theorem readSigned_minus (rest : Bytes) : readSigned (45 :: rest) = .error .badSigned := by
  have h : untilEscape (45 :: rest) = ([], 45 :: rest) := by
    unfold untilEscape
    rw [List.takeWhile_cons, List.dropWhile_cons]
    simp [isPunct]
  unfold readSigned
  rw [h]
  rfl

theorem literal_ok {x : Except Err (Item × Bytes)} {q rest : Bytes} {is : List Item}
    (h : literal x = .ok (q, is, rest)) : ∃ i, x = .ok (i, rest) := by
  unfold literal at h
  split at h
  · cases h; exact ⟨_, rfl⟩
  · cases h

theorem turn_lt {pf : String → Option F64} {b : UInt8} {rest q rest' : Bytes} {is : List Item}
    (h : turn pf b rest = .ok (q, is, rest')) : rest'.length < (b :: rest).length := by
  have hd := Lex.dropWhile_le (p := isIdent) rest
  unfold turn at h
  split at h
  · cases h; simp; omega
  · split at h
    · rename_i hdig
      obtain ⟨i, hu⟩ := literal_ok h
      unfold readUnsigned at hu
      rw [if_pos hdig] at hu
      split at hu
      · have := readUnsigned_le _ _ _ hu; simp; omega
      · cases hu
    · split at h
      · rename_i hm
        have hm : b = 45 := by simpa using hm
        subst hm
        rw [readSigned_minus] at h
        cases h
      · split at h
        · obtain ⟨i, hu⟩ := literal_ok h
          have := readText_lt hu; simp; omega
        · split at h
          · obtain ⟨i, hu⟩ := literal_ok h
            have := readBinary_lt _ _ hu; simp; omega
          · cases h; simp

theorem scan_cons (pf : String → Option F64) (b : UInt8) (rest : Bytes) :
    scan pf (b :: rest) = match turn pf b rest with
      | .ok (q, is, rest') => put q is (scan pf rest')
      | .error e => .error e := by
  rw [scan]
  split
  · rename_i h; rw [if_pos (turn_lt h)]
  · rfl

/-- `ExecKind` (`cli/src/query.rs:113-118`). -/
inductive Kind where
  | standard | useNull | special
  | useSpace (name : Bytes)
  deriving DecidableEq, Repr

/-- `u8::is_ascii_whitespace`. -/
def isSpace (b : UInt8) : Bool := b == 32 || b == 9 || b == 10 || b == 12 || b == 13

/-- The first piece of `str::split_ascii_whitespace` and what follows it. -/
def firstPiece (b : Bytes) : Option (Bytes × Bytes) :=
  match b.dropWhile isSpace with
  | [] => none
  | c :: rest => some ((c :: rest).takeWhile fun b => !isSpace b, (c :: rest).dropWhile fun b => !isSpace b)

/-- What the shell makes of a query: a message, a panic, or a query to be sent with its
parameters. -/
inductive Out where
  | error (e : Err)
  | panic
  | send (k : Kind) (query : Bytes) (params : List Item)
  deriving DecidableEq, Repr

/-- The test for `use` (`cli/src/query.rs:161-174`). -/
def useKind (q : Bytes) : Kind :=
  match firstPiece q with
  | none => .standard
  | some (u, rest) =>
    match firstPiece rest with
    | none => .standard
    | some (name, _) =>
      if eqIgnoreCase u (ascii "use") && !eqIgnoreCase name (ascii "$current") then .useSpace name
      else .standard

/-- The kind of a query (`cli/src/query.rs:146-176`). `&qstr[..8]` panics if the eighth byte is not
the beginning of a character, which is so exactly if it is a continuation byte. -/
def kindOf (q : Bytes) : Option Kind :=
  if eqIgnoreCase q (ascii "use null") then some .useNull
  else
    match q[8]? with
    | none => some (useKind q)
    | some b =>
      if 128 ≤ b && b < 192 then none
      else if eqIgnoreCase (q.take 8) (ascii "inspect ") then some .special
      else some (useKind q)

/-- The end of `parameterize` (`cli/src/query.rs:146-178`). -/
def finish : Except Err (Bytes × List Item) → Out
  | .error e => .error e
  | .ok (q, is) =>
    match decStr q with
    | none => .error .queryNotText
    | some _ =>
      match kindOf q with
      | none => .panic
      | some k => .send k q is

/-- `parameterize` (`cli/src/query.rs:129-181`). -/
def parameterize (pf : String → Option F64) (text : Bytes) : Out := finish (scan pf text)

end Verif.Cli
