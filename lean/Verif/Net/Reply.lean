import Verif.Num.Theorems
import Verif.Enc.Lemmas
/-!
Model of the replies of the server: `core/dml/sel.rs` (rows), `net/protocol/mod.rs:198-223` (frames);
a client decoder as their specification.
-/
namespace Verif.Net.Reply
open Verif.Num Verif.Enc
open Lex (ascii)

/-! ### The text of a double -/

/-- The quiet NaN with no payload: the text `NaN` does not say which NaN was printed. -/
def canonF (f : F64) : F64 := if f.isNan then 0x7FF8000000000000 else f

/-- Only the bits of NaNs are replaced. -/
theorem canonF_number {f : F64} (h : f.isNan = false) : canonF f = f := by simp [canonF, h]

theorem canonF_nan {f : F64} (h : f.isNan = true) : canonF f = 0x7FF8000000000000 := by simp [canonF, h]

/-- `f64::to_string` of the Rust standard library and a parser for it. The algorithm is not modelled. It is
assumed that the text has no line feed and that parsing it gives the same double (Rust documents its output
as the shortest text with this property); NaN is printed as `NaN`. -/
structure FloatText where
  print : F64 → Bytes
  parse : Bytes → Option F64
  no_lf : ∀ f, 10 ∉ print f
  parse_print : ∀ f, parse (print f) = some (canonF f)

/-! ### The server -/

/-- `ResponseType` (`net/protocol/mod.rs`), the ones that the server sends. -/
def tyNull : UInt8 := 0x00
def tyBool : UInt8 := 0x01
def tyString : UInt8 := 0x0D
def tyError : UInt8 := 0x10
def tyRow : UInt8 := 0x11
def tyEmpty : UInt8 := 0x12
def tyMultiRow : UInt8 := 0x13

/-- A number and a line feed: `IntegerRepr::scoped(n as u64, ..)` then `b'\n'`. -/
def numLf (n : Nat) : Bytes := fmtU64 (UInt64.ofNat n) ++ [10]

mutual
/-- `encode_cell` (`core/dml/sel.rs:142-174`). The first byte is the type selector plus one, or 0 for null. -/
def encCell (T : FloatText) : Cell → Bytes
  | .null => [0]
  | .bool b => [UInt8.ofNat (Tag.bool.value + 1), if b then 1 else 0]
  | .uint t v => UInt8.ofNat (t.value + 1) :: fmtU64 v ++ [10]
  | .sint t v => UInt8.ofNat (t.value + 1) :: fmtI64 v ++ [10]
  | .float t v => UInt8.ofNat (t.value + 1) :: T.print v ++ [10]
  | .bin b => UInt8.ofNat (Tag.binary.value + 1) :: numLf b.length ++ b
  | .str s => UInt8.ofNat (Tag.string.value + 1) :: numLf (encStr s).length ++ encStr s
  | .list l => UInt8.ofNat (Tag.list.value + 1) :: numLf l.length ++ encCells T l

/-- The loop over the elements of a list (168-170), and over the cells of a row (53-56). -/
def encCells (T : FloatText) : List Cell → Bytes
  | [] => []
  | c :: cs => encCell T c ++ encCells T cs
end

/-- `Response` (`net/protocol/mod.rs`). -/
inductive Response where
  | empty
  | null
  | bool (b : Bool)
  | serialized (ty : UInt8) (size : Nat) (data : Bytes)

/-- `select_resp` (`core/dml/sel.rs:47-62`). -/
def selectResp (T : FloatText) (cs : List Cell) : Response := .serialized tyRow cs.length (encCells T cs)

/-- `select_all_resp` (lines 64-85): the number of columns, then the rows one after the other. -/
def selectAllResp (T : FloatText) (cols : Nat) (rs : List (List Cell)) : Response :=
  .serialized tyMultiRow rs.length (numLf cols ++ (rs.map (encCells T)).flatten)

/-- The text replies of `INSPECT` (`core/ddl_misc.rs:102-106`) and `USE $current` (`core/exec.rs:231-235`). -/
def stringResp (s : String) : Response := .serialized tyString (encStr s).length (encStr s)

/-- The bytes on the wire (`net/protocol/mod.rs:198-222`). An error is its code (`error.rs:36-98`) as a
16-bit integer. -/
def send : Except UInt8 Response → Bytes
  | .ok .empty => [tyEmpty]
  | .ok (.serialized ty size data) => ty :: numLf size ++ data
  | .ok (.bool b) => [tyBool, if b then 1 else 0]
  | .ok .null => [tyNull]
  | .error e => tyError :: le 2 e.toNat

/-! ### The client -/

/-- Everything before the first line feed, and everything after it. -/
def line : Bytes → Option (Bytes × Bytes)
  | [] => none
  | b :: bs =>
    if b = 10 then some ([], bs)
    else match line bs with
      | some (l, rest) => some (b :: l, rest)
      | none => none

/-- A decimal number. -/
def readNat (ds : Bytes) : Option Nat :=
  if ds.all isDigit && !ds.isEmpty then some (digitsVal ds) else none

/-- No digits, or anything else among them, is no number. -/
theorem readNat_refuses : readNat [] = none ∧ readNat [49, 120] = none ∧ readNat [49, 50] = some 12 := by decide

/-- A decimal number with an optional minus sign. -/
def readInt : Bytes → Option Int
  | 45 :: ds => (readNat ds).map fun n => - (n : Int)
  | ds => (readNat ds).map fun n => (n : Int)

/-- A number on a line of its own. -/
def readCount (b : Bytes) : Option (Nat × Bytes) :=
  match line b with
  | some (l, rest) => (readNat l).map fun n => (n, rest)
  | none => none

/-- A count, then so many bytes. -/
def readBlock (b : Bytes) : Option (Bytes × Bytes) :=
  match readCount b with
  | some (n, rest) => if n ≤ rest.length then some (rest.take n, rest.drop n) else none
  | none => none

/-- A Boolean. -/
def readBool : Bytes → Option (Bool × Bytes)
  | 0 :: b => some (false, b)
  | 1 :: b => some (true, b)
  | _ => none

/-- A number of the given type on a line. -/
def readNum (T : FloatText) (t : Tag) (l : Bytes) : Option Cell :=
  match t.cls with
  | .uint => (readNat l).map fun n => .uint t (UInt64.ofNat n)
  | .sint => (readInt l).map fun i => .sint t (Int64.ofInt i)
  | .float => (T.parse l).map fun f => .float t f
  | _ => none

mutual
/-- Read one value. The recursion is bounded by the bytes that are left; `fuel` counts it, and one more than
the number of bytes always suffices for what the server sends (`C26_*` below use that amount). -/
def readCell (T : FloatText) : Nat → Bytes → Option (Cell × Bytes)
  | 0, _ => none
  | _ + 1, [] => none
  | fuel + 1, d :: b =>
    if d = 0 then some (.null, b)
    else match Tag.ofValue? (d.toNat - 1) with
      | none => none
      | some t =>
        match t.cls with
        | .bool => (readBool b).map fun (x, b) => (.bool x, b)
        | .bin =>
          match readBlock b with
          | some (x, b) => some (.bin x, b)
          | none => none
        | .str =>
          match readBlock b with
          | some (x, b) => (decStr x).map fun s => (.str s, b)
          | none => none
        | .list =>
          match readCount b with
          | some (n, b) => (readCells T fuel n b).map fun (l, b) => (.list l, b)
          | none => none
        | _ =>
          match line b with
          | some (l, b) => (readNum T t l).map fun c => (c, b)
          | none => none

/-- Read `n` values. -/
def readCells (T : FloatText) : Nat → Nat → Bytes → Option (List Cell × Bytes)
  | 0, _, _ => none
  | fuel + 1, n, b =>
    if n = 0 then some ([], b)
    else
      match readCell T fuel b with
      | some (c, b) => (readCells T fuel (n - 1) b).map fun (l, b) => (c :: l, b)
      | none => none
end

/-- Read `n` rows of `cols` values. -/
def readRows (T : FloatText) (cols : Nat) : Nat → Bytes → Option (List (List Cell) × Bytes)
  | 0, b => some ([], b)
  | n + 1, b =>
    match readCells T (b.length + 2) cols b with
    | some (r, b) => (readRows T cols n b).map fun (rs, b) => (r :: rs, b)
    | none => none

/-- What a reply says. -/
inductive Answer where
  | empty
  | null
  | bool (b : Bool)
  | error (code : Nat)
  | string (s : String)
  | row (cs : List Cell)
  | rows (cols : Nat) (rs : List (List Cell))

/-- Read one reply; what is left is the next one. -/
def readReply (T : FloatText) : Bytes → Option (Answer × Bytes)
  | [] => none
  | ty :: b =>
    if ty = 0x12 then some (.empty, b)
    else if ty = 0x00 then some (.null, b)
    else if ty = 0x01 then
      (readBool b).map fun (x, b) => (.bool x, b)
    else if ty = 0x10 then
      match b with
      | x :: y :: b => some (.error (x.toNat + 256 * y.toNat), b)
      | _ => none
    else if ty = 0x0D then
      match readBlock b with
      | some (x, b) => (decStr x).map fun s => (.string s, b)
      | none => none
    else if ty = 0x11 then
      match readCount b with
      | some (n, b) => (readCells T (b.length + 2) n b).map fun (cs, b) => (.row cs, b)
      | none => none
    else if ty = 0x13 then
      match readCount b with
      | some (n, b) =>
        match readCount b with
        | some (cols, b) => (readRows T cols n b).map fun (rs, b) => (.rows cols rs, b)
        | none => none
      | none => none
    else none

/-! ### What the client is meant to see -/

mutual
/-- The value with every NaN replaced by the same one. -/
def canon : Cell → Cell
  | .float t v => .float t (canonF v)
  | .list l => .list (canons l)
  | c => c

def canons : List Cell → List Cell
  | [] => []
  | c :: cs => canon c :: canons cs
end

/-- The answer of the server before it is written. -/
def Answer.resp (T : FloatText) : Answer → Except UInt8 Response
  | .empty => .ok .empty
  | .null => .ok .null
  | .bool b => .ok (.bool b)
  | .error c => .error (UInt8.ofNat c)
  | .string s => .ok (stringResp s)
  | .row cs => .ok (selectResp T cs)
  | .rows cols rs => .ok (selectAllResp T cols rs)

/-- The answer up to the NaNs. -/
def Answer.canon : Answer → Answer
  | .row cs => .row (canons cs)
  | .rows cols rs => .rows cols (rs.map canons)
  | a => a

/-- Well-formed answers: error codes are bytes, counts fit in 64 bits, every row has one value per column. -/
def Answer.Wf : Answer → Prop
  | .error c => c < 256
  | .string s => (encStr s).length < 2 ^ 64
  | .row cs => cs.length < 2 ^ 64 ∧ WfList cs
  | .rows cols rs => cols < 2 ^ 64 ∧ rs.length < 2 ^ 64 ∧ ∀ r ∈ rs, r.length = cols ∧ WfList r
  | _ => True

/-! ### Proofs -/

theorem line_append (l rest : Bytes) (h : 10 ∉ l) : line (l ++ 10 :: rest) = some (l, rest) := by
  induction l with
  | nil => rfl
  | cons b bs ih =>
    have h1 : b ≠ 10 := fun e => h (e ▸ by simp)
    simp only [List.cons_append, line, if_neg h1, ih (fun e => h (by simp [e]))]

theorem decimal_ne_nil (n : Nat) : decimal n ≠ [] := by
  rw [decimal]; split <;> simp

theorem readNat_decimal (n : Nat) : readNat (decimal n) = some n := by
  have h : (decimal n).all isDigit = true := List.all_eq_true.2 (decimal_digits n)
  have h2 : (decimal n).isEmpty = false := by
    cases e : decimal n with
    | nil => exact absurd e (decimal_ne_nil n)
    | cons => rfl
  rw [readNat, h, h2]
  simp [digitsVal_decimal]

theorem decimal_no_lf (n : Nat) : 10 ∉ decimal n := fun h =>
  absurd (decimal_digits n 10 h) (by decide)

theorem decimal_head (n : Nat) : ∀ ds, decimal n ≠ 45 :: ds := fun ds h =>
  absurd (decimal_digits n 45 (h ▸ by simp)) (by decide)

theorem readInt_pos (ds : Bytes) (h : ∀ x, ds ≠ 45 :: x) : readInt ds = (readNat ds).map fun n => (n : Int) := by
  rw [readInt.eq_def]
  split
  · exact absurd rfl (h _)
  · rfl

theorem readInt_decimalInt (i : Int) : readInt (decimalInt i) = some i := by
  unfold decimalInt
  split
  · rw [readInt, readNat_decimal]
    simp; omega
  · rw [readInt_pos _ (decimal_head _), readNat_decimal]
    simp; omega

theorem decimalInt_no_lf (i : Int) : 10 ∉ decimalInt i := by
  unfold decimalInt
  split
  · simp [decimal_no_lf]
  · exact decimal_no_lf _

theorem numLf_eq {n : Nat} (h : n < 2 ^ 64) : numLf n = decimal n ++ [10] := by
  rw [numLf, (C27_print_u64 _).1, UInt64.toNat_ofNat', Nat.mod_eq_of_lt h]

theorem readCount_numLf {n : Nat} (h : n < 2 ^ 64) (rest : Bytes) :
    readCount (numLf n ++ rest) = some (n, rest) := by
  rw [numLf_eq h, List.append_assoc, List.singleton_append, readCount, line_append _ _ (decimal_no_lf _)]
  simp [readNat_decimal]

theorem readBlock_numLf (x rest : Bytes) (h : x.length < 2 ^ 64) :
    readBlock (numLf x.length ++ (x ++ rest)) = some (x, rest) := by
  rw [readBlock, readCount_numLf h]
  simp

theorem tag_byte (t : Tag) : UInt8.ofNat (t.value + 1) ≠ 0 ∧ (UInt8.ofNat (t.value + 1)).toNat - 1 = t.value := by
  cases t <;> decide

theorem encCell_pos (T : FloatText) (c : Cell) : 1 ≤ (encCell T c).length := by
  cases c <;> simp [encCell] <;> omega

theorem int64_ofInt_toInt (v : Int64) : Int64.ofInt v.toInt = v := by simp

mutual
theorem readCell_enc (T : FloatText) (c : Cell) (h : Enc.Wf c) (rest : Bytes) (fuel : Nat)
    (hf : (encCell T c).length < fuel) : readCell T fuel (encCell T c ++ rest) = some (canon c, rest) := by
  obtain ⟨f, rfl⟩ : ∃ f, fuel = f + 1 := ⟨fuel - 1, by omega⟩
  match c, h with
  | .null, _ => simp [encCell, readCell, canon]
  | .bool b, _ => cases b <;> simp [encCell, readCell, canon, Tag.value, Tag.ofValue?, Tag.cls, readBool]
  | .uint t v, h =>
    obtain ⟨h1, h2⟩ := tag_byte t
    have h : t.cls = .uint := h
    rw [encCell, (C27_print_u64 v).1, List.cons_append, List.cons_append, List.append_assoc, readCell, if_neg h1, h2,
      Tag.ofValue_value]
    simp only [h, List.singleton_append, line_append _ _ (decimal_no_lf _), readNum, readNat_decimal, Option.map_some, canon,
      UInt64.ofNat_toNat]
  | .sint t v, h =>
    obtain ⟨h1, h2⟩ := tag_byte t
    have h : t.cls = .sint := h
    rw [encCell, (C27_print_i64 v).1, List.cons_append, List.cons_append, List.append_assoc, readCell, if_neg h1, h2,
      Tag.ofValue_value]
    simp only [h, List.singleton_append, line_append _ _ (decimalInt_no_lf _), readNum, readInt_decimalInt, Option.map_some, canon,
      int64_ofInt_toInt]
  | .float t v, h =>
    obtain ⟨h1, h2⟩ := tag_byte t
    have h : t.cls = .float := h
    rw [encCell, List.cons_append, List.cons_append, List.append_assoc, readCell, if_neg h1, h2, Tag.ofValue_value]
    simp only [h, List.singleton_append, line_append _ _ (T.no_lf _), readNum, T.parse_print, Option.map_some, canon]
  | .bin b, h =>
    obtain ⟨h1, h2⟩ := tag_byte .binary
    have h : b.length < 2 ^ 64 := h
    rw [encCell, List.cons_append, List.cons_append, List.append_assoc, readCell, if_neg h1, h2, Tag.ofValue_value]
    simp only [Tag.cls, readBlock_numLf _ _ h, canon]
  | .str s, h =>
    obtain ⟨h1, h2⟩ := tag_byte .string
    have h : (encStr s).length < 2 ^ 64 := h
    rw [encCell, List.cons_append, List.cons_append, List.append_assoc, readCell, if_neg h1, h2, Tag.ofValue_value]
    simp only [Tag.cls, readBlock_numLf _ _ h, canon, decStr_encStr, Option.map_some]
  | .list l, h =>
    obtain ⟨h1, h2⟩ := tag_byte .list
    have h : l.length < 2 ^ 64 ∧ WfList l := h
    have hl : (encCells T l).length + 1 < f := by
      rw [encCell] at hf
      simp [numLf] at hf
      omega
    rw [encCell, List.cons_append, List.cons_append, List.append_assoc, readCell, if_neg h1, h2, Tag.ofValue_value]
    simp only [Tag.cls, readCount_numLf h.1, canon, readCells_enc T l h.2 rest f hl, Option.map_some]

theorem readCells_enc (T : FloatText) (l : List Cell) (h : WfList l) (rest : Bytes) (fuel : Nat)
    (hf : (encCells T l).length + 1 < fuel) :
    readCells T fuel l.length (encCells T l ++ rest) = some (canons l, rest) := by
  obtain ⟨f, rfl⟩ : ∃ f, fuel = f + 1 := ⟨fuel - 1, by omega⟩
  match l, h with
  | [], _ => simp [encCells, readCells, canons]
  | c :: cs, h =>
    have h : Enc.Wf c ∧ WfList cs := h
    have hp := encCell_pos T c
    rw [encCells, List.length_append] at hf
    rw [encCells, readCells, if_neg (by simp), List.append_assoc,
      readCell_enc T c h.1 _ f (by omega)]
    simp only [List.length_cons, Nat.add_sub_cancel, readCells_enc T cs h.2 rest f (by omega), Option.map_some, canons]
end

theorem readRows_enc (T : FloatText) (cols : Nat) (rs : List (List Cell))
    (h : ∀ r ∈ rs, r.length = cols ∧ WfList r) (rest : Bytes) :
    readRows T cols rs.length ((rs.map (encCells T)).flatten ++ rest) = some (rs.map canons, rest) := by
  induction rs with
  | nil => simp [readRows]
  | cons r rs ih =>
    have h1 := h r (by simp)
    rw [List.length_cons, readRows, List.map_cons, List.flatten_cons, List.append_assoc]
    have := readCells_enc T r h1.2 ((rs.map (encCells T)).flatten ++ rest)
      ((encCells T r ++ ((rs.map (encCells T)).flatten ++ rest)).length + 2) (by simp; omega)
    rw [h1.1] at this
    rw [this]
    simp only [ih (fun r hr => h r (by simp [hr])), Option.map_some, List.map_cons]

/-- **C26.** Every reply of the server, followed by anything, is read back by the client as the answer that
was sent (up to which NaN), and exactly its own bytes are consumed. Rows have any number of values of any
type and nesting. -/
theorem C26_replies_are_decodable (T : FloatText) (a : Answer) (h : a.Wf) (rest : Bytes) :
    readReply T (send (a.resp T) ++ rest) = some (a.canon, rest) := by
  cases a with
  | empty => rfl
  | null => rfl
  | bool b => cases b <;> rfl
  | error c =>
    have h : c < 256 := h
    simp [Answer.resp, send, readReply, tyError, Answer.canon, le, Nat.mod_eq_of_lt h]
    omega
  | string s =>
    have h : (encStr s).length < 2 ^ 64 := h
    have := readBlock_numLf (encStr s) rest h
    simp [Answer.resp, send, readReply, stringResp, tyString, Answer.canon, this]
  | row cs =>
    have h : cs.length < 2 ^ 64 ∧ WfList cs := h
    have h1 := readCount_numLf h.1 (encCells T cs ++ rest)
    have h2 := readCells_enc T cs h.2 rest ((encCells T cs ++ rest).length + 2) (by simp; omega)
    simp only [Answer.resp, selectResp, send, List.cons_append, List.append_assoc, readReply, tyRow, h1, h2, Option.map_some,
      Answer.canon]
    rfl
  | rows cols rs =>
    have h : cols < 2 ^ 64 ∧ rs.length < 2 ^ 64 ∧ ∀ r ∈ rs, r.length = cols ∧ WfList r := h
    have h1 := readCount_numLf h.2.1 (numLf cols ++ ((rs.map (encCells T)).flatten ++ rest))
    have h2 := readCount_numLf h.1 ((rs.map (encCells T)).flatten ++ rest)
    have h3 := readRows_enc T cols rs h.2.2 rest
    simp only [Answer.resp, selectAllResp, send, List.cons_append, List.append_assoc, readReply, tyMultiRow, h1, h2, h3,
      Option.map_some, Answer.canon]
    rfl

/-- **C26, no ambiguity.** If two sequences of bytes that begin with replies are equal, the replies say the
same and the rests are equal. -/
theorem C26_replies_are_unambiguous (T : FloatText) (a b : Answer) (ha : a.Wf) (hb : b.Wf) (r s : Bytes)
    (h : send (a.resp T) ++ r = send (b.resp T) ++ s) : a.canon = b.canon ∧ r = s := by
  have h1 := C26_replies_are_decodable T a ha r
  rw [h, C26_replies_are_decodable T b hb s] at h1
  injection h1 with h1
  injection h1 with h1 h2
  exact ⟨h1.symm, h2.symm⟩

/-- Read replies one after the other. -/
def readReplies (T : FloatText) : Nat → Bytes → Option (List Answer × Bytes)
  | 0, b => some ([], b)
  | n + 1, b =>
    match readReply T b with
    | some (a, b) => (readReplies T n b).map fun (l, b) => (a :: l, b)
    | none => none

/-- **C26, sequences.** The answers to any number of queries on one connection are read back. -/
theorem C26_connections (T : FloatText) (as : List Answer) (h : ∀ a ∈ as, a.Wf) :
    readReplies T as.length (as.map fun a => send (a.resp T)).flatten = some (as.map Answer.canon, []) := by
  induction as with
  | nil => rfl
  | cons a as ih =>
    rw [List.length_cons, readReplies, List.map_cons, List.flatten_cons, C26_replies_are_decodable T a (h a (by simp))]
    simp only [ih (fun b hb => h b (by simp [hb])), Option.map_some, List.map_cons]

/-! ### Concrete replies -/

/-- A text for doubles that meets the assumptions (not the one of Rust): the bits in decimal. -/
def exText : FloatText where
  print f := decimal (canonF f).toNat
  parse b := (readNat b).map UInt64.ofNat
  no_lf _ := decimal_no_lf _
  parse_print f := by simp [readNat_decimal]

def exRow : List Cell :=
  [.str "sayan", .null, .bool true, .uint .uint8 200, .sint .sint64 (-9223372036854775808),
    .float .float32 0x3FF8000000000000, .bin [10, 0], .list [.list [], .list [.str "\n", .null]]]

example : (Answer.row exRow).Wf ∧ (Answer.rows 1 [[.null], [.uint .uint8 1]]).Wf := by
  constructor
  · simp [Answer.Wf, exRow, Enc.Wf, WfList, Tag.cls]; decide +kernel
  · simp [Answer.Wf, Enc.Wf, WfList, Tag.cls]

example : send ((Answer.row [.str "hi", .null, .uint .uint8 7, .list [.bool true]]).resp exText) =
    ascii "\x114\n\x0d2\nhi\x00\x027\n\x0e1\n\x01\x01" := by decide +kernel

example : send ((Answer.rows 2 [[.uint .uint8 1, .null], [.uint .uint8 2, .str ""]]).resp exText) =
    ascii "\x132\n2\n\x021\n\x00\x022\n\x0d0\n" := by decide +kernel

/-- A double printed with a line feed in the text would be misread. -/
example : line (ascii "1\n5\nrest") = some (ascii "1", ascii "5\nrest") := by decide +kernel

end Verif.Net.Reply
