import Verif.Mem.Value
import Verif.Mem.FixedVec
import Verif.Num.Model
import Verif.Journal.Rw
/-!
The tests of keys, cells, literals, the vector of fixed capacity, the printer of integers and the tracked writer
(`core/index/key.rs:288-397`, `data/cell.rs:555-572`, `data/lit.rs:362-412`, `mem/fixed_vec.rs:190-227`, `mem/numbuf.rs:124-174`,
`storage/common/sdss/impls/sdss_r1/rw.rs:551-625`), run on the model.
-/
namespace Verif.Conform.Values
open Verif Verif.Mem
open Verif.Lex (ascii)

/-- A cell as `Datacell::from` makes it, with its memory: bytes or text from a box. -/
def boxed (t : Tag) (s : String) : Dc × Bm := (.wide .w64 t (Bm.empty.alloc (ascii s)).1 (ascii s).length, (Bm.empty.alloc (ascii s)).2)

/-- `try_from_dc` (`core/index/key.rs:124-127`): only cells that can be keys. -/
def tryFromDc (d : Dc) : Option Key :=
  match d with
  | .word _ t _ => if t.uniq = .illegal then none else Key.ofDc .w64 d
  | .list _ => none

/-- A literal over bytes, the cell made from it, the key made from that, and the memory. -/
def fromBytes (t : Tag) (s : String) : Option (Lit × Dc × Key × Bm) :=
  let m := Bm.empty.alloc (ascii s)
  let l := Lit.wide t false m.1 (ascii s).length
  (Dc.ofLit .w64 m.2 l).bind fun d => (tryFromDc d.1).map fun k => (l, d.1, k, d.2)

/-- The same for a number. -/
def fromQuad (t : Tag) (q : Nat) : Option (Lit × Dc × Key × Bm) :=
  (Dc.ofLit .w64 Bm.empty (.quad t q)).bind fun d => (tryFromDc d.1).map fun k => (.quad t q, d.1, k, d.2)

/-- The key equals the literal and gives the hasher the same; it equals itself; it can be freed. -/
def agree (r : Option (Lit × Dc × Key × Bm)) : Bool :=
  match r with
  | some (l, _, k, m) =>
    k.eqLit m l == some true && (k.hashed m).isSome && k.hashed m == l.hashed m && k.eq m k == some true && (k.drop m).isSome
  | none => false

/-- -100 as a word -/
def MINUS100 : Nat := 2 ^ 64 - 100

/-- `gh_issue_test_325_same_type_collapse` (`core/index/key.rs:288-302`) -/
theorem key_collapse_test :
    ((fromQuad .uint64 1).bind fun a => (fromQuad .uint64 11).bind fun b => a.2.2.1.eq Bm.empty b.2.2.1) = some false ∧
    ((fromQuad .uint64 1).bind fun a => a.2.2.1.eqLit Bm.empty (.quad .uint64 11)) = some false ∧
    ((fromQuad .uint64 11).bind fun a => a.2.2.1.eqLit Bm.empty (.quad .uint64 1)) = some false := by
  refine ⟨?_, ?_, ?_⟩ <;> decide +kernel

/-- `check_pk_wrong_type` (`core/index/key.rs:304-324`) -/
theorem key_wrong_type_test :
    ([.quad .w64 .bool 0, .quad .w64 .uint64 100, .quad .w64 .sint64 MINUS100, .quad .w64 .float64 0x4024_3851_EB85_1EB8,
      (boxed .string "hello").1, (boxed .binary "hello").1, .list []] : List Dc).map (fun d => (tryFromDc d).isSome) =
    [false, true, true, false, true, true, false] := by
  decide +kernel

/-- `check_pk_eq_hash`, `check_pk_lit_eq_hash`, `check_pk_extremes`, `empty_slice` (`core/index/key.rs:326-397`) -/
theorem key_eq_hash_tests :
    [fromQuad .uint64 100, fromQuad .sint64 MINUS100, fromQuad .uint64 (2 ^ 64 - 1), fromBytes .binary "binary", fromBytes .string "string",
      fromBytes .binary "binary bro", fromBytes .string "string bro", fromBytes .binary "", fromBytes .string ""].all agree = true ∧
    ((fromQuad .uint64 (2 ^ 64 - 1)).map fun r => r.2.2.1.word.a) = some (2 ^ 64 - 1) := by
  refine ⟨?_, ?_⟩ <;> decide +kernel

/-- Comparison of two things that were read. -/
def same (a b : Option Val) : Bool :=
  match a, b with
  | some a, some b => a.eq (fun p q => p == q) b == some true
  | _, _ => false

/-- `vdc_check` (`data/cell.rs:555-562`): a literal over text as a virtual cell. `empty_slice` (`data/cell.rs:564-572`). -/
theorem cell_tests :
    (virtOfLit .w64 (boxed .string "hello, world").2 (.wide .string false 2 12)).map (fun r =>
      same (r.1.look .w64 r.2) ((boxed .string "hello, world").1.look .w64 (boxed .string "hello, world").2)) = some true ∧
    (fromBytes .binary "").map (fun r => same (r.2.1.look .w64 r.2.2.2) (some (.bytes .binary []))) = some true ∧
    (fromBytes .string "").map (fun r => same (r.2.1.look .w64 r.2.2.2) (some (.bytes .string []))) = some true ∧
    ((fromBytes .string "").bind fun r => (r.2.1.drop .w64 r.2.2.2).map fun m => m.allocs) = some [] := by
  refine ⟨?_, ?_, ?_, ?_⟩ <;> decide +kernel

/-- A literal and its clone read the same, and the clone can be dropped after it; what stays allocated. -/
def cloned (m : Bm) (l : Lit) : Option (Bool × List (Nat × Nat)) :=
  (l.clone m).bind fun r => (l.drop r.2).bind fun m' => (r.1.drop m').map fun m'' => (same (l.look m) (r.1.look m'), m''.allocs)

/-- `stk_variants`, `hp_variants`, `lt_link` (`data/lit.rs:362-391`) -/
theorem lit_tests :
    [Lit.quad .bool 1, .quad .uint64 (2 ^ 64 - 1), .quad .sint64 (2 ^ 63), .quad .float64 0xFFEF_FFFF_FFFF_FFFF].map (cloned Bm.empty) =
      List.replicate 4 (some (true, [])) ∧
    cloned (boxed .string "hello").2 (.wide .string false 2 5) = some (true, [(2, 5)]) ∧
    cloned (boxed .binary "world").2 (.wide .binary false 2 5) = some (true, [(2, 5)]) ∧
    cloned (boxed .string "hello").2 (.wide .string true 2 5) = some (true, []) ∧
    same ((Lit.wide .string true 2 5).look (boxed .string "hello").2) ((Lit.wide .string true 2 5).asIr.look (boxed .string "hello").2) =
      true := by
  refine ⟨?_, ?_, ?_, ?_, ?_⟩ <;> decide +kernel

/-- `u8` to `i64` (`mem/numbuf.rs:134-173`); the smaller types are the same code at a smaller width. -/
theorem numbuf_tests :
    [0, 255, 65535, 4294967295, 18446744073709551615].map Num.fmtU64 =
      ["0", "255", "65535", "4294967295", "18446744073709551615"].map ascii ∧
    [-128, 127, -32768, 32767, -2147483648, 2147483647, -9223372036854775808, 9223372036854775807].map Num.fmtI64 =
      ["-128", "127", "-32768", "32767", "-2147483648", "2147483647", "-9223372036854775808", "9223372036854775807"].map ascii := by
  refine ⟨?_, ?_⟩ <;> decide +kernel

/-- Pushes of elements in order. -/
def pushes : List Nat → FixedVec.F × Heap Nat → Out (FixedVec.F × Heap Nat)
  | [], s => .ok s
  | x :: l, (f, m) => (f.tryPush 100 m x).bind fun r => pushes l r.2

def emptyHeap : Heap Nat := ⟨fun _ => none, 0, []⟩

/-- `push_clear` and `clear_range` (`mem/fixed_vec.rs:196-227`) -/
theorem fixed_vec_tests :
    ((pushes (List.range 50) (FixedVec.allocate 100 emptyHeap)).bind fun r => (r.1.read r.2).bind fun l => .ok (l, r.1.l)) =
      .ok (List.range 50, 50) ∧
    ((pushes (List.range 100) (FixedVec.allocate 100 emptyHeap)).bind fun r => (r.1.clearStart r.2 50).bind fun q =>
      (q.1.read q.2).bind fun l => .ok (r.1.l, l, q.1.l, q.2.dropped)) =
      .ok (100, (List.range 50).map (· + 50), 50, List.range 50) := by
  refine ⟨?_, ?_⟩ <;> decide +kernel

open Verif.Journal (TW) in
/-- The writer of `check_vfs_buffering`, with a buffer of 8 bytes instead of 8192 and a header of 2 bytes: what is in the file and where
the cursor is after each step. -/
def buffering : List (Bytes × Nat) × BitVec 64 :=
  let w : TW := ⟨[7, 7], [], 2, Crc.new, Crc.new, [], 8⟩
  let a := (w.trackedWrite (List.replicate 8 0)).1
  let b := (a.trackedWrite [0]).1
  let c := b.flushBuf.1
  let d := (c.trackedWrite [255]).1
  let e := (d.trackedWrite (List.replicate 7 255)).1
  let f := e.flushBuf.1
  ([w, a, b, c, d, e, f].map fun w => (w.disk, w.cursor), f.ck)

/-- `check_vfs_buffering` (`rw.rs:551-625`): a full buffer is not written, one byte more flushes it; then again. -/
theorem vfs_buffering_test :
    buffering.1 = [([7, 7], 2), ([7, 7], 2), ([7, 7] ++ List.replicate 8 0, 10), ([7, 7] ++ List.replicate 9 0, 11),
      ([7, 7] ++ List.replicate 9 0, 11), ([7, 7] ++ List.replicate 9 0, 11),
      ([7, 7] ++ List.replicate 9 0 ++ List.replicate 8 255, 19)] ∧
    buffering.2 = Crc.update (Crc.update (Crc.update Crc.new (List.replicate 8 0)) [0]) (List.replicate 8 255) := by
  refine ⟨?_, ?_⟩ <;> decide +kernel

end Verif.Conform.Values
