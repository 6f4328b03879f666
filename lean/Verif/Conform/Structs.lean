import Verif.Ord.Model
import Verif.Trie.Model
import Verif.Mem.UArray
import Verif.Mem.Word
/-!
The unit tests of the data structures (`idx/tests.rs`, `idx/mtchm/tests.rs`, `mem/tests/mod.rs`,
`mem/tests/word.rs`), run on the model. The expected results are those that the tests assert. Loops over
thousands of numbers are cut to a few. Paths are relative to `/repo/server/src/engine`.
-/
namespace Verif.Conform

/-! ### `idx/tests.rs`: the ordered index -/

open Verif.Ord in
/-- An allocator that gives the address after the largest one in use. -/
private def malloc : Malloc := fun l => l.foldl max 0 + 1

/-- The length of the free list (`raw_f`), of which at most `n` elements are looked at. -/
def freeLen (h : Ord.Heap Nat String) : Nat → Nat → Nat
  | 0, _ => 0
  | n + 1, a => if a = 0 then 0 else freeLen h n (h.mem a).n + 1

/-- The answers to the operations, and the metric `raw_f` afterwards. -/
def ordRun (ops : List (Ord.Op Nat String)) : Option (List (Ord.Out Nat String) × Nat) :=
  match (Ord.Idx.new Nat String true).run malloc ops with
  | .ok (i, outs) => some (outs, freeLen i.heap 100 i.f)
  | _ => none

private def cnt : List Nat := List.range 12

/-- `mkidx` (lines 39-51). -/
private def mkidx : List (Ord.Op Nat String) := cnt.map (fun i => .insert i (toString (i + 1)))

private def dropIns (r : Option (List (Ord.Out Nat String) × Nat)) : Option (List (Ord.Out Nat String) × Nat) :=
  r.map fun (o, f) => (o.drop 12, f)

/-- `mkidx` itself, `empty_drop`, `spam_read_nx`, `spam_insert_ex`, `spam_update_nx`, `spam_delete_nx` (lines 39-90). -/
theorem ord_simple_tests :
    ordRun (mkidx ++ cnt.map .get) = some (cnt.map (fun _ => .bool true) ++ cnt.map (fun i => .val (some (toString (i + 1)))), 0) ∧
    ordRun [] = some ([], 0) ∧
    ordRun (cnt.map .get) = some (cnt.map fun _ => .val none, 0) ∧
    dropIns (ordRun (mkidx ++ cnt.map fun i => .insert i (toString (i + 2)))) = some (cnt.map fun _ => .bool false, 0) ∧
    ordRun (cnt.map fun i => .update i (toString (i + 2))) = some (cnt.map fun _ => .val none, 0) ∧
    ordRun (cnt.map .remove) = some (cnt.map fun _ => .val none, 0) := by
  refine ⟨?_, ?_, ?_, ?_, ?_, ?_⟩ <;> decide +kernel

/-- `simple_crud`, `spam_crud`, `spam_read`, `spam_update`, `spam_delete` (lines 91-142). -/
theorem ord_crud_tests :
    ordRun [.insert 7 "world", .get 7, .update 7 "world2", .get 7, .remove 7] =
      some ([.bool true, .val (some "world"), .val (some "world"), .val (some "world2"), .val (some "world2")], 1) ∧
    ordRun (cnt.flatMap fun i => [.insert i "a", .get i, .update i "b", .get i, .remove i]) =
      some (cnt.flatMap (fun _ => [.bool true, .val (some "a"), .val (some "a"), .val (some "b"), .val (some "b")]), 1) ∧
    ordRun (cnt.flatMap fun i => [.insert i (toString (i + 1)), .get i]) =
      some (cnt.flatMap (fun i => [.bool true, .val (some (toString (i + 1)))]), 0) ∧
    dropIns (ordRun (mkidx ++ cnt.map fun i => .update i (toString (i + 2)))) =
      some (cnt.map (fun i => .val (some (toString (i + 1)))), 0) ∧
    (cnt.map fun n => dropIns (ordRun (mkidx ++ (List.range n).map .remove))) =
      cnt.map fun n => some ((List.range n).map (fun i => .val (some (toString (i + 1)))), n) := by
  refine ⟨?_, ?_, ?_, ?_, ?_⟩ <;> decide +kernel

/-- `compact` (lines 143-155): `st_clear` leaves the free list, `st_compact` empties it. -/
theorem ord_compact_test :
    ([[], [.clear], [.clear, .compact]].map fun ops => (ordRun (mkidx ++ cnt.map .remove ++ ops)).map (·.2)) =
      [some 12, some 12, some 0] := by
  decide +kernel

/-- `iter_ord` and `iter_ord_rev` (lines 157-186). -/
theorem ord_iter_tests :
    dropIns (ordRun (mkidx ++ [.iter (cnt.map fun _ => false)])) =
      some ([.items (cnt.map fun i => (some (i, toString (i + 1)), 11 - i))], 0) ∧
    dropIns (ordRun (mkidx ++ [.iter (cnt.map fun _ => true)])) =
      some ([.items (cnt.map fun i => (some (11 - i, toString (12 - i)), 11 - i))], 0) := by
  constructor <;> decide +kernel

/-! ### `idx/mtchm/tests.rs`: the trie

The tests give a part of the keys to each of 32 threads. Here one thread does everything; what threads can do
to each other is the subject of C40. -/

/-- The answers and the number of elements. -/
def trieRun (hash : Nat → UInt64) (ops : List (Trie.Op Nat Nat)) : Option (List (Trie.Ret Nat Nat) × Nat) :=
  ((Trie.Idx.new : Trie.Idx Nat Nat).run hash ops).map fun (x, rs) => (rs, x.len)

/-- A hash that spreads the keys. -/
private def spread (k : Nat) : UInt64 := UInt64.ofNat (k * 11400714819323198485)

private def few : List Nat := List.range 32
private def puts : List (Trie.Op Nat Nat) := few.map fun k => .insert k (k + 1)

/-- `get_empty`, `update_empty` (lines 100-110). -/
theorem trie_empty_tests :
    trieRun spread [.get 10] = some ([none], 0) ∧ trieRun spread [.update 10 20] = some ([none], 0) := by
  constructor <;> decide +kernel

/-- `multispam_insert`, `multispam_update`, `multispam_delete` (lines 254-333), and `multispam_lol` (lines 335-343) but for its metric. -/
theorem trie_spam_tests :
    trieRun spread (puts ++ few.map .get) =
      some (few.map (fun _ => none) ++ few.map (fun k => some (k, k + 1)), 32) ∧
    trieRun spread (puts ++ (few.map fun k => .update k (k + 2)) ++ few.map .get) =
      some (few.map (fun _ => none) ++ few.map (fun k => some (k, k + 1)) ++ few.map (fun k => some (k, k + 2)), 32) ∧
    trieRun spread (puts ++ few.map .delete ++ few.map .get) =
      some (few.map (fun _ => none) ++ few.map (fun k => some (k, k + 1)) ++ few.map (fun _ => none), 0) ∧
    trieRun (fun _ => 0) (puts ++ few.map .get) =
      some (few.map (fun _ => none) ++ few.map (fun k => some (k, k + 1)), 32) := by
  refine ⟨?_, ?_, ?_, ?_⟩ <;> decide +kernel

/-! ### `mem/tests/mod.rs`: vectors and arrays -/

section
open Verif.Mem

private def heap0 : Heap Nat := ⟨fun _ => none, 0, []⟩

/-- What a test sees: the results of the operations, the elements, the capacity, whether they are on the stack. -/
structure VSeen where
  returned : List Nat
  items : List Nat
  cap : Nat
  stack : Bool
  deriving DecidableEq

/-- A vector of `0..upto` with capacity 8 on the stack (`mkvi`), and operations on it. -/
def vRun (upto : Nat) (ops : List (VInline.Op Nat)) : Option VSeen :=
  match (VInline.new 8 : VInline.V Nat).run 8 heap0 (.extend (List.range upto) :: ops) with
  | some (r, v, m) => match v.read 8 m with
    | .ok xs => some ⟨r, xs, v.c, v.onStack 8⟩
    | _ => none
  | none => none

/-- `push_on_stack` to `clear_heap` (lines 67-138). -/
theorem vinline_tests :
    vRun 8 [] = some ⟨[], [0, 1, 2, 3, 4, 5, 6, 7], 8, true⟩ ∧
    vRun 9 [] = some ⟨[], [0, 1, 2, 3, 4, 5, 6, 7, 8], 16, false⟩ ∧
    vRun 8 [.remove 6] = some ⟨[6], [0, 1, 2, 3, 4, 5, 7], 8, true⟩ ∧
    vRun 9 [.remove 6] = some ⟨[6], [0, 1, 2, 3, 4, 5, 7, 8], 16, false⟩ ∧
    vRun 8 [.optimize] = some ⟨[], [0, 1, 2, 3, 4, 5, 6, 7], 8, true⟩ ∧
    vRun 9 [.extend [9, 10, 11, 12, 13, 14, 15]] = some ⟨[], List.range 16, 16, false⟩ ∧
    vRun 9 [.extend [9, 10, 11, 12, 13, 14, 15], .optimize] = some ⟨[], List.range 16, 16, false⟩ ∧
    vRun 9 [.optimize] = some ⟨[], List.range 9, 9, false⟩ ∧
    vRun 9 [.removeCompact 0] = some ⟨[0], [1, 2, 3, 4, 5, 6, 7, 8], 8, true⟩ ∧
    vRun 8 [.clear] = some ⟨[], [], 8, true⟩ ∧
    vRun 9 [.clear] = some ⟨[], [], 16, false⟩ := by
  refine ⟨?_, ?_, ?_, ?_, ?_, ?_, ?_, ?_, ?_, ?_, ?_⟩ <;> decide +kernel

/-- The first `n` elements that the owned iterator gives, of strings (which have a niche). -/
def vTakes (upto n : Nat) (e : VInline.End) : Option (List (Option Nat)) :=
  match (VInline.new 8 : VInline.V Nat).run 8 heap0 [.extend (List.range upto)] with
  | some (_, v, m) => match VInline.Iter.takes 8 true (fun a _ => a) m v.intoIter (List.replicate n e) with
    | .ok (xs, _) => some xs
    | _ => none
  | none => none

/-- `into_iter_*` (lines 151-217). -/
theorem vinline_iter_tests :
    vTakes 8 8 .front = some ((List.range 8).map some) ∧ vTakes 8 4 .front = some ((List.range 4).map some) ∧
    vTakes 10 10 .front = some ((List.range 10).map some) ∧ vTakes 10 4 .front = some ((List.range 4).map some) ∧
    vTakes 8 8 .back = some ((List.range 8).reverse.map some) ∧ vTakes 8 4 .back = some [some 7, some 6, some 5, some 4] ∧
    vTakes 10 10 .back = some ((List.range 10).reverse.map some) ∧ vTakes 10 4 .back = some [some 9, some 8, some 7, some 6] := by
  refine ⟨?_, ?_, ?_, ?_, ?_, ?_, ?_, ?_⟩ <;> decide +kernel

/-- Pushes onto an array of capacity 8; `none` for a panic. -/
def uPush : UArray.U Nat → List Nat → Option (UArray.U Nat)
  | u, [] => some u
  | u, x :: xs => match u.push 8 x with
    | .ok u => uPush u xs
    | _ => none

def uTakes (upto n : Nat) (e : VInline.End) : Option (List (Option Nat)) :=
  (uPush (UArray.new 8) (List.range upto)).bind fun u =>
    match UArray.Iter.takes u.intoIter (List.replicate n e) with
    | .ok (xs, _) => some xs
    | _ => none

/-- The module `uarray` up to `into_iter_rev_partial` (lines 220-306). -/
theorem uarray_tests :
    ((uPush (UArray.new 8) [1, 2, 3, 4, 5, 6, 7, 8, 9]).isNone = true) ∧
    ((uPush (UArray.new 8) [1, 2, 3, 4, 5, 6, 7, 8]).map (·.read) = some (.ok [1, 2, 3, 4, 5, 6, 7, 8])) ∧
    uTakes 0 1 .front = some [none] ∧ uTakes 8 9 .front = some ((List.range 8).map some ++ [none]) ∧
    uTakes 8 4 .front = some ((List.range 4).map some) ∧ uTakes 8 9 .back = some ((List.range 8).reverse.map some ++ [none]) ∧
    uTakes 8 4 .back = some [some 7, some 6, some 5, some 4] := by
  refine ⟨?_, ?_, ?_, ?_, ?_, ?_, ?_⟩ <;> decide +kernel

/-- `pop_array` and `clear_array` (lines 307-318). -/
theorem uarray_pop_tests :
    ((UArray.new 8 : UArray.U Nat).run 8 heap0 ((List.range 8).map .push ++ [.pop])).map (fun x => (x.1, x.2.1.l)) = some ([7], 7) ∧
    ((UArray.new 8 : UArray.U Nat).run 8 heap0 ((List.range 8).map .push ++ [.clear])).map (fun x => (x.1, x.2.1.l)) = some ([], 0) := by
  constructor <;> decide +kernel

/-! ### `mem/tests/word.rs` -/

private def uints (W : Type) [NN W] (w : Width) : Bool :=
  [8, 16, 32, 64].all fun k => [0, 2 ^ k - 1].all fun n => loadUint k w (storeUint w (BitVec.ofNat k n) : W) = BitVec.ofNat k n

private def sints (W : Type) [NN W] (w : Width) : Bool :=
  [8, 16, 32, 64].all fun k => [2 ^ (k - 1), 2 ^ (k - 1) - 1].all fun n => loadSint k w (storeSint w (BitVec.ofNat k n) : W) = BitVec.ofNat k n

/-- `check_primitives` (lines 57-102) for one kind of word. -/
private def prims (W : Type) [NN W] : Bool :=
  [Width.w32, .w64].all fun w => uints W w && sints W w && [false, true].all (fun b => loadBool w (storeBool w b : W) = b) &&
    NN.loadFull w (NN.storeFull w 12 4096 : W) = (12, 4096)

/-- `dwordnn_all`, `dwordqn_all`, `twordnnn_all`, `qwordnnn_all` (lines 104-131). -/
theorem word_tests :
    prims Dword = true ∧ prims Padded = true ∧ prims Tword = true ∧ prims Qword = true ∧
    ((QN.loadQn .w64 (storeUint .w64 (BitVec.ofNat 64 0) : Padded)).2 = ZERO_BLOCK ∧
     (QN.loadQn .w64 (storeUint .w64 (BitVec.ofNat 64 (2 ^ 64 - 1)) : Padded)).2 = ZERO_BLOCK) := by
  refine ⟨?_, ?_, ?_, ?_, ?_⟩ <;> decide +kernel

/-- `dwordqn_promotions` and `dwordqn_special_case_ldpk` (lines 133-172). -/
theorem word_promotion_tests : [Width.w32, .w64].all (fun w =>
    let x : Padded := storeUint w (BitVec.ofNat 64 (2 ^ 64 - 1))
    let y : Tword := promote w x
    let z : Qword := promote3 y
    QN.loadQn w y = (2 ^ 64 - 1, ZERO_BLOCK) && loadQnn w z = (2 ^ 64 - 1, ZERO_BLOCK, 0) &&
    QN.loadQn w (promote w x : Qword) = (2 ^ 64 - 1, ZERO_BLOCK) &&
    QN.loadQn w (promote w (NN.storeFull w 12 4096 : Padded) : Qword) = (12, 4096)) = true := by
  decide +kernel

end

end Verif.Conform
