import Verif.Base.Res

/-!
The ordered index of the columns of a model, `server/src/engine/idx/stord/{mod,config,iter}.rs`: a hash map from
pointers to keys to nodes, and a circular doubly linked list of these nodes with a sentinel. Nodes are modelled as
cells of a memory, so that each access of the unsafe code is an explicit load or store which fails on a cell that
is not allocated.

Simplifications: the memory only holds the nodes of one index. The hash map of the standard library is the list of
its node pointers (`kptr` always points into the node, lines 497-501); a lookup compares keys until it finds an
equal one and so follows at least the pointers that the real one follows. `RandomState` and the debug metrics
(lines 214-229) are left out. Moving a key or a value out of a node (`ptr::read`) makes it unreadable.
-/
namespace Verif.Ord
open Verif

variable {K V : Type}

/-- `IndexSTSeqDllNode`, lines 143-149. `kv = none`: the key and the value are not initialised (the sentinel,
`_alloc_with_garbage`, or a node in the free list). Address 0 is the null pointer. -/
structure Node (K V : Type) where
  kv : Option (K × V)
  n : Nat
  p : Nat

/-- The memory: contents of every address (kept when a cell is freed) and the addresses that are allocated. -/
structure Heap (K V : Type) where
  mem : Nat → Node K V
  live : List Nat

/-- The address that the allocator returns, given the allocated ones. -/
abbrev Malloc := List Nat → Nat

/-- The allocator never returns the null pointer or a cell in use. It may return a cell that was freed. -/
def Malloc.Sound (A : Malloc) : Prop := ∀ l, A l ≠ 0 ∧ A l ∉ l

namespace Heap

/-- Dereference for reading. -/
def load (h : Heap K V) (a : Nat) : Res Unit (Node K V) :=
  if a ∈ h.live then .ok (h.mem a) else .panic

/-- The memory after writing a cell. -/
def put (h : Heap K V) (a : Nat) (d : Node K V) : Heap K V :=
  { h with mem := fun x => if x = a then d else h.mem x }

/-- `(*a).n = x` -/
def setN (h : Heap K V) (a x : Nat) : Res Unit (Heap K V) :=
  if a ∈ h.live then .ok (h.put a { h.mem a with n := x }) else .panic

/-- `(*a).p = x` -/
def setP (h : Heap K V) (a x : Nat) : Res Unit (Heap K V) :=
  if a ∈ h.live then .ok (h.put a { h.mem a with p := x }) else .panic

/-- Write of the key and the value of a node, or a move out of it (`none`). -/
def setKV (h : Heap K V) (a : Nat) (x : Option (K × V)) : Res Unit (Heap K V) :=
  if a ∈ h.live then .ok (h.put a { h.mem a with kv := x }) else .panic

/-- Deallocation; freeing a cell that is not allocated is a fault. -/
def free (h : Heap K V) (a : Nat) : Res Unit (Heap K V) :=
  if a ∈ h.live then .ok { h with live := h.live.erase a } else .panic

/-- Allocation of a cell with the given contents. -/
def alloc (A : Malloc) (h : Heap K V) (d : Node K V) : Heap K V × Nat :=
  ({ (h.put (A h.live) d) with live := A h.live :: h.live }, A h.live)

/-- A read of the key and the value of a node. -/
def kvAt (h : Heap K V) (a : Nat) : Res Unit (K × V) := do
  let d ← h.load a
  match d.kv with
  | some e => .ok e
  | none => .panic

/-- `IndexSTSeqDllNode::unlink`, lines 190-193. -/
def unlink (h : Heap K V) (x : Nat) : Res Unit (Heap K V) := do
  let d ← h.load x
  let h ← h.setN d.p d.n
  let d ← h.load x
  h.setP d.n d.p

/-- `IndexSTSeqDllNode::link`, lines 195-200. -/
def link (h : Heap K V) (s x : Nat) : Res Unit (Heap K V) := do
  let d ← h.load s
  let h ← h.setN x d.n
  let h ← h.setP x s
  let h ← h.setN s x
  let d ← h.load x
  h.setP d.n x

end Heap

/-- `IndexSTSeqDll`, lines 232-238: `m` the hash map, `s` the sentinel (`h`), `f` the head of the free list.
`lib`: `LiberalStrategy` (a free list) instead of `ConservativeStrategy` (`config.rs:33-104`). -/
structure Idx (K V : Type) where
  heap : Heap K V
  m : List Nat
  s : Nat
  f : Nat
  lib : Bool

/-- `with_hasher`, lines 243-268. -/
def Idx.new (K V : Type) (lib : Bool) : Idx K V :=
  { heap := { mem := fun _ => ⟨none, 0, 0⟩, live := [] }, m := [], s := 0, f := 0, lib := lib }

/-- Lookup in the hash map: `HashMap::get` with `PartialEq for IndexSTSeqDllKeyptr` (lines 101-112), which
dereferences the pointers to the keys. -/
def mfind [DecidableEq K] (h : Heap K V) (k : K) : List Nat → Res Unit (Option Nat)
  | [] => .ok none
  | a :: as => do
    let e ← h.kvAt a
    if e.1 = k then .ok (some a) else mfind h k as

/-- `ensure_sentinel`, lines 299-309. -/
def Idx.ensureSentinel (A : Malloc) (i : Idx K V) : Res Unit (Idx K V) :=
  if i.s = 0 then do
    let (h, a) := i.heap.alloc A ⟨none, 0, 0⟩
    let h ← h.setP a a
    let h ← h.setN a a
    .ok { i with heap := h, s := a }
  else .ok i

/-- `AllocStrategy::alloc`, `config.rs:44-62` and `88-90`. -/
def Idx.allocNode (A : Malloc) (i : Idx K V) (d : Node K V) : Res Unit (Idx K V × Nat) :=
  if i.lib = true ∧ i.f ≠ 0 then do
    let nd ← i.heap.load i.f
    .ok ({ i with heap := i.heap.put i.f d, f := nd.n }, i.f)
  else
    let (h, a) := i.heap.alloc A d
    .ok ({ i with heap := h }, a)

/-- `AllocStrategy::free`, `config.rs:40-43` and `85-87`. -/
def Idx.freeNode (i : Idx K V) (a : Nat) : Res Unit (Idx K V) :=
  if i.lib = true then do
    let h ← i.heap.setN a i.f
    .ok { i with heap := h, f := a }
  else do
    let h ← i.heap.free a
    .ok { i with heap := h }

/-- `__insert`, lines 486-507. -/
def Idx.insertNew (A : Malloc) (i : Idx K V) (k : K) (v : V) : Res Unit (Idx K V) := do
  let i ← i.ensureSentinel A
  let (i, a) ← i.allocNode A ⟨some (k, v), 0, 0⟩
  let h ← i.heap.link i.s a
  .ok { i with heap := h, m := a :: i.m }

/-- `_insert`, lines 375-381. -/
def Idx.insert [DecidableEq K] (A : Malloc) (i : Idx K V) (k : K) (v : V) : Res Unit (Idx K V × Bool) := do
  match ← mfind i.heap k i.m with
  | some _ => .ok (i, false)
  | none =>
    let i ← i.insertNew A k v
    .ok (i, true)

/-- `_get`, lines 382-396. -/
def Idx.get [DecidableEq K] (i : Idx K V) (k : K) : Res Unit (Option V) := do
  match ← mfind i.heap k i.m with
  | some a =>
    let e ← i.heap.kvAt a
    .ok (some e.2)
  | none => .ok none

/-- `_get_mut`, lines 417-426, followed by a write through the reference. -/
def Idx.getMut [DecidableEq K] (i : Idx K V) (k : K) (v : V) : Res Unit (Idx K V × Bool) := do
  match ← mfind i.heap k i.m with
  | some a =>
    let e ← i.heap.kvAt a
    let h ← i.heap.setKV a (some (e.1, v))
    .ok ({ i with heap := h }, true)
  | none => .ok (i, false)

/-- `_refresh`, lines 524-529. -/
def Idx.refresh (i : Idx K V) (a : Nat) : Res Unit (Idx K V) := do
  let h ← i.heap.unlink a
  let h ← h.link i.s a
  .ok { i with heap := h }

/-- `__update`, lines 512-519: replaces the value, then moves the node. -/
def Idx.updateNode (i : Idx K V) (a : Nat) (v : V) : Res Unit (Idx K V × V) := do
  let e ← i.heap.kvAt a
  let h ← i.heap.setKV a (some (e.1, v))
  let i ← Idx.refresh { i with heap := h } a
  .ok (i, e.2)

/-- `_update`, lines 428-443. -/
def Idx.update [DecidableEq K] (i : Idx K V) (k : K) (v : V) : Res Unit (Idx K V × Option V) := do
  match ← mfind i.heap k i.m with
  | some a =>
    let (i, old) ← i.updateNode a v
    .ok (i, some old)
  | none => .ok (i, none)

/-- `_upsert`, lines 445-456. -/
def Idx.upsert [DecidableEq K] (A : Malloc) (i : Idx K V) (k : K) (v : V) : Res Unit (Idx K V × Option V) := do
  match ← mfind i.heap k i.m with
  | some a =>
    let (i, old) ← i.updateNode a v
    .ok (i, some old)
  | none =>
    let i ← i.insertNew A k v
    .ok (i, none)

/-- `_remove`, lines 458-484: out of the hash map, the key and the value moved out, unlinked, freed. -/
def Idx.remove [DecidableEq K] (i : Idx K V) (k : K) : Res Unit (Idx K V × Option V) := do
  match ← mfind i.heap k i.m with
  | some a =>
    let e ← i.heap.kvAt a
    let h ← i.heap.setKV a none
    let h ← h.unlink a
    let i ← Idx.freeNode { i with heap := h, m := i.m.erase a } a
    .ok (i, some e.2)
  | none => .ok (i, none)

/-- The loop of `drop_nodes_full`, lines 315-323: frees the nodes from `c` along `n` up to the sentinel; dropping a
box drops the key and the value. `fuel` bounds the number of turns; running out is an endless loop. Every turn frees
a cell, so one more turn than there are cells is enough (`C16_is_a_map`, `C16_drop_frees_everything`). -/
def dropNodes (s : Nat) : Nat → Heap K V → Nat → Res Unit (Heap K V)
  | 0, _, _ => .hang
  | fuel + 1, h, c =>
    if c = s then .ok h
    else do
      let d ← h.load c
      let _ ← h.kvAt c
      let h ← h.free c
      dropNodes s fuel h d.n

/-- `LiberalStrategy::cleanup`, `config.rs:64-74`: frees the cells of the free list (without dropping). -/
def freeList : Nat → Heap K V → Nat → Res Unit (Heap K V)
  | 0, _, _ => .hang
  | fuel + 1, h, c =>
    if c = 0 then .ok h
    else do
      let d ← h.load c
      let h ← h.free c
      freeList fuel h d.n

/-- `cleanup`, `config.rs:64-74` and `92`. -/
def Idx.cleanup (i : Idx K V) : Res Unit (Idx K V) :=
  if i.lib = true then do
    let h ← freeList (i.heap.live.length + 1) i.heap i.f
    .ok { i with heap := h, f := 0 }
  else .ok i

/-- `_clear`, lines 531-542. -/
def Idx.clear (i : Idx K V) : Res Unit (Idx K V) :=
  if i.s = 0 then .ok { i with m := [] }
  else do
    let d ← i.heap.load i.s
    let h ← dropNodes i.s (i.heap.live.length + 1) i.heap d.n
    let h ← h.setP i.s i.s
    let h ← h.setN i.s i.s
    .ok { i with heap := h, m := [] }

/-- `Drop for IndexSTSeqDll`, lines 545-557. -/
def Idx.drop (i : Idx K V) : Res Unit (Heap K V) := do
  if i.s = 0 then
    let i ← i.cleanup
    .ok i.heap
  else
    let d ← i.heap.load i.s
    let h ← dropNodes i.s (i.heap.live.length + 1) i.heap d.n
    let h ← h.free i.s
    let i ← Idx.cleanup { i with heap := h }
    .ok i.heap

/-- `IndexSTSeqDllIterOrdBase`, `iter.rs:379-384`. -/
structure It where
  h : Nat
  t : Nat
  r : Nat

/-- `IndexSTSeqDllIterOrdBase::new`, `iter.rs:388-403`. -/
def Idx.iter (i : Idx K V) : Res Unit It :=
  if i.s = 0 then .ok ⟨0, i.s, i.m.length⟩
  else do
    let d ← i.heap.load i.s
    .ok ⟨d.p, i.s, i.m.length⟩

/-- `_next`, `iter.rs:405-417`. The counter `r` is a `usize` and wraps. -/
def It.next (h : Heap K V) (it : It) : Res Unit (It × Option (K × V)) :=
  if it.h = it.t then .ok (it, none)
  else do
    let e ← h.kvAt it.h
    let d ← h.load it.h
    .ok ({ it with h := d.p, r := if it.r = 0 then 2 ^ 64 - 1 else it.r - 1 }, some e)

/-- `_next_back`, `iter.rs:419-432`. -/
def It.nextBack (h : Heap K V) (it : It) : Res Unit (It × Option (K × V)) :=
  if it.h = it.t then .ok (it, none)
  else do
    let d ← h.load it.t
    let e ← h.kvAt d.n
    .ok ({ it with t := d.n, r := if it.r = 0 then 2 ^ 64 - 1 else it.r - 1 }, some e)

/-- A sequence of calls of an iterator, `true` for `next_back`; the answers, each with the `len()` after it. -/
def It.run (h : Heap K V) : It → List Bool → Res Unit (List (Option (K × V) × Nat))
  | _, [] => .ok []
  | it, b :: bs => do
    let (it, e) ← if b = true then it.nextBack h else it.next h
    let es ← It.run h it bs
    .ok ((e, it.r) :: es)

/-- Operations on an index. -/
inductive Op (K V : Type) where
  | insert (k : K) (v : V)
  | update (k : K) (v : V)
  | upsert (k : K) (v : V)
  | getMut (k : K) (v : V)
  | remove (k : K)
  | get (k : K)
  | len
  | clear
  | compact
  | iter (calls : List Bool)

/-- Answers. -/
inductive Out (K V : Type) where
  | unit
  | bool (b : Bool)
  | val (v : Option V)
  | len (n : Nat)
  | items (es : List (Option (K × V) × Nat))
  deriving DecidableEq

/-- One operation. -/
def Idx.exec [DecidableEq K] (A : Malloc) (i : Idx K V) : Op K V → Res Unit (Idx K V × Out K V)
  | .insert k v => do
    let (i, b) ← i.insert A k v
    .ok (i, .bool b)
  | .update k v => do
    let (i, o) ← i.update k v
    .ok (i, .val o)
  | .upsert k v => do
    let (i, o) ← i.upsert A k v
    .ok (i, .val o)
  | .getMut k v => do
    let (i, b) ← i.getMut k v
    .ok (i, .bool b)
  | .remove k => do
    let (i, o) ← i.remove k
    .ok (i, .val o)
  | .get k => do
    let o ← i.get k
    .ok (i, .val o)
  | .len => .ok (i, .len i.m.length)
  | .clear => do
    let i ← i.clear
    .ok (i, .unit)
  | .compact => do
    let i ← i.cleanup
    .ok (i, .unit)
  | .iter calls => do
    let it ← i.iter
    let es ← it.run i.heap calls
    .ok (i, .items es)

/-- A sequence of operations, with all answers. -/
def Idx.run [DecidableEq K] (A : Malloc) : Idx K V → List (Op K V) → Res Unit (Idx K V × List (Out K V))
  | i, [] => .ok (i, [])
  | i, o :: os => do
    let (i, r) ← i.exec A o
    let (i, rs) ← i.run A os
    .ok (i, r :: rs)

/-- `OrderedOwnedIteratorRaw::_next`, `iter.rs:294-308`: the node is read, freed, and then its `p` is read again.
`keep`: the allocator leaves freed memory readable and unchanged; in Rust it is undefined behaviour. -/
def It.nextOwned (keep : Bool) (h : Heap K V) (it : It) : Res Unit (Heap K V × It × Option (K × V)) :=
  if it.h = it.t then .ok (h, it, none)
  else do
    let e ← h.kvAt it.h
    let h' ← h.free it.h
    let d ← if keep = true then .ok (h'.mem it.h) else h'.load it.h
    .ok (h', { it with h := d.p, r := if it.r = 0 then 2 ^ 64 - 1 else it.r - 1 }, some e)

/-- `OrderedOwnedIteratorRaw::_next_back`, `iter.rs:310-325`. -/
def It.nextBackOwned (h : Heap K V) (it : It) : Res Unit (Heap K V × It × Option (K × V)) :=
  if it.h = it.t then .ok (h, it, none)
  else do
    let d ← h.load it.t
    let e ← h.kvAt d.n
    let h ← h.free d.n
    .ok (h, { it with t := d.n, r := if it.r = 0 then 2 ^ 64 - 1 else it.r - 1 }, some e)

/-- The loop over an owned iterator, `for (k, v) in idx.stseq_owned_kv()` and `Drop for OrderedOwnedIteratorRaw`
(`iter.rs:330-335`). -/
def drainOwned (keep : Bool) : Nat → Heap K V → It → Res Unit (Heap K V × List (K × V))
  | 0, _, _ => .hang
  | fuel + 1, h, it => do
    match ← it.nextOwned keep h with
    | (h, _, none) => .ok (h, [])
    | (h, it, some e) =>
      let (h, es) ← drainOwned keep fuel h it
      .ok (h, e :: es)

/-- `OrderedOwnedIteratorRaw::new`, `iter.rs:268-290`, and the loop: the free list is released and the hash map is
dropped. (`r: idx.len()` reads the dropped hash map; the model keeps the number.) -/
def Idx.intoIter (keep : Bool) (i : Idx K V) : Res Unit (Heap K V × List (K × V)) := do
  let i ← i.cleanup
  let it ← i.iter
  drainOwned keep (i.heap.live.length + 1) i.heap it

end Verif.Ord
