/-
The primary index (`idx/mtchm/mod.rs` in /repo/server/src/engine) with threads that interleave at every atomic access: nodes
have addresses, the allocator may hand out freed addresses again, and reclamation is by epochs.

Simplifications: memory is sequentially consistent (the code uses acquire loads, release exchanges and, for counting
children, relaxed loads). The epoch scheme of crossbeam is represented by its guarantee: what is given to
`defer_destroy` is freed at some time after every thread that was pinned at that moment has unpinned, and not
before. A node that is made for an exchange is allocated when the exchange succeeds; if it fails, the node was never seen
by another thread and is dropped at once, so nothing is allocated here. The counter of elements (`l`) and
the iterators are left out; both are in the model for one thread (`Verif.Trie`).
-/
import Verif.Trie.Model
import Verif.Conc.Seen
namespace Verif.Trie.Conc
open Verif.Conc

abbrev Addr := Nat
abbrev Tid := Nat

/-- A pointer to a node without the flag `PENDING_DELETE`; the flag `DATA` tells lists from branches
(`ldfl`, `hf`, `cf`, `mod.rs:167-180`). -/
inductive Ptr where
  | null
  | leaf (a : Addr)
  | node (a : Addr)
  deriving DecidableEq

/-- What is in an `Atomic<Node>`: a pointer and `PENDING_DELETE`. -/
structure Word where
  p : Ptr
  pend : Bool
  deriving DecidableEq

/-- What is at an address: an `LNode` or a `Node` (`mod.rs:143-160`). -/
inductive Cell (K V : Type) where
  | leaf (l : List (K × V))
  | branch (f : Fin 16 → Word)

/-- A place that holds a word: `&self.root` or `&branch.branch[i]`. -/
inductive Slot where
  | root
  | of (b : Addr) (i : Fin 16)
  deriving DecidableEq

/-- Entry of `levels`, or `parent` and `child` of `patch`: a place and the branch that was found there. -/
abbrev Level := Slot × Addr

/-- What a thread goes on with after `compress` or `defer_destroy`. -/
inductive Kont (K V : Type) where
  /-- `patch` from the root (`mod.rs:289-292`) -/
  | patch (m : WMode) (k : K) (v : V)
  /-- `_remove` from the root (lines 519-521) -/
  | del (k : K)
  /-- the loop over the levels of `_remove` (lines 573-593); the last level comes first here -/
  | up (levels : List Level) (r : Option V)
  /-- the end of the operation -/
  | ret (r : Option V)

/-- Locals of `compress` (lines 667-745). -/
structure Cz (K V : Type) where
  p : Slot
  c : Addr
  acc : Fin 16 → Ptr
  cnt : Nat
  last : Option Addr
  cont : Bool
  k : Kont K V

/-- Where a thread is. -/
inductive Pc (K V : Type) where
  /-- between two operations -/
  | idle
  /-- `_lookup`: about to load `current` (line 460); the hash is shifted on the way -/
  | get (k : K) (cur : Slot) (h : UInt64)
  /-- about to read the list (lines 468-477) -/
  | getData (k : K) (a : Addr)
  /-- `patch`: about to load `current` (line 276) -/
  | patch (m : WMode) (k : K) (v : V) (lvl : Nat) (cur : Slot) (par : Option Level)
  /-- about to exchange null for a new list (lines 301-302) -/
  | patchNew (m : WMode) (k : K) (v : V) (lvl : Nat) (cur : Slot) (par : Option Level)
  /-- about to read the list (lines 321-350) -/
  | patchData (m : WMode) (k : K) (v : V) (lvl : Nat) (cur : Slot) (par : Option Level) (a : Addr)
  /-- about to exchange the list for a branch with the list in pointer `i` (line 342) -/
  | patchSplit (m : WMode) (k : K) (v : V) (lvl : Nat) (cur : Slot) (par : Option Level) (a : Addr) (i : Fin 16)
  /-- about to exchange the list for a new one (lines 362 and 394); the answer is `r` if this succeeds -/
  | patchPut (m : WMode) (k : K) (v : V) (lvl : Nat) (cur : Slot) (par : Option Level) (a : Addr) (l : List (K × V))
      (r : Option V)
  /-- `_remove`: about to load `current` (line 502) -/
  | del (k : K) (lvl : Nat) (cur : Slot) (levels : List Level)
  /-- about to read the list (lines 523-545) -/
  | delData (k : K) (lvl : Nat) (cur : Slot) (levels : List Level) (a : Addr)
  /-- about to exchange the list for what is left of it (line 550) -/
  | delPut (k : K) (lvl : Nat) (cur : Slot) (levels : List Level) (a : Addr) (l : List (K × V)) (r : Option V)
  /-- about to load pointer `i` of the branch `c` to count its children (lines 574-581) -/
  | count (levels : List Level) (p : Slot) (c : Addr) (i : Nat) (cnt : Nat) (r : Option V)
  /-- `compress`: about to set the flag of pointer `i` (line 687); `i = 16`: about to exchange the branch (line 732) -/
  | cz (i : Nat) (x : Cz K V)
  /-- about to read the list in pointer `i` (line 695) -/
  | czRead (i : Nat) (a : Addr) (x : Cz K V)
  /-- about to give the node to `defer_destroy` (lines 374, 404, 555, 736) -/
  | retire (a : Addr) (k : Kont K V)
  | ret (r : Option V)
  /-- a node that is not allocated, or is not of the expected kind, was read -/
  | fault
  /-- `unwrap` of nothing, `data[0]` of an empty list, or `UArray::push` to a full array -/
  | panic

structure Thr (K V : Type) where
  pinned : Bool
  pc : Pc K V

/-- All of memory. `retired`: what was given to `defer_destroy` and is not freed, each with the threads that were
pinned then and still are. `pinnedNow` lists the threads that hold a guard. -/
structure St (K V : Type) where
  heap : Addr → Option (Cell K V)
  root : Word
  retired : List (Addr × List Tid)
  pinnedNow : List Tid
  thr : Tid → Thr K V

/-- Steps of the schedule. `go t a`: thread `t` does its next access; `a` is the address the allocator hands out if it
allocates. `reclaim n`: the `n`-th retired node is freed. -/
inductive Act (K V : Type) where
  | pin (t : Tid)
  | unpin (t : Tid)
  | call (t : Tid) (op : Op K V)
  | go (t : Tid) (a : Addr)
  | reclaim (n : Nat)

variable {K V : Type} [DecidableEq K]

def setHeap (h : Addr → Option (Cell K V)) (a : Addr) (x : Option (Cell K V)) : Addr → Option (Cell K V) :=
  fun b => if b = a then x else h b

def St.at (s : St K V) (t : Tid) (pc : Pc K V) : St K V :=
  { s with thr := upd s.thr t ⟨(s.thr t).pinned, pc⟩ }

/-- Load a word; `none` is an access to a node that is not allocated or is not a branch. -/
def St.load (s : St K V) : Slot → Option Word
  | .root => some s.root
  | .of b i =>
    match s.heap b with
    | some (.branch f) => some (f i)
    | _ => none

/-- Write a word. -/
def St.store (s : St K V) (σ : Slot) (w : Word) : St K V :=
  match σ with
  | .root => { s with root := w }
  | .of b i =>
    match s.heap b with
    | some (.branch f) => { s with heap := setHeap s.heap b (some (.branch fun j => if j = i then w else f j)) }
    | _ => s

/-- `read_data` (lines 636-641). -/
def St.list (s : St K V) (a : Addr) : Option (List (K × V)) :=
  match s.heap a with
  | some (.leaf l) => some l
  | _ => none

def St.alloc (s : St K V) (a : Addr) (x : Cell K V) : St K V := { s with heap := setHeap s.heap a (some x) }

/-- `compress(parent, child)`: before the loop (lines 678-684). -/
def cz0 (p : Slot) (c : Addr) (k : Kont K V) : Pc K V := .cz 0 ⟨p, c, fun _ => .null, 0, none, true, k⟩

/-- The loop over the levels of `_remove`. -/
def upPc : List Level → Option V → Pc K V
  | [], r => .ret r
  | (p, c) :: levels, r => .count levels p c 0 0 r

def kontPc : Kont K V → Pc K V
  | .patch m k v => .patch m k v 0 .root none
  | .del k => .del k 0 .root []
  | .up levels r => upPc levels r
  | .ret r => .ret r

/-- After `CompressState::RESTORED` the loop over the levels is left (lines 585-592). -/
def Kont.restored : Kont K V → Kont K V
  | .up _ r => .ret r
  | k => k

/-- What `compress` found out about pointer `i` (lines 688-703). -/
def Cz.see (x : Cz K V) (i : Fin 16) (p : Ptr) (len : Nat) : Cz K V :=
  { x with
    acc := fun j => if j = i then p else x.acc j
    cnt := match p with | .null => x.cnt | .leaf _ => x.cnt + len | .node _ => x.cnt + 1
    last := match p with | .leaf a => some a | _ => x.last
    cont := match p with | .node _ => false | _ => x.cont }

/-- What the branch is to be replaced by (lines 707-729): a list, nothing, or a copy. -/
inductive Insert where
  | snode (a : Addr)
  | null
  | restored

def Cz.insert (x : Cz K V) : Insert :=
  match x.last with
  | some a => if x.cont = true ∧ x.cnt = 1 then .snode a else .restored
  | none => if x.cnt = 0 then .null else .restored

/-- The next access of a thread. -/
def goPc (hash : K → UInt64) (s : St K V) (t : Tid) (a : Addr) : Pc K V → Option (St K V × Option (Ev (Op K V) (Option V)))
  | .idle => none
  | .fault => none
  | .panic => none
  | .ret r => some (s.at t .idle, some (.ret t r))
  | .retire b k => some ({ s with retired := s.retired ++ [(b, s.pinnedNow)] }.at t (kontPc k), none)
  | .get k cur h =>
    match s.load cur with
    | none => some (s.at t .fault, none)
    | some w =>
      match w.p with
      | .null => some (s.at t (.ret none), none)
      | .leaf b => some (s.at t (.getData k b), none)
      | .node b => some (s.at t (.get k (.of b (chunk h 0)) (h >>> 4)), none)
  | .getData k b =>
    match s.list b with
    | none => some (s.at t .fault, none)
    | some l => some (s.at t (.ret ((find l k).map (·.2))), none)
  | .patch m k v lvl cur par =>
    match s.load cur with
    | none => some (s.at t .fault, none)
    | some w =>
      if w.pend = true then
        match par with
        | none => some (s.at t .panic, none)
        | some (p, c) => some (s.at t (cz0 p c (.patch m k v)), none)
      else
        match w.p with
        | .null => if m = .refresh then some (s.at t (.ret none), none) else some (s.at t (.patchNew m k v lvl cur par), none)
        | .leaf b => some (s.at t (.patchData m k v lvl cur par b), none)
        | .node b => some (s.at t (.patch m k v (lvl + LG) (.of b (chunk (hash k) lvl)) (some (cur, b))), none)
  | .patchNew m k v lvl cur par =>
    match s.load cur with
    | none => some (s.at t .fault, none)
    | some w =>
      if w = ⟨.null, false⟩ then
        match s.heap a with
        | some _ => none
        | none => some (((s.alloc a (.leaf [(k, v)])).store cur ⟨.leaf a, false⟩).at t (.ret none), none)
      else some (s.at t (.patch m k v lvl cur par), none)
  | .patchData m k v lvl cur par b =>
    match s.list b with
    | none => some (s.at t .fault, none)
    | some [] => some (s.at t .panic, none)
    | some (e :: l) =>
      if e.1 ≠ k ∧ lvl < LG * HEIGHT then
        if m = .refresh then some (s.at t (.ret none), none)
        else some (s.at t (.patchSplit m k v lvl cur par b (chunk (hash e.1) lvl)), none)
      else
        match find (e :: l) k with
        | some x =>
          if m = .fresh then some (s.at t (.ret (some x.2)), none)
          else some (s.at t (.patchPut m k v lvl cur par b (without (e :: l) k ++ [(k, v)]) (some x.2)), none)
        | none =>
          if m = .refresh then some (s.at t (.ret none), none)
          else some (s.at t (.patchPut m k v lvl cur par b ((e :: l) ++ [(k, v)]) none), none)
  | .patchSplit m k v lvl cur par b i =>
    match s.load cur with
    | none => some (s.at t .fault, none)
    | some w =>
      if w = ⟨.leaf b, false⟩ then
        match s.heap a with
        | some _ => none
        | none =>
          some (((s.alloc a (.branch fun j => if j = i then ⟨.leaf b, false⟩ else ⟨.null, false⟩)).store cur
            ⟨.node a, false⟩).at t (.patch m k v lvl cur par), none)
      else some (s.at t (.patch m k v lvl cur par), none)
  | .patchPut m k v lvl cur par b l r =>
    match s.load cur with
    | none => some (s.at t .fault, none)
    | some w =>
      if w = ⟨.leaf b, false⟩ then
        match s.heap a with
        | some _ => none
        | none => some (((s.alloc a (.leaf l)).store cur ⟨.leaf a, false⟩).at t (.retire b (.ret r)), none)
      else some (s.at t (.patch m k v lvl cur par), none)
  | .del k lvl cur levels =>
    match s.load cur with
    | none => some (s.at t .fault, none)
    | some w =>
      match w.p with
      | .null => some (s.at t (.ret none), none)
      | p =>
        if w.pend = true then
          match levels with
          | [] => some (s.at t .panic, none)
          | (p, c) :: _ => some (s.at t (cz0 p c (.del k)), none)
        else
          match p with
          | .null => none
          | .leaf b => some (s.at t (.delData k lvl cur levels b), none)
          | .node b =>
            if levels.length < 16 then
              some (s.at t (.del k (lvl + LG) (.of b (chunk (hash k) lvl)) ((cur, b) :: levels)), none)
            else some (s.at t .panic, none)
  | .delData k lvl cur levels b =>
    match s.list b with
    | none => some (s.at t .fault, none)
    | some l =>
      some (s.at t (.delPut k lvl cur levels b (l.filter fun e => e.1 ≠ k) ((findLast l k).map (·.2))), none)
  | .delPut k lvl cur levels b l r =>
    match s.load cur with
    | none => some (s.at t .fault, none)
    | some w =>
      if w = ⟨.leaf b, false⟩ then
        match l with
        | [] => some ((s.store cur ⟨.null, false⟩).at t (.retire b (.up levels r)), none)
        | _ :: _ =>
          match s.heap a with
          | some _ => none
          | none => some (((s.alloc a (.leaf l)).store cur ⟨.leaf a, false⟩).at t (.retire b (.up levels r)), none)
      else some (s.at t (.del k lvl cur levels), none)
  | .count levels p c i cnt r =>
    if hi : i < 16 then
      match s.load (.of c ⟨i, hi⟩) with
      | none => some (s.at t .fault, none)
      | some w => some (s.at t (.count levels p c (i + 1) (if w.p = .null then cnt else cnt + 1) r), none)
    else if 1 < cnt then some (s.at t (.ret r), none)
    else some (s.at t (cz0 p c (.up levels r)), none)
  | .cz i x =>
    if hi : i < 16 then
      match s.load (.of x.c ⟨i, hi⟩) with
      | none => some (s.at t .fault, none)
      | some w =>
        match w.p with
        | .leaf b => some ((s.store (.of x.c ⟨i, hi⟩) ⟨w.p, true⟩).at t (.czRead i b x), none)
        | p => some ((s.store (.of x.c ⟨i, hi⟩) ⟨w.p, true⟩).at t (.cz (i + 1) (x.see ⟨i, hi⟩ p 0)), none)
    else
      match s.load x.p with
      | none => some (s.at t .fault, none)
      | some w =>
        if w = ⟨.node x.c, false⟩ then
          match x.insert with
          | .snode b => some ((s.store x.p ⟨.leaf b, false⟩).at t (.retire x.c x.k), none)
          | .null => some ((s.store x.p ⟨.null, false⟩).at t (.retire x.c x.k), none)
          | .restored =>
            match s.heap a with
            | some _ => none
            | none =>
              some (((s.alloc a (.branch fun j => ⟨x.acc j, false⟩)).store x.p ⟨.node a, false⟩).at t
                (.retire x.c x.k.restored), none)
        else some (s.at t (kontPc x.k), none)
  | .czRead i b x =>
    if hi : i < 16 then
      match s.list b with
      | none => some (s.at t .fault, none)
      | some l => some (s.at t (.cz (i + 1) (x.see ⟨i, hi⟩ (.leaf b) l.length)), none)
    else none

/-- The first access of an operation (`imp.rs`: which write mode an operation uses). -/
def startPc (hash : K → UInt64) : Op K V → Pc K V
  | .insert k v => .patch .fresh k v 0 .root none
  | .upsert k v => .patch .any k v 0 .root none
  | .update k v => .patch .refresh k v 0 .root none
  | .delete k => .del k 0 .root []
  | .get k => .get k .root (hash k)

/-- One step of the schedule; `none`: the step is not possible. A guard is needed for every operation (the code asks for a
`&Guard`) and outlives it. -/
def exec (hash : K → UInt64) (s : St K V) : Act K V → Option (St K V × Option (Ev (Op K V) (Option V)))
  | .pin t =>
    if (s.thr t).pinned then none
    else some ({ s with pinnedNow := t :: s.pinnedNow, thr := upd s.thr t ⟨true, (s.thr t).pc⟩ }, none)
  | .unpin t =>
    match (s.thr t).pc with
    | .idle =>
      if (s.thr t).pinned then
        some ({ s with pinnedNow := s.pinnedNow.filter (· ≠ t)
                       retired := s.retired.map fun x => (x.1, x.2.filter (· ≠ t))
                       thr := upd s.thr t ⟨false, .idle⟩ }, none)
      else none
    | _ => none
  | .call t op =>
    match (s.thr t).pc with
    | .idle => if (s.thr t).pinned then some (s.at t (startPc hash op), some (.call t op)) else none
    | _ => none
  | .go t a => goPc hash s t a (s.thr t).pc
  | .reclaim n =>
    match s.retired[n]? with
    | some (a, []) => some ({ s with heap := setHeap s.heap a none, retired := s.retired.eraseIdx n }, none)
    | _ => none

/-- A schedule, and what is seen of it. -/
def run (hash : K → UInt64) : St K V → List (Act K V) → Option (St K V × List (Ev (Op K V) (Option V)))
  | s, [] => some (s, [])
  | s, x :: xs =>
    match exec hash s x with
    | none => none
    | some (s', o) => (run hash s' xs).map fun r => (r.1, o.toList ++ r.2)

/-- `RawTree::new` (`mod.rs:210-217`). -/
def init : St K V where
  heap := fun _ => none
  root := ⟨.null, false⟩
  retired := []
  pinnedNow := []
  thr := fun _ => ⟨false, .idle⟩

/-- The specification: a map. Every operation answers with the value that was there before. -/
def dict : Obj (K → Option V) (Op K V) (Option V) where
  apply m
    | .insert k v => (if (m k).isSome then m else fun x => if x = k then some v else m x, m k)
    | .upsert k v => (fun x => if x = k then some v else m x, m k)
    | .update k v => (if (m k).isSome then fun x => if x = k then some v else m x else m, m k)
    | .delete k => (fun x => if x = k then none else m x, m k)
    | .get k => (m, m k)

end Verif.Trie.Conc
