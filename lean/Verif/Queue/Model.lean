/-
The queue of pending changes (sync/queue.rs:36-171 in /repo/server/src/engine), a Michael–Scott queue, with threads that
interleave at every atomic access, an allocator that may hand out freed addresses again, and reclamation by epochs.

Simplifications: memory is sequentially consistent (the code uses acquire loads and release exchanges). The epoch scheme of
crossbeam is represented by its guarantee: what is given to `defer_destroy` is freed at some time after every
thread that was pinned at that moment has unpinned, and not before.
-/
import Verif.Conc.Lin
namespace Verif.Queue
open Verif.Conc

abbrev Addr := Nat
abbrev Tid := Nat

/-- `QNode` (sync/queue.rs:36-52); no data is the uninitialised field of the sentinel. -/
structure Node (α : Type) where
  data : Option α
  next : Option Addr

inductive Op (α : Type) where
  | enq (v : α)
  | deq

inductive Ret (α : Type) where
  | unit
  | val (v : Option α)

/-- Where a thread is. -/
inductive Pc (α : Type) where
  /-- between two operations -/
  | idle
  /-- `blocking_enqueue`: about to allocate (line 73) -/
  | e0 (v : α)
  /-- about to load `tail` (line 76) -/
  | e1 (v : α) (new : Addr)
  /-- about to load `tail.next` (line 78) -/
  | e2 (v : α) (new t : Addr)
  /-- about to exchange `tail.next` (lines 81-91) -/
  | e3 (v : α) (new t : Addr)
  /-- linked; about to exchange `tail` (lines 95-101) -/
  | e4 (new t : Addr)
  /-- `tail` lags behind; about to help (lines 106-112) -/
  | e5 (v : α) (new t n : Addr)
  | eret
  /-- `blocking_try_dequeue`: about to load `head` (line 119) -/
  | d1
  /-- about to load `head.next` (line 121) -/
  | d2 (h : Addr)
  /-- about to exchange `head` (lines 128-137) -/
  | d3 (h n : Addr)
  /-- about to load `tail` (line 140) -/
  | d4 (h n : Addr)
  /-- about to exchange `tail` (lines 145-151) -/
  | d5 (h n : Addr)
  /-- about to give `head` to `defer_destroy` (line 154) -/
  | d6 (h n : Addr)
  /-- about to read the data (line 156) -/
  | d7 (n : Addr)
  | dret (v : Option α)
  /-- a freed node or uninitialised data was read -/
  | fault

/-- A thread: whether it holds a guard, and where it is. -/
structure Thr (α : Type) where
  pinned : Bool
  pc : Pc α

/-- All of memory. `retired`: what was given to `defer_destroy` and is not freed, each with the threads that were
pinned then and still are. `pinnedNow` lists the threads that hold a guard. -/
structure St (α : Type) where
  heap : Addr → Option (Node α)
  head : Addr
  tail : Addr
  retired : List (Addr × List Tid)
  pinnedNow : List Tid
  thr : Tid → Thr α

/-- Steps of the schedule. `go t a`: thread `t` does its next access; `a` is the address the allocator hands out if it
allocates. `reclaim k`: the `k`-th retired node is freed. -/
inductive Act (α : Type) where
  | pin (t : Tid)
  | unpin (t : Tid)
  | call (t : Tid) (op : Op α)
  | go (t : Tid) (a : Addr)
  | reclaim (k : Nat)

variable {α : Type}

def setHeap (h : Addr → Option (Node α)) (a : Addr) (x : Option (Node α)) : Addr → Option (Node α) :=
  fun b => if b = a then x else h b

def St.at (s : St α) (t : Tid) (pc : Pc α) : St α :=
  { s with thr := upd s.thr t ⟨(s.thr t).pinned, pc⟩ }

/-- Load `next` of a node; reading a node that is not allocated is a fault. -/
def St.loadNext (s : St α) (a : Addr) : Option (Option Addr) := (s.heap a).map (·.next)

/-- `tail.compare_exchange` -/
def St.casTail (s : St α) (old new : Addr) : St α := if s.tail = old then { s with tail := new } else s

/-- The next access of a thread. -/
def goPc (s : St α) (t : Tid) (a : Addr) : Pc α → Option (St α × Option (Ev (Op α) (Ret α)))
  | .idle => none
  | .fault => none
  | .e0 v =>
    match s.heap a with
    | some _ => none
    | none => some ({ s with heap := setHeap s.heap a (some ⟨some v, none⟩) }.at t (.e1 v a), none)
  | .e1 v new => some (s.at t (.e2 v new s.tail), none)
  | .e2 v new tl =>
    match s.loadNext tl with
    | none => some (s.at t .fault, none)
    | some none => some (s.at t (.e3 v new tl), none)
    | some (some n) => some (s.at t (.e5 v new tl n), none)
  | .e3 v new tl =>
    match s.heap tl with
    | none => some (s.at t .fault, none)
    | some nd =>
      match nd.next with
      | none => some ({ s with heap := setHeap s.heap tl (some { nd with next := some new }) }.at t (.e4 new tl), none)
      | some _ => some (s.at t (.e1 v new), none)
  | .e4 new tl => some ((s.casTail tl new).at t .eret, none)
  | .e5 v new tl n => some ((s.casTail tl n).at t (.e1 v new), none)
  | .eret => some (s.at t .idle, some (.ret t .unit))
  | .d1 => some (s.at t (.d2 s.head), none)
  | .d2 h =>
    match s.loadNext h with
    | none => some (s.at t .fault, none)
    | some none => some (s.at t (.dret none), none)
    | some (some n) => some (s.at t (.d3 h n), none)
  | .d3 h n =>
    if s.head = h then some ({ s with head := n }.at t (.d4 h n), none) else some (s.at t .d1, none)
  | .d4 h n => if s.tail = h then some (s.at t (.d5 h n), none) else some (s.at t (.d6 h n), none)
  | .d5 h n => some ((s.casTail h n).at t (.d6 h n), none)
  | .d6 h n => some ({ s with retired := s.retired ++ [(h, s.pinnedNow)] }.at t (.d7 n), none)
  | .d7 n =>
    match s.heap n with
    | none => some (s.at t .fault, none)
    | some nd =>
      match nd.data with
      | none => some (s.at t .fault, none)
      | some v => some (s.at t (.dret (some v)), none)
  | .dret v => some (s.at t .idle, some (.ret t (.val v)))

/-- One step of the schedule; `none`: the step is not possible. A guard is needed for every operation (the code asks for a
`&Guard`) and outlives it. -/
def exec (s : St α) : Act α → Option (St α × Option (Ev (Op α) (Ret α)))
  | .pin t =>
    if (s.thr t).pinned then none
    else some ({ s with pinnedNow := t :: s.pinnedNow, thr := upd s.thr t ⟨true, (s.thr t).pc⟩ }, none)
  | .unpin t =>
    match (s.thr t).pc with
    | .idle =>
      if (s.thr t).pinned then
        some ({ s with pinnedNow := s.pinnedNow.filter (· ≠ t)
                       retired := s.retired.map fun x => (x.1, x.2.filter (· ≠ t))
                       thr := upd s.thr t ⟨false, .idle⟩ }, none)
      else none
    | _ => none
  | .call t op =>
    match (s.thr t).pc with
    | .idle =>
      if (s.thr t).pinned then
        some (s.at t (match op with | .enq v => .e0 v | .deq => .d1), some (.call t op))
      else none
    | _ => none
  | .go t a => goPc s t a (s.thr t).pc
  | .reclaim k =>
    match s.retired[k]? with
    | some (a, []) => some ({ s with heap := setHeap s.heap a none, retired := s.retired.eraseIdx k }, none)
    | _ => none

/-- A schedule, and what is seen of it. -/
def run : St α → List (Act α) → Option (St α × List (Ev (Op α) (Ret α)))
  | s, [] => some (s, [])
  | s, x :: xs =>
    match exec s x with
    | none => none
    | some (s', o) => (run s' xs).map fun r => (r.1, o.toList ++ r.2)

/-- `Queue::new` (lines 62-72): one sentinel, at any address. -/
def init (a : Addr) : St α where
  heap := setHeap (fun _ => none) a (some ⟨none, none⟩)
  head := a
  tail := a
  retired := []
  pinnedNow := []
  thr := fun _ => ⟨false, .idle⟩

/-- The specification: a list; elements enter at the end and leave at the front. -/
def fifo : Obj (List α) (Op α) (Ret α) where
  apply q
    | .enq v => (q ++ [v], .unit)
    | .deq => (q.tail, .val q.head?)

end Verif.Queue
