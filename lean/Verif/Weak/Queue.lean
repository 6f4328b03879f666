/-
The queue of pending changes (sync/queue.rs:36-171 in /repo/server/src/engine) without the assumption that memory is
sequentially consistent. C74. `Verif.Queue` treats the same code with reclamation of memory under that assumption.

The model is the operational form of the C11 memory model for programs with acquire loads and release exchanges. Every
atomic location has the list of all values that were written to it, in modification order, each with the view that the
writer released with it. A load may return any of them that is not older than what the thread has seen of that location,
so threads may read old values. A compare-exchange that succeeds reads the newest value (all writes after the first are
exchanges, so it cannot be placed anywhere else); one that fails reads any value that it may see and that differs from
the expected one. A view says how much of each location was seen, which nodes' initialisations happened before, and which
enqueues happened before.

Simplifications: nodes are never given back, so a pointer names one node for ever (with reclamation by epochs an address
is not reused while a thread that may hold it is pinned: C17).
-/
import Verif.Conc.Lin
namespace Verif.Weak.Queue
open Verif.Conc

/-- A pointer to a node. -/
scoped notation "Ptr" => Nat
/-- A thread. -/
scoped notation "Tid" => Nat

/-- What happened before: the newest value seen of `head`, of `tail` and of the `next` of each node, the nodes whose
(non-atomic) initialisation happened before, and the enqueues that happened before, by the order in which they took effect. -/
structure View where
  hd : Nat
  tl : Nat
  nx : Ptr → Nat
  ini : Ptr → Bool
  ev : Nat → Bool

def View.bot : View := ⟨0, 0, fun _ => 0, fun _ => false, fun _ => false⟩

def View.join (v w : View) : View :=
  ⟨max v.hd w.hd, max v.tl w.tl, fun p => max (v.nx p) (w.nx p), fun p => v.ini p || w.ini p, fun j => v.ev j || w.ev j⟩

/-- The thread has seen the value number `i` of `p.next`. -/
def View.sawNx (v : View) (p : Ptr) (i : Nat) : View := { v with nx := upd v.nx p i }

/-- A value that was written, with the view that came with it. -/
structure Msg (β : Type) where
  val : β
  view : View

/-- Which loads acquire and which exchanges release. -/
structure Ords where
  ldTail : Bool
  ldNext : Bool
  ldHead : Bool
  cxNext : Bool
  cxTail : Bool
  cxHead : Bool

/-- All loads are `Acquire`, all exchanges `Release` with `Relaxed` for failure (sync/queue.rs:76-151). -/
def code : Ords := ⟨true, true, true, true, true, true⟩

inductive Op (α : Type) where
  | enq (v : α)
  | deq

/-- Where a thread is, as in `Verif.Queue.Pc`. After its exchange of `head` a dequeue carries the number of the element
that it took. -/
inductive Pc (α : Type) where
  | idle
  /-- `blocking_enqueue`: about to allocate (line 73) -/
  | e0 (v : α)
  /-- about to load `tail` (line 76) -/
  | e1 (v : α) (new : Ptr)
  /-- about to load `tail.next` (line 78) -/
  | e2 (v : α) (new t : Ptr)
  /-- about to exchange `tail.next` (lines 81-91) -/
  | e3 (v : α) (new t : Ptr)
  /-- linked; about to exchange `tail` (lines 95-101) -/
  | e4 (new t : Ptr)
  /-- `tail` lags behind; about to help (lines 106-112) -/
  | e5 (v : α) (new t n : Ptr)
  | eret
  /-- `blocking_try_dequeue`: about to load `head` (line 119) -/
  | d1
  /-- about to load `head.next` (line 121) -/
  | d2 (h : Ptr)
  /-- about to exchange `head` (lines 128-137) -/
  | d3 (h n : Ptr)
  /-- about to load `tail` (line 140) -/
  | d4 (h n : Ptr) (k : Nat)
  /-- about to exchange `tail` (lines 145-151) -/
  | d5 (h n : Ptr) (k : Nat)
  /-- about to read the data (line 156); `defer_destroy` (line 154) does nothing here -/
  | d7 (n : Ptr) (k : Nat)
  | dret (v : Option α)
  /-- a node was accessed whose initialisation does not happen before, or the data of the sentinel was read -/
  | fault

structure Thr (α : Type) where
  pc : Pc α
  view : View

/-- All of memory. `chain`, `ins`, `outs` and `rets` record what took effect: the nodes in the order in which they were
linked, the values in that order, how many were taken, and which value each dequeue returned. -/
structure St (α : Type) where
  head : List (Msg Ptr)
  tail : List (Msg Ptr)
  next : Ptr → List (Msg (Option Ptr))
  data : Ptr → Option α
  /-- the nodes with smaller numbers are allocated -/
  alloc : Nat
  thr : Tid → Thr α
  chain : List Ptr
  ins : List α
  outs : Nat
  rets : List (Nat × α)

/-- Steps of the schedule. `go t i`: thread `t` does its next access and reads the `i`-th value of the location. `sync t u`:
thread `t` learns, by a lock, a channel or anything else, all that happened before the next access of `u`. -/
inductive Act (α : Type) where
  | call (t : Tid) (op : Op α)
  | go (t : Tid) (i : Nat)
  | sync (t u : Tid)

variable {α : Type}

def St.at (s : St α) (t : Tid) (pc : Pc α) (w : View) : St α := { s with thr := upd s.thr t ⟨pc, w⟩ }

/-- `tail` is exchanged. -/
def St.pushTail (s : St α) (m : Msg Ptr) : St α := { s with tail := s.tail ++ [m] }

/-- `head` is exchanged. -/
def St.pushHead (s : St α) (m : Msg Ptr) : St α := { s with head := s.head ++ [m], outs := s.outs + 1 }

/-- `p.next` is exchanged for the new node. -/
def St.link (s : St α) (p new : Ptr) (v : α) (w : View) : St α :=
  { s with next := upd s.next p (s.next p ++ [⟨some new, w⟩]), chain := s.chain ++ [new], ins := s.ins ++ [v] }

/-- A node is allocated and initialised (`QNode::new_data`, lines 49-51). -/
def St.new (s : St α) (v : α) : St α :=
  { s with next := upd s.next s.alloc [⟨none, .bot⟩], data := upd s.data s.alloc (some v), alloc := s.alloc + 1 }

/-- A value is given to the caller. -/
def St.give (s : St α) (k : Nat) (v : α) : St α := { s with rets := s.rets ++ [(k, v)] }

/-- What a load adds to the view. -/
def View.acquire (acq : Bool) (w m : View) : View := if acq then w.join m else w

/-- The view of a value written by an exchange that read a value with the view `m`: the release sequence goes on, and a
release adds the view of the thread. -/
def View.release (rel : Bool) (w m : View) : View := if rel then m.join w else m

/-- `tail.compare_exchange(old, new)`; the thread goes on with `pc`. -/
def casTail (o : Ords) (s : St α) (t : Tid) (w : View) (i : Nat) (old new : Ptr) (pc : Pc α) : Option (St α) :=
  match s.tail[i]? with
  | none => none
  | some m =>
    if w.tl ≤ i then
      if m.val = old then
        if i + 1 = s.tail.length then
          let w' := { w with tl := i + 1 }
          some ((s.pushTail ⟨new, w'.release o.cxTail m.view⟩).at t pc w')
        else none
      else some (s.at t pc { w with tl := i })
    else none

/-- The next access of a thread. -/
def goPc (o : Ords) (s : St α) (t : Tid) (w : View) (i : Nat) : Pc α → Option (St α)
  | .idle => none
  | .fault => none
  | .e0 v =>
    some ((s.new v).at t (.e1 v s.alloc) { w with ini := upd w.ini s.alloc true })
  | .e1 v new =>
    match s.tail[i]? with
    | none => none
    | some m => if w.tl ≤ i then some (s.at t (.e2 v new m.val) ({ w with tl := i }.acquire o.ldTail m.view)) else none
  | .e2 v new tl =>
    if w.ini tl then
      match (s.next tl)[i]? with
      | none => none
      | some m =>
        if w.nx tl ≤ i then
          some (s.at t (match m.val with | none => .e3 v new tl | some n => .e5 v new tl n)
            ((w.sawNx tl i).acquire o.ldNext m.view))
        else none
    else some (s.at t .fault w)
  | .e3 v new tl =>
    match (s.next tl)[i]? with
    | none => none
    | some m =>
      if w.nx tl ≤ i then
        match m.val with
        | none =>
          if i + 1 = (s.next tl).length then
            let w' := { w.sawNx tl (i + 1) with ev := upd w.ev s.ins.length true }
            some ((s.link tl new v (w'.release o.cxNext m.view)).at t (.e4 new tl) w')
          else none
        | some _ => some (s.at t (.e1 v new) (w.sawNx tl i))
      else none
  | .e4 new tl => casTail o s t w i tl new .eret
  | .e5 v new tl n => casTail o s t w i tl n (.e1 v new)
  | .eret => some (s.at t .idle w)
  | .d1 =>
    match s.head[i]? with
    | none => none
    | some m => if w.hd ≤ i then some (s.at t (.d2 m.val) ({ w with hd := i }.acquire o.ldHead m.view)) else none
  | .d2 h =>
    if w.ini h then
      match (s.next h)[i]? with
      | none => none
      | some m =>
        if w.nx h ≤ i then
          some (s.at t (match m.val with | none => .dret none | some n => .d3 h n) ((w.sawNx h i).acquire o.ldNext m.view))
        else none
    else some (s.at t .fault w)
  | .d3 h n =>
    match s.head[i]? with
    | none => none
    | some m =>
      if w.hd ≤ i then
        if m.val = h then
          if i + 1 = s.head.length then
            let w' := { w with hd := i + 1 }
            some ((s.pushHead ⟨n, w'.release o.cxHead m.view⟩).at t (.d4 h n s.outs) w')
          else none
        else some (s.at t .d1 { w with hd := i })
      else none
  | .d4 h n k =>
    match s.tail[i]? with
    | none => none
    | some m =>
      if w.tl ≤ i then
        some (s.at t (if m.val = h then .d5 h n k else .d7 n k) ({ w with tl := i }.acquire o.ldTail m.view))
      else none
  | .d5 h n k => casTail o s t w i h n (.d7 n k)
  | .d7 n k =>
    if w.ini n then
      match s.data n with
      | none => some (s.at t .fault w)
      | some v => some ((s.give k v).at t (.dret (some v)) w)
    else some (s.at t .fault w)
  | .dret _ => some (s.at t .idle w)

/-- One step of the schedule; `none`: the step is not possible. -/
def exec (o : Ords) (s : St α) : Act α → Option (St α)
  | .call t op =>
    match (s.thr t).pc with
    | .idle => some (s.at t (match op with | .enq v => .e0 v | .deq => .d1) (s.thr t).view)
    | _ => none
  | .go t i => goPc o s t (s.thr t).view i (s.thr t).pc
  | .sync t u => some (s.at t (s.thr t).pc ((s.thr t).view.join (s.thr u).view))

def run (o : Ords) : St α → List (Act α) → Option (St α)
  | s, [] => some s
  | s, x :: xs =>
    match exec o s x with
    | none => none
    | some s' => run o s' xs

/-- `Queue::new` (lines 62-72): one sentinel, which every thread that got hold of the queue knows. -/
def init : St α where
  head := [⟨0, { View.bot with ini := upd (fun _ => false) 0 true }⟩]
  tail := [⟨0, { View.bot with ini := upd (fun _ => false) 0 true }⟩]
  next := upd (fun _ => []) 0 [⟨none, .bot⟩]
  data := fun _ => none
  alloc := 1
  thr := fun _ => ⟨.idle, { View.bot with ini := upd (fun _ => false) 0 true }⟩
  chain := [0]
  ins := []
  outs := 0
  rets := []

end Verif.Weak.Queue
