/-
The queue of pending changes of a model together with its counter, and the tasks that write batches, under weak memory:
`append_new_data_delta` (core/model/delta.rs:95-98), `__fractal_take_full_from_data_delta` (core/model/delta.rs:147-149), the
batch driver's lock (fractal/mgr.rs:541) and the loop of `write_batch` (storage/v2/impls/mdl_journal.rs:230-246), all
in /repo/server/src/engine. C75. The memory model is that of `Verif.Weak.Queue`.

The counter is only ever exchanged or added to, so each access sees the value that the one before it left, and its view
goes on from access to access. A task takes the whole count; it goes to an executor through a channel, or is executed
by the thread that took it. Simplification: no write of a batch fails (what failures do is C14), so the queue is emptied by
batches only and nothing is put back.
-/
import Verif.Weak.QueueTheorems
namespace Verif.Weak.Deltas
open Verif.Conc Verif.Weak.Queue

variable {α : Type}

/-- Which of the accesses of the counter release and acquire. -/
structure Ords where
  /-- `fetch_add(1, Release)` (core/model/delta.rs:97) releases -/
  addRel : Bool
  /-- `swap(0, AcqRel)` (core/model/delta.rs:148) acquires -/
  swapAcq : Bool

def code : Ords := ⟨true, true⟩

/-- A task to write a batch of `n` changes: those with the numbers from `lo` on of all that were counted. -/
structure Tok where
  lo : Nat
  n : Nat
  view : View

/-- What a thread does. -/
inductive Role where
  | free
  /-- appends a change; the number of its enqueue once that took effect -/
  | prod (j : Option Nat)
  /-- writes a batch, holding the driver's lock, with `n` changes to go -/
  | cons (lo n : Nat)
  /-- `unwrap()` on an empty queue (storage/v2/impls/mdl_journal.rs:235) -/
  | panicked
  deriving DecidableEq

structure St (α : Type) where
  q : Queue.St α
  /-- `data_deltas_size` with the view it carries -/
  cnt : Nat
  cview : View
  lock : Option Tid
  lview : View
  toks : List Tok
  role : Tid → Role
  /-- number of changes that tasks were made for -/
  given : Nat
  /-- the enqueues that were counted, in this order -/
  adds : List Nat
  /-- which of the counted changes the dequeues so far stand for -/
  used : List Nat

inductive Act (α : Type) where
  /-- a statement appends a change (core/model/delta.rs:96) -/
  | append (t : Tid) (v : α)
  /-- the next access of the queue operation of a thread -/
  | go (t : Tid) (i : Nat)
  /-- the change is counted (core/model/delta.rs:97) -/
  | add (t : Tid)
  /-- the count is taken for a task (core/model/delta.rs:148, fractal/mgr.rs:475-478, fractal/mod.rs:158-173) -/
  | take (t : Tid)
  /-- the task `k` begins: the driver is locked (fractal/mgr.rs:540-541) -/
  | start (t : Tid) (k : Nat)
  /-- the loop goes on: the next dequeue (storage/v2/impls/mdl_journal.rs:234-235) -/
  | deq (t : Tid)
  /-- the batch is written and the lock released -/
  | finish (t : Tid)
  | sync (t u : Tid)

/-- The thread `t` has moved in the queue: a link gives the producer's number, a removal stands for the next change of the
batch. -/
def moved (s : St α) (t : Tid) (q' : Queue.St α) : St α :=
  match s.role t with
  | .prod none => { s with q := q', role := upd s.role t (.prod (if q'.ins.length = s.q.ins.length then none else some s.q.ins.length)) }
  | .cons lo n =>
    if q'.outs = s.q.outs then { s with q := q' }
    else { s with q := q', role := upd s.role t (.cons (lo + 1) (n - 1)), used := s.used ++ [lo] }
  | _ => { s with q := q' }

/-- What a thread knows, with the addition `v`. -/
def learn (q : Queue.St α) (t : Tid) (v : View) : Queue.St α := q.at t (q.thr t).pc ((q.thr t).view.join v)

def exec (o : Ords) (s : St α) : Act α → Option (St α)
  | .append t v =>
    match s.role t with
    | .free => (Queue.exec Queue.code s.q (.call t (.enq v))).map fun q' => { s with q := q', role := upd s.role t (.prod none) }
    | _ => none
  | .go t i =>
    match (s.q.thr t).pc, s.role t with
    | .dret none, .cons _ _ => some { s with role := upd s.role t .panicked }
    | _, .free => none
    | _, .panicked => none
    | _, _ => (Queue.exec Queue.code s.q (.go t i)).map (moved s t)
  | .add t =>
    match s.role t, (s.q.thr t).pc with
    | .prod (some j), .idle =>
      some { s with cnt := s.cnt + 1, cview := (s.q.thr t).view.release o.addRel s.cview, role := upd s.role t .free
                    adds := s.adds ++ [j] }
    | _, _ => none
  | .take t =>
    match s.role t with
    | .free =>
      let w := (s.q.thr t).view.acquire o.swapAcq s.cview
      some { s with q := s.q.at t (s.q.thr t).pc w, cnt := 0, cview := w.release true s.cview, given := s.given + s.cnt
                    toks := s.toks ++ [⟨s.given, s.cnt, w⟩] }
    | _ => none
  | .start t k =>
    match s.role t, s.lock, s.toks[k]? with
    | .free, none, some tok =>
      if tok.n = 0 then none
      else some { s with q := learn s.q t (tok.view.join s.lview), lock := some t, toks := s.toks.eraseIdx k
                         role := upd s.role t (.cons tok.lo tok.n) }
    | _, _, _ => none
  | .deq t =>
    match s.role t with
    | .cons _ (_ + 1) => (Queue.exec Queue.code s.q (.call t .deq)).map fun q' => { s with q := q' }
    | _ => none
  | .finish t =>
    match s.role t, (s.q.thr t).pc with
    | .cons _ 0, .idle => some { s with lock := none, lview := (s.q.thr t).view, role := upd s.role t .free }
    | _, _ => none
  | .sync t u => some { s with q := learn s.q t (s.q.thr u).view }

def run (o : Ords) : St α → List (Act α) → Option (St α)
  | s, [] => some s
  | s, x :: xs =>
    match exec o s x with
    | none => none
    | some s' => run o s' xs

/-- A new model (core/model/delta.rs:56-64). -/
def init : St α := ⟨Queue.init, 0, .bot, none, .bot, [], fun _ => .free, 0, [], []⟩

end Verif.Weak.Deltas
