/-!
C67: how the server stops (`engine/mod.rs:115-200`, `main.rs:81-125`, `net/mod.rs:107-197`, `fractal/mgr.rs:242-285, 413-513`).

The parts that run at the same time are the connections, the tasks that execute statements on the blocking pool, the two background
services and the main task. A step of the model is what one of them does between two points at which another one can notice.

Simplifications. Models are neither created nor dropped meanwhile (`names` is fixed; the removal of directories is modelled on its own).
A row statement makes one change. A write to a file happens or fails as a whole; a failed write keeps its changes (C14 shows that the
code can do worse). The termination signal is noticed by everybody once all senders are dropped; they are dropped together
(`EndpointListeners::finish` polls both listeners). The health of drivers is in C37.
-/
namespace Verif.Halt

/-! ### Model -/

/-- The pending changes of a model: the queue, the counter, and what is in the file (`core/model/delta.rs:84-110`). -/
structure Mdl where
  pend : List Nat
  size : Nat
  disk : List Nat
  deriving DecidableEq

/-- A connection (`net/mod.rs:122-149`, `net/protocol/mod.rs:143-240`).
`idle`: its task waits for the socket or for the signal.
`busy`: its task runs, between statements.
`row k m`: it executes a statement that makes the change `k` of the model `m`; `queued`: the change is in the queue;
`counted`: and the counter was raised; `ready`: and a task was posted that writes the changes.
`waiting`: it waits for its task on the blocking pool.
`gone`: its task has ended, and its buffer and session are freed. -/
inductive Con where
  | idle
  | busy
  | row (k m : Nat)
  | queued (k m : Nat)
  | counted (k m : Nat)
  | ready (k : Nat)
  | waiting
  | gone
  deriving DecidableEq

/-- The executor of critical tasks (`fractal/mgr.rs:242-285`): it waits, writes a batch, or has exited. -/
inductive Fhp where
  | on
  | batch (m n : Nat)
  | off
  deriving DecidableEq

/-- The general executor (`fractal/mgr.rs:413-513`): it waits, goes over the models (`last`: because of the signal), or has exited.
While it goes over the models it has taken the counter of one of them (`batch`) or is between two. -/
inductive Flp where
  | on
  | sweep (last : Bool) (todo : List Nat)
  | batch (last : Bool) (m n : Nat) (todo : List Nat)
  | off
  deriving DecidableEq

/-- The main task (`engine/mod.rs:178-200`, `main.rs:99-116`).
`serving`: it listens; `closed`: the senders of the signal are dropped and it waits for the connections;
`joining`: it waits for the services; `leaving`: the runtime is dropped, which waits for the blocking pool;
`ended`: the files are closed. -/
inductive Main where
  | serving
  | closed
  | joining
  | leaving
  | ended
  deriving DecidableEq

/-- The server. `tasks` are the owners of the tasks on the blocking pool. `lpq` are the directories that are to be removed, `dirs`
those of them that still exist. `acked` are the changes that were acknowledged, and `dangling` says that freed memory was used. -/
structure St where
  main : Main
  cons : List Con
  tasks : List Nat
  names : List Nat
  mdl : Nat → Mdl
  hpq : List (Nat × Nat)
  fhp : Fhp
  flp : Flp
  lpq : List Nat
  dirs : List Nat
  acked : List Nat
  dangling : Bool

def St.setMdl (s : St) (m : Nat) (v : Mdl) : St := { s with mdl := fun j => if j = m then v else s.mdl j }
def St.setCon (s : St) (i : Nat) (c : Con) : St := { s with cons := s.cons.set i c }

/-- A new server with these models. -/
def St.start (names : List Nat) : St :=
  ⟨.serving, [], [], names, fun _ => ⟨[], 0, []⟩, [], .on, .on, [], [], [], false⟩

/-- The signal was given. -/
def St.stopping (s : St) : Bool := s.main != .serving

/-- What can happen. -/
inductive Lbl where
  /-- a client connects -/
  | accept
  /-- the task of a connection is polled and looks at the socket -/
  | wake (i : Nat)
  /-- and has to wait for it -/
  | rest (i : Nat)
  /-- a row statement starts -/
  | begin (i k m : Nat)
  /-- its change is put into the queue -/
  | queue (i : Nat)
  /-- and counted -/
  | count (i : Nat)
  /-- the counter is over the limit: the statement posts a task that writes the changes -/
  | full (i : Nat)
  /-- the reply is sent -/
  | ack (i : Nat)
  /-- a statement is given to the blocking pool -/
  | ddl (i : Nat)
  /-- it is executed there; some remove a directory -/
  | exec (j : Nat) (dir : Option Nat)
  /-- the task of the connection notices the signal where it waits -/
  | stop (i : Nat)
  /-- the signal arrives at the main task -/
  | close
  /-- the executor of critical tasks takes a task -/
  | hpTake
  /-- and writes its batch, or fails and posts it again -/
  | hpWrite (ok : Bool)
  /-- and exits -/
  | hpOff
  /-- the general executor starts to go over the models, since the time has come or the signal -/
  | sweep (last : Bool)
  /-- takes the counter of the next model -/
  | sweepTake
  /-- writes its batch, or fails and posts it -/
  | sweepWrite (ok : Bool)
  /-- is through -/
  | sweepEnd
  /-- removes a directory -/
  | remove
  /-- the main task goes on when all connections are gone -/
  | join
  /-- when both services have exited -/
  | leave
  /-- when the blocking pool is empty: `unload_all` (`fractal/mod.rs:272-286`) -/
  | unload
  deriving DecidableEq

def Con.after (c : Con) (s : St) (i : Nat) : Option St := some (s.setCon i c)

/-- `__fractal_take_full_from_data_delta` (`core/model/delta.rs:147-149`). -/
def St.zero (s : St) (m : Nat) : St := s.setMdl m ⟨(s.mdl m).pend, 0, (s.mdl m).disk⟩

/-- A batch of `n` changes is written: the first of the queue. -/
def St.write (s : St) (m n : Nat) : St := s.setMdl m ⟨(s.mdl m).pend.drop n, (s.mdl m).size, (s.mdl m).disk ++ (s.mdl m).pend.take n⟩

/-- A step; `none` if it is not possible. -/
def step (s : St) : Lbl → Option St
  | .accept => if s.main = .serving then some { s with cons := s.cons ++ [.idle] } else none
  | .wake i => if s.cons[i]? = some .idle then Con.after .busy s i else none
  | .rest i => if s.cons[i]? = some .busy then Con.after .idle s i else none
  | .begin i k m => if s.cons[i]? = some .busy ∧ m ∈ s.names then Con.after (.row k m) s i else none
  | .queue i =>
    match s.cons[i]? with
    | some (.row k m) => some ((s.setMdl m ⟨(s.mdl m).pend ++ [k], (s.mdl m).size, (s.mdl m).disk⟩).setCon i (.queued k m))
    | _ => none
  | .count i =>
    match s.cons[i]? with
    | some (.queued k m) => some ((s.setMdl m ⟨(s.mdl m).pend, (s.mdl m).size + 1, (s.mdl m).disk⟩).setCon i (.counted k m))
    | _ => none
  | .full i =>
    match s.cons[i]? with
    | some (.counted k m) =>
      -- the counter is taken before the task is posted, and posting panics if the executor has exited
      if s.fhp = .off then some ((s.zero m).setCon i .gone)
      else some { (s.zero m).setCon i (.ready k) with hpq := s.hpq ++ [(m, (s.mdl m).size)] }
    | _ => none
  | .ack i =>
    match s.cons[i]? with
    | some (.counted k _) | some (.ready k) => some { s.setCon i .busy with acked := s.acked ++ [k] }
    | _ => none
  | .ddl i => if s.cons[i]? = some .busy then some { s.setCon i .waiting with tasks := s.tasks ++ [i] } else none
  | .exec j dir =>
    match s.tasks[j]? with
    | some i =>
      -- the task refers to the session and the buffer of its connection (`core/exec.rs:177-188`)
      if s.cons[i]? = some .waiting then
        match dir with
        | none => some { s.setCon i .busy with tasks := s.tasks.eraseIdx j }
        | some d =>
          -- posting panics if the executor has exited; the panic is passed on to the connection
          if s.flp = .off then some { s.setCon i .gone with tasks := s.tasks.eraseIdx j, dirs := s.dirs ++ [d] }
          else some { s.setCon i .busy with tasks := s.tasks.eraseIdx j, lpq := s.lpq ++ [d], dirs := s.dirs ++ [d] }
      else some { s with tasks := s.tasks.eraseIdx j, dangling := true }
    | none => none
  | .stop i =>
    if s.stopping then
      match s.cons[i]? with
      | some .idle | some .waiting | some (.counted _ _) | some (.ready _) => Con.after .gone s i
      | _ => none
    else none
  | .close => if s.main = .serving then some { s with main := .closed } else none
  | .hpTake =>
    match s.fhp, s.hpq with
    | .on, (m, n) :: q => some { s with fhp := .batch m n, hpq := q }
    | _, _ => none
  | .hpWrite ok =>
    match s.fhp with
    | .batch m n => if ok then some { s.write m n with fhp := .on } else some { s with fhp := .on, hpq := s.hpq ++ [(m, n)] }
    | _ => none
  | .hpOff => if s.stopping ∧ s.fhp = .on ∧ s.hpq = [] then some { s with fhp := .off } else none
  | .sweep last => if s.flp = .on ∧ (last → s.stopping) then some { s with flp := .sweep last s.names } else none
  | .sweepTake =>
    match s.flp with
    | .sweep last (m :: todo) => some { s.zero m with flp := .batch last m (s.mdl m).size todo }
    | _ => none
  | .sweepWrite ok =>
    match s.flp with
    | .batch last m n todo =>
      if ok then some { s.write m n with flp := .sweep last todo }
      -- posting panics if the executor has exited, and this ends the service
      else if s.fhp = .off then some { s with flp := .off }
      else some { s with flp := .sweep last todo, hpq := s.hpq ++ [(m, n)] }
    | _ => none
  | .sweepEnd =>
    match s.flp with
    | .sweep true [] => some { s with flp := .off }
    | .sweep false [] => some { s with flp := .on }
    | _ => none
  | .remove =>
    match s.flp, s.lpq with
    | .on, d :: q => some { s with lpq := q, dirs := s.dirs.erase d }
    | _, _ => none
  | .join => if s.main = .closed ∧ s.cons.all (· == .gone) then some { s with main := .joining } else none
  | .leave => if s.main = .joining ∧ s.fhp = .off ∧ s.flp = .off then some { s with main := .leaving } else none
  | .unload => if s.main = .leaving ∧ s.tasks = [] then some { s with main := .ended } else none

def run : List Lbl → St → Option St
  | [], s => some s
  | l :: ls, s => (step s l).bind (run ls)

end Verif.Halt
