/-
Locks held by statements and background tasks, and threads that interleave at every lock operation.

Sources (relative to /repo/server/src/engine): core/mod.rs:86-202 (the two maps of the namespace, each under a
`parking_lot::RwLock`), core/space.rs:146-320, core/model/mod.rs:287-410, core/model/alt.rs:248-330,
core/ddl_misc.rs:34-107, core/system_db.rs:81-188, core/dml/*.rs, core/index/mod.rs:55-95,
core/index/row.rs:140-195, fractal/drivers.rs:56-82, fractal/mgr.rs:318-560.

Simplifications: a statement is reduced to the order in which it takes and gives back locks and to what it does
to the two maps of the catalogue (which spaces and models exist). The rows, the users and the files are not part
of the state here; which rows and lists a statement visits is a parameter of the statement. Messages to the task
manager are sent on unbounded channels and never wait.
-/
namespace Verif.Locks

/-- The locks. `users`: `SystemDatabase.users`; `spaces`: `GNSData.idx`; `models`: `GNSData.idx_mdl` (core/mod.rs:86-90);
`gns`: the mutex `FractalGNSDriver.txn_driver` (fractal/drivers.rs:42-46); `driver m`: the mutex
`FractalModelDriver.batch_driver` of model `m` (fractal/drivers.rs:85-90); `latch m`: `IndexLatch.glck` (core/index/mod.rs:78-95);
`row m r`: the lock around the data of row `r` of model `m` (core/index/row.rs:113-128); `list d i`: the lock inside
list number `i` found `d` lists deep inside a cell (data/cell.rs, `RwLock<Vec<Datacell>>`). -/
inductive Lock where
  | users | spaces | models | gns
  | driver (m : Nat) | latch (m : Nat)
  | row (m r : Nat)
  | list (d i : Nat)
deriving DecidableEq, Repr

/-- How a lock is held. A mutex is only ever taken with `write`; `up` is `upgradable_read` of parking_lot. -/
inductive Mode where
  | read | up | write
deriving DecidableEq, Repr

/-- Whether one holder allows another holder (the rules of parking_lot's `RwLock`). -/
def compat : Mode → Mode → Bool
  | .read, .read => true
  | .read, .up => true
  | .up, .read => true
  | _, _ => false

/-- The catalogue: the two maps of `GNSData` (core/mod.rs:86-90). `sp s` is the set of model names kept in the
space object of `s` (none: no such space); `md s m` says that the model map has the entry `s.m`. The hash maps are
given by their lookup functions. -/
structure Cat where
  sp : String → Option (List String)
  md : String → String → Bool

/-- The program of a thread. `look` reads the catalogue, `upd` changes it, `pick` is an outcome the environment
chooses (a write that fails, a check on something not in the model), `acq`/`rel` take and give back a lock,
`upg` turns an upgradable hold into a write hold and `down` a hold into a read hold. `panic` is a panic: unwinding
gives back every lock (parking_lot locks are not poisoned) and the thread is finished. -/
inductive Prog where
  | done
  | panic
  | look (k : Cat → Prog)
  | upd (f : Cat → Cat) (k : Prog)
  | pick (k : Bool → Prog)
  | acq (l : Lock) (m : Mode) (k : Prog)
  | upg (l : Lock) (k : Prog)
  | down (l : Lock) (k : Prog)
  | rel (l : Lock) (k : Prog)

/-- `a` then `b`; `b` is not run after a panic (the connection task is gone). -/
def Prog.andThen : Prog → Prog → Prog
  | .done, b => b
  | .panic, _ => .panic
  | .look k, b => .look fun c => (k c).andThen b
  | .upd f k, b => .upd f (k.andThen b)
  | .pick k, b => .pick fun x => (k x).andThen b
  | .acq l m k, b => .acq l m (k.andThen b)
  | .upg l k, b => .upg l (k.andThen b)
  | .down l k, b => .down l (k.andThen b)
  | .rel l k, b => .rel l (k.andThen b)

/-! ## The programs of the statements -/

/-- The catalogue with the models of space `s` replaced. -/
def Cat.setSpace (c : Cat) (s : String) (v : Option (List String)) : Cat :=
  { c with sp := fun x => if x = s then v else c.sp x }

/-- The catalogue with the entry `s.m` of the model map set or removed. -/
def Cat.setModel (c : Cat) (s m : String) (b : Bool) : Cat :=
  { c with md := fun x y => if x = s ∧ y = m then b else c.md x y }

/-- `driver_context` (fractal/drivers.rs:57-78): if the driver is marked faulty the statement fails at once; otherwise
the mutex is held during the write, which may fail. `ok`/`bad` continue after a success/failure. -/
def commit (ok bad : Prog) : Prog :=
  .pick fun healthy =>
    if healthy then
      .acq .gns .write (.pick fun written => .rel .gns (if written then ok else bad))
    else bad

/-- CREATE SPACE (core/space.rs:146-187, core/mod.rs:109-115). -/
def createSpace (s : String) : Prog :=
  .acq .spaces .write <| .look fun c =>
    if (c.sp s).isSome then .rel .spaces .done
    else .pick fun dirOk =>
      if dirOk then
        commit (.upd (fun c => c.setSpace s (some [])) (.rel .spaces .done)) (.rel .spaces .done)
      else .rel .spaces .done

/-- ALTER SPACE (core/space.rs:189-232, core/mod.rs:116-126): the properties are not part of the state. -/
def alterSpace (s : String) : Prog :=
  .acq .spaces .write <| .look fun c =>
    if (c.sp s).isNone then .rel .spaces .done
    else .pick fun legal =>
      if legal then commit (.rel .spaces .done) (.rel .spaces .done) else .rel .spaces .done

/-- DROP SPACE without ALLOW NOT EMPTY (core/space.rs:289-320). -/
def dropSpacePlain (s : String) : Prog :=
  .acq .spaces .write <| .look fun c =>
    match c.sp s with
    | none => .rel .spaces .done
    | some ms =>
      if ms.isEmpty then
        commit (.upd (fun c => c.setSpace s none) (.rel .spaces .done)) (.rel .spaces .done)
      else .rel .spaces .done

/-- The loop of a forced DROP SPACE that takes the models of the space out of the model map; a missing entry is the
`unwrap` of core/space.rs:276. -/
def dropModelsLoop (s : String) : List String → Prog → Prog
  | [], k => k
  | m :: ms, k => .look fun c =>
      if c.md s m then .upd (fun c => c.setModel s m false) (dropModelsLoop s ms k) else .panic

/-- DROP SPACE ALLOW NOT EMPTY (core/space.rs:242-288, core/mod.rs:101-108). The space is taken out of the map before
the commit; a failed commit leaves it out. `mayFail` says whether the environment lets this commit fail. -/
def dropSpaceForce (s : String) (mayFail : Bool) : Prog :=
  .acq .spaces .write <| .acq .models .write <| .look fun c =>
    match c.sp s with
    | none => .rel .models (.rel .spaces .done)
    | some ms =>
      .upd (fun c => c.setSpace s none) <|
        if mayFail then
          commit (dropModelsLoop s ms (.rel .models (.rel .spaces .done))) (.rel .models (.rel .spaces .done))
        else
          .acq .gns .write (.rel .gns (dropModelsLoop s ms (.rel .models (.rel .spaces .done))))

/-- CREATE MODEL (core/model/mod.rs:288-347): the space map is held for writing throughout, the model map is taken for
the insertion only. -/
def createModel (s m : String) : Prog :=
  .acq .spaces .write <| .look fun c =>
    match c.sp s with
    | none => .rel .spaces .done
    | some ms =>
      if ms.contains m then .rel .spaces .done
      else .pick fun driverOk =>
        if driverOk then
          commit
            (.upd (fun c => c.setSpace s (some (m :: ms))) <|
              .acq .models .write <| .upd (fun c => c.setModel s m true) <| .rel .models (.rel .spaces .done))
            (.rel .spaces .done)
        else .rel .spaces .done

/-- DROP MODEL (core/model/mod.rs:348-409). `notEmpty` is the test on the number of rows; the missing entry is the
`unwrap` of core/model/mod.rs:370. -/
def dropModel (s m : String) : Prog :=
  .acq .spaces .write <| .look fun c =>
    match c.sp s with
    | none => .rel .spaces .done
    | some ms =>
      if ms.contains m then
        .acq .models .write <| .look fun c =>
          if c.md s m then .pick fun notEmpty =>
            if notEmpty then .rel .models (.rel .spaces .done)
            else commit
              (.upd (fun c => c.setModel s m false) <|
                .upd (fun c => c.setSpace s (some (ms.filter (· ≠ m)))) <| .rel .models (.rel .spaces .done))
              (.rel .models (.rel .spaces .done))
          else .panic
      else .rel .spaces .done

/-- ALTER MODEL (core/model/alt.rs:249-330, core/mod.rs:127-142): the model map for writing, then the space map for
reading; the `unwrap` of core/mod.rs:140 is the panic. The columns are not part of the state. -/
def alterModel (s m : String) : Prog :=
  .acq .models .write <| .look fun c =>
    if c.md s m then
      .acq .spaces .read <| .look fun c =>
        match c.sp s with
        | none => .panic
        | some _ => .pick fun legal =>
          if legal then commit (.rel .spaces (.rel .models .done)) (.rel .spaces (.rel .models .done))
          else .rel .spaces (.rel .models .done)
    else .rel .models .done

/-- USE and INSPECT SPACE (core/mod.rs:166-168, core/ddl_misc.rs:84-99). -/
def readSpaces : Prog := .acq .spaces .read (.rel .spaces .done)

/-- INSPECT GLOBAL (core/ddl_misc.rs:40-72): the space map is given back before the users are read; the users are shown
to root only. -/
def inspectGlobal : Prog :=
  .acq .spaces .read <| .pick fun root =>
    if root then .rel .spaces <| .acq .users .read <| .rel .users .done else .rel .spaces .done

/-- INSPECT MODEL (core/ddl_misc.rs:73-83). -/
def inspectModel : Prog := .acq .models .read (.rel .models .done)

/-- Login and reauthentication: `verify_user` (core/system_db.rs:82-103). -/
def verifyUser : Prog := .acq .users .read (.rel .users .done)

/-- CREATE/ALTER/DROP USER (core/system_db.rs:130-188). -/
def changeUser : Prog :=
  .acq .users .write <| .pick fun ok =>
    if ok then commit (.rel .users .done) (.rel .users .done) else .rel .users .done

/-- The lists inside the cells of a row: first child / next sibling. -/
inductive Shape where
  | nil
  | cons (id : Nat) (inner next : Shape)
deriving Repr

/-- `encode_cell` over a list (core/dml/sel.rs:160-170) and the same descent in the batch writer: the lock of a list is
held while its elements are written. -/
def readLists (d : Nat) : Shape → Prog → Prog
  | .nil, k => k
  | .cons id inner next, k =>
    .acq (.list d id) .read (readLists (d + 1) inner (.rel (.list d id) (readLists d next k)))

/-- `rvt_data` (core/model/mod.rs:607-635): the type check of a list that is about to be inserted locks the list for
writing, and the lists inside. -/
def checkLists (d : Nat) : Shape → Prog → Prog
  | .nil, k => k
  | .cons id inner next, k =>
    .acq (.list d id) .write (checkLists (d + 1) inner (.rel (.list d id) (checkLists d next k)))

/-- `resolve_schema_deltas_and_freeze_if` (core/index/row.rs:141-185), then reading the cells under the read guard: the
row is taken upgradable; if columns changed it is upgraded, and it ends as a read hold either way. -/
def freezeRow (m r : Nat) (cells : Shape) (k : Prog) : Prog :=
  .acq (.row m r) .up <| .pick fun stale =>
    if stale then .upg (.row m r) (.down (.row m r) (readLists 0 cells (.rel (.row m r) k)))
    else .down (.row m r) (readLists 0 cells (.rel (.row m r) k))

/-- Several rows one after another. -/
def freezeRows (m : Nat) : List (Nat × Shape) → Prog → Prog
  | [], k => k
  | (r, cells) :: rs, k => freezeRow m r cells (freezeRows m rs k)

/-- SELECT of one row (core/dml/sel.rs:177-223). `pick`: the model or the row may be missing. -/
def select (m r : Nat) (cells : Shape) : Prog :=
  .acq .models .read <| .pick fun found =>
    if found then freezeRow m r cells (.rel .models .done) else .rel .models .done

/-- SELECT ALL (core/dml/sel.rs:85-139, 225-290): the index latch is held exclusively during the iteration. -/
def selectAll (m : Nat) (rows : List (Nat × Shape)) : Prog :=
  .acq .models .read <| .pick fun found =>
    if found then .acq (.latch m) .write (freezeRows m rows (.rel (.latch m) (.rel .models .done)))
    else .rel .models .done

/-- INSERT (core/dml/ins.rs:50-68, core/mod.rs:174-202): the new cells are checked, then the latch is taken shared. -/
def insert (m : Nat) (cells : Shape) : Prog :=
  .acq .models .read <| .pick fun found =>
    if found then checkLists 0 cells <| .pick fun valid =>
      if valid then .acq (.latch m) .read (.rel (.latch m) (.rel .models .done)) else .rel .models .done
    else .rel .models .done

/-- DELETE (core/dml/del.rs:44-72). -/
def delete (m : Nat) : Prog :=
  .acq .models .read <| .pick fun found =>
    if found then .acq (.latch m) .read (.rel (.latch m) (.rel .models .done)) else .rel .models .done

/-- The lists an UPDATE appends to, one after another (core/dml/upd.rs:329-345). -/
def pushLists : List Nat → Prog → Prog
  | [], k => k
  | i :: is, k => .acq (.list 0 i) .write (.rel (.list 0 i) (pushLists is k))

/-- UPDATE (core/dml/upd.rs:258-386). -/
def update (m r : Nat) (lists : List Nat) : Prog :=
  .acq .models .read <| .pick fun found =>
    if found then .acq (.row m r) .write (pushLists lists (.rel (.row m r) (.rel .models .done)))
    else .rel .models .done

/-- `try_write_model_data_batch` (fractal/mgr.rs:521-559): the rows of the batch are frozen one after another while the
mutex of the driver is held. -/
def writeBatch (m : Nat) (rows : List (Nat × Shape)) (k : Prog) : Prog :=
  .acq (.driver m) .write (freezeRows m rows (.rel (.driver m) k))

/-- `CriticalTask::WriteBatch` (fractal/mgr.rs:375-412). -/
def taskWriteBatch (m : Nat) (rows : List (Nat × Shape)) : Prog :=
  .acq .models .read <| .pick fun found =>
    if found then writeBatch m rows (.rel .models .done) else .rel .models .done

/-- `CriticalTask::TryModelAutorecoverLWT` (fractal/mgr.rs:346-374). -/
def taskRecoverModel (m : Nat) : Prog :=
  .acq .models .read <| .pick fun found =>
    if found then .acq (.driver m) .write (.rel (.driver m) (.rel .models .done)) else .rel .models .done

/-- `CriticalTask::CheckGNSDriver` (fractal/mgr.rs:323-345). -/
def taskCheckGns : Prog := .acq .gns .write (.rel .gns .done)

/-- The loop of `general_executor` over the models. -/
def writeBatches : List (Nat × List (Nat × Shape)) → Prog → Prog
  | [], k => k
  | (m, rows) :: ms, k => writeBatch m rows (writeBatches ms k)

/-- `general_executor` (fractal/mgr.rs:473-520): every model in turn, under one read hold of the model map. -/
def taskGeneral (ms : List (Nat × List (Nat × Shape))) : Prog :=
  .acq .models .read (writeBatches ms (.rel .models .done))

/-- What a client or a background task can run. -/
inductive Stmt where
  | createSpace (s : String) | alterSpace (s : String) | dropSpacePlain (s : String) | dropSpaceForce (s : String) (mayFail : Bool)
  | createModel (s m : String) | dropModel (s m : String) | alterModel (s m : String)
  | readSpaces | inspectGlobal | inspectModel
  | verifyUser | changeUser
  | select (m r : Nat) (cells : Shape) | selectAll (m : Nat) (rows : List (Nat × Shape))
  | insert (m : Nat) (cells : Shape) | delete (m : Nat) | update (m r : Nat) (lists : List Nat)
  | taskWriteBatch (m : Nat) (rows : List (Nat × Shape)) | taskRecoverModel (m : Nat) | taskCheckGns
  | taskGeneral (ms : List (Nat × List (Nat × Shape)))

def Stmt.prog : Stmt → Prog
  | .createSpace s => Locks.createSpace s
  | .alterSpace s => Locks.alterSpace s
  | .dropSpacePlain s => Locks.dropSpacePlain s
  | .dropSpaceForce s b => Locks.dropSpaceForce s b
  | .createModel s m => Locks.createModel s m
  | .dropModel s m => Locks.dropModel s m
  | .alterModel s m => Locks.alterModel s m
  | .readSpaces => Locks.readSpaces
  | .inspectGlobal => Locks.inspectGlobal
  | .inspectModel => Locks.inspectModel
  | .verifyUser => Locks.verifyUser
  | .changeUser => Locks.changeUser
  | .select m r cells => Locks.select m r cells
  | .selectAll m rows => Locks.selectAll m rows
  | .insert m cells => Locks.insert m cells
  | .delete m => Locks.delete m
  | .update m r ls => Locks.update m r ls
  | .taskWriteBatch m rows => Locks.taskWriteBatch m rows
  | .taskRecoverModel m => Locks.taskRecoverModel m
  | .taskCheckGns => Locks.taskCheckGns
  | .taskGeneral ms => Locks.taskGeneral ms

/-- A client connection (or a task executor) runs its statements one after another. -/
def client : List Stmt → Prog
  | [] => .done
  | q :: qs => q.prog.andThen (client qs)

/-! ## Interleavings -/

/-- A thread: the rest of its program and the locks it holds. -/
structure Thr where
  p : Prog
  h : List (Lock × Mode)

/-- All threads and the catalogue. -/
structure Sys where
  c : Cat
  ts : List Thr

/-- No holder of `l` (the thread itself included) stands against a hold in mode `m`. -/
def Free (ts : List Thr) (l : Lock) (m : Mode) : Prop :=
  ∀ t ∈ ts, ∀ m', (l, m') ∈ t.h → compat m' m = true

/-- No thread other than number `i` holds `l`. -/
def OnlyHolder (ts : List Thr) (i : Nat) (l : Lock) : Prop :=
  ∀ j t, ts[j]? = some t → j ≠ i → ∀ m', (l, m') ∉ t.h

/-- Replace the hold of `l`. -/
def rehold (h : List (Lock × Mode)) (l : Lock) (m : Mode) : List (Lock × Mode) :=
  h.map fun x => if x.1 = l then (l, m) else x

/-- Give `l` back. -/
def unhold (h : List (Lock × Mode)) (l : Lock) : List (Lock × Mode) :=
  h.filter fun x => x.1 ≠ l

/-- One step of thread `i`. -/
inductive Step : Sys → Nat → Sys → Prop where
  | look {c ts i k h} : ts[i]? = some ⟨.look k, h⟩ → Step ⟨c, ts⟩ i ⟨c, ts.set i ⟨k c, h⟩⟩
  | upd {c ts i f k h} : ts[i]? = some ⟨.upd f k, h⟩ → Step ⟨c, ts⟩ i ⟨f c, ts.set i ⟨k, h⟩⟩
  | pick {c ts i k h} (b : Bool) : ts[i]? = some ⟨.pick k, h⟩ → Step ⟨c, ts⟩ i ⟨c, ts.set i ⟨k b, h⟩⟩
  | acq {c ts i l m k h} : ts[i]? = some ⟨.acq l m k, h⟩ → Free ts l m →
      Step ⟨c, ts⟩ i ⟨c, ts.set i ⟨k, (l, m) :: h⟩⟩
  | upg {c ts i l k h} : ts[i]? = some ⟨.upg l k, h⟩ → OnlyHolder ts i l →
      Step ⟨c, ts⟩ i ⟨c, ts.set i ⟨k, rehold h l .write⟩⟩
  | down {c ts i l k h} : ts[i]? = some ⟨.down l k, h⟩ → Step ⟨c, ts⟩ i ⟨c, ts.set i ⟨k, rehold h l .read⟩⟩
  | rel {c ts i l k h} : ts[i]? = some ⟨.rel l k, h⟩ → Step ⟨c, ts⟩ i ⟨c, ts.set i ⟨k, unhold h l⟩⟩
  | panic {c ts i h} : ts[i]? = some ⟨.panic, h⟩ → Step ⟨c, ts⟩ i ⟨c, ts.set i ⟨.done, []⟩⟩

/-- Runs of any length and any schedule. -/
inductive Run : Sys → Sys → Prop where
  | refl (s) : Run s s
  | tail {s s' s'' i} : Run s s' → Step s' i s'' → Run s s''

/-- The clients before their first step. -/
def start (c : Cat) (qs : List (List Stmt)) : Sys :=
  ⟨c, qs.map fun q => ⟨client q, []⟩⟩

/-- Every thread is finished. -/
def Sys.finished (s : Sys) : Prop := ∀ t ∈ s.ts, t.p = .done

/-- Deadlock: some thread is not finished and nobody can ever move. -/
def Sys.stuck (s : Sys) : Prop := ¬ s.finished ∧ ∀ i s', ¬ Step s i s'

/-- Thread `t` is asking for a write hold of `l`. -/
def Thr.asksWrite (t : Thr) (l : Lock) : Prop :=
  (∃ k, t.p = .acq l .write k) ∨ ∃ k, t.p = .upg l k

/-- Thread `i` can move even if the lock lets a waiting writer go before new readers, as parking_lot may: a read hold is
then refused as soon as some thread asks for a write hold. -/
def MovesFair (s : Sys) (i : Nat) : Prop :=
  ∃ t, s.ts[i]? = some t ∧
    match t.p with
    | .done => False
    | .acq l m _ => Free s.ts l m ∧ (m ≠ .write → ∀ t' ∈ s.ts, ¬ t'.asksWrite l)
    | .upg l _ => OnlyHolder s.ts i l
    | _ => True

end Verif.Locks
