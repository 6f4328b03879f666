import Verif.Batch.Full
import Verif.Dml.ParTheorems
/-!
C78: many clients at once, batches that are written meanwhile, and clean restarts. The statements are those of `Verif.Dml.Par`, in
their atomic steps; a batch is written change by change between these steps.
-/
namespace Verif.Batch.Many
open Verif.Gns (Model)
open Verif.Dml (Key Delta Tbl FloatOps Stmt Where InsData Reply ATable SpecStep StmtOk WhereKey pairs assoc keyOfCell kget)
open Verif.Dml.Par (Pos St Sch sched)
open Verif.Conc (Ev ASt AThr upd)
open Verif.Journal (TW JW SErr openJournal)

/-! ### Writing a batch in steps -/

/-- The writes of the records, each as in `step` (`mdl_journal.rs:262-290`). -/
def writeRecs (w : TW) : List Rec → TW × Res SErr Unit
  | [] => (w, .ok ())
  | e :: es =>
    match writeRec w e with
    | (w, .ok ()) => writeRecs w es
    | (w, r) => (w, r)

/-- `batchWrite` when the changes were already taken from the queue: the same bytes (`recs_same`). -/
def recsWrite (n : Nat) (t : Tbl) (es : List Rec) (w : TW) : Out Unit :=
  andThen (dtrackAll w (le 8 n :: metaChunks t.model)) t fun w =>
    andThen (writeRecs w es) t fun w => batchEnd n ⟨w, t, 0, .ok es.length⟩

def commitRecs (w : JW) (t : Tbl) (n : Nat) (es : List Rec) : JW × Res SErr Unit :=
  w.commitWith 0 fun log => ((recsWrite n t es log).w, (recsWrite n t es log).res)

/-- A batch that is being written: its size, how many changes are still to be taken, and the records so far. -/
structure Cur where
  n : Nat
  left : Nat
  recs : List Rec

/-- The table with the clients, the writer of the data file, and the batch. The driver of the model is behind a mutex, so there
is at most one batch (`fractal/mgr.rs:521-558`). -/
structure Sys where
  s : St
  w : JW
  cur : Option Cur

/-- What can happen next: a client sends a statement, makes a step, or gets its answer; a batch begins, takes a change, or ends.
The bytes are written when the batch ends: nobody sees the file meanwhile. -/
inductive Act where
  | call (n : Nat) (st : Stmt)
  | go (n : Nat)
  | ret (n : Nat)
  | begin (n : Nat)
  | take
  | fin

/-- Give up when the file has `lim` bytes, the version counter is `lim`, or `lim` changes are pending. -/
def bound (lim : Nat) (x : Sys) (e : Option (Ev Stmt Reply)) : Run (Sys × Option (Ev Stmt Reply)) :=
  if x.w.log.disk.length < lim ∧ x.s.t.ver < lim ∧ x.s.t.queue.length < lim then .ok (x, e) else .full

def client (F : FloatOps) (order : List (Key × Nat) → List (Key × Nat)) (lim : Nat) (x : Sys) (o : Sch) :
    Option (Run (Sys × Option (Ev Stmt Reply))) :=
  (sched F order x.s o).map fun se => bound lim { x with s := se.1 } se.2

/-- One action; `none` if it is not possible now. A batch has as many changes as were pending when it began, or fewer
(`fractal/mgr.rs:473-484`). Taking an INSERT or UPDATE reads the row, which waits while the row is locked
(`mdl_journal.rs:269-285`); a deletion reads only the key (lines 264-268). -/
def act (F : FloatOps) (order : List (Key × Nat) → List (Key × Nat)) (lim : Nat) (x : Sys) :
    Act → Option (Run (Sys × Option (Ev Stmt Reply)))
  | .call n st => client F order lim x (.call n st)
  | .go n => client F order lim x (.go n)
  | .ret n => client F order lim x (.ret n)
  | .begin n =>
    match x.cur with
    | some _ => none
    | none => if 0 < n ∧ n ≤ x.s.t.queue.length then some (.ok ({ x with cur := some ⟨n, n, []⟩ }, none)) else none
  | .take =>
    match x.cur with
    | some ⟨n, l + 1, rs⟩ =>
      match x.s.t.queue with
      | [] => some .bad
      | d :: ds =>
        if d.kind ≠ .delete ∧ d.row ∈ x.s.held then none
        else
          some (.ok ({ x with
            s := { x.s with t := (stepRec { x.s.t with queue := ds } d).1 }
            cur := some ⟨n, l, rs ++ (stepRec { x.s.t with queue := ds } d).2.toList⟩ }, none))
    | _ => none
  | .fin =>
    match x.cur with
    | some ⟨n, 0, rs⟩ =>
      match commitRecs x.w x.s.t n rs with
      | (w, .ok ()) => some (bound lim { x with w := w, cur := none } none)
      | _ => some .bad
    | _ => none

/-- A list of actions; `none` if one of them is not possible. -/
def acts (F : FloatOps) (order : List (Key × Nat) → List (Key × Nat)) (lim : Nat) :
    List Act → Sys → Option (Run (Sys × List (Ev Stmt Reply)))
  | [], x => some (.ok (x, []))
  | a :: as, x =>
    match act F order lim x a with
    | none => none
    | some .full => some .full
    | some .bad => some .bad
    | some (.ok (y, e)) =>
      match acts F order lim as y with
      | some (.ok (z, es)) => some (.ok (z, e.toList ++ es))
      | some .full => some .full
      | some .bad => some .bad
      | none => none

/-- Nobody has an open statement, and no batch is being written. -/
def Quiet (x : Sys) : Prop := x.cur = none ∧ ∀ n, x.s.th n = .idle

def Sys.open (w : JW) (t : Tbl) : Sys := ⟨.start t, w, none⟩

/-- The counter is ahead of the rows. -/
def Ahead (t : Tbl) : Prop := ∀ k i r, kget t.idx k = some i → t.heap[i]? = some r → r.revised < t.ver

/-- How a session begins, and what the clients saw in the sessions before it, which were ended cleanly. -/
inductive Began (F : FloatOps) (order : List (Key × Nat) → List (Key × Nat)) (lim : Nat) (m : Model) (hdr : Bytes) :
    Sys → List (Ev Stmt Reply) → Prop where
  | first {w : JW} (hc : JW.create hdr [] = (w, .ok ())) : Began F order lim m hdr (.open w (Tbl.empty m)) []
  | next {x y : Sys} {as : List Act} {es es' : List (Ev Stmt Reply)} {file : Bytes} {v : Srv}
      (hb : Began F order lim m hdr x es) (hs : acts F order lim as x = some (.ok (y, es'))) (hq : Quiet y)
      (hd : shutdown lim ⟨y.w, y.s.t⟩ = .ok file) (ho : start lim m file = .ok (v, ())) (ha : Ahead v.t) :
      Began F order lim m hdr (.open v.w v.t) (es ++ es')

/-! ### What is asked of the clients -/

/-- The statements that are open after these events. -/
def openStep (f : Nat → Option Stmt) : Ev Stmt Reply → Nat → Option Stmt
  | .call n st => upd f n (some st)
  | .ret n _ => upd f n none

def opens (es : List (Ev Stmt Reply)) : Nat → Option Stmt := es.foldl openStep fun _ => none

/-- The statement may change the row of this key. -/
def Touches (m : Model) : Stmt → Key → Prop
  | .insert d, k => ∃ v, assoc (pairs m.fields d) m.pk = some v ∧ keyOfCell v = k
  | .update _ w, k => WhereKey m w k
  | .delete w, k => WhereKey m w k
  | _, _ => False

def isDel : Stmt → Bool
  | .delete _ => true
  | _ => false

/-- One of the statements deletes a row that the other one inserts or updates. -/
def Clash (m : Model) (a b : Stmt) : Prop := ∃ k, Touches m a k ∧ Touches m b k ∧ isDel a ≠ isDel b

/-- No two statements are open at the same time of which one deletes what the other one inserts or updates. -/
def Apart (m : Model) (es : List (Ev Stmt Reply)) : Prop :=
  ∀ pre n st post, es = pre ++ .call n st :: post → ∀ n' st', opens pre n' = some st' → ¬ Clash m st st'

/-! ### The specification -/

/-- A map from keys to rows with clients: each statement takes effect at once. -/
inductive SStep (F : FloatOps) (m : Model) : ASt ATable Stmt Reply → Option (Ev Stmt Reply) → ASt ATable Stmt Reply → Prop where
  | call {a n st} : a.thr n = .idle → SStep F m a (some (.call n st)) ⟨a.q, upd a.thr n (.pend st)⟩
  | lin {a : ASt ATable Stmt Reply} {n st B r} : a.thr n = .pend st → SpecStep F m a.q st B (Reply.norm r) →
      SStep F m a none ⟨B, upd a.thr n (.done r)⟩
  | ret {a n r} : a.thr n = .done r → SStep F m a (some (.ret n r)) ⟨a.q, upd a.thr n .idle⟩

inductive SRun (F : FloatOps) (m : Model) : ASt ATable Stmt Reply → List (Ev Stmt Reply) → ASt ATable Stmt Reply → Prop where
  | refl (a) : SRun F m a [] a
  | tail {a es b o c} : SRun F m a es b → SStep F m b o c → SRun F m a (es ++ o.toList) c

/-- No rows, no clients. -/
def fresh : ASt ATable Stmt Reply := ⟨fun _ => none, fun _ => .idle⟩

/-- The conditions of C31 and C32 for each open statement, whatever explains the events so far. -/
def Fair (F : FloatOps) (m : Model) (es : List (Ev Stmt Reply)) : Prop :=
  ∀ pre post, es = pre ++ post → ∀ a, SRun F m fresh pre a → ∀ n st, a.thr n = .pend st → StmtOk F m a.q st

/-- What the parser delivers. -/
def Tagged (es : List (Ev Stmt Reply)) : Prop := ∀ n st, .call n st ∈ es → StmtTags st

/-- All of this, and no `SELECT ALL`. -/
structure Allowed (F : FloatOps) (m : Model) (es : List (Ev Stmt Reply)) : Prop where
  apart : Apart m es
  fair : Fair F m es
  tagged : Tagged es
  noAll : Dml.Par.NoAll es

end Verif.Batch.Many
