import Verif.Dml.Table
import Verif.Conc.Lin
/-!
Statements on the rows of one model that run at the same time (`core/dml/*.rs`, `core/index/mod.rs`), in their atomic steps. An
operation of the index is one step (C40), and so is what a statement does to a row under the lock of the row. The columns do not
change meanwhile: ALTER MODEL excludes the other statements by the lock of the model (C36).
-/
namespace Verif.Dml.Par
open Verif.Gns (Model)
open Verif.Gns (fget)
open Verif.Conc (Ev upd)

/-- How far a statement has come. -/
inductive Pos where
  | idle
  /-- It was received. -/
  | called (s : Stmt)
  /-- INSERT holds the latch of the index, shared (`core/dml/ins.rs:50`). -/
  | insert (d : InsData) (k : Key) (c : Cells)
  /-- It has its version (line 54). -/
  | insertV (v : Nat) (d : InsData) (k : Key) (c : Cells)
  /-- DELETE holds the latch of the index, shared (`core/dml/del.rs:48`). -/
  | delete (w : Where)
  /-- It has its version (line 50). -/
  | deleteV (v : Nat) (w : Where)
  /-- UPDATE or SELECT has found the row and waits for its lock (`core/dml/upd.rs:267`, `core/dml/sel.rs:200`). -/
  | found (i : Nat) (s : Stmt)
  /-- Only the change is to be appended. UPDATE holds the lock of the row, the others the latch. -/
  | push (d : Delta)
  /-- SELECT ALL holds the latch exclusively; the rows that it will read and those that it has read
  (`core/dml/sel.rs:217-263`). -/
  | reading (ks : List String) (rest : List (Key × Nat)) (acc : List (List Cell))
  /-- The answer is to be sent. -/
  | done (r : Reply)

/-- The table, the statements, who holds the latch shared, whether somebody holds it exclusively, and the rows that are locked
for writing beyond a step. -/
structure St where
  t : Tbl
  th : Nat → Pos
  shared : List Nat
  excl : Bool
  held : List Nat

/-- What can happen next: a client sends a statement, a thread makes a step, an answer is sent, or the background service
takes pending changes. -/
inductive Sch where
  | call (n : Nat) (s : Stmt)
  | go (n : Nat)
  | ret (n : Nat)
  | flush (n : Nat)

def St.at (s : St) (n : Nat) (p : Pos) : St := { s with th := upd s.th n p }

/-- What is in a row: the cells and the version of the columns. -/
abbrev Data := Cells × Nat

def RowObj.data (r : RowObj) : Data := (r.cells, r.schema)

/-- `resolve` for the contents of a row. -/
def resolveData (m : Model) (x : Data) : Data := RowObj.data (resolve m.deltas ⟨.illegal, x.1, x.2, 0⟩)

/-- What UPDATE and SELECT do to a row under its lock, and the answer. -/
def rowAct (F : FloatOps) (m : Model) (s : Stmt) (x : Data) : Data × Reply :=
  match s with
  | .update as _ =>
    match updLoop F m.fields as x.1 [] with
    | .done c => ((c, x.2), .empty)
    | .fail e c rb => ((restore c rb, x.2), .err e)
    | .panic c => ((c, x.2), .panic)
  | .select fs w =>
    match resolveWhere m w with
    | some k =>
      (resolveData m x,
        match readFields m.pk (keyCellSel k) (resolveData m x).1 (fs.getD (colNames m.fields)) with
        | some cs => .row cs
        | none => .err .unknownField)
    | none => (x, .err .unindexed)
  | _ => (x, .empty)

/-- UPDATE or SELECT looks for its row. -/
def look (s : St) (n : Nat) (st : Stmt) (w : Where) : St :=
  match resolveWhere s.t.model w with
  | none => s.at n (.done (.err .unindexed))
  | some k =>
    match kget s.t.idx k with
    | none => s.at n (.done (.err .rowNotFound))
    | some i => s.at n (.found i st)

/-- A row is replaced by one with other contents. -/
def setData (t : Tbl) (i : Nat) (r : RowObj) (x : Data) : Tbl := setRow t i { r with cells := x.1, schema := x.2 }

/-- A step of the thread `n`; `none` if it has to wait. -/
def step (F : FloatOps) (order : List (Key × Nat) → List (Key × Nat)) (s : St) (n : Nat) : Option St :=
  match s.th n with
  | .called (.insert d) =>
    match prepareInsert s.t.model d with
    | .ok (k, c) => if s.excl then none else some { s.at n (.insert d k c) with shared := n :: s.shared }
    | .err e => some (s.at n (.done (.err e)))
    | _ => some (s.at n (.done .panic))
  | .called (.delete w) => if s.excl then none else some { s.at n (.delete w) with shared := n :: s.shared }
  | .called (.update as w) => some (look s n (.update as w) w)
  | .called (.select fs w) => some (look s n (.select fs w) w)
  | .called (.selectAll fs lim) =>
    if fs.isSome && (decide ((colNames s.t.model.fields).length < (fs.getD (colNames s.t.model.fields)).length) ||
        (fs.getD (colNames s.t.model.fields)).any fun k => (fget s.t.model.fields k).isNone) then
      some (s.at n (.done (.err .unknownField)))
    else if s.excl ∨ s.shared ≠ [] then none
    else some { s.at n (.reading (fs.getD (colNames s.t.model.fields)) ((order s.t.idx).take lim) []) with excl := true }
  | .insert d k c => some { s.at n (.insertV s.t.ver d k c) with t := { s.t with ver := s.t.ver + 1 } }
  | .insertV v _ k c =>
    match kget s.t.idx k with
    | some _ => some { s.at n (.done (.err .duplicate)) with shared := s.shared.erase n }
    | none =>
      some { s.at n (.push ⟨v, .insert, s.t.heap.length⟩) with
        t := { s.t with
          heap := s.t.heap ++ [⟨k, c, s.t.model.deltas.length, v⟩], idx := s.t.idx ++ [(k, s.t.heap.length)] } }
  | .delete w => some { s.at n (.deleteV s.t.ver w) with t := { s.t with ver := s.t.ver + 1 } }
  | .deleteV v w =>
    match resolveWhere s.t.model w with
    | none => some { s.at n (.done (.err .unindexed)) with shared := s.shared.erase n }
    | some k =>
      match kget s.t.idx k with
      | none => some { s.at n (.done (.err .rowNotFound)) with shared := s.shared.erase n }
      | some i => some { s.at n (.push ⟨v, .delete, i⟩) with t := { s.t with idx := kdel s.t.idx k } }
  | .found i (.update as w) =>
    if i ∈ s.held then none
    else
      match s.t.heap[i]? with
      | none => some (s.at n (.done .panic))
      | some r =>
        match rowAct F s.t.model (.update as w) (RowObj.data r) with
        | (x, .empty) =>
          some { s.at n (.push ⟨s.t.ver, .update, i⟩) with
            t := setData { s.t with ver := s.t.ver + 1 } i { r with revised := s.t.ver } x, held := i :: s.held }
        | (x, e) => some { s.at n (.done e) with t := setData { s.t with ver := s.t.ver + 1 } i r x }
  | .found i st =>
    if i ∈ s.held then none
    else
      match s.t.heap[i]? with
      | none => some (s.at n (.done .panic))
      | some r =>
        match rowAct F s.t.model st (RowObj.data r) with
        | (x, e) => some { s.at n (.done e) with t := setData s.t i r x }
  | .push d =>
    some { s.at n (.done .empty) with
      t := { s.t with queue := s.t.queue ++ [d] }
      shared := if d.kind = .update then s.shared else s.shared.erase n
      held := if d.kind = .update then s.held.erase d.row else s.held }
  | .reading ks [] acc => some { s.at n (.done (.rows ks.length acc)) with excl := false }
  | .reading ks ((k, i) :: rest) acc =>
    if i ∈ s.held then none
    else
      match s.t.heap[i]? with
      | none => some { s.at n (.done .panic) with excl := false }
      | some r =>
        match readAll s.t.model.pk (keyCellAll s.t.model.pkTag k) (resolveData s.t.model (RowObj.data r)).1 ks with
        | none =>
          some { s.at n (.done .panic) with
            excl := false, t := setData s.t i r (resolveData s.t.model (RowObj.data r)) }
        | some cs =>
          some { s.at n (.reading ks rest (acc ++ [cs])) with
            t := setData s.t i r (resolveData s.t.model (RowObj.data r)) }
  | _ => none

/-- One thing happens; the events are what clients see. -/
def sched (F : FloatOps) (order : List (Key × Nat) → List (Key × Nat)) (s : St) : Sch → Option (St × Option (Ev Stmt Reply))
  | .call n st =>
    match s.th n with
    | .idle => some (s.at n (.called st), some (.call n st))
    | _ => none
  | .go n => (step F order s n).map fun s => (s, none)
  | .ret n =>
    match s.th n with
    | .done r => some (s.at n .idle, some (.ret n r))
    | _ => none
  | .flush n => some ({ s with t := { s.t with queue := s.t.queue.drop n } }, none)

/-- A schedule. -/
def scheds (F : FloatOps) (order : List (Key × Nat) → List (Key × Nat)) : List Sch → St → Option (St × List (Ev Stmt Reply))
  | [], s => some (s, [])
  | o :: os, s =>
    (sched F order s o).bind fun (s, e) => (scheds F order os s).bind fun (s, es) => some (s, e.toList ++ es)

/-- A table that nobody uses. -/
def St.start (t : Tbl) : St := ⟨t, fun _ => .idle, [], false, []⟩

/-- A thread that is alone and makes steps until its answer. -/
def alone (F : FloatOps) (order : List (Key × Nat) → List (Key × Nat)) : Nat → St → Option (Tbl × Reply)
  | 0, _ => none
  | f + 1, s =>
    match s.th 0 with
    | .done r => some (s.t, r)
    | _ => (step F order s 0).bind (alone F order f)

theorem resolve_data (m : Model) (r : RowObj) :
    resolve m.deltas r = { r with cells := (resolveData m (RowObj.data r)).1, schema := (resolveData m (RowObj.data r)).2 } := by
  unfold resolveData resolve RowObj.data
  simp only
  split
  · rfl
  · split <;> rfl

end Verif.Dml.Par
