import Verif.Batch.LifeTheorems
/-!
C13: statements that run at the same time on one model, in their atomic steps, with batches in between.
-/
namespace Verif.Batch
open Verif.Gns (Model)
open Verif.Dml (Key Cells RowObj DKind Delta Tbl kget kdel setRow FloatOps Stmt Asn Where Reply exec execInsert execDelete
  execUpdate updLoop restore prepareInsert resolveWhere exF exModel exRow whereId)
open Verif.Journal (JW)

/-! ### The steps of a statement -/

/-- How far a statement has come. -/
inductive Loc where
  /-- INSERT has its version (`core/dml/ins.rs:56`). -/
  | insert (v : Nat) (k : Key) (c : Cells)
  /-- UPDATE has found the row (`core/dml/upd.rs:267`). -/
  | found (i : Nat) (as : List Asn)
  /-- DELETE has its version (`core/dml/del.rs:50`). -/
  | delete (v : Nat) (w : Where)
  /-- Only the change is to be appended. An UPDATE holds the lock of the row until then. -/
  | push (d : Delta)

/-- A step leads to another one or to the reply. -/
abbrev Next := Loc ⊕ Reply

/-- The first step of a statement. SELECT is done in one step. The latch of INSERT and DELETE is shared
(`core/index/mod.rs:56-58`), so it does not keep them apart; only `SELECT ALL` takes it exclusively. -/
def begin1 (F : FloatOps) (order : List (Key × Nat) → List (Key × Nat)) (t : Tbl) : Stmt → Tbl × Next
  | .insert d =>
    match prepareInsert t.model d with
    | .ok (k, c) => ({ t with ver := t.ver + 1 }, .inl (.insert t.ver k c))
    | .err e => (t, .inr (.err e))
    | _ => (t, .inr .panic)
  | .update as w =>
    match resolveWhere t.model w with
    | none => (t, .inr (.err .unindexed))
    | some k =>
      match kget t.idx k with
      | none => (t, .inr (.err .rowNotFound))
      | some i => (t, .inl (.found i as))
  | .delete w => ({ t with ver := t.ver + 1 }, .inl (.delete t.ver w))
  | s => ((exec F order t s).1, .inr (exec F order t s).2)

/-- A later step: the index operation (one step, see C40), the change of the row under its lock, or the
append. -/
def go (F : FloatOps) (t : Tbl) : Loc → Tbl × Next
  | .insert v k c =>
    match kget t.idx k with
    | some _ => (t, .inr (.err .duplicate))
    | none =>
      ({ t with heap := t.heap ++ [⟨k, c, t.model.deltas.length, v⟩], idx := t.idx ++ [(k, t.heap.length)] },
        .inl (.push ⟨v, .insert, t.heap.length⟩))
  | .found i as =>
    match t.heap[i]? with
    | none => (t, .inr .panic)
    | some r =>
      match updLoop F t.model.fields as r.cells [] with
      | .done c =>
        (setRow { t with ver := t.ver + 1 } i { r with cells := c, revised := t.ver }, .inl (.push ⟨t.ver, .update, i⟩))
      | .fail e c rb => (setRow { t with ver := t.ver + 1 } i { r with cells := restore c rb }, .inr (.err e))
      | .panic c => (setRow { t with ver := t.ver + 1 } i { r with cells := c }, .inr .panic)
  | .delete v w =>
    match resolveWhere t.model w with
    | none => (t, .inr (.err .unindexed))
    | some k =>
      match kget t.idx k with
      | none => (t, .inr (.err .rowNotFound))
      | some i => ({ t with idx := kdel t.idx k }, .inl (.push ⟨v, .delete, i⟩))
  | .push d => ({ t with queue := t.queue ++ [d] }, .inr .empty)

/-- Go on with a statement until the reply; two more steps are enough (`alone_exec`). -/
def goOn (F : FloatOps) : Nat → Tbl × Next → Tbl × Option Reply
  | _, (t, .inr r) => (t, some r)
  | 0, (t, .inl _) => (t, none)
  | n + 1, (t, .inl l) => goOn F n (go F t l)

/-- The steps are those of the statements: a statement that runs alone does what `exec` does. -/
theorem alone_exec (F : FloatOps) (order : List (Key × Nat) → List (Key × Nat)) (t : Tbl)
    (ht : ∀ k i, kget t.idx k = some i → (t.heap[i]?).isSome) (s : Stmt) :
    goOn F 2 (begin1 F order t s) = ((exec F order t s).1, some (exec F order t s).2) := by
  cases s with
  | insert d =>
    rw [begin1, exec, execInsert]
    cases hp : prepareInsert t.model d with
    | ok x =>
      obtain ⟨k, c⟩ := x
      simp only [goOn, go]
      cases hk : kget t.idx k <;> simp [goOn, go]
    | err e => rfl
    | panic => rfl
    | hang => rfl
  | update as w =>
    rw [begin1, exec, execUpdate]
    cases hw : resolveWhere t.model w with
    | none => rfl
    | some k =>
      simp only
      cases hk : kget t.idx k with
      | none => rfl
      | some i =>
        obtain ⟨r, hr⟩ := Option.isSome_iff_exists.1 (ht k i hk)
        simp only [goOn, go, hr, Option.bind_some, Option.map_some]
        cases updLoop F t.model.fields as r.cells [] <;> simp [goOn, go, setRow]
  | delete w =>
    rw [begin1, exec, execDelete]
    simp only [goOn, go]
    cases hw : resolveWhere t.model w with
    | none => rfl
    | some k =>
      simp only
      cases hk : kget t.idx k with
      | none => rfl
      | some i => simp [goOn, go]
  | select fs w => rfl
  | selectAll fs n => rfl

/-! ### Schedules -/

/-- A model in memory, its writer, and the statements that are being executed. -/
structure CS where
  w : JW
  t : Tbl
  th : List (Option Loc)

/-- What can happen next: thread `i` begins a statement or goes on, or a batch is written. -/
inductive COp where
  | begin (i : Nat) (s : Stmt)
  | go (i : Nat)
  | flush (n : Nat)

/-- Somebody holds the lock of the row. -/
def locked (th : List (Option Loc)) (i : Nat) : Bool :=
  th.any fun
    | some (.push d) => d.kind == .update && d.row == i
    | _ => false

/-- The step waits for the lock of the row. -/
def waits (th : List (Option Loc)) : Loc → Bool
  | .found i _ => locked th i
  | _ => false

/-- After a step of the thread `i`. -/
def CS.next (s : CS) (i : Nat) : Tbl × Next → CS × List Reply
  | (t, .inl l) => (⟨s.w, t, s.th.set i (some l)⟩, [])
  | (t, .inr r) => (⟨s.w, t, s.th.set i none⟩, [r])

/-- One step; `none` if it cannot happen now. The writer waits for the locks of the rows that it writes, but
a deletion is written without looking at the row (`mdl_journal.rs:262-268`). -/
def cstep (F : FloatOps) (s : CS) : COp → Option (CS × List Reply)
  | .begin i st =>
    match s.th[i]? with
    | some none => some (s.next i (begin1 F id s.t st))
    | _ => none
  | .go i =>
    match s.th[i]? with
    | some (some l) => if waits s.th l then none else some (s.next i (go F s.t l))
    | _ => none
  | .flush n =>
    if n ≤ s.t.queue.length ∧ (s.t.queue.take n).all (fun d => d.kind == .delete || !locked s.th d.row) then
      match flushSome 100000 ⟨s.w, s.t⟩ n with
      | .ok (x, _) => some (⟨x.w, x.t, s.th⟩, [])
      | _ => none
    else none

def csteps (F : FloatOps) : List COp → CS → Option (CS × List Reply)
  | [], s => some (s, [])
  | o :: os, s =>
    (cstep F s o).bind fun (s, r) => (csteps F os s).bind fun (s, rs) => some (s, r ++ rs)

/-- All statements are answered. -/
def CS.quiet (s : CS) : Bool := s.th.all fun l => l.isNone

/-- Run a schedule to the end, shut down, restart, and go on with a schedule there, and so on. `none` if a
schedule is impossible; the replies of a session whose file cannot be opened are missing. -/
def clife (F : FloatOps) (m : Model) : List (List COp) → CS → Option (List (Option (List Reply)))
  | [], _ => some []
  | os :: rest, s =>
    (csteps F os s).bind fun (s, rs) =>
      if s.quiet then
        match rest, shutdown 100000 ⟨s.w, s.t⟩ with
        | [], _ => some [some rs]
        | _, .ok file =>
          match start 100000 m file with
          | .ok (x, _) => (clife F m rest ⟨x.w, x.t, s.th⟩).map (some rs :: ·)
          | _ => some [some rs, none]
        | _, _ => none
      else none

/-- Three threads and a new model. -/
def cs0 (m : Model) : CS := ⟨(JW.create exHdr []).1, Tbl.empty m, [none, none, none]⟩

def cshow (o : Option (List (Option (List Reply)))) : Option (List (Option (List (List Bytes)))) :=
  o.map fun l => l.map fun r => r.map fun rs => rs.map showReply

/-- A whole statement in thread 0. -/
def whole (s : Stmt) : List COp := [.begin 0 s, .go 0, .go 0]

def exSel1 : COp := .begin 0 (.select (some ["id", "n"]) (whereId 1))
def exUpd1 : Stmt := .update [⟨"n", .assign, .uint 7⟩] (whereId 1)
def exDel1 : Stmt := .delete (whereId 1)

/-- A batch waits for the row of an UPDATE that has not yet given it back, and not for that of an INSERT. -/
example : (csteps exF (whole (exRow 1 .null) ++ [.begin 1 exUpd1, .go 1]) (cs0 exModel)).isSome = true ∧
    (csteps exF (whole (exRow 1 .null) ++ [.begin 1 exUpd1, .go 1, .flush 1]) (cs0 exModel)).isNone = true ∧
    (csteps exF (whole (exRow 1 .null) ++ [.begin 1 exUpd1, .go 1, .go 1, .flush 1]) (cs0 exModel)).isSome = true ∧
    (csteps exF (whole (exRow 1 .null) ++ [.begin 1 (exRow 2 .null), .go 1, .flush 1]) (cs0 exModel)).isSome = true := by
  refine ⟨?_, ?_, ?_, ?_⟩ <;> decide +kernel

/-! ### C13 -/

/-- A schedule without interleaving is fine. -/
example : cshow (clife exF exModel [whole (exRow 1 .null) ++ whole exUpd1 ++ whole exDel1 ++ [exSel1], [exSel1]] (cs0 exModel)) =
    some [some [[], [], [], showReply (.err .rowNotFound)], some [showReply (.err .rowNotFound)]] := by
  decide +kernel

/-- **C13 is violated.** UPDATE finds the row; DELETE removes it and is acknowledged; UPDATE goes on with the
removed row and is acknowledged too. The row does not exist; after a restart it does. -/
theorem C13_update_of_a_deleted_row_violated :
    cshow (clife exF exModel
      [whole (exRow 1 .null) ++ [.begin 1 exUpd1] ++ whole exDel1 ++ [exSel1, .go 1, .go 1, exSel1], [exSel1]] (cs0 exModel)) =
    some [some [[], [], showReply (.err .rowNotFound), [], showReply (.err .rowNotFound)],
      some [showReply (.row [.uint .uint64 1, .uint .uint8 7])]] := by
  decide +kernel

/-- **C13 is violated.** The UPDATE comes first (it has the lower version), but its change is appended after
that of the DELETE, and a batch is written between the two. -/
theorem C13_split_over_batches_violated :
    cshow (clife exF exModel
      [whole (exRow 1 .null) ++ [.flush 1, .begin 1 exUpd1, .go 1] ++ whole exDel1 ++ [.flush 1, .go 1, exSel1], [exSel1]]
      (cs0 exModel)) =
    some [some [[], [], [], showReply (.err .rowNotFound)],
      some [showReply (.row [.uint .uint64 1, .uint .uint8 7])]] ∧
    cshow (clife exF exModel
      [whole (exRow 1 .null) ++ [.flush 1, .begin 1 exUpd1, .go 1] ++ whole exDel1 ++ [.go 1, exSel1], [exSel1]]
      (cs0 exModel)) =
    some [some [[], [], [], showReply (.err .rowNotFound)], some [showReply (.err .rowNotFound)]] := by
  constructor <;> decide +kernel

/-- **C13 is violated.** The DELETE has the lower version and removes the row after the UPDATE: the row is
restored, in one batch or in two. -/
theorem C13_older_delete_violated :
    cshow (clife exF exModel
      [whole (exRow 1 .null) ++ [.begin 1 exDel1] ++ whole exUpd1 ++ [.go 1, .go 1, exSel1], [exSel1]] (cs0 exModel)) =
    some [some [[], [], [], showReply (.err .rowNotFound)],
      some [showReply (.row [.uint .uint64 1, .uint .uint8 7])]] := by
  decide +kernel

/-- **C11 is violated.** An INSERT takes its version, a DELETE of the same key takes the next one and removes
the old row, the INSERT succeeds. Both are acknowledged and the new row is live; after a restart it is gone. -/
theorem C11_inserted_row_lost_violated :
    cshow (clife exF exModel
      [whole (exRow 1 .null) ++ [.begin 1 (exRow 1 .null), .begin 2 exDel1, .go 2, .go 1, .go 1, .go 2, exSel1], [exSel1]]
      (cs0 exModel)) =
    some [some [[], [], [], showReply (.row [.uint .uint64 1, .uint .uint8 200])],
      some [showReply (.err .rowNotFound)]] := by
  decide +kernel

/-- **C11 is violated.** Two INSERTs of different keys: the one with the higher version is in an earlier
batch. After a restart the version counter is too low; an UPDATE gets the version that its row has already;
the next restart fails (an assertion of the reader). -/
theorem C11_version_regress_violated :
    cshow (clife exF exModel
      [[.begin 1 (exRow 2 .null)] ++ whole (exRow 1 .null) ++ [.flush 1, .go 1, .go 1, .flush 1],
       whole exUpd1, [exSel1]] (cs0 exModel)) =
    some [some [[], []], some [[]], none] := by
  decide +kernel

/-- **C13 (partial).** In the lives of C11, that is with statements one after the other: a row that does not
exist before a restart does not exist after it. Missing (and false): statements at the same time. -/
theorem C13_deleted_stays_deleted_partial {F : FloatOps} {order : List (Key × Nat) → List (Key × Nat)}
    (ho : ∀ l, (order l).Perm l) {m : Model} (hm : LifeOk m) {lim : Nat} (hlim : lim ≤ 2 ^ 62) {hdr : Bytes}
    (hh : hdr.length = Journal.HEADER) (hlo : Journal.HEADER < lim) {first : List Op} {rest : List (List Op)}
    (hx : ∀ os ∈ first :: rest, Fixed os) (hf : Dml.Fine F m ((first :: rest).map stmts).flatten (fun _ => none))
    (ht : ∀ st ∈ ((first :: rest).map stmts).flatten, StmtTags st) {e : End}
    (he : life F order lim m hdr first rest = .ok e) {k : Key} (hk : Dml.abs e.t k = none) :
    ∃ w T, Journal.openJournal batchDecode (Tbl.empty m) e.file [] = .ok (w, T) ∧ Dml.abs T k = none := by
  rcases C11_restarts_are_invisible_partial ho hm hlim hh hlo hx hf ht with h | ⟨e', h, _, w, T, h1, h2⟩
  · rw [h] at he; cases he
  · rw [h] at he
    cases he
    exact ⟨w, T, h1, by rw [h2]; exact hk⟩

end Verif.Batch
