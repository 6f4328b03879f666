import Verif.Batch.LifeTheorems
/-!
C14: the tasks that write batches (`fractal/mgr.rs`), the counter of pending changes
(`core/model/delta.rs:86-110, 147-149`), and what happens when a write fails.
-/
namespace Verif.Batch
open Verif.Gns (Model)
open Verif.Dml (Key Delta DKind Tbl kget kdel setRow resolve FloatOps Stmt exec Reply abs Fine SpecRun Inv)
open Verif.Journal (TW JW SErr Sys MASK)

/-! ### Model -/

/-- A model and its tasks. `size` is `data_deltas_size`; `flight` is how many statements have put their
change in the queue and not yet counted it (`core/model/delta.rs:95-98`: first the one, then the other);
`tasks` are the sizes of the batches that are to be written, by `WriteBatch` tasks or by the general executor
after it has taken the counter; `iffy` is the state of the driver. -/
structure TS where
  w : JW
  t : Tbl
  size : Nat
  flight : Nat
  tasks : List Nat
  iffy : Bool

/-- What can happen. The code decides when to take the counter (`fractal/mod.rs:150-174`: the queue is long;
`fractal/mgr.rs:474-481`: a timer), and in what order tasks run (two services); here it is any time and
any order. `heal` is `TryModelAutorecoverLWT` (`fractal/mgr.rs:347-374`), here at any time; `io` sets the
outcomes of the coming system calls. -/
inductive TOp where
  | stmt (s : Stmt)
  | count
  | take
  | write (i : Nat)
  | heal
  | io (l : List Sys)

/-- What an operation did: changes were queued, a batch was written, or a batch failed: changes that were
taken from the queue and are not in it any more, and by how much the counters are then too high. -/
inductive TEv where
  | queued (ds : List Delta)
  | wrote (ds : List Delta)
  | failed (lost : List Delta) (excess : Nat)

/-- A statement that needs a healthy driver (`core/mod.rs:174-199`). -/
def changes : Stmt → Bool
  | .insert _ | .update _ _ | .delete _ => true
  | _ => false

/-- Whether a batch fails in the loop over the changes. Only then a change is put back, and counted again
(`mdl_journal.rs:238-242`). -/
def failsInLoop (w : JW) (t : Tbl) (n : Nat) : Bool :=
  match w.log.writeAll [le 16 w.txnId, le 8 (0 ||| MASK)] with
  | (log, .ok ()) =>
    match dtrackAll log (le 8 n :: metaChunks t.model) with
    | (log, .ok ()) =>
      match (batchLoop n 0 0 log t).res with
      | .err _ => true
      | _ => false
    | _ => false
  | _ => false

/-- `re_enqueue_model_sync` after the failed batch `n` (`fractal/mgr.rs:302-316`). -/
def afterFailure (s : TS) (i n : Nat) (w : JW) (t : Tbl) (actual : Nat) : TS × List TEv :=
  let taken := s.t.queue.length - t.queue.length
  if failsInLoop s.w s.t n then
    ({ s with w, t, size := s.size + 1, tasks := s.tasks.eraseIdx i ++ [n - actual], iffy := true },
      [.failed (s.t.queue.take taken) 1])
  else
    ({ s with w, t, tasks := s.tasks.eraseIdx i ++ [n - actual], iffy := true }, [.failed (s.t.queue.take taken) taken])

/-- `try_write_model_data_batch` (`fractal/mgr.rs:518-558`) and its callers (376-411, 474-512). `none` is an
abort. -/
def twrite (s : TS) (i n : Nat) : Option (TS × List TEv) :=
  if s.iffy then some ({ s with tasks := s.tasks.eraseIdx i ++ [n] }, [])
  else if n = 0 then some ({ s with tasks := s.tasks.eraseIdx i }, [])
  else
    match commitBatch s.w s.t n with
    | (w, t, _, .ok ()) => some ({ s with w, t, tasks := s.tasks.eraseIdx i }, [.wrote (s.t.queue.take n)])
    | (w, t, actual, .err _) => some (afterFailure s i n w t actual)
    | _ => none

/-- A heartbeat that succeeds makes the driver healthy. -/
def theal (s : TS) : TS :=
  match s.w.heartbeat with
  | (w, .ok ()) => { s with w, iffy := false }
  | _ => s

def tstep (F : FloatOps) (order : List (Key × Nat) → List (Key × Nat)) (s : TS) : TOp → Option (TS × List TEv)
  | .stmt st =>
    if changes st && s.iffy then some (s, [])
    else
      some ({ s with t := (exec F order s.t st).1, flight := s.flight + ((exec F order s.t st).1.queue.length - s.t.queue.length) },
        [.queued ((exec F order s.t st).1.queue.drop s.t.queue.length)])
  | .count => some (if s.flight = 0 then s else { s with flight := s.flight - 1, size := s.size + 1 }, [])
  | .take => some ({ s with tasks := s.tasks ++ [s.size], size := 0 }, [])
  | .write i =>
    match s.tasks[i]? with
    | none => some (s, [])
    | some n => twrite s i n
  | .heal => some (theal s, [])
  | .io l => some ({ s with w := { s.w with log := { s.w.log with io := l } } }, [])

def tsteps (F : FloatOps) (order : List (Key × Nat) → List (Key × Nat)) : List TOp → TS → Option (TS × List TEv)
  | [], s => some (s, [])
  | o :: os, s =>
    (tstep F order s o).bind fun (s, a) => (tsteps F order os s).bind fun (s, b) => some (s, a ++ b)

/-! ### Specification -/

/-- All changes that were queued, in order. -/
def queuedOf : List TEv → List Delta
  | [] => []
  | .queued ds :: es => ds ++ queuedOf es
  | _ :: es => queuedOf es

/-- The changes of the batches that were written. -/
def wroteOf : List TEv → List Delta
  | [] => []
  | .wrote ds :: es => ds ++ wroteOf es
  | _ :: es => wroteOf es

/-- The changes that were taken by batches that failed. -/
def lostOf : List TEv → List Delta
  | [] => []
  | .failed ds _ :: es => ds ++ lostOf es
  | _ :: es => lostOf es

def excessOf : List TEv → Nat
  | [] => 0
  | .failed _ k :: es => k + excessOf es
  | _ :: es => excessOf es

/-- How many changes are claimed to be in the queue. -/
def TS.claims (s : TS) : Nat := s.size + s.flight + s.tasks.sum

/-! ### Lemmas -/

theorem batchLoop_queue : ∀ (n i s : Nat) (w : TW) (t : Tbl),
    (∀ k, (batchLoop n i s w t).res = .ok k → n ≤ t.queue.length ∧ (batchLoop n i s w t).t.queue = t.queue.drop n) ∧
    (∀ e, (batchLoop n i s w t).res = .err e → ∃ k d, k < n ∧ (batchLoop n i s w t).actual = i + k ∧ t.queue[k]? = some d ∧
      (batchLoop n i s w t).t.queue = t.queue.drop (k + 1) ++ [d])
  | 0, i, s, w, t => by
    constructor
    · intro k _; exact ⟨Nat.zero_le _, rfl⟩
    · intro e h; cases h
  | n + 1, i, s, w, t => by
    rw [batchLoop]
    cases hq : t.queue with
    | nil => simp only; constructor <;> (intro _ h; cases h)
    | cons d ds =>
      have hsq := stepRec_queue { t with queue := ds } d
      simp only
      generalize stepRec { t with queue := ds } d = st at hsq
      obtain ⟨u, o⟩ := st
      simp only at hsq
      have again : ∀ (s' : Nat) (w' : TW),
          (∀ k, (batchLoop n (i + 1) s' w' u).res = .ok k → n + 1 ≤ (d :: ds).length ∧
            (batchLoop n (i + 1) s' w' u).t.queue = (d :: ds).drop (n + 1)) ∧
          (∀ e, (batchLoop n (i + 1) s' w' u).res = .err e → ∃ k d', k < n + 1 ∧
            (batchLoop n (i + 1) s' w' u).actual = i + k ∧ (d :: ds)[k]? = some d' ∧
            (batchLoop n (i + 1) s' w' u).t.queue = (d :: ds).drop (k + 1) ++ [d']) := by
        intro s' w'
        obtain ⟨h1, h2⟩ := batchLoop_queue n (i + 1) s' w' u
        rw [hsq] at h1 h2
        constructor
        · intro k hk
          obtain ⟨a, b⟩ := h1 k hk
          exact ⟨by simpa using a, by rw [b, List.drop_succ_cons]⟩
        · intro e he
          obtain ⟨k, d', a, b, c, f⟩ := h2 e he
          exact ⟨k + 1, d', by omega, by rw [b]; omega, by simpa using c, by rw [f, List.drop_succ_cons]⟩
      cases o with
      | none => exact again s w
      | some e =>
        simp only
        generalize writeRec w e = wr
        obtain ⟨w', r⟩ := wr
        cases r with
        | ok _ => exact again (s + 1) w'
        | err x =>
          simp only
          constructor
          · intro k h; cases h
          · intro e' _
            exact ⟨0, d, by omega, rfl, rfl, by simp [requeue, hsq]⟩
        | panic => constructor <;> (intro _ h; cases h)
        | hang => constructor <;> (intro _ h; cases h)

theorem andThen_cases {α : Type} (x : TW × Res SErr Unit) (t : Tbl) (f : TW → Out α) :
    (∃ w, x = (w, .ok ()) ∧ andThen x t f = f w) ∨
      ((andThen x t f).t = t ∧ (andThen x t f).actual = 0 ∧ ∀ a, (andThen x t f).res ≠ .ok a) := by
  obtain ⟨w, r⟩ := x
  cases r with
  | ok u => exact .inl ⟨w, rfl, rfl⟩
  | err e => exact .inr ⟨rfl, rfl, by intro a h; cases h⟩
  | panic => exact .inr ⟨rfl, rfl, by intro a h; cases h⟩
  | hang => exact .inr ⟨rfl, rfl, by intro a h; cases h⟩

/-- What is left in the queue after a batch of `n` changes. -/
def QueueAfter (q q' : List Delta) (n actual : Nat) (inLoop : Bool) : Res SErr Unit → Prop
  | .ok _ => n ≤ q.length ∧ q' = q.drop n ∧ actual = 0 ∧ inLoop = false
  | .err _ =>
    (inLoop = true ∧ ∃ k d, k < n ∧ actual = k ∧ q[k]? = some d ∧ q' = q.drop (k + 1) ++ [d]) ∨
    (inLoop = false ∧ actual = 0 ∧ (q' = q ∨ (n ≤ q.length ∧ q' = q.drop n)))
  | _ => True

def loopErr (o : Out Nat) : Bool :=
  match o.res with
  | .err _ => true
  | _ => false

theorem batchEnd_queue {n : Nat} {o : Out Nat} {q : List Delta}
    (h1 : ∀ k, o.res = .ok k → n ≤ q.length ∧ o.t.queue = q.drop n)
    (h2 : ∀ e, o.res = .err e → ∃ k d, k < n ∧ o.actual = k ∧ q[k]? = some d ∧ o.t.queue = q.drop (k + 1) ++ [d]) :
    QueueAfter q (batchEnd n o).t.queue n (batchEnd n o).actual (loopErr o) (batchEnd n o).res := by
  obtain ⟨w, t, a, r⟩ := o
  cases r with
  | ok s =>
    obtain ⟨h3, h4⟩ := h1 s rfl
    simp only at h4
    simp only [batchEnd, loopErr]
    rcases andThen_cases (dtrackAll w (tailChunks n s)) t
        (fun w => andThen (w.resetPartial.1.trackedWrite (le 8 w.resetPartial.2)) t fun w => ⟨w, t, 0, .ok ()⟩) with
      ⟨w1, _, e⟩ | ⟨e1, e2, e3⟩
    · have e : andThen (dtrackAll w (tailChunks n s)) t (fun w =>
          match w.resetPartial with
          | (w, ck) => andThen (w.trackedWrite (le 8 ck)) t fun w => ⟨w, t, 0, .ok ()⟩) = _ := e
      rw [e]
      rcases andThen_cases (w1.resetPartial.1.trackedWrite (le 8 w1.resetPartial.2)) t
        (fun w => (⟨w, t, 0, .ok ()⟩ : Out Unit)) with ⟨w2, _, e⟩ | ⟨e1, e2, e3⟩
      · rw [e]; exact ⟨h3, h4, rfl, rfl⟩
      · rw [e1, e2, QueueAfter.eq_def]
        split
        · exact absurd ‹_› (e3 _)
        · exact .inr ⟨rfl, rfl, .inr ⟨h3, h4⟩⟩
        · trivial
    · have e1 : (andThen (dtrackAll w (tailChunks n s)) t (fun w =>
          match w.resetPartial with
          | (w, ck) => andThen (w.trackedWrite (le 8 ck)) t fun w => (⟨w, t, 0, .ok ()⟩ : Out Unit))).t = t := e1
      have e2 : (andThen (dtrackAll w (tailChunks n s)) t (fun w =>
          match w.resetPartial with
          | (w, ck) => andThen (w.trackedWrite (le 8 ck)) t fun w => (⟨w, t, 0, .ok ()⟩ : Out Unit))).actual = 0 := e2
      rw [e1, e2, QueueAfter.eq_def]
      split
      · exact absurd ‹_› (e3 _)
      · exact .inr ⟨rfl, rfl, .inr ⟨h3, h4⟩⟩
      · trivial
  | err e =>
    obtain ⟨k, d, a1, a2, a3, a4⟩ := h2 e rfl
    exact .inl ⟨rfl, k, d, a1, a2, a3, a4⟩
  | panic => trivial
  | hang => trivial

theorem commitWith_res (w : JW) (md : Nat) (ad : TW → TW × Res SErr Unit) :
    (∃ log, w.log.writeAll [le 16 w.txnId, le 8 (md ||| MASK)] = (log, .ok ()) ∧
      ((∃ log', ad log = (log', .ok ()) ∧ (w.commitWith md ad).2 = log'.flushSync.2) ∨
        (∀ x, (ad log).2 ≠ .ok x) ∧ (w.commitWith md ad).2 = (ad log).2)) ∨
    ((∀ x, (w.log.writeAll [le 16 w.txnId, le 8 (md ||| MASK)]).2 ≠ .ok x) ∧ ∀ x, (w.commitWith md ad).2 ≠ .ok x) := by
  unfold JW.commitWith JW.txnContext
  simp only
  rcases hx : w.log.writeAll [le 16 w.txnId, le 8 (md ||| MASK)] with ⟨log, r⟩
  cases r with
  | ok u =>
    refine .inl ⟨log, rfl, ?_⟩
    simp only
    rcases hy : ad log with ⟨log', r'⟩
    cases r' with
    | ok u' =>
      refine .inl ⟨log', rfl, ?_⟩
      simp only
      rcases hz : log'.flushSync with ⟨l, r⟩
      cases r <;> rfl
    | err e => exact .inr ⟨(by intro x h; cases h), rfl⟩
    | panic => exact .inr ⟨(by intro x h; cases h), rfl⟩
    | hang => exact .inr ⟨(by intro x h; cases h), rfl⟩
  | err e => exact .inr ⟨(by intro x h; cases h), (by intro x h; cases h)⟩
  | panic => exact .inr ⟨(by intro x h; cases h), (by intro x h; cases h)⟩
  | hang => exact .inr ⟨(by intro x h; cases h), (by intro x h; cases h)⟩

theorem batchWrite_queue (n : Nat) (t : Tbl) (w : TW) :
    QueueAfter t.queue (batchWrite n t w).t.queue n (batchWrite n t w).actual
      (match dtrackAll w (le 8 n :: metaChunks t.model) with
        | (log, .ok ()) => loopErr (batchLoop n 0 0 log t)
        | _ => false) (batchWrite n t w).res := by
  rw [batchWrite]
  rcases dtrackAll w (le 8 n :: metaChunks t.model) with ⟨log, r⟩
  cases r with
  | ok u =>
    obtain ⟨h1, h2⟩ := batchLoop_queue n 0 0 log t
    exact batchEnd_queue h1 (by
      intro e he
      obtain ⟨k, d, a, b, c, f⟩ := h2 e he
      exact ⟨k, d, a, by omega, c, f⟩)
  | err e => exact .inr ⟨rfl, rfl, .inl rfl⟩
  | panic => trivial
  | hang => trivial

theorem failsInLoop_eq {w : JW} {t : Tbl} {n : Nat} {log : TW}
    (h : w.log.writeAll [le 16 w.txnId, le 8 (0 ||| MASK)] = (log, .ok ())) :
    failsInLoop w t n = match dtrackAll log (le 8 n :: metaChunks t.model) with
      | (log, .ok ()) => loopErr (batchLoop n 0 0 log t)
      | _ => false := by
  rw [failsInLoop, h]
  simp only
  rcases dtrackAll log (le 8 n :: metaChunks t.model) with ⟨log, r⟩
  cases r with
  | ok u => simp only [loopErr]
  | err e => rfl
  | panic => rfl
  | hang => rfl

/-- What is left in the queue after committing a batch. -/
theorem commitBatch_queue (w : JW) (t : Tbl) (n : Nat) :
    QueueAfter t.queue (commitBatch w t n).2.1.queue n (commitBatch w t n).2.2.1 (failsInLoop w t n)
      (commitBatch w t n).2.2.2 := by
  have hc := commitWith_res w 0 (fun log => ((batchWrite n t log).w, (batchWrite n t log).res))
  rw [commitBatch]
  rcases hcw : w.commitWith 0 (fun log => ((batchWrite n t log).w, (batchWrite n t log).res)) with ⟨w', r⟩
  rw [hcw] at hc
  simp only at hc ⊢
  rcases hc with ⟨log, h1, hc⟩ | ⟨h1, h2⟩
  · rw [failsInLoop_eq h1, h1]
    simp only
    have hq := batchWrite_queue n t log
    rcases hc with ⟨log', h2, h3⟩ | ⟨h2, h3⟩
    · simp only [Prod.mk.injEq] at h2
      rw [h2.2] at hq
      obtain ⟨q1, q2, q3, q4⟩ := hq
      cases r with
      | ok u => exact ⟨q1, q2, q3, q4⟩
      | err e => exact .inr ⟨q4, q3, .inr ⟨q1, q2⟩⟩
      | panic => trivial
      | hang => trivial
    · rw [h3]; exact hq
  · rcases hwa : w.log.writeAll [le 16 w.txnId, le 8 (0 ||| MASK)] with ⟨log, r'⟩
    have hf : failsInLoop w t n = false := by
      rw [failsInLoop, hwa]
      rw [hwa] at h1
      cases r' with
      | ok u => exact absurd rfl (h1 u)
      | err e => rfl
      | panic => rfl
      | hang => rfl
    rw [hf]
    rw [hwa] at h1
    have : QueueAfter t.queue t.queue n 0 false r := by
      cases r with
      | ok u => exact absurd rfl (h2 u)
      | err e => exact .inr ⟨rfl, rfl, .inl rfl⟩
      | panic => trivial
      | hang => trivial
    cases r' with
    | ok u => exact absurd rfl (h1 u)
    | err e => exact this
    | panic => exact this
    | hang => exact this

theorem allLoop_queue (ks : List String) : ∀ (es : List (Key × Nat)) (t : Tbl), (Dml.allLoop ks es t).1.queue = t.queue
  | [], t => rfl
  | (k, i) :: es, t => by
    rw [Dml.allLoop]
    split
    · rfl
    · rename_i r _
      simp only
      split
      · rfl
      · have := allLoop_queue ks es (setRow t i (resolve t.model.deltas r))
        split <;> (rename_i h; rw [h] at this; exact this)

/-- A statement queues at most one change. -/
theorem exec_queue (F : FloatOps) (order : List (Key × Nat) → List (Key × Nat)) (t : Tbl) (st : Stmt) :
    (exec F order t st).1.queue = t.queue ∨ ∃ d, (exec F order t st).1.queue = t.queue ++ [d] := by
  cases st with
  | insert d =>
    rw [exec, Dml.execInsert]
    split
    · split
      · exact .inl rfl
      · exact .inr ⟨_, rfl⟩
    · exact .inl rfl
    · exact .inl rfl
  | update as w =>
    rw [exec, Dml.execUpdate]
    split
    · exact .inl rfl
    · split
      · exact .inl rfl
      · simp only
        split
        · exact .inr ⟨_, rfl⟩
        · exact .inl rfl
        · exact .inl rfl
  | delete w =>
    rw [exec, Dml.execDelete]
    simp only
    split
    · exact .inl rfl
    · split
      · exact .inl rfl
      · exact .inr ⟨_, rfl⟩
  | select fs w =>
    rw [exec, Dml.execSelect]
    split
    · exact .inl rfl
    · split
      · exact .inl rfl
      · exact .inl rfl
  | selectAll fs n =>
    rw [exec, Dml.execSelectAll]
    split
    · exact .inl rfl
    · have := allLoop_queue (fs.getD (Dml.colNames t.model.fields)) ((order t.idx).take n) t
      split <;> (rename_i h; rw [h] at this; exact .inl this)

/-- The books of one or more operations, starting from `s`. -/
structure Books (s s' : TS) (evs : List TEv) : Prop where
  count : s'.claims + s.t.queue.length = s.claims + s'.t.queue.length + excessOf evs
  perm : (s.t.queue ++ queuedOf evs).Perm (wroteOf evs ++ lostOf evs ++ s'.t.queue)
  fifo : excessOf evs = 0 → s.t.queue ++ queuedOf evs = wroteOf evs ++ s'.t.queue ∧ lostOf evs = []

theorem Books.same {s s' : TS} (h : s'.claims = s.claims) (hq : s'.t.queue = s.t.queue) : Books s s' [] :=
  ⟨by rw [h, hq]; rfl, by rw [hq]; simp [queuedOf, wroteOf, lostOf], fun _ => by simp [hq, queuedOf, wroteOf, lostOf]⟩

theorem sum_eraseIdx : ∀ {l : List Nat} {i n : Nat}, l[i]? = some n → (l.eraseIdx i).sum + n = l.sum
  | [], i, n, h => by simp at h
  | x :: l, 0, n, h => by simp at h; subst h; simp [Nat.add_comm]
  | x :: l, i + 1, n, h => by
    have := sum_eraseIdx (l := l) (i := i) (n := n) (by simpa using h)
    simp only [List.eraseIdx_cons_succ, List.sum_cons]
    omega

theorem drop_perm {q : List Delta} {k : Nat} {d : Delta} (h : q[k]? = some d) :
    q.Perm (q.take k ++ (q.drop (k + 1) ++ [d])) := by
  have h2 : q = q.take k ++ d :: q.drop (k + 1) := by
    obtain ⟨hk, he⟩ := List.getElem?_eq_some_iff.1 h
    rw [← he, List.getElem_cons_drop, List.take_append_drop]
  have h3 : (q.take k ++ d :: q.drop (k + 1)).Perm (q.take k ++ (q.drop (k + 1) ++ [d])) :=
    List.Perm.append_left _ (List.perm_append_singleton d _).symm
  rw [← h2] at h3
  exact h3

theorem books_write {s s' : TS} {i n : Nat} {evs : List TEv} (hi : s.tasks[i]? = some n) (h : twrite s i n = some (s', evs)) :
    Books s s' evs := by
  have hsum := sum_eraseIdx hi
  rw [twrite] at h
  by_cases hf : s.iffy = true
  · rw [if_pos hf] at h
    cases h
    exact .same (by simp only [TS.claims, List.sum_append_nat, List.sum_cons, List.sum_nil]; omega) rfl
  · rw [if_neg hf] at h
    by_cases hn : n = 0
    · rw [if_pos hn] at h
      cases h
      exact .same (by simp only [TS.claims]; omega) rfl
    · rw [if_neg hn] at h
      have hq := commitBatch_queue s.w s.t n
      rcases hc : commitBatch s.w s.t n with ⟨w, t, a, r⟩
      rw [hc] at h hq
      simp only at hq
      cases r with
      | ok u =>
        simp only [Option.some.injEq, Prod.mk.injEq] at h
        obtain ⟨rfl, rfl⟩ := h
        obtain ⟨q1, q2, _⟩ := hq
        refine ⟨?_, ?_, fun _ => ?_⟩
        · simp only [TS.claims, q2, List.length_drop, excessOf]; omega
        · simp [queuedOf, wroteOf, lostOf, q2]
        · simp [queuedOf, wroteOf, lostOf, q2]
      | err e =>
        simp only [Option.some.injEq] at h
        rw [afterFailure] at h
        rcases hq with ⟨hl, k, d, k1, k2, k3, k4⟩ | ⟨hl, k2, hq⟩
        · simp only [hl, if_true, Prod.mk.injEq] at h
          obtain ⟨rfl, rfl⟩ := h
          obtain ⟨hk, _⟩ := List.getElem?_eq_some_iff.1 k3
          have hlen : t.queue.length = s.t.queue.length - k := by
            rw [k4]; simp only [List.length_append, List.length_drop, List.length_cons, List.length_nil]; omega
          refine ⟨?_, ?_, fun h => by simp [excessOf] at h⟩
          · simp only [TS.claims, hlen, excessOf, List.sum_append_nat, List.sum_cons, List.sum_nil, k2]; omega
          · simp only [queuedOf, wroteOf, lostOf, List.append_nil, List.nil_append]
            have : s.t.queue.length - t.queue.length = k := by omega
            rw [this, k4]
            exact drop_perm k3
        · simp only [hl, Bool.false_eq_true, if_false, Prod.mk.injEq] at h
          obtain ⟨rfl, rfl⟩ := h
          have hk : ∃ k, k ≤ s.t.queue.length ∧ t.queue = s.t.queue.drop k := by
            rcases hq with hq | ⟨h1, h2⟩
            · exact ⟨0, Nat.zero_le _, hq⟩
            · exact ⟨n, h1, h2⟩
          obtain ⟨k, h1, h2⟩ := hk
          have h3 : s.t.queue.length - t.queue.length = k := by rw [h2, List.length_drop]; omega
          refine ⟨?_, ?_, ?_⟩
          · simp only [TS.claims, excessOf, List.sum_append_nat, List.sum_cons, List.sum_nil, k2, h3]
            rw [h2, List.length_drop]; omega
          · simp only [queuedOf, wroteOf, lostOf, List.append_nil, List.nil_append, h3]
            rw [h2, List.take_append_drop]
          · simp only [excessOf, queuedOf, wroteOf, lostOf, List.append_nil, List.nil_append, h3, Nat.add_zero]
            rintro rfl
            rw [h2]; simp
      | panic => cases h
      | hang => cases h

theorem books_step {F : FloatOps} {order : List (Key × Nat) → List (Key × Nat)} {s s' : TS} {o : TOp} {evs : List TEv}
    (h : tstep F order s o = some (s', evs)) : Books s s' evs := by
  cases o with
  | stmt st =>
    rw [tstep] at h
    split at h
    · cases h; exact .same rfl rfl
    · cases h
      rcases exec_queue F order s.t st with hq | ⟨d, hq⟩
      · refine ⟨?_, ?_, fun _ => ?_⟩
        · simp only [TS.claims, hq, excessOf]; omega
        · simp [queuedOf, wroteOf, lostOf, hq]
        · simp [queuedOf, wroteOf, lostOf, hq]
      · refine ⟨?_, ?_, fun _ => ?_⟩
        · simp only [TS.claims, hq, excessOf, List.length_append, List.length_cons, List.length_nil]; omega
        · simp [queuedOf, wroteOf, lostOf, hq]
        · simp [queuedOf, wroteOf, lostOf, hq]
  | count =>
    rw [tstep] at h
    simp only [Option.some.injEq, Prod.mk.injEq] at h
    obtain ⟨rfl, rfl⟩ := h
    split
    · exact .same rfl rfl
    · exact .same (by simp only [TS.claims]; omega) rfl
  | take =>
    rw [tstep] at h
    cases h
    exact .same (by simp only [TS.claims, List.sum_append_nat, List.sum_cons, List.sum_nil]; omega) rfl
  | write i =>
    rw [tstep] at h
    split at h
    · cases h; exact .same rfl rfl
    · rename_i n hn; exact books_write hn h
  | heal =>
    rw [tstep] at h
    cases h
    rw [theal]
    split <;> exact .same rfl rfl
  | io l => rw [tstep] at h; cases h; exact .same rfl rfl

theorem queuedOf_append : ∀ (a b : List TEv), queuedOf (a ++ b) = queuedOf a ++ queuedOf b
  | [], _ => rfl
  | .queued _ :: a, b => by simp [queuedOf, queuedOf_append a b]
  | .wrote _ :: a, b => by simp [queuedOf, queuedOf_append a b]
  | .failed _ _ :: a, b => by simp [queuedOf, queuedOf_append a b]

theorem wroteOf_append : ∀ (a b : List TEv), wroteOf (a ++ b) = wroteOf a ++ wroteOf b
  | [], _ => rfl
  | .queued _ :: a, b => by simp [wroteOf, wroteOf_append a b]
  | .wrote _ :: a, b => by simp [wroteOf, wroteOf_append a b]
  | .failed _ _ :: a, b => by simp [wroteOf, wroteOf_append a b]

theorem lostOf_append : ∀ (a b : List TEv), lostOf (a ++ b) = lostOf a ++ lostOf b
  | [], _ => rfl
  | .queued _ :: a, b => by simp [lostOf, lostOf_append a b]
  | .wrote _ :: a, b => by simp [lostOf, lostOf_append a b]
  | .failed _ _ :: a, b => by simp [lostOf, lostOf_append a b]

theorem excessOf_append : ∀ (a b : List TEv), excessOf (a ++ b) = excessOf a + excessOf b
  | [], _ => by simp [excessOf]
  | .queued _ :: a, b => by simp [excessOf, excessOf_append a b]
  | .wrote _ :: a, b => by simp [excessOf, excessOf_append a b]
  | .failed _ _ :: a, b => by simp [excessOf, excessOf_append a b, Nat.add_assoc]

theorem Books.trans {s s1 s2 : TS} {a b : List TEv} (h : Books s s1 a) (g : Books s1 s2 b) : Books s s2 (a ++ b) := by
  refine ⟨?_, ?_, ?_⟩
  · have := h.count; have := g.count; rw [excessOf_append]; omega
  · rw [queuedOf_append, wroteOf_append, lostOf_append, ← List.append_assoc]
    refine (h.perm.append_right _).trans ?_
    rw [List.append_assoc]
    refine (g.perm.append_left _).trans ?_
    simp only [List.append_assoc]
    refine List.Perm.append_left _ ?_
    exact List.perm_append_comm_assoc _ _ _
  · intro he
    rw [excessOf_append] at he
    obtain ⟨h1, h2⟩ := h.fifo (by omega)
    obtain ⟨g1, g2⟩ := g.fifo (by omega)
    rw [queuedOf_append, wroteOf_append, lostOf_append, ← List.append_assoc, h1, List.append_assoc, g1, h2, g2]
    simp

theorem books {F : FloatOps} {order : List (Key × Nat) → List (Key × Nat)} : ∀ {os : List TOp} {s s' : TS} {evs : List TEv},
    tsteps F order os s = some (s', evs) → Books s s' evs
  | [], s, s', evs, h => by cases h; exact .same rfl rfl
  | o :: os, s, s', evs, h => by
    rw [tsteps] at h
    rcases h1 : tstep F order s o with _ | ⟨s1, a⟩
    · rw [h1] at h; cases h
    · rw [h1] at h
      simp only [Option.bind] at h
      rcases h2 : tsteps F order os s1 with _ | ⟨s2, b⟩
      · rw [h2] at h; cases h
      · rw [h2] at h
        cases h
        exact (books_step h1).trans (books h2)

end Verif.Batch
