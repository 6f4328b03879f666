import Verif.Batch.Task
/-!
C14: what is true and what is false of the batch writer.
-/
namespace Verif.Batch
open Verif.Gns (Model)
open Verif.Dml (Key Delta DKind Tbl FloatOps Stmt exec Reply abs Fine SpecRun exF exModel exRow whereId)
open Verif.Journal (TW JW SErr Sys MASK)

/-- A model that has just been opened. -/
def TS.fresh (w : JW) (t : Tbl) : TS := ⟨w, t, 0, 0, [], false⟩

/-- **C14 (partial).** Any statements, tasks, recoveries and failing system calls. Every change that was
queued is in a batch that was written, or in the queue, or was taken by a batch that failed; once and only
once. The counters exceed the length of the queue by what the failed batches left behind. If they left nothing
behind, changes are written in the order in which they were queued and the counters are exact. Missing (and
false, see below): failed batches leave nothing behind. -/
theorem C14_books_partial {F : FloatOps} {order : List (Key × Nat) → List (Key × Nat)} {os : List TOp} {w : JW} {t : Tbl}
    (ht : t.queue = []) {s : TS} {evs : List TEv} (h : tsteps F order os (.fresh w t) = some (s, evs)) :
    (queuedOf evs).Perm (wroteOf evs ++ lostOf evs ++ s.t.queue) ∧
      s.size + s.flight + s.tasks.sum = s.t.queue.length + excessOf evs ∧
      (excessOf evs = 0 → queuedOf evs = wroteOf evs ++ s.t.queue ∧ lostOf evs = []) := by
  obtain ⟨h1, h2, h3⟩ := books h
  simp only [TS.fresh, ht, TS.claims, List.nil_append, List.length_nil, List.sum_nil] at h1 h2 h3
  exact ⟨h2, by omega, h3⟩

/-! ### An error ends in an abort -/

theorem batchLoop_short : ∀ (n i s : Nat) {t : Tbl} {w : TW}, w.Good → t.queue.length < n →
    (batchLoop n i s w t).res = .panic
  | 0, i, s, t, w, h, hn => by omega
  | n + 1, i, s, t, w, h, hn => by
    rw [batchLoop]
    cases hq : t.queue with
    | nil => rfl
    | cons d ds =>
      have hsq := stepRec_queue { t with queue := ds } d
      simp only
      generalize stepRec { t with queue := ds } d = st at hsq
      obtain ⟨u, o⟩ := st
      simp only at hsq
      have hn' : u.queue.length < n := by rw [hsq]; rw [hq] at hn; simpa using hn
      cases o with
      | none => exact batchLoop_short n (i + 1) s h hn'
      | some e =>
        simp only
        by_cases he : e.key.uniq = .illegal
        · have : recChunks e = none := by
            rw [recChunks]
            cases hk : e.key <;> simp_all [Dml.Key.uniq, keyChunks]
          rw [writeRec, this]
        · obtain ⟨w1, e1, g1, _⟩ := writeRec_good h he
          rw [e1]
          exact batchLoop_short n (i + 1) (s + 1) g1 hn'

theorem batchLoop_healthy : ∀ (n i s : Nat) {t : Tbl} {w : TW}, w.Good →
    (∃ w' t' s', batchLoop n i s w t = ⟨w', t', 0, .ok s'⟩ ∧ w'.Good) ∨ (batchLoop n i s w t).res = .panic
  | 0, i, s, t, w, h => .inl ⟨w, t, s, rfl, h⟩
  | n + 1, i, s, t, w, h => by
    rw [batchLoop]
    cases hq : t.queue with
    | nil => exact .inr rfl
    | cons d ds =>
      simp only
      generalize stepRec { t with queue := ds } d = st
      obtain ⟨u, o⟩ := st
      cases o with
      | none => exact batchLoop_healthy n (i + 1) s h
      | some e =>
        simp only
        by_cases he : e.key.uniq = .illegal
        · have : recChunks e = none := by
            rw [recChunks]
            cases hk : e.key <;> simp_all [Dml.Key.uniq, keyChunks]
          rw [writeRec, this]
          exact .inr rfl
        · obtain ⟨w1, e1, g1, _⟩ := writeRec_good h he
          rw [e1]
          exact batchLoop_healthy n (i + 1) (s + 1) g1

theorem batchWrite_healthy (n : Nat) (t : Tbl) {w : TW} (h : w.Good) :
    (∃ w' t', batchWrite n t w = ⟨w', t', 0, .ok ()⟩ ∧ w'.Good) ∨ (batchWrite n t w).res = .panic := by
  obtain ⟨w1, e1, g1, _⟩ := dtrackAll_good h (le 8 n :: metaChunks t.model)
  rw [batchWrite, e1]
  simp only [andThen]
  rcases batchLoop_healthy n 0 0 (t := t) g1 with ⟨w2, t2, s2, e2, g2⟩ | e2
  · obtain ⟨w3, e3, g3, _⟩ := dtrackAll_good g2 (tailChunks n s2)
    obtain ⟨w4, e4, g4, _⟩ := (show ({ w3 with pck := Crc.new } : TW).Good from ⟨g3.io, g3.cur, g3.cap⟩).trackedWrite
      (le 8 (Crc.finish w3.pck))
    refine .inl ⟨w4, t2, ?_, g4⟩
    rw [e2]
    simp only [batchEnd, e3, andThen, TW.resetPartial, e4]
  · refine .inr ?_
    rw [batchEnd]
    simp only [e2]

/-- A batch on a writer without I/O errors is written or aborts. -/
theorem commitBatch_healthy {w : JW} (h : w.log.Good) (t : Tbl) (n : Nat) :
    (∃ w' t', commitBatch w t n = (w', t', 0, .ok ()) ∧ w'.log.Good) ∨ (commitBatch w t n).2.2.2 = .panic := by
  obtain ⟨l1, e1, g1, _⟩ := h.writeAll [le 16 w.txnId, le 8 (0 ||| MASK)]
  rw [commitBatch, JW.commitWith, JW.txnContext]
  simp only [e1]
  rcases batchWrite_healthy n t g1 with ⟨l2, t2, e2, g2⟩ | e2
  · obtain ⟨l3, e3, g3, _⟩ := g2.flushSync
    simp only [e2, e3]
    exact .inl ⟨_, t2, rfl, g3⟩
  · simp only [e2]
    exact .inr trivial

/-- Take the counter, and run all tasks. -/
def settle (k : Nat) : List TOp := .take :: List.replicate k (.write 0)

/-- If the counters claim more changes than the queue has, running the tasks aborts, whatever the changes
are. -/
theorem writes_abort {F : FloatOps} {order : List (Key × Nat) → List (Key × Nat)} : ∀ (k : Nat) {s : TS}, s.w.log.Good →
    s.iffy = false → s.tasks.length = k → s.t.queue.length < s.tasks.sum →
    tsteps F order (List.replicate k (.write 0)) s = none
  | 0, s, _, _, hk, hq => by
    rw [List.length_eq_zero_iff.1 hk] at hq; simp at hq
  | k + 1, s, hg, hi, hk, hq => by
    obtain ⟨w, t, size, flight, tasks, iffy⟩ := s
    simp only at hg hi hk hq
    subst hi
    cases tasks with
    | nil => simp at hk
    | cons n tasks =>
      simp only [List.length_cons, Nat.add_right_cancel_iff, List.sum_cons] at hk hq
      rw [List.replicate_succ, tsteps, tstep]
      simp only [List.getElem?_cons_zero, twrite, Bool.false_eq_true, if_false, List.eraseIdx_cons_zero]
      by_cases hn : n = 0
      · subst hn
        simp only [if_true, Option.bind]
        rw [writes_abort k (s := ⟨w, t, size, flight, tasks, false⟩) hg rfl hk (by simpa using hq)]
      · rw [if_neg hn]
        have hcq := commitBatch_queue w t n
        rcases commitBatch_healthy hg t n with ⟨w', t', e, g'⟩ | e
        · rw [e] at hcq ⊢
          obtain ⟨q1, q2, _⟩ := hcq
          simp only at q2
          simp only [Option.bind]
          rw [writes_abort k (s := ⟨w', t', size, flight, tasks, false⟩) g' rfl hk (by
            simp only [q2, List.length_drop]; omega)]
        · rcases hc : commitBatch w t n with ⟨w', t', a, r⟩
          rw [hc] at e
          simp only at e
          subst e
          rfl

/-- **C14 is violated.** However a failed batch left the counters too high: when the driver has recovered, no
statement is running and the disk works, writing what is pending aborts the writer. -/
theorem C14_errors_end_in_an_abort_violated {F : FloatOps} {order : List (Key × Nat) → List (Key × Nat)} {os : List TOp}
    {w : JW} {t : Tbl} (ht : t.queue = []) {s : TS} {evs : List TEv} (h : tsteps F order os (.fresh w t) = some (s, evs))
    (he : 0 < excessOf evs) (hg : s.w.log.Good) (hi : s.iffy = false) (hf : s.flight = 0) :
    tsteps F order (settle (s.tasks.length + 1)) s = none := by
  have hc := (C14_books_partial ht h).2.1
  rw [settle, tsteps, tstep]
  simp only [Option.bind]
  rw [writes_abort (s.tasks.length + 1) (s := { s with tasks := s.tasks ++ [s.size], size := 0 }) hg hi (by simp) (by
    simp only [List.sum_append_nat, List.sum_cons, List.sum_nil]; omega)]

/-! ### Without errors -/

def tstmts : List TOp → List Stmt
  | [] => []
  | .stmt s :: os => s :: tstmts os
  | _ :: os => tstmts os

/-- The disk works. -/
def NoIo (os : List TOp) : Prop := ∀ l, TOp.io l ∉ os

/-- The state of a server without errors. -/
structure Calm (m : Model) (lim : Nat) (s : TS) (R : Tbl) : Prop where
  good : Good m lim ⟨s.w, s.t⟩ R
  size : s.w.log.disk.length < lim
  iffy : s.iffy = false
  claims : s.claims = s.t.queue.length

theorem theal_calm {m : Model} {lim : Nat} {s : TS} {R : Tbl} (h : Calm m lim s R) : theal s = s := by
  obtain ⟨w, t, size, flight, tasks, iffy⟩ := s
  have hi := h.iffy
  have hb := h.good.idle.buf
  simp only at hi hb
  subst hi
  rw [theal]
  simp only [JW.heartbeat]
  split
  · rename_i w' h'
    split at h'
    · split at h'
      · cases h'
        obtain ⟨log, a, b, c⟩ := w
        obtain ⟨d1, d2, d3, d4, d5, d6, d7⟩ := log
        simp only at hb
        subst hb
        rfl
      · cases h'
    · cases h'
  · rfl

/-- One operation of the tasks is a statement, a batch, or nothing. -/
theorem calm_step {F : FloatOps} {order : List (Key × Nat) → List (Key × Nat)} (ho : ∀ l, (order l).Perm l) {m : Model}
    (hm : LifeOk m) {lim : Nat} (hlim : lim ≤ 2 ^ 62) {s : TS} {R : Tbl} (h : Calm m lim s R) {o : TOp}
    (hio : ∀ l, o ≠ .io l) (hf : Fine F m (tstmts [o]) (abs s.t)) (ht : ∀ st ∈ tstmts [o], StmtTags st) :
    ∃ os', stmts os' = tstmts [o] ∧ Fixed os' ∧ (steps F order lim os' ⟨s.w, s.t⟩ = .full ∨
      ∃ s' evs rs R', tstep F order s o = some (s', evs) ∧ steps F order lim os' ⟨s.w, s.t⟩ = .ok (⟨s'.w, s'.t⟩, rs) ∧
        excessOf evs = 0 ∧ Calm m lim s' R') := by
  have nothing : ∀ {s' : TS}, tstmts [o] = [] → tstep F order s o = some (s', []) → s'.w = s.w → s'.t = s.t →
      s'.iffy = false → ∃ os', stmts os' = tstmts [o] ∧ Fixed os' ∧ (steps F order lim os' ⟨s.w, s.t⟩ = .full ∨
      ∃ s' evs rs R', tstep F order s o = some (s', evs) ∧ steps F order lim os' ⟨s.w, s.t⟩ = .ok (⟨s'.w, s'.t⟩, rs) ∧
        excessOf evs = 0 ∧ Calm m lim s' R') := by
    intro s' h0 h1 h2 h3 h4
    refine ⟨[], h0.symm, (by intro _ _ h; cases h), .inr ⟨s', [], [], R, h1, by rw [h2, h3]; rfl, rfl, ?_⟩⟩
    have hb := (books_step h1).count
    rw [h3] at hb
    have := h.claims
    refine ⟨by rw [h2, h3]; exact h.good, by rw [h2]; exact h.size, h4, ?_⟩
    rw [h3]
    simp only [excessOf] at hb
    omega
  cases o with
  | io l => exact absurd rfl (hio l)
  | count =>
    refine nothing rfl (by rw [tstep]) ?_ ?_ ?_
    · split <;> rfl
    · split <;> rfl
    · split
      · exact h.iffy
      · exact h.iffy
  | take => exact nothing (s' := { s with tasks := s.tasks ++ [s.size], size := 0 }) rfl (by rw [tstep]) rfl rfl h.iffy
  | heal =>
    refine nothing rfl (by rw [tstep]) ?_ ?_ ?_ <;> rw [theal_calm h]
    exact h.iffy
  | stmt st =>
    refine ⟨[.stmt st], rfl, (by intro _ _ h; simp at h), ?_⟩
    rcases h.good.steps (F := F) (order := order) ho hm hlim (os := [.stmt st]) h.size hf (by intro _ _ h; simp at h) ht with
      e | ⟨s1, R1, rs, e, g, z, sp⟩
    · exact .inl e
    · have hts : tstep F order s (.stmt st) = some ({ s with t := (exec F order s.t st).1, flight := s.flight + ((exec F order s.t st).1.queue.length - s.t.queue.length) },
          [.queued ((exec F order s.t st).1.queue.drop s.t.queue.length)]) := by
        rw [tstep, h.iffy]; simp
      have hs1 : s1 = ⟨s.w, (exec F order s.t st).1⟩ := by
        rw [steps, step, check] at e
        split at e
        · cases e; rfl
        · cases e
      refine .inr ⟨_, _, rs, R1, hts, by rw [e, hs1], rfl, ?_⟩
      have hb := (books_step hts).count
      have := h.claims
      subst hs1
      refine ⟨g, h.size, h.iffy, ?_⟩
      simp only [excessOf] at hb ⊢
      omega
  | write i =>
    cases hi : s.tasks[i]? with
    | none => exact nothing rfl (by rw [tstep, hi]) rfl rfl h.iffy
    | some n =>
      have hw : tstep F order s (.write i) = twrite s i n := by rw [tstep, hi]
      by_cases hn : n = 0
      · refine nothing (s' := { s with tasks := s.tasks.eraseIdx i }) rfl ?_ rfl rfl h.iffy
        rw [hw, twrite, h.iffy]
        simp [hn]
      · have hnq : n ≤ s.t.queue.length := by
          have h1 := sum_eraseIdx hi
          have h2 := h.claims
          simp only [TS.claims] at h2
          omega
        refine ⟨[.flush n], rfl, (by intro _ _ h; simp at h), ?_⟩
        rcases h.good.flush hm hlim n with e | ⟨s1, R1, e, g, _, hq, hz⟩
        · exact .inl (by rw [steps, step, e]; rfl)
        · have h0 : ¬ (min n s.t.queue.length = 0) := by omega
          have hst : steps F order lim [.flush n] ⟨s.w, s.t⟩ = .ok (s1, []) := by
            rw [steps, step, e]; rfl
          rw [flushSome] at e
          rw [if_neg h0] at e
          simp only [Nat.min_eq_left hnq] at e
          rcases hc : commitBatch s.w s.t n with ⟨w', t', a, r⟩
          rw [hc] at e
          cases r with
          | ok u =>
            have hs1 : s1 = ⟨w', t'⟩ := by
              simp only [check] at e
              split at e
              · simp only [Run.ok.injEq, Prod.mk.injEq, and_true] at e
                exact e.symm
              · cases e
            have hts : tstep F order s (.write i) = some ({ s with w := w', t := t', tasks := s.tasks.eraseIdx i }, [.wrote (s.t.queue.take n)]) := by
              rw [hw, twrite, h.iffy, hc]
              simp [hn]
            subst hs1
            refine .inr ⟨_, _, [], R1, hts, hst, rfl, ?_⟩
            have hb := (books_step hts).count
            have := h.claims
            refine ⟨g, hz h.size, h.iffy, ?_⟩
            simp only [excessOf] at hb ⊢
            omega
          | err x => cases e
          | panic => cases e
          | hang => cases e

theorem tstmts_append : ∀ (a b : List TOp), tstmts (a ++ b) = tstmts a ++ tstmts b
  | [], _ => rfl
  | .stmt _ :: a, b => by simp [tstmts, tstmts_append a b]
  | .count :: a, b => by simp [tstmts, tstmts_append a b]
  | .take :: a, b => by simp [tstmts, tstmts_append a b]
  | .write _ :: a, b => by simp [tstmts, tstmts_append a b]
  | .heal :: a, b => by simp [tstmts, tstmts_append a b]
  | .io _ :: a, b => by simp [tstmts, tstmts_append a b]

theorem steps_append {F : FloatOps} {order : List (Key × Nat) → List (Key × Nat)} {lim : Nat} : ∀ (a b : List Op) (s : Srv),
    steps F order lim (a ++ b) s = (steps F order lim a s).bind fun (s, r) =>
      (steps F order lim b s).bind fun (s, q) => .ok (s, r ++ q)
  | [], b, s => by
    simp only [List.nil_append, steps, Run.bind]
    cases steps F order lim b s <;> rfl
  | o :: a, b, s => by
    rw [List.cons_append, steps, steps]
    cases step F order lim s o with
    | full => rfl
    | bad => rfl
    | ok x =>
      obtain ⟨s1, r1⟩ := x
      simp only [Run.bind]
      rw [steps_append a b s1]
      cases steps F order lim a s1 with
      | full => rfl
      | bad => rfl
      | ok y =>
        obtain ⟨s2, r2⟩ := y
        simp only [Run.bind]
        cases steps F order lim b s2 with
        | full => rfl
        | bad => rfl
        | ok z => simp [List.append_assoc]

/-- **C14 (partial).** Any statements (as in C11), counting, tasks and executors in any order, without I/O
errors. The writer does not abort; the run is one of the runs of C11, with the same statements and with
batches that the queue always has enough changes for; the counters are exact, and changes are written in the
order in which they were queued. Missing (and false, see below): I/O errors. -/
theorem C14_without_errors_partial {F : FloatOps} {order : List (Key × Nat) → List (Key × Nat)}
    (ho : ∀ l, (order l).Perm l) {m : Model} (hm : LifeOk m) {lim : Nat} (hlim : lim ≤ 2 ^ 62) :
    ∀ {os : List TOp} {s : TS} {R : Tbl}, Calm m lim s R → NoIo os → Fine F m (tstmts os) (abs s.t) →
      (∀ st ∈ tstmts os, StmtTags st) →
      ∃ os', stmts os' = tstmts os ∧ Fixed os' ∧ (steps F order lim os' ⟨s.w, s.t⟩ = .full ∨
        ∃ s' evs rs R', tsteps F order os s = some (s', evs) ∧ steps F order lim os' ⟨s.w, s.t⟩ = .ok (⟨s'.w, s'.t⟩, rs) ∧
          Calm m lim s' R' ∧ s.t.queue ++ queuedOf evs = wroteOf evs ++ s'.t.queue)
  | [], s, R, h, _, _, _ => ⟨[], rfl, (by intro _ _ h; cases h),
      .inr ⟨s, [], [], R, rfl, rfl, h, by simp [queuedOf, wroteOf]⟩⟩
  | o :: os, s, R, h, hio, hf, ht => by
    have hsp : tstmts (o :: os) = tstmts [o] ++ tstmts os := tstmts_append [o] os
    rw [hsp] at hf ht ⊢
    obtain ⟨hf1, hf2⟩ := Fine.split hf
    obtain ⟨os1, a1, a2, a3⟩ := calm_step (order := order) ho hm hlim h (o := o) (fun l e => hio l (by simp [e])) hf1
      (fun st hst => ht st (by simp [hst]))
    rcases a3 with a3 | ⟨s1, e1, rs1, R1, b1, b2, b3, b4⟩
    · refine ⟨os1 ++ (tstmts os).map .stmt, ?_, ?_, .inl ?_⟩
      · rw [stmts_append, a1]
        congr 1
        generalize tstmts os = l
        induction l with
        | nil => rfl
        | cons x l ih => simp [stmts, ih]
      · intro p k hk
        rcases List.mem_append.1 hk with hk | hk
        · exact a2 p k hk
        · simp at hk
      · rw [steps_append, a3]; rfl
    · have hspec : ∃ rs, SpecRun F m (abs s.t) (tstmts [o]) (abs s1.t) rs := by
        rcases h.good.steps (F := F) (order := order) ho hm hlim (os := os1) h.size (by rw [a1]; exact hf1) a2
          (by rw [a1]; exact fun st hst => ht st (by simp [hst])) with e | ⟨s2, R2, rs, e, _, _, sp⟩
        · rw [e] at b2; cases b2
        · rw [e] at b2
          simp only [Run.ok.injEq, Prod.mk.injEq] at b2
          rw [a1] at sp
          rw [b2.1] at sp
          exact ⟨_, sp⟩
      obtain ⟨_, hspec⟩ := hspec
      obtain ⟨os2, c1, c2, c3⟩ := C14_without_errors_partial ho hm hlim (F := F) (order := order) (os := os) b4
        (fun l hl => hio l (by simp [hl])) (hf2 _ _ hspec) (fun st hst => ht st (by simp [hst]))
      refine ⟨os1 ++ os2, by rw [stmts_append, a1, c1], ?_, ?_⟩
      · intro p k hk
        rcases List.mem_append.1 hk with hk | hk
        · exact a2 p k hk
        · exact c2 p k hk
      · rw [steps_append, b2]
        simp only [Run.bind]
        rcases c3 with c3 | ⟨s2, e2, rs2, R2, d1, d2, d3, d4⟩
        · exact .inl (by rw [c3])
        · refine .inr ⟨s2, e1 ++ e2, rs1 ++ rs2, R2, ?_, by rw [d2], d3, ?_⟩
          · rw [tsteps, b1]
            simp only [Option.bind, d1]
          · obtain ⟨f1, _⟩ := (books_step b1).fifo b3
            rw [queuedOf_append, wroteOf_append, ← List.append_assoc, f1, List.append_assoc, d4, List.append_assoc]

/-- A model that was just created. -/
theorem calm_fresh {m : Model} (hm : LifeOk m) {lim : Nat} {hdr : Bytes} (hh : hdr.length = Journal.HEADER)
    (hlo : Journal.HEADER < lim) {w : JW} (hw : JW.create hdr [] = (w, .ok ())) : Calm m lim (.fresh w (Tbl.empty m)) (Tbl.empty m) := by
  obtain ⟨w', e1, i1, d1, r1⟩ := Journal.create_idle hh
  rw [hw] at e1
  cases e1
  have hg : Good m lim ⟨w, Tbl.empty m⟩ (Tbl.empty m) :=
    ⟨i1, r1 _ _ _, Sync.empty hm.mok, by intro r hr; simp [Tbl.empty] at hr, ⟨rfl, List.nodup_nil, by simp [Tbl.empty]⟩,
      by intro r hr; simp [Tbl.empty] at hr, by intro r hr; simp [Tbl.empty] at hr, by simp only [Tbl.empty]; omega⟩
  exact ⟨hg, by simp only [TS.fresh, d1, hh]; exact hlo, rfl, rfl⟩

/-! ### Examples -/

def exT0 : TS := .fresh (JW.create exHdr []).1 (Tbl.empty exModel)

/-- INSERT, counted. -/
def ins (k : Nat) : List TOp := [.stmt (exRow (.ofNat k) .null), .count]

/-- The state in numbers: counter, tasks, length of the queue, whether the driver is iffy; then the excess,
and the numbers of changes queued, written and lost. -/
structure Shown where
  size : Nat
  tasks : List Nat
  queue : Nat
  iffy : Bool
  excess : Nat
  queued : Nat
  wrote : Nat
  lost : Nat
  deriving DecidableEq

def tshow : Option (TS × List TEv) → Option Shown
  | none => none
  | some (s, e) => some ⟨s.size, s.tasks, s.t.queue.length, s.iffy, excessOf e, (queuedOf e).length, (wroteOf e).length, (lostOf e).length⟩

/-- Close the file of a state and open it again. -/
def treopens : Option (TS × List TEv) → Option (Option Nat)
  | none => none
  | some (s, _) =>
    match s.w.close with
    | (w, .ok ()) =>
      match Journal.openJournal batchDecode (Tbl.empty s.t.model) w.log.disk [] with
      | .ok (_, t) => some (some t.idx.length)
      | _ => some none
    | _ => none

/-- Without errors: three rows, a batch of two and one that is pending; all pending is written at last. -/
example : tshow (tsteps exF id (ins 1 ++ ins 2 ++ [.take] ++ ins 3 ++ [.write 0]) exT0) = some ⟨1, [], 1, false, 0, 3, 2, 0⟩ ∧
    treopens (tsteps exF id (ins 1 ++ ins 2 ++ [.take] ++ ins 3 ++ [.write 0, .take, .write 0]) exT0) = some (some 3) := by
  constructor <;> decide +kernel

/-- While the driver is not healthy, statements that change rows are refused before they do anything
(`core/mod.rs:174-199`), and statements that only read are served. -/
theorem C14_unhealthy (F : FloatOps) (order : List (Key × Nat) → List (Key × Nat)) (s : TS) (hs : s.iffy = true) :
    (∀ d, tstep F order s (.stmt (.insert d)) = some (s, [])) ∧
    (∀ as w, tstep F order s (.stmt (.update as w)) = some (s, [])) ∧
    (∀ w, tstep F order s (.stmt (.delete w)) = some (s, [])) ∧
    (∀ fs w, ∃ s' ds, tstep F order s (.stmt (.select fs w)) = some (s', [.queued ds])) ∧
    (∀ fs n, ∃ s' ds, tstep F order s (.stmt (.selectAll fs n)) = some (s', [.queued ds])) := by
  refine ⟨fun d => ?_, fun as w => ?_, fun w => ?_, fun fs w => ?_, fun fs n => ?_⟩
  · simp [tstep, changes, hs]
  · simp [tstep, changes, hs]
  · simp [tstep, changes, hs]
  · exact ⟨_, _, by simp only [tstep, changes]; rfl⟩
  · exact ⟨_, _, by simp only [tstep, changes]; rfl⟩

/-- After a failed batch the driver is not healthy: an INSERT then leaves the queue alone. -/
example : tshow (tsteps exF id (ins 1 ++ [.io [.fail], .take, .write 0]) exT0) =
    tshow (tsteps exF id (ins 1 ++ [.io [.fail], .take, .write 0] ++ ins 2) exT0) ∧
    (tsteps exF id (ins 1 ++ [.io [.fail], .take, .write 0]) exT0).map (·.1.iffy) = some true := by
  constructor <;> decide +kernel

/-- One system call fails while the first row of a batch is written; the driver recovers, and the batch is
written again. -/
def exRetry : List TOp :=
  ins 1 ++ [.take, .write 0] ++ ins 2 ++ [.io [.fail], .take, .write 0, .heal, .write 0]

/-- **C14 is violated.** The batch is written, and nothing is pending, but the counter is 1: the next time the
counter is taken the writer aborts. The file is no longer readable: the first row is lost as well. -/
theorem C14_retry_violated :
    tshow (tsteps exF id exRetry exT0) = some ⟨1, [], 0, false, 1, 2, 2, 0⟩ ∧
    tshow (tsteps exF id (exRetry ++ [.take, .write 0]) exT0) = none ∧
    treopens (tsteps exF id (exRetry.take 4) exT0) = some (some 1) ∧
    treopens (tsteps exF id exRetry exT0) = some none := by
  refine ⟨?_, ?_, ?_, ?_⟩ <;> decide +kernel

/-- **C14 is violated.** A system call fails after the first of two rows was flushed. One change is lost to
memory; the driver never recovers; the file cannot be opened. -/
theorem C14_second_row_violated :
    tshow (tsteps exF id (ins 1 ++ [.take, .write 0] ++ ins 2 ++ ins 3 ++ [.io [.wrote 10000, .fail], .take, .write 0, .heal, .write 0] ++ ins 4) exT0) =
      some ⟨1, [1], 1, true, 1, 3, 1, 1⟩ ∧
    treopens (tsteps exF id (ins 1 ++ [.take, .write 0] ++ ins 2 ++ ins 3 ++ [.io [.wrote 10000, .fail], .take, .write 0, .heal, .write 0] ++ ins 4) exT0) =
      some none := by
  constructor <;> decide +kernel

/-- **C14 is violated.** The INSERT is in a batch of its own, but its row has a later UPDATE; so nothing is
flushed before the end of the batch, which fails. The change was taken from the queue, and the retry takes the
one of the UPDATE: the row is in the batch as an update. The counter is then too high by one. -/
theorem C14_end_of_batch_violated :
    tshow (tsteps exF id (ins 1 ++ [.take, .write 0] ++ ins 2 ++ [.take, .stmt (.update [⟨"n", .assign, .uint 7⟩] (whereId 2)), .count,
      .io [.fail], .write 0]) exT0) = some ⟨1, [1], 1, true, 1, 3, 1, 1⟩ ∧
    tshow (tsteps exF id (ins 1 ++ [.take, .write 0] ++ ins 2 ++ [.take, .stmt (.update [⟨"n", .assign, .uint 7⟩] (whereId 2)), .count,
      .io [.fail], .write 0, .heal, .write 0]) exT0) = some ⟨1, [], 0, false, 1, 3, 2, 1⟩ ∧
    tshow (tsteps exF id (ins 1 ++ [.take, .write 0] ++ ins 2 ++ [.take, .stmt (.update [⟨"n", .assign, .uint 7⟩] (whereId 2)), .count,
      .io [.fail], .write 0, .heal, .write 0, .take, .write 0]) exT0) = none := by
  refine ⟨?_, ?_, ?_⟩ <;> decide +kernel

end Verif.Batch
