import Verif.Batch.Many
import Verif.Dml.ParLive
/-!
C79: batches do not wait for ever either.
-/
namespace Verif.Batch.Many
open Verif.Dml (Key Delta Tbl FloatOps Stmt Reply)
open Verif.Dml.Par (Holds Busy row_steps)
open Verif.Conc (Ev)
open Verif.Journal (JW)

theorem client_holds {F : FloatOps} {order : List (Key × Nat) → List (Key × Nat)} {lim : Nat} {x y : Sys} {o : Dml.Par.Sch}
    {e : Option (Ev Stmt Reply)} (h : Holds x.s) (hs : client F order lim x o = some (.ok (y, e))) : Holds y.s := by
  simp only [client, Option.map_eq_some_iff] at hs
  obtain ⟨⟨s', e'⟩, h1, h2⟩ := hs
  rw [bound] at h2
  split at h2
  · cases h2; exact h.sched h1
  · cases h2

theorem act_holds {F : FloatOps} {order : List (Key × Nat) → List (Key × Nat)} {lim : Nat} {x y : Sys} {a : Act}
    {e : Option (Ev Stmt Reply)} (h : Holds x.s) (hs : act F order lim x a = some (.ok (y, e))) : Holds y.s := by
  have tbl : ∀ t, Holds { x.s with t := t } := fun t => ⟨h.nodup, h.shared, h.excl, h.reading, h.hnodup, h.held, h.row⟩
  cases a with
  | call n st => exact client_holds h hs
  | go n => exact client_holds h hs
  | ret n => exact client_holds h hs
  | begin n =>
    simp only [act] at hs
    repeat' split at hs
    all_goals (cases hs; try exact h)
  | take =>
    simp only [act] at hs
    repeat' split at hs
    all_goals (cases hs; try exact tbl _)
  | fin =>
    simp only [act] at hs
    split at hs
    · split at hs
      · rw [bound] at hs
        split at hs
        · cases hs; exact h
        · cases hs
      · cases hs
    · cases hs

theorem acts_holds {F : FloatOps} {order : List (Key × Nat) → List (Key × Nat)} {lim : Nat} : ∀ {as : List Act} {x y : Sys}
    {es : List (Ev Stmt Reply)}, Holds x.s → acts F order lim as x = some (.ok (y, es)) → Holds y.s
  | [], x, y, es, h, hs => by cases hs; exact h
  | a :: as, x, y, es, h, hs => by
    rw [acts] at hs
    split at hs
    · cases hs
    · cases hs
    · cases hs
    · rename_i z e h1
      split at hs
      · rename_i q es2 h2
        cases hs
        exact acts_holds (act_holds h h1) h2
      · cases hs
      · cases hs
      · cases hs

/-- **C79.** A batch that is being written can take its next change, or end; or it waits for the row of a statement that can go
on. -/
theorem C79_batch_goes_on {F : FloatOps} {order : List (Key × Nat) → List (Key × Nat)} {lim : Nat} {w : JW} {t : Tbl}
    {as : List Act} {x : Sys} {es : List (Ev Stmt Reply)} (h : acts F order lim as (.open w t) = some (.ok (x, es))) {c : Cur}
    (hc : x.cur = some c) :
    act F order lim x .take ≠ none ∨ act F order lim x .fin ≠ none ∨ ∃ n, Busy (x.s.th n) ∧ Dml.Par.step F order x.s n ≠ none := by
  have hh := acts_holds (Holds.start t) h
  obtain ⟨n, l, rs⟩ := c
  cases l with
  | zero =>
    refine .inr (.inl ?_)
    simp only [act, hc]
    split <;> simp
  | succ l =>
    cases hq : x.s.t.queue with
    | nil => exact .inl (by simp [act, hc, hq])
    | cons d ds =>
      by_cases hr : d.kind ≠ .delete ∧ d.row ∈ x.s.held
      · refine .inr (.inr ?_)
        obtain ⟨y, hy⟩ := (hh.held d.row).1 hr.2
        refine ⟨y, ?_, ?_⟩
        · cases hp : x.s.th y <;> rw [hp] at hy <;> first | trivial | cases hy
        · have := row_steps (F := F) (order := order) hy
          intro e
          rw [e] at this
          cases this
      · exact .inl (by simp only [act, hc, hq, if_neg hr]; simp)

end Verif.Batch.Many
