import Verif.Dml.ParTheorems
/-!
C79: the statements of `Verif.Dml.Par` do not wait for each other for ever.
-/
namespace Verif.Dml.Par
open Verif.Gns (fget)
open Verif.Conc (Ev upd upd_same upd_other)

/-- A statement that was sent and has no answer yet. -/
def Busy : Pos → Prop
  | .idle => False
  | .done _ => False
  | _ => True

/-- Steps of threads, in this order. -/
def gos (F : FloatOps) (order : List (Key × Nat) → List (Key × Nat)) : List Nat → St → Option St
  | [], s => some s
  | n :: ns, s => (step F order s n).bind (gos F order ns)

/-- An upper bound of the steps that a thread has to make. -/
def work : Pos → Nat
  | .idle => 0
  | .done _ => 0
  | .called (.selectAll _ l) => l + 2
  | .called _ => 4
  | .insert _ _ _ => 3
  | .insertV _ _ _ _ => 2
  | .delete _ => 3
  | .deleteV _ _ => 2
  | .found _ _ => 2
  | .push _ => 1
  | .reading _ rest _ => rest.length + 1

/-- The bound for the threads below `N`. -/
def total (s : St) (N : Nat) : Nat := ((List.range N).map fun n => work (s.th n)).sum

/-! ### Who holds what -/

/-- The thread holds the latch, shared. -/
def hasLatch : Pos → Bool
  | .insert _ _ _ => true
  | .insertV _ _ _ _ => true
  | .delete _ => true
  | .deleteV _ _ => true
  | .push d => d.kind != .update
  | _ => false

/-- The thread holds the latch exclusively. -/
def hasAll : Pos → Bool
  | .reading _ _ _ => true
  | _ => false

/-- The row that the thread holds. -/
def hasRow : Pos → Option Nat
  | .push d => if d.kind = .update then some d.row else none
  | _ => none

structure Holds (s : St) : Prop where
  nodup : s.shared.Nodup
  shared : ∀ n, n ∈ s.shared ↔ hasLatch (s.th n) = true
  excl : s.excl = true → ∃ n, hasAll (s.th n) = true
  reading : ∀ n, hasAll (s.th n) = true → s.excl = true ∧ s.shared = [] ∧ ∀ x, hasAll (s.th x) = true → x = n
  hnodup : s.held.Nodup
  held : ∀ i, i ∈ s.held ↔ ∃ n, hasRow (s.th n) = some i
  row : ∀ n x i, hasRow (s.th n) = some i → hasRow (s.th x) = some i → n = x

/-- The thread moves and its locks stay as they are. -/
theorem Holds.stay {s : St} (h : Holds s) {n : Nat} {p : Pos} {t : Tbl} (h1 : hasLatch p = hasLatch (s.th n))
    (h2 : hasAll p = hasAll (s.th n)) (h3 : hasRow p = hasRow (s.th n)) : Holds ⟨t, upd s.th n p, s.shared, s.excl, s.held⟩ := by
  have e1 : ∀ x, hasLatch (upd s.th n p x) = hasLatch (s.th x) := by
    intro x; by_cases e : x = n
    · subst e; rw [upd_same, h1]
    · rw [upd_other _ _ e]
  have e2 : ∀ x, hasAll (upd s.th n p x) = hasAll (s.th x) := by
    intro x; by_cases e : x = n
    · subst e; rw [upd_same, h2]
    · rw [upd_other _ _ e]
  have e3 : ∀ x, hasRow (upd s.th n p x) = hasRow (s.th x) := by
    intro x; by_cases e : x = n
    · subst e; rw [upd_same, h3]
    · rw [upd_other _ _ e]
  exact ⟨h.nodup, by simpa only [e1] using h.shared, by simpa only [e2] using h.excl, by simpa only [e2] using h.reading, h.hnodup,
    by simpa only [e3] using h.held, by simpa only [e3] using h.row⟩

/-- It takes the latch, shared. -/
theorem Holds.latch {s : St} (h : Holds s) {n : Nat} {p : Pos} {t : Tbl} (hx : s.excl = false) (h0 : hasLatch (s.th n) = false)
    (h1 : hasLatch p = true) (h2 : hasAll p = false) (h2' : hasAll (s.th n) = false) (h3 : hasRow p = hasRow (s.th n)) :
    Holds ⟨t, upd s.th n p, n :: s.shared, s.excl, s.held⟩ := by
  have e2 : ∀ x, hasAll (upd s.th n p x) = hasAll (s.th x) := by
    intro x; by_cases e : x = n
    · subst e; rw [upd_same, h2, h2']
    · rw [upd_other _ _ e]
  have e3 : ∀ x, hasRow (upd s.th n p x) = hasRow (s.th x) := by
    intro x; by_cases e : x = n
    · subst e; rw [upd_same, h3]
    · rw [upd_other _ _ e]
  have hn : n ∉ s.shared := by rw [h.shared, h0]; simp
  refine ⟨List.nodup_cons.2 ⟨hn, h.nodup⟩, ?_, ?_, ?_, h.hnodup, by simpa only [e3] using h.held, by simpa only [e3] using h.row⟩
  · intro x
    by_cases e : x = n
    · subst e; simp [h1]
    · simp only [List.mem_cons, e, false_or, upd_other _ _ e]; exact h.shared x
  · simpa only [e2] using h.excl
  · intro x hx'
    simp only [e2] at hx'
    rw [(h.reading x hx').1] at hx
    cases hx

/-- It gives the latch back. -/
theorem Holds.unlatch {s : St} (h : Holds s) {n : Nat} {p : Pos} {t : Tbl} (h0 : hasLatch (s.th n) = true)
    (h1 : hasLatch p = false) (h2 : hasAll p = false) (h2' : hasAll (s.th n) = false) (h3 : hasRow p = hasRow (s.th n)) :
    Holds ⟨t, upd s.th n p, s.shared.erase n, s.excl, s.held⟩ := by
  have e2 : ∀ x, hasAll (upd s.th n p x) = hasAll (s.th x) := by
    intro x; by_cases e : x = n
    · subst e; rw [upd_same, h2, h2']
    · rw [upd_other _ _ e]
  have e3 : ∀ x, hasRow (upd s.th n p x) = hasRow (s.th x) := by
    intro x; by_cases e : x = n
    · subst e; rw [upd_same, h3]
    · rw [upd_other _ _ e]
  refine ⟨h.nodup.erase n, ?_, by simpa only [e2] using h.excl, ?_, h.hnodup, by simpa only [e3] using h.held,
    by simpa only [e3] using h.row⟩
  · intro x
    by_cases e : x = n
    · subst e
      simp only [upd_same, h1, Bool.false_eq_true, iff_false]
      exact fun hm => absurd rfl (h.nodup.mem_erase_iff.1 hm).1
    · simp only [upd_other _ _ e]
      rw [h.nodup.mem_erase_iff, h.shared]
      simp [e]
  · intro x hx
    simp only [e2] at hx ⊢
    obtain ⟨r1, r2, r3⟩ := h.reading x hx
    refine ⟨r1, ?_, r3⟩
    simp only [r2, List.erase_nil]

/-- It takes the latch exclusively. -/
theorem Holds.lockAll {s : St} (h : Holds s) {n : Nat} {p : Pos} {t : Tbl} (hx : s.excl = false) (hs : s.shared = [])
    (h1 : hasLatch p = false) (h2 : hasAll p = true) (h3 : hasRow p = hasRow (s.th n)) :
    Holds ⟨t, upd s.th n p, s.shared, true, s.held⟩ := by
  have e3 : ∀ x, hasRow (upd s.th n p x) = hasRow (s.th x) := by
    intro x; by_cases e : x = n
    · subst e; rw [upd_same, h3]
    · rw [upd_other _ _ e]
  refine ⟨h.nodup, ?_, fun _ => ⟨n, by simpa using h2⟩, ?_, h.hnodup, by simpa only [e3] using h.held, by simpa only [e3] using h.row⟩
  · intro x
    by_cases e : x = n
    · subst e; simp [hs, h1]
    · simp only [upd_other _ _ e]; exact h.shared x
  · have hno : ∀ x, x ≠ n → hasAll (upd s.th n p x) ≠ true := by
      intro x e hx'
      simp only [upd_other _ _ e] at hx'
      rw [(h.reading x hx').1] at hx
      cases hx
    intro x hx'
    by_cases e : x = n
    · subst e
      exact ⟨rfl, hs, fun y hy => Classical.byContradiction fun e => hno y e hy⟩
    · exact absurd hx' (hno x e)

/-- It gives it back. -/
theorem Holds.unlockAll {s : St} (h : Holds s) {n : Nat} {p : Pos} {t : Tbl} (h0 : hasAll (s.th n) = true)
    (h1 : hasLatch p = hasLatch (s.th n)) (h2 : hasAll p = false) (h3 : hasRow p = hasRow (s.th n)) :
    Holds ⟨t, upd s.th n p, s.shared, false, s.held⟩ := by
  have e1 : ∀ x, hasLatch (upd s.th n p x) = hasLatch (s.th x) := by
    intro x; by_cases e : x = n
    · subst e; rw [upd_same, h1]
    · rw [upd_other _ _ e]
  have e3 : ∀ x, hasRow (upd s.th n p x) = hasRow (s.th x) := by
    intro x; by_cases e : x = n
    · subst e; rw [upd_same, h3]
    · rw [upd_other _ _ e]
  refine ⟨h.nodup, by simpa only [e1] using h.shared, by simp, ?_, h.hnodup, by simpa only [e3] using h.held,
    by simpa only [e3] using h.row⟩
  intro x hx
  by_cases e : x = n
  · subst e; simp only [upd_same, h2, Bool.false_eq_true] at hx
  · simp only [upd_other _ _ e] at hx
    exact absurd ((h.reading n h0).2.2 x hx) e

/-- It locks a row. -/
theorem Holds.lockRow {s : St} (h : Holds s) {n : Nat} {p : Pos} {t : Tbl} {i : Nat} (hi : i ∉ s.held)
    (h1 : hasLatch p = hasLatch (s.th n)) (h2 : hasAll p = hasAll (s.th n)) (h0 : hasRow (s.th n) = none)
    (h3 : hasRow p = some i) : Holds ⟨t, upd s.th n p, s.shared, s.excl, i :: s.held⟩ := by
  have e1 : ∀ x, hasLatch (upd s.th n p x) = hasLatch (s.th x) := by
    intro x; by_cases e : x = n
    · subst e; rw [upd_same, h1]
    · rw [upd_other _ _ e]
  have e2 : ∀ x, hasAll (upd s.th n p x) = hasAll (s.th x) := by
    intro x; by_cases e : x = n
    · subst e; rw [upd_same, h2]
    · rw [upd_other _ _ e]
  have hno : ∀ x, hasRow (s.th x) ≠ some i := fun x hx => hi ((h.held i).2 ⟨x, hx⟩)
  refine ⟨h.nodup, by simpa only [e1] using h.shared, by simpa only [e2] using h.excl, by simpa only [e2] using h.reading,
    List.nodup_cons.2 ⟨hi, h.hnodup⟩, ?_, ?_⟩
  · intro j
    constructor
    · intro hj
      rcases List.mem_cons.1 hj with rfl | hj
      · exact ⟨n, by simpa using h3⟩
      · obtain ⟨x, hx⟩ := (h.held j).1 hj
        have e : x ≠ n := by rintro rfl; rw [h0] at hx; cases hx
        exact ⟨x, by simpa only [upd_other _ _ e] using hx⟩
    · rintro ⟨x, hx⟩
      by_cases e : x = n
      · subst e; simp only [upd_same, h3, Option.some.injEq] at hx; simp [hx]
      · simp only [upd_other _ _ e] at hx; exact List.mem_cons_of_mem _ ((h.held j).2 ⟨x, hx⟩)
  · intro a b j ha hb
    by_cases ea : a = n
    · subst ea
      simp only [upd_same, h3, Option.some.injEq] at ha
      subst ha
      by_cases eb : b = a
      · exact eb.symm
      · simp only [upd_other _ _ eb] at hb; exact absurd hb (hno b)
    · simp only [upd_other _ _ ea] at ha
      by_cases eb : b = n
      · subst eb
        simp only [upd_same, h3, Option.some.injEq] at hb
        subst hb
        exact absurd ha (hno a)
      · simp only [upd_other _ _ eb] at hb; exact h.row a b j ha hb

/-- It unlocks its row. -/
theorem Holds.unlockRow {s : St} (h : Holds s) {n : Nat} {p : Pos} {t : Tbl} {i : Nat} (h0 : hasRow (s.th n) = some i)
    (h1 : hasLatch p = hasLatch (s.th n)) (h2 : hasAll p = hasAll (s.th n)) (h3 : hasRow p = none) :
    Holds ⟨t, upd s.th n p, s.shared, s.excl, s.held.erase i⟩ := by
  have e1 : ∀ x, hasLatch (upd s.th n p x) = hasLatch (s.th x) := by
    intro x; by_cases e : x = n
    · subst e; rw [upd_same, h1]
    · rw [upd_other _ _ e]
  have e2 : ∀ x, hasAll (upd s.th n p x) = hasAll (s.th x) := by
    intro x; by_cases e : x = n
    · subst e; rw [upd_same, h2]
    · rw [upd_other _ _ e]
  refine ⟨h.nodup, by simpa only [e1] using h.shared, by simpa only [e2] using h.excl, by simpa only [e2] using h.reading,
    h.hnodup.erase i, ?_, ?_⟩
  · intro j
    rw [h.hnodup.mem_erase_iff]
    constructor
    · rintro ⟨hj, hm⟩
      obtain ⟨x, hx⟩ := (h.held j).1 hm
      have e : x ≠ n := by rintro rfl; rw [h0] at hx; cases hx; exact hj rfl
      exact ⟨x, by simpa only [upd_other _ _ e] using hx⟩
    · rintro ⟨x, hx⟩
      by_cases e : x = n
      · subst e; simp only [upd_same, h3, reduceCtorEq] at hx
      · simp only [upd_other _ _ e] at hx
        refine ⟨?_, (h.held j).2 ⟨x, hx⟩⟩
        rintro rfl
        exact e (h.row x n j hx h0)
  · intro a b j ha hb
    by_cases ea : a = n
    · subst ea; simp only [upd_same, h3, reduceCtorEq] at ha
    · by_cases eb : b = n
      · subst eb; simp only [upd_same, h3, reduceCtorEq] at hb
      · simp only [upd_other _ _ ea] at ha
        simp only [upd_other _ _ eb] at hb
        exact h.row a b j ha hb

theorem Holds.look {s : St} (h : Holds s) {n : Nat} {st : Stmt} (w : Where) (hn : s.th n = .called st) : Holds (look s n st w) := by
  unfold Par.look
  split
  · exact h.stay (by rw [hn]; rfl) (by rw [hn]; rfl) (by rw [hn]; rfl)
  · split
    · exact h.stay (by rw [hn]; rfl) (by rw [hn]; rfl) (by rw [hn]; rfl)
    · exact h.stay (by rw [hn]; rfl) (by rw [hn]; rfl) (by rw [hn]; rfl)

theorem Holds.step {F : FloatOps} {order : List (Key × Nat) → List (Key × Nat)} {s s' : St} (h : Holds s) {n : Nat}
    (hs : step F order s n = some s') : Holds s' := by
  unfold Par.step at hs
  cases hp : s.th n with
  | idle => rw [hp] at hs; cases hs
  | done r => rw [hp] at hs; cases hs
  | called st =>
    rw [hp] at hs
    cases st with
    | insert d =>
      simp only at hs
      split at hs
      · split at hs
        · cases hs
        · rename_i he
          cases hs
          exact h.latch (by simpa using he) (by rw [hp]; rfl) rfl rfl (by rw [hp]; rfl) (by rw [hp]; rfl)
      · cases hs; exact h.stay (by rw [hp]; rfl) (by rw [hp]; rfl) (by rw [hp]; rfl)
      · cases hs; exact h.stay (by rw [hp]; rfl) (by rw [hp]; rfl) (by rw [hp]; rfl)
    | delete w =>
      simp only at hs
      split at hs
      · cases hs
      · rename_i he
        cases hs
        exact h.latch (by simpa using he) (by rw [hp]; rfl) rfl rfl (by rw [hp]; rfl) (by rw [hp]; rfl)
    | update as w => cases hs; exact h.look w hp
    | select fs w => cases hs; exact h.look w hp
    | selectAll fs l =>
      simp only at hs
      split at hs
      · cases hs; exact h.stay (by rw [hp]; rfl) (by rw [hp]; rfl) (by rw [hp]; rfl)
      · split at hs
        · cases hs
        · rename_i he
          cases hs
          simp only [not_or, Bool.not_eq_true, Decidable.not_not] at he
          exact h.lockAll he.1 he.2 rfl rfl (by rw [hp]; rfl)
  | insert d k c => rw [hp] at hs; cases hs; exact h.stay (by rw [hp]; rfl) (by rw [hp]; rfl) (by rw [hp]; rfl)
  | insertV v d k c =>
    rw [hp] at hs
    simp only at hs
    split at hs
    · cases hs; exact h.unlatch (by rw [hp]; rfl) rfl rfl (by rw [hp]; rfl) (by rw [hp]; rfl)
    · cases hs; exact h.stay (by rw [hp]; rfl) (by rw [hp]; rfl) (by rw [hp]; rfl)
  | delete w => rw [hp] at hs; cases hs; exact h.stay (by rw [hp]; rfl) (by rw [hp]; rfl) (by rw [hp]; rfl)
  | deleteV v w =>
    rw [hp] at hs
    simp only at hs
    split at hs
    · cases hs; exact h.unlatch (by rw [hp]; rfl) rfl rfl (by rw [hp]; rfl) (by rw [hp]; rfl)
    · split at hs
      · cases hs; exact h.unlatch (by rw [hp]; rfl) rfl rfl (by rw [hp]; rfl) (by rw [hp]; rfl)
      · cases hs; exact h.stay (by rw [hp]; rfl) (by rw [hp]; rfl) (by rw [hp]; rfl)
  | push d =>
    rw [hp] at hs
    cases hs
    by_cases hk : d.kind = .update
    · simp only [hk, if_true]
      exact h.unlockRow (by rw [hp]; simp [hasRow, hk]) (by rw [hp]; simp [hasLatch, hk]) (by rw [hp]; rfl) rfl
    · simp only [hk, if_false]
      exact h.unlatch (by rw [hp]; simp [hasLatch, hk]) rfl rfl (by rw [hp]; rfl) (by rw [hp]; simp [hasRow, hk])
  | reading ks rest acc =>
    rw [hp] at hs
    cases rest with
    | nil => cases hs; exact h.unlockAll (by rw [hp]; rfl) (by rw [hp]; rfl) rfl (by rw [hp]; rfl)
    | cons e rest =>
      obtain ⟨k, i⟩ := e
      simp only at hs
      split at hs
      · cases hs
      · split at hs
        · cases hs; exact h.unlockAll (by rw [hp]; rfl) (by rw [hp]; rfl) rfl (by rw [hp]; rfl)
        · split at hs
          · cases hs; exact h.unlockAll (by rw [hp]; rfl) (by rw [hp]; rfl) rfl (by rw [hp]; rfl)
          · cases hs; exact h.stay (by rw [hp]; rfl) (by rw [hp]; rfl) (by rw [hp]; rfl)
  | found i st =>
    rw [hp] at hs
    have hstay : ∀ {t e}, Holds ⟨t, upd s.th n (.done e), s.shared, s.excl, s.held⟩ :=
      fun {t e} => h.stay (by rw [hp]; rfl) (by rw [hp]; rfl) (by rw [hp]; rfl)
    cases st with
    | update as w =>
      simp only at hs
      split at hs
      · cases hs
      · rename_i hi
        split at hs
        · cases hs; exact hstay
        · split at hs
          · cases hs; exact h.lockRow hi (by rw [hp]; rfl) (by rw [hp]; rfl) (by rw [hp]; rfl) rfl
          · cases hs; exact hstay
    | _ =>
      simp only at hs
      split at hs
      · cases hs
      · split at hs
        · cases hs; exact hstay
        · cases hs; exact hstay

theorem Holds.sched {F : FloatOps} {order : List (Key × Nat) → List (Key × Nat)} {s s' : St} (h : Holds s) {o : Sch}
    {e : Option (Ev Stmt Reply)} (hs : sched F order s o = some (s', e)) : Holds s' := by
  cases o with
  | flush n => cases hs; exact ⟨h.nodup, h.shared, h.excl, h.reading, h.hnodup, h.held, h.row⟩
  | go n =>
    simp only [Par.sched, Option.map_eq_some_iff] at hs
    obtain ⟨s1, h1, h2⟩ := hs
    cases h2
    exact h.step h1
  | call n st =>
    simp only [Par.sched] at hs
    cases hp : s.th n with
    | idle => rw [hp] at hs; cases hs; exact h.stay (by rw [hp]; rfl) (by rw [hp]; rfl) (by rw [hp]; rfl)
    | _ => rw [hp] at hs; cases hs
  | ret n =>
    simp only [Par.sched] at hs
    cases hp : s.th n with
    | done r => rw [hp] at hs; cases hs; exact h.stay (by rw [hp]; rfl) (by rw [hp]; rfl) (by rw [hp]; rfl)
    | _ => rw [hp] at hs; cases hs

theorem Holds.start (t : Tbl) : Holds (.start t) :=
  ⟨List.nodup_nil, by simp [St.start, hasLatch], by simp [St.start], by simp [St.start, hasAll], List.nodup_nil, by simp [St.start, hasRow],
    by simp [St.start, hasRow]⟩

theorem Holds.scheds {F : FloatOps} {order : List (Key × Nat) → List (Key × Nat)} : ∀ {os : List Sch} {s s' : St}
    {es : List (Ev Stmt Reply)}, Holds s → scheds F order os s = some (s', es) → Holds s'
  | [], s, s', es, h, hs => by cases hs; exact h
  | o :: os, s, s', es, h, hs => by
    simp only [Par.scheds, Option.bind_eq_some_iff] at hs
    obtain ⟨⟨s1, e⟩, h1, ⟨s2, es2⟩, h2, h3⟩ := hs
    cases h3
    exact Holds.scheds (h.sched h1) h2

/-! ### Steps -/

/-- A step brings a thread closer to its end. -/
theorem step_work {F : FloatOps} {order : List (Key × Nat) → List (Key × Nat)} {s s' : St} {n : Nat}
    (hs : step F order s n = some s') : ∃ p, s'.th = upd s.th n p ∧ work p < work (s.th n) := by
  unfold Par.step at hs
  cases hp : s.th n with
  | idle => rw [hp] at hs; cases hs
  | done r => rw [hp] at hs; cases hs
  | called st =>
    rw [hp] at hs
    have hl : ∀ st w, (∀ fs l, st ≠ .selectAll fs l) → ∃ p, (look s n st w).th = upd s.th n p ∧ work p < 4 := by
      intro st w _
      unfold Par.look
      split
      · exact ⟨_, rfl, by simp [work]⟩
      · split
        · exact ⟨_, rfl, by simp [work]⟩
        · exact ⟨_, rfl, by simp [work]⟩
    cases st with
    | insert d =>
      simp only at hs
      split at hs
      · split at hs
        · cases hs
        · cases hs; exact ⟨_, rfl, by simp [work]⟩
      · cases hs; exact ⟨_, rfl, by simp [work]⟩
      · cases hs; exact ⟨_, rfl, by simp [work]⟩
    | delete w =>
      simp only at hs
      split at hs
      · cases hs
      · cases hs; exact ⟨_, rfl, by simp [work]⟩
    | update as w => cases hs; exact hl _ _ (by simp)
    | select fs w => cases hs; exact hl _ _ (by simp)
    | selectAll fs l =>
      simp only at hs
      split at hs
      · cases hs; exact ⟨_, rfl, by simp [work]⟩
      · split at hs
        · cases hs
        · cases hs
          refine ⟨_, rfl, ?_⟩
          simp only [work, List.length_take]
          omega
  | insert d k c => rw [hp] at hs; cases hs; exact ⟨_, rfl, by simp [work]⟩
  | insertV v d k c =>
    rw [hp] at hs
    simp only at hs
    split at hs
    · cases hs; exact ⟨_, rfl, by simp [work]⟩
    · cases hs; exact ⟨_, rfl, by simp [work]⟩
  | delete w => rw [hp] at hs; cases hs; exact ⟨_, rfl, by simp [work]⟩
  | deleteV v w =>
    rw [hp] at hs
    simp only at hs
    split at hs
    · cases hs; exact ⟨_, rfl, by simp [work]⟩
    · split at hs
      · cases hs; exact ⟨_, rfl, by simp [work]⟩
      · cases hs; exact ⟨_, rfl, by simp [work]⟩
  | push d => rw [hp] at hs; cases hs; exact ⟨_, rfl, by simp [work]⟩
  | reading ks rest acc =>
    rw [hp] at hs
    cases rest with
    | nil => cases hs; exact ⟨_, rfl, by simp [work]⟩
    | cons e rest =>
      obtain ⟨k, i⟩ := e
      simp only at hs
      split at hs
      · cases hs
      · split at hs
        · cases hs; exact ⟨_, rfl, by simp [work]⟩
        · split at hs
          · cases hs; exact ⟨_, rfl, by simp [work]⟩
          · cases hs; exact ⟨_, rfl, by simp [work]⟩
  | found i st =>
    rw [hp] at hs
    cases st with
    | update as w =>
      simp only at hs
      split at hs
      · cases hs
      · split at hs
        · cases hs; exact ⟨_, rfl, by simp [work]⟩
        · split at hs
          · cases hs; exact ⟨_, rfl, by simp [work]⟩
          · cases hs; exact ⟨_, rfl, by simp [work]⟩
    | _ =>
      simp only at hs
      split at hs
      · cases hs
      · split at hs
        · cases hs; exact ⟨_, rfl, by simp [work]⟩
        · cases hs; exact ⟨_, rfl, by simp [work]⟩

theorem work_zero {p : Pos} (h : work p = 0) : ¬ Busy p := by
  unfold work at h
  split at h <;> simp_all [Busy]

/-- A thread that holds a row, or one that holds the latch while nobody holds a row, is not kept waiting. -/
theorem push_steps {F : FloatOps} {order : List (Key × Nat) → List (Key × Nat)} {s : St} {n : Nat} {d : Delta}
    (h : s.th n = .push d) : (step F order s n).isSome = true := by
  simp [Par.step, h]

theorem row_steps {F : FloatOps} {order : List (Key × Nat) → List (Key × Nat)} {s : St} {n i : Nat}
    (h : hasRow (s.th n) = some i) : (step F order s n).isSome = true := by
  cases hp : s.th n with
  | push d => exact push_steps hp
  | _ => rw [hp] at h; cases h

theorem latch_steps {F : FloatOps} {order : List (Key × Nat) → List (Key × Nat)} {s : St} {n : Nat}
    (h : hasLatch (s.th n) = true) : (step F order s n).isSome = true := by
  cases hp : s.th n with
  | push d => exact push_steps hp
  | insert d k c => simp [Par.step, hp]
  | insertV v d k c =>
    simp only [Par.step, hp]
    split <;> rfl
  | delete w => simp [Par.step, hp]
  | deleteV v w =>
    simp only [Par.step, hp]
    split
    · rfl
    · split <;> rfl
  | _ => rw [hp] at h; cases h

theorem all_steps {F : FloatOps} {order : List (Key × Nat) → List (Key × Nat)} {s : St} {n : Nat} (hh : s.held = [])
    (h : hasAll (s.th n) = true) : (step F order s n).isSome = true := by
  cases hp : s.th n with
  | reading ks rest acc =>
    cases rest with
    | nil => simp [Par.step, hp]
    | cons e rest =>
      obtain ⟨k, i⟩ := e
      simp only [Par.step, hp, hh, List.not_mem_nil, if_false]
      split
      · rfl
      · split <;> rfl
  | _ => rw [hp] at h; cases h

/-- Somebody can go on. -/
theorem Holds.progress {F : FloatOps} {order : List (Key × Nat) → List (Key × Nat)} {s : St} (h : Holds s) {n : Nat}
    (hb : Busy (s.th n)) : ∃ x, Busy (s.th x) ∧ (Par.step F order s x).isSome = true := by
  by_cases hr : s.held = []
  · cases hx : s.excl with
    | true =>
      obtain ⟨x, hx⟩ := h.excl hx
      refine ⟨x, ?_, all_steps hr hx⟩
      cases hp : s.th x <;> rw [hp] at hx <;> first | trivial | cases hx
    | false =>
      by_cases hs : s.shared = []
      · refine ⟨n, hb, ?_⟩
        cases hp : s.th n with
        | idle => rw [hp] at hb; exact hb.elim
        | done r => rw [hp] at hb; exact hb.elim
        | called st =>
          cases st with
          | insert d =>
            simp only [Par.step, hp, hx]
            split <;> rfl
          | delete w => simp [Par.step, hp, hx]
          | update as w => simp [Par.step, hp]
          | select fs w => simp [Par.step, hp]
          | selectAll fs l =>
            simp only [Par.step, hp, hx, hs]
            split
            · rfl
            · simp
        | insert d k c => exact latch_steps (by rw [hp]; rfl)
        | insertV v d k c => exact latch_steps (by rw [hp]; rfl)
        | delete w => exact latch_steps (by rw [hp]; rfl)
        | deleteV v w => exact latch_steps (by rw [hp]; rfl)
        | push d => exact push_steps hp
        | reading ks rest acc => exact all_steps hr (by rw [hp]; rfl)
        | found i st =>
          cases st <;> simp only [Par.step, hp, hr, List.not_mem_nil, if_false] <;> split <;> first | rfl | (split <;> rfl)
      · obtain ⟨x, hx⟩ := List.exists_mem_of_ne_nil _ hs
        have hx := (h.shared x).1 hx
        refine ⟨x, ?_, latch_steps hx⟩
        cases hp : s.th x <;> rw [hp] at hx <;> first | trivial | cases hx
  · obtain ⟨i, hi⟩ := List.exists_mem_of_ne_nil _ hr
    obtain ⟨x, hx⟩ := (h.held i).1 hi
    refine ⟨x, ?_, row_steps hx⟩
    cases hp : s.th x <;> rw [hp] at hx <;> first | trivial | cases hx

theorem sum_upd {th : Nat → Pos} {n : Nat} {p : Pos} : ∀ {l : List Nat}, l.Nodup → n ∈ l →
    (l.map fun x => work (upd th n p x)).sum + work (th n) = (l.map fun x => work (th x)).sum + work p
  | a :: l, hd, hm => by
    rw [List.nodup_cons] at hd
    simp only [List.map_cons, List.sum_cons]
    rcases List.mem_cons.1 hm with rfl | hm
    · have : (l.map fun x => work (upd th n p x)) = l.map fun x => work (th x) := by
        refine List.map_congr_left fun x hx => ?_
        rw [upd_other _ _ (by rintro rfl; exact hd.1 hx)]
      rw [this, upd_same]
      omega
    · have hne : a ≠ n := by rintro rfl; exact hd.1 hm
      rw [upd_other _ _ hne]
      have := sum_upd (th := th) (p := p) hd.2 hm
      omega

theorem step_total {F : FloatOps} {order : List (Key × Nat) → List (Key × Nat)} {s s' : St} {n N : Nat}
    (hs : step F order s n = some s') (hN : ∀ x, N ≤ x → s.th x = .idle) :
    total s' N + 1 ≤ total s N ∧ ∀ x, N ≤ x → s'.th x = .idle := by
  obtain ⟨p, h1, h2⟩ := step_work hs
  have hn : n < N := by
    apply Classical.byContradiction
    intro hc
    rw [hN n (by omega)] at h2
    simp [work] at h2
  constructor
  · have := sum_upd (th := s.th) (p := p) List.nodup_range (List.mem_range.2 hn)
    simp only [total, h1]
    omega
  · intro x hx
    rw [h1, upd_other _ _ (by omega)]
    exact hN x hx

theorem gos_total {F : FloatOps} {order : List (Key × Nat) → List (Key × Nat)} : ∀ {ns : List Nat} {s s' : St} {N : Nat},
    gos F order ns s = some s' → (∀ x, N ≤ x → s.th x = .idle) → ns.length + total s' N ≤ total s N ∧ ∀ x, N ≤ x → s'.th x = .idle
  | [], s, s', N, h, hN => by cases h; exact ⟨by simp, hN⟩
  | n :: ns, s, s', N, h, hN => by
    simp only [gos, Option.bind_eq_some_iff] at h
    obtain ⟨s1, h1, h2⟩ := h
    obtain ⟨a, b⟩ := step_total h1 hN
    obtain ⟨c, d⟩ := gos_total h2 b
    simp only [List.length_cons]
    exact ⟨by omega, d⟩

theorem gos_holds {F : FloatOps} {order : List (Key × Nat) → List (Key × Nat)} : ∀ {ns : List Nat} {s s' : St},
    gos F order ns s = some s' → Holds s → Holds s'
  | [], s, s', h, hh => by cases h; exact hh
  | n :: ns, s, s', h, hh => by
    simp only [gos, Option.bind_eq_some_iff] at h
    obtain ⟨s1, h1, h2⟩ := h
    exact gos_holds h2 (hh.step h1)

theorem gos_snoc {F : FloatOps} {order : List (Key × Nat) → List (Key × Nat)} : ∀ {ns : List Nat} {s s' : St} {n : Nat},
    gos F order ns s = some s' → gos F order (ns ++ [n]) s = step F order s' n
  | [], s, s', n, h => by cases h; simp [gos]
  | a :: ns, s, s', n, h => by
    simp only [gos, Option.bind_eq_some_iff] at h
    obtain ⟨s1, h1, h2⟩ := h
    simp only [List.cons_append, gos, h1, Option.bind_some]
    exact gos_snoc h2

/-- Only finitely many clients have sent something. -/
theorem sched_fin {F : FloatOps} {order : List (Key × Nat) → List (Key × Nat)} {s s' : St} {o : Sch}
    {e : Option (Ev Stmt Reply)} (hs : sched F order s o = some (s', e)) {N : Nat} (hN : ∀ x, N ≤ x → s.th x = .idle) :
    ∃ N, ∀ x, N ≤ x → s'.th x = .idle := by
  have hu : ∀ n p, ∃ N, ∀ x, N ≤ x → upd s.th n p x = .idle :=
    fun n p => ⟨max N (n + 1), fun x hx => by rw [upd_other _ _ (by omega)]; exact hN x (by omega)⟩
  cases o with
  | flush n => cases hs; exact ⟨N, hN⟩
  | go n =>
    simp only [Par.sched, Option.map_eq_some_iff] at hs
    obtain ⟨s1, h1, h2⟩ := hs
    cases h2
    exact ⟨N, (step_total h1 hN).2⟩
  | call n st =>
    simp only [Par.sched] at hs
    cases hp : s.th n with
    | idle => rw [hp] at hs; cases hs; exact hu _ _
    | _ => rw [hp] at hs; cases hs
  | ret n =>
    simp only [Par.sched] at hs
    cases hp : s.th n with
    | done r => rw [hp] at hs; cases hs; exact hu _ _
    | _ => rw [hp] at hs; cases hs

theorem scheds_fin {F : FloatOps} {order : List (Key × Nat) → List (Key × Nat)} : ∀ {os : List Sch} {s s' : St}
    {es : List (Ev Stmt Reply)} {N : Nat}, scheds F order os s = some (s', es) → (∀ x, N ≤ x → s.th x = .idle) →
    ∃ N, ∀ x, N ≤ x → s'.th x = .idle
  | [], s, s', es, N, hs, hN => by cases hs; exact ⟨N, hN⟩
  | o :: os, s, s', es, N, hs, hN => by
    simp only [Par.scheds, Option.bind_eq_some_iff] at hs
    obtain ⟨⟨s1, e⟩, h1, ⟨s2, es2⟩, h2, h3⟩ := hs
    cases h3
    obtain ⟨N1, h4⟩ := sched_fin h1 hN
    exact scheds_fin h2 h4

/-- **C79.** Whatever statements, `SELECT ALL` included, any number of clients have sent to one model, and however far each of
them has come: as long as one of them has no answer, one of them can go on. -/
theorem C79_no_deadlock {F : FloatOps} {order : List (Key × Nat) → List (Key × Nat)} {t : Tbl} {os : List Sch} {s : St}
    {es : List (Ev Stmt Reply)} (h : scheds F order os (.start t) = some (s, es)) {n : Nat} (hb : Busy (s.th n)) :
    ∃ x, Busy (s.th x) ∧ step F order s x ≠ none := by
  obtain ⟨x, h1, h2⟩ := ((Holds.start t).scheds h).progress (F := F) (order := order) hb
  exact ⟨x, h1, by intro e; rw [e] at h2; cases h2⟩

/-- **C79.** If no more statements are sent, there is a number of steps after which all are answered, in whatever order the
threads go on, as long as one goes on that can. -/
theorem C79_all_answered {F : FloatOps} {order : List (Key × Nat) → List (Key × Nat)} {t : Tbl} {os : List Sch} {s : St}
    {es : List (Ev Stmt Reply)} (h : scheds F order os (.start t) = some (s, es)) :
    ∃ B, ∀ ns s', gos F order ns s = some s' →
      ns.length ≤ B ∧ ((∀ x, step F order s' x = none) → ∀ x, ¬ Busy (s'.th x)) := by
  obtain ⟨N, hN⟩ := scheds_fin h (N := 0) (fun _ _ => rfl)
  refine ⟨total s N, fun ns s' hg => ?_⟩
  obtain ⟨h1, _⟩ := gos_total hg hN
  refine ⟨by omega, fun hx x hb => ?_⟩
  obtain ⟨y, _, h2⟩ := (gos_holds hg ((Holds.start t).scheds h)).progress (F := F) (order := order) hb
  rw [hx y] at h2
  cases h2

/-- **C79.** A single statement takes a number of steps that does not depend on the others: at most four of its own, or, for
`SELECT ALL`, two more than its limit. -/
theorem C79_own_steps {F : FloatOps} {order : List (Key × Nat) → List (Key × Nat)} {ns : List Nat} {s s' : St} {n : Nat} {st : Stmt}
    (hn : s.th n = .called st) (h : gos F order ns s = some s') :
    ns.count n ≤ match st with
      | .selectAll _ l => l + 2
      | _ => 4 := by
  have key : ∀ (ns : List Nat) (s : St), gos F order ns s = some s' → ns.count n + work (s'.th n) ≤ work (s.th n) := by
    intro ns
    induction ns with
    | nil => intro s h; cases h; simp
    | cons a ns ih =>
      intro s h
      simp only [gos, Option.bind_eq_some_iff] at h
      obtain ⟨s1, h1, h2⟩ := h
      obtain ⟨p, e1, e2⟩ := step_work h1
      have := ih s1 h2
      rw [e1] at this
      by_cases e : a = n
      · subst e
        rw [upd_same] at this
        simp only [List.count_cons_self]
        omega
      · rw [upd_other _ _ (fun h => e h.symm)] at this
        rw [List.count_cons_of_ne e]
        exact this
  have h1 := key ns s h
  rw [hn] at h1
  cases st <;> simp only [work] at h1 ⊢ <;> omega

/-! ### Example -/

/-- `SELECT ALL` has read a row and waits for the row of an UPDATE; an INSERT waits for the latch. -/
def exJam : Option (St × List (Ev Stmt Reply)) :=
  scheds exF id [.call 0 (exRow 1 .null), .go 0, .go 0, .go 0, .go 0, .ret 0, .call 0 (exRow 2 .null), .go 0, .go 0, .go 0, .go 0, .ret 0,
    .call 0 (.update [⟨"n", .assign, .uint 7⟩] (whereId 2)), .go 0, .go 0, .call 1 (.selectAll (some ["id", "n"]) 10), .go 1, .go 1,
    .call 2 (exRow 3 .null)] (.start (Tbl.empty exModel))

/-- Two of three clients wait; the third one can go on, then the second one, then all. -/
example : exJam.map (fun s => ((step exF id s.1 0).isSome, (step exF id s.1 1).isNone, (step exF id s.1 2).isNone)) =
      some (true, true, true) ∧
    (exJam.bind fun s => gos exF id [0, 1, 1, 2, 2, 2, 2] s.1).map (fun s =>
      (List.range 3).all fun n => match s.th n with | .done (.err _) => false | .done .panic => false | .done _ => true | _ => false) =
      some true := by
  decide +kernel

end Verif.Dml.Par
