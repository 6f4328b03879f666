/-!
C92: the changes that wait to be written, and the memory they may use: `FractalRTStat` (`fractal/mgr.rs:129-151`), the check after
each statement (`fractal/mod.rs:148-175`, `core/mod.rs:174-200`), and the two services that write (`fractal/mgr.rs:375-412, 473-510`).
-/
namespace Verif.Fractal.Limit

/-! ## The limit -/

/-- The part of the memory for the changes of one model (`fractal/mgr.rs:136-138`): two percent of the memory that was free at the start,
shared between the models that were there at the start, and at least one. The code computes this with floating point numbers; here it
is exact. -/
def share (mem n : Nat) : Nat := mem * 2 / 100 / max n 1

/-- `per_mdl_delta_max_size` (`fractal/mgr.rs:141`). `sz` is the size of a `DataDelta` (`core/model/delta.rs:206-211`). -/
def limit (sz mem n : Nat) : Nat := share mem n / sz

/-- Whether a batch is asked for after a statement (`fractal/mod.rs:158-161`): `hint` is the number of waiting changes that the statement
saw, `rows` the number of rows of the model. -/
def ask (lim hint rows : Nat) : Bool :=
  let tolerated := decide (lim ≤ hint)
  let percent := decide (rows / 100 * 5 ≤ hint) && tolerated
  tolerated || percent

/-! ## The models at run time -/

/-- A model: `data_deltas_size` (`core/model/delta.rs:51`); the changes in `data_deltas`; the statements that have counted their change,
found that a batch is needed, and have not yet taken the count (`fractal/mod.rs:161-167`); and the counts in the tasks that were posted
and not yet done (`fractal/mod.rs:168-171`), oldest first. -/
structure Mdl where
  counter : Nat
  queued : Nat
  pend : Nat
  posted : List Nat
  deriving DecidableEq, Repr

/-- A change is put in the queue and counted (`core/model/delta.rs:95-98`), and its statement decides (`fractal/mod.rs:158-161`). Queue and
counter change together here (for their order see C75). -/
def Mdl.change (lim rows : Nat) (m : Mdl) : Mdl :=
  { m with
    counter := m.counter + 1
    queued := m.queued + 1
    pend := if ask lim (m.counter + 1) rows then m.pend + 1 else m.pend }

/-- A statement that decided for a batch takes the count and posts the task (`fractal/mod.rs:165-171`). -/
def Mdl.take (m : Mdl) : Mdl :=
  if m.pend = 0 then m else { m with counter := 0, pend := m.pend - 1, posted := m.posted ++ [m.counter] }

/-- The service for urgent tasks does one (`fractal/mgr.rs:375-412`), without an error. -/
def Mdl.write (m : Mdl) : Mdl :=
  match m.posted with
  | [] => m
  | k :: ks => { m with queued := m.queued - k, posted := ks }

/-- The service that runs at fixed times writes what it finds (`fractal/mgr.rs:473-485`), without an error. -/
def Mdl.sweep (m : Mdl) : Mdl := { m with counter := 0, queued := m.queued - m.counter }

/-- What happens to the model at a position. -/
def modifyAt (f : Mdl → Mdl) : Nat → List Mdl → List Mdl
  | _, [] => []
  | 0, m :: ms => f m :: ms
  | i + 1, m :: ms => m :: modifyAt f i ms

/-- The server: the limit, which does not change after the start (`fractal/mod.rs:74-81`), and the models. -/
structure St where
  lim : Nat
  mdls : List Mdl
  deriving DecidableEq, Repr

/-- The start with `n` models (`fractal/mod.rs:74-89`). -/
def start (sz mem n : Nat) : St := ⟨limit sz mem n, List.replicate n ⟨0, 0, 0, []⟩⟩

/-- What can happen. Models are named by their positions. The order of the tasks of different models is left open. -/
inductive Ev where
  | change (i rows : Nat)
  | take (i : Nat)
  | write (i : Nat)
  | sweep (i : Nat)
  | create
  | drop (i : Nat)
  deriving DecidableEq, Repr

/-- A step. A model is created or dropped when no statement is between its change and its task, because the statement holds the lock of
the models for reading (`core/mod.rs:182, 188-194`). What is not possible changes nothing. -/
def step (s : St) : Ev → St
  | .change i rows => { s with mdls := modifyAt (Mdl.change s.lim rows) i s.mdls }
  | .take i => { s with mdls := modifyAt Mdl.take i s.mdls }
  | .write i => { s with mdls := modifyAt Mdl.write i s.mdls }
  | .sweep i => { s with mdls := modifyAt Mdl.sweep i s.mdls }
  | .create => if s.mdls.all (·.pend == 0) then { s with mdls := s.mdls ++ [⟨0, 0, 0, []⟩] } else s
  | .drop i => if s.mdls.all (·.pend == 0) then { s with mdls := s.mdls.eraseIdx i } else s

def run (s : St) (es : List Ev) : St := es.foldl step s

/-! ## What is stated -/

/-- The changes that wait and were not given to a task. -/
def St.counted (s : St) : Nat := (s.mdls.map (·.counter)).sum
/-- All changes in memory. -/
def St.waiting (s : St) : Nat := (s.mdls.map (·.queued)).sum
/-- The statements between their change and their task. -/
def St.inflight (s : St) : Nat := (s.mdls.map (·.pend)).sum
/-- The tasks that were posted and not done. -/
def St.backlog (s : St) : List Nat := s.mdls.flatMap (·.posted)

/-! ## Proofs -/

/-- The rule about five percent of the rows has no effect. -/
theorem C92_rule (lim hint rows : Nat) : ask lim hint rows = decide (lim ≤ hint) := by
  unfold ask; cases decide (lim ≤ hint) <;> simp

-- three of four rows of a table of 1000 have changed, and no batch is asked for
example : ask 1000000 750 1000 = false := by decide
example : ask 10 10 1000000 = true := by decide

/-- What holds for a model at all times. -/
def Ok (lim : Nat) (m : Mdl) : Prop :=
  m.counter ≤ (lim - 1) + m.pend ∧ m.queued = m.counter + m.posted.sum

theorem ok_change {lim m} (rows : Nat) (h : Ok lim m) : Ok lim (m.change lim rows) := by
  obtain ⟨h1, h2⟩ := h
  unfold Mdl.change; rw [C92_rule]
  refine ⟨?_, ?_⟩
  · dsimp only
    by_cases h : lim ≤ m.counter + 1
    · simp only [h, decide_true, if_true]; omega
    · simp only [h, decide_false, Bool.false_eq_true, if_false]; omega
  · dsimp only; omega

theorem ok_take {lim m} (h : Ok lim m) : Ok lim m.take := by
  obtain ⟨h1, h2⟩ := h
  unfold Mdl.take; split
  · exact ⟨h1, h2⟩
  · exact ⟨by dsimp only; omega, by simp; omega⟩

theorem ok_write {lim m} (h : Ok lim m) : Ok lim m.write := by
  obtain ⟨h1, h2⟩ := h
  unfold Mdl.write; split
  · exact ⟨h1, h2⟩
  · rename_i k ks e
    rw [e] at h2; simp only [List.sum_cons] at h2
    exact ⟨h1, by dsimp only; omega⟩

theorem ok_sweep {lim m} (h : Ok lim m) : Ok lim m.sweep := by
  obtain ⟨h1, h2⟩ := h
  unfold Mdl.sweep
  exact ⟨by dsimp only; omega, by dsimp only; omega⟩

theorem all_modifyAt {P : Mdl → Prop} {f : Mdl → Mdl} (hf : ∀ m, P m → P (f m)) :
    ∀ i l, (∀ m ∈ l, P m) → ∀ m ∈ modifyAt f i l, P m
  | _, [], _ => by simp [modifyAt]
  | 0, a :: l, h => by
    intro m hm
    simp only [modifyAt, List.mem_cons] at hm
    rcases hm with rfl | hm
    · exact hf _ (h a (by simp))
    · exact h m (by simp [hm])
  | i + 1, a :: l, h => by
    intro m hm
    simp only [modifyAt, List.mem_cons] at hm
    rcases hm with rfl | hm
    · exact h _ (by simp)
    · exact all_modifyAt hf i l (fun m hm => h m (by simp [hm])) m hm

theorem step_lim (s : St) (e : Ev) : (step s e).lim = s.lim := by
  cases e <;> simp only [step] <;> split <;> rfl

theorem step_ok {s : St} (e : Ev) (h : ∀ m ∈ s.mdls, Ok s.lim m) : ∀ m ∈ (step s e).mdls, Ok s.lim m := by
  cases e with
  | change i rows => exact all_modifyAt (P := Ok s.lim) (fun _ => ok_change rows) i _ h
  | take i => exact all_modifyAt (P := Ok s.lim) (fun _ => ok_take) i _ h
  | write i => exact all_modifyAt (P := Ok s.lim) (fun _ => ok_write) i _ h
  | sweep i => exact all_modifyAt (P := Ok s.lim) (fun _ => ok_sweep) i _ h
  | create =>
    simp only [step]; split
    · intro m hm
      rcases List.mem_append.1 hm with hm | hm
      · exact h m hm
      · rw [List.mem_singleton] at hm; subst hm; exact ⟨by simp, by simp⟩
    · exact h
  | drop i =>
    simp only [step]; split
    · exact fun m hm => h m (List.mem_of_mem_eraseIdx hm)
    · exact h

theorem run_ok (es : List Ev) : ∀ {s : St}, (∀ m ∈ s.mdls, Ok s.lim m) →
    (run s es).lim = s.lim ∧ ∀ m ∈ (run s es).mdls, Ok s.lim m := by
  induction es with
  | nil => exact fun h => ⟨rfl, h⟩
  | cons e es ih =>
    intro s h
    have := ih (s := step s e) (by rw [step_lim]; exact step_ok e h)
    rw [step_lim] at this
    exact this

theorem start_ok (sz mem n : Nat) : ∀ m ∈ (start sz mem n).mdls, Ok (start sz mem n).lim m := by
  intro m hm
  obtain rfl := List.eq_of_mem_replicate hm
  exact ⟨by simp, by simp⟩

theorem sums {lim : Nat} : ∀ l : List Mdl, (∀ m ∈ l, Ok lim m) →
    (l.map (·.counter)).sum ≤ l.length * (lim - 1) + (l.map (·.pend)).sum ∧
    (l.map (·.queued)).sum = (l.map (·.counter)).sum + (l.flatMap (·.posted)).sum
  | [], _ => by simp
  | a :: l, h => by
    obtain ⟨i1, i2⟩ := sums l (fun m hm => h m (by simp [hm]))
    obtain ⟨a1, a2⟩ := h a (by simp)
    simp only [List.map_cons, List.sum_cons, List.length_cons, List.flatMap_cons, List.sum_append, Nat.succ_mul]
    omega

theorem share_bound {sz mem n k : Nat} (hk : k ≤ max n 1) : k * (limit sz mem n - 1) * sz ≤ mem * 2 / 100 := by
  have h1 : limit sz mem n * sz ≤ share mem n := Nat.div_mul_le_self _ _
  have h2 : share mem n * max n 1 ≤ mem * 2 / 100 := Nat.div_mul_le_self _ _
  calc k * (limit sz mem n - 1) * sz ≤ max n 1 * limit sz mem n * sz :=
        Nat.mul_le_mul_right _ (Nat.mul_le_mul hk (Nat.sub_le _ _))
    _ = limit sz mem n * sz * max n 1 := by rw [Nat.mul_comm (max n 1), Nat.mul_right_comm]
    _ ≤ share mem n * max n 1 := Nat.mul_le_mul_right _ h1
    _ ≤ _ := h2

/-- C92, as far as it holds: as long as there are not more models than at the start, the changes that were not given to a task use at most
two percent of the memory that was free at the start, apart from those of statements that are about to post a task; and so do all changes
in memory when all tasks are done. Missing: models that are created later, and tasks that are not done (see the two theorems
`_violated`). -/
theorem C92_partial (sz mem n : Nat) (es : List Ev) :
    let s := run (start sz mem n) es
    s.mdls.length ≤ max n 1 →
      s.counted * sz ≤ mem * 2 / 100 + s.inflight * sz ∧
      (s.backlog = [] → s.waiting * sz ≤ mem * 2 / 100 + s.inflight * sz) := by
  intro s hl
  obtain ⟨_, ok⟩ := run_ok es (start_ok sz mem n)
  obtain ⟨h1, h2⟩ := sums _ ok
  have hb : s.counted * sz ≤ mem * 2 / 100 + s.inflight * sz := by
    calc s.counted * sz ≤ (s.mdls.length * (limit sz mem n - 1) + s.inflight) * sz := Nat.mul_le_mul_right _ h1
      _ = s.mdls.length * (limit sz mem n - 1) * sz + s.inflight * sz := Nat.add_mul _ _ _
      _ ≤ _ := Nat.add_le_add_right (share_bound hl) _
  refine ⟨hb, fun e => ?_⟩
  have : s.waiting = s.counted := by
    have h2 : s.waiting = s.counted + s.backlog.sum := h2
    rw [e] at h2; simpa using h2
  rw [this]; exact hb

-- two models, a limit of 5 changes; two threads change the first one at the same time
example : limit 32 16000 2 = 5 := by decide
example : let s := run (start 32 16000 2) (List.replicate 6 (.change 0 0) ++ [.change 1 0])
    s.counted = 7 ∧ s.inflight = 2 ∧ s.waiting * 32 ≤ 16000 * 2 / 100 + 2 * 32 := by decide
-- the first of them takes the count, the second takes what is left, and both tasks are done
example : let s := run (start 32 16000 2) (List.replicate 6 (.change 0 0) ++ [.change 1 0, .take 0, .change 0 0, .take 0])
    s.backlog = [6, 1] ∧ s.waiting = 8 ∧ (run s [.write 0, .write 0]).waiting = 1 := by decide

-- a model cannot be dropped while a statement is about to ask for a batch of it; then its changes are gone with it
example : let s := run (start 32 16000 2) (List.replicate 5 (.change 0 0))
    (run s [.drop 0]).waiting = 5 ∧ (run s [.take 0, .drop 0]).waiting = 0 ∧ (run s [.take 0, .drop 0]).mdls.length = 1 := by decide

/-! ### The size of the batches -/

/-- What happens when statements come one after the other. -/
inductive Whole where
  | stmt (i rows : Nat)
  | write (i : Nat)
  | sweep (i : Nat)
  | create
  | drop (i : Nat)

def Whole.events : Whole → List Ev
  | .stmt i rows => [.change i rows, .take i]
  | .write i => [.write i]
  | .sweep i => [.sweep i]
  | .create => [.create]
  | .drop i => [.drop i]

/-- What holds for a model between two statements. -/
def Calm (lim : Nat) (m : Mdl) : Prop := m.pend = 0 ∧ m.counter < max lim 1 ∧ ∀ k ∈ m.posted, k = max lim 1

theorem modifyAt_twice (f g : Mdl → Mdl) : ∀ i l, modifyAt g i (modifyAt f i l) = modifyAt (fun m => g (f m)) i l
  | _, [] => by simp [modifyAt]
  | 0, _ :: _ => rfl
  | i + 1, a :: l => by simp only [modifyAt, modifyAt_twice f g i l]

theorem calm_stmt {lim m} (rows : Nat) (h : Calm lim m) : Calm lim (m.change lim rows).take := by
  obtain ⟨h1, h2, h3⟩ := h
  unfold Mdl.change; rw [C92_rule]
  by_cases hl : lim ≤ m.counter + 1
  · simp only [hl, decide_true, if_true, Mdl.take, h1, Nat.zero_add, Nat.one_ne_zero, if_false, Nat.sub_self]
    refine ⟨rfl, by dsimp only; omega, ?_⟩
    intro k hk
    rcases List.mem_append.1 hk with hk | hk
    · exact h3 k hk
    · rw [List.mem_singleton] at hk; omega
  · simp only [hl, decide_false, Bool.false_eq_true, if_false, Mdl.take, h1, if_true]
    exact ⟨rfl, by dsimp only; omega, h3⟩

theorem calm_write {lim m} (h : Calm lim m) : Calm lim m.write := by
  obtain ⟨h1, h2, h3⟩ := h
  unfold Mdl.write; split
  · exact ⟨h1, h2, h3⟩
  · rename_i k ks e
    exact ⟨h1, h2, fun j hj => h3 j (by rw [e]; exact List.mem_cons_of_mem _ hj)⟩

theorem calm_sweep {lim m} (h : Calm lim m) : Calm lim m.sweep :=
  ⟨h.1, by unfold Mdl.sweep; dsimp only; omega, h.2.2⟩

theorem calm_whole {s : St} (w : Whole) (h : ∀ m ∈ s.mdls, Calm s.lim m) :
    ∀ m ∈ (run s w.events).mdls, Calm s.lim m := by
  cases w with
  | stmt i rows =>
    show ∀ m ∈ modifyAt Mdl.take i (modifyAt (Mdl.change s.lim rows) i s.mdls), _
    rw [modifyAt_twice]
    exact all_modifyAt (P := Calm s.lim) (fun _ => calm_stmt rows) i _ h
  | write i => exact all_modifyAt (P := Calm s.lim) (fun _ => calm_write) i _ h
  | sweep i => exact all_modifyAt (P := Calm s.lim) (fun _ => calm_sweep) i _ h
  | create =>
    show ∀ m ∈ (step s .create).mdls, _
    simp only [step]; split
    · intro m hm
      rcases List.mem_append.1 hm with hm | hm
      · exact h m hm
      · rw [List.mem_singleton] at hm; subst hm; exact ⟨rfl, by simp; omega, by simp⟩
    · exact h
  | drop i =>
    show ∀ m ∈ (step s (.drop i)).mdls, _
    simp only [step]; split
    · exact fun m hm => h m (List.mem_of_mem_eraseIdx hm)
    · exact h

theorem run_lim (es : List Ev) : ∀ s : St, (run s es).lim = s.lim := by
  induction es with
  | nil => exact fun _ => rfl
  | cons e es ih => intro s; exact (ih (step s e)).trans (step_lim s e)

theorem calm_run (ws : List Whole) : ∀ {s : St}, (∀ m ∈ s.mdls, Calm s.lim m) →
    ∀ m ∈ (run s (ws.flatMap Whole.events)).mdls, Calm s.lim m := by
  induction ws with
  | nil => exact fun h => h
  | cons w ws ih =>
    intro s h
    have := ih (s := run s w.events) (by rw [run_lim]; exact calm_whole w h)
    rw [run_lim] at this
    simpa [run, List.foldl_append] using this

/-- When statements come one after the other, a batch is asked for exactly when the limit is reached: every task has as many changes as
the limit says (one, if the limit is zero), and no model keeps that many. -/
theorem C92_size (sz mem n : Nat) (ws : List Whole) :
    let s := run (start sz mem n) (ws.flatMap Whole.events)
    (∀ k ∈ s.backlog, k = max (limit sz mem n) 1) ∧ ∀ m ∈ s.mdls, m.counter < max (limit sz mem n) 1 := by
  intro s
  have h := calm_run ws (s := start sz mem n) (by
    intro m hm
    obtain rfl := List.eq_of_mem_replicate hm
    exact ⟨rfl, by simp only [start]; omega, by simp⟩)
  refine ⟨fun k hk => ?_, fun m hm => (h m hm).2.1⟩
  obtain ⟨m, hm, hk⟩ := List.mem_flatMap.1 hk
  exact (h m hm).2.2 k hk

example : (run (start 32 16000 2) ((List.replicate 12 (Whole.stmt 0 0)).flatMap Whole.events)).backlog = [5, 5] := by decide
-- the call for the free memory failed and gave zero: every change is a batch of its own
example : (run (start 32 0 1) ((List.replicate 3 (Whole.stmt 0 0)).flatMap Whole.events)).backlog = [1, 1, 1] := by decide

/-! ### What does not hold -/

/-- Models that are created after the start each get the whole share: a server that was started with no models, in which sixty are created,
holds changes that need more than all the memory that was free, and no task was ever posted. -/
theorem C92_models_violated : ∃ es : List Ev,
    let s := run (start 32 16000 0) es
    s.inflight = 0 ∧ s.backlog = [] ∧ 16000 < s.waiting * 32 :=
  ⟨List.replicate 60 .create ++ (List.range 60).flatMap fun i => List.replicate 9 (.change i 0), by decide +kernel⟩

/-- Statements do not wait for the tasks: with one model and one client, whatever the memory, any number of changes can be in memory. -/
theorem C92_backlog_violated (sz mem B : Nat) : ∃ es : List Ev,
    let s := run (start sz mem 1) es
    s.mdls.length = 1 ∧ s.inflight = 0 ∧ B ≤ s.waiting := by
  have key : ∀ B, ∃ m : Mdl, (run (start sz mem 1) ((List.replicate B (Whole.stmt 0 0)).flatMap Whole.events)).mdls = [m] ∧
      m.pend = 0 ∧ m.queued = B := by
    intro B
    induction B with
    | zero => exact ⟨_, rfl, rfl, rfl⟩
    | succ B ih =>
      obtain ⟨m, h1, h2, h3⟩ := ih
      have e : run (start sz mem 1) ((List.replicate (B + 1) (Whole.stmt 0 0)).flatMap Whole.events) =
          run (run (start sz mem 1) ((List.replicate B (Whole.stmt 0 0)).flatMap Whole.events)) (Whole.stmt 0 0).events := by
        rw [List.replicate_succ', List.flatMap_append]
        simp [run, List.foldl_append]
      rw [e]
      generalize run (start sz mem 1) ((List.replicate B (Whole.stmt 0 0)).flatMap Whole.events) = s at h1
      refine ⟨(m.change s.lim 0).take, ?_, ?_, ?_⟩
      · show modifyAt Mdl.take 0 (modifyAt (Mdl.change s.lim 0) 0 s.mdls) = _
        rw [h1]; rfl
      · simp only [Mdl.take, Mdl.change, h2]; split <;> simp_all
      · simp only [Mdl.take, Mdl.change]; split <;> simp_all
  obtain ⟨m, h1, h2, h3⟩ := key B
  refine ⟨(List.replicate B (Whole.stmt 0 0)).flatMap Whole.events, ?_, ?_, ?_⟩
  · rw [h1]; rfl
  · simp [St.inflight, h1, h2]
  · simp [St.waiting, h1, h3]

end Verif.Fractal.Limit
