/-!
C94: the service for tasks that are not urgent (`fractal/mgr.rs:420-472`): it removes the directories of models and spaces that were
dropped, and writes the waiting changes of all models at fixed times.
-/
namespace Verif.Fractal.Periodic

/-! ## The model -/

/-- A directory. `[s]` stands for the directory of a space and `[s, m]` for that of a model in it (`storage/common/mod.rs:46-56`). -/
abbrev Path := List Nat

/-- `TASK_THRESHOLD` and `TASK_FAILURE_SLEEP_DURATION` in seconds (`fractal/mgr.rs:58-59`). -/
def THRESHOLD : Nat := 10
def SLEEP : Nat := 30

/-- `Task<GenericTask>` (`fractal/mgr.rs:60-66, 87-94`). `DeleteFile` is not used by the server. -/
structure Task where
  threshold : Nat
  dir : Path
  deriving DecidableEq, Repr

/-- `Task::new` (`fractal/mgr.rs:69-71`). -/
def Task.new (p : Path) : Task := ⟨THRESHOLD, p⟩

/-- `Task::sleep` (`fractal/mgr.rs:80-84`). -/
def Task.sleep (k : Task) : Nat := if k.threshold ≠ THRESHOLD then SLEEP else 0

/-- What the service does, with the time. -/
inductive Ev where
  /-- the waiting changes of all models are written (`general_executor`, `fractal/mgr.rs:473-513`) -/
  | sweep (t : Nat)
  | removed (t : Nat) (p : Path)
  | failed (t : Nat) (p : Path)
  deriving DecidableEq, Repr

/-- The time at the head of the loop, the channel, the tasks that will be posted with their times in order, the directories, and what was
done, newest first. -/
structure St where
  now : Nat
  queue : List Task
  future : List (Nat × Path)
  disk : List Path
  log : List Ev
  deriving DecidableEq, Repr

/-- `remove_dir_all`: it fails if the directory does not exist, and if the system reports an error (`bad`). It removes what is in the
directory too. -/
def remove (bad : Path → Nat → Bool) (t : Nat) (p : Path) (disk : List Path) : Option (List Path) :=
  if p ∈ disk ∧ bad p t = false then some (disk.filter fun q => !p.isPrefixOf q) else none

/-- The tasks that are posted until `t` are in the channel. -/
def St.arrive (s : St) (t : Nat) : St :=
  { s with
    queue := s.queue ++ (s.future.takeWhile fun x => x.1 ≤ t).map fun x => Task.new x.2
    future := s.future.dropWhile fun x => x.1 ≤ t }

/-- A round of the loop (`fractal/mgr.rs:428-471`), without the signal. If there is a task, it is taken: the timer is made anew in each
round, so that it is not ready. The task sleeps first, and if it fails it is posted again with a lower threshold
(`fractal/mgr.rs:258-261, 461-467`). Without a task the service waits for the first of a task and the timer; if both come at the same
time, `tie` tells which is taken. Removing and writing take no time here. -/
def step (w : Nat) (bad : Path → Nat → Bool) (tie : Nat → Bool) (s : St) : St :=
  match s.queue with
  | k :: q =>
    let t := s.now + k.sleep
    let s1 := { s with now := t, queue := q }.arrive t
    match remove bad t k.dir s.disk with
    | some d => { s1 with disk := d, log := .removed t k.dir :: s.log }
    | none => { s1 with queue := s1.queue ++ [⟨k.threshold - 1, k.dir⟩], log := .failed t k.dir :: s.log }
  | [] =>
    match s.future with
    | (a, p) :: fs =>
      if a < s.now + w ∨ (a = s.now + w ∧ tie a = true) then
        { s with now := max a s.now, queue := [Task.new p], future := fs }
      else { s with now := s.now + w, log := .sweep (s.now + w) :: s.log }
    | [] => { s with now := s.now + w, log := .sweep (s.now + w) :: s.log }

def run (w : Nat) (bad : Path → Nat → Bool) (tie : Nat → Bool) : Nat → St → St
  | 0, s => s
  | n + 1, s => run w bad tie n (step w bad tie s)

/-- The signal is taken at the head of the loop (`fractal/mgr.rs:430-436`): a last write, and the service ends. What is in the channel is
dropped with it. -/
def halt (s : St) : St := { s with queue := [], log := .sweep s.now :: s.log }

/-- The start of the service. -/
def start (future : List (Nat × Path)) (disk : List Path) : St := ⟨0, [], future, disk, []⟩

/-! ## What is counted -/

def Ev.isSweep : Ev → Bool
  | .sweep _ => true
  | _ => false

def Ev.isFailed : Ev → Bool
  | .failed .. => true
  | _ => false

/-- The writes so far. -/
def St.sweeps (s : St) : Nat := s.log.countP Ev.isSweep
/-- The removals that failed so far. -/
def St.failures (s : St) : Nat := s.log.countP Ev.isFailed

/-! ## Proofs -/

/-- The tasks in the channel that failed before. -/
def sleepers (q : List Task) : Nat := q.countP fun k => k.threshold != THRESHOLD

theorem sleepers_new (l : List (Nat × Path)) : sleepers (l.map fun x => Task.new x.2) = 0 := by
  simp only [sleepers, List.countP_eq_zero, List.mem_map]
  rintro k ⟨x, _, rfl⟩
  simp [Task.new]

theorem dropWhile_length (p : Nat × Path → Bool) (l : List (Nat × Path)) :
    (l.takeWhile p).length + (l.dropWhile p).length = l.length := by
  induction l with
  | nil => rfl
  | cons a l ih => simp only [List.takeWhile, List.dropWhile]; split <;> simp only [List.length_cons, List.length_nil] <;> omega

theorem sleep_le (k : Task) (q : List Task) : k.sleep + SLEEP * sleepers q ≤ SLEEP * sleepers (k :: q) := by
  simp only [sleepers, List.countP_cons, Task.sleep]
  by_cases h : k.threshold = THRESHOLD
  · simp [h]
  · simp [h, Nat.mul_add, Nat.add_comm]

/-- What a round does to time and tasks: it is a write, or a failure, or there is less to do. -/
theorem step_measure (w : Nat) (bad : Path → Nat → Bool) (tie : Nat → Bool) (s : St) :
    let s' := step w bad tie s
    s'.now + w * s'.future.length + SLEEP * sleepers s'.queue + w * s.sweeps + SLEEP * s.failures ≤
      s.now + w * s.future.length + SLEEP * sleepers s.queue + w * s'.sweeps + SLEEP * s'.failures ∧
    1 + (s'.queue.length + 2 * s'.future.length) + s.sweeps + s.failures ≤
      (s.queue.length + 2 * s.future.length) + s'.sweeps + s'.failures := by
  unfold step
  split
  · rename_i k q e
    have hs := sleep_le k q
    have hl := dropWhile_length (fun x => decide (x.1 ≤ s.now + k.sleep)) s.future
    have hd : w * (s.future.dropWhile fun x => decide (x.1 ≤ s.now + k.sleep)).length ≤ w * s.future.length :=
      Nat.mul_le_mul_left _ (by omega)
    dsimp only
    split
    · simp only [St.arrive, St.sweeps, St.failures, List.countP_cons, Ev.isSweep, Ev.isFailed, e, sleepers, List.countP_append,
        Bool.false_eq_true, if_false, Nat.add_zero, List.length_append, List.length_map, List.length_cons]
      have h0 := sleepers_new (s.future.takeWhile fun x => decide (x.1 ≤ s.now + k.sleep))
      simp only [sleepers, List.countP_cons] at h0 hs
      rw [h0]
      simp only [SLEEP] at *
      constructor <;> omega
    · simp only [St.arrive, St.sweeps, St.failures, List.countP_cons, Ev.isSweep, Ev.isFailed, e, sleepers, List.countP_append,
        Bool.false_eq_true, if_false, if_true, Nat.add_zero, List.length_append, List.length_map, List.length_cons, List.length_nil,
        List.countP_nil]
      have h0 := sleepers_new (s.future.takeWhile fun x => decide (x.1 ≤ s.now + k.sleep))
      simp only [sleepers, List.countP_cons] at h0 hs
      rw [h0]
      have h1 : (if (k.threshold - 1 != THRESHOLD) = true then 1 else 0) ≤ 1 := by split <;> omega
      simp only [SLEEP] at *
      constructor <;> omega
  · rename_i e
    split
    · rename_i a p fs ef
      split
      · rename_i h
        simp only [St.sweeps, St.failures, e, ef, sleepers, List.length_cons, List.length_nil, List.countP_nil, List.countP_cons, Task.new,
          bne_self_eq_false, Bool.false_eq_true, if_false, Nat.mul_add, Nat.mul_one]
        constructor <;> omega
      · simp only [St.sweeps, St.failures, List.countP_cons, Ev.isSweep, Ev.isFailed, Bool.false_eq_true, if_false, if_true, Nat.mul_add,
          Nat.mul_one]
        constructor <;> omega
    · simp only [St.sweeps, St.failures, List.countP_cons, Ev.isSweep, Ev.isFailed, Bool.false_eq_true, if_false, if_true, Nat.mul_add,
        Nat.mul_one]
      constructor <;> omega

theorem run_measure (w : Nat) (bad : Path → Nat → Bool) (tie : Nat → Bool) : ∀ (n : Nat) (s : St),
    let s' := run w bad tie n s
    s'.now + w * s'.future.length + SLEEP * sleepers s'.queue + w * s.sweeps + SLEEP * s.failures ≤
      s.now + w * s.future.length + SLEEP * sleepers s.queue + w * s'.sweeps + SLEEP * s'.failures ∧
    n + (s'.queue.length + 2 * s'.future.length) + s.sweeps + s.failures ≤
      (s.queue.length + 2 * s.future.length) + s'.sweeps + s'.failures := by
  intro n
  induction n with
  | zero => intro s; exact ⟨Nat.le_refl _, by simp [run]⟩
  | succ n ih =>
    intro s
    have h1 := step_measure w bad tie s
    have h2 := ih (step w bad tie s)
    dsimp only at h1 h2 ⊢
    simp only [run]
    constructor <;> omega

/-- C94, as far as it holds: the time that has passed is at most a window for each write, a window for each task that was posted, and half
a minute for each removal that failed; and the service goes on: all rounds but two for each task are writes or failures. So the changes
are written once in each window if no tasks are posted. Missing: with tasks and failures there is no bound (see the theorems
`_violated`). -/
theorem C94_partial (w : Nat) (bad : Path → Nat → Bool) (tie : Nat → Bool) (future : List (Nat × Path)) (disk : List Path) (n : Nat) :
    let s := run w bad tie n (start future disk)
    s.now ≤ w * (s.sweeps + future.length) + 30 * s.failures ∧ n ≤ s.sweeps + s.failures + 2 * future.length := by
  have h := run_measure w bad tie n (start future disk)
  dsimp only at h ⊢
  simp only [start, St.sweeps, St.failures, sleepers, List.countP_nil, List.length_nil, Nat.mul_zero, Nat.add_zero, Nat.zero_add,
    Nat.mul_add, SLEEP] at h ⊢
  constructor <;> omega

-- two models are dropped; all the time the changes are written, a little later after each of the two
example : let s := run 300 (fun _ _ => false) (fun _ => true) 8 (start [(200, [1, 1]), (700, [1, 2])] [[1], [1, 1], [1, 2], [2]])
    s.log = [.sweep 1600, .sweep 1300, .sweep 1000, .removed 700 [1, 2], .sweep 500, .removed 200 [1, 1]] ∧ s.disk = [[1], [2]] := by
  decide

/-! ### Tasks are done in turn -/

theorem step_queue {w : Nat} {bad : Path → Nat → Bool} {tie : Nat → Bool} {s : St} {k : Task} {q : List Task} (h : s.queue = k :: q) :
    ∃ r, (step w bad tie s).queue = q ++ r := by
  unfold step; rw [h]; dsimp only
  split
  · exact ⟨_, rfl⟩
  · exact ⟨_, List.append_assoc ..⟩

theorem step_first {w : Nat} {bad : Path → Nat → Bool} {tie : Nat → Bool} {s : St} {k : Task} {q : List Task} (h : s.queue = k :: q) :
    (step w bad tie s).log = .removed (s.now + k.sleep) k.dir :: s.log ∨
    (step w bad tie s).log = .failed (s.now + k.sleep) k.dir :: s.log := by
  unfold step; rw [h]; dsimp only
  split
  · exact .inl rfl
  · exact .inr rfl

/-- A task is tried after those that were posted before it, and no other comes first. -/
theorem C94_in_turn (w : Nat) (bad : Path → Nat → Bool) (tie : Nat → Bool) : ∀ (before : List Task) (k : Task) (after : List Task) (s : St),
    s.queue = before ++ k :: after →
    let s' := run w bad tie (before.length + 1) s
    ∃ t, s'.log.head? = some (.removed t k.dir) ∨ s'.log.head? = some (.failed t k.dir) := by
  intro before
  induction before with
  | nil =>
    intro k after s h
    refine ⟨s.now + k.sleep, ?_⟩
    rcases step_first (w := w) (bad := bad) (tie := tie) h with e | e
    · exact .inl (by simp only [run, List.length_nil]; rw [e]; rfl)
    · exact .inr (by simp only [run, List.length_nil]; rw [e]; rfl)
  | cons b before ih =>
    intro k after s h
    obtain ⟨r, e⟩ := step_queue (w := w) (bad := bad) (tie := tie) (q := before ++ k :: after) h
    exact ih k (after ++ r) (step w bad tie s) (by rw [e, List.append_assoc]; rfl)

/-! ### What does not hold -/

/-- The only task is to remove a directory that does not exist. -/
def Stuck (s : St) (p : Path) : Prop := (∃ n, s.queue = [⟨n, p⟩] ∧ n ≠ THRESHOLD ∧ n < THRESHOLD) ∧ s.future = [] ∧ p ∉ s.disk

theorem stuck_step {w : Nat} {bad : Path → Nat → Bool} {tie : Nat → Bool} {s : St} {p : Path} (h : Stuck s p) :
    Stuck (step w bad tie s) p ∧ (step w bad tie s).now = s.now + SLEEP ∧ (step w bad tie s).sweeps = s.sweeps := by
  obtain ⟨⟨n, hq, hn, hlt⟩, hf, hd⟩ := h
  have e : step w bad tie s = ⟨s.now + SLEEP, [⟨n - 1, p⟩], [], s.disk, .failed (s.now + SLEEP) p :: s.log⟩ := by
    unfold step; rw [hq]
    simp [Task.sleep, hn, remove, hd, St.arrive, hf]
  rw [e]
  exact ⟨⟨⟨n - 1, rfl, by omega, by omega⟩, rfl, hd⟩, rfl, by simp [St.sweeps, Ev.isSweep]⟩

theorem stuck_run {w : Nat} {bad : Path → Nat → Bool} {tie : Nat → Bool} {p : Path} : ∀ (n : Nat) (s : St), Stuck s p →
    Stuck (run w bad tie n s) p ∧ (run w bad tie n s).now = s.now + SLEEP * n ∧ (run w bad tie n s).sweeps = s.sweeps := by
  intro n
  induction n with
  | zero => intro s h; exact ⟨h, rfl, rfl⟩
  | succ n ih =>
    intro s h
    obtain ⟨h1, h2, h3⟩ := stuck_step (w := w) (bad := bad) (tie := tie) h
    obtain ⟨i1, i2, i3⟩ := ih _ h1
    refine ⟨i1, ?_, i3.trans h3⟩
    show (run w bad tie n (step w bad tie s)).now = _
    rw [i2, h2, Nat.mul_add]; omega

/-- A model and then its space are dropped, and the first attempt to remove the directory of the model fails, once. The space is removed
with all that is in it, and from then on the directory of the model does not exist: the task fails forever, it is never given up, and the
changes are never again written at fixed times, however long the server runs and whatever the window is. -/
theorem C94_gone_violated (w : Nat) (hw : 0 < w) (tie : Nat → Bool) :
    let bad : Path → Nat → Bool := fun p t => p == [1, 1] && t == 0
    ∀ n, let s := run w bad tie (n + 3) (start [(0, [1, 1]), (0, [1])] [[1], [1, 1]])
      s.now = 30 * n ∧ s.sweeps = 0 ∧ s.disk = [] ∧ s.queue.map (·.dir) = [[1, 1]] := by
  intro bad n
  have e : run w bad tie 3 (start [(0, [1, 1]), (0, [1])] [[1], [1, 1]]) =
      ⟨0, [⟨9, [1, 1]⟩], [], [], [.removed 0 [1], .failed 0 [1, 1]]⟩ := by
    have e1 : step w bad tie (start [(0, [1, 1]), (0, [1])] [[1], [1, 1]]) = ⟨0, [⟨10, [1, 1]⟩], [(0, [1])], [[1], [1, 1]], []⟩ := by
      simp [step, start, hw, Task.new, THRESHOLD]
    show step w bad tie (step w bad tie (step w bad tie _)) = _
    rw [e1]; rfl
  have hadd : ∀ (a b : Nat) (s : St), run w bad tie (a + b) s = run w bad tie a (run w bad tie b s) := by
    intro a b
    induction b with
    | zero => intro s; rfl
    | succ b ih => intro s; exact ih (step w bad tie s)
  have hdisk : ∀ (n : Nat) (s : St), Stuck s [1, 1] → s.disk = [] → (run w bad tie n s).disk = [] := by
    intro n
    induction n with
    | zero => intro s _ h; exact h
    | succ n ih =>
      intro s hs h
      refine ih _ (stuck_step hs).1 ?_
      obtain ⟨⟨m, hq, hn, _⟩, hf, hd⟩ := hs
      unfold step; rw [hq]
      simp [Task.sleep, hn, remove, St.arrive, h]
  intro s
  have hs : s = run w bad tie n ⟨0, [⟨9, [1, 1]⟩], [], [], [.removed 0 [1], .failed 0 [1, 1]]⟩ := by
    show run w bad tie (n + 3) _ = _
    rw [hadd, e]
  have st : Stuck ⟨0, [⟨9, [1, 1]⟩], [], [], [.removed 0 [1], .failed 0 [1, 1]]⟩ [1, 1] :=
    ⟨⟨9, rfl, by decide, by decide⟩, rfl, by decide⟩
  obtain ⟨⟨⟨m, hq, _⟩, _⟩, h2, h3⟩ := stuck_run (w := w) (bad := bad) (tie := tie) n _ st
  rw [hs]
  refine ⟨h2.trans (Nat.zero_add _), h3, hdisk n _ st rfl, ?_⟩
  rw [hq]; rfl

/-- Models that are dropped one after the other, each just before the window is over. -/
def drops (w j k : Nat) : List (Nat × Path) := (List.range' j k).map fun i => ((w - 1) * (i + 1), [1, i])
/-- Their directories. -/
def dirs (j k : Nat) : List Path := [1] :: (List.range' j k).map fun i => [1, i]

theorem dirs_remove (j k : Nat) : (dirs j (k + 1)).filter (fun q => !([1, j] : Path).isPrefixOf q) = dirs (j + 1) k := by
  have h : ∀ i ∈ List.range' (j + 1) k, j ≠ i := by intro i hi; have := List.mem_range'.1 hi; omega
  simp only [dirs, List.range'_succ, List.map_cons, List.filter_cons, List.isPrefixOf, beq_self_eq_true, Bool.true_and, Bool.not_false,
    Bool.and_true, Bool.not_true, if_true, Bool.false_eq_true, if_false]
  congr 1
  rw [List.filter_map]
  congr 1
  rw [List.filter_eq_self]
  intro i hi
  simp [List.isPrefixOf, h i hi]

theorem busy_pair (w j k : Nat) (hw : 1 < w) (tie : Nat → Bool) (log : List Ev) :
    step w (fun _ _ => false) tie (step w (fun _ _ => false) tie ⟨(w - 1) * j, [], drops w j (k + 1), dirs j (k + 1), log⟩) =
      ⟨(w - 1) * (j + 1), [], drops w (j + 1) k, dirs (j + 1) k, .removed ((w - 1) * (j + 1)) [1, j] :: log⟩ := by
  obtain ⟨d, rfl⟩ : ∃ d, w = d + 1 := ⟨w - 1, by omega⟩
  have hd : 0 < d := by omega
  have e1 : step (d + 1) (fun _ _ => false) tie ⟨d * j, [], drops (d + 1) j (k + 1), dirs j (k + 1), log⟩ =
      ⟨d * (j + 1), [Task.new [1, j]], drops (d + 1) (j + 1) k, dirs j (k + 1), log⟩ := by
    simp only [step, drops, List.range'_succ, List.map_cons, Nat.add_sub_cancel]
    rw [if_pos (.inl (by rw [Nat.mul_add]; omega))]
    rw [Nat.max_eq_left (Nat.mul_le_mul_left d (by omega))]
  have e2 : (drops (d + 1) (j + 1) k).takeWhile (fun x => decide (x.1 ≤ d * (j + 1))) = [] ∧
      (drops (d + 1) (j + 1) k).dropWhile (fun x => decide (x.1 ≤ d * (j + 1))) = drops (d + 1) (j + 1) k := by
    cases k with
    | zero => exact ⟨rfl, rfl⟩
    | succ k =>
      have : ¬ d * (j + 1 + 1) ≤ d * (j + 1) := by rw [Nat.mul_add d (j + 1)]; omega
      simp [drops, List.range'_succ, this]
  have e3 : remove (fun _ _ => false) (d * (j + 1)) [1, j] (dirs j (k + 1)) = some (dirs (j + 1) k) := by
    unfold remove
    rw [if_pos ⟨by simp [dirs, List.range'_succ], rfl⟩, dirs_remove]
  simp only [Nat.add_sub_cancel]
  rw [e1]
  simp only [step, Task.new, Task.sleep, ne_eq, not_true_eq_false, if_false, Nat.add_zero, St.arrive, e2.1, e2.2, e3, List.map_nil,
    List.append_nil]

theorem busy_run (w : Nat) (hw : 1 < w) (tie : Nat → Bool) : ∀ (k j : Nat) (log : List Ev),
    let s := run w (fun _ _ => false) tie (2 * k) ⟨(w - 1) * j, [], drops w j k, dirs j k, log⟩
    s.now = (w - 1) * (j + k) ∧ s.sweeps = log.countP Ev.isSweep ∧ s.failures = log.countP Ev.isFailed ∧ s.disk = [[1]] ∧ s.queue = [] := by
  intro k
  induction k with
  | zero => intro j log; exact ⟨rfl, rfl, rfl, rfl, rfl⟩
  | succ k ih =>
    intro j log
    obtain ⟨h1, h2, h3, h4, h5⟩ := ih (j + 1) (.removed ((w - 1) * (j + 1)) [1, j] :: log)
    rw [show 2 * (k + 1) = 2 * k + 1 + 1 by omega]
    simp only [run, busy_pair w j k hw tie log]
    refine ⟨by rw [h1, Nat.add_right_comm, Nat.add_assoc], ?_, ?_, h4, h5⟩
    · rw [h2]; simp [Ev.isSweep]
    · rw [h3]; simp [Ev.isFailed]

/-- Without any error: whatever the window is, models that are dropped just before it is over keep the changes from being written for as
long as this goes on; all directories are removed. -/
theorem C94_busy_violated (w : Nat) (hw : 1 < w) (tie : Nat → Bool) (k : Nat) : ∃ (future : List (Nat × Path)) (disk : List Path),
    future.length = k ∧
    let s := run w (fun _ _ => false) tie (2 * k) (start future disk)
    s.now = (w - 1) * k ∧ s.sweeps = 0 ∧ s.failures = 0 ∧ s.disk = [[1]] ∧ s.queue = [] := by
  refine ⟨drops w 0 k, dirs 0 k, by simp [drops], ?_⟩
  have h := busy_run w hw tie k 0 []
  simp only [Nat.mul_zero, Nat.zero_add] at h
  exact h

-- with the default window (`fractal/mgr.rs:57`): more than an hour and a half
example : let s := run 300 (fun _ _ => false) (fun _ => false) 40 (start (drops 300 0 20) (dirs 0 20))
    s.now = 5980 ∧ s.sweeps = 0 ∧ s.log.length = 20 := by decide +kernel

/-- Tasks that were not done when the server is stopped are lost: the directory stays, and after a restart nobody knows of it. -/
theorem C94_stop_violated : ∃ n,
    let s := halt (run 300 (fun _ _ => false) (fun _ => false) n (start [(0, [1, 1])] [[1], [1, 1]]))
    s.queue = [] ∧ [1, 1] ∈ s.disk ∧ s.failures = 0 ∧ s.sweeps = 1 :=
  ⟨1, by decide⟩

end Verif.Fractal.Periodic
