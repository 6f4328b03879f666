/-!
C95: the service for urgent tasks (`fractal/mgr.rs:262-415`): it writes batches of models that have reached their limit, and tries to
repair the log of the catalogue and the files of models after errors.
-/
namespace Verif.Fractal.Urgent

/-! ## The model -/

/-- `CriticalTask` (`fractal/mgr.rs:112-120`). Models have numbers; they are not dropped here. -/
inductive Job where
  /-- `CheckGNSDriver` -/
  | catalogue
  /-- `TryModelAutorecoverLWT` -/
  | repair (m : Nat)
  /-- `WriteBatch`, with the number of changes -/
  | write (m n : Nat)
  deriving DecidableEq, Repr

/-- `TASK_THRESHOLD` (`fractal/mgr.rs:58`), and `TASK_FAILURE_SLEEP_DURATION` in milliseconds (line 59). -/
def THRESHOLD : Nat := 10
def SLEEP : Nat := 30000

/-- `Task<CriticalTask>` (`fractal/mgr.rs:61-66`). -/
structure Task where
  threshold : Nat
  job : Job
  deriving DecidableEq, Repr

/-- `Task::new` (`fractal/mgr.rs:69-71`). -/
def Task.new (j : Job) : Task := ⟨THRESHOLD, j⟩

/-- `Task::sleep` (`fractal/mgr.rs:80-84`). -/
def Task.sleep (k : Task) : Nat := if k.threshold ≠ THRESHOLD then SLEEP else 0

/-- An attempt: when it began, and whether it succeeded. -/
structure Try where
  at_ : Nat
  job : Job
  ok : Bool
  deriving DecidableEq, Repr

/-- The models that are marked after an error (`is_iffy`), and the files that have a part of a record at their end: `none` is the log of the
catalogue. That the other service (C94) marks models too is left out. -/
structure Files where
  iffy : List Nat
  torn : List (Option Nat)
  deriving DecidableEq, Repr

/-- The time, the channel, the files, and the attempts, newest first. -/
structure St where
  now : Nat
  queue : List Task
  files : Files
  log : List Try
  deriving DecidableEq, Repr

/-- What comes of writing a batch: it is written, or nothing of it is, or a part. -/
inductive Out where
  | fine
  | nothing
  | part
  deriving DecidableEq, Repr

/-- What the system does with a batch of a model at a time. -/
abbrev Disk := Nat → Nat → Out

/-- `hp_executor` (`fractal/mgr.rs:315-414`) with `try_write_model_data_batch` (lines 521-558) at the time `t`: whether it succeeded, the
files, and the tasks that are posted, in order. `__lwt_heartbeat` (`storage/v2/raw/journal/raw/mod.rs:570-581`) succeeds if the file ends
where the last whole record ends, and changes nothing in the file; that the system does not tell the position is left out. Repairs are
posted again with the full threshold (`mgr.rs:340-342, 366-368`), batches with a lower one (lines 258-261, 405-410). A batch that fails
keeps all its changes here (C14 has the details). -/
def exec (disk : Disk) (t : Nat) (f : Files) (k : Task) : Bool × Files × List Task :=
  match k.job with
  | .catalogue => if none ∈ f.torn then (false, f, [Task.new .catalogue]) else (true, f, [])
  | .repair m =>
    if some m ∈ f.torn then (false, f, [Task.new (.repair m)]) else (true, { f with iffy := f.iffy.filter (· ≠ m) }, [])
  | .write m n =>
    if m ∈ f.iffy then (false, f, [⟨k.threshold - 1, .write m n⟩])
    else if n = 0 then (true, f, [])
    else
      match disk m t with
      | .fine => (true, f, [])
      | .nothing => (false, { f with iffy := m :: f.iffy }, [Task.new (.repair m), ⟨k.threshold - 1, .write m n⟩])
      | .part => (false, ⟨m :: f.iffy, some m :: f.torn⟩, [Task.new (.repair m), ⟨k.threshold - 1, .write m n⟩])

/-- A round after which `c` milliseconds have passed with the attempt, in which the tasks `new` were posted by others. -/
def St.attempt (s : St) (c : Nat) (disk : Disk) (new : List Task) (t : Nat) (k : Task) (q : List Task) : St :=
  let r := exec disk t s.files k
  { now := t + c, queue := q ++ new ++ r.2.2, files := r.2.1, log := ⟨t, k.job, r.1⟩ :: s.log }

/-- A round of the loop (`fractal/mgr.rs:271-299`), without the signal: the task sleeps inside the loop. -/
def step (c : Nat) (disk : Disk) (s : St) (new : List Task) : St :=
  match s.queue with
  | [] => { s with queue := new }
  | k :: q => s.attempt c disk new (s.now + k.sleep) k q

/-- Rounds with the tasks that are posted in them. -/
def run (c : Nat) (disk : Disk) (s : St) (news : List (List Task)) : St := news.foldl (step c disk) s

/-- A round of the loop after the signal (`fractal/mgr.rs:285-293`): tasks do not sleep, and the service ends when there are no more. -/
def drain (c : Nat) (disk : Disk) : Nat → St → St
  | 0, s => s
  | n + 1, s =>
    match s.queue with
    | [] => s
    | k :: q => drain c disk n (s.attempt c disk [] s.now k q)

/-! ## What holds -/

/-- The attempts that failed. -/
def St.failures (s : St) : Nat := s.log.countP fun a => !a.ok

/-- The tasks that will sleep. -/
def sleepers (q : List Task) : Nat := q.countP fun k => k.threshold != THRESHOLD

theorem exec_sleepers (disk : Disk) (t : Nat) (f : Files) (k : Task) :
    sleepers (exec disk t f k).2.2 ≤ if (exec disk t f k).1 then 0 else 1 := by
  have h1 : ∀ l : List Task, l.length ≤ 1 → sleepers l ≤ 1 := fun l h => Nat.le_trans List.countP_le_length h
  have h2 : ∀ j, sleepers [Task.new j] = 0 := fun j => by simp [sleepers, Task.new]
  have h3 : ∀ j x, sleepers [Task.new j, x] ≤ 1 := fun j x => by
    have : sleepers [Task.new j, x] = sleepers [x] := by simp [sleepers, Task.new]
    rw [this]; exact h1 [x] (Nat.le_refl _)
  unfold exec
  split
  · split
    · simp [h2]
    · simp [sleepers]
  · split
    · simp [h2]
    · simp [sleepers]
  · split
    · exact h1 _ (Nat.le_refl _)
    · split
      · simp [sleepers]
      · split
        · simp [sleepers]
        · exact h3 _ _
        · exact h3 _ _

theorem step_time (c : Nat) (disk : Disk) (s : St) (new : List Task) (hn : sleepers new = 0) :
    (step c disk s new).now + SLEEP * sleepers (step c disk s new).queue + SLEEP * s.failures ≤
      s.now + c + SLEEP * sleepers s.queue + SLEEP * (step c disk s new).failures := by
  unfold step
  split
  · rename_i e
    have e0 : sleepers ([] : List Task) = 0 := rfl
    simp only [St.failures, hn, e, e0]; omega
  · rename_i k q e
    have h := exec_sleepers disk (s.now + k.sleep) s.files k
    have hk : k.sleep + SLEEP * sleepers q ≤ SLEEP * sleepers (k :: q) := by
      simp only [sleepers, List.countP_cons, Task.sleep]
      by_cases h : k.threshold = THRESHOLD
      · simp [h]
      · simp [h, Nat.mul_add, Nat.add_comm]
    have hq : sleepers (q ++ new ++ (exec disk (s.now + k.sleep) s.files k).2.2) =
        sleepers q + sleepers (exec disk (s.now + k.sleep) s.files k).2.2 := by
      simp only [sleepers, List.countP_append] at hn ⊢; omega
    rw [e]
    simp only [St.attempt, St.failures, List.countP_cons, hq]
    cases hb : (exec disk (s.now + k.sleep) s.files k).1 <;>
      simp only [hb, Bool.false_eq_true, if_false, if_true, Bool.not_false, Bool.not_true] at h ⊢ <;> simp only [SLEEP] at * <;> omega

/-- C95, as far as it holds: the service uses the time of the attempts, and half a minute for each attempt that failed. Without errors no
task waits for anything but the attempts before it. Missing: with errors, tasks wait for the pauses of others, repairs are tried without a
pause, and the service does not end. -/
theorem C95_partial (c : Nat) (disk : Disk) : ∀ (news : List (List Task)) (s : St), (∀ l ∈ news, ∀ k ∈ l, k.threshold = 10) →
    (∀ k ∈ s.queue, k.threshold = 10) → s.log = [] →
    (run c disk s news).now ≤ s.now + c * news.length + 30000 * (run c disk s news).failures := by
  have zero : ∀ l : List Task, (∀ k ∈ l, k.threshold = 10) → sleepers l = 0 := by
    intro l h
    simp only [sleepers, List.countP_eq_zero]
    intro k hk; simp [THRESHOLD, h k hk]
  have gen : ∀ (news : List (List Task)) (s : St), (∀ l ∈ news, ∀ k ∈ l, k.threshold = 10) →
      (run c disk s news).now + SLEEP * sleepers (run c disk s news).queue + SLEEP * s.failures ≤
        s.now + c * news.length + SLEEP * sleepers s.queue + SLEEP * (run c disk s news).failures := by
    intro news
    induction news with
    | nil => intro s _; simp [run]
    | cons l news ih =>
      intro s h
      have h1 := step_time c disk s l (zero l (h l (List.mem_cons_self ..)))
      have h2 := ih (step c disk s l) fun x hx => h x (List.mem_cons_of_mem _ hx)
      simp only [run, List.foldl_cons, List.length_cons, Nat.mul_add, Nat.mul_one] at h2 ⊢
      omega
  intro news s h hq hl
  have h1 := gen news s h
  have h2 : s.failures = 0 := by simp [St.failures, hl]
  rw [zero _ hq, h2] at h1
  simp only [SLEEP] at h1
  omega

/-- Tasks are tried in the order in which they were posted. -/
theorem C95_in_turn (c : Nat) (disk : Disk) : ∀ (news : List (List Task)) (last : List Task) (before : List Task) (k : Task)
    (after : List Task) (s : St), news.length = before.length → s.queue = before ++ k :: after →
    ((run c disk s (news ++ [last])).log.head?.map (·.job)) = some k.job := by
  intro news last
  induction news with
  | nil =>
    intro before k after s hl h
    have : before = [] := List.length_eq_zero_iff.1 hl.symm
    subst this
    simp only [run, List.nil_append, List.foldl_cons, List.foldl_nil, step]
    rw [h]; rfl
  | cons l news ih =>
    intro before k after s hl h
    cases before with
    | nil => cases hl
    | cons b before =>
      have e : (step c disk s l).queue = before ++ k :: (after ++ l ++ (exec disk (s.now + b.sleep) s.files b).2.2) := by
        unfold step; rw [h]; simp [St.attempt, List.append_assoc]
      exact ih before k _ (step c disk s l) (by simpa using hl) e

/-! ### The end of the service -/

/-- Marked models have a repair in the channel. -/
def Covered (q : List Task) (f : Files) : Prop := ∀ m ∈ f.iffy, ∃ k ∈ q, k.job = .repair m

theorem drain_add (c : Nat) (disk : Disk) : ∀ (a b : Nat) (s : St), drain c disk (a + b) s = drain c disk b (drain c disk a s) := by
  intro a
  induction a with
  | zero => intro b s; rw [Nat.zero_add]; rfl
  | succ a ih =>
    intro b s
    rw [Nat.succ_add]
    simp only [drain]
    split
    · rename_i e
      cases b with
      | zero => rfl
      | succ b => simp only [drain, e]
    · exact ih b _

/-- If the disk works, the first pass repairs all models, and leaves at most as many tasks as there were. -/
theorem drain_pass (c : Nat) : ∀ (before after : List Task) (s : St), s.queue = before ++ after → s.files.torn = [] →
    (∀ m ∈ s.files.iffy, ∃ k ∈ before, k.job = .repair m) →
    ∃ rest, (drain c (fun _ _ => .fine) before.length s).queue = after ++ rest ∧ rest.length ≤ before.length ∧
      (drain c (fun _ _ => .fine) before.length s).files = ⟨[], []⟩ := by
  intro before
  induction before with
  | nil =>
    intro after s h ht hi
    refine ⟨[], by simp [drain, h], by simp, ?_⟩
    simp only [List.length_nil, drain]
    cases e : s.files.iffy with
    | nil => rw [← e, ← ht]
    | cons m l => obtain ⟨k, hk, _⟩ := hi m (by simp [e]); cases hk
  | cons b before ih =>
    intro after s h ht hi
    have hx : (exec (fun _ _ => .fine) s.now s.files b).2.2.length ≤ 1 := by
      unfold exec; split
      · simp [ht]
      · simp [ht]
      · split
        · simp
        · split <;> simp
    have ht' : (exec (fun _ _ => .fine) s.now s.files b).2.1.torn = [] := by
      unfold exec; split
      · simp [ht]
      · simp [ht]
      · split
        · exact ht
        · split <;> exact ht
    have hi' : ∀ m ∈ (exec (fun _ _ => .fine) s.now s.files b).2.1.iffy, ∃ k ∈ before, k.job = .repair m := by
      intro m hm
      have hsub : m ∈ s.files.iffy ∧ b.job ≠ .repair m := by
        unfold exec at hm; split at hm
        · rename_i e; simp [ht] at hm; exact ⟨hm, by rw [e]; simp⟩
        · rename_i m' e; simp [ht] at hm; exact ⟨hm.1, by rw [e]; intro h; cases h; exact hm.2 rfl⟩
        · rename_i m' n e
          have : m ∈ s.files.iffy := by
            split at hm
            · exact hm
            · split at hm <;> exact hm
          exact ⟨this, by rw [e]; simp⟩
      obtain ⟨k, hk, hj⟩ := hi m hsub.1
      rcases List.mem_cons.1 hk with rfl | hk
      · exact absurd hj hsub.2
      · exact ⟨k, hk, hj⟩
    obtain ⟨rest, r1, r2, r3⟩ := ih (after ++ (exec (fun _ _ => .fine) s.now s.files b).2.2)
      (s.attempt c (fun _ _ => .fine) [] s.now b (before ++ after)) (by simp [St.attempt, List.append_assoc]) ht' hi'
    have e : drain c (fun _ _ => .fine) (b :: before).length s =
        drain c (fun _ _ => .fine) before.length (s.attempt c (fun _ _ => .fine) [] s.now b (before ++ after)) := by
      simp only [List.length_cons, drain, h, List.cons_append]
    rw [e]
    exact ⟨(exec (fun _ _ => .fine) s.now s.files b).2.2 ++ rest, by rw [r1, List.append_assoc], by
      simp only [List.length_append, List.length_cons]; omega, r3⟩

theorem drain_clean (c : Nat) : ∀ (q : List Task) (s : St), s.queue = q → s.files = ⟨[], []⟩ →
    (drain c (fun _ _ => .fine) q.length s).queue = [] := by
  intro q
  induction q with
  | nil => intro s h _; simpa [drain] using h
  | cons k q ih =>
    intro s h hi
    simp only [List.length_cons, drain, h]
    have e : (exec (fun _ _ => .fine) s.now s.files k).2 = (⟨[], []⟩, []) := by
      unfold exec; rw [hi]; split
      · rfl
      · rfl
      · simp
    exact ih _ (by simp [St.attempt, e]) (by simp [St.attempt, e])

theorem covered_attempt (c : Nat) (disk : Disk) (s : St) (new : List Task) (t : Nat) (k : Task) (q : List Task)
    (h : Covered (k :: q) s.files) : Covered (s.attempt c disk new t k q).queue (s.attempt c disk new t k q).files := by
  have sub : ∀ x ∈ q, x ∈ (s.attempt c disk new t k q).queue := fun x hx => by simp [St.attempt, hx]
  have post : ∀ x ∈ (exec disk t s.files k).2.2, x ∈ (s.attempt c disk new t k q).queue := fun x hx => by simp [St.attempt, hx]
  -- a model that was marked before has its repair in the rest, or it is the task itself
  have old : ∀ m ∈ s.files.iffy, k.job ≠ .repair m → ∃ x ∈ (s.attempt c disk new t k q).queue, x.job = .repair m := by
    intro m hm hk
    obtain ⟨x, hx, hj⟩ := h m hm
    rcases List.mem_cons.1 hx with rfl | hx
    · exact absurd hj hk
    · exact ⟨x, sub x hx, hj⟩
  intro m hm
  change m ∈ (exec disk t s.files k).2.1.iffy at hm
  cases hj : k.job with
  | catalogue =>
    refine old m ?_ (by rw [hj]; simp)
    simp only [exec, hj] at hm
    split at hm <;> exact hm
  | repair m' =>
    by_cases ht : some m' ∈ s.files.torn
    · by_cases e : m' = m
      · subst e
        exact ⟨Task.new (.repair m'), post _ (by simp [exec, hj, ht]), rfl⟩
      · exact old m (by simpa [exec, hj, ht] using hm) (by rw [hj]; intro h; cases h; exact e rfl)
    · have : m ∈ s.files.iffy ∧ m ≠ m' := by simpa [exec, hj, ht] using hm
      exact old m this.1 (by rw [hj]; intro h; cases h; exact this.2 rfl)
  | write m' n =>
    have ne : k.job ≠ .repair m := by rw [hj]; simp
    by_cases hi : m' ∈ s.files.iffy
    · exact old m (by simpa [exec, hj, hi] using hm) ne
    · by_cases hn : n = 0
      · exact old m (by simpa [exec, hj, hi, hn] using hm) ne
      · cases hd : disk m' t with
        | fine => exact old m (by simpa [exec, hj, hi, hn, hd] using hm) ne
        | nothing =>
          have : m = m' ∨ m ∈ s.files.iffy := by simpa [exec, hj, hi, hn, hd] using hm
          rcases this with rfl | h'
          · exact ⟨Task.new (.repair m), post _ (by simp [exec, hj, hi, hn, hd]), rfl⟩
          · exact old m h' ne
        | part =>
          have : m = m' ∨ m ∈ s.files.iffy := by simpa [exec, hj, hi, hn, hd] using hm
          rcases this with rfl | h'
          · exact ⟨Task.new (.repair m), post _ (by simp [exec, hj, hi, hn, hd]), rfl⟩
          · exact old m h' ne

/-- For each marked model a repair is waiting at all times. -/
theorem covered_run (c : Nat) (disk : Disk) : ∀ (news : List (List Task)) (s : St), Covered s.queue s.files →
    Covered (run c disk s news).queue (run c disk s news).files := by
  intro news
  induction news with
  | nil => intro s h; exact h
  | cons l news ih =>
    intro s h
    refine ih (step c disk s l) ?_
    unfold step
    split
    · rename_i e
      intro m hm
      obtain ⟨k, hk, _⟩ := h m hm
      rw [e] at hk; cases hk
    · rename_i k q e
      exact covered_attempt c disk s l _ k q (e ▸ h)

/-- The service at the start of the server. -/
def start : St := ⟨0, [], ⟨[], []⟩, []⟩

/-- Whatever happened before the signal: if the disk works from then on and no file has a part of a record, the service ends after at most
two attempts for each task, and nothing is left. -/
theorem C95_ends_partial (c : Nat) (disk : Disk) (news : List (List Task)) :
    let s := run c disk start news
    s.files.torn = [] → ∃ n ≤ 2 * s.queue.length, (drain c (fun _ _ => .fine) n s).queue = [] := by
  intro s ht
  have h : Covered s.queue s.files := covered_run c disk news start (fun m hm => by cases hm)
  obtain ⟨rest, r1, r2, r3⟩ := drain_pass c s.queue [] s (by simp) ht h
  rw [List.nil_append] at r1
  refine ⟨s.queue.length + rest.length, by omega, ?_⟩
  rw [drain_add]
  exact drain_clean c rest _ r1 r3

-- two batches fail, and the server is stopped
example : let s := run 1 (fun _ _ => .nothing) start [[Task.new (.write 1 5), Task.new (.write 2 7)], [], []]
    s.files = ⟨[2, 1], []⟩ ∧ s.queue.length = 4 ∧ (drain 1 (fun _ _ => .fine) 3 s).queue ≠ [] ∧
    (drain 1 (fun _ _ => .fine) 4 s).queue = [] := by decide +kernel

-- a batch of a marked model comes before its repair: it is tried again afterwards
example : let s := drain 1 (fun _ _ => .fine) 4 ⟨0, [⟨9, .write 1 5⟩, Task.new (.repair 1), Task.new (.write 2 7)], ⟨[1], []⟩, []⟩
    s.queue = [] ∧ s.log.map (fun a => (a.job, a.ok)) =
      [(.write 1 5, true), (.write 2 7, true), (.repair 1, true), (.write 1 5, false)] ∧ s.now = 4 := by decide

/-! ## What does not hold -/

/-- If the log of the catalogue has a part of a record, its repair is tried again and again without a pause, as many times as there is time
for, and cannot succeed. -/
theorem C95_pause_violated (c : Nat) (disk : Disk) : ∀ (n : Nat) (s : St), s.queue = [Task.new .catalogue] → none ∈ s.files.torn →
    let s' := run c disk s (List.replicate n [])
    s'.now = s.now + c * n ∧ s'.log.length = s.log.length + n ∧ s'.failures = s.failures + n ∧ s'.queue = [Task.new .catalogue] := by
  intro n
  induction n with
  | zero => intro s h _; exact ⟨rfl, rfl, rfl, h⟩
  | succ n ih =>
    intro s h ht
    have e : step c disk s [] = ⟨s.now + c, [Task.new .catalogue], s.files, ⟨s.now, .catalogue, false⟩ :: s.log⟩ := by
      unfold step; rw [h]; simp [St.attempt, exec, Task.new, Task.sleep, ht]
    obtain ⟨h1, h2, h3, h4⟩ := ih (step c disk s []) (by rw [e]) (by rw [e]; exact ht)
    simp only [run, List.replicate_succ, List.foldl_cons] at h1 h2 h3 h4 ⊢
    refine ⟨?_, ?_, ?_, h4⟩
    · rw [h1, e, Nat.mul_add]; show s.now + c + c * n = _; omega
    · rw [h2, e]; simp only [List.length_cons]; omega
    · rw [h3, e]; simp only [St.failures, List.countP_cons, Bool.not_false, if_true]; omega

/-- A model whose file is in order waits half a minute for each model whose batch has failed, although its own batch could be written at
once. -/
theorem C95_others_violated (c : Nat) (disk : Disk) : ∀ (ms : List Nat) (after : List Task) (s : St), (∀ m ∈ ms, m ∈ s.files.iffy) →
    0 ∉ s.files.iffy → (∀ t, disk 0 t = .fine) → s.queue = (ms.map fun m => ⟨9, .write m 1⟩) ++ Task.new (.write 0 1) :: after →
    (run c disk s (List.replicate (ms.length + 1) [])).log.head? = some ⟨s.now + ms.length * (30000 + c), .write 0 1, true⟩ := by
  intro ms
  induction ms with
  | nil =>
    intro after s _ h0 hb hq
    simp only [List.length_nil, run, List.replicate, List.foldl_cons, List.foldl_nil, step]
    rw [hq]
    simp [St.attempt, exec, Task.new, Task.sleep, h0, hb]
  | cons m ms ih =>
    intro after s hm h0 hb hq
    have hmi : m ∈ s.files.iffy := hm m (List.mem_cons_self ..)
    have e : step c disk s [] = ⟨s.now + 30000 + c, (ms.map fun m => (⟨9, .write m 1⟩ : Task)) ++ Task.new (.write 0 1) ::
        (after ++ [⟨8, .write m 1⟩]), s.files, ⟨s.now + 30000, .write m 1, false⟩ :: s.log⟩ := by
      unfold step; rw [hq]
      simp [St.attempt, exec, Task.sleep, THRESHOLD, SLEEP, hmi]
    have := ih (after ++ [⟨8, .write m 1⟩]) (step c disk s []) (by rw [e]; exact fun x hx => hm x (List.mem_cons_of_mem _ hx))
      (by rw [e]; exact h0) hb (by rw [e])
    simp only [run, List.length_cons, List.replicate_succ, List.foldl_cons] at this ⊢
    rw [this, e]
    simp only [Nat.add_mul, Nat.one_mul]
    congr 2
    omega

-- ten models on a disk that is full, and one on another: five minutes
example : (run 1 (fun m _ => if m = 0 then .fine else .nothing) ⟨0, ((List.range 10).map fun i => ⟨9, .write (i + 1) 1⟩) ++
      [Task.new (.write 0 1)], ⟨(List.range 10).map (· + 1), []⟩, []⟩ (List.replicate 11 [])).log.head? =
    some ⟨300010, .write 0 1, true⟩ := by decide +kernel

theorem exec_torn (disk : Disk) (t : Nat) (f : Files) (k : Task) {x : Option Nat} (h : x ∈ f.torn) : x ∈ (exec disk t f k).2.1.torn := by
  unfold exec; split
  · split <;> exact h
  · split <;> exact h
  · split
    · exact h
    · split
      · exact h
      · split
        · exact h
        · exact h
        · exact List.mem_cons_of_mem _ h

theorem attempt_keeps (c : Nat) (disk : Disk) (m : Nat) (s : St) (new : List Task) (t : Nat) (k : Task) (q : List Task)
    (h : Task.new (.repair m) ∈ k :: q) (ht : some m ∈ s.files.torn) :
    Task.new (.repair m) ∈ (s.attempt c disk new t k q).queue ∧ some m ∈ (s.attempt c disk new t k q).files.torn := by
  refine ⟨?_, exec_torn disk t s.files k ht⟩
  simp only [St.attempt, List.mem_append]
  rcases List.mem_cons.1 h with rfl | h
  · exact .inr (by simp [exec, Task.new, ht])
  · exact .inl (.inl h)

/-- If a part of a batch was written before an error, the repair of the model can never succeed. When the server is told to stop, the service
waits until there are no more tasks, and the repair is posted again in each round: it never ends, and with it the server, even if the disk
has long been working again. -/
theorem C95_stop_violated (c : Nat) (disk : Disk) (m : Nat) : ∀ (n : Nat) (s : St), Task.new (.repair m) ∈ s.queue →
    some m ∈ s.files.torn →
    Task.new (.repair m) ∈ (drain c disk n s).queue ∧ (drain c disk n s).now = s.now + c * n := by
  intro n
  induction n with
  | zero => intro s h _; exact ⟨h, rfl⟩
  | succ n ih =>
    intro s h ht
    cases hq : s.queue with
    | nil => rw [hq] at h; cases h
    | cons k q =>
      simp only [drain, hq]
      rw [hq] at h
      obtain ⟨a1, a2⟩ := attempt_keeps c disk m s [] s.now k q h ht
      obtain ⟨h1, h2⟩ := ih _ a1 a2
      refine ⟨h1, ?_⟩
      rw [h2, Nat.mul_add]
      show s.now + c + c * n = _
      omega

/-- How it comes to this: one write of a batch fails after a part of it was written. -/
theorem C95_torn_violated (c : Nat) (disk : Disk) (m n : Nat) (hn : n ≠ 0) (h0 : disk m 0 = .part) (rounds : Nat) :
    (drain c disk rounds (step c disk ⟨0, [Task.new (.write m n)], ⟨[], []⟩, []⟩ [])).queue ≠ [] := by
  have e : step c disk ⟨0, [Task.new (.write m n)], ⟨[], []⟩, []⟩ [] =
      ⟨c, [Task.new (.repair m), ⟨9, .write m n⟩], ⟨[m], [some m]⟩, [⟨0, .write m n, false⟩]⟩ := by
    simp [step, St.attempt, exec, Task.new, Task.sleep, THRESHOLD, hn, h0]
  rw [e]
  intro h
  have := (C95_stop_violated c disk m rounds ⟨c, [Task.new (.repair m), ⟨9, .write m n⟩], ⟨[m], [some m]⟩, [⟨0, .write m n, false⟩]⟩
    (by simp) (by simp)).1
  rw [h] at this
  cases this

-- nothing of the batch was written: the model is repaired, and the batch is written half a minute later
example : (run 1 (fun _ t => if t = 0 then .nothing else .fine) ⟨0, [Task.new (.write 1 5)], ⟨[], []⟩, []⟩ [[], [], []]) =
    ⟨30003, [], ⟨[], []⟩, [⟨30002, .write 1 5, true⟩, ⟨1, .repair 1, true⟩, ⟨0, .write 1 5, false⟩]⟩ := by decide +kernel

end Verif.Fractal.Urgent
