/-!
C69: the lock that keeps two servers from using the same directory (`util/os/flock.rs:45-85`, `main.rs:62, 81-125`), on unix.

A file is an inode, and the path `.sky_pid` names one of them or none. `flock` locks an inode; the lock goes away with the process that
has it. Processes are numbered, and each number is used for one run of the server.
-/
namespace Verif.Os.Pid

/-! ### Model -/

/-- A run of the server.
`opened f`: `File::create` has returned; `running f`: it has the lock and uses the data directory, from `load_all` to the end of
`finish`; `over f`: the data is written and the files are closed (`main.rs:114-117`); `removed f`: and `remove_file` was called
(`main.rs:119-123`); `ended`: the process is gone. -/
inductive Proc where
  | new
  | opened (f : Nat)
  | running (f : Nat)
  | over (f : Nat)
  | removed (f : Nat)
  | ended
  deriving DecidableEq

/-- The file system, as far as it matters, and the processes. `next` is the next inode. -/
structure Sys where
  path : Option Nat
  next : Nat
  proc : Nat → Proc

def Sys.start : Sys := ⟨none, 0, fun _ => .new⟩

/-- The inode that a process has locked. -/
def Proc.lock : Proc → Option Nat
  | .running f | .over f | .removed f => some f
  | _ => none

inductive Op where
  /-- `File::create`: the file of the path, or a new one -/
  | create
  /-- `flock(LOCK_EX | LOCK_NB)`; if another process has the lock the server exits with an error -/
  | lock
  /-- the data is written and closed -/
  | finish
  /-- `remove_file` -/
  | remove
  /-- the process exits or is killed -/
  | exit
  deriving DecidableEq

def Sys.set (s : Sys) (p : Nat) (x : Proc) : Sys := { s with proc := fun q => if q = p then x else s.proc q }

/-- A step of the process `p`, given the processes that exist (`all`). -/
def step (all : List Nat) (s : Sys) (p : Nat) : Op → Option Sys
  | .create =>
    match s.proc p with
    | .new =>
      match s.path with
      | some f => some (s.set p (.opened f))
      | none => some { s.set p (.opened s.next) with path := some s.next, next := s.next + 1 }
    | _ => none
  | .lock =>
    match s.proc p with
    | .opened f => if all.any fun q => (s.proc q).lock == some f then some (s.set p .ended) else some (s.set p (.running f))
    | _ => none
  | .finish =>
    match s.proc p with
    | .running f => some (s.set p (.over f))
    | _ => none
  | .remove =>
    match s.proc p with
    | .over f => some { s.set p (.removed f) with path := none }
    | _ => none
  | .exit => if s.proc p = .new then none else some (s.set p .ended)

/-- A history: steps of the processes `all`. -/
def run (all : List Nat) : List (Nat × Op) → Sys → Option Sys
  | [], s => some s
  | (p, o) :: os, s => if p ∈ all then (step all s p o).bind (run all os) else none

/-! ### Specification -/

/-- The process uses the data directory. -/
def Uses (s : Sys) (p : Nat) : Prop := ∃ f, s.proc p = .running f

/-- Between the opening of the file by a process and its lock, no other process removes the file. -/
def Apart (s : Sys) : Op → Prop
  | .remove => ∀ p f, s.proc p ≠ .opened f
  | _ => True

/-- The removals are apart in a whole history. -/
def AllApart (all : List Nat) : List (Nat × Op) → Sys → Prop
  | [], _ => True
  | (p, o) :: os, s => Apart s o ∧ ∀ s', step all s p o = some s' → AllApart all os s'

/-! ### Theorems -/

/-- Processes that have opened the file or use the directory have the inode of the path, and of those at most one has the lock. -/
structure Inv (all : List Nat) (s : Sys) : Prop where
  fresh : ∀ f, s.path = some f → f < s.next
  old : ∀ p f, (s.proc p).lock = some f → f < s.next
  opened : ∀ p f, s.proc p = .opened f → s.path = some f
  busy : ∀ p f, s.proc p = .running f ∨ s.proc p = .over f → s.path = some f
  one : ∀ p q f, (s.proc p).lock = some f → (s.proc q).lock = some f → p = q
  known : ∀ p, p ∉ all → s.proc p = .new

theorem set_same (s : Sys) (p : Nat) (x : Proc) : (s.set p x).proc p = x := by simp [Sys.set]
theorem set_other {s : Sys} {p q : Nat} (x : Proc) (h : q ≠ p) : (s.set p x).proc q = s.proc q := by simp [Sys.set, h]

theorem Inv.step {all : List Nat} {s s' : Sys} {p : Nat} {o : Op} (hp : p ∈ all) (h : step all s p o = some s') (i : Inv all s)
    (ha : Apart s o) : Inv all s' := by
  obtain ⟨i1, i2, i3, i4, i5, i6⟩ := i
  -- a process that keeps its lock or gives it up
  have sub : ∀ {x : Proc} {pa : Option Nat}, (∀ f, x.lock = some f → (s.proc p).lock = some f) →
      (∀ f, x = .opened f → pa = some f) → (∀ f, x = .running f ∨ x = .over f → pa = some f) →
      (pa = s.path ∨ pa = none ∧ (∀ q, q ≠ p → (∀ f, s.proc q ≠ .opened f) ∧ (∀ f, ¬ (s.proc q = .running f ∨ s.proc q = .over f)))) →
      Inv all { s.set p x with path := pa } := by
    intro x pa h1 h2 h3 h4
    refine ⟨?_, ?_, ?_, ?_, ?_, ?_⟩
    · intro f hf
      rcases h4 with h4 | h4
      · exact i1 f (by rw [← h4]; exact hf)
      · rw [h4.1] at hf; cases hf
    · intro q f hf
      by_cases hq : q = p
      · subst hq
        simp only [set_same] at hf
        exact i2 _ f (h1 f hf)
      · simp only [set_other _ hq] at hf
        exact i2 q f hf
    · intro q f hf
      by_cases hq : q = p
      · subst hq
        simp only [set_same] at hf
        exact h2 f hf
      · simp only [set_other _ hq] at hf
        rcases h4 with h4 | h4
        · simp only [h4]; exact i3 q f hf
        · exact absurd hf ((h4.2 q hq).1 f)
    · intro q f hf
      by_cases hq : q = p
      · subst hq
        simp only [set_same] at hf
        exact h3 f hf
      · simp only [set_other _ hq] at hf
        rcases h4 with h4 | h4
        · simp only [h4]; exact i4 q f hf
        · exact absurd hf ((h4.2 q hq).2 f)
    · have l : ∀ q f, ((s.set p x).proc q).lock = some f → (s.proc q).lock = some f := by
        intro q f hf
        by_cases hq : q = p
        · subst hq
          rw [set_same] at hf
          exact h1 f hf
        · rw [set_other _ hq] at hf
          exact hf
      exact fun q r f hq hr => i5 q r f (l q f hq) (l r f hr)
    · intro q hq
      have hne : q ≠ p := fun e => hq (e ▸ hp)
      simp only [set_other _ hne]
      exact i6 q hq
  cases o <;> simp only [Pid.step] at h
  case create =>
    split at h
    · rename_i hn
      split at h <;> cases h
      · rename_i f hf
        have := sub (x := .opened f) (pa := s.path) (fun _ h => by cases h) (fun g hg => by cases hg; exact hf) (fun g hg => by rcases hg with hg | hg <;> cases hg) (.inl rfl)
        exact this
      · rename_i hf
        have none_open : ∀ q f, s.proc q ≠ .opened f := fun q f hq => by
          have := i3 q f hq
          rw [hf] at this
          cases this
        have none_busy : ∀ q f, ¬ (s.proc q = .running f ∨ s.proc q = .over f) := fun q f hq => by
          have := i4 q f hq
          rw [hf] at this
          cases this
        refine ⟨?_, ?_, ?_, ?_, ?_, ?_⟩
        · intro f hf; cases hf; exact Nat.lt_succ_self _
        · intro q f hq
          by_cases hqp : q = p
          · subst hqp
            simp only [set_same] at hq
            cases hq
          · simp only [set_other _ hqp] at hq
            exact Nat.lt_succ_of_lt (i2 q f hq)
        · intro q f hq
          by_cases hqp : q = p
          · subst hqp
            simp only [set_same] at hq
            cases hq; rfl
          · simp only [set_other _ hqp] at hq
            exact absurd hq (none_open q f)
        · intro q f hq
          by_cases hqp : q = p
          · subst hqp
            simp only [set_same] at hq
            rcases hq with hq | hq <;> cases hq
          · simp only [set_other _ hqp] at hq
            exact absurd hq (none_busy q f)
        · have l : ∀ q f, ((s.set p (.opened s.next)).proc q).lock = some f → (s.proc q).lock = some f := by
            intro q f hf
            by_cases hq : q = p
            · subst hq
              rw [set_same] at hf
              cases hf
            · rw [set_other _ hq] at hf
              exact hf
          exact fun q r f hq hr => i5 q r f (l q f hq) (l r f hr)
        · intro q hq
          have hne : q ≠ p := fun e => hq (e ▸ hp)
          simp only [set_other _ hne]
          exact i6 q hq
    · cases h
  case lock =>
    split at h
    · rename_i f hf
      have hpath := i3 p f hf
      split at h <;> cases h
      · exact sub (x := .ended) (pa := s.path) (fun _ h => by cases h) (fun _ h => by cases h) (fun _ h => by rcases h with h | h <;> cases h) (.inl rfl)
      · rename_i hany
        have free : ∀ q, (s.proc q).lock ≠ some f := by
          intro q hq
          by_cases hqa : q ∈ all
          · exact hany (List.any_eq_true.2 ⟨q, hqa, by simp [hq]⟩)
          · rw [i6 q hqa] at hq
            cases hq
        refine ⟨i1, ?_, ?_, ?_, ?_, ?_⟩
        · intro q g hq
          by_cases hqp : q = p
          · subst hqp
            rw [set_same] at hq
            cases hq
            exact i1 _ hpath
          · rw [set_other _ hqp] at hq
            exact i2 q g hq
        · intro q g hq
          by_cases hqp : q = p
          · subst hqp
            rw [set_same] at hq
            cases hq
          · rw [set_other _ hqp] at hq
            exact i3 q g hq
        · intro q g hq
          by_cases hqp : q = p
          · subst hqp
            rw [set_same] at hq
            rcases hq with hq | hq <;> cases hq
            exact hpath
          · rw [set_other _ hqp] at hq
            exact i4 q g hq
        · intro q r g hq hr
          by_cases hqp : q = p <;> by_cases hrp : r = p
          · exact hqp.trans hrp.symm
          · subst hqp
            rw [set_same] at hq
            cases hq
            rw [set_other _ hrp] at hr
            exact absurd hr (free r)
          · subst hrp
            rw [set_same] at hr
            cases hr
            rw [set_other _ hqp] at hq
            exact absurd hq (free q)
          · rw [set_other _ hqp] at hq
            rw [set_other _ hrp] at hr
            exact i5 q r g hq hr
        · intro q hq
          have hne : q ≠ p := fun e => hq (e ▸ hp)
          rw [set_other _ hne]
          exact i6 q hq
    · cases h
  case finish =>
    split at h <;> cases h
    rename_i f hf
    exact sub (x := .over f) (pa := s.path) (fun g h => by rw [hf]; exact h) (fun _ h => by cases h)
      (fun g h => by rcases h with h | h <;> cases h; exact i4 p f (.inl hf)) (.inl rfl)
  case remove =>
    split at h <;> cases h
    rename_i f hf
    refine sub (x := .removed f) (pa := none) (fun g h => by rw [hf]; exact h) (fun _ h => by cases h)
      (fun g h => by rcases h with h | h <;> cases h) (.inr ⟨rfl, fun q hq => ⟨ha q, fun g hg => ?_⟩⟩)
    have h1 := i4 q g hg
    have h2 := i4 p f (.inr hf)
    rw [h1] at h2
    cases h2
    exact hq (i5 q p f (by rcases hg with hg | hg <;> rw [hg] <;> rfl) (by rw [hf]; rfl))
  case exit =>
    split at h <;> cases h
    exact sub (x := .ended) (pa := s.path) (fun _ h => by cases h) (fun _ h => by cases h) (fun _ h => by rcases h with h | h <;> cases h) (.inl rfl)

theorem inv_run {all : List Nat} : ∀ {os : List (Nat × Op)} {s s' : Sys}, run all os s = some s' → AllApart all os s → Inv all s → Inv all s'
  | [], s, s', h, _, i => by cases h; exact i
  | (p, o) :: os, s, s', h, ha, i => by
    simp only [run] at h
    split at h
    · rename_i hp
      obtain ⟨t, ht, h⟩ := Option.bind_eq_some_iff.1 h
      exact inv_run h (ha.2 t ht) (i.step hp ht ha.1)
    · cases h

theorem inv_start (all : List Nat) : Inv all .start := by
  refine ⟨?_, ?_, ?_, ?_, ?_, ?_⟩ <;> simp [Sys.start, Proc.lock]

/-- **C69 (partial).** Any number of servers that are started, stopped and killed at any time: at most one of them uses the data
directory, as long as no server removes the file of the lock while another one has opened it and not yet tried to lock it. Missing:
this case (`C69_two_servers_violated`). -/
theorem C69_one_server_partial {all : List Nat} {os : List (Nat × Op)} {s : Sys} (h : run all os .start = some s) (ha : AllApart all os .start)
    {p q : Nat} (hp : Uses s p) (hq : Uses s q) : p = q := by
  have i := inv_run h ha (inv_start all)
  obtain ⟨f, hf⟩ := hp
  obtain ⟨g, hg⟩ := hq
  have h1 := i.busy p f (.inl hf)
  have h2 := i.busy q g (.inl hg)
  rw [h1] at h2
  cases h2
  exact i.one p q f (by rw [hf]; rfl) (by rw [hg]; rfl)

/-- **C69, the lock is not left behind.** A server that was killed does not keep others from starting: if no process has a lock, a new
one gets it. -/
theorem C69_restart {all : List Nat} {s : Sys} {p : Nat} (hp : s.proc p = .new) (hn : ∀ q ∈ all, (s.proc q).lock = none) :
    ∃ s' s'', step all s p .create = some s' ∧ step all s' p .lock = some s'' ∧ Uses s'' p := by
  have key : ∀ {pa : Option Nat} {n f : Nat}, ∃ s'', step all { s.set p (.opened f) with path := pa, next := n } p .lock = some s'' ∧ Uses s'' p := by
    intro pa n f
    have hany : ¬ (all.any fun q => (((s.set p (.opened f)).proc q).lock == some f)) = true := by
      intro h
      obtain ⟨q, hq, h⟩ := List.any_eq_true.1 h
      by_cases hqp : q = p
      · subst hqp
        rw [set_same] at h
        simp [Proc.lock] at h
      · rw [set_other _ hqp, hn q hq] at h
        simp at h
    refine ⟨_, by simp only [step, set_same]; rw [if_neg hany], ⟨f, by simp [Sys.set]⟩⟩
  cases hpath : s.path with
  | some f =>
    obtain ⟨s'', h1, h2⟩ := key (pa := some f) (n := s.next) (f := f)
    refine ⟨_, s'', by simp only [step, hp, hpath]; rfl, ?_, h2⟩
    rw [← h1]
    congr 1
    simp [Sys.set, hpath]
  | none =>
    obtain ⟨s'', h1, h2⟩ := key (pa := some s.next) (n := s.next + 1) (f := s.next)
    exact ⟨_, s'', by simp only [step, hp, hpath], h1, h2⟩

private def shows (os : List (Nat × Op)) : Option (List Proc) := (run [0, 1, 2] os .start).map fun s => [0, 1, 2].map s.proc

/-- A second server is refused while the first one runs, and a third one starts after the first has ended. -/
example : shows [(0, .create), (0, .lock), (1, .create), (1, .lock), (0, .finish), (0, .remove), (2, .create), (2, .lock), (0, .exit)] =
    some [.ended, .ended, .running 1] := by decide

/-- A server that was killed leaves its file, and the next one locks it. -/
example : shows [(0, .create), (0, .lock), (0, .exit), (1, .create), (1, .lock)] = some [.ended, .running 0, .new] := by decide

/-- **C69 is violated: two servers.** A server opens the file while the one before is about to end, which removes the file and exits; the
lock is then free, but it is that of a file that has no name any more. The next server makes a new file and locks that: two
servers use the directory. -/
theorem C69_two_servers_violated :
    shows [(0, .create), (0, .lock), (0, .finish), (1, .create), (0, .remove), (0, .exit), (1, .lock), (2, .create), (2, .lock)] =
      some [.ended, .running 0, .running 1] := by decide

end Verif.Os.Pid
