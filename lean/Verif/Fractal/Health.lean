/-!
C37: the health counter (`fractal/mod.rs:95-117`), the states of the drivers (`fractal/drivers.rs`,
`fractal/util.rs:47-68`) and the tasks that recover them (`fractal/mgr.rs:322-375`).
-/
namespace Verif.Fractal

/-! ### Model -/

/-- `CriticalTask::CheckGNSDriver` and `CriticalTask::TryModelAutorecoverLWT`. A model is named by its uuid,
which is never used again. -/
inductive HTask where
  | gns
  | model (id : Nat)
  deriving DecidableEq

/-- A model and the state of its driver. -/
structure Mdl where
  id : Nat
  iffy : Bool
  deriving DecidableEq

/-- `gns` is whether the driver of the catalogue is iffy; `inside` is how many statements are between the
check of the driver and its use (`fractal/drivers.rs:64-67`: the check comes before the lock); `faults` is the
counter; `next` is the next uuid. -/
structure HS where
  gns : Bool
  inside : Nat
  models : List Mdl
  next : Nat
  faults : UInt64
  tasks : List HTask
  deriving DecidableEq

def HS.start : HS := ⟨false, 0, [], 0, 0, []⟩

/-- What can happen. The Boolean says whether the storage operation succeeds. -/
inductive HOp where
  | enter
  | leave (ok : Bool)
  | batch (id : Nat) (ok : Bool)
  | run (i : Nat) (ok : Bool)
  | create
  | dropModel (id : Nat)
  | dropSpace (ids : List Nat)
  deriving DecidableEq

def setIffy (ms : List Mdl) (id : Nat) (b : Bool) : List Mdl := ms.map fun m => if m.id = id then { m with iffy := b } else m

def isIffy (ms : List Mdl) (id : Nat) : Bool := ms.any fun m => decide (m.id = id) && m.iffy

def isThere (ms : List Mdl) (id : Nat) : Bool := ms.any fun m => decide (m.id = id)

/-- `CriticalTask::CheckGNSDriver` and `TryModelAutorecoverLWT` (`fractal/mgr.rs:322-375`); a failed attempt
posts the task again. A model that is gone is skipped. -/
def runTask (s : HS) (ok : Bool) : HTask → HS
  | .gns =>
    if ok then { s with gns := false, faults := s.faults - 1 }
    else { s with tasks := s.tasks ++ [.gns] }
  | .model id =>
    if isThere s.models id then
      if ok then { s with models := setIffy s.models id false, faults := s.faults - 1 }
      else { s with tasks := s.tasks ++ [.model id] }
    else s

def hstep (s : HS) : HOp → HS
  -- `driver_context` (`fractal/drivers.rs:58-79`): refuse, or go on
  | .enter => if s.gns then s else { s with inside := s.inside + 1 }
  | .leave ok =>
    if s.inside = 0 then s
    else if ok then { s with inside := s.inside - 1 }
    else { s with inside := s.inside - 1, gns := true, faults := s.faults + 1, tasks := s.tasks ++ [.gns] }
  -- `try_write_model_data_batch` (`fractal/mgr.rs:518-558`): a failure is not reported
  | .batch id ok =>
    if isThere s.models id && !isIffy s.models id && !ok then
      { s with models := setIffy s.models id true, tasks := s.tasks ++ [.model id] }
    else s
  | .run i ok =>
    match s.tasks[i]? with
    | none => s
    | some t => runTask { s with tasks := s.tasks.eraseIdx i } ok t
  | .create => { s with models := s.models ++ [⟨s.next, false⟩], next := s.next + 1 }
  -- `transactional_exec_drop` (`core/model/mod.rs:350-412`)
  | .dropModel id => { s with models := s.models.filter fun m => decide (m.id ≠ id) }
  -- `transactional_exec_drop` with `allow not empty` (`core/space.rs:235-289`)
  | .dropSpace ids =>
    { s with
      models := s.models.filter fun m => !ids.contains m.id
      faults := s.faults - UInt64.ofNat (s.models.filter fun m => ids.contains m.id && m.iffy).length }

def hrun : List HOp → HS → HS
  | [], s => s
  | o :: os, s => hrun os (hstep s o)

/-- `status_okay` (`fractal/mod.rs:99-101`), shown by `SYSCTL REPORT STATUS` (`core/dcl.rs:49-55`). -/
def HS.okay (s : HS) : Bool := s.faults = 0

/-! ### Specification -/

/-- No driver is in a failed state. -/
def HS.Healthy (s : HS) : Prop := s.gns = false ∧ ∀ m ∈ s.models, m.iffy = false

instance (s : HS) : Decidable s.Healthy := inferInstanceAs (Decidable (_ ∧ _))

/-! ### What is true -/

/-- No batch of a model fails. -/
def NoModelFault (os : List HOp) : Prop := ∀ id, HOp.batch id false ∉ os

/-- How many checks of the catalogue's driver are pending. -/
def gnsTasks (l : List HTask) : Nat := (l.filter (· = .gns)).length

/-- Without faults of models: the counter is the number of pending checks. -/
structure HInv (s : HS) : Prop where
  models : ∀ m ∈ s.models, m.iffy = false
  tasks : ∀ t ∈ s.tasks, t = .gns
  faults : s.faults = UInt64.ofNat s.tasks.length
  iffy : s.gns = true → s.tasks ≠ []

theorem ofNat_succ (n : Nat) : UInt64.ofNat n + 1 = UInt64.ofNat (n + 1) := by
  rw [UInt64.ofNat_add]; rfl

theorem ofNat_pred {n : Nat} (h : 0 < n) : UInt64.ofNat n - 1 = UInt64.ofNat (n - 1) := by
  obtain ⟨k, rfl⟩ : ∃ k, n = k + 1 := ⟨n - 1, by omega⟩
  rw [← ofNat_succ, Nat.add_sub_cancel, UInt64.add_sub_cancel]

theorem HInv.step {s : HS} (h : HInv s) {o : HOp} (ho : ∀ id, o ≠ .batch id false) : HInv (hstep s o) := by
  obtain ⟨h1, h2, h3, h4⟩ := h
  cases o with
  | enter => rw [hstep]; split <;> exact ⟨h1, h2, h3, h4⟩
  | leave ok =>
    rw [hstep]
    split
    · exact ⟨h1, h2, h3, h4⟩
    · split
      · exact ⟨h1, h2, h3, h4⟩
      · refine ⟨h1, ?_, ?_, by simp⟩
        · intro t ht
          rcases List.mem_append.1 ht with ht | ht
          · exact h2 t ht
          · simpa using ht
        · simp only [List.length_append, List.length_cons, List.length_nil, h3]
          exact ofNat_succ _
  | batch id ok =>
    rw [hstep]
    cases ok with
    | false => exact absurd rfl (ho id)
    | true => simp only [Bool.not_true, Bool.and_false, Bool.false_eq_true, if_false]; exact ⟨h1, h2, h3, h4⟩
  | run i ok =>
    rw [hstep]
    split
    · exact ⟨h1, h2, h3, h4⟩
    · rename_i t ht
      obtain ⟨hi, he⟩ := List.getElem?_eq_some_iff.1 ht
      have := h2 t (List.mem_of_getElem? ht)
      subst this
      have hlen := List.length_eraseIdx_of_lt hi
      have hsub : ∀ t ∈ s.tasks.eraseIdx i, t = .gns := fun t h => h2 t (List.mem_of_mem_eraseIdx h)
      rw [runTask]
      cases ok with
      | true =>
        simp only [if_true]
        refine ⟨h1, hsub, ?_, by simp⟩
        simp only [hlen, h3]
        exact ofNat_pred (by omega)
      | false =>
        simp only [Bool.false_eq_true, if_false]
        refine ⟨h1, ?_, ?_, by simp⟩
        · intro t ht
          rcases List.mem_append.1 ht with ht | ht
          · exact hsub t ht
          · simpa using ht
        · simp only [List.length_append, List.length_cons, List.length_nil, hlen, h3]
          congr 1; omega
  | create =>
    refine ⟨?_, h2, h3, h4⟩
    intro m hm
    rcases List.mem_append.1 hm with hm | hm
    · exact h1 m hm
    · simp at hm; rw [hm]
  | dropModel id => exact ⟨fun m hm => h1 m ((List.mem_filter.1 hm).1), h2, h3, h4⟩
  | dropSpace ids =>
    refine ⟨fun m hm => h1 m ((List.mem_filter.1 hm).1), h2, ?_, h4⟩
    have : s.models.filter (fun m => ids.contains m.id && m.iffy) = [] := by
      rw [List.filter_eq_nil_iff]
      intro m hm
      simp [h1 m hm]
    simp only [hstep, this, h3]
    simp

theorem HInv.run {os : List HOp} {s : HS} (h : HInv s) (ho : NoModelFault os) : HInv (hrun os s) := by
  induction os generalizing s with
  | nil => exact h
  | cons o os ih => exact ih (h.step fun id e => ho id (by simp [e])) (fun id hm => ho id (by simp [hm]))

theorem start_inv : HInv .start := ⟨by simp [HS.start], by simp [HS.start], rfl, by simp [HS.start]⟩

/-- **C37 (partial).** As long as no batch of a model fails: if the status is good, no driver is in a failed
state. (There are always fewer than 2^64 tasks.) Missing (and false): batches of models. -/
theorem C37_good_status_partial {os : List HOp} (ho : NoModelFault os) (hl : (hrun os .start).tasks.length < 2 ^ 64)
    (h : (hrun os .start).okay = true) : (hrun os .start).Healthy := by
  have hi := start_inv.run ho
  refine ⟨?_, hi.models⟩
  cases hg : (hrun os .start).gns with
  | false => rfl
  | true =>
    have h1 := hi.iffy hg
    have h2 := hi.faults
    rw [HS.okay, decide_eq_true_eq] at h
    rw [h] at h2
    have h3 := congrArg UInt64.toNat h2
    rw [UInt64.toNat_ofNat', Nat.mod_eq_of_lt hl] at h3
    have h4 : (hrun os .start).tasks.length = 0 := by rw [← h3]; rfl
    exact absurd (List.length_eq_zero_iff.1 h4) h1

/-- Statements on the catalogue one at a time: each leaves before the next enters. -/
def Seq : List HOp → Prop
  | [] => True
  | .enter :: .leave _ :: os => Seq os
  | .enter :: _ => False
  | .leave _ :: _ => False
  | _ :: os => Seq os

/-- In addition, a check is pending only while the driver is iffy, and no statement is inside. -/
structure SInv (s : HS) : Prop extends HInv s where
  inside : s.inside = 0
  exact : s.tasks.length = if s.gns then 1 else 0

theorem SInv.one {s : HS} (h : SInv s) {o : HOp} (ho : ∀ id, o ≠ .batch id false) (h1 : o ≠ .enter) (h2 : ∀ b, o ≠ .leave b) :
    SInv (hstep s o) := by
  refine ⟨h.toHInv.step ho, ?_, ?_⟩
  · cases o with
    | enter => exact absurd rfl h1
    | leave b => exact absurd rfl (h2 b)
    | batch id ok => rw [hstep]; split <;> exact h.inside
    | run i ok =>
      rw [hstep]
      split
      · exact h.inside
      · rename_i t _
        cases t with
        | gns => rw [runTask]; split <;> exact h.inside
        | model id => rw [runTask]; split <;> (try split) <;> exact h.inside
    | create => exact h.inside
    | dropModel id => exact h.inside
    | dropSpace ids => exact h.inside
  · cases o with
    | enter => exact absurd rfl h1
    | leave b => exact absurd rfl (h2 b)
    | batch id ok =>
      cases ok with
      | false => exact absurd rfl (ho id)
      | true => rw [hstep]; simp only [Bool.not_true, Bool.and_false, Bool.false_eq_true, if_false]; exact h.exact
    | run i ok =>
      rw [hstep]
      split
      · exact h.exact
      · rename_i t ht
        obtain ⟨hi, he⟩ := List.getElem?_eq_some_iff.1 ht
        have := h.tasks t (List.mem_of_getElem? ht)
        subst this
        have hlen := List.length_eraseIdx_of_lt hi
        have hx := h.exact
        have hg : s.gns = true := by
          cases hg : s.gns with
          | true => rfl
          | false => rw [hg] at hx; simp at hx; rw [hx] at hi; simp at hi
        rw [hg] at hx
        simp only [if_true] at hx
        cases ok with
        | true => simp only [runTask, if_true, Bool.false_eq_true, if_false, hlen]; omega
        | false => simp only [runTask, Bool.false_eq_true, if_false, List.length_append, List.length_cons, List.length_nil, hlen, hg, if_true]; omega
    | create => exact h.exact
    | dropModel id => exact h.exact
    | dropSpace ids => exact h.exact

theorem SInv.two {s : HS} (h : SInv s) (b : Bool) : SInv (hstep (hstep s .enter) (.leave b)) := by
  refine ⟨(h.toHInv.step (by simp)).step (by simp), ?_, ?_⟩
  · rw [hstep, hstep]
    cases s.gns with
    | true => simp [h.inside]
    | false => cases b <;> simp [h.inside]
  · have hx := h.exact
    rw [hstep, hstep]
    cases hg : s.gns with
    | true => rw [hg] at hx; simp [h.inside, hg, hx]
    | false =>
      rw [hg] at hx
      cases b <;> simp_all

theorem SInv.run : ∀ {os : List HOp} {s : HS}, SInv s → NoModelFault os → Seq os → SInv (hrun os s)
  | [], s, h, _, _ => h
  | .enter :: .leave b :: os, s, h, ho, hs => by
    rw [hrun, hrun]
    exact SInv.run (h.two b) (fun id hm => ho id (by simp [hm])) hs
  | .batch id ok :: os, s, h, ho, hs => by
    rw [hrun]
    exact SInv.run (h.one (fun id e => ho id (by simp [e])) (by simp) (by simp)) (fun id hm => ho id (by simp [hm])) hs
  | .run i ok :: os, s, h, ho, hs => by
    rw [hrun]
    exact SInv.run (h.one (fun id e => ho id (by simp [e])) (by simp) (by simp)) (fun id hm => ho id (by simp [hm])) hs
  | .create :: os, s, h, ho, hs => by
    rw [hrun]
    exact SInv.run (h.one (fun id e => ho id (by simp [e])) (by simp) (by simp)) (fun id hm => ho id (by simp [hm])) hs
  | .dropModel id :: os, s, h, ho, hs => by
    rw [hrun]
    exact SInv.run (h.one (fun id e => ho id (by simp [e])) (by simp) (by simp)) (fun id hm => ho id (by simp [hm])) hs
  | .dropSpace ids :: os, s, h, ho, hs => by
    rw [hrun]
    exact SInv.run (h.one (fun id e => ho id (by simp [e])) (by simp) (by simp)) (fun id hm => ho id (by simp [hm])) hs

/-- **C37 (partial).** With statements on the catalogue one at a time and without failing batches of models:
the status is good exactly if no driver is in a failed state. Missing (and false): batches of models;
overlapping statements. -/
theorem C37_exact_status_partial {os : List HOp} (ho : NoModelFault os) (hs : Seq os) :
    (hrun os .start).okay = true ↔ (hrun os .start).Healthy := by
  have hi := SInv.run (os := os) (s := .start) ⟨start_inv, rfl, rfl⟩ ho hs
  have h1 := hi.faults
  have h2 := hi.exact
  rw [HS.okay, decide_eq_true_eq, HS.Healthy, h1, h2]
  cases hg : (hrun os .start).gns with
  | true => simp
  | false => simp only [Bool.false_eq_true, if_false, true_and]; exact ⟨fun _ => hi.models, fun _ => rfl⟩

example : NoModelFault [.create, .enter, .leave false, .run 0 false, .batch 0 true, .run 0 true, .enter, .leave false] ∧
    Seq [.create, .enter, .leave false, .run 0 false, .batch 0 true, .run 0 true, .enter, .leave false] ∧
    (hrun [.create, .enter, .leave false, .run 0 false, .batch 0 true] .start).okay = false ∧
    (hrun [.create, .enter, .leave false, .run 0 false, .batch 0 true, .run 0 true] .start).okay = true := by
  refine ⟨?_, ?_, rfl, rfl⟩
  · intro id h; simp at h
  · simp [Seq]

/-! ### What is false -/

/-- **C37 is violated.** In any state with a good status, a failing batch leaves the status good. -/
theorem C37_model_fault_is_not_reported_violated {s : HS} (h : s.okay = true) {id : Nat} (hi : ∃ m ∈ s.models, m.id = id)
    (hn : ∀ m ∈ s.models, m.id = id → m.iffy = false) :
    (hstep s (.batch id false)).okay = true ∧ ¬ (hstep s (.batch id false)).Healthy := by
  obtain ⟨m, hm, he⟩ := hi
  have h1 : isThere s.models id = true := List.any_eq_true.2 ⟨m, hm, by simp [he]⟩
  have h2 : isIffy s.models id = false := by
    rw [isIffy, List.any_eq_false]
    intro x hx
    by_cases hid : x.id = id
    · simp [hn x hx hid]
    · simp [hid]
  have : hstep s (.batch id false) = { s with models := setIffy s.models id true, tasks := s.tasks ++ [.model id] } := by
    rw [hstep, h1, h2]; rfl
  rw [this]
  refine ⟨h, ?_⟩
  rintro ⟨_, h3⟩
  have := h3 { m with iffy := true } (List.mem_map.2 ⟨m, hm, by simp [he]⟩)
  cases this

example : (hrun [.create] .start).okay = true ∧ (∃ m ∈ (hrun [.create] .start).models, m.id = 0) ∧
    ∀ m ∈ (hrun [.create] .start).models, m.id = 0 → m.iffy = false := by decide

/-- A batch of a model whose driver is already known to be faulty is put off (`fractal/mgr.rs:527-538`). -/
theorem C37_known_fault {s : HS} {id : Nat} (h : ∃ m ∈ s.models, m.id = id ∧ m.iffy = true) (ok : Bool) :
    hstep s (.batch id ok) = s := by
  obtain ⟨m, hm, he, hf⟩ := h
  have : isIffy s.models id = true := List.any_eq_true.2 ⟨m, hm, by simp [he, hf]⟩
  simp [hstep, this]

example : ∃ m ∈ (hrun [.create, .create, .batch 1 false] .start).models, m.id = 1 ∧ m.iffy = true := by decide

/-- **C37 is violated.** When the driver of a model has recovered, the counter is `2^64 - 1`: all drivers are
fine and the status is bad. -/
theorem C37_recovery_makes_status_bad_violated :
    (hrun [.create, .batch 0 false, .run 0 true] .start).Healthy ∧
    (hrun [.create, .batch 0 false, .run 0 true] .start).faults.toNat = 2 ^ 64 - 1 := by decide

/-- **C37 is violated.** If then the driver of the catalogue fails, the status is good. -/
theorem C37_fault_makes_status_good_violated :
    (hrun [.create, .batch 0 false, .run 0 true, .enter, .leave false] .start).gns = true ∧
    (hrun [.create, .batch 0 false, .run 0 true, .enter, .leave false] .start).okay = true := by decide

/-- **C37 is violated.** Dropping the space of a model with a failed driver also counts down a fault that was
not counted, and dropping the model itself does not. -/
theorem C37_drop_violated :
    (hrun [.create, .batch 0 false, .dropSpace [0]] .start).Healthy ∧
    (hrun [.create, .batch 0 false, .dropSpace [0]] .start).okay = false ∧
    (hrun [.create, .batch 0 false, .dropModel 0] .start).okay = true := by decide

/-- **C37 is violated.** Two statements at once that both fail make two faults of one driver; after the first
check it is fine, and the status is bad until the second. -/
theorem C37_overlap_violated :
    (hrun [.enter, .enter, .leave false, .leave false, .run 0 true] .start).Healthy ∧
    (hrun [.enter, .enter, .leave false, .leave false, .run 0 true] .start).okay = false := by decide

/-- What an operation takes off the counter for models. -/
def uncounted (s : HS) : HOp → Nat
  | .run i true =>
    match s.tasks[i]? with
    | some (.model id) => if isThere s.models id then 1 else 0
    | _ => 0
  | .dropSpace ids => (s.models.filter fun m => ids.contains m.id && m.iffy).length
  | _ => 0

def drift : List HOp → HS → Nat
  | [], _ => 0
  | o :: os, s => uncounted s o + drift os (hstep s o)

theorem gnsTasks_append (a b : List HTask) : gnsTasks (a ++ b) = gnsTasks a + gnsTasks b := by
  simp [gnsTasks]

theorem gnsTasks_erase : ∀ {l : List HTask} {i : Nat} {t : HTask}, l[i]? = some t →
    gnsTasks (l.eraseIdx i) + gnsTasks [t] = gnsTasks l
  | [], i, t, h => by simp at h
  | x :: l, 0, t, h => by
    simp at h; subst h
    rw [List.eraseIdx_cons_zero, Nat.add_comm, ← gnsTasks_append]; rfl
  | x :: l, i + 1, t, h => by
    have := gnsTasks_erase (l := l) (i := i) (t := t) (by simpa using h)
    rw [List.eraseIdx_cons_succ]
    have h1 : ∀ l, gnsTasks (x :: l) = gnsTasks [x] + gnsTasks l := fun l => gnsTasks_append [x] l
    rw [h1 (l.eraseIdx i), h1 l]
    omega

theorem drift_step (s : HS) (o : HOp) (n : UInt64) (h : s.faults + n = UInt64.ofNat (gnsTasks s.tasks)) :
    (hstep s o).faults + (n + UInt64.ofNat (uncounted s o)) = UInt64.ofNat (gnsTasks (hstep s o).tasks) := by
  have z : n + UInt64.ofNat 0 = n := UInt64.add_zero n
  have back : ∀ (f k : UInt64), f - k + (n + k) = f + n := by
    intro f k
    rw [UInt64.add_comm n k, ← UInt64.add_assoc, UInt64.sub_add_cancel]
  cases o with
  | enter =>
    rw [uncounted, z]
    · rw [hstep]; split <;> exact h
    all_goals simp
  | leave ok =>
    rw [uncounted, z]
    · rw [hstep]
      split
      · exact h
      · split
        · exact h
        · simp only [gnsTasks_append]
          rw [UInt64.add_assoc, UInt64.add_comm 1 n, ← UInt64.add_assoc, h]
          exact ofNat_succ _
    all_goals simp
  | batch id ok =>
    rw [uncounted, z]
    · rw [hstep]
      split
      · simp only [gnsTasks_append]; exact h
      · exact h
    all_goals simp
  | create => rw [uncounted, z] <;> first | exact h | simp
  | dropModel id => rw [uncounted, z] <;> first | exact h | simp
  | dropSpace ids =>
    rw [uncounted, hstep]
    simp only
    rw [back]; exact h
  | run i ok =>
    cases ht : s.tasks[i]? with
    | none =>
      have hu : uncounted s (.run i ok) = 0 := by cases ok <;> simp [uncounted, ht]
      rw [hu, z, hstep, ht]; exact h
    | some t =>
      have he := gnsTasks_erase ht
      rw [hstep, ht]
      simp only
      cases t with
      | gns =>
        have hg : gnsTasks [HTask.gns] = 1 := rfl
        have hu : uncounted s (.run i ok) = 0 := by cases ok <;> simp [uncounted, ht]
        rw [hu, z]
        cases ok with
        | true =>
          simp only [runTask, if_true]
          have h1 : s.faults - 1 + n = s.faults + n - 1 := by
            rw [UInt64.sub_eq_add_neg, UInt64.sub_eq_add_neg, UInt64.add_assoc, UInt64.add_comm (-1) n, UInt64.add_assoc]
          rw [h1, h, ofNat_pred (by omega)]
          congr 1; omega
        | false =>
          simp only [runTask, Bool.false_eq_true, if_false, gnsTasks_append]
          rw [h]; congr 1; omega
      | model id =>
        have hg : gnsTasks [HTask.model id] = 0 := rfl
        rw [hg, Nat.add_zero] at he
        cases hi : isThere s.models id with
        | false =>
          have hu : uncounted s (.run i ok) = 0 := by cases ok <;> simp [uncounted, ht, hi]
          rw [hu, z]
          simp only [runTask, hi, Bool.false_eq_true, if_false, he]; exact h
        | true =>
          cases ok with
          | true =>
            have hu : uncounted s (.run i true) = 1 := by simp [uncounted, ht, hi]
            rw [hu]
            simp only [runTask, hi, if_true, he]
            exact (back s.faults 1).trans h
          | false =>
            have hu : uncounted s (.run i false) = 0 := by simp [uncounted]
            rw [hu, z]
            simp only [runTask, hi, if_true, Bool.false_eq_true, if_false, gnsTasks_append, he, hg]
            exact h

/-- **C37 is violated.** What the counter is, in every history: the pending checks of the catalogue's driver
minus everything that was ever counted down for models (modulo 2^64). So after one fault of a model the status
stays wrong. -/
theorem C37_drift_violated (os : List HOp) :
    (hrun os .start).faults + UInt64.ofNat (drift os .start) = UInt64.ofNat (gnsTasks (hrun os .start).tasks) := by
  have key : ∀ (os : List HOp) (s : HS) (n : UInt64), s.faults + n = UInt64.ofNat (gnsTasks s.tasks) →
      (hrun os s).faults + (n + UInt64.ofNat (drift os s)) = UInt64.ofNat (gnsTasks (hrun os s).tasks) := by
    intro os
    induction os with
    | nil => intro s n h; rw [drift]; exact (congrArg (s.faults + ·) (UInt64.add_zero n)).trans h
    | cons o os ih =>
      intro s n h
      rw [hrun, drift, UInt64.ofNat_add, ← UInt64.add_assoc n]
      exact ih _ _ (drift_step s o n h)
  have := key os .start 0 rfl
  rwa [UInt64.zero_add] at this

example : drift [.create, .batch 0 false, .run 0 true, .enter, .leave false] .start = 1 := by decide

end Verif.Fractal
