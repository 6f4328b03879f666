/-
C75: the theorems. See `Verif.Weak.Deltas` and `Verif.Weak.DeltasInv`.
-/
import Verif.Weak.DeltasInv
namespace Verif.Weak.Deltas
open Verif.Conc Verif.Weak.Queue

variable {α : Type}

/-- One access of the queue. -/
theorem inv_moved {s : St α} (v : J s) {t : Tid} {i : Nat} {q' : Queue.St α} (h : Queue.exec Queue.code s.q (.go t i) = some q') :
    J (moved s t q') := by
  have hq : Queue.Inv q' := Queue.inv_exec v.q _ h
  obtain ⟨ho, hle, hw⟩ := moved_go v.q h
  have hfit := v.fits t
  have old : ∀ j, s.role t = .prod (some j) → (q'.thr t).view.ev j = true ∧ j ∉ s.adds ∧ ∀ u, u ≠ t → s.role u ≠ .prod (some j) :=
    fun j hj => ⟨hle.ev j (v.prodEv t j hj).1, (v.prodEv t j hj).2, fun u hu h' => hu (v.prods u t j h' hj)⟩
  have keep : q'.ins.length = s.q.ins.length → ∀ j, j < q'.ins.length →
      (j < s.q.ins.length ∧ s.role t ≠ .prod (some j)) ∨ s.role t = .prod (some j) := fun e j hj => by
    by_cases e' : s.role t = .prod (some j)
    · exact .inr e'
    · exact .inl ⟨by omega, e'⟩
  cases hr : s.role t with
  | free =>
    rw [hr] at hfit
    exfalso
    have hidle : (s.q.thr t).pc = .idle := by
      revert hfit
      cases (s.q.thr t).pc with
      | idle => intro; rfl
      | dret x => cases x <;> (intro h; cases h)
      | _ => intro h; cases h
    simp [Queue.exec, hidle, goPc] at h
  | panicked => rw [hr] at hfit; exact hfit.elim
  | prod j =>
    cases j with
    | none =>
      rw [hr] at hfit
      have hfit : (s.q.thr t).pc.cls = .enq := hfit
      simp only [moved, hr]
      rcases hw with ⟨h1, h2, h3, h4⟩ | ⟨h1, h2, h3, h4, h5, h6⟩ | ⟨_, _, _, h4, _⟩
      · rw [if_pos h2]
        have hc : (q'.thr t).pc.cls = .enq := by
          rcases h4 with h4 | ⟨h4, -⟩ | ⟨h4, -⟩
          · rw [h4, hfit]
          · rw [hfit] at h4; rcases h4 with h4 | h4 | h4 <;> cases h4
          · rw [hfit] at h4; cases h4
        have := v.move (r := .prod none) hq (.inl h1) ho hle h3 hc (fun j hj => by cases hj) (fun lo n => by simp [hr])
          (fun j hj => .inl ⟨by omega, by simp [hr]⟩)
        exact this
      · rw [if_neg (by omega)]
        refine v.move (r := .prod (some s.q.ins.length)) hq (.inr h1) ho hle h3 (.inl h5) (fun j hj => ?_) (fun lo n => by simp [hr])
          (fun j hj => ?_)
        · cases hj
          refine ⟨h6, fun hm => ?_, fun u hu hu' => ?_⟩
          · have := (v.cg _ (v.addsEv _ hm)).1
            have := v.q.len
            omega
          · have := (v.q.good u _ (v.prodEv u _ hu').1).1
            have := v.q.len
            omega
        · by_cases e : j = s.q.ins.length
          · exact .inr (by rw [e])
          · exact .inl ⟨by omega, by simp [hr]⟩
      · rw [hfit] at h4; cases h4
    | some j =>
      rw [hr] at hfit
      have hfit : (s.q.thr t).pc.cls = .lnk ∨ (s.q.thr t).pc.cls = .idle := hfit
      simp only [moved, hr]
      rcases hw with ⟨h1, h2, h3, h4⟩ | ⟨_, _, _, h4, _⟩ | ⟨_, _, _, h4, _⟩
      · have hc : (q'.thr t).pc.cls = .lnk ∨ (q'.thr t).pc.cls = .idle := by
          rcases h4 with h4 | ⟨-, h4⟩ | ⟨h4, -⟩
          · rw [h4]; exact hfit
          · exact .inr h4
          · rw [h4] at hfit; rcases hfit with h | h <;> cases h
        have := v.move (t := t) (r := s.role t) hq (.inl h1) ho hle h3 (by rw [hr]; exact hc) old (fun lo n => Iff.rfl) (keep h2)
        rwa [upd_self] at this
      · rw [h4] at hfit; rcases hfit with h | h <;> cases h
      · rw [h4] at hfit; rcases hfit with h | h <;> cases h
  | cons lo n =>
    rw [hr] at hfit
    have hfit : (s.q.thr t).pc.cls = .idle ∨ (s.q.thr t).pc.cls = .tk ∨ ((s.q.thr t).pc.cls = .deq ∧ 0 < n) := hfit
    simp only [moved, hr]
    rcases hw with ⟨h1, h2, h3, h4⟩ | ⟨_, _, _, h4, _⟩ | ⟨h1, h2, h3, h4, h5⟩
    · rw [if_pos h3]
      have hc : (q'.thr t).pc.cls = .idle ∨ (q'.thr t).pc.cls = .tk ∨ ((q'.thr t).pc.cls = .deq ∧ 0 < n) := by
        rcases h4 with h4 | ⟨-, h4⟩ | ⟨h4, -, h6⟩
        · rw [h4]; exact hfit
        · exact .inl h4
        · rw [h4] at hfit
          rcases hfit with h | h | ⟨-, h⟩
          · cases h
          · cases h
          · exact (v.never hr h h6).elim
      have := v.move (t := t) (r := s.role t) hq (.inl h1) ho hle h3 (by rw [hr]; exact hc) old (fun lo n => Iff.rfl) (keep h2)
      rwa [upd_self] at this
    · rw [h4] at hfit; rcases hfit with h | h | ⟨h, -⟩ <;> cases h
    · rw [if_neg (by omega)]
      rw [h4] at hfit
      rcases hfit with h | h | ⟨-, h⟩
      · cases h
      · cases h
      · exact v.took hr h hq h1 ho hle h3 h2 h5

/-- Where an operation begins. -/
def entry : Op α → Pc α
  | .enq v => .e0 v
  | .deq => .d1

theorem call_eq {q q' : Queue.St α} {t : Tid} {op : Op α} (h : Queue.exec Queue.code q (.call t op) = some q') :
    (q.thr t).pc = .idle ∧ q' = q.at t (entry op) (q.thr t).view := by
  simp only [Queue.exec] at h
  split at h
  · rename_i e
    cases h
    exact ⟨e, by cases op <;> rfl⟩
  · cases h

theorem inv_exec {s s' : St α} (v : J s) (x : Act α) (h : exec code s x = some s') : J s' := by
  cases x with
  | append t x =>
    simp only [exec] at h
    split at h
    · rename_i hr
      obtain ⟨q', hq', rfl⟩ := Option.map_eq_some_iff.1 h
      have hq := Queue.inv_exec v.q _ hq'
      obtain ⟨-, rfl⟩ := call_eq hq'
      refine v.move (r := .prod none) hq (.inl rfl) (fun u hu => by simp [St.at, hu]) (by simpa [St.at] using Le.refl _) rfl
        (by simp only [St.at, upd_same]; rfl) (fun j hj => by cases hj) (fun lo n => by simp [hr]) (fun j hj => .inl ⟨hj, by simp [hr]⟩)
    · cases h
  | go t i =>
    simp only [exec] at h
    split at h
    · rename_i e hr
      have := v.fits t
      rw [hr, e] at this
      rcases this with h | h | ⟨h, -⟩ <;> cases h
    · cases h
    · cases h
    · obtain ⟨q', hq', rfl⟩ := Option.map_eq_some_iff.1 h
      exact inv_moved v hq'
  | add t =>
    simp only [exec] at h
    split at h
    · rename_i j hr hpc
      cases h
      exact v.add hr hpc
    · cases h
  | take t =>
    simp only [exec] at h
    split at h
    · cases h
      have v' := v.learn (t := t) v.cg
      have e : ((learn s.q t s.cview).thr t).view = (s.q.thr t).view.join s.cview := by simp [learn, St.at]
      have := v'.take (t := t) (v'.q.good t) (by simp only [e]; exact le_join_right _ _)
      simp only [e] at this
      exact this
    · cases h
  | start t k =>
    simp only [exec] at h
    split at h
    · rename_i tok hr hl hk
      split at h
      · cases h
      · cases h
        have hm : tok ∈ s.toks := List.mem_iff_getElem?.2 ⟨k, hk⟩
        have v' := v.learn (t := t) ((v.tg tok hm).join v.lg)
        have e : ((learn s.q t (tok.view.join s.lview)).thr t).view = (s.q.thr t).view.join (tok.view.join s.lview) := by simp [learn, St.at]
        exact v'.start (t := t) (k := k) (tok := tok) hr hl hk
          (by simp only [e]; exact (le_join_left _ _).trans (le_join_right _ _))
          (by simp only [e]; exact (le_join_right _ _).trans (le_join_right _ _))
    · cases h
  | deq t =>
    simp only [exec] at h
    split at h
    · rename_i lo n hr
      obtain ⟨q', hq', rfl⟩ := Option.map_eq_some_iff.1 h
      have hq := Queue.inv_exec v.q _ hq'
      obtain ⟨-, rfl⟩ := call_eq hq'
      have := v.move (t := t) (r := s.role t) hq (.inl rfl) (fun u hu => by simp [St.at, hu]) (by simpa [St.at] using Le.refl _) rfl
        (by simp only [St.at, upd_same, hr]; exact .inr (.inr ⟨rfl, Nat.succ_pos _⟩)) (fun j hj => by rw [hr] at hj; cases hj)
        (fun lo n => Iff.rfl) (fun j hj => .inl ⟨hj, by simp [hr]⟩)
      rwa [upd_self] at this
    · cases h
  | finish t =>
    simp only [exec] at h
    split at h
    · rename_i lo hr hpc
      cases h
      exact v.finish hr hpc
    · cases h
  | sync t u =>
    cases h
    exact v.learn (v.q.good u)

theorem inv_run {s s' : St α} (v : J s) (xs : List (Act α)) (h : run code s xs = some s') : J s' := by
  induction xs generalizing s with
  | nil => cases h; exact v
  | cons x xs ih =>
    simp only [run] at h
    split at h
    · cases h
    · rename_i s1 h1
      exact ih (inv_exec v x h1) h

/-! ### C75 -/

/-- **C75.** With the orderings of the code, in every execution that the memory model allows, no batch writer ever finds the queue
empty: `unwrap` never panics, whatever the threads load. -/
theorem C75_never_empty {xs : List (Act α)} {s : St α} (h : run code init xs = some s) (t : Tid) : s.role t ≠ .panicked := by
  intro e
  have := (inv_run inv_init xs h).fits t
  rw [e] at this
  exact this

/-- No thread faults in the queue. -/
theorem C75_no_race {xs : List (Act α)} {s : St α} (h : run code init xs = some s) (t : Tid) : (s.q.thr t).pc ≠ .fault := by
  intro e
  have := (inv_run inv_init xs h).q.pc t
  rw [e] at this
  exact this

theorem le_length : ∀ {n : Nat} {l : List Nat}, (∀ j, j < n → j ∈ l) → n ≤ l.length
  | 0, _, _ => Nat.zero_le _
  | n + 1, l, h => by
    have h1 := le_length (n := n) (l := l.erase n) (fun j hj => (List.mem_erase_of_ne (by omega)).2 (h j (by omega)))
    have h2 := List.length_erase_of_mem (h n (by omega))
    have h3 := List.length_pos_of_mem (h n (by omega))
    omega

/-- **C75.** The counter is never more than what is in the queue and not yet promised to a task: the changes that were
counted are at least those that tasks were made for, and at most those that were appended. -/
theorem C75_counted {xs : List (Act α)} {s : St α} (h : run code init xs = some s) :
    s.q.outs ≤ s.given ∧ s.given + s.cnt ≤ s.q.ins.length := by
  have v := inv_run inv_init xs h
  constructor
  · rw [← v.usedLen]
    exact nodup_le v.usedNd v.usedLt
  · rw [v.count]
    refine nodup_le v.addsNd (fun j hj => ?_)
    have := (v.cg j (v.addsEv j hj)).1
    have := v.q.len
    omega

/-- **C75.** Nothing is forgotten: once no thread is appending or writing, no task waits and the counter is zero, everything that was
appended has been taken by a batch. -/
theorem C75_none_left {xs : List (Act α)} {s : St α} (h : run code init xs = some s) (h1 : ∀ t, s.role t = .free)
    (h2 : s.toks = []) (h3 : s.cnt = 0) : s.q.outs = s.q.ins.length := by
  have v := inv_run inv_init xs h
  have hc := C75_counted h
  have a : s.q.ins.length ≤ s.adds.length := le_length fun j hj => by
    rcases v.allAdds j hj with h | ⟨t, ht⟩
    · exact h
    · rw [h1 t] at ht; cases ht
  have b : s.given ≤ s.used.length := le_length fun u hu => by
    rcases v.allUsed u hu with h | ⟨k, hk, -⟩ | ⟨t, lo, n, ht, -⟩
    · exact h
    · rw [h2] at hk; cases hk
    · rw [h1 t] at ht; cases ht
  have := v.usedLen
  have := v.count
  omega

/-! ### Examples -/

/-- A change appended and counted by thread `t`, which meets nobody. -/
def append (t v i : Nat) : List (Act Nat) :=
  [.append t v, .go t 0, .go t i, .go t 0, .go t 0, .go t i, .go t 0, .add t]

/-- What a run ends with. -/
def seen (s : St Nat) : List Nat × Nat × List (Nat × Nat) × Bool :=
  (s.q.ins, s.q.outs, s.q.rets, [1, 2, 3].any fun t => s.role t = .panicked)

/-- Thread 1 appends, thread 2 takes the count, thread 3 writes the batch. -/
example : (run code init (append 1 10 0 ++ append 1 11 1 ++ [.take 2, .start 3 0, .deq 3, .go 3 0, .go 3 1, .go 3 0, .go 3 2, .go 3 0,
      .go 3 0, .deq 3, .go 3 1, .go 3 1, .go 3 1, .go 3 2, .go 3 0, .go 3 0, .finish 3])).map seen
    = some ([10, 11], 2, [(0, 10), (1, 11)], false) := by
  decide +kernel

/-- Thread 1 appends a change, thread 2 takes the count, and thread 3, which writes the batch, reads what the queue was like at first. -/
def stale : List (Act Nat) := append 1 10 0 ++ [.take 2, .start 3 0, .deq 3, .go 3 0, .go 3 0, .go 3 0]

/-- With the orderings of the code the second load cannot return the old value. -/
example : (run code init stale).map seen = none := by decide +kernel

/-- **C75.** The release of the addition is needed: with a relaxed one the writer may panic. -/
theorem C75_release_needed : (run { code with addRel := false } init stale).map seen = some ([10], 0, [], true) := by decide +kernel

/-- **C75.** So is the acquire of the exchange. -/
theorem C75_acquire_needed : (run { code with swapAcq := false } init stale).map seen = some ([10], 0, [], true) := by decide +kernel

end Verif.Weak.Deltas
