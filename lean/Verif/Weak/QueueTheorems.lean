/-
C74: what the queue of pending changes guarantees under weak memory. See `Verif.Weak.Queue`.
-/
import Verif.Weak.QueueSteps
namespace Verif.Weak.Queue
open Verif.Conc

variable {α : Type}

theorem inv_init : Inv (init : St α) where
  start := rfl
  len := rfl
  nodup := by simp [init]
  bound := by intro p hp; simp [init] at hp ⊢; omega
  data := by intro k p h; simp [init] at h
  headLen := rfl
  head := by
    intro m x h
    cases m with
    | zero =>
      simp only [init, List.getElem?_cons_zero, Option.some.injEq] at h
      subst h
      exact ⟨⟨rfl, by simp, fun j hj => absurd hj (Nat.not_lt_zero _)⟩, fun j hj => by simp [View.bot] at hj⟩
    | succ m => simp [init] at h
  tail := by
    intro x h
    simp only [init, List.mem_singleton] at h
    subst h
    exact ⟨⟨0, rfl, by simp, fun j hj => absurd hj (Nat.not_lt_zero _)⟩, fun j hj => by simp [View.bot] at hj⟩
  next := by
    intro p hp
    have : p = 0 := by simp [init] at hp; omega
    subst this
    refine .inr ⟨fun k hk => ?_, by simp [init]⟩
    have := (List.getElem?_eq_some_iff.1 hk).1
    simp [init] at this ⊢
    omega
  good := fun t j hj => by simp [init, View.bot] at hj
  pc := fun t => trivial
  own := fun t p v h => by cases h
  owns := fun t u p v w h => by cases h
  rets := fun k v h => by cases h
  once := by simp [init]
  took := fun t k h => by cases h
  tooks := fun t u k h => by cases h
  all := fun k hk => by simp [init] at hk

theorem inv_casTail {s s' : St α} (v : Inv s) {t : Tid} {i old new : Nat} {pc : Pc α}
    (h : casTail code s t (s.thr t).view i old new pc = some s') (hn : ∃ q, Knows s.chain (s.thr t).view new q)
    (hp : PcOk s.chain s.outs (s.thr t).view pc) (ho : ∀ x, pc.owned = some x → (s.thr t).pc.owned = some x)
    (ht : pc.took = (s.thr t).pc.took) : Inv s' := by
  have le : ∀ j, Le (s.thr t).view { (s.thr t).view with tl := j } := fun j => ⟨fun _ => Nat.le_refl _, fun _ h => h, fun _ h => h⟩
  simp only [casTail] at h
  split at h
  · cases h
  · rename_i m hm
    split at h
    · split at h
      · split at h
        · cases h
          obtain ⟨q, hq⟩ := hn
          have hmg := (v.tail m (List.mem_iff_getElem?.2 ⟨i, hm⟩)).2
          have v1 := v.pushTail (m := ⟨new, View.release code.cxTail { (s.thr t).view with tl := i + 1 } m.view⟩)
            ⟨q, (hq.mono (le _)).mono (le_join_right _ _)⟩ (hmg.join ((v.good t).saw (le _) rfl))
          exact v1.move (t := t) ((v.good t).saw (le _) rfl) (hp.mono (le _)) (fun _ h => h) ho ht
        · cases h
      · cases h
        exact v.move ((v.good t).saw (le _) rfl) (hp.mono (le _)) (fun _ h => h) ho ht
    · cases h

/-- What a load of `p.next` gives. -/
theorem Inv.loaded {s : St α} (v : Inv s) {t : Tid} {p q i : Nat} {m : Msg (Option Ptr)} (hq : Knows s.chain (s.thr t).view p q)
    (hm : (s.next p)[i]? = some m) (hle : (s.thr t).view.nx p ≤ i) :
    let w' := ((s.thr t).view.sawNx p i).acquire true m.view
    Le (s.thr t).view w' ∧ Good s.chain w' ∧
    ((m.val = none ∧ i = 0) ∨ ∃ n, m.val = some n ∧ Knows s.chain w' n (q + 1)) := by
  intro w'
  have l0 := le_sawNx (v := (s.thr t).view) (p := p) (i := i) hle
  have l1 : Le (s.thr t).view w' := by
    have := le_join_left ((s.thr t).view.sawNx p i) m.view
    exact ⟨fun x => Nat.le_trans (l0.nx x) (this.nx x), fun x h => this.ini x (l0.ini x h), fun j h => this.ev j (l0.ev j h)⟩
  have g0 : Good s.chain ((s.thr t).view.sawNx p i) := (v.good t).saw l0 rfl
  rcases v.next p (v.bound p (List.mem_iff_getElem?.2 ⟨q, hq.1⟩)) with ⟨k, n, y, a, b, c, d, g⟩ | ⟨a, b⟩
  · have hk := chain_inj v.nodup a hq.1
    subst hk
    rw [c] at hm
    have hi : i = 0 ∨ i = 1 := by
      have := (List.getElem?_eq_some_iff.1 hm).1
      simp at this
      omega
    rcases hi with rfl | rfl
    · have hm' : m = ⟨none, .bot⟩ := (Option.some.inj hm).symm
      subst hm'
      exact ⟨l1, g0.join (good_bot _), .inl ⟨rfl, rfl⟩⟩
    · have hm' : m = ⟨some n, y⟩ := (Option.some.inj hm).symm
      subst hm'
      exact ⟨l1, g0.join g, .inr ⟨n, rfl, d.mono (le_join_right _ _)⟩⟩
  · rw [b] at hm
    have hi : i = 0 := by
      have := (List.getElem?_eq_some_iff.1 hm).1
      simp at this
      omega
    subst hi
    have hm' : m = ⟨none, .bot⟩ := (Option.some.inj hm).symm
    subst hm'
    exact ⟨l1, g0.join (good_bot _), .inl ⟨rfl, rfl⟩⟩

theorem inv_go {s s' : St α} (v : Inv s) {t : Tid} {i : Nat} (h : goPc code s t (s.thr t).view i (s.thr t).pc = some s') : Inv s' := by
  have hpc := v.pc t
  have hg := v.good t
  have leT : ∀ j, Le (s.thr t).view { (s.thr t).view with tl := j } := fun j => ⟨fun _ => Nat.le_refl _, fun _ h => h, fun _ h => h⟩
  have leH : ∀ j, Le (s.thr t).view { (s.thr t).view with hd := j } := fun j => ⟨fun _ => Nat.le_refl _, fun _ h => h, fun _ h => h⟩
  cases e : (s.thr t).pc with
  | idle => rw [e] at h; cases h
  | fault => rw [e] at h; cases h
  | e0 x =>
    rw [e] at h
    cases h
    exact v.new e
  | e1 x new =>
    rw [e] at h
    simp only [goPc] at h
    split at h
    · cases h
    · rename_i m hm
      split at h
      · cases h
        obtain ⟨⟨q, k⟩, g⟩ := v.tail m (List.mem_iff_getElem?.2 ⟨i, hm⟩)
        have l1 := le_join_left { (s.thr t).view with tl := i } m.view
        exact v.move ((hg.saw (leT i) rfl).join g) ⟨q, k.mono (le_join_right _ _)⟩ (fun p h => l1.ini p h)
          (fun y h => by rw [e]; exact h) (by rw [e]; rfl)
      · cases h
  | e2 x new tl =>
    rw [e] at h hpc
    obtain ⟨q, hq⟩ := hpc
    simp only [goPc, hq.2.1, if_true] at h
    split at h
    · cases h
    · rename_i m hm
      split at h
      · rename_i hle
        cases h
        obtain ⟨l1, g1, h1⟩ := v.loaded hq hm hle
        rcases h1 with ⟨h1, -⟩ | ⟨n, h1, h2⟩
        · rw [h1]
          exact v.move g1 ⟨q, hq.mono l1⟩ l1.ini (fun y h => by rw [e]; exact h) (by rw [e]; rfl)
        · rw [h1]
          exact v.move g1 ⟨q, hq.mono l1, h2⟩ l1.ini (fun y h => by rw [e]; exact h) (by rw [e]; rfl)
      · cases h
  | e3 x new tl =>
    rw [e] at h hpc
    obtain ⟨q, hq⟩ := hpc
    simp only [goPc] at h
    split at h
    · cases h
    · rename_i m hm
      split at h
      · rename_i hle
        split at h
        · rename_i hv
          split at h
          · rename_i hl
            cases h
            exact v.link e hm hle hv hl
          · cases h
        · cases h
          have l0 := le_sawNx hle
          exact v.move (hg.saw l0 rfl) trivial l0.ini (fun y h => by rw [e]; exact h) (by rw [e]; rfl)
      · cases h
  | e4 new tl =>
    rw [e] at h hpc
    obtain ⟨q, h1, h2⟩ := hpc
    exact inv_casTail v h ⟨q + 1, h2⟩ trivial (fun y h => by cases h) (by rw [e]; rfl)
  | e5 x new tl n =>
    rw [e] at h hpc
    obtain ⟨q, h1, h2⟩ := hpc
    exact inv_casTail v h ⟨q + 1, h2⟩ trivial (fun y h => by rw [e]; exact h) (by rw [e]; rfl)
  | eret =>
    rw [e] at h
    cases h
    exact v.move hg trivial (fun _ h => h) (fun y h => by cases h) (by rw [e]; rfl)
  | d1 =>
    rw [e] at h
    simp only [goPc] at h
    split at h
    · cases h
    · rename_i m hm
      split at h
      · cases h
        obtain ⟨k, g⟩ := v.head i m hm
        have l1 := le_join_left { (s.thr t).view with hd := i } m.view
        have hi : i ≤ s.outs := by
          have := (List.getElem?_eq_some_iff.1 hm).1
          have := v.headLen
          omega
        exact v.move ((hg.saw (leH i) rfl).join g) ⟨i, hi, k.mono (le_join_right _ _)⟩ (fun p h => l1.ini p h)
          (fun y h => by cases h) (by rw [e]; rfl)
      · cases h
  | d2 hd =>
    rw [e] at h hpc
    obtain ⟨q, ho, hq⟩ := hpc
    simp only [goPc, hq.2.1, if_true] at h
    split at h
    · cases h
    · rename_i m hm
      split at h
      · rename_i hle
        cases h
        obtain ⟨l1, g1, h1⟩ := v.loaded hq hm hle
        rcases h1 with ⟨h1, -⟩ | ⟨n, h1, h2⟩
        · rw [h1]
          exact v.move g1 trivial l1.ini (fun y h => by cases h) (by rw [e]; rfl)
        · rw [h1]
          exact v.move g1 ⟨q, ho, hq.mono l1, h2⟩ l1.ini (fun y h => by cases h) (by rw [e]; rfl)
      · cases h
  | d3 hd n =>
    rw [e] at h
    simp only [goPc] at h
    split at h
    · cases h
    · rename_i m hm
      split at h
      · split at h
        · rename_i hv
          split at h
          · rename_i hl
            cases h
            exact v.take e hm hv hl
          · cases h
        · cases h
          exact v.move (hg.saw (leH i) rfl) trivial (fun _ h => h) (fun y h => by cases h) (by rw [e]; rfl)
      · cases h
  | d4 hd n k =>
    rw [e] at h hpc
    obtain ⟨h0, h1, h2⟩ := hpc
    simp only [goPc] at h
    split at h
    · cases h
    · rename_i m hm
      split at h
      · cases h
        obtain ⟨-, g⟩ := v.tail m (List.mem_iff_getElem?.2 ⟨i, hm⟩)
        have l1 := le_join_left { (s.thr t).view with tl := i } m.view
        have l2 : Le (s.thr t).view (({ (s.thr t).view with tl := i } : View).join m.view) := ⟨l1.nx, l1.ini, l1.ev⟩
        split
        · exact v.move ((hg.saw (leT i) rfl).join g) ⟨h0, h1.mono l2, h2.mono l2⟩ l2.ini (fun y h => by cases h) (by rw [e]; rfl)
        · exact v.move ((hg.saw (leT i) rfl).join g) ⟨h0, h2.mono l2⟩ l2.ini (fun y h => by cases h) (by rw [e]; rfl)
      · cases h
  | d5 hd n k =>
    rw [e] at h hpc
    obtain ⟨h0, h1, h2⟩ := hpc
    exact inv_casTail v h ⟨k + 1, h2⟩ ⟨h0, h2⟩ (fun y h => by cases h) (by rw [e]; rfl)
  | d7 n k =>
    rw [e] at h hpc
    obtain ⟨h0, h2⟩ := hpc
    have hd := v.data k n h2.1
    have hk : k < s.ins.length := by
      have := (List.getElem?_eq_some_iff.1 h2.1).1
      have := v.len
      omega
    rw [List.getElem?_eq_getElem hk] at hd
    simp only [goPc, h2.2.1, if_true, hd] at h
    cases h
    exact v.give e hd
  | dret x =>
    rw [e] at h
    cases h
    exact v.move hg trivial (fun _ h => h) (fun y h => by cases h) (by rw [e]; rfl)

theorem inv_exec {s s' : St α} (v : Inv s) (x : Act α) (h : exec code s x = some s') : Inv s' := by
  cases x with
  | call t op =>
    simp only [exec] at h
    split at h
    · rename_i e
      cases h
      cases op with
      | enq x => exact v.move (v.good t) trivial (fun _ h => h) (fun y h => by cases h) (by rw [e]; rfl)
      | deq => exact v.move (v.good t) trivial (fun _ h => h) (fun y h => by cases h) (by rw [e]; rfl)
    · cases h
  | go t i => exact inv_go v h
  | sync t u =>
    cases h
    have l := le_join_left (s.thr t).view (s.thr u).view
    exact v.move ((v.good t).join (v.good u)) ((v.pc t).mono l) l.ini (fun _ h => h) rfl

theorem inv_run {s s' : St α} (v : Inv s) (xs : List (Act α)) (h : run code s xs = some s') : Inv s' := by
  induction xs generalizing s with
  | nil => cases h; exact v
  | cons x xs ih =>
    simp only [run] at h
    split at h
    · cases h
    · rename_i s1 h1
      exact ih (inv_exec v x h1) h

/-! ### C74 -/

/-- **C74.** With the orderings of the code, in every execution that the memory model allows, no thread reads a node
before its initialisation, and none reads the data of the sentinel. -/
theorem C74_no_race {xs : List (Act α)} {s : St α} (h : run code init xs = some s) (t : Tid) : (s.thr t).pc ≠ .fault := by
  intro e
  have := (inv_run inv_init xs h).pc t
  rw [e] at this
  exact this

/-- **C74.** First in, first out, nothing lost, nothing doubled: the dequeue that is the `k`-th to take something returns
the value that the `k`-th enqueue put in, and no other dequeue returns that one; a number that was taken was given
to the caller or is in the hands of a thread; no more is taken than was put in. -/
theorem C74_fifo {xs : List (Act α)} {s : St α} (h : run code init xs = some s) :
    (∀ k v, (k, v) ∈ s.rets → k < s.outs ∧ s.ins[k]? = some v) ∧ (s.rets.map Prod.fst).Nodup ∧
    (∀ k, k < s.outs → k ∈ s.rets.map Prod.fst ∨ ∃ t, (s.thr t).pc.took = some k) ∧ s.outs ≤ s.ins.length := by
  have v := inv_run inv_init xs h
  refine ⟨v.rets, v.once, v.all, ?_⟩
  have hl := v.headLen
  have hm : s.head[s.outs]? = some s.head[s.outs] := List.getElem?_eq_getElem (by omega)
  have := (List.getElem?_eq_some_iff.1 (v.head _ _ hm).1.1).1
  have := v.len
  omega

theorem Inv.empty {s s' : St α} (v : Inv s) {t : Tid} {i : Nat} {hd : Ptr}
    (hpc : (s.thr t).pc = .d2 hd) (hs : exec code s (.go t i) = some s') (he : (s'.thr t).pc = .dret none) :
    ∀ j, (s.thr t).view.ev j = true → j < s.outs := by
  have hp := v.pc t
  rw [hpc] at hp
  obtain ⟨q, ho, hq⟩ := hp
  simp only [exec, hpc, goPc, hq.2.1, if_true] at hs
  split at hs
  · cases hs
  · rename_i m hm
    split at hs
    · rename_i hle
      cases hs
      have hl := v.loaded hq hm hle
      obtain ⟨-, -, h1⟩ := hl
      simp only [St.at, upd_same] at he
      rcases h1 with ⟨h1, h2⟩ | ⟨n, h1, h2⟩
      · subst h2
        intro j hj
        obtain ⟨a, b⟩ := v.good t j hj
        by_cases hjq : j < q
        · omega
        · exfalso
          have := (b q (by omega)).2 hd hq.1
          omega
      · rw [h1] at he
        cases he
    · cases hs

/-- **C74.** A dequeue may find the queue empty only if every enqueue that happened before it was undone: its element
was taken. `ev j` says that the `j`-th enqueue happened before the next access of the thread. -/
theorem C74_empty {xs : List (Act α)} {s s' : St α} (h : run code init xs = some s) {t : Tid} {i : Nat} {hd : Ptr}
    (hpc : (s.thr t).pc = .d2 hd) (hs : exec code s (.go t i) = some s') (he : (s'.thr t).pc = .dret none) :
    ∀ j, (s.thr t).view.ev j = true → j < s.outs :=
  (inv_run inv_init xs h).empty hpc hs he

/-- An enqueue has taken effect when it returns, and happened before all that its thread does next. -/
theorem C74_enqueued {xs : List (Act α)} {s s' : St α} (_ : run code init xs = some s) {t : Tid} {i : Nat} {x : α} {new tl : Ptr}
    (hpc : (s.thr t).pc = .e3 x new tl) (hs : exec code s (.go t i) = some s') (he : (s'.thr t).pc = .e4 new tl) :
    s'.ins = s.ins ++ [x] ∧ (s'.thr t).view.ev s.ins.length = true := by
  simp only [exec, hpc, goPc] at hs
  split at hs
  · cases hs
  · split at hs
    · split at hs
      · split at hs
        · cases hs
          simp [St.at, St.link]
        · cases hs
      · cases hs
        simp [St.at] at he
    · cases hs

/-- What happened before a thread's next access stays so, and what synchronises with it is added. -/
theorem C74_sync (s : St α) (t u : Tid) : ∃ s', exec code s (.sync t u) = some s' ∧
    ∀ j, (s'.thr t).view.ev j = ((s.thr t).view.ev j || (s.thr u).view.ev j) :=
  ⟨_, rfl, fun j => by simp [St.at, View.join]⟩

/-! ### Examples -/

/-- One enqueue by thread `t` that meets nobody. -/
def enq (t v : Nat) (i : Nat) : List (Act Nat) := [.call t (.enq v), .go t 0, .go t i, .go t 0, .go t 0, .go t i, .go t 0]

/-- What a run ends with: the values that were put in, how many were taken, what was returned, and the answers of the
threads 1 and 2. -/
def answer (s : St Nat) (t : Tid) : String :=
  match (s.thr t).pc with
  | .dret none => "none"
  | .dret (some v) => toString v
  | .fault => "fault"
  | _ => ""

def seen (s : St Nat) : List Nat × Nat × List (Nat × Nat) × String × String := (s.ins, s.outs, s.rets, answer s 1, answer s 2)

/-- Two enqueues by thread 1, two dequeues by thread 2, which loads old values of `tail`. -/
example : (run code init (enq 1 10 0 ++ enq 1 11 1 ++ [.call 2 .deq, .go 2 0, .go 2 1, .go 2 0, .go 2 0, .go 2 2, .go 2 0, .go 2 0]
      ++ [.call 2 .deq, .go 2 1, .go 2 1, .go 2 1, .go 2 2, .go 2 0])).map seen = some ([10, 11], 2, [(0, 10), (1, 11)], "", "11") := by
  decide +kernel

/-- **C74.** Unlike under sequential consistency (C17), a dequeue may miss an element whose enqueue returned long ago: thread 1
has enqueued, thread 2 was not told, and reads the old value of `next`. -/
theorem C74_stale_empty : (run code init (enq 1 10 0 ++ [.call 2 .deq, .go 2 0, .go 2 0])).map seen = some ([10], 0, [], "", "none") := by
  decide +kernel

/-- But not after it was told. -/
theorem C74_told : (run code init (enq 1 10 0 ++ [.sync 2 1, .call 2 .deq, .go 2 0, .go 2 0])).map seen = none := by
  decide +kernel

/-- **C74.** The release of the exchange of `next` is needed: with a relaxed one the dequeuing thread reads a node that it does
not see initialised. -/
theorem C74_release_needed : (run { code with cxNext := false } init (enq 1 10 0 ++
    [.call 2 .deq, .go 2 0, .go 2 1, .go 2 0, .go 2 0, .go 2 1, .go 2 0])).map seen = some ([10], 1, [], "", "fault") := by
  decide +kernel

/-- **C74.** So is the acquire of the load of `next`. -/
theorem C74_acquire_needed : (run { code with ldNext := false } init (enq 1 10 0 ++
    [.call 2 .deq, .go 2 0, .go 2 1, .go 2 0, .go 2 0, .go 2 1, .go 2 0])).map seen = some ([10], 1, [], "", "fault") := by
  decide +kernel

end Verif.Weak.Queue
