/-
Threads that take their locks in the order of a rank never deadlock, for any number of threads and any schedule.
-/
import Verif.Locks.Model
namespace Verif.Locks

/-- Every lock is asked for while only locks of smaller rank are held, and all are given back at the end. -/
def Ordered (rk : Lock → Nat) : List (Lock × Mode) → Prog → Prop
  | h, .done => h = []
  | _, .panic => True
  | h, .look k => ∀ c, Ordered rk h (k c)
  | h, .upd _ k => Ordered rk h k
  | h, .pick k => ∀ b, Ordered rk h (k b)
  | h, .acq l m k => (∀ x ∈ h, rk x.1 < rk l) ∧ Ordered rk ((l, m) :: h) k
  | h, .upg l k => (l, Mode.up) ∈ h ∧ (∀ x ∈ h, x.1 ≠ l → rk x.1 < rk l) ∧ Ordered rk (rehold h l .write) k
  | h, .down l k => Ordered rk (rehold h l .read) k
  | h, .rel l k => Ordered rk (unhold h l) k

/-- Two threads that hold the same lock hold it in modes that agree. -/
def Excl (ts : List Thr) : Prop :=
  ∀ (i j : Nat) (t u : Thr), ts[i]? = some t → ts[j]? = some u → i ≠ j →
    ∀ (l : Lock) (a b : Mode), (l, a) ∈ t.h → (l, b) ∈ u.h → compat a b = true

/-- What holds in every state reachable by ordered threads. -/
structure Inv (rk : Lock → Nat) (s : Sys) : Prop where
  ord : ∀ t ∈ s.ts, Ordered rk t.h t.p
  excl : Excl s.ts

theorem Ordered.andThen {rk : Lock → Nat} {a b : Prog} {h : List (Lock × Mode)} (ha : Ordered rk h a)
    (hb : Ordered rk [] b) : Ordered rk h (a.andThen b) := by
  induction a generalizing h with
  | done => cases ha; exact hb
  | panic => trivial
  | look k ih => exact fun c => ih c (ha c)
  | upd f k ih => exact ih ha
  | pick k ih => exact fun c => ih c (ha c)
  | acq l m k ih => exact ⟨ha.1, ih ha.2⟩
  | upg l k ih => exact ⟨ha.1, ha.2.1, ih ha.2.2⟩
  | down l k ih => exact ih (h := rehold h l .read) ha
  | rel l k ih => exact ih (h := unhold h l) ha

theorem mem_unhold {h : List (Lock × Mode)} {l : Lock} {x : Lock × Mode} :
    x ∈ unhold h l ↔ x ∈ h ∧ x.1 ≠ l := by
  simp [unhold]

theorem mem_rehold {h : List (Lock × Mode)} {l l' : Lock} {m a : Mode} (hx : (l', a) ∈ rehold h l m) :
    (l' = l ∧ a = m ∧ ∃ a', (l, a') ∈ h) ∨ (l' ≠ l ∧ (l', a) ∈ h) := by
  simp only [rehold, List.mem_map] at hx
  obtain ⟨⟨l1, a1⟩, h1, h2⟩ := hx
  by_cases e : l1 = l
  · simp [e] at h2
    exact .inl ⟨h2.1.symm, h2.2.symm, a1, e ▸ h1⟩
  · simp [e] at h2
    exact .inr ⟨h2.1 ▸ e, h2.1 ▸ h2.2 ▸ h1⟩

theorem compat_symm (a b : Mode) : compat a b = compat b a := by cases a <;> cases b <;> rfl

theorem get_set_cases {α} {ts : List α} {i j : Nat} {x y : α} (h : (ts.set i x)[j]? = some y) :
    (j = i ∧ y = x) ∨ (j ≠ i ∧ ts[j]? = some y) := by
  rw [List.getElem?_set] at h
  split at h
  · rename_i e; subst e
    split at h
    · cases h; exact .inl ⟨rfl, rfl⟩
    · cases h
  · rename_i e; exact .inr ⟨fun h' => e h'.symm, h⟩

/-- Replacing a thread by one whose holds agree with everyone else's. -/
theorem Excl.set {ts : List Thr} (hx : Excl ts) {i : Nat} {t' : Thr}
    (h : ∀ j u, ts[j]? = some u → j ≠ i → ∀ l a b, (l, a) ∈ t'.h → (l, b) ∈ u.h → compat a b = true) :
    Excl (ts.set i t') := by
  intro a b t u ht hu hab l x y hxm hym
  rcases get_set_cases ht with ⟨ea, et⟩ | ⟨hai, ht'⟩ <;> rcases get_set_cases hu with ⟨eb, eu⟩ | ⟨hbi, hu'⟩
    <;> (try subst et) <;> (try subst eu)
  · exact absurd (ea.trans eb.symm) hab
  · exact h _ _ hu' hbi _ _ _ hxm hym
  · rw [compat_symm]; exact h _ _ ht' hai _ _ _ hym hxm
  · exact hx _ _ _ _ ht' hu' hab _ _ _ hxm hym

theorem mem_of_get? {α} {ts : List α} {i : Nat} {t : α} (h : ts[i]? = some t) : t ∈ ts :=
  List.mem_of_getElem? h

theorem mem_set_cases {α} {ts : List α} {i : Nat} {x y : α} (h : y ∈ ts.set i x) : y = x ∨ y ∈ ts := by
  rcases List.mem_or_eq_of_mem_set h with h | h
  · exact .inr h
  · exact .inl h

theorem Inv.step {rk : Lock → Nat} {s s' : Sys} {i : Nat} (hi : Inv rk s) (hs : Step s i s') : Inv rk s' := by
  cases hs with
  | look ht =>
    have ho := hi.ord _ (mem_of_get? ht)
    exact ⟨fun t hm => (mem_set_cases hm).elim (fun e => e ▸ ho _) (hi.ord t),
      hi.excl.set fun j u hu hj l a b ha hb => hi.excl _ _ _ _ ht hu (Ne.symm hj) l a b ha hb⟩
  | upd ht =>
    have ho := hi.ord _ (mem_of_get? ht)
    exact ⟨fun t hm => (mem_set_cases hm).elim (fun e => e ▸ ho) (hi.ord t),
      hi.excl.set fun j u hu hj l a b ha hb => hi.excl _ _ _ _ ht hu (Ne.symm hj) l a b ha hb⟩
  | pick b ht =>
    have ho := hi.ord _ (mem_of_get? ht)
    exact ⟨fun t hm => (mem_set_cases hm).elim (fun e => e ▸ ho b) (hi.ord t),
      hi.excl.set fun j u hu hj l a b ha hb => hi.excl _ _ _ _ ht hu (Ne.symm hj) l a b ha hb⟩
  | acq ht hf =>
    have ho := hi.ord _ (mem_of_get? ht)
    refine ⟨fun t hm => (mem_set_cases hm).elim (fun e => e ▸ ho.2) (hi.ord t),
      hi.excl.set fun j u hu hj l' a b ha hb => ?_⟩
    rcases List.mem_cons.1 ha with e | ha
    · cases e; rw [compat_symm]; exact hf u (mem_of_get? hu) _ hb
    · exact hi.excl _ _ _ _ ht hu (Ne.symm hj) l' a b ha hb
  | upg ht hf =>
    have ho := hi.ord _ (mem_of_get? ht)
    refine ⟨fun t hm => (mem_set_cases hm).elim (fun e => e ▸ ho.2.2) (hi.ord t),
      hi.excl.set fun j u hu hj l' a b ha hb => ?_⟩
    rcases mem_rehold ha with ⟨rfl, _, _⟩ | ⟨_, ha⟩
    · exact absurd hb (hf j u hu hj b)
    · exact hi.excl _ _ _ _ ht hu (Ne.symm hj) l' a b ha hb
  | down ht =>
    have ho := hi.ord _ (mem_of_get? ht)
    refine ⟨fun t hm => (mem_set_cases hm).elim (fun e => e ▸ ho) (hi.ord t),
      hi.excl.set fun j u hu hj l' a b ha hb => ?_⟩
    rcases mem_rehold ha with ⟨rfl, rfl, a', ha'⟩ | ⟨_, ha⟩
    · have := hi.excl _ _ _ _ ht hu (Ne.symm hj) _ a' b ha' hb
      revert this; cases a' <;> cases b <;> simp [compat]
    · exact hi.excl _ _ _ _ ht hu (Ne.symm hj) l' a b ha hb
  | rel ht =>
    have ho := hi.ord _ (mem_of_get? ht)
    refine ⟨fun t hm => (mem_set_cases hm).elim (fun e => e ▸ ho) (hi.ord t),
      hi.excl.set fun j u hu hj l' a b ha hb => ?_⟩
    exact hi.excl _ _ _ _ ht hu (Ne.symm hj) l' a b (mem_unhold.1 ha).1 hb
  | panic ht =>
    exact ⟨fun t hm => (mem_set_cases hm).elim (fun e => e ▸ rfl) (hi.ord t),
      hi.excl.set fun j u hu hj l a b ha hb => by simp at ha⟩

theorem Inv.run {rk : Lock → Nat} {s s' : Sys} (hi : Inv rk s) (hr : Run s s') : Inv rk s' := by
  induction hr with
  | refl => exact hi
  | tail _ hs ih => exact ih.step hs

/-- The rank of the lock a thread asks for, plus one; 0 for a thread that asks for nothing. -/
def wantRank (rk : Lock → Nat) (t : Thr) : Nat :=
  match t.p with
  | .acq l _ _ => rk l + 1
  | .upg l _ => rk l + 1
  | _ => 0

theorem exists_max {α} (f : α → Nat) : ∀ (xs : List α), xs ≠ [] → ∃ x ∈ xs, ∀ y ∈ xs, f y ≤ f x
  | [], h => absurd rfl h
  | [x], _ => ⟨x, by simp, by simp⟩
  | x :: y :: ys, _ => by
    obtain ⟨z, hz, hm⟩ := exists_max f (y :: ys) (by simp)
    by_cases hle : f z ≤ f x
    · refine ⟨x, by simp, fun w hw => ?_⟩
      rcases List.mem_cons.1 hw with rfl | hw
      · exact Nat.le_refl _
      · exact Nat.le_trans (hm w hw) hle
    · refine ⟨z, List.mem_cons_of_mem _ hz, fun w hw => ?_⟩
      rcases List.mem_cons.1 hw with rfl | hw
      · omega
      · exact hm w hw

/-- What a thread that does not move is doing. -/
def Waits (t : Thr) (l : Lock) : Prop := (∃ m k, t.p = .acq l m k) ∨ ∃ k, t.p = .upg l k

/-- In a state of ordered threads, as long as one is not finished one can move, even if waiting writers go first. -/
theorem Inv.progress {rk : Lock → Nat} {s : Sys} (hi : Inv rk s) (hn : ¬ s.finished) : ∃ i, MovesFair s i := by
  apply Classical.byContradiction
  intro hno
  have hno : ∀ i, ¬ MovesFair s i := fun i h => hno ⟨i, h⟩
  have idx : ∀ t ∈ s.ts, ∃ i, s.ts[i]? = some t := fun t ht => List.mem_iff_getElem?.1 ht
  -- nobody moves: everyone is finished or waits
  have hw : ∀ t ∈ s.ts, t.p = .done ∨ ∃ l, Waits t l := by
    intro t ht
    obtain ⟨i, hit⟩ := idx t ht
    have := hno i
    rcases hp : t.p with _ | _ | _ | _ | _ | ⟨l, m, k⟩ | ⟨l, k⟩ | _ | _
    · exact .inl rfl
    all_goals first
      | exact .inr ⟨_, .inl ⟨_, _, hp⟩⟩
      | exact .inr ⟨_, .inr ⟨_, hp⟩⟩
      | exact absurd ⟨t, hit, by simp [hp]⟩ this
  have hne : s.ts ≠ [] := by
    intro e; apply hn; intro t ht; simp [e] at ht
  obtain ⟨t, ht, hmax⟩ := exists_max (wantRank rk) s.ts hne
  -- the thread of greatest want is not finished
  have hnd : t.p ≠ .done := by
    intro hd
    apply hn
    intro u hu
    rcases hw u hu with h | ⟨l, ⟨m, k, h⟩ | ⟨k, h⟩⟩
    · exact h
    · have := hmax u hu; simp [wantRank, h, hd] at this
    · have := hmax u hu; simp [wantRank, h, hd] at this
  obtain ⟨l, hl⟩ : ∃ l, Waits t l := (hw t ht).resolve_left hnd
  have hrl : wantRank rk t = rk l + 1 := by
    rcases hl with ⟨m, k, h⟩ | ⟨k, h⟩ <;> simp [wantRank, h]
  -- whoever holds `l` is upgrading it
  have hup : ∀ u ∈ s.ts, ∀ m, (l, m) ∈ u.h → (∃ k, u.p = .upg l k) ∧ (l, Mode.up) ∈ u.h := by
    intro u hu m hm
    have ho := hi.ord u hu
    rcases hw u hu with h | ⟨l', ⟨m', k, h⟩ | ⟨k, h⟩⟩
    · rw [h] at ho; have ho : u.h = [] := ho; rw [ho] at hm; simp at hm
    · rw [h] at ho
      have h1 := ho.1 _ hm
      have h2 := hmax u hu
      rw [hrl] at h2
      simp [wantRank, h] at h2 h1; omega
    · rw [h] at ho
      by_cases e : l' = l
      · subst e; exact ⟨⟨k, h⟩, ho.1⟩
      · have h1 := ho.2.1 _ hm (fun e' => e e'.symm)
        have h2 := hmax u hu
        rw [hrl] at h2
        simp [wantRank, h] at h2 h1; omega
  by_cases hh : ∃ u ∈ s.ts, ∃ m, (l, m) ∈ u.h
  · -- a single thread upgrades, and can
    obtain ⟨u, hu, m, hm⟩ := hh
    obtain ⟨⟨k, hk⟩, hum⟩ := hup u hu m hm
    obtain ⟨i, hiu⟩ := idx u hu
    apply hno i
    refine ⟨u, hiu, ?_⟩
    simp only [hk]
    intro j v hv hj m' hm'
    have hvm := (hup v (mem_of_get? hv) m' hm').2
    have := hi.excl _ _ _ _ hiu hv (Ne.symm hj) l .up .up hum hvm
    simp [compat] at this
  · -- the lock is free: a waiting writer can take it, or else everyone can
    have hfree : ∀ m, Free s.ts l m := fun m u hu m' hm' => absurd ⟨u, hu, m', hm'⟩ hh
    by_cases hwr : ∃ u ∈ s.ts, u.asksWrite l
    · obtain ⟨u, hu, ⟨k, hk⟩ | ⟨k, hk⟩⟩ := hwr
      · obtain ⟨i, hiu⟩ := idx u hu
        apply hno i
        refine ⟨u, hiu, ?_⟩
        simp only [hk]
        exact ⟨hfree _, fun h => absurd rfl h⟩
      · have ho := hi.ord u hu
        rw [hk] at ho
        exact hh ⟨u, hu, _, ho.1⟩
    · obtain ⟨i, hit⟩ := idx t ht
      apply hno i
      rcases hl with ⟨m, k, h⟩ | ⟨k, h⟩
      · refine ⟨t, hit, ?_⟩
        simp only [h]
        exact ⟨hfree _, fun _ u hu ha => hwr ⟨u, hu, ha⟩⟩
      · exact absurd ⟨t, ht, .inr ⟨k, h⟩⟩ hwr

/-- A thread that can move although writers go first can move. -/
theorem MovesFair.step {s : Sys} {i : Nat} (h : MovesFair s i) : ∃ s', Step s i s' := by
  obtain ⟨⟨p, h⟩, ht, hp⟩ := h
  obtain ⟨c, ts⟩ := s
  cases p with
  | done => exact absurd hp id
  | panic => exact ⟨_, .panic ht⟩
  | look k => exact ⟨_, .look ht⟩
  | upd f k => exact ⟨_, .upd ht⟩
  | pick k => exact ⟨_, .pick true ht⟩
  | acq l m k => exact ⟨_, .acq ht hp.1⟩
  | upg l k => exact ⟨_, .upg ht hp⟩
  | down l k => exact ⟨_, .down ht⟩
  | rel l k => exact ⟨_, .rel ht⟩

/-! ## Runs are finite -/

/-- The rest of a program after one step. -/
inductive Next : Prog → Prog → Prop where
  | look {k} (c) : Next (k c) (.look k)
  | upd {f k} : Next k (.upd f k)
  | pick {k} (b) : Next (k b) (.pick k)
  | acq {l m k} : Next k (.acq l m k)
  | upg {l k} : Next k (.upg l k)
  | down {l k} : Next k (.down l k)
  | rel {l k} : Next k (.rel l k)
  | panic : Next .done .panic

theorem Next.acc (p : Prog) : Acc Next p := by
  induction p with
  | done => exact ⟨_, fun _ h => nomatch h⟩
  | panic => exact ⟨_, fun _ h => by cases h; exact ⟨_, fun _ h => nomatch h⟩⟩
  | look k ih => exact ⟨_, fun _ h => by cases h; exact ih _⟩
  | upd f k ih => exact ⟨_, fun _ h => by cases h; exact ih⟩
  | pick k ih => exact ⟨_, fun _ h => by cases h; exact ih _⟩
  | acq l m k ih => exact ⟨_, fun _ h => by cases h; exact ih⟩
  | upg l k ih => exact ⟨_, fun _ h => by cases h; exact ih⟩
  | down l k ih => exact ⟨_, fun _ h => by cases h; exact ih⟩
  | rel l k ih => exact ⟨_, fun _ h => by cases h; exact ih⟩

/-- One program of a list moves. -/
inductive NextL : List Prog → List Prog → Prop where
  | head {p q ps} : Next q p → NextL (q :: ps) (p :: ps)
  | tail {p ps qs} : NextL qs ps → NextL (p :: qs) (p :: ps)

theorem NextL.acc_cons {p : Prog} {ps : List Prog} (hp : Acc Next p) (hps : Acc NextL ps) : Acc NextL (p :: ps) := by
  induction hp generalizing ps with
  | intro p _ ihp =>
    induction hps with
    | intro ps hps ihps =>
      refine ⟨_, fun qs h => ?_⟩
      cases h with
      | head h => exact ihp _ h ⟨_, hps⟩
      | tail h => exact ihps _ h

theorem NextL.acc : ∀ ps, Acc NextL ps
  | [] => ⟨_, fun _ h => nomatch h⟩
  | p :: ps => NextL.acc_cons (Next.acc p) (NextL.acc ps)

theorem NextL.set : ∀ {ts : List Thr} {i : Nat} {t t' : Thr}, ts[i]? = some t → Next t'.p t.p →
    NextL ((ts.set i t').map Thr.p) (ts.map Thr.p)
  | [], _, _, _, h, _ => by simp at h
  | u :: us, 0, t, t', h, hn => by
    simp at h; subst h
    exact .head hn
  | u :: us, i + 1, t, t', h, hn => by
    simp at h
    exact .tail (NextL.set h hn)

theorem Step.next {s s' : Sys} {i : Nat} (h : Step s i s') : NextL (s'.ts.map Thr.p) (s.ts.map Thr.p) := by
  cases h with
  | look ht => exact NextL.set ht (.look _)
  | upd ht => exact NextL.set ht .upd
  | pick b ht => exact NextL.set ht (.pick b)
  | acq ht _ => exact NextL.set ht .acq
  | upg ht _ => exact NextL.set ht .upg
  | down ht => exact NextL.set ht .down
  | rel ht => exact NextL.set ht .rel
  | panic ht => exact NextL.set ht .panic

/-- No schedule goes on for ever: statements have no loops that wait for each other. -/
theorem no_infinite_run (f : Nat → Sys) : ¬ ∀ n, ∃ i, Step (f n) i (f (n + 1)) := by
  intro h
  have : ∀ ps, Acc NextL ps → ∀ n, (f n).ts.map Thr.p = ps → False := by
    intro ps ha
    induction ha with
    | intro ps _ ih =>
      intro n hn
      obtain ⟨i, hs⟩ := h n
      exact ih _ (hn ▸ hs.next) (n + 1) rfl
  exact this _ (NextL.acc _) 0 rfl

theorem Run.trans {s s' s'' : Sys} (h : Run s s') (h' : Run s' s'') : Run s s'' := by
  induction h' with
  | refl => exact h
  | tail _ hs ih => exact .tail ih hs

/-- Ordered threads can always all be run to their end. -/
theorem Inv.completes {rk : Lock → Nat} {s : Sys} (hi : Inv rk s) : ∃ s', Run s s' ∧ s'.finished := by
  have : ∀ ps, Acc NextL ps → ∀ s, Inv rk s → s.ts.map Thr.p = ps → ∃ s', Run s s' ∧ s'.finished := by
    intro ps ha
    induction ha with
    | intro ps _ ih =>
      intro s hi hs
      by_cases hf : s.finished
      · exact ⟨s, .refl s, hf⟩
      · obtain ⟨i, hm⟩ := hi.progress hf
        obtain ⟨s1, h1⟩ := hm.step
        obtain ⟨s2, h2, hf2⟩ := ih _ (hs ▸ h1.next) s1 (hi.step h1) rfl
        exact ⟨s2, (Run.tail (.refl s) h1).trans h2, hf2⟩
  exact this _ (NextL.acc _) s hi rfl

end Verif.Locks
