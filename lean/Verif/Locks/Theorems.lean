/-
C36: statements and tasks never wait for each other for ever; and the agreement of the two catalogue maps (C35) for
any number of clients at once.
-/
import Verif.Locks.Catalogue
namespace Verif.Locks

/-! ## No deadlock unless ALTER MODEL meets a statement that takes the maps in the other order -/

/-- C36 (partial). Any number of clients and background tasks, each running any sequence of statements, in any
schedule and with any outcomes of the writes: if no client runs ALTER MODEL, or none runs CREATE MODEL, DROP MODEL or the
forced DROP SPACE, then in every reachable state either all are finished or someone can move (even if locks let waiting
writers go first), and everybody can be run to the end. Missing: mixes of ALTER MODEL with those three, which
can deadlock (`C36_alter_model_deadlock_violated`). -/
theorem C36_no_deadlock_partial (c : Cat) (qs : List (List Stmt))
    (hq : (∀ q ∈ qs.flatten, q.modelsFirst = false) ∨ (∀ q ∈ qs.flatten, q.spacesFirst = false))
    (s : Sys) (hr : Run (start c qs) s) :
    (s.finished ∨ ∃ i, MovesFair s i) ∧ ¬ s.stuck ∧ ∃ s', Run s s' ∧ s'.finished := by
  have key : ∀ rk, (∀ q ∈ qs.flatten, Ordered rk [] q.prog) →
      (s.finished ∨ ∃ i, MovesFair s i) ∧ ¬ s.stuck ∧ ∃ s', Run s s' ∧ s'.finished := by
    intro rk ho
    have hi : Inv rk s := (start_inv fun q hm => ordered_client q fun x hx =>
      ho x (List.mem_flatten.2 ⟨q, hm, hx⟩)).run hr
    refine ⟨?_, ?_, hi.completes⟩
    · by_cases hf : s.finished
      · exact .inl hf
      · exact .inr (hi.progress hf)
    · intro hst
      obtain ⟨i, hm⟩ := hi.progress hst.1
      obtain ⟨s', hs⟩ := hm.step
      exact hst.2 i s' hs
  rcases hq with hq | hq
  · exact key (rank false) fun q hm => ordered_spaces_first q (hq q hm)
  · exact key (rank true) fun q hm => ordered_models_first q (hq q hm)

/-- C36. No schedule of any clients goes on for ever; so a client that is never finished is one that waits for ever. -/
theorem C36_every_run_ends (f : Nat → Sys) : ¬ ∀ n, ∃ i, Step (f n) i (f (n + 1)) :=
  no_infinite_run f

/-! ## ALTER MODEL deadlocks with CREATE MODEL, DROP MODEL and the forced DROP SPACE -/

/-- `q` is a statement that, on catalogue `c`, gets as far as asking for the model map while it holds the space map. -/
def Reaches (c : Cat) : Stmt → Prop
  | .createModel s m => ∃ ms, c.sp s = some ms ∧ m ∉ ms
  | .dropModel s m => ∃ ms, c.sp s = some ms ∧ m ∈ ms
  | .dropSpaceForce _ _ => True
  | _ => False

/-- Threads 0 and 1 wait for each other. -/
def Jam (s : Sys) : Prop :=
  ∃ k0 k1 rest, s.ts = ⟨.acq .spaces .read k0, [(.models, .write)]⟩ :: ⟨.acq .models .write k1, [(.spaces, .write)]⟩ :: rest

theorem Jam.no_spaces {s : Sys} (h : Jam s) (m : Mode) : ¬ Free s.ts .spaces m := by
  obtain ⟨k0, k1, rest, e⟩ := h
  intro hf
  have := hf ⟨.acq .models .write k1, [(.spaces, .write)]⟩ (by simp [e]) .write (by simp)
  cases m <;> simp [compat] at this

theorem Jam.no_models {s : Sys} (h : Jam s) (m : Mode) : ¬ Free s.ts .models m := by
  obtain ⟨k0, k1, rest, e⟩ := h
  intro hf
  have := hf ⟨.acq .spaces .read k0, [(.models, .write)]⟩ (by simp [e]) .write (by simp)
  cases m <;> simp [compat] at this

/-- A thread that asks for a lock moves only if the lock is free. -/
theorem Step.free {s s' : Sys} {i : Nat} {l : Lock} {m : Mode} {k : Prog} {h : List (Lock × Mode)} (hs : Step s i s')
    (ht : s.ts[i]? = some ⟨.acq l m k, h⟩) : Free s.ts l m := by
  cases hs with
  | acq ht' hf =>
    have e := Option.some.inj (ht'.symm.trans ht)
    injection e with e1 _
    injection e1 with e2 e3 _
    rw [← e2, ← e3]; exact hf
  | look ht' => cases ht'.symm.trans ht
  | upd ht' => cases ht'.symm.trans ht
  | pick _ ht' => cases ht'.symm.trans ht
  | upg ht' _ => cases ht'.symm.trans ht
  | down ht' => cases ht'.symm.trans ht
  | rel ht' => cases ht'.symm.trans ht
  | panic ht' => cases ht'.symm.trans ht

theorem Step.lt {s s' : Sys} {i : Nat} (hs : Step s i s') : i < s.ts.length := by
  cases hs with
  | acq ht _ => exact (List.getElem?_eq_some_iff.1 ht).1
  | look ht => exact (List.getElem?_eq_some_iff.1 ht).1
  | upd ht => exact (List.getElem?_eq_some_iff.1 ht).1
  | pick _ ht => exact (List.getElem?_eq_some_iff.1 ht).1
  | upg ht _ => exact (List.getElem?_eq_some_iff.1 ht).1
  | down ht => exact (List.getElem?_eq_some_iff.1 ht).1
  | rel ht => exact (List.getElem?_eq_some_iff.1 ht).1
  | panic ht => exact (List.getElem?_eq_some_iff.1 ht).1

theorem Jam.not01 {s s' : Sys} {i : Nat} (h : Jam s) (hs : Step s i s') : i ≠ 0 ∧ i ≠ 1 := by
  have h' := h
  obtain ⟨k0, k1, rest, e⟩ := h
  constructor <;> rintro rfl
  · exact h'.no_spaces _ (hs.free (by rw [e]; rfl))
  · exact h'.no_models _ (hs.free (by rw [e]; rfl))

theorem Step.others {s s' : Sys} {i j : Nat} (hs : Step s i s') (hj : j ≠ i) : s'.ts[j]? = s.ts[j]? := by
  cases hs <;> simp [Ne.symm hj]

theorem Jam.stay {s s' : Sys} (h : Jam s) (hr : Run s s') : Jam s' := by
  induction hr with
  | refl => exact h
  | tail _ hs ih =>
    obtain ⟨h0, h1⟩ := ih.not01 hs
    obtain ⟨k0, k1, rest, e⟩ := ih
    have e0 := hs.others (Ne.symm h0)
    have e1 := hs.others (Ne.symm h1)
    rw [e] at e0 e1
    rename_i s2 _ _
    obtain ⟨c2, ts2⟩ := s2
    match ts2, e0, e1 with
    | [], e0, _ => simp at e0
    | [_], _, e1 => simp at e1
    | a :: b :: rest', e0, e1 =>
      simp at e0 e1
      exact ⟨k0, k1, rest', by rw [e0, e1]⟩

theorem Run.one {s s' : Sys} {i : Nat} (h : Step s i s') : Run s s' := .tail (.refl s) h

/-- The three ways into the jam, with any further clients present. -/
theorem jam_reachable (c : Cat) (s m : String) (q : Stmt) (more : List (List Stmt)) (hm : c.md s m = true)
    (hq : Reaches c q) : ∃ st, Run (start c ([.alterModel s m] :: [q] :: more)) st ∧ Jam st := by
  let rest : List Thr := more.map fun q => ⟨client q, []⟩
  have hrest : ∀ t ∈ rest, t.h = [] := by
    intro t ht
    simp only [rest, List.mem_map] at ht
    obtain ⟨q, _, rfl⟩ := ht
    rfl
  have hfree : ∀ p0 p1 h0 h1 l md, (∀ x ∈ h0, x.1 ≠ l) → (∀ x ∈ h1, x.1 ≠ l) →
      Free (⟨p0, h0⟩ :: ⟨p1, h1⟩ :: rest) l md := by
    intro p0 p1 h0 h1 l md a0 a1 t ht m' hm'
    rcases List.mem_cons.1 ht with rfl | ht
    · exact absurd rfl (a0 _ hm')
    · rcases List.mem_cons.1 ht with rfl | ht
      · exact absurd rfl (a1 _ hm')
      · rw [hrest t ht] at hm'; simp at hm'
  -- ALTER MODEL takes the model map and finds the model
  obtain ⟨k0, r0⟩ : ∃ k0, Run (start c ([.alterModel s m] :: [q] :: more))
      ⟨c, ⟨.acq .spaces .read k0, [(.models, .write)]⟩ :: ⟨q.prog.andThen .done, []⟩ :: rest⟩ := by
    have r1 := Run.one (.acq (i := 0) (c := c) (ts := (start c ([.alterModel s m] :: [q] :: more)).ts)
      (l := .models) (m := .write) (h := []) rfl (hfree _ _ _ _ _ _ (by simp) (by simp)))
    have r2 := Run.tail r1 (.look (i := 0) rfl)
    simp only [hm, if_true] at r2
    exact ⟨_, r2⟩
  -- the other statement takes the space map
  have go : ∀ k, q.prog = .acq .spaces .write k →
      Run (start c ([.alterModel s m] :: [q] :: more))
        ⟨c, ⟨.acq .spaces .read k0, [(.models, .write)]⟩ :: ⟨k.andThen .done, [(.spaces, .write)]⟩ :: rest⟩ := by
    intro k hk
    rw [hk] at r0
    exact .tail r0 (.acq (i := 1) (ts := _ :: ⟨_, []⟩ :: rest) rfl (hfree _ _ _ _ _ _ (by simp) (by simp)))
  cases q <;> try exact absurd hq id
  case dropSpaceForce s' b =>
    exact ⟨_, go _ rfl, k0, _, rest, rfl⟩
  case dropModel s' m' =>
    obtain ⟨ms, hs, hmem⟩ := hq
    have r1 := Run.tail (go _ rfl) (.look (i := 1) rfl)
    simp only [hs] at r1
    rw [if_pos (by simpa using hmem)] at r1
    exact ⟨_, r1, k0, _, rest, rfl⟩
  case createModel s' m' =>
    obtain ⟨ms, hs, hmem⟩ := hq
    have r1 := Run.tail (go _ rfl) (.look (i := 1) rfl)
    simp only [hs] at r1
    rw [if_neg (by simpa using hmem)] at r1
    have r2 := Run.tail r1 (.pick (i := 1) (ts := _ :: ⟨_, _⟩ :: rest) true rfl)
    have r3 := Run.tail r2 (.pick (i := 1) (ts := _ :: ⟨_, _⟩ :: rest) true rfl)
    have r4 := Run.tail r3 (.acq (i := 1) (ts := _ :: ⟨_, _⟩ :: rest) rfl (hfree _ _ _ _ _ _ (by simp) (by simp)))
    have r5 := Run.tail r4 (.pick (i := 1) (ts := _ :: ⟨_, _⟩ :: rest) true rfl)
    have r6 := Run.tail r5 (.rel (i := 1) (ts := _ :: ⟨_, _⟩ :: rest) rfl)
    have r7 := Run.tail r6 (.upd (i := 1) (ts := _ :: ⟨_, _⟩ :: rest) rfl)
    exact ⟨_, r7, k0, _, rest, rfl⟩

/-- C36 (violated). On any catalogue, an ALTER MODEL on an existing model and a CREATE MODEL of a new model (in any
space), a DROP MODEL of an existing one or any forced DROP SPACE deadlock under some schedule: a state is reachable in
which neither is finished and neither can ever move. -/
theorem C36_alter_model_deadlock_violated (c : Cat) (s m : String) (q : Stmt) (hm : c.md s m = true)
    (hq : Reaches c q) : ∃ st, Run (start c [[.alterModel s m], [q]]) st ∧ st.stuck := by
  obtain ⟨st, hr, hj⟩ := jam_reachable c s m q [] hm hq
  have hlen : ∀ a b, Run a b → b.ts.length = a.ts.length := by
    intro a b h
    induction h with
    | refl => rfl
    | tail _ hs ih => rw [← ih]; cases hs <;> simp
  have hl := hlen _ _ hr
  refine ⟨st, hr, ?_, ?_⟩
  · obtain ⟨k0, k1, rest, e⟩ := hj
    intro hf
    have := hf ⟨.acq .spaces .read k0, [(.models, .write)]⟩ (by simp [e])
    cases this
  · intro i s' hs
    obtain ⟨h0, h1⟩ := hj.not01 hs
    have := hs.lt
    rw [hl] at this
    simp [start] at this
    omega

/-- The first thing a statement on rows does is to ask for the model map. -/
def Stmt.onRows : Stmt → Bool
  | .select _ _ _ | .selectAll _ _ | .insert _ _ | .delete _ | .update _ _ _ | .inspectModel
  | .taskWriteBatch _ _ | .taskRecoverModel _ | .taskGeneral _ => true
  | _ => false

theorem onRows_first {q : Stmt} (h : q.onRows = true) (b : Prog) : ∃ k, q.prog.andThen b = .acq .models .read k := by
  cases q <;> simp only [Stmt.onRows, Bool.false_eq_true] at h <;> exact ⟨_, rfl⟩

/-- C36 (violated). Once the two are jammed the whole database is: whatever else the other clients do, every client
whose next statement reads or writes rows, and the background task that would write them to disk, waits for ever. -/
theorem C36_deadlock_stops_all_rows_violated (c : Cat) (s m : String) (q : Stmt) (more : List (List Stmt))
    (hm : c.md s m = true) (hq : Reaches c q) :
    ∃ st, Run (start c ([.alterModel s m] :: [q] :: more)) st ∧
      ∀ st', Run st st' → ∀ (i : Nat) (x : Stmt) (xs : List Stmt), st'.ts[i]? = some ⟨client (x :: xs), []⟩ → x.onRows = true →
        ∀ st'', Run st' st'' → st''.ts[i]? = some ⟨client (x :: xs), []⟩ := by
  obtain ⟨st, hr, hj⟩ := jam_reachable c s m q more hm hq
  refine ⟨st, hr, fun st' h1 i x xs hx ho st'' h2 => ?_⟩
  have hj' := hj.stay h1
  induction h2 with
  | refl => exact hx
  | tail h3 hs ih =>
    rename_i j
    by_cases e : i = j
    · subst e
      obtain ⟨k, hk⟩ := onRows_first ho (client xs)
      have hk : client (x :: xs) = .acq .models .read k := hk
      rw [hk] at ih
      have hf := (hj'.stay h3).no_models .read
      exact absurd (hs.free ih) hf
    · rw [hs.others e]; exact ih

/-- A catalogue with one space and one model. -/
def cat1 : Cat := ⟨fun s => if s = "s" then some ["m"] else none, fun s m => s = "s" ∧ m = "m"⟩

theorem cat1_agree : Agree cat1 where
  iff s m := by
    by_cases h : s = "s" <;> simp [cat1, h]
  nodup s ms h := by
    by_cases e : s = "s" <;> simp [cat1, e] at h
    subst h; simp

-- the premise holds for each of the three statements
example : ∃ st, Run (start cat1 [[.alterModel "s" "m"], [.createModel "s" "n"]]) st ∧ st.stuck :=
  C36_alter_model_deadlock_violated cat1 "s" "m" _ (by decide) ⟨["m"], by decide, by decide⟩
example : ∃ st, Run (start cat1 [[.alterModel "s" "m"], [.dropModel "s" "m"]]) st ∧ st.stuck :=
  C36_alter_model_deadlock_violated cat1 "s" "m" _ (by decide) ⟨["m"], by decide, by decide⟩
example : ∃ st, Run (start cat1 [[.alterModel "s" "m"], [.dropSpaceForce "t" false]]) st ∧ st.stuck :=
  C36_alter_model_deadlock_violated cat1 "s" "m" _ (by decide) trivial

-- a mix the partial theorem covers, in a state where a row is locked by two threads and a third waits
example : ∃ st, Run (start cat1 [[.select 0 7 .nil], [.select 0 7 .nil], [.update 0 7 []], [.dropModel "s" "m"]]) st ∧
    (st.ts.map Thr.h = [[(.row 0 7, .read), (.models, .read)], [(.row 0 7, .up), (.models, .read)],
      [(.models, .read)], [(.spaces, .write)]]) ∧ ∃ s', Run st s' ∧ s'.finished := by
  let st0 := start cat1 [[.select 0 7 .nil], [.select 0 7 .nil], [.update 0 7 []], [.dropModel "s" "m"]]
  have r1 := Run.one (.acq (i := 0) (c := cat1) (ts := st0.ts) (l := .models) (m := .read) (h := []) rfl
    (by intro t ht; simp [st0, start] at ht; rcases ht with rfl | rfl | rfl <;> simp))
  have r2 := Run.tail r1 (.acq (i := 1) (l := .models) (m := .read) (h := []) rfl
    (by intro t ht; simp [st0, start] at ht; rcases ht with rfl | rfl | rfl | rfl <;> simp [compat]))
  have r3 := Run.tail r2 (.acq (i := 2) (l := .models) (m := .read) (h := []) rfl
    (by intro t ht; simp [st0, start] at ht; rcases ht with rfl | rfl | rfl | rfl <;> simp [compat]))
  have r4 := Run.tail r3 (.pick (i := 0) true rfl)
  have r5 := Run.tail r4 (.acq (i := 0) (l := .row 0 7) (m := .up) rfl
    (by intro t ht; simp [st0, start] at ht; rcases ht with rfl | rfl | rfl | rfl <;> simp [compat]))
  have r6 := Run.tail r5 (.pick (i := 0) false rfl)
  have r7 := Run.tail r6 (.down (i := 0) rfl)
  have r8 := Run.tail r7 (.pick (i := 1) true rfl)
  have r9 := Run.tail r8 (.acq (i := 1) (l := .row 0 7) (m := .up) rfl
    (by intro t ht; simp [st0, start, rehold] at ht; rcases ht with rfl | rfl | rfl | rfl <;> simp [compat]))
  have r10 := Run.tail r9 (.acq (i := 3) (l := .spaces) (m := .write) rfl
    (by intro t ht; simp [st0, start, rehold] at ht; rcases ht with rfl | rfl | rfl | rfl <;> simp))
  exact ⟨_, r10, rfl, (C36_no_deadlock_partial cat1 _ (.inl (by decide)) _ r10).2.2⟩

/-! ## The catalogue under concurrency -/

theorem good_client : ∀ (qs : List Stmt), (∀ q ∈ qs, q.breaksAgreement = false) → ∀ c, Good [] (client qs) c
  | [], _, _ => trivial
  | q :: qs, h, c => by
    have hb := good_client qs fun q' hq => h q' (List.mem_cons_of_mem _ hq)
    have hg := good_stmt q (h q (by simp)) c
    by_cases hm : q.modelsFirst = false
    · exact hg.andThen (ordered_spaces_first q hm) hb
    · refine hg.andThen (ordered_models_first q ?_) hb
      cases q <;> simp_all [Stmt.modelsFirst, Stmt.spacesFirst]

/-- C35 (partial). Any number of clients running any statements in any schedule, with any outcome of the writes except a
failing commit of a forced DROP SPACE: whenever nobody holds the space map for writing the models listed by the spaces
are exactly the models that exist, and no statement panics on a missing space or model. -/
theorem C35_agree_concurrently_partial (c : Cat) (hc : Agree c) (qs : List (List Stmt))
    (hq : ∀ q ∈ qs.flatten, q.breaksAgreement = false) (s : Sys) (hr : Run (start c qs) s) :
    ((∀ t ∈ s.ts, (Lock.spaces, Mode.write) ∉ t.h) → Agree s.c) ∧ ∀ t ∈ s.ts, t.p ≠ .panic := by
  have hi : CatInv (start c qs) := by
    refine ⟨?_, ?_, fun _ => hc⟩
    · intro i j t u ht _ _ l a b ha _
      have := mem_of_get? ht
      simp only [start, List.mem_map] at this
      obtain ⟨q, _, rfl⟩ := this
      simp at ha
    · intro t ht
      simp only [start, List.mem_map] at ht
      obtain ⟨q, hqm, rfl⟩ := ht
      exact good_client q (fun x hx => hq x (List.mem_flatten.2 ⟨q, hqm, hx⟩)) c
  have hi := hi.run hr
  refine ⟨hi.agree, fun t ht hp => ?_⟩
  have := hi.good t ht
  rw [hp] at this
  exact this

/-- C35 (violated). After a forced DROP SPACE whose commit failed, an ALTER MODEL on a model of that space panics. -/
theorem C35_alter_model_panics_violated (c : Cat) (s m : String) (ms : List String) (hs : c.sp s = some ms)
    (hm : c.md s m = true) :
    ∃ st, Run (start c [[.dropSpaceForce s true, .alterModel s m]]) st ∧ ∃ t ∈ st.ts, t.p = .panic := by
  have r1 := Run.one (.acq (i := 0) (c := c) (ts := (start c [[.dropSpaceForce s true, .alterModel s m]]).ts)
    (l := .spaces) (m := .write) (h := []) rfl (by intro t ht; simp [start] at ht; subst ht; simp))
  have r2 := Run.tail r1 (.acq (i := 0) (l := .models) (m := .write) rfl
    (by intro t ht; simp [start] at ht; subst ht; simp))
  have r3 := Run.tail r2 (.look (i := 0) rfl)
  simp only [hs] at r3
  have r4 := Run.tail r3 (.upd (i := 0) rfl)
  have r5 := Run.tail r4 (.pick (i := 0) false rfl)
  have r6 := Run.tail r5 (.rel (i := 0) rfl)
  have r7 := Run.tail r6 (.rel (i := 0) rfl)
  have r8 := Run.tail r7 (.acq (i := 0) (l := .models) (m := .write) rfl
    (by intro t ht; simp [start, unhold] at ht; subst ht; simp))
  have r9 := Run.tail r8 (.look (i := 0) rfl)
  have e : (c.setSpace s none).md s m = true := hm
  simp only [e, if_true] at r9
  have r10 := Run.tail r9 (.acq (i := 0) (l := .spaces) (m := .read) rfl
    (by intro t ht; simp [start, unhold] at ht; subst ht; simp))
  have r11 := Run.tail r10 (.look (i := 0) rfl)
  have e' : (c.setSpace s none).sp s = none := by simp [Cat.setSpace]
  simp only [e'] at r11
  exact ⟨_, r11, ⟨.panic, _⟩, List.mem_iff_getElem?.2 ⟨0, rfl⟩, rfl⟩

example : ∃ st, Run (start cat1 [[.dropSpaceForce "s" true, .alterModel "s" "m"]]) st ∧ ∃ t ∈ st.ts, t.p = .panic :=
  C35_alter_model_panics_violated cat1 "s" "m" ["m"] (by decide) (by decide)

-- two clients that create and drop at once
example (s : Sys) (hr : Run (start cat1 [[.createSpace "t", .createModel "t" "x"], [.dropSpaceForce "s" false]]) s)
    (hn : ∀ t ∈ s.ts, (Lock.spaces, Mode.write) ∉ t.h) : Agree s.c :=
  (C35_agree_concurrently_partial cat1 cat1_agree _ (by decide) s hr).1 hn

end Verif.Locks
