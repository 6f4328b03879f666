import Verif.Bench.Theorems
/-!
C72 for the other engine of the benchmark (`--engine rookie`, /repo/sky-bench/src/runtime/rookie.rs), which has threads in place of tasks. Each
thread has a connection. The steps are those of `Bench/Model`, with two differences: a thread looks at the flag before it takes its first
position (lines 182-183), and at the end the threads are joined (lines 367-378).
-/
namespace Verif.Bench

/-- `seen`: whether all was well when a thread looked at the flag for the first time in this run (`global_okay`, line 182). -/
structure RSt where
  base : St
  seen : List Bool

/-- A thread (rookie.rs:164-230). The start lock is that of lines 70-72 and 180; a panic gives it back without poisoning it, since it is
locked for reading. -/
def rworkStep (width : Nat) (r : RSt) (i : Nat) : W → Option RSt
  | .got n => some ⟨r.base.to i (.draw n 0), r.seen.set i (!r.base.exit)⟩
  | .drawn n 0 p =>
    if r.seen[i]? = some true then some { r with base := r.base.to i (if p = 0 then .finish n 0 else .query n 0 p) }
    else some { r with base := r.base.to i (.wait n) }
  | w => (workStep width r.base i w).map fun s => { r with base := s }

/-- The main thread (`blocking_bombard`, rookie.rs:285-364, and `bench_rookie`, bench.rs:316-338) does what the main task does. -/
def rstep (width n count : Nat) (r : RSt) : Act → Option RSt
  | .go i => (r.base.ws[i]?).bind (rworkStep width r i)
  | a => (step width n count r.base a).map fun s => { r with base := s }

def rrun (width n count : Nat) (r : RSt) : List Act → Option RSt
  | [] => some r
  | a :: as => (rstep width n count r a).bind fun r => rrun width n count r as

def rstart (n : Nat) : RSt := ⟨start n, List.replicate n true⟩

/-- `Drop for BombardPool` (rookie.rs:367-378), before the result or the error is reported (bench.rs:129-156): all threads are told to leave and
are joined, once they have done the tasks that they were sent. `false`: a thread has panicked, and the `unwrap` in line 371 or in line 374
panics too, so that nothing is reported and the space of the benchmark stays. -/
def poolDrop (s : St) : Option Bool :=
  if s.main.ended ∧ s.ws.all (fun w => w == .wait s.main.tasks || w == .panicked) then some (!s.ws.contains .panicked) else none

/-! ### Against the other engine -/

/-- What a thread has seen was so. -/
structure Seen (r : RSt) : Prop where
  len : r.seen.length = r.base.ws.length
  draw : ∀ i n : Nat, r.base.ws[i]? = some (.draw n 0) → r.seen[i]? ≠ some true → r.base.exit = true
  drawn : ∀ i n p : Nat, r.base.ws[i]? = some (.drawn n 0 p) → r.seen[i]? ≠ some true → r.base.exit = true

/-- A thread goes on although the flag has been set since it looked. -/
def Late (s : St) (a : Act) (s' : St) : Prop :=
  s.exit = true ∧ ∃ i n p, a = .go i ∧ s.ws[i]? = some (.drawn n 0 p) ∧ s' = s.to i (if p = 0 then .finish n 0 else .query n 0 p)

theorem step_mono {width N count : Nat} {s s' : St} {a : Act} (hI : Inv width N count s) (h : step width N count s a = some s')
    (he : s.exit = true) : s'.exit = true := by
  rw [step_exit hI h, he]; rfl

/-- Any step of a thread other than those two. -/
theorem work_other {width : Nat} {s s' : St} {i : Nat} {w : W} (hw : s.ws[i]? = some w) (h : workStep width s i w = some s')
    (hg : ∀ n, w ≠ .got n) (hd : ∀ n d, w ≠ .draw n d) : ∃ w', s'.ws = s.ws.set i w' ∧ (∀ n, w' ≠ .draw n 0) ∧ ∀ n p, w' ≠ .drawn n 0 p := by
  cases w with
  | wait n => simp only [workStep] at h; split at h <;> cases h; exact ⟨_, rfl, by simp, by simp⟩
  | got n => exact absurd rfl (hg n)
  | draw n d => exact absurd rfl (hd n d)
  | drawn n d p =>
    simp only [workStep] at h
    split at h
    · cases h; exact ⟨_, rfl, by simp, by simp⟩
    · split at h <;> cases h <;> exact ⟨_, rfl, by simp, by simp⟩
  | query n d p => simp only [workStep] at h; split at h <;> cases h <;> exact ⟨_, rfl, by simp, by simp⟩
  | finish n d => simp only [workStep] at h; split at h <;> cases h <;> exact ⟨_, rfl, by simp, by simp⟩
  | sent n => cases h; exact ⟨_, rfl, by simp, by simp⟩
  | panicked => cases h

/-- A thread changes to something that is not at its first position. -/
theorem Seen.set {r : RSt} {s' : St} (hS : Seen r) {i : Nat} {w' : W} (hws : s'.ws = r.base.ws.set i w') (h1 : ∀ n, w' ≠ .draw n 0)
    (h2 : ∀ n p, w' ≠ .drawn n 0 p) (he : r.base.exit = true → s'.exit = true) : Seen ⟨s', r.seen⟩ := by
  refine ⟨by simp [hws, hS.len], fun j n hj hs => ?_, fun j n p hj hs => ?_⟩
  · simp only [hws] at hj
    rcases mem_set hj with ⟨_, h⟩ | ⟨_, hj⟩
    · exact absurd h.symm (h1 n)
    · exact he (hS.draw j n hj hs)
  · simp only [hws] at hj
    rcases mem_set hj with ⟨_, h⟩ | ⟨_, hj⟩
    · exact absurd h.symm (h2 n p)
    · exact he (hS.drawn j n p hj hs)

/-- The main thread, and errors, do not touch what is being drawn. -/
theorem Seen.same {r : RSt} {s' : St} (hS : Seen r) (hws : s'.ws = r.base.ws) (he : r.base.exit = true → s'.exit = true) : Seen ⟨s', r.seen⟩ :=
  ⟨by rw [hws]; exact hS.len, fun j n hj hs => he (hS.draw j n (hws ▸ hj) hs), fun j n p hj hs => he (hS.drawn j n p (hws ▸ hj) hs)⟩

theorem rstep_cases {width N count : Nat} {r r' : RSt} {a : Act} (hI : Inv width N count r.base) (hS : Seen r)
    (h : rstep width N count r a = some r') :
    Seen r' ∧ (step width N count r.base a = some r'.base ∨ Late r.base a r'.base) := by
  have other : ∀ {s' : St}, step width N count r.base a = some s' → r.base.exit = true → s'.exit = true := fun h => step_mono hI h
  cases a with
  | main =>
    simp only [rstep, Option.map_eq_some_iff] at h
    obtain ⟨s', h, rfl⟩ := h
    refine ⟨hS.same ?_ (other h), .inl h⟩
    simp only [step, mainStep] at h
    split at h
    · split at h <;> cases h; rfl
    · split at h
      · cases h; rfl
      · cases h; rfl
      · split at h <;> cases h; rfl
    · cases h
  | err i b =>
    simp only [rstep, Option.map_eq_some_iff] at h
    obtain ⟨s', h, rfl⟩ := h
    have hm := other h
    refine ⟨?_, .inl h⟩
    simp only [step] at h
    split at h
    · rename_i n d p hw
      cases h
      refine hS.set (i := i) (w' := .wait n) ?_ (by simp) (by simp) hm
      cases b <;> rfl
    · cases h
  | go i =>
    simp only [rstep] at h
    cases hw : r.base.ws[i]? with
    | none => rw [hw] at h; cases h
    | some w =>
      rw [hw] at h
      simp only [Option.bind_some] at h
      have lift : ∀ {s' : St}, workStep width r.base i w = some s' → step width N count r.base (.go i) = some s' := by
        intro s' h; simp only [step, hw, Option.bind_some]; exact h
      have plain : (∀ n, w ≠ .got n) → (∀ n p, w ≠ .drawn n 0 p) → (∀ n d, w ≠ .draw n d) →
          (workStep width r.base i w).map (fun s => { r with base := s }) = some r' →
          Seen r' ∧ (step width N count r.base (.go i) = some r'.base ∨ Late r.base (.go i) r'.base) := by
        intro h1 _ h3 hh
        simp only [Option.map_eq_some_iff] at hh
        obtain ⟨s', hh, rfl⟩ := hh
        obtain ⟨w', e1, e2, e3⟩ := work_other hw hh h1 h3
        exact ⟨hS.set e1 e2 e3 (other (lift hh)), .inl (lift hh)⟩
      cases w with
      | got n =>
        simp only [rworkStep] at h
        cases h
        refine ⟨⟨by simp [St.to, hS.len], fun j m hj hs => ?_, fun j m p hj hs => ?_⟩, .inl (lift rfl)⟩
        · simp only [St.to] at hj ⊢
          rcases mem_set hj with ⟨rfl, h⟩ | ⟨hji, hj⟩
          · have hlt : j < r.seen.length := by
              rw [hS.len]; exact (List.getElem?_eq_some_iff.1 hw).1
            simp only [List.getElem?_set_self hlt, ne_eq, Option.some.injEq] at hs
            cases hex : r.base.exit with
            | true => rfl
            | false => rw [hex] at hs; exact absurd rfl hs
          · exact hS.draw j m hj (by simpa [List.getElem?_set_ne (Ne.symm hji)] using hs)
        · simp only [St.to] at hj ⊢
          rcases mem_set hj with ⟨rfl, h⟩ | ⟨hji, hj⟩
          · cases h
          · exact hS.drawn j m p hj (by simpa [List.getElem?_set_ne (Ne.symm hji)] using hs)
      | draw n d =>
        simp only [rworkStep, workStep, Option.map_some, Option.some.injEq] at h
        subst h
        refine ⟨⟨by simp [St.to, hS.len], fun j m hj hs => ?_, fun j m p hj hs => ?_⟩, .inl (lift rfl)⟩
        · simp only [St.to] at hj ⊢
          rcases mem_set hj with ⟨rfl, h⟩ | ⟨hji, hj⟩
          · cases h
          · exact hS.draw j m hj hs
        · simp only [St.to] at hj ⊢
          rcases mem_set hj with ⟨rfl, h⟩ | ⟨hji, hj⟩
          · cases h
            exact hS.draw j _ hw hs
          · exact hS.drawn j m p hj hs
      | drawn n d p =>
        cases d with
        | zero =>
          simp only [rworkStep] at h
          split at h
          · rename_i hs
            cases h
            refine ⟨hS.set (i := i) (w' := if p = 0 then .finish n 0 else .query n 0 p) rfl (by intro m; split <;> simp)
              (by intro m q; split <;> simp) (fun h => h), ?_⟩
            cases hex : r.base.exit with
            | true => exact .inr ⟨hex, i, n, p, rfl, hw, rfl⟩
            | false =>
              refine .inl (lift ?_)
              simp only [workStep, hex, Bool.false_eq_true, if_false]
              split <;> rfl
          · rename_i hs
            cases h
            refine ⟨hS.set (i := i) (w' := .wait n) rfl (by simp) (by simp) (fun h => h), .inl (lift ?_)⟩
            have hex := hS.drawn i n p hw hs
            simp only [workStep, hex, if_true]
        | succ d => exact plain (by simp) (by simp) (by simp) h
      | wait n => exact plain (by simp) (by simp) (by simp) h
      | query n d p => exact plain (by simp) (by simp) (by simp) h
      | finish n d => exact plain (by simp) (by simp) (by simp) h
      | sent n => exact plain (by simp) (by simp) (by simp) h
      | panicked => exact plain (by simp) (by simp) (by simp) h

theorem late_inv {width N count : Nat} {s s' : St} {a : Act} (hI : Inv width N count s) (h : Late s a s') : Inv width N count s' := by
  obtain ⟨_, i, n, p, rfl, hw, rfl⟩ := h
  have hok := hI.ok i _ hw
  by_cases hp : p = 0
  · rw [if_pos hp]
    exact hI.quiet hw hok (.inl (by simp [W.hand, hp])) (.inl rfl) (.inl rfl) (fun _ => .inl (by simp [W.empty, hp]))
  · rw [if_neg hp]
    exact hI.quiet hw hok (.inl (by simp [W.hand, hp])) (.inl rfl) (.inl rfl) (fun h => by cases h)

theorem late_exit {s s' : St} {a : Act} (h : Late s a s') : a.isErr = false ∧ s'.exit = true := by
  obtain ⟨he, i, n, p, rfl, hw, rfl⟩ := h
  exact ⟨rfl, he⟩

theorem late_cost {N count : Nat} {s s' : St} {a : Act} (h : Late s a s') : s'.cost N count < s.cost N count := by
  obtain ⟨_, i, n, p, rfl, hw, rfl⟩ := h
  by_cases hp : p = 0
  · rw [if_pos hp]
    have := sum_set (f := W.cost s.main.tasks) (w' := .finish n 0) hw
    simp only [W.cost, if_pos hp] at this
    simp only [St.cost, St.to]
    omega
  · rw [if_neg hp]
    have := sum_set (f := W.cost s.main.tasks) (w' := .query n 0 p) hw
    simp only [W.cost, if_neg hp] at this
    simp only [St.cost, St.to]
    omega

/-- The invariants, the flag and the number of steps of a run; without errors it is a run of the other engine. -/
theorem rrun_facts {width N count : Nat} : ∀ {as : List Act} {r r' : RSt}, Inv width N count r.base → Seen r → rrun width N count r as = some r' →
    Inv width N count r'.base ∧ Seen r' ∧ r'.base.exit = (r.base.exit || as.any Act.isErr) ∧
    as.length + r'.base.cost N count ≤ r.base.cost N count ∧
    (r'.base.exit = false → run width N count r.base as = some r'.base)
  | [], r, r', hI, hS, h => by cases h; exact ⟨hI, hS, by simp, by simp, fun _ => rfl⟩
  | a :: as, r, r', hI, hS, h => by
    simp only [rrun] at h
    cases hs : rstep width N count r a with
    | none => rw [hs] at h; cases h
    | some q =>
      rw [hs] at h
      simp only [Option.bind_some] at h
      obtain ⟨hS', hc⟩ := rstep_cases hI hS hs
      rcases hc with hc | hc
      · obtain ⟨f1, f2, f3, f4, f5⟩ := rrun_facts (step_inv hI hc) hS' h
        refine ⟨f1, f2, ?_, ?_, fun he => ?_⟩
        · rw [f3, step_exit hI hc, List.any_cons, Bool.or_assoc]
        · have := step_cost hI hc
          simp only [List.length_cons]; omega
        · simp only [run, hc, Option.bind_some]; exact f5 he
      · obtain ⟨f1, f2, f3, f4, f5⟩ := rrun_facts (late_inv hI hc) hS' h
        obtain ⟨e1, e2⟩ := late_exit hc
        refine ⟨f1, f2, ?_, ?_, fun he => ?_⟩
        · rw [f3, e2, hc.1]; rfl
        · have := late_cost (N := N) (count := count) hc
          simp only [List.length_cons]; omega
        · rw [f3, e2] at he; cases he

theorem rstart_seen (N : Nat) : Seen (rstart N) := by
  refine ⟨by simp [rstart, start], fun i n h => ?_, fun i n p h => ?_⟩
  · have := List.mem_iff_getElem?.2 ⟨_, h⟩
    simp [rstart, start] at this
  · have := List.mem_iff_getElem?.2 ⟨_, h⟩
    simp [rstart, start] at this

/-! ### The theorems -/

/-- `C72_each_query_once` for the engine with threads. -/
theorem C72_rookie_each_query_once {width N count : Nat} (hN : 0 < N) {as : List Act} {r : RSt}
    (h : rrun width N count (rstart N) as = some r) :
    r.base.log.Nodup ∧ r.base.log.Pairwise (fun a b => a.1 ≤ b.1) ∧ (∀ e ∈ r.base.log, e.1 < 4 ∧ 1 ≤ e.2 ∧ e.2 ≤ count) ∧
    (r.base.main = .done → as.any Act.isErr = false ∧ (∀ k p, k < 4 → 1 ≤ p → p ≤ count → (k, p) ∈ r.base.log) ∧ r.base.tbl = fun _ => none) := by
  obtain ⟨hI, _, _, _, hrun⟩ := rrun_facts (start_inv width count hN) (rstart_seen N) h
  refine ⟨hI.nodup, hI.sorted, fun e he => ?_, fun hd => ?_⟩
  · have := hI.range e he
    have := hI.four.1
    omega
  · exact (C72_each_query_once hN (hrun (hI.done hd).1)).2.2.2 hd

/-- Without errors the main thread does not report one; after an error it does not print statistics. -/
theorem C72_rookie_errors {width N count : Nat} (hN : 0 < N) {as : List Act} {r : RSt} (h : rrun width N count (rstart N) as = some r) :
    (as.any Act.isErr = false → false ∉ r.base.inbox ∧ ∀ k, r.base.main ≠ .failed k) ∧ (as.any Act.isErr = true → r.base.main ≠ .done) ∧
    (as.any Act.isErr = true → false ∈ r.base.inbox ∨ ∃ k, r.base.main = .failed k) := by
  obtain ⟨hI, _, hx, _, _⟩ := rrun_facts (start_inv width count hN) (rstart_seen N) h
  have hx : r.base.exit = as.any Act.isErr := hx.trans (by simp [rstart, start])
  refine ⟨fun h0 => hI.good (hx.trans h0), fun h1 hd => ?_, fun h1 => hI.bad (hx.trans h1)⟩
  have := (hI.done hd).1
  rw [hx, h1] at this; cases this

/-- Every interleaving ends. -/
theorem C72_rookie_bounded {width N count : Nat} (hN : 0 < N) {as : List Act} {r : RSt} (h : rrun width N count (rstart N) as = some r) :
    as.length ≤ 28 * N + 16 * count + 8 := by
  obtain ⟨_, _, _, hc, _⟩ := rrun_facts (start_inv width count hN) (rstart_seen N) h
  have e : (rstart N).base.cost N count = 4 * (7 * N + 4 * count + 2) := by
    simp [St.cost, rstart, start, Main.begins, Main.one, Main.tasks, W.cost]
  rw [e] at hc
  omega

/-- A thread that has something to do can do it. -/
theorem rwork_some {width : Nat} {r : RSt} {i : Nat} {w : W} (hw : ∀ n, w = .wait n → n < r.base.main.tasks) (hp : w ≠ .panicked) : ∃ r', rworkStep width r i w = some r' := by
  cases w with
  | wait n => simp only [rworkStep, workStep, if_pos (hw n rfl)]; exact ⟨_, rfl⟩
  | got n => exact ⟨_, rfl⟩
  | draw n d => exact ⟨_, rfl⟩
  | drawn n d p =>
    cases d with
    | zero => simp only [rworkStep]; split <;> exact ⟨_, rfl⟩
    | succ d =>
      simp only [rworkStep, workStep]
      split
      · exact ⟨_, rfl⟩
      · split <;> exact ⟨_, rfl⟩
  | query n d p => simp only [rworkStep, workStep]; split <;> exact ⟨_, rfl⟩
  | finish n d => simp only [rworkStep, workStep]; split <;> exact ⟨_, rfl⟩
  | sent n => exact ⟨_, rfl⟩
  | panicked => exact absurd rfl hp

/-- As long as no thread has panicked, the benchmark goes on until the threads are joined and the result or the error is reported. With
`C72_rookie_bounded` it comes to its end. -/
theorem C72_rookie_ends_partial {width N count : Nat} (hN : 0 < N) {as : List Act} {r : RSt} (h : rrun width N count (rstart N) as = some r)
    (hp : .panicked ∉ r.base.ws) :
    poolDrop r.base = some true ∨ ∃ a r', a.isErr = false ∧ rstep width N count r a = some r' := by
  obtain ⟨hI, _, _, _, _⟩ := rrun_facts (start_inv width count hN) (rstart_seen N) h
  by_cases hw : ∀ w ∈ r.base.ws, w = .wait r.base.main.tasks
  · by_cases hm : r.base.main.ended = true
    · left
      have ha : (r.base.ws.all fun w => w == .wait r.base.main.tasks || w == .panicked) = true := by
        simp only [List.all_eq_true, Bool.or_eq_true, beq_iff_eq]
        exact fun w hm => .inl (hw w hm)
      have hn : r.base.ws.contains .panicked = false := by
        simpa using hp
      simp only [poolDrop, hm, ha, and_self, if_true, hn, Bool.not_false]
    · right
      obtain ⟨⟨main, target, exit, ws, inbox, tbl, log⟩, seen⟩ := r
      refine ⟨.main, ?_⟩
      simp only [rstep]
      cases main with
      | begin k =>
        have hno : ¬ (ws.any W.holds = true) := by
          simp only [List.any_eq_true, not_exists, not_and]
          intro w hw'
          rw [hw w hw']
          simp [W.holds]
        simp only [step, mainStep, if_neg hno]
        exact ⟨_, rfl, rfl⟩
      | collect k rem =>
        obtain ⟨c1, c2, c3, c4⟩ := hI.collect k rem rfl
        have hs := sum_const (f := W.rep (k + 1)) (c := 1) (ws := ws) (fun w hw' => by rw [hw w hw']; simp [W.rep, Main.tasks])
        have hlen : ws.length = N := hI.len
        cases inbox with
        | nil =>
          cases exit with
          | false =>
            have c4 : 0 + N = (ws.map (W.rep (k + 1))).sum + rem := c4 rfl
            omega
          | true =>
            rcases hI.bad rfl with h | ⟨_, h⟩
            · simp at h
            · cases h
        | cons b rest => cases b <;> exact ⟨_, rfl, rfl⟩
      | done => exact absurd rfl hm
      | failed k => exact absurd rfl hm
      | dead k => exact absurd rfl hm
  · right
    simp only [Classical.not_forall] at hw
    obtain ⟨w, hmem, hne⟩ := hw
    obtain ⟨i, hi⟩ := List.mem_iff_getElem?.1 hmem
    have hok := hI.ok i w hi
    obtain ⟨r', hr⟩ := rwork_some (width := width) (r := r) (i := i) (w := w) (fun n hn => by
      subst hn
      have : n ≠ r.base.main.tasks := fun e => hne (by rw [e])
      simp only [W.ok] at hok
      omega) (fun e => hp (e ▸ hmem))
    exact ⟨.go i, r', rfl, by simp only [rstep, hi, Option.bind_some, hr]⟩

/-- **Violation.** With fewer queries than threads the benchmark never ends. -/
theorem C72_rookie_fewer_queries_violated {width N count : Nat} (h0 : 0 < count) (hlt : count < N) {as : List Act} {r : RSt}
    (h : rrun width N count (rstart N) as = some r) (he : as.any Act.isErr = false) : r.base.main.ended = false := by
  obtain ⟨_, _, hx, _, hrun⟩ := rrun_facts (start_inv width count (by omega)) (rstart_seen N) h
  exact C72_fewer_queries_violated h0 hlt (hrun (hx.trans (by simp [rstart, start, he]))) he

/-- **Violation.** An error is not reported if a thread has got no query: both threads look at the flag, the first one takes the only query, the
second one panics; the connection of the first one fails, the main thread receives the error, and joining the second one panics. The space
`bench` is left behind, so that the next benchmark fails too (bench.rs:125). -/
theorem C72_rookie_report_violated : ∃ as r, rrun 1 2 1 (rstart 2) as = some r ∧ r.base.main = .failed 0 ∧ poolDrop r.base = some false := by
  have h : ((rrun 1 2 1 (rstart 2) ([.main] ++ List.replicate 4 (.go 0) ++ List.replicate 5 (.go 1) ++ [.err 0 true, .main])).map fun r =>
    (r.base.main, poolDrop r.base)) = some (.failed 0, some false) := by decide +kernel
  simp only [Option.map_eq_some_iff, Prod.mk.injEq] at h
  obtain ⟨r, h1, h2, h3⟩ := h
  exact ⟨_, r, h1, h2, h3⟩

/-- Three queries and two threads: statistics. -/
example : ((rrun 2 2 3 (rstart 2) (both ++ both ++ both ++ both)).map fun r => (r.base.main, poolDrop r.base, r.base.log)) =
    some (.done, some true, [(0, 3), (0, 1), (0, 2), (1, 3), (1, 1), (1, 2), (2, 3), (2, 1), (2, 2), (3, 3), (3, 1), (3, 2)]) := by decide +kernel

/-- A thread that has looked at the flag runs its first query even if another one has failed since; then it stops. The error is reported. -/
example : ((rrun 1 2 3 (rstart 2) ([.main] ++ List.replicate 4 (.go 0) ++ [.go 1, .go 1, .err 0 true] ++ List.replicate 5 (.go 1) ++
    [.main])).map fun r => (r.base.main, r.base.ws, poolDrop r.base, r.base.log)) =
    some (.failed 0, [.wait 1, .wait 1], some true, [(0, 3), (0, 2)]) := by decide +kernel

end Verif.Bench
