import Verif.Bench.Steps
/-!
C72: the benchmark runs every query once, checks every answer, reports errors and ends.
-/
namespace Verif.Bench

/-- Something goes wrong with a connection. -/
def Act.isErr : Act → Bool
  | .err .. => true
  | _ => false

/-- The main task has come to its end. -/
def Main.ended : Main → Bool
  | .done | .failed _ | .dead _ => true
  | _ => false

/-! ### The table outside the range of the keys -/

theorem exec_other {width k p : Nat} {t : Tbl} {x : Bytes} (h : x ≠ fmtPk width p) : (exec width k p t).1 x = t x := by
  simp only [exec]
  split <;> (try split) <;> simp [h]

theorem step_other {width N count : Nat} {s s' : St} (hI : Inv width N count s) {a : Act} (h : step width N count s a = some s') {x : Bytes}
    (hx : ∀ p, 1 ≤ p → p ≤ count → x ≠ fmtPk width p) : s'.tbl x = s.tbl x := by
  have hq : ∀ {i n d p : Nat}, s.ws[i]? = some (.query n d p) → x ≠ fmtPk width p := by
    intro i n d p hw
    have := hI.hand i _ p hw rfl
    exact hx p (by omega) this.2.1
  cases a with
  | main =>
    simp only [step, mainStep] at h
    split at h
    · split at h <;> cases h; rfl
    · split at h
      · cases h; rfl
      · cases h; rfl
      · split at h <;> cases h; rfl
    · cases h
  | go i =>
    simp only [step] at h
    cases hw : s.ws[i]? with
    | none => rw [hw] at h; cases h
    | some w =>
      rw [hw] at h
      simp only [Option.bind_some] at h
      cases w with
      | query n d p =>
        have ho := exec_other (k := n - 1) (t := s.tbl) (hq hw)
        simp only [workStep] at h
        split at h
        · rename_i t ht; cases h; rw [ht] at ho; exact ho
        · rename_i t ht; cases h; rw [ht] at ho; exact ho
      | wait n => simp only [workStep] at h; split at h <;> cases h; rfl
      | got n => cases h; rfl
      | draw n d => cases h; rfl
      | drawn n d p =>
        simp only [workStep] at h
        split at h
        · cases h; rfl
        · split at h <;> cases h <;> rfl
      | finish n d => simp only [workStep] at h; split at h <;> cases h <;> rfl
      | sent n => cases h; rfl
      | panicked => cases h
  | err i b =>
    simp only [step] at h
    split at h
    · rename_i n d p hw
      cases h
      cases b
      · rfl
      · exact exec_other (hq hw)
    · cases h

theorem run_other {width N count : Nat} {x : Bytes} (hx : ∀ p, 1 ≤ p → p ≤ count → x ≠ fmtPk width p) :
    ∀ {as : List Act} {s s' : St}, Inv width N count s → run width N count s as = some s' → s'.tbl x = s.tbl x
  | [], s, s', hI, h => by cases h; rfl
  | a :: as, s, s', hI, h => by
    simp only [run] at h
    cases hs : step width N count s a with
    | none => rw [hs] at h; cases h
    | some t =>
      rw [hs] at h
      rw [run_other hx (step_inv hI hs) h, step_other hI hs hx]

/-! ### The exit flag -/

theorem step_exit {width N count : Nat} {s s' : St} (hI : Inv width N count s) {a : Act} (h : step width N count s a = some s') :
    s'.exit = (s.exit || a.isErr) := by
  cases a with
  | main =>
    simp only [Act.isErr, Bool.or_false]
    simp only [step, mainStep] at h
    split at h
    · split at h <;> cases h; rfl
    · split at h
      · cases h; rfl
      · cases h; rfl
      · split at h <;> cases h; rfl
    · cases h
  | go i =>
    simp only [Act.isErr, Bool.or_false]
    simp only [step] at h
    cases hw : s.ws[i]? with
    | none => rw [hw] at h; cases h
    | some w =>
      rw [hw] at h
      simp only [Option.bind_some] at h
      cases w with
      | query n d p =>
        simp only [workStep] at h
        split at h
        · cases h; rfl
        · rename_i t ht
          cases h
          cases hex : s.exit with
          | true => rfl
          | false =>
            obtain ⟨t', h1, _⟩ := exec_good hI hex hw
            rw [ht] at h1; cases h1
      | wait n => simp only [workStep] at h; split at h <;> cases h; rfl
      | got n => cases h; rfl
      | draw n d => cases h; rfl
      | drawn n d p =>
        simp only [workStep] at h
        split at h
        · cases h; rfl
        · split at h <;> cases h <;> rfl
      | finish n d => simp only [workStep] at h; split at h <;> cases h <;> rfl
      | sent n => cases h; rfl
      | panicked => cases h
  | err i b =>
    simp only [step] at h
    split at h
    · cases h; cases b <;> simp [St.to, Act.isErr]
    · cases h

theorem run_exit {width N count : Nat} : ∀ {as : List Act} {s s' : St}, Inv width N count s → run width N count s as = some s' →
    s'.exit = (s.exit || as.any Act.isErr)
  | [], s, s', hI, h => by cases h; simp
  | a :: as, s, s', hI, h => by
    simp only [run] at h
    cases hs : step width N count s a with
    | none => rw [hs] at h; cases h
    | some t =>
      rw [hs] at h
      rw [run_exit (step_inv hI hs) h, step_exit hI hs, List.any_cons, Bool.or_assoc]

/-! ### The number of steps -/

def W.cost (t : Nat) : W → Nat
  | .wait n => if n < t then 7 else 0
  | .got _ => 6
  | .draw .. => 5
  | .drawn _ _ p => if p = 0 then 4 else 8
  | .query .. => 7
  | .finish .. => 3
  | .sent _ => 1
  | .panicked => 0

def Main.begins : Main → Nat
  | .begin k => 4 - k
  | .collect k _ => 3 - k
  | _ => 0

def Main.one : Main → Nat
  | .collect .. => 1
  | _ => 0

def St.cost (N count : Nat) (s : St) : Nat :=
  s.main.begins * (7 * N + 4 * count + 2) + s.main.one + 4 * s.target + (s.ws.map (W.cost s.main.tasks)).sum + s.inbox.length

theorem step_cost {width N count : Nat} {s s' : St} (hI : Inv width N count s) {a : Act} (h : step width N count s a = some s') :
    s'.cost N count < s.cost N count := by
  have hsend : ∀ {i : Nat} {w : W} {w' : W} {s' : St} (target : Nat) (exit : Bool) (inbox : List Bool) (tbl : Tbl) (log : List (Nat × Nat)),
      s.ws[i]? = some w → s' = St.mk s.main target exit (s.ws.set i w') inbox tbl log →
      4 * target + w'.cost s.main.tasks + inbox.length < 4 * s.target + w.cost s.main.tasks + s.inbox.length → s'.cost N count < s.cost N count := by
    intro i w w' s' target exit inbox tbl log hw hs' hlt
    have := sum_set (f := W.cost s.main.tasks) (w' := w') hw
    subst hs'
    simp only [St.cost]
    omega
  cases a with
  | main =>
    simp only [step] at h
    obtain ⟨main, target, exit, ws, inbox, tbl, log⟩ := s
    cases main with
    | begin k =>
      simp only [mainStep] at h
      split at h <;> cases h
      have hk := hI.four.2 k rfl
      have hb := sum_le (f := W.cost (k + 1)) (c := 7) (ws := ws) (by
        intro w hw
        have hr := (hI.begin k rfl).2.2 w hw
        cases w <;> simp_all [W.rep, W.cost])
      have hlen : ws.length = N := hI.len
      rw [hlen] at hb
      have hin := (hI.begin k rfl).1
      simp only at hin
      have e : (4 - k) * (7 * N + 4 * count + 2) = (3 - k) * (7 * N + 4 * count + 2) + (7 * N + 4 * count + 2) := by
        rw [show 4 - k = (3 - k) + 1 by omega, Nat.succ_mul]
      simp only [St.cost, Main.begins, Main.one, Main.tasks, hin, e]
      generalize (3 - k) * (7 * N + 4 * count + 2) = A
      simp only [List.length_nil]
      omega
    | collect k rem =>
      simp only [mainStep] at h
      split at h
      · cases h
        simp only [St.cost, Main.begins, Main.one, Main.tasks]
        omega
      · cases h
        have hk := hI.four.1
        simp only [Main.tasks] at hk
        simp only [St.cost, List.length_cons]
        by_cases hr : rem = 1
        · rw [if_pos hr]
          by_cases h3 : k = 3
          · rw [if_pos h3]
            subst h3
            simp only [Main.begins, Main.one, Main.tasks, show 3 + 1 = 4 from rfl]
            omega
          · rw [if_neg h3]
            simp only [Main.begins, Main.one, Main.tasks, show 4 - (k + 1) = 3 - k by omega]
            omega
        · rw [if_neg hr]
          simp only [Main.begins, Main.one, Main.tasks]
          omega
      · split at h <;> cases h
        simp only [St.cost, Main.begins, Main.one, Main.tasks]
        omega
    | done => cases h
    | failed k => cases h
    | dead k => cases h
  | go i =>
    simp only [step] at h
    cases hw : s.ws[i]? with
    | none => rw [hw] at h; cases h
    | some w =>
      rw [hw] at h
      simp only [Option.bind_some] at h
      have hok := hI.ok i w hw
      cases w with
      | query n d p =>
        have hn := hok.1
        simp only [workStep] at h
        split at h
        · cases h
          exact hsend _ _ _ _ _ hw rfl (by simp only [W.cost]; omega)
        · cases h
          exact hsend _ _ _ _ _ hw rfl (by simp [W.cost, hn]; omega)
      | wait n =>
        simp only [workStep] at h
        split at h <;> cases h
        rename_i hlt
        exact hsend _ _ _ _ _ hw rfl (by simp only [W.cost, hlt, if_true]; omega)
      | got n => cases h; exact hsend _ _ _ _ _ hw rfl (by simp only [W.cost]; omega)
      | draw n d =>
        cases h
        exact hsend _ _ _ _ _ hw rfl (by simp only [W.cost]; split <;> omega)
      | drawn n d p =>
        have hn := hok.1
        simp only [workStep] at h
        split at h
        · cases h; exact hsend _ _ _ _ _ hw rfl (by simp only [W.cost, hn, Nat.lt_irrefl, if_false]; split <;> omega)
        · split at h <;> cases h
          · exact hsend _ _ _ _ _ hw rfl (by simp only [W.cost]; split <;> omega)
          · rename_i hp
            exact hsend _ _ _ _ _ hw rfl (by simp only [W.cost]; rw [if_neg hp]; omega)
      | finish n d =>
        simp only [workStep] at h
        split at h <;> cases h
        · exact hsend _ _ _ _ _ hw rfl (by simp only [W.cost]; omega)
        · exact hsend _ _ _ _ _ hw rfl (by simp only [W.cost, List.length_append, List.length_singleton]; omega)
      | sent n =>
        have hn : n = s.main.tasks := hok
        cases h; exact hsend _ _ _ _ _ hw rfl (by simp only [W.cost, hn, Nat.lt_irrefl, if_false]; omega)
      | panicked => cases h
  | err i b =>
    simp only [step] at h
    split at h
    · rename_i n d p hw
      have hn := (hI.ok i _ hw).1
      cases h
      cases b
      · exact hsend s.target true (s.inbox ++ [false]) s.tbl s.log hw rfl (by simp [W.cost, hn]; omega)
      · exact hsend s.target true (s.inbox ++ [false]) (exec width (n - 1) p s.tbl).1 (s.log ++ [(n - 1, p)]) hw rfl (by simp [W.cost, hn]; omega)
    · cases h

theorem run_cost {width N count : Nat} : ∀ {as : List Act} {s s' : St}, Inv width N count s → run width N count s as = some s' →
    as.length + s'.cost N count ≤ s.cost N count
  | [], s, s', hI, h => by cases h; simp
  | a :: as, s, s', hI, h => by
    simp only [run] at h
    cases hs : step width N count s a with
    | none => rw [hs] at h; cases h
    | some t =>
      rw [hs] at h
      have h1 := run_cost (step_inv hI hs) h
      have h2 := step_cost hI hs
      simp only [List.length_cons]
      omega

/-! ### The theorems -/

/-- Whatever the interleaving and whatever goes wrong: no query is run twice, the keys are those of the positions 1 to `count`, and the runs come one
after the other. If statistics are printed, all queries of all four runs were run, nothing went wrong, and the table is empty again. -/
theorem C72_each_query_once {width N count : Nat} (hN : 0 < N) {as : List Act} {s : St} (h : run width N count (start N) as = some s) :
    s.log.Nodup ∧ s.log.Pairwise (fun a b => a.1 ≤ b.1) ∧ (∀ e ∈ s.log, e.1 < 4 ∧ 1 ≤ e.2 ∧ e.2 ≤ count) ∧
    (s.main = .done → as.any Act.isErr = false ∧ (∀ k p, k < 4 → 1 ≤ p → p ≤ count → (k, p) ∈ s.log) ∧ s.tbl = fun _ => none) := by
  have hI := run_inv (start_inv width count hN) h
  refine ⟨hI.nodup, hI.sorted, fun e he => ?_, fun hd => ?_⟩
  · have := hI.range e he
    have := hI.four.1
    omega
  · obtain ⟨hex, hrep⟩ := hI.done hd
    have ht : s.main.tasks = 4 := by rw [hd]; rfl
    have hrun : s.main.running := fun k hk => by rw [hd] at hk; cases hk
    have hkind : ∀ (j : Nat) (x : W), s.ws[j]? = some x → x = .wait 4 ∨ ∃ n, x = .sent n := by
      intro j x hj
      have := hrep x (List.mem_iff_getElem?.2 ⟨_, hj⟩)
      cases x <;> simp_all [W.rep]
    have hz : s.target = 0 := by
      have hlen := hI.len
      cases hws : s.ws with
      | nil => rw [hws] at hlen; simp only [List.length_nil] at hlen; omega
      | cons x _ =>
        have h0 : s.ws[0]? = some x := by rw [hws]; rfl
        refine hI.zero hex hrun 0 x h0 ?_
        rcases hkind 0 x h0 with rfl | ⟨n, rfl⟩
        · simp [W.empty, ht]
        · rfl
    have hall : ∀ k p, k < 4 → 1 ≤ p → p ≤ count → (k, p) ∈ s.log := by
      intro k p hk h1 h2
      by_cases h3 : k = 3
      · subst h3
        rcases hI.all hex hrun p (by omega) h2 with h | ⟨j, x, hj, hp⟩
        · rw [ht] at h; exact h
        · rcases hkind j x hj with rfl | ⟨n, rfl⟩ <;> cases hp
      · exact hI.past k p (.inl (by omega)) h1 h2
    refine ⟨?_, hall, ?_⟩
    · have := run_exit (start_inv width count hN) h
      rw [hex] at this
      simpa [start] using this.symm
    · funext x
      by_cases hx : ∃ p, 1 ≤ p ∧ p ≤ count ∧ x = fmtPk width p
      · obtain ⟨p, h1, h2, rfl⟩ := hx
        rw [hI.tbl hex p h1 h2]
        simp [want, hall 3 p (by omega) h1 h2]
      · rw [run_other (fun p h1 h2 he => hx ⟨p, h1, h2, he⟩) (start_inv width count hN) h]
        rfl

/-- Different positions have different keys. -/
theorem C72_keys {width p q : Nat} : fmtPk width p = fmtPk width q ↔ p = q :=
  ⟨fmtPk_inj, fun h => h ▸ rfl⟩

/-- An error is reported exactly if there was one: without errors the benchmark does not fail, and no answer looks wrong; after an error it does not
print statistics. -/
theorem C72_errors {width N count : Nat} (hN : 0 < N) {as : List Act} {s : St} (h : run width N count (start N) as = some s) :
    (as.any Act.isErr = false → false ∉ s.inbox ∧ ∀ k, s.main ≠ .failed k) ∧ (as.any Act.isErr = true → s.main ≠ .done) ∧
    (as.any Act.isErr = true → false ∈ s.inbox ∨ ∃ k, s.main = .failed k) := by
  have hI := run_inv (start_inv width count hN) h
  have he := run_exit (start_inv width count hN) h
  simp only [start, Bool.false_or] at he
  refine ⟨fun h0 => ?_, fun h1 hd => ?_, fun h1 => hI.bad (he.trans h1)⟩
  · exact hI.good (he.trans h0)
  · have := (hI.done hd).1
    rw [he, h1] at this; cases this

/-- No interleaving is longer than this. -/
theorem C72_bounded {width N count : Nat} (hN : 0 < N) {as : List Act} {s : St} (h : run width N count (start N) as = some s) :
    as.length ≤ 28 * N + 16 * count + 8 := by
  have := run_cost (start_inv width count hN) h
  have e : (start N).cost N count = 4 * (7 * N + 4 * count + 2) := by
    simp [St.cost, start, Main.begins, Main.one, Main.tasks, W.cost]
  rw [e] at this
  omega

/-- The results that are on their way fit into the channel (`mpsc::channel(client_count)`, fury.rs:132). -/
theorem C72_channel {width N count : Nat} (hN : 0 < N) {as : List Act} {s : St} (h : run width N count (start N) as = some s)
    (hm : s.main.ended = false) : s.inbox.length ≤ N := by
  have hI := run_inv (start_inv width count hN) h
  cases hmain : s.main with
  | begin k => rw [(hI.begin k hmain).1]; simp
  | collect k rem =>
    have h1 := hI.collect k rem hmain
    have h2 := sum_le (f := W.rep s.main.tasks) (c := 1) (ws := s.ws) fun w _ => W.rep_le _ w
    have := hI.len
    omega
  | done => rw [hmain] at hm; cases hm
  | failed k => rw [hmain] at hm; cases hm
  | dead k => rw [hmain] at hm; cases hm

/-- As long as no connection has panicked, the benchmark goes on until it has ended. With `C72_bounded` it comes to its end. -/
theorem C72_ends_partial {width N count : Nat} (hN : 0 < N) {as : List Act} {s : St} (h : run width N count (start N) as = some s)
    (hp : .panicked ∉ s.ws) (hm : s.main.ended = false) : ∃ a s', a.isErr = false ∧ step width N count s a = some s' := by
  have hI := run_inv (start_inv width count hN) h
  by_cases hw : ∀ w ∈ s.ws, w = .wait s.main.tasks
  · refine ⟨.main, ?_⟩
    obtain ⟨main, target, exit, ws, inbox, tbl, log⟩ := s
    cases main with
    | begin k =>
      have hno : ¬ (ws.any W.holds = true) := by
        simp only [List.any_eq_true, not_exists, not_and]
        intro w hw'
        rw [hw w hw']
        simp [W.holds]
      simp only [step, mainStep, if_neg hno]
      exact ⟨_, rfl, rfl⟩
    | collect k rem =>
      obtain ⟨c1, c2, c3, c4⟩ := hI.collect k rem rfl
      have hs := sum_const (f := W.rep (k + 1)) (c := 1) (ws := ws) (fun w hw' => by rw [hw w hw']; simp [W.rep, Main.tasks])
      have hlen : ws.length = N := hI.len
      cases inbox with
      | nil =>
        cases exit with
        | false =>
          have c4 : 0 + N = (ws.map (W.rep (k + 1))).sum + rem := c4 rfl
          omega
        | true =>
          rcases hI.bad rfl with h | ⟨_, h⟩
          · simp at h
          · cases h
      | cons b rest => cases b <;> exact ⟨_, rfl, rfl⟩
    | done => cases hm
    | failed k => cases hm
    | dead k => cases hm
  · simp only [Classical.not_forall] at hw
    obtain ⟨w, hmem, hne⟩ := hw
    obtain ⟨i, hi⟩ := List.mem_iff_getElem?.1 hmem
    have hok := hI.ok i w hi
    refine ⟨.go i, ?_⟩
    simp only [step, hi, Option.bind_some]
    cases w with
    | wait n =>
      simp only [W.ok] at hok
      have : n ≠ s.main.tasks := fun e => hne (by rw [e])
      have hlt : n < s.main.tasks := by omega
      simp only [workStep, if_pos hlt]
      exact ⟨_, rfl, rfl⟩
    | got n => exact ⟨_, rfl, rfl⟩
    | draw n d => exact ⟨_, rfl, rfl⟩
    | drawn n d p =>
      simp only [workStep]
      split
      · exact ⟨_, rfl, rfl⟩
      · split <;> exact ⟨_, rfl, rfl⟩
    | query n d p =>
      simp only [workStep]
      split <;> exact ⟨_, rfl, rfl⟩
    | finish n d =>
      simp only [workStep]
      split <;> exact ⟨_, rfl, rfl⟩
    | sent n => exact ⟨_, rfl, rfl⟩
    | panicked => exact absurd hmem hp

theorem here_bound {width N count : Nat} {s : St} (hI : Inv width N count s) : (here s.main.tasks s.log).length ≤ count := by
  refine nodup_bound ?_ ?_
  · refine List.Pairwise.filterMap (R := (· ≠ ·)) _ ?_ hI.nodup
    intro a b hne x hx y hy hxy
    split at hx <;> split at hy <;> cases hx <;> cases hy
    exact hne (Prod.ext (by omega) hxy)
  · intro x hx
    simp only [here, List.mem_filterMap] at hx
    obtain ⟨e, he, hx⟩ := hx
    split at hx <;> cases hx
    have := hI.range e he
    omega

theorem step_dead {width N count : Nat} {s s' : St} (hd : ∀ k, s.main = .dead k → ∀ w ∈ s.ws, w = .panicked) {a : Act}
    (h : step width N count s a = some s') : ∀ k, s'.main = .dead k → ∀ w ∈ s'.ws, w = .panicked := by
  intro k hk
  cases a with
  | main =>
    simp only [step, mainStep] at h
    split at h
    · split at h <;> cases h; cases hk
    · split at h
      · cases h; cases hk
      · cases h
        simp only at hk
        split at hk
        · split at hk <;> cases hk
        · cases hk
      · split at h <;> cases h
        rename_i hall
        simpa using hall
    · cases h
  | go i =>
    simp only [step] at h
    cases hw : s.ws[i]? with
    | none => rw [hw] at h; cases h
    | some w =>
      rw [hw] at h
      simp only [Option.bind_some] at h
      have hm : s'.main = s.main := by
        cases w <;> simp only [workStep] at h <;> (repeat' split at h) <;> cases h <;> rfl
      rw [hd k (hm ▸ hk) w (List.mem_iff_getElem?.2 ⟨_, hw⟩)] at h
      cases h
  | err i b =>
    simp only [step] at h
    split at h
    · rename_i n d p hw
      have hm : s.main = .dead k := by
        cases h
        cases b <;> exact hk
      have := hd k hm _ (List.mem_iff_getElem?.2 ⟨_, hw⟩)
      cases this
    · cases h

theorem run_dead {width N count : Nat} : ∀ {as : List Act} {s s' : St}, (∀ k, s.main = .dead k → ∀ w ∈ s.ws, w = .panicked) →
    run width N count s as = some s' → ∀ k, s'.main = .dead k → ∀ w ∈ s'.ws, w = .panicked
  | [], s, s', hd, h => by cases h; exact hd
  | a :: as, s, s', hd, h => by
    simp only [run] at h
    cases hs : step width N count s a with
    | none => rw [hs] at h; cases h
    | some t => rw [hs] at h; exact run_dead (step_dead hd hs) h

/-- **Violation.** With fewer queries than connections (both numbers are free, args.rs:170-181 and 205-222; with the defaults of a machine with 16
processors there are 128 connections) the benchmark never ends, although nothing goes wrong: a connection that gets no query panics, and the
main task waits for its result. By `C72_bounded` every interleaving stops there. -/
theorem C72_fewer_queries_violated {width N count : Nat} (h0 : 0 < count) (hlt : count < N) {as : List Act} {s : St}
    (h : run width N count (start N) as = some s) (he : as.any Act.isErr = false) : s.main.ended = false := by
  have hN : 0 < N := by omega
  have hI := run_inv (start_inv width count hN) h
  have hx := run_exit (start_inv width count hN) h
  simp only [start, Bool.false_or] at hx
  have hex : s.exit = false := hx.trans he
  cases hmain : s.main with
  | begin k => rfl
  | collect k rem => rfl
  | failed k => exact absurd hmain ((hI.good hex).2 k)
  | done =>
    have hrun : s.main.running := fun k hk => by rw [hmain] at hk; cases hk
    have h1 := hI.sum hrun hex
    have h2 := here_bound hI
    have hrep := (hI.done hmain).2
    have ht : s.main.tasks = 4 := by rw [hmain]; rfl
    have h3 : (s.ws.map (W.mine s.main.tasks)).sum = 1 * s.ws.length := by
      refine sum_const fun w hw => ?_
      have := hrep w hw
      rw [ht]
      cases w <;> simp_all [W.rep, W.mine]
    have := hI.len
    omega
  | dead k =>
    have hall := run_dead (fun _ h => by cases h) h k hmain
    have hrun : s.main.running := fun k hk => by rw [hmain] at hk; cases hk
    have hpan : ∀ (j : Nat) (x : W), s.ws[j]? = some x → x = .panicked := fun j x hj => hall x (List.mem_iff_getElem?.2 ⟨_, hj⟩)
    have hz : s.target = 0 := by
      have hlen := hI.len
      cases hws : s.ws with
      | nil => rw [hws] at hlen; simp only [List.length_nil] at hlen; omega
      | cons x _ =>
        have h0 : s.ws[0]? = some x := by rw [hws]; rfl
        refine hI.zero hex hrun 0 x h0 ?_
        rw [hpan 0 x h0]; rfl
    have hin : (s.main.tasks - 1, 1) ∈ s.log := by
      rcases hI.all hex hrun 1 (by omega) (by omega) with h | ⟨j, x, hj, hp⟩
      · exact h
      · rw [hpan j x hj] at hp; cases hp
    have ht : s.main.tasks = k + 1 := by rw [hmain]; rfl
    have h1 : 1 ∈ here s.main.tasks s.log := by
      simp only [here, List.mem_filterMap]
      exact ⟨_, hin, by rw [if_pos (by omega)]⟩
    have h2 := hI.work hrun hex (List.length_pos_of_mem h1)
    rw [sum_const (c := 0) fun w hw => by rw [hall w hw]; rfl] at h2
    omega

/-! ### Examples -/

/-- Two connections and three queries: the first takes two of them, the second one. -/
def both : List Act :=
  [.main, .go 0, .go 1, .go 0, .go 1, .go 0, .go 1] ++ List.replicate 6 (.go 0) ++ List.replicate 3 (.go 1) ++ [.go 0, .go 1, .go 0, .go 1, .go 0, .go 1, .main, .main]

/-- The benchmark with three queries and two connections comes to its end. -/
example : ((run 2 2 3 (start 2) (both ++ both ++ both ++ both)).map fun s => (s.main, s.log)) =
    some (.done, [(0, 3), (0, 1), (0, 2), (1, 3), (1, 1), (1, 2), (2, 3), (2, 1), (2, 2), (3, 3), (3, 1), (3, 2)]) := by decide +kernel

/-- The keys are padded. -/
example : fmtPk 3 7 = [48, 48, 55] ∧ fmtPk 1 12 = [49, 50] := by decide +kernel

/-- A connection fails in the second run: the error is reported. -/
example : ((run 1 1 1 (start 1) ([.main] ++ List.replicate 9 (.go 0) ++ [.main, .main] ++ List.replicate 4 (.go 0) ++ [.err 0 true, .main])).map fun s => (s.main, s.log)) =
    some (.failed 1, [(0, 1), (1, 1)]) := by decide +kernel

/-- **Violation.** Also with as many queries as connections: one connection takes both queries, the other one panics, and the main task waits for
ever: no step is possible. -/
theorem C72_fast_connection_violated : ∃ as s, run 1 2 2 (start 2) as = some s ∧ as.any Act.isErr = false ∧ s.main = .collect 0 1 ∧
    ∀ a, step 1 2 2 s a = none := by
  let as : List Act := [.main] ++ List.replicate 12 (.go 0) ++ List.replicate 5 (.go 1) ++ [.main]
  have h : ((run 1 2 2 (start 2) as).map fun s => (s.main, s.ws, s.inbox)) = some (.collect 0 1, [.wait 1, .panicked], []) := by decide +kernel
  cases hr : run 1 2 2 (start 2) as with
  | none => rw [hr] at h; cases h
  | some s =>
    rw [hr] at h
    simp only [Option.map_some, Option.some.injEq, Prod.mk.injEq] at h
    obtain ⟨h1, h2, h3⟩ := h
    refine ⟨as, s, hr, by decide +kernel, h1, ?_⟩
    intro a
    cases a with
    | main => simp [step, mainStep, h1, h2, h3]
    | go i =>
      match i with
      | 0 => simp [step, h1, h2, workStep, Main.tasks]
      | 1 => simp [step, h2, workStep]
      | i + 2 => simp [step, h2]
    | err i b =>
      match i with
      | 0 => simp [step, h2]
      | 1 => simp [step, h2]
      | i + 2 => simp [step, h2]

end Verif.Bench
