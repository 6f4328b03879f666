/-!
C68: how connections are accepted (`net/mod.rs:55-92, 161-293`).

The operating system keeps the clients that have connected in a queue. `listen_tcp` and `listen_tls` take them from there one after
the other. The sockets, and what a handler does with its client, are not part of this (C65).
-/
namespace Verif.Net.Listener

/-! ### Model -/

/-- `CLIMIT` (`net/mod.rs:55`). -/
def LIMIT : Nat := 50000

/-- The kind of the endpoint. -/
inductive Kind where
  | tcp
  | tls
  deriving DecidableEq

/-- A listener. `queue`: clients that nobody has accepted yet. `hand`: the client whose TLS handshake the loop waits for
(`net/mod.rs:264-271`). `live`: clients that have a handler. `permits`: what is left of the semaphore.
`pause`: the byte of the `NetBackoff` (`net/mod.rs:72-89`), `slept`: how many seconds the loop has slept because of errors,
since the last client was accepted or the error was passed on. -/
structure Ear where
  kind : Kind
  queue : List Nat
  hand : Option Nat
  live : List Nat
  permits : Nat
  pause : Nat
  slept : Nat
  deriving DecidableEq

def Ear.start (kind : Kind) : Ear := ⟨kind, [], none, [], LIMIT, 1, 0⟩

inductive Ev where
  /-- a client connects -/
  | knock (i : Nat)
  /-- `accept` of the operating system returns the next client -/
  | accept
  /-- or an error -/
  | error
  /-- the TLS handshake that the loop waits for is over -/
  | shake (ok : Bool)
  /-- the handler of a client ends -/
  | leave (i : Nat)
  deriving DecidableEq

/-- A step; `none` if it is not possible. The permit is taken before `accept` and given back after the handler was started
(`net/mod.rs:216, 239`): between two steps none is taken. -/
def step (e : Ear) : Ev → Option Ear
  | .knock i => some { e with queue := e.queue ++ [i] }
  | .accept =>
    if e.hand = none ∧ (e.kind = .tcp → 0 < e.permits) then
      match e.queue with
      | [] => none
      | i :: q =>
        match e.kind with
        | .tcp => some { e with queue := q, live := e.live ++ [i], pause := 1, slept := 0 }
        | .tls => some { e with queue := q, hand := some i, pause := 1, slept := 0 }
    else none
  | .error =>
    if e.hand = none ∧ (e.kind = .tcp → 0 < e.permits) then
      -- `should_disconnect`: the error is passed on, and the loop starts again; otherwise `spin`
      if 64 ≤ e.pause then some { e with pause := 1, slept := 0 }
      else some { e with pause := e.pause * 2 % 256, slept := e.slept + e.pause }
    else none
  | .shake ok =>
    match e.hand with
    | some i => if ok then some { e with hand := none, live := e.live ++ [i] } else some { e with hand := none }
    | none => none
  | .leave i => if i ∈ e.live then some { e with live := e.live.erase i } else none

def run : List Ev → Ear → Option Ear
  | [], e => some e
  | v :: vs, e => (step e v).bind (run vs)

/-! ### Specification -/

/-- The clients that connect. -/
def knocks : List Ev → List Nat
  | [] => []
  | .knock i :: vs => i :: knocks vs
  | _ :: vs => knocks vs

/-- How many were accepted. -/
def accepts (vs : List Ev) : Nat := vs.countP (· == .accept)

/-! ### Theorems -/

theorem run_append : ∀ (a b : List Ev) (e : Ear), run (a ++ b) e = (run a e).bind (run b)
  | [], _, _ => rfl
  | v :: a, b, e => by
    simp only [List.cons_append, run]
    cases step e v with
    | none => rfl
    | some t => simp [run_append a b t]

/-- What is always true: the permits are all there, the pause is a power of two that fits into the byte, and the time slept is
what the pauses before add up to. -/
structure Fine (e : Ear) : Prop where
  permits : e.permits = LIMIT
  pause : e.slept + 1 = e.pause
  small : e.pause ∈ [1, 2, 4, 8, 16, 32, 64]
  tcp : e.kind = .tcp → e.hand = none

theorem Fine.step {e e' : Ear} {v : Ev} (h : step e v = some e') (f : Fine e) : Fine e' := by
  obtain ⟨f1, f2, f3, f4⟩ := f
  cases v <;> simp only [Listener.step] at h
  case knock i => cases h; exact ⟨f1, f2, f3, f4⟩
  case accept =>
    split at h
    · split at h
      · cases h
      · split at h <;> cases h
        · exact ⟨f1, rfl, by simp, f4⟩
        · rename_i hk
          exact ⟨f1, rfl, by simp, fun hx => by rw [hk] at hx; cases hx⟩
    · cases h
  case error =>
    split at h
    · split at h <;> cases h
      · exact ⟨f1, rfl, by simp, f4⟩
      · rename_i hp
        refine ⟨f1, ?_, ?_, f4⟩
        · simp only [List.mem_cons, List.not_mem_nil, or_false] at f3
          simp only
          omega
        · simp only [List.mem_cons, List.not_mem_nil, or_false] at f3 ⊢
          omega
    · cases h
  case shake ok =>
    split at h
    · split at h <;> cases h <;> exact ⟨f1, f2, f3, fun _ => rfl⟩
    · cases h
  case leave i =>
    split at h <;> cases h
    exact ⟨f1, f2, f3, f4⟩

theorem Fine.run {kind : Kind} : ∀ {vs : List Ev} {e e' : Ear}, run vs e = some e' → Fine e → Fine e'
  | [], _, _, h, f => by cases h; exact f
  | v :: vs, e, e', h, f => by
    simp only [Listener.run] at h
    obtain ⟨t, ht, h⟩ := Option.bind_eq_some_iff.1 h
    exact Fine.run (kind := kind) h (f.step ht)

theorem fine {kind : Kind} {vs : List Ev} {e : Ear} (h : run vs (.start kind) = some e) : Fine e :=
  Fine.run (kind := kind) h ⟨rfl, rfl, by simp [Ear.start], fun _ => rfl⟩

theorem kind_step {e e' : Ear} {v : Ev} (h : step e v = some e') : e'.kind = e.kind := by
  cases v <;> simp only [step] at h
  case knock i => cases h; rfl
  case accept =>
    split at h
    · split at h
      · cases h
      · split at h <;> cases h <;> rfl
    · cases h
  case error =>
    split at h
    · split at h <;> cases h <;> rfl
    · cases h
  case shake ok =>
    split at h
    · split at h <;> cases h <;> rfl
    · cases h
  case leave i => split at h <;> cases h; rfl

theorem kind_run : ∀ {vs : List Ev} {e e' : Ear}, run vs e = some e' → e'.kind = e.kind
  | [], _, _, h => by cases h; rfl
  | v :: vs, e, e', h => by
    simp only [run] at h
    obtain ⟨t, ht, h⟩ := Option.bind_eq_some_iff.1 h
    exact (kind_run h).trans (kind_step ht)

/-- **C68, TCP.** Whatever happened, if clients wait then the first of them can be accepted, and gets a handler at once: no other
client can keep the loop from it. -/
theorem C68_tcp {vs : List Ev} {e : Ear} (h : run vs (.start .tcp) = some e) {i : Nat} {q : List Nat}
    (hq : e.queue = i :: q) : ∃ e', step e .accept = some e' ∧ i ∈ e'.live ∧ e'.queue = q := by
  have f := fine h
  have hk : e.kind = .tcp := kind_run h
  refine ⟨_, by simp only [step, f.tcp hk, f.permits, hq, hk, LIMIT]; rfl, by simp, rfl⟩

theorem queue_run : ∀ {vs : List Ev} {e e' : Ear}, run vs e = some e' →
    e.queue ++ knocks vs = (e.queue ++ knocks vs).take (accepts vs) ++ e'.queue
  | [], e, e', h => by cases h; simp [knocks, accepts]
  | v :: vs, e, e', h => by
    simp only [run] at h
    obtain ⟨t, ht, h⟩ := Option.bind_eq_some_iff.1 h
    have ih := queue_run h
    cases v <;> simp only [step] at ht
    case knock i =>
      cases ht
      simpa [knocks, accepts] using ih
    case accept =>
      split at ht
      · split at ht
        · cases ht
        · rename_i i q hq
          have hx : accepts (.accept :: vs) = accepts vs + 1 := by simp [accepts]
          rw [hq, hx]
          split at ht <;> cases ht <;> simp only [knocks, List.cons_append, List.take_succ_cons] at ih ⊢ <;> rw [← ih]
      · cases ht
    case error =>
      have hx : accepts (.error :: vs) = accepts vs := by simp [accepts]
      rw [hx]
      split at ht
      · split at ht <;> cases ht <;> exact ih
      · cases ht
    case shake ok =>
      have hx : accepts (.shake ok :: vs) = accepts vs := by simp [accepts]
      rw [hx]
      split at ht
      · split at ht <;> cases ht <;> exact ih
      · cases ht
    case leave i =>
      have hx : accepts (.leave i :: vs) = accepts vs := by simp [accepts]
      rw [hx]
      split at ht <;> cases ht
      exact ih

/-- **C68, in order.** Clients are accepted in the order in which they connect, and none is left out: those that were not accepted
are still waiting. -/
theorem C68_order {kind : Kind} {vs : List Ev} {e : Ear} (h : run vs (.start kind) = some e) :
    knocks vs = (knocks vs).take (accepts vs) ++ e.queue := by simpa [Ear.start] using queue_run h

/-- **C68, errors.** The loop never sleeps more than 63 seconds because of errors before it passes the error on and starts again,
and it never stops; the byte of the pause does not overflow. -/
theorem C68_backoff {kind : Kind} {vs : List Ev} {e : Ear} (h : run vs (.start kind) = some e) :
    e.slept ≤ 63 ∧ e.pause ≤ 64 ∧ (e.hand = none → ∃ e', step e .error = some e') := by
  have f := fine h
  have f2 := f.pause
  have f3 := f.small
  simp only [List.mem_cons, List.not_mem_nil, or_false] at f3
  refine ⟨by omega, by omega, fun hn => ?_⟩
  have hc : e.hand = none ∧ (e.kind = .tcp → 0 < e.permits) := ⟨hn, fun _ => by rw [f.permits]; decide⟩
  simp only [step]
  rw [if_pos hc]
  split
  · exact ⟨_, rfl⟩
  · exact ⟨_, rfl⟩

/-- Seven errors in a row: 1 + 2 + 4 + 8 + 16 + 32 seconds, and then the error is passed on. -/
example : (List.range 8).map (fun n => (run (.knock 7 :: List.replicate n .error) (.start .tcp)).map (·.slept)) =
    [some 0, some 1, some 3, some 7, some 15, some 31, some 63, some 0] := by decide

example : (run [.knock 7, .error, .error, .accept, .knock 8, .accept, .leave 7] (.start .tcp)).map (fun e => (e.live, e.slept)) =
    some ([8], 0) := by decide

/-- **C68, TLS (partial).** If the handshake that the loop waits for comes to an end, the next client can be accepted. Missing:
clients that do not go on with their handshake (`C68_tls_violated`). -/
theorem C68_tls_partial {vs : List Ev} {e : Ear} (h : run vs (.start .tls) = some e) {i : Nat} {q : List Nat}
    (hq : e.queue = i :: q) (hn : e.hand = none) : ∃ e' e'', step e .accept = some e' ∧ step e' (.shake true) = some e'' ∧ i ∈ e''.live := by
  have f := fine h
  have hk : e.kind = .tls := kind_run h
  exact ⟨_, _, by simp only [step, hn, f.permits, hq, hk, LIMIT]; rfl, by simp only [step]; rfl, by simp⟩

/-- **C68 is violated: TLS.** As long as one client does not go on with its handshake, nobody else is accepted: whatever happens, the
clients that have a handler are among those that had one before. -/
theorem C68_tls_violated {vs : List Ev} {e e' : Ear} {i : Nat} (hh : e.hand = some i) (h : run vs e = some e')
    (hs : ∀ v ∈ vs, ∀ ok, v ≠ .shake ok) : e'.hand = some i ∧ (∀ c ∈ e'.live, c ∈ e.live) ∧ ∀ c ∈ e.queue ++ knocks vs, c ∈ e'.queue := by
  induction vs generalizing e with
  | nil => cases h; exact ⟨hh, fun _ h => h, fun c hc => by simpa [knocks] using hc⟩
  | cons v vs ih =>
    simp only [run] at h
    obtain ⟨t, ht, h⟩ := Option.bind_eq_some_iff.1 h
    have hs' : ∀ v ∈ vs, ∀ ok, v ≠ .shake ok := fun v hv => hs v (by simp [hv])
    cases v <;> simp only [step, hh] at ht
    case knock j =>
      cases ht
      obtain ⟨h1, h2, h3⟩ := ih rfl h hs'
      refine ⟨h1, h2, fun c hc => h3 c ?_⟩
      simpa [knocks] using hc
    case shake ok => exact absurd rfl (hs _ (by simp) ok)
    case leave j =>
      split at ht <;> cases ht
      obtain ⟨h1, h2, h3⟩ := ih rfl h hs'
      exact ⟨h1, fun c hc => List.mem_of_mem_erase (h2 c hc), h3⟩
    all_goals simp at ht

/-- A client that says nothing, and two others. -/
example : (run [.knock 0, .accept, .knock 1, .knock 2] (.start .tls)).map (fun e => (e.hand, e.live, e.queue)) = some (some 0, [], [1, 2]) ∧
    (run [.knock 0, .accept, .knock 1, .accept] (.start .tls)).isNone := by decide

theorem many (n : Nat) : ∀ (l : List Nat), ∃ e, run (List.replicate n [.knock 0, .accept]).flatten ⟨.tcp, [], none, l, LIMIT, 1, 0⟩ = some e ∧
    e.live.length = l.length + n := by
  induction n with
  | zero => exact fun l => ⟨_, rfl, rfl⟩
  | succ n ih =>
    intro l
    obtain ⟨e, h1, h2⟩ := ih (l ++ [0])
    refine ⟨e, ?_, by rw [h2]; simp; omega⟩
    rw [List.replicate_succ, List.flatten_cons, run_append]
    exact h1

/-- **C68 is violated: the limit.** The permit is given back as soon as the handler was started: any number of clients is served at
the same time. -/
theorem C68_limit_violated (n : Nat) : ∃ vs e, run vs (.start .tcp) = some e ∧ n < e.live.length := by
  obtain ⟨e, h1, h2⟩ := many (n + 1) []
  exact ⟨_, e, h1, by rw [h2]; simp⟩

end Verif.Net.Listener
