import Verif.Bench.Model
import Verif.Cli.ArgsTheorems
/-!
What the benchmark is told and what it tells (C90): the settings of `sky-bench` (`sky-bench/src/args.rs`, below `args.rs`), the statistics
(`sky-bench/src/runtime.rs`, `runtime/fury.rs:155-220, 265-343`, `runtime/rookie.rs:183-226, 285-365`) and the number of queries in its
output (`bench.rs: fmt_u64`). Paths are relative to `/repo`.

Simplifications: numbers of type `usize` have 64 bits; times are in nanoseconds from some moment; the division that gives the queries per second is left out (`qps` divides the
number of queries by the time that is modelled here). The logarithm of `cdig` is a parameter. That the sum of
the times of a worker fits into 64 bits (`try_into().unwrap()`, `fury.rs:191`, 584 years) is taken for granted.
-/
namespace Verif.Bench.Report
open Verif.Config (Str parseNum maxU16 maxU64 Var Denotes parseNum_iff)
open Verif.Cli.Start (Map endpointOf loop endpointOf_iff)

/-! ## Settings -/

/-- The messages of `parse` (`args.rs:106-237`); `line` are those of the endpoint and of the command line. -/
inductive Err where
  | line (e : Cli.Start.Err)
  | protocol
  | noPassword
  | threads
  | rowcount
  | keysize
  | engine
  | connections
  | rookie
  | unknown
  deriving DecidableEq, Repr

/-- `BenchEngine` (`args.rs:47-51`). -/
inductive Engine where
  | rookie
  | fury
  deriving DecidableEq, Repr

/-- `BenchConfig` (`args.rs:53-63`). -/
structure Settings where
  host : Str
  port : Nat
  pass : Str
  threads : Nat
  keySize : Nat
  count : Nat
  engine : Engine
  connections : Nat
  deriving DecidableEq, Repr

/-- The names of the options (`args.rs:112, 144, 159, 171, 183, 190, 205`). -/
def oEndpoint : Str := "--endpoint".toList
def oPassword : Str := "--password".toList
def oThreads : Str := "--threads".toList
def oRows : Str := "--rowcount".toList
def oKey : Str := "--keysize".toList
def oEngine : Str := "--engine".toList
def oConns : Str := "--connections".toList

/-- The endpoint (`args.rs:112-142`). -/
def endpoint : Option Str → Res Err (Str × Nat)
  | none => .ok ("127.0.0.1".toList, 2003)
  | some ep =>
    match endpointOf ep with
    | .ok (protocol, host, port) => if protocol = "tcp".toList then .ok (host, port) else .err .protocol
    | .err e => .err (.line e)
    | .panic => .panic
    | .hang => .hang

/-- The password (`args.rs:144-157`). -/
def password (env : Var) : Option Str → Res Err Str
  | some p => .ok p
  | none =>
    match env with
    | .val v => .ok v
    | _ => .err .noPassword

/-- A number that is at least `least`, or the value that is taken without one (`args.rs:159-189`). -/
def number (least default : Nat) (e : Err) : Option Str → Res Err Nat
  | none => .ok default
  | some t =>
    match parseNum maxU64 t with
    | some n => if least ≤ n then .ok n else .err e
    | none => .err e

/-- `cdig` (`args.rs:98-104`); `lg` is the integral part of the decimal logarithm, as it comes from the floating point unit. -/
def cdig (lg : Nat → Nat) (n : Nat) : Nat := if n = 0 then 1 else lg n + 1

/-- The engine (`args.rs:190-204`). -/
def engine : Option Str → Res Err Engine
  | none => .ok .fury
  | some t => if t = "rookie".toList then .ok .rookie else if t = "fury".toList then .ok .fury else .err .engine

/-- The connections (`args.rs:205-222`). -/
def connections (cpus : Nat) (g : Engine) : Option Str → Res Err Nat
  | none => .ok (cpus * 8)
  | some t =>
    match parseNum maxU64 t with
    | some n => if n ≠ 0 then (if g = .rookie then .err .rookie else .ok n) else .err .connections
    | none => .err .connections

/-- `parse` for the arguments in a map (`args.rs:111-237`); `cpus` is `num_cpus::get()`. -/
def decode (lg : Nat → Nat) (cpus : Nat) (env : Var) (a : Map) : Res Err Settings :=
  (endpoint (a.get oEndpoint)).bind fun (host, port) =>
  (password env (a.get oPassword)).bind fun pass =>
  (number 1 cpus .threads (a.get oThreads)).bind fun threads =>
  (number 1 1000000 .rowcount (a.get oRows)).bind fun count =>
  (number (cdig lg count) (cdig lg count) .keysize (a.get oKey)).bind fun keySize =>
  (engine (a.get oEngine)).bind fun g =>
  (connections cpus g (a.get oConns)).bind fun conns =>
  if (((((((a.remove oEndpoint).remove oPassword).remove oThreads).remove oRows).remove oKey).remove oEngine).remove oConns).isEmpty then
    .ok ⟨host, port, pass, threads, keySize, count, g, conns⟩
  else .err .unknown

/-- `Task` (`args.rs:37-45`): print a text, or run. -/
inductive Task where
  | message
  | bench (s : Settings)
  deriving DecidableEq, Repr

/-- `parse` (`args.rs:106-237`) with `load_env` (lines 89-96); the first argument is the name of the program. -/
def parse (lg : Nat → Nat) (cpus : Nat) (env : Var) (args : List Str) : Res Err Task :=
  match loop (args.drop 1) [] with
  | .ok .help => .ok .message
  | .ok .version => .ok .message
  | .ok (.action a) => (decode lg cpus env a).bind fun s => .ok (.bench s)
  | .err e => .err (.line e)
  | .panic => .panic
  | .hang => .hang

/-! ### What they mean -/

/-- A number of 64 bits that an option gives, or another one without the option. -/
def Gives (t : Option Str) (default n : Nat) : Prop :=
  match t with
  | none => n = default
  | some t => Denotes maxU64 t n

/-- The options of the command line (and the environment) describe the settings. -/
structure Means (cpus : Nat) (least : Nat → Nat) (env : Var) (a : Map) (s : Settings) : Prop where
  host : match a.get oEndpoint with
    | none => s.host = "127.0.0.1".toList ∧ s.port = 2003
    | some ep => ∃ port, ep = "tcp".toList ++ '@' :: (s.host ++ ':' :: port) ∧ '@' ∉ s.host ∧ ':' ∉ s.host ∧ Denotes maxU16 port s.port
  pass : match a.get oPassword with
    | some p => s.pass = p
    | none => env = .val s.pass
  threads : Gives (a.get oThreads) cpus s.threads
  threadsPos : a.get oThreads ≠ none → 0 < s.threads
  count : Gives (a.get oRows) 1000000 s.count
  countPos : a.get oRows ≠ none → 0 < s.count
  key : Gives (a.get oKey) (least s.count) s.keySize
  keyFits : least s.count ≤ s.keySize
  engine : match a.get oEngine with
    | none => s.engine = .fury
    | some t => (t = "rookie".toList ∧ s.engine = .rookie) ∨ (t = "fury".toList ∧ s.engine = .fury)
  conns : Gives (a.get oConns) (cpus * 8) s.connections
  connsPos : a.get oConns ≠ none → 0 < s.connections ∧ s.engine = .fury
  known : ∀ e ∈ a, e.1 ∈ [oEndpoint, oPassword, oThreads, oRows, oKey, oEngine, oConns]

theorem bind_ok {ε α β : Type} {x : Res ε α} {f : α → Res ε β} {b : β} : x.bind f = .ok b ↔ ∃ a, x = .ok a ∧ f a = .ok b := by
  cases x <;> simp [Res.bind]

theorem endpoint_iff {t : Option Str} {h : Str} {p : Nat} : endpoint t = .ok (h, p) ↔
    match t with
    | none => h = "127.0.0.1".toList ∧ p = 2003
    | some ep => ∃ port, ep = "tcp".toList ++ '@' :: (h ++ ':' :: port) ∧ '@' ∉ h ∧ ':' ∉ h ∧ Denotes maxU16 port p := by
  cases t with
  | none => simp only [endpoint, Res.ok.injEq, Prod.mk.injEq]; exact ⟨fun ⟨a, b⟩ => ⟨a.symm, b.symm⟩, fun ⟨a, b⟩ => ⟨a.symm, b.symm⟩⟩
  | some ep =>
    simp only [endpoint]
    constructor
    · intro h'
      split at h'
      · rename_i pr ho po he
        split at h'
        · rename_i hp
          simp only [Res.ok.injEq, Prod.mk.injEq] at h'
          obtain ⟨rfl, rfl⟩ := h'
          subst hp
          obtain ⟨port, h1, _, h3, h4, h5⟩ := endpointOf_iff.1 he
          exact ⟨port, h1, h3, h4, h5⟩
        · cases h'
      · cases h'
      · cases h'
      · cases h'
    · rintro ⟨port, h1, h3, h4, h5⟩
      rw [endpointOf_iff.2 ⟨port, h1, by decide, h3, h4, h5⟩]
      simp

theorem password_iff {env : Var} {t : Option Str} {p : Str} : password env t = .ok p ↔
    match t with
    | some q => p = q
    | none => env = .val p := by
  cases t with
  | some q => simp only [password, Res.ok.injEq]; exact eq_comm
  | none => simp only [password]; cases env <;> simp

theorem number_iff {least default n : Nat} {e : Err} {t : Option Str} : number least default e t = .ok n ↔
    Gives t default n ∧ (t ≠ none → least ≤ n) := by
  cases t with
  | none => simp only [number, Gives, Res.ok.injEq]; exact ⟨fun h => ⟨h.symm, fun h => absurd rfl h⟩, fun h => h.1.symm⟩
  | some t =>
    simp only [number, Gives]
    rw [← parseNum_iff]
    cases parseNum maxU64 t with
    | none => simp
    | some m =>
      simp only [Option.some.injEq]
      by_cases h : least ≤ m
      · rw [if_pos h]
        simp only [Res.ok.injEq]
        exact ⟨fun x => ⟨x, fun _ => x ▸ h⟩, fun x => x.1⟩
      · rw [if_neg h]
        constructor
        · intro x; cases x
        · rintro ⟨x, y⟩; exact absurd (x ▸ y (by simp)) h

theorem engine_iff {t : Option Str} {g : Engine} : engine t = .ok g ↔
    match t with
    | none => g = .fury
    | some t => (t = "rookie".toList ∧ g = .rookie) ∨ (t = "fury".toList ∧ g = .fury) := by
  cases t with
  | none => simp only [engine, Res.ok.injEq]; exact eq_comm
  | some t =>
    simp only [engine]
    by_cases h1 : t = "rookie".toList
    · rw [if_pos h1]
      subst h1
      cases g <;> simp
    · rw [if_neg h1]
      by_cases h2 : t = "fury".toList
      · rw [if_pos h2]; subst h2; cases g <;> simp
      · rw [if_neg h2]
        constructor
        · intro x; cases x
        · rintro (⟨x, _⟩ | ⟨x, _⟩)
          · exact absurd x h1
          · exact absurd x h2

theorem connections_iff {cpus : Nat} {g : Engine} {t : Option Str} {n : Nat} : connections cpus g t = .ok n ↔
    Gives t (cpus * 8) n ∧ (t ≠ none → 0 < n ∧ g = .fury) := by
  cases t with
  | none => simp only [connections, Gives, Res.ok.injEq]; exact ⟨fun h => ⟨h.symm, fun h => absurd rfl h⟩, fun h => h.1.symm⟩
  | some t =>
    simp only [connections, Gives]
    rw [← parseNum_iff]
    cases parseNum maxU64 t with
    | none => simp
    | some m =>
      simp only [Option.some.injEq]
      by_cases h : m = 0
      · subst h
        rw [if_neg (by simp)]
        constructor
        · intro x; cases x
        · rintro ⟨x, y⟩; have := (y (by simp)).1; omega
      · rw [if_pos h]
        cases g
        · simp
        · simp only [reduceCtorEq, if_false, Res.ok.injEq]
          exact ⟨fun x => ⟨x, fun _ => ⟨by omega, trivial⟩⟩, fun x => x.1⟩

theorem remove_isEmpty (a : Map) :
    (((((((a.remove oEndpoint).remove oPassword).remove oThreads).remove oRows).remove oKey).remove oEngine).remove oConns).isEmpty = true ↔
      ∀ e ∈ a, e.1 ∈ [oEndpoint, oPassword, oThreads, oRows, oKey, oEngine, oConns] := by
  simp only [Map.remove, List.isEmpty_iff, List.filter_filter, List.filter_eq_nil_iff]
  constructor
  · intro h e he
    have := h e he
    simp only [Bool.and_eq_true, bne_iff_ne, ne_eq, not_and] at this
    simp only [List.mem_cons, List.not_mem_nil, or_false]
    by_cases h1 : e.1 = oEndpoint; · exact .inl h1
    by_cases h2 : e.1 = oPassword; · exact .inr (.inl h2)
    by_cases h3 : e.1 = oThreads; · exact .inr (.inr (.inl h3))
    by_cases h4 : e.1 = oRows; · exact .inr (.inr (.inr (.inl h4)))
    by_cases h5 : e.1 = oKey; · exact .inr (.inr (.inr (.inr (.inl h5))))
    by_cases h6 : e.1 = oEngine; · exact .inr (.inr (.inr (.inr (.inr (.inl h6)))))
    by_cases h7 : e.1 = oConns; · exact .inr (.inr (.inr (.inr (.inr (.inr h7)))))
    exact absurd h1 (this h7 h6 h5 h4 h3 h2)
  · intro h e he
    have := h e he
    simp only [List.mem_cons, List.not_mem_nil, or_false] at this
    simp only [Bool.and_eq_true, bne_iff_ne, ne_eq, not_and]
    intro h7 h6 h5 h4 h3 h2 h1
    rcases this with x | x | x | x | x | x | x
    · exact h1 x
    · exact h2 x
    · exact h3 x
    · exact h4 x
    · exact h5 x
    · exact h6 x
    · exact h7 x

/-- C90, settings: the benchmark runs exactly if the options describe settings, and then with these. -/
theorem C90_settings (lg : Nat → Nat) (cpus : Nat) (env : Var) (a : Map) (s : Settings) :
    decode lg cpus env a = .ok s ↔ Means cpus (cdig lg) env a s := by
  unfold decode
  constructor
  · intro h
    obtain ⟨⟨h0, p0⟩, e1, h⟩ := bind_ok.1 h
    obtain ⟨pw, e2, h⟩ := bind_ok.1 h
    obtain ⟨th, e3, h⟩ := bind_ok.1 h
    obtain ⟨ct, e4, h⟩ := bind_ok.1 h
    obtain ⟨ks, e5, h⟩ := bind_ok.1 h
    obtain ⟨g, e6, h⟩ := bind_ok.1 h
    obtain ⟨cn, e7, h⟩ := bind_ok.1 h
    split at h
    · rename_i hr
      simp only [Res.ok.injEq] at h
      subst h
      have k3 := number_iff.1 e3
      have k4 := number_iff.1 e4
      have k5 := number_iff.1 e5
      have k7 := connections_iff.1 e7
      refine ⟨endpoint_iff.1 e1, password_iff.1 e2, k3.1, k3.2, k4.1, k4.2, k5.1, ?_, engine_iff.1 e6, k7.1, k7.2, (remove_isEmpty a).1 hr⟩
      by_cases hk : a.get oKey = none
      · have := k5.1; rw [hk] at this; exact Nat.le_of_eq this.symm
      · exact k5.2 hk
    · cases h
  · intro h
    refine bind_ok.2 ⟨(s.host, s.port), endpoint_iff.2 h.host, ?_⟩
    refine bind_ok.2 ⟨s.pass, password_iff.2 h.pass, ?_⟩
    refine bind_ok.2 ⟨s.threads, number_iff.2 ⟨h.threads, h.threadsPos⟩, ?_⟩
    refine bind_ok.2 ⟨s.count, number_iff.2 ⟨h.count, h.countPos⟩, ?_⟩
    refine bind_ok.2 ⟨s.keySize, number_iff.2 ⟨h.key, fun _ => h.keyFits⟩, ?_⟩
    refine bind_ok.2 ⟨s.engine, engine_iff.2 h.engine, ?_⟩
    refine bind_ok.2 ⟨s.connections, connections_iff.2 ⟨h.conns, h.connsPos⟩, ?_⟩
    rw [if_pos ((remove_isEmpty a).2 h.known)]

/-- C90, settings: with these settings every key has exactly the size that was given, if the floating point unit does not round the logarithm
down past an integer. (C72 shows that no two are equal.) -/
theorem C90_keys {lg : Nat → Nat} (hl : ∀ n, n < 10 ^ (lg n + 1)) {cpus : Nat} {env : Var} {a : Map} {s : Settings}
    (h : decode lg cpus env a = .ok s) {p : Nat} (hp : p ≤ s.count) : (fmtPk s.keySize p).length = s.keySize := by
  have hk := ((C90_settings lg cpus env a s).1 h).keyFits
  have hd : (Num.decimal p).length ≤ cdig lg s.count := by
    unfold cdig
    split
    · rename_i h0
      exact Num.decimal_length_le (by omega) (by omega)
    · exact Num.decimal_length_le (by omega) (Nat.lt_of_le_of_lt hp (hl s.count))
  unfold fmtPk
  rw [List.length_append, List.length_replicate]
  omega

/-- A number below ten to the number of its digits: the logarithm of small numbers, for examples. -/
def lgEx (n : Nat) : Nat := (Nat.toDigits 10 n).length - 1

/-- All options, and no option but the password. -/
example : parse lgEx 4 .absent (["sky-bench", "--endpoint", "tcp@localhost:2004", "--password", "pw", "--threads=8", "--rowcount", "5000",
      "--keysize", "7", "--engine", "fury", "--connections", "16"].map String.toList) =
    .ok (.bench ⟨"localhost".toList, 2004, "pw".toList, 8, 7, 5000, .fury, 16⟩) := by decide +kernel
example : parse lgEx 4 (.val "pw".toList) (["sky-bench"].map String.toList) =
    .ok (.bench ⟨"127.0.0.1".toList, 2003, "pw".toList, 4, 7, 1000000, .fury, 32⟩) := by decide +kernel
/-- Refused: too few digits, an option that does not exist, connections with threads, a number of zero, no password. -/
example : [["--rowcount", "5000", "--keysize", "3"], ["--rows", "5"], ["--engine", "rookie", "--connections", "4"], ["--threads", "0"],
      ["--endpoint", "tls@localhost:2003"], ["--engine", "warp"], ["--rowcount", "0"]].map
        (fun l => parse lgEx 4 (.val []) (("sky-bench" :: l).map String.toList)) =
    [.err .keysize, .err .unknown, .err .rookie, .err .threads, .err .protocol, .err .engine, .err .rowcount] ∧
    parse lgEx 4 .absent (["sky-bench"].map String.toList) = .err .noPassword := by decide +kernel

/-! ## Statistics -/

/-- A query: the moments before and after it (`fury.rs:276-278`). -/
structure Query where
  start : Nat
  stop : Nat
  deriving DecidableEq, Repr

/-- `elapsed` (`fury.rs:315`, `bench.rs:105`). -/
def Query.took (q : Query) : Nat := q.stop - q.start

/-- What a worker does in a run: the moment that it takes as its start and its queries. In `fury.rs:312-314` the start is that of the first
query, in `rookie.rs:192-194` a moment before it. -/
structure Work where
  begun : Nat
  queries : List Query
  deriving DecidableEq, Repr

/-- `WorkerLocalStats` (`runtime.rs:52-58`). -/
structure Stats where
  start : Nat
  elapsed : Nat
  head : Nat
  tail : Nat
  deriving DecidableEq, Repr

/-- `u128::MAX` (`fury.rs:168, 270`). -/
def maxU128 : Nat := 2 ^ 128 - 1

example : maxU128 < 2 ^ 128 ∧ 2 ^ 128 ≤ maxU128 + 1 := by decide

/-- The update after a query (`fury.rs:315-322`, `rookie.rs:204-210`). -/
def Stats.note (s : Stats) (d : Nat) : Stats :=
  { s with
    elapsed := s.elapsed + d
    tail := if d > s.tail then d else s.tail
    head := if d < s.head then d else s.head }

/-- The statistics of a worker (`fury.rs:268-271, 312-322`, `rookie.rs:185-210`). -/
def Work.stats (w : Work) : Stats := (w.queries.map Query.took).foldl Stats.note ⟨w.begun, 0, maxU128, 0⟩

/-- `global_start`, `global_stop`, `global_head` and `global_tail` (`fury.rs:166-169`, `rookie.rs:292-295`). -/
structure Total where
  start : Option Nat
  stop : Option Nat
  head : Nat
  tail : Nat
  deriving DecidableEq, Repr

/-- The result of a worker (`fury.rs:182-205`, `rookie.rs:319-348`). -/
def Total.note (t : Total) (s : Stats) : Total :=
  { start := match t.start with
      | none => some s.start
      | some x => some (if s.start < x then s.start else x)
    stop := match t.stop with
      | none => some (s.start + s.elapsed)
      | some x => some (if s.start + s.elapsed > x then s.start + s.elapsed else x)
    head := if s.head < t.head then s.head else t.head
    tail := if s.tail > t.tail then s.tail else t.tail }

/-- What is reported of a run (`RuntimeStats`, `runtime.rs:45-50`): the time (which divides the number of queries), the fastest and the slowest
query. -/
structure Report where
  time : Nat
  head : Nat
  tail : Nat
  deriving DecidableEq, Repr

/-- `bombard` (`fury.rs:155-220`), `blocking_bombard` (`rookie.rs:285-364`): the results in the order of their arrival. Without a result both
`unwrap`s panic. -/
def report (l : List Stats) : Res Empty Report :=
  let t := l.foldl Total.note ⟨none, none, maxU128, 0⟩
  match t.start, t.stop with
  | some a, some b => .ok ⟨b - a, t.head, t.tail⟩
  | _, _ => .panic

/-! ### What it should be -/

/-- The greatest and the least of a list. -/
def IsMax (m : Nat) (l : List Nat) : Prop := m ∈ l ∧ ∀ x ∈ l, x ≤ m
def IsMin (m : Nat) (l : List Nat) : Prop := m ∈ l ∧ ∀ x ∈ l, m ≤ x

/-- A worker does one query after another, from some moment on. -/
def Ordered : Nat → List Query → Prop
  | _, [] => True
  | t, q :: qs => t ≤ q.start ∧ q.start ≤ q.stop ∧ Ordered q.stop qs

/-- The moment when the last query has ended. -/
def lastStop : Nat → List Query → Nat
  | t, [] => t
  | _, q :: qs => lastStop q.stop qs

/-- The time that a worker spends outside its queries. -/
def idle : Nat → List Query → Nat
  | _, [] => 0
  | t, q :: qs => (q.start - t) + idle q.stop qs

/-- The work of a run: a worker at least, every one with a query at least, no query longer than the type of times. -/
structure Run (ws : List Work) : Prop where
  some : ws ≠ []
  each : ∀ w ∈ ws, w.queries ≠ []
  ordered : ∀ w ∈ ws, Ordered w.begun w.queries
  short : ∀ w ∈ ws, ∀ q ∈ w.queries, q.took ≤ maxU128

/-- The durations of all queries of a run. -/
def durations (ws : List Work) : List Nat := ws.flatMap fun w => w.queries.map Query.took

/-- The time of a run: from the first start to the end of the last query. -/
def RealTime (ws : List Work) (t : Nat) : Prop :=
  ∃ a b, IsMin a (ws.map Work.begun) ∧ IsMax b (ws.map fun w => lastStop w.begun w.queries) ∧ a + t = b

/-! ### Proofs -/

theorem note_fold (l : List Nat) (s : Stats) : (l.foldl Stats.note s).start = s.start ∧ (l.foldl Stats.note s).elapsed = s.elapsed + l.sum ∧
    IsMax (l.foldl Stats.note s).tail (s.tail :: l) ∧ IsMin (l.foldl Stats.note s).head (s.head :: l) := by
  induction l generalizing s with
  | nil => simp [IsMax, IsMin]
  | cons d l ih =>
    obtain ⟨h1, h2, ⟨h3, h3'⟩, ⟨h4, h4'⟩⟩ := ih (s.note d)
    have ht := h3' (s.note d).tail (by simp)
    have hh := h4' (s.note d).head (by simp)
    refine ⟨h1, ?_, ⟨?_, ?_⟩, ⟨?_, ?_⟩⟩
    · rw [List.foldl_cons, h2, List.sum_cons]; simp only [Stats.note]; omega
    · rw [List.foldl_cons]
      rcases List.mem_cons.1 h3 with h | h
      · rw [h]; simp only [Stats.note]; split <;> simp
      · simp [h]
    · intro x hx
      rw [List.foldl_cons]
      rcases List.mem_cons.1 hx with h | h
      · subst h; refine Nat.le_trans ?_ ht; simp only [Stats.note]; split <;> omega
      · rcases List.mem_cons.1 h with h | h
        · subst h; refine Nat.le_trans ?_ ht; simp only [Stats.note]; split <;> omega
        · exact h3' x (by simp [h])
    · rw [List.foldl_cons]
      rcases List.mem_cons.1 h4 with h | h
      · rw [h]; simp only [Stats.note]; split <;> simp
      · simp [h]
    · intro x hx
      rw [List.foldl_cons]
      rcases List.mem_cons.1 hx with h | h
      · subst h; refine Nat.le_trans hh ?_; simp only [Stats.note]; split <;> omega
      · rcases List.mem_cons.1 h with h | h
        · subst h; refine Nat.le_trans hh ?_; simp only [Stats.note]; split <;> omega
        · exact h4' x (by simp [h])

theorem IsMax.drop_zero {m : Nat} {l : List Nat} (hl : l ≠ []) (h : IsMax m (0 :: l)) : IsMax m l := by
  refine ⟨?_, fun x hx => h.2 x (by simp [hx])⟩
  rcases List.mem_cons.1 h.1 with e | e
  · cases l with
    | nil => exact absurd rfl hl
    | cons x l => have := h.2 x (by simp); have : x = m := by omega
                  simp [this]
  · exact e

theorem IsMin.drop_top {m t : Nat} {l : List Nat} (hl : l ≠ []) (ht : ∀ x ∈ l, x ≤ t) (h : IsMin m (t :: l)) : IsMin m l := by
  refine ⟨?_, fun x hx => h.2 x (by simp [hx])⟩
  rcases List.mem_cons.1 h.1 with e | e
  · cases l with
    | nil => exact absurd rfl hl
    | cons x l => have := h.2 x (by simp); have := ht x (by simp); have : x = m := by omega
                  simp [this]
  · exact e

theorem stats_of {w : Work} (h : w.queries ≠ []) (hs : ∀ q ∈ w.queries, q.took ≤ maxU128) :
    w.stats.start = w.begun ∧ w.stats.elapsed = (w.queries.map Query.took).sum ∧ IsMax w.stats.tail (w.queries.map Query.took) ∧
      IsMin w.stats.head (w.queries.map Query.took) := by
  obtain ⟨h1, h2, h3, h4⟩ := note_fold (w.queries.map Query.took) ⟨w.begun, 0, maxU128, 0⟩
  refine ⟨h1, by unfold Work.stats; rw [h2]; simp, h3.drop_zero (by simpa using h), h4.drop_top (by simpa using h) ?_⟩
  intro x hx
  obtain ⟨q, hq, rfl⟩ := List.mem_map.1 hx
  exact hs q hq

theorem total_fold (l : List Stats) (t : Total) (a b : Nat) (ha : t.start = some a) (hb : t.stop = some b) :
    ∃ a' b', (l.foldl Total.note t).start = some a' ∧ (l.foldl Total.note t).stop = some b' ∧ IsMin a' (a :: l.map Stats.start) ∧
      IsMax b' (b :: l.map fun s => s.start + s.elapsed) ∧ IsMax (l.foldl Total.note t).tail (t.tail :: l.map Stats.tail) ∧
      IsMin (l.foldl Total.note t).head (t.head :: l.map Stats.head) := by
  induction l generalizing t a b with
  | nil => exact ⟨a, b, ha, hb, by simp [IsMin], by simp [IsMax], by simp [IsMax], by simp [IsMin]⟩
  | cons s l ih =>
    obtain ⟨a', b', h1, h2, h3, h4, h5, h6⟩ := ih (t.note s) (if s.start < a then s.start else a)
      (if s.start + s.elapsed > b then s.start + s.elapsed else b) (by simp [Total.note, ha]) (by simp [Total.note, hb])
    refine ⟨a', b', h1, h2, ⟨?_, ?_⟩, ⟨?_, ?_⟩, ⟨?_, ?_⟩, ⟨?_, ?_⟩⟩
    · rcases List.mem_cons.1 h3.1 with h | h
      · rw [h]; split <;> simp
      · exact List.mem_cons_of_mem _ (List.mem_cons_of_mem _ h)
    · intro x hx
      have h0 := h3.2 _ (List.mem_cons_self ..)
      rcases List.mem_cons.1 hx with h | h
      · subst h; split at h0 <;> omega
      · rcases List.mem_cons.1 h with h | h
        · subst h; split at h0 <;> omega
        · exact h3.2 x (List.mem_cons_of_mem _ h)
    · rcases List.mem_cons.1 h4.1 with h | h
      · rw [h]; split <;> simp
      · exact List.mem_cons_of_mem _ (List.mem_cons_of_mem _ h)
    · intro x hx
      have h0 := h4.2 _ (List.mem_cons_self ..)
      rcases List.mem_cons.1 hx with h | h
      · subst h; split at h0 <;> omega
      · rcases List.mem_cons.1 h with h | h
        · subst h; show s.start + s.elapsed ≤ b'; split at h0 <;> omega
        · exact h4.2 x (List.mem_cons_of_mem _ h)
    · rw [List.foldl_cons]
      rcases List.mem_cons.1 h5.1 with h | h
      · rw [h]; simp only [Total.note]; split <;> simp
      · exact List.mem_cons_of_mem _ (List.mem_cons_of_mem _ h)
    · intro x hx
      rw [List.foldl_cons]
      have h0 := h5.2 _ (List.mem_cons_self ..)
      simp only [Total.note] at h0
      rcases List.mem_cons.1 hx with h | h
      · subst h; refine Nat.le_trans ?_ h0; split <;> omega
      · rcases List.mem_cons.1 h with h | h
        · subst h; refine Nat.le_trans ?_ h0; split <;> omega
        · exact h5.2 x (List.mem_cons_of_mem _ h)
    · rw [List.foldl_cons]
      rcases List.mem_cons.1 h6.1 with h | h
      · rw [h]; simp only [Total.note]; split <;> simp
      · exact List.mem_cons_of_mem _ (List.mem_cons_of_mem _ h)
    · intro x hx
      rw [List.foldl_cons]
      have h0 := h6.2 _ (List.mem_cons_self ..)
      simp only [Total.note] at h0
      rcases List.mem_cons.1 hx with h | h
      · subst h; refine Nat.le_trans h0 ?_; split <;> omega
      · rcases List.mem_cons.1 h with h | h
        · subst h; refine Nat.le_trans h0 ?_; split <;> omega
        · exact h6.2 x (List.mem_cons_of_mem _ h)

/-- The report in terms of the results of the workers. -/
theorem report_of {l : List Stats} (hl : l ≠ []) (hh : ∀ s ∈ l, s.head ≤ maxU128) :
    ∃ a b h t, report l = .ok ⟨b - a, h, t⟩ ∧ IsMin a (l.map Stats.start) ∧ IsMax b (l.map fun s => s.start + s.elapsed) ∧
      IsMax t (l.map Stats.tail) ∧ IsMin h (l.map Stats.head) := by
  cases l with
  | nil => exact absurd rfl hl
  | cons s l =>
    obtain ⟨a, b, h1, h2, h3, h4, h5, h6⟩ := total_fold l ((⟨none, none, maxU128, 0⟩ : Total).note s) s.start (s.start + s.elapsed) rfl rfl
    refine ⟨a, b, (l.foldl Total.note ((⟨none, none, maxU128, 0⟩ : Total).note s)).head,
      (l.foldl Total.note ((⟨none, none, maxU128, 0⟩ : Total).note s)).tail, ?_, h3, h4, ?_, ?_⟩
    · simp only [report, List.foldl_cons, h1, h2]
    · have e : ((⟨none, none, maxU128, 0⟩ : Total).note s).tail = s.tail := by simp only [Total.note]; split <;> omega
      rw [e] at h5
      exact h5
    · have e : ((⟨none, none, maxU128, 0⟩ : Total).note s).head = s.head := by
        have := hh s (by simp)
        simp only [Total.note]; split <;> omega
      rw [e] at h6
      exact h6

/-- C90, statistics: the slowest and the fastest query of the report are those of all queries of all workers. -/
theorem C90_extremes {ws : List Work} (h : Run ws) : ∃ r, report (ws.map Work.stats) = .ok r ∧ IsMin r.head (durations ws) ∧
    IsMax r.tail (durations ws) := by
  have st := fun w hw => stats_of (h.each w hw) (h.short w hw)
  obtain ⟨a, b, hd, t, e, _, _, h3, h4⟩ := report_of (l := ws.map Work.stats) (by simpa using h.some) (by
    intro s hs
    obtain ⟨w, hw, rfl⟩ := List.mem_map.1 hs
    obtain ⟨q, hq, e⟩ := List.mem_map.1 (st w hw).2.2.2.1
    rw [← e]; exact h.short w hw q hq)
  refine ⟨_, e, ⟨?_, ?_⟩, ⟨?_, ?_⟩⟩
  · obtain ⟨s, hs, rfl⟩ := List.mem_map.1 h4.1
    obtain ⟨w, hw, rfl⟩ := List.mem_map.1 hs
    exact List.mem_flatMap.2 ⟨w, hw, (st w hw).2.2.2.1⟩
  · intro x hx
    obtain ⟨w, hw, hx⟩ := List.mem_flatMap.1 hx
    exact Nat.le_trans (h4.2 w.stats.head (List.mem_map.2 ⟨_, List.mem_map.2 ⟨w, hw, rfl⟩, rfl⟩)) ((st w hw).2.2.2.2 x hx)
  · obtain ⟨s, hs, rfl⟩ := List.mem_map.1 h3.1
    obtain ⟨w, hw, rfl⟩ := List.mem_map.1 hs
    exact List.mem_flatMap.2 ⟨w, hw, (st w hw).2.2.1.1⟩
  · intro x hx
    obtain ⟨w, hw, hx⟩ := List.mem_flatMap.1 hx
    exact Nat.le_trans ((st w hw).2.2.1.2 x hx) (h3.2 w.stats.tail (List.mem_map.2 ⟨_, List.mem_map.2 ⟨w, hw, rfl⟩, rfl⟩))

theorem lastStop_eq : ∀ (t : Nat) (l : List Query), Ordered t l → lastStop t l = t + (l.map Query.took).sum + idle t l
  | t, [], _ => by simp [lastStop, idle]
  | t, q :: l, h => by
    obtain ⟨h1, h2, h3⟩ := h
    rw [lastStop, lastStop_eq q.stop l h3, idle, List.map_cons, List.sum_cons]
    unfold Query.took
    omega

/-- C90, statistics: the time that is reported is not longer than the run, and shorter by no more than a worker was idle between its queries. -/
theorem C90_time_partial {ws : List Work} (h : Run ws) {pause : Nat} (hp : ∀ w ∈ ws, idle w.begun w.queries ≤ pause) :
    ∃ r t, report (ws.map Work.stats) = .ok r ∧ RealTime ws t ∧ r.time ≤ t ∧ t ≤ r.time + pause := by
  have st := fun w hw => stats_of (h.each w hw) (h.short w hw)
  obtain ⟨a, b, hd, tl, e, h1, h2, _, _⟩ := report_of (l := ws.map Work.stats) (by simpa using h.some) (by
    intro s hs
    obtain ⟨w, hw, rfl⟩ := List.mem_map.1 hs
    obtain ⟨q, hq, e⟩ := List.mem_map.1 (st w hw).2.2.2.1
    rw [← e]; exact h.short w hw q hq)
  have ea : (ws.map Work.stats).map Stats.start = ws.map Work.begun := by
    rw [List.map_map]
    exact List.map_congr_left fun w hw => (st w hw).1
  rw [ea] at h1
  -- the last stop
  have hmax : ∀ (l : List Nat), l ≠ [] → ∃ m, IsMax m l := by
    intro l hl
    induction l with
    | nil => exact absurd rfl hl
    | cons x l ih =>
      by_cases hl' : l = []
      · subst hl'; exact ⟨x, by simp [IsMax]⟩
      · obtain ⟨m, hm⟩ := ih hl'
        by_cases hx : x ≤ m
        · exact ⟨m, by simp [hm.1], fun y hy => by rcases List.mem_cons.1 hy with e | e; · omega
                                                   · exact hm.2 y e⟩
        · exact ⟨x, by simp, fun y hy => by rcases List.mem_cons.1 hy with e | e; · omega
                                            · have := hm.2 y e; omega⟩
  obtain ⟨m, hm⟩ := hmax (ws.map fun w => lastStop w.begun w.queries) (by simpa using h.some)
  have hw : ∀ w ∈ ws, w.stats.start + w.stats.elapsed ≤ lastStop w.begun w.queries ∧
      lastStop w.begun w.queries ≤ w.stats.start + w.stats.elapsed + pause := by
    intro w hw
    rw [lastStop_eq _ _ (h.ordered w hw), (st w hw).1, (st w hw).2.1]
    have := hp w hw
    omega
  have hbm : b ≤ m := by
    obtain ⟨s, hs, e⟩ := List.mem_map.1 h2.1
    obtain ⟨w, hw', rfl⟩ := List.mem_map.1 hs
    have := (hw w hw').1
    have := hm.2 _ (List.mem_map.2 ⟨w, hw', rfl⟩)
    omega
  have hmb : m ≤ b + pause := by
    obtain ⟨w, hw', e⟩ := List.mem_map.1 hm.1
    have := (hw w hw').2
    have := h2.2 _ (List.mem_map.2 ⟨w.stats, List.mem_map.2 ⟨w, hw', rfl⟩, rfl⟩)
    omega
  have hab : a ≤ b := by
    obtain ⟨s, hs, e⟩ := List.mem_map.1 h2.1
    obtain ⟨w, hw', rfl⟩ := List.mem_map.1 hs
    have := h1.2 _ (List.mem_map.2 ⟨w, hw', rfl⟩)
    rw [(st w hw').1] at e
    omega
  refine ⟨_, m - a, e, ⟨a, m, h1, hm, by omega⟩, ?_, ?_⟩
  · show b - a ≤ m - a
    omega
  · show m - a ≤ b - a + pause
    omega

/-- C90, statistics: the time that is reported is not that of the run. The preparation of queries and the checks of answers are left out, and
so is every other pause of a worker between two queries: a run can take any number of times as long as reported. -/
theorem C90_time_violated (k : Nat) : ∃ ws, Run ws ∧ ∃ r t, report (ws.map Work.stats) = .ok r ∧ RealTime ws t ∧ k * r.time < t := by
  refine ⟨[⟨0, [⟨0, 1⟩, ⟨2 * k + 1, 2 * k + 2⟩]⟩], ⟨by simp, by simp, ?_, ?_⟩, ⟨2, 1, 1⟩, 2 * k + 2, ?_, ⟨0, 2 * k + 2, ?_, ?_, by omega⟩, ?_⟩
  · simp [Ordered]
  · simp [Query.took, maxU128]; omega
  · have : 2 * k + 2 - (2 * k + 1) = 1 := by omega
    simp [Work.stats, Query.took, Stats.note, report, Total.note, maxU128, this]
  · simp [IsMin]
  · simp [IsMax, lastStop]
  · show k * 2 < _
    omega

/-- Two workers without pauses, and with one. -/
example : report ([⟨0, [⟨0, 5⟩, ⟨5, 9⟩]⟩, ⟨2, [⟨2, 4⟩, ⟨4, 12⟩]⟩].map Work.stats) = .ok ⟨12, 2, 8⟩ ∧
    report ([⟨0, [⟨0, 5⟩, ⟨25, 29⟩]⟩, ⟨2, [⟨2, 4⟩, ⟨4, 12⟩]⟩].map Work.stats) = .ok ⟨12, 2, 8⟩ ∧ report [] = .panic := by decide
example : Run [⟨0, [⟨0, 5⟩, ⟨25, 29⟩]⟩, ⟨2, [⟨2, 4⟩, ⟨4, 12⟩]⟩] :=
  ⟨by simp, by simp, by simp [Ordered], by simp [Query.took, maxU128]⟩
example : RealTime [⟨0, [⟨0, 5⟩, ⟨25, 29⟩]⟩, ⟨2, [⟨2, 4⟩, ⟨4, 12⟩]⟩] 29 :=
  ⟨0, 29, by simp [IsMin], by simp [IsMax, lastStop], rfl⟩

/-! ## The number of queries -/

/-- The loop of `fmt_u64` (`bench.rs:307-312`) over the digits from the last. -/
def commas : Nat → Str → Str
  | _, [] => []
  | i, c :: cs => (if i % 3 = 0 ∧ i ≠ 0 then [',', c] else [c]) ++ commas (i + 1) cs

/-- `fmt_u64` (`bench.rs:303-314`). -/
def fmtU64 (n : Nat) : Str := (commas 0 (Nat.toDigits 10 n).reverse).reverse

theorem commas_digits : ∀ (i : Nat) (cs : Str), ',' ∉ cs → (commas i cs).filter (· ≠ ',') = cs
  | _, [], _ => rfl
  | i, c :: cs, h => by
    simp only [List.mem_cons, not_or] at h
    rw [commas, List.filter_append, commas_digits (i + 1) cs h.2]
    have : c ≠ ',' := fun e => h.1 e.symm
    split <;> simp [this]

/-- After `a`: a comma exactly if the digits so far are a positive multiple of three. -/
theorem commas_at : ∀ (i : Nat) (cs a b : Str) (x : Char), ',' ∉ cs → commas i cs = a ++ x :: b →
    (x = ',' ↔ (i + (a.filter (· ≠ ',')).length) % 3 = 0 ∧ i + (a.filter (· ≠ ',')).length ≠ 0 ∧ a.getLast? ≠ some ',')
  | _, [], a, b, x, _, e => by cases a <;> simp [commas] at e
  | i, c :: cs, a, b, x, h, e => by
    simp only [List.mem_cons, not_or] at h
    have hc : c ≠ ',' := fun e => h.1 e.symm
    rw [commas] at e
    split at e
    · rename_i hi
      cases a with
      | nil =>
        simp only [List.cons_append, List.nil_append, List.cons.injEq] at e
        simp [← e.1, hi]
      | cons y a =>
        simp only [List.cons_append, List.nil_append, List.cons.injEq] at e
        obtain ⟨rfl, e⟩ := e
        cases a with
        | nil =>
          simp only [List.nil_append, List.cons.injEq] at e
          rw [← e.1]
          simp [hc]
        | cons z a =>
          simp only [List.cons_append, List.cons.injEq] at e
          obtain ⟨rfl, e⟩ := e
          rw [commas_at (i + 1) cs a b x h.2 e]
          have ef : (List.filter (· ≠ ',') (',' :: c :: a)).length = (List.filter (· ≠ ',') a).length + 1 := by simp [hc]
          rw [ef]
          have el : (',' :: c :: a).getLast? ≠ some ',' ↔ a.getLast? ≠ some ',' := by
            cases a with
            | nil => simp [hc]
            | cons w a => simp [List.getLast?_cons_cons]
          rw [el, show i + 1 + (List.filter (· ≠ ',') a).length = i + ((List.filter (· ≠ ',') a).length + 1) by omega]
    · rename_i hi
      cases a with
      | nil =>
        simp only [List.cons_append, List.nil_append, List.cons.injEq] at e
        rw [← e.1]
        simp only [List.filter_nil, List.length_nil, Nat.add_zero, hc, false_iff]
        exact fun x => hi ⟨x.1, x.2.1⟩
      | cons z a =>
        simp only [List.cons_append, List.nil_append, List.cons.injEq] at e
        obtain ⟨rfl, e⟩ := e
        rw [commas_at (i + 1) cs a b x h.2 e]
        have ef : (List.filter (· ≠ ',') (c :: a)).length = (List.filter (· ≠ ',') a).length + 1 := by simp [hc]
        have el : (c :: a).getLast? ≠ some ',' ↔ a.getLast? ≠ some ',' := by
          cases a with
          | nil => simp [hc]
          | cons w a => simp [List.getLast?_cons_cons]
        rw [ef, el, show i + 1 + (List.filter (· ≠ ',') a).length = i + ((List.filter (· ≠ ',') a).length + 1) by omega]

theorem digits_no_comma (n : Nat) : ',' ∉ Nat.toDigits 10 n := by
  intro h
  have := Nat.isDigit_of_mem_toDigits (by omega) (by omega) h
  simp at this

/-- C90, output: the number without its commas is the number, and there is a comma (or the start) exactly before every third digit from the
right. -/
theorem C90_number (n : Nat) : (fmtU64 n).filter (· ≠ ',') = Nat.toDigits 10 n ∧
    ∀ a x b, fmtU64 n = a ++ x :: b →
      (x = ',' ↔ (b.filter (· ≠ ',')).length % 3 = 0 ∧ (b.filter (· ≠ ',')).length ≠ 0 ∧ b.head? ≠ some ',') := by
  have hn : ',' ∉ (Nat.toDigits 10 n).reverse := by rw [List.mem_reverse]; exact digits_no_comma n
  constructor
  · unfold fmtU64
    rw [List.filter_reverse, commas_digits _ _ hn, List.reverse_reverse]
  · intro a x b e
    have e' : commas 0 (Nat.toDigits 10 n).reverse = b.reverse ++ x :: a.reverse := by
      have := congrArg List.reverse e
      simpa [fmtU64] using this
    have := commas_at 0 _ _ _ _ hn e'
    rw [this]
    rw [List.filter_reverse, List.length_reverse, List.getLast?_reverse]
    simp

example : fmtU64 4000000 = "4,000,000".toList ∧ fmtU64 999 = "999".toList ∧ fmtU64 1000 = "1,000".toList ∧ fmtU64 0 = "0".toList ∧
    fmtU64 12345678 = "12,345,678".toList := by decide +kernel

end Verif.Bench.Report
