import Verif.Num.Theorems
/-!
The benchmark program with its default engine.

Sources: /repo/sky-bench/src/runtime/fury.rs, /repo/sky-bench/src/bench.rs. Four runs (INSERT, SELECT, UPDATE, DELETE) of `count` queries each
are shared by `n` connections. The other engine (runtime/rookie.rs) has threads in place of tasks and loads the flag before the first
position; it is in `Bench/Rookie`. Connecting is not modelled; for the settings and the numbers in the
statistics see `Bench/Report`. The server is a table that carries out one query at a time (C31, C57).
-/
namespace Verif.Bench

/-- `fmt_pk` (bench.rs:211-213): the position with zeros in front. -/
def fmtPk (width p : Nat) : Bytes := List.replicate (width - (Num.decimal p).length) 48 ++ Num.decimal p

/-- The model `bench.bench(un: binary, pw: uint8)` (bench.rs:125-128). -/
abbrev Tbl := Bytes → Option Nat

/-- A query of run `k` (bench.rs:251-301): what it does to the table, and whether the answer is as expected. -/
def exec (width k p : Nat) (t : Tbl) : Tbl × Bool :=
  let key := fmtPk width p
  match k, t key with
  | 0, none => (fun x => if x = key then some 0 else t x, true)
  | 1, some v => (t, v == 0)
  | 2, some v => if v < 255 then (fun x => if x = key then some (v + 1) else t x, true) else (t, false)
  | 3, some _ => (fun x => if x = key then none else t x, true)
  | _, _ => (t, false)

/-- A connection (`worker_svc`, fury.rs:222-345). `n` is the number of tasks it has received, `d` the number of queries it has finished. -/
inductive W where
  /-- It waits for a task (line 254). -/
  | wait (n : Nat)
  /-- It waits for the start (line 263). -/
  | got (n : Nat)
  /-- It takes the next position (`grefresh_target`, lines 265, 323). -/
  | draw (n d : Nat)
  /-- It looks at the exit flag (lines 266, 324). -/
  | drawn (n d p : Nat)
  /-- It runs its query. -/
  | query (n d p : Nat)
  /-- It has left the loop (line 330). -/
  | finish (n d : Nat)
  /-- It has sent its result and still has the permit (lines 330-343). -/
  | sent (n : Nat)
  /-- `local_start.unwrap()` (line 332) has panicked. -/
  | panicked
deriving DecidableEq, Repr

/-- It holds the permit of the start. -/
def W.holds : W → Bool
  | .draw .. | .drawn .. | .query .. | .finish .. | .sent _ => true
  | _ => false

/-- The main task (`bench_fury`, bench.rs:340-369, and `bombard`, fury.rs:155-220): it starts run `k`, it waits for `rem` results of run `k`, or it
has ended: with statistics, with the error of a connection, or because all connections are gone. -/
inductive Main where
  | begin (k : Nat)
  | collect (k rem : Nat)
  | done
  | failed (k : Nat)
  | dead (k : Nat)
deriving DecidableEq, Repr

/-- `log` are the queries that the server has carried out, `inbox` the results on their way to the main task (`true` for statistics). -/
structure St where
  main : Main
  target : Nat
  exit : Bool
  ws : List W
  inbox : List Bool
  tbl : Tbl
  log : List (Nat × Nat)

/-- The main task or a connection makes a step, or a query fails because of the connection, after or before the server has carried it out. -/
inductive Act where
  | main
  | go (i : Nat)
  | err (i : Nat) (carriedOut : Bool)

/-- The number of tasks that were sent. -/
def Main.tasks : Main → Nat
  | .begin k => k
  | .collect k _ | .failed k | .dead k => k + 1
  | .done => 4

def St.to (s : St) (i : Nat) (w : W) : St := { s with ws := s.ws.set i w }

/-- The main task. `n` is the number of connections. -/
def mainStep (n count : Nat) (s : St) : Option St :=
  match s.main with
  | .begin k =>
    -- lines 157-164: the lock of the start, the target, the task
    if s.ws.any W.holds then none else some { s with main := .collect k n, target := count }
  | .collect k rem =>
    match s.inbox with
    | false :: _ => some { s with main := .failed k }
    | true :: rest => some { s with inbox := rest, main := if rem = 1 then (if k = 3 then .done else .begin (k + 1)) else .collect k (rem - 1) }
    | [] => if s.ws.all (· == .panicked) then some { s with main := .dead k } else none
  | _ => none

/-- A connection. -/
def workStep (width : Nat) (s : St) (i : Nat) : W → Option St
  | .wait n => if n < s.main.tasks then some (s.to i (.got (n + 1))) else none
  | .got n => some (s.to i (.draw n 0))
  | .draw n d => some ({ s with target := s.target - 1 }.to i (.drawn n d s.target))
  | .drawn n d p =>
    if s.exit then some (s.to i (.wait n))
    else if p = 0 then some (s.to i (.finish n d))
    else some (s.to i (.query n d p))
  | .query n d p =>
    match exec width (n - 1) p s.tbl with
    | (t, true) => some ({ s with tbl := t, log := s.log ++ [(n - 1, p)] }.to i (.draw n (d + 1)))
    | (t, false) => some ({ s with tbl := t, log := s.log ++ [(n - 1, p)], exit := true, inbox := s.inbox ++ [false] }.to i (.wait n))
  | .finish n d => if d = 0 then some (s.to i .panicked) else some ({ s with inbox := s.inbox ++ [true] }.to i (.sent n))
  | .sent n => some (s.to i (.wait n))
  | .panicked => none

def step (width n count : Nat) (s : St) : Act → Option St
  | .main => mainStep n count s
  | .go i => (s.ws[i]?).bind (workStep width s i)
  | .err i b =>
    match s.ws[i]? with
    | some (.query n _ p) =>
      let s' := { s with exit := true, inbox := s.inbox ++ [false] }.to i (.wait n)
      some (if b then { s' with tbl := (exec width (n - 1) p s.tbl).1, log := s.log ++ [(n - 1, p)] } else s')
    | _ => none

def run (width n count : Nat) (s : St) : List Act → Option St
  | [] => some s
  | a :: as => (step width n count s a).bind fun s => run width n count s as

/-- The connections are there and the table is empty. -/
def start (n : Nat) : St := ⟨.begin 0, 0, false, List.replicate n (.wait 0), [], fun _ => none, []⟩

end Verif.Bench
