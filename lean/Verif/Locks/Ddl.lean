import Verif.Gns.Cat
import Verif.Conc.Lin
import Verif.Gns.Theorems
/-!
Statements that change the catalogue or the accounts and run at the same time: locks, the log of the catalogue and the changes, step
by step.

Sources (relative to /repo/server/src/engine): core/mod.rs:86-202, core/space.rs:146-322, core/model/mod.rs:299-410,
core/model/alt.rs:249-327, core/system_db.rs:78-190, core/ddl_misc.rs:34-107, fractal/drivers.rs:40-82, fractal/mgr.rs:323-345.

What a statement decides is `Gns.exec`, on what it sees under its locks; it is cut here where the code takes locks, looks at the health
of the log, writes to it, and changes one of the maps. Simplifications: checks of a statement that need no lock (of the properties in
CREATE SPACE, of the columns in CREATE MODEL) are made under the first lock; the status of the log is set to iffy in the same step as
the failed write. The rows are not part of the state: whether a model is empty is part of the statement (`World.noRows`).
-/
namespace Verif.Ddl
open Verif.Gns (Cat Space Model World Out QErr Client)
open Verif.Enc (Event Fields)
open Verif.Conc (Obj Ev)

/-- The two maps of `GNSData` (core/mod.rs:86-90), `SystemDatabase.users`, and the mutex of the log (`FractalGNSDriver.txn_driver`,
fractal/drivers.rs:42-46). -/
inductive Lock where
  | users | spaces | models | gns
deriving DecidableEq, Repr

inductive Mode where
  | read | write
deriving DecidableEq, Repr

/-- A statement of a client. -/
structure Stm where
  perm : Fields → Fields
  u : Client
  w : World
  s : Gns.Stmt

/-- The statement for one client alone. Whether the log can be written is not part of the statement here. -/
def Stm.op (x : Stm) : Gns.Op := .stmt x.perm x.u { x.w with commitOk := true } x.s

def Stm.run (x : Stm) (c : Cat) : Out := x.op.run c

/-- What clients do: statements, and looking at one of the maps (USE, INSPECT SPACE; INSPECT MODEL and all statements about rows; login),
for which they are given all of the map. -/
inductive Op where
  | stm (x : Stm)
  | spaces
  | models
  | users

inductive Ret where
  | reply (r : Res QErr (Option Bool))
  | spaces (f : String → Option Space)
  | models (f : String → String → Option Model)
  | users (f : String → Option Bytes)

/-- Which locks a statement takes, and in which order. -/
inductive Cls where
  /-- CREATE, ALTER, DROP USER: the accounts (core/system_db.rs:137, 156, 171). -/
  | user
  /-- CREATE, ALTER, DROP SPACE: the spaces (core/mod.rs:109-126). -/
  | space
  /-- CREATE MODEL: the spaces; the models only for the insertion (core/model/mod.rs:298, 338). -/
  | create
  /-- DROP MODEL: the spaces, then the models (core/model/mod.rs:357, 367). -/
  | drop
  /-- DROP SPACE ALLOW NOT EMPTY: the spaces and the models (core/mod.rs:101-108). -/
  | force
  /-- ALTER MODEL: the models, then the spaces for reading (core/mod.rs:127-142). -/
  | alter
deriving DecidableEq, Repr

def cls : Gns.Stmt → Cls
  | .createSpace .. | .alterSpace .. | .dropSpace _ false _ => .space
  | .dropSpace _ true _ => .force
  | .createModel .. => .create
  | .dropModel .. => .drop
  | .alterModel .. => .alter
  | .createUser .. | .alterUser .. | .dropUser .. => .user

/-- The lock that is taken first. -/
def Op.first : Op → Lock × Mode
  | .spaces => (.spaces, .read)
  | .models => (.models, .read)
  | .users => (.users, .read)
  | .stm x =>
    match cls x.s with
    | .user => (.users, .write)
    | .alter => (.models, .write)
    | _ => (.spaces, .write)

/-- The lock that is taken next, before anything is written. -/
def Cls.second : Cls → Lock × Mode
  | .alter => (.spaces, .read)
  | _ => (.models, .write)

/-- The locks that are held while the log is written. -/
def Cls.full : Cls → List (Lock × Mode)
  | .user => [(.users, .write)]
  | .space | .create => [(.spaces, .write)]
  | .drop | .force => [(.models, .write), (.spaces, .write)]
  | .alter => [(.spaces, .read), (.models, .write)]

/-- Whether a statement that holds its first lock goes on to the second: the forced DROP SPACE always, DROP MODEL if the space lists the
model (core/model/mod.rs:358-367), ALTER MODEL if the model exists (core/mod.rs:135-139). -/
def goesOn (c : Cat) : Gns.Stmt → Bool
  | .dropSpace _ true _ => true
  | .dropModel s n _ _ => match c.spaces s with
    | some x => x.models.contains n
    | none => false
  | .alterModel s n _ => (c.models s n).isSome
  | _ => false

/-- How far a client has come. -/
inductive Ph where
  | idle
  /-- It was received; the first lock is wanted. -/
  | called (x : Op)
  /-- It has the first lock. -/
  | has (x : Op)
  /-- It wants the second lock. -/
  | more (x : Stm)
  /-- It has both locks. -/
  | both (x : Stm)
  /-- It has decided what to do: the outcome, and the event for the log. -/
  | plan (x : Stm) (o : Out) (e : Event)
  /-- The log is healthy (fractal/drivers.rs:63-65); the mutex is wanted (line 66). -/
  | ready (x : Stm) (o : Out) (e : Event)
  /-- It has the mutex. -/
  | inside (x : Stm) (o : Out) (e : Event)
  /-- The event is in the log. -/
  | wrote (x : Stm) (o : Out) (e : Event)
  /-- The mutex is given back; the maps are changed next. -/
  | effect (x : Stm) (o : Out) (e : Event)
  /-- CREATE MODEL has changed the space and wants the models (core/model/mod.rs:335-338). -/
  | wants (x : Stm) (o : Out) (e : Event)
  /-- CREATE MODEL has the models. -/
  | insert (x : Stm) (o : Out) (e : Event)
  /-- DROP MODEL has removed the model and changes the space next (core/model/mod.rs:399-402). -/
  | rest (x : Stm) (o : Out) (e : Event)
  /-- Locks are given back, then the answer is sent. -/
  | leave (ls : List (Lock × Mode)) (r : Ret)

/-- What a client holds. -/
def Ph.locks : Ph → List (Lock × Mode)
  | .idle | .called _ => []
  | .has x => [x.first]
  | .more x => [Op.first (.stm x)]
  | .both x | .plan x _ _ | .ready x _ _ | .effect x _ _ | .wants x _ _ | .rest x _ _ => (cls x.s).full
  | .inside x _ _ | .wrote x _ _ => (.gns, .write) :: (cls x.s).full
  | .insert x _ _ => (.models, .write) :: (cls x.s).full
  | .leave ls _ => ls

/-- Two can hold a lock at the same time only for reading. -/
def compat : Mode → Mode → Bool
  | .read, .read => true
  | _, _ => false

/-- Nobody's hold stands against this one. -/
def free (ts : List Ph) (l : Lock × Mode) : Bool :=
  ts.all fun p => p.locks.all fun x => x.1 != l.1 || compat x.2 l.2

/-- The log of the catalogue: how an event is written, and the check after a failure (`CheckGNSDriver`, fractal/mgr.rs:323-345). -/
structure Log (σ : Type) where
  commit : σ → Event → σ × Bool
  check : σ → σ × Bool

/-- The catalogue, the log and its status, and the clients. -/
structure Sys (σ : Type) where
  c : Cat
  log : σ
  iffy : Bool
  ts : List Ph

/-- What happens next: a client sends an operation, a client makes its next step, or the background task checks the log. -/
inductive Act where
  | call (i : Nat) (x : Op)
  | go (i : Nat)
  | check

def Sys.to {σ : Type} (s : Sys σ) (i : Nat) (p : Ph) : Sys σ := { s with ts := s.ts.set i p }

/-- The answer of a statement whose event could not be written. -/
def failed : Ret := .reply (.err .serverError)

/-- A statement has decided: without an event it is finished, otherwise it goes to the log. The forced DROP SPACE removes the space
before it does (core/space.rs:248). -/
def decide {σ : Type} (s : Sys σ) (i : Nat) (x : Stm) (held : List (Lock × Mode)) : Sys σ :=
  let o := x.run s.c
  match o.ev with
  | none => s.to i (.leave held (.reply o.reply))
  | some e =>
    if cls x.s = .force then { s with c := { s.c with spaces := o.cat.spaces } }.to i (.plan x o e)
    else s.to i (.plan x o e)

/-- The next step of a client with its first lock. -/
def hasStep {σ : Type} (s : Sys σ) (i : Nat) : Op → Sys σ
  | .spaces => s.to i (.leave [(.spaces, .read)] (.spaces s.c.spaces))
  | .models => s.to i (.leave [(.models, .read)] (.models s.c.models))
  | .users => s.to i (.leave [(.users, .read)] (.users s.c.users))
  | .stm x => if goesOn s.c x.s then s.to i (.more x) else decide s i x [Op.first (.stm x)]

/-- The maps are changed. -/
def effectStep {σ : Type} (s : Sys σ) (i : Nat) (x : Stm) (o : Out) (e : Event) : Sys σ :=
  match cls x.s with
  | .user => { s with c := { s.c with users := o.cat.users } }.to i (.leave Cls.user.full (.reply o.reply))
  | .space => { s with c := { s.c with spaces := o.cat.spaces } }.to i (.leave Cls.space.full (.reply o.reply))
  | .create => { s with c := { s.c with spaces := o.cat.spaces } }.to i (.wants x o e)
  | .drop => { s with c := { s.c with models := o.cat.models } }.to i (.rest x o e)
  | .force => { s with c := { s.c with models := o.cat.models } }.to i (.leave Cls.force.full (.reply o.reply))
  | .alter => { s with c := { s.c with models := o.cat.models } }.to i (.leave Cls.alter.full (.reply o.reply))

/-- CREATE MODEL inserts its model and no other. -/
def inserted (c : Cat) (x : Stm) (o : Out) : Cat :=
  match x.s with
  | .createModel s n _ _ _ => { c with models := Gns.upd2 c.models s n (o.cat.models s n) }
  | _ => c

/-- The next step of client `i`, and what is seen of it; `none` if it waits for a lock or has nothing to do. -/
def goStep {σ : Type} (L : Log σ) (s : Sys σ) (i : Nat) : Ph → Option (Sys σ × Option (Ev Op Ret))
  | .idle => none
  | .called (.stm x) =>
    if x.u.root then (if free s.ts (Op.first (.stm x)) then some (s.to i (.has (.stm x)), none) else none)
    else some (s.to i (.leave [] (.reply (.err .permDenied))), none)
  | .called x => if free s.ts x.first then some (s.to i (.has x), none) else none
  | .has x => some (hasStep s i x, none)
  | .more x => if free s.ts (cls x.s).second then some (s.to i (.both x), none) else none
  | .both x => some (decide s i x (cls x.s).full, none)
  | .plan x o e => if s.iffy then some (s.to i (.leave (cls x.s).full failed), none) else some (s.to i (.ready x o e), none)
  | .ready x o e => if free s.ts (.gns, .write) then some (s.to i (.inside x o e), none) else none
  | .inside x o e =>
    match L.commit s.log e with
    | (l, true) => some ({ s with log := l }.to i (.wrote x o e), none)
    | (l, false) => some ({ s with log := l, iffy := true }.to i (.leave ((.gns, .write) :: (cls x.s).full) failed), none)
  | .wrote x o e => some (s.to i (.effect x o e), none)
  | .effect x o e => some (effectStep s i x o e, none)
  | .wants x o e => if free s.ts (.models, .write) then some (s.to i (.insert x o e), none) else none
  | .insert x o _ => some ({ s with c := inserted s.c x o }.to i (.leave ((.models, .write) :: (cls x.s).full) (.reply o.reply)), none)
  | .rest x o _ => some ({ s with c := { s.c with spaces := o.cat.spaces } }.to i (.leave (cls x.s).full (.reply o.reply)), none)
  | .leave (_ :: ls) r => some (s.to i (.leave ls r), none)
  | .leave [] r => some (s.to i .idle, some (.ret i r))

def step {σ : Type} (L : Log σ) (s : Sys σ) : Act → Option (Sys σ × Option (Ev Op Ret))
  | .call i x =>
    match s.ts[i]? with
    | some .idle => some (s.to i (.called x), some (.call i x))
    | _ => none
  | .go i =>
    match s.ts[i]? with
    | some p => goStep L s i p
    | none => none
  | .check =>
    if s.iffy && free s.ts (.gns, .write) then
      match L.check s.log with
      | (l, ok) => some ({ s with log := l, iffy := !ok }, none)
    else none

/-- A schedule: the state after it and what the clients have seen; `none` if it is not possible. -/
def run {σ : Type} (L : Log σ) (s : Sys σ) : List Act → Option (Sys σ × List (Ev Op Ret))
  | [] => some (s, [])
  | a :: as => (step L s a).bind fun (s, e) => (run L s as).map fun (s, es) => (s, e.toList ++ es)

/-- `n` clients that have not sent anything yet. -/
def start {σ : Type} (c : Cat) (l : σ) (n : Nat) : Sys σ := ⟨c, l, false, List.replicate n .idle⟩

/-! ### Specification -/

/-- One catalogue that does each operation in one step. -/
def obj : Obj Cat Op Ret where
  apply c
    | .stm x => ((x.run c).cat, .reply (x.run c).reply)
    | .spaces => (c, .spaces c.spaces)
    | .models => (c, .models c.models)
    | .users => (c, .users c.users)

/-- The log that never fails: the list of its events. -/
def mem : Log (List Event) := ⟨fun l e => (l ++ [e], true), fun l => (l, true)⟩

/-- A statement about accounts is written to the log but not yet carried out. -/
def Ph.owesUsers : Ph → Bool
  | .wrote x _ _ | .effect x _ _ => cls x.s = .user
  | _ => false

/-- A statement about spaces and models is written to the log but not yet carried out. -/
def Ph.owesCat : Ph → Bool
  | .wrote x _ _ | .effect x _ _ => cls x.s ≠ .user
  | .wants .. | .insert .. | .rest .. => true
  | _ => false

end Verif.Ddl
