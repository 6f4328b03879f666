/-
The primary index (`idx/mtchm/mod.rs` in /repo/server/src/engine) under weak memory. C76. Loads acquire (lines 276, 460, 502), the
exchanges release and are relaxed when they fail (`cx_rel`, sync/atm.rs:79-84), `fetch_or` of `compress` does both
(line 687), and children are counted with relaxed loads (line 580).

The memory model is release/acquire with views. Every place (`&self.root` or `&branch.branch[i]`) has the list of all words it ever
held. A load may return any of them that is not older than what the thread knows of the place; an exchange or `fetch_or`
works on the newest one; an exchange that fails is a load of a word that is not the expected one. A word carries
the view of the thread that wrote it if the write released, and the view of the word it replaced (release sequence).
An access to a node whose initialisation does not happen before it is a fault. A thread also has to
know the nodes it made itself through a load; this makes faults more frequent here than they are.

The program is that of `Verif.Trie.Conc` (`prog_sc` in Verif/Weak/IndexSc.lean). Simplifications: nodes are not freed, so
no address is used twice (C40 has reclamation, with sequentially consistent memory); the counter of elements and
the iterators are left out.
-/
import Verif.Trie.Conc.Model
namespace Verif.Weak.Index
open Verif.Conc Verif.Trie Verif.Trie.Conc

variable {K V : Type} [DecidableEq K]

/-! ## The program -/

/-- What an exchange puts in: a pointer, or a pointer to a new node. -/
inductive New (K V : Type) where
  | ptr (p : Ptr)
  | leaf (l : List (K × V))
  | branch (f : Fin 16 → Ptr)

/-- The next access of a thread. -/
inductive Step (K V : Type) where
  /-- load a place (with acquire or relaxed) and go on according to the word -/
  | load (σ : Slot) (acq : Bool) (k : Word → Pc K V)
  /-- read a list -/
  | read (a : Addr) (k : List (K × V) → Pc K V)
  /-- exchange the word `w`; `op` is the operation that takes effect when this succeeds -/
  | cas (σ : Slot) (p : Ptr) (x : New K V) (op : Option (Op K V)) (ok bad : Pc K V)
  /-- set `PENDING_DELETE` -/
  | freeze (σ : Slot) (k : Word → Pc K V)
  /-- no access of the tree -/
  | go (pc : Pc K V)
  | stop

def opFor (m : WMode) (k : K) (v : V) : Op K V :=
  match m with
  | .fresh => .insert k v
  | .refresh => .update k v
  | .any => .upsert k v

/-- `_lookup` after a load (lines 460-483). -/
def getPc (k : K) (h : UInt64) (w : Word) : Pc K V :=
  match w.p with
  | .null => .ret none
  | .leaf b => .getData k b
  | .node b => .get k (.of b (chunk h 0)) (h >>> 4)

/-- `patch` after a load (lines 276-320). -/
def patchPc (hash : K → UInt64) (m : WMode) (k : K) (v : V) (lvl : Nat) (cur : Slot) (par : Option Level) (w : Word) : Pc K V :=
  if w.pend = true then
    match par with
    | none => .panic
    | some (p, c) => cz0 p c (.patch m k v)
  else
    match w.p with
    | .null => if m = .refresh then .ret none else .patchNew m k v lvl cur par
    | .leaf b => .patchData m k v lvl cur par b
    | .node b => .patch m k v (lvl + LG) (.of b (chunk (hash k) lvl)) (some (cur, b))

/-- `patch` after reading a list (lines 321-394). -/
def patchDataPc (hash : K → UInt64) (m : WMode) (k : K) (v : V) (lvl : Nat) (cur : Slot) (par : Option Level) (b : Addr) :
    List (K × V) → Pc K V
  | [] => .panic
  | e :: l =>
    if e.1 ≠ k ∧ lvl < LG * HEIGHT then
      if m = .refresh then .ret none else .patchSplit m k v lvl cur par b (chunk (hash e.1) lvl)
    else
      match find (e :: l) k with
      | some x =>
        if m = .fresh then .ret (some x.2)
        else .patchPut m k v lvl cur par b (without (e :: l) k ++ [(k, v)]) (some x.2)
      | none =>
        if m = .refresh then .ret none else .patchPut m k v lvl cur par b ((e :: l) ++ [(k, v)]) none

/-- `_remove` after a load (lines 502-522 and 598-602). -/
def delPc (hash : K → UInt64) (k : K) (lvl : Nat) (cur : Slot) (levels : List Level) (w : Word) : Pc K V :=
  match w.p with
  | .null => .ret none
  | .leaf b =>
    if w.pend = true then
      match levels with
      | [] => .panic
      | (p, c) :: _ => cz0 p c (.del k)
    else .delData k lvl cur levels b
  | .node b =>
    if w.pend = true then
      match levels with
      | [] => .panic
      | (p, c) :: _ => cz0 p c (.del k)
    else if levels.length < 16 then .del k (lvl + LG) (.of b (chunk (hash k) lvl)) ((cur, b) :: levels)
    else .panic

/-- `compress` after setting a flag (lines 688-703). -/
def czPc (i : Fin 16) (x : Cz K V) (w : Word) : Pc K V :=
  match w.p with
  | .leaf b => .czRead i b x
  | .null => .cz (i + 1) (x.see i .null 0)
  | .node b => .cz (i + 1) (x.see i (.node b) 0)

/-- What `compress` puts in and how it goes on (lines 707-745). -/
def czNew (x : Cz K V) : New K V :=
  match x.insert with
  | .snode b => .ptr (.leaf b)
  | .null => .ptr .null
  | .restored => .branch x.acc

def czKont (x : Cz K V) : Kont K V :=
  match x.insert with
  | .restored => x.k.restored
  | _ => x.k

/-- What `_remove` puts in (lines 537-545). -/
def delNew : List (K × V) → New K V
  | [] => .ptr .null
  | e :: l => .leaf (e :: l)

/-- The program: the next access of a thread at a position. -/
def prog (hash : K → UInt64) : Pc K V → Step K V
  | .idle => .stop
  | .fault => .stop
  | .panic => .stop
  | .ret _ => .go .idle
  | .retire _ k => .go (kontPc k)
  | .get k cur h => .load cur true (getPc k h)
  | .getData k b => .read b fun l => .ret ((find l k).map (·.2))
  | .patch m k v lvl cur par => .load cur true (patchPc hash m k v lvl cur par)
  | .patchNew m k v lvl cur par => .cas cur .null (.leaf [(k, v)]) (some (opFor m k v)) (.ret none) (.patch m k v lvl cur par)
  | .patchData m k v lvl cur par b => .read b (patchDataPc hash m k v lvl cur par b)
  | .patchSplit m k v lvl cur par b i =>
    .cas cur (.leaf b) (.branch fun j => if j = i then .leaf b else .null) none (.patch m k v lvl cur par)
      (.patch m k v lvl cur par)
  | .patchPut m k v lvl cur par b l r =>
    .cas cur (.leaf b) (.leaf l) (some (opFor m k v)) (.retire b (.ret r)) (.patch m k v lvl cur par)
  | .del k lvl cur levels => .load cur true (delPc hash k lvl cur levels)
  | .delData k lvl cur levels b =>
    .read b fun l => .delPut k lvl cur levels b (l.filter fun e => e.1 ≠ k) ((findLast l k).map (·.2))
  | .delPut k lvl cur levels b l r =>
    .cas cur (.leaf b) (delNew l) (some (.delete k)) (.retire b (.up levels r)) (.del k lvl cur levels)
  | .count levels p c i cnt r =>
    if hi : i < 16 then
      .load (.of c ⟨i, hi⟩) false fun w => .count levels p c (i + 1) (if w.p = .null then cnt else cnt + 1) r
    else if 1 < cnt then .go (.ret r)
    else .go (cz0 p c (.up levels r))
  | .cz i x =>
    if hi : i < 16 then .freeze (.of x.c ⟨i, hi⟩) (czPc ⟨i, hi⟩ x)
    else .cas x.p (.node x.c) (czNew x) none (.retire x.c (czKont x)) (kontPc x.k)
  | .czRead i b x =>
    if hi : i < 16 then .read b fun l => .cz (i + 1) (x.see ⟨i, hi⟩ (.leaf b) l.length) else .stop

/-! ## Memory -/

/-- What a thread knows: the newest word it knows of every place, the nodes whose initialisation happened before, and (only for
the proof) the last change of every key that happened before, as its number. -/
structure View (K : Type) where
  at_ : Slot → Nat
  ini : Addr → Bool
  ev : K → Nat

def View.bot : View K := ⟨fun _ => 0, fun _ => false, fun _ => 0⟩

def View.join (v w : View K) : View K := ⟨fun σ => max (v.at_ σ) (w.at_ σ), fun a => v.ini a || w.ini a, fun k => max (v.ev k) (w.ev k)⟩

/-- The word number `i` of `σ` was seen. -/
def View.mark (v : View K) (σ : Slot) (i : Nat) : View K := { v with at_ := fun τ => if τ = σ then max (v.at_ σ) i else v.at_ τ }

def View.made (v : View K) (a : Addr) : View K := { v with ini := fun b => b = a || v.ini b }

def View.changed (v : View K) (k : K) (n : Nat) : View K := { v with ev := fun x => if x = k then n else v.ev x }

/-- A word that was written. `time` (only for the proof): the number of exchanges up to it. -/
structure Msg (K : Type) where
  w : Word
  view : View K
  time : Nat

/-- An operation that took effect: thread, number of the call, and the operation. -/
structure Chg (K V : Type) where
  t : Tid
  num : Nat
  op : Op K V

structure Thr (K V : Type) where
  pc : Pc K V
  view : View K
  /-- number of calls so far -/
  num : Nat
  /-- the operation and what was known when it began -/
  job : Option (Op K V × View K)

/-- `mem` has the nodes and the newest word of every place; `log` has all words of every place, the newest last. `chg` (only for
the statements): one entry for every exchange that succeeded. -/
structure St (K V : Type) where
  mem : Verif.Trie.Conc.St K V
  log : Slot → List (Msg K)
  chg : List (Option (Chg K V))
  thr : Tid → Thr K V

/-- Which accesses acquire and release. -/
structure Ords where
  /-- `ld_acq` acquires -/
  ldAcq : Bool
  /-- `cx_rel` releases -/
  cxRel : Bool
  /-- `fetch_or` acquires -/
  orAcq : Bool
  /-- `fetch_or` releases -/
  orRel : Bool

def code : Ords := ⟨true, true, true, true⟩

inductive Act (K V : Type) where
  | call (t : Tid) (op : Op K V)
  /-- the next access of `t`; a load returns word number `i`; a new node gets the address `a` -/
  | go (t : Tid) (i : Nat) (a : Addr)
  /-- something else makes what `u` did happen before what `t` does next -/
  | sync (t u : Tid)

def opKey : Op K V → K
  | .insert k _ => k
  | .upsert k _ => k
  | .update k _ => k
  | .delete k => k
  | .get k => k

def St.move (s : St K V) (t : Tid) (pc : Pc K V) (v : View K) : St K V :=
  { s with thr := upd s.thr t { s.thr t with pc := pc, view := v } }

/-- The place is the root or in a branch that the thread knows. -/
def View.knows (v : View K) : Slot → Bool
  | .root => true
  | .of b _ => v.ini b

/-- The pointer that an exchange puts in, and the node it makes. -/
def New.make (a : Addr) : New K V → Ptr × Option (Addr × Cell K V)
  | .ptr p => (p, none)
  | .leaf l => (.leaf a, some (a, .leaf l))
  | .branch f => (.node a, some (a, .branch fun j => ⟨f j, false⟩))

/-- Write newest memory. -/
def memPut (m : Verif.Trie.Conc.St K V) (new : Option (Addr × Cell K V)) (σ : Slot) (w : Word) : Verif.Trie.Conc.St K V :=
  match new with
  | some (n, c) => (m.alloc n c).store σ w
  | none => m.store σ w

/-- The words of all places after `msg` was written to `σ` and a node was made. -/
def logPut (log : Slot → List (Msg K)) (new : Option (Addr × Cell K V)) (σ : Slot) (msg : Msg K) : Slot → List (Msg K) :=
  fun τ =>
    if τ = σ then log σ ++ [msg]
    else
      match new, τ with
      | some (n, .branch f), .of b j => if b = n then [⟨f j, .bot, msg.time⟩] else log τ
      | _, _ => log τ

def madeBy (v : View K) : Option (Addr × Cell K V) → View K
  | some (n, _) => v.made n
  | none => v

/-- What the thread knows after its exchange. -/
def casView (v : View K) (σ : Slot) (i time : Nat) : Option (Op K V) → View K
  | some op => (v.mark σ i).changed (opKey op) time
  | none => v.mark σ i

/-- The exchange succeeds; `last` is the word that was there. -/
def St.swap (o : Ords) (s : St K V) (t : Tid) (σ : Slot) (last : Msg K) (p : Ptr) (new : Option (Addr × Cell K V)) (op : Option (Op K V))
    (pc : Pc K V) : St K V :=
  let time := s.chg.length + 1
  let v := casView (s.thr t).view σ (s.log σ).length time op
  { mem := memPut s.mem new σ ⟨p, false⟩
    log := logPut s.log new σ ⟨⟨p, false⟩, if o.cxRel then madeBy (v.join last.view) new else last.view, time⟩
    chg := s.chg ++ [op.map fun x => ⟨t, (s.thr t).num, x⟩]
    thr := upd s.thr t { s.thr t with pc := pc, view := v } }

/-- The flag is set; `last` is the word that was there. -/
def St.freeze (o : Ords) (s : St K V) (t : Tid) (σ : Slot) (last : Msg K) (pc : Pc K V) : St K V :=
  let v := if o.orAcq then (s.thr t).view.join last.view else (s.thr t).view
  let w := v.mark σ (s.log σ).length
  { s with
    mem := s.mem.store σ ⟨last.w.p, true⟩
    log := logPut (V := V) s.log none σ ⟨⟨last.w.p, true⟩, if o.orRel then w.join last.view else last.view, last.time⟩
    thr := upd s.thr t { s.thr t with pc := pc, view := w } }

/-- One access. -/
def St.access (o : Ords) (s : St K V) (t : Tid) (i : Nat) (a : Addr) : Step K V → Option (St K V)
  | .stop => none
  | .go pc => some (s.move t pc (s.thr t).view)
  | .read b k =>
    if (s.thr t).view.ini b then
      match s.mem.list b with
      | some l => some (s.move t (k l) (s.thr t).view)
      | none => some (s.move t .fault (s.thr t).view)
    else some (s.move t .fault (s.thr t).view)
  | .load σ acq k =>
    if (s.thr t).view.knows σ then
      if (s.thr t).view.at_ σ ≤ i then
        match (s.log σ)[i]? with
        | none => none
        | some m =>
          some (s.move t (k m.w) ((if acq && o.ldAcq then (s.thr t).view.join m.view else (s.thr t).view).mark σ i))
      else none
    else some (s.move t .fault (s.thr t).view)
  | .freeze σ k =>
    if (s.thr t).view.knows σ then
      match (s.log σ).getLast? with
      | none => some (s.move t .fault (s.thr t).view)
      | some last => some (s.freeze o t σ last (k last.w))
    else some (s.move t .fault (s.thr t).view)
  | .cas σ p x op ok bad =>
    if (s.thr t).view.knows σ then
      if (s.thr t).view.at_ σ ≤ i then
        match (s.log σ)[i]? with
        | none => none
        | some m =>
          if m.w = ⟨p, false⟩ then
            if i + 1 = (s.log σ).length ∧ (s.mem.heap a).isNone then
              some (s.swap o t σ m (x.make a).1 (x.make a).2 op ok)
            else none
          else some (s.move t bad ((s.thr t).view.mark σ i))
      else none
    else some (s.move t .fault (s.thr t).view)

def exec (o : Ords) (hash : K → UInt64) (s : St K V) : Act K V → Option (St K V)
  | .call t op =>
    match (s.thr t).pc with
    | .idle =>
      some { s with thr := upd s.thr t ⟨startPc hash op, (s.thr t).view, (s.thr t).num + 1, some (op, (s.thr t).view)⟩ }
    | _ => none
  | .go t i a => s.access o t i a (prog hash (s.thr t).pc)
  | .sync t u => some (s.move t (s.thr t).pc ((s.thr t).view.join (s.thr u).view))

def run (o : Ords) (hash : K → UInt64) : St K V → List (Act K V) → Option (St K V)
  | s, [] => some s
  | s, x :: xs =>
    match exec o hash s x with
    | none => none
    | some s' => run o hash s' xs

/-- `RawTree::new` (lines 210-217). -/
def init : St K V where
  mem := Verif.Trie.Conc.init
  log := fun σ => match σ with | .root => [⟨⟨.null, false⟩, .bot, 0⟩] | _ => []
  chg := []
  thr := fun _ => ⟨.idle, .bot, 0, none⟩

/-! ## What is stated -/

/-- The map after these changes. -/
def mapOf : List (Option (Chg K V)) → K → Option V :=
  List.foldl (fun m c => match c with | some c => (dict.apply m c.op).1 | none => m) fun _ => none

/-- The map after the first `n` exchanges. -/
def mapAt (chg : List (Option (Chg K V))) (n : Nat) : K → Option V := mapOf (chg.take n)

end Verif.Weak.Index
