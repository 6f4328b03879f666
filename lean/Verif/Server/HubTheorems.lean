import Verif.Server.Hub
import Verif.Net.ExchangeTheorems
import Verif.Net.HandshakeTheorems
import Verif.Server.Theorems
/-!
C65: the conversation on a connection, from bytes to bytes.
-/
namespace Verif.Server
open Verif.Net (HsConn HsError HsStep Conn Event hello packet IsPacket Announces invalidFields)
open Verif.Net.Reply (FloatText send readReply readReplies)

/-! ### Specification -/

/-- What a client says. `illegal`: bytes that are no packet; `badHello`: bytes that are no handshake; `dead`: bytes that make the
task of the connection panic; `wild`: bytes that make the server read outside of its buffer; `bye`: the end of the
connection. -/
inductive Msg where
  | hello (name pwd : Bytes)
  | badHello (e : HsError)
  | query (o : Outside) (text params : Bytes)
  | illegal
  | dead
  | wild
  | bye

/-- What the server says. -/
inductive Said where
  | welcome
  | refused (e : HsError)
  | reply (a : Net.Reply.Answer)

/-- Whether a connection has not said hello yet, belongs to a session, or is of no use any more. -/
inductive Seat where
  | new
  | taken (x : Sess)
  | gone

/-- A server that gets whole messages. -/
structure Desk where
  srv : Srv
  seat : Nat → Seat

def Desk.start (s : Srv) : Desk := ⟨s, fun _ => .new⟩

def Desk.put (d : Desk) (i : Nat) (s : Seat) : Desk := { d with seat := fun j => if j = i then s else d.seat j }

/-- A hello opens a session exactly if name and password are right (C29); a query is executed by the session of its connection
and answered, unless the execution crashes; whoever is not welcome is not heard. -/
def Desk.hear (check : Bytes → Bytes → Bool) (d : Desk) (i : Nat) (m : Msg) : Desk × List Said :=
  match d.seat i, m with
  | .new, .hello name pwd =>
    match Gns.login check d.srv.cat name pwd with
    | some u => (d.put i (.taken ⟨u, none⟩), [.welcome])
    | none => (d.put i .gone, [.refused .auth])
  | .new, .badHello e => (d.put i .gone, [.refused e])
  | .taken x, .query o text params =>
    match serve o d.srv x text params with
    | (s, x, a, _) =>
      match told a with
      | some r => (Desk.put ⟨s, d.seat⟩ i (.taken x), [.reply r])
      | none => (Desk.put ⟨s, d.seat⟩ i .gone, [])
  | .taken _, .illegal => (d, [.reply (.error 6)])
  | .new, .dead => (d.put i .gone, [])
  | .taken _, .dead => (d.put i .gone, [])
  | _, .bye => (d.put i .gone, [])
  | _, _ => (d, [])

def Desk.run (check : Bytes → Bytes → Bool) (d : Desk) : List (Nat × Msg) → Desk × List (Nat × Said)
  | [] => (d, [])
  | (i, m) :: ms =>
    match d.hear check i m with
    | (d, a) => ((d.run check ms).1, a.map (fun x => (i, x)) ++ (d.run check ms).2)

/-- The entries of connection `i`. -/
def of {α : Type} (i : Nat) (l : List (Nat × α)) : List α := l.filterMap fun e => if e.1 = i then some e.2 else none

/-- What connection `i` receives. -/
def bytesFrom (i : Nat) (as : List Inp) : List Bytes :=
  as.filterMap fun | .read j _ chunk => if j = i then some chunk else none | .close _ => none

/-- The bytes of what the server says. -/
def Said.bytes (T : FloatText) : Said → Bytes
  | .welcome => [72, 0, 0, 0]
  | .refused e => [72, 0, 1, hsCode e]
  | .reply a => send (a.resp T)

/-- The bytes after the handshake contain these messages: a query is a whole packet with this text and these parameters, and
every byte belongs to one message. -/
inductive Talks : Bytes → List Msg → Prop where
  | rest (b : Bytes) (ms : List Msg) : (∀ m ∈ ms, m = .bye) → Talks b ms
  | query (b r : Bytes) (o : Outside) (text params : Bytes) (ms : List Msg) :
      IsPacket b (text ++ params) text.length → Talks r ms → Talks (b ++ r) (.query o text params :: ms)
  | illegal (b r : Bytes) (ms : List Msg) : Talks r ms → Talks (b ++ r) (.illegal :: ms)
  | dead (b r payload : Bytes) (n : Nat) (ms : List Msg) : IsPacket b payload n → payload.length < n → (∀ m ∈ ms, m = .bye) →
      Talks (b ++ r) (.dead :: ms)

/-- The bytes of a connection contain these messages. -/
inductive Greets : Bytes → List Msg → Prop where
  | rest (b : Bytes) (ms : List Msg) : (∀ m ∈ ms, m = .bye) → Greets b ms
  | hello (b r name pwd left : Bytes) (ms : List Msg) : Announces b name.length pwd.length (name ++ pwd ++ left) →
      Talks (left ++ r) ms → Greets (b ++ r) (.hello name pwd :: ms)
  | bad (b : Bytes) (e : HsError) (ms : List Msg) : (∀ m ∈ ms, m = .bye) → Greets b (.badHello e :: ms)
  | dead (b r : Bytes) (ms : List Msg) : 2 ≤ (invalidFields (b.take 6)).length → (∀ m ∈ ms, m = .bye) → Greets (b ++ r) (.dead :: ms)
  | wild (b r rest : Bytes) (u p : Nat) (ms : List Msg) : Announces b u p rest → 2 ^ 64 ≤ u + p → (∀ m ∈ ms, m = .bye) →
      Greets (b ++ r) (.wild :: ms)

/-! ### The messages in the bytes -/

/-- A connection as far as the bytes that it receives are concerned. -/
inductive Fr where
  | greet (c : HsConn)
  | talk (c : Conn)
  | dead

def Fr.feed (o : Outside) (chunk : Bytes) : Fr → Fr × List Msg
  | .greet c =>
    match c.feed chunk with
    | .more c => (.greet c, [])
    | .done name pwd rest => (.talk (Conn.fresh rest), [.hello name pwd])
    | .reject e => (.dead, [.badHello e])
    | .panic => (.dead, [.dead])
    | .oob => (.dead, [.wild])
  | .talk c =>
    match c.feed chunk with
    | (c, .none) => (.talk c, [])
    | (c, .illegal) => (.talk c, [.illegal])
    | (_, .panic) => (.dead, [.dead])
    | (c, .query text params) => (.talk c, [.query o text params])
  | .dead => (.dead, [])

def Fr.inp (f : Fr) : Inp → Fr × List Msg
  | .read _ o chunk => f.feed o chunk
  | .close _ => (.dead, [.bye])

/-- The messages of all connections. -/
def frames (f : Nat → Fr) : List Inp → List (Nat × Msg)
  | [] => []
  | a :: as => ((f a.con).inp a).2.map (fun m => (a.con, m)) ++
      frames (fun j => if j = a.con then ((f a.con).inp a).1 else f j) as

/-- The messages of one connection. -/
def solo (f : Fr) : List Inp → List Msg
  | [] => []
  | a :: as => (f.inp a).2 ++ solo (f.inp a).1 as

theorem of_append {α : Type} (i : Nat) (a b : List (Nat × α)) : of i (a ++ b) = of i a ++ of i b := by simp [of]

theorem of_same {α : Type} (i : Nat) (l : List α) : of i (l.map fun m => (i, m)) = l := by
  induction l with
  | nil => rfl
  | cons x l ih =>
    simp only [of, List.map_cons, List.filterMap_cons, if_true] at ih ⊢
    rw [ih]

theorem of_other {α : Type} {i j : Nat} (h : j ≠ i) (l : List α) : of i (l.map fun m => (j, m)) = [] := by
  induction l with
  | nil => rfl
  | cons x l ih =>
    simp only [of, List.map_cons, List.filterMap_cons, if_neg h] at ih ⊢
    rw [ih]

theorem frames_solo (i : Nat) : ∀ (as : List Inp) (f : Nat → Fr),
    of i (frames f as) = solo (f i) (as.filter fun a => decide (a.con = i))
  | [], _ => rfl
  | a :: as, f => by
    rw [frames, of_append, frames_solo i as]
    by_cases h : a.con = i
    · subst h
      have h1 : (a :: as).filter (fun b => decide (b.con = a.con)) = a :: as.filter (fun b => decide (b.con = a.con)) := by simp
      rw [of_same, h1]
      simp only [solo, if_true]
    · have h1 : (a :: as).filter (fun b => decide (b.con = i)) = as.filter (fun b => decide (b.con = i)) := by simp [h]
      rw [of_other h, h1, List.nil_append]
      simp only [if_neg (show ¬ i = a.con from fun e => h e.symm)]

/-- How the states of a connection belong together. -/
inductive Match : Con → Seat → Fr → Prop where
  | greet (c : HsConn) : Match (.greeting c) .new (.greet c)
  | talk (c : Conn) (x : Sess) : Match (.talking c x) (.taken x) (.talk c)
  | gone (f : Fr) : Match .closed .gone f

structure Rel (h : Hub) (d : Desk) (f : Nat → Fr) : Prop where
  srv : h.srv = d.srv
  con : ∀ i, Match (h.con i) (d.seat i) (f i)

theorem Rel.set {h : Hub} {d : Desk} {f : Nat → Fr} (r : Rel h d f) {i : Nat} {c : Con} {s : Seat} {g : Fr} (m : Match c s g)
    (v : Srv) : Rel (Hub.set ⟨v, h.con⟩ i c) (Desk.put ⟨v, d.seat⟩ i s) (fun j => if j = i then g else f j) := by
  refine ⟨rfl, fun j => ?_⟩
  simp only [Hub.set, Desk.put]
  split
  · exact m
  · exact r.con j

theorem Rel.same {h : Hub} {d : Desk} {f : Nat → Fr} (r : Rel h d f) {i : Nat} {g : Fr}
    (m : Match (h.con i) (d.seat i) g) : Rel h d (fun j => if j = i then g else f j) := by
  refine ⟨r.srv, fun j => ?_⟩
  split
  · rename_i e; subst e; exact m
  · exact r.con j

theorem Rel.keep {h : Hub} {d : Desk} {f : Nat → Fr} (r : Rel h d f) {i : Nat} {c : Con} {g : Fr}
    (m : Match c (d.seat i) g) : Rel (h.set i c) d (fun j => if j = i then g else f j) := by
  refine ⟨r.srv, fun j => ?_⟩
  by_cases e : j = i
  · subst e
    simp only [Hub.set, if_true]
    exact m
  · simp only [Hub.set, if_neg e]
    exact r.con j

/-- What a list of messages of one connection does. -/
def Desk.hearAll (check : Bytes → Bytes → Bool) (d : Desk) (i : Nat) : List Msg → Desk × List Said
  | [] => (d, [])
  | m :: ms => ((((d.hear check i m).1).hearAll check i ms).1, (d.hear check i m).2 ++ (((d.hear check i m).1).hearAll check i ms).2)

theorem run_append (check : Bytes → Bytes → Bool) : ∀ (a b : List (Nat × Msg)) (d : Desk),
    d.run check (a ++ b) = (((d.run check a).1.run check b).1, (d.run check a).2 ++ ((d.run check a).1.run check b).2)
  | [], _, _ => rfl
  | (i, m) :: a, b, d => by
    simp only [List.cons_append, Desk.run]
    rw [run_append check a b]
    simp

theorem run_hearAll (check : Bytes → Bytes → Bool) (i : Nat) : ∀ (ms : List Msg) (d : Desk),
    d.run check (ms.map fun m => (i, m)) = ((d.hearAll check i ms).1, (d.hearAll check i ms).2.map fun x => (i, x))
  | [], _ => rfl
  | m :: ms, d => by
    simp only [List.map_cons, Desk.run, Desk.hearAll, List.map_append]
    rw [run_hearAll check i ms]

theorem told_bytes (T : FloatText) : send (.error illegalCode) = Said.bytes T (.reply (.error 6)) := rfl

theorem step_sim {H : Host} {h h' : Hub} {d : Desk} {f : Nat → Fr} {a : Inp} {b : Bytes} (r : Rel h d f)
    (hs : h.step H a = some (h', b)) :
    Rel h' (d.hearAll H.check a.con ((f a.con).inp a).2).1 (fun j => if j = a.con then ((f a.con).inp a).1 else f j) ∧
      b = ((d.hearAll H.check a.con ((f a.con).inp a).2).2.map (Said.bytes H.text)).flatten := by
  obtain ⟨hv, hc⟩ := id r
  obtain ⟨v, con⟩ := h
  obtain ⟨v', seat⟩ := d
  simp only at hv hc
  subst hv
  cases a with
  | close i =>
    simp only [Hub.step, Option.some.injEq, Prod.mk.injEq] at hs
    obtain ⟨rfl, rfl⟩ := hs
    have hh : Desk.hear H.check ⟨v, seat⟩ i .bye = (Desk.put ⟨v, seat⟩ i .gone, []) := by
      cases hq : seat i <;> simp only [Desk.hear, hq]
    simp only [Inp.con, Fr.inp, Desk.hearAll, hh]
    exact ⟨r.set (.gone _) v, rfl⟩
  | read i o chunk =>
    have m := hc i
    simp only [Hub.step] at hs
    simp only [Inp.con, Fr.inp]
    generalize hk : con i = k at m hs
    generalize hq : seat i = q at m
    generalize hg : f i = g at m ⊢
    cases m with
    | greet c =>
      simp only [Fr.feed] at hs ⊢
      cases hf : c.feed chunk with
      | more c' =>
        simp only [hf, Option.some.injEq, Prod.mk.injEq] at hs ⊢
        obtain ⟨rfl, rfl⟩ := hs
        exact ⟨r.keep (by simp only [hq]; exact .greet c'), rfl⟩
      | done name pwd rest =>
        simp only [hf] at hs ⊢
        cases hl : Gns.login H.check v.cat name pwd with
        | some u =>
          simp only [hl, Option.some.injEq, Prod.mk.injEq] at hs
          obtain ⟨rfl, rfl⟩ := hs
          simp only [Desk.hearAll, Desk.hear, hq, hl]
          exact ⟨r.set (.talk _ _) v, rfl⟩
        | none =>
          simp only [hl, Option.some.injEq, Prod.mk.injEq] at hs
          obtain ⟨rfl, rfl⟩ := hs
          simp only [Desk.hearAll, Desk.hear, hq, hl]
          exact ⟨r.set (.gone _) v, rfl⟩
      | reject e =>
        simp only [hf, Option.some.injEq, Prod.mk.injEq] at hs ⊢
        obtain ⟨rfl, rfl⟩ := hs
        simp only [Desk.hearAll, Desk.hear, hq]
        exact ⟨r.set (.gone _) v, rfl⟩
      | panic =>
        simp only [hf, Option.some.injEq, Prod.mk.injEq] at hs ⊢
        obtain ⟨rfl, rfl⟩ := hs
        simp only [Desk.hearAll, Desk.hear, hq]
        exact ⟨r.set (.gone _) v, rfl⟩
      | oob => simp only [hf, reduceCtorEq] at hs
    | talk c x =>
      simp only [Fr.feed] at hs ⊢
      rcases hf : c.feed chunk with ⟨c', e⟩
      cases e with
      | none =>
        simp only [hf, Option.some.injEq, Prod.mk.injEq] at hs ⊢
        obtain ⟨rfl, rfl⟩ := hs
        exact ⟨r.keep (by simp only [hq]; exact .talk c' x), rfl⟩
      | illegal =>
        simp only [hf, Option.some.injEq, Prod.mk.injEq] at hs ⊢
        obtain ⟨rfl, rfl⟩ := hs
        simp only [Desk.hearAll, Desk.hear, hq]
        exact ⟨r.keep (by simp only [hq]; exact .talk c' x), rfl⟩
      | panic =>
        simp only [hf, Option.some.injEq, Prod.mk.injEq] at hs ⊢
        obtain ⟨rfl, rfl⟩ := hs
        simp only [Desk.hearAll, Desk.hear, hq]
        exact ⟨r.set (.gone _) v, rfl⟩
      | query text params =>
        simp only [hf] at hs ⊢
        rcases hv : serve o v x text params with ⟨s', x', a, ev⟩
        simp only [hv] at hs
        cases ht : told a with
        | some y =>
          simp only [ht, Option.some.injEq, Prod.mk.injEq] at hs
          obtain ⟨rfl, rfl⟩ := hs
          simp only [Desk.hearAll, Desk.hear, hq, hv, ht]
          refine ⟨r.set (.talk _ _) s', ?_⟩
          simp [Said.bytes]
        | none =>
          simp only [ht, Option.some.injEq, Prod.mk.injEq] at hs
          obtain ⟨rfl, rfl⟩ := hs
          simp only [Desk.hearAll, Desk.hear, hq, hv, ht]
          exact ⟨r.set (.gone _) s', rfl⟩
    | gone g =>
      simp only [Option.some.injEq, Prod.mk.injEq] at hs
      obtain ⟨rfl, rfl⟩ := hs
      have hh : ∀ m : Msg, m ≠ .bye → Desk.hear H.check ⟨v, seat⟩ i m = (⟨v, seat⟩, []) := by
        intro m hm
        cases m <;> simp only [Desk.hear, hq]
        exact absurd rfl hm
      have hn : (g.feed o chunk).2 = [] ∨ ∃ m, m ≠ .bye ∧ (g.feed o chunk).2 = [m] := by
        cases g with
        | greet c => simp only [Fr.feed]; split <;> simp
        | talk c => simp only [Fr.feed]; split <;> simp
        | dead => simp [Fr.feed]
      have hall : Desk.hearAll H.check ⟨v, seat⟩ i (g.feed o chunk).2 = (⟨v, seat⟩, []) := by
        rcases hn with h | ⟨m, h1, h2⟩
        · rw [h]; rfl
        · rw [h2]; simp only [Desk.hearAll, hh m h1, List.append_nil]
      rw [hall]
      exact ⟨r.same (by simp only [hk, hq]; exact .gone _), rfl⟩

theorem run_sim {H : Host} : ∀ {as : List Inp} {h h' : Hub} {d : Desk} {f : Nat → Fr} {out : List (Nat × Bytes)}, Rel h d f →
    h.run H as = some (h', out) →
    (d.run H.check (frames f as)).1.srv = h'.srv ∧
      ∀ i, (of i out).flatten = ((of i (d.run H.check (frames f as)).2).map (Said.bytes H.text)).flatten
  | [], h, h', d, f, out, r, hs => by
    simp only [Hub.run, Option.some.injEq, Prod.mk.injEq] at hs
    obtain ⟨rfl, rfl⟩ := hs
    exact ⟨r.srv.symm, fun i => rfl⟩
  | a :: as, h, h', d, f, out, r, hs => by
    rw [Hub.run] at hs
    cases h1 : h.step H a with
    | none => simp only [h1, reduceCtorEq] at hs
    | some p =>
      obtain ⟨g, b⟩ := p
      simp only [h1] at hs
      cases h2 : g.run H as with
      | none => simp only [h2, reduceCtorEq] at hs
      | some p =>
        obtain ⟨g', out'⟩ := p
        simp only [h2, Option.some.injEq, Prod.mk.injEq] at hs
        obtain ⟨rfl, rfl⟩ := hs
        obtain ⟨r', hb⟩ := step_sim r h1
        obtain ⟨i1, i2⟩ := run_sim r' h2
        rw [frames, run_append, run_hearAll]
        refine ⟨i1, fun i => ?_⟩
        rw [of_append, List.map_append, List.flatten_append, ← i2 i]
        by_cases hi : a.con = i
        · subst hi
          rw [of_same, ← hb]
          simp [of]
        · rw [of_other hi]
          simp [of, hi]

/-! ### Every message was sent -/

/-- The bytes of a list of inputs. -/
def chunks (as : List Inp) : List Bytes := as.filterMap fun | .read _ _ chunk => some chunk | .close _ => none

theorem bytesFrom_chunks (i : Nat) : ∀ (as : List Inp), bytesFrom i as = chunks (as.filter fun a => decide (a.con = i))
  | [] => rfl
  | .close j :: as => by
    have := bytesFrom_chunks i as
    by_cases h : j = i
    · simpa [bytesFrom, chunks, Inp.con, h] using this
    · simpa [bytesFrom, chunks, Inp.con, h] using this
  | .read j o c :: as => by
    have := bytesFrom_chunks i as
    by_cases h : j = i
    · simpa [bytesFrom, chunks, Inp.con, h] using this
    · simpa [bytesFrom, chunks, Inp.con, h] using this

theorem solo_dead : ∀ (as : List Inp), ∀ m ∈ solo .dead as, m = .bye
  | [], m, h => by simp [solo] at h
  | .read _ o c :: as, m, h => by
    simp only [solo, Fr.inp, Fr.feed, List.nil_append] at h
    exact solo_dead as m h
  | .close _ :: as, m, h => by
    simp only [solo, Fr.inp, List.cons_append, List.nil_append, List.mem_cons] at h
    rcases h with h | h
    · exact h
    · exact solo_dead as m h

theorem feed_none_buf {c c' : Conn} {x : Bytes} (h : c.feed x = (c', .none)) : c'.buf = c.buf ++ x := by
  unfold Conn.feed at h
  simp only at h
  split at h
  · cases h; rfl
  · split at h
    · simp only [Prod.mk.injEq] at h
      split at h <;> cases h.2
    · cases h; rfl
    · cases h

theorem feed_some_fresh {c c' : Conn} {x : Bytes} {e : Event} (h : c.feed x = (c', e)) (he : e ≠ .none) : c' = Conn.fresh := by
  unfold Conn.feed at h
  simp only at h
  split at h
  · cases h; exact absurd rfl he
  · split at h
    · cases h; rfl
    · cases h; exact absurd rfl he
    · cases h; rfl

theorem solo_talks : ∀ (as : List Inp) (c : Conn), Net.Sound c → c.buf.length + (chunks as).flatten.length < 2 ^ 64 →
    Talks (c.buf ++ (chunks as).flatten) (solo (.talk c) as)
  | [], c, _, _ => .rest _ _ (by simp [solo])
  | .close _ :: as, c, _, _ => by
    refine .rest _ _ fun m hm => ?_
    simp only [solo, Fr.inp, List.cons_append, List.nil_append, List.mem_cons] at hm
    rcases hm with h | h
    · exact h
    · exact solo_dead as m h
  | .read i o x :: as, c, hc, hl => by
    have hx : (chunks (.read i o x :: as)).flatten = x ++ (chunks as).flatten := by simp [chunks]
    rw [hx] at hl ⊢
    simp only [List.length_append] at hl
    have hs := Net.sound_feed c hc x (by simp only [List.length_append]; omega)
    rw [solo, Fr.inp, Fr.feed, ← List.append_assoc]
    rcases hf : c.feed x with ⟨c', e⟩
    rw [hf] at hs
    cases e with
    | none =>
      have hb := feed_none_buf hf
      have := solo_talks as c' hs.1 (by rw [hb]; simp only [List.length_append]; omega)
      rw [hb] at this
      exact this
    | illegal =>
      cases feed_some_fresh hf (by simp)
      have := solo_talks as Conn.fresh hs.1 (by simp only [Conn.fresh, List.length_nil]; omega)
      exact .illegal _ _ _ this
    | panic =>
      obtain ⟨payload, w, h1, h2⟩ := hs.2.2 rfl
      exact .dead _ _ payload w _ h1 h2 (solo_dead as)
    | query q p =>
      cases feed_some_fresh hf (by simp)
      have := solo_talks as Conn.fresh hs.1 (by simp only [Conn.fresh, List.length_nil]; omega)
      exact .query _ _ _ _ _ _ (hs.2.1 q p rfl) this

theorem sound_left (b : Bytes) : Net.Sound (Conn.fresh b) := ⟨Nat.zero_le _, rfl, rfl⟩

theorem left_length {b left name pwd : Bytes} (h : Announces b name.length pwd.length (name ++ pwd ++ left)) :
    left.length ≤ b.length := by
  obtain ⟨b6, ds, es, rfl, _⟩ := h
  simp only [List.length_append, List.length_cons]
  omega

theorem solo_greets : ∀ (as : List Inp) (c : HsConn), Net.HsSound c → c.buf.length + (chunks as).flatten.length < 2 ^ 64 →
    Greets (c.buf ++ (chunks as).flatten) (solo (.greet c) as)
  | [], c, _, _ => .rest _ _ (by simp [solo])
  | .close _ :: as, c, _, _ => by
    refine .rest _ _ fun m hm => ?_
    simp only [solo, Fr.inp, List.cons_append, List.nil_append, List.mem_cons] at hm
    rcases hm with h | h
    · exact h
    · exact solo_dead as m h
  | .read i o x :: as, c, hc, hl => by
    have hx : (chunks (.read i o x :: as)).flatten = x ++ (chunks as).flatten := by simp [chunks]
    rw [hx] at hl ⊢
    simp only [List.length_append] at hl
    obtain ⟨h1, h2⟩ := Net.hsSound_feed c hc x (by simp only [List.length_append]; omega)
    rw [solo, Fr.inp, Fr.feed, ← List.append_assoc]
    cases hf : c.feed x with
    | more c' =>
      obtain ⟨h3, h4⟩ := h2 c' hf
      have := solo_greets as c' h3 (by rw [h4]; simp only [List.length_append]; omega)
      rw [h4] at this
      exact this
    | done u p left =>
      rw [hf] at h1
      have hll := left_length h1
      simp only [List.length_append] at hll
      have := solo_talks as (Conn.fresh left) (sound_left left) (by simp only [Conn.fresh]; omega)
      exact .hello _ _ u p left _ h1 this
    | reject e => exact .bad _ e _ (solo_dead as)
    | panic => rw [hf] at h1; exact .dead _ _ _ h1 (solo_dead as)
    | oob =>
      rw [hf] at h1
      obtain ⟨u, p, rest, h3, h4⟩ := h1
      exact .wild _ _ rest u p _ h3 h4 (solo_dead as)

theorem hsSound_new : Net.HsSound {} := ⟨Nat.le_refl _, rfl, rfl⟩

/-! ### A client that follows the protocol -/

/-- The text and the parameters of a query. -/
def Msg.asked : Msg → Option (Bytes × Bytes)
  | .query _ text params => some (text, params)
  | _ => none

/-- The event in the model of the packets that a message is. -/
def Msg.event : Msg → Event
  | .query _ text params => .query text params
  | .illegal => .illegal
  | .dead => .panic
  | _ => .none

theorem solo_dead_reads : ∀ (as : List Inp), (∀ a ∈ as, ∀ i, a ≠ .close i) → solo .dead as = []
  | [], _ => rfl
  | .close i :: _, h => absurd rfl (h (.close i) (by simp) i)
  | .read i o x :: as, h => solo_dead_reads as fun a ha => h a (by simp [ha])

theorem solo_run : ∀ (as : List Inp) (c : Conn), (∀ a ∈ as, ∀ i, a ≠ .close i) →
    (solo (.talk c) as).map Msg.event = (c.run (chunks as)).2
  | [], _, _ => rfl
  | .close i :: _, _, h => absurd rfl (h (.close i) (by simp) i)
  | .read i o x :: as, c, h => by
    have h' : ∀ a ∈ as, ∀ i, a ≠ .close i := fun a ha => h a (by simp [ha])
    have hx : chunks (.read i o x :: as) = x :: chunks as := by simp [chunks]
    rw [hx, solo, Fr.inp, Fr.feed, Conn.run]
    rcases hf : c.feed x with ⟨c', e⟩
    cases e with
    | none => exact solo_run as c' h'
    | illegal => simp only [List.singleton_append, List.map_cons, solo_run as c' h', Msg.event]
    | panic => simp only [List.singleton_append, List.map_cons, solo_dead_reads as h', Msg.event, List.map_nil]
    | query q p => simp only [List.singleton_append, List.map_cons, solo_run as c' h', Msg.event]

theorem solo_hello : ∀ (as : List Inp) (c : HsConn) {u p left : Bytes} {more : List Bytes}, (∀ a ∈ as, ∀ i, a ≠ .close i) →
    c.run (chunks as) = (.done u p left, more) →
    ∃ bs, bs <:+ as ∧ chunks bs = more ∧ solo (.greet c) as = .hello u p :: solo (.talk (Conn.fresh left)) bs
  | [], c, u, p, left, more, _, h => by simp [chunks, HsConn.run] at h
  | .close i :: _, _, _, _, _, _, h, _ => absurd rfl (h (.close i) (by simp) i)
  | .read i o x :: as, c, u, p, left, more, hn, h => by
    have h' : ∀ a ∈ as, ∀ i, a ≠ .close i := fun a ha => hn a (by simp [ha])
    have hx : chunks (.read i o x :: as) = x :: chunks as := by simp [chunks]
    rw [hx, HsConn.run] at h
    rw [solo, Fr.inp, Fr.feed]
    cases hf : c.feed x with
    | more c' =>
      simp only [hf] at h
      obtain ⟨bs, h1, h2, h3⟩ := solo_hello as c' h' h
      exact ⟨bs, h1.trans (List.suffix_cons _ _), h2, h3⟩
    | done u' p' left' =>
      simp only [hf, Prod.mk.injEq, HsStep.done.injEq] at h
      obtain ⟨⟨rfl, rfl, rfl⟩, rfl⟩ := h
      exact ⟨as, List.suffix_cons _ _, rfl, rfl⟩
    | reject e => simp [hf] at h
    | panic => simp [hf] at h
    | oob => simp [hf] at h

theorem asked_event {ms : List Msg} {qs : List (Bytes × Bytes)} (h : ms.map Msg.event = qs.map fun q => Event.query q.1 q.2) :
    ms.map Msg.asked = qs.map some := by
  induction ms generalizing qs with
  | nil => cases qs with
    | nil => rfl
    | cons => simp at h
  | cons m ms ih =>
    cases qs with
    | nil => simp at h
    | cons q qs =>
      simp only [List.map_cons, List.cons.injEq] at h ⊢
      refine ⟨?_, ih h.2⟩
      cases m <;> simp only [Msg.event, reduceCtorEq, false_and] at h
      obtain ⟨⟨h1, h2⟩, -⟩ : (_ = _ ∧ _ = _) ∧ _ := ⟨by simpa using h.1, h.2⟩
      simp only [Msg.asked, h1, h2]

theorem solo_script {as : List Inp} {name pwd : Bytes} {qs : List ((Bytes × Bytes) × List Bytes)} {hs : List Bytes}
    (hn : ∀ a ∈ as, ∀ i, a ≠ .close i) (hb : chunks as = hs ++ (qs.map (·.2)).flatten)
    (h1 : hs.flatten = hello name pwd) (h2 : ∀ x ∈ hs, x ≠ []) (h3 : (hello name pwd).length < 2 ^ 64)
    (h4 : ∀ m ∈ qs, (packet m.1.1 m.1.2).length < 2 ^ 64)
    (h5 : ∀ m ∈ qs, m.2.flatten = packet m.1.1 m.1.2 ∧ ∀ x ∈ m.2, x ≠ []) :
    ∃ ms, solo (.greet {}) as = .hello name pwd :: ms ∧ ms.map Msg.asked = qs.map fun m => some m.1 := by
  have hr : HsConn.run {} (chunks as) = (.done name pwd [], (qs.map (·.2)).flatten) := by
    rw [hb]
    exact Net.C24_split_independent name pwd h3 hs _ h2 h1
  obtain ⟨bs, g1, g2, g3⟩ := solo_hello as {} hn hr
  refine ⟨_, g3, ?_⟩
  have hs := solo_run bs (Conn.fresh []) fun a ha => hn a (g1.subset ha)
  rw [g2, Net.C22_split_independent qs h4 h5] at hs
  have := asked_event (qs := qs.map (·.1)) (by rw [hs, List.map_map]; rfl)
  rw [this, List.map_map]
  rfl

theorem frames_reads : ∀ (as : List Inp) (f : Nat → Fr), ∀ e ∈ frames f as, ∀ o text params, e.2 = .query o text params →
    ∃ chunk, .read e.1 o chunk ∈ as
  | [], _, e, h, _, _, _, _ => by simp [frames] at h
  | a :: as, f, e, h, o, text, params, he => by
    rw [frames, List.mem_append] at h
    rcases h with h | h
    · obtain ⟨m, hm, rfl⟩ := List.mem_map.1 h
      simp only at he
      subst he
      cases a with
      | close i => simp [Fr.inp] at hm
      | read i o' x =>
        simp only [Fr.inp] at hm
        refine ⟨x, ?_⟩
        have : o' = o := by
          generalize f (Inp.con (.read i o' x)) = g at hm
          cases g with
          | greet c => simp only [Fr.feed] at hm; split at hm <;> simp at hm
          | talk c =>
            simp only [Fr.feed] at hm
            split at hm <;> simp at hm
            exact hm.1.symm
          | dead => simp [Fr.feed] at hm
        subst this
        simp [Inp.con]
    · obtain ⟨x, hx⟩ := frames_reads as _ e h o text params he
      exact ⟨x, by simp [hx]⟩

/-! ### Theorems -/

/-- **C65.** Take any inputs of any number of connections, as long as no undefined behaviour occurs. There are messages, in
one order for the whole server, such that:
the state of the server is that of the messages;
each client receives exactly the bytes of what is said to it, in this order;
each message of a client is in the bytes that this client sent: nothing is executed that was not sent as a whole packet;
and a client that follows the protocol, that is, sends a handshake and then packets, each in any pieces and after the reply to
the one before, has said exactly this. -/
theorem C65_conversations_partial {H : Host} {s : Srv} {as : List Inp} {h' : Hub} {out : List (Nat × Bytes)}
    (hrun : (Hub.start s).run H as = some (h', out)) :
    ∃ ms : List (Nat × Msg),
      ((Desk.start s).run H.check ms).1.srv = h'.srv ∧
      (∀ i, (of i out).flatten = ((of i ((Desk.start s).run H.check ms).2).map (Said.bytes H.text)).flatten) ∧
      (∀ i, (bytesFrom i as).flatten.length < 2 ^ 64 → Greets (bytesFrom i as).flatten (of i ms)) ∧
      (∀ i (name pwd : Bytes) (qs : List ((Bytes × Bytes) × List Bytes)) (hs : List Bytes),
        .close i ∉ as → bytesFrom i as = hs ++ (qs.map (·.2)).flatten →
        hs.flatten = hello name pwd → (∀ x ∈ hs, x ≠ []) → (hello name pwd).length < 2 ^ 64 →
        (∀ m ∈ qs, (packet m.1.1 m.1.2).length < 2 ^ 64) →
        (∀ m ∈ qs, m.2.flatten = packet m.1.1 m.1.2 ∧ ∀ x ∈ m.2, x ≠ []) →
        ∃ l, of i ms = .hello name pwd :: l ∧ l.map Msg.asked = qs.map fun m => some m.1) ∧
      (∀ e ∈ ms, ∀ o text params, e.2 = .query o text params → ∃ chunk, .read e.1 o chunk ∈ as) := by
  have hr : Rel (Hub.start s) (Desk.start s) (fun _ => .greet {}) := ⟨rfl, fun _ => .greet {}⟩
  obtain ⟨g1, g2⟩ := run_sim hr hrun
  refine ⟨frames (fun _ => .greet {}) as, g1, g2, fun i hl => ?_, fun i name pwd qs hs hn hb h1 h2 h3 h4 h5 => ?_, frames_reads as _⟩
  · rw [frames_solo, bytesFrom_chunks] at *
    exact solo_greets _ {} hsSound_new (by rw [← bytesFrom_chunks] at *; simpa using hl)
  · rw [frames_solo]
    rw [bytesFrom_chunks] at hb
    refine solo_script ?_ hb h1 h2 h3 h4 h5
    intro a ha j he
    subst he
    have h6 := List.mem_filter.1 ha
    have h7 : j = i := of_decide_eq_true h6.2
    subst h7
    exact hn h6.1

end Verif.Server
