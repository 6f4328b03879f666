import Verif.Net.Reply
/-!
C87: what a client gets when the task of its connection is stopped (`net/mod.rs:107-150`, `net/protocol/mod.rs:143-230`).

The task sends replies through tokio's `BufWriter` (a library, modelled as it is documented: bytes are collected in a buffer, which is
given to the socket when the next write does not fit, or by `flush`). `tokio::select!` drops the task where it waits: for a packet, for a
statement on the blocking pool, or for the socket to take bytes. What is still in the buffer is dropped with it.

Simplifications. A step is what happens between two points at which the task can wait. The packets of the client are the subject of
C22 and C23; here a packet is complete when a statement starts. An error of the socket ends the task like the signal does. What the
socket took is delivered to the client: losses in the network are outside.
-/
namespace Verif.Net.Writer
open Verif.Net.Reply (Response send numLf tyEmpty tyBool tyNull tyError)

/-! ### Model -/

/-- The writes for one reply (`net/protocol/mod.rs:202-223`); `write_all` and `write_u8` write one piece each. -/
def pieces : Except UInt8 Response → List Bytes
  | .ok .empty => [[tyEmpty]]
  | .ok (.serialized ty size data) => [[ty], Num.fmtU64 (UInt64.ofNat size), [10], data]
  | .ok (.bool b) => [[tyBool, if b then 1 else 0]]
  | .ok .null => [[tyNull]]
  | .error e => [tyError :: le 2 e.toNat]

/-- What is left to do for the reply: write a piece, or empty the buffer (`flush`, and what `BufWriter` does before a piece that does
not fit). -/
inductive Op where
  | write (b : Bytes)
  | drain
  deriving DecidableEq

/-- Where the task is. `reading`: it waits for a packet. `pool`: it waits for a statement on the blocking pool
(`core/exec.rs:104-187`). `sending`: it waits for the socket. `gone`: it was dropped (`orphan`: while its statement was on the pool). -/
inductive At where
  | reading
  | pool
  | sending (todo : List Op)
  | gone (orphan : Bool)
  deriving DecidableEq

/-- The task: the bytes that the socket took, the buffer, and where it is. -/
structure Task where
  sock : Bytes
  buf : Bytes
  pos : At
  deriving DecidableEq

/-- Go on until the socket is needed. `poll_write` of `BufWriter`: a piece that does not fit makes it empty the buffer first; a piece
that is not shorter than the capacity goes to the socket directly; other pieces go to the buffer. `write_all` of no bytes does
nothing. -/
def settle (cap : Nat) (buf : Bytes) : List Op → Bytes × List Op
  | [] => (buf, [])
  | .drain :: t => if buf = [] then settle cap buf t else (buf, .drain :: t)
  | .write b :: t =>
    if b = [] then settle cap buf t
    else if cap < buf.length + b.length ∧ buf ≠ [] then (buf, .drain :: .write b :: t)
    else if cap ≤ b.length then (buf, .write b :: t)
    else settle cap (buf ++ b) t

/-- With nothing left to do the task reads the next packet (`net/protocol/mod.rs:224-228`). -/
def Task.goOn (cap : Nat) (t : Task) (todo : List Op) : Task :=
  match settle cap t.buf todo with
  | (buf, []) => ⟨t.sock, buf, .reading⟩
  | (buf, todo) => ⟨t.sock, buf, .sending todo⟩

/-- The reply and the `flush` after it. -/
def Task.reply (cap : Nat) (t : Task) (r : Except UInt8 Response) : Task :=
  t.goOn cap ((pieces r).map .write ++ [.drain])

/-- What can happen: a statement is executed at once (`run_nb`); a statement is given to the blocking pool (`run_blocking_stmt`); it
is executed there; the socket takes at most `n` bytes; the task is dropped where it waits. -/
inductive Ev where
  | run (r : Except UInt8 Response)
  | hand
  | pool (r : Except UInt8 Response)
  | poll (n : Nat)
  | stop

/-- One step, and the reply of the statement that it executed, if it did. `none`: this cannot happen now. -/
def step (cap : Nat) (t : Task) : Ev → Option (Task × Option (Except UInt8 Response))
  | .run r => match t.pos with
    | .reading => some (t.reply cap r, some r)
    | _ => none
  | .hand => match t.pos with
    | .reading => some ({ t with pos := .pool }, none)
    | _ => none
  | .pool r => match t.pos with
    | .pool => some (t.reply cap r, some r)
    | .gone true => some ({ t with pos := .gone false }, some r)
    | _ => none
  | .poll n => match t.pos with
    | .sending (.drain :: todo) =>
      some (({ t with sock := t.sock ++ t.buf.take n, buf := t.buf.drop n } : Task).goOn cap (.drain :: todo), none)
    | .sending (.write b :: todo) =>
      some (({ t with sock := t.sock ++ b.take n } : Task).goOn cap (.write (b.drop n) :: todo), none)
    | _ => none
  | .stop => match t.pos with
    | .gone _ => none
    | .pool => some ({ t with pos := .gone true }, none)
    | _ => some ({ t with pos := .gone false }, none)

/-- A list of steps, and the replies of the statements that were executed. -/
def run (cap : Nat) : Task → List Ev → Option (Task × List (Except UInt8 Response))
  | t, [] => some (t, [])
  | t, v :: vs =>
    match step cap t v with
    | none => none
    | some (t', r) =>
      match run cap t' vs with
      | none => none
      | some (t'', rs) => some (t'', r.toList ++ rs)

/-- After the handshake (`net/protocol/mod.rs:161-162`): its four bytes are sent like a reply. The handshake is the subject of C24 and
C25; here the task starts when its answer was sent. -/
def Task.start : Task := ⟨[], [], .reading⟩

/-- `BUF_WRITE_CAP` (`net/mod.rs:53`). -/
def CAP : Nat := 16384

/-! ### Specification -/

/-- The bytes of the replies, one after the other. -/
def wire (rs : List (Except UInt8 Response)) : Bytes := (rs.map send).flatten

/-! ### Lemmas -/

/-- The pieces are the frame of C26. -/
theorem pieces_send (r : Except UInt8 Response) : (pieces r).flatten = send r := by
  rcases r with e | (_ | _ | b | ⟨ty, n, d⟩)
  all_goals simp [pieces, send, numLf]

/-- What the operations will send. -/
def rest : List Op → Bytes
  | [] => []
  | .drain :: t => rest t
  | .write b :: t => b ++ rest t

theorem rest_append (a b : List Op) : rest (a ++ b) = rest a ++ rest b := by
  induction a with
  | nil => rfl
  | cons x t ih => cases x <;> simp [rest, ih]

theorem rest_reply (ps : List Bytes) : rest (ps.map .write ++ [.drain]) = ps.flatten := by
  induction ps with
  | nil => rfl
  | cons p t ih => simp [rest] at ih ⊢; exact ih

/-- `settle` moves bytes from the operations to the buffer. -/
theorem settle_bytes (cap : Nat) (todo : List Op) (buf : Bytes) :
    (settle cap buf todo).1 ++ rest (settle cap buf todo).2 = buf ++ rest todo := by
  induction todo generalizing buf with
  | nil => rfl
  | cons op t ih =>
    cases op with
    | drain => rw [settle]; split <;> simp [ih, rest]
    | write b =>
      rw [settle]
      split
      · rename_i h; subst h; simp [ih, rest]
      · split
        · simp [rest]
        · split
          · simp [rest]
          · rw [ih]; simp [rest]

/-- The operations end with a `drain`. -/
def Flushed (todo : List Op) : Prop := ∃ t, todo = t ++ [.drain]

/-- With a `drain` at the end nothing is left in the buffer when all is done, and otherwise there still is one. -/
theorem settle_flushed (cap : Nat) (t : List Op) (buf : Bytes) :
    (settle cap buf (t ++ [.drain]) = ([], [])) ∨ Flushed (settle cap buf (t ++ [.drain])).2 := by
  induction t generalizing buf with
  | nil =>
    simp only [List.nil_append, settle]
    split
    · rename_i h; subst h; exact .inl rfl
    · exact .inr ⟨[], rfl⟩
  | cons op t ih =>
    cases op with
    | drain =>
      simp only [List.cons_append, settle]
      split
      · exact ih buf
      · exact .inr ⟨.drain :: t, rfl⟩
    | write b =>
      simp only [List.cons_append, settle]
      split
      · exact ih buf
      · split
        · exact .inr ⟨.drain :: .write b :: t, rfl⟩
        · split
          · exact .inr ⟨.write b :: t, rfl⟩
          · exact ih (buf ++ b)

/-- The socket is needed: there are bytes to send, and a piece goes to the socket directly only when the buffer is empty. -/
def Needs (buf : Bytes) : List Op → Prop
  | [] => True
  | .drain :: _ => buf ≠ []
  | .write b :: _ => b ≠ [] ∧ buf = []

theorem settle_needs (cap : Nat) (todo : List Op) (buf : Bytes) : Needs (settle cap buf todo).1 (settle cap buf todo).2 := by
  induction todo generalizing buf with
  | nil => exact trivial
  | cons op t ih =>
    cases op with
    | drain =>
      rw [settle]
      split
      · exact ih buf
      · rename_i h; exact h
    | write d =>
      rw [settle]
      split
      · exact ih buf
      · rename_i hd
        split
        · rename_i h; exact h.2
        · rename_i h1
          split
          · rename_i h2
            refine ⟨hd, Classical.byContradiction fun hn => h1 ⟨?_, hn⟩⟩
            have : 0 < buf.length := List.length_pos_iff.mpr hn
            omega
          · exact ih _

/-- What is true of the task between two steps, where `rs` are the replies of the statements that it executed. -/
def Ok (t : Task) (rs : List (Except UInt8 Response)) : Prop :=
  match t.pos with
  | .reading | .pool | .gone true => t.buf = [] ∧ t.sock = wire rs
  | .sending todo => Flushed todo ∧ t.sock ++ t.buf ++ rest todo = wire rs ∧ wire rs.dropLast <+: t.sock ∧
    Needs t.buf todo
  | .gone false => t.sock <+: wire rs ∧ wire rs.dropLast <+: t.sock

theorem wire_append (a b : List (Except UInt8 Response)) : wire (a ++ b) = wire a ++ wire b := by simp [wire]

theorem wire_dropLast (rs : List (Except UInt8 Response)) : wire rs.dropLast <+: wire rs := by
  rcases List.eq_nil_or_concat rs with rfl | ⟨l, x, rfl⟩
  · exact List.prefix_refl _
  · rw [List.concat_eq_append, List.dropLast_concat, wire_append]
    exact List.prefix_append _ _

theorem goOn_ok {cap : Nat} {t : Task} {rs : List (Except UInt8 Response)} {todo : List Op} (hf : Flushed todo)
    (hw : t.sock ++ t.buf ++ rest todo = wire rs) (hd : wire rs.dropLast <+: t.sock) : Ok (t.goOn cap todo) rs := by
  obtain ⟨l', rfl⟩ := hf
  have hb := settle_bytes cap (l' ++ [.drain]) t.buf
  have hs := settle_flushed cap l' t.buf
  unfold Task.goOn
  split
  · rename_i buf h
    rw [h] at hb hs
    rcases hs with hs | ⟨x, hx⟩
    · simp only [Prod.mk.injEq, and_true] at hs
      subst hs
      refine ⟨rfl, ?_⟩
      rw [← hw, List.append_assoc, ← hb]
      simp [rest]
    · simp at hx
  · rename_i buf td hne h
    rw [h] at hb hs
    rcases hs with hs | hs
    · simp only [Prod.mk.injEq] at hs
      exact absurd hs.2 hne
    · have hn := settle_needs cap (l' ++ [.drain]) t.buf
      rw [h] at hn
      refine ⟨hs, ?_, hd, hn⟩
      show t.sock ++ buf ++ rest td = _
      rw [← hw, List.append_assoc, hb, ← List.append_assoc]

theorem reply_ok {cap : Nat} {t : Task} {rs : List (Except UInt8 Response)} (hb : t.buf = []) (hs : t.sock = wire rs)
    (r : Except UInt8 Response) : Ok (t.reply cap r) (rs ++ [r]) := by
  refine goOn_ok ⟨_, rfl⟩ ?_ ?_
  · rw [rest_reply, pieces_send, hb, hs, wire_append]
    simp [wire]
  · rw [List.dropLast_concat, hs]
    exact List.prefix_refl _

theorem step_ok {cap : Nat} {t t' : Task} {rs : List (Except UInt8 Response)} {r : Option (Except UInt8 Response)} {v : Ev}
    (ho : Ok t rs) (h : step cap t v = some (t', r)) : Ok t' (rs ++ r.toList) := by
  obtain ⟨sock, buf, pos⟩ := t
  cases v with
  | run x =>
    cases pos <;> simp only [step, Option.some.injEq, Prod.mk.injEq, reduceCtorEq] at h
    obtain ⟨rfl, rfl⟩ := h
    exact reply_ok ho.1 ho.2 x
  | hand =>
    cases pos <;> simp only [step, Option.some.injEq, Prod.mk.injEq, reduceCtorEq] at h
    obtain ⟨rfl, rfl⟩ := h
    rw [Option.toList_none, List.append_nil]
    exact ho
  | pool x =>
    cases pos with
    | pool =>
      simp only [step, Option.some.injEq, Prod.mk.injEq] at h
      obtain ⟨rfl, rfl⟩ := h
      exact reply_ok ho.1 ho.2 x
    | gone o =>
      cases o <;> simp only [step, Option.some.injEq, Prod.mk.injEq, reduceCtorEq] at h
      obtain ⟨rfl, rfl⟩ := h
      have h2 : sock = wire rs := ho.2
      subst h2
      refine ⟨?_, ?_⟩
      · simp [wire_append]
      · simp
    | reading => simp [step] at h
    | sending td => simp [step] at h
  | poll n =>
    cases pos with
    | sending td =>
      obtain ⟨hf, hw, hd, hb⟩ := ho
      simp only at hf hw hd hb
      cases td with
      | nil => simp [step] at h
      | cons op td =>
        cases op with
        | drain =>
          simp only [step, Option.some.injEq, Prod.mk.injEq] at h
          obtain ⟨rfl, rfl⟩ := h
          simp only [Option.toList_none, List.append_nil]
          refine goOn_ok hf ?_ (List.IsPrefix.trans hd (List.prefix_append _ _))
          simpa [List.append_assoc, ← List.append_assoc (buf.take n)] using hw
        | write b =>
          simp only [step, Option.some.injEq, Prod.mk.injEq] at h
          obtain ⟨rfl, rfl⟩ := h
          simp only [Option.toList_none, List.append_nil]
          have hbuf := hb.2
          subst hbuf
          obtain ⟨l, hl⟩ := hf
          refine goOn_ok (t := ⟨_, [], _⟩) ?_ ?_ (List.IsPrefix.trans hd (List.prefix_append _ _))
          · cases l with
            | nil => simp at hl
            | cons x l =>
              simp only [List.cons_append, List.cons.injEq] at hl
              exact ⟨.write (b.drop n) :: l, by rw [hl.2]; rfl⟩
          · rw [← hw]
            simp only [rest, List.append_nil, List.append_assoc]
            rw [← List.append_assoc (b.take n), List.take_append_drop]
    | reading => simp [step] at h
    | pool => simp [step] at h
    | gone o => simp [step] at h
  | stop =>
    cases pos with
    | gone o => simp [step] at h
    | pool =>
      simp only [step, Option.some.injEq, Prod.mk.injEq] at h
      obtain ⟨rfl, rfl⟩ := h
      rw [Option.toList_none, List.append_nil]
      exact ho
    | reading =>
      simp only [step, Option.some.injEq, Prod.mk.injEq] at h
      obtain ⟨rfl, rfl⟩ := h
      rw [Option.toList_none, List.append_nil]
      have h2 : sock = wire rs := ho.2
      subst h2
      exact ⟨List.prefix_refl _, wire_dropLast rs⟩
    | sending td =>
      simp only [step, Option.some.injEq, Prod.mk.injEq] at h
      obtain ⟨rfl, rfl⟩ := h
      rw [Option.toList_none, List.append_nil]
      obtain ⟨-, hw, hd, -⟩ := ho
      refine ⟨?_, hd⟩
      show sock <+: wire rs
      rw [← hw, List.append_assoc]
      exact List.prefix_append _ _

theorem run_ok {cap : Nat} {vs : List Ev} {t t' : Task} {rs rs' : List (Except UInt8 Response)} (ho : Ok t rs)
    (h : run cap t vs = some (t', rs')) : Ok t' (rs ++ rs') := by
  induction vs generalizing t rs rs' with
  | nil =>
    simp only [run, Option.some.injEq, Prod.mk.injEq] at h
    obtain ⟨rfl, rfl⟩ := h
    simpa using ho
  | cons v vs ih =>
    rw [run] at h
    split at h
    · simp at h
    · rename_i t1 r hs
      split at h
      · simp at h
      · rename_i t2 rs2 hr
        simp only [Option.some.injEq, Prod.mk.injEq] at h
        obtain ⟨rfl, rfl⟩ := h
        rw [← List.append_assoc]
        exact ih (step_ok ho hs) hr

/-- What the socket has is a beginning of the replies, with all of them but perhaps the last. -/
theorem Ok.between {t : Task} {rs : List (Except UInt8 Response)} (h : Ok t rs) :
    t.sock <+: wire rs ∧ wire rs.dropLast <+: t.sock := by
  obtain ⟨sock, buf, pos⟩ := t
  have same : sock = wire rs → sock <+: wire rs ∧ wire rs.dropLast <+: sock := by
    rintro rfl; exact ⟨List.prefix_refl _, wire_dropLast rs⟩
  match pos with
  | .reading => exact same h.2
  | .pool => exact same h.2
  | .gone true => exact same h.2
  | .gone false => exact h
  | .sending td =>
    obtain ⟨-, hw, hd, -⟩ := h
    refine ⟨?_, hd⟩
    show sock <+: _
    rw [← hw, List.append_assoc]
    exact List.prefix_append _ _

theorem goOn_sock (cap : Nat) (t : Task) (todo : List Op) : (t.goOn cap todo).sock = t.sock := by
  unfold Task.goOn; split <;> rfl

/-- A task that goes on is not dropped by it. -/
theorem goOn_pos (cap : Nat) (t : Task) (todo : List Op) :
    (t.goOn cap todo).pos = .reading ∨ ∃ td, (t.goOn cap todo).pos = .sending td := by
  unfold Task.goOn; split
  · exact .inl rfl
  · exact .inr ⟨_, rfl⟩

/-- The task is alive and not on the pool. -/
def Task.open (t : Task) : Prop := t.pos = .reading ∨ ∃ td, t.pos = .sending td

/-- While it sends, every poll in which the socket takes `n > 0` bytes sends at least one byte and at most `n`. -/
theorem poll_moves {cap : Nat} {t : Task} {rs : List (Except UInt8 Response)} (ho : Ok t rs) {td : List Op} (hp : t.pos = .sending td)
    {n : Nat} (hn : 0 < n) : ∃ t', step cap t (.poll n) = some (t', none) ∧ Task.open t' ∧ Ok t' rs ∧
      t.sock.length < t'.sock.length ∧ t'.sock.length ≤ t.sock.length + n := by
  obtain ⟨sock, buf, pos⟩ := t
  subst hp
  cases td with
  | nil =>
    obtain ⟨⟨l, hl⟩, -⟩ := ho
    simp at hl
  | cons op td =>
    cases op with
    | drain =>
      have hb : buf ≠ [] := ho.2.2.2
      refine ⟨_, rfl, goOn_pos _ _ _, by simpa using step_ok (cap := cap) (v := .poll n) ho rfl, ?_⟩
      rw [goOn_sock]
      have := List.length_pos_iff.mpr hb
      simp only [List.length_append, List.length_take]
      omega
    | write b =>
      have hb : b ≠ [] := ho.2.2.2.1
      refine ⟨_, rfl, goOn_pos _ _ _, by simpa using step_ok (cap := cap) (v := .poll n) ho rfl, ?_⟩
      rw [goOn_sock]
      have := List.length_pos_iff.mpr hb
      simp only [List.length_append, List.length_take]
      omega

theorem run_append {cap : Nat} {vs ws : List Ev} {t t' t'' : Task} {rs rs' : List (Except UInt8 Response)}
    (h : run cap t vs = some (t', rs)) (h' : run cap t' ws = some (t'', rs')) : run cap t (vs ++ ws) = some (t'', rs ++ rs') := by
  induction vs generalizing t rs with
  | nil =>
    simp only [run, Option.some.injEq, Prod.mk.injEq] at h
    obtain ⟨rfl, rfl⟩ := h
    exact h'
  | cons v vs ih =>
    rw [run] at h
    split at h
    · simp at h
    · rename_i t1 r hs
      split at h
      · simp at h
      · rename_i t2 rs2 hr
        simp only [Option.some.injEq, Prod.mk.injEq] at h
        obtain ⟨rfl, rfl⟩ := h
        rw [List.cons_append, run, hs]
        simp [ih hr]

theorem Ok.reading {t : Task} {rs : List (Except UInt8 Response)} (h : Ok t rs) (hp : t.pos = .reading) : t.sock = wire rs := by
  unfold Ok at h; rw [hp] at h; exact h.2

/-- A task that sends one byte at a time comes through every number of bytes. -/
theorem poll_exactly {cap : Nat} {t : Task} {rs : List (Except UInt8 Response)} (ho : Ok t rs) (hp : Task.open t) (k : Nat)
    (hk : t.sock.length + k ≤ (wire rs).length) : ∃ t', run cap t (List.replicate k (.poll 1)) = some (t', []) ∧ Task.open t' ∧ Ok t' rs ∧
      t'.sock.length = t.sock.length + k := by
  induction k generalizing t with
  | zero => exact ⟨t, rfl, hp, ho, rfl⟩
  | succ k ih =>
    rcases hp with hp | ⟨td, hp⟩
    · rw [ho.reading hp] at hk
      omega
    · obtain ⟨t1, hs, h1, h2, h3, h4⟩ := poll_moves (cap := cap) ho hp (n := 1) (by omega)
      obtain ⟨t2, g1, g2, g3, g4⟩ := ih h2 h1 (by omega)
      refine ⟨t2, ?_, g2, g3, by omega⟩
      rw [List.replicate_succ, run, hs]
      simp [g1]

/-! ### A beginning of a reply is not read as a reply -/

open Verif.Net.Reply

theorem line_more {b l r : Bytes} (h : line b = some (l, r)) (x : Bytes) : line (b ++ x) = some (l, r ++ x) := by
  induction b generalizing l with
  | nil => simp [line] at h
  | cons c b ih =>
    rw [line] at h
    rw [List.cons_append, line]
    split at h
    · rename_i hc
      simp only [Option.some.injEq, Prod.mk.injEq] at h
      obtain ⟨rfl, rfl⟩ := h
      rw [if_pos hc]
    · rename_i hc
      rw [if_neg hc]
      split at h
      · rename_i l' r' hl
        simp only [Option.some.injEq, Prod.mk.injEq] at h
        obtain ⟨rfl, rfl⟩ := h
        rw [ih hl]
      · simp at h

theorem readCount_more {b r : Bytes} {n : Nat} (h : readCount b = some (n, r)) (x : Bytes) :
    readCount (b ++ x) = some (n, r ++ x) := by
  rw [readCount] at h
  split at h
  · rename_i l r' hl
    rw [readCount, line_more hl]
    cases hr : readNat l with
    | none => simp [hr] at h
    | some m =>
      simp only [hr, Option.map_some, Option.some.injEq, Prod.mk.injEq] at h
      obtain ⟨rfl, rfl⟩ := h
      simp [hr]
  · simp at h

theorem readBlock_more {b d r : Bytes} (h : readBlock b = some (d, r)) (x : Bytes) : readBlock (b ++ x) = some (d, r ++ x) := by
  rw [readBlock] at h
  split at h
  · rename_i n r' hl
    rw [readBlock, readCount_more hl]
    split at h
    · rename_i hn
      simp only [Option.some.injEq, Prod.mk.injEq] at h
      obtain ⟨rfl, rfl⟩ := h
      simp only [List.length_append, if_pos (by omega : n ≤ r'.length + x.length), Option.some.injEq, Prod.mk.injEq]
      rw [List.take_append_of_le_length hn, List.drop_append_of_le_length hn]
      exact ⟨rfl, rfl⟩
    · simp at h
  · simp at h

theorem readBool_more {b r : Bytes} {v : Bool} (h : readBool b = some (v, r)) (x : Bytes) :
    readBool (b ++ x) = some (v, r ++ x) := by
  unfold readBool at h
  split at h
  · simp only [Option.some.injEq, Prod.mk.injEq] at h
    obtain ⟨rfl, rfl⟩ := h; rfl
  · simp only [Option.some.injEq, Prod.mk.injEq] at h
    obtain ⟨rfl, rfl⟩ := h; rfl
  · simp at h

theorem cell_more (T : FloatText) (f : Nat) :
    (∀ b c r, readCell T f b = some (c, r) → ∀ f' x, f ≤ f' → readCell T f' (b ++ x) = some (c, r ++ x)) ∧
    (∀ n b cs r, readCells T f n b = some (cs, r) → ∀ f' x, f ≤ f' → readCells T f' n (b ++ x) = some (cs, r ++ x)) := by
  induction f with
  | zero => exact ⟨fun b c r h => by simp [readCell] at h, fun n b cs r h => by simp [readCells] at h⟩
  | succ f ih =>
    constructor
    · intro b c r h f' x hf
      obtain ⟨f', rfl⟩ : ∃ g, f' = g + 1 := ⟨f' - 1, by omega⟩
      cases b with
      | nil => simp [readCell] at h
      | cons d b =>
        rw [readCell] at h
        rw [List.cons_append, readCell]
        split at h
        · rename_i hd
          simp only [Option.some.injEq, Prod.mk.injEq] at h
          obtain ⟨rfl, rfl⟩ := h
          rw [if_pos hd]
        · rename_i hd
          rw [if_neg hd]
          cases ht : Tag.ofValue? (d.toNat - 1) with
          | none => simp [ht] at h
          | some t =>
            simp only [ht] at h ⊢
            cases hc : t.cls <;> simp only [hc] at h ⊢
            case bool =>
              cases hb : readBool b with
              | none => simp [hb] at h
              | some p =>
                obtain ⟨v, b'⟩ := p
                simp only [hb, Option.map_some, Option.some.injEq, Prod.mk.injEq] at h
                obtain ⟨rfl, rfl⟩ := h
                simp [readBool_more hb]
            case bin =>
              cases hb : readBlock b with
              | none => simp [hb] at h
              | some p =>
                obtain ⟨v, b'⟩ := p
                simp only [hb, Option.some.injEq, Prod.mk.injEq] at h
                obtain ⟨rfl, rfl⟩ := h
                simp [readBlock_more hb]
            case str =>
              cases hb : readBlock b with
              | none => simp [hb] at h
              | some p =>
                obtain ⟨v, b'⟩ := p
                simp only [hb] at h
                cases hs : decStr v with
                | none => simp [hs] at h
                | some w =>
                  simp only [hs, Option.map_some, Option.some.injEq, Prod.mk.injEq] at h
                  obtain ⟨rfl, rfl⟩ := h
                  simp [readBlock_more hb, hs]
            case list =>
              cases hb : readCount b with
              | none => simp [hb] at h
              | some p =>
                obtain ⟨v, b'⟩ := p
                simp only [hb] at h
                cases hs : readCells T f v b' with
                | none => simp [hs] at h
                | some w =>
                  obtain ⟨w, b''⟩ := w
                  simp only [hs, Option.map_some, Option.some.injEq, Prod.mk.injEq] at h
                  obtain ⟨rfl, rfl⟩ := h
                  simp [readCount_more hb, ih.2 _ _ _ _ hs f' x (by omega)]
            all_goals
              cases hb : line b with
              | none => simp [hb] at h
              | some p =>
                obtain ⟨v, b'⟩ := p
                simp only [hb] at h
                cases hs : readNum T t v with
                | none => simp [hs] at h
                | some w =>
                  simp only [hs, Option.map_some, Option.some.injEq, Prod.mk.injEq] at h
                  obtain ⟨rfl, rfl⟩ := h
                  simp [line_more hb, hs]
    · intro n b cs r h f' x hf
      obtain ⟨f', rfl⟩ : ∃ g, f' = g + 1 := ⟨f' - 1, by omega⟩
      rw [readCells] at h ⊢
      split at h
      · rename_i hn
        simp only [Option.some.injEq, Prod.mk.injEq] at h
        obtain ⟨rfl, rfl⟩ := h
        rw [if_pos hn]
      · rename_i hn
        rw [if_neg hn]
        cases hb : readCell T f b with
        | none => simp [hb] at h
        | some p =>
          obtain ⟨v, b'⟩ := p
          simp only [hb] at h
          cases hs : readCells T f (n - 1) b' with
          | none => simp [hs] at h
          | some w =>
            obtain ⟨w, b''⟩ := w
            simp only [hs, Option.map_some, Option.some.injEq, Prod.mk.injEq] at h
            obtain ⟨rfl, rfl⟩ := h
            simp [ih.1 _ _ _ hb f' x (by omega), ih.2 _ _ _ _ hs f' x (by omega)]

theorem readRows_more (T : FloatText) {cols n : Nat} {b r : Bytes} {rs : List (List Cell)} (h : readRows T cols n b = some (rs, r))
    (x : Bytes) : readRows T cols n (b ++ x) = some (rs, r ++ x) := by
  induction n generalizing b rs with
  | zero =>
    simp only [readRows, Option.some.injEq, Prod.mk.injEq] at h
    obtain ⟨rfl, rfl⟩ := h
    rfl
  | succ n ih =>
    rw [readRows] at h ⊢
    cases hb : readCells T (b.length + 2) cols b with
    | none => simp [hb] at h
    | some p =>
      obtain ⟨v, b'⟩ := p
      simp only [hb] at h
      cases hs : readRows T cols n b' with
      | none => simp [hs] at h
      | some w =>
        obtain ⟨w, b''⟩ := w
        simp only [hs, Option.map_some, Option.some.injEq, Prod.mk.injEq] at h
        obtain ⟨rfl, rfl⟩ := h
        rw [(cell_more T _).2 _ _ _ _ hb ((b ++ x).length + 2) x (by simp)]
        simp [ih hs]

/-- A reply that was read is read in the same way when more bytes follow. -/
theorem readReply_more (T : FloatText) {b r : Bytes} {a : Answer} (h : readReply T b = some (a, r)) (x : Bytes) :
    readReply T (b ++ x) = some (a, r ++ x) := by
  cases b with
  | nil => simp [readReply] at h
  | cons ty b =>
    rw [List.cons_append]
    unfold readReply at h ⊢
    dsimp only at h ⊢
    split at h
    · rename_i h1
      simp only [Option.some.injEq, Prod.mk.injEq] at h
      obtain ⟨rfl, rfl⟩ := h
      rw [if_pos h1]
    · rename_i h1
      rw [if_neg h1]
      split at h
      · rename_i h2
        simp only [Option.some.injEq, Prod.mk.injEq] at h
        obtain ⟨rfl, rfl⟩ := h
        rw [if_pos h2]
      · rename_i h2
        rw [if_neg h2]
        split at h
        · rename_i h3
          rw [if_pos h3]
          cases hb : readBool b with
          | none => simp [hb] at h
          | some p =>
            obtain ⟨v, b'⟩ := p
            simp only [hb, Option.map_some, Option.some.injEq, Prod.mk.injEq] at h
            obtain ⟨rfl, rfl⟩ := h
            simp [readBool_more hb]
        · rename_i h3
          rw [if_neg h3]
          split at h
          · rename_i h4
            rw [if_pos h4]
            match b, h with
            | [], h => simp at h
            | [_], h => simp at h
            | y :: z :: b, h =>
              simp only [Option.some.injEq, Prod.mk.injEq] at h
              obtain ⟨rfl, rfl⟩ := h
              rfl
          · rename_i h4
            rw [if_neg h4]
            split at h
            · rename_i h5
              rw [if_pos h5]
              cases hb : readBlock b with
              | none => simp [hb] at h
              | some p =>
                obtain ⟨v, b'⟩ := p
                simp only [hb] at h
                cases hs : decStr v with
                | none => simp [hs] at h
                | some w =>
                  simp only [hs, Option.map_some, Option.some.injEq, Prod.mk.injEq] at h
                  obtain ⟨rfl, rfl⟩ := h
                  simp [readBlock_more hb, hs]
            · rename_i h5
              rw [if_neg h5]
              split at h
              · rename_i h6
                rw [if_pos h6]
                cases hb : readCount b with
                | none => simp [hb] at h
                | some p =>
                  obtain ⟨v, b'⟩ := p
                  simp only [hb] at h
                  cases hs : readCells T (b'.length + 2) v b' with
                  | none => simp [hs] at h
                  | some w =>
                    obtain ⟨w, b''⟩ := w
                    simp only [hs, Option.map_some, Option.some.injEq, Prod.mk.injEq] at h
                    obtain ⟨rfl, rfl⟩ := h
                    simp only [readCount_more hb]
                    rw [(cell_more T _).2 _ _ _ _ hs ((b' ++ x).length + 2) x (by simp)]
                    rfl
              · rename_i h6
                rw [if_neg h6]
                split at h
                · rename_i h7
                  rw [if_pos h7]
                  cases hb : readCount b with
                  | none => simp [hb] at h
                  | some p =>
                    obtain ⟨v, b'⟩ := p
                    simp only [hb] at h
                    cases hc : readCount b' with
                    | none => simp [hc] at h
                    | some q =>
                      obtain ⟨u, b2⟩ := q
                      simp only [hc] at h
                      cases hs : readRows T u v b2 with
                      | none => simp [hs] at h
                      | some w =>
                        obtain ⟨w, b''⟩ := w
                        simp only [hs, Option.map_some, Option.some.injEq, Prod.mk.injEq] at h
                        obtain ⟨rfl, rfl⟩ := h
                        simp [readCount_more hb, readCount_more hc, readRows_more T hs]
                · simp at h

/-- A beginning of a reply is no reply. -/
theorem readReply_short (T : FloatText) (a : Answer) (h : a.Wf) {p x : Bytes} (hp : p ++ x = send (a.resp T)) (hx : x ≠ []) :
    readReply T p = none := by
  cases hr : readReply T p with
  | none => rfl
  | some q =>
    obtain ⟨a', r⟩ := q
    have h1 := readReply_more T hr x
    have h2 := C26_replies_are_decodable T a h []
    rw [List.append_nil, ← hp, h1] at h2
    simp [hx] at h2

theorem readReplies_some (T : FloatText) (as : List Answer) (h : ∀ a ∈ as, a.Wf) (x : Bytes) :
    readReplies T as.length ((as.map fun a => send (a.resp T)).flatten ++ x) = some (as.map Answer.canon, x) := by
  induction as with
  | nil => rfl
  | cons a as ih =>
    rw [List.length_cons, readReplies, List.map_cons, List.flatten_cons, List.append_assoc,
      C26_replies_are_decodable T a (h a (by simp))]
    simp only [ih (fun b hb => h b (by simp [hb])), Option.map_some, List.map_cons]

/-! ### Property theorems -/

/-- **C87.** At every moment, whatever the socket takes and wherever the task is dropped: the client got a beginning of the replies to
the statements that were executed, and all of them are there but perhaps the last; while the server waits for the next packet also
the last one is there. -/
theorem C87_replies {vs : List Ev} {t : Task} {rs : List (Except UInt8 Response)} (h : run CAP .start vs = some (t, rs)) :
    t.sock <+: wire rs ∧ wire rs.dropLast <+: t.sock ∧ (t.pos = .reading → t.sock = wire rs) := by
  have ho : Ok t rs := by simpa using run_ok (rs := []) (t := .start) ⟨rfl, rfl⟩ h
  exact ⟨ho.between.1, ho.between.2, ho.reading⟩

/-- **C87, the client.** It reads the answers of all statements that were executed, or of all but the last; in the second case what is
left does not look like an answer. -/
theorem C87_client (T : FloatText) {vs : List Ev} {t : Task} {as : List Answer} (hw : ∀ a ∈ as, a.Wf)
    (h : run CAP .start vs = some (t, as.map (Answer.resp T))) :
    readReplies T as.length t.sock = some (as.map Answer.canon, []) ∨
    ∃ p, readReplies T (as.length - 1) t.sock = some (as.dropLast.map Answer.canon, p) ∧ readReply T p = none := by
  obtain ⟨h1, h2, -⟩ := C87_replies h
  rcases List.eq_nil_or_concat as with rfl | ⟨l, a, rfl⟩
  · left
    have : t.sock = [] := List.prefix_nil.mp h1
    rw [this]; rfl
  · rw [List.concat_eq_append] at *
    rw [← List.map_dropLast, List.dropLast_concat] at h2
    obtain ⟨p, hp⟩ := h2
    obtain ⟨x, hx⟩ := h1
    rw [← hp, List.map_append, wire_append, List.append_assoc] at hx
    have hx := List.append_cancel_left hx
    have e : wire (l.map (Answer.resp T)) = (l.map fun a => send (a.resp T)).flatten := by simp [wire, Function.comp_def]
    have hl : ∀ b ∈ l, b.Wf := fun b hb => hw b (by simp [hb])
    have hx : p ++ x = send (a.resp T) := by simpa [wire] using hx
    by_cases hn : x = []
    · left
      subst hn
      have := readReplies_some T (l ++ [a]) hw []
      rw [← hp, e]
      simp only [List.append_nil] at hx this
      rw [hx]
      simpa using this
    · right
      refine ⟨p, ?_, readReply_short T a (hw a (by simp)) hx hn⟩
      rw [← hp, e, List.dropLast_concat]
      have := readReplies_some T l hl p
      simpa using this

/-- **C87, progress.** A task that sends comes through: after as many polls in which the socket takes something as there are bytes
left, at the latest, the reply is complete and the task reads again. -/
theorem C87_progress {vs : List Ev} {t : Task} {rs : List (Except UInt8 Response)} (h : run CAP .start vs = some (t, rs))
    {td : List Op} (hp : t.pos = .sending td) (ns : List Nat) (hn : ∀ n ∈ ns, 0 < n) (hl : (wire rs).length ≤ t.sock.length + ns.length) :
    ∃ i t', run CAP t ((ns.take i).map .poll) = some (t', []) ∧ t'.pos = .reading ∧ t'.sock = wire rs := by
  have ho : Ok t rs := by simpa using run_ok (rs := []) (t := .start) ⟨rfl, rfl⟩ h
  have key : ∀ (ns : List Nat) (t : Task), Ok t rs → Task.open t → (∀ n ∈ ns, 0 < n) → (wire rs).length ≤ t.sock.length + ns.length →
      ∃ i t', run CAP t ((ns.take i).map .poll) = some (t', []) ∧ t'.pos = .reading ∧ t'.sock = wire rs := by
    intro ns
    induction ns with
    | nil =>
      intro t ho hp hn hl
      rcases hp with hp | ⟨td, hp⟩
      · exact ⟨0, t, rfl, hp, ho.reading hp⟩
      · obtain ⟨t1, -, -, h2, h3, -⟩ := poll_moves (cap := CAP) ho hp (n := 1) (by omega)
        have := h2.between.1.length_le
        simp at hl
        omega
    | cons n ns ih =>
      intro t ho hp hn hl
      rcases hp with hp | ⟨td, hp⟩
      · exact ⟨0, t, rfl, hp, ho.reading hp⟩
      · obtain ⟨t1, hs, h1, h2, h3, -⟩ := poll_moves (cap := CAP) ho hp (n := n) (hn n (by simp))
        obtain ⟨i, t', g, g1, g2⟩ := ih t1 h2 h1 (fun m hm => hn m (by simp [hm])) (by simp at hl; omega)
        refine ⟨i + 1, t', ?_, g1, g2⟩
        rw [List.take_succ_cons, List.map_cons, run, hs]
        simp only [g, Option.toList_none, List.nil_append]
  exact key ns t ho (.inr ⟨td, hp⟩) hn hl

/-- **C87, violated.** The signal can come between a statement and its reply: whatever the statement and its reply, and for every
number of bytes that is less than the reply, there is a run in which the statement was executed and the client got so many bytes of
the reply and then no more. -/
theorem C87_cut_violated (r : Except UInt8 Response) (k : Nat) (hk : k < (send r).length) :
    ∃ vs t, run CAP .start vs = some (t, [r]) ∧ t.pos = .gone false ∧ t.sock = (send r).take k := by
  have h0 : run CAP .start [.run r] = some (Task.reply CAP .start r, [r]) := rfl
  have ho : Ok (Task.reply CAP .start r) [r] := reply_ok (rs := []) rfl rfl r
  have hs : (Task.reply CAP .start r).sock = [] := goOn_sock _ _ _
  have hw : wire [r] = send r := by simp [wire]
  obtain ⟨t, h1, h2, h3, h4⟩ := poll_exactly (cap := CAP) ho (goOn_pos _ _ _) k (by rw [hs, hw]; simp; omega)
  have ht : t.sock = (send r).take k := by
    have := h3.between.1
    rw [hw] at this
    rw [List.prefix_iff_eq_take.mp this, h4, hs]
    simp
  have hp : ∃ td, t.pos = .sending td := by
    rcases h2 with h2 | h2
    · have := h3.reading h2
      rw [hw, ht] at this
      have := congrArg List.length this
      simp at this
      omega
    · exact h2
  obtain ⟨td, hp⟩ := hp
  have h5 : run CAP t [.stop] = some ({ t with pos := .gone false }, []) := by simp [run, step, hp]
  exact ⟨[.run r] ++ (List.replicate k (.poll 1) ++ [.stop]), { t with pos := .gone false },
    by simpa using run_append h0 (run_append h1 h5), rfl, ht⟩

/-- **C87, violated.** A statement on the blocking pool is executed also when its connection was ended, and nobody is told. -/
theorem C87_orphan_violated (r : Except UInt8 Response) :
    run CAP .start [.hand, .stop, .pool r] = some (⟨[], [], .gone false⟩, [r]) := rfl

/-! ### Examples -/

/-- Three statements, the second on the blocking pool; the socket takes the third reply in two parts. -/
example : run CAP .start [.run (.ok .empty), .poll 9, .hand, .pool (.ok .null), .poll 1, .run (.error 7), .poll 2, .poll 5] =
    some (⟨[0x12, 0x00, 0x10, 7, 0], [], .reading⟩, [.ok .empty, .ok .null, .error 7]) := by rfl

/-- The signal comes in the middle of the third reply: the client has two replies and one byte. -/
example : run CAP .start [.run (.ok .empty), .poll 9, .hand, .pool (.ok .null), .poll 1, .run (.error 7), .poll 1, .stop] =
    some (⟨[0x12, 0x00, 0x10], [7, 0], .gone false⟩, [.ok .empty, .ok .null, .error 7]) := by rfl

/-- With a buffer of four bytes: a reply with six bytes of data, which go to the socket directly after the buffer was emptied; of the
rest of a piece that is short enough the buffer is filled again. -/
example : (step 4 .start (.run (.ok (.serialized 0x0D 6 [1, 2, 3, 4, 5, 6])))).map (·.1) =
    some ⟨[], [0x0D, 54, 10], .sending [.drain, .write [1, 2, 3, 4, 5, 6], .drain]⟩ := by decide +kernel

example : (run 4 .start [.run (.ok (.serialized 0x0D 6 [1, 2, 3, 4, 5, 6])), .poll 2, .poll 2, .poll 3]).map (·.1) =
    some ⟨[0x0D, 54, 10, 1, 2, 3], [4, 5, 6], .sending [.drain]⟩ := by decide +kernel

/-- While the task sends no statement of the connection starts; a task that is gone does nothing more. -/
example : step CAP (Task.reply CAP .start (.ok .empty)) .hand = none ∧ step CAP ⟨[], [], .gone false⟩ .stop = none ∧
    step CAP ⟨[], [], .gone false⟩ (.pool (.ok .empty)) = none := ⟨rfl, rfl, rfl⟩

end Verif.Net.Writer
