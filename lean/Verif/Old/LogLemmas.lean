import Verif.Old.Log
/-!
Lemmas for C59.
-/
namespace Verif.Old
open Verif.Gns (Cat)
open Verif.Enc (Event)

/-! ### What the old server wrote

The code that wrote the old log is not in the repository; the format is that of the comment in `raw.rs:27-43`, with the records of
opening and closing from the code. -/

/-- The record of an event. -/
def entry (id : Nat) (payload : Bytes) : Bytes := Md.encode ⟨id, STD, crc32 payload, payload.length⟩ ++ payload

/-- The records of the events of a session. -/
def entries : Nat → List Bytes → Bytes
  | _, [] => []
  | id, x :: xs => entry id x ++ entries (id + 1) xs

/-- A log: sessions that are closed, and reopened by the next one with the same id. -/
def logBytes : Nat → List (List Bytes) → Bytes
  | _, [] => []
  | id, [s] => entries id s ++ closeRec (id + s.length)
  | id, s :: t :: ss => entries id s ++ (closeRec (id + s.length) ++ (reopenRec (id + s.length) ++ logBytes (id + s.length + 1) (t :: ss)))

/-- The payload of an event: its code and its encoding. -/
def payloadOf (e : Event) : Bytes := le 2 e.code ++ e.encode

/-! ### Bytes -/

theorem md_length (m : Md) : m.encode.length = MD := by simp [Md.encode, MD]

theorem md_decode {m : Md} (h1 : m.id < 2 ^ 128) (h2 : m.src < 2 ^ 64) (h3 : m.crc < 2 ^ 32) (h4 : m.len < 2 ^ 64) (b : Bytes) :
    Md.decode (m.encode ++ b) = m := by
  obtain ⟨id, src, crc, len⟩ := m
  simp only [Md.decode, Md.encode, List.append_assoc, Md.mk.injEq]
  have t : ∀ (a b : Bytes) (n : Nat), a.length = n → (a ++ b).take n = a := fun a b n h => by subst h; simp
  have d : ∀ (a b : Bytes) (n : Nat), a.length = n → (a ++ b).drop n = b := fun a b n h => by subst h; simp
  refine ⟨?_, ?_, ?_, ?_⟩
  · rw [t _ _ 16 (by simp), unle_le16 h1]
  · rw [d _ _ 16 (by simp), t _ _ 8 (by simp), unle_le8 h2]
  · have e : le 16 id ++ (le 8 src ++ (le 4 crc ++ (le 8 len ++ b))) = (le 16 id ++ le 8 src) ++ (le 4 crc ++ (le 8 len ++ b)) := by simp
    rw [e, d _ _ 24 (by simp), t _ _ 4 (by simp), unle_le_of_lt (by omega)]
  · have e : le 16 id ++ (le 8 src ++ (le 4 crc ++ (le 8 len ++ b))) = (le 16 id ++ (le 8 src ++ le 4 crc)) ++ (le 8 len ++ b) := by simp
    rw [e, d _ _ 28 (by simp), t _ _ 8 (by simp), unle_le8 h4]

theorem md_decode' {m : Md} (h1 : m.id < 2 ^ 128) (h2 : m.src < 2 ^ 64) (h3 : m.crc < 2 ^ 32) (h4 : m.len < 2 ^ 64) :
    Md.decode m.encode = m := by
  have := md_decode h1 h2 h3 h4 []
  simpa using this

/-! ### The buffer does not matter as long as nobody seeks -/

/-- What is still to be read. -/
def Rd.At (r : Rd) (rest : Bytes) : Prop := r.buf ++ r.file.drop r.pos = rest

theorem Rd.At.read {r : Rd} {a b : Bytes} (h : r.At (a ++ b)) : ∃ r', r.read a.length = some (a, r') ∧ r'.At b := by
  unfold Rd.At at h
  unfold Rd.read
  by_cases h1 : a.length ≤ r.buf.length
  · have e1 : r.buf.take a.length = a := by
      have := congrArg (List.take a.length) h
      simpa [List.take_append, h1, Nat.sub_eq_zero_of_le h1] using this
    have e2 : r.buf.drop a.length ++ r.file.drop r.pos = b := by
      have := congrArg (List.drop a.length) h
      simpa [List.drop_append, h1, Nat.sub_eq_zero_of_le h1] using this
    exact ⟨{ r with buf := r.buf.drop a.length }, by simp [h1, e1], e2⟩
  · have hl := congrArg List.length h
    simp only [List.length_append] at hl
    have hm : a.length - r.buf.length ≤ (r.file.drop r.pos).length := by omega
    have e1 : r.buf ++ (r.file.drop r.pos).take (a.length - r.buf.length) = a := by
      have := congrArg (List.take a.length) h
      rw [List.take_append, List.take_of_length_le (by omega : r.buf.length ≤ a.length)] at this
      simpa using this
    have e2 : (r.file.drop r.pos).drop (a.length - r.buf.length) = b := by
      have := congrArg (List.drop a.length) h
      rw [List.drop_append, List.drop_eq_nil_of_le (by omega : r.buf.length ≤ a.length)] at this
      simpa using this
    simp only [if_neg h1]
    by_cases h2 : CAP ≤ a.length - r.buf.length
    · refine ⟨⟨r.file, r.pos + (a.length - r.buf.length), []⟩, ?_, ?_⟩
      · rw [if_pos h2, if_pos hm, e1]
      · show [] ++ r.file.drop _ = b
        rw [← e2, List.drop_drop, List.nil_append]
    · have h3 : a.length - r.buf.length ≤ ((r.file.drop r.pos).take CAP).length := by
        rw [List.length_take]; omega
      have e3 : ((r.file.drop r.pos).take CAP).take (a.length - r.buf.length) = (r.file.drop r.pos).take (a.length - r.buf.length) := by
        rw [List.take_take, Nat.min_eq_left (by omega)]
      refine ⟨⟨r.file, r.pos + ((r.file.drop r.pos).take CAP).length, ((r.file.drop r.pos).take CAP).drop (a.length - r.buf.length)⟩, ?_, ?_⟩
      · rw [if_neg h2, if_pos h3, e3, e1]
      · show _ ++ r.file.drop _ = b
        rw [← e2, ← List.drop_drop]
        have e4 : (r.file.drop r.pos) = (r.file.drop r.pos).take CAP ++ (r.file.drop r.pos).drop CAP := (List.take_append_drop _ _).symm
        have e5 : (r.file.drop r.pos).drop ((r.file.drop r.pos).take CAP).length = (r.file.drop r.pos).drop CAP := by
          rw [List.length_take]
          by_cases hc : CAP ≤ (r.file.drop r.pos).length
          · rw [Nat.min_eq_left hc]
          · rw [Nat.min_eq_right (by omega), List.drop_length, List.drop_eq_nil_of_le (by omega)]
        rw [e5]
        conv => rhs; rw [e4]
        rw [List.drop_append, Nat.sub_eq_zero_of_le h3, List.drop_zero]

theorem Rd.At.short {r : Rd} {a : Bytes} {n : Nat} (h : r.At a) (hn : a.length < n) : r.read n = none := by
  unfold Rd.At at h
  have hl := congrArg List.length h
  simp only [List.length_append] at hl
  unfold Rd.read
  rw [if_neg (by omega)]
  simp only [List.length_take]
  split
  · rw [if_neg (by omega)]
  · rw [if_neg (by omega)]

/-! ### Reading records -/

/-- A reader in the middle of a log that is in order so far. -/
structure LR.On (r : LR) (rest : Bytes) (id : Nat) (c : Cat) : Prop where
  rd : r.rd.At rest
  left : r.left = rest.length
  evid : r.evid = id
  cat : r.cat = c
  closed : r.closed = false

theorem LR.On.read {r : LR} {a b : Bytes} {id : Nat} {c : Cat} (h : r.On (a ++ b) id c) :
    ∃ r', r.read a.length = .ok (a, r') ∧ r'.On b id c := by
  obtain ⟨rd, h1, h2⟩ := h.rd.read
  refine ⟨{ r with rd, left := r.left - a.length }, ?_, h2, ?_, h.evid, h.cat, h.closed⟩
  · rw [LR.read, if_neg (by rw [h.left, List.length_append]; omega), h1]
  · show r.left - a.length = b.length
    rw [h.left, List.length_append]; omega

theorem LR.On.readMd {r : LR} {m : Md} {b : Bytes} {id : Nat} {c : Cat} (h : r.On (m.encode ++ b) id c) :
    ∃ r', r.read MD = .ok (m.encode, r') ∧ r'.On b id c := by
  have := h.read
  rwa [md_length] at this

theorem LR.On.short {r : LR} {a : Bytes} {n id : Nat} {c : Cat} (h : r.On a id c) (hn : a.length < n) : r.read n = .err .io := by
  rw [LR.read, if_pos (by rw [h.left]; omega)]

/-- A record of an event. -/
theorem LR.On.entry {r : LR} {x b : Bytes} {id : Nat} {c c' : Cat} (h : r.On (entry id x ++ b) id c) (hid : id < 2 ^ 64)
    (hx : x.length < 2 ^ 63) (hu : update c x = .ok (c', true)) : ∃ r', r.next = .ok r' ∧ r'.On b (id + 1) c' := by
  rw [Old.entry, List.append_assoc] at h
  obtain ⟨r1, h1, h2⟩ := h.readMd
  have hmd := md_decode' (m := ⟨id, STD, crc32 x, x.length⟩) (by simp only; omega) (by simp [STD]) (crc32_lt x) (by simp only; omega)
  obtain ⟨r2, h3, h4⟩ := h2.read
  have hc : r2.cat = c := h4.cat
  rw [LR.next, h1]
  simp only [Res.bind, hmd, h2.evid]
  rw [if_neg (by rw [Nat.mod_eq_of_lt hid]; simp), if_pos trivial, LR.event]
  rw [if_neg (by rw [h2.left, List.length_append]; simp), if_neg (by simpa using hx), h3]
  simp only [Res.bind, ne_eq, not_true, if_false]
  rw [hc, hu]
  simp only [if_true]
  exact ⟨_, rfl, h4.rd, h4.left, by show r2.evid + 1 = _; rw [h4.evid], rfl, h4.closed⟩

/-- The record at the end. -/
theorem LR.On.close {r : LR} {id : Nat} {c : Cat} (h : r.On (closeRec id) id c) (hid : id < 2 ^ 64) :
    ∃ r', r.next = .ok r' ∧ r'.left = 0 ∧ r'.closed = true ∧ r'.cat = c ∧ r'.evid = id := by
  have h' : r.On (closeRec id ++ []) id c := by simpa using h
  obtain ⟨r1, h1, h2⟩ := LR.On.readMd (m := ⟨id, CLOSED, 0, 0⟩) h'
  have hmd := md_decode' (m := ⟨id, CLOSED, 0, 0⟩) (by simp only; omega) (by simp [CLOSED]) (by simp) (by simp)
  have hl : r1.left = 0 := by rw [h2.left]; rfl
  rw [LR.next, h1]
  simp only [Res.bind, hmd, h2.evid]
  rw [if_neg (by rw [Nat.mod_eq_of_lt hid]; simp), if_neg (by simp [CLOSED, STD]), if_pos trivial, if_pos hl]
  exact ⟨_, rfl, hl, rfl, h2.cat, rfl⟩

/-- A session ends and the next one begins. -/
theorem LR.On.turn {r : LR} {b : Bytes} {id : Nat} {c : Cat} (h : r.On (closeRec id ++ (reopenRec id ++ b)) id c) (hid : id < 2 ^ 64) :
    ∃ r', r.next = .ok r' ∧ r'.On b (id + 1) c := by
  obtain ⟨r1, h1, h2⟩ := LR.On.readMd (m := ⟨id, CLOSED, 0, 0⟩) h
  have hmd := md_decode' (m := ⟨id, CLOSED, 0, 0⟩) (by simp only; omega) (by simp [CLOSED]) (by simp) (by simp)
  have hmd2 := md_decode' (m := ⟨id, REOPENED, 0, 0⟩) (by simp only; omega) (by simp [REOPENED]) (by simp) (by simp)
  obtain ⟨r2, h3, h4⟩ := LR.On.readMd (m := ⟨id, REOPENED, 0, 0⟩) h2
  have hl : r1.left = MD + b.length := by rw [h2.left, List.length_append, reopenRec, md_length]
  rw [LR.next, h1]
  simp only [Res.bind, hmd, h2.evid]
  rw [if_neg (by rw [Nat.mod_eq_of_lt hid]; simp), if_neg (by simp [CLOSED, STD]), if_pos trivial,
    if_neg (by rw [hl]; simp [MD]), LR.reopen, if_pos (by omega), h3]
  simp only [Res.bind, hmd2]
  rw [if_pos ⟨by rw [h4.evid, Nat.mod_eq_of_lt hid], trivial, trivial, trivial⟩]
  exact ⟨_, rfl, h4.rd, h4.left, by show r2.evid + 1 = _; rw [h4.evid], h4.cat, h4.closed⟩

/-- A session ends, and what follows is not complete. -/
theorem LR.On.halfTurn {r : LR} {b : Bytes} {id : Nat} {c : Cat} (h : r.On (closeRec id ++ b) id c) (hid : id < 2 ^ 64)
    (h0 : b ≠ []) (hb : b.length < MD) : r.next = .err .corrupted := by
  obtain ⟨r1, h1, h2⟩ := LR.On.readMd (m := ⟨id, CLOSED, 0, 0⟩) h
  have hmd := md_decode' (m := ⟨id, CLOSED, 0, 0⟩) (by simp only; omega) (by simp [CLOSED]) (by simp) (by simp)
  have hl : r1.left ≠ 0 := by rw [h2.left]; simpa using h0
  rw [LR.next, h1]
  simp only [Res.bind, hmd, h2.evid]
  rw [if_neg (by rw [Nat.mod_eq_of_lt hid]; simp), if_neg (by simp [CLOSED, STD]), if_pos trivial,
    if_neg hl, LR.reopen, if_neg (by rw [h2.left]; omega)]

theorem LR.On.nonempty {r : LR} {b : Bytes} {id : Nat} {c : Cat} (h : r.On b id c) (hb : b ≠ []) : r.left ≠ 0 := by
  rw [h.left]; simpa using hb

theorem LR.loop_step {r r' : LR} {fuel : Nat} (h0 : r.left ≠ 0) (h : r.next = .ok r') : LR.loop (fuel + 1) r = LR.loop fuel r' := by
  rw [LR.loop, if_neg h0, h]; rfl

theorem LR.loop_stop {r : LR} {fuel : Nat} (h0 : r.left = 0) : LR.loop (fuel + 1) r = .ok r := by rw [LR.loop, if_pos h0]

/-! ### Whole logs -/

/-- Events one after the other. -/
def updates : Cat → List Bytes → Option Cat
  | c, [] => some c
  | c, x :: xs =>
    match update c x with
    | .ok (c, true) => updates c xs
    | _ => none

theorem entry_ne {id : Nat} {x b : Bytes} : entry id x ++ b ≠ [] := by
  intro h
  have := congrArg List.length h
  simp [entry, md_length, MD] at this

theorem close_ne {id : Nat} {b : Bytes} : closeRec id ++ b ≠ [] := by
  intro h
  have := congrArg List.length h
  simp [closeRec, md_length, MD] at this

theorem entries_length : ∀ (xs : List Bytes) (id : Nat), xs.length ≤ (entries id xs).length
  | [], _ => by simp
  | x :: xs, id => by
    have := entries_length xs (id + 1)
    simp only [entries, entry, List.length_append, md_length, MD, List.length_cons]
    omega

theorem LR.On.entries {fuel : Nat} {b : Bytes} : ∀ {xs : List Bytes} {r : LR} {id : Nat} {c c' : Cat}, r.On (entries id xs ++ b) id c →
    id + xs.length < 2 ^ 64 → (∀ x ∈ xs, x.length < 2 ^ 63) → updates c xs = some c' →
    ∃ r', LR.loop (xs.length + fuel) r = LR.loop fuel r' ∧ r'.On b (id + xs.length) c'
  | [], r, id, c, c', h, _, _, hu => by
    cases hu
    exact ⟨r, by simp, h⟩
  | x :: xs, r, id, c, c', h, hid, hx, hu => by
    rw [Old.entries, List.append_assoc] at h
    rw [updates] at hu
    split at hu
    · rename_i c1 hc1
      simp only [List.length_cons] at hid
      obtain ⟨r1, h1, h2⟩ := h.entry (by omega) (hx x (by simp)) hc1
      obtain ⟨r2, h3, h4⟩ := LR.On.entries (fuel := fuel) h2 (by omega) (fun y hy => hx y (by simp [hy])) hu
      refine ⟨r2, ?_, ?_⟩
      · rw [List.length_cons, show xs.length + 1 + fuel = (xs.length + fuel) + 1 by omega,
          LR.loop_step (h.nonempty entry_ne) h1, h3]
      · rw [List.length_cons, show id + (xs.length + 1) = id + 1 + xs.length by omega]; exact h4
    · cases hu

/-- The ids that a log uses up. -/
def ids : List (List Bytes) → Nat
  | [] => 0
  | [s] => s.length
  | s :: t :: ss => s.length + 1 + ids (t :: ss)

/-- The rounds for a log. -/
theorem LR.On.log {fuel : Nat} : ∀ {ss : List (List Bytes)} {r : LR} {id : Nat} {c c' : Cat}, ss ≠ [] → r.On (logBytes id ss) id c →
    id + ids ss < 2 ^ 64 → (∀ s ∈ ss, ∀ x ∈ s, x.length < 2 ^ 63) → updates c ss.flatten = some c' →
    ∃ r', LR.loop (ids ss + 1 + (fuel + 1)) r = .ok r' ∧ r'.closed = true ∧ r'.cat = c' ∧ r'.evid = id + ids ss
  | [], _, _, _, _, h, _, _, _, _ => absurd rfl h
  | [s], r, id, c, c', _, h, hid, hx, hu => by
    rw [logBytes] at h
    simp only [ids] at hid
    obtain ⟨r1, h1, h2⟩ := h.entries (fuel := fuel + 2) (by omega) (hx s (by simp)) (by simpa using hu)
    obtain ⟨r2, h3, h4, h5, h6, h7⟩ := h2.close (by omega)
    refine ⟨r2, ?_, h5, h6, h7⟩
    rw [ids, show s.length + 1 + (fuel + 1) = s.length + (fuel + 2) by omega, h1,
      LR.loop_step (h2.nonempty (by simpa using close_ne (b := []))) h3, LR.loop_stop h4]
  | s :: t :: ss, r, id, c, c', _, h, hid, hx, hu => by
    rw [logBytes] at h
    simp only [ids] at hid
    have split : ∀ {a b : List Bytes} {c c' : Cat}, updates c (a ++ b) = some c' → ∃ d, updates c a = some d ∧ updates d b = some c' := by
      intro a
      induction a with
      | nil => intro b c c' h; exact ⟨c, rfl, h⟩
      | cons x a ih =>
        intro b c c' h
        rw [List.cons_append, updates] at h
        rw [updates]
        split at h
        · exact ih h
        · cases h
    obtain ⟨c1, hu1, hu2⟩ := split (a := s) (b := (t :: ss).flatten) (by simpa using hu)
    obtain ⟨r1, h1, h2⟩ := h.entries (fuel := 1 + (ids (t :: ss) + 1 + (fuel + 1))) (by omega) (hx s (by simp)) hu1
    obtain ⟨r2, h3, h4⟩ := h2.turn (by omega)
    obtain ⟨r3, h5, h6, h7, h8⟩ := LR.On.log (fuel := fuel) (by simp) h4 (by omega) (fun s hs => hx s (by simp [hs])) hu2
    refine ⟨r3, ?_, h6, h7, ?_⟩
    · rw [ids, show s.length + 1 + ids (t :: ss) + 1 + (fuel + 1) = s.length + (1 + (ids (t :: ss) + 1 + (fuel + 1))) by omega, h1,
        show 1 + (ids (t :: ss) + 1 + (fuel + 1)) = (ids (t :: ss) + 1 + (fuel + 1)) + 1 by omega,
        LR.loop_step (h2.nonempty close_ne) h3, h5]
    · rw [ids, h8]; omega

theorem ids_le : ∀ (ss : List (List Bytes)) (id : Nat), ss ≠ [] → ids ss + 1 ≤ (logBytes id ss).length
  | [], _, h => absurd rfl h
  | [s], id, _ => by
    have := entries_length s id
    simp only [ids, logBytes, List.length_append, closeRec, md_length, MD]
    omega
  | s :: t :: ss, id, _ => by
    have h1 := entries_length s id
    have h2 := ids_le (t :: ss) (id + s.length + 1) (by simp)
    rw [logBytes, ids]
    simp only [List.length_append, closeRec, reopenRec, md_length, MD]
    omega

/-- The reader at the start of a file. -/
theorem start_on {hdr : Bytes} (hh : hdr.length = HDR) (b : Bytes) :
    LR.On ⟨⟨hdr ++ b, HDR, []⟩, 0, false, (hdr ++ b).length - HDR, Cat.empty⟩ b 0 Cat.empty := by
  refine ⟨?_, ?_, rfl, rfl, rfl⟩
  · show [] ++ (hdr ++ b).drop HDR = b
    rw [← hh]; simp
  · simp [hh]

theorem readLog_logBytes {hdr : Bytes} (hh : hdr.length = HDR) {ss : List (List Bytes)} (h0 : ss ≠ []) (hid : ids ss < 2 ^ 64)
    (hx : ∀ s ∈ ss, ∀ x ∈ s, x.length < 2 ^ 63) {c : Cat} (hu : updates Cat.empty ss.flatten = some c) :
    readLog (hdr ++ logBytes 0 ss) = .ok (c, ids ss) := by
  have hl := ids_le ss 0 h0
  have hf : ∃ k, (hdr ++ logBytes 0 ss).length + 1 = ids ss + 1 + (k + 1) := by
    refine ⟨(hdr ++ logBytes 0 ss).length - ids ss - 1, ?_⟩
    simp only [List.length_append]
    omega
  obtain ⟨k, hk⟩ := hf
  obtain ⟨r, h1, h2, h3, h4⟩ := (start_on hh (logBytes 0 ss)).log (fuel := k) h0 (by omega) hx hu
  rw [readLog, hk, h1]
  simp only [Res.bind, h2, if_true, h3, h4, Nat.zero_add]

/-! ### Logs that are cut off -/

/-- Bytes that look like the record of a reversal. -/
def Fake (b : Bytes) : Prop :=
  (Md.decode b).id < 2 ^ 64 ∧ (Md.decode b).crc = 0 ∧ (Md.decode b).len = 0 ∧ (Md.decode b).src = REVERSE

theorem prefix_split {p a b : Bytes} (h : p <+: a ++ b) : (p.length < a.length ∧ p <+: a) ∨ ∃ q, p = a ++ q ∧ q <+: b := by
  rcases List.prefix_or_prefix_of_prefix h (List.prefix_append a b) with h1 | ⟨q, rfl⟩
  · by_cases hl : p.length < a.length
    · exact .inl ⟨hl, h1⟩
    · have : p = a := h1.eq_of_length (Nat.le_antisymm h1.length_le (by omega))
      exact .inr ⟨[], by simp [this], List.nil_prefix⟩
  · exact .inr ⟨q, rfl, (List.prefix_append_right_inj a).1 h⟩

theorem LR.On.stopped {r r' : LR} {id fuel : Nat} {c : Cat} (h : r.On [] id c) (hl : LR.loop fuel r = .ok r') : r'.closed = false := by
  cases fuel with
  | zero => cases hl
  | succ fuel =>
    rw [LR.loop_stop (by rw [h.left]; rfl)] at hl
    cases hl
    exact h.closed

/-- Less than a record is left. -/
theorem LR.On.piece {r r' : LR} {p : Bytes} {id fuel : Nat} {c : Cat} (h : r.On p id c) (hp : p.length < MD)
    (hl : LR.loop fuel r = .ok r') : r'.closed = false := by
  by_cases h0 : p = []
  · subst h0; exact h.stopped hl
  · cases fuel with
    | zero => cases hl
    | succ fuel =>
      rw [LR.loop, if_neg (h.nonempty h0), LR.next, h.short hp] at hl
      cases hl

theorem LR.loop_ok {r r' : LR} {fuel : Nat} (h0 : r.left ≠ 0) (h : LR.loop fuel r = .ok r') :
    ∃ r1 fuel', r.next = .ok r1 ∧ LR.loop fuel' r1 = .ok r' := by
  cases fuel with
  | zero => cases h
  | succ fuel =>
    rw [LR.loop, if_neg h0] at h
    obtain ⟨r1, h1, h2⟩ := Res.bind_eq_ok h
    exact ⟨r1, fuel, h1, h2⟩

/-- A record with a part of its payload. -/
theorem LR.On.half {r : LR} {x q : Bytes} {id : Nat} {c : Cat} (h : r.On (Md.encode ⟨id, STD, crc32 x, x.length⟩ ++ q) id c)
    (hid : id < 2 ^ 64) (hx : x.length < 2 ^ 64) (hq : q.length < x.length) (hf : MD ≤ q.length → ¬ Fake (q.take MD)) :
    r.next = .err .corrupted := by
  obtain ⟨r1, h1, h2⟩ := h.readMd
  have hmd := md_decode' (m := ⟨id, STD, crc32 x, x.length⟩) (by simp only; omega) (by simp [STD]) (crc32_lt x) hx
  rw [LR.next, h1]
  simp only [Res.bind, hmd]
  rw [if_neg (by rw [h2.evid, Nat.mod_eq_of_lt hid]; simp), if_pos trivial, LR.event, if_pos (by rw [h2.left]; exact hq), LR.recover]
  by_cases hl : q.length < MD
  · rw [h2.rd.short hl]
  · have e : q = q.take MD ++ q.drop MD := (List.take_append_drop _ _).symm
    have h3 : r1.rd.At (q.take MD ++ q.drop MD) := by rw [← e]; exact h2.rd
    obtain ⟨rd, h4, -⟩ := h3.read
    rw [List.length_take, Nat.min_eq_left (by omega)] at h4
    rw [h4]
    simp only
    rw [if_neg]
    rintro ⟨a, b, c, d⟩
    exact hf (by omega) ⟨by rw [a, h2.evid]; exact hid, b, c, d⟩

theorem LR.On.cutEntries {T : Bytes} {r' : LR} : ∀ {xs : List Bytes} {r : LR} {p : Bytes} {id fuel : Nat} {c c' : Cat}, r.On p id c →
    p <+: Old.entries id xs ++ T → id + xs.length < 2 ^ 64 → (∀ x ∈ xs, x.length < 2 ^ 63 ∧ ¬ Fake (x.take MD)) →
    updates c xs = some c' → LR.loop fuel r = .ok r' → r'.closed = true →
    ∃ q r1 fuel', p = Old.entries id xs ++ q ∧ q <+: T ∧ r1.On q (id + xs.length) c' ∧ LR.loop fuel' r1 = .ok r'
  | [], r, p, id, fuel, c, c', h, hp, _, _, hu, hl, _ => by
    cases hu
    exact ⟨p, r, fuel, rfl, hp, h, hl⟩
  | x :: xs, r, p, id, fuel, c, c', h, hp, hid, hx, hu, hl, hc => by
    simp only [List.length_cons] at hid
    obtain ⟨hx1, hx2⟩ := hx x (by simp)
    rw [Old.entries, Old.entry, List.append_assoc, List.append_assoc] at hp
    rcases prefix_split hp with ⟨h1, -⟩ | ⟨q, rfl, h2⟩
    · rw [md_length] at h1
      rw [h.piece h1 hl] at hc
      cases hc
    · obtain ⟨r1, f1, h3, h4⟩ := LR.loop_ok (h.nonempty (by intro h0; have := congrArg List.length h0; simp [md_length, MD] at this)) hl
      rcases prefix_split h2 with ⟨h5, h6⟩ | ⟨q', rfl, h6⟩
      · rw [h.half (by omega) (by omega) h5 (by
          intro hq hf
          obtain ⟨t, rfl⟩ := h6
          rw [List.take_append, Nat.sub_eq_zero_of_le hq] at hx2
          simp only [List.take_zero, List.append_nil] at hx2
          exact hx2 hf)] at h3
        cases h3
      · rw [updates] at hu
        split at hu
        · rename_i c1 hc1
          have h' : r.On (Old.entry id x ++ q') id c := by rw [Old.entry, List.append_assoc]; exact h
          obtain ⟨r2, h7, h8⟩ := h'.entry (by omega) hx1 hc1
          rw [h7] at h3
          cases h3
          obtain ⟨q, r3, f3, e, i1, i2, i3⟩ := LR.On.cutEntries h8 h6 (by omega) (fun y hy => hx y (by simp [hy])) hu h4 hc
          subst e
          refine ⟨q, r3, f3, ?_, i1, ?_, i3⟩
          · rw [Old.entries, Old.entry]; simp
          · rw [List.length_cons, show id + (xs.length + 1) = id + 1 + xs.length by omega]; exact i2
        · cases hu

theorem updates_split : ∀ {a b : List Bytes} {c c' : Cat}, updates c (a ++ b) = some c' → ∃ d, updates c a = some d ∧ updates d b = some c' := by
  intro a
  induction a with
  | nil => intro b c c' h; exact ⟨c, rfl, h⟩
  | cons x a ih =>
    intro b c c' h
    rw [List.cons_append, updates] at h
    rw [updates]
    split at h
    · exact ih h
    · cases h

/-- If the beginning of a log is accepted, it is that of some sessions. -/
theorem LR.On.cut {r' : LR} : ∀ {ss : List (List Bytes)} {r : LR} {p : Bytes} {id fuel : Nat} {c c' : Cat}, r.On p id c →
    p <+: logBytes id ss → id + ids ss < 2 ^ 64 → (∀ s ∈ ss, ∀ x ∈ s, x.length < 2 ^ 63 ∧ ¬ Fake (x.take MD)) →
    updates c ss.flatten = some c' → LR.loop fuel r = .ok r' → r'.closed = true →
    ∃ k, 0 < k ∧ k ≤ ss.length ∧ p = logBytes id (ss.take k)
  | [], r, p, id, fuel, c, c', h, hp, _, _, _, hl, hc => by
    have : p = [] := by simpa [logBytes] using hp
    subst this
    rw [h.stopped hl] at hc
    cases hc
  | [s], r, p, id, fuel, c, c', h, hp, hid, hx, hu, hl, hc => by
    rw [logBytes] at hp
    simp only [ids] at hid
    obtain ⟨q, r1, f1, rfl, h1, h2, h3⟩ := h.cutEntries hp hid (hx s (by simp)) (by simpa using hu) hl hc
    by_cases hq : q.length < MD
    · rw [h2.piece hq h3] at hc
      cases hc
    · have : q = closeRec (id + s.length) := h1.eq_of_length (Nat.le_antisymm h1.length_le (by rw [closeRec, md_length]; omega))
      exact ⟨1, by simp, by simp, by rw [this]; rfl⟩
  | s :: t :: ss, r, p, id, fuel, c, c', h, hp, hid, hx, hu, hl, hc => by
    rw [logBytes] at hp
    simp only [ids] at hid
    obtain ⟨c1, hu1, hu2⟩ := updates_split (a := s) (b := (t :: ss).flatten) (by simpa using hu)
    obtain ⟨q, r1, f1, rfl, h1, h2, h3⟩ := h.cutEntries hp (by omega) (hx s (by simp)) hu1 hl hc
    rcases prefix_split h1 with ⟨h4, -⟩ | ⟨q1, rfl, h4⟩
    · rw [closeRec, md_length] at h4
      rw [h2.piece h4 h3] at hc
      cases hc
    · by_cases h0 : q1 = []
      · subst h0
        exact ⟨1, by simp, by simp, by simp [logBytes]⟩
      · obtain ⟨r2, f2, h5, h6⟩ := LR.loop_ok (h2.nonempty close_ne) h3
        rcases prefix_split h4 with ⟨h7, -⟩ | ⟨q2, rfl, h7⟩
        · rw [reopenRec, md_length] at h7
          rw [h2.halfTurn (by omega) h0 h7] at h5
          cases h5
        · obtain ⟨r3, h8, h9⟩ := h2.turn (by omega)
          rw [h8] at h5
          cases h5
          obtain ⟨k, k1, k2, k3⟩ := LR.On.cut h9 h7 (by omega) (fun s hs => hx s (by simp [hs])) hu2 h6 hc
          refine ⟨k + 1, by omega, by simpa using k2, ?_⟩
          obtain ⟨k, rfl⟩ : ∃ j, k = j + 1 := ⟨k - 1, by omega⟩
          simp only [List.take_succ_cons] at k3 ⊢
          rw [logBytes, k3]

/-- A record that does not fit its checksum is skipped if the next one reverses it, and is an error otherwise. -/
theorem LR.On.damaged {r : LR} {x b : Bytes} {m : Md} {id crc : Nat} {c : Cat}
    (h : r.On (Md.encode ⟨id, STD, crc, x.length⟩ ++ (x ++ (m.encode ++ b))) id c)
    (hid : id < 2 ^ 64) (hx : x.length < 2 ^ 63) (hc : crc < 2 ^ 32)
    (hne : crc32 x ≠ crc ∨ update c x = .ok (c, false))
    (h1 : m.id < 2 ^ 128) (h2 : m.src < 2 ^ 64) (h3 : m.crc < 2 ^ 32) (h4 : m.len < 2 ^ 64) :
    if m = ⟨id, REVERSE, 0, 0⟩ then ∃ r', r.next = .ok r' ∧ r'.On b (id + 1) c else r.next = .err .corrupted := by
  obtain ⟨r1, e1, o1⟩ := h.readMd
  have hmd := md_decode' (m := ⟨id, STD, crc, x.length⟩) (by simp only; omega) (by simp [STD]) hc (by simp only; omega)
  obtain ⟨r2, e2, o2⟩ := o1.read
  obtain ⟨rd, e3, o3⟩ := o2.rd.read
  rw [md_length] at e3
  have hn : r.next = r2.recover := by
    rw [LR.next, e1]
    simp only [Res.bind, hmd]
    rw [if_neg (by rw [o1.evid, Nat.mod_eq_of_lt hid]; simp), if_pos trivial, LR.event,
      if_neg (by rw [o1.left, List.length_append]; simp), if_neg (by simpa using hx), e2]
    simp only [Res.bind, ne_eq]
    by_cases hcrc : crc32 x = crc
    · rw [if_neg (by simpa using hcrc), o2.cat, hne.resolve_left (by simpa using hcrc)]
      simp only [Bool.false_eq_true, if_false]
      rw [← o2.cat]
    · rw [if_pos hcrc]
  have hr : r2.recover = if m = ⟨id, REVERSE, 0, 0⟩ then
      .ok { r2 with rd := rd, evid := r2.evid + 1, left := if MD ≤ r2.left then r2.left - MD else 2 ^ 64 - (MD - r2.left) }
      else .err .corrupted := by
    rw [LR.recover, e3]
    simp only
    rw [md_decode' h1 h2 h3 h4, o2.evid]
    obtain ⟨a, b, c, d⟩ := m
    simp only [Md.mk.injEq]
    by_cases hh : a = id ∧ b = REVERSE ∧ c = 0 ∧ d = 0
    · rw [if_pos hh, if_pos ⟨hh.1, hh.2.2.1, hh.2.2.2, hh.2.1⟩]
    · rw [if_neg hh, if_neg (fun hx => hh ⟨hx.1, hx.2.2.2, hx.2.1, hx.2.2.1⟩)]
  rw [hn, hr]
  split
  · refine ⟨_, rfl, o3, ?_, by show r2.evid + 1 = _; rw [o2.evid], o2.cat, o2.closed⟩
    have : r2.left = MD + b.length := by rw [o2.left, List.length_append, md_length]
    show (if MD ≤ r2.left then _ else _) = _
    rw [if_pos (by omega)]; omega
  · rfl

/-! ### The fuel -/

/-- How many bytes can be read before the end of the file. -/
def Rd.avail (r : Rd) : Nat := r.buf.length + (r.file.length - r.pos)

theorem Rd.read_avail {r r' : Rd} {n : Nat} {b : Bytes} (h : r.read n = some (b, r')) :
    r'.avail + n = r.avail ∧ r.pos ≤ r'.pos := by
  unfold Rd.read at h
  split at h
  · cases h
    simp only [Rd.avail, List.length_drop]
    omega
  · simp only at h
    split at h
    · split at h
      · cases h
        rename_i h3
        simp only [List.length_drop] at h3
        simp only [Rd.avail, List.length_nil]
        omega
      · cases h
    · split at h
      · cases h
        rename_i h3
        simp only [List.length_take, List.length_drop] at h3
        simp only [Rd.avail, List.length_drop, List.length_take]
        omega
      · cases h

theorem LR.read_avail {r r' : LR} {n : Nat} {b : Bytes} (h : r.read n = .ok (b, r')) :
    r'.rd.avail + n = r.rd.avail ∧ r.rd.pos ≤ r'.rd.pos := by
  unfold LR.read at h
  split at h
  · cases h
  · split at h
    · rename_i hr
      cases h
      exact Rd.read_avail hr
    · cases h

theorem LR.recover_avail {r r' : LR} (h : r.recover = .ok r') : r'.rd.avail + MD = r.rd.avail ∧ r.rd.pos ≤ r'.rd.pos := by
  unfold LR.recover at h
  split at h
  · cases h
  · rename_i hr
    simp only at h
    split at h
    · cases h
      exact Rd.read_avail hr
    · cases h

theorem LR.reopen_avail {r r' : LR} (h : r.reopen = .ok r') : r'.rd.avail ≤ r.rd.avail ∧ r.rd.pos ≤ r'.rd.pos := by
  unfold LR.reopen at h
  split at h
  · obtain ⟨⟨b, r1⟩, h1, h2⟩ := Res.bind_eq_ok h
    have := LR.read_avail h1
    simp only at h2
    split at h2
    · cases h2
      simp only; omega
    · cases h2
  · cases h

theorem LR.event_avail {r r' : LR} {e : Md} (h : r.event e = .ok r') : r'.rd.avail ≤ r.rd.avail ∧ r.rd.pos ≤ r'.rd.pos := by
  unfold LR.event at h
  split at h
  · have := LR.recover_avail h; omega
  · split at h
    · cases h
    · obtain ⟨⟨b, r1⟩, h1, h2⟩ := Res.bind_eq_ok h
      have := LR.read_avail h1
      simp only at h2
      split at h2
      · have := LR.recover_avail h2; omega
      · obtain ⟨⟨c, f⟩, h3, h4⟩ := Res.bind_eq_ok h2
        simp only at h4
        split at h4
        · cases h4; simp only; omega
        · have := LR.recover_avail h4; simp only at this; omega

/-- Every round gets closer to the end of the file, also those that seek. -/
theorem LR.next_avail {r r' : LR} (h : r.next = .ok r') : r'.rd.avail < r.rd.avail := by
  unfold LR.next at h
  obtain ⟨⟨b, r1⟩, h1, h2⟩ := Res.bind_eq_ok h
  have h3 := LR.read_avail h1
  simp only [MD] at h3
  simp only at h2
  split at h2
  · have h4 := LR.recover_avail h2
    simp only [Rd.seekBack, Rd.avail, MD] at h4 h3 ⊢
    omega
  · split at h2
    · have h4 := LR.event_avail h2
      omega
    · split at h2
      · split at h2
        · cases h2
          show r1.rd.avail < r.rd.avail
          omega
        · have h4 := LR.reopen_avail h2
          omega
      · split at h2 <;> cases h2

/-- One more round than there are bytes is enough. -/
theorem LR.loop_fuel : ∀ {fuel : Nat} {r : LR}, r.rd.avail < fuel → LR.loop (fuel + 1) r = LR.loop fuel r
  | 0, _, h => by omega
  | fuel + 1, r, h => by
    rw [LR.loop, LR.loop]
    split
    · rfl
    · cases hn : r.next with
      | ok r' =>
        have := LR.next_avail hn
        exact LR.loop_fuel (by omega)
      | err e => rfl
      | panic => rfl
      | hang => rfl

end Verif.Old
