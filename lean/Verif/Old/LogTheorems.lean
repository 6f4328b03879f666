import Verif.Old.LogLemmas
/-!
C59: the log of the catalogue of an old installation is read as it was written.
-/
namespace Verif.Old
open Verif.Gns (Cat)
open Verif.Enc (Event Uuid WfEvent)

/-- An event that the old server could write: it fits its encoding and is not about users (who are in another file). -/
structure OldEv (e : Event) : Prop where
  wf : WfEvent e
  code : e.code < 8
  size : (payloadOf e).length < 2 ^ 63

/-- The log of these sessions. -/
def oldLog (ss : List (List Event)) : Bytes := logBytes 0 (ss.map (·.map payloadOf))

theorem take_le : ∀ (k n v : Nat), k ≤ n → (le n v).take k = le k v
  | 0, n, v, _ => by simp [le]
  | k + 1, 0, v, h => by omega
  | k + 1, n + 1, v, h => by simp only [le, List.take_succ_cons, take_le k n _ (by omega)]

theorem drop_le : ∀ (k n v : Nat), (le n v).drop k = le (n - k) (v / 256 ^ k)
  | 0, n, v => by simp
  | k + 1, 0, v => by simp [le]
  | k + 1, n + 1, v => by
    simp only [le, List.drop_succ_cons, drop_le k n, Nat.add_sub_add_right, Nat.div_div_eq_div_mul]
    rw [Nat.pow_succ, Nat.mul_comm]

theorem unle_append : ∀ (a b : Bytes), unle (a ++ b) = unle a + 256 ^ a.length * unle b
  | [], b => by simp [unle]
  | x :: a, b => by
    simp only [List.cons_append, unle, unle_append a b, List.length_cons, Nat.pow_succ]
    rw [Nat.mul_add, ← Nat.mul_assoc, Nat.mul_comm 256 (256 ^ a.length)]
    omega

theorem update_payload {c c' : Cat} {e : Event} (h : OldEv e) (ha : Gns.apply c e = .ok c') : update c (payloadOf e) = .ok (c', true) := by
  have h1 := h.code
  have h2 : unle ((payloadOf e).take 2) = e.code := by
    have : (payloadOf e).take 2 = le 2 e.code := by
      rw [payloadOf, List.take_append, List.take_of_length_le (by simp)]; simp
    rw [this, unle_le_of_lt (by omega)]
  have h3 : (payloadOf e).drop 2 = e.encode := by
    rw [payloadOf, List.drop_append, List.drop_eq_nil_of_le (by simp)]; simp
  rw [update, if_neg (by simp [payloadOf])]
  simp only [h2, h3]
  rw [if_neg (by omega), if_neg (by omega), Enc.C08_nothing_left_over e h.wf]
  simp only [ha]
  rfl

theorem updates_payloads : ∀ {es : List Event} {c c' : Cat}, (∀ e ∈ es, OldEv e) → Gns.applyAll c es = .ok c' →
    updates c (es.map payloadOf) = some c'
  | [], c, c', _, h => by cases h; rfl
  | e :: es, c, c', he, h => by
    obtain ⟨c1, h1, h2⟩ := Res.bind_eq_ok h
    rw [List.map_cons, updates, update_payload (he e (by simp)) h1]
    exact updates_payloads (fun x hx => he x (by simp [hx])) h2

theorem oldEv_all {ss : List (List Event)} (h : ∀ s ∈ ss, ∀ e ∈ s, OldEv e) :
    ∀ s ∈ ss.map (·.map payloadOf), ∀ x ∈ s, ∃ e, OldEv e ∧ (∃ s' ∈ ss, e ∈ s') ∧ x = payloadOf e := by
  intro s hs x hx
  obtain ⟨t, ht, rfl⟩ := List.mem_map.1 hs
  obtain ⟨e, he, rfl⟩ := List.mem_map.1 hx
  exact ⟨e, h t ht e he, ⟨t, ht, he⟩, rfl⟩

theorem flatten_payloads (ss : List (List Event)) : (ss.map (·.map payloadOf)).flatten = ss.flatten.map payloadOf := by
  rw [List.map_flatten]

/-- **C59, partial.** A log with any number of sessions, with any events that could be carried out, is read as the catalogue in
which all of them were carried out in their order. `ids` is the number of records, `hdr` the header that was accepted (C10).

Missing: what the other theorems of C59 say about logs with failed writes (`C59_failed_write_violated`), and about logs that the
old server did not write. -/
theorem C59_log_is_read_partial {hdr : Bytes} (hh : hdr.length = 64) {ss : List (List Event)} (h0 : ss ≠ [])
    (he : ∀ s ∈ ss, ∀ e ∈ s, OldEv e) (hid : ids (ss.map (·.map payloadOf)) < 2 ^ 64) {c : Cat}
    (ha : Gns.applyAll Cat.empty ss.flatten = .ok c) :
    readLog (hdr ++ oldLog ss) = .ok (c, ids (ss.map (·.map payloadOf))) := by
  refine readLog_logBytes hh (by simpa using h0) hid ?_ ?_
  · intro s hs x hx
    obtain ⟨e, h1, -, rfl⟩ := oldEv_all he s hs x hx
    exact h1.size
  · rw [flatten_payloads]
    exact updates_payloads (fun e h => by
      obtain ⟨s, hs, he'⟩ := List.mem_flatten.1 h
      exact he s hs e he') ha

theorem logBytes_more : ∀ {ss : List (List Bytes)} {id : Nat}, ss ≠ [] →
    logBytes id (ss ++ [[]]) = logBytes id ss ++ reopenRec (id + ids ss) ++ closeRec (id + ids ss + 1) ∧ ids (ss ++ [[]]) = ids ss + 1
  | [], _, h => absurd rfl h
  | [s], id, _ => by simp [logBytes, ids, entries]
  | s :: t :: ss, id, _ => by
    obtain ⟨h1, h2⟩ := logBytes_more (ss := t :: ss) (id := id + s.length + 1) (by simp)
    simp only [List.cons_append] at h1 h2 ⊢
    rw [logBytes, logBytes, h1, ids, ids, h2, show id + s.length + 1 + ids (t :: ss) = id + (s.length + 1 + ids (t :: ss)) by omega]
    refine ⟨by simp, by omega⟩

/-- **C59, partial.** Opening a log writes to it, and so does closing it; afterwards it is read as before. An upgrade that ends with
an error after the log was closed can be tried again. -/
theorem C59_reading_again_partial {hdr : Bytes} (hh : hdr.length = 64) {ss : List (List Event)} (h0 : ss ≠ [])
    (he : ∀ s ∈ ss, ∀ e ∈ s, OldEv e) (hid : ids (ss.map (·.map payloadOf)) + 1 < 2 ^ 64) {c : Cat}
    (ha : Gns.applyAll Cat.empty ss.flatten = .ok c) :
    ∃ f id, openLog (hdr ++ oldLog ss) = .ok (c, f, id) ∧ readLog (f ++ closeRec id) = .ok (c, id) := by
  have h1 := C59_log_is_read_partial hh h0 he (by omega) ha
  refine ⟨_, _, by rw [openLog, h1]; rfl, ?_⟩
  obtain ⟨h2, h3⟩ := logBytes_more (ss := ss.map (·.map payloadOf)) (id := 0) (by simpa using h0)
  simp only [Nat.zero_add] at h2
  have h4 := C59_log_is_read_partial hh (ss := ss ++ [[]]) (by simp) (c := c) (by
      intro s hs
      rcases List.mem_append.1 hs with hs | hs
      · exact he s hs
      · simp only [List.mem_singleton] at hs; subst hs; simp)
    (by
      have : (ss ++ [[]]).map (fun s : List Event => s.map payloadOf) = ss.map (·.map payloadOf) ++ [[]] := by simp
      rw [this, h3]; exact hid) (by simpa using ha)
  have e : (ss ++ [[]]).map (fun s : List Event => s.map payloadOf) = ss.map (·.map payloadOf) ++ [[]] := by simp
  rw [oldLog, e, h2, h3] at h4
  rw [← h4]
  simp [oldLog]

/-! ### Damage -/

/-- The variant of the identifiers that the server makes: the two highest bits of the ninth byte are 10 (`data/uuid.rs:34-38`;
`Uuid::new_v4` of crate `uuid`). -/
def Random (u : Uuid) : Prop := 128 ≤ u.toNat / 2 ^ 64 % 256

/-- The space that an event is about. -/
def spaceOf : Event → Uuid
  | .createSpace _ u _ => u
  | .alterSpace i _ => i.uuid
  | .dropSpace i => i.uuid
  | .createModel i _ _ => i.uuid
  | .alterAdd i _ => i.space.uuid
  | .alterRemove i _ => i.space.uuid
  | .alterUpdate i _ => i.space.uuid
  | .dropModel i => i.space.uuid
  | _ => 0

theorem not_fake_of_uuid {c u : Nat} {t : Bytes} (hu : 128 ≤ u / 2 ^ 64 % 256) :
    ¬ Fake ((le 2 c ++ (le 16 u ++ t)).take MD) := by
  rintro ⟨h, -⟩
  have e : ((le 2 c ++ (le 16 u ++ t)).take MD).take 16 = le 2 c ++ le 14 u := by
    rw [List.take_take, show min 16 MD = 16 from rfl, List.take_append, List.take_of_length_le (by simp)]
    rw [le_length, show 16 - 2 = 14 from rfl, List.take_append, take_le 14 16 u (by omega)]
    simp
  simp only [Md.decode] at h
  rw [e, unle_append, unle_le, unle_le] at h
  simp only [le_length] at h
  omega

theorem not_fake_of_create {c n u : Nat} {t : Bytes} (hu : 128 ≤ u / 2 ^ 64 % 256) :
    ¬ Fake ((le 2 c ++ (le 8 n ++ (le 16 u ++ t))).take MD) := by
  rintro ⟨-, -, -, h⟩
  have e : (((le 2 c ++ (le 8 n ++ (le 16 u ++ t))).take MD).drop 16).take 8 = le 8 (u / 256 ^ 6) := by
    have e1 : le 2 c ++ (le 8 n ++ (le 16 u ++ t)) = (le 2 c ++ (le 8 n ++ le 6 u)) ++ (le 10 (u / 256 ^ 6) ++ t) := by
      have : le 16 u = le 6 u ++ le 10 (u / 256 ^ 6) := by
        rw [← take_le 6 16 u (by omega), ← drop_le 6 16 u, List.take_append_drop]
      rw [this]; simp
    have l : (le 2 c ++ (le 8 n ++ le 6 u)).length = 16 := by simp
    rw [e1, List.take_append, List.take_of_length_le (i := MD) (l := le 2 c ++ (le 8 n ++ le 6 u)) (by rw [l, MD]; omega), l,
      List.drop_append, l, List.drop_eq_nil_of_le (Nat.le_of_eq l), List.nil_append, Nat.sub_self, List.drop_zero, List.take_take,
      show min 8 (MD - 16) = 8 from rfl, List.take_append, take_le 8 10 _ (by omega), le_length]
    exact List.append_nil _
  simp only [Md.decode] at h
  rw [e, unle_le, REVERSE] at h
  omega

theorem not_fake {e : Event} (h : OldEv e) (hr : Random (spaceOf e)) : ¬ Fake ((payloadOf e).take MD) := by
  have hc := h.code
  unfold Random at hr
  cases e with
  | createSpace n u d =>
    simp only [payloadOf, Event.encode, Enc.slen, List.append_assoc]
    exact not_fake_of_create hr
  | alterSpace i d =>
    simp only [payloadOf, Event.encode, Enc.SpaceId.meta, List.append_assoc]
    exact not_fake_of_uuid hr
  | dropSpace i =>
    simp only [payloadOf, Event.encode, Enc.SpaceId.meta, List.append_assoc]
    exact not_fake_of_uuid hr
  | createModel i n l =>
    simp only [payloadOf, Event.encode, Enc.SpaceId.meta, List.append_assoc]
    exact not_fake_of_uuid hr
  | alterAdd i fs =>
    simp only [payloadOf, Event.encode, Enc.ModelId.meta, Enc.SpaceId.meta, List.append_assoc]
    exact not_fake_of_uuid hr
  | alterRemove i ns =>
    simp only [payloadOf, Event.encode, Enc.ModelId.meta, Enc.SpaceId.meta, List.append_assoc]
    exact not_fake_of_uuid hr
  | alterUpdate i fs =>
    simp only [payloadOf, Event.encode, Enc.ModelId.meta, Enc.SpaceId.meta, List.append_assoc]
    exact not_fake_of_uuid hr
  | dropModel i =>
    simp only [payloadOf, Event.encode, Enc.ModelId.meta, Enc.SpaceId.meta, List.append_assoc]
    exact not_fake_of_uuid hr
  | createUser n p => simp [Event.code] at hc
  | alterUser n p => simp [Event.code] at hc
  | dropUser n => simp [Event.code] at hc

/-- **C59, partial.** A log that was cut off anywhere is refused, unless it was cut off at the end of a session. The identifiers are
those that the server makes. -/
theorem C59_truncation_partial {hdr : Bytes} (hh : hdr.length = 64) {ss : List (List Event)} (he : ∀ s ∈ ss, ∀ e ∈ s, OldEv e)
    (hr : ∀ s ∈ ss, ∀ e ∈ s, Random (spaceOf e)) (hid : ids (ss.map (·.map payloadOf)) < 2 ^ 64) {c : Cat}
    (ha : Gns.applyAll Cat.empty ss.flatten = .ok c) {p : Bytes} (hp : p <+: oldLog ss) {x : Cat × Nat}
    (hok : readLog (hdr ++ p) = .ok x) : ∃ k, 0 < k ∧ k ≤ ss.length ∧ p = oldLog (ss.take k) := by
  rw [readLog] at hok
  obtain ⟨r, h1, h2⟩ := Res.bind_eq_ok hok
  have hc : r.closed = true := by
    by_cases hc : r.closed = true
    · exact hc
    · rw [if_neg hc] at h2; cases h2
  have hu : updates Cat.empty (ss.map (·.map payloadOf)).flatten = some c := by
    rw [flatten_payloads]
    exact updates_payloads (fun e h => by
      obtain ⟨s, hs, he'⟩ := List.mem_flatten.1 h
      exact he s hs e he') ha
  obtain ⟨k, k1, k2, k3⟩ := (start_on (hdr := hdr) hh p).cut hp (by omega) (by
    intro s hs x hx
    obtain ⟨e, i1, ⟨s', i2, i3⟩, rfl⟩ := oldEv_all he s hs x hx
    exact ⟨i1.size, not_fake i1 (hr s' i2 e i3)⟩) hu h1 hc
  refine ⟨k, k1, by simpa using k2, ?_⟩
  rw [k3, oldLog, List.map_take]

theorem readLog_stops {hdr b : Bytes} (hh : hdr.length = 64) {xs : List Bytes} (hx : ∀ x ∈ xs, x.length < 2 ^ 63)
    (hid : xs.length < 2 ^ 64) {c : Cat} (hu : updates Cat.empty xs = some c) (hb : b ≠ []) {e : LErr}
    (hn : ∀ r : LR, r.On b xs.length c → r.next = .err e) : readLog (hdr ++ (entries 0 xs ++ b)) = .err e := by
  have hl := entries_length xs 0
  obtain ⟨k, hk⟩ : ∃ k, (hdr ++ (entries 0 xs ++ b)).length + 1 = xs.length + (k + 1) := by
    refine ⟨(hdr ++ (entries 0 xs ++ b)).length - xs.length, ?_⟩
    simp only [List.length_append]
    omega
  obtain ⟨r, h1, h2⟩ := (start_on hh (entries 0 xs ++ b)).entries (fuel := k + 1) (by omega) hx hu
  rw [Nat.zero_add] at h2
  rw [readLog, hk, h1, LR.loop, if_neg (h2.nonempty hb), hn r h2]
  rfl

/-- **C59, partial.** A byte of a payload that has changed is noticed: a log with any events, one of which has a wrong byte, is
refused, whatever record follows, if it is not the reversal of this one. -/
theorem C59_damage_partial {hdr rest p q : Bytes} (hh : hdr.length = 64) {es : List Event} (he : ∀ e ∈ es, OldEv e) {c : Cat}
    (ha : Gns.applyAll Cat.empty es = .ok c) (hid : es.length < 2 ^ 64) {x y : UInt8} (hxy : x ≠ y) (hs : (p ++ x :: q).length < 2 ^ 63)
    {m : Md} (h1 : m.id < 2 ^ 128) (h2 : m.src < 2 ^ 64) (h3 : m.crc < 2 ^ 32) (h4 : m.len < 2 ^ 64) (hm : m.src ≠ REVERSE) :
    readLog (hdr ++ (entries 0 (es.map payloadOf) ++
      (Md.encode ⟨es.length, STD, crc32 (p ++ x :: q), (p ++ x :: q).length⟩ ++ ((p ++ y :: q) ++ (m.encode ++ rest))))) =
      .err .corrupted := by
  refine readLog_stops hh ?_ (by simpa using hid) (updates_payloads he ha) ?_ ?_
  · intro x hx
    obtain ⟨e, h, rfl⟩ := List.mem_map.1 hx
    exact (he e h).size
  · intro h
    have := congrArg List.length h
    simp [md_length, MD] at this
  · intro r hr
    rw [List.length_map] at hr
    have e : (p ++ x :: q).length = (p ++ y :: q).length := by simp
    rw [e] at hr hs
    have := LR.On.damaged hr hid hs (crc32_lt _) (.inl (crc32_change hxy.symm)) h1 h2 h3 h4
    rwa [if_neg (by rintro rfl; exact hm rfl)] at this

theorem update_refused {c : Cat} {e : Event} {x : Unit} (h : OldEv e) (ha : Gns.apply c e = .err x) :
    update c (payloadOf e) = .ok (c, false) := by
  have h1 := h.code
  have h2 : unle ((payloadOf e).take 2) = e.code := by
    have : (payloadOf e).take 2 = le 2 e.code := by
      rw [payloadOf, List.take_append, List.take_of_length_le (by simp)]; simp
    rw [this, unle_le_of_lt (by omega)]
  have h3 : (payloadOf e).drop 2 = e.encode := by
    rw [payloadOf, List.drop_append, List.drop_eq_nil_of_le (by simp)]; simp
  rw [update, if_neg (by simp [payloadOf])]
  simp only [h2, h3]
  rw [if_neg (by omega), if_neg (by omega), Enc.C08_nothing_left_over e h.wf]
  simp only [ha]

/-- **C59, partial.** An event that cannot be carried out, as after records that are missing, is not skipped: the log is refused,
whatever record follows, if it is not the reversal of this one. -/
theorem C59_missing_event_partial {hdr rest : Bytes} (hh : hdr.length = 64) {es : List Event} (he : ∀ e ∈ es, OldEv e) {c : Cat}
    (ha : Gns.applyAll Cat.empty es = .ok c) (hid : es.length < 2 ^ 64) {e : Event} (hev : OldEv e) {x : Unit}
    (hx : Gns.apply c e = .err x) {m : Md} (h1 : m.id < 2 ^ 128) (h2 : m.src < 2 ^ 64) (h3 : m.crc < 2 ^ 32) (h4 : m.len < 2 ^ 64)
    (hm : m.src ≠ REVERSE) :
    readLog (hdr ++ (entries 0 (es.map payloadOf) ++ (entry es.length (payloadOf e) ++ (m.encode ++ rest)))) = .err .corrupted := by
  refine readLog_stops hh ?_ (by simpa using hid) (updates_payloads he ha) ?_ ?_
  · intro x hx
    obtain ⟨e, h, rfl⟩ := List.mem_map.1 hx
    exact (he e h).size
  · intro h
    have := congrArg List.length h
    simp [entry, md_length, MD] at this
  · intro r hr
    rw [List.length_map, entry, List.append_assoc] at hr
    have := LR.On.damaged hr hid hev.size (crc32_lt _) (.inr (update_refused hev hx)) h1 h2 h3 h4
    rwa [if_neg (by rintro rfl; exact hm rfl)] at this

/-- A space is dropped that was never made. -/
example : ∃ x, Gns.apply Cat.empty (.dropSpace ⟨"b", 7⟩) = .err x := ⟨_, rfl⟩

/-! ### Where the code fails -/

/-- **C59, violated.** While the data files are read, the log is open. If the server is stopped then (a crash, or no power), the next
start does not accept the log: it ends with the record of the opening, and the old format has no repair. -/
theorem C59_crash_violated {hdr : Bytes} (hh : hdr.length = 64) {ss : List (List Event)} (h0 : ss ≠ [])
    (he : ∀ s ∈ ss, ∀ e ∈ s, OldEv e) (hr : ∀ s ∈ ss, ∀ e ∈ s, Random (spaceOf e)) (hid : ids (ss.map (·.map payloadOf)) + 1 < 2 ^ 64)
    {c : Cat} (ha : Gns.applyAll Cat.empty ss.flatten = .ok c) :
    ∃ f id, openLog (hdr ++ oldLog ss) = .ok (c, f, id) ∧ ∀ x, readLog f ≠ .ok x := by
  have h1 := C59_log_is_read_partial hh h0 he (by omega) ha
  refine ⟨_, _, by rw [openLog, h1]; rfl, ?_⟩
  intro x hx
  obtain ⟨h2, h3⟩ := logBytes_more (ss := ss.map (·.map payloadOf)) (id := 0) (by simpa using h0)
  have e : (ss ++ [[]]).map (fun s : List Event => s.map payloadOf) = ss.map (·.map payloadOf) ++ [[]] := by simp
  simp only [Nat.zero_add] at h2
  have hs : ∀ s ∈ ss ++ [[]], ∀ e ∈ s, OldEv e ∧ Random (spaceOf e) := by
    intro s hs e he'
    rcases List.mem_append.1 hs with hs | hs
    · exact ⟨he s hs e he', hr s hs e he'⟩
    · simp only [List.mem_singleton] at hs; subst hs; simp at he'
  have hp : oldLog ss ++ reopenRec (ids (ss.map (·.map payloadOf))) <+: oldLog (ss ++ [[]]) := by
    rw [oldLog, oldLog, e, h2]
    exact List.prefix_append _ _
  rw [List.append_assoc] at hx
  obtain ⟨k, k1, k2, k3⟩ := C59_truncation_partial hh (fun s h e h' => (hs s h e h').1) (fun s h e h' => (hs s h e h').2)
    (by rw [e, h3]; exact hid) (by simpa using ha) hp hx
  -- lengths
  have hlen : ∀ (ss : List (List Bytes)) (id k : Nat), 0 < k → k < ss.length →
      (logBytes id (ss.take k)).length + 72 ≤ (logBytes id (ss.take (k + 1))).length := by
    intro ss
    induction ss with
    | nil => intro id k h1 h2; simp at h2
    | cons s ss ih =>
      intro id k h1 h2
      cases ss with
      | nil => simp at h2; omega
      | cons t ss =>
        obtain ⟨k, rfl⟩ : ∃ j, k = j + 1 := ⟨k - 1, by omega⟩
        cases k with
        | zero =>
          simp only [List.take_succ_cons, List.take_zero, logBytes, List.length_append, closeRec, reopenRec, md_length, MD]
          omega
        | succ k =>
          have := ih (id + s.length + 1) (k + 1) (by omega) (by simpa using h2)
          simp only [List.take_succ_cons] at this ⊢
          rw [logBytes, logBytes]
          simp only [List.length_append]
          omega
  have hmono : ∀ (ss : List (List Bytes)) (d k : Nat), 0 < k → k + d ≤ ss.length →
      (logBytes 0 (ss.take k)).length ≤ (logBytes 0 (ss.take (k + d))).length := by
    intro ss d
    induction d with
    | zero => intro k _ _; exact Nat.le_refl _
    | succ d ih =>
      intro k h1 h2
      have i1 := ih k h1 (by omega)
      have i2 := hlen ss 0 (k + d) (by omega) (by omega)
      rw [show k + (d + 1) = k + d + 1 by omega]
      omega
  have hk : (oldLog ((ss ++ [[]]).take k)).length = (oldLog ss).length + 36 := by
    rw [← k3, List.length_append, reopenRec, md_length]; rfl
  have hfull : (oldLog (ss ++ [[]])).length = (oldLog ss).length + 72 := by
    rw [oldLog, oldLog, e, h2]
    simp only [List.length_append, reopenRec, closeRec, md_length, MD]
  rw [List.length_append, List.length_singleton] at k2
  by_cases hkk : k = ss.length + 1
  · subst hkk
    rw [List.take_of_length_le (by simp)] at hk
    omega
  · have hle : (oldLog ((ss ++ [[]]).take k)).length ≤ (oldLog ss).length := by
      have := hmono (ss.map (·.map payloadOf)) (ss.length - k) k k1 (by simp; omega)
      rw [show k + (ss.length - k) = ss.length by omega, List.take_of_length_le (i := ss.length) (by simp)] at this
      rw [List.take_append_of_le_length (by omega), oldLog, oldLog, List.map_take]
      exact this
    omega

/-- **C59, violated.** The comment in the reader (`raw.rs:209`) provides for writes that failed without writing anything, followed
by the record of a reversal. Such a log is refused. -/
theorem C59_failed_write_violated {hdr rest : Bytes} (hh : hdr.length = 64) {es : List Event} (he : ∀ e ∈ es, OldEv e) {c : Cat}
    (ha : Gns.applyAll Cat.empty es = .ok c) (hid : es.length < 2 ^ 64) :
    readLog (hdr ++ (entries 0 (es.map payloadOf) ++ (Md.encode ⟨es.length, REVERSE, 0, 0⟩ ++ rest))) = .err .corrupted := by
  refine readLog_stops hh ?_ (by simpa using hid) (updates_payloads he ha) ?_ ?_
  · intro x hx
    obtain ⟨e, h, rfl⟩ := List.mem_map.1 hx
    exact (he e h).size
  · intro h
    have := congrArg List.length h
    simp [md_length, MD] at this
  · intro r hr
    rw [List.length_map] at hr
    obtain ⟨r1, h1, h2⟩ := hr.readMd
    have hmd := md_decode' (m := ⟨es.length, REVERSE, 0, 0⟩) (by simp only; omega) (by simp [REVERSE]) (by simp) (by simp)
    rw [LR.next, h1]
    simp only [Res.bind, hmd, h2.evid]
    rw [if_neg (by rw [Nat.mod_eq_of_lt hid]; simp), if_neg (by simp [REVERSE, STD]), if_neg (by simp [REVERSE, CLOSED]),
      if_pos (.inr trivial)]

/-- **C59, violated.** An event with a code that the reader does not know crashes it (the index is outside the table `DISPATCH`,
`journal/mod.rs:61-79`), although the code of the reader provides an entry for unknown events. The checksum of the record is right. -/
theorem C59_unknown_event_violated {hdr rest x : Bytes} (hh : hdr.length = 64) {es : List Event} (he : ∀ e ∈ es, OldEv e) {c : Cat}
    (ha : Gns.applyAll Cat.empty es = .ok c) (hid : es.length < 2 ^ 64) {code : Nat} (h1 : 8 < code) (h2 : code < 2 ^ 16)
    (hx : (le 2 code ++ x).length < 2 ^ 63) :
    readLog (hdr ++ (entries 0 (es.map payloadOf) ++ (entry es.length (le 2 code ++ x) ++ rest))) = .panic := by
  have hl := entries_length (es.map payloadOf) 0
  obtain ⟨k, hk⟩ : ∃ k, (hdr ++ (entries 0 (es.map payloadOf) ++ (entry es.length (le 2 code ++ x) ++ rest))).length + 1 =
      (es.map payloadOf).length + (k + 1) := by
    refine ⟨(hdr ++ (entries 0 (es.map payloadOf) ++ (entry es.length (le 2 code ++ x) ++ rest))).length - (es.map payloadOf).length, ?_⟩
    simp only [List.length_append]
    omega
  obtain ⟨r, e1, o1⟩ := (start_on hh (entries 0 (es.map payloadOf) ++ (entry es.length (le 2 code ++ x) ++ rest))).entries (fuel := k + 1)
    (by simpa using hid) (by
      intro x hx
      obtain ⟨e, h, rfl⟩ := List.mem_map.1 hx
      exact (he e h).size) (updates_payloads he ha)
  rw [Nat.zero_add, List.length_map] at o1
  have hp : r.next = .panic := by
    rw [entry, List.append_assoc] at o1
    obtain ⟨r1, e2, o2⟩ := o1.readMd
    have hmd := md_decode' (m := ⟨es.length, STD, crc32 (le 2 code ++ x), (le 2 code ++ x).length⟩) (by simp only; omega)
      (by simp [STD]) (crc32_lt _) (by simp only; omega)
    obtain ⟨r2, e3, o3⟩ := o2.read
    rw [LR.next, e2]
    simp only [Res.bind, hmd]
    rw [if_neg (by rw [o2.evid, Nat.mod_eq_of_lt hid]; simp), if_pos trivial, LR.event,
      if_neg (by rw [o2.left, List.length_append]; simp), if_neg (by simpa using hx), e3]
    simp only [Res.bind, ne_eq, not_true_eq_false, if_false]
    have ht : (le 2 code ++ x).take 2 = le 2 code := by
      rw [List.take_append, List.take_of_length_le (by simp)]; simp
    rw [update, if_neg (by simp)]
    simp only [ht, unle_le_of_lt (n := 2) (v := code) (by omega)]
    rw [if_pos h1]
  rw [readLog, hk, e1, LR.loop, if_neg (o1.nonempty entry_ne), hp]
  rfl

/-- **C59, partial.** A record that was written with errors and then reversed is left out, and the rest of the log is read. The record
has its full length, and its payload does not fit the checksum.

Missing: failed writes that left less than that; a write that left nothing is `C59_failed_write_violated`, one that left a part of the
record is in the examples. -/
theorem C59_reversed_write_partial {hdr x : Bytes} (hh : hdr.length = 64) {es fs : List Event} (he : ∀ e ∈ es ++ fs, OldEv e) {c : Cat}
    (ha : Gns.applyAll Cat.empty (es ++ fs) = .ok c) (hid : es.length + 1 + fs.length < 2 ^ 64) (hx : x.length < 2 ^ 63) {crc : Nat}
    (hc : crc < 2 ^ 32) (hne : crc32 x ≠ crc) :
    readLog (hdr ++ (entries 0 (es.map payloadOf) ++ (Md.encode ⟨es.length, STD, crc, x.length⟩ ++ (x ++
      (Md.encode ⟨es.length, REVERSE, 0, 0⟩ ++ (entries (es.length + 1) (fs.map payloadOf) ++ closeRec (es.length + 1 + fs.length))))))) =
      .ok (c, es.length + 1 + fs.length) := by
  have hu : updates Cat.empty (es.map payloadOf ++ fs.map payloadOf) = some c := by
    rw [← List.map_append]; exact updates_payloads he ha
  obtain ⟨d, u1, u2⟩ := updates_split hu
  have hs : ∀ es' : List Event, (∀ e ∈ es', e ∈ es ++ fs) → ∀ x ∈ es'.map payloadOf, x.length < 2 ^ 63 := by
    intro es' h x hx
    obtain ⟨e, h', rfl⟩ := List.mem_map.1 hx
    exact (he e (h e h')).size
  generalize hT : closeRec (es.length + 1 + fs.length) = T
  generalize hB : Md.encode ⟨es.length, STD, crc, x.length⟩ ++ (x ++ (Md.encode ⟨es.length, REVERSE, 0, 0⟩ ++
    (entries (es.length + 1) (fs.map payloadOf) ++ T))) = B
  have l1 := entries_length (es.map payloadOf) 0
  have l2 := entries_length (fs.map payloadOf) (es.length + 1)
  have l3 : (entries (es.length + 1) (fs.map payloadOf)).length + 72 ≤ B.length := by
    rw [← hB]; simp only [List.length_append, md_length, MD]; omega
  rw [List.length_map] at l1 l2
  obtain ⟨k, hk⟩ : ∃ k, (hdr ++ (entries 0 (es.map payloadOf) ++ B)).length + 1 =
      (es.map payloadOf).length + (((fs.map payloadOf).length + (k + 1 + 1)) + 1) := by
    refine ⟨(hdr ++ (entries 0 (es.map payloadOf) ++ B)).length - es.length - fs.length - 2, ?_⟩
    simp only [List.length_append, List.length_map]
    omega
  obtain ⟨r, e1, o1⟩ := (start_on hh (entries 0 (es.map payloadOf) ++ B)).entries
    (fuel := (fs.map payloadOf).length + (k + 1 + 1) + 1) (by rw [List.length_map]; omega) (hs es (fun e h => by simp [h])) u1
  rw [Nat.zero_add, List.length_map] at o1
  have o1' := o1
  rw [← hB] at o1'
  have dm := LR.On.damaged o1' (by omega) hx hc (.inl hne) (by simp only; omega) (by simp [REVERSE]) (by simp) (by simp)
  rw [if_pos rfl] at dm
  obtain ⟨r1, e2, o2⟩ := dm
  obtain ⟨r2, e3, o3⟩ := o2.entries (fuel := k + 1 + 1) (by rw [List.length_map]; omega) (hs fs (fun e h => by simp [h])) u2
  rw [List.length_map, ← hT] at o3
  obtain ⟨r3, e4, i1, i2, i3, i4⟩ := o3.close (by omega)
  have n2 : r2.left ≠ 0 := by
    rw [o3.left]; simp [closeRec, md_length, MD]
  rw [readLog, hk, e1, LR.loop_step (o1.nonempty (by intro h; rw [h] at l3; simp at l3)) e2, e3, LR.loop_step n2 e4, LR.loop_stop i1]
  simp only [Res.bind, i2, if_true, i3, i4]

/-! ### Examples -/

/-- An identifier as the server makes them. -/
def exId (n : Nat) : Uuid := BitVec.ofNat 128 (0xA7 * 2 ^ 64 + n)

/-- Two sessions: a space and a model are made; a column is added, and a space is made and dropped. -/
def exSessions : List (List Event) :=
  [[.createSpace "a" (exId 5) [], .createModel ⟨"a", exId 5⟩ "m" ⟨exId 6, "k", .string, [("k", ⟨[.string], false⟩)]⟩],
   [.alterAdd ⟨⟨"a", exId 5⟩, "m", 0, exId 6⟩ [("x", ⟨[.uint8], true⟩)], .createSpace "b" (exId 7) [], .dropSpace ⟨"b", exId 7⟩]]

theorem exSessions_ok : ∀ s ∈ exSessions, ∀ e ∈ s, OldEv e ∧ Random (spaceOf e) := by
  have h : ∀ e ∈ exSessions.flatten, OldEv e ∧ Random (spaceOf e) := by
    intro e he
    simp only [exSessions, List.flatten_cons, List.flatten_nil, List.append_nil, List.cons_append, List.nil_append, List.mem_cons,
      List.not_mem_nil, or_false] at he
    rcases he with rfl | rfl | rfl | rfl | rfl
    all_goals
      refine ⟨⟨?_, by decide, by decide +kernel⟩, by unfold Random spaceOf exId; decide +kernel⟩
      simp [WfEvent, Enc.WfFields, Enc.WfLayers, Enc.WfDict, Tag.cls]
      try decide +kernel
  intro s hs e he
  exact h e (List.mem_flatten.2 ⟨s, hs, he⟩)

/-- The events can be carried out, so the theorems apply to this log. -/
example : ∃ c, Gns.applyAll Cat.empty exSessions.flatten = .ok c ∧ (c.spaces "a").isSome ∧ (c.spaces "b").isNone ∧
    (c.models "a" "m").isSome := ⟨_, rfl, rfl, rfl, rfl⟩

/-- Where a record was begun and not finished, and then reversed, the log is refused: the payload that is missing is taken from the
record of the reversal. -/
example : (readLog (List.replicate 64 0 ++ (Md.encode ⟨0, STD, 7, 40⟩ ++ (Md.encode ⟨0, REVERSE, 0, 0⟩ ++ closeRec 1)))).isOk =
    false := by decide +kernel

/-- The same log without the failed write is read. -/
example : (readLog (List.replicate 64 0 ++ closeRec 0)).isOk = true := by decide +kernel

/-- The bytes of the marks, as the versions before wrote them. -/
example : closeRec 1 = 1 :: List.replicate 35 0 ∧ reopenRec 2 = 2 :: (List.replicate 15 0 ++ 1 :: List.replicate 19 0) ∧
    Md.encode ⟨0, REVERSE, 0, 0⟩ = List.replicate 16 0 ++ 2 :: List.replicate 19 0 := by decide +kernel

/-- The buffer holds 8192 bytes; going back moves the file below it. -/
example : ((Rd.read ⟨List.replicate 9000 7, 0, []⟩ 1).map fun (b, r) => (b, r.pos, r.buf.length)) = some ([7], 8192, 8191) ∧
    (Rd.seekBack ⟨[], 100, [1]⟩ 36).pos = 64 := by decide +kernel

end Verif.Old
