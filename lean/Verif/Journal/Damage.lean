import Verif.Journal.Lemmas
/-!
C83, first part: no journal in which up to eight consecutive bytes were changed is accepted, whatever the changed bytes make the reader
do in between. The argument needs nothing about the events: the last event of an accepted file closes it, and it holds the checksum of
everything before it.
-/
namespace Verif.Journal

/-! ### Specification -/

/-- An adapter that reads the file through the tracked reader only: what it leaves is the end of what it got, and the checksum and the
position are those of the bytes in between. -/
def Honest {G} (dec : Decode G) : Prop :=
  ∀ g md tr g' tr', dec g md tr = .ok (g', tr') →
    ∃ u, tr.rest = u ++ tr'.rest ∧ tr'.ck = Crc.update tr.ck u ∧ tr'.cursor = tr.cursor + u.length

/-- `file'` is `file` with at most eight consecutive bytes changed, none of them in the header. -/
def Damaged (file file' : Bytes) : Prop :=
  ∃ p m m' q, 64 ≤ p.length ∧ m.length = m'.length ∧ m.length ≤ 8 ∧ m ≠ m' ∧ file = p ++ m ++ q ∧ file' = p ++ m' ++ q

/-! ### The event that closes a file -/

/-- The bytes of an event of the driver are determined by what is read from them. -/
theorem decode_eq {b : Bytes} {ev : DriverEvent} (hl : b.length = 64) (h : DriverEvent.decode b = some ev) :
    b = DriverEvent.encode ev.txnId ev.event ev.lastChecksum ev.lastOffset ev.lastTxnId := by
  unfold DriverEvent.decode at h
  simp only at h
  split at h
  · simp at h
  · rename_i hc
    simp only [not_or, Nat.not_lt, ne_eq, Decidable.not_not] at hc
    obtain ⟨h1, h2, h3⟩ := hc
    simp only [Option.some.injEq] at h
    subst h
    have cut : ∀ (i j k : Nat), i ≤ j → j ≤ k → slice b i k = slice b i j ++ slice b j k := by
      intro i j k hij hjk
      unfold slice
      have : b.drop j = (b.drop i).drop (j - i) := by rw [List.drop_drop]; congr 1; omega
      rw [this, ← List.take_add]
      congr 1; omega
    have len : ∀ (i j : Nat), i ≤ j → j ≤ 64 → (slice b i j).length = j - i := by
      intro i j hij hj
      unfold slice
      rw [List.length_take, List.length_drop]; omega
    have rd : ∀ (i j n : Nat), i ≤ j → j ≤ 64 → j - i = n → le n (unle (slice b i j)) = slice b i j := by
      intro i j n hij hj hn
      have := le_unle (slice b i j)
      rwa [len i j hij hj, hn] at this
    have hk : le 8 (DKind.dscr (if unle (slice b 16 24) = 0 then .reopened else .closed)) = slice b 16 24 := by
      refine (congrArg (le 8) ?_).trans (rd 16 24 8 (by omega) (by omega) rfl)
      generalize unle (slice b 16 24) = x at h1 ⊢
      by_cases hx : x = 0
      · rw [if_pos hx, hx]; rfl
      · rw [if_neg hx]
        show 1 = x
        omega
    have h3' : le 8 3 = slice b 32 40 := (congrArg (le 8) h3.symm).trans (rd 32 40 8 (by omega) (by omega) rfl)
    have hbody : DriverEvent.body (unle (slice b 40 48)) (unle (slice b 48 56)) (unle (slice b 56 64)) = slice b 32 64 := by
      unfold DriverEvent.body
      rw [rd 40 48 8 (by omega) (by omega) rfl, rd 48 56 8 (by omega) (by omega) rfl, rd 56 64 8 (by omega) (by omega) rfl, h3']
      rw [cut 32 56 64 (by omega) (by omega), cut 32 48 56 (by omega) (by omega), cut 32 40 48 (by omega) (by omega)]
    have h2' : le 8 (Crc.crc (slice b 32 64)) = slice b 24 32 :=
      (congrArg (le 8) h2.symm).trans (rd 24 32 8 (by omega) (by omega) rfl)
    have h0' := rd 0 16 16 (by omega) (by omega) rfl
    have hall : b = slice b 0 16 ++ slice b 16 24 ++ slice b 24 32 ++ slice b 32 64 := by
      rw [← cut 0 16 24 (by omega) (by omega), ← cut 0 24 32 (by omega) (by omega), ← cut 0 32 64 (by omega) (by omega)]
      exact (slice_all hl).symm
    refine hall.trans ?_
    unfold DriverEvent.encode
    simp only [hbody, h2', h0', hk]

/-- The reader between two events: `c` is what it has read since the header. -/
structure Between {G} (d c : Bytes) (r : JR G) : Prop where
  split : d = c ++ r.tr.rest
  ck : r.tr.ck = Crc.update Crc.new c
  cur : r.tr.cursor = 64 + c.length
  known : (c = [] ∧ r.txnId = 0 ∧ r.lastTxnId = 0 ∧ r.lastTxnOffset = 0 ∧ r.lastTxnChecksum = 0) ∨
    (c ≠ [] ∧ r.lastTxnId + 1 = r.txnId ∧ r.lastTxnOffset = 64 + c.length ∧ r.lastTxnChecksum = Crc.crc c)

theorem Between.refresh {G} {d c : Bytes} {r : JR G} (hs : d = c ++ r.tr.rest) (hk : r.tr.ck = Crc.update Crc.new c)
    (hc : r.tr.cursor = 64 + c.length) (h0 : c ≠ []) : Between d c r.refresh := by
  refine ⟨hs, hk, hc, .inr ⟨h0, rfl, hc, ?_⟩⟩
  show Crc.finish r.tr.ck = _
  rw [hk]; rfl

/-- What closes an accepted file: `t` is the number of the event, `c` everything between the header and the event. -/
def Closes (c b : Bytes) (t : Nat) : Prop :=
  b.length = 64 ∧ (t = 0 ↔ c = []) ∧
    DriverEvent.decode b = some ⟨t, .closed, Crc.crc c, if c = [] then 0 else 64 + c.length, t - 1⟩

theorem Between.closes {G} {d c : Bytes} {r : JR G} (h : Between d c r) {b : Bytes} (hb : b.length = 64) {ev : DriverEvent}
    (hd : DriverEvent.decode b = some ev) (he : ev.event = .closed) (h1 : r.lastTxnChecksum = ev.lastChecksum)
    (h2 : r.lastTxnId = ev.lastTxnId) (h3 : r.lastTxnOffset = ev.lastOffset) (h4 : r.txnId = ev.txnId) : Closes c b r.txnId := by
  obtain ⟨e1, e2, e3, e4, e5⟩ := ev
  simp only at he h1 h2 h3 h4
  subst he h1 h2 h3 h4
  rcases h.known with ⟨rfl, k1, k2, k3, k4⟩ | ⟨h0, k1, k2, k3⟩
  · refine ⟨hb, by simp [k1], ?_⟩
    rw [hd, k1, k2, k3, k4]
    rfl
  · refine ⟨hb, ?_, ?_⟩
    · simp only [h0, iff_false]; omega
    · rw [hd, if_neg h0, k2, k3, ← k1]; rfl

/-- One event: the reader is between two events again, or the file was closed. -/
theorem Between.next {G} {dec : Decode G} (hdec : Honest dec) {d c : Bytes} {r r' : JR G} {stop : Bool} (h : Between d c r)
    (ha : r.applyNext dec = .ok (stop, r')) :
    (stop = false ∧ ∃ c', Between d c' r') ∨ (stop = true ∧ ∃ b, d = c ++ b ∧ Closes c b r.txnId) := by
  unfold JR.applyNext at ha
  obtain ⟨⟨id, tr1⟩, e1, ha⟩ := Res.bind_eq_ok ha
  obtain ⟨⟨md, tr2⟩, e2, ha⟩ := Res.bind_eq_ok ha
  obtain ⟨s1, l1, c1, k1⟩ := TR.read_ok e1
  obtain ⟨s2, l2, c2, k2⟩ := TR.read_ok e2
  simp only at ha
  have hsplit : d = c ++ id ++ md ++ tr2.rest := by rw [h.split, s1, s2]; simp
  have hck : tr2.ck = Crc.update Crc.new (c ++ id ++ md) := by rw [k2, k1, h.ck, Crc.update_append, Crc.update_append]
  have hcur : tr2.cursor = 64 + (c ++ id ++ md).length := by
    rw [c2, c1, h.cur]; simp only [List.length_append]; omega
  split at ha
  · simp at ha
  · rename_i hid
    have hid : unle id = r.txnId := by simpa using hid
    split at ha
    · obtain ⟨⟨gs, tr3⟩, e3, ha⟩ := Res.bind_eq_ok ha
      obtain ⟨u, u1, u2, u3⟩ := hdec _ _ _ _ _ e3
      simp only [Res.ok.injEq, Prod.mk.injEq] at ha
      obtain ⟨rfl, rfl⟩ := ha
      refine .inl ⟨rfl, c ++ id ++ md ++ u, Between.refresh ?_ ?_ ?_ ?_⟩
      · show d = _ ++ tr3.rest
        rw [hsplit]
        show _ ++ tr2.rest = _
        rw [u1]; simp
      · show tr3.ck = _
        rw [u2]
        show Crc.update tr2.ck u = _
        rw [hck, ← Crc.update_append]
      · show tr3.cursor = _
        rw [u3]
        show tr2.cursor + _ = _
        rw [hcur]; simp only [List.length_append]; omega
      · intro h0
        have := congrArg List.length h0
        simp only [List.length_append, List.length_nil] at this
        omega
    · unfold JR.handleClose at ha
      obtain ⟨⟨tail, tr3⟩, e3, ha⟩ := Res.bind_eq_ok ha
      obtain ⟨s3, l3, c3, k3⟩ := TR.read_ok e3
      have l3 : tail.length = 40 := l3
      simp only at ha
      have hblk : le 16 (unle id) ++ le 8 (unle md) ++ tail = id ++ md ++ tail := by
        have a1 := le_unle id
        have a2 := le_unle md
        rw [l1] at a1
        rw [l2] at a2
        rw [a1, a2]
      rw [hblk] at ha
      have hb : (id ++ md ++ tail).length = 64 := by simp only [List.length_append]; omega
      split at ha
      · rename_i ev hdv
        split at ha
        · rename_i hev
          split at ha
          · rename_i hf
            obtain ⟨f1, f2, f3⟩ := hf
            have hev4 : r.txnId = ev.txnId := by
              have := decode_eq hb hdv
              unfold DriverEvent.decode at hdv
              simp only at hdv
              split at hdv
              · simp at hdv
              · simp only [Option.some.injEq] at hdv
                subst hdv
                show _ = unle (slice (id ++ md ++ tail) 0 16)
                rw [List.append_assoc, slice_here l1, hid]
            have hcl := h.closes hb hdv hev f1 f2 f3 hev4
            have hd3 : d = c ++ (id ++ md ++ tail) ++ tr3.rest := by
              rw [hsplit]
              have s3 : tr2.rest = tail ++ tr3.rest := s3
              rw [s3]; simp
            split at ha
            · rename_i heof
              simp only [Res.ok.injEq, Prod.mk.injEq] at ha
              obtain ⟨rfl, rfl⟩ := ha
              refine .inr ⟨rfl, id ++ md ++ tail, ?_, hcl⟩
              have : tr3.rest = [] := by simpa [JR.refresh, TR.isEof] using heof
              rw [hd3, this]; simp
            · unfold JR.handleReopen at ha
              obtain ⟨⟨blk, tr4⟩, e4, ha⟩ := Res.bind_eq_ok ha
              obtain ⟨s4, l4, c4, k4⟩ := TR.read_ok e4
              simp only at ha
              split at ha
              · split at ha
                · split at ha
                  · simp only [Res.ok.injEq, Prod.mk.injEq] at ha
                    obtain ⟨rfl, rfl⟩ := ha
                    refine .inl ⟨rfl, c ++ (id ++ md ++ tail) ++ blk, Between.refresh ?_ ?_ ?_ ?_⟩
                    · show d = _ ++ tr4.rest
                      have s4 : tr3.rest = blk ++ tr4.rest := s4
                      rw [hd3, s4]; simp
                    · show tr4.ck = _
                      have k4 : tr4.ck = Crc.update tr3.ck blk := k4
                      have k3 : tr3.ck = Crc.update tr2.ck tail := k3
                      rw [k4, k3, hck]
                      simp only [← Crc.update_append, List.append_assoc]
                    · show tr4.cursor = _
                      have c4 : tr4.cursor = tr3.cursor + FULL_EVENT_SIZE := c4
                      have c3 : tr3.cursor = tr2.cursor + (FULL_EVENT_SIZE - 24) := c3
                      have l4 : blk.length = FULL_EVENT_SIZE := l4
                      rw [c4, c3, hcur]
                      simp only [List.length_append, l4, l3, FULL_EVENT_SIZE]
                      omega
                    · intro h0
                      have := congrArg List.length h0
                      simp only [List.length_append, List.length_nil] at this
                      omega
                  · simp at ha
                · simp at ha
              · simp at ha
          · simp at ha
        · simp at ha
      · simp at ha

theorem Between.loop {G} {dec : Decode G} (hdec : Honest dec) {d : Bytes} : ∀ {fuel : Nat} {c : Bytes} {r r' : JR G}, Between d c r →
    JR.scrollLoop dec fuel r = .ok r' → ∃ c b t, d = c ++ b ∧ Closes c b t
  | 0, _, _, _, _, h => by simp [JR.scrollLoop] at h
  | fuel + 1, c, r, r', hb, h => by
    rw [JR.scrollLoop] at h
    obtain ⟨⟨stop, r1⟩, e1, h⟩ := Res.bind_eq_ok h
    rcases hb.next hdec e1 with ⟨rfl, c', hb'⟩ | ⟨rfl, b, h1, h2⟩
    · exact Between.loop hdec hb' h
    · exact ⟨c, b, _, h1, h2⟩

/-- Every file that is accepted ends with an event that closes it, which holds the checksum of everything between the header and the
event, and the length of the file. -/
theorem accepted_closes {G} {dec : Decode G} (hdec : Honest dec) {g : G} {file : Bytes} (h : (scroll dec g file).isOk = true) :
    ∃ c b t, file.drop 64 = c ++ b ∧ Closes c b t := by
  unfold scroll at h
  simp only at h
  cases hl : JR.scrollLoop dec ((file.drop HEADER).length + 1)
      { tr := { rest := file.drop HEADER, cursor := HEADER, ck := Crc.new }, txnId := 0, lastTxnId := 0,
        lastTxnOffset := 0, lastTxnChecksum := 0, gs := g } with
  | ok r =>
    exact Between.loop hdec (d := file.drop HEADER) (c := []) ⟨rfl, rfl, rfl, .inl ⟨rfl, rfl, rfl, rfl, rfl⟩⟩ hl
  | err e => rw [hl] at h; simp [Res.isOk] at h
  | panic => rw [hl] at h; simp [Res.isOk] at h
  | hang => rw [hl] at h; simp [Res.isOk] at h

/-! ### Damage -/

theorem decode_fields {b : Bytes} {ev : DriverEvent} (h : DriverEvent.decode b = some ev) :
    unle (slice b 0 16) = ev.txnId ∧ unle (slice b 40 48) = ev.lastChecksum ∧ unle (slice b 56 64) = ev.lastTxnId := by
  unfold DriverEvent.decode at h
  simp only at h
  split at h
  · simp at h
  · simp only [Option.some.injEq] at h
    subst h
    exact ⟨rfl, rfl, rfl⟩

theorem slice_right {c b : Bytes} (i j : Nat) : slice b i j = slice (c ++ b) (c.length + i) (c.length + j) := by
  rw [slice_skip rfl (by omega)]
  simp only [Nat.add_sub_cancel_left]

/-- Two files that differ in a window of at most eight bytes and are both closed are equal. -/
theorem closes_unique {p m m' q c c' b b' : Bytes} {t t' : Nat} (hl : m.length = m'.length) (h8 : m.length ≤ 8)
    (h : Closes c b t) (h' : Closes c' b' t') (hd : p ++ m ++ q = c ++ b) (hd' : p ++ m' ++ q = c' ++ b') : m = m' := by
  obtain ⟨hb, h0, hdec⟩ := h
  obtain ⟨hb', h0', hdec'⟩ := h'
  have hlen : c.length = c'.length := by
    have a1 := congrArg List.length hd
    have a2 := congrArg List.length hd'
    simp only [List.length_append] at a1 a2
    omega
  obtain ⟨x1, x2, x3⟩ := decode_fields hdec
  obtain ⟨y1, y2, y3⟩ := decode_fields hdec'
  simp only at x1 x2 x3 y1 y2 y3
  have hc : c = (p ++ m ++ q).take c.length := by rw [hd]; simp
  have hc' : c' = (p ++ m' ++ q).take c.length := by rw [hd', hlen]; simp
  -- the part before the closing event, and the number of the event, are the same
  have key : c = c' ∧ t = t' := by
    by_cases hw : p.length + m.length ≤ c.length + 40
    · have same : ∀ i j, 40 ≤ i → slice b i j = slice b' i j := by
        intro i j hi
        rw [slice_right (c := c), slice_right (c := c') (b := b'), ← hd, ← hd', hlen,
          slice_skip (a := p ++ m) (b := q) rfl (by simp only [List.length_append]; omega),
          slice_skip (a := p ++ m') (b := q) rfl (by simp only [List.length_append]; omega)]
        simp only [List.length_append, hl]
      have hcrc : Crc.crc c = Crc.crc c' := by rw [← x2, ← y2, same 40 48 (by omega)]
      have ht : t - 1 = t' - 1 := by rw [← x3, ← y3, same 56 64 (by omega)]
      have hcc : c = c' := by
        by_cases hp : c.length ≤ p.length
        · rw [hc, hc', List.append_assoc, List.append_assoc, List.take_append_of_le_length hp, List.take_append_of_le_length hp]
        · have e : ∀ z : Bytes, z.length = m.length → (p ++ z ++ q).take c.length =
              p ++ z.take (c.length - p.length) ++ q.take (c.length - p.length - m.length) := by
            intro z hz
            rw [List.append_assoc, List.take_append, List.take_of_length_le (by omega), List.take_append, hz, List.append_assoc]
          rw [hc, hc', e m rfl, e m' hl.symm] at hcrc
          have := Crc.crc_window (by simp only [List.length_take]; omega) (by simp only [List.length_take]; omega) hcrc
          rw [hc, hc', e m rfl, e m' hl.symm, this]
      refine ⟨hcc, ?_⟩
      by_cases hn : c = []
      · rw [h0.mpr hn, h0'.mpr (hcc ▸ hn)]
      · have a1 : t ≠ 0 := fun e => hn (h0.mp e)
        have a2 : t' ≠ 0 := fun e => hn (hcc ▸ h0'.mp e)
        omega
    · have hp : c.length + 16 ≤ p.length := by omega
      refine ⟨?_, ?_⟩
      · rw [hc, hc', List.append_assoc, List.append_assoc, List.take_append_of_le_length (by omega),
          List.take_append_of_le_length (by omega)]
      · have s : ∀ z : Bytes, slice (p ++ z) c.length (c.length + 16) = slice p c.length (c.length + 16) := by
          intro z
          unfold slice
          rw [List.drop_append_of_le_length (by omega), List.take_append_of_le_length]
          rw [List.length_drop]; omega
        have e1 : slice b 0 16 = slice p c.length (c.length + 16) := by
          rw [slice_right (c := c), ← hd, List.append_assoc]; exact s _
        have e2 : slice b' 0 16 = slice p c.length (c.length + 16) := by
          rw [slice_right (c := c'), ← hd', ← hlen, List.append_assoc]; exact s _
        rw [← x1, ← y1, e1, e2]
  obtain ⟨rfl, rfl⟩ := key
  have hbb : b = b' := by rw [decode_eq hb hdec, decode_eq hb' hdec']
  subst hbb
  rw [← hd'] at hd
  exact List.append_cancel_left (List.append_cancel_right hd)

/-- **C83, any journal.** If up to eight consecutive bytes of an accepted file are changed in any way, anywhere after the header, then
the file is not accepted, whatever the adapter makes of the changed bytes. -/
theorem C83_damage_is_noticed {G} {dec : Decode G} (hdec : Honest dec) {g g' : G} {file file' : Bytes}
    (h : (scroll dec g file).isOk = true) (hd : Damaged file file') : (scroll dec g' file').isOk = false := by
  obtain ⟨p, m, m', q, hp, hl, h8, hne, rfl, rfl⟩ := hd
  rw [Bool.eq_false_iff]
  intro h'
  obtain ⟨c, b, t, e1, c1⟩ := accepted_closes hdec h
  obtain ⟨c', b', t', e2, c2⟩ := accepted_closes hdec h'
  rw [List.append_assoc, List.drop_append_of_le_length hp, ← List.append_assoc] at e1 e2
  exact hne (closes_unique hl h8 c1 c2 e1 e2)

/-! ### The log of the catalogue -/

theorem honest_read {tr tr' : TR} {n : Nat} {d : Bytes} (h : tr.read n = .ok (d, tr')) :
    ∃ u, tr.rest = u ++ tr'.rest ∧ tr'.ck = Crc.update tr.ck u ∧ tr'.cursor = tr.cursor + u.length := by
  obtain ⟨a, b, c, e⟩ := TR.read_ok h
  exact ⟨d, a, e, by omega⟩

theorem honest_trans {a b c : TR} (h : ∃ u, a.rest = u ++ b.rest ∧ b.ck = Crc.update a.ck u ∧ b.cursor = a.cursor + u.length)
    (h' : ∃ u, b.rest = u ++ c.rest ∧ c.ck = Crc.update b.ck u ∧ c.cursor = b.cursor + u.length) :
    ∃ u, a.rest = u ++ c.rest ∧ c.ck = Crc.update a.ck u ∧ c.cursor = a.cursor + u.length := by
  obtain ⟨u, h1, h2, h3⟩ := h
  obtain ⟨v, k1, k2, k3⟩ := h'
  exact ⟨u ++ v, by rw [h1, k1, List.append_assoc], by rw [k2, h2, Crc.update_append], by rw [k3, h3, List.length_append]; omega⟩

theorem eventLog_honest {G} (kinds : Nat) (apply : G → Ev → Res SErr G) : Honest (eventLogDecode kinds apply) := by
  intro g md tr g' tr' h
  unfold eventLogDecode at h
  simp only at h
  split at h
  · simp at h
  · obtain ⟨⟨d1, t1⟩, e1, h⟩ := Res.bind_eq_ok h
    obtain ⟨⟨d2, t2⟩, e2, h⟩ := Res.bind_eq_ok h
    simp only at h
    split at h
    · simp at h
    · obtain ⟨⟨d3, t3⟩, e3, h⟩ := Res.bind_eq_ok h
      simp only at h
      split at h
      · simp at h
      · obtain ⟨gs, e4, h⟩ := Res.bind_eq_ok h
        simp only [Res.ok.injEq, Prod.mk.injEq] at h
        obtain ⟨rfl, rfl⟩ := h
        exact honest_trans (honest_read e1) (honest_trans (honest_read e2) (honest_read e3))

end Verif.Journal
