import Verif.Journal.Raw
/-!
Helper lemmas about the journal: a healthy writer (no I/O error) and a reader that follows it.
-/
namespace Verif.Journal

/-! ### Healthy I/O -/

theorem fwriteAllCount_nil (buf disk : Bytes) :
    fwriteAllCount buf [] disk 0 = (disk ++ buf, [], buf.length, .ok ()) := by
  unfold fwriteAllCount
  by_cases h : 0 = buf.length
  · have : buf = [] := List.length_eq_zero_iff.mp h.symm
    simp [this]
  · simp [h]

/-- A writer with no scheduled failure whose cursor agrees with the file. -/
structure TW.Good (w : TW) : Prop where
  io : w.io = []
  cur : w.cursor = w.disk.length
  cap : w.buf.length ≤ w.size

/-- File content plus what is still buffered. -/
def TW.content (w : TW) : Bytes := w.disk ++ w.buf

theorem TW.Good.flushBuf {w : TW} (h : w.Good) :
    w.flushBuf = ({ w with disk := w.disk ++ w.buf, buf := [], cursor := w.cursor + w.buf.length }, .ok ()) := by
  obtain ⟨hio, hc, hb⟩ := h
  simp [TW.flushBuf, hio, fwriteAllCount_nil]

theorem TW.Good.trackedWrite {w : TW} (h : w.Good) (d : Bytes) :
    ∃ w', w.trackedWrite d = (w', .ok ()) ∧ w'.Good ∧ w'.content = w.content ++ d ∧
      w'.ck = Crc.update w.ck d ∧ w'.pck = w.pck ∧ w'.size = w.size := by
  unfold TW.trackedWrite TW.untrackedWrite
  by_cases hs : d.length ≤ w.size - w.buf.length
  · simp only [hs, if_true]
    refine ⟨_, rfl, ⟨h.io, h.cur, ?_⟩, ?_, rfl, rfl, rfl⟩
    · have := h.cap; simp only [List.length_append]; omega
    · simp [TW.content]
  · simp only [hs, if_false, h.flushBuf, h.io, fwriteAllCount_nil]
    refine ⟨_, rfl, ⟨rfl, ?_, ?_⟩, ?_, rfl, rfl, rfl⟩
    · simp [h.cur]; omega
    · simp only [List.nil_append, List.length_drop]; omega
    · simp only [TW.content, List.nil_append, List.append_assoc, List.take_append_drop]

theorem TW.Good.writeAll {w : TW} (h : w.Good) (ds : List Bytes) :
    ∃ w', w.writeAll ds = (w', .ok ()) ∧ w'.Good ∧ w'.content = w.content ++ ds.flatten ∧
      w'.ck = Crc.update w.ck ds.flatten ∧ w'.pck = w.pck ∧ w'.size = w.size := by
  induction ds generalizing w with
  | nil => exact ⟨w, rfl, h, by simp, by simp, rfl, rfl⟩
  | cons d ds ih =>
    obtain ⟨w1, e1, g1, c1, k1, p1, z1⟩ := h.trackedWrite d
    obtain ⟨w2, e2, g2, c2, k2, p2, z2⟩ := ih g1
    refine ⟨w2, ?_, g2, ?_, ?_, by rw [p2, p1], by rw [z2, z1]⟩
    · simp [TW.writeAll, e1, e2]
    · rw [c2, c1]; simp
    · rw [k2, k1, List.flatten_cons, Crc.update_append]

theorem TW.Good.flushSync {w : TW} (h : w.Good) :
    ∃ w', w.flushSync = (w', .ok ()) ∧ w'.Good ∧ w'.disk = w.content ∧ w'.buf = [] ∧
      w'.ck = w.ck ∧ w'.pck = w.pck ∧ w'.size = w.size := by
  unfold TW.flushSync
  rw [h.flushBuf]
  simp only [TW.fsync, h.io]
  exact ⟨_, rfl, ⟨rfl, by simp [h.cur], by simp⟩, rfl, rfl, rfl, rfl, rfl⟩

theorem TW.Good.through {w : TW} (h : w.Good) (hb : w.buf = []) (d : Bytes) :
    ∃ w', w.trackedWriteThrough d = (w', .ok ()) ∧ w'.Good ∧ w'.disk = w.disk ++ d ∧ w'.buf = [] ∧
      w'.ck = Crc.update w.ck d ∧ w'.pck = w.pck ∧ w'.size = w.size := by
  unfold TW.trackedWriteThrough
  rw [h.io, fwriteAllCount_nil]
  exact ⟨_, rfl, ⟨rfl, by simp [h.cur], by simp [hb]⟩, rfl, hb, rfl, rfl, rfl⟩

/-! ### Reading -/

theorem TR.read_append {a b : Bytes} {n c : Nat} {k : BitVec 64} (h : a.length = n) :
    TR.read ⟨a ++ b, c, k⟩ n = .ok (a, ⟨b, c + n, Crc.update k a⟩) := by
  subst h
  simp [TR.read]

theorem TR.read_ok {r r' : TR} {n : Nat} {d : Bytes} (h : r.read n = .ok (d, r')) :
    r.rest = d ++ r'.rest ∧ d.length = n ∧ r'.cursor = r.cursor + n ∧ r'.ck = Crc.update r.ck d := by
  unfold TR.read at h
  by_cases hn : n ≤ r.rest.length
  · simp only [hn, if_true, Res.ok.injEq, Prod.mk.injEq] at h
    obtain ⟨rfl, rfl⟩ := h
    simp [hn]
  · simp [hn] at h

/-! ### Driver events -/

theorem body_length (a b c : Nat) : (DriverEvent.body a b c).length = 32 := by
  simp [DriverEvent.body]

theorem encode_length (i : Nat) (k : DKind) (a b c : Nat) : (DriverEvent.encode i k a b c).length = 64 := by
  simp [DriverEvent.encode, body_length]

theorem slice_skip {a b : Bytes} {n i j : Nat} (h : a.length = n) (hi : n ≤ i) :
    slice (a ++ b) i j = slice b (i - n) (j - n) := by
  subst h
  unfold slice
  rw [List.drop_append, List.drop_eq_nil_of_le hi, List.nil_append]
  congr 1
  omega

theorem slice_here {a b : Bytes} {j : Nat} (h : a.length = j) : slice (a ++ b) 0 j = a := by
  subst h; simp [slice]

theorem slice_all {a : Bytes} {j : Nat} (h : a.length = j) : slice a 0 j = a := by
  subst h; simp [slice]

theorem decode_encode {i a b c : Nat} (k : DKind) (hi : i < 2 ^ 128) (ha : a < 2 ^ 64) (hb : b < 2 ^ 64)
    (hc : c < 2 ^ 64) :
    DriverEvent.decode (DriverEvent.encode i k a b c) = some ⟨i, k, a, b, c⟩ := by
  have hk : k.dscr < 2 := by cases k <;> decide
  have f0 : slice (DriverEvent.encode i k a b c) 0 16 = le 16 i := by
    simp only [DriverEvent.encode, List.append_assoc]; exact slice_here (by simp)
  have f1 : slice (DriverEvent.encode i k a b c) 16 24 = le 8 k.dscr := by
    simp only [DriverEvent.encode, List.append_assoc]
    rw [slice_skip (le_length 16 i) (by omega)]; exact slice_here (by simp)
  have f2 : slice (DriverEvent.encode i k a b c) 24 32 = le 8 (Crc.crc (DriverEvent.body a b c)) := by
    simp only [DriverEvent.encode, List.append_assoc]
    rw [slice_skip (le_length 16 i) (by omega), slice_skip (le_length 8 _) (by omega)]
    exact slice_here (by simp)
  have fb : ∀ x y, 32 ≤ x → slice (DriverEvent.encode i k a b c) x y
      = slice (DriverEvent.body a b c) (x - 32) (y - 32) := by
    intro x y hx
    simp only [DriverEvent.encode, List.append_assoc]
    rw [slice_skip (le_length 16 i) (by omega), slice_skip (le_length 8 _) (by omega),
      slice_skip (le_length 8 _) (by omega)]
    congr 1 <;> omega
  have fbody : slice (DriverEvent.encode i k a b c) 32 64 = DriverEvent.body a b c := by
    rw [fb _ _ (by omega)]; exact slice_all (body_length a b c)
  have f3 : slice (DriverEvent.encode i k a b c) 32 40 = le 8 3 := by
    rw [fb _ _ (by omega)]
    simp only [DriverEvent.body, List.append_assoc]; exact slice_here (by simp)
  have f4 : slice (DriverEvent.encode i k a b c) 40 48 = le 8 a := by
    rw [fb _ _ (by omega)]
    simp only [DriverEvent.body, List.append_assoc]
    rw [slice_skip (le_length 8 _) (by omega)]; exact slice_here (by simp)
  have f5 : slice (DriverEvent.encode i k a b c) 48 56 = le 8 b := by
    rw [fb _ _ (by omega)]
    simp only [DriverEvent.body, List.append_assoc]
    rw [slice_skip (le_length 8 _) (by omega), slice_skip (le_length 8 _) (by omega)]
    exact slice_here (by simp)
  have f6 : slice (DriverEvent.encode i k a b c) 56 64 = le 8 c := by
    rw [fb _ _ (by omega)]
    simp only [DriverEvent.body, List.append_assoc]
    rw [slice_skip (le_length 8 _) (by omega), slice_skip (le_length 8 _) (by omega),
      slice_skip (le_length 8 _) (by omega)]
    exact slice_all (by simp)
  unfold DriverEvent.decode
  rw [f0, f1, f2, f3, f4, f5, f6, fbody]
  rw [unle_le16 hi, unle_le8 (by omega : k.dscr < 2 ^ 64), unle_le8 (Crc.crc_lt _),
    unle_le8 (by omega : 3 < 2 ^ 64), unle_le8 ha, unle_le8 hb, unle_le8 hc]
  cases k <;> simp [DKind.dscr]

/-! ### A reader that follows a writer -/

/-- The reader state after everything the writer has written has been read. -/
def readerAt {G} (w : JW) (rest : Bytes) (gs : G) : JR G :=
  { tr := { rest, cursor := w.log.cursor, ck := w.log.ck }, txnId := w.txnId,
    lastTxnId := w.knownTxnId, lastTxnOffset := w.knownTxnOffset,
    lastTxnChecksum := Crc.finish w.log.ck, gs }

/-- A writer between two commits. -/
structure JW.Idle (w : JW) : Prop where
  good : w.log.Good
  buf : w.log.buf = []
  pck : w.log.pck = Crc.new
  size : w.log.size = 8192
  hdr : HEADER ≤ w.log.disk.length
  id : w.txnId ≤ w.log.disk.length
  known : w.knownTxnId = w.txnId - 1
  off : w.knownTxnOffset ≤ w.log.disk.length
  offc : w.knownTxnOffset = if w.txnId = 0 then 0 else w.log.cursor

/-- The bytes of a committed event-log event. -/
def evBytes (id : Nat) (e : Ev) : Bytes :=
  le 16 id ++ (le 8 (e.kind ||| MASK) ++ (eventLogWrites e.payload).flatten)

theorem evBytes_length (id : Nat) (e : Ev) : (evBytes id e).length = 40 + e.payload.length := by
  simp [evBytes, eventLogWrites]; omega

theorem JW.Idle.commitWith {w : JW} (h : w.Idle) (md : Nat) {adapter : TW → TW × Res SErr Unit} {bs : Bytes}
    (ha : ∀ l : TW, l.Good → l.pck = Crc.new → ∃ l', adapter l = (l', .ok ()) ∧ l'.Good ∧
      l'.content = l.content ++ bs ∧ l'.ck = Crc.update l.ck bs ∧ l'.pck = Crc.new ∧ l'.size = l.size) :
    ∃ w', w.commitWith md adapter = (w', .ok ()) ∧ w'.Idle ∧
      w'.log.disk = w.log.disk ++ (le 16 w.txnId ++ (le 8 (md ||| MASK) ++ bs)) ∧
      w'.log.ck = Crc.update w.log.ck (le 16 w.txnId ++ (le 8 (md ||| MASK) ++ bs)) ∧
      w'.txnId = w.txnId + 1 ∧ w'.knownTxnId = w.txnId ∧ w'.knownTxnOffset = w'.log.cursor := by
  obtain ⟨l1, e1, g1, c1, k1, p1, z1⟩ := h.good.writeAll [le 16 w.txnId, le 8 (md ||| MASK)]
  obtain ⟨l2, e2, g2, c2, k2, p2, z2⟩ := ha l1 g1 (by rw [p1, h.pck])
  obtain ⟨l3, e3, g3, d3, b3, k3, p3, z3⟩ := g2.flushSync
  have hd : l3.disk = w.log.disk ++ (le 16 w.txnId ++ (le 8 (md ||| MASK) ++ bs)) := by
    rw [d3, c2, c1]; simp [TW.content, h.buf]
  refine ⟨{ log := l3, txnId := w.txnId + 1, knownTxnId := w.txnId, knownTxnOffset := l3.cursor }, ?_,
    ⟨g3, b3, by rw [p3, p2], by rw [z3, z2, z1, h.size], ?_, ?_, rfl, by simp [g3.cur], by simp⟩, hd, ?_, rfl, rfl, rfl⟩
  · simp [JW.commitWith, JW.txnContext, e1, e2, e3]
  · have := h.hdr; simp only [hd, List.length_append]; omega
  · have := h.id; simp only [hd, List.length_append, le_length]; omega
  · simp only [k3, k2, k1]; simp [Crc.update_append]

theorem JW.Idle.commitEvent {w : JW} (h : w.Idle) (e : Ev) :
    ∃ w', w.commitEvent e = (w', .ok ()) ∧ w'.Idle ∧
      w'.log.disk = w.log.disk ++ evBytes w.txnId e ∧
      w'.log.ck = Crc.update w.log.ck (evBytes w.txnId e) ∧
      w'.txnId = w.txnId + 1 ∧ w'.knownTxnId = w.txnId ∧ w'.knownTxnOffset = w'.log.cursor := by
  apply h.commitWith
  intro l hl hp
  obtain ⟨l', e', g', c', k', p', z'⟩ := hl.writeAll (eventLogWrites e.payload)
  exact ⟨l', e', g', c', k', by rw [p', hp], z'⟩

/-- The bytes of the driver event that `w` would write. -/
def drvBytes (w : JW) (k : DKind) : Bytes :=
  DriverEvent.encode w.txnId k (Crc.finish w.log.ck) w.knownTxnOffset w.knownTxnId

theorem JW.Idle.commitDriver {w : JW} (h : w.Idle) (k : DKind) :
    ∃ w', w.commitDriver k = (w', .ok ()) ∧ w'.Idle ∧
      w'.log.disk = w.log.disk ++ drvBytes w k ∧
      w'.log.ck = Crc.update w.log.ck (drvBytes w k) ∧
      w'.txnId = w.txnId + 1 ∧ w'.knownTxnId = w.txnId ∧ w'.knownTxnOffset = w'.log.cursor := by
  obtain ⟨l1, e1, g1, d1, b1, k1, p1, z1⟩ := h.good.through h.buf (drvBytes w k)
  refine ⟨{ log := l1, txnId := w.txnId + 1, knownTxnId := w.txnId, knownTxnOffset := l1.cursor }, ?_,
    ⟨g1, b1, by rw [p1, h.pck], by rw [z1, h.size], ?_, ?_, rfl, by simp [g1.cur], by simp⟩, d1, k1, rfl, rfl, rfl⟩
  · unfold drvBytes at e1
    simp [JW.commitDriver, JW.txnContext, e1]
  · have := h.hdr; simp only [d1, List.length_append]; omega
  · have := h.id; simp only [d1, List.length_append, drvBytes, encode_length]; omega

theorem mask_or {k : Nat} (h : k < 256) : k ||| MASK = MASK + k := by
  unfold MASK
  have := Nat.two_pow_add_eq_or_of_lt (i := 63) (b := k) (by omega) 1
  rw [Nat.mul_one] at this
  rw [Nat.or_comm, this]

/-- Reading a committed event keeps the reader in step with the writer. -/
theorem applyNext_event {G} {kinds : Nat} {apply : G → Ev → Res SErr G} {w w' : JW} {e : Ev} {gs gs' : G}
    {rest : Bytes} (hkinds : kinds ≤ 256) (h : w.Idle) (hk : e.kind < kinds)
    (hw : w.commitEvent e = (w', .ok ())) (hsz : w'.log.disk.length < 2 ^ 63)
    (ha : apply gs e = .ok gs') :
    (readerAt w (evBytes w.txnId e ++ rest) gs).applyNext (eventLogDecode kinds apply)
      = .ok (false, readerAt w' rest gs') := by
  obtain ⟨w1, e1, i1, d1, k1, t1, n1, o1⟩ := h.commitEvent e
  have : w1 = w' := by rw [hw] at e1; cases e1; rfl
  subst this
  have hid : w.txnId < 2 ^ 63 := by
    have := i1.id; omega
  have hpl : e.payload.length < 2 ^ 63 := by
    have : w1.log.disk.length = _ := congrArg List.length d1
    rw [List.length_append, evBytes_length] at this
    omega
  have hor := mask_or (show e.kind < 256 by omega)
  unfold JR.applyNext readerAt evBytes eventLogWrites
  simp only [List.flatten_cons, List.flatten_nil, List.append_assoc, List.append_nil]
  rw [TR.read_append (le_length 16 _)]
  simp only [Res.bind]
  rw [TR.read_append (le_length 8 _)]
  simp only [Res.bind]
  have hm : MASK = 2 ^ 63 := rfl
  rw [unle_le16 (by omega), hor, unle_le8 (by omega)]
  simp only [ne_eq, not_true, if_false, Nat.le_add_right, if_true, Nat.add_sub_cancel_left]
  unfold eventLogDecode
  simp only [Nat.mod_eq_of_lt (show e.kind < 256 by omega), Nat.not_le.mpr hk, if_false]
  rw [TR.read_append (le_length 8 _)]
  simp only [Res.bind]
  rw [TR.read_append (le_length 8 _)]
  simp only [Res.bind]
  rw [unle_le8 (by omega), if_neg (by omega), TR.read_append rfl]
  simp only [Res.bind]
  rw [unle_le8 (Crc.crc_lt _)]
  simp only [ne_eq, not_true, if_false]
  have : (⟨e.kind, e.payload⟩ : Ev) = e := rfl
  rw [this, ha]
  have hcur : w1.log.cursor = w.log.cursor + 16 + 8 + 8 + 8 + e.payload.length := by
    rw [i1.good.cur, d1, List.length_append, evBytes_length, h.good.cur]; omega
  have hck : w1.log.ck = Crc.update (Crc.update (Crc.update (Crc.update (Crc.update w.log.ck
      (le 16 w.txnId)) (le 8 (MASK + e.kind))) (le 8 (Crc.crc (le 8 e.payload.length ++ e.payload))))
      (le 8 e.payload.length)) e.payload := by
    rw [k1]; simp [evBytes, eventLogWrites, Crc.update_append, hor]
  simp only [JR.refresh, Res.bind, t1, n1, o1, hcur, hck]

/-- Size facts used when a driver event is read. -/
theorem drv_bounds {w : JW} (h : w.Idle) (hsz : w.log.disk.length < 2 ^ 63) :
    w.txnId < 2 ^ 63 ∧ w.knownTxnId < 2 ^ 64 ∧ w.knownTxnOffset < 2 ^ 64 := by
  have := h.id; have := h.known; have := h.off; omega

theorem applyNext_close {G} {dec : Decode G} {w w' : JW} {gs : G} {rest : Bytes} (h : w.Idle)
    (hw : w.close = (w', .ok ())) (hsz : w'.log.disk.length < 2 ^ 63) :
    (readerAt w (drvBytes w .closed ++ rest) gs).applyNext dec
      = if rest = [] then .ok (true, readerAt w' rest gs) else (readerAt w' rest gs).handleReopen := by
  obtain ⟨w1, e1, i1, d1, k1, t1, n1, o1⟩ := h.commitDriver .closed
  have : w1 = w' := by unfold JW.close at hw; rw [hw] at e1; cases e1; rfl
  subst this
  have hlen : w1.log.disk.length = w.log.disk.length + 64 := by
    rw [d1, List.length_append, drvBytes, encode_length]
  obtain ⟨hid, hki, hko⟩ := drv_bounds h (by omega)
  have hdec := decode_encode .closed (i := w.txnId) (a := Crc.finish w.log.ck) (b := w.knownTxnOffset)
    (c := w.knownTxnId) (by omega) (Crc.finish_lt _) hko hki
  have hsplit : drvBytes w .closed = le 16 w.txnId ++ (le 8 1 ++ (drvBytes w .closed).drop 24) := by
    simp only [drvBytes, DriverEvent.encode, DKind.dscr, List.append_assoc]
    congr 2
  have htl : ((drvBytes w .closed).drop 24).length = 40 := by simp [drvBytes, encode_length]
  have hb0 : drvBytes w .closed = DriverEvent.encode w.txnId .closed (Crc.finish w.log.ck)
    w.knownTxnOffset w.knownTxnId := rfl
  unfold JR.applyNext readerAt
  generalize htail : (drvBytes w .closed).drop 24 = tail at *
  rw [hsplit]
  simp only [List.append_assoc]
  rw [TR.read_append (le_length 16 _)]
  simp only [Res.bind]
  rw [TR.read_append (le_length 8 _)]
  simp only [Res.bind]
  rw [unle_le16 (by omega), unle_le8 (by omega : 1 < 2 ^ 64)]
  have hm : ¬ MASK ≤ 1 := by unfold MASK; omega
  simp only [ne_eq, not_true, if_false, hm]
  unfold JR.handleClose
  simp only [FULL_EVENT_SIZE]
  rw [TR.read_append htl]
  simp only [Res.bind]
  rw [List.append_assoc, ← hsplit, hb0, hdec]
  have hcur : w1.log.cursor = w.log.cursor + 16 + 8 + 40 := by
    rw [i1.good.cur, h.good.cur]; omega
  have hck : w1.log.ck = Crc.update (Crc.update (Crc.update w.log.ck (le 16 w.txnId)) (le 8 1)) tail := by
    rw [k1, hsplit]; simp [Crc.update_append]
  simp only [and_self, if_true, TR.isEof, JR.refresh, t1, n1, o1, hcur, hck]
  cases rest <;> simp

theorem handleReopen_ok {G} {w w' : JW} {gs : G} {rest : Bytes} (h : w.Idle)
    (hw : w.commitDriver .reopened = (w', .ok ())) (hsz : w'.log.disk.length < 2 ^ 63) :
    (readerAt w (drvBytes w .reopened ++ rest) gs).handleReopen = .ok (false, readerAt w' rest gs) := by
  obtain ⟨w1, e1, i1, d1, k1, t1, n1, o1⟩ := h.commitDriver .reopened
  have : w1 = w' := by rw [hw] at e1; cases e1; rfl
  subst this
  have hlen : w1.log.disk.length = w.log.disk.length + 64 := by
    rw [d1, List.length_append, drvBytes, encode_length]
  obtain ⟨hid, hki, hko⟩ := drv_bounds h (by omega)
  have hdec := decode_encode .reopened (i := w.txnId) (a := Crc.finish w.log.ck) (b := w.knownTxnOffset)
    (c := w.knownTxnId) (by omega) (Crc.finish_lt _) hko hki
  have hb0 : drvBytes w .reopened = DriverEvent.encode w.txnId .reopened (Crc.finish w.log.ck)
    w.knownTxnOffset w.knownTxnId := rfl
  unfold JR.handleReopen readerAt
  simp only [FULL_EVENT_SIZE]
  rw [TR.read_append (by simp [drvBytes, encode_length])]
  simp only [Res.bind]
  rw [hb0, hdec]
  have hcur : w1.log.cursor = w.log.cursor + 64 := by
    rw [i1.good.cur, h.good.cur]; omega
  simp only [and_self, if_true, JR.refresh, t1, n1, o1, hcur, k1, hb0]

/-- The writer that `open_journal` builds from what the reader found at the end of a closed
journal. -/
theorem JW.new_of_reader {w : JW} (h : w.Idle) (h0 : w.knownTxnOffset ≠ 0) :
    JW.new { cursor := w.log.cursor, checksum := w.log.ck, txnId := w.txnId, lastOffset := w.knownTxnOffset }
      w.log.disk [] = w.commitDriver .reopened := by
  unfold JW.new
  simp only [h0, if_false]
  have : ({ log := { disk := w.log.disk, buf := [], cursor := w.log.cursor, ck := w.log.ck, pck := Crc.new, io := [] },
            knownTxnId := w.txnId - 1, knownTxnOffset := w.knownTxnOffset, txnId := w.txnId } : JW) = w := by
    have hb := h.buf; have hp := h.pck; have hi := h.good.io; have hk := h.known; have hz := h.size
    cases w with
    | mk log t k o =>
      cases log with
      | mk d b c ck p io sz => simp_all
  rw [this]

/-! ### Files only grow -/

theorem fwriteAllCount_prefix (buf : Bytes) (io : List Sys) (disk : Bytes) (n : Nat) :
    disk <+: (fwriteAllCount buf io disk n).1 := by
  induction io generalizing disk n with
  | nil =>
    unfold fwriteAllCount
    split
    · exact List.prefix_refl _
    · split
      · exact List.prefix_append _ _
      · exact List.prefix_refl _
  | cons o io ih =>
    cases o with
    | fail => unfold fwriteAllCount; split <;> exact List.prefix_refl _
    | wrote k =>
      unfold fwriteAllCount
      split
      · exact List.prefix_refl _
      · split
        · exact List.prefix_refl _
        · exact (List.prefix_append _ _).trans (ih _ _)

theorem TW.flushBuf_prefix (w : TW) : w.disk <+: w.flushBuf.1.disk := by
  unfold TW.flushBuf
  have := fwriteAllCount_prefix w.buf w.io w.disk 0
  generalize fwriteAllCount w.buf w.io w.disk 0 = x at *
  obtain ⟨a, b, c, d⟩ := x
  simp only at this ⊢
  split <;> exact this

theorem TW.untrackedWrite_prefix (w : TW) (d : Bytes) : w.disk <+: (w.untrackedWrite d).1.disk := by
  unfold TW.untrackedWrite
  split
  · exact List.prefix_refl _
  · have h1 := w.flushBuf_prefix
    generalize w.flushBuf = x at *
    obtain ⟨w1, r⟩ := x
    cases r with
    | ok u =>
      simp only at h1 ⊢
      have h2 := fwriteAllCount_prefix (d.take (d.length - w1.size)) w1.io w1.disk 0
      generalize fwriteAllCount (d.take (d.length - w1.size)) w1.io w1.disk 0 = y at *
      obtain ⟨a, b, c, r⟩ := y
      cases r <;> exact h1.trans h2
    | err e => exact h1
    | panic => exact h1
    | hang => exact h1

theorem TW.trackedWrite_prefix (w : TW) (d : Bytes) : w.disk <+: (w.trackedWrite d).1.disk := by
  unfold TW.trackedWrite
  have h1 := w.untrackedWrite_prefix d
  generalize w.untrackedWrite d = x at *
  obtain ⟨w1, r⟩ := x
  cases r with
  | ok u => exact h1
  | err e => simp only; split <;> exact h1
  | panic => exact h1
  | hang => exact h1

theorem TW.writeAll_prefix (w : TW) (ds : List Bytes) : w.disk <+: (w.writeAll ds).1.disk := by
  induction ds generalizing w with
  | nil => exact List.prefix_refl _
  | cons d ds ih =>
    unfold TW.writeAll
    have h1 := w.trackedWrite_prefix d
    generalize w.trackedWrite d = x at *
    obtain ⟨w1, r⟩ := x
    cases r with
    | ok u => exact h1.trans (ih w1)
    | err e => exact h1
    | panic => exact h1
    | hang => exact h1

theorem TW.flushSync_prefix (w : TW) : w.disk <+: w.flushSync.1.disk := by
  unfold TW.flushSync
  have h1 := w.flushBuf_prefix
  generalize w.flushBuf = x at *
  obtain ⟨w1, r⟩ := x
  cases r with
  | ok u =>
    simp only [TW.fsync]
    split <;> exact h1
  | err e => exact h1
  | panic => exact h1
  | hang => exact h1

theorem JW.txnContext_failed {w w1 : JW} {f : JW → Nat → TW × Res SErr Unit} {r : Res SErr Unit}
    (hr : r ≠ .ok ()) (h : w.txnContext f = (w1, r)) :
    w1.txnId = w.txnId + 1 ∧ w1.knownTxnOffset = w.knownTxnOffset ∧
      w1.log = (f { w with txnId := w.txnId + 1 } w.txnId).1 := by
  unfold JW.txnContext at h
  simp only at h
  generalize f { w with txnId := w.txnId + 1 } w.txnId = x at *
  obtain ⟨log, r'⟩ := x
  cases r' with
  | ok u => simp only [Prod.mk.injEq] at h; exact absurd h.2.symm hr
  | err e => simp only [Prod.mk.injEq] at h; obtain ⟨rfl, rfl⟩ := h; exact ⟨rfl, rfl, rfl⟩
  | panic => simp only [Prod.mk.injEq] at h; obtain ⟨rfl, rfl⟩ := h; exact ⟨rfl, rfl, rfl⟩
  | hang => simp only [Prod.mk.injEq] at h; obtain ⟨rfl, rfl⟩ := h; exact ⟨rfl, rfl, rfl⟩

/-- A commit that does not succeed keeps the known transaction, consumes an id, and only appends to
the file. -/
theorem JW.commitEvent_failed {w w1 : JW} {e : Ev} {r : Res SErr Unit} (hr : r ≠ .ok ())
    (h : w.commitEvent e = (w1, r)) :
    w1.txnId = w.txnId + 1 ∧ w1.knownTxnOffset = w.knownTxnOffset ∧ w.log.disk <+: w1.log.disk := by
  unfold JW.commitEvent JW.commitWith at h
  obtain ⟨a, b, c⟩ := JW.txnContext_failed hr h
  refine ⟨a, b, ?_⟩
  rw [c]
  simp only
  have h1 := w.log.writeAll_prefix [le 16 w.txnId, le 8 (e.kind ||| MASK)]
  generalize w.log.writeAll [le 16 w.txnId, le 8 (e.kind ||| MASK)] = x at *
  obtain ⟨l1, r1⟩ := x
  cases r1 with
  | err _ => exact h1
  | panic => exact h1
  | hang => exact h1
  | ok _ =>
    simp only at h1 ⊢
    have h2 := l1.writeAll_prefix (eventLogWrites e.payload)
    generalize l1.writeAll (eventLogWrites e.payload) = y at *
    obtain ⟨l2, r2⟩ := y
    cases r2 with
    | err _ => exact h1.trans h2
    | panic => exact h1.trans h2
    | hang => exact h1.trans h2
    | ok _ => exact h1.trans (h2.trans l2.flushSync_prefix)

/-- A commit on a healthy writer with an empty buffer appends exactly the event. -/
theorem JW.commitEvent_good {w : JW} (hg : w.log.Good) (hb : w.log.buf = []) (e : Ev) :
    ∃ w', w.commitEvent e = (w', .ok ()) ∧ w'.log.Good ∧ w'.log.buf = [] ∧
      w'.log.disk = w.log.disk ++ evBytes w.txnId e := by
  obtain ⟨l1, e1, g1, c1, k1, p1, z1⟩ := hg.writeAll [le 16 w.txnId, le 8 (e.kind ||| MASK)]
  obtain ⟨l2, e2, g2, c2, k2, p2, z2⟩ := g1.writeAll (eventLogWrites e.payload)
  obtain ⟨l3, e3, g3, d3, b3, k3, p3, z3⟩ := g2.flushSync
  refine ⟨{ log := l3, txnId := w.txnId + 1, knownTxnId := w.txnId, knownTxnOffset := l3.cursor }, ?_,
    g3, b3, ?_⟩
  · simp [JW.commitEvent, JW.commitWith, JW.txnContext, e1, e2, e3]
  · rw [d3, c2, c1]; simp [TW.content, hb, evBytes]

theorem scrollLoop_fuel_mono {G} {dec : Decode G} {n : Nat} {r : JR G} {x : JR G}
    (h : JR.scrollLoop dec n r = .ok x) (k : Nat) : JR.scrollLoop dec (n + k) r = .ok x := by
  induction n generalizing r with
  | zero => simp [JR.scrollLoop] at h
  | succ n ih =>
    rw [Nat.succ_add]
    unfold JR.scrollLoop at h ⊢
    cases ha : r.applyNext dec with
    | ok p =>
      obtain ⟨stop, r'⟩ := p
      rw [ha] at h
      simp only [Res.bind] at h ⊢
      cases stop with
      | true => simpa using h
      | false => simp only [Bool.false_eq_true, if_false] at h ⊢; exact ih h
    | err e => rw [ha] at h; simp at h
    | panic => rw [ha] at h; simp at h
    | hang => rw [ha] at h; simp at h

end Verif.Journal
