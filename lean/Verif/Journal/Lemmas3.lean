import Verif.Journal.Lemmas2
/-!
Lemmas about damaged payloads and failed commits.
-/
namespace Verif.Journal

variable {G : Type} {kinds : Nat} {apply : G → Ev → Res SErr G}

/-- The bytes of an event up to its payload. -/
def evHead (id : Nat) (e : Ev) : Bytes :=
  le 16 id ++ (le 8 (e.kind ||| MASK) ++ (le 8 (Crc.crc (le 8 e.payload.length ++ e.payload)) ++
    le 8 e.payload.length))

theorem evBytes_eq (id : Nat) (e : Ev) : evBytes id e = evHead id e ++ e.payload := by
  simp [evBytes, evHead, eventLogWrites]

/-- An event whose payload was replaced by one of the same length and another checksum is
reported. -/
theorem applyNext_event_damaged {w : JW} {e : Ev} {gs : G} {p' rest : Bytes} (hkinds : kinds ≤ 256)
    (h : w.Idle) (hk : e.kind < kinds) (hsz : w.log.disk.length + (evBytes w.txnId e).length < 2 ^ 63)
    (hl : p'.length = e.payload.length)
    (hc : Crc.crc (le 8 e.payload.length ++ p') ≠ Crc.crc (le 8 e.payload.length ++ e.payload)) :
    (readerAt w (evHead w.txnId e ++ p' ++ rest) gs).applyNext (eventLogDecode kinds apply)
      = .err .corrupted := by
  rw [evBytes_length] at hsz
  have hid : w.txnId < 2 ^ 63 := by have := h.id; omega
  have hor := mask_or (show e.kind < 256 by omega)
  unfold JR.applyNext readerAt evHead
  simp only [List.append_assoc]
  rw [TR.read_append (le_length 16 _)]
  simp only [Res.bind]
  rw [TR.read_append (le_length 8 _)]
  simp only [Res.bind]
  have hm : MASK = 2 ^ 63 := rfl
  rw [unle_le16 (by omega), hor, unle_le8 (by omega)]
  simp only [ne_eq, not_true, if_false, Nat.le_add_right, if_true, Nat.add_sub_cancel_left]
  unfold eventLogDecode
  simp only [Nat.mod_eq_of_lt (show e.kind < 256 by omega), Nat.not_le.mpr hk, if_false]
  rw [TR.read_append (le_length 8 _)]
  simp only [Res.bind]
  rw [TR.read_append (le_length 8 _)]
  simp only [Res.bind]
  rw [unle_le8 (by omega), if_neg (by omega), TR.read_append hl]
  simp only [Res.bind]
  rw [unle_le8 (Crc.crc_lt _), if_pos hc]

/-- An event with an unexpected transaction id is reported. -/
theorem applyNext_wrong_id {dec : Decode G} {w : JW} {gs : G} {id : Nat} {rest : Bytes}
    (hid : id < 2 ^ 128) (hne : id ≠ w.txnId) (hl : 8 ≤ rest.length) :
    (readerAt w (le 16 id ++ rest) gs).applyNext dec = .err .metaCorrupted := by
  unfold JR.applyNext readerAt
  rw [TR.read_append (le_length 16 _)]
  simp only [Res.bind]
  unfold TR.read
  simp only [hl, if_true, Res.bind]
  rw [unle_le16 hid, if_pos hne]

/-- Whatever a healthy writer does next, the file continues with its next transaction id. -/
theorem session_start {w : JW} (hg : w.log.Good) (hb : w.log.buf = []) {es : List Ev} {file : Bytes}
    (h : w.session es = some file) :
    ∃ t, 8 ≤ t.length ∧ file = w.log.disk ++ (le 16 w.txnId ++ t) := by
  cases es with
  | nil =>
    simp only [JW.session, JW.commitAll] at h
    obtain ⟨l1, e1, g1, d1, b1, k1, p1, z1⟩ := hg.through hb (drvBytes w .closed)
    unfold drvBytes at e1
    simp only [JW.close, JW.commitDriver, JW.txnContext, e1, fileOf, Option.some.injEq] at h
    subst h
    refine ⟨(drvBytes w .closed).drop 16, by simp [drvBytes, encode_length], ?_⟩
    rw [d1]
    congr 1
  | cons e es =>
    obtain ⟨w1, e1, g1, b1, d1⟩ := JW.commitEvent_good hg hb e
    have hgrow : ∀ (es : List Ev) (w : JW) (file : Bytes), w.log.Good → w.log.buf = [] →
        w.session es = some file → w.log.disk <+: file := by
      intro es
      induction es with
      | nil =>
        intro w file hg hb h
        simp only [JW.session, JW.commitAll] at h
        obtain ⟨l1, e1, g1, d1, b1, k1, p1, z1⟩ := hg.through hb (drvBytes w .closed)
        unfold drvBytes at e1
        simp only [JW.close, JW.commitDriver, JW.txnContext, e1, fileOf, Option.some.injEq] at h
        subst h
        rw [d1]; exact List.prefix_append _ _
      | cons e es ih =>
        intro w file hg hb h
        obtain ⟨w1, e1, g1, b1, d1⟩ := JW.commitEvent_good hg hb e
        have h' : w1.session es = some file := by
          simpa only [JW.session, JW.commitAll, e1] using h
        have := ih w1 file g1 b1 h'
        exact List.IsPrefix.trans (by rw [d1]; exact List.prefix_append _ _) this
    have h' : w1.session es = some file := by
      simpa only [JW.session, JW.commitAll, e1] using h
    obtain ⟨t, ht⟩ := hgrow es w1 file g1 b1 h'
    refine ⟨(evBytes w.txnId e).drop 16 ++ t, by simp [evBytes_length]; omega, ?_⟩
    rw [← ht, d1]
    simp [evBytes]

end Verif.Journal
