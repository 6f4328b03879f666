import Verif.Batch.Bytes
import Verif.Journal.Lemmas2
/-!
Writing a batch to a healthy journal, and reading it back.
-/
namespace Verif.Batch
open Verif.Gns (Model)
open Verif.Dml (Key DKind Delta Tbl setRow)
open Verif.Journal (TW TR JW JR SErr Decode MASK HEADER Reached readerAt scrollLoop_next mask_or)

/-! ### Writing -/

theorem dtrack_good {w : TW} (h : w.Good) (d : Bytes) :
    ∃ w', w.dtrackWrite d = (w', .ok ()) ∧ w'.Good ∧ w'.content = w.content ++ d ∧
      w'.ck = Crc.update w.ck d ∧ w'.pck = Crc.update w.pck d ∧ w'.size = w.size := by
  obtain ⟨w1, e1, g1, c1, k1, p1, z1⟩ := h.trackedWrite d
  refine ⟨{ w1 with pck := Crc.update w1.pck d }, by rw [TW.dtrackWrite, e1], ⟨g1.io, g1.cur, g1.cap⟩, c1, k1, ?_, z1⟩
  rw [p1]

theorem dtrackAll_good {w : TW} (h : w.Good) (ds : List Bytes) :
    ∃ w', dtrackAll w ds = (w', .ok ()) ∧ w'.Good ∧ w'.content = w.content ++ ds.flatten ∧
      w'.ck = Crc.update w.ck ds.flatten ∧ w'.pck = Crc.update w.pck ds.flatten ∧ w'.size = w.size := by
  induction ds generalizing w with
  | nil => exact ⟨w, rfl, h, by simp, by simp, by simp, rfl⟩
  | cons d ds ih =>
    obtain ⟨w1, e1, g1, c1, k1, p1, z1⟩ := dtrack_good h d
    obtain ⟨w2, e2, g2, c2, k2, p2, z2⟩ := ih g1
    refine ⟨w2, ?_, g2, ?_, ?_, ?_, by rw [z2, z1]⟩
    · simp [dtrackAll, e1, e2]
    · rw [c2, c1]; simp
    · rw [k2, k1, List.flatten_cons, Crc.update_append]
    · rw [p2, p1, List.flatten_cons, Crc.update_append]

theorem writeRec_good {w : TW} (h : w.Good) {e : Rec} (he : e.key.uniq ≠ .illegal) :
    ∃ w', writeRec w e = (w', .ok ()) ∧ w'.Good ∧ w'.content = w.content ++ recBytes e ∧
      w'.ck = Crc.update w.ck (recBytes e) ∧ w'.pck = Crc.update w.pck (recBytes e) ∧ w'.size = w.size := by
  obtain ⟨cs, h1, h2⟩ := recChunks_flatten he
  obtain ⟨w1, e1, g1, c1, k1, p1, z1⟩ := dtrackAll_good h cs
  rw [h2] at c1 k1 p1
  refine ⟨{ w1 with disk := w1.disk ++ w1.buf, buf := [], cursor := w1.cursor + w1.buf.length },
    by rw [writeRec, h1]; simp only [e1]; exact g1.flushBuf, ⟨g1.io, ?_, by simp⟩, ?_, k1, p1, z1⟩
  · simp [g1.cur]
  · rw [← c1]; simp [TW.content]

theorem stepRec_queue (t : Tbl) (d : Delta) : (stepRec t d).1.queue = t.queue := by
  rw [stepRec]
  cases t.heap[d.row]? with
  | none => rfl
  | some r =>
    simp only
    cases d.kind with
    | delete => rfl
    | insert => simp only; split <;> rfl
    | update => simp only; split <;> rfl

/-- On a healthy writer the loop writes the records of `drain`. -/
theorem batchLoop_good : ∀ (n i s : Nat) {t : Tbl} {w : TW}, w.Good → n ≤ t.queue.length →
    (∀ e ∈ (drain n t).2, e.key.uniq ≠ .illegal) →
    ∃ w', batchLoop n i s w t = ⟨w', (drain n t).1, 0, .ok (s + (drain n t).2.length)⟩ ∧ w'.Good ∧
      w'.content = w.content ++ ((drain n t).2.map recBytes).flatten ∧
      w'.ck = Crc.update w.ck ((drain n t).2.map recBytes).flatten ∧
      w'.pck = Crc.update w.pck ((drain n t).2.map recBytes).flatten ∧ w'.size = w.size
  | 0, i, s, t, w, h, _, _ => ⟨w, rfl, h, by simp [drain], by simp [drain], by simp [drain], rfl⟩
  | n + 1, i, s, t, w, h, hn, he => by
    cases hq : t.queue with
    | nil => rw [hq] at hn; simp at hn
    | cons d ds =>
      have hsq := stepRec_queue { t with queue := ds } d
      rw [hq] at hn
      rw [drain] at he ⊢
      rw [batchLoop]
      simp only [hq] at he ⊢
      generalize stepRec { t with queue := ds } d = st at hsq he
      obtain ⟨u, o⟩ := st
      simp only at hsq
      have hn' : n ≤ u.queue.length := by rw [hsq]; simpa using hn
      cases o with
      | none =>
        simp only at he ⊢
        exact batchLoop_good n (i + 1) s h hn' he
      | some e =>
        simp only at he ⊢
        obtain ⟨w1, e1, g1, c1, k1, p1, z1⟩ := writeRec_good h (he e (by simp))
        obtain ⟨w2, e2, g2, c2, k2, p2, z2⟩ := batchLoop_good n (i + 1) (s + 1) g1 hn' (fun x hx => he x (by simp [hx]))
        refine ⟨w2, ?_, g2, ?_, ?_, ?_, by rw [z2, z1]⟩
        · rw [e1]
          simp only [e2, List.length_cons]
          congr 2
          omega
        · rw [c2, c1]; simp
        · rw [k2, k1]; simp [Crc.update_append]
        · rw [p2, p1]; simp [Crc.update_append]

theorem drain_length : ∀ (n : Nat) (t : Tbl), (drain n t).2.length ≤ n
  | 0, t => by simp [drain]
  | n + 1, t => by
    rw [drain]
    cases t.queue with
    | nil => simp
    | cons d ds =>
      simp only
      generalize stepRec { t with queue := ds } d = st
      obtain ⟨u, o⟩ := st
      have := drain_length n u
      cases o with
      | none => simp only; omega
      | some e => simp only [List.length_cons]; omega

/-- The adapter on a healthy writer. -/
theorem batchWrite_good {n : Nat} {t : Tbl} {w : TW} (h : w.Good) (hp : w.pck = Crc.new) (hn : n ≤ t.queue.length)
    (he : ∀ e ∈ (drain n t).2, e.key.uniq ≠ .illegal) :
    ∃ w', batchWrite n t w = ⟨w', (drain n t).1, 0, .ok ()⟩ ∧ w'.Good ∧
      w'.content = w.content ++ batchBytes n t.model (drain n t).2 ∧
      w'.ck = Crc.update w.ck (batchBytes n t.model (drain n t).2) ∧ w'.pck = Crc.new ∧ w'.size = w.size := by
  obtain ⟨w1, e1, g1, c1, k1, p1, z1⟩ := dtrackAll_good h (le 8 n :: metaChunks t.model)
  obtain ⟨w2, e2, g2, c2, k2, p2, z2⟩ := batchLoop_good n 0 0 g1 hn he
  obtain ⟨w3, e3, g3, c3, k3, p3, z3⟩ := dtrackAll_good g2 (tailChunks n (0 + (drain n t).2.length))
  have hbody : (le 8 n :: metaChunks t.model).flatten ++ (((drain n t).2.map recBytes).flatten ++
      (tailChunks n (0 + (drain n t).2.length)).flatten) = batchBody n t.model (drain n t).2 := by
    simp only [metaChunks, tailChunks, batchBody, List.flatten_cons, List.flatten_nil, List.append_nil, List.append_assoc,
      List.flatten_append, Nat.zero_add]
    congr 6
    split <;> simp
  have hp3 : w3.pck = Crc.update Crc.new (batchBody n t.model (drain n t).2) := by
    rw [p3, p2, p1, hp, ← hbody]
    simp only [Crc.update_append]
  obtain ⟨w4, e4, g4, c4, k4, p4, z4⟩ := (show ({ w3 with pck := Crc.new } : TW).Good from ⟨g3.io, g3.cur, g3.cap⟩).trackedWrite
    (le 8 (Crc.finish w3.pck))
  have hck : Crc.finish w3.pck = Crc.crc (batchBody n t.model (drain n t).2) := by rw [hp3]; rfl
  have hcont : ({ w3 with pck := Crc.new } : TW).content = w3.content := rfl
  refine ⟨w4, ?_, g4, ?_, ?_, by rw [p4], by rw [z4]; simp only [z3, z2, z1]⟩
  · rw [batchWrite, e1]
    simp only [andThen, e2, batchEnd, e3, TW.resetPartial, e4]
  · rw [c4, hcont, c3, c2, c1, batchBytes, ← hbody, hck, ← hbody]
    simp only [List.append_assoc]
  · rw [k4]
    simp only
    rw [k3, k2, k1, batchBytes, ← hbody, hck, ← hbody]
    simp only [Crc.update_append]

/-- The bytes of a committed batch. -/
def batchEvent (id n : Nat) (m : Model) (es : List Rec) : Bytes :=
  le 16 id ++ (le 8 (0 ||| MASK) ++ batchBytes n m es)

/-- Committing a batch on an idle writer. -/
theorem commitBatch_idle {w : JW} (h : w.Idle) {t : Tbl} {n : Nat} (hn : n ≤ t.queue.length)
    (he : ∀ e ∈ (drain n t).2, e.key.uniq ≠ .illegal) :
    ∃ w', commitBatch w t n = (w', (drain n t).1, 0, .ok ()) ∧ w'.Idle ∧
      w'.log.disk = w.log.disk ++ batchEvent w.txnId n t.model (drain n t).2 ∧
      w'.log.ck = Crc.update w.log.ck (batchEvent w.txnId n t.model (drain n t).2) ∧
      w'.txnId = w.txnId + 1 ∧ w'.knownTxnId = w.txnId ∧ w'.knownTxnOffset = w'.log.cursor := by
  obtain ⟨w', e1, i1, d1, k1, t1, n1, o1⟩ := h.commitWith 0
    (adapter := fun log => ((batchWrite n t log).w, (batchWrite n t log).res))
    (bs := batchBytes n t.model (drain n t).2) (by
      intro l hl hp
      obtain ⟨l', b1, b2, b3, b4, b5, b6⟩ := batchWrite_good hl hp hn he
      exact ⟨l', by rw [b1], b2, b3, b4, b5, b6⟩)
  obtain ⟨l1, e2, g2, _, _, p2, _⟩ := h.good.writeAll [le 16 w.txnId, le 8 (0 ||| MASK)]
  obtain ⟨l', b1, _⟩ := batchWrite_good (t := t) (n := n) g2 (by rw [p2, h.pck]) hn he
  refine ⟨w', ?_, i1, d1, k1, t1, n1, o1⟩
  rw [commitBatch, e1]
  simp only [e2, b1]

/-! ### Reading -/

/-- One more event keeps a reader in step. -/
theorem reached_step {G : Type} {dec : Decode G} {g0 gs gs' : G} {w w' : JW} {bs : Bytes} (hr : Reached dec g0 w gs)
    (h : w.Idle) (hd : w'.log.disk = w.log.disk ++ bs) (hb : 0 < bs.length)
    (hs : ∀ rest, (readerAt w (bs ++ rest) gs).applyNext dec = .ok (false, readerAt w' rest gs')) :
    Reached dec g0 w' gs' := by
  intro rest
  obtain ⟨k, hk1, hf⟩ := hr (bs ++ rest)
  refine ⟨k + 1, ?_, ?_⟩
  · rw [hd, List.length_append]; omega
  · intro fuel
    have := hf (1 + fuel)
    rw [scrollLoop_next (hs rest)] at this
    rw [← this, hd, List.drop_append_of_le_length h.hdr, List.append_assoc, Nat.add_assoc]

theorem batchDecode_enc {t R R' : Tbl} (hm : MOk t.model) {n : Nat} (hn : (drain n t).2.length ≤ n)
    (he : ∀ e ∈ (drain n t).2, RecWf t.model e) (hn64 : n < 2 ^ 64) (hd64 : t.model.deltas.length < 2 ^ 64)
    (hf64 : t.model.fields.length < 2 ^ 64) (hf : finish R ⟨t.model.deltas.length, (drain n t).2⟩ = .ok R')
    (c : Nat) (k : BitVec 64) (rest : Bytes) :
    batchDecode R 0 ⟨batchBytes n t.model (drain n t).2 ++ rest, c, k⟩ =
      .ok (R', ⟨rest, c + (batchBytes n t.model (drain n t).2).length,
        Crc.update k (batchBytes n t.model (drain n t).2)⟩) := by
  rw [batchDecode]
  simp only [Nat.zero_mod, ne_eq, not_true_eq_false, if_false]
  rw [batchBytes]
  generalize hB : batchBody n t.model (drain n t).2 = B
  simp only [List.append_assoc]
  have hdec := decBatch_enc hm hn he hn64 hd64 hf64 (le 8 (Crc.crc B) ++ rest)
  rw [hB] at hdec
  rw [hdec]
  simp only [liftE, Res.bind]
  have hlen : (B ++ (le 8 (Crc.crc B) ++ rest)).length - (le 8 (Crc.crc B) ++ rest).length = B.length := by
    simp only [List.length_append]; omega
  rw [hlen, Journal.TR.read_append rfl]
  simp only [hf]
  rw [Journal.TR.read_append (le_length 8 _)]
  simp only
  rw [unle_le8 (Crc.crc_lt _)]
  simp only [if_true, List.length_append, le_length, Crc.update_append, Nat.add_assoc]

theorem applyNext_batch {w w' : JW} (h : w.Idle) (i' : w'.Idle) {t R R' : Tbl} (hm : MOk t.model) {n : Nat}
    (hn : (drain n t).2.length ≤ n) (he : ∀ e ∈ (drain n t).2, RecWf t.model e) (hn64 : n < 2 ^ 64)
    (hd64 : t.model.deltas.length < 2 ^ 64) (hf64 : t.model.fields.length < 2 ^ 64)
    (hf : finish R ⟨t.model.deltas.length, (drain n t).2⟩ = .ok R')
    (hd : w'.log.disk = w.log.disk ++ batchEvent w.txnId n t.model (drain n t).2)
    (hck : w'.log.ck = Crc.update w.log.ck (batchEvent w.txnId n t.model (drain n t).2))
    (ht : w'.txnId = w.txnId + 1) (hk : w'.knownTxnId = w.txnId) (ho : w'.knownTxnOffset = w'.log.cursor)
    (hsz : w'.log.disk.length < 2 ^ 63) (rest : Bytes) :
    (readerAt w (batchEvent w.txnId n t.model (drain n t).2 ++ rest) R).applyNext batchDecode
      = .ok (false, readerAt w' rest R') := by
  have hid : w.txnId < 2 ^ 63 := by have := i'.id; omega
  have hor : 0 ||| MASK = MASK := by simp
  have hm63 : MASK = 2 ^ 63 := rfl
  unfold JR.applyNext readerAt
  rw [batchEvent]
  simp only [List.append_assoc]
  rw [Journal.TR.read_append (le_length 16 _)]
  simp only [Res.bind]
  rw [Journal.TR.read_append (le_length 8 _)]
  simp only
  rw [unle_le16 (by omega), hor, unle_le8 (by omega)]
  simp only [ne_eq, not_true, if_false, Nat.le_refl, if_true, Nat.sub_self]
  rw [batchDecode_enc hm hn he hn64 hd64 hf64 hf]
  have hcur : w'.log.cursor = w.log.cursor + 16 + 8 + (batchBytes n t.model (drain n t).2).length := by
    rw [i'.good.cur, hd, batchEvent]
    simp only [List.length_append, le_length, h.good.cur]
    omega
  have hck' : w'.log.ck = Crc.update (Crc.update (Crc.update w.log.ck (le 16 w.txnId)) (le 8 MASK))
      (batchBytes n t.model (drain n t).2) := by
    rw [hck, batchEvent, hor]; simp only [Crc.update_append]
  simp only [JR.refresh, ht, hk, ho, hcur, hck']

end Verif.Batch
