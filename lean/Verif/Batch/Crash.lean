import Verif.Batch.LifeTheorems
/-!
C86: rows after a crash. The process is killed, between two operations or while a batch is being written. The data file then ends in the
middle of a session. What does the next start make of it, and what is in it?
-/
namespace Verif.Batch
open Verif.Gns (SDelta Model upd fget ModelOk PkNonNull FieldsOk)
open Verif.Enc (Src decElem DErr DICT)
open Verif.Dml (Key Cells RowObj DKind Delta Tbl resolve FloatOps Stmt Where Reply kget Inv lookup_row RowOk normCells abs resolve_id ATable SpecRun
  Fine exF exModel exRow whereId)
open Verif.Journal (JW JR TR Decode Reached readerAt openJournal HEADER SErr MASK)

/-! ### Specification -/

/-- The life of a model up to a point in its last session (`C11` for the sessions before; creation `fractal/drivers.rs:88-101`, start
`engine/storage/v2/mod.rs:161-194`). Gives the table in memory, the file, and all replies. -/
def upTo (F : FloatOps) (order : List (Key × Nat) → List (Key × Nat)) (lim : Nat) (m : Model) (hdr : Bytes) :
    List (List Op) → List Op → Run (Srv × List Reply)
  | [], last =>
    match JW.create hdr [] with
    | (w, .ok ()) => steps F order lim last ⟨w, Tbl.empty m⟩
    | _ => .bad
  | first :: rest, last =>
    (life F order lim m hdr first rest).bind fun e => (start lim m e.file).bind fun (s, _) =>
      (steps F order lim last s).bind fun (s, rs) => .ok (s, e.replies ++ rs)

/-- The row of `k` was changed, and the change has not been written. -/
def Pending (t : Tbl) (k : Key) : Prop := ∃ d ∈ t.queue, ∃ r, t.heap[d.row]? = some r ∧ r.key = k

/-! ### More bytes after what is read do not matter -/

theorem read_more {n : Nat} {b x r : Bytes} (h : Src.file.read n b = .ok (x, r)) (q : Bytes) :
    Src.file.read n (b ++ q) = .ok (x, r ++ q) := by
  unfold Src.read at h ⊢
  split at h
  · rename_i hn
    cases h
    rw [if_pos (by rw [List.length_append]; omega), List.take_append_of_le_length hn, List.drop_append_of_le_length hn]
  · simp only at h
    split at h <;> cases h

theorem u64_more {b r : Bytes} {v : Nat} (h : Src.file.u64 b = .ok (v, r)) (q : Bytes) : Src.file.u64 (b ++ q) = .ok (v, r ++ q) := by
  unfold Src.u64 at h ⊢
  obtain ⟨⟨x, y⟩, e, h⟩ := Res.bind_eq_ok h
  cases h
  rw [read_more e]; rfl

theorem byte_more {b r : Bytes} {v : UInt8} (h : Src.file.byte b = .ok (v, r)) (q : Bytes) : Src.file.byte (b ++ q) = .ok (v, r ++ q) := by
  unfold Src.byte at h ⊢
  obtain ⟨⟨x, y⟩, e, h⟩ := Res.bind_eq_ok h
  cases h
  rw [read_more e]; rfl

theorem decElem_more {f d : Nat} {b r : Bytes} {c : Cell} (h : decElem .file f d b = .ok (c, r)) (q : Bytes) :
    decElem .file ((b ++ q).length + 1) d (b ++ q) = .ok (c, r ++ q) := by
  obtain ⟨h1, h2, h3⟩ := Enc.decElem_consumes h
  subst h2
  rw [← h1, List.append_assoc]
  exact Enc.decElem_enc .file (r ++ q) c h3 _ (by simp only [List.length_append]; omega)

theorem decCells_more (q : Bytes) : ∀ {n : Nat} {b r : Bytes} {cs : List Cell}, decCells n b = .ok (cs, r) →
    decCells n (b ++ q) = .ok (cs, r ++ q)
  | 0, b, r, cs, h => by rw [decCells] at h ⊢; cases h; rfl
  | n + 1, b, r, cs, h => by
    rw [decCells] at h ⊢
    obtain ⟨⟨d, b1⟩, e1, h⟩ := Res.bind_eq_ok h
    rw [byte_more e1]
    simp only [Res.bind] at h ⊢
    split at h
    · cases h
    · rename_i hd
      rw [if_neg hd]
      obtain ⟨⟨c, b2⟩, e2, h⟩ := Res.bind_eq_ok h
      obtain ⟨⟨cs', b3⟩, e3, h⟩ := Res.bind_eq_ok h
      cases h
      rw [decElem_more e2]
      simp only [Res.bind]
      rw [decCells_more q e3]

theorem decKey_more (q : Bytes) {tag : UInt8} {b r : Bytes} {k : Key} (h : decKey tag b = .ok (k, r)) :
    decKey tag (b ++ q) = .ok (k, r ++ q) := by
  unfold decKey at h ⊢
  split at h
  · rename_i e; rw [if_pos e]
    obtain ⟨⟨v, b1⟩, e1, h⟩ := Res.bind_eq_ok h
    cases h; rw [u64_more e1]; rfl
  rename_i e; rw [if_neg e]; clear e
  split at h
  · rename_i e; rw [if_pos e]
    obtain ⟨⟨v, b1⟩, e1, h⟩ := Res.bind_eq_ok h
    cases h; rw [u64_more e1]; rfl
  rename_i e; rw [if_neg e]; clear e
  split at h
  · rename_i e; rw [if_pos e]
    obtain ⟨⟨v, b1⟩, e1, h⟩ := Res.bind_eq_ok h
    obtain ⟨⟨x, b2⟩, e2, h⟩ := Res.bind_eq_ok h
    cases h; rw [u64_more e1]; simp only [Res.bind]; rw [read_more e2]
  rename_i e; rw [if_neg e]; clear e
  split at h
  · rename_i e; rw [if_pos e]
    obtain ⟨⟨v, b1⟩, e1, h⟩ := Res.bind_eq_ok h
    obtain ⟨⟨x, b2⟩, e2, h⟩ := Res.bind_eq_ok h
    rw [u64_more e1]; simp only [Res.bind]; rw [read_more e2]
    simp only at h ⊢
    cases hs : decStr x with
    | none => rw [hs] at h; cases h
    | some s => rw [hs] at h; cases h; rfl
  · cases h

theorem decRec_more (q : Bytes) {tag : UInt8} {cols : Nat} {k : DKind} {b r : Bytes} {e : Rec} (h : decRec tag cols k b = .ok (e, r)) :
    decRec tag cols k (b ++ q) = .ok (e, r ++ q) := by
  unfold decRec at h ⊢
  obtain ⟨⟨txn, b1⟩, e1, h⟩ := Res.bind_eq_ok h
  obtain ⟨⟨key, b2⟩, e2, h⟩ := Res.bind_eq_ok h
  rw [u64_more e1]; simp only [Res.bind]
  rw [decKey_more q e2]; simp only
  cases k with
  | delete => cases h; rfl
  | insert =>
    obtain ⟨⟨cs, b3⟩, e3, h⟩ := Res.bind_eq_ok h
    cases h
    simp only [Res.bind]; rw [decCells_more q e3]
  | update =>
    obtain ⟨⟨cs, b3⟩, e3, h⟩ := Res.bind_eq_ok h
    cases h
    simp only [Res.bind]; rw [decCells_more q e3]

theorem decRecs_more (q : Bytes) {tag : UInt8} {cols : Nat} : ∀ {n : Nat} {b r : Bytes} {es : List Rec},
    decRecs tag cols n b = .ok (es, r) → decRecs tag cols n (b ++ q) = .ok (es, r ++ q)
  | 0, b, r, es, h => by rw [decRecs] at h ⊢; cases h; rfl
  | n + 1, b, r, es, h => by
    rw [decRecs] at h ⊢
    obtain ⟨⟨x, b1⟩, e1, h⟩ := Res.bind_eq_ok h
    obtain ⟨k, e2, h⟩ := Res.bind_eq_ok h
    rw [byte_more e1]; simp only [Res.bind]
    rw [e2]
    cases k with
    | none => cases h; rfl
    | some k =>
      obtain ⟨⟨e, b2⟩, e3, h⟩ := Res.bind_eq_ok h
      obtain ⟨⟨es', b3⟩, e4, h⟩ := Res.bind_eq_ok h
      cases h
      simp only
      rw [decRec_more q e3]
      simp only [Res.bind]
      rw [decRecs_more q e4]

theorem decBatch_more (q : Bytes) {b r : Bytes} {p : Parsed} (h : decBatch b = .ok (p, r)) : decBatch (b ++ q) = .ok (p, r ++ q) := by
  unfold decBatch at h ⊢
  obtain ⟨⟨n, b1⟩, e1, h⟩ := Res.bind_eq_ok h
  obtain ⟨⟨tag, b2⟩, e2, h⟩ := Res.bind_eq_ok h
  rw [u64_more e1]; simp only [Res.bind]
  rw [byte_more e2]; simp only
  simp only at h
  split at h
  · cases h
  · rename_i ht
    rw [if_neg ht]
    obtain ⟨⟨schema, b3⟩, e3, h⟩ := Res.bind_eq_ok h
    obtain ⟨⟨cols, b4⟩, e4, h⟩ := Res.bind_eq_ok h
    obtain ⟨⟨es, b5⟩, e5, h⟩ := Res.bind_eq_ok h
    obtain ⟨⟨actual, b6⟩, e6, h⟩ := Res.bind_eq_ok h
    rw [u64_more e3]; simp only [Res.bind]
    rw [u64_more e4]; simp only
    rw [decRecs_more q e5]; simp only
    rw [u64_more e6]; simp only
    simp only at h
    split at h
    · rename_i ha
      cases h
      rw [if_pos ha]
    · cases h

theorem trread_more {tr tr' : TR} {n : Nat} {x : Bytes} (h : tr.read n = .ok (x, tr')) (q : Bytes) :
    TR.read { tr with rest := tr.rest ++ q } n = .ok (x, { tr' with rest := tr'.rest ++ q }) := by
  by_cases hn : n ≤ tr.rest.length
  · obtain ⟨a, b, hab, ha⟩ : ∃ a b, tr.rest = a ++ b ∧ a.length = n :=
      ⟨tr.rest.take n, tr.rest.drop n, (List.take_append_drop ..).symm, by rw [List.length_take]; omega⟩
    obtain ⟨rest, c, k⟩ := tr
    simp only at hab; subst hab
    rw [Journal.TR.read_append ha] at h
    simp only [Res.ok.injEq, Prod.mk.injEq] at h
    obtain ⟨rfl, rfl⟩ := h
    simp only [List.append_assoc]
    rw [Journal.TR.read_append ha]
  · rw [Journal.TR.read_short (by omega)] at h
    cases h

theorem batchDecode_more {t t' : Tbl} {md : Nat} {tr tr' : TR} (h : batchDecode t md tr = .ok (t', tr')) (q : Bytes) :
    batchDecode t md { tr with rest := tr.rest ++ q } = .ok (t', { tr' with rest := tr'.rest ++ q }) := by
  unfold batchDecode at h ⊢
  split at h
  · cases h
  · rename_i hm
    rw [if_neg hm]
    obtain ⟨⟨p, rest⟩, e1, h⟩ := Res.bind_eq_ok h
    obtain ⟨⟨used, t1⟩, e2, h⟩ := Res.bind_eq_ok h
    obtain ⟨gs, e3, h⟩ := Res.bind_eq_ok h
    obtain ⟨⟨ck, t2⟩, e4, h⟩ := Res.bind_eq_ok h
    have e1' : decBatch tr.rest = .ok (p, rest) := by
      cases hb : decBatch tr.rest with
      | ok a => rw [hb] at e1; simp only [liftE, Res.ok.injEq] at e1; rw [e1]
      | err e => rw [hb] at e1; cases e <;> cases e1
      | panic => rw [hb] at e1; cases e1
      | hang => rw [hb] at e1; cases e1
    simp only [decBatch_more q e1', liftE, Res.bind]
    have hl : (tr.rest ++ q).length - (rest ++ q).length = tr.rest.length - rest.length := by
      simp only [List.length_append]; omega
    simp only at e2 e4 h
    rw [hl, trread_more e2]
    simp only [e3]
    rw [trread_more e4]
    simp only
    split at h
    · rename_i hc
      cases h
      rw [if_pos hc]
    · cases h

theorem batchDecode_torn {R R' : Tbl} {p q : Bytes} {c : Nat} {k : BitVec 64} {tr : TR} (h : batchDecode R 0 ⟨p ++ q, c, k⟩ = .ok (R', tr))
    (ht : tr.rest = []) (hq : q ≠ []) : (batchDecode R 0 ⟨p, c, k⟩).isOk = false := by
  cases ha : batchDecode R 0 ⟨p, c, k⟩ with
  | err e => rfl
  | panic => rfl
  | hang => rfl
  | ok x =>
    exfalso
    obtain ⟨t, tr1⟩ := x
    have := batchDecode_more ha q
    simp only at this
    rw [h] at this
    simp only [Res.ok.injEq, Prod.mk.injEq] at this
    rw [this.2] at ht
    exact hq (List.append_eq_nil_iff.1 ht).2

/-- The beginning of a cut off list. -/
theorem cut_of_long {a b p q : Bytes} (h : a ++ b = p ++ q) (hl : a.length ≤ p.length) : ∃ x, p = a ++ x ∧ b = x ++ q := by
  rcases List.append_eq_append_iff.1 h with ⟨x, h1, h2⟩ | ⟨x, h1, h2⟩
  · exact ⟨x, h1, h2⟩
  · have := congrArg List.length h1
    rw [List.length_append] at this
    have : x = [] := List.length_eq_zero_iff.1 (by omega)
    subst this
    exact ⟨[], by rw [h1, List.append_nil, List.append_nil], by rw [h2, List.nil_append]; rfl⟩

theorem bind_ok {ε α β : Type} (a : α) (f : α → Res ε β) : (Res.ok a).bind f = f a := rfl

theorem bind_not_ok {ε α β : Type} {x : Res ε α} (f : α → Res ε β) (h : x.isOk = false) : (x.bind f).isOk = false := by
  cases x with
  | ok a => cases h
  | err e => rfl
  | panic => rfl
  | hang => rfl

/-- A batch that is cut off is not accepted. -/
theorem applyNext_torn {w : JW} {R R' : Tbl} {B M p q : Bytes} (hid : w.txnId < 2 ^ 63) (hM : M.length = 8) (hM' : unle M = MASK)
    (hpq : le 16 w.txnId ++ (M ++ B) = p ++ q) (hq : q ≠ [])
    (hs : ∀ c k, ∃ tr, batchDecode R 0 ⟨B, c, k⟩ = .ok (R', tr) ∧ tr.rest = []) :
    ((readerAt w p R).applyNext batchDecode).isOk = false := by
  unfold JR.applyNext
  by_cases h16 : p.length < 16
  · refine bind_not_ok _ ?_
    rw [readerAt, Journal.TR.read_short h16]
    rfl
  obtain ⟨x, rfl, hx⟩ := cut_of_long hpq (by rw [le_length]; exact Nat.le_of_not_lt h16)
  clear hpq
  rw [readerAt, Journal.TR.read_append (le_length 16 _), bind_ok]
  simp only
  by_cases h8 : x.length < 8
  · refine bind_not_ok _ ?_
    rw [Journal.TR.read_short h8]
    rfl
  obtain ⟨y, rfl, rfl⟩ := cut_of_long hx (by rw [hM]; exact Nat.le_of_not_lt h8)
  rw [Journal.TR.read_append hM, bind_ok]
  simp only
  rw [unle_le16 (Nat.lt_trans hid (by decide)), hM', if_neg (fun h => h rfl), if_pos (Nat.le_refl MASK), Nat.sub_self]
  refine bind_not_ok _ ?_
  obtain ⟨tr, e1, e2⟩ := hs (w.log.cursor + 16 + 8) (Crc.update (Crc.update w.log.ck (le 16 w.txnId)) M)
  exact batchDecode_torn e1 e2 hq

/-! ### The file of a running server -/

theorem scroll_not_ok {G} {dec : Decode G} {g0 gs : G} {w : JW} {rest : Bytes} (hr : Reached dec g0 w gs) (hh : HEADER ≤ w.log.disk.length)
    (h : ((readerAt w rest gs).applyNext dec).isOk = false) (io : List Journal.Sys) : (openJournal dec g0 (w.log.disk ++ rest) io).isOk = false := by
  obtain ⟨n, hn⟩ := hr.scroll hh rest
  have e : n + 1 + rest.length = (n + rest.length) + 1 := by omega
  unfold openJournal
  rw [hn, e]
  cases ha : (readerAt w rest gs).applyNext dec with
  | ok a => rw [ha] at h; cases h
  | err e => simp only [Journal.JR.scrollLoop, ha, Res.bind]; rfl
  | panic => simp only [Journal.JR.scrollLoop, ha, Res.bind]; rfl
  | hang => simp only [Journal.JR.scrollLoop, ha, Res.bind]; rfl

theorem Good.refused {m : Model} {lim : Nat} {s : Srv} {R : Tbl} (h : Good m lim s R) (io : List Journal.Sys) :
    openJournal batchDecode (Tbl.empty m) s.w.log.disk io = .err .io := by
  have := h.reached.scroll_err (rest := []) h.idle.hdr Journal.applyNext_nil
  rw [List.append_nil] at this
  simp [openJournal, this]

theorem Good.torn {m : Model} (hm : LifeOk m) {lim : Nat} (hlim : lim ≤ 2 ^ 62) {s s' : Srv} {R : Tbl} (h : Good m lim s R) {n : Nat}
    {x : List Reply} (hf : flushSome lim s n = .ok (s', x)) {j : Nat} (h1 : s.w.log.disk.length ≤ j) (h2 : j < s'.w.log.disk.length)
    (io : List Journal.Sys) : (openJournal batchDecode (Tbl.empty m) (s'.w.log.disk.take j) io).isOk = false := by
  rw [flushSome] at hf
  by_cases h0 : min n s.t.queue.length = 0
  · rw [if_pos h0] at hf
    cases hf
    omega
  rw [if_neg h0] at hf
  generalize hk : min n s.t.queue.length = k at h0 hf
  have hkq : k ≤ s.t.queue.length := by omega
  obtain ⟨d1, d2, d3, d4, d5⟩ := drain_spec (P := TagOk) trivial k h.sync.mok h.sync.live h.vals hkq
  have hmod : s.t.model = m := h.inv.model
  have hleg : ∀ e ∈ (drain k s.t).2, e.key.uniq ≠ .illegal := by
    intro e he
    rw [(d2 e he).key]
    exact h.sync.mok.uniq
  obtain ⟨w', e1, i1, c1, k1, t1, n1, o1⟩ := commitBatch_idle h.idle hkq hleg
  rw [e1] at hf
  simp only [check] at hf
  split at hf
  case isFalse => cases hf
  rename_i hfull
  cases hf
  simp only at h2 ⊢
  obtain ⟨R', r1, -, -⟩ := h.sync.flush (P := TagOk) trivial h.vals hkq (by omega)
  have hwf : ∀ e ∈ (drain k s.t).2, RecWf s.t.model e := by
    intro e he
    refine ⟨d2 e he, ?_, ?_⟩
    · have := d3.subset (List.mem_map_of_mem (f := (·.txn)) he)
      simp only [List.mem_map] at this
      obtain ⟨d, h1, h2⟩ := this
      have := h.sync.live.qver d (List.mem_of_mem_take h1)
      have := h.ver
      omega
    · have := rec_length he s.w.txnId k s.t.model
      have h2 := hfull.1
      rw [c1, List.length_append] at h2
      omega
  have hlen := h.sync.live.length
  have hver := h.ver
  have hid := i1.id
  have hid' : s.w.txnId < 2 ^ 63 := by omega
  rw [c1, List.length_append] at h2
  rw [c1, List.take_append, List.take_of_length_le h1]
  refine scroll_not_ok h.reached h.idle.hdr ?_ io
  refine applyNext_torn (B := batchBytes k s.t.model (drain k s.t).2) (M := le 8 (0 ||| MASK)) (R' := R')
    (q := (batchEvent s.w.txnId k s.t.model (drain k s.t).2).drop (j - s.w.log.disk.length)) hid' (le_length 8 _) ?_ ?_ ?_ ?_
  · rw [Nat.zero_or, unle_le8 (by have : MASK = 2 ^ 63 := rfl; omega)]
  · rw [List.take_append_drop]; simp only [batchEvent]
  · intro he
    have := congrArg List.length he
    rw [List.length_drop, List.length_nil] at this
    omega
  · intro c kk
    have := batchDecode_enc h.sync.mok (drain_length k s.t) hwf (by omega) (by rw [hmod]; exact hm.deltas) (by rw [hmod]; exact hm.fields) r1
      c kk []
    rw [List.append_nil] at this
    exact ⟨_, this, rfl⟩

/-- With the block that a clean shutdown would have written, the file opens. -/
theorem Good.closed {m : Model} {lim : Nat} (hlim : lim ≤ 2 ^ 62) {s : Srv} {R : Tbl} (h : Good m lim s R)
    (hsz : s.w.log.disk.length < lim) : ∃ block w, block.length = 64 ∧
      openJournal batchDecode (Tbl.empty m) (s.w.log.disk ++ block) [] = .ok (w, R) := by
  obtain ⟨w1, e1, i1, d1, k1, t1, n1, o1⟩ := h.idle.commitDriver .closed
  have hlen : (Journal.drvBytes s.w .closed).length = 64 := Journal.encode_length ..
  have hl1 : w1.log.disk.length = s.w.log.disk.length + 64 := by rw [d1, List.length_append, hlen]
  have hs := h.reached.scroll_closed h.idle e1 (by omega)
  obtain ⟨w2, e2, i2, d2, -⟩ := i1.commitDriver .reopened
  have h0 : w1.knownTxnOffset ≠ 0 := by
    rw [o1, i1.good.cur]; have := i1.hdr; simp only [HEADER] at this; omega
  refine ⟨Journal.drvBytes s.w .closed, w2, hlen, ?_⟩
  rw [← d1]
  unfold openJournal
  rw [hs]
  simp only [Res.bind]
  rw [JW.new_of_reader i1 h0, e2]

/-! ### What is in the file -/

theorem fold_untouched (t : Tbl) (k : Key) : ∀ (q : List Delta) (A : View),
    (∀ d ∈ q, ∀ r, t.heap[d.row]? = some r → r.key ≠ k) → q.foldl (adelta t) A k = A k
  | [], _, _ => rfl
  | d :: q, A, h => by
    rw [List.foldl_cons, fold_untouched t k q _ (fun d hd => h d (by simp [hd]))]
    unfold adelta
    cases hr : t.heap[d.row]? with
    | none => rfl
    | some r =>
      have hk : ¬ k = r.key := fun e => h d (by simp) r hr e.symm
      simp only
      cases d.kind with
      | delete => simp [hk]
      | insert => simp only; split <;> simp [hk]
      | update => simp only; split <;> simp [hk]

theorem restored_key {m : Model} (hm : MOk m) {t R : Tbl} (ht : Inv m t) (hR : RInv R) (hmod : R.model = m) (he : Exact m R) {k : Key}
    (hv : vw R k = vw t k) : abs R k = abs t k := by
  rcases hR.lookup k with ⟨h1, h2⟩ | ⟨i, r, h1, h2, h3⟩
  · rw [hv] at h2
    rcases lookup_row ht k with ⟨_, g2⟩ | ⟨i', r', g1, g2, _⟩
    · rw [g2]; simp [abs, h1]
    · simp [vw, g1, g2] at h2
  · have h1' : vw R k = some (rowList R.model r, r.revised) := by simp [vw, h1, h2]
    rw [hv] at h1'
    rcases lookup_row ht k with ⟨g1, _⟩ | ⟨i', r', g1, g2, g3, _, _, g4, g5⟩
    · simp [vw, g1] at h1'
    · have h2' : vw t k = some (rowList t.model r', r'.revised) := by simp [vw, g1, g2]
      rw [h1', hmod, ht.model] at h2'
      simp only [Option.some.injEq, Prod.mk.injEq] at h2'
      obtain ⟨e1, cs, e2, e3⟩ := he r (List.mem_of_getElem? h2)
      have h3 := h2'.1
      rw [rowList, rowList, resolve_id e1, resolve_id g4, e3, rowCells_zip hm e2] at h3
      have : r.cells = r'.cells := by rw [e3]; exact exact_cells hm g5 e2 h3
      rw [g3]
      simp [abs, h1, h2, this]

theorem Good.rows {m : Model} (hm : LifeOk m) {lim : Nat} {s : Srv} {R : Tbl} (h : Good m lim s R) {k : Key} (hk : ¬ Pending s.t k) :
    abs R k = abs s.t k := by
  refine restored_key hm.mok h.inv h.sync.rest (h.sync.model.trans h.inv.model) h.exact ?_
  rw [← h.sync.eq, fold_untouched]
  intro d hd r hr e
  exact hk ⟨d, hd, r, hr, e⟩

/-! ### Up to the crash -/

theorem upTo_good {F : FloatOps} {order : List (Key × Nat) → List (Key × Nat)} (ho : ∀ l, (order l).Perm l) {m : Model} (hm : LifeOk m)
    {lim : Nat} (hlim : lim ≤ 2 ^ 62) {hdr : Bytes} (hh : hdr.length = HEADER) (hlo : HEADER < lim) {older : List (List Op)}
    {last : List Op} (hx : ∀ os ∈ older ++ [last], Fixed os) (hf : Fine F m ((older ++ [last]).map stmts).flatten (fun _ => none))
    (ht : ∀ st ∈ ((older ++ [last]).map stmts).flatten, StmtTags st) :
    upTo F order lim m hdr older last = .full ∨ ∃ s rs R, upTo F order lim m hdr older last = .ok (s, rs) ∧ Good m lim s R ∧
      s.w.log.disk.length < lim ∧
      SpecRun F m (fun _ => none) ((older ++ [last]).map stmts).flatten (abs s.t) (rs.map Reply.norm) := by
  obtain ⟨w, e1, i1, d1, r1⟩ := Journal.create_idle hh
  have hg : Good m lim ⟨w, Tbl.empty m⟩ (Tbl.empty m) :=
    ⟨i1, r1 _ _ _, Sync.empty hm.mok, by intro r hr; simp [Tbl.empty] at hr, ⟨rfl, List.nodup_nil, by simp [Tbl.empty]⟩,
      by intro r hr; simp [Tbl.empty] at hr, by intro r hr; simp [Tbl.empty] at hr, by simp only [Tbl.empty]; omega⟩
  have hz : (⟨w, Tbl.empty m⟩ : Srv).w.log.disk.length < lim := by simp only [d1, hh]; exact hlo
  cases older with
  | nil =>
    simp only [List.nil_append, List.map_cons, List.map_nil, List.flatten_cons, List.flatten_nil, List.append_nil] at hf ht ⊢
    rw [upTo, e1]
    simp only
    rcases hg.steps (order := order) ho hm hlim hz hf (hx last (by simp)) ht with e | ⟨s, R, rs, e, g, z, sp⟩
    · exact .inl e
    · exact .inr ⟨s, rs, R, e, g, z, sp⟩
  | cons first rest =>
    simp only [List.cons_append, List.map_cons, List.flatten_cons, List.map_append, List.flatten_append, List.map_nil, List.flatten_nil,
      List.append_nil] at hf ht ⊢
    obtain ⟨f1, f2⟩ := Fine.split hf
    rw [upTo, life, e1]
    simp only
    rcases hg.session (order := order) ho hm hlim hz f1 (hx first (by simp)) (fun st hst => ht st (by simp [hst])) with
      e2 | ⟨e2, w2, T2, h2, k2, a2, m2, sp⟩
    · exact .inl (by rw [e2]; rfl)
    · rw [h2]
      simp only [Run.bind]
      have f2' := f2 _ _ sp
      obtain ⟨f3, f4⟩ := Fine.split f2'
      rcases k2.later (order := order) ho hm hlim (rest := rest) a2 m2 sp f3 (fun os hos => hx os (by simp [hos]))
          (fun st hst => ht st (by simp only [List.mem_append]; exact .inr (.inl hst))) with
        e3 | ⟨e3, w3, T3, h3, k3, a3, sp3⟩
      · exact .inl (by rw [e3])
      · rw [h3]
        simp only
        obtain ⟨_, f6⟩ := Fine.split (ss := stmts first ++ (rest.map stmts).flatten) (tt := stmts last) (by rw [List.append_assoc]; exact hf)
        rw [start, k3.opens]
        simp only [check]
        by_cases hfull : w3.log.disk.length < lim ∧ T3.ver < lim
        · rw [if_pos hfull]
          simp only
          have f5 := f6 _ _ sp3
          rw [← a3] at f5
          rcases (k3.good hfull.2).steps (order := order) ho hm hlim (os := last) hfull.1 f5 (hx last (by simp))
              (fun st hst => ht st (by simp [hst])) with e4 | ⟨s, R, rs, e4, g, z, sp5⟩
          · exact .inl (by rw [e4])
          · rw [e4]
            refine .inr ⟨s, e3.replies ++ rs, R, rfl, g, z, ?_⟩
            rw [List.map_append, ← List.append_assoc]
            rw [a3] at sp5
            exact SpecRun.append sp3 sp5
        · rw [if_neg hfull]; exact .inl rfl

/-! ### Theorems -/

/-- **C86 is violated.** Whatever was acknowledged and written before, a data file whose server was killed is refused by the next start:
between two operations with an I/O error, and when it happened in the middle of a batch as well. -/
theorem C86_crash_is_refused_violated {F : FloatOps} {order : List (Key × Nat) → List (Key × Nat)} (ho : ∀ l, (order l).Perm l) {m : Model}
    (hm : LifeOk m) {lim : Nat} (hlim : lim ≤ 2 ^ 62) {hdr : Bytes} (hh : hdr.length = HEADER) (hlo : HEADER < lim)
    {older : List (List Op)} {last : List Op} (hx : ∀ os ∈ older ++ [last], Fixed os)
    (hf : Fine F m ((older ++ [last]).map stmts).flatten (fun _ => none)) (ht : ∀ st ∈ ((older ++ [last]).map stmts).flatten, StmtTags st) :
    upTo F order lim m hdr older last = .full ∨ ∃ s rs, upTo F order lim m hdr older last = .ok (s, rs) ∧
      (∀ io, openJournal batchDecode (Tbl.empty m) s.w.log.disk io = .err .io) ∧
      ∀ n s' x, step F order lim s (.flush n) = .ok (s', x) → ∀ j, s.w.log.disk.length ≤ j → j < s'.w.log.disk.length →
        ∀ io, (openJournal batchDecode (Tbl.empty m) (s'.w.log.disk.take j) io).isOk = false := by
  rcases upTo_good ho hm hlim hh hlo hx hf ht with h | ⟨s, rs, R, h1, h2, -, -⟩
  · exact .inl h
  · exact .inr ⟨s, rs, h1, h2.refused, fun n s' x hs j => h2.torn hm hlim hs⟩

/-- **C86, partial.** The rows are not gone. Cut the file at the end of its last complete batch, and add the 64 bytes with which a clean
shutdown ends: it opens, and every row that has no pending change is as it was in memory at the crash, which is as the acknowledged
statements left it. Missing: the server does not do this; and see `C86_no_prefix_violated` for the other rows. -/
theorem C86_rows_are_in_the_file_partial {F : FloatOps} {order : List (Key × Nat) → List (Key × Nat)} (ho : ∀ l, (order l).Perm l)
    {m : Model} (hm : LifeOk m) {lim : Nat} (hlim : lim ≤ 2 ^ 62) {hdr : Bytes} (hh : hdr.length = HEADER) (hlo : HEADER < lim)
    {older : List (List Op)} {last : List Op} (hx : ∀ os ∈ older ++ [last], Fixed os)
    (hf : Fine F m ((older ++ [last]).map stmts).flatten (fun _ => none)) (ht : ∀ st ∈ ((older ++ [last]).map stmts).flatten, StmtTags st) :
    upTo F order lim m hdr older last = .full ∨ ∃ s rs block w T, upTo F order lim m hdr older last = .ok (s, rs) ∧
      SpecRun F m (fun _ => none) ((older ++ [last]).map stmts).flatten (abs s.t) (rs.map Reply.norm) ∧
      block.length = 64 ∧ openJournal batchDecode (Tbl.empty m) (s.w.log.disk ++ block) [] = .ok (w, T) ∧
      ∀ k, ¬ Pending s.t k → abs T k = abs s.t k := by
  rcases upTo_good ho hm hlim hh hlo hx hf ht with h | ⟨s, rs, R, h1, h2, h3, h4⟩
  · exact .inl h
  · obtain ⟨block, w, b1, b2⟩ := h2.closed hlim h3
    exact .inr ⟨s, rs, block, w, R, h1, h4, b1, b2, fun k hk => h2.rows hm hk⟩

theorem steps_then {F : FloatOps} {order : List (Key × Nat) → List (Key × Nat)} {lim : Nat} : ∀ {a b : List Op} {s : Srv},
    steps F order lim (a ++ b) s = (steps F order lim a s).bind fun (s1, rs) => (steps F order lim b s1).bind fun (s2, rs') => .ok (s2, rs ++ rs')
  | [], b, s => by
    simp only [List.nil_append, steps, Run.bind]
    cases steps F order lim b s <;> rfl
  | o :: a, b, s => by
    simp only [List.cons_append, steps]
    cases step F order lim s o with
    | full => rfl
    | bad => rfl
    | ok x =>
      simp only [Run.bind]
      rw [steps_then]
      cases steps F order lim a x.1 with
      | full => rfl
      | bad => rfl
      | ok y =>
        simp only [Run.bind]
        cases steps F order lim b y.1 with
        | full => rfl
        | bad => rfl
        | ok z => simp only [List.append_assoc]

/-- Statements do not write to the file. -/
theorem steps_stmts {F : FloatOps} {order : List (Key × Nat) → List (Key × Nat)} {lim : Nat} : ∀ {ss : List Stmt} {s s' : Srv}
    {rs : List Reply}, steps F order lim (ss.map Op.stmt) s = .ok (s', rs) → s'.w = s.w
  | [], s, s', rs, h => by simp only [List.map_nil, steps, Run.ok.injEq, Prod.mk.injEq] at h; rw [h.1]
  | st :: ss, s, s', rs, h => by
    simp only [List.map_cons, steps, step, check] at h
    split at h
    · simp only [Run.bind] at h
      split at h
      · rename_i a e
        simp only [Run.ok.injEq, Prod.mk.injEq] at h
        obtain ⟨s1, r1⟩ := a
        have := steps_stmts e
        rw [← h.1]
        exact this
      · cases h
      · cases h
    · cases h

theorem upTo_append {F : FloatOps} {order : List (Key × Nat) → List (Key × Nat)} {lim : Nat} {m : Model} {hdr : Bytes}
    {older : List (List Op)} {a b : List Op} : upTo F order lim m hdr older (a ++ b) =
      (upTo F order lim m hdr older a).bind fun (s1, r1) => (steps F order lim b s1).bind fun (s2, r2) => .ok (s2, r1 ++ r2) := by
  cases older with
  | nil =>
    simp only [upTo]
    split
    · rw [steps_then]
    · rfl
  | cons first rest =>
    simp only [upTo]
    cases life F order lim m hdr first rest with
    | full => rfl
    | bad => rfl
    | ok e =>
      simp only [Run.bind]
      cases start lim m e.file with
      | full => rfl
      | bad => rfl
      | ok x =>
        simp only [Run.bind]
        rw [steps_then]
        cases steps F order lim a x.1 with
        | full => rfl
        | bad => rfl
        | ok y =>
          simp only [Run.bind]
          cases steps F order lim b y.1 with
          | full => rfl
          | bad => rfl
          | ok z => simp only [List.append_assoc]

/-- **C86, partial.** If the last batch took everything that was pending, the file holds exactly the rows at that time, whatever statements
came later. -/
theorem C86_last_batch_partial {F : FloatOps} {order : List (Key × Nat) → List (Key × Nat)} (ho : ∀ l, (order l).Perm l)
    {m : Model} (hm : LifeOk m) {lim : Nat} (hlim : lim ≤ 2 ^ 62) {hdr : Bytes} (hh : hdr.length = HEADER) (hlo : HEADER < lim)
    {older : List (List Op)} {ops : List Op} {n : Nat} (hn : lim ≤ n) {more : List Stmt} (hx : ∀ os ∈ older ++ [ops], Fixed os)
    (hf : Fine F m ((older ++ [ops]).map stmts).flatten (fun _ => none)) (ht : ∀ st ∈ ((older ++ [ops]).map stmts).flatten, StmtTags st)
    {s : Srv} {rs : List Reply} (h : upTo F order lim m hdr older (ops ++ .flush n :: more.map Op.stmt) = .ok (s, rs)) :
    ∃ block w T rs', block.length = 64 ∧ openJournal batchDecode (Tbl.empty m) (s.w.log.disk ++ block) [] = .ok (w, T) ∧
      SpecRun F m (fun _ => none) ((older ++ [ops]).map stmts).flatten (abs T) rs' := by
  rw [upTo_append] at h
  rcases upTo_good ho hm hlim hh hlo hx hf ht with e | ⟨s1, r1, R1, e1, g1, z1, sp⟩
  · rw [e] at h; cases h
  rw [e1] at h
  simp only [Run.bind, steps, step] at h
  rcases g1.flush hm hlim n with e | ⟨s2, R2, e2, g2, a2, q2, z2⟩
  · rw [e] at h; cases h
  rw [e2] at h
  simp only at h
  cases e3 : steps F order lim (more.map Op.stmt) s2 with
  | full => rw [e3] at h; cases h
  | bad => rw [e3] at h; cases h
  | ok y =>
    rw [e3] at h
    simp only [Run.ok.injEq, Prod.mk.injEq] at h
    have hw : s.w = s2.w := by rw [← h.1]; exact steps_stmts e3
    have hq : s2.t.queue = [] := by
      have := g1.sync.live.length
      have := g1.ver
      rw [q2, List.drop_eq_nil_of_le (by omega)]
    obtain ⟨block, w, b1, b2⟩ := g2.closed hlim (z2 z1)
    have hR : abs R2 = abs s1.t := by
      rw [← a2]
      funext k
      exact g2.rows hm (by rintro ⟨d, hd, -⟩; rw [hq] at hd; cases hd)
    rw [hw]
    exact ⟨block, w, R2, r1.map Reply.norm, b1, b2, by rw [hR]; exact sp⟩

/-! ### Examples -/

/-- Which of the rows 1 and 2 are there. -/
def rows12 (t : Tbl) : Bool × Bool := ((abs t (.uint 1)).isSome, (abs t (.uint 2)).isSome)

/-- The rows after a crash, with the file cut at the last complete batch and closed by the block of a clean shutdown. -/
def rescued (r : Run (Srv × List Reply)) : Option (Bool × Bool) :=
  match r with
  | .ok (s, _) =>
    match s.w.close with
    | (w, .ok ()) =>
      match openJournal batchDecode (Tbl.empty exModel) w.log.disk [] with
      | .ok (_, t) => some (rows12 t)
      | _ => none
    | _ => none
  | _ => none

/-- The rows in memory. -/
def live (r : Run (Srv × List Reply)) : Option (Bool × Bool) :=
  match r with
  | .ok (s, _) => some (rows12 s.t)
  | _ => none

/-- Two rows are inserted, then the first is changed. -/
def exThree : List Op := [.stmt (exRow 1 .null), .stmt (exRow 2 .null), .stmt (.update [⟨"n", .assign, .uint 7⟩] (whereId 1))]

/-- **C86 is violated.** Two rows are inserted, a batch of two changes is ordered, and the first row is changed before it is written
(`fractal/mgr.rs:375-416`: the task holds the number of changes). The batch leaves out the first row, since a later change is pending
(`mdl_journal.rs:273-276`). What the file then holds is not what was there after any of the statements. -/
theorem C86_no_prefix_violated :
    rescued (upTo exF id 100000 exModel exHdr [] (exThree ++ [.flush 2])) = some (false, true) ∧
    ∀ i, live (upTo exF id 100000 exModel exHdr [] (exThree.take i)) ≠ some (false, true) := by
  refine ⟨by decide +kernel, fun i => ?_⟩
  have : ∀ i, i < 4 → live (upTo exF id 100000 exModel exHdr [] (exThree.take i)) ≠ some (false, true) := by decide +kernel
  by_cases h : i < 4
  · exact this i h
  · rw [List.take_of_length_le (by simp only [exThree, List.length_cons, List.length_nil]; omega)]
    exact this 3 (by omega)

/-- The partial theorems at work: with a batch that takes everything the rows are those at that time. -/
example : rescued (upTo exF id 100000 exModel exHdr [[.stmt (exRow 1 .null)]]
    [.stmt (exRow 2 .null), .flush 9, .stmt (.delete (whereId 1)), .stmt (.delete (whereId 2))]) = some (true, true) := by
  decide +kernel

/-- A batch cut off at each of its bytes: refused, in the end it is complete, but the file is not closed. -/
example :
    let r := upTo exF id 100000 exModel exHdr [] [.stmt (exRow 1 .null)]
    let r' := upTo exF id 100000 exModel exHdr [] [.stmt (exRow 1 .null), .flush 1]
    (match r, r' with
      | .ok (s, _), .ok (s', _) => some (s.w.log.disk.length, s'.w.log.disk.length,
          (List.range (s'.w.log.disk.length + 1)).all fun j =>
            j < 64 || !(openJournal batchDecode (Tbl.empty exModel) (s'.w.log.disk.take j) []).isOk)
      | _, _ => none) = some (64, 178, true) := by
  decide +kernel

end Verif.Batch
