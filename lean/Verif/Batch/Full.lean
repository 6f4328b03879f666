import Verif.Batch.Life
/-!
Model of `FullModel` (`storage/v2/impls/mdl_journal.rs:324-367`): one batch with all rows of a model, which is how the data
files are made when an older installation is upgraded. Writing it and reading it back.
-/
namespace Verif.Batch
open Verif.Gns (Model)
open Verif.Dml (Key Cells RowObj DKind Delta Tbl kget kdel resolve resolve_id Inv RowInv RowOk abs lookup_row kget_mem
  kget_none)
open Verif.Journal (TW TR JW JR SErr Decode MASK HEADER Reached readerAt openJournal)

/-! ### Model -/

/-- The records of the loop (`mdl_journal.rs:354-359`): the rows in the order in which the index is iterated, each with the
version of its last change. The cells are written as they are, without the pending changes of the columns. An entry of the
index always has a row. -/
def fullRecs (order : List (Key × Nat) → List (Key × Nat)) (t : Tbl) : List Rec :=
  (order t.idx).filterMap fun e =>
    (t.heap[e.2]?).map fun r => ⟨.insert, r.revised, e.1, rowCells t.model.pk t.model.fields r.cells⟩

/-- The writes of the records; there is no flush after a record. -/
def writeAllRecs (w : TW) : List Rec → TW × Res SErr Unit
  | [] => (w, .ok ())
  | e :: es =>
    match recChunks e with
    | none => (w, .panic)
    | some cs =>
      match dtrackAll w cs with
      | (w, .ok ()) => writeAllRecs w es
      | (w, r) => (w, r)

/-- `write_direct` of `FullModel` (`mdl_journal.rs:332-363`) in `commit_direct` of the batch adapter
(`raw/journal/mod.rs:246-258`). The number of rows is the length of the index. -/
def fullWrite (order : List (Key × Nat) → List (Key × Nat)) (t : Tbl) (w : TW) : Out Unit :=
  andThen (dtrackAll w (le 8 t.idx.length :: metaChunks t.model)) t fun w =>
    andThen (writeAllRecs w (fullRecs order t)) t fun w => batchEnd t.idx.length ⟨w, t, 0, .ok t.idx.length⟩

/-- `commit_with_ctx` with a `FullModel`. -/
def commitFull (order : List (Key × Nat) → List (Key × Nat)) (w : JW) (t : Tbl) : JW × Res SErr Unit :=
  w.commitWith 0 fun log => ((fullWrite order t log).w, (fullWrite order t log).res)

/-! ### Writing -/

theorem writeAllRecs_good : ∀ (es : List Rec) {w : TW}, w.Good → (∀ e ∈ es, e.key.uniq ≠ .illegal) →
    ∃ w', writeAllRecs w es = (w', .ok ()) ∧ w'.Good ∧ w'.content = w.content ++ (es.map recBytes).flatten ∧
      w'.ck = Crc.update w.ck (es.map recBytes).flatten ∧ w'.pck = Crc.update w.pck (es.map recBytes).flatten ∧
      w'.size = w.size
  | [], w, h, _ => ⟨w, rfl, h, by simp, by simp, by simp, rfl⟩
  | e :: es, w, h, he => by
    obtain ⟨cs, h1, h2⟩ := recChunks_flatten (he e (by simp))
    obtain ⟨w1, e1, g1, c1, k1, p1, z1⟩ := dtrackAll_good h cs
    rw [h2] at c1 k1 p1
    obtain ⟨w2, e2, g2, c2, k2, p2, z2⟩ := writeAllRecs_good es g1 (fun x hx => he x (by simp [hx]))
    refine ⟨w2, ?_, g2, ?_, ?_, ?_, by rw [z2, z1]⟩
    · rw [writeAllRecs, h1]; simp only [e1, e2]
    · rw [c2, c1]; simp
    · rw [k2, k1]; simp [Crc.update_append]
    · rw [p2, p1]; simp [Crc.update_append]

theorem fullWrite_good {order : List (Key × Nat) → List (Key × Nat)} {t : Tbl} {w : TW} (h : w.Good) (hp : w.pck = Crc.new)
    (hl : (fullRecs order t).length = t.idx.length) (he : ∀ e ∈ fullRecs order t, e.key.uniq ≠ .illegal) :
    ∃ w', fullWrite order t w = ⟨w', t, 0, .ok ()⟩ ∧ w'.Good ∧
      w'.content = w.content ++ batchBytes t.idx.length t.model (fullRecs order t) ∧
      w'.ck = Crc.update w.ck (batchBytes t.idx.length t.model (fullRecs order t)) ∧ w'.pck = Crc.new ∧ w'.size = w.size := by
  obtain ⟨w1, e1, g1, c1, k1, p1, z1⟩ := dtrackAll_good h (le 8 t.idx.length :: metaChunks t.model)
  obtain ⟨w2, e2, g2, c2, k2, p2, z2⟩ := writeAllRecs_good (fullRecs order t) g1 he
  obtain ⟨w3, e3, g3, c3, k3, p3, z3⟩ := dtrackAll_good g2 (tailChunks t.idx.length t.idx.length)
  have hbody : (le 8 t.idx.length :: metaChunks t.model).flatten ++ (((fullRecs order t).map recBytes).flatten ++
      (tailChunks t.idx.length t.idx.length).flatten) = batchBody t.idx.length t.model (fullRecs order t) := by
    simp only [metaChunks, tailChunks, batchBody, List.flatten_cons, List.flatten_nil, List.append_nil, List.append_assoc,
      List.flatten_append, hl, ne_eq, not_true_eq_false, if_false, List.nil_append]
  have hp3 : w3.pck = Crc.update Crc.new (batchBody t.idx.length t.model (fullRecs order t)) := by
    rw [p3, p2, p1, hp, ← hbody]
    simp only [Crc.update_append]
  obtain ⟨w4, e4, g4, c4, k4, p4, z4⟩ := (show ({ w3 with pck := Crc.new } : TW).Good from ⟨g3.io, g3.cur, g3.cap⟩).trackedWrite
    (le 8 (Crc.finish w3.pck))
  have hck : Crc.finish w3.pck = Crc.crc (batchBody t.idx.length t.model (fullRecs order t)) := by rw [hp3]; rfl
  have hcont : ({ w3 with pck := Crc.new } : TW).content = w3.content := rfl
  refine ⟨w4, ?_, g4, ?_, ?_, by rw [p4], by rw [z4]; simp only [z3, z2, z1]⟩
  · rw [fullWrite, e1]
    simp only [andThen, e2, batchEnd, e3, TW.resetPartial, e4]
  · rw [c4, hcont, c3, c2, c1, batchBytes, ← hbody, hck, ← hbody]
    simp only [List.append_assoc]
  · rw [k4]
    simp only
    rw [k3, k2, k1, batchBytes, ← hbody, hck, ← hbody]
    simp only [Crc.update_append]

theorem commitFull_idle {order : List (Key × Nat) → List (Key × Nat)} {w : JW} (h : w.Idle) {t : Tbl}
    (hl : (fullRecs order t).length = t.idx.length) (he : ∀ e ∈ fullRecs order t, e.key.uniq ≠ .illegal) :
    ∃ w', commitFull order w t = (w', .ok ()) ∧ w'.Idle ∧
      w'.log.disk = w.log.disk ++ batchEvent w.txnId t.idx.length t.model (fullRecs order t) ∧
      w'.log.ck = Crc.update w.log.ck (batchEvent w.txnId t.idx.length t.model (fullRecs order t)) ∧
      w'.txnId = w.txnId + 1 ∧ w'.knownTxnId = w.txnId ∧ w'.knownTxnOffset = w'.log.cursor :=
  h.commitWith 0 (adapter := fun log => ((fullWrite order t log).w, (fullWrite order t log).res))
    (bs := batchBytes t.idx.length t.model (fullRecs order t)) (by
      intro l hl' hp
      obtain ⟨l', b1, b2, b3, b4, b5, b6⟩ := fullWrite_good hl' hp hl he
      exact ⟨l', by rw [b1], b2, b3, b4, b5, b6⟩)

/-! ### Reading -/

/-- `applyNext_batch` for any records. -/
theorem applyNext_recs {w w' : JW} (h : w.Idle) (i' : w'.Idle) {m : Model} {es : List Rec} {R R' : Tbl} (hm : MOk m) {n : Nat}
    (hn : es.length ≤ n) (he : ∀ e ∈ es, RecWf m e) (hn64 : n < 2 ^ 64)
    (hd64 : m.deltas.length < 2 ^ 64) (hf64 : m.fields.length < 2 ^ 64)
    (hf : finish R ⟨m.deltas.length, es⟩ = .ok R')
    (hd : w'.log.disk = w.log.disk ++ batchEvent w.txnId n m es)
    (hck : w'.log.ck = Crc.update w.log.ck (batchEvent w.txnId n m es))
    (ht : w'.txnId = w.txnId + 1) (hk : w'.knownTxnId = w.txnId) (ho : w'.knownTxnOffset = w'.log.cursor)
    (hsz : w'.log.disk.length < 2 ^ 63) (rest : Bytes) :
    (readerAt w (batchEvent w.txnId n m es ++ rest) R).applyNext batchDecode = .ok (false, readerAt w' rest R') := by
  have hid : w.txnId < 2 ^ 63 := by have := i'.id; omega
  have hor : 0 ||| MASK = MASK := by simp
  have hm63 : MASK = 2 ^ 63 := rfl
  have hdec : ∀ (c : Nat) (k : BitVec 64), batchDecode R 0 ⟨batchBytes n m es ++ rest, c, k⟩ =
      .ok (R', ⟨rest, c + (batchBytes n m es).length, Crc.update k (batchBytes n m es)⟩) := by
    intro c k
    rw [batchDecode]
    simp only [Nat.zero_mod, ne_eq, not_true_eq_false, if_false]
    rw [batchBytes]
    generalize hB : batchBody n m es = B
    simp only [List.append_assoc]
    have hdec := decBatch_enc hm hn he hn64 hd64 hf64 (le 8 (Crc.crc B) ++ rest)
    rw [hB] at hdec
    rw [hdec]
    simp only [liftE, Res.bind]
    have hlen : (B ++ (le 8 (Crc.crc B) ++ rest)).length - (le 8 (Crc.crc B) ++ rest).length = B.length := by
      simp only [List.length_append]; omega
    rw [hlen, Journal.TR.read_append rfl]
    simp only [hf]
    rw [Journal.TR.read_append (le_length 8 _)]
    simp only
    rw [unle_le8 (Crc.crc_lt _)]
    simp only [if_true, List.length_append, le_length, Crc.update_append, Nat.add_assoc]
  unfold JR.applyNext readerAt
  rw [batchEvent]
  simp only [List.append_assoc]
  rw [Journal.TR.read_append (le_length 16 _)]
  simp only [Res.bind]
  rw [Journal.TR.read_append (le_length 8 _)]
  simp only
  rw [unle_le16 (by omega), hor, unle_le8 (by omega)]
  simp only [ne_eq, not_true, if_false, Nat.le_refl, if_true, Nat.sub_self]
  rw [hdec]
  have hcur : w'.log.cursor = w.log.cursor + 16 + 8 + (batchBytes n m es).length := by
    rw [i'.good.cur, hd, batchEvent]
    simp only [List.length_append, le_length, h.good.cur]
    omega
  have hck' : w'.log.ck = Crc.update (Crc.update (Crc.update w.log.ck (le 16 w.txnId)) (le 8 MASK)) (batchBytes n m es) := by
    rw [hck, batchEvent, hor]; simp only [Crc.update_append]
  simp only [JR.refresh, ht, hk, ho, hcur, hck']

/-- Rows with different keys that the table does not have: their order does not matter. -/
theorem placeLoop_fresh {schema : Nat} : ∀ (es : List Rec) {t : Tbl} (last : Nat), RInv t → (∀ e ∈ es, e.kind = .insert) →
    (es.map (·.key)).Nodup → (∀ e ∈ es, vw t e.key = none) →
    ∃ t' last', placeLoop schema es t [] last = .ok (t', [], last') ∧ RInv t' ∧ t'.model = t.model ∧ t'.queue = t.queue ∧
      t'.heap = t.heap ++ es.map (rowFrom t.model schema) ∧ vw t' = es.foldl (aapply t.model schema) (vw t) ∧
      last ≤ last' ∧ ∀ e ∈ es, e.txn ≤ last'
  | [], t, last, h, _, _, _ => ⟨t, last, rfl, h, rfl, rfl, by simp, rfl, Nat.le_refl _, by simp⟩
  | e :: es, t, last, h, hk, hn, hv => by
    rw [List.map_cons, List.nodup_cons] at hn
    have hke := hk e (by simp)
    obtain ⟨t1, p1, p2, p3, p4, p5, p6⟩ := place_spec (schema := schema) h (e := e) (by rw [hke]; simp)
      (fun c v hx => by rw [hv e (by simp)] at hx; cases hx)
    obtain ⟨t', last', i1, i2, i3, i4, i5, i6, i7, i8⟩ := placeLoop_fresh (schema := schema) es (t := t1) (max last e.txn) p2
      (fun x hx => hk x (by simp [hx])) hn.2 (by
        intro x hx
        rw [p6, aapply, if_neg]
        · exact hv x (by simp [hx])
        · intro hxe
          exact hn.1 (hxe ▸ List.mem_map_of_mem hx))
    refine ⟨t', last', ?_, i2, i3.trans p3, i4.trans p4, ?_, ?_, by omega, ?_⟩
    · rw [placeLoop]; simp only [hke, p1, Res.bind]; exact i1
    · rw [i5, p5, p3]; simp
    · rw [i6, List.foldl_cons, p6, p3]
    · intro x hx
      rcases List.mem_cons.1 hx with rfl | hx
      · omega
      · exact i8 x hx

theorem fold_fresh {m : Model} {schema : Nat} : ∀ (es : List Rec) (A : View), (∀ e ∈ es, e.kind = .insert) →
    (es.map (·.key)).Nodup → ∀ k, (∀ e ∈ es, e.key = k → es.foldl (aapply m schema) A k = some (placed m schema e, e.txn)) ∧
      (k ∉ es.map (·.key) → es.foldl (aapply m schema) A k = A k)
  | [], A, _, _, k => by simp
  | e :: es, A, hk, hn, k => by
    rw [List.map_cons, List.nodup_cons] at hn
    obtain ⟨i1, i2⟩ := fold_fresh es (aapply m schema A e) (fun x hx => hk x (by simp [hx])) hn.2 k
    have hke := hk e (by simp)
    refine ⟨?_, ?_⟩
    · intro x hx hxk
      rw [List.foldl_cons]
      rcases List.mem_cons.1 hx with rfl | hx
      · rw [i2 (by rw [← hxk]; exact hn.1), aapply, if_pos hxk.symm]
        simp only [hke]
      · exact i1 x hx hxk
    · intro hkn
      simp only [List.map_cons, List.mem_cons, not_or] at hkn
      rw [List.foldl_cons, i2 hkn.2, aapply, if_neg hkn.1]

/-- The rows of `fullRecs`. -/
theorem fullRecs_spec {order : List (Key × Nat) → List (Key × Nat)} (ho : ∀ l, (order l).Perm l) {m : Model} {t : Tbl}
    (ht : Inv m t) : (fullRecs order t).length = t.idx.length ∧ ((fullRecs order t).map (·.key)).Perm (t.idx.map (·.1)) ∧
      ∀ e ∈ fullRecs order t, ∃ i r, kget t.idx e.key = some i ∧ t.heap[i]? = some r ∧
        e = ⟨.insert, r.revised, e.key, rowCells m.pk m.fields r.cells⟩ := by
  have hrow : ∀ x ∈ order t.idx, ∃ r, t.heap[x.2]? = some r := by
    intro x hx
    obtain ⟨_, r, h, _⟩ := ht.rows x ((ho _).mem_iff.1 hx)
    exact ⟨r, h⟩
  have key : ∀ l : List (Key × Nat), (∀ x ∈ l, ∃ r, t.heap[x.2]? = some r) →
      (l.filterMap fun e => (t.heap[e.2]?).map fun r =>
        (⟨.insert, r.revised, e.1, rowCells t.model.pk t.model.fields r.cells⟩ : Rec)).map (·.key) = l.map (·.1) := by
    intro l hl
    induction l with
    | nil => rfl
    | cons x l ih =>
      obtain ⟨r, hr⟩ := hl x (by simp)
      simp only [List.filterMap_cons, hr, Option.map_some, List.map_cons]
      rw [ih (fun y hy => hl y (by simp [hy]))]
  have hkeys := key _ hrow
  refine ⟨?_, ?_, ?_⟩
  · have := congrArg List.length hkeys
    simp only [List.length_map] at this
    rw [fullRecs, this, (ho _).length_eq]
  · rw [fullRecs, hkeys]
    exact (ho _).map _
  · intro e he
    simp only [fullRecs, List.mem_filterMap] at he
    obtain ⟨x, hx, hxe⟩ := he
    obtain ⟨r, hr⟩ := hrow x hx
    rw [hr] at hxe
    simp only [Option.map_some, Option.some.injEq] at hxe
    subst hxe
    exact ⟨x.2, r, Dml.kget_of_mem ht.nodup ((ho _).mem_iff.1 hx), hr, by rw [ht.model]⟩

/-- The table that the batch is restored to has the rows. -/
theorem finish_full {order : List (Key × Nat) → List (Key × Nat)} (ho : ∀ l, (order l).Perm l) {m : Model} (hm : MOk m) {t : Tbl}
    (ht : Inv m t) (hv : Vals TagOk t) :
    ∃ R, finish (Tbl.empty m) ⟨m.deltas.length, fullRecs order t⟩ = .ok R ∧ Sync R R ∧ Inv m R ∧ Exact m R ∧ Vals TagOk R ∧
      abs R = abs t := by
  obtain ⟨f1, f2, f3⟩ := fullRecs_spec ho ht
  have hins : ∀ e ∈ fullRecs order t, e.kind = .insert := by
    intro e he
    obtain ⟨i, r, _, _, h⟩ := f3 e he
    rw [h]
  have hnd : ((fullRecs order t).map (·.key)).Nodup := f2.nodup_iff.2 ht.nodup
  have hlen : ∀ e ∈ fullRecs order t, e.cells.length = (others m).length ∧ e.key.uniq = m.pkTag.uniq ∧ ∀ c ∈ e.cells, TagOk c := by
    intro e he
    obtain ⟨i, r, h1, h2, h3⟩ := f3 e he
    obtain ⟨g1, r', g2, g3, g4, g5⟩ := ht.rows _ (kget_mem h1)
    simp only at g1 g2
    rw [h2] at g2
    cases g2
    have hpk : r.cells m.pk = none := (g5 m.pk).2 (.inr rfl)
    rw [h3]
    simp only
    rw [rowCells_eq hpk]
    refine ⟨by simp, g1, ?_⟩
    intro c hc
    obtain ⟨k, _, rfl⟩ := List.mem_map.1 hc
    cases hck : r.cells k with
    | none => exact True.intro
    | some x => exact hv r (List.mem_of_getElem? h2) k x hck
  obtain ⟨t', last', p1, p2, p3, p4, p5, p6, _, p8⟩ := placeLoop_fresh (schema := m.deltas.length) (fullRecs order t)
    (t := Tbl.empty m) 0 (Sync.empty hm).rest hins hnd (by intro e _; rfl)
  have hmt : (Tbl.empty m).model = m := rfl
  rw [hmt] at p3 p5 p6
  let R : Tbl := { t' with ver := last' + 1 }
  have hRheap : ∀ r ∈ R.heap, ∃ e ∈ fullRecs order t, r = rowFrom m m.deltas.length e := by
    intro r hr
    have : r ∈ (Tbl.empty m).heap ++ (fullRecs order t).map (rowFrom m m.deltas.length) := by rw [← p5]; exact hr
    simp only [Tbl.empty, List.nil_append, List.mem_map] at this
    obtain ⟨e, he, h⟩ := this
    exact ⟨e, he, h.symm⟩
  have hrf : ∀ e : Rec, rowFrom m m.deltas.length e = ⟨e.key, zipCells (others m) e.cells, m.deltas.length, e.txn⟩ := by
    intro e
    rw [rowFrom, resolve_id rfl]
  have hRi : RInv R := ⟨p2.nodup, p2.valid⟩
  have hRv : ∀ r ∈ R.heap, r.revised < R.ver := by
    intro r hr
    obtain ⟨e, he, rfl⟩ := hRheap r hr
    rw [hrf]
    have := p8 e he
    show e.txn < last' + 1
    omega
  have hRm : R.model = m := p3
  have hRpk : ∀ r ∈ R.heap, r.cells R.model.pk = none := by
    intro r hr
    obtain ⟨e, he, rfl⟩ := hRheap r hr
    rw [hRm]
    exact rowFrom_pkc hm _ e
  have hRl : ∀ r ∈ R.heap, r.key.uniq = R.model.pkTag.uniq := by
    intro r hr
    obtain ⟨e, he, rfl⟩ := hRheap r hr
    rw [hRm, hrf]
    exact (hlen e he).2.1
  have hRq : R.queue = [] := p4
  have hex : Exact m R := by
    intro r hr
    obtain ⟨e, he, rfl⟩ := hRheap r hr
    rw [hrf]
    exact ⟨rfl, e.cells, (hlen e he).1, rfl⟩
  have hvw : vw R = vw t := by
    funext k
    have hR : vw R k = (fullRecs order t).foldl (aapply m m.deltas.length) (vw (Tbl.empty m)) k := by rw [← p6]; rfl
    obtain ⟨o1, o2⟩ := fold_fresh (m := m) (schema := m.deltas.length) (fullRecs order t) (vw (Tbl.empty m)) hins hnd k
    rw [hR]
    rcases lookup_row ht k with ⟨h1, _⟩ | ⟨i, r, h1, h2, _, _, _, h4, h5⟩
    · rw [o2]
      · simp [vw, h1, Tbl.empty, kget]
      · rw [f2.mem_iff]
        exact kget_none.1 h1
    · have hmem : k ∈ (fullRecs order t).map (·.key) := by
        rw [f2.mem_iff]
        exact List.mem_map_of_mem (f := (·.1)) (kget_mem h1)
      obtain ⟨e, he, rfl⟩ := List.mem_map.1 hmem
      rw [o1 e he rfl]
      obtain ⟨i', r', g1, g2, g3⟩ := f3 e he
      rw [h1] at g1
      cases g1
      rw [h2] at g2
      cases g2
      rw [placed_eq hm (hlen e he).1]
      simp only [vw, h1, h2, Option.bind_some, Option.map_some, Option.some.injEq, Prod.mk.injEq]
      rw [g3]
      refine ⟨?_, rfl⟩
      simp only
      rw [rowList, ht.model, resolve_id h4]
  obtain ⟨r1, r2⟩ := restored_same hm ht hRi hRm (by rw [← hRm]; exact hRl) hex hvw
  refine ⟨R, ?_, ⟨by rw [hRm]; exact hm, rfl, ⟨hRi, by simp [hRq], by simp [hRq], by simp [hRq], hRv, by simp [hRq], hRpk, hRl⟩, hRi,
    hRq, fun r hr => ⟨hRv r hr, by simp [hRq]⟩, fun _ => hRv, hRpk, hRl, by rw [hRq]; rfl⟩, r1, hex, ?_, r2⟩
  · rw [finish]
    simp only [p1, Res.bind, dropAll]
    rfl
  · intro r hr
    obtain ⟨e, he, rfl⟩ := hRheap r hr
    exact rowFrom_vals (P := TagOk) True.intro (hlen e he).2.2

theorem recs_count (es : List Rec) (id n : Nat) (m : Model) : es.length ≤ (batchEvent id n m es).length := by
  have : es.length ≤ ((es.map recBytes).flatten).length := by
    induction es with
    | nil => simp
    | cons e es ih =>
      simp only [List.map_cons, List.flatten_cons, List.length_append, List.length_cons]
      have : 0 < (recBytes e).length := by simp [recBytes]
      omega
  simp only [batchEvent, batchBytes, batchBody, List.length_append]
  omega

/-- A file that is restored to a table still is after it was closed. -/
theorem kept_close {m : Model} {w : JW} {R : Tbl} (h : w.Idle) (hr : Reached batchDecode (Tbl.empty m) w R) (hs : Sync R R)
    (hi : Inv m R) (hx : Exact m R) (hv : Vals TagOk R) (hsz : w.log.disk.length < 2 ^ 62) :
    ∃ w1 w2, w.close = (w1, .ok ()) ∧ Kept m w1.log.disk w2 R := by
  obtain ⟨w1, e1, i1, d1, k1, t1, n1, o1⟩ := h.commitDriver .closed
  have hl1 : w1.log.disk.length = w.log.disk.length + 64 := by
    rw [d1, List.length_append, Journal.drvBytes, Journal.encode_length]
  have hsc := hr.scroll_closed h e1 (by omega)
  obtain ⟨w2, e2, i2, d2, -⟩ := i1.commitDriver .reopened
  have hl2 : w2.log.disk.length = w1.log.disk.length + 64 := by
    rw [d2, List.length_append, Journal.drvBytes, Journal.encode_length]
  have h0 : w1.knownTxnOffset ≠ 0 := by
    rw [o1, i1.good.cur]; have := i1.hdr; simp only [HEADER] at this; omega
  refine ⟨w1, w2, e1, ?_, i2, hr.reopen h e1 e2 (by omega), hs, hi, hx, hv⟩
  unfold openJournal
  rw [hsc]
  simp only [Res.bind]
  rw [JW.new_of_reader i1 h0, e2]

/-- A data file made from a table is restored to a table with the same rows. -/
theorem commitFull_reached {order : List (Key × Nat) → List (Key × Nat)} (ho : ∀ l, (order l).Perm l) {m : Model} (hm : LifeOk m)
    {w0 : JW} (h0 : w0.Idle) (r0 : Reached batchDecode (Tbl.empty m) w0 (Tbl.empty m)) {t : Tbl} (ht : Inv m t)
    (hv : Vals TagOk t) (hver : ∀ r ∈ t.heap, r.revised < 2 ^ 64) :
    ∃ w1, commitFull order w0 t = (w1, .ok ()) ∧ w1.Idle ∧ (w1.log.disk.length < 2 ^ 62 →
      ∃ R, Reached batchDecode (Tbl.empty m) w1 R ∧ Sync R R ∧ Inv m R ∧ Exact m R ∧ Vals TagOk R ∧ abs R = abs t) := by
  obtain ⟨f1, f2, f3⟩ := fullRecs_spec ho ht
  have hmod := ht.model
  have hok : ∀ e ∈ fullRecs order t, RecOk m TagOk e ∧ e.txn < 2 ^ 64 := by
    intro e he
    obtain ⟨i, r, h1, h2, h3⟩ := f3 e he
    obtain ⟨g1, r', g2, g3, g4, g5⟩ := ht.rows _ (kget_mem h1)
    simp only at g1 g2
    rw [h2] at g2
    cases g2
    have hpk : r.cells m.pk = none := (g5 m.pk).2 (.inr rfl)
    rw [h3]
    rw [rowCells_eq hpk]
    refine ⟨⟨g1, fun h => (nomatch h), fun _ => by simp, ?_⟩, hver r (List.mem_of_getElem? h2)⟩
    intro c hc
    obtain ⟨k, _, rfl⟩ := List.mem_map.1 hc
    cases hck : r.cells k with
    | none => exact True.intro
    | some x => exact hv r (List.mem_of_getElem? h2) k x hck
  have hleg : ∀ e ∈ fullRecs order t, e.key.uniq ≠ .illegal := by
    intro e he
    rw [(hok e he).1.key]
    exact hm.model.uniq
  obtain ⟨w1, e1, i1, c1, k1, t1, n1, o1⟩ := commitFull_idle (order := order) h0 f1 hleg
  refine ⟨w1, e1, i1, ?_⟩
  intro hsz
  obtain ⟨R, q1, q2, q3, q4, q5, q6⟩ := finish_full ho hm.mok ht hv
  have hlen : (batchEvent w0.txnId t.idx.length t.model (fullRecs order t)).length < 2 ^ 62 := by
    rw [c1, List.length_append] at hsz; omega
  have hwf : ∀ e ∈ fullRecs order t, RecWf m e := by
    intro e he
    refine ⟨(hok e he).1, (hok e he).2, ?_⟩
    have := rec_length he w0.txnId t.idx.length t.model
    omega
  have hcnt : (fullRecs order t).length < 2 ^ 62 := by
    have := recs_count (fullRecs order t) w0.txnId t.idx.length t.model
    omega
  rw [hmod] at c1 k1
  refine ⟨R, ?_, q2, q3, q4, q5, q6⟩
  exact reached_step r0 h0 c1 (by simp only [batchEvent, List.length_append, le_length]; omega)
    (applyNext_recs h0 i1 hm.mok (Nat.le_of_eq f1) hwf (by omega) hm.deltas hm.fields q1 c1 k1 t1 n1 o1 (by omega))

end Verif.Batch
