import Verif.Old.DataRows
/-!
C60: the rows of an old installation are read from its data files as they were written.
-/
namespace Verif.Old
open Verif.Gns (Model fget)
open Verif.Dml (Key Cells RowObj DKind Tbl kget Inv)
open Verif.Batch (Rec Parsed recBytes uniqByte TagOk RInv vw aapply placed others zipCells rowFrom)

/-! ### Specification -/

/-- What the old server wrote for a model whose columns were not changed: complete batches with as many values as the model has columns,
each change with a later version than the ones before it, and deletions only of rows that are there. -/
structure Written (m : Model) (ss : List (List OBatch)) : Prop where
  some : ss ≠ []
  batches : ∀ s ∈ ss, ∀ b ∈ s, b.Ok m.pkTag.uniq
  plain : ∀ s ∈ ss, ∀ b ∈ s, b.schema = 0 ∧ b.cols = (others m).length
  versions : (ss.flatten.flatMap (·.recs)).Pairwise fun a b => a.txn < b.txn
  deletes : histOk (fun _ => False) (ss.flatten.flatMap (·.recs))

/-- The row of a key. -/
def rowOf (t : Tbl) (k : Key) : Option RowObj := (kget t.idx k).bind fun i => t.heap[i]?

/-- The row that the last change of a key left: its values in the columns in their order. -/
def IsRow (m : Model) (e : Rec) (r : RowObj) : Prop :=
  r.key = e.key ∧ r.revised = e.txn ∧ ∀ (j : Nat) (name : String), (others m)[j]? = some name → r.cells name = e.cells[j]?

theorem rinv_empty (m : Model) : RInv (Tbl.empty m) := ⟨by simp [Tbl.empty], by simp [Tbl.empty]⟩

theorem vw_empty (m : Model) (k : Key) : vw (Tbl.empty m) k = none := by simp [vw, Tbl.empty, kget]

/-- What is known about the table that is read. -/
structure Loaded (m : Model) (es : List Rec) (t : Tbl) : Prop where
  rinv : RInv t
  model : t.model = m
  queue : t.queue = []
  heap : ∀ r ∈ t.heap, ∃ e ∈ es, e.kind ≠ .delete ∧ r = ⟨e.key, zipCells (others m) e.cells, 0, e.txn⟩
  view : ∀ k, vw t k = match lastRec k es with | some e => leaves m 0 e | none => none

theorem load_written {m : Model} (hd : m.deltas = []) {ss : List (List OBatch)} (h : Written m ss) :
    ∃ t, applyBatches (Tbl.empty m) ss.flatten = some t ∧ Loaded m (ss.flatten.flatMap (·.recs)) t := by
  obtain ⟨t, h1, h2, h3, h4, h5, h6⟩ := applyBatches_spec (bs := ss.flatten) (rinv_empty m) (m := m) rfl h.versions
    (by intro e _ k c v hv; rw [vw_empty] at hv; cases hv) (histOk_congr h.deletes fun k => by simp [vw_empty])
  have hs : ∀ b ∈ ss.flatten, b.schema = 0 := by
    intro b hb
    obtain ⟨s, hs, hb⟩ := List.mem_flatten.1 hb
    exact (h.plain s hs b hb).1
  refine ⟨t, h1, h2, h3, h4, ?_, ?_⟩
  · intro r hr
    rcases h5 r hr with h | ⟨b, hb, e, he, hk, rfl⟩
    · simp [Tbl.empty] at h
    · refine ⟨e, List.mem_flatMap.2 ⟨b, hb, he⟩, hk, ?_⟩
      rw [hs b hb, rowFrom_plain hd]
  · intro k
    rw [h6, foldBatches_last k (schema := 0) ss.flatten _ hs]
    cases lastRec k (ss.flatten.flatMap (·.recs)) with
    | some e => rfl
    | none => exact vw_empty m k

theorem Loaded.rows {m : Model} (hm : Batch.MOk m) {ss : List (List OBatch)} (h : Written m ss) {t : Tbl}
    (hl : Loaded m (ss.flatten.flatMap (·.recs)) t) (k : Key) :
    match lastRec k (ss.flatten.flatMap (·.recs)) with
    | some e => if e.kind = .delete then rowOf t k = none else ∃ r, rowOf t k = some r ∧ IsRow m e r
    | none => rowOf t k = none := by
  have hv := hl.view k
  rcases hl.rinv.lookup k with ⟨h1, h2⟩ | ⟨i, r, h1, h2, h3⟩
  · have hn : rowOf t k = none := by simp [rowOf, h1]
    rw [h2] at hv
    cases he : lastRec k (ss.flatten.flatMap (·.recs)) with
    | none => exact hn
    | some e =>
      simp only [he, leaves] at hv ⊢
      cases hk : e.kind with
      | delete => simpa using hn
      | insert => simp [hk] at hv
      | update => simp [hk] at hv
  · have hn : rowOf t k = some r := by simp [rowOf, h1, h2]
    rw [h3] at hv
    cases he : lastRec k (ss.flatten.flatMap (·.recs)) with
    | none => simp [he] at hv
    | some e =>
      simp only [he, leaves] at hv ⊢
      have hk : e.kind ≠ .delete := by intro hk; simp [hk] at hv
      rw [if_neg hk]
      obtain ⟨e', g1, g2, g3⟩ := hl.heap r (List.mem_of_getElem? h2)
      have hrev : r.revised = e.txn := by
        cases hd : e.kind with
        | delete => exact absurd hd hk
        | insert => simp only [hd, Option.some.injEq, Prod.mk.injEq] at hv; exact hv.2
        | update => simp only [hd, Option.some.injEq, Prod.mk.injEq] at hv; exact hv.2
      have hee : e' = e := by
        have ht : e'.txn = e.txn := by rw [← hrev, g3]
        have hmem := (lastRec_mem he).1
        have : ∀ (l : List Rec), l.Pairwise (fun a b => a.txn < b.txn) → ∀ a ∈ l, ∀ b ∈ l, a.txn = b.txn → a = b := by
          intro l hl
          induction l with
          | nil => intro a ha; cases ha
          | cons x l ih =>
            rw [List.pairwise_cons] at hl
            intro a ha b hb hab
            rcases List.mem_cons.1 ha with rfl | ha' <;> rcases List.mem_cons.1 hb with rfl | hb'
            · rfl
            · have := hl.1 b hb'; omega
            · have := hl.1 a ha'; omega
            · exact ih hl.2 a ha' b hb' hab
        exact this _ h.versions _ g1 _ hmem ht
      subst hee
      obtain ⟨b, hb, he'⟩ := List.mem_flatMap.1 g1
      obtain ⟨s, hs, hb⟩ := List.mem_flatten.1 hb
      have hlen : e'.cells.length = (others m).length := by
        rw [((h.batches s hs b hb).recs e' he').len g2, (h.plain s hs b hb).2]
      refine ⟨r, hn, by rw [g3], hrev, fun j name hj => ?_⟩
      rw [g3]
      exact zipCells_get hm hlen hj

/-- **C60, partial.** The data file of a model whose columns were not changed, with any number of sessions and batches, is accepted. A
key has a row exactly if its last change in the file is not a deletion, and the row has the values of this change, each in its column,
and its version.

Missing: models whose columns were changed (`C60_removed_column_violated`), files with failed writes (`C60_failed_write_violated`), and
files that were opened and not closed (`C60_crash_violated`). -/
theorem C60_rows_partial {m : Model} (hm : Batch.MOk m) (hd : m.deltas = []) {ss : List (List OBatch)} (h : Written m ss) :
    ∃ t, readData m (dataBytes m.pkTag.uniq ss) = .ok t ∧ t.model = m ∧ ∀ k,
      match lastRec k (ss.flatten.flatMap (·.recs)) with
      | some e => if e.kind = .delete then rowOf t k = none else ∃ r, rowOf t k = some r ∧ IsRow m e r
      | none => rowOf t k = none := by
  obtain ⟨t, h1, h2⟩ := load_written hd h
  exact ⟨t, readData_file h.some h.batches h1, h2.model, fun k => h2.rows hm h k⟩

/-! ### A case -/

/-- The files of the examples: a table with an integer key and two columns. -/
def exData : Model :=
  { uuid := 7, pk := "id", pkTag := .uint64
    fields := [("id", ⟨[.uint64], false⟩), ("a", ⟨[.uint8], false⟩), ("b", ⟨[.string], true⟩)]
    deltas := [] }

def ins (txn : Nat) (k : UInt64) (cs : List Cell) : Rec := ⟨.insert, txn, .uint k, cs⟩
def del (txn : Nat) (k : UInt64) : Rec := ⟨.delete, txn, .uint k, []⟩

/-- Two sessions: rows 1 and 2, then row 1 is changed and row 2 is deleted; row 3 in a second session. -/
def exSs : List (List OBatch) :=
  [[⟨0, 2, 2, [ins 0 1 [.uint .uint8 10, .str "x"], ins 1 2 [.uint .uint8 20, .null]]⟩,
    ⟨0, 2, 5, [⟨.update, 2, .uint 1, [.uint .uint8 11, .str "y"]⟩, del 3 2]⟩],
   [⟨0, 2, 1, [ins 4 3 [.uint .uint8 30, .null]]⟩]]

/-- The rows that are seen in the columns `a` and `b`, each value as its encoding. -/
def seen (ks : List UInt64) (d : DOut) : Option (List (Option (Option Bytes × Option Bytes))) :=
  match d with
  | .ok t => some (ks.map fun k => (rowOf t (.uint k)).map fun r => ((r.cells "a").map Enc.enc, (r.cells "b").map Enc.enc))
  | _ => none

def DOut.name : DOut → String
  | .ok _ => "ok"
  | .err => "error"
  | .panic => "panic"
  | .hang => "hang"

example : seen [1, 2, 3] (readData exData (dataBytes .uint exSs)) =
    some [some (some (Enc.enc (.uint .uint8 11)), some (Enc.enc (.str "y"))), none, some (some (Enc.enc (.uint .uint8 30)), some (Enc.enc .null))] := by
  decide +kernel

example : Batch.MOk exData := ⟨by decide, by decide, by decide, by decide⟩

theorem exSs_written : Written exData exSs := by
  refine ⟨by decide, ?_, by decide, by decide, by simp [exSs, histOk, ins, del]⟩
  intro s hs b hb
  simp only [exSs, List.mem_cons, List.not_mem_nil, or_false] at hs
  rcases hs with rfl | rfl
  all_goals
    simp only [List.mem_cons, List.not_mem_nil, or_false] at hb
  · rcases hb with rfl | rfl
    · refine ⟨by decide, by decide, by decide, by decide, ?_⟩
      intro e he
      simp only [List.mem_cons, List.not_mem_nil, or_false] at he
      rcases he with rfl | rfl
      · exact ⟨rfl, by decide, by decide, by decide, by simp [ins, TagOk, Tag.cls], by decide, by decide⟩
      · exact ⟨rfl, by decide, by decide, by decide, by simp [ins, TagOk, Tag.cls], by decide, by decide⟩
    · refine ⟨by decide, by decide, by decide, by decide, ?_⟩
      intro e he
      simp only [List.mem_cons, List.not_mem_nil, or_false] at he
      rcases he with rfl | rfl
      · exact ⟨rfl, by decide, by decide, by decide, by simp [TagOk, Tag.cls], by decide, by decide⟩
      · exact ⟨rfl, by decide, by decide, by decide, by simp [del], by decide, by decide⟩
  · subst hb
    refine ⟨by decide, by decide, by decide, by decide, ?_⟩
    intro e he
    simp only [List.mem_cons, List.not_mem_nil, or_false] at he
    subst he
    exact ⟨rfl, by decide, by decide, by decide, by simp [ins, TagOk, Tag.cls], by decide, by decide⟩

/-! ### Opening and closing -/

theorem dataBytes_more (tag : TagUnique) : ∀ {ss : List (List OBatch)}, ss ≠ [] →
    dataBytes tag (ss ++ [[]]) = dataBytes tag ss ++ [REOPEN] ++ [CLOSE]
  | [], h => absurd rfl h
  | [s], _ => by simp [dataBytes]
  | s :: u :: ss, _ => by
    have := dataBytes_more tag (ss := u :: ss) (by simp)
    simp only [List.cons_append] at this ⊢
    rw [dataBytes, this, dataBytes]
    simp

/-- **C60, partial.** The loader marks the file as opened (`batch_jrnl/persist.rs:43-50`), and when all data is loaded, as closed
(`persist.rs:51-58`). A file that was read is read again with the same rows, any number of times, for example when the upgrade was
refused because of another file. -/
theorem C60_reading_again_partial {m : Model} {tag : TagUnique} {ss : List (List OBatch)} (h0 : ss ≠ [])
    (hb : ∀ s ∈ ss, ∀ b ∈ s, b.Ok tag) {t : Tbl} (h : applyBatches (Tbl.empty m) ss.flatten = some t) (n : Nat) :
    readData m (dataBytes tag ss ++ (List.replicate n [REOPEN, CLOSE]).flatten) = .ok t := by
  have key : ∀ n, dataBytes tag ss ++ (List.replicate n [REOPEN, CLOSE]).flatten = dataBytes tag (ss ++ List.replicate n []) := by
    intro n
    induction n with
    | zero => simp
    | succ n ih =>
      rw [List.replicate_succ', List.flatten_append, ← List.append_assoc, ih, List.replicate_succ', ← List.append_assoc,
        dataBytes_more tag (by simp [h0])]
      simp
  rw [key]
  refine readData_file (by simp [h0]) ?_ (by simpa using h)
  intro s hs b hb'
  rcases List.mem_append.1 hs with hs | hs
  · exact hb s hs b hb'
  · rw [(List.mem_replicate.1 hs).2] at hb'; cases hb'

example : seen [1, 2, 3] (readData exData (dataBytes .uint exSs ++ [REOPEN, CLOSE, REOPEN, CLOSE])) =
    seen [1, 2, 3] (readData exData (dataBytes .uint exSs)) := by
  decide +kernel

theorem dataLoop_open {tag : TagUnique} {fuel : Nat} : ∀ {ss : List (List OBatch)} {t t' : Tbl}, ss ≠ [] → (∀ s ∈ ss, ∀ b ∈ s, b.Ok tag) →
    applyBatches t ss.flatten = some t' →
    dataLoop (rounds ss + fuel) t (dataBytes tag ss ++ [REOPEN]) = dataLoop fuel t' []
  | [], _, _, h, _, _ => absurd rfl h
  | [s], t, t', _, hb, h => by
    rw [List.flatten_cons, List.flatten_nil, List.append_nil] at h
    rw [dataBytes, List.append_assoc, rounds, rounds, show s.length + 1 + 0 + fuel = s.length + (fuel + 1) by omega,
      dataLoop_batches (hb s (by simp)) h, List.cons_append, dataLoop, if_neg (by decide), if_neg (by decide), if_pos rfl,
      List.nil_append, afterClose, if_pos rfl]
  | s :: u :: ss, t, t', _, hb, h => by
    rw [List.flatten_cons, applyBatches_append, Option.bind_eq_some_iff] at h
    obtain ⟨t1, h1, h2⟩ := h
    rw [dataBytes, List.append_assoc, rounds,
      show s.length + 1 + rounds (u :: ss) + fuel = s.length + (rounds (u :: ss) + fuel + 1) by omega,
      dataLoop_batches (hb s (by simp)) h1, List.cons_append, dataLoop, if_neg (by decide), if_neg (by decide), if_pos rfl,
      List.cons_append, afterClose, if_pos rfl]
    exact dataLoop_open (by simp) (fun x hx => hb x (by simp [hx])) h2

/-- **C60, violated.** Every data file is marked as opened when it was read, and as closed when all files were read. If the server is
stopped in between (a crash, or no power), the next start refuses every data file that was read: nothing follows the mark, and the old
format has no repair. -/
theorem C60_crash_violated {m : Model} {tag : TagUnique} {ss : List (List OBatch)} (h0 : ss ≠ [])
    (hb : ∀ s ∈ ss, ∀ b ∈ s, b.Ok tag) {t : Tbl} (h : applyBatches (Tbl.empty m) ss.flatten = some t) :
    readData m (dataBytes tag ss) = .ok t ∧ readData m (dataBytes tag ss ++ [REOPEN]) = .err := by
  refine ⟨readData_file h0 hb h, ?_⟩
  have hr := rounds_le tag ss
  rw [readData, show (dataBytes tag ss ++ [REOPEN]).length + 1 = rounds ss + ((dataBytes tag ss).length - rounds ss + 1 + 1) by
    simp; omega, dataLoop_open h0 hb h, dataLoop]

example : (readData exData (dataBytes .uint exSs ++ [REOPEN])).name = "error" := by decide +kernel

/-! ### Damage -/

/-- **C60, partial.** Bytes of a batch are changed, within eight bytes, to what still is a batch (`b'`), for example in a value or a
key. The file is refused, whatever comes before and after, if the mark of a failed write does not happen to follow. -/
theorem C60_damage_partial {m : Model} {tag tag' : TagUnique} {bs : List OBatch} (hb : ∀ b ∈ bs, b.Ok tag) {t : Tbl}
    (h : applyBatches (Tbl.empty m) bs = some t) {b b' : OBatch} (hb' : b'.Ok tag') {p x x' q : Bytes} (h1 : b.body tag = p ++ x ++ q)
    (h2 : b'.body tag' = p ++ x' ++ q) (hl : x.length = x'.length) (h8 : x.length ≤ 8) (hne : x ≠ x') {rest : Bytes}
    (hr : rest.head? ≠ some RECOVER) :
    readData m ((bs.map (OBatch.bytes tag)).flatten ++ (b'.body tag' ++ (le 8 (Crc.crc (b.body tag)) ++ rest))) = .err := by
  have hlen := batches_le tag bs
  rw [readData]
  simp only [List.length_append]
  rw [show ((bs.map (OBatch.bytes tag)).flatten).length + ((b'.body tag').length + ((le 8 (Crc.crc (b.body tag))).length + rest.length)) + 1
    = bs.length + ((((bs.map (OBatch.bytes tag)).flatten).length - bs.length + (b'.body tag').length +
      ((le 8 (Crc.crc (b.body tag))).length + rest.length)) + 1) by omega,
    dataLoop_batches hb h, dataLoop_batch hb' _ (Crc.crc_lt _), if_neg]
  · cases rest with
    | nil => rfl
    | cons y rest =>
      simp only [List.head?_cons, ne_eq, Option.some.injEq] at hr
      rw [recoverAt, if_neg hr]
  · intro hc
    rw [h1, h2] at hc
    exact hne (Crc.crc_window hl.symm (by omega) hc).symm

/-- A value is changed from 30 to 31. -/
example : (readData exData (((exSs.head!).map (OBatch.bytes .uint)).flatten ++ (OBatch.body .uint ⟨0, 2, 1, [ins 4 3 [.uint .uint8 31, .null]]⟩ ++
    (le 8 (Crc.crc (OBatch.body .uint ⟨0, 2, 1, [ins 4 3 [.uint .uint8 30, .null]]⟩)) ++ [CLOSE])))).name = "error" := by
  decide +kernel

/-- **C60, partial.** A batch that was written to its end but with errors, as its checksum shows, and that was marked as failed: it has
no effect, and the batches after it are read. -/
theorem C60_recovery_partial {m : Model} {tag tag' : TagUnique} {bs cs : List OBatch} (hb : ∀ b ∈ bs, b.Ok tag) (hc : ∀ b ∈ cs, b.Ok tag)
    {t : Tbl} (h : applyBatches (Tbl.empty m) (bs ++ cs) = some t) {b : OBatch} (hb' : b.Ok tag') {ck : Nat} (hck : ck < 2 ^ 64)
    (hne : Crc.crc (b.body tag') ≠ ck) :
    readData m ((bs.map (OBatch.bytes tag)).flatten ++ (b.body tag' ++ (le 8 ck ++ (RECOVER :: ((cs.map (OBatch.bytes tag)).flatten ++
      [CLOSE]))))) = .ok t := by
  rw [applyBatches_append, Option.bind_eq_some_iff] at h
  obtain ⟨t1, h1, h2⟩ := h
  have l1 := batches_le tag bs
  have l2 := batches_le tag cs
  rw [readData]
  simp only [List.length_append, List.length_cons, List.length_nil, le_length]
  generalize hn : ((bs.map (OBatch.bytes tag)).flatten).length - bs.length = n1
  generalize hk : ((cs.map (OBatch.bytes tag)).flatten).length - cs.length = n2
  rw [show ((bs.map (OBatch.bytes tag)).flatten).length + ((b.body tag').length + (8 + (((cs.map (OBatch.bytes tag)).flatten).length + (0 + 1) + 1))) + 1
    = bs.length + ((cs.length + ((n1 + n2 + (b.body tag').length + 9) + 1)) + 1) by omega,
    dataLoop_batches hb h1, dataLoop_batch hb' _ hck, if_neg hne, recoverAt, if_pos rfl, dataLoop_batches hc h2, dataLoop,
    if_neg (by decide), if_neg (by decide), if_pos rfl, afterClose]

example : seen [1, 2, 3] (readData exData (((exSs.head!).map (OBatch.bytes .uint)).flatten ++
    (OBatch.body .uint ⟨0, 2, 1, [ins 4 3 [.uint .uint8 30, .null]]⟩ ++ (le 8 5 ++ (RECOVER :: [CLOSE]))))) =
    some [some (some (Enc.enc (.uint .uint8 11)), some (Enc.enc (.str "y"))), none, none] := by
  decide +kernel

/-- What the checksum of a batch covers, with any number of records at its end. -/
def OBatch.bodyOf (tag : TagUnique) (b : OBatch) (n : Nat) : Bytes :=
  BATCH :: uniqByte tag :: (le 8 b.announced ++ (le 8 b.schema ++ (le 8 b.cols ++ ((b.recs.map recBytes).flatten ++ (ENDB :: le 8 n)))))

theorem pBatch_count {tag : TagUnique} {b : OBatch} (h : b.Ok tag) {n : Nat} (hc : n < 2 ^ 64) (r : Bytes) :
    pBatch ((b.bodyOf tag n ++ r).drop 1) = .ok (⟨b.schema, b.recs⟩, n) r := by
  have hl := recs_le b.recs
  simp only [OBatch.bodyOf, List.cons_append, List.append_assoc, List.drop_succ_cons, List.drop_zero]
  rw [pBatch, pbyte_cons]
  simp only [PR.bind]
  rw [pu64_append h.announced]
  simp only
  rw [pu64_append h.schema]
  simp only
  rw [pu64_append h.cols]
  simp only
  rw [pRecs_enc _ h.enough (by simp only [List.length_append]; omega) h.recs]
  by_cases e : b.recs.length = b.announced
  · rw [if_pos e]
    simp only [Bool.false_eq_true, if_false]
    rw [pbyte_cons]
    simp only
    rw [if_pos trivial, pu64_append hc]
  · rw [if_neg e]
    simp only [if_true]
    rw [pu64_append hc]

theorem dataLoop_count {tag : TagUnique} {b : OBatch} (h : b.Ok tag) {n : Nat} (hc : n < 2 ^ 64) (hn : n ≠ b.recs.length) {t : Tbl} {fuel : Nat}
    (ck : Nat) (r : Bytes) : dataLoop (fuel + 1) t (b.bodyOf tag n ++ (le 8 ck ++ r)) = recoverAt r (dataLoop fuel t) := by
  have hp := pBatch_count h hc (le 8 ck ++ r)
  obtain ⟨l, h1, h2⟩ : ∃ l, b.bodyOf tag n = BATCH :: l ∧ ∀ r, (b.bodyOf tag n ++ r).drop 1 = l ++ r := ⟨_, rfl, fun _ => rfl⟩
  rw [h2] at hp
  rw [h1, List.cons_append, dataLoop, if_pos rfl, hp]
  simp only
  rw [closeBatch, pread_append (by simp)]
  simp only
  rw [if_neg (fun x => hn x.2.symm)]

/-- **C60, partial.** A batch whose last number is not the number of its records has no effect, even if its checksum is right. Without
the mark of a failed write the file is refused; with the mark, the batches after it are read. -/
theorem C60_count_partial {m : Model} {tag tag' : TagUnique} {bs cs : List OBatch} (hb : ∀ b ∈ bs, b.Ok tag) (hcs : ∀ b ∈ cs, b.Ok tag)
    {t t' : Tbl} (h : applyBatches (Tbl.empty m) bs = some t) (h' : applyBatches t cs = some t') {b : OBatch} (hb' : b.Ok tag') {n : Nat}
    (hc : n < 2 ^ 64) (hn : n ≠ b.recs.length) :
    (∀ rest : Bytes, rest.head? ≠ some RECOVER →
      readData m ((bs.map (OBatch.bytes tag)).flatten ++ (b.bodyOf tag' n ++ (le 8 (Crc.crc (b.bodyOf tag' n)) ++ rest))) = .err) ∧
    readData m ((bs.map (OBatch.bytes tag)).flatten ++ (b.bodyOf tag' n ++ (le 8 (Crc.crc (b.bodyOf tag' n)) ++ (RECOVER ::
      ((cs.map (OBatch.bytes tag)).flatten ++ [CLOSE]))))) = .ok t' := by
  have l1 := batches_le tag bs
  have l2 := batches_le tag cs
  constructor
  · intro rest hr
    rw [readData]
    simp only [List.length_append]
    rw [show ((bs.map (OBatch.bytes tag)).flatten).length + ((b.bodyOf tag' n).length + ((le 8 (Crc.crc (b.bodyOf tag' n))).length + rest.length)) + 1
      = bs.length + ((((bs.map (OBatch.bytes tag)).flatten).length - bs.length + (b.bodyOf tag' n).length +
        ((le 8 (Crc.crc (b.bodyOf tag' n))).length + rest.length)) + 1) by omega,
      dataLoop_batches hb h, dataLoop_count hb' hc hn]
    cases rest with
    | nil => rfl
    | cons y rest =>
      simp only [List.head?_cons, ne_eq, Option.some.injEq] at hr
      rw [recoverAt, if_neg hr]
  · rw [readData]
    simp only [List.length_append, List.length_cons, List.length_nil, le_length]
    generalize hA : ((bs.map (OBatch.bytes tag)).flatten).length = A at l1 ⊢
    generalize hC : ((cs.map (OBatch.bytes tag)).flatten).length = C at l2 ⊢
    rw [show A + ((b.bodyOf tag' n).length + (8 + (C + (0 + 1) + 1))) + 1
      = bs.length + ((cs.length + ((A - bs.length + (b.bodyOf tag' n).length + 8 + (C - cs.length) + 1) + 1)) + 1) by omega,
      dataLoop_batches hb h, dataLoop_count hb' hc hn, recoverAt, if_pos rfl, dataLoop_batches hcs h', dataLoop, if_neg (by decide), if_neg (by decide),
      if_pos rfl, afterClose]

/-- One record, and the number 2. -/
example : (readData exData (((exSs.head!).map (OBatch.bytes .uint)).flatten ++ (OBatch.bodyOf .uint ⟨0, 2, 1, [ins 4 3 [.uint .uint8 31, .null]]⟩ 2 ++
    (le 8 (Crc.crc (OBatch.bodyOf .uint ⟨0, 2, 1, [ins 4 3 [.uint .uint8 31, .null]]⟩ 2)) ++ [CLOSE])))).name = "error" := by
  decide +kernel

/-! ### Violations -/

/-- The model after `ALTER MODEL … REMOVE a`. -/
def exRemoved : Model := { exData with fields := [("id", ⟨[.uint64], false⟩), ("b", ⟨[.string], true⟩)], deltas := [.rem "a"] }

/-- **C60, violated.** The values of a batch are given to the columns that the model has now, in their order. A row was written with the
values 10 for `a` and "x" for `b`; then `a` was removed. The row is read with the number 10 in `b`, a column of strings. -/
theorem C60_removed_column_violated :
    seen [1] (readData exRemoved (dataBytes .uint [[⟨0, 2, 1, [ins 0 1 [.uint .uint8 10, .str "x"]]⟩]])) =
      some [some (none, some (Enc.enc (.uint .uint8 10)))] := by
  decide +kernel

/-- **C60, violated.** A deletion of a row that is not in the file, as when the row was inserted and deleted before its insertion was
written, or when the batch with the insertion could not be written: the reader crashes (`unreachable!()`, `restore.rs:288-291`). The
log of the catalogue is open at that time, so that it is not accepted later (`C59_crash_violated`). -/
theorem C60_missing_key_violated (m : Model) {b : OBatch} (hb : b.Ok .uint) {k : UInt64} {v : Nat} (hr : b.recs = [del v k]) (rest : Bytes) :
    readData m (b.bytes .uint ++ rest) = .panic := by
  rw [readData, OBatch.bytes, List.append_assoc, dataLoop_batch hb _ (Crc.crc_lt _), if_pos rfl, hr]
  rfl

/-- A batch of which only the first `n` bytes were written, and the mark of the failed write, and what was written later. -/
def failedAt (n : Nat) (rest : Bytes) : Bytes :=
  (OBatch.body .uint ⟨0, 2, 1, [ins 4 3 [.uint .uint8 30, .null]]⟩).take n ++ (RECOVER :: rest)

/-- What is written after the failure: a batch with row 4. -/
def exNext : Bytes := OBatch.bytes .uint ⟨0, 2, 1, [ins 5 4 [.uint .uint8 40, .null]]⟩ ++ [CLOSE]

/-- **C60, violated.** The write of a batch stops after `n` bytes and is marked as failed, and the server goes on. The reader takes the
mark and what follows it as the rest of the failed batch, and then looks for the mark where it stops. At no place may the write stop. -/
theorem C60_failed_write_violated : ∀ n ∈ List.range' 1 62, (readData exData (failedAt n exNext)).name ≠ "ok" := by
  decide +kernel

/-- Without the failed batch the file is accepted. -/
example : (readData exData (failedAt 0 exNext)).name = "ok" := by decide +kernel

/-- **C60, violated.** A length in a damaged batch is used before the checksum is looked at: one that is `2^63` or more crashes the
reader (`vec![0; len]`), although the checksum would show the damage. -/
theorem C60_damaged_length_violated :
    (readData exData ([BATCH, 3] ++ le 8 1 ++ le 8 0 ++ le 8 2 ++ [1] ++ le 8 0 ++ le 8 (2 ^ 63 + 1) ++ [120] ++ exNext)).name = "panic" := by
  decide +kernel

/-- **C60, violated.** A file that was cut off is accepted without its last batch: the version of the record is 0xFCFF…, of which the
first two bytes are left, and the reader takes them as the mark of a failed write and the end of the file. -/
theorem C60_truncation_violated :
    seen [1, 2] (readData exData (dataBytes .uint [[⟨0, 2, 1, [ins 1 1 [.uint .uint8 10, .null]]⟩, ⟨0, 2, 1, [ins 0xFCFF 2 [.uint .uint8 20, .null]]⟩]])) =
      some [some (some (Enc.enc (.uint .uint8 10)), some (Enc.enc .null)), some (some (Enc.enc (.uint .uint8 20)), some (Enc.enc .null))] ∧
    seen [1, 2] (readData exData ((dataBytes .uint [[⟨0, 2, 1, [ins 1 1 [.uint .uint8 10, .null]]⟩,
      ⟨0, 2, 1, [ins 0xFCFF 2 [.uint .uint8 20, .null]]⟩]]).take (70 + 29))) =
      some [some (some (Enc.enc (.uint .uint8 10)), some (Enc.enc .null)), none] := by
  constructor <;> decide +kernel

end Verif.Old
