import Verif.Old.Data
/-!
Lemmas for C60: a batch is read as it was written.
-/
namespace Verif.Old
open Verif.Gns (Model)
open Verif.Enc (Src DErr enc encCell encTag encTag_toNat encTag_le Wf decElem decList decElem_enc expectAtleast DICT numCell blockCell)
open Verif.Dml (Key DKind Tbl kget kdel resolve setRow)
open Verif.Batch (Rec Parsed Pend notePend kindByte rowFrom uniqByte keyBytes recBytes wf_of_size TagOk)

theorem pread_append {a r : Bytes} {n : Nat} (h : a.length = n) : pread n (a ++ r) = .ok a r := by
  rw [pread, if_pos (by simp; omega)]
  simp [← h]

theorem pu64_append {v : Nat} (h : v < 2 ^ 64) (r : Bytes) : pu64 (le 8 v ++ r) = .ok v r := by
  rw [pu64, pread_append (by simp)]
  simp only [PR.bind, unle_le8 h]

theorem pbyte_cons (x : UInt8) (r : Bytes) : pbyte (x :: r) = .ok x r := by
  rw [pbyte, show x :: r = [x] ++ r from rfl, pread_append (by simp)]
  rfl

/-! ### The decoders of values agree with those of `Enc` -/

theorem pread_of_read {n : Nat} {b x r : Bytes} (h : Src.file.read n b = .ok (x, r)) : pread n b = .ok x r := by
  unfold Src.read at h
  unfold pread
  split at h
  · rename_i hn; cases h; rw [if_pos hn]
  · simp only at h
    split at h <;> cases h

theorem pu64_of_u64 {b r : Bytes} {v : Nat} (h : Src.file.u64 b = .ok (v, r)) : pu64 b = .ok v r := by
  obtain ⟨⟨x, y⟩, h1, h2⟩ := Res.bind_eq_ok h
  cases h2
  rw [pu64, pread_of_read h1]
  rfl

theorem pbyte_of_byte {b r : Bytes} {v : UInt8} (h : Src.file.byte b = .ok (v, r)) : pbyte b = .ok v r := by
  obtain ⟨⟨x, y⟩, h1, h2⟩ := Res.bind_eq_ok h
  cases h2
  rw [pbyte, pread_of_read h1]
  rfl

theorem pblock_of {t : Tag} {x b : Bytes} {c : Cell} (h : blockCell t x = .ok c) : pblock t x b = .ok c b := by
  unfold blockCell at h
  unfold pblock
  split at h
  · rename_i hs
    rw [if_pos hs]
    split at h
    · rename_i s hx; cases h; rw [hx]
    · cases h
  · rename_i hs
    rw [if_neg hs]; cases h; rfl

theorem p_of_dec : ∀ (fuel : Nat),
    (∀ (d : Nat) (b r : Bytes) (c : Cell), decElem .file fuel d b = .ok (c, r) → pElem fuel d b = .ok c r) ∧
    (∀ (n : Nat) (b r : Bytes) (l : List Cell), decList .file fuel n b = .ok (l, r) → pList fuel n b = .ok l r)
  | 0 => ⟨fun _ _ _ _ h => by simp [decElem] at h, fun _ _ _ _ h => by simp [decList] at h⟩
  | fuel + 1 => by
    obtain ⟨ih1, ih2⟩ := p_of_dec fuel
    refine ⟨fun d b r c h => ?_, fun n b r l h => ?_⟩
    · rw [decElem] at h
      rw [pElem]
      by_cases hd : d = 0
      · rw [if_pos hd] at h ⊢; cases h; rfl
      · rw [if_neg hd] at h ⊢
        cases ht : Tag.ofValue? (d - 1) with
        | none => rw [ht] at h; cases h
        | some t =>
          rw [ht] at h
          simp only at h ⊢
          cases hc : t.cls <;> rw [hc] at h <;> simp only at h ⊢
          · obtain ⟨⟨x, y⟩, h1, h2⟩ := Res.bind_eq_ok h
            rw [pbyte_of_byte h1]
            simp only [PR.bind]
            simp only at h2
            split at h2
            · cases h2
            · rename_i hx; cases h2; rw [if_neg hx]
          · obtain ⟨⟨x, y⟩, h1, h2⟩ := Res.bind_eq_ok h
            cases h2
            rw [pu64_of_u64 h1]; rfl
          · obtain ⟨⟨x, y⟩, h1, h2⟩ := Res.bind_eq_ok h
            cases h2
            rw [pu64_of_u64 h1]; rfl
          · obtain ⟨⟨x, y⟩, h1, h2⟩ := Res.bind_eq_ok h
            cases h2
            rw [pu64_of_u64 h1]; rfl
          · obtain ⟨⟨x, y⟩, h1, h2⟩ := Res.bind_eq_ok h
            obtain ⟨⟨z, w⟩, h3, h4⟩ := Res.bind_eq_ok h2
            obtain ⟨c', h5, h6⟩ := Res.bind_eq_ok h4
            cases h6
            rw [pu64_of_u64 h1]
            simp only [PR.bind]
            rw [pread_of_read h3]
            exact pblock_of h5
          · obtain ⟨⟨x, y⟩, h1, h2⟩ := Res.bind_eq_ok h
            obtain ⟨⟨z, w⟩, h3, h4⟩ := Res.bind_eq_ok h2
            obtain ⟨c', h5, h6⟩ := Res.bind_eq_ok h4
            cases h6
            rw [pu64_of_u64 h1]
            simp only [PR.bind]
            rw [pread_of_read h3]
            exact pblock_of h5
          · obtain ⟨⟨x, y⟩, h1, h2⟩ := Res.bind_eq_ok h
            obtain ⟨⟨z, w⟩, h3, h4⟩ := Res.bind_eq_ok h2
            cases h4
            rw [pu64_of_u64 h1]
            simp only [PR.bind]
            rw [ih2 _ _ _ _ h3]
    · rw [decList] at h
      rw [pList]
      by_cases hn : n = 0
      · rw [if_pos hn] at h ⊢; cases h; rfl
      · rw [if_neg hn] at h ⊢
        by_cases hb : b.isEmpty = true
        · rw [if_pos hb] at h; cases h
        · rw [if_neg hb] at h ⊢
          obtain ⟨⟨x, y⟩, h1, h2⟩ := Res.bind_eq_ok h
          rw [pbyte_of_byte h1]
          simp only [PR.bind]
          simp only at h2
          split at h2
          · cases h2
          rename_i n1; rw [if_neg n1]
          split at h2
          · cases h2
          rename_i n2; rw [if_neg n2]
          split at h2
          · cases h2
          rename_i n3; rw [if_neg n3]
          obtain ⟨⟨z, w⟩, h3, h4⟩ := Res.bind_eq_ok h2
          obtain ⟨⟨z', w'⟩, h5, h6⟩ := Res.bind_eq_ok h4
          cases h6
          rw [ih1 _ _ _ _ h3]
          simp only [PR.bind]
          rw [ih2 _ _ _ _ h5]

theorem pCell_enc {c : Cell} (ht : TagOk c) (hs : (encCell c).length < 2 ^ 64) (r : Bytes) : pCell (enc c ++ r) = .ok c r := by
  have hd := encTag_le c
  have h := decElem_enc .file r c (wf_of_size ht hs) ((encCell c ++ r).length + 1) (by simp only [List.length_append]; omega)
  rw [pCell, enc, List.cons_append, pbyte_cons]
  simp only [PR.bind, encTag_toNat]
  rw [if_neg (by simp only [DICT]; omega)]
  exact (p_of_dec _).1 _ _ _ _ h

theorem pCells_enc (r : Bytes) : ∀ {cs : List Cell}, (∀ c ∈ cs, TagOk c) → ((cs.map enc).flatten).length < 2 ^ 64 →
    pCells cs.length ((cs.map enc).flatten ++ r) = .ok cs r
  | [], _, _ => rfl
  | c :: cs, ht, hs => by
    have hs' : (encCell c).length + 1 + ((cs.map enc).flatten).length < 2 ^ 64 := by
      simp only [List.map_cons, List.flatten_cons, List.length_append, enc, List.length_cons] at hs
      exact hs
    rw [List.map_cons, List.flatten_cons, List.append_assoc, List.length_cons, pCells, if_neg (by simp [enc]),
      pCell_enc (ht c (by simp)) (by omega)]
    simp only [PR.bind]
    rw [pCells_enc r (fun x hx => ht x (by simp [hx])) (by omega)]

theorem pKey_enc {k : Key} (h : k.uniq ≠ .illegal) (hs : (keyBytes k).length < 2 ^ 64) (r : Bytes) :
    pKey (uniqByte k.uniq) (keyBytes k ++ r) = .ok k r := by
  cases k with
  | uint v =>
    have := v.toNat_lt
    simp [keyBytes, pKey, Key.uniq, uniqByte, pu64_append this, PR.bind]
  | sint v =>
    have := v.toUInt64.toNat_lt
    simp only [keyBytes, pKey, Key.uniq, uniqByte, pu64_append this, PR.bind, UInt64.ofNat_toNat]
    simp
  | bin b =>
    simp only [keyBytes, List.length_append] at hs
    simp only [keyBytes, pKey, Key.uniq, uniqByte, List.append_assoc]
    simp [pu64_append (show b.length < 2 ^ 64 by omega), pread_append rfl, PR.bind]
  | str s =>
    simp only [keyBytes, List.length_append] at hs
    simp only [keyBytes, pKey, Key.uniq, uniqByte, List.append_assoc]
    simp [pu64_append (show (encStr s).length < 2 ^ 64 by omega), pread_append rfl, PR.bind]
  | illegal => exact absurd rfl h

/-! ### Records and batches as the old server wrote them -/

/-- A record for a primary key of this kind with this many other columns. -/
structure OldRec (tag : TagUnique) (cols : Nat) (e : Rec) : Prop where
  key : e.key.uniq = tag
  legal : tag ≠ .illegal
  del : e.kind = .delete → e.cells = []
  len : e.kind ≠ .delete → e.cells.length = cols
  vals : ∀ c ∈ e.cells, TagOk c
  txn : e.txn < 2 ^ 64
  size : (recBytes e).length < 2 ^ 64

theorem pRec_enc {tag : TagUnique} {cols : Nat} {e : Rec} (h : OldRec tag cols e) (r : Bytes) :
    pRec (uniqByte tag) cols (kindByte e.kind) (le 8 e.txn ++ (keyBytes e.key ++ ((e.cells.map enc).flatten ++ r))) = .ok e r := by
  have hs := h.size
  simp only [recBytes, List.length_cons, List.length_append] at hs
  have hk : e.key.uniq ≠ .illegal := by rw [h.key]; exact h.legal
  have k1 := pKey_enc hk (by omega) ((e.cells.map enc).flatten ++ r)
  rw [h.key] at k1
  rw [pRec, pu64_append h.txn]
  simp only [PR.bind]
  obtain ⟨kd, txn, key, cells⟩ := e
  cases kd with
  | delete =>
    have hc := h.del rfl
    simp only at hc
    subst hc
    rw [if_pos (by rfl), k1]
    rfl
  | insert =>
    have hl := h.len (by simp)
    simp only at hl hs
    rw [if_neg (by simp [kindByte]), if_pos (by rfl), k1]
    simp only
    rw [← hl, pCells_enc r h.vals (by simp only; omega)]
  | update =>
    have hl := h.len (by simp)
    simp only at hl hs
    rw [if_neg (by simp [kindByte]), if_neg (by simp [kindByte]), if_pos (by rfl), k1]
    simp only
    rw [← hl, pCells_enc r h.vals (by simp only; omega)]

theorem pRecs_enc {tag : TagUnique} {cols : Nat} (r : Bytes) : ∀ {es : List Rec} {n fuel : Nat}, es.length ≤ n → es.length < fuel →
    (∀ e ∈ es, OldRec tag cols e) →
    pRecs (uniqByte tag) cols fuel n ((es.map recBytes).flatten ++ (ENDB :: r)) =
      if es.length = n then .ok (es, false) (ENDB :: r) else .ok (es, true) r
  | [], 0, fuel + 1, _, _, _ => by simp [pRecs]
  | [], n + 1, fuel + 1, _, _, _ => by
    rw [List.map_nil, List.flatten_nil, List.nil_append, pRecs, if_neg (by simp), pbyte_cons]
    simp only [PR.bind]
    rw [if_pos trivial, if_neg (by simp)]
  | e :: es, n + 1, fuel + 1, hn, hf, he => by
    have ih := pRecs_enc r (es := es) (n := n) (fuel := fuel) (by simpa using hn) (by simpa using hf) (fun x hx => he x (by simp [hx]))
    rw [List.map_cons, List.flatten_cons, recBytes, List.append_assoc, List.cons_append, pRecs, if_neg (by simp), pbyte_cons]
    simp only [PR.bind, List.append_assoc]
    rw [if_neg (by cases e.kind <;> decide), pRec_enc (he e (by simp))]
    simp only [Nat.add_sub_cancel]
    rw [ih]
    by_cases hl : es.length = n
    · rw [if_pos hl, if_pos (by simp [hl])]
    · rw [if_neg hl, if_neg (by simp [hl])]
  | _ :: _, _, 0, _, hf, _ => by simp at hf
  | [], _, 0, _, hf, _ => by simp at hf

/-- A batch: the schema version and the number of columns when it was written, how many records were announced, and the records. -/
structure OBatch where
  schema : Nat
  cols : Nat
  announced : Nat
  recs : List Rec

/-- What the checksum of a batch covers. -/
def OBatch.body (tag : TagUnique) (b : OBatch) : Bytes :=
  BATCH :: uniqByte tag :: (le 8 b.announced ++ (le 8 b.schema ++ (le 8 b.cols ++ ((b.recs.map recBytes).flatten ++
    (ENDB :: le 8 b.recs.length)))))

/-- A batch in a file. -/
def OBatch.bytes (tag : TagUnique) (b : OBatch) : Bytes := b.body tag ++ le 8 (Crc.crc (b.body tag))

structure OBatch.Ok (tag : TagUnique) (b : OBatch) : Prop where
  schema : b.schema < 2 ^ 64
  cols : b.cols < 2 ^ 64
  announced : b.announced < 2 ^ 64
  enough : b.recs.length ≤ b.announced
  recs : ∀ e ∈ b.recs, OldRec tag b.cols e

theorem recs_le : ∀ (es : List Rec), es.length ≤ ((es.map recBytes).flatten).length
  | [] => by simp
  | e :: es => by
    have := recs_le es
    simp only [List.map_cons, List.flatten_cons, List.length_append, List.length_cons, recBytes]
    omega

theorem pBatch_enc {tag : TagUnique} {b : OBatch} (h : b.Ok tag) (r : Bytes) :
    pBatch ((b.body tag ++ r).drop 1) = .ok (⟨b.schema, b.recs⟩, b.recs.length) r := by
  have hn := h.enough
  have ha := h.announced
  have hl := recs_le b.recs
  simp only [OBatch.body, List.cons_append, List.append_assoc, List.drop_succ_cons, List.drop_zero]
  rw [pBatch, pbyte_cons]
  simp only [PR.bind]
  rw [pu64_append h.announced]
  simp only
  rw [pu64_append h.schema]
  simp only
  rw [pu64_append h.cols]
  simp only
  rw [pRecs_enc _ h.enough (by simp only [List.length_append]; omega) h.recs]
  by_cases e : b.recs.length = b.announced
  · rw [if_pos e]
    simp only [Bool.false_eq_true, if_false]
    rw [pbyte_cons]
    simp only
    rw [if_pos trivial, pu64_append (by omega)]
  · rw [if_neg e]
    simp only [if_true]
    rw [pu64_append (by omega)]

/-! ### Files -/

/-- A data file without its header: the sessions in their order, each with its batches and its end. -/
def dataBytes (tag : TagUnique) : List (List OBatch) → Bytes
  | [] => []
  | [s] => (s.map (OBatch.bytes tag)).flatten ++ [CLOSE]
  | s :: t :: ss => (s.map (OBatch.bytes tag)).flatten ++ (CLOSE :: REOPEN :: dataBytes tag (t :: ss))

/-- All batches applied in their order; `none` if one of them crashes. -/
def applyBatches : Tbl → List OBatch → Option Tbl
  | t, [] => some t
  | t, b :: bs => (oldApply t ⟨b.schema, b.recs⟩).bind fun t => applyBatches t bs

theorem applyBatches_append : ∀ (t : Tbl) (a b : List OBatch), applyBatches t (a ++ b) = (applyBatches t a).bind fun t => applyBatches t b
  | t, [], b => rfl
  | t, x :: a, b => by
    simp only [List.cons_append, applyBatches]
    cases oldApply t ⟨x.schema, x.recs⟩ with
    | none => rfl
    | some t1 => exact applyBatches_append t1 a b

theorem body_cons (tag : TagUnique) (b : OBatch) : ∃ l, b.body tag = BATCH :: l ∧ ∀ r, (b.body tag ++ r).drop 1 = l ++ r :=
  ⟨_, rfl, fun _ => rfl⟩

/-- What the loop does with a batch, with any checksum. -/
theorem dataLoop_batch {tag : TagUnique} {b : OBatch} (h : b.Ok tag) {t : Tbl} {fuel : Nat} (ck : Nat) (hck : ck < 2 ^ 64) (r : Bytes) :
    dataLoop (fuel + 1) t (b.body tag ++ (le 8 ck ++ r)) =
      if Crc.crc (b.body tag) = ck then
        match oldApply t ⟨b.schema, b.recs⟩ with
        | some t => dataLoop fuel t r
        | none => .panic
      else recoverAt r (dataLoop fuel t) := by
  have hp := pBatch_enc h (le 8 ck ++ r)
  obtain ⟨l, h1, h2⟩ := body_cons tag b
  rw [h2] at hp
  have hu : ((b.body tag ++ (le 8 ck ++ r)).take ((b.body tag ++ (le 8 ck ++ r)).length - (le 8 ck ++ r).length)) = b.body tag := by
    rw [List.length_append, Nat.add_sub_cancel, List.take_left]
  rw [h1, List.cons_append] at hu ⊢
  rw [dataLoop, if_pos rfl, hp]
  simp only
  rw [hu, closeBatch, pread_append (by simp)]
  simp only [and_true, unle_le8 hck]
  rfl

theorem dataLoop_batches {tag : TagUnique} {r : Bytes} {fuel : Nat} : ∀ {bs : List OBatch} {t t' : Tbl}, (∀ b ∈ bs, b.Ok tag) →
    applyBatches t bs = some t' →
    dataLoop (bs.length + fuel) t ((bs.map (OBatch.bytes tag)).flatten ++ r) = dataLoop fuel t' r
  | [], t, t', _, h => by cases h; simp
  | b :: bs, t, t', hb, h => by
    rw [applyBatches, Option.bind_eq_some_iff] at h
    obtain ⟨t1, h1, h2⟩ := h
    rw [List.map_cons, List.flatten_cons, OBatch.bytes, List.append_assoc, List.append_assoc, List.length_cons,
      show bs.length + 1 + fuel = bs.length + fuel + 1 by omega,
      dataLoop_batch (hb b (by simp)) _ (Crc.crc_lt _), if_pos rfl, h1]
    exact dataLoop_batches (fun x hx => hb x (by simp [hx])) h2

/-- How many rounds a file takes. -/
def rounds : List (List OBatch) → Nat
  | [] => 0
  | s :: ss => s.length + 1 + rounds ss

theorem dataLoop_file {tag : TagUnique} {fuel : Nat} : ∀ {ss : List (List OBatch)} {t t' : Tbl}, ss ≠ [] → (∀ s ∈ ss, ∀ b ∈ s, b.Ok tag) →
    applyBatches t ss.flatten = some t' → dataLoop (rounds ss + fuel) t (dataBytes tag ss) = .ok t'
  | [], _, _, h, _, _ => absurd rfl h
  | [s], t, t', _, hb, h => by
    rw [List.flatten_cons, List.flatten_nil, List.append_nil] at h
    rw [dataBytes, rounds, rounds, show s.length + 1 + 0 + fuel = s.length + (fuel + 1) by omega, dataLoop_batches (hb s (by simp)) h,
      dataLoop, if_neg (by decide), if_neg (by decide), if_pos rfl, afterClose]
  | s :: u :: ss, t, t', _, hb, h => by
    rw [List.flatten_cons, applyBatches_append, Option.bind_eq_some_iff] at h
    obtain ⟨t1, h1, h2⟩ := h
    rw [dataBytes, rounds, show s.length + 1 + rounds (u :: ss) + fuel = s.length + (rounds (u :: ss) + fuel + 1) by omega,
      dataLoop_batches (hb s (by simp)) h1, dataLoop, if_neg (by decide), if_neg (by decide), if_pos rfl, afterClose, if_pos rfl]
    exact dataLoop_file (by simp) (fun x hx => hb x (by simp [hx])) h2

theorem batches_le (tag : TagUnique) : ∀ (bs : List OBatch), bs.length ≤ ((bs.map (OBatch.bytes tag)).flatten).length
  | [] => by simp
  | b :: bs => by
    have := batches_le tag bs
    simp only [List.map_cons, List.flatten_cons, List.length_append, List.length_cons, OBatch.bytes, OBatch.body]
    omega

theorem rounds_le (tag : TagUnique) : ∀ (ss : List (List OBatch)), rounds ss ≤ (dataBytes tag ss).length
  | [] => by simp [rounds]
  | [s] => by
    have := batches_le tag s
    simp only [rounds, dataBytes, List.length_append, List.length_cons, List.length_nil]
    omega
  | s :: u :: ss => by
    have h1 := batches_le tag s
    have h2 := rounds_le tag (u :: ss)
    rw [rounds, dataBytes]
    simp only [List.length_append, List.length_cons]
    omega

/-- A file is read as its batches. -/
theorem readData_file {m : Model} {tag : TagUnique} {ss : List (List OBatch)} {t : Tbl} (h0 : ss ≠ []) (hb : ∀ s ∈ ss, ∀ b ∈ s, b.Ok tag)
    (h : applyBatches (Tbl.empty m) ss.flatten = some t) : readData m (dataBytes tag ss) = .ok t := by
  have hr := rounds_le tag ss
  rw [readData, show (dataBytes tag ss).length + 1 = rounds ss + ((dataBytes tag ss).length + 1 - rounds ss) by omega]
  exact dataLoop_file h0 hb h

/-! ### Fuel -/

theorem pread_le {n : Nat} {b x r : Bytes} (h : pread n b = .ok x r) : r.length + n = b.length := by
  unfold pread at h
  split at h
  · cases h; simp; omega
  · split at h <;> cases h

/-- What is left after an error or a value is not more than before. -/
def Le {α} (x : PR α) (n : Nat) : Prop :=
  match x with
  | .ok _ r => r.length ≤ n
  | .err r => r.length ≤ n
  | _ => True

theorem Le.bind {α β} {x : PR α} {f : α → Bytes → PR β} {n : Nat} (h : Le x n) (hf : ∀ a r, r.length ≤ n → Le (f a r) n) : Le (x.bind f) n := by
  cases x with
  | ok a r => exact hf a r h
  | err r => exact h
  | panic => trivial
  | hang => trivial

theorem Le.mono {α} {x : PR α} {n k : Nat} (h : Le x n) (hk : n ≤ k) : Le x k := by
  cases x <;> simp only [Le] at h ⊢ <;> omega

theorem pread_Le (n : Nat) (b : Bytes) {k : Nat} (h : b.length ≤ k) : Le (pread n b) k := by
  unfold pread
  split
  · simp only [Le, List.length_drop]; omega
  · split
    · exact h
    · trivial

theorem pu64_Le {b : Bytes} {k : Nat} (h : b.length ≤ k) : Le (pu64 b) k := (pread_Le 8 b h).bind fun _ _ h => h
theorem pbyte_Le {b : Bytes} {k : Nat} (h : b.length ≤ k) : Le (pbyte b) k := (pread_Le 1 b h).bind fun _ _ h => h

theorem pblock_Le {t : Tag} {x b : Bytes} {k : Nat} (h : b.length ≤ k) : Le (pblock t x b) k := by
  unfold pblock
  split
  · split <;> exact h
  · exact h

theorem pElem_Le : ∀ (fuel : Nat), (∀ (d : Nat) (b : Bytes) (k : Nat), b.length ≤ k → Le (pElem fuel d b) k) ∧
    (∀ (n : Nat) (b : Bytes) (k : Nat), b.length ≤ k → Le (pList fuel n b) k)
  | 0 => ⟨fun _ _ _ _ => by rw [pElem]; trivial, fun _ _ _ _ => by rw [pList]; trivial⟩
  | fuel + 1 => by
    obtain ⟨i1, i2⟩ := pElem_Le fuel
    refine ⟨fun d b k h => ?_, fun n b k h => ?_⟩
    · rw [pElem]
      split
      · exact h
      · split
        · trivial
        · split
          · refine (pbyte_Le h).bind fun x r hr => ?_
            split <;> exact hr
          · exact (pu64_Le h).bind fun _ _ hr => hr
          · exact (pu64_Le h).bind fun _ _ hr => hr
          · exact (pu64_Le h).bind fun _ _ hr => hr
          · exact (pu64_Le h).bind fun n r hr => (pread_Le n r hr).bind fun _ _ hr => pblock_Le hr
          · exact (pu64_Le h).bind fun n r hr => (pread_Le n r hr).bind fun _ _ hr => pblock_Le hr
          · exact (pu64_Le h).bind fun n r hr => (i2 n r k hr).bind fun _ _ hr => hr
    · rw [pList]
      split
      · exact h
      · split
        · exact h
        · refine (pbyte_Le h).bind fun x r hr => ?_
          split
          · exact hr
          · split
            · exact hr
            · split
              · exact hr
              · exact (i1 _ _ _ hr).bind fun _ _ hr => (i2 _ _ _ hr).bind fun _ _ hr => hr

theorem pCell_Le {b : Bytes} {k : Nat} (h : b.length ≤ k) : Le (pCell b) k := by
  refine (pbyte_Le h).bind fun x r hr => ?_
  split
  · exact hr
  · exact (pElem_Le _).1 _ _ _ hr

theorem pCells_Le : ∀ (n : Nat) {b : Bytes} {k : Nat}, b.length ≤ k → Le (pCells n b) k
  | 0, b, k, h => h
  | n + 1, b, k, h => by
    rw [pCells]
    split
    · exact h
    · exact (pCell_Le h).bind fun _ _ hr => (pCells_Le n hr).bind fun _ _ hr => hr

theorem pKey_Le {tag : UInt8} {b : Bytes} {k : Nat} (h : b.length ≤ k) : Le (pKey tag b) k := by
  unfold pKey
  split
  · exact (pu64_Le h).bind fun _ _ hr => hr
  · split
    · exact (pu64_Le h).bind fun _ _ hr => hr
    · split
      · exact (pu64_Le h).bind fun n r hr => (pread_Le n r hr).bind fun _ _ hr => hr
      · split
        · refine (pu64_Le h).bind fun n r hr => (pread_Le n r hr).bind fun _ _ hr => ?_
          split <;> exact hr
        · trivial

theorem pRec_Le {tag : UInt8} {cols : Nat} {x : UInt8} {b : Bytes} {k : Nat} (h : b.length ≤ k) : Le (pRec tag cols x b) k := by
  refine (pu64_Le h).bind fun _ r hr => ?_
  split
  · exact (pKey_Le hr).bind fun _ _ hr => hr
  · split
    · exact (pKey_Le hr).bind fun _ _ hr => (pCells_Le _ hr).bind fun _ _ hr => hr
    · split
      · exact (pKey_Le hr).bind fun _ _ hr => (pCells_Le _ hr).bind fun _ _ hr => hr
      · exact hr

theorem pRecs_Le {tag : UInt8} {cols : Nat} : ∀ (fuel : Nat) {n : Nat} {b : Bytes} {k : Nat}, b.length ≤ k → Le (pRecs tag cols fuel n b) k
  | 0, _, _, _, _ => by rw [pRecs]; trivial
  | fuel + 1, n, b, k, h => by
    rw [pRecs]
    split
    · exact h
    · refine (pbyte_Le h).bind fun _ r hr => ?_
      split
      · exact hr
      · exact (pRec_Le hr).bind fun _ _ hr => (pRecs_Le fuel hr).bind fun _ _ hr => hr

/-- One more than the bytes that are left is enough rounds. -/
theorem pRecs_fuel {tag : UInt8} {cols : Nat} : ∀ {fuel n : Nat} {b : Bytes}, b.length < fuel →
    pRecs tag cols (fuel + 1) n b = pRecs tag cols fuel n b
  | 0, _, _, h => by simp at h
  | fuel + 1, n, b, h => by
    rw [pRecs, pRecs.eq_def _ _ (fuel + 1)]
    simp only
    by_cases hn : n = 0 ∨ b.isEmpty = true
    · rw [if_pos hn, if_pos hn]
    · rw [if_neg hn, if_neg hn]
      cases b with
      | nil => simp at hn
      | cons x b =>
        simp only [pbyte_cons, PR.bind]
        split
        · rfl
        · have hl : Le (pRec tag cols x b) b.length := pRec_Le (Nat.le_refl _)
          cases hr : pRec tag cols x b with
          | ok e r =>
            rw [hr] at hl
            simp only [Le] at hl
            simp only
            rw [pRecs_fuel (by simp at h; omega)]
          | err r => rfl
          | panic => rfl
          | hang => rfl

theorem pBatch_Le {b : Bytes} {k : Nat} (h : b.length ≤ k) : Le (pBatch b) k := by
  refine (pbyte_Le h).bind fun _ _ hr => (pu64_Le hr).bind fun _ _ hr => (pu64_Le hr).bind fun _ _ hr => (pu64_Le hr).bind fun _ _ hr =>
    (pRecs_Le _ hr).bind fun x r hr => ?_
  simp only
  split
  · exact (pu64_Le hr).bind fun _ _ hr => hr
  · refine (pbyte_Le hr).bind fun _ _ hr => ?_
    split
    · exact (pu64_Le hr).bind fun _ _ hr => hr
    · exact hr

theorem recoverAt_congr {b : Bytes} {f g : Bytes → DOut} (h : ∀ r : Bytes, r.length < b.length → f r = g r) : recoverAt b f = recoverAt b g := by
  cases b with
  | nil => rfl
  | cons x b => simp only [recoverAt]; rw [h b (by simp)]

/-- The fuel of the loop is enough. -/
theorem dataLoop_fuel : ∀ {fuel : Nat} {t : Tbl} {b : Bytes}, b.length < fuel → dataLoop (fuel + 1) t b = dataLoop fuel t b
  | 0, _, _, h => by simp at h
  | fuel + 1, t, [], _ => by rw [dataLoop, dataLoop]
  | fuel + 1, t, x :: b, h => by
    have hb : b.length < fuel := by simpa using h
    have ih : ∀ (t : Tbl) (r : Bytes), r.length ≤ b.length → dataLoop (fuel + 1) t r = dataLoop fuel t r := fun t r hr =>
      dataLoop_fuel (by omega)
    rw [dataLoop, dataLoop.eq_3]
    have hl : Le (pBatch b) b.length := pBatch_Le (Nat.le_refl _)
    split
    · cases hp : pBatch b with
      | ok a r =>
        obtain ⟨p, actual⟩ := a
        rw [hp] at hl
        simp only [Le] at hl
        simp only
        rw [closeBatch, closeBatch]
        have hl2 : Le (pread 8 r) r.length := pread_Le _ _ (Nat.le_refl _)
        cases hr : pread 8 r with
        | ok ck s =>
          rw [hr] at hl2
          simp only [Le] at hl2
          simp only
          split
          · split
            · exact ih _ _ (by omega)
            · rfl
          · exact recoverAt_congr fun s' hs' => ih _ _ (by omega)
        | err s =>
          rw [hr] at hl2
          simp only [Le] at hl2
          exact recoverAt_congr fun s' hs' => ih _ _ (by omega)
        | panic => rfl
        | hang => rfl
      | err r =>
        rw [hp] at hl
        simp only [Le] at hl
        exact recoverAt_congr fun s' hs' => ih _ _ (by omega)
      | panic => rfl
      | hang => rfl
    · split
      · exact ih _ _ (Nat.le_refl _)
      · split
        · cases b with
          | nil => rfl
          | cons y b =>
            simp only [afterClose]
            rw [ih _ _ (by simp)]
        · exact recoverAt_congr fun s' hs' => ih _ _ (by omega)

end Verif.Old
