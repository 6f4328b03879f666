import Verif.Batch.Vals
/-!
A batch is read as it was written.
-/
namespace Verif.Batch
open Verif.Gns (Model)
open Verif.Enc (Src DErr enc encCell encList encTag Wf WfList decElem decElem_enc encTag_toNat encTag_le DICT u64_append
  byte_cons read_append)
open Verif.Dml (Key DKind Delta Tbl)

/-! ### Sizes -/

mutual
theorem wf_of_size : ∀ {c : Cell}, TagOk c → (encCell c).length < 2 ^ 64 → Wf c
  | .null, _, _ => trivial
  | .bool _, _, _ => trivial
  | .uint _ _, h, _ => h
  | .sint _ _, h, _ => h
  | .float _ _, h, _ => h
  | .bin b, _, h => by simp only [encCell, List.length_append, Enc.Wf] at h ⊢; omega
  | .str s, _, h => by simp only [encCell, List.length_append, Enc.Wf] at h ⊢; omega
  | .list l, ht, h => by
    simp only [encCell, List.length_append] at h
    simp only [TagOk] at ht
    have h1 := wfList_of_size (l := l) ht (by omega)
    have h2 := encList_length l
    rw [Enc.Wf]
    exact ⟨by omega, h1⟩

theorem wfList_of_size : ∀ {l : List Cell}, TagsOk l → (encList l).length < 2 ^ 64 → WfList l
  | [], _, _ => trivial
  | c :: cs, ht, h => by
    simp only [encList, List.length_cons, List.length_append] at h
    simp only [TagsOk] at ht
    exact ⟨wf_of_size ht.1 (by omega), wfList_of_size ht.2 (by omega)⟩

theorem encList_length : ∀ (l : List Cell), l.length ≤ (encList l).length
  | [] => by simp
  | c :: cs => by
    have := encList_length cs
    simp only [encList, List.length_cons, List.length_append]
    omega
end

/-! ### Records -/

/-- A primary key on disk. -/
def keyBytes : Key → Bytes
  | .uint v => le 8 v.toNat
  | .sint v => le 8 v.toUInt64.toNat
  | .bin b => le 8 b.length ++ b
  | .str s => le 8 (encStr s).length ++ encStr s
  | .illegal => []

/-- A record on disk. -/
def recBytes (e : Rec) : Bytes := kindByte e.kind :: (le 8 e.txn ++ (keyBytes e.key ++ (e.cells.map enc).flatten))

theorem keyChunks_flatten {k : Key} (h : k.uniq ≠ .illegal) : ∃ cs, keyChunks k = some cs ∧ cs.flatten = keyBytes k := by
  cases k with
  | uint v => exact ⟨_, rfl, by simp [keyBytes]⟩
  | sint v => exact ⟨_, rfl, by simp [keyBytes]⟩
  | bin b => exact ⟨_, rfl, by simp [keyBytes]⟩
  | str s => exact ⟨_, rfl, by simp [keyBytes]⟩
  | illegal => exact absurd rfl h

theorem recChunks_flatten {e : Rec} (h : e.key.uniq ≠ .illegal) :
    ∃ cs, recChunks e = some cs ∧ cs.flatten = recBytes e := by
  obtain ⟨ks, h1, h2⟩ := keyChunks_flatten h
  refine ⟨_, by rw [recChunks, h1]; rfl, ?_⟩
  simp [recBytes, ← h2]

theorem decKey_enc {k : Key} (h : k.uniq ≠ .illegal) (hs : (keyBytes k).length < 2 ^ 64) (r : Bytes) :
    decKey (uniqByte k.uniq) (keyBytes k ++ r) = .ok (k, r) := by
  cases k with
  | uint v =>
    have := v.toNat_lt
    simp [keyBytes, decKey, Key.uniq, uniqByte, u64_append _ this]
  | sint v =>
    have := v.toUInt64.toNat_lt
    simp only [keyBytes, decKey, Key.uniq, uniqByte, u64_append _ this, Res.bind, UInt64.ofNat_toNat]
    simp
  | bin b =>
    simp only [keyBytes, List.length_append] at hs
    simp only [keyBytes, decKey, Key.uniq, uniqByte, List.append_assoc]
    simp [u64_append _ (show b.length < 2 ^ 64 by omega), read_append _ rfl]
  | str s =>
    simp only [keyBytes, List.length_append] at hs
    simp only [keyBytes, decKey, Key.uniq, uniqByte, List.append_assoc]
    simp [u64_append _ (show (encStr s).length < 2 ^ 64 by omega), read_append _ rfl]
  | illegal => exact absurd rfl h

theorem decCells_enc (r : Bytes) : ∀ {cs : List Cell}, (∀ c ∈ cs, TagOk c) → ((cs.map enc).flatten).length < 2 ^ 64 →
    decCells cs.length ((cs.map enc).flatten ++ r) = .ok (cs, r)
  | [], _, _ => rfl
  | c :: cs, ht, hs => by
    have hs' : (encCell c).length + 1 + ((cs.map enc).flatten).length < 2 ^ 64 := by
      simp only [List.map_cons, List.flatten_cons, List.length_append, enc, List.length_cons] at hs
      exact hs
    have i1 := decCells_enc r (cs := cs) (fun x hx => ht x (by simp [hx])) (by omega)
    have hw : Wf c := wf_of_size (ht c (by simp)) (by omega)
    have hd := encTag_le c
    have i2 := decElem_enc .file ((cs.map enc).flatten ++ r) c hw ((encCell c ++ ((cs.map enc).flatten ++ r)).length + 1)
      (by simp only [List.length_append]; omega)
    simp only [List.map_cons, List.flatten_cons, List.length_cons, enc, List.cons_append, List.append_assoc]
    rw [decCells]
    simp only [byte_cons, Res.bind, encTag_toNat]
    rw [if_neg (by simp [DICT]; omega), i2]
    simp only
    have : (List.map (fun c => UInt8.ofNat (encTag c) :: encCell c) cs) = cs.map enc := rfl
    rw [i1]

theorem kindOf_kindByte (k : DKind) : kindOf (kindByte k) = .ok (some k) := by cases k <;> rfl

/-- What is needed of a record to read it back. -/
structure RecWf (m : Model) (e : Rec) : Prop where
  ok : RecOk m TagOk e
  txn : e.txn < 2 ^ 64
  size : (recBytes e).length < 2 ^ 64

theorem decRec_enc {m : Model} (hm : MOk m) {e : Rec} (h : RecWf m e) (r : Bytes) :
    decRec (uniqByte m.pkTag.uniq) (others m).length e.kind
      (le 8 e.txn ++ (keyBytes e.key ++ (e.cells.map enc).flatten) ++ r) = .ok (e, r) := by
  have hs := h.size
  simp only [recBytes, List.length_cons, List.length_append] at hs
  have hk : e.key.uniq ≠ .illegal := by rw [h.ok.key]; exact hm.uniq
  rw [decRec]
  simp only [List.append_assoc]
  rw [u64_append _ h.txn]
  simp only [Res.bind]
  rw [← h.ok.key, decKey_enc hk (by omega)]
  simp only
  cases hkd : e.kind with
  | delete =>
    have hc := h.ok.del hkd
    simp only [hc, List.map_nil, List.flatten_nil, List.nil_append]
    rw [← hc, ← hkd]
  | insert =>
    have hl := h.ok.len (by simp [hkd])
    simp only
    rw [← hl, decCells_enc r h.ok.vals (by omega)]
    simp only
    rw [← hkd]
  | update =>
    have hl := h.ok.len (by simp [hkd])
    simp only
    rw [← hl, decCells_enc r h.ok.vals (by omega)]
    simp only
    rw [← hkd]

/-- All records of a batch, and the marker if there are fewer than announced. -/
theorem decRecs_enc {m : Model} (hm : MOk m) (r : Bytes) : ∀ {es : List Rec} {n : Nat}, es.length ≤ n →
    (∀ e ∈ es, RecWf m e) →
    decRecs (uniqByte m.pkTag.uniq) (others m).length n
      ((es.map recBytes).flatten ++ ((if es.length ≠ n then [EARLY] else []) ++ r)) = .ok (es, r)
  | [], 0, _, _ => by simp [decRecs]
  | [], n + 1, _, _ => by
    simp only [List.map_nil, List.flatten_nil, List.nil_append, List.length_nil]
    rw [if_pos (by omega), decRecs]
    simp only [List.cons_append, List.nil_append, byte_cons, Res.bind]
    rfl
  | e :: es, n + 1, hn, he => by
    have ih := decRecs_enc hm r (es := es) (n := n) (by simpa using hn) (fun x hx => he x (by simp [hx]))
    have hne : ((e :: es).length ≠ n + 1) ↔ (es.length ≠ n) := by simp
    have h1 := decRec_enc hm (he e (by simp)) ((es.map recBytes).flatten ++ ((if es.length ≠ n then [EARLY] else []) ++ r))
    simp only [List.append_assoc] at h1
    rw [decRecs]
    simp only [List.map_cons, List.flatten_cons, recBytes, List.cons_append, List.append_assoc, byte_cons, Res.bind,
      kindOf_kindByte, hne]
    have : (List.map (fun e => kindByte e.kind :: (le 8 e.txn ++ (keyBytes e.key ++ (List.map enc e.cells).flatten))) es)
        = es.map recBytes := rfl
    rw [h1]
    simp only
    rw [ih]

/-- The part of a batch that its checksum covers. -/
def batchBody (n : Nat) (m : Model) (es : List Rec) : Bytes :=
  le 8 n ++ ([uniqByte m.pkTag.uniq] ++ (le 8 m.deltas.length ++ (le 8 (m.fields.length - 1) ++
    ((es.map recBytes).flatten ++ ((if es.length ≠ n then [EARLY] else []) ++ le 8 es.length)))))

/-- A batch on disk. -/
def batchBytes (n : Nat) (m : Model) (es : List Rec) : Bytes :=
  batchBody n m es ++ le 8 (Crc.crc (batchBody n m es))

theorem uniqByte_small {u : TagUnique} (h : u ≠ .illegal) : ¬ (3 < (uniqByte u).toNat ∧ (uniqByte u).toNat < 255) := by
  cases u <;> simp_all [uniqByte]

theorem decBatch_enc {m : Model} (hm : MOk m) {es : List Rec} {n : Nat} (hn : es.length ≤ n) (he : ∀ e ∈ es, RecWf m e)
    (hn64 : n < 2 ^ 64) (hd64 : m.deltas.length < 2 ^ 64) (hf64 : m.fields.length < 2 ^ 64) (r : Bytes) :
    decBatch (batchBody n m es ++ r) = .ok (⟨m.deltas.length, es⟩, r) := by
  rw [decBatch, batchBody]
  simp only [List.append_assoc]
  rw [u64_append _ hn64]
  simp only [Res.bind, List.cons_append, List.nil_append, byte_cons]
  rw [if_neg (uniqByte_small hm.uniq), u64_append _ hd64]
  simp only
  rw [u64_append _ (by omega)]
  simp only
  rw [← hm.others_length, decRecs_enc hm (le 8 es.length ++ r) hn he]
  simp only
  rw [u64_append _ (by omega)]
  simp

/-- A batch that ends with another number than that of its records is refused. -/
theorem decBatch_count {m : Model} (hm : MOk m) {es : List Rec} {n k : Nat} (hn : es.length ≤ n) (he : ∀ e ∈ es, RecWf m e)
    (hn64 : n < 2 ^ 64) (hd64 : m.deltas.length < 2 ^ 64) (hf64 : m.fields.length < 2 ^ 64) (hk : k < 2 ^ 64) (hne : k ≠ es.length)
    (r : Bytes) :
    decBatch (le 8 n ++ ([uniqByte m.pkTag.uniq] ++ (le 8 m.deltas.length ++ (le 8 (m.fields.length - 1) ++
      ((es.map recBytes).flatten ++ ((if es.length ≠ n then [EARLY] else []) ++ (le 8 k ++ r))))))) = .err .corrupted := by
  rw [decBatch, u64_append _ hn64]
  simp only [Res.bind, List.cons_append, List.nil_append, byte_cons]
  rw [if_neg (uniqByte_small hm.uniq), u64_append _ hd64]
  simp only
  rw [u64_append _ (by omega)]
  simp only
  rw [← hm.others_length, decRecs_enc hm (le 8 k ++ r) hn he]
  simp only
  rw [u64_append _ hk]
  simp [hne]

/-- A deletion of the row 7, with the number 1 at the end and with the number 2. -/
example : (∃ p, decBatch (le 8 1 ++ [0] ++ le 8 0 ++ le 8 1 ++ ([0] ++ le 8 5 ++ le 8 7) ++ le 8 1) = .ok (p, []) ∧ p.recs.length = 1) ∧
    decBatch (le 8 1 ++ [0] ++ le 8 0 ++ le 8 1 ++ ([0] ++ le 8 5 ++ le 8 7) ++ le 8 2) = .err .corrupted := by
  exact ⟨⟨_, rfl, rfl⟩, rfl⟩

end Verif.Batch
