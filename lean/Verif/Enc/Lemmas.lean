import Verif.Enc.Model
/-!
Lemmas about the encodings: reading what was written, the fuel of the decoders, and that a decoder
consumes what it decodes.
-/
namespace Verif.Enc

/-! ### Reading -/

theorem read_append (src : Src) {n : Nat} {x r : Bytes} (h : x.length = n) :
    src.read n (x ++ r) = .ok (x, r) := by
  unfold Src.read
  rw [if_pos (by simp; omega), List.take_left' h, List.drop_left' h]

theorem u64_append (src : Src) {v : Nat} {r : Bytes} (h : v < 2 ^ 64) :
    src.u64 (le 8 v ++ r) = .ok (v, r) := by
  unfold Src.u64
  rw [read_append src (le_length 8 v)]
  simp [unle_le8 h]

theorem byte_cons (src : Src) (x : UInt8) (r : Bytes) : src.byte (x :: r) = .ok (x, r) := by
  unfold Src.byte
  rw [show x :: r = [x] ++ r from rfl, read_append src (x := [x]) (n := 1) rfl]
  rfl

theorem read_ok {src : Src} {n : Nat} {b x r : Bytes} (h : src.read n b = .ok (x, r)) :
    b = x ++ r ∧ x.length = n := by
  unfold Src.read at h
  split at h
  · rename_i hn
    cases h
    exact ⟨(List.take_append_drop n b).symm, by simp [Nat.min_eq_left hn]⟩
  · cases src <;> simp at h
    split at h <;> cases h

theorem u64_ok {src : Src} {b r : Bytes} {v : Nat} (h : src.u64 b = .ok (v, r)) :
    b = le 8 v ++ r ∧ v < 2 ^ 64 := by
  unfold Src.u64 at h
  obtain ⟨⟨x, r'⟩, h1, h2⟩ := Res.bind_eq_ok h
  obtain ⟨rfl, hx⟩ := read_ok h1
  cases h2
  have := unle_lt x
  rw [hx] at this
  refine ⟨?_, by omega⟩
  have h8 := le_unle x
  rw [hx] at h8
  rw [h8]

theorem byte_ok {src : Src} {b r : Bytes} {x : UInt8} (h : src.byte b = .ok (x, r)) : b = x :: r := by
  unfold Src.byte at h
  obtain ⟨⟨y, r'⟩, h1, h2⟩ := Res.bind_eq_ok h
  obtain ⟨rfl, hx⟩ := read_ok h1
  cases h2
  match y, hx with
  | [y], _ => rfl

theorem read_ne_hang {src : Src} {n : Nat} {b : Bytes} : src.read n b ≠ .hang := by
  unfold Src.read
  split
  · simp
  · cases src <;> simp
    split <;> simp

theorem bind_ne_hang {ε α β} {x : Res ε α} {f : α → Res ε β} (h : x ≠ .hang)
    (hf : ∀ a, x = .ok a → f a ≠ .hang) : x.bind f ≠ .hang := by
  cases x <;> simp_all

theorem u64_ne_hang {src : Src} {b : Bytes} : src.u64 b ≠ .hang :=
  bind_ne_hang read_ne_hang (by simp)

theorem byte_ne_hang {src : Src} {b : Bytes} : src.byte b ≠ .hang :=
  bind_ne_hang read_ne_hang (by simp)

theorem blockCell_ne_hang {t : Tag} {x : Bytes} : blockCell t x ≠ .hang := by
  unfold blockCell
  split
  · cases decStr x <;> simp
  · simp

/-! ### Well-formed values -/

mutual
/-- A value that the server can hold: the width of a number belongs to its kind, and no length exceeds
the machine's 64 bits. -/
def Wf : Cell → Prop
  | .null | .bool _ => True
  | .uint t _ => t.cls = .uint
  | .sint t _ => t.cls = .sint
  | .float t _ => t.cls = .float
  | .bin b => b.length < 2 ^ 64
  | .str s => (encStr s).length < 2 ^ 64
  | .list l => l.length < 2 ^ 64 ∧ WfList l

/-- Every element is well formed. -/
def WfList : List Cell → Prop
  | [] => True
  | c :: cs => Wf c ∧ WfList cs
end

theorem encTag_le (c : Cell) : encTag c ≤ 14 := by
  cases c <;> simp [encTag, Cell.tag] <;> first | decide | (have := Tag.value_le ‹Tag›; omega)

theorem encTag_toNat (c : Cell) : (UInt8.ofNat (encTag c)).toNat = encTag c := by
  have := encTag_le c
  simp; omega

theorem expectAtleast_le8 (d : Nat) : expectAtleast d ≤ 8 := by
  unfold expectAtleast
  have : min d 3 = 0 ∨ min d 3 = 1 ∨ min d 3 = 2 ∨ min d 3 = 3 := by omega
  rcases this with h | h | h | h <;> simp [h]

theorem encCell_atleast {c : Cell} (h : Wf c) : expectAtleast (encTag c) ≤ (encCell c).length := by
  cases c with
  | null => decide
  | bool b => simp [encTag, Cell.tag, Tag.value, encCell, expectAtleast]
  | uint t v => exact Nat.le_trans (expectAtleast_le8 _) (by simp [encCell])
  | sint t v => exact Nat.le_trans (expectAtleast_le8 _) (by simp [encCell])
  | float t v => exact Nat.le_trans (expectAtleast_le8 _) (by simp [encCell])
  | bin b => exact Nat.le_trans (expectAtleast_le8 _) (by simp [encCell])
  | str s => exact Nat.le_trans (expectAtleast_le8 _) (by simp [encCell])
  | list l => exact Nat.le_trans (expectAtleast_le8 _) (by simp [encCell])

theorem numCell_uint {t : Tag} (v : UInt64) (h : t.cls = .uint) : numCell t v.toNat = .uint t v := by
  simp [numCell, h]

theorem numCell_sint {t : Tag} (v : Int64) (h : t.cls = .sint) :
    numCell t v.toUInt64.toNat = .sint t v := by
  simp [numCell, h]

theorem numCell_float {t : Tag} (v : UInt64) (h : t.cls = .float) : numCell t v.toNat = .float t v := by
  simp [numCell, h]

/-! ### Decoding what was encoded -/

mutual
theorem decElem_enc (src : Src) (r : Bytes) : ∀ (c : Cell), Wf c → ∀ fuel, (encCell c).length < fuel →
    decElem src fuel (encTag c) (encCell c ++ r) = .ok (c, r)
  | .null, _, fuel + 1, _ => by simp [decElem, encTag, encCell]
  | .bool b, _, fuel + 1, _ => by
    cases b <;> simp [decElem, encTag, encCell, Cell.tag, Tag.value, Tag.ofValue?, Tag.cls, byte_cons]
  | .uint t v, h, fuel + 1, _ => by
    have ht : t.cls = .uint := h
    have := v.toNat_lt
    simp [decElem, encTag, encCell, Cell.tag, ht, u64_append src this, numCell]
  | .sint t v, h, fuel + 1, _ => by
    have ht : t.cls = .sint := h
    have := v.toUInt64.toNat_lt
    simp only [decElem, encTag, encCell, Cell.tag]
    simp [ht, u64_append src this, numCell_sint v ht]
  | .float t v, h, fuel + 1, _ => by
    have ht : t.cls = .float := h
    have := v.toNat_lt
    simp [decElem, encTag, encCell, Cell.tag, ht, u64_append src this, numCell]
  | .bin b, h, fuel + 1, _ => by
    have hb : b.length < 2 ^ 64 := h
    simp only [decElem, encTag, encCell, Cell.tag, List.append_assoc]
    simp [Tag.cls, u64_append src hb, read_append src rfl, blockCell]
  | .str s, h, fuel + 1, _ => by
    have hb : (encStr s).length < 2 ^ 64 := h
    simp only [decElem, encTag, encCell, Cell.tag, List.append_assoc]
    simp [Tag.cls, u64_append src hb, read_append src rfl, blockCell]
  | .list l, h, fuel + 1, hf => by
    have hb : l.length < 2 ^ 64 := h.1
    have hl : (encList l).length < fuel := by simp [encCell] at hf; omega
    have ih := decList_enc src r l h.2 fuel hl
    simp only [decElem, encTag, encCell, Cell.tag, List.append_assoc]
    simp [Tag.cls, u64_append src hb, ih]

theorem decList_enc (src : Src) (r : Bytes) : ∀ (l : List Cell), WfList l → ∀ fuel,
    (encList l).length < fuel → decList src fuel l.length (encList l ++ r) = .ok (l, r)
  | [], _, fuel + 1, _ => by simp [decList, encList]
  | c :: cs, h, fuel + 1, hf => by
    have hf' : (encCell c).length < fuel ∧ (encList cs).length < fuel := by
      simp [encList] at hf; omega
    have i1 := decElem_enc src (encList cs ++ r) c h.1 fuel hf'.1
    have i2 := decList_enc src r cs h.2 fuel hf'.2
    have hd := encTag_le c
    have ha := encCell_atleast h.1
    simp only [decList, encList, List.cons_append, List.append_assoc, byte_cons, Res.bind,
      encTag_toNat]
    rw [if_neg (by simp), if_neg (by simp), if_neg (by omega), if_neg (by simp; omega),
      if_neg (by simp [DICT]; omega), i1]
    simp [i2]
end

/-! ### Fuel, and what is consumed -/

mutual
theorem decElem_consumes {src : Src} : ∀ {fuel d : Nat} {b r : Bytes} {c : Cell},
    decElem src fuel d b = .ok (c, r) → encTag c = d ∧ b = encCell c ++ r ∧ Wf c
  | 0, _, _, _, _, h => by simp [decElem] at h
  | fuel + 1, d, b, r, c, h => by
    rw [decElem] at h
    split at h
    · rename_i hd
      cases h
      exact ⟨hd.symm, rfl, trivial⟩
    · rename_i hd
      split at h
      · cases h
      · rename_i t ht
        have hv := Tag.ofValue_some ht
        split at h
        all_goals rename_i hc
        · obtain ⟨⟨x, b'⟩, h1, h2⟩ := Res.bind_eq_ok h
          have hb := byte_ok h1
          have : t = .bool := by revert hc; cases t <;> simp [Tag.cls]
          subst this
          simp only at h2
          split at h2
          · cases h2
          · rename_i hx
            cases h2
            refine ⟨by simp [encTag, Cell.tag, Tag.value] at hv ⊢; omega, ?_, trivial⟩
            rw [hb]
            have hx1 : x.toNat ≤ 1 := by
              have := UInt8.not_lt.1 hx
              exact UInt8.le_iff_toNat_le.1 this
            have : x = 0 ∨ x = 1 := by
              have : x.toNat = 0 ∨ x.toNat = 1 := by omega
              rcases this with h | h
              · exact .inl (UInt8.toNat_inj.1 h)
              · exact .inr (UInt8.toNat_inj.1 h)
            rcases this with rfl | rfl <;> simp [encCell]
        · obtain ⟨⟨v, b'⟩, h1, h2⟩ := Res.bind_eq_ok h
          obtain ⟨rfl, hlt⟩ := u64_ok h1
          cases h2
          simp only [numCell, hc]
          refine ⟨by simp [encTag, Cell.tag]; omega, ?_, hc⟩
          simp [encCell, Nat.mod_eq_of_lt hlt]
        · obtain ⟨⟨v, b'⟩, h1, h2⟩ := Res.bind_eq_ok h
          obtain ⟨rfl, hlt⟩ := u64_ok h1
          cases h2
          simp only [numCell, hc]
          refine ⟨by simp [encTag, Cell.tag]; omega, ?_, hc⟩
          simp [encCell, Nat.mod_eq_of_lt hlt]
        · obtain ⟨⟨v, b'⟩, h1, h2⟩ := Res.bind_eq_ok h
          obtain ⟨rfl, hlt⟩ := u64_ok h1
          cases h2
          simp only [numCell, hc]
          refine ⟨by simp [encTag, Cell.tag]; omega, ?_, hc⟩
          simp [encCell, Nat.mod_eq_of_lt hlt]
        · obtain ⟨⟨v, b'⟩, h1, h2⟩ := Res.bind_eq_ok h
          obtain ⟨rfl, hlt⟩ := u64_ok h1
          obtain ⟨⟨x, b''⟩, h3, h4⟩ := Res.bind_eq_ok h2
          obtain ⟨rfl, hx⟩ := read_ok h3
          obtain ⟨c', h5, h6⟩ := Res.bind_eq_ok h4
          cases h6
          have : t = .binary := by revert hc; cases t <;> simp [Tag.cls]
          subst this
          simp [blockCell, Tag.cls] at h5
          subst h5
          subst hx
          refine ⟨by simp [encTag, Cell.tag]; omega, by simp [encCell], hlt⟩
        · obtain ⟨⟨v, b'⟩, h1, h2⟩ := Res.bind_eq_ok h
          obtain ⟨rfl, hlt⟩ := u64_ok h1
          obtain ⟨⟨x, b''⟩, h3, h4⟩ := Res.bind_eq_ok h2
          obtain ⟨rfl, hx⟩ := read_ok h3
          obtain ⟨c', h5, h6⟩ := Res.bind_eq_ok h4
          cases h6
          have : t = .string := by revert hc; cases t <;> simp [Tag.cls]
          subst this
          rw [blockCell, if_pos (by rfl)] at h5
          split at h5
          · rename_i s hs
            cases h5
            rw [decStr_eq_some] at hs
            subst hs
            subst hx
            exact ⟨by simp [encTag, Cell.tag]; omega, by simp [encCell], hlt⟩
          · cases h5
        · obtain ⟨⟨v, b'⟩, h1, h2⟩ := Res.bind_eq_ok h
          obtain ⟨rfl, hlt⟩ := u64_ok h1
          obtain ⟨⟨l, b''⟩, h3, h4⟩ := Res.bind_eq_ok h2
          cases h4
          obtain ⟨hn, hb, hw⟩ := decList_consumes h3
          have : t = .list := by revert hc; cases t <;> simp [Tag.cls]
          subst this
          subst hn
          subst hb
          exact ⟨by simp [encTag, Cell.tag]; omega, by simp [encCell], hlt, hw⟩

theorem decList_consumes {src : Src} : ∀ {fuel n : Nat} {b r : Bytes} {l : List Cell},
    decList src fuel n b = .ok (l, r) → l.length = n ∧ b = encList l ++ r ∧ WfList l
  | 0, _, _, _, _, h => by simp [decList] at h
  | fuel + 1, n, b, r, l, h => by
    rw [decList] at h
    split at h
    · rename_i hn
      cases h
      exact ⟨by simp [hn], rfl, trivial⟩
    split at h
    · cases h
    obtain ⟨⟨d, b'⟩, h1, h2⟩ := Res.bind_eq_ok h
    have hb := byte_ok h1
    subst hb
    simp only at h2
    split at h2
    · cases h2
    split at h2
    · cases h2
    split at h2
    · cases h2
    obtain ⟨⟨c, b''⟩, h3, h4⟩ := Res.bind_eq_ok h2
    obtain ⟨⟨l', b3⟩, h5, h6⟩ := Res.bind_eq_ok h4
    cases h6
    obtain ⟨e1, e2, e3⟩ := decElem_consumes h3
    obtain ⟨f1, f2, f3⟩ := decList_consumes h5
    refine ⟨by simp; omega, ?_, e3, f3⟩
    simp only at f2
    simp only [encList, e1]
    rw [e2, f2]
    simp
end

mutual
theorem decElem_fuel {src : Src} : ∀ {fuel d : Nat} {b : Bytes}, b.length < fuel →
    decElem src fuel d b ≠ .hang
  | 0, _, _, h => by omega
  | fuel + 1, d, b, h => by
    rw [decElem]
    split
    · simp
    split
    · simp
    split
    · refine bind_ne_hang byte_ne_hang ?_
      intro a _
      simp only
      split <;> simp
    · exact bind_ne_hang u64_ne_hang (by simp)
    · exact bind_ne_hang u64_ne_hang (by simp)
    · exact bind_ne_hang u64_ne_hang (by simp)
    · refine bind_ne_hang u64_ne_hang fun _ _ => bind_ne_hang read_ne_hang fun _ _ =>
        bind_ne_hang blockCell_ne_hang (by simp)
    · refine bind_ne_hang u64_ne_hang fun _ _ => bind_ne_hang read_ne_hang fun _ _ =>
        bind_ne_hang blockCell_ne_hang (by simp)
    · refine bind_ne_hang u64_ne_hang fun a ha => bind_ne_hang ?_ (by simp)
      refine decList_fuel ?_
      have := (u64_ok ha).1
      simp [this] at h
      omega

theorem decList_fuel {src : Src} : ∀ {fuel n : Nat} {b : Bytes}, b.length < fuel →
    decList src fuel n b ≠ .hang
  | 0, _, _, h => by omega
  | fuel + 1, n, b, h => by
    rw [decList]
    split
    · simp
    split
    · simp
    refine bind_ne_hang byte_ne_hang fun a ha => ?_
    have hb := byte_ok ha
    simp [hb] at h
    simp only
    split
    · simp
    split
    · simp
    split
    · simp
    refine bind_ne_hang (decElem_fuel (by omega)) fun a' ha' => ?_
    refine bind_ne_hang (decList_fuel ?_) (by simp)
    have := (decElem_consumes ha').2.1
    simp [this] at h
    omega
end

/-! ### Dictionaries -/

mutual
/-- A dictionary that the server can hold: distinct keys, well-formed values, 64-bit lengths, and
likewise at every depth. -/
def WfDict : Dict → Prop
  | [] => True
  | (k, v) :: es => (encStr k).length < 2 ^ 64 ∧ WfVal v ∧ (es.all fun e => e.1 != k) ∧ WfDict es

def WfVal : DVal → Prop
  | .data c => Wf c
  | .map d => d.length < 2 ^ 64 ∧ WfDict d
end

/-- The type byte of an entry. -/
def valTag : DVal → Nat
  | .map _ => DICT
  | .data c => encTag c

/-- The bytes of a value after the key. -/
def valBytes : DVal → Bytes
  | .map d => le 8 d.length ++ encDict d
  | .data c => encCell c

theorem encEntry_eq (k : String) (v : DVal) :
    encEntry k v = UInt8.ofNat (valTag v) :: (encStr k ++ valBytes v) := by
  cases v <;> simp [encEntry, valTag, valBytes]

theorem valTag_le (v : DVal) : valTag v ≤ 15 := by
  cases v with
  | map d => simp [valTag, DICT]
  | data c => have := encTag_le c; simp [valTag]; omega

theorem valTag_toNat (v : DVal) : (UInt8.ofNat (valTag v)).toNat = valTag v := by
  have := valTag_le v
  simp; omega

theorem valBytes_atleast {v : DVal} (h : WfVal v) : expectAtleast (valTag v) ≤ (valBytes v).length := by
  cases v with
  | map d => exact Nat.le_trans (expectAtleast_le8 _) (by simp [valBytes])
  | data c => exact encCell_atleast h

theorem encDict_cons_length (k : String) (v : DVal) (es : Dict) :
    (encDict ((k, v) :: es)).length = 9 + (encStr k).length + (valBytes v).length + (encDict es).length := by
  simp only [encDict, encEntry_eq, List.length_append, List.length_cons, le_length]
  omega

theorem insertEntry_new {V} {acc : List (String × V)} {k : String} {v : V}
    (h : acc.all fun e => e.1 != k) : insertEntry acc (some k) (some v) = .ok (acc ++ [(k, v)]) := by
  show (if acc.any (·.1 == k) then _ else _) = _
  rw [if_neg]
  simp only [List.any_eq_true, not_exists]
  rintro x ⟨hx, he⟩
  have := List.all_eq_true.1 h x hx
  simp_all

mutual
theorem decVal_enc (r : Bytes) : ∀ (v : DVal), WfVal v → ∀ fuel, (valBytes v).length < fuel →
    decEntryVal fuel (valTag v) (valBytes v ++ r) = .ok (some v, r)
  | .data c, h, fuel + 1, _ => by
    have hd := encTag_le c
    have := decElem_enc .scanner r c h ((encCell c ++ r).length + 1) (by simp; omega)
    rw [decEntryVal, if_neg (by simp [valTag, DICT]; omega)]
    simp only [valTag, valBytes, this]
  | .map d, h, fuel + 1, hf => by
    have hl : (encDict d).length < fuel := by simp [valBytes] at hf; omega
    have ih := decDict_enc r d h.2 [] (by simp) fuel hl
    rw [decEntryVal, if_pos (by rfl)]
    simp only [valBytes, List.append_assoc, u64_append .scanner h.1, Res.bind]
    rw [if_neg (by simp), if_neg, ih]
    · rfl
    · rintro ⟨h1, h2⟩
      cases d with
      | nil => simp at h1
      | cons e es =>
        obtain ⟨k, v⟩ := e
        rw [List.length_append, encDict_cons_length] at h2
        omega

theorem decDict_enc (r : Bytes) : ∀ (d : Dict), WfDict d → ∀ acc : Dict,
    (acc.all fun a => d.all fun e => a.1 != e.1) → ∀ fuel, (encDict d).length < fuel →
    decDictLoop fuel d.length acc (encDict d ++ r) = .ok (acc ++ d, r)
  | [], _, acc, _, fuel + 1, _ => by simp [decDictLoop, encDict]
  | (k, v) :: es, h, acc, ha, fuel + 1, hf => by
    obtain ⟨hk, hv, hn, hes⟩ := h
    rw [encDict_cons_length] at hf
    have i1 := decVal_enc (encDict es ++ r) v hv fuel (by omega)
    have i2 := decDict_enc r es hes (acc ++ [(k, v)]) ?_ fuel (by omega)
    · have hd := valTag_le v
      have hat := valBytes_atleast hv
      simp only [decDictLoop, encDict, encEntry_eq, List.cons_append, List.append_assoc,
        u64_append .scanner hk, byte_cons, Res.bind, valTag_toNat]
      rw [if_neg (by simp), if_neg]
      · rw [decString, read_append .scanner rfl]
        simp only [Res.bind, decStr_encStr, i1]
        rw [insertEntry_new]
        · simp only [List.length_cons, Nat.add_sub_cancel, i2]
          simp
        · rw [List.all_eq_true] at ha ⊢
          intro x hx
          have := ha x hx
          simp at this
          simp [this.1]
      · simp only [List.length_append]
        omega
    · rw [List.all_eq_true] at ha ⊢
      intro x hx
      rw [List.mem_append] at hx
      rcases hx with hx | hx
      · have := ha x hx
        simp at this ⊢
        exact this.2
      · simp at hx
        subst hx
        rw [List.all_eq_true] at hn ⊢
        intro e he
        have := hn e he
        simp at this ⊢
        exact fun h => this h.symm
end

/-! ### The fuel of the dictionary decoder -/

theorem insertEntry_ne_hang {V} {acc : List (String × V)} {k : Option String} {v : Option V} :
    insertEntry acc k v ≠ .hang := by
  unfold insertEntry
  split
  · split <;> simp
  · simp

theorem decString_ne_hang {n : Nat} {b : Bytes} : decString n b ≠ .hang :=
  bind_ne_hang read_ne_hang (by simp)

theorem decString_ok {n : Nat} {b r : Bytes} {k : Option String} (h : decString n b = .ok (k, r)) :
    ∃ x, b = x ++ r ∧ x.length = n ∧ k = decStr x := by
  obtain ⟨⟨x, b'⟩, h1, h2⟩ := Res.bind_eq_ok h
  cases h2
  exact ⟨x, (read_ok h1).1, (read_ok h1).2, rfl⟩

mutual
theorem decDictLoop_rest : ∀ {fuel n : Nat} {acc d : Dict} {b r : Bytes},
    decDictLoop fuel n acc b = .ok (d, r) → r.length ≤ b.length
  | 0, _, _, _, _, _, h => by simp [decDictLoop] at h
  | fuel + 1, n, acc, d, b, r, h => by
    rw [decDictLoop] at h
    split at h
    · cases h; exact Nat.le_refl _
    obtain ⟨⟨klen, b1⟩, h1, h2⟩ := Res.bind_eq_ok h
    obtain ⟨⟨x, b2⟩, h3, h4⟩ := Res.bind_eq_ok h2
    simp only at h4
    split at h4
    · cases h4
    obtain ⟨⟨k, b3⟩, h5, h6⟩ := Res.bind_eq_ok h4
    obtain ⟨⟨v, b4⟩, h7, h8⟩ := Res.bind_eq_ok h6
    obtain ⟨acc', h9, h10⟩ := Res.bind_eq_ok h8
    have e1 := (u64_ok h1).1
    have e2 := byte_ok h3
    obtain ⟨y, e3, -, -⟩ := decString_ok h5
    have e4 := decEntryVal_rest h7
    have e5 := decDictLoop_rest h10
    simp only at e2 e3 e4 e5
    simp only [e1, e2, e3, List.length_append, List.length_cons]
    omega

theorem decEntryVal_rest : ∀ {fuel d : Nat} {b r : Bytes} {v : Option DVal},
    decEntryVal fuel d b = .ok (v, r) → r.length ≤ b.length
  | 0, _, _, _, _, h => by simp [decEntryVal] at h
  | fuel + 1, d, b, r, v, h => by
    rw [decEntryVal] at h
    split at h
    · split at h
      · cases h; exact Nat.le_refl _
      obtain ⟨⟨n, b1⟩, h1, h2⟩ := Res.bind_eq_ok h
      have e1 := (u64_ok h1).1
      have e1' : b1.length ≤ b.length := by rw [e1]; simp
      simp only at h2
      split at h2
      · rename_i m b2 hm
        cases h2
        split at hm
        · cases hm
        · exact Nat.le_trans (decDictLoop_rest hm) e1'
      · cases h2; exact e1'
      · cases h2
      · cases h2
    · split at h
      · rename_i c b1 hc
        cases h
        rw [(decElem_consumes hc).2.1]
        simp
      · cases h; exact Nat.le_refl _
      · cases h
      · cases h
end

mutual
theorem decDictLoop_fuel : ∀ {fuel n : Nat} {acc : Dict} {b : Bytes}, b.length < fuel →
    decDictLoop fuel n acc b ≠ .hang
  | 0, _, _, _, h => by omega
  | fuel + 1, n, acc, b, h => by
    rw [decDictLoop]
    split
    · simp
    refine bind_ne_hang u64_ne_hang fun ⟨klen, b1⟩ h1 => ?_
    refine bind_ne_hang byte_ne_hang fun ⟨x, b2⟩ h2 => ?_
    simp only
    split
    · simp
    have e1 := (u64_ok h1).1
    have e2 : b1 = x :: b2 := byte_ok h2
    have hb : b2.length < fuel := by
      simp only [e1, e2, List.length_append, List.length_cons] at h
      omega
    refine bind_ne_hang decString_ne_hang fun ⟨k, b3⟩ h3 => ?_
    obtain ⟨y, e3, -, -⟩ := decString_ok h3
    have hb3 : b3.length < fuel := by
      simp only [e3, List.length_append] at hb
      omega
    refine bind_ne_hang (decEntryVal_fuel hb3) fun ⟨v, b4⟩ h4 => ?_
    refine bind_ne_hang insertEntry_ne_hang fun acc' _ => ?_
    refine decDictLoop_fuel ?_
    have := decEntryVal_rest h4
    exact Nat.lt_of_le_of_lt this hb3

theorem decEntryVal_fuel : ∀ {fuel d : Nat} {b : Bytes}, b.length < fuel →
    decEntryVal fuel d b ≠ .hang
  | 0, _, _, h => by omega
  | fuel + 1, d, b, h => by
    rw [decEntryVal]
    split
    · split
      · simp
      refine bind_ne_hang u64_ne_hang fun ⟨n, b1⟩ h1 => ?_
      have e1 := (u64_ok h1).1
      have : decDictLoop fuel n [] b1 ≠ .hang := by
        refine decDictLoop_fuel ?_
        simp only [e1, List.length_append, le_length] at h
        omega
      simp only
      split
      · simp
      · simp
      · simp
      · rename_i hh
        split at hh
        · cases hh
        · exact absurd hh this
    · have := decElem_fuel (src := .scanner) (d := d) (b := b) (fuel := b.length + 1) (by omega)
      split
      · simp
      · simp
      · simp
      · rename_i hh; exact absurd hh this
end

/-- The fuel of the model is always enough. -/
theorem decDict_ne_hang (n : Nat) (b : Bytes) : decDict n b ≠ .hang := by
  unfold decDict
  split
  · simp
  · exact decDictLoop_fuel (by omega)

/-! ### Column definitions -/

/-- A declared column type: lists, then one type that is not a list (what C39 proves about
declarations). -/
def WfLayers : List Tag → Prop
  | [] => False
  | [t] => t.cls ≠ .list
  | t :: ts => t.cls = .list ∧ WfLayers ts

/-- Columns that a model can have: distinct names, declared types, 64-bit lengths. -/
def WfFields : Fields → Prop
  | [] => True
  | (k, f) :: es => (encStr k).length < 2 ^ 64 ∧ f.layers.length < 2 ^ 64 ∧ WfLayers f.layers ∧
      (es.all fun e => e.1 != k) ∧ WfFields es

theorem encLayers_length (ts : List Tag) : (encLayers ts).length = 16 * ts.length := by
  induction ts with
  | nil => rfl
  | cons t ts ih =>
    simp only [encLayers, encLayer, List.length_append, le_length, List.length_cons, ih]
    omega

theorem decLayer_enc (t : Tag) (r : Bytes) : decLayer (encLayer t ++ r) = .ok (t, r) := by
  have : t.value < 2 ^ 64 := by have := t.value_le; omega
  simp only [decLayer, encLayer, List.append_assoc, u64_append .scanner this, Res.bind,
    u64_append .scanner (show 0 < 2 ^ 64 by decide), Tag.ofValue_value]
  simp

theorem decLayers_enc (r : Bytes) : ∀ (ts : List Tag), WfLayers ts → ∀ acc,
    decLayers ts.length (encLayers ts ++ r) acc false = .ok (acc ++ ts, true, 0, r)
  | [t], h, acc => by
    have ht : t.cls ≠ .list := h
    simp only [List.length_cons, List.length_nil, decLayers, encLayers, List.append_nil]
    rw [if_neg (by simp [encLayer]; omega), decLayer_enc]
    simp [decLayers, ht]
  | t :: t' :: ts, h, acc => by
    have ih := decLayers_enc r (t' :: ts) h.2 (acc ++ [t])
    rw [encLayers, List.length_cons, decLayers, if_neg (by simp [encLayer]; omega), List.append_assoc,
      decLayer_enc]
    simp only [Res.bind]
    rw [show decide (t.cls ≠ .list) = false by simp [h.1], ih]
    simp

theorem decField_enc (f : Field) (h : WfLayers f.layers) (r : Bytes) :
    decField 0 f.layers.length (if f.nullable then 1 else 0) (encLayers f.layers ++ r) = .ok (f, r) := by
  rw [decField, decLayers_enc r f.layers h []]
  obtain ⟨ls, nl⟩ := f
  cases nl <;> simp

theorem decFieldsLoop_enc (r : Bytes) : ∀ (fs : Fields), WfFields fs → ∀ acc : Fields,
    (acc.all fun a => fs.all fun e => a.1 != e.1) →
    decFieldsLoop fs.length acc (encFields fs ++ r) = .ok (acc ++ fs, r)
  | [], _, acc, _ => by simp [decFieldsLoop, encFields]
  | (k, f) :: es, h, acc, ha => by
    obtain ⟨hk, hl, hf, hn, hes⟩ := h
    have ih := decFieldsLoop_enc r es hes (acc ++ [(k, f)]) ?_
    · simp only [List.length_cons, decFieldsLoop, encFields, List.append_assoc, List.cons_append,
        List.nil_append, u64_append .scanner hk, Res.bind, u64_append .scanner hl, byte_cons,
        u64_append .scanner (show 0 < 2 ^ 64 by decide)]
      rw [if_neg (by simp), decString, read_append .scanner rfl]
      simp only [Res.bind, decStr_encStr, decField_enc f hf, fieldOpt]
      rw [insertEntry_new]
      · simp [ih]
      · rw [List.all_eq_true] at ha ⊢
        intro x hx
        have := ha x hx
        simp at this
        simp [this.1]
    · rw [List.all_eq_true] at ha ⊢
      intro x hx
      rw [List.mem_append] at hx
      rcases hx with hx | hx
      · have := ha x hx
        simp at this ⊢
        exact this.2
      · simp at hx
        subst hx
        rw [List.all_eq_true] at hn ⊢
        intro e he
        have := hn e he
        simp at this ⊢
        exact fun h => this h.symm

theorem decFields_enc (r : Bytes) (fs : Fields) (h : WfFields fs) :
    decFields fs.length (encFields fs ++ r) = .ok (fs, r) := by
  rw [decFields, if_neg, decFieldsLoop_enc r fs h [] (by simp)]
  · rfl
  · rintro ⟨h1, h2⟩
    match fs with
    | [] => simp at h1
    | (k, f) :: es =>
      simp only [encFields, List.length_append, le_length, List.length_cons] at h2
      omega

theorem decDict_encDict (r : Bytes) (d : Dict) (h : WfDict d) :
    decDict d.length (encDict d ++ r) = .ok (d, r) := by
  rw [decDict, if_neg, decDict_enc r d h [] (by simp) _ (by simp; omega)]
  · rfl
  · rintro ⟨h1, h2⟩
    match d with
    | [] => simp at h1
    | (k, v) :: es =>
      rw [List.length_append, encDict_cons_length] at h2
      omega

end Verif.Enc
