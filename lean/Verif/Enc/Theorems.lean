import Verif.Enc.Event
/-!
C06, C07, C08: what is stored reads back unchanged.
-/
namespace Verif.Enc

/-! ### C06 -/

/-- **C06.** Every value that can be stored is read back from its on-disk form as the same value, and
exactly its own bytes are consumed, whatever follows and whichever reader is used. The form is the
type byte followed by the data; `decElem` is given the type byte and the rest. -/
theorem C06_values_round_trip (src : Src) (c : Cell) (h : Wf c) (rest : Bytes) :
    ∃ tag data, enc c = tag :: data ∧ tag.toNat < DICT ∧
      decElem src ((data ++ rest).length + 1) tag.toNat (data ++ rest) = .ok (c, rest) := by
  refine ⟨_, _, rfl, ?_, ?_⟩
  · have := encTag_le c
    rw [encTag_toNat, DICT]
    omega
  · rw [encTag_toNat]
    exact decElem_enc src rest c h _ (by simp; omega)

/-- **C06.** Nothing else reads as that value: bytes that decode to a value are its on-disk form. -/
theorem C06_form_is_unique (src : Src) (fuel d : Nat) (b rest : Bytes) (c : Cell)
    (h : decElem src fuel d b = .ok (c, rest)) :
    Wf c ∧ UInt8.ofNat d :: b = enc c ++ rest := by
  obtain ⟨h1, h2, h3⟩ := decElem_consumes h
  exact ⟨h3, by simp [enc, h1, h2]⟩

/-- The fuel of the model always suffices: no input makes `decElem` run out of it. -/
theorem C06_fuel_suffices (src : Src) (d : Nat) (b : Bytes) : decElem src (b.length + 1) d b ≠ .hang :=
  decElem_fuel (by omega)

/-- A value with every type, nested lists and a null inside a list. -/
def exCell : Cell :=
  .list [.uint .uint16 300, .sint .sint8 (-5), .float .float64 0x3FF8000000000000, .bool true, .null,
    .bin [0, 255], .str "sky", .list [.list [], .list [.str ""]]]

example : Wf exCell := by
  simp [exCell, Wf, WfList, Tag.cls]
  decide +kernel

example : enc (.list [.str "hi", .null]) =
    [14, 2, 0, 0, 0, 0, 0, 0, 0, 13, 2, 0, 0, 0, 0, 0, 0, 0, 104, 105, 0] := by decide +kernel

/-! ### C07 -/

/-- **C07.** Every property dictionary, nested to any depth, is read back as the same dictionary, and
exactly its own bytes are consumed. -/
theorem C07_dictionaries_round_trip (d : Dict) (hn : d.length < 2 ^ 64) (h : WfDict d) (rest : Bytes) :
    decDictFull (encDictFull d ++ rest) = .ok (d, rest) := by
  rw [decDictFull, if_neg (by simp [encDictFull])]
  simp only [encDictFull, List.append_assoc, u64_append .scanner hn, Res.bind, decDict_encDict rest d h]

/-- The fuel of the model always suffices. -/
theorem C07_fuel_suffices (b : Bytes) : decDictFull b ≠ .hang := by
  rw [decDictFull]
  split
  · simp
  · exact bind_ne_hang u64_ne_hang fun _ _ => decDict_ne_hang _ _

/-- A dictionary with nested dictionaries, an empty one among them, and null. -/
def exDict : Dict :=
  [("env", .map [("a", .data (.uint .uint64 1)), ("b", .map [("c", .data .null)]), ("d", .map [])]),
   ("", .data exCell)]

example : WfDict exDict := by
  simp [exDict, exCell, WfDict, WfVal, Wf, WfList, Tag.cls]
  decide +kernel

/-! ### C08 -/

/-- An event that the server can log: names and counts have 64-bit lengths, dictionaries and columns are
well formed, and the list of removed columns fits into memory. -/
def WfEvent : Event → Prop
  | .createSpace n _ d => (encStr n).length < 2 ^ 64 ∧ d.length < 2 ^ 64 ∧ WfDict d
  | .alterSpace i d => (encStr i.name).length < 2 ^ 64 ∧ d.length < 2 ^ 64 ∧ WfDict d
  | .dropSpace i => (encStr i.name).length < 2 ^ 64
  | .createModel i n l => (encStr i.name).length < 2 ^ 64 ∧ (encStr n).length < 2 ^ 64 ∧
      (encStr l.pk).length < 2 ^ 64 ∧ l.fields.length < 2 ^ 64 ∧ WfFields l.fields
  | .alterAdd i fs | .alterUpdate i fs => (encStr i.space.name).length < 2 ^ 64 ∧
      (encStr i.name).length < 2 ^ 64 ∧ fs.length < 2 ^ 64 ∧ WfFields fs
  | .alterRemove i ns => (encStr i.space.name).length < 2 ^ 64 ∧
      (encStr i.name).length < 2 ^ 64 ∧ ns.length < 2 ^ 59 ∧ ∀ n ∈ ns, (encStr n).length < 2 ^ 64
  | .dropModel i => (encStr i.space.name).length < 2 ^ 64 ∧ (encStr i.name).length < 2 ^ 64
  | .createUser n p | .alterUser n p => (encStr n).length < 2 ^ 64 ∧ p.length < 2 ^ 64
  | .dropUser n => (encStr n).length < 2 ^ 64

theorem decUuid_append (u : Uuid) (r : Bytes) : decUuid (le 16 u.toNat ++ r) = .ok (u, r) := by
  rw [decUuid, read_append .scanner (le_length 16 _)]
  simp [unle_le16 u.isLt]

theorem strOrErr_append (s : String) (r : Bytes) :
    strOrErr (encStr s).length (encStr s ++ r) = .ok (s, r) := by
  rw [strOrErr, decString, read_append .scanner rfl]
  simp

theorem hasMeta_ok {n : Nat} {b : Bytes} (h : n ≤ b.length) : hasMeta n b = .ok () := by
  rw [hasMeta, if_neg (by omega)]

theorem hasObj_ok {n : Nat} {b : Bytes} (h : n ≤ b.length) : hasObj n b = .ok () := by
  rw [hasObj, if_neg]
  have := Nat.mod_le n (2 ^ 64)
  omega

theorem decSpaceMeta_append (i : SpaceId) (h : (encStr i.name).length < 2 ^ 64) (r : Bytes) :
    decSpaceMeta (i.meta ++ r) = .ok (⟨i.uuid, (encStr i.name).length⟩, r) := by
  simp only [decSpaceMeta, SpaceId.meta, slen, List.append_assoc, decUuid_append, Res.bind,
    u64_append .scanner h]

theorem decSpaceObj_append (i : SpaceId) (r : Bytes) :
    decSpaceObj ⟨i.uuid, (encStr i.name).length⟩ (i.obj ++ r) = .ok (i, r) := by
  simp only [decSpaceObj, SpaceId.obj, strOrErr_append, Res.bind]

theorem decModelMeta_append (i : ModelId) (h : (encStr i.space.name).length < 2 ^ 64)
    (h' : (encStr i.name).length < 2 ^ 64) (r : Bytes) :
    decModelMeta (i.meta ++ r) =
      .ok (⟨⟨i.space.uuid, (encStr i.space.name).length⟩, (encStr i.name).length, i.version.toNat, i.uuid⟩, r) := by
  simp only [decModelMeta, ModelId.meta, List.append_assoc, decSpaceMeta_append _ h, slen, Res.bind,
    u64_append .scanner h', u64_append .scanner i.version.toNat_lt, decUuid_append]

theorem decModelObj_append (i : ModelId) (r : Bytes) :
    decModelObj ⟨⟨i.space.uuid, (encStr i.space.name).length⟩, (encStr i.name).length, i.version.toNat, i.uuid⟩
      (i.obj ++ r) = .ok (i, r) := by
  simp only [decModelObj, ModelId.obj, List.append_assoc, decSpaceObj_append, strOrErr_append, Res.bind]
  simp

theorem decNames_append (r : Bytes) : ∀ (ns : List String) (acc : List String),
    (∀ n ∈ ns, (encStr n).length < 2 ^ 64) →
    decNames ns.length acc (encNames ns ++ r) = .ok (acc ++ ns, 0, r)
  | [], acc, _ => by simp [decNames, encNames]
  | n :: ns, acc, h => by
    have ih := decNames_append r ns (acc ++ [n]) fun x hx => h x (by simp [hx])
    simp only [List.length_cons, decNames, encNames, slen, List.append_assoc,
      u64_append .scanner (h n (by simp)), Res.bind, strOrErr_append, ih]
    rw [if_neg (by simp), if_neg (by simp)]
    simp

theorem decAlter_append (obj : ModelId → Nat → Bytes → Res DErr (Event × Bytes)) (i : ModelId) (n : Nat)
    (h : (encStr i.space.name).length < 2 ^ 64) (h' : (encStr i.name).length < 2 ^ 64) (hn : n < 2 ^ 64)
    (r : Bytes) : decAlter obj ((i.meta ++ le 8 n) ++ (i.obj ++ r)) = obj i n r := by
  rw [decAlter, hasMeta_ok]
  · simp only [List.append_assoc, decModelMeta_append i h h', Res.bind, u64_append .scanner hn]
    rw [hasObj_ok]
    · simp only [Res.bind, decModelObj_append]
    · simp [ModelId.obj, SpaceId.obj, Nat.add_assoc]
  · simp [ModelId.meta, SpaceId.meta, slen]
    omega

theorem decUser_append (mk : String → Bytes → Event) (n : String) (p r : Bytes)
    (h : (encStr n).length < 2 ^ 64) (h' : p.length < 2 ^ 64) :
    decUser mk ((slen n ++ (le 8 p.length ++ le 8 0)) ++ (encStr n ++ p) ++ r) = .ok (mk n p, r) := by
  rw [decUser, hasMeta_ok]
  · simp only [List.append_assoc, slen, Res.bind, u64_append .scanner h, u64_append .scanner h',
      u64_append .scanner (show 0 < 2 ^ 64 by decide)]
    rw [hasObj_ok]
    · simp only [Res.bind, strOrErr_append, read_append .scanner rfl]
      simp
    · simp [Nat.add_assoc]
  · simp [slen]
    omega

/-- **C08.** Each of the eleven catalogue events is read back from its payload as the same event; what
follows the payload is left over, so nothing of the payload is. -/
theorem C08_events_round_trip (e : Event) (h : WfEvent e) (rest : Bytes) :
    decodeEvent e.code (e.encode ++ rest) = .ok (e, rest) := by
  cases e with
  | createSpace n u d =>
    obtain ⟨h1, h2, h3⟩ := h
    show decCreateSpace _ = _
    rw [decCreateSpace, hasMeta_ok (by simp [Event.encode, slen]; omega)]
    simp only [Event.encode, List.append_assoc, slen, Res.bind, u64_append .scanner h1, decUuid_append,
      u64_append .scanner h2]
    rw [hasObj_ok (by simp)]
    simp only [Res.bind, strOrErr_append, decDict_encDict rest d h3]
  | alterSpace i d =>
    obtain ⟨h1, h2, h3⟩ := h
    show decAlterSpace _ = _
    rw [decAlterSpace, hasMeta_ok (by simp [Event.encode, SpaceId.meta, slen]; omega)]
    simp only [Event.encode, List.append_assoc, Res.bind, decSpaceMeta_append i h1,
      u64_append .scanner h2]
    rw [hasObj_ok (by simp [SpaceId.obj])]
    simp only [Res.bind, decSpaceObj_append, decDict_encDict rest d h3]
  | dropSpace i =>
    have h1 : (encStr i.name).length < 2 ^ 64 := h
    show decDropSpace _ = _
    rw [decDropSpace, hasMeta_ok (by simp [Event.encode, SpaceId.meta, slen]; omega)]
    simp only [Event.encode, List.append_assoc, Res.bind, decSpaceMeta_append i h1]
    rw [hasObj_ok (by simp [SpaceId.obj])]
    simp only [Res.bind, decSpaceObj_append]
  | createModel i n l =>
    obtain ⟨h1, h2, h3, h4, h5⟩ := h
    have ht : l.pkTag.value < 2 ^ 64 := by have := l.pkTag.value_le; omega
    show decCreateModel _ = _
    rw [decCreateModel, hasMeta_ok (by simp [Event.encode, SpaceId.meta, Layout.meta, slen]; omega)]
    simp only [Event.encode, List.append_assoc, Res.bind, decSpaceMeta_append i h1, slen,
      u64_append .scanner h2, Layout.meta, decLayoutMeta, decUuid_append, u64_append .scanner h3,
      u64_append .scanner ht, u64_append .scanner h4]
    rw [hasObj_ok (by simp [SpaceId.obj, Layout.obj]; omega)]
    simp only [Res.bind, decSpaceObj_append, strOrErr_append, decLayoutObj, Layout.obj,
      List.append_assoc, decFields_enc rest l.fields h5, Tag.ofValue_value]
  | alterAdd i fs =>
    obtain ⟨h1, h2, h3, h4⟩ := h
    show decAlter _ _ = _
    rw [Event.encode, List.append_assoc, List.append_assoc i.obj, decAlter_append _ i _ h1 h2 h3]
    simp only [decAlterFields, decFields_enc rest fs h4, Res.bind]
  | alterRemove i ns =>
    obtain ⟨h1, h2, h3, h4⟩ := h
    show decAlter _ _ = _
    rw [Event.encode, List.append_assoc, List.append_assoc i.obj,
      decAlter_append _ i _ h1 h2 (by omega), decAlterRemove, if_neg (by omega)]
    simp [decNames_append rest ns [] h4]
  | alterUpdate i fs =>
    obtain ⟨h1, h2, h3, h4⟩ := h
    show decAlter _ _ = _
    rw [Event.encode, List.append_assoc, List.append_assoc i.obj, decAlter_append _ i _ h1 h2 h3]
    simp only [decAlterFields, decFields_enc rest fs h4, Res.bind]
  | dropModel i =>
    obtain ⟨h1, h2⟩ := h
    show decDropModel _ = _
    rw [decDropModel, hasMeta_ok (by simp [Event.encode, ModelId.meta, SpaceId.meta, slen]; omega)]
    simp only [Event.encode, List.append_assoc, Res.bind, decModelMeta_append i h1 h2]
    rw [hasObj_ok (by simp [ModelId.obj, SpaceId.obj, Nat.add_assoc])]
    simp only [Res.bind, decModelObj_append]
  | createUser n p => exact decUser_append _ n p rest h.1 h.2
  | alterUser n p => exact decUser_append _ n p rest h.1 h.2
  | dropUser n =>
    have h1 : (encStr n).length < 2 ^ 64 := h
    show decDropUser _ = _
    rw [decDropUser, hasMeta_ok (by simp [Event.encode, slen])]
    simp only [Event.encode, slen, List.append_assoc, Res.bind, u64_append .scanner h1]
    rw [hasObj_ok (by simp)]
    simp only [Res.bind, strOrErr_append]

/-- **C08.** The whole payload is consumed (the end-of-payload check of `decode_apply` passes). -/
theorem C08_nothing_left_over (e : Event) (h : WfEvent e) :
    decodeEvent e.code e.encode = .ok (e, []) := by
  have := C08_events_round_trip e h []
  rwa [List.append_nil] at this

/-- **C08.** Two different events never have the same payload under the same code, so the log determines
the events. -/
theorem C08_payload_determines_event (e e' : Event) (h : WfEvent e) (h' : WfEvent e')
    (hc : e.code = e'.code) (hb : e.encode = e'.encode) : e = e' := by
  have h1 := C08_nothing_left_over e h
  have h2 := C08_nothing_left_over e' h'
  rw [← hc, ← hb, h1] at h2
  exact (Prod.mk.inj (Res.ok.inj h2)).1

def exFields : Fields :=
  [("username", ⟨[.string], false⟩), ("notes", ⟨[.list, .list, .uint8], true⟩)]

example : WfEvent (.createModel ⟨"apps", 7⟩ "users" ⟨9, "username", .string, exFields⟩) := by
  simp [WfEvent, WfFields, WfLayers, exFields, Tag.cls]
  decide +kernel

example : WfEvent (.alterRemove ⟨⟨"apps", 7⟩, "users", 3, 9⟩ ["a", "b", "a"]) := by
  simp [WfEvent]
  decide +kernel

example : WfEvent (.createSpace "apps" 7 exDict) := by
  simp [WfEvent, exDict, exCell, WfDict, WfVal, Wf, WfList, Tag.cls]
  decide +kernel

/-! ### What the readers do with lengths and kinds that no event has (C83) -/

/-- From 2^59 names on, `Vec::with_capacity` asks for more than the largest allocation; below, it is the missing names that are noticed. -/
theorem alterRemove_bound (id : ModelId) (n : Nat) (h0 : n ≠ 0) :
    decAlterRemove id n [] = if 2 ^ 59 ≤ n then .panic else .err .payload := by
  unfold decAlterRemove
  split
  · rfl
  · cases n with
    | zero => exact absurd rfl h0
    | succ n => simp [decNames, Res.bind, Src.scanner]

/-- There are eleven kinds of events; the table of readers has no other entry. -/
theorem decodeEvent_unknown (code : Nat) (b : Bytes) (h : 11 ≤ code) : decodeEvent code b = .panic := by
  obtain ⟨k, rfl⟩ : ∃ k, code = k + 11 := ⟨code - 11, by omega⟩
  rfl

/-- The sums of lengths wrap around, so that lengths which are far too large pass the test. -/
theorem hasObj_wraps : hasObj (2 ^ 64) [] = .ok () ∧ hasObj (2 ^ 64 - 1) [] = .err .payload ∧ hasObj (2 ^ 64 + 1) [7] = .ok () := by
  decide +kernel

end Verif.Enc
