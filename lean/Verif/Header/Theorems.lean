import Verif.Header.Model
/-!
C10 (file headers identify the file) and C45 (version numbers identify the release).
-/
namespace Verif.Header

/-! ### Specification -/

/-- What a header of file kind `f`, written by a server with versions `s`, looks like: any machine, any
time, any padding. -/
def IsHeader (s : Spec) (f : FileSpec) (b : Bytes) (h : Hdr) : Prop :=
  h.headerVersion = 0 ∧ h.server = s.server ∧ h.driver = s.driver ∧ h.cls = f.cls ∧ h.kind = f.kind ∧
  h.kindVersion = f.version ∧ h.epoch < 2 ^ 128 ∧ h.padding.length = 8 ∧
  b = encode s h.host f.cls f.kind f.version h.epoch h.padding

/-- The constants of the specifications fit their fields. -/
structure Fits (s : Spec) (f : FileSpec) : Prop where
  server : s.server < 2 ^ 64
  driver : s.driver < 2 ^ 64
  maxClass : s.maxClass < 256
  maxKind : s.maxKind < 256
  cls : f.cls ≤ s.maxClass
  kind : f.kind ≤ s.maxKind
  version : f.version < 2 ^ 16

theorem v2_fits : Fits v2 gnsLog ∧ Fits v2 modelLog := by
  refine ⟨⟨?_, ?_, ?_, ?_, ?_, ?_, ?_⟩, ⟨?_, ?_, ?_, ?_, ?_, ?_, ?_⟩⟩ <;> decide +kernel

/-! ### Segments -/

theorem seg_length {a b : Nat} {x : Bytes} (h : b ≤ x.length) (hab : a ≤ b) : (seg a b x).length = b - a := by
  simp [seg]; omega

theorem seg_cat {a b c : Nat} (x : Bytes) (hab : a ≤ b) (hbc : b ≤ c) : seg a b x ++ seg b c x = seg a c x := by
  simp only [seg]
  have : x.drop b = (x.drop a).drop (b - a) := by rw [List.drop_drop]; congr 1; omega
  rw [this]
  have h : c - a = (b - a) + (c - b) := by omega
  rw [h, List.take_add]

theorem le_seg {a b v : Nat} {x : Bytes} (h : b ≤ x.length) (hab : a ≤ b) (hv : unle (seg a b x) = v) :
    seg a b x = le (b - a) v := by
  have := le_unle (seg a b x)
  rw [seg_length h hab, hv] at this
  exact this.symm

theorem le_one (v : Nat) : [UInt8.ofNat v] = le 1 v := by
  have : UInt8.ofNat v = UInt8.ofNat (v % 256) := UInt8.toNat_inj.1 (by simp)
  rw [le, le, this]

/-- The encoding as a right-nested concatenation. -/
theorem encode_eq (s : Spec) (h : Host) (cls kind kv epoch : Nat) (pad : Bytes) :
    encode s h cls kind kv epoch pad =
      le 8 MAGIC ++ (le 8 0 ++ (le 8 s.server ++ (le 8 s.driver ++ (le 1 h.os ++ (le 1 h.arch ++
      (le 1 h.ptrWidth ++ (le 1 h.endian ++ (le 1 cls ++ (le 1 kind ++ (le 2 kv ++
      (le 16 epoch ++ pad))))))))))) := by
  simp [encode, ← le_one]

theorem encode_length (s : Spec) (h : Host) (cls kind kv epoch : Nat) {pad : Bytes} (hp : pad.length = 8) :
    (encode s h cls kind kv epoch pad).length = 64 := by
  rw [encode_eq]; simp [hp]

/-- A block is the concatenation of its fields. -/
theorem block_eq {b : Bytes} (h : b.length = 64) :
    b = seg 0 8 b ++ (seg 8 16 b ++ (seg 16 24 b ++ (seg 24 32 b ++ (seg 32 33 b ++ (seg 33 34 b ++
      (seg 34 35 b ++ (seg 35 36 b ++ (seg 36 37 b ++ (seg 37 38 b ++ (seg 38 40 b ++
      (seg 40 56 b ++ seg 56 64 b))))))))))) := by
  rw [seg_cat b (by omega) (by omega), seg_cat b (by omega) (by omega), seg_cat b (by omega) (by omega),
    seg_cat b (by omega) (by omega), seg_cat b (by omega) (by omega), seg_cat b (by omega) (by omega),
    seg_cat b (by omega) (by omega), seg_cat b (by omega) (by omega), seg_cat b (by omega) (by omega),
    seg_cat b (by omega) (by omega), seg_cat b (by omega) (by omega), seg_cat b (by omega) (by omega)]
  simp only [seg, List.drop_zero]
  rw [List.take_of_length_le (by omega)]

/-- Each field of an encoded header. -/
theorem encode_seg (s : Spec) (h : Host) (cls kind kv epoch : Nat) {pad : Bytes} (hp : pad.length = 8) :
    let b := encode s h cls kind kv epoch pad
    seg 0 8 b = le 8 MAGIC ∧ seg 8 16 b = le 8 0 ∧ seg 16 24 b = le 8 s.server ∧ seg 24 32 b = le 8 s.driver ∧
    seg 32 33 b = le 1 h.os ∧ seg 33 34 b = le 1 h.arch ∧ seg 34 35 b = le 1 h.ptrWidth ∧
    seg 35 36 b = le 1 h.endian ∧ seg 36 37 b = le 1 cls ∧ seg 37 38 b = le 1 kind ∧ seg 38 40 b = le 2 kv ∧
    seg 40 56 b = le 16 epoch ∧ seg 56 64 b = pad := by
  intro b
  have hb : b = encode s h cls kind kv epoch pad := rfl
  rw [encode_eq] at hb
  have skip : ∀ {x y : Bytes} {a b : Nat} (n : Nat), x.length = n → seg (a + n) (b + n) (x ++ y) = seg a b y := by
    intro x y a b n hx
    simp only [seg]
    rw [show a + n = x.length + a by omega, List.drop_append, show b + n - (x.length + a) = b - a by omega]
    rw [List.drop_of_length_le (by omega), List.nil_append]
    congr 2
    omega
  have here : ∀ {x y : Bytes} {n : Nat}, x.length = n → seg 0 n (x ++ y) = x := by
    intro x y n hx
    simp [seg, ← hx]
  have last : ∀ {x : Bytes} {n : Nat}, x.length = n → seg 0 n x = x := by
    intro x n hx
    simp [seg, ← hx]
  have l8 : ∀ v, (le 8 v).length = 8 := le_length 8
  have l1 : ∀ v, (le 1 v).length = 1 := le_length 1
  rw [hb]
  refine ⟨here (l8 _), (skip 8 (l8 _)).trans (here (l8 _)), ?_, ?_, ?_, ?_, ?_, ?_, ?_, ?_, ?_, ?_, ?_⟩
  all_goals refine (skip 8 (l8 _)).trans ((skip 8 (l8 _)).trans ?_)
  · exact here (l8 _)
  all_goals refine (skip 8 (l8 _)).trans ?_
  · exact here (l8 _)
  all_goals refine (skip 8 (l8 _)).trans ?_
  · exact here (l1 _)
  all_goals refine (skip 1 (l1 _)).trans ?_
  · exact here (l1 _)
  all_goals refine (skip 1 (l1 _)).trans ?_
  · exact here (l1 _)
  all_goals refine (skip 1 (l1 _)).trans ?_
  · exact here (l1 _)
  all_goals refine (skip 1 (l1 _)).trans ?_
  · exact here (l1 _)
  all_goals refine (skip 1 (l1 _)).trans ?_
  · exact here (l1 _)
  all_goals refine (skip 1 (l1 _)).trans ?_
  · exact here (le_length 2 _)
  all_goals refine (skip 2 (le_length 2 _)).trans ?_
  · exact here (le_length 16 _)
  · exact (skip 16 (le_length 16 _)).trans (last hp)

/-! ### C10 -/

/-- **C10.** Exactly the headers of this kind of file are accepted: a file is accepted, with the header
`h`, if and only if it begins with the 64 bytes that a server with the same versions writes for a file of
this class, kind and revision, on some machine and at some time. -/
theorem C10_accepted_iff {s : Spec} {f : FileSpec} (hf : Fits s f) (file : Bytes) (h : Hdr) :
    readMeta s f file = .ok h ↔ 64 ≤ file.length ∧ IsHeader s f (file.take 64) h := by
  rw [readMeta]
  by_cases hl : file.length < 64
  · rw [if_pos hl]
    constructor
    · intro h; cases h
    · intro h; omega
  rw [if_neg hl]
  have hlen : (file.take 64).length = 64 := by simp; omega
  generalize file.take 64 = b at hlen
  constructor
  · intro hr
    obtain ⟨g, hg, hv⟩ := Res.bind_eq_ok hr
    refine ⟨by omega, ?_⟩
    rw [decode] at hg
    split at hg
    · rename_i hc
      cases hg
      obtain ⟨c1, ⟨c2, c3, c4⟩, c5, c6, c7, c8, c9, c10⟩ := hc
      rw [validate] at hv
      split at hv
      · split at hv
        · rename_i hver hk
          cases hv
          dsimp only at hver hk
          have e := block_eq hlen
          rw [le_seg (by omega) (by omega) c1, le_seg (by omega) (by omega) c2, le_seg (by omega) (by omega) c3,
            le_seg (by omega) (by omega) c4, le_seg (a := 32) (by omega) (by omega) rfl,
            le_seg (a := 33) (by omega) (by omega) rfl, le_seg (a := 34) (by omega) (by omega) rfl,
            le_seg (a := 35) (by omega) (by omega) rfl, le_seg (a := 36) (by omega) (by omega) hk.1,
            le_seg (a := 37) (by omega) (by omega) hk.2, le_seg (a := 38) (by omega) (by omega) hver,
            le_seg (a := 40) (by omega) (by omega) rfl] at e
          refine ⟨c2, c3, c4, hk.1, hk.2, hver, ?_, by rw [seg_length] <;> omega, ?_⟩
          · have := unle_lt (seg 40 56 b)
            rw [seg_length (by omega) (by omega)] at this
            exact this
          · rw [encode_eq]
            exact e
        · cases hv
      · cases hv
    · cases hg
  · rintro ⟨-, h1, h2, h3, h4, h5, h6, h7, h8, rfl⟩
    obtain ⟨s1, s2, s3, s4, s5, s6, s7, s8, s9, s10, s11, s12, s13⟩ :=
      encode_seg s h.host f.cls f.kind f.version h.epoch h8
    have one : ∀ {v : Nat}, v < 256 → unle (le 1 v) = v := fun hv => unle_le_of_lt (by simpa using hv)
    have b5 := (one (v := h.host.os) (by omega))
    have b6 := (one (v := h.host.arch) (by omega))
    have b7 := (one (v := h.host.ptrWidth) (by omega))
    have b8 := (one (v := h.host.endian) (by omega))
    have b9 := (one (v := f.cls) (by have := hf.cls; have := hf.maxClass; omega))
    have b10 := (one (v := f.kind) (by have := hf.kind; have := hf.maxKind; omega))
    have b11 : unle (le 2 f.version) = f.version := unle_le_of_lt (by have := hf.version; omega)
    have hdec : decode s (encode s h.host f.cls f.kind f.version h.epoch h.padding) = .ok h := by
      rw [decode]
      simp only [byteAt, s1, s2, s3, s4, s5, s6, s7, s8, s9, s10, s11, s12, s13, b5, b6, b7, b8, b9, b10, b11,
        unle_le8 hf.server, unle_le8 hf.driver, unle_le16 h7, unle_le8 (show MAGIC < 2 ^ 64 by decide),
        unle_le8 (show 0 < 2 ^ 64 by decide)]
      rw [dif_pos ⟨trivial, ⟨trivial, trivial, trivial⟩, h.host.os.isLt, h.host.arch.isLt, h.host.ptrWidth.isLt,
        h.host.endian.isLt, hf.cls, hf.kind⟩]
      obtain ⟨a, b, c, d, e, k, kv, ep, pad⟩ := h
      simp_all
    rw [hdec]
    show validate f h = _
    rw [validate, if_pos h6, if_pos ⟨h4, h5⟩]

/-- **C10.** A file written by this server is accepted on reopening, whatever follows the header. -/
theorem C10_own_files_accepted {s : Spec} {f : FileSpec} (hf : Fits s f) (host : Host) {epoch : Nat}
    (he : epoch < 2 ^ 128) (rest : Bytes) :
    readMeta s f (writeMeta s f host epoch ++ rest) =
      .ok ⟨0, s.server, s.driver, host, f.cls, f.kind, f.version, epoch, List.replicate 8 0⟩ := by
  have hl : (writeMeta s f host epoch).length = 64 := encode_length _ _ _ _ _ _ (by simp)
  refine (C10_accepted_iff hf _ _).2 ⟨by simp [hl], rfl, rfl, rfl, rfl, rfl, rfl, he, by simp, ?_⟩
  rw [List.take_append_of_le_length (by omega), List.take_of_length_le (by omega)]
  rfl

/-- **C10.** A file of another class, kind or revision, or written with other versions, is rejected. -/
theorem C10_other_files_rejected {s s' : Spec} {f f' : FileSpec} (hf : Fits s f) (hf' : Fits s' f')
    (hd : s.server ≠ s'.server ∨ s.driver ≠ s'.driver ∨ f.cls ≠ f'.cls ∨ f.kind ≠ f'.kind ∨
      f.version ≠ f'.version) (host : Host) (epoch : Nat) (rest : Bytes) :
    (readMeta s f (writeMeta s' f' host epoch ++ rest)).isOk = false := by
  cases hr : readMeta s f (writeMeta s' f' host epoch ++ rest) with
  | ok h =>
    exfalso
    obtain ⟨-, -, -, -, -, -, -, -, hp, e⟩ := (C10_accepted_iff hf _ _).1 hr
    have hl : (writeMeta s' f' host epoch).length = 64 := encode_length _ _ _ _ _ _ (by simp)
    rw [List.take_append_of_le_length (by omega), List.take_of_length_le (by omega)] at e
    obtain ⟨-, -, a3, a4, -, -, -, -, a9, a10, a11, -, -⟩ :=
      encode_seg s h.host f.cls f.kind f.version h.epoch hp
    obtain ⟨-, -, b3, b4, -, -, -, -, b9, b10, b11, -, -⟩ :=
      encode_seg s' host f'.cls f'.kind f'.version epoch (pad := List.replicate 8 0) (by simp)
    have e' : encode s' host f'.cls f'.kind f'.version epoch (List.replicate 8 0) =
        encode s h.host f.cls f.kind f.version h.epoch h.padding := e
    rw [e'] at b3 b4 b9 b10 b11
    have i1 := hf.cls; have i2 := hf.maxClass; have i3 := hf.kind; have i4 := hf.maxKind
    have j1 := hf'.cls; have j2 := hf'.maxClass; have j3 := hf'.kind; have j4 := hf'.maxKind
    rcases hd with hd | hd | hd | hd | hd
    · exact hd (le_inj (n := 8) (by have := hf.server; omega) (by have := hf'.server; omega) (a3.symm.trans b3))
    · exact hd (le_inj (n := 8) (by have := hf.driver; omega) (by have := hf'.driver; omega) (a4.symm.trans b4))
    · exact hd (le_inj (n := 1) (by omega) (by omega) (a9.symm.trans b9))
    · exact hd (le_inj (n := 1) (by omega) (by omega) (a10.symm.trans b10))
    · exact hd (le_inj (n := 2) (by have := hf.version; omega) (by have := hf'.version; omega) (a11.symm.trans b11))
  | err _ => rfl
  | panic => rfl
  | hang => rfl

/-- Reading a header never aborts. -/
theorem C10_never_aborts (s : Spec) (f : FileSpec) (file : Bytes) : (readMeta s f file).returns = true := by
  rw [readMeta]
  split
  · rfl
  · rw [decode]
    split
    · show (validate f _).returns = true
      rw [validate]
      repeat' split
      all_goals rfl
    · rfl

/-- The log of the catalogue is not accepted as the file of a model; a changed magic is "corrupted", a
changed version a "version mismatch". -/
example :
    let b := writeMeta v2 gnsLog ⟨0, 1, 1, 1⟩ 1700000000
    (readMeta v2 gnsLog b).isOk = true ∧ readMeta v2 modelLog b = .err .versionMismatch ∧
    readMeta v2 gnsLog (b.set 0 0) = .err .corrupted ∧ readMeta v2 gnsLog (b.set 24 2) = .err .versionMismatch ∧
    readMeta v2 gnsLog (b.take 63) = .err .io := by
  decide +kernel

/-- The first bytes of the two files on Linux with 64 bits: the magic, the versions, the machine, the class and the kind of the file. -/
example :
    writeMeta v2 gnsLog ⟨0, 1, 1, 1⟩ 258 =
      [33, 78, 65, 89, 65, 83, 72, 79] ++ List.replicate 16 0 ++ [1, 0, 0, 0, 0, 0, 0, 0] ++ [0, 1, 1, 1, 0, 0, 0, 0] ++
        [2, 1] ++ List.replicate 22 0 ∧
    writeMeta v2 modelLog ⟨0, 1, 1, 1⟩ 258 =
      [33, 78, 65, 89, 65, 83, 72, 79] ++ List.replicate 16 0 ++ [1, 0, 0, 0, 0, 0, 0, 0] ++ [0, 1, 1, 1, 1, 1, 0, 0] ++
        [2, 1] ++ List.replicate 22 0 := by
  decide +kernel

/-! ### C45 -/

/-- **C45 is violated.** All 52 releases have the number 0; `v0.8.0` should have 51. -/
theorem C45_all_releases_are_zero_violated :
    (∀ t ∈ tags, fetchId (encStr t) = .ok 0) ∧ tags[51]? = some "v0.8.0" ∧ tags.Nodup := by
  decide +kernel

/-- The reason: any text at all that begins with `v`, or does not have six bytes, is taken for the first
release. -/
theorem C45_any_text_is_zero_violated (given : Bytes) (h : given.length ≠ 6 ∨ given.head? = some 118) :
    fetchId given = .ok 0 := by
  have h6 : (encStr "v0.1.0").length = 6 := by decide +kernel
  have h0 : (encStr "v0.1.0")[0]? = some 118 := by decide +kernel
  have hs : sameTag 0 (encStr "v0.1.0") given = .ok true := by
    rw [sameTag]
    by_cases hg : given.length = 6
    · rcases h with h | h
      · exact absurd hg h
      · rw [if_neg, h0]
        · rw [List.head?_eq_getElem?] at h
          rw [h]
          rfl
        · rintro (h | h)
          · omega
          · rw [h] at h6; simp at h6
    · rw [if_pos (.inl (by omega))]
  show (sameTag 0 _ given).bind _ = _
  rw [hs]
  rfl

/-- **C45, partial.** What holds is that the number is the same in every header of a release, so a header
is at least recognised by the release that wrote it; the driver version still separates the two storage
formats. -/
theorem C45_driver_versions_differ_partial (host : Host) (epoch : Nat) (rest : Bytes) :
    (readMeta v2 gnsLog (writeMeta ⟨v2.server, 0, 1, 1⟩ gnsLog host epoch ++ rest)).isOk = false := by
  have hf := v2_fits.1
  have hd : v2.driver = 1 := rfl
  exact C10_other_files_rejected (s' := ⟨v2.server, 0, 1, 1⟩) hf ⟨hf.server, by show 0 < _; omega, by show 1 < _; omega,
    by show 1 < _; omega, by show 0 ≤ _; omega, by show 0 ≤ _; omega, hf.version⟩
    (.inr (.inl (by rw [hd]; show 1 ≠ 0; omega))) host epoch rest

example : v2.server = 0 := by decide +kernel

end Verif.Header
