import Verif.Base.Bytes
/-!
CRC-64/XZ, the checksum of every journal (`storage/common/checksum.rs`).
-/
namespace Verif.Crc

/-- The reflected generator polynomial of CRC-64/XZ (`0x42F0E1EBA9EA3693` reversed).
Models the constant `CRC_64_XZ` used at `storage/common/checksum.rs:42`. -/
def poly : BitVec 64 := 0xC96C5795D7870F42#64

/-- One bit of the reflected CRC. The `crc` crate uses lookup tables that are built from this
step; the tables are not modelled. -/
def bitStep (s : BitVec 64) : BitVec 64 :=
  (s >>> 1) ^^^ (if s.getLsbD 0 then poly else 0#64)

/-- One byte of `Digest::update` (crate `crc`, called at `storage/common/checksum.rs:69-71`). -/
def byteStep (s : BitVec 64) (b : UInt8) : BitVec 64 :=
  bitStep (bitStep (bitStep (bitStep (bitStep (bitStep (bitStep (bitStep
    (s ^^^ b.toBitVec.setWidth 64))))))))

/-- `SCrc64::new` (`storage/common/checksum.rs:64-68`): the initial digest of CRC-64/XZ. -/
def new : BitVec 64 := BitVec.allOnes 64

/-- `SCrc64::update` (`storage/common/checksum.rs:69-71`). -/
def update (s : BitVec 64) (bs : Bytes) : BitVec 64 := bs.foldl byteStep s

/-- `SCrc64::finish` (`storage/common/checksum.rs:72-74`): final xor, as an unsigned integer. -/
def finish (s : BitVec 64) : Nat := (s ^^^ BitVec.allOnes 64).toNat

/-- The checksum of a byte string. -/
def crc (bs : Bytes) : Nat := finish (update new bs)

/-- The published check value of CRC-64/XZ, on the bytes of `123456789`. -/
example : crc [0x31, 0x32, 0x33, 0x34, 0x35, 0x36, 0x37, 0x38, 0x39] = 0x995dc9bbdf1939fa := by
  decide +kernel

example : crc [] = 0 := by decide

theorem update_append (s : BitVec 64) (a b : Bytes) : update s (a ++ b) = update (update s a) b := by
  simp [update]

@[simp] theorem update_nil (s : BitVec 64) : update s [] = s := rfl

theorem finish_lt (s : BitVec 64) : finish s < 2 ^ 64 := by
  unfold finish; exact BitVec.isLt _

theorem crc_lt (bs : Bytes) : crc bs < 2 ^ 64 := finish_lt _

theorem finish_inj {s t : BitVec 64} (h : finish s = finish t) : s = t := by
  unfold finish at h
  have h2 := BitVec.eq_of_toNat_eq h
  have h3 := congrArg (· ^^^ BitVec.allOnes 64) h2
  simpa [BitVec.xor_assoc] using h3

/-! ### The bit step is an injective linear map -/

theorem bitStep_xor (a b : BitVec 64) : bitStep (a ^^^ b) = bitStep a ^^^ bitStep b := by
  unfold bitStep
  rw [BitVec.getLsbD_xor, BitVec.ushiftRight_xor_distrib]
  have e : ∀ x : BitVec 64, poly ^^^ (poly ^^^ x) = x := fun x => by
    rw [← BitVec.xor_assoc, BitVec.xor_self, BitVec.zero_xor]
  cases a.getLsbD 0 <;> cases b.getLsbD 0 <;> simp only [Bool.false_eq_true, if_false, if_true,
    BitVec.xor_zero, Bool.xor_false, Bool.xor_true, Bool.not_true, Bool.not_false, Bool.xor_self]
  · ac_rfl
  · ac_rfl
  · conv => lhs; rw [← e (a >>> 1 ^^^ b >>> 1)]
    ac_rfl

theorem bitStep_zero_imp {a : BitVec 64} (h : bitStep a = 0#64) : a = 0#64 := by
  unfold bitStep at h
  have h0 : a.getLsbD 0 = false := by
    have := congrArg (fun x => x.getLsbD 63) h
    cases hb : a.getLsbD 0 with
    | false => rfl
    | true =>
      rw [hb] at this
      simp [poly] at this
  rw [h0] at h
  simp only [Bool.false_eq_true, if_false, BitVec.xor_zero] at h
  apply BitVec.eq_of_getLsbD_eq
  intro i hi
  cases i with
  | zero => simpa using h0
  | succ i =>
    have := congrArg (fun x => x.getLsbD i) h
    simpa [BitVec.getLsbD_ushiftRight, Nat.add_comm] using this

theorem bitStep_inj {a b : BitVec 64} (h : bitStep a = bitStep b) : a = b := by
  have h1 : bitStep (a ^^^ b) = 0#64 := by rw [bitStep_xor, h, BitVec.xor_self]
  have h2 := bitStep_zero_imp h1
  exact BitVec.xor_eq_zero_iff.mp h2

/-- Eight bit steps. -/
def step8 (x : BitVec 64) : BitVec 64 :=
  bitStep (bitStep (bitStep (bitStep (bitStep (bitStep (bitStep (bitStep x)))))))

theorem byteStep_eq (s : BitVec 64) (b : UInt8) :
    byteStep s b = step8 (s ^^^ b.toBitVec.setWidth 64) := rfl

theorem step8_xor (a b : BitVec 64) : step8 (a ^^^ b) = step8 a ^^^ step8 b := by
  simp only [step8, bitStep_xor]

theorem step8_inj {a b : BitVec 64} (h : step8 a = step8 b) : a = b := by
  unfold step8 at h
  exact bitStep_inj (bitStep_inj (bitStep_inj (bitStep_inj (bitStep_inj (bitStep_inj
    (bitStep_inj (bitStep_inj h)))))))

theorem bitStep_shl {y : BitVec 64} (h : y.getLsbD 63 = false) : bitStep (y <<< 1) = y := by
  unfold bitStep
  have h0 : (y <<< 1).getLsbD 0 = false := by simp
  rw [h0]
  simp only [Bool.false_eq_true, if_false, BitVec.xor_zero]
  apply BitVec.eq_of_getLsbD_eq
  intro i hi
  simp only [BitVec.getLsbD_ushiftRight, BitVec.getLsbD_shiftLeft]
  by_cases h63 : i = 63
  · subst h63; simpa using h.symm
  · simp [show 1 + i < 64 by omega]

theorem step8_shl {y : BitVec 64} (h : ∀ i, 56 ≤ i → y.getLsbD i = false) :
    step8 (y <<< 8) = y := by
  have g : ∀ j, j ≤ 7 → bitStep (y <<< (j + 1)) = y <<< j := by
    intro j hj
    rw [BitVec.shiftLeft_add]
    apply bitStep_shl
    simp only [BitVec.getLsbD_shiftLeft]
    rw [h (63 - j) (by omega)]
    simp
  unfold step8
  rw [g 7 (by omega), g 6 (by omega), g 5 (by omega), g 4 (by omega), g 3 (by omega),
    g 2 (by omega), g 1 (by omega), g 0 (by omega)]
  simp

/-- A byte window as a 64-bit vector, least significant byte first. -/
def lebv : Bytes → BitVec 64
  | [] => 0#64
  | b :: bs => (lebv bs <<< 8) ^^^ b.toBitVec.setWidth 64

theorem lebv_high (bs : Bytes) (i : Nat) (hi : 8 * bs.length ≤ i) : (lebv bs).getLsbD i = false := by
  induction bs generalizing i with
  | nil => simp [lebv]
  | cons b bs ih =>
    simp only [List.length_cons] at hi
    simp only [lebv, BitVec.getLsbD_xor, BitVec.getLsbD_shiftLeft, BitVec.getLsbD_setWidth]
    rw [ih (i - 8) (by omega)]
    have : b.toBitVec.getLsbD i = false := BitVec.getLsbD_of_ge _ _ (by omega)
    simp [this]

theorem lebv_inj {a b : Bytes} (hl : a.length = b.length) (hk : a.length ≤ 8)
    (h : lebv a = lebv b) : a = b := by
  induction a generalizing b with
  | nil => cases b with
    | nil => rfl
    | cons => simp at hl
  | cons x a ih =>
    cases b with
    | nil => simp at hl
    | cons y b =>
      simp only [List.length_cons, Nat.add_right_cancel_iff] at hl hk
      simp only [lebv] at h
      have hxy : x = y := by
        apply UInt8.eq_of_toBitVec_eq
        apply BitVec.eq_of_getLsbD_eq
        intro i hi
        have := congrArg (fun v => v.getLsbD i) h
        simpa [BitVec.getLsbD_xor, BitVec.getLsbD_shiftLeft, BitVec.getLsbD_setWidth, hi,
          show i < 64 by omega] using this
      have hab : lebv a = lebv b := by
        apply BitVec.eq_of_getLsbD_eq
        intro i hi
        by_cases h56 : i < 56
        · have := congrArg (fun v => v.getLsbD (i + 8)) h
          have hx : x.toBitVec.getLsbD (i + 8) = false := BitVec.getLsbD_of_ge _ _ (by omega)
          have hy : y.toBitVec.getLsbD (i + 8) = false := BitVec.getLsbD_of_ge _ _ (by omega)
          have h8 : decide (i + 8 < 8) = false := decide_eq_false (by omega)
          simpa only [BitVec.getLsbD_xor, BitVec.getLsbD_shiftLeft, BitVec.getLsbD_setWidth, hx, hy,
            show i + 8 < 64 by omega, h8, decide_true, Bool.and_false, Bool.xor_false,
            Bool.not_false, Bool.true_and, Nat.add_sub_cancel] using this
        · rw [lebv_high a i (by omega), lebv_high b i (by omega)]
      rw [hxy, ih hl (by omega) hab]

theorem byteStep_inj_state {s t : BitVec 64} {b : UInt8} (h : byteStep s b = byteStep t b) : s = t := by
  have := step8_inj h
  have h3 := congrArg (· ^^^ b.toBitVec.setWidth 64) this
  simpa [BitVec.xor_assoc] using h3

/-- Processing the same bytes keeps different states different. -/
theorem update_inj_state {s t : BitVec 64} {bs : Bytes} (h : update s bs = update t bs) : s = t := by
  induction bs generalizing s t with
  | nil => exact h
  | cons b bs ih => exact byteStep_inj_state (ih h)

theorem update_eq_imp {s t : BitVec 64} {m m' : Bytes} (hl : m.length = m'.length) (hk : m.length ≤ 8)
    (h : update s m = update t m') : s ^^^ t = lebv m ^^^ lebv m' := by
  induction m generalizing s t m' with
  | nil =>
    cases m' with
    | nil => simp only [update_nil] at h; simp [h]
    | cons => simp at hl
  | cons b m ih =>
    cases m' with
    | nil => simp at hl
    | cons b' m' =>
      simp only [List.length_cons, Nat.add_right_cancel_iff] at hl hk
      have h1 := ih hl (by omega) (s := byteStep s b) (t := byteStep t b') h
      rw [byteStep_eq, byteStep_eq, ← step8_xor] at h1
      have h2 : step8 ((lebv m ^^^ lebv m') <<< 8) = lebv m ^^^ lebv m' := by
        apply step8_shl
        intro i hi
        rw [BitVec.getLsbD_xor, lebv_high m i (by omega), lebv_high m' i (by omega)]
        rfl
      have h3 := step8_inj (h1.trans h2.symm)
      simp only [lebv]
      rw [BitVec.shiftLeft_xor_distrib] at h3
      have h4 := congrArg (fun v => v ^^^ (b.toBitVec.setWidth 64 ^^^ b'.toBitVec.setWidth 64)) h3
      have e1 : (s ^^^ BitVec.setWidth 64 b.toBitVec ^^^ (t ^^^ BitVec.setWidth 64 b'.toBitVec)) ^^^
          (b.toBitVec.setWidth 64 ^^^ b'.toBitVec.setWidth 64) = s ^^^ t := by
        generalize BitVec.setWidth 64 b.toBitVec = x
        generalize BitVec.setWidth 64 b'.toBitVec = y
        have : s ^^^ x ^^^ (t ^^^ y) ^^^ (x ^^^ y) = (s ^^^ t) ^^^ ((x ^^^ x) ^^^ (y ^^^ y)) := by ac_rfl
        rw [this]; simp
      rw [e1] at h4
      rw [h4]
      ac_rfl

/-- **Burst detection.** Two byte strings that differ only inside a window of at most eight bytes
have different checksums. -/
theorem crc_window {p m m' q : Bytes} (hl : m.length = m'.length) (hk : m.length ≤ 8)
    (h : crc (p ++ m ++ q) = crc (p ++ m' ++ q)) : m = m' := by
  unfold crc at h
  have h1 := finish_inj h
  simp only [update_append] at h1
  have h2 := update_inj_state h1
  have h3 := update_eq_imp hl hk h2
  rw [BitVec.xor_self] at h3
  exact lebv_inj hl hk (BitVec.xor_eq_zero_iff.mp h3.symm)

end Verif.Crc
