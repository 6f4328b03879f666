import Verif.Base.Bytes
/-!
CRC-32/ISO-HDLC, the checksum of the log of the old storage format (`storage/v1/raw/journal/raw.rs:59`).
-/
namespace Verif.Old

/-- The reflected generator polynomial of CRC-32/ISO-HDLC (`CRC_32_ISO_HDLC` in crate `crc`). -/
def poly32 : BitVec 32 := 0xEDB88320#32

/-- One bit of the reflected CRC. The lookup tables of the crate are not modelled. -/
def bit32 (s : BitVec 32) : BitVec 32 := (s >>> 1) ^^^ (if s.getLsbD 0 then poly32 else 0#32)

/-- One byte. -/
def byte32 (s : BitVec 32) (b : UInt8) : BitVec 32 :=
  bit32 (bit32 (bit32 (bit32 (bit32 (bit32 (bit32 (bit32 (s ^^^ b.toBitVec.setWidth 32))))))))

/-- All bytes. -/
def update32 (s : BitVec 32) (bs : Bytes) : BitVec 32 := bs.foldl byte32 s

/-- `CRC.checksum` (`raw.rs:59, 242`). -/
def crc32 (bs : Bytes) : Nat := (update32 (BitVec.allOnes 32) bs ^^^ BitVec.allOnes 32).toNat

/-- The published check value, on the bytes of `123456789`. -/
example : crc32 [0x31, 0x32, 0x33, 0x34, 0x35, 0x36, 0x37, 0x38, 0x39] = 0xCBF43926 := by decide +kernel

theorem crc32_lt (bs : Bytes) : crc32 bs < 2 ^ 32 := BitVec.isLt _

/-! ### A changed byte changes the checksum -/

theorem bit32_xor (a b : BitVec 32) : bit32 (a ^^^ b) = bit32 a ^^^ bit32 b := by
  unfold bit32
  rw [BitVec.getLsbD_xor, BitVec.ushiftRight_xor_distrib]
  have e : ∀ x : BitVec 32, poly32 ^^^ (poly32 ^^^ x) = x := fun x => by
    rw [← BitVec.xor_assoc, BitVec.xor_self, BitVec.zero_xor]
  cases a.getLsbD 0 <;> cases b.getLsbD 0 <;> simp only [Bool.false_eq_true, if_false, if_true,
    BitVec.xor_zero, Bool.xor_false, Bool.xor_true, Bool.not_true, Bool.not_false, Bool.xor_self]
  · ac_rfl
  · ac_rfl
  · conv => lhs; rw [← e (a >>> 1 ^^^ b >>> 1)]
    ac_rfl

theorem bit32_zero {a : BitVec 32} (h : bit32 a = 0#32) : a = 0#32 := by
  unfold bit32 at h
  have h0 : a.getLsbD 0 = false := by
    have := congrArg (fun x => x.getLsbD 31) h
    cases hb : a.getLsbD 0 with
    | false => rfl
    | true =>
      rw [hb] at this
      simp [poly32] at this
  rw [h0] at h
  simp only [Bool.false_eq_true, if_false, BitVec.xor_zero] at h
  apply BitVec.eq_of_getLsbD_eq
  intro i hi
  cases i with
  | zero => simpa using h0
  | succ i =>
    have := congrArg (fun x => x.getLsbD i) h
    simpa [BitVec.getLsbD_ushiftRight, Nat.add_comm] using this

theorem bit32_inj {a b : BitVec 32} (h : bit32 a = bit32 b) : a = b := by
  have h1 : bit32 (a ^^^ b) = 0#32 := by rw [bit32_xor, h, BitVec.xor_self]
  exact BitVec.xor_eq_zero_iff.mp (bit32_zero h1)

theorem byte32_inj {s t : BitVec 32} {a b : UInt8} (h : byte32 s a = byte32 t b) :
    s ^^^ a.toBitVec.setWidth 32 = t ^^^ b.toBitVec.setWidth 32 := by
  unfold byte32 at h
  exact bit32_inj (bit32_inj (bit32_inj (bit32_inj (bit32_inj (bit32_inj (bit32_inj (bit32_inj h)))))))

theorem update32_inj : ∀ {bs : Bytes} {s t : BitVec 32}, update32 s bs = update32 t bs → s = t
  | [], _, _, h => h
  | b :: bs, s, t, h => by
    have h1 := byte32_inj (update32_inj (bs := bs) h)
    have := congrArg (· ^^^ b.toBitVec.setWidth 32) h1
    simpa [BitVec.xor_assoc] using this

/-- One changed byte changes the checksum. -/
theorem crc32_change {p q : Bytes} {a b : UInt8} (h : a ≠ b) : crc32 (p ++ a :: q) ≠ crc32 (p ++ b :: q) := by
  intro he
  have h1 := BitVec.eq_of_toNat_eq he
  have h2 : update32 (BitVec.allOnes 32) (p ++ a :: q) = update32 (BitVec.allOnes 32) (p ++ b :: q) := by
    have := congrArg (· ^^^ BitVec.allOnes 32) h1
    simpa [BitVec.xor_assoc] using this
  simp only [update32, List.foldl_append, List.foldl_cons] at h2
  have h3 := byte32_inj (update32_inj (bs := q) h2)
  generalize List.foldl byte32 (BitVec.allOnes 32) p = s at h3
  have h4 := congrArg (s ^^^ ·) h3
  simp only [← BitVec.xor_assoc, BitVec.xor_self, BitVec.zero_xor] at h4
  apply h
  have h5 := congrArg BitVec.toNat h4
  simp only [BitVec.toNat_setWidth] at h5
  have ha := a.toNat_lt
  have hb := b.toNat_lt
  have : a.toNat = b.toNat := by
    simp only [UInt8.toNat_toBitVec] at h5
    omega
  exact UInt8.toNat_inj.1 this

end Verif.Old
