/-!
Byte strings and little-endian integers.

`u64::to_le_bytes` / `from_le_bytes` (and the 16, 32 and 128 bit versions) of the Rust standard
library are modelled by `le n v` (the `n` low bytes of `v`, least significant first) and `unle`.
-/
namespace Verif

/-- A byte string (`&[u8]`, `Vec<u8>`, `[u8; N]`). -/
abbrev Bytes := List UInt8

/-- `n`-byte little-endian encoding of `v` (`to_le_bytes`); values that do not fit are truncated. -/
def le : Nat → Nat → Bytes
  | 0, _ => []
  | n + 1, v => UInt8.ofNat (v % 256) :: le n (v / 256)

/-- Little-endian decoding (`from_le_bytes`). -/
def unle : Bytes → Nat
  | [] => 0
  | b :: bs => b.toNat + 256 * unle bs

@[simp] theorem le_length (n v : Nat) : (le n v).length = n := by
  induction n generalizing v with
  | zero => rfl
  | succ n ih => simp [le, ih]

theorem unle_le (n v : Nat) : unle (le n v) = v % 256 ^ n := by
  induction n generalizing v with
  | zero => simp [le, unle, Nat.mod_one]
  | succ n ih =>
    simp only [le, unle, ih]
    have h : (UInt8.ofNat (v % 256)).toNat = v % 256 := by simp
    rw [h, Nat.pow_succ, Nat.mul_comm (256 ^ n) 256, Nat.mod_mul]

theorem unle_le_of_lt {n v : Nat} (h : v < 256 ^ n) : unle (le n v) = v := by
  rw [unle_le, Nat.mod_eq_of_lt h]

theorem unle_lt (bs : Bytes) : unle bs < 256 ^ bs.length := by
  induction bs with
  | nil => simp [unle]
  | cons b bs ih =>
    simp only [unle, List.length_cons, Nat.pow_succ]
    have := b.toNat_lt
    omega

theorem le_unle (bs : Bytes) : le bs.length (unle bs) = bs := by
  induction bs with
  | nil => rfl
  | cons b bs ih =>
    have hb := b.toNat_lt
    have h1 : (b.toNat + 256 * unle bs) % 256 = b.toNat := by omega
    have h2 : (b.toNat + 256 * unle bs) / 256 = unle bs := by omega
    simp only [List.length_cons, le, unle, h1, h2, ih]
    simp

theorem unle_inj {a b : Bytes} (hl : a.length = b.length) (h : unle a = unle b) : a = b := by
  rw [← le_unle a, ← le_unle b, hl, h]

theorem le_inj {n v w : Nat} (hv : v < 256 ^ n) (hw : w < 256 ^ n) (h : le n v = le n w) : v = w := by
  have := congrArg unle h
  rwa [unle_le_of_lt hv, unle_le_of_lt hw] at this

/-- `unle (le 8 v) = v` for a 64-bit value. -/
theorem unle_le8 {v : Nat} (h : v < 2 ^ 64) : unle (le 8 v) = v := unle_le_of_lt (by omega)
/-- `unle (le 16 v) = v` for a 128-bit value. -/
theorem unle_le16 {v : Nat} (h : v < 2 ^ 128) : unle (le 16 v) = v := unle_le_of_lt (by omega)

example : le 8 258 = [2, 1, 0, 0, 0, 0, 0, 0] := by decide
example : unle [2, 1, 0, 0, 0, 0, 0, 0] = 258 := by decide

end Verif
