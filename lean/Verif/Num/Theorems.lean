import Verif.Num.Model
import Verif.Lex.RawTheorems
/-!
C27: integers are printed and parsed exactly.
-/
namespace Verif.Num

open Lex (ascii)

/-! ### Specification -/

/-- The standard decimal digits of a number, most significant first, no leading zero. -/
def decimal (n : Nat) : Bytes :=
  if n < 10 then [UInt8.ofNat (48 + n)] else decimal (n / 10) ++ [UInt8.ofNat (48 + n % 10)]
termination_by n
decreasing_by omega

/-- The standard decimal form of an integer. -/
def decimalInt (i : Int) : Bytes := if i < 0 then 45 :: decimal i.natAbs else decimal i.natAbs

/-- The number that a string of decimal digits denotes. -/
def digitsVal (ds : Bytes) : Nat := ds.foldl (fun a b => a * 10 + (b.toNat - 48)) 0

/-- A string of decimal digits. -/
def AllDigits (ds : Bytes) : Prop := ∀ b ∈ ds, isDigit b = true

/-! ### Printer -/

theorem pair_spec (d : Nat) (h : d < 100) :
    pair d = [UInt8.ofNat (48 + d / 10), UInt8.ofNat (48 + d % 10)] := by
  have : ∀ d : Fin 100, pair d.val = [UInt8.ofNat (48 + d.val / 10), UInt8.ofNat (48 + d.val % 10)] := by
    decide +kernel
  exact this ⟨d, h⟩

/-- The four (or more) last digits, padded with zeros. -/
theorem decimal_step {n : Nat} (h : 10 ≤ n) :
    decimal n = decimal (n / 10) ++ [UInt8.ofNat (48 + n % 10)] := by
  rw [decimal, if_neg (by omega)]

theorem fmtLoop_spec (n : Nat) (acc : Bytes) :
    ∃ q t, fmtLoop n acc = (q, t ++ acc) ∧ q < 10000 ∧ decimal n = decimal q ++ t ∧ (0 < n → 0 < q) := by
  induction n using Nat.strongRecOn generalizing acc with
  | _ n ih =>
    unfold fmtLoop
    by_cases h : 10000 ≤ n
    · simp only [h, if_true]
      obtain ⟨q, t, e, hq, hd, hp⟩ := ih (n / 10000) (by omega) (pair (n % 10000 / 100) ++ pair (n % 10000 % 100) ++ acc)
      refine ⟨q, t ++ (pair (n % 10000 / 100) ++ pair (n % 10000 % 100)), by rw [e]; simp only [List.append_assoc], hq, ?_, fun _ => hp (by omega)⟩
      rw [decimal_step (by omega), decimal_step (by omega : 10 ≤ n / 10),
        decimal_step (by omega : 10 ≤ n / 10 / 10), decimal_step (by omega : 10 ≤ n / 10 / 10 / 10)]
      rw [show n / 10 / 10 / 10 / 10 = n / 10000 by omega, hd]
      rw [pair_spec _ (by omega), pair_spec _ (by omega)]
      rw [show n / 10 / 10 / 10 % 10 = n % 10000 / 100 / 10 by omega,
        show n / 10 / 10 % 10 = n % 10000 / 100 % 10 by omega,
        show n / 10 % 10 = n % 10000 % 100 / 10 by omega,
        show n % 10 = n % 10000 % 100 % 10 by omega]
      simp
    · simp only [h, if_false]
      exact ⟨n, [], by simp, by omega, by simp, id⟩

theorem fmtNat_eq (n : Nat) : fmtNat n = decimal n := by
  obtain ⟨q, t, e, hq, hd, hp⟩ := fmtLoop_spec n []
  have two : ∀ q, q < 100 → (if q < 10 then [UInt8.ofNat q + 48] else pair q) = decimal q := by
    have : ∀ q : Fin 100, (if q.val < 10 then [UInt8.ofNat q.val + 48] else pair q.val)
        = (if q.val < 10 then [UInt8.ofNat (48 + q.val)]
          else [UInt8.ofNat (48 + q.val / 10)] ++ [UInt8.ofNat (48 + q.val % 10)]) := by decide +kernel
    intro q hq
    rw [this ⟨q, hq⟩]
    simp only
    rw [decimal]
    split
    · rfl
    · rw [decimal, if_pos (by omega)]
  have two' : ∀ q acc, q < 100 → (if q < 10 then (UInt8.ofNat q + 48) :: acc else pair q ++ acc) = decimal q ++ acc := by
    intro q acc h
    rw [← two q h]
    split <;> simp
  unfold fmtNat
  rw [e, hd]
  simp only [List.append_nil]
  by_cases h : 100 ≤ q
  · simp only [h, if_true]
    rw [two' _ _ (by omega), decimal_step (by omega : 10 ≤ q), decimal_step (by omega : 10 ≤ q / 10),
      pair_spec _ (by omega)]
    rw [show q / 10 / 10 = q / 100 by omega, show q / 10 % 10 = q % 100 / 10 by omega,
      show q % 10 = q % 100 % 10 by omega]
    simp
  · simp only [h, if_false]
    exact two' _ _ (by omega)

theorem decimal_length_le {n k : Nat} (hk : 0 < k) (h : n < 10 ^ k) : (decimal n).length ≤ k := by
  induction k generalizing n with
  | zero => omega
  | succ k ih =>
    rw [decimal]
    split
    · simp
    · rename_i h10
      have : 0 < k := by
        rcases k with _ | k
        · simp at h; omega
        · omega
      have := ih this (n := n / 10) (by rw [Nat.pow_succ] at h; omega)
      simp; omega

/-- **C27, printing `u64`.** The printed form is the standard decimal form, and it fits the
20-byte buffer that the code writes into without a bounds check. -/
theorem C27_print_u64 (v : UInt64) : fmtU64 v = decimal v.toNat ∧ (fmtU64 v).length ≤ 20 := by
  refine ⟨fmtNat_eq _, ?_⟩
  unfold fmtU64
  rw [fmtNat_eq]
  have := v.toNat_lt
  exact decimal_length_le (by omega) (by omega)

theorem neg_mag (v : Int64) (h : v < 0) : (~~~ v.toUInt64 + 1).toNat = v.toInt.natAbs := by
  have e : ~~~ v.toUInt64 + 1 = (-v).toUInt64 := by
    apply UInt64.toBitVec_inj.1
    simp [BitVec.neg_eq_not_add]
  have hlt : v.toInt < 0 := by simpa [Int64.lt_iff_toInt_lt] using h
  rw [e]
  have h1 : ((-v).toUInt64).toNat = ((-v).toBitVec).toNat := rfl
  have h2 : v.toInt = v.toBitVec.toInt := rfl
  rw [h1, h2, Int64.toBitVec_neg, BitVec.toNat_neg]
  have h3 := v.toBitVec.isLt
  have h4 : 2 ^ 63 ≤ v.toBitVec.toNat := by
    rw [h2, BitVec.toInt_eq_toNat_cond] at hlt
    split at hlt <;> omega
  rw [BitVec.toInt_eq_toNat_cond, if_neg (by omega)]
  omega

theorem pos_mag (v : Int64) (h : ¬ v < 0) : v.toUInt64.toNat = v.toInt.natAbs := by
  have hlt : 0 ≤ v.toInt := by
    have : ¬ v.toInt < 0 := by simpa [Int64.lt_iff_toInt_lt] using h
    omega
  have h1 : (v.toUInt64).toNat = (v.toBitVec).toNat := rfl
  have h2 : v.toInt = v.toBitVec.toInt := rfl
  rw [h1, h2]
  have h3 := v.toBitVec.isLt
  rw [h2, BitVec.toInt_eq_toNat_cond] at hlt
  rw [BitVec.toInt_eq_toNat_cond]
  split <;> omega

/-- **C27, printing `i64`.** The standard decimal form, in at most 20 bytes. -/
theorem C27_print_i64 (v : Int64) : fmtI64 v = decimalInt v.toInt ∧ (fmtI64 v).length ≤ 20 := by
  have hiff : v < 0 ↔ v.toInt < 0 := by simp [Int64.lt_iff_toInt_lt]
  have h1 := v.toInt_lt
  have h2 := v.le_toInt
  unfold fmtI64 decimalInt
  by_cases h : v < 0
  · rw [if_pos h, if_pos (hiff.1 h), fmtNat_eq, neg_mag v h]
    have := decimal_length_le (n := v.toInt.natAbs) (k := 19) (by omega) (by omega)
    simp; omega
  · rw [if_neg h, if_neg (mt hiff.2 h), fmtNat_eq, pos_mag v h]
    have := decimal_length_le (n := v.toInt.natAbs) (k := 19) (by omega) (by omega)
    simp; omega

example : fmtI64 (-9223372036854775808) = ascii "-9223372036854775808" := by decide +kernel
example : fmtU64 18446744073709551615 = ascii "18446744073709551615" ∧ fmtU64 0 = ascii "0" := by decide +kernel

/-! ### Scanner -/

theorem digit_low (b : UInt8) (h : isDigit b = true) : (b &&& 0x0F).toNat = b.toNat - 48 ∧ b ≠ 10 := by
  exact Lex.forall_u8 (P := fun b => isDigit b = true → (b &&& 0x0F).toNat = b.toNat - 48 ∧ b ≠ 10)
    (by decide +kernel) b h

theorem low_lt (b : UInt8) : (b &&& 0x0F).toNat < 16 := by
  exact Lex.forall_u8 (P := fun b => (b &&& 0x0F).toNat < 16) (by decide +kernel) b

/-- The value of digits read after a number `a`. -/
def valFrom (a : Nat) (ds : Bytes) : Nat := ds.foldl (fun a b => a * 10 + (b.toNat - 48)) a

theorem valFrom_ge (a : Nat) (ds : Bytes) : a ≤ valFrom a ds := by
  induction ds generalizing a with
  | nil => exact Nat.le_refl _
  | cons b ds ih =>
    have := ih (a * 10 + (b.toNat - 48))
    simp only [valFrom, List.foldl_cons] at *
    omega

theorem u64Loop_spec (buf : Bytes) (ret n : Nat) (rest : Bytes) (hret : ret < 2 ^ 64) :
    u64Loop buf ret = (10 :: rest, true, n) ↔
      ∃ ds, buf = ds ++ 10 :: rest ∧ AllDigits ds ∧ n = valFrom ret ds ∧ n < 2 ^ 64 := by
  induction buf generalizing ret with
  | nil => simp [u64Loop]
  | cons b buf ih =>
    unfold u64Loop
    by_cases hb : b = 10
    · subst hb
      simp only [if_true, Prod.mk.injEq, List.cons.injEq, true_and]
      constructor
      · rintro ⟨rfl, rfl⟩
        exact ⟨[], rfl, by simp [AllDigits], rfl, hret⟩
      · rintro ⟨ds, h1, h2, h3, -⟩
        cases ds with
        | nil => simp at h1; exact ⟨h1, h3.symm⟩
        | cons d ds =>
          simp only [List.cons_append, List.cons.injEq] at h1
          have := h2 d (by simp)
          rw [← h1.1] at this; simp [isDigit] at this
    · rw [if_neg hb]
      have hcons : ∀ ds, b :: buf = ds ++ 10 :: rest → AllDigits ds → ∃ ds', ds = b :: ds' ∧
          buf = ds' ++ 10 :: rest ∧ isDigit b = true := by
        intro ds h1 h2
        cases ds with
        | nil => simp at h1; exact absurd h1.1 hb
        | cons d ds =>
          simp only [List.cons_append, List.cons.injEq] at h1
          have := h2 d (by simp)
          rw [← h1.1] at this
          exact ⟨ds, by rw [h1.1], h1.2, this⟩
      by_cases h1 : 2 ^ 64 ≤ ret * 10
      · rw [if_pos h1]
        simp only [Prod.mk.injEq, Bool.false_eq_true, false_and, and_false, false_iff]
        rintro ⟨ds, e1, e2, e3, e4⟩
        obtain ⟨ds', rfl, -, -⟩ := hcons ds e1 e2
        have := valFrom_ge (ret * 10 + (b.toNat - 48)) ds'
        simp only [valFrom, List.foldl_cons] at *
        omega
      · rw [if_neg h1]
        by_cases h2 : 2 ^ 64 ≤ ret * 10 + (b &&& 0x0F).toNat
        · rw [if_pos h2]
          simp only [Prod.mk.injEq, Bool.false_eq_true, false_and, and_false, false_iff]
          rintro ⟨ds, e1, e2, e3, e4⟩
          obtain ⟨ds', rfl, -, hd⟩ := hcons ds e1 e2
          have := valFrom_ge (ret * 10 + (b.toNat - 48)) ds'
          rw [(digit_low b hd).1] at h2
          simp only [valFrom, List.foldl_cons] at *
          omega
        · rw [if_neg h2]
          by_cases hd : isDigit b = true
          · rw [if_pos hd, ih _ (by omega)]
            constructor
            · rintro ⟨ds, rfl, e2, e3, e4⟩
              refine ⟨b :: ds, rfl, ?_, ?_, e4⟩
              · intro x hx; simp only [List.mem_cons] at hx
                rcases hx with rfl | hx
                · exact hd
                · exact e2 x hx
              · rw [e3, (digit_low b hd).1]; rfl
            · rintro ⟨ds, e1, e2, e3, e4⟩
              obtain ⟨ds', rfl, e5, -⟩ := hcons ds e1 e2
              refine ⟨ds', e5, fun x hx => e2 x (by simp [hx]), ?_, e4⟩
              rw [e3, (digit_low b hd).1]; rfl
          · rw [if_neg hd]
            simp only [Prod.mk.injEq, Bool.false_eq_true, false_and, and_false, false_iff]
            rintro ⟨ds, e1, e2, e3, e4⟩
            obtain ⟨ds', rfl, -, hd'⟩ := hcons ds e1 e2
            exact hd hd'

/-- **C27, scanning `u64`, exactly.** For every buffer: the scanner returns the number `n` and
leaves `rest` exactly if the buffer is a string of decimal digits denoting `n < 2^64`, then a line
feed, then `rest`. In particular out-of-range digit strings are rejected. -/
theorem C27_scan_u64_exact (buf rest : Bytes) (n : Nat) :
    u64Lf buf = .value n rest ↔
      ∃ ds, buf = ds ++ 10 :: rest ∧ AllDigits ds ∧ digitsVal ds = n ∧ n < 2 ^ 64 := by
  have key := u64Loop_spec buf 0 n rest (by omega)
  have : (∃ ds, buf = ds ++ 10 :: rest ∧ AllDigits ds ∧ digitsVal ds = n ∧ n < 2 ^ 64) ↔
      ∃ ds, buf = ds ++ 10 :: rest ∧ AllDigits ds ∧ n = valFrom 0 ds ∧ n < 2 ^ 64 := by
    constructor <;> rintro ⟨ds, a, b, c, d⟩ <;> exact ⟨ds, a, b, c.symm, d⟩
  rw [this, ← key]
  unfold u64Lf
  generalize u64Loop buf 0 = x at *
  obtain ⟨a, b, c⟩ := x
  simp only
  cases b with
  | false => simp
  | true =>
    simp only [if_true, Prod.mk.injEq, true_and]
    split
    · simp [and_comm]
    · rename_i h
      simp only [reduceCtorEq, false_iff, not_and]
      rintro rfl; exact absurd rfl (h rest)

theorem decimal_digits (n : Nat) : AllDigits (decimal n) := by
  induction n using Nat.strongRecOn with
  | _ n ih =>
    have hd : ∀ k : Fin 10, isDigit (UInt8.ofNat (48 + k.val)) = true := by decide +kernel
    rw [decimal]
    split
    · intro b hb; rw [List.mem_singleton] at hb; subst hb; exact hd ⟨n, by omega⟩
    · intro b hb
      simp only [List.mem_append, List.mem_singleton] at hb
      rcases hb with hb | rfl
      · exact ih (n / 10) (by omega) b hb
      · exact hd ⟨n % 10, by omega⟩

theorem digitsVal_append (a b : Bytes) : digitsVal (a ++ b) = valFrom (digitsVal a) b := by
  simp [digitsVal, valFrom, List.foldl_append]

theorem digitsVal_decimal (n : Nat) : digitsVal (decimal n) = n := by
  induction n using Nat.strongRecOn with
  | _ n ih =>
    rw [decimal]
    split
    · simp only [digitsVal, List.foldl_cons, List.foldl_nil, UInt8.toNat_ofNat']; omega
    · rw [digitsVal_append, ih (n / 10) (by omega)]
      simp only [valFrom, List.foldl_cons, List.foldl_nil, UInt8.toNat_ofNat']; omega

/-- **C27, round trip `u64`.** What the printer prints, followed by a line feed, is scanned back as
the same number, whatever follows. -/
theorem C27_roundtrip_u64 (v : UInt64) (rest : Bytes) :
    u64Lf (fmtU64 v ++ 10 :: rest) = .value v.toNat rest := by
  rw [C27_scan_u64_exact]
  exact ⟨fmtU64 v, rfl, by rw [(C27_print_u64 v).1]; exact decimal_digits _,
    by rw [(C27_print_u64 v).1]; exact digitsVal_decimal _, v.toNat_lt⟩

example : u64Lf (ascii "18446744073709551616\n") = .error ∧ u64Lf (ascii "12") = .needMore ∧
    u64Lf (ascii "007\nx") = .value 7 (ascii "x") := by decide +kernel

/-- The digits read after `a`, with a sign. -/
def sval (neg : Bool) (n : Nat) : Int := if neg then -(n : Int) else n

theorem i64Loop_spec (neg : Bool) (buf : Bytes) (a : Nat) (i : Int) (rest : Bytes)
    (ha : -2 ^ 63 ≤ sval neg a ∧ sval neg a < 2 ^ 63) :
    i64Loop neg buf (sval neg a) = (10 :: rest, true, i) ↔
      ∃ ds, buf = ds ++ 10 :: rest ∧ AllDigits ds ∧ i = sval neg (valFrom a ds) ∧
        -2 ^ 63 ≤ i ∧ i < 2 ^ 63 := by
  induction buf generalizing a with
  | nil => simp [i64Loop]
  | cons b buf ih =>
    unfold i64Loop
    by_cases hb : b = 10
    · subst hb
      simp only [if_true, Prod.mk.injEq, List.cons.injEq, true_and]
      constructor
      · rintro ⟨rfl, rfl⟩
        exact ⟨[], rfl, by simp [AllDigits], rfl, ha⟩
      · rintro ⟨ds, h1, h2, h3, -⟩
        cases ds with
        | nil => simp at h1; exact ⟨h1, h3.symm⟩
        | cons d ds =>
          simp only [List.cons_append, List.cons.injEq] at h1
          have := h2 d (by simp)
          rw [← h1.1] at this; simp [isDigit] at this
    · rw [if_neg hb]
      have hcons : ∀ ds, b :: buf = ds ++ 10 :: rest → AllDigits ds → ∃ ds', ds = b :: ds' ∧
          buf = ds' ++ 10 :: rest ∧ isDigit b = true := by
        intro ds h1 h2
        cases ds with
        | nil => simp at h1; exact absurd h1.1 hb
        | cons d ds =>
          simp only [List.cons_append, List.cons.injEq] at h1
          have := h2 d (by simp)
          rw [← h1.1] at this
          exact ⟨ds, by rw [h1.1], h1.2, this⟩
      have hs10 : sval neg a * 10 = sval neg (a * 10) := by
        unfold sval; split <;> simp <;> omega
      have hstep : (if neg = true then sval neg a * 10 - ((b &&& 0x0F).toNat : Int)
          else sval neg a * 10 + ((b &&& 0x0F).toNat : Int)) = sval neg (a * 10 + (b &&& 0x0F).toNat) := by
        rw [hs10]; unfold sval; split <;> simp <;> omega
      have hmono : ∀ m n : Nat, m ≤ n → -2 ^ 63 ≤ sval neg n → sval neg n < 2 ^ 63 →
          -2 ^ 63 ≤ sval neg m ∧ sval neg m < 2 ^ 63 := by
        intro m n h h1 h2
        unfold sval at *; split at h1 <;> simp_all <;> omega
      simp only [hstep]
      rw [hs10]
      by_cases h1 : sval neg (a * 10) < -2 ^ 63 ∨ 2 ^ 63 ≤ sval neg (a * 10)
      · rw [if_pos h1]
        simp only [Prod.mk.injEq, Bool.false_eq_true, false_and, and_false, false_iff]
        rintro ⟨ds, e1, e2, e3, e4, e5⟩
        obtain ⟨ds', rfl, -, -⟩ := hcons ds e1 e2
        have hge := valFrom_ge (a * 10 + (b.toNat - 48)) ds'
        have hv : valFrom a (b :: ds') = valFrom (a * 10 + (b.toNat - 48)) ds' := rfl
        rw [hv] at e3
        subst e3
        have := hmono (a * 10) _ (by omega) e4 e5
        omega
      · rw [if_neg h1]
        by_cases h2 : sval neg (a * 10 + (b &&& 0x0F).toNat) < -2 ^ 63 ∨
            2 ^ 63 ≤ sval neg (a * 10 + (b &&& 0x0F).toNat)
        · rw [if_pos h2]
          simp only [Prod.mk.injEq, Bool.false_eq_true, false_and, and_false, false_iff]
          rintro ⟨ds, e1, e2, e3, e4, e5⟩
          obtain ⟨ds', rfl, -, hd⟩ := hcons ds e1 e2
          have hge := valFrom_ge (a * 10 + (b.toNat - 48)) ds'
          have hv : valFrom a (b :: ds') = valFrom (a * 10 + (b.toNat - 48)) ds' := rfl
          rw [hv] at e3
          subst e3
          rw [(digit_low b hd).1] at h2
          have := hmono _ _ hge e4 e5
          omega
        · rw [if_neg h2]
          by_cases hd : isDigit b = true
          · rw [if_pos hd, ih _ (by omega)]
            constructor
            · rintro ⟨ds, rfl, e2, e3, e4⟩
              refine ⟨b :: ds, rfl, ?_, ?_, e4⟩
              · intro x hx; simp only [List.mem_cons] at hx
                rcases hx with rfl | hx
                · exact hd
                · exact e2 x hx
              · rw [e3, (digit_low b hd).1]; rfl
            · rintro ⟨ds, e1, e2, e3, e4⟩
              obtain ⟨ds', rfl, e5, -⟩ := hcons ds e1 e2
              refine ⟨ds', e5, fun x hx => e2 x (by simp [hx]), ?_, e4⟩
              rw [e3, (digit_low b hd).1]; rfl
          · rw [if_neg hd]
            simp only [Prod.mk.injEq, Bool.false_eq_true, false_and, and_false, false_iff]
            rintro ⟨ds, e1, e2, e3, e4⟩
            obtain ⟨ds', rfl, -, hd'⟩ := hcons ds e1 e2
            exact hd hd'

/-- **C27, scanning `i64`, exactly.** For every buffer: the scanner returns `i` and leaves `rest`
exactly if the buffer is an optional minus sign (without which there must be a digit), decimal
digits denoting `i` in the 64-bit range, a line feed, then `rest`. -/
theorem C27_scan_i64_exact (buf rest : Bytes) (i : Int) :
    i64Lf buf = some (i, rest) ↔
      ∃ ds, AllDigits ds ∧ -2 ^ 63 ≤ i ∧ i < 2 ^ 63 ∧
        ((buf = 45 :: ds ++ 10 :: rest ∧ i = -(digitsVal ds : Int)) ∨
         (buf = ds ++ 10 :: rest ∧ ds ≠ [] ∧ i = digitsVal ds)) := by
  cases buf with
  | nil => simp [i64Lf]
  | cons c buf =>
    unfold i64Lf
    have hopt : ∀ x : Bytes × Bool × Int,
        i64Finish x = some (i, rest) ↔ x = (10 :: rest, true, i) := by
      rintro ⟨a, b, r⟩
      constructor
      · intro h
        unfold i64Finish at h
        split at h
        · rename_i heq; cases heq; cases h; rfl
        · cases h
      · intro h; cases h; rfl
    by_cases hneg : c = 45
    · subst hneg
      simp only [decide_true, Bool.true_or, if_true]
      rw [hopt]
      have := i64Loop_spec true buf 0 i rest (by simp [sval])
      rw [show sval true 0 = 0 from rfl] at this
      rw [this]
      constructor
      · rintro ⟨ds, rfl, e2, e3, e4, e5⟩
        exact ⟨ds, e2, e4, e5, .inl ⟨rfl, by rw [e3]; rfl⟩⟩
      · rintro ⟨ds, e2, e4, e5, ⟨h1, h2⟩ | ⟨h1, h2, h3⟩⟩
        · simp only [List.cons_append, List.cons.injEq, true_and] at h1
          exact ⟨ds, h1, e2, by rw [h2]; rfl, e4, e5⟩
        · cases ds with
          | nil => exact absurd rfl h2
          | cons d ds =>
            simp only [List.cons_append, List.cons.injEq] at h1
            have := e2 d (by simp)
            rw [← h1.1] at this; simp [isDigit] at this
    · simp only [hneg, decide_false, Bool.false_or, Bool.false_eq_true, if_false]
      by_cases hd : isDigit c = true
      · rw [if_pos hd, hopt]
        have := i64Loop_spec false (c :: buf) 0 i rest (by simp [sval])
        rw [show sval false 0 = 0 from rfl] at this
        rw [this]
        constructor
        · rintro ⟨ds, e1, e2, e3, e4, e5⟩
          refine ⟨ds, e2, e4, e5, .inr ⟨e1, ?_, by rw [e3]; rfl⟩⟩
          rintro rfl
          simp only [List.nil_append, List.cons.injEq] at e1
          exact absurd e1.1 (digit_low c hd).2
        · rintro ⟨ds, e2, e4, e5, ⟨h1, h2⟩ | ⟨h1, h2, h3⟩⟩
          · simp only [List.cons_append, List.cons.injEq] at h1
            exact absurd h1.1 hneg
          · exact ⟨ds, h1, e2, by rw [h3]; rfl, e4, e5⟩
      · rw [if_neg hd]
        simp only [reduceCtorEq, false_iff]
        rintro ⟨ds, e2, e4, e5, ⟨h1, h2⟩ | ⟨h1, h2, h3⟩⟩
        · simp only [List.cons_append, List.cons.injEq] at h1
          exact absurd h1.1 hneg
        · cases ds with
          | nil => exact absurd rfl h2
          | cons d ds =>
            simp only [List.cons_append, List.cons.injEq] at h1
            have := e2 d (by simp)
            rw [← h1.1] at this; exact hd this

/-- **C27, round trip `i64`.** -/
theorem C27_roundtrip_i64 (v : Int64) (rest : Bytes) :
    i64Lf (fmtI64 v ++ 10 :: rest) = some (v.toInt, rest) := by
  rw [C27_scan_i64_exact, (C27_print_i64 v).1]
  have h1 := v.toInt_lt
  have h2 := v.le_toInt
  refine ⟨decimal v.toInt.natAbs, decimal_digits _, h2, h1, ?_⟩
  unfold decimalInt
  rw [digitsVal_decimal]
  by_cases h : v.toInt < 0
  · rw [if_pos h]; exact .inl ⟨rfl, by omega⟩
  · rw [if_neg h]
    refine .inr ⟨rfl, ?_, by omega⟩
    rw [decimal]; split <;> simp

example : i64Lf (ascii "-9223372036854775808\nab") = some (-9223372036854775808, ascii "ab") ∧
    i64Lf (ascii "9223372036854775808\n") = none ∧ i64Lf (ascii "-\n") = some (0, []) := by decide +kernel

end Verif.Num
