import Verif.Ql.Dispatch
/-!
Help for running the unit tests of the repository on the model: equality tests for the results of the
parser, and the lexer that the tests of the parser use.
-/
namespace Verif

/-! ### Equality tests for values and dictionaries -/

mutual
def Cell.same : Cell → Cell → Bool
  | .null, .null => true
  | .bool a, .bool b => a == b
  | .uint t a, .uint u b => t == u && a == b
  | .sint t a, .sint u b => t == u && a == b
  | .float t a, .float u b => t == u && a == b
  | .bin a, .bin b => a == b
  | .str a, .str b => a == b
  | .list a, .list b => Cell.sameList a b
  | _, _ => false
def Cell.sameList : List Cell → List Cell → Bool
  | [], [] => true
  | a :: as, b :: bs => Cell.same a b && Cell.sameList as bs
  | _, _ => false
end

mutual
theorem Cell.same_eq : (a b : Cell) → Cell.same a b = true → a = b
  | .null, b, h => by cases b <;> simp_all [Cell.same]
  | .bool a, b, h => by cases b <;> simp_all [Cell.same]
  | .uint t a, b, h => by cases b <;> simp_all [Cell.same]
  | .sint t a, b, h => by cases b <;> simp_all [Cell.same]
  | .float t a, b, h => by cases b <;> simp_all [Cell.same]
  | .bin a, b, h => by cases b <;> simp_all [Cell.same]
  | .str a, b, h => by cases b <;> simp_all [Cell.same]
  | .list a, b, h => by
    cases b <;> simp [Cell.same] at h
    rw [Cell.sameList_eq _ _ h]
theorem Cell.sameList_eq : (a b : List Cell) → Cell.sameList a b = true → a = b
  | [], b, h => by cases b <;> simp_all [Cell.sameList]
  | a :: as, b, h => by
    cases b with
    | nil => simp [Cell.sameList] at h
    | cons b bs =>
      simp [Cell.sameList] at h
      rw [Cell.same_eq _ _ h.1, Cell.sameList_eq _ _ h.2]
end

mutual
theorem Cell.same_refl : (a : Cell) → Cell.same a a = true
  | .null => rfl
  | .bool a => by simp [Cell.same]
  | .uint t a => by simp [Cell.same]
  | .sint t a => by simp [Cell.same]
  | .float t a => by simp [Cell.same]
  | .bin a => by simp [Cell.same]
  | .str a => by simp [Cell.same]
  | .list a => by simp [Cell.same, Cell.sameList_refl a]
theorem Cell.sameList_refl : (a : List Cell) → Cell.sameList a a = true
  | [] => rfl
  | a :: as => by simp [Cell.sameList, Cell.same_refl a, Cell.sameList_refl as]
end

instance : DecidableEq Cell := fun a b =>
  if h : Cell.same a b = true then isTrue (Cell.same_eq a b h)
  else isFalse fun e => h (e ▸ Cell.same_refl a)

mutual
def Enc.DVal.same : Enc.DVal → Enc.DVal → Bool
  | .data a, .data b => Cell.same a b
  | .map a, .map b => Enc.DVal.sameMap a b
  | _, _ => false
def Enc.DVal.sameMap : List (String × Enc.DVal) → List (String × Enc.DVal) → Bool
  | [], [] => true
  | (k, a) :: as, (l, b) :: bs => k == l && Enc.DVal.same a b && Enc.DVal.sameMap as bs
  | _, _ => false
end

mutual
theorem Enc.DVal.same_eq : (a b : Enc.DVal) → Enc.DVal.same a b = true → a = b
  | .data a, b, h => by
    cases b <;> simp [Enc.DVal.same] at h
    rw [Cell.same_eq _ _ h]
  | .map a, b, h => by
    cases b <;> simp [Enc.DVal.same] at h
    rw [Enc.DVal.sameMap_eq _ _ h]
theorem Enc.DVal.sameMap_eq : (a b : List (String × Enc.DVal)) → Enc.DVal.sameMap a b = true → a = b
  | [], b, h => by cases b <;> simp_all [Enc.DVal.sameMap]
  | (k, a) :: as, b, h => by
    cases b with
    | nil => simp [Enc.DVal.sameMap] at h
    | cons b bs =>
      obtain ⟨l, b⟩ := b
      simp [Enc.DVal.sameMap] at h
      rw [h.1.1, Enc.DVal.same_eq _ _ h.1.2, Enc.DVal.sameMap_eq _ _ h.2]
end

mutual
theorem Enc.DVal.same_refl : (a : Enc.DVal) → Enc.DVal.same a a = true
  | .data a => by simp [Enc.DVal.same, Cell.same_refl]
  | .map a => by simp [Enc.DVal.same, Enc.DVal.sameMap_refl a]
theorem Enc.DVal.sameMap_refl : (a : List (String × Enc.DVal)) → Enc.DVal.sameMap a a = true
  | [] => rfl
  | (k, a) :: as => by simp [Enc.DVal.sameMap, Enc.DVal.same_refl a, Enc.DVal.sameMap_refl as]
end

instance : DecidableEq Enc.DVal := fun a b =>
  if h : Enc.DVal.same a b = true then isTrue (Enc.DVal.same_eq a b h)
  else isFalse fun e => h (e ▸ Enc.DVal.same_refl a)

end Verif

namespace Verif.Conform
open Verif.Lex Verif.Ql

deriving instance DecidableEq for Gns.FieldSpec
deriving instance DecidableEq for Gns.Expanded
deriving instance DecidableEq for Gns.AlterKind
deriving instance DecidableEq for Gns.Stmt
deriving instance DecidableEq for Sysctl
deriving instance DecidableEq for Dml.InsData
deriving instance DecidableEq for Dml.Asn
deriving instance DecidableEq for RowStmt
deriving instance DecidableEq for RowQuery
deriving instance DecidableEq for Query
deriving instance DecidableEq for Res

/-! ### The lexer of the tests (`ql/lex/mod.rs:136-330`)

`InsecureLexer` reads literals inside of the text. No server build uses it. -/

/-- The token `IgnorableComma` of test builds is `none`. -/
abbrev TTok := Option Token

/-- The digits of an integer: `try_next_ascii_u64_stop_at::<false>` with `is_ascii_digit` as the
condition (`mem/scanner.rs:303-336`), without the check for an overflow, which is done at the end here. -/
def digits : Bytes → Nat → Nat × Bytes
  | [], n => (n, [])
  | b :: r, n => if Num.isDigit b then digits r (n * 10 + (b.toNat - 48)) else (n, b :: r)

/-- `scan_quoted_string` (`ql/lex/mod.rs:231-279`): what is inside, and the rest after the quote. -/
def quoted (q : UInt8) : Bytes → Option (Bytes × Bytes)
  | [] => none
  | b :: r =>
    if b = q then some ([], r)
    else if b = 92 then
      match r with
      | [] => none
      | c :: r => if c = q ∨ c = 92 then (quoted q r).map fun x => (c :: x.1, x.2) else none
    else (quoted q r).map fun x => (b :: x.1, x.2)

/-- Whether the next byte is a letter or a digit (line 293) or a letter (line 320). -/
def glued (alpha : Bool) : Bytes → Bool
  | [] => false
  | b :: _ => isAlpha b || (!alpha && Num.isDigit b)

/-- One token, or blanks, at the head of the text (lines 162-205): `none` for no token. -/
def insStep (b : UInt8) (r : Bytes) : Except LexError (Option TTok × Bytes) :=
  if b = 1 then .ok (some none, r)
  else if isAlpha b || b == 95 then
    .ok (some (some (wordToken (b :: r.takeWhile isIdent))), r.dropWhile isIdent)
  else if Num.isDigit b then
    match digits (b :: r) 0 with
    | (n, r) => if glued false r || 18446744073709551616 ≤ n then .error .invalidInput else .ok (some (some (.lit (.uint (UInt64.ofNat n)))), r)
  else if b = 45 then
    match r with
    | c :: _ =>
      if Num.isDigit c then
        match digits r 0 with
        | (n, r) => if glued true r || 9223372036854775808 < n then .error .invalidInput else .ok (some (some (.lit (.sint (Int64.ofInt (-n))))), r)
      else .ok (some (some (.sym .opArithmeticSub)), r)
    | [] => .ok (some (some (.sym .opArithmeticSub)), r)
  else if b = 13 then
    match (Num.u64LfOpt r).bind fun (n, r) => block n r with
    | some (x, r) => .ok (some (some (.lit (.bin x))), r)
    | none => .error .invalidInput
  else if b = 34 ∨ b = 39 then
    match (quoted b r).bind fun x => (decStr x.1).map fun s => (s, x.2) with
    | some (s, r) => .ok (some (some (.lit (.str s))), r)
    | none => .error .invalidInput
  else if isBlank b then .ok (none, r.dropWhile isBlank)
  else
    match Symbol.get b with
    | some s => .ok (some (some (.sym s)), r)
    | none => .error .unexpectedByte

/-- `InsecureLexer::_lex`; the first argument is at least the length of the text, and every step takes at
least one byte (`insLoop_enough`). -/
def insLoop : Nat → Bytes → Except LexError (List TTok)
  | _, [] => .ok []
  | 0, _ :: _ => .error .invalidInput
  | n + 1, b :: r =>
    match insStep b r with
    | .error e => .error e
    | .ok (t, r) =>
      match insLoop n r with
      | .error e => .error e
      | .ok ts => .ok (t.toList ++ ts)

theorem digits_le : (b : Bytes) → (n : Nat) → (digits b n).2.length ≤ b.length
  | [], n => by simp [digits]
  | b :: r, n => by
    simp only [digits]
    split
    · have := digits_le r (n * 10 + (b.toNat - 48)); simp; omega
    · simp

theorem quoted_le (q : UInt8) : (b : Bytes) → (x : Bytes × Bytes) → quoted q b = some x → x.2.length ≤ b.length
  | [], x, h => by simp [quoted] at h
  | b :: r, x, h => by
    unfold quoted at h
    split at h
    · cases h; simp
    · split at h
      · split at h
        · cases h
        · rename_i c r'
          split at h
          · cases hq : quoted q r' with
            | none => rw [hq] at h; cases h
            | some y =>
              rw [hq] at h; cases h
              have := quoted_le q r' y hq
              simp; omega
          · cases h
      · cases hq : quoted q r with
        | none => rw [hq] at h; cases h
        | some y =>
          rw [hq] at h; cases h
          have := quoted_le q r y hq
          simp; omega

theorem u64Loop_le : (b : Bytes) → (n : Nat) → (Num.u64Loop b n).1.length ≤ b.length
  | [], n => by simp [Num.u64Loop]
  | b :: r, n => by
    unfold Num.u64Loop
    split
    · simp
    · split
      · simp
      · split
        · simp
        · split
          · have := u64Loop_le r (n * 10 + (b &&& 0x0F).toNat)
            simp only [List.length_cons]; omega
          · simp

theorem u64LfOpt_le {b : Bytes} {x : Nat × Bytes} (h : Num.u64LfOpt b = some x) : x.2.length ≤ b.length := by
  have hl := u64Loop_le b 0
  unfold Num.u64LfOpt Num.u64Lf at h
  cases hu : Num.u64Loop b 0 with
  | mk rest y =>
    obtain ⟨o, n⟩ := y
    rw [hu] at h hl
    simp only at h hl
    cases o with
    | false => simp at h
    | true =>
      simp only [if_true] at h
      cases rest with
      | nil => simp at h
      | cons c rest =>
        by_cases hc : c = 10
        · subst hc
          simp at h
          subst h
          simp at hl ⊢; omega
        · split at h
          · rename_i hm
            split at hm
            · rename_i hh; cases hh; exact absurd rfl hc
            · cases hm
          · cases h

theorem insStep_le {b : UInt8} {r : Bytes} {x : Option TTok × Bytes} (h : insStep b r = .ok x) :
    x.2.length ≤ r.length := by
  unfold insStep at h
  split at h
  · cases h; simp
  split at h
  · cases h; exact dropWhile_le _
  split at h
  · rename_i hd
    have hl : (digits (b :: r) 0).2.length ≤ r.length := by
      simp only [digits, hd, if_true]; exact digits_le _ _
    revert h hl
    cases digits (b :: r) 0 with
    | mk n y =>
      intro h hl
      simp only at h hl
      split at h
      · cases h
      · cases h; exact hl
  split at h
  · split at h
    · rename_i c r'
      split at h
      · have hl := digits_le (c :: r') 0
        revert h hl
        cases digits (c :: r') 0 with
        | mk n y =>
          intro h hl
          simp only at h hl
          split at h
          · cases h
          · cases h; exact hl
      · cases h; simp
    · cases h; simp
  split at h
  · cases hu : Num.u64LfOpt r with
    | none => rw [hu] at h; cases h
    | some y =>
      obtain ⟨n, y⟩ := y
      have hy := u64LfOpt_le hu
      rw [hu] at h
      simp only [Option.bind, block] at h
      split at h
      · rename_i hb
        split at hb
        · cases hb; cases h; simp at hy ⊢; omega
        · cases hb
      · cases h
  split at h
  · cases hq : quoted b r with
    | none => rw [hq] at h; cases h
    | some y =>
      have hy := quoted_le b r y hq
      rw [hq] at h
      cases hs : decStr y.1 with
      | none => simp [hs] at h
      | some s => simp [hs] at h; subst h; exact hy
  split at h
  · cases h; exact dropWhile_le _
  split at h
  · cases h; simp
  · cases h

/-- More steps than bytes change nothing. -/
theorem insLoop_enough : (n : Nat) → (t : Bytes) → t.length ≤ n → (k : Nat) → insLoop (n + k) t = insLoop n t
  | n, [], _, k => by cases h : n + k <;> cases n <;> simp [insLoop]
  | 0, b :: r, h, k => by simp at h
  | n + 1, b :: r, h, k => by
    rw [show n + 1 + k = (n + k) + 1 by omega]
    simp only [insLoop]
    cases hs : insStep b r with
    | error e => rfl
    | ok x =>
      have := insStep_le hs
      simp only [List.length_cons] at h
      simp only [insLoop_enough n x.2 (by omega) k]

/-- `lex_insecure` with the test token. -/
def lexFuzz (text : String) : Except LexError (List TTok) := insLoop (encStr text).length (encStr text)

/-- `lex_insecure` of a text without it. -/
def lexIns (text : String) : Except LexError (List Token) :=
  match lexFuzz text with
  | .ok ts => .ok (ts.filterMap id)
  | .error e => .error e

end Verif.Conform
