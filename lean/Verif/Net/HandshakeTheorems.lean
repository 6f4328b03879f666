import Verif.Net.Handshake
import Verif.Num.Theorems
/-!
C24 and C25: the client handshake.
-/
namespace Verif.Net

open Num (isDigit AllDigits digitsVal valFrom decimal digit_low valFrom_ge u64Lf u64Loop)
open Lex (ascii)

/-! ### Specification -/

/-- The bytes of a client handshake: `H`, five zero bytes (versions and modes), the lengths of user
name and password, the user name, the password. -/
def hello (uname pwd : Bytes) : Bytes :=
  [72, 0, 0, 0, 0, 0] ++ (decimal uname.length ++ 10 :: (decimal pwd.length ++ 10 :: (uname ++ pwd)))

/-! ### Scanning lengths -/

theorem u64Loop_digits {ds : Bytes} (hd : AllDigits ds) {acc : Nat} (hv : valFrom acc ds < 2 ^ 64) :
    u64Loop ds acc = ([], true, valFrom acc ds) := by
  induction ds generalizing acc with
  | nil => rfl
  | cons d ds ih =>
    have hdd := hd d (by simp)
    have hl := digit_low d hdd
    have hge := valFrom_ge (acc * 10 + (d.toNat - 48)) ds
    have hv' : valFrom (acc * 10 + (d.toNat - 48)) ds < 2 ^ 64 := hv
    rw [u64Loop, if_neg hl.2, hl.1, if_neg (by omega), if_neg (by omega), if_pos hdd]
    exact ih (fun b hb => hd b (by simp [hb])) hv'

theorem u64Lf_digits {ds : Bytes} (hd : AllDigits ds) (hv : digitsVal ds < 2 ^ 64) :
    u64Lf ds = .needMore := by
  unfold u64Lf
  rw [u64Loop_digits hd hv]
  rfl

theorem u64Lf_prefix {n : Nat} (hn : n < 2 ^ 64) {x : Bytes} (h : x <+: decimal n) : u64Lf x = .needMore := by
  obtain ⟨t, ht⟩ := h
  have hd := Num.decimal_digits n
  have hv := Num.digitsVal_decimal n
  rw [← ht] at hd hv
  rw [Num.digitsVal_append] at hv
  have := valFrom_ge (digitsVal x) t
  exact u64Lf_digits (fun b hb => hd b (by simp [hb])) (by omega)

theorem u64Lf_decimal {n : Nat} (hn : n < 2 ^ 64) (rest : Bytes) :
    u64Lf (decimal n ++ 10 :: rest) = .value n rest :=
  (Num.C27_scan_u64_exact _ _ _).2 ⟨_, rfl, Num.decimal_digits n, Num.digitsVal_decimal n, hn⟩

/-- A prefix of a length field and what follows it: inside the digits, or past the line feed. -/
theorem field_prefix {x A B : Bytes} (h : x <+: A ++ 10 :: B) :
    x <+: A ∨ ∃ y, x = A ++ 10 :: y ∧ y <+: B := by
  obtain ⟨t, ht⟩ := h
  rcases List.append_eq_append_iff.1 ht with ⟨u, hu, -⟩ | ⟨d, hd, hd'⟩
  · exact .inl ⟨u, hu.symm⟩
  · cases d with
    | nil => exact .inl ⟨[], by simp at hd; simp [hd]⟩
    | cons c d =>
      simp only [List.cons_append, List.cons.injEq] at hd'
      exact .inr ⟨d, by rw [hd, hd'.1], ⟨t, hd'.2.symm⟩⟩

/-! ### Invariant of a handshake under way -/

section
variable (u p : Bytes)

/-- The six static bytes. -/
def h6 : Bytes := [72, 0, 0, 0, 0, 0]

/-- Where the server stands after it has received the strict prefix `r`. -/
inductive HsInv : Bytes → HsConn → Prop where
  | init (r : Bytes) : r.length < 6 → HsInv r ⟨r, 6, .initial, 0⟩
  | static (x : Bytes) : HsInv (h6 ++ x) ⟨h6 ++ x, 4, .staticBlock, 6⟩
  | expectMeta (x : Bytes) : HsInv (h6 ++ (decimal u.length ++ 10 :: x))
      ⟨h6 ++ (decimal u.length ++ 10 :: x), (u.length + 2) % 2 ^ 64, .expectMeta u.length,
        6 + (decimal u.length).length + 1⟩
  | expectVar (x : Bytes) : HsInv (h6 ++ (decimal u.length ++ 10 :: (decimal p.length ++ 10 :: x)))
      ⟨h6 ++ (decimal u.length ++ 10 :: (decimal p.length ++ 10 :: x)), (u.length + p.length) % 2 ^ 64,
        .expectVar u.length p.length, 6 + (decimal u.length).length + 1 + (decimal p.length).length + 1⟩

/-- The right result of a resume with the prefix `r` of the handshake. -/
def HsGood (r : Bytes) (res : HsResult) : Prop :=
  (r = hello u p ∧ res = .completed u p r.length) ∨
  (r ≠ hello u p ∧ ∃ s e cur, res = .change s e cur ∧ HsInv u p r ⟨r, e, s, cur⟩)

theorem hello_eq : hello u p = h6 ++ (decimal u.length ++ 10 :: (decimal p.length ++ 10 :: (u ++ p))) := rfl

theorem hello_length : (hello u p).length =
    6 + (decimal u.length).length + 1 + (decimal p.length).length + 1 + u.length + p.length := by
  rw [hello_eq]; simp [h6]; omega

theorem dec_pos (n : Nat) : 1 ≤ (decimal n).length := by rw [decimal]; split <;> simp

variable (hlen : (hello u p).length < 2 ^ 64)
include hlen

theorem good_payload (x : Bytes) (hx : x <+: u ++ p) :
    HsGood u p (h6 ++ (decimal u.length ++ 10 :: (decimal p.length ++ 10 :: x)))
      (resumePayload (h6 ++ (decimal u.length ++ 10 :: (decimal p.length ++ 10 :: x))).length x
        u.length p.length) := by
  have hl := hello_length u p
  obtain ⟨t, ht⟩ := hx
  have hxl : x.length + t.length = u.length + p.length := by
    have := congrArg List.length ht; simpa using this
  have hcur : (h6 ++ (decimal u.length ++ 10 :: (decimal p.length ++ 10 :: x))).length - x.length =
      6 + (decimal u.length).length + 1 + (decimal p.length).length + 1 := by
    simp only [List.length_append, List.length_cons, h6, List.length_nil]; omega
  unfold resumePayload
  simp only [hcur]
  rw [Nat.mod_eq_of_lt (by omega)]
  by_cases h0 : t = []
  · subst h0
    simp only [List.append_nil] at ht
    subst ht
    left
    refine ⟨rfl, ?_⟩
    simp only [List.length_append, Nat.le_refl, if_true, List.take_left, List.drop_left, List.take_length]
    simp [h6]
    omega
  · right
    have h0l : 0 < t.length := List.length_pos_iff.2 h0
    rw [if_neg (by omega)]
    refine ⟨?_, _, _, _, rfl, ?_⟩
    · intro e
      have := congrArg List.length e
      rw [hello_length] at this
      simp only [List.length_append, List.length_cons, h6, List.length_nil] at this
      omega
    · have := HsInv.expectVar (u := u) (p := p) x
      rw [Nat.mod_eq_of_lt (by omega)] at this
      exact this

theorem good_meta2 (x : Bytes) (hx : x <+: decimal p.length ++ 10 :: (u ++ p)) :
    HsGood u p (h6 ++ (decimal u.length ++ 10 :: x))
      (resumeMeta2 (h6 ++ (decimal u.length ++ 10 :: x)).length x u.length) := by
  have hl := hello_length u p
  have hcur : (h6 ++ (decimal u.length ++ 10 :: x)).length - x.length = 6 + (decimal u.length).length + 1 := by
    simp only [List.length_append, List.length_cons, h6, List.length_nil]; omega
  unfold resumeMeta2
  rcases field_prefix hx with hx | ⟨y, rfl, hy⟩
  · rw [u64Lf_prefix (by omega) hx]
    right
    simp only [hcur]
    refine ⟨?_, _, _, _, rfl, .expectMeta x⟩
    intro e
    have h1 := congrArg List.length e
    obtain ⟨t, ht⟩ := hx
    have h2 := congrArg List.length ht
    rw [hello_length] at h1
    simp only [List.length_append, List.length_cons, h6, List.length_nil] at h1 h2
    omega
  · rw [u64Lf_decimal (by omega)]
    exact good_payload u p hlen y hy

theorem good_meta1 (x : Bytes) (hx : x <+: decimal u.length ++ 10 :: (decimal p.length ++ 10 :: (u ++ p))) :
    HsGood u p (h6 ++ x) (resumeMeta1 (h6 ++ x).length x) := by
  have hl := hello_length u p
  have hu := dec_pos u.length
  have hp := dec_pos p.length
  have hcur : (h6 ++ x).length - x.length = 6 := by simp [h6]; omega
  unfold resumeMeta1
  rw [hcur]
  by_cases h4 : x.length < 4
  · rw [if_pos h4]
    right
    refine ⟨?_, _, _, _, rfl, .static x⟩
    intro e
    have h1 := congrArg List.length e
    rw [hello_length] at h1
    simp only [List.length_append, h6, List.length_cons, List.length_nil] at h1
    omega
  · rw [if_neg h4]
    rcases field_prefix hx with hx | ⟨y, rfl, hy⟩
    · rw [u64Lf_prefix (by omega) hx]
      right
      refine ⟨?_, _, _, _, rfl, .static x⟩
      intro e
      have h1 := congrArg List.length e
      obtain ⟨t, ht⟩ := hx
      have h2 := congrArg List.length ht
      rw [hello_length] at h1
      simp only [List.length_append, List.length_cons, h6, List.length_nil] at h1 h2
      omega
    · rw [u64Lf_decimal (by omega)]
      exact good_meta2 u p hlen y hy

theorem good_initial (r : Bytes) (h6r : 6 ≤ r.length) (hr : r <+: hello u p) :
    HsGood u p r (resumeInitial r.length r) := by
  have hsplit : r.take 6 = h6 := by
    obtain ⟨t, ht⟩ := hr
    have : (r ++ t).take 6 = h6 := by rw [ht, hello_eq]; rfl
    rwa [List.take_append_of_le_length h6r] at this
  have hr2 : r = h6 ++ r.drop 6 := by rw [← hsplit, List.take_append_drop]
  unfold resumeInitial
  rw [hsplit]
  have hfl : hsFlags h6 = 0 := by decide
  simp only [hfl, ne_eq, not_true, if_false]
  generalize r.drop 6 = x at *
  subst hr2
  rw [hello_eq, List.prefix_append_right_inj] at hr
  exact good_meta1 u p hlen x hr

theorem feed_hello (r : Bytes) (c : HsConn) (h : HsInv u p r c) (chunk : Bytes)
    (hp : r ++ chunk <+: hello u p) :
    (r ++ chunk = hello u p ∧ c.feed chunk = .done u p []) ∨
    (r ++ chunk ≠ hello u p ∧ ∃ c', c.feed chunk = .more c' ∧ HsInv u p (r ++ chunk) c') := by
  have hl := hello_length u p
  have hu := dec_pos u.length
  have hpp := dec_pos p.length
  have hfin : ∀ {c : HsConn} {r : Bytes}, c.buf = r → ¬ (r ++ chunk).length < c.expected →
      HsGood u p (r ++ chunk) (hsResume (r ++ chunk) c.cursor c.state) →
      (r ++ chunk = hello u p ∧ c.feed chunk = .done u p []) ∨
      (r ++ chunk ≠ hello u p ∧ ∃ c', c.feed chunk = .more c' ∧ HsInv u p (r ++ chunk) c') := by
    intro c r hbuf hge hg
    unfold HsConn.feed
    simp only [hbuf]
    rw [if_neg hge]
    rcases hg with ⟨h1, h2⟩ | ⟨h1, s, e, cur, h2, h3⟩
    · left; rw [h2]; refine ⟨h1, ?_⟩; simp only [List.drop_length]
    · right; rw [h2]; exact ⟨h1, _, rfl, h3⟩
  have hpend : ∀ {c : HsConn} {r : Bytes}, c.buf = r → (r ++ chunk).length < c.expected →
      c.expected ≤ (hello u p).length →
      HsInv u p (r ++ chunk) { c with buf := r ++ chunk } →
      (r ++ chunk = hello u p ∧ c.feed chunk = .done u p []) ∨
      (r ++ chunk ≠ hello u p ∧ ∃ c', c.feed chunk = .more c' ∧ HsInv u p (r ++ chunk) c') := by
    intro c r hbuf hlt hle hi
    right
    refine ⟨fun e => by rw [e] at hlt; omega, _, ?_, hi⟩
    unfold HsConn.feed
    simp only [hbuf]
    rw [if_pos hlt]
  cases h with
  | init r hr =>
    by_cases hc : (r ++ chunk).length < 6
    · exact hpend rfl hc (by simp only; omega) (.init _ hc)
    · refine hfin rfl hc ?_
      simp only [hsResume, List.drop_zero]
      exact good_initial u p hlen _ (by omega) hp
  | static x =>
    by_cases hc : (h6 ++ x ++ chunk).length < 4
    · simp [h6] at hc; omega
    · refine hfin rfl hc ?_
      simp only [hsResume]
      rw [List.append_assoc] at hp ⊢
      rw [show (h6 ++ (x ++ chunk)).drop 6 = x ++ chunk from rfl]
      rw [hello_eq, List.prefix_append_right_inj] at hp
      exact good_meta1 u p hlen _ hp
  | expectMeta x =>
    have hassoc : h6 ++ (decimal u.length ++ 10 :: x) ++ chunk = h6 ++ (decimal u.length ++ 10 :: (x ++ chunk)) := by
      simp
    by_cases hc : (h6 ++ (decimal u.length ++ 10 :: x) ++ chunk).length < (u.length + 2) % 2 ^ 64
    · refine hpend rfl hc ?_ ?_
      · have := Nat.mod_le (u.length + 2) (2 ^ 64); simp only; omega
      · rw [hassoc]; exact .expectMeta (x ++ chunk)
    · refine hfin rfl hc ?_
      rw [hassoc] at hp ⊢
      simp only [hsResume]
      have hdrop : (h6 ++ (decimal u.length ++ 10 :: (x ++ chunk))).drop (6 + (decimal u.length).length + 1) =
          x ++ chunk := by
        rw [show h6 ++ (decimal u.length ++ 10 :: (x ++ chunk)) = (h6 ++ (decimal u.length ++ [10])) ++ (x ++ chunk)
          by simp]
        exact List.drop_left' (by simp [h6]; omega)
      rw [hdrop]
      rw [hello_eq, List.prefix_append_right_inj, List.prefix_append_right_inj, List.cons_prefix_cons] at hp
      exact good_meta2 u p hlen _ hp.2
  | expectVar x =>
    have hassoc : h6 ++ (decimal u.length ++ 10 :: (decimal p.length ++ 10 :: x)) ++ chunk =
        h6 ++ (decimal u.length ++ 10 :: (decimal p.length ++ 10 :: (x ++ chunk))) := by simp
    by_cases hc : (h6 ++ (decimal u.length ++ 10 :: (decimal p.length ++ 10 :: x)) ++ chunk).length <
        (u.length + p.length) % 2 ^ 64
    · refine hpend rfl hc ?_ ?_
      · have := Nat.mod_le (u.length + p.length) (2 ^ 64); simp only; omega
      · rw [hassoc]; exact .expectVar (x ++ chunk)
    · refine hfin rfl hc ?_
      rw [hassoc] at hp ⊢
      simp only [hsResume]
      have hdrop : (h6 ++ (decimal u.length ++ 10 :: (decimal p.length ++ 10 :: (x ++ chunk)))).drop
          (6 + (decimal u.length).length + 1 + (decimal p.length).length + 1) = x ++ chunk := by
        rw [show h6 ++ (decimal u.length ++ 10 :: (decimal p.length ++ 10 :: (x ++ chunk))) =
          (h6 ++ (decimal u.length ++ 10 :: (decimal p.length ++ [10]))) ++ (x ++ chunk) by simp]
        exact List.drop_left' (by simp [h6]; omega)
      rw [hdrop]
      rw [hello_eq, List.prefix_append_right_inj, List.prefix_append_right_inj, List.cons_prefix_cons,
        List.prefix_append_right_inj, List.cons_prefix_cons] at hp
      exact good_payload u p hlen _ hp.2.2

theorem run_hello (r : Bytes) (c : HsConn) (h : HsInv u p r c) (chunks : List Bytes)
    (hne : ∀ x ∈ chunks, x ≠ []) (hr : r ≠ hello u p) (hp : r ++ chunks.flatten = hello u p)
    (more : List Bytes) : c.run (chunks ++ more) = (.done u p [], more) := by
  induction chunks generalizing r c with
  | nil => simp at hp; exact absurd hp hr
  | cons x xs ih =>
    have hpre : r ++ x <+: hello u p := ⟨xs.flatten, by simpa using hp⟩
    simp only [List.cons_append, HsConn.run]
    rcases feed_hello u p hlen r c h x hpre with ⟨h1, h2⟩ | ⟨h1, c', h2, h3⟩
    · rw [h2]
      have hnil : xs = [] := by
        have e : (r ++ x) ++ xs.flatten = r ++ x := by rw [List.append_assoc, ← List.flatten_cons, hp, h1]
        have e : xs.flatten = [] := List.append_right_eq_self.1 e
        cases xs with
        | nil => rfl
        | cons y ys =>
          have hy := hne y (by simp)
          simp only [List.flatten_cons, List.append_eq_nil_iff] at e
          exact absurd e.1 hy
      subst hnil
      rfl
    · rw [h2]
      exact ih (r ++ x) c' h3 (fun y hy => hne y (by simp [hy])) h1 (by simpa using hp)

end

/-! ### Property theorems -/

/-- **C24.** However the network splits a well-formed handshake into non-empty reads, the server
ends up with exactly this user name and this password, nothing is left over, and the reads that
follow are those that come after the handshake. -/
theorem C24_split_independent (uname pwd : Bytes) (hlen : (hello uname pwd).length < 2 ^ 64)
    (reads more : List Bytes) (hne : ∀ x ∈ reads, x ≠ []) (hsplit : reads.flatten = hello uname pwd) :
    HsConn.run {} (reads ++ more) = (.done uname pwd [], more) :=
  run_hello uname pwd hlen [] {} (.init [] (by simp)) reads hne (by rw [hello_eq]; simp [h6])
    (by simpa using hsplit) more

example : hello (ascii "root") (ascii "pw") = [72, 0, 0, 0, 0, 0] ++ ascii "4\n2\nrootpw" ∧
    HsConn.run {} [[72, 0], [0, 0, 0], [0] ++ ascii "4\n2", ascii "\nro", ascii "otp", ascii "w"] =
      (.done (ascii "root") (ascii "pw") [], []) := by decide +kernel

/-- **C25 is violated: a panic before authentication.** Any six bytes for which the numbers of the
invalid fields or to seven make the server index its error table out of range. -/
theorem C25_invalid_fields_panic_violated (b : Bytes) (hb : b.length = 6) (h7 : hsFlags b = 7) :
    HsConn.run {} [b] = (.panic, []) := by
  have ht : b.take 6 = b := by rw [← hb]; exact List.take_length
  simp [HsConn.run, HsConn.feed, hb, hsResume, resumeInitial, ht, h7, hsErrors]

/-- For example a web browser that talks to the port. -/
example : HsConn.run {} [ascii "GET / HTTP/1.1"] = (.panic, []) := by decide +kernel

/-- **C25 is violated: a read outside the received bytes before authentication.** The two lengths
add up to `2^64`, which the server computes as 0: it then builds a user name of `2^64 - 1` bytes. -/
theorem C25_length_overflow_reads_out_of_bounds_violated :
    HsConn.run {} [[72, 0, 0, 0, 0, 0] ++ ascii "18446744073709551615\n1\n"] = (.oob, []) := by
  decide +kernel

/-! ### What holds for every byte stream -/

/-- The invalid fields among the six static bytes, in order: the first byte is not `H`, or one of
the other five is not zero. -/
def invalidFields (b : Bytes) : List Nat :=
  (List.range 6).filter fun i => if i = 0 then (b[0]?).getD 0 != 72 else (b[i]?).getD 0 != 0

/-- The error that the protocol assigns to a field. -/
def fieldError : Nat → HsError
  | 0 => .corrupted | 1 => .hsVersion | 2 => .protocol | 3 => .exchangeMode | 4 => .queryMode | _ => .auth

theorem hsFlags_eq (b0 b1 b2 b3 b4 b5 : UInt8) :
    hsFlags [b0, b1, b2, b3, b4, b5] =
      ((if b0 ≠ 72 then 1 else 0) ||| (if b1 ≠ 0 then 2 else 0) ||| (if b2 ≠ 0 then 3 else 0) |||
        (if b3 ≠ 0 then 4 else 0) ||| (if b4 ≠ 0 then 5 else 0) ||| (if b5 ≠ 0 then 6 else 0)) := by
  have h : ∀ b : UInt8, b > 0 ↔ b ≠ 0 := Lex.forall_u8 (by decide +kernel)
  simp [hsFlags, h]

theorem flags_one_invalid (b : Bytes) (hb : b.length = 6) :
    (invalidFields b = [] → hsFlags b = 0) ∧
    (∀ i, invalidFields b = [i] → hsFlags b = i + 1 ∧ hsErrors[i]? = some (fieldError i)) := by
  match b, hb with
  | [b0, b1, b2, b3, b4, b5], _ =>
    rw [hsFlags_eq]
    have hr : List.range 6 = [0, 1, 2, 3, 4, 5] := rfl
    by_cases h0 : b0 = 72 <;> by_cases h1 : b1 = 0 <;> by_cases h2 : b2 = 0 <;> by_cases h3 : b3 = 0 <;>
      by_cases h4 : b4 = 0 <;> by_cases h5 : b5 = 0 <;>
      simp [invalidFields, hr, List.filter_cons, h0, h1, h2, h3, h4, h5] <;>
      decide

/-- The bytes are the beginning of a handshake that announces a user name of `u` and a password of
`p` bytes. -/
def Announces (buf : Bytes) (u p : Nat) (rest : Bytes) : Prop :=
  ∃ b6 ds es, buf = b6 ++ (ds ++ 10 :: (es ++ 10 :: rest)) ∧ b6.length = 6 ∧ invalidFields b6 = [] ∧
    AllDigits ds ∧ AllDigits es ∧ digitsVal ds = u ∧ digitsVal es = p

/-- Consistency of the state of a handshake with the bytes received. -/
structure HsSound (c : HsConn) : Prop where
  cur : c.cursor ≤ c.buf.length
  shape : match c.state with
    | .initial => c.cursor = 0 ∧ c.expected = 6
    | .staticBlock => ∃ b6, c.buf.take c.cursor = b6 ∧ b6.length = 6 ∧ invalidFields b6 = []
    | .expectMeta u => ∃ b6 ds, c.buf.take c.cursor = b6 ++ (ds ++ [10]) ∧ b6.length = 6 ∧
        invalidFields b6 = [] ∧ AllDigits ds ∧ digitsVal ds = u
    | .expectVar u p => ∃ b6 ds es, c.buf.take c.cursor = b6 ++ (ds ++ 10 :: (es ++ [10])) ∧ b6.length = 6 ∧
        invalidFields b6 = [] ∧ AllDigits ds ∧ AllDigits es ∧ digitsVal ds = u ∧ digitsVal es = p

/-- What a resume may do with the bytes `buf`. -/
def HsSoundRes (buf : Bytes) : HsResult → Prop
  | .completed u p cur => ∃ rest, Announces buf u.length p.length (u ++ p ++ rest) ∧ buf.drop cur = rest
  | .change s e cur => HsSound ⟨buf, e, s, cur⟩
  | .error _ => True
  | .panic => 2 ≤ (invalidFields (buf.take 6)).length
  | .oob => ∃ u p rest, Announces buf u p rest ∧ 2 ^ 64 ≤ u + p

theorem hsSound_payload (b6 ds es rest : Bytes) (h1 : b6.length = 6) (h2 : invalidFields b6 = [])
    (h3 : AllDigits ds) (h4 : AllDigits es) (hlen : rest.length < 2 ^ 64) :
    HsSoundRes (b6 ++ (ds ++ 10 :: (es ++ 10 :: rest)))
      (resumePayload (b6 ++ (ds ++ 10 :: (es ++ 10 :: rest))).length rest (digitsVal ds) (digitsVal es)) := by
  have hcur : (b6 ++ (ds ++ 10 :: (es ++ 10 :: rest))).length - rest.length =
      b6.length + ds.length + 1 + es.length + 1 := by simp; omega
  have hre : b6 ++ (ds ++ 10 :: (es ++ 10 :: rest)) = (b6 ++ (ds ++ 10 :: (es ++ [10]))) ++ rest := by simp
  have hrel : (b6 ++ (ds ++ 10 :: (es ++ [10]))).length = b6.length + ds.length + 1 + es.length + 1 := by
    simp; omega
  unfold resumePayload
  simp only [hcur]
  split
  · split
    · rename_i hle
      refine ⟨(rest.drop (digitsVal ds)).drop (digitsVal es), ⟨b6, ds, es, ?_, h1, h2, h3, h4, ?_, ?_⟩, ?_⟩
      · rw [List.append_assoc, List.take_append_drop, List.take_append_drop]
      · rw [List.length_take]; omega
      · rw [List.length_take, List.length_drop]; omega
      · rw [hre, Nat.add_assoc _ (digitsVal ds), ← hrel, List.drop_append, List.drop_eq_nil_of_le (by omega)]
        simp
    · rename_i hgt
      refine ⟨_, _, rest, ⟨b6, ds, es, rfl, h1, h2, h3, h4, rfl, rfl⟩, ?_⟩
      rename_i hle
      apply Nat.le_of_not_lt
      intro hlt
      rw [Nat.mod_eq_of_lt hlt] at hle
      omega
  · refine ⟨by simp; omega, b6, ds, es, ?_, h1, h2, h3, h4, rfl, rfl⟩
    simp only
    rw [hre]
    exact List.take_left' hrel

theorem hsSound_meta2 (b6 ds rest : Bytes) (h1 : b6.length = 6) (h2 : invalidFields b6 = [])
    (h3 : AllDigits ds) (hlen : rest.length < 2 ^ 64) :
    HsSoundRes (b6 ++ (ds ++ 10 :: rest))
      (resumeMeta2 (b6 ++ (ds ++ 10 :: rest)).length rest (digitsVal ds)) := by
  have hcur : (b6 ++ (ds ++ 10 :: rest)).length - rest.length = b6.length + ds.length + 1 := by simp; omega
  unfold resumeMeta2
  split
  · rename_i p rest' hv
    obtain ⟨es, rfl, e2, e3, -⟩ := (Num.C27_scan_u64_exact _ _ _).1 hv
    subst e3
    exact hsSound_payload b6 ds es rest' h1 h2 h3 e2 (by simp at hlen; omega)
  · rw [hcur]
    refine ⟨by simp; omega, b6, ds, ?_, h1, h2, h3, rfl⟩
    simp only
    rw [show b6 ++ (ds ++ 10 :: rest) = (b6 ++ (ds ++ [10])) ++ rest by simp]
    exact List.take_left' (by simp; omega)
  · trivial

theorem hsSound_meta1 (b6 rest : Bytes) (h1 : b6.length = 6) (h2 : invalidFields b6 = [])
    (hlen : rest.length < 2 ^ 64) :
    HsSoundRes (b6 ++ rest) (resumeMeta1 (b6 ++ rest).length rest) := by
  have hcur : (b6 ++ rest).length - rest.length = b6.length := by simp
  have hst : HsSoundRes (b6 ++ rest) (.change .staticBlock 4 b6.length) :=
    ⟨by simp, b6, List.take_left, h1, h2⟩
  unfold resumeMeta1
  rw [hcur]
  split
  · exact hst
  · split
    · exact hst
    · rename_i u rest' hv
      obtain ⟨ds, rfl, e2, e3, -⟩ := (Num.C27_scan_u64_exact _ _ _).1 hv
      subst e3
      exact hsSound_meta2 b6 ds rest' h1 h2 e2 (by simp at hlen; omega)
    · trivial

theorem hsSound_initial (buf : Bytes) (h6 : 6 ≤ buf.length) (hlen : buf.length < 2 ^ 64) :
    HsSoundRes buf (resumeInitial buf.length buf) := by
  have hb6 : (buf.take 6).length = 6 := by rw [List.length_take]; omega
  obtain ⟨f0, f1⟩ := flags_one_invalid (buf.take 6) hb6
  unfold resumeInitial
  simp only
  split
  · rename_i hf
    split
    · trivial
    · rename_i hnone
      simp only [HsSoundRes]
      match hi : invalidFields (buf.take 6) with
      | [] => exact absurd (f0 hi) hf
      | [i] =>
        obtain ⟨e1, e2⟩ := f1 i hi
        rw [e1, Nat.add_sub_cancel, e2] at hnone
        cases hnone
      | _ :: _ :: _ => simp
  · rename_i hf
    have hinv : invalidFields (buf.take 6) = [] := by
      match hb : buf.take 6, hb6 with
      | [b0, b1, b2, b3, b4, b5], _ =>
        rw [hb, hsFlags_eq] at hf
        have hr : List.range 6 = [0, 1, 2, 3, 4, 5] := rfl
        by_cases h0 : b0 = 72 <;> by_cases h1 : b1 = 0 <;> by_cases h2 : b2 = 0 <;> by_cases h3 : b3 = 0 <;>
          by_cases h4 : b4 = 0 <;> by_cases h5 : b5 = 0 <;>
          simp [h0, h1, h2, h3, h4, h5] at hf
        simp [invalidFields, hr, List.filter_cons, h0, h1, h2, h3, h4, h5]
    have := hsSound_meta1 (buf.take 6) (buf.drop 6) hb6 hinv (by simp; omega)
    rwa [List.take_append_drop] at this

theorem hs_split {buf pre : Bytes} {cur : Nat} (h : buf.take cur = pre) (chunk : Bytes)
    (hc : cur ≤ buf.length) : buf ++ chunk = pre ++ (buf ++ chunk).drop cur := by
  have h2 : (buf ++ chunk).take cur = pre := by rw [List.take_append_of_le_length hc, h]
  rw [← h2, List.take_append_drop]

theorem hsSound_resume (c : HsConn) (h : HsSound c) (chunk : Bytes) (hl : (c.buf ++ chunk).length < 2 ^ 64)
    (ht : ¬ (c.buf ++ chunk).length < c.expected) :
    HsSoundRes (c.buf ++ chunk) (hsResume (c.buf ++ chunk) c.cursor c.state) := by
  obtain ⟨hcur, hsh⟩ := h
  have hdl : ((c.buf ++ chunk).drop c.cursor).length < 2 ^ 64 := by
    rw [List.length_drop]; omega
  cases hst : c.state with
  | initial =>
    rw [hst] at hsh
    obtain ⟨h0, he⟩ := hsh
    simp only [hsResume, h0, List.drop_zero]
    exact hsSound_initial _ (by omega) hl
  | staticBlock =>
    rw [hst] at hsh
    obtain ⟨b6, e1, e2, e3⟩ := hsh
    simp only [hsResume]
    have hsp := hs_split e1 chunk hcur
    generalize (c.buf ++ chunk).drop c.cursor = rest at *
    rw [hsp]
    exact hsSound_meta1 b6 rest e2 e3 hdl
  | expectMeta u =>
    rw [hst] at hsh
    obtain ⟨b6, ds, e1, e2, e3, e4, rfl⟩ := hsh
    simp only [hsResume]
    have hsp := hs_split e1 chunk hcur
    generalize (c.buf ++ chunk).drop c.cursor = rest at *
    simp only [List.append_assoc, List.cons_append, List.nil_append] at hsp
    rw [hsp]
    exact hsSound_meta2 b6 ds rest e2 e3 e4 hdl
  | expectVar u p =>
    rw [hst] at hsh
    obtain ⟨b6, ds, es, e1, e2, e3, e4, e5, rfl, rfl⟩ := hsh
    simp only [hsResume]
    have hsp := hs_split e1 chunk hcur
    generalize (c.buf ++ chunk).drop c.cursor = rest at *
    simp only [List.append_assoc, List.cons_append, List.nil_append] at hsp
    rw [hsp]
    exact hsSound_payload b6 ds es rest e2 e3 e4 e5 hdl

/-- What the end of a handshake says about the bytes received until then. -/
def Explains (buf : Bytes) : HsStep → Prop
  | .more c => c.buf = buf ∧ c.cursor ≤ buf.length
  | .done u p leftover => Announces buf u.length p.length (u ++ p ++ leftover)
  | .reject _ => True
  | .panic => 2 ≤ (invalidFields (buf.take 6)).length
  | .oob => ∃ u p rest, Announces buf u p rest ∧ 2 ^ 64 ≤ u + p

theorem hsSound_feed (c : HsConn) (h : HsSound c) (chunk : Bytes) (hl : (c.buf ++ chunk).length < 2 ^ 64) :
    Explains (c.buf ++ chunk) (c.feed chunk) ∧ ∀ c', c.feed chunk = .more c' → HsSound c' ∧ c'.buf = c.buf ++ chunk := by
  unfold HsConn.feed
  simp only
  by_cases ht : (c.buf ++ chunk).length < c.expected
  · rw [if_pos ht]
    have hcur := h.cur
    refine ⟨⟨rfl, by simp only [List.length_append]; omega⟩, ?_⟩
    rintro c' hc
    cases hc
    refine ⟨⟨by simp only [List.length_append]; omega, ?_⟩, rfl⟩
    have htk : (c.buf ++ chunk).take c.cursor = c.buf.take c.cursor := List.take_append_of_le_length hcur
    simp only [htk]
    exact h.shape
  · rw [if_neg ht]
    have hs := hsSound_resume c h chunk hl ht
    cases hr : hsResume (c.buf ++ chunk) c.cursor c.state with
    | completed u p cur =>
      rw [hr] at hs
      obtain ⟨rest, h1, h2⟩ := hs
      refine ⟨?_, by simp⟩
      simp only [Explains, h2]
      exact h1
    | change s e cur =>
      rw [hr] at hs
      refine ⟨⟨rfl, hs.cur⟩, ?_⟩
      rintro c' hc
      cases hc
      exact ⟨hs, rfl⟩
    | error e => exact ⟨trivial, by simp⟩
    | panic => rw [hr] at hs; exact ⟨hs, by simp⟩
    | oob => rw [hr] at hs; exact ⟨hs, by simp⟩

theorem hsSound_run (c : HsConn) (h : HsSound c) (reads : List Bytes)
    (hl : c.buf.length + reads.flatten.length < 2 ^ 64) :
    ∃ used, reads.flatten = used ++ (c.run reads).2.flatten ∧ Explains (c.buf ++ used) (c.run reads).1 := by
  induction reads generalizing c with
  | nil => exact ⟨[], by simp [HsConn.run], by simpa [HsConn.run, Explains] using h.cur⟩
  | cons x xs ih =>
    simp only [List.flatten_cons, List.length_append] at hl
    obtain ⟨h1, h2⟩ := hsSound_feed c h x (by simp only [List.length_append]; omega)
    unfold HsConn.run
    cases hf : c.feed x with
    | more c' =>
      obtain ⟨h3, h4⟩ := h2 c' hf
      obtain ⟨used, e1, e2⟩ := ih c' h3 (by rw [h4]; simp only [List.length_append]; omega)
      refine ⟨x ++ used, ?_, ?_⟩
      · simp only [List.flatten_cons, List.append_assoc]; rw [← e1]
      · rw [h4, List.append_assoc] at e2; exact e2
    | done u p l => rw [hf] at h1; exact ⟨x, by simp, h1⟩
    | reject e => rw [hf] at h1; exact ⟨x, by simp, h1⟩
    | panic => rw [hf] at h1; exact ⟨x, by simp, h1⟩
    | oob => rw [hf] at h1; exact ⟨x, by simp, h1⟩

/-- **C25, partial: whatever an unauthenticated client sends.** For every sequence of reads, the
bytes `used` until the handshake ended explain its end: a completed handshake has exactly the shape
of the protocol, with this user name and password; the server panics only if at least two of the six
static bytes are invalid, and reads outside the received bytes only if the two announced lengths add
up to `2^64` or more. Missing from the full property: these two cases (`_violated` above). -/
theorem C25_every_stream_partial (reads : List Bytes) (hl : reads.flatten.length < 2 ^ 64) :
    ∃ used, reads.flatten = used ++ (HsConn.run {} reads).2.flatten ∧
      Explains used (HsConn.run {} reads).1 := by
  have := hsSound_run {} ⟨Nat.le_refl _, rfl, rfl⟩ reads (by simpa using hl)
  simpa using this

/-- **C25, partial: exactly one invalid field** is answered with the error of this field, however
the bytes are split. -/
theorem C25_one_invalid_field_partial (reads : List Bytes) (hlen : 6 ≤ reads.flatten.length) (i : Nat)
    (hi : invalidFields (reads.flatten.take 6) = [i]) :
    (HsConn.run {} reads).1 = .reject (fieldError i) := by
  suffices h : ∀ r : Bytes, r.length < 6 → ∀ reads : List Bytes, 6 ≤ (r ++ reads.flatten).length →
      invalidFields ((r ++ reads.flatten).take 6) = [i] →
      (HsConn.run ⟨r, 6, .initial, 0⟩ reads).1 = .reject (fieldError i) by
    exact h [] (by simp) reads (by simpa using hlen) (by simpa using hi)
  clear hlen hi reads
  intro r hr reads hlen hi
  induction reads generalizing r with
  | nil => simp at hlen; omega
  | cons x xs ih =>
    unfold HsConn.run HsConn.feed
    simp only
    by_cases hc : (r ++ x).length < 6
    · rw [if_pos hc]
      exact ih (r ++ x) hc (by simpa using hlen) (by simpa using hi)
    · rw [if_neg hc]
      have htk : (r ++ (x :: xs).flatten).take 6 = (r ++ x).take 6 := by
        rw [List.flatten_cons, ← List.append_assoc]
        exact List.take_append_of_le_length (by omega)
      rw [htk] at hi
      have hb6 : ((r ++ x).take 6).length = 6 := by rw [List.length_take]; omega
      obtain ⟨h1, h2⟩ := (flags_one_invalid _ hb6).2 i hi
      simp only [hsResume, List.drop_zero, resumeInitial, h1, h2, Nat.add_sub_cancel]
      simp

example : HsConn.run {} [[72, 0, 0], [7, 0, 0]] = (.reject .exchangeMode, []) := by decide +kernel

end Verif.Net
