import Verif.Lex.Lexer
import Verif.Num.Theorems
/-!
C19 and C20: parameters and the structure of a query.
-/
namespace Verif.Lex

open Num (AllDigits digitsVal decimal decimalInt isDigit u64LfOpt i64Lf)

/-! ### Specification -/

/-- The token of a bare question mark. -/
def qmark : Token := .sym .symQuestion

/-- Tokens with the question marks replaced by values, first to last. If the values run out, the
remaining question marks stay. -/
def fill : List Token → List Token → List Token
  | [], _ => []
  | t :: ts, vals =>
    if t = qmark then
      match vals with
      | v :: vals => v :: fill ts vals
      | [] => t :: fill ts []
    else t :: fill ts vals

/-- The number of question marks. -/
def holes (ts : List Token) : Nat := ts.countP (· = qmark)

/-- What the protocol allows as the bytes of one parameter, and the value they denote. Numbers may
have leading zeros. `pf` is the parser of decimal floating-point numbers. -/
inductive ParamDenotes (pf : String → Option F64) : Bytes → Token → Prop where
  | null : ParamDenotes pf [0] nullTok
  | bool (b : Bool) : ParamDenotes pf [1, if b then 1 else 0] (.lit (.bool b))
  | uint (ds : Bytes) (v : UInt64) : AllDigits ds → digitsVal ds = v.toNat →
      ParamDenotes pf (2 :: ds ++ [10]) (.lit (.uint v))
  | sintPos (ds : Bytes) (v : Int64) : AllDigits ds → v.toInt = digitsVal ds →
      ParamDenotes pf (3 :: ds ++ [10]) (.lit (.sint v))
  | sintNeg (ds : Bytes) (v : Int64) : AllDigits ds → v.toInt = -(digitsVal ds : Int) →
      ParamDenotes pf (3 :: 45 :: ds ++ [10]) (.lit (.sint v))
  | float (s : String) (v : F64) : 10 ∉ encStr s → pf s = some v →
      ParamDenotes pf (4 :: encStr s ++ [10]) (.lit (.float v))
  | bin (ds b : Bytes) : AllDigits ds → digitsVal ds = b.length →
      ParamDenotes pf (5 :: ds ++ 10 :: b) (.lit (.bin b))
  | str (ds : Bytes) (s : String) : AllDigits ds → digitsVal ds = (encStr s).length →
      ParamDenotes pf (6 :: ds ++ 10 :: encStr s) (.lit (.str s))

/-- The bytes that the protocol prescribes for one parameter. -/
inductive ParamEncodes (pf : String → Option F64) : Token → Bytes → Prop where
  | null : ParamEncodes pf nullTok [0]
  | bool (b : Bool) : ParamEncodes pf (.lit (.bool b)) [1, if b then 1 else 0]
  | uint (v : UInt64) : ParamEncodes pf (.lit (.uint v)) (2 :: decimal v.toNat ++ [10])
  | sint (v : Int64) : ParamEncodes pf (.lit (.sint v)) (3 :: decimalInt v.toInt ++ [10])
  | float (s : String) (v : F64) : 10 ∉ encStr s → s ≠ "" → pf s = some v →
      ParamEncodes pf (.lit (.float v)) (4 :: encStr s ++ [10])
  | bin (b : Bytes) : b.length < 2 ^ 64 →
      ParamEncodes pf (.lit (.bin b)) (5 :: decimal b.length ++ 10 :: b)
  | str (s : String) : (encStr s).length < 2 ^ 64 →
      ParamEncodes pf (.lit (.str s)) (6 :: decimal (encStr s).length ++ 10 :: encStr s)

/-! ### One parameter -/

variable {pf : String → Option F64}

theorem u64LfOpt_some {p rest : Bytes} {n : Nat} : u64LfOpt p = some (n, rest) ↔
    ∃ ds, p = ds ++ 10 :: rest ∧ AllDigits ds ∧ digitsVal ds = n ∧ n < 2 ^ 64 := by
  rw [← Num.C27_scan_u64_exact]
  unfold u64LfOpt
  cases Num.u64Lf p <;> simp

theorem takeWhile_eq {s : Bytes} (h : 10 ∉ s) (rest : Bytes) :
    (s ++ 10 :: rest).takeWhile (· != 10) = s ∧ (s ++ 10 :: rest).dropWhile (· != 10) = 10 :: rest := by
  induction s with
  | nil => simp
  | cons b s ih =>
    simp only [List.mem_cons, not_or] at h
    have := ih h.2
    have hb : b ≠ 10 := fun e => h.1 e.symm
    simp [hb, this]

theorem dropWhile_split {p : Bytes} {c : UInt8} {rest : Bytes} (h : p.dropWhile (· != 10) = c :: rest) :
    c = 10 ∧ p = p.takeWhile (· != 10) ++ 10 :: rest ∧ 10 ∉ p.takeWhile (· != 10) := by
  induction p with
  | nil => simp at h
  | cons b p ih =>
    by_cases hb : b = 10
    · subst hb
      simp at h ⊢
      exact ⟨h.1.symm, h.2⟩
    · simp only [List.dropWhile_cons, List.takeWhile_cons, bne_iff_ne, ne_eq, hb, not_false_eq_true,
        if_true] at h ⊢
      obtain ⟨h1, h2, h3⟩ := ih h
      refine ⟨h1, by rw [List.cons_append, ← h2], ?_⟩
      simp only [List.mem_cons, not_or]
      exact ⟨fun e => hb e.symm, h3⟩

theorem i64_toInt_ofInt {i : Int} (h1 : -2 ^ 63 ≤ i) (h2 : i < 2 ^ 63) : (Int64.ofInt i).toInt = i :=
  Int64.toInt_ofInt_of_le h1 h2

theorem scanParam_denotes {code : Nat} {p rest : Bytes} {t : Token}
    (h : scanParam pf code p = some (t, rest)) :
    ∃ e, UInt8.ofNat code :: p = e ++ rest ∧ ParamDenotes pf e t := by
  unfold scanParam at h
  split at h
  · cases h; exact ⟨[0], rfl, .null⟩
  · split at h
    · cases h
    · rename_i nb rest'
      split at h
      · cases h
      · rename_i hnb
        simp only [Option.some.injEq, Prod.mk.injEq] at h
        obtain ⟨rfl, rfl⟩ := h
        refine ⟨[1, nb], rfl, ?_⟩
        have : nb = 0 ∨ nb = 1 := by
          revert hnb
          exact forall_u8 (P := fun nb => ¬ nb > 1 → nb = 0 ∨ nb = 1) (by decide +kernel) nb
        rcases this with rfl | rfl
        · exact .bool false
        · exact .bool true
  · simp only [Option.map_eq_some_iff, Prod.exists, Prod.mk.injEq] at h
    obtain ⟨n, r, hu, rfl, rfl⟩ := h
    obtain ⟨ds, rfl, hd, hv, hl⟩ := u64LfOpt_some.1 hu
    exact ⟨2 :: ds ++ [10], by simp, .uint ds _ hd (by rw [hv, UInt64.toNat_ofNat', Nat.mod_eq_of_lt hl])⟩
  · simp only [Option.map_eq_some_iff, Prod.exists, Prod.mk.injEq] at h
    obtain ⟨i, r, hu, rfl, rfl⟩ := h
    obtain ⟨ds, hd, h1, h2, ⟨rfl, hi⟩ | ⟨rfl, -, hi⟩⟩ := (Num.C27_scan_i64_exact _ _ _).1 hu
    · exact ⟨3 :: 45 :: ds ++ [10], by simp, .sintNeg ds _ hd (by rw [i64_toInt_ofInt h1 h2, hi])⟩
    · exact ⟨3 :: ds ++ [10], by simp, .sintPos ds _ hd (by rw [i64_toInt_ofInt h1 h2, hi])⟩
  · unfold floatParam at h
    split at h
    · cases h
    · rename_i c r hdrop
      split at h
      · rename_i f hf
        simp only [Option.some.injEq, Prod.mk.injEq] at h
        obtain ⟨rfl, rfl⟩ := h
        obtain ⟨rfl, hp, hn⟩ := dropWhile_split hdrop
        obtain ⟨s, hs, hpf⟩ := Option.bind_eq_some_iff.1 hf
        rw [decStr_eq_some] at hs
        rw [hs] at hp hn
        exact ⟨4 :: encStr s ++ [10], by rw [hp]; simp, .float s f hn hpf⟩
      · cases h
  · simp only [Option.bind_eq_some_iff, Option.map_eq_some_iff, Prod.exists, Prod.mk.injEq] at h
    obtain ⟨n, r, hu, b, r', hb, rfl, rfl⟩ := h
    obtain ⟨ds, rfl, hd, hv, -⟩ := u64LfOpt_some.1 hu
    unfold block at hb
    split at hb
    · rename_i hle
      simp only [Option.some.injEq, Prod.mk.injEq] at hb
      obtain ⟨rfl, rfl⟩ := hb
      refine ⟨5 :: ds ++ 10 :: r.take n, by simp, .bin ds _ hd ?_⟩
      rw [hv, List.length_take]; omega
    · cases hb
  · simp only [Option.bind_eq_some_iff, Option.map_eq_some_iff, Prod.exists, Prod.mk.injEq] at h
    obtain ⟨n, r, hu, b, r', hb, s, hs, rfl, rfl⟩ := h
    obtain ⟨ds, rfl, hd, hv, -⟩ := u64LfOpt_some.1 hu
    rw [decStr_eq_some] at hs
    unfold block at hb
    split at hb
    · rename_i hle
      simp only [Option.some.injEq, Prod.mk.injEq] at hb
      obtain ⟨hb, rfl⟩ := hb
      rw [hs] at hb
      refine ⟨6 :: ds ++ 10 :: encStr s, by rw [← hb]; simp, .str ds s hd ?_⟩
      rw [hv, ← hb, List.length_take]; omega
    · cases hb
  · cases h

theorem nextParam_denotes {p rest : Bytes} {t : Token} (h : nextParam pf p = some (t, rest)) :
    ∃ e, p = e ++ rest ∧ ParamDenotes pf e t := by
  unfold nextParam at h
  split at h
  · cases h
  · rename_i code r
    simp only at h
    have h7 : ∀ p, scanParam pf 7 p = none := fun p => rfl
    by_cases hc : code.toNat ≤ 7
    · rw [Nat.min_eq_left hc] at h
      simp only [if_true] at h
      split at h
      · have := scanParam_denotes h
        simpa using this
      · rw [h7] at h; cases h
    · rw [Nat.min_eq_right (by omega)] at h
      simp only [ite_self, h7] at h
      cases h

theorem block_append (b rest : Bytes) : block b.length (b ++ rest) = some (b, rest) := by
  simp [block]

theorem nextParam_of {code : UInt8} {k : Nat} {r rest : Bytes} {t : Token} (hc : code.toNat = k)
    (hk : k < 7) (hlen : (scanExpect[k]?).getD 0 ≤ r.length) (h : scanParam pf k r = some (t, rest)) :
    nextParam pf (code :: r) = some (t, rest) := by
  unfold nextParam
  simp only
  rw [hc, Nat.min_eq_left (by omega)]
  simp only [if_true, hlen]
  exact h

theorem decimal_pos (n : Nat) : 1 ≤ (decimal n).length := by
  rw [decimal]; split <;> simp

theorem decimalInt_pos (n : Int) : 1 ≤ (decimalInt n).length := by
  have := decimal_pos n.natAbs
  rw [decimalInt]; split <;> simp; omega

theorem u64LfOpt_decimal {n : Nat} (h : n < 2 ^ 64) (rest : Bytes) :
    u64LfOpt (decimal n ++ 10 :: rest) = some (n, rest) :=
  u64LfOpt_some.2 ⟨_, rfl, Num.decimal_digits n, Num.digitsVal_decimal n, h⟩

theorem encStr_ne_nil {s : String} (h : s ≠ "") : encStr s ≠ [] := by
  intro he
  exact h (encStr_inj (he.trans (by decide)))

theorem nextParam_encodes {t : Token} {e : Bytes} (h : ParamEncodes pf t e) (rest : Bytes) :
    nextParam pf (e ++ rest) = some (t, rest) := by
  cases h with
  | null => exact nextParam_of rfl (by decide) (by simp [scanExpect]) rfl
  | bool b => cases b <;> exact nextParam_of rfl (by decide) (by simp [scanExpect]) rfl
  | uint v =>
    have := decimal_pos v.toNat
    refine nextParam_of (k := 2) rfl (by omega) (by simp [scanExpect]; omega) ?_
    simp [scanParam, List.append_assoc, u64LfOpt_decimal v.toNat_lt]
  | sint v =>
    have := decimalInt_pos v.toInt
    refine nextParam_of (k := 3) rfl (by omega) (by simp [scanExpect]; omega) ?_
    have hr := Num.C27_roundtrip_i64 v rest
    rw [(Num.C27_print_i64 v).1] at hr
    simp [scanParam, List.append_assoc, hr]
  | float s v hn hs hpf =>
    have := List.length_pos_iff.2 (encStr_ne_nil hs)
    refine nextParam_of (k := 4) rfl (by omega) (by simp [scanExpect]; omega) ?_
    have := takeWhile_eq hn rest
    simp [scanParam, floatParam, List.append_assoc, this, hpf]
  | bin b hb =>
    have := decimal_pos b.length
    refine nextParam_of (k := 5) rfl (by omega) (by simp [scanExpect]; omega) ?_
    simp [scanParam, List.append_assoc, u64LfOpt_decimal hb, block_append]
  | str s hs =>
    have := decimal_pos (encStr s).length
    refine nextParam_of (k := 6) rfl (by omega) (by simp [scanExpect]; omega) ?_
    simp [scanParam, List.append_assoc, u64LfOpt_decimal hs, block_append]

/-! ### The loop -/

theorem lex_cons (b : UInt8) (rest params : Bytes) :
    lex pf (b :: rest) params =
      if isAlpha b || b == 95 then
        push (wordToken (b :: rest.takeWhile isIdent)) (lex pf (rest.dropWhile isIdent) params)
      else if b == 63 && !params.isEmpty then
        match nextParam pf params with
        | some (t, params) => push t (lex pf rest params)
        | none => .error .invalidInput
      else if isBlank b then lex pf (rest.dropWhile isBlank) params
      else
        match Symbol.get b with
        | some s => push (.sym s) (lex pf rest params)
        | none => .error .unexpectedByte := by
  rw [lex]
  rfl

theorem push_ok {t : Token} {x : Except LexError (List Token)} {toks : List Token}
    (h : push t x = .ok toks) : ∃ ts, x = .ok ts ∧ toks = t :: ts := by
  cases x with
  | ok ts => cases h; exact ⟨ts, rfl, rfl⟩
  | error e => cases h

theorem lex_nil (params : Bytes) : lex pf [] params = .ok [] := by rw [lex]

theorem wordToken_ne_qmark (s : Bytes) : wordToken s ≠ qmark := by
  unfold wordToken qmark
  split
  · simp
  · split <;> simp

theorem fill_nil (ts : List Token) : fill ts [] = ts := by
  induction ts with
  | nil => rfl
  | cons t ts ih => simp [fill, ih]

theorem fill_cons_ne {t : Token} (h : t ≠ qmark) (ts vals : List Token) :
    fill (t :: ts) vals = t :: fill ts vals := by
  rw [fill.eq_def]; simp [h]

theorem fill_cons_qmark (ts vals : List Token) (v : Token) :
    fill (qmark :: ts) (v :: vals) = v :: fill ts vals := by simp [fill]

theorem holes_cons_ne {t : Token} (h : t ≠ qmark) (ts : List Token) : holes (t :: ts) = holes ts := by
  simp [holes, h]

theorem holes_cons_qmark (ts : List Token) : holes (qmark :: ts) = holes ts + 1 := by
  simp [holes]

theorem sym63 : Symbol.get 63 = some .symQuestion := by decide +kernel

theorem sym_qmark {b : UInt8} {s : Symbol} (h : Symbol.get b = some s) (hb : b ≠ 63) :
    (Token.sym s) ≠ qmark := by
  intro e
  simp only [qmark, Token.sym.injEq] at e
  subst e
  have h1 := (C18_symbol_exact b .symQuestion).1 h
  have h2 := (C18_symbol_exact 63 .symQuestion).1 sym63
  rw [← h2] at h1
  exact hb (UInt8.toNat_inj.1 h1)

theorem lex_ok_structure (text params : Bytes) (toks : List Token) (h : lex pf text params = .ok toks) :
    ∃ skel vals encs rest, lex pf text [] = .ok skel ∧ params = encs.flatten ++ rest ∧
      Forall2 (ParamDenotes pf) encs vals ∧ toks = fill skel vals ∧
      vals.length ≤ holes skel ∧ (vals.length < holes skel → rest = []) := by
  induction hn : text.length using Nat.strongRecOn generalizing text params toks with
  | _ n ih =>
    cases text with
    | nil =>
      rw [lex_nil] at h; cases h
      exact ⟨[], [], [], params, lex_nil _, rfl, .nil, rfl, by simp [holes], by simp [holes]⟩
    | cons b rest =>
      subst hn
      rw [lex_cons] at h
      rw [lex_cons]
      by_cases h1 : (isAlpha b || b == 95) = true
      · rw [if_pos h1] at h ⊢
        obtain ⟨ts, hts, rfl⟩ := push_ok h
        obtain ⟨skel, vals, encs, r, e1, e2, e3, e4, e5, e6⟩ :=
          ih _ (by have := dropWhile_le (p := isIdent) rest; simp; omega) _ _ _ hts rfl
        rw [e1]
        have hw := wordToken_ne_qmark (b :: rest.takeWhile isIdent)
        refine ⟨_, vals, encs, r, rfl, e2, e3, by rw [fill_cons_ne hw, e4], ?_, ?_⟩
        · rw [holes_cons_ne hw]; exact e5
        · rw [holes_cons_ne hw]; exact e6
      · rw [if_neg h1] at h ⊢
        simp only [List.isEmpty_nil, Bool.not_true, Bool.and_false, Bool.false_eq_true, if_false]
        by_cases hq : b = 63
        · subst hq
          simp only [show isBlank 63 = false from rfl, Bool.false_eq_true, if_false, sym63, BEq.rfl,
            Bool.true_and] at h ⊢
          cases params with
          | nil =>
            simp only [List.isEmpty_nil, Bool.not_true, Bool.false_eq_true, if_false] at h
            obtain ⟨ts, hts, rfl⟩ := push_ok h
            rw [hts]
            exact ⟨_, [], [], [], rfl, rfl, .nil, (fill_nil _).symm, Nat.zero_le _, fun _ => rfl⟩
          | cons p ps =>
            simp only [List.isEmpty_cons, Bool.not_false, if_true] at h
            split at h
            · rename_i t params' hp
              · obtain ⟨ts, hts, rfl⟩ := push_ok h
                obtain ⟨skel, vals, encs, r, e1, e2, e3, e4, e5, e6⟩ := ih _ (by simp) _ _ _ hts rfl
                obtain ⟨e, he, hd⟩ := nextParam_denotes hp
                rw [e1]
                refine ⟨_, t :: vals, e :: encs, r, rfl, ?_, .cons hd e3, ?_, ?_, ?_⟩
                · rw [he, e2]; simp
                · show _ = fill (qmark :: skel) _
                  rw [fill_cons_qmark, e4]
                · show _ ≤ holes (qmark :: skel)
                  rw [holes_cons_qmark]; simpa using e5
                · show _ < holes (qmark :: skel) → _
                  rw [holes_cons_qmark]; simpa using e6
            · cases h
        · rw [if_neg (by simp [hq])] at h
          by_cases hb : isBlank b = true
          · rw [if_pos hb] at h ⊢
            exact ih _ (by have := dropWhile_le (p := isBlank) rest; simp; omega) _ _ _ h rfl
          · rw [if_neg hb] at h ⊢
            split at h
            · rename_i s hs
              · obtain ⟨ts, hts, rfl⟩ := push_ok h
                obtain ⟨skel, vals, encs, r, e1, e2, e3, e4, e5, e6⟩ := ih _ (by simp) _ _ _ hts rfl
                rw [e1]
                have hw := sym_qmark hs hq
                refine ⟨_, vals, encs, r, rfl, e2, e3, by rw [fill_cons_ne hw, e4], ?_, ?_⟩
                · rw [holes_cons_ne hw]; exact e5
                · rw [holes_cons_ne hw]; exact e6
            · cases h

/-! ### Property theorems -/

/-- **C19.** Whatever bytes are sent as parameters: if a parameterised query is lexed at all, then
the query text alone lexes, and the result is the tokens of the text with its question marks, first
to last, each replaced by exactly one literal or null token. These are the values of a sequence of
well-formed parameters at the start of the parameter bytes. Every question mark is replaced, unless
the parameter bytes are used up; then the remaining ones stay question marks. -/
theorem C19_parameters_cannot_change_structure (pf : String → Option F64) (text params : Bytes)
    (toks : List Token) (h : lex pf text params = .ok toks) :
    ∃ skel vals encs rest, lex pf text [] = .ok skel ∧ toks = fill skel vals ∧
      params = encs.flatten ++ rest ∧ Forall2 (ParamDenotes pf) encs vals ∧
      (∀ v ∈ vals, v = nullTok ∨ ∃ l, v = .lit l) ∧
      vals.length ≤ holes skel ∧ (vals.length < holes skel → rest = []) := by
  obtain ⟨skel, vals, encs, r, e1, e2, e3, e4, e5, e6⟩ := lex_ok_structure text params toks h
  refine ⟨skel, vals, encs, r, e1, e4, e2, e3, ?_, e5, e6⟩
  clear e1 e2 e4 e5 e6
  induction e3 with
  | nil => simp
  | cons hd _ ih =>
    intro v hv
    rcases List.mem_cons.1 hv with rfl | hv
    · cases hd <;> first | exact .inl rfl | exact .inr ⟨_, rfl⟩
    · exact ih v hv

/-- C19, the number of tokens and every token that is not a question mark are those of the text. -/
theorem C19_same_positions (pf : String → Option F64) (text params : Bytes) (toks skel : List Token)
    (h : lex pf text params = .ok toks) (h0 : lex pf text [] = .ok skel) :
    toks.length = skel.length ∧ ∀ (i : Nat) (t : Token), skel[i]? = some t → t ≠ qmark → toks[i]? = some t := by
  obtain ⟨skel', vals, _, _, e1, e4, -⟩ := C19_parameters_cannot_change_structure pf text params toks h
  rw [h0] at e1; cases e1
  subst e4
  clear h h0
  induction skel generalizing vals with
  | nil => simp [fill]
  | cons a skel ih =>
    by_cases ha : a = qmark
    · subst ha
      cases vals with
      | nil => rw [fill_nil]; exact ⟨rfl, fun _ _ h _ => h⟩
      | cons v vals =>
        rw [fill_cons_qmark]
        refine ⟨by simp [(ih vals).1], ?_⟩
        intro i t hi ht
        cases i with
        | zero => simp at hi; exact absurd hi.symm ht
        | succ i => simp at hi ⊢; exact (ih vals).2 i t hi ht
    · rw [fill_cons_ne ha]
      refine ⟨by simp [(ih vals).1], ?_⟩
      intro i t hi ht
      cases i with
      | zero => simpa using hi
      | succ i => simp at hi ⊢; exact (ih vals).2 i t hi ht

example : lex (fun _ => none) (ascii "select ? from t where k = ?")
    ([6] ++ ascii "13\nx or 1=1; drop" ++ [0]) =
    .error .invalidInput := by decide +kernel

example : lex (fun _ => none) (ascii "select ? from t where k = ?")
    ([6] ++ ascii "16\nx or 1=1; drop ?" ++ [0]) =
    .ok [.kw (.statement .select), .lit (.str "x or 1=1; drop ?"), .kw (.misc .from), .ident (ascii "t"),
      .kw (.misc .where), .ident (ascii "k"), .sym .opAssign, nullTok] := by decide +kernel

/-- **C20.** If the query text lexes, then with parameters encoded the way the protocol prescribes
the query lexes too, and every value arrives unchanged at its question mark (surplus parameters are
ignored). -/
theorem C20_parameters_arrive_unchanged (pf : String → Option F64) (text : Bytes) (skel : List Token)
    (h : lex pf text [] = .ok skel) (vals : List Token) (encs : List Bytes)
    (henc : Forall2 (ParamEncodes pf) vals encs) :
    lex pf text encs.flatten = .ok (fill skel vals) := by
  induction hn : text.length using Nat.strongRecOn generalizing text skel vals encs with
  | _ n ih =>
    cases text with
    | nil => rw [lex_nil] at h ⊢; cases h; rfl
    | cons b rest =>
      subst hn
      rw [lex_cons] at h ⊢
      by_cases h1 : (isAlpha b || b == 95) = true
      · rw [if_pos h1] at h ⊢
        obtain ⟨ts, hts, rfl⟩ := push_ok h
        rw [ih (rest.dropWhile isIdent).length (by have := dropWhile_le (p := isIdent) rest; simp; omega)
          _ _ hts _ _ henc rfl, fill_cons_ne (wordToken_ne_qmark _)]
        rfl
      · rw [if_neg h1] at h ⊢
        simp only [List.isEmpty_nil, Bool.not_true, Bool.and_false, Bool.false_eq_true, if_false] at h
        by_cases hq : b = 63
        · subst hq
          simp only [show isBlank 63 = false from rfl, Bool.false_eq_true, if_false, sym63, BEq.rfl,
            Bool.true_and] at h ⊢
          · obtain ⟨ts, hts, rfl⟩ := push_ok h
            cases henc with
            | nil => simp [hts, fill_nil]; rfl
            | cons hd htl =>
              rename_i v e vals encs
              have hne : e ≠ [] := by cases hd <;> simp
              have : (e :: encs).flatten.isEmpty = false := by
                cases e with
                | nil => exact absurd rfl hne
                | cons _ _ => rfl
              rw [this]
              simp only [Bool.not_false, if_true, List.flatten_cons, nextParam_encodes hd]
              rw [ih rest.length (by simp) _ _ hts _ _ htl rfl]
              show _ = Except.ok (fill (qmark :: ts) _)
              rw [fill_cons_qmark]
              rfl
        · rw [if_neg (by simp [hq])]
          by_cases hb : isBlank b = true
          · rw [if_pos hb] at h ⊢
            exact ih (rest.dropWhile isBlank).length
              (by have := dropWhile_le (p := isBlank) rest; simp; omega) _ _ h _ _ henc rfl
          · rw [if_neg hb] at h ⊢
            split at h
            · rename_i s hs
              obtain ⟨ts, hts, rfl⟩ := push_ok h
              rw [ih rest.length (by simp) _ _ hts _ _ henc rfl, fill_cons_ne (sym_qmark hs hq)]
              rfl
            · cases h

example : Forall2 (ParamEncodes (fun _ => none))
    [.lit (.uint 18446744073709551615), nullTok, .lit (.sint (-5)), .lit (.bin [10, 0]), .lit (.str "é")]
    [2 :: decimal 18446744073709551615 ++ [10], [0], 3 :: decimalInt (-5) ++ [10],
      5 :: decimal 2 ++ [10, 10, 0], 6 :: decimal 2 ++ [10, 0xC3, 0xA9]] :=
  .cons (.uint _) <| .cons .null <| .cons (.sint _) <| .cons (.bin [10, 0] (by decide)) <|
    .cons (.str "é" (by decide)) .nil

end Verif.Lex
