import Verif.Lex.Raw
/-!
C18: keywords and symbols are recognised exactly.
-/
namespace Verif.Lex

/-! ### Specification: the listed symbols and keywords, as a reader of the manual sees them -/

/-- The character of a symbol. -/
def Symbol.char : Symbol → Char
  | .opArithmeticAdd => '+' | .opArithmeticSub => '-' | .opArithmeticMul => '*'
  | .opArithmeticDiv => '/' | .opLogicalNot => '!' | .opLogicalAnd => '&' | .opLogicalXor => '^'
  | .opLogicalOr => '|' | .opAssign => '=' | .ttOpenParen => '(' | .ttCloseParen => ')'
  | .ttOpenSqBracket => '[' | .ttCloseSqBracket => ']' | .ttOpenBrace => '{' | .ttCloseBrace => '}'
  | .opComparatorLt => '<' | .opComparatorGt => '>' | .quoteS => '\'' | .quoteD => '"'
  | .symAt => '@' | .symHash => '#' | .symDollar => '$' | .symPercent => '%'
  | .symUnderscore => '_' | .symBackslash => '\\' | .symColon => ':' | .symSemicolon => ';'
  | .symComma => ',' | .symPeriod => '.' | .symQuestion => '?' | .symTilde => '~'
  | .symAccent => '`'

/-- The spelling of a keyword. -/
def Keyword.spelling : Keyword → String
  | .statement .sysctl => "sysctl" | .statement .create => "create" | .statement .alter => "alter"
  | .statement .drop => "drop" | .statement .use => "use" | .statement .inspect => "inspect"
  | .statement .describe => "describe" | .statement .insert => "insert"
  | .statement .select => "select" | .statement .update => "update"
  | .statement .delete => "delete" | .statement .exists => "exists"
  | .misc .table => "table" | .misc .model => "model" | .misc .space => "space"
  | .misc .index => "index" | .misc .type => "type" | .misc .function => "function"
  | .misc .rename => "rename" | .misc .add => "add" | .misc .remove => "remove"
  | .misc .transform => "transform" | .misc .set => "set" | .misc .return => "return"
  | .misc .order => "order" | .misc .sort => "sort" | .misc .group => "group"
  | .misc .limit => "limit" | .misc .asc => "asc" | .misc .desc => "desc" | .misc .all => "all"
  | .misc .by => "by" | .misc .with => "with" | .misc .on => "on" | .misc .from => "from"
  | .misc .into => "into" | .misc .as => "as" | .misc .to => "to" | .misc .in => "in"
  | .misc .of => "of" | .misc .and => "and" | .misc .or => "or" | .misc .not => "not"
  | .misc .if => "if" | .misc .else => "else" | .misc .where => "where" | .misc .when => "when"
  | .misc .allow => "allow" | .misc .auto => "auto" | .misc .default => "default"
  | .misc .null => "null" | .misc .transaction => "transaction" | .misc .batch => "batch"
  | .misc .lock => "lock" | .misc .read => "read" | .misc .write => "write"
  | .misc .begin => "begin" | .misc .end => "end" | .misc .key => "key" | .misc .value => "value"
  | .misc .primary => "primary" | .misc .truncate => "truncate"

/-! ### Helper lemmas -/

theorem forall_u8 {P : UInt8 → Prop} (h : ∀ b : Fin 256, P (UInt8.ofNat b.val)) (b : UInt8) : P b := by
  have := h ⟨b.toNat, b.toNat_lt⟩
  rwa [show UInt8.ofNat (⟨b.toNat, b.toNat_lt⟩ : Fin 256).val = b from UInt8.ofNat_toNat] at this

theorem lower_or {b c : UInt8} (hc : 97 ≤ c ∧ c ≤ 122) (h : lower b = c) : b ||| 0x20 = c ||| 0x20 := by
  subst h
  exact forall_u8 (P := fun b => 97 ≤ lower b ∧ lower b ≤ 122 → b ||| 0x20 = lower b ||| 0x20)
    (by decide +kernel) b hc

theorem kwSum_lower (block n : Bytes) (hn : ∀ c ∈ n, 97 ≤ c ∧ c ≤ 122) (k : Bytes)
    (h : k.map lower = n) (i : Nat) : kwSum block i k = kwSum block i n := by
  induction k generalizing n i with
  | nil => simp at h; subst h; rfl
  | cons b k ih =>
    cases n with
    | nil => simp at h
    | cons c n =>
      simp only [List.map_cons, List.cons.injEq] at h
      simp only [kwSum]
      rw [lower_or (hn c (by simp)) h.1, ih n (fun c hc => hn c (by simp [hc])) h.2]

theorem lut_facts : ∀ x ∈ kwLut, (∀ c ∈ x.1, 97 ≤ c ∧ c ≤ 122) ∧ x.1.map lower = x.1 ∧
    Keyword.get x.1 = some x.2 ∧ x.1 = ascii x.2.spelling := by decide +kernel

theorem spelling_in_lut (kw : Keyword) : (ascii kw.spelling, kw) ∈ kwLut := by
  rcases kw with s | s <;> cases s <;> decide +kernel

theorem get_eq_of_lower {k n : Bytes} (hn : ∀ c ∈ n, 97 ≤ c ∧ c ≤ 122) (hl : n.map lower = n)
    (h : k.map lower = n) : Keyword.get k = Keyword.get n := by
  have hlen : k.length = n.length := by rw [← h]; simp
  unfold Keyword.get
  rw [hlen]
  split
  · rfl
  · unfold Keyword.compute eqIgnoreCase
    rw [kwSum_lower _ n hn k h, kwSum_lower _ n hn k h, h, hl]

/-! ### Property theorems -/

/-- **C18, keywords.** For every byte string `k` and every keyword `kw`: the lexer takes `k` as
`kw` exactly if `k` is the spelling of `kw` up to ASCII case. -/
theorem C18_keyword_exact (k : Bytes) (kw : Keyword) :
    Keyword.get k = some kw ↔ k.map lower = ascii kw.spelling := by
  constructor
  · intro h
    unfold Keyword.get at h
    split at h
    · cases h
    · unfold Keyword.compute at h
      simp only at h
      split at h
      · rename_i n kw' hm
        split at h
        · cases h
          rename_i he
          have hx := lut_facts _ (List.mem_of_getElem? hm)
          simp only [eqIgnoreCase, decide_eq_true_eq] at he
          rw [← he, hx.2.1]; exact hx.2.2.2
        · cases h
      · cases h
  · intro h
    have hx := lut_facts _ (spelling_in_lut kw)
    rw [get_eq_of_lower hx.1 hx.2.1 h]
    exact hx.2.2.1

/-- `w` is the word `n` of small letters, with some of its letters in capitals. -/
inductive Spelt : Bytes → Bytes → Prop where
  | nil : Spelt [] []
  | small {c w n} : Spelt w n → Spelt (c :: w) (c :: n)
  | capital {c w n} : Spelt w n → Spelt ((c - 32) :: w) (c :: n)

theorem lower_iff {b c : UInt8} (hc : 97 ≤ c ∧ c ≤ 122) : lower b = c ↔ b = c ∨ b = c - 32 := by
  constructor
  · intro h; subst h
    exact forall_u8 (P := fun b => 97 ≤ lower b ∧ lower b ≤ 122 → b = lower b ∨ b = lower b - 32) (by decide +kernel) b hc
  · rintro (h | h) <;> subst h
    · exact forall_u8 (P := fun b => 97 ≤ b ∧ b ≤ 122 → lower b = b) (by decide +kernel) _ hc
    · exact forall_u8 (P := fun c => 97 ≤ c ∧ c ≤ 122 → lower (c - 32) = c) (by decide +kernel) _ hc

theorem spelt_iff : ∀ {w n : Bytes}, (∀ c ∈ n, 97 ≤ c ∧ c ≤ 122) → (w.map lower = n ↔ Spelt w n)
  | [], [], _ => ⟨fun _ => .nil, fun _ => rfl⟩
  | [], _ :: _, _ => ⟨fun h => (by simp at h), fun h => nomatch h⟩
  | _ :: _, [], _ => ⟨fun h => (by simp at h), fun h => nomatch h⟩
  | b :: w, c :: n, hn => by
    have ih := spelt_iff (w := w) (n := n) fun c hc => hn c (by simp [hc])
    have hc := hn c (by simp)
    simp only [List.map_cons, List.cons.injEq, lower_iff hc, ih]
    constructor
    · rintro ⟨h | h, hs⟩ <;> subst h
      · exact .small hs
      · exact .capital hs
    · intro h
      cases h with
      | small hs => exact ⟨.inl rfl, hs⟩
      | capital hs => exact ⟨.inr rfl, hs⟩

/-- **C18, keywords, in terms of letters.** The lexer takes `k` as the keyword `kw` exactly if `k` is its spelling with some of the
letters in capitals. -/
theorem C18_keyword_any_case (k : Bytes) (kw : Keyword) : Keyword.get k = some kw ↔ Spelt k (ascii kw.spelling) :=
  (C18_keyword_exact k kw).trans (spelt_iff (lut_facts _ (spelling_in_lut kw)).1)

/-- No two keywords have the same spelling, so the keyword found is unique. -/
theorem C18_keyword_spelling_injective (a b : Keyword) (h : a.spelling = b.spelling) : a = b := by
  have ha := (C18_keyword_exact (ascii a.spelling) a).2
    (by have := lut_facts _ (spelling_in_lut a); exact this.2.1)
  have hb := (C18_keyword_exact (ascii b.spelling) b).2
    (by have := lut_facts _ (spelling_in_lut b); exact this.2.1)
  rw [h, hb] at ha
  exact (Option.some.inj ha).symm

example : Keyword.get (ascii "TrAnSaCtIoN") = some (.misc .transaction) := by decide +kernel
example : Keyword.get (ascii "transactions") = none ∧ Keyword.get (ascii "") = none := by decide +kernel

/-- **C18, symbols.** For every byte and every symbol: the lexer takes the byte as that symbol
exactly if it is the symbol's character. -/
theorem C18_symbol_exact (b : UInt8) (s : Symbol) :
    Symbol.get b = some s ↔ b.toNat = s.char.toNat := by
  have hs : s ∈ symLut.map Prod.snd := by cases s <;> decide +kernel
  exact forall_u8 (P := fun b => ∀ s ∈ symLut.map Prod.snd, (Symbol.get b = some s ↔ b.toNat = s.char.toNat))
    (by decide +kernel) b s hs

example : Symbol.get 63 = some .symQuestion ∧ Symbol.get 65 = none := by decide +kernel

end Verif.Lex
