import Verif.Lex.LexerTheorems
import Verif.Lex.RawTheorems
/-!
C42: the text of a query is split into words and symbols exactly.
-/
namespace Verif.Lex

/-! ### Specification -/

/-- A letter or an underscore: what a word begins with. -/
def WordStart (c : UInt8) : Prop :=
  (65 ≤ c.toNat ∧ c.toNat ≤ 90) ∨ (97 ≤ c.toNat ∧ c.toNat ≤ 122) ∨ c.toNat = 95

/-- A letter, a digit or an underscore: what a word consists of. -/
def WordChar (c : UInt8) : Prop := WordStart c ∨ (48 ≤ c.toNat ∧ c.toNat ≤ 57)

/-- What a word means: a keyword (in any letter case), `true` or `false` (in any letter case), or
otherwise a name. -/
inductive WordMeans (w : Bytes) : Token → Prop where
  | keyword (k : Keyword) : w.map lower = ascii k.spelling → WordMeans w (.kw k)
  | bool (b : Bool) : w.map lower = (if b then ascii "true" else ascii "false") → WordMeans w (.lit (.bool b))
  | name : (∀ k : Keyword, w.map lower ≠ ascii k.spelling) → w.map lower ≠ ascii "true" →
      w.map lower ≠ ascii "false" → WordMeans w (.ident w)

/-- The tokens of a text: blanks, tabs and line feeds separate, a word extends as far as possible,
every other byte stands for itself. -/
inductive Reads : Bytes → List Token → Prop where
  | nil : Reads [] []
  | blank {c rest ts} : (c = 32 ∨ c = 9 ∨ c = 10) → Reads rest ts → Reads (c :: rest) ts
  | word {c w rest t ts} : WordStart c → (∀ x ∈ w, WordChar x) → (∀ x, rest.head? = some x → ¬ WordChar x) →
      WordMeans (c :: w) t → Reads rest ts → Reads (c :: w ++ rest) (t :: ts)
  | symbol {c s rest ts} : ¬ WordStart c → c.toNat = (Symbol.char s).toNat → Reads rest ts → Reads (c :: rest) (.sym s :: ts)

/-! ### Proof -/

theorem isStart_iff (c : UInt8) : (isAlpha c || c == 95) = true ↔ WordStart c :=
  forall_u8 (P := fun c => (isAlpha c || c == 95) = true ↔ WordStart c)
    (by unfold WordStart; decide +kernel) c

theorem isIdent_iff (c : UInt8) : isIdent c = true ↔ WordChar c :=
  forall_u8 (P := fun c => isIdent c = true ↔ WordChar c)
    (by unfold WordChar WordStart; decide +kernel) c

theorem isBlank_iff (c : UInt8) : isBlank c = true ↔ c = 32 ∨ c = 9 ∨ c = 10 :=
  forall_u8 (P := fun c => isBlank c = true ↔ c = 32 ∨ c = 9 ∨ c = 10) (by decide +kernel) c

theorem true_ne (k : Keyword) : ascii k.spelling ≠ ascii "true" ∧ ascii k.spelling ≠ ascii "false" := by
  have : k ∈ kwLut.map Prod.snd := by
    rcases k with s | m
    · cases s <;> decide +kernel
    · cases m <;> decide +kernel
  revert this k
  decide +kernel

theorem eqIgnoreCase_iff (a b : Bytes) : eqIgnoreCase a b = true ↔ a.map lower = b.map lower := by
  simp [eqIgnoreCase]

theorem lower_true : (ascii "true").map lower = ascii "true" ∧ (ascii "false").map lower = ascii "false" ∧
    ascii "true" ≠ ascii "false" := by decide +kernel

theorem wordToken_iff (w : Bytes) (t : Token) : wordToken w = t ↔ WordMeans w t := by
  unfold wordToken
  cases hk : Keyword.get w with
  | some k =>
    have h1 := (C18_keyword_exact w k).1 hk
    simp only
    constructor
    · rintro rfl; exact .keyword k h1
    · intro h
      cases h with
      | keyword k' h' =>
        have := (C18_keyword_exact w k').2 h'
        rw [hk] at this; cases this; rfl
      | bool b hb =>
        rw [h1] at hb
        cases b
        · exact absurd hb (true_ne k).2
        · exact absurd hb (true_ne k).1
      | name h' => exact absurd h1 (h' k)
  | none =>
    have h1 : ∀ k : Keyword, w.map lower ≠ ascii k.spelling := by
      intro k h
      rw [(C18_keyword_exact w k).2 h] at hk; cases hk
    obtain ⟨lt, lf, ne⟩ := lower_true
    simp only [Bool.or_eq_true, eqIgnoreCase_iff, lt, lf]
    by_cases ht : w.map lower = ascii "true"
    · rw [if_pos (.inl ht), (eqIgnoreCase_iff _ _).2 (by rw [ht, lt])]
      constructor
      · rintro rfl; exact .bool true (by simpa using ht)
      · intro h
        cases h with
        | keyword k h' => exact absurd h' (h1 k)
        | bool b hb =>
          cases b
          · simp only [Bool.false_eq_true, if_false, ht] at hb; exact absurd hb ne
          · rfl
        | name _ h' => exact absurd ht h'
    · by_cases hf : w.map lower = ascii "false"
      · have : eqIgnoreCase w (ascii "true") = false := by
          rw [Bool.eq_false_iff, ne_eq, eqIgnoreCase_iff, lt]; exact ht
        rw [if_pos (.inr hf), this]
        constructor
        · rintro rfl; exact .bool false (by simpa using hf)
        · intro h
          cases h with
          | keyword k h' => exact absurd h' (h1 k)
          | bool b hb =>
            cases b
            · rfl
            · simp only [if_true] at hb; exact absurd hb ht
          | name _ _ h' => exact absurd hf h'
      · rw [if_neg (by simp [ht, hf])]
        constructor
        · rintro rfl; exact .name h1 ht hf
        · intro h
          cases h with
          | keyword k h' => exact absurd h' (h1 k)
          | bool b hb =>
            cases b
            · simp only [Bool.false_eq_true, if_false] at hb; exact absurd hb hf
            · simp only [if_true] at hb; exact absurd hb ht
          | name => rfl

theorem takeDrop_word {w rest : Bytes} (hw : ∀ x ∈ w, WordChar x)
    (hr : ∀ x, rest.head? = some x → ¬ WordChar x) :
    (w ++ rest).takeWhile isIdent = w ∧ (w ++ rest).dropWhile isIdent = rest := by
  induction w with
  | nil =>
    cases rest with
    | nil => simp
    | cons x rest =>
      have : ¬ isIdent x = true := fun h => hr x rfl ((isIdent_iff x).1 h)
      simp [this]
  | cons x w ih =>
    have hx : isIdent x = true := (isIdent_iff x).2 (hw x (by simp))
    obtain ⟨h1, h2⟩ := ih (fun y hy => hw y (by simp [hy]))
    simp [hx, h1, h2]

theorem head_dropWhile (p : UInt8 → Bool) (l : Bytes) (x : UInt8) (h : (l.dropWhile p).head? = some x) :
    p x = false := by
  induction l with
  | nil => simp at h
  | cons y l ih =>
    rw [List.dropWhile_cons] at h
    split at h
    · exact ih h
    · simp at h; subst h; simpa using ‹¬ p _ = true›

theorem mem_takeWhile (p : UInt8 → Bool) (l : Bytes) (x : UInt8) (h : x ∈ l.takeWhile p) : p x = true := by
  induction l with
  | nil => simp at h
  | cons y l ih =>
    rw [List.takeWhile_cons] at h
    split at h
    · rcases List.mem_cons.1 h with rfl | h
      · assumption
      · exact ih h
    · simp at h

/-- Blanks before the text do not matter. -/
theorem lex_dropBlank (pf : String → Option F64) (text params : Bytes) :
    lex pf (text.dropWhile isBlank) params = lex pf text params := by
  cases text with
  | nil => rfl
  | cons b rest =>
    rw [List.dropWhile_cons]
    by_cases hb : isBlank b = true
    · rw [if_pos hb, lex_cons b]
      have h1 : ¬ (isAlpha b || b == 95) = true := by
        rcases (isBlank_iff b).1 hb with rfl | rfl | rfl <;> decide
      have h2 : ¬ (b == 63 && !params.isEmpty) = true := by
        rcases (isBlank_iff b).1 hb with rfl | rfl | rfl <;> simp
      rw [if_neg h1, if_neg h2, if_pos hb]
    · rw [if_neg hb]

/-- **C42.** A query text lexes to exactly the tokens that it spells: blanks separate, words extend
as far as possible and are keywords, Booleans or names, every other byte is a symbol. It is refused
exactly if it spells no tokens. -/
theorem C42_text_is_split_exactly (pf : String → Option F64) (text : Bytes) (ts : List Token) :
    lex pf text [] = .ok ts ↔ Reads text ts := by
  constructor
  · intro h
    induction hn : text.length using Nat.strongRecOn generalizing text ts with
    | _ n ih =>
      cases text with
      | nil => rw [lex_nil] at h; cases h; exact .nil
      | cons b rest =>
        subst hn
        rw [lex_cons] at h
        by_cases h1 : (isAlpha b || b == 95) = true
        · rw [if_pos h1] at h
          obtain ⟨ts', hts, rfl⟩ := push_ok h
          have hr := ih (rest.dropWhile isIdent).length
            (by have := dropWhile_le (p := isIdent) rest; simp; omega) _ _ hts rfl
          rw [← List.takeWhile_append_dropWhile (p := isIdent) (l := rest)]
          rw [List.takeWhile_append_dropWhile (p := isIdent) (l := rest)]
          have := Reads.word ((isStart_iff b).1 h1) (w := rest.takeWhile isIdent)
            (fun x hx => (isIdent_iff x).1 (mem_takeWhile _ _ _ hx))
            (fun x hx hw => by have := head_dropWhile _ _ _ hx; rw [(isIdent_iff x).2 hw] at this; cases this)
            ((wordToken_iff _ _).1 rfl) hr
          rwa [List.cons_append, List.takeWhile_append_dropWhile] at this
        · rw [if_neg h1, if_neg (by simp)] at h
          by_cases hb : isBlank b = true
          · rw [if_pos hb, lex_dropBlank] at h
            exact .blank ((isBlank_iff b).1 hb) (ih rest.length (by simp) _ _ h rfl)
          · rw [if_neg hb] at h
            split at h
            · rename_i s hs
              obtain ⟨ts', hts, rfl⟩ := push_ok h
              exact .symbol (fun hw => h1 ((isStart_iff b).2 hw)) ((C18_symbol_exact b s).1 hs)
                (ih rest.length (by simp) _ _ hts rfl)
            · cases h
  · intro h
    induction h with
    | nil => exact lex_nil _
    | @blank c rest ts hc _ ih =>
      rw [lex_cons]
      have h1 : ¬ (isAlpha c || c == 95) = true := by rcases hc with rfl | rfl | rfl <;> decide
      rw [if_neg h1, if_neg (by simp), if_pos ((isBlank_iff c).2 hc), lex_dropBlank, ih]
    | @word c w rest t ts h1 h2 h3 h4 _ ih =>
      rw [List.cons_append, lex_cons, if_pos ((isStart_iff c).2 h1)]
      obtain ⟨e1, e2⟩ := takeDrop_word h2 h3
      rw [e1, e2, ih, (wordToken_iff _ _).2 h4]
      rfl
    | @symbol c s rest ts h1 h2 _ ih =>
      have hs := (C18_symbol_exact c s).2 h2
      have hb : ¬ isBlank c = true := by
        intro hb
        rcases (isBlank_iff c).1 hb with rfl | rfl | rfl <;> revert hs <;> cases s <;> decide +kernel
      rw [lex_cons, if_neg (fun h => h1 ((isStart_iff c).1 h)), if_neg (by simp), if_neg hb, hs]
      simp only [ih]
      rfl

/-- **C19, every question mark is a place for a parameter.** The question marks among the tokens of
a text are as many as the question marks in the text. -/
theorem C19_every_question_mark (pf : String → Option F64) (text : Bytes) (skel : List Token)
    (h : lex pf text [] = .ok skel) : holes skel = text.count 63 := by
  have hr := (C42_text_is_split_exactly pf text skel).1 h
  clear h
  induction hr with
  | nil => rfl
  | @blank c rest ts hc _ ih =>
    rw [ih, List.count_cons_of_ne (by rcases hc with rfl | rfl | rfl <;> decide)]
  | @word c w rest t ts h1 h2 h3 h4 _ ih =>
    have hne : t ≠ qmark := by rw [← (wordToken_iff _ _).2 h4]; exact wordToken_ne_qmark _
    have hw : (c :: w).count 63 = 0 := by
      rw [List.count_eq_zero]
      intro hm
      have : WordChar 63 := by
        rcases List.mem_cons.1 hm with rfl | hm
        · exact .inl h1
        · exact h2 _ hm
      revert this; unfold WordChar WordStart; decide
    rw [holes_cons_ne hne, ih, List.count_append, hw, Nat.zero_add]
  | @symbol c s rest ts h1 h2 _ ih =>
    have hs := (C18_symbol_exact c s).2 h2
    by_cases hc : c = 63
    · subst hc
      rw [sym63] at hs; cases hs
      rw [show Token.sym .symQuestion = qmark from rfl, holes_cons_qmark, ih, List.count_cons_self]
    · rw [holes_cons_ne (sym_qmark hs hc), ih, List.count_cons_of_ne hc]

example : Reads (ascii "SELECT x1?	True") [.kw (.statement .select), .ident (ascii "x1"), qmark, .lit (.bool true)] := by
  rw [← C42_text_is_split_exactly (fun _ => none)]
  decide +kernel

end Verif.Lex
