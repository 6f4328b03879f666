import Verif.Server.Hub
import Verif.Cli.Repl
import Verif.Cli.ParamTheorems
import Verif.Ql.Meaning
import Verif.Server.Frame
/-!
C62: the prompt of the shell names the space that the connection uses.
-/
namespace Verif.Cli
open Lex (Token lex isAlpha isIdent isBlank eqIgnoreCase ascii WordStart WordChar WordMeans Reads ParamEncodes lower)
open Verif.Server (Outside Srv Sess Answer serve execute)
open Verif.Ql (nm Use Query)

/-! ### Specification -/

/-- The prompt that a connection should show. -/
def promptFor : Option String → Bytes
  | none => ascii "> "
  | some space => encStr space ++ ascii "> "

/-- `use` -/
def tUse : Token := .kw (.statement .use)
/-- `null` -/
def tNull : Token := .kw (.misc .null)

/-- A line that is typed with care, on a connection `x` to a server in state `s`: if it means `use null` it is spelled so, with
one blank and nothing around it; if it means `use $current`, there is no blank after the dollar sign, and the current
space has not been dropped. Nothing is asked of any other line. -/
def Careful (o : Outside) (s : Srv) (x : Sess) (text : Bytes) : Prop :=
  ∀ k q is, parameterize o.pf text = .send k q is →
    (Reads q [tUse, tNull] → q.map lower = ascii "use null") ∧
    ∀ b, b.map lower = ascii "current" → Reads q [tUse, .sym .symDollar, .ident b] →
      (∀ pre c post, q = pre ++ 36 :: c :: post → ¬ (c = 32 ∨ c = 9 ∨ c = 10)) ∧
      ∀ n, x.cs = some n → (s.cat.spaces n).isSome

/-- The client library sends the parameters of the line in the encoding that the protocol prescribes. -/
def Encodes (enc : Item → Bytes) (o : Outside) (text : Bytes) : Prop :=
  ∀ k q is, parameterize o.pf text = .send k q is → ∀ i ∈ is, ParamEncodes o.pf i.token (enc i)

/-- Each line is typed with care. -/
def AllCareful (enc : Item → Bytes) : List ((Srv → Srv) × Outside × Bytes) → Srv → Sess → Bytes → Prop
  | [], _, _, _ => True
  | (others, o, text) :: rest, s, x, prompt =>
    Encodes enc o text ∧ Careful o (others s) x text ∧
    ∀ s' x' p', line enc o (others s) x prompt text = .waits s' x' p' → AllCareful enc rest s' x' p'

/-! ### Proof -/

theorem encStr_nm {b : Bytes} (h : ∀ x ∈ b, WordChar x) : encStr (nm b) = b := by
  have key : ∀ x : UInt8, WordChar x → String.utf8EncodeChar (Char.ofNat x.toNat) = [x] := fun x =>
    Lex.forall_u8 (P := fun x => WordChar x → String.utf8EncodeChar (Char.ofNat x.toNat) = [x])
      (by unfold WordChar WordStart; decide +kernel) x
  have : (b.map fun x => Char.ofNat x.toNat).flatMap String.utf8EncodeChar = b := by
    induction b with
    | nil => rfl
    | cons x b ih => simp [key x (h x (by simp)), ih fun y hy => h y (by simp [hy])]
  unfold encStr nm
  rw [String.toByteArray_ofList, List.utf8Encode, this]
  simp

theorem blank_space {c : UInt8} (h : isBlank c = true) : isSpace c = true :=
  Lex.forall_u8 (P := fun c => isBlank c = true → isSpace c = true) (by decide +kernel) c h

theorem word_not_space {c : UInt8} (h : WordChar c) : isSpace c = false :=
  Lex.forall_u8 (P := fun c => WordChar c → isSpace c = false) (by unfold WordChar WordStart; decide +kernel) c h

theorem symbol_not_space {c : UInt8} {s : Lex.Symbol} (h : c.toNat = (Lex.Symbol.char s).toNat) : isSpace c = false := by
  have : c = UInt8.ofNat (Lex.Symbol.char s).toNat := by rw [← h]; simp
  subst this
  cases s <;> decide

theorem reads_nil {q : Bytes} (h : Reads q []) : ∀ c ∈ q, isSpace c = true := by
  generalize hts : ([] : List Token) = ts at h
  induction h with
  | nil => simp
  | blank hc _ ih =>
    intro x hx
    rcases List.mem_cons.1 hx with rfl | hx
    · exact blank_space ((Lex.isBlank_iff _).2 hc)
    · exact ih hts x hx
  | word => cases hts
  | symbol => cases hts

/-- The first token of a text. -/
theorem reads_cons {q : Bytes} {t : Token} {ts : List Token} (h : Reads q (t :: ts)) :
    (∃ c w rest, q.dropWhile isSpace = c :: w ++ rest ∧ WordStart c ∧ (∀ x ∈ w, WordChar x) ∧ Ends rest ∧ WordMeans (c :: w) t ∧
      Reads rest ts) ∨
    ∃ c s rest, q.dropWhile isSpace = c :: rest ∧ t = .sym s ∧ c.toNat = (Lex.Symbol.char s).toNat ∧ Reads rest ts := by
  generalize hts : t :: ts = us at h
  induction h with
  | nil => cases hts
  | blank hc _ ih =>
    rw [List.dropWhile_cons, if_pos (blank_space ((Lex.isBlank_iff _).2 hc))]
    exact ih hts
  | @word c w rest t' ts' h1 h2 h3 h4 h5 _ =>
    cases hts
    refine .inl ⟨c, w, rest, ?_, h1, h2, h3, h4, h5⟩
    rw [List.cons_append, List.dropWhile_cons, if_neg (by rw [word_not_space (.inl h1)]; simp)]
  | @symbol c s rest ts' h1 h2 h3 _ =>
    cases hts
    refine .inr ⟨c, s, rest, ?_, rfl, h2, h3⟩
    rw [List.dropWhile_cons, if_neg (by rw [symbol_not_space h2]; simp)]

theorem reads_word {q : Bytes} {t : Token} {ts : List Token} (h : Reads q (t :: ts)) (ht : ∀ s, t ≠ .sym s) :
    ∃ c w rest, q.dropWhile isSpace = c :: w ++ rest ∧ WordStart c ∧ (∀ x ∈ w, WordChar x) ∧ Ends rest ∧ WordMeans (c :: w) t ∧
      Reads rest ts := by
  rcases reads_cons h with h | ⟨_, s, _, _, h, _⟩
  · exact h
  · exact absurd h (ht s)

theorem takeWhile_piece {w rest : Bytes} (hw : ∀ x ∈ w, isSpace x = false) (hr : ∀ x, rest.head? = some x → isSpace x = true) :
    (w ++ rest).takeWhile (fun b => !isSpace b) = w ∧ (w ++ rest).dropWhile (fun b => !isSpace b) = rest := by
  induction w with
  | nil =>
    cases rest with
    | nil => simp
    | cons x rest => simp [hr x rfl]
  | cons x w ih =>
    have := ih fun y hy => hw y (by simp [hy])
    simp [hw x (by simp), this.1, this.2]

theorem firstPiece_of {q w rest : Bytes} {c : UInt8} (hq : q.dropWhile isSpace = c :: w ++ rest)
    (hw : ∀ x ∈ c :: w, isSpace x = false) (hr : ∀ x, rest.head? = some x → isSpace x = true) :
    firstPiece q = some (c :: w, rest) := by
  unfold firstPiece
  rw [hq]
  simp only [List.cons_append]
  rw [← List.cons_append, (takeWhile_piece hw hr).1, (takeWhile_piece hw hr).2]

theorem spaces_or_head {rest : Bytes} : (∀ x, rest.head? = some x → isSpace x = true) ∨
    ∃ c r, rest = c :: r ∧ isSpace c = false ∧ rest.dropWhile isSpace = rest := by
  cases rest with
  | nil => exact .inl (by simp)
  | cons c r =>
    cases h : isSpace c with
    | true => exact .inl (by intro x hx; cases hx; exact h)
    | false => exact .inr ⟨c, r, rfl, h, by rw [List.dropWhile_cons, if_neg (by simp [h])]⟩

theorem means_kw {w : Bytes} {k : Lex.Keyword} (h : WordMeans w (.kw k)) : w.map lower = ascii k.spelling := by
  cases h with
  | keyword _ h => exact h

theorem means_ident {w b : Bytes} (h : WordMeans w (.ident b)) : b = w ∧ ∀ k : Lex.Keyword, w.map lower ≠ ascii k.spelling := by
  cases h with
  | name h _ _ => exact ⟨rfl, h⟩

theorem word_chars {c : UInt8} {w : Bytes} (h1 : WordStart c) (h2 : ∀ x ∈ w, WordChar x) : ∀ x ∈ c :: w, WordChar x := by
  intro x hx
  rcases List.mem_cons.1 hx with rfl | hx
  · exact .inl h1
  · exact h2 x hx

theorem useKind_space {q b : Bytes} (h : Reads q [tUse, .ident b]) : useKind q = .useSpace b ∧ ∀ x ∈ b, WordChar x := by
  obtain ⟨c, w, rest, e, h1, h2, h3, h4, h5⟩ := reads_word h (by simp [tUse])
  obtain ⟨c', w', rest', e', h1', h2', h3', h4', h5'⟩ := reads_word h5 (by simp)
  obtain ⟨rfl, _⟩ := means_ident h4'
  have hs : ∀ x, rest.head? = some x → isSpace x = true := by
    rcases spaces_or_head (rest := rest) with hs | ⟨x, r, hx, _, hd⟩
    · exact hs
    · rw [hd, hx] at e'
      cases e'
      exact absurd (.inl h1') (h3 _ (by rw [hx]; rfl))
  have hs' : ∀ x, rest'.head? = some x → isSpace x = true := by
    intro x hx
    exact reads_nil h5' x (List.mem_of_head? hx)
  refine ⟨?_, word_chars h1' h2'⟩
  unfold useKind
  rw [firstPiece_of e (fun x hx => word_not_space (word_chars h1 h2 x hx)) hs]
  simp only
  rw [firstPiece_of e' (fun x hx => word_not_space (word_chars h1' h2' x hx)) hs']
  simp only
  rw [if_pos]
  have hu := means_kw h4
  have hc : lower c' ≠ 36 :=
    Lex.forall_u8 (P := fun c => WordStart c → lower c ≠ 36) (by unfold WordStart; decide +kernel) c' h1'
  simp only [Bool.and_eq_true, Bool.not_eq_true', Lex.eqIgnoreCase_iff]
  refine ⟨hu.trans (by decide), ?_⟩
  cases hx : eqIgnoreCase (c' :: w') (ascii "$current") with
  | false => rfl
  | true =>
    rw [Lex.eqIgnoreCase_iff] at hx
    rw [show (ascii "$current").map lower = 36 :: ascii "current" by decide] at hx
    simp only [List.map_cons, List.cons.injEq] at hx
    exact absurd hx.1 hc

theorem useKind_current {q b : Bytes} (h : Reads q [tUse, .sym .symDollar, .ident b]) (hb : b.map lower = ascii "current")
    (hd : ∀ pre c post, q = pre ++ 36 :: c :: post → ¬ (c = 32 ∨ c = 9 ∨ c = 10)) : useKind q = .standard := by
  obtain ⟨c, w, rest, e, h1, h2, h3, h4, h5⟩ := reads_word h (by simp [tUse])
  have hu : (c :: w).map lower = ascii "use" := (means_kw h4).trans (by decide)
  rcases reads_cons h5 with ⟨_, _, _, _, _, _, _, hm, _⟩ | ⟨d, s, rest2, e2, hs, hd2, h6⟩
  · cases hm
  cases hs
  have hd36 : d = 36 := by
    have : d = UInt8.ofNat d.toNat := by simp
    rw [this, hd2]; decide
  subst hd36
  obtain ⟨c', w', rest', e', h1', h2', h3', h4', h5'⟩ := reads_word h6 (by simp)
  obtain ⟨rfl, _⟩ := means_ident h4'
  have hs' : ∀ x, rest'.head? = some x → isSpace x = true := fun x hx => reads_nil h5' x (List.mem_of_head? hx)
  have hq : ∃ pre, q = pre ++ (c :: w ++ rest) := ⟨q.takeWhile isSpace, by rw [← e, List.takeWhile_append_dropWhile]⟩
  obtain ⟨pre, hq⟩ := hq
  have hr : ∃ pre', rest = pre' ++ 36 :: rest2 := ⟨rest.takeWhile isSpace, by rw [← e2, List.takeWhile_append_dropWhile]⟩
  obtain ⟨pre', hr⟩ := hr
  have e3 : rest2 = c' :: w' ++ rest' := by
    cases rest2 with
    | nil => cases e'
    | cons y r2 =>
      have hy := hd (pre ++ (c :: w ++ pre')) y r2 (by rw [hq, hr]; simp)
      rw [← e', List.dropWhile_cons, if_neg]
      intro hsp
      apply hy
      have := Lex.forall_u8 (P := fun y => isSpace y = true → (y = 32 ∨ y = 9 ∨ y = 10) ∨ y = 12 ∨ y = 13) (by decide +kernel) y hsp
      rcases this with h | h
      · exact h
      · exfalso
        cases h6 with
        | blank hc => rcases h with rfl | rfl <;> revert hc <;> decide
        | word hc => rcases h with rfl | rfl <;> revert hc <;> unfold WordStart <;> decide
  unfold useKind
  rcases spaces_or_head (rest := rest) with hsp | ⟨x, r, hx, hxs, hdr⟩
  · rw [firstPiece_of e (fun x hx => word_not_space (word_chars h1 h2 x hx)) hsp]
    simp only
    rw [firstPiece_of (c := 36) (w := c' :: w') (rest := rest') (by rw [e2, e3]; rfl)
      (by
        intro x hx
        rcases List.mem_cons.1 hx with rfl | hx
        · decide
        · exact word_not_space (word_chars h1' h2' x hx)) hs']
    simp only
    rw [if_neg]
    have : eqIgnoreCase (36 :: c' :: w') (ascii "$current") = true := by
      rw [Lex.eqIgnoreCase_iff, List.map_cons, hb]
      decide
    simp [this]
  · rw [hdr] at e2
    rw [e3] at e2
    have e4 : q.dropWhile isSpace = c :: (w ++ 36 :: c' :: w') ++ rest' := by rw [e, e2]; simp
    rw [firstPiece_of e4 (by
        intro x hx
        rcases List.mem_cons.1 hx with rfl | hx
        · exact word_not_space (.inl h1)
        · rcases List.mem_append.1 hx with hx | hx
          · exact word_not_space (h2 x hx)
          · rcases List.mem_cons.1 hx with rfl | hx
            · decide
            · exact word_not_space (word_chars h1' h2' x hx)) hs']
    simp only
    split
    · rfl
    · rw [if_neg]
      have : eqIgnoreCase (c :: (w ++ 36 :: c' :: w')) (ascii "use") = false := by
        cases hx : eqIgnoreCase (c :: (w ++ 36 :: c' :: w')) (ascii "use") with
        | false => rfl
        | true =>
          rw [Lex.eqIgnoreCase_iff] at hx
          have a := congrArg List.length hx
          have b := congrArg List.length hu
          simp only [List.length_map, List.length_cons, List.length_append] at a b
          have e : (ascii "use").length = 3 := by decide
          omega
      simp [this]

/-- `use null` is read as that, whatever its letters. -/
theorem reads_useNull {q : Bytes} (h : q.map lower = ascii "use null") :
    (∀ pf params ts, lex pf q params = .ok ts → ts = [tUse, tNull]) ∧ firstPiece q = some (q.take 3, q.drop 3) ∧
      (q.take 3).map lower = ascii "use" := by
  have hl : q.length = 8 := by have := congrArg List.length h; rw [List.length_map] at this; exact this
  match q, hl with
  | [a, b, c, d, e, f, g, i], _ =>
    rw [show ascii "use null" = [117, 115, 101, 32, 110, 117, 108, 108] by decide] at h
    simp only [List.map_cons, List.map_nil, List.cons.injEq, and_true] at h
    obtain ⟨ha, hb, hc, hd, he, hf, hg, hi⟩ := h
    have st : ∀ x : UInt8, lower x ∈ [117, 115, 101, 110, 108] → WordStart x := fun x =>
      Lex.forall_u8 (P := fun x => lower x ∈ [117, 115, 101, 110, 108] → WordStart x) (by unfold WordStart; decide +kernel) x
    have hd : d = 32 := Lex.forall_u8 (P := fun x => lower x = 32 → x = 32) (by decide +kernel) d hd
    subst hd
    have sa := st a (by simp [ha]); have sb := st b (by simp [hb]); have sc := st c (by simp [hc])
    have se := st e (by simp [he]); have sf := st f (by simp [hf]); have sg := st g (by simp [hg]); have si := st i (by simp [hi])
    refine ⟨fun pf params ts hx => ?_, ?_, ?_⟩
    · obtain ⟨e1, e2⟩ := Lex.takeDrop_word (w := [b, c]) (rest := [32, e, f, g, i])
        (by intro x hx; simp at hx; rcases hx with rfl | rfl <;> exact .inl ‹_›)
        (by intro x hx; cases hx; unfold WordChar WordStart; decide)
      obtain ⟨e3, e4⟩ := Lex.takeDrop_word (w := [f, g, i]) (rest := [])
        (by intro x hx; simp at hx; rcases hx with rfl | rfl | rfl <;> exact .inl ‹_›) (by simp)
      simp only [List.cons_append, List.nil_append, List.append_nil] at e1 e2 e3 e4
      rw [Lex.lex_cons, if_pos ((Lex.isStart_iff a).2 sa), e1, e2] at hx
      have hb32 : Lex.lex pf (32 :: [e, f, g, i]) params = Lex.lex pf [e, f, g, i] params := by
        rw [← Lex.lex_dropBlank pf (32 :: [e, f, g, i]), ← Lex.lex_dropBlank pf [e, f, g, i]]
        rw [List.dropWhile_cons, if_pos (by decide)]
      rw [hb32, Lex.lex_cons, if_pos ((Lex.isStart_iff e).2 se), e3, e4, Lex.lex_nil] at hx
      rw [(Lex.wordToken_iff [a, b, c] tUse).2 (.keyword _ (by simp only [List.map_cons, ha, hb, hc, List.map_nil]; decide)),
        (Lex.wordToken_iff [e, f, g, i] tNull).2 (.keyword _ (by simp only [List.map_cons, he, hf, hg, hi, List.map_nil]; decide))] at hx
      cases hx
      rfl
    · refine firstPiece_of (c := a) (w := [b, c]) (rest := [32, e, f, g, i]) ?_ ?_ ?_
      · rw [List.dropWhile_cons, if_neg (by rw [word_not_space (.inl sa)]; simp)]; rfl
      · intro x hx; simp at hx; rcases hx with rfl | rfl | rfl <;> exact word_not_space (.inl ‹_›)
      · intro x hx; cases hx; decide
    · simp only [List.take, List.map_cons, List.map_nil, ha, hb, hc]; decide

theorem push_lit {t : Token} {r : Except Lex.LexError (List Token)} {ts : List Token} (h : Lex.push t r = .ok ts) :
    ∃ ts', r = .ok ts' ∧ ts = t :: ts' := Lex.push_ok h

/-- A query without literals among its tokens is read from its text alone. -/
theorem reads_of_lex {pf : String → Option F64} {enc : Item → Bytes} :
    ∀ (n : Nat) {q : Bytes} {is : List Item} {ts : List Token}, (∀ i ∈ is, ParamEncodes pf i.token (enc i)) → q.length ≤ n → lex pf q (is.map enc).flatten = .ok ts →
      (∀ l, .lit l ∉ ts) → Reads q ts
  | n, [], is, ts, _, _, h, _ => by rw [Lex.lex_nil] at h; cases h; exact .nil
  | 0, b :: rest, is, ts, _, hn, h, _ => by simp at hn
  | n + 1, b :: rest, is, ts, henc, hn, h, hl => by
    simp only [List.length_cons] at hn
    rw [Lex.lex_cons] at h
    by_cases h1 : (isAlpha b || b == 95) = true
    · rw [if_pos h1] at h
      obtain ⟨ts', hts, rfl⟩ := Lex.push_ok h
      have hr := reads_of_lex n henc (by have := Lex.dropWhile_le (p := isIdent) rest; omega) hts
        (fun l hx => hl l (List.mem_cons_of_mem _ hx))
      have := Reads.word ((Lex.isStart_iff b).1 h1) (w := rest.takeWhile isIdent)
        (fun x hx => (Lex.isIdent_iff x).1 (Lex.mem_takeWhile _ _ _ hx))
        (fun x hx hw => by have := Lex.head_dropWhile _ _ _ hx; rw [(Lex.isIdent_iff x).2 hw] at this; cases this)
        ((Lex.wordToken_iff _ _).1 rfl) hr
      rwa [List.cons_append, List.takeWhile_append_dropWhile] at this
    · rw [if_neg h1] at h
      split at h
      · exfalso
        rename_i hq
        cases is with
        | nil => simp at hq
        | cons i is =>
          rw [List.map_cons, List.flatten_cons, Lex.nextParam_encodes (henc i (by simp))] at h
          simp only at h
          obtain ⟨ts', _, rfl⟩ := Lex.push_ok h
          cases i <;> exact hl _ List.mem_cons_self
      · split at h
        · rename_i hb
          rw [Lex.lex_dropBlank] at h
          exact .blank ((Lex.isBlank_iff b).1 hb) (reads_of_lex n henc (by omega) h hl)
        · split at h
          · rename_i s hs
            obtain ⟨ts', hts, rfl⟩ := Lex.push_ok h
            exact .symbol (fun hw => h1 ((Lex.isStart_iff b).2 hw)) ((Lex.C18_symbol_exact b s).1 hs)
              (reads_of_lex n henc (by omega) hts (fun l hx => hl l (List.mem_cons_of_mem _ hx)))
          · cases h

/-- A text whose first piece is `use` is read as a text that begins with `use`. -/
theorem lex_use {pf : String → Option F64} : ∀ {q params u r : Bytes} {ts : List Token}, firstPiece q = some (u, r) →
    u.map lower = ascii "use" → lex pf q params = .ok ts → ∃ ts', ts = tUse :: ts'
  | [], _, _, _, _, h, _, _ => by cases h
  | b :: rest, params, u, r, ts, h, hu, hl => by
    by_cases hs : isSpace b = true
    · have h' : firstPiece rest = some (u, r) := by
        unfold firstPiece at h ⊢
        rwa [List.dropWhile_cons, if_pos hs] at h
      have hb : isBlank b = true := by
        rcases Lex.forall_u8 (P := fun y => isSpace y = true → isBlank y = true ∨ y = 12 ∨ y = 13) (by decide +kernel) b hs with h | rfl | rfl
        · exact h
        · rw [Lex.lex_cons, if_neg (by decide), if_neg (by simp), if_neg (by decide)] at hl
          cases hl
        · rw [Lex.lex_cons, if_neg (by decide), if_neg (by simp), if_neg (by decide)] at hl
          cases hl
      have : lex pf rest params = .ok ts := by
        rw [← hl, ← Lex.lex_dropBlank pf (b :: rest), ← Lex.lex_dropBlank pf rest, List.dropWhile_cons, if_pos hb]
      exact lex_use h' hu this
    · unfold firstPiece at h
      rw [List.dropWhile_cons, if_neg hs] at h
      simp only [Option.some.injEq, Prod.mk.injEq] at h
      obtain ⟨h1, h2⟩ := h
      rw [List.takeWhile_cons, if_pos (by simp [hs])] at h1
      have h3 : rest = rest.takeWhile (fun b => !isSpace b) ++ rest.dropWhile (fun b => !isSpace b) :=
        (List.takeWhile_append_dropWhile).symm
      generalize rest.takeWhile (fun b => !isSpace b) = w at h1 h3
      have h4 : ∀ x, (rest.dropWhile (fun b => !isSpace b)).head? = some x → ¬ WordChar x := by
        intro x hx hw
        have := Lex.head_dropWhile _ _ _ hx
        rw [word_not_space hw] at this
        cases this
      generalize rest.dropWhile (fun b => !isSpace b) = r' at h3 h4
      subst h1
      have st : ∀ x : UInt8, lower x ∈ ascii "use" → WordStart x := fun x =>
        Lex.forall_u8 (P := fun x => lower x ∈ ascii "use" → WordStart x) (by unfold WordStart; decide +kernel) x
      have hall : ∀ x ∈ b :: w, WordStart x := fun x hx => st x (hu ▸ List.mem_map_of_mem hx)
      rw [Lex.lex_cons, if_pos ((Lex.isStart_iff b).2 (hall b (by simp)))] at hl
      obtain ⟨ts', _, rfl⟩ := Lex.push_ok hl
      have e := (Lex.takeDrop_word (w := w) (rest := r') (fun x hx => .inl (hall x (by simp [hx]))) h4).1
      rw [← h3] at e
      rw [e, (Lex.wordToken_iff (b :: w) tUse).2 (.keyword _ (hu.trans (by decide)))]
      exact ⟨ts', rfl⟩

/-- What the parser makes of a text that begins with `use`. -/
theorem parse_use {root : Bool} {e : Ql.Env} {a : Query} (h : Ql.parse root e = .ok a) :
    (∀ ts, e.toks = tUse :: ts → ∃ u, a = .use u ∧ Ql.Gr.Uses ts u) ∧ (∀ u, a = .use u → ∃ ts, e.toks = tUse :: ts ∧ Ql.Gr.Uses ts u) := by
  obtain ⟨h', _, _⟩ := (Ql.C47_parser_is_grammar root e a).1 h
  clear h
  have h := h'
  clear h'
  constructor
  · intro ts hts
    rw [hts] at h
    generalize hus : tUse :: ts = us at h
    cases h with
    | ddl h => cases h <;> cases hus
    | sysctl h => cases hus
    | use h => cases hus; exact ⟨_, rfl, h⟩
    | inspect h => cases hus
    | rows h => cases h <;> cases hus
  · rintro u rfl
    generalize e.toks = us at h
    cases h with
    | use h => exact ⟨_, rfl, h⟩

theorem parameterize_kind {pf : String → Option F64} {text q : Bytes} {k : Kind} {is : List Item}
    (h : parameterize pf text = .send k q is) : kindOf q = some k := by
  unfold parameterize finish at h
  repeat' split at h
  all_goals cases h
  assumption

theorem kindOf_cases {q : Bytes} {k : Kind} (h : kindOf q = some k) :
    (q.map lower = ascii "use null" ∧ k = .useNull) ∨ (q.map lower ≠ ascii "use null" ∧ (k = useKind q ∨
      (k = .special ∧ (q.take 8).map lower = ascii "inspect "))) := by
  have e : (ascii "use null").map lower = ascii "use null" := by decide
  have e' : (ascii "inspect ").map lower = ascii "inspect " := by decide
  unfold kindOf at h
  split at h
  · rename_i hq
    rw [Lex.eqIgnoreCase_iff, e] at hq
    cases h
    exact .inl ⟨hq, rfl⟩
  · rename_i hq
    rw [Lex.eqIgnoreCase_iff, e] at hq
    refine .inr ⟨hq, ?_⟩
    split at h
    · cases h; exact .inl rfl
    · split at h
      · cases h
      · split at h
        · rename_i hi
          rw [Lex.eqIgnoreCase_iff, e'] at hi
          cases h
          exact .inr ⟨rfl, hi⟩
        · cases h; exact .inl rfl

theorem not_inspect {q : Bytes} {ts : List Token} (h : Reads q (tUse :: ts)) : (q.take 8).map lower ≠ ascii "inspect " := by
  intro hi
  obtain ⟨c, w, rest, e, h1, h2, h3, h4, h5⟩ := reads_word h (by simp [tUse])
  have hu := means_kw h4
  rw [show ascii "inspect " = 105 :: ascii "nspect " by decide] at hi
  rw [show ascii (Lex.Keyword.spelling (.statement .use)) = [117, 115, 101] by decide] at hu
  cases q with
  | nil => cases hi
  | cons x q =>
    simp only [List.take_succ_cons, List.map_cons, List.cons.injEq] at hi hu
    have hx : isSpace x = false :=
      Lex.forall_u8 (P := fun x => lower x = 105 → isSpace x = false) (by decide +kernel) x hi.1
    rw [List.dropWhile_cons, if_neg (by simp [hx])] at e
    cases e
    rw [hi.1] at hu
    exact absurd hu.1 (by decide)

theorem execute_use {o : Outside} {s : Srv} {x : Sess} {u : Use} :
    execute o s x (.use u) = (s, (Server.runUse s x u).1, (Server.runUse s x u).2, none) := rfl

theorem execute_other {o : Outside} {s : Srv} {x : Sess} {a : Query} (h : ∀ u, a ≠ .use u) : (execute o s x a).2.1 = x := by
  cases a with
  | use u => exact absurd rfl (h u)
  | sysctl s => cases s <;> rfl
  | inspect i => simp only [execute]; split <;> rfl
  | rows q => simp only [execute]; split <;> rfl
  | ddl d => rfl

/-- A line that is sent leaves the prompt right. -/
theorem send_prompt {enc : Item → Bytes} {o : Outside} {s s' : Srv} {x x' : Sess} {text q p' : Bytes} {k : Kind} {is : List Item}
    (he : Encodes enc o text) (hc : Careful o s x text) (hp : parameterize o.pf text = .send k q is)
    (h : respond k (promptFor x.cs) (serve o s x q (is.map enc).flatten) = .waits s' x' p') : p' = promptFor x'.cs := by
  have hk := kindOf_cases (parameterize_kind hp)
  obtain ⟨c1, c2⟩ := hc k q is hp
  have henc := he k q is hp
  have keep : ∀ {a b : Bytes}, x' = x → a = promptFor x.cs → a = promptFor x'.cs := fun e h => e ▸ h
  -- the tokens
  cases hl : lex o.pf q (is.map enc).flatten with
  | error e =>
    have : serve o s x q (is.map enc).flatten = (s, x, .lexError e, none) := by unfold serve; rw [hl]
    rw [this] at h
    simp only [respond, got] at h
    cases h; rfl
  | ok toks =>
    cases ha : Ql.parse x.client.root ⟨toks, x.cs, o.uuidStr, o.uuidBin, o.time⟩ with
    | err e =>
      have : serve o s x q (is.map enc).flatten = (s, x, .syntaxError e, none) := by unfold serve; rw [hl]; simp only [ha]
      rw [this] at h
      simp only [respond, got] at h
      cases h; rfl
    | panic =>
      have : serve o s x q (is.map enc).flatten = (s, x, .crash, none) := by unfold serve; rw [hl]; simp only [ha]
      rw [this] at h
      simp only [respond, got] at h
      cases h
    | hang =>
      have : serve o s x q (is.map enc).flatten = (s, x, .crash, none) := by unfold serve; rw [hl]; simp only [ha]
      rw [this] at h
      simp only [respond, got] at h
      cases h
    | ok a =>
      have hs : serve o s x q (is.map enc).flatten = execute o s x a := by unfold serve; rw [hl]; simp only [ha]
      rw [hs] at h
      obtain ⟨p1, p2⟩ := parse_use ha
      by_cases hu : ∃ u, a = .use u
      · obtain ⟨u, rfl⟩ := hu
        obtain ⟨ts, e1, e2⟩ := p2 u rfl
        simp only at e1
        subst e1
        have hr : Reads q (tUse :: ts) := by
          refine reads_of_lex q.length henc (Nat.le_refl _) hl ?_
          intro l hm
          cases e2 <;> simp [tUse, Ql.kw] at hm
        have hni := not_inspect hr
        rw [execute_use] at h
        cases e2 with
        | space b =>
          obtain ⟨k1, k2⟩ := useKind_space hr
          have hk : k = .useSpace b := by
            rcases hk with ⟨g, _⟩ | ⟨_, g | ⟨_, g⟩⟩
            · have := (reads_useNull g).1 _ _ _ hl
              simp [tNull] at this
            · rw [g, k1]
            · exact absurd g hni
          subst hk
          simp only [Server.runUse] at h
          split at h
          · simp only [respond, got, newPrompt, Option.getD_some] at h
            cases h
            show _ = promptFor (some (nm b))
            simp only [promptFor, encStr_nm k2]
            rfl
          · simp only [respond, got] at h
            cases h; rfl
        | null =>
          have hk : k = .useNull := by
            rcases hk with ⟨_, g⟩ | ⟨g, _⟩
            · exact g
            · exact absurd (c1 hr) g
          subst hk
          simp only [Server.runUse, respond, got, newPrompt, Option.getD_some] at h
          cases h
          rfl
        | @current b hw =>
          have hb : b.map lower = ascii "current" := by
            have := (Lex.eqIgnoreCase_iff _ _).1 hw
            exact this.trans (by decide)
          obtain ⟨d1, d2⟩ := c2 b hb hr
          have hk : k = .standard := by
            rcases hk with ⟨g, _⟩ | ⟨_, g | ⟨_, g⟩⟩
            · have := (reads_useNull g).1 _ _ _ hl
              simp [tNull] at this
            · rw [g, useKind_current hr hb d1]
            · exact absurd g hni
          subst hk
          simp only [Server.runUse] at h
          cases hcs : x.cs with
          | none =>
            rw [hcs] at h
            simp only [respond, got, newPrompt, Option.getD_none] at h
            cases h
            rw [hcs]
          | some n =>
            rw [hcs] at h
            simp only [d2 n hcs, if_true, respond, got, newPrompt, Option.getD_none] at h
            cases h
            rw [hcs]
      · have hx : (execute o s x a).2.1 = x := execute_other fun u hu' => hu ⟨u, hu'⟩
        have hnt : ∀ ts, toks ≠ tUse :: ts := fun ts ht => by
          obtain ⟨u, hu', _⟩ := p1 ts ht
          exact hu ⟨u, hu'⟩
        have hkn : newPrompt k = none := by
          rcases hk with ⟨g, _⟩ | ⟨_, g | ⟨g, _⟩⟩
          · exact absurd ((reads_useNull g).1 _ _ _ hl) (hnt _)
          · rw [g]
            unfold useKind
            split
            · rfl
            · rename_i u r hf
              split
              · rfl
              · split
                · rename_i hi
                  simp only [Bool.and_eq_true, Lex.eqIgnoreCase_iff] at hi
                  obtain ⟨ts', ht⟩ := lex_use hf (hi.1.trans (by decide)) hl
                  exact absurd ht (hnt _)
                · rfl
          · rw [g]; rfl
        rcases hex : execute o s x a with ⟨s1, x1, a1, ev⟩
        rw [hex] at h hx
        simp only at hx
        subst hx
        simp only [respond, hkn, Option.getD_none] at h
        split at h <;> cases h <;> rfl

theorem line_prompt {enc : Item → Bytes} {o : Outside} {s s' : Srv} {x x' : Sess} {text p' : Bytes}
    (he : Encodes enc o text) (hc : Careful o s x text)
    (h : line enc o s x (promptFor x.cs) text = .waits s' x' p') : p' = promptFor x'.cs := by
  unfold line at h
  split at h
  · cases h; rfl
  split at h
  · cases h
  split at h
  · cases h; rfl
  split at h
  · cases h; rfl
  split at h
  · cases h; rfl
  · cases h
  · rename_i k q is hp
    exact send_prompt he hc hp h

/-! ### Theorems -/

theorem lines_prompt (enc : Item → Bytes) : ∀ (ls : List ((Srv → Srv) × Outside × Bytes)) (s : Srv) (x : Sess),
    AllCareful enc ls s x (promptFor x.cs) → ∀ s' x' p', lines enc ls s x (promptFor x.cs) = .waits s' x' p' →
      p' = promptFor x'.cs
  | [], s, x, _, s', x', p', h => by
    cases h; rfl
  | (others, o, text) :: rest, s, x, hc, s', x', p', h => by
    obtain ⟨h1, h2, h3⟩ := hc
    unfold lines at h
    split at h
    · cases h
    · rename_i s1 x1 p1 hl
      have hp := line_prompt h1 h2 hl
      subst hp
      exact lines_prompt enc rest s1 x1 (h3 _ _ _ hl) s' x' p' h

/-- **C62 (partial).** Take any lines that are typed into the shell after it connected, whatever other clients do in between. As
long as the shell runs, its prompt names the space that the connection uses, or none if it uses none. Missing: the spellings of
`use null` and `use $current` that `Careful` excludes, and `use $current` after the space was dropped. -/
theorem C62_prompt_partial (enc : Item → Bytes) (ls : List ((Srv → Srv) × Outside × Bytes)) (s : Srv) (x : Sess)
    (hx : x.cs = none) (hc : AllCareful enc ls s x PROMPT) (s' : Srv) (x' : Sess) (p' : Bytes)
    (h : lines enc ls s x PROMPT = .waits s' x' p') : p' = promptFor x'.cs := by
  have e : PROMPT = promptFor x.cs := by rw [hx]; rfl
  rw [e] at hc h
  exact lines_prompt enc ls s x hc s' x' p' h

/-- What the shell takes for an error is an error on the wire, and it ends where the server sends nothing. -/
theorem C62_errors (a : Server.Answer) :
    (got a = .gone ↔ Server.told a = none) ∧ (got a = .error ↔ ∃ n, Server.told a = some (.error n)) := by
  cases a with
  | ddl r => cases r with
    | ok b => cases b <;> simp [got, Server.told]
    | _ => simp [got, Server.told]
  | rows r => cases r <;> simp [got, Server.told]
  | _ => simp [got, Server.told]

section Example

private def ofl : Dml.FloatOps := ⟨fun a _ => a, fun a _ => a, fun a _ => a, fun a _ => a⟩
private def out : Outside :=
  ⟨Gns.fine 1, id, List.reverse, ofl, fun _ => none, fun _ => "", fun _ => [], fun _ => 0, true, fun _ => [], fun _ => [],
    fun sp => sp.models⟩
private def root : Sess := ⟨⟨"root", true⟩, none⟩
private def srv : Srv := ⟨Gns.Cat.empty, fun _ _ => Server.Rows.none⟩
private def noEnc : Item → Bytes := fun _ => []

/-- The prompt after the lines, and the space that the connection uses. -/
private def shown (ls : List String) : Option (Bytes × Option String) :=
  match lines noEnc (ls.map fun l => (id, out, ascii l)) srv root PROMPT with
  | .ended _ => none
  | .waits _ x p => some (p, x.cs)

/-- A session: the prompt follows the spaces that exist; other queries and queries with errors leave it as it is. -/
example : shown ["create space a", "USE a"] = some (ascii "a> ", some "a") ∧
    shown ["create space a", "use a", "use b", "!help", "", "use $current", "select"] = some (ascii "a> ", some "a") ∧
    shown ["create space a", "use a", "Use Null"] = some (ascii "> ", none) ∧
    shown ["create space a", "use a", "exit"] = none := by
  refine ⟨?_, ?_, ?_, ?_⟩ <;> decide +kernel

private theorem careful_of {text : Bytes} {k : Kind} {q : Bytes} {is : List Item} {ts : List Token} {s : Srv} {x : Sess}
    (h : parameterize out.pf text = .send k q is) (hl : lex out.pf q [] = .ok ts) (h1 : ts ≠ [tUse, tNull])
    (h2 : ∀ b, ts ≠ [tUse, .sym .symDollar, .ident b]) : Careful out s x text := by
  intro k' q' is' h'
  rw [h] at h'
  cases h'
  have one : ∀ us, Reads q us → us = ts := by
    intro us hu
    have := (Lex.C42_text_is_split_exactly out.pf q us).2 hu
    rw [hl] at this
    cases this
    rfl
  exact ⟨fun hr => absurd (one _ hr).symm h1, fun b _ hr => absurd (one _ hr).symm (h2 b)⟩

/-- The theorem applies to it. -/
example : AllCareful noEnc [(id, out, ascii "create space a"), (id, out, ascii "USE a")] srv root PROMPT := by
  have e1 : parameterize out.pf (ascii "create space a") = .send .standard (ascii "create space a") [] := by decide +kernel
  have e2 : parameterize out.pf (ascii "USE a") = .send (.useSpace (ascii "a")) (ascii "USE a") [] := by decide +kernel
  refine ⟨?_, ?_, fun s' x' p' _ => ⟨?_, ?_, fun _ _ _ _ => trivial⟩⟩
  · intro k q is h; rw [e1] at h; cases h; simp
  · exact careful_of e1 (ts := [.kw (.statement .create), .kw (.misc .space), .ident (ascii "a")]) (by decide +kernel)
      (by decide) (by intro b; simp)
  · intro k q is h; rw [e2] at h; cases h; simp
  · exact careful_of e2 (ts := [tUse, .ident (ascii "a")]) (by decide +kernel) (by decide) (by intro b; simp)

/-- **C62 is violated.** With a blank at its end, `use null ` leaves the connection without a space, and the prompt says
`null`; `use $ current` changes nothing, and the prompt says `$`; after the space was dropped, `use $current` leaves the
connection without a space, and the prompt still names it. -/
theorem C62_prompt_violated :
    shown ["create space a", "use a", "use null "] = some (ascii "null> ", none) ∧
    shown ["create space a", "use a", "use $ current"] = some (ascii "$> ", some "a") ∧
    shown ["create space a", "use a", "drop space a", "use $current"] = some (ascii "a> ", none) := by
  refine ⟨?_, ?_, ?_⟩ <;> decide +kernel

end Example

end Verif.Cli
