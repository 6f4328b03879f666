import Verif.Cli.Param
import Verif.Lex.TextTheorems
/-!
C51: what is typed into the shell is what the server reads.
-/
namespace Verif.Cli

open Lex (Lit Token Symbol lex isAlpha isIdent isBlank eqIgnoreCase ascii WordStart WordChar WordMeans Reads
  ParamEncodes fill qmark lower)
open Num (isDigit AllDigits digitsVal)

/-! ### Specification -/

/-- How the bytes of a text are written between quotes: a backslash before the quote and before a
backslash, everything else as it is. -/
def quoted (quote : UInt8) : Bytes → Bytes
  | [] => []
  | b :: s => if b = 92 ∨ b = quote then 92 :: b :: quoted quote s else b :: quoted quote s

/-- A piece of a query as it is typed. -/
inductive Piece where
  | blank (c : UInt8)
  | word (w : Bytes) (t : Token)
  | symbol (s : Symbol)
  | uint (ds : Bytes) (v : UInt64)
  | sint (ds : Bytes) (v : Int64)
  | float (ds es : Bytes) (v : F64)
  | str (quote : UInt8) (s : String)
  | bin (b : Bytes)

/-- The token that a piece stands for. -/
def Piece.token : Piece → Option Token
  | .blank _ => none
  | .word _ t => some t
  | .symbol s => some (.sym s)
  | .uint _ v => some (.lit (.uint v))
  | .sint _ v => some (.lit (.sint v))
  | .float _ _ v => some (.lit (.float v))
  | .str _ s => some (.lit (.str s))
  | .bin b => some (.lit (.bin b))

/-- The tokens that the pieces stand for. -/
def meaning (ps : List Piece) : List Token := ps.filterMap Piece.token

/-- Nothing that would continue a word or a number stands at the beginning. -/
def Ends (rest : Bytes) : Prop := ∀ x, rest.head? = some x → ¬ WordChar x

/-- The language of the shell: a text and its pieces. It is the language of queries with literals in
it: decimal numbers, floating-point numbers, text in quotes, binary data in accents. -/
inductive Says (pf : String → Option F64) : Bytes → List Piece → Prop where
  | nil : Says pf [] []
  | blank {c rest ps} : (c = 32 ∨ c = 9 ∨ c = 10) → Says pf rest ps → Says pf (c :: rest) (.blank c :: ps)
  | word {c w rest t ps} : WordStart c → (∀ x ∈ w, WordChar x) → Ends rest → WordMeans (c :: w) t →
      Says pf rest ps → Says pf (c :: w ++ rest) (.word (c :: w) t :: ps)
  | symbol {c s rest ps} : ¬ WordStart c → c.toNat = (Symbol.char s).toNat → c ∉ [45, 34, 39, 96] →
      Says pf rest ps → Says pf (c :: rest) (.symbol s :: ps)
  | uint {ds v rest ps} : AllDigits ds → ds ≠ [] → digitsVal ds = v.toNat → Ends rest →
      rest.head? ≠ some 46 → Says pf rest ps → Says pf (ds ++ rest) (.uint ds v :: ps)
  | sint {ds v rest ps} : AllDigits ds → ds ≠ [] → -(digitsVal ds : Int) = v.toInt → Ends rest →
      rest.head? ≠ some 46 → Says pf rest ps → Says pf (45 :: ds ++ rest) (.sint ds v :: ps)
  | float {ds es v rest ps} : AllDigits ds → ds ≠ [] → AllDigits es →
      (decStr (ds ++ 46 :: es)).bind pf = some v → Ends rest →
      Says pf rest ps → Says pf (ds ++ 46 :: es ++ rest) (.float ds es v :: ps)
  | str {quote s rest ps} : (quote = 34 ∨ quote = 39) → Says pf rest ps →
      Says pf (quote :: quoted quote (encStr s) ++ quote :: rest) (.str quote s :: ps)
  | bin {b rest ps} : 96 ∉ b → Says pf rest ps → Says pf (96 :: b ++ 96 :: rest) (.bin b :: ps)

/-- What the shell in fact gets right: no negative numbers, no binary data, no backslash and not the
enclosing quote in a text, no question mark outside texts, no line feed right after a whole number
and no blank right after a floating-point number, whose whole part is below 2^64. -/
def Plain : List Piece → Prop
  | [] => True
  | .blank _ :: ps => Plain ps
  | .word _ _ :: ps => Plain ps
  | .symbol s :: ps => s ≠ .symQuestion ∧ Plain ps
  | .uint _ _ :: ps => (∀ rest, ps ≠ .blank 10 :: rest) ∧ Plain ps
  | .sint _ _ :: _ => False
  | .float ds _ _ :: ps => digitsVal ds < 2 ^ 64 ∧ (∀ rest, ps ≠ .blank 32 :: rest) ∧ Plain ps
  | .str quote s :: ps => 92 ∉ encStr s ∧ quote ∉ encStr s ∧ Plain ps
  | .bin _ :: _ => False

/-- What the shell never gets silently wrong: no binary data, no backslash and not the enclosing
quote in a text, no question mark outside texts. -/
def Mild : List Piece → Prop
  | [] => True
  | .symbol s :: ps => s ≠ .symQuestion ∧ Mild ps
  | .str quote s :: ps => 92 ∉ encStr s ∧ quote ∉ encStr s ∧ Mild ps
  | .bin _ :: _ => False
  | _ :: ps => Mild ps

/-- The server reads the tokens `ts` when the shell sends the query with the parameters, each encoded
the way the protocol prescribes. -/
def ServerReads (pf : String → Option F64) (q : Bytes) (params : List Item) (ts : List Token) : Prop :=
  ∀ encs, Forall2 (ParamEncodes pf) (params.map Item.token) encs → lex pf q encs.flatten = .ok ts

/-! ### Proof -/

theorem isPunct_symbol (c : UInt8) (s : Symbol) (h : c.toNat = (Symbol.char s).toNat) : isPunct c = true := by
  have : c = UInt8.ofNat (Symbol.char s).toNat := by rw [← h]; simp
  subst this
  cases s <;> decide

theorem readUnsigned_digits (pf : String → Option F64) {ds : Bytes} (hd : AllDigits ds) {acc : Nat} {seen : Bytes}
    (hv : Num.valFrom acc ds < 2 ^ 64) (rest : Bytes) :
    readUnsigned pf seen acc (ds ++ rest) = readUnsigned pf (seen ++ ds) (Num.valFrom acc ds) rest := by
  induction ds generalizing acc seen with
  | nil => simp [Num.valFrom]
  | cons d ds ih =>
    have hdd := hd d (by simp)
    have hl := (Num.digit_low d hdd).1
    have hge := Num.valFrom_ge (acc * 10 + (d.toNat - 48)) ds
    have hv' : Num.valFrom (acc * 10 + (d.toNat - 48)) ds < 2 ^ 64 := hv
    rw [List.cons_append, readUnsigned, if_pos hdd, show (b : UInt8) → (b &&& 15).toNat = (b &&& 0x0F).toNat from fun _ => rfl,
      hl, if_pos (by omega), ih (fun b hb => hd b (by simp [hb])) hv']
    simp [Num.valFrom]

theorem readString_plain (quote : UInt8) (hq : quote = 34 ∨ quote = 39) {s : Bytes} (h1 : 92 ∉ s) (h2 : quote ∉ s)
    (acc rest : Bytes) : readString quote (s ++ quote :: rest) acc = .ok (acc ++ s, rest) := by
  induction s generalizing acc with
  | nil =>
    have : ¬ (quote == 92) = true := by rcases hq with rfl | rfl <;> decide
    simp only [List.nil_append, List.append_nil]
    unfold readString
    simp [this]
  | cons b s ih =>
    have e1 : ¬ (b == 92) = true := by intro h; simp at h; subst h; simp at h1
    have e2 : ¬ (b == quote) = true := by intro h; simp at h; subst h; simp at h2
    rw [List.cons_append]
    unfold readString
    rw [if_neg e1, if_neg e2, ih (fun h => h1 (by simp [h])) (fun h => h2 (by simp [h]))]
    simp

theorem quoted_plain (quote : UInt8) {s : Bytes} (h1 : 92 ∉ s) (h2 : quote ∉ s) : quoted quote s = s := by
  induction s with
  | nil => rfl
  | cons b s ih =>
    unfold quoted
    rw [if_neg (by rintro (rfl | rfl) <;> simp at h1 h2), ih (fun h => h1 (by simp [h])) (fun h => h2 (by simp [h]))]

theorem Says.head {pf : String → Option F64} {rest : Bytes} {ps : List Piece} (h : Says pf rest ps) (he : Ends rest) :
    rest = [] ∨ ∃ c r, rest = c :: r ∧ (isPunct c = true ∨
      ((c = 32 ∨ c = 9 ∨ c = 10) ∧ ∃ ps', ps = .blank c :: ps')) := by
  have digit : ∀ {ds r : Bytes}, AllDigits ds → ds ≠ [] → ¬ Ends (ds ++ r) := by
    intro ds r hd hne he
    cases ds with
    | nil => exact hne rfl
    | cons d ds =>
      refine he d rfl (.inr ?_)
      have := hd d (by simp)
      simp only [isDigit, Bool.and_eq_true, decide_eq_true_eq, UInt8.le_iff_toNat_le] at this
      exact this
  cases h with
  | nil => exact .inl rfl
  | blank hc _ => exact .inr ⟨_, _, rfl, .inr ⟨hc, _, rfl⟩⟩
  | word h1 => exact absurd (.inl h1) (he _ rfl)
  | symbol _ h2 => exact .inr ⟨_, _, rfl, .inl (isPunct_symbol _ _ h2)⟩
  | uint h1 h2 => exact absurd he (digit h1 h2)
  | sint => exact .inr ⟨_, _, rfl, .inl rfl⟩
  | float h1 h2 =>
    rw [List.append_assoc] at he
    exact absurd he (digit h1 h2)
  | str hq => exact .inr ⟨_, _, rfl, .inl (by rcases hq with rfl | rfl <;> rfl)⟩
  | bin => exact .inr ⟨_, _, rfl, .inl rfl⟩

theorem ascii_text {q : Bytes} (h : ∀ b ∈ q, b < 128) : ∃ s, decStr q = some s := by
  suffices h : ∃ s, q = encStr s by
    obtain ⟨s, hs⟩ := h
    exact ⟨s, decStr_eq_some.2 hs⟩
  induction q with
  | nil => exact ⟨"", rfl⟩
  | cons b q ih =>
    obtain ⟨s, rfl⟩ := ih (fun b hb => h b (by simp [hb]))
    refine ⟨String.singleton (Char.ofNat b.toNat) ++ s, ?_⟩
    have e : encStr (String.singleton (Char.ofNat b.toNat)) = [b] :=
      Lex.forall_u8 (P := fun b => b < 128 → encStr (String.singleton (Char.ofNat b.toNat)) = [b])
        (by decide +kernel) b (h b (by simp))
    have e2 : encStr (String.singleton (Char.ofNat b.toNat) ++ s) =
        encStr (String.singleton (Char.ofNat b.toNat)) ++ encStr s := by unfold encStr; simp
    rw [e2, e]
    rfl

/-- Not a digit, a letter or an underscore. -/
theorem punct_not_digit {c : UInt8} (h : isPunct c = true) : isDigit c = false :=
  Lex.forall_u8 (P := fun c => isPunct c = true → isDigit c = false) (by decide +kernel) c h

theorem wordChar_lt {c : UInt8} (h : WordChar c) : c < 128 := by
  rw [UInt8.lt_iff_toNat_lt]
  show _ < 128
  unfold WordChar WordStart at h
  omega

theorem punct_lt {c : UInt8} (h : isPunct c = true) : c < 128 :=
  Lex.forall_u8 (P := fun c => isPunct c = true → c < 128) (by decide +kernel) c h

theorem readUnsigned_overflow (pf : String → Option F64) {ds : Bytes} (hd : AllDigits ds) {acc : Nat} {seen : Bytes}
    (ha : acc < 2 ^ 64) (hv : ¬ Num.valFrom acc ds < 2 ^ 64) (rest : Bytes) :
    readUnsigned pf seen acc (ds ++ rest) = .error .badInt := by
  induction ds generalizing acc seen with
  | nil => exact absurd ha hv
  | cons d ds ih =>
    have hdd := hd d (by simp)
    have hl := (Num.digit_low d hdd).1
    rw [List.cons_append, readUnsigned, if_pos hdd, show (b : UInt8) → (b &&& 15).toNat = (b &&& 0x0F).toNat from fun _ => rfl,
      hl]
    by_cases h : acc * 10 + (d.toNat - 48) < 2 ^ 64
    · rw [if_pos h]
      exact ih (fun b hb => hd b (by simp [hb])) h hv
    · rw [if_neg h]

/-- Either the text is refused and was not plain, or the reader turns it into a query that spells its
words and symbols and has question marks in the place of its literals. -/
def Good (pf : String → Option F64) (text : Bytes) (ps : List Piece) : Prop :=
  ((∃ e, scan pf text = .error e) ∧ ¬ Plain ps) ∨
  ∃ q is skel, scan pf text = .ok (q, is) ∧ Reads q skel ∧ fill skel (is.map Item.token) = meaning ps ∧
    (Ends text → Ends q) ∧ ∀ b ∈ q, b < 128

theorem scan_error {pf : String → Option F64} {b : UInt8} {r : Bytes} {e : Err} (h : turn pf b r = .error e) :
    scan pf (b :: r) = .error e := by
  rw [scan_cons, h]

theorem good_lit {pf : String → Option F64} {rest : Bytes} {ps : List Piece} {i : Item} {p : Piece} {b : UInt8}
    {r : Bytes} (ht : turn pf b r = .ok ([63], [i], rest)) (hpt : p.token = some i.token)
    (hpl : Plain (p :: ps) → Plain ps) (h : Good pf rest ps) : Good pf (b :: r) (p :: ps) := by
  rcases h with ⟨⟨e, he⟩, hn⟩ | ⟨q, is, skel, h1, h2, h3, h4, h5⟩
  · refine .inl ⟨⟨e, ?_⟩, fun h => hn (hpl h)⟩
    rw [scan_cons, ht]; simp only [he]; rfl
  · refine .inr ⟨63 :: q, i :: is, qmark :: skel, ?_, ?_, ?_, ?_, ?_⟩
    · rw [scan_cons, ht]; simp only [h1]; rfl
    · exact .symbol (by unfold WordStart; decide) (by decide) h2
    · rw [List.map_cons, Lex.fill_cons_qmark, h3]
      unfold meaning
      rw [List.filterMap_cons_some hpt]
    · intro _ x hx
      cases hx
      unfold WordChar WordStart
      decide
    · intro b hb
      rcases List.mem_cons.1 hb with rfl | hb
      · decide
      · exact h5 b hb

theorem not_start {d : UInt8} (h : isDigit d = true) : ¬ (isAlpha d || d == 95) = true := fun h' =>
  absurd h (Lex.forall_u8 (P := fun d => (isAlpha d || d == 95) = true → ¬ isDigit d = true) (by decide +kernel) d h')

theorem turn_digit {pf : String → Option F64} {d : UInt8} (h : isDigit d = true) (r : Bytes) :
    turn pf d r = literal (readUnsigned pf [] 0 (d :: r)) := by
  unfold turn
  rw [if_neg (not_start h), if_pos h]

theorem scan_says {pf : String → Option F64} (hpf : ∀ s, 32 ∈ encStr s → pf s = none) {text : Bytes} {ps : List Piece}
    (h : Says pf text ps) (hp : Mild ps) : Good pf text ps := by
  induction h with
  | nil => exact .inr ⟨[], [], [], by rw [scan], .nil, rfl, id, by simp⟩
  | @blank c rest ps hc _ ih =>
    have ht : turn pf c rest = .ok ([c], [], rest) := by rcases hc with rfl | rfl | rfl <;> rfl
    rcases ih hp with ⟨⟨e, he⟩, hn⟩ | ⟨q, is, skel, h1, h2, h3, h4, h5⟩
    · refine .inl ⟨⟨e, ?_⟩, hn⟩
      rw [scan_cons, ht]; simp only [he]; rfl
    refine .inr ⟨c :: q, is, skel, ?_, .blank hc h2, h3, ?_, ?_⟩
    · rw [scan_cons, ht]; simp only [h1]; rfl
    · intro he x hx; exact he x hx
    · intro b hb
      rcases List.mem_cons.1 hb with rfl | hb
      · rcases hc with rfl | rfl | rfl <;> decide
      · exact h5 b hb
  | @word c w rest t ps hs hw he hm _ ih =>
    obtain ⟨e1, e2⟩ := Lex.takeDrop_word hw he
    have ht : turn pf c (w ++ rest) = .ok (c :: w, [], rest) := by
      unfold turn
      rw [if_pos ((Lex.isStart_iff c).2 hs), e1, e2]
    rcases ih hp with ⟨⟨e, he⟩, hn⟩ | ⟨q, is, skel, h1, h2, h3, h4, h5⟩
    · refine .inl ⟨⟨e, ?_⟩, hn⟩
      rw [List.cons_append, scan_cons, ht]; simp only [he]; rfl
    refine .inr ⟨c :: w ++ q, is, t :: skel, ?_, .word hs hw (h4 he) hm h2, ?_, ?_, ?_⟩
    · rw [List.cons_append, scan_cons, ht]; simp only [h1]; rfl
    · have : t ≠ qmark := by rw [← (Lex.wordToken_iff _ _).2 hm]; exact Lex.wordToken_ne_qmark _
      rw [Lex.fill_cons_ne this, h3]
      rfl
    · intro he x hx; exact he x hx
    · intro b hb
      rcases List.mem_append.1 hb with hb | hb
      · rcases List.mem_cons.1 hb with rfl | hb
        · exact wordChar_lt (.inl hs)
        · exact wordChar_lt (hw b hb)
      · exact h5 b hb
  | @symbol c s rest ps hs hc hx _ ih =>
    simp only [List.mem_cons, List.not_mem_nil, or_false, not_or] at hx
    have hpc := isPunct_symbol _ _ hc
    have ht : turn pf c rest = .ok ([c], [], rest) := by
      unfold turn
      rw [if_neg (fun h => hs ((Lex.isStart_iff c).1 h)), if_neg (by rw [punct_not_digit hpc]; simp),
        if_neg (by simp [hx.1]), if_neg (by simp [hx.2.1, hx.2.2.1]), if_neg (by simp [hx.2.2.2])]
    rcases ih hp.2 with ⟨⟨e, he⟩, hn⟩ | ⟨q, is, skel, h1, h2, h3, h4, h5⟩
    · refine .inl ⟨⟨e, ?_⟩, fun h => hn h.2⟩
      rw [scan_cons, ht]; simp only [he]; rfl
    refine .inr ⟨c :: q, is, .sym s :: skel, ?_, .symbol hs hc h2, ?_, ?_, ?_⟩
    · rw [scan_cons, ht]; simp only [h1]; rfl
    · rw [Lex.fill_cons_ne (by intro h; cases h; exact hp.1 rfl), h3]
      rfl
    · intro he x hx; exact he x hx
    · intro b hb
      rcases List.mem_cons.1 hb with rfl | hb
      · exact punct_lt hpc
      · exact h5 b hb
  | @uint ds v rest ps hd hne hv he hdot hr ih =>
    cases ds with
    | nil => exact absurd rfl hne
    | cons d ds =>
      have hdd := hd d (by simp)
      have hlt := v.toNat_lt
      have hu := readUnsigned_digits pf hd (acc := 0) (seen := []) (by show digitsVal _ < _; omega) rest
      have e : Num.valFrom 0 (d :: ds) = v.toNat := hv
      rw [e] at hu
      show Good pf (d :: (ds ++ rest)) _
      rcases hr.head he with rfl | ⟨c, r, rfl, hc⟩
      · refine good_lit (i := .uint v) ?_ rfl (·.2) (ih hp)
        rw [turn_digit hdd, ← List.cons_append, hu]
        unfold readUnsigned; simp; rfl
      · have hnd : isDigit c = false := by
          rcases hc with hc | ⟨hc, _⟩
          · exact punct_not_digit hc
          · rcases hc with rfl | rfl | rfl <;> rfl
        have hdot' : ¬ (c == 46) = true := by intro h; simp at h; subst h; exact hdot rfl
        by_cases hok : (c == 32 || c == 9 || isPunct c) = true
        · refine good_lit (i := .uint v) ?_ rfl (·.2) (ih hp)
          rw [turn_digit hdd, ← List.cons_append, hu]
          unfold readUnsigned
          rw [if_neg (by rw [hnd]; simp), if_neg hdot', if_pos hok]
          simp
          rfl
        · refine .inl ⟨⟨.badUnsigned, ?_⟩, ?_⟩
          · apply scan_error
            rw [turn_digit hdd, ← List.cons_append, hu]
            unfold readUnsigned
            rw [if_neg (by rw [hnd]; simp), if_neg hdot', if_neg hok]
            rfl
          · intro hpl
            rcases hc with hc | ⟨hc, ps', hps⟩
            · rw [hc] at hok; simp at hok
            · rcases hc with rfl | rfl | rfl
              · exact hok rfl
              · exact hok rfl
              · exact hpl.1 ps' hps
  | @sint ds v rest ps _ _ _ _ _ _ ih =>
    refine .inl ⟨⟨.badSigned, ?_⟩, id⟩
    rw [List.cons_append]
    apply scan_error
    unfold turn
    rw [if_neg (by decide), if_neg (by decide), if_pos (by decide), readSigned_minus]
    rfl
  | @float ds es v rest ps hd hne hes hv he hr ih =>
    cases ds with
    | nil => exact absurd rfl hne
    | cons d ds =>
      have hdd := hd d (by simp)
      have hass : d :: (ds ++ 46 :: es ++ rest) = (d :: ds) ++ (46 :: (es ++ rest)) := by simp
      show Good pf (d :: (ds ++ 46 :: es ++ rest)) _
      by_cases hbig : Num.valFrom 0 (d :: ds) < 2 ^ 64
      · have hnum : ∀ b ∈ es, (!(b == 10 || b == 9 || isPunct b)) = true := by
          intro b hb
          exact Lex.forall_u8 (P := fun b => isDigit b = true → (!(b == 10 || b == 9 || isPunct b)) = true)
            (by decide +kernel) b (hes b hb)
        have hstop : untilEscape (es ++ rest) = (es ++ (untilEscape rest).1, (untilEscape rest).2) := by
          unfold untilEscape
          rw [List.takeWhile_append_of_pos hnum, List.dropWhile_append_of_pos hnum]
        have hu : readUnsigned pf [] 0 ((d :: ds) ++ (46 :: (es ++ rest))) =
            readFloat pf (d :: ds ++ [46]) (es ++ rest) := by
          rw [readUnsigned_digits pf hd hbig]
          unfold readUnsigned
          rw [if_neg (by decide), if_pos (by decide)]
          rfl
        unfold readFloat at hu
        rw [hstop] at hu
        dsimp only at hu
        by_cases hrest : untilEscape rest = ([], rest)
        · refine good_lit (i := .float v) ?_ rfl (·.2.2) (ih hp)
          rw [turn_digit hdd, hass, hu, hrest]
          simp only [List.append_nil, List.append_assoc]
          rw [show d :: ds ++ ([46] ++ es) = d :: ds ++ 46 :: es from rfl, hv]
          rfl
        · have hblank : ∃ r ps', rest = 32 :: r ∧ ps = .blank 32 :: ps' := by
            rcases hr.head he with rfl | ⟨c, r, rfl, hc⟩
            · exact absurd rfl hrest
            · have stop : (!(c == 10 || c == 9 || isPunct c)) = false → False := by
                intro h
                apply hrest
                unfold untilEscape
                rw [List.takeWhile_cons, List.dropWhile_cons, h]
                simp
              rcases hc with hc | ⟨hc, ps', hps⟩
              · exact (stop (by simp [hc])).elim
              · rcases hc with rfl | rfl | rfl
                · exact ⟨r, ps', rfl, hps⟩
                · exact (stop rfl).elim
                · exact (stop rfl).elim
          obtain ⟨r, ps', rfl, rfl⟩ := hblank
          refine .inl ⟨⟨.badFloat, ?_⟩, fun h => h.2.1 ps' rfl⟩
          apply scan_error
          rw [turn_digit hdd, hass, hu]
          have hnone : (decStr (d :: ds ++ [46] ++ (es ++ (untilEscape (32 :: r)).1))).bind pf = none := by
            cases hdec : decStr (d :: ds ++ [46] ++ (es ++ (untilEscape (32 :: r)).1)) with
            | none => rfl
            | some s =>
              apply hpf
              rw [← decStr_eq_some.1 hdec]
              have : 32 ∈ (untilEscape (32 :: r)).1 := by
                unfold untilEscape
                rw [List.takeWhile_cons]
                simp [isPunct]
              simp [this]
          rw [hnone]
          rfl
      · refine .inl ⟨⟨.badInt, ?_⟩, fun h => hbig h.1⟩
        apply scan_error
        rw [turn_digit hdd, hass, readUnsigned_overflow pf hd (by decide) hbig]
        rfl
  | @str quote s rest ps hq _ ih =>
    refine good_lit (i := .str s) ?_ rfl (·.2.2) (ih hp.2.2)
    have hu : readText quote (quoted quote (encStr s) ++ quote :: rest) = .ok (.str s, rest) := by
      unfold readText
      rw [quoted_plain quote hp.1 hp.2.1, readString_plain quote hq hp.1 hp.2.1]
      simp
    unfold turn
    have h1 : ¬ (isAlpha quote || quote == 95) = true := by rcases hq with rfl | rfl <;> decide
    have h2 : ¬ isDigit quote = true := by rcases hq with rfl | rfl <;> decide
    have h3 : ¬ (quote == 45) = true := by rcases hq with rfl | rfl <;> decide
    have h4 : (quote == 34 || quote == 39) = true := by rcases hq with rfl | rfl <;> decide
    rw [if_neg h1, if_neg h2, if_neg h3, if_pos h4]
    simp only [List.append_eq] at hu ⊢
    rw [hu]
    rfl
  | bin => exact hp.elim

theorem Plain.mild : {ps : List Piece} → Plain ps → Mild ps
  | [], _ => trivial
  | .blank _ :: ps, h => Plain.mild (ps := ps) h
  | .word _ _ :: ps, h => Plain.mild (ps := ps) h
  | .symbol _ :: _, h => ⟨h.1, h.2.mild⟩
  | .uint _ _ :: ps, h => Plain.mild (ps := ps) h.2
  | .sint _ _ :: _, h => h.elim
  | .float _ _ _ :: ps, h => Plain.mild (ps := ps) h.2.2
  | .str _ _ :: _, h => ⟨h.1, h.2.1, h.2.2.mild⟩
  | .bin _ :: _, h => h.elim

theorem kindOf_ascii {q : Bytes} (h : ∀ b ∈ q, b < 128) : ∃ k, kindOf q = some k := by
  unfold kindOf
  split
  · exact ⟨_, rfl⟩
  · split
    · exact ⟨_, rfl⟩
    · rename_i b hb
      have := h b (List.mem_of_getElem? hb)
      rw [if_neg (by
        simp only [Bool.and_eq_true, decide_eq_true_eq, not_and]
        intro h1
        exact absurd this (by rw [UInt8.not_lt]; exact h1))]
      split
      · exact ⟨_, rfl⟩
      · exact ⟨_, rfl⟩

theorem good_parameterize {pf : String → Option F64} {text : Bytes} {ps : List Piece} (h : Good pf text ps) :
    ((∃ e, parameterize pf text = .error e) ∧ ¬ Plain ps) ∨
    ∃ k q is, parameterize pf text = .send k q is ∧ ServerReads pf q is (meaning ps) := by
  rcases h with ⟨⟨e, he⟩, hn⟩ | ⟨q, is, skel, h1, h2, h3, _, h5⟩
  · refine .inl ⟨⟨e, ?_⟩, hn⟩
    unfold parameterize
    rw [he]
    rfl
  · obtain ⟨s, hs⟩ := ascii_text h5
    obtain ⟨k, hk⟩ := kindOf_ascii h5
    refine .inr ⟨k, q, is, ?_, ?_⟩
    · unfold parameterize
      rw [h1]
      unfold finish
      dsimp only
      rw [hs]
      dsimp only
      rw [hk]
    · intro encs henc
      rw [← h3]
      exact Lex.C20_parameters_arrive_unchanged pf q skel ((Lex.C42_text_is_split_exactly pf q skel).2 h2) _ _ henc

/-- **C51, refused or right.** Unless a query that is typed into the shell has binary data, an escape
in a text or a question mark in it, the shell either refuses it or sends a query that the server
reads as exactly what was typed. (`hpf`: a number with a blank in it is not a floating-point number.) -/
theorem C51_refused_or_right_partial (pf : String → Option F64) (hpf : ∀ s, 32 ∈ encStr s → pf s = none) (text : Bytes)
    (ps : List Piece) (h : Says pf text ps) (hm : Mild ps) :
    (∃ e, parameterize pf text = .error e) ∨
    ∃ k q is, parameterize pf text = .send k q is ∧ ServerReads pf q is (meaning ps) := by
  rcases good_parameterize (scan_says hpf h hm) with ⟨h, _⟩ | h
  · exact .inl h
  · exact .inr h

/-- **C51, plain queries.** The shell accepts every plain query, without a panic, and the server reads
exactly what was typed: every word, every symbol and every literal in its place. -/
theorem C51_plain_partial (pf : String → Option F64) (hpf : ∀ s, 32 ∈ encStr s → pf s = none) (text : Bytes)
    (ps : List Piece) (h : Says pf text ps) (hp : Plain ps) :
    ∃ k q is, parameterize pf text = .send k q is ∧ ServerReads pf q is (meaning ps) := by
  rcases good_parameterize (scan_says hpf h hp.mild) with ⟨_, h⟩ | h
  · exact absurd hp h
  · exact h

theorem scan_step {pf : String → Option F64} {b : UInt8} {r q rest q' : Bytes} {is is' : List Item}
    (ht : turn pf b r = .ok (q, is, rest)) (hs : scan pf rest = .ok (q', is')) :
    scan pf (b :: r) = .ok (q ++ q', is ++ is') := by
  rw [scan_cons, ht]
  simp only [hs]
  rfl

theorem scan_nil (pf : String → Option F64) : scan pf [] = .ok ([], []) := by rw [scan]

/-- What the server reads from a query with one parameter. -/
theorem serverReads_one (pf : String → Option F64) (i : Item) : ServerReads pf [63] [i] [i.token] := by
  intro encs henc
  have h : lex pf [63] [] = .ok [qmark] := (Lex.C42_text_is_split_exactly pf _ _).2
    (.symbol (by unfold WordStart; decide) (by decide) .nil)
  exact Lex.C20_parameters_arrive_unchanged pf [63] [qmark] h _ _ henc

/-- **C51, escapes (violated).** The text of one quotation mark, typed with its escape, arrives as a
quotation mark and a backslash. -/
theorem C51_escapes_violated (pf : String → Option F64) :
    ∃ text ps k q is ts, Says pf text ps ∧ parameterize pf text = .send k q is ∧ ServerReads pf q is ts ∧
      ts ≠ meaning ps := by
  refine ⟨[34, 92, 34, 34], [.str 34 "\""], .standard, [63], [.str "\"\\"], _, .str (s := "\"") (.inl rfl) .nil, ?_,
    serverReads_one pf _, ?_⟩
  · have ht : turn pf 34 [92, 34, 34] = .ok ([63], [.str "\"\\"], []) := by
      have : readText 34 [92, 34, 34] = .ok (.str "\"\\", []) := by decide +kernel
      show literal (readText 34 [92, 34, 34]) = _
      rw [this]
      rfl
    unfold parameterize
    rw [scan_step ht (scan_nil pf)]
    decide +kernel
  · simp [meaning, Piece.token, Item.token]

/-- **C51, binary data (violated).** The binary data of one byte arrive as two bytes: the closing accent
is sent as well. -/
theorem C51_binary_violated (pf : String → Option F64) :
    ∃ text ps k q is ts, Says pf text ps ∧ parameterize pf text = .send k q is ∧ ServerReads pf q is ts ∧
      ts ≠ meaning ps := by
  refine ⟨[96, 7, 96], [.bin [7]], .standard, [63], [.bin [7, 96]], _, .bin (b := [7]) (by decide) .nil, ?_,
    serverReads_one pf _, ?_⟩
  · unfold parameterize
    rw [scan_step (q := [63]) (is := [.bin [7, 96]]) (rest := []) rfl (scan_nil pf)]
    decide +kernel
  · simp [meaning, Piece.token, Item.token]

/-- **C51, question marks (violated).** A question mark that is typed takes the place of the literal that
follows it. -/
theorem C51_question_mark_violated (pf : String → Option F64) :
    ∃ text ps k q is ts, Says pf text ps ∧ parameterize pf text = .send k q is ∧ ServerReads pf q is ts ∧
      ts ≠ meaning ps := by
  refine ⟨[63, 34, 34], [.symbol .symQuestion, .str 34 ""], .standard, [63, 63], [.str ""],
    [.lit (.str ""), qmark], .symbol (by unfold WordStart; decide) (by decide) (by decide)
      (.str (s := "") (.inl rfl) .nil), ?_, ?_, ?_⟩
  · have ht : turn pf 34 [34] = .ok ([63], [.str ""], []) := by
      have : readText 34 [34] = .ok (.str "", []) := by decide +kernel
      show literal (readText 34 [34]) = _
      rw [this]
      rfl
    unfold parameterize
    rw [scan_step (q := [63]) (is := []) (rest := [34, 34]) rfl (scan_step ht (scan_nil pf))]
    decide +kernel
  · intro encs henc
    have h : lex pf [63, 63] [] = .ok [qmark, qmark] := (Lex.C42_text_is_split_exactly pf _ _).2
      (.symbol (by unfold WordStart; decide) (by decide) (.symbol (by unfold WordStart; decide) (by decide) .nil))
    exact Lex.C20_parameters_arrive_unchanged pf [63, 63] [qmark, qmark] h _ _ henc
  · simp [meaning, Piece.token, qmark]

/-- **C51, negative numbers (violated).** The shell refuses every query that begins with a negative
number, and so every query in which one occurs after a plain beginning. -/
theorem C51_negative_numbers_violated (pf : String → Option F64) (rest : Bytes) :
    parameterize pf (45 :: rest) = .error .badSigned := by
  unfold parameterize
  rw [scan_error (e := .badSigned)]
  · rfl
  · unfold turn
    rw [if_neg (by decide), if_neg (by decide), if_pos (by decide), readSigned_minus]
    rfl

example (pf : String → Option F64) : Says pf [45, 53] [.sint [53] (-5)] :=
  .sint (ds := [53]) (rest := []) (by unfold AllDigits; decide) (by decide) (by decide) (by intro x h; cases h)
    (by decide) .nil

/-- **C51, panic (violated).** The shell panics on `use café`: it cuts the query after the eighth byte,
which is inside of the last letter. -/
theorem C51_panic_violated (pf : String → Option F64) : parameterize pf (encStr "use café") = .panic := by
  have e : encStr "use café" = [117, 115, 101, 32, 99, 97, 102, 0xC3, 0xA9] := by decide +kernel
  have h : scan pf [117, 115, 101, 32, 99, 97, 102, 0xC3, 0xA9] =
      .ok ([117, 115, 101, 32, 99, 97, 102, 0xC3, 0xA9], []) :=
    scan_step (q := [117, 115, 101]) (is := []) (rest := [32, 99, 97, 102, 0xC3, 0xA9]) rfl <|
    scan_step (q := [32]) (is := []) (rest := [99, 97, 102, 0xC3, 0xA9]) rfl <|
    scan_step (q := [99, 97, 102]) (is := []) (rest := [0xC3, 0xA9]) rfl <|
    scan_step (q := [0xC3]) (is := []) (rest := [0xA9]) rfl <|
    scan_step (q := [0xA9]) (is := []) (rest := []) rfl <| scan_nil pf
  rw [e]
  unfold parameterize
  rw [h]
  decide +kernel

/-- An example of a floating-point parser. -/
def onePoint (s : String) : Option F64 := if s = "1.5" then some ⟨0x3FF8000000000000⟩ else none

/-- The query `select 'x-?' (1.5,7)`. -/
example : Says onePoint (ascii "select 'x-?' (1.5,7)")
    [.word (ascii "select") (.kw (.statement .select)), .blank 32, .str 39 "x-?", .blank 32, .symbol .ttOpenParen,
     .float [49] [53] ⟨0x3FF8000000000000⟩, .symbol .symComma, .uint [55] 7, .symbol .ttCloseParen] ∧
    parameterize onePoint (ascii "select 'x-?' (1.5,7)") =
      .send .standard (ascii "select ? (?,?)") [.str "x-?", .float ⟨0x3FF8000000000000⟩, .uint 7] := by
  have e : ∀ {c : UInt8} {r : Bytes}, ¬ WordChar c → Ends (c :: r) := by intro c r h x hx; cases hx; exact h
  constructor
  · refine .word (c := 115) (w := ascii "elect") (rest := ascii " 'x-?' (1.5,7)") (by unfold WordStart; decide)
      (by unfold WordChar WordStart; decide) (e (by unfold WordChar WordStart; decide))
      (.keyword (.statement .select) (by decide)) ?_
    refine .blank (.inl rfl) ?_
    refine .str (quote := 39) (s := "x-?") (rest := ascii " (1.5,7)") (.inr rfl) ?_
    refine .blank (.inl rfl) ?_
    refine .symbol (by unfold WordStart; decide) (by decide) (by decide) ?_
    refine .float (ds := [49]) (es := [53]) (rest := ascii ",7)") (by unfold AllDigits; decide) (by decide)
      (by unfold AllDigits; decide) (by decide +kernel) (e (by unfold WordChar WordStart; decide)) ?_
    refine .symbol (by unfold WordStart; decide) (by decide) (by decide) ?_
    refine .uint (ds := [55]) (rest := ascii ")") (by unfold AllDigits; decide) (by decide) (by decide)
      (e (by unfold WordChar WordStart; decide)) (by decide) ?_
    exact .symbol (by unfold WordStart; decide) (by decide) (by decide) .nil
  · decide +kernel

end Verif.Cli
