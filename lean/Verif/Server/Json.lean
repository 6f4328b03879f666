/-!
JSON texts (RFC 8259), as a relation between a text and the value that it stands for. This is a specification; nothing
here is a model of code.
-/
namespace Verif.Server

/-- A JSON value. A number is represented by its text. -/
inductive J where
  | str (s : List Char)
  | num (s : List Char)
  | word (s : List Char)
  | arr (l : List J)
  | obj (l : List (List Char × J))

namespace Json

/-- A character that may stand for itself in a string. -/
def Plain (c : Char) : Prop := 0x20 ≤ c.toNat ∧ c ≠ '"' ∧ c ≠ '\\'

instance (c : Char) : Decidable (Plain c) := by unfold Plain; infer_instance

/-- White space. -/
def Blank (c : Char) : Prop := c = ' ' ∨ c = '\t' ∨ c = '\n' ∨ c = '\r'

/-- A character of a number. -/
def NumChar (c : Char) : Prop := c.isDigit = true ∨ c = '-' ∨ c = '+' ∨ c = '.' ∨ c = 'e' ∨ c = 'E'

/-- The character behind a backslash and what it means. -/
inductive Esc : Char → Char → Prop
  | quote : Esc '"' '"'
  | backslash : Esc '\\' '\\'
  | slash : Esc '/' '/'
  | b : Esc 'b' (Char.ofNat 8)
  | f : Esc 'f' (Char.ofNat 12)
  | n : Esc 'n' '\n'
  | r : Esc 'r' '\r'
  | t : Esc 't' '\t'

/-- A digit to the base 16. -/
def Hex (c : Char) : Prop := c.isDigit = true ∨ ('a' ≤ c ∧ c ≤ 'f') ∨ ('A' ≤ c ∧ c ≤ 'F')

instance (c : Char) : Decidable (Hex c) := by unfold Hex; infer_instance
instance (c : Char) : Decidable (NumChar c) := by unfold NumChar; infer_instance

/-- The three kinds of characters among those of one byte, except the last. -/
example :
    ((List.range 127).map Char.ofNat).filter (fun c => decide (Hex c)) = "0123456789ABCDEFabcdef".toList ∧
    ((List.range 127).map Char.ofNat).filter (fun c => decide (NumChar c)) = "+-.0123456789Ee".toList ∧
    ((List.range 127).map Char.ofNat).filter (fun c => !decide (Plain c)) = (List.range 32).map Char.ofNat ++ ['"', '\\'] := by
  decide +kernel

/-- The inside of a string. What four digits mean is left open. -/
inductive Chars : List Char → List Char → Prop
  | nil : Chars [] []
  | plain {c : Char} {t s : List Char} : Plain c → Chars t s → Chars (c :: t) (c :: s)
  | esc {e c : Char} {t s : List Char} : Esc e c → Chars t s → Chars ('\\' :: e :: t) (c :: s)
  | hex {a b c d x : Char} {t s : List Char} : Hex a → Hex b → Hex c → Hex d → Chars t s →
      Chars ('\\' :: 'u' :: a :: b :: c :: d :: t) (x :: s)

/-- A string. -/
inductive Str : List Char → List Char → Prop
  | mk {t s : List Char} : Chars t s → Str ('"' :: (t ++ ['"'])) s

mutual

/-- A value. -/
inductive Val : List Char → J → Prop
  | str {t s : List Char} : Str t s → Val t (.str s)
  | num {t : List Char} : t ≠ [] → (∀ c ∈ t, NumChar c) → Val t (.num t)
  | true : Val ['t', 'r', 'u', 'e'] (.word ['t', 'r', 'u', 'e'])
  | false : Val ['f', 'a', 'l', 's', 'e'] (.word ['f', 'a', 'l', 's', 'e'])
  | null : Val ['n', 'u', 'l', 'l'] (.word ['n', 'u', 'l', 'l'])
  | noElems {ws : List Char} : (∀ c ∈ ws, Blank c) → Val ('[' :: (ws ++ [']'])) (.arr [])
  | arr {t : List Char} {l : List J} : Elems t l → Val ('[' :: (t ++ [']'])) (.arr l)
  | noMembers {ws : List Char} : (∀ c ∈ ws, Blank c) → Val ('{' :: (ws ++ ['}'])) (.obj [])
  | obj {t : List Char} {l : List (List Char × J)} : Members t l → Val ('{' :: (t ++ ['}'])) (.obj l)
  | before {c : Char} {t : List Char} {v : J} : Blank c → Val t v → Val (c :: t) v
  | after {c : Char} {t : List Char} {v : J} : Blank c → Val t v → Val (t ++ [c]) v

/-- The elements of an array. -/
inductive Elems : List Char → List J → Prop
  | one {t : List Char} {v : J} : Val t v → Elems t [v]
  | more {t t' : List Char} {v : J} {l : List J} : Val t v → Elems t' l → Elems (t ++ ',' :: t') (v :: l)

/-- A name and a value. -/
inductive Member : List Char → List Char × J → Prop
  | mk {ws ws' t n t' : List Char} {v : J} : (∀ c ∈ ws, Blank c) → (∀ c ∈ ws', Blank c) → Str t n → Val t' v →
      Member (ws ++ t ++ ws' ++ ':' :: t') (n, v)

/-- The members of an object. -/
inductive Members : List Char → List (List Char × J) → Prop
  | one {t : List Char} {m : List Char × J} : Member t m → Members t [m]
  | more {t t' : List Char} {m : List Char × J} {l : List (List Char × J)} : Member t m → Members t' l →
      Members (t ++ ',' :: t') (m :: l)

end

/-! ### Braces are balanced -/

/-- Where a reader is: outside of strings, in a string, behind a backslash. -/
inductive Mode where
  | out | inside | esc
  deriving DecidableEq

/-- Count the braces outside of strings. -/
def scan : Mode → Int → List Char → Mode × Int
  | m, d, [] => (m, d)
  | .esc, d, _ :: t => scan .inside d t
  | .inside, d, c :: t => scan (if c = '"' then .out else if c = '\\' then .esc else .inside) d t
  | .out, d, c :: t =>
    scan (if c = '"' then .inside else .out) (if c = '{' then d + 1 else if c = '}' then d - 1 else d) t

theorem scan_append (t u : List Char) : ∀ m d, scan m d (t ++ u) = scan (scan m d t).1 (scan m d t).2 u := by
  induction t with
  | nil => intro m d; rfl
  | cons c t ih => intro m d; cases m <;> simp only [List.cons_append, scan, ih]

theorem scan_plain {t : List Char} (d : Int) (h : ∀ c ∈ t, c ≠ '"' ∧ c ≠ '{' ∧ c ≠ '}') : scan .out d t = (.out, d) := by
  induction t with
  | nil => rfl
  | cons c t ih =>
    obtain ⟨h1, h2, h3⟩ := h c List.mem_cons_self
    simp only [scan, h1, h2, h3, if_false]
    exact ih fun c hc => h c (List.mem_cons_of_mem _ hc)

theorem Hex.plain {c : Char} (h : Hex c) : c ≠ '"' ∧ c ≠ '\\' := by
  constructor <;> (rintro rfl; revert h; unfold Hex; decide)

theorem scan_chars {t s : List Char} (d : Int) (h : Chars t s) : scan .inside d t = (.inside, d) := by
  induction h with
  | nil => rfl
  | plain hp _ ih => simp only [scan, hp.2.1, hp.2.2, if_false, ih]
  | esc _ _ ih => simp [scan, ih]
  | hex h1 h2 h3 h4 _ ih => simp [scan, ih, h1.plain, h2.plain, h3.plain, h4.plain]

theorem scan_str {t s : List Char} (d : Int) (h : Str t s) : scan .out d t = (.out, d) := by
  cases h with
  | mk h => simp [scan, scan_append, scan_chars d h]

theorem Blank.plain {c : Char} (h : Blank c) : c ≠ '"' ∧ c ≠ '{' ∧ c ≠ '}' := by
  rcases h with rfl | rfl | rfl | rfl <;> decide

theorem NumChar.plain {c : Char} (h : NumChar c) : c ≠ '"' ∧ c ≠ '{' ∧ c ≠ '}' := by
  refine ⟨?_, ?_, ?_⟩ <;> (rintro rfl; revert h; unfold NumChar; decide)

mutual

theorem scan_val : ∀ {t : List Char} {v : J} (d : Int), Val t v → scan .out d t = (.out, d)
  | _, _, d, .str h => scan_str d h
  | _, _, d, .num _ h => scan_plain d fun c hc => (h c hc).plain
  | _, _, d, .true => by simp [scan]
  | _, _, d, .false => by simp [scan]
  | _, _, d, .null => by simp [scan]
  | _, _, d, .noElems h => by simp [scan, scan_append, scan_plain d fun c hc => (h c hc).plain]
  | _, _, d, .arr h => by simp [scan, scan_append, scan_elems d h]
  | _, _, d, .noMembers h => by simp [scan, scan_append, scan_plain (d + 1) fun c hc => (h c hc).plain]
  | _, _, d, .obj h => by simp [scan, scan_append, scan_members (d + 1) h]
  | _, _, d, .before hc h => by simp [scan, hc.plain, scan_val d h]
  | _, _, d, .after hc h => by simp [scan, scan_append, hc.plain, scan_val d h]

theorem scan_elems : ∀ {t : List Char} {l : List J} (d : Int), Elems t l → scan .out d t = (.out, d)
  | _, _, d, .one h => scan_val d h
  | _, _, d, .more h h' => by simp [scan, scan_append, scan_val d h, scan_elems d h']

theorem scan_member : ∀ {t : List Char} {m : List Char × J} (d : Int), Member t m → scan .out d t = (.out, d)
  | _, _, d, .mk h1 h2 h3 h4 => by
    simp [scan, scan_append, scan_plain d fun c hc => (h1 c hc).plain, scan_plain d fun c hc => (h2 c hc).plain,
      scan_str d h3, scan_val d h4]

theorem scan_members : ∀ {t : List Char} {l : List (List Char × J)} (d : Int), Members t l → scan .out d t = (.out, d)
  | _, _, d, .one h => scan_member d h
  | _, _, d, .more h h' => by simp [scan, scan_append, scan_member d h, scan_members d h']

end

/-- A JSON text with one more brace is not a JSON text. -/
theorem not_json_more {t : List Char} {v : J} (h : Val t v) (v' : J) : ¬ Val (t ++ ['}']) v' := by
  intro h'
  have a := scan_val 0 h'
  rw [scan_append, scan_val 0 h] at a
  simp [scan] at a

end Json

end Verif.Server
