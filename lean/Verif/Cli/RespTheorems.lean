import Verif.Cli.Resp
import Verif.Base.Forall2
/-!
C63: what the shell shows determines the answer.
-/
namespace Verif.Cli
open Verif.Lex (ascii)
open Verif.Num (decimal decimalInt)
open Verif.Net.Reply (Answer)

/-! ### Specification -/

/-- How a number is written. -/
def written (F : Tag → F64 → Bytes) : Cell → Option Bytes
  | .uint _ v => some (decimal v.toNat)
  | .sint _ v => some (decimalInt v.toInt)
  | .float t v => some (F t v)
  | _ => none

/-- The values are the same, or they are numbers that are written the same way: the type of a number is not shown. -/
inductive Alike (F : Tag → F64 → Bytes) : Cell → Cell → Prop where
  | null : Alike F .null .null
  | bool (b : Bool) : Alike F (.bool b) (.bool b)
  | num {c d : Cell} {t : Bytes} : written F c = some t → written F d = some t → Alike F c d
  | str (s : String) : Alike F (.str s) (.str s)
  | bin (b : Bytes) : Alike F (.bin b) (.bin b)
  | list {l m : List Cell} : Forall2 (Alike F) l m → Alike F (.list l) (.list m)

/-- The answers are the same up to the types of numbers. -/
inductive AlikeA (F : Tag → F64 → Bytes) : Answer → Answer → Prop where
  | empty : AlikeA F .empty .empty
  | error (c : Nat) : AlikeA F (.error c) (.error c)
  | null : AlikeA F .null .null
  | bool (b : Bool) : AlikeA F (.bool b) (.bool b)
  | string (s : String) : AlikeA F (.string s) (.string s)
  | row {l m : List Cell} : Forall2 (Alike F) l m → AlikeA F (.row l) (.row m)
  | rows {i j : Nat} {l m : List (List Cell)} : Forall2 (Forall2 (Alike F)) l m → AlikeA F (.rows i l) (.rows j m)

/-- The letters of numbers, of `inf` and of `NaN`. -/
def numLetters : Bytes := ascii "0123456789.-infNa"

/-- What is assumed of the standard library: a floating-point number is written with these letters and does not begin with an
`f`. -/
def Numeric (t : Bytes) : Prop := t ≠ [] ∧ (∀ b ∈ t, b ∈ numLetters) ∧ t.head? ≠ some 102

mutual
/-- No binary data and no text with a backslash. -/
def Clean : Cell → Prop
  | .bin _ => False
  | .str s => 92 ∉ encStr s
  | .list l => Cleans l
  | _ => True

def Cleans : List Cell → Prop
  | [] => True
  | c :: cs => Clean c ∧ Cleans cs
end

/-- The same for an answer. -/
def CleanA : Answer → Prop
  | .string s => 92 ∉ encStr s
  | .row cs => Cleans cs
  | .rows _ rs => ∀ r ∈ rs, Cleans r
  | _ => True

/-! ### Proof -/

/-- What may follow a value. -/
def Stop (r : Screen) : Prop := ∀ x, r.head? = some x → x ∈ [(Ink.plain, (44 : UInt8)), (.plain, 41), (.plain, 93), (.plain, 10)]

/-- The kind of a value, by its first letter. -/
def sort (x : Ink × UInt8) : Nat :=
  if x = (.grey, 110) then 0 else if x = (.plain, 34) then 1 else if x = (.plain, 116) ∨ x = (.plain, 102) then 2
  else if x.1 = .plain ∧ x.2 ∈ numLetters then 3 else if x = (.plain, 91) then 4 else 5

def sortOf : Cell → Nat
  | .null => 0
  | .str _ => 1
  | .bool _ => 2
  | .uint _ _ | .sint _ _ | .float _ _ => 3
  | .list _ | .bin _ => 4

theorem digit_letter {b : UInt8} (h : Num.isDigit b = true) : b ∈ numLetters ∧ b ≠ 102 :=
  Lex.forall_u8 (P := fun b => Num.isDigit b = true → b ∈ numLetters ∧ b ≠ 102) (by decide +kernel) b h

theorem decimal_numeric (n : Nat) : Numeric (decimal n) :=
  ⟨Net.Reply.decimal_ne_nil n, fun b hb => (digit_letter (Num.decimal_digits n b hb)).1,
    fun h => (digit_letter (Num.decimal_digits n 102 (List.mem_of_head? h))).2 rfl⟩

theorem decimalInt_numeric (i : Int) : Numeric (decimalInt i) := by
  unfold decimalInt
  split
  · refine ⟨by simp, fun b hb => ?_, by simp⟩
    rcases List.mem_cons.1 hb with rfl | hb
    · decide
    · exact (decimal_numeric _).2.1 b hb
  · exact decimal_numeric _

theorem written_numeric {F : Tag → F64 → Bytes} (hF : ∀ t v, Numeric (F t v)) {c : Cell} {t : Bytes} (h : written F c = some t) :
    Numeric t := by
  cases c <;> simp only [written, Option.some.injEq, reduceCtorEq] at h <;> subst h
  · exact decimal_numeric _
  · exact decimalInt_numeric _
  · exact hF _ _

theorem written_show {F : Tag → F64 → Bytes} {c : Cell} {t : Bytes} (h : written F c = some t) :
    showCell F false true c = ink .plain t := by
  cases c <;> simp only [written, Option.some.injEq, reduceCtorEq] at h <;> subst h <;> simp [showCell]

theorem sortOf_written {F : Tag → F64 → Bytes} {c : Cell} (h : sortOf c = 3) : ∃ t, written F c = some t := by
  cases c <;> simp [sortOf] at h <;> exact ⟨_, rfl⟩

theorem sort_num {b : UInt8} (h : b ∈ numLetters) (h2 : b ≠ 102) : sort (.plain, b) = 3 :=
  Lex.forall_u8 (P := fun b => b ∈ numLetters → b ≠ 102 → sort (.plain, b) = 3) (by decide +kernel) b h h2

/-- The first letter of a value. -/
theorem show_head {F : Tag → F64 → Bytes} (hF : ∀ t v, Numeric (F t v)) (c : Cell) :
    ∃ x y, showCell F false true c = x :: y ∧ sort x = sortOf c := by
  by_cases h : sortOf c = 3
  · obtain ⟨t, ht⟩ := sortOf_written (F := F) h
    obtain ⟨n1, n2, n3⟩ := written_numeric hF ht
    rw [written_show ht, h]
    cases t with
    | nil => exact absurd rfl n1
    | cons b t => exact ⟨(.plain, b), ink .plain t, rfl, sort_num (n2 b (by simp)) (fun e => n3 (by rw [e]; rfl))⟩
  · cases c with
    | null => exact ⟨_, _, rfl, by decide⟩
    | bool b => cases b <;> exact ⟨_, _, rfl, by decide⟩
    | str s => exact ⟨_, _, rfl, by simp only [sortOf]; decide⟩
    | bin b => exact ⟨_, _, rfl, by simp only [sortOf]; decide⟩
    | list l => exact ⟨_, _, rfl, by simp only [sortOf]; decide⟩
    | _ => exact absurd rfl h

theorem ink_append (i : Ink) (a b : Bytes) : ink i (a ++ b) = ink i a ++ ink i b := List.map_append

theorem ink_inj {i : Ink} {a b : Bytes} (h : ink i a = ink i b) : a = b := by
  have := congrArg (List.map Prod.snd) h
  simpa [ink, Function.comp_def] using this

theorem stop_cons {x : Ink × UInt8} {r : Screen} (h : x ∈ [(Ink.plain, (44 : UInt8)), (.plain, 41), (.plain, 93), (.plain, 10)]) :
    Stop (x :: r) := by
  intro y hy
  cases hy
  exact h

theorem letter_not_stop {b : UInt8} (h : b ∈ numLetters) :
    (Ink.plain, b) ∉ [(Ink.plain, (44 : UInt8)), (.plain, 41), (.plain, 93), (.plain, 10)] :=
  Lex.forall_u8 (P := fun b => b ∈ numLetters →
    (Ink.plain, b) ∉ [(Ink.plain, (44 : UInt8)), (.plain, 41), (.plain, 93), (.plain, 10)]) (by decide +kernel) b h

theorem num_inj : ∀ {t t' : Bytes} {r r' : Screen}, (∀ b ∈ t, b ∈ numLetters) → (∀ b ∈ t', b ∈ numLetters) → Stop r → Stop r' →
    ink .plain t ++ r = ink .plain t' ++ r' → t = t' ∧ r = r'
  | [], [], _, _, _, _, _, _, h => ⟨rfl, h⟩
  | [], b :: t', r, r', _, h2, h3, _, h => by
    simp only [ink, List.map_nil, List.nil_append, List.map_cons, List.cons_append] at h
    exact absurd (h3 (.plain, b) (by rw [h]; rfl)) (letter_not_stop (h2 b (by simp)))
  | b :: t, [], r, r', h1, _, _, h4, h => by
    simp only [ink, List.map_nil, List.nil_append, List.map_cons, List.cons_append] at h
    exact absurd (h4 (.plain, b) (by rw [← h]; rfl)) (letter_not_stop (h1 b (by simp)))
  | b :: t, b' :: t', r, r', h1, h2, h3, h4, h => by
    simp only [ink, List.map_cons, List.cons_append, List.cons.injEq, Prod.mk.injEq, true_and] at h
    obtain ⟨rfl, h⟩ := h
    obtain ⟨e, g⟩ := num_inj (t := t) (t' := t') (r := r) (r' := r') (fun x hx => h1 x (by simp [hx])) (fun x hx => h2 x (by simp [hx])) h3 h4 h
    exact ⟨by rw [e], g⟩

theorem escape_inj : ∀ {s s' : Bytes} {r r' : Screen}, 92 ∉ s → 92 ∉ s' →
    ink .plain (escape s ++ [34]) ++ r = ink .plain (escape s' ++ [34]) ++ r' → s = s' ∧ r = r' := by
  have key : ∀ (b : UInt8) (s : Bytes), b ≠ 92 → ∃ e, escape (b :: s) = e ++ escape s ∧
      ((b = 34 ∧ e = [92, 34]) ∨ (b = 9 ∧ e = [92, 116]) ∨ (b = 10 ∧ e = [92, 110]) ∨ (b ≠ 34 ∧ e = [b])) := by
    intro b s hb
    rw [escape]
    split
    · rename_i h; exact ⟨[92, 34], rfl, .inl ⟨h, rfl⟩⟩
    · split
      · rename_i h; exact ⟨[92, 116], rfl, .inr (.inl ⟨h, rfl⟩)⟩
      · split
        · rename_i h; exact ⟨[92, 110], rfl, .inr (.inr (.inl ⟨h, rfl⟩))⟩
        · rename_i h _ _; exact ⟨[b], rfl, .inr (.inr (.inr ⟨h, rfl⟩))⟩
  intro s
  induction s with
  | nil =>
    intro s' r r' _ h2 h
    cases s' with
    | nil =>
      simp only [escape, List.nil_append] at h
      exact ⟨rfl, List.append_cancel_left h⟩
    | cons b s' =>
      exfalso
      have hb : b ≠ 92 := fun e => h2 (by simp [e])
      obtain ⟨e, he, hc⟩ := key b s' hb
      rw [he] at h
      rcases hc with ⟨_, rfl⟩ | ⟨_, rfl⟩ | ⟨_, rfl⟩ | ⟨hne, rfl⟩ <;>
        simp [escape, ink] at h
      exact hne h.1.symm
  | cons b s ih =>
    intro s' r r' h1 h2 h
    have hb : b ≠ 92 := fun e => h1 (by simp [e])
    obtain ⟨e, he, hc⟩ := key b s hb
    cases s' with
    | nil =>
      exfalso
      rw [he] at h
      rcases hc with ⟨_, rfl⟩ | ⟨_, rfl⟩ | ⟨_, rfl⟩ | ⟨hne, rfl⟩ <;>
        simp [escape, ink] at h
      exact hne h.1
    | cons b' s' =>
      have hb' : b' ≠ 92 := fun e => h2 (by simp [e])
      obtain ⟨e', he', hc'⟩ := key b' s' hb'
      rw [he, he', List.append_assoc, List.append_assoc, ink_append _ e, ink_append _ e', List.append_assoc, List.append_assoc] at h
      have g1 : 92 ∉ s := fun e => h1 (by simp [e])
      have g2 : 92 ∉ s' := fun e => h2 (by simp [e])
      have fin : b = b' → e = e' → b :: s = b' :: s' ∧ r = r' := by
        rintro rfl rfl
        have := ih g1 g2 (List.append_cancel_left h)
        exact ⟨by rw [this.1], this.2⟩
      rcases hc with ⟨rfl, rfl⟩ | ⟨rfl, rfl⟩ | ⟨rfl, rfl⟩ | ⟨hne, rfl⟩ <;>
        rcases hc' with ⟨rfl, rfl⟩ | ⟨rfl, rfl⟩ | ⟨rfl, rfl⟩ | ⟨hne', rfl⟩ <;>
        first
        | exact fin rfl rfl
        | (exfalso; simp [ink] at h; done)
        | (exfalso; simp [ink] at h; exact hb' h.1.symm)
        | (exfalso; simp [ink] at h; exact hb h.1)
        | (simp only [ink, List.map_cons, List.map_nil, List.cons_append, List.cons.injEq, Prod.mk.injEq, true_and] at h
           exact fin h.1 (by rw [h.1]))

theorem close_not_head {F : Tag → F64 → Bytes} (hF : ∀ t v, Numeric (F t v)) {c : Cell} {x : Ink × UInt8} {r y : Screen}
    (hx : x = (.plain, 41) ∨ x = (.plain, 93)) (h : x :: r = showCell F false true c ++ y) : False := by
  obtain ⟨z, w, e, hs⟩ := show_head hF c
  rw [e] at h
  cases h
  have : sort x = 5 := by rcases hx with rfl | rfl <;> decide
  rw [this] at hs
  cases c <;> cases hs

mutual
theorem cell_inj {F : Tag → F64 → Bytes} (hF : ∀ t v, Numeric (F t v)) : ∀ (c c' : Cell) {r r' : Screen}, Clean c → Clean c' →
    Stop r → Stop r' → showCell F false true c ++ r = showCell F false true c' ++ r' → Alike F c c' ∧ r = r' := by
  intro c c' r r' h1 h2 h3 h4 h
  have hs : sortOf c = sortOf c' := by
    obtain ⟨x, y, e, hx⟩ := show_head hF c
    obtain ⟨x', y', e', hx'⟩ := show_head hF c'
    rw [e, e'] at h
    have h := (List.cons.inj h).1
    rw [← hx, ← hx', h]
  have num : sortOf c = 3 → Alike F c c' ∧ r = r' := by
    intro h5
    obtain ⟨t, ht⟩ := sortOf_written (F := F) h5
    obtain ⟨t', ht'⟩ := sortOf_written (F := F) (hs ▸ h5)
    rw [written_show ht, written_show ht'] at h
    obtain ⟨rfl, hr⟩ := num_inj (written_numeric hF ht).2.1 (written_numeric hF ht').2.1 h3 h4 h
    exact ⟨.num ht ht', hr⟩
  match c, c' with
  | .null, c' =>
    cases c' <;> simp [sortOf] at hs
    exact ⟨.null, List.append_cancel_left h⟩
  | .bool b, c' =>
    cases c' <;> simp [sortOf] at hs
    rename_i b'
    cases b <;> cases b' <;> simp [showCell, ink, ascii] at h <;> exact ⟨.bool _, h⟩
  | .uint _ _, _ => exact num rfl
  | .sint _ _, _ => exact num rfl
  | .float _ _, _ => exact num rfl
  | .str s, c' =>
    cases c' <;> simp [sortOf] at hs
    rename_i s'
    simp only [showCell, showString, Bool.not_true, Bool.false_eq_true, if_false] at h
    rw [show (34 : UInt8) :: escape (encStr s) ++ [34] = [34] ++ (escape (encStr s) ++ [34]) from rfl,
      show (34 : UInt8) :: escape (encStr s') ++ [34] = [34] ++ (escape (encStr s') ++ [34]) from rfl,
      ink_append, ink_append _ [34], List.append_assoc, List.append_assoc] at h
    simp only [Clean] at h1 h2
    obtain ⟨e, hr⟩ := escape_inj h1 h2 (List.append_cancel_left h)
    cases encStr_inj e
    exact ⟨.str s, hr⟩
  | .bin b, _ => simp [Clean] at h1
  | .list l, c' =>
    cases c' <;> simp [sortOf] at hs
    · simp [Clean] at h2
    rename_i l'
    simp only [Clean] at h1 h2
    simp only [showCell, List.append_assoc] at h
    have := cells_inj hF (.inr rfl) l l' h1 h2 (List.append_cancel_left h)
    exact ⟨.list this.1, this.2⟩
termination_by c => sizeOf c

theorem cells_inj {F : Tag → F64 → Bytes} (hF : ∀ t v, Numeric (F t v)) {x : UInt8} (hx : x = 41 ∨ x = 93)
    (l l' : List Cell) {r r' : Screen} (h1 : Cleans l) (h2 : Cleans l') (h :
    commas (showCells F false true l) ++ (ink .plain [x] ++ r) = commas (showCells F false true l') ++ (ink .plain [x] ++ r')) :
    Forall2 (Alike F) l l' ∧ r = r' := by
  have hx' : (Ink.plain, x) = (.plain, 41) ∨ (Ink.plain, x) = (.plain, 93) := by rcases hx with rfl | rfl <;> simp
  have hst : ∀ r : Screen, Stop (ink .plain [x] ++ r) := fun r => stop_cons (by rcases hx with rfl | rfl <;> simp)
  have hc : ∀ r : Screen, Stop (ink .plain [44, 32] ++ r) := fun r => stop_cons (by simp)
  match l, l' with
  | [], [] => exact ⟨.nil, by simpa [showCells, commas] using h⟩
  | [], c' :: cs' =>
    exfalso
    simp only [showCells, commas, List.nil_append, ink, List.map_cons, List.map_nil, List.cons_append] at h
    cases cs' with
    | nil => exact close_not_head hF hx' (by simpa [showCells, commas] using h)
    | cons d ds =>
      simp only [showCells, commas, List.append_assoc] at h
      exact close_not_head hF hx' h
  | c :: cs, [] =>
    exfalso
    simp only [showCells, commas, List.nil_append, ink, List.map_cons, List.map_nil, List.cons_append] at h
    cases cs with
    | nil => exact close_not_head hF hx' (by simpa [showCells, commas] using h.symm)
    | cons d ds =>
      simp only [showCells, commas, List.append_assoc] at h
      exact close_not_head hF hx' h.symm
  | [c], [c'] =>
    simp only [Cleans, and_true] at h1 h2
    simp only [showCells, commas] at h
    obtain ⟨ha, hr⟩ := cell_inj hF c c' h1 h2 (hst _) (hst _) h
    exact ⟨.cons ha .nil, List.append_cancel_left hr⟩
  | [c], c' :: d' :: ds' =>
    exfalso
    simp only [Cleans, and_true] at h1 h2
    simp only [showCells, commas, List.append_assoc] at h
    obtain ⟨_, hr⟩ := cell_inj hF c c' h1 h2.1 (hst _) (hc _) h
    simp [ink] at hr
    rcases hx with rfl | rfl <;> simp at hr
  | c :: d :: ds, [c'] =>
    exfalso
    simp only [Cleans, and_true] at h1 h2
    simp only [showCells, commas, List.append_assoc] at h
    obtain ⟨_, hr⟩ := cell_inj hF c c' h1.1 h2 (hc _) (hst _) h
    simp [ink] at hr
    rcases hx with rfl | rfl <;> simp at hr
  | c :: d :: ds, c' :: d' :: ds' =>
    rw [Cleans] at h1 h2
    simp only [showCells, commas, List.append_assoc] at h
    obtain ⟨ha, hr⟩ := cell_inj hF c c' h1.1 h2.1 (hc _) (hc _) h
    have := cells_inj hF hx (d :: ds) (d' :: ds') (r := r) (r' := r') h1.2 h2.2 (by
      simp only [showCells]
      exact List.append_cancel_left hr)
    exact ⟨.cons ha this.1, this.2⟩
termination_by sizeOf l
end

theorem row_inj {F : Tag → F64 → Bytes} (hF : ∀ t v, Numeric (F t v)) {l l' : List Cell} {r r' : Screen} (h1 : Cleans l)
    (h2 : Cleans l') (h : showRow F true l ++ r = showRow F true l' ++ r') : Forall2 (Alike F) l l' ∧ r = r' := by
  simp only [showRow, List.append_assoc] at h
  exact cells_inj hF (.inl rfl) l l' h1 h2 (List.append_cancel_left h)

theorem rows_inj {F : Tag → F64 → Bytes} (hF : ∀ t v, Numeric (F t v)) : ∀ {l l' : List (List Cell)} {i : Nat},
    (∀ r ∈ l, Cleans r) → (∀ r ∈ l', Cleans r) → showRows F true i l = showRows F true i l' → Forall2 (Forall2 (Alike F)) l l'
  | [], [], _, _, _, _ => .nil
  | [], _ :: _, _, _, _, h => by simp [showRows, ink] at h
  | _ :: _, [], _, _, _, h => by simp [showRows, ink] at h
  | r :: l, r' :: l', i, h1, h2, h => by
    simp only [showRows, List.append_assoc] at h
    obtain ⟨g1, g2⟩ := row_inj hF (h1 r (by simp)) (h2 r' (by simp)) (List.append_cancel_left h)
    exact .cons g1 (rows_inj hF (fun x hx => h1 x (by simp [hx])) (fun x hx => h2 x (by simp [hx])) (List.append_cancel_left g2))

/-- The kind of an answer, by its first letter. -/
def sortA : Answer → Ink × UInt8
  | .empty => (.cyan, 40)
  | .error _ => (.red, 40)
  | .null => (.grey, 110)
  | .bool true => (.plain, 116)
  | .bool false => (.plain, 102)
  | .string _ => (.plain, 34)
  | .row _ => (.plain, 40)
  | .rows _ [] => (.grey, 91)
  | .rows _ _ => (.grey, 40)

theorem format_head (F : Tag → F64 → Bytes) (a : Answer) : (format F false true a).head? = some (sortA a) := by
  cases a with
  | bool b => cases b <;> rfl
  | rows n rs => cases rs <;> rfl
  | _ => rfl

/-! ### Theorems -/

/-- **C63 (partial).** If the shell shows the same text in the same colours for two answers, they are the same answer up to the
types of numbers: the same kind, the same error code, the same rows in the same order with the same values in the same places.
(`hF`: floating-point numbers are written with the letters of numbers.) Missing: binary data and texts with a backslash, and the
texts of INSPECT. -/
theorem C63_shown_partial {F : Tag → F64 → Bytes} (hF : ∀ t v, Numeric (F t v)) {a b : Answer} (ha : CleanA a) (hb : CleanA b)
    (h : format F false true a = format F false true b) : AlikeA F a b := by
  have hs : sortA a = sortA b := by
    have := congrArg List.head? h
    rw [format_head, format_head] at this
    exact Option.some.inj this
  cases a with
  | empty =>
    cases b with
    | empty => exact .empty
    | bool b => cases b <;> cases hs
    | rows n rs => cases rs <;> cases hs
    | _ => cases hs
  | error c =>
    cases b with
    | error c' =>
      simp only [format] at h
      have h := ink_inj (List.append_cancel_right h)
      rw [List.append_assoc, List.append_assoc] at h
      have h := List.append_cancel_right (List.append_cancel_left h)
      have : c = c' := by rw [← Num.digitsVal_decimal c, h, Num.digitsVal_decimal]
      subst this
      exact .error c
    | bool b => cases b <;> cases hs
    | rows n rs => cases rs <;> cases hs
    | _ => cases hs
  | null =>
    cases b with
    | null => exact .null
    | bool b => cases b <;> cases hs
    | rows n rs => cases rs <;> cases hs
    | _ => cases hs
  | bool x =>
    cases b with
    | bool y => cases x <;> cases y <;> first | exact .bool _ | cases hs
    | rows n rs => cases x <;> cases rs <;> cases hs
    | _ => cases x <;> cases hs
  | string s =>
    cases b with
    | string s' =>
      have st : Stop (ink .plain [10]) := stop_cons (by simp)
      have := (cell_inj hF (.str s) (.str s') (by simpa [Clean, CleanA] using ha) (by simpa [Clean, CleanA] using hb) st st h).1
      cases this with
      | num h => cases h
      | str => exact .string _
    | bool b => cases b <;> cases hs
    | rows n rs => cases rs <;> cases hs
    | _ => cases hs
  | row l =>
    cases b with
    | row l' => exact .row (row_inj hF ha hb h).1
    | bool b => cases b <;> cases hs
    | rows n rs => cases rs <;> cases hs
    | _ => cases hs
  | rows n rs =>
    cases b with
    | rows m rs' =>
      cases rs with
      | nil =>
        cases rs' with
        | nil => exact .rows .nil
        | cons => cases hs
      | cons r rs =>
        cases rs' with
        | nil => cases hs
        | cons r' rs' => exact .rows (rows_inj hF (i := 1) ha hb h)
    | bool b => cases b <;> cases rs <;> cases hs
    | _ => cases rs <;> cases hs

/-- **C63.** Whole numbers that are written the same way are the same number. -/
theorem C63_numbers (F : Tag → F64 → Bytes) {t t' : Tag} {v v' : UInt64} {w w' : Int64} :
    (Alike F (.uint t v) (.uint t' v') → v = v') ∧ (Alike F (.sint t w) (.sint t' w') → w = w') ∧
    (Alike F (.uint t v) (.sint t' w') → (v.toNat : Int) = w'.toInt) := by
  have dec : ∀ n m : Nat, decimal n = decimal m → n = m := fun n m h => by
    rw [← Num.digitsVal_decimal n, h, Num.digitsVal_decimal]
  have int : ∀ i j : Int, decimalInt i = decimalInt j → i = j := fun i j h => by
    have := Net.Reply.readInt_decimalInt i
    rw [h, Net.Reply.readInt_decimalInt] at this
    exact (Option.some.inj this).symm
  refine ⟨fun h => ?_, fun h => ?_, fun h => ?_⟩
  · cases h with
    | num h1 h2 =>
      cases h1
      simp only [written, Option.some.injEq] at h2
      exact UInt64.toNat_inj.1 (dec _ _ h2).symm
  · cases h with
    | num h1 h2 =>
      cases h1
      simp only [written, Option.some.injEq] at h2
      exact Int64.toInt_inj.1 (int _ _ h2).symm
  · cases h with
    | num h1 h2 =>
      cases h1
      simp only [written, Option.some.injEq] at h2
      have e : decimal v.toNat = decimalInt (v.toNat : Int) := by
        unfold decimalInt
        rw [if_neg (by omega), Int.natAbs_natCast]
      rw [e] at h2
      exact (int _ _ h2).symm

/-- **C63, the texts of INSPECT.** They are shown as they are. -/
theorem C63_special_texts (F : Tag → F64 → Bytes) (s s' : String) (h : format F true true (.string s) = format F true true (.string s')) :
    s = s' := by
  simp only [format, showCell, showString, Bool.not_true, Bool.false_eq_true, if_false, if_true] at h
  exact encStr_inj (ink_inj (List.append_cancel_right h))

section Example

private def F : Tag → F64 → Bytes := fun _ _ => ascii "1.5"

private theorem F_ok : ∀ t v, Numeric (F t v) := fun _ _ => (⟨by decide, by decide, by decide⟩ : Numeric (ascii "1.5"))

/-- A row as it is shown, without the colours. The null value breaks the line. -/
example : (format F false true (.row [.str "a\"b", .uint .uint8 7, .null, .list [.bool true, .float .float32 0]])).map (·.2) =
    ascii "(\"a\\\"b\", 7, null\n, [true, 1.5])\n" := by decide +kernel

example : (format F false true (.rows 1 [[.sint .sint8 (-3)], [.list []]])).map (·.2) = ascii "(1)(-3)\n(2)([])\n" ∧
    CleanA (.rows 1 [[.sint .sint8 (-3)], [.list []]]) := by
  constructor
  · decide +kernel
  · simp [CleanA, Cleans, Clean]

/-- **C63 is violated.** The shell shows the binary data 1, 2 and the list of the numbers 1 and 2 in the same way, and also a
line break and a backslash that is followed by the letter `n`. -/
theorem C63_shown_violated :
    format F false true (.row [.bin [1, 2]]) = format F false true (.row [.list [.uint .uint8 1, .uint .uint8 2]]) ∧
    ¬ AlikeA F (.row [.bin [1, 2]]) (.row [.list [.uint .uint8 1, .uint .uint8 2]]) ∧
    format F false true (.string "a\nb") = format F false true (.string "a\\nb") ∧
    ¬ AlikeA F (.string "a\nb") (.string "a\\nb") := by
  refine ⟨by decide +kernel, ?_, by decide +kernel, ?_⟩
  · intro h
    cases h with
    | row h =>
      cases h with
      | cons h _ =>
        cases h with
        | num h => cases h
  · intro h
    have : ∀ a b, AlikeA F (.string a) (.string b) → a = b := by intro a b h; cases h; rfl
    exact absurd (this _ _ h) (by decide)

/-- **C63, `--eval` (violated).** Without colours and quotes, the text `(Okay)` looks like the answer without content, a row of one
text like a row of two, and an error like a text. -/
theorem C63_eval_violated :
    format F false false (.string "(Okay)") = format F false false .empty ∧
    format F false false (.row [.str "a, b"]) = format F false false (.row [.str "a", .str "b"]) ∧
    (format F false false (.string "(server error code: 5)")).map (·.2) = (format F false false (.error 5)).map (·.2) := by
  refine ⟨?_, ?_, ?_⟩ <;> decide +kernel

end Example

end Verif.Cli
