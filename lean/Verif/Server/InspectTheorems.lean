import Verif.Server.Json
import Verif.Server.Names
import Verif.Server.Theorems
import Verif.Ql.Complete
/-!
C48: `INSPECT` shows the catalogue.
-/
namespace Verif.Server
open Verif.Lex (Token lex ascii)
open Verif.Enc (Fields)
open Verif.Gns (Cat Model)
open Verif.Ql (Query Inspect)

/-! ### Specification -/

/-- `l` has the names that are defined in `f`, each once, in some order. -/
def Enumerates {α : Type} (l : List String) (f : String → Option α) : Prop := l.Nodup ∧ ∀ n, n ∈ l ↔ (f n).isSome = true

/-- What a client reads off a column: whether it is the primary key, nullable or not; its name; its type. -/
inductive Mark where
  | key | null | nonNull
  deriving DecidableEq, Repr

/-- The parts of a text between the `c`s. -/
def parts (c : Char) : List Char → List (List Char)
  | [] => [[]]
  | x :: t =>
    if x = c then [] :: parts c t
    else
      match parts c t with
      | p :: ps => (x :: p) :: ps
      | [] => [[x]]

/-- The types that are not lists. -/
def scalars : List Tag :=
  [.bool, .uint8, .uint16, .uint32, .uint64, .sint8, .sint16, .sint32, .sint64, .float32, .float64, .binary, .string]

/-- Read a type: brackets are lists; without regard to case the name in the middle is the one in declarations. -/
def readType (t : List Char) : Option (List Tag) :=
  let n := (t.takeWhile (· == '[')).length
  let mid := (t.drop n).takeWhile (· != ']')
  if (t.drop n).dropWhile (· != ']') = List.replicate n ']' then
    (scalars.find? fun x => decide (mid.map Char.toLower = x.typeName.toList)).map fun x => List.replicate n .list ++ [x]
  else none

/-- Read a column. -/
def readColumn : List Char → Option (Mark × List Char × List Tag)
  | [] => none
  | c :: t =>
    match parts ':' t with
    | [n, ty] =>
      (readType ty).bind fun ts =>
        if c = '*' then some (.key, n, ts) else if c = '?' then some (.null, n, ts)
        else if c = '!' then some (.nonNull, n, ts) else none
    | _ => none

/-- Read a declaration. -/
def readDecl (t : List Char) : Option (List (Mark × List Char × List Tag)) :=
  match t with
  | '{' :: t =>
    if t.getLast? = some '}' then
      if t.dropLast = [] then some [] else (parts ',' t.dropLast).mapM readColumn
    else none
  | _ => none

/-- What there is to read about a column of a model. -/
def shown (m : Model) (e : String × Field) : Mark × List Char × List Tag :=
  (if e.1 = m.pk then .key else if e.2.nullable then .null else .nonNull, e.1.toList, e.2.layers)

/-- The states of a server: that of a new installation, with the root account, and those that queries of any sessions
lead to. -/
inductive Reached : Srv → Prop
  | new (name : String) (hash : Bytes) (hn : Proper name) :
      Reached ⟨{ Cat.empty with users := Gns.upd Cat.empty.users name (some hash) }, fun _ _ => Rows.none⟩
  | query {s : Srv} (o : Outside) (x : Sess) (text params : Bytes) (hp : ∀ fs, ∀ e ∈ o.perm fs, e ∈ fs) :
      Reached s → Reached (serve o s x text params).1

theorem Reached.tidy {s : Srv} (h : Reached s) : Tidy s.cat := by
  induction h with
  | new name hash hn =>
    refine ⟨fun _ _ h => (by cases h), fun _ _ _ h => (by cases h), fun x y h => ?_⟩
    simp only [Gns.upd] at h
    split at h
    · rename_i he; exact he ▸ hn
    · cases h
  | query o x text params hp _ ih => exact serve_tidy hp ih x text params

/-! ### JSON -/

open Json

theorem NameChar.plain {c : Char} (h : NameChar c) : Plain c := by
  refine ⟨?_, by rintro rfl; revert h; decide, by rintro rfl; revert h; decide⟩
  rcases h with h | rfl
  · simp only [Char.isAlphanum, Char.isAlpha, Char.isUpper, Char.isLower, Char.isDigit, Bool.or_eq_true, Bool.and_eq_true,
      decide_eq_true_eq, ge_iff_le, UInt32.le_iff_toNat_le, Char.toNat] at h ⊢
    simp at h
    have : c.toNat = c.val.toNat := rfl
    omega
  · decide

theorem chars_plain : ∀ {t : List Char}, (∀ c ∈ t, Plain c) → Chars t t
  | [], _ => .nil
  | c :: _, h => .plain (h c List.mem_cons_self) (chars_plain fun x hx => h x (List.mem_cons_of_mem _ hx))

theorem str_plain {t : List Char} (h : ∀ c ∈ t, Plain c) : Str ('"' :: (t ++ ['"'])) t := .mk (chars_plain h)

theorem quoted_elems : ∀ {l : List String}, l ≠ [] → (∀ n ∈ l, Proper n) → Elems (quoted l) (l.map fun n => .str n.toList)
  | [], h, _ => absurd rfl h
  | [n], _, hp => .one (.str (str_plain fun c hc => ((hp n (by simp)).2 c hc).plain))
  | n :: n' :: ns, _, hp => by
    have h1 : Val _ _ := .str (str_plain fun c hc => ((hp n (by simp)).2 c hc).plain)
    have h2 := quoted_elems (l := n' :: ns) (by simp) fun x hx => hp x (List.mem_cons_of_mem _ hx)
    have := Elems.more h1 h2
    simpa [quoted] using this

theorem quoted_arr {l : List String} (hp : ∀ n ∈ l, Proper n) : Val ('[' :: (quoted l ++ [']'])) (.arr (l.map fun n => .str n.toList)) := by
  cases l with
  | nil => exact .noElems (ws := []) (by simp)
  | cons n ns => exact .arr (quoted_elems (by simp) hp)

/-- A member without white space. -/
theorem member {n t : List Char} {v : J} (hn : ∀ c ∈ n, Plain c) (h : Val t v) : Member ('"' :: (n ++ '"' :: ':' :: t)) (n, v) := by
  have := Member.mk (ws := []) (ws' := []) (by simp) (by simp) (str_plain hn) h
  simpa using this

theorem empty_obj : Val ['{', '}'] (.obj []) := .noMembers (ws := []) (by simp)

theorem global_json (root : Bool) {spaces users : List String} (hs : ∀ n ∈ spaces, Proper n) (hu : ∀ n ∈ users, Proper n) :
    Val (inspectGlobal root spaces users)
      (.obj (("spaces".toList, .arr (spaces.map fun n => .str n.toList)) ::
        (if root then [("users".toList, .arr (users.map fun n => .str n.toList))] else []) ++ [("settings".toList, .obj [])])) := by
  have h1 := member (n := "spaces".toList) (by decide) (quoted_arr hs)
  have h2 := member (n := "users".toList) (by decide) (quoted_arr hu)
  have h3 := Members.one (member (n := "settings".toList) (by decide) empty_obj)
  cases root with
  | false =>
    have h4 := Val.obj (Members.more h1 h3)
    have e : inspectGlobal false spaces users = '{' :: ('"' :: ("spaces".toList ++ '"' :: ':' :: '[' :: (quoted spaces ++ [']'])) ++
        ',' :: '"' :: ("settings".toList ++ '"' :: ':' :: ['{', '}']) ++ ['}']) := by
      unfold inspectGlobal
      simp
    rw [e]
    exact h4
  | true =>
    have h4 := Val.obj (Members.more h1 (Members.more h2 h3))
    have e : inspectGlobal true spaces users = '{' :: ('"' :: ("spaces".toList ++ '"' :: ':' :: '[' :: (quoted spaces ++ [']'])) ++
        ',' :: ('"' :: ("users".toList ++ '"' :: ':' :: '[' :: (quoted users ++ [']'])) ++
          ',' :: '"' :: ("settings".toList ++ '"' :: ':' :: ['{', '}'])) ++ ['}']) := by
      unfold inspectGlobal
      simp
    rw [e]
    exact h4

theorem space_json {l : List String} (hl : ∀ n ∈ l, Proper n) :
    ∃ t, inspectSpace l = t ++ ['}'] ∧ Val t (.obj [("models".toList, .arr (l.map fun n => .str n.toList))]) := by
  have h := Val.obj (Members.one (member (n := "models".toList) (by decide) (quoted_arr hl)))
  have e : inspectSpace l = '{' :: ('"' :: ("models".toList ++ '"' :: ':' :: '[' :: (quoted l ++ [']'])) ++ ['}']) ++ ['}'] := by
    unfold inspectSpace
    simp
  exact ⟨_, e, h⟩

theorem digits_num (n : Nat) : Val (Nat.toDigits 10 n) (.num (Nat.toDigits 10 n)) := by
  refine .num Nat.toDigits_ne_nil fun c hc => .inl ?_
  exact Nat.isDigit_of_mem_toDigits (by decide) (by decide) hc

theorem model_json {m : Model} (hd : ∀ c ∈ describe m, Plain c) (rows : Nat) :
    Val (inspectModel m rows) (.obj [("decl".toList, .str (describe m)), ("rows".toList, .num (Nat.toDigits 10 rows)),
      ("properties".toList, .obj [])]) := by
  have h1 := member (n := "decl".toList) (by decide) (.str (str_plain hd))
  have h2 := member (n := "rows".toList) (by decide) (digits_num rows)
  have h3 := Members.one (member (n := "properties".toList) (by decide) empty_obj)
  have h4 := Val.obj (Members.more h1 (Members.more h2 h3))
  have e : inspectModel m rows = '{' :: ('"' :: ("decl".toList ++ '"' :: ':' :: ('"' :: (describe m ++ ['"']))) ++
      ',' :: ('"' :: ("rows".toList ++ '"' :: ':' :: Nat.toDigits 10 rows) ++
        ',' :: '"' :: ("properties".toList ++ '"' :: ':' :: ['{', '}'])) ++ ['}']) := by
    unfold inspectModel
    simp
  rw [e]
  exact h4

/-! ### Declarations -/

theorem tagName_chars (t : Tag) : ∀ c ∈ tagName t, NameChar c := by cases t <;> decide

theorem typeText_legal (n : Nat) (t : Tag) :
    typeText (List.replicate n .list ++ [t]) = List.replicate n '[' ++ tagName t ++ List.replicate n ']' := by
  simp [typeText]

theorem mem_typeText {ts : List Tag} (h : LegalType ts) : ∀ c ∈ typeText ts, NameChar c ∨ c = '[' ∨ c = ']' := by
  obtain ⟨n, t, _, rfl⟩ := h
  rw [typeText_legal]
  intro c hc
  simp only [List.mem_append, List.mem_replicate] at hc
  rcases hc with (hc | hc) | hc
  · exact .inr (.inl hc.2)
  · exact .inl (tagName_chars t c hc)
  · exact .inr (.inr hc.2)

theorem mem_columnText {pk : String} {e : String × Field} (h : ColOk e) : ∀ c ∈ columnText pk e,
    Plain c ∧ c ≠ ',' := by
  intro c hc
  have hn : ∀ c, NameChar c → Plain c ∧ c ≠ ',' := fun c h => ⟨h.plain, by rintro rfl; revert h; decide⟩
  simp only [columnText, List.mem_cons, List.mem_append] at hc
  rcases hc with rfl | hc | rfl | hc
  · split
    · decide
    · split <;> decide
  · exact hn c (h.1.2 c hc)
  · decide
  · rcases mem_typeText h.2 c hc with h | rfl | rfl
    · exact hn c h
    · decide
    · decide

theorem mem_columnsText {pk : String} : ∀ {es : Fields}, (∀ e ∈ es, ColOk e) → ∀ c ∈ columnsText pk es, Plain c
  | [], _, c, hc => by cases hc
  | [e], h, c, hc => (mem_columnText (h e (by simp)) c hc).1
  | e :: e' :: es, h, c, hc => by
    simp only [columnsText, List.mem_append, List.mem_cons] at hc
    rcases hc with hc | rfl | hc
    · exact (mem_columnText (h e (by simp)) c hc).1
    · decide
    · exact mem_columnsText (fun x hx => h x (List.mem_cons_of_mem _ hx)) c hc

theorem describe_plain {m : Model} (h : ∀ e ∈ m.fields, ColOk e) : ∀ c ∈ describe m, Plain c := by
  intro c hc
  simp only [describe, List.mem_append, List.mem_cons, List.not_mem_nil, or_false] at hc
  rcases hc with rfl | hc | rfl
  · decide
  · exact mem_columnsText h c hc
  · decide

theorem parts_none {c : Char} : ∀ {a : List Char}, c ∉ a → parts c a = [a]
  | [], _ => rfl
  | x :: a, h => by
    rw [parts, if_neg (fun e => h (by simp [e])), parts_none fun h' => h (List.mem_cons_of_mem _ h')]

theorem parts_append {c : Char} {b : List Char} : ∀ {a : List Char}, c ∉ a → parts c (a ++ c :: b) = a :: parts c b
  | [], _ => by simp [parts]
  | x :: a, h => by
    rw [List.cons_append, parts, if_neg (fun e => h (by simp [e])), parts_append fun h' => h (List.mem_cons_of_mem _ h')]

theorem takeWhile_replicate {p : Char → Bool} {c : Char} {t : List Char} (hc : p c = true) (ht : ∀ x ∈ t.head?, p x = false) :
    ∀ n, (List.replicate n c ++ t).takeWhile p = List.replicate n c
  | 0 => by cases t with
    | nil => rfl
    | cons x t => simp [ht x (by simp)]
  | n + 1 => by rw [List.replicate_succ, List.cons_append, List.takeWhile_cons, hc]; simp [takeWhile_replicate hc ht n]

theorem readType_text {ts : List Tag} (h : LegalType ts) : readType (typeText ts) = some ts := by
  obtain ⟨n, t, ht, rfl⟩ := h
  rw [typeText_legal]
  have h1 : (List.replicate n '[' ++ tagName t ++ List.replicate n ']').takeWhile (· == '[') = List.replicate n '[' := by
    rw [List.append_assoc]
    refine takeWhile_replicate (by decide) ?_ n
    cases t <;> simp [tagName]
  have h2 : ∀ c ∈ tagName t, (c != ']') = true := by cases t <;> decide
  unfold readType
  simp only [h1, List.length_replicate]
  have h3 : (List.replicate n '[' ++ tagName t ++ List.replicate n ']').drop n = tagName t ++ List.replicate n ']' := by
    rw [List.append_assoc, List.drop_left' (by simp)]
  have h4 : (tagName t ++ List.replicate n ']').takeWhile (· != ']') = tagName t := by
    rw [List.takeWhile_append_of_pos h2]
    cases n <;> simp [List.replicate_succ]
  have h5 : (tagName t ++ List.replicate n ']').dropWhile (· != ']') = List.replicate n ']' := by
    rw [List.dropWhile_append_of_pos h2]
    cases n <;> simp [List.replicate_succ]
  rw [h3, h4, h5, if_pos rfl]
  have h6 : (scalars.find? fun x => decide ((tagName t).map Char.toLower = x.typeName.toList)) = some t := by
    cases t <;> first | exact absurd rfl ht | decide
  rw [h6]
  rfl

theorem readColumn_text (m : Model) {e : String × Field} (h : ColOk e) : readColumn (columnText m.pk e) = some (shown m e) := by
  have hn : ':' ∉ e.1.toList := fun hc => by have := h.1.2 _ hc; revert this; decide
  have ht : ':' ∉ typeText e.2.layers := fun hc => by
    rcases mem_typeText h.2 _ hc with h | h | h
    · revert h; decide
    · revert h; decide
    · revert h; decide
  simp only [columnText, readColumn, parts_append hn, parts_none ht, readType_text h.2, shown, Option.bind_some]
  by_cases hk : e.1 = m.pk
  · simp [hk]
  · cases hb : e.2.nullable <;> simp [hk]

theorem parts_columns (pk : String) : ∀ {es : Fields}, es ≠ [] → (∀ e ∈ es, ColOk e) →
    parts ',' (columnsText pk es) = es.map (columnText pk)
  | [], h, _ => absurd rfl h
  | [e], _, h => by
    rw [columnsText, parts_none fun hc => (mem_columnText (h e (by simp)) _ hc).2 rfl]
    rfl
  | e :: e' :: es, _, h => by
    rw [columnsText, parts_append fun hc => (mem_columnText (h e (by simp)) _ hc).2 rfl,
      parts_columns pk (by simp) fun x hx => h x (List.mem_cons_of_mem _ hx)]
    rfl

theorem mapM_columns (m : Model) : ∀ {es : Fields}, (∀ e ∈ es, ColOk e) →
    (es.map (columnText m.pk)).mapM readColumn = some (es.map (shown m))
  | [], _ => rfl
  | e :: es, h => by
    rw [List.map_cons, List.mapM_cons, readColumn_text m (h e (by simp)), mapM_columns m fun x hx => h x (List.mem_cons_of_mem _ hx)]
    rfl

theorem columnsText_ne {pk : String} : ∀ {es : Fields}, es ≠ [] → columnsText pk es ≠ []
  | [], h => absurd rfl h
  | [e], _ => by simp [columnsText, columnText]
  | e :: e' :: es, _ => by simp [columnsText]

theorem readDecl_describe {m : Model} (h : ∀ e ∈ m.fields, ColOk e) :
    readDecl (describe m) = some (m.fields.map (shown m)) := by
  simp only [describe, readDecl, List.getLast?_concat, if_true, List.dropLast_concat]
  by_cases hm : m.fields = []
  · simp [hm, columnsText]
  · rw [if_neg (columnsText_ne hm), parts_columns _ hm h, mapM_columns m h]

/-! ### C48 -/

/-- **C48.** A query whose tokens the grammar reads as an `INSPECT` is executed as this `INSPECT`, for every user. -/
theorem C48_from_text {o : Outside} {s : Srv} {x : Sess} {text params : Bytes} {ts : List Token} {i : Inspect}
    (hl : lex o.pf text params = .ok (.kw (.statement .inspect) :: ts)) (hi : Ql.Gr.Inspects x.cs ts i) :
    serve o s x text params = execute o s x (.inspect i) := by
  unfold serve
  rw [hl]
  simp only
  rw [Ql.parse_complete (q := .inspect i) (.inspect hi) (.inr fun s h => by cases h) fun h => by cases h]

/-- **C48 (global).** Whatever happened before, `INSPECT GLOBAL` is answered with a JSON object that has the names of all
spaces, each once, and for root the names of all users, each once, and nothing changes. -/
theorem C48_inspect_global {s : Srv} (hs : Reached s) (o : Outside) (x : Sess)
    (h1 : Enumerates (o.spaceNames s.cat) s.cat.spaces) (h2 : Enumerates (o.userNames s.cat) s.cat.users) :
    ∃ t spaces users, execute o s x (.inspect .global) = (s, x, .text (String.ofList t), none) ∧
      Val t (.obj (("spaces".toList, .arr (spaces.map fun n => .str n.toList)) ::
        (if x.client.root then [("users".toList, .arr (users.map fun n => .str n.toList))] else []) ++
          [("settings".toList, .obj [])])) ∧
      Enumerates spaces s.cat.spaces ∧ Enumerates users s.cat.users := by
  refine ⟨_, o.spaceNames s.cat, o.userNames s.cat, rfl, global_json _ ?_ ?_, h1, h2⟩
  · intro n hn
    obtain ⟨y, hy⟩ := Option.isSome_iff_exists.1 ((h1.2 n).1 hn)
    exact (hs.tidy.spaces n y hy).1
  · intro n hn
    obtain ⟨y, hy⟩ := Option.isSome_iff_exists.1 ((h2.2 n).1 hn)
    exact hs.tidy.users n y hy

/-- **C48 (model).** Whatever happened before, `INSPECT MODEL` of a model that exists is answered with a JSON object. From
the declaration in it a client reads the columns in their order, each with its name and its type, which one is the primary
key, and which others are nullable; and the number of rows is the number of keys in the index. Nothing changes. -/
theorem C48_inspect_model {s : Srv} (hs : Reached s) (o : Outside) (x : Sess) (space name : String) (m : Model)
    (hm : s.cat.models space name = some m) :
    ∃ t decl, execute o s x (.inspect (.model space name)) = (s, x, .text (String.ofList t), none) ∧
      Val t (.obj [("decl".toList, .str decl), ("rows".toList, .num (Nat.toDigits 10 (s.rows space name).idx.length)),
        ("properties".toList, .obj [])]) ∧
      readDecl decl = some (m.fields.map (shown m)) := by
  have hc : ∀ e ∈ m.fields, ColOk e := (hs.tidy.models _ _ _ hm).2.2
  refine ⟨inspectModel m (s.rows space name).idx.length, describe m, ?_, model_json (describe_plain hc) _, readDecl_describe hc⟩
  simp only [execute, inspect, hm, Option.map_some]

/-- **C48, partial (space).** `INSPECT SPACE` of a space that exists is answered with a JSON object that has the names of
its models, each once, but with a brace too many. Missing: that the answer is JSON (`C48_inspect_space_violated`). -/
theorem C48_inspect_space_partial {s : Srv} (hs : Reached s) (o : Outside) (x : Sess) (name : String) (sp : Gns.Space)
    (hsp : s.cat.spaces name = some sp) (h : (o.modelNames sp).Perm sp.models) :
    ∃ (t : List Char) (ms : List String), execute o s x (.inspect (.space name)) = (s, x, .text (String.ofList (t ++ ['}'])), none) ∧
      Val t (.obj [("models".toList, .arr (ms.map fun n => .str n.toList))]) ∧ ms.Perm sp.models := by
  obtain ⟨t, h1, h2⟩ := space_json (l := o.modelNames sp) fun n hn => (hs.tidy.spaces _ _ hsp).2 n (h.mem_iff.1 hn)
  refine ⟨t, o.modelNames sp, ?_, h2, h⟩
  simp only [execute, inspect, hsp, Option.map_some, h1]

/-- **C48 is violated (space).** The answer to `INSPECT SPACE` is never a JSON text. -/
theorem C48_inspect_space_violated {s : Srv} (hs : Reached s) (o : Outside) (x : Sess) (name : String) (sp : Gns.Space)
    (hsp : s.cat.spaces name = some sp) (h : (o.modelNames sp).Perm sp.models) :
    ∃ t, execute o s x (.inspect (.space name)) = (s, x, .text t, none) ∧ ∀ v, ¬ Val t.toList v := by
  obtain ⟨t, ms, h1, h2, _⟩ := C48_inspect_space_partial hs o x name sp hsp h
  refine ⟨_, h1, fun v hv => not_json_more h2 v ?_⟩
  rwa [String.toList_ofList] at hv

/-- **C48.** What does not exist is reported as missing, and nothing changes. -/
theorem C48_missing (o : Outside) (s : Srv) (x : Sess) (space name : String) :
    (s.cat.models space name = none → execute o s x (.inspect (.model space name)) = (s, x, .notFound, none)) ∧
    (s.cat.spaces space = none → execute o s x (.inspect (.space space)) = (s, x, .notFound, none)) := by
  constructor <;> intro h <;> simp only [execute, inspect, h, Option.map_none]

section Example

private def ofl : Dml.FloatOps := ⟨fun a _ => a, fun a _ => a, fun a _ => a, fun a _ => a⟩
private def out : Outside :=
  ⟨Gns.fine 1, id, id, ofl, fun _ => none, fun _ => "", fun _ => [], fun _ => 0, true, fun c => if (c.spaces "s").isSome then ["s"] else [],
    fun _ => ["root"], fun sp => sp.models⟩
private def srv0 : Srv := ⟨{ Cat.empty with users := Gns.upd Cat.empty.users "root" (some []) }, fun _ _ => Rows.none⟩
private def root : Sess := ⟨⟨"root", true⟩, none⟩
private def qs : List (Outside × Sess × Bytes × Bytes) :=
  [(out, root, ascii "create space s", []),
   (out, root, ascii "create model s.m(primary id: uint64, null names: list { type: string })", []),
   (out, root, ascii "insert into s.m(?, ?)", [2, 55, 10, 0])]

private theorem word (s : String) (h : s.toList ≠ [] ∧ ∀ c ∈ s.toList, NameChar c) : Proper s := h

private theorem reached : Reached (serveAll srv0 qs) := by
  have h0 : Reached srv0 := .new "root" [] (word _ (by decide))
  exact .query _ _ _ _ (fun _ _ h => h) (.query _ _ _ _ (fun _ _ h => h) (.query _ _ _ _ (fun _ _ h => h) h0))

private def Answer.str : Answer → Option String
  | .text s => some s
  | _ => none

/-- A model with a list column and one row, seen by root. The answer for the space ends with two braces. -/
example :
    (serve out (serveAll srv0 qs) root (ascii "inspect model s.m") []).2.2.1.str =
      some "{\"decl\":\"{*id:UInt64,?names:[String]}\",\"rows\":1,\"properties\":{}}" ∧
    (serve out (serveAll srv0 qs) root (ascii "inspect global") []).2.2.1.str =
      some "{\"spaces\":[\"s\"],\"users\":[\"root\"],\"settings\":{}}" ∧
    (serve out (serveAll srv0 qs) root (ascii "inspect space s") []).2.2.1.str = some "{\"models\":[\"m\"]}}" := by
  decide +kernel

end Example

end Verif.Server
