import Verif.Dml.Update
/-!
C32: the theorems about whole UPDATE statements.
-/
namespace Verif.Dml
open Verif.Gns (SDelta Model upd fget ModelOk FieldsOk PkNonNull)
open Verif.Enc (Fields)
open Verif.Lex (Lit)

/-- **C32 (partial).** For an UPDATE of an existing row, whose assignments are possible or of the wrong class
(`Plain`), and which can be undone or has no error: either the reply is empty and the row holds the results
of the assignments, or the reply is the error and the row is unchanged. Missing (and false, see below): the
other UPDATEs. -/
theorem C32_update_partial {F : FloatOps} {t : Tbl} {w : Where} {k : Key} {i : Nat} {r : RowObj} {as : List Asn}
    (hcols : ∀ k f, fget t.model.fields k = some f → LegalType f.layers)
    (hw : resolveWhere t.model w = some k) (hi : kget t.idx k = some i) (hr : t.heap[i]? = some r)
    (hrow : RowOk t.model.fields t.model.pk r.cells) (hp : Plain F t.model.fields as (normCells r.cells))
    (hu : (∃ e, SpecUpd F t.model.fields t.model.pk as (normCells r.cells) (.error e)) →
      Undoable t.model.fields as) :
    (∃ c, SpecUpd F t.model.fields t.model.pk as (normCells r.cells) (.ok c) ∧
      (execUpdate F t as w).2 = .empty ∧
      ∃ c', (execUpdate F t as w).1 = { t with
          heap := t.heap.set i { r with cells := c', revised := t.ver }
          ver := t.ver + 1
          queue := t.queue ++ [⟨t.ver, .update, i⟩] } ∧
        normCells c' = c ∧ RowOk t.model.fields t.model.pk c') ∨
    (∃ e, SpecUpd F t.model.fields t.model.pk as (normCells r.cells) (.error e) ∧
      (execUpdate F t as w).2 = .err e ∧ (execUpdate F t as w).1 = { t with ver := t.ver + 1 }) := by
  obtain ⟨res, hres⟩ := specUpd_total F t.model.fields t.model.pk as (normCells r.cells) (by
    intro j f hf hj
    obtain ⟨x, hx, _⟩ := (hrow j).1 f hf hj
    simp [normCells, hx])
  obtain ⟨h1, h2⟩ := updLoop_spec hcols hres (rb := []) rfl hrow hp
  have hex : execUpdate F t as w =
      (match updLoop F t.model.fields as r.cells [] with
      | .done c =>
        ({ setRow { t with ver := t.ver + 1 } i { r with cells := c, revised := t.ver + 1 - 1 } with
            queue := t.queue ++ [⟨t.ver + 1 - 1, .update, i⟩] }, .empty)
      | .fail e c rb => (setRow { t with ver := t.ver + 1 } i { r with cells := restore c rb }, .err e)
      | .panic c => (setRow { t with ver := t.ver + 1 } i { r with cells := c }, .panic)) := by
    rw [execUpdate]
    simp only [hw, hi, hr, Option.bind_some, Option.map_some]
    cases updLoop F t.model.fields as r.cells [] <;> rfl
  cases res with
  | ok c =>
    obtain ⟨d, hd, hn, hok⟩ := h1 c rfl
    rw [hd] at hex
    refine .inl ⟨c, hres, by rw [hex], d, by rw [hex]; simp [setRow], hn, hok⟩
  | error e =>
    obtain ⟨d, rb, hd, hun⟩ := h2 e rfl
    rw [hd] at hex
    have hrest : restore d rb = r.cells := restore_undo (hun r.cells (hu ⟨e, hres⟩)
      ⟨by simp, by simp, fun _ _ => rfl⟩ (by simp))
    refine .inr ⟨e, hres, by rw [hex], ?_⟩
    rw [hex]
    simp only [hrest, setRow]
    congr 1
    apply List.ext_getElem?
    intro n
    rw [List.getElem?_set]
    split
    · rename_i e; subst e
      rw [hr]
      obtain ⟨hlt, _⟩ := List.getElem?_eq_some_iff.1 hr
      rw [if_pos hlt]
    · rfl

/-! ### The rest -/

/-- **C32 is violated.** Whatever the check of the operator says (`b`), the new value `y` is stored and the
UPDATE is acknowledged. -/
theorem C32_check_is_ignored_violated {F : FloatOps} {t : Tbl} {w : Where} {k : Key} {i : Nat} {r : RowObj}
    {a : Asn} {f : Field} {tg : Tag} {x y : Cell} {b : Bool} (hw : resolveWhere t.model w = some k)
    (hi : kget t.idx k = some i) (hr : t.heap[i]? = some r) (hf : fget t.model.fields a.lhs = some f)
    (hl : f.layers = [tg]) (ht : tg ≠ .list) (hc : tg.cls = litClass a.rhs) (hx : r.cells a.lhs = some x)
    (hn : x ≠ .null) (hop : dcOp F a.op x a.rhs = .ok (b, y)) :
    (execUpdate F t [a] w).2 = .empty ∧
      ∃ r', (execUpdate F t [a] w).1.heap[i]? = some r' ∧ r'.cells a.lhs = some y := by
  have hs : asnStep F f x a.op a.rhs = .replace y := by
    unfold asnStep
    rw [hl]
    simp only
    rw [if_pos ⟨hc, fun e => ht (cls_list.1 e), by cases hh : x.isNull <;> simp_all [isNull_iff]⟩, hop]
  obtain ⟨hlt, _⟩ := List.getElem?_eq_some_iff.1 hr
  rw [execUpdate]
  simp only [hw, hi, hr, Option.bind_some, Option.map_some, updLoop, hf, hx, hs]
  refine ⟨trivial, { r with cells := upd r.cells a.lhs (some y), revised := t.ver + 1 - 1 }, ?_, by simp [upd]⟩
  simp only [setRow]
  rw [List.getElem?_set]
  simp [hlt]

/-- Example: a table with the key 1. -/
def exF : FloatOps := ⟨fun _ _ => 0, fun _ _ => 0, fun _ _ => 0, fun _ _ => 0⟩

def exModel : Model :=
  { uuid := 7, pk := "id", pkTag := .uint64
    fields := [("id", ⟨[.uint64], false⟩), ("n", ⟨[.uint8], false⟩), ("s", ⟨[.string], false⟩),
      ("l", ⟨[.list, .uint8], true⟩), ("o", ⟨[.uint8], true⟩), ("i", ⟨[.sint8], false⟩)]
    deltas := [] }

/-- `INSERT` of a row `id, n, s, l, o, i`. -/
def exRow (id : UInt64) (l : Cell) : Stmt :=
  .insert (.ordered [.uint .uint64 id, .uint .uint64 200, .str "abc", l, .null, .sint .sint64 (-100)])

def exTbl : Tbl := (run exF id (Tbl.empty exModel) [exRow 1 (.list [.uint .uint64 5]), exRow 2 .null]).1

def whereId (id : UInt64) : Where := [("id", ⟨true, .uint id⟩)]

/-- The reply and the value of a column of the row `id` after an UPDATE. -/
def exUpd (id : UInt64) (as : List Asn) (col : String) : Reply × Option Cell :=
  let r := execUpdate exF exTbl as (whereId id)
  (r.2, ((kget r.1.idx (.uint id)).bind fun i => r.1.heap[i]?).bind fun o => o.cells col)

/-- **C32 is violated.** `n += 100` on 200 in a column of type `uint8`: acknowledged, the column holds 300.
`n -= 201`: acknowledged, 2^64 - 1. `i -= 100` on -100 in a column of type `sint8`: acknowledged, -200. -/
theorem C32_out_of_range_violated :
    exUpd 1 [⟨"n", .add, .uint 100⟩] "n" = (.empty, some (.uint .uint8 300)) ∧
    exUpd 1 [⟨"n", .sub, .uint 201⟩] "n" = (.empty, some (.uint .uint8 0xFFFFFFFFFFFFFFFF)) ∧
    exUpd 1 [⟨"i", .sub, .sint 100⟩] "i" = (.empty, some (.sint .sint8 (-200))) := by
  refine ⟨?_, ?_, ?_⟩ <;> rfl

/-- **C32 is violated.** An operator that the type does not have (`s -= "x"` on a string) is acknowledged and
stores null, even in a column that cannot be null. -/
theorem C32_unsupported_operator_violated :
    exUpd 1 [⟨"s", .sub, .str "x"⟩] "s" = (.empty, some .null) ∧
    (fget exModel.fields "s").map (·.nullable) = some false := by
  refine ⟨?_, ?_⟩ <;> rfl

/-- **C32 is violated.** A null column takes any number (300 in a `uint8`), and so does a list. -/
theorem C32_null_and_list_unchecked_violated :
    exUpd 1 [⟨"o", .assign, .uint 300⟩] "o" = (.empty, some (.uint .uint64 300)) ∧
    exUpd 1 [⟨"l", .add, .uint 300⟩] "l" = (.empty, some (.list [.uint .uint8 5, .uint .uint64 300])) := by
  refine ⟨?_, ?_⟩ <;> rfl

/-- **C32 is violated.** Appending to a null list reads an object that is not there; dividing by zero panics,
and the assignments before it remain although the UPDATE was not acknowledged and nothing is queued for the
disk. -/
theorem C32_aborts_violated :
    (exUpd 2 [⟨"l", .add, .uint 3⟩] "l").1 = .panic ∧
    exUpd 1 [⟨"n", .assign, .uint 5⟩, ⟨"n", .div, .uint 0⟩] "n" = (.panic, some (.uint .uint8 5)) ∧
    (execUpdate exF exTbl [⟨"n", .assign, .uint 5⟩, ⟨"n", .div, .uint 0⟩] (whereId 1)).1.queue = exTbl.queue := by
  refine ⟨?_, ?_, ?_⟩ <;> rfl

/-- **C32 is violated.** UPDATEs that are answered by an error and change the row: a column that was assigned
twice gets the value in between, an element that was appended to a list stays. -/
theorem C32_error_changes_row_violated :
    exUpd 1 [⟨"n", .assign, .uint 1⟩, ⟨"n", .assign, .uint 2⟩, ⟨"x", .assign, .uint 3⟩] "n" =
      (.err .unknownField, some (.uint .uint8 1)) ∧
    exUpd 1 [⟨"l", .add, .uint 6⟩, ⟨"x", .assign, .uint 3⟩] "l" =
      (.err .unknownField, some (.list [.uint .uint8 5, .uint .uint64 6])) := by
  refine ⟨?_, ?_⟩ <;> rfl

/-- The partial theorem at work: two columns, and one that is undone. -/
example :
    exUpd 1 [⟨"n", .sub, .uint 150⟩, ⟨"s", .add, .str "def"⟩] "n" = (.empty, some (.uint .uint8 50)) ∧
    exUpd 1 [⟨"n", .sub, .uint 150⟩, ⟨"s", .add, .str "def"⟩] "s" = (.empty, some (.str "abcdef")) ∧
    exUpd 1 [⟨"n", .sub, .uint 150⟩, ⟨"s", .add, .uint 1⟩] "n" = (.err .validation, some (.uint .uint8 200)) := by
  refine ⟨?_, ?_, ?_⟩ <;> rfl

/-- The hypotheses of the partial theorem hold for such an UPDATE: first possible, then of the wrong class. -/
example (c : Cells) (hc : c = normCells (fun k => if k = "n" then some (.uint .uint8 200) else
      if k = "s" then some (.str "abc") else none)) :
    Plain exF exModel.fields [⟨"n", .sub, .uint 150⟩, ⟨"s", .add, .uint 1⟩] c ∧
    Undoable exModel.fields [⟨"n", .sub, .uint 150⟩, ⟨"s", .add, .uint 1⟩] := by
  subst hc
  refine ⟨?_, by decide, by decide⟩
  intro f x hf hx
  cases hf
  cases hx
  refine ⟨.inl ⟨_, .uint (w := 50) rfl (by decide) (by simp [ScalarFits])⟩, ?_⟩
  intro y _ f x hf hx
  cases hf
  cases hx
  refine ⟨.inr (.inl (by decide)), fun z _ => trivial⟩

end Verif.Dml
