import Verif.Gns.Cat
import Verif.Lex.Lexer
/-!
Model of the statements on rows: `core/dml/{ins,upd,del,sel,mod}.rs`, `core/index/{row,key}.rs`,
`core/model/delta.rs`.

One statement is one step: INSERT and DELETE hold the shared latch and an atomic operation of the primary
index, UPDATE holds the write lock of the row. The primary index itself is a list of entries here; that the
concurrent trie behaves like one is C15 and C40.
-/
namespace Verif.Dml
open Verif.Gns (SDelta Model upd fget)
open Verif.Enc (Fields)
open Verif.Lex (Lit)

/-! ### Literals and keys -/

/-- `AssignmentOperator` (`core/query_meta.rs:39-45`). -/
inductive AOp where
  | assign | add | sub | mul | div
  deriving DecidableEq, Repr

/-- `Lit::kind().tag_class()`. -/
def litClass : Lit → TagClass
  | .bool _ => .bool
  | .uint _ => .uint
  | .sint _ => .sint
  | .float _ => .float
  | .bin _ => .bin
  | .str _ => .str

/-- `From<Lit> for Datacell` (`data/cell.rs:300-328`): numbers get the 64-bit tags of a literal. -/
def cellOfLit : Lit → Cell
  | .bool b => .bool b
  | .uint v => .uint .uint64 v
  | .sint v => .sint .sint64 v
  | .float v => .float .float64 v
  | .bin b => .bin b
  | .str s => .str s

/-- `PrimaryIndexKey` (`core/index/key.rs:47-50`): equality (lines 227-252) compares the tag, the word and
the bytes, which is equality of these values. -/
inductive Key where
  | uint (v : UInt64)
  | sint (v : Int64)
  | bin (b : Bytes)
  | str (s : String)
  | illegal
  deriving DecidableEq, Repr

/-- `PrimaryIndexKey::new_from_dc` (`core/index/key.rs:136-155`). A null cell has the tag of a Boolean,
hence an illegal key. (Cells of the other illegal classes never get here.) -/
def keyOfCell : Cell → Key
  | .uint _ v => .uint v
  | .sint _ v => .sint v
  | .bin b => .bin b
  | .str s => .str s
  | _ => .illegal

/-- The key that a literal is compared with (`core/index/key.rs:244-252`), and its `tag_unique`. -/
def keyOfLit : Lit → Key
  | .uint v => .uint v
  | .sint v => .sint v
  | .bin b => .bin b
  | .str s => .str s
  | _ => .illegal

def Key.uniq : Key → TagUnique
  | .uint _ => .uint
  | .sint _ => .sint
  | .bin _ => .bin
  | .str _ => .str
  | .illegal => .illegal

/-- `VirtualDatacell::new` (`data/cell.rs:515-524`) for a key given as a literal: with the tag of the
literal. -/
def keyCellSel : Key → Cell
  | .uint v => .uint .uint64 v
  | .sint v => .sint .sint64 v
  | .bin b => .bin b
  | .str s => .str s
  | .illegal => .null

/-- `VirtualDatacell::new_pk` (`data/cell.rs:525-533`): with the tag of the primary key. The word of an
illegal key is 0, which is read as the number 0 or as an empty string (at the address 0). -/
def keyCellAll (t : Tag) : Key → Cell
  | .uint v => .uint t v
  | .sint v => .sint t v
  | .bin b => .bin b
  | .str s => .str s
  | .illegal =>
    match t.cls with
    | .uint => .uint t 0
    | .sint => .sint t 0
    | .str => .str ""
    | _ => .bin []

/-! ### Rows and tables -/

/-- `DcFieldIndex` (`core/index/row.rs:43`): a hash map. The primary key is not in it. -/
abbrev Cells := String → Option Cell

/-- `Row` and `RowData` (`core/index/row.rs:45-56`). -/
structure RowObj where
  key : Key
  cells : Cells
  schema : Nat
  revised : Nat

/-- `DataDeltaKind` (`core/model/delta.rs:234-238`). -/
inductive DKind where
  | delete | insert | update
  deriving DecidableEq, Repr

/-- `DataDelta` (`core/model/delta.rs:207-211`): `row` points to the row, it is not a copy. -/
structure Delta where
  ver : Nat
  kind : DKind
  row : Nat
  deriving DecidableEq, Repr

/-- A model with its rows. `heap` holds every row that was ever linked to the index, `idx` the primary
index (rows are reference counted in the code, and the pending changes refer to them). `ver` is
`data_current_version`, `queue` the pending changes. -/
structure Tbl where
  model : Model
  heap : List RowObj
  idx : List (Key × Nat)
  ver : Nat
  queue : List Delta

/-- Lookup in the primary index. -/
def kget : List (Key × Nat) → Key → Option Nat
  | [], _ => none
  | (k, i) :: es, x => if k = x then some i else kget es x

/-- Removal from the primary index. -/
def kdel : List (Key × Nat) → Key → List (Key × Nat)
  | [], _ => []
  | (k, i) :: es, x => if k = x then es else (k, i) :: kdel es x

/-- Errors of these statements (`error.rs`): `QExecDmlDuplicate`, `QExecDmlValidationError`,
`QExecDmlRowNotFound`, `QExecDmlWhereHasUnindexedColumn`, `QExecUnknownField`. -/
inductive DErr where
  | duplicate | validation | rowNotFound | unindexed | unknownField
  deriving DecidableEq, Repr

/-- The outcome of a statement. `panic` includes undefined behaviour. -/
inductive Reply where
  | empty
  | row (cs : List Cell)
  | rows (cols : Nat) (rs : List (List Cell))
  | err (e : DErr)
  | panic

/-- `RelationalExpr` (`ql/dml/mod.rs:60-64`): whether the operator is `=`, and the right side. -/
structure Clause where
  eq : Bool
  rhs : Lit

/-- The clauses of `WHERE` (a hash map) as a list of entries. -/
abbrev Where := List (String × Clause)

def wget : Where → String → Option Clause
  | [], _ => none
  | (k, c) :: es, x => if k = x then some c else wget es x

/-- `resolve_where` (`core/dml/mod.rs:57-70`); `none` is `QExecDmlWhereHasUnindexedColumn`. -/
def resolveWhere (m : Model) (w : Where) : Option Key :=
  match wget w m.pk with
  | some c => if c.eq && decide ((keyOfLit c.rhs).uniq = m.pkTag.uniq) then some (keyOfLit c.rhs) else none
  | none => none

/-! ### Schema changes (`core/index/row.rs:142-180`) -/

/-- The body of the loop (lines 159-174). -/
def applySchema (c : Cells) : SDelta → Cells
  | .add k =>
    match c k with
    | some _ => c
    | none => upd c k (some .null)
  | .rem k => upd c k none

/-- `resolve_schema_deltas_and_freeze` (lines 142-186): `resolve_iter_since(v)` are the changes that are
stored under `v + 1` and later (`core/model/delta.rs:115-120`); the row then gets the version of the last
one. -/
def resolve (deltas : List SDelta) (r : RowObj) : RowObj :=
  if deltas.length ≤ r.schema then r
  else
    match deltas.drop (r.schema + 1) with
    | [] => r
    | d :: ds => { r with cells := (d :: ds).foldl applySchema r.cells, schema := deltas.length - 1 }

/-! ### INSERT (`core/dml/ins.rs`) -/

/-- `InsertData` (`ql/dml/ins.rs`); the map has distinct names. -/
inductive InsData where
  | ordered (ds : List Cell)
  | map (ds : List (String × Cell))

/-- `InsertData::column_count`. -/
def InsData.count : InsData → Nat
  | .ordered ds => ds.length
  | .map ds => ds.length

/-- `st_insert` on a row. -/
def cput (c : Cells) (k : String) (d : Cell) : Cells × Bool :=
  match c k with
  | some _ => (c, false)
  | none => (upd c k (some d), true)

/-- The loop over a tuple (lines 80-98). -/
def ordLoop : Fields → List Cell → Bool → Cells → Res Unit (Bool × Cells)
  | _, [], ok, c => .ok (ok, c)
  | fs, d :: ds, ok, c =>
    if ok then
      match fs with
      | [] => .panic
      | (k, f) :: fs =>
        (f.vtData d).bind fun (v, d) =>
        match cput c k d with
        | (c, ins) => ordLoop fs ds (ok && v && ins) c
    else .ok (ok, c)

/-- The loop over a map (lines 103-125); `n` is `inserted`. -/
def mapLoop (fs : Fields) : List (String × Cell) → Nat → Bool → Cells → Res Unit (Nat × Bool × Cells)
  | [], n, ok, c => .ok (n, ok, c)
  | (k, d) :: ds, n, ok, c =>
    if ok then
      match fget fs k with
      | none => .ok (n, false, c)
      | some f =>
        (f.vtData d).bind fun (v, d) => mapLoop fs ds (n + 1) (ok && v) (cput c k d).1
    else .ok (n, ok, c)

/-- The two arms of `prepare_insert` (lines 74-128). -/
def prepareCells (fs : Fields) (d : InsData) : Res Unit (Bool × Cells) :=
  let okay := decide (fs.length = d.count)
  match d with
  | .ordered ds => ordLoop fs ds okay (fun _ => none)
  | .map ds => (mapLoop fs ds 0 okay (fun _ => none)).bind fun (n, ok, c) => .ok (ok && decide (n = fs.length), c)

/-- `prepare_insert` (lines 69-140): the key and the other cells. -/
def prepareInsert (m : Model) (d : InsData) : Res DErr (Key × Cells) :=
  match prepareCells m.fields d with
  | .ok (ok, c) =>
    match c m.pk with
    | some p => if ok then .ok (keyOfCell p, upd c m.pk none) else .err .validation
    | none => .err .validation
  | _ => .panic

/-- `insert` (lines 49-66). The version is consumed even if the key exists. -/
def execInsert (t : Tbl) (d : InsData) : Tbl × Reply :=
  match prepareInsert t.model d with
  | .ok (k, c) =>
    match kget t.idx k with
    | some _ => ({ t with ver := t.ver + 1 }, .err .duplicate)
    | none =>
      ({ t with
          heap := t.heap ++ [⟨k, c, t.model.deltas.length, t.ver⟩]
          idx := t.idx ++ [(k, t.heap.length)]
          ver := t.ver + 1
          queue := t.queue ++ [⟨t.ver, .insert, t.heap.length⟩] }, .empty)
  | .err e => (t, .err e)
  | _ => (t, .panic)

/-! ### DELETE (`core/dml/del.rs:44-68`) -/

/-- The version is consumed before the clauses are checked. -/
def execDelete (t : Tbl) (w : Where) : Tbl × Reply :=
  let t := { t with ver := t.ver + 1 }
  match resolveWhere t.model w with
  | none => (t, .err .unindexed)
  | some k =>
    match kget t.idx k with
    | none => (t, .err .rowNotFound)
    | some i => ({ t with idx := kdel t.idx k, queue := t.queue ++ [⟨t.ver - 1, .delete, i⟩] }, .empty)

/-! ### UPDATE (`core/dml/upd.rs`) -/

/-- The arithmetic of doubles. -/
structure FloatOps where
  add : F64 → F64 → F64
  sub : F64 → F64 → F64
  mul : F64 → F64 → F64
  div : F64 → F64 → F64

/-- `dc_op_uint_*` (lines 60-84). Division by zero is a panic. -/
def uintOp (t : Tag) (v r : UInt64) : AOp → Res Unit (Bool × Cell)
  | .assign => .ok (uintCheck t r, .uint t r)
  | .add => .ok (uintCheck t (v + r) && !decide (2 ^ 64 ≤ v.toNat + r.toNat), .uint t (v + r))
  | .sub => .ok (uintCheck t (v - r) && !decide (v.toNat < r.toNat), .uint t (v - r))
  | .mul => .ok (uintCheck t (v * r) && !decide (2 ^ 64 ≤ v.toNat * r.toNat), .uint t (v * r))
  | .div => if r = 0 then .panic else .ok (uintCheck t (v / r), .uint t (v / r))

/-- Whether an integer is out of the range of `i64`. -/
def sintOver (x : Int) : Bool := x < -2 ^ 63 || 2 ^ 63 ≤ x

/-- `dc_op_sint_*` (lines 86-110). -/
def sintOp (t : Tag) (v r : Int64) : AOp → Res Unit (Bool × Cell)
  | .assign => .ok (sintCheck t r, .sint t r)
  | .add => .ok (sintCheck t (v + r) && !sintOver (v.toInt + r.toInt), .sint t (v + r))
  | .sub => .ok (sintCheck t (v - r) && !sintOver (v.toInt - r.toInt), .sint t (v - r))
  | .mul => .ok (sintCheck t (v * r) && !sintOver (v.toInt * r.toInt), .sint t (v * r))
  | .div => if r = 0 then .panic else .ok (sintCheck t (v / r) && !sintOver (v.toInt.tdiv r.toInt), .sint t (v / r))

/-- `dc_op_float_*` (lines 121-145). -/
def floatOp (F : FloatOps) (t : Tag) (v r : F64) : AOp → Bool × Cell
  | .assign => (floatCheck t r, .float t r)
  | .add => (floatCheck t (F.add v r), .float t (F.add v r))
  | .sub => (floatCheck t (F.sub v r), .float t (F.sub v r))
  | .mul => (floatCheck t (F.mul v r), .float t (F.mul v r))
  | .div => (floatCheck t (F.div v r), .float t (F.div v r))

/-- `dc_op_fail` (lines 52-54). -/
def opFail : Res Unit (Bool × Cell) := .ok (false, .null)

/-- `OPERATOR` (lines 187-229), called for a literal of the class of the column and a cell that is not
null. If the cell is of another class than the column (possible for a column that was removed and added
again), then the number functions panic or read the wrong type, and the appending functions read a wrong
pointer: `panic` here. Running out of memory is not modelled. -/
def dcOp (F : FloatOps) (op : AOp) (c : Cell) : Lit → Res Unit (Bool × Cell)
  | .bool b =>
    match op with
    | .assign => .ok (true, .bool b)
    | _ => opFail
  | .uint r =>
    match c with
    | .uint t v => uintOp t v r op
    | _ => .panic
  | .sint r =>
    match c with
    | .sint t v => sintOp t v r op
    | _ => .panic
  | .float r =>
    match c with
    | .float t v => .ok (floatOp F t v r op)
    | _ => .panic
  | .bin r =>
    match op, c with
    | .assign, _ => .ok (true, .bin r)
    | .add, .bin b => .ok (true, .bin (b ++ r))
    | .add, _ => .panic
    | _, _ => opFail
  | .str r =>
    match op, c with
    | .assign, _ => .ok (true, .str r)
    | .add, .str s => .ok (true, .str (s ++ r))
    | .add, _ => .panic
    | _, _ => opFail

/-- `AssignmentExpression` (`ql/dml/upd.rs:57-64`). -/
structure Asn where
  lhs : String
  op : AOp
  rhs : Lit

/-- What one assignment does (the `match` at lines 309-356): store a new value and remember the old one,
append to the list in place, or stop. -/
inductive StepRes where
  | replace (new : Cell)
  | push (new : Cell)
  | fail
  | panic

/-- Lines 309-356. `rollback_now &= !okay` (line 317) never sets the flag, so `okay` is not looked at. -/
def asnStep (F : FloatOps) (f : Field) (x : Cell) (op : AOp) (rhs : Lit) : StepRes :=
  match f.layers with
  | [] => .panic
  | l :: ls =>
    if l.cls = litClass rhs ∧ l.cls ≠ .list ∧ x.isNull = false then
      match dcOp F op x rhs with
      | .ok (_, new) => .replace new
      | _ => .panic
    else if l.cls = litClass rhs ∧ x.isNull = true ∧ op = .assign then .replace (cellOfLit rhs)
    else if l.cls = .list ∧ op = .add then
      match ls with
      | [] => .panic
      | e :: _ =>
        if e.cls = litClass rhs then
          match x with
          | .list vs => .push (.list (vs ++ [cellOfLit rhs]))
          | _ => .panic
        else .fail
    else .fail

/-- How the loop ends: with the new cells, with an error (the cells so far and `rollback_data`), or with a
panic (the cells so far). -/
inductive UpdOut where
  | done (c : Cells)
  | fail (e : DErr) (c : Cells) (rb : List (String × Cell))
  | panic (c : Cells)

/-- The loop (lines 283-357). -/
def updLoop (F : FloatOps) (fs : Fields) : List Asn → Cells → List (String × Cell) → UpdOut
  | [], c, _ => .done c
  | a :: as, c, rb =>
    match fget fs a.lhs, c a.lhs with
    | some f, some x =>
      match asnStep F f x a.op a.rhs with
      | .replace new => updLoop F fs as (upd c a.lhs (some new)) (rb ++ [(a.lhs, x)])
      | .push new => updLoop F fs as (upd c a.lhs (some new)) rb
      | .fail => .fail .validation c rb
      | .panic => .panic c
    | _, _ => .fail .unknownField c rb

/-- `st_update`. -/
def cupdate (c : Cells) (k : String) (d : Cell) : Cells :=
  match c k with
  | some _ => upd c k (some d)
  | none => c

/-- The rollback (lines 360-364), in the order in which the values were replaced. -/
def restore (c : Cells) (rb : List (String × Cell)) : Cells := rb.foldl (fun c e => cupdate c e.1 e.2) c

/-- Replace one row object. -/
def setRow (t : Tbl) (i : Nat) (r : RowObj) : Tbl := { t with heap := t.heap.set i r }

/-- `update` (lines 260-375). -/
def execUpdate (F : FloatOps) (t : Tbl) (as : List Asn) (w : Where) : Tbl × Reply :=
  match resolveWhere t.model w with
  | none => (t, .err .unindexed)
  | some k =>
    match (kget t.idx k).bind fun i => (t.heap[i]?).map fun r => (i, r) with
    | none => (t, .err .rowNotFound)
    | some (i, r) =>
      let t := { t with ver := t.ver + 1 }
      match updLoop F t.model.fields as r.cells [] with
      | .done c =>
        ({ setRow t i { r with cells := c, revised := t.ver - 1 } with
            queue := t.queue ++ [⟨t.ver - 1, .update, i⟩] }, .empty)
      | .fail e c rb => (setRow t i { r with cells := restore c rb }, .err e)
      | .panic c => (setRow t i { r with cells := c }, .panic)

/-! ### SELECT (`core/dml/sel.rs`) -/

/-- `read_field` for a list of names (lines 191-210); `none` is `QExecUnknownField`. -/
def readFields (pk : String) (p : Cell) (c : Cells) : List String → Option (List Cell)
  | [] => some []
  | k :: ks =>
    match c k with
    | some x => (readFields pk p c ks).map (x :: ·)
    | none => if k = pk then (readFields pk p c ks).map (p :: ·) else none

/-- The column names in order. -/
def colNames (fs : Fields) : List String := fs.map (·.1)

/-- `select_custom` (lines 176-216) and `select_resp` (lines 47-62); `none` for the fields is `*`. -/
def execSelect (t : Tbl) (fields : Option (List String)) (w : Where) : Tbl × Reply :=
  match resolveWhere t.model w with
  | none => (t, .err .unindexed)
  | some k =>
    match (kget t.idx k).bind fun i => (t.heap[i]?).map fun r => (i, r) with
    | none => (t, .err .rowNotFound)
    | some (i, r) =>
      let r := resolve t.model.deltas r
      (setRow t i r,
        match readFields t.model.pk (keyCellSel k) r.cells (fields.getD (colNames t.model.fields)) with
        | some cs => .row cs
        | none => .err .unknownField)

/-- One row of `select_all` (lines 102-111, 125-134): a missing cell is a panic (`none`). -/
def readAll (pk : String) (p : Cell) (c : Cells) : List String → Option (List Cell)
  | [] => some []
  | k :: ks =>
    if k = pk then (readAll pk p c ks).map (p :: ·)
    else
      match c k with
      | some x => (readAll pk p c ks).map (x :: ·)
      | none => none

/-- The loop over the rows. Rows are resolved one by one; a panic leaves the rest as it is. -/
def allLoop (ks : List String) : List (Key × Nat) → Tbl → Tbl × Option (List (List Cell))
  | [], t => (t, some [])
  | (k, i) :: es, t =>
    match t.heap[i]? with
    | none => (t, none)
    | some r =>
      let r := resolve t.model.deltas r
      let t := setRow t i r
      match readAll t.model.pk (keyCellAll t.model.pkTag k) r.cells ks with
      | none => (t, none)
      | some cs =>
        match allLoop ks es t with
        | (t, some rs) => (t, some (cs :: rs))
        | (t, none) => (t, none)

/-- `select_all` (lines 86-140) under the exclusive latch. `it` is the order in which the index iterates;
`none` for the fields is `*`. -/
def execSelectAll (t : Tbl) (it : List (Key × Nat)) (fields : Option (List String)) (limit : Nat) : Tbl × Reply :=
  let cols := colNames t.model.fields
  let ks := fields.getD cols
  if fields.isSome && (decide (cols.length < ks.length) || ks.any fun k => (fget t.model.fields k).isNone) then
    (t, .err .unknownField)
  else
    match allLoop ks (it.take limit) t with
    | (t, some rs) => (t, .rows ks.length rs)
    | (t, none) => (t, .panic)

/-! ### Statements -/

/-- A statement on the rows of one model. -/
inductive Stmt where
  | insert (d : InsData)
  | update (as : List Asn) (w : Where)
  | delete (w : Where)
  | select (fields : Option (List String)) (w : Where)
  | selectAll (fields : Option (List String)) (limit : Nat)

/-- Execute a statement. `order` is the order in which the index iterates. -/
def exec (F : FloatOps) (order : List (Key × Nat) → List (Key × Nat)) (t : Tbl) : Stmt → Tbl × Reply
  | .insert d => execInsert t d
  | .update as w => execUpdate F t as w
  | .delete w => execDelete t w
  | .select fs w => execSelect t fs w
  | .selectAll fs n => execSelectAll t (order t.idx) fs n

/-- Execute statements one after the other. -/
def run (F : FloatOps) (order : List (Key × Nat) → List (Key × Nat)) (t : Tbl) : List Stmt → Tbl × List Reply
  | [] => (t, [])
  | s :: ss =>
    match exec F order t s with
    | (t, r) => ((run F order t ss).1, r :: (run F order t ss).2)

/-- A model without rows (`DeltaState::new_resolved`, `PrimaryIndex::new_empty`). -/
def Tbl.empty (m : Model) : Tbl := ⟨m, [], [], 0, []⟩

end Verif.Dml
