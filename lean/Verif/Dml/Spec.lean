import Verif.Dml.Model
import Verif.Data.LayersTheorems
/-!
What the statements on rows should do, described without the code: a table is a map from keys to rows, a
row is a map from column names to values, numbers are mathematical integers.
-/
namespace Verif.Dml
open Verif.Gns (SDelta Model upd fget)
open Verif.Enc (Fields)
open Verif.Lex (Lit)

/-! ### Values -/

mutual
/-- The value without the width of its numbers. -/
def norm : Cell → Cell
  | .uint _ v => .uint .uint64 v
  | .sint _ v => .sint .sint64 v
  | .float _ v => .float .float64 v
  | .list vs => .list (normList vs)
  | x => x
def normList : List Cell → List Cell
  | [] => []
  | v :: vs => norm v :: normList vs
end

/-- A row, or a part of it, without the widths. -/
def normCells (c : Cells) : Cells := fun k => (c k).map norm

/-- The four operations on integers; division truncates, and not by zero. -/
def intOp : AOp → Int → Int → Option Int
  | .assign, _, b => some b
  | .add, a, b => some (a + b)
  | .sub, a, b => some (a - b)
  | .mul, a, b => some (a * b)
  | .div, a, b => if b = 0 then none else some (a.tdiv b)

/-- The operations on doubles (whatever they are). -/
def fltOp (F : FloatOps) : AOp → F64 → F64 → F64
  | .assign, _, b => b
  | .add, a, b => F.add a b
  | .sub, a, b => F.sub a b
  | .mul, a, b => F.mul a b
  | .div, a, b => F.div a b

/-- `Eval F layers x op l y`: in a column of this type with the value `x`, `op l` gives `y`, which is a
value of the column. Nothing can be done with a null value except replacing it. -/
inductive Eval (F : FloatOps) (layers : List Tag) : Cell → AOp → Lit → Cell → Prop where
  | set {x : Cell} {l : Lit} (h : Fits layers (cellOfLit l)) : Eval F layers x .assign l (cellOfLit l)
  | uint {t : Tag} {v r w : UInt64} {op : AOp} (ht : layers = [t]) (h : intOp op v.toNat r.toNat = some (w.toNat : Int))
      (hf : ScalarFits t (.uint .uint64 w)) :
      Eval F layers (.uint .uint64 v) op (.uint r) (.uint .uint64 w)
  | sint {t : Tag} {v r w : Int64} {op : AOp} (ht : layers = [t]) (h : intOp op v.toInt r.toInt = some w.toInt)
      (hf : ScalarFits t (.sint .sint64 w)) :
      Eval F layers (.sint .sint64 v) op (.sint r) (.sint .sint64 w)
  | float {t : Tag} {v r : F64} {op : AOp} (ht : layers = [t])
      (hf : ScalarFits t (.float .float64 (fltOp F op v r))) :
      Eval F layers (.float .float64 v) op (.float r) (.float .float64 (fltOp F op v r))
  | bin {a b : Bytes} (ht : layers = [.binary]) : Eval F layers (.bin a) .add (.bin b) (.bin (a ++ b))
  | str {a b : String} (ht : layers = [.string]) : Eval F layers (.str a) .add (.str b) (.str (a ++ b))
  | list {ls : List Tag} {vs : List Cell} {l : Lit} (ht : layers = .list :: ls) (h : Fits ls (cellOfLit l)) :
      Eval F layers (.list vs) .add l (.list (vs ++ [cellOfLit l]))

/-! ### UPDATE -/

/-- The assignments are carried out one after the other; the first one that is impossible decides about the
error. -/
inductive SpecUpd (F : FloatOps) (cols : Fields) (pk : String) : List Asn → Cells → Except DErr Cells → Prop where
  | done {c : Cells} : SpecUpd F cols pk [] c (.ok c)
  | step {a : Asn} {as : List Asn} {c : Cells} {f : Field} {x y : Cell} {r : Except DErr Cells}
      (hf : fget cols a.lhs = some f) (hk : a.lhs ≠ pk) (hx : c a.lhs = some x)
      (he : Eval F f.layers x a.op a.rhs y) (hr : SpecUpd F cols pk as (upd c a.lhs (some y)) r) :
      SpecUpd F cols pk (a :: as) c r
  | bad {a : Asn} {as : List Asn} {c : Cells} {f : Field} {x : Cell}
      (hf : fget cols a.lhs = some f) (hk : a.lhs ≠ pk) (hx : c a.lhs = some x)
      (he : ∀ y, ¬ Eval F f.layers x a.op a.rhs y) : SpecUpd F cols pk (a :: as) c (.error .validation)
  | unknown {a : Asn} {as : List Asn} {c : Cells} (h : fget cols a.lhs = none ∨ a.lhs = pk) :
      SpecUpd F cols pk (a :: as) c (.error .unknownField)

/-! ### Tables -/

/-- A table: rows by key. -/
abbrev ATable := Key → Option Cells

/-- A value is admissible for a column. -/
def ValidFor (f : Field) (v : Cell) : Prop := (v = .null ∧ f.nullable = true) ∨ Fits f.layers v

/-- The values of an INSERT, by column. -/
def pairs (cols : Fields) : InsData → List (String × Cell)
  | .ordered ds => (cols.map (·.1)).zip ds
  | .map ds => ds

def assoc : List (String × Cell) → String → Option Cell
  | [], _ => none
  | (k, v) :: es, x => if k = x then some v else assoc es x

/-- Each column gets one admissible value, and there are no other values. -/
def InsertOk (cols : Fields) (d : InsData) : Prop :=
  d.count = cols.length ∧ ∀ kv ∈ pairs cols d, ∃ f, fget cols kv.1 = some f ∧ ValidFor f kv.2

/-- The row of an INSERT. -/
def rowOf (cols : Fields) (pk : String) (d : InsData) : Cells :=
  fun k => if k = pk then none else (assoc (pairs cols d) k).map norm

/-- `WHERE pk = value` with a value of the right kind; other conditions are ignored. -/
def WhereKey (m : Model) (w : Where) (k : Key) : Prop :=
  ∃ c, wget w m.pk = some c ∧ c.eq = true ∧ keyOfLit c.rhs = k ∧ k.uniq = m.pkTag.uniq

/-- The value of a column of a row with key `k`. -/
def valueOf (m : Model) (k : Key) (c : Cells) (col : String) : Option Cell :=
  if col = m.pk then some (keyCellSel k) else c col

/-- A list of values, for a list of columns. -/
def Values (m : Model) (k : Key) (c : Cells) (cols : List String) (vs : List Cell) : Prop :=
  cols.map (valueOf m k c) = vs.map some

/-- The columns of a SELECT. -/
def selCols (m : Model) (fields : Option (List String)) : List String := fields.getD (m.fields.map (·.1))

/-- One statement on a table. -/
inductive SpecStep (F : FloatOps) (m : Model) (A : ATable) : Stmt → ATable → Reply → Prop where
  | insert {d : InsData} {v : Cell} (h : InsertOk m.fields d) (hv : assoc (pairs m.fields d) m.pk = some v)
      (hk : A (keyOfCell v) = none) :
      SpecStep F m A (.insert d)
        (fun k => if k = keyOfCell v then some (rowOf m.fields m.pk d) else A k) .empty
  | duplicate {d : InsData} {v : Cell} (h : InsertOk m.fields d) (hv : assoc (pairs m.fields d) m.pk = some v)
      (hk : A (keyOfCell v) ≠ none) : SpecStep F m A (.insert d) A (.err .duplicate)
  | invalid {d : InsData} (h : ¬ InsertOk m.fields d) : SpecStep F m A (.insert d) A (.err .validation)
  | update {as : List Asn} {w : Where} {k : Key} {c c' : Cells} (hw : WhereKey m w k) (hk : A k = some c)
      (h : SpecUpd F m.fields m.pk as c (.ok c')) :
      SpecStep F m A (.update as w) (fun x => if x = k then some c' else A x) .empty
  | updateErr {as : List Asn} {w : Where} {k : Key} {c : Cells} {e : DErr} (hw : WhereKey m w k) (hk : A k = some c)
      (h : SpecUpd F m.fields m.pk as c (.error e)) : SpecStep F m A (.update as w) A (.err e)
  | updateNone {as : List Asn} {w : Where} {k : Key} (hw : WhereKey m w k) (hk : A k = none) :
      SpecStep F m A (.update as w) A (.err .rowNotFound)
  | updateWhere {as : List Asn} {w : Where} (hw : ∀ k, ¬ WhereKey m w k) :
      SpecStep F m A (.update as w) A (.err .unindexed)
  | delete {w : Where} {k : Key} {c : Cells} (hw : WhereKey m w k) (hk : A k = some c) :
      SpecStep F m A (.delete w) (fun x => if x = k then none else A x) .empty
  | deleteNone {w : Where} {k : Key} (hw : WhereKey m w k) (hk : A k = none) :
      SpecStep F m A (.delete w) A (.err .rowNotFound)
  | deleteWhere {w : Where} (hw : ∀ k, ¬ WhereKey m w k) : SpecStep F m A (.delete w) A (.err .unindexed)
  | select {fs : Option (List String)} {w : Where} {k : Key} {c : Cells} {vs : List Cell} (hw : WhereKey m w k)
      (hk : A k = some c) (h : Values m k c (selCols m fs) vs) : SpecStep F m A (.select fs w) A (.row vs)
  | selectErr {fs : Option (List String)} {w : Where} {k : Key} {c : Cells} (hw : WhereKey m w k)
      (hk : A k = some c) (h : ∃ x ∈ selCols m fs, fget m.fields x = none) :
      SpecStep F m A (.select fs w) A (.err .unknownField)
  | selectNone {fs : Option (List String)} {w : Where} {k : Key} (hw : WhereKey m w k) (hk : A k = none) :
      SpecStep F m A (.select fs w) A (.err .rowNotFound)
  | selectWhere {fs : Option (List String)} {w : Where} (hw : ∀ k, ¬ WhereKey m w k) :
      SpecStep F m A (.select fs w) A (.err .unindexed)
  /-- As many different rows as there are, but at most `n`, in any order. -/
  | selectAll {fs : Option (List String)} {n : Nat} {es : List (Key × Cells)} {rs : List (List Cell)}
      (hd : (es.map (·.1)).Nodup) (hm : ∀ e ∈ es, A e.1 = some e.2) (hn : es.length ≤ n)
      (hall : es.length < n → ∀ k c, A k = some c → (k, c) ∈ es)
      (h : Forall2 (fun e vs => Values m e.1 e.2 (selCols m fs) vs) es rs)
      (hl : (selCols m fs).length ≤ m.fields.length) :
      SpecStep F m A (.selectAll fs n) A (.rows (selCols m fs).length rs)
  /-- A list of columns with an unknown name, or with more names than there are columns, is refused. -/
  | selectAllErr {fs : Option (List String)} {n : Nat}
      (h : m.fields.length < (selCols m fs).length ∨ ∃ x ∈ selCols m fs, fget m.fields x = none) :
      SpecStep F m A (.selectAll fs n) A (.err .unknownField)

/-- Statements one after the other. -/
inductive SpecRun (F : FloatOps) (m : Model) : ATable → List Stmt → ATable → List Reply → Prop where
  | nil {A : ATable} : SpecRun F m A [] A []
  | cons {A B C : ATable} {s : Stmt} {ss : List Stmt} {r : Reply} {rs : List Reply}
      (h : SpecStep F m A s B r) (hs : SpecRun F m B ss C rs) : SpecRun F m A (s :: ss) C (r :: rs)

/-- A reply without the widths of its numbers. -/
def Reply.norm : Reply → Reply
  | .row cs => .row (normList cs)
  | .rows n rs => .rows n (rs.map normList)
  | r => r

end Verif.Dml
