import Verif.Dml.Schema
/-!
C33: the theorems.
-/
namespace Verif.Dml
open Verif.Gns (SDelta Model upd fget ModelOk FieldsOk PkNonNull names fget_mem fget_of_mem fget_none AlterKind plan
  addFields updateFields removeFields)
open Verif.Enc (Fields)
open Verif.Lex (Lit)

theorem readFields_congr {pk : String} {p : Cell} {c c' : Cells} : ∀ {ks : List String}, (∀ x ∈ ks, c x = c' x) →
    readFields pk p c ks = readFields pk p c' ks
  | [], _ => rfl
  | k :: ks, h => by
    rw [readFields, readFields, h k (by simp), readFields_congr (fun x hx => h x (by simp [hx]))]

theorem readFields_norm {pk : String} {k : Key} {c : Cells} : ∀ {ks : List String},
    readFields pk (keyCellSel k) (normCells c) ks = (readFields pk (keyCellSel k) c ks).map normList
  | [] => rfl
  | x :: ks => by
    rw [readFields, readFields, readFields_norm]
    simp only [normCells]
    cases c x with
    | some v =>
      simp only [Option.map_some, Option.map_map]
      congr 1
    | none =>
      simp only [Option.map_none]
      split
      · simp only [Option.map_map]
        congr 1
        funext l
        simp [normList, norm_keyCellSel]
      · rfl

/-- What SELECT answers in a state that satisfies the invariant, if the columns are not the missed one. -/
theorem HInv.select_spec {F : FloatOps} {t : Tbl} {A : HTable} (h : HInv t A) {w : Where} {k : Key}
    (hw : WhereKey t.model w k) {v : Nat} {c : Cells} (hk : A k = some (v, c)) {fs : Option (List String)}
    (hks : ∀ x ∈ selCols t.model fs, missed t.model v ≠ some x) :
    SpecStep F t.model (A.now t.model) (.select fs w) (A.now t.model) (execSelect t fs w).2.norm := by
  rcases h.lookup k with ⟨_, ha⟩ | ⟨i, r, v', c', hi, hr, _, ha, _, hrow⟩
  · rw [ha] at hk; cases hk
  · rw [ha] at hk
    cases hk
    obtain ⟨a1, a2⟩ := hrow.agree
    obtain ⟨_, f2, _⟩ := full_resolve t.model.deltas r
    have he : (execSelect t fs w).2 =
        match readFields t.model.pk (keyCellSel k) (full t.model.deltas r) (selCols t.model fs) with
        | some cs => .row cs
        | none => .err .unknownField := by
      rw [execSelect, whereKey_iff.2 hw]
      simp only [hi, hr, Option.bind_some, Option.map_some]
      rw [f2]
      rfl
    have hnow : A.now t.model k = some (see c (t.model.deltas.drop v)) := by simp [HTable.now, ha]
    have hread : (readFields t.model.pk (keyCellSel k) (full t.model.deltas r) (selCols t.model fs)).map normList =
        readFields t.model.pk (keyCellSel k) (see c (t.model.deltas.drop v)) (selCols t.model fs) := by
      rw [← readFields_norm]
      exact readFields_congr fun x hx => a1 x (hks x hx)
    have hgen : ∀ ks : List String,
        (readFields t.model.pk (keyCellSel k) (see c (t.model.deltas.drop v)) ks = none ∧
          ∃ x ∈ ks, fget t.model.fields x = none) ∨
        ∃ vs, readFields t.model.pk (keyCellSel k) (see c (t.model.deltas.drop v)) ks = some vs ∧
          Values t.model k (see c (t.model.deltas.drop v)) ks vs := by
      intro ks
      induction ks with
      | nil => exact .inr ⟨[], rfl, rfl⟩
      | cons x xs ih =>
        rw [readFields]
        cases hx : see c (t.model.deltas.drop v) x with
        | some y =>
          have hne : x ≠ t.model.pk := ((a2 x).1 (by simp [hx])).2
          rcases ih with ⟨h1, z, hz, h2⟩ | ⟨vs, h1, h2⟩
          · exact .inl ⟨by simp [h1], z, by simp [hz], h2⟩
          · refine .inr ⟨y :: vs, by simp [h1], ?_⟩
            simp only [Values, List.map_cons] at h2 ⊢
            rw [h2]
            simp [valueOf, hne, hx]
        | none =>
          by_cases hxp : x = t.model.pk
          · simp only [hxp, if_true]
            rcases ih with ⟨h1, z, hz, h2⟩ | ⟨vs, h1, h2⟩
            · exact .inl ⟨by simp [h1], z, by simp [hz], h2⟩
            · refine .inr ⟨keyCellSel k :: vs, by simp [h1], ?_⟩
              simp only [Values, List.map_cons] at h2 ⊢
              rw [h2]
              simp [valueOf]
          · refine .inl ⟨by simp [hxp], x, by simp, ?_⟩
            cases hg : fget t.model.fields x with
            | none => rfl
            | some g =>
              have := (a2 x).2 ⟨Gns.fget_isSome.1 (by simp [hg]), hxp⟩
              rw [hx] at this; cases this
    rw [he]
    cases hrd : readFields t.model.pk (keyCellSel k) (full t.model.deltas r) (selCols t.model fs) with
    | none =>
      rw [hrd] at hread
      rcases hgen (selCols t.model fs) with ⟨_, h2⟩ | ⟨vs, h1, _⟩
      · exact .selectErr hw hnow h2
      · rw [h1] at hread; cases hread
    | some cs =>
      rw [hrd] at hread
      rcases hgen (selCols t.model fs) with ⟨h1, _⟩ | ⟨vs, h1, h2⟩
      · rw [h1] at hread; cases hread
      · rw [h1] at hread
        simp only [Option.map_some, Option.some.injEq] at hread
        subst hread
        exact .select hw hnow h2

theorem empty_hinv {m : Model} (hm : ModelOk m) (hpk : PkNonNull m) : HInv (Tbl.empty m) (fun _ => none) :=
  ⟨hm, hpk, List.nodup_nil, by simp [Tbl.empty], fun _ _ => rfl⟩

/-- **C33 (partial).** After any history of INSERT, DELETE, SELECT and `ALTER MODEL`, a SELECT of a row that
was inserted when there were `v` changes answers what it should (null in the columns added since, nothing in
those removed since), as long as it does not mention the column of the change number `v`, which is the first
one after the insertion. Missing (and false): that column, and UPDATE of rows that were not read since. -/
theorem C33_other_columns_partial {F : FloatOps} {m : Model} (hm : ModelOk m) (hpk : PkNonNull m)
    {order : List (Key × Nat) → List (Key × Nat)} {os : List HOp} (ho : ∀ o ∈ os, HOk o) {t : Tbl}
    (ht : t = (hrun F order (Tbl.empty m) os).1) :
    ∃ B : HTable, HSpec F m (fun _ => none) os t.model B (hrun F order (Tbl.empty m) os).2 ∧
      ∀ (w : Where) (k : Key) (v : Nat) (c : Cells) (fs : Option (List String)), WhereKey t.model w k →
        B k = some (v, c) → (∀ x ∈ selCols t.model fs, missed t.model v ≠ some x) →
        SpecStep F t.model (B.now t.model) (.select fs w) (B.now t.model) (execSelect t fs w).2.norm := by
  subst ht
  obtain ⟨B, h1, h2⟩ := hrun_spec (F := F) (order := order) (empty_hinv hm hpk) ho
  exact ⟨B, h1, fun w k v c fs hw hk hks => h2.select_spec hw hk hks⟩

/-- **C33 (partial).** In particular rows that were inserted after the last change of the columns are right in
all columns. -/
theorem C33_new_rows_partial {F : FloatOps} {m : Model} (hm : ModelOk m) (hpk : PkNonNull m)
    {order : List (Key × Nat) → List (Key × Nat)} {os : List HOp} (ho : ∀ o ∈ os, HOk o) {t : Tbl}
    (ht : t = (hrun F order (Tbl.empty m) os).1) :
    ∃ B : HTable, HSpec F m (fun _ => none) os t.model B (hrun F order (Tbl.empty m) os).2 ∧
      ∀ (w : Where) (k : Key) (c : Cells) (fs : Option (List String)), WhereKey t.model w k →
        B k = some (t.model.deltas.length, c) →
        SpecStep F t.model (B.now t.model) (.select fs w) (B.now t.model) (execSelect t fs w).2.norm := by
  obtain ⟨B, h1, h2⟩ := C33_other_columns_partial (F := F) (order := order) hm hpk ho ht
  refine ⟨B, h1, fun w k c fs hw hk => h2 w k _ c fs hw hk fun x _ => ?_⟩
  simp [missed]

/-- **C33 is violated.** After the same histories the cells of every row are those of its insertion, with all
changes applied except the first. -/
theorem C33_first_change_is_skipped_violated {F : FloatOps} {m : Model} (hm : ModelOk m) (hpk : PkNonNull m)
    {order : List (Key × Nat) → List (Key × Nat)} {os : List HOp} (ho : ∀ o ∈ os, HOk o) {t : Tbl}
    (ht : t = (hrun F order (Tbl.empty m) os).1) :
    ∃ B : HTable, HSpec F m (fun _ => none) os t.model B (hrun F order (Tbl.empty m) os).2 ∧
      ∀ k v c, B k = some (v, c) → ∃ i r, kget t.idx k = some i ∧ t.heap[i]? = some r ∧
        normCells (resolve t.model.deltas r).cells = (t.model.deltas.drop (v + 1)).foldl applySchema c := by
  subst ht
  obtain ⟨B, h1, h2⟩ := hrun_spec (F := F) (order := order) (empty_hinv hm hpk) ho
  refine ⟨B, h1, fun k v c hk => ?_⟩
  rcases h2.lookup k with ⟨_, ha⟩ | ⟨i, r, v', c', hi, hr, _, ha, _, hrow⟩
  · rw [ha] at hk; cases hk
  · rw [ha] at hk
    cases hk
    exact ⟨i, r, hi, hr, by rw [(full_resolve _ r).2.1]; exact hrow.cells⟩

theorem readFields_missing {pk : String} {p : Cell} {c : Cells} {x : String} (hx : c x = none) (hp : x ≠ pk) :
    ∀ {ks : List String}, x ∈ ks → readFields pk p c ks = none
  | k :: ks, h => by
    rw [readFields]
    rcases List.mem_cons.1 h with rfl | h
    · simp [hx, hp]
    · rw [readFields_missing hx hp h]
      cases c k with
      | some v => rfl
      | none => simp

/-- **C33 is violated.** In every table: once a column was added, `SELECT *` fails for every row that was
inserted since the last change. -/
theorem C33_select_star_fails_violated {t : Tbl} {x : String} {f : Field} {w : Where} {k : Key} {i : Nat} {r : RowObj}
    (hf : fget t.model.fields x = none) (hx : x ≠ t.model.pk) (hw : resolveWhere t.model w = some k)
    (hi : kget t.idx k = some i) (hr : t.heap[i]? = some r) (hs : r.schema = t.model.deltas.length)
    (hc : r.cells x = none) :
    (execSelect { t with model := addFields t.model [(x, f)] } none w).2 = .err .unknownField := by
  have hm : addFields t.model [(x, f)] =
      { t.model with fields := t.model.fields ++ [(x, f)], deltas := t.model.deltas ++ [.add x] } := by
    simp [addFields, Gns.Model.addField, Gns.finsert, hf]
  have hw' : resolveWhere (addFields t.model [(x, f)]) w = some k := by rw [hm]; exact hw
  have hres : resolve (addFields t.model [(x, f)]).deltas r = r := by
    rw [hm, resolve]
    have : List.drop (r.schema + 1) (t.model.deltas ++ [.add x]) = [] :=
      List.drop_eq_nil_of_le (by simp; omega)
    simp [this]
  rw [execSelect]
  simp only [hw', hi, hr, Option.bind_some, Option.map_some, hres, Option.getD_none]
  rw [readFields_missing hc (by rw [hm]; exact hx) (by rw [hm]; simp [colNames])]

/-! ### Examples -/

def exAdd (k : String) (t : String) : HOp := .alter id (.add [⟨k, [⟨Verif.encStr t, true⟩], []⟩])
def exRem (k : String) : HOp := .alter id (.remove [k])

def exModel2 : Model :=
  { uuid := 7, pk := "id", pkTag := .uint64
    fields := [("id", ⟨[.uint64], false⟩), ("n", ⟨[.uint8], false⟩)], deltas := [] }

def exIns : HOp := .stmt (.insert (.ordered [.uint .uint64 1, .uint .uint64 5]))
def exSel (fs : Option (List String)) : HOp := .stmt (.select fs (whereId 1))

/-- **C33 is violated.** A column is added: the row cannot be read any more, except by naming its old
columns, and reading all rows aborts. A second column is seen, the first one is not. -/
theorem C33_added_violated :
    (hrun exF id (Tbl.empty exModel2)
      [exIns, exAdd "a" "string", exSel none, exSel (some ["n"]), .stmt (.selectAll none 10), exAdd "b" "string",
       exSel none, exSel (some ["n", "b"])]).2 =
    [.empty, .err .unknownField, .row [.uint .uint8 5], .panic, .err .unknownField, .row [.uint .uint8 5, .null]] := by
  rfl

/-- **C33 is violated.** A column is removed: its value can still be read, and it is back after a column of
the same name (here of another type) was added. -/
theorem C33_removed_violated :
    (hrun exF id (Tbl.empty exModel2)
      [exIns, exRem "n", exSel (some ["n"]), exAdd "n" "string", exSel none]).2 =
    [.empty, .row [.uint .uint8 5], .row [.uint .uint64 1, .uint .uint8 5]] := by
  rfl

/-- **C33 is violated.** UPDATE does not apply the changes: a new column cannot be set before the row was
read, and a value set in a column that was removed and added again is lost. -/
theorem C33_update_violated :
    (hrun exF id (Tbl.empty exModel2)
      [exAdd "z" "string", .stmt (.insert (.ordered [.uint .uint64 1, .uint .uint64 5, .str "z"])),
       exAdd "a" "string", exAdd "b" "string",
       .stmt (.update [⟨"b", .assign, .str "x"⟩] (whereId 1)), exSel (some ["n"]),
       .stmt (.update [⟨"b", .assign, .str "x"⟩] (whereId 1)), exSel (some ["b"])]).2 =
    [.empty, .err .unknownField, .row [.uint .uint8 5], .empty, .row [.str "x"]] ∧
    (hrun exF id (Tbl.empty exModel2)
      [exIns, exAdd "a" "string", exRem "n", exAdd "n" "uint8",
       .stmt (.update [⟨"n", .assign, .uint 9⟩] (whereId 1)), exSel (some ["n"])]).2 =
    [.empty, .empty, .row [.null]] := by
  refine ⟨?_, ?_⟩ <;> rfl

/-- **C33 is violated.** Worse: if the new column has another type, UPDATE takes the old value for a value of
the new type (a number for the address of a string). -/
theorem C33_type_confusion_violated :
    (hrun exF id (Tbl.empty exModel2)
      [exIns, exAdd "a" "string", exRem "n", exAdd "n" "string",
       .stmt (.update [⟨"n", .add, .str "x"⟩] (whereId 1))]).2 = [.empty, .panic] := by
  rfl

/-- The partial theorem at work: the second of two changes, and rows inserted later. -/
example : ∀ o ∈ [exIns, exAdd "a" "string", exRem "n", exSel (some ["n"])], HOk o := by
  intro o ho
  simp only [List.mem_cons, List.not_mem_nil, or_false] at ho
  rcases ho with rfl | rfl | rfl | rfl
  · simp [exIns, HOk, InsData.Wf, Cell.noNullInside]
  · exact fun l => List.Perm.refl l
  · exact fun l => List.Perm.refl l
  · trivial

example : (hrun exF id (Tbl.empty exModel2) [exIns, exAdd "a" "string", exRem "n", exSel (some ["n"]),
    .stmt (.insert (.ordered [.uint .uint64 2, .str "x"])), .stmt (.select none (whereId 2))]).2 =
    [.empty, .err .unknownField, .empty, .row [.uint .uint64 2, .str "x"]] := by rfl

end Verif.Dml
