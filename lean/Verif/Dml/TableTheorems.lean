import Verif.Dml.Table
/-!
C31: the theorems.
-/
namespace Verif.Dml
open Verif.Gns (SDelta Model upd fget ModelOk FieldsOk PkNonNull names fget_mem fget_of_mem fget_none)
open Verif.Enc (Fields)
open Verif.Lex (Lit)

/-- **C31 (partial).** Any list of statements on a new table whose UPDATEs are as in C32 (`Fine`) has the
replies and the final content of a map from keys to rows, in whatever order the index iterates. Missing (and
false): the other UPDATEs, and nullable primary keys. -/
theorem C31_refines_a_map_partial {F : FloatOps} {m : Model} (hm : ModelOk m) (hpk : PkNonNull m)
    {order : List (Key × Nat) → List (Key × Nat)} (ho : ∀ l, (order l).Perm l) {ss : List Stmt}
    (hf : Fine F m ss (fun _ => none)) :
    SpecRun F m (fun _ => none) ss (abs (run F order (Tbl.empty m) ss).1)
      ((run F order (Tbl.empty m) ss).2.map Reply.norm) :=
  (run_spec hm hpk ho (t := Tbl.empty m) ⟨rfl, List.nodup_nil, by simp [Tbl.empty]⟩ hf).2

/-- An UPDATE that only sets distinct columns to values of their types. -/
def SimpleUpd (m : Model) (as : List Asn) : Prop :=
  (as.map (·.lhs)).Nodup ∧
    ∀ a ∈ as, a.op = .assign ∧ ∀ f, fget m.fields a.lhs = some f → Fits f.layers (cellOfLit a.rhs)

theorem plain_simple {F : FloatOps} {m : Model} : ∀ {as : List Asn} {c : Cells},
    (∀ a ∈ as, a.op = .assign ∧ ∀ f, fget m.fields a.lhs = some f → Fits f.layers (cellOfLit a.rhs)) →
    Plain F m.fields as c
  | [], _, _ => trivial
  | a :: as, c, h => by
    intro f x hf _
    obtain ⟨h1, h2⟩ := h a (by simp)
    refine ⟨.inl ⟨cellOfLit a.rhs, ?_⟩, fun y _ => plain_simple (fun a ha => h a (by simp [ha]))⟩
    rw [h1]; exact .set (h2 f hf)

/-- What can be checked without looking at the rows. -/
def Stmt.Simple (m : Model) : Stmt → Prop
  | .insert d => d.Wf
  | .update as _ => SimpleUpd m as
  | _ => True

theorem fine_simple {F : FloatOps} {m : Model} (hm : ModelOk m) : ∀ {ss : List Stmt} {A : ATable},
    (∀ s ∈ ss, s.Simple m) → Fine F m ss A
  | [], _, _ => trivial
  | s :: ss, A, h => by
    refine ⟨?_, fun B r _ => fine_simple hm (fun s hs => h s (by simp [hs]))⟩
    have hs := h s (by simp)
    cases s with
    | insert d => exact hs
    | update as w =>
      intro k c _ _
      refine ⟨plain_simple hs.2, fun _ => ⟨hs.1, fun a ha f hf hl => ?_⟩⟩
      obtain ⟨t, ht, _⟩ := fits_lit (hm.fields.2 _ (fget_mem hf)) ((hs.2 a ha).2 f hf)
      rw [ht] at hl
      cases hl
      have := (hs.2 a ha).2 f hf
      rw [ht] at this
      cases hrhs : a.rhs <;> simp_all [ScalarFits, cellOfLit]
    | delete w => trivial
    | select fs w => trivial
    | selectAll fs n => trivial

/-- **C31 (partial).** The same for statements that can be checked one by one: INSERT, DELETE, SELECT of any
kind, and UPDATEs that set distinct columns to values of their types. -/
theorem C31_simple_statements_partial {F : FloatOps} {m : Model} (hm : ModelOk m) (hpk : PkNonNull m)
    {order : List (Key × Nat) → List (Key × Nat)} (ho : ∀ l, (order l).Perm l) {ss : List Stmt}
    (hs : ∀ s ∈ ss, s.Simple m) :
    SpecRun F m (fun _ => none) ss (abs (run F order (Tbl.empty m) ss).1)
      ((run F order (Tbl.empty m) ss).2.map Reply.norm) :=
  C31_refines_a_map_partial hm hpk ho (fine_simple hm hs)

/-! ### Example -/

/-- Insert two rows, insert one again, set a column, an unknown column, read, delete, read, read all. -/
def exStmts : List Stmt :=
  [exRow 1 .null, exRow 2 .null, exRow 1 (.list []),
   .update [⟨"n", .assign, .uint 7⟩, ⟨"s", .assign, .str "new"⟩] (whereId 1),
   .update [⟨"n", .assign, .uint 8⟩, ⟨"x", .assign, .uint 8⟩] (whereId 1),
   .select (some ["n", "id", "s"]) (whereId 1),
   .delete (whereId 2), .select none (whereId 2), .selectAll (some ["id", "i"]) 10]

example : (run exF List.reverse (Tbl.empty exModel) exStmts).2 =
    [.empty, .empty, .err .duplicate, .empty, .err .unknownField,
     .row [.uint .uint8 7, .uint .uint64 1, .str "new"], .empty, .err .rowNotFound,
     .rows 2 [[.uint .uint64 1, .sint .sint8 (-100)]]] := by rfl

theorem exModel_ok : ModelOk exModel where
  fields := by
    constructor
    · decide
    · intro e he
      simp only [exModel, List.mem_cons, List.not_mem_nil, or_false] at he
      rcases he with rfl | rfl | rfl | rfl | rfl | rfl
      · exact ⟨0, .uint64, by decide, rfl⟩
      · exact ⟨0, .uint8, by decide, rfl⟩
      · exact ⟨0, .string, by decide, rfl⟩
      · exact ⟨1, .uint8, by decide, rfl⟩
      · exact ⟨0, .uint8, by decide, rfl⟩
      · exact ⟨0, .sint8, by decide, rfl⟩
  pk := ⟨⟨[.uint64], false⟩, rfl, rfl⟩
  uniq := by decide

/-- The example satisfies the conditions. -/
example : ∀ s ∈ exStmts, s.Simple exModel := by
  intro s hs
  simp only [exStmts, List.mem_cons, List.not_mem_nil, or_false] at hs
  rcases hs with rfl | rfl | rfl | rfl | rfl | rfl | rfl | rfl | rfl
  · simp [exRow, Stmt.Simple, InsData.Wf, Cell.noNullInside, noNullList]
  · simp [exRow, Stmt.Simple, InsData.Wf, Cell.noNullInside, noNullList]
  · simp [exRow, Stmt.Simple, InsData.Wf, Cell.noNullInside, noNullList]
  · refine ⟨by decide, ?_⟩
    intro a ha
    simp only [List.mem_cons, List.not_mem_nil, or_false] at ha
    rcases ha with rfl | rfl
    · exact ⟨rfl, fun f hf => by cases hf; simp [Fits, ScalarFits, cellOfLit]⟩
    · exact ⟨rfl, fun f hf => by cases hf; simp [Fits, ScalarFits, cellOfLit]⟩
  · refine ⟨by decide, ?_⟩
    intro a ha
    simp only [List.mem_cons, List.not_mem_nil, or_false] at ha
    rcases ha with rfl | rfl
    · exact ⟨rfl, fun f hf => by cases hf; simp [Fits, ScalarFits, cellOfLit]⟩
    · exact ⟨rfl, fun f hf => by cases hf⟩
  · trivial
  · trivial
  · trivial
  · trivial

example : PkNonNull exModel := by
  intro f hf; cases hf; rfl

/-- **C31.** SELECT ALL shows the primary key of a row as it was inserted, with the declared type; SELECT shows
the same number, with the widest type. (The refinement above identifies numbers of different widths.) -/
theorem C31_key_as_declared {m : Model} (hm : ModelOk m) {f : Field} (hf : fget m.fields m.pk = some f) {v : Cell}
    (hv : Fits f.layers v) :
    keyCellAll m.pkTag (keyOfCell v) = retag f.layers v ∧ norm (keyCellSel (keyOfCell v)) = norm v := by
  obtain ⟨g, hg, hl⟩ := hm.pk
  rw [hf] at hg; cases hg
  have hu := hm.uniq
  rw [hl] at hv ⊢
  generalize m.pkTag = t at hv hu ⊢
  cases t <;> cases v <;> simp_all [Fits, ScalarFits, keyOfCell, keyCellAll, keyCellSel, retag, norm, Tag.uniq]

example : keyCellAll .uint8 (keyOfCell (.uint .uint64 200)) = .uint .uint8 200 := rfl

/-! ### What is false -/

/-- A model that CREATE MODEL accepts (`Gns.C35_nullable_primary_key_violated`). -/
def exNullModel : Model :=
  { uuid := 7, pk := "id", pkTag := .uint64
    fields := [("id", ⟨[.uint64], true⟩), ("name", ⟨[.string], false⟩)], deltas := [] }

/-- **C31 is violated.** With a nullable primary key, a row without a key is acknowledged; reading all rows
shows it under the key 0, but it cannot be found under the key 0, nor under null, so it can be neither
changed nor deleted. -/
theorem C31_null_key_violated :
    (run exF id (Tbl.empty exNullModel)
      [.insert (.ordered [.null, .str "x"]),
       .selectAll none 10,
       .select none (whereId 0),
       .delete (whereId 0),
       .delete [("id", ⟨true, .bool false⟩)]]).2 =
    [.empty, .rows 2 [[.uint .uint64 0, .str "x"]], .err .rowNotFound, .err .rowNotFound, .err .unindexed] := by
  rfl

/-- The key of such a row cannot be given in any WHERE. -/
theorem C31_null_key_unreachable_violated {m : Model} (hu : m.pkTag.uniq ≠ .illegal) (w : Where) :
    resolveWhere m w ≠ some (keyOfCell .null) := by
  intro h
  obtain ⟨c, _, _, h1, h2⟩ := whereKey_iff.1 h
  exact hu h2.symm

/-- **C31 is violated.** An UPDATE that is answered by an error has changed the row: the next SELECT shows the
value in between. -/
theorem C31_failed_update_violated :
    (run exF id (Tbl.empty exModel)
      [exRow 1 .null,
       .update [⟨"n", .assign, .uint 1⟩, ⟨"n", .assign, .uint 2⟩, ⟨"x", .assign, .uint 3⟩] (whereId 1),
       .select (some ["n"]) (whereId 1)]).2 =
    [.empty, .err .unknownField, .row [.uint .uint8 1]] := by rfl

end Verif.Dml
