import Verif.Dml.Widen
/-!
C46: a column that is declared not nullable never reads as null.
-/
namespace Verif.Dml
open Verif.Gns (SDelta Model upd fget ModelOk FieldsOk PkNonNull names fget_mem fget_of_mem fget_none AlterKind)
open Verif.Enc (Fields)
open Verif.Lex (Lit)

/-- No null in a column that does not permit it. -/
def NonNull (m : Model) (c : Cells) : Prop := ∀ x f, fget m.fields x = some f → f.nullable = false → c x ≠ some .null

theorem eval_not_null {F : FloatOps} {ls : List Tag} {x y : Cell} {op : AOp} {l : Lit} (h : Eval F ls x op l y) :
    y ≠ .null := by
  cases h with
  | set => cases l <;> simp [cellOfLit]
  | _ => simp

theorem specUpd_nonNull {F : FloatOps} {m : Model} {as : List Asn} {c : Cells} {r : Except DErr Cells}
    (h : SpecUpd F m.fields m.pk as c r) : NonNull m c → ∀ c', r = .ok c' → NonNull m c' := by
  induction h with
  | done => intro hc c' e; cases e; exact hc
  | step hf hk hx he hr ih =>
    intro hc
    refine ih fun x f hxf hn => ?_
    simp only [upd]
    split
    · intro e
      cases e
      exact eval_not_null he rfl
    · exact hc x f hxf hn
  | bad => intro _ _ e; cases e
  | unknown => intro _ _ e; cases e

theorem norm_null {v : Cell} : norm v = .null ↔ v = .null := by cases v <;> simp [norm]

theorem rowOf_nonNull {m : Model} {d : InsData} (h : InsertOk m.fields d) : NonNull m (rowOf m.fields m.pk d) := by
  intro x f hf hn
  simp only [rowOf]
  split
  · simp
  · cases ha : assoc (pairs m.fields d) x with
    | none => simp
    | some v =>
      obtain ⟨g, hg, hv⟩ := h.2 _ (assoc_mem ha)
      simp only at hg hv
      rw [hf] at hg
      cases hg
      simp only [Option.map_some, ne_eq, Option.some.injEq, norm_null]
      rintro rfl
      rcases hv with ⟨_, h⟩ | h
      · rw [hn] at h; cases h
      · obtain ⟨ls, nl⟩ := f
        cases ls with
        | nil => exact h
        | cons t ts => cases t <;> cases ts <;> simp [Fits, ScalarFits] at h

theorem specStep_nonNull {F : FloatOps} {m : Model} {A B : ATable} {s : Stmt} {r : Reply} (h : SpecStep F m A s B r)
    (hA : ∀ k c, A k = some c → NonNull m c) : ∀ k c, B k = some c → NonNull m c := by
  cases h <;> try exact hA
  case insert d v hok hv hk =>
    intro k c hc
    simp only at hc
    split at hc
    · cases hc; exact rowOf_nonNull hok
    · exact hA k c hc
  case update as w k' c1 c2 hw hk hu =>
    intro k c hc
    simp only at hc
    split at hc
    · cases hc
      exact specUpd_nonNull hu (hA _ _ hk) _ rfl
    · exact hA k c hc
  case delete w k' c1 hw hk =>
    intro k c hc
    simp only at hc
    split at hc
    · cases hc
    · exact hA k c hc

theorem specRun_nonNull {F : FloatOps} {m : Model} {A B : ATable} {ss : List Stmt} {rs : List Reply}
    (h : SpecRun F m A ss B rs) (hA : ∀ k c, A k = some c → NonNull m c) : ∀ k c, B k = some c → NonNull m c := by
  induction h with
  | nil => exact hA
  | cons h _ ih => exact ih (specStep_nonNull h hA)

/-- **C46 (partial).** After any statements as in C31 no row has a null in a column that does not permit it.
Missing (and false): the other UPDATEs, and new columns. -/
theorem C46_no_null_partial {F : FloatOps} {m : Model} (hm : ModelOk m) (hpk : PkNonNull m)
    {order : List (Key × Nat) → List (Key × Nat)} (ho : ∀ l, (order l).Perm l) {ss : List Stmt}
    (hf : Fine F m ss (fun _ => none)) {k : Key} {c : Cells} (hk : abs (run F order (Tbl.empty m) ss).1 k = some c)
    {x : String} {f : Field} (hx : fget m.fields x = some f) (hn : f.nullable = false) : c x ≠ some .null :=
  specRun_nonNull (C31_refines_a_map_partial hm hpk ho hf) (by simp) k c hk x f hx hn

/-- **C46 is violated.** A column that is added later is null in the rows that exist, whether or not it is
nullable (columns are not nullable unless declared so), and whatever is done about it. -/
theorem C46_new_column_violated :
    ((hrun exF id (Tbl.empty exModel2) [exIns, exAdd "a" "string", exAdd "b" "string", exSel (some ["b"])]).2 =
      [.empty, .row [.null]]) ∧
    (fget (hrun exF id (Tbl.empty exModel2) [exIns, exAdd "a" "string", exAdd "b" "string"]).1.model.fields "b") =
      some ⟨[.string], false⟩ := by
  refine ⟨?_, ?_⟩ <;> rfl

/-- **C46 is violated.** An operator that strings do not have stores null. -/
theorem C46_operator_violated :
    (run exF id (Tbl.empty exModel) [exRow 1 .null, .update [⟨"s", .sub, .str "x"⟩] (whereId 1),
      .select (some ["s"]) (whereId 1)]).2 = [.empty, .empty, .row [.null]] ∧
    fget exModel.fields "s" = some ⟨[.string], false⟩ := by
  refine ⟨?_, ?_⟩ <;> rfl

/-- The partial theorem is about tables that have rows, with null in a column that permits it. -/
example : (abs (run exF id (Tbl.empty exModel) [exRow 1 .null]).1 (.uint 1)).map (fun c => (c "l", c "n")) =
    some (some .null, some (.uint .uint64 200)) := by rfl

end Verif.Dml
