import Verif.Batch.Life
/-!
C11 and C12: examples, and what is false.
-/
namespace Verif.Batch
open Verif.Gns (SDelta Model upd fget ModelOk PkNonNull FieldsOk)
open Verif.Dml (Key Cells RowObj DKind Delta Tbl resolve cput applySchema FloatOps Stmt Where Reply exF exModel exModel_ok
  exNullModel exRow whereId exModel2)

/-! ### Examples -/

/-- A reply as bytes, to compare it. -/
def showReply : Reply → List Bytes
  | .empty => []
  | .row cs => [1] :: cs.map Enc.enc
  | .rows n rs => [2, UInt8.ofNat n] :: rs.map fun cs => (cs.map Enc.enc).flatten
  | .err _ => [[3]]
  | .panic => [[4]]

/-- The replies of a life. -/
def shown : Run End → Option (List (List Bytes))
  | .ok e => some (e.replies.map showReply)
  | _ => none

def exHdr : Bytes := List.replicate 64 0

def exFirst : List Op :=
  [.stmt (exRow 1 .null), .stmt (exRow 2 .null), .flush 1, .stmt (.delete (whereId 2)),
   .stmt (.update [⟨"n", .assign, .uint 7⟩] (whereId 1)), .flush 9, .stmt (exRow 3 .null)]

def exRest : List (List Op) :=
  [[.stmt (.selectAll (some ["id", "n"]) 10), .stmt (exRow 3 .null), .stmt (exRow 2 .null)],
   [.stmt (.select (some ["id", "n"]) (whereId 2))]]

/-- C11 at work: three sessions. -/
example : shown (life exF id 100000 exModel exHdr exFirst exRest) =
    some [[], [], [], [], [],
      showReply (.rows 2 [[.uint .uint64 1, .uint .uint8 7], [.uint .uint64 3, .uint .uint8 200]]),
      showReply (.err .duplicate), [], showReply (.row [.uint .uint64 2, .uint .uint8 200])] := by
  decide +kernel

/-- The model satisfies the conditions. -/
example : LifeOk exModel :=
  ⟨exModel_ok, by intro f hf; cases hf; rfl, by simp [exModel], by decide, by decide⟩

/-- So do the statements. -/
example : (∀ os ∈ exFirst :: exRest, Fixed os) ∧
    (∀ s ∈ ((exFirst :: exRest).map stmts).flatten, s.Simple exModel ∧ StmtTags s) := by
  constructor
  · intro os hos perm k hk
    simp only [exFirst, exRest, List.mem_cons, List.not_mem_nil, or_false] at hos
    rcases hos with rfl | rfl | rfl <;> simp at hk
  · intro s hs
    simp only [exFirst, exRest, List.map_cons, List.map_nil, stmts, List.flatten_cons, List.flatten_nil, List.cons_append,
      List.nil_append, List.mem_cons, List.not_mem_nil, or_false] at hs
    have hrow : ∀ i, (exRow i .null).Simple exModel ∧ StmtTags (exRow i .null) := by
      intro i
      simp [exRow, Stmt.Simple, Dml.InsData.Wf, Cell.noNullInside, StmtTags, InsData.Tags, TagOk, Tag.cls]
    rcases hs with rfl | rfl | rfl | rfl | rfl | rfl | rfl | rfl | rfl
    · exact hrow 1
    · exact hrow 2
    · exact ⟨trivial, trivial⟩
    · refine ⟨⟨by decide, ?_⟩, trivial⟩
      intro a ha
      simp only [List.mem_cons, List.not_mem_nil, or_false] at ha
      subst ha
      exact ⟨rfl, fun f hf => by cases hf; simp [Fits, ScalarFits, Dml.cellOfLit]⟩
    · exact hrow 3
    · exact ⟨trivial, trivial⟩
    · exact hrow 3
    · exact hrow 2
    · exact ⟨trivial, trivial⟩

/-! ### C11: what is false -/

/-- **C11 is violated.** An UPDATE that failed has changed the row in memory (C32) but not in the file: SELECT
shows 1 before the restart and 200 after it. -/
theorem C11_failed_update_violated :
    shown (life exF id 100000 exModel exHdr
      [.stmt (exRow 1 .null), .flush 1,
       .stmt (.update [⟨"n", .assign, .uint 1⟩, ⟨"n", .assign, .uint 2⟩, ⟨"x", .assign, .uint 3⟩] (whereId 1)),
       .stmt (.select (some ["n"]) (whereId 1))]
      [[.stmt (.select (some ["n"]) (whereId 1))]]) =
    some [[], showReply (.err .unknownField), showReply (.row [.uint .uint8 1]), showReply (.row [.uint .uint8 200])] := by
  decide +kernel

def isBad {α : Type} : Run α → Bool
  | .bad => true
  | _ => false

/-- **C11 is violated.** A row with a null primary key, which INSERT acknowledges (C31), cannot be written:
the writer runs into undefined behaviour. -/
theorem C11_null_key_violated :
    shown (life exF id 100000 exNullModel exHdr [] []) = some [] ∧
    isBad (life exF id 100000 exNullModel exHdr [.stmt (.insert (.ordered [.null, .str "x"]))] []) = true := by
  decide +kernel

/-! ### C12 -/

/-- Values that are there stay, unless the column is removed. -/
theorem fold_keeps {k : String} {x : Cell} : ∀ (ds : List SDelta) (c : Cells), SDelta.rem k ∉ ds → c k = some x →
    ds.foldl applySchema c k = some x
  | [], _, _, hc => hc
  | d :: ds, c, hd, hc => by
    simp only [List.mem_cons, not_or] at hd
    rw [List.foldl_cons]
    refine fold_keeps ds _ hd.2 ?_
    cases d with
    | add j =>
      rw [applySchema]
      cases hj : c j with
      | some y => exact hc
      | none =>
        have : k ≠ j := by rintro rfl; rw [hj] at hc; cases hc
        simp [upd, this, hc]
    | rem j =>
      have : k ≠ j := by rintro rfl; exact hd.1 rfl
      simp [applySchema, upd, this, hc]

theorem zip_at : ∀ {ks : List String} (_ : ks.Nodup) (cs : List Cell) (c : Cells), (∀ k ∈ ks, c k = none) →
    ∀ (i : Nat) (k : String) (x : Cell), ks[i]? = some k → cs[i]? = some x →
    (ks.zip cs).foldl (fun c e => (cput c e.1 e.2).1) c k = some x
  | [], _, _, _, _, i, k, x, hk, _ => by simp at hk
  | a :: ks, hn, [], c, _, i, k, x, _, hx => by simp at hx
  | a :: ks, hn, y :: cs, c, hc, i, k, x, hk, hx => by
    rw [List.nodup_cons] at hn
    have hput : (cput c a y).1 = upd c a (some y) := by rw [cput, hc a (by simp)]
    rw [List.zip_cons_cons, List.foldl_cons, hput]
    have hrest : ∀ j ∈ ks, upd c a (some y) j = none := by
      intro j hj
      have : j ≠ a := by rintro rfl; exact hn.1 hj
      simp [upd, this, hc j (by simp [hj])]
    cases i with
    | zero =>
      simp only [List.getElem?_cons_zero, Option.some.injEq] at hk hx
      subst hk hx
      have : ∀ (l : List (String × Cell)) (c : Cells), a ∉ l.map (·.1) → c a = some y →
          l.foldl (fun c e => (cput c e.1 e.2).1) c a = some y := by
        intro l
        induction l with
        | nil => intro c _ h; exact h
        | cons e l ih =>
          intro c hl h
          simp only [List.map_cons, List.mem_cons, not_or] at hl
          rw [List.foldl_cons]
          refine ih _ hl.2 ?_
          rw [cput]
          cases c e.1 with
          | none => simp [upd, hl.1, h]
          | some _ => exact h
      refine this _ _ ?_ (by simp [upd])
      intro h
      simp only [List.mem_map] at h
      obtain ⟨e, he, rfl⟩ := h
      exact hn.1 (List.of_mem_zip he).1
    | succ i =>
      simp only [List.getElem?_cons_succ] at hk hx
      exact zip_at hn.2 cs _ hrest i k x hk hx

/-- **C12 is violated.** What a restart does, for every model and every row of a batch: the value that was
written for the column number `i` *at that time* goes to the column number `i` of the model *at the time of
the restart*, whichever column that is (unless that column is the object of a later removal). -/
theorem C12_values_go_by_position_violated {m : Model} (hn : (Dml.colNames m.fields).Nodup) (schema : Nat) (e : Rec) {i : Nat}
    {k : String} {x : Cell} (hk : (others m)[i]? = some k) (hx : e.cells[i]? = some x)
    (hr : SDelta.rem k ∉ m.deltas.drop (schema + 1)) : (rowFrom m schema e).cells k = some x := by
  have hz : zipCells (others m) e.cells k = some x :=
    zip_at (hn.sublist List.filter_sublist) e.cells _ (by simp) i k x hk hx
  rw [rowFrom, (Dml.full_resolve _ _).2.1]
  exact fold_keeps _ _ hr hz

/-- **C12 (partial).** If columns were only added since a batch was written, every row of the batch has, in
each column that existed, the value that was written. Missing (and false): columns that were removed or
updated. -/
theorem C12_only_additions_partial {m m' : Model} (hn : (Dml.colNames m'.fields).Nodup) {fs : Enc.Fields}
    (hf : m'.fields = m.fields ++ fs) (hpk : m'.pk = m.pk) (hd : m'.deltas = m.deltas ++ (Dml.colNames fs).map .add)
    (e : Rec) {i : Nat} {k : String} {x : Cell} (hk : (others m)[i]? = some k) (hx : e.cells[i]? = some x) :
    (rowFrom m' m.deltas.length e).cells k = some x := by
  refine C12_values_go_by_position_violated hn _ e ?_ hx ?_
  · have : others m' = others m ++ (Dml.colNames fs).filter fun k => decide (k ≠ m'.pk) := by
      simp [others, hf, hpk, Dml.colNames]
    rw [this, List.getElem?_append_left (List.getElem?_eq_some_iff.1 hk).1]
    exact hk
  · rw [hd, List.drop_append, List.drop_eq_nil_of_le (by omega), List.nil_append]
    intro h
    have := List.mem_of_mem_drop h
    simp at this

def exAB : Model :=
  { uuid := 7, pk := "id", pkTag := .uint64
    fields := [("id", ⟨[.uint64], false⟩), ("a", ⟨[.uint8], false⟩), ("b", ⟨[.uint8], false⟩), ("c", ⟨[.string], false⟩)]
    deltas := [] }

def exABrow : Op := .stmt (.insert (.ordered [.uint .uint64 1, .uint .uint64 10, .uint .uint64 20, .str "c"]))

def exSelAB (fs : List String) : Op := .stmt (.select (some fs) (whereId 1))

/-- A case of `C12_only_additions_partial`. -/
example : shown (life exF id 100000 exAB exHdr
      [exABrow, .flush 1, .alter id (.add [⟨"d", [⟨encStr "uint8", true⟩], []⟩])] [[exSelAB ["a", "b", "c"]]]) =
    some [[], showReply (.row [.uint .uint8 10, .uint .uint8 20, .str "c"])] := by
  decide +kernel

/-- **C12 is violated.** The column `a` is removed. Before the restart `b` is 20; after it, `b` is 10 and `c`,
a column of strings, is the number 20. -/
theorem C12_removed_violated :
    shown (life exF id 100000 exAB exHdr
      [exABrow, .flush 1, .alter id (.remove ["a"]), exSelAB ["b", "c"]] [[exSelAB ["b", "c"]]]) =
    some [[], showReply (.row [.uint .uint8 20, .str "c"]), showReply (.row [.uint .uint8 10, .uint .uint8 20])] := by
  decide +kernel

/-- **C12 is violated.** The column `a` gets the type `uint16`, which moves it to the end. Before the restart
the row is 10, 20, "c"; after it, `a` is "c", `b` is 10 and `c` is 20. -/
theorem C12_updated_violated :
    shown (life exF id 100000 exAB exHdr
      [exABrow, .flush 1, .alter id (.update [⟨"a", [⟨encStr "uint16", true⟩], []⟩]), exSelAB ["a", "b", "c"]]
      [[exSelAB ["a", "b", "c"]]]) =
    some [[], showReply (.row [.uint .uint8 10, .uint .uint8 20, .str "c"]),
      showReply (.row [.str "c", .uint .uint8 10, .uint .uint8 20])] := by
  decide +kernel

end Verif.Batch
