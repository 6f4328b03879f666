import Verif.Dml.ParLatch
/-!
C57: examples, and `SELECT ALL` is not as if it were executed at one instant.
-/
namespace Verif.Dml.Par
open Verif.Gns (Model fget)
open Verif.Conc (Ev Obj ASt AThr AStep ARun Linearizable upd upd_same upd_other)

/-- The tables of C31 are as asked here. -/
theorem TWf.of_inv {m : Model} {t : Tbl} (h : Inv m t) : TWf t :=
  ⟨h.nodup, fun hk => by
    obtain ⟨_, r, h1, h2, _⟩ := h.rows _ (kget_mem hk)
    exact ⟨r, h1, h2⟩⟩

theorem TWf.empty (m : Model) : TWf (Tbl.empty m) := ⟨by simp [Tbl.empty], fun h => by cases h⟩

theorem exTbl_twf : TWf exTbl := by
  have h1 := exec_cont (F := exF) (order := id) (TWf.empty exModel) (s := exRow 1 (.list [.uint .uint64 5])) (by simp [exRow])
  have h2 := exec_cont (F := exF) (order := id) h1.1 (s := exRow 2 .null) (by simp [exRow])
  exact h2.1

/-- An `UPDATE` of the column `n`. -/
def exSet (id n : UInt64) : Stmt := .update [⟨"n", .assign, .uint n⟩] (whereId id)

/-- The numbers in an answer. -/
def shown : Reply → Option (List (List Nat))
  | .rows _ rs => some (rs.map fun r => r.map fun c => match c with | .uint _ x => x.toNat | _ => 0)
  | .row r => some [r.map fun c => match c with | .uint _ x => x.toNat | _ => 0]
  | .empty => some []
  | _ => none

/-- What the clients see: who sends, and the answers. -/
def seen : List (Ev Stmt Reply) → List (Nat × Option (Option (List (List Nat))))
  | [] => []
  | .call n _ :: es => (n, none) :: seen es
  | .ret n r :: es => (n, some (shown r)) :: seen es

def exHist (os : List Sch) : List (Ev Stmt Reply) :=
  match scheds exF id os (.start exTbl) with
  | some (_, es) => es
  | none => []

/-- A client reads all rows. After it has read the first one, another sets the column in the first row and, when this is
acknowledged, in the second. Then the rest is read. -/
def exAllOs : List Sch :=
  [.call 0 (.selectAll (some ["n"]) 10), .go 0, .go 0, .call 1 (exSet 1 1), .go 1, .go 1, .go 1, .ret 1,
   .call 1 (exSet 2 2), .go 1, .go 1, .go 1, .ret 1, .go 0, .go 0, .ret 0]

/-- The answer has the old value of the first row and the new one of the second. -/
theorem exAll_seen : seen (exHist exAllOs) =
    [(0, none), (1, none), (1, some (some [])), (1, none), (1, some (some [])), (0, some (some [[200], [2]]))] := by
  decide +kernel

/-- **C57 is violated.** No order of the statements explains what the clients see: the answer of `SELECT ALL` shows the second
change and not the first, which was acknowledged before the second was sent. -/
theorem C57_select_all_violated : ∃ (t : Tbl) (os : List Sch) (s : St) (es : List (Ev Stmt Reply)), TWf t ∧
    scheds exF id os (.start t) = some (s, es) ∧ ¬ Linearizable (tableObj exF id) t es := by
  have hs : (scheds exF id exAllOs (.start exTbl)).isSome = true := by decide +kernel
  cases h : scheds exF id exAllOs (.start exTbl) with
  | none => rw [h] at hs; cases hs
  | some x =>
    obtain ⟨s, es⟩ := x
    have he : exHist exAllOs = es := by rw [exHist, h]
    refine ⟨exTbl, exAllOs, s, es, exTbl_twf, h, ?_⟩
    rw [← he]
    refine Conc.not_linearizable (fun a b => decide (shown a = shown b)) (fun _ => by simp) 2 40 ?_ (by decide +kernel)
    have hc : (exHist exAllOs).all (fun e => match e with | .call t _ => decide (t < 2) | _ => true) = true := by decide +kernel
    intro t op hm
    have := List.all_eq_true.1 hc _ hm
    simpa using this

/-- A client looks for the row to change, another deletes it, and then the first changes the row that is gone: both are
acknowledged, and a third finds nothing. -/
def exGoneOs : List Sch :=
  [.call 0 (exSet 1 7), .go 0, .call 1 (.delete (whereId 1)), .go 1, .go 1, .go 1, .go 1, .ret 1,
   .call 2 (.select (some ["n"]) (whereId 1)), .go 2, .ret 2, .go 0, .go 0, .ret 0]

theorem exGone_seen : seen (exHist exGoneOs) =
    [(0, none), (1, none), (1, some (some [])), (2, none), (2, some none), (0, some (some []))] := by decide +kernel

/-- What happened can be explained: the change was made before the deletion. -/
example : Linearizable (tableObj exF id) exTbl (exHist exGoneOs) := by
  cases h : scheds exF id exGoneOs (.start exTbl) with
  | none =>
    have hs : (scheds exF id exGoneOs (.start exTbl)).isSome = true := by decide +kernel
    rw [h] at hs; cases hs
  | some x =>
    obtain ⟨s, es⟩ := x
    have he : exHist exGoneOs = es := by rw [exHist, h]
    refine he ▸ C57_linearizable_partial exTbl_twf h ?_
    have hc : (exHist exGoneOs).all (fun e => match e with | .call _ (.selectAll ..) => false | _ => true) = true := by decide +kernel
    intro n fs l hm
    rw [← he] at hm
    have := List.all_eq_true.1 hc _ hm
    simp at this

/-- The change that is appended last is the one of the row that is gone, with the highest version: this is how the queue of
`C13_update_of_a_deleted_row_violated` comes about. -/
example : (scheds exF id exGoneOs (.start exTbl)).map (fun x => x.1.t.queue.map fun d => (d.ver, d.kind, d.row)) =
    some [(0, .insert, 0), (1, .insert, 1), (2, .delete, 0), (3, .update, 0)] := by decide +kernel

/-- The search is not blind: with the true answers of a history it finds an order. -/
example : Conc.search (tableObj exF id) (fun a b => decide (shown a = shown b)) 3 40 (exHist exGoneOs) ⟨exTbl, fun _ => .idle⟩ = true := by
  decide +kernel

end Verif.Dml.Par
