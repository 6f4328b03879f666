import Verif.Dml.Par
/-!
Statements at the same time: a backward simulation. A statement that finds its row and acts on it after the row was deleted
counts as done just before the deletion, so what was done first is known only in the end.
-/
namespace Verif.Conc

theorem ARun.trans' {σ O R : Type} {Ob : Obj σ O R} {a b c : ASt σ O R} {es es' : List (Ev O R)} (h : ARun Ob a es b)
    (h' : ARun Ob b es' c) : ARun Ob a (es ++ es') c := by
  induction h' with
  | refl => simpa using h
  | tail _ hs ih => rw [← List.append_assoc]; exact ih.tail hs

end Verif.Conc

namespace Verif.Dml.Par
open Verif.Gns (Model)
open Verif.Conc (Ev Obj ASt AThr AStep ARun Linearizable upd upd_same upd_other)

/-! ### Contents -/

/-- The rows by their keys. -/
abbrev Content := Key → Option Data

def cont (t : Tbl) : Content := fun k => (kget t.idx k).bind fun i => (t.heap[i]?).map RowObj.data

def setC (A : Content) (k : Key) (x : Option Data) : Content := fun y => if y = k then x else A y

def applyRow (F : FloatOps) (m : Model) (A : Content) (s : Stmt) (w : Where) : Content × Reply :=
  match resolveWhere m w with
  | none => (A, .err .unindexed)
  | some k =>
    match A k with
    | none => (A, .err .rowNotFound)
    | some x => (setC A k (some (rowAct F m s x).1), (rowAct F m s x).2)

/-- A statement on the contents. -/
def apply (F : FloatOps) (m : Model) (A : Content) : Stmt → Content × Reply
  | .insert d =>
    match prepareInsert m d with
    | .ok (k, c) =>
      match A k with
      | some _ => (A, .err .duplicate)
      | none => (setC A k (some (c, m.deltas.length)), .empty)
    | .err e => (A, .err e)
    | _ => (A, .panic)
  | .delete w =>
    match resolveWhere m w with
    | none => (A, .err .unindexed)
    | some k =>
      match A k with
      | none => (A, .err .rowNotFound)
      | some _ => (setC A k none, .empty)
  | .update as w => applyRow F m A (.update as w) w
  | .select fs w => applyRow F m A (.select fs w) w
  | .selectAll _ _ => (A, .panic)

def conObj (F : FloatOps) (m : Model) : Obj Content Stmt Reply := ⟨apply F m⟩

/-- The index is a map and its rows are there. -/
structure TWf (t : Tbl) : Prop where
  nodup : (t.idx.map (·.1)).Nodup
  rows : ∀ {k i}, kget t.idx k = some i → ∃ r, t.heap[i]? = some r ∧ r.key = k

def rowsOf (t : Tbl) : List Nat := t.idx.map (·.2)

theorem TWf.mem {t : Tbl} (h : TWf t) {i : Nat} : i ∈ rowsOf t ↔ ∃ k, kget t.idx k = some i := by
  constructor
  · intro hi
    obtain ⟨⟨k, j⟩, h1, rfl⟩ := List.mem_map.1 hi
    exact ⟨k, kget_of_mem h.nodup h1⟩
  · rintro ⟨k, hk⟩
    exact List.mem_map.2 ⟨_, kget_mem hk, rfl⟩

theorem TWf.live {t : Tbl} (h : TWf t) {i : Nat} {r : RowObj} (hr : t.heap[i]? = some r) :
    i ∈ rowsOf t ↔ kget t.idx r.key = some i := by
  rw [h.mem]
  constructor
  · rintro ⟨k, hk⟩
    obtain ⟨r', h1, h2⟩ := h.rows hk
    rw [hr] at h1
    cases h1
    rw [h2]
    exact hk
  · exact fun h => ⟨_, h⟩

theorem TWf.lt {t : Tbl} (h : TWf t) {i : Nat} (hi : i ∈ rowsOf t) : i < t.heap.length := by
  obtain ⟨k, hk⟩ := h.mem.1 hi
  obtain ⟨r, h1, _⟩ := h.rows hk
  exact (List.getElem?_eq_some_iff.1 h1).1

theorem TWf.cont_some {t : Tbl} (h : TWf t) {k : Key} {i : Nat} (hk : kget t.idx k = some i) :
    ∃ r, t.heap[i]? = some r ∧ r.key = k ∧ cont t k = some (RowObj.data r) := by
  obtain ⟨r, h1, h2⟩ := h.rows hk
  exact ⟨r, h1, h2, by simp [cont, hk, h1]⟩

theorem cont_none {t : Tbl} {k : Key} (hk : kget t.idx k = none) : cont t k = none := by simp [cont, hk]

/-- Replacing a row by one with the same key. -/
theorem TWf.set {t : Tbl} (h : TWf t) {i : Nat} {r r' : RowObj} (hr : t.heap[i]? = some r) (hk : r'.key = r.key) (v q) :
    TWf { t with heap := t.heap.set i r', ver := v, queue := q } := by
  refine ⟨h.nodup, ?_⟩
  intro k j hj
  obtain ⟨x, h1, h2⟩ := h.rows hj
  simp only [List.getElem?_set]
  have hlt := (List.getElem?_eq_some_iff.1 hr).1
  split
  · rename_i e
    subst e
    rw [hr] at h1
    cases h1
    exact ⟨r', by simp [hlt], by rw [hk, h2]⟩
  · exact ⟨x, h1, h2⟩

theorem cont_set {t : Tbl} (h : TWf t) {i : Nat} {r r' : RowObj} (hr : t.heap[i]? = some r) (v q) :
    cont { t with heap := t.heap.set i r', ver := v, queue := q } =
      if i ∈ rowsOf t then setC (cont t) r.key (some (RowObj.data r')) else cont t := by
  have hlt := (List.getElem?_eq_some_iff.1 hr).1
  funext k
  simp only [cont, List.getElem?_set, hlt, if_true]
  by_cases hi : i ∈ rowsOf t
  · rw [if_pos hi]
    have hl := (h.live hr).1 hi
    simp only [setC]
    by_cases e : k = r.key
    · subst e
      simp [hl]
    · rw [if_neg e]
      cases hk : kget t.idx k with
      | none => simp [cont, hk]
      | some j =>
        have : i ≠ j := by
          rintro rfl
          obtain ⟨x, h1, h2⟩ := h.rows hk
          rw [hr] at h1
          cases h1
          exact e h2.symm
        simp [cont, hk, this]
  · rw [if_neg hi]
    cases hk : kget t.idx k with
    | none => simp [cont, hk]
    | some j =>
      have : i ≠ j := by
        rintro rfl
        exact hi (h.mem.2 ⟨k, hk⟩)
      simp [this, cont, hk]

theorem TWf.add {t : Tbl} (h : TWf t) {k : Key} (hk : kget t.idx k = none) {r : RowObj} (hr : r.key = k) (v q) :
    TWf { t with heap := t.heap ++ [r], idx := t.idx ++ [(k, t.heap.length)], ver := v, queue := q } := by
  refine ⟨?_, ?_⟩
  · simp only [List.map_append, List.map_cons, List.map_nil]
    rw [List.nodup_append]
    refine ⟨h.nodup, by simp, ?_⟩
    intro a ha b hb
    cases List.mem_singleton.1 hb
    rintro rfl
    exact kget_none.1 hk ha
  · intro k' i hi
    rw [kget_append] at hi
    cases hj : kget t.idx k' with
    | some j =>
      rw [hj] at hi
      cases hi
      obtain ⟨x, h1, h2⟩ := h.rows hj
      have hlt := (List.getElem?_eq_some_iff.1 h1).1
      exact ⟨x, by simp only [List.getElem?_append_left hlt, h1], h2⟩
    | none =>
      simp only [hj, kget] at hi
      split at hi
      · rename_i e
        cases hi
        exact ⟨r, by simp, by rw [hr, e]⟩
      · cases hi

theorem cont_add {t : Tbl} (h : TWf t) {k : Key} (hk : kget t.idx k = none) {r : RowObj} (v q) :
    cont { t with heap := t.heap ++ [r], idx := t.idx ++ [(k, t.heap.length)], ver := v, queue := q } =
      setC (cont t) k (some (RowObj.data r)) := by
  funext k'
  simp only [cont, kget_append, setC]
  cases hj : kget t.idx k' with
  | some j =>
    obtain ⟨x, h1, _⟩ := h.rows hj
    have hlt := (List.getElem?_eq_some_iff.1 h1).1
    have : k' ≠ k := by rintro rfl; rw [hk] at hj; cases hj
    simp only [this, if_false, Option.bind_some, List.getElem?_append_left hlt]
  | none =>
    simp only [kget]
    by_cases e : k' = k
    · subst e; simp
    · have e' : ¬ k = k' := fun h => e h.symm
      simp [e, e']

theorem TWf.del {t : Tbl} (h : TWf t) (k : Key) (v q) : TWf { t with idx := kdel t.idx k, ver := v, queue := q } := by
  refine ⟨h.nodup.sublist ((kdel_sublist _ _).map _), ?_⟩
  intro k' i hi
  rw [kget_kdel h.nodup] at hi
  split at hi
  · cases hi
  · exact h.rows hi

theorem cont_del {t : Tbl} (h : TWf t) (k : Key) (v q) :
    cont { t with idx := kdel t.idx k, ver := v, queue := q } = setC (cont t) k none := by
  funext k'
  simp only [cont, kget_kdel h.nodup, setC]
  split <;> rfl

theorem rowsOf_del {t : Tbl} (h : TWf t) {k : Key} {i : Nat} (hk : kget t.idx k = some i) (v q) {j : Nat} :
    j ∈ rowsOf { t with idx := kdel t.idx k, ver := v, queue := q } ↔ j ∈ rowsOf t ∧ j ≠ i := by
  rw [(h.del k v q).mem, h.mem]
  simp only [kget_kdel h.nodup]
  constructor
  · rintro ⟨k', h1⟩
    split at h1
    · cases h1
    · rename_i e
      refine ⟨⟨k', h1⟩, ?_⟩
      rintro rfl
      obtain ⟨x, a1, a2⟩ := h.rows h1
      obtain ⟨y, b1, b2⟩ := h.rows hk
      rw [a1] at b1
      cases b1
      exact e (a2.symm.trans b2)
  · rintro ⟨⟨k', h1⟩, h2⟩
    refine ⟨k', ?_⟩
    split
    · rename_i e
      subst e
      rw [hk] at h1
      cases h1
      exact absurd rfl h2
    · exact h1

/-! ### The contents do what the statements do -/

theorem applyRow_at {F : FloatOps} {m : Model} {A : Content} {s : Stmt} {w : Where} {k : Key} {x : Data}
    (hw : resolveWhere m w = some k) (hx : A k = some x) :
    applyRow F m A s w = (setC A k (some (rowAct F m s x).1), (rowAct F m s x).2) := by
  rw [applyRow, hw]
  simp only [hx]

/-- A statement alone. -/
theorem exec_cont {F : FloatOps} {order : List (Key × Nat) → List (Key × Nat)} {t : Tbl} (h : TWf t) {s : Stmt}
    (hs : ∀ fs n, s ≠ .selectAll fs n) : TWf (exec F order t s).1 ∧ (exec F order t s).1.model = t.model ∧
      cont (exec F order t s).1 = (apply F t.model (cont t) s).1 ∧
      (exec F order t s).2 = (apply F t.model (cont t) s).2 := by
  have hver : ∀ v q, TWf { t with ver := v, queue := q } := fun v q => ⟨h.nodup, h.rows⟩
  cases s with
  | insert d =>
    rw [exec, execInsert, apply]
    cases hp : prepareInsert t.model d with
    | ok x =>
      obtain ⟨k, c⟩ := x
      simp only
      cases hk : kget t.idx k with
      | some i =>
        obtain ⟨r, h1, h2, h3⟩ := h.cont_some hk
        simp only [h3]
        refine ⟨hver _ _, ?_, ?_, ?_⟩ <;> trivial
      | none =>
        simp only [cont_none hk]
        refine ⟨h.add hk rfl _ _, ?_, cont_add h hk _ _, ?_⟩ <;> trivial
    | err e => refine ⟨h, ?_, ?_, ?_⟩ <;> trivial
    | panic => refine ⟨h, ?_, ?_, ?_⟩ <;> trivial
    | hang => refine ⟨h, ?_, ?_, ?_⟩ <;> trivial
  | delete w =>
    rw [exec, execDelete, apply]
    simp only
    cases hw : resolveWhere t.model w with
    | none => refine ⟨hver _ _, ?_, ?_, ?_⟩ <;> trivial
    | some k =>
      simp only
      cases hk : kget t.idx k with
      | none =>
        simp only [cont_none hk]
        refine ⟨hver _ _, ?_, ?_, ?_⟩ <;> trivial
      | some i =>
        obtain ⟨r, h1, h2, h3⟩ := h.cont_some hk
        simp only [h3]
        refine ⟨h.del k _ _, ?_, cont_del h k _ _, ?_⟩ <;> trivial
  | update as w =>
    rw [exec, execUpdate, apply]
    cases hw : resolveWhere t.model w with
    | none => simp only [applyRow, hw]; refine ⟨h, ?_, ?_, ?_⟩ <;> trivial
    | some k =>
      simp only
      cases hk : kget t.idx k with
      | none =>
        simp only [applyRow, hw, cont_none hk, Option.bind_none]
        refine ⟨h, ?_, ?_, ?_⟩ <;> trivial
      | some i =>
        obtain ⟨r, h1, h2, h3⟩ := h.cont_some hk
        have hi : i ∈ rowsOf t := h.mem.2 ⟨k, hk⟩
        rw [applyRow_at hw h3, ← h2]
        simp only [h1, Option.bind_some, Option.map_some, rowAct, RowObj.data]
        cases hu : updLoop F t.model.fields as r.cells [] with
        | done c =>
          simp only [setRow]
          refine ⟨?_, by simp, ?_, by simp⟩
          · exact h.set (r' := { r with cells := c, revised := t.ver + 1 - 1 }) h1 rfl _ _
          · have := cont_set h (r' := { r with cells := c, revised := t.ver + 1 - 1 }) h1 (t.ver + 1)
              (t.queue ++ [⟨t.ver + 1 - 1, .update, i⟩])
            rw [if_pos hi] at this
            exact this
        | fail e c rb =>
          simp only [setRow]
          refine ⟨?_, by simp, ?_, by simp⟩
          · exact h.set (r' := { r with cells := restore c rb }) h1 rfl _ _
          · have := cont_set h (r' := { r with cells := restore c rb }) h1 (t.ver + 1) t.queue
            rw [if_pos hi] at this
            exact this
        | panic c =>
          simp only [setRow]
          refine ⟨?_, by simp, ?_, by simp⟩
          · exact h.set (r' := { r with cells := c }) h1 rfl _ _
          · have := cont_set h (r' := { r with cells := c }) h1 (t.ver + 1) t.queue
            rw [if_pos hi] at this
            exact this
  | select fs w =>
    rw [exec, execSelect, apply]
    cases hw : resolveWhere t.model w with
    | none => simp only [applyRow, hw]; refine ⟨h, ?_, ?_, ?_⟩ <;> trivial
    | some k =>
      simp only
      cases hk : kget t.idx k with
      | none =>
        simp only [applyRow, hw, cont_none hk, Option.bind_none]
        refine ⟨h, ?_, ?_, ?_⟩ <;> trivial
      | some i =>
        obtain ⟨r, h1, h2, h3⟩ := h.cont_some hk
        have hi : i ∈ rowsOf t := h.mem.2 ⟨k, hk⟩
        rw [applyRow_at hw h3]
        simp only [h1, Option.bind_some, Option.map_some, rowAct, hw]
        rw [resolve_data]
        refine ⟨?_, rfl, ?_, rfl⟩
        · exact h.set (r' := { r with
            cells := (resolveData t.model (RowObj.data r)).1, schema := (resolveData t.model (RowObj.data r)).2 }) h1 rfl t.ver t.queue
        · have := cont_set h (r' := { r with
            cells := (resolveData t.model (RowObj.data r)).1, schema := (resolveData t.model (RowObj.data r)).2 }) h1 t.ver t.queue
          rw [if_pos hi] at this
          rw [← h2]
          exact this
  | selectAll fs n => exact absurd rfl (hs fs n)

end Verif.Dml.Par
