import Verif.Dml.ParTheorems
import Verif.Conc.Search
/-!
C57: a statement that is alone does what `exec` does; `SELECT ALL` with other statements at the same time.
-/
namespace Verif.Dml.Par
open Verif.Gns (Model fget)
open Verif.Conc (Ev Obj ASt AThr AStep ARun Linearizable upd upd_same upd_other)

/-! ### A statement that is alone -/

/-- The state in which a thread is at `p` and nobody else does anything. -/
def solo (t : Tbl) (p : Pos) : St := ⟨t, upd (fun _ => .idle) 0 p, [], false, []⟩

theorem alone_done {F : FloatOps} {order : List (Key × Nat) → List (Key × Nat)} {s : St} {r : Reply} (h : s.th 0 = .done r) (f : Nat) :
    alone F order (f + 1) s = some (s.t, r) := by
  rw [alone]; simp only [h]

theorem alone_step {F : FloatOps} {order : List (Key × Nat) → List (Key × Nat)} {s s' : St} {f : Nat}
    (h : step F order s 0 = some s') : alone F order (f + 1) s = alone F order f s' := by
  rw [alone]
  cases hp : s.th 0 with
  | done r => rw [step] at h; simp [hp] at h
  | _ => simp only [h, Option.bind_some]

theorem at_same (s : St) (n : Nat) (p : Pos) : (s.at n p).th n = p := upd_same _ _ _

/-- The loop of `SELECT ALL`. -/
theorem alone_reading {F : FloatOps} {order : List (Key × Nat) → List (Key × Nat)} {ks : List String} :
    ∀ (rest : List (Key × Nat)) (s : St) (acc : List (List Cell)), s.th 0 = .reading ks rest acc → s.held = [] →
      alone F order (rest.length + 2) s =
        match allLoop ks rest s.t with
        | (t, some rs) => some (t, .rows ks.length (acc ++ rs))
        | (t, none) => some (t, .panic)
  | [], s, acc, h, hh => by
    obtain ⟨s', h1, h2, h3⟩ : ∃ s', step F order s 0 = some s' ∧ s'.th 0 = .done (.rows ks.length acc) ∧ s'.t = s.t :=
      by
        rw [step]; simp only [h]
        exact ⟨_, rfl, by simp only [at_same], rfl⟩
    rw [List.length_nil, alone_step h1, alone_done h2, h3]
    simp only [allLoop, List.append_nil]
  | (k, i) :: rest, s, acc, h, hh => by
    rw [List.length_cons]
    cases hr : s.t.heap[i]? with
    | none =>
      obtain ⟨s', h1, h2, h3⟩ : ∃ s', step F order s 0 = some s' ∧ s'.th 0 = .done .panic ∧ s'.t = s.t :=
        by
          rw [step]; simp only [h, hh, List.not_mem_nil, if_false, hr]
          exact ⟨_, rfl, by simp only [at_same], rfl⟩
      rw [alone_step h1, alone_done h2, h3]
      simp only [allLoop, hr]
    | some r =>
      have he : setRow s.t i (resolve s.t.model.deltas r) = setData s.t i r (resolveData s.t.model (RowObj.data r)) := by
        rw [setData, resolve_data]
      have hc : (resolve s.t.model.deltas r).cells = (resolveData s.t.model (RowObj.data r)).1 := by rw [resolve_data]
      have hm : (setData s.t i r (resolveData s.t.model (RowObj.data r))).model = s.t.model := rfl
      cases hra : readAll s.t.model.pk (keyCellAll s.t.model.pkTag k) (resolveData s.t.model (RowObj.data r)).1 ks with
      | none =>
        obtain ⟨s', h1, h2, h3⟩ : ∃ s', step F order s 0 = some s' ∧ s'.th 0 = .done .panic ∧
            s'.t = setData s.t i r (resolveData s.t.model (RowObj.data r)) :=
          by
          rw [step]; simp only [h, hh, List.not_mem_nil, if_false, hr, hra]
          exact ⟨_, rfl, by simp only [at_same], rfl⟩
        rw [alone_step h1, alone_done h2, h3, allLoop]
        simp only [hr, he, hc, hm, hra]
      | some cs =>
        obtain ⟨s', h1, h2, h3, h4⟩ : ∃ s', step F order s 0 = some s' ∧ s'.th 0 = .reading ks rest (acc ++ [cs]) ∧
            s'.t = setData s.t i r (resolveData s.t.model (RowObj.data r)) ∧ s'.held = [] :=
          by
          rw [step]; simp only [h, hh, List.not_mem_nil, if_false, hr, hra]
          exact ⟨_, rfl, by simp only [at_same], rfl, by first | exact hh | rfl⟩
        rw [alone_step h1, alone_reading rest s' _ h2 h4, h3]
        conv => rhs; rw [allLoop]
        simp only [hr, he, hc, hm, hra]
        rcases allLoop ks rest (setData s.t i r (resolveData s.t.model (RowObj.data r))) with ⟨t', _ | rs⟩
        · rfl
        · simp

theorem upd_upd {α : Type} (f : Nat → α) (n : Nat) (x y : α) : upd (upd f n x) n y = upd f n y := by
  funext k
  by_cases h : k = n
  · subst h; rw [upd_same, upd_same]
  · rw [upd_other _ _ h, upd_other _ _ h, upd_other _ _ h]

theorem solo_th (t : Tbl) (p : Pos) : (solo t p).th 0 = p := by simp [solo, upd_same]

theorem solo_at (t : Tbl) (p q : Pos) : (solo t p).at 0 q = solo t q := by
  rw [St.at, solo, upd_upd]; rfl

/-- UPDATE and SELECT of one row. -/
theorem alone_look {F : FloatOps} {order : List (Key × Nat) → List (Key × Nat)} {t : Tbl} (ht : TWf t) {st : Stmt} {w : Where}
    (h : step F order (solo t (.called st)) 0 = some (look (solo t (.called st)) 0 st w)) {x : Tbl × Reply}
    (h1 : resolveWhere t.model w = none → x = (t, .err .unindexed))
    (h2 : ∀ k, resolveWhere t.model w = some k → kget t.idx k = none → x = (t, .err .rowNotFound))
    (h3 : ∀ k i r, resolveWhere t.model w = some k → kget t.idx k = some i → t.heap[i]? = some r →
      ∃ f, alone F order f (solo t (.found i st)) = some x) :
    ∃ f, alone F order f (solo t (.called st)) = some x := by
  have hs : (solo t (.called st)).t = t := rfl
  cases hw : resolveWhere t.model w with
  | none =>
    refine ⟨2, ?_⟩
    rw [alone_step h, look]
    simp only [hs, hw]
    rw [alone_done (at_same _ _ _), h1 hw]
    rfl
  | some k =>
    cases hi : kget t.idx k with
    | none =>
      refine ⟨2, ?_⟩
      rw [alone_step h, look]
      simp only [hs, hw, hi]
      rw [alone_done (at_same _ _ _), h2 k hw hi]
      rfl
    | some i =>
      obtain ⟨r, hr, _⟩ := ht.rows hi
      obtain ⟨f, hf⟩ := h3 k i r hw hi hr
      refine ⟨f + 1, ?_⟩
      rw [alone_step h, look]
      simp only [hs, hw, hi, solo_at]
      exact hf

/-- The steps of a statement, made without anybody else, are the statement. -/
theorem alone_exec {F : FloatOps} {order : List (Key × Nat) → List (Key × Nat)} {t : Tbl} (ht : TWf t) (st : Stmt) :
    ∃ f, alone F order f (solo t (.called st)) = some (exec F order t st) := by
  have h0 : (solo t (.called st)).th 0 = .called st := solo_th _ _
  have hs : (solo t (.called st)).t = t := rfl
  cases st with
  | insert d =>
    refine ⟨6, ?_⟩
    rw [exec, execInsert]
    cases hp : prepareInsert t.model d with
    | ok x =>
      obtain ⟨k, c⟩ := x
      cases hk : kget t.idx k <;>
        simp [alone, step, solo, St.at, upd_same, upd_upd, hp, hk]
    | err e => simp [alone, step, solo, St.at, upd_same, hp]
    | panic => simp [alone, step, solo, St.at, upd_same, hp]
    | hang => simp [alone, step, solo, St.at, upd_same, hp]
  | delete w =>
    refine ⟨6, ?_⟩
    rw [exec, execDelete]
    cases hw : resolveWhere t.model w with
    | none => simp [alone, step, solo, St.at, upd_same, upd_upd, hw]
    | some k => cases hk : kget t.idx k <;> simp [alone, step, solo, St.at, upd_same, upd_upd, hw, hk]
  | update as w =>
    refine alone_look ht (w := w) (by rw [step]; simp only [solo_th]) (fun h => by rw [exec, execUpdate]; simp only [h])
      (fun k h h' => by rw [exec, execUpdate]; simp only [h, h']; rfl) ?_
    intro k i r hw hi hr
    refine ⟨4, ?_⟩
    rw [exec, execUpdate]
    simp only [hw, hi, hr, Option.bind_some, Option.map_some]
    cases hu : updLoop F t.model.fields as r.cells [] <;>
      simp [alone, step, solo, St.at, upd_same, upd_upd, hr, rowAct, RowObj.data, hu, setData, setRow]
  | select fs w =>
    refine alone_look ht (w := w) (by rw [step]; simp only [solo_th]) (fun h => by rw [exec, execSelect]; simp only [h])
      (fun k h h' => by rw [exec, execSelect]; simp only [h, h']; rfl) ?_
    intro k i r hw hi hr
    refine ⟨4, ?_⟩
    rw [exec, execSelect]
    simp only [hw, hi, hr, Option.bind_some, Option.map_some]
    rw [resolve_data]
    cases hu : readFields t.model.pk (keyCellSel k) (resolveData t.model (RowObj.data r)).1 (fs.getD (colNames t.model.fields)) <;>
      simp [alone, step, solo, St.at, upd_same, upd_upd, hr, rowAct, hw, hu, setData, setRow]
  | selectAll fs lim =>
    rw [exec, execSelectAll]
    split
    · rename_i hc
      refine ⟨2, ?_⟩
      have h1 : step F order (solo t (.called (.selectAll fs lim))) 0 =
          some ((solo t (.called (.selectAll fs lim))).at 0 (.done (.err .unknownField))) := by
        rw [step]; simp only [h0, hs, hc, if_true]
      rw [alone_step h1, alone_done (at_same _ _ _)]
      rfl
    · rename_i hc
      refine ⟨((order t.idx).take lim).length + 3, ?_⟩
      obtain ⟨s', h1, h2, h3, h4⟩ : ∃ s', step F order (solo t (.called (.selectAll fs lim))) 0 = some s' ∧
          s'.th 0 = .reading (fs.getD (colNames t.model.fields)) ((order t.idx).take lim) [] ∧ s'.t = t ∧ s'.held = [] := by
        have hx : ¬ ((solo t (.called (.selectAll fs lim))).excl = true ∨ (solo t (.called (.selectAll fs lim))).shared ≠ []) := by
          simp [solo]
        rw [step]; simp only [h0, hs, hc, hx]
        exact ⟨_, rfl, by simp only [at_same], rfl, by first | exact hh | rfl⟩
      rw [alone_step h1, alone_reading _ _ _ h2 h4, h3]
      rcases allLoop (fs.getD (colNames t.model.fields)) ((order t.idx).take lim) t with ⟨t', _ | rs⟩
      · rfl
      · simp

end Verif.Dml.Par
