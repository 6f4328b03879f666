import Verif.Batch.ManyInv
/-!
C78: what the clients have seen so far can be explained, and what is known of the statements that are open.
-/
namespace Verif.Batch.Many
open Verif.Gns (Model ModelOk PkNonNull)
open Verif.Dml (Key Cells RowObj DKind Delta Tbl FloatOps Stmt Where InsData Reply ATable SpecStep StmtOk WhereKey whereKey_iff kget
  kget_mem kget_of_mem exec exec_spec Inv RowInv abs normCells lookup_row prepareInsert prepareInsert_bad prepareInsert_ok InsertOk
  C32_update_partial resolveWhere updLoop execUpdate Asn RowOk)
open Verif.Dml.Par (Pos St Sch sched Wf TWf Sim cont conObj Content NoAll rowsOf stKey exec_cont sched_back rowAct)
open Verif.Conc (Ev ASt AThr AStep ARun upd upd_same upd_other)

theorem Inv.twf {m : Model} {t : Tbl} (h : Inv m t) : TWf t := by
  refine ⟨h.nodup, ?_⟩
  intro k i hk
  obtain ⟨_, r, h1, h2, _⟩ := h.rows _ (kget_mem hk)
  exact ⟨r, h1, h2⟩

theorem abs_cont (t : Tbl) (k : Key) : abs t k = (cont t k).map fun x => normCells x.1 := by
  simp only [abs, cont]
  cases kget t.idx k with
  | none => rfl
  | some i =>
    simp only [Option.bind_some]
    cases t.heap[i]? <;> rfl

theorem abs_of_cont {t u : Tbl} (h : cont t = cont u) : abs t = abs u := by
  funext k
  rw [abs_cont, abs_cont, h]

/-- Rows with the same contents are as good. -/
theorem inv_of_cont {m : Model} {t u : Tbl} (hm : t.model = m) (ht : TWf t) (hu : Inv m u) (h : cont t = cont u) : Inv m t := by
  refine ⟨hm, ht.nodup, ?_⟩
  rintro ⟨k, i⟩ hki
  have hk := kget_of_mem ht.nodup hki
  obtain ⟨r, h1, h2, h3⟩ := ht.cont_some hk
  rw [h] at h3
  cases hj : kget u.idx k with
  | none => rw [Dml.Par.cont_none hj] at h3; cases h3
  | some j =>
    obtain ⟨g1, r', g2, g3, g4, g5⟩ := hu.rows _ (kget_mem hj)
    have : cont u k = some (Dml.Par.RowObj.data r') := by simp only at g2; simp [cont, hj, g2]
    rw [this] at h3
    simp only [Dml.Par.RowObj.data, Option.some.injEq, Prod.mk.injEq] at h3
    exact ⟨g1, r, h1, h2, by rw [← h3.2]; exact g4, by rw [← h3.1]; exact g5⟩

/-- The history so far has an explanation that ends with these rows, for each way to see the open statements. -/
def Told (F : FloatOps) (m : Model) (es : List (Ev Stmt Reply)) (a : ASt Content Stmt Reply) : Prop :=
  ∃ T, Inv m T ∧ cont T = a.q ∧ (∀ n fs l, a.thr n ≠ .pend (.selectAll fs l)) ∧ SRun F m fresh es ⟨abs T, a.thr⟩

structure Past (F : FloatOps) (m : Model) (s : St) (es : List (Ev Stmt Reply)) : Prop where
  wf : Wf m s.t s.th
  told : ∀ a, Sim F m s.t s.th a → Told F m es a

theorem told_run {F : FloatOps} {m : Model} (hm : ModelOk m) (hpk : PkNonNull m) {es es' : List (Ev Stmt Reply)}
    {a b : ASt Content Stmt Reply} (h : ARun (conObj F m) a es' b) (ht : Told F m es a) (hn : NoAll es')
    (hf : Fair F m (es ++ es')) : Told F m (es ++ es') b := by
  induction h with
  | refl => rw [List.append_nil]; exact ht
  | @tail es1 b o c _ hs ih =>
    obtain ⟨T, h1, h2, h3, h4⟩ := ih (fun n fs l hmem => hn n fs l (List.mem_append_left _ hmem)) (by
      intro pre post he
      exact hf pre (post ++ o.toList) (by rw [← List.append_assoc, he, List.append_assoc]))
    have hok := hf (es ++ es1) o.toList (by rw [List.append_assoc]) _ h4
    rw [← List.append_assoc]
    cases hs with
    | @call u op hi =>
      refine ⟨T, h1, h2, ?_, h4.tail (.call hi)⟩
      intro n fs l
      simp only
      by_cases e : n = u
      · subst e
        rw [upd_same]
        intro he
        cases he
        exact hn n fs l (by simp)
      · rw [upd_other _ _ e]; exact h3 n fs l
    | @lin u op hi =>
      obtain ⟨k1, k2, k3, k4⟩ := exec_cont (F := F) (order := id) (Inv.twf h1) (s := op)
        (by rintro fs l rfl; exact h3 u fs l hi)
      rw [h2, h1.model] at k3 k4
      obtain ⟨x1, x2⟩ := exec_spec (F := F) (order := id) hm hpk (fun l => List.Perm.refl l) h1 (hok u op hi)
      rw [k4] at x2
      refine ⟨(exec F id T op).1, x1, k3, ?_, ?_⟩
      · intro n fs l
        simp only
        by_cases e : n = u
        · subst e; rw [upd_same]; simp
        · rw [upd_other _ _ e]; exact h3 n fs l
      · exact h4.tail (SStep.lin (a := ⟨abs T, b.thr⟩) hi x2)
    | @ret u r hi =>
      refine ⟨T, h1, h2, ?_, h4.tail (.ret hi)⟩
      intro n fs l
      simp only
      by_cases e : n = u
      · subst e; rw [upd_same]; simp
      · rw [upd_other _ _ e]; exact h3 n fs l

theorem Past.sched {F : FloatOps} {order : List (Key × Nat) → List (Key × Nat)} {m : Model} (hm : ModelOk m) (hpk : PkNonNull m)
    {s s' : St} {es : List (Ev Stmt Reply)} {o : Sch} {e : Option (Ev Stmt Reply)} (h : Past F m s es)
    (hs : sched F order s o = some (s', e)) (hn : NoAll e.toList) (hf : Fair F m (es ++ e.toList)) :
    Past F m s' (es ++ e.toList) := by
  obtain ⟨w, b⟩ := sched_back h.wf hs hn
  refine ⟨w, fun a' ha => ?_⟩
  obtain ⟨a, h1, h2⟩ := b a' ha
  exact told_run hm hpk h2 (h.told a h1) hn hf

/-- What is known of the rows, and of a statement that did not take effect yet. -/
theorem Past.now {F : FloatOps} {m : Model} {s : St} {es : List (Ev Stmt Reply)} (h : Past F m s es) (hf : Fair F m es) :
    Inv m s.t ∧ ∀ n st, (∀ res, Dml.Par.view s.t res n (s.th n) = .pend st) → StmtOk F m (abs s.t) st := by
  obtain ⟨a, ha⟩ := Sim.exists (F := F) h.wf
  obtain ⟨T, h1, h2, h3, h4⟩ := h.told a ha
  obtain ⟨res, σ, _, rfl⟩ := ha
  refine ⟨inv_of_cont h.wf.model h.wf.twf h1 h2.symm, ?_⟩
  intro n st hv
  rw [← abs_of_cont h2]
  exact hf es [] (by simp) _ h4 n st (hv res)

/-- When nobody has an open statement, there is an explanation that ends with the rows. -/
theorem Past.rest {F : FloatOps} {m : Model} {s : St} {es : List (Ev Stmt Reply)} (h : Past F m s es) (hi : ∀ n, s.th n = .idle) :
    SRun F m fresh es ⟨abs s.t, fun _ => .idle⟩ := by
  obtain ⟨a, ha⟩ := Sim.exists (F := F) h.wf
  obtain ⟨T, h1, h2, h3, h4⟩ := h.told a ha
  obtain ⟨res, σ, _, rfl⟩ := ha
  have : (fun n => Dml.Par.view s.t res n (s.th n)) = fun _ => AThr.idle := by
    funext n; rw [hi n]; rfl
  rw [this, abs_of_cont h2] at h4
  exact h4

/-- A session begins. -/
theorem Past.begin {F : FloatOps} {m : Model} {t : Tbl} (ht : Inv m t) {es : List (Ev Stmt Reply)}
    (h : SRun F m fresh es ⟨abs t, fun _ => .idle⟩) : Past F m (.start t) es := by
  refine ⟨⟨ht.model, Inv.twf ht, ⟨0, fun _ _ => rfl⟩, fun _ => trivial⟩, ?_⟩
  rintro a ⟨res, σ, _, rfl⟩
  exact ⟨t, ht, rfl, fun n fs l => (by simp [St.start, Dml.Par.view]), h⟩

/-! ### The statements that are open -/

theorem prepared {m : Model} (hm : ModelOk m) (hpk : PkNonNull m) {d : InsData} (hd : d.Wf) {k : Key} {c : Cells}
    (h : prepareInsert m d = .ok (k, c)) (ht : StmtTags (.insert d)) : Touches m (.insert d) k ∧ NewRow m k c := by
  rcases Classical.em (InsertOk m.fields d) with ho | ho
  · obtain ⟨v, c', h1, h2, h3, h4, h5⟩ := prepareInsert_ok hm hpk hd ho
    rw [h2] at h
    cases h
    exact ⟨⟨v, h1, rfl⟩, h3, (h5 m.pk).2 (.inr rfl), prepareInsert_tags h2 ht⟩
  · rw [prepareInsert_bad hm hd ho] at h
    cases h

/-- An UPDATE of a row that is there: it succeeds, or leaves the row as it is. -/
theorem updated {F : FloatOps} {m : Model} (hm : ModelOk m) {t : Tbl} (ht : Inv m t) {as : List Asn} {w : Where} {i : Nat} {r : RowObj}
    (hs : StmtOk F m (abs t) (.update as w)) (hw : resolveWhere m w = some r.key) (hi : kget t.idx r.key = some i)
    (hr : t.heap[i]? = some r) :
    (∃ c, rowAct F m (.update as w) (Dml.Par.RowObj.data r) = ((c, r.schema), .empty) ∧ RowOk m.fields m.pk c ∧
      (CTags r.cells → CTags c)) ∨
    (∃ e, rowAct F m (.update as w) (Dml.Par.RowObj.data r) = (Dml.Par.RowObj.data r, .err e)) := by
  have hmod := ht.model
  subst hmod
  obtain ⟨hu, r', g1, g2, g3, g4⟩ := ht.rows _ (kget_mem hi)
  simp only at g1
  rw [hr] at g1
  cases g1
  obtain ⟨hp, hun⟩ := hs r.key (normCells r.cells) (whereKey_iff.1 hw) (by simp [abs, hi, hr])
  have hlt := (List.getElem?_eq_some_iff.1 hr).1
  rcases C32_update_partial (fun k f h => hm.fields.2 _ (Gns.fget_mem h)) hw hi hr g4 hp hun with
    ⟨c, h1, h2, c', h3, h4, h5⟩ | ⟨e, h1, h2, h3⟩
  · cases hl : updLoop F t.model.fields as r.cells [] with
    | done x =>
      simp only [execUpdate, hw, hi, hr, Option.bind_some, Option.map_some, hl] at h3
      have h6 := congrArg (fun u : Tbl => u.heap[i]?) h3
      simp only [Dml.setRow, List.getElem?_set, hlt, if_true, Option.some.injEq, RowObj.mk.injEq, true_and] at h6
      refine .inl ⟨c', ?_, h5, ?_⟩
      · simp only [rowAct, Dml.Par.RowObj.data, hl]; rw [h6.1]
      · intro hc
        have := updLoop_tags (F := F) (fs := t.model.fields) (as := as) (c := r.cells) (rb := []) hc (by simp)
        rw [hl] at this
        rw [← h6.1]
        exact this
    | fail e x rb =>
      simp only [execUpdate, hw, hi, hr, Option.bind_some, Option.map_some, hl] at h2
      cases h2
    | panic x =>
      simp only [execUpdate, hw, hi, hr, Option.bind_some, Option.map_some, hl] at h2
      cases h2
  · cases hl : updLoop F t.model.fields as r.cells [] with
    | done x =>
      simp only [execUpdate, hw, hi, hr, Option.bind_some, Option.map_some, hl] at h2
      cases h2
    | panic x =>
      simp only [execUpdate, hw, hi, hr, Option.bind_some, Option.map_some, hl] at h2
      cases h2
    | fail e' x rb =>
      simp only [execUpdate, hw, hi, hr, Option.bind_some, Option.map_some, hl] at h2 h3
      have h6 := congrArg (fun u : Tbl => u.heap[i]?) h3
      simp only [Dml.setRow, List.getElem?_set, hlt, if_true, hr, Option.some.injEq] at h6
      refine .inr ⟨e', ?_⟩
      have h7 := congrArg RowObj.cells h6
      simp only at h7
      simp only [rowAct, Dml.Par.RowObj.data, hl, h7]

end Verif.Batch.Many
